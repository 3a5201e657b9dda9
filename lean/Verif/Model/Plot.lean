import Verif.Model.Subtract
import Verif.Base.PyS
import Mathlib.Analysis.Real.Sqrt

/-!
# Model of the plots (properimage/plot.py:64-75, 150-316)

Drawing itself is not modelled; a plot is the list of panels it draws. `np.sqrt` is the exact square root
(no rounding error; for `N` below 2⁵⁰ a rounding error cannot change the rounded integers).
-/

namespace PI

/-- The list `divisors` of `primes` (plot.py:66). -/
def properDivisors' (n : ℕ) : List ℕ := (List.range' 2 (n / 2 + 1 - 2)).filter fun d => n % d == 0

/-- The list `prims` of `primes` (plot.py:67-69). -/
def prims (n : ℕ) : List ℕ :=
  (properDivisors' n).filter fun d =>
    ((properDivisors' n).filter fun od => od != d).all fun od => d % od != 0

/-- `primes` (plot.py:64-75) for `n ≥ 0`. -/
def primesPy (n : ℕ) : ℕ :=
  if 4 ≤ (prims n).length then
    (prims n).getD ((prims n).length - 1) 0 * (prims n).getD ((prims n).length - 2) 0
  else if (prims n).length = 0 then n
  else (prims n).foldr max 0

/-- The grid of `autopsf` for `N` elements (plot.py:201-218): the value of `subplots` at the end. -/
noncomputable def autopsfGrid (N : ℕ) : ℤ × ℤ :=
  let p := primesPy N
  if N = 3 then (1, 3)
  else if p = N then (roundReal (Real.sqrt N), roundReal (Real.sqrt N + 1))
  else (((N / p + N % p : ℕ) : ℤ), (p : ℤ))

/-- The grid of `autopsf_coef` for `N` fields (plot.py:268-281): the same final value. -/
noncomputable def coefGrid (N : ℕ) : ℤ × ℤ :=
  let p := primesPy N
  if N = 3 then (1, 3)
  else if p = N then (roundReal (Real.sqrt N), roundReal (Real.sqrt N + 1))
  else (((N / p + N % p : ℕ) : ℤ), (p : ℤ))

/-- The `axs` argument: None, one axes object, or an array (list) of them. -/
inductive AxsArg
  | default
  | single
  | array (size : ℕ)

/-- A panel: the axes it is drawn in, what is drawn, and the contour options if there are contours. -/
structure Panel (α : Type) where
  axis : ℕ
  content : α
  iso : Option String

/-- Number of axes; `fig.subplots(r, c)` raises if a number is not positive. -/
def axesOf (grid : ℤ × ℤ) : AxsArg → Py ℕ
  | .default => if grid.1 ≤ 0 ∨ grid.2 ≤ 0 then .error .ValueError else .ok (grid.1 * grid.2).toNat
  | .single => .ok 1
  | .array n => .ok n

/-- What the message with `len(axs)` raises: a single axes object has no length. -/
def axsErr : AxsArg → PyErr
  | .default => .ValueError
  | .single => .TypeError
  | .array _ => .ValueError

/-- The check `N > np.size(axs)` (plot.py:223-226, 288-291). -/
def checkAxes (N : ℕ) (axs : AxsArg) (size : ℕ) : Py Unit :=
  if size < N then .error (axsErr axs) else .ok ()

/-- Contour options used whatever is given (plot.py:232-233). -/
def fixedIso : String := "colors=black, alpha=0.5"

/-- `autopsf` (plot.py:185-252) of a basis. `ax.contour(arange(rows), arange(columns), p)` raises a
TypeError unless `p` is square (plot.py:249-250). `isoKw` is the user's `iso_kw`. -/
noncomputable def autopsf {K : Type} (basis : List (Img K)) (axs : AxsArg) (iso : Bool)
    (isoKw : Option String) : Py (List (Panel (Img K))) := do
  let size ← axesOf (autopsfGrid basis.length) axs
  checkAxes basis.length axs size
  match basis with
  | [] => .error .IndexError
  | b :: _ =>
    let _ := isoKw.getD ""
    if iso && b.h != b.w then .error .TypeError
    else .ok ((basis.zip (List.range size)).map fun p => ⟨p.2, p.1, if iso then some fixedIso else none⟩)

/-- One panel of `autopsf_coef` (plot.py:298-314): None cannot be called. -/
def coefPanel {F : Type} : Option F × ℕ → Py (Panel F)
  | (some f, k) => .ok ⟨k, f, none⟩
  | (none, _) => .error .TypeError

/-- `autopsf_coef` (plot.py:254-316) of the coefficient fields. -/
noncomputable def autopsfCoef {F : Type} (fields : List (Option F)) (axs : AxsArg) :
    Py (List (Panel F)) :=
  match fields with
  | [none] => .error .NoDataToPlot
  | _ => do
    let size ← axesOf (coefGrid fields.length) axs
    checkAxes fields.length axs size
    (fields.zip (List.range size)).mapM coefPanel

/-- What an attribute of the plot object is. -/
inductive PlotAttr
  | imshow | autopsf | autopsfCoef
  | data
deriving DecidableEq

/-- The public attributes (plot.py:150-166, 171, 185, 254): two data attributes, three methods. -/
def publicAttr (name : String) : Option PlotAttr :=
  if name = "DEFAULT_PLOT" ∨ name = "si" then some .data
  else if name = "imshow" then some .imshow
  else if name = "autopsf" then some .autopsf
  else if name = "autopsf_coef" then some .autopsfCoef
  else none

/-- `name.startswith("_")` -/
def isPrivate (name : String) : Bool := name.toList.head? == some '_'

/-- `getattr(self, name)`: private and special names are whatever the class has. -/
def plotAttr (special : String → Option PlotAttr) (name : String) : Option PlotAttr :=
  if isPrivate name then special name else publicAttr name

/-- `Plot.__call__` (plot.py:160-169): the method that is run. -/
def plotCall (special : String → Option PlotAttr) (plot : Option String) : Py PlotAttr :=
  if (match plot with
      | some p => isPrivate p || (plotAttr special p).isNone
      | none => false) then .error .ValueError
  else
    let name := match plot with
      | some p => if p = "" then "imshow" else p
      | none => "imshow"
    match plotAttr special name with
    | none => .error .AttributeError
    | some .data => .error .ValueError
    | some m => .ok m

end PI
