import Verif.Model.Plot
import Verif.Model.PlotImage

/-!
# Model of the options of the plots and of `imshow` (properimage/plot.py:173-183, 228-252, 293-316)

A dictionary of options is a list of its items in order; no key is twice. Which options matplotlib accepts is not modelled:
each call is recorded with the options it is given.
-/

namespace PI

/-- A value of an option. -/
inductive OptVal
  | num (r : ℝ)
  | str (s : String)

/-- A dictionary of options. -/
abbrev Opts := List (String × OptVal)

/-- `d.get(k)` -/
def Opts.get (d : Opts) (k : String) : Option OptVal := (d.find? fun e => e.1 == k).map (·.2)

/-- `d.setdefault(k, v)`: `d` afterwards. -/
def Opts.setDefault (d : Opts) (k : String) (v : OptVal) : Opts :=
  if (d.get k).isSome then d else d ++ [(k, v)]

/-- `d or {}`: an empty dictionary counts as false, and then a new one is used. -/
def kwOr : Option Opts → Opts
  | some d => d
  | none => []

/-- What the caller's dictionary is after its options were completed by `f`: `d or {}` is the caller's own object exactly if
`d` is not empty. -/
def kwAfter (f : Opts → Opts) : Option Opts → Option Opts
  | some [] => some []
  | some d => some (f d)
  | none => none

/-- `cmap_kw` of `autopsf` (plot.py:235-236). -/
noncomputable def psfBarOpts (d : Opts) : Opts := d.setDefault "shrink" (.num (85 / 100))

/-- `cmap_kw` of `autopsf_coef` (plot.py:293-295). -/
noncomputable def coefBarOpts (d : Opts) : Opts := (d.setDefault "shrink" (.num (75 / 100))).setDefault "aspect" (.num 30)

/-- The options of `ax.imshow` in `autopsf` (plot.py:230, 242). -/
def psfShowOpts (kwargs : Opts) : Opts := kwargs.setDefault "interpolation" (.str "none")

/-- The options of `ax.imshow` in `autopsf_coef` for a coefficient field with the given values (plot.py:304-308); they are
made from a copy of `kwargs` for each panel. -/
noncomputable def coefShowOpts (kwargs : Opts) (values : List ℝ) : Opts :=
  (kwargs.setDefault "vmax" (.num (clippedMedian values + 2 * clippedStd values))).setDefault "vmin"
    (.num (clippedMedian values - 2 * clippedStd values))

/-- An element of the list of PSFs: an array, or the astropy model that is the second element of the list for a
`SingleImageGaussPSF` (single_image.py:1507). -/
inductive PsfElem (K : Type)
  | image (a : Img K)
  | model

/-- The loop of `autopsf` (plot.py:239-250): what is drawn in the axes `k`, `k + 1`, … until the end or an exception.
`imshow` refuses a model; `contour` refuses coordinates that do not fit the array, which is drawn by then. `sh` is the shape
of the first array. -/
def drawPsfs {K : Type} (iso : Bool) (sh : ℕ × ℕ) : ℕ → List (PsfElem K) → List (Panel (Img K)) × Py Unit
  | _, [] => ([], .ok ())
  | _, .model :: _ => ([], .error .TypeError)
  | k, .image a :: l =>
    if iso then
      if a.w = sh.1 ∧ a.h = sh.2 then
        let r := drawPsfs iso sh (k + 1) l
        (⟨k, a, some fixedIso⟩ :: r.1, r.2)
      else ([⟨k, a, none⟩], .error .TypeError)
    else
      let r := drawPsfs iso sh (k + 1) l
      (⟨k, a, none⟩ :: r.1, r.2)

/-- `autopsf` (plot.py:185-252) of a list of PSFs: what has been drawn when it returns or raises. A model has no shape. -/
noncomputable def autopsfDrawn {K : Type} (psfs : List (PsfElem K)) (axs : AxsArg) (iso : Bool) :
    List (Panel (Img K)) × Py Unit :=
  match axesOf (autopsfGrid psfs.length) axs with
  | .error e => ([], .error e)
  | .ok size =>
    match checkAxes psfs.length axs size with
    | .error e => ([], .error e)
    | .ok _ =>
      match psfs with
      | [] => ([], .error .IndexError)
      | .model :: _ => ([], .error .AttributeError)
      | .image b :: _ => drawPsfs iso (b.h, b.w) 0 psfs

/-- A call of `ax.imshow` by `Plot.imshow`: the drawing, its options and the title. -/
structure Shown where
  drawing : Drawing
  opts : Opts
  title : String

/-- `Plot.imshow` (plot.py:173-183) for pixels `data` and a mask: what is drawn, and the size that the current figure gets
(only if no axes are given). Masked pixels are left blank. -/
def plotImshow (data : Img ℝ) (mask : NMask) (axGiven : Bool) (kwargs : Opts) : Shown × Option (ℕ × ℕ) :=
  ({ drawing := ⟨data.h, data.w, fun y x => if mask.marks y x then none else some (data.px y x), none⟩
     opts := kwargs.setDefault "origin" (.str "lower")
     title := "SingleImage (" ++ toString data.h ++ ", " ++ toString data.w ++ ")" },
   if axGiven then none else some (4, 4))

end PI
