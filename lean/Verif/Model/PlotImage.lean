import Verif.Base.Img
import Verif.Base.PyS
import Verif.Model.GaussPsf
import Mathlib.Analysis.SpecialFunctions.Log.Base
import Mathlib.Data.Complex.Basic

/-!
# Model of `plot_S` and `plot_R` (properimage/plot.py:78-147)

What is drawn is modelled, the drawing is not: an `imshow` is the array it is given and its two colour
limits. Pixel arithmetic is exact and pixel values are finite. `plt` is the list of open figures, the
current one first, each with the images drawn in its current axes; `plt.show` does not change it (true of
backends that do not wait for the user), and saving to a file is not modelled.
-/

namespace PI

/-- The element type of the array passed in. A `complex128` element is a python `complex`, a `complex64`
element is not. -/
inductive PixType
  | float
  | complex64
  | complex128
  deriving DecidableEq

/-- An array: its element type, the values, and for a masked array the mask and the fill value. -/
structure PlotArr where
  type : PixType
  img : Img ℂ
  masked : Option ((ℕ → ℕ → Bool) × ℂ)

/-- The pixel is masked. -/
def PlotArr.isMasked (a : PlotArr) (y x : ℕ) : Bool :=
  match a.masked with
  | none => false
  | some (m, _) => m y x

/-- `a.filled()`, pixel by pixel (the array itself when it is not a masked array). -/
def PlotArr.filledAt (a : PlotArr) (y x : ℕ) : ℂ :=
  match a.masked with
  | none => a.img.px y x
  | some (m, f) => if m y x then f else a.img.px y x

/-- An image drawn by `imshow`: for each pixel its value, `none` for NaN and infinities, which are left
blank; and the colour limits given, if any. -/
structure Drawing where
  h : ℕ
  w : ℕ
  px : ℕ → ℕ → Option ℝ
  limits : Option (ℝ × ℝ)

/-- The open figures, the current one first, each with the drawings of its current axes. -/
abbrev Figures := List (List Drawing)

/-- `plt.imshow`: draws in the current axes, which are created if there are none. -/
def showIn (d : Drawing) : Figures → Figures
  | [] => [[d]]
  | f :: fs => (d :: f) :: fs

/-- `plt.close()`: closes the current figure. -/
def closeCurrent : Figures → Figures
  | [] => []
  | _ :: fs => fs

/-- `plt.gca()`: the current axes (their drawings), created if there are none. -/
def currentAxes : Figures → List Drawing × Figures
  | [] => ([], [[]])
  | f :: fs => (f, f :: fs)

/-- All pixels in order. -/
def PlotArr.filledReals (a : PlotArr) : List ℝ :=
  (Img.indices a.img.h a.img.w).map fun p => (a.filledAt p.1 p.2).re

/-- `sigma_clipped_stats(l)[1]`: the median of the values left after clipping. -/
noncomputable def clippedMedian (l : List ℝ) : ℝ := rMedian (clipN 3 5 l)

/-- `sigma_clipped_stats(l)[2]`: the standard deviation of the values left after clipping. -/
noncomputable def clippedStd (l : List ℝ) : ℝ := rStd (clipN 3 5 l)

/-- The image drawn by `plot_S` for an array of floats (plot.py:94-103). -/
noncomputable def drawS (a : PlotArr) : Drawing :=
  let med := clippedMedian a.filledReals
  let std := clippedStd a.filledReals
  { h := a.img.h
    w := a.img.w
    px := fun y x => some (a.filledAt y x).re
    limits := some (med - 4 * std, med + 4 * std) }

/-- `plot_S(S, path, nbook)` for an array of floats (plot.py:78-112): the drawings of the axes it returns,
and the open figures. -/
noncomputable def plotS (a : PlotArr) (nbook : Bool) : PyS Figures (List Drawing) := fun figs =>
  let figs := showIn (drawS a) figs
  let figs := if nbook then figs else closeCurrent figs
  let r := currentAxes figs
  (.ok r.1, r.2)

/-- `np.log10` of a pixel as `imshow` draws it. -/
noncomputable def log10Px (v : ℝ) : Option ℝ := if 0 < v then some (Real.logb 10 v) else none

/-- `R.real` if `R[0, 0]` is a python complex number (plot.py:132-133): not if it is masked, since the
element is then the constant `masked`. The real part of a masked array keeps the mask and has the default
fill value of its type, `1e20`. -/
def realIfComplex (a : PlotArr) : PlotArr :=
  if a.type = .complex128 ∧ a.isMasked 0 0 = false then
    { type := .float
      img := { h := a.img.h, w := a.img.w, px := fun y x => ((a.img.px y x).re : ℂ) }
      masked := a.masked.map fun m => (m.1, ((10 ^ 20 : ℝ) : ℂ)) }
  else a

/-- `plot_R(R, path, nbook)` (plot.py:115-147). An empty array has no element `[0, 0]`; `imshow` does not
accept an array of complex numbers; by then the figure has been created. -/
noncomputable def plotR (a : PlotArr) (nbook : Bool) : PyS Figures Unit := fun figs =>
  if a.img.h = 0 ∨ a.img.w = 0 then (.error .IndexError, figs)
  else
    let b := realIfComplex a
    if b.type = .float then
      let d : Drawing :=
        { h := b.img.h
          w := b.img.w
          px := fun y x => log10Px (b.filledAt y x).re
          limits := none }
      let figs := showIn d figs
      (.ok (), if nbook then figs else closeCurrent figs)
    else (.error .TypeError, if figs = [] then [[]] else figs)

end PI
