import Verif.Model.GaussPsf
import Verif.Model.SimImage

/-!
# Model of `fit_gaussian2d` (properimage/utils.py:395-412)

The fitter (`LevMarLSQFitter` or what the caller passes) is a parameter that maps the model it starts
from and the pixels to a model. Pixels are exact reals; an array with NaN or infinite pixels, on which
astropy's fitter raises, is not modelled.
-/

namespace PI

/-- The model that is fitted: `Gaussian2D + Const2D`. -/
structure GaussFit where
  amp : ℝ
  x0 : ℝ
  y0 : ℝ
  g : Gauss
  back : ℝ

/-- Its value at column `x` and row `y`. -/
noncomputable def GaussFit.val (p : GaussFit) (x y : ℝ) : ℝ := gaussVal p.amp p.x0 p.y0 p.g x y + p.back

/-- `arr.min()` -/
noncomputable def npMin (a : Img ℝ) : Py ℝ :=
  if h : (Finset.range a.h ×ˢ Finset.range a.w).Nonempty then
    .ok ((Finset.range a.h ×ˢ Finset.range a.w).inf' h fun p => a.px p.1 p.2)
  else .error .ValueError

/-- What the fitter minimises: `y2, x2 = np.mgrid[...]`, so that `x` counts columns (utils.py:399, 411). -/
noncomputable def fitCost (p : GaussFit) (a : Img ℝ) : ℝ :=
  ∑ i ∈ Finset.range a.h, ∑ j ∈ Finset.range a.w, (p.val j i - a.px i j) ^ 2

/-- `fit_gaussian2d(arr, fitter)` (utils.py:395-412). -/
noncomputable def fitGaussian2d (fit : GaussFit → Img ℝ → GaussFit) (a : Img ℝ) : Py GaussFit := do
  let mx ← npMax a
  let mn ← npMin a
  pure (fit ⟨mx - mn, (a.w : ℝ) / 2, (a.h : ℝ) / 2, ⟨1, 1, Real.pi / 4⟩, mn⟩ a)

/-- The part of the result that `get_variable_psf` collects (single_image.py:1484-1492). -/
def GaussFit.star (p : GaussFit) : StarFit := ⟨p.g.sx, p.g.sy, p.g.theta, p.amp, p.back⟩

end PI
