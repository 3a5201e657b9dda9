import Verif.Base.Img
import Mathlib.Analysis.Real.Sqrt
import Mathlib.Data.List.Sort
import Mathlib.Analysis.SpecialFunctions.Trigonometric.Basic

/-!
# Model of the Gaussian PSF (properimage/single_image.py:1469-1507, operations.py:161-178)

`SingleImageGaussPSF.get_variable_psf` and the rendering done by `subtract`. The fitter is a
parameter: its output, one record of parameters per source, is the input here. Exact real arithmetic.
`astropy.stats.sigma_clipped_stats` and `astropy`'s `Gaussian2D` are modelled after their sources.
-/

namespace PI

/-- `np.mean(l)` -/
noncomputable def rMean (l : List ℝ) : ℝ := l.sum / l.length

/-- `np.std(l) ** 2` -/
noncomputable def rVar (l : List ℝ) : ℝ := (l.map fun x => (x - rMean l) ^ 2).sum / l.length

/-- `np.std(l)` -/
noncomputable def rStd (l : List ℝ) : ℝ := Real.sqrt (rVar l)

open Classical in
/-- Sorted in increasing order. -/
noncomputable def sortR (l : List ℝ) : List ℝ := l.insertionSort (· ≤ ·)

/-- `np.median(l)` (0 for an empty list, which is never used). -/
noncomputable def rMedian (l : List ℝ) : ℝ :=
  let s := sortR l
  let n := s.length
  if n % 2 = 1 then s.getD (n / 2) 0 else (s.getD (n / 2 - 1) 0 + s.getD (n / 2) 0) / 2

open Classical in
/-- One iteration of `sigma_clip(l, sigma=s)`: what is further than `s` standard deviations from the
median goes. -/
noncomputable def clipStep (s : ℝ) (l : List ℝ) : List ℝ :=
  l.filter fun x => decide (¬ x < rMedian l - s * rStd l ∧ ¬ rMedian l + s * rStd l < x)

/-- `n` iterations (an iteration that removes nothing is repeated without effect). -/
noncomputable def clipN (s : ℝ) : ℕ → List ℝ → List ℝ
  | 0, l => l
  | n + 1, l => clipN s n (clipStep s l)

/-- `sigma_clipped_stats(l)[0]` with its defaults `sigma=3`, `maxiters=5`. -/
noncomputable def clippedMean (l : List ℝ) : ℝ := rMean (clipN 3 5 l)

/-- What the fit of one source returns: `fit_gaussian2d(...)` (utils.py:395-412), without the
position. -/
structure StarFit where
  sx : ℝ
  sy : ℝ
  theta : ℝ
  amp : ℝ
  back : ℝ

/-- The parameters of the model PSF; its amplitude is 1. -/
structure Gauss where
  sx : ℝ
  sy : ℝ
  theta : ℝ

/-- single_image.py:1476-1506: `mean_model`. `inf_loss` and `shape` are arguments that nothing reads. -/
noncomputable def meanModel (_infLoss : Option ℝ) (fits : List StarFit) : Gauss :=
  ⟨clippedMean (fits.map (·.sx)), clippedMean (fits.map (·.sy)), clippedMean (fits.map (·.theta))⟩

/-- `astropy.modeling.models.Gaussian2D.evaluate(x, y, ...)`. -/
noncomputable def gaussVal (amp x0 y0 : ℝ) (g : Gauss) (x y : ℝ) : ℝ :=
  let cost2 := Real.cos g.theta ^ 2
  let sint2 := Real.sin g.theta ^ 2
  let sin2t := Real.sin (2 * g.theta)
  let xstd2 := g.sx ^ 2
  let ystd2 := g.sy ^ 2
  let xdiff := x - x0
  let ydiff := y - y0
  let a := 0.5 * ((cost2 / xstd2) + (sint2 / ystd2))
  let b := 0.5 * ((sin2t / xstd2) - (sin2t / ystd2))
  let c := 0.5 * ((sint2 / xstd2) + (cost2 / ystd2))
  amp * Real.exp (-((a * xdiff ^ 2) + (b * xdiff * ydiff) + (c * ydiff ^ 2)))

/-- operations.py:166-175: the PSF image used by `subtract`. `x_mean` is set to half the number of
*rows* and `y_mean` to half the number of columns, but `render` takes `x` along the columns. -/
noncomputable def renderPsf (g : Gauss) (h w : ℕ) : Img ℝ :=
  ⟨h, w, fun i j => gaussVal 1 ((h : ℝ) / 2) ((w : ℝ) / 2) g j i⟩

end PI
