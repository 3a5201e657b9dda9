import Mathlib.Data.Real.Basic
import Mathlib.Algebra.BigOperators.Group.Finset.Basic
import Mathlib.Data.Finset.Prod
import Verif.Model.KL

/-!
# Model of the coefficient fields of a variable PSF

properimage/single_image.py:1119-1136: every row of coefficients is fitted with astropy's
`models.Polynomial2D(degree=3)` by `fitting.LinearLSQFitter()`, at the positions of the stamps. What is used
of the fitter is that it minimises the sum of the squared misfits; which of several minimising polynomials it
takes (with too few stars) is left open. Exact arithmetic.
-/

namespace PI

open Finset

/-- The exponents `(i, j)` of the terms `x^i y^j` of `Polynomial2D(degree=3)`: ten terms. -/
def cubicTerms : Finset (ℕ × ℕ) := (range 4 ×ˢ range 4).filter fun m => m.1 + m.2 ≤ 3

/-- The parameters `c_i_j` of a `Polynomial2D(degree=3)`. -/
abbrev Cubic := ℕ × ℕ → ℝ

/-- `fit(x, y)`, as in `a(x, y)` (single_image.py:1209, 1287). -/
def Cubic.at (c : Cubic) (x y : ℝ) : ℝ := ∑ m ∈ cubicTerms, c m * (x ^ m.1 * y ^ m.2)

/-- The position of star `s` in `stamps_pos` (single_image.py:1121-1123). -/
def starPos (pos : List (ℚ × ℚ)) (s : ℕ) : ℝ × ℝ := (((pos.getD s (0, 0)).1 : ℚ), ((pos.getD s (0, 0)).2 : ℚ))

/-- The sum of the squared misfits of `fitter(a_field_model, x, y, z)`. -/
def misfit (pos : List (ℚ × ℚ)) (z : List ℝ) (c : Cubic) : ℝ :=
  ∑ s ∈ range pos.length, (c.at (starPos pos s).1 (starPos pos s).2 - z.getD s 0) ^ 2

/-- The result of the fitter: no other cubic has a smaller sum of squared misfits. -/
def LsqFit (pos : List (ℚ × ℚ)) (z : List ℝ) (c : Cubic) : Prop := ∀ c', misfit pos z c ≤ misfit pos z c'

/-- The contract of the fitter in an environment. -/
def FitsLsq {N S R : Type} (e : KEnv ℝ Cubic N S R) : Prop :=
  ∀ pos z c, e.fit pos z = .ok c → LsqFit pos z c

/-- What basis elements `b` and fields `f` make of pixel `(i, j)` of the PSF at position `(x, y)`:
`Σ_k b_k[i, j] f_k(x, y)` (single_image.py:1428-1436, before the normalisation). -/
def fieldModel (b : List (Img ℝ)) (f : List (Option Cubic)) (i j : ℕ) (x y : ℝ) : ℝ :=
  ∑ k ∈ range b.length, ((b[k]?).elim 0 fun p => p.px i j) * (((f[k]?).join).elim 0 fun c => c.at x y)

end PI
