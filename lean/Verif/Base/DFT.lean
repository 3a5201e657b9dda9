import Verif.Base.Img
import Mathlib.Analysis.SpecialFunctions.Complex.Circle
import Mathlib.Analysis.SpecialFunctions.Pow.Complex
import Mathlib.Algebra.BigOperators.Fin

/-!
# Discrete Fourier transforms as used by the code

Models of `numpy.fft.fft2/ifft2` (or pyfftw's `fftn/ifftn`) and `scipy.ndimage.fourier_shift`, over
the reals/complexes. Not a file of `/repo`. Rounding is not modelled.
-/

namespace PI

open Complex Finset

/-- `exp(-2πi t / n)`. -/
noncomputable def tw (n : ℕ) (t : ℝ) : ℂ := Complex.exp (((-(2 * Real.pi * t / n) : ℝ) : ℂ) * I)

/-- `fft2(x)` without normalisation. -/
noncomputable def dft (x : Img ℂ) : Img ℂ :=
  ⟨x.h, x.w, fun k l => ∑ i ∈ range x.h, ∑ j ∈ range x.w,
    x.px i j * (tw x.h ((k : ℝ) * i) * tw x.w ((l : ℝ) * j))⟩

/-- `ifft2(X)` without its `1/(h w)` factor. -/
noncomputable def idftSum (X : Img ℂ) : Img ℂ :=
  ⟨X.h, X.w, fun i j => ∑ k ∈ range X.h, ∑ l ∈ range X.w,
    X.px k l * (tw X.h (-((k : ℝ) * i)) * tw X.w (-((l : ℝ) * j)))⟩

/-- `_fftwn(x, norm="ortho")`. -/
noncomputable def fftOrtho (x : Img ℂ) : Img ℂ :=
  (dft x).map fun z => z / (Real.sqrt ((x.h * x.w : ℕ) : ℝ) : ℂ)

/-- `_ifftwn(X, norm="ortho")`. -/
noncomputable def ifftOrtho (X : Img ℂ) : Img ℂ :=
  (idftSum X).map fun z => z / (Real.sqrt ((X.h * X.w : ℕ) : ℝ) : ℂ)

/-- `_ifftwn(X)` (default normalisation). -/
noncomputable def ifftDefault (X : Img ℂ) : Img ℂ :=
  (idftSum X).map fun z => z / ((X.h * X.w : ℕ) : ℂ)

/-- The zero-padding / cropping done by `fftn(x, s=shape)`. -/
def padTo (h w : ℕ) (x : Img ℂ) : Img ℂ :=
  ⟨h, w, fun i j => if i < x.h ∧ j < x.w then x.px i j else 0⟩

/-- The signed frequency scipy uses on an axis of length `n`. -/
def sfreq (n k : ℕ) : ℤ := if k < (n + 1) / 2 then k else (k : ℤ) - n

/-- The phase `scipy.ndimage.fourier_shift` multiplies coefficient `(k, l)` with. -/
noncomputable def shiftPhase (h w : ℕ) (d : ℝ × ℝ) (k l : ℕ) : ℂ :=
  tw h ((sfreq h k : ℝ) * d.1) * tw w ((sfreq w l : ℝ) * d.2)

/-- `scipy.ndimage.fourier_shift(X, (dx, dy))` for a complex array. -/
noncomputable def fourierShift (X : Img ℂ) (d : ℝ × ℝ) : Img ℂ :=
  ⟨X.h, X.w, fun k l => X.px k l * shiftPhase X.h X.w d k l⟩

/-- `np.sum(x)` -/
noncomputable def imSum (x : Img ℂ) : ℂ := ∑ i ∈ range x.h, ∑ j ∈ range x.w, x.px i j

/-- `np.sqrt` on complex input (principal branch). -/
noncomputable def csqrt (z : ℂ) : ℂ := z ^ ((1 : ℂ) / 2)

end PI
