import Verif.Model.Subtract

/-!
# The difference image of `subtract`, in any arithmetic

The operations that lead to D in properimage/operations.py, in the order in which the code does them, over numbers of which nothing is
known. `exactPix` are the complex numbers of the rest of the model; `roundPix` are numbers that are rounded after every operation.
Scalars (noise, zero points, centres) are numbers of the same kind as the pixels: numpy makes them so when it combines them with an
array. Only `beta=False, shift=False` is modelled here.
-/

namespace PI

open Complex

/-- The operations on numbers and arrays that `subtract` uses. -/
structure PixArith (F : Type) where
  zero : F
  one : F
  /-- `eps` -/
  eps : F
  neg : F → F
  conj : F → F
  sqrt : F → F
  /-- `x**2` -/
  sq : F → F
  add : F → F → F
  sub : F → F → F
  mul : F → F → F
  div : F → F → F
  /-- `x.real == 0` -/
  noReal : F → Prop
  /-- `center_of_mass` -/
  com : Img F → F × F
  /-- `_fftwn(x, s=(h, w), norm="ortho")` -/
  fft : ℕ → ℕ → Img F → Img F
  /-- `_ifftwn(x, norm="ortho")` -/
  ifft : Img F → Img F
  /-- `fourier_shift` -/
  shift : Img F → F × F → Img F

/-- What `subtract` reads of an image. -/
structure PixImg (F : Type) where
  interped : Img F
  psf : Img F
  var : F
  zp : F

section
variable {F : Type} (A : PixArith F)

open Classical in
/-- `psf_hat` after the guard (operations.py:188-192). -/
noncomputable def pixPsfHat (d : PixImg F) : Img F :=
  (A.fft d.interped.h d.interped.w d.psf).map fun z => if A.noReal z then A.eps else z

/-- `D_hat_r` and, with the images exchanged, `D_hat_n` (operations.py:197-198): the transform of `im` times the PSF of `other`. -/
noncomputable def pixFiltered (im other : PixImg F) : Img F :=
  A.shift ((pixPsfHat A other).zip A.mul (A.fft im.interped.h im.interped.w im.interped))
    (A.neg (A.com other.psf).1, A.neg (A.com other.psf).2)

/-- `norm_b` and, with the images exchanged, `norm_a` (operations.py:200-201): `im.var**2 * psf_hat * psf_hat_conj`. -/
noncomputable def pixNoise (im other : PixImg F) (k l : ℕ) : F :=
  A.mul (A.mul (A.sq im.var) ((pixPsfHat A other).px k l)) (A.conj ((pixPsfHat A other).px k l))

/-- `norm = norm_a + norm_b * b**2` (operations.py:366). -/
noncomputable def pixNorm (ref new : PixImg F) (k l : ℕ) : F :=
  A.add (pixNoise A new ref k l) (A.mul (pixNoise A ref new k l) (A.sq (A.div new.zp ref.zp)))

/-- `D_hat = (D_hat_n - b * D_hat_r) / np.sqrt(norm)` (operations.py:207, 366-369). -/
noncomputable def pixDHat (ref new : PixImg F) : Img F :=
  ⟨ref.interped.h, ref.interped.w, fun k l =>
    A.div (A.sub ((pixFiltered A new ref).px k l) (A.mul (A.div new.zp ref.zp) ((pixFiltered A ref new).px k l)))
      (A.sqrt (pixNorm A ref new k l))⟩

/-- `D = _ifftwn(D_hat, norm="ortho")` (operations.py:375). -/
noncomputable def pixDiff (ref new : PixImg F) : Img F := A.ifft (pixDHat A ref new)

end

/-- Exact complex numbers. -/
noncomputable def exactPix : PixArith ℂ where
  zero := 0
  one := 1
  eps := (epsR : ℂ)
  neg := fun x => -x
  conj := starRingEnd ℂ
  sqrt := csqrt
  sq := fun x => x ^ 2
  add := (· + ·)
  sub := (· - ·)
  mul := (· * ·)
  div := (· / ·)
  noReal := fun z => z.re = 0
  com := fun x => (((centerOfMass (x.map re)).1 : ℂ), ((centerOfMass (x.map re)).2 : ℂ))
  fft := fun h w x => fftOrtho (padTo h w x)
  ifft := ifftOrtho
  shift := fun X c => fourierShift X (c.1.re, c.2.re)

/-- What a rounding function of floating-point numbers without a smallest or largest exponent has to be. -/
structure Rounds (rd : ℝ → ℝ) : Prop where
  again : ∀ x, rd (rd x) = rd x
  one : rd 1 = 1
  odd : ∀ x, rd (-x) = -rd x
  double : ∀ x, rd (2 * x) = 2 * rd x

/-- Real and imaginary part rounded. -/
def rdC (rd : ℝ → ℝ) (z : ℂ) : ℂ := ⟨rd z.re, rd z.im⟩

/-- The numbers that rounding leaves alone. -/
def Machine (rd : ℝ → ℝ) : Type := {z : ℂ // rdC rd z = z}

variable {rd : ℝ → ℝ}

theorem rdC_again (R : Rounds rd) (z : ℂ) : rdC rd (rdC rd z) = rdC rd z := by
  unfold rdC
  simp [R.again]

theorem rdC_neg (R : Rounds rd) (z : ℂ) : rdC rd (-z) = -rdC rd z := by
  unfold rdC
  apply Complex.ext <;> simp [R.odd]

theorem rdC_double (R : Rounds rd) (z : ℂ) : rdC rd (2 * z) = 2 * rdC rd z := by
  unfold rdC
  apply Complex.ext <;> simp [R.double]

theorem Rounds.zero (R : Rounds rd) : rd 0 = 0 := by
  have := R.odd 0
  rw [neg_zero] at this
  linarith

theorem rdC_zero (R : Rounds rd) : rdC rd 0 = 0 := by
  unfold rdC
  apply Complex.ext <;> simp [R.zero]

theorem rdC_one (R : Rounds rd) : rdC rd 1 = 1 := by
  unfold rdC
  apply Complex.ext <;> simp [R.zero, R.one]

/-- Round. -/
def Machine.of (R : Rounds rd) (z : ℂ) : Machine rd := ⟨rdC rd z, rdC_again R z⟩

/-- Every operation is done exactly and its result is rounded. -/
noncomputable def roundPix (R : Rounds rd) : PixArith (Machine rd) where
  zero := .of R 0
  one := .of R 1
  eps := .of R (epsR : ℂ)
  neg := fun x => .of R (-x.1)
  conj := fun x => .of R ((starRingEnd ℂ) x.1)
  sqrt := fun x => .of R (csqrt x.1)
  sq := fun x => .of R (x.1 ^ 2)
  add := fun x y => .of R (x.1 + y.1)
  sub := fun x y => .of R (x.1 - y.1)
  mul := fun x y => .of R (x.1 * y.1)
  div := fun x y => .of R (x.1 / y.1)
  noReal := fun z => z.1.re = 0
  com := fun x => (.of R ((centerOfMass (x.map fun z => z.1.re)).1 : ℂ), .of R ((centerOfMass (x.map fun z => z.1.re)).2 : ℂ))
  fft := fun h w x => (fftOrtho (padTo h w (x.map Subtype.val))).map (.of R)
  ifft := fun X => (ifftOrtho (X.map Subtype.val)).map (.of R)
  shift := fun X c => (fourierShift (X.map Subtype.val) (c.1.1.re, c.2.1.re)).map (.of R)

end PI
