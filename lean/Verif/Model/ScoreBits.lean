import Verif.Model.SubtractBits

/-!
# P and S_corr of `subtract`, in any arithmetic

The operations of properimage/operations.py:379-415 in the order in which the code does them, as `Model/SubtractBits` does it for D
(`beta=False, shift=False`).
-/

namespace PI

open Complex

/-- The further operations. -/
structure ScArith (F : Type) extends PixArith F where
  /-- `x.real` -/
  realPart : F → F
  /-- the centre of P (operations.py:383-389) -/
  center : Img F → F × F
  /-- `_fftwn(x, s=x.shape)` -/
  fftNo : Img F → Img F

/-- What `subtract` reads of an image. -/
structure PixSc (F : Type) extends PixImg F where
  /-- `data.filled(0)` -/
  filled : Img F

section
variable {F : Type} (A : ScArith F)

/-- `d_zp = b / np.sqrt(ref.var**2 * b**2 + new.var**2)` (operations.py:379). -/
noncomputable def pixDZp (ref new : PixSc F) : F :=
  A.div (A.div new.zp ref.zp) (A.sqrt (A.add (A.mul (A.sq ref.var) (A.sq (A.div new.zp ref.zp))) (A.sq new.var)))

/-- `P_hat = (psf_ref_hat * psf_new_hat * b) / (np.sqrt(norm) * d_zp)` (operations.py:380). -/
noncomputable def pixPHat (ref new : PixSc F) : Img F :=
  ⟨ref.interped.h, ref.interped.w, fun k l =>
    A.div (A.mul (A.mul ((pixPsfHat A.toPixArith ref.toPixImg).px k l) ((pixPsfHat A.toPixArith new.toPixImg).px k l)) (A.div new.zp ref.zp))
      (A.mul (A.sqrt (pixNorm A.toPixArith ref.toPixImg new.toPixImg k l)) (pixDZp A ref new))⟩

/-- `P = _ifftwn(P_hat, norm="ortho").real` (operations.py:382). -/
noncomputable def pixP (ref new : PixSc F) : Img F := (A.ifft (pixPHat A ref new)).map A.realPart

/-- `S_hat = fourier_shift(d_zp * D_hat * P_hat.conj(), (dx_p, dy_p))` (operations.py:391). -/
noncomputable def pixSHat (ref new : PixSc F) : Img F :=
  A.shift ((pixDHat A.toPixArith ref.toPixImg new.toPixImg).zip (fun d p => A.mul (A.mul (pixDZp A ref new) d) (A.conj p)) (pixPHat A ref new))
    (A.center (pixP A ref new))

/-- `kr` (operations.py:393-396). -/
noncomputable def pixKr (ref new : PixSc F) : Img F :=
  A.ifft ⟨ref.interped.h, ref.interped.w, fun k l =>
    A.div (A.mul (A.mul (A.mul (A.mul new.zp (A.conj ((pixPsfHat A.toPixArith ref.toPixImg).px k l))) (A.div new.zp ref.zp))
        ((pixPsfHat A.toPixArith new.toPixImg).px k l)) (A.conj ((pixPsfHat A.toPixArith new.toPixImg).px k l)))
      (pixNorm A.toPixArith ref.toPixImg new.toPixImg k l)⟩

/-- `kn` (operations.py:398-401). -/
noncomputable def pixKn (ref new : PixSc F) : Img F :=
  A.ifft ⟨ref.interped.h, ref.interped.w, fun k l =>
    A.div (A.mul (A.mul (A.mul new.zp (A.conj ((pixPsfHat A.toPixArith new.toPixImg).px k l))) ((pixPsfHat A.toPixArith ref.toPixImg).px k l))
        (A.conj ((pixPsfHat A.toPixArith ref.toPixImg).px k l)))
      (pixNorm A.toPixArith ref.toPixImg new.toPixImg k l)⟩

/-- `V_en` and `V_er` (operations.py:403-413). -/
noncomputable def pixV (filled kern : Img F) : Img F :=
  A.ifft ((A.fft filled.h filled.w (filled.map fun x => A.add x A.one)).zip A.mul (A.fftNo (kern.map A.sq)))

/-- `V_en + V_er` (operations.py:415). -/
noncomputable def pixVar (ref new : PixSc F) (i j : ℕ) : F :=
  A.add ((pixV A new.filled (pixKn A ref new)).px i j) ((pixV A ref.filled (pixKr A ref new)).px i j)

/-- `S_corr.real`, `S_corr = _ifftwn(S_hat, norm="ortho") / np.sqrt(V_en + V_er)` (operations.py:415, 426). -/
noncomputable def pixScore (ref new : PixSc F) (i j : ℕ) : F :=
  A.realPart (A.div ((A.ifft (pixSHat A ref new)).px i j) (A.sqrt (pixVar A ref new i j)))

end

/-- Exact complex numbers; `peak` is the first maximum. -/
noncomputable def exactSc (peak : Img ℝ → ℕ × ℕ) : ScArith ℂ where
  toPixArith := exactPix
  realPart := fun z => (z.re : ℂ)
  center := fun P => (((subCenter peak (P.map re)).1 : ℂ), ((subCenter peak (P.map re)).2 : ℂ))
  fftNo := dft

/-- Every operation is done exactly and its result is rounded. -/
noncomputable def roundSc {rd : ℝ → ℝ} (R : Rounds rd) (peak : Img ℝ → ℕ × ℕ) : ScArith (Machine rd) where
  toPixArith := roundPix R
  realPart := fun z => .of R (z.1.re : ℂ)
  center := fun P => (.of R ((subCenter peak (P.map fun z => z.1.re)).1 : ℂ), .of R ((subCenter peak (P.map fun z => z.1.re)).2 : ℂ))
  fftNo := fun X => (dft (X.map Subtype.val)).map (.of R)

end PI
