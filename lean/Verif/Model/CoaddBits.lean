import Verif.Model.SubtractBits
import Verif.Model.Coadd

/-!
# `coadd`, in any arithmetic

The operations that lead to R and P_r in properimage/operations.py and properimage/single_image.py, in the order in which the code does
them, over numbers of which nothing is known (see `Model/SubtractBits`). Simplifications: all images have one shape, every image has a
single PSF, and the division of the images into chunks is given.
-/

namespace PI

open Complex

/-- The operations on numbers and arrays that `coadd` uses. -/
structure CoArith (F : Type) extends PixArith F where
  /-- `_ifftwn(x)` -/
  ifftD : Img F → Img F
  /-- `np.sum` -/
  total : Img F → F
  /-- a whole number -/
  nat : ℕ → F

/-- What `coadd` reads of an image. -/
structure PixCo (F : Type) where
  interped : Img F
  psf : Img F
  com : F × F
  zp : F
  var : F

section
variable {F : Type} (A : CoArith F)

/-- `_fftwn(psf, s=self.data.shape, norm="ortho")` (single_image.py:1273-1276, 1393). -/
def coPsfHat (d : PixCo F) : Img F := A.fft d.interped.h d.interped.w d.psf

/-- `s_hat_comp`: `(zp/var**2) * fourier_shift(interped_hat * psf_hat.conj(), com)` (single_image.py:1273-1281, 1293). -/
def coComp (d : PixCo F) : Img F :=
  (A.shift ((A.fft d.interped.h d.interped.w d.interped).zip (fun m p => A.mul m (A.conj p)) (coPsfHat A d)) d.com).map
    (A.mul (A.div d.zp (A.sq d.var)))

/-- `((zp / var) ** 2) * psf_hat_sqnorm()` (operations.py:449, 553; single_image.py:1393-1394). Where `psf_hat_sqnorm` adds the one term to an
array of zeros (single_image.py:1396-1401) it is the same term. -/
def coWt (d : PixCo F) : Img F :=
  (coPsfHat A d).map fun p => A.mul (A.sq (A.div d.zp d.var)) (A.mul p (A.conj p))

/-- `np.zeros` and then `np.add(x, S, out=S)` for every `x` (operations.py:441-453, 523-532, 544-556). -/
def coLoop (h w : ℕ) (xs : List (Img F)) : Img F :=
  xs.foldl (fun S x => ⟨h, w, fun k l => A.add (x.px k l) (S.px k l)⟩) ⟨h, w, fun _ _ => A.zero⟩

/-- The sum over the images, in one loop (operations.py:544-557). -/
def coSeq (h w : ℕ) (f : PixCo F → Img F) (imgs : List (PixCo F)) : Img F := coLoop A h w (imgs.map f)

/-- The sum over the images, in one loop for every chunk and one over the chunks (operations.py:440-454, 507-533). -/
def coPar (h w : ℕ) (f : PixCo F → Img F) (chunks : List (List (PixCo F))) : Img F :=
  coLoop A h w (chunks.map (coSeq A h w f))

/-- `P_r`, not yet divided by its sum (operations.py:536-537, 565-566). -/
def coRaw (ps : ℕ) (P : Img F) : Img F := A.ifftD (A.shift (P.map A.sqrt) (A.nat ps, A.nat ps))

/-- R and P_r (operations.py:536-539, 565-568). -/
def coOut (ps : ℕ) (S P : Img F) : Img F × Img F :=
  (A.ifftD (S.zip (fun s p => A.div s (A.sqrt p)) P), (coRaw A ps P).map fun z => A.div z (A.total (coRaw A ps P)))

/-- R and P_r with one process. -/
def coOne (h w ps : ℕ) (imgs : List (PixCo F)) : Img F × Img F :=
  coOut A ps (coSeq A h w (coComp A) imgs) (coSeq A h w (coWt A) imgs)

/-- R and P_r with several processes. -/
def coMany (h w ps : ℕ) (chunks : List (List (PixCo F))) : Img F × Img F :=
  coOut A ps (coPar A h w (coComp A) chunks) (coPar A h w (coWt A) chunks)

end

/-- Exact complex numbers. -/
noncomputable def exactCo : CoArith ℂ where
  toPixArith := exactPix
  ifftD := ifftDefault
  total := imSum
  nat := fun n => ((n : ℝ) : ℂ)

/-- Every operation is done exactly and its result is rounded. -/
noncomputable def roundCo {rd : ℝ → ℝ} (R : Rounds rd) : CoArith (Machine rd) where
  toPixArith := roundPix R
  ifftD := fun X => (ifftDefault (X.map Subtype.val)).map (.of R)
  total := fun X => .of R (imSum (X.map Subtype.val))
  nat := fun n => .of R ((n : ℝ) : ℂ)

end PI
