import Verif.Model.CoaddBits
import Verif.Model.VarPsf

/-!
# `coadd` of images with a variable PSF, in any arithmetic

`s_hat_comp`, `normal_image` and `psf_hat_sqnorm` with coefficient fields (properimage/single_image.py:1194-1212, 1282-1293, 1389-1404), in
the order in which the code does the operations, over numbers of which nothing is known (see `Model/CoaddBits`). Simplifications: all images
have one shape, and the division of the images into chunks is given; `conv += x` is written like `np.add(x, conv, out=conv)`, which adds
the same two numbers.
-/

namespace PI

open Complex

/-- The operations, with `scipy.ndimage.convolve`. -/
structure VaArith (F : Type) extends CoArith F where
  conv : Img F → Img F → Img F

/-- A coefficient field `a(x, y)` and the PSF it belongs to. -/
structure PixTerm (F : Type) where
  field : Img F
  psf : Img F

/-- What `coadd` reads of an image. -/
structure PixVarCo (F : Type) where
  interped : Img F
  terms : List (PixTerm F)
  com : F × F
  zp : F
  var : F

section
variable {F : Type} (A : VaArith F)

/-- `normal_image` (single_image.py:1206-1211). -/
def vaNormal (d : PixVarCo F) : Img F :=
  coLoop A.toCoArith d.interped.h d.interped.w (d.terms.map fun t => A.conv t.field t.psf)

/-- `_fftwn(psf, s=im_shape, norm="ortho")` (single_image.py:1288, 1398). -/
def vaPsfHat (d : PixVarCo F) (t : PixTerm F) : Img F := A.fft d.interped.h d.interped.w t.psf

/-- `self.interped * a(x, y) / nrm` (single_image.py:1287). -/
def vaWeighted (d : PixVarCo F) (t : PixTerm F) : Img F :=
  ⟨d.interped.h, d.interped.w, fun i j => A.div (A.mul (d.interped.px i j) (t.field.px i j)) ((vaNormal A d).px i j)⟩

/-- `conv` (single_image.py:1286-1290). -/
def vaConv (d : PixVarCo F) (t : PixTerm F) : Img F :=
  A.shift ((A.fft d.interped.h d.interped.w (vaWeighted A d t)).zip (fun m p => A.mul m (A.conj p)) (vaPsfHat A d t)) d.com

/-- `s_hat_comp` (single_image.py:1282-1293). -/
def vaComp (d : PixVarCo F) : Img F :=
  (coLoop A.toCoArith d.interped.h d.interped.w (d.terms.map (vaConv A d))).map (A.mul (A.div d.zp (A.sq d.var)))

/-- `((zp / var) ** 2) * psf_hat_sqnorm()` (operations.py:449, 553; single_image.py:1396-1402). -/
def vaWt (d : PixVarCo F) : Img F :=
  (coLoop A.toCoArith d.interped.h d.interped.w (d.terms.map fun t => (vaPsfHat A d t).map fun p => A.mul p (A.conj p))).map
    (A.mul (A.sq (A.div d.zp d.var)))

/-- R and P_r with one process (operations.py:544-568). -/
def vaOne (h w ps : ℕ) (imgs : List (PixVarCo F)) : Img F × Img F :=
  coOut A.toCoArith ps (coLoop A.toCoArith h w (imgs.map (vaComp A))) (coLoop A.toCoArith h w (imgs.map (vaWt A)))

/-- R and P_r with several processes (operations.py:440-454, 507-539). -/
def vaMany (h w ps : ℕ) (chunks : List (List (PixVarCo F))) : Img F × Img F :=
  coOut A.toCoArith ps (coLoop A.toCoArith h w (chunks.map fun c => coLoop A.toCoArith h w (c.map (vaComp A))))
    (coLoop A.toCoArith h w (chunks.map fun c => coLoop A.toCoArith h w (c.map (vaWt A))))

end

/-- Exact complex numbers. -/
noncomputable def exactVa : VaArith ℂ where
  toCoArith := exactCo
  conv := fun a p => (ndConvolve (a.map re) (p.map re)).map fun x : ℝ => (x : ℂ)

/-- Every operation is done exactly and its result is rounded. -/
noncomputable def roundVa {rd : ℝ → ℝ} (R : Rounds rd) : VaArith (Machine rd) where
  toCoArith := roundCo R
  conv := fun a p => (ndConvolve (a.map fun z => z.1.re) (p.map fun z => z.1.re)).map fun x : ℝ => .of R (x : ℂ)

end PI
