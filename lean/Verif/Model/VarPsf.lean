import Verif.Model.Coadd

/-!
# Model of the matched filter and of the PSF power of an image with a variable PSF

properimage/single_image.py:1194-1212 (`normal_image`), 1259-1296 (`s_hat_comp`), 1298-1311
(`s_component`), 1389-1414 (`psf_hat_sqnorm`, `p_sqnorm`). Exact arithmetic over the reals and complexes.
The case treated by the records here is the one with coefficient fields (`a_fields[0] is not None`); the
case without is `SinglePsf` (Verif/Model/Coadd.lean). Division by a zero of the normalisation image gives
zero here (inf or nan in numpy).
-/

namespace PI

open Complex Finset

/-- scipy's `mode="reflect"` (the default of `ndimage.convolve`): `d c b a | a b c d | d c b a`. -/
def reflectZ (n : ℕ) (z : ℤ) : ℕ :=
  let r := (z % (2 * n : ℕ)).toNat
  if r < n then r else 2 * n - 1 - r

/-- `scipy.ndimage.convolve(x, k)`: `out[i] = Σ_a k[a] x[i + len(k)//2 - a]` on both axes. -/
noncomputable def ndConvolve (x k : Img ℝ) : Img ℝ :=
  ⟨x.h, x.w, fun i j => ∑ a ∈ range k.h, ∑ b ∈ range k.w,
    k.px a b * x.px (reflectZ x.h ((i : ℤ) + (k.h / 2 : ℕ) - a)) (reflectZ x.w ((j : ℤ) + (k.w / 2 : ℕ) - b))⟩

/-- `scipy.ndimage.center_of_mass(p)`. -/
noncomputable def psfCentroid (p : Img ℝ) : ℝ × ℝ :=
  ((∑ i ∈ range p.h, ∑ j ∈ range p.w, (i : ℝ) * p.px i j) / (∑ i ∈ range p.h, ∑ j ∈ range p.w, p.px i j),
   (∑ i ∈ range p.h, ∑ j ∈ range p.w, (j : ℝ) * p.px i j) / (∑ i ∈ range p.h, ∑ j ∈ range p.w, p.px i j))

/-- One basis element with its coefficient field `a(x, y)` evaluated on the pixel grid. -/
structure PsfTerm where
  field : ℕ → ℕ → ℝ
  psf : Img ℝ

/-- What the properties below read of an image with a variable PSF. -/
structure VarPsf where
  interped : Img ℝ
  terms : List PsfTerm
  zp : ℝ
  var : ℝ
  mask : NMask

/-- An array of reals as an array of complexes. -/
noncomputable def Img.toC (x : Img ℝ) : Img ℂ := x.map Complex.ofReal

/-- `normal_image` with coefficient fields (single_image.py:1206-1211). -/
noncomputable def VarPsf.normalImg (d : VarPsf) : Img ℝ :=
  ⟨d.interped.h, d.interped.w, fun i j =>
    (d.terms.map fun t => (ndConvolve ⟨d.interped.h, d.interped.w, t.field⟩ t.psf).px i j).sum⟩

/-- `center_of_mass(psf_basis[0])` (single_image.py:1270). The list is never empty in the code. -/
noncomputable def VarPsf.com (d : VarPsf) : ℝ × ℝ :=
  match d.terms with
  | [] => (0, 0)
  | t :: _ => psfCentroid t.psf

/-- `_fftwn(psf, s=im_shape, norm="ortho")` -/
noncomputable def VarPsf.psfHat (d : VarPsf) (p : Img ℝ) : Img ℂ :=
  fftOrtho (padTo d.interped.h d.interped.w p.toC)

/-- One turn of the loop of single_image.py:1285-1290. -/
noncomputable def VarPsf.termHat (d : VarPsf) (t : PsfTerm) : Img ℂ :=
  fourierShift
    ((fftOrtho (⟨d.interped.h, d.interped.w, fun i j =>
        d.interped.px i j * t.field i j / d.normalImg.px i j⟩ : Img ℝ).toC).zip
      (fun m p => m * (starRingEnd ℂ) p) (d.psfHat t.psf)) d.com

/-- `s_hat_comp` with coefficient fields (single_image.py:1282-1293). -/
noncomputable def VarPsf.sHatComp (d : VarPsf) : Img ℂ :=
  ⟨d.interped.h, d.interped.w, fun k l =>
    ((d.zp / d.var ^ 2 : ℝ) : ℂ) * (d.terms.map fun t => (d.termHat t).px k l).sum⟩

/-- `psf_hat_sqnorm` (single_image.py:1389-1404): the test `a_fields is None` is never true, because
`kl_afields` is a list (`[None]` for a constant PSF), so that the loop over the whole basis always runs. -/
noncomputable def VarPsf.psfSqnorm (d : VarPsf) : Img ℂ :=
  ⟨d.interped.h, d.interped.w, fun k l =>
    (d.terms.map fun t => (d.psfHat t.psf).px k l * (starRingEnd ℂ) ((d.psfHat t.psf).px k l)).sum⟩

/-- `p_sqnorm` (single_image.py:1406-1414) for the stamp shape `s`. -/
noncomputable def VarPsf.pSqnorm (d : VarPsf) (s : ℕ × ℕ) : Img ℂ :=
  ifftOrtho (fourierShift d.psfSqnorm ((s.1 : ℝ) / 2, (s.2 : ℝ) / 2))

/-- The record `coadd` accumulates for such an image. -/
noncomputable def VarPsf.toCoImg (d : VarPsf) : CoImg where
  h := d.interped.h
  w := d.interped.w
  sHat := d.sHatComp.px
  psfSq := d.psfSqnorm.px
  zp := d.zp
  var := d.var
  mask := d.mask

/-- `s_component` (single_image.py:1305-1306): `_ifftwn(s_hat_comp, norm="ortho").real`. -/
noncomputable def filteredImg (sHat : Img ℂ) : Img ℝ := (ifftOrtho sHat).map Complex.re

end PI
