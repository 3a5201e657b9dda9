import Verif.Model.VarPsf

/-!
# Model of an image with a Gaussian PSF (`SingleImageGaussPSF`) in `coadd`

properimage/single_image.py:1435-1507 overrides `get_variable_psf` only. `s_hat_comp` (1259-1296) calls it and so
filters with the rendered Gaussian, whereas `psf_hat_sqnorm` (1389-1404) reads `kl_basis`, the Karhunen-Loeve basis that
`coadd` has set up by `_setup_kl_a_fields` (operations.py:508). The rendered array and the basis are any arrays here.
-/

namespace PI

open Complex Finset

/-- What `coadd` reads of a `SingleImageGaussPSF`. -/
structure GaussCo where
  interped : Img ℝ
  /-- `mean_model.render()` -/
  render : Img ℝ
  /-- `kl_basis` -/
  basis : List (Img ℝ)
  zp : ℝ
  var : ℝ
  mask : NMask

/-- The filter of `s_hat_comp` (single_image.py:1266-1281): `a_fields[0]` is None, so that it uses `psf_basis[0]`, the
rendered Gaussian. -/
noncomputable def GaussCo.single (d : GaussCo) : SinglePsf where
  interped := d.interped.toC
  psf := d.render.toC
  com := psfCentroid d.render
  zp := d.zp
  var := d.var
  mask := d.mask

/-- `psf_hat_sqnorm()` (single_image.py:1398-1402). -/
noncomputable def GaussCo.psfSq (d : GaussCo) (k l : ℕ) : ℂ :=
  (d.basis.map fun q =>
    (fftOrtho (padTo d.interped.h d.interped.w q.toC)).px k l *
      (starRingEnd ℂ) ((fftOrtho (padTo d.interped.h d.interped.w q.toC)).px k l)).sum

/-- The record `coadd` accumulates for such an image. -/
noncomputable def GaussCo.toCoImg (d : GaussCo) : CoImg where
  h := d.interped.h
  w := d.interped.w
  sHat := d.single.sHatComp.px
  psfSq := d.psfSq
  zp := d.zp
  var := d.var
  mask := d.mask

end PI
