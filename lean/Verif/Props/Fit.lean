import Verif.Lemmas.Fit
import Verif.Props.Invariant
import Verif.Props.Sufficient
import Verif.Props.Translate

/-!
# Property C189: fitting the coadd or the difference image is fitting the exposures

The sum, over all pixels of all exposures, of the squared deviations from a model of the sky over the variances (chi squared).
-/

namespace PI

open Complex Finset

/-- A rolled image has the same sum. -/
theorem sum_rolled (h w : ℕ) (f : ℕ → ℕ → ℝ) (s t : ℤ) :
    ∑ p : Fin h × Fin w, f (backBy h s p.1) (backBy w t p.2) = ∑ p : Fin h × Fin w, f p.1 p.2 := by
  rw [← sum_pixels h w (fun a b => f (backBy h s a) (backBy w t b)), ← sum_pixels h w f,
    sum_backBy h s (fun a => ∑ b ∈ range w, f a (backBy w t b))]
  exact Finset.sum_congr rfl fun a _ => sum_backBy w t (fun b => f a b)

/-- One star of flux `c` on the pixel `(X, Y)`. -/
def oneStar (X Y : ℕ) (c : ℝ) : ℕ → ℕ → ℝ := fun u v => if u = X ∧ v = Y then c else 0

theorem sum_oneStar (h w X Y : ℕ) (hX : X < h) (hY : Y < w) (c : ℝ) (f : ℕ → ℕ → ℝ) :
    ∑ u ∈ range h, ∑ v ∈ range w, oneStar X Y c u v * f u v = c * f X Y := by
  rw [Finset.sum_eq_single_of_mem X (mem_range.2 hX), Finset.sum_eq_single_of_mem Y (mem_range.2 hY)]
  · rw [oneStar, if_pos ⟨rfl, rfl⟩]
  · intro v _ hv'
    rw [oneStar, if_neg (by tauto), zero_mul]
  · intro u _ hu
    refine Finset.sum_eq_zero fun v _ => ?_
    rw [oneStar, if_neg (by tauto), zero_mul]

/-! ## coadd -/

section
variable (lt : List CoImg → List CoImg → Option Bool) {n : ℕ} (hn : 0 < n)
    (d : Fin n → SinglePsf) (h w psfShape : ℕ) (procs : ℤ)
    (hs : ∀ j, (d j).interped.h = h ∧ (d j).interped.w = w ∧ (d j).mask.HasShape h w)
    (hp : procs ≤ n) (hp' : procs ≤ 2 ^ 25) (hb : procs * n ≤ 2 ^ 50) (hh : h ≠ 0) (hw : w ≠ 0)
    (ψ : Fin n → Img ℝ) (hψ : ∀ m, (d m).psf = toC (ψ m)) (A B : Fin n → ℤ)
    (hc : ∀ m, (d m).com = ((A m : ℝ), (B m : ℝ)))
    (hv : ∀ m, (d m).var ≠ 0)
    (hpow : ∀ k < h, ∀ l < w,
      zackayPower (fun j => (d j).zp) (fun j => (d j).var) (fun j => (d j).psfHat.px k l) ≠ 0)
    (x : Fin n → Img ℝ) (hx : ∀ m, (d m).interped = toC (x m))

/-- How badly the sky `t` fits the exposures: every exposure shows it through its own PSF, as bright as its zero point says. -/
noncomputable def exposureMisfit (t : ℕ → ℕ → ℝ) : ℝ :=
  chiSquared (nightNoise d) fun q : Fin n × Fin h × Fin w => pixelVec x q - skyMeans d h w ψ A B t q

/-- The flux scale of the coadd. -/
noncomputable def coaddScale : ℝ :=
  Real.sqrt (zackayPower (fun j => (d j).zp) (fun j => (d j).var) (fun j => (d j).psfHat.px 0 0))

/-- How badly the sky `t` fits an image `R` with PSF image `Pr`, flux scale `κ` and the same noise everywhere, of variance one
over the number of pixels. -/
noncomputable def imageMisfit (R Pr : Img ℂ) (κ : ℝ) (t : ℕ → ℕ → ℝ) : ℝ :=
  ((h * w : ℕ) : ℝ) * ∑ p : Fin h × Fin w, ((R.px p.1 p.2).re - κ * ∑ X ∈ range h, ∑ Y ∈ range w, t X Y *
    (Pr.px (backBy h (X - psfShape) p.1) (backBy w (Y - psfShape) p.2)).re) ^ 2

include hn hs hp hp' hb hh hw hψ hc hpow

/-- R of exposures that show the sky `t` only. -/
theorem coaddPix_sky : ∃ out, coaddCore lt ((List.ofFn d).map SinglePsf.toCoImg) psfShape procs = .ok out ∧
    ∀ (t : ℕ → ℕ → ℝ) (p : Fin h × Fin w), coaddPix lt d h w psfShape procs (skyMeans d h w ψ A B t) p =
      coaddScale d * ∑ X ∈ range h, ∑ Y ∈ range w, t X Y *
        (out.Pr.px (backBy h (X - psfShape) p.1) (backBy w (Y - psfShape) p.2)).re := by
  obtain ⟨out, e, _⟩ := coadd_sky_term lt hn d h w psfShape procs hs hp hp' hb hh hw ψ hψ A B hc hpow (fun _ _ => 0)
  refine ⟨out, e, fun t p => ?_⟩
  obtain ⟨out', e', k⟩ := coadd_sky_term lt hn d h w psfShape procs hs hp hp' hb hh hw ψ hψ A B hc hpow t
  rw [e] at e'
  cases e'
  have k1 := k p.1 p.1.2 p.2 p.2.2
  have k2 := coaddOf_eq lt hn d h w psfShape procs hs hp hp' hb
    (fun m => toC (through h w (ψ m) (A m) (B m) fun X Y => (d m).zp * t X Y)) (fun m => ⟨rfl, rfl⟩) p.1 p.2
  have k3 := coadd_kernel lt hn d h w psfShape procs hs hp hp' hb ψ hψ A B hc
    (fun m => through h w (ψ m) (A m) (B m) fun X Y => (d m).zp * t X Y) (fun m => ⟨rfl, rfl⟩) p
  have k4 := congrArg re (k3.symm.trans (k2.trans k1))
  rw [ofReal_re, re_ofReal_mul] at k4
  rw [coaddPix_eq lt hn d h w psfShape procs hs hp hp' hb ψ hψ A B hc]
  refine k4.trans ?_
  unfold coaddScale
  congr 1
  rw [re_sum]
  refine Finset.sum_congr rfl fun X _ => ?_
  rw [re_sum]
  exact Finset.sum_congr rfl fun Y _ => re_ofReal_mul _ _

include hv hx

/-- C189: how badly a sky fits all the exposures is how badly it fits the coadd, plus a number that does not depend on the sky
and that is the misfit of some sky. -/
theorem coadd_misfit : ∃ out, coaddCore lt ((List.ofFn d).map SinglePsf.toCoImg) psfShape procs = .ok out ∧
    ∃ rest : ℝ, (∃ t, exposureMisfit d h w ψ A B x t = rest) ∧
      ∀ t, exposureMisfit d h w ψ A B x t = rest + imageMisfit h w psfShape out.R out.Pr (coaddScale d) t := by
  obtain ⟨out, e, k⟩ := coaddPix_sky lt hn d h w psfShape procs hs hp hp' hb hh hw ψ hψ A B hc hpow
  refine ⟨out, e, ?_⟩
  have xs : ∀ m, (x m).h = h ∧ (x m).w = w := by
    intro m
    have := hs m
    rw [hx m] at this
    exact ⟨this.1, this.2.1⟩
  have hd : coaddOf lt d psfShape procs (fun m => toC (x m)) = out.R := by
    have : coaddCore lt ((List.ofFn (withPix d fun m => (d m).interped)).map SinglePsf.toCoImg) psfShape procs = .ok out := e
    have e2 : (fun m => toC (x m)) = fun m => (d m).interped := funext fun m => (hx m).symm
    unfold coaddOf
    rw [e2, this]
  have hR : ∀ p : Fin h × Fin w, (out.R.px p.1 p.2).re = coaddPix lt d h w psfShape procs (pixelVec x) p := by
    intro p
    rw [coaddPix_eq lt hn d h w psfShape procs hs hp hp' hb ψ hψ A B hc, ← hd,
      coadd_kernel lt hn d h w psfShape procs hs hp hp' hb ψ hψ A B hc x xs p, ofReal_re]
  set N : ℝ := ((h * w : ℕ) : ℝ) with hN
  have N0 : 0 < N := by rw [hN]; exact_mod_cast Nat.mul_pos (by omega) (by omega)
  have main : ∀ t, exposureMisfit d h w ψ A B x t =
      (chiSquared (nightNoise d) (pixelVec (h := h) (w := w) x) - N * ∑ p : Fin h × Fin w, ((out.R.px p.1 p.2).re) ^ 2) +
        imageMisfit h w psfShape out.R out.Pr (coaddScale d) t := by
    intro t
    have i1 := sky_inner lt hn d h w psfShape procs hs hp hp' hb hh hw ψ hψ A B hc hv hpow t (pixelVec x)
    have i2 := sky_energy hn d h w procs hs hp hp' hb hh hw ψ hψ A B hc hpow t
    rw [one_div, inv_inv, ← hN] at i2
    have i2' : ∑ q, skyMeans d h w ψ A B t q ^ 2 / nightNoise d q ^ 2 =
        N * ∑ p, coaddPix lt d h w psfShape procs (skyMeans d h w ψ A B t) p ^ 2 := by
      rw [i2]
      congr 1
      exact Finset.sum_congr rfl fun p _ => by
        rw [coaddPix_eq lt hn d h w psfShape procs hs hp hp' hb ψ hψ A B hc]
    have l : exposureMisfit d h w ψ A B x t = chiSquared (nightNoise d) (pixelVec (h := h) (w := w) x) -
        2 * (∑ q, skyMeans d h w ψ A B t q / nightNoise d q ^ 2 * pixelVec x q) +
        ∑ q, skyMeans d h w ψ A B t q ^ 2 / nightNoise d q ^ 2 := by
      unfold exposureMisfit chiSquared
      rw [Finset.mul_sum, ← Finset.sum_sub_distrib, ← Finset.sum_add_distrib]
      exact Finset.sum_congr rfl fun q _ => by ring
    rw [l, i1, i2']
    unfold imageMisfit
    simp only [← k, hR, ← hN]
    simp only [sub_sq, Finset.sum_add_distrib, Finset.sum_sub_distrib]
    have : ∀ p : Fin h × Fin w, 2 * coaddPix lt d h w psfShape procs (pixelVec x) p *
        coaddPix lt d h w psfShape procs (skyMeans d h w ψ A B t) p =
        2 * (coaddPix lt d h w psfShape procs (skyMeans d h w ψ A B t) p * coaddPix lt d h w psfShape procs (pixelVec x) p) :=
      fun p => by ring
    simp only [this, ← Finset.mul_sum]
    ring
  refine ⟨_, ?_, main⟩
  obtain ⟨t, ht⟩ := sky_onto lt hn d h w psfShape procs hs hp hp' hb hh hw ψ hψ A B hc hpow
    (fun p => (out.R.px p.1 p.2).re)
  refine ⟨t, ?_⟩
  rw [main t]
  have z : imageMisfit h w psfShape out.R out.Pr (coaddScale d) t = 0 := by
    unfold imageMisfit
    rw [Finset.sum_eq_zero, mul_zero]
    intro p _
    rw [← k, ht p, sub_self]
    norm_num
  rw [z, add_zero]

/-- C189: so of any set of skies the same ones fit the exposures best and fit the coadd best. -/
theorem coadd_best_fit : ∃ out, coaddCore lt ((List.ofFn d).map SinglePsf.toCoImg) psfShape procs = .ok out ∧
    ∀ (M : Set (ℕ → ℕ → ℝ)) (t : ℕ → ℕ → ℝ),
      (∀ t' ∈ M, exposureMisfit d h w ψ A B x t ≤ exposureMisfit d h w ψ A B x t') ↔
        ∀ t' ∈ M, imageMisfit h w psfShape out.R out.Pr (coaddScale d) t ≤
          imageMisfit h w psfShape out.R out.Pr (coaddScale d) t' := by
  obtain ⟨out, e, rest, _, k⟩ := coadd_misfit lt hn d h w psfShape procs hs hp hp' hb hh hw ψ hψ A B hc hv hpow x hx
  refine ⟨out, e, fun M t => ?_⟩
  simp only [k, add_le_add_iff_left]

/-- The coadd summed against its PSF image centred on a pixel. -/
noncomputable def psfSum (R Pr : Img ℂ) (X Y : ℕ) : ℝ :=
  ∑ p : Fin h × Fin w, (R.px p.1 p.2).re *
    (Pr.px (backBy h ((X : ℤ) - psfShape) p.1) (backBy w ((Y : ℤ) - psfShape) p.2)).re

/-- The summed squares of the PSF image. -/
noncomputable def psfPower (Pr : Img ℂ) : ℝ := ∑ p : Fin h × Fin w, (Pr.px p.1 p.2).re ^ 2

/-- C189: the star that fits all the exposures best, of all stars of any flux on any pixel, is on the pixel where the coadd,
summed against its PSF image, is largest in absolute value, and its flux is that sum over the flux scale and the summed squares of
the PSF image. -/
theorem coadd_best_star : ∃ out, coaddCore lt ((List.ofFn d).map SinglePsf.toCoImg) psfShape procs = .ok out ∧
    0 < coaddScale d ∧ 0 < psfPower h w out.Pr ∧ ∀ X < h, ∀ Y < w, ∀ c : ℝ,
      ((∀ X' < h, ∀ Y' < w, ∀ c' : ℝ, exposureMisfit d h w ψ A B x (oneStar X Y c) ≤
          exposureMisfit d h w ψ A B x (oneStar X' Y' c')) ↔
        c = psfSum h w psfShape out.R out.Pr X Y / (coaddScale d * psfPower h w out.Pr) ∧
          ∀ X' < h, ∀ Y' < w, |psfSum h w psfShape out.R out.Pr X' Y'| ≤ |psfSum h w psfShape out.R out.Pr X Y|) := by
  obtain ⟨out, e, rest, _, k⟩ := coadd_misfit lt hn d h w psfShape procs hs hp hp' hb hh hw ψ hψ A B hc hv hpow x hx
  obtain ⟨out', e', ks⟩ := coaddPix_sky lt hn d h w psfShape procs hs hp hp' hb hh hw ψ hψ A B hc hpow
  rw [e] at e'
  cases e'
  have N0 : (0 : ℝ) < ((h * w : ℕ) : ℝ) := by exact_mod_cast Nat.mul_pos (by omega) (by omega)
  have κ0 : 0 < coaddScale d := by
    refine Real.sqrt_pos.2 (lt_of_le_of_ne (zackayPower_nonneg _ _ _) (Ne.symm ?_))
    exact hpow 0 (by omega) 0 (by omega)
  have E0 : 0 < psfPower h w out.Pr := by
    refine lt_of_le_of_ne (Finset.sum_nonneg fun p _ => sq_nonneg _) (Ne.symm fun z => ?_)
    have zero : ∀ a < h, ∀ b < w, (out.Pr.px a b).re = 0 := by
      intro a ha b hb'
      have := (Finset.sum_eq_zero_iff_of_nonneg fun p _ => sq_nonneg _).1 z (⟨a, ha⟩, ⟨b, hb'⟩) (Finset.mem_univ _)
      exact pow_eq_zero_iff (two_ne_zero) |>.1 this
    obtain ⟨t, ht⟩ := sky_onto lt hn d h w psfShape procs hs hp hp' hb hh hw ψ hψ A B hc hpow (fun _ => 1)
    have := ht (⟨0, by omega⟩, ⟨0, by omega⟩)
    rw [ks] at this
    rw [Finset.sum_eq_zero, mul_zero] at this
    · exact zero_ne_one this
    · intro X _
      refine Finset.sum_eq_zero fun Y _ => ?_
      have l1 : ∀ (s : ℤ) (i : ℕ), backBy h s i < h := fun s i => emod_toNat_lt h hh _
      have l2 : ∀ (s : ℤ) (i : ℕ), backBy w s i < w := fun s i => emod_toNat_lt w hw _
      rw [zero _ (l1 _ _) _ (l2 _ _), mul_zero]
  refine ⟨out, e, κ0, E0, ?_⟩
  set κ := coaddScale d with hκ
  set E := psfPower h w out.Pr with hE
  set T := psfSum h w psfShape out.R out.Pr with hT
  set N : ℝ := ((h * w : ℕ) : ℝ) with hN
  set S : ℝ := ∑ p : Fin h × Fin w, (out.R.px p.1 p.2).re ^ 2 with hS
  have star : ∀ X < h, ∀ Y < w, ∀ c : ℝ, exposureMisfit d h w ψ A B x (oneStar X Y c) =
      rest + N * (S - 2 * (κ * c) * T X Y + (κ * c) ^ 2 * E) := by
    intro X hX Y hY c
    rw [k]
    congr 1
    unfold imageMisfit
    rw [← hN]
    congr 1
    have one : ∀ p : Fin h × Fin w, ∑ u ∈ range h, ∑ v ∈ range w, oneStar X Y c u v *
        (out.Pr.px (backBy h (u - psfShape) p.1) (backBy w (v - psfShape) p.2)).re =
        c * (out.Pr.px (backBy h ((X : ℤ) - psfShape) p.1) (backBy w ((Y : ℤ) - psfShape) p.2)).re := by
      intro p
      exact sum_oneStar h w X Y hX hY c _
    simp only [one]
    have r := sum_rolled h w (fun a b => (out.Pr.px a b).re ^ 2) ((X : ℤ) - psfShape) ((Y : ℤ) - psfShape)
    rw [hS, hT, hE]
    unfold psfSum psfPower
    rw [← r, Finset.mul_sum, Finset.mul_sum, ← Finset.sum_sub_distrib, ← Finset.sum_add_distrib]
    exact Finset.sum_congr rfl fun p _ => by ring
  intro X hX Y hY c
  have l := lowest_iff (fun i : ℕ × ℕ => i.1 < h ∧ i.2 < w) (fun i c => exposureMisfit d h w ψ A B x (oneStar i.1 i.2 c))
    (fun i => T i.1 i.2) (rest + N * S) N κ E N0 κ0 E0
    (fun i hi c => by rw [star i.1 hi.1 i.2 hi.2 c]; ring) (X, Y) ⟨hX, hY⟩ c
  refine Iff.trans ?_ (l.trans ?_)
  · exact ⟨fun H i' hi' c' => H i'.1 hi'.1 i'.2 hi'.2 c', fun H X' hX' Y' hY' c' => H (X', Y') ⟨hX', hY'⟩ c'⟩
  · exact and_congr Iff.rfl ⟨fun H X' hX' Y' hY' => H (X', Y') ⟨hX', hY'⟩, fun H i' hi' => H i'.1 hi'.1 i'.2 hi'.2⟩

end

/-! ## subtract -/

section
variable (env : SubEnv) (it : Bool) (ref new : SubImg) (h w : ℕ) (z : ℝ × ℝ)
    (hmr : ref.mask.HasShape h w) (hmn : new.mask.HasShape h w) (hz : env.zps = .ok z)
    (hc : env.fitted = true ∨ (0 ≤ (centerOfMass new.psf).1 ∧ 0 ≤ (centerOfMass new.psf).2))
    (hr : ref.interped.shape = (h, w)) (hn : new.interped.shape = (h, w)) (hh : h ≠ 0) (hw : w ≠ 0)
    (gr : GuardIdle h w ref.psf) (gn : GuardIdle h w new.psf) (A B A' B' : ℤ)
    (hA : centerOfMass ref.psf = ((A : ℝ), (B : ℝ))) (hA' : centerOfMass new.psf = ((A' : ℝ), (B' : ℝ)))
    (hb : z.2 / z.1 ≠ 0) (hvr : ref.var ≠ 0) (hvn : new.var ≠ 0)

/-- The pixels of the two exposures. -/
def pairPix : Bool × Fin h × Fin w → ℝ := pixelVec fun m => if m then new.interped else ref.interped

/-- The change `u` of the sky in the new exposure. -/
def changeVec (u : ℕ → ℕ → ℝ) : Bool × Fin h × Fin w → ℝ :=
  pixelVec fun m => if m then through h w new.psf A' B' u else ⟨h, w, fun _ _ => 0⟩

/-- How badly the sky `t`, with the change `u` in the new exposure, fits the two exposures; `b` is the ratio of their zero
points. -/
noncomputable def pairMisfit (b : ℝ) (t u : ℕ → ℕ → ℝ) : ℝ :=
  chiSquared (pairNoise ref new) fun q => pairPix ref new h w q - unchangedSky ref new h w A B A' B' b t q -
    changeVec new h w A' B' u q

/-- How badly the change `u` fits the difference image `D` with the PSF image `P`, noise of variance one, and fluxes in units of
`S`. -/
noncomputable def diffMisfit (D : Img ℂ) (P : Img ℝ) (S : ℝ) (u : ℕ → ℕ → ℝ) : ℝ :=
  ∑ p : Fin h × Fin w, ((D.px p.1 p.2).re - (∑ X ∈ range h, ∑ Y ∈ range w, u X Y *
    P.px (backBy h (X - A - A') p.1) (backBy w (Y - B - B') p.2)) / S) ^ 2

include hmr hmn hz hc hr hn hh hw gr gn hA hA' hb hvr hvn

/-- C189: how badly a change of the sky fits the difference image is how badly it fits the two exposures with the unchanging sky
that suits it best. -/
theorem subtract_misfit : ∃ out, subtract env ⟨false, false, it⟩ ref new = .ok out ∧
    ∀ u, IsLeast (Set.range fun t => pairMisfit ref new h w A B A' B' (z.2 / z.1) t u)
      (diffMisfit h w A B A' B' out.D out.P (Real.sqrt (ref.var ^ 2 * (z.2 / z.1) ^ 2 + new.var ^ 2)) u) := by
  obtain ⟨out, e, _⟩ := subtract_returns env it ref new h w hr hn hmr hmn z hz hc
  refine ⟨out, e, fun u => ?_⟩
  have hd : diffOf env ⟨false, false, it⟩ ref new ref.interped new.interped = out.D := by
    have : subtract env ⟨false, false, it⟩ (ref.withPixels ref.interped) (new.withPixels new.interped) = .ok out := e
    unfold diffOf
    rw [this]
  set K := diffKernel env it ref new h w with hK
  have σ0 : ∀ q : Bool × Fin h × Fin w, pairNoise ref new q ≠ 0 := by
    rintro ⟨m, p⟩
    cases m
    · exact hvr
    · exact hvn
  have a1 : AxisOK h (centerOfMass ref.psf).1 := Or.inr ⟨A, by rw [hA]⟩
  have a2 : AxisOK w (centerOfMass ref.psf).2 := Or.inr ⟨B, by rw [hA]⟩
  have a3 : AxisOK h (centerOfMass new.psf).1 := Or.inr ⟨A', by rw [hA']⟩
  have a4 : AxisOK w (centerOfMass new.psf).2 := Or.inr ⟨B', by rw [hA']⟩
  have white := diffKernel_white env it ref new h w z hmr hmn hz hc hr hn a1 a2 a3 a4 (.inl hvn)
  -- D as a sum over the pixels
  have lin : ∀ (r m : Img ℝ), r.shape = (h, w) → m.shape = (h, w) → ∀ p : Fin h × Fin w,
      ((diffOf env ⟨false, false, it⟩ ref new (plusImg ref.interped r) (plusImg new.interped m)).px p.1 p.2).re =
        (out.D.px p.1 p.2).re + ∑ q, K p q * pixelVec (fun b : Bool => if b then m else r) q := by
    intro r m _ _ p
    have two : ∀ f : Bool × Fin h × Fin w → ℝ, ∑ q, f q = ∑ q, (f (true, q) + f (false, q)) := by
      intro f
      rw [Fintype.sum_prod_type, Fintype.sum_bool, ← Finset.sum_add_distrib]
    rw [subtract_noise_linear env it ref new h w z hmr hmn hz hc hr hn, add_re, sum_pixels, re_sum, hd, two]
    congr 1
    refine Finset.sum_congr rfl fun q _ => ?_
    rw [add_re, re_ofReal_mul, re_ofReal_mul]
    simp only [hK, diffKernel, pixelVec, if_true, Bool.false_eq_true, if_false]
    ring
  have dPix : ∀ p : Fin h × Fin w, (out.D.px p.1 p.2).re = ∑ q, K p q * pairPix ref new h w q := by
    intro p
    have l := lin ⟨h, w, fun i j => -ref.interped.px i j⟩ ⟨h, w, fun i j => -new.interped.px i j⟩ rfl rfl p
    rw [diffOf_eq env it ref new h w z hmr hmn hz hc hr hn (plusImg ref.interped _) (plusImg new.interped _) hr hn] at l
    simp only [plusImg, add_neg_cancel, ofReal_zero, zero_mul, Finset.sum_const_zero, add_zero, zero_re] at l
    have : ∑ q, K p q * pixelVec (fun b : Bool => if b then (⟨h, w, fun i j => -new.interped.px i j⟩ : Img ℝ)
        else ⟨h, w, fun i j => -ref.interped.px i j⟩) q = - ∑ q, K p q * pairPix ref new h w q := by
      rw [← Finset.sum_neg_distrib]
      refine Finset.sum_congr rfl fun q _ => ?_
      obtain ⟨b, q⟩ := q
      cases b <;> simp [pixelVec, pairPix]
    rw [this] at l
    linarith
  have change : ∀ p : Fin h × Fin w, ∑ q, K p q * changeVec new h w A' B' u q =
      (∑ X ∈ range h, ∑ Y ∈ range w, u X Y * out.P.px (backBy h (X - A - A') p.1) (backBy w (Y - B - B') p.2)) /
        Real.sqrt (ref.var ^ 2 * (z.2 / z.1) ^ 2 + new.var ^ 2) := by
    intro p
    obtain ⟨out', e', ch⟩ := changed_sky env it ref new h w z hmr hmn hz hc hr hn hh hw gr gn A B A' B' (fun _ _ => 0) u hA hA'
      hb (.inl hvr)
    rw [e] at e'
    cases e'
    have c1 := ch p.1 p.1.2 p.2 p.2.2
    rw [lin _ _ rfl rfl p, add_right_inj] at c1
    simp only [mul_zero, sub_zero] at c1
    refine Eq.trans (Finset.sum_congr rfl fun q _ => ?_) c1
    obtain ⟨b, q⟩ := q
    cases b <;> simp [changeVec, pixelVec, through]
  -- an unchanging sky is what is not seen
  have diffRe : ∀ (y : Bool × Fin h × Fin w → ℝ), (∀ p, ∑ q, K p q * y q = 0) ↔
      ∃ t : ℕ → ℕ → ℝ, ∀ q, y q = unchangedSky ref new h w A B A' B' (z.2 / z.1) t q := by
    intro y
    have s := same_difference_iff env it ref new h w z hmr hmn hz hc hr hn hh hw gr gn A B A' B'
      (by rw [hA, hA']; simp) (by rw [hA, hA']; simp) (.inl hvn) 0 y
    simp only [Pi.zero_apply, zero_add] at s
    rw [← s]
    refine forall_congr' fun p => ?_
    have im : ∀ y, (diffPix env it ref new h w y p).im = 0 := fun y =>
      diffOf_im env it ref new h w z hmr hmn hz hc a1 a2 a3 a4 _ _ (by exact hr) (by exact hn) p.1 p.2
    have re' : ∀ y, (diffPix env it ref new h w y p).re = (out.D.px p.1 p.2).re + ∑ q, K p q * y q := by
      intro y
      rw [← hd]
      exact noisyDiff_re env it ref new h w z hmr hmn hz hc hr hn y p
    rw [Complex.ext_iff, im, im, re', re']
    simp
  set y : Bool × Fin h × Fin w → ℝ := fun q => pairPix ref new h w q - changeVec new h w A' B' u q with hy
  have seen : diffMisfit h w A B A' B' out.D out.P (Real.sqrt (ref.var ^ 2 * (z.2 / z.1) ^ 2 + new.var ^ 2)) u =
      ∑ p, (∑ q, K p q * y q) ^ 2 := by
    unfold diffMisfit
    refine Finset.sum_congr rfl fun p _ => ?_
    rw [dPix, ← change, ← Finset.sum_sub_distrib]
    congr 1
    exact Finset.sum_congr rfl fun q _ => by rw [hy]; ring
  have pm : ∀ t, pairMisfit ref new h w A B A' B' (z.2 / z.1) t u =
      chiSquared (pairNoise ref new) fun q => y q - unchangedSky ref new h w A B A' B' (z.2 / z.1) t q := by
    intro t
    unfold pairMisfit
    congr 1
    funext q
    rw [hy]
    ring
  rw [seen]
  constructor
  · obtain ⟨t, ht⟩ := (diffRe fun q => y q - seenPart K (pairNoise ref new) y q).1 (fun p => by
      simp only [mul_sub, Finset.sum_sub_distrib]
      rw [seenPart_seen K (pairNoise ref new) white y p, sub_self])
    refine ⟨t, ?_⟩
    change pairMisfit ref new h w A B A' B' (z.2 / z.1) t u = _
    rw [pm, ← (chiSquared_seen K (pairNoise ref new) σ0 white y).1]
    congr 1
    funext q
    rw [← ht q]
    ring
  · rintro _ ⟨t, rfl⟩
    change _ ≤ pairMisfit ref new h w A B A' B' (z.2 / z.1) t u
    rw [pm]
    refine le_trans (le_of_eq ?_) (chiSquared_seen K (pairNoise ref new) σ0 white _).2
    refine Finset.sum_congr rfl fun p _ => ?_
    congr 1
    have := (diffRe _).2 ⟨t, fun q => rfl⟩ p
    simp only [mul_sub, Finset.sum_sub_distrib]
    rw [this, sub_zero]

/-- The difference image summed against its PSF image centred on a pixel. -/
noncomputable def diffSum (D : Img ℂ) (P : Img ℝ) (X Y : ℕ) : ℝ :=
  ∑ p : Fin h × Fin w, (D.px p.1 p.2).re * P.px (backBy h (X - A - A') p.1) (backBy w (Y - B - B') p.2)

/-- C189: the new star that, with the unchanging sky that suits it best, fits the two exposures best, of all stars of any flux on
any pixel with any unchanging sky, is on the pixel where D, summed against P, is largest in absolute value, and its flux is that
sum times the flux unit of D over the summed squares of P. -/
theorem subtract_best_star : ∃ out, subtract env ⟨false, false, it⟩ ref new = .ok out ∧
    0 < (∑ p : Fin h × Fin w, out.P.px p.1 p.2 ^ 2) ∧ ∀ X < h, ∀ Y < w, ∀ c : ℝ,
      ((∃ t, ∀ X' < h, ∀ Y' < w, ∀ (c' : ℝ) t', pairMisfit ref new h w A B A' B' (z.2 / z.1) t (oneStar X Y c) ≤
          pairMisfit ref new h w A B A' B' (z.2 / z.1) t' (oneStar X' Y' c')) ↔
        c = diffSum h w A B A' B' out.D out.P X Y * Real.sqrt (ref.var ^ 2 * (z.2 / z.1) ^ 2 + new.var ^ 2) /
            ∑ p : Fin h × Fin w, out.P.px p.1 p.2 ^ 2 ∧
          ∀ X' < h, ∀ Y' < w, |diffSum h w A B A' B' out.D out.P X' Y'| ≤ |diffSum h w A B A' B' out.D out.P X Y|) := by
  obtain ⟨out, e, k⟩ := subtract_misfit env it ref new h w z hmr hmn hz hc hr hn hh hw gr gn A B A' B' hA hA' hb hvr hvn
  refine ⟨out, e, ?_⟩
  set V : ℝ := ref.var ^ 2 * (z.2 / z.1) ^ 2 + new.var ^ 2 with hV
  have V0 : 0 < V := by rw [hV]; positivity
  have s0 : 0 < Real.sqrt V := Real.sqrt_pos.2 V0
  have E0 : 0 < ∑ p : Fin h × Fin w, out.P.px p.1 p.2 ^ 2 := by
    refine lt_of_le_of_ne (Finset.sum_nonneg fun p _ => sq_nonneg _) (Ne.symm fun zr => ?_)
    have zero : ∀ a < h, ∀ b < w, out.P.px a b = 0 := by
      intro a ha b hb'
      have := (Finset.sum_eq_zero_iff_of_nonneg fun p _ => sq_nonneg _).1 zr (⟨a, ha⟩, ⟨b, hb'⟩) (Finset.mem_univ _)
      exact pow_eq_zero_iff (two_ne_zero) |>.1 this
    have l1 : ∀ (s : ℤ) (i : ℕ), backBy h s i < h := fun s i => emod_toNat_lt h hh _
    have l2 : ∀ (s : ℤ) (i : ℕ), backBy w s i < w := fun s i => emod_toNat_lt w hw _
    have im := fun r n hr' hn' => diffOf_im env it ref new h w z hmr hmn hz hc (Or.inr ⟨A, by rw [hA]⟩)
      (Or.inr ⟨B, by rw [hA]⟩) (Or.inr ⟨A', by rw [hA']⟩) (Or.inr ⟨B', by rw [hA']⟩) r n hr' hn'
    obtain ⟨out', e', ch⟩ := changed_sky env it ref new h w z hmr hmn hz hc hr hn hh hw gr gn A B A' B' (fun _ _ => 0)
      (oneStar 0 0 1) hA hA' hb (.inl hvr)
    rw [e] at e'
    cases e'
    have hd : diffOf env ⟨false, false, it⟩ ref new ref.interped new.interped = out.D := by
      have : subtract env ⟨false, false, it⟩ (ref.withPixels ref.interped) (new.withPixels new.interped) = .ok out := e
      unfold diffOf
      rw [this]
    have un := (unchanged_iff env it ref new h w z hmr hmn hz hc hr hn hh hw gr gn A B A' B' (fun _ _ => 0) (oneStar 0 0 1)
      (by rw [hA, hA']; simp) (by rw [hA, hA']; simp) (.inl hvn)).1 (by
        intro i hi j hj
        refine Complex.ext ?_ ?_
        · rw [ch i hi j hj, hd, Finset.sum_eq_zero, zero_div, add_zero]
          intro X _
          refine Finset.sum_eq_zero fun Y _ => ?_
          have z0 := zero _ (l1 (X - A - A') i) _ (l2 (Y - B - B') j)
          unfold backBy at z0
          rw [z0, mul_zero]
        · rw [im ref.interped new.interped hr hn, im (plusImg ref.interped _) (plusImg new.interped _) hr hn])
    have := un 0 (by omega) 0 (by omega)
    simp [oneStar] at this
  refine ⟨E0, ?_⟩
  set E := ∑ p : Fin h × Fin w, out.P.px p.1 p.2 ^ 2 with hE
  set T := diffSum h w A B A' B' out.D out.P with hT
  set S : ℝ := ∑ p : Fin h × Fin w, (out.D.px p.1 p.2).re ^ 2 with hS
  have star : ∀ X < h, ∀ Y < w, ∀ c : ℝ, diffMisfit h w A B A' B' out.D out.P (Real.sqrt V) (oneStar X Y c) =
      S + 1 * (-(2 * (1 / Real.sqrt V * c) * T X Y) + (1 / Real.sqrt V * c) ^ 2 * E) := by
    intro X hX Y hY c
    unfold diffMisfit
    have one : ∀ p : Fin h × Fin w, ∑ u ∈ range h, ∑ v ∈ range w, oneStar X Y c u v *
        out.P.px (backBy h (u - A - A') p.1) (backBy w (v - B - B') p.2) =
        c * out.P.px (backBy h (X - A - A') p.1) (backBy w (Y - B - B') p.2) :=
      fun p => sum_oneStar h w X Y hX hY c fun u v => out.P.px (backBy h (u - A - A') p.1) (backBy w (v - B - B') p.2)
    simp only [one]
    have r := sum_rolled h w (fun a b => out.P.px a b ^ 2) (X - A - A') (Y - B - B')
    rw [hS, hT, hE]
    unfold diffSum
    rw [← r, Finset.mul_sum, Finset.mul_sum, ← Finset.sum_neg_distrib, ← Finset.sum_add_distrib, one_mul,
      ← Finset.sum_add_distrib]
    exact Finset.sum_congr rfl fun p _ => by ring
  intro X hX Y hY c
  have l := lowest_iff (fun i : ℕ × ℕ => i.1 < h ∧ i.2 < w)
    (fun i c => diffMisfit h w A B A' B' out.D out.P (Real.sqrt V) (oneStar i.1 i.2 c))
    (fun i => T i.1 i.2) S 1 (1 / Real.sqrt V) E one_pos (by positivity) E0
    (fun i hi c => star i.1 hi.1 i.2 hi.2 c) (X, Y) ⟨hX, hY⟩ c
  have fl : T X Y / (1 / Real.sqrt V * E) = T X Y * Real.sqrt V / E := by field_simp
  refine Iff.trans ?_ (l.trans ?_)
  · constructor
    · rintro ⟨t, H⟩ i' hi' c'
      obtain ⟨t', ht'⟩ := (k (oneStar i'.1 i'.2 c')).1
      change pairMisfit ref new h w A B A' B' (z.2 / z.1) t' (oneStar i'.1 i'.2 c') = _ at ht'
      rw [← ht']
      exact ((k (oneStar X Y c)).2 ⟨t, rfl⟩).trans (H i'.1 hi'.1 i'.2 hi'.2 c' t')
    · intro H
      obtain ⟨t, ht⟩ := (k (oneStar X Y c)).1
      change pairMisfit ref new h w A B A' B' (z.2 / z.1) t (oneStar X Y c) = _ at ht
      refine ⟨t, fun X' hX' Y' hY' c' t' => ?_⟩
      rw [ht]
      exact (H (X', Y') ⟨hX', hY'⟩ c').trans ((k (oneStar X' Y' c')).2 ⟨t', rfl⟩)
  · refine and_congr ?_ ⟨fun H X' hX' Y' hY' => H (X', Y') ⟨hX', hY'⟩, fun H i' hi' => H i'.1 hi'.1 i'.2 hi'.2⟩
    rw [← fl]

end

/-! ## Worked instances -/

/-- The sharp and the soft exposure of 1×2 pixels: the best star is where the matched filter of the coadd is largest. -/
example (lt : List CoImg → List CoImg → Option Bool) :
    ∃ out, coaddCore lt ((List.ofFn sharpAndSoft).map SinglePsf.toCoImg) 0 2 = .ok out ∧
      0 < coaddScale sharpAndSoft ∧ 0 < psfPower 1 2 out.Pr ∧ ∀ X < 1, ∀ Y < 2, ∀ c : ℝ,
        ((∀ X' < 1, ∀ Y' < 2, ∀ c' : ℝ,
            exposureMisfit sharpAndSoft 1 2 sharpSoftPsf 0 0 (fun _ => ⟨1, 2, fun _ j => j⟩) (oneStar X Y c) ≤
              exposureMisfit sharpAndSoft 1 2 sharpSoftPsf 0 0 (fun _ => ⟨1, 2, fun _ j => j⟩) (oneStar X' Y' c')) ↔
          c = psfSum 1 2 0 out.R out.Pr X Y / (coaddScale sharpAndSoft * psfPower 1 2 out.Pr) ∧
            ∀ X' < 1, ∀ Y' < 2, |psfSum 1 2 0 out.R out.Pr X' Y'| ≤ |psfSum 1 2 0 out.R out.Pr X Y|) := by
  have hψ : ∀ m, (sharpAndSoft m).psf = toC (sharpSoftPsf m) := by
    intro m; fin_cases m <;> simp [sharpAndSoft, sharpSoftPsf, toC, Img.map]
  have hpow : ∀ k < 1, ∀ l < 2, zackayPower (fun j => (sharpAndSoft j).zp) (fun j => (sharpAndSoft j).var)
      (fun j => (sharpAndSoft j).psfHat.px k l) ≠ 0 := by
    intro k hk l hl
    obtain rfl : k = 0 := by omega
    obtain rfl | rfl : l = 0 ∨ l = 1 := by omega
    · exact ne_of_eq_of_ne sharpAndSoft_power.1 (by norm_num)
    · exact ne_of_eq_of_ne sharpAndSoft_power.2 (by norm_num)
  exact coadd_best_star lt (n := 2) (by norm_num) sharpAndSoft 1 2 0 2 (fun m => ⟨rfl, rfl, by intro a h; cases h⟩)
    (by norm_num) (by norm_num) (by norm_num) (by norm_num) (by norm_num) sharpSoftPsf hψ 0 0
    (fun _ => by norm_num [sharpAndSoft]) (fun _ => by norm_num [sharpAndSoft]) hpow (fun _ => ⟨1, 2, fun _ j => j⟩)
    (fun _ => by simp [sharpAndSoft, toC, Img.map])

/-- Two frames of 1×3 pixels, flux ratio 3: the misfit of no change in D is that of the best unchanging sky. -/
example : ∃ out, subtract (tinyEnv 1 3) ⟨false, false, true⟩ (seeingSub 5 7 0 1) (seeingSub 1 0 4 2) = .ok out ∧
    IsLeast (Set.range fun t => pairMisfit (seeingSub 5 7 0 1) (seeingSub 1 0 4 2) 1 3 0 1 0 1 (3 / 1) t fun _ _ => 0)
      (∑ p : Fin 1 × Fin 3, (out.D.px p.1 p.2).re ^ 2) := by
  obtain ⟨out, e, k⟩ := subtract_misfit (tinyEnv 1 3) true (seeingSub 5 7 0 1) (seeingSub 1 0 4 2) 1 3 (1, 3)
    (by intro a h; cases h) (by intro a h; cases h) rfl (Or.inl rfl) rfl rfl (by norm_num) (by norm_num)
    seeing_idle seeing_idle 0 1 0 1 seeing_com seeing_com (by norm_num) (by norm_num [seeingSub]) (by norm_num [seeingSub])
  refine ⟨out, e, ?_⟩
  simpa [diffMisfit] using k fun _ _ => 0

end PI
