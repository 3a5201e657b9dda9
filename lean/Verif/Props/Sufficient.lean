import Verif.Lemmas.Sufficient
import Verif.Props.Powerful
import Verif.Props.SkyChange
import Verif.Props.ChainGauss

/-!
# Property C183: the coadd is a minimal sufficient statistic

Exposures of one sky with independent Gaussian errors. The coadd keeps all that the exposures say about the sky and nothing
else: two sets of exposures favour the same skies, to the same degree, exactly if their coadds are equal; and any test or
estimate made from the exposures can be replaced by one made from the coadd that does as well for every sky.
-/

namespace PI

open Complex Finset MeasureTheory ProbabilityTheory
open scoped NNReal ENNReal

section
variable (lt : List CoImg → List CoImg → Option Bool) {n : ℕ} (hn : 0 < n)
    (d : Fin n → SinglePsf) (h w psfShape : ℕ) (procs : ℤ)
    (hs : ∀ j, (d j).interped.h = h ∧ (d j).interped.w = w ∧ (d j).mask.HasShape h w)
    (hp : procs ≤ n) (hp' : procs ≤ 2 ^ 25) (hb : procs * n ≤ 2 ^ 50) (hh : h ≠ 0) (hw : w ≠ 0)
    (ψ : Fin n → Img ℝ) (hψ : ∀ m, (d m).psf = toC (ψ m)) (A B : Fin n → ℤ)
    (hc : ∀ m, (d m).com = ((A m : ℝ), (B m : ℝ)))
    (hv : ∀ m, (d m).var ≠ 0)
    (hpow : ∀ k < h, ∀ l < w,
      zackayPower (fun j => (d j).zp) (fun j => (d j).var) (fun j => (d j).psfHat.px k l) ≠ 0)

/-- The sky `t` in the exposures: seen through their PSFs, as bright as their zero points say. -/
def skyMeans (t : ℕ → ℕ → ℝ) : Fin n × Fin h × Fin w → ℝ :=
  pixelVec fun m => through h w (ψ m) (A m) (B m) fun X Y => (d m).zp * t X Y

/-- R of exposures whose pixels are `e`. -/
noncomputable def coaddImg (e : Fin n × Fin h × Fin w → ℝ) : Img ℂ :=
  coaddOf lt d psfShape procs fun m => toC (errImg fun r => e (m, r))

/-- The pixels of R. -/
noncomputable def coaddPix (e : Fin n × Fin h × Fin w → ℝ) (p : Fin h × Fin w) : ℝ :=
  ((coaddImg lt d h w psfShape procs e).px p.1 p.2).re

/-- The probability density of the exposures `e` if the sky is `t` on top of the known images `m`. -/
noncomputable def likelihood (m : Fin n × Fin h × Fin w → ℝ) (t : ℕ → ℕ → ℝ) (e : Fin n × Fin h × Fin w → ℝ) : ℝ :=
  ∏ q, gaussianPDFReal (m q + skyMeans d h w ψ A B t q) ((nightNoise d q ^ 2).toNNReal) (e q)

section
include hn hs hp hp' hb hψ hc

/-- R is the kernel applied to the pixels. -/
theorem coadd_kernel (y : Fin n → Img ℝ) (hy : ∀ m, (y m).h = h ∧ (y m).w = w) (p : Fin h × Fin w) :
    (coaddOf lt d psfShape procs fun m => toC (y m)).px p.1 p.2 =
      ((∑ q, coaddKernel d h w p q * pixelVec y q : ℝ) : ℂ) := by
  have im : ∀ m (q : Fin h × Fin w), impulseResp h w (gainCoadd d h w m) p.1 p.2 q.1 q.2 =
      ((coaddKernel d h w p (m, q) : ℝ) : ℂ) := by
    intro m q
    have := impulseResp_im h w (gainCoadd d h w m)
      (fun k hk l hl => gainCoadd_hermitian d h w hs ψ hψ A B hc m k l hk hl) p.1 p.2 q.1 q.2 q.1.2 q.2.2
    exact Complex.ext (by simp [coaddKernel]) (by simp [this])
  rw [coaddOf_eq lt hn d h w psfShape procs hs hp hp' hb (fun m => toC (y m)) hy, Fintype.sum_prod_type, ofReal_sum]
  refine Finset.sum_congr rfl fun m _ => ?_
  rw [sum_pixels, ofReal_sum]
  refine Finset.sum_congr rfl fun q _ => ?_
  rw [im m q, mul_comm, ofReal_mul]
  rfl

theorem coaddImg_px (e : Fin n × Fin h × Fin w → ℝ) (p : Fin h × Fin w) :
    (coaddImg lt d h w psfShape procs e).px p.1 p.2 = ((∑ q, coaddKernel d h w p q * e q : ℝ) : ℂ) := by
  unfold coaddImg
  rw [coadd_kernel lt hn d h w psfShape procs hs hp hp' hb ψ hψ A B hc (fun m => errImg fun r => e (m, r))
    (fun _ => ⟨rfl, rfl⟩) p]
  congr 1
  refine Finset.sum_congr rfl fun q _ => ?_
  unfold pixelVec
  rw [errImg_px]

theorem coaddPix_eq (e : Fin n × Fin h × Fin w → ℝ) (p : Fin h × Fin w) :
    coaddPix lt d h w psfShape procs e p = ∑ q, coaddKernel d h w p q * e q := by
  unfold coaddPix
  rw [coaddImg_px lt hn d h w psfShape procs hs hp hp' hb ψ hψ A B hc, ofReal_re]

end

section
include hs hh hw hψ hc hpow

/-- The exposures hold the energy of the sky, frequency by frequency. -/
theorem sky_power (t : ℕ → ℕ → ℝ) (k l : ℕ) (hk : k < h) (hl : l < w) :
    ∑ m, normSq ((fftOrtho (toC (through h w (ψ m) (A m) (B m) fun X Y => (d m).zp * t X Y))).px k l) / (d m).var ^ 2 =
      ((h * w : ℕ) : ℝ) * normSq (∑ m, gainCoadd d h w m k l *
        (fftOrtho (toC (through h w (ψ m) (A m) (B m) fun X Y => (d m).zp * t X Y))).px k l) := by
  rw [coadd_sky_hat d h w hs hh hw ψ hψ A B hc hpow t k l hk hl]
  set Q := zackayPower (fun j => (d j).zp) (fun j => (d j).var) (fun j => (d j).psfHat.px k l) with hQ
  have Q0 : 0 ≤ Q := zackayPower_nonneg _ _ _
  set Φ : ℂ := ∑ X ∈ range h, ∑ Y ∈ range w, (t X Y : ℂ) * shiftPhase h w ((X : ℝ), (Y : ℝ)) k l with hΦ
  have e1 : (∑ X ∈ range h, ∑ Y ∈ range w, (t X Y : ℂ) * (((Real.sqrt Q : ℝ) : ℂ) / (Real.sqrt ((h * w : ℕ) : ℝ) : ℂ) *
          shiftPhase h w ((X : ℝ), (Y : ℝ)) k l)) = ((Real.sqrt Q : ℝ) : ℂ) / (Real.sqrt ((h * w : ℕ) : ℝ) : ℂ) * Φ := by
    rw [hΦ]
    simp only [Finset.mul_sum]
    exact Finset.sum_congr rfl fun X _ => Finset.sum_congr rfl fun Y _ => by ring
  have N0 : (0 : ℝ) < ((h * w : ℕ) : ℝ) := by exact_mod_cast Nat.mul_pos (by omega) (by omega)
  rw [e1, normSq_mul, normSq_div, normSq_ofReal, normSq_ofReal, Real.mul_self_sqrt Q0, Real.mul_self_sqrt N0.le]
  have term : ∀ m, normSq ((fftOrtho (toC (through h w (ψ m) (A m) (B m) fun X Y => (d m).zp * t X Y))).px k l) =
      (d m).zp ^ 2 * normSq ((d m).psfHat.px k l) * normSq Φ := by
    intro m
    have hpsf : (fftOrtho (padTo h w (toC (ψ m)))).px k l = (d m).psfHat.px k l := by
      unfold SinglePsf.psfHat
      rw [(hs m).1, (hs m).2.1, hψ m]
    have s : ∀ X Y : ℕ, shiftPhase h w ((X : ℝ), (Y : ℝ)) k l =
        shiftPhase h w (((X - A m : ℤ) : ℝ), ((Y - B m : ℤ) : ℝ)) k l * shiftPhase h w (d m).com k l := by
      intro X Y
      rw [← shiftPhase_add, hc m]
      congr 1
      push_cast
      simp
    have sum : Φ = (∑ X ∈ range h, ∑ Y ∈ range w, (t X Y : ℂ) *
          shiftPhase h w (((X - A m : ℤ) : ℝ), ((Y - B m : ℤ) : ℝ)) k l) * shiftPhase h w (d m).com k l := by
      rw [hΦ]
      simp only [s, Finset.sum_mul, mul_assoc]
    have sum2 : (∑ X ∈ range h, ∑ Y ∈ range w, (((d m).zp * t X Y : ℝ) : ℂ) *
          shiftPhase h w (((X - A m : ℤ) : ℝ), ((Y - B m : ℤ) : ℝ)) k l) =
        ((d m).zp : ℂ) * ∑ X ∈ range h, ∑ Y ∈ range w, (t X Y : ℂ) *
          shiftPhase h w (((X - A m : ℤ) : ℝ), ((Y - B m : ℤ) : ℝ)) k l := by
      simp only [Finset.mul_sum, Complex.ofReal_mul, mul_assoc]
    rw [fftOrtho_through h w hh hw, hpsf, sum2, sum, normSq_mul, normSq_mul, normSq_mul, normSq_ofReal,
      normSq_shiftPhase]
    ring
  simp only [term]
  rw [hQ]
  unfold zackayPower
  have : ∀ x y : ℝ, ((h * w : ℕ) : ℝ) * (x / ((h * w : ℕ) : ℝ) * y) = x * y := fun x y => by field_simp
  rw [this, Finset.sum_mul]
  exact Finset.sum_congr rfl fun m _ => by ring

end

section
include hn hs hp hp' hb hh hw hψ hc hpow

/-- R keeps all the energy of the sky. -/
theorem sky_energy (t : ℕ → ℕ → ℝ) :
    ∑ q, skyMeans d h w ψ A B t q ^ 2 / nightNoise d q ^ 2 =
      (1 / ((h * w : ℕ) : ℝ))⁻¹ * ∑ p, (∑ q, coaddKernel d h w p q * skyMeans d h w ψ A B t q) ^ 2 := by
  set y : Fin n → Img ℝ := fun m => through h w (ψ m) (A m) (B m) fun X Y => (d m).zp * t X Y with hy
  have ysh : ∀ m, (y m).h = h ∧ (y m).w = w := fun m => ⟨rfl, rfl⟩
  have L : ∑ q, skyMeans d h w ψ A B t q ^ 2 / nightNoise d q ^ 2 =
      ∑ m, (∑ k ∈ range h, ∑ l ∈ range w, normSq ((fftOrtho (toC (y m))).px k l)) / (d m).var ^ 2 := by
    rw [Fintype.sum_prod_type]
    refine Finset.sum_congr rfl fun m _ => ?_
    have pv := fftOrtho_power h w (fun a b => (((y m).px a b : ℝ) : ℂ))
    change ∑ k ∈ range h, ∑ l ∈ range w, normSq ((fftOrtho (toC (y m))).px k l) = _ at pv
    rw [pv, sum_pixels, Finset.sum_div]
    refine Finset.sum_congr rfl fun q _ => ?_
    rw [normSq_ofReal, ← sq]
    rfl
  have v : ∀ p : Fin h × Fin w, (∑ q, coaddKernel d h w p q * skyMeans d h w ψ A B t q) ^ 2 =
      normSq ((ifftOrtho ⟨h, w, fun k l => ∑ m, gainCoadd d h w m k l * (fftOrtho (toC (y m))).px k l⟩).px p.1 p.2) := by
    intro p
    have k1 := coadd_kernel (fun _ _ => none) hn d h w 1 procs hs hp hp' hb ψ hψ A B hc y ysh p
    have k2 := (coadd_real_hat (fun _ _ => none) hn d h w 1 procs hs hp hp' hb ψ hψ A B hc y ysh).2 p.1 p.1.2 p.2 p.2.2
    rw [← k2]
    change _ = normSq ((((coaddOf (fun _ _ => none) d 1 procs fun m => toC (y m)).px p.1 p.2).re : ℝ) : ℂ)
    rw [k1, ofReal_re, normSq_ofReal, ← sq]
    rfl
  simp only [v]
  rw [L, ← sum_pixels h w (fun i j => normSq ((ifftOrtho ⟨h, w, fun k l => ∑ m, gainCoadd d h w m k l *
    (fftOrtho (toC (y m))).px k l⟩).px i j)), ifftOrtho_power, one_div, inv_inv]
  simp only [Finset.sum_div]
  rw [Finset.sum_comm, Finset.mul_sum]
  refine Finset.sum_congr rfl fun k hk => ?_
  rw [Finset.sum_comm, Finset.mul_sum]
  refine Finset.sum_congr rfl fun l hl => ?_
  exact sky_power d h w hs hh hw ψ hψ A B hc hpow t k l (mem_range.1 hk) (mem_range.1 hl)

include hv

theorem sky_spanned (t : ℕ → ℕ → ℝ) (q : Fin n × Fin h × Fin w) :
    skyMeans d h w ψ A B t q / nightNoise d q ^ 2 = ((h * w : ℕ) : ℝ) *
      ∑ p, (∑ q, coaddKernel d h w p q * skyMeans d h w ψ A B t q) * coaddKernel d h w p q := by
  have N0 : (0 : ℝ) < ((h * w : ℕ) : ℝ) := by exact_mod_cast Nat.mul_pos (by omega) (by omega)
  have := spanned_by_rows (coaddKernel d h w) (nightNoise d) (fun q => hv q.1) (1 / ((h * w : ℕ) : ℝ))
    (by positivity) (coaddKernel_white hn d h w procs hs hp hp' hb ψ hψ A B hc hv hpow) (skyMeans d h w ψ A B t)
    (sky_energy hn d h w procs hs hp hp' hb hh hw ψ hψ A B hc hpow t) q
  rwa [one_div, inv_inv] at this

/-- The sum of the exposures against the sky, over the variances, is a sum over the pixels of R. -/
theorem sky_inner (t : ℕ → ℕ → ℝ) (e : Fin n × Fin h × Fin w → ℝ) :
    ∑ q, skyMeans d h w ψ A B t q / nightNoise d q ^ 2 * e q = ((h * w : ℕ) : ℝ) *
      ∑ p, coaddPix lt d h w psfShape procs (skyMeans d h w ψ A B t) p * coaddPix lt d h w psfShape procs e p := by
  simp only [sky_spanned hn d h w procs hs hp hp' hb hh hw ψ hψ A B hc hv hpow t,
    coaddPix_eq lt hn d h w psfShape procs hs hp hp' hb ψ hψ A B hc]
  simp only [mul_assoc, ← Finset.mul_sum]
  congr 1
  simp only [Finset.sum_mul (s := (univ : Finset (Fin h × Fin w)))]
  rw [Finset.sum_comm]
  refine Finset.sum_congr rfl fun p _ => ?_
  rw [Finset.mul_sum]
  exact Finset.sum_congr rfl fun q _ => by ring

/-- C183: the law of the exposures of any sky has a density, against the law of the exposures without it, that depends on
the exposures through R alone. -/
theorem coadd_sufficient (m : Fin n × Fin h × Fin w → ℝ) (t : ℕ → ℕ → ℝ) :
    ∃ f : (Fin h × Fin w → ℝ) → ℝ, Measurable f ∧ (∀ y, 0 < f y) ∧
      pixelLaw (fun q => m q + skyMeans d h w ψ A B t q) (nightNoise d) =
        (pixelLaw m (nightNoise d)).withDensity fun e => ENNReal.ofReal (f (coaddPix lt d h w psfShape procs e)) := by
  refine ⟨fun y => Real.exp (((h * w : ℕ) : ℝ) * ∑ p, coaddPix lt d h w psfShape procs (skyMeans d h w ψ A B t) p * y p -
    ∑ q, (skyMeans d h w ψ A B t q / nightNoise d q ^ 2 * m q + skyMeans d h w ψ A B t q ^ 2 / (2 * nightNoise d q ^ 2))),
    by fun_prop, fun y => Real.exp_pos _, ?_⟩
  rw [pixelLaw_density m (nightNoise d) _ fun q => hv q.1]
  congr 1
  funext e
  beta_reduce
  unfold pixelRatio
  rw [← ENNReal.ofReal_prod_of_nonneg fun i _ => (Real.exp_pos _).le, ← Real.exp_sum,
    ← sky_inner lt hn d h w psfShape procs hs hp hp' hb hh hw ψ hψ A B hc hv hpow t e, ← Finset.sum_sub_distrib]
  congr 2
  refine Finset.sum_congr rfl fun q _ => ?_
  ring

/-- C183: whatever is computed from the exposures of an unknown sky, something computed from R does as well: it has the same
mean and no greater mean squared error, whatever the sky is and whatever it is meant to estimate. -/
theorem coadd_replaces (m : Fin n × Fin h × Fin w → ℝ) (g : (Fin n × Fin h × Fin w → ℝ) → ℝ) (hg : Measurable g) (a b : ℝ)
    (hab : ∀ e, a ≤ g e ∧ g e ≤ b) :
    ∃ φ : (Fin h × Fin w → ℝ) → ℝ, Measurable φ ∧ (∀ y, a ≤ φ y ∧ φ y ≤ b) ∧ ∀ t : ℕ → ℕ → ℝ,
      ∫ e, φ (coaddPix lt d h w psfShape procs e) ∂pixelLaw (fun q => m q + skyMeans d h w ψ A B t q) (nightNoise d) =
        ∫ e, g e ∂pixelLaw (fun q => m q + skyMeans d h w ψ A B t q) (nightNoise d) ∧
      ∀ θ : ℝ, ∫ e, (φ (coaddPix lt d h w psfShape procs e) - θ) ^ 2
          ∂pixelLaw (fun q => m q + skyMeans d h w ψ A B t q) (nightNoise d) ≤
        ∫ e, (g e - θ) ^ 2 ∂pixelLaw (fun q => m q + skyMeans d h w ψ A B t q) (nightNoise d) := by
  have mR : Measurable (coaddPix (n := n) lt d h w psfShape procs) := by
    refine measurable_pi_lambda _ fun p => ?_
    have : (fun e => coaddPix lt d h w psfShape procs e p) = fun e => ∑ q, coaddKernel d h w p q * e q :=
      funext fun e => coaddPix_eq lt hn d h w psfShape procs hs hp hp' hb ψ hψ A B hc e p
    rw [this]
    fun_prop
  obtain ⟨φ, mφ, bφ, k⟩ := sufficient_replaces (pixelLaw m (nightNoise d)) (coaddPix lt d h w psfShape procs) mR g hg a b hab
  refine ⟨φ, mφ, bφ, fun t => ?_⟩
  obtain ⟨f, mf, pf, ef⟩ := coadd_sufficient lt hn d h w psfShape procs hs hp hp' hb hh hw ψ hψ A B hc hv hpow m t
  exact k f mf (fun y => (pf y).le) _ inferInstance ef

/-- C183: so every test of the exposures can be replaced by one of R, which reports with some probability that depends on R
alone: the two report with the same probability, whatever the sky. -/
theorem coadd_replaces_test (m : Fin n × Fin h × Fin w → ℝ) (S : Set (Fin n × Fin h × Fin w → ℝ)) (hS : MeasurableSet S) :
    ∃ φ : (Fin h × Fin w → ℝ) → ℝ, Measurable φ ∧ (∀ y, 0 ≤ φ y ∧ φ y ≤ 1) ∧ ∀ t : ℕ → ℕ → ℝ,
      ∫ e, φ (coaddPix lt d h w psfShape procs e) ∂pixelLaw (fun q => m q + skyMeans d h w ψ A B t q) (nightNoise d) =
        (pixelLaw (fun q => m q + skyMeans d h w ψ A B t q) (nightNoise d)).real S := by
  obtain ⟨φ, mφ, bφ, k⟩ := coadd_replaces lt hn d h w psfShape procs hs hp hp' hb hh hw ψ hψ A B hc hv hpow m
    (S.indicator fun _ => 1) (measurable_const.indicator hS) 0 1 (fun e => by
      by_cases he : e ∈ S
      · rw [Set.indicator_of_mem he]; norm_num
      · rw [Set.indicator_of_notMem he]; norm_num)
  refine ⟨φ, mφ, bφ, fun t => ?_⟩
  rw [(k t).1, integral_indicator hS, setIntegral_const, smul_eq_mul, mul_one]

omit hv in
/-- Every image is the coadd of some sky. -/
theorem sky_onto (y : Fin h × Fin w → ℝ) : ∃ t : ℕ → ℕ → ℝ, ∀ p,
    coaddPix lt d h w psfShape procs (skyMeans d h w ψ A B t) p = y p := by
  have vec : ∀ (u : Fin h × Fin w → ℝ) q, skyMeans d h w ψ A B (errImg u).px q =
      ∑ r : Fin h × Fin w, (d q.1).zp * u r * padPx (ψ q.1) (((q.2.1 : ℤ) - r.1 + A q.1) % h).toNat
        (((q.2.2 : ℤ) - r.2 + B q.1) % w).toNat := by
    intro u q
    change ∑ X ∈ range h, ∑ Y ∈ range w, (d q.1).zp * (errImg u).px X Y *
      padPx (ψ q.1) (((q.2.1 : ℤ) - X + A q.1) % h).toNat (((q.2.2 : ℤ) - Y + B q.1) % w).toNat = _
    rw [sum_pixels]
    exact Finset.sum_congr rfl fun r _ => by rw [errImg_px]
  let F : (Fin h × Fin w → ℝ) →ₗ[ℝ] (Fin h × Fin w → ℝ) :=
    { toFun := fun u => coaddPix lt d h w psfShape procs (skyMeans d h w ψ A B (errImg u).px)
      map_add' := fun u u' => by
        funext p
        simp only [Pi.add_apply, coaddPix_eq lt hn d h w psfShape procs hs hp hp' hb ψ hψ A B hc, vec, mul_add, add_mul,
          Finset.sum_add_distrib]
      map_smul' := fun c u => by
        funext p
        simp only [Pi.smul_apply, smul_eq_mul, RingHom.id_apply, coaddPix_eq lt hn d h w psfShape procs hs hp hp' hb ψ hψ A B hc,
          vec, Finset.mul_sum]
        exact Finset.sum_congr rfl fun q _ => Finset.sum_congr rfl fun r _ => by ring }
  have inj : Function.Injective F := by
    rw [injective_iff_map_eq_zero]
    intro u hu
    have un := (coadd_unchanged_iff lt hn d h w psfShape procs hs hp hp' hb hh hw ψ hψ A B hc hpow (errImg u).px).1 (by
      intro i hi j hj
      have e1 := coaddOf_eq lt hn d h w psfShape procs hs hp hp' hb
        (fun m => plusImg (d m).interped (toC (through h w (ψ m) (A m) (B m) fun X Y => (d m).zp * (errImg u).px X Y)))
        (fun m => ⟨(hs m).1, (hs m).2.1⟩) i j
      have e2 := coaddOf_eq lt hn d h w psfShape procs hs hp hp' hb (fun m => (d m).interped)
        (fun m => ⟨(hs m).1, (hs m).2.1⟩) i j
      have e3 := coaddOf_eq lt hn d h w psfShape procs hs hp hp' hb
        (fun m => toC (through h w (ψ m) (A m) (B m) fun X Y => (d m).zp * (errImg u).px X Y)) (fun m => ⟨rfl, rfl⟩) i j
      have e4 := coadd_kernel lt hn d h w psfShape procs hs hp hp' hb ψ hψ A B hc
        (fun m => through h w (ψ m) (A m) (B m) fun X Y => (d m).zp * (errImg u).px X Y) (fun m => ⟨rfl, rfl⟩)
        (⟨i, hi⟩, ⟨j, hj⟩)
      have e5 : (∑ q, coaddKernel d h w (⟨i, hi⟩, ⟨j, hj⟩) q * skyMeans d h w ψ A B (errImg u).px q) = 0 := by
        rw [← coaddPix_eq lt hn d h w psfShape procs hs hp hp' hb ψ hψ A B hc]
        exact congrFun hu (⟨i, hi⟩, ⟨j, hj⟩)
      have e6 := e3.symm.trans (e4.trans ((congrArg _ e5).trans ofReal_zero))
      rw [e1, e2]
      simp only [plusImg, add_mul, Finset.sum_add_distrib]
      rw [e6, add_zero])
    funext p
    have := un p.1 p.1.2 p.2 p.2.2
    rwa [errImg_px] at this
  obtain ⟨u, hu⟩ := LinearMap.injective_iff_surjective.1 inj y
  exact ⟨(errImg u).px, fun p => congrFun hu p⟩

/-- C183: two sets of exposures favour the same skies, to the same degree, exactly if their coadds are equal. -/
theorem coadd_minimal (m e e' : Fin n × Fin h × Fin w → ℝ) :
    (∀ i < h, ∀ j < w, (coaddImg lt d h w psfShape procs e).px i j = (coaddImg lt d h w psfShape procs e').px i j) ↔
      ∀ t t' : ℕ → ℕ → ℝ, likelihood d h w ψ A B m t e * likelihood d h w ψ A B m t' e' =
        likelihood d h w ψ A B m t' e * likelihood d h w ψ A B m t e' := by
  have N0 : (0 : ℝ) < ((h * w : ℕ) : ℝ) := by exact_mod_cast Nat.mul_pos (by omega) (by omega)
  -- equal coadds
  have same : (∀ i < h, ∀ j < w, (coaddImg lt d h w psfShape procs e).px i j = (coaddImg lt d h w psfShape procs e').px i j) ↔
      ∀ p, coaddPix lt d h w psfShape procs e p = coaddPix lt d h w psfShape procs e' p := by
    constructor
    · intro H p
      unfold coaddPix
      rw [H p.1 p.1.2 p.2 p.2.2]
    · intro H i hi j hj
      have k := fun e => coaddImg_px lt hn d h w psfShape procs hs hp hp' hb ψ hψ A B hc e (⟨i, hi⟩, ⟨j, hj⟩)
      have H' := H (⟨i, hi⟩, ⟨j, hj⟩)
      rw [coaddPix_eq lt hn d h w psfShape procs hs hp hp' hb ψ hψ A B hc,
        coaddPix_eq lt hn d h w psfShape procs hs hp hp' hb ψ hψ A B hc] at H'
      exact (k e).trans ((congrArg _ H').trans (k e').symm)
  -- the likelihoods
  have lik : ∀ t x, likelihood d h w ψ A B m t x = (∏ q : Fin n × Fin h × Fin w, (Real.sqrt (2 * Real.pi * nightNoise d q ^ 2))⁻¹) *
      Real.exp (∑ q, -(x q - (m q + skyMeans d h w ψ A B t q)) ^ 2 / (2 * nightNoise d q ^ 2)) := by
    intro t x
    unfold likelihood gaussianPDFReal
    rw [Finset.prod_mul_distrib, Real.exp_sum]
    simp only [Real.coe_toNNReal _ (sq_nonneg _)]
  have step : ∀ t t', (likelihood d h w ψ A B m t e * likelihood d h w ψ A B m t' e' =
        likelihood d h w ψ A B m t' e * likelihood d h w ψ A B m t e') ↔
      ∑ p, (coaddPix lt d h w psfShape procs (skyMeans d h w ψ A B t) p -
        coaddPix lt d h w psfShape procs (skyMeans d h w ψ A B t') p) *
        (coaddPix lt d h w psfShape procs e p - coaddPix lt d h w psfShape procs e' p) = 0 := by
    intro t t'
    set C := ∏ q : Fin n × Fin h × Fin w, (Real.sqrt (2 * Real.pi * nightNoise d q ^ 2))⁻¹ with hC
    have C0 : C ≠ 0 := by
      refine Finset.prod_ne_zero_iff.2 fun q _ => inv_ne_zero (Real.sqrt_pos.2 ?_).ne'
      have : nightNoise d q ≠ 0 := hv q.1
      positivity
    have ex : ∀ x y z u : ℝ, C * Real.exp x * (C * Real.exp y) = C * Real.exp z * (C * Real.exp u) ↔ x + y = z + u := by
      intro x y z u
      rw [← Real.exp_injective.eq_iff (a := x + y), Real.exp_add, Real.exp_add]
      constructor
      · intro H
        have : C * C * (Real.exp x * Real.exp y) = C * C * (Real.exp z * Real.exp u) := by linarith
        exact mul_left_cancel₀ (mul_ne_zero C0 C0) this
      · intro H
        linear_combination C * C * H
    rw [lik, lik, lik, lik, ex, ← sub_eq_zero]
    have i1 := sky_inner lt hn d h w psfShape procs hs hp hp' hb hh hw ψ hψ A B hc hv hpow t e
    have i2 := sky_inner lt hn d h w psfShape procs hs hp hp' hb hh hw ψ hψ A B hc hv hpow t e'
    have i3 := sky_inner lt hn d h w psfShape procs hs hp hp' hb hh hw ψ hψ A B hc hv hpow t' e
    have i4 := sky_inner lt hn d h w psfShape procs hs hp hp' hb hh hw ψ hψ A B hc hv hpow t' e'
    have key : (∑ q, -(e q - (m q + skyMeans d h w ψ A B t q)) ^ 2 / (2 * nightNoise d q ^ 2) +
          ∑ q, -(e' q - (m q + skyMeans d h w ψ A B t' q)) ^ 2 / (2 * nightNoise d q ^ 2)) -
        (∑ q, -(e q - (m q + skyMeans d h w ψ A B t' q)) ^ 2 / (2 * nightNoise d q ^ 2) +
          ∑ q, -(e' q - (m q + skyMeans d h w ψ A B t q)) ^ 2 / (2 * nightNoise d q ^ 2)) =
        ((h * w : ℕ) : ℝ) * ∑ p, (coaddPix lt d h w psfShape procs (skyMeans d h w ψ A B t) p -
        coaddPix lt d h w psfShape procs (skyMeans d h w ψ A B t') p) *
        (coaddPix lt d h w psfShape procs e p - coaddPix lt d h w psfShape procs e' p) := by
      have r : ((h * w : ℕ) : ℝ) * ∑ p, (coaddPix lt d h w psfShape procs (skyMeans d h w ψ A B t) p -
          coaddPix lt d h w psfShape procs (skyMeans d h w ψ A B t') p) *
          (coaddPix lt d h w psfShape procs e p - coaddPix lt d h w psfShape procs e' p) =
          (∑ q, skyMeans d h w ψ A B t q / nightNoise d q ^ 2 * e q - ∑ q, skyMeans d h w ψ A B t q / nightNoise d q ^ 2 * e' q) -
          (∑ q, skyMeans d h w ψ A B t' q / nightNoise d q ^ 2 * e q -
            ∑ q, skyMeans d h w ψ A B t' q / nightNoise d q ^ 2 * e' q) := by
        rw [i1, i2, i3, i4, ← mul_sub, ← mul_sub, ← mul_sub, ← Finset.sum_sub_distrib, ← Finset.sum_sub_distrib,
          ← Finset.sum_sub_distrib]
        congr 1
        exact Finset.sum_congr rfl fun p _ => by ring
      rw [r, ← Finset.sum_add_distrib, ← Finset.sum_add_distrib, ← Finset.sum_sub_distrib, ← Finset.sum_sub_distrib,
        ← Finset.sum_sub_distrib, ← Finset.sum_sub_distrib]
      refine Finset.sum_congr rfl fun q _ => ?_
      have : nightNoise d q ≠ 0 := hv q.1
      field_simp
      ring
    rw [key, mul_eq_zero]
    exact ⟨fun H => H.resolve_left N0.ne', Or.inr⟩
  rw [same]
  constructor
  · intro H t t'
    rw [step]
    exact Finset.sum_eq_zero fun p _ => by rw [H p, sub_self, mul_zero]
  · intro H p
    obtain ⟨t, ht⟩ := sky_onto lt hn d h w psfShape procs hs hp hp' hb hh hw ψ hψ A B hc hpow
      (fun p => coaddPix lt d h w psfShape procs e p - coaddPix lt d h w psfShape procs e' p)
    obtain ⟨t', ht'⟩ := sky_onto lt hn d h w psfShape procs hs hp hp' hb hh hw ψ hψ A B hc hpow (fun _ => 0)
    have k := (step t t').1 (H t t')
    simp only [ht, ht', sub_zero] at k
    have z := (Finset.sum_eq_zero_iff_of_nonneg fun p _ => mul_self_nonneg _).1 k p (Finset.mem_univ p)
    exact sub_eq_zero.1 (mul_self_eq_zero.1 z)

end
end

/-! ## Worked instances -/

/-- The PSFs of the sharp and the soft exposure. -/
noncomputable def sharpSoftPsf (m : Fin 2) : Img ℝ := if m = 0 then ⟨1, 1, fun _ _ => 1⟩ else ⟨1, 2, fun _ _ => 1 / 2⟩

/-- The sharp and the soft exposure of 1×2 pixels: equal coadds, equal likelihoods; and a test that looks at the second pixel of
the sharp exposure only, replaced by one that looks at the coadd. -/
example (lt : List CoImg → List CoImg → Option Bool) :
    (∀ e e' : Fin 2 × Fin 1 × Fin 2 → ℝ,
      (∀ i < 1, ∀ j < 2, (coaddImg lt sharpAndSoft 1 2 0 2 e).px i j = (coaddImg lt sharpAndSoft 1 2 0 2 e').px i j) ↔
        ∀ t t' : ℕ → ℕ → ℝ, likelihood sharpAndSoft 1 2 sharpSoftPsf 0 0 0 t e * likelihood sharpAndSoft 1 2 sharpSoftPsf 0 0 0 t' e' =
          likelihood sharpAndSoft 1 2 sharpSoftPsf 0 0 0 t' e * likelihood sharpAndSoft 1 2 sharpSoftPsf 0 0 0 t e') ∧
    ∃ φ : (Fin 1 × Fin 2 → ℝ) → ℝ, Measurable φ ∧ (∀ y, 0 ≤ φ y ∧ φ y ≤ 1) ∧ ∀ t : ℕ → ℕ → ℝ,
      ∫ e, φ (coaddPix lt sharpAndSoft 1 2 0 2 e)
          ∂pixelLaw (fun q => 0 + skyMeans sharpAndSoft 1 2 sharpSoftPsf 0 0 t q) (nightNoise sharpAndSoft) =
        (pixelLaw (fun q => 0 + skyMeans sharpAndSoft 1 2 sharpSoftPsf 0 0 t q) (nightNoise sharpAndSoft)).real
          {e | 1 < e (0, 0, 1)} := by
  have hs : ∀ j, (sharpAndSoft j).interped.h = 1 ∧ (sharpAndSoft j).interped.w = 2 ∧ (sharpAndSoft j).mask.HasShape 1 2 :=
    fun m => ⟨rfl, rfl, by intro a h; cases h⟩
  have hψ : ∀ m, (sharpAndSoft m).psf = toC (sharpSoftPsf m) := by
    intro m; fin_cases m <;> simp [sharpAndSoft, sharpSoftPsf, toC, Img.map]
  have hc : ∀ m, (sharpAndSoft m).com = (((0 : Fin 2 → ℤ) m : ℝ), ((0 : Fin 2 → ℤ) m : ℝ)) :=
    fun _ => by norm_num [sharpAndSoft]
  have hv : ∀ m, (sharpAndSoft m).var ≠ 0 := fun _ => by norm_num [sharpAndSoft]
  have hpow : ∀ k < 1, ∀ l < 2, zackayPower (fun j => (sharpAndSoft j).zp) (fun j => (sharpAndSoft j).var)
      (fun j => (sharpAndSoft j).psfHat.px k l) ≠ 0 := by
    intro k hk l hl
    obtain rfl : k = 0 := by omega
    obtain rfl | rfl : l = 0 ∨ l = 1 := by omega
    · exact ne_of_eq_of_ne sharpAndSoft_power.1 (by norm_num)
    · exact ne_of_eq_of_ne sharpAndSoft_power.2 (by norm_num)
  exact ⟨fun e e' => coadd_minimal lt (n := 2) (by norm_num) sharpAndSoft 1 2 0 2 hs (by norm_num) (by norm_num) (by norm_num)
      (by norm_num) (by norm_num) sharpSoftPsf hψ 0 0 hc hv hpow 0 e e',
    coadd_replaces_test lt (n := 2) (by norm_num) sharpAndSoft 1 2 0 2 hs (by norm_num) (by norm_num) (by norm_num)
      (by norm_num) (by norm_num) sharpSoftPsf hψ 0 0 hc hv hpow 0 {e | 1 < e (0, 0, 1)}
      (measurableSet_lt measurable_const (measurable_pi_apply _))⟩

end PI
