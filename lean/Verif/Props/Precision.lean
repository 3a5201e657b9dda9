import Verif.Lemmas.Precision
import Verif.Props.Invariant

/-!
# Property C185: how precisely fluxes can be measured

Exposures with independent Gaussian errors. The flux read off the coadd, and the flux of a new star read off the difference
image, have the smallest variance of all measurements that are right on average.
-/

namespace PI

open Complex Finset MeasureTheory ProbabilityTheory
open scoped NNReal ENNReal

/-- A sum read in units of what a star of unit flux adds to it, above the sum of the known images. -/
noncomputable def readFlux {ι : Type} (S : (ι → ℝ) → ℝ) (m s : ι → ℝ) (e : ι → ℝ) : ℝ :=
  (S e - S m) / (S (fun r => m r + s r) - S m)

/-! ## coadd -/

section
variable (lt : List CoImg → List CoImg → Option Bool) {n : ℕ} (hn : 0 < n)
    (d : Fin n → SinglePsf) (h w psfShape : ℕ) (procs : ℤ)
    (hs : ∀ j, (d j).interped.h = h ∧ (d j).interped.w = w ∧ (d j).mask.HasShape h w)
    (hp : procs ≤ n) (hp' : procs ≤ 2 ^ 25) (hb : procs * n ≤ 2 ^ 50)
    (ψ : Fin n → Img ℝ) (hψ : ∀ m, (d m).psf = toC (ψ m)) (p q : Fin n → ℕ) (X Y : ℤ)
    (hpq : ∀ m, p m < h ∧ q m < w)
    (hX : ∀ m, (p m : ℝ) + (d m).com.1 = X) (hY : ∀ m, (q m : ℝ) + (d m).com.2 = Y)
    (hpow : ∀ k < h, ∀ l < w,
      zackayPower (fun j => (d j).zp) (fun j => (d j).var) (fun j => (d j).psfHat.px k l) ≠ 0)
include hn hs hp hp' hb hψ hpq hX hY hpow

/-- C185: the flux of a star read off the coadd is right on average, and no measurement made from the exposures that is right
on average has a smaller variance, whatever the flux and the known rest of the sky. -/
theorem coadd_flux_best (hv : ∀ m, (d m).var ≠ 0) :
    ∃ out, coaddCore lt ((List.ofFn d).map SinglePsf.toCoImg) psfShape procs = .ok out ∧
      ∀ (R : (Fin n × Fin h × Fin w → ℝ) → ℝ), (∀ e, R e = coaddSum lt d h w psfShape procs out.Pr X Y e) →
      ∀ s, s = pixelVec (commonStar d h w ψ p q) →
      ∀ V, V = ∑ k ∈ range h, ∑ l ∈ range w,
        zackayPower (fun j => (d j).zp) (fun j => (d j).var) (fun j => (d j).psfHat.px k l) →
      ∀ (m : Fin n × Fin h × Fin w → ℝ) (c₀ : ℝ),
        MemLp (readFlux R m s) 2 (pixelLaw (fun r => m r + c₀ * s r) (nightNoise d)) ∧
        ∫ e, readFlux R m s e ∂pixelLaw (fun r => m r + c₀ * s r) (nightNoise d) = c₀ ∧
        ∫ e, (readFlux R m s e - c₀) ^ 2 ∂pixelLaw (fun r => m r + c₀ * s r) (nightNoise d) = 1 / V ∧
        ∀ g : (Fin n × Fin h × Fin w → ℝ) → ℝ, MemLp g 2 (pixelLaw (fun r => m r + c₀ * s r) (nightNoise d)) →
          ∀ ε : ℝ, 0 < ε →
          (∀ c, c₀ ≤ c → c < c₀ + ε → ∫ e, g e ∂pixelLaw (fun r => m r + c * s r) (nightNoise d) = c) →
            1 / V ≤ ∫ e, (g e - c₀) ^ 2 ∂pixelLaw (fun r => m r + c₀ * s r) (nightNoise d) := by
  obtain ⟨out, e, ⟨m0, a0, ha0, b0, hb0, s0⟩, lam, l0, hl⟩ :=
    coadd_weights_pos lt hn d h w psfShape procs hs hp hp' hb ψ hψ p q X Y hpq hX hY hpow hv
  refine ⟨out, e, fun R hR s es V eV m c₀ => ?_⟩
  have split : ∀ x : Fin n × Fin h × Fin w → ℝ, coaddSum lt d h w psfShape procs out.Pr X Y x =
      (∑ i ∈ range h, ∑ j ∈ range w, (starRingEnd ℂ) (out.Pr.px (((i : ℤ) - (X - psfShape)) % h).toNat
        (((j : ℤ) - (Y - psfShape)) % w).toNat) * (coaddOf lt d psfShape procs fun m => (d m).interped).px i j).re +
      lam * ∑ r, s r / nightNoise d r ^ 2 * x r := by
    intro x
    unfold coaddSum
    simp only [coadd_noise_linear lt hn d h w psfShape procs hs hp hp' hb (fun m => toC (errImg fun r => x (m, r))), mul_add,
      Finset.sum_add_distrib, add_re]
    congr 1
    have k := linResp_pixels h w (fun i j => (starRingEnd ℂ) (out.Pr.px (((i : ℤ) - (X - psfShape)) % h).toNat
        (((j : ℤ) - (Y - psfShape)) % w).toNat)) (respCoadd lt d psfShape procs) (fun m => errImg fun r => x (m, r))
    have k2 := congrArg Complex.re k
    rw [linResp_re] at k2
    refine Eq.trans k2.symm ?_
    rw [Finset.mul_sum]
    refine Finset.sum_congr rfl fun r _ => ?_
    rw [hl r.1 r.2.1 r.2.1.2 r.2.2 r.2.2.2, ofReal_re, es]
    unfold pixelVec nightNoise
    rw [errImg_px]
    ring
  set k0 : ℝ := (∑ i ∈ range h, ∑ j ∈ range w, (starRingEnd ℂ) (out.Pr.px (((i : ℤ) - (X - psfShape)) % h).toNat
        (((j : ℤ) - (Y - psfShape)) % w).toNat) * (coaddOf lt d psfShape procs fun m => (d m).interped).px i j).re with hk0
  have σ0 : ∀ r : Fin n × Fin h × Fin w, nightNoise d r ≠ 0 := fun r => hv r.1
  have VI : V = ∑ r, s r ^ 2 / nightNoise d r ^ 2 := by
    rw [eV, common_power d h w hs ψ hψ p q hpq, Finset.sum_product, Fintype.sum_prod_type]
    refine Finset.sum_congr rfl fun j _ => ?_
    rw [Finset.sum_product, sum_pixels, es]
    rfl
  have V0 : 0 < V := by
    rw [VI]
    refine Finset.sum_pos' (fun r _ => by positivity) ⟨(m0, ⟨a0, ha0⟩, ⟨b0, hb0⟩), Finset.mem_univ _, ?_⟩
    have t1 := σ0 (m0, ⟨a0, ha0⟩, ⟨b0, hb0⟩)
    have t2 : s (m0, ⟨a0, ha0⟩, ⟨b0, hb0⟩) ≠ 0 := by rw [es]; exact s0
    positivity
  have unit : R (fun r => m r + s r) - R m = lam * V := by
    rw [hR, hR, split, split, VI]
    simp only [mul_add, Finset.sum_add_distrib]
    have : ∑ r, s r / nightNoise d r ^ 2 * s r = ∑ r, s r ^ 2 / nightNoise d r ^ 2 :=
      Finset.sum_congr rfl fun r _ => by ring
    rw [this]
    ring
  have rf : ∀ x, readFlux R m s x = -(∑ r, s r / nightNoise d r ^ 2 * m r) / V +
      ∑ r, (s r / nightNoise d r ^ 2 / V) * x r := by
    intro x
    unfold readFlux
    rw [unit, hR, hR, split, split]
    have : ∑ r, (s r / nightNoise d r ^ 2 / V) * x r = (∑ r, s r / nightNoise d r ^ 2 * x r) / V := by
      rw [Finset.sum_div]
      exact Finset.sum_congr rfl fun r _ => by ring
    rw [this]
    field_simp
    ring
  have rf' : readFlux R m s = fun x => -(∑ r, s r / nightNoise d r ^ 2 * m r) / V +
      ∑ r, (s r / nightNoise d r ^ 2 / V) * x r := funext rf
  obtain ⟨l1, l2, l3⟩ := linear_measurement (fun r => m r + c₀ * s r) (nightNoise d) (fun r => s r / nightNoise d r ^ 2 / V)
    (-(∑ r, s r / nightNoise d r ^ 2 * m r) / V)
  have mean : -(∑ r, s r / nightNoise d r ^ 2 * m r) / V + ∑ r, (s r / nightNoise d r ^ 2 / V) * (m r + c₀ * s r) = c₀ := by
    have : ∑ r, (s r / nightNoise d r ^ 2 / V) * (m r + c₀ * s r) =
        (∑ r, s r / nightNoise d r ^ 2 * m r + c₀ * ∑ r, s r ^ 2 / nightNoise d r ^ 2) / V := by
      rw [Finset.mul_sum, ← Finset.sum_add_distrib, Finset.sum_div]
      exact Finset.sum_congr rfl fun r _ => by ring
    rw [this, ← VI]
    field_simp
    ring
  rw [mean] at l2 l3
  rw [rf']
  refine ⟨l1, l2, l3.trans ?_, fun g hg ε hε hu => ?_⟩
  · have : ∀ r, (s r / nightNoise d r ^ 2 / V) ^ 2 * nightNoise d r ^ 2 = s r ^ 2 / nightNoise d r ^ 2 / V ^ 2 := fun r => by
      have := σ0 r
      field_simp
    simp only [this, ← Finset.sum_div]
    rw [← VI]
    field_simp
  · have k := flux_bound (fun r => m r + c₀ * s r) (nightNoise d) s σ0 g hg c₀ ε hε fun c c0 c1 => by
      rw [← hu (c₀ + c) (by linarith) (by linarith)]
      congr 2
      funext r
      ring
    rw [← VI] at k
    rwa [div_le_iff₀' V0]

end

/-! ## subtract -/

section
variable (env : SubEnv) (it : Bool) (ref new : SubImg) (h w : ℕ) (z : ℝ × ℝ)
    (hmr : ref.mask.HasShape h w) (hmn : new.mask.HasShape h w) (hz : env.zps = .ok z)
    (hc : env.fitted = true ∨ (0 ≤ (centerOfMass new.psf).1 ∧ 0 ≤ (centerOfMass new.psf).2))
    (hr : ref.interped.shape = (h, w)) (hn : new.interped.shape = (h, w)) (hh : h ≠ 0) (hw : w ≠ 0)
    (gr : GuardIdle h w ref.psf) (gn : GuardIdle h w new.psf) (A B A' B' : ℤ)
    (hA : centerOfMass ref.psf = ((A : ℝ), (B : ℝ))) (hA' : centerOfMass new.psf = ((A' : ℝ), (B' : ℝ)))

include hh hw in
/-- A constant star is an unchanging sky. -/
theorem constantStar_sky (b : ℝ) (X Y : ℤ) : ∃ t : ℕ → ℕ → ℝ,
    pixelVec (constantStar h w ref new b A B A' B' X Y) = unchangedSky ref new h w A B A' B' b t := by
  have lX := emod_toNat_lt h hh X
  have lY := emod_toNat_lt w hw Y
  set x := (X % (h : ℤ)).toNat with hx
  set y := (Y % (w : ℤ)).toNat with hy
  have ex : ∀ C : ℤ, ((x : ℤ) - C) % h = (X - C) % h := fun C => by
    rw [hx, Int.toNat_of_nonneg (Int.emod_nonneg _ (by exact_mod_cast hh)), Int.sub_emod, Int.emod_emod, ← Int.sub_emod]
  have ey : ∀ C : ℤ, ((y : ℤ) - C) % w = (Y - C) % w := fun C => by
    rw [hy, Int.toNat_of_nonneg (Int.emod_nonneg _ (by exact_mod_cast hw)), Int.sub_emod, Int.emod_emod, ← Int.sub_emod]
  have one : ∀ (psf : Img ℝ) (C D : ℤ) (c : ℝ) (i j : ℕ), (skyStar h w psf C D X Y c).px i j =
      (through h w psf C D fun u v => c * if u = x ∧ v = y then 1 else 0).px i j := by
    intro psf C D c i j
    rw [through_stars h w hh hw, Finset.sum_eq_single_of_mem x (mem_range.2 lX), Finset.sum_eq_single_of_mem y (mem_range.2 lY)]
    · rw [if_pos ⟨rfl, rfl⟩, mul_one]
      unfold skyStar
      rw [ex, ey]
    · intro v _ hv
      rw [if_neg (by tauto), mul_zero]
      simp [skyStar, starAt]
    · intro u _ hu
      refine Finset.sum_eq_zero fun v _ => ?_
      rw [if_neg (by tauto), mul_zero]
      simp [skyStar, starAt]
  refine ⟨fun u v => if u = x ∧ v = y then 1 else 0, funext fun q => ?_⟩
  obtain ⟨m, r⟩ := q
  cases m with
  | false =>
    have := one ref.psf A B 1 r.1 r.2
    simp only [one_mul] at this
    exact this
  | true => exact one new.psf A' B' b r.1 r.2

omit hr hn in
theorem unchangedSky_add (b : ℝ) (t t' : ℕ → ℕ → ℝ) (c : ℝ) (q : Bool × Fin h × Fin w) :
    unchangedSky ref new h w A B A' B' b (fun X Y => t X Y + c * t' X Y) q =
      unchangedSky ref new h w A B A' B' b t q + c * unchangedSky ref new h w A B A' B' b t' q := by
  obtain ⟨m, r⟩ := q
  cases m with
  | false =>
    change (∑ X ∈ range h, ∑ Y ∈ range w, (t X Y + c * t' X Y) * _ : ℝ) =
      (∑ X ∈ range h, ∑ Y ∈ range w, t X Y * _ : ℝ) + c * (∑ X ∈ range h, ∑ Y ∈ range w, t' X Y * _ : ℝ)
    simp only [Finset.mul_sum, ← Finset.sum_add_distrib]
    exact Finset.sum_congr rfl fun X _ => Finset.sum_congr rfl fun Y _ => by ring
  | true =>
    change (∑ X ∈ range h, ∑ Y ∈ range w, b * (t X Y + c * t' X Y) * _ : ℝ) =
      (∑ X ∈ range h, ∑ Y ∈ range w, b * t X Y * _ : ℝ) + c * (∑ X ∈ range h, ∑ Y ∈ range w, b * t' X Y * _ : ℝ)
    simp only [Finset.mul_sum, ← Finset.sum_add_distrib]
    exact Finset.sum_congr rfl fun X _ => Finset.sum_congr rfl fun Y _ => by ring

/-- The unchanging skies. -/
def skySpace (b : ℝ) : Submodule ℝ (Bool × Fin h × Fin w → ℝ) where
  carrier := {y | ∃ t : ℕ → ℕ → ℝ, y = unchangedSky ref new h w A B A' B' b t}
  zero_mem' := ⟨fun _ _ => 0, funext fun q => by
    obtain ⟨m, r⟩ := q
    cases m <;> simp [unchangedSky, pixelVec, through]⟩
  add_mem' := by
    rintro _ _ ⟨t, rfl⟩ ⟨t', rfl⟩
    refine ⟨fun X Y => t X Y + 1 * t' X Y, funext fun q => ?_⟩
    rw [unchangedSky_add, one_mul, Pi.add_apply]
  smul_mem' := by
    rintro c _ ⟨t, rfl⟩
    refine ⟨fun X Y => 0 + c * t X Y, funext fun q => ?_⟩
    rw [unchangedSky_add ref new h w A B A' B' b (fun _ _ => 0) t c q]
    have : unchangedSky ref new h w A B A' B' b (fun _ _ => 0) q = 0 := by
      obtain ⟨m, r⟩ := q
      cases m <;> simp [unchangedSky, pixelVec, through]
    rw [this, zero_add, Pi.smul_apply, smul_eq_mul]

include hmr hmn hz hc hr hn hh hw gr gn hA hA'

/-- C185: the flux of a new star read off D is right on average whatever unchanging sky there is, and no measurement made
from the two exposures that is right on average whatever unchanging sky there is has a smaller variance. -/
theorem subtract_flux_best (hb : z.2 / z.1 ≠ 0) (hvr : ref.var ≠ 0) (hvn : new.var ≠ 0) (X Y : ℤ) :
    ∃ out, subtract env ⟨false, false, it⟩ ref new = .ok out ∧
      ∀ (D : (Bool × Fin h × Fin w → ℝ) → ℝ),
        (∀ e, D e = starSum h w (ref.var ^ 2 * (z.2 / z.1) ^ 2 + new.var ^ 2) out.P (noisyDiff env it ref new h w e)
          (X - A' - A) (Y - B' - B)) →
      ∀ s, s = pixelVec (newStar h w new A' B' X Y) →
      ∀ (law : (ℕ → ℕ → ℝ) → ℝ → (Bool × Fin h × Fin w → ℝ) → Measure (Bool × Fin h × Fin w → ℝ)),
        (∀ t c m, law t c m = pixelLaw (fun q => m q + unchangedSky ref new h w A B A' B' (z.2 / z.1) t q + c * s q)
          (pairNoise ref new)) →
      ∀ (m : Bool × Fin h × Fin w → ℝ) (t : ℕ → ℕ → ℝ) (c₀ : ℝ),
        MemLp (readFlux D m s) 2 (law t c₀ m) ∧
        ∫ e, readFlux D m s e ∂law t c₀ m = c₀ ∧
        ∫ e, (readFlux D m s e - c₀) ^ 2 ∂law t c₀ m = 1 / diffInfo ref new (z.2 / z.1) h w ∧
        ∀ g : (Bool × Fin h × Fin w → ℝ) → ℝ, MemLp g 2 (law t c₀ m) → ∀ ε : ℝ, 0 < ε →
          (∀ t' c, c₀ ≤ c → c < c₀ + ε → ∫ e, g e ∂law t' c m = c) →
            1 / diffInfo ref new (z.2 / z.1) h w ≤ ∫ e, (g e - c₀) ^ 2 ∂law t c₀ m := by
  obtain ⟨out, e, snr⟩ := subtract_snr env it ref new h w z hmr hmn hz hc hr hn hh hw gr gn A B A' B' hA hA' hb (.inl hvr) X Y
  obtain ⟨out', e', rp⟩ := subtract_resp_pos env it ref new h w z hmr hmn hz hc hr hn hh hw gn A B A' B' hA hA' hb (.inl hvr) X Y
  rw [e] at e'
  cases e'
  refine ⟨out, e, fun D hD s es law hlaw m t c₀ => ?_⟩
  set V : ℝ := ref.var ^ 2 * (z.2 / z.1) ^ 2 + new.var ^ 2 with hV
  have V0 : 0 < V := by rw [hV]; positivity
  set T := pixelWeights h w
    (fun i j => (out.P.px (((i : ℤ) - (X - A' - A)) % h).toNat (((j : ℤ) - (Y - B' - B)) % w).toNat : ℂ))
    (pairResp env ⟨false, false, it⟩ ref new) with hT
  obtain ⟨ign, npos, snr⟩ := snr T rfl
  obtain ⟨r, r0, hrr⟩ := rp T rfl
  set Tr : Bool × Fin h × Fin w → ℝ := fun q => (T q.1 q.2.1 q.2.2).re with hTr
  set σ : Bool × Fin h × Fin w → ℝ := pairNoise ref new with hσ
  set J := diffInfo ref new (z.2 / z.1) h w with hJ
  have J0 : 0 < J := diff_info_pos ref new h w z hb (.inl hvr) hh hw
  have σ0 : ∀ q, σ q ≠ 0 := by
    rintro ⟨m, p⟩
    cases m
    · exact hvr
    · exact hvn
  -- the statistic is linear in the errors
  set c0 : ℝ := ∑ p : Fin h × Fin w, 1 / Real.sqrt V * out.P.px (backBy h (X - A' - A) p.1) (backBy w (Y - B' - B) p.2) *
    ((diffOf env ⟨false, false, it⟩ ref new ref.interped new.interped).px p.1 p.2).re with hc0
  have lin : ∀ x, D x = c0 + 1 / Real.sqrt V * ∑ q, Tr q * x q := by
    intro x
    rw [hD]
    unfold starSum
    simp only [noisyDiff_re env it ref new h w z hmr hmn hz hc hr hn x, mul_add, Finset.sum_add_distrib]
    congr 1
    have t : ∀ q, Tr q = ∑ p : Fin h × Fin w, out.P.px (backBy h (X - A' - A) p.1) (backBy w (Y - B' - B) p.2) *
        diffKernel env it ref new h w p q := by
      intro q
      change (pixelWeights h w _ _ q.1 q.2.1 q.2.2).re = _
      unfold pixelWeights
      rw [sum_pixels, re_sum]
      refine Finset.sum_congr rfl fun p _ => ?_
      rw [re_ofReal_mul]
      obtain ⟨m, q⟩ := q
      cases m <;> rfl
    simp only [t, Finset.mul_sum, Finset.sum_mul]
    rw [Finset.sum_comm]
    exact Finset.sum_congr rfl fun q _ => Finset.sum_congr rfl fun p _ => by ring
  have sV : 0 < 1 / Real.sqrt V := by
    have := Real.sqrt_pos.2 V0
    positivity
  -- it does not see unchanging skies
  have ig : ∀ t' : ℕ → ℕ → ℝ, ∑ q, Tr q * unchangedSky ref new h w A B A' B' (z.2 / z.1) t' q = 0 := by
    intro t'
    have same := (same_difference_iff env it ref new h w z hmr hmn hz hc hr hn hh hw gr gn A B A' B'
      (by rw [hA, hA']; simp) (by rw [hA, hA']; simp) (.inl hvn) (fun _ => 0)
      (fun q => (0 : ℝ) + unchangedSky ref new h w A B A' B' (z.2 / z.1) t' q)).2 ⟨t', fun q => rfl⟩
    have eD : D (fun q => (0 : ℝ) + unchangedSky ref new h w A B A' B' (z.2 / z.1) t' q) = D fun _ => 0 := by
      rw [hD, hD]
      unfold starSum
      refine Finset.sum_congr rfl fun p _ => ?_
      have := same p
      unfold diffPix at this
      rw [this]
    rw [lin, lin] at eD
    simp only [mul_zero, Finset.sum_const_zero, zero_add, add_zero] at eD
    exact (mul_eq_zero.1 (add_eq_left.1 eD)).resolve_left sV.ne'
  have rs : ∑ q, Tr q * s q = r := by
    rw [es, ← linResp_re, hrr, ofReal_re]
  have noise : (∑ q, Tr q ^ 2 * σ q ^ 2) * J = r ^ 2 := by
    have up : (∑ q, Tr q ^ 2 * σ q ^ 2) * J ≤ r ^ 2 := by
      have k := snr
      rw [hrr, normSq_ofReal] at k
      rw [sq, k]
      exact mul_le_mul_of_nonneg_right (linNoise_re_le (pairSigma ref new) T) J0.le
    have b := ignoring_bound ref new h w (z.2 / z.1) A B A' B' hr hn hh hw gr gn (.inl hvn) (vecWeights Tr)
      (fun U U' => by
        obtain ⟨t', ht'⟩ := constantStar_sky ref new h w hh hw A B A' B' (z.2 / z.1) U U'
        rw [linResp_vec, ht', ig, ofReal_zero]) X Y
    rw [linResp_vec, linNoise_vec, normSq_ofReal, ← sq, ← es, rs] at b
    exact le_antisymm up b
  have unit : D (fun q => m q + s q) - D m = 1 / Real.sqrt V * r := by
    rw [lin, lin]
    simp only [mul_add, Finset.sum_add_distrib]
    rw [rs]
    ring
  have rf' : readFlux D m s = fun x => -(∑ q, Tr q * m q) / r + ∑ q, (Tr q / r) * x q := by
    funext x
    unfold readFlux
    rw [unit, lin, lin]
    have : ∑ q, (Tr q / r) * x q = (∑ q, Tr q * x q) / r := by
      rw [Finset.sum_div]
      exact Finset.sum_congr rfl fun q _ => by ring
    rw [this]
    have s0 := sV.ne'
    have e1 : c0 + 1 / Real.sqrt V * ∑ q, Tr q * x q - (c0 + 1 / Real.sqrt V * ∑ q, Tr q * m q) =
      1 / Real.sqrt V * (∑ q, Tr q * x q - ∑ q, Tr q * m q) := by ring
    rw [e1, mul_div_mul_left _ _ s0]
    ring
  obtain ⟨l1, l2, l3⟩ := linear_measurement
    (fun q => m q + unchangedSky ref new h w A B A' B' (z.2 / z.1) t q + c₀ * s q) σ (fun q => Tr q / r) (-(∑ q, Tr q * m q) / r)
  have mean : -(∑ q, Tr q * m q) / r +
      ∑ q, (Tr q / r) * (m q + unchangedSky ref new h w A B A' B' (z.2 / z.1) t q + c₀ * s q) = c₀ := by
    have : ∑ q, (Tr q / r) * (m q + unchangedSky ref new h w A B A' B' (z.2 / z.1) t q + c₀ * s q) =
        (∑ q, Tr q * m q + ∑ q, Tr q * unchangedSky ref new h w A B A' B' (z.2 / z.1) t q + c₀ * ∑ q, Tr q * s q) / r := by
      rw [Finset.mul_sum, ← Finset.sum_add_distrib, ← Finset.sum_add_distrib, Finset.sum_div]
      exact Finset.sum_congr rfl fun q _ => by ring
    rw [this, ig, rs]
    field_simp
    ring
  rw [mean] at l2 l3
  rw [rf']
  simp only [hlaw]
  refine ⟨l1, l2, l3.trans ?_, fun g hg ε hε hu => ?_⟩
  · have : ∀ q, (Tr q / r) ^ 2 * σ q ^ 2 = Tr q ^ 2 * σ q ^ 2 / r ^ 2 := fun q => by ring
    simp only [this, ← Finset.sum_div]
    rw [← noise]
    have : (∑ q, Tr q ^ 2 * σ q ^ 2) ≠ 0 := by
      intro h0
      rw [h0, zero_mul] at noise
      exact (pow_ne_zero 2 r0.ne') noise.symm
    field_simp
  · have k := unseen_flux_bound (skySpace ref new h w A B A' B' (z.2 / z.1)) σ σ0 s J (fun g' hg' => by
      have b := ignoring_bound ref new h w (z.2 / z.1) A B A' B' hr hn hh hw gr gn (.inl hvn) (vecWeights g')
        (fun U U' => by
          obtain ⟨t', ht'⟩ := constantStar_sky ref new h w hh hw A B A' B' (z.2 / z.1) U U'
          rw [linResp_vec, ht', hg' _ ⟨t', rfl⟩, ofReal_zero]) X Y
      rw [linResp_vec, linNoise_vec, normSq_ofReal, ← sq, ← es] at b
      exact b)
      (fun q => m q + unchangedSky ref new h w A B A' B' (z.2 / z.1) t q + c₀ * s q) g hg c₀ ε hε (by
        rintro _ ⟨t', rfl⟩ c h0 h1
        rw [← hu (fun X Y => t X Y + 1 * t' X Y) (c₀ + c) (by linarith) (by linarith)]
        congr 2
        funext q
        rw [unchangedSky_add]
        ring)
    rwa [div_le_iff₀' J0]

end

/-! ## Worked instances -/

/-- Two frames of 1×3 pixels with noise levels 1 and 2 and flux ratio 3: the flux of a star of flux 5 at column 2 of the new
frame, read off D, under the sky `t`. -/
example (t : ℕ → ℕ → ℝ) : ∃ out, subtract (tinyEnv 1 3) ⟨false, false, true⟩ (seeingSub 5 7 0 1) (seeingSub 1 0 4 2) = .ok out ∧
    ∫ e, readFlux (fun e => starSum 1 3 (1 ^ 2 * (3 / 1) ^ 2 + 2 ^ 2) out.P
        (noisyDiff (tinyEnv 1 3) true (seeingSub 5 7 0 1) (seeingSub 1 0 4 2) 1 3 e) (0 - 0 - 0) (2 - 1 - 1)) (fun _ => 0)
        (pixelVec (newStar 1 3 (seeingSub 1 0 4 2) 0 1 0 2)) e
      ∂pixelLaw (fun q => 0 + unchangedSky (seeingSub 5 7 0 1) (seeingSub 1 0 4 2) 1 3 0 1 0 1 (3 / 1) t q +
        5 * pixelVec (newStar 1 3 (seeingSub 1 0 4 2) 0 1 0 2) q) (pairNoise (seeingSub 5 7 0 1) (seeingSub 1 0 4 2)) = 5 := by
  obtain ⟨out, e, k⟩ := subtract_flux_best (tinyEnv 1 3) true (seeingSub 5 7 0 1) (seeingSub 1 0 4 2) 1 3 (1, 3)
    (by intro a h; cases h) (by intro a h; cases h) rfl (Or.inl rfl) rfl rfl (by norm_num) (by norm_num)
    seeing_idle seeing_idle 0 1 0 1 seeing_com seeing_com (by norm_num) (by norm_num [seeingSub]) (by norm_num [seeingSub]) 0 2
  exact ⟨out, e, (k _ (fun _ => rfl) _ rfl _ (fun _ _ _ => rfl) (fun _ => 0) t 5).2.1⟩

/-- Three images of 2×3 pixels, a star at pixel (1, 2) in each: nothing measures its flux better than the coadd; here
against any measurement `g` that is right on average whatever the flux. -/
example (lt : List CoImg → List CoImg → Option Bool) (g : (Fin 3 × Fin 2 × Fin 3 → ℝ) → ℝ)
    (hg : ∀ c : ℝ, MemLp g 2 (pixelLaw (fun r => 0 + c * pixelVec (commonStar (fun _ : Fin 3 => deltaDemo) 2 3
      (fun _ => ⟨1, 1, fun _ _ => 1⟩) (fun _ => 1) (fun _ => 2)) r) (nightNoise fun _ : Fin 3 => deltaDemo)) ∧
      ∫ e, g e ∂pixelLaw (fun r => 0 + c * pixelVec (commonStar (fun _ : Fin 3 => deltaDemo) 2 3
      (fun _ => ⟨1, 1, fun _ _ => 1⟩) (fun _ => 1) (fun _ => 2)) r) (nightNoise fun _ : Fin 3 => deltaDemo) = c) :
    ∃ out, coaddCore lt ((List.ofFn fun _ : Fin 3 => deltaDemo).map SinglePsf.toCoImg) 5 2 = .ok out ∧
      ∀ c : ℝ, ∫ e, (readFlux (fun e => coaddSum lt (fun _ : Fin 3 => deltaDemo) 2 3 5 2 out.Pr 1 2 e) (fun _ => 0)
          (pixelVec (commonStar (fun _ : Fin 3 => deltaDemo) 2 3 (fun _ => ⟨1, 1, fun _ _ => 1⟩) (fun _ => 1) (fun _ => 2))) e - c) ^ 2
        ∂pixelLaw (fun r => 0 + c * pixelVec (commonStar (fun _ : Fin 3 => deltaDemo) 2 3
          (fun _ => ⟨1, 1, fun _ _ => 1⟩) (fun _ => 1) (fun _ => 2)) r) (nightNoise fun _ : Fin 3 => deltaDemo) ≤
        ∫ e, (g e - c) ^ 2 ∂pixelLaw (fun r => 0 + c * pixelVec (commonStar (fun _ : Fin 3 => deltaDemo) 2 3
          (fun _ => ⟨1, 1, fun _ _ => 1⟩) (fun _ => 1) (fun _ => 2)) r) (nightNoise fun _ : Fin 3 => deltaDemo) := by
  obtain ⟨out, e, k⟩ := coadd_flux_best lt (n := 3) (by norm_num) (fun _ => deltaDemo) 2 3 5 2
    (fun _ => ⟨rfl, rfl, by intro m hm; cases hm; exact ⟨rfl, rfl⟩⟩) (by norm_num) (by norm_num) (by norm_num)
    (fun _ => ⟨1, 1, fun _ _ => 1⟩) (fun _ => by simp [deltaDemo, toC, Img.map]) (fun _ => 1) (fun _ => 2) 1 2
    (fun _ => ⟨by norm_num, by norm_num⟩) (fun _ => by norm_num [deltaDemo]) (fun _ => by norm_num [deltaDemo])
    (by
      intro k _ l _
      have e := psfHat_delta deltaDemo rfl k l (by norm_num [deltaDemo]) (by norm_num [deltaDemo])
      unfold zackayPower
      simp only [e]
      norm_num [deltaDemo])
    (fun _ => by norm_num [deltaDemo])
  refine ⟨out, e, fun c => ?_⟩
  obtain ⟨_, _, v, b⟩ := k _ (fun _ => rfl) _ rfl _ rfl (fun _ => 0) c
  rw [v]
  exact b g (hg c).1 1 one_pos fun c' _ _ => (hg c').2

end PI
