import Verif.Lemmas.Neyman
import Verif.Props.GaussNoise
import Verif.Props.TransientPsf
import Verif.Props.CoaddOverlap

/-!
# Property C181: the most powerful tests

Exposures with independent Gaussian errors. A test is any measurable set of exposures, those in which it reports the star.
The threshold on the star's sum in the coadd is the most powerful test for the star; the threshold on its sum in D is the
most powerful of the tests that do not see constant stars.
-/

namespace PI

open Complex Finset MeasureTheory ProbabilityTheory
open scoped NNReal ENNReal

section
variable {κ : Type} [Fintype κ] {h w : ℕ}

/-- Pictures as one vector of pixels. -/
def pixelVec (s : κ → Img ℝ) (q : κ × Fin h × Fin w) : ℝ := (s q.1).px q.2.1 q.2.2

/-- Weights of pixels, from a vector. -/
noncomputable def vecWeights (g : κ × Fin h × Fin w → ℝ) (m : κ) (a b : ℕ) : ℂ :=
  ((errImg fun p => g (m, p)).px a b : ℂ)

theorem linResp_re (g : κ → ℕ → ℕ → ℂ) (s : κ → Img ℝ) :
    (linResp h w g s).re = ∑ q : κ × Fin h × Fin w, (g q.1 q.2.1 q.2.2).re * pixelVec s q := by
  unfold linResp
  rw [Fintype.sum_prod_type, re_sum]
  refine Finset.sum_congr rfl fun m _ => ?_
  rw [sum_pixels, re_sum]
  refine Finset.sum_congr rfl fun p _ => ?_
  rw [re_mul_ofReal]
  rfl

theorem linResp_vec (g : κ × Fin h × Fin w → ℝ) (s : κ → Img ℝ) :
    linResp h w (vecWeights g) s = ((∑ q, g q * pixelVec s q : ℝ) : ℂ) := by
  unfold linResp
  rw [Fintype.sum_prod_type, ofReal_sum]
  refine Finset.sum_congr rfl fun m _ => ?_
  rw [sum_pixels, ofReal_sum]
  refine Finset.sum_congr rfl fun p _ => ?_
  unfold vecWeights
  rw [errImg_px, ofReal_mul]
  rfl

theorem linNoise_vec (σ : κ → ℝ) (g : κ × Fin h × Fin w → ℝ) :
    linNoise h w σ (vecWeights g) = ∑ q, g q ^ 2 * σ q.1 ^ 2 := by
  unfold linNoise
  rw [Fintype.sum_prod_type]
  refine Finset.sum_congr rfl fun m _ => ?_
  rw [sum_pixels]
  refine Finset.sum_congr rfl fun p _ => ?_
  unfold vecWeights
  rw [errImg_px, normSq_ofReal]
  ring

theorem linNoise_re_le (σ : κ → ℝ) (g : κ → ℕ → ℕ → ℂ) :
    ∑ q : κ × Fin h × Fin w, (g q.1 q.2.1 q.2.2).re ^ 2 * σ q.1 ^ 2 ≤ linNoise h w σ g := by
  unfold linNoise
  rw [Fintype.sum_prod_type]
  refine Finset.sum_le_sum fun m _ => ?_
  rw [sum_pixels]
  refine Finset.sum_le_sum fun p _ => ?_
  rw [normSq_apply]
  nlinarith [mul_nonneg (sq_nonneg (σ m)) (sq_nonneg (g m p.1 p.2).im)]

end

/-! ## subtract -/

section
variable (env : SubEnv) (it : Bool) (ref new : SubImg) (h w : ℕ) (z : ℝ × ℝ)
    (hmr : ref.mask.HasShape h w) (hmn : new.mask.HasShape h w) (hz : env.zps = .ok z)
    (hc : env.fitted = true ∨ (0 ≤ (centerOfMass new.psf).1 ∧ 0 ≤ (centerOfMass new.psf).2))
    (hr : ref.interped.shape = (h, w)) (hn : new.interped.shape = (h, w)) (hh : h ≠ 0) (hw : w ≠ 0)
    (gr : GuardIdle h w ref.psf) (gn : GuardIdle h w new.psf) (A B A' B' : ℤ)
    (hA : centerOfMass ref.psf = ((A : ℝ), (B : ℝ))) (hA' : centerOfMass new.psf = ((A' : ℝ), (B' : ℝ)))

/-- The test gives the same answer when constant stars of any brightness are added, wherever they are. -/
def BlindToConstant (b : ℝ) (S : Set (Bool × Fin h × Fin w → ℝ)) : Prop :=
  ∀ (X Y : ℤ) (a : ℝ) (x : Bool × Fin h × Fin w → ℝ),
    (fun q => x q + a * pixelVec (constantStar h w ref new b A B A' B' X Y) q) ∈ S ↔ x ∈ S

include hmr hmn hz hc hr hn hh hw gr gn hA hA'

omit gr in
/-- The response of the statistic to the new star is positive. -/
theorem subtract_resp_pos (hb : z.2 / z.1 ≠ 0) (hv : ref.var ≠ 0 ∨ new.var ≠ 0) (X Y : ℤ) :
    ∃ out, subtract env ⟨false, false, it⟩ ref new = .ok out ∧
      ∀ T, T = pixelWeights h w
          (fun i j => (out.P.px (((i : ℤ) - (X - A' - A)) % h).toNat (((j : ℤ) - (Y - B' - B)) % w).toNat : ℂ))
          (pairResp env ⟨false, false, it⟩ ref new) →
        ∃ r : ℝ, 0 < r ∧ linResp h w T (newStar h w new A' B' X Y) = (r : ℂ) := by
  obtain ⟨out, e, st⟩ := subtract_any_signal env it ref new h w z hmr hmn hz hc hr hn A B A' B' hA hA' hb hv X Y
  refine ⟨out, e, fun T hT => ?_⟩
  have nh : new.interped.h = h := congrArg Prod.fst hn
  have nw : new.interped.w = w := congrArg Prod.snd hn
  have k := (st T hT).2 (newStar h w new A' B' X Y) (fun m => by cases m <;> exact ⟨rfl, rfl⟩)
  have hpos : 0 < ref.var ^ 2 * (z.2 / z.1) ^ 2 + new.var ^ 2 := by
    rcases hv with hv | hv
    · have : 0 < ref.var ^ 2 * (z.2 / z.1) ^ 2 := by positivity
      positivity
    · have : 0 < new.var ^ 2 := by positivity
      positivity
  refine ⟨Real.sqrt (ref.var ^ 2 * (z.2 / z.1) ^ 2 + new.var ^ 2) * diffInfo ref new (z.2 / z.1) h w,
    mul_pos (Real.sqrt_pos.2 hpos) (diff_info_pos ref new h w z hb hv hh hw), ?_⟩
  rw [k, ofReal_mul]
  congr 1
  unfold diffInfo
  rw [ofReal_sum]
  refine Finset.sum_congr rfl fun i hi => ?_
  rw [ofReal_sum]
  refine Finset.sum_congr rfl fun j hj => ?_
  have e0 : (fftOrtho (toC (newStar h w new A' B' X Y false))).px i j = 0 := by
    change (fftOrtho (⟨h, w, fun _ _ => ((0 : ℝ) : ℂ)⟩ : Img ℂ)).px i j = 0
    unfold fftOrtho dft
    simp [Img.map]
  have e1 : (fftOrtho (toC (newStar h w new A' B' X Y true))).px i j = new.psfHat.px i j *
      shiftPhase h w (((X - A' : ℤ) : ℝ), ((Y - B' : ℤ) : ℝ)) i j := by
    change (fftOrtho (toC (skyStar h w new.psf A' B' X Y 1))).px i j = _
    rw [fftOrtho_skyStar h w hh hw, ← psfHat_idle new h w nh nw gn i j (mem_range.1 hi) (mem_range.1 hj), ofReal_one,
      one_mul]
  have sp : shiftPhase h w (((X - A' - A : ℤ) : ℝ), ((Y - B' - B : ℤ) : ℝ)) i j =
      shiftPhase h w (((X - A' : ℤ) : ℝ), ((Y - B' : ℤ) : ℝ)) i j * shiftPhase h w (((-A : ℤ) : ℝ), ((-B : ℤ) : ℝ)) i j := by
    rw [← shiftPhase_add]
    congr 2 <;> push_cast <;> ring
  rw [e0, e1, mul_zero, sub_zero, sp]
  have n1 : normSq (shiftPhase h w (((X - A' : ℤ) : ℝ), ((Y - B' : ℤ) : ℝ)) i j) = 1 := normSq_shiftPhase _ _ _ _ _
  have n2 : normSq (shiftPhase h w (((-A : ℤ) : ℝ), ((-B : ℤ) : ℝ)) i j) = 1 := normSq_shiftPhase _ _ _ _ _
  generalize shiftPhase h w (((X - A' : ℤ) : ℝ), ((Y - B' : ℤ) : ℝ)) i j = s1 at *
  generalize shiftPhase h w (((-A : ℤ) : ℝ), ((-B : ℤ) : ℝ)) i j = s2 at *
  have m1 := Complex.mul_conj s1
  have m2 := Complex.mul_conj s2
  have m3 := Complex.mul_conj (ref.psfHat.px i j)
  have m4 := Complex.mul_conj (new.psfHat.px i j)
  rw [n1, ofReal_one] at m1
  rw [n2, ofReal_one] at m2
  push_cast
  rw [← m3, ← m4]
  simp only [map_mul]
  linear_combination (ref.psfHat.px i j * (starRingEnd ℂ) (ref.psfHat.px i j) * (new.psfHat.px i j *
    (starRingEnd ℂ) (new.psfHat.px i j)) / (normReal ref new (z.2 / z.1) i j : ℂ)) * (s2 * (starRingEnd ℂ) s2 * m1 + m2)

/-- C181: the test that reports a new star when its sum in D exceeds `t`. Of all tests that do not see constant stars and
raise no more false alarms, none finds the star with a greater probability, whatever its flux and the rest of the sky. -/
theorem subtract_most_powerful (hb : z.2 / z.1 ≠ 0) (hvr : ref.var ≠ 0) (hvn : new.var ≠ 0) (X Y : ℤ) :
    ∃ out, subtract env ⟨false, false, it⟩ ref new = .ok out ∧
      ∀ (D : (Bool × Fin h × Fin w → ℝ) → ℝ),
        (∀ e, D e = starSum h w (ref.var ^ 2 * (z.2 / z.1) ^ 2 + new.var ^ 2) out.P (noisyDiff env it ref new h w e)
          (X - A' - A) (Y - B' - B)) →
        (∀ t, MeasurableSet {e | t < D e} ∧ BlindToConstant ref new h w A B A' B' (z.2 / z.1) {e | t < D e}) ∧
        (∀ (m : Bool × Fin h × Fin w → ℝ) (α : ℝ≥0∞), 0 < α → α < 1 →
          ∃ t, pixelLaw m (pairNoise ref new) {e | t < D e} = α) ∧
        ∀ (t : ℝ) (S : Set (Bool × Fin h × Fin w → ℝ)), MeasurableSet S →
          BlindToConstant ref new h w A B A' B' (z.2 / z.1) S →
          ∀ m : Bool × Fin h × Fin w → ℝ,
          pixelLaw m (pairNoise ref new) S ≤ pixelLaw m (pairNoise ref new) {e | t < D e} →
          ∀ c : ℝ, 0 < c →
            pixelLaw (fun q => m q + c * pixelVec (newStar h w new A' B' X Y) q) (pairNoise ref new) S ≤
              pixelLaw (fun q => m q + c * pixelVec (newStar h w new A' B' X Y) q) (pairNoise ref new) {e | t < D e} := by
  obtain ⟨out, e, snr⟩ := subtract_snr env it ref new h w z hmr hmn hz hc hr hn hh hw gr gn A B A' B' hA hA' hb (.inl hvr) X Y
  obtain ⟨out', e', rp⟩ := subtract_resp_pos env it ref new h w z hmr hmn hz hc hr hn hh hw gn A B A' B' hA hA' hb (.inl hvr) X Y
  rw [e] at e'
  cases e'
  refine ⟨out, e, fun D hD => ?_⟩
  set V : ℝ := ref.var ^ 2 * (z.2 / z.1) ^ 2 + new.var ^ 2 with hV
  have V0 : 0 < V := by rw [hV]; positivity
  set T := pixelWeights h w
    (fun i j => (out.P.px (((i : ℤ) - (X - A' - A)) % h).toNat (((j : ℤ) - (Y - B' - B)) % w).toNat : ℂ))
    (pairResp env ⟨false, false, it⟩ ref new) with hT
  obtain ⟨ign, npos, snr⟩ := snr T rfl
  obtain ⟨r, r0, hrr⟩ := rp T rfl
  set Tr : Bool × Fin h × Fin w → ℝ := fun q => (T q.1 q.2.1 q.2.2).re with hTr
  set σ : Bool × Fin h × Fin w → ℝ := pairNoise ref new with hσ
  have σe : ∀ q : Bool × Fin h × Fin w, σ q = pairSigma ref new q.1 := fun q => rfl
  have σ0 : ∀ q, σ q ≠ 0 := by
    rintro ⟨m, p⟩
    cases m
    · exact hvr
    · exact hvn
  -- the statistic is linear in the errors
  set c0 : ℝ := ∑ p : Fin h × Fin w, 1 / Real.sqrt V * out.P.px (backBy h (X - A' - A) p.1) (backBy w (Y - B' - B) p.2) *
    ((diffOf env ⟨false, false, it⟩ ref new ref.interped new.interped).px p.1 p.2).re with hc0
  have lin : ∀ x, D x = c0 + 1 / Real.sqrt V * ∑ q, Tr q * x q := by
    intro x
    rw [hD]
    unfold starSum
    simp only [noisyDiff_re env it ref new h w z hmr hmn hz hc hr hn x, mul_add, Finset.sum_add_distrib]
    congr 1
    have t : ∀ q, Tr q = ∑ p : Fin h × Fin w, out.P.px (backBy h (X - A' - A) p.1) (backBy w (Y - B' - B) p.2) *
        diffKernel env it ref new h w p q := by
      intro q
      change (pixelWeights h w _ _ q.1 q.2.1 q.2.2).re = _
      unfold pixelWeights
      rw [sum_pixels, re_sum]
      refine Finset.sum_congr rfl fun p _ => ?_
      rw [re_ofReal_mul]
      obtain ⟨m, q⟩ := q
      cases m <;> rfl
    simp only [t, Finset.mul_sum, Finset.sum_mul]
    rw [Finset.sum_comm]
    exact Finset.sum_congr rfl fun q _ => Finset.sum_congr rfl fun p _ => by ring
  have sV : 0 < 1 / Real.sqrt V := by
    have := Real.sqrt_pos.2 V0
    positivity
  have eD : ∀ t, {x | t < D x} = {x | (t - c0) / (1 / Real.sqrt V) < ∑ q, Tr q * x q} := by
    intro t
    ext x
    simp only [Set.mem_ofPred_eq]
    rw [lin, div_lt_iff₀ sV, sub_lt_iff_lt_add', mul_comm (1 / Real.sqrt V)]
  -- it does not see constant stars
  have ig : ∀ U W : ℤ, ∑ q, Tr q * pixelVec (constantStar h w ref new (z.2 / z.1) A B A' B' U W) q = 0 := by
    intro U W
    rw [← linResp_re, ign U W, zero_re]
  let W : Submodule ℝ (Bool × Fin h × Fin w → ℝ) := Submodule.span ℝ
    {y | ∃ U U' : ℤ, y = pixelVec (constantStar h w ref new (z.2 / z.1) A B A' B' U U')}
  have hTW : ∀ y ∈ W, ∑ q, Tr q * y q = 0 := by
    intro y hy
    induction hy using Submodule.span_induction with
    | mem y hy => obtain ⟨U, U', rfl⟩ := hy; exact ig U U'
    | zero => simp
    | add x y _ _ hx hy => simp only [Pi.add_apply, mul_add, Finset.sum_add_distrib, hx, hy, add_zero]
    | smul a x _ hx =>
      have : ∑ q, Tr q * (a • x) q = a * ∑ q, Tr q * x q := by
        rw [Finset.mul_sum]
        exact Finset.sum_congr rfl fun q _ => by simp only [Pi.smul_apply, smul_eq_mul]; ring
      rw [this, hx, mul_zero]
  have rpos : 0 < ∑ q, Tr q * pixelVec (newStar h w new A' B' X Y) q := by
    rw [← linResp_re, hrr, ofReal_re]
    exact r0
  refine ⟨fun t => ⟨?_, ?_⟩, fun m α a0 a1 => ?_, ?_⟩
  · rw [eD]
    exact measurableSet_lt measurable_const (by fun_prop)
  · intro U U' a x
    rw [eD]
    simp only [Set.mem_ofPred_eq]
    have : ∑ q, Tr q * (x q + a * pixelVec (constantStar h w ref new (z.2 / z.1) A B A' B' U U') q) =
        ∑ q, Tr q * x q + a * ∑ q, Tr q * pixelVec (constantStar h w ref new (z.2 / z.1) A B A' B' U U') q := by
      rw [Finset.mul_sum, ← Finset.sum_add_distrib]
      exact Finset.sum_congr rfl fun q _ => by ring
    rw [this, ig, mul_zero, add_zero]
  · obtain ⟨t, ht⟩ := linear_threshold m σ Tr σ0 (by
      by_contra no
      push Not at no
      simp only [no, zero_mul, Finset.sum_const_zero, lt_self_iff_false] at rpos) α a0 a1
    refine ⟨t * (1 / Real.sqrt V) + c0, ?_⟩
    rw [eD, add_sub_cancel_right, mul_div_cancel_right₀ _ sV.ne']
    exact ht
  · intro t S mS blind m hfa c hcp
    have inv : ∀ y ∈ W, ∀ x, x + y ∈ S ↔ x ∈ S := by
      have inv' : ∀ y ∈ W, ∀ (a : ℝ) x, x + a • y ∈ S ↔ x ∈ S := by
        intro y hy
        induction hy using Submodule.span_induction with
        | mem y hy => obtain ⟨U, U', rfl⟩ := hy; exact fun a x => blind U U' a x
        | zero => intro a x; rw [smul_zero, add_zero]
        | add y y' _ _ h1 h2 => intro a x; rw [smul_add, ← add_assoc, h2, h1]
        | smul a' y _ h1 => intro a x; rw [smul_smul, h1]
      intro y hy x
      have := inv' y hy 1 x
      rwa [one_smul] at this
    rw [eD] at hfa ⊢
    refine unseen_most_powerful W σ σ0 (pixelVec (newStar h w new A' B' X Y)) Tr (diffInfo ref new (z.2 / z.1) h w) hTW ?_ ?_ ?_
      m c hcp _ S mS inv hfa
    · exact rpos
    · rw [← linResp_re]
      have k := snr
      rw [hrr, normSq_ofReal] at k
      rw [hrr, ofReal_re, sq, k]
      exact mul_le_mul_of_nonneg_right (linNoise_re_le (pairSigma ref new) T)
        (diff_info_pos ref new h w z hb (.inl hvr) hh hw).le
    · intro g hg
      have b := ignoring_bound ref new h w (z.2 / z.1) A B A' B' hr hn hh hw gr gn (.inl hvn) (vecWeights g)
        (fun U U' => by rw [linResp_vec, hg _ (Submodule.subset_span ⟨U, U', rfl⟩), ofReal_zero]) X Y
      rw [linResp_vec, linNoise_vec, normSq_ofReal, ← sq] at b
      exact b

end

/-! ## coadd -/

section
variable (lt : List CoImg → List CoImg → Option Bool) {n : ℕ} (hn : 0 < n)
    (d : Fin n → SinglePsf) (h w psfShape : ℕ) (procs : ℤ)
    (hs : ∀ j, (d j).interped.h = h ∧ (d j).interped.w = w ∧ (d j).mask.HasShape h w)
    (hp : procs ≤ n) (hp' : procs ≤ 2 ^ 25) (hb : procs * n ≤ 2 ^ 50)
    (ψ : Fin n → Img ℝ) (hψ : ∀ m, (d m).psf = toC (ψ m)) (p q : Fin n → ℕ) (X Y : ℤ)
    (hpq : ∀ m, p m < h ∧ q m < w)
    (hX : ∀ m, (p m : ℝ) + (d m).com.1 = X) (hY : ∀ m, (q m : ℝ) + (d m).com.2 = Y)
    (hpow : ∀ k < h, ∀ l < w,
      zackayPower (fun j => (d j).zp) (fun j => (d j).var) (fun j => (d j).psfHat.px k l) ≠ 0)

/-- R summed against the PSF image centred on the star, of the exposures `d` with `e` added to their pixels. -/
noncomputable def coaddSum (Pr : Img ℂ) (X Y : ℤ) (e : Fin n × Fin h × Fin w → ℝ) : ℝ :=
  (∑ i ∈ range h, ∑ j ∈ range w, (starRingEnd ℂ) (Pr.px (((i : ℤ) - (X - psfShape)) % h).toNat
      (((j : ℤ) - (Y - psfShape)) % w).toNat) *
    (coaddOf lt d psfShape procs fun m => plusImg (d m).interped (toC (errImg fun r => e (m, r)))).px i j).re

include hn hs hp hp' hb hψ hpq hX hY hpow

/-- The weights of the statistic are the pictures of the star over the variances, times a positive number. -/
theorem coadd_weights_pos (hv : ∀ m, (d m).var ≠ 0) :
    ∃ out, coaddCore lt ((List.ofFn d).map SinglePsf.toCoImg) psfShape procs = .ok out ∧
      (∃ m, ∃ a < h, ∃ b < w, (commonStar d h w ψ p q m).px a b ≠ 0) ∧
      ∃ lam : ℝ, 0 < lam ∧ ∀ m, ∀ a < h, ∀ b < w,
        pixelWeights h w
          (fun i j => (starRingEnd ℂ)
            (out.Pr.px (((i : ℤ) - (X - psfShape)) % h).toNat (((j : ℤ) - (Y - psfShape)) % w).toNat))
          (respCoadd lt d psfShape procs) m a b =
            ((lam * ((commonStar d h w ψ p q m).px a b / (d m).var ^ 2) : ℝ) : ℂ) := by
  obtain ⟨out, e, st⟩ := coadd_weights lt hn d h w psfShape procs hs hp hp' hb ψ hψ p q X Y hpq hX hY hpow hv
  obtain ⟨out', e', star⟩ := coadd_star lt hn d h w psfShape procs hs hp hp' hb ψ hψ p q 1 X Y hpq hX hY hpow
  rw [e] at e'
  cases e'
  refine ⟨out, e, ?_⟩
  set Q : ℕ → ℕ → ℂ := fun i j =>
    out.Pr.px (((i : ℤ) - (X - psfShape)) % h).toNat (((j : ℤ) - (Y - psfShape)) % w).toNat with hQ
  set T := pixelWeights h w (fun i j => (starRingEnd ℂ) (Q i j)) (respCoadd lt d psfShape procs) with hT
  obtain ⟨pos, lam, lam0, hl⟩ := st T rfl
  set κ : ℝ := Real.sqrt (zackayPower (fun j => (d j).zp) (fun j => (d j).var)
    (fun j => (d j).psfHat.px 0 0)) with hκ
  have add : ∀ i < h, ∀ j < w, ∑ m, ∑ a ∈ range h, ∑ b ∈ range w,
      ((commonStar d h w ψ p q m).px a b : ℂ) * respCoadd lt d psfShape procs m i j a b = (κ : ℂ) * Q i j := by
    intro i hi j hj
    have s := star i hi j hj
    have l := coadd_noise_linear lt hn d h w psfShape procs hs hp hp' hb
      (fun m => toC (starAt h w (ψ m) (p m) (q m) (1 * (d m).zp))) i j
    have hd : coaddOf lt d psfShape procs (fun m => (d m).interped) = out.R := by
      have : coaddCore lt ((List.ofFn (withPix d fun m => (d m).interped)).map SinglePsf.toCoImg) psfShape procs =
        .ok out := e
      unfold coaddOf
      rw [this]
    rw [s, hd] at l
    have l' := add_left_cancel l
    simp only [one_mul] at l'
    exact l'.symm
  have resp : linResp h w T (commonStar d h w ψ p q) =
      ((κ * ∑ i ∈ range h, ∑ j ∈ range w, normSq (Q i j) : ℝ) : ℂ) := by
    rw [hT, linResp_pixels]
    push_cast
    rw [Finset.mul_sum]
    refine Finset.sum_congr rfl fun i hi => ?_
    rw [Finset.mul_sum]
    refine Finset.sum_congr rfl fun j hj => ?_
    rw [add i (mem_range.1 hi) j (mem_range.1 hj), ← Complex.mul_conj]
    ring
  -- the same response, from the weights
  set E : ℝ := ∑ m, ∑ a ∈ range h, ∑ b ∈ range w, (commonStar d h w ψ p q m).px a b ^ 2 / (d m).var ^ 2 with hE
  have resp2 : linResp h w T (commonStar d h w ψ p q) = lam * (E : ℂ) := by
    unfold linResp
    rw [hE]
    push_cast
    simp only [Finset.mul_sum]
    refine Finset.sum_congr rfl fun m _ => Finset.sum_congr rfl fun a ha => Finset.sum_congr rfl fun b hb' => ?_
    rw [hl m a (mem_range.1 ha) b (mem_range.1 hb')]
    push_cast
    ring
  have noise : linNoise h w (fun m => (d m).var) T = normSq lam * E := by
    unfold linNoise
    rw [hE]
    simp only [Finset.mul_sum]
    refine Finset.sum_congr rfl fun m _ => Finset.sum_congr rfl fun a ha => Finset.sum_congr rfl fun b hb' => ?_
    have v0 := hv m
    rw [hl m a (mem_range.1 ha) b (mem_range.1 hb'), normSq_mul, normSq_ofReal]
    field_simp
  have E0 : 0 < E := by
    rw [noise] at pos
    exact pos_of_mul_pos_right pos (normSq_nonneg _)
  have K0 : 0 ≤ κ * ∑ i ∈ range h, ∑ j ∈ range w, normSq (Q i j) :=
    mul_nonneg (Real.sqrt_nonneg _) (Finset.sum_nonneg fun i _ => Finset.sum_nonneg fun j _ => normSq_nonneg _)
  have le : lam = ((κ * (∑ i ∈ range h, ∑ j ∈ range w, normSq (Q i j)) / E : ℝ) : ℂ) := by
    have := resp2.symm.trans resp
    rw [ofReal_div, ← this, mul_div_cancel_right₀]
    exact_mod_cast E0.ne'
  refine ⟨?_, κ * (∑ i ∈ range h, ∑ j ∈ range w, normSq (Q i j)) / E, ?_, fun m a ha b hb' => ?_⟩
  · by_contra no
    push Not at no
    refine E0.ne' ?_
    refine Finset.sum_eq_zero fun m _ => Finset.sum_eq_zero fun a ha => Finset.sum_eq_zero fun b hb' => ?_
    rw [no m a (mem_range.1 ha) b (mem_range.1 hb')]
    simp
  · refine lt_of_le_of_ne (div_nonneg K0 E0.le) fun z => ?_
    rw [← z] at le
    exact lam0 (by rw [le, ofReal_zero])
  · rw [hl m a ha b hb', le, ← ofReal_mul]

/-- C181: the test that reports a star when its sum in the coadd exceeds `t`. Of all tests of the exposures that raise no more
false alarms, none finds the star with a greater probability, whatever its flux and the known rest of the sky. -/
theorem coadd_most_powerful (hv : ∀ m, (d m).var ≠ 0) :
    ∃ out, coaddCore lt ((List.ofFn d).map SinglePsf.toCoImg) psfShape procs = .ok out ∧
      ∀ (R : (Fin n × Fin h × Fin w → ℝ) → ℝ), (∀ e, R e = coaddSum lt d h w psfShape procs out.Pr X Y e) →
        (∀ t, MeasurableSet {e | t < R e}) ∧
        (∀ (m : Fin n × Fin h × Fin w → ℝ) (α : ℝ≥0∞), 0 < α → α < 1 → ∃ t, pixelLaw m (nightNoise d) {e | t < R e} = α) ∧
        ∀ (t : ℝ) (S : Set (Fin n × Fin h × Fin w → ℝ)), MeasurableSet S → ∀ m : Fin n × Fin h × Fin w → ℝ,
          pixelLaw m (nightNoise d) S ≤ pixelLaw m (nightNoise d) {e | t < R e} →
          ∀ c : ℝ, 0 < c →
            pixelLaw (fun r => m r + c * pixelVec (commonStar d h w ψ p q) r) (nightNoise d) S ≤
              pixelLaw (fun r => m r + c * pixelVec (commonStar d h w ψ p q) r) (nightNoise d) {e | t < R e} := by
  obtain ⟨out, e, ⟨m0, a0, ha0, b0, hb0, s0⟩, lam, l0, hl⟩ := coadd_weights_pos lt hn d h w psfShape procs hs hp hp' hb ψ hψ p q X Y hpq hX hY hpow hv
  refine ⟨out, e, fun R hR => ?_⟩
  have split : ∀ x : Fin n × Fin h × Fin w → ℝ, coaddSum lt d h w psfShape procs out.Pr X Y x =
      (∑ i ∈ range h, ∑ j ∈ range w, (starRingEnd ℂ) (out.Pr.px (((i : ℤ) - (X - psfShape)) % h).toNat
        (((j : ℤ) - (Y - psfShape)) % w).toNat) * (coaddOf lt d psfShape procs fun m => (d m).interped).px i j).re +
      lam * ∑ r, pixelVec (commonStar d h w ψ p q) r / nightNoise d r ^ 2 * x r := by
    intro x
    unfold coaddSum
    simp only [coadd_noise_linear lt hn d h w psfShape procs hs hp hp' hb (fun m => toC (errImg fun r => x (m, r))), mul_add,
      Finset.sum_add_distrib, add_re]
    congr 1
    have k := linResp_pixels h w (fun i j => (starRingEnd ℂ) (out.Pr.px (((i : ℤ) - (X - psfShape)) % h).toNat
        (((j : ℤ) - (Y - psfShape)) % w).toNat)) (respCoadd lt d psfShape procs) (fun m => errImg fun r => x (m, r))
    have k2 := congrArg Complex.re k
    rw [linResp_re] at k2
    refine Eq.trans k2.symm ?_
    rw [Finset.mul_sum]
    refine Finset.sum_congr rfl fun r _ => ?_
    rw [hl r.1 r.2.1 r.2.1.2 r.2.2 r.2.2.2, ofReal_re]
    unfold pixelVec nightNoise
    rw [errImg_px]
    ring
  set k0 : ℝ := (∑ i ∈ range h, ∑ j ∈ range w, (starRingEnd ℂ) (out.Pr.px (((i : ℤ) - (X - psfShape)) % h).toNat
        (((j : ℤ) - (Y - psfShape)) % w).toNat) * (coaddOf lt d psfShape procs fun m => (d m).interped).px i j).re with hk0
  have eR : ∀ t, {x | t < R x} =
      {x | (t - k0) / lam < ∑ r, pixelVec (commonStar d h w ψ p q) r / nightNoise d r ^ 2 * x r} := by
    intro t
    ext x
    simp only [Set.mem_ofPred_eq]
    rw [hR, split, div_lt_iff₀ l0, sub_lt_iff_lt_add', mul_comm lam]
  refine ⟨fun t => ?_, fun m α p0 p1 => ?_, fun t S mS m hfa c hcp => ?_⟩
  · rw [eR]
    exact measurableSet_lt measurable_const (by fun_prop)
  · obtain ⟨t, ht⟩ := linear_threshold m (nightNoise d) (fun r => pixelVec (commonStar d h w ψ p q) r / nightNoise d r ^ 2)
      (fun r => hv r.1) ⟨(m0, ⟨a0, ha0⟩, ⟨b0, hb0⟩), div_ne_zero s0 (pow_ne_zero _ (hv m0))⟩ α p0 p1
    refine ⟨t * lam + k0, ?_⟩
    rw [eR, add_sub_cancel_right, mul_div_cancel_right₀ _ l0.ne']
    exact ht
  · rw [eR] at hfa ⊢
    exact gauss_most_powerful m (nightNoise d) _ (fun r => hv r.1) c hcp _ S mS hfa

end

/-! ## Worked instances -/

/-- Two frames of 1×3 pixels with noise levels 1 and 2 and flux ratio 3. A test that reports a star when some threshold on
D at one pixel is passed is blind to constant stars; here any blind test is compared with the sum. -/
example : ∃ out, subtract (tinyEnv 1 3) ⟨false, false, true⟩ (seeingSub 5 7 0 1) (seeingSub 1 0 4 2) = .ok out ∧
    ∀ (t c : ℝ) (S : Set (Bool × Fin 1 × Fin 3 → ℝ)), MeasurableSet S →
      BlindToConstant (seeingSub 5 7 0 1) (seeingSub 1 0 4 2) 1 3 0 1 0 1 (3 / 1) S → 0 < c →
      pixelLaw 0 (pairNoise (seeingSub 5 7 0 1) (seeingSub 1 0 4 2)) S ≤
        pixelLaw 0 (pairNoise (seeingSub 5 7 0 1) (seeingSub 1 0 4 2))
          {e | t < starSum 1 3 (1 ^ 2 * (3 / 1) ^ 2 + 2 ^ 2) out.P
            (noisyDiff (tinyEnv 1 3) true (seeingSub 5 7 0 1) (seeingSub 1 0 4 2) 1 3 e) (0 - 0 - 0) (2 - 1 - 1)} →
      pixelLaw (fun q => 0 + c * pixelVec (newStar 1 3 (seeingSub 1 0 4 2) 0 1 0 2) q)
          (pairNoise (seeingSub 5 7 0 1) (seeingSub 1 0 4 2)) S ≤
        pixelLaw (fun q => 0 + c * pixelVec (newStar 1 3 (seeingSub 1 0 4 2) 0 1 0 2) q)
          (pairNoise (seeingSub 5 7 0 1) (seeingSub 1 0 4 2))
          {e | t < starSum 1 3 (1 ^ 2 * (3 / 1) ^ 2 + 2 ^ 2) out.P
            (noisyDiff (tinyEnv 1 3) true (seeingSub 5 7 0 1) (seeingSub 1 0 4 2) 1 3 e) (0 - 0 - 0) (2 - 1 - 1)} := by
  obtain ⟨out, e, k⟩ := subtract_most_powerful (tinyEnv 1 3) true (seeingSub 5 7 0 1) (seeingSub 1 0 4 2) 1 3 (1, 3)
    (by intro a h; cases h) (by intro a h; cases h) rfl (Or.inl rfl) rfl rfl (by norm_num) (by norm_num)
    seeing_idle seeing_idle 0 1 0 1 seeing_com seeing_com (by norm_num) (by norm_num [seeingSub]) (by norm_num [seeingSub]) 0 2
  exact ⟨out, e, fun t c S mS bS hc hfa => (k _ fun _ => rfl).2.2 t S mS bS 0 hfa c hc⟩

/-- Three images of 2×3 pixels, a star of flux `5 c` at pixel (1, 2) in each: the sum in the coadd against the test that looks
at that pixel of the first image only. -/
example (lt : List CoImg → List CoImg → Option Bool) :
    ∃ out, coaddCore lt ((List.ofFn fun _ : Fin 3 => deltaDemo).map SinglePsf.toCoImg) 5 2 = .ok out ∧
      ∀ t u c : ℝ, 0 < c →
        pixelLaw 0 (nightNoise fun _ : Fin 3 => deltaDemo) {e | u < e (0, ((1 : Fin 2), (2 : Fin 3)))} ≤
          pixelLaw 0 (nightNoise fun _ : Fin 3 => deltaDemo)
            {e | t < coaddSum lt (fun _ : Fin 3 => deltaDemo) 2 3 5 2 out.Pr 1 2 e} →
        pixelLaw (fun r => 0 + c * pixelVec (commonStar (fun _ : Fin 3 => deltaDemo) 2 3
            (fun _ => ⟨1, 1, fun _ _ => 1⟩) (fun _ => 1) (fun _ => 2)) r) (nightNoise fun _ : Fin 3 => deltaDemo)
            {e | u < e (0, ((1 : Fin 2), (2 : Fin 3)))} ≤
          pixelLaw (fun r => 0 + c * pixelVec (commonStar (fun _ : Fin 3 => deltaDemo) 2 3
            (fun _ => ⟨1, 1, fun _ _ => 1⟩) (fun _ => 1) (fun _ => 2)) r) (nightNoise fun _ : Fin 3 => deltaDemo)
            {e | t < coaddSum lt (fun _ : Fin 3 => deltaDemo) 2 3 5 2 out.Pr 1 2 e} := by
  obtain ⟨out, e, k⟩ := coadd_most_powerful lt (n := 3) (by norm_num) (fun _ => deltaDemo) 2 3 5 2
    (fun _ => ⟨rfl, rfl, by intro m hm; cases hm; exact ⟨rfl, rfl⟩⟩) (by norm_num) (by norm_num) (by norm_num)
    (fun _ => ⟨1, 1, fun _ _ => 1⟩) (fun _ => by simp [deltaDemo, toC, Img.map]) (fun _ => 1) (fun _ => 2) 1 2
    (fun _ => ⟨by norm_num, by norm_num⟩) (fun _ => by norm_num [deltaDemo]) (fun _ => by norm_num [deltaDemo])
    (by
      intro k _ l _
      have e := psfHat_delta deltaDemo rfl k l (by norm_num [deltaDemo]) (by norm_num [deltaDemo])
      unfold zackayPower
      simp only [e]
      norm_num [deltaDemo])
    (fun _ => by norm_num [deltaDemo])
  refine ⟨out, e, fun t u c hc hfa => (k _ fun _ => rfl).2.2 t _ ?_ 0 hfa c hc⟩
  exact measurableSet_lt measurable_const (measurable_pi_apply _)

end PI
