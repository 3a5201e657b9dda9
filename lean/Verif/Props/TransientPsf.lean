import Verif.Props.WrongPsf
import Verif.Props.CoaddOverlap

/-!
# Property C170: what the statistic of the difference image responds to, and what a wrong PSF of the new star costs

The statistic of C117 – D summed against the PSF image that `subtract` returns, centred on a place – responds to anything the two
images may show. A new star seen through a PSF other than the one `subtract` works with is measured with the wrong flux and a
smaller signal-to-noise ratio.
-/

namespace PI

open Complex Finset

/-- A star of flux one in the new image only, seen through the PSF `τ`, where the PSF of the image would have put it. -/
def newStarAs (h w : ℕ) (τ : Img ℝ) (A' B' X Y : ℤ) (m : Bool) : Img ℝ :=
  if m then skyStar h w τ A' B' X Y 1 else ⟨h, w, fun _ _ => 0⟩

/-- Cauchy and Schwarz with positive weights, complex, and the case of equality. -/
theorem overlap_le_complex {β : Type} (I : Finset β) (s x : β → ℂ) (v : β → ℝ) (hv : ∀ b ∈ I, 0 < v b)
    (hE : 0 < ∑ b ∈ I, v b * normSq (s b)) :
    normSq (∑ b ∈ I, (v b : ℂ) * ((starRingEnd ℂ) (s b) * x b)) ≤
      (∑ b ∈ I, v b * normSq (s b)) * ∑ b ∈ I, v b * normSq (x b) ∧
    (normSq (∑ b ∈ I, (v b : ℂ) * ((starRingEnd ℂ) (s b) * x b)) =
      (∑ b ∈ I, v b * normSq (s b)) * (∑ b ∈ I, v b * normSq (x b)) ↔ ∃ c : ℂ, ∀ b ∈ I, x b = c * s b) := by
  set E := ∑ b ∈ I, v b * normSq (s b) with hEd
  set C := ∑ b ∈ I, (v b : ℂ) * ((starRingEnd ℂ) (s b) * x b) with hC
  set F := ∑ b ∈ I, v b * normSq (x b) with hF
  have key : ∑ b ∈ I, v b * normSq ((E : ℂ) * x b - C * s b) = E * (E * F - normSq C) := by
    have term : ∀ b ∈ I, v b * normSq ((E : ℂ) * x b - C * s b) =
        E ^ 2 * (v b * normSq (x b)) + normSq C * (v b * normSq (s b)) -
          2 * E * ((starRingEnd ℂ) C * ((v b : ℂ) * ((starRingEnd ℂ) (s b) * x b))).re := by
      intro b _
      rw [normSq_sub, normSq_mul, normSq_mul, normSq_ofReal, map_mul]
      have e : ((starRingEnd ℂ) C * ((v b : ℂ) * ((starRingEnd ℂ) (s b) * x b))).re =
          v b * ((starRingEnd ℂ) C * ((starRingEnd ℂ) (s b) * x b)).re := by
        rw [mul_left_comm, Complex.re_ofReal_mul]
      have e2 : ((E : ℂ) * x b * ((starRingEnd ℂ) C * (starRingEnd ℂ) (s b))).re =
          E * ((starRingEnd ℂ) C * ((starRingEnd ℂ) (s b) * x b)).re := by
        rw [← Complex.re_ofReal_mul]
        congr 1
        ring
      rw [e, e2]
      ring
    rw [Finset.sum_congr rfl term, Finset.sum_sub_distrib, Finset.sum_add_distrib, ← Finset.mul_sum, ← Finset.mul_sum,
      ← Finset.mul_sum, ← Complex.re_sum, ← Finset.mul_sum, ← hEd, ← hC, ← hF, mul_comm ((starRingEnd ℂ) C),
      Complex.mul_conj, Complex.ofReal_re]
    ring
  have nn : ∀ b ∈ I, 0 ≤ v b * normSq ((E : ℂ) * x b - C * s b) := fun b hb => mul_nonneg (hv b hb).le (normSq_nonneg _)
  have pos : 0 ≤ E * (E * F - normSq C) := key ▸ Finset.sum_nonneg nn
  refine ⟨by linarith [nonneg_of_mul_nonneg_right pos hE], ?_⟩
  constructor
  · intro e
    refine ⟨C / E, fun b hb => ?_⟩
    have z : ∑ b ∈ I, v b * normSq ((E : ℂ) * x b - C * s b) = 0 := by rw [key, e]; ring
    have := (Finset.sum_eq_zero_iff_of_nonneg nn).1 z b hb
    have h2 := normSq_eq_zero.1 ((mul_eq_zero.1 this).resolve_left (hv b hb).ne')
    have E0 : (E : ℂ) ≠ 0 := by exact_mod_cast hE.ne'
    field_simp
    linear_combination h2
  · rintro ⟨c, hc⟩
    have e1 : C = c * (E : ℂ) := by
      rw [hC, hEd, Complex.ofReal_sum, Finset.mul_sum]
      refine Finset.sum_congr rfl fun b hb => ?_
      rw [hc b hb, Complex.ofReal_mul, ← Complex.mul_conj]
      ring
    have e2 : F = normSq c * E := by
      rw [hF, hEd, Finset.mul_sum]
      refine Finset.sum_congr rfl fun b hb => ?_
      rw [hc b hb, normSq_mul]
      ring
    rw [e1, e2, normSq_mul, normSq_ofReal]
    ring

theorem ifftOrtho_inner (h w : ℕ) (G H : ℕ → ℕ → ℂ) :
    ∑ i ∈ range h, ∑ j ∈ range w, (ifftOrtho ⟨h, w, G⟩).px i j * (starRingEnd ℂ) ((ifftOrtho ⟨h, w, H⟩).px i j) =
      ∑ k ∈ range h, ∑ l ∈ range w, G k l * (starRingEnd ℂ) (H k l) := by
  have e := fftOrtho_inner h w (ifftOrtho ⟨h, w, G⟩).px (ifftOrtho ⟨h, w, H⟩).px
  rw [← e]
  refine Finset.sum_congr rfl fun k hk => Finset.sum_congr rfl fun l hl => ?_
  have g := fftOrtho_ifftOrtho ⟨h, w, G⟩ k l (mem_range.1 hk) (mem_range.1 hl)
  have h' := fftOrtho_ifftOrtho ⟨h, w, H⟩ k l (mem_range.1 hk) (mem_range.1 hl)
  exact congrArg₂ (fun u v => u * (starRingEnd ℂ) v) g h'

/-- Two real images whose transforms are in one complex proportion are in one real proportion. -/
theorem proportion_iff (h w : ℕ) (P T : Img ℝ)
    (hP : ∃ a < h, ∃ b < w, padPx P a b ≠ 0) :
    (∃ c : ℂ, ∀ k < h, ∀ l < w, (fftOrtho (padTo h w (toC T))).px k l = c * (fftOrtho (padTo h w (toC P))).px k l) ↔
      ∃ c : ℝ, ∀ a < h, ∀ b < w, padPx T a b = c * padPx P a b := by
  have pad : ∀ (Q : Img ℝ) a b, (padTo h w (toC Q)).px a b = (padPx Q a b : ℂ) := by
    intro Q a b
    change (if a < Q.h ∧ b < Q.w then ((Q.px a b : ℝ) : ℂ) else 0) = ((if a < Q.h ∧ b < Q.w then Q.px a b else 0 : ℝ) : ℂ)
    split_ifs <;> simp
  constructor
  · rintro ⟨c, hc⟩
    have eq : ∀ a < h, ∀ b < w, (padPx T a b : ℂ) = c * padPx P a b := by
      intro a ha b hb
      have t := ifftOrtho_fftOrtho (padTo h w (toC T)) a b ha hb
      have q := ifftOrtho_fftOrtho (padTo h w (toC P)) a b ha hb
      rw [pad] at t q
      rw [← t, ← q]
      refine (ifftOrtho_congr h w _ _ (fun k hk l hl => hc k hk l hl) a b).trans ?_
      exact ifftOrtho_const_mul h w c _ a b
    obtain ⟨a, ha, b, hb, nz⟩ := hP
    have real : c = (c.re : ℂ) := by
      have e := eq a ha b hb
      have : c = ((padPx T a b / padPx P a b : ℝ) : ℂ) := by
        have nz' : (padPx P a b : ℂ) ≠ 0 := by exact_mod_cast nz
        rw [Complex.ofReal_div, e]
        field_simp
      rw [this, Complex.ofReal_re]
    refine ⟨c.re, fun a ha b hb => ?_⟩
    have e := eq a ha b hb
    rw [real] at e
    exact_mod_cast e
  · rintro ⟨c, hc⟩
    refine ⟨(c : ℂ), fun k _ l _ => ?_⟩
    change (∑ a ∈ range h, ∑ b ∈ range w, (padTo h w (toC T)).px a b * (tw h ((k : ℝ) * a) * tw w ((l : ℝ) * b))) /
      (Real.sqrt ((h * w : ℕ) : ℝ) : ℂ) = (c : ℂ) * ((∑ a ∈ range h, ∑ b ∈ range w, (padTo h w (toC P)).px a b *
        (tw h ((k : ℝ) * a) * tw w ((l : ℝ) * b))) / (Real.sqrt ((h * w : ℕ) : ℝ) : ℂ))
    rw [← mul_div_assoc, Finset.mul_sum]
    congr 1
    refine Finset.sum_congr rfl fun a ha => ?_
    rw [Finset.mul_sum]
    refine Finset.sum_congr rfl fun b hb => ?_
    rw [pad, pad, hc a (mem_range.1 ha) b (mem_range.1 hb), Complex.ofReal_mul]
    ring

/-- C170: no statistic that ignores constant stars does better with a new star seen through `τ` than this. -/
theorem ignoring_bound_as (ref new : SubImg) (h w : ℕ) (b : ℝ) (A B A' B' : ℤ) (hr : ref.interped.shape = (h, w))
    (hn : new.interped.shape = (h, w)) (hh : h ≠ 0) (hw : w ≠ 0) (gr : GuardIdle h w ref.psf) (gn : GuardIdle h w new.psf)
    (hv : new.var ≠ 0 ∨ (ref.var ≠ 0 ∧ b ≠ 0)) (g : Bool → ℕ → ℕ → ℂ)
    (hg : IgnoresConstant h w ref new b A B A' B' g) (τ : Img ℝ) (X Y : ℤ) :
    normSq (linResp h w g (newStarAs h w τ A' B' X Y)) ≤ linNoise h w (pairSigma ref new) g *
      ∑ k ∈ range h, ∑ l ∈ range w, normSq (ref.psfHat.px k l) / normReal ref new b k l *
        normSq ((fftOrtho (padTo h w (toC τ))).px k l) := by
  have npos : ∀ k l, 0 < normReal ref new b k l := by
    intro k l
    obtain ⟨_, _, r, hr, hr'⟩ := subtract_norm_pos ref new b k l hv
    rw [normHat_eq] at hr'
    have hr2 : normReal ref new b k l = r := by exact_mod_cast hr'
    rw [hr2]
    exact hr
  set G := fun k l => (fftOrtho ⟨h, w, fun x y => (starRingEnd ℂ) (g true x y)⟩).px k l with hG
  set F := fun k l => (fftOrtho ⟨h, w, fun x y => (starRingEnd ℂ) (g false x y)⟩).px k l with hF
  have noise : linNoise h w (pairSigma ref new) g = ∑ c ∈ range h ×ˢ range w,
      (new.var ^ 2 * normSq (G c.1 c.2) + ref.var ^ 2 * normSq (F c.1 c.2)) := by
    unfold linNoise pairSigma
    rw [Fintype.sum_bool, Finset.sum_product]
    simp only [if_true, Bool.false_eq_true, if_false, Finset.sum_add_distrib, ← Finset.mul_sum]
    rw [hG, hF, fftOrtho_power, fftOrtho_power]
    simp only [normSq_conj]
  have resp : linResp h w g (newStarAs h w τ A' B' X Y) = ∑ c ∈ range h ×ˢ range w,
      (fftOrtho (padTo h w (toC τ))).px c.1 c.2 * shiftPhase h w (((X - A' : ℤ) : ℝ), ((Y - B' : ℤ) : ℝ)) c.1 c.2 *
        (starRingEnd ℂ) (G c.1 c.2) := by
    unfold linResp newStarAs
    rw [Fintype.sum_bool, Finset.sum_product]
    simp only [if_true, Bool.false_eq_true, if_false, Complex.ofReal_zero, mul_zero, Finset.sum_const_zero,
      add_zero]
    rw [weighted_hat h w _ _ ⟨rfl, rfl⟩]
    refine Finset.sum_congr rfl fun k hk => Finset.sum_congr rfl fun l hl => ?_
    rw [fftOrtho_skyStar h w hh hw]
    push_cast
    ring
  rw [noise, resp, ← Finset.sum_product (s := range h) (t := range w)
    (f := fun c => normSq (ref.psfHat.px c.1 c.2) / normReal ref new b c.1 c.2 *
      normSq ((fftOrtho (padTo h w (toC τ))).px c.1 c.2))]
  refine response_bound _ _ _ _ (fun c _ => ?_) (fun c _ => ?_) (fun c hc => ?_)
  · have h1 := normSq_nonneg (G c.1 c.2)
    have h2 := normSq_nonneg (F c.1 c.2)
    positivity
  · exact mul_nonneg (div_nonneg (normSq_nonneg _) (npos _ _).le) (normSq_nonneg _)
  · rw [Finset.mem_product] at hc
    have z := ignores_hat ref new h w b A B A' B' hr hn hh hw gr gn g hg c.1 c.2 (mem_range.1 hc.1) (mem_range.1 hc.2)
    have z2 : normSq (ref.psfHat.px c.1 c.2) * normSq (F c.1 c.2) =
        b ^ 2 * normSq (new.psfHat.px c.1 c.2) * normSq (G c.1 c.2) := by
      have z3 := congrArg normSq (eq_neg_of_add_eq_zero_left z)
      rw [normSq_neg] at z3
      simp only [normSq_mul, normSq_shiftPhase, normSq_conj, normSq_ofReal, mul_one] at z3
      rw [hF, hG, ← z3]
      ring
    have np := npos c.1 c.2
    rw [normSq_mul, normSq_mul, normSq_shiftPhase, normSq_conj, mul_one, div_mul_eq_mul_div, ← mul_div_assoc, le_div_iff₀ np]
    unfold normReal
    refine le_of_eq ?_
    linear_combination (-(ref.var ^ 2 * normSq ((fftOrtho (padTo h w (toC τ))).px c.1 c.2))) * z2

section
variable (env : SubEnv) (it : Bool) (ref new : SubImg) (h w : ℕ) (z : ℝ × ℝ)
    (hmr : ref.mask.HasShape h w) (hmn : new.mask.HasShape h w) (hz : env.zps = .ok z)
    (hc : env.fitted = true ∨ (0 ≤ (centerOfMass new.psf).1 ∧ 0 ≤ (centerOfMass new.psf).2))
    (hr : ref.interped.shape = (h, w)) (hn : new.interped.shape = (h, w)) (hh : h ≠ 0) (hw : w ≠ 0)
    (gr : GuardIdle h w ref.psf) (gn : GuardIdle h w new.psf) (A B A' B' : ℤ)
    (hA : centerOfMass ref.psf = ((A : ℝ), (B : ℝ))) (hA' : centerOfMass new.psf = ((A' : ℝ), (B' : ℝ)))
include hmr hmn hz hc hr hn hA hA'

/-- C170: the response of the statistic to anything the two images show. -/
theorem subtract_any_signal (hb : z.2 / z.1 ≠ 0) (hv : ref.var ≠ 0 ∨ new.var ≠ 0) (X Y : ℤ) :
    ∃ out, subtract env ⟨false, false, it⟩ ref new = .ok out ∧
      ∀ T, T = pixelWeights h w
          (fun i j => (out.P.px (((i : ℤ) - (X - A' - A)) % h).toNat (((j : ℤ) - (Y - B' - B)) % w).toNat : ℂ))
          (pairResp env ⟨false, false, it⟩ ref new) →
        linNoise h w (pairSigma ref new) T = (ref.var ^ 2 * (z.2 / z.1) ^ 2 + new.var ^ 2) *
          (∑ k ∈ range h, ∑ l ∈ range w,
            normSq (ref.psfHat.px k l) * normSq (new.psfHat.px k l) / normReal ref new (z.2 / z.1) k l) ∧
        ∀ x : Bool → Img ℝ, (∀ m, (x m).h = h ∧ (x m).w = w) →
          linResp h w T x = (Real.sqrt (ref.var ^ 2 * (z.2 / z.1) ^ 2 + new.var ^ 2) : ℂ) *
            ∑ k ∈ range h, ∑ l ∈ range w,
              (starRingEnd ℂ) (ref.psfHat.px k l * new.psfHat.px k l *
                shiftPhase h w (((X - A' - A : ℤ) : ℝ), ((Y - B' - B : ℤ) : ℝ)) k l) / (normReal ref new (z.2 / z.1) k l : ℂ) *
              (ref.psfHat.px k l * shiftPhase h w (((-A : ℤ) : ℝ), ((-B : ℤ) : ℝ)) k l * (fftOrtho (toC (x true))).px k l -
                ((z.2 / z.1 : ℝ) : ℂ) * new.psfHat.px k l * shiftPhase h w (((-A' : ℤ) : ℝ), ((-B' : ℤ) : ℝ)) k l *
                  (fftOrtho (toC (x false))).px k l) := by
  have hv' : new.var ≠ 0 ∨ (ref.var ≠ 0 ∧ z.2 / z.1 ≠ 0) := by
    rcases hv with h1 | h1
    · exact Or.inr ⟨h1, hb⟩
    · exact Or.inl h1
  have rh : ref.interped.h = h := congrArg Prod.fst hr
  have rw0 : ref.interped.w = w := congrArg Prod.snd hr
  have nh : new.interped.h = h := congrArg Prod.fst hn
  have nw : new.interped.w = w := congrArg Prod.snd hn
  obtain ⟨out, e, _, hP, _⟩ := subtract_returns env it ref new h w hr hn hmr hmn z hz hc
  refine ⟨out, e, ?_⟩
  intro T hT
  have Sq : 0 < ref.var ^ 2 * (z.2 / z.1) ^ 2 + new.var ^ 2 := by
    rcases hv with h1 | h1
    · have : 0 < ref.var ^ 2 * (z.2 / z.1) ^ 2 := by positivity
      positivity
    · have : 0 < new.var ^ 2 := by positivity
      positivity
  set S : ℝ := Real.sqrt (ref.var ^ 2 * (z.2 / z.1) ^ 2 + new.var ^ 2) with hS
  have hSpos : 0 < S := Real.sqrt_pos.2 Sq
  have hS0 : (S : ℂ) ≠ 0 := by exact_mod_cast hSpos.ne'
  set Q : ℕ → ℕ → ℝ := fun i j =>
    out.P.px (((i : ℤ) - (X - A' - A)) % h).toNat (((j : ℤ) - (Y - B' - B)) % w).toNat with hQ
  have npos : ∀ k l, 0 < normReal ref new (z.2 / z.1) k l := by
    intro k l
    obtain ⟨_, _, r, hr, hr'⟩ := subtract_norm_pos ref new (z.2 / z.1) k l hv'
    rw [normHat_eq] at hr'
    have hr2 : normReal ref new (z.2 / z.1) k l = r := by exact_mod_cast hr'
    rw [hr2]
    exact hr
  have e3 : pHat ref new (z.2 / z.1) = ⟨h, w, (pHat ref new (z.2 / z.1)).px⟩ := by
    have e1 : (pHat ref new (z.2 / z.1)).h = h := rh
    have e2 : (pHat ref new (z.2 / z.1)).w = w := rw0
    rw [← e1, ← e2]
  set H : ℕ → ℕ → ℂ := fun k l =>
    ref.psfHat.px k l * new.psfHat.px k l / (Real.sqrt (normReal ref new (z.2 / z.1) k l) : ℂ) *
      shiftPhase h w (((X - A' - A : ℤ) : ℝ), ((Y - B' - B : ℤ) : ℝ)) k l with hH
  have Qh : ∀ i < h, ∀ j < w, (Q i j : ℂ) = (S : ℂ) * (ifftOrtho ⟨h, w, H⟩).px i j := by
    intro i hi j hj
    rw [hH, ifftOrtho_roll h w _ _ _ i j hi hj]
    have c : (ifftOrtho ⟨h, w, fun k l => ref.psfHat.px k l * new.psfHat.px k l /
        (Real.sqrt (normReal ref new (z.2 / z.1) k l) : ℂ)⟩).px (((i : ℤ) - (X - A' - A)) % h).toNat
          (((j : ℤ) - (Y - B' - B)) % w).toNat =
        ((1 / S : ℝ) : ℂ) * (ifftOrtho ⟨h, w, (pHat ref new (z.2 / z.1)).px⟩).px
          (((i : ℤ) - (X - A' - A)) % h).toNat (((j : ℤ) - (Y - B' - B)) % w).toNat := by
      rw [← ifftOrtho_const_mul]
      refine ifftOrtho_congr h w _ _ ?_ _ _
      intro k _ l _
      rw [pHat_eq ref new z hb hv k l]
    rw [c, ← e3, ← subtract_P_real ref new (nh.trans rh.symm) (nw.trans rw0.symm), ← hP]
    push_cast
    field_simp
    rfl
  have noise : linNoise h w (pairSigma ref new) T = ∑ i ∈ range h, ∑ j ∈ range w, normSq (Q i j : ℂ) := by
    rw [hT, linNoise_pixels h w (pairSigma ref new) _ _ 1]
    · rw [one_mul]
    · intro i hi j hj i' hi' j' hj'
      have wn := subtract_noise_white env it ref new h w z hmr hmn hz hc hr hn hv' i j i' j' hi hj hi' hj'
      rw [Complex.ofReal_one, ← wn, Fintype.sum_bool]
      unfold pairSigma pairResp
      simp only [if_true, Bool.false_eq_true, if_false, Finset.sum_add_distrib, ← Finset.mul_sum]
  refine ⟨?_, ?_⟩
  · rw [noise]
    have P := ifftOrtho_power h w H
    rw [Finset.sum_congr rfl fun i hi => Finset.sum_congr rfl fun j hj => by
      rw [Qh i (mem_range.1 hi) j (mem_range.1 hj), normSq_mul, normSq_ofReal]]
    simp only [← Finset.mul_sum]
    rw [P, hS, Real.mul_self_sqrt Sq.le]
    congr 1
    refine Finset.sum_congr rfl fun k _ => Finset.sum_congr rfl fun l _ => ?_
    rw [hH]
    simp only []
    rw [normSq_mul, normSq_shiftPhase, normSq_div, normSq_mul, normSq_ofReal, Real.mul_self_sqrt (npos k l).le,
      mul_one]
  · intro x hx
    set G : ℕ → ℕ → ℂ := fun k l => gainNew ref new (z.2 / z.1) k l * (fftOrtho (toC (x true))).px k l +
      gainRef ref new (z.2 / z.1) 0 0 k l * (fftOrtho (toC (x false))).px k l with hG
    have shown : ∀ i j, ∑ m : Bool, ∑ a ∈ range h, ∑ b ∈ range w,
        ((x m).px a b : ℂ) * pairResp env ⟨false, false, it⟩ ref new m i j a b = (ifftOrtho ⟨h, w, G⟩).px i j := by
      intro i j
      rw [Fintype.sum_bool]
      unfold pairResp
      simp only [if_true, Bool.false_eq_true, if_false]
      have r := fun x hx y hy => resp_eq env it ref new h w z hmr hmn hz hc hr hn i j x y
        (mem_range.1 hx) (mem_range.1 hy)
      rw [Finset.sum_congr rfl fun a ha => Finset.sum_congr rfl fun b hb => by rw [(r a ha b hb).1],
        Finset.sum_congr (s₁ := range h) (f := fun a => ∑ b ∈ range w, ((x false).px a b : ℂ) *
          respRef env ⟨false, false, it⟩ ref new i j a b) rfl fun a ha => Finset.sum_congr rfl fun b hb => by
            rw [(r a ha b hb).2]]
      have f1 := filter_eq ⟨h, w, fun a b => ((x true).px a b : ℂ)⟩ (gainNew ref new (z.2 / z.1)) i j
      have f2 := filter_eq ⟨h, w, fun a b => ((x false).px a b : ℂ)⟩ (gainRef ref new (z.2 / z.1) 0 0) i j
      refine (congrArg₂ (· + ·) f1.symm f2.symm).trans ?_
      change (ifftOrtho ⟨h, w, _⟩).px i j + (ifftOrtho ⟨h, w, _⟩).px i j = _
      rw [← ifftOrtho_add]
      refine ifftOrtho_congr h w _ _ ?_ i j
      intro k _ l _
      have t : ∀ m, (⟨h, w, fun a b => ((x m).px a b : ℂ)⟩ : Img ℂ) = toC (x m) := by
        intro m
        rw [← (hx m).1, ← (hx m).2]
        rfl
      rw [t, t]
    rw [hT, linResp_pixels]
    rw [Finset.sum_congr rfl fun i hi => Finset.sum_congr rfl fun j hj => by
      change (Q i j : ℂ) * _ = (S : ℂ) * ((ifftOrtho ⟨h, w, G⟩).px i j * (starRingEnd ℂ) ((ifftOrtho ⟨h, w, H⟩).px i j))
      rw [shown i j, ← Complex.conj_ofReal (Q i j), Qh i (mem_range.1 hi) j (mem_range.1 hj), map_mul, Complex.conj_ofReal]
      ring]
    simp only [← Finset.mul_sum]
    rw [ifftOrtho_inner h w G H]
    congr 1
    refine Finset.sum_congr rfl fun k _ => Finset.sum_congr rfl fun l _ => ?_
    rw [hG, hH]
    simp only []
    unfold gainNew gainRef centredPsf SubImg.h SubImg.w
    rw [rh, rw0, nh, nw, hA, hA']
    have z0 : shiftPhase h w (0, 0) k l = 1 := by simp [shiftPhase, tw_zero]
    have n1 : negPair ((A : ℝ), (B : ℝ)) = (((-A : ℤ) : ℝ), ((-B : ℤ) : ℝ)) := by simp [negPair]
    have n2 : negPair ((A' : ℝ), (B' : ℝ)) = (((-A' : ℤ) : ℝ), ((-B' : ℤ) : ℝ)) := by simp [negPair]
    rw [z0, n1, n2]
    have nn : (normReal ref new (z.2 / z.1) k l : ℂ) = (Real.sqrt (normReal ref new (z.2 / z.1) k l) : ℂ) *
        (Real.sqrt (normReal ref new (z.2 / z.1) k l) : ℂ) := by
      rw [← Complex.ofReal_mul, Real.mul_self_sqrt (npos k l).le]
    have sq0 : (Real.sqrt (normReal ref new (z.2 / z.1) k l) : ℂ) ≠ 0 := by
      exact_mod_cast (Real.sqrt_pos.2 (npos k l)).ne'
    rw [nn]
    simp only [map_mul, map_div₀, Complex.conj_ofReal]
    field_simp
    ring


include hh hw gn

/-- C170: a star in the new image only, seen through a PSF `τ` other than the one `subtract` works with. Its response is that to a
star with the assumed PSF times a fixed ratio; its square over the noise never exceeds a bound, and reaches it exactly when `τ` is
the assumed PSF up to a factor. -/
theorem subtract_wrong_psf (hb : z.2 / z.1 ≠ 0) (hv : ref.var ≠ 0 ∨ new.var ≠ 0) (τ : Img ℝ) (X Y : ℤ) :
    ∃ out, subtract env ⟨false, false, it⟩ ref new = .ok out ∧
      ∀ T, T = pixelWeights h w
          (fun i j => (out.P.px (((i : ℤ) - (X - A' - A)) % h).toNat (((j : ℤ) - (Y - B' - B)) % w).toNat : ℂ))
          (pairResp env ⟨false, false, it⟩ ref new) →
        0 < linNoise h w (pairSigma ref new) T ∧
        linResp h w T (newStarAs h w τ A' B' X Y) *
            ((∑ k ∈ range h, ∑ l ∈ range w, normSq (ref.psfHat.px k l) / normReal ref new (z.2 / z.1) k l *
              normSq ((fftOrtho (padTo h w (toC new.psf))).px k l) : ℝ) : ℂ) =
          linResp h w T (newStarAs h w new.psf A' B' X Y) *
            ∑ k ∈ range h, ∑ l ∈ range w, ((normSq (ref.psfHat.px k l) / normReal ref new (z.2 / z.1) k l : ℝ) : ℂ) *
              ((starRingEnd ℂ) ((fftOrtho (padTo h w (toC new.psf))).px k l) * (fftOrtho (padTo h w (toC τ))).px k l) ∧
        normSq (linResp h w T (newStarAs h w τ A' B' X Y)) / linNoise h w (pairSigma ref new) T =
          normSq (∑ k ∈ range h, ∑ l ∈ range w, ((normSq (ref.psfHat.px k l) / normReal ref new (z.2 / z.1) k l : ℝ) : ℂ) *
              ((starRingEnd ℂ) ((fftOrtho (padTo h w (toC new.psf))).px k l) * (fftOrtho (padTo h w (toC τ))).px k l)) /
            ∑ k ∈ range h, ∑ l ∈ range w, normSq (ref.psfHat.px k l) / normReal ref new (z.2 / z.1) k l *
              normSq ((fftOrtho (padTo h w (toC new.psf))).px k l) ∧
        normSq (linResp h w T (newStarAs h w τ A' B' X Y)) / linNoise h w (pairSigma ref new) T ≤
          ∑ k ∈ range h, ∑ l ∈ range w, normSq (ref.psfHat.px k l) / normReal ref new (z.2 / z.1) k l *
              normSq ((fftOrtho (padTo h w (toC τ))).px k l) ∧
        (normSq (linResp h w T (newStarAs h w τ A' B' X Y)) / linNoise h w (pairSigma ref new) T =
          ∑ k ∈ range h, ∑ l ∈ range w, normSq (ref.psfHat.px k l) / normReal ref new (z.2 / z.1) k l *
              normSq ((fftOrtho (padTo h w (toC τ))).px k l) ↔
          ∃ c : ℝ, ∀ a < h, ∀ b < w, padPx τ a b = c * padPx new.psf a b) := by
  obtain ⟨out, e, st⟩ := subtract_any_signal env it ref new h w z hmr hmn hz hc hr hn A B A' B' hA hA' hb hv X Y
  refine ⟨out, e, fun T hT => ?_⟩
  obtain ⟨noise, resp⟩ := st T hT
  have hv' : new.var ≠ 0 ∨ (ref.var ≠ 0 ∧ z.2 / z.1 ≠ 0) := by
    rcases hv with h1 | h1
    · exact Or.inr ⟨h1, hb⟩
    · exact Or.inl h1
  have nh : new.interped.h = h := congrArg Prod.fst hn
  have nw : new.interped.w = w := congrArg Prod.snd hn
  have Sq : 0 < ref.var ^ 2 * (z.2 / z.1) ^ 2 + new.var ^ 2 := by
    rcases hv with h1 | h1
    · have : 0 < ref.var ^ 2 * (z.2 / z.1) ^ 2 := by positivity
      positivity
    · have : 0 < new.var ^ 2 := by positivity
      positivity
  have npos : ∀ k l, 0 < normReal ref new (z.2 / z.1) k l := by
    intro k l
    obtain ⟨_, _, r, hr, hr'⟩ := subtract_norm_pos ref new (z.2 / z.1) k l hv'
    rw [normHat_eq] at hr'
    have hr2 : normReal ref new (z.2 / z.1) k l = r := by exact_mod_cast hr'
    rw [hr2]
    exact hr
  have vpos : ∀ k l, 0 < normSq (ref.psfHat.px k l) / normReal ref new (z.2 / z.1) k l := fun k l =>
    div_pos (normSq_pos.2 (psfHat_ne_zero _ _ _)) (npos k l)
  set v : ℕ → ℕ → ℝ := fun k l => normSq (ref.psfHat.px k l) / normReal ref new (z.2 / z.1) k l with hvd
  set n : ℕ → ℕ → ℂ := fun k l => (fftOrtho (padTo h w (toC new.psf))).px k l with hnd
  have nhat : ∀ k < h, ∀ l < w, new.psfHat.px k l = n k l := fun k hk l hl => psfHat_idle new h w nh nw gn k l hk hl
  have n0 : ∀ k < h, ∀ l < w, n k l ≠ 0 := fun k hk l hl => nhat k hk l hl ▸ psfHat_ne_zero new k l
  set S : ℝ := Real.sqrt (ref.var ^ 2 * (z.2 / z.1) ^ 2 + new.var ^ 2) with hS
  have hSpos : 0 < S := Real.sqrt_pos.2 Sq
  have respOf : ∀ P : Img ℝ, linResp h w T (newStarAs h w P A' B' X Y) = (S : ℂ) *
      ∑ k ∈ range h, ∑ l ∈ range w, (v k l : ℂ) * ((starRingEnd ℂ) (n k l) * (fftOrtho (padTo h w (toC P))).px k l) := by
    intro P
    rw [resp (newStarAs h w P A' B' X Y) (by intro m; cases m <;> exact ⟨rfl, rfl⟩)]
    congr 1
    refine Finset.sum_congr rfl fun k hk => Finset.sum_congr rfl fun l hl => ?_
    have zr : (fftOrtho (toC (newStarAs h w P A' B' X Y false))).px k l = 0 := by
      change (∑ i ∈ range h, ∑ j ∈ range w, ((0 : ℝ) : ℂ) * (tw h ((k : ℝ) * i) * tw w ((l : ℝ) * j))) / _ = 0
      simp
    have nr : (fftOrtho (toC (newStarAs h w P A' B' X Y true))).px k l = _ :=
      fftOrtho_skyStar h w hh hw P A' B' X Y 1 k l
    rw [zr, nr, nhat k (mem_range.1 hk) l (mem_range.1 hl), hvd]
    simp only [map_mul]
    have s1 := shiftPhase_add h w (((X - A' : ℤ) : ℝ), ((Y - B' : ℤ) : ℝ)) (((-A : ℤ) : ℝ), ((-B : ℤ) : ℝ)) k l
    have t1 : (((X - A' - A : ℤ) : ℝ), ((Y - B' - B : ℤ) : ℝ)) =
        (((X - A' : ℤ) : ℝ) + ((-A : ℤ) : ℝ), ((Y - B' : ℤ) : ℝ) + ((-B : ℤ) : ℝ)) := by
      congr 1 <;> push_cast <;> ring
    have u1 := (congrArg (fun v => shiftPhase h w v k l) t1).trans s1
    have one := Complex.mul_conj (shiftPhase h w (((X - A' - A : ℤ) : ℝ), ((Y - B' - B : ℤ) : ℝ)) k l)
    rw [normSq_shiftPhase] at one
    nth_rewrite 1 [u1] at one
    have rr := Complex.mul_conj (ref.psfHat.px k l)
    have vv : ((normSq (ref.psfHat.px k l) / normReal ref new (z.2 / z.1) k l : ℝ) : ℂ) =
        ref.psfHat.px k l * (starRingEnd ℂ) (ref.psfHat.px k l) / (normReal ref new (z.2 / z.1) k l : ℂ) := by
      rw [Complex.ofReal_div, rr]
    rw [vv, Complex.ofReal_one]
    rw [Complex.ofReal_one] at one
    linear_combination (ref.psfHat.px k l * (starRingEnd ℂ) (ref.psfHat.px k l) /
      (normReal ref new (z.2 / z.1) k l : ℂ) * (starRingEnd ℂ) (n k l) * (fftOrtho (padTo h w (toC P))).px k l) * one
  have noise' : linNoise h w (pairSigma ref new) T = S * S * ∑ k ∈ range h, ∑ l ∈ range w, v k l * normSq (n k l) := by
    rw [noise, hS, Real.mul_self_sqrt Sq.le]
    congr 1
    refine Finset.sum_congr rfl fun k hk => Finset.sum_congr rfl fun l hl => ?_
    rw [nhat k (mem_range.1 hk) l (mem_range.1 hl), hvd]
    ring
  have E0 : 0 < ∑ k ∈ range h, ∑ l ∈ range w, v k l * normSq (n k l) := by
    refine Finset.sum_pos (fun k hk => Finset.sum_pos (fun l hl => ?_) ?_) ?_
    · exact mul_pos (vpos k l) (normSq_pos.2 (n0 k (mem_range.1 hk) l (mem_range.1 hl)))
    · exact Finset.nonempty_range_iff.2 hw
    · exact Finset.nonempty_range_iff.2 hh
  have npos' : 0 < linNoise h w (pairSigma ref new) T := by
    rw [noise']
    positivity
  have self : ∑ k ∈ range h, ∑ l ∈ range w, (v k l : ℂ) * ((starRingEnd ℂ) (n k l) * n k l) =
      ((∑ k ∈ range h, ∑ l ∈ range w, v k l * normSq (n k l) : ℝ) : ℂ) := by
    rw [Complex.ofReal_sum]
    refine Finset.sum_congr rfl fun k _ => ?_
    rw [Complex.ofReal_sum]
    refine Finset.sum_congr rfl fun l _ => ?_
    rw [Complex.ofReal_mul, ← Complex.mul_conj]
    ring
  have main : normSq (linResp h w T (newStarAs h w τ A' B' X Y)) / linNoise h w (pairSigma ref new) T =
      normSq (∑ k ∈ range h, ∑ l ∈ range w, (v k l : ℂ) *
        ((starRingEnd ℂ) (n k l) * (fftOrtho (padTo h w (toC τ))).px k l)) /
        ∑ k ∈ range h, ∑ l ∈ range w, v k l * normSq (n k l) := by
    rw [respOf τ, noise', normSq_mul, normSq_ofReal, mul_div_mul_left _ _ (by positivity)]
  obtain ⟨cs, ceq⟩ := overlap_le_complex (range h ×ˢ range w) (fun c => n c.1 c.2)
    (fun c => (fftOrtho (padTo h w (toC τ))).px c.1 c.2) (fun c => v c.1 c.2) (fun c _ => vpos c.1 c.2)
    (by rw [Finset.sum_product]; exact E0)
  simp only [Finset.sum_product] at cs ceq
  have some : ∃ a < h, ∃ b < w, padPx new.psf a b ≠ 0 := by
    by_contra hcon
    push Not at hcon
    refine n0 0 (by omega) 0 (by omega) ?_
    rw [hnd]
    change (∑ a ∈ range h, ∑ b ∈ range w, (padTo h w (toC new.psf)).px a b *
      (tw h (((0 : ℕ) : ℝ) * a) * tw w (((0 : ℕ) : ℝ) * b))) / (Real.sqrt ((h * w : ℕ) : ℝ) : ℂ) = 0
    rw [Finset.sum_eq_zero fun a ha => Finset.sum_eq_zero fun b hb => ?_, zero_div]
    have p : (padTo h w (toC new.psf)).px a b = (padPx new.psf a b : ℂ) := by
      change (if a < new.psf.h ∧ b < new.psf.w then ((new.psf.px a b : ℝ) : ℂ) else 0) =
        ((if a < new.psf.h ∧ b < new.psf.w then new.psf.px a b else 0 : ℝ) : ℂ)
      split_ifs <;> simp
    rw [p, hcon a (mem_range.1 ha) b (mem_range.1 hb), Complex.ofReal_zero, zero_mul]
  refine ⟨npos', ?_, main, ?_, ?_⟩
  · rw [respOf τ, respOf new.psf, ← self]
    ring
  · rw [main, div_le_iff₀ E0, mul_comm]
    exact cs
  · rw [main, div_eq_iff E0.ne', mul_comm, ceq, ← proportion_iff h w new.psf τ some]
    constructor
    · rintro ⟨c, hc'⟩
      exact ⟨c, fun k hk l hl => hc' (k, l) (by simp [hk, hl])⟩
    · rintro ⟨c, hc'⟩
      refine ⟨c, fun b hb' => ?_⟩
      simp only [mem_product, mem_range] at hb'
      exact hc' b.1 hb'.1 b.2 hb'.2

/-- C170: two images with the same PSF. The cost of the wrong PSF can be read off the pixels of the PSFs. -/
theorem subtract_wrong_psf_same (hb : z.2 / z.1 ≠ 0) (hv : ref.var ≠ 0 ∨ new.var ≠ 0) (same : ref.psf = new.psf) (τ : Img ℝ)
    (X Y : ℤ) :
    ∃ out, subtract env ⟨false, false, it⟩ ref new = .ok out ∧
      ∀ T, T = pixelWeights h w
          (fun i j => (out.P.px (((i : ℤ) - (X - A' - A)) % h).toNat (((j : ℤ) - (Y - B' - B)) % w).toNat : ℂ))
          (pairResp env ⟨false, false, it⟩ ref new) →
        normSq (linResp h w T (newStarAs h w τ A' B' X Y)) / linNoise h w (pairSigma ref new) T =
          (∑ a ∈ range h, ∑ b ∈ range w, padPx new.psf a b * padPx τ a b) ^ 2 /
            ((new.var ^ 2 + ref.var ^ 2 * (z.2 / z.1) ^ 2) * ∑ a ∈ range h, ∑ b ∈ range w, padPx new.psf a b ^ 2) := by
  obtain ⟨out, e, st⟩ := subtract_wrong_psf env it ref new h w z hmr hmn hz hc hr hn hh hw gn A B A' B' hA hA' hb hv τ X Y
  refine ⟨out, e, fun T hT => ?_⟩
  obtain ⟨_, _, main, _⟩ := st T hT
  rw [main]
  have rh : ref.interped.h = h := congrArg Prod.fst hr
  have rw0 : ref.interped.w = w := congrArg Prod.snd hr
  have nh : new.interped.h = h := congrArg Prod.fst hn
  have nw : new.interped.w = w := congrArg Prod.snd hn
  have Sq : 0 < new.var ^ 2 + ref.var ^ 2 * (z.2 / z.1) ^ 2 := by
    rcases hv with h1 | h1
    · have : 0 < ref.var ^ 2 * (z.2 / z.1) ^ 2 := by positivity
      positivity
    · have : 0 < new.var ^ 2 := by positivity
      positivity
  have hat : ref.psfHat = new.psfHat := by
    unfold SubImg.psfHat SubImg.h SubImg.w
    rw [rh, rw0, nh, nw, same]
  have v1 : ∀ k l, normSq (ref.psfHat.px k l) / normReal ref new (z.2 / z.1) k l =
      1 / (new.var ^ 2 + ref.var ^ 2 * (z.2 / z.1) ^ 2) := by
    intro k l
    unfold normReal
    rw [hat]
    have := normSq_pos.2 (psfHat_ne_zero new k l)
    field_simp
  have pad : ∀ (Q : Img ℝ), padTo h w (toC Q) = ⟨h, w, fun a b => (padPx Q a b : ℂ)⟩ := by
    intro Q
    unfold padTo
    congr 1
    funext a b
    change (if a < Q.h ∧ b < Q.w then ((Q.px a b : ℝ) : ℂ) else 0) = ((if a < Q.h ∧ b < Q.w then Q.px a b else 0 : ℝ) : ℂ)
    split_ifs <;> simp
  simp only [v1, ← Finset.mul_sum]
  have f1 := fftOrtho_power h w fun a b => (padPx new.psf a b : ℂ)
  have f2 := fftOrtho_inner h w (fun a b => (padPx τ a b : ℂ)) (fun a b => (padPx new.psf a b : ℂ))
  simp only [pad, f1]
  have c : ∑ k ∈ range h, ∑ l ∈ range w, (starRingEnd ℂ) ((fftOrtho ⟨h, w, fun a b => (padPx new.psf a b : ℂ)⟩).px k l) *
      (fftOrtho ⟨h, w, fun a b => (padPx τ a b : ℂ)⟩).px k l =
      ((∑ a ∈ range h, ∑ b ∈ range w, padPx new.psf a b * padPx τ a b : ℝ) : ℂ) := by
    simp only [mul_comm ((starRingEnd ℂ) _)]
    rw [f2]
    push_cast
    refine Finset.sum_congr rfl fun a _ => Finset.sum_congr rfl fun b _ => ?_
    rw [Complex.conj_ofReal]
    ring
  rw [c, ← Complex.ofReal_mul, normSq_ofReal]
  simp only [normSq_ofReal, ← sq]
  rw [div_pow, mul_pow]
  field_simp

end

/-! ## A case -/

/-- Two images with the PSF (1/4, 1/2, 1/4), noise 1 in the reference and 2 in the new image, zero points 1 and 3; the new star is
in truth a single pixel. The square of its signal-to-noise ratio is 2/39, two thirds of the bound 1/13. -/
example : ∃ out, subtract (tinyEnv 1 3) ⟨false, false, true⟩ (seeingSub 5 7 0 1) (seeingSub 1 0 4 2) = .ok out ∧
    ∀ T, T = pixelWeights 1 3
        (fun i j => (out.P.px (((i : ℤ) - (0 - 0 - 0)) % (1 : ℕ)).toNat (((j : ℤ) - (2 - 1 - 1)) % (3 : ℕ)).toNat : ℂ))
        (pairResp (tinyEnv 1 3) ⟨false, false, true⟩ (seeingSub 5 7 0 1) (seeingSub 1 0 4 2)) →
      normSq (linResp 1 3 T (newStarAs 1 3 ⟨1, 2, fun _ j => if j = 1 then 1 else 0⟩ 0 1 0 2)) /
        linNoise 1 3 (pairSigma (seeingSub 5 7 0 1) (seeingSub 1 0 4 2)) T = 2 / 39 := by
  obtain ⟨out, e, k⟩ := subtract_wrong_psf_same (tinyEnv 1 3) true (seeingSub 5 7 0 1) (seeingSub 1 0 4 2) 1 3 (1, 3)
    (by intro a h; cases h) (by intro a h; cases h) rfl (Or.inl rfl) rfl rfl (by norm_num) (by norm_num)
    seeing_idle 0 1 0 1 seeing_com seeing_com (by norm_num) (Or.inl (by norm_num [seeingSub])) rfl
    ⟨1, 2, fun _ j => if j = 1 then 1 else 0⟩ 0 2
  refine ⟨out, e, fun T hT => (k T hT).trans ?_⟩
  norm_num [Finset.sum_range_succ, padPx, seeingSub, seeingPsf]

end PI
