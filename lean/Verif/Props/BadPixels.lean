import Verif.Props.GaussNoise
import Verif.Lemmas.Fit

/-!
# Property C193: how much wrong pixels of the exposures can do to the difference image and to a coadd
-/

namespace PI

open Complex Finset

section lemmas
variable {ι π : Type} [Fintype ι] [Fintype π] [DecidableEq π]

/-- A white linear function reaches every result, at the price of the sum of its squares. -/
theorem white_reaches (K : π → ι → ℝ) (s : ι → ℝ) (hs : ∀ i, s i ≠ 0)
    (hK : ∀ p p', ∑ i, K p i * K p' i * s i ^ 2 = if p = p' then 1 else 0) (u : π → ℝ) :
    ∃ e : ι → ℝ, (∀ p, ∑ i, K p i * e i = u p) ∧ chiSquared s e = ∑ p, u p ^ 2 := by
  have h1 : ∀ p, ∑ i, K p i * (s i ^ 2 * ∑ p', u p' * K p' i) = u p := by
    intro p
    have : ∑ i, K p i * (s i ^ 2 * ∑ p', u p' * K p' i) = ∑ p', u p' * ∑ i, K p i * K p' i * s i ^ 2 := by
      simp only [Finset.mul_sum]
      rw [Finset.sum_comm]
      exact Finset.sum_congr rfl fun p' _ => Finset.sum_congr rfl fun i _ => by ring
    rw [this]
    simp only [hK, mul_ite, mul_one, mul_zero]
    rw [Finset.sum_ite_eq, if_pos (Finset.mem_univ p)]
  refine ⟨fun i => s i ^ 2 * ∑ p, u p * K p i, h1, ?_⟩
  have h2 : seenPart K s (fun i => s i ^ 2 * ∑ p, u p * K p i) = fun i => s i ^ 2 * ∑ p, u p * K p i := by
    funext i
    unfold seenPart
    rw [Finset.sum_congr rfl fun p _ => by rw [h1 p]]
  have h3 := (chiSquared_seen K s hs hK fun i => s i ^ 2 * ∑ p, u p * K p i).1
  rw [h2, Finset.sum_congr rfl fun p _ => by rw [h1 p]] at h3
  exact h3

omit [DecidableEq π] in
/-- How many squares of at least `t²` a sum can hold. -/
theorem count_large (f : π → ℝ) (t : ℝ) (ht : 0 ≤ t) (C : ℝ) (h : ∑ p, f p ^ 2 ≤ C) :
    ((univ.filter fun p => t ≤ |f p|).card : ℝ) * t ^ 2 ≤ C := by
  refine le_trans ?_ h
  calc ((univ.filter fun p => t ≤ |f p|).card : ℝ) * t ^ 2 = ∑ p ∈ univ.filter fun p => t ≤ |f p|, t ^ 2 := by
        rw [Finset.sum_const, nsmul_eq_mul]
    _ ≤ ∑ p ∈ univ.filter fun p => t ≤ |f p|, f p ^ 2 := by
        refine Finset.sum_le_sum fun p hp => ?_
        rw [← sq_abs (f p)]
        exact pow_le_pow_left₀ ht (Finset.mem_filter.1 hp).2 2
    _ ≤ ∑ p, f p ^ 2 := Finset.sum_le_sum_of_subset_of_nonneg (Finset.filter_subset _ _) fun p _ _ => sq_nonneg _

omit [Fintype π] [DecidableEq π] in
/-- Errors in the pixels of `B` only, of at most `k` times the noise. -/
theorem chiSquared_few (s e : ι → ℝ) (hs : ∀ i, s i ≠ 0) (B : Finset ι) (k : ℝ) (h0 : ∀ i, i ∉ B → e i = 0)
    (hk : ∀ i ∈ B, |e i| ≤ k * |s i|) : chiSquared s e ≤ B.card * k ^ 2 := by
  classical
  unfold chiSquared
  rw [← Finset.sum_subset (Finset.subset_univ B) fun i _ hi => by rw [h0 i hi]; simp, ← nsmul_eq_mul]
  refine Finset.sum_le_card_nsmul _ _ _ fun i hi => ?_
  have hsi : 0 < s i ^ 2 := by have := hs i; positivity
  rw [div_le_iff₀ hsi, ← sq_abs (e i), ← sq_abs (s i), ← mul_pow]
  exact pow_le_pow_left₀ (abs_nonneg _) (hk i hi) 2

end lemmas

section
variable (env : SubEnv) (it : Bool) (ref new : SubImg) (h w : ℕ) (z : ℝ × ℝ)
    (hmr : ref.mask.HasShape h w) (hmn : new.mask.HasShape h w) (hz : env.zps = .ok z)
    (hc : env.fitted = true ∨ (0 ≤ (centerOfMass new.psf).1 ∧ 0 ≤ (centerOfMass new.psf).2))
    (hr : ref.interped.shape = (h, w)) (hn : new.interped.shape = (h, w))
    (h1 : AxisOK h (centerOfMass ref.psf).1) (h2 : AxisOK w (centerOfMass ref.psf).2)
    (h3 : AxisOK h (centerOfMass new.psf).1) (h4 : AxisOK w (centerOfMass new.psf).2)
    (hvr : ref.var ≠ 0) (hvn : new.var ≠ 0)
include hmr hmn hz hc hr hn h1 h2 h3 h4 hvr hvn

/-- What the errors `e` change in D. -/
noncomputable def diffChange (e : Bool × Fin h × Fin w → ℝ) (p : Fin h × Fin w) : ℂ :=
  (noisyDiff env it ref new h w e).px p.1 p.2 - (diffOf env ⟨false, false, it⟩ ref new ref.interped new.interped).px p.1 p.2

omit hvr hvn in
theorem diffChange_eq (e : Bool × Fin h × Fin w → ℝ) (p : Fin h × Fin w) :
    diffChange env it ref new h w e p = ((∑ q, diffKernel env it ref new h w p q * e q : ℝ) : ℂ) := by
  apply Complex.ext
  · unfold diffChange
    rw [sub_re, noisyDiff_re env it ref new h w z hmr hmn hz hc hr hn e p, ofReal_re]
    ring
  · unfold diffChange noisyDiff
    rw [sub_im, diffOf_im env it ref new h w z hmr hmn hz hc h1 h2 h3 h4 ref.interped new.interped hr hn,
      diffOf_im env it ref new h w z hmr hmn hz hc h1 h2 h3 h4 (plusImg ref.interped (errImg fun p => e (false, p)))
        (plusImg new.interped (errImg fun p => e (true, p))) hr hn, ofReal_im, sub_zero]

omit hmr hmn hz hc hr hn h1 h2 h3 h4 in
theorem pairNoise_ne (q : Bool × Fin h × Fin w) : pairNoise ref new q ≠ 0 := by
  unfold pairNoise
  split
  · exact hvn
  · exact hvr

/-- C193: the squares of the changes of D add up to at most those of the errors in units of the noise. -/
theorem diff_errors_bounded (e : Bool × Fin h × Fin w → ℝ) :
    ∑ p, ‖diffChange env it ref new h w e p‖ ^ 2 ≤ ∑ q, e q ^ 2 / pairNoise ref new q ^ 2 := by
  have hK := diffKernel_white env it ref new h w z hmr hmn hz hc hr hn h1 h2 h3 h4 (Or.inl hvn)
  have := (chiSquared_seen (diffKernel env it ref new h w) (pairNoise ref new) (pairNoise_ne ref new h w hvr hvn) hK e).2
  refine le_of_eq_of_le (Finset.sum_congr rfl fun p _ => ?_) this
  rw [diffChange_eq env it ref new h w z hmr hmn hz hc hr hn h1 h2 h3 h4, norm_real, Real.norm_eq_abs, sq_abs]

/-- C193: so no pixel changes by more than the root of that sum, and few by much. -/
theorem diff_errors_count (e : Bool × Fin h × Fin w → ℝ) (t : ℝ) (ht : 0 ≤ t) :
    (∀ p, ‖diffChange env it ref new h w e p‖ ≤ Real.sqrt (∑ q, e q ^ 2 / pairNoise ref new q ^ 2)) ∧
    ((univ.filter fun p => t ≤ ‖diffChange env it ref new h w e p‖).card : ℝ) * t ^ 2 ≤
      ∑ q, e q ^ 2 / pairNoise ref new q ^ 2 := by
  have hb := diff_errors_bounded env it ref new h w z hmr hmn hz hc hr hn h1 h2 h3 h4 hvr hvn e
  refine ⟨fun p => Real.le_sqrt_of_sq_le (le_trans ?_ hb), ?_⟩
  · exact Finset.single_le_sum (f := fun p => ‖diffChange env it ref new h w e p‖ ^ 2) (fun _ _ => sq_nonneg _)
      (Finset.mem_univ p)
  · have := count_large (fun p => ‖diffChange env it ref new h w e p‖) t ht _ hb
    simpa only [abs_norm] using this

/-- C193: wrong pixels in a set `B`, none by more than `k` times the noise of its exposure. -/
theorem diff_few_wrong (e : Bool × Fin h × Fin w → ℝ) (B : Finset (Bool × Fin h × Fin w)) (k : ℝ) (hk0 : 0 ≤ k)
    (h0 : ∀ q, q ∉ B → e q = 0) (hk : ∀ q ∈ B, |e q| ≤ k * |pairNoise ref new q|) (t : ℝ) (ht : 0 ≤ t) :
    (∀ p, ‖diffChange env it ref new h w e p‖ ≤ k * Real.sqrt B.card) ∧
    ((univ.filter fun p => t ≤ ‖diffChange env it ref new h w e p‖).card : ℝ) * t ^ 2 ≤ B.card * k ^ 2 := by
  obtain ⟨a, b⟩ := diff_errors_count env it ref new h w z hmr hmn hz hc hr hn h1 h2 h3 h4 hvr hvn e t ht
  have hx := chiSquared_few (pairNoise ref new) e (pairNoise_ne ref new h w hvr hvn) B k h0 hk
  refine ⟨fun p => (a p).trans ?_, b.trans hx⟩
  refine (Real.sqrt_le_sqrt hx).trans ?_
  rw [Real.sqrt_mul (Nat.cast_nonneg _), Real.sqrt_sq hk0, mul_comm]

/-- C193: the bound is reached: any change of D can be made by errors of just that size, and by none smaller. -/
theorem diff_errors_reached (u : Fin h × Fin w → ℝ) :
    (∃ e, (∀ p, diffChange env it ref new h w e p = (u p : ℂ)) ∧ ∑ q, e q ^ 2 / pairNoise ref new q ^ 2 = ∑ p, u p ^ 2) ∧
    ∀ e, (∀ p, diffChange env it ref new h w e p = (u p : ℂ)) → ∑ p, u p ^ 2 ≤ ∑ q, e q ^ 2 / pairNoise ref new q ^ 2 := by
  have hK := diffKernel_white env it ref new h w z hmr hmn hz hc hr hn h1 h2 h3 h4 (Or.inl hvn)
  constructor
  · obtain ⟨e, he, hx⟩ := white_reaches (diffKernel env it ref new h w) (pairNoise ref new)
      (pairNoise_ne ref new h w hvr hvn) hK u
    exact ⟨e, fun p => by
      rw [diffChange_eq env it ref new h w z hmr hmn hz hc hr hn h1 h2 h3 h4, he p], hx⟩
  · intro e he
    refine le_of_eq_of_le (Finset.sum_congr rfl fun p _ => ?_)
      (diff_errors_bounded env it ref new h w z hmr hmn hz hc hr hn h1 h2 h3 h4 hvr hvn e)
    rw [he p, norm_real, Real.norm_eq_abs, sq_abs]

end

section
variable (lt : List CoImg → List CoImg → Option Bool) {n : ℕ} (hn : 0 < n)
    (d : Fin n → SinglePsf) (h w psfShape : ℕ) (procs : ℤ)
    (hs : ∀ j, (d j).interped.h = h ∧ (d j).interped.w = w ∧ (d j).mask.HasShape h w)
    (hp : procs ≤ n) (hp' : procs ≤ 2 ^ 25) (hb : procs * n ≤ 2 ^ 50)
    (ψ : Fin n → Img ℝ) (hψ : ∀ m, (d m).psf = toC (ψ m)) (A B : Fin n → ℤ)
    (hc : ∀ m, (d m).com = ((A m : ℝ), (B m : ℝ)))
    (x : Fin n → Img ℝ) (hx : ∀ m, (x m).h = h ∧ (x m).w = w)
    (hv : ∀ m, (d m).var ≠ 0) (hpow : ∀ k < h, ∀ l < w, powerAt d k l ≠ 0)
include hn hs hp hp' hb hψ hc hx hv hpow

/-- What the errors `e` change in R. -/
noncomputable def coaddChange (e : Fin n × Fin h × Fin w → ℝ) (p : Fin h × Fin w) : ℂ :=
  (noisyCoadd lt d h w psfShape procs x e).px p.1 p.2 - (coaddOf lt d psfShape procs fun m => toC (x m)).px p.1 p.2

omit hv hpow in
theorem coaddChange_eq (e : Fin n × Fin h × Fin w → ℝ) (p : Fin h × Fin w) :
    coaddChange lt d h w psfShape procs x e p = ((∑ q, coaddKernel d h w p q * e q : ℝ) : ℂ) := by
  unfold coaddChange
  have k := noisyCoadd_px lt hn d h w psfShape procs hs hp hp' hb ψ hψ A B hc x hx
  have k0 := k 0 p
  have e0 : noisyCoadd lt d h w psfShape procs x 0 = coaddOf lt d psfShape procs fun m => toC (x m) := by
    unfold noisyCoadd
    congr 1
    funext m
    cases x m
    simp [plusImg, errImg]
  rw [e0] at k0
  rw [k e p, k0, ← ofReal_sub]
  congr 1
  simp

/-- C193: the same for a coadd of `N` pixels: the sum is at most that of the errors over `N`, and any change can be made by
errors that reach the bound. -/
theorem coadd_errors (hN : 0 < h * w) :
    (∀ e : Fin n × Fin h × Fin w → ℝ, ∑ p, ‖coaddChange lt d h w psfShape procs x e p‖ ^ 2 ≤
      (∑ q, e q ^ 2 / nightNoise d q ^ 2) / (h * w : ℕ)) ∧
    ∀ u : Fin h × Fin w → ℝ, ∃ e, (∀ p, coaddChange lt d h w psfShape procs x e p = (u p : ℂ)) ∧
      (∑ q, e q ^ 2 / nightNoise d q ^ 2) / (h * w : ℕ) = ∑ p, u p ^ 2 := by
  have hN' : (0 : ℝ) < ((h * w : ℕ) : ℝ) := by exact_mod_cast hN
  set N : ℝ := ((h * w : ℕ) : ℝ) with hNdef
  have hsN : Real.sqrt N * Real.sqrt N = N := Real.mul_self_sqrt hN'.le
  have hsN0 : Real.sqrt N ≠ 0 := (Real.sqrt_pos.2 hN').ne'
  have hK : ∀ p p' : Fin h × Fin w, ∑ q, (Real.sqrt N * coaddKernel d h w p q) * (Real.sqrt N * coaddKernel d h w p' q) *
      nightNoise d q ^ 2 = if p = p' then 1 else 0 := by
    intro p p'
    have k := coaddKernel_white hn d h w procs hs hp hp' hb ψ hψ A B hc hv hpow p p'
    have : ∀ q, (Real.sqrt N * coaddKernel d h w p q) * (Real.sqrt N * coaddKernel d h w p' q) * nightNoise d q ^ 2 =
        N * (coaddKernel d h w p q * coaddKernel d h w p' q * nightNoise d q ^ 2) := by
      intro q
      linear_combination (coaddKernel d h w p q * coaddKernel d h w p' q * nightNoise d q ^ 2) * hsN
    rw [Finset.sum_congr rfl fun q _ => this q, ← Finset.mul_sum, k]
    split
    · exact mul_one_div_cancel hN'.ne'
    · exact mul_zero _
  have hne : ∀ q : Fin n × Fin h × Fin w, nightNoise d q ≠ 0 := fun q => hv q.1
  have heq := coaddChange_eq lt hn d h w psfShape procs hs hp hp' hb ψ hψ A B hc x hx
  have hsum : ∀ e : Fin n × Fin h × Fin w → ℝ, ∀ p,
      ∑ q, (Real.sqrt N * coaddKernel d h w p q) * e q = Real.sqrt N * ∑ q, coaddKernel d h w p q * e q := by
    intro e p
    rw [Finset.mul_sum]
    exact Finset.sum_congr rfl fun q _ => by ring
  constructor
  · intro e
    have k := (chiSquared_seen (fun p q => Real.sqrt N * coaddKernel d h w p q) (nightNoise d) hne hK e).2
    rw [le_div_iff₀ hN', Finset.sum_mul]
    refine le_of_eq_of_le (Finset.sum_congr rfl fun p _ => ?_) k
    rw [hsum, heq, norm_real, Real.norm_eq_abs, sq_abs, mul_pow, Real.sq_sqrt hN'.le, mul_comm]
  · intro u
    obtain ⟨e, he, hxx⟩ := white_reaches (fun p q => Real.sqrt N * coaddKernel d h w p q) (nightNoise d) hne hK
      fun p => Real.sqrt N * u p
    refine ⟨e, fun p => ?_, ?_⟩
    · rw [heq]
      congr 1
      have := he p
      rw [hsum] at this
      exact mul_left_cancel₀ hsN0 this
    · change chiSquared (nightNoise d) e / N = _
      rw [hxx, Finset.sum_div]
      refine Finset.sum_congr rfl fun p _ => ?_
      rw [mul_pow, Real.sq_sqrt hN'.le]
      field_simp

end

/-! ## Worked instances -/

/-- One wrong pixel in the first exposure, by three times its noise: no pixel of D is off by more than three, and at most
two are off by two or more. -/
example (e : Bool × Fin 1 × Fin 3 → ℝ) (h0 : ∀ q, q ≠ (false, 0, 1) → e q = 0) (h1 : |e (false, 0, 1)| ≤ 3 * |(1 : ℝ)|) :
    (∀ p, ‖diffChange (tinyEnv 1 1) true (seeingSub 5 7 4 1) (seeingSub 5 7 4 2) 1 3 e p‖ ≤ 3) ∧
    (univ.filter fun p =>
      2 ≤ ‖diffChange (tinyEnv 1 1) true (seeingSub 5 7 4 1) (seeingSub 5 7 4 2) 1 3 e p‖).card ≤ 2 := by
  obtain ⟨a, b⟩ := diff_few_wrong (tinyEnv 1 1) true (seeingSub 5 7 4 1) (seeingSub 5 7 4 2) 1 3 (1, 1)
    (by intro a h; cases h) (by intro a h; cases h) rfl (Or.inl rfl) rfl rfl (Or.inl rfl) (Or.inl rfl)
    (Or.inl rfl) (Or.inl rfl) (by norm_num [seeingSub]) (by norm_num [seeingSub]) e {(false, 0, 1)} 3
    (by norm_num) (fun q hq => h0 q (by simpa using hq))
    (fun q hq => by rw [Finset.mem_singleton.1 hq]; exact h1) 2 (by norm_num)
  refine ⟨fun p => by simpa using a p, ?_⟩
  by_contra hcon
  push Not at hcon
  have : (3 : ℝ) ≤ ((univ.filter fun p =>
      2 ≤ ‖diffChange (tinyEnv 1 1) true (seeingSub 5 7 4 1) (seeingSub 5 7 4 2) 1 3 e p‖).card : ℝ) := by
    exact_mod_cast hcon
  rw [Finset.card_singleton] at b
  norm_num at b
  linarith

/-- A coadd of two exposures of nine pixels. -/
example (lt : List CoImg → List CoImg → Option Bool) (e : Fin 2 × Fin 3 × Fin 3 → ℝ) :
    ∑ p, ‖coaddChange lt demoNight 3 3 1 2 (fun _ => ⟨3, 3, fun i j => i + j⟩) e p‖ ^ 2 ≤
      (∑ q, e q ^ 2 / nightNoise demoNight q ^ 2) / (3 * 3 : ℕ) :=
  (coadd_errors lt (by norm_num) demoNight 3 3 1 2 (fun _ => ⟨rfl, rfl, fun a q => by cases q⟩) (by norm_num) (by norm_num)
    (by norm_num) (fun _ => ⟨1, 1, fun _ _ => 1⟩) (fun _ => by simp [demoNight, toC, Img.map]) (fun _ => 0) (fun _ => 0)
    (fun _ => by simp [demoNight]) _ (fun _ => ⟨rfl, rfl⟩) (fun _ => by norm_num [demoNight])
    (fun k _ l _ => (demoNight_power k l).ne') (by norm_num)).1 e

end PI
