import Verif.Lemmas.Gauss
import Mathlib.Probability.Independence.Integration
import Mathlib.Probability.CDF
import Mathlib.Analysis.InnerProductSpace.Projection.Basic
import Mathlib.Analysis.InnerProductSpace.PiL2

/-! # The most powerful test for a Gaussian whose mean moves along a known direction -/

namespace PI
open MeasureTheory ProbabilityTheory
open scoped NNReal ENNReal

/-- The lemma of Neyman and Pearson: a threshold on the likelihood ratio is at least as powerful as any test that raises no
more false alarms. -/
theorem neyman_pearson {E : Type*} [MeasurableSpace E] (P0 : Measure E) [IsFiniteMeasure P0] (L : E → ℝ≥0∞)
    (hL : Measurable L) (k : ℝ≥0∞) (A : Set E) (hA : MeasurableSet A)
    (h : P0 A ≤ P0 {x | k < L x}) :
    P0.withDensity L A ≤ P0.withDensity L {x | k < L x} := by
  set B : Set E := {x | k < L x} with hB
  have mB : MeasurableSet B := measurableSet_lt measurable_const hL
  have d : P0 (A \ B) ≤ P0 (B \ A) := by
    have e1 := measure_inter_add_sdiff (μ := P0) A mB
    have e2 := measure_inter_add_sdiff (μ := P0) B hA
    rw [← e1, ← e2, Set.inter_comm B A] at h
    exact (ENNReal.add_le_add_iff_left (measure_ne_top P0 _)).1 h
  have lo : P0.withDensity L (A \ B) ≤ k * P0 (A \ B) := by
    rw [withDensity_apply _ (hA.diff mB), ← setLIntegral_const]
    refine setLIntegral_mono measurable_const fun x hx => ?_
    exact not_lt.1 hx.2
  have hi : k * P0 (B \ A) ≤ P0.withDensity L (B \ A) := by
    rw [withDensity_apply _ (mB.diff hA), ← setLIntegral_const]
    refine setLIntegral_mono hL fun x hx => ?_
    exact le_of_lt hx.1
  rw [← measure_inter_add_sdiff A mB, ← measure_inter_add_sdiff B hA, Set.inter_comm B A]
  refine add_le_add le_rfl ?_
  exact lo.trans ((mul_le_mul_right d k).trans hi)

/-- The likelihood ratio of one Gaussian pixel. -/
noncomputable def pixelRatio (m s δ x : ℝ) : ℝ≥0∞ := ENNReal.ofReal (Real.exp (δ * (x - m) / s ^ 2 - δ ^ 2 / (2 * s ^ 2)))

theorem pixelRatio_measurable (m s δ : ℝ) : Measurable (pixelRatio m s δ) := by
  unfold pixelRatio
  fun_prop

theorem gaussian_shift_density (m s δ : ℝ) (hs : s ≠ 0) :
    gaussianReal (m + δ) ((s ^ 2).toNNReal) = (gaussianReal m ((s ^ 2).toNNReal)).withDensity (pixelRatio m s δ) := by
  have hv : (s ^ 2).toNNReal ≠ 0 := by
    rw [Ne, Real.toNNReal_eq_zero, not_le]
    positivity
  rw [gaussianReal_of_var_ne_zero _ hv, gaussianReal_of_var_ne_zero _ hv,
    ← withDensity_mul _ (measurable_gaussianPDF _ _) (pixelRatio_measurable _ _ _)]
  congr 1
  funext x
  rw [Pi.mul_apply]
  unfold gaussianPDF pixelRatio
  rw [← ENNReal.ofReal_mul (gaussianPDFReal_nonneg _ _ _)]
  congr 1
  unfold gaussianPDFReal
  rw [mul_assoc (√_)⁻¹, ← Real.exp_add, Real.coe_toNNReal _ (sq_nonneg s)]
  congr 2
  field_simp
  ring

variable {ι : Type*} [Fintype ι]

/-- Independent Gaussian pixels with means `m` and standard deviations `s`. -/
noncomputable def pixelLaw (m s : ι → ℝ) : Measure (ι → ℝ) :=
  Measure.pi fun i => gaussianReal (m i) ((s i ^ 2).toNNReal)

instance (m s : ι → ℝ) : IsProbabilityMeasure (pixelLaw m s) := by
  unfold pixelLaw
  infer_instance

theorem pixelLaw_density (m s δ : ι → ℝ) (hs : ∀ i, s i ≠ 0) :
    pixelLaw (fun i => m i + δ i) s =
      (pixelLaw m s).withDensity fun x => ∏ i, pixelRatio (m i) (s i) (δ i) (x i) := by
  unfold pixelLaw
  refine (Measure.pi_eq fun S hS => ?_)
  rw [withDensity_apply _ (MeasurableSet.univ_pi hS), ← lintegral_indicator (MeasurableSet.univ_pi hS)]
  have e : ∀ x : ι → ℝ, (Set.univ.pi S).indicator (fun x => ∏ i, pixelRatio (m i) (s i) (δ i) (x i)) x =
      ∏ i, (S i).indicator (pixelRatio (m i) (s i) (δ i)) (x i) := by
    intro x
    by_cases hx : x ∈ Set.univ.pi S
    · rw [Set.indicator_of_mem hx]
      exact Finset.prod_congr rfl fun i _ => (Set.indicator_of_mem (hx i (Set.mem_univ i)) _).symm
    · rw [Set.indicator_of_notMem hx]
      simp only [Set.mem_univ_pi, not_forall] at hx
      obtain ⟨i, hi⟩ := hx
      exact (Finset.prod_eq_zero (Finset.mem_univ i) (Set.indicator_of_notMem hi _)).symm
  rw [lintegral_congr e]
  have hm : ∀ i, Measurable ((S i).indicator (pixelRatio (m i) (s i) (δ i))) :=
    fun i => (pixelRatio_measurable _ _ _).indicator (hS i)
  have ind := iIndepFun_pi (μ := fun i => gaussianReal (m i) ((s i ^ 2).toNNReal))
    (X := fun i => (S i).indicator (pixelRatio (m i) (s i) (δ i))) fun i => (hm i).aemeasurable
  rw [lintegral_prod_eq_prod_lintegral_of_indepFun Finset.univ _ ind fun i => (hm i).comp (measurable_pi_apply i)]
  refine Finset.prod_congr rfl fun i _ => ?_
  rw [gaussian_shift_density _ _ _ (hs i), withDensity_apply _ (hS i), ← lintegral_indicator (hS i)]
  exact lintegral_map (hm i) (measurable_pi_apply i) |>.symm.trans
    (by rw [(measurePreserving_eval (fun i => gaussianReal (m i) ((s i ^ 2).toNNReal)) i).map_eq])

/-- A threshold on the sum of the pixels against `u / s²` is the most powerful test for `u`, whatever the flux `c`. -/
theorem gauss_most_powerful (m s u : ι → ℝ) (hs : ∀ i, s i ≠ 0) (c : ℝ) (hc : 0 < c) (t : ℝ) (A : Set (ι → ℝ))
    (hA : MeasurableSet A)
    (h : pixelLaw m s A ≤ pixelLaw m s {x | t < ∑ i, u i / s i ^ 2 * x i}) :
    pixelLaw (fun i => m i + c * u i) s A ≤
      pixelLaw (fun i => m i + c * u i) s {x | t < ∑ i, u i / s i ^ 2 * x i} := by
  have hL : Measurable fun x : ι → ℝ => ∏ i, pixelRatio (m i) (s i) (c * u i) (x i) :=
    Finset.measurable_prod _ fun i _ => (pixelRatio_measurable _ _ _).comp (measurable_pi_apply i)
  have e : {x : ι → ℝ | t < ∑ i, u i / s i ^ 2 * x i} =
      {x | ENNReal.ofReal (Real.exp (c * t - ∑ i, (c * u i * m i / s i ^ 2 + (c * u i) ^ 2 / (2 * s i ^ 2)))) <
        ∏ i, pixelRatio (m i) (s i) (c * u i) (x i)} := by
    ext x
    have p : ∏ i, pixelRatio (m i) (s i) (c * u i) (x i) = ENNReal.ofReal (Real.exp
        (c * (∑ i, u i / s i ^ 2 * x i) - ∑ i, (c * u i * m i / s i ^ 2 + (c * u i) ^ 2 / (2 * s i ^ 2)))) := by
      unfold pixelRatio
      rw [← ENNReal.ofReal_prod_of_nonneg fun i _ => (Real.exp_pos _).le, ← Real.exp_sum, Finset.mul_sum,
        ← Finset.sum_sub_distrib]
      congr 2
      refine Finset.sum_congr rfl fun i _ => ?_
      have := hs i
      field_simp
      ring
    simp only [Set.mem_ofPred_eq]
    rw [p, ENNReal.ofReal_lt_ofReal_iff (Real.exp_pos _), Real.exp_lt_exp, sub_lt_sub_iff_right,
      mul_lt_mul_iff_right₀ hc]
  rw [pixelLaw_density m s (fun i => c * u i) hs, e]
  rw [e] at h
  exact neyman_pearson _ _ hL _ A hA h

/-- Adding a fixed image moves the means. -/
theorem pixelLaw_add (m s v : ι → ℝ) :
    pixelLaw (fun i => m i + v i) s = (pixelLaw m s).map fun x i => x i + v i := by
  unfold pixelLaw
  rw [Measure.pi_map_pi (f := fun i y => y + v i) fun i => by fun_prop]
  congr 1
  funext i
  rw [gaussianReal_map_add_const]

/-- A test that does not see `v` gives the same probability with and without it. -/
theorem pixelLaw_unseen (m s v : ι → ℝ) (A : Set (ι → ℝ)) (hA : MeasurableSet A)
    (h : ∀ x, (fun i => x i + v i) ∈ A ↔ x ∈ A) :
    pixelLaw (fun i => m i + v i) s A = pixelLaw m s A := by
  rw [pixelLaw_add, Measure.map_apply (by fun_prop) hA]
  congr 1
  ext x
  exact h x

/-! ## Tests that must not see a family of changes -/

/-- The part of `v` that no change in `W` can imitate. -/
theorem weighted_projection (W : Submodule ℝ (ι → ℝ)) (s : ι → ℝ) (hs : ∀ i, s i ≠ 0) (v : ι → ℝ) :
    ∃ r : ι → ℝ, v - r ∈ W ∧ ∀ y ∈ W, ∑ i, r i / s i ^ 2 * y i = 0 := by
  let f : (ι → ℝ) →ₗ[ℝ] EuclideanSpace ℝ ι :=
    { toFun := fun x => WithLp.toLp 2 fun i => x i / s i
      map_add' := fun x y => by ext i; simp [add_div]
      map_smul' := fun c x => by ext i; simp [mul_div_assoc] }
  obtain ⟨w0, hw0, e0⟩ := (W.map f).starProjection_apply_mem (f v)
  refine ⟨v - w0, by simpa using hw0, fun y hy => ?_⟩
  have o := (W.map f).starProjection_inner_eq_zero (f v) (f y) (Submodule.mem_map_of_mem hy)
  rw [← e0, ← map_sub, PiLp.inner_apply] at o
  rw [← o]
  refine Finset.sum_congr rfl fun i _ => ?_
  have := hs i
  simp only [f, LinearMap.coe_mk, AddHom.coe_mk, Pi.sub_apply, RCLike.inner_apply, conj_trivial]
  field_simp

/-- Weights that do not see `W` and that reach the greatest signal to noise ratio for `v` among such weights: they are the
part of `v` that `W` cannot imitate, over the variances. -/
theorem best_weights (W : Submodule ℝ (ι → ℝ)) (s : ι → ℝ) (hs : ∀ i, s i ≠ 0) (v T : ι → ℝ) (V : ℝ)
    (hT : ∀ y ∈ W, ∑ i, T i * y i = 0) (pos : 0 < ∑ i, T i * v i)
    (reach : (∑ i, T i ^ 2 * s i ^ 2) * V ≤ (∑ i, T i * v i) ^ 2)
    (bound : ∀ g : ι → ℝ, (∀ y ∈ W, ∑ i, g i * y i = 0) → (∑ i, g i * v i) ^ 2 ≤ (∑ i, g i ^ 2 * s i ^ 2) * V) :
    ∃ lam : ℝ, 0 < lam ∧ ∃ r : ι → ℝ, v - r ∈ W ∧ ∀ i, T i = lam * (r i / s i ^ 2) := by
  obtain ⟨r, hr, ho⟩ := weighted_projection W s hs v
  have vr : ∀ g : ι → ℝ, (∀ y ∈ W, ∑ i, g i * y i = 0) → ∑ i, g i * v i = ∑ i, g i * r i := by
    intro g hg
    have := hg _ hr
    simp only [Pi.sub_apply, mul_sub, Finset.sum_sub_distrib] at this
    linarith
  set R : ℝ := ∑ i, r i ^ 2 / s i ^ 2 with hR
  set N : ℝ := ∑ i, T i ^ 2 * s i ^ 2 with hN
  set C : ℝ := ∑ i, T i * r i with hC
  have R0 : 0 ≤ R := Finset.sum_nonneg fun i _ => by positivity
  have e1 : ∑ i, r i / s i ^ 2 * r i = R := Finset.sum_congr rfl fun i _ => by ring
  have e2 : ∑ i, (r i / s i ^ 2) ^ 2 * s i ^ 2 = R := Finset.sum_congr rfl fun i _ => by
    have := hs i
    field_simp
  have b := bound (fun i => r i / s i ^ 2) ho
  simp only [vr (fun i => r i / s i ^ 2) ho] at b
  rw [e1, e2] at b
  rw [vr T hT] at pos reach
  have sq : ∀ l : ℝ, ∑ i, (T i * s i - l * (r i / s i)) ^ 2 = N - 2 * l * C + l ^ 2 * R := by
    intro l
    rw [hN, hC, hR, Finset.mul_sum, Finset.mul_sum, ← Finset.sum_sub_distrib, ← Finset.sum_add_distrib]
    refine Finset.sum_congr rfl fun i _ => ?_
    have := hs i
    field_simp
    ring
  have Rpos : 0 < R := by
    rcases R0.lt_or_eq with h | h
    · exact h
    · exfalso
      have C0 : C ≠ 0 := pos.ne'
      have := sq ((N + 1) / (2 * C))
      rw [← h] at this
      have nn : 0 ≤ ∑ i, (T i * s i - ((N + 1) / (2 * C)) * (r i / s i)) ^ 2 := Finset.sum_nonneg fun i _ => sq_nonneg _
      rw [this] at nn
      have : 2 * ((N + 1) / (2 * C)) * C = N + 1 := by field_simp
      linarith
  have VR : R ≤ V := by
    have : R * R ≤ R * V := by rw [← sq_abs, abs_of_nonneg R0] at b; nlinarith
    exact le_of_mul_le_mul_left this Rpos
  have N0 : 0 ≤ N := Finset.sum_nonneg fun i _ => by positivity
  have z := sq (C / R)
  have z2 : N - 2 * (C / R) * C + (C / R) ^ 2 * R ≤ 0 := by
    have : N - 2 * (C / R) * C + (C / R) ^ 2 * R = (N * R - C ^ 2) / R := by field_simp; ring
    rw [this]
    refine div_nonpos_of_nonpos_of_nonneg ?_ R0
    nlinarith
  refine ⟨C / R, div_pos pos Rpos, r, hr, fun i => ?_⟩
  have z3 : ∑ i, (T i * s i - C / R * (r i / s i)) ^ 2 = 0 :=
    le_antisymm (z ▸ z2) (Finset.sum_nonneg fun i _ => sq_nonneg _)
  have z4 := (Finset.sum_eq_zero_iff_of_nonneg fun i _ => sq_nonneg _).1 z3 i (Finset.mem_univ i)
  have z5 := pow_eq_zero_iff (two_ne_zero) |>.1 z4
  have := hs i
  have : T i * s i = C / R * (r i / s i) := by linarith
  field_simp at this ⊢
  linarith

/-- Such weights give the most powerful of the tests that do not see `W`, whatever the flux `c` and the rest of the sky. -/
theorem unseen_most_powerful (W : Submodule ℝ (ι → ℝ)) (s : ι → ℝ) (hs : ∀ i, s i ≠ 0) (v T : ι → ℝ) (V : ℝ)
    (hT : ∀ y ∈ W, ∑ i, T i * y i = 0) (pos : 0 < ∑ i, T i * v i)
    (reach : (∑ i, T i ^ 2 * s i ^ 2) * V ≤ (∑ i, T i * v i) ^ 2)
    (bound : ∀ g : ι → ℝ, (∀ y ∈ W, ∑ i, g i * y i = 0) → (∑ i, g i * v i) ^ 2 ≤ (∑ i, g i ^ 2 * s i ^ 2) * V)
    (m : ι → ℝ) (c : ℝ) (hc : 0 < c) (t : ℝ) (A : Set (ι → ℝ)) (hA : MeasurableSet A)
    (inv : ∀ y ∈ W, ∀ x, x + y ∈ A ↔ x ∈ A)
    (h : pixelLaw m s A ≤ pixelLaw m s {x | t < ∑ i, T i * x i}) :
    pixelLaw (fun i => m i + c * v i) s A ≤ pixelLaw (fun i => m i + c * v i) s {x | t < ∑ i, T i * x i} := by
  obtain ⟨lam, lpos, r, hr, hTr⟩ := best_weights W s hs v T V hT pos reach bound
  have eB : {x : ι → ℝ | t < ∑ i, T i * x i} = {x | t / lam < ∑ i, r i / s i ^ 2 * x i} := by
    ext x
    simp only [Set.mem_ofPred_eq]
    rw [div_lt_iff₀ lpos, Finset.sum_mul]
    refine iff_of_eq (congrArg _ (Finset.sum_congr rfl fun i _ => ?_))
    rw [hTr i]
    ring
  have mB : MeasurableSet {x : ι → ℝ | t < ∑ i, T i * x i} :=
    measurableSet_lt measurable_const (by fun_prop)
  have split : (fun i => m i + c * v i) = fun i => (m i + c * r i) + (c • (v - r)) i := by
    funext i
    simp only [Pi.smul_apply, Pi.sub_apply, smul_eq_mul]
    ring
  have hW : c • (v - r) ∈ W := W.smul_mem c hr
  rw [split, pixelLaw_unseen _ s _ A hA (fun x => inv _ hW x), pixelLaw_unseen _ s _ _ mB]
  · rw [eB] at h ⊢
    exact gauss_most_powerful m s r hs c hc _ A hA h
  · intro x
    simp only [Set.mem_ofPred_eq, mul_add, Finset.sum_add_distrib]
    rw [hT _ hW, add_zero]

/-! ## Every rate of false alarms has its threshold -/

theorem exists_threshold (μ : Measure ℝ) [IsProbabilityMeasure μ] [NullSingletonClass μ] (α : ℝ≥0∞) (h0 : 0 < α) (h1 : α < 1) :
    ∃ t, μ (Set.Ioi t) = α := by
  have cont : Continuous (cdf μ) := by
    refine continuous_iff_continuousAt.2 fun x => ?_
    rw [(monotone_cdf μ).continuousAt_iff_leftLim_eq_rightLim, (cdf μ).rightLim_eq]
    have k := (cdf μ).measure_singleton x
    rw [measure_cdf, measure_singleton, eq_comm, ENNReal.ofReal_eq_zero] at k
    exact le_antisymm ((monotone_cdf μ).leftLim_le le_rfl) (by linarith)
  have a1 : α ≠ ⊤ := (h1.trans ENNReal.one_lt_top).ne
  have r0 : 0 < α.toReal := ENNReal.toReal_pos h0.ne' a1
  have r1 : α.toReal < 1 := by
    have := (ENNReal.toReal_lt_toReal a1 ENNReal.one_ne_top).2 h1
    rwa [ENNReal.toReal_one] at this
  obtain ⟨t, ht⟩ := mem_range_of_exists_le_of_exists_ge cont
    (((tendsto_cdf_atBot μ).eventually (eventually_lt_nhds (show (0 : ℝ) < 1 - α.toReal by linarith))).exists.imp
      fun _ h => le_of_lt h)
    (((tendsto_cdf_atTop μ).eventually (eventually_gt_nhds (show 1 - α.toReal < 1 by linarith))).exists.imp
      fun _ h => le_of_lt h)
  refine ⟨t, ?_⟩
  have c : Set.Ioi t = (Set.Iic t)ᶜ := by rw [Set.compl_Iic]
  rw [c, prob_compl_eq_one_sub measurableSet_Iic, ← ofReal_cdf, ht, ENNReal.ofReal_sub _ r0.le, ENNReal.ofReal_one,
    ENNReal.ofReal_toReal a1, ENNReal.sub_sub_cancel ENNReal.one_ne_top h1.le]

/-- Any probability strictly between zero and one is the false alarm probability of a threshold on a linear statistic. -/
theorem linear_threshold {κ : Type} [Fintype κ] (m s T : κ → ℝ) (hs : ∀ i, s i ≠ 0) (hT : ∃ i, T i ≠ 0) (α : ℝ≥0∞)
    (h0 : 0 < α) (h1 : α < 1) : ∃ t, pixelLaw m s {x | t < ∑ i, T i * x i} = α := by
  have hX : GaussErrors (pixelLaw (fun _ : κ => 0) s) (fun i (ω : κ → ℝ) => ω i) s :=
    { law := fun i => ⟨(measurable_pi_apply i).aemeasurable, (measurePreserving_eval _ i).map_eq⟩
      indep := iIndepFun_pi (X := fun _ => id) fun _ => aemeasurable_id }
  have L := hX.linear (∑ i, T i * m i) T
  have v0 : 0 < ∑ i, T i ^ 2 * s i ^ 2 := by
    obtain ⟨i, hi⟩ := hT
    refine Finset.sum_pos' (fun j _ => by positivity) ⟨i, Finset.mem_univ i, ?_⟩
    have := hs i
    positivity
  have nn : (∑ i, T i ^ 2 * s i ^ 2).toNNReal ≠ 0 := by
    rw [Ne, Real.toNNReal_eq_zero, not_le]
    exact v0
  have := nullSingletonClass_gaussianReal (μ := ∑ i, T i * m i) nn
  obtain ⟨t, ht⟩ := exists_threshold (gaussianReal (∑ i, T i * m i) (∑ i, T i ^ 2 * s i ^ 2).toNNReal) α h0 h1
  refine ⟨t, ?_⟩
  have e : pixelLaw m s = (pixelLaw (fun _ : κ => 0) s).map fun x i => x i + m i := by
    rw [← pixelLaw_add]
    simp only [zero_add]
  rw [e, Measure.map_apply (by fun_prop) (measurableSet_lt measurable_const (by fun_prop)), ← ht, ← L.map_eq,
    Measure.map_apply_of_aemeasurable L.aemeasurable measurableSet_Ioi]
  congr 1
  ext x
  simp only [Set.mem_preimage, Set.mem_ofPred_eq, Set.mem_Ioi, mul_add, Finset.sum_add_distrib]
  rw [add_comm]

end PI
