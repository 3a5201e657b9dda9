import Mathlib.Probability.Distributions.Gaussian.HasGaussianLaw.Independence
import Mathlib.Probability.Distributions.Gaussian.HasGaussianLaw.Basic

/-! # Linear functions of independent Gaussian errors -/

namespace PI
open MeasureTheory ProbabilityTheory
open scoped NNReal ENNReal

variable {Ω : Type*} [MeasurableSpace Ω] {P : Measure Ω} {ι κ : Type*} 

/-- Independent errors, each Gaussian with mean zero and standard deviation `s i`. -/
structure GaussErrors (P : Measure Ω) (X : ι → Ω → ℝ) (s : ι → ℝ) : Prop where
  law : ∀ i, HasLaw (X i) (gaussianReal 0 ((s i ^ 2).toNNReal)) P
  indep : iIndepFun X P

theorem GaussErrors.prob {X : ι → Ω → ℝ} {s : ι → ℝ} (h : GaussErrors P X s) : IsProbabilityMeasure P :=
  h.indep.isProbabilityMeasure

theorem GaussErrors.memLp {X : ι → Ω → ℝ} {s : ι → ℝ} (h : GaussErrors P X s) (i : ι) : MemLp (X i) 2 P :=
  (h.law i).hasGaussianLaw.memLp_two

theorem GaussErrors.cov {X : ι → Ω → ℝ} {s : ι → ℝ} (h : GaussErrors P X s) [DecidableEq ι] (i j : ι) :
    cov[X i, X j; P] = if i = j then s i ^ 2 else 0 := by
  have := h.prob
  by_cases hij : i = j
  · subst hij
    rw [if_pos rfl, covariance_self (h.law i).aemeasurable, (h.law i).variance_eq]
    rw [variance_id_gaussianReal, Real.coe_toNNReal _ (sq_nonneg _)]
  · rw [if_neg hij]
    exact (h.indep.indepFun hij).covariance_eq_zero (h.memLp i) (h.memLp j)

theorem GaussErrors.mean {X : ι → Ω → ℝ} {s : ι → ℝ} (h : GaussErrors P X s) (i : ι) : P[X i] = 0 := by
  rw [(h.law i).integral_eq, integral_id_gaussianReal]

variable [Fintype ι]

/-- Linear functions of independent Gaussian errors, plus constants: Gaussian with these constants as means, and with the
variances that the weights give. -/
theorem GaussErrors.linear {X : ι → Ω → ℝ} {s : ι → ℝ} (h : GaussErrors P X s) (c : ℝ) (K : ι → ℝ) :
    HasLaw (fun ω => c + ∑ i, K i * X i ω) (gaussianReal c ((∑ i, K i ^ 2 * s i ^ 2).toNNReal)) P := by
  classical
  have := h.prob
  have hj := h.indep.hasGaussianLaw fun i => (h.law i).hasGaussianLaw
  have hg : HasGaussianLaw (fun ω => ∑ i, K i * X i ω) P := by
    have := hj.map_fun (∑ i, K i • ContinuousLinearMap.proj (R := ℝ) (φ := fun _ : ι => ℝ) i)
    refine this.congr (Filter.Eventually.of_forall fun ω => ?_)
    simp
  have hm : ∫ ω, ∑ i, K i * X i ω ∂P = 0 := by
    rw [integral_finsetSum _ fun i _ => ((h.memLp i).integrable (by norm_num)).const_mul _]
    refine Finset.sum_eq_zero fun i _ => ?_
    rw [integral_const_mul, h.mean i, mul_zero]
  have hv : Var[fun ω => ∑ i, K i * X i ω; P] = ∑ i, K i ^ 2 * s i ^ 2 := by
    rw [← covariance_self hg.aemeasurable,
      covariance_fun_sum_fun_sum (fun i => (h.memLp i).const_mul _) (fun i => (h.memLp i).const_mul _)]
    refine Finset.sum_congr rfl fun i _ => ?_
    rw [Finset.sum_eq_single i]
    · rw [covariance_const_mul_left, covariance_const_mul_right, h.cov, if_pos rfl]; ring
    · intro j _ hji
      rw [covariance_const_mul_left, covariance_const_mul_right, h.cov, if_neg (Ne.symm hji)]; ring
    · intro h; exact absurd (Finset.mem_univ i) h
  have hl : HasLaw (fun ω => ∑ i, K i * X i ω) (gaussianReal 0 ((∑ i, K i ^ 2 * s i ^ 2).toNNReal)) P :=
    ⟨hg.aemeasurable, by rw [hg.map_eq_gaussianReal, hm, hv]⟩
  have := gaussianReal_const_add hl c
  simpa using this

/-- Uncorrelated ones are independent. -/
theorem GaussErrors.independent [Fintype κ] {X : ι → Ω → ℝ} {s : ι → ℝ} (h : GaussErrors P X s) (c : κ → ℝ) (K : κ → ι → ℝ)
    (hK : ∀ k l, k ≠ l → ∑ i, K k i * K l i * s i ^ 2 = 0) :
    iIndepFun (fun k ω => c k + ∑ i, K k i * X i ω) P := by
  classical
  have := h.prob
  have hj := h.indep.hasGaussianLaw fun i => (h.law i).hasGaussianLaw
  have hg : HasGaussianLaw (fun ω (k : κ) => ∑ i, K k i * X i ω) P := by
    have := hj.map_fun (ContinuousLinearMap.pi fun k : κ => ∑ i, K k i • ContinuousLinearMap.proj (R := ℝ) (φ := fun _ : ι => ℝ) i)
    refine this.congr (Filter.Eventually.of_forall fun ω => ?_)
    funext k
    simp
  have h0 : iIndepFun (fun k ω => ∑ i, K k i * X i ω) P := by
    refine hg.iIndepFun_of_covariance_eq_zero fun k l hkl => ?_
    rw [covariance_fun_sum_fun_sum (fun i => (h.memLp i).const_mul _) (fun i => (h.memLp i).const_mul _), ← hK k l hkl]
    refine Finset.sum_congr rfl fun i _ => ?_
    rw [Finset.sum_eq_single i]
    · rw [covariance_const_mul_left, covariance_const_mul_right, h.cov, if_pos rfl]; ring
    · intro j _ hji
      rw [covariance_const_mul_left, covariance_const_mul_right, h.cov, if_neg (Ne.symm hji)]; ring
    · intro h; exact absurd (Finset.mem_univ i) h
  exact h0.comp (fun k x => c k + x) fun k => measurable_const_add _

end PI
