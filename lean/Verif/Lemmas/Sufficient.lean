import Verif.Lemmas.Neyman
import Mathlib.MeasureTheory.Function.ConditionalExpectation.PullOut
import Mathlib.MeasureTheory.Function.ConditionalExpectation.Real
import Mathlib.MeasureTheory.Function.FactorsThrough

/-! # Sufficient statistics -/

namespace PI
open MeasureTheory ProbabilityTheory
open scoped NNReal ENNReal

/-- If the laws have densities that depend on `R` alone, every bounded statistic can be replaced by one that looks at `R` only:
it has the same mean under all of the laws, and its mean squared error is never greater. -/
theorem sufficient_replaces {E F : Type*} [MeasurableSpace E] [MeasurableSpace F] (μ : Measure E) [IsProbabilityMeasure μ]
    (R : E → F) (hR : Measurable R) (g : E → ℝ) (hg : Measurable g) (a b : ℝ) (hab : ∀ x, a ≤ g x ∧ g x ≤ b) :
    ∃ φ : F → ℝ, Measurable φ ∧ (∀ y, a ≤ φ y ∧ φ y ≤ b) ∧
      ∀ (f : F → ℝ), Measurable f → (∀ y, 0 ≤ f y) → ∀ ν : Measure E, IsProbabilityMeasure ν →
        ν = μ.withDensity (fun x => ENNReal.ofReal (f (R x))) →
        ∫ x, φ (R x) ∂ν = ∫ x, g x ∂ν ∧ ∀ θ : ℝ, ∫ x, (φ (R x) - θ) ^ 2 ∂ν ≤ ∫ x, (g x - θ) ^ 2 ∂ν := by
  obtain ⟨x0⟩ : Nonempty E := nonempty_of_isProbabilityMeasure μ
  have ab : a ≤ b := (hab x0).1.trans (hab x0).2
  have hle := hR.comap_le
  have bound : ∀ x, ‖g x‖ ≤ max |a| |b| := fun x => by
    rw [Real.norm_eq_abs]
    exact abs_le_max_abs_abs (hab x).1 (hab x).2
  have gi : ∀ ν : Measure E, IsProbabilityMeasure ν → Integrable g ν := fun ν _ =>
    Integrable.of_bound hg.aestronglyMeasurable (max |a| |b|) (Filter.Eventually.of_forall bound)
  have hgi := gi μ inferInstance
  obtain ⟨φ0, m0, e0⟩ := (stronglyMeasurable_condExp (f := g) (m := MeasurableSpace.comap R inferInstance)
    (μ := μ)).exists_eq_measurable_comp
  have lo : ∀ᵐ x ∂μ, a ≤ φ0 (R x) := by
    have := condExp_mono (μ := μ) (m := MeasurableSpace.comap R inferInstance) (integrable_const a) hgi
      (Filter.Eventually.of_forall fun x => (hab x).1)
    rw [condExp_const hle] at this
    filter_upwards [this] with x hx
    rw [e0] at hx
    exact hx
  have hi : ∀ᵐ x ∂μ, φ0 (R x) ≤ b := by
    have := condExp_mono (μ := μ) (m := MeasurableSpace.comap R inferInstance) hgi (integrable_const b)
      (Filter.Eventually.of_forall fun x => (hab x).2)
    rw [condExp_const hle] at this
    filter_upwards [this] with x hx
    rw [e0] at hx
    exact hx
  refine ⟨fun y => max a (min b (φ0 y)), (measurable_const.max (measurable_const.min m0.measurable)),
    fun y => ⟨le_max_left _ _, max_le ab (min_le_left _ _)⟩, fun f hf f0 ν hν eν => ?_⟩
  set φ : F → ℝ := fun y => max a (min b (φ0 y)) with hφ
  have mφ : Measurable φ := measurable_const.max (measurable_const.min m0.measurable)
  have eφ : (fun x => φ (R x)) =ᵐ[μ] μ[g | MeasurableSpace.comap R inferInstance] := by
    filter_upwards [lo, hi] with x h1 h2
    rw [e0, hφ]
    simp only [Function.comp]
    rw [min_eq_right h2, max_eq_right h1]
  have bφ : ∀ y, ‖φ y‖ ≤ max |a| |b| := fun y => by
    rw [Real.norm_eq_abs]
    exact abs_le_max_abs_abs (le_max_left _ _) (max_le ab (min_le_left _ _))
  have dm : Measurable fun x => ENNReal.ofReal (f (R x)) := (hf.comp hR).ennreal_ofReal
  have dI : ∀ u : E → ℝ, ∫ x, u x ∂ν = ∫ x, f (R x) * u x ∂μ := by
    intro u
    rw [eν, integral_withDensity_eq_integral_toReal_smul dm (Filter.Eventually.of_forall fun x => ENNReal.ofReal_lt_top)]
    refine integral_congr_ae (Filter.Eventually.of_forall fun x => ?_)
    simp only [smul_eq_mul]
    rw [ENNReal.toReal_ofReal (f0 _)]
  have fi : Integrable (fun x => f (R x)) μ := by
    refine ⟨(hf.comp hR).aestronglyMeasurable, ?_⟩
    have one : ν Set.univ = 1 := measure_univ
    rw [eν, withDensity_apply _ MeasurableSet.univ, Measure.restrict_univ] at one
    rw [hasFiniteIntegral_iff_ofReal (Filter.Eventually.of_forall fun x => f0 _), one]
    exact ENNReal.one_lt_top
  -- the pull-out property
  have pull : ∀ ψ : F → ℝ, Measurable ψ → ∀ C, (∀ y, ‖ψ y‖ ≤ C) →
      ∫ x, ψ (R x) * φ (R x) ∂ν = ∫ x, ψ (R x) * g x ∂ν := by
    intro ψ mψ C hC
    rw [dI, dI]
    have i1 : Integrable (fun x => f (R x) * ψ (R x)) μ :=
      fi.mul_bdd (c := C) (mψ.comp hR).aestronglyMeasurable (Filter.Eventually.of_forall fun x => hC _)
    have i2 : Integrable ((fun x => f (R x) * ψ (R x)) * g) μ :=
      i1.mul_bdd (c := max |a| |b|) hg.aestronglyMeasurable (Filter.Eventually.of_forall bound)
    have sm : StronglyMeasurable[MeasurableSpace.comap R inferInstance] fun x => f (R x) * ψ (R x) :=
      ((hf.mul mψ).comp (comap_measurable R)).stronglyMeasurable
    have po := condExp_mul_of_stronglyMeasurable_left sm i2 hgi
    have t := integral_condExp (μ := μ) (f := (fun x => f (R x) * ψ (R x)) * g) hle
    have e1 : ∀ x, f (R x) * (ψ (R x) * g x) = ((fun x => f (R x) * ψ (R x)) * g) x := fun x => by
      simp only [Pi.mul_apply]; ring
    simp only [e1]
    rw [← t]
    refine integral_congr_ae ?_
    filter_upwards [po, eφ] with x h1 h2
    rw [h1, h2]
    simp only [Pi.mul_apply]
    ring
  have mean : ∫ x, φ (R x) ∂ν = ∫ x, g x ∂ν := by
    have := pull (fun _ => 1) measurable_const 1 (fun _ => by simp)
    simpa using this
  refine ⟨mean, fun θ => ?_⟩
  have φi : Integrable (fun x => φ (R x)) ν :=
    Integrable.of_bound (mφ.comp hR).aestronglyMeasurable (max |a| |b|) (Filter.Eventually.of_forall fun x => bφ _)
  have gν := gi ν hν
  have gg : Integrable (fun x => g x * g x) ν :=
    gν.mul_bdd (c := max |a| |b|) hg.aestronglyMeasurable (Filter.Eventually.of_forall bound)
  have φφ : Integrable (fun x => φ (R x) * φ (R x)) ν :=
    φi.mul_bdd (c := max |a| |b|) (mφ.comp hR).aestronglyMeasurable (Filter.Eventually.of_forall fun x => bφ _)
  have φg : Integrable (fun x => φ (R x) * g x) ν :=
    φi.mul_bdd (c := max |a| |b|) hg.aestronglyMeasurable (Filter.Eventually.of_forall bound)
  have cross := pull φ mφ _ bφ
  have sq0 : 0 ≤ ∫ x, (g x - φ (R x)) ^ 2 ∂ν := integral_nonneg fun x => sq_nonneg _
  have x1 : ∫ x, (g x - φ (R x)) ^ 2 ∂ν = ∫ x, g x * g x ∂ν - 2 * ∫ x, φ (R x) * g x ∂ν + ∫ x, φ (R x) * φ (R x) ∂ν := by
    have e : ∀ x, (g x - φ (R x)) ^ 2 = g x * g x - 2 * (φ (R x) * g x) + φ (R x) * φ (R x) := fun x => by ring
    simp only [e]
    rw [integral_add (f := fun x => g x * g x - 2 * (φ (R x) * g x)) (gg.sub (φg.const_mul 2)) φφ,
      integral_sub gg (φg.const_mul 2), integral_const_mul]
  have x2 : ∀ u : E → ℝ, Integrable u ν → Integrable (fun x => u x * u x) ν →
      ∫ x, (u x - θ) ^ 2 ∂ν = ∫ x, u x * u x ∂ν - 2 * θ * ∫ x, u x ∂ν + θ ^ 2 := by
    intro u ui uu
    have e : ∀ x, (u x - θ) ^ 2 = u x * u x - 2 * θ * u x + θ ^ 2 := fun x => by ring
    simp only [e]
    rw [integral_add (f := fun x => u x * u x - 2 * θ * u x) (uu.sub (ui.const_mul _)) (integrable_const _),
      integral_sub uu (ui.const_mul _), integral_const_mul, integral_const]
    simp
  rw [x2 _ φi φφ, x2 _ gν gg, mean]
  linarith

variable {ι π : Type*} [Fintype ι] [Fintype π] [DecidableEq π]

/-- White rows that lose none of the energy of `δ` span `δ`. -/
theorem spanned_by_rows (K : π → ι → ℝ) (s : ι → ℝ) (hs : ∀ i, s i ≠ 0) (c : ℝ) (hc : c ≠ 0)
    (hK : ∀ p p', ∑ i, K p i * K p' i * s i ^ 2 = if p = p' then c else 0) (δ : ι → ℝ)
    (hE : ∑ i, δ i ^ 2 / s i ^ 2 = c⁻¹ * ∑ p, (∑ i, K p i * δ i) ^ 2) (i : ι) :
    δ i / s i ^ 2 = c⁻¹ * ∑ p, (∑ i, K p i * δ i) * K p i := by
  set v : π → ℝ := fun p => ∑ i, K p i * δ i with hv
  have a1 : ∑ i, δ i * (∑ p, v p * K p i) = ∑ p, v p ^ 2 := by
    simp only [Finset.mul_sum]
    rw [Finset.sum_comm]
    refine Finset.sum_congr rfl fun p _ => ?_
    rw [sq, hv, Finset.mul_sum]
    exact Finset.sum_congr rfl fun i _ => by ring
  have a2 : ∑ i, (∑ p, v p * K p i) ^ 2 * s i ^ 2 = c * ∑ p, v p ^ 2 := by
    have e : ∀ i, (∑ p, v p * K p i) ^ 2 * s i ^ 2 = ∑ p, ∑ p', v p * v p' * (K p i * K p' i * s i ^ 2) := by
      intro i
      rw [sq (∑ p, v p * K p i), Finset.sum_mul_sum, Finset.sum_mul]
      refine Finset.sum_congr rfl fun p _ => ?_
      rw [Finset.sum_mul]
      exact Finset.sum_congr rfl fun p' _ => by ring
    simp only [e]
    rw [Finset.sum_comm, Finset.mul_sum]
    refine Finset.sum_congr rfl fun p _ => ?_
    rw [Finset.sum_comm]
    simp only [← Finset.mul_sum, hK]
    simp only [mul_ite, mul_zero, Finset.sum_ite_eq, Finset.mem_univ, if_true]
    ring
  have a3 : ∑ i, (δ i / s i - c⁻¹ * (∑ p, v p * K p i) * s i) ^ 2 = 0 := by
    have e : ∀ i, (δ i / s i - c⁻¹ * (∑ p, v p * K p i) * s i) ^ 2 = δ i ^ 2 / s i ^ 2 -
        2 * c⁻¹ * (δ i * (∑ p, v p * K p i)) + c⁻¹ ^ 2 * ((∑ p, v p * K p i) ^ 2 * s i ^ 2) := by
      intro i
      have := hs i
      field_simp
      ring
    simp only [e]
    rw [Finset.sum_add_distrib, Finset.sum_sub_distrib, ← Finset.mul_sum, ← Finset.mul_sum, a1, a2, hE]
    field_simp
    ring
  have z := (Finset.sum_eq_zero_iff_of_nonneg fun i _ => sq_nonneg _).1 a3 i (Finset.mem_univ i)
  have z2 := pow_eq_zero_iff (two_ne_zero) |>.1 z
  have := hs i
  have z3 : δ i / s i = c⁻¹ * (∑ p, v p * K p i) * s i := by linarith
  rw [← hv] at *
  field_simp at z3 ⊢
  linarith

end PI
