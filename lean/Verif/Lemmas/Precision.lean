import Verif.Lemmas.Neyman
import Mathlib.MeasureTheory.Function.L2Space
import Mathlib.Algebra.QuadraticDiscriminant
import Mathlib.Analysis.SpecialFunctions.ExpDeriv

/-! # How precisely a flux can be measured in Gaussian noise -/

namespace PI
open MeasureTheory ProbabilityTheory Filter Topology
open scoped NNReal ENNReal

variable {ι : Type} [Fintype ι]

/-- The likelihood ratio of flux `c` and flux zero. -/
noncomputable def fluxRatio (m s u : ι → ℝ) (c : ℝ) (x : ι → ℝ) : ℝ :=
  Real.exp (c * (∑ i, u i * (x i - m i) / s i ^ 2) - c ^ 2 * (∑ i, u i ^ 2 / s i ^ 2) / 2)

theorem fluxRatio_measurable (m s u : ι → ℝ) (c : ℝ) : Measurable (fluxRatio m s u c) := by
  unfold fluxRatio
  fun_prop

theorem fluxRatio_pos (m s u : ι → ℝ) (c : ℝ) (x : ι → ℝ) : 0 < fluxRatio m s u c x := Real.exp_pos _

theorem fluxRatio_sq (m s u : ι → ℝ) (c : ℝ) (x : ι → ℝ) :
    fluxRatio m s u c x ^ 2 = Real.exp (c ^ 2 * ∑ i, u i ^ 2 / s i ^ 2) * fluxRatio m s u (2 * c) x := by
  unfold fluxRatio
  rw [sq (Real.exp _), ← Real.exp_add, ← Real.exp_add]
  congr 1
  ring

theorem fluxRatio_law (m s u : ι → ℝ) (hs : ∀ i, s i ≠ 0) (c : ℝ) :
    pixelLaw (fun i => m i + c * u i) s =
      (pixelLaw m s).withDensity fun x => ENNReal.ofReal (fluxRatio m s u c x) := by
  rw [pixelLaw_density m s (fun i => c * u i) hs]
  congr 1
  funext x
  unfold pixelRatio fluxRatio
  rw [← ENNReal.ofReal_prod_of_nonneg fun i _ => (Real.exp_pos _).le, ← Real.exp_sum, Finset.mul_sum, Finset.mul_sum,
    Finset.sum_div, ← Finset.sum_sub_distrib]
  congr 2
  refine Finset.sum_congr rfl fun i _ => ?_
  have := hs i
  field_simp

theorem fluxRatio_integral (m s u : ι → ℝ) (hs : ∀ i, s i ≠ 0) (c : ℝ) (g : (ι → ℝ) → ℝ) :
    ∫ x, g x ∂pixelLaw (fun i => m i + c * u i) s = ∫ x, g x * fluxRatio m s u c x ∂pixelLaw m s := by
  rw [fluxRatio_law m s u hs c, integral_withDensity_eq_integral_toReal_smul
    (fluxRatio_measurable m s u c).ennreal_ofReal (Eventually.of_forall fun x => ENNReal.ofReal_lt_top)]
  refine integral_congr_ae (Eventually.of_forall fun x => ?_)
  simp only [smul_eq_mul]
  rw [ENNReal.toReal_ofReal (fluxRatio_pos m s u c x).le, mul_comm]

theorem fluxRatio_integrable (m s u : ι → ℝ) (hs : ∀ i, s i ≠ 0) (c : ℝ) :
    Integrable (fluxRatio m s u c) (pixelLaw m s) := by
  refine ⟨(fluxRatio_measurable m s u c).aestronglyMeasurable, ?_⟩
  have one : pixelLaw (fun i => m i + c * u i) s Set.univ = 1 := measure_univ
  rw [fluxRatio_law m s u hs c, withDensity_apply _ MeasurableSet.univ, Measure.restrict_univ] at one
  rw [hasFiniteIntegral_iff_ofReal (Eventually.of_forall fun x => (fluxRatio_pos m s u c x).le), one]
  exact ENNReal.one_lt_top

theorem fluxRatio_mean (m s u : ι → ℝ) (hs : ∀ i, s i ≠ 0) (c : ℝ) :
    ∫ x, fluxRatio m s u c x ∂pixelLaw m s = 1 := by
  have := fluxRatio_integral m s u hs c fun _ => 1
  simp only [one_mul] at this
  rw [← this]
  simp

theorem fluxRatio_memLp (m s u : ι → ℝ) (hs : ∀ i, s i ≠ 0) (c : ℝ) : MemLp (fluxRatio m s u c) 2 (pixelLaw m s) := by
  rw [memLp_two_iff_integrable_sq (fluxRatio_measurable m s u c).aestronglyMeasurable]
  simp only [fluxRatio_sq]
  exact (fluxRatio_integrable m s u hs (2 * c)).const_mul _

/-- The inequality of Hammersley, Chapman and Robbins. -/
theorem flux_bound_step (m s u : ι → ℝ) (hs : ∀ i, s i ≠ 0) (g : (ι → ℝ) → ℝ) (hg : MemLp g 2 (pixelLaw m s)) (θ c : ℝ)
    (h0 : ∫ x, g x ∂pixelLaw m s = θ) (h1 : ∫ x, g x ∂pixelLaw (fun i => m i + c * u i) s = θ + c) :
    c ^ 2 ≤ (∫ x, (g x - θ) ^ 2 ∂pixelLaw m s) * (Real.exp (c ^ 2 * ∑ i, u i ^ 2 / s i ^ 2) - 1) := by
  set μ := pixelLaw m s with hμ
  set L := fluxRatio m s u c with hL
  have mL : MemLp L 2 μ := fluxRatio_memLp m s u hs c
  have iL : Integrable L μ := fluxRatio_integrable m s u hs c
  have ig : Integrable g μ := hg.integrable (by norm_num)
  have igL : Integrable (fun x => g x * L x) μ := hg.integrable_mul mL
  have mg : MemLp (fun x => g x - θ) 2 μ := hg.sub (memLp_const θ)
  have mL1 : MemLp (fun x => L x - 1) 2 μ := mL.sub (memLp_const 1)
  have iL1 : Integrable (fun x => L x - 1) μ := iL.sub (integrable_const 1)
  have iX : Integrable (fun x => (g x - θ) * (L x - 1)) μ := mg.integrable_mul mL1
  have cross : ∫ x, (g x - θ) * (L x - 1) ∂μ = c := by
    have e : ∀ x, (g x - θ) * (L x - 1) = g x * L x - g x - θ * (L x - 1) := fun x => by ring
    simp only [e]
    rw [integral_sub (f := fun x => g x * L x - g x) (igL.sub ig) (iL1.const_mul θ),
      integral_sub igL ig, integral_const_mul, integral_sub iL (integrable_const 1), fluxRatio_mean m s u hs c, h0,
      ← fluxRatio_integral m s u hs c g, h1]
    simp
  have quad : ∫ x, (L x - 1) ^ 2 ∂μ = Real.exp (c ^ 2 * ∑ i, u i ^ 2 / s i ^ 2) - 1 := by
    have e : ∀ x, (L x - 1) ^ 2 = Real.exp (c ^ 2 * ∑ i, u i ^ 2 / s i ^ 2) * fluxRatio m s u (2 * c) x - (2 * L x - 1) :=
      fun x => by rw [← fluxRatio_sq]; ring
    simp only [e]
    rw [integral_sub ((fluxRatio_integrable m s u hs (2 * c)).const_mul _)
      (f := fun x => Real.exp (c ^ 2 * ∑ i, u i ^ 2 / s i ^ 2) * fluxRatio m s u (2 * c) x)
      (g := fun x => 2 * L x - 1) ((iL.const_mul 2).sub (integrable_const 1)),
      integral_const_mul, fluxRatio_mean m s u hs (2 * c),
      integral_sub (iL.const_mul 2) (integrable_const 1), integral_const_mul, fluxRatio_mean m s u hs c]
    simp
    norm_num
  have d := discrim_le_zero (a := ∫ x, (g x - θ) ^ 2 ∂μ) (b := -2 * c)
    (c := Real.exp (c ^ 2 * ∑ i, u i ^ 2 / s i ^ 2) - 1) fun l => by
      have nn : 0 ≤ ∫ x, (l * (g x - θ) - (L x - 1)) ^ 2 ∂μ := integral_nonneg fun x => sq_nonneg _
      have e : ∀ x, (l * (g x - θ) - (L x - 1)) ^ 2 =
          l ^ 2 * (g x - θ) ^ 2 - 2 * l * ((g x - θ) * (L x - 1)) + (L x - 1) ^ 2 := fun x => by ring
      simp only [e] at nn
      rw [integral_add (f := fun x => l ^ 2 * (g x - θ) ^ 2 - 2 * l * ((g x - θ) * (L x - 1)))
        ((mg.integrable_sq.const_mul _).sub (iX.const_mul _)) mL1.integrable_sq,
        integral_sub (mg.integrable_sq.const_mul _) (iX.const_mul _), integral_const_mul,
        integral_const_mul, cross, quad] at nn
      linarith
  unfold discrim at d
  linarith

/-- No measurement that is right on average, at the flux in question and a little above it, has a smaller variance than
one over the squared signal to noise ratio of unit flux. -/
theorem flux_bound (m s u : ι → ℝ) (hs : ∀ i, s i ≠ 0) (g : (ι → ℝ) → ℝ) (hg : MemLp g 2 (pixelLaw m s)) (θ ε : ℝ)
    (hε : 0 < ε) (h : ∀ c, 0 ≤ c → c < ε → ∫ x, g x ∂pixelLaw (fun i => m i + c * u i) s = θ + c) :
    1 ≤ (∑ i, u i ^ 2 / s i ^ 2) * ∫ x, (g x - θ) ^ 2 ∂pixelLaw m s := by
  set I := ∑ i, u i ^ 2 / s i ^ 2 with hI
  set V := ∫ x, (g x - θ) ^ 2 ∂pixelLaw m s with hV
  have h0 : ∫ x, g x ∂pixelLaw m s = θ := by
    have := h 0 le_rfl hε
    simpa using this
  have D : HasDerivAt (fun y : ℝ => V * Real.exp (y * I)) (V * I) 0 := by
    have := ((Real.hasDerivAt_exp (0 * I)).comp (0 : ℝ) ((hasDerivAt_id (0 : ℝ)).mul_const I)).const_mul V
    simpa using this
  have T := D.tendsto_slope_zero_right
  rw [mul_comm I V]
  refine ge_of_tendsto T ?_
  have near : ∀ᶠ t in 𝓝[>] (0 : ℝ), t ∈ Set.Ioo (0 : ℝ) (ε ^ 2) := Ioo_mem_nhdsGT (by positivity)
  filter_upwards [near] with t ht
  have st : Real.sqrt t < ε := by
    rw [Real.sqrt_lt' hε]
    exact ht.2
  have k := flux_bound_step m s u hs g hg θ (Real.sqrt t) h0 (h _ (Real.sqrt_nonneg _) st)
  rw [Real.sq_sqrt ht.1.le] at k
  simp only [zero_add, zero_mul, Real.exp_zero, mul_one, smul_eq_mul]
  rw [← mul_sub_one, inv_mul_eq_div, le_div_iff₀ ht.1, one_mul]
  exact k

/-- The same for measurements that must be right on average whatever change of `W` is added: they cannot be more precise
than the greatest signal to noise ratio of weights that do not see `W` allows. -/
theorem unseen_flux_bound (W : Submodule ℝ (ι → ℝ)) (s : ι → ℝ) (hs : ∀ i, s i ≠ 0) (v : ι → ℝ) (V : ℝ)
    (bound : ∀ g : ι → ℝ, (∀ y ∈ W, ∑ i, g i * y i = 0) → (∑ i, g i * v i) ^ 2 ≤ (∑ i, g i ^ 2 * s i ^ 2) * V)
    (m : ι → ℝ) (g : (ι → ℝ) → ℝ) (hg : MemLp g 2 (pixelLaw m s)) (θ ε : ℝ) (hε : 0 < ε)
    (h : ∀ y ∈ W, ∀ c, 0 ≤ c → c < ε → ∫ x, g x ∂pixelLaw (fun i => m i + y i + c * v i) s = θ + c) :
    1 ≤ V * ∫ x, (g x - θ) ^ 2 ∂pixelLaw m s := by
  obtain ⟨r, hr, ho⟩ := weighted_projection W s hs v
  have k := flux_bound m s r hs g hg θ ε hε fun c c0 c1 => by
    rw [← h _ (W.smul_mem (-c) hr) c c0 c1]
    congr 2
    funext i
    simp only [Pi.smul_apply, Pi.sub_apply, smul_eq_mul]
    ring
  set R := ∑ i, r i ^ 2 / s i ^ 2 with hR
  have R0 : 0 ≤ R := Finset.sum_nonneg fun i _ => by positivity
  have V0 : 0 ≤ ∫ x, (g x - θ) ^ 2 ∂pixelLaw m s := integral_nonneg fun x => sq_nonneg _
  have b := bound (fun i => r i / s i ^ 2) ho
  have vr : ∑ i, r i / s i ^ 2 * v i = R := by
    have := ho _ hr
    simp only [Pi.sub_apply, mul_sub, Finset.sum_sub_distrib] at this
    have e1 : ∑ i, r i / s i ^ 2 * r i = R := Finset.sum_congr rfl fun i _ => by ring
    linarith
  have e2 : ∑ i, (r i / s i ^ 2) ^ 2 * s i ^ 2 = R := Finset.sum_congr rfl fun i _ => by
    have := hs i
    field_simp
  rw [vr, e2, sq] at b
  have Rp : 0 < R := by
    rcases R0.lt_or_eq with h | h
    · exact h
    · rw [← h, zero_mul] at k
      linarith
  exact k.trans (mul_le_mul_of_nonneg_right (le_of_mul_le_mul_left b Rp) V0)

/-- A linear measurement: its mean and its variance. -/
theorem linear_measurement (m s T : ι → ℝ) (a : ℝ) :
    MemLp (fun x : ι → ℝ => a + ∑ i, T i * x i) 2 (pixelLaw m s) ∧
    ∫ x, (a + ∑ i, T i * x i) ∂pixelLaw m s = a + ∑ i, T i * m i ∧
      ∫ x, ((a + ∑ i, T i * x i) - (a + ∑ i, T i * m i)) ^ 2 ∂pixelLaw m s = ∑ i, T i ^ 2 * s i ^ 2 := by
  have hX : GaussErrors (pixelLaw (fun _ : ι => 0) s) (fun i (ω : ι → ℝ) => ω i) s :=
    { law := fun i => ⟨(measurable_pi_apply i).aemeasurable, (measurePreserving_eval _ i).map_eq⟩
      indep := iIndepFun_pi (X := fun _ => id) fun _ => aemeasurable_id }
  have L0 := hX.linear (a + ∑ i, T i * m i) T
  have e : pixelLaw m s = (pixelLaw (fun _ : ι => 0) s).map fun x i => x i + m i := by
    rw [← pixelLaw_add]
    simp only [zero_add]
  have L : HasLaw (fun x : ι → ℝ => a + ∑ i, T i * x i)
      (gaussianReal (a + ∑ i, T i * m i) ((∑ i, T i ^ 2 * s i ^ 2).toNNReal)) (pixelLaw m s) := by
    have mm : Measurable fun x : ι → ℝ => a + ∑ i, T i * x i := by fun_prop
    refine ⟨mm.aemeasurable, ?_⟩
    rw [e, Measure.map_map (by fun_prop) (by fun_prop), ← L0.map_eq]
    congr 1
    funext x
    simp only [Function.comp, mul_add, Finset.sum_add_distrib]
    ring
  have nn : 0 ≤ ∑ i, T i ^ 2 * s i ^ 2 := Finset.sum_nonneg fun i _ => by positivity
  have me : ∫ x, (a + ∑ i, T i * x i) ∂pixelLaw m s = a + ∑ i, T i * m i := by
    rw [L.integral_eq, integral_id_gaussianReal]
  have va := L.variance_eq
  rw [variance_id_gaussianReal, Real.coe_toNNReal _ nn, variance_eq_integral L.aemeasurable, me] at va
  exact ⟨L.hasGaussianLaw.memLp_two, me, va⟩

end PI
