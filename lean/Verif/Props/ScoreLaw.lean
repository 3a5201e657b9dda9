import Verif.Props.GaussNoise
import Verif.Props.ScoreNoise

/-!
# Property C190: how often the score image exceeds a threshold

The pixels of the exposures carry independent Gaussian errors with the variances `pixel + 1` that `subtract` supposes. The image
that `subtract` calls a score is not in units of its standard deviation, so a threshold of five does not mean five.
-/

namespace PI

open Complex Finset MeasureTheory ProbabilityTheory
open scoped NNReal ENNReal

/-- The standard deviation of each pixel that the denominator of S is made with. -/
noncomputable def supposedNoise {h w : ℕ} (ref new : SubImg) (q : Bool × Fin h × Fin w) : ℝ :=
  Real.sqrt ((if q.1 then new.filled.px q.2.1 q.2.2 else ref.filled.px q.2.1 q.2.2) + 1)

theorem residue_inv (n i x : ℕ) (hi : i < n) (hx : x < n) : (i + (n - (i + (n - x)) % n)) % n = x := by
  have step : ∀ x < n, (i + (n - x)) % n = if x ≤ i then i - x else i + n - x := by
    intro x hx
    split_ifs with hxi
    · rw [show i + (n - x) = (i - x) + n by omega, Nat.add_mod_right, Nat.mod_eq_of_lt (by omega)]
    · rw [show i + (n - x) = i + n - x by omega, Nat.mod_eq_of_lt (by omega)]
  rw [step _ (Nat.mod_lt _ (by omega)), step x hx]
  split_ifs <;> omega

/-- Every residue once. -/
theorem sum_residues {M : Type} [AddCommMonoid M] (n i : ℕ) (hi : i < n) (f : ℕ → M) :
    ∑ x ∈ range n, f ((i + (n - x)) % n) = ∑ x ∈ range n, f x := by
  have n0 : 0 < n := by omega
  refine Finset.sum_nbij' (fun x => (i + (n - x)) % n) (fun x => (i + (n - x)) % n) ?_ ?_ ?_ ?_ ?_
  · exact fun x _ => mem_range.2 (Nat.mod_lt _ n0)
  · exact fun x _ => mem_range.2 (Nat.mod_lt _ n0)
  · exact fun x hx => residue_inv n i x hi (mem_range.1 hx)
  · exact fun x hx => residue_inv n i x hi (mem_range.1 hx)
  · exact fun x _ => rfl

/-- The denominator of S is positive if the pixels of the new image are above -1. -/
theorem varNew_pos (ref new : SubImg) (h w : ℕ) (b : ℝ) (hr : ref.interped.shape = (h, w)) (hn : new.interped.shape = (h, w))
    (h0 : h ≠ 0) (w0 : w ≠ 0) (hb : b ≠ 0) (hv : ref.var ≠ 0 ∨ new.var ≠ 0)
    (hpn : ∀ i < h, ∀ j < w, -1 < new.filled.px i j) (i j : ℕ) (hi : i < h) (hj : j < w) : 0 < varNew ref new b i j := by
  have rh0 : ref.h = h := congrArg Prod.fst hr
  have rw0 : ref.w = w := congrArg Prod.snd hr
  have nh0 : new.h = h := congrArg Prod.fst hn
  have nw0 : new.w = w := congrArg Prod.snd hn
  have hex : ∃ a < h, ∃ c < w, (knImg ref new b).px a c ≠ 0 := by
    by_contra hno
    push Not at hno
    have e := fftOrtho_ifftOrtho ⟨h, w, fun k l => zackayKn ref.var new.var 1 b (ref.psfHat.px k l) (new.psfHat.px k l)⟩ 0 0
      (Nat.pos_of_ne_zero h0) (Nat.pos_of_ne_zero w0)
    have hk : knImg ref new b =
        ifftOrtho ⟨h, w, fun k l => zackayKn ref.var new.var 1 b (ref.psfHat.px k l) (new.psfHat.px k l)⟩ := by
      unfold knImg
      rw [rh0, rw0]
    rw [← hk] at e
    have z0 : (fftOrtho (knImg ref new b)).px 0 0 = 0 := by
      rw [hk]
      change (∑ a ∈ range h, ∑ c ∈ range w, _ * _) / _ = (0 : ℂ)
      rw [Finset.sum_eq_zero fun a ha => Finset.sum_eq_zero fun c hc => ?_, zero_div]
      have := hno a (mem_range.1 ha) c (mem_range.1 hc)
      rw [hk] at this
      rw [this, zero_mul]
    rw [z0] at e
    have q1 : 0 < normSq (ref.psfHat.px 0 0) := normSq_pos.2 (psfHat_ne_zero ref 0 0)
    have q2 : 0 < normSq (new.psfHat.px 0 0) := normSq_pos.2 (psfHat_ne_zero new 0 0)
    have b2 : 0 < b ^ 2 := by positivity
    have hden : (new.var ^ 2 * 1 ^ 2 * normSq (ref.psfHat.px 0 0) + ref.var ^ 2 * b ^ 2 * normSq (new.psfHat.px 0 0) : ℝ) ≠ 0 := by
      rcases hv with hv | hv
      · have : 0 < ref.var ^ 2 := by positivity
        positivity
      · have : 0 < new.var ^ 2 := by positivity
        positivity
    change (0 : ℂ) = zackayKn ref.var new.var 1 b (ref.psfHat.px 0 0) (new.psfHat.px 0 0) at e
    unfold zackayKn at e
    refine div_ne_zero (mul_ne_zero (mul_ne_zero ?_ ?_) ?_) ?_ e.symm
    · exact mul_ne_zero (ofReal_ne_zero.2 hb) (by norm_num)
    · exact (map_ne_zero _).2 (psfHat_ne_zero new 0 0)
    · exact_mod_cast q1.ne'
    · exact_mod_cast hden
  by_contra hle
  obtain ⟨a, ha, c, hc, hac⟩ := hex
  have hre : ((knImg ref new b).px a c).re ≠ 0 := fun h00 =>
    hac (Complex.ext h00 (kernels_real ref new (nh0.trans rh0.symm) (nw0.trans rw0.symm) b a c).2)
  have inv := fun n i x (hi : i < n) (hx : x < n) => (residue_inv n i x hi hx)
  have nn : ∀ x ∈ range h, ∀ y ∈ range w, 0 ≤ (new.filled.px x y + 1) *
      ((knImg ref new b).px ((i + (h - x)) % h) ((j + (w - y)) % w)).re ^ 2 := fun x hx y hy =>
    mul_nonneg (by linarith [hpn x (mem_range.1 hx) y (mem_range.1 hy)]) (sq_nonneg _)
  have hx : (i + (h - a)) % h < h := Nat.mod_lt _ (Nat.pos_of_ne_zero h0)
  have hy : (j + (w - c)) % w < w := Nat.mod_lt _ (Nat.pos_of_ne_zero w0)
  apply hle
  unfold varNew
  rw [rh0, rw0]
  refine Finset.sum_pos' (fun x hx => Finset.sum_nonneg (nn x hx)) ⟨_, mem_range.2 hx,
    Finset.sum_pos' (nn _ (mem_range.2 hx)) ⟨_, mem_range.2 hy, mul_pos (by linarith [hpn _ hx _ hy]) ?_⟩⟩
  rw [inv h i a hi ha, inv w j c hj hc]
  positivity

theorem varRef_nonneg (ref new : SubImg) (h w : ℕ) (b : ℝ) (hr : ref.interped.shape = (h, w))
    (hpr : ∀ i < h, ∀ j < w, -1 ≤ ref.filled.px i j) (i j : ℕ) : 0 ≤ varRef ref new b i j := by
  have rh0 : ref.h = h := congrArg Prod.fst hr
  have rw0 : ref.w = w := congrArg Prod.snd hr
  unfold varRef
  rw [rh0, rw0]
  refine Finset.sum_nonneg fun x hx => Finset.sum_nonneg fun y hy => mul_nonneg ?_ (sq_nonneg _)
  linarith [hpr x (mem_range.1 hx) y (mem_range.1 hy)]

theorem sum_pair {α : Type} [Fintype α] (f : Bool × α → ℝ) : ∑ q, f q = ∑ q, (f (true, q) + f (false, q)) := by
  rw [Fintype.sum_prod_type, Fintype.sum_bool, ← Finset.sum_add_distrib]

/-- Above `t`: the probability for a Gaussian of mean zero and variance `v`. -/
theorem gauss_above {Ω : Type*} [MeasurableSpace Ω] {P : Measure Ω} (Y : Ω → ℝ) (v : ℝ) (hv : 0 < v)
    (hl : HasLaw Y (gaussianReal 0 v.toNNReal) P) (t : ℝ) :
    P {ω | t < Y ω} = gaussianReal 0 1 (Set.Ioi (t / Real.sqrt v)) := by
  have s0 : 0 < Real.sqrt v := Real.sqrt_pos.2 hv
  have u := gaussianReal_div_const hl (Real.sqrt v)
  have e1 : v.toNNReal / .mk (Real.sqrt v ^ 2) (sq_nonneg _) = 1 := by
    ext
    rw [NNReal.coe_div, NNReal.coe_mk, Real.coe_toNNReal _ hv.le, Real.sq_sqrt hv.le, div_self hv.ne', NNReal.coe_one]
  rw [zero_div, e1] at u
  rw [← u.map_eq, Measure.map_apply_of_aemeasurable u.aemeasurable measurableSet_Ioi]
  congr 1
  ext ω
  exact (div_lt_div_iff_of_pos_right s0).symm

section
variable {Ω : Type*} [MeasurableSpace Ω] {P : Measure Ω}
variable (env : SubEnv) (it : Bool) (ref new : SubImg) (h w : ℕ) (z : ℝ × ℝ)
    (hmr : ref.mask.HasShape h w) (hmn : new.mask.HasShape h w) (hz : env.zps = .ok z)
    (hc : env.fitted = true ∨ (0 ≤ (centerOfMass new.psf).1 ∧ 0 ≤ (centerOfMass new.psf).2))
    (hr : ref.interped.shape = (h, w)) (hn : new.interped.shape = (h, w))
    (hfr : ref.filled.shape = (h, w)) (hfn : new.filled.shape = (h, w))
    (h0 : h ≠ 0) (w0 : w ≠ 0) (hb : z.2 / z.1 ≠ 0) (hv : ref.var ≠ 0 ∨ new.var ≠ 0)
    (hpr : ∀ i < h, ∀ j < w, -1 ≤ ref.filled.px i j) (hpn : ∀ i < h, ∀ j < w, -1 ≤ new.filled.px i j)

/-- S of the two exposures with the errors `e` (`true`: the new image) added to their pixels; the denominator is that of the
exposures given. -/
noncomputable def noisyScore (e : Bool × Fin h × Fin w → ℝ) : Img ℝ :=
  scoreOf env ⟨false, false, it⟩ ref new (plusImg ref.interped (errImg fun p => e (false, p)))
    (plusImg new.interped (errImg fun p => e (true, p)))

/-- The change of `S[i, j]` per unit of error. -/
noncomputable def scoreKernel (i j : ℕ) (q : Bool × Fin h × Fin w) : ℝ :=
  if q.1 then scoreRespNew env ⟨false, false, it⟩ ref new i j q.2.1 q.2.2
  else scoreRespRef env ⟨false, false, it⟩ ref new i j q.2.1 q.2.2

/-- How much noise the filter collects at a pixel, over how much the denominator was given there. -/
noncomputable def noiseRatio (sn tn sr tr : ℤ) (i j : ℕ) : ℝ :=
  (varNew ref new (z.2 / z.1) (backBy h sn i) (backBy w tn j) + varRef ref new (z.2 / z.1) (backBy h sr i) (backBy w tr j)) /
    (varNew ref new (z.2 / z.1) i j + varRef ref new (z.2 / z.1) i j)

include h0 w0 hr hn hb hv hpr in
theorem noiseRatio_pos (hpn' : ∀ i < h, ∀ j < w, -1 < new.filled.px i j) (sn tn sr tr : ℤ) (i j : ℕ) (hi : i < h) (hj : j < w) :
    0 < noiseRatio ref new h w z sn tn sr tr i j := by
  have V := fun i j hi hj => varNew_pos ref new h w (z.2 / z.1) hr hn h0 w0 hb hv hpn' i j hi hj
  have V' := varRef_nonneg ref new h w (z.2 / z.1) hr hpr
  unfold noiseRatio
  exact div_pos (add_pos_of_pos_of_nonneg (V _ _ (emod_toNat_lt h h0 _) (emod_toNat_lt w w0 _)) (V' _ _))
    (add_pos_of_pos_of_nonneg (V i j hi hj) (V' i j))

include hmr hmn hz hc hr hn hfr hfn h0 w0 hb hv hpr hpn

/-- C190: independent Gaussian errors of whatever standard deviations. Every pixel of S is Gaussian around S of the exposures
without errors. -/
theorem score_gaussian {s : Bool × Fin h × Fin w → ℝ} {X : Bool × Fin h × Fin w → Ω → ℝ} (hX : GaussErrors P X s) (i j : ℕ) :
    HasLaw (fun ω => (noisyScore env it ref new h w fun q => X q ω).px i j)
      (gaussianReal ((scoreOf env ⟨false, false, it⟩ ref new ref.interped new.interped).px i j)
        (∑ q, scoreKernel env it ref new h w i j q ^ 2 * s q ^ 2).toNNReal) P := by
  have l := hX.linear ((scoreOf env ⟨false, false, it⟩ ref new ref.interped new.interped).px i j)
    (scoreKernel env it ref new h w i j)
  refine l.congr (Filter.Eventually.of_forall fun ω => ?_)
  unfold noisyScore
  beta_reduce
  rw [score_linear env it ref new h w z hmr hmn hz hc hr hn hfr hfn h0 w0 hb hv hpr hpn, sum_pixels, sum_pair]
  congr 1
  refine Finset.sum_congr rfl fun q _ => ?_
  rw [errImg_px, errImg_px]
  simp only [scoreKernel, if_true, Bool.false_eq_true, if_false]
  ring

variable (out : SubOut) (hout : subtract env ⟨false, false, it⟩ ref new = .ok out) (c : ℝ × ℝ)
    (hcen : ScoreCentre (env.peak out.P) out.P c) (sn tn sr tr : ℤ)
    (h1 : c.1 - (centerOfMass ref.psf).1 = sn) (h2 : c.2 - (centerOfMass ref.psf).2 = tn)
    (h3 : c.1 - (centerOfMass new.psf).1 = sr) (h4 : c.2 - (centerOfMass new.psf).2 = tr)
    {X : Bool × Fin h × Fin w → Ω → ℝ} (hX : GaussErrors P X (supposedNoise ref new))

include hout hcen h1 h2 h3 h4 hX

/-- C190: with the variances that `subtract` supposes, the law of a pixel of S. -/
theorem score_law (i j : ℕ) (hi : i < h) (hj : j < w) :
    HasLaw (fun ω => (noisyScore env it ref new h w fun q => X q ω).px i j)
      (gaussianReal ((scoreOf env ⟨false, false, it⟩ ref new ref.interped new.interped).px i j)
        (1 / (z.1 ^ 2 * ((h * w : ℕ) : ℝ)) * noiseRatio ref new h w z sn tn sr tr i j).toNNReal) P := by
  have l := score_gaussian env it ref new h w z hmr hmn hz hc hr hn hfr hfn h0 w0 hb hv hpr hpn hX i j
  have m := score_noise env it ref new h w z hmr hmn hz hc hr hn hfr hfn h0 w0 hb hv hpr hpn out hout c hcen sn tn sr tr
    h1 h2 h3 h4 i j hi hj
  have e : ∑ q, scoreKernel env it ref new h w i j q ^ 2 * supposedNoise ref new q ^ 2 =
      1 / (z.1 ^ 2 * ((h * w : ℕ) : ℝ)) * noiseRatio ref new h w z sn tn sr tr i j := by
    unfold noiseRatio
    rw [← m, sum_pixels, sum_pair]
    refine Finset.sum_congr rfl fun q _ => ?_
    simp only [scoreKernel, supposedNoise, if_true, Bool.false_eq_true, if_false]
    rw [Real.sq_sqrt (by linarith [hpn q.1 q.1.2 q.2 q.2.2]), Real.sq_sqrt (by linarith [hpr q.1 q.1.2 q.2 q.2.2])]
    ring
  rwa [e] at l

/-- C190: where S of the exposures without errors is zero, a pixel of S exceeds `t` with the probability that a standard Gaussian
exceeds `t` times the zero point of the reference times the root of the number of pixels, over the root of the noise ratio. -/
theorem score_false_alarm (i j : ℕ) (hi : i < h) (hj : j < w) (hpn' : ∀ i < h, ∀ j < w, -1 < new.filled.px i j)
    (hS : (scoreOf env ⟨false, false, it⟩ ref new ref.interped new.interped).px i j = 0) (t : ℝ) :
    P {ω | t < (noisyScore env it ref new h w fun q => X q ω).px i j} =
      gaussianReal 0 1 (Set.Ioi (t * (|z.1| * Real.sqrt ((h * w : ℕ) : ℝ)) /
        Real.sqrt (noiseRatio ref new h w z sn tn sr tr i j))) := by
  have l := score_law env it ref new h w z hmr hmn hz hc hr hn hfr hfn h0 w0 hb hv hpr hpn out hout c hcen sn tn sr tr
    h1 h2 h3 h4 hX i j hi hj
  rw [hS] at l
  have hρ := noiseRatio_pos ref new h w z hr hn h0 w0 hb hv hpr hpn' sn tn sr tr i j hi hj
  have N0 : (0 : ℝ) < ((h * w : ℕ) : ℝ) := by
    have : 0 < h * w := Nat.mul_pos (by omega) (by omega)
    exact_mod_cast this
  have z0 : z.1 ≠ 0 := fun hz' => hb (by rw [hz', div_zero])
  have z2 : 0 < z.1 ^ 2 := by positivity
  rw [gauss_above _ _ (by positivity) l t]
  congr 2
  rw [Real.sqrt_mul (by positivity), Real.sqrt_div' _ (by positivity), Real.sqrt_mul (by positivity), Real.sqrt_sq_eq_abs,
    Real.sqrt_one]
  have a0 : 0 < |z.1| := abs_pos.2 z0
  have b0 : 0 < Real.sqrt ((h * w : ℕ) : ℝ) := Real.sqrt_pos.2 N0
  have d0 : 0 < Real.sqrt (noiseRatio ref new h w z sn tn sr tr i j) := Real.sqrt_pos.2 hρ
  field_simp

/-- C190: the expected number of pixels of S above `t` where S of the exposures without errors is zero everywhere. -/
theorem score_alarms_expected (hpn' : ∀ i < h, ∀ j < w, -1 < new.filled.px i j)
    (hS : ∀ i < h, ∀ j < w, (scoreOf env ⟨false, false, it⟩ ref new ref.interped new.interped).px i j = 0) (t : ℝ) :
    ∫⁻ ω, (((Finset.univ.filter fun p : Fin h × Fin w =>
        t < (noisyScore env it ref new h w fun q => X q ω).px p.1 p.2).card : ℕ) : ℝ≥0∞) ∂P =
      ∑ p : Fin h × Fin w, gaussianReal 0 1 (Set.Ioi (t * (|z.1| * Real.sqrt ((h * w : ℕ) : ℝ)) /
        Real.sqrt (noiseRatio ref new h w z sn tn sr tr p.1 p.2))) := by
  have one : ∀ p : Fin h × Fin w, _ := fun p => score_false_alarm env it ref new h w z hmr hmn hz hc hr hn hfr hfn h0 w0 hb hv
    hpr hpn out hout c hcen sn tn sr tr h1 h2 h3 h4 hX p.1 p.2 p.1.2 p.2.2 hpn' (hS _ p.1.2 _ p.2.2) t
  have am : ∀ p : Fin h × Fin w, NullMeasurableSet {ω | t < (noisyScore env it ref new h w fun q => X q ω).px p.1 p.2} P := by
    intro p
    have l := score_gaussian env it ref new h w z hmr hmn hz hc hr hn hfr hfn h0 w0 hb hv hpr hpn hX p.1 p.2
    exact l.aemeasurable.nullMeasurable measurableSet_Ioi
  have ind : ∀ ω, (((Finset.univ.filter fun p : Fin h × Fin w =>
        t < (noisyScore env it ref new h w fun q => X q ω).px p.1 p.2).card : ℕ) : ℝ≥0∞) =
      ∑ p : Fin h × Fin w, Set.indicator {ω | t < (noisyScore env it ref new h w fun q => X q ω).px p.1 p.2} (fun _ => 1) ω := by
    intro ω
    rw [Finset.card_filter, Nat.cast_sum]
    refine Finset.sum_congr rfl fun p _ => ?_
    by_cases hp : t < (noisyScore env it ref new h w fun q => X q ω).px p.1 p.2
    · simp [hp]
    · simp [hp]
  simp only [ind]
  rw [lintegral_finsetSum' _ fun p _ => (aemeasurable_const (b := (1 : ℝ≥0∞))).indicator₀ (am p)]
  refine Finset.sum_congr rfl fun p _ => ?_
  rw [← one p]
  exact lintegral_indicator_one₀ (am p)

omit hn hout hcen h1 h2 h3 h4 hX hmr hmn hz hc hb hv hpr hpn hfr hfn in
/-- In flat exposures the filter collects everywhere what the denominator was given. -/
theorem noiseRatio_flat (a a' : ℝ) (hfl : ∀ i < h, ∀ j < w, new.filled.px i j = a ∧ ref.filled.px i j = a')
    (i j : ℕ) (hi : i < h) (hj : j < w)
    (h0' : varNew ref new (z.2 / z.1) i j + varRef ref new (z.2 / z.1) i j ≠ 0) :
    noiseRatio ref new h w z sn tn sr tr i j = 1 := by
  have rh : ref.h = h := congrArg Prod.fst hr
  have rw' : ref.w = w := congrArg Prod.snd hr
  have cn : ∀ i < h, ∀ j < w, varNew ref new (z.2 / z.1) i j =
      ∑ x ∈ range h, ∑ y ∈ range w, (a + 1) * ((knImg ref new (z.2 / z.1)).px x y).re ^ 2 := by
    intro i hi j hj
    unfold varNew
    rw [rh, rw', ← sum_residues h i hi (fun x => ∑ y ∈ range w, (a + 1) * ((knImg ref new (z.2 / z.1)).px x y).re ^ 2)]
    refine Finset.sum_congr rfl fun x hx => ?_
    rw [← sum_residues w j hj (fun y => (a + 1) * ((knImg ref new (z.2 / z.1)).px _ y).re ^ 2)]
    exact Finset.sum_congr rfl fun y hy => by rw [(hfl x (mem_range.1 hx) y (mem_range.1 hy)).1]
  have cr : ∀ i < h, ∀ j < w, varRef ref new (z.2 / z.1) i j =
      ∑ x ∈ range h, ∑ y ∈ range w, (a' + 1) * ((krImg ref new (z.2 / z.1)).px x y).re ^ 2 := by
    intro i hi j hj
    unfold varRef
    rw [rh, rw', ← sum_residues h i hi (fun x => ∑ y ∈ range w, (a' + 1) * ((krImg ref new (z.2 / z.1)).px x y).re ^ 2)]
    refine Finset.sum_congr rfl fun x hx => ?_
    rw [← sum_residues w j hj (fun y => (a' + 1) * ((krImg ref new (z.2 / z.1)).px _ y).re ^ 2)]
    exact Finset.sum_congr rfl fun y hy => by rw [(hfl x (mem_range.1 hx) y (mem_range.1 hy)).2]
  have lt : ∀ (n : ℕ) (s : ℤ) (i : ℕ), n ≠ 0 → backBy n s i < n := fun n s i n0 => emod_toNat_lt n n0 _
  unfold noiseRatio
  rw [cn _ (lt h sn i h0) _ (lt w tn j w0), cr _ (lt h sr i h0) _ (lt w tr j w0), ← cn i hi j hj, ← cr i hi j hj,
    div_self h0']

include hmr hmn hz hc hb hv hpr hpn hfr hfn hout hcen h1 h2 h3 h4 hX in
/-- C190: in flat exposures a pixel of S exceeds `t` with the probability that a standard Gaussian exceeds `t` times the zero
point of the reference times the root of the number of pixels. -/
theorem score_flat_alarm (a a' : ℝ) (hfl : ∀ i < h, ∀ j < w, new.filled.px i j = a ∧ ref.filled.px i j = a')
    (ha : -1 < a) (i j : ℕ) (hi : i < h) (hj : j < w)
    (hS : (scoreOf env ⟨false, false, it⟩ ref new ref.interped new.interped).px i j = 0) (t : ℝ) :
    P {ω | t < (noisyScore env it ref new h w fun q => X q ω).px i j} =
      gaussianReal 0 1 (Set.Ioi (t * (|z.1| * Real.sqrt ((h * w : ℕ) : ℝ)))) := by
  have hpn' : ∀ i < h, ∀ j < w, -1 < new.filled.px i j := fun i hi j hj => by rw [(hfl i hi j hj).1]; exact ha
  have h0' : varNew ref new (z.2 / z.1) i j + varRef ref new (z.2 / z.1) i j ≠ 0 :=
    (add_pos_of_pos_of_nonneg (varNew_pos ref new h w (z.2 / z.1) hr hn h0 w0 hb hv hpn' i j hi hj)
      (varRef_nonneg ref new h w (z.2 / z.1) hr hpr i j)).ne'
  have ρ := noiseRatio_flat ref new h w z hr h0 w0 sn tn sr tr a a' hfl i j hi hj h0'
  rw [score_false_alarm env it ref new h w z hmr hmn hz hc hr hn hfr hfn h0 w0 hb hv hpr hpn out hout c hcen sn tn sr tr
    h1 h2 h3 h4 hX i j hi hj hpn' hS t, ρ, Real.sqrt_one, div_one]

end

/-! ## Worked instances -/

/-- C190 for two equal 1×3 exposures whose PSF is a single pixel: what counts is the noise of the pixel over that of its
neighbour. -/
theorem dot_false_alarm {Ω : Type*} [MeasurableSpace Ω] {P : Measure Ω} (u : ℕ → ℝ) (hu : ∀ j < 3, -1 < u j)
    {X : Bool × Fin 1 × Fin 3 → Ω → ℝ} (hX : GaussErrors P X (supposedNoise (dotSub u) (dotSub u))) (j : ℕ) (hj : j < 3) (t : ℝ) :
    P {ω | t < (noisyScore (tinyEnv 1 1) true (dotSub u) (dotSub u) 1 3 fun q => X q ω).px 0 j} =
      gaussianReal 0 1 (Set.Ioi (t * Real.sqrt 3 / Real.sqrt ((u j + 1) / (u ((j + 1) % 3) + 1)))) := by
  obtain ⟨out, eo, _, hP, _⟩ := subtract_returns (tinyEnv 1 1) true (dotSub u) (dotSub u) 1 3 rfl rfl
    (by intro a h; cases h) (by intro a h; cases h) (1, 1) rfl (Or.inl rfl)
  obtain ⟨out', eo', _, hS⟩ := subtract_self_zero (tinyEnv 1 1) true (dotSub u) (dotSub u) 1 3 rfl rfl rfl
    (by intro a h; cases h) (by intro a h; cases h) 1 one_ne_zero rfl (Or.inl rfl)
  have hcm : centerOfMass out.P = (((0 : ℤ) : ℝ), (((2 : ℕ) : ℤ) : ℝ)) := by
    rw [hP, ← dot_com 2 (by norm_num)]
    unfold centerOfMass rsum
    change ((∑ i ∈ range 1, ∑ j ∈ range 3, _) / (∑ i ∈ range 1, ∑ j ∈ range 3, _),
      (∑ i ∈ range 1, ∑ j ∈ range 3, _) / (∑ i ∈ range 1, ∑ j ∈ range 3, _)) = _
    simp only [Finset.sum_range_succ, Finset.sum_range_zero, dot_P u u 0 0 (by norm_num) (by norm_num),
      dot_P u u 0 1 (by norm_num) (by norm_num), dot_P u u 0 2 (by norm_num) (by norm_num)]
  have b0 : backBy 1 0 0 = 0 := rfl
  have bj : backBy 3 1 j < 3 ∧ (backBy 3 1 j + 1) % 3 = j := by interval_cases j <;> decide
  have p1 : 0 < u j + 1 := by linarith [hu j hj]
  have p2 : 0 < u ((j + 1) % 3) + 1 := by linarith [hu ((j + 1) % 3) (Nat.mod_lt _ (by norm_num))]
  have ρ : noiseRatio (dotSub u) (dotSub u) 1 3 (1, 1) 0 1 0 1 0 j = (u j + 1) / (u ((j + 1) % 3) + 1) := by
    unfold noiseRatio
    rw [b0, (dot_var u u _ bj.1).1, (dot_var u u _ bj.1).2, (dot_var u u j hj).1, (dot_var u u j hj).2, bj.2]
    field_simp
  have com : ∀ m : SubImg, m.psf = dotPsf → centerOfMass m.psf = (((0 : ℤ) : ℝ), (((1 : ℕ) : ℤ) : ℝ)) := fun m e => by
    rw [e, dotPsf, dot_com 1 (by norm_num)]
  have zero : (scoreOf (tinyEnv 1 1) ⟨false, false, true⟩ (dotSub u) (dotSub u) (dotSub u).interped (dotSub u).interped).px 0 j
      = 0 := by
    have e : subtract (tinyEnv 1 1) ⟨false, false, true⟩ ((dotSub u).withPixels (dotSub u).interped)
      ((dotSub u).withPixels (dotSub u).interped) = .ok out' := eo'
    unfold scoreOf
    rw [e]
    exact hS 0 j
  have m := score_false_alarm (tinyEnv 1 1) true (dotSub u) (dotSub u) 1 3 (1, 1) (by intro a h; cases h)
    (by intro a h; cases h) rfl (Or.inl rfl) rfl rfl rfl rfl (by norm_num) (by norm_num) (by norm_num)
    (Or.inl (by norm_num [dotSub])) (fun i _ j hj => (hu j hj).le) (fun i _ j hj => (hu j hj).le) out eo
    (((0 : ℤ) : ℝ), (((2 : ℕ) : ℤ) : ℝ))
    ⟨fun _ => hcm.symm, fun hn => absurd (by rw [hcm]; norm_num [tinyEnv]) hn⟩ 0 1 0 1
    (by rw [com _ rfl]; norm_num) (by rw [com _ rfl]; norm_num) (by rw [com _ rfl]; norm_num) (by rw [com _ rfl]; norm_num)
    hX 0 j (by norm_num) hj (fun i _ j hj => hu j hj) zero t
  rw [m, ρ]
  norm_num

/-- C190: a star of 97 counts in the middle pixel of both exposures. There S exceeds 7 with at least the probability that a standard
Gaussian exceeds 5/4. -/
theorem bright_pixel_alarm {Ω : Type*} [MeasurableSpace Ω] {P : Measure Ω} {X : Bool × Fin 1 × Fin 3 → Ω → ℝ}
    (hX : GaussErrors P X (supposedNoise (dotSub fun y => if y = 1 then 97 else 0) (dotSub fun y => if y = 1 then 97 else 0))) :
    gaussianReal 0 1 (Set.Ioi (5 / 4)) ≤
      P {ω | 7 < (noisyScore (tinyEnv 1 1) true (dotSub fun y => if y = 1 then 97 else 0)
        (dotSub fun y => if y = 1 then 97 else 0) 1 3 fun q => X q ω).px 0 1} := by
  rw [dot_false_alarm _ (by intro j _; split_ifs <;> norm_num) hX 1 (by norm_num)]
  refine measure_mono (Set.Ioi_subset_Ioi ?_)
  have a : Real.sqrt 3 < 1.7321 := (Real.sqrt_lt' (by norm_num)).2 (by norm_num)
  have b : 9.8994 < Real.sqrt 98 := Real.lt_sqrt_of_sq_lt (by norm_num)
  norm_num
  rw [div_le_iff₀ (by positivity)]
  norm_num at b
  linarith

/-- Such errors exist. -/
example : GaussErrors (Measure.pi fun q : Bool × Fin 1 × Fin 3 => gaussianReal 0
      ((supposedNoise (dotSub fun y => if y = 1 then 97 else 0) (dotSub fun y => if y = 1 then 97 else 0) q ^ 2).toNNReal))
    (fun q ω => ω q) (supposedNoise (dotSub fun y => if y = 1 then 97 else 0) (dotSub fun y => if y = 1 then 97 else 0)) :=
  gauss_errors_exist _

end PI
