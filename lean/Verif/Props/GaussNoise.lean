import Verif.Props.Noise
import Verif.Props.SubtractReal
import Verif.Props.Transient
import Verif.Props.CoaddRef
import Verif.Lemmas.Gauss

/-!
# Property C179: images with Gaussian noise

The pixels of the exposures carry independent Gaussian errors of the stated noise levels. The pixels of D are then independent
Gaussians of variance one, and those of a coadd independent Gaussians of variance one over the number of pixels.
-/

namespace PI

open Complex Finset MeasureTheory ProbabilityTheory
open scoped NNReal ENNReal

/-- One error per pixel, as an image. -/
def errImg {h w : ℕ} (x : Fin h × Fin w → ℝ) : Img ℝ :=
  ⟨h, w, fun i j => if hi : i < h then if hj : j < w then x (⟨i, hi⟩, ⟨j, hj⟩) else 0 else 0⟩

theorem errImg_px {h w : ℕ} (x : Fin h × Fin w → ℝ) (p : Fin h × Fin w) : (errImg x).px p.1 p.2 = x p := by
  simp [errImg]

theorem sum_pixels (h w : ℕ) {M : Type} [AddCommMonoid M] (f : ℕ → ℕ → M) :
    ∑ x ∈ range h, ∑ y ∈ range w, f x y = ∑ p : Fin h × Fin w, f p.1 p.2 := by
  rw [Fintype.sum_prod_type, Finset.sum_range]
  exact Finset.sum_congr rfl fun x _ => Finset.sum_range fun y => f x y

variable {Ω : Type*} [MeasurableSpace Ω] {P : Measure Ω}

/-- Independent pixels of one law: the probability that none exceeds `t`. -/
theorem none_exceeds {h w : ℕ} (Y : Fin h × Fin w → Ω → ℝ) (v : ℝ≥0) (hl : ∀ p, HasLaw (Y p) (gaussianReal 0 v) P)
    (hi : iIndepFun Y P) (t : ℝ) : P {ω | ∀ p, Y p ω ≤ t} = gaussianReal 0 v (Set.Iic t) ^ (h * w) := by
  have e : {ω | ∀ p, Y p ω ≤ t} = ⋂ p ∈ (Finset.univ : Finset (Fin h × Fin w)), Y p ⁻¹' Set.Iic t := by
    ext ω
    simp
  rw [e, iIndepFun.measure_inter_preimage_eq_mul hi _ fun p _ => measurableSet_Iic]
  have : ∀ p, P (Y p ⁻¹' Set.Iic t) = gaussianReal 0 v (Set.Iic t) := by
    intro p
    rw [← (hl p).map_eq, Measure.map_apply_of_aemeasurable (hl p).aemeasurable measurableSet_Iic]
  rw [Finset.prod_congr rfl fun p _ => this p, Finset.prod_const, Finset.card_univ, Fintype.card_prod, Fintype.card_fin,
    Fintype.card_fin]

section
variable (env : SubEnv) (it : Bool) (ref new : SubImg) (h w : ℕ) (z : ℝ × ℝ)
    (hmr : ref.mask.HasShape h w) (hmn : new.mask.HasShape h w) (hz : env.zps = .ok z)
    (hc : env.fitted = true ∨ (0 ≤ (centerOfMass new.psf).1 ∧ 0 ≤ (centerOfMass new.psf).2))
    (hr : ref.interped.shape = (h, w)) (hn : new.interped.shape = (h, w))
    (h1 : AxisOK h (centerOfMass ref.psf).1) (h2 : AxisOK w (centerOfMass ref.psf).2)
    (h3 : AxisOK h (centerOfMass new.psf).1) (h4 : AxisOK w (centerOfMass new.psf).2)
    (hv : new.var ≠ 0 ∨ (ref.var ≠ 0 ∧ z.2 / z.1 ≠ 0))

/-- D of the two exposures with the errors `e` (`true`: the new image) added to their pixels. -/
noncomputable def noisyDiff (e : Bool × Fin h × Fin w → ℝ) : Img ℂ :=
  diffOf env ⟨false, false, it⟩ ref new (plusImg ref.interped (errImg fun p => e (false, p)))
    (plusImg new.interped (errImg fun p => e (true, p)))

/-- The noise level of each pixel. -/
def pairNoise {h w : ℕ} (ref new : SubImg) (p : Bool × Fin h × Fin w) : ℝ := if p.1 then new.var else ref.var

/-- The change of pixel `p` of D per unit of error, real part. -/
noncomputable def diffKernel (p : Fin h × Fin w) (q : Bool × Fin h × Fin w) : ℝ :=
  if q.1 then (respNew env ⟨false, false, it⟩ ref new p.1 p.2 q.2.1 q.2.2).re
  else (respRef env ⟨false, false, it⟩ ref new p.1 p.2 q.2.1 q.2.2).re

include hmr hmn hz hc hr hn

theorem noisyDiff_re (e : Bool × Fin h × Fin w → ℝ) (p : Fin h × Fin w) :
    ((noisyDiff env it ref new h w e).px p.1 p.2).re =
      ((diffOf env ⟨false, false, it⟩ ref new ref.interped new.interped).px p.1 p.2).re +
        ∑ q, diffKernel env it ref new h w p q * e q := by
  unfold noisyDiff
  rw [subtract_noise_linear env it ref new h w z hmr hmn hz hc hr hn, add_re, sum_pixels, re_sum]
  have : ∑ q, diffKernel env it ref new h w p q * e q = ∑ q, (diffKernel env it ref new h w p (true, q) * e (true, q) +
      diffKernel env it ref new h w p (false, q) * e (false, q)) := by
    rw [Fintype.sum_prod_type, Fintype.sum_bool, ← Finset.sum_add_distrib]
  rw [this]
  congr 1
  refine Finset.sum_congr rfl fun q _ => ?_
  rw [errImg_px, errImg_px, add_re, re_ofReal_mul, re_ofReal_mul]
  simp only [diffKernel, if_true, Bool.false_eq_true, if_false]
  ring

include h1 h2 h3 h4

omit hr hn in
theorem diffOf_im (r n : Img ℝ) (hr' : r.shape = (h, w)) (hn' : n.shape = (h, w)) (i j : ℕ) :
    ((diffOf env ⟨false, false, it⟩ ref new r n).px i j).im = 0 := by
  obtain ⟨out, e, hD, _⟩ := subtract_returns env it (ref.withPixels r) (new.withPixels n) h w hr' hn' hmr hmn z hz hc
  have ed : diffOf env ⟨false, false, it⟩ ref new r n = out.D := by
    unfold diffOf
    rw [e]
  have rh : (ref.withPixels r).h = h := congrArg Prod.fst hr'
  have rw' : (ref.withPixels r).w = w := congrArg Prod.snd hr'
  rw [ed, hD]
  refine subtract_D_real (ref.withPixels r) (new.withPixels n) ((congrArg Prod.fst hn').trans rh.symm)
    ((congrArg Prod.snd hn').trans rw'.symm) _ _ _ ?_ ?_ ?_ ?_ ?_ ?_ i j
  · rw [rh]; exact h1
  · rw [rw']; exact h2
  · rw [rh]; exact h3
  · rw [rw']; exact h4
  · exact Or.inr ⟨0, by simp⟩
  · exact Or.inr ⟨0, by simp⟩

include hv

theorem diffKernel_white (p p' : Fin h × Fin w) :
    ∑ q, diffKernel env it ref new h w p q * diffKernel env it ref new h w p' q * pairNoise ref new q ^ 2 =
      if p = p' then 1 else 0 := by
  have k := subtract_noise_white env it ref new h w z hmr hmn hz hc hr hn hv p.1 p.2 p'.1 p'.2 p.1.2 p.2.2 p'.1.2 p'.2.2
  have im := fun r n hr' hn' => diffOf_im env it ref new h w z hmr hmn hz hc h1 h2 h3 h4 r n hr' hn'
  have i1 : ∀ i j x y, (respNew env ⟨false, false, it⟩ ref new i j x y).im = 0 := by
    intro i j x y
    unfold respNew
    rw [sub_im, im _ _ hr hn, im ref.interped (bump new.interped x y 1) hr hn, sub_zero]
  have i2 : ∀ i j x y, (respRef env ⟨false, false, it⟩ ref new i j x y).im = 0 := by
    intro i j x y
    unfold respRef
    rw [sub_im, im _ _ hr hn, im (bump ref.interped x y 1) new.interped hr hn, sub_zero]
  have k' := congrArg re k
  rw [sum_pixels, re_sum] at k'
  rw [Fintype.sum_prod_type, Fintype.sum_bool, ← Finset.sum_add_distrib]
  have e : (if p = p' then (1 : ℝ) else 0) = (if (p.1 : ℕ) = p'.1 ∧ (p.2 : ℕ) = p'.2 then (1 : ℂ) else 0).re := by
    have : p = p' ↔ (p.1 : ℕ) = p'.1 ∧ (p.2 : ℕ) = p'.2 := by rw [Prod.ext_iff, Fin.ext_iff, Fin.ext_iff]
    by_cases hp : p = p'
    · rw [if_pos hp, if_pos (this.1 hp), one_re]
    · rw [if_neg hp, if_neg fun h => hp (this.2 h), zero_re]
  rw [e, ← k']
  refine Finset.sum_congr rfl fun q _ => ?_
  simp only [diffKernel, pairNoise, if_true, Bool.false_eq_true, if_false]
  rw [add_re, re_ofReal_mul, re_ofReal_mul, mul_re, mul_re, conj_re, conj_im, conj_re, conj_im, i1, i2]
  ring

variable {X : Bool × Fin h × Fin w → Ω → ℝ} (hX : GaussErrors P X (pairNoise ref new))
include hX

/-- C179: exposures with independent Gaussian errors of the stated noise levels. The pixels of D are real, independent of each
other, and Gaussian with variance one around the noiseless D. -/
theorem diff_gaussian :
    (∀ ω, ∀ i < h, ∀ j < w, ((noisyDiff env it ref new h w fun q => X q ω).px i j).im = 0) ∧
    (∀ p : Fin h × Fin w, HasLaw (fun ω => ((noisyDiff env it ref new h w fun q => X q ω).px p.1 p.2).re)
      (gaussianReal ((diffOf env ⟨false, false, it⟩ ref new ref.interped new.interped).px p.1 p.2).re 1) P) ∧
    iIndepFun (fun (p : Fin h × Fin w) ω => ((noisyDiff env it ref new h w fun q => X q ω).px p.1 p.2).re) P := by
  have hw := diffKernel_white env it ref new h w z hmr hmn hz hc hr hn h1 h2 h3 h4 hv
  have hl := fun e p => noisyDiff_re env it ref new h w z hmr hmn hz hc hr hn e p
  refine ⟨fun ω i _ j _ => ?_, fun p => ?_, ?_⟩
  · unfold noisyDiff
    exact diffOf_im env it ref new h w z hmr hmn hz hc h1 h2 h3 h4 (plusImg ref.interped _) (plusImg new.interped _) hr hn i j
  · simp only [hl]
    have := hX.linear ((diffOf env ⟨false, false, it⟩ ref new ref.interped new.interped).px p.1 p.2).re
      (diffKernel env it ref new h w p)
    have e : ∑ q, diffKernel env it ref new h w p q ^ 2 * pairNoise ref new q ^ 2 = 1 := by
      rw [← if_pos (c := p = p) (t := (1 : ℝ)) (e := 0) rfl, ← hw p p]
      exact Finset.sum_congr rfl fun q _ => by ring
    rwa [e, Real.toNNReal_one] at this
  · simp only [hl]
    refine hX.independent _ (diffKernel env it ref new h w) fun p p' hp => ?_
    rw [hw, if_neg hp]

/-- C179: the rate of false alarms. If the noiseless D is zero at every pixel, the probability that no pixel of D exceeds `t`
is that of one standard Gaussian, to the power of the number of pixels. -/
theorem false_alarms (h0 : ∀ i < h, ∀ j < w, (diffOf env ⟨false, false, it⟩ ref new ref.interped new.interped).px i j = 0) (t : ℝ) :
    P {ω | ∀ i < h, ∀ j < w, ((noisyDiff env it ref new h w fun q => X q ω).px i j).re ≤ t} =
      gaussianReal 0 1 (Set.Iic t) ^ (h * w) := by
  obtain ⟨-, hl, hi⟩ := diff_gaussian env it ref new h w z hmr hmn hz hc hr hn h1 h2 h3 h4 hv hX
  have e : {ω | ∀ i < h, ∀ j < w, ((noisyDiff env it ref new h w fun q => X q ω).px i j).re ≤ t} =
      {ω | ∀ p : Fin h × Fin w, ((noisyDiff env it ref new h w fun q => X q ω).px p.1 p.2).re ≤ t} := by
    ext ω
    exact ⟨fun H p => H p.1 p.1.2 p.2 p.2.2, fun H i hi j hj => H (⟨i, hi⟩, ⟨j, hj⟩)⟩
  rw [e]
  refine none_exceeds _ 1 (fun p => ?_) hi t
  have hp := hl p
  rwa [h0 p.1 p.1.2 p.2 p.2.2, zero_re] at hp

/-- C179: any weighted sum of the pixels of D is Gaussian; its mean is that of the noiseless D, its variance the sum of the
squares of the weights. -/
theorem weighted_gaussian (a : Fin h × Fin w → ℝ) :
    HasLaw (fun ω => ∑ p, a p * ((noisyDiff env it ref new h w fun q => X q ω).px p.1 p.2).re)
      (gaussianReal (∑ p, a p * ((diffOf env ⟨false, false, it⟩ ref new ref.interped new.interped).px p.1 p.2).re)
        (∑ p, a p ^ 2).toNNReal) P := by
  have hw := diffKernel_white env it ref new h w z hmr hmn hz hc hr hn h1 h2 h3 h4 hv
  have hl := fun e p => noisyDiff_re env it ref new h w z hmr hmn hz hc hr hn e p
  have L := hX.linear (∑ p, a p * ((diffOf env ⟨false, false, it⟩ ref new ref.interped new.interped).px p.1 p.2).re)
    (fun q => ∑ p, a p * diffKernel env it ref new h w p q)
  have ev : ∑ q, (∑ p, a p * diffKernel env it ref new h w p q) ^ 2 * pairNoise ref new q ^ 2 = ∑ p, a p ^ 2 := by
    have e1 : ∀ q, (∑ p, a p * diffKernel env it ref new h w p q) ^ 2 * pairNoise ref new q ^ 2 =
        ∑ p, ∑ p', a p * a p' *
          (diffKernel env it ref new h w p q * diffKernel env it ref new h w p' q * pairNoise ref new q ^ 2) := by
      intro q
      rw [sq, Finset.sum_mul_sum, Finset.sum_mul]
      refine Finset.sum_congr rfl fun p _ => ?_
      rw [Finset.sum_mul]
      exact Finset.sum_congr rfl fun p' _ => by ring
    simp only [e1]
    rw [Finset.sum_comm]
    refine Finset.sum_congr rfl fun p _ => ?_
    rw [Finset.sum_comm]
    simp only [← Finset.mul_sum, hw]
    simp [sq]
  rw [ev] at L
  have ef : (fun ω => ∑ p, a p * ((noisyDiff env it ref new h w fun q => X q ω).px p.1 p.2).re) =
      fun ω => ∑ p, a p * ((diffOf env ⟨false, false, it⟩ ref new ref.interped new.interped).px p.1 p.2).re +
        ∑ q, (∑ p, a p * diffKernel env it ref new h w p q) * X q ω := by
    funext ω
    simp only [hl, mul_add, Finset.sum_add_distrib, Finset.sum_mul, Finset.mul_sum]
    congr 1
    rw [Finset.sum_comm]
    exact Finset.sum_congr rfl fun q _ => Finset.sum_congr rfl fun p _ => by ring
  rw [ef]
  exact L

end

/-! ## A new star -/

section
variable (env : SubEnv) (it : Bool) (ref new : SubImg) (h w : ℕ) (z : ℝ × ℝ)
    (hmr : ref.mask.HasShape h w) (hmn : new.mask.HasShape h w) (hz : env.zps = .ok z)
    (hc : env.fitted = true ∨ (0 ≤ (centerOfMass new.psf).1 ∧ 0 ≤ (centerOfMass new.psf).2))
    (hr : ref.interped.shape = (h, w)) (hn : new.interped.shape = (h, w))
    (p q : ℕ) (c : ℝ) (A B A' B' : ℤ) (hp : p < h) (hq : q < w)
    (gr : GuardIdle h w ref.psf) (gn : GuardIdle h w new.psf)
    (hA : centerOfMass ref.psf = ((A : ℝ), (B : ℝ))) (hA' : centerOfMass new.psf = ((A' : ℝ), (B' : ℝ)))
    (hb : z.2 / z.1 ≠ 0) (hv : ref.var ≠ 0 ∨ new.var ≠ 0)
include hmr hmn hz hc hr hn hb hv

/-- The squares of the PSF image that `subtract` returns, in the units of its flux, sum to the squared signal to noise ratio
of C156. -/
theorem psf_image_info : ∃ out, subtract env ⟨false, false, it⟩ ref new = .ok out ∧
    ∑ i ∈ range h, ∑ j ∈ range w, out.P.px i j ^ 2 =
      (ref.var ^ 2 * (z.2 / z.1) ^ 2 + new.var ^ 2) * diffInfo ref new (z.2 / z.1) h w := by
  obtain ⟨out, e, hD, hP, -⟩ := subtract_returns env it ref new h w hr hn hmr hmn z hz hc
  refine ⟨out, e, ?_⟩
  have rh : ref.h = h := congrArg Prod.fst hr
  have rw' : ref.w = w := congrArg Prod.snd hr
  have hh : new.h = ref.h := (congrArg Prod.fst hn).trans rh.symm
  have hw : new.w = ref.w := (congrArg Prod.snd hn).trans rw'.symm
  have hpos : 0 < ref.var ^ 2 * (z.2 / z.1) ^ 2 + new.var ^ 2 := by
    rcases hv with hv | hv
    · have : 0 < ref.var ^ 2 * (z.2 / z.1) ^ 2 := by positivity
      positivity
    · have : 0 < new.var ^ 2 := by positivity
      positivity
  have hv' : new.var ≠ 0 ∨ (ref.var ≠ 0 ∧ z.2 / z.1 ≠ 0) := hv.elim (fun h => .inr ⟨h, hb⟩) .inl
  have e1 : ∀ i j, out.P.px i j ^ 2 = normSq ((ifftOrtho ⟨h, w, (pHat ref new (z.2 / z.1)).px⟩).px i j) := by
    intro i j
    have k := subtract_P_real ref new hh hw (z.2 / z.1) i j
    have e2 : (⟨h, w, (pHat ref new (z.2 / z.1)).px⟩ : Img ℂ) = pHat ref new (z.2 / z.1) := by
      rw [← rh, ← rw']; rfl
    rw [e2, ← k, normSq_ofReal, hP, sq]
  simp only [e1]
  rw [ifftOrtho_power, diffInfo, Finset.mul_sum]
  refine Finset.sum_congr rfl fun k _ => ?_
  rw [Finset.mul_sum]
  refine Finset.sum_congr rfl fun l _ => ?_
  obtain ⟨_, _, r, hr1, hr2⟩ := subtract_norm_pos ref new (z.2 / z.1) k l hv'
  rw [normHat_eq] at hr2
  have hr3 : normReal ref new (z.2 / z.1) k l = r := by exact_mod_cast hr2
  have g := congrArg normSq (pHat_eq ref new z hb hv k l)
  rw [normSq_div, normSq_mul, normSq_mul, normSq_ofReal, normSq_ofReal, Real.mul_self_sqrt (hr3 ▸ hr1.le),
    div_mul_div_comm, one_mul, Real.mul_self_sqrt hpos.le] at g
  rw [g, ← mul_assoc, mul_one_div, div_self hpos.ne', one_mul]

omit hmr hmn hz hc hr hn in
theorem diff_info_pos (h0 : h ≠ 0) (w0 : w ≠ 0) : 0 < diffInfo ref new (z.2 / z.1) h w := by
  have hv' : new.var ≠ 0 ∨ (ref.var ≠ 0 ∧ z.2 / z.1 ≠ 0) := hv.elim (fun h => .inr ⟨h, hb⟩) .inl
  refine Finset.sum_pos (fun k _ => Finset.sum_pos (fun l _ => ?_) (Finset.nonempty_range_iff.2 w0))
    (Finset.nonempty_range_iff.2 h0)
  obtain ⟨_, _, r, hr1, hr2⟩ := subtract_norm_pos ref new (z.2 / z.1) k l hv'
  rw [normHat_eq] at hr2
  have hr3 : normReal ref new (z.2 / z.1) k l = r := by exact_mod_cast hr2
  exact div_pos (mul_pos (psf_power_pos ref k l) (psf_power_pos new k l)) (hr3 ▸ hr1)

/-- The statistic of C156: D summed against the PSF image centred on the star, in units of the flux. -/
noncomputable def starSum (h w : ℕ) (V : ℝ) (Pim : Img ℝ) (D : Img ℂ) (s t : ℤ) : ℝ :=
  ∑ p : Fin h × Fin w, 1 / Real.sqrt V * Pim.px (backBy h s p.1) (backBy w t p.2) * (D.px p.1 p.2).re

variable {X : Bool × Fin h × Fin w → Ω → ℝ} (hX : GaussErrors P X (pairNoise ref new))
include hX hp hq gr gn hA hA'

/-- C179: a new star of flux `c` on a sky that leaves no trace in D. The statistic of C156 is Gaussian; its variance is the
squared signal to noise ratio `I` of C156, its mean `c` times that. -/
theorem star_gaussian
    (h0 : ∀ i < h, ∀ j < w, (diffOf env ⟨false, false, it⟩ ref new ref.interped new.interped).px i j = 0) :
    ∃ out, subtract env ⟨false, false, it⟩ ref new = .ok out ∧
      HasLaw (fun ω => starSum h w (ref.var ^ 2 * (z.2 / z.1) ^ 2 + new.var ^ 2) out.P
          (noisyDiff env it ref (new.withPixels (plusImg new.interped (starAt h w new.psf p q c))) h w fun q => X q ω)
          (p - A) (q - B))
        (gaussianReal (c * diffInfo ref new (z.2 / z.1) h w) (diffInfo ref new (z.2 / z.1) h w).toNNReal) P := by
  obtain ⟨out, e, hI⟩ := psf_image_info env it ref new h w z hmr hmn hz hc hr hn hb hv
  refine ⟨out, e, ?_⟩
  obtain ⟨out', e', hs⟩ := subtract_star_new env it ref new h w z hmr hmn hz hc hr hn p q c A B hp hq gr gn hA hb hv
  rw [e] at e'
  cases e'
  have hpos : 0 < ref.var ^ 2 * (z.2 / z.1) ^ 2 + new.var ^ 2 := by
    rcases hv with hv | hv
    · have : 0 < ref.var ^ 2 * (z.2 / z.1) ^ 2 := by positivity
      positivity
    · have : 0 < new.var ^ 2 := by positivity
      positivity
  have hv' : new.var ≠ 0 ∨ (ref.var ≠ 0 ∧ z.2 / z.1 ≠ 0) := hv.elim (fun h => .inr ⟨h, hb⟩) .inl
  have hD0 : ∀ i < h, ∀ j < w, out.D.px i j = 0 := by
    intro i hi j hj
    rw [← h0 i hi j hj]
    unfold diffOf
    rw [show subtract env ⟨false, false, it⟩ (ref.withPixels ref.interped) (new.withPixels new.interped) = .ok out from e]
  have L := weighted_gaussian env it ref (new.withPixels (plusImg new.interped (starAt h w new.psf p q c))) h w z hmr hmn hz hc
    hr hn (Or.inr ⟨A, by rw [hA]⟩) (Or.inr ⟨B, by rw [hA]⟩) (Or.inr ⟨A', by change (centerOfMass new.psf).1 = _; rw [hA']⟩)
    (Or.inr ⟨B', by change (centerOfMass new.psf).2 = _; rw [hA']⟩) hv' (X := X) hX
    (fun k => 1 / Real.sqrt (ref.var ^ 2 * (z.2 / z.1) ^ 2 + new.var ^ 2) *
      out.P.px (backBy h (p - A) k.1) (backBy w (q - B) k.2))
  have hroll : ∑ k : Fin h × Fin w, out.P.px (backBy h (p - A) k.1) (backBy w (q - B) k.2) ^ 2 =
      (ref.var ^ 2 * (z.2 / z.1) ^ 2 + new.var ^ 2) * diffInfo ref new (z.2 / z.1) h w := by
    rw [← hI, ← sum_pixels h w fun i j => out.P.px (backBy h (p - A) i) (backBy w (q - B) j) ^ 2,
      sum_backBy h (p - A) fun i => ∑ j ∈ range w, out.P.px i (backBy w (q - B) j) ^ 2]
    exact Finset.sum_congr rfl fun i _ => sum_backBy w (q - B) fun j => out.P.px i j ^ 2
  generalize ref.var ^ 2 * (z.2 / z.1) ^ 2 + new.var ^ 2 = V at *
  have sq' : Real.sqrt V * Real.sqrt V = V := Real.mul_self_sqrt hpos.le
  have hs0 : Real.sqrt V ≠ 0 := (Real.sqrt_pos.2 hpos).ne'
  have m : ∑ k : Fin h × Fin w, 1 / Real.sqrt V * out.P.px (backBy h (p - A) k.1) (backBy w (q - B) k.2) *
      ((diffOf env ⟨false, false, it⟩ ref (new.withPixels (plusImg new.interped (starAt h w new.psf p q c))) ref.interped
        (new.withPixels (plusImg new.interped (starAt h w new.psf p q c))).interped).px k.1 k.2).re =
      c * diffInfo ref new (z.2 / z.1) h w := by
    have : ∀ k : Fin h × Fin w, 1 / Real.sqrt V * out.P.px (backBy h (p - A) k.1) (backBy w (q - B) k.2) *
        ((diffOf env ⟨false, false, it⟩ ref (new.withPixels (plusImg new.interped (starAt h w new.psf p q c))) ref.interped
          (new.withPixels (plusImg new.interped (starAt h w new.psf p q c))).interped).px k.1 k.2).re =
        c / V * out.P.px (backBy h (p - A) k.1) (backBy w (q - B) k.2) ^ 2 := by
      intro k
      have := hs k.1 k.1.2 k.2 k.2.2
      rw [hD0 k.1 k.1.2 k.2 k.2.2, zero_re, zero_add] at this
      change _ * ((diffOf env ⟨false, false, it⟩ ref new ref.interped
        (plusImg new.interped (starAt h w new.psf p q c))).px k.1 k.2).re = _
      rw [this]
      change _ * (_ * out.P.px (backBy h (p - A) k.1) (backBy w (q - B) k.2)) = _
      rw [show c / V = c / (Real.sqrt V * Real.sqrt V) from by rw [sq']]
      field_simp
    rw [Finset.sum_congr rfl fun k _ => this k, ← Finset.mul_sum, hroll, ← mul_assoc, div_mul_cancel₀ _ hpos.ne']
  have v : ∑ k : Fin h × Fin w, (1 / Real.sqrt V * out.P.px (backBy h (p - A) k.1) (backBy w (q - B) k.2)) ^ 2 =
      diffInfo ref new (z.2 / z.1) h w := by
    simp only [mul_pow]
    rw [← Finset.mul_sum, hroll, div_pow, one_pow, Real.sq_sqrt hpos.le, ← mul_assoc,
      div_mul_cancel₀ _ hpos.ne', one_mul]
  rw [m, v] at L
  exact L

/-- C179: so the star exceeds `t` times the noise with the probability that a standard Gaussian exceeds `t` less the star's
signal to noise ratio. -/
theorem star_detected
    (h0 : ∀ i < h, ∀ j < w, (diffOf env ⟨false, false, it⟩ ref new ref.interped new.interped).px i j = 0) (t : ℝ) :
    ∃ out, subtract env ⟨false, false, it⟩ ref new = .ok out ∧
      P {ω | t * Real.sqrt (diffInfo ref new (z.2 / z.1) h w) <
          starSum h w (ref.var ^ 2 * (z.2 / z.1) ^ 2 + new.var ^ 2) out.P
            (noisyDiff env it ref (new.withPixels (plusImg new.interped (starAt h w new.psf p q c))) h w fun q => X q ω)
            (p - A) (q - B)} =
        gaussianReal 0 1 (Set.Ioi (t - c * Real.sqrt (diffInfo ref new (z.2 / z.1) h w))) := by
  obtain ⟨out, e, L⟩ := star_gaussian env it ref new h w z hmr hmn hz hc hr hn p q c A B A' B' hp hq gr gn hA hA' hb hv hX h0
  refine ⟨out, e, ?_⟩
  have hI := diff_info_pos ref new h w z hb hv (by omega) (by omega)
  generalize diffInfo ref new (z.2 / z.1) h w = I at *
  generalize hT : (fun ω => starSum h w (ref.var ^ 2 * (z.2 / z.1) ^ 2 + new.var ^ 2) out.P
            (noisyDiff env it ref (new.withPixels (plusImg new.interped (starAt h w new.psf p q c))) h w fun q => X q ω)
            (p - A) (q - B)) = T at L
  have hs := Real.sqrt_pos.2 hI
  have L2 := gaussianReal_div_const (gaussianReal_sub_const L (c * I)) (Real.sqrt I)
  have e2 : I.toNNReal / NNReal.mk (Real.sqrt I ^ 2) (sq_nonneg _) = 1 := by
    ext
    rw [NNReal.coe_div, NNReal.coe_mk, Real.sq_sqrt hI.le, Real.coe_toNNReal _ hI.le, div_self hI.ne', NNReal.coe_one]
  rw [sub_self, zero_div, e2] at L2
  rw [← L2.map_eq, Measure.map_apply_of_aemeasurable L2.aemeasurable measurableSet_Ioi]
  congr 1
  ext ω
  have := congrFun hT ω
  simp only [Set.mem_ofPred_eq, Set.mem_preimage, Set.mem_Ioi]
  rw [this, lt_div_iff₀ hs, sub_mul, mul_assoc, Real.mul_self_sqrt hI.le, sub_lt_sub_iff_right]

end

/-! ## coadd -/

/-- A filter whose transfer function is that of a real one responds to a pixel with real values. -/
theorem impulseResp_im (h w : ℕ) (G : ℕ → ℕ → ℂ)
    (hG : ∀ k < h, ∀ l < w, G (negIdx h k) (negIdx w l) = (starRingEnd ℂ) (G k l)) (i j a b : ℕ) (ha : a < h) (hb : b < w) :
    (impulseResp h w G i j a b).im = 0 := by
  let x : Img ℝ := bump ⟨h, w, fun _ _ => 0⟩ a b 1
  have f := filter_eq (toC x) G i j
  have r := ifftOrtho_real ⟨h, w, fun k l => G k l * (fftOrtho (toC x)).px k l⟩ (by
    intro k hk l hl
    change G (negIdx h k) (negIdx w l) * (fftOrtho (toC x)).px (negIdx h k) (negIdx w l) = _
    rw [map_mul, hG k hk l hl]
    congr 1
    exact hermitian_fftOrtho (toC x) (fun i _ j _ => conj_ofReal _) k hk l hl) i j
  have s := sum_bump h w ⟨h, w, fun _ _ => 0⟩ a b ha hb (fun a b => impulseResp h w G i j a b)
  change (ifftOrtho ⟨h, w, fun k l => G k l * (fftOrtho (toC x)).px k l⟩).px i j = _ at f
  rw [f] at r
  change (∑ a' ∈ range h, ∑ b' ∈ range w, ((x.px a' b' : ℝ) : ℂ) * impulseResp h w G i j a' b').im = 0 at r
  rw [s] at r
  simpa using r

section
variable (lt : List CoImg → List CoImg → Option Bool) {n : ℕ} (hn : 0 < n)
    (d : Fin n → SinglePsf) (h w psfShape : ℕ) (procs : ℤ)
    (hs : ∀ j, (d j).interped.h = h ∧ (d j).interped.w = w ∧ (d j).mask.HasShape h w)
    (hp : procs ≤ n) (hp' : procs ≤ 2 ^ 25) (hb : procs * n ≤ 2 ^ 50)
    (ψ : Fin n → Img ℝ) (hψ : ∀ m, (d m).psf = toC (ψ m)) (A B : Fin n → ℤ)
    (hc : ∀ m, (d m).com = ((A m : ℝ), (B m : ℝ)))
    (x : Fin n → Img ℝ) (hx : ∀ m, (x m).h = h ∧ (x m).w = w)

/-- R of exposures of the sky `x` with the errors `e` added to their pixels. -/
noncomputable def noisyCoadd (e : Fin n × Fin h × Fin w → ℝ) : Img ℂ :=
  coaddOf lt d psfShape procs fun m => toC (plusImg (x m) (errImg fun p => e (m, p)))

/-- The noise level of each pixel. -/
def nightNoise {n h w : ℕ} (d : Fin n → SinglePsf) (q : Fin n × Fin h × Fin w) : ℝ := (d q.1).var

/-- The change of pixel `p` of R per unit of error. -/
noncomputable def coaddKernel (p : Fin h × Fin w) (q : Fin n × Fin h × Fin w) : ℝ :=
  (impulseResp h w (gainCoadd d h w q.1) p.1 p.2 q.2.1 q.2.2).re

include hn hs hp hp' hb hψ hc hx

theorem noisyCoadd_px (e : Fin n × Fin h × Fin w → ℝ) (p : Fin h × Fin w) :
    (noisyCoadd lt d h w psfShape procs x e).px p.1 p.2 =
      (((((coaddOf lt d psfShape procs fun m => toC (x m)).px p.1 p.2).re + ∑ q, coaddKernel d h w p q * e q : ℝ)) : ℂ) := by
  have im : ∀ m (q : Fin h × Fin w), impulseResp h w (gainCoadd d h w m) p.1 p.2 q.1 q.2 =
      ((coaddKernel d h w p (m, q) : ℝ) : ℂ) := by
    intro m q
    have := impulseResp_im h w (gainCoadd d h w m)
      (fun k hk l hl => gainCoadd_hermitian d h w hs ψ hψ A B hc m k l hk hl) p.1 p.2 q.1 q.2 q.1.2 q.2.2
    exact Complex.ext (by simp [coaddKernel]) (by simp [this])
  have c0 : ∀ y : Fin n → Img ℝ, (∀ m, (y m).h = h ∧ (y m).w = w) →
      (coaddOf lt d psfShape procs fun m => toC (y m)).px p.1 p.2 =
        ((∑ m, ∑ q : Fin h × Fin w, (y m).px q.1 q.2 * coaddKernel d h w p (m, q) : ℝ) : ℂ) := by
    intro y hy
    rw [coaddOf_eq lt hn d h w psfShape procs hs hp hp' hb (fun m => toC (y m)) hy, ofReal_sum]
    refine Finset.sum_congr rfl fun m _ => ?_
    rw [sum_pixels, ofReal_sum]
    refine Finset.sum_congr rfl fun q _ => ?_
    rw [im m q, ofReal_mul]
    rfl
  unfold noisyCoadd
  rw [c0 (fun m => plusImg (x m) (errImg fun p => e (m, p))) fun m => hx m, c0 x hx, ofReal_re, Fintype.sum_prod_type, ← Finset.sum_add_distrib]
  congr 1
  refine Finset.sum_congr rfl fun m _ => ?_
  rw [← Finset.sum_add_distrib]
  refine Finset.sum_congr rfl fun q _ => ?_
  change ((x m).px q.1 q.2 + (errImg fun p => e (m, p)).px q.1 q.2) * _ = _
  rw [errImg_px]
  ring

variable (hv : ∀ m, (d m).var ≠ 0) (hpow : ∀ k < h, ∀ l < w, powerAt d k l ≠ 0)
include hv hpow

omit hx in
theorem coaddKernel_white (p p' : Fin h × Fin w) :
    ∑ q, coaddKernel d h w p q * coaddKernel d h w p' q * nightNoise d q ^ 2 =
      if p = p' then 1 / ((h * w : ℕ) : ℝ) else 0 := by
  have k := coadd_noise_white (fun _ _ => none) hn d h w 1 procs hs hp hp' hb hv hpow p.1 p.2 p'.1 p'.2 p.1.2 p.2.2
    p'.1.2 p'.2.2
  have im : ∀ m (p q : Fin h × Fin w), respCoadd (fun _ _ => none) d 1 procs m p.1 p.2 q.1 q.2 =
      ((coaddKernel d h w p (m, q) : ℝ) : ℂ) := by
    intro m p q
    have := impulseResp_im h w (gainCoadd d h w m)
      (fun k hk l hl => gainCoadd_hermitian d h w hs ψ hψ A B hc m k l hk hl) p.1 p.2 q.1 q.2 q.1.2 q.2.2
    rw [respCoadd_eq _ hn d h w 1 procs hs hp hp' hb m _ _ _ _ q.1.2 q.2.2]
    exact Complex.ext (by simp [coaddKernel]) (by simp [this])
  have e : (if (p.1 : ℕ) = p'.1 ∧ (p.2 : ℕ) = p'.2 then 1 / ((h * w : ℕ) : ℂ) else 0) =
      ((if p = p' then 1 / ((h * w : ℕ) : ℝ) else 0 : ℝ) : ℂ) := by
    have : p = p' ↔ (p.1 : ℕ) = p'.1 ∧ (p.2 : ℕ) = p'.2 := by rw [Prod.ext_iff, Fin.ext_iff, Fin.ext_iff]
    by_cases hp : p = p'
    · rw [if_pos hp, if_pos (this.1 hp)]
      push_cast
      rfl
    · rw [if_neg hp, if_neg fun h => hp (this.2 h), ofReal_zero]
  rw [e] at k
  rw [← ofReal_inj (z := _), ← k, Fintype.sum_prod_type, ofReal_sum]
  refine Finset.sum_congr rfl fun m _ => ?_
  rw [sum_pixels, Finset.mul_sum, ofReal_sum]
  refine Finset.sum_congr rfl fun q _ => ?_
  rw [im m p q, im m p' q, conj_ofReal, ← ofReal_mul, ← ofReal_mul]
  simp only [nightNoise]
  congr 1
  ring

variable {X : Fin n × Fin h × Fin w → Ω → ℝ} (hX : GaussErrors P X (nightNoise d))
include hX

/-- C179: the pixels of a coadd of exposures with independent Gaussian errors of the stated noise levels are real, independent
of each other, and Gaussian with variance `1 / (h w)` around the coadd of the sky. -/
theorem coadd_gaussian :
    (∀ ω, ∀ i < h, ∀ j < w, ((noisyCoadd lt d h w psfShape procs x fun q => X q ω).px i j).im = 0) ∧
    (∀ p : Fin h × Fin w, HasLaw (fun ω => ((noisyCoadd lt d h w psfShape procs x fun q => X q ω).px p.1 p.2).re)
      (gaussianReal ((coaddOf lt d psfShape procs fun m => toC (x m)).px p.1 p.2).re
        (1 / ((h * w : ℕ) : ℝ)).toNNReal) P) ∧
    iIndepFun (fun (p : Fin h × Fin w) ω => ((noisyCoadd lt d h w psfShape procs x fun q => X q ω).px p.1 p.2).re) P := by
  have hw := coaddKernel_white hn d h w procs hs hp hp' hb ψ hψ A B hc hv hpow
  have hl := fun e p => noisyCoadd_px lt hn d h w psfShape procs hs hp hp' hb ψ hψ A B hc x hx e p
  refine ⟨fun ω i hi j hj => ?_, fun p => ?_, ?_⟩
  · have := hl (fun q => X q ω) (⟨i, hi⟩, ⟨j, hj⟩)
    simp only at this
    rw [this, ofReal_im]
  · simp only [hl, ofReal_re]
    have := hX.linear ((coaddOf lt d psfShape procs fun m => toC (x m)).px p.1 p.2).re (coaddKernel d h w p)
    have e : ∑ q, coaddKernel d h w p q ^ 2 * nightNoise d q ^ 2 = 1 / ((h * w : ℕ) : ℝ) := by
      rw [← if_pos (c := p = p) (t := 1 / ((h * w : ℕ) : ℝ)) (e := 0) rfl, ← hw p p]
      exact Finset.sum_congr rfl fun q _ => by ring
    rwa [e] at this
  · simp only [hl, ofReal_re]
    refine hX.independent _ (coaddKernel d h w) fun p p' hp => ?_
    rw [hw, if_neg hp]

/-- C179: on an empty sky no pixel of the coadd exceeds `t` with the probability of one such Gaussian to the power of the
number of pixels. -/
theorem coadd_false_alarms (h0 : ∀ i < h, ∀ j < w, (coaddOf lt d psfShape procs fun m => toC (x m)).px i j = 0) (t : ℝ) :
    P {ω | ∀ i < h, ∀ j < w, ((noisyCoadd lt d h w psfShape procs x fun q => X q ω).px i j).re ≤ t} =
      gaussianReal 0 (1 / ((h * w : ℕ) : ℝ)).toNNReal (Set.Iic t) ^ (h * w) := by
  obtain ⟨-, hl, hi⟩ := coadd_gaussian lt hn d h w psfShape procs hs hp hp' hb ψ hψ A B hc x hx hv hpow hX
  have e : {ω | ∀ i < h, ∀ j < w, ((noisyCoadd lt d h w psfShape procs x fun q => X q ω).px i j).re ≤ t} =
      {ω | ∀ p : Fin h × Fin w, ((noisyCoadd lt d h w psfShape procs x fun q => X q ω).px p.1 p.2).re ≤ t} := by
    ext ω
    exact ⟨fun H p => H p.1 p.1.2 p.2 p.2.2, fun H i hi j hj => H (⟨i, hi⟩, ⟨j, hj⟩)⟩
  rw [e]
  refine none_exceeds _ _ (fun p => ?_) hi t
  have hp := hl p
  rwa [h0 p.1 p.1.2 p.2 p.2.2, zero_re] at hp

end

/-! ## Worked instances -/

/-- There are such errors, for any noise levels. -/
theorem gauss_errors_exist {ι : Type} [Fintype ι] (s : ι → ℝ) :
    GaussErrors (Measure.pi fun i => gaussianReal 0 ((s i ^ 2).toNNReal)) (fun i (ω : ι → ℝ) => ω i) s where
  law i := ⟨(measurable_pi_apply i).aemeasurable, (measurePreserving_eval _ i).map_eq⟩
  indep := iIndepFun_pi (X := fun _ => id) fun _ => aemeasurable_id

/-- The same sky seen twice, with noise 1 and 2: a star of flux 5 appears in the last column of the second exposure. -/
example (t : ℝ) : ∃ out, subtract (tinyEnv 1 1) ⟨false, false, true⟩ (seeingSub 5 7 4 1) (seeingSub 5 7 4 2) = .ok out ∧
    (Measure.pi fun q : Bool × Fin 1 × Fin 3 =>
        gaussianReal 0 ((pairNoise (seeingSub 5 7 4 1) (seeingSub 5 7 4 2) q ^ 2).toNNReal))
      {ω | t * Real.sqrt (diffInfo (seeingSub 5 7 4 1) (seeingSub 5 7 4 2) (1 / 1) 1 3) <
        starSum 1 3 (1 ^ 2 * (1 / 1) ^ 2 + 2 ^ 2) out.P
          (noisyDiff (tinyEnv 1 1) true (seeingSub 5 7 4 1) ((seeingSub 5 7 4 2).withPixels
            (plusImg (seeingSub 5 7 4 2).interped (starAt 1 3 (seeingSub 5 7 4 2).psf 0 2 5))) 1 3 fun q => ω q)
          (((0 : ℕ) : ℤ) - 0) (((2 : ℕ) : ℤ) - 1)} =
      gaussianReal 0 1 (Set.Ioi (t - 5 * Real.sqrt (diffInfo (seeingSub 5 7 4 1) (seeingSub 5 7 4 2) (1 / 1) 1 3))) := by
  refine star_detected (tinyEnv 1 1) true (seeingSub 5 7 4 1) (seeingSub 5 7 4 2) 1 3 (1, 1)
    (by intro a h; cases h) (by intro a h; cases h) rfl (Or.inl rfl) rfl rfl 0 2 5 0 1 0 1 (by norm_num) (by norm_num)
    seeing_idle seeing_idle seeing_com seeing_com (by norm_num) (Or.inl (by norm_num [seeingSub]))
    (gauss_errors_exist _) (fun i _ j _ => ?_) t
  obtain ⟨out, e, k, _⟩ := subtract_self_zero (tinyEnv 1 1) true (seeingSub 5 7 4 1) (seeingSub 5 7 4 2) 1 3 rfl rfl rfl
    (by intro a h; cases h) (by intro a h; cases h) 1 (by norm_num) rfl (Or.inl rfl)
  unfold diffOf
  rw [show subtract (tinyEnv 1 1) ⟨false, false, true⟩ ((seeingSub 5 7 4 1).withPixels (seeingSub 5 7 4 1).interped)
    ((seeingSub 5 7 4 2).withPixels (seeingSub 5 7 4 2).interped) = .ok out from e]
  exact k i j

/-- Two exposures of an empty sky of nine pixels, coadded. -/
example (lt : List CoImg → List CoImg → Option Bool) (t : ℝ) :
    (Measure.pi fun q : Fin 2 × Fin 3 × Fin 3 => gaussianReal 0 ((nightNoise demoNight q ^ 2).toNNReal))
      {ω | ∀ i < 3, ∀ j < 3,
        ((noisyCoadd lt demoNight 3 3 1 2 (fun _ => ⟨3, 3, fun _ _ => 0⟩) fun q => ω q).px i j).re ≤ t} =
      gaussianReal 0 (1 / ((3 * 3 : ℕ) : ℝ)).toNNReal (Set.Iic t) ^ (3 * 3) := by
  have hs : ∀ j, (demoNight j).interped.h = 3 ∧ (demoNight j).interped.w = 3 ∧ (demoNight j).mask.HasShape 3 3 :=
    fun _ => ⟨rfl, rfl, fun a q => by cases q⟩
  refine coadd_false_alarms lt (by norm_num) demoNight 3 3 1 2 hs (by norm_num) (by norm_num) (by norm_num)
    (fun _ => ⟨1, 1, fun _ _ => 1⟩) (fun _ => by simp [demoNight, toC, Img.map]) (fun _ => 0) (fun _ => 0)
    (fun _ => by simp [demoNight]) _ (fun _ => ⟨rfl, rfl⟩) (fun _ => by norm_num [demoNight])
    (fun k _ l _ => (demoNight_power k l).ne') (gauss_errors_exist _) (fun i _ j _ => ?_) t
  rw [coaddOf_eq lt (by norm_num) demoNight 3 3 1 2 hs (by norm_num) (by norm_num) (by norm_num)
    (fun _ => toC ⟨3, 3, fun _ _ => 0⟩) (fun _ => ⟨rfl, rfl⟩)]
  simp [toC, Img.map]

end PI
