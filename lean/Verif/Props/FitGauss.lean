import Verif.Model.FitGauss
import Verif.Props.GaussPsf
import Verif.Props.SimImage

/-!
# Property C149: where `fit_gaussian2d` starts and what it minimises

Specification vocabulary: `Brightest`/`Faintest` pixel of an array, `roundStart`, the round Gaussian of
unit width from which every fit starts, and the symmetries `GaussFit.swap`, `GaussFit.mirror` and
`GaussFit.units` of a fitted model. The contracts of a fitter are `NeverWorse` (a descent method returns no
model worse than the one it starts from) and `KeepsExact` (it stops at once if the start is exact).
-/

namespace PI

open Real

/-- The faintest pixel of an array. -/
def Faintest (im : Img ℝ) (b : ℝ) : Prop :=
  (∀ i < im.h, ∀ j < im.w, b ≤ im.px i j) ∧ ∃ i < im.h, ∃ j < im.w, im.px i j = b

theorem npMin_ok (a : Img ℝ) (h : a.h * a.w ≠ 0) : ∃ b, npMin a = .ok b ∧ Faintest a b := by
  have hne : (Finset.range a.h ×ˢ Finset.range a.w).Nonempty := by
    refine ⟨(0, 0), ?_⟩
    rw [Finset.mem_product, Finset.mem_range, Finset.mem_range]
    exact ⟨Nat.pos_of_ne_zero (fun e => h (by simp [e])), Nat.pos_of_ne_zero (fun e => h (by simp [e]))⟩
  refine ⟨_, dif_pos hne, fun i hi j hj => ?_, ?_⟩
  · exact Finset.inf'_le (fun p : ℕ × ℕ => a.px p.1 p.2)
      (Finset.mem_product.mpr ⟨Finset.mem_range.mpr hi, Finset.mem_range.mpr hj⟩ : (i, j) ∈ _)
  · obtain ⟨q, hq, e⟩ := Finset.exists_mem_eq_inf' hne fun p : ℕ × ℕ => a.px p.1 p.2
    rw [Finset.mem_product, Finset.mem_range, Finset.mem_range] at hq
    exact ⟨q.1, hq.1, q.2, hq.2, e.symm⟩

theorem Brightest.unique {a : Img ℝ} {b c : ℝ} (hb : Brightest a b) (hc : Brightest a c) : b = c := by
  obtain ⟨i, hi, j, hj, e⟩ := hb.2
  obtain ⟨k, hk, l, hl, e'⟩ := hc.2
  exact le_antisymm (e ▸ hc.1 i hi j hj) (e' ▸ hb.1 k hk l hl)

theorem Faintest.unique {a : Img ℝ} {b c : ℝ} (hb : Faintest a b) (hc : Faintest a c) : b = c := by
  obtain ⟨i, hi, j, hj, e⟩ := hb.2
  obtain ⟨k, hk, l, hl, e'⟩ := hc.2
  exact le_antisymm (e' ▸ hb.1 k hk l hl) (e ▸ hc.1 i hi j hj)

theorem Faintest.le {a : Img ℝ} {m b : ℝ} (hm : Faintest a m) (hb : Brightest a b) : m ≤ b := by
  obtain ⟨i, hi, j, hj, e⟩ := hb.2
  exact e ▸ hm.1 i hi j hj

/-- The start of every fit to an array of shape `h × w` whose pixels reach from `mn` to `mx`. -/
noncomputable def roundStart (h w : ℕ) (mx mn : ℝ) : GaussFit :=
  ⟨mx - mn, (w : ℝ) / 2, (h : ℝ) / 2, ⟨1, 1, π / 4⟩, mn⟩

/-- C149: the fit of any array with pixels starts from `roundStart` of its brightest and faintest
pixel; an array without pixels raises ValueError. -/
theorem fit_starts (fit : GaussFit → Img ℝ → GaussFit) (a : Img ℝ) :
    (a.h * a.w = 0 → fitGaussian2d fit a = .error .ValueError) ∧
      ∀ mx mn, Brightest a mx → Faintest a mn →
        fitGaussian2d fit a = .ok (fit (roundStart a.h a.w mx mn) a) := by
  constructor
  · intro h
    have hne : ¬ (Finset.range a.h ×ˢ Finset.range a.w).Nonempty := by
      rw [Finset.nonempty_product, Finset.nonempty_range_iff, Finset.nonempty_range_iff]
      rintro ⟨h1, h2⟩
      exact (Nat.mul_ne_zero h1 h2) h
    unfold fitGaussian2d npMax
    rw [dif_neg hne]
    rfl
  · intro mx mn hM hm
    obtain ⟨i, hi, j, hj, -⟩ := hM.2
    have h0 : a.h * a.w ≠ 0 := Nat.mul_ne_zero (by omega) (by omega)
    obtain ⟨b, hb, hb'⟩ := npMax_ok a h0
    obtain ⟨c, hc, hc'⟩ := npMin_ok a h0
    rw [Brightest.unique hM hb', Faintest.unique hm hc']
    unfold fitGaussian2d
    rw [hb, hc]
    rfl

/-- C149: the start is round, of width one pixel, and centred at column `w/2` and row `h/2`. -/
theorem start_val (h w : ℕ) (mx mn x y : ℝ) :
    (roundStart h w mx mn).val x y =
      mn + (mx - mn) * exp (-(((x - w / 2) ^ 2 + (y - h / 2) ^ 2) / 2)) := by
  unfold GaussFit.val roundStart
  rw [gaussVal_eq]
  unfold ellipse
  have t := sin_sq_add_cos_sq (π / 4)
  simp only
  rw [add_comm]
  congr 4
  linear_combination (((x - w / 2) ^ 2 + (y - h / 2) ^ 2) / 2) * t

/-- C149: everywhere, the start lies between the faintest and the brightest pixel. -/
theorem start_between (h w : ℕ) (mx mn : ℝ) (hle : mn ≤ mx) (x y : ℝ) :
    mn ≤ (roundStart h w mx mn).val x y ∧ (roundStart h w mx mn).val x y ≤ mx := by
  rw [start_val]
  have e0 := exp_pos (-(((x - w / 2) ^ 2 + (y - h / 2) ^ 2) / 2))
  have e1 : exp (-(((x - w / 2) ^ 2 + (y - h / 2) ^ 2) / 2)) ≤ 1 := by
    rw [exp_le_one_iff]
    have : 0 ≤ ((x - w / 2) ^ 2 + (y - h / 2) ^ 2) / 2 := by positivity
    linarith
  generalize exp (-(((x - w / 2) ^ 2 + (y - h / 2) ^ 2) / 2)) = e at e0 e1
  constructor <;> nlinarith

theorem start_reaches (h w : ℕ) (mx mn : ℝ) (hlt : mn < mx) (x y : ℝ) :
    (roundStart h w mx mn).val x y = mx ↔ x = w / 2 ∧ y = h / 2 := by
  rw [start_val]
  have hd : mx - mn ≠ 0 := by linarith
  constructor
  · intro h1
    have h2 : (mx - mn) * (exp (-(((x - w / 2) ^ 2 + (y - h / 2) ^ 2) / 2)) - 1) = 0 := by linarith
    rcases mul_eq_zero.1 h2 with h3 | h3
    · exact absurd h3 hd
    · have h4 : -(((x - w / 2) ^ 2 + (y - h / 2) ^ 2) / 2) = 0 := by
        rw [← exp_eq_one_iff]; linarith
      have p1 := sq_nonneg (x - (w : ℝ) / 2)
      have p2 := sq_nonneg (y - (h : ℝ) / 2)
      have q1 : (x - (w : ℝ) / 2) ^ 2 = 0 := by linarith
      have q2 : (y - (h : ℝ) / 2) ^ 2 = 0 := by linarith
      rw [pow_eq_zero_iff two_ne_zero] at q1 q2
      exact ⟨by linarith, by linarith⟩
  · rintro ⟨rfl, rfl⟩
    simp

/-- C149: the start is as bright as the brightest pixel on some pixel exactly if both sides are even, and
then on pixel `(h/2, w/2)`; the default stamps are odd (C45), and the start never is. -/
theorem start_peak (h w : ℕ) (mx mn : ℝ) (hlt : mn < mx) (i j : ℕ) :
    (roundStart h w mx mn).val j i = mx ↔ 2 * i = h ∧ 2 * j = w := by
  rw [start_reaches h w mx mn hlt]
  constructor
  · rintro ⟨e1, e2⟩
    have f1 : (2 * j : ℝ) = w := by linarith
    have f2 : (2 * i : ℝ) = h := by linarith
    exact ⟨by exact_mod_cast f2, by exact_mod_cast f1⟩
  · rintro ⟨rfl, rfl⟩
    constructor <;> push_cast <;> ring

/-- C149: on a stamp with odd sides the start is off by half a pixel towards higher indices: four pixels
share its largest value, `exp(-1/4)` of the range above the faintest pixel. -/
theorem start_off_centre (k l : ℕ) (mx mn : ℝ) (a b : ℕ) (ha : a ≤ 1) (hb : b ≤ 1) :
    (roundStart (2 * k + 1) (2 * l + 1) mx mn).val ((l + b : ℕ) : ℝ) ((k + a : ℕ) : ℝ) =
      mn + (mx - mn) * exp (-(1 / 4)) := by
  rw [start_val]
  congr 3
  interval_cases a <;> interval_cases b <;> push_cast <;> ring

/-! ## What is minimised -/

/-- A fitter that never returns a model worse than its start. -/
def NeverWorse (fit : GaussFit → Img ℝ → GaussFit) : Prop := ∀ p a, fitCost (fit p a) a ≤ fitCost p a

/-- A fitter that stops at once if there is nothing to improve. -/
def KeepsExact (fit : GaussFit → Img ℝ → GaussFit) : Prop := ∀ p a, fitCost p a = 0 → fit p a = p

theorem fitCost_nonneg (p : GaussFit) (a : Img ℝ) : 0 ≤ fitCost p a :=
  Finset.sum_nonneg fun _ _ => Finset.sum_nonneg fun _ _ => sq_nonneg _

/-- C149: what is minimised is zero exactly for the models that agree with every pixel, `x` counting the
columns and `y` the rows. -/
theorem fitCost_zero (p : GaussFit) (a : Img ℝ) :
    fitCost p a = 0 ↔ ∀ i < a.h, ∀ j < a.w,
      p.amp * exp (-(ellipse p.g (j - p.x0) (i - p.y0))) + p.back = a.px i j := by
  unfold fitCost
  rw [Finset.sum_eq_zero_iff_of_nonneg fun _ _ => Finset.sum_nonneg fun _ _ => sq_nonneg _]
  constructor
  · intro h i hi j hj
    have h1 := h i (Finset.mem_range.2 hi)
    rw [Finset.sum_eq_zero_iff_of_nonneg fun _ _ => sq_nonneg _] at h1
    have h2 := h1 j (Finset.mem_range.2 hj)
    rw [pow_eq_zero_iff two_ne_zero] at h2
    unfold GaussFit.val at h2
    rw [gaussVal_eq] at h2
    linarith
  · intro h i hi
    refine Finset.sum_eq_zero fun j hj => ?_
    have h1 := h i (Finset.mem_range.1 hi) j (Finset.mem_range.1 hj)
    unfold GaussFit.val
    rw [gaussVal_eq, h1]
    ring

/-- C149: with a fitter that is never worse than its start, the mean squared residual of the result is at
most the squared range of the pixels, for every array. -/
theorem fit_residual (fit : GaussFit → Img ℝ → GaussFit) (hf : NeverWorse fit) (a : Img ℝ) (mx mn : ℝ)
    (hM : Brightest a mx) (hm : Faintest a mn) :
    ∃ p, fitGaussian2d fit a = .ok p ∧ fitCost p a ≤ a.h * a.w * (mx - mn) ^ 2 := by
  refine ⟨_, (fit_starts fit a).2 mx mn hM hm, (hf _ _).trans ?_⟩
  have hle := hm.le hM
  unfold fitCost
  calc ∑ i ∈ Finset.range a.h, ∑ j ∈ Finset.range a.w, ((roundStart a.h a.w mx mn).val j i - a.px i j) ^ 2
      ≤ ∑ _i ∈ Finset.range a.h, ∑ _j ∈ Finset.range a.w, (mx - mn) ^ 2 := by
        refine Finset.sum_le_sum fun i hi => Finset.sum_le_sum fun j hj => ?_
        have b := start_between a.h a.w mx mn hle j i
        have c := hM.1 i (Finset.mem_range.1 hi) j (Finset.mem_range.1 hj)
        have d := hm.1 i (Finset.mem_range.1 hi) j (Finset.mem_range.1 hj)
        exact sq_le_sq' (by linarith) (by linarith)
    _ = _ := by
        simp only [Finset.sum_const, Finset.card_range, nsmul_eq_mul]
        ring

/-- C149: the fit of a flat stamp starts at an exact model: whatever never-worse fitter is used, the result
is the flat stamp, and a fitter that stops there reports a Gaussian of amplitude zero and of width one pixel
at 45 degrees. -/
theorem fit_flat (fit : GaussFit → Img ℝ → GaussFit) (a : Img ℝ) (v : ℝ) (h0 : a.h * a.w ≠ 0)
    (ha : ∀ i < a.h, ∀ j < a.w, a.px i j = v) :
    (NeverWorse fit → ∃ p, fitGaussian2d fit a = .ok p ∧ fitCost p a = 0) ∧
      (KeepsExact fit → ∃ p, fitGaussian2d fit a = .ok p ∧ p.star = ⟨1, 1, π / 4, 0, v⟩) := by
  have hpos : 0 < a.h ∧ 0 < a.w :=
    ⟨Nat.pos_of_ne_zero fun e => h0 (by simp [e]), Nat.pos_of_ne_zero fun e => h0 (by simp [e])⟩
  have hM : Brightest a v := ⟨fun i hi j hj => (ha i hi j hj).le, 0, hpos.1, 0, hpos.2, ha 0 hpos.1 0 hpos.2⟩
  have hm : Faintest a v := ⟨fun i hi j hj => (ha i hi j hj).ge, 0, hpos.1, 0, hpos.2, ha 0 hpos.1 0 hpos.2⟩
  have hs : fitCost (roundStart a.h a.w v v) a = 0 := by
    rw [fitCost_zero]
    intro i hi j hj
    rw [ha i hi j hj]
    unfold roundStart
    simp
  refine ⟨fun hf => ⟨_, (fit_starts fit a).2 v v hM hm, ?_⟩, fun hf => ⟨_, (fit_starts fit a).2 v v hM hm, ?_⟩⟩
  · exact le_antisymm ((hf _ _).trans hs.le) (fitCost_nonneg _ _)
  · rw [hf _ _ hs]
    unfold GaussFit.star roundStart
    simp

/-! ## Symmetries -/

/-- The array with rows and columns exchanged. -/
def turned (a : Img ℝ) : Img ℝ := ⟨a.w, a.h, fun i j => a.px j i⟩

/-- The model with rows and columns exchanged. -/
noncomputable def GaussFit.swap (p : GaussFit) : GaussFit :=
  ⟨p.amp, p.y0, p.x0, ⟨p.g.sx, p.g.sy, π / 2 - p.g.theta⟩, p.back⟩

/-- The array with its columns in reverse order. -/
def mirrored (a : Img ℝ) : Img ℝ := ⟨a.h, a.w, fun i j => a.px i (a.w - 1 - j)⟩

/-- The model with the columns of a `w` pixels wide array in reverse order. -/
def GaussFit.mirror (w : ℕ) (p : GaussFit) : GaussFit :=
  ⟨p.amp, (w : ℝ) - 1 - p.x0, p.y0, ⟨p.g.sx, p.g.sy, -p.g.theta⟩, p.back⟩

/-- Other units and another zero level. -/
def inUnits (c k : ℝ) (a : Img ℝ) : Img ℝ := ⟨a.h, a.w, fun i j => c * a.px i j + k⟩

/-- The model in other units. -/
def GaussFit.units (c k : ℝ) (p : GaussFit) : GaussFit := ⟨c * p.amp, p.x0, p.y0, p.g, c * p.back + k⟩

theorem swap_val (p : GaussFit) (x y : ℝ) : p.swap.val x y = p.val y x := by
  unfold GaussFit.val GaussFit.swap
  rw [gaussVal_eq, gaussVal_eq]
  unfold ellipse
  simp only [cos_pi_div_two_sub, sin_pi_div_two_sub]
  congr 4
  ring

theorem mirror_val (w : ℕ) (p : GaussFit) (x y : ℝ) :
    (p.mirror w).val x y = p.val ((w : ℝ) - 1 - x) y := by
  unfold GaussFit.val GaussFit.mirror
  rw [gaussVal_eq, gaussVal_eq]
  unfold ellipse
  simp only [cos_neg, sin_neg]
  congr 4
  ring

theorem units_val (c k : ℝ) (p : GaussFit) (x y : ℝ) : (p.units c k).val x y = c * p.val x y + k := by
  unfold GaussFit.val GaussFit.units
  rw [gaussVal_eq, gaussVal_eq]
  ring

/-- C149: exchanging rows and columns of the stamp exchanges them in the problem: in what is minimised and
in the start. -/
theorem fit_swap (a : Img ℝ) (p : GaussFit) (h w : ℕ) (mx mn : ℝ) :
    fitCost p.swap (turned a) = fitCost p a ∧ (roundStart h w mx mn).swap = roundStart w h mx mn := by
  constructor
  · unfold fitCost turned
    simp only [swap_val]
    exact Finset.sum_comm
  · unfold roundStart GaussFit.swap
    simp only
    congr 2
    ring

/-- C149: other units (`c > 0`) and another sky level scale the problem: what is minimised by `c²`, and the
start with the pixels. -/
theorem fit_units (c k : ℝ) (a : Img ℝ) (p : GaussFit) (h w : ℕ) (mx mn : ℝ) :
    fitCost (p.units c k) (inUnits c k a) = c ^ 2 * fitCost p a ∧
      (roundStart h w mx mn).units c k = roundStart h w (c * mx + k) (c * mn + k) := by
  constructor
  · unfold fitCost inUnits
    simp only [units_val, Finset.mul_sum]
    refine Finset.sum_congr rfl fun i _ => Finset.sum_congr rfl fun j _ => ?_
    ring
  · unfold roundStart GaussFit.units
    simp only
    congr 1
    ring

/-- C149: with its columns in reverse order the stamp has the mirrored minimum, but the fit does not start
from the mirrored start: it starts one column further right. -/
theorem fit_mirror (a : Img ℝ) (p : GaussFit) (h w : ℕ) (mx mn : ℝ) :
    fitCost (p.mirror a.w) (mirrored a) = fitCost p a ∧
      (roundStart h w mx mn).x0 = ((roundStart h w mx mn).mirror w).x0 + 1 ∧
      (mn < mx → ∃ x y, (roundStart h w mx mn).val x y ≠ ((roundStart h w mx mn).mirror w).val x y) := by
  refine ⟨?_, ?_, fun hlt => ⟨(w : ℝ) / 2, (h : ℝ) / 2, ?_⟩⟩
  · unfold fitCost mirrored
    simp only [mirror_val]
    refine Finset.sum_congr rfl fun i _ => ?_
    rw [← Finset.sum_range_reflect]
    refine Finset.sum_congr rfl fun j hj => ?_
    have hj' := Finset.mem_range.1 hj
    have e1 : a.w - 1 - (a.w - 1 - j) = j := by omega
    have e2 : ((a.w : ℝ) - 1 - ((a.w - 1 - j : ℕ) : ℝ)) = j := by
      rw [Nat.cast_sub (by omega), Nat.cast_sub (by omega)]
      push_cast
      ring
    rw [e1, e2]
  · unfold roundStart GaussFit.mirror
    simp only
    ring
  · rw [mirror_val, (start_reaches h w mx mn hlt _ _).2 ⟨rfl, rfl⟩]
    intro e
    have := (start_reaches h w mx mn hlt _ _).1 e.symm
    linarith [this.1]

/-! ## What a flat stamp does to the PSF -/

/-- C149: among up to five stars, every flat stamp pulls the widths of the PSF towards one pixel. -/
theorem flat_stars_bias (il : Option ℝ) (stars flats : List StarFit) (v : ℝ)
    (h5 : stars.length + flats.length ≤ 5) (hf : ∀ f ∈ flats, f = ⟨1, 1, π / 4, 0, v⟩) :
    (meanModel il (stars ++ flats)).sx =
        ((stars.map (·.sx)).sum + flats.length) / (stars.length + flats.length) ∧
      (meanModel il (stars ++ flats)).sy =
        ((stars.map (·.sy)).sum + flats.length) / (stars.length + flats.length) := by
  have e : flats = List.replicate flats.length ⟨1, 1, π / 4, 0, v⟩ := List.eq_replicate_of_mem hf
  rw [meanModel_few il _ (by rw [List.length_append]; exact h5)]
  have s1 : (flats.map (·.sx)).sum = flats.length := by
    rw [e]; simp
  have s2 : (flats.map (·.sy)).sum = flats.length := by
    rw [e]; simp
  simp only [List.map_append, List.sum_append, List.length_append, s1, s2]
  push_cast
  exact ⟨rfl, rfl⟩

/-- C149: what the PSF takes of a fit: if all stars are fitted by one Gaussian, whatever their heights, places and sky
levels, it is the PSF, its widths along the same axes. -/
theorem fits_to_psf (il : Option ℝ) (ps : List GaussFit) (hne : ps ≠ []) (g : Gauss) (h : ∀ p ∈ ps, p.g = g) :
    meanModel il (ps.map GaussFit.star) = g := by
  refine meanModel_identical il _ (fun e => hne (List.map_eq_nil_iff.1 e)) g fun f hf => ?_
  obtain ⟨p, hp, rfl⟩ := List.mem_map.1 hf
  rw [← h p hp]
  rfl

/-- The contracts can be met, also together, and the hypotheses hold: a 3 x 3 stamp with one pixel of height one. -/
theorem fit_example :
    NeverWorse (fun p _ => p) ∧ KeepsExact (fun p _ => p) ∧
      (let a : Img ℝ := ⟨3, 3, fun i j => if i = 1 ∧ j = 1 then 1 else 0⟩
       Brightest a 1 ∧ Faintest a 0 ∧
        fitGaussian2d (fun p _ => p) a = .ok (roundStart 3 3 1 0) ∧
        (roundStart 3 3 1 0).val 1 1 = (roundStart 3 3 1 0).val 2 2) := by
  refine ⟨fun _ _ => le_rfl, fun _ _ _ => rfl, ?_⟩
  intro a
  have hM : Brightest a 1 := by
    refine ⟨fun i _ j _ => ?_, 1, by decide, 1, by decide, by simp [a]⟩
    simp only [a]
    split <;> norm_num
  have hm : Faintest a 0 := by
    refine ⟨fun i _ j _ => ?_, 0, by decide, 0, by decide, by simp [a]⟩
    simp only [a]
    split <;> norm_num
  refine ⟨hM, hm, (fit_starts _ a).2 1 0 hM hm, ?_⟩
  have e1 := start_off_centre 1 1 1 0 0 0 (by decide) (by decide)
  have e2 := start_off_centre 1 1 1 0 1 1 (by decide) (by decide)
  norm_num at e1 e2
  rw [e1, e2]

end PI
