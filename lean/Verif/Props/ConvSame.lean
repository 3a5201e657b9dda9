import Verif.Props.SimImage
import Mathlib.Tactic.Linarith
import Mathlib.Tactic.LinearCombination
import Mathlib.Tactic.FieldSimp

/-!
# Property C150: the convolution of the simulated images

Specification vocabulary: `imgTotal`, the sum of the pixels; `rowMoment`/`colMoment`, the sums weighted with the
row/column number; `LandsInside`, a source so far from the borders that the whole PSF lands in the image.
-/

namespace PI

/-- The sum of the pixels weighted with their row. -/
noncomputable def rowMoment (a : Img ℝ) : ℝ := ∑ i ∈ Finset.range a.h, ∑ j ∈ Finset.range a.w, (i : ℝ) * a.px i j

/-- The sum of the pixels weighted with their column. -/
noncomputable def colMoment (a : Img ℝ) : ℝ := ∑ i ∈ Finset.range a.h, ∑ j ∈ Finset.range a.w, (j : ℝ) * a.px i j

/-- A PSF of `n` rows drawn at row `x` of an image of `H` rows stays inside it. -/
def LandsInside (H n x : ℕ) : Prop := (n - 1) / 2 ≤ x ∧ x + n ≤ H + (n - 1) / 2

/-- All sources are inside. -/
def AllInside (gal p : Img ℝ) : Prop :=
  ∀ x < gal.h, ∀ y < gal.w, gal.px x y ≠ 0 → LandsInside gal.h p.h x ∧ LandsInside gal.w p.w y

/-- C150: the result has the shape of the first image, whatever the shape of the second. -/
theorem conv_shape (gal p : Img ℝ) : (convSame gal p).h = gal.h ∧ (convSame gal p).w = gal.w := ⟨rfl, rfl⟩

theorem conv_add_left (H W : ℕ) (f g : ℕ → ℕ → ℝ) (p : Img ℝ) (i j : ℕ) :
    (convSame ⟨H, W, fun x y => f x y + g x y⟩ p).px i j =
      (convSame ⟨H, W, f⟩ p).px i j + (convSame ⟨H, W, g⟩ p).px i j := by
  unfold convSame
  simp only [← Finset.sum_add_distrib]
  refine Finset.sum_congr rfl fun k _ => Finset.sum_congr rfl fun l _ => ?_
  split
  · ring
  · ring

theorem conv_zero_left (H W : ℕ) (p : Img ℝ) (i j : ℕ) : (convSame ⟨H, W, fun _ _ => 0⟩ p).px i j = 0 := by
  unfold convSame
  simp

theorem conv_sum_left {ι : Type} [DecidableEq ι] (s : Finset ι) (H W : ℕ) (f : ι → ℕ → ℕ → ℝ) (p : Img ℝ) (i j : ℕ) :
    (convSame ⟨H, W, fun x y => ∑ q ∈ s, f q x y⟩ p).px i j = ∑ q ∈ s, (convSame ⟨H, W, f q⟩ p).px i j := by
  induction s using Finset.induction_on with
  | empty => simp only [Finset.sum_empty]; exact conv_zero_left H W p i j
  | insert a s ha ih =>
    simp only [Finset.sum_insert ha]
    rw [conv_add_left, ih]

theorem conv_local (gal gal' p : Img ℝ) (hh : gal.h = gal'.h) (hw : gal.w = gal'.w)
    (he : ∀ x < gal.h, ∀ y < gal.w, gal.px x y = gal'.px x y) (i j : ℕ) :
    (convSame gal p).px i j = (convSame gal' p).px i j := by
  unfold convSame
  simp only
  rw [← hh, ← hw]
  refine Finset.sum_congr rfl fun k _ => Finset.sum_congr rfl fun l _ => ?_
  by_cases h : k ≤ i + (p.h - 1) / 2 ∧ i + (p.h - 1) / 2 < k + gal.h ∧ l ≤ j + (p.w - 1) / 2 ∧
      j + (p.w - 1) / 2 < l + gal.w
  · rw [if_pos h, if_pos h, he _ (by omega) _ (by omega)]
  · rw [if_neg h, if_neg h]

/-- C150: every source is replaced by its value times the PSF, whose pixel `((h-1)//2, (w-1)//2)` comes to lie on the
source, and all of them add up. -/
theorem conv_sources (gal p : Img ℝ) (i j : ℕ) :
    (convSame gal p).px i j = ∑ x ∈ Finset.range gal.h, ∑ y ∈ Finset.range gal.w,
      if x ≤ i + (p.h - 1) / 2 ∧ i + (p.h - 1) / 2 - x < p.h ∧ y ≤ j + (p.w - 1) / 2 ∧ j + (p.w - 1) / 2 - y < p.w
      then gal.px x y * p.px (i + (p.h - 1) / 2 - x) (j + (p.w - 1) / 2 - y) else 0 := by
  have e : ∀ x < gal.h, ∀ y < gal.w, gal.px x y =
      ∑ q ∈ Finset.range gal.h ×ˢ Finset.range gal.w, if x = q.1 ∧ y = q.2 then gal.px q.1 q.2 else 0 := by
    intro x hx y hy
    rw [Finset.sum_eq_single_of_mem (x, y)
      (Finset.mem_product.2 ⟨Finset.mem_range.2 hx, Finset.mem_range.2 hy⟩)]
    · rw [if_pos ⟨rfl, rfl⟩]
    · rintro ⟨a, b⟩ _ hne
      rw [if_neg]
      rintro ⟨rfl, rfl⟩
      exact hne rfl
  rw [conv_local gal ⟨gal.h, gal.w, fun x y => ∑ q ∈ Finset.range gal.h ×ˢ Finset.range gal.w,
    if x = q.1 ∧ y = q.2 then gal.px q.1 q.2 else 0⟩ p rfl rfl e, conv_sum_left, Finset.sum_product]
  refine Finset.sum_congr rfl fun x hx => Finset.sum_congr rfl fun y hy => ?_
  exact conv_delta ⟨gal.h, gal.w, fun a b => if a = x ∧ b = y then gal.px x y else 0⟩ p x y (gal.px x y)
    (Finset.mem_range.1 hx) (Finset.mem_range.1 hy) (fun _ _ _ _ => rfl) i j

/-- Counting by the row of the PSF instead of the row of the image. -/
theorem sum_lands (H n c x : ℕ) (f : ℕ → ℕ → ℝ) :
    (∑ i ∈ Finset.range H, if x ≤ i + c ∧ i + c - x < n then f (i + c - x) i else 0) =
      ∑ k ∈ Finset.range n, if c ≤ x + k ∧ x + k < H + c then f k (x + k - c) else 0 := by
  rw [← Finset.sum_filter, ← Finset.sum_filter]
  refine Finset.sum_nbij' (fun i => i + c - x) (fun k => x + k - c) ?_ ?_ ?_ ?_ ?_
  · intro i hi
    simp only [Finset.mem_filter, Finset.mem_range] at hi ⊢
    omega
  · intro k hk
    simp only [Finset.mem_filter, Finset.mem_range] at hk ⊢
    omega
  · intro i hi
    simp only [Finset.mem_filter, Finset.mem_range] at hi
    omega
  · intro k hk
    simp only [Finset.mem_filter, Finset.mem_range] at hk
    omega
  · intro i hi
    simp only [Finset.mem_filter, Finset.mem_range] at hi
    congr 1
    omega

/-- The part of the PSF that lands in the image, weighted, for a source at `(x, y)`. -/
theorem sum_lands_two (H W n m c d x y : ℕ) (f : ℕ → ℕ → ℕ → ℕ → ℝ) :
    (∑ i ∈ Finset.range H, ∑ j ∈ Finset.range W,
      if x ≤ i + c ∧ i + c - x < n ∧ y ≤ j + d ∧ j + d - y < m then f (i + c - x) (j + d - y) i j else 0) =
      ∑ k ∈ Finset.range n, ∑ l ∈ Finset.range m,
        if (c ≤ x + k ∧ x + k < H + c) ∧ d ≤ y + l ∧ y + l < W + d then f k l (x + k - c) (y + l - d) else 0 := by
  have e1 : ∀ i, (∑ j ∈ Finset.range W,
      if x ≤ i + c ∧ i + c - x < n ∧ y ≤ j + d ∧ j + d - y < m then f (i + c - x) (j + d - y) i j else 0) =
      if x ≤ i + c ∧ i + c - x < n then (fun k i => ∑ l ∈ Finset.range m,
        if d ≤ y + l ∧ y + l < W + d then f k l i (y + l - d) else 0) (i + c - x) i else 0 := by
    intro i
    by_cases h : x ≤ i + c ∧ i + c - x < n
    · rw [if_pos h]
      simp only
      rw [← sum_lands W m d y fun l j => f (i + c - x) l i j]
      refine Finset.sum_congr rfl fun j _ => ?_
      exact if_congr ⟨fun q => q.2.2, fun q => ⟨h.1, h.2, q⟩⟩ rfl rfl
    · rw [if_neg h]
      exact Finset.sum_eq_zero fun j _ => if_neg fun q => h ⟨q.1, q.2.1⟩
  rw [Finset.sum_congr rfl fun i _ => e1 i, sum_lands H n c x fun k i => ∑ l ∈ Finset.range m,
    if d ≤ y + l ∧ y + l < W + d then f k l i (y + l - d) else 0]
  refine Finset.sum_congr rfl fun k _ => ?_
  by_cases h : c ≤ x + k ∧ x + k < H + c
  · rw [if_pos h]
    refine Finset.sum_congr rfl fun l _ => ?_
    exact if_congr ⟨fun q => ⟨h, q⟩, fun q => q.2⟩ rfl rfl
  · rw [if_neg h]
    exact (Finset.sum_eq_zero fun l _ => if_neg fun q => h q.1).symm

/-- A weighted sum over the result, source by source. -/
theorem conv_weighted (gal p : Img ℝ) (u : ℕ → ℕ → ℝ) :
    (∑ i ∈ Finset.range gal.h, ∑ j ∈ Finset.range gal.w, u i j * (convSame gal p).px i j) =
      ∑ x ∈ Finset.range gal.h, ∑ y ∈ Finset.range gal.w, gal.px x y *
        ∑ k ∈ Finset.range p.h, ∑ l ∈ Finset.range p.w,
          if ((p.h - 1) / 2 ≤ x + k ∧ x + k < gal.h + (p.h - 1) / 2) ∧
            (p.w - 1) / 2 ≤ y + l ∧ y + l < gal.w + (p.w - 1) / 2
          then u (x + k - (p.h - 1) / 2) (y + l - (p.w - 1) / 2) * p.px k l else 0 := by
  have e : ∀ x y, (gal.px x y * ∑ k ∈ Finset.range p.h, ∑ l ∈ Finset.range p.w,
          if ((p.h - 1) / 2 ≤ x + k ∧ x + k < gal.h + (p.h - 1) / 2) ∧
            (p.w - 1) / 2 ≤ y + l ∧ y + l < gal.w + (p.w - 1) / 2
          then u (x + k - (p.h - 1) / 2) (y + l - (p.w - 1) / 2) * p.px k l else 0) =
      ∑ i ∈ Finset.range gal.h, ∑ j ∈ Finset.range gal.w, u i j *
        if x ≤ i + (p.h - 1) / 2 ∧ i + (p.h - 1) / 2 - x < p.h ∧ y ≤ j + (p.w - 1) / 2 ∧ j + (p.w - 1) / 2 - y < p.w
        then gal.px x y * p.px (i + (p.h - 1) / 2 - x) (j + (p.w - 1) / 2 - y) else 0 := by
    intro x y
    rw [← sum_lands_two gal.h gal.w p.h p.w _ _ x y fun k l i j => u i j * p.px k l, Finset.mul_sum]
    refine Finset.sum_congr rfl fun i _ => ?_
    rw [Finset.mul_sum]
    refine Finset.sum_congr rfl fun j _ => ?_
    rw [mul_ite, mul_ite, mul_zero, mul_zero]
    exact if_congr Iff.rfl (by ring) rfl
  simp only [e, conv_sources, Finset.mul_sum]
  rw [Finset.sum_congr rfl fun i _ => Finset.sum_comm]
  rw [Finset.sum_comm]
  refine Finset.sum_congr rfl fun x _ => ?_
  rw [Finset.sum_congr rfl fun i _ => Finset.sum_comm]
  rw [Finset.sum_comm]

theorem inside_lands {H n x k : ℕ} (h : LandsInside H n x) (hk : k < n) :
    (n - 1) / 2 ≤ x + k ∧ x + k < H + (n - 1) / 2 := by
  unfold LandsInside at h
  omega

/-- A weighted sum over the result when all of it stays inside. -/
theorem conv_weighted_inside (gal p : Img ℝ) (hin : AllInside gal p) (u : ℕ → ℕ → ℝ) :
    (∑ i ∈ Finset.range gal.h, ∑ j ∈ Finset.range gal.w, u i j * (convSame gal p).px i j) =
      ∑ x ∈ Finset.range gal.h, ∑ y ∈ Finset.range gal.w, gal.px x y *
        ∑ k ∈ Finset.range p.h, ∑ l ∈ Finset.range p.w,
          u (x + k - (p.h - 1) / 2) (y + l - (p.w - 1) / 2) * p.px k l := by
  rw [conv_weighted]
  refine Finset.sum_congr rfl fun x hx => Finset.sum_congr rfl fun y hy => ?_
  by_cases h0 : gal.px x y = 0
  · rw [h0, zero_mul, zero_mul]
  · obtain ⟨h1, h2⟩ := hin x (Finset.mem_range.1 hx) y (Finset.mem_range.1 hy) h0
    congr 1
    refine Finset.sum_congr rfl fun k hk => Finset.sum_congr rfl fun l hl => ?_
    rw [if_pos ⟨inside_lands h1 (Finset.mem_range.1 hk), inside_lands h2 (Finset.mem_range.1 hl)⟩]

/-- C150: the total of the result is the product of the totals if all sources are inside. -/
theorem conv_total (gal p : Img ℝ) (hin : AllInside gal p) :
    imgTotal (convSame gal p) = imgTotal gal * imgTotal p := by
  have h := conv_weighted_inside gal p hin fun _ _ => 1
  simp only [one_mul] at h
  unfold imgTotal
  rw [show (convSame gal p).h = gal.h from rfl, show (convSame gal p).w = gal.w from rfl, h, Finset.sum_mul]
  refine Finset.sum_congr rfl fun x _ => ?_
  rw [Finset.sum_mul]

/-- C150: for non-negative images the borders can only lose light. -/
theorem conv_total_le (gal p : Img ℝ) (hg : ∀ x < gal.h, ∀ y < gal.w, 0 ≤ gal.px x y)
    (hp : ∀ k < p.h, ∀ l < p.w, 0 ≤ p.px k l) : imgTotal (convSame gal p) ≤ imgTotal gal * imgTotal p := by
  have h := conv_weighted gal p fun _ _ => 1
  simp only [one_mul] at h
  unfold imgTotal
  rw [show (convSame gal p).h = gal.h from rfl, show (convSame gal p).w = gal.w from rfl, h, Finset.sum_mul]
  refine Finset.sum_le_sum fun x hx => ?_
  rw [Finset.sum_mul]
  refine Finset.sum_le_sum fun y hy => ?_
  refine mul_le_mul_of_nonneg_left ?_ (hg x (Finset.mem_range.1 hx) y (Finset.mem_range.1 hy))
  refine Finset.sum_le_sum fun k hk => Finset.sum_le_sum fun l hl => ?_
  split
  · exact le_rfl
  · exact hp k (Finset.mem_range.1 hk) l (Finset.mem_range.1 hl)

/-- C150: a source that is not inside loses light if the PSF is positive everywhere. -/
theorem conv_loses (gal p : Img ℝ) (x y : ℕ) (v : ℝ) (hv : 0 < v) (hx : x < gal.h) (hy : y < gal.w)
    (hg : ∀ i < gal.h, ∀ j < gal.w, gal.px i j = if i = x ∧ j = y then v else 0)
    (hp : ∀ k < p.h, ∀ l < p.w, 0 < p.px k l) (h0 : 0 < p.h) (w0 : 0 < p.w) :
    imgTotal (convSame gal p) = imgTotal gal * imgTotal p ↔ LandsInside gal.h p.h x ∧ LandsInside gal.w p.w y := by
  have one : ∀ F : ℕ → ℕ → ℝ, (∑ a ∈ Finset.range gal.h, ∑ b ∈ Finset.range gal.w, gal.px a b * F a b) =
      v * F x y := by
    intro F
    rw [Finset.sum_eq_single_of_mem x (Finset.mem_range.2 hx), Finset.sum_eq_single_of_mem y (Finset.mem_range.2 hy)]
    · rw [hg x hx y hy, if_pos ⟨rfl, rfl⟩]
    · intro b hb hne
      rw [hg x hx b (Finset.mem_range.1 hb), if_neg fun q => hne q.2, zero_mul]
    · intro a ha hne
      refine Finset.sum_eq_zero fun b hb => ?_
      rw [hg a (Finset.mem_range.1 ha) b (Finset.mem_range.1 hb), if_neg fun q => hne q.1, zero_mul]
  have hT : imgTotal gal = v := by
    have := one fun _ _ => 1
    simp only [mul_one] at this
    exact this
  constructor
  · intro he
    by_contra hc
    refine absurd he (ne_of_lt ?_)
    have h := conv_weighted gal p fun _ _ => 1
    simp only [one_mul] at h
    rw [one] at h
    have h' : imgTotal (convSame gal p) = _ := h
    rw [h', hT]
    refine mul_lt_mul_of_pos_left ?_ hv
    unfold imgTotal
    have lek : ∀ k ∈ Finset.range p.h, ∀ l ∈ Finset.range p.w,
        (if ((p.h - 1) / 2 ≤ x + k ∧ x + k < gal.h + (p.h - 1) / 2) ∧
            (p.w - 1) / 2 ≤ y + l ∧ y + l < gal.w + (p.w - 1) / 2 then p.px k l else 0) ≤ p.px k l := by
      intro k hk l hl
      split
      · exact le_rfl
      · exact (hp k (Finset.mem_range.1 hk) l (Finset.mem_range.1 hl)).le
    have hex : ∃ k < p.h, ∃ l < p.w, ¬ (((p.h - 1) / 2 ≤ x + k ∧ x + k < gal.h + (p.h - 1) / 2) ∧
            (p.w - 1) / 2 ≤ y + l ∧ y + l < gal.w + (p.w - 1) / 2) := by
      unfold LandsInside at hc
      by_cases c1 : (p.h - 1) / 2 ≤ x
      · by_cases c2 : x + p.h ≤ gal.h + (p.h - 1) / 2
        · by_cases c3 : (p.w - 1) / 2 ≤ y
          · exact ⟨0, h0, p.w - 1, by omega, by omega⟩
          · exact ⟨0, h0, 0, w0, by omega⟩
        · exact ⟨p.h - 1, by omega, 0, w0, by omega⟩
      · exact ⟨0, h0, 0, w0, by omega⟩
    obtain ⟨k, hk, l, hl, hn⟩ := hex
    refine Finset.sum_lt_sum (fun k hk => Finset.sum_le_sum (lek k hk)) ⟨k, Finset.mem_range.2 hk, ?_⟩
    refine Finset.sum_lt_sum (lek k (Finset.mem_range.2 hk)) ⟨l, Finset.mem_range.2 hl, ?_⟩
    rw [if_neg hn]
    exact hp k hk l hl
  · rintro ⟨h1, h2⟩
    refine conv_total gal p fun a ha b hb hne => ?_
    rw [hg a ha b hb] at hne
    by_cases q : a = x ∧ b = y
    · rw [q.1, q.2]; exact ⟨h1, h2⟩
    · rw [if_neg q] at hne; exact absurd rfl hne

/-- C150: the centre of light moves by the centre of the PSF minus `(h-1)//2` (rows; multiplied out). -/
theorem conv_rowMoment (gal p : Img ℝ) (hin : AllInside gal p) :
    rowMoment (convSame gal p) = rowMoment gal * imgTotal p + imgTotal gal * rowMoment p -
      ((p.h - 1) / 2 : ℕ) * (imgTotal gal * imgTotal p) := by
  have h := conv_weighted_inside gal p hin fun i _ => (i : ℝ)
  unfold rowMoment
  rw [show (convSame gal p).h = gal.h from rfl, show (convSame gal p).w = gal.w from rfl, h]
  have e : ∀ x ∈ Finset.range gal.h, ∀ y ∈ Finset.range gal.w,
      (gal.px x y * ∑ k ∈ Finset.range p.h, ∑ l ∈ Finset.range p.w, ((x + k - (p.h - 1) / 2 : ℕ) : ℝ) * p.px k l) =
      (x : ℝ) * gal.px x y * imgTotal p + gal.px x y * rowMoment p -
        ((p.h - 1) / 2 : ℕ) * (gal.px x y * imgTotal p) := by
    intro x hx y hy
    by_cases h0 : gal.px x y = 0
    · rw [h0]; ring
    · obtain ⟨h1, -⟩ := hin x (Finset.mem_range.1 hx) y (Finset.mem_range.1 hy) h0
      have e2 : (∑ k ∈ Finset.range p.h, ∑ l ∈ Finset.range p.w, ((x + k - (p.h - 1) / 2 : ℕ) : ℝ) * p.px k l) =
          ∑ k ∈ Finset.range p.h, ∑ l ∈ Finset.range p.w,
            ((x : ℝ) * p.px k l + (k : ℝ) * p.px k l - ((p.h - 1) / 2 : ℕ) * p.px k l) := by
        refine Finset.sum_congr rfl fun k hk => Finset.sum_congr rfl fun l _ => ?_
        rw [Nat.cast_sub (inside_lands h1 (Finset.mem_range.1 hk)).1]
        push_cast
        ring
      rw [e2]
      simp only [Finset.sum_sub_distrib, Finset.sum_add_distrib, ← Finset.mul_sum]
      unfold imgTotal rowMoment
      simp only [← Finset.mul_sum]
      ring
  rw [Finset.sum_congr rfl fun x hx => Finset.sum_congr rfl fun y hy => e x hx y hy]
  simp only [Finset.sum_sub_distrib, Finset.sum_add_distrib, ← Finset.mul_sum, ← Finset.sum_mul]
  unfold imgTotal rowMoment
  simp only [← Finset.mul_sum]

/-- A PSF that looks the same after half a turn has its centre of light in the middle of its rows. -/
theorem symmetric_rowMoment (p : Img ℝ) (hs : ∀ k < p.h, ∀ l < p.w, p.px (p.h - 1 - k) (p.w - 1 - l) = p.px k l) :
    rowMoment p = ((p.h : ℝ) - 1) / 2 * imgTotal p := by
  have e : rowMoment p = ∑ k ∈ Finset.range p.h, ∑ l ∈ Finset.range p.w, ((p.h : ℝ) - 1 - k) * p.px k l := by
    unfold rowMoment
    rw [← Finset.sum_range_reflect]
    refine Finset.sum_congr rfl fun k hk => ?_
    rw [← Finset.sum_range_reflect]
    refine Finset.sum_congr rfl fun l hl => ?_
    have hk' := Finset.mem_range.1 hk
    rw [hs k hk' l (Finset.mem_range.1 hl), Nat.cast_sub (by omega), Nat.cast_sub (by omega)]
    push_cast
    ring
  have e2 : (∑ k ∈ Finset.range p.h, ∑ l ∈ Finset.range p.w, ((p.h : ℝ) - 1 - k) * p.px k l) =
      ((p.h : ℝ) - 1) * imgTotal p - rowMoment p := by
    unfold imgTotal rowMoment
    rw [Finset.mul_sum, ← Finset.sum_sub_distrib]
    refine Finset.sum_congr rfl fun k _ => ?_
    rw [Finset.mul_sum, ← Finset.sum_sub_distrib]
    refine Finset.sum_congr rfl fun l _ => ?_
    ring
  linarith

/-- C150: with a PSF of unit total that looks the same after half a turn, sources inside the image keep their centre
of light if the PSF has an odd number of rows, and move down by half a pixel if it has an even number. -/
theorem conv_shift (gal p : Img ℝ) (hin : AllInside gal p) (h1 : imgTotal p = 1) (h0 : 0 < p.h)
    (hs : ∀ k < p.h, ∀ l < p.w, p.px (p.h - 1 - k) (p.w - 1 - l) = p.px k l) (hg : imgTotal gal ≠ 0) :
    rowMoment (convSame gal p) / imgTotal (convSame gal p) =
      rowMoment gal / imgTotal gal + (if p.h % 2 = 1 then 0 else 1 / 2) := by
  rw [conv_total gal p hin, conv_rowMoment gal p hin, symmetric_rowMoment p hs, h1]
  have e : ((p.h : ℝ) - 1) / 2 - ((p.h - 1) / 2 : ℕ) = if p.h % 2 = 1 then 0 else 1 / 2 := by
    split
    · obtain ⟨m, hm⟩ : ∃ m, p.h = 2 * m + 1 := ⟨p.h / 2, by omega⟩
      rw [hm, show (2 * m + 1 - 1) / 2 = m by omega]
      push_cast
      ring
    · obtain ⟨m, hm⟩ : ∃ m, p.h = 2 * m + 2 := ⟨(p.h - 2) / 2, by omega⟩
      rw [hm, show (2 * m + 2 - 1) / 2 = m by omega]
      push_cast
      ring
  rw [← e]
  field_simp
  ring

/-- Rows and columns exchanged. -/
def flipped (a : Img ℝ) : Img ℝ := ⟨a.w, a.h, fun i j => a.px j i⟩

/-- C150: exchanging rows and columns of both exchanges them in the result; so what holds for rows holds for columns. -/
theorem conv_flipped (gal p : Img ℝ) (i j : ℕ) :
    (convSame (flipped gal) (flipped p)).px i j = (convSame gal p).px j i := by
  unfold convSame flipped
  simp only
  rw [Finset.sum_comm]
  refine Finset.sum_congr rfl fun k _ => Finset.sum_congr rfl fun l _ => ?_
  exact if_congr ⟨fun q => ⟨q.2.2.1, q.2.2.2, q.1, q.2.1⟩, fun q => ⟨q.2.2.1, q.2.2.2, q.1, q.2.1⟩⟩ rfl rfl

/-- C150: a PSF that is one pixel of value one at `((h-1)//2, (w-1)//2)` changes nothing; at any other place it moves
the image by the difference. -/
theorem conv_one_pixel (gal p : Img ℝ) (k l : ℕ) (hk : k < p.h) (hl : l < p.w)
    (hp : ∀ a < p.h, ∀ b < p.w, p.px a b = if a = k ∧ b = l then 1 else 0) (i j : ℕ) :
    (convSame gal p).px i j =
      if k ≤ i + (p.h - 1) / 2 ∧ i + (p.h - 1) / 2 < k + gal.h ∧ l ≤ j + (p.w - 1) / 2 ∧ j + (p.w - 1) / 2 < l + gal.w
      then gal.px (i + (p.h - 1) / 2 - k) (j + (p.w - 1) / 2 - l) else 0 := by
  unfold convSame
  simp only
  rw [Finset.sum_eq_single_of_mem k (Finset.mem_range.2 hk), Finset.sum_eq_single_of_mem l (Finset.mem_range.2 hl)]
  · rw [show p.px k l = 1 by rw [hp k hk l hl, if_pos ⟨rfl, rfl⟩], mul_one]
  · intro b hb hne
    rw [show p.px k b = 0 by rw [hp k hk b (Finset.mem_range.1 hb), if_neg fun q => hne q.2], mul_zero, ite_self]
  · intro a ha hne
    refine Finset.sum_eq_zero fun b hb => ?_
    rw [show p.px a b = 0 by rw [hp a (Finset.mem_range.1 ha) b (Finset.mem_range.1 hb), if_neg fun q => hne q.1],
      mul_zero, ite_self]

/-- The hypotheses hold: one star in a 4 x 4 image and the even PSF of four equal pixels. -/
theorem conv_example :
    let gal : Img ℝ := ⟨4, 4, fun i j => if i = 1 ∧ j = 2 then 8 else 0⟩
    let p : Img ℝ := ⟨2, 2, fun _ _ => 1 / 4⟩
    AllInside gal p ∧ imgTotal p = 1 ∧ imgTotal gal = 8 ∧
      rowMoment (convSame gal p) / imgTotal (convSame gal p) = 1 + 1 / 2 := by
  intro gal p
  have hin : AllInside gal p := by
    intro x _ y _ hne
    by_cases q : x = 1 ∧ y = 2
    · rw [q.1, q.2]; unfold LandsInside; simp only [gal, p]; omega
    · exact absurd (if_neg q) hne
  have hT : imgTotal p = 1 := by
    unfold imgTotal
    simp only [p, Finset.sum_range_succ, Finset.sum_range_zero]
    norm_num
  have hG : imgTotal gal = 8 := by
    unfold imgTotal
    simp only [gal, Finset.sum_range_succ, Finset.sum_range_zero]
    norm_num
  have hR : rowMoment gal = 8 := by
    unfold rowMoment
    simp only [gal, Finset.sum_range_succ, Finset.sum_range_zero]
    norm_num
  refine ⟨hin, hT, hG, ?_⟩
  rw [conv_shift gal p hin hT (by simp only [p]; omega) (fun _ _ _ _ => rfl) (by rw [hG]; norm_num), hR, hG,
    if_neg (by simp only [p]; omega)]
  norm_num

end PI
