import Verif.Model.Interp
import Mathlib.Algebra.Order.BigOperators.Group.Finset
import Mathlib.Algebra.BigOperators.Ring.Finset
import Mathlib.Algebra.BigOperators.Field
import Mathlib.Tactic.Linarith
import Mathlib.Tactic.NormNum
import Mathlib.Tactic.FieldSimp
import Mathlib.Tactic.Ring

/-!
# The interpolated image (C60)
-/

namespace PI
open PyS

theorem boxW_pos {d : ℤ} (h : d ∈ offs) : 0 < boxW d := by
  have h' : |d| ≤ 5 := by rw [offs, Finset.mem_Icc] at h; rw [abs_le]; exact h
  unfold boxW
  by_cases h1 : |d| < 5
  · rw [if_pos h1]; norm_num
  · rw [if_neg h1, if_pos (le_antisymm h' (not_lt.mp h1))]; norm_num

theorem kern_pos {d e : ℤ} (hd : d ∈ offs) (he : e ∈ offs) : 0 < kern d e :=
  mul_pos (boxW_pos hd) (boxW_pos he)

theorem wsum_nonneg (pad : Bool) (a : Img (Option ℚ)) (i j : ℕ) : 0 ≤ wsum pad a i j := by
  refine Finset.sum_nonneg fun d hd => Finset.sum_nonneg fun e he => ?_
  split
  · exact (kern_pos hd he).le
  · exact le_refl _

theorem wsum_eq_zero (pad : Bool) (a : Img (Option ℚ)) (i j : ℕ) :
    wsum pad a i j = 0 ↔ ∀ d ∈ offs, ∀ e ∈ offs, ¬ (sample pad a (i + d) (j + e)).isSome := by
  unfold wsum
  rw [Finset.sum_eq_zero_iff_of_nonneg]
  · constructor
    · intro h d hd e he hs
      have h1 := h d hd
      rw [Finset.sum_eq_zero_iff_of_nonneg] at h1
      · have h2 := h1 e he
        rw [if_pos hs] at h2
        exact (kern_pos hd he).ne' h2
      · intro e he
        split
        · exact (kern_pos hd he).le
        · exact le_refl _
    · intro h d hd
      refine Finset.sum_eq_zero fun e he => ?_
      rw [if_neg (h d hd e he)]
  · intro d hd
    refine Finset.sum_nonneg fun e he => ?_
    split
    · exact (kern_pos hd he).le
    · exact le_refl _

@[simp] theorem replaceNans_h (a : Img (Option ℚ)) : (replaceNans a).h = a.h := rfl
@[simp] theorem replaceNans_w (a : Img (Option ℚ)) : (replaceNans a).w = a.w := rfl

theorem replaceNans_some (a : Img (Option ℚ)) (i j : ℕ) (v : ℚ) (h : a.px i j = some v) :
    (replaceNans a).px i j = some v := by
  simp [replaceNans, h]

theorem replaceNans_none (a : Img (Option ℚ)) (i j : ℕ) (h : a.px i j = none) :
    (replaceNans a).px i j =
      if wsum true a i j = 0 then some 0 else some (vsum true a i j / wsum true a i j) := by
  simp [replaceNans, h]

theorem sample_in {pad : Bool} {a : Img (Option ℚ)} {r c : ℤ} (h : inImg a r c) :
    sample pad a r c = a.px r.toNat c.toNat := by rw [sample, if_pos h]

theorem sample_out {pad : Bool} {a : Img (Option ℚ)} {r c : ℤ} (h : ¬ inImg a r c) :
    sample pad a r c = if pad then some 0 else none := by rw [sample, if_neg h]

theorem zero_mem_offs : (0 : ℤ) ∈ offs := by rw [offs, Finset.mem_Icc]; omega

theorem anyNan_iff (a : Img (Option ℚ)) : anyNan a = true ↔ ∃ i < a.h, ∃ j < a.w, a.px i j = none := by
  rw [anyNan, Img.any_iff]
  simp only [Img.map, Option.isNone_iff_eq_none]

/-! ## The result -/

/-- No NaN is left by one interpolation. -/
theorem replaceNans_number (a : Img (Option ℚ)) (i j : ℕ) : ∃ v, (replaceNans a).px i j = some v := by
  cases hp : a.px i j with
  | some v => exact ⟨v, replaceNans_some a i j v hp⟩
  | none =>
    rw [replaceNans_none a i j hp]
    split
    · exact ⟨_, rfl⟩
    · exact ⟨_, rfl⟩

/-- C60: one interpolation is enough; the loop is never entered. -/
theorem interp_once (fuel : ℕ) (img : Img (Option ℚ)) : interpolate fuel img = .ok (replaceNans img) := by
  have hno : anyNan (replaceNans img) = false := by
    by_contra hc
    rw [Bool.not_eq_false, anyNan_iff] at hc
    obtain ⟨i, _, j, _, hn⟩ := hc
    obtain ⟨v, hv⟩ := replaceNans_number img i j
    rw [hv] at hn
    cases hn
  unfold interpolate
  cases fuel <;> unfold nanLoop <;> rw [hno] <;> rfl

/-- C60: so `interped` always ends. -/
theorem interp_terminates (fuel : ℕ) (img : Img (Option ℚ)) : ∃ b, interpolate fuel img = .ok b :=
  ⟨_, interp_once fuel img⟩

/-- C60: the result has the shape of the image and no NaN. -/
theorem interp_no_nan (fuel : ℕ) (img b : Img (Option ℚ)) (h : interpolate fuel img = .ok b) :
    b.h = img.h ∧ b.w = img.w ∧ ∀ i < img.h, ∀ j < img.w, b.px i j ≠ none := by
  rw [interp_once] at h
  cases h
  refine ⟨rfl, rfl, fun i _ j _ hn => ?_⟩
  obtain ⟨v, hv⟩ := replaceNans_number img i j
  rw [hv] at hn
  cases hn

/-- C60: every pixel that is not NaN is unchanged. -/
theorem interp_keeps (fuel : ℕ) (img b : Img (Option ℚ)) (h : interpolate fuel img = .ok b) (i j : ℕ) (v : ℚ)
    (hv : img.px i j = some v) : b.px i j = some v := by
  rw [interp_once] at h
  cases h
  exact replaceNans_some _ _ _ _ hv

/-- C60: the middle of a hole: a NaN pixel five or more pixels from every edge, with no valid pixel within five rows and
columns, becomes zero, whatever surrounds the hole. -/
theorem interp_hole (fuel : ℕ) (img b : Img (Option ℚ)) (h : interpolate fuel img = .ok b) (i j : ℕ)
    (hi : 5 ≤ i ∧ i + 5 < img.h) (hj : 5 ≤ j ∧ j + 5 < img.w)
    (hn : ∀ r c : ℕ, i ≤ r + 5 → r ≤ i + 5 → j ≤ c + 5 → c ≤ j + 5 → img.px r c = none) :
    b.px i j = some 0 := by
  rw [interp_once] at h
  cases h
  rw [replaceNans_none _ _ _ (hn i j (by omega) (by omega) (by omega) (by omega)), if_pos]
  rw [wsum_eq_zero]
  intro d hd e he
  rw [offs, Finset.mem_Icc] at hd he
  rw [sample_in (by unfold inImg; omega), hn _ _ (by omega) (by omega) (by omega) (by omega)]
  simp

/-- C60: every other NaN pixel becomes the weighted mean of what is under the kernel, zeros outside of the image
included. -/
theorem interp_mean (fuel : ℕ) (img b : Img (Option ℚ)) (h : interpolate fuel img = .ok b) (i j : ℕ)
    (hn : img.px i j = none) (hw : ∃ d ∈ offs, ∃ e ∈ offs, (sample true img (i + d) (j + e)).isSome) :
    b.px i j = some (vsum true img i j / wsum true img i j) := by
  rw [interp_once] at h
  cases h
  rw [replaceNans_none _ _ _ hn, if_neg]
  rw [wsum_eq_zero]
  intro h0
  obtain ⟨d, hd, e, he, hs⟩ := hw
  exact h0 d hd e he hs

/-! ## Values -/

theorem sample_bounds (a : Img (Option ℚ)) (lo hi : ℚ) (hl : lo ≤ 0) (hh : 0 ≤ hi)
    (hb : ∀ i < a.h, ∀ j < a.w, ∀ v, a.px i j = some v → lo ≤ v ∧ v ≤ hi) (r c : ℤ) (v : ℚ)
    (h : sample true a r c = some v) : lo ≤ v ∧ v ≤ hi := by
  by_cases hin : inImg a r c
  · rw [sample_in hin] at h
    unfold inImg at hin
    exact hb _ (by omega) _ (by omega) v h
  · rw [sample_out hin] at h
    simp only [if_true, Option.some.injEq] at h
    subst h; exact ⟨hl, hh⟩

theorem vsum_le (a : Img (Option ℚ)) (hi : ℚ) (i j : ℕ)
    (hb : ∀ r c v, sample true a r c = some v → v ≤ hi) :
    vsum true a i j ≤ hi * wsum true a i j := by
  unfold vsum wsum
  rw [Finset.mul_sum]
  refine Finset.sum_le_sum fun d hd => ?_
  rw [Finset.mul_sum]
  refine Finset.sum_le_sum fun e he => ?_
  cases hs : sample true a (i + d) (j + e) with
  | none => simp
  | some v =>
    have := hb _ _ v hs
    simp only [Option.getD_some, Option.isSome_some, if_true]
    rw [mul_comm hi]
    exact mul_le_mul_of_nonneg_left this (kern_pos hd he).le

theorem le_vsum (a : Img (Option ℚ)) (lo : ℚ) (i j : ℕ)
    (hb : ∀ r c v, sample true a r c = some v → lo ≤ v) :
    lo * wsum true a i j ≤ vsum true a i j := by
  unfold vsum wsum
  rw [Finset.mul_sum]
  refine Finset.sum_le_sum fun d hd => ?_
  rw [Finset.mul_sum]
  refine Finset.sum_le_sum fun e he => ?_
  cases hs : sample true a (i + d) (j + e) with
  | none => simp
  | some v =>
    have := hb _ _ v hs
    simp only [Option.getD_some, Option.isSome_some, if_true]
    rw [mul_comm lo]
    exact mul_le_mul_of_nonneg_left this (kern_pos hd he).le

theorem replaceNans_bounds (a : Img (Option ℚ)) (lo hi : ℚ) (hl : lo ≤ 0) (hh : 0 ≤ hi)
    (hb : ∀ i < a.h, ∀ j < a.w, ∀ v, a.px i j = some v → lo ≤ v ∧ v ≤ hi) :
    ∀ i < a.h, ∀ j < a.w, ∀ v, (replaceNans a).px i j = some v → lo ≤ v ∧ v ≤ hi := by
  intro i hi' j hj v hv
  cases hp : a.px i j with
  | some u =>
    rw [replaceNans_some _ _ _ u hp] at hv
    cases hv
    exact hb i hi' j hj _ hp
  | none =>
    rw [replaceNans_none _ _ _ hp] at hv
    by_cases h0 : wsum true a i j = 0
    · rw [if_pos h0] at hv
      cases hv
      exact ⟨hl, hh⟩
    · rw [if_neg h0] at hv
      cases hv
      have hpos : 0 < wsum true a i j := lt_of_le_of_ne (wsum_nonneg _ _ _ _) (Ne.symm h0)
      constructor
      · rw [le_div_iff₀ hpos]
        exact le_vsum a lo i j fun r c v h => (sample_bounds a lo hi hl hh hb r c v h).1
      · rw [div_le_iff₀ hpos]
        exact vsum_le a hi i j fun r c v h => (sample_bounds a lo hi hl hh hb r c v h).2

/-- C60: interpolated values stay between the least and the largest of the valid values and zero. -/
theorem interp_bounds (fuel : ℕ) (img b : Img (Option ℚ)) (lo hi : ℚ) (hl : lo ≤ 0) (hh : 0 ≤ hi)
    (hb : ∀ i < img.h, ∀ j < img.w, ∀ v, img.px i j = some v → lo ≤ v ∧ v ≤ hi)
    (h : interpolate fuel img = .ok b) :
    ∀ i < img.h, ∀ j < img.w, ∀ v, b.px i j = some v → lo ≤ v ∧ v ≤ hi := by
  rw [interp_once] at h
  cases h
  exact replaceNans_bounds img lo hi hl hh hb

/-- C60: an image without any valid pixel comes back as zeros. -/
theorem interp_all_masked (fuel : ℕ) (img : Img (Option ℚ)) (hm : ∀ i < img.h, ∀ j < img.w, img.px i j = none) :
    ∃ b, interpolate fuel img = .ok b ∧ b.h = img.h ∧ b.w = img.w ∧
      ∀ i < img.h, ∀ j < img.w, b.px i j = some 0 := by
  obtain ⟨b, hb⟩ := interp_terminates fuel img
  have h1 := interp_no_nan _ _ _ hb
  refine ⟨b, hb, h1.1, h1.2.1, fun i hi j hj => ?_⟩
  obtain ⟨v, hv⟩ := Option.ne_none_iff_exists'.mp (h1.2.2 i hi j hj)
  have := interp_bounds _ img b 0 0 le_rfl le_rfl
    (fun i hi j hj v h => by rw [hm i hi j hj] at h; cases h) hb i hi j hj v hv
  rw [hv, le_antisymm this.2 this.1]

/-- Total weight of the valid pixels of the image itself around `(i, j)`. -/
def goodWeight (a : Img (Option ℚ)) (i j : ℕ) : ℚ := wsum false a i j

theorem vsum_const (a : Img (Option ℚ)) (c : ℚ)
    (hc : ∀ i < a.h, ∀ j < a.w, ∀ v, a.px i j = some v → v = c) (i j : ℕ) :
    vsum true a i j = c * goodWeight a i j := by
  unfold vsum goodWeight wsum
  rw [Finset.mul_sum]
  refine Finset.sum_congr rfl fun d _ => ?_
  rw [Finset.mul_sum]
  refine Finset.sum_congr rfl fun e _ => ?_
  by_cases hin : inImg a (i + d) (j + e)
  · rw [sample_in hin, sample_in hin]
    cases hp : a.px ((i : ℤ) + d).toNat ((j : ℤ) + e).toNat with
    | none => simp
    | some v =>
      have hv : v = c := by
        unfold inImg at hin
        exact hc _ (by omega) _ (by omega) v hp
      simp [hv, mul_comm]
  · rw [sample_out hin, sample_out hin]; simp

/-- C60: on an image whose valid pixels are all `c`, a masked pixel becomes `c` times the fraction of the
weight that lies on valid pixels; the weight outside of the image pulls it towards zero. -/
theorem interp_const (a : Img (Option ℚ)) (c : ℚ)
    (hc : ∀ i < a.h, ∀ j < a.w, ∀ v, a.px i j = some v → v = c) (i j : ℕ) (hn : a.px i j = none)
    (hw : wsum true a i j ≠ 0) :
    (replaceNans a).px i j = some (c * (goodWeight a i j / wsum true a i j)) := by
  rw [replaceNans_none _ _ _ hn, if_neg hw, vsum_const a c hc, mul_div_assoc]

/-- C60: away from the border the interpolation reproduces a constant. -/
theorem interp_const_inner (a : Img (Option ℚ)) (c : ℚ)
    (hc : ∀ i < a.h, ∀ j < a.w, ∀ v, a.px i j = some v → v = c) (i j : ℕ) (hn : a.px i j = none)
    (hi : 5 ≤ i ∧ i + 5 < a.h) (hj : 5 ≤ j ∧ j + 5 < a.w)
    (hv : ∃ d ∈ offs, ∃ e ∈ offs, (sample true a (i + d) (j + e)).isSome) :
    (replaceNans a).px i j = some c := by
  have hw : wsum true a i j ≠ 0 := by
    rw [Ne, wsum_eq_zero]
    intro h
    obtain ⟨d, hd, e, he, hs⟩ := hv
    exact h d hd e he hs
  have hg : goodWeight a i j = wsum true a i j := by
    unfold goodWeight wsum
    refine Finset.sum_congr rfl fun d hd => Finset.sum_congr rfl fun e he => ?_
    rw [offs, Finset.mem_Icc] at hd he
    have hin : inImg a (i + d) (j + e) := by unfold inImg; omega
    rw [sample_in hin, sample_in hin]
  rw [interp_const a c hc i j hn hw, hg, div_self hw, mul_one]

/-- C60: within five pixels of any border it does not: the value is strictly nearer to zero. -/
theorem interp_const_border (a : Img (Option ℚ)) (c : ℚ) (hc0 : 0 < c)
    (hc : ∀ i < a.h, ∀ j < a.w, ∀ v, a.px i j = some v → v = c) (i j : ℕ)
    (hn : a.px i j = none) (hb : i < 5 ∨ a.h ≤ i + 5 ∨ j < 5 ∨ a.w ≤ j + 5) :
    ∃ v, (replaceNans a).px i j = some v ∧ 0 ≤ v ∧ v < c := by
  have hm5 : (-5 : ℤ) ∈ offs := by rw [offs, Finset.mem_Icc]; omega
  have hp5 : (5 : ℤ) ∈ offs := by rw [offs, Finset.mem_Icc]; omega
  obtain ⟨d0, hd0, e0, he0, hout⟩ : ∃ d ∈ offs, ∃ e ∈ offs, ¬ inImg a (i + d) (j + e) := by
    rcases hb with h | h | h | h
    · exact ⟨-5, hm5, 0, zero_mem_offs, by unfold inImg; omega⟩
    · exact ⟨5, hp5, 0, zero_mem_offs, by unfold inImg; omega⟩
    · exact ⟨0, zero_mem_offs, -5, hm5, by unfold inImg; omega⟩
    · exact ⟨0, zero_mem_offs, 5, hp5, by unfold inImg; omega⟩
  have hw : wsum true a i j ≠ 0 := by
    rw [Ne, wsum_eq_zero]
    intro h
    refine h d0 hd0 e0 he0 ?_
    rw [sample_out hout]; rfl
  have hpos : 0 < wsum true a i j := lt_of_le_of_ne (wsum_nonneg _ _ _ _) (Ne.symm hw)
  have hle : ∀ d ∈ offs, ∀ e ∈ offs,
      (if (sample false a (i + d) (j + e)).isSome then kern d e else 0) ≤
      (if (sample true a (i + d) (j + e)).isSome then kern d e else 0) := by
    intro d hd e he
    by_cases hin : inImg a (i + d) (j + e)
    · rw [sample_in hin, sample_in hin]
    · rw [sample_out hin, sample_out hin]
      simpa using (kern_pos hd he).le
  have hlt : goodWeight a i j < wsum true a i j := by
    refine Finset.sum_lt_sum (fun d hd => Finset.sum_le_sum fun e he => hle d hd e he) ⟨d0, hd0, ?_⟩
    refine Finset.sum_lt_sum (fun e he => hle d0 hd0 e he) ⟨e0, he0, ?_⟩
    rw [sample_out hout, sample_out hout]
    simpa using kern_pos hd0 he0
  refine ⟨_, interp_const a c hc i j hn hw, ?_, ?_⟩
  · exact mul_nonneg hc0.le (div_nonneg (wsum_nonneg _ _ _ _) hpos.le)
  · have : goodWeight a i j / wsum true a i j < 1 := (div_lt_one hpos).mpr hlt
    calc c * _ < c * 1 := mul_lt_mul_of_pos_left this hc0
      _ = c := mul_one c

/-- C60: so a large masked patch of a constant image gets a crater: inside of the image its pixels become the constant where
some valid pixel lies within five rows and columns and zero elsewhere. -/
theorem interp_crater (fuel : ℕ) (a b : Img (Option ℚ)) (h : interpolate fuel a = .ok b) (c : ℚ)
    (hc : ∀ i < a.h, ∀ j < a.w, ∀ v, a.px i j = some v → v = c) (i j : ℕ)
    (hi : 5 ≤ i ∧ i + 5 < a.h) (hj : 5 ≤ j ∧ j + 5 < a.w) :
    ((∃ r k : ℕ, i ≤ r + 5 ∧ r ≤ i + 5 ∧ j ≤ k + 5 ∧ k ≤ j + 5 ∧ a.px r k ≠ none) → b.px i j = some c) ∧
    ((¬ ∃ r k : ℕ, i ≤ r + 5 ∧ r ≤ i + 5 ∧ j ≤ k + 5 ∧ k ≤ j + 5 ∧ a.px r k ≠ none) → b.px i j = some 0) := by
  constructor
  · rintro ⟨r, k, h1, h2, h3, h4, hv⟩
    cases hp : a.px i j with
    | some v =>
      rw [interp_keeps fuel a b h i j v hp, hc i (by omega) j (by omega) v hp]
    | none =>
      rw [interp_once] at h
      cases h
      refine interp_const_inner a c hc i j hp hi hj ⟨r - i, ?_, k - j, ?_, ?_⟩
      · rw [offs, Finset.mem_Icc]; omega
      · rw [offs, Finset.mem_Icc]; omega
      · rw [sample_in (by unfold inImg; omega), Option.isSome_iff_ne_none,
          show ((i : ℤ) + (r - i)).toNat = r by omega, show ((j : ℤ) + (k - j)).toNat = k by omega]
        exact hv
  · intro hno
    refine interp_hole fuel a b h i j hi hj fun r k h1 h2 h3 h4 => ?_
    by_contra hv
    exact hno ⟨r, k, h1, h2, h3, h4, hv⟩

/-- A sky of 7 with a masked patch of 11 × 11 pixels: its centre becomes 0, the pixel above the centre 7. -/
example : ∃ b, interpolate 0 ⟨21, 21, fun i j => if 5 ≤ i ∧ i ≤ 15 ∧ 5 ≤ j ∧ j ≤ 15 then none else some 7⟩ = .ok b ∧
    b.px 10 10 = some 0 ∧ b.px 9 10 = some 7 := by
  obtain ⟨b, hb⟩ := interp_terminates 0 ⟨21, 21, fun i j => if 5 ≤ i ∧ i ≤ 15 ∧ 5 ≤ j ∧ j ≤ 15 then none else some 7⟩
  have hc : ∀ i < 21, ∀ j < 21, ∀ v : ℚ, (if 5 ≤ i ∧ i ≤ 15 ∧ 5 ≤ j ∧ j ≤ 15 then none else some (7 : ℚ)) = some v → v = 7 := by
    intro i _ j _ v hv
    split at hv
    · cases hv
    · cases hv; rfl
  refine ⟨b, hb, (interp_crater _ _ _ hb 7 hc 10 10 ⟨by omega, by decide⟩ ⟨by omega, by decide⟩).2 ?_,
    (interp_crater _ _ _ hb 7 hc 9 10 ⟨by omega, by decide⟩ ⟨by omega, by decide⟩).1 ⟨4, 10, by omega, by omega, by omega, by omega, ?_⟩⟩
  · rintro ⟨r, k, h1, h2, h3, h4, hv⟩
    exact hv (if_pos (by omega))
  · simp

/-! ## Cosmic rays -/

/-- The background-subtracted image with its masked pixels NaN: what should be interpolated if there
were no cosmic rays. -/
def maskedSub (s : IState) : Img (Option ℚ) :=
  ⟨s.data.data.h, s.data.data.w, fun i j =>
    if s.data.mask.px i j then none else (s.data.data.px i j).map (· - s.bkg.px i j)⟩

theorem deref_new (s : IState) :
    (bkgSubImg >>= deref) s = (.ok ⟨⟨s.data.data.h, s.data.data.w,
      fun i j => (s.data.data.px i j).map (· - s.bkg.px i j)⟩, s.data.mask⟩, (bkgSubImg s).2) := by
  rw [bind_ok _ _ _ _ _ (show bkgSubImg s = (.ok s.heap.length, (bkgSubImg s).2) from rfl)]
  unfold deref bkgSubImg
  simp

/-- C60: `interped` is the interpolation of the masked, background-subtracted image, whatever the cosmic
ray detector finds. -/
theorem interped_eq (fuel : ℕ) (det : Img (Option ℚ) → Img Bool → Py (Img Bool))
    (s : IState) (hs : s.interped = none)
    (hdet : ∃ m, det ((⟨⟨s.data.data.h, s.data.data.w,
      fun i j => (s.data.data.px i j).map (· - s.bkg.px i j)⟩, s.data.mask⟩ : MArr).filled (some (-9999)))
      s.data.mask = .ok m) :
    (interpedImg fuel det s).1 = interpolate fuel (maskedSub s) ∧
    (interpedImg fuel det s).2.data = s.data ∧ (interpedImg fuel det s).2.bkg = s.bkg ∧
    ∀ a, (interpedImg fuel det s).1 = .ok a → (interpedImg fuel det s).2.interped = some a := by
  obtain ⟨m, hm⟩ := hdet
  have key : ∃ s', s'.data = s.data ∧ s'.bkg = s.bkg ∧
      interpedImg fuel det s = ((do
        let x ← bkgSubImg >>= deref
        let img ← lift (interpolate fuel (x.filled none))
        modify fun s => { s with interped := some img }
        pure img) : PyS IState _) s' := by
    unfold interpedImg
    rw [get_bind, hs]
    simp only []
    rw [bind_ok _ _ _ _ _ (deref_new s), bind_ok _ _ _ _ _ (deref_new _)]
    simp only [show (bkgSubImg s).2.data = s.data from rfl]
    rw [bind_ok _ _ _ _ _ (show lift (σ := IState) (det _ s.data.mask)
      (bkgSubImg (bkgSubImg s).2).2 = (.ok m, (bkgSubImg (bkgSubImg s).2).2) from
      Prod.ext hm rfl)]
    have hnew : ∀ t : IState, bkgSubImg t = (.ok t.heap.length, (bkgSubImg t).2) := fun t => rfl
    have hset : ∀ (r : ℕ) (x : Img Bool) (t : IState), setMask r x t = (.ok (), (setMask r x t).2) :=
      fun r x t => rfl
    rw [bind_ok _ _ _ _ _ (deref_new _), bind_ok _ _ _ _ _ (hnew _), bind_ok _ _ _ _ _ (hset _ _ _),
      bind_ok _ _ _ _ _ (deref_new _), bind_ok _ _ _ _ _ (deref_new _), bind_ok _ _ _ _ _ (hnew _),
      bind_ok _ _ _ _ _ (hset _ _ _)]
    refine ⟨_, ?_, ?_, rfl⟩ <;> rfl
  obtain ⟨s', h1, h2, h3⟩ := key
  rw [h3, bind_ok _ _ _ _ _ (deref_new s')]
  have hf : MArr.filled ⟨⟨s'.data.data.h, s'.data.data.w,
      fun i j => (s'.data.data.px i j).map (· - s'.bkg.px i j)⟩, s'.data.mask⟩ none = maskedSub s := by
    unfold MArr.filled maskedSub
    rw [h1, h2]
  rw [hf]
  cases hr : interpolate fuel (maskedSub s) with
  | error e => exact ⟨rfl, h1, h2, fun a ha => by cases ha⟩
  | ok b => exact ⟨rfl, h1, h2, fun a ha => by cases ha; rfl⟩

/-- C60: two cosmic-ray detectors give the same interpolated image. -/
theorem cosmics_ignored (fuel : ℕ) (c c' : Img (Option ℚ) → Img Bool → Img Bool)
    (s : IState) :
    (interpedImg fuel (fun a m => .ok (c a m)) s).1 =
      (interpedImg fuel (fun a m => .ok (c' a m)) s).1 := by
  cases hs : s.interped with
  | some a =>
    unfold interpedImg
    rw [get_bind, get_bind, hs]
  | none =>
    rw [(interped_eq fuel _ s hs ⟨_, rfl⟩).1, (interped_eq fuel _ s hs ⟨_, rfl⟩).1]

/-- A 1 × 3 image with the middle pixel masked. -/
def gapImg : IState := ⟨⟨⟨1, 3, fun _ j => some (j + 1)⟩, ⟨1, 3, fun _ j => j == 1⟩⟩, ⟨1, 3, fun _ _ => 1⟩, [], none⟩

example : ∃ b, interpolate 1 (maskedSub gapImg) = .ok b ∧ b.px 0 0 = some 0 ∧ b.px 0 2 = some 2 := by
  obtain ⟨b, hb⟩ := interp_terminates 1 (maskedSub gapImg)
  exact ⟨b, hb, interp_keeps _ _ _ hb 0 0 0 (by simp [maskedSub, gapImg]),
    interp_keeps _ _ _ hb 0 2 2 (by norm_num [maskedSub, gapImg])⟩

/-- A pixel that the detector marks keeps its value. -/
example : ∃ b, (interpedImg 1 (fun a _ => .ok ⟨a.h, a.w, fun _ _ => true⟩) gapImg).1 = .ok b ∧
    b.px 0 2 = some 2 := by
  obtain ⟨b, hb⟩ := interp_terminates 1 (maskedSub gapImg)
  refine ⟨b, ?_, interp_keeps _ _ _ hb 0 2 2 (by norm_num [maskedSub, gapImg])⟩
  rw [(interped_eq 1 _ gapImg rfl ⟨_, rfl⟩).1]
  exact hb

end PI
