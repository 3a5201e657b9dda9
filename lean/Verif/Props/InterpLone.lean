import Verif.Props.Interp
import Mathlib.Tactic.IntervalCases

/-!
# The value given to a lone masked pixel (C99)
-/

namespace PI
open PyS

/-- Weight of a row or column at distance `d`: one up to four pixels away, a half at five. -/
def boxWeight (d : ℤ) : ℚ := if |d| ≤ 4 then 1 else 1 / 2

/-- The pixels as a function on the whole plane, zero outside of an `h × w` image. -/
def zeroOutside (h w : ℕ) (x : ℕ → ℕ → ℚ) (r c : ℤ) : ℚ :=
  if 0 ≤ r ∧ r < h ∧ 0 ≤ c ∧ c < w then x r.toNat c.toNat else 0

/-- Sum over the other 120 pixels of the 11 × 11 window around `(i, j)`. -/
def windowSum (h w : ℕ) (x : ℕ → ℕ → ℚ) (i j : ℕ) : ℚ :=
  ∑ d ∈ Finset.Icc (-5 : ℤ) 5, ∑ e ∈ Finset.Icc (-5 : ℤ) 5,
    if d = 0 ∧ e = 0 then 0 else boxWeight d * boxWeight e * zeroOutside h w x (i + d) (j + e)

/-- An image with pixels `x` of which only `(i, j)` is masked. -/
def LoneMasked (a : Img (Option ℚ)) (x : ℕ → ℕ → ℚ) (i j : ℕ) : Prop :=
  i < a.h ∧ j < a.w ∧ a.px i j = none ∧
    ∀ r < a.h, ∀ c < a.w, (r ≠ i ∨ c ≠ j) → a.px r c = some (x r c)

theorem boxW_eq (d : ℤ) (h : d ∈ Finset.Icc (-5 : ℤ) 5) : boxW d = boxWeight d := by
  rw [Finset.mem_Icc] at h
  unfold boxW boxWeight
  by_cases h4 : |d| ≤ 4
  · rw [if_pos h4, if_pos (by omega)]
  · have h5 : |d| ≤ 5 := abs_le.2 ⟨by omega, by omega⟩
    rw [if_neg h4, if_neg (by omega), if_pos (by omega)]

theorem lone_sample (a : Img (Option ℚ)) (x : ℕ → ℕ → ℚ) (i j : ℕ) (hl : LoneMasked a x i j) (d e : ℤ) :
    sample true a (i + d) (j + e) =
      if d = 0 ∧ e = 0 then none else some (zeroOutside a.h a.w x (i + d) (j + e)) := by
  obtain ⟨hi, hj, hn, ho⟩ := hl
  by_cases h0 : d = 0 ∧ e = 0
  · obtain ⟨rfl, rfl⟩ := h0
    rw [if_pos ⟨rfl, rfl⟩, add_zero, add_zero, sample_in (by unfold inImg; omega)]
    simpa using hn
  · rw [if_neg h0]
    unfold zeroOutside
    by_cases hin : inImg a (i + d) (j + e)
    · rw [sample_in hin]
      unfold inImg at hin
      rw [if_pos hin]
      refine ho _ (by omega) _ (by omega) ?_
      by_contra hc
      push Not at hc
      exact h0 ⟨by omega, by omega⟩
    · rw [sample_out hin]
      unfold inImg at hin
      rw [if_neg hin]
      rfl

theorem box_total : ∑ d ∈ Finset.Icc (-5 : ℤ) 5, boxWeight d = 10 := by decide +kernel

theorem lone_wsum (a : Img (Option ℚ)) (x : ℕ → ℕ → ℚ) (i j : ℕ) (hl : LoneMasked a x i j) :
    wsum true a i j = 99 := by
  have : ∀ d ∈ Finset.Icc (-5 : ℤ) 5, ∀ e ∈ Finset.Icc (-5 : ℤ) 5,
      (if (sample true a (i + d) (j + e)).isSome then kern d e else 0) =
        if d = 0 ∧ e = 0 then (0 : ℚ) else boxWeight d * boxWeight e := by
    intro d hd e he
    rw [lone_sample a x i j hl]
    unfold kern
    rw [boxW_eq d hd, boxW_eq e he]
    by_cases h0 : d = 0 ∧ e = 0
    · rw [if_pos h0, if_pos h0]; rfl
    · rw [if_neg h0, if_neg h0]; rfl
  unfold wsum offs
  rw [Finset.sum_congr rfl fun d hd => Finset.sum_congr rfl fun e he => this d hd e he]
  decide +kernel

theorem lone_vsum (a : Img (Option ℚ)) (x : ℕ → ℕ → ℚ) (i j : ℕ) (hl : LoneMasked a x i j) :
    vsum true a i j = windowSum a.h a.w x i j := by
  unfold vsum offs windowSum
  refine Finset.sum_congr rfl fun d hd => Finset.sum_congr rfl fun e he => ?_
  rw [lone_sample a x i j hl]
  unfold kern
  rw [boxW_eq d hd, boxW_eq e he]
  by_cases h0 : d = 0 ∧ e = 0
  · rw [if_pos h0, if_pos h0]; simp
  · rw [if_neg h0, if_neg h0]; rfl

theorem anyNan_false (a : Img (Option ℚ)) (h : ∀ i < a.h, ∀ j < a.w, a.px i j ≠ none) : anyNan a = false := by
  by_contra hc
  rw [Bool.not_eq_false, anyNan_iff] at hc
  obtain ⟨i, hi, j, hj, hn⟩ := hc
  exact h i hi j hj hn

/-- C99: a lone masked pixel becomes a ninety-ninth of the weighted sum of the other pixels of the window,
pixels outside of the image counting as zeros. -/
theorem lone_value (a : Img (Option ℚ)) (x : ℕ → ℕ → ℚ) (i j fuel : ℕ) (hl : LoneMasked a x i j) :
    ∃ b, interpolate fuel a = .ok b ∧ b.px i j = some (windowSum a.h a.w x i j / 99) ∧
      ∀ r < a.h, ∀ c < a.w, (r ≠ i ∨ c ≠ j) → b.px r c = some (x r c) := by
  have hpx : (replaceNans a).px i j = some (windowSum a.h a.w x i j / 99) := by
    rw [replaceNans_none _ _ _ hl.2.2.1, lone_wsum a x i j hl, lone_vsum a x i j hl, if_neg (by norm_num)]
  have hrest : ∀ r < a.h, ∀ c < a.w, (r ≠ i ∨ c ≠ j) → (replaceNans a).px r c = some (x r c) :=
    fun r hr c hc h => replaceNans_some _ _ _ _ (hl.2.2.2 r hr c hc h)
  refine ⟨replaceNans a, ?_, hpx, hrest⟩
  have hno : anyNan (replaceNans a) = false := by
    refine anyNan_false _ fun r hr c hc => ?_
    by_cases h : r = i ∧ c = j
    · rw [h.1, h.2, hpx]; simp
    · rw [hrest r hr c hc (by omega)]; simp
  unfold interpolate
  cases fuel <;> unfold nanLoop <;> rw [hno] <;> rfl

theorem windowSum_inner (h w : ℕ) (x : ℕ → ℕ → ℚ) (i j : ℕ) (f : ℤ → ℤ → ℚ) (hi : 5 ≤ i ∧ i + 5 < h)
    (hj : 5 ≤ j ∧ j + 5 < w)
    (hf : ∀ d e : ℤ, |d| ≤ 5 → |e| ≤ 5 → x (i + d).toNat (j + e).toNat = f d e) :
    windowSum h w x i j = ∑ d ∈ Finset.Icc (-5 : ℤ) 5, ∑ e ∈ Finset.Icc (-5 : ℤ) 5,
      if d = 0 ∧ e = 0 then 0 else boxWeight d * boxWeight e * f d e := by
  unfold windowSum
  refine Finset.sum_congr rfl fun d hd => Finset.sum_congr rfl fun e he => ?_
  rw [Finset.mem_Icc] at hd he
  unfold zeroOutside
  have hin : 0 ≤ (i : ℤ) + d ∧ (i : ℤ) + d < h ∧ 0 ≤ (j : ℤ) + e ∧ (j : ℤ) + e < w := by omega
  rw [if_pos hin, hf d e (abs_le.2 ⟨by omega, by omega⟩) (abs_le.2 ⟨by omega, by omega⟩)]

/-- C99: in a plane the value is exact, if the pixel is five or more pixels away from every edge. -/
theorem lone_plane (a : Img (Option ℚ)) (x : ℕ → ℕ → ℚ) (i j fuel : ℕ) (hl : LoneMasked a x i j)
    (hi : 5 ≤ i ∧ i + 5 < a.h) (hj : 5 ≤ j ∧ j + 5 < a.w) (α β γ : ℚ)
    (hx : ∀ r c : ℕ, r ≤ i + 5 → i ≤ r + 5 → c ≤ j + 5 → j ≤ c + 5 → x r c = α + β * r + γ * c) :
    ∃ b, interpolate fuel a = .ok b ∧ b.px i j = some (α + β * i + γ * j) := by
  obtain ⟨b, hb, hv, _⟩ := lone_value a x i j fuel hl
  refine ⟨b, hb, ?_⟩
  rw [hv, windowSum_inner a.h a.w x i j (fun d e => α + β * i + γ * j + β * d + γ * e) hi hj]
  · congr 1
    generalize α + β * i + γ * j = k
    have hsplit : ∀ d ∈ Finset.Icc (-5 : ℤ) 5, ∀ e ∈ Finset.Icc (-5 : ℤ) 5,
        (if d = 0 ∧ e = 0 then 0 else boxWeight d * boxWeight e * (k + β * d + γ * e)) =
        k * (if d = 0 ∧ e = 0 then 0 else boxWeight d * boxWeight e) +
          β * (boxWeight d * boxWeight e * d) + γ * (boxWeight d * boxWeight e * e) := by
      intro d _ e _
      by_cases h0 : d = 0 ∧ e = 0
      · rw [if_pos h0, if_pos h0, h0.1, h0.2]; simp
      · rw [if_neg h0, if_neg h0]; ring
    rw [Finset.sum_congr rfl fun d hd => Finset.sum_congr rfl fun e he => hsplit d hd e he]
    simp only [Finset.sum_add_distrib, ← Finset.mul_sum]
    have h1 : ∑ d ∈ Finset.Icc (-5 : ℤ) 5, ∑ e ∈ Finset.Icc (-5 : ℤ) 5,
        (if d = 0 ∧ e = 0 then (0 : ℚ) else boxWeight d * boxWeight e) = 99 := by decide +kernel
    have h2 : ∑ d ∈ Finset.Icc (-5 : ℤ) 5, ∑ e ∈ Finset.Icc (-5 : ℤ) 5,
        boxWeight d * boxWeight e * (d : ℚ) = 0 := by decide +kernel
    have h3 : ∑ d ∈ Finset.Icc (-5 : ℤ) 5, ∑ e ∈ Finset.Icc (-5 : ℤ) 5,
        boxWeight d * boxWeight e * (e : ℚ) = 0 := by decide +kernel
    rw [h1, h2, h3]
    ring
  · intro d e hd he
    rw [abs_le] at hd he
    rw [hx _ _ (by omega) (by omega) (by omega) (by omega)]
    have e1 : (((i : ℤ) + d).toNat : ℚ) = i + d := by
      have : ((((i : ℤ) + d).toNat : ℤ) : ℚ) = ((i + d : ℤ) : ℚ) := by rw [Int.toNat_of_nonneg (by omega)]
      push_cast at this
      exact this
    have e2 : (((j : ℤ) + e).toNat : ℚ) = j + e := by
      have : ((((j : ℤ) + e).toNat : ℤ) : ℚ) = ((j + e : ℤ) : ℚ) := by rw [Int.toNat_of_nonneg (by omega)]
      push_cast at this
      exact this
    rw [e1, e2]
    ring

/-- C99: a masked corner pixel of a constant image at least six pixels a side gets `13/44` of the constant. -/
theorem lone_corner (a : Img (Option ℚ)) (k : ℚ) (fuel : ℕ) (hl : LoneMasked a (fun _ _ => k) 0 0)
    (hh : 6 ≤ a.h) (hw : 6 ≤ a.w) :
    ∃ b, interpolate fuel a = .ok b ∧ b.px 0 0 = some (13 / 44 * k) := by
  obtain ⟨b, hb, hv, _⟩ := lone_value a _ 0 0 fuel hl
  refine ⟨b, hb, ?_⟩
  rw [hv]
  congr 1
  have : windowSum a.h a.w (fun _ _ => k) 0 0 = k * ∑ d ∈ Finset.Icc (-5 : ℤ) 5, ∑ e ∈ Finset.Icc (-5 : ℤ) 5,
      (if d = 0 ∧ e = 0 then (0 : ℚ) else if 0 ≤ d ∧ 0 ≤ e then boxWeight d * boxWeight e else 0) := by
    unfold windowSum
    rw [Finset.mul_sum]
    refine Finset.sum_congr rfl fun d hd => ?_
    rw [Finset.mul_sum]
    refine Finset.sum_congr rfl fun e he => ?_
    rw [Finset.mem_Icc] at hd he
    unfold zeroOutside
    by_cases h0 : d = 0 ∧ e = 0
    · rw [if_pos h0, if_pos h0, mul_zero]
    · rw [if_neg h0, if_neg h0]
      by_cases h1 : 0 ≤ d ∧ 0 ≤ e
      · rw [if_pos h1, if_pos (by push_cast; omega)]; ring
      · rw [if_neg h1, if_neg (by push_cast; omega)]; ring
  have h29 : ∑ d ∈ Finset.Icc (-5 : ℤ) 5, ∑ e ∈ Finset.Icc (-5 : ℤ) 5,
      (if d = 0 ∧ e = 0 then (0 : ℚ) else if 0 ≤ d ∧ 0 ≤ e then boxWeight d * boxWeight e else 0) = 117 / 4 := by
    decide +kernel
  rw [this, h29]
  ring

/-- C99: the same for the image object: a lone masked pixel of `interped`. -/
theorem lone_interped (fuel : ℕ) (det : Img (Option ℚ) → Img Bool → Img Bool) (s : IState)
    (hs : s.interped = none) (x : ℕ → ℕ → ℚ) (i j : ℕ) (hi : i < s.data.data.h) (hj : j < s.data.data.w)
    (hx : ∀ r < s.data.data.h, ∀ c < s.data.data.w, s.data.data.px r c = some (x r c))
    (hm : ∀ r < s.data.data.h, ∀ c < s.data.data.w, s.data.mask.px r c = true ↔ r = i ∧ c = j) :
    ∃ b, (interpedImg fuel (fun a m => .ok (det a m)) s).1 = .ok b ∧
      b.px i j = some (windowSum s.data.data.h s.data.data.w (fun r c => x r c - s.bkg.px r c) i j / 99) := by
  have hl : LoneMasked (maskedSub s) (fun r c => x r c - s.bkg.px r c) i j := by
    refine ⟨hi, hj, ?_, fun r hr c hc h => ?_⟩
    · change (if s.data.mask.px i j = true then none else _) = none
      rw [if_pos ((hm i hi j hj).2 ⟨rfl, rfl⟩)]
    · change (if s.data.mask.px r c = true then none else
        (s.data.data.px r c).map (· - s.bkg.px r c)) = _
      have : ¬ s.data.mask.px r c = true := fun hc' => by
        obtain ⟨e1, e2⟩ := (hm r hr c hc).1 hc'
        omega
      rw [if_neg this, hx r hr c hc]
      rfl
  obtain ⟨b, hb, hv, _⟩ := lone_value _ _ i j fuel hl
  exact ⟨b, (interped_eq fuel _ s hs ⟨_, rfl⟩).1.trans hb, hv⟩

/-- A `12 × 12` constant image with one masked corner pixel. -/
example : LoneMasked ⟨12, 12, fun r c => if r = 0 ∧ c = 0 then none else some 7⟩ (fun _ _ => 7) 0 0 := by
  refine ⟨by decide, by decide, rfl, fun r _ c _ h => ?_⟩
  exact if_neg (by omega)

end PI
