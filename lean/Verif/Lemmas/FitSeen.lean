import Verif.Model.Subtract

/-! # Whether a fit has an unmasked pixel to look at -/

namespace PI

theorem windowSeen_iff (mask : NMask) (h w : ℕ) : windowSeen mask h w = true ↔
    ∃ i j : ℕ, 100 ≤ i ∧ i + 100 < h ∧ 100 ≤ j ∧ j + 100 < w ∧ mask.marks i j = false := by
  unfold windowSeen optBorder
  rw [decide_eq_true_iff]
  constructor
  · rintro ⟨i, hi, j, hj, hm⟩
    rw [Finset.mem_Ico] at hi hj
    exact ⟨i, j, by omega, by omega, by omega, by omega, hm⟩
  · rintro ⟨i, j, h1, h2, h3, h4, hm⟩
    exact ⟨i, Finset.mem_Ico.2 (by omega), j, Finset.mem_Ico.2 (by omega), hm⟩

theorem imageSeen_iff (mask : NMask) (h w : ℕ) : imageSeen mask h w = true ↔
    ∃ i < h, ∃ j < w, mask.marks i j = false := by
  unfold imageSeen
  rw [decide_eq_true_iff]
  constructor
  · rintro ⟨i, hi, j, hj, hm⟩
    exact ⟨i, Finset.mem_range.1 hi, j, Finset.mem_range.1 hj, hm⟩
  · rintro ⟨i, hi, j, hj, hm⟩
    exact ⟨i, Finset.mem_range.2 hi, j, Finset.mem_range.2 hj, hm⟩

theorem imageSeen_some (a : Img Bool) (h w : ℕ) (hh : a.h = h) (hw : a.w = w) :
    imageSeen (some a) h w = (a.map fun b => !b).any := by
  rw [Bool.eq_iff_iff, imageSeen_iff, Img.any_iff]
  subst hh
  subst hw
  constructor
  · rintro ⟨i, hi, j, hj, h⟩
    exact ⟨i, hi, j, hj, by change (!(a.px i j)) = true; change a.px i j = false at h; rw [h]; rfl⟩
  · rintro ⟨i, hi, j, hj, h⟩
    exact ⟨i, hi, j, hj, by change (!(a.px i j)) = true at h; change a.px i j = false; simpa using h⟩

/-- A rearrangement of the pixels of a mask does not matter. -/
theorem imageSeen_rearranged (f : Img Bool → Img Bool) (hf : ∀ a, (f a).h = a.h ∧ (f a).w = a.w)
    (hany : ∀ a : Img Bool, (((f a).map fun b => !b).any) = (a.map fun b => !b).any) (m : NMask) (h w : ℕ)
    (hs : m.HasShape h w) : imageSeen (Option.map f m) h w = imageSeen m h w := by
  cases m with
  | none => rfl
  | some a =>
    obtain ⟨h1, h2⟩ := hs a rfl
    change imageSeen (some (f a)) h w = imageSeen (some a) h w
    rw [imageSeen_some _ _ _ ((hf a).1.trans h1) ((hf a).2.trans h2), imageSeen_some _ _ _ h1 h2, hany]

end PI
