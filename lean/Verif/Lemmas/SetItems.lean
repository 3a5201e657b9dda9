import Verif.Model.Sim
import Mathlib.Tactic.Linarith
import Mathlib.Tactic.NormNum

/-!
# Filling an array by loops over Python indices
-/

namespace PI

variable {α : Type}

theorem pyIdx_iff (n : ℕ) (i : ℤ) (p : ℕ) :
    pyIdx n i = some p ↔ p < n ∧ ((p : ℤ) = i ∨ (p : ℤ) = i + n) ∧ -(n : ℤ) ≤ i ∧ i < n := by
  unfold pyIdx
  split
  · rw [Option.some.injEq]; omega
  · split
    · rw [Option.some.injEq]; omega
    · constructor
      · intro h; cases h
      · intro h; omega

theorem pyIdx_isSome (n : ℕ) (i : ℤ) : (pyIdx n i).isSome ↔ -(n : ℤ) ≤ i ∧ i < n := by
  unfold pyIdx
  split
  · simp; omega
  · split
    · simp; omega
    · simp; omega

theorem setItems_append (a : Img α) (l m : List (ℤ × ℤ × α)) :
    setItems a (l ++ m) = (setItems a l >>= fun b => setItems b m) := by
  induction l generalizing a with
  | nil => rfl
  | cons e l ih =>
    show (setItem a e.1 e.2.1 e.2.2 >>= fun b => setItems b (l ++ m)) = _
    show _ = ((setItem a e.1 e.2.1 e.2.2 >>= fun b => setItems b l) >>= fun b => setItems b m)
    cases h : setItem a e.1 e.2.1 e.2.2 with
    | error _ => rfl
    | ok b => exact ih b

/-- An assignment with an index out of range raises, wherever it is in the sequence. -/
theorem setItems_err (a : Img α) (l : List (ℤ × ℤ × α))
    (h : ∃ e ∈ l, ¬ ((-(a.h : ℤ) ≤ e.1 ∧ e.1 < a.h) ∧ (-(a.w : ℤ) ≤ e.2.1 ∧ e.2.1 < a.w))) :
    setItems a l = .error .IndexError := by
  induction l generalizing a with
  | nil => obtain ⟨e, he, -⟩ := h; cases he
  | cons e l ih =>
    show (setItem a e.1 e.2.1 e.2.2 >>= fun b => setItems b l) = _
    unfold setItem
    cases h1 : pyIdx a.h e.1 with
    | none => rfl
    | some p =>
      cases h2 : pyIdx a.w e.2.1 with
      | none => rfl
      | some q =>
        refine ih _ ?_
        obtain ⟨e', he', hbad⟩ := h
        rcases List.mem_cons.mp he' with h | h
        · subst h
          exact absurd ⟨(pyIdx_isSome _ _).mp (by rw [h1]; rfl), (pyIdx_isSome _ _).mp (by rw [h2]; rfl)⟩ hbad
        · exact ⟨e', h, hbad⟩

theorem setItem_ok (a : Img α) (i j : ℤ) (v : α) (p q : ℕ) (h1 : pyIdx a.h i = some p)
    (h2 : pyIdx a.w j = some q) :
    setItem a i j v = .ok ⟨a.h, a.w, fun r c => if r = p ∧ c = q then v else a.px r c⟩ := by
  unfold setItem; rw [h1, h2]

theorem pyRange_succ (lo : ℤ) (k : ℕ) : pyRange lo (lo + k + 1) = pyRange lo (lo + k) ++ [lo + k] := by
  unfold pyRange
  rw [show (lo + k + 1 - lo).toNat = k + 1 by omega, show (lo + k - lo).toNat = k by omega,
    List.range_succ, List.map_append]
  rfl

theorem pyRange_self (lo : ℤ) : pyRange lo lo = [] := by
  unfold pyRange; simp

theorem mem_pyRange (lo hi x : ℤ) : x ∈ pyRange lo hi ↔ lo ≤ x ∧ x < hi := by
  unfold pyRange
  rw [List.mem_map]
  constructor
  · rintro ⟨k, hk, rfl⟩
    rw [List.mem_range] at hk; omega
  · rintro ⟨h1, h2⟩
    exact ⟨(x - lo).toNat, by rw [List.mem_range]; omega, by omega⟩

/-- The loop index that was the last to write to position `p` of an axis of length `n`. -/
def writer (n : ℕ) (lo hi : ℤ) (p : ℕ) : Option ℤ :=
  if lo ≤ p ∧ (p : ℤ) < hi then some p
  else if lo ≤ (p : ℤ) - n ∧ (p : ℤ) - n < hi then some (p - n) else none

theorem writer_none (n : ℕ) (lo : ℤ) (p : ℕ) : writer n lo lo p = none := by
  unfold writer
  rw [if_neg (by omega), if_neg (by omega)]

theorem writer_succ (n : ℕ) (lo : ℤ) (k p : ℕ) (hp : p < n) (h1 : -(n : ℤ) ≤ lo) (h2 : lo + k < n) :
    writer n lo (lo + k + 1) p = if pyIdx n (lo + k) = some p then some (lo + k) else writer n lo (lo + k) p := by
  have hidx := pyIdx_iff n (lo + k) p
  by_cases h : pyIdx n (lo + k) = some p
  · rw [if_pos h]
    have := hidx.mp h
    unfold writer
    by_cases hc : lo ≤ (p : ℤ) ∧ (p : ℤ) < lo + k + 1
    · rw [if_pos hc]; congr 1; omega
    · rw [if_neg hc, if_pos (by omega)]; congr 1; omega
  · rw [if_neg h]
    have hn : ¬ ((p : ℤ) = lo + k ∨ (p : ℤ) = lo + k + n) := by
      intro hc; exact h (hidx.mpr ⟨hp, hc, by omega, by omega⟩)
    unfold writer
    by_cases hc : lo ≤ (p : ℤ) ∧ (p : ℤ) < lo + k
    · rw [if_pos (by omega), if_pos hc]
    · rw [if_neg (by omega), if_neg hc]
      by_cases hd : lo ≤ (p : ℤ) - n ∧ (p : ℤ) - n < lo + k
      · rw [if_pos (by omega), if_pos hd]
      · rw [if_neg (by omega), if_neg hd]

/-- One row of a grid loop. -/
theorem setItems_row (a : Img α) (i lo : ℤ) (f : ℤ → α) (p : ℕ) (hi : pyIdx a.h i = some p)
    (k : ℕ) (h1 : -(a.w : ℤ) ≤ lo) (h2 : lo + k ≤ a.w) :
    ∃ b, setItems a ((pyRange lo (lo + k)).map fun j => (i, j, f j)) = .ok b ∧ b.h = a.h ∧ b.w = a.w ∧
      ∀ r, ∀ c < a.w, b.px r c = if r = p then ((writer a.w lo (lo + k) c).map f).getD (a.px r c) else a.px r c := by
  induction k with
  | zero =>
    refine ⟨a, ?_, rfl, rfl, fun r c hc => ?_⟩
    · simp [pyRange_self, setItems]
    · simp [writer_none]
  | succ k ih =>
    obtain ⟨b, hb, hh, hw, hpx⟩ := ih (by omega)
    have hjs : (pyIdx a.w (lo + k)).isSome := (pyIdx_isSome _ _).mpr (by omega)
    obtain ⟨q, hq⟩ := Option.isSome_iff_exists.mp hjs
    have e1 : lo + ((k + 1 : ℕ) : ℤ) = lo + k + 1 := by push_cast; ring
    refine ⟨⟨b.h, b.w, fun r c => if r = p ∧ c = q then f (lo + k) else b.px r c⟩, ?_, hh, hw, fun r c hc => ?_⟩
    · rw [e1, pyRange_succ, List.map_append, setItems_append, hb]
      show (setItem b i (lo + k) (f (lo + k)) >>= fun b => setItems b []) = _
      rw [setItem_ok b i (lo + k) _ p q (by rw [hh]; exact hi) (by rw [hw]; exact hq)]
      rfl
    · rw [e1, writer_succ a.w lo k c hc h1 (by omega)]
      show (if r = p ∧ c = q then f (lo + k) else b.px r c) = _
      by_cases hr : r = p
      · rw [if_pos hr]
        by_cases hcq : c = q
        · rw [if_pos ⟨hr, hcq⟩, hcq, if_pos hq]; rfl
        · have : ¬ pyIdx a.w (lo + k) = some c := by
            rw [hq]; intro h; exact hcq (Option.some.inj h).symm
          rw [if_neg (fun h => hcq h.2), if_neg this, hpx r c hc, if_pos hr]
      · rw [if_neg hr, if_neg (fun h => hr h.1), hpx r c hc, if_neg hr]

theorem pyRange_flatMap_succ {β : Type} (lo : ℤ) (k : ℕ) (g : ℤ → List β) :
    (pyRange lo (lo + k + 1)).flatMap g = (pyRange lo (lo + k)).flatMap g ++ g (lo + k) := by
  rw [pyRange_succ, List.flatMap_append]
  simp

/-- A double loop over a square of indices that are all in range: each pixel holds the value of the
last indices that address it. -/
theorem setItems_grid (a : Img α) (lo clo : ℤ) (f : ℤ → ℤ → α) (k m : ℕ)
    (h1 : -(a.h : ℤ) ≤ lo) (h2 : lo + k ≤ a.h) (h3 : -(a.w : ℤ) ≤ clo) (h4 : clo + m ≤ a.w) :
    ∃ b, setItems a ((pyRange lo (lo + k)).flatMap fun i => (pyRange clo (clo + m)).map fun j => (i, j, f i j))
        = .ok b ∧ b.h = a.h ∧ b.w = a.w ∧
      ∀ r < a.h, ∀ c < a.w, b.px r c =
        ((writer a.h lo (lo + k) r).bind fun i => (writer a.w clo (clo + m) c).map fun j => f i j).getD (a.px r c) := by
  induction k with
  | zero =>
    refine ⟨a, ?_, rfl, rfl, fun r hr c hc => ?_⟩
    · simp [pyRange_self, setItems]
    · simp [writer_none]
  | succ k ih =>
    obtain ⟨b, hb, hh, hw, hpx⟩ := ih (by omega)
    have hjs : (pyIdx a.h (lo + k)).isSome := (pyIdx_isSome _ _).mpr (by omega)
    obtain ⟨p, hp⟩ := Option.isSome_iff_exists.mp hjs
    have e1 : lo + ((k + 1 : ℕ) : ℤ) = lo + k + 1 := by push_cast; ring
    obtain ⟨b', hb', hh', hw', hpx'⟩ := setItems_row b (lo + k) clo (f (lo + k)) p (by rw [hh]; exact hp) m
      (by rw [hw]; exact h3) (by rw [hw]; exact h4)
    refine ⟨b', ?_, hh'.trans hh, hw'.trans hw, fun r hr c hc => ?_⟩
    · rw [e1, pyRange_flatMap_succ, setItems_append, hb]
      exact hb'
    · rw [hpx' r c (by rw [hw]; exact hc), hpx r hr c hc, e1, writer_succ a.h lo k r hr h1 (by omega), hw]
      by_cases hrp : r = p
      · rw [if_pos hrp, hrp, if_pos hp]
        cases hwc : writer a.w clo (clo + m) c with
        | none =>
          cases writer a.h lo (lo + k) p <;> simp
        | some j => simp
      · have : ¬ pyIdx a.h (lo + k) = some r := by
          rw [hp]; intro h; exact hrp (Option.some.inj h).symm
        rw [if_neg hrp, if_neg this]

/-- The same for a range given by its ends. -/
theorem setItems_square (a : Img α) (lo hi : ℤ) (f : ℤ → ℤ → α) (hsq : a.w = a.h)
    (h0 : lo ≤ hi) (h1 : -(a.h : ℤ) ≤ lo) (h2 : hi ≤ a.h) :
    ∃ b, setItems a ((pyRange lo hi).flatMap fun i => (pyRange lo hi).map fun j => (i, j, f i j))
        = .ok b ∧ b.h = a.h ∧ b.w = a.w ∧
      ∀ r < a.h, ∀ c < a.w, b.px r c =
        ((writer a.h lo hi r).bind fun i => (writer a.h lo hi c).map fun j => f i j).getD (a.px r c) := by
  have e : hi = lo + (hi - lo).toNat := by omega
  obtain ⟨b, hb, hh, hw, hpx⟩ := setItems_grid a lo lo f (hi - lo).toNat (hi - lo).toNat h1 (by omega)
    (by rw [hsq]; exact h1) (by rw [hsq]; omega)
  rw [← e] at hb hpx
  refine ⟨b, hb, hh, hw, fun r hr c hc => ?_⟩
  rw [hpx r hr c hc, hsq]

end PI
