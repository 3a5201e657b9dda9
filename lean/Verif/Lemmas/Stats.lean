import Verif.Base.Stats
import Mathlib.Algebra.Order.Floor.Semiring
import Mathlib.Tactic.Linarith
import Mathlib.Tactic.Positivity
import Mathlib.Tactic.FieldSimp
import Mathlib.Tactic.Ring
import Mathlib.Data.List.GetD

/-! # Order statistics -/

namespace PI

theorem sortQ_perm (l : List ℚ) : (sortQ l).Perm l := List.perm_insertionSort _ _

theorem sortQ_length (l : List ℚ) : (sortQ l).length = l.length := (sortQ_perm l).length_eq

theorem sortQ_sorted (l : List ℚ) : (sortQ l).Pairwise (· ≤ ·) := List.pairwise_insertionSort _ _

theorem sortQ_mono (l : List ℚ) (i j : ℕ) (hij : i ≤ j) (hj : j < l.length) :
    (sortQ l).getD i 0 ≤ (sortQ l).getD j 0 := by
  have hl := sortQ_length l
  rw [List.getD_eq_getElem _ _ (by omega), List.getD_eq_getElem _ _ (by omega)]
  rcases Nat.lt_or_ge i j with h | h
  · exact List.pairwise_iff_getElem.1 (sortQ_sorted l) i j (by omega) (by omega) h
  · have : i = j := by omega
    subst this; exact le_refl _

/-- If the entries from position `k` on fail the predicate, at most `k` entries satisfy it. -/
theorem countP_le_of_suffix (s : List ℚ) (p : ℚ → Bool) (k : ℕ)
    (h : ∀ i, k ≤ i → i < s.length → p (s.getD i 0) = false) : s.countP p ≤ k := by
  induction s generalizing k with
  | nil => simp
  | cons a s ih =>
    cases k with
    | zero =>
      rw [List.countP_eq_zero.2]
      intro x hx
      obtain ⟨i, hi, rfl⟩ := List.getElem_of_mem hx
      have := h i (Nat.zero_le _) hi
      rw [List.getD_eq_getElem _ _ hi] at this
      simp [this]
    | succ k =>
      rw [List.countP_cons]
      have := ih k (fun i hk hi => by
        have := h (i + 1) (by omega) (by simpa using hi)
        simpa using this)
      split <;> omega

/-- If the entries up to position `k` fail the predicate, at most `length - 1 - k` satisfy it. -/
theorem countP_le_of_prefix (s : List ℚ) (p : ℚ → Bool) (k : ℕ) (hk : k < s.length)
    (h : ∀ i, i ≤ k → p (s.getD i 0) = false) : s.countP p ≤ s.length - 1 - k := by
  induction s generalizing k with
  | nil => simp at hk
  | cons a s ih =>
    have h0 := h 0 (Nat.zero_le _)
    rw [List.getD_cons_zero] at h0
    rw [List.countP_cons, h0]
    cases k with
    | zero => simpa using List.countP_le_length
    | succ k =>
      have := ih k (by simpa using hk) (fun i hi => by
        have := h (i + 1) (by omega)
        simpa using this)
      simp only [List.length_cons, Bool.false_eq_true, if_false, add_zero]
      omega

/-- The position (from zero) of the `q`-th percentile in a list of `n` values. -/
def pctPos (q : ℚ) (n : ℕ) : ℚ := q / 100 * ((n : ℚ) - 1)

theorem pctPos_bounds (q : ℚ) (n : ℕ) (hn : 0 < n) (h0 : 0 ≤ q) (h1 : q ≤ 100) :
    0 ≤ pctPos q n ∧ pctPos q n ≤ ((n - 1 : ℕ) : ℚ) := by
  unfold pctPos
  have e : ((n - 1 : ℕ) : ℚ) = (n : ℚ) - 1 := by
    rw [Nat.cast_sub (by omega)]; simp
  have hn' : (0 : ℚ) ≤ (n : ℚ) - 1 := by rw [← e]; positivity
  refine ⟨by positivity, ?_⟩
  rw [e]
  have : q / 100 ≤ 1 := by linarith
  nlinarith

theorem percentile_eq (q : ℚ) (l : List ℚ) :
    percentile q l = (sortQ l).getD ⌊pctPos q l.length⌋₊ 0 +
      (pctPos q l.length - ⌊pctPos q l.length⌋₊) *
      ((sortQ l).getD (min (⌊pctPos q l.length⌋₊ + 1) (l.length - 1)) 0 -
        (sortQ l).getD ⌊pctPos q l.length⌋₊ 0) := by
  unfold percentile pctPos
  simp only [sortQ_length]

/-- The percentile lies between the order statistics below and above its position. -/
theorem percentile_between (q : ℚ) (l : List ℚ) (hl : l ≠ []) (h0 : 0 ≤ q) (h1 : q ≤ 100) :
    (sortQ l).getD ⌊pctPos q l.length⌋₊ 0 ≤ percentile q l ∧
      percentile q l ≤ (sortQ l).getD ⌈pctPos q l.length⌉₊ 0 := by
  have hn : 0 < l.length := List.length_pos_iff.2 hl
  obtain ⟨b0, b1⟩ := pctPos_bounds q l.length hn h0 h1
  rw [percentile_eq]
  set h := pctPos q l.length
  have k1 : ⌊h⌋₊ ≤ l.length - 1 := Nat.floor_le_of_le b1
  have k2 : ⌈h⌉₊ ≤ l.length - 1 := Nat.ceil_le.2 b1
  have f0 : (⌊h⌋₊ : ℚ) ≤ h := Nat.floor_le b0
  have f1 : h < ⌊h⌋₊ + 1 := Nat.lt_floor_add_one h
  have m1 : (sortQ l).getD ⌊h⌋₊ 0 ≤ (sortQ l).getD (min (⌊h⌋₊ + 1) (l.length - 1)) 0 :=
    sortQ_mono l _ _ (by omega) (by omega)
  constructor
  · nlinarith
  · rcases eq_or_lt_of_le f0 with e | hlt
    · have : ⌈h⌉₊ = ⌊h⌋₊ := by rw [← e]; simp
      rw [this, ← e]; simp
    · have hc : ⌈h⌉₊ = ⌊h⌋₊ + 1 := by
        apply le_antisymm
        · rw [Nat.ceil_le]; push_cast; linarith
        · have : (⌊h⌋₊ : ℚ) < (⌈h⌉₊ : ℚ) := lt_of_lt_of_le hlt (Nat.le_ceil h)
          exact_mod_cast this
      rw [hc, min_eq_left (by omega)]
      have : (sortQ l).getD ⌊h⌋₊ 0 ≤ (sortQ l).getD (⌊h⌋₊ + 1) 0 := sortQ_mono l _ _ (by omega) (by omega)
      nlinarith

/-- At most `⌈position⌉` values lie strictly below the percentile. -/
theorem countP_lt_percentile (q : ℚ) (l : List ℚ) (hl : l ≠ []) (h0 : 0 ≤ q) (h1 : q ≤ 100) :
    l.countP (fun x => decide (x < percentile q l)) ≤ ⌈pctPos q l.length⌉₊ := by
  rw [← (sortQ_perm l).countP_eq]
  apply countP_le_of_suffix
  intro i hi hlt
  rw [sortQ_length] at hlt
  apply decide_eq_false
  rw [not_lt]
  exact (percentile_between q l hl h0 h1).2.trans (sortQ_mono l _ _ hi hlt)

/-- At most `n - 1 - ⌊position⌋` values lie strictly above the percentile. -/
theorem countP_gt_percentile (q : ℚ) (l : List ℚ) (hl : l ≠ []) (h0 : 0 ≤ q) (h1 : q ≤ 100) :
    l.countP (fun x => decide (percentile q l < x)) ≤ l.length - 1 - ⌊pctPos q l.length⌋₊ := by
  have hn : 0 < l.length := List.length_pos_iff.2 hl
  have hk : ⌊pctPos q l.length⌋₊ ≤ l.length - 1 :=
    Nat.floor_le_of_le (pctPos_bounds q l.length hn h0 h1).2
  rw [← (sortQ_perm l).countP_eq, ← sortQ_length l]
  rw [← sortQ_length l] at hn hk
  refine countP_le_of_prefix _ _ _ (by omega) ?_
  intro i hi
  apply decide_eq_false
  rw [not_lt]
  rw [sortQ_length] at hi hk hn
  exact (sortQ_mono l _ _ hi (by omega)).trans (percentile_between q l hl h0 h1).1

theorem percentile_nonneg (q : ℚ) (l : List ℚ) (hl : l ≠ []) (h0 : 0 ≤ q) (h1 : q ≤ 100)
    (hp : ∀ x ∈ l, 0 ≤ x) : 0 ≤ percentile q l := by
  refine le_trans ?_ (percentile_between q l hl h0 h1).1
  have hn : 0 < l.length := List.length_pos_iff.2 hl
  have hk : ⌊pctPos q l.length⌋₊ ≤ l.length - 1 :=
    Nat.floor_le_of_le (pctPos_bounds q l.length hn h0 h1).2
  rw [List.getD_eq_getElem _ _ (by rw [sortQ_length]; omega)]
  exact hp _ ((sortQ_perm l).mem_iff.1 (List.getElem_mem _))

end PI
