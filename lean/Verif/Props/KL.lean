import Verif.Model.KL
import Mathlib.Algebra.Order.BigOperators.Ring.Finset
import Mathlib.Algebra.Order.BigOperators.Group.List
import Mathlib.Algebra.Order.Field.Basic
import Mathlib.Algebra.BigOperators.Field
import Mathlib.Algebra.BigOperators.Intervals
import Mathlib.Order.Bounds.Basic
import Mathlib.Tactic.FieldSimp
import Mathlib.Tactic.Linarith
import Mathlib.Tactic.Ring

/-! # Properties C52–C54: number of basis elements and covariance matrix -/

namespace PI

variable {K : Type} [Field K] [LinearOrder K] [IsStrictOrderedRing K]

/-! ## C52 -/

/-- The share of the `c` last (largest) eigenvalues in the total, in absolute value. -/
def keptShare (vals : List K) (c : ℕ) : K :=
  ((vals.reverse.take c).map fun v => |v|).sum / (vals.map fun v => |v|).sum

omit [IsStrictOrderedRing K] in
theorem cutLoop_spec (loss : K) (l : List K) (pw : K) (cut : ℕ) :
    ∃ k ≤ l.length, cutLoop loss l pw cut = cut + k ∧ (∀ i < k, loss < pw - (l.take (i + 1)).sum) ∧
      (k < l.length → pw - (l.take (k + 1)).sum ≤ loss) := by
  induction l generalizing pw cut with
  | nil => exact ⟨0, le_refl _, rfl, by simp, by simp⟩
  | cons e es ih =>
    rw [cutLoop]
    by_cases h : loss < pw - e
    · rw [if_pos h]
      obtain ⟨k, h1, h2, h3, h4⟩ := ih (pw - e) (cut + 1)
      refine ⟨k + 1, by simpa using h1, by rw [h2]; ring, ?_, ?_⟩
      · intro i hi
        cases i with
        | zero => simpa using h
        | succ i =>
          have := h3 i (by omega)
          rw [List.take_succ_cons, List.sum_cons]
          rwa [← sub_sub]
      · intro hk
        have := h4 (by simpa using hk)
        rw [List.take_succ_cons, List.sum_cons]
        rwa [← sub_sub]
    · rw [if_neg h]
      refine ⟨0, Nat.zero_le _, rfl, by simp, fun _ => ?_⟩
      simpa using not_lt.1 h

omit [IsStrictOrderedRing K] in
theorem sum_take_power (vals : List K) (c : ℕ) :
    ((power vals).reverse.take c).sum = keptShare vals c := by
  unfold power keptShare
  rw [← List.map_reverse, ← List.map_take]
  generalize (vals.map fun v => |v|).sum = t
  induction (vals.reverse.take c) with
  | nil => simp
  | cons a l ih => simp only [List.map_cons, List.sum_cons, ih]; ring

/-- Not all eigenvalues vanish. -/
theorem total_pos (vals : List K) (h : ∃ v ∈ vals, v ≠ 0) : 0 < (vals.map fun v => |v|).sum := by
  induction vals with
  | nil => simp at h
  | cons a l ih =>
    have hl : 0 ≤ (l.map fun v => |v|).sum := List.sum_nonneg (by simp)
    rw [List.map_cons, List.sum_cons]
    obtain ⟨v, hv, h0⟩ := h
    rcases List.mem_cons.1 hv with rfl | hv
    · have := abs_pos.2 h0; linarith
    · have := ih ⟨v, hv, h0⟩
      have := abs_nonneg a
      linarith

theorem keptShare_all (vals : List K) (h : ∃ v ∈ vals, v ≠ 0) (c : ℕ) (hc : vals.length ≤ c) :
    keptShare vals c = 1 := by
  unfold keptShare
  rw [List.take_of_length_le (by simpa using hc), List.map_reverse, List.sum_reverse,
    div_self (total_pos vals h).ne']

theorem keptShare_le (vals : List K) (h : ∃ v ∈ vals, v ≠ 0) (c : ℕ) : keptShare vals c ≤ 1 := by
  unfold keptShare
  rw [div_le_one (total_pos vals h), ← List.sum_reverse (vals.map _), ← List.map_reverse]
  conv_rhs => rw [← List.take_append_drop c vals.reverse, List.map_append, List.sum_append]
  have : 0 ≤ ((vals.reverse.drop c).map fun v => |v|).sum := by
    apply List.sum_nonneg
    intro x hx
    obtain ⟨v, _, rfl⟩ := List.mem_map.1 hx
    exact abs_nonneg v
  linarith

/-- C52: the number of basis elements is the least positive number whose eigenvalues keep at least the
share `1 - inf_loss`. -/
theorem kl_cut_least (loss : K) (vals : List K) (h : ∃ v ∈ vals, v ≠ 0) (h0 : 0 ≤ loss) :
    IsLeast {c | 1 ≤ c ∧ 1 - loss ≤ keptShare vals c} (klCut loss vals) := by
  obtain ⟨k, h1, h2, h3, h4⟩ := cutLoop_spec loss (power vals).reverse 1 1
  simp only [sum_take_power] at h3 h4
  have hlen : (power vals).reverse.length = vals.length := by simp [power]
  have hpos : 0 < vals.length := by
    obtain ⟨v, hv, _⟩ := h
    exact List.length_pos_of_mem hv
  rw [hlen] at h1 h4
  have hk : k < vals.length := by
    by_contra hc
    have := h3 (vals.length - 1) (by omega)
    rw [keptShare_all vals h _ (by omega)] at this
    linarith
  unfold klCut
  rw [h2]
  constructor
  · have := h4 hk
    exact ⟨by omega, by rw [Nat.add_comm]; linarith⟩
  · rintro c ⟨hc1, hc2⟩
    by_contra hlt
    have := h3 (c - 1) (by omega)
    rw [Nat.sub_add_cancel hc1] at this
    linarith

/-- C52: it lies between 1 and the number of sources. -/
theorem kl_cut_range (loss : K) (vals : List K) (h : ∃ v ∈ vals, v ≠ 0) (h0 : 0 ≤ loss) :
    1 ≤ klCut loss vals ∧ klCut loss vals ≤ vals.length := by
  have hl := kl_cut_least loss vals h h0
  have hpos : 0 < vals.length := by
    obtain ⟨v, hv, _⟩ := h
    exact List.length_pos_of_mem hv
  refine ⟨hl.1.1, hl.2 ⟨by omega, ?_⟩⟩
  rw [keptShare_all vals h _ (le_refl _)]
  linarith

/-- C52: a smaller information loss never gives fewer elements. -/
theorem kl_cut_antitone (loss loss' : K) (vals : List K) (h : ∃ v ∈ vals, v ≠ 0) (h0 : 0 ≤ loss')
    (hle : loss' ≤ loss) : klCut loss vals ≤ klCut loss' vals := by
  have hl := kl_cut_least loss vals h (le_trans h0 hle)
  have hl' := kl_cut_least loss' vals h h0
  exact hl.2 ⟨hl'.1.1, by have := hl'.1.2; linarith⟩

/-- C52: a negative information loss asks for one element more than there are sources. -/
theorem kl_cut_negative (loss : K) (vals : List K) (h : ∃ v ∈ vals, v ≠ 0) (h0 : loss < 0) :
    klCut loss vals = vals.length + 1 := by
  obtain ⟨k, h1, h2, h3, h4⟩ := cutLoop_spec loss (power vals).reverse 1 1
  simp only [sum_take_power] at h3 h4
  have hlen : (power vals).reverse.length = vals.length := by simp [power]
  rw [hlen] at h1 h4
  unfold klCut
  rw [h2]
  rcases Nat.lt_or_ge k vals.length with hk | hk
  · have := h4 hk
    have := keptShare_le vals h (k + 1)
    linarith
  · omega

/-- Four eigenvalues and four information losses. -/
example : klCut (1 / 10 : ℚ) [1, 2, 3, 14] = 3 ∧ klCut (0 : ℚ) [1, 2, 3, 14] = 4 ∧
    klCut (1 / 2 : ℚ) [1, 2, 3, 14] = 1 ∧ klCut (-1 : ℚ) [1, 2, 3, 14] = 5 := by decide +kernel

/-! ## C53 -/

omit [LinearOrder K] [IsStrictOrderedRing K] in
theorem inner_comm (P : ℕ) (m : ℕ → ℕ → K) (i j : ℕ) : inner P m i j = inner P m j i := by
  unfold inner
  exact Finset.sum_congr rfl fun p _ => mul_comm _ _

omit [LinearOrder K] [IsStrictOrderedRing K] in
theorem gram_row (P : ℕ) (m M : ℕ → ℕ → K) (i k a b : ℕ) :
    (List.range k).foldl (fun M j =>
      if i ≤ j then setCell (setCell M i j (inner P m i j)) j i (inner P m i j) else M) M a b =
    if (a = i ∧ i ≤ b ∧ b < k) ∨ (b = i ∧ i ≤ a ∧ a < k) then inner P m a b else M a b := by
  induction k with
  | zero => simp
  | succ k ih =>
    rw [List.range_succ, List.foldl_append, List.foldl_cons, List.foldl_nil]
    by_cases hik : i ≤ k
    · rw [if_pos hik]
      change (if a = k ∧ b = i then _ else if a = i ∧ b = k then _ else _) = _
      by_cases h1 : a = k ∧ b = i
      · obtain ⟨rfl, rfl⟩ := h1
        rw [if_pos ⟨rfl, rfl⟩, if_pos (by omega), inner_comm]
      · rw [if_neg h1]
        by_cases h2 : a = i ∧ b = k
        · obtain ⟨rfl, rfl⟩ := h2
          rw [if_pos ⟨rfl, rfl⟩, if_pos (by omega)]
        · rw [if_neg h2, ih]
          by_cases h3 : (a = i ∧ i ≤ b ∧ b < k) ∨ (b = i ∧ i ≤ a ∧ a < k)
          · rw [if_pos h3, if_pos (by omega)]
          · rw [if_neg h3, if_neg (by omega)]
    · rw [if_neg hik, ih]
      by_cases h3 : (a = i ∧ i ≤ b ∧ b < k) ∨ (b = i ∧ i ≤ a ∧ a < k)
      · rw [if_pos h3, if_pos (by omega)]
      · rw [if_neg h3, if_neg (by omega)]

omit [LinearOrder K] [IsStrictOrderedRing K] in
/-- The loop over pairs computes all inner products. -/
theorem gramLoop_eq (P n : ℕ) (m : ℕ → ℕ → K) (a b : ℕ) (ha : a < n) (hb : b < n) :
    gramLoop P n m a b = inner P m a b := by
  have key : ∀ k, (List.range k).foldl (fun M i =>
      (List.range n).foldl (fun M j =>
        if i ≤ j then setCell (setCell M i j (inner P m i j)) j i (inner P m i j) else M) M)
      (fun _ _ => 0) a b = if min a b < k then inner P m a b else 0 := by
    intro k
    induction k with
    | zero => simp
    | succ k ih =>
      rw [List.range_succ, List.foldl_append, List.foldl_cons, List.foldl_nil, gram_row, ih]
      by_cases h1 : (a = k ∧ k ≤ b ∧ b < n) ∨ (b = k ∧ k ≤ a ∧ a < n)
      · rw [if_pos h1, if_pos (by omega)]
      · rw [if_neg h1]
        by_cases h2 : min a b < k
        · rw [if_pos h2, if_pos (by omega)]
        · rw [if_neg h2, if_neg (by omega)]
  have := key n
  rw [if_pos (by omega)] at this
  exact this

omit [LinearOrder K] [IsStrictOrderedRing K] in
theorem quad_form (P n : ℕ) (m : ℕ → ℕ → K) (x : ℕ → K) :
    ∑ i ∈ Finset.range n, ∑ j ∈ Finset.range n, x i * inner P m i j * x j =
      ∑ p ∈ Finset.range P, (∑ i ∈ Finset.range n, x i * m p i) ^ 2 := by
  unfold inner
  have h1 : ∀ p, (∑ i ∈ Finset.range n, x i * m p i) ^ 2 =
      ∑ i ∈ Finset.range n, ∑ j ∈ Finset.range n, x i * (m p i * m p j) * x j := by
    intro p
    rw [sq, Finset.sum_mul_sum]
    exact Finset.sum_congr rfl fun i _ => Finset.sum_congr rfl fun j _ => by ring
  simp only [h1]
  rw [Finset.sum_comm (s := Finset.range P)]
  refine Finset.sum_congr rfl fun i _ => ?_
  rw [Finset.sum_comm (s := Finset.range P)]
  refine Finset.sum_congr rfl fun j _ => ?_
  rw [Finset.mul_sum, Finset.sum_mul]

omit [LinearOrder K] [IsStrictOrderedRing K] in
theorem npCov_eq_inner (P : ℕ) (m : ℕ → ℕ → K) (i j : ℕ) :
    npCov P m i j = inner P (fun p i => m p i - colMean P m i) i j / ((P : K) - 1) := rfl

/-- A matrix function is symmetric and positive semidefinite on the first `n` indices. -/
def SymPSD (n : ℕ) (f : ℕ → ℕ → K) : Prop :=
  (∀ i < n, ∀ j < n, f i j = f j i) ∧
  ∀ x : ℕ → K, 0 ≤ ∑ i ∈ Finset.range n, ∑ j ∈ Finset.range n, x i * f i j * x j

/-- C53: for two or more sources `cov_matrix` is a symmetric positive semidefinite matrix, with either
formula. -/
theorem cov_sym_psd (c : Columns K) (hn : 2 ≤ c.n) (hP : 1 ≤ c.P) :
    ∃ f, covOf c = .mat c.n f ∧ SymPSD c.n f := by
  unfold covOf
  by_cases h : c.n ≤ 250
  · rw [if_pos h, if_neg (by omega)]
    refine ⟨_, rfl, ?_, ?_⟩
    · intro i _ j _
      rw [npCov_eq_inner, npCov_eq_inner, inner_comm]
    · intro x
      have : ∑ i ∈ Finset.range c.n, ∑ j ∈ Finset.range c.n, x i * npCov c.P c.m i j * x j =
          (∑ i ∈ Finset.range c.n, ∑ j ∈ Finset.range c.n,
            x i * inner c.P (fun p i => c.m p i - colMean c.P c.m i) i j * x j) / ((c.P : K) - 1) := by
        rw [Finset.sum_div]
        refine Finset.sum_congr rfl fun i _ => ?_
        rw [Finset.sum_div]
        refine Finset.sum_congr rfl fun j _ => ?_
        rw [npCov_eq_inner]; ring
      rw [this, quad_form]
      apply div_nonneg (Finset.sum_nonneg fun p _ => sq_nonneg _)
      have : (1 : K) ≤ c.P := by exact_mod_cast hP
      linarith
  · rw [if_neg h]
    refine ⟨_, rfl, ?_, ?_⟩
    · intro i hi j hj
      rw [gramLoop_eq _ _ _ _ _ hi hj, gramLoop_eq _ _ _ _ _ hj hi, inner_comm]
    · intro x
      have : ∑ i ∈ Finset.range c.n, ∑ j ∈ Finset.range c.n, x i * gramLoop c.P c.n c.m i j * x j =
          ∑ i ∈ Finset.range c.n, ∑ j ∈ Finset.range c.n, x i * inner c.P c.m i j * x j :=
        Finset.sum_congr rfl fun i hi => Finset.sum_congr rfl fun j hj => by
          rw [gramLoop_eq _ _ _ _ _ (Finset.mem_range.1 hi) (Finset.mem_range.1 hj)]
      rw [this, quad_form]
      exact Finset.sum_nonneg fun p _ => sq_nonneg _

omit [LinearOrder K] [IsStrictOrderedRing K] in
/-- C53: with a single source it is a number, not a matrix. -/
theorem cov_single (c : Columns K) (hn : c.n = 1) : ∃ v, covOf c = .scalar v := by
  unfold covOf
  rw [if_pos (by omega), if_pos hn]
  exact ⟨_, rfl⟩

/-! ## C54 -/

/-- C54: for unit-sum stamps of `P` pixels the covariance is `(Gram - 1/P) / (P - 1)`. -/
theorem cov_formulas (P : ℕ) (m : ℕ → ℕ → K) (hP : 2 ≤ P) (i j : ℕ)
    (hi : ∑ p ∈ Finset.range P, m p i = 1) (hj : ∑ p ∈ Finset.range P, m p j = 1) :
    npCov P m i j = (inner P m i j - 1 / P) / ((P : K) - 1) := by
  have hP0 : (P : K) ≠ 0 := by
    have : (2 : K) ≤ P := by exact_mod_cast hP
    intro hc; rw [hc] at this; linarith
  rw [npCov_eq_inner]
  congr 1
  have hmi : colMean P m i = 1 / P := by unfold colMean; rw [hi]
  have hmj : colMean P m j = 1 / P := by unfold colMean; rw [hj]
  unfold inner
  simp only [hmi, hmj]
  have : ∀ p, (m p i - 1 / (P : K)) * (m p j - 1 / P) =
      m p i * m p j - 1 / P * m p i - 1 / P * m p j + 1 / P * (1 / P) := fun p => by ring
  simp only [this]
  rw [Finset.sum_add_distrib, Finset.sum_sub_distrib, Finset.sum_sub_distrib, ← Finset.mul_sum,
    ← Finset.mul_sum, hi, hj, Finset.sum_const, Finset.card_range, nsmul_eq_mul]
  field_simp
  ring

/-- C54: the two formulas give different matrices for every set of unit-sum stamps: every diagonal
entry is smaller with `np.cov`. -/
theorem cov_formulas_differ (P : ℕ) (m : ℕ → ℕ → K) (hP : 2 ≤ P) (i : ℕ)
    (hi : ∑ p ∈ Finset.range P, m p i = 1) : npCov P m i i < inner P m i i := by
  rw [cov_formulas P m hP i i hi hi]
  have h2 : (2 : K) ≤ P := by exact_mod_cast hP
  have hG : 0 ≤ inner P m i i := Finset.sum_nonneg fun p _ => mul_self_nonneg _
  rw [div_lt_iff₀ (by linarith)]
  have : 0 < 1 / (P : K) := by positivity
  nlinarith

/-- Two unit-sum stamps of three pixels. -/
example : npCov 3 (fun p i => if p = i then (1 : ℚ) else 0) 0 0 = 1 / 3 ∧
    inner 3 (fun p i => if p = i then (1 : ℚ) else 0) 0 0 = 1 ∧
    npCov 3 (fun p i => if p = i then (1 : ℚ) else 0) 0 1 = -1 / 6 := by decide +kernel

end PI
