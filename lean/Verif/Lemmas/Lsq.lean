import Verif.Model.Transparency
import Mathlib.Tactic.Ring
import Mathlib.Tactic.FieldSimp
import Mathlib.Tactic.Linarith
import Mathlib.Tactic.Positivity

/-! # The least-squares problem of `transparency`: normal equations and closed form -/

namespace PI
open Finset

theorem sum_range_block (f : ℕ → ℝ) (p q : ℕ) :
    ∑ r ∈ range (p * q), f r = ∑ j ∈ range p, ∑ i ∈ range q, f (j * q + i) := by
  induction p with
  | zero => simp
  | succ n ih =>
    rw [Nat.succ_mul, sum_range_add, ih, sum_range_succ]

theorem sum_trH (p q j i : ℕ) (hj : j < p) (hi : i < q) (x : ℕ → ℝ) :
    ∑ c ∈ range (p + q), trH p q (j * q + i) c * x c = x j + x (p + i) := by
  have hq : 0 < q := by omega
  have hdiv : (j * q + i) / q = j := by
    rw [Nat.add_comm, Nat.add_mul_div_right _ _ hq, Nat.div_eq_of_lt hi, Nat.zero_add]
  have hmod : (j * q + i) % q = i := by
    rw [Nat.add_comm, Nat.add_mul_mod_self_right, Nat.mod_eq_of_lt hi]
  rw [sum_range_add]
  congr 1
  · rw [sum_eq_single j]
    · simp [trH, hj, hdiv]
    · intro c hc hne
      simp [trH, mem_range.1 hc, hdiv, hne]
    · intro h; exact absurd (mem_range.2 hj) h
  · rw [sum_eq_single i]
    · simp [trH, hmod]
    · intro c hc hne
      simp [trH, hmod, hne]
    · intro h; exact absurd (mem_range.2 hi) h

theorem lsqCost_eq (p q : ℕ) (m x : ℕ → ℝ) :
    lsqCost p q m x = ∑ j ∈ range p, ∑ i ∈ range q, (x j + x (p + i) - m (j * q + i)) ^ 2 := by
  unfold lsqCost
  rw [sum_range_block]
  refine sum_congr rfl fun j hj => sum_congr rfl fun i hi => ?_
  rw [sum_trH p q j i (mem_range.1 hj) (mem_range.1 hi)]

/-- Inner product of the residual of `x` with the model vector of `v`. -/
noncomputable def resDot (p q : ℕ) (m x v : ℕ → ℝ) : ℝ :=
  ∑ j ∈ range p, ∑ i ∈ range q, (x j + x (p + i) - m (j * q + i)) * (v j + v (p + i))

theorem lsqCost_add (p q : ℕ) (m x v : ℕ → ℝ) (t : ℝ) :
    lsqCost p q m (fun c => x c + t * v c) = lsqCost p q m x + 2 * t * resDot p q m x v +
      t ^ 2 * ∑ j ∈ range p, ∑ i ∈ range q, (v j + v (p + i)) ^ 2 := by
  rw [lsqCost_eq, lsqCost_eq, resDot, mul_sum, mul_sum, ← sum_add_distrib, ← sum_add_distrib]
  refine sum_congr rfl fun j _ => ?_
  rw [mul_sum, mul_sum, ← sum_add_distrib, ← sum_add_distrib]
  refine sum_congr rfl fun i _ => ?_
  ring

theorem quad_zero (A B : ℝ) (hB : 0 ≤ B) (h : ∀ t : ℝ, 0 ≤ 2 * t * A + t ^ 2 * B) : A = 0 := by
  have h1 := h (-A / (B + 1))
  have hB1 : (0 : ℝ) < B + 1 := by linarith
  have e : 2 * (-A / (B + 1)) * A + (-A / (B + 1)) ^ 2 * B = -(A ^ 2 * (B + 2)) / (B + 1) ^ 2 := by
    field_simp
    ring
  rw [e] at h1
  have h2 : 0 ≤ -(A ^ 2 * (B + 2)) := by
    by_contra hneg
    have := div_neg_of_neg_of_pos (not_le.1 hneg) (pow_pos hB1 2)
    linarith
  have h3 : A ^ 2 * (B + 2) ≤ 0 := by linarith
  have h4 : A ^ 2 ≤ 0 := by
    by_contra hc
    have := mul_pos (not_le.1 hc) (by linarith : (0 : ℝ) < B + 2)
    linarith
  exact pow_eq_zero_iff (two_ne_zero) |>.1 (le_antisymm h4 (sq_nonneg A))

theorem isLsq_iff_resDot (p q : ℕ) (m x : ℕ → ℝ) :
    IsLsq p q m x ↔ ∀ v, resDot p q m x v = 0 := by
  have hB : ∀ v : ℕ → ℝ, 0 ≤ ∑ j ∈ range p, ∑ i ∈ range q, (v j + v (p + i)) ^ 2 :=
    fun v => sum_nonneg fun j _ => sum_nonneg fun i _ => sq_nonneg _
  constructor
  · intro h v
    refine quad_zero _ _ (hB v) fun t => ?_
    have := h (fun c => x c + t * v c)
    rw [lsqCost_add] at this
    linarith
  · intro h x'
    have e : x' = fun c => x c + 1 * (x' c - x c) := by funext c; ring
    rw [e, lsqCost_add p q m x (fun c => x' c - x c), h]
    have := hB (fun c => x' c - x c)
    linarith

/-- Sum of image `j`'s right-hand sides. -/
noncomputable def blockSum (q : ℕ) (m : ℕ → ℝ) (j : ℕ) : ℝ := ∑ i ∈ range q, m (j * q + i)

/-- Sum of source `i`'s right-hand sides. -/
noncomputable def colSum (p q : ℕ) (m : ℕ → ℝ) (i : ℕ) : ℝ := ∑ j ∈ range p, m (j * q + i)

/-- Sum of all right-hand sides. -/
noncomputable def totalSum (p q : ℕ) (m : ℕ → ℝ) : ℝ := ∑ j ∈ range p, blockSum q m j

theorem totalSum_col (p q : ℕ) (m : ℕ → ℝ) : totalSum p q m = ∑ i ∈ range q, colSum p q m i := by
  unfold totalSum blockSum colSum
  exact sum_comm

theorem resDot_split (p q : ℕ) (m x v : ℕ → ℝ) :
    resDot p q m x v =
      ∑ j ∈ range p, (q * x j + ∑ i ∈ range q, x (p + i) - blockSum q m j) * v j +
      ∑ i ∈ range q, (∑ j ∈ range p, x j + p * x (p + i) - colSum p q m i) * v (p + i) := by
  have e1 : resDot p q m x v =
      (∑ j ∈ range p, ∑ i ∈ range q, (x j + x (p + i) - m (j * q + i)) * v j) +
      ∑ j ∈ range p, ∑ i ∈ range q, (x j + x (p + i) - m (j * q + i)) * v (p + i) := by
    unfold resDot
    rw [← sum_add_distrib]
    refine sum_congr rfl fun j _ => ?_
    rw [← sum_add_distrib]
    refine sum_congr rfl fun i _ => ?_
    ring
  rw [e1]
  congr 1
  · refine sum_congr rfl fun j _ => ?_
    rw [← sum_mul]
    congr 1
    rw [sum_sub_distrib, sum_add_distrib, sum_const, card_range, nsmul_eq_mul]
    rfl
  · rw [sum_comm]
    refine sum_congr rfl fun i _ => ?_
    rw [← sum_mul]
    congr 1
    rw [sum_sub_distrib, sum_add_distrib, sum_const, card_range, nsmul_eq_mul]
    rfl

/-- The normal equations. -/
theorem isLsq_iff_normal (p q : ℕ) (m x : ℕ → ℝ) :
    IsLsq p q m x ↔
      (∀ j < p, q * x j + ∑ i ∈ range q, x (p + i) = blockSum q m j) ∧
      (∀ i < q, ∑ j ∈ range p, x j + p * x (p + i) = colSum p q m i) := by
  rw [isLsq_iff_resDot]
  constructor
  · intro h
    constructor
    · intro j hj
      have := h (fun c => if c = j then 1 else 0)
      have z : ∑ i ∈ range q, (∑ j ∈ range p, x j + p * x (p + i) - colSum p q m i) *
          (if p + i = j then (1 : ℝ) else 0) = 0 := by
        refine sum_eq_zero fun i _ => ?_
        rw [if_neg (by omega), mul_zero]
      rw [resDot_split, z, sum_eq_single j] at this
      · simp only [if_true, mul_one, add_zero] at this
        linarith
      · intro c _ hc
        simp [hc]
      · intro hn; exact absurd (mem_range.2 hj) hn
    · intro i hi
      have := h (fun c => if c = p + i then 1 else 0)
      have z : ∑ j ∈ range p, (q * x j + ∑ i ∈ range q, x (p + i) - blockSum q m j) *
          (if j = p + i then (1 : ℝ) else 0) = 0 := by
        refine sum_eq_zero fun j hj => ?_
        have := mem_range.1 hj
        rw [if_neg (by omega), mul_zero]
      rw [resDot_split, z, sum_eq_single i] at this
      · simp only [if_true, mul_one, zero_add] at this
        linarith
      · intro c _ hc
        rw [if_neg (by omega), mul_zero]
      · intro hn; exact absurd (mem_range.2 hi) hn
  · rintro ⟨h1, h2⟩ v
    rw [resDot_split, sum_eq_zero, sum_eq_zero, add_zero]
    · intro i hi
      rw [h2 i (mem_range.1 hi), sub_self, zero_mul]
    · intro j hj
      rw [h1 j (mem_range.1 hj), sub_self, zero_mul]

/-- The closed form of the minimum-norm solution. -/
noncomputable def closedForm (p q : ℕ) (m : ℕ → ℝ) (c : ℕ) : ℝ :=
  if c < p then (blockSum q m c - totalSum p q m / (p + q)) / q
  else (colSum p q m (c - p) - totalSum p q m / (p + q)) / p

theorem closedForm_zp (p q : ℕ) (m : ℕ → ℝ) (j : ℕ) (hj : j < p) :
    closedForm p q m j = (blockSum q m j - totalSum p q m / (p + q)) / q := by
  simp [closedForm, hj]

theorem closedForm_mm (p q : ℕ) (m : ℕ → ℝ) (i : ℕ) :
    closedForm p q m (p + i) = (colSum p q m i - totalSum p q m / (p + q)) / p := by
  simp [closedForm]

theorem sum_closedForm_zp (p q : ℕ) (hp : 0 < p) (hq : 0 < q) (m : ℕ → ℝ) :
    ∑ j ∈ range p, closedForm p q m j = totalSum p q m / (p + q) := by
  have hq' : (q : ℝ) ≠ 0 := by positivity
  have hpq : (p + q : ℝ) ≠ 0 := by positivity
  rw [sum_congr rfl fun j hj => closedForm_zp p q m j (mem_range.1 hj)]
  rw [← sum_div, sum_sub_distrib, sum_const, card_range, nsmul_eq_mul]
  change (totalSum p q m - _) / _ = _
  field_simp
  ring

theorem sum_closedForm_mm (p q : ℕ) (hp : 0 < p) (hq : 0 < q) (m : ℕ → ℝ) :
    ∑ i ∈ range q, closedForm p q m (p + i) = totalSum p q m / (p + q) := by
  have hp' : (p : ℝ) ≠ 0 := by positivity
  have hpq : (p + q : ℝ) ≠ 0 := by positivity
  rw [sum_congr rfl fun i _ => closedForm_mm p q m i]
  rw [← sum_div, sum_sub_distrib, sum_const, card_range, nsmul_eq_mul, ← totalSum_col]
  field_simp
  ring

theorem closedForm_isLsq (p q : ℕ) (hp : 0 < p) (hq : 0 < q) (m : ℕ → ℝ) :
    IsLsq p q m (closedForm p q m) := by
  have hp' : (p : ℝ) ≠ 0 := by positivity
  have hq' : (q : ℝ) ≠ 0 := by positivity
  rw [isLsq_iff_normal, sum_closedForm_mm p q hp hq, sum_closedForm_zp p q hp hq]
  constructor
  · intro j hj
    rw [closedForm_zp p q m j hj]
    field_simp
    ring
  · intro i hi
    rw [closedForm_mm]
    field_simp
    ring

/-- Any least-squares solution is the closed form shifted along `(1,..,1,-1,..,-1)`. -/
theorem isLsq_shift (p q : ℕ) (hp : 0 < p) (hq : 0 < q) (m x : ℕ → ℝ) (h : IsLsq p q m x) :
    ∃ a, (∀ j < p, x j = closedForm p q m j + a) ∧
      ∀ i < q, x (p + i) = closedForm p q m (p + i) - a := by
  have hp' : (p : ℝ) ≠ 0 := by positivity
  have hq' : (q : ℝ) ≠ 0 := by positivity
  obtain ⟨h1, h2⟩ := (isLsq_iff_normal p q m x).1 h
  obtain ⟨g1, g2⟩ := (isLsq_iff_normal p q m _).1 (closedForm_isLsq p q hp hq m)
  have k1 : ∀ j < p, x j = closedForm p q m j +
      (∑ i ∈ range q, closedForm p q m (p + i) - ∑ i ∈ range q, x (p + i)) / q := by
    intro j hj
    have e1 := h1 j hj
    have e2 := g1 j hj
    rw [← e2] at e1
    field_simp
    linarith
  refine ⟨_, k1, ?_⟩
  intro i hi
  have e1 := h2 i hi
  have e2 := g2 i hi
  rw [← e2, sum_congr rfl fun j hj => k1 j (mem_range.1 hj), sum_add_distrib, sum_const,
    card_range, nsmul_eq_mul] at e1
  have : (p : ℝ) * (x (p + i)) = p * (closedForm p q m (p + i) -
      (∑ i ∈ range q, closedForm p q m (p + i) - ∑ i ∈ range q, x (p + i)) / q) := by linarith
  exact mul_left_cancel₀ hp' this

/-- The minimum-norm solution is exactly the closed form. -/
theorem isMinLsq_iff (p q : ℕ) (hp : 0 < p) (hq : 0 < q) (m x : ℕ → ℝ) :
    IsMinLsq p q m x ↔ ∀ c < p + q, x c = closedForm p q m c := by
  have hnorm : ∀ (y : ℕ → ℝ) (a : ℝ), (∀ j < p, y j = closedForm p q m j + a) →
      (∀ i < q, y (p + i) = closedForm p q m (p + i) - a) →
      ∑ c ∈ range (p + q), y c ^ 2 =
        ∑ c ∈ range (p + q), closedForm p q m c ^ 2 + (p + q) * a ^ 2 := by
    intro y a hy1 hy2
    rw [sum_range_add, sum_range_add]
    rw [sum_congr rfl fun j hj => by rw [hy1 j (mem_range.1 hj)],
      sum_congr (s₁ := range q) rfl fun i hi => by rw [hy2 i (mem_range.1 hi)]]
    have e1 : ∑ j ∈ range p, (closedForm p q m j + a) ^ 2 =
        ∑ j ∈ range p, closedForm p q m j ^ 2 + 2 * a * ∑ j ∈ range p, closedForm p q m j
          + p * a ^ 2 := by
      have : ∀ j, (closedForm p q m j + a) ^ 2 =
          closedForm p q m j ^ 2 + 2 * a * closedForm p q m j + a ^ 2 := fun j => by ring
      simp only [this, sum_add_distrib, ← mul_sum, sum_const, card_range, nsmul_eq_mul]
    have e2 : ∑ i ∈ range q, (closedForm p q m (p + i) - a) ^ 2 =
        ∑ i ∈ range q, closedForm p q m (p + i) ^ 2
          - 2 * a * ∑ i ∈ range q, closedForm p q m (p + i) + q * a ^ 2 := by
      have : ∀ i, (closedForm p q m (p + i) - a) ^ 2 =
          closedForm p q m (p + i) ^ 2 - 2 * a * closedForm p q m (p + i) + a ^ 2 :=
        fun j => by ring
      simp only [this, sum_add_distrib, sum_sub_distrib, ← mul_sum, sum_const, card_range,
        nsmul_eq_mul]
    rw [e1, e2, sum_closedForm_zp p q hp hq, sum_closedForm_mm p q hp hq]
    ring
  have hpq : (0 : ℝ) < p + q := by positivity
  constructor
  · rintro ⟨h1, h2⟩
    obtain ⟨a, ha1, ha2⟩ := isLsq_shift p q hp hq m x h1
    have h3 := h2 _ (closedForm_isLsq p q hp hq m)
    rw [hnorm x a ha1 ha2] at h3
    have h4 : a ^ 2 ≤ 0 := by
      by_contra hc
      have := mul_pos hpq (not_le.1 hc)
      linarith
    have ha : a = 0 := pow_eq_zero_iff two_ne_zero |>.1 (le_antisymm h4 (sq_nonneg a))
    subst ha
    intro c hc
    by_cases hcp : c < p
    · rw [ha1 c hcp, add_zero]
    · obtain ⟨i, rfl⟩ : ∃ i, c = p + i := ⟨c - p, by omega⟩
      rw [ha2 i (by omega), sub_zero]
  · intro h
    have hl : IsLsq p q m x := by
      rw [isLsq_iff_normal]
      have := (isLsq_iff_normal p q m _).1 (closedForm_isLsq p q hp hq m)
      rw [sum_congr rfl fun i hi => h (p + i) (by have := mem_range.1 hi; omega),
        sum_congr (s₁ := range p) rfl fun j hj => h j (by have := mem_range.1 hj; omega)]
      refine ⟨fun j hj => ?_, fun i hi => ?_⟩
      · rw [h j (by omega)]; exact this.1 j hj
      · rw [h (p + i) (by omega)]; exact this.2 i hi
    refine ⟨hl, fun x' hx' => ?_⟩
    obtain ⟨a, ha1, ha2⟩ := isLsq_shift p q hp hq m x' hx'
    rw [hnorm x' a ha1 ha2, sum_congr rfl fun c hc => by rw [h c (mem_range.1 hc)]]
    have := mul_nonneg hpq.le (sq_nonneg a)
    linarith

end PI
