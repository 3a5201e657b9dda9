import Mathlib.Analysis.SpecialFunctions.Pow.Real
import Mathlib.Algebra.BigOperators.Ring.Finset
import Mathlib.Tactic.Linarith
import Mathlib.Tactic.Ring
import Mathlib.Tactic.FieldSimp

/-!
# Sums of squares over variances, and white linear functions of the data
-/

namespace PI

open Finset

section
variable {ι π : Type} [Fintype ι] [Fintype π] [DecidableEq π]

/-- The sum of the squared deviations over the variances (chi squared). -/
noncomputable def chiSquared (s y : ι → ℝ) : ℝ := ∑ i, y i ^ 2 / s i ^ 2

/-- The part of the data that a white linear function sees. -/
def seenPart (K : π → ι → ℝ) (s y : ι → ℝ) (i : ι) : ℝ := s i ^ 2 * ∑ p, (∑ j, K p j * y j) * K p i

variable (K : π → ι → ℝ) (s : ι → ℝ)

theorem seenPart_seen (hK : ∀ p p', ∑ i, K p i * K p' i * s i ^ 2 = if p = p' then 1 else 0) (y : ι → ℝ) (p : π) :
    ∑ i, K p i * seenPart K s y i = ∑ i, K p i * y i := by
  set v : π → ℝ := fun p => ∑ j, K p j * y j with hv
  have : ∑ i, K p i * seenPart K s y i = ∑ p', v p' * ∑ i, K p i * K p' i * s i ^ 2 := by
    unfold seenPart
    simp only [Finset.mul_sum]
    rw [Finset.sum_comm]
    exact Finset.sum_congr rfl fun p' _ => Finset.sum_congr rfl fun i _ => by
      rw [hv]
      simp only [Finset.sum_mul, Finset.mul_sum]
      exact Finset.sum_congr rfl fun j _ => by ring
  rw [this]
  simp only [hK, mul_ite, mul_one, mul_zero]
  rw [Finset.sum_ite_eq, if_pos (Finset.mem_univ p)]

variable (hs : ∀ i, s i ≠ 0)
include hs

omit [DecidableEq π] in
/-- Data against the part of other data that is seen. -/
theorem seenPart_inner (y x : ι → ℝ) :
    ∑ i, x i * seenPart K s y i / s i ^ 2 = ∑ p, (∑ i, K p i * x i) * ∑ i, K p i * y i := by
  set v : π → ℝ := fun p => ∑ j, K p j * y j with hv
  have : ∀ i, x i * seenPart K s y i / s i ^ 2 = ∑ p, v p * (K p i * x i) := by
    intro i
    have := hs i
    unfold seenPart
    change x i * (s i ^ 2 * ∑ p, v p * K p i) / s i ^ 2 = _
    rw [show x i * (s i ^ 2 * ∑ p, v p * K p i) / s i ^ 2 = x i * ∑ p, v p * K p i by field_simp, Finset.mul_sum]
    exact Finset.sum_congr rfl fun p _ => by ring
  simp only [this]
  rw [Finset.sum_comm]
  exact Finset.sum_congr rfl fun p _ => by rw [← Finset.mul_sum, mul_comm]

/-- The part seen has as chi squared the sum of the squares of what is seen; the whole has at least as much. -/
theorem chiSquared_seen (hK : ∀ p p', ∑ i, K p i * K p' i * s i ^ 2 = if p = p' then 1 else 0) (y : ι → ℝ) :
    chiSquared s (seenPart K s y) = ∑ p, (∑ i, K p i * y i) ^ 2 ∧ ∑ p, (∑ i, K p i * y i) ^ 2 ≤ chiSquared s y := by
  have a : ∑ i, seenPart K s y i * seenPart K s y i / s i ^ 2 = ∑ p, (∑ i, K p i * y i) ^ 2 := by
    rw [seenPart_inner K s hs]
    exact Finset.sum_congr rfl fun p _ => by rw [seenPart_seen K s hK, sq]
  have b : ∑ i, y i * seenPart K s y i / s i ^ 2 = ∑ p, (∑ i, K p i * y i) ^ 2 := by
    rw [seenPart_inner K s hs]
    exact Finset.sum_congr rfl fun p _ => by rw [sq]
  refine ⟨?_, ?_⟩
  · rw [← a]
    exact Finset.sum_congr rfl fun i _ => by rw [sq]
  · have c : 0 ≤ ∑ i, (y i - seenPart K s y i) ^ 2 / s i ^ 2 := Finset.sum_nonneg fun i _ => by positivity
    have e : ∑ i, (y i - seenPart K s y i) ^ 2 / s i ^ 2 =
        chiSquared s y - 2 * (∑ i, y i * seenPart K s y i / s i ^ 2) + ∑ i, seenPart K s y i * seenPart K s y i / s i ^ 2 := by
      unfold chiSquared
      rw [Finset.mul_sum, ← Finset.sum_sub_distrib, ← Finset.sum_add_distrib]
      exact Finset.sum_congr rfl fun i _ => by ring
    rw [e, a, b] at c
    linarith

end

/-- Parabolas of the same width: the lowest point of all is the lowest point of the deepest. -/
theorem lowest_iff {I : Type} (Q : I → Prop) (F : I → ℝ → ℝ) (T : I → ℝ) (a N κ E : ℝ) (N0 : 0 < N) (κ0 : 0 < κ) (E0 : 0 < E)
    (hF : ∀ i, Q i → ∀ c, F i c = a + N * (-(2 * (κ * c) * T i) + (κ * c) ^ 2 * E)) (i : I) (hi : Q i) (c : ℝ) :
    (∀ i', Q i' → ∀ c', F i c ≤ F i' c') ↔ c = T i / (κ * E) ∧ ∀ i', Q i' → |T i'| ≤ |T i| := by
  have sq' : ∀ i (c : ℝ), -(2 * (κ * c) * T i) + (κ * c) ^ 2 * E = E * (κ * c - T i / E) ^ 2 - T i ^ 2 / E := by
    intro i c
    field_simp
    ring
  have cmp : ∀ i', Q i' → ∀ c', F i c ≤ F i' c' ↔
      T i' ^ 2 / E + E * (κ * c - T i / E) ^ 2 ≤ T i ^ 2 / E + E * (κ * c' - T i' / E) ^ 2 := by
    intro i' hi' c'
    rw [hF i hi c, hF i' hi' c', add_le_add_iff_left, mul_le_mul_iff_right₀ N0, sq', sq']
    constructor <;> intro H <;> linarith
  have best : ∀ i, κ * (T i / (κ * E)) - T i / E = 0 := by
    intro i
    field_simp
    ring
  constructor
  · intro H
    have H' := fun i' hi' c' => (cmp i' hi' c').1 (H i' hi' c')
    have own := H' i hi (T i / (κ * E))
    rw [best] at own
    have z : κ * c - T i / E = 0 := by
      have : E * (κ * c - T i / E) ^ 2 ≤ 0 := by linarith
      have : (κ * c - T i / E) ^ 2 ≤ 0 := by nlinarith
      exact pow_eq_zero_iff (two_ne_zero) |>.1 (le_antisymm this (sq_nonneg _))
    refine ⟨?_, fun i' hi' => ?_⟩
    · field_simp
      field_simp at z
      linarith
    · have o := H' i' hi' (T i' / (κ * E))
      rw [best, z] at o
      have : T i' ^ 2 ≤ T i ^ 2 := by
        have : T i' ^ 2 / E ≤ T i ^ 2 / E := by linarith
        exact (div_le_div_iff_of_pos_right E0).1 this
      exact sq_le_sq.1 this
  · rintro ⟨rfl, H⟩ i' hi' c'
    rw [cmp i' hi' c', best]
    have a : T i' ^ 2 / E ≤ T i ^ 2 / E := (div_le_div_iff_of_pos_right E0).2 (sq_le_sq.2 (H i' hi'))
    have b : 0 ≤ E * (κ * c' - T i' / E) ^ 2 := by positivity
    linarith

end PI
