import Verif.Lemmas.Filter
import Verif.Lemmas.Hermitian
import Mathlib.Algebra.Order.BigOperators.Ring.Finset

/-!
# Parseval's identity for the scaled transforms, and the variance and response of linear statistics
-/

namespace PI

open Complex Finset

/-- Parseval for the inverse transform with unitary scaling. -/
theorem ifftOrtho_power (h w : ℕ) (X : ℕ → ℕ → ℂ) :
    ∑ i ∈ range h, ∑ j ∈ range w, normSq ((ifftOrtho ⟨h, w, X⟩).px i j) =
      ∑ k ∈ range h, ∑ l ∈ range w, normSq (X k l) := by
  by_cases hne : h * w = 0
  · rcases Nat.mul_eq_zero.1 hne with h0 | h0 <;> simp [h0]
  have hpos : (0 : ℝ) < ((h * w : ℕ) : ℝ) := by exact_mod_cast Nat.pos_of_ne_zero hne
  have e : ∀ i j, normSq ((ifftOrtho ⟨h, w, X⟩).px i j) =
      normSq ((dft ⟨h, w, fun k l => (starRingEnd ℂ) (X k l)⟩).px i j) / ((h * w : ℕ) : ℝ) := by
    intro i j
    change normSq ((∑ k ∈ range h, ∑ l ∈ range w, X k l * (tw h (-((k : ℝ) * i)) * tw w (-((l : ℝ) * j)))) /
      (Real.sqrt ((h * w : ℕ) : ℝ) : ℂ)) = _
    rw [normSq_div, normSq_ofReal, Real.mul_self_sqrt hpos.le, ← normSq_conj]
    congr 2
    change _ = ∑ k ∈ range h, ∑ l ∈ range w, (starRingEnd ℂ) (X k l) * (tw h ((i : ℝ) * k) * tw w ((j : ℝ) * l))
    rw [map_sum]
    refine Finset.sum_congr rfl fun k _ => ?_
    rw [map_sum]
    refine Finset.sum_congr rfl fun l _ => ?_
    rw [map_mul, map_mul, conj_tw, conj_tw, neg_neg, neg_neg, mul_comm (k : ℝ), mul_comm (l : ℝ)]
  simp only [e, ← Finset.sum_div]
  rw [div_eq_iff hpos.ne']
  have p := sum_dft_conj ⟨h, w, fun k l => (starRingEnd ℂ) (X k l)⟩
    ⟨h, w, fun k l => (starRingEnd ℂ) (X k l)⟩ rfl rfl
  simp only [Complex.mul_conj, normSq_conj] at p
  rw [mul_comm]
  exact_mod_cast p

/-- Parseval for the transform with unitary scaling. -/
theorem fftOrtho_inner (h w : ℕ) (x y : ℕ → ℕ → ℂ) :
    ∑ k ∈ range h, ∑ l ∈ range w, (fftOrtho ⟨h, w, x⟩).px k l * (starRingEnd ℂ) ((fftOrtho ⟨h, w, y⟩).px k l) =
      ∑ i ∈ range h, ∑ j ∈ range w, x i j * (starRingEnd ℂ) (y i j) := by
  by_cases hne : h * w = 0
  · rcases Nat.mul_eq_zero.1 hne with h0 | h0 <;> simp [h0]
  have hne' : ((h * w : ℕ) : ℂ) ≠ 0 := by exact_mod_cast hne
  have p := sum_dft_conj ⟨h, w, x⟩ ⟨h, w, y⟩ rfl rfl
  simp only [] at p
  have e : ∀ k l, (fftOrtho ⟨h, w, x⟩).px k l * (starRingEnd ℂ) ((fftOrtho ⟨h, w, y⟩).px k l) =
      (dft ⟨h, w, x⟩).px k l * (starRingEnd ℂ) ((dft ⟨h, w, y⟩).px k l) / ((h * w : ℕ) : ℂ) := by
    intro k l
    change (dft ⟨h, w, x⟩).px k l / (Real.sqrt ((h * w : ℕ) : ℝ) : ℂ) *
      (starRingEnd ℂ) ((dft ⟨h, w, y⟩).px k l / (Real.sqrt ((h * w : ℕ) : ℝ) : ℂ)) = _
    rw [map_div₀, Complex.conj_ofReal, div_mul_div_comm, sqrt_mul_self_cast]
  simp only [e, ← Finset.sum_div]
  rw [p, div_eq_iff hne', mul_comm]
  congr 1
  push_cast
  rfl

theorem fftOrtho_power (h w : ℕ) (x : ℕ → ℕ → ℂ) :
    ∑ k ∈ range h, ∑ l ∈ range w, normSq ((fftOrtho ⟨h, w, x⟩).px k l) =
      ∑ i ∈ range h, ∑ j ∈ range w, normSq (x i j) := by
  have p := fftOrtho_inner h w x x
  simp only [Complex.mul_conj] at p
  exact_mod_cast p

/-- An image whose transform vanishes on the grid vanishes. -/
theorem dft_injective (h w : ℕ) (x : ℕ → ℕ → ℂ) (hx : ∀ k < h, ∀ l < w, (dft ⟨h, w, x⟩).px k l = 0)
    (i j : ℕ) (hi : i < h) (hj : j < w) : x i j = 0 := by
  have e := idftSum_dft ⟨h, w, x⟩ i j hi hj
  have z : (idftSum (dft ⟨h, w, x⟩)).px i j = 0 := by
    change ∑ k ∈ range h, ∑ l ∈ range w, (dft ⟨h, w, x⟩).px k l * _ = 0
    refine Finset.sum_eq_zero fun k hk => Finset.sum_eq_zero fun l hl => ?_
    rw [hx k (mem_range.1 hk) l (mem_range.1 hl), zero_mul]
  rw [z] at e
  have hne : (h : ℂ) * (w : ℂ) ≠ 0 := by
    have : h * w ≠ 0 := Nat.mul_ne_zero (by omega) (by omega)
    exact_mod_cast this
  simp only [] at e
  rcases mul_eq_zero.1 e.symm with h1 | h1
  · exact h1
  · exact absurd h1 hne

/-- The variance of a weighted sum of uncorrelated outputs. -/
theorem variance_of_white {α β : Type} [DecidableEq α] (s : Finset α) (t : Finset β) (v : β → ℝ)
    (K : α → β → ℂ) (c : ℝ)
    (hK : ∀ i ∈ s, ∀ i' ∈ s, ∑ b ∈ t, (v b : ℂ) * (K i b * (starRingEnd ℂ) (K i' b)) = if i = i' then (c : ℂ) else 0)
    (q : α → ℂ) :
    ∑ b ∈ t, v b * normSq (∑ i ∈ s, q i * K i b) = c * ∑ i ∈ s, normSq (q i) := by
  have e : ∑ b ∈ t, (v b : ℂ) * (normSq (∑ i ∈ s, q i * K i b) : ℂ) =
      ∑ i ∈ s, ∑ i' ∈ s, q i * (starRingEnd ℂ) (q i') *
        ∑ b ∈ t, (v b : ℂ) * (K i b * (starRingEnd ℂ) (K i' b)) := by
    have e1 : ∀ b, (v b : ℂ) * (normSq (∑ i ∈ s, q i * K i b) : ℂ) =
        ∑ i ∈ s, ∑ i' ∈ s, q i * (starRingEnd ℂ) (q i') * ((v b : ℂ) * (K i b * (starRingEnd ℂ) (K i' b))) := by
      intro b
      rw [← Complex.mul_conj, map_sum, Finset.sum_mul_sum, Finset.mul_sum]
      refine Finset.sum_congr rfl fun i _ => ?_
      rw [Finset.mul_sum]
      refine Finset.sum_congr rfl fun i' _ => ?_
      rw [map_mul]
      ring
    simp only [e1]
    rw [Finset.sum_comm]
    refine Finset.sum_congr rfl fun i _ => ?_
    rw [Finset.sum_comm]
    refine Finset.sum_congr rfl fun i' _ => ?_
    rw [Finset.mul_sum]
  have f : ∑ i ∈ s, ∑ i' ∈ s, q i * (starRingEnd ℂ) (q i') *
        ∑ b ∈ t, (v b : ℂ) * (K i b * (starRingEnd ℂ) (K i' b)) = (c : ℂ) * ∑ i ∈ s, (normSq (q i) : ℂ) := by
    rw [Finset.mul_sum]
    refine Finset.sum_congr rfl fun i hi => ?_
    rw [Finset.sum_eq_single i]
    · rw [hK i hi i hi, if_pos rfl, Complex.mul_conj, mul_comm]
    · intro i' hi' hne
      rw [hK i hi i' hi', if_neg (Ne.symm hne), mul_zero]
    · intro h1; exact absurd hi h1
  rw [f] at e
  exact_mod_cast e

/-- Cauchy–Schwarz for a weighted sum of complex numbers. -/
theorem response_bound {β : Type} (t : Finset β) (x : β → ℂ) (N S : β → ℝ) (hN : ∀ b ∈ t, 0 ≤ N b)
    (hS : ∀ b ∈ t, 0 ≤ S b) (hx : ∀ b ∈ t, normSq (x b) ≤ N b * S b) :
    normSq (∑ b ∈ t, x b) ≤ (∑ b ∈ t, N b) * ∑ b ∈ t, S b := by
  have h1 : ‖∑ b ∈ t, x b‖ ≤ ∑ b ∈ t, ‖x b‖ := norm_sum_le _ _
  have h2 := Finset.sum_sq_le_sum_mul_sum_of_sq_le_mul t (r := fun b => ‖x b‖) (f := N) (g := S) hN hS
    (fun b hb => by rw [← Complex.normSq_eq_norm_sq]; exact hx b hb)
  rw [Complex.normSq_eq_norm_sq]
  have h3 : (0 : ℝ) ≤ ‖∑ b ∈ t, x b‖ := norm_nonneg _
  nlinarith

end PI
