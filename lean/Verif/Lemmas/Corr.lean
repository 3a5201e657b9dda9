import Verif.Lemmas.Hermitian
import Mathlib.Algebra.BigOperators.Field

/-! The correlation theorem for the discrete Fourier transform, and sums over rolled indices. -/

namespace PI
open Complex Finset

/-- Circular cross-correlation on an `h × w` grid. -/
noncomputable def circCorr (h w : ℕ) (x y : ℕ → ℕ → ℂ) (i j : ℕ) : ℂ :=
  ∑ a ∈ range h, ∑ b ∈ range w, x ((i + a) % h) ((j + b) % w) * (starRingEnd ℂ) (y a b)

theorem dvd_neg_add_iff (n i a i' : ℕ) (hi' : i' < n) :
    (n : ℤ) ∣ (i' : ℤ) + -((i : ℤ) + (a : ℤ)) ↔ i' = (i + a) % n := by
  constructor
  · intro h
    have h2 : ((i + a : ℕ) : ℤ) ≡ (i' : ℤ) [ZMOD n] := by
      refine Int.modEq_iff_dvd.2 ?_
      rw [show (i' : ℤ) - ((i + a : ℕ) : ℤ) = (i' : ℤ) + -((i : ℤ) + (a : ℤ)) by push_cast; ring]
      exact h
    have h3 := Int.natCast_modEq_iff.1 h2
    rw [Nat.ModEq, Nat.mod_eq_of_lt hi'] at h3
    exact h3.symm
  · intro h
    have h3 : i + a ≡ i' [MOD n] := by rw [h]; exact (Nat.mod_modEq _ _).symm
    have h2 := Int.natCast_modEq_iff.2 h3
    have := Int.modEq_iff_dvd.1 h2
    rw [show (i' : ℤ) - ((i + a : ℕ) : ℤ) = (i' : ℤ) + -((i : ℤ) + (a : ℤ)) by push_cast; ring] at this
    exact this

/-- The correlation theorem. -/
theorem idftSum_dft_mul_conj (x y : Img ℂ) (hh : y.h = x.h) (hw : y.w = x.w) (h0 : x.h ≠ 0) (w0 : x.w ≠ 0)
    (i j : ℕ) :
    (idftSum ((dft x).zip (fun m p => m * (starRingEnd ℂ) p) (dft y))).px i j =
      (x.h * x.w : ℂ) * circCorr x.h x.w x.px y.px i j := by
  have s1 : (idftSum ((dft x).zip (fun m p => m * (starRingEnd ℂ) p) (dft y))).px i j =
      ∑ k ∈ range x.h, ∑ l ∈ range x.w, ∑ a ∈ range x.h, ∑ b ∈ range x.w, (starRingEnd ℂ) (y.px a b) *
        ((dft x).px k l * (tw x.h ((k : ℝ) * ((-((i : ℤ) + (a : ℤ)) : ℤ) : ℝ)) *
          tw x.w ((l : ℝ) * ((-((j : ℤ) + (b : ℤ)) : ℤ) : ℝ)))) := by
    change ∑ k ∈ range x.h, ∑ l ∈ range x.w, (dft x).px k l * (starRingEnd ℂ) ((dft y).px k l) *
      (tw x.h (-((k : ℝ) * i)) * tw x.w (-((l : ℝ) * j))) = _
    refine Finset.sum_congr rfl fun k _ => Finset.sum_congr rfl fun l _ => ?_
    have e : (dft y).px k l = ∑ a ∈ range x.h, ∑ b ∈ range x.w, y.px a b *
      (tw x.h ((k : ℝ) * a) * tw x.w ((l : ℝ) * b)) := by rw [← hh, ← hw]; rfl
    rw [e, map_sum, Finset.mul_sum, Finset.sum_mul]
    refine Finset.sum_congr rfl fun a _ => ?_
    rw [map_sum, Finset.mul_sum, Finset.sum_mul]
    refine Finset.sum_congr rfl fun b _ => ?_
    rw [map_mul, map_mul, conj_tw, conj_tw]
    push_cast
    rw [show (k : ℝ) * -((i : ℝ) + a) = -((k : ℝ) * i) + -((k : ℝ) * a) by ring,
      show (l : ℝ) * -((j : ℝ) + b) = -((l : ℝ) * j) + -((l : ℝ) * b) by ring, tw_add, tw_add]
    ring
  have s2 : ∀ f : ℕ → ℕ → ℕ → ℕ → ℂ,
      ∑ k ∈ range x.h, ∑ l ∈ range x.w, ∑ a ∈ range x.h, ∑ b ∈ range x.w, f k l a b =
      ∑ a ∈ range x.h, ∑ b ∈ range x.w, ∑ k ∈ range x.h, ∑ l ∈ range x.w, f k l a b := by
    intro f
    have e : ∀ k : ℕ, (∑ l ∈ range x.w, ∑ a ∈ range x.h, ∑ b ∈ range x.w, f k l a b) =
        ∑ a ∈ range x.h, ∑ b ∈ range x.w, ∑ l ∈ range x.w, f k l a b := by
      intro k
      rw [Finset.sum_comm]
      exact Finset.sum_congr rfl fun a _ => Finset.sum_comm
    simp only [e]
    rw [Finset.sum_comm]
    exact Finset.sum_congr rfl fun a _ => Finset.sum_comm
  rw [s1, s2]
  unfold circCorr
  rw [Finset.mul_sum]
  refine Finset.sum_congr rfl fun a _ => ?_
  rw [Finset.mul_sum]
  refine Finset.sum_congr rfl fun b _ => ?_
  simp only [← Finset.mul_sum]
  rw [sum_dft_tw x h0 w0, sum_pick x.h x.w x.px _ _ ((i + a) % x.h) ((j + b) % x.w)
    (Nat.mod_lt _ (by omega)) (Nat.mod_lt _ (by omega))
    (fun i' hi' => dvd_neg_add_iff x.h i a i' hi') (fun j' hj' => dvd_neg_add_iff x.w j b j' hj')]
  ring

/-- A sum over one period does not depend on where the period starts. -/
theorem sum_range_roll {M : Type*} [AddCommMonoid M] (n s : ℕ) (f : ℕ → M) :
    ∑ a ∈ range n, f ((s + a) % n) = ∑ a ∈ range n, f a := by
  rcases Nat.eq_zero_or_pos n with rfl | hn
  · simp
  have hinj : Set.InjOn (fun a => (s + a) % n) (range n) := by
    intro a ha b hb h
    have ha' : a < n := by simpa using ha
    have hb' : b < n := by simpa using hb
    have : s + a ≡ s + b [MOD n] := h
    have h2 := Nat.ModEq.add_left_cancel' s this
    rw [Nat.ModEq, Nat.mod_eq_of_lt ha', Nat.mod_eq_of_lt hb'] at h2
    exact h2
  have himg : (range n).image (fun a => (s + a) % n) = range n := by
    refine Finset.eq_of_subset_of_card_le ?_ ?_
    · intro k hk
      rw [mem_image] at hk
      obtain ⟨a, _, rfl⟩ := hk
      exact mem_range.2 (Nat.mod_lt _ hn)
    · rw [Finset.card_image_of_injOn hinj]
  conv_rhs => rw [← himg]
  rw [Finset.sum_image hinj]

/-- The autocorrelation of a real image is largest at lag zero, where it is the sum of the squares. -/
theorem autocorr_le (h w : ℕ) (f : ℕ → ℕ → ℝ) (s t : ℕ) :
    ∑ a ∈ range h, ∑ b ∈ range w, f ((s + a) % h) ((t + b) % w) * f a b ≤
      ∑ a ∈ range h, ∑ b ∈ range w, f a b ^ 2 := by
  have h1 : ∑ a ∈ range h, ∑ b ∈ range w, f ((s + a) % h) ((t + b) % w) ^ 2 =
      ∑ a ∈ range h, ∑ b ∈ range w, f a b ^ 2 := by
    rw [sum_range_roll h s (fun a => ∑ b ∈ range w, f a ((t + b) % w) ^ 2)]
    exact Finset.sum_congr rfl fun a _ => sum_range_roll w t (fun b => f a b ^ 2)
  have h2 : ∑ a ∈ range h, ∑ b ∈ range w, f ((s + a) % h) ((t + b) % w) * f a b ≤
      ∑ a ∈ range h, ∑ b ∈ range w, (f ((s + a) % h) ((t + b) % w) ^ 2 + f a b ^ 2) / 2 := by
    refine Finset.sum_le_sum fun a _ => Finset.sum_le_sum fun b _ => ?_
    nlinarith [sq_nonneg (f ((s + a) % h) ((t + b) % w) - f a b)]
  refine h2.trans (le_of_eq ?_)
  simp only [← Finset.sum_div, Finset.sum_add_distrib]
  rw [h1]
  ring

end PI
