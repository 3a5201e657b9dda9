import Verif.Lemmas.DFT
import Mathlib.Algebra.BigOperators.Field

/-! # Linear filters in the Fourier domain: impulse response and noise -/

namespace PI

open Complex Finset

/-- The image with `t` added at one pixel. -/
def bump {K : Type} [Add K] (x : Img K) (a b : ℕ) (t : K) : Img K :=
  ⟨x.h, x.w, fun i j => if i = a ∧ j = b then x.px i j + t else x.px i j⟩

/-- Two images added pixel by pixel. -/
def plusImg {K : Type} [Add K] (x e : Img K) : Img K := ⟨x.h, x.w, fun i j => x.px i j + e.px i j⟩

theorem dft_plus (x e : Img ℂ) (hh : e.h = x.h) (hw : e.w = x.w) (k l : ℕ) :
    (dft (plusImg x e)).px k l = (dft x).px k l + (dft e).px k l := by
  change ∑ i ∈ range x.h, ∑ j ∈ range x.w, (x.px i j + e.px i j) *
    (tw x.h ((k : ℝ) * i) * tw x.w ((l : ℝ) * j)) = _ + ∑ i ∈ range e.h, ∑ j ∈ range e.w, _
  rw [hh, hw]
  change _ = ∑ i ∈ range x.h, ∑ j ∈ range x.w, _ + _
  rw [← Finset.sum_add_distrib]
  refine Finset.sum_congr rfl fun i _ => ?_
  rw [← Finset.sum_add_distrib]
  refine Finset.sum_congr rfl fun j _ => ?_
  ring

theorem dft_bump (x : Img ℂ) (a b : ℕ) (t : ℂ) (ha : a < x.h) (hb : b < x.w) (k l : ℕ) :
    (dft (bump x a b t)).px k l = (dft x).px k l + t * (tw x.h ((k : ℝ) * a) * tw x.w ((l : ℝ) * b)) := by
  change ∑ i ∈ range x.h, ∑ j ∈ range x.w, (if i = a ∧ j = b then x.px i j + t else x.px i j) *
    (tw x.h ((k : ℝ) * i) * tw x.w ((l : ℝ) * j)) = ∑ i ∈ range x.h, ∑ j ∈ range x.w, _ + _
  have e : ∀ i ∈ range x.h, ∀ j ∈ range x.w,
      (if i = a ∧ j = b then x.px i j + t else x.px i j) * (tw x.h ((k : ℝ) * i) * tw x.w ((l : ℝ) * j)) =
      x.px i j * (tw x.h ((k : ℝ) * i) * tw x.w ((l : ℝ) * j)) +
        (if i = a then (if j = b then t * (tw x.h ((k : ℝ) * i) * tw x.w ((l : ℝ) * j)) else 0) else 0) := by
    intro i _ j _
    by_cases h1 : i = a <;> by_cases h2 : j = b <;> simp [h1, h2]; ring
  rw [Finset.sum_congr rfl fun i hi => Finset.sum_congr rfl fun j hj => e i hi j hj]
  simp only [Finset.sum_add_distrib]
  congr 1
  rw [Finset.sum_eq_single a]
  · rw [Finset.sum_eq_single b]
    · simp
    · intro j _ hj; simp [hj]
    · intro h; exact absurd (mem_range.2 hb) h
  · intro i _ hi; simp [hi]
  · intro h; exact absurd (mem_range.2 ha) h

/-- Parseval. -/
theorem sum_dft_conj (x y : Img ℂ) (hh : y.h = x.h) (hw : y.w = x.w) :
    ∑ k ∈ range x.h, ∑ l ∈ range x.w, (dft x).px k l * (starRingEnd ℂ) ((dft y).px k l) =
      (x.h * x.w : ℂ) * ∑ i ∈ range x.h, ∑ j ∈ range x.w, x.px i j * (starRingEnd ℂ) (y.px i j) := by
  have e : ∀ k l, (dft x).px k l * (starRingEnd ℂ) ((dft y).px k l) =
      ∑ i ∈ range x.h, ∑ j ∈ range x.w, (starRingEnd ℂ) (y.px i j) *
        ((dft x).px k l * (tw x.h (-((k : ℝ) * i)) * tw x.w (-((l : ℝ) * j)))) := by
    intro k l
    change _ * (starRingEnd ℂ) (∑ i ∈ range y.h, ∑ j ∈ range y.w, y.px i j *
      (tw y.h ((k : ℝ) * i) * tw y.w ((l : ℝ) * j))) = _
    rw [map_sum, Finset.mul_sum, hh, hw]
    refine Finset.sum_congr rfl fun i _ => ?_
    rw [map_sum, Finset.mul_sum]
    refine Finset.sum_congr rfl fun j _ => ?_
    rw [map_mul, map_mul, conj_tw, conj_tw]
    ring
  have s : ∑ k ∈ range x.h, ∑ l ∈ range x.w, (dft x).px k l * (starRingEnd ℂ) ((dft y).px k l) =
      ∑ i ∈ range x.h, ∑ j ∈ range x.w, (starRingEnd ℂ) (y.px i j) * (idftSum (dft x)).px i j := by
    simp only [e]
    rw [Finset.sum_congr rfl fun k _ => Finset.sum_comm, Finset.sum_comm]
    refine Finset.sum_congr rfl fun i _ => ?_
    rw [Finset.sum_congr rfl fun k _ => Finset.sum_comm, Finset.sum_comm]
    refine Finset.sum_congr rfl fun j _ => ?_
    change _ = _ * ∑ k ∈ range x.h, ∑ l ∈ range x.w, _
    rw [Finset.mul_sum]
    refine Finset.sum_congr rfl fun k _ => ?_
    rw [Finset.mul_sum]
    rfl
  rw [s, Finset.mul_sum]
  refine Finset.sum_congr rfl fun i hi => ?_
  rw [Finset.mul_sum]
  refine Finset.sum_congr rfl fun j hj => ?_
  rw [idftSum_dft x i j (mem_range.1 hi) (mem_range.1 hj)]
  ring

/-- Response at pixel `(i, j)` of the filter with transfer function `A` to a unit impulse at `(a, b)`. -/
noncomputable def impulseResp (h w : ℕ) (A : ℕ → ℕ → ℂ) (i j a b : ℕ) : ℂ :=
  (∑ k ∈ range h, ∑ l ∈ range w, A k l * (tw h ((k : ℝ) * a) * tw w ((l : ℝ) * b)) *
    (tw h (-((k : ℝ) * i)) * tw w (-((l : ℝ) * j)))) / ((h * w : ℕ) : ℂ)

theorem impulseResp_dft (h w : ℕ) (A : ℕ → ℕ → ℂ) (i j a b : ℕ) :
    impulseResp h w A i j a b =
      (dft ⟨h, w, fun k l => A k l * (tw h (-((k : ℝ) * i)) * tw w (-((l : ℝ) * j)))⟩).px a b /
        ((h * w : ℕ) : ℂ) := by
  unfold impulseResp
  congr 1
  refine Finset.sum_congr rfl fun k _ => Finset.sum_congr rfl fun l _ => ?_
  simp only []
  rw [mul_comm (k : ℝ) (a : ℝ), mul_comm (l : ℝ) (b : ℝ)]
  ring

/-- Noise through a filter: the correlation of the outputs at two pixels. -/
theorem sum_resp_conj (h w : ℕ) (A : ℕ → ℕ → ℂ) (i j i' j' : ℕ) (hh : h ≠ 0) (hw : w ≠ 0) :
    ∑ a ∈ range h, ∑ b ∈ range w, impulseResp h w A i j a b * (starRingEnd ℂ) (impulseResp h w A i' j' a b) =
      (∑ k ∈ range h, ∑ l ∈ range w, (normSq (A k l) : ℂ) *
        (tw h ((k : ℝ) * (((i' : ℤ) - i : ℤ) : ℝ)) * tw w ((l : ℝ) * (((j' : ℤ) - j : ℤ) : ℝ)))) /
          ((h * w : ℕ) : ℂ) := by
  have hne : ((h * w : ℕ) : ℂ) ≠ 0 := by exact_mod_cast Nat.mul_ne_zero hh hw
  have p := sum_dft_conj ⟨h, w, fun k l => A k l * (tw h (-((k : ℝ) * i)) * tw w (-((l : ℝ) * j)))⟩
    ⟨h, w, fun k l => A k l * (tw h (-((k : ℝ) * i')) * tw w (-((l : ℝ) * j')))⟩ rfl rfl
  simp only [] at p
  have e : ∀ a b, impulseResp h w A i j a b * (starRingEnd ℂ) (impulseResp h w A i' j' a b) =
      ((dft ⟨h, w, fun k l => A k l * (tw h (-((k : ℝ) * i)) * tw w (-((l : ℝ) * j)))⟩).px a b *
        (starRingEnd ℂ) ((dft ⟨h, w, fun k l => A k l *
          (tw h (-((k : ℝ) * i')) * tw w (-((l : ℝ) * j')))⟩).px a b)) / (((h * w : ℕ) : ℂ) * ((h * w : ℕ) : ℂ)) := by
    intro a b
    rw [impulseResp_dft, impulseResp_dft, map_div₀, Complex.conj_natCast, div_mul_div_comm]
  simp only [e, ← Finset.sum_div]
  rw [p]
  have hc : (h : ℂ) * (w : ℂ) = ((h * w : ℕ) : ℂ) := by push_cast; rfl
  rw [hc, mul_div_mul_left _ _ hne]
  congr 1
  refine Finset.sum_congr rfl fun k _ => Finset.sum_congr rfl fun l _ => ?_
  rw [map_mul, map_mul, conj_tw, conj_tw, ← Complex.mul_conj]
  have t : ∀ (n m u v : ℕ), tw n (-((m : ℝ) * u)) * tw n (- -((m : ℝ) * v)) =
      tw n ((m : ℝ) * (((v : ℤ) - u : ℤ) : ℝ)) := by
    intro n m u v
    rw [← tw_add]
    congr 1
    push_cast
    ring
  rw [← t, ← t]
  ring

/-- A sum of filters whose powers, weighted with the noise of their inputs, add up to a constant `c` makes
white noise of variance `c`. -/
theorem white_of_power {ι : Type} (s : Finset ι) (h w : ℕ) (v : ι → ℝ) (A : ι → ℕ → ℕ → ℂ) (c : ℂ)
    (hc : ∀ k < h, ∀ l < w, ∑ n ∈ s, (v n : ℂ) * (normSq (A n k l) : ℂ) = c)
    (i j i' j' : ℕ) (hi : i < h) (hj : j < w) (hi' : i' < h) (hj' : j' < w) :
    ∑ n ∈ s, (v n : ℂ) * ∑ a ∈ range h, ∑ b ∈ range w,
      impulseResp h w (A n) i j a b * (starRingEnd ℂ) (impulseResp h w (A n) i' j' a b) =
      if i = i' ∧ j = j' then c else 0 := by
  have hh : h ≠ 0 := by omega
  have hw : w ≠ 0 := by omega
  have hne : ((h * w : ℕ) : ℂ) ≠ 0 := by exact_mod_cast Nat.mul_ne_zero hh hw
  simp only [sum_resp_conj h w _ i j i' j' hh hw]
  have e : ∑ n ∈ s, (v n : ℂ) * ((∑ k ∈ range h, ∑ l ∈ range w, (normSq (A n k l) : ℂ) *
        (tw h ((k : ℝ) * (((i' : ℤ) - i : ℤ) : ℝ)) * tw w ((l : ℝ) * (((j' : ℤ) - j : ℤ) : ℝ)))) /
          ((h * w : ℕ) : ℂ)) =
      (∑ k ∈ range h, ∑ l ∈ range w, c *
        (tw h ((k : ℝ) * (((i' : ℤ) - i : ℤ) : ℝ)) * tw w ((l : ℝ) * (((j' : ℤ) - j : ℤ) : ℝ)))) /
          ((h * w : ℕ) : ℂ) := by
    simp only [← mul_div_assoc, ← Finset.sum_div]
    congr 1
    simp only [Finset.mul_sum]
    rw [Finset.sum_comm]
    refine Finset.sum_congr rfl fun k hk => ?_
    rw [Finset.sum_comm]
    refine Finset.sum_congr rfl fun l hl => ?_
    rw [← hc k (mem_range.1 hk) l (mem_range.1 hl), Finset.sum_mul]
    refine Finset.sum_congr rfl fun n _ => ?_
    ring
  rw [e]
  have f : ∑ k ∈ range h, ∑ l ∈ range w, c *
        (tw h ((k : ℝ) * (((i' : ℤ) - i : ℤ) : ℝ)) * tw w ((l : ℝ) * (((j' : ℤ) - j : ℤ) : ℝ))) =
      c * ((∑ k ∈ range h, tw h ((k : ℝ) * (((i' : ℤ) - i : ℤ) : ℝ))) *
        ∑ l ∈ range w, tw w ((l : ℝ) * (((j' : ℤ) - j : ℤ) : ℝ))) := by
    rw [Finset.sum_mul_sum, Finset.mul_sum]
    refine Finset.sum_congr rfl fun k _ => ?_
    rw [Finset.mul_sum]
  rw [f, sum_tw h hh, sum_tw w hw]
  have d1 : ((h : ℤ) ∣ (i' : ℤ) - i) ↔ i = i' := by
    rw [sub_eq_add_neg, natCast_dvd_sub_iff h i' i hi' hi]; exact eq_comm
  have d2 : ((w : ℤ) ∣ (j' : ℤ) - j) ↔ j = j' := by
    rw [sub_eq_add_neg, natCast_dvd_sub_iff w j' j hj' hj]; exact eq_comm
  by_cases h1 : i = i'
  · by_cases h2 : j = j'
    · rw [if_pos (d1.2 h1), if_pos (d2.2 h2), if_pos ⟨h1, h2⟩]
      push_cast at hne ⊢
      field_simp
    · have h3 : ¬ (i = i' ∧ j = j') := fun h => h2 h.2
      rw [if_neg (mt d2.1 h2), if_neg h3]
      simp
  · have h3 : ¬ (i = i' ∧ j = j') := fun h => h1 h.1
    rw [if_neg (mt d1.1 h1), if_neg h3]
    simp

/-- Every filtered image is the sum of its impulse responses. -/
theorem filter_eq (x : Img ℂ) (A : ℕ → ℕ → ℂ) (i j : ℕ) :
    (ifftOrtho ⟨x.h, x.w, fun k l => A k l * (fftOrtho x).px k l⟩).px i j =
      ∑ a ∈ range x.h, ∑ b ∈ range x.w, x.px a b * impulseResp x.h x.w A i j a b := by
  have e : (ifftOrtho ⟨x.h, x.w, fun k l => A k l * (fftOrtho x).px k l⟩).px i j =
      (∑ k ∈ range x.h, ∑ l ∈ range x.w, ∑ a ∈ range x.h, ∑ b ∈ range x.w, x.px a b *
        (A k l * (tw x.h ((k : ℝ) * a) * tw x.w ((l : ℝ) * b)) *
          (tw x.h (-((k : ℝ) * i)) * tw x.w (-((l : ℝ) * j))))) / ((x.h * x.w : ℕ) : ℂ) := by
    change (∑ k ∈ range x.h, ∑ l ∈ range x.w, A k l * ((∑ a ∈ range x.h, ∑ b ∈ range x.w, x.px a b *
      (tw x.h ((k : ℝ) * a) * tw x.w ((l : ℝ) * b))) / _) *
        (tw x.h (-((k : ℝ) * i)) * tw x.w (-((l : ℝ) * j)))) / _ = _
    rw [← sqrt_mul_self_cast, ← div_div]
    congr 1
    simp only [Finset.sum_div]
    refine Finset.sum_congr rfl fun k _ => Finset.sum_congr rfl fun l _ => ?_
    simp only [Finset.mul_sum, Finset.sum_mul]
    refine Finset.sum_congr rfl fun a _ => Finset.sum_congr rfl fun b _ => ?_
    ring
  rw [e]
  have f : ∀ a b, x.px a b * impulseResp x.h x.w A i j a b =
      (∑ k ∈ range x.h, ∑ l ∈ range x.w, x.px a b *
        (A k l * (tw x.h ((k : ℝ) * a) * tw x.w ((l : ℝ) * b)) *
          (tw x.h (-((k : ℝ) * i)) * tw x.w (-((l : ℝ) * j))))) / ((x.h * x.w : ℕ) : ℂ) := by
    intro a b
    unfold impulseResp
    rw [← mul_div_assoc, Finset.mul_sum]
    congr 1
    refine Finset.sum_congr rfl fun k _ => ?_
    rw [Finset.mul_sum]
  simp only [f, ← Finset.sum_div]
  congr 1
  rw [Finset.sum_congr rfl fun k _ => Finset.sum_comm, Finset.sum_comm]
  refine Finset.sum_congr rfl fun a _ => ?_
  rw [Finset.sum_congr rfl fun k _ => Finset.sum_comm, Finset.sum_comm]

end PI
