import Verif.Base.DFT
import Mathlib.Algebra.Order.Ring.GeomSum
import Mathlib.RingTheory.RootsOfUnity.Complex

/-! Facts about the discrete Fourier transform. -/

namespace PI

open Complex Finset

theorem tw_zero (n : ℕ) : tw n 0 = 1 := by simp [tw]

theorem tw_add (n : ℕ) (s t : ℝ) : tw n (s + t) = tw n s * tw n t := by
  simp only [tw, ← Complex.exp_add]
  congr 1
  push_cast
  ring

theorem tw_ne_zero (n : ℕ) (t : ℝ) : tw n t ≠ 0 := Complex.exp_ne_zero _

theorem norm_tw (n : ℕ) (t : ℝ) : ‖tw n t‖ = 1 := Complex.norm_exp_ofReal_mul_I _

theorem tw_neg_mul (n : ℕ) (t : ℝ) : tw n t * tw n (-t) = 1 := by
  rw [← tw_add]; simp [tw_zero]

theorem conj_tw (n : ℕ) (t : ℝ) : (starRingEnd ℂ) (tw n t) = tw n (-t) := by
  rw [tw, ← Complex.exp_conj, tw]
  congr 1
  rw [map_mul, conj_I, Complex.conj_ofReal]
  push_cast
  ring

theorem tw_natMul (n : ℕ) (t : ℝ) (m : ℕ) : tw n (m * t) = tw n t ^ m := by
  rw [tw, tw, ← Complex.exp_nat_mul]
  congr 1
  push_cast
  ring

/-- Integer multiples of `n` are full turns. -/
theorem tw_period (n : ℕ) (hn : n ≠ 0) (z : ℤ) : tw n ((n : ℝ) * z) = 1 := by
  have hn' : (n : ℂ) ≠ 0 := by exact_mod_cast hn
  rw [tw, Complex.exp_eq_one_iff]
  refine ⟨-z, ?_⟩
  push_cast
  field_simp

theorem tw_eq_one_iff (n : ℕ) (hn : n ≠ 0) (z : ℤ) : tw n z = 1 ↔ (n : ℤ) ∣ z := by
  constructor
  · intro h
    rw [tw, Complex.exp_eq_one_iff] at h
    obtain ⟨m, hm⟩ := h
    have hn' : (n : ℂ) ≠ 0 := by exact_mod_cast hn
    have hpi : (Real.pi : ℂ) ≠ 0 := by exact_mod_cast Real.pi_ne_zero
    push_cast at hm
    have h2 : -(z : ℂ) = m * n := by
      have h3 : (-(2 * Real.pi * z / n) : ℂ) = m * (2 * Real.pi) := by
        have := mul_right_cancel₀ Complex.I_ne_zero
          (show (-(2 * (Real.pi : ℂ) * z / n)) * I = (m * (2 * Real.pi)) * I by rw [hm]; ring)
        exact this
      field_simp at h3
      linear_combination h3
    refine ⟨-m, ?_⟩
    have : -(z : ℤ) = m * n := by exact_mod_cast h2
    linarith [mul_comm (n : ℤ) (-m)]
  · rintro ⟨m, rfl⟩
    push_cast
    exact tw_period n hn m

/-- Orthogonality of the exponentials. -/
theorem sum_tw (n : ℕ) (hn : n ≠ 0) (z : ℤ) :
    ∑ k ∈ range n, tw n ((k : ℝ) * z) = if (n : ℤ) ∣ z then (n : ℂ) else 0 := by
  simp only [tw_natMul]
  split_ifs with h
  · rw [(tw_eq_one_iff n hn z).2 h]; simp
  · have hne : tw n z ≠ 1 := fun h1 => h ((tw_eq_one_iff n hn z).1 h1)
    rw [geom_sum_eq hne]
    rw [← tw_natMul, tw_period n hn z]
    simp

/-- The double sum behind every inversion formula. -/
theorem sum_dft_tw (x : Img ℂ) (hh : x.h ≠ 0) (hw : x.w ≠ 0) (a b : ℤ) :
    ∑ k ∈ range x.h, ∑ l ∈ range x.w,
        (dft x).px k l * (tw x.h ((k : ℝ) * a) * tw x.w ((l : ℝ) * b)) =
      ∑ i ∈ range x.h, ∑ j ∈ range x.w, x.px i j *
        ((if (x.h : ℤ) ∣ i + a then (x.h : ℂ) else 0) *
          (if (x.w : ℤ) ∣ j + b then (x.w : ℂ) else 0)) := by
  have step : ∀ k l : ℕ, (dft x).px k l * (tw x.h ((k : ℝ) * a) * tw x.w ((l : ℝ) * b)) =
      ∑ i ∈ range x.h, ∑ j ∈ range x.w, x.px i j *
        (tw x.h ((k : ℝ) * ((i + a : ℤ) : ℝ)) * tw x.w ((l : ℝ) * ((j + b : ℤ) : ℝ))) := by
    intro k l
    simp only [dft, Finset.sum_mul]
    refine Finset.sum_congr rfl fun i _ => Finset.sum_congr rfl fun j _ => ?_
    push_cast
    rw [mul_add, mul_add, tw_add, tw_add]
    ring
  simp only [step]
  -- reorder the four sums
  have e1 : ∀ k : ℕ, (∑ l ∈ range x.w, ∑ i ∈ range x.h, ∑ j ∈ range x.w, x.px i j *
        (tw x.h ((k : ℝ) * ((i + a : ℤ) : ℝ)) * tw x.w ((l : ℝ) * ((j + b : ℤ) : ℝ)))) =
      ∑ i ∈ range x.h, ∑ j ∈ range x.w, x.px i j * (tw x.h ((k : ℝ) * ((i + a : ℤ) : ℝ)) *
        (if (x.w : ℤ) ∣ j + b then (x.w : ℂ) else 0)) := by
    intro k
    rw [Finset.sum_comm]
    refine Finset.sum_congr rfl fun i _ => ?_
    rw [Finset.sum_comm]
    refine Finset.sum_congr rfl fun j _ => ?_
    rw [← Finset.mul_sum, ← Finset.mul_sum, sum_tw x.w hw]
  simp only [e1]
  rw [Finset.sum_comm]
  refine Finset.sum_congr rfl fun i _ => ?_
  rw [Finset.sum_comm]
  refine Finset.sum_congr rfl fun j _ => ?_
  rw [← Finset.mul_sum, ← Finset.sum_mul, sum_tw x.h hh]

theorem natCast_dvd_sub_iff (n i j : ℕ) (hi : i < n) (hj : j < n) :
    (n : ℤ) ∣ (i : ℤ) + -(j : ℤ) ↔ i = j := by
  constructor
  · rintro ⟨m, hm⟩
    have h1 : m = 0 := by
      by_contra hne
      rcases lt_or_gt_of_ne hne with h | h
      · nlinarith
      · nlinarith
    rw [h1] at hm
    omega
  · rintro rfl; simp

/-- Picking one term out of the double sum. -/
theorem sum_pick (h w : ℕ) (f : ℕ → ℕ → ℂ) (P Q : ℕ → Prop) [DecidablePred P] [DecidablePred Q]
    (i j : ℕ) (hi : i < h) (hj : j < w) (hP : ∀ i' < h, P i' ↔ i' = i)
    (hQ : ∀ j' < w, Q j' ↔ j' = j) :
    ∑ i' ∈ range h, ∑ j' ∈ range w, f i' j' *
      ((if P i' then (h : ℂ) else 0) * (if Q j' then (w : ℂ) else 0)) = f i j * (h * w) := by
  rw [Finset.sum_eq_single i, Finset.sum_eq_single j]
  · rw [if_pos ((hP i hi).2 rfl), if_pos ((hQ j hj).2 rfl)]
  · intro j' hj' hne
    rw [if_neg (fun hq => hne ((hQ j' (mem_range.1 hj')).1 hq))]; simp
  · intro hn; exact absurd (mem_range.2 hj) hn
  · intro i' hi' hne
    apply Finset.sum_eq_zero
    intro j' _
    rw [if_neg (fun hp => hne ((hP i' (mem_range.1 hi')).1 hp))]; simp
  · intro hn; exact absurd (mem_range.2 hi) hn

/-- The inverse transform undoes the transform. -/
theorem idftSum_dft (x : Img ℂ) (i j : ℕ) (hi : i < x.h) (hj : j < x.w) :
    (idftSum (dft x)).px i j = x.px i j * (x.h * x.w) := by
  have hh : x.h ≠ 0 := by omega
  have hw : x.w ≠ 0 := by omega
  have key := sum_dft_tw x hh hw (-(i : ℤ)) (-(j : ℤ))
  rw [sum_pick x.h x.w x.px _ _ i j hi hj
    (fun i' hi' => natCast_dvd_sub_iff x.h i' i hi' hi)
    (fun j' hj' => natCast_dvd_sub_iff x.w j' j hj' hj)] at key
  rw [← key]
  simp only [idftSum]
  refine Finset.sum_congr rfl fun k _ => Finset.sum_congr rfl fun l _ => ?_
  push_cast
  simp only [mul_neg, dft]

theorem sqrt_mul_self_cast (n : ℕ) :
    ((Real.sqrt (n : ℝ) : ℝ) : ℂ) * ((Real.sqrt (n : ℝ) : ℝ) : ℂ) = (n : ℂ) := by
  rw [← Complex.ofReal_mul, Real.mul_self_sqrt (by positivity)]
  simp

theorem idftSum_map_div (X : Img ℂ) (c : ℂ) (i j : ℕ) :
    (idftSum (X.map fun z => z / c)).px i j = (idftSum X).px i j / c := by
  simp only [idftSum, Img.map, div_eq_mul_inv _ c, Finset.sum_mul]
  refine Finset.sum_congr rfl fun k _ => Finset.sum_congr rfl fun l _ => ?_
  ring

/-- `ifftn(fftn(x, norm="ortho"), norm="ortho") = x`. -/
theorem ifftOrtho_fftOrtho (x : Img ℂ) (i j : ℕ) (hi : i < x.h) (hj : j < x.w) :
    (ifftOrtho (fftOrtho x)).px i j = x.px i j := by
  have hpos : ((x.h * x.w : ℕ) : ℂ) ≠ 0 := by
    have : x.h * x.w ≠ 0 := Nat.mul_ne_zero (by omega) (by omega)
    exact_mod_cast this
  unfold ifftOrtho fftOrtho
  change (idftSum ((dft x).map _)).px i j / _ = _
  rw [idftSum_map_div, idftSum_dft x i j hi hj, div_div]
  have hs : (Real.sqrt (((dft x).h * (dft x).w : ℕ) : ℝ) : ℂ) = (Real.sqrt ((x.h * x.w : ℕ) : ℝ) : ℂ) := rfl
  change x.px i j * _ / (_ * (Real.sqrt (((dft x).h * (dft x).w : ℕ) : ℝ) : ℂ)) = _
  rw [hs, sqrt_mul_self_cast]
  push_cast
  push_cast at hpos
  exact mul_div_cancel_right₀ _ hpos

/-- Signed and unsigned frequencies give the same phase for integer shifts. -/
theorem tw_sfreq (n : ℕ) (hn : n ≠ 0) (k : ℕ) (a : ℤ) :
    tw n ((sfreq n k : ℝ) * a) = tw n ((k : ℝ) * a) := by
  unfold sfreq
  split_ifs with h
  · push_cast; rfl
  · have : (((k : ℤ) - n : ℤ) : ℝ) * (a : ℝ) = (k : ℝ) * a + (n : ℝ) * ((-a : ℤ) : ℝ) := by
      push_cast; ring
    rw [this, tw_add, tw_period n hn, mul_one]

/-- `fourier_shift` by whole pixels is `np.roll`: pixel `(i, j)` of the shifted image is pixel
`(i - a mod h, j - b mod w)` of the original. -/
theorem idftSum_fourierShift (x : Img ℂ) (a b : ℤ) (i j : ℕ) (hi : i < x.h) (hj : j < x.w) :
    (idftSum (fourierShift (dft x) ((a : ℝ), (b : ℝ)))).px i j =
      x.px (((i : ℤ) - a) % x.h).toNat (((j : ℤ) - b) % x.w).toNat * (x.h * x.w) := by
  have hh : x.h ≠ 0 := by omega
  have hw : x.w ≠ 0 := by omega
  have key := sum_dft_tw x hh hw (a - i) (b - j)
  have hpick : ∀ (n : ℕ), n ≠ 0 → ∀ (p : ℕ) (c : ℤ), ∀ i' < n,
      ((n : ℤ) ∣ (i' : ℤ) + (c - p) ↔ i' = (((p : ℤ) - c) % n).toNat) := by
    intro n hn p c i' hi'
    have hn0 : (0 : ℤ) < n := by omega
    have h0 := Int.emod_nonneg ((p : ℤ) - c) hn0.ne'
    have h1 := Int.emod_lt_of_pos ((p : ℤ) - c) hn0
    have e : (i' : ℤ) + (c - p) = (i' : ℤ) - (((p : ℤ) - c)) := by ring
    rw [e]
    constructor
    · intro hd
      have h2 : (i' : ℤ) % n = ((p : ℤ) - c) % n := ((Int.modEq_iff_dvd).2 hd).symm
      rw [Int.emod_eq_of_lt (by omega) (by omega)] at h2
      omega
    · intro h2
      have h3 : (i' : ℤ) = ((p : ℤ) - c) % n := by omega
      rw [h3]
      have := Int.emod_add_mul_ediv ((p : ℤ) - c) n
      exact ⟨-(((p : ℤ) - c) / n), by linarith [mul_neg (n : ℤ) (((p : ℤ) - c) / n)]⟩
  have hlt : ∀ n : ℕ, n ≠ 0 → ∀ c : ℤ, (c % n).toNat < n := by
    intro n hn c
    have h1 := Int.emod_lt_of_pos c (show (0 : ℤ) < n by omega)
    have h0 := Int.emod_nonneg c (show (n : ℤ) ≠ 0 by omega)
    omega
  rw [sum_pick x.h x.w x.px _ _ _ _ (hlt x.h hh _) (hlt x.w hw _)
    (hpick x.h hh i a) (hpick x.w hw j b)] at key
  rw [← key]
  simp only [idftSum, fourierShift, shiftPhase]
  refine Finset.sum_congr rfl fun k _ => Finset.sum_congr rfl fun l _ => ?_
  change (dft x).px k l * (tw x.h _ * tw x.w _) * (tw x.h _ * tw x.w _) = _
  have e1 := tw_sfreq x.h hh k a
  have e2 := tw_sfreq x.w hw l b
  change (dft x).px k l * (tw x.h ((sfreq x.h k : ℝ) * (a : ℝ)) * tw x.w ((sfreq x.w l : ℝ) * (b : ℝ)))
    * (tw x.h _ * tw x.w _) = _
  rw [e1, e2]
  push_cast
  rw [mul_sub, mul_sub, sub_eq_add_neg, sub_eq_add_neg, tw_add, tw_add]
  ring

/-- The pixels of an inverse transform add up to the zero-frequency coefficient. -/
theorem sum_idftSum (X : Img ℂ) (hh : X.h ≠ 0) (hw : X.w ≠ 0) :
    ∑ i ∈ range X.h, ∑ j ∈ range X.w, (idftSum X).px i j = X.px 0 0 * (X.h * X.w) := by
  have e : ∑ i ∈ range X.h, ∑ j ∈ range X.w, (idftSum X).px i j =
      ∑ k ∈ range X.h, ∑ l ∈ range X.w, X.px k l *
        ((if (X.h : ℤ) ∣ (k : ℤ) + -((0 : ℕ) : ℤ) then (X.h : ℂ) else 0) *
          (if (X.w : ℤ) ∣ (l : ℤ) + -((0 : ℕ) : ℤ) then (X.w : ℂ) else 0)) := by
    have s1 : ∀ n : ℕ, n ≠ 0 → ∀ k : ℕ, ∑ i ∈ range n, tw n (-((k : ℝ) * i)) =
        if (n : ℤ) ∣ (k : ℤ) + -((0 : ℕ) : ℤ) then (n : ℂ) else 0 := by
      intro n hn k
      have := sum_tw n hn (-(k : ℤ))
      simp only [Int.dvd_neg] at this
      simp only [Nat.cast_zero, neg_zero, add_zero]
      rw [← this]
      refine Finset.sum_congr rfl fun i _ => ?_
      congr 1
      push_cast
      ring
    simp only [idftSum]
    have r1 : ∀ i : ℕ, (∑ j ∈ range X.w, ∑ k ∈ range X.h, ∑ l ∈ range X.w,
        X.px k l * (tw X.h (-((k : ℝ) * i)) * tw X.w (-((l : ℝ) * j)))) =
        ∑ k ∈ range X.h, ∑ l ∈ range X.w, X.px k l * (tw X.h (-((k : ℝ) * i)) *
          (if (X.w : ℤ) ∣ (l : ℤ) + -((0 : ℕ) : ℤ) then (X.w : ℂ) else 0)) := by
      intro i
      rw [Finset.sum_comm]
      refine Finset.sum_congr rfl fun k _ => ?_
      rw [Finset.sum_comm]
      refine Finset.sum_congr rfl fun l _ => ?_
      rw [← Finset.mul_sum, ← Finset.mul_sum, s1 X.w hw]
    simp only [r1]
    rw [Finset.sum_comm]
    refine Finset.sum_congr rfl fun k _ => ?_
    rw [Finset.sum_comm]
    refine Finset.sum_congr rfl fun l _ => ?_
    rw [← Finset.mul_sum, ← Finset.sum_mul, s1 X.h hh]
  rw [e]
  exact sum_pick X.h X.w X.px _ _ 0 0 (by omega) (by omega)
    (fun i' hi' => natCast_dvd_sub_iff X.h i' 0 hi' (by omega))
    (fun j' hj' => natCast_dvd_sub_iff X.w j' 0 hj' (by omega))

end PI
