import Verif.Props.Turn
import Verif.Props.CoaddNan
import Verif.Props.MaximaSymm

/-!
Turning an image upside down, and what becomes of a transform that was shifted by a fraction of a pixel.
-/

namespace PI

open Complex Finset

/-- The transform of an image whose rows are reflected. -/
theorem dft_upDown (x y : Img ℂ) (m : ℤ) (eh : y.h = x.h) (ew : y.w = x.w) (h0 : x.h ≠ 0)
    (hy : ∀ i < x.h, ∀ j < x.w, y.px i j = x.px (turnAt x.h m i) j) (k l : ℕ) (hk : k < x.h) :
    (dft y).px k l = (dft x).px (negIdx x.h k) l * tw x.h ((k : ℝ) * m) := by
  change ∑ i ∈ range y.h, ∑ j ∈ range y.w, y.px i j * (tw y.h ((k : ℝ) * i) * tw y.w ((l : ℝ) * j)) =
    (∑ i ∈ range x.h, ∑ j ∈ range x.w, x.px i j * (tw x.h ((negIdx x.h k : ℝ) * i) * tw x.w ((l : ℝ) * j))) * _
  rw [eh, ew, ← sum_turnAt x.h m
    (fun i => ∑ j ∈ range x.w, x.px i j * (tw x.h ((negIdx x.h k : ℝ) * i) * tw x.w ((l : ℝ) * j))), Finset.sum_mul]
  refine Finset.sum_congr rfl fun i hi => ?_
  rw [Finset.sum_mul]
  refine Finset.sum_congr rfl fun j hj => ?_
  rw [hy i (mem_range.1 hi) j (mem_range.1 hj)]
  have a := tw_negIdx x.h k hk ((turnAt x.h m i : ℕ) : ℤ)
  push_cast at a
  have b := tw_turnAt x.h h0 m k i
  have c := tw_neg_mul x.h ((k : ℝ) * turnAt x.h m i)
  have d := tw_neg_mul x.h ((k : ℝ) * i)
  rw [a]
  have e : tw x.h (-((k : ℝ) * turnAt x.h m i)) * tw x.h ((k : ℝ) * m) = tw x.h ((k : ℝ) * i) := by
    rw [b] at c
    linear_combination (tw x.h ((k : ℝ) * i)) * c - tw x.h ((k : ℝ) * m) * tw x.h (-((k : ℝ) * turnAt x.h m i)) * d
  linear_combination (-(x.px (turnAt x.h m i) j) * tw x.w ((l : ℝ) * j)) * e

/-- The inverse transform of coefficients with the vertical frequencies exchanged. -/
theorem idft_upDown (h w : ℕ) (X Y : ℕ → ℕ → ℂ) (m : ℤ) (h0 : h ≠ 0)
    (hY : ∀ k < h, ∀ l < w, Y k l = X (negIdx h k) l * tw h ((k : ℝ) * m)) (i j : ℕ) :
    (idftSum ⟨h, w, Y⟩).px i j = (idftSum ⟨h, w, X⟩).px (turnAt h m i) j := by
  change ∑ k ∈ range h, ∑ l ∈ range w, Y k l * (tw h (-((k : ℝ) * i)) * tw w (-((l : ℝ) * j))) =
    ∑ k ∈ range h, ∑ l ∈ range w, X k l * (tw h (-((k : ℝ) * turnAt h m i)) * tw w (-((l : ℝ) * j)))
  rw [← sum_negIdx h (fun k => ∑ l ∈ range w, X k l * (tw h (-((k : ℝ) * turnAt h m i)) * tw w (-((l : ℝ) * j))))]
  refine Finset.sum_congr rfl fun k hk => Finset.sum_congr rfl fun l hl => ?_
  rw [hY k (mem_range.1 hk) l (mem_range.1 hl)]
  have a := tw_negIdx h k (mem_range.1 hk) (-((turnAt h m i : ℕ) : ℤ))
  push_cast at a
  rw [mul_neg, mul_neg, neg_neg, tw_turnAt h h0 m k i] at a
  rw [a]
  ring

/-- The real part of an inverse transform is the inverse transform of the Hermitian part. -/
theorem re_idft (h w : ℕ) (X : ℕ → ℕ → ℂ) (i j : ℕ) :
    ((((idftSum ⟨h, w, X⟩).px i j).re : ℝ) : ℂ) =
      (idftSum ⟨h, w, fun k l => (X k l + (starRingEnd ℂ) (X (negIdx h k) (negIdx w l))) / 2⟩).px i j := by
  have e : ∀ (n k i : ℕ), k < n → tw n ((negIdx n k : ℝ) * i) = tw n (-((k : ℝ) * i)) := by
    intro n k i hk
    have := tw_negIdx n k hk (i : ℤ)
    push_cast at this
    exact this
  have c : (starRingEnd ℂ) ((idftSum ⟨h, w, X⟩).px i j) =
      ∑ k ∈ range h, ∑ l ∈ range w, (starRingEnd ℂ) (X (negIdx h k) (negIdx w l)) *
        (tw h (-((k : ℝ) * i)) * tw w (-((l : ℝ) * j))) := by
    change (starRingEnd ℂ) (∑ k ∈ range h, ∑ l ∈ range w, X k l * (tw h (-((k : ℝ) * i)) * tw w (-((l : ℝ) * j)))) = _
    rw [map_sum, ← sum_negIdx h]
    refine Finset.sum_congr rfl fun k hk => ?_
    rw [map_sum, ← sum_negIdx w]
    refine Finset.sum_congr rfl fun l hl => ?_
    rw [map_mul, map_mul, conj_tw, conj_tw, neg_neg, neg_neg, e h k i (mem_range.1 hk), e w l j (mem_range.1 hl)]
  have r := Complex.re_eq_add_conj ((idftSum ⟨h, w, X⟩).px i j)
  rw [r, c]
  change (∑ k ∈ range h, ∑ l ∈ range w, X k l * (tw h (-((k : ℝ) * i)) * tw w (-((l : ℝ) * j))) + _) / 2 =
    ∑ k ∈ range h, ∑ l ∈ range w, (X k l + (starRingEnd ℂ) (X (negIdx h k) (negIdx w l))) / 2 *
      (tw h (-((k : ℝ) * i)) * tw w (-((l : ℝ) * j)))
  rw [← Finset.sum_add_distrib, Finset.sum_div]
  refine Finset.sum_congr rfl fun k _ => ?_
  rw [← Finset.sum_add_distrib, Finset.sum_div]
  refine Finset.sum_congr rfl fun l _ => ?_
  ring

theorem sfreq_neg (n k : ℕ) (hk : k < n) (h : 2 * k ≠ n) : sfreq n (negIdx n k) = -sfreq n k := by
  unfold sfreq
  rcases negIdx_cases n k hk with ⟨h1, h2⟩ | ⟨h1, h2⟩
  · rw [h2, h1]
    split <;> omega
  · rw [h2]
    split <;> split <;> omega

/-- The factor by which a shift acts on a coefficient of the real part of an image. -/
noncomputable def realPhase (h w : ℕ) (d : ℝ × ℝ) (k l : ℕ) : ℂ :=
  (shiftPhase h w d k l + (starRingEnd ℂ) (shiftPhase h w d (negIdx h k) (negIdx w l))) / 2

/-- A shift the other way acts on the reflected coefficients; but for the frequency that is highest in both directions. -/
theorem realPhase_neg (h w : ℕ) (s t : ℝ) (k l : ℕ) (hk : k < h) (hl : l < w) :
    realPhase h w (-s, t) k l = realPhase h w (s, t) (negIdx h k) l +
      if 2 * k = h ∧ 2 * l = w then ((2 * (Real.sin (Real.pi * s) * Real.sin (Real.pi * t)) : ℝ) : ℂ) else 0 := by
  have key : realPhase h w (-s, t) k l - realPhase h w (s, t) (negIdx h k) l =
      (tw h (-((sfreq h k : ℝ) * s)) - tw h ((sfreq h (negIdx h k) : ℝ) * s)) *
        (tw w ((sfreq w l : ℝ) * t) - tw w (-((sfreq w (negIdx w l) : ℝ) * t))) / 2 := by
    unfold realPhase shiftPhase
    rw [negIdx_negIdx h k hk]
    simp only [map_mul, conj_tw, mul_neg, neg_neg]
    ring
  by_cases c : 2 * k = h ∧ 2 * l = w
  · rw [if_pos c, ← sub_eq_iff_eq_add', key]
    obtain ⟨rfl, rfl⟩ := c
    have sf : ∀ n, 0 < n → sfreq (2 * n) n = -(n : ℤ) ∧ negIdx (2 * n) n = n := by
      intro n hn
      refine ⟨?_, ?_⟩
      · unfold sfreq
        rw [if_neg (by omega)]
        omega
      · unfold negIdx
        rw [Nat.mod_eq_of_lt (by omega)]
        omega
    have half : ∀ n : ℕ, 0 < n → ∀ x : ℝ, tw (2 * n) ((n : ℝ) * x) = Complex.exp (-((Real.pi * x : ℝ) : ℂ) * I) := by
      intro n hn x
      unfold tw
      have hn' : (n : ℝ) ≠ 0 := by exact_mod_cast hn.ne'
      have r : -(2 * Real.pi * ((n : ℝ) * x) / ((2 * n : ℕ) : ℝ)) = -(Real.pi * x) := by
        push_cast
        field_simp
      rw [r]
      push_cast
      rfl
    have dif : ∀ n : ℕ, 0 < n → ∀ x : ℝ, tw (2 * n) ((n : ℝ) * x) - tw (2 * n) (-((n : ℝ) * x)) =
        -2 * I * ((Real.sin (Real.pi * x) : ℝ) : ℂ) := by
      intro n hn x
      rw [← mul_neg, half n hn, half n hn]
      push_cast
      rw [Complex.sin]
      have i2 : I * I = -1 := I_mul_I
      have e1 : -((Real.pi : ℂ) * -(x : ℂ)) * I = (Real.pi : ℂ) * x * I := by ring
      have e2 : -((Real.pi : ℂ) * (x : ℂ)) * I = -((Real.pi : ℂ) * x) * I := by ring
      rw [e1]
      linear_combination (Complex.exp (-((Real.pi : ℂ) * x) * I) - Complex.exp ((Real.pi : ℂ) * x * I)) * i2
    rw [(sf k (by omega)).1, (sf k (by omega)).2, (sf k (by omega)).1, (sf l (by omega)).1, (sf l (by omega)).2,
      (sf l (by omega)).1]
    have d1 := dif k (by omega) s
    have d2 := dif l (by omega) t
    push_cast at d1 d2 ⊢
    rw [neg_mul, neg_mul, neg_neg, neg_neg, d1, ← neg_sub, d2]
    have i2 : I * I = -1 := I_mul_I
    linear_combination (-2 * Complex.sin (Real.pi * s) * Complex.sin (Real.pi * t)) * i2
  · rw [if_neg c, add_zero, ← sub_eq_zero, key]
    rcases not_and_or.1 c with c | c
    · rw [sfreq_neg h k hk c]
      push_cast
      rw [neg_mul, sub_self]
      ring
    · rw [sfreq_neg w l hl c]
      push_cast
      rw [neg_mul, neg_neg, sub_self]
      ring

/-- What a fraction of a pixel in both directions leaves at the highest frequency. -/
noncomputable def cornerTerm (h w : ℕ) (c s t : ℝ) (i j : ℕ) : ℝ :=
  if h % 2 = 0 ∧ w % 2 = 0 then -(2 * (Real.sin (Real.pi * s) * Real.sin (Real.pi * t)) * c * (-1) ^ (i + j)) else 0

theorem re_idft_flipped (h w : ℕ) (h0 : h ≠ 0) (w0 : w ≠ 0) (C X X' : ℕ → ℕ → ℂ) (s t : ℝ)
    (hC : ∀ k < h, ∀ l < w, C (negIdx h k) (negIdx w l) = (starRingEnd ℂ) (C k l))
    (hX : ∀ k < h, ∀ l < w, X k l = C k l * shiftPhase h w (s, t) k l)
    (hX' : ∀ k < h, ∀ l < w, X' k l = C (negIdx h k) l * tw h ((k : ℝ) * ((h : ℤ) - 1 : ℤ)) * shiftPhase h w (-s, t) k l)
    (i j : ℕ) (hi : i < h) :
    ((idftSum ⟨h, w, X'⟩).px i j).re = ((idftSum ⟨h, w, X⟩).px (h - 1 - i) j).re +
      cornerTerm h w (C (h / 2) (w / 2)).re s t i j := by
  have hC' : ∀ k < h, ∀ l < w, (starRingEnd ℂ) (C (negIdx h k) (negIdx w l)) = C k l := by
    intro k hk l hl
    rw [hC k hk l hl, Complex.conj_conj]
  have conjtw : ∀ k < h, (starRingEnd ℂ) (tw h ((negIdx h k : ℝ) * ((h : ℤ) - 1 : ℤ))) =
      tw h ((k : ℝ) * ((h : ℤ) - 1 : ℤ)) := by
    intro k hk
    rw [tw_negIdx h k hk, conj_tw, neg_neg]
  have p1 : ∀ k < h, ∀ l < w, (X k l + (starRingEnd ℂ) (X (negIdx h k) (negIdx w l))) / 2 =
      C k l * realPhase h w (s, t) k l := by
    intro k hk l hl
    rw [hX k hk l hl, hX _ (negIdx_lt h k hk) _ (negIdx_lt w l hl), map_mul, hC' k hk l hl]
    unfold realPhase
    ring
  have p2 : ∀ k < h, ∀ l < w, (X' k l + (starRingEnd ℂ) (X' (negIdx h k) (negIdx w l))) / 2 =
      C (negIdx h k) l * tw h ((k : ℝ) * ((h : ℤ) - 1 : ℤ)) * realPhase h w (-s, t) k l := by
    intro k hk l hl
    rw [hX' k hk l hl, hX' _ (negIdx_lt h k hk) _ (negIdx_lt w l hl), map_mul, map_mul, conjtw k hk]
    have : (starRingEnd ℂ) (C (negIdx h (negIdx h k)) (negIdx w l)) = C (negIdx h k) l :=
      hC' (negIdx h k) (negIdx_lt h k hk) l hl
    rw [this]
    unfold realPhase
    ring
  apply Complex.ofReal_injective
  rw [Complex.ofReal_add, re_idft h w X' i j, re_idft h w X (h - 1 - i) j, ← turnAt_last h i hi]
  have q := idft_upDown h w (fun k l => (X k l + (starRingEnd ℂ) (X (negIdx h k) (negIdx w l))) / 2)
    (fun k l => (fun k l => (X k l + (starRingEnd ℂ) (X (negIdx h k) (negIdx w l))) / 2) (negIdx h k) l *
      tw h ((k : ℝ) * ((h : ℤ) - 1 : ℤ))) ((h : ℤ) - 1) h0 (fun _ _ _ _ => rfl) i j
  rw [← q, ← sub_eq_iff_eq_add']
  change ∑ k ∈ range h, ∑ l ∈ range w, (X' k l + (starRingEnd ℂ) (X' (negIdx h k) (negIdx w l))) / 2 *
      (tw h (-((k : ℝ) * i)) * tw w (-((l : ℝ) * j))) -
    ∑ k ∈ range h, ∑ l ∈ range w, (X (negIdx h k) l + (starRingEnd ℂ) (X (negIdx h (negIdx h k)) (negIdx w l))) / 2 *
      tw h ((k : ℝ) * ((h : ℤ) - 1 : ℤ)) * (tw h (-((k : ℝ) * i)) * tw w (-((l : ℝ) * j))) = _
  rw [← Finset.sum_sub_distrib]
  have each : ∀ k ∈ range h, (∑ l ∈ range w, (X' k l + (starRingEnd ℂ) (X' (negIdx h k) (negIdx w l))) / 2 *
      (tw h (-((k : ℝ) * i)) * tw w (-((l : ℝ) * j))) -
    ∑ l ∈ range w, (X (negIdx h k) l + (starRingEnd ℂ) (X (negIdx h (negIdx h k)) (negIdx w l))) / 2 *
      tw h ((k : ℝ) * ((h : ℤ) - 1 : ℤ)) * (tw h (-((k : ℝ) * i)) * tw w (-((l : ℝ) * j)))) =
      ∑ l ∈ range w, if 2 * k = h ∧ 2 * l = w then
        C k l * tw h ((k : ℝ) * ((h : ℤ) - 1 : ℤ)) * ((2 * (Real.sin (Real.pi * s) * Real.sin (Real.pi * t)) : ℝ) : ℂ) *
          (tw h (-((k : ℝ) * i)) * tw w (-((l : ℝ) * j))) else 0 := by
    intro k hk
    rw [← Finset.sum_sub_distrib]
    refine Finset.sum_congr rfl fun l hl => ?_
    rw [mem_range] at hk hl
    rw [p2 k hk l hl, p1 _ (negIdx_lt h k hk) l hl, realPhase_neg h w s t k l hk hl]
    by_cases c : 2 * k = h ∧ 2 * l = w
    · rw [if_pos c, if_pos c]
      have e : negIdx h k = k := by
        unfold negIdx
        rw [Nat.mod_eq_of_lt (by omega)]
        omega
      rw [e]
      ring
    · rw [if_neg c, if_neg c]
      ring
  rw [Finset.sum_congr rfl each]
  unfold cornerTerm
  by_cases c : h % 2 = 0 ∧ w % 2 = 0
  · rw [if_pos c]
    obtain ⟨a, rfl⟩ : ∃ a, h = 2 * a := ⟨h / 2, by omega⟩
    obtain ⟨b, rfl⟩ : ∃ b, w = 2 * b := ⟨w / 2, by omega⟩
    have ea : 2 * a / 2 = a := by omega
    have eb : 2 * b / 2 = b := by omega
    rw [Finset.sum_eq_single a, Finset.sum_eq_single b, if_pos ⟨rfl, rfl⟩, ea, eb]
    · have cr : C a b = (((C a b).re : ℝ) : ℂ) := by
        have := hC a (by omega) b (by omega)
        have e1 : negIdx (2 * a) a = a := by
          unfold negIdx
          rw [Nat.mod_eq_of_lt (by omega)]
          omega
        have e2 : negIdx (2 * b) b = b := by
          unfold negIdx
          rw [Nat.mod_eq_of_lt (by omega)]
          omega
        rw [e1, e2] at this
        exact (Complex.conj_eq_iff_re.1 this.symm).symm
      have t0 : tw (2 * a) ((a : ℝ) * (((2 * a : ℕ) : ℤ) - 1 : ℤ)) = -1 := by
        have := tw_half a (by omega) (2 * a - 1)
        rw [Odd.neg_one_pow ⟨a - 1, by omega⟩] at this
        rw [← this]
        congr 2
        have : ((2 * a - 1 : ℕ) : ℤ) = ((2 * a : ℕ) : ℤ) - 1 := by omega
        rw [← this]
        norm_cast
      have neg : ∀ c : ℕ, c ≠ 0 → ∀ j : ℕ, tw (2 * c) (-((c : ℝ) * j)) = (-1) ^ j := by
        intro c hc j
        rw [← conj_tw, tw_half c hc]
        simp
      rw [t0, neg a (by omega), neg b (by omega), cr, pow_add]
      push_cast
      simp only [Complex.ofReal_re]
      ring
    · intro l _ hl
      rw [if_neg (by omega)]
    · intro hb
      exact absurd (mem_range.2 (by omega)) hb
    · intro k _ hk
      refine Finset.sum_eq_zero fun l _ => ?_
      rw [if_neg (by omega)]
    · intro ha
      exact absurd (mem_range.2 (by omega)) ha
  · rw [if_neg c, Complex.ofReal_zero]
    refine Finset.sum_eq_zero fun k _ => Finset.sum_eq_zero fun l _ => ?_
    rw [if_neg (by omega)]

end PI
