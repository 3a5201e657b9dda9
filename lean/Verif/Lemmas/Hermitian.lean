import Verif.Lemmas.DFT

/-! Hermitian symmetry: transforms of real images, and when an inverse transform is real. -/

namespace PI
open Complex Finset

/-- The index of frequency `-k`. -/
def negIdx (n k : ℕ) : ℕ := (n - k) % n

theorem negIdx_lt (n k : ℕ) (hk : k < n) : negIdx n k < n := Nat.mod_lt _ (by omega)

theorem negIdx_cases (n k : ℕ) (hk : k < n) :
    (k = 0 ∧ negIdx n k = 0) ∨ (0 < k ∧ negIdx n k = n - k) := by
  unfold negIdx
  rcases Nat.eq_zero_or_pos k with rfl | h
  · left; simp
  · right; exact ⟨h, Nat.mod_eq_of_lt (by omega)⟩

theorem negIdx_negIdx (n k : ℕ) (hk : k < n) : negIdx n (negIdx n k) = k := by
  rcases negIdx_cases n k hk with ⟨h1, h2⟩ | ⟨h1, h2⟩
  · rw [h2, h1] ; exact (by rw [h1] at h2; exact h2)
  · rw [h2]
    rcases negIdx_cases n (n - k) (by omega) with ⟨h3, _⟩ | ⟨_, h4⟩
    · omega
    · rw [h4]; omega

theorem sum_negIdx (n : ℕ) (f : ℕ → ℂ) : ∑ k ∈ range n, f (negIdx n k) = ∑ k ∈ range n, f k := by
  refine Finset.sum_nbij' (negIdx n) (negIdx n) ?_ ?_ ?_ ?_ ?_
  · intro k hk; exact mem_range.2 (negIdx_lt n k (mem_range.1 hk))
  · intro k hk; exact mem_range.2 (negIdx_lt n k (mem_range.1 hk))
  · intro k hk; exact negIdx_negIdx n k (mem_range.1 hk)
  · intro k hk; exact negIdx_negIdx n k (mem_range.1 hk)
  · intro k _; rfl

/-- `tw` at frequency `-k` and an integer position. -/
theorem tw_negIdx (n k : ℕ) (hk : k < n) (z : ℤ) :
    tw n ((negIdx n k : ℝ) * z) = tw n (-((k : ℝ) * z)) := by
  rcases negIdx_cases n k hk with ⟨h1, h2⟩ | ⟨h1, h2⟩
  · rw [h2, h1]; simp
  · rw [h2, Nat.cast_sub hk.le, sub_mul, sub_eq_add_neg, tw_add, tw_period n (by omega), one_mul]

/-- Coefficients of a real image. -/
def Hermitian (X : Img ℂ) : Prop :=
  ∀ k < X.h, ∀ l < X.w, X.px (negIdx X.h k) (negIdx X.w l) = (starRingEnd ℂ) (X.px k l)

theorem conj_tw_nat (n k i : ℕ) (hk : k < n) :
    (starRingEnd ℂ) (tw n ((k : ℝ) * i)) = tw n ((negIdx n k : ℝ) * i) := by
  rw [conj_tw]
  have := tw_negIdx n k hk (i : ℤ)
  push_cast at this
  exact this.symm

theorem hermitian_dft (x : Img ℂ) (hx : ∀ i < x.h, ∀ j < x.w, (starRingEnd ℂ) (x.px i j) = x.px i j) :
    Hermitian (dft x) := by
  intro k hk l hl
  have hk' : k < x.h := hk
  have hl' : l < x.w := hl
  change ∑ i ∈ range x.h, ∑ j ∈ range x.w, _ = (starRingEnd ℂ) (∑ i ∈ range x.h, ∑ j ∈ range x.w, _)
  rw [map_sum]
  refine sum_congr rfl fun i hi => ?_
  rw [map_sum]
  refine sum_congr rfl fun j hj => ?_
  rw [map_mul, map_mul, hx i (mem_range.1 hi) j (mem_range.1 hj), conj_tw_nat _ _ _ hk',
    conj_tw_nat _ _ _ hl']
  rfl

theorem hermitian_map (X : Img ℂ) (f : ℂ → ℂ) (hf : ∀ z, f ((starRingEnd ℂ) z) = (starRingEnd ℂ) (f z))
    (hX : Hermitian X) : Hermitian (X.map f) := by
  intro k hk l hl
  change f (X.px (negIdx X.h k) (negIdx X.w l)) = (starRingEnd ℂ) (f (X.px k l))
  rw [← hf, hX k hk l hl]

theorem hermitian_zip (X Y : Img ℂ) (hh : Y.h = X.h) (hw : Y.w = X.w) (f : ℂ → ℂ → ℂ)
    (hf : ∀ z w, f ((starRingEnd ℂ) z) ((starRingEnd ℂ) w) = (starRingEnd ℂ) (f z w))
    (hX : Hermitian X) (hY : Hermitian Y) : Hermitian (X.zip f Y) := by
  intro k hk l hl
  change f (X.px (negIdx X.h k) (negIdx X.w l)) (Y.px (negIdx X.h k) (negIdx X.w l)) =
    (starRingEnd ℂ) (f (X.px k l) (Y.px k l))
  rw [← hf, hX k hk l hl]
  have := hY k (by rw [hh]; exact hk) l (by rw [hw]; exact hl)
  rw [hh, hw] at this
  rw [this]

theorem hermitian_fftOrtho (x : Img ℂ)
    (hx : ∀ i < x.h, ∀ j < x.w, (starRingEnd ℂ) (x.px i j) = x.px i j) : Hermitian (fftOrtho x) := by
  refine hermitian_map _ _ ?_ (hermitian_dft x hx)
  intro z
  rw [map_div₀, conj_ofReal]

/-- The phases of a shift are Hermitian on an axis of odd length or for whole-pixel shifts. -/
theorem shift_axis (n k : ℕ) (hk : k < n) (d : ℝ) (h : n % 2 = 1 ∨ ∃ z : ℤ, d = z) :
    tw n ((sfreq n (negIdx n k) : ℝ) * d) = (starRingEnd ℂ) (tw n ((sfreq n k : ℝ) * d)) := by
  have hn : n ≠ 0 := by omega
  rcases h with h | ⟨z, rfl⟩
  · rw [conj_tw]
    congr 1
    have : sfreq n (negIdx n k) = -sfreq n k := by
      unfold sfreq
      rcases negIdx_cases n k hk with ⟨h1, h2⟩ | ⟨h1, h2⟩
      · rw [h2, h1]; split <;> omega
      · rw [h2]
        split <;> split <;> omega
    rw [this]
    push_cast
    ring
  · rw [tw_sfreq n hn, tw_sfreq n hn, tw_negIdx n k hk, conj_tw]

theorem hermitian_shift (X : Img ℂ) (d : ℝ × ℝ) (h1 : X.h % 2 = 1 ∨ ∃ z : ℤ, d.1 = z)
    (h2 : X.w % 2 = 1 ∨ ∃ z : ℤ, d.2 = z) (hX : Hermitian X) : Hermitian (fourierShift X d) := by
  intro k hk l hl
  have hk' : k < X.h := hk
  have hl' : l < X.w := hl
  change X.px (negIdx X.h k) (negIdx X.w l) *
    (tw X.h ((sfreq X.h (negIdx X.h k) : ℝ) * d.1) * tw X.w ((sfreq X.w (negIdx X.w l) : ℝ) * d.2)) =
    (starRingEnd ℂ) (X.px k l * (tw X.h ((sfreq X.h k : ℝ) * d.1) * tw X.w ((sfreq X.w l : ℝ) * d.2)))
  rw [map_mul, map_mul, shift_axis _ _ hk' _ h1, shift_axis _ _ hl' _ h2, hX k hk' l hl']

/-- The inverse transform of Hermitian coefficients is real. -/
theorem idftSum_real (X : Img ℂ) (hX : Hermitian X) (i j : ℕ) :
    (starRingEnd ℂ) ((idftSum X).px i j) = (idftSum X).px i j := by
  change (starRingEnd ℂ) (∑ k ∈ range X.h, ∑ l ∈ range X.w, _) = ∑ k ∈ range X.h, ∑ l ∈ range X.w, _
  rw [map_sum, ← sum_negIdx X.h (fun k => ∑ l ∈ range X.w,
    X.px k l * (tw X.h (-((k : ℝ) * i)) * tw X.w (-((l : ℝ) * j))))]
  refine sum_congr rfl fun k hk => ?_
  rw [map_sum, ← sum_negIdx X.w (fun l => X.px (negIdx X.h k) l *
    (tw X.h (-((negIdx X.h k : ℝ) * i)) * tw X.w (-((l : ℝ) * j))))]
  refine sum_congr rfl fun l hl => ?_
  rw [hX k (mem_range.1 hk) l (mem_range.1 hl), map_mul, map_mul, conj_tw, conj_tw]
  have e : ∀ (n k i : ℕ), k < n → tw n (-((negIdx n k : ℝ) * i)) = tw n (- -((k : ℝ) * i)) := by
    intro n k i hk
    have := tw_negIdx n k hk (-(i : ℤ))
    push_cast at this
    rw [mul_neg, mul_neg] at this
    exact this
  rw [e _ _ _ (mem_range.1 hk), e _ _ _ (mem_range.1 hl)]

theorem ifftOrtho_real (X : Img ℂ) (hX : Hermitian X) (i j : ℕ) :
    ((ifftOrtho X).px i j).im = 0 := by
  rw [← Complex.conj_eq_iff_im]
  change (starRingEnd ℂ) ((idftSum X).px i j / _) = _
  rw [map_div₀, conj_ofReal, idftSum_real X hX]
  rfl

end PI
