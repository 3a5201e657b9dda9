import Verif.Lemmas.SetItems
import Mathlib.Algebra.Order.BigOperators.Group.Finset
import Mathlib.Algebra.BigOperators.Field
import Mathlib.Algebra.Order.Floor.Ring
import Mathlib.Tactic.Positivity
import Mathlib.Tactic.FieldSimp
import Mathlib.Tactic.Ring

/-!
# Simulated PSFs (C65-C67)
-/

namespace PI

theorem pyInt_nonneg_eq {q : ℚ} (h : 0 ≤ q) : pyInt q = ⌊q⌋ := by unfold pyInt; rw [if_pos h]
theorem pyInt_neg_eq {q : ℚ} (h : q < 0) : pyInt q = ⌈q⌉ := by unfold pyInt; rw [if_neg (not_le.mpr h)]

theorem normPdf_pos (x mu s : ℝ) (hs : 0 < s) : 0 < normPdf x mu s := by
  unfold normPdf
  have := Real.pi_pos
  positivity

theorem sigmaOf_pos {x : ℚ} (h : 0 < x) : 0 < sigmaOf x := by
  unfold sigmaOf; positivity

/-- The range that `Psf` fills starts at -1 or later and ends inside the array. -/
theorem psfRange_bounds (N X Y : ℚ) (hN : 1 ≤ N) (hX : 0 < X) :
    -1 ≤ (psfRange N X Y).1 ∧ (psfRange N X Y).1 ≤ (psfRange N X Y).2 ∧ (psfRange N X Y).2 ≤ ⌊N⌋ := by
  have hs : 0 < max (sigmaOf X) (sigmaOf Y) := lt_of_lt_of_le (sigmaOf_pos hX) (le_max_left _ _)
  have h5 : (0 : ℤ) ≤ pyInt (5 * max (sigmaOf X) (sigmaOf Y)) := by
    rw [pyInt_nonneg_eq (by positivity)]; exact Int.floor_nonneg.mpr (by positivity)
  have hmu : pyInt ((N - 1) / 2) = ⌊(N - 1) / 2⌋ := pyInt_nonneg_eq (by linarith)
  have hm0 : (0 : ℤ) ≤ ⌊(N - 1) / 2⌋ := Int.floor_nonneg.mpr (by linarith)
  unfold psfRange
  simp only [hmu]
  generalize hm : ⌊(N - 1) / 2⌋ = m at *
  have ht0 : 0 ≤ min ((pyInt (5 * max (sigmaOf X) (sigmaOf Y)) : ℤ) : ℚ) (N / 2) :=
    le_min (by exact_mod_cast h5) (by linarith)
  have ht1 : min ((pyInt (5 * max (sigmaOf X) (sigmaOf Y)) : ℤ) : ℚ) (N / 2) ≤ N / 2 := min_le_right _ _
  generalize min ((pyInt (5 * max (sigmaOf X) (sigmaOf Y)) : ℤ) : ℚ) (N / 2) = t at *
  have hm1 : (m : ℚ) ≤ (N - 1) / 2 := by rw [← hm]; exact Int.floor_le _
  have hm2 : (N - 1) / 2 < m + 1 := by rw [← hm]; exact Int.lt_floor_add_one _
  have hm0' : (0 : ℚ) ≤ m := by exact_mod_cast hm0
  have hhi : pyInt ((m : ℚ) + t) = ⌊(m : ℚ) + t⌋ := pyInt_nonneg_eq (by linarith)
  rw [hhi]
  refine ⟨?_, ?_, ?_⟩
  · by_cases h : 0 ≤ (m : ℚ) - t
    · rw [pyInt_nonneg_eq h]
      have := Int.floor_nonneg.mpr h; omega
    · rw [pyInt_neg_eq (not_le.mp h)]
      have h1 : (-2 : ℚ) < ⌈(m : ℚ) - t⌉ := lt_of_lt_of_le (by linarith) (Int.le_ceil _)
      have : (-2 : ℤ) < ⌈(m : ℚ) - t⌉ := by exact_mod_cast h1
      omega
  · by_cases h : 0 ≤ (m : ℚ) - t
    · rw [pyInt_nonneg_eq h]
      exact Int.floor_mono (by linarith)
    · rw [pyInt_neg_eq (not_le.mp h)]
      have h1 : ⌈(m : ℚ) - t⌉ ≤ 0 := Int.ceil_le.mpr (by push_cast; linarith)
      have h2 : 0 ≤ ⌊(m : ℚ) + t⌋ := Int.floor_nonneg.mpr (by linarith)
      omega
  · exact Int.floor_mono (by linarith)

/-- It is empty exactly for tails below one pixel. -/
theorem psfRange_nonempty (N X Y : ℚ) (hN : 1 ≤ N) (hX : 0 < X) :
    (psfRange N X Y).1 < (psfRange N X Y).2 ↔ 2 ≤ N ∧ 1 ≤ 5 * max (sigmaOf X) (sigmaOf Y) := by
  have hs : 0 < max (sigmaOf X) (sigmaOf Y) := lt_of_lt_of_le (sigmaOf_pos hX) (le_max_left _ _)
  have h5 : pyInt (5 * max (sigmaOf X) (sigmaOf Y)) = ⌊5 * max (sigmaOf X) (sigmaOf Y)⌋ :=
    pyInt_nonneg_eq (by positivity)
  have h50 : 0 ≤ ⌊5 * max (sigmaOf X) (sigmaOf Y)⌋ := Int.floor_nonneg.mpr (by positivity)
  have hmu : pyInt ((N - 1) / 2) = ⌊(N - 1) / 2⌋ := pyInt_nonneg_eq (by linarith)
  have hm0 : (0 : ℤ) ≤ ⌊(N - 1) / 2⌋ := Int.floor_nonneg.mpr (by linarith)
  have h1le : 1 ≤ 5 * max (sigmaOf X) (sigmaOf Y) ↔ 1 ≤ ⌊5 * max (sigmaOf X) (sigmaOf Y)⌋ := by
    rw [Int.le_floor]; push_cast; exact Iff.rfl
  unfold psfRange
  simp only [hmu, h5, h1le]
  generalize ⌊5 * max (sigmaOf X) (sigmaOf Y)⌋ = s at *
  generalize hm : ⌊(N - 1) / 2⌋ = m at *
  have hm1 : (m : ℚ) ≤ (N - 1) / 2 := by rw [← hm]; exact Int.floor_le _
  have hm2 : (N - 1) / 2 < m + 1 := by rw [← hm]; exact Int.lt_floor_add_one _
  have hm0' : (0 : ℚ) ≤ m := by exact_mod_cast hm0
  have hs0' : (0 : ℚ) ≤ s := by exact_mod_cast h50
  have ht0 : 0 ≤ min (s : ℚ) (N / 2) := le_min hs0' (by linarith)
  rw [pyInt_nonneg_eq (show 0 ≤ (m : ℚ) + min (s : ℚ) (N / 2) by linarith)]
  constructor
  · intro hlt
    by_contra hno
    rw [not_and_or, not_le, not_le] at hno
    by_cases hs1 : s < 1
    · have h0 : s = 0 := by omega
      subst h0
      have : min ((0 : ℤ) : ℚ) (N / 2) = 0 := by rw [min_eq_left]; · simp
                                                 · push_cast; linarith
      rw [this] at hlt
      rw [pyInt_nonneg_eq (by simpa using hm0')] at hlt
      simp at hlt
    · have hN2 : N < 2 := by
        rcases hno with h | h
        · exact h
        · exact absurd h hs1
      have hm00 : m = 0 := by
        have : (m : ℚ) < 1 := by linarith
        have : m < 1 := by exact_mod_cast this
        omega
      subst hm00
      have hmin : min (s : ℚ) (N / 2) = N / 2 := by
        apply min_eq_right
        have : (1 : ℚ) ≤ s := by exact_mod_cast (not_lt.mp hs1)
        linarith
      rw [hmin] at hlt
      rw [pyInt_neg_eq (by push_cast; linarith)] at hlt
      have h1 : ⌊((0 : ℤ) : ℚ) + N / 2⌋ = 0 := by
        rw [Int.floor_eq_iff]; push_cast; constructor <;> linarith
      have h2 : ⌈((0 : ℤ) : ℚ) - N / 2⌉ = 0 := by
        rw [Int.ceil_eq_iff]; push_cast; constructor <;> linarith
      omega
  · rintro ⟨h2, h1⟩
    have h1' : (1 : ℚ) ≤ s := by exact_mod_cast h1
    have ht1 : 1 ≤ min (s : ℚ) (N / 2) := le_min h1' (by linarith)
    have hhi : m + 1 ≤ ⌊(m : ℚ) + min (s : ℚ) (N / 2)⌋ := by
      rw [Int.le_floor]; push_cast; linarith
    by_cases h : 0 ≤ (m : ℚ) - min (s : ℚ) (N / 2)
    · rw [pyInt_nonneg_eq h]
      have : ⌊(m : ℚ) - min (s : ℚ) (N / 2)⌋ ≤ ⌊(m : ℚ)⌋ := Int.floor_mono (by linarith)
      rw [Int.floor_intCast] at this
      omega
    · rw [pyInt_neg_eq (not_le.mp h)]
      have : ⌈(m : ℚ) - min (s : ℚ) (N / 2)⌉ ≤ 0 := Int.ceil_le.mpr (by push_cast; linarith)
      omega

/-- Value before normalisation: zero, or the Gaussian at the indices that wrote the pixel. -/
noncomputable def gridVal (n : ℕ) (lo hi : ℤ) (f : ℤ → ℤ → ℝ) (r c : ℕ) : ℝ :=
  ((writer n lo hi r).bind fun i => (writer n lo hi c).map fun j => f i j).getD 0

theorem gridVal_nonneg (n : ℕ) (lo hi : ℤ) (f : ℤ → ℤ → ℝ) (hf : ∀ i j, 0 < f i j) (r c : ℕ) :
    0 ≤ gridVal n lo hi f r c := by
  unfold gridVal
  cases writer n lo hi r <;> cases writer n lo hi c <;> simp
  exact (hf _ _).le

/-- Filling a square of indices and dividing by the sum. -/
theorem fill_divSum (n : ℕ) (lo hi : ℤ) (f : ℤ → ℤ → ℝ) (hf : ∀ i j, 0 < f i j)
    (h0 : lo ≤ hi) (h1 : -(n : ℤ) ≤ lo) (h2 : hi ≤ n) :
    ∃ o, (setItems ⟨n, n, fun _ _ => (0 : ℝ)⟩
      ((pyRange lo hi).flatMap fun i => (pyRange lo hi).map fun j => (i, j, f i j))).map divSum = .ok o ∧
      (o = none ↔ lo = hi) ∧
      ∀ p, o = some p → p.h = n ∧ p.w = n ∧
        (∑ r ∈ Finset.range n, ∑ c ∈ Finset.range n, p.px r c) = 1 ∧
        ∃ T > 0, ∀ r < n, ∀ c < n, p.px r c = gridVal n lo hi f r c / T := by
  obtain ⟨b, hb, hh, hw, hpx⟩ := setItems_square (⟨n, n, fun _ _ => (0 : ℝ)⟩ : Img ℝ) lo hi f rfl h0 h1 h2
  refine ⟨divSum b, by rw [hb]; rfl, ?_, ?_⟩
  · have hT : (∑ i ∈ Finset.range b.h, ∑ j ∈ Finset.range b.w, b.px i j) = 0 ↔ lo = hi := by
      rw [hh, hw]
      constructor
      · intro hz
        by_contra hne
        have hlt : lo < hi := by omega
        have hn : 0 < n := by omega
        rw [Finset.sum_eq_zero_iff_of_nonneg] at hz
        · obtain ⟨q, hq⟩ := Option.isSome_iff_exists.mp ((pyIdx_isSome n lo).mpr ⟨h1, by omega⟩)
          have hq' := (pyIdx_iff n lo q).mp hq
          have h3 := hz q (Finset.mem_range.mpr hq'.1)
          rw [Finset.sum_eq_zero_iff_of_nonneg] at h3
          · have h4 := h3 q (Finset.mem_range.mpr hq'.1)
            rw [hpx q hq'.1 q hq'.1] at h4
            have hwr : (writer n lo hi q).isSome := by
              unfold writer
              split
              · rfl
              · rw [if_pos (by omega)]; rfl
            obtain ⟨i, hi'⟩ := Option.isSome_iff_exists.mp hwr
            simp only [hi', Option.bind_some, Option.map_some, Option.getD_some] at h4
            exact absurd h4 (hf i i).ne'
          · intro c hc
            rw [hpx q hq'.1 c (Finset.mem_range.mp hc)]
            exact gridVal_nonneg n lo hi f hf q c
        · intro r hr
          refine Finset.sum_nonneg fun c hc => ?_
          rw [hpx r (Finset.mem_range.mp hr) c (Finset.mem_range.mp hc)]
          exact gridVal_nonneg n lo hi f hf r c
      · rintro rfl
        refine Finset.sum_eq_zero fun r hr => Finset.sum_eq_zero fun c hc => ?_
        rw [hpx r (Finset.mem_range.mp hr) c (Finset.mem_range.mp hc)]
        simp [writer_none]
    rw [← hT]
    unfold divSum
    simp only []
    split <;> simp_all
  · intro p hp
    unfold divSum at hp
    simp only [] at hp
    split at hp
    · cases hp
    · rename_i hne
      cases hp
      rw [hh, hw] at hne
      have hpos : 0 ≤ ∑ i ∈ Finset.range n, ∑ j ∈ Finset.range n, b.px i j := by
        refine Finset.sum_nonneg fun r hr => Finset.sum_nonneg fun c hc => ?_
        rw [hpx r (Finset.mem_range.mp hr) c (Finset.mem_range.mp hc)]
        exact gridVal_nonneg n lo hi f hf r c
      refine ⟨hh, hw, ?_, ∑ i ∈ Finset.range n, ∑ j ∈ Finset.range n, b.px i j,
        lt_of_le_of_ne hpos (Ne.symm hne), fun r hr c hc => ?_⟩
      · show (∑ r ∈ Finset.range n, ∑ c ∈ Finset.range n, b.px r c / _) = 1
        rw [Finset.sum_congr rfl fun i _ => (Finset.sum_div _ _ _).symm, ← Finset.sum_div, hh, hw]
        exact div_self hne
      · show b.px r c / _ = _
        rw [hpx r hr c hc, hh, hw]
        rfl

/-- The width that is used for the second axis. -/
def yWidth (X Y : ℚ) : ℚ := if Y = 0 then X else Y

/-- C65: for every size `N ≥ 1` and positive widths `Psf` returns without index error; the result is an
array of NaN exactly for a tail below one pixel, otherwise a square of `int(N)` pixels a side that sums to
1 and is not negative. -/
theorem psf_ok (N X Y : ℚ) (hN : 1 ≤ N) (hX : 0 < X) (hY : 0 ≤ Y) :
    ∃ o, simPsf N X Y = .ok o ∧
      (o = none ↔ N < 2 ∨ 5 * max (sigmaOf X) (sigmaOf (yWidth X Y)) < 1) ∧
      ∀ p, o = some p → p.h = ⌊N⌋.toNat ∧ p.w = ⌊N⌋.toNat ∧
        (∑ r ∈ Finset.range ⌊N⌋.toNat, ∑ c ∈ Finset.range ⌊N⌋.toNat, p.px r c) = 1 ∧
        (∀ r < ⌊N⌋.toNat, ∀ c < ⌊N⌋.toNat, 0 ≤ p.px r c) ∧
        ∃ T > 0, ∀ r < ⌊N⌋.toNat, ∀ c < ⌊N⌋.toNat, p.px r c =
          gridVal ⌊N⌋.toNat (psfRange N X (yWidth X Y)).1 (psfRange N X (yWidth X Y)).2
            (fun i j => normPdf i ((N - 1) / 2 : ℚ) (sigmaOf X : ℚ) *
              normPdf j ((N - 1) / 2 : ℚ) (sigmaOf (yWidth X Y) : ℚ)) r c / T := by
  have hYp : 0 < yWidth X Y := by
    unfold yWidth
    split
    · exact hX
    · rename_i h; exact lt_of_le_of_ne hY (Ne.symm h)
  obtain ⟨b1, b2, b3⟩ := psfRange_bounds N X (yWidth X Y) hN hX
  have b4 := psfRange_nonempty N X (yWidth X Y) hN hX
  have hfl : 1 ≤ ⌊N⌋ := Int.le_floor.mpr (by push_cast; exact hN)
  have hsx : (0 : ℝ) < (sigmaOf X : ℚ) := by exact_mod_cast sigmaOf_pos hX
  have hsy : (0 : ℝ) < (sigmaOf (yWidth X Y) : ℚ) := by exact_mod_cast sigmaOf_pos hYp
  have hf : ∀ i j : ℤ, 0 < normPdf i ((N - 1) / 2 : ℚ) (sigmaOf X : ℚ) *
      normPdf j ((N - 1) / 2 : ℚ) (sigmaOf (yWidth X Y) : ℚ) :=
    fun i j => mul_pos (normPdf_pos _ _ _ hsx) (normPdf_pos _ _ _ hsy)
  obtain ⟨o, ho, hnone, hsome⟩ := fill_divSum ⌊N⌋.toNat (psfRange N X (yWidth X Y)).1
    (psfRange N X (yWidth X Y)).2 (fun i j => normPdf i ((N - 1) / 2 : ℚ) (sigmaOf X : ℚ) *
              normPdf j ((N - 1) / 2 : ℚ) (sigmaOf (yWidth X Y) : ℚ)) hf b2 (by omega) (by omega)
  refine ⟨o, ?_, ?_, fun p hp => ?_⟩
  · unfold simPsf
    rw [show pyInt N = ⌊N⌋ from pyInt_nonneg_eq (by linarith)]
    exact ho
  · rw [hnone]
    constructor
    · intro h
      by_contra hc
      rw [not_or, not_lt, not_lt] at hc
      have := b4.mpr hc
      omega
    · intro h
      by_contra hc
      have := b4.mp (by omega)
      rcases h with h | h <;> linarith
  · obtain ⟨h1, h2, h3, T, hT, h4⟩ := hsome p hp
    refine ⟨h1, h2, h3, fun r hr c hc => ?_, T, hT, h4⟩
    rw [h4 r hr c hc]
    exact div_nonneg (gridVal_nonneg _ _ _ _ hf _ _) hT.le

theorem psfRange_symm (N X Y : ℚ) : psfRange N X Y = psfRange N Y X := by
  unfold psfRange; rw [max_comm]

theorem gridVal_swap (n : ℕ) (lo hi : ℤ) (f g : ℤ → ℤ → ℝ) (h : ∀ i j, f i j = g j i) (r c : ℕ) :
    gridVal n lo hi f r c = gridVal n lo hi g c r := by
  unfold gridVal
  cases writer n lo hi r <;> cases writer n lo hi c <;> simp [h]

/-- C65: exchanging the two widths transposes the PSF. -/
theorem psf_transpose (N X Y : ℚ) (hN : 1 ≤ N) (hX : 0 < X) (hY : 0 < Y) (p q : Img ℝ)
    (hp : simPsf N X Y = .ok (some p)) (hq : simPsf N Y X = .ok (some q)) :
    ∀ r < ⌊N⌋.toNat, ∀ c < ⌊N⌋.toNat, p.px r c = q.px c r := by
  obtain ⟨o, ho, -, h1⟩ := psf_ok N X Y hN hX hY.le
  obtain ⟨o', ho', -, h2⟩ := psf_ok N Y X hN hY hX.le
  rw [hp] at ho; cases ho
  rw [hq] at ho'; cases ho'
  obtain ⟨-, -, s1, -, T, hT, e1⟩ := h1 p rfl
  obtain ⟨-, -, s2, -, U, hU, e2⟩ := h2 q rfl
  have hy : yWidth X Y = Y := if_neg hY.ne'
  have hx : yWidth Y X = X := if_neg hX.ne'
  rw [hy] at e1; rw [hx, psfRange_symm N Y X] at e2
  have key : ∀ r < ⌊N⌋.toNat, ∀ c < ⌊N⌋.toNat, p.px r c * T = q.px c r * U := by
    intro r hr c hc
    rw [e1 r hr c hc, e2 c hc r hr, div_mul_cancel₀ _ hT.ne', div_mul_cancel₀ _ hU.ne']
    exact gridVal_swap _ _ _ _ _ (fun i j => mul_comm _ _) r c
  have hTU : T = U := by
    have : (∑ r ∈ Finset.range ⌊N⌋.toNat, ∑ c ∈ Finset.range ⌊N⌋.toNat, p.px r c) * T =
        (∑ r ∈ Finset.range ⌊N⌋.toNat, ∑ c ∈ Finset.range ⌊N⌋.toNat, q.px r c) * U := by
      rw [Finset.sum_comm (f := fun r c => q.px r c), Finset.sum_mul, Finset.sum_mul]
      refine Finset.sum_congr rfl fun r hr => ?_
      rw [Finset.sum_mul, Finset.sum_mul]
      exact Finset.sum_congr rfl fun c hc => key r (Finset.mem_range.mp hr) c (Finset.mem_range.mp hc)
    rw [s1, s2] at this
    linarith
  intro r hr c hc
  have := key r hr c hc
  rw [hTU] at this
  exact mul_right_cancel₀ hU.ne' this

/-- The range for odd sizes with the full tail. -/
theorem psfRange_odd (k : ℕ) (X Y : ℚ) (hk : 1 ≤ k)
    (hs : (k : ℚ) + 1 ≤ 5 * max (sigmaOf X) (sigmaOf Y)) :
    psfRange ((2 * k + 1 : ℕ) : ℚ) X Y = ((0 : ℤ), 2 * (k : ℤ)) := by
  have h5 : pyInt (5 * max (sigmaOf X) (sigmaOf Y)) = ⌊5 * max (sigmaOf X) (sigmaOf Y)⌋ :=
    pyInt_nonneg_eq (le_trans (by positivity) hs)
  have h6 : (k : ℤ) + 1 ≤ ⌊5 * max (sigmaOf X) (sigmaOf Y)⌋ := Int.le_floor.mpr (by push_cast; exact hs)
  unfold psfRange
  simp only [h5]
  have hmin : min ((⌊5 * max (sigmaOf X) (sigmaOf Y)⌋ : ℤ) : ℚ) (((2 * k + 1 : ℕ) : ℚ) / 2) = k + 1 / 2 := by
    rw [min_eq_right]
    · push_cast; ring
    · have : ((k : ℚ) + 1) ≤ ((⌊5 * max (sigmaOf X) (sigmaOf Y)⌋ : ℤ) : ℚ) := by exact_mod_cast h6
      push_cast; linarith
  have hmu : pyInt ((((2 * k + 1 : ℕ) : ℚ) - 1) / 2) = k := by
    rw [show (((2 * k + 1 : ℕ) : ℚ) - 1) / 2 = ((k : ℤ) : ℚ) by push_cast; ring]
    rw [pyInt_nonneg_eq (by positivity), Int.floor_intCast]
  rw [hmin, hmu]
  refine Prod.ext ?_ ?_
  · show pyInt (((k : ℤ) : ℚ) - (k + 1 / 2)) = 0
    rw [show ((k : ℤ) : ℚ) - (k + 1 / 2) = -(1 / 2) by push_cast; ring, pyInt_neg_eq (by norm_num),
      Int.ceil_eq_iff]
    norm_num
  · show pyInt (((k : ℤ) : ℚ) + (k + 1 / 2)) = 2 * k
    rw [pyInt_nonneg_eq (by positivity), Int.floor_eq_iff]
    push_cast
    constructor <;> linarith

/-- The range for even sizes with the full tail. -/
theorem psfRange_even (k : ℕ) (X Y : ℚ) (hk : 1 ≤ k)
    (hs : (k : ℚ) ≤ 5 * max (sigmaOf X) (sigmaOf Y)) :
    psfRange ((2 * k : ℕ) : ℚ) X Y = ((-1 : ℤ), 2 * (k : ℤ) - 1) := by
  have hk' : (1 : ℚ) ≤ k := by exact_mod_cast hk
  have h5 : pyInt (5 * max (sigmaOf X) (sigmaOf Y)) = ⌊5 * max (sigmaOf X) (sigmaOf Y)⌋ :=
    pyInt_nonneg_eq (le_trans (by positivity) hs)
  have h6 : (k : ℤ) ≤ ⌊5 * max (sigmaOf X) (sigmaOf Y)⌋ := Int.le_floor.mpr (by push_cast; exact hs)
  unfold psfRange
  simp only [h5]
  have hmin : min ((⌊5 * max (sigmaOf X) (sigmaOf Y)⌋ : ℤ) : ℚ) (((2 * k : ℕ) : ℚ) / 2) = k := by
    rw [min_eq_right]
    · push_cast; ring
    · have : (k : ℚ) ≤ ((⌊5 * max (sigmaOf X) (sigmaOf Y)⌋ : ℤ) : ℚ) := by exact_mod_cast h6
      push_cast; linarith
  have hmu : pyInt ((((2 * k : ℕ) : ℚ) - 1) / 2) = (k : ℤ) - 1 := by
    rw [show (((2 * k : ℕ) : ℚ) - 1) / 2 = k - 1 / 2 by push_cast; ring]
    rw [pyInt_nonneg_eq (by linarith), Int.floor_eq_iff]
    push_cast
    constructor <;> linarith
  rw [hmin, hmu]
  refine Prod.ext ?_ ?_
  · show pyInt ((((k : ℤ) - 1 : ℤ) : ℚ) - k) = -1
    rw [show (((k : ℤ) - 1 : ℤ) : ℚ) - k = ((-1 : ℤ) : ℚ) by push_cast; ring, pyInt_neg_eq (by norm_num),
      Int.ceil_intCast]
  · show pyInt ((((k : ℤ) - 1 : ℤ) : ℚ) + k) = 2 * k - 1
    rw [show (((k : ℤ) - 1 : ℤ) : ℚ) + k = ((2 * k - 1 : ℤ) : ℚ) by push_cast; ring,
      pyInt_nonneg_eq (by push_cast; linarith), Int.floor_intCast]

theorem floor_nat (n : ℕ) : ⌊((n : ℕ) : ℚ)⌋.toNat = n := by simp

/-- C66: for odd `N ≥ 3` with the full tail the last row and column are zero and all other pixels are
positive, although the Gaussian is centred on the middle pixel. -/
theorem psf_odd (k : ℕ) (X Y : ℚ) (hk : 1 ≤ k) (hX : 0 < X) (hY : 0 ≤ Y)
    (hs : (k : ℚ) + 1 ≤ 5 * max (sigmaOf X) (sigmaOf (yWidth X Y))) :
    ∃ p, simPsf ((2 * k + 1 : ℕ) : ℚ) X Y = .ok (some p) ∧
      ∀ r < 2 * k + 1, ∀ c < 2 * k + 1, (p.px r c = 0 ↔ r = 2 * k ∨ c = 2 * k) := by
  have hN : (1 : ℚ) ≤ ((2 * k + 1 : ℕ) : ℚ) := by push_cast; linarith [show (0 : ℚ) ≤ k by positivity]
  have hk' : (1 : ℚ) ≤ k := by exact_mod_cast hk
  obtain ⟨o, ho, hn, hsm⟩ := psf_ok _ X Y hN hX hY
  cases o with
  | none =>
    rcases hn.mp rfl with h | h
    · push_cast at h; linarith
    · linarith
  | some p =>
    refine ⟨p, ho, fun r hr c hc => ?_⟩
    obtain ⟨-, -, -, -, T, hT, e⟩ := hsm p rfl
    have hYp : 0 < yWidth X Y := by
      unfold yWidth
      split
      · exact hX
      · rename_i h; exact lt_of_le_of_ne hY (Ne.symm h)
    have hsx : (0 : ℝ) < (sigmaOf X : ℚ) := by exact_mod_cast sigmaOf_pos hX
    have hsy : (0 : ℝ) < (sigmaOf (yWidth X Y) : ℚ) := by exact_mod_cast sigmaOf_pos hYp
    rw [floor_nat] at e
    rw [e r hr c hc, psfRange_odd k X _ hk hs]
    have hw : ∀ x < 2 * k + 1, writer (2 * k + 1) 0 (2 * (k : ℤ)) x = if x = 2 * k then none else some (x : ℤ) := by
      intro x hx
      unfold writer
      by_cases h : x = 2 * k
      · rw [if_neg (by omega), if_neg (by omega), if_pos h]
      · rw [if_pos (by omega), if_neg h]
    rw [div_eq_zero_iff]
    unfold gridVal
    simp only [hw r hr, hw c hc]
    by_cases h1 : r = 2 * k
    · simp [h1]
    · by_cases h2 : c = 2 * k
      · simp [h2]
      · have := mul_pos (normPdf_pos (r : ℤ) ((((2 * k + 1 : ℕ) : ℚ) - 1) / 2 : ℚ) _ hsx)
          (normPdf_pos (c : ℤ) ((((2 * k + 1 : ℕ) : ℚ) - 1) / 2 : ℚ) _ hsy)
        simp only [h1, h2, or_self, iff_false, not_or]
        exact ⟨this.ne', hT.ne'⟩

/-- C66: for even `N` with the full tail every pixel is the Gaussian at its index, up to a common factor,
except that the last row and column hold the value for index -1. -/
theorem psf_even (k : ℕ) (X Y : ℚ) (hk : 1 ≤ k) (hX : 0 < X) (hY : 0 ≤ Y)
    (hs : (k : ℚ) ≤ 5 * max (sigmaOf X) (sigmaOf (yWidth X Y))) :
    ∃ p, simPsf ((2 * k : ℕ) : ℚ) X Y = .ok (some p) ∧ ∃ T > 0,
      ∀ r < 2 * k, ∀ c < 2 * k, p.px r c * T =
        normPdf (if r = 2 * k - 1 then (-1 : ℝ) else r) (k - 1 / 2) (sigmaOf X : ℚ) *
        normPdf (if c = 2 * k - 1 then (-1 : ℝ) else c) (k - 1 / 2) (sigmaOf (yWidth X Y) : ℚ) := by
  have hk' : (1 : ℚ) ≤ k := by exact_mod_cast hk
  have hN : (1 : ℚ) ≤ ((2 * k : ℕ) : ℚ) := by push_cast; linarith
  obtain ⟨o, ho, hn, hsm⟩ := psf_ok _ X Y hN hX hY
  cases o with
  | none =>
    rcases hn.mp rfl with h | h
    · push_cast at h; linarith
    · linarith
  | some p =>
    obtain ⟨-, -, -, -, T, hT, e⟩ := hsm p rfl
    refine ⟨p, ho, T, hT, fun r hr c hc => ?_⟩
    rw [floor_nat] at e
    rw [e r hr c hc, div_mul_cancel₀ _ hT.ne', psfRange_even k X _ hk hs]
    have hw : ∀ x < 2 * k, writer (2 * k) (-1) (2 * (k : ℤ) - 1) x = if x = 2 * k - 1 then some (-1) else some (x : ℤ) := by
      intro x hx
      unfold writer
      by_cases h : x = 2 * k - 1
      · rw [if_neg (by omega), if_pos (by omega), if_pos h]; congr 1; omega
      · rw [if_pos (by omega), if_neg h]
    have hmu : (((((2 * k : ℕ) : ℚ) - 1) / 2 : ℚ) : ℝ) = k - 1 / 2 := by push_cast; ring
    unfold gridVal
    simp only [hw r hr, hw c hc, hmu]
    by_cases h1 : r = 2 * k - 1 <;> by_cases h2 : c = 2 * k - 1 <;> simp [h1, h2]

/-- A 5 x 5 PSF of width 2.335 pixels exists and its last row is zero; a 4 x 4 one exists too. -/
example : (∃ p, simPsf ((2 * 2 + 1 : ℕ) : ℚ) (2335 / 1000) 0 = .ok (some p) ∧ p.px 4 1 = 0 ∧ p.px 0 1 ≠ 0) ∧
    ∃ p, simPsf ((2 * 2 : ℕ) : ℚ) (2335 / 1000) 0 = .ok (some p) := by
  have hs : (5 : ℚ) ≤ 5 * max (sigmaOf (2335 / 1000)) (sigmaOf (yWidth (2335 / 1000) 0)) := by
    unfold yWidth sigmaOf; norm_num
  constructor
  · obtain ⟨p, h1, h2⟩ := psf_odd 2 (2335 / 1000) 0 (by norm_num) (by norm_num) le_rfl
      (le_trans (by norm_num) hs)
    exact ⟨p, h1, (h2 4 (by omega) 1 (by omega)).mpr (by omega),
      fun h => by have := (h2 0 (by omega) 1 (by omega)).mp h; omega⟩
  · obtain ⟨p, h1, -⟩ := psf_even 2 (2335 / 1000) 0 (by norm_num) (by norm_num) le_rfl
      (le_trans (by norm_num) hs)
    exact ⟨p, h1⟩

/-- Different widths, both orders succeed. -/
example : ∃ p q, simPsf 8 2 3 = .ok (some p) ∧ simPsf 8 3 2 = .ok (some q) ∧ p.px 1 2 = q.px 2 1 := by
  have h8 : ⌊(8 : ℚ)⌋.toNat = 8 := by norm_num; rfl
  have key : ∀ X Y : ℚ, 0 < X → 0 < Y → 2 ≤ X → ∃ p, simPsf 8 X Y = .ok (some p) := by
    intro X Y hX hY h2
    obtain ⟨o, ho, hn, -⟩ := psf_ok 8 X Y (by norm_num) hX hY.le
    cases o with
    | some p => exact ⟨p, ho⟩
    | none =>
      rcases hn.mp rfl with h | h
      · norm_num at h
      · have : sigmaOf X ≤ max (sigmaOf X) (sigmaOf (yWidth X Y)) := le_max_left _ _
        unfold sigmaOf at *
        linarith
  obtain ⟨p, hp⟩ := key 2 3 (by norm_num) (by norm_num) le_rfl
  obtain ⟨q, hq⟩ := key 3 2 (by norm_num) (by norm_num) (by norm_num)
  exact ⟨p, q, hp, hq, psf_transpose 8 2 3 (by norm_num) (by norm_num) (by norm_num) p q hp hq 1
    (by rw [h8]; omega) 2 (by rw [h8]; omega)⟩

end PI
