import Verif.Base.Py
import Mathlib.Tactic.Linarith
import Mathlib.Tactic.Ring
import Mathlib.Tactic.FieldSimp
import Mathlib.Tactic.Positivity
import Mathlib.Tactic.NormNum

/-! Error bounds for the binary64 rounding model. -/

namespace PI

theorem roundHalfEven_err (q : ℚ) : |(roundHalfEven q : ℚ) - q| ≤ 1 / 2 := by
  have h1 := Int.floor_le q
  have h2 := Int.lt_floor_add_one q
  unfold roundHalfEven
  rw [abs_le]
  split_ifs <;> push_cast <;> constructor <;> linarith

theorem roundHalfEven_int (n : ℤ) : roundHalfEven (n : ℚ) = n := by
  simp [roundHalfEven]

theorem fl64_zero : fl64 0 = 0 := by simp [fl64]

theorem two_zpow_pos (e : ℤ) : (0 : ℚ) < 2 ^ e :=
  zpow_pos (by norm_num) e

/-- Relative error of binary64 rounding. -/
theorem fl64_err (q : ℚ) (hq : 0 ≤ q) : |fl64 q - q| ≤ q / 2 ^ 53 := by
  rcases hq.eq_or_lt with h | h
  · subst h; simp [fl64_zero]
  · have habs : |q| = q := abs_of_pos h
    have hlog : (2 : ℚ) ^ (Int.log 2 q) ≤ q := by
      have := Int.zpow_log_le_self (b := 2) (r := q) (by norm_num) h
      simpa using this
    set e := Int.log 2 q with he
    have hfl : fl64 q = (roundHalfEven (q * 2 ^ (52 - e)) : ℚ) * 2 ^ (e - 52) := by
      simp [fl64, h.ne', habs, ← he]
    have hcancel : (2 : ℚ) ^ (52 - e) * 2 ^ (e - 52) = 1 := by
      rw [← zpow_add₀ (by norm_num)]; simp
    have herr := roundHalfEven_err (q * 2 ^ (52 - e))
    have hq' : q = (q * 2 ^ (52 - e)) * 2 ^ (e - 52) := by
      rw [mul_assoc, hcancel, mul_one]
    have hpos : (0 : ℚ) < 2 ^ (e - 52) := two_zpow_pos _
    have key : fl64 q - q
        = ((roundHalfEven (q * 2 ^ (52 - e)) : ℚ) - q * 2 ^ (52 - e)) * 2 ^ (e - 52) := by
      rw [hfl, sub_mul, ← hq']
    rw [key, abs_mul, abs_of_pos hpos]
    calc _ ≤ (1 / 2) * (2 : ℚ) ^ (e - 52) := by gcongr
      _ = 2 ^ e / 2 ^ 53 := by
        rw [zpow_sub₀ (by norm_num)]; norm_num; ring
      _ ≤ q / 2 ^ 53 := by gcongr

theorem fl64_nonneg (q : ℚ) (hq : 0 ≤ q) : 0 ≤ fl64 q := by
  have h := (abs_le.1 (fl64_err q hq)).1
  have : q / 2 ^ 53 ≤ q := by
    apply div_le_self hq; norm_num
  linarith

/-- Integers up to `2^53` are exact. -/
theorem fl64_natCast (n : ℕ) (hn : n ≤ 2 ^ 53) : fl64 (n : ℚ) = n := by
  rcases Nat.eq_zero_or_pos n with h0 | hpos
  · subst h0; simp [fl64_zero]
  · have hq : (0 : ℚ) < n := by exact_mod_cast hpos
    set e := Int.log 2 (n : ℚ) with he
    have hfl : fl64 (n : ℚ) = (roundHalfEven ((n : ℚ) * 2 ^ (52 - e)) : ℚ) * 2 ^ (e - 52) := by
      simp only [fl64, hq.ne', if_false, abs_of_pos hq, ← he]
    have hcancel : (2 : ℚ) ^ (52 - e) * 2 ^ (e - 52) = 1 := by
      rw [← zpow_add₀ (by norm_num)]; simp
    have hlog : (2 : ℚ) ^ e ≤ n := by
      have := Int.zpow_log_le_self (b := 2) (r := (n : ℚ)) (by norm_num) hq
      simpa [← he] using this
    by_cases hle : e ≤ 52
    · -- scaled value is an integer
      obtain ⟨k, hk⟩ : ∃ k : ℕ, 52 - e = k := ⟨(52 - e).toNat, by omega⟩
      have : (n : ℚ) * 2 ^ (52 - e) = ((n * 2 ^ k : ℕ) : ℤ) := by
        rw [hk]; push_cast; simp
      rw [hfl, this, roundHalfEven_int, ← this, mul_assoc, hcancel, mul_one]
    · -- then n = 2^53
      have h53 : (2 : ℚ) ^ (53 : ℤ) ≤ 2 ^ e := by
        apply zpow_le_zpow_right₀ (by norm_num); omega
      have hn' : (n : ℚ) ≤ 2 ^ (53 : ℤ) := by
        have : (n : ℚ) ≤ ((2 ^ 53 : ℕ) : ℚ) := by exact_mod_cast hn
        refine this.trans_eq ?_
        push_cast
        norm_cast
      have hEq : (n : ℚ) = 2 ^ e := le_antisymm (hn'.trans h53) hlog
      have : (n : ℚ) * 2 ^ (52 - e) = ((2 ^ 52 : ℕ) : ℤ) := by
        rw [hEq, ← zpow_add₀ (by norm_num)]; norm_num
      rw [hfl, this, roundHalfEven_int, ← this, mul_assoc, hcancel, mul_one]

theorem pyInt_of_nonneg (q : ℚ) (h : 0 ≤ q) : pyInt q = ⌊q⌋ := by simp [pyInt, h]

/-- Monotonicity of half-even rounding to integers. -/
theorem roundHalfEven_mono {a b : ℚ} (h : a ≤ b) : roundHalfEven a ≤ roundHalfEven b := by
  have hf : ⌊a⌋ ≤ ⌊b⌋ := Int.floor_le_floor h
  have ha1 := Int.floor_le a
  have hb1 := Int.floor_le b
  have ha2 := Int.lt_floor_add_one a
  have hb2 := Int.lt_floor_add_one b
  rcases hf.eq_or_lt with heq | hlt
  · unfold roundHalfEven
    rw [← heq]
    have hheq : (⌊a⌋ : ℚ) = ⌊b⌋ := by exact_mod_cast heq
    split_ifs <;> first | omega | (exfalso; linarith)
  · have : roundHalfEven a ≤ ⌊a⌋ + 1 := by unfold roundHalfEven; split_ifs <;> omega
    have : ⌊b⌋ ≤ roundHalfEven b := by unfold roundHalfEven; split_ifs <;> omega
    omega


theorem fl64_pos_eq (q : ℚ) (h : 0 < q) :
    fl64 q = (roundHalfEven (q * 2 ^ (52 - Int.log 2 q)) : ℚ) * 2 ^ (Int.log 2 q - 52) := by
  simp [fl64, h.ne', abs_of_pos h]

theorem log_bounds (q : ℚ) (h : 0 < q) :
    (2 : ℚ) ^ (Int.log 2 q) ≤ q ∧ q < 2 ^ (Int.log 2 q + 1) := by
  constructor
  · simpa using Int.zpow_log_le_self (b := 2) (r := q) (by norm_num) h
  · simpa using Int.lt_zpow_succ_log_self (b := 2) (by norm_num) q

theorem scaled_bounds (q : ℚ) (h : 0 < q) :
    (2 : ℚ) ^ (52 : ℕ) ≤ q * 2 ^ (52 - Int.log 2 q) ∧
      q * 2 ^ (52 - Int.log 2 q) < 2 ^ (53 : ℕ) := by
  obtain ⟨h1, h2⟩ := log_bounds q h
  set e := Int.log 2 q
  have hp : (0 : ℚ) < 2 ^ (52 - e) := two_zpow_pos _
  have e1 : (2 : ℚ) ^ (52 : ℕ) = 2 ^ e * 2 ^ (52 - e) := by
    rw [← zpow_add₀ (by norm_num), ← zpow_natCast]; congr 1; push_cast; ring
  have e2 : (2 : ℚ) ^ (53 : ℕ) = 2 ^ (e + 1) * 2 ^ (52 - e) := by
    rw [← zpow_add₀ (by norm_num), ← zpow_natCast]; congr 1; push_cast; ring
  rw [e1, e2]
  constructor <;> gcongr

theorem round_scaled_bounds (q : ℚ) (h : 0 < q) :
    (2 : ℤ) ^ 52 ≤ roundHalfEven (q * 2 ^ (52 - Int.log 2 q)) ∧
      roundHalfEven (q * 2 ^ (52 - Int.log 2 q)) ≤ 2 ^ 53 := by
  obtain ⟨h1, h2⟩ := scaled_bounds q h
  constructor
  · have := roundHalfEven_mono (a := ((2 ^ 52 : ℤ) : ℚ)) (by push_cast; exact h1)
    rwa [roundHalfEven_int] at this
  · have := roundHalfEven_mono (b := ((2 ^ 53 : ℤ) : ℚ)) (by push_cast; exact h2.le)
    rwa [roundHalfEven_int] at this

theorem two_zpow_scale52 (e : ℤ) : (2 : ℚ) ^ e = ((2 ^ 52 : ℤ) : ℚ) * 2 ^ (e - 52) := by
  have : (((2 ^ 52 : ℤ)) : ℚ) = (2 : ℚ) ^ (52 : ℤ) := by norm_cast
  rw [this, ← zpow_add₀ (by norm_num)]; congr 1; ring

theorem two_zpow_scale53 (e : ℤ) :
    (2 : ℚ) ^ (e + 1) = ((2 ^ 53 : ℤ) : ℚ) * 2 ^ (e - 52) := by
  have : (((2 ^ 53 : ℤ)) : ℚ) = (2 : ℚ) ^ (53 : ℤ) := by norm_cast
  rw [this, ← zpow_add₀ (by norm_num)]; congr 1; ring

theorem fl64_binade (q : ℚ) (h : 0 < q) :
    (2 : ℚ) ^ (Int.log 2 q) ≤ fl64 q ∧ fl64 q ≤ 2 ^ (Int.log 2 q + 1) := by
  obtain ⟨h1, h2⟩ := round_scaled_bounds q h
  rw [fl64_pos_eq q h]
  set e := Int.log 2 q
  set m := roundHalfEven (q * 2 ^ (52 - e))
  have hp : (0 : ℚ) < 2 ^ (e - 52) := two_zpow_pos _
  have e1 : (2 : ℚ) ^ e = ((2 ^ 52 : ℤ) : ℚ) * 2 ^ (e - 52) := by
    exact two_zpow_scale52 e
  have e2 : (2 : ℚ) ^ (e + 1) = ((2 ^ 53 : ℤ) : ℚ) * 2 ^ (e - 52) := two_zpow_scale53 e
  rw [e1, e2]
  constructor
  · gcongr
  · gcongr

/-- Rounding is monotone. -/
theorem fl64_mono {a b : ℚ} (ha : 0 ≤ a) (h : a ≤ b) : fl64 a ≤ fl64 b := by
  rcases ha.eq_or_lt with h0 | hpos
  · rw [← h0, fl64_zero]; exact fl64_nonneg b (h0 ▸ h)
  · have hb : 0 < b := hpos.trans_le h
    have hlog : Int.log 2 a ≤ Int.log 2 b := Int.log_mono_right hpos h
    rcases hlog.eq_or_lt with heq | hlt
    · rw [fl64_pos_eq a hpos, fl64_pos_eq b hb, ← heq]
      have hp : (0 : ℚ) < 2 ^ (Int.log 2 a - 52) := two_zpow_pos _
      have hp' : (0 : ℚ) < 2 ^ (52 - Int.log 2 a) := two_zpow_pos _
      have : roundHalfEven (a * 2 ^ (52 - Int.log 2 a)) ≤
          roundHalfEven (b * 2 ^ (52 - Int.log 2 a)) := by
        apply roundHalfEven_mono; gcongr
      gcongr
    · refine (fl64_binade a hpos).2.trans (le_trans ?_ (fl64_binade b hb).1)
      apply zpow_le_zpow_right₀ (by norm_num); omega

theorem fl64_of_int_scaled (m : ℤ) (e : ℤ) (h1 : 2 ^ 52 ≤ m) (h2 : m ≤ 2 ^ 53) :
    fl64 ((m : ℚ) * 2 ^ (e - 52)) = (m : ℚ) * 2 ^ (e - 52) := by
  have hp : (0 : ℚ) < 2 ^ (e - 52) := two_zpow_pos _
  have hm : (0 : ℚ) < m := by
    have : (0 : ℤ) < m := by omega
    exact_mod_cast this
  have hq : 0 < (m : ℚ) * 2 ^ (e - 52) := by positivity
  -- it suffices that the scaled value is an integer
  have key : ∀ f : ℤ, f ≤ e + 1 → Int.log 2 ((m : ℚ) * 2 ^ (e - 52)) = f →
      (f ≤ e ∨ m % 2 = 0) →
      fl64 ((m : ℚ) * 2 ^ (e - 52)) = (m : ℚ) * 2 ^ (e - 52) := by
    intro f hf hlog hor
    rw [fl64_pos_eq _ hq, hlog]
    have hcancel : (2 : ℚ) ^ (52 - f) * 2 ^ (f - 52) = 1 := by
      rw [← zpow_add₀ (by norm_num)]; simp
    have hint : ∃ n : ℤ, (m : ℚ) * 2 ^ (e - 52) * 2 ^ (52 - f) = n := by
      have : (m : ℚ) * 2 ^ (e - 52) * 2 ^ (52 - f) = m * 2 ^ (e - f) := by
        rw [mul_assoc, ← zpow_add₀ (by norm_num)]; congr 2; ring
      rw [this]
      by_cases hfe : f ≤ e
      · obtain ⟨k, hk⟩ : ∃ k : ℕ, e - f = k := ⟨(e - f).toNat, by omega⟩
        exact ⟨m * 2 ^ k, by rw [hk]; push_cast; simp⟩
      · have hfe1 : e - f = -1 := by omega
        have hm2 : m % 2 = 0 := by
          rcases hor with h | h
          · exact absurd h hfe
          · exact h
        refine ⟨m / 2, ?_⟩
        have h3 : m = 2 * (m / 2) := by omega
        rw [hfe1]
        have h4 : (m : ℚ) = 2 * ((m / 2 : ℤ) : ℚ) := by exact_mod_cast h3
        rw [h4, zpow_neg_one]; ring_nf
    obtain ⟨n, hn⟩ := hint
    rw [hn, roundHalfEven_int, ← hn, mul_assoc, hcancel, mul_one]
  obtain ⟨hl1, hl2⟩ := log_bounds _ hq
  set f := Int.log 2 ((m : ℚ) * 2 ^ (e - 52)) with hfdef
  have hup : (m : ℚ) * 2 ^ (e - 52) ≤ 2 ^ (e + 1) := by
    have e2 : (2 : ℚ) ^ (e + 1) = ((2 ^ 53 : ℤ) : ℚ) * 2 ^ (e - 52) := two_zpow_scale53 e
    rw [e2]; gcongr
  have hfe : f ≤ e + 1 := by
    by_contra hcon
    have : (2 : ℚ) ^ (e + 1) < 2 ^ f := zpow_lt_zpow_right₀ (by norm_num) (by omega)
    linarith
  apply key f hfe rfl
  by_cases hh : f ≤ e
  · exact Or.inl hh
  · right
    have hf1 : f = e + 1 := by omega
    have hge : (2 : ℚ) ^ (e + 1) ≤ m * 2 ^ (e - 52) := by rw [← hf1]; exact hl1
    have e2 : (2 : ℚ) ^ (e + 1) = ((2 ^ 53 : ℤ) : ℚ) * 2 ^ (e - 52) := two_zpow_scale53 e
    rw [e2] at hge
    have : ((2 ^ 53 : ℤ) : ℚ) ≤ m := le_of_mul_le_mul_right hge hp
    have : (2 ^ 53 : ℤ) ≤ m := by exact_mod_cast this
    omega

/-- Rounding an already rounded number changes nothing. -/
theorem fl64_idem (q : ℚ) (hq : 0 ≤ q) : fl64 (fl64 q) = fl64 q := by
  rcases hq.eq_or_lt with h | h
  · rw [← h, fl64_zero, fl64_zero]
  · obtain ⟨h1, h2⟩ := round_scaled_bounds q h
    rw [fl64_pos_eq q h]
    exact fl64_of_int_scaled _ _ h1 h2

end PI
