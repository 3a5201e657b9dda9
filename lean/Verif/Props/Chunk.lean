import Verif.Lemmas.Chunk

/-!
# Properties C01–C03: `utils.chunk_it`

`fuel` only bounds how often the loop condition may be tested; every theorem either holds for any
fuel for which the loop ended (`.ok`) or shows that a concrete amount suffices.
-/

namespace PI

/-! ## C01 -/

theorem floatArith_step (L n : ℕ) (x : ℚ) (hx : 0 ≤ x ∧ fl64 x = x) :
    let a := floatArith.ratio L n
    (0 ≤ floatArith.add x a ∧ fl64 (floatArith.add x a) = floatArith.add x a) ∧
      floatArith.toInt x ≤ floatArith.toInt (floatArith.add x a) := by
  intro a
  have ha : 0 ≤ a := fl64_nonneg _ (by positivity)
  have h0 : 0 ≤ x + a := add_nonneg hx.1 ha
  have h1 : 0 ≤ fl64 (x + a) := fl64_nonneg _ h0
  refine ⟨⟨h1, fl64_idem _ h0⟩, ?_⟩
  have h2 : x ≤ fl64 (x + a) := by
    have := fl64_mono (b := x + a) hx.1 (by linarith)
    rwa [hx.2] at this
  change pyInt x ≤ pyInt (fl64 (x + a))
  rw [pyInt_of_nonneg _ hx.1, pyInt_of_nonneg _ h1]
  exact Int.floor_mono h2

/-- C01 (binary64): whenever `chunk_it`'s loop ends, the slices it collected concatenate to the
input sequence. -/
theorem chunk_raw_flatten_float {α : Type} (seq : List α) (num fuel : ℕ) (out : List (List α))
    (h : chunkRaw floatArith seq num fuel = .ok out) : out.flatten = seq := by
  unfold chunkRaw at h
  split_ifs at h with hn
  split at h
  · rename_i o ho
    obtain rfl : o = out := by simpa using h
    have := chunkLoop_flatten floatArith (fun x => 0 ≤ x ∧ fl64 x = x) seq _
      (floatArith_step seq.length num)
      (fun x hx => by change 0 ≤ pyInt x; rw [pyInt_of_nonneg _ hx.1]; exact Int.floor_nonneg.2 hx.1)
      (fun x hx hlt => by
        change (seq.length : ℤ) ≤ pyInt x
        rw [pyInt_of_nonneg _ hx.1, Int.le_floor]
        simpa [floatArith] using hlt)
      fuel floatArith.zero o ⟨le_refl _, fl64_zero⟩ ho
    rw [this]
    simp [floatArith, pyInt]
  · simp at h

/-- C01 (exact arithmetic). -/
theorem chunk_raw_flatten_exact {α : Type} (seq : List α) (num fuel : ℕ) (out : List (List α))
    (h : chunkRaw exactArith seq num fuel = .ok out) : out.flatten = seq := by
  unfold chunkRaw at h
  split_ifs at h with hn
  split at h
  · rename_i o ho
    obtain rfl : o = out := by simpa using h
    have := chunkLoop_flatten exactArith (fun x => 0 ≤ x) seq _
      (fun x hx => by
        have ha : (0 : ℚ) ≤ (seq.length : ℚ) / num := by positivity
        have h1 : 0 ≤ x + (seq.length : ℚ) / num := add_nonneg hx ha
        refine ⟨h1, ?_⟩
        change pyInt x ≤ pyInt (x + (seq.length : ℚ) / num)
        rw [pyInt_of_nonneg _ hx, pyInt_of_nonneg _ h1]
        exact Int.floor_mono (by linarith))
      (fun x hx => by change 0 ≤ pyInt x; rw [pyInt_of_nonneg _ hx]; exact Int.floor_nonneg.2 hx)
      (fun x hx hlt => by
        change (seq.length : ℤ) ≤ pyInt x
        rw [pyInt_of_nonneg _ hx, Int.le_floor]
        simpa [exactArith] using hlt)
      fuel exactArith.zero o (le_refl _) ho
    rw [this]
    simp [exactArith, pyInt]
  · simp at h

/-- The list `chunk_it` returns is a permutation of the collected slices, whatever the comparison
of chunks does (including raising). -/
theorem chunk_it_perm_raw {F α : Type} (A : ChunkArith F) (lt : List α → List α → Option Bool)
    (seq : List α) (num fuel : ℕ) (out : List (List α))
    (h : chunkIt A lt seq num fuel = .ok out) :
    ∃ raw, chunkRaw A seq num fuel = .ok raw ∧ out.Perm raw := by
  unfold chunkIt at h
  cases hr : chunkRaw A seq num fuel with
  | error e => rw [hr] at h; simp [Except.map] at h
  | ok raw =>
    rw [hr] at h
    refine ⟨raw, rfl, ?_⟩
    have h : (sortedDesc lt raw).getD raw = out := by simpa [Except.map] using h
    cases hs : sortedDesc lt raw with
    | none => rw [hs] at h; simp at h; subst h; exact List.Perm.refl _
    | some s => rw [hs] at h; simp at h; subst h; exact sortedDesc_perm lt raw s hs

/-- C01: every element of `seq` is in the returned chunks exactly as often as in `seq`
(binary64 arithmetic, any ordering). -/
theorem chunk_it_elements_once {α : Type} (lt : List α → List α → Option Bool)
    (seq : List α) (num fuel : ℕ) (out : List (List α))
    (h : chunkIt floatArith lt seq num fuel = .ok out) : out.flatten.Perm seq := by
  obtain ⟨raw, hraw, hp⟩ := chunk_it_perm_raw _ _ _ _ _ _ h
  rw [← chunk_raw_flatten_float seq num fuel raw hraw]
  exact hp.flatten

example : (chunkIt floatArith (fun a b => some (decide (a < b))) [5, 3, 8, 1, 9, 2, 7] 3 5)
    = .ok [[9, 2, 7], [8, 1], [5, 3]] := by decide +kernel

/-! ## C02 -/

/-- C02 (exact arithmetic): `num` slices with the boundaries `⌊k·len/num⌋`. -/
theorem chunk_raw_exact_closed {α : Type} (seq : List α) (num fuel : ℕ) (hs : seq ≠ [])
    (hn : 1 ≤ num) (hf : num < fuel) :
    chunkRaw exactArith seq num fuel =
      .ok ((List.range num).map fun k =>
        (seq.take ((k + 1) * seq.length / num)).drop (k * seq.length / num)) := by
  have hL : 0 < seq.length := List.length_pos_iff.2 hs
  have hn0 : (0 : ℚ) < num := by exact_mod_cast hn
  have hL0 : (0 : ℚ) < seq.length := by exact_mod_cast hL
  unfold chunkRaw
  rw [if_neg (by omega)]
  have key := chunkLoop_iter exactArith seq ((seq.length : ℚ) / num)
    (fun k : ℕ => (k : ℚ) * ((seq.length : ℚ) / num))
    (fun k => by change _ = _ + _; push_cast; ring) num 0 fuel
    (fun i hi => by
      have hi' : (i : ℚ) < num := by exact_mod_cast hi
      simp only [exactArith, decide_eq_true_eq, zero_add]
      rw [mul_div_assoc', div_lt_iff₀ hn0, mul_comm]
      exact mul_lt_mul_of_pos_left hi' hL0)
    (by
      simp only [exactArith, decide_eq_false_iff_not, zero_add]
      rw [mul_div_cancel₀ _ hn0.ne']; exact lt_irrefl _)
    hf
  have h0 : exactArith.zero = ((0 : ℕ) : ℚ) * ((seq.length : ℚ) / num) := by simp [exactArith]
  rw [h0]
  have hratio : exactArith.ratio seq.length num = (seq.length : ℚ) / num := rfl
  rw [hratio, key]
  simp only [Except.ok.injEq]
  apply List.map_congr_left
  intro k _
  have hfl : ∀ m : ℕ, exactArith.toInt ((m : ℚ) * ((seq.length : ℚ) / num))
      = ((m * seq.length / num : ℕ) : ℤ) := by
    intro m
    change pyInt _ = _
    rw [pyInt_of_nonneg _ (by positivity), mul_div_assoc']
    rw [show (m : ℚ) * seq.length = ((m * seq.length : ℕ) : ℚ) by push_cast; rfl]
    rw [Rat.floor_natCast_div_natCast]
    norm_cast
  simp only [zero_add]
  rw [hfl, hfl, pySlice_nonneg _ _ _ (by positivity) (by positivity)]
  rw [Int.toNat_natCast, Int.toNat_natCast]

/-- C02 (exact arithmetic): exactly `num` chunks, each of size `⌊len/num⌋` or one more. -/
theorem chunk_raw_exact_balanced {α : Type} (seq : List α) (num fuel : ℕ) (hs : seq ≠ [])
    (hn : 1 ≤ num) (hf : num < fuel) :
    ∃ out, chunkRaw exactArith seq num fuel = .ok out ∧ out.length = num ∧
      ∀ c ∈ out, seq.length / num ≤ c.length ∧ c.length ≤ seq.length / num + 1 := by
  refine ⟨_, chunk_raw_exact_closed seq num fuel hs hn hf, by simp, ?_⟩
  intro c hc
  obtain ⟨k, hk, rfl⟩ := List.mem_map.1 hc
  rw [List.mem_range] at hk
  have hn' : 0 < num := hn
  have hle : (k + 1) * seq.length / num ≤ seq.length := by
    apply Nat.div_le_of_le_mul
    exact Nat.mul_le_mul_right _ (by omega)
  rw [List.length_drop, List.length_take, min_eq_left hle]
  have e : (k + 1) * seq.length = k * seq.length + seq.length := by ring
  rw [e]
  have h1 : k * seq.length / num + seq.length / num ≤ (k * seq.length + seq.length) / num := by
    rw [Nat.add_div hn']; omega
  have h2 : (k * seq.length + seq.length) / num ≤ k * seq.length / num + seq.length / num + 1 := by
    rw [Nat.add_div hn']; split_ifs <;> omega
  generalize (k * seq.length + seq.length) / num = A at *
  generalize k * seq.length / num = B at *
  generalize seq.length / num = C at *
  omega

theorem lastSeq_floatArith (a : ℚ) (k : ℕ) :
    lastSeq a (k + 1) = floatArith.add (lastSeq a k) a := rfl

/-- The loop runs at least `num` times (binary64). -/
theorem lastSeq_lt (L num : ℕ) (hL : 1 ≤ L) (hn : 1 ≤ num) (hn' : num ≤ 2 ^ 25) :
    ∀ k, k < num → lastSeq (fl64 ((L : ℚ) / num)) k < L := by
  intro k
  induction k using Nat.strong_induction_on with
  | _ k ih =>
    intro hk
    have herr := (abs_le.1 (lastSeq_err L num hn k (fun j hj => ih j hj (by omega)))).2
    have hn0 : (0 : ℚ) < num := by exact_mod_cast hn
    have hL0 : (0 : ℚ) < L := by exact_mod_cast hL
    have hk1 : (k : ℚ) + 1 ≤ num := by exact_mod_cast hk
    have hn2 : (num : ℚ) ≤ 2 ^ 25 := by exact_mod_cast hn'
    have hk0 : (0 : ℚ) ≤ k := by positivity
    -- `k L / n ≤ L - L/n` and the error is below `L/n`
    have h1 : (k : ℚ) * (L / num) ≤ L - L / num := by
      have : (k : ℚ) * (L / num) + L / num = (k + 1) * (L / num) := by ring
      have h2 : ((k : ℚ) + 1) * (L / num) ≤ num * (L / num) := by gcongr
      rw [mul_div_cancel₀ _ hn0.ne'] at h2
      linarith
    have h3 : 4 * (k : ℚ) * L / 2 ^ 53 < L / num := by
      rw [div_lt_div_iff₀ (by norm_num) hn0]
      have h4 : (k : ℚ) * num ≤ 2 ^ 25 * 2 ^ 25 := by
        apply mul_le_mul _ hn2 hn0.le (by norm_num); linarith
      nlinarith
    linarith

theorem lastSeq_ge (L num : ℕ) (hL : 1 ≤ L) (hn : 1 ≤ num) (hn' : num ≤ 2 ^ 25)
    (h : lastSeq (fl64 ((L : ℚ) / num)) num < L) :
    (L : ℚ) ≤ lastSeq (fl64 ((L : ℚ) / num)) (num + 1) := by
  have herr := (abs_le.1 (lastSeq_err L num hn (num + 1) (fun j hj => by
    rcases Nat.lt_or_ge j num with h' | h'
    · exact lastSeq_lt L num hL hn hn' j h'
    · rwa [show j = num by omega]))).1
  have hn0 : (0 : ℚ) < num := by exact_mod_cast hn
  have hL0 : (0 : ℚ) < L := by exact_mod_cast hL
  have hn2 : (num : ℚ) ≤ 2 ^ 25 := by exact_mod_cast hn'
  have hn1 : (1 : ℚ) ≤ num := by exact_mod_cast hn
  have h1 : (((num + 1 : ℕ) : ℚ)) * (L / num) = L + L / num := by
    push_cast; field_simp
  have h3 : 4 * ((num + 1 : ℕ) : ℚ) * L / 2 ^ 53 ≤ L / num := by
    rw [div_le_div_iff₀ (by norm_num) hn0]
    push_cast
    have h4 : ((num : ℚ) + 1) * num ≤ 2 ^ 51 := by nlinarith
    nlinarith
  linarith

/-- C02 (binary64), with the trajectory made explicit. -/
theorem chunk_raw_float_closed {α : Type} (seq : List α) (num fuel : ℕ) (hs : seq ≠ [])
    (hn : 1 ≤ num) (hn' : num ≤ 2 ^ 25) (hf : num + 1 < fuel) :
    ∃ m, (m = num ∨ m = num + 1) ∧
      (∀ k < m, lastSeq (fl64 ((seq.length : ℚ) / num)) k < seq.length) ∧
      chunkRaw floatArith seq num fuel = .ok ((List.range m).map fun k =>
        pySlice seq (pyInt (lastSeq (fl64 ((seq.length : ℚ) / num)) k))
          (pyInt (lastSeq (fl64 ((seq.length : ℚ) / num)) (k + 1)))) := by
  have hL : 1 ≤ seq.length := List.length_pos_iff.2 hs
  set a := fl64 ((seq.length : ℚ) / num) with ha
  have run : ∀ m, (∀ k < m, lastSeq a k < seq.length) → ¬ lastSeq a m < seq.length → m < fuel →
      chunkRaw floatArith seq num fuel = .ok ((List.range m).map fun k =>
        pySlice seq (pyInt (lastSeq a k)) (pyInt (lastSeq a (k + 1)))) := by
    intro m h1 h2 h3
    unfold chunkRaw
    rw [if_neg (by omega)]
    have key := chunkLoop_iter floatArith seq a (lastSeq a) (lastSeq_floatArith a) m 0 fuel
      (fun i hi => by simpa [floatArith] using h1 i hi)
      (by simpa [floatArith] using h2) h3
    have : chunkLoop floatArith seq (floatArith.ratio seq.length num) fuel floatArith.zero
        = chunkLoop floatArith seq a fuel (lastSeq a 0) := rfl
    rw [this, key]
    simp only [zero_add]
    rfl
  have hlt := lastSeq_lt seq.length num hL hn hn'
  by_cases h : lastSeq a num < seq.length
  · have h1 : ∀ k < num + 1, lastSeq a k < seq.length := by
      intro k hk
      rcases Nat.lt_or_ge k num with h' | h'
      · exact hlt k h'
      · rwa [show k = num by omega]
    exact ⟨num + 1, Or.inr rfl, h1, run _ h1
      (not_lt.2 (lastSeq_ge seq.length num hL hn hn' h)) hf⟩
  · exact ⟨num, Or.inl rfl, hlt, run _ hlt h (by omega)⟩

/-- C02 (binary64): on a non-empty sequence `chunk_it` ends after at most `num + 1` rounds with
`num` or `num + 1` chunks. -/
theorem chunk_it_count {α : Type} (lt : List α → List α → Option Bool) (seq : List α)
    (num fuel : ℕ) (hs : seq ≠ []) (hn : 1 ≤ num) (hn' : num ≤ 2 ^ 25) (hf : num + 1 < fuel) :
    ∃ out, chunkIt floatArith lt seq num fuel = .ok out ∧
      (out.length = num ∨ out.length = num + 1) := by
  obtain ⟨m, hm, _, hraw⟩ := chunk_raw_float_closed seq num fuel hs hn hn' hf
  obtain ⟨out, h⟩ : ∃ out, chunkIt floatArith lt seq num fuel = .ok out := by
    unfold chunkIt; rw [hraw]; exact ⟨_, rfl⟩
  refine ⟨out, h, ?_⟩
  obtain ⟨raw, h1, h2⟩ := chunk_it_perm_raw _ _ _ _ _ _ h
  rw [hraw] at h1
  obtain rfl := Except.ok.inj h1
  rw [h2.length_eq]
  simpa using hm

/-- C02: the extra chunk really happens. -/
theorem chunk_it_extra_chunk :
    (chunkRaw floatArith [(0 : ℕ)] 10 12).toOption.map List.length = some 11 := by
  decide +kernel

/-- C02: the empty sequence gives no chunk at all. -/
theorem chunk_it_nil {F α : Type} (A : ChunkArith F) (lt : List α → List α → Option Bool)
    (num fuel : ℕ) (hn : 1 ≤ num) (h0 : A.lt A.zero 0 = false) :
    chunkIt A lt [] num (fuel + 1) = .ok [] := by
  unfold chunkIt chunkRaw
  rw [if_neg (by omega), chunkLoop]
  simp [h0, Except.map, sortedDesc]

/-- `num = 0` raises. -/
theorem chunk_it_zero {F α : Type} (A : ChunkArith F) (lt : List α → List α → Option Bool)
    (seq : List α) (fuel : ℕ) : chunkIt A lt seq 0 fuel = .error .ZeroDivisionError := by
  simp [chunkIt, chunkRaw, Except.map]

example : floatArith.lt floatArith.zero 0 = false := by decide +kernel
example : (chunkRaw floatArith [1, 2, 3, 4, 5, 6, 7] 3 5) = .ok [[1, 2], [3, 4], [5, 6, 7]] := by
  decide +kernel

/-! ## C03 -/

theorem pySlice_ne_nil {α : Type} (l : List α) (a b : ℤ) (ha : 0 ≤ a) (hab : a < b)
    (hl : a < l.length) : pySlice l a b ≠ [] := by
  rw [pySlice_nonneg _ _ _ ha (by omega)]
  intro h
  have := congrArg List.length h
  simp at this
  omega

/-- Increments of `last` are at least one when there are more elements than chunks. -/
theorem lastSeq_step_ge_one (L num : ℕ) (hn : 1 ≤ num) (hlt : num < L)
    (hb : num * L ≤ 2 ^ 50) (k : ℕ) (hk : lastSeq (fl64 ((L : ℚ) / num)) k < L) :
    lastSeq (fl64 ((L : ℚ) / num)) k + 1 ≤ lastSeq (fl64 ((L : ℚ) / num)) (k + 1) := by
  have hn0 : (0 : ℚ) < num := by exact_mod_cast hn
  have hn1 : (1 : ℚ) ≤ num := by exact_mod_cast hn
  have hL1 : (num : ℚ) + 1 ≤ L := by exact_mod_cast hlt
  have hbq : (num : ℚ) * L ≤ 2 ^ 50 := by exact_mod_cast hb
  set r : ℚ := (L : ℚ) / num with hr
  have hr0 : 0 ≤ r := by positivity
  have hrL : r ≤ L := div_le_self (by positivity) hn1
  have hr1 : 1 + 1 / num ≤ r := by
    rw [hr, le_div_iff₀ hn0, add_mul, one_div, inv_mul_cancel₀ hn0.ne', one_mul]; exact hL1
  set a := fl64 r with ha
  have ha0 : 0 ≤ a := fl64_nonneg r hr0
  have ha2 : a ≤ 2 * L := (fl64_le_twice r hr0).trans (by linarith)
  have haerr := (abs_le.1 (fl64_err r hr0)).1
  have hnn := lastSeq_nonneg a ha0 k
  have hstep := (abs_le.1 (fl64_err (lastSeq a k + a) (add_nonneg hnn ha0))).1
  have hb1 : (lastSeq a k + a) / 2 ^ 53 ≤ (3 * L) / 2 ^ 53 := by gcongr; linarith
  have hrb : r / 2 ^ 53 ≤ L / 2 ^ 53 := by gcongr
  have h5 : 4 * (L : ℚ) / 2 ^ 53 ≤ 1 / num := by
    rw [div_le_div_iff₀ (by norm_num) hn0]; nlinarith
  rw [lastSeq]
  have : (3 * (L : ℚ)) / 2 ^ 53 + L / 2 ^ 53 = 4 * L / 2 ^ 53 := by ring
  linarith

theorem lastSeq_one (k : ℕ) (hk : k ≤ 2 ^ 53) : lastSeq 1 k = k := by
  induction k with
  | zero => simp [lastSeq]
  | succ k ih =>
    rw [lastSeq, ih (by omega)]
    rw [show (k : ℚ) + 1 = ((k + 1 : ℕ) : ℚ) by push_cast; rfl]
    exact fl64_natCast _ hk

/-- C03: `chunk_it` on a non-empty sequence returns an empty chunk iff there are fewer elements
than chunks. -/
theorem chunk_it_empty_iff {α : Type} (lt : List α → List α → Option Bool) (seq : List α)
    (num fuel : ℕ) (hs : seq ≠ []) (hn : 1 ≤ num) (hn' : num ≤ 2 ^ 25)
    (hb : num * seq.length ≤ 2 ^ 50) (hf : num + 1 < fuel) (out : List (List α))
    (h : chunkIt floatArith lt seq num fuel = .ok out) :
    [] ∈ out ↔ seq.length < num := by
  have hL : 1 ≤ seq.length := List.length_pos_iff.2 hs
  obtain ⟨m, hm, hbelow, hraw⟩ := chunk_raw_float_closed seq num fuel hs hn hn' hf
  obtain ⟨raw, h1, h2⟩ := chunk_it_perm_raw _ _ _ _ _ _ h
  rw [hraw] at h1
  obtain rfl := Except.ok.inj h1
  rw [h2.mem_iff]
  have hn0 : (0 : ℚ) < num := by exact_mod_cast hn
  have hr0 : (0 : ℚ) ≤ (seq.length : ℚ) / num := by positivity
  have ha0 := fl64_nonneg _ hr0
  rcases lt_trichotomy seq.length num with hlt | heq | hgt
  · -- first chunk is empty
    refine iff_of_true ?_ hlt
    rw [List.mem_map]
    refine ⟨0, List.mem_range.2 (by omega), ?_⟩
    have h1 : lastSeq (fl64 ((seq.length : ℚ) / num)) 1 < 1 := by
      rw [lastSeq, lastSeq, zero_add, fl64_idem _ hr0]
      have herr := (abs_le.1 (fl64_err _ hr0)).2
      have hr1 : (seq.length : ℚ) / num ≤ 1 - 1 / num := by
        rw [div_le_iff₀ hn0, sub_mul, one_mul, one_div, inv_mul_cancel₀ hn0.ne']
        have : (seq.length : ℚ) + 1 ≤ num := by exact_mod_cast hlt
        linarith
      have hle1 : (seq.length : ℚ) / num / 2 ^ 53 ≤ 1 / 2 ^ 53 := by
        gcongr
        have : (0 : ℚ) ≤ 1 / num := by positivity
        linarith
      have hinv : (1 : ℚ) / 2 ^ 53 < 1 / num := by
        have h2 : (num : ℚ) ≤ 2 ^ 25 := by exact_mod_cast hn'
        apply one_div_lt_one_div_of_lt hn0
        exact lt_of_le_of_lt h2 (by norm_num)
      linarith
    have h0 := lastSeq_nonneg _ ha0 1
    have hfl : pyInt (lastSeq (fl64 ((seq.length : ℚ) / num)) (0 + 1)) = 0 := by
      rw [pyInt_of_nonneg _ h0, Int.floor_eq_zero_iff]
      exact ⟨h0, h1⟩
    have hfl0 : pyInt (lastSeq (fl64 ((seq.length : ℚ) / num)) 0) = 0 := by
      simp [lastSeq, pyInt]
    rw [hfl, hfl0, pySlice_nonneg _ _ _ (le_refl _) (le_refl _)]
    simp
  · -- one element per chunk
    refine iff_of_false ?_ (by omega)
    rw [List.mem_map]
    rintro ⟨k, hk, hnil⟩
    rw [List.mem_range] at hk
    have hk' := hbelow k hk
    have ha1 : fl64 ((seq.length : ℚ) / num) = 1 := by
      rw [heq, div_self hn0.ne']
      exact_mod_cast fl64_natCast 1 (by norm_num)
    rw [ha1] at hnil hk'
    rw [lastSeq_one k (by omega), lastSeq_one (k + 1) (by omega)] at hnil
    rw [lastSeq_one k (by omega)] at hk'
    rw [pyInt_of_nonneg _ (by positivity), pyInt_of_nonneg _ (by positivity),
      Int.floor_natCast, Int.floor_natCast] at hnil
    exact pySlice_ne_nil seq _ _ (by positivity) (by push_cast; omega)
      (by exact_mod_cast hk') hnil
  · refine iff_of_false ?_ (by omega)
    rw [List.mem_map]
    rintro ⟨k, hk, hnil⟩
    rw [List.mem_range] at hk
    have hk' := hbelow k hk
    have hst := lastSeq_step_ge_one seq.length num hn hgt hb k hk'
    have h0 := lastSeq_nonneg _ ha0 k
    have h0' := lastSeq_nonneg _ ha0 (k + 1)
    rw [pyInt_of_nonneg _ h0, pyInt_of_nonneg _ h0'] at hnil
    refine pySlice_ne_nil seq _ _ (Int.floor_nonneg.2 h0) ?_ ?_ hnil
    · have := Int.floor_mono hst
      rw [Int.floor_add_one] at this
      omega
    · rw [Int.floor_lt]; exact_mod_cast hk'

example : [] ∈ ((chunkIt floatArith (fun _ _ => none) [1, 2] 3 6).toOption.getD []) := by
  decide +kernel
example : [] ∉ ((chunkIt floatArith (fun _ _ => none) [1, 2, 3, 4] 3 6).toOption.getD []) := by
  decide +kernel

end PI
