import Verif.Props.ConstructMore

/-! # Property C39: what border detection removes -/

namespace PI

/-- A finite, non-negative value. -/
def NonNeg (v : FVal) : Prop := ∃ q : ℚ, 0 ≤ q ∧ v = .fin q

/-- All in-range pixels are finite and non-negative. -/
def NonNegImg (d : Img FVal) : Prop := ∀ i < d.h, ∀ j < d.w, NonNeg (d.px i j)

/-! ## Sums of non-negative values -/

theorem sum_foldl (l : List FVal) (h : ∀ v ∈ l, NonNeg v) (s : ℚ) (hs : 0 ≤ s) :
    ∃ t, s ≤ t ∧ l.foldl FVal.add (.fin s) = .fin t ∧ (t = s ↔ ∀ v ∈ l, v = .fin 0) := by
  induction l generalizing s with
  | nil => exact ⟨s, le_refl _, rfl, by simp⟩
  | cons a l ih =>
    obtain ⟨q, hq, rfl⟩ := h a List.mem_cons_self
    obtain ⟨t, h1, h2, h3⟩ := ih (fun v hv => h v (List.mem_cons_of_mem _ hv)) (s + q) (by linarith)
    refine ⟨t, by linarith, h2, ?_⟩
    rw [List.forall_mem_cons]
    constructor
    · intro e
      have hq0 : q = 0 := by linarith
      exact ⟨by rw [hq0], h3.1 (by rw [hq0]; linarith)⟩
    · rintro ⟨e1, e2⟩
      have hq0 : q = 0 := by injection e1
      rw [h3.2 e2, hq0, add_zero]

/-- The code's test for a non-empty block, on non-negative pixels. -/
theorem nonEmpty_iff (l : List FVal) (h : ∀ v ∈ l, NonNeg v) :
    nonEmpty l = true ↔ ∃ v ∈ l, v ≠ .fin 0 := by
  obtain ⟨t, h1, h2, h3⟩ := sum_foldl l h 0 (le_refl _)
  have : nonEmpty l = !decide (t = 0) := by
    unfold nonEmpty FVal.sum
    rw [h2]
    rfl
  rw [this]
  by_cases ht : t = 0
  · have := h3.1 ht
    simp only [ht, decide_true, Bool.not_true]
    refine iff_of_false (by simp) ?_
    rintro ⟨v, hv, hne⟩
    exact hne (this v hv)
  · simp only [ht, decide_false, Bool.not_false, true_iff]
    by_contra hno
    push Not at hno
    exact ht (h3.2 hno)

/-- The first index with a positive running sum is the first non-zero entry. -/
theorem firstPosAux_spec (l : List FVal) (h : ∀ v ∈ l, NonNeg v) (x : ℕ) :
    match firstPosAux (.fin 0) x l with
    | none => ∀ v ∈ l, v = .fin 0
    | some y => x ≤ y ∧ (∃ v, l[y - x]? = some v ∧ v ≠ .fin 0) ∧
        ∀ k, k < y - x → l[k]? = some (.fin 0) := by
  induction l generalizing x with
  | nil => simp [firstPosAux]
  | cons a l ih =>
    obtain ⟨q, hq, rfl⟩ := h a List.mem_cons_self
    have hl := fun v hv => h v (List.mem_cons_of_mem _ hv)
    have e : firstPosAux (.fin 0) x (.fin q :: l) =
        if 0 < q then some x else firstPosAux (.fin (0 + q)) (x + 1) l := by
      simp [firstPosAux, FVal.add, FVal.gt]
    rw [e]
    by_cases hpos : 0 < q
    · rw [if_pos hpos]
      refine ⟨le_refl _, ⟨.fin q, by simp, ?_⟩, fun k hk => by omega⟩
      intro he
      injection he with he
      exact hpos.ne' he
    · have hq0 : q = 0 := le_antisymm (not_lt.1 hpos) hq
      rw [if_neg hpos, hq0, add_zero]
      have := ih hl (x + 1)
      cases hf : firstPosAux (.fin 0) (x + 1) l with
      | none =>
        rw [hf] at this
        exact List.forall_mem_cons.2 ⟨rfl, this⟩
      | some y =>
        rw [hf] at this
        obtain ⟨h1, ⟨v, hv, hne⟩, h3⟩ := this
        refine ⟨by omega, ⟨v, ?_, hne⟩, fun k hk => ?_⟩
        · rw [show y - x = (y - (x + 1)) + 1 by omega, List.getElem?_cons_succ]
          exact hv
        · cases k with
          | zero => rfl
          | succ k => rw [List.getElem?_cons_succ]; exact h3 k (by omega)

theorem firstPos_none (l : List FVal) (h : ∀ v ∈ l, NonNeg v) :
    firstPos l = none ↔ ∀ v ∈ l, v = .fin 0 := by
  have := firstPosAux_spec l h 0
  unfold firstPos
  cases hf : firstPosAux (.fin 0) 0 l with
  | none => rw [hf] at this; exact iff_of_true rfl this
  | some y =>
    rw [hf] at this
    obtain ⟨_, ⟨v, hv, hne⟩, _⟩ := this
    exact iff_of_false (by simp) fun hall => hne (hall v (List.mem_of_getElem? hv))

theorem firstPos_some (l : List FVal) (h : ∀ v ∈ l, NonNeg v) (x : ℕ) (hx : firstPos l = some x) :
    ∃ v ∈ l, v ≠ .fin 0 := by
  by_contra hno
  push Not at hno
  rw [(firstPos_none l h).2 hno] at hx
  cases hx

theorem find_range (n : ℕ) (p : ℕ → Bool) :
    match (List.range n).find? p with
    | none => ∀ k < n, p k = false
    | some k => k < n ∧ p k = true ∧ ∀ k' < k, p k' = false := by
  cases hf : (List.range n).find? p with
  | none =>
    rw [List.find?_eq_none] at hf
    intro k hk
    simpa using hf k (List.mem_range.2 hk)
  | some k =>
    have h1 := List.mem_of_find?_eq_some hf
    have h2 := List.find?_some hf
    refine ⟨List.mem_range.1 h1, h2, fun k' hk' => ?_⟩
    rw [List.find?_range_eq_some] at hf
    simpa using hf.2.2 k' hk'

/-! ## Blocks -/

theorem mem_rowBlock (d : Img FVal) (a b : ℕ) (v : FVal) :
    v ∈ rowBlock d a b ↔ ∃ i, a ≤ i ∧ i < b ∧ ∃ j < d.w, d.px i j = v := by
  unfold rowBlock
  simp only [List.mem_flatMap, List.mem_map, List.mem_range]
  constructor
  · rintro ⟨i, hi, j, hj, rfl⟩
    exact ⟨a + i, by omega, by omega, j, hj, rfl⟩
  · rintro ⟨i, h1, h2, j, hj, rfl⟩
    exact ⟨i - a, by omega, j, hj, by rw [show a + (i - a) = i by omega]⟩

theorem mem_colBlock (d : Img FVal) (a b : ℕ) (v : FVal) :
    v ∈ colBlock d a b ↔ ∃ j, a ≤ j ∧ j < b ∧ ∃ i < d.h, d.px i j = v := by
  unfold colBlock
  simp only [List.mem_flatMap, List.mem_map, List.mem_range]
  constructor
  · rintro ⟨i, hi, j, hj, rfl⟩
    exact ⟨a + j, by omega, by omega, i, hi, rfl⟩
  · rintro ⟨j, h1, h2, i, hi, rfl⟩
    exact ⟨i, hi, j - a, by omega, by rw [show a + (j - a) = j by omega]⟩

/-- Row `i` is all zero. -/
def ZeroRow (d : Img FVal) (i : ℕ) : Prop := ∀ j < d.w, d.px i j = .fin 0
/-- Column `j` is all zero. -/
def ZeroCol (d : Img FVal) (j : ℕ) : Prop := ∀ i < d.h, d.px i j = .fin 0

theorem rowBlock_empty_iff (d : Img FVal) (hd : NonNegImg d) (a b : ℕ) (hb : b ≤ d.h) :
    nonEmpty (rowBlock d a b) = false ↔ ∀ i, a ≤ i → i < b → ZeroRow d i := by
  have hn : ∀ v ∈ rowBlock d a b, NonNeg v := by
    intro v hv
    obtain ⟨i, _, h2, j, hj, rfl⟩ := (mem_rowBlock d a b v).1 hv
    exact hd i (by omega) j hj
  rw [← Bool.not_eq_true, nonEmpty_iff _ hn]
  push Not
  constructor
  · intro h i h1 h2 j hj
    exact h _ ((mem_rowBlock d a b _).2 ⟨i, h1, h2, j, hj, rfl⟩)
  · intro h v hv
    obtain ⟨i, h1, h2, j, hj, rfl⟩ := (mem_rowBlock d a b v).1 hv
    exact h i h1 h2 j hj

theorem colBlock_empty_iff (d : Img FVal) (hd : NonNegImg d) (a b : ℕ) (hb : b ≤ d.w) :
    nonEmpty (colBlock d a b) = false ↔ ∀ j, a ≤ j → j < b → ZeroCol d j := by
  have hn : ∀ v ∈ colBlock d a b, NonNeg v := by
    intro v hv
    obtain ⟨j, _, h2, i, hi, rfl⟩ := (mem_colBlock d a b v).1 hv
    exact hd i hi j (by omega)
  rw [← Bool.not_eq_true, nonEmpty_iff _ hn]
  push Not
  constructor
  · intro h j h1 h2 i hi
    exact h _ ((mem_colBlock d a b _).2 ⟨j, h1, h2, i, hi, rfl⟩)
  · intro h v hv
    obtain ⟨j, h1, h2, i, hi, rfl⟩ := (mem_colBlock d a b v).1 hv
    exact h j h1 h2 i hi

theorem midRow_nonneg (d : Img FVal) (hd : NonNegImg d) (hh : 0 < d.h) : ∀ v ∈ midRow d, NonNeg v := by
  intro v hv
  unfold midRow at hv
  rw [List.mem_map] at hv
  obtain ⟨j, hj, rfl⟩ := hv
  exact hd _ (Nat.div_lt_self hh (by omega)) j (List.mem_range.1 hj)

theorem midCol_nonneg (d : Img FVal) (hd : NonNegImg d) (hw : 0 < d.w) : ∀ v ∈ midCol d, NonNeg v := by
  intro v hv
  unfold midCol at hv
  rw [List.mem_map] at hv
  obtain ⟨i, hi, rfl⟩ := hv
  exact hd i (List.mem_range.1 hi) _ (Nat.div_lt_self hw (by omega))

theorem midRow_zero_iff (d : Img FVal) : (∀ v ∈ midRow d, v = .fin 0) ↔ ZeroRow d (d.h / 2) := by
  unfold midRow ZeroRow
  simp

theorem midCol_zero_iff (d : Img FVal) : (∀ v ∈ midCol d, v = .fin 0) ↔ ZeroCol d (d.w / 2) := by
  unfold midCol ZeroCol
  simp

/-- The lower bound: all blocks before the last one tried are empty. -/
theorem leftEdge_spec (line : List FVal) (block : ℕ → List FVal) (l : ℕ)
    (h : leftEdge line block = .ok l) : ∀ k, k < l → nonEmpty (block k) = false := by
  unfold leftEdge at h
  cases hf : firstPos line with
  | none => rw [hf] at h; cases h
  | some x =>
    rw [hf] at h
    have hfr := find_range x fun dx => nonEmpty (block dx)
    cases hg : (List.range x).find? fun dx => nonEmpty (block dx) with
    | none =>
      rw [hg] at hfr
      simp only [hg] at h
      cases h
      exact hfr
    | some k =>
      rw [hg] at hfr
      simp only [hg] at h
      cases h
      exact hfr.2.2

/-- The upper bound: the removed block is empty, and something is kept. -/
theorem rightEdge_spec (n : ℕ) (line : List FVal) (block : ℕ → List FVal) (r : ℤ) (hn : 0 < n)
    (hfull : nonEmpty (block (n - 1)) = true) (h : rightEdge n line block = some r) :
    ∃ x < n, r = (n : ℤ) - x ∧ ∀ k, k < x → nonEmpty (block k) = false := by
  unfold rightEdge at h
  simp only at h
  set N := (firstPos line.reverse).getD (line.length - 1) with hN
  have hfr := find_range N fun dx => nonEmpty (block dx)
  cases hg : (List.range N).find? fun dx => nonEmpty (block dx) with
  | some k =>
    rw [hg] at hfr h
    cases h
    refine ⟨k, ?_, rfl, hfr.2.2⟩
    by_contra hk
    have := hfr.2.2 (n - 1) (by omega)
    rw [hfull] at this
    cases this
  | none =>
    rw [hg] at hfr h
    simp only [Option.map_eq_some_iff] at h
    obtain ⟨x, hx, rfl⟩ := h
    have hNx : N = x := by rw [hN, hx]; rfl
    rw [hNx] at hfr
    refine ⟨x, ?_, rfl, hfr⟩
    by_contra hk
    have := hfr (n - 1) (by omega)
    rw [hfull] at this
    cases this

theorem leftEdge_error (line : List FVal) (block : ℕ → List FVal) (e : PyErr) :
    leftEdge line block = .error e ↔ firstPos line = none ∧ e = .UnboundLocalError := by
  unfold leftEdge
  cases firstPos line <;> simp [eq_comm]

theorem rightEdge_isSome (n : ℕ) (line : List FVal) (block : ℕ → List FVal) (x : ℕ)
    (h : firstPos line.reverse = some x) : ∃ r, rightEdge n line block = some r := by
  unfold rightEdge
  rw [h]
  simp only [Option.map_some]
  split <;> exact ⟨_, rfl⟩

/-- C39: on a non-empty, non-negative image, border detection raises UnboundLocalError exactly when
the middle row or the middle column is all zero. -/
theorem borders_raise_iff (d : Img FVal) (hd : NonNegImg d) (hh : 0 < d.h) (hw : 0 < d.w) (e : PyErr) :
    borderBounds d = .error e ↔
      (ZeroRow d (d.h / 2) ∨ ZeroCol d (d.w / 2)) ∧ e = .UnboundLocalError := by
  have hr := midRow_nonneg d hd hh
  have hc := midCol_nonneg d hd hw
  have hr' : ∀ v ∈ (midRow d).reverse, NonNeg v := fun v hv => hr v (List.mem_reverse.1 hv)
  unfold borderBounds
  rw [if_neg (by omega)]
  cases hl : firstPos (midRow d) with
  | none =>
    have hz := (midRow_zero_iff d).1 ((firstPos_none _ hr).1 hl)
    have he : leftEdge (midRow d) (fun dx => rowBlock d 0 (min dx d.h)) = .error .UnboundLocalError :=
      (leftEdge_error _ _ _).2 ⟨hl, rfl⟩
    rw [he]
    constructor
    · intro h; cases h; exact ⟨Or.inl hz, rfl⟩
    · rintro ⟨_, rfl⟩; rfl
  | some x =>
    have hnz : ¬ ZeroRow d (d.h / 2) := by
      rw [← midRow_zero_iff, ← firstPos_none _ hr, hl]; simp
    have hrev : ∃ y, firstPos (midRow d).reverse = some y := by
      cases hy : firstPos (midRow d).reverse with
      | some y => exact ⟨y, rfl⟩
      | none =>
        exfalso
        apply hnz
        rw [← midRow_zero_iff]
        intro v hv
        exact (firstPos_none _ hr').1 hy v (List.mem_reverse.2 hv)
    obtain ⟨y, hy⟩ := hrev
    obtain ⟨rx, hrx⟩ := rightEdge_isSome d.h (midRow d) (fun dx => rowBlock d (d.h - (dx + 1)) d.h) y hy
    obtain ⟨ry, hry⟩ := rightEdge_isSome d.w (midRow d) (fun dy => colBlock d (d.w - (dy + 1)) d.w) y hy
    have hle : ∃ l, leftEdge (midRow d) (fun dx => rowBlock d 0 (min dx d.h)) = .ok l := by
      unfold leftEdge; rw [hl]; exact ⟨_, rfl⟩
    obtain ⟨l, hle⟩ := hle
    rw [hle, hrx, hry]
    simp only [bind, Except.bind]
    cases hl2 : firstPos (midCol d) with
    | none =>
      have hz := (midCol_zero_iff d).1 ((firstPos_none _ hc).1 hl2)
      have he : leftEdge (midCol d) (fun dy => colBlock d 0 (min dy d.w)) = .error .UnboundLocalError :=
        (leftEdge_error _ _ _).2 ⟨hl2, rfl⟩
      rw [he]
      constructor
      · intro h; cases h; exact ⟨Or.inr hz, rfl⟩
      · rintro ⟨_, rfl⟩; rfl
    | some z =>
      have hnc : ¬ ZeroCol d (d.w / 2) := by
        rw [← midCol_zero_iff, ← firstPos_none _ hc, hl2]; simp
      have hle2 : ∃ l, leftEdge (midCol d) (fun dy => colBlock d 0 (min dy d.w)) = .ok l := by
        unfold leftEdge; rw [hl2]; exact ⟨_, rfl⟩
      obtain ⟨l2, hle2⟩ := hle2
      rw [hle2]
      constructor
      · intro h; cases h
      · rintro ⟨h | h, _⟩
        · exact absurd h hnz
        · exact absurd h hnc

/-- C39: bounds found on a non-negative image. Everything removed at the bottom and on the right is
zero; at the top and on the left everything but possibly the last removed row / column is zero. -/
theorem borders_remove_spec (d : Img FVal) (hd : NonNegImg d) (hh : 0 < d.h) (hw : 0 < d.w)
    (lx ly : ℕ) (rx ry : ℤ) (h : borderBounds d = .ok (lx, rx, ly, ry)) :
    (0 < rx ∧ rx ≤ d.h ∧ 0 < ry ∧ ry ≤ d.w) ∧
    (∀ i < d.h, rx ≤ i → ZeroRow d i) ∧ (∀ j < d.w, ry ≤ j → ZeroCol d j) ∧
    (∀ i < d.h, i + 1 < lx → ZeroRow d i) ∧ (∀ j < d.w, j + 1 < ly → ZeroCol d j) := by
  have hr := midRow_nonneg d hd hh
  have hnz : ¬ ZeroRow d (d.h / 2) := by
    intro hz
    have := (borders_raise_iff d hd hh hw .UnboundLocalError).2 ⟨Or.inl hz, rfl⟩
    rw [h] at this
    cases this
  unfold borderBounds at h
  rw [if_neg (by omega)] at h
  cases h1 : leftEdge (midRow d) (fun dx => rowBlock d 0 (min dx d.h)) with
  | error e => rw [h1] at h; cases h
  | ok l1 =>
    cases h2 : leftEdge (midCol d) (fun dy => colBlock d 0 (min dy d.w)) with
    | error e => rw [h1, h2] at h; cases h
    | ok l2 =>
      rw [h1, h2] at h
      simp only [bind, Except.bind] at h
      cases h3 : rightEdge d.h (midRow d) (fun dx => rowBlock d (d.h - (dx + 1)) d.h) with
      | none => rw [h3] at h; cases h
      | some r1 =>
        cases h4 : rightEdge d.w (midRow d) (fun dy => colBlock d (d.w - (dy + 1)) d.w) with
        | none => rw [h3, h4] at h; cases h
        | some r2 =>
          rw [h3, h4] at h
          cases h
          have hex : ∃ j < d.w, d.px (d.h / 2) j ≠ .fin 0 := by
            by_contra hno
            push Not at hno
            exact hnz hno
          obtain ⟨j0, hj0, hne0⟩ := hex
          have hi0 : d.h / 2 < d.h := Nat.div_lt_self hh (by omega)
          have fr : nonEmpty (rowBlock d (d.h - (d.h - 1 + 1)) d.h) = true := by
            by_contra hno
            rw [Bool.not_eq_true, rowBlock_empty_iff d hd _ _ (le_refl _)] at hno
            exact hne0 (hno _ (by omega) hi0 j0 hj0)
          have fc : nonEmpty (colBlock d (d.w - (d.w - 1 + 1)) d.w) = true := by
            by_contra hno
            rw [Bool.not_eq_true, colBlock_empty_iff d hd _ _ (le_refl _)] at hno
            exact hne0 (hno j0 (by omega) hj0 _ hi0)
          obtain ⟨x, hx, ex, px⟩ := rightEdge_spec d.h _ _ _ hh fr h3
          obtain ⟨y, hy, ey, py⟩ := rightEdge_spec d.w _ _ _ hw fc h4
          refine ⟨⟨by omega, by omega, by omega, by omega⟩, ?_, ?_, ?_, ?_⟩
          · intro i hi hge
            have := px (x - 1) (by omega)
            rw [rowBlock_empty_iff d hd _ _ (le_refl _)] at this
            exact this i (by omega) hi
          · intro j hj hge
            have := py (y - 1) (by omega)
            rw [colBlock_empty_iff d hd _ _ (le_refl _)] at this
            exact this j (by omega) hj
          · intro i hi hlt
            have := leftEdge_spec _ _ _ h1 (i + 1) hlt
            rw [rowBlock_empty_iff d hd _ _ (by omega)] at this
            exact this i (by omega) (by omega)
          · intro j hj hlt
            have := leftEdge_spec _ _ _ h2 (j + 1) hlt
            rw [colBlock_empty_iff d hd _ _ (by omega)] at this
            exact this j (by omega) (by omega)

/-- C39 for the trimmed image: it is a window of the input; every non-zero input pixel outside of it
lies in the last removed row at the top or the last removed column on the left. -/
theorem borders_loss (d r : MA) (hd : NonNegImg d.data) (hh : 0 < d.data.h) (hw : 0 < d.data.w)
    (h : trimBorders d = .ok r) :
    ∃ t l : ℕ, (∀ i j, r.data.px i j = d.data.px (min t d.data.h + i) (min l d.data.w + j)) ∧
      ∀ i < d.data.h, ∀ j < d.data.w, d.data.px i j ≠ .fin 0 →
        (t ≤ i ∧ i < t + r.data.h ∧ l ≤ j ∧ j < l + r.data.w) ∨ i + 1 = t ∨ j + 1 = l := by
  unfold trimBorders at h
  cases hb : borderBounds d.data with
  | error e => rw [hb] at h; cases h
  | ok b =>
    rw [hb] at h
    obtain ⟨lx, rx, ly, ry⟩ := b
    cases h
    obtain ⟨⟨p1, p2, p3, p4⟩, q1, q2, q3, q4⟩ := borders_remove_spec d.data hd hh hw lx ly rx ry hb
    have s1 : sliceBound d.data.h (lx : ℤ) = min lx d.data.h := by unfold sliceBound; split <;> omega
    have s2 : sliceBound d.data.h rx = rx.toNat := by unfold sliceBound; split <;> omega
    have s3 : sliceBound d.data.w (ly : ℤ) = min ly d.data.w := by unfold sliceBound; split <;> omega
    have s4 : sliceBound d.data.w ry = ry.toNat := by unfold sliceBound; split <;> omega
    refine ⟨lx, ly, ?_, ?_⟩
    · intro i j
      change d.data.px (sliceBound d.data.h (lx : ℤ) + i) (sliceBound d.data.w (ly : ℤ) + j) = _
      rw [s1, s3]
    · intro i hi j hj hne
      have n1 : (i : ℤ) < rx := by
        by_contra hc; exact hne (q1 i hi (by omega) j hj)
      have n2 : (j : ℤ) < ry := by
        by_contra hc; exact hne (q2 j hj (by omega) i hi)
      have n3 : ¬ i + 1 < lx := fun hc => hne (q3 i hi hc j hj)
      have n4 : ¬ j + 1 < ly := fun hc => hne (q4 j hj hc i hi)
      change (lx ≤ i ∧ i < lx + (sliceBound d.data.h rx - sliceBound d.data.h (lx : ℤ)) ∧
        ly ≤ j ∧ j < ly + (sliceBound d.data.w ry - sliceBound d.data.w (ly : ℤ))) ∨ _
      rw [s1, s2, s3, s4]
      by_cases e1 : i + 1 = lx
      · exact Or.inr (Or.inl e1)
      · by_cases e2 : j + 1 = ly
        · exact Or.inr (Or.inr e2)
        · exact Or.inl ⟨by omega, by omega, by omega, by omega⟩

/-- A 3x3 image with a star in the top left corner and one in the middle of the right edge. -/
def cornerStar : Img FVal := ⟨3, 3, fun i j => if i = 0 ∧ j = 0 ∨ i = 1 ∧ j = 2 then .fin 7 else
  if i = 2 ∧ j = 1 then .fin 3 else .fin 0⟩

/-- C39, where it fails: border detection drops the non-zero top row (and left column). -/
theorem borders_drop_nonzero_row :
    ∃ r, trimBorders ⟨cornerStar, none⟩ = .ok r ∧ NonNegImg cornerStar ∧
      borderBounds cornerStar = .ok (1, 3, 1, 3) ∧ cornerStar.px 0 0 ≠ .fin 0 ∧
      r.data.shape = (2, 2) := by
  have hb : borderBounds cornerStar = .ok (1, 3, 1, 3) := by decide +kernel
  refine ⟨(MA.mk cornerStar none).slice 1 3 1 3, ?_, ?_, hb, by decide +kernel, by decide +kernel⟩
  · unfold trimBorders
    rw [show (MA.mk cornerStar none).data = cornerStar from rfl, hb]
    rfl
  · intro i _ j _
    unfold cornerStar
    simp only
    split
    · exact ⟨7, by norm_num, rfl⟩
    · split
      · exact ⟨3, by norm_num, rfl⟩
      · exact ⟨0, le_refl _, rfl⟩

/-- An image whose middle row is empty cannot be opened with `borders=True`. -/
example : construct { borders := true }
    (.array ⟨3, 3, fun i j => if i = 0 ∧ j = 0 then .fin 7 else .fin 0⟩) .absent =
      .error .UnboundLocalError := by
  unfold construct setData trimBorders
  have hb : borderBounds ⟨3, 3, fun i j => if i = 0 ∧ j = 0 then .fin 7 else .fin 0⟩ =
    .error .UnboundLocalError := by decide +kernel
  simp only [gainOf, loadData, bind, Except.bind, if_true, hb]

end PI
