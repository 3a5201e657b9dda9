import Verif.Props.Sources
import Mathlib.Algebra.Order.BigOperators.Group.List

/-! # Properties C46–C51: stamps -/

namespace PI
open PyS

/-! ## Geometry of a window (C51) -/

/-- The pixel of a source: the nearest whole number (ties go down). -/
def centrePix (p : ℚ) : ℤ := ⌈p - 1 / 2⌉

theorem centrePix_near (p : ℚ) : |(centrePix p : ℚ) - p| ≤ 1 / 2 := by
  unfold centrePix
  rw [abs_le]
  have h1 := Int.le_ceil (p - 1 / 2)
  have h2 := Int.ceil_lt_add_one (p - 1 / 2)
  constructor <;> linarith

theorem winStart_odd (m : ℕ) (p : ℚ) : winStart (2 * m + 1) p = centrePix p - m := by
  unfold winStart centrePix
  rw [show p - ((2 * m + 1 : ℕ) : ℚ) / 2 = (p - 1 / 2) - ((m : ℤ) : ℚ) by push_cast; ring, Int.ceil_sub_intCast]

theorem winStart_add_two (n : ℕ) (p : ℚ) : winStart (n + 2) p = winStart n p - 1 := by
  unfold winStart
  rw [show p - ((n + 2 : ℕ) : ℚ) / 2 = (p - (n : ℚ) / 2) - ((1 : ℤ) : ℚ) by push_cast; ring, Int.ceil_sub_intCast]

theorem winStart_add_six (n : ℕ) (p : ℚ) : winStart (n + 6) p = winStart n p - 3 := by
  rw [show n + 6 = ((n + 2) + 2) + 2 by ring, winStart_add_two, winStart_add_two, winStart_add_two]; ring

/-- C51: pixel `(i, j)` of a stamp of odd size `(2m+1, 2n+1)` is the image pixel at offset
`(i - m, j - n)` from the source's pixel, or the fill value if that is outside of the image. -/
theorem stamp_shows_image (a : Img (Option ℚ)) (m n : ℕ) (pos : ℚ × ℚ) (fill : ℚ)
    (st : Img (Option ℚ)) (h : extractArray a (2 * m + 1, 2 * n + 1) pos fill = .ok st) :
    st.shape = (2 * m + 1, 2 * n + 1) ∧ ∀ i j : ℕ, 
      (∀ r c : ℕ, (r : ℤ) = centrePix pos.1 + (i - m) → (c : ℤ) = centrePix pos.2 + (j - n) →
        r < a.h → c < a.w → st.px i j = a.px r c) ∧
      ((¬ ∃ r c : ℕ, (r : ℤ) = centrePix pos.1 + (i - m) ∧ (c : ℤ) = centrePix pos.2 + (j - n) ∧
        r < a.h ∧ c < a.w) → st.px i j = some fill) := by
  unfold extractArray at h
  simp only [winStart_odd] at h
  split at h
  · cases h
  · cases h
    refine ⟨rfl, fun i j => ⟨fun r c hr hc hh hw => ?_, fun hno => ?_⟩⟩
    · change (if _ then a.px _ _ else some fill) = _
      rw [if_pos (by omega)]
      congr 1 <;> omega
    · change (if _ then a.px _ _ else some fill) = _
      rw [if_neg]
      intro hc
      apply hno
      exact ⟨(centrePix pos.1 - m + i).toNat, (centrePix pos.2 - n + j).toNat, by omega, by omega, by omega, by omega⟩

/-- C51: enlarging by two adds one pixel on each side and keeps the rest. -/
theorem stamp_enlarge_keeps (a : Img (Option ℚ)) (sh : ℕ × ℕ) (pos : ℚ × ℚ) (fill : ℚ)
    (st st' : Img (Option ℚ)) (h : extractArray a sh pos fill = .ok st)
    (h' : extractArray a (sh.1 + 2, sh.2 + 2) pos fill = .ok st') :
    st'.shape = (st.h + 2, st.w + 2) ∧ ∀ i j, st'.px (i + 1) (j + 1) = st.px i j := by
  unfold extractArray at h h'
  simp only [winStart_add_two] at h h'
  split at h
  · cases h
  · split at h'
    · cases h'
    · cases h
      cases h'
      refine ⟨rfl, fun i j => ?_⟩
      change (if _ then a.px _ _ else some fill) = (if _ then a.px _ _ else some fill)
      have e1 : winStart sh.1 pos.1 - 1 + ((i + 1 : ℕ) : ℤ) = winStart sh.1 pos.1 + i := by push_cast; ring
      have e2 : winStart sh.2 pos.2 - 1 + ((j + 1 : ℕ) : ℤ) = winStart sh.2 pos.2 + j := by push_cast; ring
      rw [e1, e2]

/-- C51: a source on the image never makes the extraction fail. -/
theorem stamp_exists (a : Img (Option ℚ)) (sh : ℕ × ℕ) (pos : ℚ × ℚ) (fill : ℚ)
    (h1 : 2 ≤ sh.1) (h2 : 2 ≤ sh.2)
    (hy : 0 ≤ pos.1 ∧ pos.1 ≤ (a.h : ℚ) - 1) (hx : 0 ≤ pos.2 ∧ pos.2 ≤ (a.w : ℚ) - 1) :
    ∃ st, extractArray a sh pos fill = .ok st := by
  have key : ∀ (n H : ℕ) (p : ℚ), 2 ≤ n → 0 ≤ p ∧ p ≤ (H : ℚ) - 1 →
      ¬ (winStart n p + n ≤ 0) ∧ ¬ ((H : ℤ) ≤ winStart n p) := by
    intro n H p hn hp
    have hn' : (2 : ℚ) ≤ n := by exact_mod_cast hn
    have l1 := Int.le_ceil (p - (n : ℚ) / 2)
    have l2 := Int.ceil_lt_add_one (p - (n : ℚ) / 2)
    unfold winStart
    constructor
    · intro hc
      have : ((⌈p - (n : ℚ) / 2⌉ + (n : ℤ) : ℤ) : ℚ) ≤ 0 := by exact_mod_cast hc
      push_cast at this
      linarith
    · intro hc
      have : ((H : ℤ) : ℚ) ≤ (⌈p - (n : ℚ) / 2⌉ : ℚ) := by exact_mod_cast hc
      push_cast at this
      linarith
  obtain ⟨a1, a2⟩ := key sh.1 a.h pos.1 h1 hy
  obtain ⟨b1, b2⟩ := key sh.2 a.w pos.2 h2 hx
  unfold extractArray
  simp only
  rw [if_neg (by tauto)]
  exact ⟨_, rfl⟩

theorem extractArray_shape (a : Img (Option ℚ)) (sh : ℕ × ℕ) (pos : ℚ × ℚ) (fill : ℚ)
    (st : Img (Option ℚ)) (h : extractArray a sh pos fill = .ok st) : st.h = sh.1 ∧ st.w = sh.2 := by
  unfold extractArray at h
  simp only at h
  split at h
  · cases h
  · cases h; exact ⟨rfl, rfl⟩

/-! ## The margin test (C48) -/

theorem allFin_some (l : List (Option ℚ)) (v : List ℚ) : allFin l = some v ↔ l = v.map some := by
  induction l generalizing v with
  | nil => cases v <;> simp [allFin]
  | cons a l ih =>
    cases a with
    | none => cases v <;> simp [allFin]
    | some x =>
      cases v with
      | nil => simp [allFin]
      | cons y v =>
        simp only [allFin, Option.map_eq_some_iff, List.map_cons, List.cons.injEq, Option.some.injEq]
        constructor
        · rintro ⟨w, hw, h1, h2⟩; subst h1; subst h2; exact ⟨rfl, (ih _).1 hw⟩
        · rintro ⟨rfl, h⟩; exact ⟨v, (ih v).2 h, rfl, rfl⟩

theorem allFin_none (l : List (Option ℚ)) : allFin l = none ↔ none ∈ l := by
  induction l with
  | nil => simp [allFin]
  | cons a l ih => cases a <;> simp [allFin, ih]

theorem sum_sq_nonneg (l : List ℚ) (c : ℚ) : 0 ≤ (l.map fun x => (x - c) ^ 2).sum := by
  induction l with
  | nil => simp
  | cons a l ih => simp only [List.map_cons, List.sum_cons]; positivity

theorem sum_sq_zero (l : List ℚ) (c : ℚ) : (l.map fun x => (x - c) ^ 2).sum = 0 ↔ ∀ x ∈ l, x = c := by
  induction l with
  | nil => simp
  | cons a l ih =>
    simp only [List.map_cons, List.sum_cons, List.forall_mem_cons]
    rw [← ih]
    have h1 := sum_sq_nonneg l c
    have h2 : 0 ≤ (a - c) ^ 2 := by positivity
    constructor
    · intro h
      have : (a - c) ^ 2 = 0 := by linarith
      have : a - c = 0 := by simpa using this
      exact ⟨by linarith, by linarith⟩
    · rintro ⟨rfl, h⟩; rw [h]; ring

theorem meanQ_const (l : List ℚ) (c : ℚ) (hl : l ≠ []) (h : ∀ x ∈ l, x = c) : meanQ l = c := by
  have hs : l.sum = l.length * c := by
    clear hl
    induction l with
    | nil => simp
    | cons a l ih =>
      rw [List.sum_cons, ih (fun x hx => h x (List.mem_cons_of_mem _ hx)), h a List.mem_cons_self]
      push_cast [List.length_cons]; ring
  have : (l.length : ℚ) ≠ 0 := by
    have := List.length_pos_iff.2 hl
    exact_mod_cast this.ne'
  unfold meanQ
  rw [hs]
  field_simp

theorem varQ_nonneg (l : List ℚ) : 0 ≤ varQ l := by
  unfold varQ
  exact div_nonneg (sum_sq_nonneg _ _) (by positivity)

theorem varQ_zero (l : List ℚ) (hl : l ≠ []) : varQ l = 0 ↔ ∀ x ∈ l, x = meanQ l := by
  unfold varQ
  have : (l.length : ℚ) ≠ 0 := by
    have := List.length_pos_iff.2 hl
    exact_mod_cast this.ne'
  rw [div_eq_zero_iff]
  simp only [this, or_false]
  exact sum_sq_zero _ _

/-- C48: the margin test says "large enough" only for a NaN on the margin or if every margin pixel is
exactly 3.5 times the background rms. -/
theorem margin_test_iff (rms : ℚ) (st : Img (Option ℚ)) (h1 : 0 < st.h) :
    checkMargin rms st = false ↔ none ∈ margins st ∨ ∀ p ∈ margins st, p = some (7 / 2 * rms) := by
  have hne : margins st ≠ [] := by
    unfold margins
    intro h
    have := congrArg List.length h
    simp at this
    omega
  unfold checkMargin
  cases ha : allFin (margins st) with
  | none =>
    simp only
    exact iff_of_true trivial (Or.inl ((allFin_none _).1 ha))
  | some v =>
    have hv := (allFin_some _ _).1 ha
    have hv0 : v ≠ [] := by rintro rfl; rw [hv] at hne; exact hne rfl
    simp only
    have hnn : none ∉ margins st := by rw [hv]; simp
    have hcs : (none ∈ margins st ∨ ∀ p ∈ margins st, p = some (7 / 2 * rms)) ↔ ∀ x ∈ v, x = 7 / 2 * rms := by
      rw [or_iff_right hnn, hv]; simp
    rw [hcs]
    have hvar := varQ_nonneg v
    unfold sqrtGt
    simp only [Bool.or_eq_false_iff, decide_eq_false_iff_not, not_lt]
    set T := 7 / 2 * rms
    constructor
    · rintro ⟨⟨a1, a2⟩, b1, b2⟩
      have hm : meanQ v = T := by linarith
      have hz : varQ v = 0 := by rw [hm] at a2; apply le_antisymm _ hvar; linarith
      rw [← hm]
      exact (varQ_zero v hv0).1 hz
    · intro h
      have hm := meanQ_const v T hv0 h
      have hz : varQ v = 0 := (varQ_zero v hv0).2 (by rw [hm]; exact h)
      rw [hm, hz]
      simp

/-- The enlarging loop: outcome and number of rounds. -/
theorem growStamp_spec (rms : ℚ) (ext : ℕ → Py (Img (Option ℚ))) (sub : Img (Option ℚ)) (k : ℕ)
    (st : Img (Option ℚ)) (h : growStamp rms ext 3 0 sub = .ok (k, st)) :
    ext k = .ok st ∧ (k = 2 ∨ k = 4 ∨ k = 6) ∧ (k = 2 ↔ checkMargin rms sub = false) ∧
      (k = 4 → ∃ s2, ext 2 = .ok s2 ∧ checkMargin rms s2 = false) := by
  simp only [growStamp] at h
  cases h2 : ext (0 + 2) with
  | error e => rw [h2] at h; cases h
  | ok s2 =>
    rw [h2] at h
    simp only at h
    rw [if_neg (by omega)] at h
    cases hc : checkMargin rms sub with
    | false =>
      rw [hc] at h
      cases h
      exact ⟨h2, Or.inl rfl, by simp, by simp⟩
    | true =>
      rw [hc] at h
      simp only [if_true] at h
      cases h4 : ext (0 + 2 + 2) with
      | error e => rw [h4] at h; cases h
      | ok s4 =>
        rw [h4] at h
        simp only at h
        rw [if_neg (by omega)] at h
        cases hc2 : checkMargin rms s2 with
        | false =>
          rw [hc2] at h
          cases h
          exact ⟨h4, Or.inr (Or.inl rfl), by simp, fun _ => ⟨s2, rfl, hc2⟩⟩
        | true =>
          rw [hc2] at h
          simp only [if_true] at h
          cases h6 : ext (0 + 2 + 2 + 2) with
          | error e => rw [h6] at h; cases h
          | ok s6 =>
            rw [h6] at h
            simp only at h
            rw [if_pos (by omega)] at h
            cases h
            exact ⟨h6, Or.inr (Or.inr rfl), by simp, by simp⟩

/-- The enlarging loop never runs out of rounds. -/
theorem growStamp_terminates (rms : ℚ) (ext : ℕ → Py (Img (Option ℚ))) (sub : Img (Option ℚ))
    (he : ∀ k, ext k ≠ .error .NonTermination) : growStamp rms ext 3 0 sub ≠ .error .NonTermination := by
  intro h
  simp only [growStamp] at h
  have e2 := he (0 + 2)
  cases h2 : ext (0 + 2) with
  | error e => rw [h2] at h e2; simp only at h; injection h with h; exact e2 (by rw [h])
  | ok s2 =>
    rw [h2] at h
    simp only at h
    rw [if_neg (by omega)] at h
    split at h
    · have e4 := he (0 + 2 + 2)
      cases h4 : ext (0 + 2 + 2) with
      | error e => rw [h4] at h e4; simp only at h; injection h with h; exact e4 (by rw [h])
      | ok s4 =>
        rw [h4] at h
        simp only at h
        rw [if_neg (by omega)] at h
        split at h
        · have e6 := he (0 + 2 + 2 + 2)
          cases h6 : ext (0 + 2 + 2 + 2) with
          | error e => rw [h6] at h e6; simp only at h; injection h with h; exact e6 (by rw [h])
          | ok s6 =>
            rw [h6] at h
            simp only at h
            rw [if_pos (by omega)] at h
            cases h
        · cases h
    · cases h

/-- What `window` gives: the first window has no NaN; the last is the window enlarged by `k`. -/
theorem window_spec (rms : ℚ) (img : Img (Option ℚ)) (sh : ℕ × ℕ) (pos : ℚ × ℚ) (k : ℕ)
    (st : Img (Option ℚ)) (h : window rms img sh pos = .ok (some (k, st))) :
    ∃ s0, extractArray img sh pos rms = .ok s0 ∧ (∀ v ∈ s0.flat, v ≠ none) ∧
      extractArray img (sh.1 + k, sh.2 + k) pos rms = .ok st ∧ (k = 2 ∨ k = 4 ∨ k = 6) ∧
      (k = 2 ↔ checkMargin rms s0 = false) ∧
      (k = 4 → ∃ s2, extractArray img (sh.1 + 2, sh.2 + 2) pos rms = .ok s2 ∧ checkMargin rms s2 = false) := by
  unfold window at h
  cases h0 : extractArray img sh pos rms with
  | error e => rw [h0] at h; cases h
  | ok s0 =>
    rw [h0] at h
    simp only at h
    split at h
    · cases h
    · rename_i hnan
      cases hg : growStamp rms (fun k => extractArray img (sh.1 + k, sh.2 + k) pos rms) 3 0 s0 with
      | error e => rw [hg] at h; cases h
      | ok r =>
        rw [hg] at h
        simp only at h
        injection h with h
        injection h with h
        subst h
        obtain ⟨a, b, c, d⟩ := growStamp_spec _ _ _ _ _ hg
        refine ⟨s0, rfl, ?_, a, b, c, d⟩
        intro v hv hno
        apply hnan
        rw [List.any_eq_true]
        exact ⟨v, hv, by rw [hno]; rfl⟩

theorem mem_margins_flat (st : Img (Option ℚ)) (h1 : 0 < st.h) (h2 : 0 < st.w) (v : Option ℚ)
    (hv : v ∈ margins st) : v ∈ st.flat := by
  have key : ∀ i j, i < st.h → j < st.w → st.px i j ∈ st.flat := by
    intro i j hi hj
    unfold Img.flat
    rw [List.mem_map]
    exact ⟨(i, j), Img.mem_indices.2 ⟨hi, hj⟩, rfl⟩
  unfold margins at hv
  simp only [List.mem_append, List.mem_map, List.mem_range] at hv
  rcases hv with ((⟨i, hi, rfl⟩ | ⟨i, hi, rfl⟩) | ⟨i, hi, rfl⟩) | ⟨i, hi, rfl⟩ <;>
    exact key _ _ (by omega) (by omega)

/-- C48: a stamp with finite margins is enlarged three times unless, at the start or after the first
enlargement, all its margin pixels are exactly 3.5 rms. -/
theorem stamps_always_enlarged (rms : ℚ) (img : Img (Option ℚ)) (sh : ℕ × ℕ) (pos : ℚ × ℚ) (k : ℕ)
    (st : Img (Option ℚ)) (h : window rms img sh pos = .ok (some (k, st))) (h1 : 0 < sh.1) (h2 : 0 < sh.2) :
    k = 6 ∨ (∃ s0, extractArray img sh pos rms = .ok s0 ∧ ∀ p ∈ margins s0, p = some (7 / 2 * rms)) ∨
      (∃ s2, extractArray img (sh.1 + 2, sh.2 + 2) pos rms = .ok s2 ∧
        (none ∈ margins s2 ∨ ∀ p ∈ margins s2, p = some (7 / 2 * rms))) := by
  obtain ⟨s0, e0, hn, _, hk, hk2, hk4⟩ := window_spec _ _ _ _ _ _ h
  obtain ⟨sh1, sh2⟩ := extractArray_shape _ _ _ _ _ e0
  rcases hk with hk | hk | hk
  · right; left
    refine ⟨s0, e0, ?_⟩
    rcases (margin_test_iff rms s0 (by omega)).1 (hk2.1 hk) with hc | hc
    · exact absurd rfl (hn _ (mem_margins_flat s0 (by omega) (by omega) _ hc))
    · exact hc
  · right; right
    obtain ⟨s2, e2, hc⟩ := hk4 hk
    obtain ⟨sh1', sh2'⟩ := extractArray_shape _ _ _ _ _ e2
    exact ⟨s2, e2, (margin_test_iff rms s2 (by simp only at sh1'; omega)).1 hc⟩
  · exact Or.inl hk

/-! ## One candidate (C47) -/

theorem rebase_shape (sub : Img (Option ℚ)) : (rebase sub).h = sub.h ∧ (rebase sub).w = sub.w := by
  unfold rebase
  split
  · exact ⟨rfl, rfl⟩
  · simp only
    split <;> exact ⟨rfl, rfl⟩

theorem unitSum_shape (sub : Img (Option ℚ)) : (unitSum sub).shape = (sub.h, sub.w) := by
  unfold unitSum
  split
  · rfl
  · split
    · split <;> rfl
    · rfl

/-- C47: a stored stamp is six pixels larger than the stamp shape in force during extraction. -/
theorem accepted_shape (e : Env) (strict : Bool) (sh : ℕ × ℕ) (img img' : Img (Option ℚ)) (src : SepRow)
    (st : Stamp) (h : tryStamp e strict sh img src = (.ok (.accept st), img')) :
    st.shape = (sh.1 + 6, sh.2 + 6) := by
  unfold tryStamp at h
  split at h
  · cases h
  · cases h
  · rename_i k sub hw
    simp only at h
    by_cases hk : k = 6
    · rw [if_neg (by simp [hk])] at h
      subst hk
      obtain ⟨_, _, _, hx, _⟩ := window_spec _ _ _ _ _ _ hw
      obtain ⟨s1, s2⟩ := extractArray_shape _ _ _ _ _ hx
      obtain ⟨r1, r2⟩ := rebase_shape sub
      have hsh : (unitSum (rebase sub)).shape = (sh.1 + 6, sh.2 + 6) := by
        rw [unitSum_shape, r1, r2, s1, s2]
      split at h
      · injection h with h _
        unfold strictCheck at h
        cases hu : unitSum (rebase sub) with
        | nan a b => rw [hu] at h; cases h
        | inf a b => rw [hu] at h; cases h
        | fin a =>
          rw [hu] at h hsh
          simp only at h
          split at h
          · cases h
          · cases h
            exact hsh
      · cases h
        exact hsh
    · rw [if_pos hk] at h
      cases h

/-- C47: why a candidate can make the extraction fail. -/
theorem candidate_error (e : Env) (strict : Bool) (sh : ℕ × ℕ) (img img' : Img (Option ℚ)) (src : SepRow)
    (er : PyErr) (h1 : 0 < sh.1) (h2 : 0 < sh.2)
    (h : tryStamp e strict sh img src = (.error er, img')) :
    (er = .TypeError ∧ ((∃ s0, extractArray img sh (src.y, src.x) e.rms = .ok s0 ∧
        ∀ p ∈ margins s0, p = some (7 / 2 * e.rms)) ∨
      (∃ s2, extractArray img (sh.1 + 2, sh.2 + 2) (src.y, src.x) e.rms = .ok s2 ∧
        (none ∈ margins s2 ∨ ∀ p ∈ margins s2, p = some (7 / 2 * e.rms))))) ∨
    (er = .IndexError ∧ strict = true ∧ ∃ st hh ww, 
      extractArray img (sh.1 + 6, sh.2 + 6) (src.y, src.x) e.rms = .ok st ∧ unitSum (rebase st) = .nan hh ww) ∨
    (er = .ValueError ∧ ∃ k, extractArray img (sh.1 + k, sh.2 + k) (src.y, src.x) e.rms = .error er) := by
  have hex : ∀ k er', extractArray img (sh.1 + k, sh.2 + k) (src.y, src.x) e.rms = .error er' → er' = .ValueError := by
    intro k er' hk
    unfold extractArray at hk
    simp only at hk
    split at hk
    · cases hk; rfl
    · cases hk
  unfold tryStamp at h
  split at h
  · rename_i er' hw
    cases h
    right; right
    unfold window at hw
    cases h0 : extractArray img sh (src.y, src.x) e.rms with
    | error e0 =>
      rw [h0] at hw
      cases hw
      have := hex 0 _ h0
      exact ⟨this, 0, h0⟩
    | ok s0 =>
      rw [h0] at hw
      simp only at hw
      split at hw
      · cases hw
      · cases hg : growStamp e.rms (fun k => extractArray img (sh.1 + k, sh.2 + k) (src.y, src.x) e.rms) 3 0 s0 with
        | ok r => rw [hg] at hw; cases hw
        | error e1 =>
          rw [hg] at hw
          cases hw
          have : ∃ k, extractArray img (sh.1 + k, sh.2 + k) (src.y, src.x) e.rms = .error er := by
            simp only [growStamp] at hg
            split at hg
            · rename_i e2 h2'
              cases hg; exact ⟨_, h2'⟩
            · rw [if_neg (by omega)] at hg
              split at hg
              · split at hg
                · rename_i e2 h2'
                  cases hg; exact ⟨_, h2'⟩
                · rw [if_neg (by omega)] at hg
                  split at hg
                  · split at hg
                    · rename_i e2 h2'
                      cases hg; exact ⟨_, h2'⟩
                    · rw [if_pos (by omega)] at hg
                      cases hg
                  · cases hg
              · cases hg
          obtain ⟨k, hk⟩ := this
          have hv := hex k _ hk
          exact ⟨hv, k, hk⟩
  · cases h
  · rename_i k sub hw
    simp only at h
    by_cases hk : k = 6
    · rw [if_neg (by simp [hk])] at h
      subst hk
      obtain ⟨_, _, _, hx, _⟩ := window_spec _ _ _ _ _ _ hw
      split at h
      · rename_i hs
        injection h with h _
        unfold strictCheck at h
        cases hu : unitSum (rebase sub) with
        | nan a b =>
          rw [hu] at h; cases h
          exact Or.inr (Or.inl ⟨rfl, hs, sub, a, b, hx, hu⟩)
        | inf a b => rw [hu] at h; cases h
        | fin a => rw [hu] at h; cases h
      · cases h
    · rw [if_pos hk] at h
      injection h with h _
      injection h with h
      rcases stamps_always_enlarged _ _ _ _ _ _ hw h1 h2 with h6 | h6
      · exact absurd h6 hk
      · exact Or.inl ⟨h.symm, h6⟩

/-! ## The loop (C46) -/

/-- The fate of each candidate, in order, each one seeing the image the previous ones left. -/
inductive Trace (e : Env) (strict : Bool) (sh : ℕ × ℕ) :
    Img (Option ℚ) → List SepRow → List Outcome → Img (Option ℚ) → Prop
  | nil (img) : Trace e strict sh img [] [] img
  | cons (img img' img'' src rest o outs) (h : tryStamp e strict sh img src = (.ok o, img'))
      (t : Trace e strict sh img' rest outs img'') :
      Trace e strict sh img (src :: rest) (o :: outs) img''

/-- The candidates that were accepted, in order, with their stamps. -/
def accepted : List SepRow → List Outcome → List (SepRow × Stamp)
  | s :: l, .accept st :: o => (s, st) :: accepted l o
  | _ :: l, .reject :: o => accepted l o
  | _, _ => []

/-- The numbers of the rejected candidates. -/
def rejected : ℕ → List Outcome → List ℕ
  | _, [] => []
  | jj, .reject :: o => jj :: rejected (jj + 1) o
  | jj, .accept _ :: o => rejected (jj + 1) o

theorem interped_cached (e : Env) (s : SIState) (img : Img (Option ℚ)) (h : s.interped = some img) :
    interped e s = (.ok img, s) := by
  unfold interped
  rw [get_bind, h]
  rfl

theorem stampLoop_cons (e : Env) (sh : ℕ × ℕ) (src : SepRow) (rest : List SepRow) (jj : ℕ)
    (pos : List (ℚ × ℚ)) (del : List ℕ) (s : SIState) (img : Img (Option ℚ)) (d : List Stamp)
    (hi : s.interped = some img) (hd : s.db = some d) :
    stampLoop e sh (src :: rest) jj pos del s = match tryStamp e s.strict sh img src with
      | (.error er, img') => (.error er, { s with interped := some img' })
      | (.ok .reject, img') =>
        stampLoop e sh rest (jj + 1) pos (del ++ [jj]) { s with interped := some img' }
      | (.ok (.accept st), img') =>
        stampLoop e sh rest (jj + 1) (pos ++ [(src.y, src.x)]) del
          { s with interped := some img', db := some (d ++ [st]) } := by
  rw [stampLoop, bind_ok _ _ _ _ _ (interped_cached e s img hi)]
  simp only [get_bind, modify_bind]
  rcases tryStamp e s.strict sh img src with ⟨er | o, img'⟩
  · rfl
  · cases o with
    | reject => rfl
    | accept st =>
      simp only
      rw [bind_ok _ _ _ _ _ (lift_app _ _)]
      simp only [modify_bind, hd]
      rfl

/-- C46: the loop succeeds exactly when every candidate is accepted or rejected; then the positions,
the stored stamps and the numbers of the rejected candidates are those of the trace. -/
theorem stampLoop_iff (e : Env) (sh : ℕ × ℕ) (cands : List SepRow) (jj : ℕ) (pos : List (ℚ × ℚ))
    (del : List ℕ) (s t : SIState) (img : Img (Option ℚ)) (d : List Stamp) (r : List (ℚ × ℚ) × List ℕ)
    (hi : s.interped = some img) (hd : s.db = some d) :
    stampLoop e sh cands jj pos del s = (.ok r, t) ↔
      ∃ outs img', Trace e s.strict sh img cands outs img' ∧
        r = (pos ++ (accepted cands outs).map (fun p => (p.1.y, p.1.x)), del ++ rejected jj outs) ∧
        t = { s with interped := some img', db := some (d ++ (accepted cands outs).map (·.2)) } := by
  induction cands generalizing jj pos del s img d with
  | nil =>
    constructor
    · intro h
      cases h
      refine ⟨[], img, .nil img, by simp [accepted, rejected], ?_⟩
      simp only [accepted, List.map_nil, List.append_nil, ← hi, ← hd]
    · rintro ⟨outs, img', tr, hr, ht⟩
      cases tr
      simp only [accepted, rejected, List.map_nil, List.append_nil] at hr ht
      rw [ht, hr, ← hi, ← hd]
      rfl
  | cons src rest ih =>
    rw [stampLoop_cons e sh src rest jj pos del s img d hi hd]
    rcases htr : tryStamp e s.strict sh img src with ⟨er | o, img1⟩
    · simp only
      refine iff_of_false (by simp) ?_
      rintro ⟨outs, img', tr, _⟩
      cases tr with
      | cons _ _ _ _ _ o outs h t => rw [htr] at h; cases h
    · cases o with
      | reject =>
        simp only
        rw [ih (jj + 1) pos (del ++ [jj]) { s with interped := some img1 } img1 d rfl hd]
        constructor
        · rintro ⟨outs, img', tr, hr, ht⟩
          refine ⟨.reject :: outs, img', .cons _ _ _ _ _ _ _ htr tr, ?_, ht⟩
          rw [hr]; simp [accepted, rejected]
        · rintro ⟨outs, img', tr, hr, ht⟩
          cases tr with
          | cons _ img1' _ _ _ o outs h t =>
            rw [htr] at h
            injection h with h1 h2
            injection h1 with h1
            subst h1; subst h2
            refine ⟨outs, img', t, ?_, ht⟩
            rw [hr]; simp [accepted, rejected]
      | accept st =>
        simp only
        rw [ih (jj + 1) (pos ++ [(src.y, src.x)]) del { s with interped := some img1, db := some (d ++ [st]) }
          img1 (d ++ [st]) rfl rfl]
        constructor
        · rintro ⟨outs, img', tr, hr, ht⟩
          refine ⟨.accept st :: outs, img', .cons _ _ _ _ _ _ _ htr tr, ?_, ?_⟩
          · rw [hr]; simp [accepted, rejected]
          · rw [ht]; simp [accepted]
        · rintro ⟨outs, img', tr, hr, ht⟩
          cases tr with
          | cons _ img1' _ _ _ o outs h t =>
            rw [htr] at h
            injection h with h1 h2
            injection h1 with h1
            subst h1; subst h2
            refine ⟨outs, img', t, ?_, ?_⟩
            · rw [hr]; simp [accepted, rejected]
            · rw [ht]; simp [accepted]

theorem Trace.length {e : Env} {strict : Bool} {sh : ℕ × ℕ} {img img' : Img (Option ℚ)} {cands : List SepRow}
    {outs : List Outcome} (t : Trace e strict sh img cands outs img') : outs.length = cands.length := by
  induction t with
  | nil => rfl
  | cons _ _ _ _ _ _ _ _ _ ih => simp [ih]

theorem accepted_rejected_count (cands : List SepRow) (outs : List Outcome) (jj : ℕ)
    (h : outs.length = cands.length) :
    (accepted cands outs).length + (rejected jj outs).length = cands.length := by
  induction outs generalizing cands jj with
  | nil => cases cands <;> simp_all [accepted, rejected]
  | cons o outs ih =>
    cases cands with
    | nil => simp at h
    | cons c cands =>
      have := ih cands (jj + 1) (by simpa using h)
      cases o <;> simp only [accepted, rejected, List.length_cons] <;> omega

/-! ## The accepted catalogue (C50) -/

theorem rejected_ge (jj : ℕ) (outs : List Outcome) : ∀ k ∈ rejected jj outs, jj ≤ k := by
  induction outs generalizing jj with
  | nil => simp [rejected]
  | cons o outs ih =>
    intro k hk
    cases o with
    | reject =>
      simp only [rejected, List.mem_cons] at hk
      rcases hk with rfl | hk
      · exact le_refl _
      · have := ih (jj + 1) k hk; omega
    | accept st =>
      have := ih (jj + 1) k hk; omega

theorem delete_rejected_aux (cands : List SepRow) (outs : List Outcome) (jj : ℕ) (extra : List ℕ)
    (hx : ∀ k ∈ extra, k < jj) (h : outs.length = cands.length) :
    ((cands.zipIdx jj).filter fun p => decide (p.2 ∉ extra ++ rejected jj outs)).map (·.1) =
      (accepted cands outs).map (·.1) := by
  induction outs generalizing cands jj extra with
  | nil => cases cands <;> simp_all [accepted]
  | cons o outs ih =>
    cases cands with
    | nil => simp at h
    | cons c cands =>
      have h' : outs.length = cands.length := by simpa using h
      cases o with
      | reject =>
        have := ih cands (jj + 1) (extra ++ [jj]) (by
          intro k hk
          rw [List.mem_append, List.mem_singleton] at hk
          rcases hk with hk | rfl
          · have := hx k hk; omega
          · omega) h'
        rw [List.zipIdx_cons, List.filter_cons]
        simp only [rejected, List.mem_append, List.mem_cons, true_or, or_true, not_true, decide_false,
          Bool.false_eq_true, if_false, accepted]
        rw [← this]
        congr 2
        funext p
        simp [List.append_assoc]
      | accept st =>
        have := ih cands (jj + 1) extra (fun k hk => by have := hx k hk; omega) h'
        rw [List.zipIdx_cons, List.filter_cons]
        have hno : jj ∉ extra ++ rejected (jj + 1) outs := by
          rw [List.mem_append]
          rintro (hk | hk)
          · have := hx jj hk; omega
          · have := rejected_ge _ _ _ hk; omega
        simp only [rejected]
        simp only [hno, not_false_eq_true, decide_true, if_true]
        simp only [accepted, List.map_cons]
        rw [← this]
        congr

/-- Deleting the rejected candidates leaves the accepted ones, in order. -/
theorem delete_rejected (cands : List SepRow) (outs : List Outcome) (h : outs.length = cands.length) :
    deleteIdx cands (rejected 0 outs) = (accepted cands outs).map (·.1) := by
  have := delete_rejected_aux cands outs 0 [] (by simp) h
  unfold deleteIdx
  simpa using this

/-! ## The whole extraction -/

/-- The image `interped` shows at a state. -/
def curImg (e : Env) (s : SIState) : Py (Img (Option ℚ)) :=
  match s.interped with
  | some a => .ok a
  | none => match e.interp with
    | .ok a => .ok (a.map some)
    | .error er => .error er

theorem stampLoop_first (e : Env) (sh : ℕ × ℕ) (cands : List SepRow) (jj : ℕ) (pos : List (ℚ × ℚ))
    (del : List ℕ) (s : SIState) (img : Img (Option ℚ)) (h : curImg e s = .ok img) (hc : cands ≠ []) :
    stampLoop e sh cands jj pos del s = stampLoop e sh cands jj pos del { s with interped := some img } := by
  unfold curImg at h
  cases hi : s.interped with
  | some a =>
    rw [hi] at h
    cases h
    rw [← hi]
  | none =>
    rw [hi] at h
    cases he : e.interp with
    | error er => rw [he] at h; cases h
    | ok a =>
      rw [he] at h
      cases h
      cases cands with
      | nil => exact absurd rfl hc
      | cons c cands =>
        have h1 : interped e s = (.ok (a.map some), { s with interped := some (a.map some) }) := by
          unfold interped
          rw [get_bind, hi]
          simp only
          rw [he]
          rfl
        rw [stampLoop, bind_ok _ _ _ _ _ h1, bind_ok _ _ _ _ _ (interped_cached e { s with interped := some (a.map some) } _ rfl)]

/-- State in which the candidates are processed. -/
def startState (s : SIState) : SIState :=
  { s with stampShape := s.wantShape.getD s.stampShape, db := some [] }

theorem extractStamps_eq (e : Env) (s t u : SIState) (cands : List SepRow) (sh : ℕ × ℕ)
    (hb : bestSources e (startState s) = (.ok cands, t))
    (hu : u = { t with strictPublic := if cands.length ≤ 20 then some false else t.strictPublic })
    (hsh : u.stampShape = sh) :
    extractStamps e s = match stampLoop e sh cands 0 [] [] u with
      | (.error er, v) => (.error er, v)
      | (.ok r, v) => (.ok r.1, { v with
          best := if 15 ≤ (cands.length : ℤ) - r.2.length then v.best.map fun b => deleteIdx b r.2 else v.best
          stampShape := (v.stampShape.1 + 6, v.stampShape.2 + 6)
          stampsPos := some r.1
          nSources := some r.1.length }) := by
  unfold extractStamps
  rw [modify_bind]
  change (bestSources e >>= _) (startState s) = _
  rw [bind_ok _ _ _ _ _ hb, modify_bind, get_bind, bind_app, ← hu, hsh]
  rcases stampLoop e sh cands 0 [] [] u with ⟨er | r, v⟩ <;> rfl

theorem bestSources_frame (e : Env) (s t : SIState) (b : List SepRow) (h : bestSources e s = (.ok b, t)) :
    ∃ ps, t = { s with best := some b, pixstack := ps } := by
  cases hs : s.best with
  | some b' =>
    rw [bestSources_cached e s b' hs] at h
    cases h
    exact ⟨s.pixstack, by rw [← hs]⟩
  | none =>
    rw [bestSources_fresh e s hs] at h
    obtain ⟨ps, h1, _⟩ := detect_state e s
    rcases hd : detect e s with ⟨r | l, u⟩
    · rw [hd] at h; cases h
    · rw [hd] at h h1
      simp only at h h1
      split at h
      · cases h
      · cases h
        exact ⟨ps, by rw [h1]⟩

/-- C46, C47, C50: all about a successful extraction with at least one candidate. `outs` is the fate of
each candidate. -/
theorem extraction_spec (e : Env) (s t : SIState) (cands : List SepRow) (pos : List (ℚ × ℚ)) (ps : ℕ)
    (img : Img (Option ℚ)) (hc : cands ≠ [])
    (hb : bestSources e (startState s) = (.ok cands, { startState s with best := some cands, pixstack := ps }))
    (hi : curImg e s = .ok img) :
    extractStamps e s = (.ok pos, t) ↔
      ∃ outs img', Trace e s.strict (s.wantShape.getD s.stampShape) img cands outs img' ∧
        pos = (accepted cands outs).map (fun p => (p.1.y, p.1.x)) ∧
        t = { s with
          pixstack := ps
          strictPublic := if cands.length ≤ 20 then some false else s.strictPublic
          best := some (if 15 ≤ (accepted cands outs).length then (accepted cands outs).map (·.1) else cands)
          stampShape := ((s.wantShape.getD s.stampShape).1 + 6, (s.wantShape.getD s.stampShape).2 + 6)
          stampsPos := some pos
          nSources := some (accepted cands outs).length
          db := some ((accepted cands outs).map (·.2))
          interped := some img' } := by
  obtain ⟨sh, hsh⟩ : ∃ sh, sh = s.wantShape.getD s.stampShape := ⟨_, rfl⟩
  obtain ⟨u, hu⟩ : ∃ u : SIState, u = { startState s with
      best := some cands, pixstack := ps,
      strictPublic := if cands.length ≤ 20 then some false else s.strictPublic } := ⟨_, rfl⟩
  have hush : u.stampShape = sh := by rw [hu, hsh]; rfl
  rw [extractStamps_eq e s _ u cands sh hb (by rw [hu]; rfl) hush, ← hsh]
  have hci : curImg e u = .ok img := by rw [← hi, hu]; rfl
  rw [stampLoop_first e sh cands 0 [] [] u img hci hc]
  obtain ⟨w, hw⟩ : ∃ w : SIState, w = { u with interped := some img } := ⟨_, rfl⟩
  rw [← hw]
  have hst : w.strict = s.strict := by rw [hw, hu]; rfl
  have key := fun r v => stampLoop_iff e sh cands 0 [] [] w v img [] r (by rw [hw])
    (by rw [hw, hu]; rfl)
  simp only [hst] at key
  have hcount := fun outs (hl : outs.length = cands.length) => accepted_rejected_count cands outs 0 hl
  have hcond : ∀ outs : List Outcome, outs.length = cands.length →
      (15 ≤ (cands.length : ℤ) - (rejected 0 outs).length ↔ 15 ≤ (accepted cands outs).length) := by
    intro outs hl
    have := hcount outs hl
    omega
  rcases hrun : stampLoop e sh cands 0 [] [] w with ⟨er | r, v⟩
  · simp only
    refine iff_of_false (by simp) ?_
    rintro ⟨outs, img', tr, _⟩
    have := (key _ _).2 ⟨outs, img', tr, rfl, rfl⟩
    rw [hrun] at this
    cases this
  · simp only
    constructor
    · intro h
      obtain ⟨outs, img', tr, hr, hv⟩ := (key r v).1 hrun
      refine ⟨outs, img', tr, ?_, ?_⟩
      · injection h with h1 _
        injection h1 with h1
        rw [← h1, hr]; rfl
      · injection h with h1 h2
        injection h1 with h1
        rw [← h2, hv, hw, hu, hr]
        simp only [List.nil_append]
        have hl := tr.length
        rw [hr] at h1
        simp only [List.nil_append] at h1
        congr 1
        · simp only [hcond outs hl]
          split
          · simp only [Option.map_some, delete_rejected cands outs hl]
          · rfl
        · rw [hsh]; rfl
        · rw [h1]
        · simp
    · rintro ⟨outs, img', tr, hp, ht⟩
      have hk := (key _ _).2 ⟨outs, img', tr, rfl, rfl⟩
      rw [hrun] at hk
      injection hk with hk1 hk2
      injection hk1 with hk1
      have hl := tr.length
      rw [hk1, hk2, ht, hw, hu, hp]
      simp only [List.nil_append]
      congr 2
      · simp only [hcond outs hl]
        split
        · simp only [Option.map_some, delete_rejected cands outs hl]
        · rfl
      · rw [hsh]; rfl
      · simp

end PI
