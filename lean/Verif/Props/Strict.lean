import Verif.Props.StampsMore
import Mathlib.Tactic.Linarith
import Mathlib.Tactic.Positivity
import Mathlib.Tactic.FieldSimp
import Mathlib.Data.Finset.Max
import Mathlib.Algebra.Order.BigOperators.Group.List

/-! # Property C46 for `n_sources`, and C97: what strict star picking rejects -/

namespace PI
open PyS

/-- C46: `n_sources` after an extraction is the number of positions. -/
theorem n_sources_after (e : Env) (s t : SIState) (cands : List SepRow) (u : SIState) (pos : List (ℚ × ℚ))
    (hb : bestSources e (startState s) = (.ok cands, u)) (hc : cands ≠ [])
    (h : extractStamps e s = (.ok pos, t)) :
    nSources e t = (.ok pos.length, t) ∧ (t.db.getD []).length = pos.length := by
  obtain ⟨acc, nrej, _, _, hp, _, hdb, hn, _⟩ := stamps_aligned e s t cands u pos hb hc h
  subst hp
  refine ⟨?_, by rw [hdb]; simp⟩
  rw [nSources_cached e t _ hn]
  simp

/-! ## C97 -/

/-- Euclidean distance of a pixel from the middle of an `h × w` stamp. -/
noncomputable def fromMiddle (h w : ℕ) (p q : ℝ) : ℝ := Real.sqrt ((p - h / 2) ^ 2 + (q - w / 2) ^ 2)

/-- `(p, q)` is the first pixel, row by row, with the largest value. -/
def IsFirstMax (a : Img ℚ) (p q : ℕ) : Prop :=
  p < a.h ∧ q < a.w ∧ (∀ i < a.h, ∀ j < a.w, a.px i j ≤ a.px p q) ∧
    ∀ i < a.h, ∀ j < a.w, (i < p ∨ i = p ∧ j < q) → a.px i j < a.px p q

/-- Mean of the pixels. -/
def pixMean (a : Img ℚ) : ℚ := a.flat.sum / (a.h * a.w)

/-- Standard deviation of the pixels. -/
noncomputable def pixStd (a : Img ℚ) : ℝ :=
  Real.sqrt (((a.flat.map fun v => (v - pixMean a) ^ 2).sum / (a.h * a.w) : ℚ) : ℝ)

theorem offCentre_iff (h w : ℕ) (p q : ℚ) :
    offCentre h w p q = true ↔ (h : ℝ) / 5 < fromMiddle h w p q := by
  unfold offCentre fromMiddle
  rw [sqrtGt_iff]
  push_cast
  rfl

theorem indices_sorted (h w : ℕ) :
    (Img.indices h w).Pairwise fun a b => a.1 < b.1 ∨ a.1 = b.1 ∧ a.2 < b.2 := by
  unfold Img.indices
  rw [List.pairwise_flatMap]
  refine ⟨fun i _ => ?_, ?_⟩
  · rw [List.pairwise_map]
    exact List.pairwise_lt_range.imp fun h => Or.inr ⟨rfl, h⟩
  · refine List.pairwise_lt_range.imp fun h x hx y hy => ?_
    obtain ⟨_, _, rfl⟩ := List.mem_map.1 hx
    obtain ⟨_, _, rfl⟩ := List.mem_map.1 hy
    exact Or.inl h

theorem mem_flat (a : Img ℚ) (v : ℚ) : v ∈ a.flat ↔ ∃ i < a.h, ∃ j < a.w, a.px i j = v := by
  unfold Img.flat
  constructor
  · intro h
    obtain ⟨p, hp, rfl⟩ := List.mem_map.1 h
    exact ⟨p.1, (Img.mem_indices.1 hp).1, p.2, (Img.mem_indices.1 hp).2, rfl⟩
  · rintro ⟨i, hi, j, hj, rfl⟩
    exact List.mem_map.2 ⟨(i, j), Img.mem_indices.2 ⟨hi, hj⟩, rfl⟩

/-- There is at most one first maximum. -/
theorem IsFirstMax.unique {a : Img ℚ} {p q p' q' : ℕ} (h : IsFirstMax a p q) (h' : IsFirstMax a p' q') :
    p = p' ∧ q = q' := by
  obtain ⟨hp, hq, hm, hf⟩ := h
  obtain ⟨hp', hq', hm', hf'⟩ := h'
  by_contra hne
  rcases Nat.lt_trichotomy p p' with hlt | heq | hgt
  · exact absurd (hf' p hp q hq (Or.inl hlt)) (not_lt.2 (hm p' hp' q' hq'))
  · rcases Nat.lt_trichotomy q q' with hlt | heq' | hgt
    · exact absurd (hf' p hp q hq (Or.inr ⟨heq, hlt⟩)) (not_lt.2 (hm p' hp' q' hq'))
    · exact hne ⟨heq, heq'⟩
    · exact absurd (hf p' hp' q' hq' (Or.inr ⟨heq.symm, hgt⟩)) (not_lt.2 (hm' p hp q hq))
  · exact absurd (hf p' hp' q' hq' (Or.inl hgt)) (not_lt.2 (hm' p hp q hq))

/-- The pixel the strict check looks at is the first maximum. -/
theorem argMax_first (a : Img ℚ) (hh : 0 < a.h) (hw : 0 < a.w) : IsFirstMax a (argMax a).1 (argMax a).2 := by
  obtain ⟨m, hm, hmax⟩ : ∃ m ∈ Img.indices a.h a.w, ∀ p ∈ Img.indices a.h a.w, a.px p.1 p.2 ≤ a.px m.1 m.2 := by
    have hne : (Img.indices a.h a.w).toFinset.Nonempty :=
      ⟨(0, 0), List.mem_toFinset.2 (Img.mem_indices.2 ⟨hh, hw⟩)⟩
    obtain ⟨m, hm, h⟩ := Finset.exists_max_image _ (fun p : ℕ × ℕ => a.px p.1 p.2) hne
    exact ⟨m, List.mem_toFinset.1 hm, fun p hp => h p (List.mem_toFinset.2 hp)⟩
  have hall : ∀ p : ℕ × ℕ, (a.flat.all fun v => decide (v ≤ a.px p.1 p.2)) = true ↔
      ∀ i < a.h, ∀ j < a.w, a.px i j ≤ a.px p.1 p.2 := by
    intro p
    rw [List.all_eq_true]
    constructor
    · intro h i hi j hj
      exact of_decide_eq_true (h _ ((mem_flat a _).2 ⟨i, hi, j, hj, rfl⟩))
    · intro h v hv
      obtain ⟨i, hi, j, hj, rfl⟩ := (mem_flat a v).1 hv
      exact decide_eq_true (h i hi j hj)
  unfold argMax
  cases hf : (Img.indices a.h a.w).find? fun p => a.flat.all fun v => decide (v ≤ a.px p.1 p.2) with
  | none =>
    exfalso
    have := List.find?_eq_none.1 hf m hm
    exact this ((hall m).2 fun i hi j hj => hmax (i, j) (Img.mem_indices.2 ⟨hi, hj⟩))
  | some b =>
    obtain ⟨hb, as, bs, hl, has⟩ := List.find?_eq_some_iff_append.1 hf
    have hbmax := (hall b).1 hb
    have hbm := Img.mem_indices.1 (List.mem_of_find?_eq_some hf)
    refine ⟨hbm.1, hbm.2, hbmax, ?_⟩
    intro i hi j hj hlt
    change i < b.1 ∨ i = b.1 ∧ j < b.2 at hlt
    have hin : (i, j) ∈ as ++ b :: bs := by
      rw [← hl]; exact Img.mem_indices.2 ⟨hi, hj⟩
    have hs := indices_sorted a.h a.w
    rw [hl, List.pairwise_append, List.pairwise_cons] at hs
    rcases List.mem_append.1 hin with h | h
    · have := has _ h
      have hn : ¬ ∀ i' < a.h, ∀ j' < a.w, a.px i' j' ≤ a.px i j := fun hc => by
        rw [(hall (i, j)).2 hc] at this
        cases this
      push Not at hn
      obtain ⟨i', hi', j', hj', hlt'⟩ := hn
      exact lt_of_lt_of_le hlt' (hbmax i' hi' j' hj')
    · exfalso
      rcases List.mem_cons.1 h with h | h
      · rw [← h] at hlt
        change i < i ∨ i = i ∧ j < j at hlt
        omega
      · have := hs.2.1.1 _ h
        change b.1 < i ∨ b.1 = i ∧ b.2 < j at this
        omega

theorem flat_length (a : Img ℚ) : a.flat.length = a.h * a.w := by
  simp [Img.flat, Img.indices, List.length_flatMap]

/-- C97: exactly when strict picking rejects a finite stamp. `(p, q)` is the first pixel holding the
largest value and `e.locmax` the catalogue of local maxima. -/
theorem strict_rejects_iff (e : Env) (a : Img ℚ) (p q : ℕ) (hm : IsFirstMax a p q) :
    strictCheck e (.fin a) = .ok .reject ↔
      (a.h : ℝ) / 5 < fromMiddle a.h a.w p q ∨ 15 / 100 < pixStd a ∨
      (∃ i < a.h, ∃ j < a.w, 1 / 2 < a.px i j) ∨ 2 ≤ (e.locmax a).length ∨
      ∃ y x v, e.locmax a = [(y, x, v)] ∧ (a.h : ℝ) / 5 < fromMiddle a.h a.w x y := by
  have hmax := argMax_first a (by have := hm.1; omega) (by have := hm.2.1; omega)
  obtain ⟨e1, e2⟩ := hm.unique hmax
  have hrej : strictCheck e (.fin a) = .ok .reject ↔ strictReject e a = true := by
    unfold strictCheck
    by_cases h : strictReject e a = true
    · simp [h]
    · simp [h]
  rw [hrej]
  unfold strictReject
  rw [← e1, ← e2, Bool.or_eq_true, Bool.or_eq_true, Bool.or_eq_true, offCentre_iff, sqrtGt_iff, or_assoc,
    or_assoc]
  have hstd : (((15 / 100 : ℚ) : ℝ) < Real.sqrt (varQ a.flat)) ↔ 15 / 100 < pixStd a := by
    have : ((varQ a.flat : ℚ) : ℝ) =
        (((a.flat.map fun v => (v - pixMean a) ^ 2).sum / (a.h * a.w) : ℚ) : ℝ) := by
      unfold varQ meanQ pixMean
      rw [flat_length]
      push_cast
      rfl
    unfold pixStd
    rw [this]
    norm_num
  have hany : (a.flat.any fun v => decide (1 / 2 < v)) = true ↔ ∃ i < a.h, ∃ j < a.w, 1 / 2 < a.px i j := by
    rw [List.any_eq_true]
    constructor
    · rintro ⟨v, hv, h⟩
      obtain ⟨i, hi, j, hj, rfl⟩ := (mem_flat a v).1 hv
      exact ⟨i, hi, j, hj, of_decide_eq_true h⟩
    · rintro ⟨i, hi, j, hj, h⟩
      exact ⟨_, (mem_flat a _).2 ⟨i, hi, j, hj, rfl⟩, decide_eq_true h⟩
  rw [hstd, hany]
  have hloc : ∀ l : List (ℚ × ℚ × ℚ), ((match l with
      | [] => false
      | [(y, x, _)] => offCentre a.h a.w x y
      | _ => true) = true ↔ 2 ≤ l.length ∨
      ∃ y x v, l = [(y, x, v)] ∧ (a.h : ℝ) / 5 < fromMiddle a.h a.w x y) := by
    intro l
    match l with
    | [] => simp
    | [(y, x, v)] =>
      simp only [offCentre_iff]
      constructor
      · intro h; exact Or.inr ⟨y, x, v, rfl, h⟩
      · rintro (h | ⟨y', x', v', h, h'⟩)
        · simp at h
        · simp only [List.cons.injEq, Prod.mk.injEq, and_true] at h
          obtain ⟨rfl, rfl, rfl⟩ := h
          exact h'
    | _ :: _ :: _ => simp
  refine or_congr Iff.rfl (or_congr Iff.rfl (or_congr Iff.rfl ?_))
  exact_mod_cast hloc (e.locmax a)

/-- C97: on a unit-sum stamp the scatter check can only fire if some pixel exceeds `1/2` in absolute value,
or the absolute values add up to more than `0.045` per pixel. -/
theorem scatter_bound (a : Img ℚ) (hu : a.flat.sum = 1) (hs : 15 / 100 < pixStd a) :
    (∃ i < a.h, ∃ j < a.w, 1 / 2 < |a.px i j|) ∨ 9 / 200 * (a.h * a.w : ℚ) < (a.flat.map fun v => |v|).sum := by
  by_contra hc
  push Not at hc
  obtain ⟨h1, h2⟩ := hc
  have hN : (0 : ℚ) < a.h * a.w := by
    rcases Nat.eq_zero_or_pos (a.h * a.w) with h | h
    · have : a.flat = [] := List.length_eq_zero_iff.1 (by rw [flat_length, h])
      rw [this] at hu
      simp at hu
    · exact_mod_cast h
  have hsq : ∀ l : List ℚ, (∀ v ∈ l, |v| ≤ 1 / 2) → ∀ m : ℚ,
      (l.map fun v => (v - m) ^ 2).sum ≤ (l.map fun v => |v|).sum / 2 - 2 * m * l.sum + m ^ 2 * l.length := by
    intro l
    induction l with
    | nil => intro _ m; simp
    | cons v l ih =>
      intro hl m
      have := ih (fun v hv => hl v (List.mem_cons_of_mem _ hv)) m
      have hv := hl v (List.mem_cons_self ..)
      simp only [List.map_cons, List.sum_cons, List.length_cons]
      push_cast
      nlinarith [sq_abs v, mul_nonneg (abs_nonneg v) (sub_nonneg.2 hv)]
  have hb := hsq a.flat (fun v hv => by
    obtain ⟨i, hi, j, hj, rfl⟩ := (mem_flat a v).1 hv
    exact h1 i hi j hj) (pixMean a)
  rw [flat_length, hu] at hb
  have hmean : pixMean a = 1 / (a.h * a.w : ℚ) := by unfold pixMean; rw [hu]
  unfold pixStd at hs
  rw [Real.lt_sqrt (by norm_num)] at hs
  have hs' : (15 / 100 : ℚ) ^ 2 < (a.flat.map fun v => (v - pixMean a) ^ 2).sum / (a.h * a.w) := by
    rw [← Rat.cast_lt (K := ℝ)]
    refine lt_of_eq_of_lt ?_ hs
    norm_num
  rw [lt_div_iff₀ hN] at hs'
  have hm2 : pixMean a ^ 2 * ((a.h * a.w : ℕ) : ℚ) = pixMean a := by
    rw [hmean]; push_cast; field_simp
  rw [hm2] at hb
  have hpos : 0 < pixMean a := by rw [hmean]; positivity
  linarith

/-- C97: so on a unit-sum stamp of 23 or more pixels, none negative, the scatter check rejects nothing
that the check for pixels above `1/2` would not reject. -/
theorem scatter_redundant (a : Img ℚ) (hu : a.flat.sum = 1) (hn : 23 ≤ a.h * a.w)
    (h0 : ∀ i < a.h, ∀ j < a.w, 0 ≤ a.px i j) (hs : 15 / 100 < pixStd a) :
    ∃ i < a.h, ∃ j < a.w, 1 / 2 < a.px i j := by
  rcases scatter_bound a hu hs with ⟨i, hi, j, hj, h⟩ | h
  · rw [abs_of_nonneg (h0 i hi j hj)] at h
    exact ⟨i, hi, j, hj, h⟩
  · exfalso
    have : (a.flat.map fun v => |v|) = a.flat := by
      conv_rhs => rw [← List.map_id a.flat]
      refine List.map_congr_left fun v hv => ?_
      obtain ⟨i, hi, j, hj, rfl⟩ := (mem_flat a v).1 hv
      exact abs_of_nonneg (h0 i hi j hj)
    rw [this, hu] at h
    have : (23 : ℚ) ≤ a.h * a.w := by exact_mod_cast hn
    linarith

/-- C97: a stamp with a NaN makes strict picking raise; one without, never. -/
theorem strict_raises_iff (e : Env) (st : Stamp) :
    (∃ er, strictCheck e st = .error er) ↔ ∃ h w, st = .nan h w := by
  cases st with
  | nan h w => exact iff_of_true ⟨_, rfl⟩ ⟨h, w, rfl⟩
  | inf h w => exact iff_of_false (by rintro ⟨_, h⟩; cases h) (by rintro ⟨_, _, h⟩; cases h)
  | fin a => exact iff_of_false (by rintro ⟨_, h⟩; cases h) (by rintro ⟨_, _, h⟩; cases h)

/-- A `5 × 5` stamp whose first maximum, at `(2, 2)`, holds three fifths of the light: rejected by the
peak check alone. -/
def peaked : Img ℚ := ⟨5, 5, fun i j => if i = 2 ∧ j = 2 then 3 / 5 else 1 / 60⟩

example : IsFirstMax peaked 2 2 ∧ peaked.flat.sum = 1 ∧ (∀ i < peaked.h, ∀ j < peaked.w, 0 ≤ peaked.px i j) := by
  unfold IsFirstMax
  decide +kernel

end PI
