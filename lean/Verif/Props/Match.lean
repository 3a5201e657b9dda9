import Verif.Model.Match
import Mathlib.Tactic.Linarith
import Mathlib.Data.List.Nodup

/-! # Properties C13–C15: `crossmatch` and `_matching` -/

namespace PI

/-! ## The contract is satisfiable -/

theorem bruteMin_spec (x : Pt) : ∀ (X : List Pt) (k : ℕ),
    (X = [] ∧ bruteMin x X k = none) ∨
    (∃ (i : ℕ) (y : Pt), X[i]? = some y ∧ bruteMin x X k = some (sqDist x y, k + i) ∧
      ∀ y' ∈ X, sqDist x y ≤ sqDist x y') := by
  intro X
  induction X with
  | nil => intro k; left; exact ⟨rfl, rfl⟩
  | cons y ys ih =>
    intro k
    right
    rcases ih (k + 1) with ⟨h1, h2⟩ | ⟨i, z, h1, h2, h3⟩
    · subst h1
      refine ⟨0, y, rfl, by simp [bruteMin], ?_⟩
      intro y' hy'
      simp at hy'
      subst hy'
      exact le_refl _
    · by_cases hle : sqDist x y ≤ sqDist x z
      · refine ⟨0, y, rfl, by simp [bruteMin, h2, hle], ?_⟩
        intro y' hy'
        rcases List.mem_cons.1 hy' with rfl | hy'
        · exact le_refl _
        · exact hle.trans (h3 y' hy')
      · refine ⟨i + 1, z, by simpa using h1, by simp [bruteMin, h2, hle]; omega, ?_⟩
        intro y' hy'
        rcases List.mem_cons.1 hy' with rfl | hy'
        · exact (not_le.1 hle).le
        · exact h3 y' hy'

theorem ltBound_mono (d e : ℚ) (b : Bound) (h : d ≤ e) (he : ltBound e b = true) :
    ltBound d b = true := by
  cases b with
  | none => rfl
  | some r => simp only [ltBound, decide_eq_true_eq] at he ⊢; linarith

theorem bruteQuery_contract : KdContract bruteQuery := by
  intro X b x
  rcases bruteMin_spec x X 0 with ⟨h1, h2⟩ | ⟨i, y, h1, h2, h3⟩
  · right
    subst h1
    exact ⟨by simp, by simp [bruteQuery, h2]⟩
  · by_cases hb : ltBound (sqDist x y) b = true
    · left
      exact ⟨i, y, h1, hb, by simp [bruteQuery, h2, hb], h3⟩
    · right
      refine ⟨?_, by simp [bruteQuery, h2, hb]⟩
      intro y' hy'
      by_contra hne
      exact hb (ltBound_mono _ _ b (h3 y' hy') (by simpa using hne))

/-! ## C13 -/

/-- C13: one result per row of `X1`; each is the (squared) distance and index of a nearest row of
`X2` if that is strictly inside the bound and `(inf, N2)` otherwise; unequal dimensions raise. -/
theorem crossmatch_spec (q : Query) (hq : KdContract q) (D1 D2 : ℕ) (X1 X2 : List Pt) (b : Bound) :
    (D1 ≠ D2 → crossmatch q D1 D2 X1 X2 b = .error .ValueError) ∧
    (D1 = D2 → ∃ res, crossmatch q D1 D2 X1 X2 b = .ok res ∧ res.length = X1.length ∧
      ∀ (i : ℕ) (x : Pt), X1[i]? = some x →
        ((∃ (k : ℕ) (y : Pt), X2[k]? = some y ∧ ltBound (sqDist x y) b = true ∧
            (∀ y' ∈ X2, sqDist x y ≤ sqDist x y') ∧ res[i]? = some (some (sqDist x y), k)) ∨
          ((∀ y ∈ X2, ltBound (sqDist x y) b = false) ∧ res[i]? = some (none, X2.length)))) := by
  refine ⟨fun h => by simp [crossmatch, h], fun h => ?_⟩
  refine ⟨X1.map (q X2 b), by simp [crossmatch, h], by simp, ?_⟩
  intro i x hi
  have e : (X1.map (q X2 b))[i]? = some (q X2 b x) := by simp [hi]
  rcases hq X2 b x with ⟨k, y, h1, h2, h3, h4⟩ | ⟨h1, h2⟩
  · exact Or.inl ⟨k, y, h1, h2, h4, by rw [e, h3]⟩
  · exact Or.inr ⟨h1, by rw [e, h2]⟩

example : crossmatch bruteQuery 2 2 [[0, 0], [5, 5], [9, 0]] [[1, 0], [5, 4]] (some 4)
    = .ok [(some 1, 0), (some 1, 1), (none, 2)] := by decide +kernel

/-! ## C14 -/

/-- The query, run both ways, makes catalogue row `i` and master row `o` each other's match. -/
def MutualAt (q : Query) (masterXY catXY : List Pt) (b : Bound) (o i : ℕ) : Prop :=
  ∃ (mo ci : Pt), masterXY[o]? = some mo ∧ catXY[i]? = some ci ∧
    (∃ d, q masterXY b ci = (some d, o)) ∧ (∃ d, q catXY b mo = (some d, i))

theorem matching_getElem (q : Query) (masterXY : List Pt) (ids : List ℤ) (catXY : List Pt)
    (b : Bound) (i : ℕ) (ci : Pt) (hi : catXY[i]? = some ci) :
    (matching q masterXY ids catXY b)[i]? =
      some (matchOne ids (masterXY.map (q catXY b)) i (q masterXY b ci)) := by
  simp [matching, hi]

theorem matching_length (q : Query) (masterXY : List Pt) (ids : List ℤ) (catXY : List Pt)
    (b : Bound) : (matching q masterXY ids catXY b).length = catXY.length := by
  simp [matching]

/-- Key case analysis: what `_matching` stores at row `i`. -/
theorem matching_cases (q : Query) (hq : KdContract q) (masterXY : List Pt) (ids : List ℤ)
    (hids : ids.length = masterXY.length) (catXY : List Pt) (b : Bound) (i : ℕ)
    (hi : i < catXY.length) :
    (∃ o v, MutualAt q masterXY catXY b o i ∧ ids[o]? = some v ∧
      (matching q masterXY ids catXY b)[i]? = some v) ∨
    ((¬ ∃ o, MutualAt q masterXY catXY b o i) ∧
      (matching q masterXY ids catXY b)[i]? = some unmatchedId) := by
  have hci : catXY[i]? = some catXY[i] := List.getElem?_eq_getElem hi
  rw [matching_getElem q masterXY ids catXY b i _ hci]
  set ci := catXY[i]
  rcases hq masterXY b ci with ⟨o, mo, h1, h2, h3, h4⟩ | ⟨h1, h2⟩
  · have hlt : o < masterXY.length := (List.getElem?_eq_some_iff.1 h1).1
    have hg : (masterXY.map (q catXY b))[o]? = some (q catXY b mo) := by simp [h1]
    rcases hq catXY b mo with ⟨i', y, g1, g2, g3, g4⟩ | ⟨g1, g2⟩
    · by_cases hii : i' = i
      · subst hii
        left
        have hidx : ids[o]? = some (ids[o]'(by omega)) := List.getElem?_eq_getElem (by omega)
        refine ⟨o, _, ⟨mo, ci, h1, hci, ⟨_, h3⟩, ⟨_, g3⟩⟩, hidx, ?_⟩
        simp only [matchOne, h3, hg, g3, if_true, hidx, Option.getD_some]
      · right
        refine ⟨?_, ?_⟩
        · rintro ⟨o', mo', ci', k1, k2, ⟨d, k3⟩, ⟨d', k4⟩⟩
          rw [hci] at k2
          obtain rfl := Option.some.inj k2
          rw [h3] at k3
          obtain rfl := (Prod.mk.inj k3).2
          rw [h1] at k1
          obtain rfl := Option.some.inj k1
          rw [g3] at k4
          exact hii (Prod.mk.inj k4).2
        · simp only [matchOne, h3, hg, g3, if_neg hii]
    · right
      refine ⟨?_, ?_⟩
      · rintro ⟨o', mo', ci', k1, k2, ⟨d, k3⟩, ⟨d', k4⟩⟩
        rw [hci] at k2
        obtain rfl := Option.some.inj k2
        rw [h3] at k3
        obtain rfl := (Prod.mk.inj k3).2
        rw [h1] at k1
        obtain rfl := Option.some.inj k1
        rw [g2] at k4
        exact absurd (Prod.mk.inj k4).1 (by simp)
      · simp only [matchOne, h3, hg, g2]
  · right
    refine ⟨?_, ?_⟩
    · rintro ⟨o', mo', ci', k1, k2, ⟨d, k3⟩, _⟩
      rw [hci] at k2
      obtain rfl := Option.some.inj k2
      rw [h2] at k3
      exact absurd (Prod.mk.inj k3).1 (by simp)
    · simp only [matchOne, h2]

/-- A catalogue row has at most one mutual partner, and so does a master row. -/
theorem mutual_unique (q : Query) (masterXY catXY : List Pt) (b : Bound) (o o' i i' : ℕ)
    (h : MutualAt q masterXY catXY b o i) (h' : MutualAt q masterXY catXY b o' i') :
    o = o' ↔ i = i' := by
  obtain ⟨mo, ci, k1, k2, ⟨d, k3⟩, ⟨e, k4⟩⟩ := h
  obtain ⟨mo', ci', l1, l2, ⟨d', l3⟩, ⟨e', l4⟩⟩ := h'
  constructor
  · rintro rfl
    rw [k1] at l1
    obtain rfl := Option.some.inj l1
    rw [k4] at l4
    exact (Prod.mk.inj l4).2
  · rintro rfl
    rw [k2] at l2
    obtain rfl := Option.some.inj l2
    rw [k3] at l3
    exact (Prod.mk.inj l3).2

/-- C14: a row gets an ID exactly when it has a mutual nearest neighbour, and then that
neighbour's ID (IDs equal to the unmatched marker excepted). -/
theorem matching_iff_mutual (q : Query) (hq : KdContract q) (masterXY : List Pt) (ids : List ℤ)
    (hids : ids.length = masterXY.length) (hm : unmatchedId ∉ ids) (catXY : List Pt) (b : Bound)
    (i : ℕ) (hi : i < catXY.length) (v : ℤ) :
    ((matching q masterXY ids catXY b)[i]? = some v ∧ v ≠ unmatchedId) ↔
      ∃ o, MutualAt q masterXY catXY b o i ∧ ids[o]? = some v := by
  rcases matching_cases q hq masterXY ids hids catXY b i hi with ⟨o, w, h1, h2, h3⟩ | ⟨h1, h2⟩
  · constructor
    · rintro ⟨hv, _⟩
      rw [h3] at hv
      exact ⟨o, h1, Option.some.inj hv ▸ h2⟩
    · rintro ⟨o', h1', h2'⟩
      have : o' = o := (mutual_unique q masterXY catXY b o' o i i h1' h1).2 rfl
      subst this
      rw [h2] at h2'
      obtain rfl := Option.some.inj h2'
      exact ⟨h3, fun he => hm (he ▸ List.mem_of_getElem? h2)⟩
  · constructor
    · rintro ⟨hv, hne⟩
      rw [h2] at hv
      exact absurd (Option.some.inj hv).symm hne
    · rintro ⟨o, ho, _⟩
      exact absurd ⟨o, ho⟩ h1

/-- C14: with distinct master IDs two different rows never get the same ID. -/
theorem matching_injective (q : Query) (hq : KdContract q) (masterXY : List Pt) (ids : List ℤ)
    (hids : ids.length = masterXY.length) (hm : unmatchedId ∉ ids) (hnd : ids.Nodup)
    (catXY : List Pt) (b : Bound) (i i' : ℕ) (hi : i < catXY.length) (hi' : i' < catXY.length)
    (v : ℤ) (hv : v ≠ unmatchedId) (h : (matching q masterXY ids catXY b)[i]? = some v)
    (h' : (matching q masterXY ids catXY b)[i']? = some v) : i = i' := by
  obtain ⟨o, h1, h2⟩ := (matching_iff_mutual q hq masterXY ids hids hm catXY b i hi v).1 ⟨h, hv⟩
  obtain ⟨o', h1', h2'⟩ := (matching_iff_mutual q hq masterXY ids hids hm catXY b i' hi' v).1 ⟨h', hv⟩
  have hoo : o = o' := by
    have hl : o < ids.length := (List.getElem?_eq_some_iff.1 h2).1
    have hl' : o' < ids.length := (List.getElem?_eq_some_iff.1 h2').1
    have e1 := (List.getElem?_eq_some_iff.1 h2).2
    have e2 := (List.getElem?_eq_some_iff.1 h2').2
    exact (List.Nodup.getElem_inj_iff hnd).1 (e1.trans e2.symm)
  exact (mutual_unique q masterXY catXY b o o' i i' h1 h1').1 hoo

/-- C14: geometrically, mutual partners are within the radius of each other and each is a nearest
point of the other's list. -/
theorem mutual_geometry (q : Query) (hq : KdContract q) (masterXY catXY : List Pt) (b : Bound)
    (o i : ℕ) (h : MutualAt q masterXY catXY b o i) :
    ∃ (mo ci : Pt), masterXY[o]? = some mo ∧ catXY[i]? = some ci ∧
      ltBound (sqDist ci mo) b = true ∧ (∀ m ∈ masterXY, sqDist ci mo ≤ sqDist ci m) ∧
      (∀ c ∈ catXY, sqDist mo ci ≤ sqDist mo c) := by
  obtain ⟨mo, ci, k1, k2, ⟨d, k3⟩, ⟨e, k4⟩⟩ := h
  refine ⟨mo, ci, k1, k2, ?_⟩
  rcases hq masterXY b ci with ⟨o', mo', h1, h2, h3, h4⟩ | ⟨h1, h2⟩
  · rw [h3] at k3
    obtain rfl := (Prod.mk.inj k3).2
    rw [k1] at h1
    obtain rfl := Option.some.inj h1
    rcases hq catXY b mo with ⟨i', ci', g1, g2, g3, g4⟩ | ⟨g1, g2⟩
    · rw [g3] at k4
      obtain rfl := (Prod.mk.inj k4).2
      rw [k2] at g1
      obtain rfl := Option.some.inj g1
      exact ⟨h2, h4, g4⟩
    · rw [g2] at k4; exact absurd (Prod.mk.inj k4).1 (by simp)
  · rw [h2] at k3; exact absurd (Prod.mk.inj k3).1 (by simp)

/-- C14: whatever the tie-breaking, strict mutual nearest neighbours inside the radius are
matched. -/
theorem strict_neighbours_matched (q : Query) (hq : KdContract q) (masterXY catXY : List Pt)
    (b : Bound) (o i : ℕ) (mo ci : Pt) (ho : masterXY[o]? = some mo) (hi : catXY[i]? = some ci)
    (hb : ltBound (sqDist ci mo) b = true) (hb' : ltBound (sqDist mo ci) b = true)
    (hsm : ∀ k m, masterXY[k]? = some m → k ≠ o → sqDist ci mo < sqDist ci m)
    (hsc : ∀ k c, catXY[k]? = some c → k ≠ i → sqDist mo ci < sqDist mo c) :
    MutualAt q masterXY catXY b o i := by
  refine ⟨mo, ci, ho, hi, ?_, ?_⟩
  · rcases hq masterXY b ci with ⟨o', mo', h1, h2, h3, h4⟩ | ⟨h1, h2⟩
    · by_cases hoo : o' = o
      · subst hoo; exact ⟨_, h3⟩
      · have := hsm o' mo' h1 hoo
        have := h4 mo (List.mem_of_getElem? ho)
        linarith
    · rw [h1 mo (List.mem_of_getElem? ho)] at hb; simp at hb
  · rcases hq catXY b mo with ⟨i', ci', h1, h2, h3, h4⟩ | ⟨h1, h2⟩
    · by_cases hii : i' = i
      · subst hii; exact ⟨_, h3⟩
      · have := hsc i' ci' h1 hii
        have := h4 ci (List.mem_of_getElem? hi)
        linarith
    · rw [h1 ci (List.mem_of_getElem? hi)] at hb'; simp at hb'

example : matching bruteQuery [[0, 0], [10, 0], [20, 0]] [0, 1, 2]
    [[10, 1], [0, 1], [1, 0], [50, 50]] (some 4) = [1, 0, -13133, -13133] := by decide +kernel

/-! ## C15 -/

/-- C15: with non-negative master IDs, a row is reported as matched exactly when it has a mutual
neighbour whose ID is not 0. -/
theorem matching_mask_iff (q : Query) (hq : KdContract q) (masterXY : List Pt) (ids : List ℤ)
    (hids : ids.length = masterXY.length) (hpos : ∀ v ∈ ids, 0 ≤ v) (catXY : List Pt) (b : Bound)
    (i : ℕ) (hi : i < catXY.length) :
    (matchMask (matching q masterXY ids catXY b))[i]? = some true ↔
      ∃ o v, MutualAt q masterXY catXY b o i ∧ ids[o]? = some v ∧ v ≠ 0 := by
  have hm : unmatchedId ∉ ids := fun h => absurd (hpos _ h) (by decide)
  rcases matching_cases q hq masterXY ids hids catXY b i hi with ⟨o, w, h1, h2, h3⟩ | ⟨h1, h2⟩
  · have hw := hpos w (List.mem_of_getElem? h2)
    have e : (matchMask (matching q masterXY ids catXY b))[i]? = some (decide (0 < w)) := by
      simp [matchMask, h3]
    rw [e]
    constructor
    · intro ht
      have : 0 < w := by simpa using ht
      exact ⟨o, w, h1, h2, by omega⟩
    · rintro ⟨o', v, g1, g2, g3⟩
      have : o' = o := (mutual_unique q masterXY catXY b o' o i i g1 h1).2 rfl
      subst this
      rw [h2] at g2
      obtain rfl := Option.some.inj g2
      simp; omega
  · have e : (matchMask (matching q masterXY ids catXY b))[i]? = some false := by
      simp [matchMask, h2, unmatchedId]
    rw [e]
    refine iff_of_false (by simp) ?_
    rintro ⟨o, v, g1, _⟩
    exact h1 ⟨o, g1⟩

/-- C15: in particular the row matched to the source with ID 0 is reported as unmatched. -/
theorem matching_mask_drops_zero (q : Query) (hq : KdContract q) (masterXY : List Pt)
    (ids : List ℤ) (hids : ids.length = masterXY.length) (hpos : ∀ v ∈ ids, 0 ≤ v)
    (catXY : List Pt) (b : Bound) (o i : ℕ) (hmut : MutualAt q masterXY catXY b o i)
    (h0 : ids[o]? = some 0) :
    (matching q masterXY ids catXY b)[i]? = some 0 ∧
      (matchMask (matching q masterXY ids catXY b))[i]? = some false := by
  have hi : i < catXY.length := by
    obtain ⟨_, ci, _, hc, _⟩ := hmut
    exact (List.getElem?_eq_some_iff.1 hc).1
  have hm : unmatchedId ∉ ids := fun h => absurd (hpos _ h) (by decide)
  have h := ((matching_iff_mutual q hq masterXY ids hids hm catXY b i hi 0).2 ⟨o, hmut, h0⟩).1
  exact ⟨h, by simp [matchMask, h]⟩

example : matchMask (matching bruteQuery [[0, 0], [10, 0]] [0, 1] [[10, 1], [0, 1]] (some 4))
    = [true, false] := by decide +kernel

end PI
