import Verif.Props.Transparency
import Mathlib.Analysis.SpecialFunctions.Log.Base
import Mathlib.Tactic.NormNum

/-! # Properties C17–C21: the linear system of `transparency` and repeated calls -/

namespace PI
open Finset

theorem sum_range_list (f : ℕ → ℝ) (n : ℕ) :
    ∑ i ∈ range n, f i = ((List.range n).map f).sum := by
  induction n with
  | zero => simp
  | succ n ih => rw [sum_range_succ, List.range_succ, List.map_append, List.sum_append, ih]; simp

/-! ## Where the code puts each magnitude -/

theorem flatMap_getElem_const {α β : Type} (f : α → List β) (w : ℕ) : ∀ (l : List α) (s t : ℕ),
    (∀ a ∈ l, (f a).length = w) → t < w →
    (l.flatMap f)[s * w + t]? = (l[s]?).bind fun a => (f a)[t]? := by
  intro l
  induction l with
  | nil => intro s t _ _; simp
  | cons a l ih =>
    intro s t hw ht
    rw [List.flatMap_cons]
    have ha : (f a).length = w := hw a (by simp)
    cases s with
    | zero =>
      rw [List.getElem?_append_left (by omega)]
      simp
    | succ s =>
      rw [List.getElem?_append_right (by rw [ha, Nat.succ_mul]; omega), ha]
      have : (s + 1) * w + t - w = s * w + t := by rw [Nat.succ_mul]; omega
      rw [this, ih s t (fun b hb => hw b (by simp [hb])) ht]
      simp

theorem rhsList_master (p q : ℕ) (F : ℕ → ℕ → ℚ) (i : ℕ) (hi : i < q) :
    (rhsList p q F)[i]? = some (F 0 i) := by
  unfold rhsList
  rw [List.getElem?_append_left (by simpa using hi)]
  simp [hi]

theorem rhsList_other (p q : ℕ) (F : ℕ → ℕ → ℚ) (s t : ℕ) (hs : s < q) (ht : t < p - 1) :
    (rhsList p q F)[q + (s * (p - 1) + t)]? = some (F (t + 1) s) := by
  unfold rhsList
  rw [List.getElem?_append_right (by simp)]
  simp only [List.length_map, List.length_range, Nat.add_sub_cancel_left]
  rw [flatMap_getElem_const _ (p - 1) _ _ _ (by simp) ht]
  simp [hs, ht]

theorem rhsList_length (p q : ℕ) (hp : 1 ≤ p) (F : ℕ → ℕ → ℚ) :
    (rhsList p q F).length = p * q := by
  obtain ⟨p, rfl⟩ : ∃ p', p = p' + 1 := ⟨p - 1, by omega⟩
  unfold rhsList
  simp [List.length_flatMap, Nat.succ_mul, Nat.mul_comm]
  omega

/-- C18: row `j*q+i` of the system involves zero point `j` and mean magnitude `i`; its right-hand
side is source `i` measured in image `j`, for every flux table, exactly when there are at most two
images or at most one common source. -/
theorem transparency_rows_iff (p q : ℕ) (hp : 1 ≤ p) :
    (∀ (x : ℕ → ℝ) (j i : ℕ), j < p → i < q →
      ∑ c ∈ range (p + q), trH p q (j * q + i) c * x c = x j + x (p + i)) ∧
    ((∀ (F : ℕ → ℕ → ℚ) (j i : ℕ), j < p → i < q →
      (rhsList p q F)[j * q + i]? = some (F j i)) ↔ p ≤ 2 ∨ q ≤ 1) := by
  refine ⟨fun x j i hj hi => sum_trH p q j i hj hi x, ?_⟩
  constructor
  · intro h
    by_contra hc
    have hp3 : 3 ≤ p := by omega
    have hq2 : 2 ≤ q := by omega
    have h1 := h (fun j i => if j = 1 ∧ i = 1 then 1 else 0) 1 1 (by omega) (by omega)
    have h2 := rhsList_other p q (fun j i => if j = 1 ∧ i = 1 then 1 else 0) 0 1 (by omega)
      (by omega)
    simp only [Nat.one_mul, Nat.zero_mul, Nat.zero_add] at h1 h2
    rw [h1] at h2
    simp at h2
  · intro h F j i hj hi
    rcases Nat.eq_zero_or_pos j with rfl | hj0
    · simpa using rhsList_master p q F i hi
    · rcases h with h | h
      · have hj1 : j = 1 := by omega
        have hp2 : p = 2 := by omega
        subst hj1 hp2
        have := rhsList_other 2 q F i 0 hi (by omega)
        simpa using this
      · have hi0 : i = 0 := by omega
        have hq1 : q = 1 := by omega
        subst hi0 hq1
        have := rhsList_other p 1 F 0 (j - 1) (by omega) (by omega)
        simp only [Nat.zero_mul, Nat.zero_add] at this
        rw [show 1 + (j - 1) = j by omega, show j - 1 + 1 = j by omega] at this
        simpa using this

/-- Three images with the same two sources; fluxes 11, 12 / 21, 22 / 31, 32. -/
def threeStore : Store := fun k =>
  { rows := [⟨0, 0, 10 * (k + 1) + 1, 0⟩, ⟨50, 50, 10 * (k + 1) + 2, 0⟩], hasSid := false,
    det := none }

/-- C18: the order actually produced by a run with three images and two sources: entry 3, which the
matrix pairs with image 1 and source 1, is source 0 of image 2. -/
theorem transparency_three_images_misordered :
    (trMatch bruteQuery threeStore [0, 1, 2] none).map (fun r => (r.fluxes, r.det)) =
      .ok ([11, 12, 21, 31, 22, 32], [true, true]) := by decide +kernel

/-! ## C17 -/

theorem vecOf_map_of_getElem (l : List ℚ) (i : ℕ) (v : ℚ) (h : l[i]? = some v) :
    vecOf (l.map magOf) i = magOf v := by
  simp [vecOf, h]

/-- Right-hand sides for two images: block `j` is image `j`. -/
theorem blockSum_two (q : ℕ) (F : ℕ → ℕ → ℚ) (j : ℕ) (hj : j < 2) :
    blockSum q (vecOf ((rhsList 2 q F).map magOf)) j = ∑ i ∈ range q, magOf (F j i) := by
  unfold blockSum
  refine sum_congr rfl fun i hi => ?_
  exact vecOf_map_of_getElem _ _ _
    (((transparency_rows_iff 2 q (by omega)).2.2 (Or.inl le_rfl)) F j i hj (mem_range.1 hi))

/-- A solver that returns some least-squares solution of every system. -/
def LsqSolver (lsqr : ℕ → ℕ → List ℝ → ℕ → ℝ) : Prop :=
  ∀ p n m, IsLsq p n (vecOf m) (lsqr p n m)

/-- A solver that returns the minimum-norm least-squares solution. -/
def MinLsqSolver (lsqr : ℕ → ℕ → List ℝ → ℕ → ℝ) : Prop :=
  ∀ p n m, 0 < p → 0 < n → IsMinLsq p n (vecOf m) (lsqr p n m)

/-- Such solvers exist. -/
theorem minLsqSolver_exists : MinLsqSolver fun p n m => closedForm p n (vecOf m) :=
  fun p n m hp hn => (isMinLsq_iff p n hp hn (vecOf m) _).2 fun _ _ => rfl

theorem lsqSolver_exists : LsqSolver fun p n m => closedForm p n (vecOf m) := by
  intro p n m
  rcases Nat.eq_zero_or_pos p with rfl | hp
  · intro x'; simp [lsqCost]
  · rcases Nat.eq_zero_or_pos n with rfl | hn
    · intro x'; simp [lsqCost]
    · exact closedForm_isLsq p n hp hn _

/-- What the two-image run produces, for any fresh reference catalogue: the common sources `D`,
the fluxes of each in the two images, and the solution vector the zero points are read from. -/
theorem transparency_two (q : Query) (hq : KdContract q) (lsqr : ℕ → ℕ → List ℝ → ℕ → ℝ)
    (st : Store) (m k : ℕ) (hfresh : (st m).Fresh) :
    ∃ (D : List ℕ) (a b : ℕ → ℚ) (zps : List ℝ) (mm : Option (List ℝ)) (st' : Store),
      transparency q lsqr st [m, k] none = .ok (zps, mm, st') ∧
      (∀ o : ℕ, o ∈ D ↔ o < (st m).rows.length ∧
        ∃ i, MutualAt q (st m).xy (st k).xy radius2 o i) ∧ D.Pairwise (· < ·) ∧
      (∀ s o : ℕ, D[s]? = some o → ((st m).rows[o]?).map (·.flux) = some (a s) ∧
        ∃ i, MutualAt q (st m).xy (st k).xy radius2 o i ∧
          ((st k).rows[i]?).map (·.flux) = some (b s)) ∧
      (D ≠ [] → zps =
        [lsqr 2 D.length ((rhsList 2 D.length fun j => if j = 0 then a else b).map magOf) 0,
         lsqr 2 D.length ((rhsList 2 D.length fun j => if j = 0 then a else b).map magOf) 1]) := by
  obtain ⟨r, D, F, h1, h2, _, _, h4, h5, h6, h7, h8, h9⟩ :=
    transparency_detect q hq st [m, k] none m [k] rfl (by simp) hfresh
  have hr2 : r.p = 2 := h2
  have hrhs : rhsList 2 D.length (fun j => if j = 0 then F 0 else F 1) = rhsList 2 D.length F := by
    simp [rhsList]
  by_cases hD : D = []
  · have hc : r.det.count true = 0 := by rw [h5, hD]; rfl
    refine ⟨D, F 0, F 1, List.replicate r.p 1, none, r.store, ?_, ?_, h4, ?_,
      fun h => absurd hD h⟩
    · simp [transparency, h1, hc]
    · intro o; rw [h6]; simp
    · intro s o hs; rw [hD] at hs; simp at hs
  · have hc : r.det.count true ≠ 0 := by
      rw [h5]; exact fun h => hD (List.length_eq_zero_iff.1 h)
    refine ⟨D, F 0, F 1, _, _, r.store,
      by simp only [transparency, h1, if_neg hc]; rfl, ?_, h4, ?_, fun _ => ?_⟩
    · intro o; rw [h6]; simp
    · intro s o hs
      exact ⟨h8 s o hs, h9 s o 0 k hs (by simp)⟩
    · rw [hrhs, hr2, h7 hD, hr2, h5]
      rfl

/-- C17: with two images, whatever least-squares solution is returned, the difference of the two
zero points is the mean difference of the magnitudes of the common sources. -/
theorem transparency_two_images (q : Query) (hq : KdContract q)
    (lsqr : ℕ → ℕ → List ℝ → ℕ → ℝ) (hl : LsqSolver lsqr) (st : Store) (m k : ℕ)
    (hfresh : (st m).Fresh) :
    ∃ (D : List ℕ) (a b : ℕ → ℚ) (zps : List ℝ) (mm : Option (List ℝ)) (st' : Store),
      transparency q lsqr st [m, k] none = .ok (zps, mm, st') ∧
      (∀ o : ℕ, o ∈ D ↔ o < (st m).rows.length ∧
        ∃ i, MutualAt q (st m).xy (st k).xy radius2 o i) ∧ D.Pairwise (· < ·) ∧
      (∀ s o : ℕ, D[s]? = some o → ((st m).rows[o]?).map (·.flux) = some (a s) ∧
        ∃ i, MutualAt q (st m).xy (st k).xy radius2 o i ∧
          ((st k).rows[i]?).map (·.flux) = some (b s)) ∧
      (D ≠ [] → ∃ z0 z1, zps = [z0, z1] ∧
        z1 - z0 = (∑ s ∈ range D.length, (magOf (b s) - magOf (a s))) / D.length) := by
  obtain ⟨D, a, b, zps, mm, st', h1, h2, h3, h4, h5⟩ := transparency_two q hq lsqr st m k hfresh
  refine ⟨D, a, b, zps, mm, st', h1, h2, h3, h4, fun hD => ⟨_, _, h5 hD, ?_⟩⟩
  have hn : (D.length : ℝ) ≠ 0 := by
    intro h
    have : D.length = 0 := by exact_mod_cast h
    exact hD (List.length_eq_zero_iff.1 this)
  set F : ℕ → ℕ → ℚ := fun j => if j = 0 then a else b with hF
  obtain ⟨n1, _⟩ := (isLsq_iff_normal _ _ _ _).1 (hl 2 D.length ((rhsList 2 D.length F).map magOf))
  have e0 := n1 0 (by omega)
  have e1 := n1 1 (by omega)
  rw [blockSum_two _ _ 0 (by omega)] at e0
  rw [blockSum_two _ _ 1 (by omega)] at e1
  rw [sum_sub_distrib]
  have hF0 : F 0 = a := rfl
  have hF1 : F 1 = b := rfl
  rw [hF0] at e0
  rw [hF1] at e1
  field_simp
  linarith

/-- Two images with one common source, 100 times brighter in the second one. -/
def twoStore : Store := fun k =>
  if k = 0 then { rows := [⟨10, 10, 100000000, 0⟩, ⟨90, 10, 5, 0⟩], hasSid := false, det := none }
  else { rows := [⟨40, 40, 7, 0⟩, ⟨10, 11, 10000000000, 0⟩], hasSid := false, det := none }

example : (trMatch bruteQuery twoStore [0, 1] none).map (fun r => (r.p, r.det, r.fluxes)) =
    .ok (2, [true, false], [100000000, 10000000000]) := by decide +kernel

/-! ## C19 -/

/-- Every ID that occurs has a row, so the lookup of utils.py:221-222 never fails. -/
theorem fluxOf_newCat_ok (q : Query) (mc cat : Cat) (v : ℤ) (hv : v ∈ idsFor q mc cat) :
    ∃ f, fluxOf (newCat q mc cat) v = .ok f := by
  unfold fluxOf
  cases hf : (newCat q mc cat).rows.filter (fun s => s.sid = v) with
  | cons s t => exact ⟨s.flux, rfl⟩
  | nil =>
    exfalso
    obtain ⟨k, hk⟩ := List.mem_iff_getElem?.1 hv
    have hkl : k < cat.rows.length := by
      have := (List.getElem?_eq_some_iff.1 hk).1
      rw [idsFor, matching_length] at this
      simpa [Cat.xy] using this
    have h1 : ({ cat.rows[k] with sid := v } : Src) ∈ List.zipWith
        (fun (s : Src) v => { s with sid := v }) cat.rows (idsFor q mc cat) := by
      apply List.mem_iff_getElem?.2
      exact ⟨k, by rw [List.getElem?_zipWith, hk, List.getElem?_eq_getElem hkl]⟩
    have h2 : ({ cat.rows[k] with sid := v } : Src) ∈ (newCat q mc cat).rows :=
      (List.perm_insertionSort _ _).mem_iff.2 h1
    have h3 : ({ cat.rows[k] with sid := v } : Src) ∈
        (newCat q mc cat).rows.filter (fun s => s.sid = v) := List.mem_filter.2 ⟨h2, by simp⟩
    rw [hf] at h3
    simp at h3

/-- The matching stage never raises on distinct images, whatever the catalogues already carry. -/
theorem trMatch_total (q : Query) (st : Store) (images : List ℕ) (master : Option ℕ) (m : ℕ)
    (imgs : List ℕ) (hs : splitMaster images master = .ok (m, imgs)) (hnd : imgs.Nodup) :
    ∃ r, trMatch q st images master = .ok r ∧ r.p = imgs.length + 1 ∧
      r.det = (withSid (st m)).rows.map (foundInAll q (withSid (st m)) st imgs) ∧
      (∀ k ∈ imgs, k ≠ m → r.store k = newCat q (withSid (st m)) (st k)) ∧
      (m ∉ imgs → r.store m = if r.det.count true = 0 ∧ ((st m).hasSid && (st m).det.isSome) = false then st m
        else { withSid (st m) with det := some r.det }) := by
  have heq := trMatch_eq q st images master m imgs hs hnd
  simp only at heq
  set mc := withSid (st m) with hmc
  have hcount : (mc.rows.map (foundInAll q mc st imgs)).count true =
      (mc.rows.filter (foundInAll q mc st imgs)).length := by
    rw [List.count_eq_countP, List.countP_map, List.countP_eq_length_filter]
    congr 2
    funext s
    simp
  by_cases h0 : (mc.rows.filter (foundInAll q mc st imgs)).length = 0
  · rw [if_pos h0] at heq
    refine ⟨_, heq, rfl, rfl, fun k hk hkm => ?_, fun hm => ?_⟩
    · dsimp only
      split
      · simp [Store.set, hk, hkm]
      · simp [hk]
    · dsimp only
      cases hb : (st m).hasSid && (st m).det.isSome
      · simp only [hcount, h0, if_neg hm, Bool.false_eq_true, if_false, and_self, if_true]
      · simp only [if_true, Store.set, Bool.true_eq_false, and_false, if_false]
  · rw [if_neg h0] at heq
    obtain ⟨fl, hfl, _⟩ := mapM_ok
      (fun ks : ℕ × ℤ => fluxOf (if ks.1 ∈ imgs then newCat q mc (st ks.1) else st ks.1) ks.2)
      ((mc.rows.filter (foundInAll q mc st imgs)).flatMap fun s => imgs.map fun k => (k, s.sid))
      (fun _ _ => True) (by
        intro ks hks
        obtain ⟨s, h1, h2⟩ := List.mem_flatMap.1 hks
        obtain ⟨k, h3, rfl⟩ := List.mem_map.1 h2
        have hfd := (List.mem_filter.1 h1).2
        rw [foundInAll, List.all_eq_true] at hfd
        obtain ⟨f, hf⟩ := fluxOf_newCat_ok q mc (st k) s.sid (by simpa using hfd k h3)
        exact ⟨f, by simpa [h3] using hf, trivial⟩)
    rw [hfl] at heq
    refine ⟨_, heq, rfl, rfl, fun k hk hkm => by simp [Store.set, hk, hkm], fun hm => ?_⟩
    simp only [hcount, h0, false_and, if_false, Store.set, if_true]

/-- C19: on distinct images `transparency` returns one zero point per image counting the master;
with no common source they are all ones, the mean magnitudes are NaN and the master's catalogue is
left as it was, but for the `detected` column if it has one besides its `sourceid` column (from an
earlier call), which is set to false throughout. An empty list without a master raises IndexError. -/
theorem transparency_length (q : Query) (lsqr : ℕ → ℕ → List ℝ → ℕ → ℝ) (st : Store)
    (images : List ℕ) (master : Option ℕ) :
    (images = [] → master = none →
      transparency q lsqr st images master = .error .IndexError) ∧
    (∀ m imgs, splitMaster images master = .ok (m, imgs) → imgs.Nodup → m ∉ imgs →
      ∃ zps mm st' det, transparency q lsqr st images master = .ok (zps, mm, st') ∧
        zps.length = imgs.length + 1 ∧
        det = (withSid (st m)).rows.map (foundInAll q (withSid (st m)) st imgs) ∧
        ((∀ d ∈ det, d = false) → zps = List.replicate (imgs.length + 1) 1 ∧ mm = none ∧
          st' m = if (st m).hasSid && (st m).det.isSome then { st m with det := some det } else st m) ∧
        ((∃ d ∈ det, d = true) → ∃ l, mm = some l ∧ l.length = det.count true)) := by
  refine ⟨?_, ?_⟩
  · rintro rfl rfl
    rfl
  · intro m imgs hs hnd hm
    obtain ⟨r, h1, h2, h3, _, h5⟩ := trMatch_total q st images master m imgs hs hnd
    by_cases hc : r.det.count true = 0
    · refine ⟨List.replicate r.p 1, none, r.store, r.det, by simp [transparency, h1, hc],
        by simp [h2], h3, fun _ => ⟨by rw [h2], rfl, ?_⟩, ?_⟩
      · rw [h5 hm]
        cases hb : (st m).hasSid && (st m).det.isSome
        · simp [hc]
        · have hsid : (st m).hasSid = true := (Bool.and_eq_true _ _ ▸ hb).1
          simp only [Bool.true_eq_false, and_false, if_false, if_true]
          rw [withSid, if_pos hsid]
      rintro ⟨d, hd, rfl⟩
      exact absurd (List.count_pos_iff.2 hd) (by omega)
    · refine ⟨_, _, r.store, r.det, by simp only [transparency, h1, if_neg hc]; rfl,
        by simp [h2], h3, ?_, fun _ => ⟨_, rfl, by simp⟩⟩
      intro hall
      have hpos : 0 < r.det.count true := Nat.pos_of_ne_zero hc
      exact absurd (hall true (List.count_pos_iff.1 hpos)) (by simp)

example : (trMatch bruteQuery (fun k => ⟨[⟨10 * k, 0, 5, 0⟩], false, none⟩) [0, 1, 2] none).map
    (fun r => (r.p, r.det)) = .ok (3, [false]) := by decide +kernel

/-- A catalogue that was the master of an earlier call loses its detections, one that was not keeps none. -/
example : (trMatch bruteQuery (fun k => ⟨[⟨10 * k, 0, 5, 0⟩], true, some [true]⟩) [0, 1, 2] none).map
    (fun r => (r.store 0).det) = .ok (some [false]) ∧
  (trMatch bruteQuery (fun k => ⟨[⟨10 * k, 0, 5, 0⟩], true, none⟩) [0, 1, 2] none).map
    (fun r => (r.store 0).det) = .ok none := by decide +kernel

/-! ## C20 -/

theorem sqDist_comm : ∀ a b : Pt, sqDist a b = sqDist b a := by
  intro a
  unfold sqDist
  induction a with
  | nil => intro b; simp
  | cons x a ih =>
    intro b
    cases b with
    | nil => simp
    | cons y b =>
      simp only [List.zipWith_cons_cons, List.sum_cons, ih b]
      ring

/-- No point of either list is at the same distance from two points of the other. -/
def NoTies (M C : List Pt) : Prop :=
  (∀ c ∈ C, (M.map (sqDist c)).Nodup) ∧ (∀ m ∈ M, (C.map (sqDist m)).Nodup)

theorem nodup_map_strict {α : Type} (f : α → ℚ) (l : List α) (h : (l.map f).Nodup) (i j : ℕ)
    (a b : α) (ha : l[i]? = some a) (hb : l[j]? = some b) (hij : j ≠ i) (hle : f a ≤ f b) :
    f a < f b := by
  rcases lt_or_eq_of_le hle with h1 | h1
  · exact h1
  · exfalso
    have e1 : (l.map f)[i]? = some (f a) := by simp [ha]
    have e2 : (l.map f)[j]? = some (f b) := by simp [hb]
    rw [← h1] at e2
    have l1 := (List.getElem?_eq_some_iff.1 e1)
    have l2 := (List.getElem?_eq_some_iff.1 e2)
    exact hij ((List.Nodup.getElem_inj_iff h (hi := l2.1) (hj := l1.1)).1 (l2.2.trans l1.2.symm))

/-- Without ties, having a mutual neighbour is a property of the two point sets only. -/
theorem mutual_iff_geometry (q : Query) (hq : KdContract q) (M C : List Pt) (b : Bound)
    (hnt : NoTies M C) (o : ℕ) :
    (∃ i, MutualAt q M C b o i) ↔ ∃ mo ci, M[o]? = some mo ∧ ci ∈ C ∧
      ltBound (sqDist ci mo) b = true ∧ (∀ m ∈ M, sqDist ci mo ≤ sqDist ci m) ∧
      (∀ c ∈ C, sqDist mo ci ≤ sqDist mo c) := by
  constructor
  · rintro ⟨i, hi⟩
    obtain ⟨mo, ci, h1, h2, h3, h4, h5⟩ := mutual_geometry q hq M C b o i hi
    exact ⟨mo, ci, h1, List.mem_of_getElem? h2, h3, h4, h5⟩
  · rintro ⟨mo, ci, h1, h2, h3, h4, h5⟩
    obtain ⟨i, hi⟩ := List.mem_iff_getElem?.1 h2
    refine ⟨i, strict_neighbours_matched q hq M C b o i mo ci h1 hi h3
      (by rw [sqDist_comm]; exact h3) ?_ ?_⟩
    · intro k m hk hko
      exact nodup_map_strict (sqDist ci) M (hnt.1 ci h2) o k mo m h1 hk hko
        (h4 m (List.mem_of_getElem? hk))
    · intro k c hk hki
      exact nodup_map_strict (sqDist mo) C (hnt.2 mo (List.mem_of_getElem? h1)) i k ci c hi hk hki
        (h5 c (List.mem_of_getElem? hk))

theorem newCat_xy_perm (q : Query) (mc cat : Cat) : (newCat q mc cat).xy.Perm cat.xy := by
  unfold newCat Cat.xy
  refine ((List.perm_insertionSort _ _).map _).trans ?_
  have hl : (idsFor q mc cat).length = cat.rows.length := by
    rw [idsFor, matching_length]; simp [Cat.xy]
  have : (List.zipWith (fun (s : Src) v => { s with sid := v }) cat.rows (idsFor q mc cat)).map
      (fun s => [s.x, s.y]) = cat.rows.map fun s => [s.x, s.y] := by
    apply List.ext_getElem
    · simp [hl]
    · intro i h1 h2
      simp
  rw [this]

/-- C20, the part that holds: calling again with the same master gives the same detections
(catalogues without distance ties). -/
theorem transparency_repeat_same_master (q : Query) (hq : KdContract q) (st : Store)
    (images : List ℕ) (master : Option ℕ) (m : ℕ) (imgs : List ℕ)
    (hs : splitMaster images master = .ok (m, imgs)) (hnd : imgs.Nodup) (hm : m ∉ imgs)
    (hfresh : (st m).Fresh) (hnt : ∀ k ∈ imgs, NoTies (st m).xy (st k).xy) :
    ∃ r r', trMatch q st images master = .ok r ∧ trMatch q r.store images master = .ok r' ∧
      r'.det = r.det := by
  obtain ⟨r, h1, h2, h3, h4, h5⟩ := trMatch_total q st images master m imgs hs hnd
  obtain ⟨r', g1, _, g3, _, _⟩ := trMatch_total q r.store images master m imgs hs hnd
  refine ⟨r, r', h1, g1, ?_⟩
  have hrows : (withSid (r.store m)).rows = (withSid (st m)).rows := by
    rw [h5 hm]
    split
    · rfl
    · have : (withSid (st m)).hasSid = true := by
        unfold withSid; split
        · assumption
        · rfl
      conv_lhs => rw [withSid]
      simp [this]
  have hids : ∀ cat, idsFor q (withSid (r.store m)) cat = idsFor q (withSid (st m)) cat := by
    intro cat
    simp only [idsFor, Cat.xy, Cat.sids, hrows]
  rw [g3, h3, hrows]
  apply List.map_congr_left
  intro s hsm
  obtain ⟨o, ho⟩ := List.mem_iff_getElem?.1 hsm
  have hsid : s.sid = (o : ℤ) := by
    rw [withSid_fresh_getElem _ hfresh] at ho
    cases e : (st m).rows[o]? with
    | none => simp [e] at ho
    | some r => simp [e] at ho; rw [← ho]
  rw [Bool.eq_iff_iff, foundInAll, foundInAll, List.all_eq_true, List.all_eq_true]
  refine forall_congr' fun k => forall_congr' fun hk => ?_
  have hkm : k ≠ m := fun h => hm (h ▸ hk)
  rw [decide_eq_true_eq, decide_eq_true_eq, hids, h4 k hk hkm, hsid,
    mem_idsFor_iff q hq _ _ hfresh, mem_idsFor_iff q hq _ _ hfresh]
  have hp := newCat_xy_perm q (withSid (st m)) (st k)
  have hnt2 : NoTies (st m).xy (newCat q (withSid (st m)) (st k)).xy :=
    ⟨fun c hc => (hnt k hk).1 c (hp.mem_iff.1 hc),
      fun mm hmm => (hp.map _).nodup_iff.2 ((hnt k hk).2 mm hmm)⟩
  rw [mutual_iff_geometry q hq _ _ _ hnt2, mutual_iff_geometry q hq _ _ _ (hnt k hk)]
  simp only [hp.mem_iff]

/-- C20, the part that fails, in general: on a master whose `sourceid` column is left over from an
earlier call as a non-master, an unmatched source counts as detected as soon as every image has an
unmatched source. -/
theorem transparency_stale_detected (q : Query) (st : Store) (images : List ℕ)
    (master : Option ℕ) (m : ℕ) (imgs : List ℕ)
    (hs : splitMaster images master = .ok (m, imgs)) (hnd : imgs.Nodup)
    (hstale : (st m).hasSid = true) (o : ℕ) (s : Src) (ho : (st m).rows[o]? = some s)
    (hsid : s.sid = unmatchedId)
    (hun : ∀ k ∈ imgs, unmatchedId ∈ idsFor q (st m) (st k)) :
    ∃ r, trMatch q st images master = .ok r ∧ r.det[o]? = some true := by
  obtain ⟨r, h1, _, h3, _, _⟩ := trMatch_total q st images master m imgs hs hnd
  refine ⟨r, h1, ?_⟩
  have hw : withSid (st m) = st m := by simp [withSid, hstale]
  rw [h3, hw, List.getElem?_map, ho]
  simp only [Option.map_some, foundInAll]
  congr 1
  rw [List.all_eq_true]
  intro k hk
  rw [decide_eq_true_eq, hsid]
  exact hun k hk

/-- Image 0 has sources at (0,0) and (100,100), image 1 at (0,0) and (50,50). -/
def staleStore : Store := fun k =>
  if k = 0 then { rows := [⟨0, 0, 5, 0⟩, ⟨100, 100, 6, 0⟩], hasSid := false, det := none }
  else { rows := [⟨0, 0, 7, 0⟩, ⟨50, 50, 8, 0⟩], hasSid := false, det := none }

/-- C20, the witness: called with image 1 as master on fresh catalogues, one source is common; the
same call after `transparency([image 0, image 1])` reports two, pairing (50,50) with (100,100). -/
theorem transparency_stale_witness :
    ((trMatch bruteQuery staleStore [1, 0] none).map fun r => (r.det, r.fluxes)) =
        .ok ([true, false], [7, 5]) ∧
    ((trMatch bruteQuery staleStore [0, 1] none).bind fun r =>
      (trMatch bruteQuery r.store [1, 0] none).map fun r' => (r'.det, r'.fluxes)) =
        .ok ([true, true], [8, 7, 6, 5]) := by decide +kernel

/-! ## C21 -/

/-- C21: with a minimum-norm solver the zero points are `(S_j - T/(p+q))/q`, `S_j` and `T` being
sums of the right-hand sides the code wrote in block `j` and in all. -/
theorem transparency_closed_form (q : Query) (lsqr : ℕ → ℕ → List ℝ → ℕ → ℝ)
    (hl : MinLsqSolver lsqr) (st : Store) (images : List ℕ) (master : Option ℕ) (r : TrMatch)
    (hr : trMatch q st images master = .ok r) (hp : 0 < r.p) (n : ℕ)
    (hn : n = r.det.count true) (hpos : 0 < n) :
    ∃ zps mm, transparency q lsqr st images master = .ok (zps, mm, r.store) ∧
      zps = (List.range r.p).map fun j =>
        ((∑ i ∈ range n, vecOf (r.fluxes.map magOf) (j * n + i)) -
          (∑ c ∈ range (r.p * n), vecOf (r.fluxes.map magOf) c) / (r.p + n)) / n := by
  have hc : r.det.count true ≠ 0 := by omega
  refine ⟨_, _, by simp only [transparency, hr, if_neg hc]; rfl, ?_⟩
  subst hn
  apply List.map_congr_left
  intro j hj
  have hjp : j < r.p := by simpa using hj
  have := (isMinLsq_iff r.p _ hp hpos _ _).1 (hl r.p _ (r.fluxes.map magOf) hp hpos) j (by omega)
  rw [this, closedForm_zp _ _ _ _ hjp, sum_range_block]
  rfl

/-- C21, two images: both zero points in closed form, from the magnitudes of the common sources. -/
theorem transparency_two_closed_form (q : Query) (hq : KdContract q)
    (lsqr : ℕ → ℕ → List ℝ → ℕ → ℝ) (hl : MinLsqSolver lsqr) (st : Store) (m k : ℕ)
    (hfresh : (st m).Fresh) :
    ∃ (D : List ℕ) (a b : ℕ → ℚ) (zps : List ℝ) (mm : Option (List ℝ)) (st' : Store),
      transparency q lsqr st [m, k] none = .ok (zps, mm, st') ∧
      (∀ o : ℕ, o ∈ D ↔ o < (st m).rows.length ∧
        ∃ i, MutualAt q (st m).xy (st k).xy radius2 o i) ∧ D.Pairwise (· < ·) ∧
      (∀ s o : ℕ, D[s]? = some o → ((st m).rows[o]?).map (·.flux) = some (a s) ∧
        ∃ i, MutualAt q (st m).xy (st k).xy radius2 o i ∧
          ((st k).rows[i]?).map (·.flux) = some (b s)) ∧
      (D ≠ [] → ∀ S0 S1 : ℝ, S0 = ∑ s ∈ range D.length, magOf (a s) →
        S1 = ∑ s ∈ range D.length, magOf (b s) →
        zps = [(S0 - (S0 + S1) / (2 + D.length)) / D.length,
               (S1 - (S0 + S1) / (2 + D.length)) / D.length]) := by
  obtain ⟨D, a, b, zps, mm, st', h1, h2, h3, h4, h5⟩ := transparency_two q hq lsqr st m k hfresh
  refine ⟨D, a, b, zps, mm, st', h1, h2, h3, h4, fun hD S0 S1 hS0 hS1 => ?_⟩
  have hpos : 0 < D.length := List.length_pos_iff.2 hD
  rw [h5 hD]
  set F : ℕ → ℕ → ℚ := fun j => if j = 0 then a else b with hF
  have hmin := (isMinLsq_iff 2 _ (by omega) hpos _ _).1
    (hl 2 _ ((rhsList 2 D.length F).map magOf) (by omega) hpos)
  have hT : totalSum 2 D.length (vecOf ((rhsList 2 D.length F).map magOf)) = S0 + S1 := by
    unfold totalSum
    rw [sum_range_succ, sum_range_one, blockSum_two _ _ 0 (by omega),
      blockSum_two _ _ 1 (by omega), hS0, hS1]
    rfl
  rw [hmin 0 (by omega), hmin 1 (by omega), closedForm_zp _ _ _ _ (by omega),
    closedForm_zp _ _ _ _ (by omega), hT, blockSum_two _ _ 0 (by omega),
    blockSum_two _ _ 1 (by omega)]
  have hF0 : F 0 = a := rfl
  have hF1 : F 1 = b := rfl
  rw [hF0, hF1, ← hS0, ← hS1]
  push_cast
  rfl

/-- C17: the offset recovered is minus 2.5 times the decimal logarithm of the flux ratio. -/
theorem magOf_ratio (a r : ℚ) (ha : 0 < a) (hr : 0 < r) : magOf (r * a) - magOf a = -(5 / 2) * Real.logb 10 (r : ℝ) := by
  unfold magOf
  push_cast
  rw [Real.logb_mul (by exact_mod_cast hr.ne') (by exact_mod_cast ha.ne')]
  ring

theorem magOf_pow10 (n : ℕ) : magOf ((10 : ℚ) ^ n) = -(5 / 2) * n + 20 := by
  unfold magOf
  push_cast
  rw [Real.logb_pow, Real.logb_self_eq_one (by norm_num)]
  ring

/-- C21: with a source 100 times brighter in the new image the starting scale `zp_new/zp_ref` of
`subtract` is −2. -/
theorem transparency_ratio_not_flux_ratio (lsqr : ℕ → ℕ → List ℝ → ℕ → ℝ)
    (hl : MinLsqSolver lsqr) :
    ∃ z0 z1 mm st', transparency bruteQuery lsqr twoStore [0, 1] none = .ok ([z0, z1], mm, st') ∧
      z0 = 5 / 3 ∧ z1 = -10 / 3 ∧ z1 / z0 = -2 := by
  obtain ⟨r, hr, h1, h2⟩ : ∃ r, trMatch bruteQuery twoStore [0, 1] none = .ok r ∧
      (r.p, r.det, r.fluxes) = (2, [true, false], [100000000, 10000000000]) ∧ True := by
    have h : (trMatch bruteQuery twoStore [0, 1] none).map (fun r => (r.p, r.det, r.fluxes)) =
      .ok (2, [true, false], [100000000, 10000000000]) := by decide +kernel
    cases e : trMatch bruteQuery twoStore [0, 1] none with
    | error err => rw [e] at h; cases h
    | ok r => rw [e] at h; exact ⟨r, rfl, Except.ok.inj h, trivial⟩
  simp only [Prod.mk.injEq] at h1
  obtain ⟨hp, hd, hf⟩ := h1
  obtain ⟨zps, mm, hz, hzps⟩ := transparency_closed_form bruteQuery lsqr hl twoStore [0, 1] none r
    hr (by omega) 1 (by rw [hd]; rfl) (by omega)
  have m8 : magOf 100000000 = 0 := by
    have := magOf_pow10 8
    norm_num at this
    exact this
  have m10 : magOf 10000000000 = -5 := by
    have := magOf_pow10 10
    norm_num at this
    exact this
  rw [hp, hf] at hzps
  have e : zps = [5 / 3, -10 / 3] := by
    rw [hzps]
    simp [List.range_succ, sum_range_succ, vecOf, m8, m10]
    norm_num
  rw [e] at hz
  exact ⟨_, _, mm, r.store, hz, rfl, rfl, by norm_num⟩

/-! ### Identical images -/

theorem sqDist_self2 (x y : ℚ) : sqDist [x, y] [x, y] = 0 := by simp [sqDist]

theorem sqDist_two (x y x' y' : ℚ) : sqDist [x, y] [x', y'] = (x - x') ^ 2 + (y - y') ^ 2 := by
  simp [sqDist]

theorem sqDist_pos2 (x y x' y' : ℚ) (h : [x, y] ≠ [x', y']) :
    0 < sqDist [x, y] [x', y'] := by
  rw [sqDist_two]
  by_contra hc
  have h1 : (x - x') ^ 2 = 0 := by nlinarith [sq_nonneg (x - x'), sq_nonneg (y - y')]
  have h2 : (y - y') ^ 2 = 0 := by nlinarith [sq_nonneg (x - x'), sq_nonneg (y - y')]
  apply h
  rw [sub_eq_zero.1 (pow_eq_zero_iff two_ne_zero |>.1 h1),
    sub_eq_zero.1 (pow_eq_zero_iff two_ne_zero |>.1 h2)]

/-- On two lists with the same, pairwise distinct, positions every row is its own partner. -/
theorem identical_mutual (q : Query) (hq : KdContract q) (c c' : Cat) (hxy : c'.xy = c.xy)
    (hnd : c.xy.Nodup) (o : ℕ) (ho : o < c.rows.length) :
    MutualAt q c.xy c'.xy radius2 o o := by
  have hlen : c.xy.length = c.rows.length := by simp [Cat.xy]
  have hshape : ∀ p ∈ c.xy, ∃ x y, p = [x, y] := by
    intro p hp
    obtain ⟨s, _, rfl⟩ := List.mem_map.1 hp
    exact ⟨s.x, s.y, rfl⟩
  rw [hxy]
  have hget : c.xy[o]? = some (c.xy[o]'(by omega)) := List.getElem?_eq_getElem _
  set P := c.xy[o]'(by omega) with hP
  obtain ⟨x, y, hPxy⟩ := hshape P (List.getElem_mem _)
  have hstrict : ∀ k m, c.xy[k]? = some m → k ≠ o → sqDist P P < sqDist P m := by
    intro k m hk hko
    obtain ⟨x', y', hm⟩ := hshape m (List.mem_of_getElem? hk)
    have hne : P ≠ m := by
      intro he
      have l1 := List.getElem?_eq_some_iff.1 hget
      have l2 := List.getElem?_eq_some_iff.1 hk
      exact hko ((List.Nodup.getElem_inj_iff hnd (hi := l2.1) (hj := l1.1)).1
        (by rw [l2.2, l1.2, he]))
    rw [hPxy, hm, sqDist_self2]
    exact sqDist_pos2 _ _ _ _ (by rw [← hPxy, ← hm]; exact hne)
  have hb : ltBound (sqDist P P) radius2 = true := by
    rw [hPxy, sqDist_self2]; decide +kernel
  exact strict_neighbours_matched q hq _ _ _ o o P P hget hget hb hb hstrict hstrict

/-- C21: two images with the same catalogue (distinct positions) get equal zero points, namely
`S/(n+2)` each, `S` the sum of the `n` magnitudes; so the starting scale is 1 when `S ≠ 0`. -/
theorem transparency_identical_images (q : Query) (hq : KdContract q)
    (lsqr : ℕ → ℕ → List ℝ → ℕ → ℝ) (hl : MinLsqSolver lsqr) (st : Store) (m k : ℕ)
    (hfresh : (st m).Fresh) (hrows : (st k).rows = (st m).rows) (hne : (st m).rows ≠ [])
    (hnd : (st m).xy.Nodup) :
    ∃ z mm st', transparency q lsqr st [m, k] none = .ok ([z, z], mm, st') ∧
      z = ((st m).rows.map fun s => magOf s.flux).sum / ((st m).rows.length + 2) ∧
      (((st m).rows.map fun s => magOf s.flux).sum ≠ 0 → z / z = 1) := by
  obtain ⟨D, a, b, zps, mm, st', h1, h2, h3, h4, h5⟩ :=
    transparency_two_closed_form q hq lsqr hl st m k hfresh
  have hxy : (st k).xy = (st m).xy := by simp [Cat.xy, hrows]
  have hmut := identical_mutual q hq (st m) (st k) hxy hnd
  have hDmem : ∀ o, o ∈ D ↔ o < (st m).rows.length := by
    intro o
    rw [h2]
    exact ⟨fun h => h.1, fun h => ⟨h, o, hmut o h⟩⟩
  have hDr : D = List.range (st m).rows.length := by
    apply List.Perm.eq_of_pairwise (le := (· < ·))
    · intro x y _ _ hxy hyx; omega
    · exact h3
    · exact List.pairwise_lt_range
    · refine (List.perm_ext_iff_of_nodup (h3.imp fun h => Nat.ne_of_lt h) List.nodup_range).2 ?_
      intro o
      rw [hDmem]; simp
  have hlen : D.length = (st m).rows.length := by rw [hDr]; simp
  have hpos : 0 < (st m).rows.length := List.length_pos_iff.2 hne
  have hDne : D ≠ [] := List.length_pos_iff.1 (by omega)
  have hDget : ∀ s, s < (st m).rows.length → D[s]? = some s := by
    intro s hs; rw [hDr]; simp [hs]
  have ha : ∀ s (hs : s < (st m).rows.length), a s = ((st m).rows[s]).flux := by
    intro s hs
    have := (h4 s s (hDget s hs)).1
    rw [List.getElem?_eq_getElem hs] at this
    simpa using this.symm
  have hb : ∀ s (hs : s < (st m).rows.length), b s = ((st m).rows[s]).flux := by
    intro s hs
    obtain ⟨i, hi, hfl⟩ := (h4 s s (hDget s hs)).2
    have : s = i := ((mutual_unique q _ _ _ s s s i (hmut s hs) hi).1 rfl)
    subst this
    rw [hrows, List.getElem?_eq_getElem hs] at hfl
    simpa using hfl.symm
  have hsum : ∀ f : ℕ → ℚ, (∀ s (hs : s < (st m).rows.length), f s = ((st m).rows[s]).flux) →
      ∑ s ∈ range D.length, magOf (f s) = ((st m).rows.map fun s => magOf s.flux).sum := by
    intro f hf
    rw [hlen, sum_range_list]
    congr 1
    apply List.ext_getElem
    · simp
    · intro i h1 h2
      have hi : i < (st m).rows.length := by simpa using h2
      simp [hf i hi]
  have hz := h5 hDne _ _ rfl rfl
  rw [hsum a ha, hsum b hb, hlen] at hz
  set S := ((st m).rows.map fun s => magOf s.flux).sum with hS
  have hn : ((st m).rows.length : ℝ) ≠ 0 := by positivity
  have hn2 : ((st m).rows.length : ℝ) + 2 ≠ 0 := by positivity
  have hn3 : 2 + ((st m).rows.length : ℝ) ≠ 0 := by positivity
  have e : (S - (S + S) / (2 + ((st m).rows.length : ℝ))) / (st m).rows.length =
      S / ((st m).rows.length + 2) := by
    field_simp
    ring
  rw [e] at hz
  subst hz
  exact ⟨_, mm, st', h1, rfl, fun h => div_self (div_ne_zero h hn2)⟩

example : transparency bruteQuery (fun p n m => closedForm p n (vecOf m))
    (fun _ => ⟨[⟨1, 2, 10, 0⟩], false, none⟩) [0, 1] none ≠ .error .IndexError := by
  obtain ⟨z, mm, st', h, _⟩ := transparency_identical_images bruteQuery bruteQuery_contract _
    minLsqSolver_exists (fun _ => ⟨[⟨1, 2, 10, 0⟩], false, none⟩) 0 1 rfl rfl (by simp)
    (by simp [Cat.xy])
  rw [h]
  simp

end PI
