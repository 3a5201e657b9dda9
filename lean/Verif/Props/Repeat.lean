import Verif.Props.StarLists
import Verif.Model.Repeat
import Verif.Props.StampsMore

/-!
# Property C186: subtracting the same two images again
-/

namespace PI

open Finset

/-! ## A master catalogue whose stars carry other numbers -/

/-- A master catalogue left by an earlier call: its stars carry distinct numbers, none of them −13133. -/
structure Cat.Numbered (c : Cat) : Prop where
  has : c.hasSid = true
  nodup : c.sids.Nodup
  un : unmatchedId ∉ c.sids

theorem mem_idsFor_numbered (q : Query) (hq : KdContract q) (c cat : Cat) (hc : c.Numbered) (o : ℕ) (s : Src)
    (hs : c.rows[o]? = some s) : s.sid ∈ idsFor q c cat ↔ ∃ i, MutualAt q c.xy cat.xy radius2 o i := by
  have hlen := sids_length c
  have hso : c.sids[o]? = some s.sid := by unfold Cat.sids; rw [List.getElem?_map, hs]; rfl
  have hne : s.sid ≠ unmatchedId := fun h => hc.un (h ▸ List.mem_of_getElem? hso)
  constructor
  · intro h
    obtain ⟨i, hi⟩ := List.mem_iff_getElem?.1 h
    have hil : i < cat.xy.length := by
      have := (List.getElem?_eq_some_iff.1 hi).1
      rwa [idsFor, matching_length] at this
    obtain ⟨o', h1, h2⟩ := (matching_iff_mutual q hq _ _ hlen hc.un cat.xy radius2 i hil s.sid).1 ⟨hi, hne⟩
    obtain rfl : o' = o := by
      obtain ⟨l1, e1⟩ := List.getElem?_eq_some_iff.1 h2
      obtain ⟨l2, e2⟩ := List.getElem?_eq_some_iff.1 hso
      exact (List.Nodup.getElem_inj_iff hc.nodup).1 (e1.trans e2.symm)
    exact ⟨i, h1⟩
  · rintro ⟨i, hi⟩
    have hil : i < cat.xy.length := by
      obtain ⟨_, ci, _, h, _⟩ := hi
      exact (List.getElem?_eq_some_iff.1 h).1
    exact List.mem_of_getElem? ((matching_iff_mutual q hq _ _ hlen hc.un cat.xy radius2 i hil s.sid).2 ⟨o, hi, hso⟩).1

theorem fluxOf_numbered (q : Query) (hq : KdContract q) (c cat : Cat) (hc : c.Numbered) (o i : ℕ) (s row : Src)
    (hs : c.rows[o]? = some s) (hm : MutualAt q c.xy cat.xy radius2 o i) (hr : cat.rows[i]? = some row) :
    fluxOf (newCat q c cat) s.sid = .ok row.flux := by
  have hlen := sids_length c
  have hso : c.sids[o]? = some s.sid := by unfold Cat.sids; rw [List.getElem?_map, hs]; rfl
  have hne : s.sid ≠ unmatchedId := fun h => hc.un (h ▸ List.mem_of_getElem? hso)
  set L := List.zipWith (fun (s : Src) v => { s with sid := v }) cat.rows (idsFor q c cat) with hL
  have hperm : ((newCat q c cat).rows.filter fun t => t.sid = s.sid).Perm (L.filter fun t => t.sid = s.sid) :=
    (List.perm_insertionSort _ L).filter _
  have key : ∀ t ∈ L.filter (fun t => t.sid = s.sid), t.flux = row.flux := by
    intro t ht
    obtain ⟨ht1, ht2⟩ := List.mem_filter.1 ht
    have ht2 : t.sid = s.sid := by simpa using ht2
    obtain ⟨j, hj⟩ := List.mem_iff_getElem?.1 ht1
    rw [hL, List.getElem?_zipWith] at hj
    have : ∃ r, cat.rows[j]? = some r ∧ ∃ v, (idsFor q c cat)[j]? = some v ∧ t = { r with sid := v } := by
      cases e1 : cat.rows[j]? with
      | none => simp [e1] at hj
      | some r =>
        cases e2 : (idsFor q c cat)[j]? with
        | none => simp [e1, e2] at hj
        | some v => simp [e1, e2] at hj; exact ⟨r, rfl, v, rfl, hj.symm⟩
    obtain ⟨r, hr1, v, hv, rfl⟩ := this
    have hv' : v = s.sid := ht2
    subst hv'
    have hjl : j < cat.xy.length := by
      have := (List.getElem?_eq_some_iff.1 hr1).1
      simpa [Cat.xy] using this
    obtain ⟨o', h1, h2⟩ := (matching_iff_mutual q hq _ _ hlen hc.un cat.xy radius2 j hjl s.sid).1 ⟨hv, hne⟩
    obtain rfl : o' = o := by
      obtain ⟨l1, e1⟩ := List.getElem?_eq_some_iff.1 h2
      obtain ⟨l2, e2⟩ := List.getElem?_eq_some_iff.1 hso
      exact (List.Nodup.getElem_inj_iff hc.nodup).1 (e1.trans e2.symm)
    obtain rfl := (mutual_unique q _ _ _ _ _ _ _ h1 hm).1 rfl
    rw [hr] at hr1
    obtain rfl := Option.some.inj hr1
    rfl
  obtain ⟨v, hv⟩ := fluxOf_newCat_ok q c cat s.sid ((mem_idsFor_numbered q hq c cat hc o s hs).2 ⟨i, hm⟩)
  unfold fluxOf at hv ⊢
  cases hf : (newCat q c cat).rows.filter (fun t => t.sid = s.sid) with
  | nil => rw [hf] at hv; simp at hv
  | cons t _ =>
    simp only
    rw [key t (hperm.mem_iff.1 (by rw [hf]; exact List.mem_cons_self))]

/-- What a row says about its star, its number left out. -/
def Src.key (s : Src) : ℚ × ℚ × ℚ := (s.x, s.y, s.flux)

theorem withSid_numbered (c : Cat) (hc : c.Fresh) : (withSid c).Numbered := by
  refine ⟨?_, ?_, fresh_unmatched c hc⟩
  · unfold withSid
    rw [hc]
    rfl
  · rw [List.nodup_iff_getElem?_ne_getElem?]
    intro i j hij hj e
    have hj' : j < c.rows.length := by simpa [Cat.sids, withSid_length] using hj
    rw [withSid_fresh_sids c hc, withSid_fresh_sids c hc, if_pos hj', if_pos (by omega)] at e
    have := Option.some.inj e
    omega

theorem withSid_keys (c : Cat) : (withSid c).rows.map Src.key = c.rows.map Src.key := by
  unfold withSid
  split
  · rfl
  · apply List.ext_getElem?
    intro i
    simp [Function.comp_def, Src.key]
    rfl

theorem keys_xy (c : Cat) : c.xy = (c.rows.map Src.key).map fun k => [k.1, k.2.1] := by
  unfold Cat.xy
  rw [List.map_map]
  rfl

/-- Image `k` shows the same stars in two stores, in another order perhaps, and they match the master's stars in the
same way. -/
def SameMatches (q : Query) (M : List Pt) (c d : Cat) : Prop :=
  ∃ τ : Equiv.Perm ℕ, (∀ o i, MutualAt q M d.xy radius2 o i ↔ MutualAt q M c.xy radius2 o (τ i)) ∧
    ∀ i, (d.rows[i]?).map (·.flux) = (c.rows[τ i]?).map (·.flux)

/-- The matching stage reads the numbers of the master's stars only to tell the stars apart, and the other lists in any
order. -/
theorem trMatch_numbers (q : Query) (hq : KdContract q) (st st' : Store) (images : List ℕ) (master : Option ℕ) (m : ℕ)
    (imgs : List ℕ) (hs : splitMaster images master = .ok (m, imgs)) (hnd : imgs.Nodup)
    (hk : ∀ k ∈ imgs, SameMatches q (st m).xy (st k) (st' k)) (hc : (withSid (st m)).Numbered) (hc' : (withSid (st' m)).Numbered)
    (hkey : (st m).rows.map Src.key = (st' m).rows.map Src.key) :
    ∃ r r', trMatch q st images master = .ok r ∧ trMatch q st' images master = .ok r' ∧ r.p = r'.p ∧ r.det = r'.det ∧
      r.fluxes = r'.fluxes := by
  have e1 := trMatch_eq q st images master m imgs hs hnd
  have e2 := trMatch_eq q st' images master m imgs hs hnd
  simp only at e1 e2
  set c := withSid (st m) with hcd
  set c' := withSid (st' m) with hcd'
  have hkc : c.rows.map Src.key = c'.rows.map Src.key := by rw [hcd, hcd', withSid_keys, withSid_keys, hkey]
  have hxy : c.xy = c'.xy := by rw [keys_xy, keys_xy, hkc]
  have hcx : c.xy = (st m).xy := withSid_xy _
  have hlen : c.rows.length = c'.rows.length := by simpa using congrArg List.length hkc
  let d : Src := ⟨0, 0, 0, 0⟩
  let Z := List.range c.rows.length
  have hr : c.rows = Z.map fun o => c.rows.getD o d := by
    apply List.ext_getElem
    · simp [Z]
    · intro i h1 h2
      simp [Z, h1]
  have hr' : c'.rows = Z.map fun o => c'.rows.getD o d := by
    apply List.ext_getElem
    · simp [Z, hlen]
    · intro i h1 h2
      simp [Z, h1]
  have get : ∀ o ∈ Z, c.rows[o]? = some (c.rows.getD o d) ∧ c'.rows[o]? = some (c'.rows.getD o d) ∧
      (c.rows.getD o d).flux = (c'.rows.getD o d).flux := by
    intro o ho
    have ho1 : o < c.rows.length := by simpa [Z] using ho
    have ho2 : o < c'.rows.length := by omega
    have g1 : c.rows[o]? = some (c.rows.getD o d) := by simp [ho1]
    have g2 : c'.rows[o]? = some (c'.rows.getD o d) := by simp [ho2]
    refine ⟨g1, g2, ?_⟩
    have := congrArg (fun l => l[o]?) hkc
    simp only [List.getElem?_map, g1, g2, Option.map_some] at this
    have := Option.some.inj this
    exact congrArg (fun k => k.2.2) this
  have hfound : ∀ o ∈ Z, foundInAll q c st imgs (c.rows.getD o d) = foundInAll q c' st' imgs (c'.rows.getD o d) := by
    intro o ho
    obtain ⟨g1, g2, _⟩ := get o ho
    unfold foundInAll
    rw [Bool.eq_iff_iff, List.all_eq_true, List.all_eq_true]
    refine forall_congr' fun k => forall_congr' fun hkm => ?_
    rw [decide_eq_true_iff, decide_eq_true_iff, mem_idsFor_numbered q hq c _ hc o _ g1,
      mem_idsFor_numbered q hq c' _ hc' o _ g2, ← hxy, hcx]
    obtain ⟨τ, hτ, _⟩ := hk k hkm
    constructor
    · rintro ⟨i, hi⟩
      exact ⟨τ.symm i, (hτ o _).2 (by rwa [Equiv.apply_symm_apply])⟩
    · rintro ⟨i, hi⟩
      exact ⟨τ i, (hτ o i).1 hi⟩
  set f := fun o => foundInAll q c st imgs (c.rows.getD o d) with hf
  have hdet : c.rows.map (foundInAll q c st imgs) = c'.rows.map (foundInAll q c' st' imgs) := by
    conv_lhs => rw [hr]
    conv_rhs => rw [hr']
    rw [List.map_map, List.map_map]
    exact List.map_congr_left fun o ho => hfound o ho
  have hsel : c.rows.filter (foundInAll q c st imgs) = (Z.filter f).map fun o => c.rows.getD o d := by
    conv_lhs => rw [hr]
    rw [List.filter_map]
    rfl
  have hsel' : c'.rows.filter (foundInAll q c' st' imgs) = (Z.filter f).map fun o => c'.rows.getD o d := by
    conv_lhs => rw [hr']
    rw [List.filter_map]
    congr 1
    exact List.filter_congr fun o ho => (hfound o ho).symm
  rw [hsel] at e1
  rw [hsel'] at e2
  rw [List.length_map] at e1 e2
  by_cases h0 : (Z.filter f).length = 0
  · rw [if_pos h0] at e1 e2
    exact ⟨_, _, e1, e2, rfl, hdet, rfl⟩
  · rw [if_neg h0] at e1 e2
    -- the flux looked up for star `o` in image `k`
    have hflux : ∀ o ∈ Z.filter f, ∀ k ∈ imgs, ∃ v : ℚ, fluxOf (newCat q c (st k)) (c.rows.getD o d).sid = .ok v ∧
        fluxOf (newCat q c' (st' k)) (c'.rows.getD o d).sid = .ok v := by
      intro o ho k hkm
      obtain ⟨hoZ, hof⟩ := List.mem_filter.1 ho
      obtain ⟨g1, g2, _⟩ := get o hoZ
      rw [hf] at hof
      simp only [foundInAll, List.all_eq_true, decide_eq_true_eq] at hof
      obtain ⟨i, hi⟩ := (mem_idsFor_numbered q hq c _ hc o _ g1).1 (hof k hkm)
      have hil : i < (st k).rows.length := by
        obtain ⟨_, ci, _, h, _⟩ := hi
        have := (List.getElem?_eq_some_iff.1 h).1
        simpa [Cat.xy] using this
      refine ⟨((st k).rows[i]).flux, fluxOf_numbered q hq c _ hc o i _ _ g1 hi (List.getElem?_eq_getElem hil), ?_⟩
      obtain ⟨τ, hτ, hfl⟩ := hk k hkm
      have hj := (hτ o (τ.symm i)).2 (by rw [Equiv.apply_symm_apply, ← hcx]; exact hi)
      have hjf := hfl (τ.symm i)
      rw [Equiv.apply_symm_apply, List.getElem?_eq_getElem hil, Option.map_some, Option.map_eq_some_iff] at hjf
      obtain ⟨row, hrow, hrf⟩ := hjf
      rw [← hcx, hxy] at hj
      rw [← hrf]
      exact fluxOf_numbered q hq c' _ hc' o _ _ _ g2 hj hrow
    choose! v hv hv' using hflux
    have m1 : ((((Z.filter f).map fun o => c.rows.getD o d).flatMap fun s => imgs.map fun k => (k, s.sid)).mapM
        fun ks : ℕ × ℤ => fluxOf (if ks.1 ∈ imgs then newCat q c (st ks.1) else st ks.1) ks.2) =
        .ok ((Z.filter f).flatMap fun o => imgs.map fun k => v o k) := by
      rw [mapM_ok_map _ (fun ks : ℕ × ℤ => ((fluxOf (if ks.1 ∈ imgs then newCat q c (st ks.1) else st ks.1) ks.2).toOption.getD 0))]
      · congr 1
        rw [List.map_flatMap, List.flatMap_map]
        refine List.flatMap_congr fun o ho => ?_
        rw [List.map_map]
        refine List.map_congr_left fun k hkm => ?_
        simp only [Function.comp_apply, if_pos hkm, hv o ho k hkm]
        rfl
      · intro ks hks
        obtain ⟨s, h1, h2⟩ := List.mem_flatMap.1 hks
        obtain ⟨o, ho, rfl⟩ := List.mem_map.1 h1
        obtain ⟨k, h3, rfl⟩ := List.mem_map.1 h2
        simp only [if_pos h3, hv o ho k h3]
        rfl
    have m2 : ((((Z.filter f).map fun o => c'.rows.getD o d).flatMap fun s => imgs.map fun k => (k, s.sid)).mapM
        fun ks : ℕ × ℤ => fluxOf (if ks.1 ∈ imgs then newCat q c' (st' ks.1) else st' ks.1) ks.2) =
        .ok ((Z.filter f).flatMap fun o => imgs.map fun k => v o k) := by
      rw [mapM_ok_map _ (fun ks : ℕ × ℤ => ((fluxOf (if ks.1 ∈ imgs then newCat q c' (st' ks.1) else st' ks.1) ks.2).toOption.getD 0))]
      · congr 1
        rw [List.map_flatMap, List.flatMap_map]
        refine List.flatMap_congr fun o ho => ?_
        rw [List.map_map]
        refine List.map_congr_left fun k hkm => ?_
        simp only [Function.comp_apply, if_pos hkm, hv' o ho k hkm]
        rfl
      · intro ks hks
        obtain ⟨s, h1, h2⟩ := List.mem_flatMap.1 hks
        obtain ⟨o, ho, rfl⟩ := List.mem_map.1 h1
        obtain ⟨k, h3, rfl⟩ := List.mem_map.1 h2
        simp only [if_pos h3, hv' o ho k h3]
        rfl
    rw [m1] at e1
    rw [m2] at e2
    refine ⟨_, _, e1, e2, rfl, hdet, ?_⟩
    simp only [List.map_map]
    congr 1
    refine List.map_congr_left fun o ho => ?_
    exact (get o (List.mem_filter.1 ho).1).2.2

/-! ## Lists in another order -/

/-- Keep 0 in its place and move the others by `σ`. -/
def shiftPerm (σ : Equiv.Perm ℕ) : Equiv.Perm ℕ where
  toFun i := match i with
    | 0 => 0
    | i + 1 => σ i + 1
  invFun i := match i with
    | 0 => 0
    | i + 1 => σ.symm i + 1
  left_inv i := by cases i <;> simp
  right_inv i := by cases i <;> simp

theorem perm_order {α : Type} {l l' : List α} (h : l.Perm l') : ∃ σ : Equiv.Perm ℕ, ∀ i, l'[i]? = l[σ i]? := by
  induction h with
  | nil => exact ⟨1, fun i => rfl⟩
  | cons x _ ih =>
    obtain ⟨σ, hσ⟩ := ih
    refine ⟨shiftPerm σ, fun i => ?_⟩
    cases i with
    | zero => rfl
    | succ i => exact hσ i
  | swap x y l =>
    refine ⟨Equiv.swap 0 1, fun i => ?_⟩
    match i with
    | 0 => rw [Equiv.swap_apply_left]; rfl
    | 1 => rw [Equiv.swap_apply_right]; rfl
    | i + 2 => rw [Equiv.swap_apply_of_ne_of_ne (by omega) (by omega)]; rfl
  | trans _ _ ih1 ih2 =>
    obtain ⟨σ, hσ⟩ := ih1
    obtain ⟨τ, hτ⟩ := ih2
    exact ⟨τ.trans σ, fun i => by rw [hτ, hσ]; rfl⟩

/-- The same stars in any order, whatever numbers they carry. -/
def Cat.SameKeys (c d : Cat) : Prop := (c.rows.map Src.key).Perm (d.rows.map Src.key)

theorem sameKeys_moved (c d : Cat) (h : c.SameKeys d) : ∃ σ, MovedCat id σ c d := by
  obtain ⟨σ, hσ⟩ := perm_order h
  refine ⟨σ, fun i => ?_, fun i => ?_⟩
  · rw [keys_xy c, keys_xy d, List.getElem?_map, hσ i, Option.map_id, id, List.getElem?_map (l := c.rows.map Src.key)]
  · have := congrArg (Option.map fun k => k.2.2) (hσ i)
    rw [List.getElem?_map, List.getElem?_map, Option.map_map, Option.map_map] at this
    exact this

/-- A master catalogue that can be numbered or is numbered already. -/
def Cat.Ready (c : Cat) : Prop := c.Fresh ∨ c.Numbered

theorem Cat.Ready.numbered {c : Cat} (h : c.Ready) : (withSid c).Numbered := by
  rcases h with h | h
  · exact withSid_numbered c h
  · unfold withSid
    rw [if_pos h.has]
    exact h

/-- C186: the zero points of two images depend on the stars of the two catalogues only: not on their order, not on the
numbers that earlier calls gave them. -/
theorem transparency_same_stars (q : Query) (hq : KdContract q) (lsqr : ℕ → ℕ → List ℝ → ℕ → ℝ) (hl : MinLsqSolver lsqr)
    (st st' : Store) (m k : ℕ) (hm : (st m).Ready) (hm' : (st' m).Ready) (hM : (st m).SameKeys (st' m))
    (hK : (st k).SameKeys (st' k)) (hnt : NoTies (st m).xy (st k).xy) (hmk : m ≠ k) :
    ∃ zps mm mm' s s', transparency q lsqr st [m, k] none = .ok (zps, mm, s) ∧
      transparency q lsqr st' [m, k] none = .ok (zps, mm', s') := by
  let F : Store → Store := fun st => st.set m { st m with hasSid := false }
  have hF : ∀ st : Store, (st m).Ready → ∀ zps mm s, transparency q lsqr (F st) [m, k] none = .ok (zps, mm, s) →
      ∃ s', transparency q lsqr st [m, k] none = .ok (zps, mm, s') := by
    intro st hr zps mm s h
    have hFm : F st m = { st m with hasSid := false } := by simp [F, Store.set]
    have hFk : F st k = st k := by simp [F, Store.set, hmk.symm]
    obtain ⟨r, r', e1, e2, e3, e4, e5⟩ := trMatch_numbers q hq st (F st) [m, k] none m [k] rfl (by simp)
      (by intro j hj; rw [List.mem_singleton.1 hj, hFk]; exact ⟨1, fun _ _ => Iff.rfl, fun _ => rfl⟩) hr.numbered
      (withSid_numbered _ (by rw [hFm]; rfl)) (by rw [hFm])
    unfold transparency at h ⊢
    rw [e2] at h
    rw [e1]
    simp only [e3, e4, e5] at h ⊢
    split at h
    · rename_i h0
      rw [if_pos h0]
      have h := Except.ok.inj h
      simp only [Prod.mk.injEq] at h
      obtain ⟨rfl, rfl, _⟩ := h
      exact ⟨_, rfl⟩
    · rename_i h0
      rw [if_neg h0]
      have h := Except.ok.inj h
      simp only [Prod.mk.injEq] at h
      obtain ⟨rfl, rfl, _⟩ := h
      exact ⟨_, rfl⟩
  have hFm : ∀ st : Store, F st m = { st m with hasSid := false } := fun st => by simp [F, Store.set]
  have hFk : ∀ st : Store, F st k = st k := fun st => by simp [F, Store.set, hmk.symm]
  obtain ⟨σ, hσ⟩ := sameKeys_moved (F st m) (F st' m) (by rw [hFm, hFm]; exact hM)
  obtain ⟨τ, hτ⟩ := sameKeys_moved (F st k) (F st' k) (by rw [hFk, hFk]; exact hK)
  obtain ⟨zps, mm, mm', s, s', e, e'⟩ := transparency_moved q q hq hq lsqr hl (F st) (F st') m k (by rw [hFm]; rfl)
    (by rw [hFm]; rfl) id σ τ hσ hτ (fun _ _ _ _ => rfl) (by rw [hFm, hFk]; exact hnt)
  obtain ⟨t, ht⟩ := hF st hm _ _ _ e
  obtain ⟨t', ht'⟩ := hF st' hm' _ _ _ e'
  exact ⟨zps, mm, mm', t, t', ht, ht'⟩

/-- What one call leaves in the catalogues of two images: the same stars, and a master that can be used again. -/
theorem transparency_leaves (q : Query) (lsqr : ℕ → ℕ → List ℝ → ℕ → ℝ) (st : Store) (m k : ℕ) (hm : (st m).Ready)
    (hmk : m ≠ k) : ∃ zps mm s, transparency q lsqr st [m, k] none = .ok (zps, mm, s) ∧ (s m).Ready ∧
      (s m).rows.map Src.key = (st m).rows.map Src.key ∧ (s k).SameKeys (st k) := by
  obtain ⟨r, h1, _, _, h4, h5⟩ := trMatch_total q st [m, k] none m [k] rfl (by simp)
  have hst : ∃ zps mm, transparency q lsqr st [m, k] none = .ok (zps, mm, r.store) := by
    unfold transparency
    rw [h1]
    simp only
    split <;> exact ⟨_, _, rfl⟩
  obtain ⟨zps, mm, e⟩ := hst
  refine ⟨zps, mm, r.store, e, ?_, ?_, ?_⟩
  · rw [h5 (by simpa using hmk)]
    split
    · exact hm
    · have := hm.numbered
      exact .inr ⟨this.has, this.nodup, this.un⟩
  · rw [h5 (by simpa using hmk)]
    split
    · rfl
    · exact withSid_keys _
  · rw [h4 k (by simp) (Ne.symm hmk)]
    unfold Cat.SameKeys newCat
    refine ((List.perm_insertionSort _ _).map _).trans ?_
    rw [List.map_zipWith]
    refine List.Perm.of_eq ?_
    apply List.ext_getElem
    · simp [idsFor, matching_length, Cat.xy]
    · intro i g1 g2
      simp [Src.key]

/-! ## The calls of `subtract` -/

theorem deleteIdx_map {α β : Type} (f : α → β) (l : List α) (idx : List ℕ) :
    (deleteIdx l idx).map f = deleteIdx (l.map f) idx := by
  unfold deleteIdx
  rw [List.zipIdx_map, List.filter_map, List.map_map, List.map_map]
  rfl

theorem deleteIdx_sublist {α : Type} (l : List α) (idx : List ℕ) : (deleteIdx l idx).Sublist l := by
  unfold deleteIdx
  have h : (l.zipIdx.filter fun p => decide (p.2 ∉ idx)).Sublist l.zipIdx := List.filter_sublist
  have := h.map (·.1)
  rwa [List.zipIdx_map_fst] at this

theorem deleteIdx_nil {α : Type} (l : List α) : deleteIdx l [] = l := by
  unfold deleteIdx
  simp

theorem dropRejected_sublist (rej : List Src → List ℕ) (c : Cat) : (dropRejected rej c).rows.Sublist c.rows := by
  unfold dropRejected
  split
  · exact deleteIdx_sublist _ _
  · exact List.Sublist.refl _

theorem Cat.Ready.drop {c : Cat} (h : c.Ready) (rej : List Src → List ℕ) : (dropRejected rej c).Ready := by
  have hs : (dropRejected rej c).hasSid = c.hasSid := by unfold dropRejected; split <;> rfl
  have hsub : (dropRejected rej c).sids.Sublist c.sids := (dropRejected_sublist rej c).map _
  rcases h with h | h
  · exact .inl (hs.trans h)
  · exact .inr ⟨hs.trans h.has, h.nodup.sublist hsub, fun hc => h.un (hsub.subset hc)⟩

theorem NoTies.sublist {M C M' C' : List Pt} (h : NoTies M C) (hM : M'.Sublist M) (hC : C'.Sublist C) : NoTies M' C' :=
  ⟨fun c hc => (h.1 c (hC.subset hc)).sublist (hM.map _), fun m hm => (h.2 m (hM.subset hm)).sublist (hC.map _)⟩

theorem NoTies.perm {M C C' : List Pt} (h : NoTies M C) (hC : C'.Perm C) : NoTies M C' :=
  ⟨fun c hc => h.1 c (hC.mem_iff.1 hc), fun m hm => ((hC.map _).nodup_iff).2 (h.2 m hm)⟩

theorem SameKeys.xy {c d : Cat} (h : c.SameKeys d) : c.xy.Perm d.xy := by
  rw [keys_xy, keys_xy]
  exact h.map _

/-- One call: the zero points are those of the catalogues as they are; afterwards both images have been measured. -/
theorem subtractZps_once (q : Query) (lsqr : ℕ → ℕ → List ℝ → ℕ → ℝ) (rej : ℕ → List Src → List ℕ) (ref new : ℕ)
    (hne : ref ≠ new) (s : Shelf) (hm : (s.cats ref).Ready) :
    ∃ zps mm cats s', transparency q lsqr s.cats [ref, new] none = .ok (zps, mm, cats) ∧
      subtractZps q lsqr rej ref new s = .ok (zps, s') ∧ s'.seen ref = true ∧ s'.seen new = true ∧
      (cats ref).Ready ∧ (cats ref).rows.map Src.key = (s.cats ref).rows.map Src.key ∧
      (cats new).SameKeys (s.cats new) ∧
      s'.cats ref = (if s.seen ref then cats ref else dropRejected (rej ref) (cats ref)) ∧
      s'.cats new = (if s.seen new then cats new else dropRejected (rej new) (cats new)) := by
  obtain ⟨zps, mm, cats, e, h1, h2, h3⟩ := transparency_leaves q lsqr s.cats ref new hm hne
  refine ⟨zps, mm, cats, _, e, by unfold subtractZps; rw [e], ?_, ?_, h1, h2, h3, ?_, ?_⟩
  all_goals
    cases hr : s.seen ref <;> cases hn : s.seen new <;>
      simp [Shelf.measure, hr, hn, Store.set, hne, hne.symm]

/-- What a row of `best_sources` says about its star. -/
def SepRow.key (r : SepRow) : ℚ × ℚ × ℚ := (r.x, r.y, r.flux)

/-- C186: what cutting out the stars does to the catalogue is `dropRejected`, whatever numbers the stars carry. -/
theorem extraction_drops (e : Env) (s t : SIState) (cands : List SepRow) (u : SIState) (pos : List (ℚ × ℚ))
    (hb : bestSources e (startState s) = (.ok cands, u)) (hc : cands ≠ []) (h : extractStamps e s = (.ok pos, t)) :
    ∃ idx b, t.best = some b ∧ ∀ c : Cat, c.rows.map Src.key = cands.map SepRow.key →
      b.map SepRow.key = (dropRejected (fun _ => idx) c).rows.map Src.key := by
  obtain ⟨cands', ps, hb', hi⟩ := extraction_start e s t pos h
  rw [hb] at hb'
  injection hb' with h1 h2
  injection h1 with h1
  subst h1
  subst h2
  obtain ⟨img, hi⟩ := hi hc
  obtain ⟨outs, img', tr, hp, ht⟩ := (extraction_spec e s t cands pos ps img hc hb hi).1 h
  have hbest : t.best = some (if 15 ≤ (accepted cands outs).length then (accepted cands outs).map (·.1) else cands) := by
    rw [ht]
  have hcount := accepted_rejected_count cands outs 0 tr.length
  refine ⟨rejected 0 outs, _, hbest, fun c hcat => ?_⟩
  have hl : c.rows.length = cands.length := by simpa using congrArg List.length hcat
  unfold dropRejected
  beta_reduce
  by_cases h15 : 15 ≤ (accepted cands outs).length
  · rw [if_pos h15, if_pos (by omega)]
    simp only
    rw [deleteIdx_map, hcat, ← deleteIdx_map, delete_rejected cands outs tr.length]
  · rw [if_neg h15, if_neg (by omega), hcat]

/-- `n` calls in a row, their zero points ignored. -/
noncomputable def subtractTimes (q : Query) (lsqr : ℕ → ℕ → List ℝ → ℕ → ℝ) (rej : ℕ → List Src → List ℕ) (ref new : ℕ) :
    ℕ → Shelf → Py Shelf
  | 0, s => .ok s
  | n + 1, s => match subtractZps q lsqr rej ref new s with
    | .error e => .error e
    | .ok r => subtractTimes q lsqr rej ref new n r.2

/-- Once both images have been measured, further calls change the order of the stars and their numbers only. -/
theorem subtractTimes_keeps (q : Query) (lsqr : ℕ → ℕ → List ℝ → ℕ → ℝ) (rej : ℕ → List Src → List ℕ) (ref new : ℕ)
    (hne : ref ≠ new) (n : ℕ) : ∀ s : Shelf, (s.cats ref).Ready → s.seen ref = true → s.seen new = true →
    ∃ t, subtractTimes q lsqr rej ref new n s = .ok t ∧ (t.cats ref).Ready ∧ (s.cats ref).SameKeys (t.cats ref) ∧
      (s.cats new).SameKeys (t.cats new) := by
  induction n with
  | zero => exact fun s hm _ _ => ⟨s, rfl, hm, List.Perm.refl _, List.Perm.refl _⟩
  | succ n ih =>
    intro s hm hr hn
    obtain ⟨zps, mm, cats, s', _, h2, h3, h4, h5, h6, h7, h8, h9⟩ := subtractZps_once q lsqr rej ref new hne s hm
    rw [if_pos hr] at h8
    rw [if_pos hn] at h9
    obtain ⟨t, g1, g2, g3, g4⟩ := ih s' (by rw [h8]; exact h5) h3 h4
    refine ⟨t, ?_, g2, ?_, ?_⟩
    · rw [subtractTimes, h2]
      exact g1
    · refine (List.Perm.of_eq ?_).trans g3
      rw [h8, h6]
    · exact (show (s.cats new).SameKeys (s'.cats new) by rw [h9]; exact h7.symm).trans g4

/-- C186: `subtract` on the same two image objects again and again. The second call estimates the zero points from the
stars that are left in the two catalogues after the first (`s1.cats`), as it would for images whose catalogues were
never touched and have just these stars; every later call gets the zero points of the second. If the first call drops no
star, all the calls get the same. -/
theorem subtract_again (q : Query) (hq : KdContract q) (lsqr : ℕ → ℕ → List ℝ → ℕ → ℝ) (hl : MinLsqSolver lsqr)
    (rej : ℕ → List Src → List ℕ) (ref new : ℕ) (hne : ref ≠ new) (s : Shelf) (hm : (s.cats ref).Ready)
    (hnt : NoTies (s.cats ref).xy (s.cats new).xy) :
    ∃ z1 z2 mm cats s1, transparency q lsqr s.cats [ref, new] none = .ok (z1, mm, cats) ∧
      subtractZps q lsqr rej ref new s = .ok (z1, s1) ∧
      s1.cats ref = (if s.seen ref then cats ref else dropRejected (rej ref) (cats ref)) ∧
      s1.cats new = (if s.seen new then cats new else dropRejected (rej new) (cats new)) ∧
      (cats ref).rows.map Src.key = (s.cats ref).rows.map Src.key ∧ (cats new).SameKeys (s.cats new) ∧
      (∀ st' : Store, (st' ref).Fresh → (s1.cats ref).SameKeys (st' ref) → (s1.cats new).SameKeys (st' new) →
        ∃ mm' c', transparency q lsqr st' [ref, new] none = .ok (z2, mm', c')) ∧
      (∀ n, ∃ t t', subtractTimes q lsqr rej ref new n s1 = .ok t ∧ subtractZps q lsqr rej ref new t = .ok (z2, t')) ∧
      ((∀ k ∈ [ref, new], s.seen k = true ∨ rej k (cats k).rows = [] ∨
        ((cats k).rows.length : ℤ) - (rej k (cats k).rows).length < 15) → z2 = z1) := by
  obtain ⟨z1, mm, cats, s1, h1, h2, h3, h4, h5, h6, h7, h8, h9⟩ := subtractZps_once q lsqr rej ref new hne s hm
  have hready : (s1.cats ref).Ready := by
    rw [h8]
    split
    · exact h5
    · exact h5.drop _
  have hx1 : (cats ref).xy = (s.cats ref).xy := by rw [keys_xy, keys_xy, h6]
  have hx2 : (cats new).xy.Perm (s.cats new).xy := SameKeys.xy h7
  have hnt0 : NoTies (cats ref).xy (cats new).xy := by
    rw [hx1]
    exact hnt.perm hx2
  have hnt1 : NoTies (s1.cats ref).xy (s1.cats new).xy := by
    refine hnt0.sublist ?_ ?_
    · rw [h8]
      split
      · exact List.Sublist.refl _
      · exact (dropRejected_sublist _ _).map _
    · rw [h9]
      split
      · exact List.Sublist.refl _
      · exact (dropRejected_sublist _ _).map _
  obtain ⟨z2, mm2, c2, e2, _⟩ := transparency_leaves q lsqr s1.cats ref new hready hne
  have same : ∀ st' : Store, (st' ref).Ready → (s1.cats ref).SameKeys (st' ref) → (s1.cats new).SameKeys (st' new) →
      ∃ mm' c', transparency q lsqr st' [ref, new] none = .ok (z2, mm', c') := by
    intro st' g1 g2 g3
    obtain ⟨z, a, b, c, d, k1, k2⟩ := transparency_same_stars q hq lsqr hl s1.cats st' ref new hready g1 g2 g3 hnt1 hne
    rw [e2] at k1
    have := (Prod.mk.inj (Except.ok.inj k1)).1
    rw [this]
    exact ⟨_, _, k2⟩
  refine ⟨z1, z2, mm, cats, s1, h1, h2, h8, h9, h6, h7, fun st' g => same st' (.inl g), fun n => ?_, fun hno => ?_⟩
  · obtain ⟨t, g1, g2, g3, g4⟩ := subtractTimes_keeps q lsqr rej ref new hne n s1 hready h3 h4
    obtain ⟨mm', c', k⟩ := same t.cats g2 g3 g4
    have : ∃ t', subtractZps q lsqr rej ref new t = .ok (z2, t') := by
      unfold subtractZps
      rw [k]
      exact ⟨_, rfl⟩
    obtain ⟨t', ht'⟩ := this
    exact ⟨t, t', g1, ht'⟩
  · have hdrop : ∀ k, (rej k (cats k).rows = [] ∨ ((cats k).rows.length : ℤ) - (rej k (cats k).rows).length < 15) →
        ((dropRejected (rej k) (cats k)).rows) = (cats k).rows := by
      intro k hk
      unfold dropRejected
      split
      · rename_i hge
        rcases hk with hk | hk
        · simp only [hk, deleteIdx_nil]
        · omega
      · rfl
    have hrows : ∀ k ∈ [ref, new], (s1.cats k).rows = (cats k).rows := by
      intro k hk
      have hc : s1.cats k = if s.seen k then cats k else dropRejected (rej k) (cats k) := by
        simp only [List.mem_cons, List.not_mem_nil, or_false] at hk
        rcases hk with rfl | rfl
        · exact h8
        · exact h9
      rw [hc]
      split
      · rfl
      · rename_i hs
        rcases hno k hk with hk' | hk'
        · exact absurd hk' hs
        · exact hdrop k hk'
    obtain ⟨mm', c', k⟩ := same s.cats hm (by unfold Cat.SameKeys; rw [hrows ref (by simp), h6])
      (by unfold Cat.SameKeys; rw [hrows new (by simp)]; exact h7)
    rw [h1] at k
    exact (Prod.mk.inj (Except.ok.inj k)).1.symm

/-! ## A bright star that is not a good one -/

/-- The numbers of the rows whose star is bad. -/
def rejWhere (g : ℚ × ℚ × ℚ → Bool) (rows : List Src) : List ℕ :=
  (rows.zipIdx.filter fun p => g p.1.key).map (·.2)

theorem deleteIdx_where (g : ℚ × ℚ × ℚ → Bool) (l : List Src) :
    deleteIdx l (rejWhere g l) = l.filter fun s => !g s.key := by
  unfold deleteIdx rejWhere
  have h : (l.zipIdx.filter fun p => decide (p.2 ∉ (l.zipIdx.filter fun p => g p.1.key).map (·.2))) =
      l.zipIdx.filter fun p => !g p.1.key := by
    refine List.filter_congr fun p hp => ?_
    have : p.2 ∈ (l.zipIdx.filter fun p => g p.1.key).map (·.2) ↔ g p.1.key = true := by
      rw [List.mem_map]
      constructor
      · rintro ⟨r, hr, e⟩
        obtain ⟨hr1, hr2⟩ := List.mem_filter.1 hr
        have e1 := List.mem_zipIdx_iff_getElem?.1 hr1
        have e2 := List.mem_zipIdx_iff_getElem?.1 hp
        rw [e, e2] at e1
        rw [Option.some.inj e1]
        exact hr2
      · exact fun hg => ⟨p, List.mem_filter.2 ⟨hp, hg⟩, rfl⟩
    cases hg : g p.1.key
    · simp only [this, hg, Bool.false_eq_true, not_false_eq_true, decide_true, Bool.not_false]
    · simp only [this, hg, not_true_eq_false, decide_false, Bool.not_true]
  rw [h]
  have := List.filter_map (f := fun p : Src × ℕ => p.1) (p := fun s : Src => !g s.key) (l := l.zipIdx)
  rw [List.zipIdx_map_fst] at this
  rw [this]
  rfl

theorem rejWhere_length (g : ℚ × ℚ × ℚ → Bool) (l : List Src) :
    (l.length : ℤ) - (rejWhere g l).length = ((l.map Src.key).filter fun k => !g k).length := by
  have h1 : (rejWhere g l).length = ((l.map Src.key).filter g).length := by
    unfold rejWhere
    rw [List.length_map]
    conv_rhs => rw [← List.zipIdx_map_fst 0 l, List.map_map, List.filter_map, List.length_map]
    rfl
  have h2 := List.length_eq_length_filter_add (l := l.map Src.key) g
  rw [List.length_map] at h2
  rw [h1]
  omega

theorem dropRejected_where (g : ℚ × ℚ × ℚ → Bool) (c : Cat) (h : 15 ≤ ((c.rows.map Src.key).filter fun k => !g k).length) :
    (dropRejected (rejWhere g) c).rows.map Src.key = (c.rows.map Src.key).filter fun k => !g k := by
  unfold dropRejected
  rw [if_pos (by rw [rejWhere_length]; exact_mod_cast h)]
  simp only [deleteIdx_where]
  rw [List.filter_map]
  rfl

/-- Stars at the same distinct places in two catalogues: each is the nearest of its twin and of no other. -/
theorem commonPairs_same (q : Query) (hq : KdContract q) (c d : Cat) (hxy : d.xy = c.xy) (hnd : c.xy.Nodup) (f : ℕ × ℕ → ℝ) :
    ∑ p ∈ commonPairs q c d, f p = ∑ i ∈ range c.rows.length, f (i, i) := by
  have he : commonPairs q c d = (range c.rows.length).map ⟨fun i => (i, i), fun a b h => (Prod.mk.inj h).1⟩ := by
    ext ⟨o, i⟩
    rw [mem_commonPairs, mem_map]
    constructor
    · intro h
      have ho : o < c.rows.length := by
        obtain ⟨_, _, e, _⟩ := h
        have := (List.getElem?_eq_some_iff.1 e).1
        simpa only [Cat.xy, List.length_map] using this
      have := (mutual_unique q _ _ _ _ _ _ _ (identical_mutual q hq c d hxy hnd o ho) h).1 rfl
      exact ⟨o, mem_range.2 ho, Prod.ext rfl this⟩
    · rintro ⟨j, hj, e⟩
      obtain ⟨rfl, rfl⟩ := Prod.mk.inj e
      exact identical_mutual q hq c d hxy hnd j (mem_range.1 hj)
  rw [he, sum_map]
  rfl

/-- A field of sixteen stars in a row, alike but for the last one, whose flux is `v`. -/
def rowOfStars (v : ℚ) : List Src :=
  (List.range 16).map fun i => ⟨4 ^ i, 0, if i = 15 then v else 1, 0⟩

/-- The two exposures: in the second one the last star is 10⁴ times as bright. -/
def nova : Shelf where
  cats k := ⟨rowOfStars (if k = 1 then 10 ^ 4 else 1), false, none⟩
  seen _ := false

/-- The last star is no good for the PSF, in either exposure. -/
def novaRej : ℕ → List Src → List ℕ := fun _ => rejWhere fun k => decide (k.1 = 4 ^ 15)

theorem magOf_one : magOf 1 = 20 := by
  have := magOf_pow10 0
  simpa using this

theorem magOf_bright : magOf (10 ^ 4) = 10 := by
  rw [magOf_pow10]
  norm_num

theorem rowOfStars_mags (v : ℚ) (k : Bool) (d : Option (List Bool)) :
    ∑ i ∈ range 16, rowMag ⟨rowOfStars v, k, d⟩ i = 300 + magOf v := by
  have h : ∀ i ∈ range 15, rowMag ⟨rowOfStars v, k, d⟩ i = 20 := by
    intro i hi
    have hi := mem_range.1 hi
    unfold rowMag rowOfStars
    rw [List.getElem?_map, List.getElem?_range (by omega)]
    simp only [Option.map_some, Option.getD_some, if_neg (show i ≠ 15 by omega), magOf_one]
  rw [sum_range_succ, sum_congr rfl h]
  have : rowMag ⟨rowOfStars v, k, d⟩ 15 = magOf v := by
    unfold rowMag rowOfStars
    rw [List.getElem?_map, List.getElem?_range (by omega)]
    rfl
  rw [this]
  simp
  norm_num

/-- C186: the first call takes the scale between the images from the star that brightened and gets 275/285 for it; the
second gets 1. -/
theorem subtract_again_differs (lsqr : ℕ → ℕ → List ℝ → ℕ → ℝ) (hl : MinLsqSolver lsqr) :
    ∃ s1 s2, subtractZps bruteQuery lsqr novaRej 0 1 nova = .ok ([285 / 16, 275 / 16], s1) ∧
      subtractZps bruteQuery lsqr novaRej 0 1 s1 = .ok ([300 / 17, 300 / 17], s2) := by
  have hx : (nova.cats 1).xy = (nova.cats 0).xy := by decide +kernel
  have hnd : (nova.cats 0).xy.Nodup := by decide +kernel
  have hnt : NoTies (nova.cats 0).xy (nova.cats 1).xy := by
    unfold NoTies
    decide +kernel
  obtain ⟨z1, z2, mm, cats, s1, h1, h2, h3, h4, h5, h6, h7, h8, _⟩ :=
    subtract_again bruteQuery bruteQuery_contract lsqr hl novaRej 0 1 (by decide) nova (.inl rfl) hnt
  have hz1 : z1 = [285 / 16, 275 / 16] := by
    obtain ⟨mm', st', e⟩ := transparency_pairs bruteQuery bruteQuery_contract lsqr hl nova.cats 0 1 rfl
    rw [h1] at e
    rw [(Prod.mk.inj (Except.ok.inj e)).1]
    have hs := commonPairs_same bruteQuery bruteQuery_contract (nova.cats 0) (nova.cats 1) hx hnd
    have hc : (commonPairs bruteQuery (nova.cats 0) (nova.cats 1)).card = 16 := by
      have := hs fun _ => 1
      simp only [sum_const, card_range, nsmul_eq_mul, mul_one] at this
      have h16 : (nova.cats 0).rows.length = 16 := by decide +kernel
      rw [h16] at this
      exact_mod_cast this
    rw [hs, hs, hc]
    have e0 : ∑ i ∈ range (nova.cats 0).rows.length, rowMag (nova.cats 0) i = 320 := by
      refine (rowOfStars_mags 1 false none).trans ?_
      rw [magOf_one]
      norm_num
    have e1 : ∑ i ∈ range (nova.cats 0).rows.length, rowMag (nova.cats 1) i = 310 := by
      refine (rowOfStars_mags (10 ^ 4) false none).trans ?_
      rw [magOf_bright]
      norm_num
    simp only [e0, e1, pairZp]
    norm_num
  let good : List Src := (List.range 15).map fun i => ⟨4 ^ i, 0, 1, 0⟩
  let st' : Store := fun _ => ⟨good, false, none⟩
  have hk0 : ((nova.cats 0).rows.map Src.key).filter (fun k => !decide (k.1 = 4 ^ 15)) = good.map Src.key := by decide +kernel
  have hk1 : ((nova.cats 1).rows.map Src.key).filter (fun k => !decide (k.1 = 4 ^ 15)) = good.map Src.key := by decide +kernel
  have hg : good.length = 15 := by decide
  have g0 : (s1.cats 0).SameKeys (st' 0) := by
    unfold Cat.SameKeys
    rw [h3]
    change ((dropRejected (rejWhere _) (cats 0)).rows.map Src.key).Perm _
    rw [dropRejected_where _ _ (by rw [h5, hk0, List.length_map, hg]), h5, hk0]
  have g1 : (s1.cats 1).SameKeys (st' 1) := by
    have hp := (h6 : List.Perm _ _).filter fun k => !decide (k.1 = 4 ^ 15)
    unfold Cat.SameKeys
    rw [h4]
    change ((dropRejected (rejWhere _) (cats 1)).rows.map Src.key).Perm _
    rw [dropRejected_where _ _ (by rw [hp.length_eq, hk1, List.length_map, hg])]
    refine hp.trans ?_
    rw [hk1]
  obtain ⟨mm', c', e'⟩ := h7 st' rfl g0 g1
  obtain ⟨z, mm3, c3, e3, hz, _⟩ := transparency_identical_images bruteQuery bruteQuery_contract lsqr hl st' 0 1 rfl rfl
    (by decide) (by decide +kernel)
  have hz' : z = 300 / 17 := by
    rw [hz]
    have hl15 : ((st' 0).rows.length : ℝ) = 15 := by
      have : (st' 0).rows.length = 15 := hg
      rw [this]
      norm_num
    have hsum : ((st' 0).rows.map fun s => magOf s.flux).sum = 300 := by
      have : ((st' 0).rows.map fun s => magOf s.flux) = List.replicate 15 20 := by
        change (good.map fun s => magOf s.flux) = _
        unfold good
        rw [List.map_map, List.eq_replicate_iff]
        refine ⟨by simp, fun b hb => ?_⟩
        obtain ⟨i, _, rfl⟩ := List.mem_map.1 hb
        exact magOf_one
      rw [this]
      simp
      norm_num
    rw [hl15, hsum]
    norm_num
  rw [e3] at e'
  have hz2 : z2 = [300 / 17, 300 / 17] := by
    rw [← (Prod.mk.inj (Except.ok.inj e')).1, hz']
  obtain ⟨t, t', k1, k2⟩ := h8 0
  have : s1 = t := Except.ok.inj k1
  rw [← this, hz2] at k2
  exact ⟨s1, t', by rw [← hz1]; exact h2, k2⟩

end PI
