import Verif.Props.Match
import Verif.Lemmas.Lsq
import Verif.Lemmas.Coadd

/-! # Properties C16–C21: `transparency` -/

namespace PI

/-! ## The matching stage -/

theorem mapM_ok_map {α β : Type} (f : α → Py β) (g : α → β) : ∀ (l : List α),
    (∀ x ∈ l, f x = .ok (g x)) → l.mapM f = .ok (l.map g) := by
  intro l
  induction l with
  | nil => intro _; rfl
  | cons a t ih =>
    intro h
    rw [List.mapM_cons, h a (by simp), ih fun x hx => h x (by simp [hx])]
    rfl

/-- A catalogue that never went through `transparency`. -/
def Cat.Fresh (c : Cat) : Prop := c.hasSid = false

theorem withSid_xy (c : Cat) : (withSid c).xy = c.xy := by
  unfold withSid Cat.xy
  split
  · rfl
  · apply List.ext_getElem?
    intro i
    simp [Function.comp_def]

theorem withSid_length (c : Cat) : (withSid c).rows.length = c.rows.length := by
  unfold withSid; split <;> simp

theorem withSid_fresh_getElem (c : Cat) (hc : c.Fresh) (i : ℕ) :
    (withSid c).rows[i]? = (c.rows[i]?).map fun s => { s with sid := (i : ℤ) } := by
  unfold withSid
  rw [hc]
  simp [Function.comp_def]

theorem withSid_fresh_sids (c : Cat) (hc : c.Fresh) (i : ℕ) :
    (withSid c).sids[i]? = if i < c.rows.length then some (i : ℤ) else none := by
  unfold Cat.sids
  rw [List.getElem?_map, withSid_fresh_getElem c hc]
  by_cases h : i < c.rows.length
  · simp [h]
  · simp [h]

theorem foldl_trStep (q : Query) (mc : Cat) : ∀ (imgs : List ℕ) (st : Store) (det : List Bool),
    imgs.Nodup →
    (∀ k, (imgs.foldl (trStep q mc) (st, det)).1 k =
      if k ∈ imgs then newCat q mc (st k) else st k) ∧
    (det.length = mc.rows.length →
      (imgs.foldl (trStep q mc) (st, det)).2 = List.zipWith
        (fun (s : Src) d => d && imgs.all fun k => decide (s.sid ∈ idsFor q mc (st k)))
        mc.rows det) := by
  intro imgs
  induction imgs with
  | nil =>
    intro st det _
    refine ⟨fun k => by simp, fun hl => ?_⟩
    apply List.ext_getElem
    · simp [hl]
    · intro i h1 h2
      simp
  | cons a t ih =>
    intro st det hnd
    have hnd' := List.nodup_cons.1 hnd
    obtain ⟨g1, g2⟩ := ih (trStep q mc (st, det) a).1 (trStep q mc (st, det) a).2 hnd'.2
    constructor
    · intro k
      rw [List.foldl_cons]
      refine (g1 k).trans ?_
      by_cases hka : k = a
      · subst hka
        rw [if_neg hnd'.1]
        simp [trStep, Store.set]
      · by_cases hkt : k ∈ t
        · rw [if_pos hkt]
          simp [trStep, Store.set, hka, hkt]
        · rw [if_neg hkt]
          simp [trStep, Store.set, hka, hkt]
    · intro hl
      rw [List.foldl_cons]
      refine (g2 (by simp [trStep, hl])).trans ?_
      apply List.ext_getElem
      · simp [trStep, hl]
      · intro i h1 h2
        have hst : ∀ k ∈ t, (trStep q mc (st, det) a).1 k = st k := by
          intro k hk
          have : k ≠ a := fun h => hnd'.1 (h ▸ hk)
          simp [trStep, Store.set, this]
        simp only [List.getElem_zipWith, List.all_cons]
        have hall : (t.all fun k => decide ((mc.rows[i]'(by simp at h2; omega)).sid ∈
              idsFor q mc ((trStep q mc (st, det) a).1 k))) =
            t.all fun k => decide ((mc.rows[i]'(by simp at h2; omega)).sid ∈
              idsFor q mc (st k)) := by
          rw [Bool.eq_iff_iff, List.all_eq_true, List.all_eq_true]
          constructor
          · intro h k hk; rw [← hst k hk]; exact h k hk
          · intro h k hk; rw [hst k hk]; exact h k hk
        rw [hall]
        simp only [trStep, List.getElem_zipWith]
        by_cases hm : (mc.rows[i]'(by simp at h2; omega)).sid ∈ idsFor q mc (st a)
        · simp [hm]
        · simp [hm]

/-- A master row (by `sourceid`) is found in every image of the list. -/
def foundInAll (q : Query) (mc : Cat) (st : Store) (imgs : List ℕ) (s : Src) : Bool :=
  imgs.all fun k => decide (s.sid ∈ idsFor q mc (st k))

theorem det_eq (q : Query) (mc : Cat) (imgs : List ℕ) (st : Store) (hnd : imgs.Nodup) :
    (imgs.foldl (trStep q mc) (st, mc.rows.map fun _ => true)).2 =
      mc.rows.map (foundInAll q mc st imgs) := by
  rw [(foldl_trStep q mc imgs st _ hnd).2 (by simp)]
  apply List.ext_getElem
  · simp
  · intro i h1 h2
    simp [foundInAll]

theorem selectRows_map (rows : List Src) (f : Src → Bool) :
    selectRows rows (rows.map f) = rows.filter f := by
  unfold selectRows
  induction rows with
  | nil => rfl
  | cons a t ih =>
    simp only [List.map_cons, List.zip_cons_cons]
    by_cases h : f a = true
    · rw [List.filter_cons_of_pos (by simpa using h), List.filter_cons_of_pos h, List.map_cons, ih]
    · rw [List.filter_cons_of_neg (by simpa using h), List.filter_cons_of_neg h, ih]

/-- Normal form of the matching stage for distinct images. -/
theorem trMatch_eq (q : Query) (st : Store) (images : List ℕ) (master : Option ℕ) (m : ℕ)
    (imgs : List ℕ) (hs : splitMaster images master = .ok (m, imgs)) (hnd : imgs.Nodup) :
    trMatch q st images master =
      (let mc := withSid (st m)
       let sel := mc.rows.filter (foundInAll q mc st imgs)
       let st' : Store := fun k => if k ∈ imgs then newCat q mc (st k) else st k
       let det := mc.rows.map (foundInAll q mc st imgs)
       if sel.length = 0 then
        .ok { store := if (st m).hasSid && (st m).det.isSome then st'.set m { mc with det := some det } else st'
              p := imgs.length + 1, det := det, fluxes := [] }
       else
        match (sel.flatMap fun s => imgs.map fun k => (k, s.sid)).mapM
            (fun ks => fluxOf (st' ks.1) ks.2) with
        | .error e => .error e
        | .ok fl => .ok { store := st'.set m { mc with det := some det }
                          p := imgs.length + 1, det := det, fluxes := sel.map (·.flux) ++ fl }) := by
  unfold trMatch
  rw [hs]
  simp only
  have h1 : (imgs.foldl (trStep q (withSid (st m)))
      (st, (withSid (st m)).rows.map fun _ => true)).1 =
      fun k => if k ∈ imgs then newCat q (withSid (st m)) (st k) else st k :=
    funext fun k => (foldl_trStep q _ imgs st _ hnd).1 k
  rw [h1, det_eq q _ imgs st hnd, selectRows_map]
  rfl

/-! ## Fresh catalogues -/

theorem fresh_unmatched (c : Cat) (hc : c.Fresh) : unmatchedId ∉ (withSid c).sids := by
  intro h
  obtain ⟨i, hi⟩ := List.mem_iff_getElem?.1 h
  rw [withSid_fresh_sids c hc] at hi
  split at hi
  · have := Option.some.inj hi
    simp [unmatchedId] at this
  · simp at hi

theorem sids_length (c : Cat) : c.sids.length = c.xy.length := by simp [Cat.sids, Cat.xy]

/-- The ID of master row `o` is among an image's IDs iff the row has a mutual neighbour there. -/
theorem mem_idsFor_iff (q : Query) (hq : KdContract q) (c cat : Cat) (hc : c.Fresh) (o : ℕ) :
    ((o : ℤ) ∈ idsFor q (withSid c) cat) ↔ ∃ i, MutualAt q c.xy cat.xy radius2 o i := by
  have hlen := sids_length (withSid c)
  have hun := fresh_unmatched c hc
  constructor
  · intro h
    obtain ⟨i, hi⟩ := List.mem_iff_getElem?.1 h
    have hil : i < cat.xy.length := by
      have := (List.getElem?_eq_some_iff.1 hi).1
      rwa [idsFor, matching_length] at this
    obtain ⟨o', h1, h2⟩ := (matching_iff_mutual q hq _ _ hlen hun cat.xy radius2 i hil (o : ℤ)).1
      ⟨hi, by simp [unmatchedId]⟩
    rw [withSid_fresh_sids c hc] at h2
    split at h2
    · have : o' = o := by exact_mod_cast Option.some.inj h2
      subst this
      rw [withSid_xy] at h1
      exact ⟨i, h1⟩
    · simp at h2
  · rintro ⟨i, hi⟩
    have hol : o < c.rows.length := by
      obtain ⟨mo, _, h, _⟩ := hi
      have := (List.getElem?_eq_some_iff.1 h).1
      simpa [Cat.xy] using this
    have hil : i < cat.xy.length := by
      obtain ⟨_, ci, _, h, _⟩ := hi
      exact (List.getElem?_eq_some_iff.1 h).1
    rw [← withSid_xy] at hi
    have := ((matching_iff_mutual q hq _ _ hlen hun cat.xy radius2 i hil (o : ℤ)).2
      ⟨o, hi, by rw [withSid_fresh_sids c hc, if_pos hol]⟩).1
    exact List.mem_of_getElem? this

/-- After the update, the flux looked up for master row `o` is that of its mutual neighbour. -/
theorem fluxOf_newCat (q : Query) (hq : KdContract q) (c cat : Cat) (hc : c.Fresh) (o i : ℕ)
    (row : Src) (hm : MutualAt q c.xy cat.xy radius2 o i) (hr : cat.rows[i]? = some row) :
    fluxOf (newCat q (withSid c) cat) (o : ℤ) = .ok row.flux := by
  have hlen := sids_length (withSid c)
  have hun := fresh_unmatched c hc
  set L := List.zipWith (fun (s : Src) v => { s with sid := v }) cat.rows
    (idsFor q (withSid c) cat) with hL
  have hperm : ((newCat q (withSid c) cat).rows.filter fun s => s.sid = (o : ℤ)).Perm
      (L.filter fun s => s.sid = (o : ℤ)) :=
    (List.perm_insertionSort _ L).filter _
  have key : ∀ s ∈ L.filter (fun s => s.sid = (o : ℤ)), s.flux = row.flux := by
    intro s hs
    obtain ⟨hs1, hs2⟩ := List.mem_filter.1 hs
    have hs2 : s.sid = (o : ℤ) := by simpa using hs2
    obtain ⟨j, hj⟩ := List.mem_iff_getElem?.1 hs1
    rw [hL, List.getElem?_zipWith] at hj
    have : ∃ r, cat.rows[j]? = some r ∧ ∃ v, (idsFor q (withSid c) cat)[j]? = some v ∧
        s = { r with sid := v } := by
      cases e1 : cat.rows[j]? with
      | none => simp [e1] at hj
      | some r =>
        cases e2 : (idsFor q (withSid c) cat)[j]? with
        | none => simp [e1, e2] at hj
        | some v => simp [e1, e2] at hj; exact ⟨r, rfl, v, rfl, hj.symm⟩
    obtain ⟨r, hr1, v, hv, rfl⟩ := this
    have hv' : v = (o : ℤ) := hs2
    subst hv'
    have hjl : j < cat.xy.length := by
      have := (List.getElem?_eq_some_iff.1 hr1).1
      simpa [Cat.xy] using this
    obtain ⟨o', h1, h2⟩ := (matching_iff_mutual q hq _ _ hlen hun cat.xy radius2 j hjl (o : ℤ)).1
      ⟨hv, by simp [unmatchedId]⟩
    rw [withSid_fresh_sids c hc] at h2
    split at h2
    · have : o' = o := by exact_mod_cast Option.some.inj h2
      subst this
      rw [withSid_xy] at h1
      have := (mutual_unique q _ _ _ _ _ _ _ h1 hm).1 rfl
      subst this
      rw [hr] at hr1
      obtain rfl := Option.some.inj hr1
      rfl
    · simp at h2
  unfold fluxOf
  cases hf : (newCat q (withSid c) cat).rows.filter (fun s => s.sid = (o : ℤ)) with
  | nil =>
    exfalso
    rw [hf] at hperm
    have hnil := hperm.symm.eq_nil
    obtain ⟨k, hk⟩ := List.mem_iff_getElem?.1 ((mem_idsFor_iff q hq c cat hc o).2 ⟨i, hm⟩)
    have hkl : k < cat.rows.length := by
      have := (List.getElem?_eq_some_iff.1 hk).1
      rw [idsFor, matching_length] at this
      simpa [Cat.xy] using this
    have : ({ cat.rows[k] with sid := (o : ℤ) } : Src) ∈ L := by
      apply List.mem_iff_getElem?.2
      refine ⟨k, ?_⟩
      rw [hL, List.getElem?_zipWith, hk, List.getElem?_eq_getElem hkl]
    have : ({ cat.rows[k] with sid := (o : ℤ) } : Src) ∈ L.filter (fun s => s.sid = (o : ℤ)) :=
      List.mem_filter.2 ⟨this, by simp⟩
    rw [hnil] at this
    simp at this
  | cons s t =>
    simp only
    rw [key s (hperm.mem_iff.1 (by rw [hf]; exact List.mem_cons_self))]

/-- The order in which the code fills `m` (utils.py:211-223) from a table `F` of fluxes, image ×
source: first all sources of the master, then source by source over the other images. -/
def rhsList (p q : ℕ) (F : ℕ → ℕ → ℚ) : List ℚ :=
  (List.range q).map (F 0) ++
    (List.range q).flatMap fun s => (List.range (p - 1)).map fun t => F (t + 1) s

theorem map_eq_range {α β : Type} [Inhabited α] (l : List α) (f : α → β) :
    l.map f = (List.range l.length).map fun i => f (l.getD i default) := by
  apply List.ext_getElem
  · simp
  · intro i h1 h2
    simp at h1
    simp [h1]

theorem flatMap_eq_range {α β : Type} [Inhabited α] (l : List α) (f : α → List β) :
    l.flatMap f = (List.range l.length).flatMap fun i => f (l.getD i default) := by
  rw [List.flatMap_def, List.flatMap_def, map_eq_range l f]

/-- C16: on fresh catalogues of distinct images the matching stage succeeds; the sources that enter
the fit are, in order, exactly the master rows with a mutual nearest neighbour within radius 2 in
every other image, and the fluxes are those of the master row and of its neighbours. -/
theorem transparency_detect (q : Query) (hq : KdContract q) (st : Store) (images : List ℕ)
    (master : Option ℕ) (m : ℕ) (imgs : List ℕ)
    (hs : splitMaster images master = .ok (m, imgs)) (hnd : imgs.Nodup)
    (hfresh : (st m).Fresh) :
    ∃ (r : TrMatch) (D : List ℕ) (F : ℕ → ℕ → ℚ), trMatch q st images master = .ok r ∧
      r.p = imgs.length + 1 ∧
      r.det.length = (st m).rows.length ∧
      (∀ o : ℕ, r.det[o]? = some true ↔ o ∈ D) ∧ D.Pairwise (· < ·) ∧
      r.det.count true = D.length ∧
      (∀ o : ℕ, o ∈ D ↔ o < (st m).rows.length ∧
        ∀ k ∈ imgs, ∃ i, MutualAt q (st m).xy (st k).xy radius2 o i) ∧
      (D ≠ [] → r.fluxes = rhsList r.p D.length F) ∧
      (∀ (s o : ℕ), D[s]? = some o → ((st m).rows[o]?).map (·.flux) = some (F 0 s)) ∧
      (∀ (s o t k : ℕ), D[s]? = some o → imgs[t]? = some k →
        ∃ i, MutualAt q (st m).xy (st k).xy radius2 o i ∧
          ((st k).rows[i]?).map (·.flux) = some (F (t + 1) s)) := by
  set mc := withSid (st m) with hmc
  set f := foundInAll q mc st imgs with hf
  have hsid : ∀ (o : ℕ) s, mc.rows[o]? = some s → s.sid = (o : ℤ) := by
    intro o s h
    rw [hmc, withSid_fresh_getElem _ hfresh] at h
    cases e : (st m).rows[o]? with
    | none => simp [e] at h
    | some r => simp [e] at h; rw [← h]
  have hmem : ∀ s ∈ mc.rows, mc.rows[s.sid.toNat]? = some s ∧ s.sid = (s.sid.toNat : ℤ) := by
    intro s h
    obtain ⟨o, ho⟩ := List.mem_iff_getElem?.1 h
    have := hsid o s ho
    rw [this]
    exact ⟨by simpa using ho, by simp⟩
  have hmlen : mc.rows.length = (st m).rows.length := withSid_length _
  set sel := mc.rows.filter f with hsel
  set D := sel.map (fun s => s.sid.toNat) with hD
  have hfiff : ∀ (o : ℕ) s, mc.rows[o]? = some s →
      (f s = true ↔ ∀ k ∈ imgs, ∃ i, MutualAt q (st m).xy (st k).xy radius2 o i) := by
    intro o s h
    rw [hf, foundInAll, List.all_eq_true]
    refine forall_congr' fun k => forall_congr' fun hk => ?_
    rw [decide_eq_true_eq, hsid o s h]
    exact mem_idsFor_iff q hq (st m) (st k) hfresh o
  have hDmem : ∀ o : ℕ, o ∈ D ↔ ∃ s, mc.rows[o]? = some s ∧ f s = true := by
    intro o
    rw [hD, List.mem_map]
    constructor
    · rintro ⟨s, h1, rfl⟩
      obtain ⟨h1, h2⟩ := List.mem_filter.1 h1
      exact ⟨s, (hmem s h1).1, h2⟩
    · rintro ⟨s, h1, h2⟩
      exact ⟨s, List.mem_filter.2 ⟨List.mem_of_getElem? h1, h2⟩, by rw [hsid o s h1]; simp⟩
  have hDspec : ∀ o : ℕ, o ∈ D ↔ o < (st m).rows.length ∧
      ∀ k ∈ imgs, ∃ i, MutualAt q (st m).xy (st k).xy radius2 o i := by
    intro o
    rw [hDmem]
    constructor
    · rintro ⟨s, h1, h2⟩
      exact ⟨hmlen ▸ (List.getElem?_eq_some_iff.1 h1).1, (hfiff o s h1).1 h2⟩
    · rintro ⟨h1, h2⟩
      have h : mc.rows[o]? = some (mc.rows[o]'(by omega)) := List.getElem?_eq_getElem _
      exact ⟨_, h, (hfiff o _ h).2 h2⟩
  have hDsorted : D.Pairwise (· < ·) := by
    have h1 : (mc.rows.map fun s => s.sid.toNat).Pairwise (· < ·) := by
      have : (mc.rows.map fun s => s.sid.toNat) = List.range mc.rows.length := by
        apply List.ext_getElem
        · simp
        · intro i h1 h2
          have hi : i < mc.rows.length := by simpa using h1
          simp [hsid i mc.rows[i] (List.getElem?_eq_getElem hi)]
      rw [this]
      exact List.pairwise_lt_range
    exact h1.sublist (List.filter_sublist.map _)
  -- partner fluxes
  have hpart : ∀ k o : ℕ, ∃ v : ℚ, k ∈ imgs → o ∈ D →
      (∃ i, MutualAt q (st m).xy (st k).xy radius2 o i ∧
        ((st k).rows[i]?).map (·.flux) = some v) ∧
      fluxOf (newCat q mc (st k)) (o : ℤ) = .ok v := by
    intro k o
    by_cases h : k ∈ imgs ∧ o ∈ D
    · obtain ⟨i, hi⟩ := ((hDspec o).1 h.2).2 k h.1
      have hil : i < (st k).rows.length := by
        obtain ⟨_, ci, _, hh, _⟩ := hi
        have := (List.getElem?_eq_some_iff.1 hh).1
        simpa [Cat.xy] using this
      have hrow := List.getElem?_eq_getElem hil
      exact ⟨((st k).rows[i]).flux, fun _ _ => ⟨⟨i, hi, by rw [hrow]; rfl⟩,
        fluxOf_newCat q hq (st m) (st k) hfresh o i _ hi hrow⟩⟩
    · exact ⟨0, fun h1 h2 => absurd ⟨h1, h2⟩ h⟩
  choose pf hpf using hpart
  have heq := trMatch_eq q st images master m imgs hs hnd
  simp only at heq
  rw [← hmc, ← hf, ← hsel] at heq
  have hdetiff : ∀ o : ℕ, (mc.rows.map f)[o]? = some true ↔ o ∈ D := by
    intro o
    rw [hDmem, List.getElem?_map]
    cases mc.rows[o]? <;> simp
  have hcount : (mc.rows.map f).count true = D.length := by
    rw [hD, List.length_map, hsel, List.count_eq_countP, List.countP_map,
      List.countP_eq_length_filter]
    congr 2
    funext s
    simp
  have hlenD : D.length = sel.length := by simp [hD]
  let F : ℕ → ℕ → ℚ := fun j s =>
    match j with
    | 0 => ((mc.rows[D.getD s 0]?).map (·.flux)).getD 0
    | t + 1 => pf (imgs.getD t 0) (D.getD s 0)
  have hF0 : ∀ (s o : ℕ), D[s]? = some o → ((st m).rows[o]?).map (·.flux) = some (F 0 s) := by
    intro s o hs
    have ho : o < (st m).rows.length := ((hDspec o).1 (List.mem_of_getElem? hs)).1
    have hg : D.getD s 0 = o := by simp [List.getD_eq_getElem?_getD, hs]
    simp only [F, hg]
    rw [hmc, withSid_fresh_getElem _ hfresh, List.getElem?_eq_getElem ho]
    simp
  have hFt : ∀ (s o t k : ℕ), D[s]? = some o → imgs[t]? = some k →
      ∃ i, MutualAt q (st m).xy (st k).xy radius2 o i ∧
        ((st k).rows[i]?).map (·.flux) = some (F (t + 1) s) := by
    intro s o t k h1 h2
    have := (hpf k o (List.mem_of_getElem? h2) (List.mem_of_getElem? h1)).1
    simpa [F, List.getD_eq_getElem?_getD, h1, h2] using this
  by_cases h0 : sel.length = 0
  · rw [if_pos h0] at heq
    refine ⟨_, D, F, heq, rfl, by simp [hmlen], hdetiff, hDsorted, hcount, hDspec, ?_, hF0, hFt⟩
    intro hne
    exact absurd (List.length_eq_zero_iff.1 (hlenD.trans h0)) hne
  · rw [if_neg h0] at heq
    have hmap : (sel.flatMap fun s => imgs.map fun k => (k, s.sid)).mapM
        (fun ks => fluxOf (if ks.1 ∈ imgs then newCat q mc (st ks.1) else st ks.1) ks.2) =
        Except.ok (ε := PyErr) ((sel.flatMap fun s => imgs.map fun k => (k, s.sid)).map
          fun ks => pf ks.1 ks.2.toNat) := by
      apply mapM_ok_map
      intro ks hks
      obtain ⟨s, h1, h2⟩ := List.mem_flatMap.1 hks
      obtain ⟨k, h3, rfl⟩ := List.mem_map.1 h2
      have hsD : s.sid.toNat ∈ D := List.mem_map.2 ⟨s, h1, rfl⟩
      have hsm := (hmem s (List.mem_filter.1 h1).1).2
      simp only [if_pos h3]
      have := (hpf k s.sid.toNat h3 hsD).2
      rw [← hsm] at this
      exact this
    rw [hmap] at heq
    refine ⟨_, D, F, heq, rfl, by simp [hmlen], hdetiff, hDsorted, hcount, hDspec, ?_, hF0, hFt⟩
    intro _
    change sel.map (·.flux) ++ _ = rhsList (imgs.length + 1) D.length F
    unfold rhsList
    congr 1
    · rw [hlenD]
      apply List.ext_getElem
      · simp
      · intro i h1 h2
        have hi : i < sel.length := by simpa using h1
        have hDi : D.getD i 0 = (sel[i]).sid.toNat := by
          simp [List.getD_eq_getElem?_getD, hD, hi]
        have hrow := (hmem sel[i] (List.mem_filter.1 (List.getElem_mem hi)).1).1
        simp only [F, List.getElem_map, List.getElem_range, hDi, hrow]
        rfl
    · rw [List.map_flatMap, Nat.add_sub_cancel]
      have e : (sel.flatMap fun s => (imgs.map fun k => (k, s.sid)).map
          fun ks : ℕ × ℤ => pf ks.1 ks.2.toNat) = D.flatMap fun o => imgs.map fun k => pf k o := by
        rw [hD, List.flatMap_map]
        congr 1
        funext s
        rw [List.map_map]
        rfl
      rw [e, flatMap_eq_range D]
      congr 1
      funext s
      rw [map_eq_range imgs]
      rfl

end PI
