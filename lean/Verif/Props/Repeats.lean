import Verif.Props.Copies
import Verif.Props.CoaddFront

/-!
# Property C137: the same object more than once in the list given to coadd
-/

namespace PI

open Complex Finset PyS

/-! ## Zero points: the last one counts -/

section Loop

variable {K F N S R W : Type} [Field K] [LinearOrder K]

theorem loop_ok (e : ℕ → KEnv K F N S R) (l : K) : ∀ (pairs : List (ℕ × K)) (st st' : ℕ → PSFState K F N S R) (x : Unit),
    (∀ k, Coh (e k) (st k)) → coaddLoop e l pairs st = (.ok x, st') → ∀ k,
      Coh (e k) (st' k) ∧ (st' k).zp = (pairs.reverse.lookup k).or (st k).zp ∧
      (k ∉ pairs.map (·.1) → st' k = st k) ∧
      (k ∈ pairs.map (·.1) → (st' k).infLoss = l ∧ (st' k).fields.isSome ∧ (st' k).basis.isSome) ∧
      (st' k).sHat = (st k).sHat ∧ (st' k).sHatLoss = (st k).sHatLoss ∧ (st' k).normal = (st k).normal := by
  intro pairs
  induction pairs with
  | nil =>
    intro st st' x hs h k
    cases h
    exact ⟨hs k, rfl, fun _ => rfl, fun h => by simp at h, rfl, rfl, rfl⟩
  | cons a rest ih =>
    obtain ⟨k0, z⟩ := a
    intro st st' x hs h k
    unfold coaddLoop at h
    rcases hp : coaddPrepare (e k0) z l (st k0) with ⟨er | y, t⟩
    · rw [hp] at h; cases h
    rw [hp] at h
    simp only at h
    obtain ⟨h1, h2, h3, h4, h5, h6, h7, h8⟩ := prepare_ok (e k0) (st k0) t z l y (hs k0) hp
    have hs' : ∀ k, Coh (e k) (Function.update st k0 t k) := by
      intro k
      by_cases hk : k = k0
      · subst hk; rw [Function.update_self]; exact h1
      · rw [Function.update_of_ne hk]; exact hs k
    obtain ⟨g1, g2, g3, g4, g5, g6, g7⟩ := ih _ st' x hs' h k
    rw [List.reverse_cons, List.lookup_append]
    by_cases hk : k = k0
    · subst hk
      rw [Function.update_self] at g2 g3 g5 g6 g7
      refine ⟨g1, ?_, fun hn => absurd (by simp) hn, fun _ => ?_, g5.trans h6, g6.trans h7, g7.trans h8⟩
      · rw [g2, h3]
        cases rest.reverse.lookup k <;> simp [List.lookup]
      · by_cases hr : k ∈ rest.map (·.1)
        · exact g4 hr
        · rw [g3 hr]; exact ⟨h2, h4, h5⟩
    · rw [Function.update_of_ne hk] at g2 g3 g5 g6 g7
      have hb : (k == k0) = false := by simpa using hk
      refine ⟨g1, ?_, fun hn => g3 fun hr => hn (by simp only [List.map_cons, List.mem_cons]; exact Or.inr hr), fun hm => ?_, g5, g6, g7⟩
      · rw [g2]
        cases rest.reverse.lookup k <;> simp [List.lookup, hb]
      · simp only [List.map_cons, List.mem_cons] at hm
        exact g4 (hm.resolve_left hk)

/-- Preparing a prepared image again changes nothing. -/
theorem prepare_again (e : KEnv K F N S R) (s : PSFState K F N S R) (z l : K) (hz : s.zp = some z) (hl : s.infLoss = l)
    (hf : s.fields.isSome) (hb : s.basis.isSome) : coaddPrepare e z l s = (.ok (), s) := by
  obtain ⟨a, ha⟩ := Option.isSome_iff_exists.1 hf
  have hself : ({ s with zp := some z } : PSFState K F N S R) = s := by rw [← hz]
  unfold coaddPrepare
  rw [modify_bind, hself, setupFields_eq e (some l) false s (fun x hx => by
    injection hx with hx
    exact ⟨hb, hl.trans hx⟩), ha]
  rfl

/-- Taking the terms of an image keeps its PSF. -/
theorem terms_keep (e : KEnv K F N S R) (w : K → List (Img K) → W) (s t : PSFState K F N S R) (r : S × W) (hs : Coh e s)
    (hf : s.fields.isSome) (hb : s.basis.isSome) (h : coaddTerms e w s = (.ok r, t)) :
    t.fields = s.fields ∧ t.basis = s.basis := by
  obtain ⟨a, ha⟩ := Option.isSome_iff_exists.1 hf
  obtain ⟨b, hb⟩ := Option.isSome_iff_exists.1 hb
  unfold coaddTerms at h
  rw [bind_eq_ok] at h
  obtain ⟨v, y, h1, h⟩ := h
  have hy : y.fields = some a ∧ y.basis = some b := by
    rw [sHatComp_eq] at h1
    cases hc : (if s.sHatLoss = some s.infLoss then s.sHat else none) with
    | some v0 => rw [hc] at h1; cases h1; exact ⟨ha, hb⟩
    | none => rw [hc] at h1; exact freshSHat_keeps e s y v a b hs ha hb h1
  rw [get_bind, bind_ok _ _ _ _ _ (klBasis_some e y b hy.2), bind_ok _ _ _ _ _ (klFields_some e y a hy.1)] at h
  cases h
  rw [ha, hb]
  exact hy

theorem read_ok (e : ℕ → KEnv K F N S R) (w : K → List (Img K) → W) (l : K) (zp : ℕ → K) :
    ∀ (images : List ℕ) (u u' : ℕ → PSFState K F N S R) (T : List (S × W)),
    (∀ k, Coh (e k) (u k)) →
    (∀ k ∈ images, (u k).zp = some (zp k) ∧ (u k).infLoss = l ∧ (u k).fields.isSome ∧ (u k).basis.isSome) →
    coaddRead e w images u = (.ok T, u') →
    ∃ term : ℕ → Option (S × W), T.map some = images.map term ∧ ∀ k ∈ images, ∃ a b v, (u k).fields = some a ∧
      (u k).basis = some b ∧ term k = some (v, w (zp k) b) ∧
      (∀ v0, (u k).sHat = some v0 → (u k).sHatLoss = some l → v = v0) ∧
      ((u k).sHat = none ∨ (u k).sHatLoss ≠ some l → ∃ nrm img, v = (e k).sOf (zp k) a b nrm img ∧
        ∀ n, (u k).normal = some n → nrm = n) := by
  intro images
  induction images with
  | nil =>
    intro u u' T hu hp h
    cases h
    exact ⟨fun _ => none, rfl, fun k hk => by simp at hk⟩
  | cons k0 rest ih =>
    intro u u' T hu hp h
    unfold coaddRead at h
    rcases ht : coaddTerms (e k0) w (u k0) with ⟨er | ⟨v, x⟩, t⟩
    · rw [ht] at h; cases h
    rw [ht] at h
    simp only at h
    rcases hr : coaddRead e w rest (Function.update u k0 t) with ⟨er | vs, u1⟩
    · rw [hr] at h; cases h
    rw [hr] at h
    simp only at h
    cases h
    obtain ⟨hz, hl, hf, hb⟩ := hp k0 (by simp)
    have hci : coaddImage (e k0) w (zp k0) l (u k0) = (.ok (v, x), t) := by
      unfold coaddImage
      rw [bind_ok _ _ _ _ _ (prepare_again (e k0) (u k0) (zp k0) l hz hl hf hb)]
      exact ht
    obtain ⟨a, b, c1, c2, c3, c4, c5, c6, c7, c8, c9, c10⟩ := coadd_image_terms (e k0) w (u k0) t (zp k0) l v x (hu k0) hci
    have hab := terms_keep (e k0) w (u k0) t _ (hu k0) hf hb ht
    rw [c1, c2] at hab
    obtain ⟨term, g1, g2⟩ := ih (Function.update u k0 t) u' vs (fun k => by
        by_cases hk : k = k0
        · subst hk; rw [Function.update_self]; exact c3
        · rw [Function.update_of_ne hk]; exact hu k)
      (fun k hk => by
        by_cases hk0 : k = k0
        · subst hk0; rw [Function.update_self]; exact ⟨c6, c4, by rw [c1]; rfl, by rw [c2]; rfl⟩
        · rw [Function.update_of_ne hk0]; exact hp k (by simp [hk])) hr
    have hsame : k0 ∈ rest → term k0 = some (v, x) := by
      intro hk
      obtain ⟨a', b', v', d1, d2, d3, d4, _⟩ := g2 k0 hk
      rw [Function.update_self] at d1 d2 d4
      rw [c2] at d2
      cases d2
      rw [d3, d4 v c7 c8, c5]
    refine ⟨Function.update term k0 (some (v, x)), ?_, fun k hk => ?_⟩
    · rw [List.map_cons, List.map_cons, Function.update_self, g1]
      congr 1
      refine List.map_congr_left fun k hk => ?_
      by_cases hk0 : k = k0
      · subst hk0; rw [Function.update_self, hsame hk]
      · rw [Function.update_of_ne hk0]
    · by_cases hk0 : k = k0
      · subst hk0
        exact ⟨a, b, v, hab.1.symm, hab.2.symm, by rw [Function.update_self, c5], c9, c10⟩
      · have hk' : k ∈ rest := by simpa [hk0] using hk
        obtain ⟨a', b', v', d1, d2, d3, d4, d5⟩ := g2 k hk'
        rw [Function.update_of_ne hk0] at d1 d2 d4 d5
        exact ⟨a', b', v', d1, d2, by rw [Function.update_of_ne hk0]; exact d3, d4, d5⟩

/-- C137: the entries of the list that are one object add the same term, made of the zero point of its last entry; the
zero points of its other entries are lost. Objects not in the list stay as they were. -/
theorem coadd_last_zero_point (e : ℕ → KEnv K F N S R) (w : K → List (Img K) → W) (l : K) (pairs : List (ℕ × K))
    (st u u' : ℕ → PSFState K F N S R) (x : Unit) (T : List (S × W)) (hs : ∀ k, Coh (e k) (st k))
    (hn : ∀ k ∈ pairs.map (·.1), (st k).sHat = none)
    (h1 : coaddLoop e l pairs st = (.ok x, u)) (h2 : coaddRead e w (pairs.map (·.1)) u = (.ok T, u')) :
    (∀ k ∉ pairs.map (·.1), u k = st k) ∧
    ∃ term : ℕ → Option (S × W), T.map some = (pairs.map (·.1)).map term ∧ ∀ k ∈ pairs.map (·.1), ∃ z a b nrm img,
      pairs.reverse.lookup k = some z ∧ (u k).zp = some z ∧ (u k).fields = some a ∧ (u k).basis = some b ∧
      term k = some ((e k).sOf z a b nrm img, w z b) := by
  have hl := loop_ok e l pairs st u x hs h1
  have hlook : ∀ k ∈ pairs.map (·.1), ∃ z, pairs.reverse.lookup k = some z := by
    intro k hk
    cases hc : pairs.reverse.lookup k with
    | some z => exact ⟨z, rfl⟩
    | none =>
      rw [List.lookup_eq_none_iff] at hc
      obtain ⟨p, hp, rfl⟩ := List.mem_map.1 hk
      have := hc p (List.mem_reverse.2 hp)
      simp at this
  refine ⟨fun k hk => (hl k).2.2.1 hk, ?_⟩
  obtain ⟨term, t1, t2⟩ := read_ok e w l (fun k => (pairs.reverse.lookup k).getD 0) _ u u' T (fun k => (hl k).1) (fun k hk => by
    obtain ⟨z, hz⟩ := hlook k hk
    obtain ⟨_, g2, _, g4, _⟩ := hl k
    obtain ⟨g5, g6, g7⟩ := g4 hk
    exact ⟨by rw [g2, hz]; rfl, g5, g6, g7⟩) h2
  refine ⟨term, t1, fun k hk => ?_⟩
  obtain ⟨z, hz⟩ := hlook k hk
  obtain ⟨a, b, v, d1, d2, d3, _, d5⟩ := t2 k hk
  obtain ⟨nrm, img, hv, _⟩ := d5 (Or.inl (by rw [(hl k).2.2.2.2.1]; exact hn k hk))
  simp only [hz, Option.getD_some] at hv d3
  exact ⟨z, a, b, nrm, img, hz, by rw [(hl k).2.1, hz]; rfl, d1, d2, by rw [d3, hv]⟩

/-- One object twice with the zero points 3 and 5: both terms are made of 5. -/
example : ((coaddRead (fun _ => demoEnv) (fun z b => (z, b.length)) [7, 7]
    (coaddLoop (fun _ => demoEnv) (1 / 2) [(7, 3), (7, 5)] fun _ => demoState).2).1 =
      .ok [((5, 1, 1), (5, 1)), ((5, 1, 1), (5, 1))]) ∧
    ((coaddRead (fun _ => demoEnv) (fun z b => (z, b.length)) [7, 8]
    (coaddLoop (fun _ => demoEnv) (1 / 2) [(7, 3), (8, 5)] fun _ => demoState).2).1 =
      .ok [((3, 1, 1), (3, 1)), ((5, 1, 1), (5, 1))]) := by
  decide +kernel

end Loop

/-! ## The zero points themselves -/

/-- The same stars in the same order, whatever the IDs. -/
def Cat.SameStars (c d : Cat) : Prop := c.rows.map (fun s => { s with sid := 0 }) = d.rows.map (fun s => ({ s with sid := 0 } : Src))

theorem SameStars.length {c d : Cat} (h : c.SameStars d) : c.rows.length = d.rows.length := by
  simpa using congrArg List.length h

theorem SameStars.row {c d : Cat} (h : c.SameStars d) (i : ℕ) (s t : Src) (hs : c.rows[i]? = some s) (ht : d.rows[i]? = some t) :
    s.x = t.x ∧ s.y = t.y ∧ s.flux = t.flux := by
  have := congrArg (·[i]?) h
  simp only [List.getElem?_map, hs, ht, Option.map_some, Option.some.injEq, Src.mk.injEq] at this
  exact ⟨this.1, this.2.1, this.2.2.1⟩

theorem SameStars.xy {c d : Cat} (h : c.SameStars d) : c.xy = d.xy := by
  have := congrArg (List.map fun s : Src => [s.x, s.y]) h
  simpa [Cat.xy, Function.comp_def] using this

theorem withSid_sameStars (c : Cat) (hc : c.Fresh) : (withSid c).SameStars c := by
  unfold Cat.SameStars
  apply List.ext_getElem?
  intro i
  rw [List.getElem?_map, withSid_fresh_getElem c hc, List.getElem?_map]
  cases c.rows[i]? <;> rfl

theorem idsFor_same (q : Query) (hq : KdContract q) (c cat : Cat) (hc : c.Fresh) (hs : cat.SameStars c) (hnd : c.xy.Nodup) :
    idsFor q (withSid c) cat = (withSid c).sids := by
  have hxy := SameStars.xy hs
  have hlen := sids_length (withSid c)
  have hun := fresh_unmatched c hc
  have hcl : c.xy.length = c.rows.length := by simp [Cat.xy]
  apply List.ext_getElem?
  intro i
  rw [withSid_fresh_sids c hc]
  split
  · rename_i hi
    have hm := identical_mutual q hq c cat hxy hnd i hi
    refine ((matching_iff_mutual q hq _ _ hlen hun cat.xy radius2 i (by rw [hxy]; omega) (i : ℤ)).2 ⟨i, ?_, ?_⟩).1
    · rw [withSid_xy]; exact hm
    · rw [withSid_fresh_sids c hc, if_pos hi]
  · rename_i hi
    rw [List.getElem?_eq_none_iff, idsFor, matching_length, hxy]
    omega

/-- A catalogue with the master's stars gets the master's rows. -/
theorem newCat_same (q : Query) (hq : KdContract q) (c cat : Cat) (hc : c.Fresh) (hs : cat.SameStars c) (hnd : c.xy.Nodup) :
    newCat q (withSid c) cat = ⟨(withSid c).rows, true, cat.det⟩ := by
  have hz : List.zipWith (fun (s : Src) v => { s with sid := v }) cat.rows (idsFor q (withSid c) cat) = (withSid c).rows := by
    rw [idsFor_same q hq c cat hc hs hnd]
    apply List.ext_getElem?
    intro i
    rw [List.getElem?_zipWith, withSid_fresh_sids c hc, withSid_fresh_getElem c hc]
    by_cases hi : i < c.rows.length
    · have hi' : i < cat.rows.length := by rw [SameStars.length hs]; exact hi
      obtain ⟨h1, h2, h3⟩ := SameStars.row hs i _ _ (List.getElem?_eq_getElem hi') (List.getElem?_eq_getElem hi)
      rw [if_pos hi, List.getElem?_eq_getElem hi', List.getElem?_eq_getElem hi]
      simp only [Option.map_some, h1, h2, h3]
    · rw [if_neg hi, List.getElem?_eq_none (by rw [SameStars.length hs]; omega), List.getElem?_eq_none (by omega)]
      rfl
  have hsort : (withSid c).rows.Pairwise fun a b => a.sid ≤ b.sid := by
    rw [List.pairwise_iff_getElem]
    intro i j hi hj hij
    have ei := withSid_fresh_getElem c hc i
    have ej := withSid_fresh_getElem c hc j
    rw [List.getElem?_eq_getElem hi, List.getElem?_eq_getElem (by rw [← withSid_length]; exact hi)] at ei
    rw [List.getElem?_eq_getElem hj, List.getElem?_eq_getElem (by rw [← withSid_length]; exact hj)] at ej
    simp only [Option.map_some, Option.some.injEq] at ei ej
    rw [ei, ej]
    simp only
    exact_mod_cast hij.le
  unfold newCat
  rw [hz, List.Pairwise.insertionSort_eq hsort]

theorem foldl_same (q : Query) (hq : KdContract q) (c : Cat) (hc : c.Fresh) (hnd : c.xy.Nodup) :
    ∀ (imgs : List ℕ) (st : Store), (∀ k ∈ imgs, (st k).SameStars c) →
    imgs.foldl (trStep q (withSid c)) (st, (withSid c).rows.map fun _ => true) =
      ((fun k => if k ∈ imgs then ⟨(withSid c).rows, true, (st k).det⟩ else st k), (withSid c).rows.map fun _ => true) := by
  intro imgs
  induction imgs with
  | nil => intro st _; simp
  | cons a t ih =>
    intro st hst
    have hstep : trStep q (withSid c) (st, (withSid c).rows.map fun _ => true) a =
        (st.set a ⟨(withSid c).rows, true, (st a).det⟩, (withSid c).rows.map fun _ => true) := by
      have h := hst a (by simp)
      unfold trStep
      simp only
      rw [newCat_same q hq c (st a) hc h hnd, idsFor_same q hq c (st a) hc h hnd]
      congr 1
      apply List.ext_getElem
      · simp
      · intro i h1 h2
        have hmem : ((withSid c).rows[i]'(by simpa using h2)).sid ∈ (withSid c).sids := by
          unfold Cat.sids
          exact List.mem_map.2 ⟨_, List.getElem_mem _, rfl⟩
        simp [hmem]
    rw [List.foldl_cons, hstep, ih _ (fun k hk => ?_)]
    · congr 1
      funext k
      by_cases hka : k = a
      · subst hka; simp [Store.set]
      · simp [Store.set, hka]
    · unfold Store.set
      split
      · exact withSid_sameStars c hc
      · exact hst k (by simp [hk])

/-- The matching stage for images with the master's stars, any of which may come several times (the master too). -/
theorem trMatch_same (q : Query) (hq : KdContract q) (st : Store) (m : ℕ) (imgs : List ℕ) (hc : (st m).Fresh)
    (hst : ∀ k ∈ imgs, (st k).SameStars (st m)) (hne : (st m).rows ≠ []) (hnd : (st m).xy.Nodup) :
    ∃ r, trMatch q st (m :: imgs) none = .ok r ∧ r.p = imgs.length + 1 ∧ r.det = (st m).rows.map (fun _ => true) ∧
      r.fluxes = (st m).rows.map (·.flux) ++ (st m).rows.flatMap fun s => imgs.map fun _ => s.flux := by
  set c := st m with hcdef
  have hrt : (withSid c).rows.map (fun _ => true) = c.rows.map (fun _ => true) := by
    apply List.ext_getElem <;> simp [withSid_length]
  have hsel : selectRows (withSid c).rows ((withSid c).rows.map fun _ => true) = (withSid c).rows := by
    rw [selectRows_map]
    simp
  have hfl : (withSid c).rows.map (·.flux) = c.rows.map (·.flux) := by
    apply List.ext_getElem?
    intro i
    rw [List.getElem?_map, withSid_fresh_getElem c hc, List.getElem?_map]
    cases c.rows[i]? <;> rfl
  have hlen : (withSid c).rows.length ≠ 0 := by
    rw [withSid_length]
    exact fun h => hne (List.length_eq_zero_iff.1 h)
  have hM : ((withSid c).rows.flatMap fun s => imgs.map fun k => (k, s.sid)).mapM
      (fun ks => fluxOf (if ks.1 ∈ imgs then ⟨(withSid c).rows, true, (st ks.1).det⟩ else st ks.1) ks.2) =
      .ok (c.rows.flatMap fun s => imgs.map fun _ => s.flux) := by
    rw [mapM_ok_map _ (fun ks => ((c.rows[ks.2.toNat]?).map (·.flux)).getD 0)]
    · congr 1
      rw [List.map_flatMap, List.flatMap_def, List.flatMap_def]
      congr 1
      apply List.ext_getElem?
      intro i
      rw [List.getElem?_map, withSid_fresh_getElem c hc, List.getElem?_map]
      cases hi : c.rows[i]? with
      | none => rfl
      | some s =>
        simp only [Option.map_some, List.map_map, Option.some.injEq]
        refine List.map_congr_left fun k _ => ?_
        simp [hi]
    · rintro ⟨k, v⟩ hkv
      obtain ⟨s, hs, hk⟩ := List.mem_flatMap.1 hkv
      obtain ⟨k', hk', he⟩ := List.mem_map.1 hk
      obtain ⟨rfl, rfl⟩ := Prod.mk.inj he
      obtain ⟨i, hi⟩ := List.mem_iff_getElem?.1 hs
      rw [withSid_fresh_getElem c hc] at hi
      obtain ⟨t, ht, rfl⟩ := Option.map_eq_some_iff.1 hi
      have hil : i < c.rows.length := (List.getElem?_eq_some_iff.1 ht).1
      have hsame := hst k' hk'
      have hil' : i < (st k').rows.length := by rw [SameStars.length hsame]; exact hil
      simp only [if_pos hk']
      rw [← newCat_same q hq c (st k') hc hsame hnd,
        fluxOf_newCat q hq c (st k') hc i i _ (identical_mutual q hq c (st k') (SameStars.xy hsame) hnd i hil)
          (List.getElem?_eq_getElem hil')]
      have := (SameStars.row hsame i _ _ (List.getElem?_eq_getElem hil') ht).2.2
      rw [this]
      simp [ht]
  have key : trMatch q st (m :: imgs) none = .ok
      { store := Store.set (fun k => if k ∈ imgs then ⟨(withSid c).rows, true, (st k).det⟩ else st k) m
          { withSid c with det := some ((withSid c).rows.map fun _ => true) }
        p := imgs.length + 1
        det := (withSid c).rows.map fun _ => true
        fluxes := (withSid c).rows.map (·.flux) ++ c.rows.flatMap fun s => imgs.map fun _ => s.flux } := by
    unfold trMatch
    simp only [splitMaster]
    rw [← hcdef, foldl_same q hq c hc hnd imgs st hst]
    simp only
    rw [hsel, if_neg hlen, hM]
  exact ⟨_, key, rfl, hrt, by rw [← hfl]⟩

/-- C137: images with the same stars get the zero points of `transparency_copies` also if some of them are one object. -/
theorem transparency_repeats (q : Query) (hq : KdContract q) (lsqr : ℕ → ℕ → List ℝ → ℕ → ℝ) (hl : MinLsqSolver lsqr)
    (st : Store) (m : ℕ) (imgs : List ℕ) (hc : (st m).Fresh)
    (hst : ∀ k ∈ imgs, (st k).SameStars (st m)) (hne : (st m).rows ≠ []) (hnd : (st m).xy.Nodup) :
    ∃ mm st', transparency q lsqr st (m :: imgs) none =
      .ok ((List.range (imgs.length + 1)).map (copyZp (imgs.length + 1) (st m).rows.length (rowMag (st m))), mm, st') := by
  obtain ⟨r, h1, h2, h3, h4⟩ := trMatch_same q hq st m imgs hc hst hne hnd
  obtain ⟨r', g1, g2, g3, g4⟩ := trMatch_same q hq (fun _ => st m) imgs.length (List.range imgs.length) hc (fun _ _ => rfl) hne hnd
  obtain ⟨mm, st', ht⟩ := transparency_copies q hq lsqr hl (fun _ => st m) imgs.length (List.range imgs.length)
    List.nodup_range hc (fun _ _ => rfl) hne hnd
  rw [List.length_range] at ht g2
  have hfl : r.fluxes = r'.fluxes := by
    rw [h4, g4]
    simp
  have hcount : r.det.count true ≠ 0 := by
    rw [h3]
    have : (st m).rows.length ≠ 0 := fun h => hne (List.length_eq_zero_iff.1 h)
    simpa [List.map_const'] using this
  have hcount' : r'.det.count true ≠ 0 := by rw [g3, ← h3]; exact hcount
  simp only [transparency, g1, if_neg hcount', Except.ok.injEq, Prod.mk.injEq] at ht
  refine ⟨some ((List.range (r.det.count true)).map fun i => lsqr r.p (r.det.count true) (r.fluxes.map magOf) (r.p + i)), r.store, ?_⟩
  simp only [transparency, h1, if_neg hcount]
  rw [← ht.1, h2, g2, hfl, h3, g3]

/-! ## What is coadded -/

/-- The zero point with which object `k` enters the sums: that of its last entry. -/
noncomputable def lastZp (images : List ℕ) (zps : List ℝ) (k : ℕ) : ℝ := ((images.zip zps).reverse.lookup k).getD 0

theorem lookup_replicate (k : ℕ) : ∀ (zps : List ℝ), zps ≠ [] →
    lastZp (List.replicate zps.length k) zps k = zps.getLastD 0 := by
  intro zps hne
  obtain ⟨t, z, rfl⟩ : ∃ t z, zps = t ++ [z] := ⟨zps.dropLast, zps.getLast hne, (List.dropLast_append_getLast hne).symm⟩
  unfold lastZp
  rw [List.length_append, List.length_singleton, List.replicate_succ', List.zip_append (by simp)]
  simp

/-- The zero points `transparency` returned. -/
def zpsOf (t : Py (List ℝ × Option (List ℝ) × Store)) : List ℝ :=
  match t with
  | .ok (zps, _) => zps
  | .error _ => []

/-- The sign of the zero point. -/
theorem copyGain_const {p : ℕ} (hp : 0 < p) (c : ℝ) (hc : c ≠ 0) :
    copyGain (fun _ : Fin p => c) = (if 0 < c then 1 else -1) * Real.sqrt p := by
  have hp' : (0 : ℝ) < p := by positivity
  have hsp : 0 < Real.sqrt p := Real.sqrt_pos.2 hp'
  unfold copyGain
  simp only [sum_const, card_univ, Fintype.card_fin, nsmul_eq_mul]
  rw [Real.sqrt_mul hp'.le, Real.sqrt_sq_eq_abs]
  have hs : (p : ℝ) = Real.sqrt p * Real.sqrt p := (Real.mul_self_sqrt hp'.le).symm
  split
  · rename_i h
    rw [abs_of_pos h, div_eq_iff (by positivity)]
    nlinarith [hs]
  · rename_i h
    have h' : c < 0 := lt_of_le_of_ne (not_lt.1 h) hc
    rw [abs_of_neg h', div_eq_iff (mul_ne_zero hsp.ne' (by linarith : -c ≠ 0))]
    nlinarith [hs]

/-- C137: one object given `p` times. If the zero point of the last entry is positive, the coadd is `√p` times that of the
object alone, the most that copies can reach. If it is negative, the coadd is the negative of that. -/
theorem coadd_one_object (q : Query) (hq : KdContract q) (lsqr : ℕ → ℕ → List ℝ → ℕ → ℝ) (hl : MinLsqSolver lsqr)
    (st : Store) (m : ℕ) (hfresh : (st m).Fresh) (hne : (st m).rows ≠ []) (hnd : (st m).xy.Nodup)
    (lt : List CoImg → List CoImg → Option Bool) (d : SinglePsf) (psfShape : ℕ) (hv : 0 < d.var) (p n : ℕ)
    (hp : 0 < p) (hn : n = (st m).rows.length) (c : ℝ) (hc : c = copyZp p n (rowMag (st m)) (p - 1)) (hc0 : c ≠ 0)
    (procs : ℤ) (hpr : procs ≤ p) (hpr' : procs ≤ 2 ^ 25) (hb : procs * p ≤ 2 ^ 50)
    (hm : d.mask.HasShape d.interped.h d.interped.w) :
    ∃ out one, coaddCore lt ((List.replicate p m).map fun k =>
        (d.withZp (lastZp (List.replicate p m) (zpsOf (transparency q lsqr st (List.replicate p m) none)) k)).toCoImg) psfShape procs =
          .ok out ∧
      coaddCore lt [(d.withZp 1).toCoImg] psfShape 1 = .ok one ∧
      ∀ i j, out.R.px i j = (((if 0 < c then 1 else -1) * Real.sqrt p : ℝ) : ℂ) * one.R.px i j := by
  obtain ⟨p', rfl⟩ : ∃ p', p = p' + 1 := ⟨p - 1, by omega⟩
  obtain ⟨mm, st', ht⟩ := transparency_repeats q hq lsqr hl st m (List.replicate p' m) hfresh
    (fun k hk => by rw [(List.mem_replicate.1 hk).2]; rfl) hne hnd
  rw [List.length_replicate, ← hn, ← List.replicate_succ] at ht
  have hz : lastZp (List.replicate (p' + 1) m) (zpsOf (transparency q lsqr st (List.replicate (p' + 1) m) none)) m = c := by
    rw [ht]
    change lastZp _ ((List.range (p' + 1)).map _) m = c
    have := lookup_replicate m ((List.range (p' + 1)).map (copyZp (p' + 1) n (rowMag (st m)))) (by simp)
    rw [List.length_map, List.length_range] at this
    rw [this, hc, List.range_succ, List.map_append]
    simp
  obtain ⟨out, one, e, e1, hR⟩ := coadd_copies_factor lt d psfShape hp (fun _ : Fin (p' + 1) => c) hv procs hpr hpr' hb hm
  refine ⟨out, one, ?_, e1, fun i j => ?_⟩
  · rw [List.map_replicate, hz, ← e, List.ofFn_const]
  · rw [hR, copyGain_const hp c hc0]

/-- The three copies of `twoStars_gain` as one object: the zero points are still 5, 7.5 and 2.5, but only the last is used and
the gain is the full one. -/
theorem twoStars_object (lt : List CoImg → List CoImg → Option Bool) :
    ∃ out one, coaddCore lt ((List.replicate 3 0).map fun k => ((twoExposures 0).withZp (lastZp (List.replicate 3 0)
        (zpsOf (transparency bruteQuery (fun p n m => closedForm p n (vecOf m)) twoStars (List.replicate 3 0) none)) k)).toCoImg) 0 2 =
          .ok out ∧
      coaddCore lt [((twoExposures 0).withZp 1).toCoImg] 0 1 = .ok one ∧
      ∀ i j, out.R.px i j = ((Real.sqrt 3 : ℝ) : ℂ) * one.R.px i j := by
  obtain ⟨z0, z1, z2⟩ := copyZp_three_two (rowMag (twoStars 0))
  have m0 : rowMag (twoStars 0) 0 = 15 := by
    have := magOf_pow10 2
    simp only [rowMag, twoStars, List.getElem?_cons_zero, Option.map_some, Option.getD_some]
    rw [this]
    norm_num
  have m1 : rowMag (twoStars 0) 1 = 10 := by
    have := magOf_pow10 4
    simp only [rowMag, twoStars, List.getElem?_cons_succ, List.getElem?_cons_zero, Option.map_some, Option.getD_some]
    rw [this]
    norm_num
  rw [m0, m1] at z2
  obtain ⟨out, one, e, e1, hR⟩ := coadd_one_object bruteQuery bruteQuery_contract _ minLsqSolver_exists
    twoStars 0 rfl (by simp [twoStars]) (by simp [twoStars, Cat.xy]) lt (twoExposures 0) 0
    (by norm_num [twoExposures]) 3 2 (by norm_num) rfl (5 / 2) (by rw [z2]; norm_num) (by norm_num) 2 (by norm_num) (by norm_num)
    (by norm_num) (twoExposures_shape 0).2.2
  refine ⟨out, one, e, e1, fun i j => ?_⟩
  rw [hR, if_pos (by norm_num), one_mul]
  rfl

/-- Two stars of a hundred and a million counts. -/
def faintBright : Store := fun _ => ⟨[⟨0, 0, 10 ^ 2, 0⟩, ⟨50, 50, 10 ^ 6, 0⟩], false, none⟩

/-- The last of the three zero points is -1: the coadd of the object with itself is its negative. -/
theorem faintBright_object (lt : List CoImg → List CoImg → Option Bool) :
    ∃ out one, coaddCore lt ((List.replicate 3 0).map fun k => ((twoExposures 0).withZp (lastZp (List.replicate 3 0)
        (zpsOf (transparency bruteQuery (fun p n m => closedForm p n (vecOf m)) faintBright (List.replicate 3 0) none)) k)).toCoImg) 0 2 =
          .ok out ∧
      coaddCore lt [((twoExposures 0).withZp 1).toCoImg] 0 1 = .ok one ∧
      ∀ i j, out.R.px i j = -((Real.sqrt 3 : ℝ) : ℂ) * one.R.px i j := by
  obtain ⟨z0, z1, z2⟩ := copyZp_three_two (rowMag (faintBright 0))
  have m0 : rowMag (faintBright 0) 0 = 15 := by
    have := magOf_pow10 2
    simp only [rowMag, faintBright, List.getElem?_cons_zero, Option.map_some, Option.getD_some]
    rw [this]
    norm_num
  have m1 : rowMag (faintBright 0) 1 = 5 := by
    have := magOf_pow10 6
    simp only [rowMag, faintBright, List.getElem?_cons_succ, List.getElem?_cons_zero, Option.map_some, Option.getD_some]
    rw [this]
    norm_num
  rw [m0, m1] at z2
  obtain ⟨out, one, e, e1, hR⟩ := coadd_one_object bruteQuery bruteQuery_contract _ minLsqSolver_exists
    faintBright 0 rfl (by simp [faintBright]) (by simp [faintBright, Cat.xy]) lt (twoExposures 0) 0
    (by norm_num [twoExposures]) 3 2 (by norm_num) rfl (-1) (by rw [z2]; norm_num) (by norm_num) 2 (by norm_num) (by norm_num)
    (by norm_num) (twoExposures_shape 0).2.2
  refine ⟨out, one, e, e1, fun i j => ?_⟩
  rw [hR, if_neg (by norm_num)]
  push_cast
  rw [neg_one_mul]

end PI
