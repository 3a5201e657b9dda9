import Verif.Props.Repeat
import Verif.Props.CoaddMore

/-!
# Property C187: coadding the same images again
-/

namespace PI

open Finset

theorem sameKeys_matches (q : Query) (hq : KdContract q) (M : List Pt) (c d : Cat) (h : c.SameKeys d) (hnt : NoTies M c.xy) :
    SameMatches q M c d := by
  obtain ⟨τ, hτ⟩ := sameKeys_moved c d h
  refine ⟨τ, fun o i => ?_, hτ.flux⟩
  exact mutual_moved q q hq hq id 1 τ M c.xy M d.xy (fun i => by simp) hτ.xy (fun _ _ _ _ => rfl) radius2 hnt o i

/-- C187: for any number of images the zero points and mean magnitudes depend on the stars of the catalogues, on the order
of the stars of the first image, and on nothing else. -/
theorem transparency_same_stars_many (q : Query) (hq : KdContract q) (lsqr : ℕ → ℕ → List ℝ → ℕ → ℝ) (st st' : Store) (m : ℕ)
    (imgs : List ℕ) (hnd : imgs.Nodup) (hm : (st m).Ready) (hm' : (st' m).Ready)
    (hM : (st m).rows.map Src.key = (st' m).rows.map Src.key) (hK : ∀ k ∈ imgs, (st k).SameKeys (st' k))
    (hnt : ∀ k ∈ imgs, NoTies (st m).xy (st k).xy) :
    ∃ zps mm s s', transparency q lsqr st (m :: imgs) none = .ok (zps, mm, s) ∧
      transparency q lsqr st' (m :: imgs) none = .ok (zps, mm, s') := by
  obtain ⟨r, r', e1, e2, e3, e4, e5⟩ := trMatch_numbers q hq st st' (m :: imgs) none m imgs rfl hnd
    (fun k hk => sameKeys_matches q hq _ _ _ (hK k hk) (hnt k hk)) hm.numbered hm'.numbered hM
  unfold transparency
  rw [e1, e2]
  simp only [e3, e4, e5]
  split <;> exact ⟨_, _, _, _, rfl, rfl⟩

theorem transparency_leaves_many (q : Query) (lsqr : ℕ → ℕ → List ℝ → ℕ → ℝ) (st : Store) (m : ℕ) (imgs : List ℕ)
    (hnd : (m :: imgs).Nodup) (hm : (st m).Ready) :
    ∃ zps mm s, transparency q lsqr st (m :: imgs) none = .ok (zps, mm, s) ∧ (s m).Ready ∧
      (s m).rows.map Src.key = (st m).rows.map Src.key ∧ ∀ k ∈ imgs, (s k).SameKeys (st k) := by
  have hnd' := List.nodup_cons.1 hnd
  obtain ⟨r, h1, _, _, h4, h5⟩ := trMatch_total q st (m :: imgs) none m imgs rfl hnd'.2
  have hst : ∃ zps mm, transparency q lsqr st (m :: imgs) none = .ok (zps, mm, r.store) := by
    unfold transparency
    rw [h1]
    simp only
    split <;> exact ⟨_, _, rfl⟩
  obtain ⟨zps, mm, e⟩ := hst
  refine ⟨zps, mm, r.store, e, ?_, ?_, fun k hk => ?_⟩
  · rw [h5 hnd'.1]
    split
    · exact hm
    · have := hm.numbered
      exact .inr ⟨this.has, this.nodup, this.un⟩
  · rw [h5 hnd'.1]
    split
    · rfl
    · exact withSid_keys _
  · rw [h4 k hk fun h => hnd'.1 (h ▸ hk)]
    unfold Cat.SameKeys newCat
    refine ((List.perm_insertionSort _ _).map _).trans ?_
    rw [List.map_zipWith]
    refine List.Perm.of_eq ?_
    apply List.ext_getElem
    · simp [idsFor, matching_length, Cat.xy]
    · intro i g1 g2
      simp [Src.key]

theorem foldl_measure (rej : ℕ → List Src → List ℕ) : ∀ (l : List ℕ) (s : Shelf), l.Nodup →
    (∀ k ∈ l, (l.foldl (Shelf.measure rej) s).seen k = true) ∧
    (∀ k, s.seen k = true → (l.foldl (Shelf.measure rej) s).seen k = true) ∧
    (∀ k, (l.foldl (Shelf.measure rej) s).cats k =
      if k ∈ l ∧ s.seen k = false then dropRejected (rej k) (s.cats k) else s.cats k) := by
  intro l
  induction l with
  | nil => exact fun s _ => ⟨fun k hk => absurd hk (by simp), fun k hk => hk, fun k => by simp⟩
  | cons a l ih =>
    intro s hnd
    obtain ⟨ha, hl⟩ := List.nodup_cons.1 hnd
    obtain ⟨i1, i2, i3⟩ := ih (s.measure rej a) hl
    have m1 : (s.measure rej a).seen a = true := by
      unfold Shelf.measure
      cases h : s.seen a <;> simp [h]
    have m2 : ∀ k, s.seen k = true → (s.measure rej a).seen k = true := by
      intro k hk
      unfold Shelf.measure
      cases h : s.seen a <;> simp [hk]
    have m3 : ∀ k ≠ a, (s.measure rej a).seen k = s.seen k ∧ (s.measure rej a).cats k = s.cats k := by
      intro k hk
      unfold Shelf.measure
      cases h : s.seen a <;> simp [hk, Store.set]
    have m4 : (s.measure rej a).cats a = if s.seen a = false then dropRejected (rej a) (s.cats a) else s.cats a := by
      unfold Shelf.measure
      cases h : s.seen a <;> simp [Store.set]
    rw [List.foldl_cons]
    refine ⟨fun k hk => ?_, fun k hk => i2 k (m2 k hk), fun k => ?_⟩
    · rcases List.mem_cons.1 hk with rfl | hk
      · exact i2 _ m1
      · exact i1 k hk
    · rw [i3 k]
      by_cases hka : k = a
      · subst hka
        rw [if_neg (by rw [m1]; simp), m4]
        simp
      · rw [(m3 k hka).1, (m3 k hka).2]
        simp [hka]

/-- One call. -/
theorem coaddZps_once (q : Query) (lsqr : ℕ → ℕ → List ℝ → ℕ → ℝ) (rej : ℕ → List Src → List ℕ) (m : ℕ) (imgs : List ℕ)
    (hnd : (m :: imgs).Nodup) (s : Shelf) (hm : (s.cats m).Ready) :
    ∃ zps mm cats s', transparency q lsqr s.cats (m :: imgs) none = .ok (zps, mm, cats) ∧
      coaddZps q lsqr rej (m :: imgs) s = .ok (zps, s') ∧ (∀ k ∈ m :: imgs, s'.seen k = true) ∧
      (cats m).Ready ∧ (cats m).rows.map Src.key = (s.cats m).rows.map Src.key ∧
      (∀ k ∈ imgs, (cats k).SameKeys (s.cats k)) ∧
      (∀ k ∈ m :: imgs, s'.cats k = if s.seen k then cats k else dropRejected (rej k) (cats k)) := by
  obtain ⟨zps, mm, cats, e, h1, h2, h3⟩ := transparency_leaves_many q lsqr s.cats m imgs hnd hm
  obtain ⟨i1, i2, i3⟩ := foldl_measure rej (m :: imgs) { s with cats := cats } hnd
  refine ⟨zps, mm, cats, _, e, by unfold coaddZps; rw [e], i1, h1, h2, h3, fun k hk => ?_⟩
  rw [i3 k]
  simp only [hk, true_and]
  cases s.seen k <;> simp

/-- `n` calls in a row, their zero points ignored. -/
noncomputable def coaddTimes (q : Query) (lsqr : ℕ → ℕ → List ℝ → ℕ → ℝ) (rej : ℕ → List Src → List ℕ) (imgs : List ℕ) :
    ℕ → Shelf → Py Shelf
  | 0, s => .ok s
  | n + 1, s => match coaddZps q lsqr rej imgs s with
    | .error e => .error e
    | .ok r => coaddTimes q lsqr rej imgs n r.2

theorem coaddTimes_keeps (q : Query) (lsqr : ℕ → ℕ → List ℝ → ℕ → ℝ) (rej : ℕ → List Src → List ℕ) (m : ℕ) (imgs : List ℕ)
    (hnd : (m :: imgs).Nodup) (n : ℕ) : ∀ s : Shelf, (s.cats m).Ready → (∀ k ∈ m :: imgs, s.seen k = true) →
    ∃ t, coaddTimes q lsqr rej (m :: imgs) n s = .ok t ∧ (t.cats m).Ready ∧
      (s.cats m).rows.map Src.key = (t.cats m).rows.map Src.key ∧ ∀ k ∈ imgs, (s.cats k).SameKeys (t.cats k) := by
  induction n with
  | zero => exact fun s hm _ => ⟨s, rfl, hm, rfl, fun _ _ => List.Perm.refl _⟩
  | succ n ih =>
    intro s hm hseen
    obtain ⟨zps, mm, cats, s', _, h2, h3, h4, h5, h6, h7⟩ := coaddZps_once q lsqr rej m imgs hnd s hm
    have h7' : ∀ k ∈ m :: imgs, s'.cats k = cats k := fun k hk => by rw [h7 k hk, if_pos (hseen k hk)]
    obtain ⟨t, g1, g2, g3, g4⟩ := ih s' (by rw [h7' m (by simp)]; exact h4) h3
    refine ⟨t, by rw [coaddTimes, h2]; exact g1, g2, ?_, fun k hk => ?_⟩
    · rw [← g3, h7' m (by simp), h5]
    · refine List.Perm.trans ?_ (g4 k hk)
      rw [h7' k (List.mem_cons_of_mem _ hk)]
      exact (h6 k hk).symm

/-- C187: `coadd` on the same image objects again and again, any number of them: the zero points. -/
theorem coadd_zps_again (q : Query) (hq : KdContract q) (lsqr : ℕ → ℕ → List ℝ → ℕ → ℝ) (rej : ℕ → List Src → List ℕ) (m : ℕ)
    (imgs : List ℕ) (hnd : (m :: imgs).Nodup) (s : Shelf) (hm : (s.cats m).Ready)
    (hnt : ∀ k ∈ imgs, NoTies (s.cats m).xy (s.cats k).xy) :
    ∃ z1 z2 mm cats s1, transparency q lsqr s.cats (m :: imgs) none = .ok (z1, mm, cats) ∧
      coaddZps q lsqr rej (m :: imgs) s = .ok (z1, s1) ∧
      (∀ k ∈ m :: imgs, s1.cats k = if s.seen k then cats k else dropRejected (rej k) (cats k)) ∧
      (cats m).rows.map Src.key = (s.cats m).rows.map Src.key ∧ (∀ k ∈ imgs, (cats k).SameKeys (s.cats k)) ∧
      (∀ st' : Store, (st' m).Fresh → (s1.cats m).rows.map Src.key = (st' m).rows.map Src.key →
        (∀ k ∈ imgs, (s1.cats k).SameKeys (st' k)) →
        ∃ mm' c', transparency q lsqr st' (m :: imgs) none = .ok (z2, mm', c')) ∧
      (∀ n, ∃ t t', coaddTimes q lsqr rej (m :: imgs) n s1 = .ok t ∧ coaddZps q lsqr rej (m :: imgs) t = .ok (z2, t')) ∧
      ((∀ k ∈ m :: imgs, s.seen k = true ∨ rej k (cats k).rows = [] ∨
        ((cats k).rows.length : ℤ) - (rej k (cats k).rows).length < 15) → z2 = z1) := by
  have hnd' := List.nodup_cons.1 hnd
  obtain ⟨z1, mm, cats, s1, h1, h2, h3, h4, h5, h6, h7⟩ := coaddZps_once q lsqr rej m imgs hnd s hm
  have hready : (s1.cats m).Ready := by
    rw [h7 m (by simp)]
    split
    · exact h4
    · exact h4.drop _
  have hsub : ∀ k ∈ m :: imgs, (s1.cats k).xy.Sublist (cats k).xy := by
    intro k hk
    rw [h7 k hk]
    split
    · exact List.Sublist.refl _
    · exact (dropRejected_sublist _ _).map _
  have hx1 : (cats m).xy = (s.cats m).xy := by rw [keys_xy, keys_xy, h5]
  have hnt1 : ∀ k ∈ imgs, NoTies (s1.cats m).xy (s1.cats k).xy := by
    intro k hk
    have h0 : NoTies (cats m).xy (cats k).xy := by
      rw [hx1]
      exact (hnt k hk).perm (SameKeys.xy (h6 k hk))
    exact h0.sublist (hsub m (by simp)) (hsub k (List.mem_cons_of_mem _ hk))
  obtain ⟨z2, mm2, c2, e2, _⟩ := transparency_leaves_many q lsqr s1.cats m imgs hnd hready
  have same : ∀ st' : Store, (st' m).Ready → (s1.cats m).rows.map Src.key = (st' m).rows.map Src.key →
      (∀ k ∈ imgs, (s1.cats k).SameKeys (st' k)) →
      ∃ mm' c', transparency q lsqr st' (m :: imgs) none = .ok (z2, mm', c') := by
    intro st' g1 g2 g3
    obtain ⟨z, a, b, c, k1, k2⟩ :=
      transparency_same_stars_many q hq lsqr s1.cats st' m imgs hnd'.2 hready g1 g2 g3 hnt1
    rw [e2] at k1
    rw [(Prod.mk.inj (Except.ok.inj k1)).1]
    exact ⟨_, _, k2⟩
  refine ⟨z1, z2, mm, cats, s1, h1, h2, h7, h5, h6, fun st' g => same st' (.inl g), fun n => ?_, fun hno => ?_⟩
  · obtain ⟨t, g1, g2, g3, g4⟩ := coaddTimes_keeps q lsqr rej m imgs hnd n s1 hready h3
    obtain ⟨mm', c', k⟩ := same t.cats g2 g3 g4
    have : ∃ t', coaddZps q lsqr rej (m :: imgs) t = .ok (z2, t') := by
      unfold coaddZps
      rw [k]
      exact ⟨_, rfl⟩
    obtain ⟨t', ht'⟩ := this
    exact ⟨t, t', g1, ht'⟩
  · have hrows : ∀ k ∈ m :: imgs, (s1.cats k).rows = (cats k).rows := by
      intro k hk
      rw [h7 k hk]
      split
      · rfl
      · rename_i hs
        rcases hno k hk with hk' | hk'
        · exact absurd hk' hs
        · unfold dropRejected
          split
          · rename_i hge
            rcases hk' with hk' | hk'
            · simp only [hk', deleteIdx_nil]
            · omega
          · rfl
    obtain ⟨mm', c', k⟩ := same s.cats hm (by rw [hrows m (by simp), h5])
      (fun k hk => by unfold Cat.SameKeys; rw [hrows k (List.mem_cons_of_mem _ hk)]; exact h6 k hk)
    rw [h1] at k
    exact (Prod.mk.inj (Except.ok.inj k)).1.symm

/-! ## The pixels of the second coadd -/

/-- A series of images that have been coadded before, about to be coadded with zero points `z`. -/
noncomputable def coaddedBefore {n : ℕ} (d : Fin n → SinglePsf) (z : Fin n → ℝ) : List CoImg :=
  List.ofFn fun j => (d j).toCoImg.again (z j)

/-- The same series as new image objects with zero points `z`. -/
noncomputable def neverCoadded {n : ℕ} (d : Fin n → SinglePsf) (z : Fin n → ℝ) : List CoImg :=
  (List.ofFn fun j => { d j with zp := z j }).map SinglePsf.toCoImg

theorem specP_before {n : ℕ} (d : Fin n → SinglePsf) (z : Fin n → ℝ) :
    specP (coaddedBefore d z) = specP (neverCoadded d z) := by
  funext k l
  unfold specP coaddedBefore neverCoadded
  rw [List.map_map, List.map_ofFn, List.map_ofFn]
  rfl

theorem specS_before {n : ℕ} (d : Fin n → SinglePsf) (z : Fin n → ℝ) :
    specS (coaddedBefore d z) = specS ((List.ofFn d).map SinglePsf.toCoImg) := by
  funext k l
  unfold specS coaddedBefore
  rw [List.map_map, List.map_ofFn, List.map_ofFn]
  rfl

/-- The transform of the second coadd: that of the first, filtered. -/
theorem coaddRhat_before {n : ℕ} (d : Fin n → SinglePsf) (z : Fin n → ℝ) (k l : ℕ) :
    coaddRhat (coaddedBefore d z) k l = coaddRhat ((List.ofFn d).map SinglePsf.toCoImg) k l *
      ((Real.sqrt (zackayPower (fun j => (d j).zp) (fun j => (d j).var) fun j => (d j).psfHat.px k l) /
        Real.sqrt (zackayPower z (fun j => (d j).var) fun j => (d j).psfHat.px k l) : ℝ) : ℂ) := by
  have h2 : specP (coaddedBefore d z) k l =
      (zackayPower z (fun j => (d j).var) (fun j => (d j).psfHat.px k l) : ℂ) := by
    rw [specP_before]
    exact specP_single (fun j => { d j with zp := z j }) k l
  unfold coaddRhat
  rw [specS_before, h2, specP_single, csqrt_ofReal_nonneg _ (zackayPower_nonneg _ _ _),
    csqrt_ofReal_nonneg _ (zackayPower_nonneg _ _ _)]
  set p1 := zackayPower (fun j => (d j).zp) (fun j => (d j).var) fun j => (d j).psfHat.px k l with hp1
  by_cases h0 : p1 = 0
  · have hS : specS ((List.ofFn d).map SinglePsf.toCoImg) k l = 0 := by
      unfold specS
      rw [List.map_map, List.map_ofFn, List.sum_ofFn]
      refine sum_eq_zero fun j _ => ?_
      have hj : (d j).zp ^ 2 / (d j).var ^ 2 * Complex.normSq ((d j).psfHat.px k l) = 0 :=
        (sum_eq_zero_iff_of_nonneg (fun i _ => mul_nonneg (by positivity) (Complex.normSq_nonneg _))).1 h0 j (mem_univ j)
      simp only [Function.comp, SinglePsf.toCoImg, SinglePsf.sHatComp, fourierShift, Img.map, Img.zip]
      rcases mul_eq_zero.1 hj with h | h
      · have : (d j).zp / (d j).var ^ 2 = 0 := by
          rcases div_eq_zero_iff.1 h with h | h
          · rw [pow_eq_zero_iff two_ne_zero |>.1 h, zero_div]
          · rw [h, div_zero]
        rw [this]
        simp
      · rw [Complex.normSq_eq_zero.1 h]
        simp
    rw [hS, zero_div, zero_div, zero_mul]
  · have hs : ((Real.sqrt p1 : ℝ) : ℂ) ≠ 0 := by
      rw [Complex.ofReal_ne_zero]
      exact Real.sqrt_ne_zero'.2 (lt_of_le_of_ne (zackayPower_nonneg _ _ _) (Ne.symm h0))
    push_cast
    field_simp

/-- C187: the second coadd of the same image objects. The PSF image is the one that new image objects with the new zero
points would give. The image is the first coadd, filtered with the ratio of the two normalisations; with unchanged zero
points it is the first coadd, with zero points all multiplied by `c` the first coadd divided by `c`. -/
theorem coadd_again_pixels (lt : List CoImg → List CoImg → Option Bool) {n : ℕ} (hn : n ≠ 0) (d : Fin n → SinglePsf)
    (z : Fin n → ℝ) (h w : ℕ) (hall : AllShape ((List.ofFn d).map SinglePsf.toCoImg) h w) (psfShape : ℕ) (N : ℤ)
    (hN : N ≤ n) (hN' : N ≤ 2 ^ 25) (hb : N * n ≤ 2 ^ 50) :
    ∃ first second fresh, coaddCore lt ((List.ofFn d).map SinglePsf.toCoImg) psfShape N = .ok first ∧
      coaddCore lt (coaddedBefore d z) psfShape N = .ok second ∧
      coaddCore lt (neverCoadded d z) psfShape N = .ok fresh ∧ second.Pr = fresh.Pr ∧
      first.R = ifftDefault ⟨h, w, coaddRhat ((List.ofFn d).map SinglePsf.toCoImg)⟩ ∧
      second.R = ifftDefault ⟨h, w, fun k l => coaddRhat ((List.ofFn d).map SinglePsf.toCoImg) k l *
        ((Real.sqrt (zackayPower (fun j => (d j).zp) (fun j => (d j).var) fun j => (d j).psfHat.px k l) /
          Real.sqrt (zackayPower z (fun j => (d j).var) fun j => (d j).psfHat.px k l) : ℝ) : ℂ)⟩ ∧
      ((∀ j, z j = (d j).zp) → second.R = first.R ∧ second.Pr = first.Pr) ∧
      (∀ c : ℝ, 0 < c → (∀ j, z j = c * (d j).zp) → ∀ i j, second.R.px i j = first.R.px i j / c) := by
  have hall2 : AllShape (coaddedBefore d z) h w := by
    intro im him
    obtain ⟨j, rfl⟩ := (List.mem_ofFn' _ _).1 him
    exact hall (d j).toCoImg (List.mem_map_of_mem (List.mem_ofFn' _ _ |>.2 ⟨j, rfl⟩))
  have hall3 : AllShape (neverCoadded d z) h w := by
    intro im him
    obtain ⟨x, hx, rfl⟩ := List.mem_map.1 him
    obtain ⟨j, rfl⟩ := (List.mem_ofFn' _ _).1 hx
    exact hall (d j).toCoImg (List.mem_map_of_mem (List.mem_ofFn' _ _ |>.2 ⟨j, rfl⟩))
  have l1 : ((List.ofFn d).map SinglePsf.toCoImg).length = n := by simp
  have l2 : (coaddedBefore d z).length = n := by simp [coaddedBefore]
  have l3 : (neverCoadded d z).length = n := by simp [neverCoadded]
  have ne : ∀ l : List CoImg, l.length = n → l ≠ [] := fun l hl h0 => hn (by rw [← hl, h0]; rfl)
  obtain ⟨o1, e1, s1, _⟩ := coadd_spec lt h w _ psfShape N (ne _ l1) hall (by rw [l1]; exact hN) hN' (by rw [l1]; exact hb)
  obtain ⟨o2, e2, s2, _⟩ := coadd_spec lt h w _ psfShape N (ne _ l2) hall2 (by rw [l2]; exact hN) hN' (by rw [l2]; exact hb)
  obtain ⟨o3, e3, s3, _⟩ := coadd_spec lt h w _ psfShape N (ne _ l3) hall3 (by rw [l3]; exact hN) hN' (by rw [l3]; exact hb)
  have r1 : o1.R = ifftDefault ⟨h, w, coaddRhat ((List.ofFn d).map SinglePsf.toCoImg)⟩ := (Prod.mk.inj s1).1
  have r2 : o2.R = ifftDefault ⟨h, w, coaddRhat (coaddedBefore d z)⟩ := (Prod.mk.inj s2).1
  have q1 : o1.Pr = coaddPsf ⟨h, w, specP ((List.ofFn d).map SinglePsf.toCoImg)⟩ psfShape := (Prod.mk.inj s1).2
  have q2 : o2.Pr = coaddPsf ⟨h, w, specP (coaddedBefore d z)⟩ psfShape := (Prod.mk.inj s2).2
  have q3 : o3.Pr = coaddPsf ⟨h, w, specP (neverCoadded d z)⟩ psfShape := (Prod.mk.inj s3).2
  have r2' := r2
  rw [show coaddRhat (coaddedBefore d z) = _ from funext fun k => funext fun l => coaddRhat_before d z k l] at r2'
  refine ⟨o1, o2, o3, e1, e2, e3, by rw [q2, q3, specP_before], r1, r2', fun hz => ?_, fun c hc hz i j => ?_⟩
  · have hd : neverCoadded d z = (List.ofFn d).map SinglePsf.toCoImg := by
      unfold neverCoadded
      congr 2
      funext j
      rw [hz j]
    refine ⟨?_, by rw [q2, q1, specP_before, hd]⟩
    rw [r2, r1]
    unfold coaddRhat
    rw [specS_before, specP_before, hd]
  · have hp : ∀ k l, zackayPower z (fun j => (d j).var) (fun j => (d j).psfHat.px k l) =
        c ^ 2 * zackayPower (fun j => (d j).zp) (fun j => (d j).var) fun j => (d j).psfHat.px k l := by
      intro k l
      unfold zackayPower
      rw [mul_sum]
      refine sum_congr rfl fun j _ => ?_
      rw [hz j]
      ring
    have hr : coaddRhat (coaddedBefore d z) = fun k l => coaddRhat ((List.ofFn d).map SinglePsf.toCoImg) k l * ((1 / c : ℝ) : ℂ) := by
      funext k l
      have hS : specP (coaddedBefore d z) k l = ((c ^ 2 * zackayPower (fun j => (d j).zp) (fun j => (d j).var)
          fun j => (d j).psfHat.px k l : ℝ) : ℂ) := by
        rw [← hp, specP_before]
        exact specP_single (fun j => { d j with zp := z j }) k l
      unfold coaddRhat
      rw [specS_before, hS, specP_single, csqrt_ofReal_nonneg _ (zackayPower_nonneg _ _ _),
        csqrt_ofReal_nonneg _ (mul_nonneg (by positivity) (zackayPower_nonneg _ _ _)), Real.sqrt_mul (by positivity),
        Real.sqrt_sq hc.le]
      push_cast
      rw [mul_comm (c : ℂ), ← div_div, div_eq_mul_one_div]
    rw [r2, r1, hr]
    unfold ifftDefault
    simp only [Img.map, idftSum]
    rw [div_right_comm]
    congr 1
    rw [sum_div]
    refine sum_congr rfl fun k _ => ?_
    rw [sum_div]
    refine sum_congr rfl fun l _ => ?_
    push_cast
    ring

/-! ## Worked out -/

theorem coaddZps_two (q : Query) (lsqr : ℕ → ℕ → List ℝ → ℕ → ℝ) (rej : ℕ → List Src → List ℕ) (a b : ℕ) (s : Shelf) :
    coaddZps q lsqr rej [a, b] s = subtractZps q lsqr rej a b s := rfl

/-- C187: coadding the two exposures of `nova` twice: other zero points, and in another proportion. -/
theorem coadd_again_differs (lsqr : ℕ → ℕ → List ℝ → ℕ → ℝ) (hl : MinLsqSolver lsqr) :
    ∃ s1 s2, coaddZps bruteQuery lsqr novaRej [0, 1] nova = .ok ([285 / 16, 275 / 16], s1) ∧
      coaddZps bruteQuery lsqr novaRej [0, 1] s1 = .ok ([300 / 17, 300 / 17], s2) :=
  subtract_again_differs lsqr hl

/-- Two exposures of one pixel that shows 1, with PSF 1 and noise 1, and zero points 3 and 4. -/
noncomputable def onePixel (j : Fin 2) : SinglePsf :=
  ⟨Img.const 1 1 1, Img.const 1 1 1, (0, 0), if j = 0 then 3 else 4, 1, none⟩

/-- C187: the first coadd is 7/5. When the zero points become 5 and 12 the second is 7/13; new image objects with these
zero points give 17/13. -/
theorem onePixel_again (lt : List CoImg → List CoImg → Option Bool) : ∃ first second fresh,
    coaddCore lt ((List.ofFn onePixel).map SinglePsf.toCoImg) 1 1 = .ok first ∧
    coaddCore lt (coaddedBefore onePixel fun j => if j = 0 then 5 else 12) 1 1 = .ok second ∧
    coaddCore lt (neverCoadded onePixel fun j => if j = 0 then 5 else 12) 1 1 = .ok fresh ∧
    first.R.px 0 0 = 7 / 5 ∧ second.R.px 0 0 = 7 / 13 ∧ fresh.R.px 0 0 = 17 / 13 := by
  have hall : AllShape ((List.ofFn onePixel).map SinglePsf.toCoImg) 1 1 := by
    intro im him
    obtain ⟨x, hx, rfl⟩ := List.mem_map.1 him
    obtain ⟨j, rfl⟩ := (List.mem_ofFn' _ _).1 hx
    exact ⟨rfl, rfl, by intro m hm; simp [SinglePsf.toCoImg, onePixel] at hm⟩
  obtain ⟨o1, o2, o3, e1, e2, e3, _, r1, r2, _⟩ := coadd_again_pixels lt (by norm_num) onePixel
    (fun j => if j = 0 then 5 else 12) 1 1 hall 1 1 (by norm_num) (by norm_num) (by norm_num)
  have hp : ∀ j, (onePixel j).psfHat.px 0 0 = 1 := by
    intro j
    simp [SinglePsf.psfHat, onePixel, fftOrtho, dft, padTo, Img.const, Img.map, tw]
  have hpw : ∀ a b : ℝ, zackayPower (fun j : Fin 2 => if j = 0 then a else b) (fun j => (onePixel j).var)
      (fun j => (onePixel j).psfHat.px 0 0) = a ^ 2 + b ^ 2 := by
    intro a b
    simp only [hp]
    simp [zackayPower, onePixel]
  have hz : ∀ a b : ℝ, coaddRhat ((List.ofFn fun j => { onePixel j with zp := if j = 0 then a else b }).map SinglePsf.toCoImg) 0 0 =
      (((a + b) / Real.sqrt (a ^ 2 + b ^ 2) : ℝ) : ℂ) := by
    intro a b
    rw [coadd_is_zackay]
    have hp' : ∀ j, ({ onePixel j with zp := if j = 0 then a else b } : SinglePsf).psfHat.px 0 0 = 1 := hp
    simp only [hp']
    simp [zackayR, onePixel, fftOrtho, dft, Img.const, Img.map, tw, shiftPhase]
  have hone : (fun j => { onePixel j with zp := if j = 0 then 3 else 4 }) = onePixel := rfl
  have hr1 := hz 3 4
  rw [hone] at hr1
  have hi : ∀ f : ℕ → ℕ → ℂ, (ifftDefault ⟨1, 1, f⟩).px 0 0 = f 0 0 := by
    intro f
    simp [ifftDefault, idftSum, Img.map, tw]
  have s25 : Real.sqrt (3 ^ 2 + 4 ^ 2) = 5 := by
    rw [show (3 : ℝ) ^ 2 + 4 ^ 2 = 5 ^ 2 by norm_num, Real.sqrt_sq (by norm_num)]
  have s169 : Real.sqrt (5 ^ 2 + 12 ^ 2) = 13 := by
    rw [show (5 : ℝ) ^ 2 + 12 ^ 2 = 13 ^ 2 by norm_num, Real.sqrt_sq (by norm_num)]
  refine ⟨o1, o2, o3, e1, e2, e3, ?_, ?_, ?_⟩
  · rw [r1, hi, hr1, s25]
    push_cast
    norm_num
  · rw [r2, hi, hr1]
    have h1 : zackayPower (fun j => (onePixel j).zp) (fun j => (onePixel j).var) (fun j => (onePixel j).psfHat.px 0 0) =
        3 ^ 2 + 4 ^ 2 := hpw 3 4
    rw [h1, hpw, s25, s169]
    push_cast
    norm_num
  · have hall3 : AllShape (neverCoadded onePixel fun j => if j = 0 then 5 else 12) 1 1 := by
      intro im him
      obtain ⟨x, hx, rfl⟩ := List.mem_map.1 him
      obtain ⟨j, rfl⟩ := (List.mem_ofFn' _ _).1 hx
      exact ⟨rfl, rfl, by intro m hm; simp [SinglePsf.toCoImg, onePixel] at hm⟩
    obtain ⟨o, e, s, _⟩ := coadd_spec lt 1 1 (neverCoadded onePixel fun j => if j = 0 then 5 else 12) 1 1
      (by simp [neverCoadded]) hall3 (by simp [neverCoadded]) (by norm_num) (by simp [neverCoadded])
    rw [e3] at e
    obtain rfl := Except.ok.inj e
    have : o3.R = ifftDefault ⟨1, 1, coaddRhat (neverCoadded onePixel fun j => if j = 0 then 5 else 12)⟩ := (Prod.mk.inj s).1
    rw [this, hi]
    have := hz 5 12
    rw [s169] at this
    refine this.trans ?_
    push_cast
    norm_num

end PI
