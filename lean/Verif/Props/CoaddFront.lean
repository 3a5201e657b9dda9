import Verif.Model.CoaddFront
import Verif.Props.CacheMore

/-!
# What coadd takes from an image object (C100), and what it does to its catalogue (C101)
-/

namespace PI
open PyS

variable {K F N S R W : Type} [Field K] [LinearOrder K]

/-! ## C100 -/

theorem setupFields_enter (e : KEnv K F N S R) (l : K) (s : PSFState K F N S R)
    (hc : (s.fields.isNone || lossChanged (some l) s.infLoss || false) = true) :
    setupFields e (some l) false s =
      (setupBasis e (some l) >>= fun _ => (modify fun s => { s with infLoss := l }) >>= fun _ => fieldsPart e) s := by
  unfold setupFields fieldsPart
  rw [get_bind, if_pos hc]

/-- After coadd has prepared an image, its PSF is the one for the information loss asked for, its zero
point is the new one, and what was cached of the matched filter is as it was. -/
theorem prepare_ok (e : KEnv K F N S R) (s t : PSFState K F N S R) (z l : K) (x : Unit) (hs : Coh e s)
    (h : coaddPrepare e z l s = (.ok x, t)) :
    Coh e t ∧ t.infLoss = l ∧ t.zp = some z ∧ t.fields.isSome ∧ t.basis.isSome ∧
      t.sHat = s.sHat ∧ t.sHatLoss = s.sHatLoss ∧ t.normal = s.normal := by
  unfold coaddPrepare at h
  rw [modify_bind] at h
  obtain ⟨s0, hs0⟩ : ∃ s0 : PSFState K F N S R, s0 = { s with zp := some z } := ⟨_, rfl⟩
  have hsame : SameKL s s0 := by rw [hs0]; exact ⟨rfl, rfl, rfl, rfl, rfl, rfl, rfl⟩
  have h0 : Coh e s0 := hsame.coh hs
  rw [← hs0] at h
  have k := keeps_run (keeps_setupFields e (some l) false) h
  unfold sPart at k
  simp only [Prod.mk.injEq] at k
  have hrest : t.zp = some z ∧ t.sHat = s.sHat ∧ t.sHatLoss = s.sHatLoss ∧ t.normal = s.normal := by
    obtain ⟨_, _, k3, k4, k5, k6⟩ := k
    rw [k3, k4, k5, k6, hs0]
    exact ⟨rfl, rfl, rfl, rfl⟩
  have hmain : Coh e t ∧ t.infLoss = l ∧ t.fields.isSome ∧ t.basis.isSome := by
    by_cases hc : (s0.fields.isNone || lossChanged (some l) s0.infLoss || false) = true
    · rw [setupFields_enter e l s0 hc] at h
      rcases hu : setupBasis e (some l) s0 with ⟨er | y, u⟩
      · rw [bind_err _ _ _ _ _ hu] at h; cases h
      rw [bind_ok _ _ _ _ _ hu, modify_bind] at h
      obtain ⟨hub, hus, hul, _, _⟩ := setupBasis_ok e (some l) s0 u y h0.toCohB hu
      have hul' : u.infLoss = l := hul
      have hself : ({ u with infLoss := l } : PSFState K F N S R) = u := by rw [← hul']
      rw [hself] at h
      obtain ⟨h1, h2, _, _, h3, _⟩ := setupFields_spec e none true u t _ hub hus (fun x h => by cases h)
        (Or.inl rfl) (by
          rw [setupFields_eq e none true u (fun x h => by cases h), Bool.or_true, if_pos rfl]
          exact h)
      obtain ⟨h4, h5⟩ := h3 x rfl
      exact ⟨h4, h1.trans hul', h5, by rw [h2]; exact hus⟩
    · have hf : s0.fields.isSome := by
        cases hff : s0.fields with
        | none => rw [hff] at hc; exact absurd rfl hc
        | some f => rfl
      have hl : s0.infLoss = l := by
        by_contra hne
        apply hc
        simp [lossChanged, hne]
      obtain ⟨f, hf⟩ := Option.isSome_iff_exists.1 hf
      obtain ⟨b, g, hb, _⟩ := h0.fields f hf
      unfold setupFields at h
      rw [get_bind, if_neg hc] at h
      cases h
      exact ⟨h0, hl, by rw [hf]; rfl, by rw [hb]; rfl⟩
  exact ⟨hmain.1, hmain.2.1, hrest.1, hmain.2.2.1, hmain.2.2.2, hrest.2⟩

/-- `get_variable_psf` when basis and coefficients are there. -/
theorem getVariablePsf_cached (e : KEnv K F N S R) (s t : PSFState K F N S R) (a : List (Option F))
    (b : List (Img K)) (a' : List (Option F)) (b' : List (Img K)) (hs : Coh e s) (ha : s.fields = some a)
    (hb : s.basis = some b) (h : getVariablePsf e none none s = (.ok (a', b'), t)) :
    a' = a ∧ b' = b ∧ t.fields = some a ∧ t.basis = some b := by
  unfold getVariablePsf at h
  rw [modify_bind, get_bind] at h
  have hself : ({ s with reqShape := (none : Option (ℕ × ℕ)).or s.reqShape } : PSFState K F N S R) = s := rfl
  change (setupBasis e none >>= _) s = _ at h
  rw [bind_ok _ _ _ _ _ (setupBasis_skip e none s (by rw [hb]; rfl) rfl)] at h
  have hf : setupFields e none (lossChanged none s.infLoss) s = (.ok (), s) := by
    rw [setupFields_eq e none _ s (fun x h => by cases h), ha]
    rfl
  change (setupFields e none (lossChanged none s.infLoss) >>= _) s = _ at h
  rw [bind_ok _ _ _ _ _ hf, bind_ok _ _ _ _ _ (klFields_some e s a ha),
    bind_ok _ _ _ _ _ (klBasis_some e s b hb)] at h
  obtain ⟨ht, hr⟩ := psf_tail e s t _ a b hs ha hb h
  have := hr _ rfl
  injection this with e1 e2
  exact ⟨e1, e2, ht ▸ ha, ht ▸ hb⟩

theorem normalImage_keeps (e : KEnv K F N S R) (s t : PSFState K F N S R) (n : N) (a : List (Option F))
    (b : List (Img K)) (hs : Coh e s) (ha : s.fields = some a) (hb : s.basis = some b)
    (h : normalImage e s = (.ok n, t)) : t.fields = some a ∧ t.basis = some b := by
  cases hn : s.normal with
  | some m => rw [normalImage_some e s m hn] at h; cases h; exact ⟨ha, hb⟩
  | none =>
    unfold normalImage at h
    rw [get_bind, hn] at h
    simp only at h
    rw [bind_eq_ok] at h
    obtain ⟨⟨a', b'⟩, u, h1, h2⟩ := h
    rw [modify_bind] at h2
    cases h2
    exact (getVariablePsf_cached e s u a b a' b' hs ha hb h1).2.2

/-- A fresh matched filter leaves basis and coefficients as they were. -/
theorem freshSHat_keeps (e : KEnv K F N S R) (s t : PSFState K F N S R) (v : S) (a : List (Option F))
    (b : List (Img K)) (hs : Coh e s) (ha : s.fields = some a) (hb : s.basis = some b)
    (h : freshSHat e s = (.ok v, t)) : t.fields = some a ∧ t.basis = some b := by
  unfold freshSHat at h
  rw [bind_eq_ok] at h
  obtain ⟨⟨a', b'⟩, u, h1, h⟩ := h
  rw [bind_eq_ok] at h
  obtain ⟨nrm, w, h2, h⟩ := h
  rw [bind_eq_ok] at h
  obtain ⟨img, x, h3, h⟩ := h
  rw [get_bind, modify_bind] at h
  cases h
  have hu := getVariablePsf_coh e none none s u _ hs h1
  have hcu := (hu.2 rfl).1
  obtain ⟨_, _, hua, hub⟩ := getVariablePsf_cached e s u a b a' b' hs ha hb h1
  obtain ⟨hwa, hwb⟩ := normalImage_keeps e u w nrm a b hcu hua hub h2
  have hx := imageFor_same e a' w x _ h3
  exact ⟨hx.fields.trans hwa, hx.basis.trans hwb⟩

theorem keeps_freshZp (e : KEnv K F N S R) :
    Keeps (fun s : PSFState K F N S R => s.zp) (freshSHat e) := by
  have lift : ∀ {α : Type} {f : PyS (PSFState K F N S R) α}, Keeps sPart f → Keeps (fun s => s.zp) f := by
    intro α f h s
    have := h s
    unfold sPart at this
    simp only [Prod.mk.injEq] at this
    exact this.2.2.2.2.1
  have hn : Keeps (fun s : PSFState K F N S R => s.zp) (normalImage e) := by
    unfold normalImage
    refine Keeps.bind .get fun s => ?_
    split
    · exact .pure _
    · exact .bind (lift (keeps_getVariablePsf e none none)) fun r => .bind (fun _ => rfl) fun _ => .pure _
  unfold freshSHat
  exact .bind (lift (keeps_getVariablePsf e none none)) fun r => .bind hn fun n =>
    .bind (lift (keeps_imageFor e _)) fun i => .bind .get fun s => .bind (fun _ => rfl) fun _ => .pure _

/-- C100: what one image adds to a coadd. The weight is made of the new zero point and of the PSF for
the information loss of this call. The matched filter is the one cached, if that was made for the same
information loss, whatever its zero point; otherwise it is made of the new zero point and the same PSF,
divided by the cached normalisation if there is one. -/
theorem coadd_image_terms (e : KEnv K F N S R) (w : K → List (Img K) → W) (s t : PSFState K F N S R)
    (z l : K) (v : S) (x : W) (hs : Coh e s) (h : coaddImage e w z l s = (.ok (v, x), t)) :
    ∃ a b, t.fields = some a ∧ t.basis = some b ∧ Coh e t ∧ t.infLoss = l ∧ x = w z b ∧
      t.zp = some z ∧ t.sHat = some v ∧ t.sHatLoss = some l ∧
      (∀ v0, s.sHat = some v0 → s.sHatLoss = some l → v = v0) ∧
      (s.sHat = none ∨ s.sHatLoss ≠ some l →
        ∃ nrm img, v = e.sOf z a b nrm img ∧ ∀ n, s.normal = some n → nrm = n) := by
  unfold coaddImage at h
  rw [bind_eq_ok] at h
  obtain ⟨_, u, h1, h⟩ := h
  obtain ⟨hcu, hul, huz, huf, hub, hu1, hu2, hu3⟩ := prepare_ok e s u z l _ hs h1
  obtain ⟨a, ha⟩ := Option.isSome_iff_exists.1 huf
  obtain ⟨b, hb⟩ := Option.isSome_iff_exists.1 hub
  unfold coaddTerms at h
  rw [bind_eq_ok] at h
  obtain ⟨v', y, h2, h⟩ := h
  rw [get_bind] at h
  have key : y.fields = some a ∧ y.basis = some b ∧ Coh e y ∧ y.infLoss = l ∧ y.zp = some z ∧
      y.sHat = some v' ∧ y.sHatLoss = some l ∧ (∀ v0, s.sHat = some v0 → s.sHatLoss = some l → v' = v0) ∧
      (s.sHat = none ∨ s.sHatLoss ≠ some l →
        ∃ nrm img, v' = e.sOf z a b nrm img ∧ ∀ n, s.normal = some n → nrm = n) := by
    have hcoh := sHatComp_coh e u y _ hcu h2
    rw [sHatComp_eq, hul, hu1, hu2] at h2
    cases hc : (if s.sHatLoss = some l then s.sHat else none) with
    | some v0 =>
      rw [hc] at h2
      cases h2
      have hl : s.sHatLoss = some l := by
        by_contra hne
        rw [if_neg hne] at hc
        cases hc
      rw [if_pos hl] at hc
      refine ⟨ha, hb, hcu, hul, huz, hu1.trans hc, hu2.trans hl, fun v0 h _ => ?_, fun h => ?_⟩
      · rw [hc] at h; cases h; rfl
      · rcases h with h | h
        · rw [hc] at h; cases h
        · exact absurd hl h
    | none =>
      rw [hc] at h2
      simp only at h2
      obtain ⟨a', b', nrm, img, q, hq, hv, hy1, hy2, _, hn⟩ := fresh_s_hat e u y v' hcu h2
      obtain ⟨rfl, rfl, _, _⟩ := getVariablePsf_cached e u q a b a' b' hcu ha hb hq
      obtain ⟨hya, hyb⟩ := freshSHat_keeps e u y v' _ _ hcu ha hb h2
      have hz : y.zp = some z := by
        have k := keeps_run (keeps_freshZp e) h2
        exact k.trans huz
      refine ⟨hya, hyb, hcoh.1, hcoh.2.trans hul, hz, hy1, by rw [hy2, hul], fun v0 h hl => ?_, fun _ => ?_⟩
      · rw [if_pos hl, h] at hc; cases hc
      · refine ⟨nrm, img, ?_, fun n h => hn n (hu3.trans h)⟩
        rw [hv, huz]
        rfl
  obtain ⟨k1, k2, k3, k4, k5, k6, k7, k8, k9⟩ := key
  rw [bind_ok _ _ _ _ _ (klBasis_some e y b k2), bind_ok _ _ _ _ _ (klFields_some e y a k1), k5] at h
  cases h
  exact ⟨a, b, k1, k2, k3, k4, rfl, k5, k6, k7, k8, k9⟩

/-- An image whose PSF and matched filter are there for the information loss asked for. -/
theorem coadd_image_cached (e : KEnv K F N S R) (w : K → List (Img K) → W) (s : PSFState K F N S R)
    (z l : K) (v : S) (a : List (Option F)) (b : List (Img K)) (ha : s.fields = some a) (hb : s.basis = some b)
    (hl : s.infLoss = l) (hv : s.sHat = some v) (hvl : s.sHatLoss = some l) :
    coaddImage e w z l s = (.ok (v, w z b), { s with zp := some z }) := by
  obtain ⟨y, hy⟩ : ∃ y : PSFState K F N S R, y = { s with zp := some z } := ⟨_, rfl⟩
  have ya : y.fields = some a := by rw [hy]; exact ha
  have yb : y.basis = some b := by rw [hy]; exact hb
  have yl : y.infLoss = l := by rw [hy]; exact hl
  have hp : coaddPrepare e z l s = (.ok (), y) := by
    unfold coaddPrepare
    rw [modify_bind, ← hy, setupFields_eq e (some l) false y (fun x hx => by
      injection hx with hx
      exact ⟨by rw [yb]; rfl, yl.trans hx⟩), ya]
    rfl
  have hsh : sHatComp e y = (.ok v, y) := by
    rw [sHatComp_eq, yl]
    have h1 : y.sHatLoss = some l := by rw [hy]; exact hvl
    have h2 : y.sHat = some v := by rw [hy]; exact hv
    rw [if_pos h1, h2]
  unfold coaddImage coaddTerms
  rw [bind_ok _ _ _ _ _ hp, bind_ok _ _ _ _ _ hsh, get_bind, bind_ok _ _ _ _ _ (klBasis_some e y b yb),
    bind_ok _ _ _ _ _ (klFields_some e y a ya), hy]
  rfl

/-- C100: coadding an image again with the same information loss uses the matched filter of the first
time, with the zero point of that time, and weighs it with the new zero point. -/
theorem coadd_again (e : KEnv K F N S R) (w : K → List (Img K) → W) (s t : PSFState K F N S R)
    (z1 l : K) (v : S) (x1 : W) (hs : Coh e s) (h0 : s.sHat = none)
    (h1 : coaddImage e w z1 l s = (.ok (v, x1), t)) :
    ∃ a b nrm img, v = e.sOf z1 a b nrm img ∧ x1 = w z1 b ∧
      ∀ z2, coaddImage e w z2 l t = (.ok (e.sOf z1 a b nrm img, w z2 b), { t with zp := some z2 }) := by
  obtain ⟨a, b, ta, tb, _, tl, hx1, _, tv, tvl, _, hf⟩ := coadd_image_terms e w s t z1 l v x1 hs h1
  obtain ⟨nrm, img, hv, _⟩ := hf (Or.inl h0)
  refine ⟨a, b, nrm, img, hv, hx1, fun z2 => ?_⟩
  rw [← hv]
  exact coadd_image_cached e w t z2 l v a b ta tb tl tv tvl

/-- A zero point of 3, then one of 5: the second coadd takes the matched filter of the first. -/
example : (coaddImage demoEnv (fun z b => (z, b.length)) 3 (1 / 2) demoState).1 = .ok ((3, 1, 1), (3, 1)) ∧
    (coaddImage demoEnv (fun z b => (z, b.length)) 5 (1 / 2)
      (coaddImage demoEnv (fun z b => (z, b.length)) 3 (1 / 2) demoState).2).1 = .ok ((3, 1, 1), (5, 1)) := by
  decide +kernel

/-! ## C101 -/

/-- C101: `coadd(align=True)` raises AttributeError when the catalogue of an image has not been read
before, and the images after it are untouched. -/
theorem align_unmeasured (e : Env) (s : SIState) (rest : List (Env × SIState)) (h : s.best = none) :
    updateAll ((e, s) :: rest) = (.error .AttributeError, s :: rest.map (·.2)) := by
  unfold updateAll
  rw [update_sources_unset e s none h]

/-- C101: images whose update succeeds are updated one by one. -/
theorem align_updates (l : List (Env × SIState × SIState))
    (h : ∀ p ∈ l, updateSources p.1 none p.2.1 = (.ok (), p.2.2)) :
    updateAll (l.map fun p => (p.1, p.2.1)) = (.ok (), l.map fun p => p.2.2) := by
  induction l with
  | nil => rfl
  | cons p l ih =>
    have ih := ih fun q hq => h q (List.mem_cons_of_mem _ hq)
    simp only [List.map_cons, updateAll]
    rw [h p List.mem_cons_self, ih]

/-- Detection does not depend on the size of sep's pixel stack. -/
def StackIndependent (e : Env) : Prop := ∀ th m p q, e.extract th m p = e.extract th m q

theorem detect_congr (e : Env) (s t : SIState) (hx : StackIndependent e) (hm : s.minSrc = t.minSrc) :
    (detect e s).1 = (detect e t).1 := by
  have h1 : (rungOne e s).1 = (rungOne e t).1 := by
    unfold rungOne
    rw [hx _ _ s.pixstack t.pixstack]
    cases e.extract (8 * e.rms) 9 t.pixstack <;> rfl
  have h2 : ∀ u v : SIState, (rungTwo e u).1 = (rungTwo e v).1 := by
    intro u v
    unfold rungTwo
    rw [hx _ _ u.pixstack v.pixstack]
    cases e.extract (3 * e.rms) 5 v.pixstack <;> rfl
  rw [detect_eq, detect_eq]
  rcases ha : rungOne e s with ⟨er | l, u⟩ <;> rcases hb : rungOne e t with ⟨er' | l', u'⟩ <;>
    rw [ha, hb] at h1 <;> simp only at h1 ⊢
  · exact h1
  · cases h1
  · cases h1
  · injection h1 with h1
    subst h1
    rw [hm]
    have := h2 u u'
    split
    · rcases hc : rungTwo e u with ⟨er | k, w⟩ <;> rcases hd : rungTwo e u' with ⟨er' | k', w'⟩ <;>
        rw [hc, hd] at this <;> simp only at this ⊢
      · exact this
      · cases this
      · cases this
      · injection this with this
        rw [this]
    · rfl

/-- C101: the first `update_sources()` of an image whose stamps have not been extracted detects the
sources, extracts the stamps and, if at least 15 stars are accepted, keeps only these. -/
theorem align_first (e : Env) (s u t : SIState) (old b : List SepRow) (h : s.best = some old)
    (hn : s.nSources = none) (hp : s.stampsPos = none) (hb : bestSources e { s with best := none } = (.ok b, u))
    (hc : b ≠ []) (hu : updateSources e none s = (.ok (), t)) :
    ∃ acc : List SepRow, acc.Sublist b ∧ t.stampsPos = some (acc.map fun p => (p.y, p.x)) ∧
      t.nSources = some acc.length ∧ t.best = some (if 15 ≤ acc.length then acc else b) ∧
      t.minSources = s.minSources := by
  obtain ⟨ps, hups⟩ := bestSources_frame e _ _ _ hb
  unfold updateSources at hu
  rw [get_bind, h] at hu
  simp only [modify_bind] at hu
  rw [bind_ok _ _ _ _ _ hb] at hu
  have hun : u.nSources = none := by rw [hups]; exact hn
  have hup : u.stampsPos = none := by rw [hups]; exact hp
  have hub : u.best = some b := by rw [hups]
  have hsp : stampsPos e u = extractStamps e u := by
    unfold stampsPos
    rw [get_bind, hup]
  have hstart : bestSources e (startState u) = (.ok b, startState u) := bestSources_cached e _ b hub
  rw [bind_eq_ok] at hu
  obtain ⟨k, v, h1, h2⟩ := hu
  cases h2
  unfold nSources at h1
  rw [get_bind, hun] at h1
  simp only at h1
  rw [bind_eq_ok] at h1
  obtain ⟨pos, w, h3, h4⟩ := h1
  rw [hsp] at h3
  have hwt : w = t := by
    rw [get_bind] at h4
    cases hw : w.nSources with
    | none => rw [hw] at h4; cases h4
    | some m => rw [hw] at h4; cases h4; rfl
  subst hwt
  obtain ⟨cands', ps', hb', hi⟩ := extraction_start e u w pos h3
  rw [hstart] at hb'
  injection hb' with e1 e2
  injection e1 with e1
  subst e1
  obtain ⟨img, hi⟩ := hi hc
  obtain ⟨outs, img', tr, hpos, ht⟩ := (extraction_spec e u w b pos ps' img hc (by rw [hstart, ← e2]) hi).1 h3
  refine ⟨(accepted b outs).map (·.1), accepted_sublist _ _, ?_, ?_, ?_, ?_⟩
  · rw [ht, hpos, List.map_map]; rfl
  · rw [ht, List.length_map]
  · rw [ht, List.length_map]
  · rw [ht, hups]

/-- C101: the next `update_sources()`, with the same image, puts the rejected stars back into the
catalogue, while number and positions of the stamps stay. -/
theorem align_second (e : Env) (s u t : SIState) (old b : List SepRow) (h : s.best = some old)
    (hn : s.nSources = none) (hp : s.stampsPos = none) (hb : bestSources e { s with best := none } = (.ok b, u))
    (hc : b ≠ []) (hx : StackIndependent e) (hu : updateSources e none s = (.ok (), t)) :
    ∃ t', updateSources e none t = (.ok (), t') ∧ t'.best = some b ∧ t'.nSources = t.nSources ∧
      t'.stampsPos = t.stampsPos := by
  obtain ⟨acc, _, _, hn', hbest, hmin⟩ := align_first e s u t old b h hn hp hb hc hu
  have hms : ({ s with best := none } : SIState).minSrc = ({ t with best := none } : SIState).minSrc := by
    change s.minSources.getD 20 = t.minSources.getD 20
    rw [hmin]
  have hd := detect_congr e _ _ hx hms
  rw [bestSources_fresh e _ rfl] at hb
  obtain ⟨t', hb'⟩ : ∃ t', bestSources e { t with best := none } = (.ok b, t') := by
    rw [bestSources_fresh e _ rfl]
    rcases ha : detect e { s with best := none } with ⟨er | l, y⟩
    · rw [ha] at hb; cases hb
    · rw [ha] at hb hd
      rcases hc' : detect e { t with best := none } with ⟨er | l', y'⟩
      · rw [hc'] at hd; cases hd
      · rw [hc'] at hd
        simp only at hd hb ⊢
        injection hd with hd
        subst hd
        by_cases hl : l.length < 2
        · rw [if_pos hl] at hb; cases hb
        · rw [if_neg hl] at hb ⊢
          cases hb
          exact ⟨_, rfl⟩
  obtain ⟨h1, h2, h3, _, h4⟩ := update_sources_redetect e t _ _ hbest hn' t' b hb'
  exact ⟨t', h1, h4, h2, h3⟩

end PI
