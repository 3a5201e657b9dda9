import Verif.Props.KLReturns
import Verif.Props.CoaddFront

/-!
# Property C178: when the first PSF and the first matched filter of an image are made
-/

namespace PI
open PyS

variable {K F N S R : Type} [Field K] [LinearOrder K]

/-- What a successful first measurement starts from: nothing of the PSF is known yet, the stamps (extracted now or before)
are finite, and the library finds an eigenvalue for each, not all of them zero. -/
structure Measurable (e : KEnv K F N S R) (s : PSFState K F N S R) (v : SIState) (l : K) (n : ℕ) (u : SIState) (c : Columns K)
    (g : Eig K) : Prop where
  fresh : s.basis = none ∧ s.fields = none ∧ s.eig = none ∧ s.cov = none ∧ s.mMat = none
  stars : nSources e.toEnv v = (.ok n, u)
  columns : dbColumns u.stampShape n (u.db.getD []) = some c
  eigh : e.eigh (covOf c) = .ok g
  count : g.vals.length = n
  nonzero : ∃ v ∈ g.vals, v ≠ 0
  loss : 0 ≤ l

/-- The basis is set up, with a new information loss or without. -/
theorem setup_basis_made [IsStrictOrderedRing K] (e : KEnv K F N S R) (s : PSFState K F N S R) (l : Option K) (n : ℕ)
    (u : SIState) (c : Columns K) (g : Eig K) (h : Measurable e s s.toSIState (l.getD s.infLoss) n u c g) :
    ∃ b, buildBasis c (decide (n ≤ 250)) (if s.smooth then some e.gauss else none) g u.stampShape (l.getD s.infLoss) = .ok b ∧
      b.length = klCut (l.getD s.infLoss) g.vals ∧
      setupBasis e l s = (.ok (), { s with
        toSIState := u
        infLoss := l.getD s.infLoss
        cov := some (covOf c)
        eig := some g
        mMat := if n ≤ 250 then some c else none
        basis := some b }) := by
  obtain ⟨⟨hb, -, hg, hc, hm⟩, hn, hd, hge, hv, h0, hl⟩ := h
  obtain ⟨hP, hcn⟩ := db_columns_size _ _ _ _ hd
  obtain ⟨b, hbb, hbl⟩ := build_basis_ok c (decide (n ≤ 250)) (if s.smooth then some e.gauss else none) g
    u.stampShape (l.getD s.infLoss) hP.symm (by rw [hcn, ← hv]; exact (kl_cut_range _ _ h0 hl).2)
  refine ⟨b, hbb, hbl, ?_⟩
  obtain ⟨s', hs'⟩ : ∃ s' : PSFState K F N S R, s' = { s with infLoss := l.getD s.infLoss } := ⟨_, rfl⟩
  have hcov : covMatrix e s' = (.ok (covOf c),
      { s' with
        toSIState := u
        cov := some (covOf c)
        mMat := if n ≤ 250 then some c else none }) := by
    have hon : onSI (nSources e.toEnv) s' = (.ok n, { s' with toSIState := u }) := by
      have : s'.toSIState = s.toSIState := by rw [hs']
      unfold onSI; rw [this, hn]
    have hm' : s'.mMat = none := by rw [hs']; exact hm
    unfold covMatrix
    rw [get_bind, show s'.cov = none by rw [hs']; exact hc]
    simp only
    rw [bind_ok _ _ _ _ _ hon, get_bind, modify_bind, ← hm']
    simp only [hd]
    rfl
  obtain ⟨w, hw⟩ : ∃ w : PSFState K F N S R, w = { s' with
    toSIState := u
    cov := some (covOf c)
    eig := some g
    mMat := if n ≤ 250 then some c else none } := ⟨_, rfl⟩
  have hev : eigenv e s' = (.ok g, w) := by
    unfold eigenv
    rw [get_bind, show s'.eig = none by rw [hs']; exact hg]
    simp only
    rw [bind_ok _ _ _ _ _ hcov, hge, hw]
    rfl
  have hwc : w.columns = some c := by
    unfold PSFState.columns
    rw [hw]
    by_cases hk : n ≤ 250
    · simp only [if_pos hk]
    · simp only [if_neg hk, nSources_records _ _ _ _ hn, Option.getD_some, hd]
  have hwm : w.mMat.isSome = decide (n ≤ 250) := by
    rw [hw]
    by_cases hk : n ≤ 250
    · simp [hk]
    · simp [hk]
  have hbw : buildBasis c w.mMat.isSome (if w.smooth then some e.gauss else none) g w.stampShape w.infLoss =
      .ok b := by
    rw [hwm, hw, hs']
    exact hbb
  unfold setupBasis
  rw [get_bind, if_pos (by rw [hb]; rfl), modify_bind]
  change (eigenv e >>= _) { s with infLoss := l.getD s.infLoss } = _
  rw [← hs', bind_ok _ _ _ _ _ hev, get_bind, hwc]
  simp only
  rw [hbw, bind_app]
  simp only [lift_app, modify_app, hw, hs']

omit [Field K] [LinearOrder K] in
/-- All fits succeed. -/
theorem fit_fields_ok (e : KEnv K F N S R) (n nf : ℕ) (g : Eig K) (pos : List (ℚ × ℚ))
    (h : ∀ k < min nf n, ∃ f, e.fit pos (measure n g (n - 1 - k)) = .ok f) :
    ∃ f, fitFields e n nf g pos = .ok f := by
  unfold fitFields
  have key : ∀ l : List ℕ, (∀ c ∈ l, ∃ f, e.fit pos (measure n g c) = .ok f) →
      ∃ f : List (Option F), l.mapM (fun col => (e.fit pos (measure n g col)).map some) = .ok f := by
    intro l
    induction l with
    | nil => exact fun _ => ⟨[], rfl⟩
    | cons a l ih =>
      intro hl
      obtain ⟨x, hx⟩ := hl a (List.mem_cons_self ..)
      obtain ⟨y, hy⟩ := ih fun c hc => hl c (List.mem_cons_of_mem _ hc)
      exact ⟨some x :: y, by rw [List.mapM_cons, hx, hy]; rfl⟩
  refine key _ fun c hc => ?_
  obtain ⟨k, hk, hkc⟩ := List.getElem_of_mem hc
  have hl : k < min nf n := by rw [List.length_reverse, lastCols_length] at hk; exact hk
  have := lastCols_reverse n nf k hl
  rw [List.getElem?_eq_getElem hk, hkc] at this
  cases this
  exact h k hl

omit [Field K] [LinearOrder K] in
/-- The first fit that fails is what is reported. -/
theorem fit_fields_raises (e : KEnv K F N S R) (n nf : ℕ) (g : Eig K) (pos : List (ℚ × ℚ)) (k : ℕ) (hk : k < min nf n)
    (er : PyErr) (h : ∀ j < k, ∃ f, e.fit pos (measure n g (n - 1 - j)) = .ok f)
    (hf : e.fit pos (measure n g (n - 1 - k)) = .error er) : fitFields e n nf g pos = .error er := by
  unfold fitFields
  have key : ∀ (l : List ℕ) (k : ℕ), (∀ j < k, ∀ c, l[j]? = some c → ∃ f, e.fit pos (measure n g c) = .ok f) →
      (∃ c, l[k]? = some c ∧ e.fit pos (measure n g c) = .error er) →
      l.mapM (fun col => (e.fit pos (measure n g col)).map some) = .error er := by
    intro l
    induction l with
    | nil => rintro k - ⟨c, hc, -⟩; cases hc
    | cons a l ih =>
      intro k h1 h2
      rw [List.mapM_cons]
      cases k with
      | zero =>
        obtain ⟨c, hc, h2⟩ := h2
        cases hc
        rw [h2]; rfl
      | succ k =>
        obtain ⟨f, hf⟩ := h1 0 (by omega) a rfl
        have := ih k (fun j hj c hc => h1 (j + 1) (by omega) c hc) h2
        rw [hf, this]; rfl
  refine key _ k (fun j hj c hc => ?_) ⟨_, lastCols_reverse n nf k hk, hf⟩
  rw [lastCols_reverse n nf j (by omega)] at hc
  cases hc
  exact h j hj

/-- C178: the first `get_variable_psf`. If the information loss asks for one element it returns that element, with `None` for
its coefficients, and fits nothing. Otherwise it returns or raises what the fits do, at the positions of the stars at that
moment. -/
theorem first_psf [IsStrictOrderedRing K] (e : KEnv K F N S R) (s : PSFState K F N S R) (l : Option K)
    (shape : Option (ℕ × ℕ)) (n : ℕ) (u : SIState) (c : Columns K) (g : Eig K)
    (h : Measurable e s { s.toSIState with reqShape := shape.or s.reqShape } (l.getD s.infLoss) n u c g) :
    ∃ b, buildBasis c (decide (n ≤ 250)) (if s.smooth then some e.gauss else none) g u.stampShape (l.getD s.infLoss) = .ok b ∧
      b.length = klCut (l.getD s.infLoss) g.vals ∧
      (b.length = 1 → (getVariablePsf e l shape s).1 = .ok ([none], b)) ∧
      (b.length ≠ 1 → ∀ best u1 pos u2, bestSources e.toEnv u = (.ok best, u1) → stampsPos e.toEnv u1 = (.ok pos, u2) →
        (pos = [] → (getVariablePsf e l shape s).1 = .error .IndexError) ∧
        (pos ≠ [] → (getVariablePsf e l shape s).1 = (fitFields e n b.length g pos).map fun f => (f, b))) := by
  obtain ⟨s', hs'⟩ : ∃ s' : PSFState K F N S R, s' = { s with reqShape := shape.or s.reqShape } := ⟨_, rfl⟩
  have hM : Measurable e s' s'.toSIState (l.getD s'.infLoss) n u c g := by
    rw [hs']
    exact ⟨h.fresh, h.stars, h.columns, h.eigh, h.count, h.nonzero, h.loss⟩
  obtain ⟨b, hb, hbl, hset⟩ := setup_basis_made e s' l n u c g hM
  have e1 : s'.smooth = s.smooth ∧ s'.infLoss = s.infLoss ∧ s'.fields = none := by rw [hs']; exact ⟨rfl, rfl, h.fresh.2.1⟩
  rw [e1.1, e1.2.1] at hb
  rw [e1.2.1] at hbl hset
  obtain ⟨w, hw⟩ : ∃ w : PSFState K F N S R, w = { s' with
        toSIState := u
        infLoss := l.getD s.infLoss
        cov := some (covOf c)
        eig := some g
        mMat := if n ≤ 250 then some c else none
        basis := some b } := ⟨_, rfl⟩
  rw [← hw] at hset
  have hwb : w.basis = some b := by rw [hw]
  have hwg : w.eig = some g := by rw [hw]
  have hwf : w.fields = none := by rw [hw]; exact e1.2.2
  have hwu : w.toSIState = u := by rw [hw]
  have hwl : w.infLoss = l.getD s.infLoss := by rw [hw]
  have run : getVariablePsf e l shape s = (do
      fieldsPart e
      let a ← klFields e
      let b ← klBasis e
      finishPsf a b) w := by
    unfold getVariablePsf
    rw [modify_bind, get_bind]
    rw [← hs', bind_ok _ _ _ _ _ hset]
    have hf : setupFields e l (lossChanged l s'.infLoss) w = fieldsPart e w := by
      rw [setupFields_eq e l _ w (fun x hx => by
        refine ⟨by rw [hwb]; rfl, ?_⟩
        rw [hwl, hx]; rfl), hwf]
      rfl
    rw [bind_app, hf]
    rw [bind_app (fieldsPart e)]
  refine ⟨b, hb, hbl, fun h1 => ?_, fun h1 best u1 pos u2 hbe hpo => ?_⟩
  · have hp : fieldsPart e w = (.ok (), { w with fields := some [none] }) := by
      unfold fieldsPart
      rw [bind_ok _ _ _ _ _ (klBasis_some e w b hwb), if_pos h1]
      rfl
    have hn : normHead b = b := buildBasis_norm _ _ _ _ _ _ _ hb h1
    rw [run, bind_ok _ _ _ _ _ hp, bind_ok _ _ _ _ _ (klFields_some e _ [none] rfl),
      bind_ok _ _ _ _ _ (klBasis_some e { w with fields := some [none] } b hwb)]
    have hne : b.isEmpty = false := by cases b with
      | nil => cases h1
      | cons x t => rfl
    unfold finishPsf
    simp only [hne, Bool.false_eq_true, if_false]
    rw [modify_bind, hn]
    rfl
  · have o1 : onSI (bestSources e.toEnv) w = (.ok best, { w with toSIState := u1 }) := by
      unfold onSI; rw [hwu, hbe]
    have o2 : onSI (stampsPos e.toEnv) { w with toSIState := u1 } = (.ok pos, { w with toSIState := u2 }) := by
      unfold onSI
      change ((stampsPos e.toEnv u1).1, _) = _
      rw [hpo]
    have hp : fieldsPart e w = ((if pos.isEmpty then raise .IndexError else do
        let g ← eigenv e
        let f ← lift (fitFields e g.vals.length b.length g pos)
        modify fun s => { s with fields := some f } : PyS (PSFState K F N S R) Unit)) { w with toSIState := u2 } := by
      unfold fieldsPart
      rw [bind_ok _ _ _ _ _ (klBasis_some e w b hwb), if_neg h1, bind_ok _ _ _ _ _ o1, bind_ok _ _ _ _ _ o2]
    constructor
    · rintro rfl
      rw [run, bind_err _ _ _ { w with toSIState := u2 } .IndexError hp]
    · intro hne
      have hpe : pos.isEmpty = false := by cases pos with
        | nil => exact absurd rfl hne
        | cons x t => rfl
      have hev : eigenv e ({ w with toSIState := u2 } : PSFState K F N S R) = (.ok g, { w with toSIState := u2 }) :=
        eigenv_some e { w with toSIState := u2 } g hwg
      simp only [hpe, Bool.false_eq_true, if_false] at hp
      rw [bind_ok _ _ _ _ _ hev, h.count] at hp
      cases hf : fitFields e n b.length g pos with
      | error er =>
        rw [hf] at hp
        rw [run, bind_err _ _ _ { w with toSIState := u2 } er hp]
        rfl
      | ok f =>
        rw [hf] at hp
        have hp' : fieldsPart e w = (.ok (), { w with toSIState := u2, fields := some f }) := hp
        rw [run, bind_ok _ _ _ _ _ hp', bind_ok _ _ _ _ _ (klFields_some e _ f rfl),
          bind_ok _ _ _ _ _ (klBasis_some e { w with toSIState := u2, fields := some f } b hwb)]
        obtain ⟨h3, h4⟩ := field_elements e n b.length g pos f hf
        have hr := kl_cut_range _ _ h.nonzero h.loss
        rw [h.count, ← hbl] at hr
        obtain ⟨x, hx, -⟩ := h4 0 (by omega)
        cases f with
        | nil => cases hx
        | cons y t => cases hx; rfl

/-- C178: with two elements or more the call returns if each fit does, with one coefficient function per element, that of
element `k` fitted to the eigenvector of the `k`-th largest eigenvalue at the stars' positions; otherwise it raises what the
first failing fit does. -/
theorem first_psf_fits [IsStrictOrderedRing K] (e : KEnv K F N S R) (s : PSFState K F N S R) (l : Option K)
    (shape : Option (ℕ × ℕ)) (n : ℕ) (u : SIState) (c : Columns K) (g : Eig K)
    (h : Measurable e s { s.toSIState with reqShape := shape.or s.reqShape } (l.getD s.infLoss) n u c g)
    (h1 : klCut (l.getD s.infLoss) g.vals ≠ 1) (best : List SepRow) (u1 : SIState) (pos : List (ℚ × ℚ)) (u2 : SIState)
    (hb : bestSources e.toEnv u = (.ok best, u1)) (hp : stampsPos e.toEnv u1 = (.ok pos, u2)) (hne : pos ≠ []) :
    ((∀ k < klCut (l.getD s.infLoss) g.vals, ∃ f, e.fit pos ((List.range n).map fun i => g.vec i (n - 1 - k)) = .ok f) →
      ∃ a b, (getVariablePsf e l shape s).1 = .ok (a, b) ∧ a.length = klCut (l.getD s.infLoss) g.vals ∧
        b.length = klCut (l.getD s.infLoss) g.vals ∧
        ∀ k < a.length, ∃ f, a[k]? = some (some f) ∧
          e.fit pos ((List.range n).map fun i => g.vec i (n - 1 - k)) = .ok f) ∧
    (∀ k < klCut (l.getD s.infLoss) g.vals, ∀ er,
      (∀ j < k, ∃ f, e.fit pos ((List.range n).map fun i => g.vec i (n - 1 - j)) = .ok f) →
      e.fit pos ((List.range n).map fun i => g.vec i (n - 1 - k)) = .error er →
      (getVariablePsf e l shape s).1 = .error er) := by
  obtain ⟨b, -, hbl, -, h2⟩ := first_psf e s l shape n u c g h
  have h3 := (h2 (hbl ▸ h1) best u1 pos u2 hb hp).2 hne
  have hr := kl_cut_range _ _ h.nonzero h.loss
  rw [h.count] at hr
  have hm : min b.length n = klCut (l.getD s.infLoss) g.vals := by rw [hbl]; exact min_eq_left hr.2
  constructor
  · intro hf
    obtain ⟨f, hff⟩ := fit_fields_ok e n b.length g pos (fun k hk => hf k (hm ▸ hk))
    obtain ⟨h4, h5⟩ := field_elements e n b.length g pos f hff
    rw [hff] at h3
    exact ⟨f, b, h3, h4.trans hm, hbl, h5⟩
  · intro k hk er hj hf
    rw [fit_fields_raises e n b.length g pos k (hm ▸ hk) er hj hf] at h3
    exact h3

/-- What `get_variable_psf` has returned it returns again, and nothing changes any more. -/
theorem psf_again (e : KEnv K F N S R) (l : Option K) (shape : Option (ℕ × ℕ)) (s t : PSFState K F N S R)
    (a : List (Option F)) (b : List (Img K)) (hs : Coh e s) (h : getVariablePsf e l shape s = (.ok (a, b), t)) :
    getVariablePsf e none none t = (.ok (a, b), t) := by
  obtain ⟨hc, -, ha, hb⟩ := (getVariablePsf_coh e l shape s t _ hs h).1 a b rfl
  have hne : (∃ x r, a = some x :: r) ∨ ((∃ r, a = none :: r) ∧ b ≠ []) := by
    unfold getVariablePsf at h
    rw [modify_bind, get_bind, bind_eq_ok] at h
    obtain ⟨_, _, -, h⟩ := h
    rw [bind_eq_ok] at h
    obtain ⟨_, _, -, h⟩ := h
    rw [bind_eq_ok] at h
    obtain ⟨a', _, -, h⟩ := h
    rw [bind_eq_ok] at h
    obtain ⟨b', v, -, h⟩ := h
    unfold finishPsf at h
    match a', h with
    | [], h => cases h
    | some x :: r, h => cases h; exact .inl ⟨x, r, rfl⟩
    | none :: r, h =>
      cases b' with
      | nil => cases h
      | cons y q => cases h; exact .inr ⟨⟨r, rfl⟩, by simp [normHead]⟩
  have run : getVariablePsf e none none t = finishPsf a b t := by
    unfold getVariablePsf
    rw [modify_bind, get_bind]
    change (setupBasis e none >>= _) t = _
    rw [bind_ok _ _ _ _ _ (setupBasis_skip e none t (by rw [hb]; rfl) rfl)]
    have hf : setupFields e none (lossChanged none t.infLoss) t = (.ok (), t) := by
      rw [setupFields_eq e none _ t (fun x h => by cases h), ha]
      rfl
    change (setupFields e none (lossChanged none t.infLoss) >>= _) t = _
    rw [bind_ok _ _ _ _ _ hf, bind_ok _ _ _ _ _ (klFields_some e t a ha), bind_ok _ _ _ _ _ (klBasis_some e t b hb)]
  rw [run]
  obtain ⟨p, hp⟩ : ∃ p, (finishPsf a b t).1 = .ok p := by
    rcases hne with ⟨x, r, rfl⟩ | ⟨⟨r, rfl⟩, h2⟩
    · exact ⟨_, rfl⟩
    · cases b with
      | nil => exact absurd rfl h2
      | cons y q => exact ⟨_, rfl⟩
  obtain ⟨h1, h2⟩ := psf_tail e t _ _ a b hc ha hb (rfl : finishPsf a b t = ((finishPsf a b t).1, (finishPsf a b t).2))
  exact Prod.ext (hp.trans (congrArg _ (h2 p hp))) h1

/-- The stored transform of the image: the PSF measurement does not touch it. -/
def hatPart (s : PSFState K F N S R) : Option (Img (Option ℚ)) :=
  s.imgHat

omit [Field K] [LinearOrder K] in
theorem hat_onSI {α : Type} (f : PyS SIState α) : Keeps (hatPart (K := K) (F := F) (N := N) (S := S) (R := R)) (onSI f) :=
  fun _ => rfl

omit [Field K] [LinearOrder K] in
theorem hat_modify (f : PSFState K F N S R → PSFState K F N S R) (h : ∀ s, hatPart (f s) = hatPart s) :
    Keeps hatPart (modify f) := h

omit [LinearOrder K] in
theorem hat_covMatrix (e : KEnv K F N S R) : Keeps hatPart (covMatrix e) := by
  unfold covMatrix
  refine Keeps.bind .get fun s => ?_
  split
  · exact .pure _
  · exact .bind (hat_onSI _) fun n => .bind .get fun s => .bind (hat_modify _ fun _ => rfl) fun _ => .pure _

omit [LinearOrder K] in
theorem hat_eigenv (e : KEnv K F N S R) : Keeps hatPart (eigenv e) := by
  unfold eigenv
  refine Keeps.bind .get fun s => ?_
  split
  · exact .pure _
  · refine .bind (hat_covMatrix e) fun c => ?_
    split
    · exact .raise _
    · exact .bind (hat_modify _ fun _ => rfl) fun _ => .pure _

theorem hat_setupBasis (e : KEnv K F N S R) (l : Option K) : Keeps hatPart (setupBasis e l) := by
  unfold setupBasis
  refine Keeps.bind .get fun s => .ite ?_ (.pure _)
  refine .bind (hat_modify _ fun _ => rfl) fun _ => .bind (hat_eigenv e) fun g => .bind .get fun s => ?_
  split
  · exact .raise _
  · exact .bind (.lift _) fun b => hat_modify _ fun _ => rfl

theorem hat_klBasis (e : KEnv K F N S R) : Keeps hatPart (klBasis e) := by
  unfold klBasis
  refine Keeps.bind .get fun s => ?_
  split
  · exact .pure _
  · refine .bind (hat_setupBasis e none) fun _ => .bind .get fun s => ?_
    split
    · exact .pure _
    · exact .raise _

theorem hat_setupFields (e : KEnv K F N S R) (l : Option K) (upd : Bool) : Keeps hatPart (setupFields e l upd) := by
  unfold setupFields
  refine Keeps.bind .get fun s => .ite ?_ (.pure _)
  have tail : Keeps (hatPart (K := K) (F := F) (N := N) (S := S) (R := R)) (fieldsPart e) := by
    unfold fieldsPart
    exact .bind (hat_klBasis e) fun b => .ite (hat_modify _ fun _ => rfl)
      (.bind (hat_onSI _) fun _ => .bind (hat_onSI _) fun pos => .ite (.raise _)
        (.bind (hat_eigenv e) fun g => .bind (.lift _) fun f => hat_modify _ fun _ => rfl))
  cases l with
  | none => exact tail
  | some x =>
    first
      | exact .bind (.bind (hat_setupBasis e _) fun _ => hat_modify _ fun _ => rfl) fun _ => tail
      | exact .bind (hat_setupBasis e _) fun _ => .bind (hat_modify _ fun _ => rfl) fun _ => tail

theorem hat_getVariablePsf (e : KEnv K F N S R) (l : Option K) (shape : Option (ℕ × ℕ)) :
    Keeps hatPart (getVariablePsf e l shape) := by
  unfold getVariablePsf
  refine Keeps.bind (hat_modify _ fun _ => rfl) fun _ => .bind .get fun s =>
    .bind (hat_setupBasis e l) fun _ => .bind (hat_setupFields e l _) fun _ => ?_
  refine .bind ?_ fun a => .bind (hat_klBasis e) fun b => ?_
  · unfold klFields
    refine Keeps.bind .get fun s => ?_
    split
    · exact .pure _
    · refine .bind (hat_setupFields e none false) fun _ => .bind .get fun s => ?_
      split
      · exact .pure _
      · exact .raise _
  · unfold finishPsf
    split
    · exact .raise _
    · exact .pure _
    · exact .ite (.raise _) (.bind (hat_modify _ fun _ => rfl) fun _ => .pure _)

/-- C178: the first matched filter. Once the PSF is measured, the normalisation is made from it, and the matched filter is
made of both as soon as the image can be interpolated; if that raises, the same is raised. -/
theorem first_matched_filter (e : KEnv K F N S R) (s t : PSFState K F N S R) (a : List (Option F)) (b : List (Img K))
    (hs : Coh e s) (h0 : s.normal = none ∧ s.sHat = none ∧ s.sComp = none ∧ s.imgHat = none)
    (h : getVariablePsf e none none s = (.ok (a, b), t)) :
    (normalImage e s).1 = .ok (e.normalOf a b) ∧
    (sHatComp e s).1 = (interped e.toEnv t.toSIState).1.map (e.sOf (s.zp.getD 1) a b (e.normalOf a b)) ∧
    (sComponent e s).1 = (interped e.toEnv t.toSIState).1.map fun img => e.inv (e.sOf (s.zp.getD 1) a b (e.normalOf a b) img) := by
  obtain ⟨hn, hh, hc, hi⟩ := h0
  replace hi : t.imgHat = none := (keeps_run (hat_getVariablePsf e none none) h).trans hi
  have k1 := keeps_run (keeps_getVariablePsf e none none) h
  unfold sPart at k1
  simp only [Prod.mk.injEq] at k1
  have n1 : ∀ v w : PSFState K F N S R, v.normal = none → getVariablePsf e none none v = (.ok (a, b), w) →
      normalImage e v = (.ok (e.normalOf a b), { w with normal := some (e.normalOf a b) }) := by
    intro v w hv hw
    unfold normalImage
    rw [get_bind, hv]
    simp only
    rw [bind_ok _ _ _ _ _ hw, modify_bind]
    rfl
  obtain ⟨w, hw⟩ : ∃ w : PSFState K F N S R, w = { t with normal := some (e.normalOf a b) } := ⟨_, rfl⟩
  have n2 : normalImage e t = (.ok (e.normalOf a b), w) :=
    hw ▸ n1 t t (k1.2.2.2.2.2.trans hn) (psf_again e none none s t a b hs h)
  have him : (imageFor e a w).1 = (interped e.toEnv t.toSIState).1 := by
    unfold imageFor
    have o : onSI (interped e.toEnv) w = ((interped e.toEnv t.toSIState).1, { w with
        toSIState := (interped e.toEnv t.toSIState).2 }) := by unfold onSI; rw [hw]
    split
    · unfold interpedHat
      rw [get_bind, show w.imgHat = none by rw [hw]; exact hi]
      simp only
      rw [bind_app, o]
      cases (interped e.toEnv t.toSIState).1 <;> rfl
    · rw [o]
  have sh : (sHatComp e s).1 = (interped e.toEnv t.toSIState).1.map (e.sOf (s.zp.getD 1) a b (e.normalOf a b)) := by
    rw [sHatComp_eq, show (if s.sHatLoss = some s.infLoss then s.sHat else none) = none by rw [hh]; split <;> rfl]
    simp only
    unfold freshSHat
    rw [bind_ok _ _ _ _ _ h, bind_ok _ _ _ _ _ n2, bind_app, ← him]
    have k3 : (imageFor e a w).2.zp = s.zp := by
      have := keeps_imageFor e a w
      unfold sPart at this
      simp only [Prod.mk.injEq] at this
      rw [this.2.2.2.2.1, hw]
      exact k1.2.2.2.2.1
    rcases hq : imageFor e a w with ⟨er | img, x⟩
    · rfl
    · rw [hq] at k3
      simp only at k3 ⊢
      rw [get_bind, modify_bind, k3]
      rfl
  refine ⟨by rw [n1 s t hn h], sh, ?_⟩
  unfold sComponent
  rw [get_bind, hc]
  simp only
  rcases hq : sHatComp e s with ⟨er | v, x⟩
  · rw [bind_err _ _ _ _ _ hq]
    rw [hq] at sh
    cases hj : (interped e.toEnv t.toSIState).1 with
    | error er' => rw [hj] at sh; cases sh; rfl
    | ok img => rw [hj] at sh; cases sh
  · rw [bind_ok _ _ _ _ _ hq]
    rw [hq] at sh
    cases hj : (interped e.toEnv t.toSIState).1 with
    | error er' => rw [hj] at sh; cases sh
    | ok img => rw [hj] at sh; cases sh; rfl

/-! ## A concrete object: two stars of one pixel -/

example : ∃ c, Measurable demoEnv demoState demoState.toSIState (1 / 10) 2 demoState.toSIState c
    ⟨[1, 3], fun s c => if s = c then 1 else 0⟩ := by
  obtain ⟨c, hc⟩ : ∃ c : Columns ℚ, dbColumns demoState.stampShape 2 (demoState.db.getD []) = some c := by
    unfold dbColumns
    rw [if_pos (by decide)]
    exact ⟨_, rfl⟩
  exact ⟨c, ⟨⟨rfl, rfl, rfl, rfl, rfl⟩, rfl, hc, rfl, rfl, ⟨1, by decide, by decide⟩, by norm_num⟩⟩

/-- At loss 1/2 one element is enough and nothing is fitted; at loss 1/10 both fits are made; the matched filters follow. -/
example : ((getVariablePsf demoEnv none none demoState).1.map fun p => (p.1, p.2.length)) = .ok ([none], 1) ∧
    ((getVariablePsf demoEnv (some (1 / 10)) none demoState).1.map fun p => (p.1, p.2.length)) =
      .ok ([some [0, 1], some [1, 0]], 2) ∧
    (sComponent demoEnv demoState).1 = .ok (1, 1, 1) := by
  decide +kernel

/-- A fit that fails is reported; one that is not needed is not. -/
example : (getVariablePsf { demoEnv with fit := fun _ _ => .error .ValueError } (some (1 / 10)) none demoState).1.map
      (fun p => p.2.length) =
      .error .ValueError ∧
    (sComponent { demoEnv with fit := fun _ _ => .error .ValueError } demoState).1 = .ok (1, 1, 1) := by
  decide +kernel

end PI
