import Verif.Model.Gone
import Verif.Props.CacheMore
import Verif.Props.KLMany

/-! # Property C160: an image whose temporary files have been removed -/

namespace PI
open PyS

variable {K F N S R : Type} [Field K] [LinearOrder K]

/-- The call goes as if the files could not be lost: same result or exception, same attributes. The
files can come back, but are not lost by it. -/
def AsIf {α : Type} (f' : PyS (Disk K F N S R) α) (f : PyS (PSFState K F N S R) α) (d : Disk K F N S R) :
    Prop :=
  (f' d).1 = (f d.obj).1 ∧ (f' d).2.obj = (f d.obj).2 ∧ ((f' d).2.lost = true → d.lost = true)

section asif
omit [Field K] [LinearOrder K]
variable {α β : Type}

theorem AsIf.bind {f' : PyS (Disk K F N S R) α} {f : PyS (PSFState K F N S R) α}
    {g' : α → PyS (Disk K F N S R) β} {g : α → PyS (PSFState K F N S R) β} {d : Disk K F N S R}
    (h : AsIf f' f d)
    (hg : ∀ a t, f d.obj = (.ok a, t.obj) → f' d = (.ok a, t) → (t.lost = true → d.lost = true) →
      AsIf (g' a) (g a) t) :
    AsIf (f' >>= g') (f >>= g) d := by
  obtain ⟨h1, h2, h3⟩ := h
  rcases hf' : f' d with ⟨r', t⟩
  rcases hf : f d.obj with ⟨r, u⟩
  rw [hf', hf] at h1 h2
  rw [hf'] at h3
  simp only at h1 h2 h3
  subst h1
  cases r' with
  | error er =>
    unfold AsIf
    rw [bind_err _ _ _ _ _ hf', bind_err _ _ _ _ _ hf]
    exact ⟨rfl, h2, h3⟩
  | ok a =>
    have hk := hg a t (by rw [hf, h2]) hf' h3
    unfold AsIf at hk ⊢
    rw [bind_ok _ _ _ _ _ hf', bind_ok _ _ _ _ _ hf, ← h2]
    exact ⟨hk.1, hk.2.1, fun h => h3 (hk.2.2 h)⟩

theorem AsIf.noFiles (f : PyS (PSFState K F N S R) α) (d : Disk K F N S R) : AsIf (noFiles f) f d :=
  ⟨rfl, rfl, id⟩

theorem AsIf.pure (a : α) (d : Disk K F N S R) : AsIf (Pure.pure a) (Pure.pure a) d := ⟨rfl, rfl, id⟩
theorem AsIf.raise (er : PyErr) (d : Disk K F N S R) :
    AsIf (PyS.raise er : PyS (Disk K F N S R) α) (PyS.raise er) d := ⟨rfl, rfl, id⟩
theorem AsIf.lift (r : Py α) (d : Disk K F N S R) :
    AsIf (PyS.lift r : PyS (Disk K F N S R) α) (PyS.lift r) d := ⟨rfl, rfl, id⟩
theorem AsIf.get {g' : Disk K F N S R → PyS (Disk K F N S R) β} {g : PSFState K F N S R → PyS (PSFState K F N S R) β}
    {d : Disk K F N S R} (h : AsIf (g' d) (g d.obj) d) :
    AsIf (PyS.get >>= g') (PyS.get >>= g) d := h

end asif

section reading
omit [LinearOrder K]

/-- The stamps are in the files, or will be when they are asked for. -/
def Disk.Readable (d : Disk K F N S R) : Prop :=
  d.lost = false ∨ (d.obj.nSources = none ∧ d.obj.willExtract = true)

omit [Field K] in
theorem asIf_nSources (e : KEnv K F N S R) (d : Disk K F N S R) :
    AsIf (nSourcesD e) (onSI (nSources e.toEnv)) d :=
  ⟨rfl, rfl, fun h => by simp only [nSourcesD, Bool.and_eq_true] at h; exact h.1⟩

omit [Field K] in
theorem asIf_stampsPos (e : KEnv K F N S R) (d : Disk K F N S R) :
    AsIf (stampsPosD e) (onSI (stampsPos e.toEnv)) d :=
  ⟨rfl, rfl, fun h => by simp only [stampsPosD, Bool.and_eq_true] at h; exact h.1⟩

omit [Field K] in
/-- Counting the sources brings the files back, if the stamps have not been cut. -/
theorem nSourcesD_lost (e : KEnv K F N S R) (d : Disk K F N S R) (h : d.Readable) :
    (nSourcesD e d).2.lost = false := by
  simp only [nSourcesD]
  rcases h with h | ⟨h1, h2⟩
  · rw [h]; rfl
  · rw [h1, h2]; simp

/-- The covariance after the sources have been counted. -/
theorem covMatrix_again (e : KEnv K F N S R) (s t : PSFState K F N S R) (n : ℕ) (hc : s.cov = none)
    (h : onSI (nSources e.toEnv) s = (.ok n, t)) : covMatrix e t = covMatrix e s := by
  have ht : t = { s with toSIState := t.toSIState } ∧ nSources e.toEnv s.toSIState = (.ok n, t.toSIState) := by
    unfold onSI at h
    rcases hn : nSources e.toEnv s.toSIState with ⟨r, u⟩
    rw [hn] at h
    simp only [Prod.mk.injEq] at h
    obtain ⟨h1, h2⟩ := h
    subst h1 h2
    exact ⟨rfl, rfl⟩
  have hun := nSources_records _ _ _ _ ht.2
  have htc : t.cov = none := by rw [ht.1]; exact hc
  have hnt : onSI (nSources e.toEnv) t = (.ok n, t) := by
    unfold onSI nSources
    rw [get_bind, hun]
    rfl
  unfold covMatrix
  rw [get_bind, get_bind, hc, htc]
  simp only
  rw [bind_ok _ _ _ _ _ h, bind_ok _ _ _ _ _ hnt]

theorem asIf_covMatrix (e : KEnv K F N S R) (d : Disk K F N S R)
    (h : d.obj.cov.isSome = true ∨ d.Readable) :
    AsIf (covMatrixD e) (covMatrix e) d := by
  cases hc : d.obj.cov with
  | some c =>
    unfold AsIf covMatrixD
    rw [get_bind, hc, covMatrix_some e _ c hc]
    exact ⟨rfl, rfl, id⟩
  | none =>
    have hr : d.Readable := by
      rcases h with h | h
      · rw [hc] at h; cases h
      · exact h
    have hl := nSourcesD_lost e d hr
    unfold AsIf covMatrixD
    rw [get_bind, hc]
    simp only
    rcases hn : nSourcesD e d with ⟨er | n, t⟩
    · rw [bind_err _ _ _ _ _ hn]
      have hn1 : onSI (nSources e.toEnv) d.obj = (.error er, t.obj) := by
        have := asIf_nSources e d
        rw [AsIf, hn] at this
        exact Prod.ext this.1.symm this.2.1.symm
      unfold covMatrix
      rw [get_bind, hc]
      simp only
      rw [bind_err _ _ _ _ _ hn1]
      refine ⟨rfl, rfl, fun h => ?_⟩
      rw [hn] at hl
      rw [hl] at h
      cases h
    · have hn1 : onSI (nSources e.toEnv) d.obj = (.ok n, t.obj) := by
        have := asIf_nSources e d
        rw [AsIf, hn] at this
        exact Prod.ext this.1.symm this.2.1.symm
      rw [hn] at hl
      simp only at hl
      rw [bind_ok _ _ _ _ _ hn, get_bind, hl]
      simp only [Bool.false_and, Bool.false_eq_true, if_false]
      have := covMatrix_again e _ _ n hc hn1
      simp only [noFiles, this]
      exact ⟨trivial, trivial, fun h => by rw [hl] at h; cases h⟩

/-- If nothing was cached, the files are there afterwards. -/
theorem covMatrixD_lost (e : KEnv K F N S R) (d : Disk K F N S R) (hc : d.obj.cov = none)
    (hr : d.Readable) : (covMatrixD e d).2.lost = false := by
  have hl := nSourcesD_lost e d hr
  unfold covMatrixD
  rw [get_bind, hc]
  simp only
  rcases hn : nSourcesD e d with ⟨er | n, t⟩
  · rw [bind_err _ _ _ _ _ hn]
    rw [hn] at hl
    exact hl
  · rw [hn] at hl
    simp only at hl
    rw [bind_ok _ _ _ _ _ hn, get_bind, hl]
    simp only [Bool.false_and, Bool.false_eq_true, if_false]
    exact hl

theorem asIf_eigenv (e : KEnv K F N S R) (d : Disk K F N S R)
    (h : d.obj.eig.isSome = true ∨ d.obj.cov.isSome = true ∨ d.Readable) :
    AsIf (eigenvD e) (eigenv e) d := by
  cases hg : d.obj.eig with
  | some g =>
    unfold AsIf eigenvD
    rw [get_bind, hg, eigenv_some e _ g hg]
    exact ⟨rfl, rfl, id⟩
  | none =>
    have h' : d.obj.cov.isSome = true ∨ d.Readable := by
      rcases h with h | h
      · rw [hg] at h; cases h
      · exact h
    have hA := asIf_covMatrix e d h'
    unfold AsIf eigenvD
    rw [get_bind, hg]
    simp only
    rcases hn : covMatrixD e d with ⟨er | c, t⟩
    · rw [bind_err _ _ _ _ _ hn]
      rw [AsIf, hn] at hA
      have hn1 : covMatrix e d.obj = (.error er, t.obj) := Prod.ext hA.1.symm hA.2.1.symm
      unfold eigenv
      rw [get_bind, hg]
      simp only
      rw [bind_err _ _ _ _ _ hn1]
      exact ⟨rfl, rfl, hA.2.2⟩
    · rw [bind_ok _ _ _ _ _ hn]
      rw [AsIf, hn] at hA
      have hn1 : covMatrix e d.obj = (.ok c, t.obj) := Prod.ext hA.1.symm hA.2.1.symm
      obtain ⟨f1, _, _, _, _, _, f7⟩ := covMatrix_frame e _ _ _ hn1
      have : eigenv e t.obj = eigenv e d.obj := by
        unfold eigenv
        rw [get_bind, get_bind, hg, f1, hg]
        simp only
        rw [bind_ok _ _ _ _ _ hn1, bind_ok _ _ _ _ _ (covMatrix_some e _ c (f7 c rfl))]
      simp only [noFiles, this]
      exact ⟨trivial, trivial, hA.2.2⟩

theorem eigenvD_lost (e : KEnv K F N S R) (d : Disk K F N S R) (hg : d.obj.eig = none)
    (hc : d.obj.cov = none) (hr : d.Readable) : (eigenvD e d).2.lost = false := by
  have hl := covMatrixD_lost e d hc hr
  unfold eigenvD
  rw [get_bind, hg]
  simp only
  rcases hn : covMatrixD e d with ⟨er | c, t⟩
  · rw [bind_err _ _ _ _ _ hn]
    rw [hn] at hl
    exact hl
  · rw [bind_ok _ _ _ _ _ hn]
    rw [hn] at hl
    exact hl

end reading

/-- All that a new basis needs is there: the files, or the covariance together with the matrix of the
stamps. -/
def Disk.Enough (d : Disk K F N S R) : Prop :=
  d.lost = false ∨ (d.obj.cov.isSome = true ∧ d.obj.mMat.isSome = true) ∨
    (d.obj.cov = none ∧ d.obj.eig = none ∧ d.obj.nSources = none ∧ d.obj.willExtract = true)

omit [LinearOrder K] in
/-- Once there is a covariance, the eigenvalues leave the matrix of the stamps alone. -/
theorem eigenv_mMat (e : KEnv K F N S R) (s t : PSFState K F N S R) (r : Py (Eig K))
    (hc : s.cov.isSome = true) (h : eigenv e s = (r, t)) : t.mMat = s.mMat := by
  obtain ⟨c, hc⟩ := Option.isSome_iff_exists.1 hc
  cases hg : s.eig with
  | some g => rw [eigenv_some e s g hg] at h; cases h; rfl
  | none =>
    unfold eigenv at h
    rw [get_bind, hg] at h
    simp only at h
    rw [bind_ok _ _ _ _ _ (covMatrix_some e s c hc)] at h
    cases he : e.eigh c with
    | error er => rw [he] at h; cases h; rfl
    | ok g => rw [he] at h; simp only at h; rw [modify_bind] at h; cases h; rfl

theorem asIf_setupBasis (e : KEnv K F N S R) (l : Option K) (d : Disk K F N S R)
    (h : (d.obj.basis.isSome = true ∧ lossChanged l d.obj.infLoss = false) ∨ d.Enough) :
    AsIf (setupBasisD e l) (setupBasis e l) d := by
  by_cases hc : (d.obj.basis.isNone || lossChanged l d.obj.infLoss) = true
  · have hE : d.Enough := by
      rcases h with ⟨h1, h2⟩ | h
      · rw [h2] at hc
        cases hb : d.obj.basis with
        | none => rw [hb] at h1; cases h1
        | some b => rw [hb] at hc; cases hc
      · exact h
    unfold setupBasisD setupBasis
    refine AsIf.get ?_
    rw [if_pos hc, if_pos hc]
    refine AsIf.bind (AsIf.noFiles _ d) fun _ d1 _ h1 _ => ?_
    obtain rfl : d1 = ⟨{ d.obj with infLoss := l.getD d.obj.infLoss }, d.lost⟩ := by
      unfold PI.noFiles at h1
      rw [modify_app] at h1
      exact (congrArg Prod.snd h1).symm
    have hA : AsIf (eigenvD e) (eigenv e) ⟨{ d.obj with infLoss := l.getD d.obj.infLoss }, d.lost⟩ := by
      refine asIf_eigenv e _ ?_
      rcases hE with h | ⟨h, _⟩ | ⟨_, _, h3, h4⟩
      · exact Or.inr (Or.inr (Or.inl h))
      · exact Or.inr (Or.inl h)
      · exact Or.inr (Or.inr (Or.inr ⟨h3, h4⟩))
    refine AsIf.bind hA fun g d2 h2 h2' hl => AsIf.get ?_
    have hno : (d2.lost && d2.obj.mMat.isNone && decide (0 < d2.obj.nSources.getD 0)) = false := by
      rcases hE with h | ⟨h, hm⟩ | ⟨ha, hb, h3, h4⟩
      · have : d2.lost = false := by
          cases hd : d2.lost with
          | false => rfl
          | true => exact absurd (hl hd) (by simp [h])
        rw [this]; rfl
      · have := eigenv_mMat e _ _ _ (by exact h) h2
        rw [this]
        obtain ⟨m, hm⟩ := Option.isSome_iff_exists.1 hm
        simp [hm]
      · have := eigenvD_lost e ⟨{ d.obj with infLoss := l.getD d.obj.infLoss }, d.lost⟩ hb ha (Or.inr ⟨h3, h4⟩)
        rw [h2'] at this
        simp only at this
        rw [this]; rfl
    rw [hno]
    exact AsIf.noFiles (makeBasis e g) d2
  · unfold setupBasisD setupBasis
    refine AsIf.get ?_
    rw [if_neg hc, if_neg hc]
    exact AsIf.pure () d

theorem asIf_klBasis (e : KEnv K F N S R) (d : Disk K F N S R) (h : d.obj.basis.isSome = true) :
    AsIf (klBasisD e) (klBasis e) d := by
  obtain ⟨b, hb⟩ := Option.isSome_iff_exists.1 h
  unfold klBasisD klBasis
  refine AsIf.get ?_
  rw [hb]
  exact AsIf.pure b d

theorem asIf_setupFields (e : KEnv K F N S R) (l : Option K) (upd : Bool) (d : Disk K F N S R)
    (hg : d.obj.eig.isSome = true) (hb : d.obj.basis.isSome = true)
    (hl : ∀ x, l = some x → d.obj.infLoss = x) :
    AsIf (setupFieldsD e l upd) (setupFields e l upd) d := by
  unfold setupFieldsD setupFields
  refine AsIf.get ?_
  by_cases hc : (d.obj.fields.isNone || lossChanged l d.obj.infLoss || upd) = true
  · rw [if_pos hc, if_pos hc]
    have tail : ∀ u : Disk K F N S R, u.obj.eig.isSome = true → u.obj.basis.isSome = true →
        AsIf (do
          let b ← klBasisD e
          if b.length = 1 then noFiles (modify fun s => { s with fields := some [none] })
          else do
            let _ ← noFiles (onSI (bestSources e.toEnv))
            let pos ← stampsPosD e
            if pos.isEmpty then raise .IndexError
            else do
              let g ← eigenvD e
              let f ← PyS.lift (fitFields e g.vals.length b.length g pos)
              noFiles (modify fun s => { s with fields := some f }))
          (do
          let b ← klBasis e
          if b.length = 1 then modify fun s => { s with fields := some [none] }
          else do
            let _ ← onSI (bestSources e.toEnv)
            let pos ← onSI (stampsPos e.toEnv)
            if pos.isEmpty then raise .IndexError
            else do
              let g ← eigenv e
              let f ← PyS.lift (fitFields e g.vals.length b.length g pos)
              modify fun s => { s with fields := some f }) u := by
      intro u hug hub
      refine AsIf.bind (asIf_klBasis e u hub) fun b u1 h1 _ _ => ?_
      obtain ⟨b', hb'⟩ := Option.isSome_iff_exists.1 hub
      rw [klBasis_some e _ b' hb'] at h1
      have hu1 : u1.obj = u.obj := (congrArg Prod.snd h1).symm
      by_cases h1l : b.length = 1
      · rw [if_pos h1l, if_pos h1l]
        exact AsIf.noFiles _ u1
      · rw [if_neg h1l, if_neg h1l]
        refine AsIf.bind (AsIf.noFiles _ u1) fun _ u2 h2 _ _ => ?_
        refine AsIf.bind (asIf_stampsPos e u2) fun pos u3 h3 _ _ => ?_
        by_cases hp : pos.isEmpty = true
        · rw [if_pos hp, if_pos hp]
          exact AsIf.raise _ u3
        · rw [if_neg hp, if_neg hp]
          have he3 : u3.obj.eig.isSome = true := by
            rw [(onSI_same _ _ _ _ h3).eig, (onSI_same _ _ _ _ h2).eig, hu1]
            exact hug
          refine AsIf.bind (asIf_eigenv e u3 (Or.inl he3)) fun g u4 _ _ _ => ?_
          exact AsIf.bind (AsIf.lift _ u4) fun f u5 _ _ _ => AsIf.noFiles _ u5
    cases l with
    | none => exact tail d hg hb
    | some x =>
      have hx := hl x rfl
      have hnc : lossChanged (some x) d.obj.infLoss = false := by simp [lossChanged, hx]
      refine AsIf.bind (asIf_setupBasis e (some x) d (Or.inl ⟨hb, hnc⟩)) fun _ u h _ _ => ?_
      rw [setupBasis_skip e _ _ hb hnc] at h
      have hu : u.obj = d.obj := (congrArg Prod.snd h).symm
      refine AsIf.bind (AsIf.noFiles _ u) fun _ v h' _ _ => ?_
      have hv : v.obj = { u.obj with infLoss := x } := (congrArg Prod.snd h').symm
      exact tail v (by rw [hv]; change u.obj.eig.isSome = true; rw [hu]; exact hg)
        (by rw [hv]; change u.obj.basis.isSome = true; rw [hu]; exact hb)
  · rw [if_neg hc, if_neg hc]
    exact AsIf.pure () d

theorem asIf_klFields (e : KEnv K F N S R) (d : Disk K F N S R) (h : d.obj.fields.isSome = true) :
    AsIf (klFieldsD e) (klFields e) d := by
  obtain ⟨f, hf⟩ := Option.isSome_iff_exists.1 h
  unfold klFieldsD klFields
  refine AsIf.get ?_
  rw [hf]
  exact AsIf.pure f d

/-- C160: `get_variable_psf` goes as if the files had not been removed when no new basis is needed, or
when what a new basis is made of is still there. -/
theorem psf_survives (e : KEnv K F N S R) (l : Option K) (shape : Option (ℕ × ℕ)) (d : Disk K F N S R)
    (hs : Coh e d.obj)
    (h : (d.obj.basis.isSome = true ∧ lossChanged l d.obj.infLoss = false) ∨
      (d.lost = false ∨ (d.obj.cov.isSome = true ∧ d.obj.mMat.isSome = true) ∨
        (d.obj.cov = none ∧ d.obj.nSources = none ∧ d.obj.stampsPos = none))) :
    (getVariablePsfD e l shape d).1 = (getVariablePsf e l shape d.obj).1 ∧
    (getVariablePsfD e l shape d).2.obj = (getVariablePsf e l shape d.obj).2 := by
  suffices hA : AsIf (getVariablePsfD e l shape) (getVariablePsf e l shape) d from ⟨hA.1, hA.2.1⟩
  unfold getVariablePsfD getVariablePsf
  refine AsIf.bind (AsIf.noFiles _ d) fun _ d1 h1 h1' _ => AsIf.get ?_
  obtain rfl : d1 = ⟨{ d.obj with reqShape := shape.or d.obj.reqShape }, d.lost⟩ := by
    unfold PI.noFiles at h1'
    rw [modify_app] at h1'
    exact (congrArg Prod.snd h1').symm
  have hs1 : Coh e ({ d.obj with reqShape := shape.or d.obj.reqShape } : PSFState K F N S R) :=
    hs.keep ⟨rfl, rfl, rfl, rfl, rfl, rfl, rfl⟩
  refine AsIf.bind (asIf_setupBasis e l _ ?_) fun _ d2 h2 _ _ => ?_
  · rcases h with h | h | h | ⟨h3, h4, h5⟩
    · exact Or.inl h
    · exact Or.inr (Or.inl h)
    · exact Or.inr (Or.inr (Or.inl h))
    · refine Or.inr (Or.inr (Or.inr ⟨h3, ?_, h4, ?_⟩))
      · cases hg : d.obj.eig with
        | none => rfl
        | some g =>
          have := hs.eigCov (by rw [hg]; rfl)
          rw [h3] at this
          cases this
      · unfold SIState.willExtract
        change (d.obj.stampsPos.isNone || _) = true
        rw [h5]; rfl
  · obtain ⟨c1, c2, c3, c4, c5⟩ := setupBasis_ok e l _ _ _ hs1.toCohB h2
    obtain ⟨b, hb⟩ := Option.isSome_iff_exists.1 c2
    obtain ⟨g, hg, _⟩ := c1.basis b hb
    have hl2 : ∀ x, l = some x → d2.obj.infLoss = x := by
      intro x hx
      rw [c3, hx]; rfl
    refine AsIf.bind (asIf_setupFields e l _ d2 (by rw [hg]; rfl) c2 hl2) fun _ d3 h3 _ _ => ?_
    have hcoh : lossChanged l d.obj.infLoss = true ∨ Coh e d2.obj := by
      cases hlc : lossChanged l d.obj.infLoss with
      | true => exact Or.inl rfl
      | false =>
        right
        have h2' := (setupBasis_unchanged e l _ (by exact hlc)).symm.trans h2
        exact (setupBasis_none_coh e _ _ _ hs1 h2').1
    obtain ⟨_, k2, _, _, k5, _⟩ := setupFields_spec e l _ _ _ _ c1 c2 hl2 hcoh h3
    refine AsIf.bind (asIf_klFields e d3 (k5 _ rfl).2) fun a d4 h4 _ _ => ?_
    obtain ⟨f, hf⟩ := Option.isSome_iff_exists.1 (k5 _ rfl).2
    rw [klFields_some e _ f hf] at h4
    have h4' : d4.obj = d3.obj := (congrArg Prod.snd h4).symm
    refine AsIf.bind (asIf_klBasis e d4 (by rw [h4', k2]; exact c2)) fun b' d5 _ _ _ => ?_
    exact AsIf.noFiles _ d5

/-! ## When the files are missed -/

omit [LinearOrder K] in
theorem covMatrixD_lost_raises (e : KEnv K F N S R) (s : PSFState K F N S R) (n : ℕ) (hn : s.nSources = some n)
    (h0 : 0 < n) (hc : s.cov = none) : covMatrixD e ⟨s, true⟩ = (.error .OSError, ⟨s, true⟩) := by
  have h : nSourcesD e ⟨s, true⟩ = (.ok n, ⟨s, true⟩) := by
    unfold nSourcesD onSI nSources
    simp only
    rw [get_bind, hn]
    simp
  unfold covMatrixD
  rw [get_bind, hc]
  simp only
  rw [bind_ok _ _ _ _ _ h, get_bind]
  simp [h0]

/-- C160: after the stamps have been cut and the files removed, a call that has to build a basis raises
an OSError when the covariance is not there, and when there is no matrix of the stamps (more than 250
sources). The information loss asked for is recorded all the same. -/
theorem psf_lost (e : KEnv K F N S R) (l : Option K) (shape : Option (ℕ × ℕ)) (s : PSFState K F N S R)
    (n : ℕ) (hn : s.nSources = some n) (h0 : 0 < n) (hb : s.basis = none ∨ lossChanged l s.infLoss = true)
    (h : (s.cov = none ∧ s.eig = none) ∨ (s.mMat = none ∧ ∃ g, s.eig = some g)) :
    getVariablePsfD e l shape ⟨s, true⟩ = (.error .OSError,
      ⟨{ s with reqShape := shape.or s.reqShape, infLoss := l.getD s.infLoss }, true⟩) := by
  obtain ⟨s1, hs1⟩ : ∃ s1 : PSFState K F N S R, s1 = { s with reqShape := shape.or s.reqShape } := ⟨_, rfl⟩
  obtain ⟨s2, hs2⟩ : ∃ s2 : PSFState K F N S R, s2 = { s with
    reqShape := shape.or s.reqShape, infLoss := l.getD s.infLoss } := ⟨_, rfl⟩
  have key : setupBasisD e l ⟨s1, true⟩ = (.error .OSError, ⟨s2, true⟩) := by
    unfold setupBasisD
    rw [get_bind, if_pos (by
      rw [hs1]
      rcases hb with hb | hb
      · simp [hb]
      · simp [hb])]
    have h1 : noFiles (modify fun s => { s with infLoss := l.getD s.infLoss }) (⟨s1, true⟩ : Disk K F N S R) =
        (.ok (), ⟨s2, true⟩) := by rw [hs1, hs2]; rfl
    rw [bind_ok _ _ _ _ _ h1]
    rcases h with ⟨hc, hg⟩ | ⟨hm, g, hg⟩
    · have h2 : eigenvD e ⟨s2, true⟩ = (.error .OSError, ⟨s2, true⟩) := by
        unfold eigenvD
        rw [get_bind]
        have : s2.eig = none := by rw [hs2]; exact hg
        simp only [this]
        exact bind_err _ _ _ _ _ (covMatrixD_lost_raises e s2 n (by rw [hs2]; exact hn) h0 (by rw [hs2]; exact hc))
      rw [bind_err _ _ _ _ _ h2]
    · have h2 : eigenvD e ⟨s2, true⟩ = (.ok g, ⟨s2, true⟩) := by
        unfold eigenvD
        rw [get_bind]
        have : s2.eig = some g := by rw [hs2]; exact hg
        simp only [this]
        rfl
      rw [bind_ok _ _ _ _ _ h2, get_bind, if_pos (by rw [hs2]; simp [hm, hn, h0])]
      rfl
  unfold getVariablePsfD
  have h1 : noFiles (modify fun s => { s with reqShape := shape.or s.reqShape }) (⟨s, true⟩ : Disk K F N S R) =
      (.ok (), ⟨s1, true⟩) := by rw [hs1]; rfl
  rw [bind_ok _ _ _ _ _ h1, get_bind, bind_err _ _ _ _ _ key, hs2]

/-- The object after a list of calls of `get_variable_psf`, each with its information loss and shape. -/
def afterCalls (e : KEnv K F N S R) (calls : List (Option K × Option (ℕ × ℕ))) (d : Disk K F N S R) :
    Disk K F N S R :=
  calls.foldl (fun d c => (getVariablePsfD e c.1 c.2 d).2) d

/-- C160: if only the positions of the stars were looked at before the files were removed, the PSF can
never be measured again: every call raises an OSError, whatever was tried before. -/
theorem positions_only (e : KEnv K F N S R) (s : PSFState K F N S R) (n : ℕ) (hn : s.nSources = some n)
    (h0 : 0 < n) (hb : s.basis = none) (hg : s.eig = none) (hc : s.cov = none)
    (calls : List (Option K × Option (ℕ × ℕ))) (l : Option K) (shape : Option (ℕ × ℕ)) :
    (getVariablePsfD e l shape (afterCalls e calls (Disk.clean ⟨s, false⟩))).1 = .error .OSError := by
  suffices h : ∃ s', afterCalls e calls (⟨s, true⟩ : Disk K F N S R) = ⟨s', true⟩ ∧ s'.nSources = some n ∧
      s'.basis = none ∧ s'.eig = none ∧ s'.cov = none by
    obtain ⟨s', h1, h2, h3, h4, h5⟩ := h
    unfold Disk.clean
    rw [h1, psf_lost e l shape s' n h2 h0 (Or.inl h3) (Or.inl ⟨h5, h4⟩)]
  induction calls generalizing s with
  | nil => exact ⟨s, rfl, hn, hb, hg, hc⟩
  | cons c cs ih =>
    unfold afterCalls
    rw [List.foldl_cons, psf_lost e c.1 c.2 s n hn h0 (Or.inl hb) (Or.inl ⟨hc, hg⟩)]
    exact ih _ hn hb hg hc

/-- A PSF that is cached, for the current information loss. -/
theorem psfD_cached (e : KEnv K F N S R) (l : Option K) (shape : Option (ℕ × ℕ)) (d : Disk K F N S R) (f : F)
    (fs : List (Option F)) (b : List (Img K)) (hb : d.obj.basis = some b)
    (hf : d.obj.fields = some (some f :: fs)) (hl : lossChanged l d.obj.infLoss = false) :
    (getVariablePsfD e l shape d).1 = .ok (some f :: fs, b) := by
  obtain ⟨u, hu⟩ : ∃ u : Disk K F N S R, u = ⟨{ d.obj with reqShape := shape.or d.obj.reqShape }, d.lost⟩ :=
    ⟨_, rfl⟩
  have h1 : noFiles (modify fun s => { s with reqShape := shape.or s.reqShape }) d = (.ok (), u) := by
    rw [hu]; rfl
  have hub : u.obj.basis = some b := by rw [hu]; exact hb
  have huf : u.obj.fields = some (some f :: fs) := by rw [hu]; exact hf
  have hul : lossChanged l u.obj.infLoss = false := by rw [hu]; exact hl
  have h2 : setupBasisD e l u = (.ok (), u) := by
    unfold setupBasisD
    rw [get_bind, if_neg (by rw [hub, hul]; simp)]
    rfl
  have h3 : setupFieldsD e l false u = (.ok (), u) := by
    unfold setupFieldsD
    rw [get_bind, if_neg (by rw [huf, hul]; simp)]
    rfl
  have h4 : klFieldsD e u = (.ok (some f :: fs), u) := by
    unfold klFieldsD
    rw [get_bind, huf]
    rfl
  have h5 : klBasisD e u = (.ok b, u) := by
    unfold klBasisD
    rw [get_bind, hub]
    rfl
  unfold getVariablePsfD
  rw [bind_ok _ _ _ _ _ h1, get_bind, hul, bind_ok _ _ _ _ _ h2, bind_ok _ _ _ _ _ h3, bind_ok _ _ _ _ _ h4,
    bind_ok _ _ _ _ _ h5]
  rfl

/-- C160: a PSF measured from more than 250 stars: after the files have been removed, a call with another
information loss raises an OSError, and the same call made again returns the PSF of the old loss. -/
theorem many_stars_lost (e : KEnv K F N S R) (s : PSFState K F N S R) (n : ℕ) (hn : s.nSources = some n)
    (h0 : 0 < n) (g : Eig K) (hg : s.eig = some g) (hm : s.mMat = none) (f : F) (fs : List (Option F))
    (b : List (Img K)) (hb : s.basis = some b) (hf : s.fields = some (some f :: fs)) (l : K)
    (hl : l ≠ s.infLoss) :
    (getVariablePsfD e (some l) none (Disk.clean ⟨s, false⟩)).1 = .error .OSError ∧
    (getVariablePsfD e (some l) none (getVariablePsfD e (some l) none (Disk.clean ⟨s, false⟩)).2).1 =
      .ok (some f :: fs, b) := by
  have h := psf_lost e (some l) none s n hn h0 (Or.inr (by simp [lossChanged, hl.symm])) (Or.inr ⟨hm, g, hg⟩)
  unfold Disk.clean
  rw [h]
  refine ⟨rfl, ?_⟩
  exact psfD_cached e (some l) none _ f fs b hb hf (by simp [lossChanged])

/-! ## Few stars -/

/-- C160: measuring the PSF of up to 250 stars leaves the covariance and the matrix of the stamps in the
object. -/
theorem few_stars_kept (e : KEnv K F N S R) (s t : PSFState K F N S R) (n : ℕ) (u : SIState) (l : Option K)
    (hb : s.basis = none) (hg : s.eig = none) (hc : s.cov = none)
    (hn : nSources e.toEnv s.toSIState = (.ok n, u)) (h250 : n ≤ 250)
    (h : setupBasis e l s = (.ok (), t)) : t.cov.isSome = true ∧ t.mMat.isSome = true := by
  obtain ⟨s1, hs1⟩ : ∃ s1 : PSFState K F N S R, s1 = { s with infLoss := l.getD s.infLoss } := ⟨_, rfl⟩
  unfold setupBasis at h
  rw [get_bind, if_pos (by rw [hb]; rfl), modify_bind, ← hs1] at h
  obtain ⟨cols, hcols⟩ : ∃ cols, cols = dbColumns (K := K) u.stampShape n (u.db.getD []) := ⟨_, rfl⟩
  have hcov : covMatrix e s1 = (.ok (covOrNan cols), { s1 with
      toSIState := u, cov := some (covOrNan cols), mMat := cols }) := by
    have hon : onSI (nSources e.toEnv) s1 = (.ok n, { s1 with toSIState := u }) := by
      unfold onSI; rw [hs1, hn]
    have hc1 : s1.cov = none := by rw [hs1]; exact hc
    unfold covMatrix
    rw [get_bind, hc1]
    simp only
    rw [bind_ok _ _ _ _ _ hon, get_bind, modify_bind]
    simp only [if_pos h250, ← hcols]
    rfl
  have hg1 : s1.eig = none := by rw [hs1]; exact hg
  cases hge : e.eigh (covOrNan cols) with
  | error er =>
    have : ∃ v, eigenv e s1 = (.error .ValueError, v) := by
      refine ⟨(covMatrix e s1).2, ?_⟩
      unfold eigenv
      rw [get_bind, hg1]
      simp only
      rw [bind_ok _ _ _ _ _ hcov, hge, hcov]
      rfl
    obtain ⟨v, hv⟩ := this
    rw [bind_err _ _ _ _ _ hv] at h
    cases h
  | ok g =>
    obtain ⟨w, hw⟩ : ∃ w : PSFState K F N S R, w = { s1 with
      toSIState := u, cov := some (covOrNan cols), eig := some g, mMat := cols } := ⟨_, rfl⟩
    have hev : eigenv e s1 = (.ok g, w) := by
      unfold eigenv
      rw [get_bind, hg1]
      simp only
      rw [bind_ok _ _ _ _ _ hcov, hge, hw]
      rfl
    rw [bind_ok _ _ _ _ _ hev, get_bind] at h
    have hun := nSources_records _ _ _ _ hn
    cases hd : cols with
    | none =>
      have : w.columns = none := by
        unfold PSFState.columns
        rw [hw, hd]
        simp only [hun, Option.getD_some]
        rw [← hcols, hd]
      rw [this] at h
      cases h
    | some c =>
      have hwm : w.mMat = some c ∧ w.cov.isSome = true := by rw [hw, hd]; exact ⟨rfl, rfl⟩
      have : w.columns = some c := by
        unfold PSFState.columns
        rw [hwm.1]
      rw [this] at h
      simp only at h
      rw [bind_app] at h
      simp only [lift_app] at h
      revert h
      cases buildBasis c w.mMat.isSome (if w.smooth = true then some e.gauss else none) g w.stampShape
          w.infLoss with
      | error er => intro h; cases h
      | ok b =>
        intro h
        simp only [modify_app] at h
        cases h
        exact ⟨hwm.2, by change w.mMat.isSome = true; rw [hwm.1]; rfl⟩

/-- C160: so a PSF measured from up to 250 stars can be asked for again with any information loss after
the files have been removed. -/
theorem few_stars_survive (e : KEnv K F N S R) (s t : PSFState K F N S R) (n : ℕ) (u : SIState)
    (h0 : Unmeasured s) (hc : s.cov = none) (hn : nSources e.toEnv s.toSIState = (.ok n, u)) (h250 : n ≤ 250)
    (l : Option K) (p : List (Option F) × List (Img K))
    (h : getVariablePsf e l none s = (.ok p, t)) (l' : Option K) (shape' : Option (ℕ × ℕ)) :
    (getVariablePsfD e l' shape' (Disk.clean ⟨t, false⟩)).1 = (getVariablePsf e l' shape' t).1 ∧
    (getVariablePsfD e l' shape' (Disk.clean ⟨t, false⟩)).2.obj = (getVariablePsf e l' shape' t).2 := by
  have hcoh0 : Coh e s := h0.coh
  have hcoh := ((getVariablePsf_coh e l none s t _ hcoh0 h).1 p.1 p.2 rfl).1
  refine psf_survives e l' shape' (Disk.clean ⟨t, false⟩) hcoh (Or.inr (Or.inr (Or.inl ?_)))
  change t.cov.isSome = true ∧ t.mMat.isSome = true
  unfold getVariablePsf at h
  rw [modify_bind, get_bind] at h
  change (setupBasis e l >>= _) s = _ at h
  rcases hu : setupBasis e l s with ⟨er | x, v⟩
  · rw [bind_err _ _ _ _ _ hu] at h; cases h
  rw [bind_ok _ _ _ _ _ hu] at h
  have hk := few_stars_kept e s v n u l h0.2.1 h0.1 hc hn h250 hu
  obtain ⟨c1, c2, c3, c4, _⟩ := setupBasis_ok e l s v x hcoh0.toCohB hu
  have hl : ∀ x, l = some x → v.infLoss = x := fun x hx => by rw [c3, hx]; rfl
  obtain ⟨b, hb⟩ := Option.isSome_iff_exists.1 c2
  obtain ⟨g, hg, _⟩ := c1.basis b hb
  have hcv : Coh e v := ⟨c1, fun f hf => by rw [c4, h0.2.2] at hf; cases hf⟩
  rcases hw : setupFields e l (lossChanged l s.infLoss) v with ⟨er | y, w⟩
  · rw [bind_err _ _ _ _ _ hw] at h; cases h
  rw [bind_ok _ _ _ _ _ hw] at h
  obtain ⟨_, k2, _, _, k5, _⟩ := setupFields_spec e l _ _ _ _ c1 c2 hl (Or.inr hcv) hw
  obtain ⟨k6, k7⟩ := k5 _ rfl
  obtain ⟨f, hf⟩ := Option.isSome_iff_exists.1 k7
  rw [setupFields_eq e l _ v (fun x hx => ⟨c2, hl x hx⟩),
    if_pos (by rw [c4, h0.2.2]; rfl)] at hw
  obtain ⟨m1, m2, _⟩ := fieldsPart_spec e v w _ b g hb hg hw
  have hbw : w.basis = some b := k2.trans hb
  rw [bind_ok _ _ _ _ _ (klFields_some e w f hf), bind_ok _ _ _ _ _ (klBasis_some e w b hbw)] at h
  obtain ⟨rfl, _⟩ := psf_tail e w t _ f b k6 hf hbw h
  rw [m1, m2]
  exact hk

/-! ## The Gaussian PSF -/

omit [Field K] [LinearOrder K] in
/-- C160: the Gaussian PSF is fitted to the stored stamps at each call: once the stamps have been cut and
the files removed, every call raises an OSError; before, the stamps are read. -/
theorem gauss_lost (e : KEnv K F N S R) (s : PSFState K F N S R) (n : ℕ) (hn : s.nSources = some n)
    (h0 : 0 < n) :
    gaussStampsD e (Disk.clean ⟨s, false⟩) = (.error .OSError, ⟨s, true⟩) ∧
    gaussStampsD e ⟨s, false⟩ = (.ok ((s.db.getD []).take n), ⟨s, false⟩) := by
  have h : ∀ b, nSourcesD e ⟨s, b⟩ = (.ok n, ⟨s, b⟩) := by
    intro b
    unfold nSourcesD onSI nSources
    simp only
    rw [get_bind, hn]
    simp
  unfold gaussStampsD Disk.clean
  rw [bind_ok _ _ _ _ _ (h true), bind_ok _ _ _ _ _ (h false), get_bind, get_bind]
  simp [h0]

omit [Field K] [LinearOrder K] in
/-- C160: if the stamps have not been cut, removing the files changes nothing for the Gaussian PSF. -/
theorem gauss_uncut (e : KEnv K F N S R) (s : PSFState K F N S R) (hn : s.nSources = none)
    (hp : s.stampsPos = none) :
    gaussStampsD e (Disk.clean ⟨s, false⟩) = gaussStampsD e ⟨s, false⟩ := by
  have h : nSourcesD e ⟨s, true⟩ = nSourcesD e ⟨s, false⟩ := by
    unfold nSourcesD
    simp [hn, SIState.willExtract, hp]
  unfold gaussStampsD Disk.clean
  rw [bind_app, bind_app]
  simp only
  rw [h]

/-! ## Concrete objects -/

/-- Only the positions were looked at: the PSF cannot be measured any more. -/
example : (getVariablePsfD demoEnv none none (Disk.clean ⟨demoState, false⟩)).1 = .error .OSError :=
  positions_only demoEnv demoState 2 rfl (by decide) rfl rfl rfl [] none none

/-- Two stars, measured: the PSF survives the removal, and can be had for another loss. -/
example : ((getVariablePsfD demoEnv (some (1 / 10)) none (Disk.clean ⟨demo1, false⟩)).1.map
    fun p => (p.1, p.2.length)) = .ok ([some [0, 1], some [1, 0]], 2) := by decide +kernel

/-- An object measured from more than 250 stars with two basis elements. -/
def manyState : PSFState ℚ (List ℚ) ℕ (ℚ × ℕ × ℕ) (ℚ × ℕ × ℕ) :=
  { best := some [starSrc], stampShape := (1, 1), stampsPos := some [(5, 5)], nSources := some 251, infLoss := 1 / 10,
    cov := some .nan, eig := some ⟨[1, 3], fun s c => if s = c then 1 else 0⟩,
    basis := some [⟨1, 1, fun _ _ => 1⟩, ⟨1, 1, fun _ _ => 2⟩], fields := some [some [0, 1], some [1, 0]] }

example : (getVariablePsfD demoEnv (some (1 / 2)) none (Disk.clean ⟨manyState, false⟩)).1 = .error .OSError ∧
    ((getVariablePsfD demoEnv (some (1 / 2)) none
      (getVariablePsfD demoEnv (some (1 / 2)) none (Disk.clean ⟨manyState, false⟩)).2).1.map
        fun p => p.2.length) = .ok 2 := by
  have h := many_stars_lost demoEnv manyState 251 rfl (by decide) _ rfl rfl [0, 1] [some [1, 0]] _ rfl rfl (1 / 2)
    (by decide +kernel)
  exact ⟨h.1, by rw [h.2]; rfl⟩

/-- The Gaussian PSF of the two stars. -/
example : (gaussStampsD demoEnv (Disk.clean ⟨demoState, false⟩)).1 = .error .OSError ∧
    ((gaussStampsD demoEnv ⟨demoState, false⟩).1.map List.length) = .ok 2 := by
  have h := gauss_lost demoEnv demoState 2 rfl (by decide)
  exact ⟨by rw [h.1], by rw [h.2]; rfl⟩

end PI
