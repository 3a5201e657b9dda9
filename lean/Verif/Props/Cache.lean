import Verif.Props.KLBasis
import Verif.Props.StampsMore

/-! # Properties C55–C58: which PSF the cached attributes describe -/

namespace PI
open PyS

variable {K F N S R : Type} [Field K] [LinearOrder K]

/-! ## Specification -/

/-- `b` is the PSF basis for information loss `l` of the eigenvectors `g`. -/
def BasisFor (e : KEnv K F N S R) (s : PSFState K F N S R) (g : Eig K) (l : K) (b : List (Img K)) : Prop :=
  ∃ c sh, (∀ c', s.mMat = some c' → c' = c) ∧
    buildBasis c s.mMat.isSome (if s.smooth then some e.gauss else none) g sh l = .ok b

/-- `f` are the coefficient fields of basis `b`: `[None]` for one element, otherwise the fits. -/
def FieldsFor (e : KEnv K F N S R) (g : Eig K) (b : List (Img K)) (f : List (Option F)) : Prop :=
  (b.length = 1 ∧ f = [none]) ∨
  (b.length ≠ 1 ∧ ∃ pos, pos ≠ [] ∧ fitFields e g.vals.length b.length g pos = .ok f)

/-- The cached basis is the one for the current information loss. -/
structure CohB (e : KEnv K F N S R) (s : PSFState K F N S R) : Prop where
  eigCov : s.eig.isSome → s.cov.isSome
  basis : ∀ b, s.basis = some b → ∃ g, s.eig = some g ∧ BasisFor e s g s.infLoss b

/-- So are the cached coefficients. -/
structure Coh (e : KEnv K F N S R) (s : PSFState K F N S R) : Prop extends CohB e s where
  fields : ∀ f, s.fields = some f → ∃ b g, s.basis = some b ∧ s.eig = some g ∧ FieldsFor e g b f

/-- The attributes that decide it. -/
structure SameKL (s t : PSFState K F N S R) : Prop where
  cov : t.cov = s.cov
  mMat : t.mMat = s.mMat
  eig : t.eig = s.eig
  basis : t.basis = s.basis
  fields : t.fields = s.fields
  infLoss : t.infLoss = s.infLoss
  smooth : t.smooth = s.smooth

omit [Field K] [LinearOrder K] in
theorem SameKL.refl (s : PSFState K F N S R) : SameKL s s := ⟨rfl, rfl, rfl, rfl, rfl, rfl, rfl⟩

omit [Field K] [LinearOrder K] in
theorem SameKL.trans {s t u : PSFState K F N S R} (h : SameKL s t) (h' : SameKL t u) : SameKL s u :=
  ⟨h'.cov.trans h.cov, h'.mMat.trans h.mMat, h'.eig.trans h.eig, h'.basis.trans h.basis,
    h'.fields.trans h.fields, h'.infLoss.trans h.infLoss, h'.smooth.trans h.smooth⟩

theorem SameKL.cohB {e : KEnv K F N S R} {s t : PSFState K F N S R} (h : SameKL s t) (hs : CohB e s) :
    CohB e t := by
  obtain ⟨h1, h2, h3, h4, h5, h6, h7⟩ := h
  refine ⟨by rw [h3, h1]; exact hs.eigCov, ?_⟩
  intro b hb
  rw [h4] at hb
  obtain ⟨g, hg, hb⟩ := hs.basis b hb
  refine ⟨g, h3 ▸ hg, ?_⟩
  unfold BasisFor at hb ⊢
  rw [h2, h7, h6]
  exact hb

theorem SameKL.coh {e : KEnv K F N S R} {s t : PSFState K F N S R} (h : SameKL s t) (hs : Coh e s) :
    Coh e t := by
  refine ⟨h.cohB hs.toCohB, ?_⟩
  intro f hf
  rw [h.fields] at hf
  obtain ⟨b, g, hb, hg, hf⟩ := hs.fields f hf
  exact ⟨b, g, h.basis ▸ hb, h.eig ▸ hg, hf⟩

omit [Field K] [LinearOrder K] in
theorem onSI_same {α : Type} (f : PyS SIState α) (s t : PSFState K F N S R) (r : Py α)
    (h : onSI f s = (r, t)) : SameKL s t := by
  unfold onSI at h
  cases h
  exact ⟨rfl, rfl, rfl, rfl, rfl, rfl, rfl⟩

/-! ## cov_matrix and eigenv -/

omit [LinearOrder K] in
theorem covMatrix_some (e : KEnv K F N S R) (s : PSFState K F N S R) (c : Cov K) (h : s.cov = some c) :
    covMatrix e s = (.ok c, s) := by
  unfold covMatrix
  rw [get_bind, h]
  rfl

omit [LinearOrder K] in
/-- What `cov_matrix` can change. -/
theorem covMatrix_frame (e : KEnv K F N S R) (s t : PSFState K F N S R) (r : Py (Cov K))
    (h : covMatrix e s = (r, t)) :
    t.eig = s.eig ∧ t.basis = s.basis ∧ t.fields = s.fields ∧ t.infLoss = s.infLoss ∧ t.smooth = s.smooth ∧
      (s.cov.isSome → t = s) ∧ (∀ c, r = .ok c → t.cov = some c) := by
  cases hc : s.cov with
  | some c =>
    rw [covMatrix_some e s c hc] at h
    cases h
    exact ⟨rfl, rfl, rfl, rfl, rfl, fun _ => rfl, fun c' h => by cases h; exact hc⟩
  | none =>
    unfold covMatrix at h
    rw [get_bind, hc] at h
    simp only at h
    rcases hn : onSI (nSources e.toEnv) s with ⟨er | n, u⟩
    · rw [bind_err _ _ _ _ _ hn] at h
      cases h
      have := onSI_same _ _ _ _ hn
      exact ⟨this.eig, this.basis, this.fields, this.infLoss, this.smooth, fun h => (by simp at h),
        fun c h => by cases h⟩
    · rw [bind_ok _ _ _ _ _ hn, get_bind, modify_bind] at h
      cases h
      have := onSI_same _ _ _ _ hn
      exact ⟨this.eig, this.basis, this.fields, this.infLoss, this.smooth, fun h => (by simp at h),
        fun c h => by cases h; rfl⟩

omit [LinearOrder K] in
theorem eigenv_some (e : KEnv K F N S R) (s : PSFState K F N S R) (g : Eig K) (h : s.eig = some g) :
    eigenv e s = (.ok g, s) := by
  unfold eigenv
  rw [get_bind, h]
  rfl

omit [LinearOrder K] in
/-- What `eigenv` can change. -/
theorem eigenv_frame (e : KEnv K F N S R) (s t : PSFState K F N S R) (r : Py (Eig K))
    (h : eigenv e s = (r, t)) :
    t.basis = s.basis ∧ t.fields = s.fields ∧ t.infLoss = s.infLoss ∧ t.smooth = s.smooth ∧
      (∀ g, r = .ok g → t.eig = some g) ∧ (∀ er, r = .error er → t.eig = s.eig) ∧
      (s.eig.isSome → t = s) ∧ ((s.eig.isSome → s.cov.isSome) → (t.eig.isSome → t.cov.isSome)) := by
  cases hg : s.eig with
  | some g =>
    rw [eigenv_some e s g hg] at h
    cases h
    exact ⟨rfl, rfl, rfl, rfl, fun g' h => by cases h; exact hg, fun er h => (by cases h), fun _ => rfl,
      fun h _ => h rfl⟩
  | none =>
    unfold eigenv at h
    rw [get_bind, hg] at h
    simp only at h
    rcases hc : covMatrix e s with ⟨er | c, u⟩
    · rw [bind_err _ _ _ _ _ hc] at h
      cases h
      obtain ⟨h1, h2, h3, h4, h5, _, _⟩ := covMatrix_frame e s _ _ hc
      exact ⟨h2, h3, h4, h5, fun g h => (by cases h), fun _ _ => h1.trans hg, fun h => (by simp at h),
        fun _ h => by rw [h1, hg] at h; simp at h⟩
    · obtain ⟨h1, h2, h3, h4, h5, _, h7⟩ := covMatrix_frame e s _ _ hc
      rw [bind_ok _ _ _ _ _ hc] at h
      cases he : e.eigh c with
      | error er =>
        rw [he] at h
        cases h
        exact ⟨h2, h3, h4, h5, fun g h => (by cases h), fun _ _ => h1.trans hg, fun h => (by simp at h),
          fun _ h => by rw [h1, hg] at h; simp at h⟩
      | ok g =>
        rw [he] at h
        simp only at h
        rw [modify_bind] at h
        cases h
        refine ⟨h2, h3, h4, h5, fun g' h => by cases h; rfl, fun er h => (by cases h), fun h => (by simp at h), ?_⟩
        intro _ _
        change u.cov.isSome = true
        rw [h7 c rfl]
        rfl

theorem Coh.no_eig {e : KEnv K F N S R} {s : PSFState K F N S R} (h : CohB e s) (hg : s.eig = none) :
    s.basis = none := by
  cases hb : s.basis with
  | none => rfl
  | some b =>
    obtain ⟨g, hg', _⟩ := h.basis b hb
    rw [hg] at hg'
    cases hg'

theorem covMatrix_coh (e : KEnv K F N S R) (s t : PSFState K F N S R) (r : Py (Cov K)) (hs : Coh e s)
    (h : covMatrix e s = (r, t)) : Coh e t := by
  obtain ⟨h1, h2, h3, h4, h5, h6, h7⟩ := covMatrix_frame e s t r h
  cases hc : s.cov with
  | some c => rw [h6 (by rw [hc]; rfl)]; exact hs
  | none =>
    have hg : s.eig = none := by
      cases hg : s.eig with
      | none => rfl
      | some g =>
        have := hs.eigCov (by rw [hg]; rfl)
        rw [hc] at this
        cases this
    have hb := Coh.no_eig hs.toCohB hg
    have hf : s.fields = none := by
      cases hf : s.fields with
      | none => rfl
      | some f =>
        obtain ⟨b, g, hb', _⟩ := hs.fields f hf
        rw [hb] at hb'
        cases hb'
    refine ⟨⟨fun h => ?_, fun b h => ?_⟩, fun f h => ?_⟩
    · rw [h1, hg] at h; cases h
    · rw [h2, hb] at h; cases h
    · rw [h3, hf] at h; cases h

theorem eigenv_cohB (e : KEnv K F N S R) (s t : PSFState K F N S R) (r : Py (Eig K)) (hs : CohB e s)
    (h : eigenv e s = (r, t)) : CohB e t := by
  obtain ⟨h1, h2, h3, h4, h5, h6, h7, h8⟩ := eigenv_frame e s t r h
  cases hg : s.eig with
  | some g => rw [h7 (by rw [hg]; rfl)]; exact hs
  | none =>
    have hb := Coh.no_eig hs hg
    refine ⟨h8 hs.eigCov, fun b h => ?_⟩
    rw [h1, hb] at h; cases h

theorem eigenv_coh (e : KEnv K F N S R) (s t : PSFState K F N S R) (r : Py (Eig K)) (hs : Coh e s)
    (h : eigenv e s = (r, t)) : Coh e t := by
  obtain ⟨h1, h2, h3, h4, h5, h6, h7, h8⟩ := eigenv_frame e s t r h
  refine ⟨eigenv_cohB e s t r hs.toCohB h, fun f hf => ?_⟩
  rw [h2] at hf
  obtain ⟨b, g, hb, hg, hf⟩ := hs.fields f hf
  rw [h7 (by rw [hg]; rfl)]
  exact ⟨b, g, hb, hg, hf⟩

/-! ## The basis -/

theorem setupBasis_skip (e : KEnv K F N S R) (l : Option K) (s : PSFState K F N S R)
    (h1 : s.basis.isSome) (h2 : lossChanged l s.infLoss = false) : setupBasis e l s = (.ok (), s) := by
  unfold setupBasis
  rw [get_bind, h2]
  rw [if_neg]
  · rfl
  · cases hb : s.basis with
    | none => rw [hb] at h1; cases h1
    | some b => simp

/-- The new state after building a basis. -/
theorem setupBasis_build (e : KEnv K F N S R) (l : Option K) (s t : PSFState K F N S R) (r : Py Unit)
    (hc : s.basis = none ∨ lossChanged l s.infLoss = true) (hs : CohB e s)
    (h : setupBasis e l s = (r, t)) :
    t.fields = s.fields ∧ t.infLoss = l.getD s.infLoss ∧ t.smooth = s.smooth ∧
    (t.eig.isSome → t.cov.isSome) ∧ (s.eig.isSome → t.eig = s.eig) ∧
    (∀ er, r = .error er → t.basis = s.basis) ∧
    (∀ u, r = .ok u → ∃ b g, t.basis = some b ∧ t.eig = some g ∧ BasisFor e t g t.infLoss b) := by
  unfold setupBasis at h
  rw [get_bind, if_pos (by rcases hc with hc | hc <;> rw [hc] <;> simp)] at h
  rw [modify_bind] at h
  obtain ⟨s1, hs1⟩ : ∃ s1 : PSFState K F N S R, s1 = { s with infLoss := l.getD s.infLoss } := ⟨_, rfl⟩
  rw [← hs1] at h
  have hs1e : s1.eig = s.eig := by rw [hs1]
  rcases he : eigenv e s1 with ⟨er | g, u⟩
  · rw [bind_err _ _ _ _ _ he] at h
    cases h
    obtain ⟨h1, h2, h3, h4, h5, h6, h7, h8⟩ := eigenv_frame e s1 _ _ he
    refine ⟨by rw [h2, hs1], by rw [h3, hs1], by rw [h4, hs1], h8 (by rw [hs1]; exact hs.eigCov), ?_, ?_, ?_⟩
    · intro h; rw [h6 _ rfl, hs1e]
    · intro _ _; rw [h1, hs1]
    · intro u h; cases h
  · obtain ⟨h1, h2, h3, h4, h5, h6, h7, h8⟩ := eigenv_frame e s1 _ _ he
    have hge := h5 g rfl
    have hkeep : s.eig.isSome → u.eig = s.eig := by
      intro h
      rw [h7 (by rw [hs1e]; exact h), hs1e]
    rw [bind_ok _ _ _ _ _ he, get_bind] at h
    obtain ⟨cols, hcols⟩ : ∃ cols : Option (Columns K), cols = u.columns := ⟨_, rfl⟩
    have hm : ∀ c', u.mMat = some c' → cols = some c' := by
      intro c' h
      rw [hcols, PSFState.columns, h]
    rw [← hcols] at h
    cases cols with
    | none =>
      simp only at h
      cases h
      exact ⟨by rw [h2, hs1], by rw [h3, hs1], by rw [h4, hs1], h8 (by rw [hs1]; exact hs.eigCov), hkeep,
        fun _ _ => by rw [h1, hs1], fun u h => by cases h⟩
    | some c =>
      simp only at h
      cases hb : buildBasis c u.mMat.isSome (if u.smooth then some e.gauss else none) g u.stampShape u.infLoss with
      | error er =>
        rw [hb, bind_app] at h
        simp only [lift_app] at h
        cases h
        exact ⟨by rw [h2, hs1], by rw [h3, hs1], by rw [h4, hs1], h8 (by rw [hs1]; exact hs.eigCov), hkeep,
          fun _ _ => by rw [h1, hs1], fun u h => by cases h⟩
      | ok b =>
        rw [hb, bind_app] at h
        simp only [lift_app, modify_app] at h
        cases h
        refine ⟨h2.trans (by rw [hs1]), h3.trans (by rw [hs1]), h4.trans (by rw [hs1]),
          h8 (by rw [hs1]; exact hs.eigCov), hkeep, fun er h => (by cases h), ?_⟩
        intro _ _
        refine ⟨b, g, rfl, hge, c, u.stampShape, ?_, hb⟩
        intro c' hc'
        have := hm c' hc'
        injection this with this
        exact this.symm

/-- The basis after a successful `_setup_kl_basis`. -/
theorem setupBasis_ok (e : KEnv K F N S R) (l : Option K) (s t : PSFState K F N S R) (u : Unit)
    (hs : CohB e s) (h : setupBasis e l s = (.ok u, t)) :
    CohB e t ∧ t.basis.isSome ∧ t.infLoss = l.getD s.infLoss ∧ t.fields = s.fields ∧
      (s.basis.isSome → lossChanged l s.infLoss = false → t = s) := by
  by_cases hc : s.basis = none ∨ lossChanged l s.infLoss = true
  · obtain ⟨h1, h2, h3, h4, h5, h6, h7⟩ := setupBasis_build e l s t _ hc hs h
    obtain ⟨b, g, hb, hg, hB⟩ := h7 u rfl
    refine ⟨⟨h4, ?_⟩, by rw [hb]; rfl, h2, h1, ?_⟩
    · intro b' hb'
      rw [hb] at hb'
      cases hb'
      exact ⟨g, hg, hB⟩
    · intro hsb hl
      rcases hc with hc | hc
      · rw [hc] at hsb; cases hsb
      · rw [hl] at hc; cases hc
  · push Not at hc
    have hsb : s.basis.isSome := by
      cases hb : s.basis with
      | none => exact absurd hb hc.1
      | some b => rfl
    have hlc : lossChanged l s.infLoss = false := by simpa using hc.2
    rw [setupBasis_skip e l s hsb hlc] at h
    cases h
    refine ⟨hs, hsb, ?_, rfl, fun _ _ => rfl⟩
    cases l with
    | none => rfl
    | some x =>
      simp only [lossChanged, ne_eq, decide_not, Bool.not_eq_false', decide_eq_true_eq] at hlc
      exact hlc

theorem setupBasis_none_coh (e : KEnv K F N S R) (s t : PSFState K F N S R) (r : Py Unit)
    (hs : Coh e s) (h : setupBasis e none s = (r, t)) : Coh e t ∧ t.infLoss = s.infLoss := by
  by_cases hb : s.basis = none
  · have hf : s.fields = none := by
      cases hf : s.fields with
      | none => rfl
      | some f =>
        obtain ⟨b, g, hb', _⟩ := hs.fields f hf
        rw [hb] at hb'
        cases hb'
    obtain ⟨h1, h2, h3, h4, h5, h6, h7⟩ := setupBasis_build e none s t r (Or.inl hb) hs.toCohB h
    refine ⟨?_, h2⟩
    cases r with
    | error er =>
      refine ⟨⟨h4, fun b hb' => ?_⟩, fun f hf' => ?_⟩
      · rw [h6 er rfl, hb] at hb'; cases hb'
      · rw [h1, hf] at hf'; cases hf'
    | ok u =>
      obtain ⟨h8, _⟩ := setupBasis_ok e none s t u hs.toCohB h
      refine ⟨h8, fun f hf' => ?_⟩
      rw [h1, hf] at hf'; cases hf'
  · rw [setupBasis_skip e none s (Option.isSome_iff_ne_none.2 hb) rfl] at h
    cases h
    exact ⟨hs, rfl⟩

theorem klBasis_some (e : KEnv K F N S R) (s : PSFState K F N S R) (b : List (Img K)) (h : s.basis = some b) :
    klBasis e s = (.ok b, s) := by
  unfold klBasis
  rw [get_bind, h]
  rfl

theorem klBasis_coh (e : KEnv K F N S R) (s t : PSFState K F N S R) (r : Py (List (Img K)))
    (hs : Coh e s) (h : klBasis e s = (r, t)) :
    Coh e t ∧ t.infLoss = s.infLoss ∧ (∀ b, r = .ok b → t.basis = some b) := by
  cases hb : s.basis with
  | some b =>
    rw [klBasis_some e s b hb] at h
    cases h
    exact ⟨hs, rfl, fun b' h => by cases h; exact hb⟩
  | none =>
    unfold klBasis at h
    rw [get_bind, hb] at h
    simp only at h
    rcases hu : setupBasis e none s with ⟨er | x, u⟩
    · rw [bind_err _ _ _ _ _ hu] at h
      cases h
      obtain ⟨h1, h2⟩ := setupBasis_none_coh e s _ _ hs hu
      exact ⟨h1, h2, fun b h => by cases h⟩
    · rw [bind_ok _ _ _ _ _ hu, get_bind] at h
      obtain ⟨h1, h2⟩ := setupBasis_none_coh e s _ _ hs hu
      cases hub : u.basis with
      | none => rw [hub] at h; cases h; exact ⟨h1, h2, fun b h => by cases h⟩
      | some b => rw [hub] at h; cases h; exact ⟨h1, h2, fun b' h => by cases h; exact hub⟩

/-! ## The coefficients -/

/-- Fitting the coefficients when the basis is there. -/
def fieldsPart (e : KEnv K F N S R) : PyS (PSFState K F N S R) Unit := do
  let b ← klBasis e
  if b.length = 1 then modify fun s => { s with fields := some [none] }
  else do
    let _ ← onSI (bestSources e.toEnv)
    let pos ← onSI (stampsPos e.toEnv)
    if pos.isEmpty then raise .IndexError
    else do
      let g ← eigenv e
      let f ← lift (fitFields e g.vals.length b.length g pos)
      modify fun s => { s with fields := some f }

theorem fieldsPart_spec (e : KEnv K F N S R) (s t : PSFState K F N S R) (r : Py Unit) (b : List (Img K))
    (g : Eig K) (hb : s.basis = some b) (hg : s.eig = some g) (h : fieldsPart e s = (r, t)) :
    t.cov = s.cov ∧ t.mMat = s.mMat ∧ t.eig = s.eig ∧ t.basis = s.basis ∧ t.infLoss = s.infLoss ∧
      t.smooth = s.smooth ∧ (∀ er, r = .error er → t.fields = s.fields) ∧
      (∀ u, r = .ok u → ∃ f, t.fields = some f ∧ FieldsFor e g b f) := by
  unfold fieldsPart at h
  rw [bind_ok _ _ _ _ _ (klBasis_some e s b hb)] at h
  by_cases h1 : b.length = 1
  · rw [if_pos h1] at h
    cases h
    exact ⟨rfl, rfl, rfl, rfl, rfl, rfl, fun er h => (by cases h), fun _ _ => ⟨_, rfl, Or.inl ⟨h1, rfl⟩⟩⟩
  · rw [if_neg h1] at h
    rcases hbs : onSI (bestSources e.toEnv) s with ⟨er | x, u⟩
    · rw [bind_err _ _ _ _ _ hbs] at h
      cases h
      have := onSI_same _ _ _ _ hbs
      exact ⟨this.cov, this.mMat, this.eig, this.basis, this.infLoss, this.smooth, fun _ _ => this.fields,
        fun u h => by cases h⟩
    · rw [bind_ok _ _ _ _ _ hbs] at h
      have hu := onSI_same _ _ _ _ hbs
      rcases hsp : onSI (stampsPos e.toEnv) u with ⟨er | pos, v⟩
      · rw [bind_err _ _ _ _ _ hsp] at h
        cases h
        have := hu.trans (onSI_same _ _ _ _ hsp)
        exact ⟨this.cov, this.mMat, this.eig, this.basis, this.infLoss, this.smooth, fun _ _ => this.fields,
          fun u h => by cases h⟩
      · rw [bind_ok _ _ _ _ _ hsp] at h
        have hv := hu.trans (onSI_same _ _ _ _ hsp)
        by_cases hp : pos.isEmpty
        · rw [if_pos hp] at h
          cases h
          exact ⟨hv.cov, hv.mMat, hv.eig, hv.basis, hv.infLoss, hv.smooth, fun _ _ => hv.fields,
            fun u h => by cases h⟩
        · rw [if_neg hp, bind_ok _ _ _ _ _ (eigenv_some e v g (hv.eig.trans hg))] at h
          cases hff : fitFields e g.vals.length b.length g pos with
          | error er =>
            rw [hff, bind_app] at h
            simp only [lift_app] at h
            cases h
            exact ⟨hv.cov, hv.mMat, hv.eig, hv.basis, hv.infLoss, hv.smooth, fun _ _ => hv.fields,
              fun u h => by cases h⟩
          | ok f =>
            rw [hff, bind_app] at h
            simp only [lift_app, modify_app] at h
            cases h
            refine ⟨hv.cov, hv.mMat, hv.eig, hv.basis, hv.infLoss, hv.smooth, fun er h => (by cases h),
              fun _ _ => ⟨f, rfl, Or.inr ⟨h1, pos, ?_, hff⟩⟩⟩
            intro hc
            rw [hc] at hp
            exact hp rfl

/-- Skipped, or done with the basis at hand. -/
theorem setupFields_eq (e : KEnv K F N S R) (l : Option K) (upd : Bool) (s : PSFState K F N S R)
    (hl : ∀ x, l = some x → s.basis.isSome ∧ s.infLoss = x) :
    setupFields e l upd s = if s.fields.isNone || upd then fieldsPart e s else (.ok (), s) := by
  have hlc : lossChanged l s.infLoss = false := by
    cases l with
    | none => rfl
    | some x => simp [lossChanged, (hl x rfl).2]
  unfold setupFields
  rw [get_bind, hlc, Bool.or_false]
  by_cases hc : (s.fields.isNone || upd) = true
  · rw [if_pos hc, if_pos hc]
    cases l with
    | none => rfl
    | some x =>
      simp only
      have h1 : setupBasis e (some x) s = (.ok (), s) := setupBasis_skip e _ s (hl x rfl).1 hlc
      have h2 : ((setupBasis e (some x) >>= fun _ => modify fun s => { s with infLoss := x }) :
          PyS (PSFState K F N S R) Unit) s = (.ok (), s) := by
        rw [bind_ok _ _ _ _ _ h1, modify_app]
        have := (hl x rfl).2
        subst this
        rfl
      first
        | exact bind_ok _ _ _ _ _ h2
        | (rw [bind_ok _ _ _ _ _ h1, modify_bind]
           have := (hl x rfl).2
           subst this
           rfl)
  · rw [if_neg hc, if_neg hc]
    rfl

/-- `_setup_kl_a_fields` from a state whose basis is current. -/
theorem setupFields_spec (e : KEnv K F N S R) (l : Option K) (upd : Bool) (s t : PSFState K F N S R)
    (r : Py Unit) (hs : CohB e s) (hb : s.basis.isSome) (hl : ∀ x, l = some x → s.infLoss = x)
    (hf : upd = true ∨ Coh e s) (h : setupFields e l upd s = (r, t)) :
    t.infLoss = s.infLoss ∧ t.basis = s.basis ∧ t.eig = s.eig ∧ CohB e t ∧
    (∀ u, r = .ok u → Coh e t ∧ t.fields.isSome) ∧ (upd = false → Coh e t) := by
  rw [setupFields_eq e l upd s (fun x hx => ⟨hb, hl x hx⟩)] at h
  obtain ⟨b, hb⟩ := Option.isSome_iff_exists.1 hb
  obtain ⟨g, hg, _⟩ := hs.basis b hb
  by_cases hc : (s.fields.isNone || upd) = true
  · rw [if_pos hc] at h
    obtain ⟨h1, h2, h3, h4, h5, h6, h7, h8⟩ := fieldsPart_spec e s t r b g hb hg h
    have hB : CohB e t := by
      refine ⟨by rw [h3, h1]; exact hs.eigCov, fun b' hb' => ?_⟩
      rw [h4] at hb'
      obtain ⟨g', hg', hB'⟩ := hs.basis b' hb'
      refine ⟨g', h3 ▸ hg', ?_⟩
      unfold BasisFor at hB' ⊢
      rw [h2, h6, h5]
      exact hB'
    have hok : ∀ u, r = .ok u → Coh e t ∧ t.fields.isSome := by
      intro u hu
      obtain ⟨f, hf1, hf2⟩ := h8 u hu
      refine ⟨⟨hB, fun f' hf' => ?_⟩, by rw [hf1]; rfl⟩
      rw [hf1] at hf'
      cases hf'
      exact ⟨b, g, h4.trans hb, h3.trans hg, hf2⟩
    refine ⟨h5, h4, h3, hB, hok, ?_⟩
    intro hupd
    cases r with
    | ok u => exact (hok u rfl).1
    | error er =>
      refine ⟨hB, fun f hf' => ?_⟩
      rw [h7 er rfl] at hf'
      rw [hupd, hf'] at hc
      cases hc
  · rw [if_neg hc] at h
    cases h
    have hupd : upd = false := by
      cases upd with
      | false => rfl
      | true => exact absurd (by simp) hc
    have hcoh : Coh e s := by
      rcases hf with hf | hf
      · rw [hupd] at hf; cases hf
      · exact hf
    refine ⟨rfl, rfl, rfl, hs, fun _ _ => ⟨hcoh, ?_⟩, fun _ => hcoh⟩
    rw [hupd, Bool.or_false] at hc
    cases hff : s.fields with
    | none => rw [hff] at hc; exact absurd rfl hc
    | some f => rfl

theorem klFields_some (e : KEnv K F N S R) (s : PSFState K F N S R) (f : List (Option F)) (h : s.fields = some f) :
    klFields e s = (.ok f, s) := by
  unfold klFields
  rw [get_bind, h]
  rfl

/-- When there is no basis yet, the coefficients are set up after it. -/
theorem setupFields_none_coh (e : KEnv K F N S R) (s t : PSFState K F N S R) (r : Py Unit) (hs : Coh e s)
    (h : setupFields e none false s = (r, t)) : Coh e t ∧ t.infLoss = s.infLoss := by
  cases hb : s.basis with
  | some b =>
    obtain ⟨h1, _, _, _, _, h2⟩ := setupFields_spec e none false s t r hs.toCohB (by rw [hb]; rfl)
      (fun x h => by cases h) (Or.inr hs) h
    exact ⟨h2 rfl, h1⟩
  | none =>
    have heq := setupFields_eq e none false s (fun x h => by cases h)
    rw [heq] at h
    by_cases hc : (s.fields.isNone || false) = true
    · rw [if_pos hc] at h
      unfold fieldsPart at h
      rcases hk : klBasis e s with ⟨er | b, u⟩
      · rw [bind_err _ _ _ _ _ hk] at h
        cases h
        obtain ⟨h1, h2, _⟩ := klBasis_coh e s _ _ hs hk
        exact ⟨h1, h2⟩
      · obtain ⟨h1, h2, h3⟩ := klBasis_coh e s _ _ hs hk
        have hub := h3 b rfl
        have hrun : fieldsPart e u = (r, t) := by
          rw [bind_ok _ _ _ _ _ hk] at h
          unfold fieldsPart
          rw [bind_ok _ _ _ _ _ (klBasis_some e u b hub)]
          exact h
        by_cases huf : u.fields.isNone = true
        · obtain ⟨h4, _, _, _, _, h5⟩ := setupFields_spec e none false u t r h1.toCohB (by rw [hub]; rfl)
            (fun x h => by cases h) (Or.inr h1) (by
              rw [setupFields_eq e none false u (fun x h => by cases h), huf]
              exact hrun)
          exact ⟨h5 rfl, h4.trans h2⟩
        · obtain ⟨h4, _, _, _, h5, _⟩ := setupFields_spec e none true u t r h1.toCohB (by rw [hub]; rfl)
            (fun x h => by cases h) (Or.inl rfl) (by
              rw [setupFields_eq e none true u (fun x h => by cases h), Bool.or_true]
              exact hrun)
          obtain ⟨g, hg, _⟩ := h1.basis b hub
          obtain ⟨g1, g2, g3, g4, g5, g6, g7, g8⟩ := fieldsPart_spec e u t r b g hub hg hrun
          cases r with
          | ok x => exact ⟨(h5 x rfl).1, h4.trans h2⟩
          | error er =>
            refine ⟨SameKL.coh ⟨g1, g2, g3, g4, g7 er rfl, g5, g6⟩ h1, h4.trans h2⟩
    · rw [if_neg hc] at h
      cases h
      exact ⟨hs, rfl⟩

theorem klFields_coh (e : KEnv K F N S R) (s t : PSFState K F N S R) (r : Py (List (Option F)))
    (hs : Coh e s) (h : klFields e s = (r, t)) : Coh e t ∧ t.infLoss = s.infLoss := by
  cases hf : s.fields with
  | some f => rw [klFields_some e s f hf] at h; cases h; exact ⟨hs, rfl⟩
  | none =>
    unfold klFields at h
    rw [get_bind, hf] at h
    simp only at h
    rcases hu : setupFields e none false s with ⟨er | x, u⟩
    · rw [bind_err _ _ _ _ _ hu] at h
      cases h
      exact setupFields_none_coh e s _ _ hs hu
    · rw [bind_ok _ _ _ _ _ hu, get_bind] at h
      obtain ⟨h1, h2⟩ := setupFields_none_coh e s _ _ hs hu
      cases huf : u.fields with
      | none => rw [huf] at h; cases h; exact ⟨h1, h2⟩
      | some f => rw [huf] at h; cases h; exact ⟨h1, h2⟩

/-! ## get_variable_psf -/

omit [LinearOrder K] in
theorem unitImg_idem (a : Img K) : unitImg (unitImg a) = unitImg a := by
  have h1 : imgSum (unitImg a) = imgSum a / imgSum a := by
    change ∑ i ∈ Finset.range a.h, ∑ j ∈ Finset.range a.w, a.px i j / imgSum a = imgSum a / imgSum a
    generalize hS : imgSum a = S
    conv_rhs => arg 1; rw [← hS]; unfold imgSum
    simp only [Finset.sum_div]
  have h2 : ∀ i j, (unitImg (unitImg a)).px i j = (unitImg a).px i j := by
    intro i j
    change a.px i j / imgSum a / imgSum (unitImg a) = a.px i j / imgSum a
    rw [h1]
    by_cases h0 : imgSum a = 0
    · rw [h0]; simp
    · rw [div_self h0, div_one]
  have h3 : (unitImg (unitImg a)).px = (unitImg a).px := by
    funext i j; exact h2 i j
  calc unitImg (unitImg a) = ⟨a.h, a.w, (unitImg (unitImg a)).px⟩ := rfl
    _ = ⟨a.h, a.w, (unitImg a).px⟩ := by rw [h3]
    _ = unitImg a := rfl

/-- A one-element basis is already normalised. -/
theorem buildBasis_norm (c : Columns K) (hasM : Bool) (gauss : Option (Img K → Img K)) (g : Eig K)
    (sh : ℕ × ℕ) (l : K) (b : List (Img K)) (h : buildBasis c hasM gauss g sh l = .ok b)
    (h1 : b.length = 1) : normHead b = b := by
  unfold buildBasis at h
  cases hr : rawBasis c hasM g sh (klCut l g.vals) with
  | error er => rw [hr] at h; cases h
  | ok raw =>
    rw [hr] at h
    obtain ⟨b0, hb0⟩ : ∃ b0 : List (Img K), b0 = smoothed gauss raw := ⟨_, rfl⟩
    have h' : Except.ok (if b0.length = 1 then normHead b0 else b0) = (Except.ok b : Py (List (Img K))) := by
      rw [hb0]; exact h
    injection h' with h'
    by_cases hl : b0.length = 1
    · rw [if_pos hl] at h'
      obtain ⟨x, rfl⟩ := List.length_eq_one_iff.1 hl
      rw [← h']
      simp only [normHead, unitImg_idem]
    · rw [if_neg hl] at h'
      rw [h'] at hl
      exact absurd h1 hl

theorem setupBasis_unchanged (e : KEnv K F N S R) (l : Option K) (s : PSFState K F N S R)
    (h : lossChanged l s.infLoss = false) : setupBasis e l s = setupBasis e none s := by
  cases l with
  | none => rfl
  | some x =>
    have hx : s.infLoss = x := by
      simpa [lossChanged] using h
    unfold setupBasis
    rw [get_bind, get_bind, h]
    have h2 : lossChanged (none : Option K) s.infLoss = false := rfl
    rw [h2]
    by_cases hb : (s.basis.isNone || false) = true
    · rw [if_pos hb, if_pos hb, modify_bind, modify_bind]
      subst hx
      rfl
    · rw [if_neg hb, if_neg hb]

/-- The tail of `get_variable_psf`. -/
theorem psf_tail (e : KEnv K F N S R) (s t : PSFState K F N S R) (r : Py (List (Option F) × List (Img K)))
    (a : List (Option F)) (b : List (Img K)) (hs : Coh e s) (ha : s.fields = some a) (hb : s.basis = some b)
    (h : finishPsf a b s = (r, t)) :
    t = s ∧ (∀ p, r = .ok p → p = (a, b)) := by
  unfold finishPsf at h
  cases a with
  | nil => cases h; exact ⟨rfl, fun p h => by cases h⟩
  | cons x xs =>
    cases x with
    | some f => cases h; exact ⟨rfl, fun p h => by cases h; rfl⟩
    | none =>
      simp only at h
      by_cases hbe : b.isEmpty = true
      · rw [if_pos hbe] at h; cases h; exact ⟨rfl, fun p h => by cases h⟩
      · rw [if_neg hbe, modify_bind] at h
        obtain ⟨b', g, hb', hg, hF⟩ := hs.fields _ ha
        rw [hb] at hb'
        injection hb' with hb'
        subst hb'
        have h1 : b.length = 1 := by
          rcases hF with hF | ⟨_, pos, _, hff⟩
          · exact hF.1
          · obtain ⟨_, h2⟩ := field_elements e _ _ g pos _ hff
            obtain ⟨fit, hfit, _⟩ := h2 0 (by simp)
            simp at hfit
        obtain ⟨g', _, c, sh, _, hB⟩ := hs.basis b hb
        rw [buildBasis_norm _ _ _ _ _ _ _ hB h1] at h
        cases h
        refine ⟨?_, fun p h => by cases h; rfl⟩
        rw [← hb]

/-- `get_variable_psf` keeps the cached attributes coherent unless it is given a new information loss
and fails. -/
theorem getVariablePsf_coh (e : KEnv K F N S R) (l : Option K) (shape : Option (ℕ × ℕ))
    (s t : PSFState K F N S R) (r : Py (List (Option F) × List (Img K))) (hs : Coh e s)
    (h : getVariablePsf e l shape s = (r, t)) :
    (∀ a b, r = .ok (a, b) → Coh e t ∧ t.infLoss = l.getD s.infLoss ∧ t.fields = some a ∧ t.basis = some b) ∧
    (lossChanged l s.infLoss = false → Coh e t ∧ t.infLoss = s.infLoss) := by
  unfold getVariablePsf at h
  rw [modify_bind, get_bind] at h
  obtain ⟨s0, hs0⟩ : ∃ s0 : PSFState K F N S R, s0 = { s with
    reqShape := shape.or s.reqShape } := ⟨_, rfl⟩
  have hsame : SameKL s s0 := by rw [hs0]; exact ⟨rfl, rfl, rfl, rfl, rfl, rfl, rfl⟩
  have h0 : Coh e s0 := hsame.coh hs
  have hloss := hsame.infLoss
  change (setupBasis e l >>= _) _ = _ at h
  rw [← hs0] at h
  rcases hu : setupBasis e l s0 with ⟨er | x, u⟩
  · rw [bind_err _ _ _ _ _ hu] at h
    cases h
    refine ⟨fun a b h => (by cases h), fun hl => ?_⟩
    rw [setupBasis_unchanged e l s0 (by rw [hloss]; exact hl)] at hu
    obtain ⟨h1, h2⟩ := setupBasis_none_coh e s0 _ _ h0 hu
    exact ⟨h1, h2.trans hloss⟩
  · obtain ⟨hub, hus, hul, huf, huk⟩ := setupBasis_ok e l s0 u x h0.toCohB hu
    rw [hloss] at hul
    rw [bind_ok _ _ _ _ _ hu] at h
    have hl' : ∀ y, l = some y → u.infLoss = y := by
      intro y hy; rw [hul, hy]; rfl
    have hcu : lossChanged l s0.infLoss = true ∨ Coh e u := by
      cases hlc : lossChanged l s0.infLoss with
      | true => exact Or.inl rfl
      | false =>
        right
        rw [setupBasis_unchanged e l s0 hlc] at hu
        exact (setupBasis_none_coh e s0 u _ h0 hu).1
    have hul' : lossChanged l s.infLoss = false → l.getD s.infLoss = s.infLoss := by
      intro hl
      cases l with
      | none => rfl
      | some y =>
        have : s.infLoss = y := by simpa [lossChanged] using hl
        exact this.symm
    rcases hv : setupFields e l (lossChanged l s0.infLoss) u with ⟨er | y, v⟩
    · rw [bind_err _ _ _ _ _ hv] at h
      cases h
      obtain ⟨h1, _, _, _, _, h2⟩ := setupFields_spec e l _ u _ _ hub hus hl' hcu hv
      refine ⟨fun a b h => (by cases h), fun hl => ?_⟩
      exact ⟨h2 (by rw [hloss]; exact hl), h1.trans (hul.trans (hul' hl))⟩
    · obtain ⟨h1, h3, h4, _, h2, _⟩ := setupFields_spec e l _ u _ _ hub hus hl' hcu hv
      obtain ⟨hcv, hfv⟩ := h2 y rfl
      obtain ⟨f, hf⟩ := Option.isSome_iff_exists.1 hfv
      obtain ⟨b, hb⟩ := Option.isSome_iff_exists.1 hus
      rw [bind_ok _ _ _ _ _ hv, bind_ok _ _ _ _ _ (klFields_some e v f hf),
        bind_ok _ _ _ _ _ (klBasis_some e v b (h3.trans hb))] at h
      obtain ⟨ht, hr⟩ := psf_tail e v t r f b hcv hf (h3.trans hb) h
      subst ht
      refine ⟨fun a' b' h' => ?_, fun hl => ⟨hcv, h1.trans (hul.trans (hul' hl))⟩⟩
      have := hr _ h'
      injection this with e1 e2
      subst e1 e2
      exact ⟨hcv, h1.trans hul, hf, h3.trans hb⟩

end PI
