import Verif.Props.Cache
import Mathlib.Logic.Relation

/-! # Properties C55–C58, C85: call histories -/

namespace PI
open PyS

variable {K F N S R : Type} [Field K] [LinearOrder K]

/-! ## The other attributes -/

theorem Coh.keep {e : KEnv K F N S R} {s t : PSFState K F N S R} (hs : Coh e s) (h : SameKL s t) : Coh e t :=
  h.coh hs


theorem normalImage_coh (e : KEnv K F N S R) (s t : PSFState K F N S R) (r : Py N) (hs : Coh e s)
    (h : normalImage e s = (r, t)) : Coh e t ∧ t.infLoss = s.infLoss := by
  unfold normalImage at h
  rw [get_bind] at h
  cases hn : s.normal with
  | some v => rw [hn] at h; cases h; exact ⟨hs, rfl⟩
  | none =>
    rw [hn] at h
    simp only at h
    rcases hg : getVariablePsf e none none s with ⟨er | p, u⟩
    · rw [bind_err _ _ _ _ _ hg] at h
      cases h
      exact (getVariablePsf_coh e none none s _ _ hs hg).2 rfl
    · rw [bind_ok _ _ _ _ _ hg, modify_bind] at h
      cases h
      obtain ⟨h1, h2⟩ := (getVariablePsf_coh e none none s _ _ hs hg).2 rfl
      exact ⟨h1.keep ⟨rfl, rfl, rfl, rfl, rfl, rfl, rfl⟩, h2⟩

omit [Field K] [LinearOrder K] in
theorem interpedHat_same (e : KEnv K F N S R) (s t : PSFState K F N S R) (r : Py (Img (Option ℚ)))
    (h : interpedHat e s = (r, t)) : SameKL s t := by
  unfold interpedHat at h
  rw [get_bind] at h
  cases hn : s.imgHat with
  | some v => rw [hn] at h; cases h; exact SameKL.refl s
  | none =>
    rw [hn] at h
    simp only at h
    rcases hg : onSI (interped e.toEnv) s with ⟨er | p, u⟩
    · rw [bind_err _ _ _ _ _ hg] at h
      cases h
      exact onSI_same _ _ _ _ hg
    · rw [bind_ok _ _ _ _ _ hg, modify_bind] at h
      cases h
      exact (onSI_same _ _ _ _ hg).trans ⟨rfl, rfl, rfl, rfl, rfl, rfl, rfl⟩

/-- The image whose transform enters S. -/
def imageFor (e : KEnv K F N S R) (a : List (Option F)) : PyS (PSFState K F N S R) (Img (Option ℚ)) :=
  if constantPsf a then interpedHat e else onSI (interped e.toEnv)

omit [Field K] [LinearOrder K] in
theorem imageFor_same (e : KEnv K F N S R) (a : List (Option F)) (s t : PSFState K F N S R)
    (r : Py (Img (Option ℚ))) (h : imageFor e a s = (r, t)) : SameKL s t := by
  unfold imageFor at h
  split at h
  · exact interpedHat_same e s t r h
  · exact onSI_same _ _ _ _ h

/-- `s_hat_comp` computed afresh. -/
def freshSHat (e : KEnv K F N S R) : PyS (PSFState K F N S R) S := do
  let r ← getVariablePsf e none none
  let nrm ← normalImage e
  let img ← imageFor e r.1
  let s ← get
  modify fun s => { s with sHat := some (e.sOf (s.zp.getD 1) r.1 r.2 nrm img), sHatLoss := some s.infLoss }
  pure (e.sOf (s.zp.getD 1) r.1 r.2 nrm img)

theorem sHatComp_eq (e : KEnv K F N S R) (s : PSFState K F N S R) :
    sHatComp e s = match (if s.sHatLoss = some s.infLoss then s.sHat else none) with
      | some v => (.ok v, s)
      | none => freshSHat e s := by
  unfold sHatComp
  rw [get_bind]
  cases (if s.sHatLoss = some s.infLoss then s.sHat else none) with
  | some v => rfl
  | none => rfl

theorem freshSHat_coh (e : KEnv K F N S R) (s t : PSFState K F N S R) (r : Py S) (hs : Coh e s)
    (h : freshSHat e s = (r, t)) : Coh e t ∧ t.infLoss = s.infLoss := by
  unfold freshSHat at h
  rcases hg : getVariablePsf e none none s with ⟨er | p, u⟩
  · rw [bind_err _ _ _ _ _ hg] at h
    cases h
    exact (getVariablePsf_coh e none none s _ _ hs hg).2 rfl
  · obtain ⟨h1, h2⟩ := (getVariablePsf_coh e none none s _ _ hs hg).2 rfl
    rw [bind_ok _ _ _ _ _ hg] at h
    rcases hn : normalImage e u with ⟨er | nrm, v⟩
    · rw [bind_err _ _ _ _ _ hn] at h
      cases h
      obtain ⟨h3, h4⟩ := normalImage_coh e u _ _ h1 hn
      exact ⟨h3, h4.trans h2⟩
    · obtain ⟨h3, h4⟩ := normalImage_coh e u _ _ h1 hn
      rw [bind_ok _ _ _ _ _ hn] at h
      rcases hi : imageFor e p.1 v with ⟨er | img, w⟩
      · rw [bind_err _ _ _ _ _ hi] at h
        cases h
        have := imageFor_same e p.1 v _ _ hi
        exact ⟨this.coh h3, this.infLoss.trans (h4.trans h2)⟩
      · have := imageFor_same e p.1 v _ _ hi
        rw [bind_ok _ _ _ _ _ hi, get_bind, modify_bind] at h
        cases h
        exact ⟨(this.coh h3).keep ⟨rfl, rfl, rfl, rfl, rfl, rfl, rfl⟩, this.infLoss.trans (h4.trans h2)⟩

theorem sHatComp_coh (e : KEnv K F N S R) (s t : PSFState K F N S R) (r : Py S) (hs : Coh e s)
    (h : sHatComp e s = (r, t)) : Coh e t ∧ t.infLoss = s.infLoss := by
  rw [sHatComp_eq] at h
  cases hc : (if s.sHatLoss = some s.infLoss then s.sHat else none) with
  | some v => rw [hc] at h; cases h; exact ⟨hs, rfl⟩
  | none => rw [hc] at h; exact freshSHat_coh e s t r hs h

theorem sComponent_coh (e : KEnv K F N S R) (s t : PSFState K F N S R) (r : Py R) (hs : Coh e s)
    (h : sComponent e s = (r, t)) : Coh e t ∧ t.infLoss = s.infLoss := by
  unfold sComponent at h
  rw [get_bind] at h
  cases hn : s.sComp with
  | none =>
    rw [hn] at h
    simp only at h
    rcases hg : sHatComp e s with ⟨er | p, u⟩
    · rw [bind_err _ _ _ _ _ hg] at h; cases h; exact sHatComp_coh e s _ _ hs hg
    · rw [bind_ok _ _ _ _ _ hg, modify_bind] at h
      cases h
      obtain ⟨h1, h2⟩ := sHatComp_coh e s _ _ hs hg
      exact ⟨h1.keep ⟨rfl, rfl, rfl, rfl, rfl, rfl, rfl⟩, h2⟩
  | some v =>
    rw [hn] at h
    simp only at h
    by_cases hl : s.sLoss ≠ some s.infLoss
    · rw [if_pos hl] at h
      rcases hg : sHatComp e s with ⟨er | p, u⟩
      · rw [bind_err _ _ _ _ _ hg] at h; cases h; exact sHatComp_coh e s _ _ hs hg
      · rw [bind_ok _ _ _ _ _ hg, modify_bind] at h
        cases h
        obtain ⟨h1, h2⟩ := sHatComp_coh e s _ _ hs hg
        exact ⟨h1.keep ⟨rfl, rfl, rfl, rfl, rfl, rfl, rfl⟩, h2⟩
    · rw [if_neg hl] at h; cases h; exact ⟨hs, rfl⟩

/-! ## C56 -/

/-- One use of the object's interface, except direct assignment of `inf_loss`. A call of
`get_variable_psf` with a new information loss has to succeed; everything else may raise. -/
inductive Step (e : KEnv K F N S R) : PSFState K F N S R → PSFState K F N S R → Prop
  | psf (l shape s r t) : getVariablePsf e l shape s = (r, t) →
      (lossChanged l s.infLoss = true → ∃ p, r = .ok p) → Step e s t
  | klBasis (s r t) : klBasis e s = (r, t) → Step e s t
  | klFields (s r t) : klFields e s = (r, t) → Step e s t
  | covMatrix (s r t) : covMatrix e s = (r, t) → Step e s t
  | eigenv (s r t) : eigenv e s = (r, t) → Step e s t
  | normal (s r t) : normalImage e s = (r, t) → Step e s t
  | sHat (s r t) : sHatComp e s = (r, t) → Step e s t
  | sComp (s r t) : sComponent e s = (r, t) → Step e s t
  | zp (z s) : Step e s { s with zp := some z }
  | bestSources (s r t) : onSI (bestSources e.toEnv) s = (r, t) → Step e s t
  | stampsPos (s r t) : onSI (stampsPos e.toEnv) s = (r, t) → Step e s t
  | nSources (s r t) : onSI (nSources e.toEnv) s = (r, t) → Step e s t
  | updateSources (new s r t) : onSI (updateSources e.toEnv new) s = (r, t) → Step e s t
  | stampShape (sh s r t) : onSI (setStampShape e.toEnv sh) s = (r, t) → Step e s t
  | interped (s r t) : onSI (interped e.toEnv) s = (r, t) → Step e s t

theorem Step.coh {e : KEnv K F N S R} {s t : PSFState K F N S R} (h : Step e s t) (hs : Coh e s) : Coh e t := by
  cases h with
  | psf l shape _ r _ h hok =>
    obtain ⟨h1, h2⟩ := getVariablePsf_coh e l shape s t r hs h
    cases hl : lossChanged l s.infLoss with
    | false => exact (h2 hl).1
    | true =>
      obtain ⟨⟨a, b⟩, hp⟩ := hok hl
      exact (h1 a b hp).1
  | klBasis _ r _ h => exact (klBasis_coh e s t r hs h).1
  | klFields _ r _ h => exact (klFields_coh e s t r hs h).1
  | covMatrix _ r _ h => exact covMatrix_coh e s t r hs h
  | eigenv _ r _ h => exact eigenv_coh e s t r hs h
  | normal _ r _ h => exact (normalImage_coh e s t r hs h).1
  | sHat _ r _ h => exact (sHatComp_coh e s t r hs h).1
  | sComp _ r _ h => exact (sComponent_coh e s t r hs h).1
  | zp z => exact hs.keep ⟨rfl, rfl, rfl, rfl, rfl, rfl, rfl⟩
  | bestSources _ r _ h => exact (onSI_same _ _ _ _ h).coh hs
  | stampsPos _ r _ h => exact (onSI_same _ _ _ _ h).coh hs
  | nSources _ r _ h => exact (onSI_same _ _ _ _ h).coh hs
  | updateSources new _ r _ h => exact (onSI_same _ _ _ _ h).coh hs
  | stampShape sh _ r _ h => exact (onSI_same _ _ _ _ h).coh hs
  | interped _ r _ h => exact (onSI_same _ _ _ _ h).coh hs

/-- A new object: no PSF measured yet. -/
def Unmeasured (s : PSFState K F N S R) : Prop := s.eig = none ∧ s.basis = none ∧ s.fields = none

theorem Unmeasured.coh {e : KEnv K F N S R} {s : PSFState K F N S R} (h : Unmeasured s) : Coh e s := by
  obtain ⟨h1, h2, h3⟩ := h
  refine ⟨⟨fun h => ?_, fun b h => ?_⟩, fun f h => ?_⟩
  · rw [h1] at h; cases h
  · rw [h2] at h; cases h
  · rw [h3] at h; cases h

/-- C56: after any history of calls, `get_variable_psf(l)` returns the basis for `l` and its
coefficients; `get_variable_psf()` those for the current `inf_loss`. -/
theorem variable_psf_honours_loss (e : KEnv K F N S R) (s0 s t : PSFState K F N S R) (h0 : Unmeasured s0)
    (hist : Relation.ReflTransGen (Step e) s0 s) (l : Option K) (shape : Option (ℕ × ℕ))
    (a : List (Option F)) (b : List (Img K)) (h : getVariablePsf e l shape s = (.ok (a, b), t)) :
    ∃ g, t.eig = some g ∧ BasisFor e t g (l.getD s.infLoss) b ∧ FieldsFor e g b a := by
  have hs : Coh e s := by
    clear h
    induction hist with
    | refl => exact h0.coh
    | tail _ hstep ih => exact hstep.coh ih
  obtain ⟨hc, hl, hf, hb⟩ := (getVariablePsf_coh e l shape s t _ hs h).1 a b rfl
  obtain ⟨g, hg, hB⟩ := hc.basis b hb
  obtain ⟨b', g', hb', hg', hF⟩ := hc.fields a hf
  rw [hb] at hb'
  rw [hg] at hg'
  cases hb'
  cases hg'
  exact ⟨g, hg, hl ▸ hB, hF⟩

/-- C55: so there are as many fields as elements (when the eigenvalues are as many as the stamps), or
`[None]` for a single element; field `i` and element `i` (no smoothing) come from the eigenvector of the
`i`-th largest eigenvalue. -/
theorem variable_psf_paired (e : KEnv K F N S R) (s : PSFState K F N S R) (g : Eig K) (l : K)
    (a : List (Option F)) (b : List (Img K)) (hB : BasisFor e s g l b) (hF : FieldsFor e g b a)
    (hsm : s.smooth = false) (hcols : ∀ c, s.mMat = some c → c.n = g.vals.length) (hm : s.mMat.isSome) :
    (b.length = 1 ∧ a = [none]) ∨
    (a.length = b.length ∧ ∃ c sh pos, s.mMat = some c ∧ ∀ i < b.length,
      b[i]? = some (dotColumn c g sh (c.n - 1 - i)) ∧
      ∃ fit, a[i]? = some (some fit) ∧
        e.fit pos ((List.range c.n).map fun k => g.vec k (c.n - 1 - i)) = .ok fit) := by
  obtain ⟨c, sh, hc, hb⟩ := hB
  obtain ⟨c', hc'⟩ := Option.isSome_iff_exists.1 hm
  have := hc c' hc'
  subst this
  have hn := hcols c' hc'
  rw [hsm, hm] at hb
  obtain ⟨hlen, raw, hraw, h1, _⟩ := basis_elements c' true g sh l b hb
  rcases hF with hF | ⟨hne, pos, hpos, hff⟩
  · exact Or.inl hF
  · right
    obtain ⟨h3, h4⟩ := field_elements e _ _ g pos a hff
    have hab : a.length = b.length := by rw [h3, ← hn]; omega
    refine ⟨hab, c', sh, pos, hc', fun i hi => ⟨?_, ?_⟩⟩
    · rw [h1 hne i hi, hraw]; rfl
    · obtain ⟨fit, f1, f2⟩ := h4 i (by omega)
      exact ⟨fit, f1, by rw [hn]; exact f2⟩

/-- C56: assigning `inf_loss` and then asking for exactly that loss returns what was cached before, the
PSF of the old loss. -/
theorem assigned_loss_ignored (e : KEnv K F N S R) (s : PSFState K F N S R) (l : K) (f : F)
    (fs : List (Option F)) (b : List (Img K)) (hb : s.basis = some b) (hf : s.fields = some (some f :: fs)) :
    (getVariablePsf e (some l) none { s with infLoss := l }).1 = .ok (some f :: fs, b) := by
  obtain ⟨w, hw⟩ : ∃ w : PSFState K F N S R, w = { s with infLoss := l } := ⟨_, rfl⟩
  rw [← hw]
  have hwl : w.infLoss = l := by rw [hw]
  have hlc : lossChanged (some l) w.infLoss = false := by simp [lossChanged, hwl]
  have hwb : w.basis = some b := by rw [hw]; exact hb
  have hwf : w.fields = some (some f :: fs) := by rw [hw]; exact hf
  unfold getVariablePsf
  rw [modify_bind, get_bind]
  change ((setupBasis e (some l) >>= _) w).1 = _
  rw [hlc, bind_ok _ _ _ _ _ (setupBasis_skip e _ w (by rw [hwb]; rfl) hlc)]
  have h2 : setupFields e (some l) false w = (.ok (), w) := by
    rw [setupFields_eq e _ _ w (fun x hx => by cases hx; exact ⟨by rw [hwb]; rfl, hwl⟩), if_neg (by rw [hwf]; simp)]
  rw [bind_ok _ _ _ _ _ h2, bind_ok _ _ _ _ _ (klFields_some e w _ hwf), bind_ok _ _ _ _ _ (klBasis_some e w b hwb)]
  rfl

/-- C85: a call with a new loss that fails while building the basis leaves the new loss recorded with
the old basis and coefficients, so repeating the same call "succeeds" with the PSF of the old loss. -/
theorem failed_loss_sticks (e : KEnv K F N S R) (s t : PSFState K F N S R) (l : K) (f : F)
    (fs : List (Option F)) (b : List (Img K)) (er : PyErr) (hs : CohB e s) (hl : s.infLoss ≠ l)
    (hb : s.basis = some b) (hf : s.fields = some (some f :: fs))
    (h : setupBasis e (some l) s = (.error er, t)) :
    getVariablePsf e (some l) none s = (.error er, t) ∧
    (getVariablePsf e (some l) none t).1 = .ok (some f :: fs, b) := by
  constructor
  · unfold getVariablePsf
    rw [modify_bind, get_bind]
    change (setupBasis e (some l) >>= _) s = _
    exact bind_err _ _ _ _ _ h
  · obtain ⟨h1, h2, _, _, _, h6, _⟩ := setupBasis_build e (some l) s t _ (Or.inr (by simp [lossChanged, hl])) hs h
    have key := assigned_loss_ignored e t l f fs b ((h6 er rfl).trans hb) (h1.trans hf)
    have : ({ t with infLoss := l } : PSFState K F N S R) = t := by
      have hl' : t.infLoss = l := h2
      rw [← hl']
    rw [this] at key
    exact key

/-! ## C57: the S component -/

/-- A method leaves a part of the state alone. -/
def Keeps {α β : Type} (p : PSFState K F N S R → β) (f : PyS (PSFState K F N S R) α) : Prop :=
  ∀ s, p (f s).2 = p s

section keeps
omit [Field K] [LinearOrder K]
variable {α β γ : Type} {p : PSFState K F N S R → β}

theorem Keeps.bind {f : PyS (PSFState K F N S R) α} {g : α → PyS (PSFState K F N S R) γ} (hf : Keeps p f)
    (hg : ∀ a, Keeps p (g a)) : Keeps p (f >>= g) := by
  intro s
  rw [bind_app]
  have := hf s
  rcases h : f s with ⟨er | a, t⟩
  · rw [h] at this; exact this
  · rw [h] at this; exact (hg a t).trans this

theorem Keeps.get : Keeps p (PyS.get : PyS (PSFState K F N S R) _) := fun _ => rfl
theorem Keeps.pure (a : α) : Keeps p (Pure.pure a : PyS (PSFState K F N S R) α) := fun _ => rfl
theorem Keeps.raise (er : PyErr) : Keeps p (PyS.raise er : PyS (PSFState K F N S R) α) := fun _ => rfl
theorem Keeps.lift (r : Py α) : Keeps p (PyS.lift r : PyS (PSFState K F N S R) α) := fun _ => rfl
theorem Keeps.ite {c : Prop} [Decidable c] {f g : PyS (PSFState K F N S R) α} (hf : Keeps p f) (hg : Keeps p g) :
    Keeps p (if c then f else g) := by
  split
  · exact hf
  · exact hg

end keeps

/-- The attributes the PSF measurement does not touch. -/
def sPart (s : PSFState K F N S R) : Option R × Option K × Option S × Option K × Option K × Option N :=
  (s.sComp, s.sLoss, s.sHat, s.sHatLoss, s.zp, s.normal)

omit [Field K] [LinearOrder K] in
theorem keeps_onSI {α : Type} (f : PyS SIState α) : Keeps (sPart (K := K) (F := F) (N := N) (S := S) (R := R)) (onSI f) :=
  fun _ => rfl

omit [Field K] [LinearOrder K] in
theorem keeps_modify (f : PSFState K F N S R → PSFState K F N S R) (h : ∀ s, sPart (f s) = sPart s) :
    Keeps sPart (modify f) := h

omit [LinearOrder K] in
theorem keeps_covMatrix (e : KEnv K F N S R) : Keeps sPart (covMatrix e) := by
  unfold covMatrix
  refine Keeps.bind .get fun s => ?_
  split
  · exact .pure _
  · exact .bind (keeps_onSI _) fun n => .bind .get fun s => .bind (keeps_modify _ fun _ => rfl) fun _ => .pure _

omit [LinearOrder K] in
theorem keeps_eigenv (e : KEnv K F N S R) : Keeps sPart (eigenv e) := by
  unfold eigenv
  refine Keeps.bind .get fun s => ?_
  split
  · exact .pure _
  · refine .bind (keeps_covMatrix e) fun c => ?_
    split
    · exact .raise _
    · exact .bind (keeps_modify _ fun _ => rfl) fun _ => .pure _

theorem keeps_setupBasis (e : KEnv K F N S R) (l : Option K) : Keeps sPart (setupBasis e l) := by
  unfold setupBasis
  refine Keeps.bind .get fun s => .ite ?_ (.pure _)
  refine .bind (keeps_modify _ fun _ => rfl) fun _ => .bind (keeps_eigenv e) fun g => .bind .get fun s => ?_
  split
  · exact .raise _
  · exact .bind (.lift _) fun b => keeps_modify _ fun _ => rfl

theorem keeps_klBasis (e : KEnv K F N S R) : Keeps sPart (klBasis e) := by
  unfold klBasis
  refine Keeps.bind .get fun s => ?_
  split
  · exact .pure _
  · refine .bind (keeps_setupBasis e none) fun _ => .bind .get fun s => ?_
    split
    · exact .pure _
    · exact .raise _

theorem keeps_setupFields (e : KEnv K F N S R) (l : Option K) (upd : Bool) : Keeps sPart (setupFields e l upd) := by
  unfold setupFields
  refine Keeps.bind .get fun s => .ite ?_ (.pure _)
  have tail : Keeps (sPart (K := K) (F := F) (N := N) (S := S) (R := R)) (fieldsPart e) := by
    unfold fieldsPart
    exact .bind (keeps_klBasis e) fun b => .ite (keeps_modify _ fun _ => rfl)
      (.bind (keeps_onSI _) fun _ => .bind (keeps_onSI _) fun pos => .ite (.raise _)
        (.bind (keeps_eigenv e) fun g => .bind (.lift _) fun f => keeps_modify _ fun _ => rfl))
  cases l with
  | none => exact tail
  | some x =>
    first
      | exact .bind (.bind (keeps_setupBasis e _) fun _ => keeps_modify _ fun _ => rfl) fun _ => tail
      | exact .bind (keeps_setupBasis e _) fun _ => .bind (keeps_modify _ fun _ => rfl) fun _ => tail

theorem keeps_getVariablePsf (e : KEnv K F N S R) (l : Option K) (shape : Option (ℕ × ℕ)) :
    Keeps sPart (getVariablePsf e l shape) := by
  unfold getVariablePsf
  refine Keeps.bind (keeps_modify _ fun _ => rfl) fun _ => .bind .get fun s =>
    .bind (keeps_setupBasis e l) fun _ => .bind (keeps_setupFields e l _) fun _ => ?_
  refine .bind ?_ fun a => .bind (keeps_klBasis e) fun b => ?_
  · unfold klFields
    refine Keeps.bind .get fun s => ?_
    split
    · exact .pure _
    · refine .bind (keeps_setupFields e none false) fun _ => .bind .get fun s => ?_
      split
      · exact .pure _
      · exact .raise _
  · unfold finishPsf
    split
    · exact .raise _
    · exact .pure _
    · exact .ite (.raise _) (.bind (keeps_modify _ fun _ => rfl) fun _ => .pure _)

omit [LinearOrder K] in
theorem normalImage_some [LinearOrder K] (e : KEnv K F N S R) (s : PSFState K F N S R) (n : N)
    (h : s.normal = some n) : normalImage e s = (.ok n, s) := by
  unfold normalImage
  rw [get_bind, h]
  rfl

/-- The cached S component. -/
def cPart (s : PSFState K F N S R) : Option R × Option K := (s.sComp, s.sLoss)

omit [Field K] [LinearOrder K] in
theorem Keeps.cPart {α : Type} {f : PyS (PSFState K F N S R) α} (h : Keeps sPart f) : Keeps cPart f := by
  intro s
  have := h s
  unfold sPart at this
  injection this with h1 h2
  injection h2 with h2 h3
  unfold PI.cPart
  rw [h1, h2]

theorem keeps_normalImage (e : KEnv K F N S R) : Keeps cPart (normalImage e) := by
  unfold normalImage
  refine Keeps.bind .get fun s => ?_
  split
  · exact .pure _
  · exact .bind (keeps_getVariablePsf e none none).cPart fun r => .bind (fun _ => rfl) fun _ => .pure _

omit [Field K] [LinearOrder K] in
theorem keeps_imageFor (e : KEnv K F N S R) (a : List (Option F)) : Keeps sPart (imageFor e a) := by
  unfold imageFor interpedHat
  refine Keeps.ite (.bind .get fun s => ?_) (keeps_onSI _)
  split
  · exact .pure _
  · exact .bind (keeps_onSI _) fun _ => .bind (keeps_modify _ fun _ => rfl) fun _ => .pure _

theorem keeps_sHatComp (e : KEnv K F N S R) : Keeps cPart (sHatComp e) := by
  intro s
  rw [sHatComp_eq]
  split
  · rfl
  · have : Keeps (cPart (K := K) (F := F) (N := N) (S := S) (R := R)) (freshSHat e) := by
      unfold freshSHat
      exact .bind (keeps_getVariablePsf e none none).cPart fun r => .bind (keeps_normalImage e) fun n =>
        .bind (keeps_imageFor e _).cPart fun i => .bind .get fun s => .bind (fun _ => rfl) fun _ => .pure _
    exact this s

/-- C57: the first reading gives the inverse transform of `s_hat_comp` and records the loss. -/
theorem s_component_first (e : KEnv K F N S R) (s t : PSFState K F N S R) (r : R) (h0 : s.sComp = none) :
    sComponent e s = (.ok r, t) ↔ ∃ v u, sHatComp e s = (.ok v, u) ∧ r = e.inv v ∧
      t = { u with sComp := some r, sLoss := some u.infLoss } := by
  unfold sComponent
  rw [get_bind, h0]
  simp only
  rw [bind_eq_ok]
  constructor
  · rintro ⟨v, u, h1, h2⟩
    rw [modify_bind] at h2
    cases h2
    exact ⟨v, u, h1, rfl, rfl⟩
  · rintro ⟨v, u, h1, rfl, rfl⟩
    exact ⟨v, u, h1, rfl⟩

/-- C57: later readings. At the loss of the first reading the last value is returned, at any other loss
the inverse transform of `s_hat_comp`; the recorded loss stays. -/
theorem s_component_later (e : KEnv K F N S R) (s t : PSFState K F N S R) (r r0 : R) (L : K)
    (h0 : s.sComp = some r0) (hL : s.sLoss = some L) :
    sComponent e s = (.ok r, t) ↔
      (s.infLoss = L ∧ r = r0 ∧ t = s) ∨
      (s.infLoss ≠ L ∧ ∃ v u, sHatComp e s = (.ok v, u) ∧ r = e.inv v ∧ t = { u with sComp := some r } ∧
        t.sLoss = some L) := by
  unfold sComponent
  rw [get_bind, h0, hL]
  simp only
  by_cases hl : s.infLoss = L
  · rw [if_neg (by rw [hl]; simp)]
    constructor
    · intro h; cases h; exact Or.inl ⟨hl, rfl, rfl⟩
    · rintro (⟨_, rfl, rfl⟩ | ⟨h, _⟩)
      · rfl
      · exact absurd hl h
  · rw [if_pos (by simpa using fun h => hl h.symm), bind_eq_ok]
    constructor
    · rintro ⟨v, u, h1, h2⟩
      rw [modify_bind] at h2
      cases h2
      refine Or.inr ⟨hl, v, u, h1, rfl, rfl, ?_⟩
      have := keeps_sHatComp e s
      rw [h1] at this
      unfold cPart at this
      injection this with _ this
      exact this.trans hL
    · rintro (⟨h, _⟩ | ⟨_, v, u, h1, rfl, rfl, _⟩)
      · exact absurd h hl
      · exact ⟨v, u, h1, rfl⟩

omit [Field K] [LinearOrder K] in
theorem keeps_run {α β : Type} {p : PSFState K F N S R → β} {f : PyS (PSFState K F N S R) α} (h : Keeps p f)
    {s t : PSFState K F N S R} {r : Py α} (hr : f s = (r, t)) : p t = p s := by
  have := h s
  rw [hr] at this
  exact this

/-- C57, the defect: read at loss `l1`, change the loss to `l2`, read, change back to `l1`: the component
for `l2` is returned. -/
theorem s_component_stale (e : KEnv K F N S R) (s0 s1 s2 s3 s4 : PSFState K F N S R) (r1 r2 : R) (l2 : K)
    (p2 p4 : List (Option F) × List (Img K)) (hs : Coh e s0) (h0 : s0.sComp = none) (hl : l2 ≠ s0.infLoss)
    (hr1 : sComponent e s0 = (.ok r1, s1))
    (hp2 : getVariablePsf e (some l2) none s1 = (.ok p2, s2))
    (hr2 : sComponent e s2 = (.ok r2, s3))
    (hp4 : getVariablePsf e (some s0.infLoss) none s3 = (.ok p4, s4)) :
    sComponent e s4 = (.ok r2, s4) ∧ s4.infLoss = s0.infLoss ∧
      ∃ v u, sHatComp e s2 = (.ok v, u) ∧ s2.infLoss = l2 ∧ r2 = e.inv v := by
  obtain ⟨c1, l1⟩ := sComponent_coh e s0 s1 _ hs hr1
  obtain ⟨c2, hl2, _⟩ := (getVariablePsf_coh e _ _ s1 s2 _ c1 hp2).1 p2.1 p2.2 rfl
  obtain ⟨c3, hl3⟩ := sComponent_coh e s2 s3 _ c2 hr2
  obtain ⟨c4, hl4, _⟩ := (getVariablePsf_coh e _ _ s3 s4 _ c3 hp4).1 p4.1 p4.2 rfl
  obtain ⟨v1, u1, hv1, rfl, ht1⟩ := (s_component_first e s0 s1 r1 h0).1 hr1
  obtain ⟨_, hu1⟩ := sHatComp_coh e s0 u1 _ hs hv1
  have k2 := keeps_run (keeps_getVariablePsf e (some l2) none).cPart hp2
  have hc2 : s2.sComp = some (e.inv v1) ∧ s2.sLoss = some s0.infLoss := by
    rw [ht1] at k2
    unfold cPart at k2
    injection k2 with a b
    exact ⟨a, by rw [b, hu1]⟩
  rcases (s_component_later e s2 s3 r2 _ _ hc2.1 hc2.2).1 hr2 with ⟨h, _⟩ | ⟨_, v, u, hv, hrv, ht3, hs3⟩
  · exact absurd (hl2.symm.trans h) hl
  · have k4 := keeps_run (keeps_getVariablePsf e (some s0.infLoss) none).cPart hp4
    have hc4 : s4.sComp = some r2 ∧ s4.sLoss = some s0.infLoss := by
      unfold cPart at k4
      injection k4 with a b
      exact ⟨by rw [a, ht3], by rw [b, hs3]⟩
    refine ⟨(s_component_later e s4 s4 r2 _ _ hc4.1 hc4.2).2 (Or.inl ⟨hl4, rfl, rfl⟩), hl4, v, u, hv, hl2, hrv⟩

/-! ## C58: zero point and normalisation -/

/-- What a fresh `s_hat_comp` is made of: the current zero point, the current PSF, and the
normalisation and image that are cached, if they are. -/
theorem fresh_s_hat (e : KEnv K F N S R) (s t : PSFState K F N S R) (v : S) (hs : Coh e s)
    (h : freshSHat e s = (.ok v, t)) :
    ∃ a b nrm img u, getVariablePsf e none none s = (.ok (a, b), u) ∧
      v = e.sOf (s.zp.getD 1) a b nrm img ∧ t.sHat = some v ∧ t.sHatLoss = some s.infLoss ∧
      t.normal = some nrm ∧ (∀ n, s.normal = some n → nrm = n) := by
  have hcoh := freshSHat_coh e s t _ hs h
  unfold freshSHat at h
  rw [bind_eq_ok] at h
  obtain ⟨⟨a, b⟩, u, h1, h⟩ := h
  rw [bind_eq_ok] at h
  obtain ⟨nrm, w, h2, h⟩ := h
  rw [bind_eq_ok] at h
  obtain ⟨img, x, h3, h⟩ := h
  rw [get_bind, modify_bind] at h
  cases h
  have k1 := keeps_run (keeps_getVariablePsf e none none) h1
  have k3 := keeps_run (keeps_imageFor e a) h3
  unfold sPart at k1 k3
  simp only [Prod.mk.injEq] at k1 k3
  have hz : w.zp = u.zp ∧ w.normal = some nrm ∧ (∀ n, u.normal = some n → nrm = n) := by
    cases hn : u.normal with
    | some n =>
      rw [normalImage_some e u n hn] at h2
      cases h2
      exact ⟨rfl, hn, fun n' h => by cases h; rfl⟩
    | none =>
      unfold normalImage at h2
      rw [get_bind, hn] at h2
      simp only at h2
      rw [bind_eq_ok] at h2
      obtain ⟨q, y, h4, h5⟩ := h2
      rw [modify_bind] at h5
      cases h5
      have k4 := keeps_run (keeps_getVariablePsf e none none) h4
      unfold sPart at k4
      simp only [Prod.mk.injEq] at k4
      exact ⟨k4.2.2.2.2.1, rfl, fun n h => by cases h⟩
  have hzp : x.zp = s.zp := by rw [k3.2.2.2.2.1, hz.1, k1.2.2.2.2.1]
  refine ⟨a, b, nrm, img, u, h1, by rw [hzp], rfl, ?_, ?_, ?_⟩
  · exact congrArg some hcoh.2
  · exact k3.2.2.2.2.2.trans hz.2.1
  · intro n hn
    exact hz.2.2 n (k1.2.2.2.2.2.trans hn)

/-- C58: once evaluated, `s_hat_comp` ignores a newly assigned zero point. -/
theorem zp_ignored (e : KEnv K F N S R) (s t : PSFState K F N S R) (v : S) (z : K) (hs : Coh e s)
    (h : sHatComp e s = (.ok v, t)) :
    sHatComp e { t with zp := some z } = (.ok v, { t with zp := some z }) := by
  have key : t.sHat = some v ∧ t.sHatLoss = some t.infLoss := by
    have hl := (sHatComp_coh e s t _ hs h).2
    rw [sHatComp_eq] at h
    cases hc : (if s.sHatLoss = some s.infLoss then s.sHat else none) with
    | some v' =>
      rw [hc] at h
      cases h
      by_cases hl' : s.sHatLoss = some s.infLoss
      · rw [if_pos hl'] at hc; exact ⟨hc, hl'⟩
      · rw [if_neg hl'] at hc; cases hc
    | none =>
      rw [hc] at h
      obtain ⟨_, _, _, _, _, _, _, h2, h3, _⟩ := fresh_s_hat e s t v hs h
      exact ⟨h2, by rw [h3, hl]⟩
  rw [sHatComp_eq]
  change (match (if t.sHatLoss = some t.infLoss then t.sHat else none) with
    | some v => (Except.ok v, { t with zp := some z })
    | none => freshSHat e { t with zp := some z }) = _
  rw [if_pos key.2, key.1]

/-- C58: on first evaluation it uses the current zero point. -/
theorem zp_first (e : KEnv K F N S R) (s t : PSFState K F N S R) (v : S) (hs : Coh e s) (h0 : s.sHat = none)
    (h : sHatComp e s = (.ok v, t)) : ∃ a b nrm img, v = e.sOf (s.zp.getD 1) a b nrm img := by
  rw [sHatComp_eq, h0] at h
  have : (if s.sHatLoss = some s.infLoss then (none : Option S) else none) = none := by split <;> rfl
  rw [this] at h
  obtain ⟨a, b, nrm, img, _, _, hv, _⟩ := fresh_s_hat e s t v hs h
  exact ⟨a, b, nrm, img, hv⟩

/-- C58: the normalisation is computed once; after the information loss changes, `s_hat_comp` combines
the new PSF with the normalisation of the old one. -/
theorem normal_not_refreshed (e : KEnv K F N S R) (s0 s1 s2 t : PSFState K F N S R) (n : N) (v : S) (l : K)
    (p : List (Option F) × List (Img K)) (hs : Coh e s0) (h1 : normalImage e s0 = (.ok n, s1))
    (h2 : getVariablePsf e (some l) none s1 = (.ok p, s2)) (hl : s2.sHatLoss ≠ some l)
    (h3 : sHatComp e s2 = (.ok v, t)) :
    normalImage e s2 = (.ok n, s2) ∧
    ∃ a b img u, getVariablePsf e none none s2 = (.ok (a, b), u) ∧ v = e.sOf (s2.zp.getD 1) a b n img := by
  have hn : s1.normal = some n := by
    unfold normalImage at h1
    rw [get_bind] at h1
    cases hc : s0.normal with
    | some m => rw [hc] at h1; cases h1; exact hc
    | none =>
      rw [hc] at h1
      simp only at h1
      rw [bind_eq_ok] at h1
      obtain ⟨q, y, h4, h5⟩ := h1
      rw [modify_bind] at h5
      cases h5
      rfl
  have k := keeps_run (keeps_getVariablePsf e (some l) none) h2
  unfold sPart at k
  simp only [Prod.mk.injEq] at k
  have hn2 : s2.normal = some n := k.2.2.2.2.2.trans hn
  refine ⟨normalImage_some e s2 n hn2, ?_⟩
  have c1 := (normalImage_coh e s0 s1 _ hs h1).1
  obtain ⟨c2, hl2, _⟩ := (getVariablePsf_coh e _ _ s1 s2 _ c1 h2).1 p.1 p.2 rfl
  have hl2' : s2.infLoss = l := hl2
  rw [sHatComp_eq, if_neg (by rw [hl2']; exact hl)] at h3
  obtain ⟨a, b, nrm, img, u, hg, hv, _, _, _, hnn⟩ := fresh_s_hat e s2 t v c2 h3
  refine ⟨a, b, img, u, hg, ?_⟩
  rw [hv, hnn n hn2]

/-! ## A concrete object -/

/-- Libraries for the examples: a fit returns its data, the normalisation is the number of basis
elements, and S records zero point, number of basis elements and normalisation. -/
def demoEnv : KEnv ℚ (List ℚ) ℕ (ℚ × ℕ × ℕ) (ℚ × ℕ × ℕ) :=
  { starEnv with
    eigh := fun _ => .ok ⟨[1, 3], fun s c => if s = c then 1 else 0⟩
    fit := fun _ z => .ok z
    gauss := id
    normalOf := fun _ b => b.length
    sOf := fun z _ b n _ => (z, b.length, n)
    inv := id }

/-- An object with two stars of one-pixel stamps, loss 1/2 (one element suffices). -/
def demoState : PSFState ℚ (List ℚ) ℕ (ℚ × ℕ × ℕ) (ℚ × ℕ × ℕ) :=
  { best := some [starSrc, starSrc], stampShape := (1, 1), stampsPos := some [(5, 5), (6, 6)], nSources := some 2,
    db := some [.fin ⟨1, 1, fun _ _ => 1⟩, .fin ⟨1, 1, fun _ _ => 1⟩], infLoss := 1 / 2 }

example : Unmeasured demoState ∧ Coh demoEnv demoState := ⟨⟨rfl, rfl, rfl⟩, Unmeasured.coh ⟨rfl, rfl, rfl⟩⟩

/-- The two losses, as states after the calls. -/
def demo1 := (sComponent demoEnv demoState).2
def demo2 := (getVariablePsf demoEnv (some (1 / 10)) none demo1).2
def demo3 := (sComponent demoEnv demo2).2
def demo4 := (getVariablePsf demoEnv (some (1 / 2)) none demo3).2

/-- The hypotheses of `s_component_stale` and `normal_not_refreshed` hold, and the third reading is the
component of the two-element PSF although one element is current. -/
example : (sComponent demoEnv demoState).1 = .ok (1, 1, 1) ∧
    (sComponent demoEnv demo2).1 = .ok (1, 2, 1) ∧
    (sComponent demoEnv demo4).1 = .ok (1, 2, 1) ∧ (sHatComp demoEnv demo4).1 = .ok (1, 1, 1) := by
  decide +kernel

example : ((getVariablePsf demoEnv (some (1 / 10)) none demo1).1.map fun p => (p.1, p.2.length)) =
    .ok ([some [0, 1], some [1, 0]], 2) ∧
    ((getVariablePsf demoEnv (some (1 / 2)) none demo3).1.map fun p => (p.1, p.2.length)) = .ok ([none], 1) := by
  decide +kernel

/-- A zero point assigned after the first reading is ignored. -/
example : (sHatComp demoEnv { demo1 with zp := some 7 }).1 = .ok (1, 1, 1) ∧
    (sHatComp demoEnv { demoState with zp := some 7 }).1 = .ok (7, 1, 1) := by decide +kernel

/-- Assigning the loss and asking for it returns the old two-element PSF. -/
example : ((getVariablePsf demoEnv (some (1 / 2)) none { demo2 with infLoss := 1 / 2 }).1.map
    fun p => p.2.length) = .ok 2 := by decide +kernel

/-- After the stamp shape has changed, building a new basis fails, and the same call then returns the
old PSF (`failed_loss_sticks`). -/
example : ((getVariablePsf demoEnv (some (1 / 2)) none { demo2 with stampShape := (1, 7) }).1.map
      fun p => p.2.length) = .error .ValueError ∧
    ((getVariablePsf demoEnv (some (1 / 2)) none
      (getVariablePsf demoEnv (some (1 / 2)) none { demo2 with stampShape := (1, 7) }).2).1.map
      fun p => p.2.length) = .ok 2 := by decide +kernel

end PI
