import Verif.Props.CacheMore
import Verif.Props.StampsMore

/-!
# C115: the matched filter depends on whether `interped_hat` was read before the stars were measured
-/

namespace PI
open PyS

variable {K F N S R : Type}

/-! ## Methods that do not look at the remembered transform -/

/-- A method that neither reads nor changes the remembered transform of the image. -/
def Blind {α : Type} (f : PyS (PSFState K F N S R) α) : Prop :=
  ∀ s x, f { s with imgHat := x } = ((f s).1, { (f s).2 with imgHat := x })

section blind
variable {α β : Type}

theorem Blind.bind {f : PyS (PSFState K F N S R) α} {g : α → PyS (PSFState K F N S R) β} (hf : Blind f)
    (hg : ∀ a, Blind (g a)) : Blind (f >>= g) := by
  intro s x
  rw [bind_app, bind_app, hf s x]
  rcases f s with ⟨er | a, t⟩
  · rfl
  · exact hg a t x

/-- Reading the state, if what follows does not look at the transform. -/
theorem Blind.get_bind {g : PSFState K F N S R → PyS (PSFState K F N S R) β}
    (h1 : ∀ s x, g { s with imgHat := x } = g s) (h2 : ∀ s, Blind (g s)) : Blind (PyS.get >>= g) := by
  intro s x
  rw [PyS.get_bind, PyS.get_bind, h1]
  exact h2 s s x

theorem Blind.pure (a : α) : Blind (Pure.pure a : PyS (PSFState K F N S R) α) := fun _ _ => rfl
theorem Blind.raise (er : PyErr) : Blind (PyS.raise er : PyS (PSFState K F N S R) α) := fun _ _ => rfl
theorem Blind.lift (r : Py α) : Blind (PyS.lift r : PyS (PSFState K F N S R) α) := fun _ _ => rfl
theorem Blind.ite {c : Prop} [Decidable c] {f g : PyS (PSFState K F N S R) α} (hf : Blind f) (hg : Blind g) :
    Blind (if c then f else g) := by
  split
  · exact hf
  · exact hg

theorem Blind.onSI (f : PyS SIState α) : Blind (PI.onSI f : PyS (PSFState K F N S R) α) := fun _ _ => rfl

theorem Blind.modify (f : PSFState K F N S R → PSFState K F N S R)
    (h : ∀ s x, f { s with imgHat := x } = { f s with imgHat := x }) : Blind (PyS.modify f) := by
  intro s x
  change (Except.ok (), f { s with imgHat := x }) = (Except.ok (), { f s with imgHat := x })
  rw [h]

/-- It keeps the transform. -/
theorem Blind.keeps {f : PyS (PSFState K F N S R) α} (h : Blind f) (s : PSFState K F N S R) :
    (f s).2.imgHat = s.imgHat := by
  have := congrArg (fun p : Py α × PSFState K F N S R => p.2.imgHat) (h s s.imgHat)
  exact this

end blind

variable [Field K] [LinearOrder K]

omit [LinearOrder K] in
theorem blind_covMatrix (e : KEnv K F N S R) : Blind (covMatrix e) := by
  unfold covMatrix
  refine Blind.get_bind (fun _ _ => rfl) fun s => ?_
  split
  · exact .pure _
  · exact .bind (.onSI _) fun n => .get_bind (fun _ _ => rfl) fun s =>
      .bind (.modify _ fun _ _ => rfl) fun _ => .pure _

omit [LinearOrder K] in
theorem blind_eigenv (e : KEnv K F N S R) : Blind (eigenv e) := by
  unfold eigenv
  refine Blind.get_bind (fun _ _ => rfl) fun s => ?_
  split
  · exact .pure _
  · refine .bind (blind_covMatrix e) fun c => ?_
    split
    · exact .raise _
    · exact .bind (.modify _ fun _ _ => rfl) fun _ => .pure _

theorem blind_setupBasis (e : KEnv K F N S R) (l : Option K) : Blind (setupBasis e l) := by
  unfold setupBasis
  refine Blind.get_bind (fun _ _ => rfl) fun s => .ite ?_ (.pure _)
  refine .bind (.modify _ fun _ _ => rfl) fun _ => .bind (blind_eigenv e) fun g =>
    .get_bind (fun _ _ => rfl) fun s => ?_
  split
  · exact .raise _
  · exact .bind (.lift _) fun b => .modify _ fun _ _ => rfl

theorem blind_klBasis (e : KEnv K F N S R) : Blind (klBasis e) := by
  unfold klBasis
  refine Blind.get_bind (fun _ _ => rfl) fun s => ?_
  split
  · exact .pure _
  · refine .bind (blind_setupBasis e none) fun _ => .get_bind (fun _ _ => rfl) fun s => ?_
    split
    · exact .pure _
    · exact .raise _

theorem blind_setupFields (e : KEnv K F N S R) (l : Option K) (upd : Bool) : Blind (setupFields e l upd) := by
  unfold setupFields
  refine Blind.get_bind (fun _ _ => rfl) fun s => .ite ?_ (.pure _)
  have tail : Blind (K := K) (F := F) (N := N) (S := S) (R := R) (fieldsPart e) := by
    unfold fieldsPart
    exact .bind (blind_klBasis e) fun b => .ite (.modify _ fun _ _ => rfl)
      (.bind (.onSI _) fun _ => .bind (.onSI _) fun pos => .ite (.raise _)
        (.bind (blind_eigenv e) fun g => .bind (.lift _) fun f => .modify _ fun _ _ => rfl))
  cases l with
  | none => exact tail
  | some x =>
    first
      | exact .bind (.bind (blind_setupBasis e _) fun _ => .modify _ fun _ _ => rfl) fun _ => tail
      | exact .bind (blind_setupBasis e _) fun _ => .bind (.modify _ fun _ _ => rfl) fun _ => tail

theorem blind_getVariablePsf (e : KEnv K F N S R) (l : Option K) (shape : Option (ℕ × ℕ)) :
    Blind (getVariablePsf e l shape) := by
  unfold getVariablePsf
  refine Blind.bind (.modify _ fun _ _ => rfl) fun _ => .get_bind (fun _ _ => rfl) fun s =>
    .bind (blind_setupBasis e l) fun _ => .bind (blind_setupFields e l _) fun _ => ?_
  refine .bind ?_ fun a => .bind (blind_klBasis e) fun b => ?_
  · unfold klFields
    refine Blind.get_bind (fun _ _ => rfl) fun s => ?_
    split
    · exact .pure _
    · refine .bind (blind_setupFields e none false) fun _ => .get_bind (fun _ _ => rfl) fun s => ?_
      split
      · exact .pure _
      · exact .raise _
  · unfold finishPsf
    split
    · exact .raise _
    · exact .pure _
    · exact .ite (.raise _) (.bind (.modify _ fun _ _ => rfl) fun _ => .pure _)

theorem blind_normalImage (e : KEnv K F N S R) : Blind (normalImage e) := by
  unfold normalImage
  refine Blind.get_bind (fun _ _ => rfl) fun s => ?_
  split
  · exact .pure _
  · exact .bind (blind_getVariablePsf e none none) fun r => .bind (.modify _ fun _ _ => rfl) fun _ => .pure _

/-! ## The two orders -/

/-- **C115.** Take an image whose matched filter has not been computed. Reading `interped` and then
`s_hat_comp` gives the filter of the image as it is *after* the stars were cut out of it (and changed, C81).
Reading `interped_hat` instead of `interped` before gives, for a PSF that does not vary, the filter of
the image as it was before, with the same PSF, zero point and normalisation; for a PSF that varies it
makes no difference. -/
theorem s_hat_depends_on_order (e : KEnv K F N S R) (s s1 t : PSFState K F N S R) (before : Img (Option ℚ))
    (v : S) (hno : s.imgHat = none) (hfresh : s.sHat = none)
    (hread : onSI (interped e.toEnv) s = (.ok before, s1)) (h : sHatComp e s1 = (.ok v, t)) :
    ∃ s2 t2 v2 zp a b nrm after,
      interpedHat e s = (.ok before, s2) ∧ sHatComp e s2 = (.ok v2, t2) ∧
      t.interped = some after ∧
      v = e.sOf zp a b nrm after ∧
      v2 = e.sOf zp a b nrm (if constantPsf a then before else after) := by
  have hs1 : s1.imgHat = none ∧ s1.sHat = none := by
    have h2 : s1 = (onSI (interped e.toEnv) s).2 := by rw [hread]
    rw [h2]; exact ⟨hno, hfresh⟩
  have hhat : interpedHat e s = (.ok before, { s1 with imgHat := some before }) := by
    unfold interpedHat
    rw [PyS.get_bind, hno]
    simp only []
    rw [bind_ok _ _ _ _ _ hread, modify_bind]
    rfl
  refine ⟨{ s1 with imgHat := some before }, ?_⟩
  have fresh : ∀ s : PSFState K F N S R, s.sHat = none → sHatComp e s = freshSHat e s := by
    intro s hs
    rw [sHatComp_eq, hs]
    have : (if s.sHatLoss = some s.infLoss then (none : Option S) else none) = none := by split <;> rfl
    rw [this]
  rw [fresh s1 hs1.2] at h
  have hf2 := fresh { s1 with imgHat := some before } hs1.2
  unfold freshSHat at h
  rw [bind_eq_ok] at h
  obtain ⟨⟨a, b⟩, u, h1, h⟩ := h
  rw [bind_eq_ok] at h
  obtain ⟨nrm, w, h2, h⟩ := h
  rw [bind_eq_ok] at h
  obtain ⟨img, x, h3, h⟩ := h
  rw [PyS.get_bind, modify_bind] at h
  cases h
  have g1 : getVariablePsf e none none { s1 with imgHat := some before }
      = (.ok (a, b), { u with imgHat := some before }) := by
    rw [blind_getVariablePsf e none none s1, h1]
  have g2 : normalImage e { u with imgHat := some before } = (.ok nrm, { w with imgHat := some before }) := by
    rw [blind_normalImage e u, h2]
  have hu : u.imgHat = none := by
    have := (blind_getVariablePsf e none none).keeps s1
    rw [h1] at this; exact this.trans hs1.1
  have hw : w.imgHat = none := by
    have := (blind_normalImage e).keeps u
    rw [h2] at this; exact this.trans hu
  -- the image read at the end
  have hint : ∃ x', onSI (interped e.toEnv) w = (.ok img, x') ∧ x'.interped = some img ∧
      x.interped = some img ∧ x.zp = w.zp ∧ x'.zp = w.zp ∧ x'.imgHat = none ∧ x.infLoss = w.infLoss := by
    have base : ∀ y : PSFState K F N S R, onSI (interped e.toEnv) w = (.ok img, y) →
        y.interped = some img ∧ y.zp = w.zp ∧ y.imgHat = none ∧ y.infLoss = w.infLoss := by
      intro y hy
      have hy2 : y = (onSI (interped e.toEnv) w).2 := by rw [hy]
      refine ⟨?_, by rw [hy2]; rfl, by rw [hy2]; exact hw, by rw [hy2]; rfl⟩
      have hy1 : (interped e.toEnv w.toSIState).1 = .ok img := congrArg Prod.fst hy
      rw [hy2]
      change (interped e.toEnv w.toSIState).2.interped = some img
      unfold interped at hy1 ⊢
      rw [PyS.get_bind] at hy1 ⊢
      cases hi : w.toSIState.interped with
      | some q =>
        rw [hi] at hy1
        cases hy1
        exact hi
      | none =>
        rw [hi] at hy1
        simp only [] at hy1 ⊢
        cases he : e.toEnv.interp with
        | error er => rw [he] at hy1; cases hy1
        | ok q => rw [he] at hy1; cases hy1; rfl
    unfold imageFor at h3
    by_cases hc : constantPsf a
    · rw [if_pos hc] at h3
      unfold interpedHat at h3
      rw [PyS.get_bind, hw] at h3
      simp only [] at h3
      rw [bind_eq_ok] at h3
      obtain ⟨q, y, h4, h5⟩ := h3
      rw [modify_bind] at h5
      cases h5
      obtain ⟨b1, b2, b3, b4⟩ := base y h4
      exact ⟨y, h4, b1, b1, b2, b2, b3, b4⟩
    · rw [if_neg hc] at h3
      obtain ⟨b1, b2, b3, b4⟩ := base x h3
      exact ⟨x, h3, b1, b1, b2, b2, b3, b4⟩
  obtain ⟨x', hx', hx1, hx2, hx3, hx4, hx5, hx6⟩ := hint
  by_cases hc : constantPsf a
  · have g3 : imageFor e a { w with imgHat := some before } = (.ok before, { w with imgHat := some before }) := by
      unfold imageFor
      rw [if_pos hc]
      unfold interpedHat
      rw [PyS.get_bind]
      rfl
    have key : ∃ t2, sHatComp e { s1 with imgHat := some before }
        = (.ok (e.sOf (w.zp.getD 1) a b nrm before), t2) := by
      rw [hf2]
      unfold freshSHat
      rw [bind_ok _ _ _ _ _ g1, bind_ok _ _ _ _ _ g2, bind_ok _ _ _ _ _ g3, PyS.get_bind, modify_bind]
      exact ⟨_, rfl⟩
    obtain ⟨t2, key⟩ := key
    refine ⟨t2, _, x.zp.getD 1, a, b, nrm, img, hhat, key, hx2, rfl, ?_⟩
    rw [if_pos hc, hx3]
  · have g3 : imageFor e a { w with imgHat := some before } = (.ok img, { x' with imgHat := some before }) := by
      unfold imageFor
      rw [if_neg hc, Blind.onSI (interped e.toEnv) w, hx']
    have key : ∃ t2, sHatComp e { s1 with imgHat := some before }
        = (.ok (e.sOf (x'.zp.getD 1) a b nrm img), t2) := by
      rw [hf2]
      unfold freshSHat
      rw [bind_ok _ _ _ _ _ g1, bind_ok _ _ _ _ _ g2, bind_ok _ _ _ _ _ g3, PyS.get_bind, modify_bind]
      exact ⟨_, rfl⟩
    obtain ⟨t2, key⟩ := key
    refine ⟨t2, _, x.zp.getD 1, a, b, nrm, img, hhat, key, hx2, rfl, ?_⟩
    rw [if_neg hc, hx3, hx4]

/-! ## Worked instance -/

/-- The star field of C81 with an eigenvector library that finds one component and a filter that shows the
pixel `[0, 1]` of the image it is given. -/
def oneStarEnv : KEnv ℚ Unit Unit (Option ℚ) Unit :=
  { toEnv := starEnv
    eigh := fun _ => .ok ⟨[1], fun _ _ => 1⟩
    fit := fun _ _ => .ok ()
    gauss := fun a => a
    normalOf := fun _ _ => ()
    sOf := fun _ _ _ _ img => img.px 0 1
    inv := fun _ => () }

/-- A new image of the star field. -/
def oneStarState : PSFState ℚ Unit Unit (Option ℚ) Unit :=
  { toSIState := starState false, infLoss := 1 / 5 }

/-- The filter sees the pixel as 1 when `interped` was read first, and as 2 when `interped_hat` was. -/
theorem s_hat_order_example :
    (sHatComp oneStarEnv (onSI (interped starEnv) oneStarState).2).1 = .ok (some 1) ∧
      (sHatComp oneStarEnv (interpedHat oneStarEnv oneStarState).2).1 = .ok (some 2) := by
  decide +kernel

end PI
