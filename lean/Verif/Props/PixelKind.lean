import Verif.Model.PixelKind
import Verif.Props.CoaddFront
import Verif.Props.SepInput

/-!
# Property C159: images stored as integers

Specification vocabulary: `IntKind`, the integer and boolean kinds that sep works on.
-/

namespace PI
open PyS

variable {K F N S R W : Type} [Field K] [LinearOrder K]

/-- The kinds that sep works on and that are not floating point. -/
def IntKind (t : NumKind) : Prop := t = .i4 ∨ t = .u1 ∨ t = .bool

theorem IntKind.not_floating {k : NumKind} (h : IntKind k) : k.floating = false := by
  rcases h with h | h | h <;> rw [h] <;> rfl

/-- C159: of the images whose background can be estimated, those stored as integers are the ones given as integer or
boolean arrays without a mask, with guessmask on; all others are floating point. -/
theorem stored_kind (o : CtorOpts) (src : Source) (mask : MaskArg) (l : Layout)
    (h : ∃ x, bkgInput o src mask l = .ok x) :
    ((storedLayout o src mask l).dtype.floating = false ↔ CallersArray o src mask ∧ IntKind l.dtype) ∧
      (IntKind (storedLayout o src mask l).dtype ↔ CallersArray o src mask ∧ IntKind l.dtype) := by
  obtain ⟨d, -, -, hk⟩ := (accepted_iff o src mask l).1 h
  unfold storedLayout
  by_cases hr : keepsRaw o src mask = true
  · have hc := (keepsRaw_iff o src mask).1 hr
    rw [if_pos hr]
    refine ⟨⟨fun hf => ⟨hc, ?_⟩, fun hf => hf.2.not_floating⟩, ⟨fun hf => ⟨hc, hf⟩, fun hf => hf.2⟩⟩
    rcases (hk hc).2 with h | h | h | h | h
    · rw [h] at hf; cases hf
    · rw [h] at hf; cases hf
    · exact Or.inl h
    · exact Or.inr (Or.inl h)
    · exact Or.inr (Or.inr h)
  · have hc : ¬ CallersArray o src mask := fun h => hr ((keepsRaw_iff o src mask).2 h)
    rw [if_neg hr]
    refine ⟨⟨fun hf => (by cases hf), fun hf => absurd hf.1 hc⟩, ⟨fun hf => ?_, fun hf => absurd hf.1 hc⟩⟩
    rcases hf with h | h | h <;> cases h

/-! ## Floating point images -/

theorem normalImageAs_floating (k : NumKind) (e : KEnv K F N S R) (hk : k.floating = true) :
    normalImageAs k e = normalImage e := by
  unfold normalImageAs normalImage
  simp only [hk, Bool.or_true, Bool.true_or, if_true]
  rfl

theorem sHatCompAs_floating (k : NumKind) (e : KEnv K F N S R) (hk : k.floating = true) :
    sHatCompAs k e = sHatComp e := by
  unfold sHatCompAs sHatComp
  simp only [normalImageAs_floating k e hk]
  rfl

/-- C159: for floating point images the four methods are those of the other properties. -/
theorem floating_same (k : NumKind) (e : KEnv K F N S R) (hf : k = .f2 ∨ k = .f4 ∨ k = .f8) :
    normalImageAs k e = normalImage e ∧ sHatCompAs k e = sHatComp e ∧
      (∀ (w : K → List (Img K) → W) z l, coaddImageAs k e w z l = coaddImage e w z l) ∧
      ∀ ev toImg x y, getPsfXYAs k e ev toImg x y = getPsfXY e ev toImg x y := by
  have hk : k.floating = true := by rcases hf with h | h | h <;> rw [h] <;> rfl
  refine ⟨normalImageAs_floating k e hk, sHatCompAs_floating k e hk, fun w z l => ?_, fun ev toImg x y => ?_⟩
  · unfold coaddImageAs coaddImage coaddTermsAs coaddTerms
    rw [sHatCompAs_floating k e hk]
  · unfold getPsfXYAs getPsfXY
    rw [normalImageAs_floating k e hk]
    rfl

/-! ## Integer images -/

theorem mapM_first {α β : Type} (f : α → Py β) (l : List α) (r : List β) (h : l.mapM f = .ok r) (h0 : 0 < r.length) :
    ∃ x, l[0]? = some x ∧ f x = .ok r[0] := by
  obtain ⟨hl, hg⟩ := mapM_get f l r h
  cases l with
  | nil => rw [hl] at h0; cases h0
  | cons x xs =>
    obtain ⟨y, hy, hr⟩ := hg 0 x rfl
    rw [List.getElem?_eq_getElem h0] at hr
    cases hr
    exact ⟨x, rfl, hy⟩

/-- A PSF that could be measured is constant exactly if it has one element, and has one at least. -/
theorem psf_constant_iff (e : KEnv K F N S R) (l : Option K) (shape : Option (ℕ × ℕ)) (s t : PSFState K F N S R)
    (a : List (Option F)) (b : List (Img K)) (hs : Coh e s) (h : getVariablePsf e l shape s = (.ok (a, b), t)) :
    (constantPsf a = true ↔ b.length = 1) ∧ a ≠ [] ∧ b ≠ [] := by
  obtain ⟨hc, -, hf, hb⟩ := (getVariablePsf_coh e l shape s t _ hs h).1 a b rfl
  have hne : a ≠ [] := by
    rintro rfl
    unfold getVariablePsf at h
    simp only [bind_eq_ok] at h
    obtain ⟨_, _, _, _, _, _, _, _, _, _, _, _, _, _, _, _, _, _, h⟩ := h
    unfold finishPsf at h
    split at h
    · cases h
    · cases h
    · split at h
      · cases h
      · cases h
  obtain ⟨b', g, hb', -, hF⟩ := hc.fields a hf
  rw [hb] at hb'
  cases hb'
  rcases hF with ⟨h1, rfl⟩ | ⟨h1, pos, -, hfit⟩
  · refine ⟨⟨fun _ => h1, fun _ => rfl⟩, hne, fun h0 => ?_⟩
    rw [h0] at h1
    cases h1
  · obtain ⟨hlen, hget⟩ := mapM_get _ _ _ hfit
    have h0 : 0 < a.length := List.length_pos_iff.2 hne
    refine ⟨⟨fun hcon => ?_, fun h => absurd h h1⟩, hne, fun hb0 => ?_⟩
    · obtain ⟨col, -, hx⟩ := mapM_first _ _ _ hfit h0
      cases a with
      | nil => exact absurd rfl hne
      | cons x xs =>
        cases x with
        | some f => cases hcon
        | none =>
          cases hz : e.fit pos (measure g.vals.length g col) with
          | error er => rw [hz] at hx; cases hx
          | ok f => rw [hz] at hx; cases hx
    · rw [hb0] at hlen
      exact hne (by simpa [lastCols] using hlen)

/-- C159: `normal_image` of an image that is not floating point, when it is not there yet: if the PSF has one element it
is that of a floating point image, otherwise TypeError is raised, the PSF stays measured and nothing is stored. -/
theorem normal_integers (k : NumKind) (hk : k.floating = false) (e : KEnv K F N S R) (s t : PSFState K F N S R)
    (a : List (Option F)) (b : List (Img K)) (hs : Coh e s) (hn : s.normal = none)
    (h : getVariablePsf e none none s = (.ok (a, b), t)) :
    (b.length = 1 → normalImageAs k e s = normalImage e s) ∧
      (b.length ≠ 1 → normalImageAs k e s = (.error .TypeError, t) ∧ t.normal = none) := by
  obtain ⟨hc, ha0, hb0⟩ := psf_constant_iff e none none s t a b hs h
  have hz : (a.zip b).isEmpty = false := by
    cases a with
    | nil => exact absurd rfl ha0
    | cons x xs =>
      cases b with
      | nil => exact absurd rfl hb0
      | cons y ys => rfl
  have hrun : normalImageAs k e s = (if constantPsf a || k.floating || (a.zip b).isEmpty then
      (do modify fun s => { s with normal := some (e.normalOf a b) }
          pure (e.normalOf a b) : PyS (PSFState K F N S R) N)
    else raise .TypeError) t := by
    unfold normalImageAs
    rw [get_bind, hn]
    simp only
    rw [bind_ok _ _ _ _ _ h]
  rw [hk, hz] at hrun
  refine ⟨fun h1 => ?_, fun h1 => ?_⟩
  · rw [hrun, hc.2 h1]
    unfold normalImage
    rw [get_bind, hn]
    simp only
    rw [bind_ok _ _ _ _ _ h]
    rfl
  · have hcf : constantPsf a = false := by
      rw [Bool.eq_false_iff]
      exact fun h => h1 (hc.1 h)
    rw [hrun, hcf]
    refine ⟨rfl, ?_⟩
    have k' := keeps_run (keeps_getVariablePsf e none none) h
    unfold sPart at k'
    simp only [Prod.mk.injEq] at k'
    rw [k'.2.2.2.2.2, hn]

/-- C159: an image that has its `normal_image` already gives it, whatever the kind. -/
theorem normal_there (k : NumKind) (e : KEnv K F N S R) (s : PSFState K F N S R) (n : N) (h : s.normal = some n) :
    normalImageAs k e s = (.ok n, s) := by
  unfold normalImageAs
  rw [get_bind, h]
  rfl

theorem getVariablePsf_normal (e : KEnv K F N S R) (s t : PSFState K F N S R)
    (r : Py (List (Option F) × List (Img K))) (h : getVariablePsf e none none s = (r, t)) : t.normal = s.normal := by
  have k' := keeps_run (keeps_getVariablePsf e none none) h
  unfold sPart at k'
  simp only [Prod.mk.injEq] at k'
  exact k'.2.2.2.2.2

/-- C159: the matched filter of an image that has neither it nor the `normal_image` yet, where a floating point image of
the same pixels gives one: it is the same if the PSF has one element, otherwise TypeError is raised. -/
theorem score_integers (k : NumKind) (hk : k.floating = false) (e : KEnv K F N S R) (s t : PSFState K F N S R) (v : S)
    (hs : Coh e s) (hn : s.normal = none) (hv : (if s.sHatLoss = some s.infLoss then s.sHat else none) = none)
    (h : sHatComp e s = (.ok v, t)) :
    ∃ b, t.basis = some b ∧ t.fields.isSome ∧ b ≠ [] ∧ (b.length = 1 → sHatCompAs k e s = sHatComp e s) ∧
      (b.length ≠ 1 → (sHatCompAs k e s).1 = .error .TypeError) := by
  have h' := h
  rw [sHatComp_eq, hv] at h'
  simp only at h'
  have hf := h'
  unfold freshSHat at hf
  rw [bind_eq_ok] at hf
  obtain ⟨⟨a, b⟩, u, h1, hf⟩ := hf
  rw [bind_eq_ok] at hf
  obtain ⟨nrm, w, h2, -⟩ := hf
  obtain ⟨hcu, -, hua, hub⟩ := (getVariablePsf_coh e none none s u _ hs h1).1 a b rfl
  obtain ⟨hcon, -, hb0⟩ := psf_constant_iff e none none s u a b hs h1
  have hun : u.normal = none := (getVariablePsf_normal e s u _ h1).trans hn
  have htb : t.basis = some b ∧ t.fields.isSome := by
    unfold freshSHat at h'
    rw [bind_eq_ok] at h'
    obtain ⟨p, u', g1, h'⟩ := h'
    rw [h1] at g1
    cases g1
    rw [bind_eq_ok] at h'
    obtain ⟨nrm', w', g2, h'⟩ := h'
    rw [bind_eq_ok] at h'
    obtain ⟨img, x, g3, h'⟩ := h'
    rw [get_bind, modify_bind] at h'
    cases h'
    obtain ⟨k1, k2⟩ := normalImage_keeps e u w' nrm' a b hcu hua hub g2
    have k3 := imageFor_same e a w' x _ g3
    exact ⟨k3.basis.trans k2, by rw [show _ = _ from k3.fields.trans k1]; rfl⟩
  have hrun : sHatCompAs k e s = (do
      let nrm ← normalImageAs k e
      let img ← (if constantPsf a then interpedHat e else onSI (interped e.toEnv))
      let s ← get
      modify fun s' => { s' with sHat := some (e.sOf (s.zp.getD 1) a b nrm img), sHatLoss := some s'.infLoss }
      pure (e.sOf (s.zp.getD 1) a b nrm img) : PyS (PSFState K F N S R) S) u := by
    unfold sHatCompAs
    rw [get_bind, hv]
    simp only
    rw [bind_ok _ _ _ _ _ h1]
  have hrun' : sHatComp e s = (do
      let nrm ← normalImage e
      let img ← (if constantPsf a then interpedHat e else onSI (interped e.toEnv))
      let s ← get
      modify fun s' => { s' with sHat := some (e.sOf (s.zp.getD 1) a b nrm img), sHatLoss := some s'.infLoss }
      pure (e.sOf (s.zp.getD 1) a b nrm img) : PyS (PSFState K F N S R) S) u := by
    unfold sHatComp
    rw [get_bind, hv]
    simp only
    rw [bind_ok _ _ _ _ _ h1]
  have h2' := h2
  unfold normalImage at h2'
  rw [get_bind, hun] at h2'
  simp only at h2'
  rw [bind_eq_ok] at h2'
  obtain ⟨⟨a', b'⟩, u', g1, -⟩ := h2'
  obtain ⟨rfl, rfl, -, -⟩ := getVariablePsf_cached e u u' a b a' b' hcu hua hub g1
  obtain ⟨n1, n2⟩ := normal_integers k hk e u u' _ _ hcu hun g1
  refine ⟨_, htb.1, htb.2, hb0, fun hb => ?_, fun hb => ?_⟩
  · rw [hrun, hrun', bind_app, bind_app, n1 hb]
  · rw [hrun, bind_err _ _ _ _ _ (n2 hb).1]

/-- C159: an image through coadd that has neither matched filter nor `normal_image` yet, where a floating point image of
the same pixels goes through: with a one-element PSF it does the same, otherwise coadd raises TypeError. -/
theorem coadd_integers (k : NumKind) (hk : k.floating = false) (e : KEnv K F N S R) (w : K → List (Img K) → W) (z l : K)
    (s t : PSFState K F N S R) (x : S × W) (hs : Coh e s) (hn : s.normal = none) (hv : s.sHat = none)
    (h : coaddImage e w z l s = (.ok x, t)) :
    ∃ b, t.basis = some b ∧ b ≠ [] ∧ (b.length = 1 → coaddImageAs k e w z l s = coaddImage e w z l s) ∧
      (b.length ≠ 1 → (coaddImageAs k e w z l s).1 = .error .TypeError) := by
  have h' := h
  unfold coaddImage at h'
  rw [bind_eq_ok] at h'
  obtain ⟨y, p, h1, h2⟩ := h'
  obtain ⟨hcp, -, -, -, -, hps, -, hpn⟩ := prepare_ok e s p z l y hs h1
  unfold coaddTerms at h2
  rw [bind_eq_ok] at h2
  obtain ⟨v, q, h3, h4⟩ := h2
  have hmiss : (if p.sHatLoss = some p.infLoss then p.sHat else none) = none := by
    rw [hps, hv]
    exact ite_self _
  obtain ⟨b, hqb, hqf, hb0, c1, c2⟩ := score_integers k hk e p q v hcp (hpn.trans hn) hmiss h3
  have htb : t.basis = some b := by
    obtain ⟨f, hqf⟩ := Option.isSome_iff_exists.1 hqf
    rw [get_bind, bind_ok _ _ _ _ _ (klBasis_some e q b hqb), bind_ok _ _ _ _ _ (klFields_some e q f hqf)] at h4
    cases h4
    exact hqb
  have hA : coaddImageAs k e w z l s = coaddTermsAs k e w p := by
    unfold coaddImageAs
    rw [bind_ok _ _ _ _ _ h1]
  have hB : coaddImage e w z l s = coaddTerms e w p := by
    unfold coaddImage
    rw [bind_ok _ _ _ _ _ h1]
  refine ⟨b, htb, hb0, fun hb => ?_, fun hb => ?_⟩
  · rw [hA, hB]
    unfold coaddTermsAs coaddTerms
    rw [bind_app, bind_app, c1 hb]
  · rw [hA]
    unfold coaddTermsAs
    have := c2 hb
    rcases hg : sHatCompAs k e p with ⟨er | r, p'⟩
    · rw [hg] at this
      cases this
      rw [bind_err _ _ _ _ _ hg]
    · rw [hg] at this
      cases this

/-- C159: `get_psf_xy` of an image whose PSF is measured and whose `normal_image` is not there yet: the PSF element if
there is only one, otherwise TypeError, at every position. -/
theorem psf_xy_integers (k : NumKind) (hk : k.floating = false) (e : KEnv K F N S R) (ev : F → ℤ → ℤ → K)
    (toImg : N → Img K) (x y : ℚ) (s : PSFState K F N S R) (a : List (Option F)) (b : List (Img K)) (hs : Coh e s)
    (hn : s.normal = none) (ha : s.fields = some a) (hb : s.basis = some b) (ha0 : a ≠ []) (hb0 : b ≠ []) :
    (∀ p, b = [p] → getPsfXYAs k e ev toImg x y s = (.ok p, s)) ∧
      (b.length ≠ 1 → (getPsfXYAs k e ev toImg x y s).1 = .error .TypeError) := by
  obtain ⟨b', g, hb', -, hF⟩ := hs.fields a ha
  rw [hb] at hb'
  cases hb'
  have hrun : ∀ r, (match a, b with
      | [], _ => raise .IndexError
      | none :: _, [] => raise .IndexError
      | none :: _, p :: _ => pure p
      | some _ :: _, [] => raise .IndexError
      | some _ :: _, p :: _ => do
        let n ← normalImageAs k e
        lift (psfAt ev (toImg n) p.h p.w (psfTerms b a) x y) : PyS (PSFState K F N S R) (Img K)) s = r →
      getPsfXYAs k e ev toImg x y s = r := by
    intro r hr
    unfold getPsfXYAs
    rw [bind_ok _ _ _ _ _ (klBasis_some e s b hb), bind_ok _ _ _ _ _ (klFields_some e s a ha)]
    exact hr
  rcases hF with ⟨h1, rfl⟩ | ⟨h1, pos, -, hfit⟩
  · refine ⟨fun p hp => ?_, fun h => absurd h1 h⟩
    apply hrun
    subst hp
    rfl
  · refine ⟨fun p hp => absurd (by rw [hp]; rfl) h1, fun _ => ?_⟩
    obtain ⟨col, -, hx⟩ := mapM_first _ _ _ hfit (List.length_pos_iff.2 ha0)
    cases a with
    | nil => exact absurd rfl ha0
    | cons f fs =>
      cases b with
      | nil => exact absurd rfl hb0
      | cons p ps =>
        cases f with
        | none =>
          cases hz : e.fit pos (measure g.vals.length g col) with
          | error er => rw [hz] at hx; cases hx
          | ok f => rw [hz] at hx; cases hx
        | some f =>
          have hg : getVariablePsf e none none s = (.ok (some f :: fs, p :: ps), s) := by
            unfold getVariablePsf
            rw [modify_bind, get_bind]
            change (setupBasis e none >>= _) s = _
            rw [bind_ok _ _ _ _ _ (setupBasis_skip e none s (by rw [hb]; rfl) rfl)]
            have hf : setupFields e none (lossChanged none s.infLoss) s = (.ok (), s) := by
              rw [setupFields_eq e none _ s (fun x h => by cases h), ha]
              rfl
            change (setupFields e none (lossChanged none s.infLoss) >>= _) s = _
            rw [bind_ok _ _ _ _ _ hf, bind_ok _ _ _ _ _ (klFields_some e s _ ha),
              bind_ok _ _ _ _ _ (klBasis_some e s _ hb)]
            rfl
          have hne := ((normal_integers k hk e s s _ _ hs hn hg).2 h1).1
          rw [hrun _ rfl]
          simp only
          rw [bind_err _ _ _ _ _ hne]

/-! ## Worked instance -/

/-- One element at loss 1/2: an integer image gives what a floating point one gives. Two elements at loss 1/10: the
floating point image has a matched filter, the integer image raises TypeError, again when asked again, while its PSF can
be had. -/
example : (sHatCompAs .i4 demoEnv demoState).1 = .ok (1, 1, 1) ∧
    (sHatComp demoEnv { demoState with infLoss := 1 / 10 }).1 = .ok (1, 2, 2) ∧
    (sHatCompAs .f4 demoEnv { demoState with infLoss := 1 / 10 }).1 = .ok (1, 2, 2) ∧
    (sHatCompAs .i4 demoEnv { demoState with infLoss := 1 / 10 }).1 = .error .TypeError ∧
    (sHatCompAs .i4 demoEnv (sHatCompAs .i4 demoEnv { demoState with infLoss := 1 / 10 }).2).1 = .error .TypeError ∧
    ((getVariablePsf demoEnv none none (sHatCompAs .i4 demoEnv { demoState with infLoss := 1 / 10 }).2).1.map
      fun p => p.2.length) = .ok 2 ∧
    (coaddImageAs .u1 demoEnv (fun z b => (z, b.length)) 3 (1 / 10) demoState).1 = .error .TypeError ∧
    (coaddImageAs .u1 demoEnv (fun z b => (z, b.length)) 3 (1 / 2) demoState).1 = .ok ((3, 1, 1), (3, 1)) := by
  decide +kernel

end PI
