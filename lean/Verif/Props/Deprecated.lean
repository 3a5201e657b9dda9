import Verif.Model.Deprecated
import Mathlib.Logic.Function.Iterate
import Mathlib.Data.List.Basic

/-!
# C166, C167: the deprecated names `diff` and `stack_R`; the printed form of an image

C166: `diff` and `stack_R` are `subtract` and `coadd` with a warning in front.
C167: the printed form of an image tells its shape, and the domain of its coefficient fields is its pixel grid.
-/

namespace PI

/-! ## Specification: what a list of warning filters says about a line of `operations.py` -/

/-- The filter is about `DeprecationWarning`s with this text at this line of `properimage.operations`. -/
def AppliesHere (text : String) (line : ℕ) (f : WFilter) : Prop :=
  f.msg text = true ∧ f.cat = true ∧ f.mod "properimage.operations" = true ∧ (f.line = 0 ∨ f.line = line)

/-- The first filter that applies has this action, or none applies and this is the default action. -/
def FilterSays (w : WState) (text : String) (line : ℕ) (act : WAction) : Prop :=
  (∃ pre g post, w.filters = pre ++ g :: post ∧ (∀ f ∈ pre, ¬ AppliesHere text line f) ∧
    AppliesHere text line g ∧ g.action = act) ∨
  ((∀ f ∈ w.filters, ¬ AppliesHere text line f) ∧ w.defaultAction = act)

/-- The warning has been dealt with before, under the filters still in force. -/
def Warned (w : WState) (text : String) (line : ℕ) : Prop :=
  w.regVersion = w.version ∧ (text, line) ∈ w.registry

/-- What a call of the wrapped function looks like to the caller. -/
def asAlias {R : Type} : Py R → Except AliasErr R
  | .ok r => .ok r
  | .error e => .error (.raised e)

def diffText : String := "This is being deprecated in favour of `subtract`"
def stackText : String := "This is being deprecated in favour of `coadd`"
def opsFrame (line : ℕ) : PyFrame := ⟨"properimage.operations", line⟩

theorem matches_iff (text : String) (line : ℕ) (f : WFilter) :
    f.matches text (opsFrame line) = true ↔ AppliesHere text line f := by
  simp only [WFilter.matches, AppliesHere, opsFrame, Bool.and_eq_true, Bool.or_eq_true, beq_iff_eq]
  constructor
  · rintro ⟨⟨⟨a, b⟩, c⟩, d⟩
    exact ⟨a, b, c, d.imp id Eq.symm⟩
  · rintro ⟨a, b, c, d⟩
    exact ⟨⟨⟨a, b⟩, c⟩, d.imp id Eq.symm⟩

theorem actionFor_of_says {w : WState} {text : String} {line : ℕ} {act : WAction}
    (h : FilterSays w text line act) : w.actionFor text (opsFrame line) = act := by
  rcases h with ⟨pre, g, post, hf, hpre, hg, ha⟩ | ⟨hno, hd⟩
  · have h1 : pre.find? (·.matches text (opsFrame line)) = none := by
      rw [List.find?_eq_none]
      intro f hf' hm
      exact hpre f hf' ((matches_iff text line f).1 hm)
    have h2 : g.matches text (opsFrame line) = true := (matches_iff text line g).2 hg
    simp [WState.actionFor, hf, List.find?_append, h1, h2, ha]
  · have h1 : w.filters.find? (·.matches text (opsFrame line)) = none := by
      rw [List.find?_eq_none]
      intro f hf' hm
      exact hno f hf' ((matches_iff text line f).1 hm)
    simp [WState.actionFor, h1, hd]

theorem actionFor_fresh (w : WState) (text : String) (fr : PyFrame) :
    w.fresh.actionFor text fr = w.actionFor text fr := by
  unfold WState.fresh
  by_cases h : w.regVersion = w.version
  · rw [if_pos h]
  · rw [if_neg h]; rfl

theorem mem_fresh (w : WState) (text : String) (line : ℕ) :
    (text, line) ∈ w.fresh.registry ↔ Warned w text line := by
  unfold WState.fresh Warned
  split
  · rename_i h; simp [h]
  · rename_i h; simp [h]

theorem fresh_shown (w : WState) : w.fresh.shown = w.shown := by
  unfold WState.fresh; split <;> rfl

theorem fresh_once (w : WState) : w.fresh.once = w.once := by
  unfold WState.fresh; split <;> rfl

theorem fresh_current (w : WState) : w.fresh.regVersion = w.fresh.version := by
  unfold WState.fresh; split
  · assumption
  · rfl

theorem fresh_of_current {w : WState} (h : w.regVersion = w.version) : w.fresh = w := by
  unfold WState.fresh; simp [h]

/-- A call in terms of `warn_explicit`. -/
theorem aliasCall_eq {A R σ : Type} (here : PyFrame) (text : String) (f : A → σ → Py R × σ)
    (stack : List PyFrame) (a : A) (w : WState) (s : σ) :
    aliasCall here text f stack a w s =
      if (warnExplicit text here w).1 = true then
        (.error .DeprecationWarning, (warnExplicit text here w).2, s)
      else (asAlias (f a s).1, (warnExplicit text here w).2, (f a s).2) := by
  have h0 : warnCall (here :: stack) 1 text w = warnExplicit text here w := rfl
  unfold aliasCall
  rw [h0]
  obtain ⟨b, w'⟩ := warnExplicit text here w
  cases b
  · obtain ⟨r, s'⟩ := f a s
    cases r <;> simp [asAlias]
  · simp

/-- Whether `warn_explicit` raises. -/
theorem warn_raises_iff {w : WState} {text : String} {line : ℕ} {act : WAction}
    (h : FilterSays w text line act) :
    (warnExplicit text (opsFrame line) w).1 = true ↔ act = .error ∧ ¬ Warned w text line := by
  have ha := actionFor_of_says h
  rw [← actionFor_fresh] at ha
  have hl : (opsFrame line).line = line := rfl
  have hm := mem_fresh w text line
  unfold warnExplicit
  simp only [hl, ha]
  by_cases hw : Warned w text line
  · simp [hm.2 hw, hw]
  · have : (text, line) ∉ w.fresh.registry := fun h => hw (hm.1 h)
    simp only [this, if_false]
    cases act <;> simp [hw]
    all_goals split <;> rfl

/-! ## One call -/

theorem alias_passes {A R σ : Type} (text : String) (line : ℕ) (f : A → σ → Py R × σ) (stack : List PyFrame)
    (a : A) (w : WState) (s : σ) (act : WAction) (h : FilterSays w text line act)
    (hq : act ≠ .error ∨ Warned w text line) :
    (aliasCall (opsFrame line) text f stack a w s).1 = asAlias (f a s).1 ∧
    (aliasCall (opsFrame line) text f stack a w s).2.2 = (f a s).2 := by
  have hn : ¬ (warnExplicit text (opsFrame line) w).1 = true := by
    rw [warn_raises_iff h]
    rintro ⟨h1, h2⟩
    rcases hq with hq | hq
    · exact hq h1
    · exact h2 hq
  rw [aliasCall_eq, if_neg hn]
  exact ⟨rfl, rfl⟩

theorem alias_blocks {A R σ : Type} (text : String) (line : ℕ) (f : A → σ → Py R × σ) (stack : List PyFrame)
    (a : A) (w : WState) (s : σ) (h : FilterSays w text line .error) (hq : ¬ Warned w text line) :
    (aliasCall (opsFrame line) text f stack a w s).1 = .error .DeprecationWarning ∧
    (aliasCall (opsFrame line) text f stack a w s).2.2 = s ∧
    (aliasCall (opsFrame line) text f stack a w s).2.1.shown = w.shown := by
  have hn : (warnExplicit text (opsFrame line) w).1 = true := (warn_raises_iff h).2 ⟨rfl, hq⟩
  rw [aliasCall_eq, if_pos hn]
  refine ⟨rfl, rfl, ?_⟩
  have ha := actionFor_of_says h
  rw [← actionFor_fresh] at ha
  have : (text, (opsFrame line).line) ∉ w.fresh.registry := fun h => hq ((mem_fresh w text line).1 h)
  simp [warnExplicit, ha, this, fresh_shown]

/-- C166: unless the filter that applies turns the warning into an exception, `diff` gives the caller what `subtract`
gives for the same arguments – the same value or the same exception – and changes what `subtract` changes; likewise `stack_R`
and `coadd`. -/
theorem deprecated_same_result {A R σ : Type} (f : A → σ → Py R × σ) (stack : List PyFrame)
    (a : A) (w : WState) (s : σ) (act : WAction) :
    ((FilterSays w diffText 434 act ∧ (act ≠ .error ∨ Warned w diffText 434)) →
      (diffAlias f stack a w s).1 = asAlias (f a s).1 ∧ (diffAlias f stack a w s).2.2 = (f a s).2) ∧
    ((FilterSays w stackText 585 act ∧ (act ≠ .error ∨ Warned w stackText 585)) →
      (stackRAlias f stack a w s).1 = asAlias (f a s).1 ∧ (stackRAlias f stack a w s).2.2 = (f a s).2) :=
  ⟨fun h => alias_passes diffText 434 f stack a w s act h.1 h.2,
   fun h => alias_passes stackText 585 f stack a w s act h.1 h.2⟩

/-- C166: when the filter that applies says `error`, the call raises the warning and neither calls the wrapped function nor
changes anything. -/
theorem deprecated_as_error {A R σ : Type} (f : A → σ → Py R × σ) (stack : List PyFrame)
    (a : A) (w : WState) (s : σ) :
    (FilterSays w diffText 434 .error → ¬ Warned w diffText 434 →
      (diffAlias f stack a w s).1 = .error .DeprecationWarning ∧ (diffAlias f stack a w s).2.2 = s ∧
      (diffAlias f stack a w s).2.1.shown = w.shown) ∧
    (FilterSays w stackText 585 .error → ¬ Warned w stackText 585 →
      (stackRAlias f stack a w s).1 = .error .DeprecationWarning ∧ (stackRAlias f stack a w s).2.2 = s ∧
      (stackRAlias f stack a w s).2.1.shown = w.shown) :=
  ⟨alias_blocks diffText 434 f stack a w s, alias_blocks stackText 585 f stack a w s⟩

/-! ## Many calls -/

theorem aliasCalls_warn {A R σ : Type} (here : PyFrame) (text : String) (f : A → σ → Py R × σ)
    (calls : List (List PyFrame × A)) (w : WState) (s : σ) :
    (aliasCalls (aliasCall here text f) calls w s).1 =
      (fun w => (warnExplicit text here w).2)^[calls.length] w := by
  induction calls generalizing w s with
  | nil => rfl
  | cons c rest ih =>
    obtain ⟨stack, a⟩ := c
    simp only [aliasCalls, List.length_cons, Function.iterate_succ, Function.comp]
    rw [ih]
    congr 1
    rw [aliasCall_eq]
    split <;> rfl

theorem says_step {w : WState} {text : String} {line : ℕ} {act : WAction} (h : FilterSays w text line act) :
    FilterSays (warnExplicit text (opsFrame line) w).2 text line act := by
  have key : (warnExplicit text (opsFrame line) w).2.filters = w.filters ∧
      (warnExplicit text (opsFrame line) w).2.defaultAction = w.defaultAction := by
    have hf : w.fresh.filters = w.filters ∧ w.fresh.defaultAction = w.defaultAction := by
      unfold WState.fresh; split <;> exact ⟨rfl, rfl⟩
    unfold warnExplicit
    simp only
    split
    · exact hf
    · split <;> first
        | exact hf
        | (split <;> exact hf)
  unfold FilterSays
  rw [key.1, key.2]
  exact h

theorem warn_quiet {w : WState} {text : String} {line : ℕ} (h : Warned w text line) :
    (warnExplicit text (opsFrame line) w).2 = w := by
  have hm : (text, (opsFrame line).line) ∈ w.fresh.registry := (mem_fresh w text line).2 h
  have hw : w.fresh = w := fresh_of_current h.1
  unfold warnExplicit
  simp only [hm, if_true]
  exact hw

theorem iterate_quiet {w : WState} {text : String} {line : ℕ} (h : Warned w text line) (n : ℕ) :
    (fun w => (warnExplicit text (opsFrame line) w).2)^[n] w = w := by
  induction n with
  | zero => rfl
  | succ n ih =>
    rw [Function.iterate_succ, Function.comp]
    rw [warn_quiet h, ih]

theorem iterate_ignore {text : String} {line : ℕ} (n : ℕ) (w : WState) (h : FilterSays w text line .ignore) :
    ((fun w => (warnExplicit text (opsFrame line) w).2)^[n] w).shown = w.shown := by
  induction n generalizing w with
  | zero => rfl
  | succ n ih =>
    rw [Function.iterate_succ, Function.comp, ih _ (says_step h)]
    have ha := actionFor_of_says h
    rw [← actionFor_fresh] at ha
    simp only [warnExplicit, ha]
    split <;> exact fresh_shown w

theorem iterate_always {text : String} {line : ℕ} (n : ℕ) (w : WState) (h : FilterSays w text line .always)
    (hq : ¬ Warned w text line) :
    ((fun w => (warnExplicit text (opsFrame line) w).2)^[n] w).shown =
      w.shown ++ List.replicate n (text, opsFrame line) := by
  induction n generalizing w with
  | zero => simp
  | succ n ih =>
    have ha := actionFor_of_says h
    rw [← actionFor_fresh] at ha
    have hm : (text, (opsFrame line).line) ∉ w.fresh.registry := fun h => hq ((mem_fresh w text line).1 h)
    have e : (warnExplicit text (opsFrame line) w).2 =
        { w.fresh with shown := w.fresh.shown ++ [(text, opsFrame line)] } := by
      simp [warnExplicit, ha, hm]
    rw [Function.iterate_succ, Function.comp, ih _ (says_step h), e]
    · simp [fresh_shown, List.replicate_succ]
    · rw [e]
      rintro ⟨_, hr⟩
      exact hm hr

theorem iterate_once {text : String} {line : ℕ} (n : ℕ) (w : WState) (act : WAction)
    (hact : act = .default ∨ act = .module ∨ act = .once) (h : FilterSays w text line act)
    (hl : line ≠ 0) (hq : ¬ Warned w text line) (h0 : ¬ Warned w text 0) (ho : text ∉ w.once) :
    ((fun w => (warnExplicit text (opsFrame line) w).2)^[n + 1] w).shown =
      w.shown ++ [(text, opsFrame line)] := by
  have ha := actionFor_of_says h
  rw [← actionFor_fresh] at ha
  have hll : (opsFrame line).line = line := rfl
  have hm : (text, line) ∉ w.fresh.registry := fun h => hq ((mem_fresh w text line).1 h)
  have hm0 : (text, 0) ∉ w.fresh.registry := fun h => h0 ((mem_fresh w text 0).1 h)
  have key : Warned (warnExplicit text (opsFrame line) w).2 text line ∧
      (warnExplicit text (opsFrame line) w).2.shown = w.shown ++ [(text, opsFrame line)] := by
    rcases hact with rfl | rfl | rfl
    · simp [warnExplicit, ha, hm, hll, fresh_shown, Warned, fresh_current]
    · simp [warnExplicit, ha, hm, hm0, hll, hl, Ne.symm hl, fresh_shown, Warned, fresh_current]
    · simp [warnExplicit, ha, hm, hll, fresh_shown, fresh_once, ho, Warned, fresh_current]
  rw [Function.iterate_succ, Function.comp, iterate_quiet key.1, key.2]

/-- C166: with the filters of an interpreter started without options no number of calls, from wherever – `__main__` or any other
module – shows anything, because the warning is attributed to `properimage.operations` and not to the caller. -/
theorem deprecated_silent_by_default {A R σ : Type} (f : A → σ → Py R × σ)
    (calls : List (List PyFrame × A)) (w : WState) (s : σ) (hw : w.filters = stockFilters) :
    (aliasCalls (diffAlias f) calls w s).1.shown = w.shown ∧
    (aliasCalls (stackRAlias f) calls w s).1.shown = w.shown ∧
    (∀ c ∈ calls, (diffAlias f c.1 c.2 w s).1 = asAlias (f c.2 s).1 ∧
      (stackRAlias f c.1 c.2 w s).1 = asAlias (f c.2 s).1) := by
  have hs : ∀ text line, FilterSays w text line .ignore := by
    intro text line
    refine .inl ⟨[⟨.default, fun _ => true, true, fun m => m == "__main__", 0⟩],
      ⟨.ignore, fun _ => true, true, fun _ => true, 0⟩, _, hw, ?_, ?_, rfl⟩
    · intro g hg
      simp only [List.mem_singleton] at hg
      subst hg
      simp [AppliesHere]
    · simp [AppliesHere]
  refine ⟨?_, ?_, fun c _ => ⟨?_, ?_⟩⟩
  · have := aliasCalls_warn (opsFrame 434) diffText f calls w s
    exact (congrArg WState.shown this).trans (iterate_ignore _ w (hs _ _))
  · have := aliasCalls_warn (opsFrame 585) stackText f calls w s
    exact (congrArg WState.shown this).trans (iterate_ignore _ w (hs _ _))
  · exact ((deprecated_same_result f c.1 c.2 w s .ignore).1 ⟨hs _ _, .inl (by simp)⟩).1
  · exact ((deprecated_same_result f c.1 c.2 w s .ignore).2 ⟨hs _ _, .inl (by simp)⟩).1

/-- C166: under a filter saying `default`, `module` or `once` any positive number of calls shows one warning, whatever the
places they are made from; under `always` every call shows one. All name a line of `properimage.operations`. -/
theorem deprecated_shown {A R σ : Type} (f : A → σ → Py R × σ)
    (calls : List (List PyFrame × A)) (w : WState) (s : σ) (hne : calls ≠ []) :
    (∀ act, act = .default ∨ act = .module ∨ act = .once → FilterSays w diffText 434 act →
      ¬ Warned w diffText 434 → ¬ Warned w diffText 0 → diffText ∉ w.once →
      (aliasCalls (diffAlias f) calls w s).1.shown = w.shown ++ [(diffText, opsFrame 434)]) ∧
    (∀ act, act = .default ∨ act = .module ∨ act = .once → FilterSays w stackText 585 act →
      ¬ Warned w stackText 585 → ¬ Warned w stackText 0 → stackText ∉ w.once →
      (aliasCalls (stackRAlias f) calls w s).1.shown = w.shown ++ [(stackText, opsFrame 585)]) ∧
    (FilterSays w diffText 434 .always → ¬ Warned w diffText 434 →
      (aliasCalls (diffAlias f) calls w s).1.shown =
        w.shown ++ List.replicate calls.length (diffText, opsFrame 434)) ∧
    (FilterSays w stackText 585 .always → ¬ Warned w stackText 585 →
      (aliasCalls (stackRAlias f) calls w s).1.shown =
        w.shown ++ List.replicate calls.length (stackText, opsFrame 585)) := by
  have hd := aliasCalls_warn (opsFrame 434) diffText f calls w s
  have hs := aliasCalls_warn (opsFrame 585) stackText f calls w s
  obtain ⟨n, hn⟩ : ∃ n, calls.length = n + 1 := by
    cases calls with
    | nil => exact absurd rfl hne
    | cons c r => exact ⟨r.length, rfl⟩
  refine ⟨fun act ha h1 h2 h3 h4 => ?_, fun act ha h1 h2 h3 h4 => ?_, fun h1 h2 => ?_, fun h1 h2 => ?_⟩
  · rw [hn] at hd
    exact (congrArg WState.shown hd).trans (iterate_once n w act ha h1 (by decide) h2 h3 h4)
  · rw [hn] at hs
    exact (congrArg WState.shown hs).trans (iterate_once n w act ha h1 (by decide) h2 h3 h4)
  · exact (congrArg WState.shown hd).trans (iterate_always _ w h1 h2)
  · exact (congrArg WState.shown hs).trans (iterate_always _ w h1 h2)

/-! ## Other filters in between -/

/-- Installing other filters (`warnings.simplefilter` and the like, `catch_warnings`): the version is counted up; what was
shown and the registries stay. -/
def WState.refilter (w : WState) (fs : List WFilter) (d : WAction) (v : ℕ) : WState :=
  { w with filters := fs, defaultAction := d, version := v }

theorem warn_twice {w w' : WState} {text : String} {line : ℕ} (fs : List WFilter) (d : WAction) (v : ℕ)
    (e : w' = (warnExplicit text (opsFrame line) w).2.refilter fs d v)
    (hv : v ≠ w.version) (hl : line ≠ 0) (hq : ¬ Warned w text line) (h0 : ¬ Warned w text 0) (ho : text ∉ w.once) :
    (FilterSays w text line .once → FilterSays w' text line .once →
      (warnExplicit text (opsFrame line) w').2.shown = w.shown ++ [(text, opsFrame line)]) ∧
    (∀ act, act = .default ∨ act = .module → FilterSays w text line act → FilterSays w' text line act →
      (warnExplicit text (opsFrame line) w').2.shown = w.shown ++ [(text, opsFrame line), (text, opsFrame line)]) := by
  have hll : (opsFrame line).line = line := rfl
  have hm : (text, line) ∉ w.fresh.registry := fun h => hq ((mem_fresh w text line).1 h)
  have hm0 : (text, 0) ∉ w.fresh.registry := fun h => h0 ((mem_fresh w text 0).1 h)
  have vr : w.fresh.version = w.version := by unfold WState.fresh; split <;> rfl
  have cur := fresh_current w
  have step : ∀ act, FilterSays w text line act → act = .once ∨ act = .default ∨ act = .module →
      (warnExplicit text (opsFrame line) w).2.shown = w.shown ++ [(text, opsFrame line)] ∧
      (warnExplicit text (opsFrame line) w).2.regVersion = w.version ∧
      (act = .once → text ∈ (warnExplicit text (opsFrame line) w).2.once) := by
    intro act h ha
    have hc := actionFor_of_says h
    rw [← actionFor_fresh] at hc
    rcases ha with rfl | rfl | rfl
    · simp [warnExplicit, hc, hm, hll, fresh_shown, fresh_once, ho, cur, vr]
    · simp [warnExplicit, hc, hm, hll, fresh_shown, cur, vr]
    · simp [warnExplicit, hc, hm, hm0, hll, Ne.symm hl, fresh_shown, cur, vr]
  have again : ∀ act, FilterSays w text line act → act = .once ∨ act = .default ∨ act = .module →
      w'.shown = w.shown ++ [(text, opsFrame line)] ∧ (∀ l, (text, l) ∉ w'.fresh.registry) ∧
        (act = .once → text ∈ w'.once) := by
    intro act h ha
    obtain ⟨s1, s2, s3⟩ := step act h ha
    subst e
    refine ⟨s1, fun l hm => ?_, s3⟩
    have hw := (mem_fresh _ text l).1 hm
    exact hv ((s2.symm.trans hw.1).symm)
  refine ⟨fun h h' => ?_, fun act ha h h' => ?_⟩
  · obtain ⟨s1, s2, s3⟩ := again .once h (.inl rfl)
    have hc := actionFor_of_says h'
    rw [← actionFor_fresh] at hc
    simp [warnExplicit, hc, s2, fresh_shown, fresh_once, s3 rfl, s1]
  · obtain ⟨s1, s2, -⟩ := again act h (.inr ha)
    have hc := actionFor_of_says h'
    rw [← actionFor_fresh] at hc
    rcases ha with rfl | rfl
    · simp [warnExplicit, hc, s2, fresh_shown, s1]
    · simp [warnExplicit, hc, s2, hll, Ne.symm hl, fresh_shown, s1]

/-- C166: a call, other filters, another call. The warning is shown a second time if the filters say `default` or `module`, but
not if they say `once`. -/
theorem deprecated_refiltered {A R σ : Type} (f : A → σ → Py R × σ) (stack stack' : List PyFrame) (a a' : A) (w : WState)
    (s s' : σ) (fs : List WFilter) (d : WAction) (v : ℕ) (hv : v ≠ w.version) :
    (¬ Warned w diffText 434 → ¬ Warned w diffText 0 → diffText ∉ w.once →
      let w' := (diffAlias f stack a w s).2.1.refilter fs d v
      (FilterSays w diffText 434 .once → FilterSays w' diffText 434 .once →
        (diffAlias f stack' a' w' s').2.1.shown = w.shown ++ [(diffText, opsFrame 434)]) ∧
      (∀ act, act = .default ∨ act = .module → FilterSays w diffText 434 act → FilterSays w' diffText 434 act →
        (diffAlias f stack' a' w' s').2.1.shown = w.shown ++ [(diffText, opsFrame 434), (diffText, opsFrame 434)])) ∧
    (¬ Warned w stackText 585 → ¬ Warned w stackText 0 → stackText ∉ w.once →
      let w' := (stackRAlias f stack a w s).2.1.refilter fs d v
      (FilterSays w stackText 585 .once → FilterSays w' stackText 585 .once →
        (stackRAlias f stack' a' w' s').2.1.shown = w.shown ++ [(stackText, opsFrame 585)]) ∧
      (∀ act, act = .default ∨ act = .module → FilterSays w stackText 585 act → FilterSays w' stackText 585 act →
        (stackRAlias f stack' a' w' s').2.1.shown = w.shown ++ [(stackText, opsFrame 585), (stackText, opsFrame 585)])) := by
  have e : ∀ here text st b (u : WState) (t : σ), (aliasCall here text f st b u t).2.1 = (warnExplicit text here u).2 := by
    intro here text st b u t
    rw [aliasCall_eq]
    split <;> rfl
  refine ⟨fun h1 h2 h3 => ?_, fun h1 h2 h3 => ?_⟩
  · have r := warn_twice (line := 434) fs d v rfl hv (by decide) h1 h2 h3
    have e1 := e (opsFrame 434) diffText stack a w s
    refine ⟨fun p q => ?_, fun act ha p q => ?_⟩
    · refine (congrArg WState.shown (e (opsFrame 434) diffText stack' a' _ s')).trans ?_
      have q' : FilterSays ((aliasCall (opsFrame 434) diffText f stack a w s).2.1.refilter fs d v) diffText 434 .once := q
      change (warnExplicit diffText (opsFrame 434) ((aliasCall (opsFrame 434) diffText f stack a w s).2.1.refilter fs d v)).2.shown = _
      rw [e1] at q' ⊢
      exact r.1 p q'
    · refine (congrArg WState.shown (e (opsFrame 434) diffText stack' a' _ s')).trans ?_
      have q' : FilterSays ((aliasCall (opsFrame 434) diffText f stack a w s).2.1.refilter fs d v) diffText 434 act := q
      change (warnExplicit diffText (opsFrame 434) ((aliasCall (opsFrame 434) diffText f stack a w s).2.1.refilter fs d v)).2.shown = _
      rw [e1] at q' ⊢
      exact r.2 act ha p q'
  · have r := warn_twice (line := 585) fs d v rfl hv (by decide) h1 h2 h3
    have e1 := e (opsFrame 585) stackText stack a w s
    refine ⟨fun p q => ?_, fun act ha p q => ?_⟩
    · refine (congrArg WState.shown (e (opsFrame 585) stackText stack' a' _ s')).trans ?_
      have q' : FilterSays ((aliasCall (opsFrame 585) stackText f stack a w s).2.1.refilter fs d v) stackText 585 .once := q
      change (warnExplicit stackText (opsFrame 585) ((aliasCall (opsFrame 585) stackText f stack a w s).2.1.refilter fs d v)).2.shown = _
      rw [e1] at q' ⊢
      exact r.1 p q'
    · refine (congrArg WState.shown (e (opsFrame 585) stackText stack' a' _ s')).trans ?_
      have q' : FilterSays ((aliasCall (opsFrame 585) stackText f stack a w s).2.1.refilter fs d v) stackText 585 act := q
      change (warnExplicit stackText (opsFrame 585) ((aliasCall (opsFrame 585) stackText f stack a w s).2.1.refilter fs d v)).2.shown = _
      rw [e1] at q' ⊢
      exact r.2 act ha p q'

/-! ## Instances -/

/-- An interpreter just started: nothing shown yet. -/
def freshWarnings (fs : List WFilter) : WState := ⟨fs, .default, 0, 0, [], [], []⟩

/-- `-W error`. -/
def strictFilters : List WFilter := ⟨.error, fun _ => true, true, fun _ => true, 0⟩ :: stockFilters

/-- A stand-in for `coadd` that does what its first loop does to the caller's list. -/
def rewrites (_ : Unit) (l : List (Elem ℕ ℕ)) : Py ℕ × List (Elem ℕ ℕ) :=
  let r := wrapList (fun x => if x = 9 then .error .ValueError else .ok (10 * x)) l
  (r.2.map fun _ => l.length, r.1)

example : FilterSays (freshWarnings strictFilters) stackText 585 .error :=
  .inl ⟨[], _, _, rfl, by simp, by simp [AppliesHere], rfl⟩

example : ¬ Warned (freshWarnings strictFilters) stackText 585 := by simp [Warned, freshWarnings]

/-- Under `-W error` the caller's list of arrays is not rewritten; otherwise it is, as by `coadd`. -/
example :
    (stackRAlias rewrites [] () (freshWarnings strictFilters) [.raw 1, .raw 2]).2.2 = [.raw 1, .raw 2] ∧
    (stackRAlias rewrites [] () (freshWarnings strictFilters) [.raw 1, .raw 2]).1 = .error .DeprecationWarning ∧
    (stackRAlias rewrites [] () (freshWarnings stockFilters) [.raw 1, .raw 2]).2.2 = [.obj 10, .obj 20] ∧
    (stackRAlias rewrites [] () (freshWarnings stockFilters) [.raw 1, .raw 2]).1 = .ok 2 ∧
    (stackRAlias rewrites [] () (freshWarnings stockFilters) [.raw 1, .raw 9]).2.2 = [.obj 10, .raw 9] ∧
    (stackRAlias rewrites [] () (freshWarnings stockFilters) [.raw 1, .raw 9]).1 = .error (.raised .ValueError) := by
  have e : FilterSays (freshWarnings strictFilters) stackText 585 .error :=
    .inl ⟨[], _, _, rfl, by simp, by simp [AppliesHere], rfl⟩
  have q : ¬ Warned (freshWarnings strictFilters) stackText 585 := by simp [Warned, freshWarnings]
  have b := (deprecated_as_error rewrites [] () (freshWarnings strictFilters) [.raw 1, .raw 2]).2 e q
  have i : FilterSays (freshWarnings stockFilters) stackText 585 .ignore :=
    .inl ⟨[_], _, _, rfl, by simp [AppliesHere], by simp [AppliesHere], rfl⟩
  have p1 := (deprecated_same_result rewrites [] () (freshWarnings stockFilters) [.raw 1, .raw 2] .ignore).2
    ⟨i, .inl (by simp)⟩
  have p2 := (deprecated_same_result rewrites [] () (freshWarnings stockFilters) [.raw 1, .raw 9] .ignore).2
    ⟨i, .inl (by simp)⟩
  exact ⟨b.2.1, b.1, p1.2.trans rfl, p1.1.trans rfl, p2.2.trans rfl, p2.1.trans rfl⟩

/-- Two calls under `once`, and under `default`, with the same filters installed anew in between. -/
example (f : Unit → Unit → Py ℕ × Unit) (act : WAction) (ha : act = .once ∨ act = .default) :
    let w := freshWarnings (⟨act, fun _ => true, true, fun _ => true, 0⟩ :: stockFilters)
    (diffAlias f [] () ((diffAlias f [] () w ()).2.1.refilter w.filters .default 1) ()).2.1.shown =
      List.replicate (if act = .once then 1 else 2) (diffText, opsFrame 434) := by
  intro w
  have n : ∀ l, ¬ Warned w diffText l := by simp [w, Warned, freshWarnings]
  have r := (deprecated_refiltered f [] [] () () w () () w.filters .default 1 (by simp [w, freshWarnings])).1 (n 434) (n 0)
    (by simp [w, freshWarnings])
  have h : ∀ u : WState, u.filters = w.filters → FilterSays u diffText 434 act := by
    intro u hu
    exact .inl ⟨[], _, _, hu, by simp, by simp [AppliesHere], rfl⟩
  rcases ha with rfl | rfl
  · exact (r.1 (h _ rfl) (h _ rfl)).trans (by simp [w, freshWarnings])
  · exact (r.2 .default (.inl rfl) (h _ rfl) (h _ rfl)).trans (by simp [w, freshWarnings])

/-- With `stacklevel=2` the call from `__main__` would be shown under the same filters. -/
example : (warnCall [opsFrame 434, ⟨"__main__", 7⟩] 2 diffText (freshWarnings stockFilters)).2.shown =
    [(diffText, ⟨"__main__", 7⟩)] := by
  simp [warnCall, warnExplicit, WState.fresh, freshWarnings, WState.actionFor, stockFilters, WFilter.matches]

/-! ## C167 -/

theorem toDigits_inj {m n : ℕ} (h : Nat.toDigits 10 m = Nat.toDigits 10 n) : m = n := by
  have := congrArg (fun l => Nat.ofDigitChars 10 l 0) h
  simpa [Nat.ofDigitChars_ten_toDigits] using this

theorem comma_not_digit (n : ℕ) : ',' ∉ Nat.toDigits 10 n := by
  intro h
  have := Nat.isDigit_of_mem_toDigits (by decide) (by decide) h
  exact absurd this (by decide)

/-- Two lists in front of the first occurrence of a separator. -/
theorem before_sep {c : Char} {a b x y : List Char} (ha : c ∉ a) (hb : c ∉ b) (h : a ++ c :: x = b ++ c :: y) :
    a = b ∧ x = y := by
  induction a generalizing b with
  | nil =>
    cases b with
    | nil => simpa using h
    | cons d b => simp at h hb; exact absurd h.1 hb.1
  | cons e a ih =>
    cases b with
    | nil => simp at h ha; exact absurd h.1.symm ha.1
    | cons d b =>
      simp only [List.cons_append, List.cons.injEq] at h
      simp only [List.mem_cons, not_or] at ha hb
      obtain ⟨h1, h2⟩ := ih ha.2 hb.2 h.2
      exact ⟨by rw [h.1, h1], h2⟩

theorem imageRepr_list {α : Type} (a : Img α) :
    (imageRepr a).toList = "SingleImage ".toList ++ (Nat.toDigits 10 a.h ++ ',' :: ' ' :: Nat.toDigits 10 a.w) := by
  have e1 : (toString a.h).toList = Nat.toDigits 10 a.h := Nat.toList_repr
  have e2 : (toString a.w).toList = Nat.toDigits 10 a.w := Nat.toList_repr
  unfold imageRepr
  rw [String.toList_append, String.toList_append, String.toList_append, e1, e2]
  simp

/-- C167: two images print alike exactly when they have the same numbers of rows and columns. -/
theorem repr_tells_shape {α β : Type} (a : Img α) (b : Img β) :
    imageRepr a = imageRepr b ↔ a.h = b.h ∧ a.w = b.w := by
  constructor
  · intro h
    have h1 := congrArg String.toList h
    rw [imageRepr_list, imageRepr_list] at h1
    have h2 := List.append_cancel_left h1
    obtain ⟨h3, h4⟩ := before_sep (comma_not_digit _) (comma_not_digit _) h2
    exact ⟨toDigits_inj h3, toDigits_inj (by simpa using h4)⟩
  · rintro ⟨h1, h2⟩
    unfold imageRepr
    rw [h1, h2]

example : imageRepr (⟨128, 64, fun _ _ => (0 : ℕ)⟩ : Img ℕ) = "SingleImage 128, 64" := by decide +kernel

/-- C167: the two grids of the domain have the shape of the pixels; at each pixel the first holds its row and the second its
column, so a coefficient field evaluated on them has at `[i, j]` its value for row `i` and column `j`. -/
theorem afield_domain {α β : Type} (a : Img α) (field : ℕ → ℕ → β) :
    (afieldDomain a).1.shape = a.shape ∧ (afieldDomain a).2.shape = a.shape ∧
    ∀ i j, i < a.h → j < a.w →
      field ((afieldDomain a).1.px i j) ((afieldDomain a).2.px i j) = field i j :=
  ⟨rfl, rfl, fun _ _ _ _ => rfl⟩

example : (afieldDomain (⟨3, 5, fun _ _ => (0 : ℕ)⟩ : Img ℕ)).1.px 2 4 = 2 ∧
    (afieldDomain (⟨3, 5, fun _ _ => (0 : ℕ)⟩ : Img ℕ)).2.px 2 4 = 4 := ⟨rfl, rfl⟩

end PI
