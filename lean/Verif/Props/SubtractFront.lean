import Verif.Model.SubtractFront
import Verif.Props.ConstructMore

/-!
# Property C89: what `subtract` makes of its arguments before computing anything

Specification vocabulary: `rowsBelow k`, a mask marking exactly the rows before `k`.
-/

namespace PI

/-- An argument whose masks have the shape of their pixels. -/
def SubArg.WF : SubArg → Prop
  | .raw s => s.WF
  | .object _ d => d.WF

/-- Surroundings in which nothing else raises and registration returns the image itself with an empty
footprint mask (used by the concrete cases). -/
def calmEnv : FrontEnv :=
  ⟨fun _ => .ok (), fun n _ => .ok (n.data, Img.const n.data.h n.data.w false)⟩

/-- The front end as nested cases. -/
theorem front_eq (env : FrontEnv) (fitted align : Bool) (ref new : SubArg) :
    subtractFront env fitted align ref new =
      match wrapArg env fitted ref with
      | .error e => .error e
      | .ok r => match wrapArg env fitted new with
        | .error e => .error e
        | .ok n => match (if align then alignNew env r n else .ok n : Py MA) with
          | .error e => .error e
          | .ok n => if n.data.shape ≠ r.data.shape then .error .ValueError
            else match n.mask.maskOr r.mask with
              | .error e => .error e
              | .ok m => .ok (r, n, m) := by
  unfold subtractFront
  cases wrapArg env fitted ref with
  | error e => rfl
  | ok r =>
    cases wrapArg env fitted new with
    | error e => rfl
    | ok n =>
      cases align with
      | false =>
        change (if n.data.shape ≠ r.data.shape then _ else (n.mask.maskOr r.mask >>= _)) = _
        simp only [Bool.false_eq_true, if_false]
        split
        · rfl
        · cases n.mask.maskOr r.mask <;> rfl
      | true =>
        change (alignNew env r n >>= fun n =>
          if n.data.shape ≠ r.data.shape then _ else (n.mask.maskOr r.mask >>= _)) = _
        simp only [if_true]
        cases alignNew env r n with
        | error e => rfl
        | ok n1 =>
          change (if n1.data.shape ≠ r.data.shape then _ else (n1.mask.maskOr r.mask >>= _)) = _
          simp only
          split
          · rfl
          · cases n1.mask.maskOr r.mask <;> rfl

/-! ## Arguments kept as they are -/

/-- Image objects of the right class are used as they are: all of them with `fitted_psf=False`, the
Gaussian ones with the default. -/
theorem front_keeps_objects (env : FrontEnv) (fitted gauss : Bool) (d : MA)
    (h : fitted = false ∨ gauss = true) : wrapArg env fitted (.object gauss d) = .ok d := by
  unfold wrapArg SubArg.isSI
  rcases h with h | h <;> subst h
  · rfl
  · cases fitted <;> rfl

/-! ## Failures -/

theorem wrapArg_fallback (env : FrontEnv) (fitted : Bool) (a : SubArg) (h : a.isSI fitted = none)
    (e : PyErr) (he : buildSI env a.asSource .absent = .error e) :
    wrapArg env fitted a = a.dataAttr >>= fun s => buildSI env s .absent := by
  unfold wrapArg
  rw [h]
  simp only
  rw [he]

/-- A file name or HDU list that cannot be turned into an image, and an object of an unsupported type,
always end in AttributeError, whatever the constructor had raised. -/
theorem front_hides_error (env : FrontEnv) (fitted : Bool) (s : Source)
    (hs : (∃ f, s = .path f) ∨ s = .missing ∨ (∃ f, s = .hduList f) ∨ s = .other) (e : PyErr)
    (he : buildSI env s .absent = .error e) :
    wrapArg env fitted (.raw s) = .error .AttributeError := by
  rw [wrapArg_fallback env fitted (.raw s) rfl e he]
  rcases hs with ⟨f, rfl⟩ | rfl | ⟨f, rfl⟩ | rfl <;> rfl

/-- Naming a file that does not exist: the constructor raises OSError, `subtract` AttributeError. -/
theorem front_missing_file (env : FrontEnv) (fitted align : Bool) (new : SubArg) :
    construct {} .missing .absent = .error .OSError ∧
    subtractFront env fitted align (.raw .missing) new = .error .AttributeError := by
  refine ⟨rfl, ?_⟩
  have h := front_hides_error env fitted .missing (Or.inr (Or.inl rfl)) .OSError rfl
  rw [front_eq, h]

/-- The same for a failing array: its `.data` is a memory buffer. -/
theorem front_array_error (env : FrontEnv) (fitted : Bool) (a : Img FVal) (e : PyErr)
    (he : buildSI env (.array a) .absent = .error e) :
    wrapArg env fitted (.raw (.array a)) = .error .AttributeError := by
  rw [wrapArg_fallback env fitted (.raw (.array a)) rfl e he]
  rfl

/-! ## Plain image objects with the default Gaussian PSF -/

theorem mulQ_one (v : FVal) : v.mulQ 1 = v := by
  cases v <;> simp [FVal.mulQ]

theorem scale_one (d : MA) : d.scale 1 = d := by
  obtain ⟨⟨h, w, px⟩, m⟩ := d
  unfold MA.scale
  simp only [mulQ_one, ite_self]

/-- What masks a pixel when a masked array is turned into an image again, before the growth: it was
masked, or it is not finite, or extreme. -/
def rewrapBase (d : MA) : Img Bool :=
  ⟨d.data.h, d.data.w, fun i j =>
    d.mask.marks i j || !(d.data.px i j).isFinite ||
      ((d.data.px i j).lt (-50) || (d.data.px i j).gt 65000)⟩

theorem construct_masked (d : MA) (hd : d.WF) :
    ∃ a : Img Bool, construct {} (.masked d) .absent = .ok ⟨d.data, some a⟩ ∧ a.h = d.data.h ∧
      a.w = d.data.w ∧ (growPureN 7 (rewrapBase d)).Same a := by
  have e1 : setData {} (.masked d) = .ok ⟨d.data, some d.maskArray⟩ := by
    have : setData {} (.masked d) = .ok (MA.scale 1 (cropMA ((0, 0), (0, 0)) ⟨d.data, some d.maskArray⟩)) :=
      rfl
    rw [this, scale_one]
    rfl
  have e2 : preMask {} (.masked d) .absent = .ok (MA.maskedInvalid ⟨d.data, some d.maskArray⟩) := by
    unfold preMask
    rw [e1]
    rfl
  obtain ⟨a, h1, h2, h3, h4⟩ := (construct_spec {} (.masked d) .absent hd).2 _ e2
  rw [MA.maskedInvalid_data] at h1 h2 h3
  refine ⟨a, h1, h2, h3, ?_⟩
  have hwf : (MA.mk d.data (some d.maskArray)).WF := by
    intro b hb
    cases hb
    exact MA.maskArray_shape d hd
  have hsame : (rewrapBase d).Same (baseMask (MA.maskedInvalid ⟨d.data, some d.maskArray⟩)) := by
    have hdat := MA.maskedInvalid_data ⟨d.data, some d.maskArray⟩
    refine ⟨by change _ = (MA.data _).h; rw [hdat]; rfl, by change _ = (MA.data _).w; rw [hdat]; rfl,
      fun i hi j hj => ?_⟩
    have hm := MA.maskedInvalid_marks ⟨d.data, some d.maskArray⟩ hwf i j hi hj
    change _ = ((MA.maskedInvalid ⟨d.data, some d.maskArray⟩).mask.marks i j || _)
    rw [hm]
    change (d.mask.marks i j || !(d.data.px i j).isFinite || _) =
      ((!(d.data.px i j).isFinite || d.maskArray.px i j) || _)
    rw [MA.maskArray_px, Bool.or_comm (d.mask.marks i j), hdat]
  obtain ⟨g1, g2, g3⟩ := growPureN_same 7 _ _ hsame
  obtain ⟨k1, k2, k3⟩ := h4
  exact ⟨g1.trans k1, g2.trans k2, fun i hi j hj => (g3 i hi j hj).trans (k3 i (g1 ▸ hi) j (g2 ▸ hj))⟩

/-- C89: a masked array that cannot be turned into an image is tried again without its mask, and an
image HDU as its bare array. -/
theorem front_masked_retry (env : FrontEnv) (fitted : Bool) (d : MA) (e : PyErr)
    (he : buildSI env (.masked d) .absent = .error e) :
    wrapArg env fitted (.raw (.masked d)) = buildSI env (.array d.data) .absent := by
  rw [wrapArg_fallback env fitted (.raw (.masked d)) rfl e he]
  rfl

theorem front_primary_retry (env : FrontEnv) (fitted : Bool) (a : Img FVal) (g : Option ℚ) (e : PyErr)
    (he : buildSI env (.primary a g) .absent = .error e) :
    wrapArg env fitted (.raw (.primary a g)) = buildSI env (.array a) .absent := by
  rw [wrapArg_fallback env fitted (.raw (.primary a g)) rfl e he]
  rfl

/-- C89: so if the rest of the constructor (the background estimate, say) refuses the masked image but
not the unmasked one, `subtract` silently goes on with no pixel masked at all. -/
theorem front_masked_unmasks (env : FrontEnv) (fitted : Bool) (d : MA) (e : PyErr)
    (he : buildSI env (.masked d) .absent = .error e)
    (hr : ∀ m : MA, (∀ i < d.data.h, ∀ j < d.data.w, m.mask.marks i j = false) → env.rest m = .ok ())
    (hq : ∀ i < d.data.h, ∀ j < d.data.w, (d.data.px i j).isFinite = true ∧ ¬ Extreme (d.data.px i j)) :
    ∃ out, wrapArg env fitted (.raw (.masked d)) = .ok out ∧
      ∀ i < d.data.h, ∀ j < d.data.w, out.mask.marks i j = false := by
  rw [front_masked_retry env fitted d e he]
  have e1 : preMask {} (.array d.data) .absent = .ok (MA.maskedInvalid ⟨d.data, none⟩) := rfl
  have hdat := MA.maskedInvalid_data ⟨d.data, none⟩
  have hwf : (MA.mk d.data none).WF := by
    intro a ha; cases ha
  obtain ⟨out, h1, -, h3⟩ := construct_unmasked_of_empty' {} (.array d.data) .absent trivial _ e1
    (h := d.data.h) (w := d.data.w) (by rw [hdat]; rfl) (fun i hi j hj => by
      obtain ⟨f1, f2⟩ := hq i hi j hj
      rw [extreme_iff, Bool.not_eq_true] at f2
      have hm := MA.maskedInvalid_marks _ hwf i j hi hj
      change ((MA.maskedInvalid _).mask.marks i j || _) = false
      rw [hm, hdat, f2]
      change ((!(d.data.px i j).isFinite || false) || false) = false
      rw [f1]
      rfl)
  refine ⟨out, ?_, h3⟩
  unfold buildSI
  rw [h1]
  change (env.rest _ >>= fun _ => _) = _
  rw [hr out h3]
  rfl

/-- Surroundings that refuse an image with a marked corner. -/
def cornerEnv : FrontEnv :=
  ⟨fun m => if m.mask.marks 0 0 then .error .ValueError else .ok (),
    fun n _ => .ok (n.data, Img.const n.data.h n.data.w false)⟩

/-- The hypotheses hold for an image of fives with a masked first row: it is used unmasked. -/
theorem front_masked_unmasks_example :
    ∃ out, wrapArg cornerEnv true (.raw (.masked
        ⟨⟨20, 3, fun _ _ => .fin 5⟩, some ⟨20, 3, fun i _ => decide (i < 1)⟩⟩)) = .ok out ∧
      out.mask.marks 0 0 = false := by
  have hd : (MA.mk ⟨20, 3, fun _ _ => .fin 5⟩ (some ⟨20, 3, fun i _ => decide (i < 1)⟩)).WF := by
    intro a ha; cases ha; exact ⟨rfl, rfl⟩
  obtain ⟨a, h1, h2, h3, h4⟩ := construct_masked _ hd
  have ha : a.px 0 0 = true := by
    rw [← h4.2.2 0 (by rw [(growPureN_shape _ _).1]; decide) 0 (by rw [(growPureN_shape _ _).2]; decide)]
    exact growPureN_extensive 7 _ 0 0 rfl
  obtain ⟨out, o1, o2⟩ := front_masked_unmasks cornerEnv true _ .ValueError (by
      unfold buildSI
      rw [h1]
      change (cornerEnv.rest _ >>= fun _ => _) = _
      have : cornerEnv.rest ⟨⟨20, 3, fun _ _ => .fin 5⟩, some a⟩ = .error .ValueError := if_pos ha
      rw [this]
      rfl)
    (fun m hm => if_neg (by rw [hm 0 (by decide) 0 (by decide)]; exact Bool.false_ne_true))
    (fun i _ j _ => ⟨rfl, by change ¬ ((65000 : ℚ) < 5 ∨ (5 : ℚ) < -50); norm_num⟩)
  exact ⟨out, o1, o2 0 (by decide) 0 (by decide)⟩

/-- C89: a plain `SingleImage` passed with the default `fitted_psf=True` is rebuilt from its masked
pixels: the pixels stay, but the mask is grown by another seven iterations. -/
theorem front_regrows (env : FrontEnv) (d : MA) (hd : d.WF) (hr : ∀ m, env.rest m = .ok ()) :
    ∃ a : Img Bool, wrapArg env true (.object false d) = .ok ⟨d.data, some a⟩ ∧ a.h = d.data.h ∧
      a.w = d.data.w ∧ (growPureN 7 (rewrapBase d)).Same a := by
  obtain ⟨a, h1, h2, h3, h4⟩ := construct_masked d hd
  refine ⟨a, ?_, h2, h3, h4⟩
  rw [wrapArg_fallback env true (.object false d) rfl .AttributeError rfl]
  change buildSI env (.masked d) .absent = _
  unfold buildSI
  rw [h1]
  change (env.rest _ >>= fun _ => _) = _
  rw [hr]
  rfl

/-! ## Growth of a masked block of rows -/

/-- The mask of shape `h x w` marking exactly the rows before `k`. -/
def rowsBelow (h w k : ℕ) : Img Bool := ⟨h, w, fun i _ => decide (i < k)⟩

theorem growPure_rowsBelow (h w k : ℕ) (hk : 0 < k) :
    (growPure (rowsBelow h w k)).Same (rowsBelow h w (k + 1)) := by
  refine ⟨rfl, rfl, fun i hi j hj => ?_⟩
  have hi' : i < h := hi
  change (decide (i < k) || decide (2 < winCount (rowsBelow h w k) i j)) = decide (i < k + 1)
  have e : winCount (rowsBelow h w k) i j =
      3 * (if min (i + 0 - 1) (h - 1) < k then 1 else 0) + 3 * (if min (i + 1 - 1) (h - 1) < k then 1 else 0)
        + 3 * (if min (i + 2 - 1) (h - 1) < k then 1 else 0) := by
    simp only [winCount, offsets9, rowsBelow, reflIdx, List.map_cons, List.map_nil, List.sum_cons,
      List.sum_nil, decide_eq_true_eq]
    ring
  rw [Bool.eq_iff_iff, Bool.or_eq_true, decide_eq_true_eq, decide_eq_true_eq, decide_eq_true_eq, e]
  split_ifs <;> omega

theorem growPureN_rowsBelow (n h w k : ℕ) (hk : 0 < k) :
    (growPureN n (rowsBelow h w k)).Same (rowsBelow h w (k + n)) := by
  induction n generalizing k with
  | zero => exact ⟨rfl, rfl, fun _ _ _ _ => rfl⟩
  | succ n ih =>
    obtain ⟨a1, a2, a3⟩ := growPureN_same n _ _ (growPure_rowsBelow h w k hk)
    obtain ⟨b1, b2, b3⟩ := ih (k + 1) (by omega)
    refine ⟨a1.trans b1, a2.trans b2, fun i hi j hj => ?_⟩
    have h1 := a3 i hi j hj
    have h2 := b3 i (a1 ▸ hi) j (a2 ▸ hj)
    rw [show k + (n + 1) = k + 1 + n by omega, ← h2]
    exact h1

/-- C89: an image object masked exactly in its first `k` rows (`k > 0`, ordinary finite pixels) is used
with the first `k + 7` rows masked. -/
theorem front_loses_seven_rows (env : FrontEnv) (d : MA) (hd : d.WF) (hr : ∀ m, env.rest m = .ok ())
    (hq : ∀ i < d.data.h, ∀ j < d.data.w, (d.data.px i j).isFinite = true ∧ ¬ Extreme (d.data.px i j))
    (k : ℕ) (hk : 0 < k)
    (hm : ∀ i < d.data.h, ∀ j < d.data.w, d.mask.marks i j = decide (i < k)) :
    ∃ out, wrapArg env true (.object false d) = .ok out ∧ out.data = d.data ∧
      ∀ i < d.data.h, ∀ j < d.data.w, out.mask.marks i j = decide (i < k + 7) := by
  obtain ⟨a, h1, h2, h3, h4⟩ := front_regrows env d hd hr
  refine ⟨_, h1, rfl, fun i hi j hj => ?_⟩
  have hsame : (rewrapBase d).Same (rowsBelow d.data.h d.data.w k) := by
    refine ⟨rfl, rfl, fun i hi j hj => ?_⟩
    obtain ⟨f1, f2⟩ := hq i hi j hj
    rw [extreme_iff, Bool.not_eq_true] at f2
    change (d.mask.marks i j || !(d.data.px i j).isFinite || _) = decide (i < k)
    rw [hm i hi j hj, f1, f2]
    simp
  have hi1 : i < (growPureN 7 (rewrapBase d)).h := by rw [(growPureN_shape _ _).1]; exact hi
  have hj1 : j < (growPureN 7 (rewrapBase d)).w := by rw [(growPureN_shape _ _).2]; exact hj
  have g := growPureN_same 7 _ _ hsame
  have r := growPureN_rowsBelow 7 d.data.h d.data.w k hk
  change a.px i j = _
  rw [← h4.2.2 i hi1 j hj1, g.2.2 i hi1 j hj1, r.2.2 i (g.1 ▸ hi1) j (g.2.1 ▸ hj1)]
  rfl

/-- What masks a pixel of an image built from an array and an explicit mask array of its shape, before
the growth: the mask, or an extreme value. -/
def explicitBase (px : Img FVal) (foot : Img Bool) : Img Bool :=
  ⟨px.h, px.w, fun i j => foot.px i j || ((px.px i j).lt (-50) || (px.px i j).gt 65000)⟩

theorem construct_array_mask (px : Img FVal) (foot : Img Bool) (hh : foot.h = px.h)
    (hw : foot.w = px.w) :
    ∃ a : Img Bool, construct {} (.array px) (.array foot) = .ok ⟨px, some a⟩ ∧ a.h = px.h ∧ a.w = px.w ∧
      (growPureN 7 (explicitBase px foot)).Same a := by
  have e1 : preMask {} (.array px) (.array foot) =
      .ok (MA.setMask (MA.scale 1 (cropMA ((0, 0), (0, 0)) ⟨px, some (Img.const px.h px.w false)⟩))
        (some foot)) := rfl
  rw [scale_one] at e1
  have e2 : cropMA ((0, 0), (0, 0)) ⟨px, some (Img.const px.h px.w false)⟩ =
      ⟨px, some (Img.const px.h px.w false)⟩ := rfl
  rw [e2] at e1
  have hwf : (MA.mk px (some (Img.const px.h px.w false))).WF := by
    intro a ha; cases ha; exact ⟨rfl, rfl⟩
  obtain ⟨a, h1, h2, h3, h4⟩ := (construct_spec {} (.array px) (.array foot) trivial).2 _ e1
  rw [MA.setMask_data] at h1 h2 h3
  refine ⟨a, h1, h2, h3, ?_⟩
  have hsame : (explicitBase px foot).Same (baseMask (MA.setMask
      ⟨px, some (Img.const px.h px.w false)⟩ (some foot))) := by
    have hdat := MA.setMask_data ⟨px, some (Img.const px.h px.w false)⟩ (some foot)
    refine ⟨by change _ = (MA.data _).h; rw [hdat]; rfl, by change _ = (MA.data _).w; rw [hdat]; rfl,
      fun i hi j hj => ?_⟩
    have hsm := MA.setMask_marks ⟨px, some (Img.const px.h px.w false)⟩ (some foot) hwf
      (by intro b hb; cases hb; exact ⟨hh, hw⟩) i j hi hj
    change _ = (NMask.marks _ i j || _)
    rw [hsm]
    rfl
  obtain ⟨g1, g2, g3⟩ := growPureN_same 7 _ _ hsame
  obtain ⟨k1, k2, k3⟩ := h4
  exact ⟨g1.trans k1, g2.trans k2,
    fun i hi j hj => (g3 i hi j hj).trans (k3 i (g1 ▸ hi) j (g2 ▸ hj))⟩

/-- C89: an image of ordinary pixels built with its first `k` rows masked has `k + 7` masked rows;
passed to `subtract` as both arguments it is used with `k + 14`, and so is the result's mask. -/
theorem front_regrow_twice (env : FrontEnv) (hr : ∀ m, env.rest m = .ok ()) (px : Img FVal)
    (hq : ∀ i < px.h, ∀ j < px.w, (px.px i j).isFinite = true ∧ ¬ Extreme (px.px i j)) (k : ℕ)
    (hk : 0 < k) :
    ∃ d, construct {} (.array px) (.array (rowsBelow px.h px.w k)) = .ok d ∧
      (∀ i < px.h, ∀ j < px.w, d.mask.marks i j = decide (i < k + 7)) ∧
      ∃ r n m, subtractFront env true false (.object false d) (.object false d) = .ok (r, n, m) ∧
        ∀ i < px.h, ∀ j < px.w, m.marks i j = decide (i < k + 14) := by
  obtain ⟨a, h1, h2, h3, h4⟩ := construct_array_mask px (rowsBelow px.h px.w k) rfl rfl
  have hsame : (explicitBase px (rowsBelow px.h px.w k)).Same (rowsBelow px.h px.w k) := by
    refine ⟨rfl, rfl, fun i hi j hj => ?_⟩
    have f2 := (hq i hi j hj).2
    rw [extreme_iff, Bool.not_eq_true] at f2
    change (decide (i < k) || ((px.px i j).lt (-50) || (px.px i j).gt 65000)) = decide (i < k)
    rw [f2, Bool.or_false]
  have hd1 : ∀ i < px.h, ∀ j < px.w, a.px i j = decide (i < k + 7) := by
    intro i hi j hj
    have g := growPureN_same 7 _ _ hsame
    have r := growPureN_rowsBelow 7 px.h px.w k hk
    have hi1 : i < (growPureN 7 (rowsBelow px.h px.w k)).h := by rw [(growPureN_shape _ _).1]; exact hi
    have hj1 : j < (growPureN 7 (rowsBelow px.h px.w k)).w := by rw [(growPureN_shape _ _).2]; exact hj
    have hi2 : i < (growPureN 7 (explicitBase px (rowsBelow px.h px.w k))).h := by
      rw [(growPureN_shape _ _).1]; exact hi
    have hj2 : j < (growPureN 7 (explicitBase px (rowsBelow px.h px.w k))).w := by
      rw [(growPureN_shape _ _).2]; exact hj
    rw [← h4.2.2 i hi2 j hj2, g.2.2 i hi2 j hj2, r.2.2 i hi1 j hj1]
    rfl
  refine ⟨_, h1, hd1, ?_⟩
  have hda : (MA.mk px (some a)).WF := by intro b hb; cases hb; exact ⟨h2, h3⟩
  obtain ⟨out, o1, o2, o3⟩ := front_loses_seven_rows env ⟨px, some a⟩ hda hr hq (k + 7) (by omega) hd1
  obtain ⟨a', p1, p2, p3, _⟩ := front_regrows env ⟨px, some a⟩ hda hr
  have hout : out = ⟨px, some a'⟩ := Except.ok.inj (o1.symm.trans p1)
  have hs' : out.mask.HasShape px.h px.w := by rw [hout]; intro b hb; cases hb; exact ⟨p2, p3⟩
  obtain ⟨m, m1, _, m3, _⟩ := NMask.maskOr_spec out.mask out.mask px.h px.w hs' hs'
  refine ⟨out, out, m, ?_, fun i hi j hj => ?_⟩
  · rw [front_eq, o1]
    simp only
    rw [if_neg Bool.false_ne_true]
    simp only
    rw [if_neg (fun h => h rfl), m1]
  · rw [m3 i hi j hj, o3 i hi j hj, Bool.or_self]

/-- Twenty rows of ordinary pixels. -/
def plainImg : Img FVal := ⟨20, 3, fun _ _ => .fin 5⟩

/-- The hypotheses hold for an image of fives: its rows 1 to 14 are lost although one row was marked. -/
theorem front_regrow_example :
    ∃ d, construct {} (.array plainImg) (.array (rowsBelow 20 3 1)) = .ok d ∧
      d.mask.marks 8 0 = false ∧
      ∃ r n m, subtractFront calmEnv true false (.object false d) (.object false d) = .ok (r, n, m) ∧
        m.marks 14 0 = true ∧ m.marks 15 0 = false := by
  have hq : ∀ i < plainImg.h, ∀ j < plainImg.w,
      (plainImg.px i j).isFinite = true ∧ ¬ Extreme (plainImg.px i j) := by
    intro i _ j _
    refine ⟨rfl, ?_⟩
    change ¬ ((65000 : ℚ) < 5 ∨ (5 : ℚ) < -50)
    norm_num
  obtain ⟨d, h1, h2, r, n, m, h3, h4⟩ := front_regrow_twice calmEnv (fun _ => rfl) plainImg hq 1 (by omega)
  exact ⟨d, h1, h2 8 (by decide) 0 (by decide), r, n, m, h3, h4 14 (by decide) 0 (by decide),
    h4 15 (by decide) 0 (by decide)⟩

/-! ## Alignment -/

/-- C89: the aligned image has the registered pixels, cut to the reference's shape, and a mask grown
from the registration footprint and the extreme pixels alone: the mask the new image had and its
non-finite pixels play no part. -/
theorem front_align (env : FrontEnv) (hr : ∀ m, env.rest m = .ok ()) (ref new : MA) (px : Img FVal)
    (foot : Img Bool) (hreg : env.register new ref = .ok (px, foot)) (fh : foot.h = px.h)
    (fw : foot.w = px.w) :
    ∃ a : Img Bool, alignNew env ref new = .ok ⟨cutTo ref.data.h ref.data.w px, some a⟩ ∧
      a.h = min ref.data.h px.h ∧ a.w = min ref.data.w px.w ∧
      (growPureN 7 (explicitBase (cutTo ref.data.h ref.data.w px) foot)).Same a := by
  obtain ⟨a, h1, h2, h3, h4⟩ := construct_array_mask (cutTo ref.data.h ref.data.w px)
    (cutTo ref.data.h ref.data.w foot) (by simp [cutTo, fh]) (by simp [cutTo, fw])
  refine ⟨a, ?_, h2, h3, h4⟩
  unfold alignNew
  rw [hreg]
  change buildSI env (.array (cutTo ref.data.h ref.data.w px)) (.array (cutTo ref.data.h ref.data.w foot))
    = _
  unfold buildSI
  rw [h1]
  change (env.rest _ >>= fun _ => _) = _
  rw [hr]
  rfl

/-- A registration that ignores the source's mask makes the result ignore it: two new images with the
same registered pixels and footprint give the same aligned image, whatever their masks. -/
theorem front_align_ignores_mask (env : FrontEnv) (ref : MA) (px : Img FVal) (m m' : NMask)
    (h : env.register ⟨px, m⟩ ref = env.register ⟨px, m'⟩ ref) :
    alignNew env ref ⟨px, m⟩ = alignNew env ref ⟨px, m'⟩ := by
  unfold alignNew
  rw [h]

/-! ## The shape check and the combined mask -/

/-- C89: what is returned when nothing raises: two images of the same shape and the union of their
masks. -/
theorem front_result (env : FrontEnv) (fitted align : Bool) (ref new : SubArg) (r n : MA) (m : NMask)
    (h : subtractFront env fitted align ref new = .ok (r, n, m)) :
    r.data.h = n.data.h ∧ r.data.w = n.data.w ∧ n.mask.maskOr r.mask = .ok m ∧
      wrapArg env fitted ref = .ok r ∧
      ∃ n0, wrapArg env fitted new = .ok n0 ∧ (if align then alignNew env r n0 else .ok n0) = .ok n := by
  rw [front_eq] at h
  cases hr : wrapArg env fitted ref with
  | error e => rw [hr] at h; cases h
  | ok r0 =>
    cases hn : wrapArg env fitted new with
    | error e => rw [hr, hn] at h; cases h
    | ok n0 =>
      rw [hr, hn] at h
      simp only at h
      cases ha : (if align then alignNew env r0 n0 else .ok n0 : Py MA) with
      | error e => rw [ha] at h; cases h
      | ok n1 =>
        rw [ha] at h
        simp only at h
        by_cases hs : n1.data.shape = r0.data.shape
        · rw [if_neg (by simpa using hs)] at h
          cases hm : n1.mask.maskOr r0.mask with
          | error e => rw [hm] at h; cases h
          | ok m1 =>
            rw [hm] at h
            cases h
            unfold Img.shape at hs
            injection hs with s1 s2
            exact ⟨s1.symm, s2.symm, hm, rfl, n0, rfl, ha⟩
        · rw [if_pos hs] at h
          cases h

/-- C89: images of different shapes are refused with ValueError when no alignment is asked for. -/
theorem front_shape_mismatch (env : FrontEnv) (fitted : Bool) (ref new : SubArg) (r n : MA)
    (hr : wrapArg env fitted ref = .ok r) (hn : wrapArg env fitted new = .ok n)
    (hs : n.data.h ≠ r.data.h ∨ n.data.w ≠ r.data.w) :
    subtractFront env fitted false ref new = .error .ValueError := by
  rw [front_eq, hr, hn]
  simp only
  rw [if_neg Bool.false_ne_true]
  simp only
  rw [if_pos]
  intro h
  unfold Img.shape at h
  injection h with h1 h2
  rcases hs with hs | hs
  · exact hs h1
  · exact hs h2

/-- C89: and also with alignment, when the registered pixels do not cover the reference's shape. -/
theorem front_align_mismatch (env : FrontEnv) (hre : ∀ m, env.rest m = .ok ()) (fitted : Bool)
    (ref new : SubArg) (r n : MA) (hr : wrapArg env fitted ref = .ok r)
    (hn : wrapArg env fitted new = .ok n) (px : Img FVal) (foot : Img Bool)
    (hreg : env.register n r = .ok (px, foot)) (fh : foot.h = px.h) (fw : foot.w = px.w)
    (hs : px.h < r.data.h ∨ px.w < r.data.w) :
    subtractFront env fitted true ref new = .error .ValueError := by
  obtain ⟨a, h1, _⟩ := front_align env hre r n px foot hreg fh fw
  rw [front_eq, hr, hn]
  simp only
  rw [if_pos trivial, h1]
  simp only
  rw [if_pos]
  intro h
  unfold Img.shape cutTo at h
  injection h with h1 h2
  simp only at h1 h2
  omega

end PI
