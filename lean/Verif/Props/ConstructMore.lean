import Verif.Props.Construct

/-! # Properties C33–C36, C40: masks, invalid pixels, gain, crop, rejections -/

namespace PI

/-! ## C40 -/

theorem setData_noborders (o : CtorOpts) (src : Source) (hb : o.borders = false) :
    setData o src = (gainOf o src >>= fun g => loadData src >>= fun d =>
      .ok ((cropMA o.crop d).scale g)) := by
  unfold setData
  rw [hb]
  rfl

/-- The branch in which the mask setter of an HDU list fails. -/
def HduListFails (o : CtorOpts) (src : Source) (mask : MaskArg) (e : PyErr) : Prop :=
  ∃ f, src = .hduList f ∧ mask = .absent ∧ o.guess = true ∧
    ((f.extend = none ∧ e = .KeyError) ∨ (f.extend = some true ∧ f.ext1 = none ∧ e = .IndexError))

theorem chooseMask_error_iff (o : CtorOpts) (src : Source) (mask : MaskArg) (d : MA) (e : PyErr) :
    chooseMask o src mask d = .error e ↔ HduListFails o src mask e := by
  unfold HduListFails chooseMask
  cases mask with
  | file m => simp
  | array m => simp
  | other => simp
  | absent =>
    cases hg : o.guess with
    | false => simp
    | true =>
      cases src with
      | hduList f =>
        simp only [if_true]
        cases hx : f.extend with
        | none => simp [hx, eq_comm]
        | some b =>
          cases b with
          | false => simp [hx]
          | true =>
            cases hy : f.ext1 with
            | none => simp [hx, hy, eq_comm]
            | some m => simp [hx, hy]
      | path f =>
        simp only [if_true]
        cases hx : f.extend with
        | none => simp
        | some b =>
          cases b with
          | false => simp
          | true => cases hy : f.ext1 <;> simp
      | missing => simp
      | array a => simp
      | masked a => simp
      | primary a g => simp
      | other => simp

/-- C40: without border detection, the constructor's loading stage raises exactly: AttributeError for
an unsupported kind of input, OSError for a file that cannot be read, KeyError / IndexError for an HDU
list used as its own mask source whose header has no EXTEND / which has EXTEND but no extension. -/
theorem construct_error_iff (o : CtorOpts) (src : Source) (mask : MaskArg) (hs : src.WF)
    (hb : o.borders = false) (e : PyErr) :
    construct o src mask = .error e ↔
      (src = .other ∧ e = .AttributeError) ∨ (src = .missing ∧ e = .OSError) ∨
        HduListFails o src mask e := by
  obtain ⟨h1, h2⟩ := construct_spec o src mask hs
  have hpre : construct o src mask = .error e ↔ preMask o src mask = .error e := by
    constructor
    · intro h
      cases hp : preMask o src mask with
      | error e' => rw [h1 e' hp] at h; cases h; rfl
      | ok d => obtain ⟨a, ha, _⟩ := h2 d hp; rw [ha] at h; cases h
    · exact h1 e
  rw [hpre]
  unfold preMask
  rw [setData_noborders o src hb]
  cases src with
  | other =>
    have : ¬ HduListFails o .other mask e := by rintro ⟨f, hf, _⟩; cases hf
    cases hg : o.gain with
    | none =>
      simp only [gainOf, hg, bind, Except.bind, Except.error.injEq, true_and, reduceCtorEq,
        false_and, this, or_false]
      exact eq_comm
    | some g =>
      simp only [gainOf, hg, loadData, bind, Except.bind, Except.error.injEq, true_and, reduceCtorEq,
        false_and, this, or_false]
      exact eq_comm
  | missing =>
    have : ¬ HduListFails o .missing mask e := by rintro ⟨f, hf, _⟩; cases hf
    simp only [gainOf, bind, Except.bind, Except.error.injEq, true_and, reduceCtorEq,
      false_and, this, or_false, false_or]
    exact eq_comm
  | path f =>
    simp only [gainOf, loadData, bind, Except.bind, reduceCtorEq, false_and, false_or]
    exact chooseMask_error_iff o _ mask _ e
  | array a =>
    simp only [gainOf, loadData, bind, Except.bind, reduceCtorEq, false_and, false_or]
    exact chooseMask_error_iff o _ mask _ e
  | masked a =>
    simp only [gainOf, loadData, bind, Except.bind, reduceCtorEq, false_and, false_or]
    exact chooseMask_error_iff o _ mask _ e
  | hduList f =>
    simp only [gainOf, loadData, bind, Except.bind, reduceCtorEq, false_and, false_or]
    exact chooseMask_error_iff o _ mask _ e
  | primary a g =>
    simp only [gainOf, loadData, bind, Except.bind, reduceCtorEq, false_and, false_or]
    exact chooseMask_error_iff o _ mask _ e

/-- C40: an unsupported kind of input raises AttributeError, with border detection too. -/
theorem construct_unsupported (o : CtorOpts) (mask : MaskArg) :
    construct o .other mask = .error .AttributeError := by
  unfold construct setData
  cases hg : o.gain <;> simp [gainOf, hg, loadData, bind, Except.bind]

/-- C40: the same file content is rejected as an HDU list and accepted as a path. -/
theorem construct_single_extend (f : FitsFile) (hx : f.extend = some true) (h1 : f.ext1 = none) :
    construct {} (.hduList f) .absent = .error .IndexError ∧
      ∃ out, construct {} (.path f) .absent = .ok out := by
  constructor
  · exact (construct_error_iff {} (.hduList f) .absent trivial rfl _).2
      (Or.inr (Or.inr ⟨f, rfl, rfl, rfl, Or.inr ⟨hx, h1, rfl⟩⟩))
  · cases hc : construct {} (.path f) .absent with
    | ok out => exact ⟨out, rfl⟩
    | error e =>
      rcases (construct_error_iff {} (.path f) .absent trivial rfl e).1 hc with ⟨h, _⟩ | ⟨h, _⟩ | ⟨g, h, _⟩ <;>
        cases h

/-! ## C33 -/

/-- C33: the data array before masking, and what an explicit array mask does to it: pixel `(i, j)` is
masked if the entry of the mask at the same *flat* position (modulo the mask's size) is set. -/
theorem explicit_mask_flat (o : CtorOpts) (src : Source) (m : Img Bool) (hs : src.WF) (out : MA)
    (h : construct o src (.array m) = .ok out) (hm : 0 < m.h * m.w) (i j : ℕ) (hi : i < out.data.h)
    (hj : j < out.data.w)
    (hmark : m.px ((i * out.data.w + j) % (m.h * m.w) / m.w) ((i * out.data.w + j) % (m.h * m.w) % m.w)
      = true) : out.mask.marks i j = true := by
  cases hd : setData o src with
  | error e =>
    rw [(construct_spec o src (.array m) hs).1 e (by unfold preMask; rw [hd]; rfl)] at h
    cases h
  | ok d =>
    have hpre : preMask o src (.array m) = .ok (d.setMask (some m)) := by unfold preMask; rw [hd]; rfl
    have hwf := setData_wf o src hs d hd
    have hdata : out.data = d.data := by
      obtain ⟨a, ha, _⟩ := (construct_spec o src (.array m) hs).2 _ hpre
      rw [ha] at h; cases h
      exact MA.setMask_data _ _
    rw [hdata] at hi hj hmark
    have hsh := MA.maskArray_shape d hwf
    refine (construct_growth o src (.array m) hs _ out hpre h i j
      (by rw [MA.setMask_data]; exact hi) (by rw [MA.setMask_data]; exact hj)).1 ?_
    have e : (d.setMask (some m)).mask.marks i j = true := by
      have e1 : d.setMask (some m) = { d with mask := some (MA.flatAssign d.maskArray m) } := by
        unfold MA.setMask; cases d.mask <;> rfl
      rw [e1]
      change (MA.flatAssign d.maskArray m).px i j = true
      unfold MA.flatAssign
      rw [if_neg (by omega)]
      change m.px (((i * d.maskArray.w + j) % (m.h * m.w)) / m.w)
        (((i * d.maskArray.w + j) % (m.h * m.w)) % m.w) = true
      rw [hsh.2]
      exact hmark
    change (_ || _) = true
    rw [e, Bool.true_or]

/-- C33: a mask array of the shape of the stored image is honoured in every marked pixel. -/
theorem explicit_mask_honoured (o : CtorOpts) (src : Source) (m : Img Bool) (hs : src.WF) (out : MA)
    (h : construct o src (.array m) = .ok out) (hh : m.h = out.data.h) (hw : m.w = out.data.w)
    (i j : ℕ) (hi : i < m.h) (hj : j < m.w) (hmark : m.px i j = true) :
    out.mask.marks i j = true := by
  have hlt := flat_index_lt m.h m.w i j hi hj
  refine explicit_mask_flat o src m hs out h (by omega) i j (by omega) (by omega) ?_
  rw [← hw, Nat.mod_eq_of_lt hlt, flat_index_div _ _ _ hj, flat_index_mod _ _ _ hj]
  exact hmark

theorem construct_unmasked_of_empty' (o : CtorOpts) (src : Source) (mask : MaskArg) (hs : src.WF)
    (d : MA) (hd : preMask o src mask = .ok d) {h w : ℕ} (hsh : d.data.shape = (h, w))
    (he : ∀ i < h, ∀ j < w, (baseMask d).px i j = false) :
    ∃ out, construct o src mask = .ok out ∧ out.data.shape = (h, w) ∧
      ∀ i < h, ∀ j < w, out.mask.marks i j = false := by
  obtain ⟨a, ha, _⟩ := (construct_spec o src mask hs).2 d hd
  have h1 : d.data.h = h := congrArg Prod.fst hsh
  have h2 : d.data.w = w := congrArg Prod.snd hsh
  refine ⟨_, ha, hsh, fun i hi j hj => ?_⟩
  by_contra hne
  obtain ⟨i', hi', j', hj', hp, _⟩ := (construct_growth o src mask hs d _ hd ha i j (by omega)
    (by omega)).2 (by simpa using hne)
  rw [he i' (by omega) j' (by omega)] at hp
  cases hp

theorem construct_unmasked_of_empty (o : CtorOpts) (src : Source) (mask : MaskArg) (hs : src.WF)
    (d : MA) (hd : preMask o src mask = .ok d) (hsh : d.data.shape = (2, 2))
    (he : ∀ i < 2, ∀ j < 2, (baseMask d).px i j = false) :
    ∃ out, construct o src mask = .ok out ∧ out.data.shape = (2, 2) ∧ out.mask.marks 0 0 = false := by
  obtain ⟨out, h1, h2, h3⟩ := construct_unmasked_of_empty' o src mask hs d hd hsh he
  exact ⟨out, h1, h2, h3 0 (by omega) 0 (by omega)⟩

/-- A 4x4 image of fives. -/
def fives : Img FVal := ⟨4, 4, fun _ _ => .fin 5⟩

/-- C33: with a crop, a mask of the input's shape is silently misaligned: input pixel (1, 1), marked
as bad, becomes stored pixel (0, 0) and is not masked. -/
theorem explicit_mask_misaligned_by_crop :
    ∃ out, construct { crop := ((1, 1), (1, 1)) } (.array fives)
        (.array ⟨4, 4, fun i j => decide (i = 1 ∧ j = 1)⟩) = .ok out ∧
      out.data.shape = (2, 2) ∧ out.mask.marks 0 0 = false := by
  set o : CtorOpts := { crop := ((1, 1), (1, 1)) }
  set m : Img Bool := ⟨4, 4, fun i j => decide (i = 1 ∧ j = 1)⟩
  have hpre : preMask o (.array fives) (.array m) =
      .ok (((cropMA o.crop ⟨fives, some (Img.const 4 4 false)⟩).scale 1).setMask (some m)) := rfl
  exact construct_unmasked_of_empty o _ _ trivial _ hpre rfl (by decide +kernel)

/-- A mask argument that is neither a string nor an array is ignored. -/
theorem other_mask_ignored (o : CtorOpts) (src : Source) (hg : o.guess = false) :
    construct o src .other = construct o src .absent := by
  unfold construct chooseMask
  rw [hg]
  rfl

/-- The masking of saturated pixels (with its limit of 1000 remaining pixels) never changes the
result: the pixels are masked later anyway. -/
theorem saturation_branch_redundant (d : MA) (hd : d.WF) :
    ∃ a b : Img Bool, finishMask (saturationMask d) = .ok ⟨d.data, some a⟩ ∧
      finishMask d = .ok ⟨d.data, some b⟩ ∧ a.Same b := by
  obtain ⟨b, b1, b2, b3, b4⟩ := finishMask_spec d hd
  have hdata : (saturationMask d).data = d.data := by
    unfold saturationMask; simp only; split <;> split <;> first | rfl | exact MA.maskedWhere_data _ _
  obtain ⟨a, a1, a2, a3, a4⟩ := finishMask_spec (saturationMask d) (saturationMask_wf d hd)
  rw [hdata] at a1 a2 a3
  refine ⟨a, b, a1, b1, by omega, by omega, ?_⟩
  have hbase : (baseMask (saturationMask d)).Same (baseMask d) := by
    refine ⟨by change (saturationMask d).data.h = _; rw [hdata]; rfl,
      by change (saturationMask d).data.w = _; rw [hdata]; rfl, ?_⟩
    intro i hi j hj
    have hi' : i < d.data.h := by change i < (saturationMask d).data.h at hi; rw [hdata] at hi; exact hi
    have hj' : j < d.data.w := by change j < (saturationMask d).data.w at hj; rw [hdata] at hj; exact hj
    change ((saturationMask d).mask.marks i j || (((saturationMask d).data.px i j).lt (-50) ||
      ((saturationMask d).data.px i j).gt 65000)) = (d.mask.marks i j || _)
    rw [hdata]
    have hcase : (saturationMask d).mask = d.mask ∨
        (saturationMask d).mask = (d.maskedWhere (FVal.gt 65000)).mask := by
      unfold saturationMask; simp only; split <;> split <;> simp
    rcases hcase with hc | hc
    · rw [hc]
    · rw [hc, MA.maskedWhere_marks _ d hd i j hi' hj']
      cases d.mask.marks i j <;> cases (d.data.px i j).lt (-50) <;>
        cases (d.data.px i j).gt 65000 <;> rfl
  obtain ⟨g1, g2, g3⟩ := growPureN_same 7 _ _ hbase
  intro i hi j hj
  have s1 := growPureN_shape 7 (baseMask (saturationMask d))
  have hi1 : i < (growPureN 7 (baseMask (saturationMask d))).h := by rw [a4.1]; exact hi
  have hj1 : j < (growPureN 7 (baseMask (saturationMask d))).w := by rw [a4.2.1]; exact hj
  rw [← a4.2.2 i hi1 j hj1, g3 i hi1 j hj1]
  exact b4.2.2 i (g1 ▸ hi1) j (g2 ▸ hj1)

/-! ## C34 -/

/-- The branches in which invalid pixels are looked for. -/
def LooksForInvalid (src : Source) : Prop :=
  match src with
  | .array _ | .masked _ | .primary _ _ => True
  | .hduList f => f.extend = some false
  | .path f => f.extend = some true ∧ f.ext1 = none
  | _ => False

/-- C34: with a guessed mask, every NaN and infinite pixel of an array, masked array or primary HDU is
masked (also of an HDU list without EXTEND, and of a file announcing extensions but having none). -/
theorem invalid_pixels_masked (o : CtorOpts) (src : Source) (hs : src.WF) (hg : o.guess = true)
    (hl : LooksForInvalid src) (out : MA) (h : construct o src .absent = .ok out) (i j : ℕ)
    (hi : i < out.data.h) (hj : j < out.data.w) (hx : (out.data.px i j).isFinite = false) :
    out.mask.marks i j = true := by
  cases hd : setData o src with
  | error e =>
    rw [(construct_spec o src .absent hs).1 e (by unfold preMask; rw [hd]; rfl)] at h
    cases h
  | ok d =>
    have hwf := setData_wf o src hs d hd
    have hex : ∃ d0 : MA, d0.WF ∧ chooseMask o src .absent d = .ok d0.maskedInvalid := by
      unfold chooseMask
      rw [hg]
      cases src with
      | array a => exact ⟨⟨a, none⟩, MA.plain_wf _, rfl⟩
      | primary a g => exact ⟨⟨a, none⟩, MA.plain_wf _, rfl⟩
      | masked a => exact ⟨d, hwf, rfl⟩
      | hduList f =>
        have hl' : f.extend = some false := hl
        exact ⟨⟨f.data, none⟩, MA.plain_wf _, by simp [hl']⟩
      | path f =>
        have hl' : f.extend = some true ∧ f.ext1 = none := hl
        exact ⟨⟨d.data, none⟩, MA.plain_wf _, by simp [hl'.1, hl'.2]⟩
      | missing => exact absurd hl id
      | other => exact absurd hl id
    obtain ⟨d0, w0, hc⟩ := hex
    have hpre : preMask o src .absent = .ok d0.maskedInvalid := by unfold preMask; rw [hd]; exact hc
    have hdata : out.data = d0.data := by
      obtain ⟨a, ha, _⟩ := (construct_spec o src .absent hs).2 _ hpre
      rw [ha] at h; cases h
      exact MA.maskedInvalid_data _
    rw [hdata] at hi hj hx
    refine (construct_growth o src .absent hs _ out hpre h i j
      (by rw [MA.maskedInvalid_data]; exact hi) (by rw [MA.maskedInvalid_data]; exact hj)).1 ?_
    change (d0.maskedInvalid.mask.marks i j || _) = true
    rw [MA.maskedInvalid_marks d0 w0 i j hi hj, hx]
    rfl

/-- Replace NaN by the harmless value 0. -/
def fillNaN : FVal → FVal
  | .nan => .fin 0
  | v => v

/-- The same source with its NaN pixels replaced by 0. -/
def Source.fillNaN : Source → Source
  | .path f => .path { f with data := f.data.map PI.fillNaN }
  | .hduList f => .hduList { f with data := f.data.map PI.fillNaN }
  | .array a => .array (a.map PI.fillNaN)
  | .masked d => .masked { d with data := d.data.map PI.fillNaN }
  | .primary a g => .primary (a.map PI.fillNaN) g
  | s => s

/-- Same shape and mask; pixels equal up to NaN against 0. -/
def NanRel (d d' : MA) : Prop :=
  d'.data.h = d.data.h ∧ d'.data.w = d.data.w ∧ d'.mask = d.mask ∧
    ∀ i j, d'.data.px i j = d.data.px i j ∨ (d.data.px i j = .nan ∧ d'.data.px i j = .fin 0)

theorem nanRel_fill (a : Img FVal) (m : NMask) : NanRel ⟨a, m⟩ ⟨a.map fillNaN, m⟩ := by
  refine ⟨rfl, rfl, rfl, fun i j => ?_⟩
  change fillNaN (a.px i j) = a.px i j ∨ a.px i j = .nan ∧ fillNaN (a.px i j) = .fin 0
  cases a.px i j <;> simp [fillNaN]

theorem nanRel_slice (a b c e : ℤ) (d d' : MA) (h : NanRel d d') :
    NanRel (d.slice a b c e) (d'.slice a b c e) := by
  obtain ⟨h1, h2, h3, h4⟩ := h
  refine ⟨?_, ?_, ?_, fun i j => ?_⟩
  · simp [MA.slice, h1]
  · simp [MA.slice, h2]
  · simp [MA.slice, h1, h2, h3]
  · simp only [MA.slice, h1, h2]
    exact h4 _ _

theorem nanRel_crop (c : (ℤ × ℤ) × (ℤ × ℤ)) (d d' : MA) (h : NanRel d d') :
    NanRel (cropMA c d) (cropMA c d') := by
  unfold cropMA
  split
  · exact h
  · exact nanRel_slice _ _ _ _ _ _ h

theorem nanRel_scale (g : ℚ) (d d' : MA) (h : NanRel d d') : NanRel (d.scale g) (d'.scale g) := by
  obtain ⟨h1, h2, h3, h4⟩ := h
  refine ⟨h1, h2, h3, fun i j => ?_⟩
  simp only [MA.scale, h3]
  split
  · exact h4 i j
  · rcases h4 i j with e | ⟨e1, e2⟩
    · exact Or.inl (by rw [e])
    · right; rw [e1, e2]; simp [FVal.mulQ]

theorem nanRel_setMask (m : NMask) (d d' : MA) (h : NanRel d d') : NanRel (d.setMask m) (d'.setMask m) := by
  obtain ⟨h1, h2, h3, h4⟩ := h
  refine ⟨by rw [MA.setMask_data, MA.setMask_data, h1], by rw [MA.setMask_data, MA.setMask_data, h2], ?_,
    by rw [MA.setMask_data, MA.setMask_data]; exact h4⟩
  unfold MA.setMask MA.maskArray
  rw [h3, h1, h2]
  cases d.mask <;> cases m <;> simp_all

theorem nanRel_where (c : FVal → Bool) (hc : c .nan = c (.fin 0)) (d d' : MA) (h : NanRel d d') :
    NanRel (d.maskedWhere c) (d'.maskedWhere c) := by
  unfold MA.maskedWhere
  have e : (⟨d'.data.h, d'.data.w, fun i j => c (d'.data.px i j) || d'.mask.marks i j⟩ : Img Bool) =
      ⟨d.data.h, d.data.w, fun i j => c (d.data.px i j) || d.mask.marks i j⟩ := by
    obtain ⟨h1, h2, h3, h4⟩ := h
    rw [h1, h2, h3]
    congr 1
    funext i j
    rcases h4 i j with e | ⟨e1, e2⟩
    · rw [e]
    · rw [e1, e2, hc]
  rw [e]
  exact nanRel_setMask _ _ _ h

theorem nanRel_saturation (d d' : MA) (h : NanRel d d') :
    NanRel (saturationMask d) (saturationMask d') := by
  have hw := nanRel_where (FVal.gt 65000) (by decide +kernel) d d' h
  unfold saturationMask
  simp only [hw.2.2.1]
  split <;> split <;> first | exact h | exact hw

theorem nanRel_grow (n : ℕ) (d d' : MA) (h : NanRel d d') (r r' : MA) (e : growN n d = .ok r)
    (e' : growN n d' = .ok r') : NanRel r r' := by
  induction n generalizing d d' with
  | zero => cases e; cases e'; exact h
  | succ n ih =>
    change (growOnce d >>= growN n) = _ at e
    change (growOnce d' >>= growN n) = _ at e'
    unfold growOnce at e e'
    have hma : d'.maskArray = d.maskArray := by
      unfold MA.maskArray; rw [h.1, h.2.1, h.2.2.1]
    rw [hma, h.2.2.1] at e'
    cases hm : d.mask.maskOr (some (enlarged d.maskArray)) with
    | error x => rw [hm] at e; cases e
    | ok m =>
      rw [hm] at e e'
      exact ih _ _ (nanRel_setMask m d d' h) e e'

theorem nanRel_finish (d d' : MA) (h : NanRel d d') (r r' : MA) (e : finishMask d = .ok r)
    (e' : finishMask d' = .ok r') : NanRel r r' := by
  have hl := nanRel_where (FVal.lt (-50)) (by decide +kernel) d d' h
  have hg := nanRel_where (FVal.gt 65000) (by decide +kernel) d d' h
  unfold finishMask at e e'
  simp only at e e'
  rw [h.2.2.1, hl.2.2.1] at e'
  cases hm : d.mask.maskOr (d.maskedWhere (FVal.lt (-50))).mask with
  | error x => simp only [hm, bind, Except.bind] at e; cases e
  | ok m1 =>
    have h1 := nanRel_setMask m1 d d' h
    simp only [hm, bind, Except.bind] at e e'
    rw [h1.2.2.1, hg.2.2.1] at e'
    cases hm2 : (d.setMask m1).mask.maskOr (d.maskedWhere (FVal.gt 65000)).mask with
    | error x => simp only [hm2] at e; cases e
    | ok m2 =>
      simp only [hm2] at e e'
      have h2 := nanRel_setMask m2 _ _ h1
      unfold growOrEmpty at e e'
      rw [h2.2.2.1] at e'
      cases hmm : ((d.setMask m1).setMask m2).mask with
      | some b =>
        rw [hmm] at e e'
        exact nanRel_grow 7 _ _ h2 r r' e e'
      | none =>
        rw [hmm] at e e'
        cases e
        cases e'
        refine ⟨h2.1, h2.2.1, ?_, h2.2.2.2⟩
        change some _ = some _
        rw [h2.1, h2.2.1]

/-- The branches in which nothing looks for invalid pixels: an explicit mask, an extension mask, a
switched-off guess, an ignored mask argument, a file without EXTEND or with EXTEND false. -/
def IgnoresInvalid (o : CtorOpts) (src : Source) (mask : MaskArg) : Prop :=
  mask ≠ .absent ∨ o.guess = false ∨
    (∃ f, src = .hduList f ∧ f.extend = some true) ∨
    (∃ f, src = .path f ∧ (f.extend ≠ some true ∨ f.ext1 ≠ none))

theorem setData_fill (o : CtorOpts) (src : Source) (hb : o.borders = false) (d d' : MA)
    (h : setData o src = .ok d) (h' : setData o src.fillNaN = .ok d') : NanRel d d' := by
  rw [setData_noborders o _ hb] at h h'
  cases src with
  | missing => cases h
  | other =>
    cases hg : o.gain <;> simp [gainOf, hg, loadData, bind, Except.bind] at h
  | path f => cases h; cases h'; exact nanRel_scale _ _ _ (nanRel_crop _ _ _ (nanRel_fill f.data none))
  | hduList f => cases h; cases h'; exact nanRel_scale _ _ _ (nanRel_crop _ _ _ (nanRel_fill f.data none))
  | primary a g => cases h; cases h'; exact nanRel_scale _ _ _ (nanRel_crop _ _ _ (nanRel_fill a none))
  | array a =>
    cases h; cases h'
    exact nanRel_scale _ _ _ (nanRel_crop _ _ _ (nanRel_fill a (some (Img.const a.h a.w false))))
  | masked d0 =>
    cases h; cases h'
    exact nanRel_scale _ _ _ (nanRel_crop _ _ _ (nanRel_fill d0.data (some d0.maskArray)))

/-- C34: in those branches the mask does not depend on which pixels are NaN: replacing every NaN by 0
gives the same mask. So a NaN pixel that the mask misses stays unmasked. -/
theorem nan_has_no_influence (o : CtorOpts) (src : Source) (mask : MaskArg) (hb : o.borders = false)
    (hi : IgnoresInvalid o src mask) (out out' : MA) (h : construct o src mask = .ok out)
    (h' : construct o src.fillNaN mask = .ok out') : out'.mask = out.mask := by
  unfold construct at h h'
  cases hd : setData o src with
  | error e => rw [hd] at h; cases h
  | ok d =>
    cases hd' : setData o src.fillNaN with
    | error e => rw [hd'] at h'; cases h'
    | ok d' =>
      rw [hd] at h
      rw [hd'] at h'
      have hrel := setData_fill o src hb d d' hd hd'
      simp only [bind, Except.bind] at h h'
      cases hc : chooseMask o src mask d with
      | error e => rw [hc] at h; cases h
      | ok c =>
        cases hc' : chooseMask o src.fillNaN mask d' with
        | error e => rw [hc'] at h'; cases h'
        | ok c' =>
          rw [hc] at h
          rw [hc'] at h'
          have hcc : NanRel c c' := by
            unfold chooseMask at hc hc'
            cases mask with
            | file m => cases hc; cases hc'; exact nanRel_setMask _ _ _ hrel
            | array m => cases hc; cases hc'; exact nanRel_setMask _ _ _ hrel
            | other => cases hc; cases hc'; exact nanRel_saturation _ _ hrel
            | absent =>
              cases hg : o.guess with
              | false =>
                rw [hg] at hc hc'
                cases hc; cases hc'; exact nanRel_saturation _ _ hrel
              | true =>
                rw [hg] at hc hc'
                unfold IgnoresInvalid at hi
                rw [hg] at hi
                simp only [ne_eq, not_true_eq_false, Bool.true_eq_false, false_or] at hi
                rcases hi with ⟨f, rfl, hx⟩ | ⟨f, rfl, hx⟩
                · simp only [Source.fillNaN, hx, if_true] at hc hc'
                  cases hy : f.ext1 with
                  | none => rw [hy] at hc; cases hc
                  | some m =>
                    simp only [hy] at hc hc'
                    cases hc; cases hc'; exact nanRel_setMask _ _ _ hrel
                · simp only [Source.fillNaN, if_true] at hc hc'
                  cases hz : f.extend with
                  | none =>
                    simp only [hz] at hc hc'
                    cases hc; cases hc'; exact nanRel_saturation _ _ hrel
                  | some b =>
                    cases b with
                    | false =>
                      simp only [hz] at hc hc'
                      cases hc; cases hc'; exact hrel
                    | true =>
                      cases hy : f.ext1 with
                      | none => rw [hz, hy] at hx; simp at hx
                      | some m =>
                        simp only [hz, hy] at hc hc'
                        cases hc; cases hc'; exact nanRel_setMask _ _ _ hrel
          exact (nanRel_finish c c' hcc out out' h h').2.2.1

/-- C34, the negative part on a concrete image: an all-NaN image opened from a plain FITS file has no
masked pixel at all. -/
theorem nan_file_unmasked :
    ∃ out, construct {} (.path ⟨⟨3, 3, fun _ _ => .nan⟩, none, none, none⟩) .absent = .ok out ∧
      out.data.shape = (3, 3) ∧ ∀ i < 3, ∀ j < 3, out.mask.marks i j = false := by
  set f : FitsFile := ⟨⟨3, 3, fun _ _ => .nan⟩, none, none, none⟩
  have hpre : preMask {} (.path f) .absent = .ok (saturationMask ((MA.mk f.data none).scale 1)) := rfl
  exact construct_unmasked_of_empty' {} (.path f) .absent trivial _ hpre (by decide +kernel) (by decide +kernel)

/-! ## C35, C36 -/

/-- C36: the crop removes exactly the requested margins, from the pixels and from the mask. -/
theorem crop_geometry (a b c e : ℕ) (d : MA) (hb : 0 < b) (he : 0 < e) (hr : a + b ≤ d.data.h)
    (hc : c + e ≤ d.data.w) :
    (cropMA ((a, b), (c, e)) d).data.shape = (d.data.h - a - b, d.data.w - c - e) ∧
      ∀ i j, (cropMA ((a, b), (c, e)) d).data.px i j = d.data.px (a + i) (c + j) ∧
        (cropMA ((a, b), (c, e)) d).mask.marks i j = d.mask.marks (a + i) (c + j) := by
  unfold cropMA
  rw [if_neg (by simp only; omega)]
  have s1 : sliceBound d.data.h (a : ℤ) = a := by unfold sliceBound; split <;> omega
  have s2 : sliceBound d.data.h (-(b : ℤ)) = d.data.h - b := by unfold sliceBound; split <;> omega
  have s3 : sliceBound d.data.w (c : ℤ) = c := by unfold sliceBound; split <;> omega
  have s4 : sliceBound d.data.w (-(e : ℤ)) = d.data.w - e := by unfold sliceBound; split <;> omega
  unfold MA.slice
  simp only [s1, s2, s3, s4, Img.shape]
  refine ⟨?_, fun i j => ⟨trivial, ?_⟩⟩
  · congr 1 <;> omega
  · cases d.mask <;> rfl

/-- C36: an upper margin of zero next to a positive margin empties the image. -/
theorem crop_zero_margin_empties (a b c e : ℕ) (d : MA) (hpos : 0 < a + b + c + e)
    (h : b = 0 ∨ e = 0) :
    (cropMA ((a, b), (c, e)) d).data.h = 0 ∨ (cropMA ((a, b), (c, e)) d).data.w = 0 := by
  unfold cropMA
  rw [if_neg (by simp only; omega)]
  unfold MA.slice
  simp only
  rcases h with rfl | rfl
  · left
    have : sliceBound d.data.h (-((0 : ℕ) : ℤ)) = 0 := by simp [sliceBound]
    rw [this]; omega
  · right
    have : sliceBound d.data.w (-((0 : ℕ) : ℤ)) = 0 := by simp [sliceBound]
    rw [this]; omega

/-- The branches in which the mask setter replaces the loaded pixels by the raw input. -/
def Reloads (o : CtorOpts) (src : Source) (mask : MaskArg) : Prop :=
  mask = .absent ∧ o.guess = true ∧
    ((∃ a, src = .array a) ∨ (∃ a g, src = .primary a g) ∨ (∃ f, src = .hduList f ∧ f.extend = some false))

/-- The raw input pixels. -/
def Source.raw : Source → Img FVal
  | .path f | .hduList f => f.data
  | .array a => a
  | .masked d => d.data
  | .primary a _ => a
  | _ => ⟨0, 0, fun _ _ => .nan⟩

/-- C35: outside the reloading branches the stored pixels are what the data setter produced. -/
theorem stored_pixels (o : CtorOpts) (src : Source) (mask : MaskArg) (hs : src.WF)
    (hr : ¬ Reloads o src mask) (d out : MA) (hd : setData o src = .ok d)
    (h : construct o src mask = .ok out) : out.data = d.data := by
  cases hc : chooseMask o src mask d with
  | error e =>
    rw [(construct_spec o src mask hs).1 e (by unfold preMask; rw [hd]; exact hc)] at h
    cases h
  | ok c =>
    obtain ⟨a, ha, _⟩ := (construct_spec o src mask hs).2 c (by unfold preMask; rw [hd]; exact hc)
    rw [ha] at h
    cases h
    change c.data = d.data
    have hsat : (saturationMask d).data = d.data := by
      unfold saturationMask; simp only; split <;> split <;> first | rfl | exact MA.maskedWhere_data _ _
    unfold chooseMask at hc
    cases mask with
    | file m => cases hc; exact MA.setMask_data _ _
    | array m => cases hc; exact MA.setMask_data _ _
    | other => cases hc; exact hsat
    | absent =>
      cases hg : o.guess with
      | false => rw [hg] at hc; cases hc; exact hsat
      | true =>
        rw [hg] at hc
        cases src with
        | array a => exact absurd ⟨rfl, hg, Or.inl ⟨a, rfl⟩⟩ hr
        | primary a g => exact absurd ⟨rfl, hg, Or.inr (Or.inl ⟨a, g, rfl⟩)⟩ hr
        | masked a => cases hc; exact MA.maskedInvalid_data _
        | missing => cases hc; exact MA.maskedInvalid_data _
        | other => cases hc; exact MA.maskedInvalid_data _
        | path f =>
          simp only [if_true] at hc
          split at hc
          · cases hc; exact hsat
          · split at hc
            · cases hc; exact MA.maskedInvalid_data _
            · cases hc; exact MA.setMask_data _ _
          · cases hc; rfl
        | hduList f =>
          simp only [if_true] at hc
          split at hc
          · cases hc
          · split at hc
            · cases hc
            · cases hc; exact MA.setMask_data _ _
          · next hx => exact absurd ⟨rfl, hg, Or.inr (Or.inr ⟨f, rfl, hx⟩)⟩ hr

/-- The gain in the header of the input, if there is one. -/
def Source.headerGain : Source → Option ℚ
  | .path f | .hduList f => f.gain
  | .primary _ g => g
  | _ => none

/-- The gain of an image: the argument if it is given, otherwise the header's, otherwise one. -/
def GainIs (o : CtorOpts) (src : Source) (g : ℚ) : Prop :=
  o.gain = some g ∨ (o.gain = none ∧ src.headerGain = some g) ∨
    (o.gain = none ∧ src.headerGain = none ∧ g = 1)

theorem gainOf_iff (o : CtorOpts) (src : Source) (g : ℚ) (h1 : src ≠ .missing) (h2 : src ≠ .other) :
    gainOf o src = .ok g ↔ GainIs o src g := by
  have key : ∀ hg : Option ℚ, ((.ok (o.gain.getD (hg.getD 1)) : Py ℚ) = .ok g) ↔
      (o.gain = some g ∨ (o.gain = none ∧ hg = some g) ∨ (o.gain = none ∧ hg = none ∧ g = 1)) := by
    intro hg
    cases o.gain <;> cases hg <;> simp [eq_comm]
  cases src with
  | missing => exact absurd rfl h1
  | other => exact absurd rfl h2
  | path f => exact key f.gain
  | hduList f => exact key f.gain
  | primary a g => exact key g
  | array a => exact key none
  | masked d => exact key none

/-- C35, where it holds: for files, HDUs and arrays (not masked arrays), without border detection and
outside the reloading branches, stored pixel `(i, j)` is the gain times input pixel `(a+i, c+j)`. -/
theorem gain_and_crop_take_effect (o : CtorOpts) (src : Source) (mask : MaskArg) (hs : src.WF)
    (hb : o.borders = false) (hr : ¬ Reloads o src mask) (hm : ∀ d, src ≠ .masked d) (g : ℚ)
    (hg : GainIs o src g) (out : MA) (h : construct o src mask = .ok out)
    (a b c e : ℕ) (hcrop : o.crop = (((a : ℤ), (b : ℤ)), ((c : ℤ), (e : ℤ))))
    (hz : (a = 0 ∧ b = 0 ∧ c = 0 ∧ e = 0) ∨
      (0 < b ∧ 0 < e ∧ a + b ≤ src.raw.h ∧ c + e ≤ src.raw.w)) :
    out.data.shape = (src.raw.h - a - b, src.raw.w - c - e) ∧
      ∀ i < out.data.h, ∀ j < out.data.w, out.data.px i j = (src.raw.px (a + i) (c + j)).mulQ g := by
  have hmiss : src ≠ .missing := by
    rintro rfl
    rw [(construct_spec o .missing mask hs).1 .OSError rfl] at h
    cases h
  have hoth : src ≠ .other := by
    rintro rfl
    rw [construct_unsupported o mask] at h
    cases h
  have hgain := (gainOf_iff o src g hmiss hoth).2 hg
  have hload : ∃ d0, loadData src = .ok d0 ∧ d0.data = src.raw ∧
      ∀ i j, d0.mask.marks i j = false := by
    cases src with
    | missing => cases hgain
    | other =>
      exfalso
      have := construct_unsupported o mask
      rw [this] at h
      cases h
    | masked d => exact absurd rfl (hm d)
    | path f => exact ⟨_, rfl, rfl, fun _ _ => rfl⟩
    | hduList f => exact ⟨_, rfl, rfl, fun _ _ => rfl⟩
    | primary a g => exact ⟨_, rfl, rfl, fun _ _ => rfl⟩
    | array a => exact ⟨_, rfl, rfl, fun _ _ => rfl⟩
  obtain ⟨d0, l1, l2, l3⟩ := hload
  have hset : setData o src = .ok ((cropMA o.crop d0).scale g) := by
    rw [setData_noborders o src hb, hgain, l1]; rfl
  have hdata := stored_pixels o src mask hs hr _ out hset h
  have key : (cropMA o.crop d0).data.shape = (src.raw.h - a - b, src.raw.w - c - e) ∧
      ∀ i j, (cropMA o.crop d0).data.px i j = src.raw.px (a + i) (c + j) ∧
        (cropMA o.crop d0).mask.marks i j = false := by
    rcases hz with ⟨rfl, rfl, rfl, rfl⟩ | ⟨hb, he, h1, h2⟩
    · have : cropMA o.crop d0 = d0 := by unfold cropMA; rw [hcrop]; rfl
      rw [this, l2]
      exact ⟨rfl, fun i j => ⟨by simp, l3 i j⟩⟩
    · rw [hcrop]
      obtain ⟨k1, k2⟩ := crop_geometry a b c e d0 hb he (by rw [l2]; exact h1) (by rw [l2]; exact h2)
      rw [l2] at k1
      refine ⟨k1, fun i j => ⟨?_, ?_⟩⟩
      · rw [(k2 i j).1, l2]
      · rw [(k2 i j).2, l3]
  rw [hdata]
  refine ⟨key.1, fun i _ j _ => ?_⟩
  change (if (cropMA o.crop d0).mask.marks i j then _ else _) = _
  rw [(key.2 i j).2, (key.2 i j).1]
  rfl

/-- C35, where it holds in part: for a masked array, without border detection, stored pixel `(i, j)` is the gain times input
pixel `(a+i, c+j)` if this is not masked in the input, and that pixel itself if it is. -/
theorem masked_array_gain (o : CtorOpts) (x : MA) (mask : MaskArg) (hs : x.WF) (hb : o.borders = false) (g : ℚ)
    (hg : GainIs o (.masked x) g) (out : MA) (h : construct o (.masked x) mask = .ok out)
    (a b c e : ℕ) (hcrop : o.crop = (((a : ℤ), (b : ℤ)), ((c : ℤ), (e : ℤ))))
    (hz : (a = 0 ∧ b = 0 ∧ c = 0 ∧ e = 0) ∨ (0 < b ∧ 0 < e ∧ a + b ≤ x.data.h ∧ c + e ≤ x.data.w)) :
    out.data.shape = (x.data.h - a - b, x.data.w - c - e) ∧
      ∀ i < out.data.h, ∀ j < out.data.w, out.data.px i j =
        if x.mask.marks (a + i) (c + j) then x.data.px (a + i) (c + j) else (x.data.px (a + i) (c + j)).mulQ g := by
  have hgain := (gainOf_iff o (.masked x) g (by simp) (by simp)).2 hg
  have hload : ∃ d0, loadData (.masked x) = .ok d0 ∧ d0.data = x.data ∧
      ∀ i j, d0.mask.marks i j = x.mask.marks i j := ⟨_, rfl, rfl, fun i j => MA.maskArray_px x i j⟩
  obtain ⟨d0, l1, l2, l3⟩ := hload
  have hset : setData o (.masked x) = .ok ((cropMA o.crop d0).scale g) := by
    rw [setData_noborders o (.masked x) hb, hgain, l1]; rfl
  have hdata := stored_pixels o (.masked x) mask hs
    (by rintro ⟨_, _, ⟨_, h⟩ | ⟨_, _, h⟩ | ⟨_, h, _⟩⟩ <;> cases h) _ out hset h
  have key : (cropMA o.crop d0).data.shape = (x.data.h - a - b, x.data.w - c - e) ∧
      ∀ i j, (cropMA o.crop d0).data.px i j = x.data.px (a + i) (c + j) ∧
        (cropMA o.crop d0).mask.marks i j = x.mask.marks (a + i) (c + j) := by
    rcases hz with ⟨rfl, rfl, rfl, rfl⟩ | ⟨hb, he, h1, h2⟩
    · have : cropMA o.crop d0 = d0 := by unfold cropMA; rw [hcrop]; rfl
      rw [this, l2]
      exact ⟨rfl, fun i j => ⟨by simp, by rw [l3]; simp⟩⟩
    · rw [hcrop]
      obtain ⟨k1, k2⟩ := crop_geometry a b c e d0 hb he (by rw [l2]; exact h1) (by rw [l2]; exact h2)
      rw [l2] at k1
      refine ⟨k1, fun i j => ⟨?_, ?_⟩⟩
      · rw [(k2 i j).1, l2]
      · rw [(k2 i j).2, l3]
  rw [hdata]
  refine ⟨key.1, fun i _ j _ => ?_⟩
  change (if (cropMA o.crop d0).mask.marks i j then _ else _) = _
  rw [(key.2 i j).2, (key.2 i j).1]

/-- C35, where it fails: for a plain array, a primary HDU, and an HDU list without EXTEND, when the
mask is guessed, the stored pixels are the raw input whatever gain, crop and border options say
(unless loading raises). -/
theorem gain_and_crop_ignored (o : CtorOpts) (src : Source) (mask : MaskArg) (hs : src.WF)
    (hr : Reloads o src mask) (out : MA) (h : construct o src mask = .ok out) :
    out.data = src.raw := by
  obtain ⟨rfl, hg, hsrc⟩ := hr
  cases hd : setData o src with
  | error e =>
    rw [(construct_spec o src .absent hs).1 e (by unfold preMask; rw [hd]; rfl)] at h
    cases h
  | ok d =>
    have hc : chooseMask o src .absent d = .ok (MA.maskedInvalid ⟨src.raw, none⟩) := by
      unfold chooseMask
      rw [hg]
      rcases hsrc with ⟨a, rfl⟩ | ⟨a, g, rfl⟩ | ⟨f, rfl, hx⟩
      · rfl
      · rfl
      · simp [hx, Source.raw]
    obtain ⟨a, ha, _⟩ := (construct_spec o src .absent hs).2 _ (by unfold preMask; rw [hd]; exact hc)
    rw [ha] at h
    cases h
    exact MA.maskedInvalid_data _

/-- C35: masked pixels of a masked array are not multiplied by the gain. -/
theorem gain_skips_masked (g : ℚ) (d : MA) (i j : ℕ) (h : d.mask.marks i j = true) :
    (d.scale g).data.px i j = d.data.px i j := by
  change (if d.mask.marks i j then _ else _) = _
  rw [if_pos h]

/-- C35 on concrete values: the same array with the same gain of 2 and crop of one pixel, with a mask
and without. -/
theorem gain_lost_by_guessing :
    (∃ out, construct { gain := some 2, crop := ((1, 1), (1, 1)) } (.array fives)
        (.array (Img.const 2 2 false)) = .ok out ∧ out.data.shape = (2, 2) ∧ out.data.px 0 0 = .fin 10) ∧
    (∃ out, construct { gain := some 2, crop := ((1, 1), (1, 1)) } (.array fives) .absent = .ok out ∧
        out.data.shape = (4, 4) ∧ out.data.px 0 0 = .fin 5) := by
  set o : CtorOpts := { gain := some 2, crop := ((1, 1), (1, 1)) }
  constructor
  · obtain ⟨a, ha, _⟩ := (construct_spec o (.array fives) (.array (Img.const 2 2 false)) trivial).2 _ rfl
    refine ⟨_, ha, ?_⟩
    change (MA.setMask _ _).data.shape = _ ∧ (MA.setMask _ _).data.px 0 0 = _
    rw [MA.setMask_data]
    decide +kernel
  · obtain ⟨a, ha, _⟩ := (construct_spec o (.array fives) .absent trivial).2 _ rfl
    refine ⟨_, ha, ?_⟩
    change (MA.maskedInvalid _).data.shape = _ ∧ (MA.maskedInvalid _).data.px 0 0 = _
    rw [MA.maskedInvalid_data]
    decide +kernel

end PI
