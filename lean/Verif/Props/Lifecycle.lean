import Verif.Model.Lifecycle
import Verif.Props.ConstructMore
import Verif.Props.Border
import Mathlib.Tactic.IntervalCases
import Mathlib.Tactic.NormNum

/-!
# Assigning to an existing image (C121)
-/

namespace PI
open PyS

/-! ## What an object keeps -/

/-- Pixels and mask have one shape, in the object and in what it was built from. -/
def Obj.WF (s : Obj) : Prop := s.data.WF ∧ s.src.WF

/-- An operation that gives the object only arrays with masks of their own shape. -/
def ObjOp.WF : ObjOp → Prop
  | .data src => src.WF
  | _ => True

theorem readSources_keeps (s : Obj) : (readSources s).2.opts = s.opts ∧ (readSources s).2.src = s.src ∧
    (readSources s).2.gain = s.gain ∧ (readSources s).2.bkgFrom = s.bkgFrom ∧ (readSources s).2.data = s.data ∧
    (readSources s).2.interp = s.interp := by
  unfold readSources
  split <;> exact ⟨rfl, rfl, rfl, rfl, rfl, rfl⟩

theorem readInterp_keeps (s : Obj) : (readInterp s).2.opts = s.opts ∧ (readInterp s).2.src = s.src ∧
    (readInterp s).2.gain = s.gain ∧ (readInterp s).2.bkgFrom = s.bkgFrom ∧ (readInterp s).2.data = s.data ∧
    (readInterp s).2.cat = s.cat := by
  unfold readInterp
  split <;> exact ⟨rfl, rfl, rfl, rfl, rfl, rfl⟩

theorem assignData_keeps (src : Source) (s : Obj) : (assignData src s).2.opts = s.opts ∧ (assignData src s).2.src = s.src ∧
    (assignData src s).2.gain = s.gain ∧ (assignData src s).2.bkgFrom = s.bkgFrom ∧ (assignData src s).2.cat = s.cat ∧
    (assignData src s).2.interp = s.interp := by
  unfold assignData
  split
  · exact ⟨rfl, rfl, rfl, rfl, rfl, rfl⟩
  · split <;> exact ⟨rfl, rfl, rfl, rfl, rfl, rfl⟩

theorem assignMask_keeps (m : MaskArg) (s : Obj) : (assignMask m s).2.opts = s.opts ∧ (assignMask m s).2.src = s.src ∧
    (assignMask m s).2.gain = s.gain ∧ (assignMask m s).2.bkgFrom = s.bkgFrom ∧ (assignMask m s).2.cat = s.cat ∧
    (assignMask m s).2.interp = s.interp := by
  unfold assignMask
  split
  · exact ⟨rfl, rfl, rfl, rfl, rfl, rfl⟩
  · split <;> exact ⟨rfl, rfl, rfl, rfl, rfl, rfl⟩

theorem refresh_keeps (s : Obj) : (refreshSources s).2.opts = s.opts ∧ (refreshSources s).2.src = s.src ∧
    (refreshSources s).2.gain = s.gain ∧ (refreshSources s).2.bkgFrom = s.bkgFrom ∧ (refreshSources s).2.data = s.data := by
  unfold refreshSources
  split
  · exact ⟨rfl, rfl, rfl, rfl, rfl⟩
  · obtain ⟨a1, a2, a3, a4, a5, _⟩ := readInterp_keeps (readSources { s with cat := none }).2
    obtain ⟨b1, b2, b3, b4, b5, _⟩ := readSources_keeps { s with cat := none }
    exact ⟨a1.trans b1, a2.trans b2, a3.trans b3, a4.trans b4, a5.trans b5⟩

theorem op_keeps (op : ObjOp) (s : Obj) : (op.run s).opts = s.opts ∧ (op.run s).src = s.src ∧ (op.run s).gain = s.gain ∧
    (op.run s).bkgFrom = s.bkgFrom := by
  cases op with
  | data src => obtain ⟨a, b, c, d, _⟩ := assignData_keeps src s; exact ⟨a, b, c, d⟩
  | mask m => obtain ⟨a, b, c, d, _⟩ := assignMask_keeps m s; exact ⟨a, b, c, d⟩
  | sources => obtain ⟨a, b, c, d, _⟩ := readSources_keeps s; exact ⟨a, b, c, d⟩
  | refresh => obtain ⟨a, b, c, d, _⟩ := refresh_keeps s; exact ⟨a, b, c, d⟩
  | interped => obtain ⟨a, b, c, d, _⟩ := readInterp_keeps s; exact ⟨a, b, c, d⟩

theorem runOps_cons (op : ObjOp) (l : List ObjOp) (s : Obj) : runOps (op :: l) s = runOps l (op.run s) := rfl

/-- C121: whatever is assigned or read, the background stays that of the pixels and mask the object was built with. -/
theorem history_background (l : List ObjOp) (s : Obj) : (runOps l s).opts = s.opts ∧ (runOps l s).src = s.src ∧
    (runOps l s).gain = s.gain ∧ (runOps l s).bkgFrom = s.bkgFrom := by
  induction l generalizing s with
  | nil => exact ⟨rfl, rfl, rfl, rfl⟩
  | cons op l ih =>
    rw [runOps_cons]
    obtain ⟨a, b, c, d⟩ := ih (op.run s)
    obtain ⟨a', b', c', d'⟩ := op_keeps op s
    exact ⟨a.trans a', b.trans b', c.trans c', d.trans d'⟩

/-- C121: once the interpolated image has been read (as `coadd`, `subtract` and the star stamps do), it stays that of the pixels
of that moment. -/
theorem history_interped (l : List ObjOp) (s : Obj) (c : MA × MA) (h : s.interp = some c) :
    (runOps l s).interp = some c ∧ readInterp (runOps l s) = (.ok c, runOps l s) := by
  have key : (runOps l s).interp = some c := by
    induction l generalizing s with
    | nil => exact h
    | cons op l ih =>
      rw [runOps_cons]
      refine ih _ ?_
      have ri : ∀ t : Obj, t.interp = some c → (readInterp t).2.interp = some c := by
        intro t ht
        unfold readInterp
        rw [ht]
        exact ht
      cases op with
      | data src => exact (assignData_keeps src s).2.2.2.2.2.trans h
      | mask m => exact (assignMask_keeps m s).2.2.2.2.2.trans h
      | sources => exact (readSources_keeps s).2.2.2.2.2.trans h
      | refresh =>
        change (refreshSources s).2.interp = some c
        unfold refreshSources
        split
        · exact h
        · exact ri _ ((readSources_keeps { s with cat := none }).2.2.2.2.2.trans h)
      | interped => exact ri s h
  refine ⟨key, ?_⟩
  unfold readInterp
  rw [key]

/-- C121: the first reading of `interped` uses the pixels of that moment, and all later readings give the same image, whatever is
done in between. -/
theorem interped_moment (l : List ObjOp) (s : Obj) (h : s.interp = none) :
    (readInterp s).1 = .ok (s.data, s.bkgFrom) ∧
      (readInterp (runOps l (readInterp s).2)).1 = .ok (s.data, s.bkgFrom) := by
  have h1 : readInterp s = (.ok (s.data, s.bkgFrom), { s with interp := some (s.data, s.bkgFrom) }) := by
    unfold readInterp
    rw [h]
  rw [h1]
  refine ⟨rfl, ?_⟩
  rw [(history_interped l { s with interp := some (s.data, s.bkgFrom) } _ rfl).2]

/-- Operations other than `update_sources()`. -/
def ObjOp.quiet : ObjOp → Prop
  | .refresh => False
  | _ => True

/-- C121: the catalogue, once read, stays that of the pixels of that moment until `update_sources()`, which detects on the pixels
of its moment less the background of the first ones. -/
theorem history_catalogue (l : List ObjOp) (s : Obj) (c : MA × MA) (h : s.cat = some c) (hq : ∀ op ∈ l, op.quiet) :
    readSources (runOps l s) = (.ok c, runOps l s) ∧
      ∃ t, refreshSources (runOps l s) = (.ok (), t) ∧ t.cat = some ((runOps l s).data, s.bkgFrom) := by
  have key : (runOps l s).cat = some c := by
    induction l generalizing s with
    | nil => exact h
    | cons op l ih =>
      rw [runOps_cons]
      refine ih _ ?_ fun o ho => hq o (List.mem_cons_of_mem _ ho)
      cases op with
      | data src => exact (assignData_keeps src s).2.2.2.2.1.trans h
      | mask m => exact (assignMask_keeps m s).2.2.2.2.1.trans h
      | sources =>
        change (readSources s).2.cat = some c
        unfold readSources
        rw [h]
        exact h
      | refresh => exact (hq _ List.mem_cons_self).elim
      | interped => exact (readInterp_keeps s).2.2.2.2.2.trans h
  constructor
  · unfold readSources
    rw [key]
  · refine ⟨_, by unfold refreshSources; rw [key], ?_⟩
    refine (readInterp_keeps _).2.2.2.2.2.trans ?_
    change some ((runOps l s).data, (runOps l s).bkgFrom) = _
    rw [(history_background l s).2.2.2]

/-- C121: an image built without a stamp shape has made its catalogue by then; one built with a stamp shape makes it at the first
reading, on the pixels of that moment less the background of the first ones. -/
theorem catalogue_moment (o : CtorOpts) (src : Source) (mask : MaskArg) (given : Bool) (s : Obj)
    (hb : build o src mask given = .ok s) (l : List ObjOp) (hl : ∀ op ∈ l, (∃ x, op = .data x) ∨ ∃ m, op = .mask m) :
    (readSources (runOps l s)).1 = .ok (if given then (runOps l s).data else s.data, s.data) := by
  have key : (runOps l s).cat = s.cat := by
    clear hb
    induction l generalizing s with
    | nil => rfl
    | cons op l ih =>
      rw [runOps_cons, ih _ fun p hp => hl p (List.mem_cons_of_mem _ hp)]
      rcases hl op List.mem_cons_self with ⟨x, rfl⟩ | ⟨m, rfl⟩
      · exact (assignData_keeps x s).2.2.2.2.1
      · exact (assignMask_keeps m s).2.2.2.2.1
  have hbk := (history_background l s).2.2.2
  unfold build at hb
  cases hg : gainOf o src with
  | error e => rw [hg] at hb; cases hb
  | ok g =>
    cases hc : construct o src mask with
    | error e => rw [hg, hc] at hb; cases hb
    | ok d =>
      rw [hg, hc] at hb
      cases hb
      unfold readSources
      rw [key]
      cases given with
      | true =>
        change Except.ok ((runOps l _).data, (runOps l _).bkgFrom) = _
        rw [hbk]
        rfl
      | false => rfl

/-! ## Assigning pixels -/

/-- C121: an array assigned to `data` is cropped and multiplied by the gain that was found at construction, and nothing is masked,
not even extreme or invalid values. -/
theorem assign_array (x : Img FVal) (s : Obj) (hb : s.opts.borders = false) (a b c e : ℕ)
    (hcrop : s.opts.crop = (((a : ℤ), (b : ℤ)), ((c : ℤ), (e : ℤ))))
    (hz : (a = 0 ∧ b = 0 ∧ c = 0 ∧ e = 0) ∨ (0 < b ∧ 0 < e ∧ a + b ≤ x.h ∧ c + e ≤ x.w)) :
    ∃ t, assignData (.array x) s = (.ok (), t) ∧ t.data.data.shape = (x.h - a - b, x.w - c - e) ∧
      ∀ i j, t.data.data.px i j = (x.px (a + i) (c + j)).mulQ s.gain ∧ t.data.mask.marks i j = false := by
  have he : assignData (.array x) s = (.ok (), { s with
      data := (cropMA s.opts.crop ⟨x, some (Img.const x.h x.w false)⟩).scale s.gain }) := by
    unfold assignData loadOver loadData
    simp only [hb]
    rfl
  refine ⟨_, he, ?_⟩
  have key : (cropMA s.opts.crop ⟨x, some (Img.const x.h x.w false)⟩).data.shape = (x.h - a - b, x.w - c - e) ∧
      ∀ i j, (cropMA s.opts.crop ⟨x, some (Img.const x.h x.w false)⟩).data.px i j = x.px (a + i) (c + j) ∧
        (cropMA s.opts.crop ⟨x, some (Img.const x.h x.w false)⟩).mask.marks i j = false := by
    rcases hz with ⟨rfl, rfl, rfl, rfl⟩ | ⟨hb, he, h1, h2⟩
    · have : cropMA s.opts.crop ⟨x, some (Img.const x.h x.w false)⟩ = ⟨x, some (Img.const x.h x.w false)⟩ := by
        unfold cropMA; rw [hcrop]; rfl
      rw [this]
      exact ⟨rfl, fun i j => ⟨by simp, rfl⟩⟩
    · rw [hcrop]
      obtain ⟨k1, k2⟩ := crop_geometry a b c e ⟨x, some (Img.const x.h x.w false)⟩ hb he h1 h2
      refine ⟨k1, fun i j => ⟨(k2 i j).1, ?_⟩⟩
      rw [(k2 i j).2]
      rfl
  refine ⟨key.1, fun i j => ⟨?_, (key.2 i j).2⟩⟩
  change (if (cropMA _ _).mask.marks i j then _ else _) = _
  rw [(key.2 i j).2, (key.2 i j).1]
  rfl

/-- C121: assigning an object of an unsupported class raises nothing and assigns nothing: the pixels that are there are
multiplied by the gain once more, unless masked, and cropped once more. -/
theorem assign_unsupported (s : Obj) (hb : s.opts.borders = false) (a b c e : ℕ)
    (hcrop : s.opts.crop = (((a : ℤ), (b : ℤ)), ((c : ℤ), (e : ℤ))))
    (hz : (a = 0 ∧ b = 0 ∧ c = 0 ∧ e = 0) ∨ (0 < b ∧ 0 < e ∧ a + b ≤ s.data.data.h ∧ c + e ≤ s.data.data.w)) :
    ∃ t, assignData .other s = (.ok (), t) ∧ t.data.data.shape = (s.data.data.h - a - b, s.data.data.w - c - e) ∧
      ∀ i j, t.data.mask.marks i j = s.data.mask.marks (a + i) (c + j) ∧
        t.data.data.px i j = if s.data.mask.marks (a + i) (c + j) then s.data.data.px (a + i) (c + j)
          else (s.data.data.px (a + i) (c + j)).mulQ s.gain := by
  have he : assignData .other s = (.ok (), { s with data := (cropMA s.opts.crop s.data).scale s.gain }) := by
    unfold assignData loadOver
    simp only [hb]
    rfl
  refine ⟨_, he, ?_⟩
  have key : (cropMA s.opts.crop s.data).data.shape = (s.data.data.h - a - b, s.data.data.w - c - e) ∧
      ∀ i j, (cropMA s.opts.crop s.data).data.px i j = s.data.data.px (a + i) (c + j) ∧
        (cropMA s.opts.crop s.data).mask.marks i j = s.data.mask.marks (a + i) (c + j) := by
    rcases hz with ⟨rfl, rfl, rfl, rfl⟩ | ⟨hb, he, h1, h2⟩
    · have : cropMA s.opts.crop s.data = s.data := by unfold cropMA; rw [hcrop]; rfl
      rw [this]
      exact ⟨rfl, fun i j => ⟨by simp, by simp⟩⟩
    · rw [hcrop]
      exact crop_geometry a b c e s.data hb he h1 h2
  refine ⟨key.1, fun i j => ⟨(key.2 i j).2, ?_⟩⟩
  change (if (cropMA _ _).mask.marks i j then _ else _) = _
  rw [(key.2 i j).2, (key.2 i j).1]

/-! ## Assigning a mask -/

/-- C121: setting the mask to None on an image built from an array brings the pixels of that array back, whatever had been
assigned before: pixels and mask are those of the image built from the array without mask. -/
theorem mask_none_restores (o : CtorOpts) (x : Img FVal) (mask : MaskArg) (given : Bool) (s : Obj) (hg : o.guess = true)
    (hb : build o (.array x) mask given = .ok s) (l : List ObjOp) :
    ∃ t, assignMask .absent (runOps l s) = (.ok (), t) ∧ t.data.data = x ∧
      ∀ d, construct o (.array x) .absent = .ok d → t.data = d := by
  have hs : s.opts = o ∧ s.src = .array x := by
    unfold build at hb
    cases hga : gainOf o (.array x) with
    | error e => rw [hga] at hb; cases hb
    | ok g =>
      cases hc : construct o (.array x) mask with
      | error e => rw [hga, hc] at hb; cases hb
      | ok d =>
        rw [hga, hc] at hb
        cases hb
        exact ⟨rfl, rfl⟩
  obtain ⟨h1, h2, _, _⟩ := history_background l s
  have hch : ∀ d, chooseMask o (.array x) .absent d = .ok (MA.maskedInvalid ⟨x, none⟩) := by
    intro d
    unfold chooseMask
    simp only [hg]
    rfl
  obtain ⟨a, ha, _⟩ := finishMask_spec (MA.maskedInvalid ⟨x, none⟩) (MA.maskedInvalid_wf _ (MA.plain_wf x))
  have he : assignMask .absent (runOps l s) = (.ok (), { runOps l s with data := ⟨(MA.maskedInvalid ⟨x, none⟩).data, some a⟩ }) := by
    have hc : chooseMask (runOps l s).opts (runOps l s).src .absent (runOps l s).data =
        .ok (MA.maskedInvalid ⟨x, none⟩) := by
      rw [h1, h2, hs.1, hs.2, hch]
    unfold assignMask
    rw [hc]
    simp only [ha]
  refine ⟨_, he, MA.maskedInvalid_data _, fun d hd => ?_⟩
  unfold construct at hd
  cases hset : setData o (.array x) with
  | error e => rw [hset] at hd; cases hd
  | ok d0 =>
    rw [hset] at hd
    change (chooseMask o (.array x) .absent d0 >>= finishMask) = _ at hd
    rw [hch] at hd
    change finishMask _ = _ at hd
    rw [ha] at hd
    exact Except.ok.inj hd

theorem growPure_iff (m : Img Bool) (i j : ℕ) : (growPure m).px i j = true ↔ m.px i j = true ∨ 3 ≤ maskedCells m i j := by
  rw [← winCount_eq_maskedCells]
  change (m.px i j || decide (2 < winCount m i j)) = true ↔ _
  rw [Bool.or_eq_true, decide_eq_true_eq]
  exact Iff.rfl

theorem growPure_stable (n : ℕ) (m : Img Bool) (h : (growPure m).Same m) : (growPureN n m).Same m := by
  induction n with
  | zero => exact ⟨rfl, rfl, fun _ _ _ _ => rfl⟩
  | succ n ih =>
    obtain ⟨a1, a2, a3⟩ := growPureN_same n _ _ h
    obtain ⟨b1, b2, b3⟩ := ih
    exact ⟨a1.trans b1, a2.trans b2, fun i hi j hj => (a3 i hi j hj).trans (b3 i (a1 ▸ hi) j (a2 ▸ hj))⟩

/-- Every extreme pixel is masked, as it is after every construction and every assignment of a mask. -/
def Obj.tame (s : Obj) : Prop :=
  ∀ i < s.data.data.h, ∀ j < s.data.data.w, Extreme (s.data.data.px i j) → s.data.mask.marks i j = true

theorem own_mask (s : Obj) (a : Img Bool) (hm : s.data.mask = some a) (hwf : s.data.WF) (ht : s.tame) :
    ∃ t b, assignMask (.array a) s = (.ok (), t) ∧ t.data = ⟨s.data.data, some b⟩ ∧ b.h = a.h ∧ b.w = a.w ∧
      (growPureN 7 a).Same b ∧ t.data.WF ∧ t.tame := by
  have hsh := hwf a hm
  have hmk : ∀ i < a.h, ∀ j < a.w, (s.data.setMask (some a)).mask.marks i j = a.px i j := fun i hi j hj =>
    MA.setMask_marks s.data (some a) hwf (by intro b hb; cases hb; exact hsh) i j (by omega) (by omega)
  have hwf' := MA.setMask_wf s.data (some a) hwf
  obtain ⟨b, e1, e2, e3, e4⟩ := finishMask_spec (s.data.setMask (some a)) hwf'
  have hd := MA.setMask_data s.data (some a)
  have hbase : (baseMask (s.data.setMask (some a))).Same a := by
    refine ⟨by change (s.data.setMask (some a)).data.h = _; rw [hd]; exact hsh.1.symm,
      by change (s.data.setMask (some a)).data.w = _; rw [hd]; exact hsh.2.symm, fun i hi j hj => ?_⟩
    change i < (s.data.setMask (some a)).data.h at hi
    change j < (s.data.setMask (some a)).data.w at hj
    rw [hd] at hi hj
    change ((s.data.setMask (some a)).mask.marks i j || (((s.data.setMask (some a)).data.px i j).lt (-50) ||
      ((s.data.setMask (some a)).data.px i j).gt 65000)) = _
    rw [hmk i (by omega) j (by omega), hd]
    by_cases hx : Extreme (s.data.data.px i j)
    · have := ht i hi j hj hx
      rw [hm] at this
      have h2 : a.px i j = true := this
      rw [h2, Bool.true_or]
    · rw [extreme_iff, Bool.not_eq_true] at hx
      rw [hx, Bool.or_false]
  have hgr : (growPureN 7 a).Same b := by
    obtain ⟨p1, p2, p3⟩ := growPureN_same 7 _ _ hbase
    obtain ⟨q1, q2, q3⟩ := e4
    exact ⟨p1.symm.trans q1, p2.symm.trans q2, fun i hi j hj =>
      (p3 i (p1.symm ▸ hi) j (p2.symm ▸ hj)).symm.trans (q3 i (p1.symm ▸ hi) j (p2.symm ▸ hj))⟩
  have he : assignMask (.array a) s = (.ok (), { s with data := ⟨s.data.data, some b⟩ }) := by
    have hc : chooseMask s.opts s.src (.array a) s.data = .ok (s.data.setMask (some a)) := rfl
    unfold assignMask
    rw [hc]
    simp only [e1, hd]
  refine ⟨_, b, he, rfl, by rw [e2, hd]; exact hsh.1.symm, by rw [e3, hd]; exact hsh.2.symm, hgr, ?_, ?_⟩
  · intro c hc
    cases hc
    exact ⟨by rw [e2, hd], by rw [e3, hd]⟩
  · intro i hi j hj hx
    have h1 : a.px i j = true := by
      have := ht i hi j hj hx
      rw [hm] at this
      exact this
    have h2 := growPureN_extensive 7 a i j h1
    change b.px i j = true
    have hi' : i < s.data.data.h := hi
    have hj' : j < s.data.data.w := hj
    rw [← hgr.2.2 i (by rw [(growPureN_shape 7 a).1]; omega) j (by rw [(growPureN_shape 7 a).2]; omega)]
    exact h2

/-- C121: assigning an image's own mask to it keeps the pixels, unmasks nothing, and leaves the mask as it is exactly if no
unmasked pixel has three masked ones in its 3x3 window. -/
theorem own_mask_iff (s : Obj) (a : Img Bool) (hm : s.data.mask = some a) (hwf : s.data.WF) (ht : s.tame) :
    ∃ t b, assignMask (.array a) s = (.ok (), t) ∧ t.data = ⟨s.data.data, some b⟩ ∧
      (∀ i < a.h, ∀ j < a.w, a.px i j = true → b.px i j = true) ∧
      ((∀ i < a.h, ∀ j < a.w, b.px i j = a.px i j) ↔
        ∀ i < a.h, ∀ j < a.w, a.px i j = false → maskedCells a i j < 3) := by
  obtain ⟨t, b, e1, e2, e3, e4, e5, _⟩ := own_mask s a hm hwf ht
  have sh := growPureN_shape 7 a
  refine ⟨t, b, e1, e2, fun i hi j hj h => ?_, ?_, ?_⟩
  · rw [← e5.2.2 i (by omega) j (by omega)]
    exact growPureN_extensive 7 a i j h
  · intro h i hi j hj hf
    by_contra hlt
    have h1 : (growPure a).px i j = true := (growPure_iff a i j).2 (Or.inr (by omega))
    have h2 : (growPureN 7 a).px i j = true := growPureN_extensive 6 (growPure a) i j h1
    rw [e5.2.2 i (by omega) j (by omega), h i hi j hj, hf] at h2
    exact Bool.noConfusion h2
  · intro h i hi j hj
    have hst : (growPure a).Same a := by
      refine ⟨rfl, rfl, fun i hi j hj => ?_⟩
      cases ha : a.px i j with
      | true => exact (growPure_iff a i j).2 (Or.inl ha)
      | false =>
        have h1 := h i hi j hj ha
        have h2 := mt (growPure_iff a i j).1 (by rw [ha]; simp; omega)
        exact Bool.not_eq_true _ ▸ h2
    rw [← e5.2.2 i (by omega) j (by omega)]
    exact (growPure_stable 7 a hst).2.2 i (by omega) j (by omega)

/-- Three masked pixels side by side, from column `c` of row `r`. -/
def Bar (m : Img Bool) (r c : ℕ) : Prop := m.px r c = true ∧ m.px r (c + 1) = true ∧ m.px r (c + 2) = true

theorem winCount_row (m : Img Bool) (i j o : ℕ) (ho : o < 3)
    (h : ∀ p < 3, m.px (reflIdx m.h i o) (reflIdx m.w j p) = true) : 2 < winCount m i j := by
  have h0 := h 0 (by norm_num)
  have h1 := h 1 (by norm_num)
  have h2 := h 2 (by norm_num)
  unfold winCount offsets9
  simp only [List.map_cons, List.map_nil, List.sum_cons, List.sum_nil, add_zero]
  interval_cases o <;> rw [if_pos h0, if_pos h1, if_pos h2] <;> omega

theorem winCount_corner (m : Img Bool) (i j o p : ℕ) (ho : o = 0 ∨ o = 2) (hp : p = 0 ∨ p = 2)
    (h1 : m.px (reflIdx m.h i 1) (reflIdx m.w j p) = true) (h2 : m.px (reflIdx m.h i o) (reflIdx m.w j 1) = true)
    (h3 : m.px (reflIdx m.h i o) (reflIdx m.w j p) = true) : 2 < winCount m i j := by
  unfold winCount offsets9
  simp only [List.map_cons, List.map_nil, List.sum_cons, List.sum_nil, add_zero]
  rcases ho with rfl | rfl <;> rcases hp with rfl | rfl <;> rw [if_pos h1, if_pos h2, if_pos h3] <;> omega

theorem Bar.mono (n : ℕ) {m : Img Bool} {r c : ℕ} (h : Bar m r c) : Bar (growPureN n m) r c :=
  ⟨growPureN_extensive n m _ _ h.1, growPureN_extensive n m _ _ h.2.1, growPureN_extensive n m _ _ h.2.2⟩

/-- Two growth steps carry a bar to the rows next to it. -/
theorem Bar.step {m : Img Bool} {r r' c : ℕ} (h : Bar m r c) (hr : r < m.h) (hr' : r' < m.h) (hc : c + 2 < m.w)
    (hn : r' ≤ r + 1 ∧ r ≤ r' + 1) : Bar (growPureN 2 m) r' c := by
  have key : ∀ (n : Img Bool) (i j : ℕ), (growPure n).px i j = (n.px i j || decide (2 < winCount n i j)) := fun _ _ _ => rfl
  obtain ⟨h0, h1, h2⟩ := h
  by_cases hrr : r' = r
  · subst hrr
    exact Bar.mono 2 ⟨h0, h1, h2⟩
  obtain ⟨o, ho, hor⟩ : ∃ o, (o = 0 ∨ o = 2) ∧ reflIdx m.h r' o = r := by
    refine ⟨r + 1 - r', by omega, ?_⟩
    unfold reflIdx
    omega
  have mid : (growPure m).px r' (c + 1) = true := by
    have : 2 < winCount m r' (c + 1) := by
      refine winCount_row m r' (c + 1) o (by omega) fun p hp => ?_
      rw [hor]
      have : reflIdx m.w (c + 1) p = c + p := by unfold reflIdx; omega
      rw [this]
      interval_cases p
      · exact h0
      · exact h1
      · exact h2
    rw [key, decide_eq_true this, Bool.or_true]
  have g0 : (growPure m).px r c = true := by rw [key, h0, Bool.true_or]
  have g1 : (growPure m).px r (c + 1) = true := by rw [key, h1, Bool.true_or]
  have g2 : (growPure m).px r (c + 2) = true := by rw [key, h2, Bool.true_or]
  have e1 : reflIdx m.h r' 1 = r' := by unfold reflIdx; omega
  have a1 : reflIdx m.w c 1 = c := by unfold reflIdx; omega
  have a2 : reflIdx m.w c 2 = c + 1 := by unfold reflIdx; omega
  have b0 : reflIdx m.w (c + 2) 0 = c + 1 := by unfold reflIdx; omega
  have b1 : reflIdx m.w (c + 2) 1 = c + 2 := by unfold reflIdx; omega
  change Bar (growPure (growPure m)) r' c
  refine ⟨?_, ?_, ?_⟩
  · have : 2 < winCount (growPure m) r' c := by
      refine winCount_corner _ r' c o 2 ho (Or.inr rfl) ?_ ?_ ?_
      · change (growPure m).px (reflIdx m.h r' 1) (reflIdx m.w c 2) = true
        rw [e1, a2]
        exact mid
      · change (growPure m).px (reflIdx m.h r' o) (reflIdx m.w c 1) = true
        rw [hor, a1]
        exact g0
      · change (growPure m).px (reflIdx m.h r' o) (reflIdx m.w c 2) = true
        rw [hor, a2]
        exact g1
    rw [key, decide_eq_true this, Bool.or_true]
  · rw [key, mid, Bool.true_or]
  · have : 2 < winCount (growPure m) r' (c + 2) := by
      refine winCount_corner _ r' (c + 2) o 0 ho (Or.inl rfl) ?_ ?_ ?_
      · change (growPure m).px (reflIdx m.h r' 1) (reflIdx m.w (c + 2) 0) = true
        rw [e1, b0]
        exact mid
      · change (growPure m).px (reflIdx m.h r' o) (reflIdx m.w (c + 2) 1) = true
        rw [hor, b1]
        exact g2
      · change (growPure m).px (reflIdx m.h r' o) (reflIdx m.w (c + 2) 0) = true
        rw [hor, b0]
        exact g1
    rw [key, decide_eq_true this, Bool.or_true]

theorem growPureN_add (a b : ℕ) (m : Img Bool) : growPureN (a + b) m = growPureN b (growPureN a m) := by
  induction a generalizing m with
  | zero => rw [Nat.zero_add]; rfl
  | succ a ih => rw [Nat.succ_add]; exact ih (growPure m)

/-- A bar spreads by one row in two growth steps. -/
theorem Bar.spread (k : ℕ) {m : Img Bool} {r r' c : ℕ} (h : Bar m r c) (hr : r < m.h) (hr' : r' < m.h) (hc : c + 2 < m.w)
    (hn : r' ≤ r + k ∧ r ≤ r' + k) : Bar (growPureN (2 * k) m) r' c := by
  induction k generalizing r' with
  | zero =>
    obtain rfl : r' = r := by omega
    exact h
  | succ k ih =>
    rw [show 2 * (k + 1) = 2 * k + 2 by ring, growPureN_add]
    have sh := growPureN_shape (2 * k) m
    by_cases h1 : r' ≤ r + k ∧ r ≤ r' + k
    · exact Bar.mono 2 (ih hr' h1)
    · by_cases h2 : r < r'
      · exact Bar.step (r := r' - 1) (ih (by omega) (by omega)) (by omega) (by omega) (by omega) (by omega)
      · exact Bar.step (r := r' + 1) (ih (by omega) (by omega)) (by omega) (by omega) (by omega) (by omega)

/-- `img.mask = img.mask`, `n` times. -/
def reassign : ℕ → Obj → Obj
  | 0, s => s
  | n + 1, s => match (reassign n s).data.mask with
    | some a => (assignMask (.array a) (reassign n s)).2
    | none => reassign n s

/-- C121: repeating `img.mask = img.mask` eats the image: if three pixels side by side are masked, then after `n` assignments so
are those above and below them up to `3 n` rows away, and after enough of them the three columns. -/
theorem own_mask_bar (s : Obj) (hwf : s.data.WF) (ht : s.tame) (a : Img Bool) (hm : s.data.mask = some a) (r c : ℕ)
    (hr : r < a.h) (hc : c + 2 < a.w) (hbar : Bar a r c) (n : ℕ) :
    ∃ b, (reassign n s).data = ⟨s.data.data, some b⟩ ∧ b.h = a.h ∧ b.w = a.w ∧
      ∀ r' < a.h, r' ≤ r + 3 * n → r ≤ r' + 3 * n → Bar b r' c := by
  suffices hs : ∃ b, (reassign n s).data = ⟨s.data.data, some b⟩ ∧ b.h = a.h ∧ b.w = a.w ∧
      (∀ r' < a.h, r' ≤ r + 3 * n → r ≤ r' + 3 * n → Bar b r' c) ∧ (reassign n s).data.WF ∧ (reassign n s).tame by
    obtain ⟨b, h1, h2, h3, h4, _⟩ := hs
    exact ⟨b, h1, h2, h3, h4⟩
  induction n with
  | zero =>
    refine ⟨a, ?_, rfl, rfl, fun r' _ h1 h2 => ?_, hwf, ht⟩
    · change s.data = _
      rw [← hm]
    · obtain rfl : r' = r := by omega
      exact hbar
  | succ n ih =>
    obtain ⟨b, e1, e2, e3, e4, e5, e6⟩ := ih
    obtain ⟨t, b', f1, f2, f3, f4, f5, f6, f7⟩ := own_mask (reassign n s) b (by rw [e1]) e5 e6
    have hre : reassign (n + 1) s = t := by
      change (match (reassign n s).data.mask with
        | some a => (assignMask (.array a) (reassign n s)).2
        | none => reassign n s) = t
      have : (reassign n s).data.mask = some b := by rw [e1]
      rw [this]
      change (assignMask (.array b) (reassign n s)).2 = t
      rw [f1]
    rw [hre]
    have sh := growPureN_shape 7 b
    refine ⟨b', by rw [f2, e1], by omega, by omega, fun r' hr' h1 h2 => ?_, f6, f7⟩
    have hb : Bar (growPureN 7 b) r' c := by
      rw [show 7 = 2 * 3 + 1 from rfl, growPureN_add]
      refine Bar.mono 1 ?_
      by_cases q1 : r' ≤ r + 3 * n ∧ r ≤ r' + 3 * n
      · exact Bar.mono 6 (e4 r' hr' q1.1 q1.2)
      · by_cases q2 : r < r'
        · exact Bar.spread 3 (e4 (r + 3 * n) (by omega) (by omega) (by omega)) (by omega) (by omega) (by omega) (by omega)
        · exact Bar.spread 3 (e4 (r - 3 * n) (by omega) (by omega) (by omega)) (by omega) (by omega) (by omega) (by omega)
    exact ⟨(f5.2.2 r' (by omega) c (by omega)) ▸ hb.1, (f5.2.2 r' (by omega) (c + 1) (by omega)) ▸ hb.2.1,
      (f5.2.2 r' (by omega) (c + 2) (by omega)) ▸ hb.2.2⟩

/-- C121: every image that could be built meets the assumptions made here on masks. -/
theorem built_tame (o : CtorOpts) (src : Source) (mask : MaskArg) (hs : src.WF) (given : Bool) (s : Obj)
    (hb : build o src mask given = .ok s) :
    s.tame ∧ s.data.WF ∧ s.bkgFrom = s.data ∧ construct o src mask = .ok s.data ∧ gainOf o src = .ok s.gain := by
  unfold build at hb
  cases hga : gainOf o src with
  | error e => rw [hga] at hb; cases hb
  | ok g =>
    cases hc : construct o src mask with
    | error e => rw [hga, hc] at hb; cases hb
    | ok d =>
      rw [hga, hc] at hb
      cases hb
      refine ⟨fun i hi j hj hx => construct_extreme_masked o src mask hs d hc i j hi hj hx, ?_, rfl, rfl, rfl⟩
      cases hp : preMask o src mask with
      | error e => rw [(construct_spec o src mask hs).1 e hp] at hc; cases hc
      | ok p =>
        obtain ⟨a, e1, e2, e3, _⟩ := (construct_spec o src mask hs).2 p hp
        rw [e1] at hc
        cases hc
        intro b hb
        cases hb
        exact ⟨e2, e3⟩

/-! ## Worked instances -/

/-- A 4x4 image of fives with gain 2, built with an empty mask: pixels 10. Assigning a list leaves pixels 20. -/
theorem list_doubles : ∃ s t, build { gain := some 2 } (.array fives) (.array (Img.const 4 4 false)) true = .ok s ∧
    s.data.data.px 0 0 = .fin 10 ∧ assignData .other s = (.ok (), t) ∧ t.data.data.px 0 0 = .fin 20 := by
  set o : CtorOpts := { gain := some 2 } with ho
  obtain ⟨a, ha, _⟩ := (construct_spec o (.array fives) (.array (Img.const 4 4 false)) trivial).2 _ rfl
  obtain ⟨out, h1, _, h3⟩ := construct_unmasked_of_empty' o (.array fives) (.array (Img.const 4 4 false)) trivial _ rfl
    (h := 4) (w := 4) (by rw [MA.setMask_data]; rfl) (by decide +kernel)
  rw [ha] at h1
  cases h1
  have h0 : a.px 0 0 = false := h3 0 (by norm_num) 0 (by norm_num)
  refine ⟨_, _, by unfold build; rw [ha]; rfl, ?_, rfl, ?_⟩
  · change (MA.setMask _ _).data.px 0 0 = _
    rw [MA.setMask_data]
    decide +kernel
  · change (if a.px 0 0 then (MA.setMask _ _).data.px 0 0 else ((MA.setMask _ _).data.px 0 0).mulQ 2) = _
    rw [h0, MA.setMask_data]
    decide +kernel

/-- A 20x3 image whose first row is masked: after seven assignments of its own mask everything is masked. -/
theorem eaten (o : CtorOpts) (src : Source) (g : ℚ) (d : MA) :
    ∃ b, (reassign 7 ⟨o, src, g, ⟨⟨20, 3, fun _ _ => .fin 5⟩, some ⟨20, 3, fun i _ => decide (i = 0)⟩⟩, d, none, none⟩).data =
      ⟨⟨20, 3, fun _ _ => .fin 5⟩, some b⟩ ∧ ∀ i < 20, Bar b i 0 := by
  obtain ⟨b, h1, _, _, h4⟩ := own_mask_bar
    ⟨o, src, g, ⟨⟨20, 3, fun _ _ => .fin 5⟩, some ⟨20, 3, fun i _ => decide (i = 0)⟩⟩, d, none, none⟩
    (by intro m hm; cases hm; exact ⟨rfl, rfl⟩) (by intro i _ j _ hx; exact absurd hx (by
      rw [extreme_iff]
      exact (by decide +kernel : ¬ (FVal.lt (-50) (.fin 5) || FVal.gt 65000 (.fin 5)) = true))) _ rfl 0 0
    (by norm_num) (by norm_num) ⟨rfl, rfl, rfl⟩ 7
  exact ⟨b, h1, fun i hi => h4 i hi (by omega) (by omega)⟩

/-- C121: an array whose middle row or column is zero, assigned to an object that trims borders, raises UnboundLocalError; the
caller who catches it finds the array in place of the old pixels, not trimmed, not cropped and without the gain, with nothing
masked and everything else as it was. -/
theorem assign_dark_middle (x : Img FVal) (s : Obj) (hb : s.opts.borders = true) (hx : NonNegImg x) (hh : 0 < x.h) (hw : 0 < x.w)
    (hz : ZeroRow x (x.h / 2) ∨ ZeroCol x (x.w / 2)) :
    assignData (.array x) s =
      (.error .UnboundLocalError, { s with data := ⟨x, some (Img.const x.h x.w false)⟩ }) := by
  have e := (borders_raise_iff x hx hh hw .UnboundLocalError).2 ⟨hz, rfl⟩
  unfold assignData loadOver loadData
  simp only [hb, if_true]
  unfold trimBorders
  change (match (borderBounds x >>= _ : Py MA) with | .error e => _ | .ok d' => _) = _
  rw [e]
  rfl

/-- C121: `update_sources` raises AttributeError, and changes nothing, exactly when no catalogue has been made; otherwise it
ends with one made from the present pixels. -/
theorem refresh_needs_catalogue (s : Obj) :
    (s.cat = none ↔ (refreshSources s).1 = .error .AttributeError) ∧ (s.cat = none → (refreshSources s).2 = s) ∧
      (s.cat ≠ none → (refreshSources s).1 = .ok () ∧ (refreshSources s).2.cat = some (s.data, s.bkgFrom)) := by
  unfold refreshSources
  cases hc : s.cat with
  | none => exact ⟨⟨fun _ => rfl, fun _ => rfl⟩, fun _ => rfl, fun q => absurd rfl q⟩
  | some c =>
    refine ⟨⟨fun q => (by cases q), fun q => (by cases q)⟩, fun q => (by cases q), fun _ => ⟨rfl, ?_⟩⟩
    unfold readInterp readSources
    simp only []
    cases s.interp <;> rfl

/-- An instance: a 3x3 array of zeros. -/
example (s : Obj) (hb : s.opts.borders = true) : (assignData (.array (Img.const 3 3 (.fin 0))) s).2.data.data.px 1 1 = .fin 0 := by
  rw [assign_dark_middle _ s hb (fun i _ j _ => ⟨0, le_refl _, rfl⟩) (by decide) (by decide) (Or.inl fun j _ => rfl)]
  rfl

end PI
