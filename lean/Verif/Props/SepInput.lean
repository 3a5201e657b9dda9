import Verif.Model.SepInput
import Verif.Props.ConstructMore

/-!
# Property C151: which arrays can be made into a SingleImage

Specification vocabulary: `CallersArray`, the cases in which the caller's array is kept as it is; `SepKind`, the kinds
of numbers that sep works on; `Packed`, contiguous rows.
-/

namespace PI

/-- No mask is given, masks are guessed, and the image is an array, a primary HDU, or an HDU list with EXTEND false. -/
def CallersArray (o : CtorOpts) (src : Source) (mask : MaskArg) : Prop :=
  mask = .absent ∧ o.guess = true ∧
    ((∃ a, src = .array a) ∨ (∃ a g, src = .primary a g) ∨ ∃ f, src = .hduList f ∧ f.extend = some false)

/-- Kinds of numbers that sep works on. -/
def SepKind (t : NumKind) : Prop := t = .f4 ∨ t = .f8 ∨ t = .i4 ∨ t = .u1 ∨ t = .bool

/-- The rows are contiguous. -/
def Packed (l : Layout) (h w : ℕ) : Prop := l.rowMajor = true ∨ h ≤ 1 ∨ w ≤ 1

theorem keepsRaw_iff (o : CtorOpts) (src : Source) (mask : MaskArg) :
    keepsRaw o src mask = true ↔ CallersArray o src mask := by
  unfold CallersArray
  cases mask <;> cases src <;> simp [keepsRaw]

theorem sepTakes_iff (l : Layout) (h w : ℕ) :
    sepTakes l h w = true ↔ l.native = true ∧ Packed l h w ∧ SepKind l.dtype := by
  obtain ⟨t, n, r⟩ := l
  unfold sepTakes Packed SepKind
  cases t <;> simp [or_assoc]

/-- C151: when the background can be estimated. Pixels are converted to native single precision except where the
array of the caller is kept; the order of its axes always is. -/
theorem accepted_iff (o : CtorOpts) (src : Source) (mask : MaskArg) (l : Layout) :
    (∃ x, bkgInput o src mask l = .ok x) ↔ ∃ d, construct o src mask = .ok d ∧ Packed l d.data.h d.data.w ∧
      (CallersArray o src mask → l.native = true ∧ SepKind l.dtype) := by
  unfold bkgInput
  cases hc : construct o src mask with
  | error e =>
    constructor
    · rintro ⟨x, hx⟩; cases hx
    · rintro ⟨d, hd, -⟩; cases hd
  | ok d =>
    simp only [bind, Except.bind]
    have key : sepTakes (storedLayout o src mask l) d.data.h d.data.w = true ↔
        Packed l d.data.h d.data.w ∧ (CallersArray o src mask → l.native = true ∧ SepKind l.dtype) := by
      rw [sepTakes_iff]
      unfold storedLayout
      by_cases hk : keepsRaw o src mask = true
      · rw [if_pos hk]
        have hk' := (keepsRaw_iff o src mask).1 hk
        exact ⟨fun h => ⟨h.2.1, fun _ => ⟨h.1, h.2.2⟩⟩, fun h => ⟨(h.2 hk').1, h.1, (h.2 hk').2⟩⟩
      · rw [if_neg hk]
        have hk' : ¬ CallersArray o src mask := fun h => hk ((keepsRaw_iff o src mask).2 h)
        exact ⟨fun h => ⟨h.2.1, fun h' => absurd h' hk'⟩, fun h => ⟨rfl, h.1, Or.inl rfl⟩⟩
    by_cases ht : sepTakes (storedLayout o src mask l) d.data.h d.data.w = true
    · rw [if_pos ht]
      exact ⟨fun _ => ⟨d, rfl, key.1 ht⟩, fun _ => ⟨_, rfl⟩⟩
    · rw [if_neg ht]
      constructor
      · rintro ⟨x, hx⟩; cases hx
      · rintro ⟨d', hd', h⟩
        cases hd'
        exact absurd (key.2 h) ht

/-- C151: what is refused raises ValueError if nothing else was wrong. -/
theorem refused_value_error (o : CtorOpts) (src : Source) (mask : MaskArg) (l : Layout) (d : MA)
    (hd : construct o src mask = .ok d) (hn : ¬ ∃ x, bkgInput o src mask l = .ok x) :
    bkgInput o src mask l = .error .ValueError := by
  unfold bkgInput at hn ⊢
  rw [hd] at hn ⊢
  simp only [bind, Except.bind] at hn ⊢
  by_cases ht : sepTakes (storedLayout o src mask l) d.data.h d.data.w = true
  · rw [if_pos ht] at hn
    exact absurd ⟨_, rfl⟩ hn
  · rw [if_neg ht]

/-- C151: the background is estimated from the stored pixels, with the stored mask if it masks anything and without a
mask otherwise. -/
theorem background_from (o : CtorOpts) (src : Source) (mask : MaskArg) (l : Layout) (a : Img FVal)
    (m : Option (Img Bool)) (h : bkgInput o src mask l = .ok (a, m)) :
    ∃ d, construct o src mask = .ok d ∧ a = d.data ∧
      (m = some d.maskArray ∨ m = none) ∧
      (m = none ↔ ∀ i < d.maskArray.h, ∀ j < d.maskArray.w, d.maskArray.px i j = false) := by
  unfold bkgInput at h
  cases hc : construct o src mask with
  | error e => rw [hc] at h; cases h
  | ok d =>
    rw [hc] at h
    simp only [bind, Except.bind] at h
    split at h
    · injection h with h
      injection h with h1 h2
      refine ⟨d, rfl, h1.symm, ?_, ?_⟩
      · rw [← h2]; split
        · exact Or.inl rfl
        · exact Or.inr rfl
      · rw [← h2]
        by_cases ha : d.maskArray.any = true
        · rw [if_pos ha]
          refine ⟨fun h => (by cases h), fun hf => ?_⟩
          obtain ⟨i, hi, j, hj, e⟩ := (Img.any_iff _).1 ha
          rw [hf i hi j hj] at e
          cases e
        · rw [if_neg ha]
          refine ⟨fun _ i hi j hj => ?_, fun _ => rfl⟩
          rw [Bool.eq_false_iff]
          exact fun e => ha ((Img.any_iff _).2 ⟨i, hi, j, hj, e⟩)
    · cases h

/-! ## Consequences -/

theorem construct_array_guess (o : CtorOpts) (hg : o.guess = true) (hb : o.borders = false) (a : Img FVal) :
    ∃ m : Img Bool, construct o (.array a) .absent = .ok ⟨a, some m⟩ := by
  have hp : preMask o (.array a) .absent = .ok (MA.maskedInvalid ⟨a, none⟩) := by
    unfold preMask setData chooseMask
    simp only [gainOf, loadData, hb, hg, bind, Except.bind, pure, Except.pure, if_true]
    rfl
  obtain ⟨m, hm, -⟩ := (construct_spec o (.array a) .absent trivial).2 _ hp
  refine ⟨m, ?_⟩
  rw [hm, MA.maskedInvalid_data]

/-- C151: an array of Python's integers (or of any kind that sep does not know, or in foreign byte order) given without
a mask raises ValueError, while the same array is accepted with a mask or with guessmask=False. -/
theorem integers_refused (o : CtorOpts) (hg : o.guess = true) (hb : o.borders = false) (a : Img FVal) (l : Layout)
    (hr : l.rowMajor = true) (hk : ¬ (l.native = true ∧ SepKind l.dtype)) :
    bkgInput o (.array a) .absent l = .error .ValueError ∧
      (∀ m, ∃ x, bkgInput o (.array a) (.array m) l = .ok x) ∧
      ∃ x, bkgInput { o with guess := false } (.array a) .absent l = .ok x := by
  obtain ⟨m0, h0⟩ := construct_array_guess o hg hb a
  refine ⟨refused_value_error o _ _ l _ h0 ?_, fun m => ?_, ?_⟩
  · rw [accepted_iff]
    rintro ⟨d, -, -, h⟩
    exact hk (h ⟨rfl, hg, Or.inl ⟨a, rfl⟩⟩)
  · rw [accepted_iff]
    have hp : preMask o (.array a) (.array m) = .ok (((cropMA o.crop ⟨a, some (Img.const a.h a.w false)⟩).scale
        (o.gain.getD 1)).setMask (some m)) := by
      unfold preMask setData chooseMask
      simp only [gainOf, loadData, hb, bind, Except.bind, pure, Except.pure]
      rfl
    obtain ⟨q, hq, -⟩ := (construct_spec o (.array a) (.array m) trivial).2 _ hp
    exact ⟨_, hq, Or.inl hr, fun h => by cases h.1⟩
  · rw [accepted_iff]
    have hp : ∃ d, preMask { o with guess := false } (.array a) .absent = .ok d := by
      unfold preMask setData chooseMask
      simp only [gainOf, loadData, hb, bind, Except.bind, pure, Except.pure]
      exact ⟨_, rfl⟩
    obtain ⟨d, hd⟩ := hp
    obtain ⟨q, hq, -⟩ := (construct_spec { o with guess := false } (.array a) .absent trivial).2 _ hd
    exact ⟨_, hq, Or.inl hr, fun h => by cases h.2.1⟩

/-- C151: the transpose of an array (contiguous columns, two rows and columns at least) is never accepted: without a
mask it raises ValueError, and no mask helps. -/
theorem transposed_refused (o : CtorOpts) (a : Img FVal) (mask : MaskArg) (l : Layout) (hr : l.rowMajor = false)
    (d : MA) (hd : construct o (.array a) mask = .ok d) (hh : 2 ≤ d.data.h) (hw : 2 ≤ d.data.w) :
    bkgInput o (.array a) mask l = .error .ValueError := by
  refine refused_value_error o _ _ l d hd ?_
  rw [accepted_iff]
  rintro ⟨d', hd', hp, -⟩
  rw [hd] at hd'
  injection hd' with e
  subst e
  unfold Packed at hp
  rw [hr] at hp
  rcases hp with hp | hp | hp
  · cases hp
  · omega
  · omega

/-- C151: a FITS file given by its path is accepted whatever its kind of numbers and its byte order (FITS is
big-endian), if its pixels and mask can be loaded; the same HDU list is, too, if it has a mask extension. -/
theorem files_accepted (o : CtorOpts) (f : FitsFile) (mask : MaskArg) (l : Layout) (hr : l.rowMajor = true) (d : MA) :
    (construct o (.path f) mask = .ok d → ∃ x, bkgInput o (.path f) mask l = .ok x) ∧
      (f.extend = some true → construct o (.hduList f) mask = .ok d → ∃ x, bkgInput o (.hduList f) mask l = .ok x) := by
  refine ⟨fun h => (accepted_iff o _ _ l).2 ⟨d, h, Or.inl hr, ?_⟩, fun he h => (accepted_iff o _ _ l).2 ⟨d, h, Or.inl hr, ?_⟩⟩
  · rintro ⟨-, -, ⟨a, h⟩ | ⟨a, g, h⟩ | ⟨f', h, -⟩⟩ <;> cases h
  · rintro ⟨-, -, ⟨a, h⟩ | ⟨a, g, h⟩ | ⟨f', h, h'⟩⟩
    · cases h
    · cases h
    · cases h
      rw [he] at h'
      cases h'

/-- C151: the primary HDU of a file as astropy reads it, big-endian, raises ValueError without a mask. -/
theorem primary_refused (o : CtorOpts) (hg : o.guess = true) (hb : o.borders = false) (a : Img FVal) (g : Option ℚ)
    (l : Layout) (hn : l.native = false) : bkgInput o (.primary a g) .absent l = .error .ValueError := by
  have hp : preMask o (.primary a g) .absent = .ok (MA.maskedInvalid ⟨a, none⟩) := by
    unfold preMask setData chooseMask
    simp only [gainOf, loadData, hb, hg, bind, Except.bind, pure, Except.pure, if_true]
    rfl
  obtain ⟨m, hm, -⟩ := (construct_spec o (.primary a g) .absent trivial).2 _ hp
  refine refused_value_error o _ _ l _ hm ?_
  rw [accepted_iff]
  rintro ⟨d, -, -, h⟩
  have := (h ⟨rfl, hg, Or.inr (Or.inl ⟨a, g, rfl⟩)⟩).1
  rw [hn] at this
  cases this

/-- C151: what is printed for an image is the shape of the stored pixels: for an array without a mask that of the
array, crop or not; an explicit crop shows only with a mask (or guessmask=False). -/
theorem repr_shape (o : CtorOpts) (hg : o.guess = true) (hb : o.borders = false) (a : Img FVal) :
    ∃ d, construct o (.array a) .absent = .ok d ∧ reprOf d = s!"SingleImage {a.h}, {a.w}" := by
  obtain ⟨m, hm⟩ := construct_array_guess o hg hb a
  exact ⟨_, hm, rfl⟩

/-- The hypotheses hold: the default options and an array of 64-bit integers; a big-endian HDU. -/
theorem accept_example :
    let a : Img FVal := ⟨4, 5, fun i j => .fin (i + j)⟩
    bkgInput {} (.array a) .absent ⟨.i8, true, true⟩ = .error .ValueError ∧
      (∃ x, bkgInput {} (.array a) .absent ⟨.f8, true, true⟩ = .ok x) ∧
      bkgInput {} (.primary a none) .absent ⟨.f4, false, true⟩ = .error .ValueError ∧
      bkgInput {} (.array a) .absent ⟨.f8, true, false⟩ = .error .ValueError := by
  intro a
  refine ⟨(integers_refused {} rfl rfl a _ rfl ?_).1, ?_, primary_refused {} rfl rfl a none _ rfl, ?_⟩
  · rintro ⟨-, h⟩
    unfold SepKind at h
    simp at h
  · obtain ⟨m, hm⟩ := construct_array_guess {} rfl rfl a
    exact (accepted_iff _ _ _ _).2 ⟨_, hm, Or.inl rfl, fun _ => ⟨rfl, Or.inr (Or.inl rfl)⟩⟩
  · obtain ⟨m, hm⟩ := construct_array_guess {} rfl rfl a
    exact transposed_refused {} a .absent _ rfl _ hm (show 2 ≤ 4 by omega) (show 2 ≤ 5 by omega)

end PI
