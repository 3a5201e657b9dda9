import Verif.Lemmas.MaskGrow
import Verif.Model.Construct
import Mathlib.Data.Fintype.Prod
import Mathlib.Algebra.BigOperators.Fin

/-! # Properties C30–C32: extreme pixels and the growth of the mask -/

namespace PI

/-- A masked array given as input is a proper one. -/
def Source.WF : Source → Prop
  | .masked d => d.WF
  | _ => True

theorem MA.slice_wf (a b c e : ℤ) (d : MA) : (d.slice a b c e).WF := by
  intro m hm
  change d.mask.map _ = some m at hm
  rw [Option.map_eq_some_iff] at hm
  obtain ⟨x, _, rfl⟩ := hm
  exact ⟨rfl, rfl⟩

theorem MA.scale_wf (g : ℚ) (d : MA) (hd : d.WF) : (d.scale g).WF := hd

theorem cropMA_wf (c : (ℤ × ℤ) × (ℤ × ℤ)) (d : MA) (hd : d.WF) : (cropMA c d).WF := by
  unfold cropMA
  split
  · exact hd
  · exact MA.slice_wf _ _ _ _ _

theorem MA.plain_wf (a : Img FVal) : (MA.mk a none).WF := by
  intro m hm; cases hm

theorem loadData_wf (src : Source) (hs : src.WF) (d : MA) (h : loadData src = .ok d) : d.WF := by
  cases src with
  | missing => cases h
  | other => cases h
  | path f => cases h; exact MA.plain_wf _
  | hduList f => cases h; exact MA.plain_wf _
  | primary a g => cases h; exact MA.plain_wf _
  | array a => cases h; intro m hm; cases hm; exact ⟨rfl, rfl⟩
  | masked e => cases h; intro m hm; cases hm; exact MA.maskArray_shape e hs

theorem setData_wf (o : CtorOpts) (src : Source) (hs : src.WF) (d : MA) (h : setData o src = .ok d) :
    d.WF := by
  unfold setData at h
  cases hg : gainOf o src with
  | error e => rw [hg] at h; cases h
  | ok g =>
    cases hl : loadData src with
    | error e => rw [hg, hl] at h; cases h
    | ok d0 =>
      rw [hg, hl] at h
      simp only [bind, Except.bind] at h
      cases hb : o.borders with
      | false =>
        rw [hb] at h
        cases h
        exact MA.scale_wf _ _ (cropMA_wf _ _ (loadData_wf src hs d0 hl))
      | true =>
        rw [hb] at h
        simp only [if_true] at h
        cases ht : trimBorders d0 with
        | error e => rw [ht] at h; cases h
        | ok d1 =>
          rw [ht] at h
          cases h
          refine MA.scale_wf _ _ (cropMA_wf _ _ ?_)
          unfold trimBorders at ht
          cases hbb : borderBounds d0.data with
          | error e => rw [hbb] at ht; cases ht
          | ok b => rw [hbb] at ht; cases ht; exact MA.slice_wf _ _ _ _ _

theorem saturationMask_wf (d : MA) (hd : d.WF) : (saturationMask d).WF := by
  unfold saturationMask
  simp only
  split <;> split <;> first | exact hd | exact MA.maskedWhere_wf _ _ hd

theorem chooseMask_wf (o : CtorOpts) (src : Source) (mask : MaskArg) (d d' : MA) (hd : d.WF)
    (h : chooseMask o src mask d = .ok d') : d'.WF := by
  unfold chooseMask at h
  split at h
  · cases h; exact MA.setMask_wf _ _ hd
  · cases h; exact MA.setMask_wf _ _ hd
  · cases h; exact saturationMask_wf d hd
  · split at h
    · split at h
      · cases h; exact MA.maskedInvalid_wf _ (MA.plain_wf _)
      · cases h; exact MA.maskedInvalid_wf _ (MA.plain_wf _)
      · split at h
        · cases h
        · split at h
          · cases h
          · cases h; exact MA.setMask_wf _ _ hd
        · cases h; exact MA.maskedInvalid_wf _ (MA.plain_wf _)
      · split at h
        · cases h; exact saturationMask_wf d hd
        · split at h
          · cases h; exact MA.maskedInvalid_wf _ (MA.plain_wf _)
          · cases h; exact MA.setMask_wf _ _ hd
        · cases h; exact hd
      · cases h; exact MA.maskedInvalid_wf _ hd
    · cases h; exact saturationMask_wf d hd

/-- The pixels and mask just before the extreme pixels are masked and the mask grows. -/
def preMask (o : CtorOpts) (src : Source) (mask : MaskArg) : Py MA :=
  setData o src >>= chooseMask o src mask

theorem preMask_wf (o : CtorOpts) (src : Source) (mask : MaskArg) (hs : src.WF) (d : MA)
    (h : preMask o src mask = .ok d) : d.WF := by
  unfold preMask at h
  cases hd : setData o src with
  | error e => rw [hd] at h; cases h
  | ok d0 =>
    rw [hd] at h
    exact chooseMask_wf o src mask d0 d (setData_wf o src hs d0 hd) h

theorem construct_eq (o : CtorOpts) (src : Source) (mask : MaskArg) :
    construct o src mask = preMask o src mask >>= finishMask := by
  unfold construct preMask
  cases setData o src <;> rfl

/-- The constructor fails exactly when loading or choosing the mask fails, with the same exception;
otherwise it stores the pixels unchanged and the grown mask, always a full array. -/
theorem construct_spec (o : CtorOpts) (src : Source) (mask : MaskArg) (hs : src.WF) :
    (∀ e, preMask o src mask = .error e → construct o src mask = .error e) ∧
    (∀ d, preMask o src mask = .ok d → ∃ a : Img Bool, construct o src mask = .ok ⟨d.data, some a⟩ ∧
      a.h = d.data.h ∧ a.w = d.data.w ∧ (growPureN 7 (baseMask d)).Same a) := by
  constructor
  · intro e he
    rw [construct_eq, he]
    rfl
  · intro d hd
    rw [construct_eq, hd]
    exact finishMask_spec d (preMask_wf o src mask hs d hd)

/-! ## C30 -/

/-- A pixel value that must never be used: above 65000 or below -50, infinities included. -/
def Extreme : FVal → Prop
  | .fin q => 65000 < q ∨ q < -50
  | .pinf => True
  | .ninf => True
  | .nan => False

theorem extreme_iff (v : FVal) : Extreme v ↔ (v.lt (-50) || v.gt 65000) = true := by
  cases v <;> simp [Extreme, FVal.lt, FVal.gt, or_comm]

/-- C30: whatever the input, the mask and the options, every extreme pixel of the stored image is
masked. -/
theorem construct_extreme_masked (o : CtorOpts) (src : Source) (mask : MaskArg) (hs : src.WF)
    (out : MA) (h : construct o src mask = .ok out) (i j : ℕ) (hi : i < out.data.h)
    (hj : j < out.data.w) (hx : Extreme (out.data.px i j)) : out.mask.marks i j = true := by
  obtain ⟨h1, h2⟩ := construct_spec o src mask hs
  cases hp : preMask o src mask with
  | error e => rw [h1 e hp] at h; cases h
  | ok d =>
    obtain ⟨a, e1, e2, e3, e4, e5, e6⟩ := h2 d hp
    rw [e1] at h
    cases h
    change a.px i j = true
    rw [← e6 i (by rw [(growPureN_shape _ _).1]; exact hi) j (by rw [(growPureN_shape _ _).2]; exact hj)]
    apply growPureN_extensive
    change (_ || _) = true
    rw [(extreme_iff _).1 hx, Bool.or_true]

/-! ## C31 -/

/-- C31: masked before growth implies masked after; masked after implies a pixel masked before within
seven pixels along both axes; in particular nothing is masked if nothing was. -/
theorem construct_growth (o : CtorOpts) (src : Source) (mask : MaskArg) (hs : src.WF)
    (d out : MA) (hd : preMask o src mask = .ok d) (h : construct o src mask = .ok out) (i j : ℕ)
    (hi : i < d.data.h) (hj : j < d.data.w) :
    ((baseMask d).px i j = true → out.mask.marks i j = true) ∧
    (out.mask.marks i j = true → ∃ i' < d.data.h, ∃ j' < d.data.w, (baseMask d).px i' j' = true ∧
      i' ≤ i + 7 ∧ i ≤ i' + 7 ∧ j' ≤ j + 7 ∧ j ≤ j' + 7) := by
  obtain ⟨a, e1, e2, e3, e4, e5, e6⟩ := (construct_spec o src mask hs).2 d hd
  rw [e1] at h
  cases h
  have e := e6 i (by rw [(growPureN_shape _ _).1]; exact hi) j (by rw [(growPureN_shape _ _).2]; exact hj)
  constructor
  · intro hb
    change a.px i j = true
    rw [← e]
    exact growPureN_extensive _ _ _ _ hb
  · intro hm
    change a.px i j = true at hm
    rw [← e] at hm
    exact growPureN_near 7 (baseMask d) i j hi hj hm

/-- C31: a larger mask before growth gives a larger mask. -/
theorem construct_growth_mono (o o' : CtorOpts) (src src' : Source) (mask mask' : MaskArg)
    (hs : src.WF) (hs' : src'.WF) (d d' out out' : MA) (hd : preMask o src mask = .ok d)
    (hd' : preMask o' src' mask' = .ok d') (h : construct o src mask = .ok out)
    (h' : construct o' src' mask' = .ok out') (hh : d.data.h = d'.data.h) (hw : d.data.w = d'.data.w)
    (hle : ∀ i < d.data.h, ∀ j < d.data.w, (baseMask d).px i j = true → (baseMask d').px i j = true)
    (i j : ℕ) (hi : i < d.data.h) (hj : j < d.data.w) (hm : out.mask.marks i j = true) :
    out'.mask.marks i j = true := by
  obtain ⟨a, e1, e2, e3, e4, e5, e6⟩ := (construct_spec o src mask hs).2 d hd
  obtain ⟨b, f1, f2, f3, f4, f5, f6⟩ := (construct_spec o' src' mask' hs').2 d' hd'
  rw [e1] at h
  cases h
  rw [f1] at h'
  cases h'
  change b.px i j = true
  change a.px i j = true at hm
  have e := e6 i (by rw [(growPureN_shape _ _).1]; exact hi) j (by rw [(growPureN_shape _ _).2]; exact hj)
  have f := f6 i (by rw [(growPureN_shape _ _).1]; change i < d'.data.h; omega) j
    (by rw [(growPureN_shape _ _).2]; change j < d'.data.w; omega)
  rw [← e] at hm
  rw [← f]
  exact growPureN_mono 7 _ _ hh hw hle i j hi hj hm

/-! ## C32 -/

/-- The cell of a 3x3 window around `(i, j)`, positions outside the image being replaced by the
nearest position inside (which for this window size is the reflection). -/
def nearest (n : ℕ) (z : ℤ) : ℕ := (max 0 (min z (n - 1))).toNat

/-- How many of the nine window cells are masked. -/
def maskedCells (m : Img Bool) (i j : ℕ) : ℕ :=
  ∑ p : Fin 3, ∑ q : Fin 3,
    if m.px (nearest m.h ((i : ℤ) + p - 1)) (nearest m.w ((j : ℤ) + q - 1)) then 1 else 0

theorem winCount_eq_maskedCells (m : Img Bool) (i j : ℕ) : winCount m i j = maskedCells m i j := by
  have hn : ∀ n i o : ℕ, nearest n ((i : ℤ) + o - 1) = reflIdx n i o := by
    intro n i o; unfold nearest reflIdx; omega
  unfold winCount maskedCells offsets9
  have h0 : ((0 : Fin 3) : ℕ) = 0 := rfl
  have h1 : ((1 : Fin 3) : ℕ) = 1 := rfl
  have h2 : ((2 : Fin 3) : ℕ) = 2 := rfl
  simp only [Fin.sum_univ_three, List.map_cons, List.map_nil, List.sum_cons, List.sum_nil, add_zero,
    h0, h1, h2, hn]
  omega

/-- C32: one growth iteration masks exactly the pixels that were masked or have at least three masked
cells in their window. -/
theorem grow_step_iff (d : MA) (hd : d.WF) (hs : d.mask.isSome = true) :
    ∃ d', growOnce d = .ok d' ∧ ∀ i < d.data.h, ∀ j < d.data.w,
      (d'.mask.marks i j = true ↔ d.mask.marks i j = true ∨ 3 ≤ maskedCells d.maskArray i j) := by
  obtain ⟨d', e1, e2, e3, e4, f1, f2, f3⟩ := growOnce_spec d hd hs
  have hsh := MA.maskArray_shape d hd
  refine ⟨d', e1, fun i hi j hj => ?_⟩
  rw [← MA.maskArray_px, ← f3 i (by change i < d.maskArray.h; omega) j (by change j < d.maskArray.w; omega)]
  change (d.maskArray.px i j || decide (2 < winCount d.maskArray i j)) = true ↔ _
  rw [Bool.or_eq_true, decide_eq_true_eq, winCount_eq_maskedCells, MA.maskArray_px]
  exact Iff.rfl

/-- How often the window of `i` on an axis of length `n` sees position `a`. -/
def axisHits (n i a : ℕ) : ℕ :=
  (if reflIdx n i 0 = a then 1 else 0) + (if reflIdx n i 1 = a then 1 else 0) +
    (if reflIdx n i 2 = a then 1 else 0)

/-- The image masked at `(a, b)` only. -/
def single (h w a b : ℕ) : Img Bool := ⟨h, w, fun i j => decide (i = a) && decide (j = b)⟩

theorem winCount_single (h w a b i j : ℕ) :
    winCount (single h w a b) i j = axisHits h i a * axisHits w j b := by
  unfold winCount offsets9 axisHits single
  simp only [List.map_cons, List.map_nil, List.sum_cons, List.sum_nil, add_zero, Bool.and_eq_true,
    decide_eq_true_eq]
  by_cases p0 : reflIdx h i 0 = a <;> by_cases p1 : reflIdx h i 1 = a <;>
    by_cases p2 : reflIdx h i 2 = a <;> by_cases q0 : reflIdx w j 0 = b <;>
    by_cases q1 : reflIdx w j 1 = b <;> by_cases q2 : reflIdx w j 2 = b <;>
    simp [p0, p1, p2, q0, q1, q2]

theorem axisHits_le_two (n i a : ℕ) (hn : 2 ≤ n) (hi : i < n) : axisHits n i a ≤ 2 := by
  unfold axisHits reflIdx
  split <;> split <;> split <;> omega

theorem axisHits_le_one (n i a : ℕ) (hn : 2 ≤ n) (hi : i < n) (h : i ≠ a ∨ (1 ≤ i ∧ i + 1 < n)) :
    axisHits n i a ≤ 1 := by
  unfold axisHits reflIdx
  split <;> split <;> split <;> omega

theorem single_stable (h w a b : ℕ) (hh : 2 ≤ h) (hw : 2 ≤ w) :
    (growPure (single h w a b)).Same (single h w a b) := by
  refine ⟨rfl, rfl, fun i hi j hj => ?_⟩
  have hi' : i < h := hi
  have hj' : j < w := hj
  change ((decide (i = a) && decide (j = b)) || decide (2 < winCount (single h w a b) i j)) =
    (decide (i = a) && decide (j = b))
  rw [winCount_single]
  have a2 := axisHits_le_two h i a hh hi'
  have b2 := axisHits_le_two w j b hw hj'
  have hle : ¬ (i = a ∧ j = b) → axisHits h i a * axisHits w j b ≤ 2 := by
    intro hne
    by_cases hia : i = a
    · have b1 := axisHits_le_one w j b hw hj' (Or.inl fun hjb => hne ⟨hia, hjb⟩)
      calc _ ≤ 2 * 1 := Nat.mul_le_mul a2 b1
        _ = 2 := rfl
    · have a1 := axisHits_le_one h i a hh hi' (Or.inl hia)
      calc _ ≤ 1 * 2 := Nat.mul_le_mul a1 b2
        _ = 2 := rfl
  by_cases hab : i = a ∧ j = b
  · simp [hab.1, hab.2]
  · have := hle hab
    rw [decide_eq_false (by omega : ¬ 2 < axisHits h i a * axisHits w j b), Bool.or_false]

/-- C32: an isolated masked pixel never grows, in an image of at least 2x2 pixels. -/
theorem single_pixel_never_grows (n h w a b : ℕ) (hh : 2 ≤ h) (hw : 2 ≤ w) :
    (growPureN n (single h w a b)).Same (single h w a b) := by
  induction n with
  | zero => exact ⟨rfl, rfl, fun _ _ _ _ => rfl⟩
  | succ n ih =>
    have h1 := growPureN_same n _ _ (single_stable h w a b hh hw)
    obtain ⟨p1, p2, p3⟩ := h1
    obtain ⟨q1, q2, q3⟩ := ih
    exact ⟨p1.trans q1, p2.trans q2, fun i hi j hj => (p3 i hi j hj).trans
      (q3 i (p1 ▸ hi) j (p2 ▸ hj))⟩

/-- In a one-row image the same pixel does grow: the window sees it three times. -/
theorem single_pixel_grows_in_one_row :
    (growPure (single 1 5 0 2)).px 0 1 = true ∧ (growPure (single 1 5 0 2)).px 0 3 = true := by decide

theorem winCount_le_add (m : Img Bool) (a b c e : ℕ)
    (hm : ∀ i j, m.px i j = true → (i = a ∧ j = b) ∨ (i = c ∧ j = e)) (i j : ℕ) :
    winCount m i j ≤ winCount (single m.h m.w a b) i j + winCount (single m.h m.w c e) i j := by
  unfold winCount
  rw [← List.sum_map_add]
  refine List.sum_le_sum fun o _ => ?_
  by_cases hp : m.px (reflIdx m.h i o.1) (reflIdx m.w j o.2) = true
  · rw [if_pos hp]
    unfold single
    rcases hm _ _ hp with ⟨h1, h2⟩ | ⟨h1, h2⟩
    · simp [h1, h2]
    · simp [h1, h2]
  · rw [if_neg hp]; exact Nat.zero_le _

/-- C32: two masked pixels, wherever they are, do not mask any further pixel away from the edges
(the comment in the code says two suffice). -/
theorem two_pixels_no_interior_growth (m : Img Bool) (a b c e : ℕ)
    (hm : ∀ i j, m.px i j = true → (i = a ∧ j = b) ∨ (i = c ∧ j = e)) (i j : ℕ)
    (hi : 1 ≤ i) (hi' : i + 1 < m.h) (hj : 1 ≤ j) (hj' : j + 1 < m.w) :
    (growPure m).px i j = m.px i j := by
  have h1 := winCount_le_add m a b c e hm i j
  rw [winCount_single, winCount_single] at h1
  have a1 := axisHits_le_one m.h i a (by omega) (by omega) (Or.inr ⟨hi, hi'⟩)
  have b1 := axisHits_le_one m.w j b (by omega) (by omega) (Or.inr ⟨hj, hj'⟩)
  have c1 := axisHits_le_one m.h i c (by omega) (by omega) (Or.inr ⟨hi, hi'⟩)
  have e1 := axisHits_le_one m.w j e (by omega) (by omega) (Or.inr ⟨hj, hj'⟩)
  have p1 : axisHits m.h i a * axisHits m.w j b ≤ 1 * 1 := Nat.mul_le_mul a1 b1
  have p2 : axisHits m.h i c * axisHits m.w j e ≤ 1 * 1 := Nat.mul_le_mul c1 e1
  change (m.px i j || decide (2 < winCount m i j)) = m.px i j
  rw [decide_eq_false (by omega), Bool.or_false]

/-- At an edge two masked pixels can suffice. -/
theorem two_pixels_grow_at_edge :
    (growPure ⟨3, 3, fun i j => decide (i = 0) && decide (j < 2)⟩).px 1 0 = true := by decide

/-- Three in the window suffice: an L-shape grows. -/
example : (growPure ⟨5, 5, fun i j => decide (i = 2 ∧ j = 2) || decide (i = 2 ∧ j = 3) ||
    decide (i = 3 ∧ j = 2)⟩).px 3 3 = true := by decide

/-! ## Non-vacuity -/

/-- A 4x4 array with one saturated pixel. -/
def demoImg : Img FVal := ⟨4, 4, fun i j => if i = 1 ∧ j = 1 then .fin 70000 else .fin 5⟩

theorem grown_single (n h w a b : ℕ) (hh : 2 ≤ h) (hw : 2 ≤ w) (m r : Img Bool)
    (hm : m.Same (single h w a b)) (hr : (growPureN n m).Same r) (i j : ℕ) (hi : i < h) (hj : j < w) :
    r.px i j = (single h w a b).px i j := by
  obtain ⟨g1, g2, g3⟩ := growPureN_same n _ _ hm
  obtain ⟨s1, s2, s3⟩ := single_pixel_never_grows n h w a b hh hw
  have hi0 : i < (growPureN n (single h w a b)).h := by rw [s1]; exact hi
  have hj0 : j < (growPureN n (single h w a b)).w := by rw [s2]; exact hj
  rw [← s3 i hi0 j hj0, ← g3 i (by omega) j (by omega), hr.2.2 i (by omega) j (by omega)]

/-- C32 for the constructor: if the only pixel masked before growth is `(a, b)`, it is the only one
masked. -/
theorem construct_single_pixel (o : CtorOpts) (src : Source) (mask : MaskArg) (hs : src.WF)
    (d out : MA) (hd : preMask o src mask = .ok d) (h : construct o src mask = .ok out) (a b : ℕ)
    (hh : 2 ≤ d.data.h) (hw : 2 ≤ d.data.w)
    (hb : (baseMask d).Same (single d.data.h d.data.w a b)) (i j : ℕ) (hi : i < d.data.h)
    (hj : j < d.data.w) : out.mask.marks i j = true ↔ i = a ∧ j = b := by
  obtain ⟨r, e1, e2, e3, e4⟩ := (construct_spec o src mask hs).2 d hd
  rw [e1] at h
  cases h
  change r.px i j = true ↔ _
  rw [grown_single 7 _ _ a b hh hw _ r hb e4 i j hi hj]
  change (decide (i = a) && decide (j = b)) = true ↔ _
  rw [Bool.and_eq_true, decide_eq_true_eq, decide_eq_true_eq]

/-- The saturated pixel is masked and, being alone, does not grow. -/
example (out : MA) (h : construct {} (.array demoImg) .absent = .ok out) :
    out.mask.marks 1 1 = true ∧ ¬ out.mask.marks 1 2 = true := by
  have hpre : preMask {} (.array demoImg) .absent = .ok (MA.maskedInvalid ⟨demoImg, none⟩) := rfl
  have hb : (baseMask (MA.maskedInvalid ⟨demoImg, none⟩)).Same (single 4 4 1 1) :=
    ⟨rfl, rfl, by decide +kernel⟩
  have key := construct_single_pixel {} (.array demoImg) .absent trivial _ out hpre h 1 1 (by decide) (by decide) hb
  rw [key 1 1 (by decide) (by decide), key 1 2 (by decide) (by decide)]
  decide

end PI
