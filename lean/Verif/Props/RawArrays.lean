import Verif.Props.SubtractFront
import Verif.Props.Interp
import Verif.Props.Coadd

/-!
# Property C130: bad pixels of raw arrays, from the arguments to the result's mask and pixels
-/

namespace PI

/-- A pixel no result should rest on: not a number, infinite, above 65000 or below -50. -/
def BadPix : FVal → Prop
  | .fin q => 65000 < q ∨ q < -50
  | _ => True

/-- Within seven pixels along both axes. -/
def Near7 (i j i' j' : ℕ) : Prop := i' ≤ i + 7 ∧ i ≤ i' + 7 ∧ j' ≤ j + 7 ∧ j ≤ j' + 7

theorem badPix_iff (v : FVal) : BadPix v ↔ (!v.isFinite || (v.lt (-50) || v.gt 65000)) = true := by
  cases v <;> simp [BadPix, FVal.isFinite, FVal.lt, FVal.gt, or_comm]

/-- The bad pixels of an array. -/
def badMap (a : Img FVal) : Img Bool :=
  ⟨a.h, a.w, fun i j => !(a.px i j).isFinite || ((a.px i j).lt (-50) || (a.px i j).gt 65000)⟩

/-- An image made of an array without options keeps the pixels and masks the grown bad pixels. -/
theorem construct_array (a : Img FVal) :
    ∃ m : Img Bool, construct {} (.array a) .absent = .ok ⟨a, some m⟩ ∧ m.h = a.h ∧ m.w = a.w ∧
      (growPureN 7 (badMap a)).Same m := by
  have hp : preMask {} (.array a) .absent = .ok (MA.maskedInvalid ⟨a, none⟩) := by
    have hd : ∃ d, setData {} (.array a) = .ok d := ⟨_, rfl⟩
    obtain ⟨d, hd⟩ := hd
    unfold preMask
    rw [hd]
    rfl
  obtain ⟨m, h1, h2, h3, h4⟩ := (construct_spec {} (.array a) .absent trivial).2 _ hp
  rw [MA.maskedInvalid_data] at h1 h2 h3
  refine ⟨m, h1, h2, h3, ?_⟩
  have hs : (badMap a).Same (baseMask (MA.maskedInvalid ⟨a, none⟩)) := by
    refine ⟨by rw [baseMask, MA.maskedInvalid_data]; rfl, by rw [baseMask, MA.maskedInvalid_data]; rfl, ?_⟩
    intro i hi j hj
    change _ = (NMask.marks _ i j || _)
    rw [MA.maskedInvalid_marks ⟨a, none⟩ (MA.plain_wf _) i j hi hj, MA.maskedInvalid_data]
    simp [badMap, NMask.marks]
  have hg := growPureN_same 7 _ _ hs
  refine ⟨hg.1.trans h4.1, hg.2.1.trans h4.2.1, fun i hi j hj => ?_⟩
  rw [hg.2.2 i hi j hj]
  exact h4.2.2 i (hg.1 ▸ hi) j (hg.2.1 ▸ hj)

/-- Every bad pixel is masked, and every masked pixel is near a bad one. -/
theorem array_mask_near (a : Img FVal) (m : Img Bool) (hm : (growPureN 7 (badMap a)).Same m) (i j : ℕ) (hi : i < a.h) (hj : j < a.w) :
    (BadPix (a.px i j) → m.px i j = true) ∧
    (m.px i j = true → ∃ i' < a.h, ∃ j' < a.w, BadPix (a.px i' j') ∧ Near7 i j i' j') := by
  have e := hm.2.2 i (by rw [(growPureN_shape _ _).1]; exact hi) j (by rw [(growPureN_shape _ _).2]; exact hj)
  constructor
  · intro hb
    rw [← e]
    exact growPureN_extensive _ _ _ _ ((badPix_iff _).1 hb)
  · intro h
    rw [← e] at h
    obtain ⟨i', hi', j', hj', hb, h1, h2, h3, h4⟩ := growPureN_near 7 (badMap a) i j hi hj h
    exact ⟨i', hi', j', hj', (badPix_iff _).2 hb, h1, h2, h3, h4⟩

/-- What the constructor makes of an array when its remaining part does not raise. -/
theorem buildSI_array (env : FrontEnv) (hr : ∀ d, env.rest d = .ok ()) (a : Img FVal) :
    ∃ m : Img Bool, buildSI env (.array a) .absent = .ok ⟨a, some m⟩ ∧ m.h = a.h ∧ m.w = a.w ∧
      (growPureN 7 (badMap a)).Same m := by
  obtain ⟨m, h1, h2⟩ := construct_array a
  refine ⟨m, ?_, h2⟩
  unfold buildSI
  rw [h1]
  simp only [bind, Except.bind, hr]
  rfl

/-- C130: the mask of the subtraction of two raw arrays. -/
theorem subtract_raw_mask (env : FrontEnv) (hr : ∀ d, env.rest d = .ok ()) (fitted : Bool) (a b : Img FVal)
    (hh : b.h = a.h) (hw : b.w = a.w) :
    ∃ r n m, subtractFront env fitted false (.raw (.array a)) (.raw (.array b)) = .ok (r, n, m) ∧ r.data = a ∧ n.data = b ∧
      ∀ i < a.h, ∀ j < a.w,
        (BadPix (a.px i j) ∨ BadPix (b.px i j) → m.marks i j = true) ∧
        (m.marks i j = true → ∃ i' < a.h, ∃ j' < a.w, (BadPix (a.px i' j') ∨ BadPix (b.px i' j')) ∧ Near7 i j i' j') := by
  obtain ⟨ma, a1, a2, a3, a4⟩ := buildSI_array env hr a
  obtain ⟨mb, b1, b2, b3, b4⟩ := buildSI_array env hr b
  have wa : wrapArg env fitted (.raw (.array a)) = .ok ⟨a, some ma⟩ := by
    simp only [wrapArg, SubArg.isSI, SubArg.asSource, a1]
  have wb : wrapArg env fitted (.raw (.array b)) = .ok ⟨b, some mb⟩ := by
    simp only [wrapArg, SubArg.isSI, SubArg.asSource, b1]
  have sa : NMask.HasShape (some ma) a.h a.w := by
    intro x hx
    cases hx
    exact ⟨a2, a3⟩
  have sb : NMask.HasShape (some mb) a.h a.w := by
    intro x hx
    cases hx
    exact ⟨b2.trans hh, b3.trans hw⟩
  obtain ⟨m, e, _, hm, _⟩ := NMask.maskOr_spec (some mb) (some ma) a.h a.w sb sa
  refine ⟨⟨a, some ma⟩, ⟨b, some mb⟩, m, ?_, rfl, rfl, fun i hi j hj => ?_⟩
  · rw [front_eq, wa, wb]
    simp only [Bool.false_eq_true, if_false]
    rw [if_neg]
    · rw [e]
    · intro h
      exact h (by unfold Img.shape; rw [hh, hw])
  · obtain ⟨p1, p2⟩ := array_mask_near a ma a4 i j hi hj
    obtain ⟨q1, q2⟩ := array_mask_near b mb b4 i j (by omega) (by omega)
    rw [hm i hi j hj]
    change (_ → (mb.px i j || ma.px i j) = true) ∧ ((mb.px i j || ma.px i j) = true → _)
    rw [Bool.or_eq_true]
    constructor
    · rintro (h | h)
      · exact Or.inr (p1 h)
      · exact Or.inl (q1 h)
    · rintro (h | h)
      · obtain ⟨i', hi', j', hj', hb, hn⟩ := q2 h
        exact ⟨i', by omega, j', by omega, Or.inr hb, hn⟩
      · obtain ⟨i', hi', j', hj', hb, hn⟩ := p2 h
        exact ⟨i', hi', j', hj', Or.inl hb, hn⟩

/-- C130: a coadd's caller's list of raw arrays becomes a list of images, and the mask of the coadd of images with those
masks is related to the bad pixels in the same way. -/
theorem coadd_raw_mask (env : FrontEnv) (hr : ∀ d, env.rest d = .ok ()) (arrays : List (Img FVal)) (h w : ℕ)
    (hne : arrays ≠ []) (hs : ∀ a ∈ arrays, a.h = h ∧ a.w = w) :
    ∃ ms : List MA,
      wrapList (fun a => buildSI env (.array a) .absent) (arrays.map Elem.raw) = (ms.map Elem.obj, .ok ()) ∧
      ms.map (·.data) = arrays ∧
      ∀ (lt : List CoImg → List CoImg → Option Bool) (imgs : List CoImg) (psfShape : ℕ) (procs : ℤ),
        imgs.map (·.mask) = ms.map (·.mask) → (∀ im ∈ imgs, im.h = h ∧ im.w = w) →
        procs ≤ imgs.length → procs ≤ 2 ^ 25 → procs * imgs.length ≤ 2 ^ 50 →
        ∃ out, coaddCore lt imgs psfShape procs = .ok out ∧ ∀ i < h, ∀ j < w,
          ((∃ a ∈ arrays, BadPix (a.px i j)) → out.mask.marks i j = true) ∧
          (out.mask.marks i j = true → ∃ a ∈ arrays, ∃ i' < h, ∃ j' < w, BadPix (a.px i' j') ∧ Near7 i j i' j') := by
  choose f hf using fun a => buildSI_array env hr a
  refine ⟨arrays.map fun a => ⟨a, some (f a)⟩, ?_, by rw [List.map_map]; exact List.map_id arrays, ?_⟩
  · clear hne hs
    induction arrays with
    | nil => rfl
    | cons a t ih =>
      simp only [List.map_cons, wrapList, (hf a).1, ih]
  · intro lt imgs psfShape procs hmask hshape h1 h2 h3
    have hm' : imgs.map (·.mask) = arrays.map fun a => (some (f a) : NMask) := by rw [hmask]; simp
    have mem : ∀ im ∈ imgs, ∃ a ∈ arrays, im.mask = some (f a) := by
      intro im him
      have : im.mask ∈ imgs.map (·.mask) := List.mem_map_of_mem him
      rw [hm'] at this
      obtain ⟨a, ha, e⟩ := List.mem_map.1 this
      exact ⟨a, ha, e.symm⟩
    have mem' : ∀ a ∈ arrays, ∃ im ∈ imgs, im.mask = some (f a) := by
      intro a ha
      have : (some (f a) : NMask) ∈ arrays.map fun a => (some (f a) : NMask) := List.mem_map_of_mem ha
      rw [← hm'] at this
      exact List.mem_map.1 this
    have hine : imgs ≠ [] := by
      intro h0
      rw [h0] at hm'
      exact hne (List.map_eq_nil_iff.1 hm'.symm)
    have hall : AllShape imgs h w := by
      intro im him
      refine ⟨(hshape im him).1, (hshape im him).2, ?_⟩
      obtain ⟨a, ha, e⟩ := mem im him
      intro x hx
      rw [e] at hx
      cases hx
      exact ⟨(hf a).2.1.trans (hs a ha).1, (hf a).2.2.1.trans (hs a ha).2⟩
    obtain ⟨out, eo, _, hu⟩ := coadd_spec lt h w imgs psfShape procs hine hall h1 h2 h3
    refine ⟨out, eo, fun i hi j hj => ?_⟩
    rw [hu.2.1 i hi j hj]
    constructor
    · rintro ⟨a, ha, hb⟩
      obtain ⟨im, him, e⟩ := mem' a ha
      refine ⟨im, him, ?_⟩
      rw [e]
      exact (array_mask_near a (f a) (hf a).2.2.2 i j (by rw [(hs a ha).1]; exact hi) (by rw [(hs a ha).2]; exact hj)).1 hb
    · rintro ⟨im, him, hb⟩
      obtain ⟨a, ha, e⟩ := mem im him
      rw [e] at hb
      obtain ⟨i', hi', j', hj', hbad, hn⟩ :=
        (array_mask_near a (f a) (hf a).2.2.2 i j (by rw [(hs a ha).1]; exact hi) (by rw [(hs a ha).2]; exact hj)).2 hb
      exact ⟨a, ha, i', (hs a ha).1 ▸ hi', j', (hs a ha).2 ▸ hj', hbad, hn⟩

/-! ## The pixels -/

/-- The pixel values an image's arithmetic sees; infinities are always masked, so what stands for them is never used. -/
def toOpt : FVal → Option ℚ
  | .fin q => some q
  | _ => none

/-- The state of an image built from an array, with a background. -/
def rawState (d : MA) (m : Img Bool) (bkg : Img ℚ) : IState := ⟨⟨d.data.map toOpt, m⟩, bkg, [], none⟩

theorem sample_congr (pad : Bool) (a b : Img (Option ℚ)) (hs : a.Same b) (r c : ℤ) : sample pad a r c = sample pad b r c := by
  unfold sample
  have hi : inImg a r c ↔ inImg b r c := by unfold inImg; rw [hs.1, hs.2.1]
  by_cases h : inImg a r c
  · rw [if_pos h, if_pos (hi.1 h)]
    obtain ⟨h1, h2, h3, h4⟩ := h
    exact hs.2.2 _ (by omega) _ (by omega)
  · rw [if_neg h, if_neg fun h' => h (hi.2 h')]

theorem replaceNans_congr (a b : Img (Option ℚ)) (hs : a.Same b) : (replaceNans a).Same (replaceNans b) := by
  refine ⟨hs.1, hs.2.1, fun i hi j hj => ?_⟩
  have e := hs.2.2 i hi j hj
  have hw : wsum true a i j = wsum true b i j := by
    unfold wsum
    simp only [sample_congr true a b hs]
  have hv : vsum true a i j = vsum true b i j := by
    unfold vsum
    simp only [sample_congr true a b hs]
  unfold replaceNans
  simp only
  rw [e, hw, hv]

theorem anyNan_congr (a b : Img (Option ℚ)) (hs : a.Same b) : anyNan a = anyNan b := by
  rw [Bool.eq_iff_iff, anyNan_iff, anyNan_iff]
  constructor
  · rintro ⟨i, hi, j, hj, h⟩
    exact ⟨i, hs.1 ▸ hi, j, hs.2.1 ▸ hj, by rw [← hs.2.2 i hi j hj]; exact h⟩
  · rintro ⟨i, hi, j, hj, h⟩
    have hi' : i < a.h := hs.1.symm ▸ hi
    have hj' : j < a.w := hs.2.1.symm ▸ hj
    exact ⟨i, hi', j, hj', by rw [hs.2.2 i hi' j hj']; exact h⟩

theorem interp_congr (fuel : ℕ) (a b c : Img (Option ℚ)) (hs : a.Same b) (h : interpolate fuel a = .ok c) :
    ∃ d, interpolate fuel b = .ok d ∧ c.Same d := by
  rw [interp_once] at h
  cases h
  exact ⟨_, interp_once fuel b, replaceNans_congr a b hs⟩

/-- C130: the interpolated image of a raw array is a number everywhere, and is the pixel minus the background wherever no
bad pixel is near. -/
theorem raw_interped (a : Img FVal) (m : Img Bool) (bkg : Img ℚ) (hm : (growPureN 7 (badMap a)).Same m)
    (cr : Img (Option ℚ) → Img Bool → Img Bool) :
    ∃ b, (interpedImg a.h (fun x y => .ok (cr x y)) (rawState ⟨a, some m⟩ m bkg)).1 = .ok b ∧ b.h = a.h ∧ b.w = a.w ∧
      (∀ i < a.h, ∀ j < a.w, ∃ v, b.px i j = some v) ∧
      ∀ i < a.h, ∀ j < a.w, (∀ i' < a.h, ∀ j' < a.w, Near7 i j i' j' → ¬ BadPix (a.px i' j')) →
        ∃ q, a.px i j = .fin q ∧ b.px i j = some (q - bkg.px i j) := by
  obtain ⟨b, hb⟩ := interp_terminates a.h (maskedSub (rawState ⟨a, some m⟩ m bkg))
  obtain ⟨h1, h2, h3⟩ := interp_no_nan _ _ _ hb
  refine ⟨b, ?_, h1, h2, ?_, ?_⟩
  · rw [(interped_eq a.h _ _ rfl ⟨_, rfl⟩).1]
    exact hb
  · intro i hi j hj
    exact Option.ne_none_iff_exists'.1 (h3 i hi j hj)
  · intro i hi j hj hgood
    have hnm : m.px i j = false := by
      rw [Bool.eq_false_iff]
      intro h
      obtain ⟨i', hi', j', hj', hbad, hn⟩ := (array_mask_near a m hm i j hi hj).2 h
      exact hgood i' hi' j' hj' hn hbad
    have hng := hgood i hi j hj ⟨by omega, by omega, by omega, by omega⟩
    cases hv : a.px i j with
    | fin q =>
      refine ⟨q, rfl, interp_keeps _ _ _ hb i j _ ?_⟩
      simp [maskedSub, rawState, hnm, Img.map, hv, toOpt]
    | nan => rw [hv] at hng; exact absurd trivial hng
    | pinf => rw [hv] at hng; exact absurd trivial hng
    | ninf => rw [hv] at hng; exact absurd trivial hng

/-- C130: what a bad pixel holds does not matter: two arrays that agree but for pixels bad in both give the same mask and
the same interpolated image, the background being the same. -/
theorem bad_value_irrelevant (a a' : Img FVal) (hh : a.h = a'.h) (hw : a.w = a'.w)
    (he : ∀ i < a.h, ∀ j < a.w, a.px i j = a'.px i j ∨ (BadPix (a.px i j) ∧ BadPix (a'.px i j)))
    (m m' : Img Bool) (hm : construct {} (.array a) .absent = .ok ⟨a, some m⟩)
    (hm' : construct {} (.array a') .absent = .ok ⟨a', some m'⟩) (bkg : Img ℚ)
    (cr cr' : Img (Option ℚ) → Img Bool → Img Bool) :
    m.Same m' ∧ ∃ b b',
      (interpedImg a.h (fun x y => .ok (cr x y)) (rawState ⟨a, some m⟩ m bkg)).1 = .ok b ∧
      (interpedImg a'.h (fun x y => .ok (cr' x y)) (rawState ⟨a', some m'⟩ m' bkg)).1 = .ok b' ∧ b.Same b' := by
  obtain ⟨n, e1, _, _, g⟩ := construct_array a
  obtain ⟨n', e1', _, _, g'⟩ := construct_array a'
  rw [hm] at e1
  cases e1
  rw [hm'] at e1'
  cases e1'
  have hbad : (badMap a).Same (badMap a') := by
    refine ⟨hh, hw, fun i hi j hj => ?_⟩
    rcases he i hi j hj with h | ⟨h1, h2⟩
    · simp [badMap, h]
    · rw [show (badMap a).px i j = true from (badPix_iff _).1 h1, show (badMap a').px i j = true from (badPix_iff _).1 h2]
  have hg := growPureN_same 7 _ _ hbad
  have hsame : m.Same m' := by
    refine ⟨g.1.symm.trans (hg.1.trans g'.1), g.2.1.symm.trans (hg.2.1.trans g'.2.1), fun i hi j hj => ?_⟩
    have hi' : i < (growPureN 7 (badMap a)).h := g.1 ▸ hi
    have hj' : j < (growPureN 7 (badMap a)).w := g.2.1 ▸ hj
    rw [← g.2.2 i hi' j hj', hg.2.2 i hi' j hj', g'.2.2 i (hg.1 ▸ hi') j (hg.2.1 ▸ hj')]
  refine ⟨hsame, ?_⟩
  have hms : (maskedSub (rawState ⟨a, some m⟩ m bkg)).Same (maskedSub (rawState ⟨a', some m'⟩ m' bkg)) := by
    refine ⟨hh, hw, fun i hi j hj => ?_⟩
    have hmh : m.h = a.h := by rw [← g.1, (growPureN_shape _ _).1]; rfl
    have hmw : m.w = a.w := by rw [← g.2.1, (growPureN_shape _ _).2]; rfl
    have em := hsame.2.2 i (by rw [hmh]; exact hi) j (by rw [hmw]; exact hj)
    change (if m.px i j then none else (toOpt (a.px i j)).map (· - bkg.px i j)) =
      (if m'.px i j then none else (toOpt (a'.px i j)).map (· - bkg.px i j))
    rcases he i hi j hj with h | ⟨h1, h2⟩
    · rw [em, h]
    · rw [← em, (array_mask_near a m g i j hi hj).1 h1]
      rfl
  obtain ⟨b, hb⟩ := interp_terminates a.h (maskedSub (rawState ⟨a, some m⟩ m bkg))
  obtain ⟨b', hb', hs⟩ := interp_congr _ _ _ _ hms hb
  refine ⟨b, b', ?_, ?_, hs⟩
  · rw [(interped_eq a.h _ _ rfl ⟨_, rfl⟩).1]
    exact hb
  · rw [(interped_eq a'.h _ _ rfl ⟨_, rfl⟩).1, ← hh]
    exact hb'

/-- A flat array of twenty by twenty pixels with a saturated corner, and one with an infinite pixel in the middle. -/
def corner (v : FVal) (k : ℕ) : Img FVal := ⟨20, 20, fun i j => if i = k ∧ j = k then v else .fin 100⟩

/-- The mask holds both, and pixel (19, 0) stays clear. -/
example : ∃ r n m, subtractFront ⟨fun _ => .ok (), fun _ _ => .error .ValueError⟩ true false (.raw (.array (corner (.fin 70000) 0)))
      (.raw (.array (corner .pinf 10))) = .ok (r, n, m) ∧
    m.marks 0 0 = true ∧ m.marks 10 10 = true ∧ m.marks 19 0 = false := by
  obtain ⟨r, n, m, e, _, _, h⟩ := subtract_raw_mask ⟨fun _ => .ok (), fun _ _ => .error .ValueError⟩ (fun _ => rfl) true
    (corner (.fin 70000) 0) (corner .pinf 10) rfl rfl
  refine ⟨r, n, m, e, (h 0 (show 0 < 20 by omega) 0 (show 0 < 20 by omega)).1 (Or.inl ?_), (h 10 (show 10 < 20 by omega) 10 (show 10 < 20 by omega)).1 (Or.inr ?_), ?_⟩
  · norm_num [corner, BadPix]
  · simp only [corner, and_self, if_true, BadPix]
  · rw [Bool.eq_false_iff]
    intro hm
    obtain ⟨i', hi', j', hj', hb, h1, h2, h3, h4⟩ := (h 19 (show 19 < 20 by omega) 0 (show 0 < 20 by omega)).2 hm
    have e1 : ¬ (i' = 0 ∧ j' = 0) := by omega
    have e2 : ¬ (i' = 10 ∧ j' = 10) := by omega
    simp only [corner, if_neg e1, if_neg e2, BadPix] at hb
    norm_num at hb

/-- A NaN or an infinity in one pixel: the same. -/
example : ∃ m m', construct {} (.array (corner .nan 3)) .absent = .ok ⟨corner .nan 3, some m⟩ ∧
    construct {} (.array (corner .pinf 3)) .absent = .ok ⟨corner .pinf 3, some m'⟩ ∧ m.Same m' := by
  obtain ⟨m, h1, _⟩ := construct_array (corner .nan 3)
  obtain ⟨m', h2, _⟩ := construct_array (corner .pinf 3)
  refine ⟨m, m', h1, h2, (bad_value_irrelevant (corner .nan 3) (corner .pinf 3) rfl rfl (fun i _ j _ => ?_) m m' h1 h2 ⟨20, 20, fun _ _ => 0⟩
    (fun _ y => y) (fun _ y => y)).1⟩
  by_cases h : i = 3 ∧ j = 3
  · right
    simp only [corner, if_pos h, BadPix, and_self]
  · left
    simp only [corner, if_neg h]

end PI
