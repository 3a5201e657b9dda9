import Verif.Props.RawArrays
import Verif.Model.Subtract

/-!
# Property C138: what lies under the mask does not reach the results
-/

namespace PI

/-- Two arrays of the same shape that differ only where `m` says. -/
def AgreeOff (m : ℕ → ℕ → Bool) (a a' : Img FVal) : Prop :=
  a.h = a'.h ∧ a.w = a'.w ∧ ∀ i < a.h, ∀ j < a.w, m i j = false → a.px i j = a'.px i j

/-- Two masked arrays with the same mask that differ only under it. -/
def MaskedAlike (d d' : MA) : Prop :=
  AgreeOff d.mask.marks d.data d'.data ∧ ∀ i < d.data.h, ∀ j < d.data.w, d.mask.marks i j = d'.mask.marks i j

theorem MaskedAlike.px {d d' : MA} (h : MaskedAlike d d') (i j : ℕ) (hi : i < d.data.h) (hj : j < d.data.w) :
    d.mask.marks i j = true ∧ d'.mask.marks i j = true ∨
      d.mask.marks i j = false ∧ d'.mask.marks i j = false ∧ d.data.px i j = d'.data.px i j := by
  have hm := h.2 i hi j hj
  cases hb : d.mask.marks i j with
  | true => exact Or.inl ⟨rfl, by rw [← hm, hb]⟩
  | false => exact Or.inr ⟨rfl, by rw [← hm, hb], h.1.2.2 i hi j hj hb⟩

/-! ## The constructor -/

/-- The end of the mask setter. -/
theorem finish_alike (d d' : MA) (hd : d.WF) (hd' : d'.WF) (h : MaskedAlike d d') :
    ∃ m m', finishMask d = .ok ⟨d.data, some m⟩ ∧ finishMask d' = .ok ⟨d'.data, some m'⟩ ∧ m.Same m' ∧
      m.h = d.data.h ∧ m.w = d.data.w ∧ MaskedAlike ⟨d.data, some m⟩ ⟨d'.data, some m'⟩ ∧
      ∀ i < d.data.h, ∀ j < d.data.w, d.mask.marks i j = true → m.px i j = true := by
  obtain ⟨m, e, mh, mw, g⟩ := finishMask_spec d hd
  obtain ⟨m', e', mh', mw', g'⟩ := finishMask_spec d' hd'
  have hbase : (baseMask d).Same (baseMask d') := by
    refine ⟨h.1.1, h.1.2.1, fun i hi j hj => ?_⟩
    change (d.mask.marks i j || _) = (d'.mask.marks i j || _)
    rcases h.px i j hi hj with ⟨h1, h2⟩ | ⟨h1, h2, h3⟩
    · rw [h1, h2]; rfl
    · rw [h1, h2, h3]
  have hg := growPureN_same 7 _ _ hbase
  have hsame : m.Same m' := by
    refine ⟨g.1.symm.trans (hg.1.trans g'.1), g.2.1.symm.trans (hg.2.1.trans g'.2.1), fun i hi j hj => ?_⟩
    have hi' : i < (growPureN 7 (baseMask d)).h := g.1 ▸ hi
    have hj' : j < (growPureN 7 (baseMask d)).w := g.2.1 ▸ hj
    rw [← g.2.2 i hi' j hj', hg.2.2 i hi' j hj', g'.2.2 i (hg.1 ▸ hi') j (hg.2.1 ▸ hj')]
  have hup : ∀ i < d.data.h, ∀ j < d.data.w, d.mask.marks i j = true → m.px i j = true := by
    intro i hi j hj hm
    rw [← g.2.2 i (by rw [(growPureN_shape _ _).1]; exact hi) j (by rw [(growPureN_shape _ _).2]; exact hj)]
    apply growPureN_extensive
    change (d.mask.marks i j || _) = true
    rw [hm]
    rfl
  refine ⟨m, m', e, e', hsame, mh, mw, ⟨⟨h.1.1, h.1.2.1, fun i hi j hj hf => ?_⟩, fun i hi j hj => ?_⟩, hup⟩
  · change m.px i j = false at hf
    rcases h.px i j hi hj with ⟨h1, _⟩ | ⟨_, _, h3⟩
    · rw [hup i hi j hj h1] at hf; cases hf
    · exact h3
  · exact hsame.2.2 i (by rw [mh]; exact hi) j (by rw [mw]; exact hj)

theorem scale_alike (g : ℚ) (d d' : MA) (h : MaskedAlike d d') : MaskedAlike (d.scale g) (d'.scale g) := by
  refine ⟨⟨h.1.1, h.1.2.1, fun i hi j hj hf => ?_⟩, h.2⟩
  change (if d.mask.marks i j then _ else _) = (if d'.mask.marks i j then _ else _)
  change d.mask.marks i j = false at hf
  rcases h.px i j hi hj with ⟨h1, _⟩ | ⟨h1, h2, h3⟩
  · rw [h1] at hf; cases hf
  · rw [h1, h2, h3]

/-- C138: an image made of an array and a mask: what the array holds under the mask changes neither the stored mask nor the
stored pixels outside of it, for every gain. -/
theorem explicit_mask_hides (o : CtorOpts) (ho : o.borders = false) (hc : o.crop = ((0, 0), (0, 0))) (a a' : Img FVal) (M : Img Bool)
    (hh : M.h = a.h) (hw : M.w = a.w) (h : AgreeOff M.px a a') :
    ∃ d d', construct o (.array a) (.array M) = .ok d ∧ construct o (.array a') (.array M) = .ok d' ∧
      MaskedAlike d d' ∧ d.WF ∧ d'.WF ∧ d.mask.isSome ∧ d'.mask.isSome ∧ d.data.h = a.h ∧ d.data.w = a.w ∧
      ∀ i < a.h, ∀ j < a.w, M.px i j = true → d.mask.marks i j = true := by
  set g := o.gain.getD 1 with hg
  have pre : ∀ b : Img FVal, preMask o (.array b) (.array M) =
      .ok (MA.setMask (MA.scale g ⟨b, some (Img.const b.h b.w false)⟩) (some M)) := by
    intro b
    unfold preMask setData
    rw [ho, hc]
    rfl
  have wf0 : ∀ b : Img FVal, (MA.scale g ⟨b, some (Img.const b.h b.w false)⟩).WF := by
    intro b m hm
    cases hm
    exact ⟨rfl, rfl⟩
  have hMs : ∀ b : Img FVal, b.h = a.h → b.w = a.w → NMask.HasShape (some M) b.h b.w := by
    intro b h1 h2 m hm
    cases hm
    exact ⟨hh.trans h1.symm, hw.trans h2.symm⟩
  have wf : ∀ b : Img FVal, (MA.setMask (MA.scale g ⟨b, some (Img.const b.h b.w false)⟩) (some M)).WF :=
    fun b => MA.setMask_wf _ _ (wf0 b)
  have mk : ∀ b : Img FVal, b.h = a.h → b.w = a.w → ∀ i < a.h, ∀ j < a.w,
      (MA.setMask (MA.scale g ⟨b, some (Img.const b.h b.w false)⟩) (some M)).mask.marks i j = M.px i j := by
    intro b h1 h2 i hi j hj
    exact MA.setMask_marks _ _ (wf0 b) (hMs b h1 h2) i j (by rw [← h1] at hi; exact hi) (by rw [← h2] at hj; exact hj)
  have alike : MaskedAlike (MA.setMask (MA.scale g ⟨a, some (Img.const a.h a.w false)⟩) (some M))
      (MA.setMask (MA.scale g ⟨a', some (Img.const a'.h a'.w false)⟩) (some M)) := by
    unfold MaskedAlike AgreeOff
    rw [MA.setMask_data, MA.setMask_data]
    refine ⟨⟨h.1, h.2.1, fun i hi j hj hf => ?_⟩, fun i hi j hj => ?_⟩
    · rw [mk a rfl rfl i hi j hj] at hf
      have := h.2.2 i hi j hj hf
      change (a.px i j).mulQ g = (a'.px i j).mulQ g
      rw [this]
    · rw [mk a rfl rfl i hi j hj, mk a' h.1.symm h.2.1.symm i hi j hj]
  obtain ⟨m, m', e, e', hs, mh, mw, hal, hup⟩ := finish_alike _ _ (wf a) (wf a') alike
  rw [MA.setMask_data] at e mh mw
  rw [MA.setMask_data] at e'
  rw [MA.setMask_data, MA.setMask_data] at hal
  refine ⟨_, _, by rw [construct_eq, pre a]; exact e, by rw [construct_eq, pre a']; exact e', hal, ?_, ?_, rfl, rfl, rfl, rfl, ?_⟩
  · intro x hx; cases hx; exact ⟨mh, mw⟩
  · intro x hx; cases hx; exact ⟨hs.1.symm.trans (mh.trans h.1), hs.2.1.symm.trans (mw.trans h.2.1)⟩
  · intro i hi j hj hM
    rw [MA.setMask_data] at hup
    exact hup i hi j hj (by rw [mk a rfl rfl i hi j hj]; exact hM)

/-- C138: the same for a masked array given without another mask. -/
theorem masked_array_hides (o : CtorOpts) (ho : o.borders = false) (hc : o.crop = ((0, 0), (0, 0))) (hgs : o.guess = true)
    (x x' : MA) (hx : x.WF) (hx' : x'.WF) (h : MaskedAlike x x') :
    ∃ d d', construct o (.masked x) .absent = .ok d ∧ construct o (.masked x') .absent = .ok d' ∧
      MaskedAlike d d' ∧ d.WF ∧ d'.WF ∧ d.mask.isSome ∧ d'.mask.isSome ∧ d.data.h = x.data.h ∧ d.data.w = x.data.w ∧
      ∀ i < x.data.h, ∀ j < x.data.w, x.mask.marks i j = true → d.mask.marks i j = true := by
  set g := o.gain.getD 1 with hg
  have pre : ∀ y : MA, preMask o (.masked y) .absent =
      .ok (MA.maskedInvalid (MA.scale g ⟨y.data, some y.maskArray⟩)) := by
    intro y
    unfold preMask setData chooseMask
    rw [ho, hc, hgs]
    rfl
  have mk0 : ∀ y : MA, y.WF → ∀ i < y.data.h, ∀ j < y.data.w, NMask.marks (some y.maskArray) i j = y.mask.marks i j := by
    intro y hy i hi j hj
    unfold MA.maskArray NMask.marks
    cases hm : y.mask <;> rfl
  have wf0 : ∀ y : MA, y.WF → (MA.scale g ⟨y.data, some y.maskArray⟩).WF := by
    intro y hy m hm
    cases hm
    exact MA.maskArray_shape y hy
  have al0 : MaskedAlike (MA.mk x.data (some x.maskArray)) (MA.mk x'.data (some x'.maskArray)) := by
    refine ⟨⟨h.1.1, h.1.2.1, fun i hi j hj hf => ?_⟩, fun i hi j hj => ?_⟩
    · exact h.1.2.2 i hi j hj (by rw [← mk0 x hx i hi j hj]; exact hf)
    · change NMask.marks (some x.maskArray) i j = NMask.marks (some x'.maskArray) i j
      rw [mk0 x hx i hi j hj, mk0 x' hx' i (h.1.1 ▸ hi) j (h.1.2.1 ▸ hj)]
      exact h.2 i hi j hj
  have al1 := scale_alike g _ _ al0
  have al2 : MaskedAlike (MA.maskedInvalid (MA.scale g ⟨x.data, some x.maskArray⟩))
      (MA.maskedInvalid (MA.scale g ⟨x'.data, some x'.maskArray⟩)) := by
    have hmk : ∀ i < x.data.h, ∀ j < x.data.w,
        (MA.maskedInvalid (MA.scale g ⟨x.data, some x.maskArray⟩)).mask.marks i j =
        (MA.maskedInvalid (MA.scale g ⟨x'.data, some x'.maskArray⟩)).mask.marks i j := by
      intro i hi j hj
      rw [MA.maskedInvalid_marks _ (wf0 x hx) i j hi hj, MA.maskedInvalid_marks _ (wf0 x' hx') i j (h.1.1 ▸ hi) (h.1.2.1 ▸ hj)]
      rcases al1.px i j hi hj with ⟨h1, h2⟩ | ⟨h1, h2, h3⟩
      · rw [h1, h2]; simp
      · rw [h1, h2, h3]
    unfold MaskedAlike AgreeOff
    rw [MA.maskedInvalid_data, MA.maskedInvalid_data]
    refine ⟨⟨h.1.1, h.1.2.1, fun i hi j hj hf => ?_⟩, hmk⟩
    rw [MA.maskedInvalid_marks _ (wf0 x hx) i j hi hj] at hf
    refine al1.1.2.2 i hi j hj ?_
    rw [Bool.eq_false_iff]
    intro ht
    rw [ht] at hf
    simp at hf
  obtain ⟨m, m', e, e', hs, mh, mw, hal, hup⟩ := finish_alike _ _ (MA.maskedInvalid_wf _ (wf0 x hx)) (MA.maskedInvalid_wf _ (wf0 x' hx')) al2
  rw [MA.maskedInvalid_data] at e mh mw
  rw [MA.maskedInvalid_data] at e'
  rw [MA.maskedInvalid_data, MA.maskedInvalid_data] at hal
  refine ⟨_, _, by rw [construct_eq, pre x]; exact e, by rw [construct_eq, pre x']; exact e', hal, ?_, ?_, rfl, rfl, rfl, rfl, ?_⟩
  · intro y hy; cases hy; exact ⟨mh, mw⟩
  · intro y hy; cases hy; exact ⟨hs.1.symm.trans (mh.trans h.1.1), hs.2.1.symm.trans (mw.trans h.1.2.1)⟩
  · intro i hi j hj hM
    rw [MA.maskedInvalid_data] at hup
    refine hup i hi j hj ?_
    rw [MA.maskedInvalid_marks _ (wf0 x hx) i j hi hj]
    have : (MA.scale g ⟨x.data, some x.maskArray⟩).mask.marks i j = true := (mk0 x hx i hi j hj).trans hM
    rw [this]
    simp

/-! ## The results -/

/-- The image as the libraries see it: nothing at masked pixels (and nothing outside of the frame). -/
def seen (d : MA) : Img (Option FVal) :=
  ⟨d.data.h, d.data.w, fun i j => if i < d.data.h ∧ j < d.data.w ∧ d.mask.marks i j = false then some (d.data.px i j) else none⟩

theorem seen_alike {d d' : MA} (h : MaskedAlike d d') : seen d = seen d' := by
  unfold seen
  rw [Img.mk.injEq]
  refine ⟨h.1.1, h.1.2.1, ?_⟩
  funext i j
  by_cases hi : i < d.data.h ∧ j < d.data.w
  · have hi' : i < d'.data.h ∧ j < d'.data.w := ⟨h.1.1 ▸ hi.1, h.1.2.1 ▸ hi.2⟩
    rcases h.px i j hi.1 hi.2 with ⟨h1, h2⟩ | ⟨h1, h2, h3⟩
    · rw [if_neg (by rw [h1]; simp), if_neg (by rw [h2]; simp)]
    · rw [if_pos ⟨hi.1, hi.2, h1⟩, if_pos ⟨hi'.1, hi'.2, h2⟩, h3]
  · rw [if_neg fun hc => hi ⟨hc.1, hc.2.1⟩, if_neg fun hc => hi ⟨h.1.1.symm ▸ hc.1, h.1.2.1.symm ▸ hc.2.1⟩]

/-- The libraries, which honour the masks they are given: `back` and `rms` are the map and the global deviation of
`sep.Background(data, mask=mask)` (single_image.py:519-542), `cosmics` is `detect_cosmics`, `psf` is the PSF found from the
catalogue of `sep.extract(…, mask=mask)` and the stamps of the interpolated image. -/
structure MaskLib where
  back : Img (Option FVal) → Img ℚ
  rms : Img (Option FVal) → ℝ
  cosmics : Img (Option ℚ) → Img Bool → Img Bool
  psf : Img (Option FVal) → Img ℝ → Img ℝ

/-- A pixel as a real number. -/
def realPx : FVal → ℝ
  | .fin q => (q : ℝ)
  | _ => 0

/-- What `subtract` takes from an image object (operations.py:148, 197-198, 404-413): the interpolated image
(`Model/Interp`), the mask, `data.filled(0)`, the PSF and the noise. NaN pixels that no mask covers are not part of this
model. -/
noncomputable def subImgOf (lib : MaskLib) (d : MA) : Py SubImg :=
  match (interpedImg d.data.h (fun x y => .ok (lib.cosmics x y)) (rawState d d.maskArray (lib.back (seen d)))).1 with
  | .error e => .error e
  | .ok b =>
    let img : Img ℝ := ⟨b.h, b.w, fun i j => if i < b.h ∧ j < b.w then (((b.px i j).getD 0 : ℚ) : ℝ) else 0⟩
    .ok { interped := img
          mask := some ⟨d.data.h, d.data.w, fun i j => decide (i < d.data.h ∧ j < d.data.w) && d.mask.marks i j⟩
          filled := ⟨d.data.h, d.data.w, fun i j =>
            if i < d.data.h ∧ j < d.data.w ∧ d.mask.marks i j = false then realPx (d.data.px i j) else 0⟩
          psf := lib.psf (seen d) img
          var := lib.rms (seen d) }

theorem maskArray_marks (d : MA) (i j : ℕ) (_hi : i < d.data.h) (_hj : j < d.data.w) : d.maskArray.px i j = d.mask.marks i j := by
  unfold MA.maskArray NMask.marks
  cases d.mask <;> rfl

/-- C138: images that differ only under their masks are the same for `subtract`. -/
theorem subImg_alike (lib : MaskLib) (d d' : MA) (h : MaskedAlike d d') :
    (∃ s, subImgOf lib d = .ok s) ∧ subImgOf lib d = subImgOf lib d' := by
  have hseen := seen_alike h
  have hms : (maskedSub (rawState d d.maskArray (lib.back (seen d)))).Same
      (maskedSub (rawState d' d'.maskArray (lib.back (seen d')))) := by
    refine ⟨h.1.1, h.1.2.1, fun i hi j hj => ?_⟩
    change (if d.maskArray.px i j then none else (toOpt (d.data.px i j)).map (· - (lib.back (seen d)).px i j)) =
      (if d'.maskArray.px i j then none else (toOpt (d'.data.px i j)).map (· - (lib.back (seen d')).px i j))
    have hi0 : i < d.data.h := hi
    have hj0 : j < d.data.w := hj
    rw [maskArray_marks d i j hi0 hj0, maskArray_marks d' i j (h.1.1 ▸ hi0) (h.1.2.1 ▸ hj0), hseen]
    rcases h.px i j hi0 hj0 with ⟨h1, h2⟩ | ⟨h1, h2, h3⟩
    · rw [h1, h2]
      rfl
    · rw [h1, h2, h3]
  obtain ⟨b, hb⟩ := interp_terminates d.data.h (maskedSub (rawState d d.maskArray (lib.back (seen d))))
  obtain ⟨b', hb', hs⟩ := interp_congr _ _ _ _ hms hb
  have e1 : (interpedImg d.data.h (fun x y => .ok (lib.cosmics x y)) (rawState d d.maskArray (lib.back (seen d)))).1 = .ok b := by
    rw [(interped_eq d.data.h _ _ rfl ⟨_, rfl⟩).1]
    exact hb
  have e2 : (interpedImg d'.data.h (fun x y => .ok (lib.cosmics x y))
      (rawState d' d'.maskArray (lib.back (seen d')))).1 = .ok b' := by
    rw [(interped_eq d'.data.h _ _ rfl ⟨_, rfl⟩).1, ← h.1.1]
    exact hb'
  have himg : (⟨b.h, b.w, fun i j => if i < b.h ∧ j < b.w then (((b.px i j).getD 0 : ℚ) : ℝ) else 0⟩ : Img ℝ) =
      ⟨b'.h, b'.w, fun i j => if i < b'.h ∧ j < b'.w then (((b'.px i j).getD 0 : ℚ) : ℝ) else 0⟩ := by
    rw [Img.mk.injEq]
    refine ⟨hs.1, hs.2.1, ?_⟩
    funext i j
    rw [← hs.1, ← hs.2.1]
    split
    · rename_i hij
      rw [hs.2.2 i hij.1 j hij.2]
    · rfl
  have hmask : (⟨d.data.h, d.data.w, fun i j => decide (i < d.data.h ∧ j < d.data.w) && d.mask.marks i j⟩ : Img Bool) =
      ⟨d'.data.h, d'.data.w, fun i j => decide (i < d'.data.h ∧ j < d'.data.w) && d'.mask.marks i j⟩ := by
    rw [Img.mk.injEq]
    refine ⟨h.1.1, h.1.2.1, ?_⟩
    funext i j
    rw [← h.1.1, ← h.1.2.1]
    by_cases hij : i < d.data.h ∧ j < d.data.w
    · rw [h.2 i hij.1 j hij.2]
    · simp [hij]
  have hfill : (⟨d.data.h, d.data.w, fun i j =>
        if i < d.data.h ∧ j < d.data.w ∧ d.mask.marks i j = false then realPx (d.data.px i j) else 0⟩ : Img ℝ) =
      ⟨d'.data.h, d'.data.w, fun i j =>
        if i < d'.data.h ∧ j < d'.data.w ∧ d'.mask.marks i j = false then realPx (d'.data.px i j) else 0⟩ := by
    rw [Img.mk.injEq]
    refine ⟨h.1.1, h.1.2.1, ?_⟩
    funext i j
    rw [← h.1.1, ← h.1.2.1]
    by_cases hij : i < d.data.h ∧ j < d.data.w
    · rcases h.px i j hij.1 hij.2 with ⟨h1, h2⟩ | ⟨h1, h2, h3⟩
      · rw [if_neg (by rw [h1]; simp), if_neg (by rw [h2]; simp)]
      · rw [if_pos ⟨hij.1, hij.2, h1⟩, if_pos ⟨hij.1, hij.2, h2⟩, h3]
    · rw [if_neg fun hc => hij ⟨hc.1, hc.2.1⟩, if_neg fun hc => hij ⟨hc.1, hc.2.1⟩]
  unfold subImgOf
  rw [e1, e2]
  refine ⟨⟨_, rfl⟩, ?_⟩
  simp only [himg, hmask, hfill, hseen]

/-- The subtraction of two arrays with their masks. -/
noncomputable def subtractMasked (lib : MaskLib) (env : SubEnv) (o : SubOpts) (gr gn : CtorOpts) (r : Img FVal) (mr : Img Bool)
    (n : Img FVal) (mn : Img Bool) : Py SubOut := do
  let dr ← construct gr (.array r) (.array mr)
  let dn ← construct gn (.array n) (.array mn)
  let sr ← subImgOf lib dr
  let sn ← subImgOf lib dn
  subtract env o sr sn

/-- C138: no pixel of D, P and S and nothing of the mask depends on what the arrays hold under their masks. -/
theorem subtract_masked_values (lib : MaskLib) (env : SubEnv) (o : SubOpts) (gr gn : CtorOpts)
    (hr : gr.borders = false ∧ gr.crop = ((0, 0), (0, 0))) (hn : gn.borders = false ∧ gn.crop = ((0, 0), (0, 0)))
    (r r' n n' : Img FVal) (mr mn : Img Bool)
    (hsr : mr.h = r.h ∧ mr.w = r.w) (hsn : mn.h = n.h ∧ mn.w = n.w) (har : AgreeOff mr.px r r') (han : AgreeOff mn.px n n') :
    subtractMasked lib env o gr gn r mr n mn = subtractMasked lib env o gr gn r' mr n' mn := by
  obtain ⟨d, d', e, e', hal, _⟩ := explicit_mask_hides gr hr.1 hr.2 r r' mr hsr.1 hsr.2 har
  obtain ⟨f, f', g, g', hal', _⟩ := explicit_mask_hides gn hn.1 hn.2 n n' mn hsn.1 hsn.2 han
  unfold subtractMasked
  rw [e, e', g, g']
  simp only [bind, Except.bind]
  rw [(subImg_alike lib d d' hal).2, (subImg_alike lib f f' hal').2]

/-! ## Where masked values do matter -/

/-- Six by six pixels, the middle ones lit, the corner masked and holding `v`. -/
def maskedCorner (v : FVal) : MA :=
  ⟨⟨6, 6, fun i j => if i = 0 ∧ j = 0 then v else if 2 ≤ i ∧ i < 4 ∧ 2 ≤ j ∧ j < 4 then .fin 9 else .fin 0⟩,
    some ⟨6, 6, fun i j => decide (i = 0 ∧ j = 0)⟩⟩

/-- C138: the trimming of borders reads masked pixels: the value of a masked one decides how many rows are kept. -/
theorem borders_read_masked : MaskedAlike (maskedCorner (.fin 0)) (maskedCorner (.fin 7)) ∧
    (trimBorders (maskedCorner (.fin 0))).map (fun d => (d.data.h, d.data.w)) = .ok (2, 2) ∧
    (trimBorders (maskedCorner (.fin 7))).map (fun d => (d.data.h, d.data.w)) = .ok (3, 3) := by
  refine ⟨⟨⟨rfl, rfl, fun i hi j hj hf => ?_⟩, fun i hi j hj => rfl⟩, by decide +kernel, by decide +kernel⟩
  have hij : ¬ (i = 0 ∧ j = 0) := by
    intro hc
    change decide (i = 0 ∧ j = 0) = false at hf
    rw [decide_eq_false_iff_not] at hf
    exact hf hc
  change (if i = 0 ∧ j = 0 then _ else _) = (if i = 0 ∧ j = 0 then _ else _)
  rw [if_neg hij, if_neg hij]

/-- A hot masked pixel and a cold one. -/
example (lib : MaskLib) (env : SubEnv) (o : SubOpts) :
    subtractMasked lib env o {} {} (corner (.fin 70000) 3) ⟨20, 20, fun i j => decide (i = 3 ∧ j = 3)⟩ (corner .nan 9)
      ⟨20, 20, fun i j => decide (i = 9 ∧ j = 9)⟩ =
    subtractMasked lib env o {} {} (corner (.fin 0) 3) ⟨20, 20, fun i j => decide (i = 3 ∧ j = 3)⟩ (corner (.fin (-5)) 9)
      ⟨20, 20, fun i j => decide (i = 9 ∧ j = 9)⟩ := by
  have hc : ∀ k v v', AgreeOff (fun i j => decide (i = k ∧ j = k)) (corner v k) (corner v' k) := by
    intro k v v'
    refine ⟨rfl, rfl, fun i _ j _ hf => ?_⟩
    have hij : ¬ (i = k ∧ j = k) := by simpa using hf
    change (if i = k ∧ j = k then _ else _) = (if i = k ∧ j = k then _ else _)
    rw [if_neg hij, if_neg hij]
  exact subtract_masked_values lib env o {} {} ⟨rfl, rfl⟩ ⟨rfl, rfl⟩ _ _ _ _ _ _ ⟨rfl, rfl⟩ ⟨rfl, rfl⟩ (hc _ _ _) (hc _ _ _)

end PI
