import Verif.Model.Coadd
import Verif.Props.Chunk
import Mathlib.Algebra.BigOperators.Group.List.Basic

/-! Helper lemmas for `coadd`. -/

namespace PI

open Complex

theorem addOut_same {K : Type} [Add K] (a s : Img K) (h1 : a.h = s.h) (h2 : a.w = s.w) :
    addOut a s = .ok ⟨s.h, s.w, fun i j => a.px i j + s.px i j⟩ := by
  simp [addOut, h1, h2]

theorem addOut_bad {K : Type} [Add K] (a s : Img K) (h : ¬ (a.h = s.h ∧ a.w = s.w))
    (hh : s.h ≤ a.h) (hw : s.w ≤ a.w) (sh : 0 < s.h) (sw : 0 < s.w) :
    addOut a s = .error .ValueError := by
  unfold addOut
  rw [if_neg]
  omega

/-- All images have shape `(h, w)`, masks included. -/
def AllShape (imgs : List CoImg) (h w : ℕ) : Prop :=
  ∀ im ∈ imgs, im.h = h ∧ im.w = w ∧ im.mask.HasShape h w

/-- What an accumulator holds after a list of images. -/
structure AccSpec (h w : ℕ) (imgs : List CoImg) (acc : Acc) : Prop where
  sh : acc.S.h = h
  sw : acc.S.w = w
  ph : acc.P.h = h
  pw : acc.P.w = w
  s : ∀ i j, acc.S.px i j = (imgs.map fun im => im.sHat i j).sum
  p : ∀ i j, acc.P.px i j = (imgs.map fun im => (((im.zp / im.var) ^ 2 : ℝ) : ℂ) * im.psfSq i j).sum
  mshape : acc.mask.HasShape h w

theorem accStep_ok (h w : ℕ) (acc : Acc) (im : CoImg) (hS : acc.S.h = h ∧ acc.S.w = w)
    (hP : acc.P.h = h ∧ acc.P.w = w) (hm : acc.mask.HasShape h w)
    (hi : im.h = h ∧ im.w = w ∧ im.mask.HasShape h w) :
    ∃ acc', accStep acc im = .ok acc' ∧ acc'.S = ⟨h, w, fun i j => im.sHat i j + acc.S.px i j⟩ ∧
      acc'.P = ⟨h, w, fun i j => (((im.zp / im.var) ^ 2 : ℝ) : ℂ) * im.psfSq i j + acc.P.px i j⟩ ∧
      acc'.mask.HasShape h w ∧
      (∀ i < h, ∀ j < w, acc'.mask.marks i j = (acc.mask.marks i j || im.mask.marks i j)) ∧
      (acc'.mask = none ↔ ∀ i < h, ∀ j < w, (acc.mask.marks i j || im.mask.marks i j) = false) := by
  obtain ⟨m, hm1, hm2, hm3, hm4⟩ := NMask.maskOr_spec acc.mask im.mask h w hm hi.2.2
  refine ⟨⟨⟨h, w, fun i j => im.sHat i j + acc.S.px i j⟩,
    ⟨h, w, fun i j => (((im.zp / im.var) ^ 2 : ℝ) : ℂ) * im.psfSq i j + acc.P.px i j⟩, m⟩,
    ?_, rfl, rfl, hm2, hm3, hm4⟩
  unfold accStep
  rw [addOut_same _ _ (by simp [CoImg.comp, hi.1, hS.1]) (by simp [CoImg.comp, hi.2.1, hS.2]),
    addOut_same _ _ (by simp [CoImg.weighted, hi.1, hP.1]) (by simp [CoImg.weighted, hi.2.1, hP.2]),
    hm1]
  simp [bind, Except.bind, pure, Except.pure, CoImg.comp, CoImg.weighted, hS.1, hS.2, hP.1, hP.2]

/-- Folding the loop body over images of one shape. -/
theorem foldl_accStep (h w : ℕ) : ∀ (imgs : List CoImg), AllShape imgs h w →
    ∀ acc : Acc, acc.S.h = h ∧ acc.S.w = w → acc.P.h = h ∧ acc.P.w = w →
      acc.mask.HasShape h w →
    ∃ acc', imgs.foldlM accStep acc = .ok acc' ∧
      acc'.S.h = h ∧ acc'.S.w = w ∧ acc'.P.h = h ∧ acc'.P.w = w ∧
      (∀ i j, acc'.S.px i j = (imgs.map fun im => im.sHat i j).sum + acc.S.px i j) ∧
      (∀ i j, acc'.P.px i j = (imgs.map fun im =>
        (((im.zp / im.var) ^ 2 : ℝ) : ℂ) * im.psfSq i j).sum + acc.P.px i j) ∧
      acc'.mask.HasShape h w ∧
      (∀ i < h, ∀ j < w, (acc'.mask.marks i j = true ↔
        acc.mask.marks i j = true ∨ ∃ im ∈ imgs, im.mask.marks i j = true)) ∧
      (imgs ≠ [] → (acc'.mask = none ↔
        ∀ i < h, ∀ j < w, acc'.mask.marks i j = false)) := by
  intro imgs
  induction imgs with
  | nil =>
    intro _ acc hS hP hm
    exact ⟨acc, rfl, hS.1, hS.2, hP.1, hP.2, by simp, by simp, hm, by simp, by simp⟩
  | cons im rest ih =>
    intro hall acc hS hP hm
    obtain ⟨a1, e1, eS, eP, hm1, hmk, hnone⟩ := accStep_ok h w acc im hS hP hm
      (hall im (by simp))
    obtain ⟨a2, e2, k1, k2, k3, k4, kS, kP, km, kmk, knone⟩ := ih
      (fun x hx => hall x (by simp [hx])) a1 (by simp [eS]) (by simp [eP]) hm1
    refine ⟨a2, ?_, k1, k2, k3, k4, ?_, ?_, km, ?_, ?_⟩
    · rw [List.foldlM_cons, e1]; exact e2
    · intro i j; rw [kS, eS]; simp; ring
    · intro i j; rw [kP, eP]; simp; ring
    · intro i hi j hj
      rw [kmk i hi j hj, hmk i hi j hj]
      simp only [Bool.or_eq_true, List.mem_cons, exists_eq_or_imp]
      tauto
    · intro _
      by_cases hr : rest = []
      · subst hr
        have : a2 = a1 := by simpa [pure, Except.pure] using e2.symm
        subst this
        rw [hnone]
        constructor
        · intro hf i hi j hj; rw [hmk i hi j hj]; exact hf i hi j hj
        · intro hf i hi j hj; rw [← hmk i hi j hj]; exact hf i hi j hj
      · exact knone hr

/-- One worker on a non-empty chunk of same-shape images. -/
theorem processChunk_ok (h w : ℕ) (chunk : List CoImg) (hne : chunk ≠ [])
    (hall : AllShape chunk h w) :
    ∃ acc, processChunk (h, w) chunk = .ok acc ∧ AccSpec h w chunk acc ∧
      (∀ i < h, ∀ j < w, (acc.mask.marks i j = true ↔ ∃ im ∈ chunk, im.mask.marks i j = true)) ∧
      (acc.mask = none ↔ ∀ i < h, ∀ j < w, acc.mask.marks i j = false) := by
  match chunk, hne with
  | im0 :: rest, _ =>
    obtain ⟨a, e, k1, k2, k3, k4, kS, kP, km, kmk, kn⟩ := foldl_accStep h w (im0 :: rest) hall
      ⟨Img.const h w 0, Img.const h w 0, im0.mask⟩ ⟨rfl, rfl⟩ ⟨rfl, rfl⟩
      (hall im0 (by simp)).2.2
    refine ⟨a, e, ⟨k1, k2, k3, k4, ?_, ?_, km⟩, ?_, kn (by simp)⟩
    · intro i j; rw [kS]; simp [Img.const]
    · intro i j; rw [kP]; simp [Img.const]
    · intro i hi j hj
      rw [kmk i hi j hj]
      constructor
      · rintro (h | h)
        · exact ⟨im0, by simp, h⟩
        · exact h
      · exact fun h => Or.inr h

theorem accSequential_eq (gs : ℕ × ℕ) (imgs : List CoImg) :
    accSequential gs imgs = processChunk gs imgs := by
  cases imgs <;> rfl

theorem combineStep_ok (h w : ℕ) (acc res : Acc) (hS : acc.S.h = h ∧ acc.S.w = w)
    (hP : acc.P.h = h ∧ acc.P.w = w) (hm : acc.mask.HasShape h w)
    (hS' : res.S.h = h ∧ res.S.w = w) (hP' : res.P.h = h ∧ res.P.w = w)
    (hm' : res.mask.HasShape h w) :
    ∃ acc', combineStep acc res = .ok acc' ∧ acc'.S = ⟨h, w, fun i j => res.S.px i j + acc.S.px i j⟩ ∧
      acc'.P = ⟨h, w, fun i j => res.P.px i j + acc.P.px i j⟩ ∧
      acc'.mask.HasShape h w ∧
      (∀ i < h, ∀ j < w, acc'.mask.marks i j = (acc.mask.marks i j || res.mask.marks i j)) ∧
      (acc'.mask = none ↔ ∀ i < h, ∀ j < w, (acc.mask.marks i j || res.mask.marks i j) = false) := by
  obtain ⟨m, hm1, hm2, hm3, hm4⟩ := NMask.maskOr_spec acc.mask res.mask h w hm hm'
  refine ⟨⟨⟨h, w, fun i j => res.S.px i j + acc.S.px i j⟩,
    ⟨h, w, fun i j => res.P.px i j + acc.P.px i j⟩, m⟩, ?_, rfl, rfl, hm2, hm3, hm4⟩
  unfold combineStep
  rw [addOut_same _ _ (by simp [Img.map, hS.1, hS'.1]) (by simp [Img.map, hS.2, hS'.2]),
    addOut_same _ _ (by simp [Img.map, hS.1, hS'.1]) (by simp [Img.map, hS.2, hS'.2]),
    addOut_same _ _ (by simp [Img.map, hP.1, hP'.1]) (by simp [Img.map, hP.2, hP'.2]),
    addOut_same _ _ (by simp [Img.map, hP.1, hP'.1]) (by simp [Img.map, hP.2, hP'.2]),
    hm1]
  simp only [bind, Except.bind, pure, Except.pure, Img.zip, Img.map, hS.1, hS.2, hP.1, hP.2]
  congr 2

/-- Combining the workers' results. -/
theorem foldl_combine (h w : ℕ) : ∀ (res : List Acc),
    (∀ r ∈ res, (r.S.h = h ∧ r.S.w = w) ∧ (r.P.h = h ∧ r.P.w = w) ∧ r.mask.HasShape h w) →
    ∀ acc : Acc, acc.S.h = h ∧ acc.S.w = w → acc.P.h = h ∧ acc.P.w = w →
      acc.mask.HasShape h w →
    ∃ acc', res.foldlM combineStep acc = .ok acc' ∧
      acc'.S.h = h ∧ acc'.S.w = w ∧ acc'.P.h = h ∧ acc'.P.w = w ∧
      (∀ i j, acc'.S.px i j = (res.map fun r => r.S.px i j).sum + acc.S.px i j) ∧
      (∀ i j, acc'.P.px i j = (res.map fun r => r.P.px i j).sum + acc.P.px i j) ∧
      acc'.mask.HasShape h w ∧
      (∀ i < h, ∀ j < w, (acc'.mask.marks i j = true ↔
        acc.mask.marks i j = true ∨ ∃ r ∈ res, r.mask.marks i j = true)) ∧
      (res ≠ [] → (acc'.mask = none ↔
        ∀ i < h, ∀ j < w, acc'.mask.marks i j = false)) := by
  intro res
  induction res with
  | nil =>
    intro _ acc hS hP hm
    exact ⟨acc, rfl, hS.1, hS.2, hP.1, hP.2, by simp, by simp, hm, by simp, by simp⟩
  | cons r rest ih =>
    intro hall acc hS hP hm
    obtain ⟨hr1, hr2, hr3⟩ := hall r (by simp)
    obtain ⟨a1, e1, eS, eP, hm1, hmk, hnone⟩ := combineStep_ok h w acc r hS hP hm hr1 hr2 hr3
    obtain ⟨a2, e2, k1, k2, k3, k4, kS, kP, km, kmk, knone⟩ := ih
      (fun x hx => hall x (by simp [hx])) a1 (by simp [eS]) (by simp [eP]) hm1
    refine ⟨a2, ?_, k1, k2, k3, k4, ?_, ?_, km, ?_, ?_⟩
    · rw [List.foldlM_cons, e1]; exact e2
    · intro i j; rw [kS, eS]; simp; ring
    · intro i j; rw [kP, eP]; simp; ring
    · intro i hi j hj
      rw [kmk i hi j hj, hmk i hi j hj]
      simp only [Bool.or_eq_true, List.mem_cons, exists_eq_or_imp]
      tauto
    · intro _
      by_cases hr : rest = []
      · subst hr
        have : a2 = a1 := by simpa [pure, Except.pure] using e2.symm
        subst this
        rw [hnone]
        constructor
        · intro hf i hi j hj; rw [hmk i hi j hj]; exact hf i hi j hj
        · intro hf i hi j hj; rw [← hmk i hi j hj]; exact hf i hi j hj
      · exact knone hr

/-- `mapM` over `Except`. -/
theorem mapM_ok {α β : Type} (f : α → Py β) : ∀ (l : List α) (Q : α → β → Prop),
    (∀ x ∈ l, ∃ y, f x = .ok y ∧ Q x y) →
    ∃ ys, l.mapM f = .ok ys ∧ List.Forall₂ Q l ys := by
  intro l Q
  induction l with
  | nil => intro _; exact ⟨[], rfl, List.Forall₂.nil⟩
  | cons x xs ih =>
    intro h
    obtain ⟨y, hy, hq⟩ := h x (by simp)
    obtain ⟨ys, hys, hf⟩ := ih (fun z hz => h z (by simp [hz]))
    refine ⟨y :: ys, ?_, List.Forall₂.cons hq hf⟩
    rw [List.mapM_cons, hy, hys]; rfl

theorem forall₂_right {α β : Type} (Q : α → β → Prop) (l : List α) (ys : List β)
    (h : List.Forall₂ Q l ys) : ∀ y ∈ ys, ∃ x, Q x y := by
  induction h with
  | nil => simp
  | cons hh _ ih =>
    intro y hy
    rcases List.mem_cons.1 hy with rfl | hy
    · exact ⟨_, hh⟩
    · exact ih y hy

theorem mapM_error {α β : Type} (f : α → Py β) (e : PyErr) : ∀ (l : List α),
    (∀ x ∈ l, (∃ y, f x = .ok y) ∨ f x = .error e) → (∃ x ∈ l, f x = .error e) →
    l.mapM f = .error e := by
  intro l
  induction l with
  | nil => rintro _ ⟨x, hx, _⟩; simp at hx
  | cons x xs ih =>
    intro h hex
    rw [List.mapM_cons]
    rcases h x (by simp) with ⟨y, hy⟩ | he
    · rw [hy]
      have : xs.mapM f = .error e := by
        apply ih (fun z hz => h z (by simp [hz]))
        obtain ⟨z, hz, hze⟩ := hex
        rcases List.mem_cons.1 hz with rfl | hz'
        · rw [hy] at hze; simp at hze
        · exact ⟨z, hz', hze⟩
      change (do let ys ← xs.mapM f; pure (y :: ys)) = _
      rw [this]; rfl
    · rw [he]; rfl

/-- `np.min` of equal shapes. -/
theorem globalShape_same (imgs : List CoImg) (hne : imgs ≠ []) (h w : ℕ)
    (hall : ∀ im ∈ imgs, im.h = h ∧ im.w = w) : globalShape imgs = .ok (h, w) := by
  match imgs, hne with
  | im :: rest, _ =>
    have key : ∀ (f : CoImg → ℕ) (l : List CoImg) (n : ℕ), (∀ x ∈ l, f x = n) →
        l.foldl (fun m x => min m (f x)) n = n := by
      intro f l
      induction l with
      | nil => intro n _; rfl
      | cons x xs ih =>
        intro n hx
        rw [List.foldl_cons, hx x (by simp), min_self]
        exact ih n (fun y hy => hx y (by simp [hy]))
    simp only [globalShape]
    rw [(hall im (by simp)).1, (hall im (by simp)).2,
      key (·.h) rest h (fun x hx => (hall x (by simp [hx])).1),
      key (·.w) rest w (fun x hx => (hall x (by simp [hx])).2)]

theorem globalShape_spec (imgs : List CoImg) (hne : imgs ≠ []) :
    ∃ h w, globalShape imgs = .ok (h, w) ∧ (∀ im ∈ imgs, h ≤ im.h ∧ w ≤ im.w) ∧
      (∃ im ∈ imgs, im.h = h) ∧ (∃ im ∈ imgs, im.w = w) := by
  match imgs, hne with
  | im :: rest, _ =>
    have key : ∀ (f : CoImg → ℕ) (l : List CoImg) (n : ℕ),
        l.foldl (fun m x => min m (f x)) n ≤ n ∧
        (∀ x ∈ l, l.foldl (fun m x => min m (f x)) n ≤ f x) ∧
        (l.foldl (fun m x => min m (f x)) n = n ∨
          ∃ x ∈ l, f x = l.foldl (fun m x => min m (f x)) n) := by
      intro f l
      induction l with
      | nil => intro n; simp
      | cons x xs ih =>
        intro n
        obtain ⟨h1, h2, h3⟩ := ih (min n (f x))
        rw [List.foldl_cons]
        refine ⟨h1.trans (min_le_left _ _), ?_, ?_⟩
        · intro y hy
          rcases List.mem_cons.1 hy with rfl | hy
          · exact h1.trans (min_le_right _ _)
          · exact h2 y hy
        · rcases h3 with h3 | ⟨y, hy, hy2⟩
          · rcases min_choice n (f x) with hc | hc
            · left; rw [h3, hc]
            · right; exact ⟨x, by simp, by rw [h3, hc]⟩
          · right; exact ⟨y, by simp [hy], hy2⟩
    obtain ⟨a1, a2, a3⟩ := key (·.h) rest im.h
    obtain ⟨b1, b2, b3⟩ := key (·.w) rest im.w
    refine ⟨_, _, rfl, ?_, ?_, ?_⟩
    · intro x hx
      rcases List.mem_cons.1 hx with rfl | hx
      · exact ⟨a1, b1⟩
      · exact ⟨a2 x hx, b2 x hx⟩
    · rcases a3 with a3 | ⟨y, hy, h⟩
      · exact ⟨im, by simp, a3.symm⟩
      · exact ⟨y, by simp [hy], h⟩
    · rcases b3 with a3 | ⟨y, hy, h⟩
      · exact ⟨im, by simp, a3.symm⟩
      · exact ⟨y, by simp [hy], h⟩

end PI
