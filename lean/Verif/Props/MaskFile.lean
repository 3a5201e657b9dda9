import Verif.Props.ConstructMore
import Mathlib.Data.List.Sort
import Mathlib.Data.List.GetD

/-! # Properties C37, C38: mask images and their round trip through files -/

namespace PI

/-! ## C37 -/

theorem sorted_getD_zero (s : List ℚ) (hs : s.Pairwise (· ≤ ·)) (h0 : ∀ x ∈ s, 0 ≤ x) (k : ℕ)
    (hk : k < s.length) : s.getD k 0 = 0 ↔ k < s.countP (· = 0) := by
  induction s generalizing k with
  | nil => simp at hk
  | cons a t ih =>
    rw [List.pairwise_cons] at hs
    by_cases ha : a = 0
    · rw [List.countP_cons_of_pos (by simpa using ha)]
      cases k with
      | zero => simp [ha]
      | succ k =>
        rw [List.getD_cons_succ, ih hs.2 (fun x hx => h0 x (List.mem_cons_of_mem _ hx)) k
          (by simpa using hk)]
        omega
    · have hpos : 0 < a := lt_of_le_of_ne (h0 a List.mem_cons_self) (Ne.symm ha)
      have ht : t.countP (· = 0) = 0 := by
        rw [List.countP_eq_zero]
        intro x hx
        have := hs.1 x hx
        simp only [decide_eq_true_eq]
        exact (lt_of_lt_of_le hpos this).ne'
      rw [List.countP_cons_of_neg (by simpa using ha), ht]
      refine iff_of_false ?_ (by omega)
      cases k with
      | zero => simpa using ha
      | succ k =>
        rw [List.getD_cons_succ]
        have hk' : k < t.length := by simpa using hk
        rw [List.getD_eq_getElem _ _ hk']
        exact (lt_of_lt_of_le hpos (hs.1 _ (List.getElem_mem hk'))).ne'

theorem countP_zero_add (s : List ℚ) (h0 : ∀ x ∈ s, 0 ≤ x) :
    s.countP (· = 0) + s.countP (0 < ·) = s.length := by
  induction s with
  | nil => rfl
  | cons a t ih =>
    have := ih fun x hx => h0 x (List.mem_cons_of_mem _ hx)
    have ha := h0 a List.mem_cons_self
    rw [List.countP_cons, List.countP_cons, List.length_cons]
    rcases eq_or_lt_of_le ha with h | h
    · simp [← h]; omega
    · simp [h, h.ne']; omega

/-- C37: a mask image without negative values counts as having median 0 if and only if strictly fewer
than half of its pixels are positive. -/
theorem median_zero_iff (m : Img ℚ) (h0 : ∀ x ∈ m.flat, 0 ≤ x) :
    medianIsZero m = true ↔ 2 * m.flat.countP (0 < ·) < m.flat.length := by
  set s := m.flat.mergeSort (fun a b => decide (a ≤ b)) with hs
  have hperm : s.Perm m.flat := List.mergeSort_perm _ _
  have hsort : s.Pairwise (· ≤ ·) := by
    have := List.pairwise_mergeSort (le := fun a b : ℚ => decide (a ≤ b))
      (by intro a b c; simp only [decide_eq_true_eq]; exact le_trans)
      (by intro a b; simp only [Bool.or_eq_true, decide_eq_true_eq]; exact le_total a b) m.flat
    rw [← hs] at this
    exact this.imp (by intro a b h; simpa using h)
  have h0' : ∀ x ∈ s, 0 ≤ x := fun x hx => h0 x (hperm.mem_iff.1 hx)
  have hlen := hperm.length_eq
  have hc1 := countP_zero_add s h0'
  have hc2 : s.countP (0 < ·) = m.flat.countP (0 < ·) := hperm.countP_eq _
  have hmed : medianIsZero m = (if s.length = 0 then false
      else if s.length % 2 = 1 then decide (s.getD (s.length / 2) 0 = 0)
      else decide ((s.getD (s.length / 2 - 1) 0 + s.getD (s.length / 2) 0) / 2 = 0)) := rfl
  rw [hmed, ← hc2, ← hlen]
  by_cases hz : s.length = 0
  · rw [if_pos hz, hz]; simp
  · rw [if_neg hz]
    by_cases hodd : s.length % 2 = 1
    · rw [if_pos hodd, decide_eq_true_eq, sorted_getD_zero s hsort h0' _ (by omega)]
      omega
    · rw [if_neg hodd, decide_eq_true_eq]
      have hk1 : s.length / 2 - 1 < s.length := by omega
      have hk2 : s.length / 2 < s.length := by omega
      have p1 : 0 ≤ s.getD (s.length / 2 - 1) 0 := by
        rw [List.getD_eq_getElem _ _ hk1]; exact h0' _ (List.getElem_mem _)
      have p2 : 0 ≤ s.getD (s.length / 2) 0 := by
        rw [List.getD_eq_getElem _ _ hk2]; exact h0' _ (List.getElem_mem _)
      have e : (s.getD (s.length / 2 - 1) 0 + s.getD (s.length / 2) 0) / 2 = 0 ↔
          s.getD (s.length / 2) 0 = 0 := by
        have z := sorted_getD_zero s hsort h0' _ hk1
        have z2 := sorted_getD_zero s hsort h0' _ hk2
        constructor
        · intro h
          have : s.getD (s.length / 2 - 1) 0 + s.getD (s.length / 2) 0 = 0 := by linarith
          linarith
        · intro h
          have : s.getD (s.length / 2 - 1) 0 = 0 := z.2 (by have := z2.1 h; omega)
          rw [h, this]; norm_num
      rw [e, sorted_getD_zero s hsort h0' _ hk2]
      omega

/-- C37: a mask file of the image's shape without negative values: when fewer than half of its pixels
are positive the bad pixels are those with value at least the threshold, otherwise those with value at
most the threshold. All of them are masked; further pixels only by growth or extreme values. -/
theorem mask_file_majority (o : CtorOpts) (src : Source) (m : Img ℚ) (hs : src.WF)
    (h0 : ∀ x ∈ m.flat, 0 ≤ x) (d out : MA) (hd : setData o src = .ok d)
    (h : construct o src (.file m) = .ok out) (hh : m.h = d.data.h) (hw : m.w = d.data.w) :
    ∃ d', preMask o src (.file m) = .ok d' ∧ ∀ i < d.data.h, ∀ j < d.data.w,
      (d'.mask.marks i j = true ↔
        if 2 * m.flat.countP (0 < ·) < m.flat.length then o.thresh.getD 16 ≤ m.px i j
        else m.px i j ≤ o.thresh.getD 16) ∧
      (d'.mask.marks i j = true → out.mask.marks i j = true) := by
  have hwf := setData_wf o src hs d hd
  have hpre : preMask o src (.file m) = .ok (d.setMask (some (thresholdMask (threshOf o) m))) := by
    unfold preMask; rw [hd]; rfl
  refine ⟨_, hpre, fun i hi j hj => ⟨?_, ?_⟩⟩
  · have hshape : NMask.HasShape (some (thresholdMask (threshOf o) m)) d.data.h d.data.w := by
      intro a ha
      cases ha
      unfold thresholdMask
      split <;> exact ⟨hh, hw⟩
    rw [MA.setMask_marks d _ hwf hshape i j hi hj]
    change (thresholdMask (threshOf o) m).px i j = true ↔ _
    unfold thresholdMask threshOf
    by_cases hz : medianIsZero m = true
    · rw [if_pos hz, if_pos ((median_zero_iff m h0).1 hz)]
      exact decide_eq_true_iff
    · rw [if_neg hz, if_neg (fun hc => hz ((median_zero_iff m h0).2 hc))]
      exact decide_eq_true_iff
  · intro hm
    refine (construct_growth o src (.file m) hs _ out hpre h i j
      (by rw [MA.setMask_data]; exact hi) (by rw [MA.setMask_data]; exact hj)).1 ?_
    change (_ || _) = true
    rw [hm, Bool.true_or]

/-! ## C38 -/

/-- `mask.astype("int")` -/
def maskInts (m : Img Bool) : Img ℚ := m.map fun b => if b then 1 else 0

/-- `utils.store_img(masked_array, path)` (properimage/utils.py:53-62): a primary HDU with the pixels
and an image extension with the 0/1 mask; astropy sets EXTEND. -/
def storeMasked (data : Img FVal) (m : Img Bool) : FitsFile := ⟨data, none, some true, some (maskInts m)⟩

theorem maskInts_flat_nonneg (m : Img Bool) : ∀ x ∈ (maskInts m).flat, 0 ≤ x := by
  intro x hx
  unfold Img.flat at hx
  rw [List.mem_map] at hx
  obtain ⟨p, _, rfl⟩ := hx
  change (0 : ℚ) ≤ if m.px p.1 p.2 then 1 else 0
  split <;> norm_num

theorem maskInts_countP (m : Img Bool) : (maskInts m).flat.countP (0 < ·) = m.count := by
  unfold Img.count Img.flat
  rw [List.count, List.countP_map, List.countP_map]
  apply List.countP_congr
  intro p _
  change decide ((0 : ℚ) < if m.px p.1 p.2 then 1 else 0) = true ↔ (m.px p.1 p.2 == true) = true
  cases m.px p.1 p.2 <;> simp

theorem Img.flat_length {α : Type _} (a : Img α) : a.flat.length = a.h * a.w := by
  unfold Img.flat Img.indices
  simp [List.length_flatMap]

theorem maskInts_median (m : Img Bool) : medianIsZero (maskInts m) = true ↔ 2 * m.count < m.h * m.w := by
  rw [median_zero_iff _ (maskInts_flat_nonneg m), maskInts_countP, Img.flat_length]
  exact Iff.rfl

theorem reopen_pre (o : CtorOpts) (hg : o.guess = true) (hb : o.borders = false)
    (hc : o.crop = ((0, 0), (0, 0))) (data : Img FVal) (m : Img Bool) :
    ∃ d, setData o (.path (storeMasked data m)) = .ok d ∧ d.mask = none ∧ d.data.h = data.h ∧
      d.data.w = data.w ∧ preMask o (.path (storeMasked data m)) .absent =
        .ok (d.setMask (some (thresholdMask (threshOf o) (maskInts m)))) := by
  have hd : setData o (.path (storeMasked data m)) = .ok ((MA.mk data none).scale (o.gain.getD 1)) := by
    rw [setData_noborders o _ hb, hc]; rfl
  refine ⟨_, hd, rfl, rfl, rfl, ?_⟩
  unfold preMask
  rw [hd]
  simp only [bind, Except.bind]
  unfold chooseMask
  rw [hg]
  rfl

/-- C38, the refutation and its exact extent: a masked image written by `store_img` and reopened with
the default threshold: if fewer than half of the pixels were masked, nothing is masked by the file (all
that is masked comes from extreme pixels); otherwise every pixel is masked. -/
theorem stored_mask_default_threshold (o : CtorOpts) (hg : o.guess = true) (hb : o.borders = false)
    (hc : o.crop = ((0, 0), (0, 0))) (ht : o.thresh = none) (data : Img FVal) (m : Img Bool)
    (hh : m.h = data.h) (hw : m.w = data.w) (out : MA)
    (h : construct o (.path (storeMasked data m)) .absent = .ok out) :
    (2 * m.count < m.h * m.w →
      (∀ i < data.h, ∀ j < data.w, ¬ Extreme (out.data.px i j)) →
      ∀ i < data.h, ∀ j < data.w, out.mask.marks i j = false) ∧
    (¬ 2 * m.count < m.h * m.w → ∀ i < data.h, ∀ j < data.w, out.mask.marks i j = true) := by
  obtain ⟨d, hd, hnone, h1, h2, hpre⟩ := reopen_pre o hg hb hc data m
  have hwf : d.WF := by intro a ha; rw [hnone] at ha; cases ha
  have ht' : threshOf o = 16 := by unfold threshOf; rw [ht]; rfl
  rw [ht'] at hpre
  have hshape : NMask.HasShape (some (thresholdMask 16 (maskInts m))) d.data.h d.data.w := by
    intro a ha
    cases ha
    unfold thresholdMask
    split
    · exact ⟨hh.trans h1.symm, hw.trans h2.symm⟩
    · exact ⟨hh.trans h1.symm, hw.trans h2.symm⟩
  have hdata : out.data = d.data := by
    obtain ⟨a, ha, _⟩ := (construct_spec o (.path (storeMasked data m)) .absent trivial).2 _ hpre
    rw [ha] at h; cases h
    exact MA.setMask_data _ _
  have hpx : ∀ i j, (maskInts m).px i j = 0 ∨ (maskInts m).px i j = 1 := by
    intro i j
    change (if m.px i j then (1 : ℚ) else 0) = 0 ∨ (if m.px i j then (1 : ℚ) else 0) = 1
    cases m.px i j <;> simp
  constructor
  · intro hlt hno i hi j hj
    by_contra hne
    obtain ⟨i', hi', j', hj', hp, _⟩ := (construct_growth o (.path (storeMasked data m)) .absent trivial _ out hpre h i j
      (by rw [MA.setMask_data]; omega) (by rw [MA.setMask_data]; omega)).2 (by simpa using hne)
    rw [MA.setMask_data] at hi' hj'
    change ((d.setMask _).mask.marks i' j' || (((d.setMask _).data.px i' j').lt (-50) ||
      ((d.setMask _).data.px i' j').gt 65000)) = true at hp
    rw [MA.setMask_marks d _ hwf hshape i' j' hi' hj', MA.setMask_data] at hp
    have hx := hno i' (by omega) j' (by omega)
    rw [extreme_iff, hdata] at hx
    rw [Bool.or_eq_true] at hp
    rcases hp with hp | hp
    · change (thresholdMask 16 (maskInts m)).px i' j' = true at hp
      unfold thresholdMask at hp
      rw [if_pos ((maskInts_median m).2 hlt)] at hp
      have := of_decide_eq_true hp
      rcases hpx i' j' with e | e <;> rw [e] at this <;> norm_num at this
    · exact hx hp
  · intro hge i hi j hj
    refine (construct_growth o (.path (storeMasked data m)) .absent trivial _ out hpre h i j
      (by rw [MA.setMask_data]; omega) (by rw [MA.setMask_data]; omega)).1 ?_
    change ((d.setMask _).mask.marks i j || _) = true
    rw [MA.setMask_marks d _ hwf hshape i j (by omega) (by omega)]
    have : (thresholdMask 16 (maskInts m)).px i j = true := by
      unfold thresholdMask
      rw [if_neg (fun hc => hge ((maskInts_median m).1 hc))]
      apply decide_eq_true
      rcases hpx i j with e | e <;> rw [e] <;> norm_num
    change ((thresholdMask 16 (maskInts m)).px i j || _) = true
    rw [this, Bool.true_or]

/-- C38, how to get the mask back: with a threshold in (0, 1] and fewer than half of the pixels
masked, every stored masked pixel is masked again, and before growth these are the only ones besides
extreme pixels. -/
theorem stored_mask_threshold_one (o : CtorOpts) (hg : o.guess = true) (hb : o.borders = false)
    (hc : o.crop = ((0, 0), (0, 0))) (t : ℚ) (ht : o.thresh = some t) (t0 : 0 < t) (t1 : t ≤ 1)
    (data : Img FVal) (m : Img Bool) (hh : m.h = data.h) (hw : m.w = data.w)
    (hlt : 2 * m.count < m.h * m.w) :
    ∃ d, preMask o (.path (storeMasked data m)) .absent = .ok d ∧
      ∀ i < data.h, ∀ j < data.w, d.mask.marks i j = m.px i j := by
  obtain ⟨d, hd, hnone, h1, h2, hpre⟩ := reopen_pre o hg hb hc data m
  have hwf : d.WF := by intro a ha; rw [hnone] at ha; cases ha
  have ht' : threshOf o = t := by unfold threshOf; rw [ht]; rfl
  rw [ht'] at hpre
  have hshape : NMask.HasShape (some (thresholdMask t (maskInts m))) d.data.h d.data.w := by
    intro a ha
    cases ha
    unfold thresholdMask
    split
    · exact ⟨hh.trans h1.symm, hw.trans h2.symm⟩
    · exact ⟨hh.trans h1.symm, hw.trans h2.symm⟩
  refine ⟨_, hpre, fun i hi j hj => ?_⟩
  rw [MA.setMask_marks d _ hwf hshape i j (by omega) (by omega)]
  change (thresholdMask t (maskInts m)).px i j = m.px i j
  unfold thresholdMask
  rw [if_pos ((maskInts_median m).2 hlt)]
  change decide (t ≤ if m.px i j then (1 : ℚ) else 0) = m.px i j
  cases m.px i j
  · exact decide_eq_false (by simpa using t0)
  · exact decide_eq_true (by simpa using t1)

/-- Non-vacuity: a 3x3 mask with one bad pixel has fewer than half masked; with five it has not. -/
example : 2 * (single 3 3 1 1).count < 3 * 3 ∧
    ¬ 2 * (⟨3, 3, fun i j => decide (i + j < 3 ∧ i < 2)⟩ : Img Bool).count < 3 * 3 := by
  decide +kernel

end PI
