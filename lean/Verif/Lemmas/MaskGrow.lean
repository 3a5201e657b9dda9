import Verif.Model.MaskGrow
import Mathlib.Tactic.Ring
import Mathlib.Algebra.Order.BigOperators.Group.List
import Mathlib.Tactic.Linarith

/-! Lemmas on masked arrays and mask growth. -/

namespace PI

theorem flat_index_div (w i j : ℕ) (hj : j < w) : (i * w + j) / w = i := by
  rw [add_comm, Nat.add_mul_div_right _ _ (by omega), Nat.div_eq_of_lt hj, zero_add]

theorem flat_index_mod (w i j : ℕ) (hj : j < w) : (i * w + j) % w = j := by
  rw [add_comm, Nat.add_mul_mod_self_right, Nat.mod_eq_of_lt hj]

theorem flat_index_lt (h w i j : ℕ) (hi : i < h) (hj : j < w) : i * w + j < h * w := by
  calc i * w + j < i * w + w := by omega
    _ = (i + 1) * w := by ring
    _ ≤ h * w := Nat.mul_le_mul_right _ (by omega)

namespace MA

theorem flatAssign_shape (cur src : Img Bool) :
    (flatAssign cur src).h = cur.h ∧ (flatAssign cur src).w = cur.w := by
  unfold flatAssign
  split <;> exact ⟨rfl, rfl⟩

/-- Assigning an array of the same shape assigns it pixel by pixel. -/
theorem flatAssign_same (cur src : Img Bool) (hh : src.h = cur.h) (hw : src.w = cur.w) (i j : ℕ)
    (hi : i < cur.h) (hj : j < cur.w) : (flatAssign cur src).px i j = src.px i j := by
  unfold flatAssign
  have hlt := flat_index_lt src.h src.w i j (by omega) (by omega)
  rw [if_neg (by omega)]
  change src.px (((i * cur.w + j) % (src.h * src.w)) / src.w)
    (((i * cur.w + j) % (src.h * src.w)) % src.w) = _
  rw [← hw, Nat.mod_eq_of_lt hlt, flat_index_div _ _ _ (by omega), flat_index_mod _ _ _ (by omega)]

theorem maskArray_shape (d : MA) (hd : d.WF) :
    d.maskArray.h = d.data.h ∧ d.maskArray.w = d.data.w := by
  unfold maskArray
  cases hm : d.mask with
  | none => exact ⟨rfl, rfl⟩
  | some a => exact hd a hm

theorem maskArray_px (d : MA) (i j : ℕ) : d.maskArray.px i j = d.mask.marks i j := by
  unfold maskArray
  cases hm : d.mask <;> rfl

theorem setMask_data (d : MA) (m : NMask) : (d.setMask m).data = d.data := by
  unfold setMask
  split <;> rfl

theorem setMask_wf (d : MA) (m : NMask) (hd : d.WF) : (d.setMask m).WF := by
  have hs := maskArray_shape d hd
  unfold WF
  rw [setMask_data]
  intro a ha
  unfold setMask at ha
  split at ha
  · exact hd a ha
  · obtain rfl := (Option.some.inj ha).symm; exact ⟨rfl, rfl⟩
  · obtain rfl := (Option.some.inj ha).symm
    rw [(flatAssign_shape _ _).1, (flatAssign_shape _ _).2]
    exact hs

/-- Assigning a mask of the right shape. -/
theorem setMask_marks (d : MA) (m : NMask) (hd : d.WF) (hm : m.HasShape d.data.h d.data.w) (i j : ℕ)
    (hi : i < d.data.h) (hj : j < d.data.w) : (d.setMask m).mask.marks i j = m.marks i j := by
  have hs := maskArray_shape d hd
  cases hm' : m with
  | none =>
    cases hd' : d.mask with
    | none => simp [setMask, hd', NMask.marks]
    | some a => simp [setMask, hd', NMask.marks, Img.const]
  | some b =>
    have hb := hm b hm'
    have e : d.setMask (some b) = { d with mask := some (flatAssign d.maskArray b) } := by
      unfold setMask; cases d.mask <;> rfl
    rw [e]
    change (flatAssign d.maskArray b).px i j = b.px i j
    exact flatAssign_same _ _ (by omega) (by omega) _ _ (by omega) (by omega)

theorem setMask_none_iff (d : MA) (m : NMask) : (d.setMask m).mask = none ↔ d.mask = none ∧ m = none := by
  cases hm' : m <;> cases hd' : d.mask <;> simp [setMask, hd']

theorem shrink_marks (a : Img Bool) (i j : ℕ) (hi : i < a.h) (hj : j < a.w) :
    (NMask.shrink a).marks i j = a.px i j := by
  unfold NMask.shrink
  split
  · rfl
  · next h =>
    by_contra hne
    refine h ((Img.any_iff a).2 ⟨i, hi, j, hj, ?_⟩)
    change ¬ false = a.px i j at hne
    simpa using Ne.symm hne

theorem shrink_hasShape (a : Img Bool) : (NMask.shrink a).HasShape a.h a.w := by
  unfold NMask.shrink
  split
  · intro b hb; cases hb; exact ⟨rfl, rfl⟩
  · intro b hb; cases hb

theorem maskedWhere_data (c : FVal → Bool) (d : MA) : (d.maskedWhere c).data = d.data :=
  setMask_data _ _

theorem maskedWhere_wf (c : FVal → Bool) (d : MA) (hd : d.WF) : (d.maskedWhere c).WF :=
  setMask_wf _ _ hd

theorem maskedWhere_marks (c : FVal → Bool) (d : MA) (hd : d.WF) (i j : ℕ)
    (hi : i < d.data.h) (hj : j < d.data.w) :
    (d.maskedWhere c).mask.marks i j = (c (d.data.px i j) || d.mask.marks i j) := by
  unfold maskedWhere
  rw [setMask_marks d _ hd (shrink_hasShape _) i j hi hj, shrink_marks _ _ _ hi hj]

theorem maskedInvalid_data (d : MA) : d.maskedInvalid.data = d.data := maskedWhere_data _ _

theorem maskedInvalid_wf (d : MA) (hd : d.WF) : d.maskedInvalid.WF := by
  intro a ha
  obtain rfl := (Option.some.inj ha).symm
  exact maskArray_shape _ (maskedWhere_wf _ _ hd)

theorem maskedInvalid_marks (d : MA) (hd : d.WF) (i j : ℕ)
    (hi : i < d.data.h) (hj : j < d.data.w) :
    d.maskedInvalid.mask.marks i j = (!(d.data.px i j).isFinite || d.mask.marks i j) := by
  change (maskArray _).px i j = _
  rw [maskArray_px, maskedWhere_marks _ _ hd i j hi hj]

end MA

/-! ## Growth -/

/-- One growth step on a plain Boolean image (specification). -/
def growPure (m : Img Bool) : Img Bool :=
  ⟨m.h, m.w, fun i j => m.px i j || decide (2 < winCount m i j)⟩

/-- `n` steps. -/
def growPureN : ℕ → Img Bool → Img Bool
  | 0, m => m
  | n + 1, m => growPureN n (growPure m)

theorem growPureN_shape (n : ℕ) (m : Img Bool) : (growPureN n m).h = m.h ∧ (growPureN n m).w = m.w := by
  induction n generalizing m with
  | zero => exact ⟨rfl, rfl⟩
  | succ n ih => exact ih (growPure m)

theorem reflIdx_lt (n i o : ℕ) (hn : 0 < n) : reflIdx n i o < n := by unfold reflIdx; omega

theorem winCount_congr (m m' : Img Bool) (h : m.Same m') (i j : ℕ) (hh : 0 < m.h) (hw : 0 < m.w) :
    winCount m i j = winCount m' i j := by
  obtain ⟨h1, h2, h3⟩ := h
  unfold winCount
  congr 1
  refine List.map_congr_left fun o _ => ?_
  rw [h3 _ (reflIdx_lt _ _ _ hh) _ (reflIdx_lt _ _ _ hw), h1, h2]

theorem winCount_mono (m m' : Img Bool) (h1 : m.h = m'.h) (h2 : m.w = m'.w)
    (h3 : ∀ i < m.h, ∀ j < m.w, m.px i j = true → m'.px i j = true) (i j : ℕ) (hh : 0 < m.h)
    (hw : 0 < m.w) : winCount m i j ≤ winCount m' i j := by
  unfold winCount
  refine List.sum_le_sum fun o _ => ?_
  have := h3 _ (reflIdx_lt _ i o.1 hh) _ (reflIdx_lt _ j o.2 hw)
  rw [← h1, ← h2]
  by_cases hc : m.px (reflIdx m.h i o.1) (reflIdx m.w j o.2) = true
  · rw [if_pos hc, if_pos (this hc)]
  · rw [if_neg hc]; exact Nat.zero_le _

theorem growPure_mono (m m' : Img Bool) (h1 : m.h = m'.h) (h2 : m.w = m'.w)
    (h3 : ∀ i < m.h, ∀ j < m.w, m.px i j = true → m'.px i j = true) (i j : ℕ) (hi : i < m.h)
    (hj : j < m.w) (h : (growPure m).px i j = true) : (growPure m').px i j = true := by
  change (m.px i j || decide (2 < winCount m i j)) = true at h
  change (m'.px i j || decide (2 < winCount m' i j)) = true
  rw [Bool.or_eq_true, decide_eq_true_eq] at h ⊢
  rcases h with h | h
  · exact Or.inl (h3 i hi j hj h)
  · exact Or.inr (lt_of_lt_of_le h (winCount_mono m m' h1 h2 h3 i j (by omega) (by omega)))

theorem growPureN_mono (n : ℕ) (m m' : Img Bool) (h1 : m.h = m'.h) (h2 : m.w = m'.w)
    (h3 : ∀ i < m.h, ∀ j < m.w, m.px i j = true → m'.px i j = true) (i j : ℕ) (hi : i < m.h)
    (hj : j < m.w) (h : (growPureN n m).px i j = true) : (growPureN n m').px i j = true := by
  induction n generalizing m m' with
  | zero => exact h3 i hi j hj h
  | succ n ih =>
    exact ih (growPure m) (growPure m') h1 h2
      (fun i hi j hj => growPure_mono m m' h1 h2 h3 i j hi hj) hi hj h

theorem growPureN_same (n : ℕ) (m m' : Img Bool) (h : m.Same m') : (growPureN n m).Same (growPureN n m') := by
  obtain ⟨h1, h2, h3⟩ := h
  refine ⟨by rw [(growPureN_shape n m).1, (growPureN_shape n m').1, h1],
    by rw [(growPureN_shape n m).2, (growPureN_shape n m').2, h2], ?_⟩
  intro i hi j hj
  rw [(growPureN_shape n m).1] at hi
  rw [(growPureN_shape n m).2] at hj
  rw [Bool.eq_iff_iff]
  constructor
  · exact growPureN_mono n m m' h1 h2 (fun i hi j hj h => by rw [← h3 i hi j hj]; exact h) i j hi hj
  · exact growPureN_mono n m' m h1.symm h2.symm
      (fun i hi j hj h => by rw [h3 i (h1 ▸ hi) j (h2 ▸ hj)]; exact h) i j (h1 ▸ hi) (h2 ▸ hj)

theorem growPureN_extensive (n : ℕ) (m : Img Bool) (i j : ℕ) (h : m.px i j = true) :
    (growPureN n m).px i j = true := by
  induction n generalizing m with
  | zero => exact h
  | succ n ih =>
    refine ih (growPure m) ?_
    change (m.px i j || _) = true
    rw [h, Bool.true_or]

theorem winCount_zero (m : Img Bool) (h : ∀ i < m.h, ∀ j < m.w, m.px i j = false) (i j : ℕ)
    (hh : 0 < m.h) (hw : 0 < m.w) : winCount m i j = 0 := by
  have : winCount m i j ≤ winCount ⟨m.h, m.w, fun _ _ => false⟩ i j :=
    winCount_mono m ⟨m.h, m.w, fun _ _ => false⟩ rfl rfl (fun i hi j hj h' => by rw [h i hi j hj] at h'; exact h') i j hh hw
  have h0 : winCount ⟨m.h, m.w, fun _ _ => false⟩ i j = 0 := rfl
  omega

/-- A positive count comes from a masked cell at distance at most one. -/
theorem winCount_pos (m : Img Bool) (i j : ℕ) (hi : i < m.h) (hj : j < m.w) (h : 0 < winCount m i j) :
    ∃ i' < m.h, ∃ j' < m.w, m.px i' j' = true ∧ i' ≤ i + 1 ∧ i ≤ i' + 1 ∧ j' ≤ j + 1 ∧ j ≤ j' + 1 := by
  by_contra hno
  push Not at hno
  have : winCount m i j = 0 := by
    unfold winCount
    apply List.sum_eq_zero
    intro x hx
    rw [List.mem_map] at hx
    obtain ⟨o, ho, rfl⟩ := hx
    have ho' : o.1 ≤ 2 ∧ o.2 ≤ 2 :=
      (by decide : ∀ o ∈ offsets9, o.1 ≤ 2 ∧ o.2 ≤ 2) o ho
    rw [if_neg]
    intro hp
    have := hno _ (reflIdx_lt _ i o.1 (by omega)) _ (reflIdx_lt _ j o.2 (by omega)) hp
      (by unfold reflIdx; omega) (by unfold reflIdx; omega) (by unfold reflIdx; omega)
    unfold reflIdx at this
    omega
  omega

theorem growPureN_near (n : ℕ) (m : Img Bool) (i j : ℕ) (hi : i < m.h) (hj : j < m.w)
    (h : (growPureN n m).px i j = true) :
    ∃ i' < m.h, ∃ j' < m.w, m.px i' j' = true ∧ i' ≤ i + n ∧ i ≤ i' + n ∧ j' ≤ j + n ∧ j ≤ j' + n := by
  induction n generalizing m with
  | zero => exact ⟨i, hi, j, hj, h, le_refl _, le_refl _, le_refl _, le_refl _⟩
  | succ n ih =>
    obtain ⟨i1, hi1, j1, hj1, hp, a1, a2, a3, a4⟩ := ih (growPure m) hi hj h
    change (m.px i1 j1 || decide (2 < winCount m i1 j1)) = true at hp
    rw [Bool.or_eq_true, decide_eq_true_eq] at hp
    rcases hp with hp | hp
    · exact ⟨i1, hi1, j1, hj1, hp, by omega, by omega, by omega, by omega⟩
    · obtain ⟨i2, hi2, j2, hj2, hq, b1, b2, b3, b4⟩ := winCount_pos m i1 j1 hi1 hj1 (by omega)
      exact ⟨i2, hi2, j2, hj2, hq, by omega, by omega, by omega, by omega⟩

/-- The model's growth on an array mask is the plain growth. -/
theorem growOnce_spec (d : MA) (hd : d.WF) (hs : d.mask.isSome = true) :
    ∃ d', growOnce d = .ok d' ∧ d'.data = d.data ∧ d'.WF ∧ d'.mask.isSome = true ∧
      (growPure d.maskArray).Same d'.maskArray := by
  have hsh := MA.maskArray_shape d hd
  have hE : NMask.HasShape (some (enlarged d.maskArray)) d.data.h d.data.w := by
    intro a ha; cases ha; exact hsh
  obtain ⟨m, e1, e2, e3, _⟩ := NMask.maskOr_spec d.mask (some (enlarged d.maskArray)) _ _ hd hE
  have hwf := MA.setMask_wf d m hd
  refine ⟨d.setMask m, ?_, MA.setMask_data _ _, hwf, ?_, ?_⟩
  · unfold growOnce
    rw [e1]
    rfl
  · rw [Option.isSome_iff_ne_none] at hs ⊢
    intro h
    exact hs ((MA.setMask_none_iff _ _).1 h).1
  · have hsh' := MA.maskArray_shape _ hwf
    rw [MA.setMask_data] at hsh'
    refine ⟨by rw [hsh'.1]; exact hsh.1, by rw [hsh'.2]; exact hsh.2, ?_⟩
    intro i hi j hj
    have hi' : i < d.data.h := by rw [← hsh.1]; exact hi
    have hj' : j < d.data.w := by rw [← hsh.2]; exact hj
    rw [MA.maskArray_px, MA.setMask_marks d m hd e2 i j hi' hj', e3 i hi' j hj', ← MA.maskArray_px]
    rfl

theorem growN_spec (n : ℕ) (d : MA) (hd : d.WF) (hs : d.mask.isSome = true) :
    ∃ d', growN n d = .ok d' ∧ d'.data = d.data ∧ d'.WF ∧ d'.mask.isSome = true ∧
      (growPureN n d.maskArray).Same d'.maskArray := by
  induction n generalizing d with
  | zero => exact ⟨d, rfl, rfl, hd, hs, rfl, rfl, fun _ _ _ _ => rfl⟩
  | succ n ih =>
    obtain ⟨d1, e1, e2, e3, e4, e5⟩ := growOnce_spec d hd hs
    obtain ⟨d2, f1, f2, f3, f4, f5⟩ := ih d1 e3 e4
    refine ⟨d2, ?_, f2.trans e2, f3, f4, ?_⟩
    · change (growOnce d >>= growN n) = _
      rw [e1]
      exact f1
    · have g := growPureN_same n _ _ e5
      obtain ⟨g1, g2, g3⟩ := g
      obtain ⟨k1, k2, k3⟩ := f5
      exact ⟨g1.trans k1, g2.trans k2, fun i hi j hj => (g3 i hi j hj).trans
        (k3 i (g1 ▸ hi) j (g2 ▸ hj))⟩

/-- The mask before growth: the chosen mask and the extreme pixels (specification). -/
def baseMask (d : MA) : Img Bool :=
  ⟨d.data.h, d.data.w, fun i j =>
    d.mask.marks i j || ((d.data.px i j).lt (-50) || (d.data.px i j).gt 65000)⟩

theorem finishMask_spec (d : MA) (hd : d.WF) :
    ∃ a : Img Bool, finishMask d = .ok ⟨d.data, some a⟩ ∧ a.h = d.data.h ∧ a.w = d.data.w ∧
      (growPureN 7 (baseMask d)).Same a := by
  have hl := MA.maskedWhere_wf (FVal.lt (-50)) d hd
  have hg := MA.maskedWhere_wf (FVal.gt 65000) d hd
  unfold MA.WF at hl hg
  rw [MA.maskedWhere_data] at hl hg
  obtain ⟨m1, e1, e2, e3, _⟩ := NMask.maskOr_spec d.mask _ _ _ hd hl
  have hd1 := MA.setMask_wf d m1 hd
  have hdd1 := MA.setMask_data d m1
  have hd1' := hd1
  unfold MA.WF at hd1'
  rw [hdd1] at hd1'
  obtain ⟨m2, f1, f2, f3, _⟩ := NMask.maskOr_spec (d.setMask m1).mask _ _ _ hd1' hg
  have hd2 := MA.setMask_wf _ m2 hd1
  have hdd2 : ((d.setMask m1).setMask m2).data = d.data := by rw [MA.setMask_data, hdd1]
  have hfin : finishMask d = growOrEmpty ((d.setMask m1).setMask m2) := by
    unfold finishMask
    simp only [e1, f1, bind, Except.bind]
  have hbase : (baseMask d).Same ((d.setMask m1).setMask m2).maskArray := by
    have hsh := MA.maskArray_shape _ hd2
    rw [hdd2] at hsh
    refine ⟨hsh.1.symm, hsh.2.symm, ?_⟩
    intro i hi j hj
    have hi' : i < d.data.h := hi
    have hj' : j < d.data.w := hj
    rw [MA.maskArray_px, MA.setMask_marks _ m2 hd1 (by rw [hdd1]; exact f2) i j (by rw [hdd1]; exact hi)
      (by rw [hdd1]; exact hj), f3 i hi j hj, MA.setMask_marks d m1 hd e2 i j hi hj, e3 i hi j hj,
      MA.maskedWhere_marks _ d hd i j hi hj, MA.maskedWhere_marks _ d hd i j hi hj]
    change (d.mask.marks i j || ((d.data.px i j).lt (-50) || (d.data.px i j).gt 65000)) = _
    cases d.mask.marks i j <;> cases (d.data.px i j).lt (-50) <;> cases (d.data.px i j).gt 65000 <;> rfl
  generalize (d.setMask m1).setMask m2 = d2 at *
  cases hm : d2.mask with
  | some b =>
    obtain ⟨d3, g1, g2, g3, g4, g5⟩ := growN_spec 7 d2 hd2 (by rw [hm]; rfl)
    obtain ⟨c, hc⟩ := Option.isSome_iff_exists.1 g4
    have hshape := g3 c hc
    rw [g2, hdd2] at hshape
    refine ⟨c, ?_, hshape.1, hshape.2, ?_⟩
    · rw [hfin, growOrEmpty, hm]
      change growN 7 d2 = _
      rw [g1]
      obtain ⟨dd, dm⟩ := d3
      simp only at g2 hc
      rw [g2, hc, hdd2]
    · have hmc : d3.maskArray = c := by unfold MA.maskArray; rw [hc]; rfl
      rw [hmc] at g5
      obtain ⟨k1, k2, k3⟩ := growPureN_same 7 _ _ hbase
      obtain ⟨l1, l2, l3⟩ := g5
      exact ⟨k1.trans l1, k2.trans l2, fun i hi j hj => (k3 i hi j hj).trans
        (l3 i (k1 ▸ hi) j (k2 ▸ hj))⟩
  | none =>
    refine ⟨Img.const d.data.h d.data.w false, ?_, rfl, rfl, ?_⟩
    · rw [hfin, growOrEmpty, hm]
      change Except.ok (ε := PyErr) (MA.mk d2.data _) = _
      rw [hdd2]
    · refine ⟨(growPureN_shape 7 _).1, (growPureN_shape 7 _).2, ?_⟩
      intro i hi j hj
      rw [(growPureN_shape 7 _).1] at hi
      rw [(growPureN_shape 7 _).2] at hj
      change _ = false
      by_contra hne
      obtain ⟨i', hi', j', hj', hp, _⟩ := growPureN_near 7 (baseMask d) i j hi hj (by simpa using hne)
      rw [hbase.2.2 i' hi' j' hj', MA.maskArray_px, hm] at hp
      exact absurd hp (by simp [NMask.marks])

end PI
