import Verif.Model.Stamps
import Verif.Lemmas.Stats
import Mathlib.Data.List.Nodup

/-! # Properties C41–C45: source detection and the default stamp -/

namespace PI
open PyS

/-- `np.random.choice(n, k, replace=False)` gives `k` different numbers below `n`. -/
def Env.ChoiceOK (e : Env) : Prop :=
  ∀ n k, k ≤ n → (e.choice n k).length = k ∧ (e.choice n k).Nodup ∧ ∀ i ∈ e.choice n k, i < n

/-- `sub` consists of entries of `l` at pairwise different places. -/
def PickedFrom (sub l : List SepRow) : Prop :=
  ∃ idx : List ℕ, idx.Nodup ∧ (∀ i ∈ idx, i < l.length) ∧ sub = idx.map fun i => l.getD i default

theorem pickedFrom_refl (l : List SepRow) : PickedFrom l l := by
  refine ⟨List.range l.length, List.nodup_range, fun i hi => List.mem_range.1 hi, ?_⟩
  apply List.ext_getElem
  · simp
  · intro i h1 h2
    simp only [List.getElem_map, List.getElem_range]
    rw [List.getD_eq_getElem _ _ h1]

theorem pickedFrom_filter (l : List SepRow) (p : SepRow → Bool) : PickedFrom (l.filter p) l := by
  obtain ⟨idx, h1, h2, h3⟩ := pickedFrom_refl l
  refine ⟨idx.filter fun i => p (l.getD i default), h1.filter _, fun i hi => h2 i (List.mem_of_mem_filter hi), ?_⟩
  conv_lhs => rw [h3]
  rw [List.filter_map]
  rfl

theorem pickedFrom_trans {a b l : List SepRow} (h1 : PickedFrom a b) (h2 : PickedFrom b l) :
    PickedFrom a l := by
  obtain ⟨i1, n1, b1, e1⟩ := h1
  obtain ⟨i2, n2, b2, e2⟩ := h2
  have hlen : b.length = i2.length := by rw [e2, List.length_map]
  refine ⟨i1.map fun k => i2.getD k 0, ?_, ?_, ?_⟩
  · rw [List.nodup_map_iff_inj_on n1]
    intro x hx y hy hxy
    have hx' := b1 x hx
    have hy' := b1 y hy
    rw [List.getD_eq_getElem _ _ (by omega), List.getD_eq_getElem _ _ (by omega)] at hxy
    exact (n2.getElem_inj_iff).1 hxy
  · intro i hi
    obtain ⟨k, hk, rfl⟩ := List.mem_map.1 hi
    have := b1 k hk
    rw [List.getD_eq_getElem _ _ (by omega)]
    exact b2 _ (List.getElem_mem _)
  · rw [e1, List.map_map]
    apply List.map_congr_left
    intro k hk
    have := b1 k hk
    simp only [Function.comp]
    rw [List.getD_eq_getElem _ _ (show k < i2.length by omega), List.getD_eq_getElem _ _ (show k < b.length by omega)]
    simp only [e2, List.getElem_map]

/-! ## The ladder (C42) -/

/-- The four extractions the ladder can end with. -/
def LadderResult (e : Env) (srcs : List SepRow) : Prop :=
  ∃ mult area, ((mult, area) = ((8 : ℚ), 9) ∨ (mult, area) = ((35 : ℚ), 9) ∨
    (mult, area) = ((3 : ℚ), 5) ∨ (mult, area) = ((3 : ℚ), 9)) ∧
    ∃ pixstack, e.extract (mult * e.rms) area pixstack = .ok srcs

/-- First rung: result and state. -/
def rungOne (e : Env) (s : SIState) : Py (List SepRow) × SIState :=
  match e.extract (8 * e.rms) 9 s.pixstack with
  | .ok l => (.ok l, s)
  | .error _ => (e.extract (35 * e.rms) 9 3600000, { s with pixstack := 3600000 })

/-- Second rung. -/
def rungTwo (e : Env) (s : SIState) : Py (List SepRow) × SIState :=
  match e.extract (3 * e.rms) 5 s.pixstack with
  | .ok l => (.ok l, s)
  | .error _ => (e.extract (3 * e.rms) 9 900000, { s with pixstack := 900000 })

theorem detect_eq (e : Env) (s : SIState) :
    detect e s = match rungOne e s with
      | (.error er, t) => (.error er, t)
      | (.ok l, t) => if l.length < s.minSrc then
          match rungTwo e t with
          | (.error er, u) => (.error er, u)
          | (.ok l', u) => (.ok (if l'.length < l.length then l else l'), u)
        else (.ok l, t) := by
  have h1 : (orElse (sepExtract e 8 9) (modify (fun s => { s with pixstack := 3600000 }) >>= fun _ =>
      sepExtract e 35 9)) s = rungOne e s := by
    unfold orElse sepExtract rungOne
    cases hx : e.extract (8 * e.rms) 9 s.pixstack <;> rfl
  have h2 : ∀ t : SIState, (orElse (sepExtract e 3 5)
      (modify (fun s => { s with pixstack := 900000 }) >>= fun _ => sepExtract e 3 9)) t = rungTwo e t := by
    intro t
    unfold orElse sepExtract rungTwo
    cases hx : e.extract (3 * e.rms) 5 t.pixstack <;> rfl
  have hm : ∀ r t, rungOne e s = (r, t) → t.minSrc = s.minSrc := by
    intro r t h
    unfold rungOne at h
    split at h <;> (cases h; rfl)
  unfold detect
  rw [bind_app, h1]
  rcases hr : rungOne e s with ⟨r | l, t⟩
  · rfl
  · simp only [get_bind]
    rw [hm _ _ hr]
    split
    · rw [bind_app, h2]
      rcases rungTwo e t with ⟨r | l', u⟩
      · rfl
      · simp only
        split <;> rfl
    · rfl

theorem rungOne_result (e : Env) (s t : SIState) (l : List SepRow) (h : rungOne e s = (.ok l, t)) :
    LadderResult e l := by
  unfold rungOne at h
  split at h
  · rename_i l' hl'
    cases h
    exact ⟨8, 9, Or.inl rfl, _, hl'⟩
  · rename_i er _
    injection h with h1 h2
    exact ⟨35, 9, Or.inr (Or.inl rfl), _, h1⟩

theorem rungTwo_result (e : Env) (s t : SIState) (l : List SepRow) (h : rungTwo e s = (.ok l, t)) :
    LadderResult e l := by
  unfold rungTwo at h
  split at h
  · rename_i l' hl'
    cases h
    exact ⟨3, 5, Or.inr (Or.inr (Or.inl rfl)), _, hl'⟩
  · rename_i er _
    injection h with h1 h2
    exact ⟨3, 9, Or.inr (Or.inr (Or.inr rfl)), _, h1⟩

theorem detect_result (e : Env) (s t : SIState) (l : List SepRow) (h : detect e s = (.ok l, t)) :
    LadderResult e l := by
  rw [detect_eq] at h
  rcases h1 : rungOne e s with ⟨r | l1, t1⟩
  · rw [h1] at h; cases h
  · rw [h1] at h
    simp only at h
    split at h
    · rcases h2 : rungTwo e t1 with ⟨r | l2, t2⟩
      · rw [h2] at h; cases h
      · rw [h2] at h
        simp only at h
        injection h with h3 h4
        injection h3 with h3
        rw [← h3]
        split
        · exact rungOne_result e s t1 l1 h1
        · exact rungTwo_result e t1 t2 l2 h2
    · cases h
      exact rungOne_result e s _ _ h1

/-- C42: the first extraction found `l`. Enough sources (20 unless another
minimum was given): it is kept and nothing else is tried. -/
theorem ladder_keeps_enough (e : Env) (s : SIState) (l : List SepRow)
    (h : e.extract (8 * e.rms) 9 s.pixstack = .ok l) (hn : s.minSources.getD 20 ≤ l.length) :
    detect e s = (.ok l, s) := by
  rw [detect_eq]
  have : rungOne e s = (.ok l, s) := by unfold rungOne; rw [h]
  rw [this]
  simp only
  rw [if_neg (show ¬ l.length < s.minSrc from Nat.not_lt.2 hn)]

/-- C42: the first extraction found too few: the low threshold is tried, and the longer of the two
lists is used (the retry's on a tie). -/
theorem ladder_retry (e : Env) (s : SIState) (l l' : List SepRow)
    (h : e.extract (8 * e.rms) 9 s.pixstack = .ok l) (hn : l.length < s.minSources.getD 20)
    (h' : e.extract (3 * e.rms) 5 s.pixstack = .ok l') :
    detect e s = (.ok (if l'.length < l.length then l else l'), s) := by
  rw [detect_eq]
  have h1 : rungOne e s = (.ok l, s) := by unfold rungOne; rw [h]
  have h2 : rungTwo e s = (.ok l', s) := by unfold rungTwo; rw [h']
  rw [h1]
  simp only
  rw [if_pos (show l.length < s.minSrc from hn), h2]

/-- C42: whenever detection succeeds after a first extraction of `k` sources, it has at least `k`. -/
theorem ladder_not_fewer (e : Env) (s t : SIState) (l r : List SepRow)
    (h : e.extract (8 * e.rms) 9 s.pixstack = .ok l) (hd : detect e s = (.ok r, t)) :
    l.length ≤ r.length := by
  rw [detect_eq] at hd
  have h1 : rungOne e s = (.ok l, s) := by unfold rungOne; rw [h]
  rw [h1] at hd
  simp only at hd
  split at hd
  · rcases h2 : rungTwo e s with ⟨er | l2, t2⟩
    · rw [h2] at hd; cases hd
    · rw [h2] at hd
      simp only at hd
      injection hd with h3 _
      injection h3 with h3
      rw [← h3]
      split <;> omega
  · cases hd; exact le_refl _

/-- C42, its limit: if both low-threshold extractions raise, so does detection, although the first
extraction had found sources. -/
theorem ladder_retry_raises (e : Env) (s : SIState) (l : List SepRow) (er er' : PyErr)
    (h : e.extract (8 * e.rms) 9 s.pixstack = .ok l) (hn : l.length < s.minSources.getD 20)
    (h1 : e.extract (3 * e.rms) 5 s.pixstack = .error er)
    (h2 : e.extract (3 * e.rms) 9 900000 = .error er') :
    detect e s = (.error er', { s with pixstack := 900000 }) := by
  rw [detect_eq]
  have h3 : rungOne e s = (.ok l, s) := by unfold rungOne; rw [h]
  have h4 : rungTwo e s = (.error er', { s with pixstack := 900000 }) := by
    unfold rungTwo; rw [h1]; simp only; rw [h2]
  rw [h3]
  simp only
  rw [if_pos (show l.length < s.minSrc from hn), h4]

/-- C42: detection changes nothing but sep's pixel stack setting, which it never restores. -/
theorem detect_state (e : Env) (s : SIState) :
    ∃ ps, (detect e s).2 = { s with pixstack := ps } ∧ (ps = s.pixstack ∨ ps = 3600000 ∨ ps = 900000) := by
  have r1 : (rungOne e s).2 = s ∨ (rungOne e s).2 = { s with pixstack := 3600000 } := by
    unfold rungOne; split <;> simp
  have r2 : ∀ t, (rungTwo e t).2 = t ∨ (rungTwo e t).2 = { t with pixstack := 900000 } := by
    intro t; unfold rungTwo; split <;> simp
  rw [detect_eq]
  rcases h1 : rungOne e s with ⟨r | l1, t1⟩
  · rw [h1] at r1
    rcases r1 with h | h
    · exact ⟨s.pixstack, h, Or.inl rfl⟩
    · exact ⟨_, h, Or.inr (Or.inl rfl)⟩
  · rw [h1] at r1
    simp only at r1 ⊢
    split
    · have hr2 := r2 t1
      rcases h2 : rungTwo e t1 with ⟨r | l2, t2⟩ <;> rw [h2] at hr2 <;> simp only at hr2 ⊢ <;>
        rcases hr2 with h | h <;> rcases r1 with h' | h' <;> rw [h, h']
      all_goals first
        | exact ⟨s.pixstack, rfl, Or.inl rfl⟩
        | exact ⟨_, rfl, Or.inr (Or.inl rfl)⟩
        | exact ⟨_, rfl, Or.inr (Or.inr rfl)⟩
    · rcases r1 with h | h
      · exact ⟨s.pixstack, h, Or.inl rfl⟩
      · exact ⟨_, h, Or.inr (Or.inl rfl)⟩

/-! ## Quality cuts (C43) -/

/-- The five cuts, written out. -/
def PassesCuts (l : List SepRow) (s : SepRow) : Prop :=
  s.flag = 0 ∧
  percentile 20 (l.map fun t => (t.npix : ℚ)) ≤ s.npix ∧ s.npix ≤ percentile 80 (l.map fun t => (t.npix : ℚ)) ∧
  percentile 15 (l.map fun t => t.flux) ≤ s.flux ∧ s.flux ≤ percentile 85 (l.map fun t => t.flux)

instance (l : List SepRow) (s : SepRow) : Decidable (PassesCuts l s) := by
  unfold PassesCuts; infer_instance

theorem quality_eq (l : List SepRow) : quality l = l.filter fun s => decide (PassesCuts l s) := by
  unfold quality
  apply List.filter_congr
  intro s _
  unfold PassesCuts
  rw [Bool.eq_iff_iff]
  simp only [Bool.and_eq_true, decide_eq_true_iff]
  exact ⟨fun ⟨⟨⟨⟨a, b⟩, c⟩, d⟩, e⟩ => decide_eq_true ⟨b, a, c, e, d⟩,
    fun h => let ⟨b, a, c, e, d⟩ := of_decide_eq_true h; ⟨⟨⟨⟨a, b⟩, c⟩, d⟩, e⟩⟩

/-- C43: up to 1800 detections, `best_sources` is those passing the cuts if at least five pass, else
all of them. -/
theorem cuts_or_all (e : Env) (l : List SepRow) (hl : l.length ≤ 1800) :
    limitSources e l = if 5 ≤ (l.filter fun s => decide (PassesCuts l s)).length
      then l.filter fun s => decide (PassesCuts l s) else l := by
  unfold limitSources
  simp only [quality_eq]
  have hle := List.length_filter_le (fun s => decide (PassesCuts l s)) l
  by_cases h : 5 ≤ (l.filter fun s => decide (PassesCuts l s)).length
  · rw [if_pos h]
    have hn : ¬ (l.filter fun s => decide (PassesCuts l s)).length < 5 := by omega
    simp only [if_neg hn]
    rw [if_neg (by omega)]
  · rw [if_neg h]
    have hn : (l.filter fun s => decide (PassesCuts l s)).length < 5 := by omega
    simp only [if_pos hn]
    rw [if_neg (by omega)]

theorem countP_map_src (l : List SepRow) (f : SepRow → ℚ) (p : ℚ → Bool) :
    l.countP (fun s => p (f s)) = (l.map f).countP p := by
  rw [List.countP_map]; rfl

theorem countP_or_le (l : List SepRow) (p q : SepRow → Bool) :
    l.countP (fun s => p s || q s) ≤ l.countP p + l.countP q := by
  induction l with
  | nil => simp
  | cons a l ih =>
    simp only [List.countP_cons]
    cases p a <;> cases q a <;> simp <;> omega

/-- C43: the cuts keep at least 30% of the unflagged detections, less four: a field with 28 or more
unflagged detections never falls back to using everything. -/
theorem cuts_keep (l : List SepRow) (hl : l ≠ []) :
    (3 / 10 : ℚ) * l.length - 33 / 10 - (l.countP fun s => decide (s.flag ≠ 0)) <
      (l.filter fun s => decide (PassesCuts l s)).length := by
  set A := l.map fun t => (t.npix : ℚ) with hA
  set F := l.map fun t => t.flux with hF
  have hAl : A.length = l.length := by simp [hA]
  have hFl : F.length = l.length := by simp [hF]
  have hA0 : A ≠ [] := by rw [← List.length_pos_iff, hAl]; exact List.length_pos_iff.2 hl
  have hF0 : F ≠ [] := by rw [← List.length_pos_iff, hFl]; exact List.length_pos_iff.2 hl
  have hn : 0 < l.length := List.length_pos_iff.2 hl
  have c1 := countP_lt_percentile 20 A hA0 (by norm_num) (by norm_num)
  have c2 := countP_gt_percentile 80 A hA0 (by norm_num) (by norm_num)
  have c3 := countP_lt_percentile 15 F hF0 (by norm_num) (by norm_num)
  have c4 := countP_gt_percentile 85 F hF0 (by norm_num) (by norm_num)
  rw [hAl] at c1 c2
  rw [hFl] at c3 c4
  have b := fun q h0 h1 => pctPos_bounds q l.length hn h0 h1
  have u1 : (⌈pctPos 20 l.length⌉₊ : ℚ) < pctPos 20 l.length + 1 :=
    Nat.ceil_lt_add_one (b 20 (by norm_num) (by norm_num)).1
  have u3 : (⌈pctPos 15 l.length⌉₊ : ℚ) < pctPos 15 l.length + 1 :=
    Nat.ceil_lt_add_one (b 15 (by norm_num) (by norm_num)).1
  have u2 : pctPos 80 l.length < ⌊pctPos 80 l.length⌋₊ + 1 := Nat.lt_floor_add_one _
  have u4 : pctPos 85 l.length < ⌊pctPos 85 l.length⌋₊ + 1 := Nat.lt_floor_add_one _
  have k2 : ⌊pctPos 80 l.length⌋₊ ≤ l.length - 1 :=
    Nat.floor_le_of_le (b 80 (by norm_num) (by norm_num)).2
  have k4 : ⌊pctPos 85 l.length⌋₊ ≤ l.length - 1 :=
    Nat.floor_le_of_le (b 85 (by norm_num) (by norm_num)).2
  have tot : l.length ≤ (l.filter fun s => decide (PassesCuts l s)).length +
      ((l.countP fun s => decide (s.flag ≠ 0)) +
      (A.countP (fun x => decide (x < percentile 20 A)) + (A.countP (fun x => decide (percentile 80 A < x)) +
      (F.countP (fun x => decide (x < percentile 15 F)) + F.countP (fun x => decide (percentile 85 F < x)))))) := by
    have h1 : l.length = l.countP (fun s => decide (PassesCuts l s)) +
        l.countP (fun s => !decide (PassesCuts l s)) := by
      have := List.length_eq_countP_add_countP (fun s => decide (PassesCuts l s)) (l := l)
      simpa using this
    have h2 : l.countP (fun s => !decide (PassesCuts l s)) ≤
        l.countP (fun s => decide (s.flag ≠ 0) || (decide ((s.npix : ℚ) < percentile 20 A) ||
          (decide (percentile 80 A < (s.npix : ℚ)) || (decide (s.flux < percentile 15 F) ||
          decide (percentile 85 F < s.flux))))) := by
      apply List.countP_mono_left
      intro s _ hs
      rw [Bool.not_eq_true', decide_eq_false_iff_not] at hs
      by_contra hc
      apply hs
      simp only [Bool.or_eq_true, decide_eq_true_iff, not_or, not_lt, not_not, ne_eq] at hc
      exact ⟨hc.1, hc.2.1, hc.2.2.1, hc.2.2.2.1, hc.2.2.2.2⟩
    rw [← List.countP_eq_length_filter]
    have h3 := countP_or_le l (fun s => decide (s.flag ≠ 0)) (fun s => (decide ((s.npix : ℚ) < percentile 20 A) ||
          (decide (percentile 80 A < (s.npix : ℚ)) || (decide (s.flux < percentile 15 F) ||
          decide (percentile 85 F < s.flux)))))
    have h4 := countP_or_le l (fun s => decide ((s.npix : ℚ) < percentile 20 A)) (fun s =>
          (decide (percentile 80 A < (s.npix : ℚ)) || (decide (s.flux < percentile 15 F) ||
          decide (percentile 85 F < s.flux))))
    have h5 := countP_or_le l (fun s => decide (percentile 80 A < (s.npix : ℚ))) (fun s =>
          (decide (s.flux < percentile 15 F) || decide (percentile 85 F < s.flux)))
    have h6 := countP_or_le l (fun s => decide (s.flux < percentile 15 F)) (fun s =>
          (decide (percentile 85 F < s.flux)))
    have e1 := countP_map_src l (fun t => (t.npix : ℚ)) (fun x => decide (x < percentile 20 A))
    have e2 := countP_map_src l (fun t => (t.npix : ℚ)) (fun x => decide (percentile 80 A < x))
    have e3 := countP_map_src l (fun t => t.flux) (fun x => decide (x < percentile 15 F))
    have e4 := countP_map_src l (fun t => t.flux) (fun x => decide (percentile 85 F < x))
    rw [← hA] at e1 e2
    rw [← hF] at e3 e4
    omega
  have c2' : (A.countP (fun x => decide (percentile 80 A < x)) : ℚ) + ⌊pctPos 80 l.length⌋₊ ≤ l.length - 1 := by
    have h : A.countP (fun x => decide (percentile 80 A < x)) + ⌊pctPos 80 l.length⌋₊ + 1 ≤ l.length := by omega
    have : ((A.countP (fun x => decide (percentile 80 A < x)) + ⌊pctPos 80 l.length⌋₊ + 1 : ℕ) : ℚ) ≤ l.length :=
      by exact_mod_cast h
    push_cast at this; linarith
  have c4' : (F.countP (fun x => decide (percentile 85 F < x)) : ℚ) + ⌊pctPos 85 l.length⌋₊ ≤ l.length - 1 := by
    have h : F.countP (fun x => decide (percentile 85 F < x)) + ⌊pctPos 85 l.length⌋₊ + 1 ≤ l.length := by omega
    have : ((F.countP (fun x => decide (percentile 85 F < x)) + ⌊pctPos 85 l.length⌋₊ + 1 : ℕ) : ℚ) ≤ l.length :=
      by exact_mod_cast h
    push_cast at this; linarith
  have c1' : (A.countP (fun x => decide (x < percentile 20 A)) : ℚ) ≤ ⌈pctPos 20 l.length⌉₊ := by exact_mod_cast c1
  have c3' : (F.countP (fun x => decide (x < percentile 15 F)) : ℚ) ≤ ⌈pctPos 15 l.length⌉₊ := by exact_mod_cast c3
  have tot' : (l.length : ℚ) ≤ (l.filter fun s => decide (PassesCuts l s)).length +
      ((l.countP fun s => decide (s.flag ≠ 0)) +
      (A.countP (fun x => decide (x < percentile 20 A)) + (A.countP (fun x => decide (percentile 80 A < x)) +
      (F.countP (fun x => decide (x < percentile 15 F)) + F.countP (fun x => decide (percentile 85 F < x)))))) := by
    exact_mod_cast tot
  unfold pctPos at u1 u2 u3 u4 c1' c2' c3' c4'
  linarith

/-- C43: with 28 or more detections, none flagged, there is no fallback. -/
theorem cuts_no_fallback (l : List SepRow) (hl : 28 ≤ l.length) (hf : ∀ s ∈ l, s.flag = 0) :
    5 ≤ (l.filter fun s => decide (PassesCuts l s)).length := by
  have hne : l ≠ [] := by intro h; rw [h] at hl; simp at hl
  have := cuts_keep l hne
  have h0 : l.countP (fun s => decide (s.flag ≠ 0)) = 0 := by
    rw [List.countP_eq_zero]
    intro s hs
    simp [hf s hs]
  rw [h0] at this
  have h28 : (28 : ℚ) ≤ l.length := by exact_mod_cast hl
  have : (5 : ℚ) < (l.filter fun s => decide (PassesCuts l s)).length := by
    push_cast at this; linarith
  have : 5 < (l.filter fun s => decide (PassesCuts l s)).length := by exact_mod_cast this
  omega

/-- Three of seven detections pass the cuts: too few, so all seven are used. -/
example : quality ((List.range 7).map fun k => ⟨0, 0, 10 + k, k, 0⟩) =
    [⟨0, 0, 12, 2, 0⟩, ⟨0, 0, 13, 3, 0⟩, ⟨0, 0, 14, 4, 0⟩] := by decide +kernel

/-- Of eleven detections seven pass. -/
example : (quality ((List.range 11).map fun k => ⟨0, 0, 10 + k, k, 0⟩)).length = 7 := by decide +kernel

/-! ## C41 -/

theorem limitSources_spec (e : Env) (hc : e.ChoiceOK) (l : List SepRow) (h2 : 2 ≤ l.length) :
    2 ≤ (limitSources e l).length ∧ (limitSources e l).length ≤ 1800 ∧ PickedFrom (limitSources e l) l := by
  unfold limitSources
  simp only
  set b := if (quality l).length < 5 then l else quality l with hb
  have hb2 : 2 ≤ b.length ∧ PickedFrom b l := by
    rw [hb]
    split
    · exact ⟨h2, pickedFrom_refl l⟩
    · exact ⟨by omega, by rw [quality_eq]; exact pickedFrom_filter l _⟩
  split
  · rename_i hlt
    obtain ⟨c1, c2, c3⟩ := hc b.length 1800 (by omega)
    refine ⟨by rw [List.length_map, c1]; omega, by rw [List.length_map, c1], ?_⟩
    exact pickedFrom_trans ⟨_, c2, c3, rfl⟩ hb2.2
  · exact ⟨hb2.1, by omega, hb2.2⟩

theorem checkCount_eq (e : Env) (n : ℕ) :
    checkCount e n = if n < 2 then .error .ValueError else .ok () := by
  unfold checkCount
  by_cases h0 : n = 0
  · rw [if_pos h0, if_pos (by omega)]
  · by_cases h1 : n = 1
    · rw [if_neg h0, if_pos h1, if_pos (show n < 2 by omega)]
      split
      · rfl
      · split <;> rfl
    · rw [if_neg h0, if_neg h1, if_neg (by omega)]

theorem bestSources_fresh (e : Env) (s : SIState) (hs : s.best = none) :
    bestSources e s = match detect e s with
      | (.error er, t) => (.error er, t)
      | (.ok l, t) => if l.length < 2 then (.error .ValueError, t)
          else (.ok (limitSources e l), { t with best := some (limitSources e l) }) := by
  unfold bestSources
  rw [get_bind, hs]
  simp only
  rw [bind_app]
  rcases detect e s with ⟨r | l, t⟩
  · rfl
  · simp only
    rw [bind_app, lift_app, checkCount_eq]
    by_cases h : l.length < 2
    · rw [if_pos h, if_pos h]
    · rw [if_neg h, if_neg h]; rfl

theorem bestSources_cached (e : Env) (s : SIState) (b : List SepRow) (hs : s.best = some b) :
    bestSources e s = (.ok b, s) := by
  unfold bestSources
  rw [get_bind, hs]
  rfl

/-- C41: a freshly computed `best_sources` has 2 to 1800 rows, taken from different places of one of
sep's extractions. -/
theorem best_sources_size (e : Env) (hc : e.ChoiceOK) (s t : SIState) (b : List SepRow)
    (hs : s.best = none) (h : bestSources e s = (.ok b, t)) :
    2 ≤ b.length ∧ b.length ≤ 1800 ∧ t.best = some b ∧
      ∃ l, LadderResult e l ∧ 2 ≤ l.length ∧ PickedFrom b l := by
  rw [bestSources_fresh e s hs] at h
  rcases hd : detect e s with ⟨r | l, u⟩
  · rw [hd] at h; cases h
  · rw [hd] at h
    simp only at h
    split at h
    · cases h
    · rename_i hl
      cases h
      have := limitSources_spec e hc l (by omega)
      exact ⟨this.1, this.2.1, rfl, l, detect_result e s u l hd, by omega, this.2.2⟩

/-- C41: with fewer than two detections `best_sources` raises ValueError. -/
theorem best_sources_too_few (e : Env) (s t : SIState) (l : List SepRow) (hs : s.best = none)
    (hd : detect e s = (.ok l, t)) (hl : l.length < 2) :
    bestSources e s = (.error .ValueError, t) := by
  rw [bestSources_fresh e s hs, hd]
  simp only
  rw [if_pos hl]

/-- C41: otherwise it returns. -/
theorem best_sources_returns (e : Env) (s t : SIState) (l : List SepRow) (hs : s.best = none)
    (hd : detect e s = (.ok l, t)) (hl : 2 ≤ l.length) :
    bestSources e s = (.ok (limitSources e l), { t with best := some (limitSources e l) }) := by
  rw [bestSources_fresh e s hs, hd]
  simp only
  rw [if_neg (by omega)]

/-! ## C44 -/

/-- C44: without a catalogue, `update_sources` raises AttributeError. -/
theorem update_sources_unset (e : Env) (s : SIState) (new : Option (List SepRow)) (h : s.best = none) :
    updateSources e new s = (.error .AttributeError, s) := by
  unfold updateSources
  rw [get_bind, h]
  rfl

/-- C44: with a catalogue it is replaced, and nothing else changes. -/
theorem update_sources_replaces (e : Env) (s : SIState) (old new : List SepRow) (h : s.best = some old) :
    updateSources e (some new) s = (.ok (), { s with best := some new }) := by
  unfold updateSources
  rw [get_bind, h]
  rfl

theorem stampsPos_cached (e : Env) (s : SIState) (pos : List (ℚ × ℚ)) (hp : s.stampsPos = some pos)
    (hr : s.wantShape = none) : stampsPos e s = (.ok pos, s) := by
  unfold stampsPos
  rw [get_bind, hp]
  simp only
  rw [hr]
  rfl

theorem nSources_cached (e : Env) (s : SIState) (n : ℕ) (hn : s.nSources = some n) :
    nSources e s = (.ok n, s) := by
  unfold nSources
  rw [get_bind, hn]
  rfl

/-- C44: so `best_sources` is then the new catalogue, while `n_sources` and the stamp positions are
still those of the old one. -/
theorem update_sources_stale (e : Env) (s t : SIState) (old new : List SepRow) (pos : List (ℚ × ℚ)) (n : ℕ)
    (h : s.best = some old) (hp : s.stampsPos = some pos) (hn : s.nSources = some n)
    (hr : s.wantShape = none) (hu : updateSources e (some new) s = (.ok (), t)) :
    bestSources e t = (.ok new, t) ∧ stampsPos e t = (.ok pos, t) ∧ nSources e t = (.ok n, t) := by
  rw [update_sources_replaces e s old new h] at hu
  cases hu
  exact ⟨bestSources_cached e _ new rfl, stampsPos_cached e _ pos hp hr, nSources_cached e _ n hn⟩

/-- C44: `update_sources()` runs detection again; what was derived from the old catalogue stays. -/
theorem update_sources_redetect (e : Env) (s : SIState) (old : List SepRow) (n : ℕ)
    (h : s.best = some old) (hn : s.nSources = some n) (t : SIState) (b : List SepRow)
    (hb : bestSources e { s with best := none } = (.ok b, t)) :
    updateSources e none s = (.ok (), t) ∧ t.nSources = s.nSources ∧ t.stampsPos = s.stampsPos ∧
      t.db = s.db ∧ t.best = some b := by
  have hst : t.nSources = s.nSources ∧ t.stampsPos = s.stampsPos ∧ t.db = s.db ∧ t.best = some b := by
    rw [bestSources_fresh e _ rfl] at hb
    obtain ⟨ps, h1, _⟩ := detect_state e { s with best := none }
    rcases hd : detect e { s with best := none } with ⟨r | l, u⟩
    · rw [hd] at hb; cases hb
    · rw [hd] at hb h1
      simp only at hb h1
      split at hb
      · cases hb
      · cases hb
        rw [h1]
        exact ⟨rfl, rfl, rfl, rfl⟩
  refine ⟨?_, hst⟩
  unfold updateSources
  rw [get_bind, h]
  simp only [modify_bind]
  rw [bind_ok _ _ _ _ _ hb]
  have hnn : nSources e t = (.ok n, t) := by
    unfold nSources
    rw [get_bind, hst.1, hn]
    rfl
  rw [bind_ok _ _ _ _ _ hnn]
  rfl

/-! ## C45 -/

theorem natSqrt_floor (p : ℚ) (hp : 0 ≤ p) : Nat.sqrt ⌊9 * p⌋₊ = ⌊3 * Real.sqrt p⌋₊ := by
  have h9 : (3 : ℝ) * Real.sqrt p = Real.sqrt (9 * p) := by
    rw [Real.sqrt_mul (by norm_num), show (9 : ℝ) = 3 ^ 2 by norm_num, Real.sqrt_sq (by norm_num)]
  rw [h9]
  symm
  rw [Nat.floor_eq_iff (Real.sqrt_nonneg _)]
  have hfl : (⌊9 * p⌋₊ : ℚ) ≤ 9 * p := Nat.floor_le (by linarith)
  have hfl2 : 9 * p < ⌊9 * p⌋₊ + 1 := Nat.lt_floor_add_one _
  constructor
  · apply Real.le_sqrt_of_sq_le
    have h1 : Nat.sqrt ⌊9 * p⌋₊ ^ 2 ≤ ⌊9 * p⌋₊ := Nat.sqrt_le' _
    have h2 : ((Nat.sqrt ⌊9 * p⌋₊ ^ 2 : ℕ) : ℚ) ≤ 9 * p := le_trans (by exact_mod_cast h1) hfl
    exact_mod_cast h2
  · rw [Real.sqrt_lt' (by positivity)]
    have h1 : ⌊9 * p⌋₊ < (Nat.sqrt ⌊9 * p⌋₊ + 1) ^ 2 := Nat.lt_succ_sqrt' _
    have h2 : ((⌊9 * p⌋₊ + 1 : ℕ) : ℚ) ≤ (((Nat.sqrt ⌊9 * p⌋₊ + 1) ^ 2 : ℕ) : ℚ) := by exact_mod_cast h1
    have h3 : 9 * p < (((Nat.sqrt ⌊9 * p⌋₊ + 1) ^ 2 : ℕ) : ℚ) := lt_of_lt_of_le (by push_cast; exact hfl2) h2
    exact_mod_cast h3

/-- C45: the default stamp: 5×5 when `3√p ≤ 5`, otherwise the integer part of `3√p`, made odd. -/
theorem default_stamp (p : ℚ) (hp : 0 ≤ p) :
    ∃ d, defaultShape p = (d, d) ∧ d % 2 = 1 ∧ 5 ≤ d ∧
      (3 * Real.sqrt p ≤ 5 → d = 5) ∧
      (5 < 3 * Real.sqrt p → d = if ⌊3 * Real.sqrt p⌋₊ % 2 = 1 then ⌊3 * Real.sqrt p⌋₊
        else ⌊3 * Real.sqrt p⌋₊ + 1) := by
  have h9 : (3 : ℝ) * Real.sqrt p = Real.sqrt ((9 * p : ℚ) : ℝ) := by
    push_cast
    rw [Real.sqrt_mul (by norm_num), show (9 : ℝ) = 3 ^ 2 by norm_num, Real.sqrt_sq (by norm_num)]
  have hgt : sqrtGt (9 * p) 5 = true ↔ 5 < 3 * Real.sqrt p := by
    rw [sqrtGt_iff, h9]; norm_num
  unfold defaultShape
  by_cases h : 5 < 3 * Real.sqrt p
  · rw [if_pos (hgt.2 h)]
    simp only [natSqrt_floor p hp]
    have h5 : 5 ≤ ⌊3 * Real.sqrt p⌋₊ := Nat.le_floor (by push_cast; exact h.le)
    refine ⟨_, rfl, ?_, ?_, fun hc => absurd h (not_lt.2 hc), fun _ => rfl⟩
    · split <;> omega
    · split <;> omega
  · rw [if_neg (fun hc => h (hgt.1 hc))]
    exact ⟨5, rfl, rfl, le_refl _, fun _ => rfl, fun hc => absurd hc h⟩

/-- C45 for the setter: no shape given; `p` is the 65th percentile of the sizes of the catalogue's sources. -/
theorem default_stamp_set (e : Env) (s t : SIState) (b : List SepRow) (hb : bestSources e s = (.ok b, t))
    (h0 : b ≠ []) :
    ∃ (p : ℚ) (d : ℕ), p = percentile 65 (b.map fun s => (s.npix : ℚ)) ∧
      setStampShape e none s = (.ok (), { t with stampShape := (d, d) }) ∧ d % 2 = 1 ∧ 5 ≤ d ∧
      (3 * Real.sqrt p ≤ 5 → d = 5) ∧
      (5 < 3 * Real.sqrt p → d = if ⌊3 * Real.sqrt p⌋₊ % 2 = 1 then ⌊3 * Real.sqrt p⌋₊
        else ⌊3 * Real.sqrt p⌋₊ + 1) := by
  have hp : 0 ≤ percentile 65 (b.map fun s => (s.npix : ℚ)) := by
    apply percentile_nonneg _ _ (by simpa using h0) (by norm_num) (by norm_num)
    intro x hx
    obtain ⟨s, _, rfl⟩ := List.mem_map.1 hx
    positivity
  obtain ⟨d, h1, h2, h3, h4, h5⟩ := default_stamp _ hp
  refine ⟨_, d, rfl, ?_, h2, h3, h4, h5⟩
  unfold setStampShape
  simp only
  rw [bind_ok _ _ _ _ _ hb, modify_app, h1]

/-- Sources of 16 pixels give 13×13 stamps; sources of 2 pixels 5×5 ones. -/
example : defaultShape 16 = (13, 13) ∧ defaultShape 2 = (5, 5) ∧ defaultShape 4 = (7, 7) := by decide +kernel

end PI
