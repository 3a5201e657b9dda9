import Verif.Props.Stamps

/-! # Properties C46–C50, C81–C83 for whole extractions -/

namespace PI
open PyS

/-- What a successful extraction started from. -/
theorem extraction_start (e : Env) (s t : SIState) (pos : List (ℚ × ℚ)) (h : extractStamps e s = (.ok pos, t)) :
    ∃ cands ps, bestSources e (startState s) =
        (.ok cands, { startState s with best := some cands, pixstack := ps }) ∧
      (cands ≠ [] → ∃ img, curImg e s = .ok img) := by
  rcases hb : bestSources e (startState s) with ⟨er | cands, u⟩
  · exfalso
    unfold extractStamps at h
    rw [modify_bind] at h
    change (bestSources e >>= _) (startState s) = _ at h
    rw [bind_err _ _ _ _ _ hb] at h
    cases h
  · obtain ⟨ps, hu⟩ := bestSources_frame e _ _ _ hb
    refine ⟨cands, ps, by rw [hu], fun hne => ?_⟩
    cases hc : curImg e s with
    | ok img => exact ⟨img, rfl⟩
    | error er =>
      exfalso
      rw [extractStamps_eq e s u _ cands _ hb rfl rfl] at h
      cases cands with
      | nil => exact hne rfl
      | cons c cands =>
        unfold curImg at hc
        cases hi : s.interped with
        | some a => rw [hi] at hc; cases hc
        | none =>
          rw [hi] at hc
          simp only at hc
          cases he : e.interp with
          | ok a => rw [he] at hc; cases hc
          | error er' =>
            set v : SIState := { u with strictPublic := _ } with hv
            have hvi : v.interped = none := by rw [hv, hu]; exact hi
            have hint : interped e v = (.error er', v) := by
              unfold interped
              rw [get_bind, hvi]
              simp only
              rw [he]
              rfl
            rw [stampLoop, bind_err _ _ _ _ _ hint] at h
            cases h

/-- Each accepted candidate was accepted with its stamp. -/
theorem Trace.accepted_ok {e : Env} {strict : Bool} {sh : ℕ × ℕ} {img img' : Img (Option ℚ)}
    {cands : List SepRow} {outs : List Outcome} (t : Trace e strict sh img cands outs img') :
    ∀ p ∈ accepted cands outs, p.1 ∈ cands ∧
      ∃ a b, tryStamp e strict sh a p.1 = (.ok (.accept p.2), b) := by
  induction t with
  | nil => simp [accepted]
  | cons img1 img2 img3 src rest o outs h t ih =>
    intro p hp
    cases o with
    | reject =>
      obtain ⟨h1, h2⟩ := ih p hp
      exact ⟨List.mem_cons_of_mem _ h1, h2⟩
    | accept st =>
      simp only [accepted, List.mem_cons] at hp
      rcases hp with rfl | hp
      · exact ⟨List.mem_cons_self, _, _, h⟩
      · obtain ⟨h1, h2⟩ := ih p hp
        exact ⟨List.mem_cons_of_mem _ h1, h2⟩

theorem accepted_sublist (cands : List SepRow) (outs : List Outcome) :
    ((accepted cands outs).map (·.1)).Sublist cands := by
  induction outs generalizing cands with
  | nil => cases cands <;> simp [accepted]
  | cons o outs ih =>
    cases cands with
    | nil => cases o <;> simp [accepted]
    | cons c cands =>
      cases o with
      | reject => exact (ih cands).cons c
      | accept st => exact (ih cands).cons_cons c

/-- C46: after an extraction there are as many positions as stamps as `n_sources`; they belong to a
sublist of the candidates (in order); stamp `k` was cut by processing the candidate at position `k`;
every candidate is accepted or rejected. -/
theorem stamps_aligned (e : Env) (s t : SIState) (cands : List SepRow) (u : SIState) (pos : List (ℚ × ℚ))
    (hb : bestSources e (startState s) = (.ok cands, u)) (hc : cands ≠ [])
    (h : extractStamps e s = (.ok pos, t)) :
    ∃ acc : List (SepRow × Stamp), ∃ nrej : ℕ,
      (acc.map (·.1)).Sublist cands ∧ acc.length + nrej = cands.length ∧
      pos = acc.map (fun p => (p.1.y, p.1.x)) ∧ t.stampsPos = some pos ∧
      t.db = some (acc.map (·.2)) ∧ t.nSources = some acc.length ∧
      ∀ p ∈ acc, ∃ a b, tryStamp e s.strict (s.wantShape.getD s.stampShape) a p.1 = (.ok (.accept p.2), b) := by
  obtain ⟨cands', ps, hb', hi⟩ := extraction_start e s t pos h
  rw [hb] at hb'
  injection hb' with h1 h2
  injection h1 with h1
  subst h1
  subst h2
  obtain ⟨img, hi⟩ := hi hc
  obtain ⟨outs, img', tr, hp, ht⟩ := (extraction_spec e s t cands pos ps img hc hb hi).1 h
  refine ⟨accepted cands outs, (rejected 0 outs).length, accepted_sublist _ _,
    accepted_rejected_count _ _ _ tr.length, hp, by rw [ht], by rw [ht], by rw [ht], ?_⟩
  intro p hpm
  exact (tr.accepted_ok p hpm).2

/-- C47: all stored stamps have the shape `stamp_shape` reports afterwards. -/
theorem stamps_final_shape (e : Env) (s t : SIState) (cands : List SepRow) (u : SIState) (pos : List (ℚ × ℚ))
    (hb : bestSources e (startState s) = (.ok cands, u)) (hc : cands ≠ [])
    (h : extractStamps e s = (.ok pos, t)) :
    t.stampShape = ((s.wantShape.getD s.stampShape).1 + 6, (s.wantShape.getD s.stampShape).2 + 6) ∧
      ∃ stamps, t.db = some stamps ∧ ∀ st ∈ stamps, st.shape = t.stampShape := by
  obtain ⟨acc, _, _, _, _, _, hdb, _, hall⟩ := stamps_aligned e s t cands u pos hb hc h
  have hsh : t.stampShape = ((s.wantShape.getD s.stampShape).1 + 6, (s.wantShape.getD s.stampShape).2 + 6) := by
    obtain ⟨cands', ps, hb', hi⟩ := extraction_start e s t pos h
    rw [hb] at hb'
    injection hb' with h1 h2
    injection h1 with h1
    subst h1
    subst h2
    obtain ⟨img, hi⟩ := hi hc
    obtain ⟨outs, img', tr, hp, ht⟩ := (extraction_spec e s t cands pos ps img hc hb hi).1 h
    rw [ht]
  refine ⟨hsh, _, hdb, ?_⟩
  intro st hst
  obtain ⟨p, hp, rfl⟩ := List.mem_map.1 hst
  obtain ⟨a, b, hab⟩ := hall p hp
  rw [accepted_shape e s.strict _ a b p.1 p.2 hab, hsh]

/-- C50: the catalogue after an extraction: the accepted candidates if there are at least 15, all
candidates otherwise. -/
theorem catalogue_after_stamps (e : Env) (s t : SIState) (cands : List SepRow) (u : SIState)
    (pos : List (ℚ × ℚ)) (hb : bestSources e (startState s) = (.ok cands, u)) (hc : cands ≠ [])
    (h : extractStamps e s = (.ok pos, t)) :
    ∃ acc : List (SepRow × Stamp), (acc.map (·.1)).Sublist cands ∧ pos = acc.map (fun p => (p.1.y, p.1.x)) ∧
      t.best = some (if 15 ≤ pos.length then acc.map (·.1) else cands) ∧
      (∀ b, t.best = some b → (some b.length = t.nSources ↔ 15 ≤ pos.length ∨ pos.length = cands.length)) := by
  obtain ⟨cands', ps, hb', hi⟩ := extraction_start e s t pos h
  rw [hb] at hb'
  injection hb' with h1 h2
  injection h1 with h1
  subst h1
  subst h2
  obtain ⟨img, hi⟩ := hi hc
  obtain ⟨outs, img', tr, hp, ht⟩ := (extraction_spec e s t cands pos ps img hc hb hi).1 h
  have hlen : pos.length = (accepted cands outs).length := by rw [hp, List.length_map]
  have hbest : t.best = some (if 15 ≤ pos.length then (accepted cands outs).map (·.1) else cands) := by
    rw [ht, hlen]
  refine ⟨accepted cands outs, accepted_sublist _ _, hp, hbest, ?_⟩
  intro b hbb
  have hn : t.nSources = some pos.length := by rw [ht, hlen]
  rw [hbest] at hbb
  injection hbb with hbb
  rw [hn, ← hbb]
  by_cases h15 : 15 ≤ pos.length
  · rw [if_pos h15, List.length_map, hlen]
    simp only [true_iff]
    exact Or.inl (by omega)
  · rw [if_neg h15]
    simp only [Option.some.injEq]
    omega

/-! ## C81: extraction changes the interpolated image -/

/-- Whether pixel `(r, c)` is in the window. -/
def InWindow (sh : ℕ × ℕ) (pos : ℚ × ℚ) (r c : ℕ) : Prop :=
  winStart sh.1 pos.1 ≤ r ∧ (r : ℤ) < winStart sh.1 pos.1 + sh.1 ∧
  winStart sh.2 pos.2 ≤ c ∧ (c : ℤ) < winStart sh.2 pos.2 + sh.2

/-- The window lies inside the image. -/
def Inside (a : Img (Option ℚ)) (sh : ℕ × ℕ) (pos : ℚ × ℚ) : Prop :=
  0 ≤ winStart sh.1 pos.1 ∧ winStart sh.1 pos.1 + sh.1 ≤ a.h ∧
    0 ≤ winStart sh.2 pos.2 ∧ winStart sh.2 pos.2 + sh.2 ≤ a.w

/-- Subtraction of a level that may be NaN. -/
def subLevel (p d : Option ℚ) : Option ℚ :=
  match p, d with
  | some x, some y => some (x - y)
  | _, _ => none

theorem sortQ_add (l : List ℚ) (m : ℚ) : sortQ (l.map (· + m)) = (sortQ l).map (· + m) := by
  have h1 : (sortQ (l.map (· + m))).Perm ((sortQ l).map (· + m)) :=
    (sortQ_perm _).trans ((sortQ_perm l).map _).symm
  refine h1.eq_of_pairwise ?_ (sortQ_sorted _) ?_
  · intro a b _ _ hab hba; exact le_antisymm hab hba
  · rw [List.pairwise_map]
    exact (sortQ_sorted l).imp fun h => by linarith

theorem median_add (l : List ℚ) (m : ℚ) : median (l.map (· + m)) = (median l).map (· + m) := by
  unfold median
  simp only [sortQ_add, List.length_map]
  by_cases h0 : (sortQ l).length = 0
  · rw [if_pos h0, if_pos h0]; rfl
  · rw [if_neg h0, if_neg h0]
    have hg : ∀ k < (sortQ l).length, ((sortQ l).map (· + m)).getD k 0 = (sortQ l).getD k 0 + m := by
      intro k hk
      rw [List.getD_eq_getElem _ _ (by simpa using hk), List.getD_eq_getElem _ _ hk, List.getElem_map]
    rw [hg _ (by omega), hg _ (by omega)]
    split
    · rfl
    · simp only [Option.map_some, Option.some.injEq]; ring

/-- The faint pixels of a stamp: those that, after adding `|min|`, lie below the 70th percentile. -/
def faint (v : List ℚ) : List ℚ :=
  v.filter fun x => decide (x + |minQ v| < percentile 70 (v.map fun y => abs (y + abs (minQ v))))

/-- The background level of a stamp: the median of its faint pixels (NaN if there are none or a pixel
is NaN). -/
def stampLevel (sub : Img (Option ℚ)) : Option ℚ := (allFin sub.flat).bind fun v => median (faint v)

theorem rebase_eq (sub : Img (Option ℚ)) (i j : ℕ) :
    (rebase sub).px i j = subLevel (sub.px i j) (stampLevel sub) := by
  unfold rebase stampLevel
  cases hf : allFin sub.flat with
  | none => cases h : sub.px i j <;> rfl
  | some v =>
    simp only [Option.bind_some]
    have hb : backLevel (v.map (· + |minQ v|)) = (median (faint v)).map (· + |minQ v|) := by
      unfold backLevel faint
      rw [← median_add, List.map_map, List.filter_map]
      rfl
    rw [hb]
    cases hm : median (faint v) with
    | none => cases h : sub.px i j <;> rfl
    | some b =>
      change (sub.px i j).map (fun x => x + |minQ v| - (b + |minQ v|)) = _
      cases h : sub.px i j with
      | none => rfl
      | some x => simp only [Option.map_some, subLevel, Option.some.injEq]; ring

/-- C81: processing a candidate whose enlarged stamp lies inside the image subtracts the stamp's
background level (the median of its faint pixels) from the interpolated image under the stamp, in
place; all other pixels stay. If the stamp sticks out of the image, or the candidate is dropped for a NaN, nothing changes. -/
theorem candidate_changes_image (e : Env) (strict : Bool) (sh : ℕ × ℕ) (img img' : Img (Option ℚ))
    (src : SepRow) (r : Py Outcome) (h : tryStamp e strict sh img src = (r, img')) :
    img'.shape = img.shape ∧
    ((window e.rms img sh (src.y, src.x) = .ok none ∨ ∃ er, window e.rms img sh (src.y, src.x) = .error er) →
      img' = img) ∧
    ∀ k st, window e.rms img sh (src.y, src.x) = .ok (some (k, st)) →
      (¬ Inside img (sh.1 + k, sh.2 + k) (src.y, src.x) → img' = img) ∧
      (Inside img (sh.1 + k, sh.2 + k) (src.y, src.x) → ∀ r < img.h, ∀ c < img.w,
        (InWindow (sh.1 + k, sh.2 + k) (src.y, src.x) r c → img'.px r c = subLevel (img.px r c) (stampLevel st)) ∧
        (¬ InWindow (sh.1 + k, sh.2 + k) (src.y, src.x) r c → img'.px r c = img.px r c)) := by
  have himg : img' = (tryStamp e strict sh img src).2 := by rw [h]
  unfold tryStamp at himg
  cases hw : window e.rms img sh (src.y, src.x) with
  | error er =>
    rw [hw] at himg
    simp only at himg
    exact ⟨by rw [himg], fun _ => himg, fun k st hk => by cases hk⟩
  | ok o =>
    cases o with
    | none =>
      rw [hw] at himg
      simp only at himg
      exact ⟨by rw [himg], fun _ => himg, fun k st hk => by cases hk⟩
    | some p =>
      obtain ⟨k, st⟩ := p
      rw [hw] at himg
      simp only at himg
      have himg' : img' = writeBack img (sh.1 + k, sh.2 + k) (src.y, src.x) (rebase st) := by
        rw [himg]
        split
        · rfl
        · split <;> rfl
      refine ⟨?_, ?_, ?_⟩
      · rw [himg']
        unfold writeBack
        split <;> rfl
      · rintro (hc | ⟨er, hc⟩) <;> cases hc
      · rintro k' st' hk'
        cases hk'
        have hview : isView img (sh.1 + k, sh.2 + k) (src.y, src.x) = true ↔
            Inside img (sh.1 + k, sh.2 + k) (src.y, src.x) := by
          unfold isView Inside
          rw [decide_eq_true_iff]
        constructor
        · intro hn
          rw [himg']
          unfold writeBack
          rw [if_neg (fun hc => hn (hview.1 hc))]
        · intro hin
          obtain ⟨_, _, _, hx, _⟩ := window_spec _ _ _ _ _ _ hw
          obtain ⟨s1, s2⟩ := extractArray_shape _ _ _ _ _ hx
          intro r hr c hc
          obtain ⟨i1, i2, i3, i4⟩ := hin
          have hpx : ∀ i j, i < sh.1 + k → j < sh.2 + k → st.px i j =
              img.px ((winStart (sh.1 + k) src.y).toNat + i) ((winStart (sh.2 + k) src.x).toNat + j) := by
            intro i j hi hj
            unfold extractArray at hx
            simp only at hx i1 i2 i3 i4
            split at hx
            · cases hx
            · cases hx
              change (if _ then img.px _ _ else some e.rms) = _
              rw [if_pos (by omega)]
              congr 1 <;> omega
          have hwb : img'.px r c = if (winStart (sh.1 + k) src.y).toNat ≤ r ∧
              r < (winStart (sh.1 + k) src.y).toNat + (sh.1 + k) ∧ (winStart (sh.2 + k) src.x).toNat ≤ c ∧
              c < (winStart (sh.2 + k) src.x).toNat + (sh.2 + k)
              then (rebase st).px (r - (winStart (sh.1 + k) src.y).toNat) (c - (winStart (sh.2 + k) src.x).toNat)
              else img.px r c := by
            rw [himg']
            unfold writeBack
            rw [if_pos (hview.2 ⟨i1, i2, i3, i4⟩)]
          have hiff : InWindow (sh.1 + k, sh.2 + k) (src.y, src.x) r c ↔
              (winStart (sh.1 + k) src.y).toNat ≤ r ∧
              r < (winStart (sh.1 + k) src.y).toNat + (sh.1 + k) ∧ (winStart (sh.2 + k) src.x).toNat ≤ c ∧
              c < (winStart (sh.2 + k) src.x).toNat + (sh.2 + k) := by
            unfold InWindow
            simp only at i1 i2 i3 i4 ⊢
            omega
          constructor
          · intro hiw
            have hiw' := hiff.1 hiw
            rw [hwb, if_pos hiw', rebase_eq, hpx _ _ (by omega) (by omega)]
            congr 2 <;> omega
          · intro hniw
            rw [hwb, if_neg (fun hc => hniw (hiff.2 hc))]

/-! ### A concrete field -/

/-- 11×11 field: background 1 and 2 on a chess board, one star of 100 in the middle. -/
def starField : Img ℚ := ⟨11, 11, fun i j => if i = 5 ∧ j = 5 then 100 else if (i + j) % 2 = 0 then 1 else 2⟩

/-- An environment in which it is the interpolated image. -/
def starEnv : Env := ⟨1, fun _ _ _ => .ok [], 0, 0, fun _ k => List.range k, .ok starField, fun _ => []⟩

/-- The star. -/
def starSrc : SepRow := ⟨5, 5, 9, 100, 0⟩

theorem star_window : ∃ st, window 1 (starField.map some) (5, 5) (5, 5) = .ok (some (6, st)) ∧
    extractArray (starField.map some) (11, 11) (5, 5) 1 = .ok st := by
  have h0 : (match window 1 (starField.map some) (5, 5) (5, 5) with
    | .ok (some (k, _)) => decide (k = 6) | _ => false) = true := by decide +kernel
  cases hw : window 1 (starField.map some) (5, 5) (5, 5) with
  | error e => rw [hw] at h0; cases h0
  | ok o =>
    cases o with
    | none => rw [hw] at h0; cases h0
    | some p =>
      obtain ⟨k, st⟩ := p
      rw [hw] at h0
      simp only [decide_eq_true_eq] at h0
      subst h0
      obtain ⟨_, _, _, hx, _⟩ := window_spec _ _ _ _ _ _ hw
      exact ⟨st, rfl, hx⟩

/-- The processed star, accepted or not, leaves this in the image. -/
theorem star_changes : ((tryStamp starEnv false (5, 5) (starField.map some) starSrc).2).px 0 0 = some 0 := by
  decide +kernel

/-- Accepted without strict picking. -/
theorem star_accepted : (match (tryStamp starEnv false (5, 5) (starField.map some) starSrc).1 with
    | .ok (.accept (.fin a)) => decide (a.px 5 5 = 33 / 53) | _ => false) = true := by
  decide +kernel

/-- Rejected with strict picking (a pixel above one half). -/
theorem star_rejected_strict : (match (tryStamp starEnv true (5, 5) (starField.map some) starSrc).1 with
    | .ok .reject => true | _ => false) = true := by
  decide +kernel


/-! ## C49 -/

/-- The state of a new image with the star as its catalogue. -/
def starState (strict : Bool) : SIState := { best := some [starSrc], strict := strict, strictPublic := some strict }

/-- C49: the candidates are processed with the strict flag given at construction, however few they
are; with 20 or fewer only the public copy of the flag is cleared. -/
theorem strict_not_disabled (e : Env) (s t : SIState) (cands : List SepRow) (u : SIState) (pos : List (ℚ × ℚ))
    (hb : bestSources e (startState s) = (.ok cands, u)) (hc : cands ≠ [])
    (h : extractStamps e s = (.ok pos, t)) :
    t.strict = s.strict ∧ t.strictPublic = (if cands.length ≤ 20 then some false else s.strictPublic) ∧
      ∃ img img' outs, curImg e s = .ok img ∧
        Trace e s.strict (s.wantShape.getD s.stampShape) img cands outs img' ∧
        pos = (accepted cands outs).map (fun p => (p.1.y, p.1.x)) ∧ t.interped = some img' := by
  obtain ⟨cands', ps, hb', hi⟩ := extraction_start e s t pos h
  rw [hb] at hb'
  injection hb' with h1 h2
  injection h1 with h1
  subst h1
  subst h2
  obtain ⟨img, hi⟩ := hi hc
  obtain ⟨outs, img', tr, hp, ht⟩ := (extraction_spec e s t cands pos ps img hc hb hi).1 h
  exact ⟨by rw [ht], by rw [ht], img, img', outs, hi, tr, hp, by rw [ht]⟩

/-- C49, the witness: one candidate; the flag reads "off" afterwards, yet the star is rejected,
while an image constructed without strict picking accepts it. -/
theorem strict_still_rejects :
    (extractStamps starEnv (starState true)).1 = .ok [] ∧
    (extractStamps starEnv (starState true)).2.strictPublic = some false ∧
    (extractStamps starEnv (starState false)).1 = .ok [(5, 5)] := by
  decide +kernel

/-- C81, the witness: reading the star positions changes the interpolated image. -/
theorem stamps_change_interped :
    (interped starEnv (starState false)).1.toOption.map (fun a => a.px 0 1) = some (some 2) ∧
    (interped starEnv (stampsPos starEnv (starState false)).2).1.toOption.map (fun a => a.px 0 1) = some (some 1) := by
  decide +kernel

/-! ## C82 -/

/-- C82: if a stamp shape was requested (as `get_variable_psf(shape=…)` does), every later reading of
the star positions cuts all stamps again, from the image the previous cut changed. -/
theorem requested_shape_reextracts (e : Env) (s t : SIState) (cands : List SepRow) (u : SIState)
    (pos : List (ℚ × ℚ)) (sh : ℕ × ℕ) (hr : s.reqShape = some sh)
    (hb : bestSources e (startState s) = (.ok cands, u)) (hc : cands ≠ [])
    (h : extractStamps e s = (.ok pos, t)) :
    t.stampShape = (sh.1 + 6, sh.2 + 6) ∧ stampsPos e t = extractStamps e t := by
  have hw : s.wantShape.getD s.stampShape = sh := by
    unfold SIState.wantShape
    rw [hr]
    simp only
    by_cases hs : sh ≠ s.stampShape
    · rw [if_pos hs]; rfl
    · rw [if_neg hs]; exact (not_not.1 hs).symm
  obtain ⟨cands', ps, hb', hi⟩ := extraction_start e s t pos h
  rw [hb] at hb'
  injection hb' with h1 h2
  injection h1 with h1
  subst h1
  subst h2
  obtain ⟨img, hi⟩ := hi hc
  obtain ⟨outs, img', tr, hp, ht⟩ := (extraction_spec e s t cands pos ps img hc hb hi).1 h
  have hsh : t.stampShape = (sh.1 + 6, sh.2 + 6) := by rw [ht, ← hw]
  refine ⟨hsh, ?_⟩
  have hreq : t.reqShape = some sh := by rw [ht]; exact hr
  have hwant : t.wantShape = some sh := by
    unfold SIState.wantShape
    rw [hreq]
    simp only
    rw [if_pos]
    intro hc
    rw [hsh] at hc
    have := congrArg Prod.fst hc
    simp only at this
    omega
  have hpos : t.stampsPos = some pos := by rw [ht]
  unfold stampsPos
  rw [get_bind, hpos]
  simp only
  rw [if_pos (by rw [hwant]; rfl)]

/-- C82: without a requested shape the positions are computed once. -/
theorem unrequested_shape_cached (e : Env) (s t : SIState) (cands : List SepRow) (u : SIState)
    (pos : List (ℚ × ℚ)) (hr : s.reqShape = none)
    (hb : bestSources e (startState s) = (.ok cands, u)) (hc : cands ≠ [])
    (h : extractStamps e s = (.ok pos, t)) : stampsPos e t = (.ok pos, t) := by
  obtain ⟨cands', ps, hb', hi⟩ := extraction_start e s t pos h
  rw [hb] at hb'
  injection hb' with h1 h2
  injection h1 with h1
  subst h1
  subst h2
  obtain ⟨img, hi⟩ := hi hc
  obtain ⟨outs, img', tr, hp, ht⟩ := (extraction_spec e s t cands pos ps img hc hb hi).1 h
  have hreq : t.reqShape = none := by rw [ht]; exact hr
  have hpos : t.stampsPos = some pos := by rw [ht]
  unfold stampsPos
  rw [get_bind, hpos]
  simp only
  rw [if_neg (by unfold SIState.wantShape; rw [hreq]; simp)]
  rfl

/-- The hypotheses of the theorems above hold for the star. -/
example : ∃ pos t, extractStamps starEnv { starState false with reqShape := some (5, 5) } = (.ok pos, t) ∧
    bestSources starEnv (startState { starState false with reqShape := some (5, 5) }) =
      (.ok [starSrc], startState { starState false with reqShape := some (5, 5) }) := by
  have h : (extractStamps starEnv { starState false with reqShape := some (5, 5) }).1 = .ok [(5, 5)] := by
    decide +kernel
  refine ⟨_, _, Prod.ext h rfl, ?_⟩
  rfl

/-- Reading the positions twice after a requested shape processes a different image each time: the
corner pixel drops from 2 to 1 the first time. -/
example : ((stampsPos starEnv { starState false with reqShape := some (5, 5) }).2.interped.map
    fun a => a.px 0 1) = some (some 1) := by decide +kernel

end PI
