import Verif.Props.StampsMore
import Verif.Lemmas.Stats
import Mathlib.Algebra.Order.BigOperators.Group.List
import Mathlib.Tactic.FieldSimp
import Mathlib.Tactic.Linarith

/-!
# Property C118: what a stored star stamp contains

The pixels of the enlarged window less a level, divided by their sum. The level is the median of the
pixels below the 70th percentile: the sky brightness and the exposure drop out.
-/

namespace PI

/-! ## The level -/

theorem minQ_le (v : List ℚ) : ∀ x ∈ v, minQ v ≤ x := by
  have h : ∀ (l : List ℚ) (a : ℚ), ∀ x ∈ l, l.foldr min a ≤ x := by
    intro l a
    induction l with
    | nil => intro x hx; cases hx
    | cons y l ih =>
      intro x hx
      rcases List.mem_cons.1 hx with rfl | hx
      · exact min_le_left _ _
      · exact (min_le_right _ _).trans (ih x hx)
  exact h v _

theorem getD_map_lt' (l : List ℚ) (f : ℚ → ℚ) (k : ℕ) (hk : k < l.length) :
    (l.map f).getD k 0 = f (l.getD k 0) := by
  rw [List.getD_eq_getElem _ _ (by simpa using hk), List.getD_eq_getElem _ _ hk, List.getElem_map]

theorem sortQ_affine (l : List ℚ) (c d : ℚ) (hc : 0 < c) :
    sortQ (l.map fun x => c * x + d) = (sortQ l).map fun x => c * x + d := by
  have h1 : (sortQ (l.map fun x => c * x + d)).Perm ((sortQ l).map fun x => c * x + d) :=
    (sortQ_perm _).trans ((sortQ_perm l).map _).symm
  refine h1.eq_of_pairwise ?_ (sortQ_sorted _) ?_
  · intro a b _ _ hab hba; exact le_antisymm hab hba
  · rw [List.pairwise_map]
    exact (sortQ_sorted l).imp fun h => by
      have := mul_le_mul_of_nonneg_left h hc.le
      linarith

theorem percentile_affine (q : ℚ) (h0 : 0 ≤ q) (h1 : q ≤ 100) (l : List ℚ) (hl : l ≠ []) (c d : ℚ) (hc : 0 < c) :
    percentile q (l.map fun x => c * x + d) = c * percentile q l + d := by
  have hn : 0 < l.length := List.length_pos_iff.2 hl
  have hb := pctPos_bounds q l.length hn h0 h1
  unfold percentile
  simp only [sortQ_affine l c d hc, List.length_map, sortQ_length]
  have hk : ⌊q / 100 * ((l.length : ℚ) - 1)⌋₊ < (sortQ l).length := by
    rw [sortQ_length]
    have := Nat.floor_le_of_le hb.2
    unfold pctPos at this
    omega
  rw [getD_map_lt' _ _ _ hk, getD_map_lt' _ _ _ (by rw [sortQ_length]; omega)]
  ring

theorem median_affine (l : List ℚ) (c d : ℚ) (hc : 0 < c) :
    median (l.map fun x => c * x + d) = (median l).map fun x => c * x + d := by
  unfold median
  simp only [sortQ_affine l c d hc, List.length_map]
  by_cases h0 : (sortQ l).length = 0
  · rw [if_pos h0, if_pos h0]; rfl
  · rw [if_neg h0, if_neg h0, getD_map_lt' _ _ _ (by omega), getD_map_lt' _ _ _ (by omega)]
    split
    · rfl
    · simp only [Option.map_some, Option.some.injEq]; ring

/-- The median of the values below the 70th percentile. -/
def skyLevel (v : List ℚ) : Option ℚ := median (v.filter fun x => decide (x < percentile 70 v))

/-- Adding the absolute value of the least pixel and taking absolute values changes nothing. -/
theorem faint_eq (v : List ℚ) : median (faint v) = skyLevel v := by
  by_cases hv : v = []
  · subst hv; rfl
  unfold faint skyLevel
  congr 2
  funext x
  have e : (v.map fun y => abs (y + abs (minQ v))) = v.map fun y => 1 * y + |minQ v| := by
    refine List.map_congr_left fun y hy => ?_
    rw [abs_of_nonneg, one_mul]
    have := minQ_le v y hy
    have := neg_abs_le (minQ v)
    linarith
  rw [e, percentile_affine 70 (by norm_num) (by norm_num) v hv 1 _ one_pos]
  congr 1
  rw [eq_iff_iff]
  constructor <;> intro h <;> linarith

/-- C118: the level follows a change of sky brightness and exposure. -/
theorem skyLevel_affine (v : List ℚ) (c d : ℚ) (hc : 0 < c) :
    skyLevel (v.map fun x => c * x + d) = (skyLevel v).map fun x => c * x + d := by
  by_cases hv : v = []
  · subst hv; rfl
  unfold skyLevel
  rw [← median_affine _ c d hc, percentile_affine 70 (by norm_num) (by norm_num) v hv c d hc, List.filter_map]
  congr 3
  funext x
  simp only [Function.comp]
  congr 1
  rw [eq_iff_iff]
  constructor
  · intro h
    have : c * x < c * percentile 70 v := by linarith
    exact lt_of_mul_lt_mul_left this hc.le
  · intro h
    have := mul_lt_mul_of_pos_left h hc
    linarith

/-- C118: there is no level exactly if no pixel lies below the 70th percentile, which happens when the
faintest seven tenths of the pixels are equal. -/
theorem skyLevel_none_iff (v : List ℚ) : skyLevel v = none ↔ ∀ x ∈ v, percentile 70 v ≤ x := by
  unfold skyLevel median
  simp only [sortQ_length]
  constructor
  · intro h x hx
    by_contra hlt
    rw [not_le] at hlt
    have hne : (v.filter fun x => decide (x < percentile 70 v)).length ≠ 0 := by
      intro h0
      have := List.length_eq_zero_iff.1 h0
      have hm : x ∈ v.filter fun x => decide (x < percentile 70 v) :=
        List.mem_filter.2 ⟨hx, decide_eq_true hlt⟩
      rw [this] at hm
      cases hm
    rw [if_neg hne] at h
    split at h <;> cases h
  · intro h
    rw [if_pos]
    rw [List.length_eq_zero_iff, List.filter_eq_nil_iff]
    intro x hx
    simpa using h x hx

/-! ## The stamp -/

/-- The window has the finite pixels `v`. -/
def ShowsPixels (win : Img (Option ℚ)) (v : Img ℚ) : Prop :=
  v.shape = win.shape ∧ ∀ i < win.h, ∀ j < win.w, win.px i j = some (v.px i j)

/-- The sum of the pixels of `v` less `b`. -/
def fluxAbove (v : Img ℚ) (b : ℚ) : ℚ := (v.flat.map (· - b)).sum

theorem flat_of_shows (win : Img (Option ℚ)) (v : Img ℚ) (h : ShowsPixels win v) :
    win.flat = v.flat.map some := by
  obtain ⟨hs, hp⟩ := h
  have h1 : v.h = win.h := congrArg Prod.fst hs
  have h2 : v.w = win.w := congrArg Prod.snd hs
  unfold Img.flat
  rw [List.map_map, h1, h2]
  refine List.map_congr_left fun p hp' => ?_
  obtain ⟨a, b⟩ := Img.mem_indices.1 hp'
  exact hp _ a _ b

theorem shows_of_allFin (win : Img (Option ℚ)) (l : List ℚ) (h : allFin win.flat = some l) :
    ∃ v : Img ℚ, ShowsPixels win v ∧ v.flat = l := by
  have hl := (allFin_some _ _).1 h
  have hsh : ShowsPixels win ⟨win.h, win.w, fun i j => (win.px i j).getD 0⟩ := by
    refine ⟨rfl, fun i hi j hj => ?_⟩
    have hm : win.px i j ∈ win.flat := List.mem_map.2 ⟨(i, j), Img.mem_indices.2 ⟨hi, hj⟩, rfl⟩
    rw [hl] at hm
    obtain ⟨x, _, hx⟩ := List.mem_map.1 hm
    simp only [← hx, Option.getD_some]
  refine ⟨_, hsh, ?_⟩
  have := flat_of_shows _ _ hsh
  rw [hl] at this
  exact (List.map_injective_iff.2 (Option.some_injective ℚ) this).symm

theorem rebase_shows (win : Img (Option ℚ)) (v : Img ℚ) (b : ℚ) (h : ShowsPixels win v)
    (hb : skyLevel v.flat = some b) : ShowsPixels (rebase win) (v.map (· - b)) := by
  obtain ⟨hs, hp⟩ := h
  obtain ⟨r1, r2⟩ := rebase_shape win
  have hl : stampLevel win = some b := by
    unfold stampLevel
    rw [(allFin_some _ _).2 (flat_of_shows win v ⟨hs, hp⟩), Option.bind_some, faint_eq, hb]
  refine ⟨?_, fun i hi j hj => ?_⟩
  · change (v.h, v.w) = ((rebase win).h, (rebase win).w)
    rw [r1, r2]; exact hs
  · rw [rebase_eq, hl, hp i (r1 ▸ hi) j (r2 ▸ hj)]
    rfl

theorem flat_map_sub (v : Img ℚ) (b : ℚ) : (v.map (· - b)).flat = v.flat.map (· - b) := by
  unfold Img.flat Img.map
  rw [List.map_map]
  rfl

/-- What becomes of a window: NaN, ±∞, or the normalised pixels. -/
theorem unitSum_rebase (win : Img (Option ℚ)) (h0 : 0 < win.h) (w0 : 0 < win.w) :
    (∃ hh ww, unitSum (rebase win) = .nan hh ww ∧
      (none ∈ win.flat ∨ (∃ v, ShowsPixels win v ∧ skyLevel v.flat = none) ∨
        ∃ v b, ShowsPixels win v ∧ skyLevel v.flat = some b ∧ fluxAbove v b = 0 ∧ b ∈ v.flat)) ∨
    (∃ hh ww, unitSum (rebase win) = .inf hh ww ∧
      ∃ v b, ShowsPixels win v ∧ skyLevel v.flat = some b ∧ fluxAbove v b = 0 ∧ b ∉ v.flat) ∨
    (∃ a, unitSum (rebase win) = .fin a ∧ a.shape = win.shape ∧
      ∃ v b, ShowsPixels win v ∧ skyLevel v.flat = some b ∧ fluxAbove v b ≠ 0 ∧
        ∀ i < win.h, ∀ j < win.w, a.px i j = (v.px i j - b) / fluxAbove v b) := by
  obtain ⟨r1, r2⟩ := rebase_shape win
  have hnan : (∀ i j, (rebase win).px i j = none) → ∃ hh ww, unitSum (rebase win) = .nan hh ww := by
    intro hall
    have hm : none ∈ (rebase win).flat :=
      List.mem_map.2 ⟨(0, 0), Img.mem_indices.2 ⟨r1 ▸ h0, r2 ▸ w0⟩, hall 0 0⟩
    refine ⟨(rebase win).h, (rebase win).w, ?_⟩
    unfold unitSum
    rw [(allFin_none _).2 hm]
  cases hf : allFin win.flat with
  | none =>
    left
    obtain ⟨hh, ww, e⟩ := hnan fun i j => by
      rw [rebase_eq]
      unfold stampLevel
      rw [hf]
      cases win.px i j <;> rfl
    exact ⟨hh, ww, e, Or.inl ((allFin_none _).1 hf)⟩
  | some l =>
    obtain ⟨v, hv, hl⟩ := shows_of_allFin win l hf
    cases hb : skyLevel v.flat with
    | none =>
      left
      obtain ⟨hh, ww, e⟩ := hnan fun i j => by
        rw [rebase_eq]
        unfold stampLevel
        rw [hf, Option.bind_some, faint_eq, ← hl, hb]
        cases win.px i j <;> rfl
      exact ⟨hh, ww, e, Or.inr (Or.inl ⟨v, hv, hb⟩)⟩
    | some b =>
      have hr := rebase_shows win v b hv hb
      have hfl := flat_of_shows _ _ hr
      rw [flat_map_sub] at hfl
      have hfin := (allFin_some _ _).2 hfl
      by_cases hz : fluxAbove v b = 0
      · by_cases hbm : b ∈ v.flat
        · left
          refine ⟨(rebase win).h, (rebase win).w, ?_, Or.inr (Or.inr ⟨v, b, hv, hb, hz, hbm⟩)⟩
          unfold unitSum
          rw [hfin]
          simp only []
          rw [if_pos (show (v.flat.map (· - b)).sum = 0 from hz), if_pos]
          rw [List.any_eq_true]
          exact ⟨b - b, List.mem_map.2 ⟨b, hbm, rfl⟩, by simp⟩
        · right; left
          refine ⟨(rebase win).h, (rebase win).w, ?_, v, b, hv, hb, hz, hbm⟩
          unfold unitSum
          rw [hfin]
          simp only []
          rw [if_pos (show (v.flat.map (· - b)).sum = 0 from hz), if_neg]
          rw [List.any_eq_true]
          rintro ⟨x, hx, hx0⟩
          obtain ⟨y, hy, rfl⟩ := List.mem_map.1 hx
          have : y = b := by
            have := of_decide_eq_true hx0
            linarith
          exact hbm (this ▸ hy)
      · right; right
        refine ⟨⟨(rebase win).h, (rebase win).w, fun i j => ((rebase win).px i j).getD 0 / fluxAbove v b⟩, ?_, ?_,
          v, b, hv, hb, hz, fun i hi j hj => ?_⟩
        · unfold unitSum
          rw [hfin]
          simp only []
          rw [if_neg (show ¬ (v.flat.map (· - b)).sum = 0 from hz)]
          rfl
        · change ((rebase win).h, (rebase win).w) = (win.h, win.w)
          rw [r1, r2]
        · change ((rebase win).px i j).getD 0 / _ = _
          rw [hr.2 i (r1 ▸ hi) j (r2 ▸ hj)]
          rfl

/-- The pixels of a normalised stamp add up to one. -/
theorem normalised_total (v a : Img ℚ) (b : ℚ) (hs : a.shape = v.shape) (hz : fluxAbove v b ≠ 0)
    (hp : ∀ i < v.h, ∀ j < v.w, a.px i j = (v.px i j - b) / fluxAbove v b) : a.flat.sum = 1 := by
  have h1 : a.h = v.h := congrArg Prod.fst hs
  have h2 : a.w = v.w := congrArg Prod.snd hs
  have e : a.flat = (v.flat.map (· - b)).map (· / fluxAbove v b) := by
    unfold Img.flat
    rw [List.map_map, List.map_map, h1, h2]
    refine List.map_congr_left fun p hp' => ?_
    obtain ⟨x, y⟩ := Img.mem_indices.1 hp'
    exact hp _ x _ y
  have hd : ∀ (l : List ℚ) (c : ℚ), (l.map (· / c)).sum = l.sum / c := by
    intro l c
    induction l with
    | nil => simp
    | cons x l ih => rw [List.map_cons, List.sum_cons, List.sum_cons, ih, add_div]
  rw [e, hd]
  exact div_self hz

/-- What an accepted candidate went through. -/
theorem accepted_window (e : Env) (strict : Bool) (sh : ℕ × ℕ) (img img' : Img (Option ℚ)) (src : SepRow)
    (st : Stamp) (h : tryStamp e strict sh img src = (.ok (.accept st), img')) :
    ∃ win, extractArray img (sh.1 + 6, sh.2 + 6) (src.y, src.x) e.rms = .ok win ∧ st = unitSum (rebase win) ∧
      (strict = true → ∃ a, st = .fin a) := by
  unfold tryStamp at h
  split at h
  · cases h
  · cases h
  · rename_i k sub hw
    simp only at h
    by_cases hk : k = 6
    · rw [if_neg (by simp [hk])] at h
      subst hk
      obtain ⟨_, _, _, hx, _⟩ := window_spec _ _ _ _ _ _ hw
      refine ⟨sub, hx, ?_⟩
      split at h
      · injection h with h _
        unfold strictCheck at h
        cases hu : unitSum (rebase sub) with
        | nan a b => rw [hu] at h; cases h
        | inf a b => rw [hu] at h; cases h
        | fin a =>
          rw [hu] at h
          simp only at h
          split at h
          · cases h
          · cases h
            exact ⟨rfl, fun _ => ⟨a, rfl⟩⟩
      · rename_i hs
        cases h
        exact ⟨rfl, fun hc => absurd hc hs⟩
    · rw [if_pos hk] at h
      cases h

/-- C118: a stored stamp whose pixels are finite consists of the pixels of the enlarged window (those of
the interpolated image, and the background rms outside of it) less the median of the pixels below their
70th percentile, divided by the sum of these differences, which is not zero; its pixels add up to one. -/
theorem stamp_content (e : Env) (strict : Bool) (sh : ℕ × ℕ) (img img' : Img (Option ℚ)) (src : SepRow)
    (a : Img ℚ) (h : tryStamp e strict sh img src = (.ok (.accept (.fin a)), img')) :
    ∃ win v b, extractArray img (sh.1 + 6, sh.2 + 6) (src.y, src.x) e.rms = .ok win ∧ ShowsPixels win v ∧
      skyLevel v.flat = some b ∧ fluxAbove v b ≠ 0 ∧ a.shape = v.shape ∧
      (∀ i < v.h, ∀ j < v.w, a.px i j = (v.px i j - b) / fluxAbove v b) ∧ a.flat.sum = 1 := by
  obtain ⟨win, hx, hst, _⟩ := accepted_window _ _ _ _ _ _ _ h
  obtain ⟨s1, s2⟩ := extractArray_shape _ _ _ _ _ hx
  simp only at s1 s2
  rcases unitSum_rebase win (by omega) (by omega) with ⟨_, _, hc, _⟩ | ⟨_, _, hc, _⟩ | ⟨a', ha, hsh, v, b, hv, hb, hz, hp⟩
  · rw [hc] at hst; cases hst
  · rw [hc] at hst; cases hst
  · rw [ha] at hst
    injection hst with hst
    subst hst
    have h1 : v.h = win.h := congrArg Prod.fst hv.1
    have h2 : v.w = win.w := congrArg Prod.snd hv.1
    have hp' : ∀ i < v.h, ∀ j < v.w, a.px i j = (v.px i j - b) / fluxAbove v b := by
      rw [h1, h2]; exact hp
    exact ⟨win, v, b, hx, hv, hb, hz, hsh.trans hv.1.symm, hp', normalised_total v a b (hsh.trans hv.1.symm) hz hp'⟩

/-- C118: a stored stamp has NaN pixels only without strict picking; then the enlarged window holds a NaN, or no pixel
lies below its 70th percentile, or the differences from the level add up to zero while one of them is zero. A stamp of
infinite pixels is stored if they add up to zero and none is zero. -/
theorem stamp_not_finite (e : Env) (strict : Bool) (sh : ℕ × ℕ) (img img' : Img (Option ℚ)) (src : SepRow)
    (st : Stamp) (h : tryStamp e strict sh img src = (.ok (.accept st), img')) (hn : ∀ a, st ≠ .fin a) :
    strict = false ∧ ∃ win, extractArray img (sh.1 + 6, sh.2 + 6) (src.y, src.x) e.rms = .ok win ∧
      (none ∈ win.flat ∨ (∃ v, ShowsPixels win v ∧ ∀ x ∈ v.flat, percentile 70 v.flat ≤ x) ∨
        ∃ v b, ShowsPixels win v ∧ skyLevel v.flat = some b ∧ fluxAbove v b = 0) := by
  obtain ⟨win, hx, hst, hs⟩ := accepted_window _ _ _ _ _ _ _ h
  obtain ⟨s1, s2⟩ := extractArray_shape _ _ _ _ _ hx
  simp only at s1 s2
  refine ⟨?_, win, hx, ?_⟩
  · cases strict with
    | false => rfl
    | true =>
      obtain ⟨a, ha⟩ := hs rfl
      exact absurd ha (hn a)
  · rcases unitSum_rebase win (by omega) (by omega) with ⟨_, _, hc, h'⟩ | ⟨_, _, hc, v, b, hv, hb, hz, _⟩ | ⟨a', ha, _⟩
    · rcases h' with h' | ⟨v, hv, hb⟩ | ⟨v, b, hv, hb, hz, _⟩
      · exact Or.inl h'
      · exact Or.inr (Or.inl ⟨v, hv, (skyLevel_none_iff _).1 hb⟩)
      · exact Or.inr (Or.inr ⟨v, b, hv, hb, hz⟩)
    · exact Or.inr (Or.inr ⟨v, b, hv, hb, hz⟩)
    · exact absurd (hst.trans ha) (hn a')

/-! ## Sky and exposure -/

/-- `img2` is the same field with another exposure `c` and a sky brighter by `d`. -/
def SameField (c d : ℚ) (img img2 : Img (Option ℚ)) : Prop :=
  img2.shape = img.shape ∧ ∀ i < img.h, ∀ j < img.w, img2.px i j = (img.px i j).map fun x => c * x + d

theorem fluxAbove_affine (v : Img ℚ) (b c d : ℚ) :
    fluxAbove (v.map fun x => c * x + d) (c * b + d) = c * fluxAbove v b := by
  unfold fluxAbove Img.flat Img.map
  rw [List.map_map, List.map_map, ← List.sum_map_mul_left]
  congr 1
  refine List.map_congr_left fun p _ => ?_
  simp only [Function.comp]
  ring

/-- C118: two frames of the same field that differ in exposure and in sky brightness give the same stamp of a star whose
enlarged window lies inside the frame, whatever their noise, if both stamps are stored and finite. -/
theorem stamp_exposure_sky (e e2 : Env) (strict strict2 : Bool) (sh : ℕ × ℕ) (img img2 img' img2' : Img (Option ℚ))
    (src : SepRow) (a a2 : Img ℚ) (c d : ℚ) (hc : 0 < c) (hf : SameField c d img img2)
    (hin : Inside img (sh.1 + 6, sh.2 + 6) (src.y, src.x))
    (h : tryStamp e strict sh img src = (.ok (.accept (.fin a)), img'))
    (h2 : tryStamp e2 strict2 sh img2 src = (.ok (.accept (.fin a2)), img2')) :
    a2.shape = a.shape ∧ ∀ i < a.h, ∀ j < a.w, a2.px i j = a.px i j := by
  obtain ⟨win, v, b, hx, hv, hb, hz, hs, hp, _⟩ := stamp_content _ _ _ _ _ _ _ h
  obtain ⟨win2, v2, b2, hx2, hv2, hb2, hz2, hs2, hp2, _⟩ := stamp_content _ _ _ _ _ _ _ h2
  obtain ⟨s1, s2⟩ := extractArray_shape _ _ _ _ _ hx
  obtain ⟨t1, t2⟩ := extractArray_shape _ _ _ _ _ hx2
  obtain ⟨i1, i2, i3, i4⟩ := hin
  obtain ⟨f1, f2⟩ := hf
  have fh : img2.h = img.h := congrArg Prod.fst f1
  have fw : img2.w = img.w := congrArg Prod.snd f1
  simp only at s1 s2 t1 t2 i1 i2 i3 i4
  have hw : ∀ i < sh.1 + 6, ∀ j < sh.2 + 6, win2.px i j = (win.px i j).map fun x => c * x + d := by
    intro i hi j hj
    unfold extractArray at hx hx2
    simp only at hx hx2
    split at hx
    · cases hx
    · split at hx2
      · cases hx2
      · cases hx
        cases hx2
        simp only
        rw [if_pos (by omega), if_pos (by omega)]
        exact f2 _ (by omega) _ (by omega)
  have v1 : v.h = sh.1 + 6 := (congrArg Prod.fst hv.1).trans s1
  have v1' : v.w = sh.2 + 6 := (congrArg Prod.snd hv.1).trans s2
  have w1 : v2.h = sh.1 + 6 := (congrArg Prod.fst hv2.1).trans t1
  have w1' : v2.w = sh.2 + 6 := (congrArg Prod.snd hv2.1).trans t2
  have hvv : ∀ i < sh.1 + 6, ∀ j < sh.2 + 6, v2.px i j = c * v.px i j + d := by
    intro i hi j hj
    have := hw i hi j hj
    rw [hv.2 i (s1 ▸ hi) j (s2 ▸ hj), hv2.2 i (t1 ▸ hi) j (t2 ▸ hj)] at this
    simpa using this
  have hflat : v2.flat = v.flat.map fun x => c * x + d := by
    unfold Img.flat
    rw [List.map_map, w1, w1', v1, v1']
    refine List.map_congr_left fun p hp' => ?_
    obtain ⟨x, y⟩ := Img.mem_indices.1 hp'
    exact hvv _ x _ y
  have hbb : b2 = c * b + d := by
    rw [hflat, skyLevel_affine _ c d hc, hb] at hb2
    simpa using hb2.symm
  have hff : fluxAbove v2 b2 = c * fluxAbove v b := by
    rw [hbb, ← fluxAbove_affine]
    unfold fluxAbove
    rw [hflat]
    congr 2
    unfold Img.flat Img.map
    rw [List.map_map]
    rfl
  have a1 : a.h = sh.1 + 6 := (congrArg Prod.fst hs).trans v1
  have a2' : a.w = sh.2 + 6 := (congrArg Prod.snd hs).trans v1'
  have hsv : v2.shape = v.shape := by
    change (v2.h, v2.w) = (v.h, v.w)
    rw [v1, v1', w1, w1']
  refine ⟨hs2.trans (hsv.trans hs.symm), fun i hi j hj => ?_⟩
  rw [a1] at hi
  rw [a2'] at hj
  rw [hp i (v1 ▸ hi) j (v1' ▸ hj), hp2 i (w1 ▸ hi) j (w1' ▸ hj), hvv i hi j hj, hff, hbb]
  have : c * v.px i j + d - (c * b + d) = c * (v.px i j - b) := by ring
  rw [this, mul_div_mul_left _ _ hc.ne']

/-! ### Concrete cases -/

/-- The field of `star_accepted` at twice the exposure under a sky brighter by 50, and its noise. -/
def starField2 : Img ℚ := starField.map fun x => 2 * x + 50

/-- An environment in which it is the interpolated image. -/
def starEnv2 : Env := { starEnv with rms := 3 / 2, interp := .ok starField2 }

/-- Both frames give the stamp whose central pixel is 33/53. -/
example : SameField 2 50 (starField.map some) (starField2.map some) ∧
    Inside (starField.map some) (5 + 6, 5 + 6) (starSrc.y, starSrc.x) ∧
    (match (tryStamp starEnv false (5, 5) (starField.map some) starSrc).1 with
      | .ok (.accept (.fin a)) => decide (a.px 5 5 = 33 / 53) | _ => false) = true ∧
    (match (tryStamp starEnv2 false (5, 5) (starField2.map some) starSrc).1 with
      | .ok (.accept (.fin a)) => decide (a.px 5 5 = 33 / 53) | _ => false) = true :=
  ⟨⟨rfl, fun _ _ _ _ => rfl⟩, by unfold Inside; decide +kernel, star_accepted, by decide +kernel⟩

/-- C118: on a flat frame above 3.5 times the noise a stamp of NaN is stored. -/
theorem flat_stamp_nan :
    (match (tryStamp starEnv false (5, 5) (starField.map fun _ => some 10) starSrc).1 with
      | .ok (.accept (.nan h w)) => decide (h = 11 ∧ w = 11) | _ => false) = true := by
  decide +kernel

end PI
