import Verif.Props.TransparencySwap

/-!
# Property C141: the order and the frame of the star lists, and stars without a counterpart, in `transparency`
-/

namespace PI

open Finset

/-- `a` and `b` are each other's nearest, `a` being in `M` and `b` in `C`, and nearer than the bound. -/
def NearestPair (M C : List Pt) (bd : Bound) (a b : Pt) : Prop :=
  ltBound (sqDist b a) bd = true ∧ (∀ m ∈ M, sqDist b a ≤ sqDist b m) ∧ (∀ c ∈ C, sqDist a b ≤ sqDist a c)

/-- Without ties the match is decided by the positions. -/
theorem mutual_iff_nearest (q : Query) (hq : KdContract q) (M C : List Pt) (bd : Bound) (hnt : NoTies M C) (o i : ℕ) :
    MutualAt q M C bd o i ↔ ∃ a b, M[o]? = some a ∧ C[i]? = some b ∧ NearestPair M C bd a b := by
  constructor
  · intro h
    obtain ⟨a, b, h1, h2, h3, h4, h5⟩ := mutual_geometry q hq M C bd o i h
    exact ⟨a, b, h1, h2, h3, h4, h5⟩
  · rintro ⟨a, b, h1, h2, h3, h4, h5⟩
    refine strict_neighbours_matched q hq M C bd o i a b h1 h2 h3 (by rw [sqDist_comm]; exact h3) ?_ ?_
    · intro k m hk hko
      exact nodup_map_strict (sqDist b) M (hnt.1 b (List.mem_of_getElem? h2)) o k a m h1 hk hko
        (h4 m (List.mem_of_getElem? hk))
    · intro k c hk hki
      exact nodup_map_strict (sqDist a) C (hnt.2 a (List.mem_of_getElem? h1)) i k b c h2 hk hki
        (h5 c (List.mem_of_getElem? hk))

/-! ## Reordering and moving -/

/-- List `B` is list `A` in the order `σ`, every point moved by `T`. -/
def MovedList (T : Pt → Pt) (σ : Equiv.Perm ℕ) (A B : List Pt) : Prop := ∀ i, B[i]? = (A[σ i]?).map T

theorem MovedList.mem {T : Pt → Pt} {σ : Equiv.Perm ℕ} {A B : List Pt} (h : MovedList T σ A B) (y : Pt) :
    y ∈ B ↔ ∃ x ∈ A, T x = y := by
  constructor
  · intro hy
    obtain ⟨i, hi⟩ := List.mem_iff_getElem?.1 hy
    rw [h i, Option.map_eq_some_iff] at hi
    obtain ⟨x, hx, rfl⟩ := hi
    exact ⟨x, List.mem_of_getElem? hx, rfl⟩
  · rintro ⟨x, hx, rfl⟩
    obtain ⟨j, hj⟩ := List.mem_iff_getElem?.1 hx
    refine List.mem_iff_getElem?.2 ⟨σ.symm j, ?_⟩
    rw [h, Equiv.apply_symm_apply, hj]
    rfl

/-- `T` keeps the distances between the points of two lists. -/
def KeepsDist (T : Pt → Pt) (A B : List Pt) : Prop := ∀ a ∈ A, ∀ b ∈ B, sqDist (T a) (T b) = sqDist a b

theorem KeepsDist.symm {T : Pt → Pt} {A B : List Pt} (h : KeepsDist T A B) : KeepsDist T B A := by
  intro b hb a ha
  rw [sqDist_comm, h a ha b hb, sqDist_comm]

theorem MovedList.nodup {T : Pt → Pt} {σ : Equiv.Perm ℕ} {A B : List Pt} (h : MovedList T σ A B) (x : Pt)
    (hT : ∀ a ∈ A, sqDist (T x) (T a) = sqDist x a) (hn : (A.map (sqDist x)).Nodup) : (B.map (sqDist (T x))).Nodup := by
  have he : ∀ i, (B.map (sqDist (T x)))[i]? = (A.map (sqDist x))[σ i]? := by
    intro i
    rw [List.getElem?_map, h i, List.getElem?_map, Option.map_map]
    cases ha : A[σ i]? with
    | none => rfl
    | some a => exact congrArg some (hT a (List.mem_of_getElem? ha))
  rw [List.nodup_iff_getElem?_ne_getElem?] at *
  intro i j hij hj e
  rw [he i, he j] at e
  have hj' : σ j < (A.map (sqDist x)).length := by
    by_contra hc
    have h1 := he j
    rw [List.getElem?_eq_getElem hj, List.getElem?_eq_none (Nat.le_of_not_lt hc)] at h1
    cases h1
  have hi' : σ i < (A.map (sqDist x)).length := by
    by_contra hc
    rw [List.getElem?_eq_none (by omega), List.getElem?_eq_getElem hj'] at e
    cases e
  have hne : σ i ≠ σ j := fun hc => absurd (σ.injective hc) (by omega)
  rcases lt_or_gt_of_ne hne with hl | hl
  · exact hn _ _ hl hj' e
  · exact hn _ _ hl hi' e.symm

/-- Moving and reordering two lists makes the corresponding matches. -/
theorem mutual_moved (q q' : Query) (hq : KdContract q) (hq' : KdContract q') (T : Pt → Pt) (σ τ : Equiv.Perm ℕ)
    (M C M' C' : List Pt) (hM : MovedList T σ M M') (hC : MovedList T τ C C') (hT : KeepsDist T M C) (bd : Bound)
    (hnt : NoTies M C) (o i : ℕ) : MutualAt q' M' C' bd o i ↔ MutualAt q M C bd (σ o) (τ i) := by
  have hnt' : NoTies M' C' := by
    constructor
    · intro c hc
      obtain ⟨c0, hc0, rfl⟩ := (hC.mem c).1 hc
      exact hM.nodup c0 (fun a ha => hT.symm c0 hc0 a ha) (hnt.1 c0 hc0)
    · intro m hm
      obtain ⟨m0, hm0, rfl⟩ := (hM.mem m).1 hm
      exact hC.nodup m0 (fun a ha => hT m0 hm0 a ha) (hnt.2 m0 hm0)
  rw [mutual_iff_nearest q' hq' M' C' bd hnt', mutual_iff_nearest q hq M C bd hnt]
  have hnp : ∀ a ∈ M, ∀ b ∈ C, NearestPair M' C' bd (T a) (T b) ↔ NearestPair M C bd a b := by
    intro a ha b hb
    unfold NearestPair
    rw [hT.symm b hb a ha, hT a ha b hb]
    refine and_congr_right fun _ => and_congr ?_ ?_
    · constructor
      · intro h m hm
        rw [← hT.symm b hb m hm]
        exact h _ ((hM.mem _).2 ⟨m, hm, rfl⟩)
      · intro h m hm
        obtain ⟨m0, hm0, rfl⟩ := (hM.mem m).1 hm
        rw [hT.symm b hb m0 hm0]
        exact h m0 hm0
    · constructor
      · intro h m hm
        rw [← hT a ha m hm]
        exact h _ ((hC.mem _).2 ⟨m, hm, rfl⟩)
      · intro h m hm
        obtain ⟨m0, hm0, rfl⟩ := (hC.mem m).1 hm
        rw [hT a ha m0 hm0]
        exact h m0 hm0
  constructor
  · rintro ⟨a, b, h1, h2, h3⟩
    rw [hM o, Option.map_eq_some_iff] at h1
    rw [hC i, Option.map_eq_some_iff] at h2
    obtain ⟨a0, ha, rfl⟩ := h1
    obtain ⟨b0, hb, rfl⟩ := h2
    exact ⟨a0, b0, ha, hb, (hnp a0 (List.mem_of_getElem? ha) b0 (List.mem_of_getElem? hb)).1 h3⟩
  · rintro ⟨a, b, h1, h2, h3⟩
    refine ⟨T a, T b, ?_, ?_, (hnp a (List.mem_of_getElem? h1) b (List.mem_of_getElem? h2)).2 h3⟩
    · rw [hM o, h1]; rfl
    · rw [hC i, h2]; rfl

/-- Catalogue `d` lists the stars of `c` in the order `σ`, with the same fluxes and every position moved by `T`. -/
structure MovedCat (T : Pt → Pt) (σ : Equiv.Perm ℕ) (c d : Cat) : Prop where
  xy : MovedList T σ c.xy d.xy
  flux : ∀ i, (d.rows[i]?).map (·.flux) = (c.rows[σ i]?).map (·.flux)

/-- C141: for two images, listing the stars in another order (another one for each image) and moving all positions
in a way that keeps distances gives the same zero points. The neighbour search may even be another one. -/
theorem transparency_moved (q q' : Query) (hq : KdContract q) (hq' : KdContract q') (lsqr : ℕ → ℕ → List ℝ → ℕ → ℝ)
    (hl : MinLsqSolver lsqr) (st st' : Store) (m k : ℕ) (hm : (st m).Fresh) (hm' : (st' m).Fresh) (T : Pt → Pt)
    (σ τ : Equiv.Perm ℕ) (hM : MovedCat T σ (st m) (st' m)) (hC : MovedCat T τ (st k) (st' k))
    (hT : KeepsDist T (st m).xy (st k).xy) (hnt : NoTies (st m).xy (st k).xy) :
    ∃ zps mm mm' s s', transparency q lsqr st [m, k] none = .ok (zps, mm, s) ∧
      transparency q' lsqr st' [m, k] none = .ok (zps, mm', s') := by
  obtain ⟨mm, s, e⟩ := transparency_pairs q hq lsqr hl st m k hm
  obtain ⟨mm', s', e'⟩ := transparency_pairs q' hq' lsqr hl st' m k hm'
  refine ⟨_, mm, mm', s, s', e, ?_⟩
  have hsum : ∀ f : ℕ × ℕ → ℝ, ∑ p ∈ commonPairs q' (st' m) (st' k), f (σ p.1, τ p.2) =
      ∑ p ∈ commonPairs q (st m) (st k), f p := by
    intro f
    refine Finset.sum_equiv (Equiv.prodCongr σ τ) (fun p => ?_) fun _ _ => rfl
    rw [mem_commonPairs, mem_commonPairs]
    exact mutual_moved q q' hq hq' T σ τ _ _ _ _ hM.xy hC.xy hT radius2 hnt p.1 p.2
  have hcard : (commonPairs q' (st' m) (st' k)).card = (commonPairs q (st m) (st k)).card := by
    have := hsum fun _ => 1
    simp only [sum_const, nsmul_eq_mul, mul_one] at this
    exact_mod_cast this
  have hmag : ∀ (c d : Cat) (ρ : Equiv.Perm ℕ), MovedCat T ρ c d → ∀ i, rowMag d i = rowMag c (ρ i) := by
    intro c d ρ h i
    unfold rowMag
    rw [h.flux i]
  rw [e', hcard]
  simp only [hmag _ _ _ hM, hmag _ _ _ hC]
  rw [hsum fun p => rowMag (st m) p.1, hsum fun p => rowMag (st k) p.2]

/-- Shifts and rotations by exact angles keep distances. -/
theorem shift_keeps (a b : ℚ) (x y x' y' : ℚ) :
    sqDist [x + a, y + b] [x' + a, y' + b] = sqDist [x, y] [x', y'] := by
  rw [sqDist_two, sqDist_two]
  ring

theorem rotation_keeps (c s : ℚ) (h : c ^ 2 + s ^ 2 = 1) (x y x' y' : ℚ) :
    sqDist [c * x - s * y, s * x + c * y] [c * x' - s * y', s * x' + c * y'] = sqDist [x, y] [x', y'] := by
  rw [sqDist_two, sqDist_two]
  linear_combination ((x - x') ^ 2 + (y - y') ^ 2) * h

/-! ## Stars without a counterpart -/

/-- Further points, all at the matching radius or farther from the other list, make no matches and change none. -/
theorem mutual_far (q q' : Query) (hq : KdContract q) (hq' : KdContract q') (M C E F : List Pt)
    (hE : ∀ e ∈ E, ∀ c ∈ C ++ F, 4 ≤ sqDist e c) (hF : ∀ f ∈ F, ∀ m ∈ M ++ E, 4 ≤ sqDist f m) (hnt : NoTies M C)
    (o i : ℕ) : MutualAt q' (M ++ E) (C ++ F) radius2 o i ↔ MutualAt q M C radius2 o i := by
  have hlt : ∀ x : ℚ, ltBound x radius2 = true ↔ x < 4 := by
    intro x
    simp [ltBound, radius2]
  constructor
  · intro h
    obtain ⟨a, b, h1, h2, h3, h4, h5⟩ := mutual_geometry q' hq' _ _ _ o i h
    rw [hlt] at h3
    have ho : o < M.length := by
      by_contra hc
      rw [List.getElem?_append_right (by omega)] at h1
      have := hE a (List.mem_of_getElem? h1) b (List.mem_of_getElem? h2)
      rw [sqDist_comm] at this
      linarith
    have hi : i < C.length := by
      by_contra hc
      rw [List.getElem?_append_right (by omega)] at h2
      have := hF b (List.mem_of_getElem? h2) a (List.mem_of_getElem? h1)
      linarith
    rw [List.getElem?_append_left ho] at h1
    rw [List.getElem?_append_left hi] at h2
    refine (mutual_iff_nearest q hq M C radius2 hnt o i).2 ⟨a, b, h1, h2, (hlt _).2 h3,
      fun m hm => h4 m (List.mem_append_left _ hm), fun c hc => h5 c (List.mem_append_left _ hc)⟩
  · intro h
    obtain ⟨a, b, h1, h2, h3, h4, h5⟩ := (mutual_iff_nearest q hq M C radius2 hnt o i).1 h
    have h3' := (hlt _).1 h3
    have ho := (List.getElem?_eq_some_iff.1 h1).1
    have hi := (List.getElem?_eq_some_iff.1 h2).1
    refine strict_neighbours_matched q' hq' _ _ _ o i a b (by rw [List.getElem?_append_left ho]; exact h1)
      (by rw [List.getElem?_append_left hi]; exact h2) h3 (by rw [sqDist_comm]; exact h3) ?_ ?_
    · intro k m hk hko
      by_cases hkl : k < M.length
      · rw [List.getElem?_append_left hkl] at hk
        exact nodup_map_strict (sqDist b) M (hnt.1 b (List.mem_of_getElem? h2)) o k a m h1 hk hko
          (h4 m (List.mem_of_getElem? hk))
      · rw [List.getElem?_append_right (by omega)] at hk
        have := hE m (List.mem_of_getElem? hk) b (List.mem_append_left _ (List.mem_of_getElem? h2))
        rw [sqDist_comm] at this
        linarith
    · intro k c hk hki
      by_cases hkl : k < C.length
      · rw [List.getElem?_append_left hkl] at hk
        exact nodup_map_strict (sqDist a) C (hnt.2 a (List.mem_of_getElem? h1)) i k b c h2 hk hki
          (h5 c (List.mem_of_getElem? hk))
      · rw [List.getElem?_append_right (by omega)] at hk
        have := hF c (List.mem_of_getElem? hk) a (List.mem_append_left _ (List.mem_of_getElem? h1))
        rw [sqDist_comm b a] at h3'
        rw [sqDist_comm] at this
        linarith

/-- C141: stars seen in one image only (two pixels or more from every star of the other) do not change the zero points
of two images, however bright they are. -/
theorem transparency_far (q q' : Query) (hq : KdContract q) (hq' : KdContract q') (lsqr : ℕ → ℕ → List ℝ → ℕ → ℝ)
    (hl : MinLsqSolver lsqr) (st st' : Store) (m k : ℕ) (hm : (st m).Fresh) (hm' : (st' m).Fresh) (E F : List Src)
    (hM : (st' m).rows = (st m).rows ++ E) (hC : (st' k).rows = (st k).rows ++ F)
    (hE : ∀ e ∈ E, ∀ c ∈ (st' k).rows, 4 ≤ sqDist [e.x, e.y] [c.x, c.y])
    (hF : ∀ f ∈ F, ∀ c ∈ (st' m).rows, 4 ≤ sqDist [f.x, f.y] [c.x, c.y]) (hnt : NoTies (st m).xy (st k).xy) :
    ∃ zps mm mm' s s', transparency q lsqr st [m, k] none = .ok (zps, mm, s) ∧
      transparency q' lsqr st' [m, k] none = .ok (zps, mm', s') := by
  obtain ⟨mm, s, e⟩ := transparency_pairs q hq lsqr hl st m k hm
  obtain ⟨mm', s', e'⟩ := transparency_pairs q' hq' lsqr hl st' m k hm'
  refine ⟨_, mm, mm', s, s', e, ?_⟩
  have hxm : (st' m).xy = (st m).xy ++ E.map fun s => [s.x, s.y] := by
    unfold Cat.xy
    rw [hM, List.map_append]
  have hxk : (st' k).xy = (st k).xy ++ F.map fun s => [s.x, s.y] := by
    unfold Cat.xy
    rw [hC, List.map_append]
  have hpairs : commonPairs q' (st' m) (st' k) = commonPairs q (st m) (st k) := by
    ext p
    rw [mem_commonPairs, mem_commonPairs, hxm, hxk]
    refine mutual_far q q' hq hq' _ _ _ _ ?_ ?_ hnt p.1 p.2
    · intro e he c hc
      obtain ⟨e0, he0, rfl⟩ := List.mem_map.1 he
      rw [← hxk] at hc
      obtain ⟨c0, hc0, rfl⟩ := List.mem_map.1 hc
      exact hE e0 he0 c0 hc0
    · intro e he c hc
      obtain ⟨e0, he0, rfl⟩ := List.mem_map.1 he
      rw [← hxm] at hc
      obtain ⟨c0, hc0, rfl⟩ := List.mem_map.1 hc
      exact hF e0 he0 c0 hc0
  have hmag : ∀ (c d : Cat) (G : List Src), d.rows = c.rows ++ G → ∀ i < c.rows.length, rowMag d i = rowMag c i := by
    intro c d G h i hi
    unfold rowMag
    rw [h, List.getElem?_append_left hi]
  have hlen : ∀ p ∈ commonPairs q (st m) (st k), p.1 < (st m).rows.length ∧ p.2 < (st k).rows.length := by
    intro p hp
    obtain ⟨a, b, h1, h2, _⟩ := (mem_commonPairs _ _ _ _).1 hp
    have l1 := (List.getElem?_eq_some_iff.1 h1).1
    have l2 := (List.getElem?_eq_some_iff.1 h2).1
    simp only [Cat.xy, List.length_map] at l1 l2
    exact ⟨l1, l2⟩
  rw [e', hpairs, sum_congr rfl fun p hp => hmag _ _ _ hM p.1 (hlen p hp).1,
    sum_congr rfl fun p hp => hmag _ _ _ hC p.2 (hlen p hp).2]

/-! ## Three images -/

/-- The stars of `twoStars`, the brighter one first. -/
def twoStarsRev : Store := fun _ => ⟨[⟨50, 50, 10 ^ 4, 0⟩, ⟨0, 0, 10 ^ 2, 0⟩], false, none⟩

/-- C141: with three images the order of the rows decides the zero points, the same in all the images. -/
theorem transparency_row_order (lsqr : ℕ → ℕ → List ℝ → ℕ → ℝ) (hl : MinLsqSolver lsqr) :
    ∃ mm mm' s s', transparency bruteQuery lsqr twoStars [0, 1, 2] none = .ok ([5, 15 / 2, 5 / 2], mm, s) ∧
      transparency bruteQuery lsqr twoStarsRev [0, 1, 2] none = .ok ([5, 5 / 2, 15 / 2], mm', s') := by
  obtain ⟨mm, s, e⟩ := transparency_copies bruteQuery bruteQuery_contract lsqr hl twoStars 0 [1, 2] (by decide) rfl
    (fun _ _ => rfl) (by simp [twoStars]) (by simp [twoStars, Cat.xy])
  obtain ⟨mm', s', e'⟩ := transparency_copies bruteQuery bruteQuery_contract lsqr hl twoStarsRev 0 [1, 2] (by decide) rfl
    (fun _ _ => rfl) (by simp [twoStarsRev]) (by simp [twoStarsRev, Cat.xy])
  obtain ⟨z0, z1, z2⟩ := twoStars_order
  refine ⟨mm, mm', s, s', ?_, ?_⟩
  · rw [e]
    change Except.ok ([copyZp 3 2 (rowMag (twoStars 0)) 0, copyZp 3 2 (rowMag (twoStars 0)) 1,
      copyZp 3 2 (rowMag (twoStars 0)) 2], mm, s) = _
    rw [z0, z1, z2]
  · rw [e']
    change Except.ok ([copyZp 3 2 (rowMag (twoStarsRev 0)) 0, copyZp 3 2 (rowMag (twoStarsRev 0)) 1,
      copyZp 3 2 (rowMag (twoStarsRev 0)) 2], mm', s') = _
    have m0 : rowMag (twoStarsRev 0) 0 = 10 := by
      have := magOf_pow10 4
      simp only [rowMag, twoStarsRev, List.getElem?_cons_zero, Option.map_some, Option.getD_some]
      rw [this]
      norm_num
    have m1 : rowMag (twoStarsRev 0) 1 = 15 := by
      have := magOf_pow10 2
      simp only [rowMag, twoStarsRev, List.getElem?_cons_succ, List.getElem?_cons_zero, Option.map_some, Option.getD_some]
      rw [this]
      norm_num
    obtain ⟨y0, y1, y2⟩ := copyZp_three_two (rowMag (twoStarsRev 0))
    rw [m0, m1] at y0 y1 y2
    rw [y0, y1, y2]
    norm_num

/-- Two images with two stars each, in opposite orders and shifted by 100 pixels: the hypotheses of
`transparency_moved` hold. -/
example : MovedCat (fun p => match p with | [x, y] => [x + 100, y] | l => l) (Equiv.swap 0 1)
      ⟨[⟨10, 10, 7, 0⟩, ⟨30, 10, 5, 0⟩], false, none⟩ ⟨[⟨130, 10, 5, 0⟩, ⟨110, 10, 7, 0⟩], false, none⟩ ∧
    KeepsDist (fun p => match p with | [x, y] => [x + 100, y] | l => l) [[10, 10], [30, 10]] [[11, 10], [31, 11]] ∧
    NoTies [[10, 10], [30, 10]] [[11, 10], [31, 11]] := by
  refine ⟨⟨?_, ?_⟩, by unfold KeepsDist; decide +kernel, by unfold NoTies; decide +kernel⟩
  · intro i
    rcases i with _ | _ | i
    · norm_num [Cat.xy]
    · norm_num [Cat.xy]
    · rw [Equiv.swap_apply_of_ne_of_ne (by omega) (by omega)]
      simp [Cat.xy]
  · intro i
    rcases i with _ | _ | i
    · simp
    · simp
    · rw [Equiv.swap_apply_of_ne_of_ne (by omega) (by omega)]
      simp

end PI
