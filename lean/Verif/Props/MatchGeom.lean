import Verif.Props.TransparencyMore
import Mathlib.Analysis.Real.Sqrt
import Mathlib.Algebra.BigOperators.Intervals

/-! # Properties C13, C14, C16 in terms of Euclidean distances -/

namespace PI
open Finset

/-- The Euclidean distance of two points of the same dimension. -/
noncomputable def euclid (x y : Pt) : ℝ :=
  Real.sqrt (∑ i ∈ range x.length, ((x.getD i 0 : ℝ) - (y.getD i 0 : ℝ)) ^ 2)

theorem sqDist_sum : ∀ (x y : Pt), x.length = y.length →
    (sqDist x y : ℝ) = ∑ i ∈ range x.length, ((x.getD i 0 : ℝ) - (y.getD i 0 : ℝ)) ^ 2
  | [], [], _ => by simp [sqDist]
  | [], _ :: _, h => by simp at h
  | _ :: _, [], h => by simp at h
  | a :: x, b :: y, h => by
    have ih := sqDist_sum x y (by simpa using h)
    rw [List.length_cons, Finset.sum_range_succ']
    have e : sqDist (a :: x) (b :: y) = (a - b) ^ 2 + sqDist x y := by simp [sqDist]
    rw [e]
    push_cast
    rw [ih]
    simp only [List.getD_cons_succ, List.getD_cons_zero]
    ring

theorem euclid_sq (x y : Pt) (h : x.length = y.length) : euclid x y ^ 2 = (sqDist x y : ℝ) := by
  unfold euclid
  rw [sqDist_sum x y h, Real.sq_sqrt (Finset.sum_nonneg fun i _ => sq_nonneg _)]

theorem euclid_nonneg (x y : Pt) : 0 ≤ euclid x y := Real.sqrt_nonneg _

theorem sqrt_sqDist (x y : Pt) (h : x.length = y.length) :
    Real.sqrt (sqDist x y : ℝ) = euclid x y := by
  rw [← euclid_sq x y h, Real.sqrt_sq (euclid_nonneg x y)]

theorem sqDist_le_iff (x y x' y' : Pt) (h : x.length = y.length) (h' : x'.length = y'.length) :
    sqDist x y ≤ sqDist x' y' ↔ euclid x y ≤ euclid x' y' := by
  rw [← Rat.cast_le (K := ℝ), ← euclid_sq x y h, ← euclid_sq x' y' h']
  exact ⟨fun k => (sq_le_sq₀ (euclid_nonneg _ _) (euclid_nonneg _ _)).1 k, fun k => by
    have := euclid_nonneg x y; nlinarith⟩

theorem ltBound_iff (x y : Pt) (h : x.length = y.length) (r : ℚ) (hr : 0 ≤ r) :
    ltBound (sqDist x y) (some (r ^ 2)) = true ↔ euclid x y < r := by
  have h0 := euclid_nonneg x y
  have hr' : (0 : ℝ) ≤ r := by exact_mod_cast hr
  simp only [ltBound, decide_eq_true_eq]
  rw [← Rat.cast_lt (K := ℝ), ← euclid_sq x y h]
  push_cast
  constructor
  · intro k; nlinarith
  · intro k; nlinarith

/-- C13 in Euclidean terms: for points of dimension `D` and radius `r`, every row of `X1` gets a row
of `X2` at the smallest Euclidean distance, with that distance, if it is less than `r`; otherwise
`(inf, N2)`. (The model's distance is squared: `d` is its square root.) -/
theorem crossmatch_euclid (q : Query) (hq : KdContract q) (D : ℕ) (X1 X2 : List Pt) (r : ℚ)
    (hr : 0 ≤ r) (h1 : ∀ x ∈ X1, x.length = D) (h2 : ∀ y ∈ X2, y.length = D) :
    ∃ res, crossmatch q D D X1 X2 (some (r ^ 2)) = .ok res ∧ res.length = X1.length ∧
      ∀ (i : ℕ) (x : Pt), X1[i]? = some x →
        ((∃ (k : ℕ) (y : Pt) (d2 : ℚ), X2[k]? = some y ∧ euclid x y < r ∧
            (∀ y' ∈ X2, euclid x y ≤ euclid x y') ∧ res[i]? = some (some d2, k) ∧
            Real.sqrt (d2 : ℝ) = euclid x y) ∨
          ((∀ y ∈ X2, (r : ℝ) ≤ euclid x y) ∧ res[i]? = some (none, X2.length))) := by
  obtain ⟨res, e, hl, hrow⟩ := (crossmatch_spec q hq D D X1 X2 (some (r ^ 2))).2 rfl
  refine ⟨res, e, hl, fun i x hi => ?_⟩
  have hx := h1 x (List.mem_of_getElem? hi)
  rcases hrow i x hi with ⟨k, y, g1, g2, g3, g4⟩ | ⟨g1, g2⟩
  · have hy := h2 y (List.mem_of_getElem? g1)
    exact Or.inl ⟨k, y, sqDist x y, g1, (ltBound_iff x y (hx.trans hy.symm) r hr).1 g2,
      fun y' hy' => (sqDist_le_iff _ _ _ _ (hx.trans hy.symm) (hx.trans (h2 y' hy').symm)).1
        (g3 y' hy'), g4, sqrt_sqDist x y (hx.trans hy.symm)⟩
  · refine Or.inr ⟨fun y hy => ?_, g2⟩
    have := g1 y hy
    by_contra hlt
    rw [(ltBound_iff x y (hx.trans (h2 y hy).symm) r hr).2 (not_le.1 hlt)] at this
    exact absurd this (by simp)

theorem Cat.xy_length (c : Cat) (p : Pt) (h : p ∈ c.xy) : p.length = 2 := by
  unfold Cat.xy at h
  obtain ⟨s, _, rfl⟩ := List.mem_map.1 h
  rfl

/-- `p` and `c` are closer than 2 pixels and each is a nearest point of the other's catalogue. -/
def MutualWithin2 (M C : List Pt) (p c : Pt) : Prop :=
  euclid c p < 2 ∧ (∀ m ∈ M, euclid c p ≤ euclid c m) ∧ ∀ c' ∈ C, euclid p c ≤ euclid p c'

/-- Two sources that the search pairs are mutual nearest neighbours less than 2 pixels apart. -/
theorem mutualAt_within2 (q : Query) (hq : KdContract q) (cm ck : Cat) (o i : ℕ)
    (h : MutualAt q cm.xy ck.xy radius2 o i) :
    ∃ p c, cm.xy[o]? = some p ∧ ck.xy[i]? = some c ∧ MutualWithin2 cm.xy ck.xy p c := by
  obtain ⟨mo, ci, h1, h2, h3, h4, h5⟩ := mutual_geometry q hq _ _ _ o i h
  have l1 := cm.xy_length mo (List.mem_of_getElem? h1)
  have l2 := ck.xy_length ci (List.mem_of_getElem? h2)
  have hb : radius2 = some ((2 : ℚ) ^ 2) := by norm_num [radius2]
  rw [hb] at h3
  have h3' := (ltBound_iff ci mo (l2.trans l1.symm) 2 (by norm_num)).1 h3
  exact ⟨mo, ci, h1, h2, by exact_mod_cast h3',
    fun m hm => (sqDist_le_iff _ _ _ _ (l2.trans l1.symm) (l2.trans (cm.xy_length m hm).symm)).1
      (h4 m hm),
    fun c hc => (sqDist_le_iff _ _ _ _ (l1.trans l2.symm) (l1.trans (ck.xy_length c hc).symm)).1
      (h5 c hc)⟩

/-- C16 in Euclidean terms: without distance ties a master source enters the fit exactly if in every
other image it has a mutual nearest neighbour less than 2 pixels away. -/
theorem transparency_detected_iff (q : Query) (hq : KdContract q) (st : Store) (images : List ℕ)
    (master : Option ℕ) (m : ℕ) (imgs : List ℕ)
    (hs : splitMaster images master = .ok (m, imgs)) (hnd : imgs.Nodup)
    (hfresh : (st m).Fresh) (hnt : ∀ k ∈ imgs, NoTies (st m).xy (st k).xy) :
    ∃ r, trMatch q st images master = .ok r ∧ ∀ (o : ℕ) (p : Pt), (st m).xy[o]? = some p →
      (r.det[o]? = some true ↔
        ∀ k ∈ imgs, ∃ c ∈ (st k).xy, MutualWithin2 (st m).xy (st k).xy p c) := by
  obtain ⟨r, D, F, h1, _, _, h4, _, _, h7, _⟩ :=
    transparency_detect q hq st images master m imgs hs hnd hfresh
  refine ⟨r, h1, fun o p hp => ?_⟩
  have ho : o < (st m).rows.length := by
    have := (List.getElem?_eq_some_iff.1 hp).1
    simpa [Cat.xy] using this
  rw [h4, h7, and_iff_right ho]
  refine forall_congr' fun k => forall_congr' fun hk => ?_
  constructor
  · rintro ⟨i, hi⟩
    obtain ⟨p', c, g1, g2, g3⟩ := mutualAt_within2 q hq _ _ o i hi
    rw [hp] at g1
    obtain rfl := Option.some.inj g1
    exact ⟨c, List.mem_of_getElem? g2, g3⟩
  · rintro ⟨c, hc, g1, g2, g3⟩
    have l1 := (st m).xy_length p (List.mem_of_getElem? hp)
    have l2 := (st k).xy_length c hc
    have hb : radius2 = some ((2 : ℚ) ^ 2) := by norm_num [radius2]
    refine (mutual_iff_geometry q hq _ _ radius2 (hnt k hk) o).2 ⟨p, c, hp, hc, ?_, ?_, ?_⟩
    · rw [hb]
      exact (ltBound_iff c p (l2.trans l1.symm) 2 (by norm_num)).2 (by exact_mod_cast g1)
    · intro m' hm'
      exact (sqDist_le_iff _ _ _ _ (l2.trans l1.symm)
        (l2.trans ((st m).xy_length m' hm').symm)).2 (g2 m' hm')
    · intro c' hc'
      exact (sqDist_le_iff _ _ _ _ (l1.trans l2.symm)
        (l1.trans ((st k).xy_length c' hc').symm)).2 (g3 c' hc')

/-- A pair of catalogues without ties: one source 1.5 pixels away is matched, one 2.5 pixels away
is not. -/
example : (trMatch bruteQuery (fun k => if k = 0 then ⟨[⟨0, 0, 5, 0⟩, ⟨30, 0, 5, 0⟩], false, none⟩
      else ⟨[⟨3 / 2, 0, 5, 0⟩, ⟨30, 5 / 2, 5, 0⟩], false, none⟩) [0, 1] none).map (·.det) =
    .ok [true, false] := by decide +kernel

example : NoTies [[0, 0], [30, 0]] [[3 / 2, 0], [30, 5 / 2]] := by
  unfold NoTies
  decide +kernel

example : euclid [0, 0] [3, 4] = 5 := by
  rw [← sqrt_sqDist [0, 0] [3, 4] rfl]
  rw [show ((sqDist [0, 0] [3, 4] : ℚ) : ℝ) = 5 ^ 2 by norm_num [sqDist], Real.sqrt_sq (by norm_num)]

end PI
