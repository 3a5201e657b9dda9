import Verif.Model.Utils
import Mathlib.Logic.Relation
import Mathlib.Algebra.Order.BigOperators.Group.Finset
import Mathlib.Algebra.BigOperators.Ring.Finset
import Mathlib.Data.Finset.Max
import Mathlib.SetTheory.Cardinal.NatCard
import Mathlib.Data.Finite.Prod
import Mathlib.Tactic.Linarith
import Mathlib.Tactic.Ring
import Mathlib.Tactic.NormNum
import Mathlib.Tactic.IntervalCases

/-!
# Local maxima, storing images and aligned file names (C75-C77)
-/

namespace PI

/-- Two pixels share an edge. -/
def Adj4 (p q : ℕ × ℕ) : Prop :=
  (p.1 = q.1 ∧ (p.2 = q.2 + 1 ∨ q.2 = p.2 + 1)) ∨ (p.2 = q.2 ∧ (p.1 = q.1 + 1 ∨ q.1 = p.1 + 1))

/-- A true pixel of the array. -/
def On (m : Img Bool) (p : ℕ × ℕ) : Prop := p.1 < m.h ∧ p.2 < m.w ∧ m.px p.1 p.2 = true

/-- Connected through true pixels. -/
def Conn (m : Img Bool) : ℕ × ℕ → ℕ × ℕ → Prop :=
  Relation.ReflTransGen fun p q => On m p ∧ On m q ∧ Adj4 p q

/-- What scipy documents about `ndimage.label`: labels 1 to `num`, all used, zero on false pixels, and equal on two
true pixels exactly if they are connected. -/
structure IsLabelling (m : Img Bool) (L : Labels) : Prop where
  zero : ∀ i < m.h, ∀ j < m.w, (L.lab i j = 0 ↔ m.px i j = false)
  le : ∀ i < m.h, ∀ j < m.w, L.lab i j ≤ L.num
  used : ∀ k, 1 ≤ k → k ≤ L.num → ∃ p, On m p ∧ L.lab p.1 p.2 = k
  same : ∀ p q, On m p → On m q → (L.lab p.1 p.2 = L.lab q.1 q.2 ↔ Conn m p q)

/-- The detected pixels. -/
def detected (S : Img ℚ) (mean std thr : ℚ) : Img Bool :=
  ⟨S.h, S.w, fun i j => (signif mean std (S.px i j)).gt thr⟩

/-- Pixels of the image in a set, weighted mean of a coordinate: `Σ v c / Σ v`. -/
def IsCentroid (S : Img ℚ) (P : ℕ → ℕ → Prop) [∀ i j, Decidable (P i j)] (x y : ℚ) : Prop :=
  let n := ∑ i ∈ Finset.range S.h, ∑ j ∈ Finset.range S.w, if P i j then S.px i j else 0
  n ≠ 0 ∧ x * n = (∑ i ∈ Finset.range S.h, ∑ j ∈ Finset.range S.w, if P i j then S.px i j * i else 0) ∧
    y * n = ∑ i ∈ Finset.range S.h, ∑ j ∈ Finset.range S.w, if P i j then S.px i j * j else 0

theorem mapM_ok_iff {α β : Type} (f : α → Py β) (l : List α) (r : List β) :
    l.mapM f = .ok r ↔ List.Forall₂ (fun a b => f a = .ok b) l r := by
  induction l generalizing r with
  | nil =>
    rw [List.mapM_nil]
    constructor
    · intro h; cases h; exact .nil
    · intro h; cases h; rfl
  | cons a l ih =>
    rw [List.mapM_cons]
    constructor
    · intro h
      cases ha : f a with
      | error e => rw [ha] at h; cases h
      | ok b =>
        rw [ha] at h
        cases hl : l.mapM f with
        | error e => rw [hl] at h; cases h
        | ok bs => rw [hl] at h; cases h; exact .cons ha ((ih _).mp hl)
    · intro h
      cases h with
      | cons ha hl => rw [ha, (ih _).mpr hl]; rfl

theorem maxEntry_ok (S : Img ℚ) (mean std : ℚ) (x y : FVal) (e : FVal × FVal × FVal) :
    maxEntry S mean std x y = .ok e ↔ ∃ qx qy p q, x = .fin qx ∧ y = .fin qy ∧
      pyIdx S.h (pyInt qx) = some p ∧ pyIdx S.w (pyInt qy) = some q ∧
      e = (.fin qy, .fin qx, signif mean std (S.px p q)) := by
  constructor
  · intro h
    cases x with
    | nan => cases h
    | pinf => cases h
    | ninf => cases h
    | fin qx =>
      cases y with
      | nan => cases h
      | pinf => cases h
      | ninf => cases h
      | fin qy =>
        change (match pyIdx S.h (pyInt qx), pyIdx S.w (pyInt qy) with
          | some p, some q => pure (FVal.fin qy, FVal.fin qx, signif mean std (S.px p q))
          | _, _ => (.error .IndexError : Py _)) = _ at h
        cases hp : pyIdx S.h (pyInt qx) with
        | none => rw [hp] at h; cases h
        | some p =>
          cases hq : pyIdx S.w (pyInt qy) with
          | none => rw [hp, hq] at h; cases h
          | some q => rw [hp, hq] at h; cases h; exact ⟨qx, qy, p, q, rfl, rfl, hp, hq, rfl⟩
  · rintro ⟨qx, qy, p, q, rfl, rfl, hp, hq, rfl⟩
    change (match pyIdx S.h (pyInt qx), pyIdx S.w (pyInt qy) with
          | some p, some q => pure (FVal.fin qy, FVal.fin qx, signif mean std (S.px p q))
          | _, _ => (.error .IndexError : Py _)) = _
    rw [hp, hq]; rfl

theorem divF_fin (a b q : ℚ) : divF a b = .fin q ↔ b ≠ 0 ∧ q * b = a := by
  unfold divF
  by_cases hb : b = 0
  · rw [if_pos hb]
    constructor
    · intro h; split at h <;> [cases h; (split at h <;> cases h)]
    · intro h; exact absurd hb h.1
  · rw [if_neg hb, FVal.fin.injEq, div_eq_iff hb]
    exact ⟨fun h => ⟨hb, h.symm⟩, fun h => h.2.symm⟩

theorem findMaxima_eq (label : Img Bool → Labels) (S : Img ℚ) (mean std thr nb : ℚ) :
    findMaxima label S mean std thr nb = (List.range (label (detected S mean std thr)).num).mapM fun k =>
      maxEntry S mean std (centreOfMass S (label (detected S mean std thr)) (k + 1)).1
        (centreOfMass S (label (detected S mean std thr)) (k + 1)).2 := rfl

/-- C75: the entries of a call that returns are, one for each connected region of detected pixels, the centroid as
column and row, and the significance of the pixel at its truncated coordinates, counted from the end if negative. -/
theorem maxima_entries (label : Img Bool → Labels) (S : Img ℚ) (mean std thr nb : ℚ)
    (hL : ∀ m, IsLabelling m (label m)) (r : List (FVal × FVal × FVal))
    (h : findMaxima label S mean std thr nb = .ok r) :
    ∃ reg : ℕ → ℕ → ℕ → Bool,
      (∀ p, On (detected S mean std thr) p ↔ p.1 < S.h ∧ p.2 < S.w ∧ ∃ k < r.length, reg k p.1 p.2 = true) ∧
      (∀ k < r.length, ∃ p, On (detected S mean std thr) p ∧ reg k p.1 p.2 = true) ∧
      (∀ k < r.length, ∀ p, On (detected S mean std thr) p → reg k p.1 p.2 = true →
        ∀ q, On (detected S mean std thr) q → (reg k q.1 q.2 = true ↔ Conn (detected S mean std thr) p q)) ∧
      ∀ (k : ℕ) e, r[k]? = some e → ∃ x y p q, IsCentroid S (fun i j => reg k i j = true) x y ∧
        pyIdx S.h (pyInt x) = some p ∧ pyIdx S.w (pyInt y) = some q ∧
        e = (.fin y, .fin x, signif mean std (S.px p q)) := by
  have hl := hL (detected S mean std thr)
  rw [findMaxima_eq] at h
  have h' := (mapM_ok_iff _ _ _).mp h
  generalize hlab : label (detected S mean std thr) = L at *
  have hlen : r.length = L.num := by rw [← h'.length_eq, List.length_range]
  have hpos : ∀ p, On (detected S mean std thr) p → 1 ≤ L.lab p.1 p.2 ∧ L.lab p.1 p.2 ≤ L.num := by
    intro p hp
    have h0 := (hl.zero p.1 hp.1 p.2 hp.2.1)
    refine ⟨?_, hl.le p.1 hp.1 p.2 hp.2.1⟩
    rcases Nat.eq_zero_or_pos (L.lab p.1 p.2) with e | e
    · have := h0.mp e; rw [hp.2.2] at this; cases this
    · exact e
  refine ⟨fun k i j => decide (L.lab i j = k + 1), fun p => ⟨fun hp => ⟨hp.1, hp.2.1, ?_⟩, ?_⟩, ?_, ?_, ?_⟩
  · obtain ⟨h1, h2⟩ := hpos p hp
    exact ⟨L.lab p.1 p.2 - 1, by omega, by simp only [decide_eq_true_eq]; omega⟩
  · rintro ⟨h1, h2, k, hk, hr⟩
    refine ⟨h1, h2, ?_⟩
    rw [decide_eq_true_eq] at hr
    cases hm : (detected S mean std thr).px p.1 p.2 with
    | true => rfl
    | false => have := (hl.zero p.1 h1 p.2 h2).mpr hm; omega
  · intro k hk
    obtain ⟨p, hp, e⟩ := hl.used (k + 1) (by omega) (by omega)
    exact ⟨p, hp, by rw [decide_eq_true_eq]; exact e⟩
  · intro k hk p hp hr q hq
    rw [decide_eq_true_eq] at *
    rw [← hl.same p q hp hq, hr]
    exact eq_comm
  · intro k e he
    have hk : k < r.length := (List.getElem?_eq_some_iff.mp he).1
    have hf := List.forall₂_iff_get.mp h'
    have he2 := hf.2 k (by rw [List.length_range]; omega) hk
    rw [List.get_eq_getElem, List.get_eq_getElem, List.getElem_range] at he2
    rw [(List.getElem?_eq_some_iff.mp he).2] at he2
    obtain ⟨qx, qy, p, q, hx, hy, hp, hq, rfl⟩ := (maxEntry_ok _ _ _ _ _ _).mp he2
    have hx' := (divF_fin _ _ _).mp hx
    have hy' := (divF_fin _ _ _).mp hy
    unfold labSum at hx' hy'
    refine ⟨qx, qy, p, q, ⟨?_, ?_, ?_⟩, hp, hq, rfl⟩
    · simpa using hx'.1
    · simpa using hx'.2
    · simpa using hy'.2

/-- A weighted mean with non-negative weights, not all zero on `P`, lies between the extremes of the coordinate. -/
theorem centroid_between (S : Img ℚ) (P : ℕ → ℕ → Prop) [∀ i j, Decidable (P i j)] (c : ℕ → ℕ → ℚ) (x lo hi : ℚ)
    (hv : ∀ i < S.h, ∀ j < S.w, P i j → 0 < S.px i j)
    (hc : ∀ i < S.h, ∀ j < S.w, P i j → lo ≤ c i j ∧ c i j ≤ hi)
    (hn : (∑ i ∈ Finset.range S.h, ∑ j ∈ Finset.range S.w, if P i j then S.px i j else 0) ≠ 0)
    (hx : x * (∑ i ∈ Finset.range S.h, ∑ j ∈ Finset.range S.w, if P i j then S.px i j else 0) =
      ∑ i ∈ Finset.range S.h, ∑ j ∈ Finset.range S.w, if P i j then S.px i j * c i j else 0) :
    lo ≤ x ∧ x ≤ hi := by
  have hnn : 0 ≤ ∑ i ∈ Finset.range S.h, ∑ j ∈ Finset.range S.w, if P i j then S.px i j else 0 := by
    refine Finset.sum_nonneg fun i hi' => Finset.sum_nonneg fun j hj => ?_
    split
    · exact (hv i (Finset.mem_range.mp hi') j (Finset.mem_range.mp hj) (by assumption)).le
    · exact le_rfl
  have hpos := lt_of_le_of_ne hnn (Ne.symm hn)
  have h1 : lo * (∑ i ∈ Finset.range S.h, ∑ j ∈ Finset.range S.w, if P i j then S.px i j else 0) ≤
      ∑ i ∈ Finset.range S.h, ∑ j ∈ Finset.range S.w, if P i j then S.px i j * c i j else 0 := by
    rw [Finset.mul_sum]
    refine Finset.sum_le_sum fun i hi' => ?_
    rw [Finset.mul_sum]
    refine Finset.sum_le_sum fun j hj => ?_
    split
    · rename_i hp
      have a := hv i (Finset.mem_range.mp hi') j (Finset.mem_range.mp hj) hp
      have b := hc i (Finset.mem_range.mp hi') j (Finset.mem_range.mp hj) hp
      nlinarith
    · simp
  have h2 : (∑ i ∈ Finset.range S.h, ∑ j ∈ Finset.range S.w, if P i j then S.px i j * c i j else 0) ≤
      hi * (∑ i ∈ Finset.range S.h, ∑ j ∈ Finset.range S.w, if P i j then S.px i j else 0) := by
    rw [Finset.mul_sum]
    refine Finset.sum_le_sum fun i hi' => ?_
    rw [Finset.mul_sum]
    refine Finset.sum_le_sum fun j hj => ?_
    split
    · rename_i hp
      have a := hv i (Finset.mem_range.mp hi') j (Finset.mem_range.mp hj) hp
      have b := hc i (Finset.mem_range.mp hi') j (Finset.mem_range.mp hj) hp
      nlinarith
    · simp
  rw [← hx] at h1 h2
  exact ⟨le_of_mul_le_mul_right h1 hpos, le_of_mul_le_mul_right h2 hpos⟩

theorem pyInt_in (q : ℚ) (a b n : ℕ) (h1 : (a : ℚ) ≤ q) (h2 : q ≤ b) (hb : b < n) :
    ∃ p, pyIdx n (pyInt q) = some p ∧ a ≤ p ∧ p ≤ b := by
  have h0 : 0 ≤ q := le_trans (by positivity) h1
  have e : pyInt q = ⌊q⌋ := by unfold pyInt; rw [if_pos h0]
  have l1 : (a : ℤ) ≤ ⌊q⌋ := Int.le_floor.mpr (by exact_mod_cast h1)
  have l2 : ⌊q⌋ ≤ (b : ℤ) := by
    have : ((⌊q⌋ : ℤ) : ℚ) ≤ ((b : ℤ) : ℚ) := le_trans (Int.floor_le q) (by exact_mod_cast h2)
    exact_mod_cast this
  refine ⟨⌊q⌋.toNat, ?_, by omega, by omega⟩
  rw [e]; unfold pyIdx; rw [if_pos (by omega)]

/-- The value above which a pixel is detected. -/
def cutLevel (mean std thr : ℚ) : ℚ := if std = 0 then mean else mean + thr * std

theorem detected_iff (S : Img ℚ) (mean std thr : ℚ) (hs : 0 ≤ std) (i j : ℕ) :
    (detected S mean std thr).px i j = true ↔ cutLevel mean std thr < S.px i j := by
  show (signif mean std (S.px i j)).gt thr = true ↔ _
  unfold signif cutLevel
  by_cases h : std = 0
  · rw [if_pos h, if_pos h]
    by_cases h1 : S.px i j = mean
    · rw [if_pos h1, h1]; simp [FVal.gt]
    · rw [if_neg h1]
      by_cases h2 : mean < S.px i j
      · rw [if_pos h2]; simp [FVal.gt, h2]
      · rw [if_neg h2]; simp [FVal.gt, h2]
  · have hp : 0 < std := lt_of_le_of_ne hs (Ne.symm h)
    rw [if_neg h, if_neg h]
    simp only [FVal.gt, decide_eq_true_eq]
    rw [lt_div_iff₀ hp]
    constructor <;> intro h <;> linarith

/-- C75: a detection level that is not negative: the call returns, and every position lies in the bounding box of
its region: there are region pixels above, below, left and right of it, or level with it. -/
theorem maxima_positive (label : Img Bool → Labels) (S : Img ℚ) (mean std thr nb : ℚ)
    (hL : ∀ m, IsLabelling m (label m)) (hs : 0 ≤ std) (hcut : 0 ≤ cutLevel mean std thr) :
    ∃ r, findMaxima label S mean std thr nb = .ok r ∧ r.length = (label (detected S mean std thr)).num ∧
      ∀ (k : ℕ) e, r[k]? = some e → ∃ x y : ℚ, ∃ p q : ℕ, e = (.fin y, .fin x, signif mean std (S.px p q)) ∧
        (p : ℤ) = ⌊x⌋ ∧ (q : ℤ) = ⌊y⌋ ∧ p < S.h ∧ q < S.w ∧
        ∃ a b c d : ℕ × ℕ, (∀ t ∈ [a, b, c, d], On (detected S mean std thr) t ∧
            (label (detected S mean std thr)).lab t.1 t.2 = k + 1) ∧
          (a.1 : ℚ) ≤ x ∧ x ≤ b.1 ∧ (c.2 : ℚ) ≤ y ∧ y ≤ d.2 := by
  have hl := hL (detected S mean std thr)
  generalize hlab : label (detected S mean std thr) = L at *
  have key : ∀ k < L.num, ∃ x y : ℚ, ∃ p q : ℕ,
      maxEntry S mean std (centreOfMass S L (k + 1)).1 (centreOfMass S L (k + 1)).2 =
        .ok (.fin y, .fin x, signif mean std (S.px p q)) ∧
        (p : ℤ) = ⌊x⌋ ∧ (q : ℤ) = ⌊y⌋ ∧ p < S.h ∧ q < S.w ∧
        ∃ a b c d : ℕ × ℕ, (∀ t ∈ [a, b, c, d], On (detected S mean std thr) t ∧ L.lab t.1 t.2 = k + 1) ∧
          (a.1 : ℚ) ≤ x ∧ x ≤ b.1 ∧ (c.2 : ℚ) ≤ y ∧ y ≤ d.2 := by
    intro k hk
    obtain ⟨t0, ht0, e0⟩ := hl.used (k + 1) (by omega) (by omega)
    have hon : ∀ i < S.h, ∀ j < S.w, L.lab i j = k + 1 → On (detected S mean std thr) (i, j) := by
      intro i hi j hj e
      refine ⟨hi, hj, ?_⟩
      cases hm : (detected S mean std thr).px i j with
      | true => rfl
      | false => have := (hl.zero i hi j hj).mpr hm; omega
    have hv : ∀ i < S.h, ∀ j < S.w, L.lab i j = k + 1 → 0 < S.px i j := by
      intro i hi j hj e
      exact lt_of_le_of_lt hcut ((detected_iff S mean std thr hs i j).mp (hon i hi j hj e).2.2)
    let R : Finset (ℕ × ℕ) := (Finset.range S.h ×ˢ Finset.range S.w).filter fun t => L.lab t.1 t.2 = k + 1
    have memR : ∀ t, t ∈ R ↔ t.1 < S.h ∧ t.2 < S.w ∧ L.lab t.1 t.2 = k + 1 := by
      intro t
      simp only [R, Finset.mem_filter, Finset.mem_product, Finset.mem_range, and_assoc]
    have hRn : R.Nonempty := ⟨t0, (memR t0).mpr ⟨ht0.1, ht0.2.1, e0⟩⟩
    obtain ⟨a, ha, ha'⟩ := Finset.exists_min_image R (fun t => t.1) hRn
    obtain ⟨b, hb, hb'⟩ := Finset.exists_max_image R (fun t => t.1) hRn
    obtain ⟨c, hc, hc'⟩ := Finset.exists_min_image R (fun t => t.2) hRn
    obtain ⟨d, hd, hd'⟩ := Finset.exists_max_image R (fun t => t.2) hRn
    have hn : labSum S L (k + 1) S.px ≠ 0 := by
      unfold labSum
      intro hz
      have nn : ∀ i ∈ Finset.range S.h, ∀ j ∈ Finset.range S.w, (0 : ℚ) ≤ if L.lab i j = k + 1 then S.px i j else 0 := by
        intro i hi j hj
        split
        · exact (hv i (Finset.mem_range.mp hi) j (Finset.mem_range.mp hj) (by assumption)).le
        · exact le_rfl
      have h1 := (Finset.sum_eq_zero_iff_of_nonneg fun i hi => Finset.sum_nonneg (nn i hi)).mp hz t0.1
        (Finset.mem_range.mpr ht0.1)
      have h2 := (Finset.sum_eq_zero_iff_of_nonneg (nn t0.1 (Finset.mem_range.mpr ht0.1))).mp h1 t0.2
        (Finset.mem_range.mpr ht0.2.1)
      rw [if_pos e0] at h2
      exact absurd h2 (hv t0.1 ht0.1 t0.2 ht0.2.1 e0).ne'
    obtain ⟨x, hx⟩ : ∃ x, (centreOfMass S L (k + 1)).1 = .fin x := ⟨_, by
      show divF _ _ = _; unfold divF; rw [if_neg hn]⟩
    obtain ⟨y, hy⟩ : ∃ y, (centreOfMass S L (k + 1)).2 = .fin y := ⟨_, by
      show divF _ _ = _; unfold divF; rw [if_neg hn]⟩
    have hx' := (divF_fin _ _ _).mp hx
    have hy' := (divF_fin _ _ _).mp hy
    have bx := centroid_between S (fun i j => L.lab i j = k + 1) (fun i _ => (i : ℚ)) x a.1 b.1 hv
      (fun i hi j hj e => by
        have m : (i, j) ∈ R := (memR _).mpr ⟨hi, hj, e⟩
        exact ⟨by exact_mod_cast ha' _ m, by exact_mod_cast hb' _ m⟩) hx'.1 hx'.2
    have by' := centroid_between S (fun i j => L.lab i j = k + 1) (fun _ j => (j : ℚ)) y c.2 d.2 hv
      (fun i hi j hj e => by
        have m : (i, j) ∈ R := (memR _).mpr ⟨hi, hj, e⟩
        exact ⟨by exact_mod_cast hc' _ m, by exact_mod_cast hd' _ m⟩) hy'.1 hy'.2
    obtain ⟨p, hp, -, hp2⟩ := pyInt_in x a.1 b.1 S.h bx.1 bx.2 ((memR b).mp hb).1
    obtain ⟨q, hq, -, hq2⟩ := pyInt_in y c.2 d.2 S.w by'.1 by'.2 ((memR d).mp hd).2.1
    have fl : ∀ (z : ℚ) (n m : ℕ), 0 ≤ z → pyIdx n (pyInt z) = some m → (m : ℤ) = ⌊z⌋ := by
      intro z n m hz h
      have e : pyInt z = ⌊z⌋ := by unfold pyInt; rw [if_pos hz]
      rw [e] at h
      have hz' : 0 ≤ ⌊z⌋ := Int.floor_nonneg.mpr hz
      unfold pyIdx at h
      split at h
      · rw [Option.some.injEq] at h; omega
      · rw [if_neg (by omega)] at h; cases h
    have hpR := (memR b).mp hb
    have hdR := (memR d).mp hd
    refine ⟨x, y, p, q, ?_, fl x S.h p (le_trans (by positivity) bx.1) hp,
      fl y S.w q (le_trans (by positivity) by'.1) hq, by omega, by omega, a, b, c, d, ?_, bx.1, bx.2, by'.1, by'.2⟩
    · rw [hx, hy]
      exact (maxEntry_ok _ _ _ _ _ _).mpr ⟨x, y, p, q, rfl, rfl, hp, hq, rfl⟩
    · intro t ht
      have : t ∈ R := by
        simp only [List.mem_cons, List.not_mem_nil, or_false] at ht
        rcases ht with rfl | rfl | rfl | rfl <;> assumption
      obtain ⟨t1, t2, t3⟩ := (memR t).mp this
      exact ⟨hon _ t1 _ t2 t3, t3⟩
  have hex : ∀ k : ℕ, ∃ e, k < L.num → maxEntry S mean std (centreOfMass S L (k + 1)).1 (centreOfMass S L (k + 1)).2 = .ok e := by
    intro k
    by_cases hk : k < L.num
    · obtain ⟨x, y, p, q, h, -⟩ := key k hk
      exact ⟨_, fun _ => h⟩
    · exact ⟨(.nan, .nan, .nan), fun h => absurd h hk⟩
  choose E hE using hex
  refine ⟨(List.range L.num).map E, ?_, by simp, ?_⟩
  · rw [findMaxima_eq, hlab, mapM_ok_iff, List.forall₂_map_right_iff, List.forall₂_same]
    intro k hk
    exact hE k (List.mem_range.mp hk)
  · intro k e he
    obtain ⟨hk, hek⟩ := List.getElem?_eq_some_iff.mp he
    rw [List.length_map, List.length_range] at hk
    rw [List.getElem_map, List.getElem_range] at hek
    obtain ⟨x, y, p, q, h, hrest⟩ := key k hk
    have := (hE k hk).symm.trans h
    rw [hek] at this
    exact ⟨x, y, p, q, Except.ok.inj this, hrest⟩

theorem conn_symm (m : Img Bool) (p q : ℕ × ℕ) (h : Conn m p q) : Conn m q p := by
  induction h with
  | refl => exact .refl
  | tail _ h2 ih =>
    refine Relation.ReflTransGen.head ⟨h2.2.1, h2.1, ?_⟩ ih
    have := h2.2.2
    unfold Adj4 at *
    omega

theorem conn_step (m : Img Bool) (p q : ℕ × ℕ) (h1 : On m p) (h2 : On m q) (h3 : Adj4 p q) : Conn m p q :=
  .single ⟨h1, h2, h3⟩

/-- A mask with one region has one label. -/
theorem labelling_one (m : Img Bool) (L : Labels) (hl : IsLabelling m L) (p0 : ℕ × ℕ) (h0 : On m p0)
    (hc : ∀ p, On m p → Conn m p p0) : L.num = 1 ∧ ∀ p, On m p → L.lab p.1 p.2 = 1 := by
  have hs : ∀ p, On m p → L.lab p.1 p.2 = L.lab p0.1 p0.2 := fun p hp => (hl.same p p0 hp h0).mpr (hc p hp)
  have h1 : L.lab p0.1 p0.2 ≠ 0 := fun e => by
    have := (hl.zero p0.1 h0.1 p0.2 h0.2.1).mp e; rw [h0.2.2] at this; cases this
  have h2 := hl.le p0.1 h0.1 p0.2 h0.2.1
  obtain ⟨p, hp, e1⟩ := hl.used 1 le_rfl (by omega)
  obtain ⟨q, hq, e2⟩ := hl.used L.num (by omega) le_rfl
  rw [hs p hp] at e1
  rw [hs q hq] at e2
  exact ⟨by omega, fun p hp => by rw [hs p hp]; exact e1⟩

/-- The contract can be met for every mask. -/
theorem labelling_exists : ∃ label : Img Bool → Labels, ∀ m, IsLabelling m (label m) := by
  classical
  have key : ∀ m : Img Bool, ∃ L, IsLabelling m L := by
    intro m
    have hfin : Finite {p // On m p} := by
      refine Finite.of_injective (β := Fin m.h × Fin m.w) (fun p => (⟨p.1.1, p.2.1⟩, ⟨p.1.2, p.2.2.1⟩)) ?_
      rintro ⟨⟨a, b⟩, h⟩ ⟨⟨c, d⟩, h'⟩ e
      simp only [Prod.mk.injEq, Fin.mk.injEq] at e
      obtain ⟨rfl, rfl⟩ := e
      rfl
    let s : Setoid {p // On m p} := ⟨fun p q => Conn m p.1 q.1,
      ⟨fun _ => .refl, fun h => conn_symm m _ _ h, fun h1 h2 => h1.trans h2⟩⟩
    let e : Quotient s ≃ Fin (Nat.card (Quotient s)) := Finite.equivFin _
    let lab : ℕ → ℕ → ℕ := fun i j => if h : On m (i, j) then (e (Quotient.mk s ⟨(i, j), h⟩)).val + 1 else 0
    have lab_on : ∀ (p : ℕ × ℕ) (h : On m p), lab p.1 p.2 = (e (Quotient.mk s ⟨p, h⟩)).val + 1 := by
      rintro ⟨i, j⟩ h
      exact dif_pos h
    refine ⟨⟨Nat.card (Quotient s), lab⟩, ⟨fun i hi j hj => ?_, fun i hi j hj => ?_, fun k h1 h2 => ?_, fun p q hp hq => ?_⟩⟩
    · by_cases h : On m (i, j)
      · have h3 := lab_on (i, j) h
        have h4 : m.px i j = true := h.2.2
        simp only [] at h3 ⊢
        rw [h3, h4]; simp
      · have h3 : lab i j = 0 := dif_neg h
        simp only []
        rw [h3]
        simp only [true_iff]
        cases h4 : m.px i j with
        | false => rfl
        | true => exact absurd ⟨hi, hj, h4⟩ h
    · by_cases h : On m (i, j)
      · have h3 := lab_on (i, j) h
        simp only [] at h3 ⊢
        rw [h3]; omega
      · have h3 : lab i j = 0 := dif_neg h
        simp only []
        rw [h3]; omega
    · obtain ⟨⟨p, hp⟩, hq⟩ := Quotient.exists_rep (e.symm ⟨k - 1, by simp only [] at h2; omega⟩)
      refine ⟨p, hp, ?_⟩
      simp only []
      rw [lab_on p hp, show Quotient.mk s ⟨p, hp⟩ = e.symm ⟨k - 1, by simp only [] at h2; omega⟩ from hq,
        Equiv.apply_symm_apply]
      simp only []
      omega
    · simp only []
      rw [lab_on p hp, lab_on q hq, Nat.add_right_cancel_iff, Fin.val_inj, e.apply_eq_iff_eq, Quotient.eq]
      exact Iff.rfl
  choose label h using key
  exact ⟨label, h⟩

/-- A frame of eight bright pixels around a dark one. -/
def ringImg : Img ℚ := ⟨3, 3, fun i j => if i = 1 ∧ j = 1 then -5 else 10⟩

theorem ring_on (i j : ℕ) : On (detected ringImg 0 1 (5 / 2)) (i, j) ↔ i < 3 ∧ j < 3 ∧ ¬ (i = 1 ∧ j = 1) := by
  unfold On
  rw [detected_iff _ _ _ _ (by norm_num)]
  show i < 3 ∧ j < 3 ∧ cutLevel 0 1 (5 / 2) < (if i = 1 ∧ j = 1 then -5 else 10) ↔ _
  unfold cutLevel
  by_cases h : i = 1 ∧ j = 1
  · simp [h]; norm_num
  · simp [h]; norm_num

theorem ring_conn (p : ℕ × ℕ) (hp : On (detected ringImg 0 1 (5 / 2)) p) :
    Conn (detected ringImg 0 1 (5 / 2)) p (0, 0) := by
  have st : ∀ a b c d : ℕ, (a < 3 ∧ b < 3 ∧ ¬ (a = 1 ∧ b = 1)) → (c < 3 ∧ d < 3 ∧ ¬ (c = 1 ∧ d = 1)) →
      Adj4 (a, b) (c, d) → Conn (detected ringImg 0 1 (5 / 2)) (a, b) (c, d) :=
    fun a b c d h1 h2 h3 => conn_step _ _ _ ((ring_on a b).mpr h1) ((ring_on c d).mpr h2) h3
  have e01 := st 0 1 0 0 (by omega) (by omega) (by unfold Adj4; omega)
  have e02 := (st 0 2 0 1 (by omega) (by omega) (by unfold Adj4; omega)).trans e01
  have e12 := (st 1 2 0 2 (by omega) (by omega) (by unfold Adj4; omega)).trans e02
  have e22 := (st 2 2 1 2 (by omega) (by omega) (by unfold Adj4; omega)).trans e12
  have e21 := (st 2 1 2 2 (by omega) (by omega) (by unfold Adj4; omega)).trans e22
  have e10 := st 1 0 0 0 (by omega) (by omega) (by unfold Adj4; omega)
  have e20 := (st 2 0 1 0 (by omega) (by omega) (by unfold Adj4; omega)).trans e10
  obtain ⟨i, j⟩ := p
  obtain ⟨hi, hj, hn⟩ := (ring_on i j).mp hp
  interval_cases i <;> interval_cases j <;> first | exact .refl | assumption | exact absurd ⟨rfl, rfl⟩ hn

/-- C75: the reported position need not lie in its region, so that the reported significance can be below the threshold
and even negative: for the frame with clipped mean 0 and deviation 1 the only entry is the dark centre. -/
theorem maxima_ring (label : Img Bool → Labels) (nb : ℚ) (hL : ∀ m, IsLabelling m (label m)) :
    findMaxima label ringImg 0 1 (5 / 2) nb = .ok [(.fin 1, .fin 1, .fin (-5))] := by
  rw [findMaxima_eq]
  have hl := hL (detected ringImg 0 1 (5 / 2))
  generalize label (detected ringImg 0 1 (5 / 2)) = L at *
  obtain ⟨hn, h1⟩ := labelling_one _ L hl (0, 0) ((ring_on 0 0).mpr (by omega)) ring_conn
  have hlab : ∀ i < 3, ∀ j < 3, L.lab i j = if i = 1 ∧ j = 1 then 0 else 1 := by
    intro i hi j hj
    by_cases h : i = 1 ∧ j = 1
    · rw [if_pos h, hl.zero i hi j hj, Bool.eq_false_iff]
      intro hc
      exact ((ring_on i j).mp ⟨hi, hj, hc⟩).2.2 h
    · rw [if_neg h]; exact h1 (i, j) ((ring_on i j).mpr ⟨hi, hj, h⟩)
  have l00 := hlab 0 (by omega) 0 (by omega)
  have l01 := hlab 0 (by omega) 1 (by omega)
  have l02 := hlab 0 (by omega) 2 (by omega)
  have l10 := hlab 1 (by omega) 0 (by omega)
  have l11 := hlab 1 (by omega) 1 (by omega)
  have l12 := hlab 1 (by omega) 2 (by omega)
  have l20 := hlab 2 (by omega) 0 (by omega)
  have l21 := hlab 2 (by omega) 1 (by omega)
  have l22 := hlab 2 (by omega) 2 (by omega)
  norm_num at l00 l01 l02 l10 l11 l12 l20 l21 l22
  have c : centreOfMass ringImg L 1 = (.fin 1, .fin 1) := by
    unfold centreOfMass labSum ringImg
    simp only [Finset.sum_range_succ, Finset.sum_range_zero, l00, l01, l02, l10, l11, l12, l20, l21, l22, divF]
    norm_num
  rw [hn, mapM_ok_iff]
  refine .cons ?_ .nil
  rw [maxEntry_ok]
  refine ⟨1, 1, 1, 1, by rw [c], by rw [c], ?_, ?_, ?_⟩
  · show pyIdx 3 (pyInt 1) = some 1
    unfold pyInt; norm_num [pyIdx]
  · show pyIdx 3 (pyInt 1) = some 1
    unfold pyInt; norm_num [pyIdx]
  · simp [signif, ringImg]

/-- A row of background -10 starting with two pixels `a`, `b`. -/
def pairImg (a b : ℚ) : Img ℚ := ⟨1, 22, fun _ j => if j = 0 then a else if j = 1 then b else -10⟩

theorem pair_on (a b : ℚ) (ha : -10 < a) (hb : -10 < b) (thr : ℚ) (i j : ℕ) :
    On (detected (pairImg a b) (-10) 0 thr) (i, j) ↔ i = 0 ∧ j < 2 := by
  unfold On
  rw [detected_iff _ _ _ _ le_rfl]
  show i < 1 ∧ j < 22 ∧ cutLevel (-10) 0 thr < (if j = 0 then a else if j = 1 then b else -10) ↔ _
  unfold cutLevel
  rw [if_pos rfl]
  by_cases h0 : j = 0
  · simp [h0, ha]
  · by_cases h1 : j = 1
    · simp [h1, hb]
    · simp [h0, h1]; omega

/-- C75: pixels of both signs in a region. Two neighbouring pixels `a`, `b` above a background of -10 (which is their
clipped mean, with deviation 0): if they cancel, ValueError; if the centroid `b/(a+b)` leaves the row, IndexError;
otherwise one entry, at a position that may be outside of the image. -/
theorem maxima_pair (label : Img Bool → Labels) (thr nb a b : ℚ) (hL : ∀ m, IsLabelling m (label m))
    (ha : -10 < a) (hb : -10 < b) :
    (a + b = 0 → findMaxima label (pairImg a b) (-10) 0 thr nb = .error .ValueError) ∧
    (a + b ≠ 0 → (pyIdx 22 (pyInt (b / (a + b))) = none →
        findMaxima label (pairImg a b) (-10) 0 thr nb = .error .IndexError) ∧
      ∀ q, pyIdx 22 (pyInt (b / (a + b))) = some q → findMaxima label (pairImg a b) (-10) 0 thr nb =
        .ok [(.fin (b / (a + b)), .fin 0, signif (-10) 0 ((pairImg a b).px 0 q))]) := by
  rw [findMaxima_eq]
  have hl := hL (detected (pairImg a b) (-10) 0 thr)
  generalize label (detected (pairImg a b) (-10) 0 thr) = L at *
  have on := pair_on a b ha hb thr
  obtain ⟨hn, h1⟩ := labelling_one _ L hl (0, 0) ((on 0 0).mpr (by omega)) (by
    rintro ⟨i, j⟩ hp
    obtain ⟨rfl, hj⟩ := (on i j).mp hp
    interval_cases j
    · exact .refl
    · exact conn_step _ _ _ hp ((on 0 0).mpr (by omega)) (by unfold Adj4; omega))
  have hlab : ∀ i < 1, ∀ j < 22, L.lab i j = if j < 2 then 1 else 0 := by
    intro i hi j hj
    by_cases h : j < 2
    · rw [if_pos h]; exact h1 (i, j) ((on i j).mpr ⟨by omega, h⟩)
    · rw [if_neg h, hl.zero i hi j hj, Bool.eq_false_iff]
      intro hc
      exact h ((on i j).mp ⟨hi, hj, hc⟩).2
  have hsum : ∀ f, labSum (pairImg a b) L 1 f = f 0 0 + f 0 1 := by
    intro f
    unfold labSum
    show (∑ i ∈ Finset.range 1, ∑ j ∈ Finset.range 22, if L.lab i j = 1 then f i j else 0) = _
    rw [Finset.sum_range_one, ← Finset.sum_subset (s₁ := Finset.range 2)]
    · rw [Finset.sum_range_succ, Finset.sum_range_one, hlab 0 (by omega) 0 (by omega), hlab 0 (by omega) 1 (by omega)]
      simp
    · intro x hx
      rw [Finset.mem_range] at *; omega
    · intro x hx hx2
      rw [Finset.mem_range] at *
      rw [hlab 0 (by omega) x hx, if_neg hx2]
      simp
  have hx : (centreOfMass (pairImg a b) L 1).1 = divF 0 (a + b) := by
    show divF (labSum _ _ _ _) (labSum _ _ _ _) = _
    rw [hsum, hsum]; simp [pairImg]
  have hy : (centreOfMass (pairImg a b) L 1).2 = divF b (a + b) := by
    show divF (labSum _ _ _ _) (labSum _ _ _ _) = _
    rw [hsum, hsum]; simp [pairImg]
  rw [hn]
  show (_ → ([0].mapM _ : Py _) = _) ∧ _
  have hone : ∀ f : ℕ → Py (FVal × FVal × FVal), (List.range 1).mapM f = (f 0 >>= fun e => pure [e]) := by
    intro f
    show [0].mapM f = _
    rw [List.mapM_cons, List.mapM_nil]
    rfl
  refine ⟨fun h0 => ?_, fun h0 => ⟨fun hp => ?_, fun q hq => ?_⟩⟩
  · refine (hone _).trans ?_
    simp only [zero_add, hx, hy, h0]
    rfl
  · refine (hone _).trans ?_
    simp only [zero_add, hx, hy, divF, if_neg h0, zero_div]
    have p0 : pyInt 0 = 0 := by unfold pyInt; norm_num
    show (match pyIdx 1 (pyInt 0), pyIdx 22 (pyInt (b / (a + b))) with
          | some p, some q => pure (FVal.fin (b / (a + b)), FVal.fin 0, signif (-10) 0 ((pairImg a b).px p q))
          | _, _ => (.error .IndexError : Py _)) >>= _ = _
    rw [hp, p0]
    rfl
  · refine (hone _).trans ?_
    simp only [zero_add, hx, hy, divF, if_neg h0, zero_div]
    have p0 : pyInt 0 = 0 := by unfold pyInt; norm_num
    show (match pyIdx 1 (pyInt 0), pyIdx 22 (pyInt (b / (a + b))) with
          | some p, some q => pure (FVal.fin (b / (a + b)), FVal.fin 0, signif (-10) 0 ((pairImg a b).px p q))
          | _, _ => (.error .IndexError : Py _)) >>= _ = _
    rw [hq, p0]
    rfl

/-- All three outcomes occur; in the last one the reported column is -9. -/
example (label : Img Bool → Labels) (hL : ∀ m, IsLabelling m (label m)) :
    findMaxima label (pairImg 5 (-5)) (-10) 0 (5 / 2) 5 = .error .ValueError ∧
    findMaxima label (pairImg 5 (-49 / 10)) (-10) 0 (5 / 2) 5 = .error .IndexError ∧
    findMaxima label (pairImg 5 (-9 / 2)) (-10) 0 (5 / 2) 5 = .ok [(.fin (-9), .fin 0, .nan)] := by
  refine ⟨(maxima_pair label _ _ 5 (-5) hL (by norm_num) (by norm_num)).1 (by norm_num),
    ((maxima_pair label _ _ 5 (-49 / 10) hL (by norm_num) (by norm_num)).2 (by norm_num)).1 ?_, ?_⟩
  · unfold pyInt; norm_num [pyIdx]
  · rw [((maxima_pair label _ _ 5 (-9 / 2) hL (by norm_num) (by norm_num)).2 (by norm_num)).2 13 ?_]
    · norm_num [pairImg, signif]
    · unfold pyInt; norm_num [pyIdx]; rfl

end PI
