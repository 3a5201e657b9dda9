import Verif.Model.PsfXY
import Verif.Props.CacheMore
import Mathlib.Algebra.BigOperators.Field
import Mathlib.Tactic.NormNum
import Mathlib.Tactic.FieldSimp
import Mathlib.Tactic.Ring

/-!
# The PSF at a position (C59)
-/

namespace PI
open PyS

variable {K F N S R : Type} [Field K]

theorem half_odd (d : ℕ) : pyInt ((((2 * d + 1 : ℕ) : ℚ) - 1) / 2) = d := by
  have : (((2 * d + 1 : ℕ) : ℚ) - 1) / 2 = ((d : ℤ) : ℚ) := by push_cast; ring
  rw [this]
  unfold pyInt
  rw [if_pos (by positivity), Int.floor_intCast]

theorem half_even (d : ℕ) : pyInt ((((2 * d + 2 : ℕ) : ℚ) - 1) / 2) = d := by
  have : (((2 * d + 2 : ℕ) : ℚ) - 1) / 2 = d + 1 / 2 := by push_cast; ring
  rw [this]
  unfold pyInt
  rw [if_pos (by positivity), Int.floor_eq_iff]
  constructor
  · push_cast; linarith
  · push_cast; linarith

theorem bcOk_iff (n t : ℕ) : bcOk n t = true ↔ t = 1 ∨ t = n := by
  simp [bcOk]

/-- Specification of the PSF at a pixel: the fields are evaluated at the pixel of the image that lies
under each pixel of the PSF, and so is the normalisation. -/
def psfSpec (ev : F → ℤ → ℤ → K) (nrm : Img K) (d : ℕ) (terms : List (Img K × F)) (xp yp : ℤ) (i j : ℕ) : K :=
  (terms.map fun t => t.1.px i j * ev t.2 (xp - d + i) (yp - d + j)
    / nrm.px (xp - d + i).toNat (yp - d + j).toNat).sum

/-- The same with the normalisation taken from the other end of the image. -/
def psfSpecWrapped (ev : F → ℤ → ℤ → K) (nrm : Img K) (d : ℕ) (terms : List (Img K × F)) (xp yp : ℤ)
    (i j : ℕ) : K :=
  (terms.map fun t => t.1.px i j * ev t.2 (xp - d + i) (yp - d + j)
    / nrm.px (nrm.h + xp - d + i).toNat (yp - d + j).toNat).sum

theorem bcIdx_full {n i : ℕ} (h : i < n) : bcIdx n i = i := by
  unfold bcIdx
  split
  · omega
  · rfl

theorem sliceBound_inside {n : ℕ} {a : ℤ} (h0 : 0 ≤ a) (h1 : a ≤ n) : sliceBound n a = a.toNat := by
  unfold sliceBound; split <;> omega

/-- C59: for an odd square PSF and a position at least half a stamp away from every edge, the result is
the sum of the basis elements weighted with fields and normalisation at the pixel underneath,
divided by its sum. -/
theorem psf_inside (ev : F → ℤ → ℤ → K) (nrm : Img K) (d : ℕ) (terms : List (Img K × F)) (x y : ℚ)
    (hx : (d : ℤ) ≤ roundHalfEven x ∧ roundHalfEven x + d < nrm.h)
    (hy : (d : ℤ) ≤ roundHalfEven y ∧ roundHalfEven y + d < nrm.w) :
    ∃ p, psfAt ev nrm (2 * d + 1) (2 * d + 1) terms x y = .ok p ∧ p.h = 2 * d + 1 ∧ p.w = 2 * d + 1 ∧
      ∀ i < 2 * d + 1, ∀ j < 2 * d + 1, p.px i j =
        psfSpec ev nrm d terms (roundHalfEven x) (roundHalfEven y) i j /
          ∑ k ∈ Finset.range (2 * d + 1), ∑ l ∈ Finset.range (2 * d + 1),
            psfSpec ev nrm d terms (roundHalfEven x) (roundHalfEven y) k l := by
  obtain ⟨xp, hxp⟩ : ∃ xp, roundHalfEven x = xp := ⟨_, rfl⟩
  obtain ⟨yp, hyp⟩ : ∃ yp, roundHalfEven y = yp := ⟨_, rfl⟩
  rw [hxp] at hx; rw [hyp] at hy
  unfold psfAt
  simp only [half_odd, hxp, hyp]
  have g1 : (xp + (d : ℤ) + 1 - (xp - d)).toNat = 2 * d + 1 := by omega
  have g2 : (yp + (d : ℤ) + 1 - (yp - d)).toNat = 2 * d + 1 := by omega
  have b1 : sliceBound nrm.h (xp - d) = (xp - d).toNat := sliceBound_inside (by omega) (by omega)
  have b2 : sliceBound nrm.w (yp - d) = (yp - d).toNat := sliceBound_inside (by omega) (by omega)
  have b3 : sliceBound nrm.h (xp + d + 1) = (xp + d + 1).toNat := sliceBound_inside (by omega) (by omega)
  have b4 : sliceBound nrm.w (yp + d + 1) = (yp + d + 1).toNat := sliceBound_inside (by omega) (by omega)
  have l1 : sliceLen nrm.h (xp - d) (xp + d + 1) = 2 * d + 1 := by rw [sliceLen, b1, b3]; omega
  have l2 : sliceLen nrm.w (yp - d) (yp + d + 1) = 2 * d + 1 := by rw [sliceLen, b2, b4]; omega
  have hb : bcOk (2 * d + 1) (2 * d + 1) = true := (bcOk_iff _ _).mpr (Or.inr rfl)
  rw [g1, g2, l1, l2, hb]
  have key : ∀ i < 2 * d + 1, ∀ j < 2 * d + 1,
      (terms.map fun t => psfTerm ev nrm (xp - d) (xp + d + 1) (yp - d) (yp + d + 1) t i j).sum =
        psfSpec ev nrm d terms xp yp i j := by
    intro i hi j hj
    unfold psfSpec
    congr 1
    refine List.map_congr_left fun t _ => ?_
    unfold psfTerm
    rw [g1, g2, l1, l2, b1, b2, bcIdx_full hi, bcIdx_full hj,
      show (xp - d).toNat + i = (xp - d + i).toNat by omega,
      show (yp - d).toNat + j = (yp - d + j).toNat by omega]
  refine ⟨_, if_pos (by simp), rfl, rfl, fun i hi j hj => ?_⟩
  show _ / imgSum _ = _
  congr 1
  · exact key i hi j hj
  · unfold imgSum
    refine Finset.sum_congr rfl fun k hk => Finset.sum_congr rfl fun l hl => ?_
    exact key k (Finset.mem_range.mp hk) l (Finset.mem_range.mp hl)

/-- C59: whenever a variable PSF is returned and its un-normalised sum is not zero, it sums to 1. -/
theorem psf_unit_sum (ev : F → ℤ → ℤ → K) (nrm : Img K) (h w : ℕ) (terms : List (Img K × F)) (x y : ℚ)
    (p : Img K) (hp : psfAt ev nrm h w terms x y = .ok p) :
    imgSum p = 1 ∨ ∀ i j, p.px i j = 0 := by
  unfold psfAt at hp
  simp only [] at hp
  split at hp
  · cases hp
    by_cases h0 : imgSum (⟨h, w, fun i j => (terms.map fun t => psfTerm ev nrm
      (roundHalfEven x - pyInt (((h : ℚ) - 1) / 2)) (roundHalfEven x + pyInt (((h : ℚ) - 1) / 2) + 1)
      (roundHalfEven y - pyInt (((h : ℚ) - 1) / 2)) (roundHalfEven y + pyInt (((h : ℚ) - 1) / 2) + 1)
      t i j).sum⟩ : Img K) = 0
    · right
      intro i j
      show _ / _ = _
      rw [h0, div_zero]
    · left
      show (∑ i ∈ Finset.range h, ∑ j ∈ Finset.range w, _ / _) = _
      rw [Finset.sum_congr rfl fun i _ => (Finset.sum_div _ _ _).symm, ← Finset.sum_div]
      exact div_self h0
  · cases hp

/-- C59: when an odd PSF axis of `2 d + 1 ≥ 3` pixels is accepted on an image axis of `n` pixels that is
at least as long: the window lies inside; or it overlaps the image in exactly its last row; or it lies
entirely before the first row (and is read from the other end); or only the row `-n` is in it. -/
theorem psf_axis_iff (n d : ℕ) (hd : 1 ≤ d) (hn : 2 * d + 1 ≤ n) (xp : ℤ) :
    bcOk (2 * d + 1) (sliceLen n (xp - d) (xp + d + 1)) = true ↔
      (d ≤ xp ∧ xp + d < n) ∨ xp = n - 1 + d ∨ (d - n ≤ xp ∧ xp + d + 1 < 0) ∨ xp = -n - d := by
  rw [bcOk_iff]
  unfold sliceLen sliceBound
  split <;> split <;> omega

theorem psf_raises_of (ev : F → ℤ → ℤ → K) (nrm : Img K) (h w : ℕ) (terms : List (Img K × F)) (x y : ℚ)
    (ht : terms ≠ [])
    (hb : (bcOk h ((roundHalfEven x + pyInt (((h : ℚ) - 1) / 2) + 1) - (roundHalfEven x - pyInt (((h : ℚ) - 1) / 2))).toNat &&
      bcOk w ((roundHalfEven y + pyInt (((h : ℚ) - 1) / 2) + 1) - (roundHalfEven y - pyInt (((h : ℚ) - 1) / 2))).toNat &&
      bcOk h (sliceLen nrm.h (roundHalfEven x - pyInt (((h : ℚ) - 1) / 2)) (roundHalfEven x + pyInt (((h : ℚ) - 1) / 2) + 1)) &&
      bcOk w (sliceLen nrm.w (roundHalfEven y - pyInt (((h : ℚ) - 1) / 2)) (roundHalfEven y + pyInt (((h : ℚ) - 1) / 2) + 1))) = false) :
    psfAt ev nrm h w terms x y = .error .ValueError := by
  unfold psfAt
  simp only []
  rw [hb, if_neg]
  cases terms with
  | nil => exact absurd rfl ht
  | cons a l => simp

/-- C59: for an odd square PSF of at least 3 pixels on an image that is large enough, `get_psf_xy` raises a
ValueError exactly if the rounded position is in none of the four accepted ranges of one of the axes. -/
theorem psf_raises_iff (ev : F → ℤ → ℤ → K) (nrm : Img K) (d : ℕ) (terms : List (Img K × F)) (x y : ℚ)
    (ht : terms ≠ []) (hd : 1 ≤ d) (hh : 2 * d + 1 ≤ nrm.h) (hw : 2 * d + 1 ≤ nrm.w) :
    psfAt ev nrm (2 * d + 1) (2 * d + 1) terms x y = .error .ValueError ↔
      ¬ ((d ≤ roundHalfEven x ∧ roundHalfEven x + d < nrm.h) ∨ roundHalfEven x = nrm.h - 1 + d ∨
          (d - nrm.h ≤ roundHalfEven x ∧ roundHalfEven x + d + 1 < 0) ∨ roundHalfEven x = -nrm.h - d) ∨
      ¬ ((d ≤ roundHalfEven y ∧ roundHalfEven y + d < nrm.w) ∨ roundHalfEven y = nrm.w - 1 + d ∨
          (d - nrm.w ≤ roundHalfEven y ∧ roundHalfEven y + d + 1 < 0) ∨ roundHalfEven y = -nrm.w - d) := by
  have a1 := psf_axis_iff nrm.h d hd hh (roundHalfEven x)
  have a2 := psf_axis_iff nrm.w d hd hw (roundHalfEven y)
  rw [← a1, ← a2]
  have g1 : (roundHalfEven x + (d : ℤ) + 1 - (roundHalfEven x - d)).toNat = 2 * d + 1 := by omega
  have g2 : (roundHalfEven y + (d : ℤ) + 1 - (roundHalfEven y - d)).toNat = 2 * d + 1 := by omega
  have hb : bcOk (2 * d + 1) (2 * d + 1) = true := (bcOk_iff _ _).mpr (Or.inr rfl)
  have hte : terms.isEmpty = false := by cases terms with
    | nil => exact absurd rfl ht
    | cons a l => rfl
  unfold psfAt
  simp only [half_odd, g1, g2, hb, hte, Bool.false_or, Bool.true_and]
  rcases Bool.eq_false_or_eq_true (bcOk (2 * d + 1) (sliceLen nrm.h (roundHalfEven x - d) (roundHalfEven x + d + 1))) with h1 | h1 <;>
  rcases Bool.eq_false_or_eq_true (bcOk (2 * d + 1) (sliceLen nrm.w (roundHalfEven y - d) (roundHalfEven y + d + 1))) with h2 | h2 <;>
  simp [h1, h2]

/-- C59: a PSF of even height 4 or more, or an odd height of 3 or more and another width, always raises. -/
theorem psf_even_raises (ev : F → ℤ → ℤ → K) (nrm : Img K) (d w : ℕ) (terms : List (Img K × F)) (x y : ℚ)
    (ht : terms ≠ []) (hd : 1 ≤ d) :
    psfAt ev nrm (2 * d + 2) w terms x y = .error .ValueError := by
  refine psf_raises_of ev nrm _ _ terms x y ht ?_
  rw [half_even]
  have : bcOk (2 * d + 2) (roundHalfEven x + (d : ℤ) + 1 - (roundHalfEven x - d)).toNat = false := by
    rw [Bool.eq_false_iff, Ne, bcOk_iff]; omega
  rw [this]; rfl

theorem psf_oblong_raises (ev : F → ℤ → ℤ → K) (nrm : Img K) (d w : ℕ) (terms : List (Img K × F)) (x y : ℚ)
    (ht : terms ≠ []) (hd : 1 ≤ d) (hw : w ≠ 2 * d + 1) :
    psfAt ev nrm (2 * d + 1) w terms x y = .error .ValueError := by
  refine psf_raises_of ev nrm _ _ terms x y ht ?_
  rw [half_odd]
  have : bcOk w (roundHalfEven y + (d : ℤ) + 1 - (roundHalfEven y - d)).toNat = false := by
    rw [Bool.eq_false_iff, Ne, bcOk_iff]; omega
  rw [this]; simp

/-- C59: a position far enough before the first row is accepted: the fields are evaluated outside of the
image, and the normalisation is read from its opposite end. -/
theorem psf_before_first (ev : F → ℤ → ℤ → K) (nrm : Img K) (d : ℕ) (terms : List (Img K × F)) (x y : ℚ)
    (hx : (d : ℤ) - nrm.h ≤ roundHalfEven x ∧ roundHalfEven x + d + 1 < 0)
    (hy : (d : ℤ) ≤ roundHalfEven y ∧ roundHalfEven y + d < nrm.w) :
    ∃ p, psfAt ev nrm (2 * d + 1) (2 * d + 1) terms x y = .ok p ∧ p.h = 2 * d + 1 ∧ p.w = 2 * d + 1 ∧
      ∀ i < 2 * d + 1, ∀ j < 2 * d + 1, p.px i j =
        psfSpecWrapped ev nrm d terms (roundHalfEven x) (roundHalfEven y) i j /
          ∑ k ∈ Finset.range (2 * d + 1), ∑ l ∈ Finset.range (2 * d + 1),
            psfSpecWrapped ev nrm d terms (roundHalfEven x) (roundHalfEven y) k l := by
  obtain ⟨xp, hxp⟩ : ∃ xp, roundHalfEven x = xp := ⟨_, rfl⟩
  obtain ⟨yp, hyp⟩ : ∃ yp, roundHalfEven y = yp := ⟨_, rfl⟩
  rw [hxp] at hx; rw [hyp] at hy
  unfold psfAt
  simp only [half_odd, hxp, hyp]
  have g1 : (xp + (d : ℤ) + 1 - (xp - d)).toNat = 2 * d + 1 := by omega
  have g2 : (yp + (d : ℤ) + 1 - (yp - d)).toNat = 2 * d + 1 := by omega
  have b1 : sliceBound nrm.h (xp - d) = (nrm.h + xp - d).toNat := by unfold sliceBound; split <;> omega
  have b2 : sliceBound nrm.w (yp - d) = (yp - d).toNat := sliceBound_inside (by omega) (by omega)
  have b3 : sliceBound nrm.h (xp + d + 1) = (nrm.h + xp + d + 1).toNat := by unfold sliceBound; split <;> omega
  have b4 : sliceBound nrm.w (yp + d + 1) = (yp + d + 1).toNat := sliceBound_inside (by omega) (by omega)
  have l1 : sliceLen nrm.h (xp - d) (xp + d + 1) = 2 * d + 1 := by rw [sliceLen, b1, b3]; omega
  have l2 : sliceLen nrm.w (yp - d) (yp + d + 1) = 2 * d + 1 := by rw [sliceLen, b2, b4]; omega
  have hb : bcOk (2 * d + 1) (2 * d + 1) = true := (bcOk_iff _ _).mpr (Or.inr rfl)
  rw [g1, g2, l1, l2, hb]
  have key : ∀ i < 2 * d + 1, ∀ j < 2 * d + 1,
      (terms.map fun t => psfTerm ev nrm (xp - d) (xp + d + 1) (yp - d) (yp + d + 1) t i j).sum =
        psfSpecWrapped ev nrm d terms xp yp i j := by
    intro i hi j hj
    unfold psfSpecWrapped
    congr 1
    refine List.map_congr_left fun t _ => ?_
    unfold psfTerm
    rw [g1, g2, l1, l2, b1, b2, bcIdx_full hi, bcIdx_full hj,
      show (nrm.h + xp - d).toNat + i = (nrm.h + xp - d + i).toNat by omega,
      show (yp - d).toNat + j = (yp - d + j).toNat by omega]
  refine ⟨_, if_pos (by simp), rfl, rfl, fun i hi j hj => ?_⟩
  show _ / imgSum _ = _
  congr 1
  · exact key i hi j hj
  · unfold imgSum
    refine Finset.sum_congr rfl fun k hk => Finset.sum_congr rfl fun l hl => ?_
    exact key k (Finset.mem_range.mp hk) l (Finset.mem_range.mp hl)

/-! ## The method -/

variable [LinearOrder K]

/-- C59: with the PSF measured, `get_psf_xy` of a variable PSF is the PSF computed from the cached basis,
fields and normalisation, and changes nothing. -/
theorem psf_xy_variable (e : KEnv K F N S R) (ev : F → ℤ → ℤ → K) (toImg : N → Img K) (x y : ℚ)
    (s : PSFState K F N S R) (p : Img K) (b : List (Img K)) (f : F) (a : List (Option F)) (n : N)
    (hb : s.basis = some (p :: b)) (ha : s.fields = some (some f :: a)) (hn : s.normal = some n) :
    getPsfXY e ev toImg x y s =
      (psfAt ev (toImg n) p.h p.w (psfTerms (p :: b) (some f :: a)) x y, s) := by
  unfold getPsfXY
  rw [bind_ok _ _ _ _ _ (klBasis_some e s _ hb), bind_ok _ _ _ _ _ (klFields_some e s _ ha)]
  simp only []
  rw [bind_ok _ _ _ _ _ (normalImage_some e s n hn)]
  rfl

omit [Field K] [LinearOrder K] in
theorem psfTerms_zip (b : List (Img K)) (f : List F) : psfTerms b (f.map some) = b.zip f := by
  unfold psfTerms
  induction b generalizing f with
  | nil => rfl
  | cons p b ih =>
    cases f with
    | nil => rfl
    | cons x f => simp [ih f]

omit [LinearOrder K] in
theorem sum_zip_range {α β : Type} (l : List α) (m : List β) (g : α × β → K) (a : ℕ → α) (b : ℕ → β)
    (hl : l.length = m.length) (ha : ∀ k, l[k]? = some (a k) ∨ l.length ≤ k) (hb : ∀ k, m[k]? = some (b k) ∨ m.length ≤ k) :
    ((l.zip m).map g).sum = ∑ k ∈ Finset.range l.length, g (a k, b k) := by
  induction l generalizing m a b with
  | nil => simp
  | cons x l ih =>
    cases m with
    | nil => cases hl
    | cons y m =>
      have e1 : x = a 0 := by
        rcases ha 0 with h | h
        · simpa using h
        · simp at h
      have e2 : y = b 0 := by
        rcases hb 0 with h | h
        · simpa using h
        · simp at h
      rw [List.zip_cons_cons, List.map_cons, List.sum_cons, List.length_cons, Finset.sum_range_succ',
        ih m (fun k => a (k + 1)) (fun k => b (k + 1)) (by simpa using hl) (fun k => by simpa using ha (k + 1))
          (fun k => by simpa using hb (k + 1)), e1, e2, add_comm]

/-- C59: for an image whose PSF has been measured with `n` elements and as many fields, at a position at least half a stamp away
from every edge: pixel `(i, j)` of the result is the sum over `k` of element `k` times field `k`, both divided by the
normalisation of the pixel underneath, divided by the sum of these over all pixels. -/
theorem psf_xy_pairs (e : KEnv K F N S R) (ev : F → ℤ → ℤ → K) (toImg : N → Img K) (x y : ℚ)
    (s : PSFState K F N S R) (d n : ℕ) (elem : ℕ → Img K) (field : ℕ → F) (nr : N) (hn : 0 < n)
    (hb : s.basis = some ((List.range n).map elem)) (ha : s.fields = some ((List.range n).map fun k => some (field k)))
    (hnr : s.normal = some nr) (hs : (elem 0).h = 2 * d + 1 ∧ (elem 0).w = 2 * d + 1)
    (hx : (d : ℤ) ≤ roundHalfEven x ∧ roundHalfEven x + d < (toImg nr).h)
    (hy : (d : ℤ) ≤ roundHalfEven y ∧ roundHalfEven y + d < (toImg nr).w) :
    ∃ p, getPsfXY e ev toImg x y s = (.ok p, s) ∧ p.h = 2 * d + 1 ∧ p.w = 2 * d + 1 ∧
      ∀ i < 2 * d + 1, ∀ j < 2 * d + 1, p.px i j =
        (∑ k ∈ Finset.range n, (elem k).px i j *
            ev (field k) (roundHalfEven x - d + i) (roundHalfEven y - d + j) /
          (toImg nr).px (roundHalfEven x - d + i).toNat (roundHalfEven y - d + j).toNat) /
        ∑ i ∈ Finset.range (2 * d + 1), ∑ j ∈ Finset.range (2 * d + 1), ∑ k ∈ Finset.range n, (elem k).px i j *
            ev (field k) (roundHalfEven x - d + i) (roundHalfEven y - d + j) /
          (toImg nr).px (roundHalfEven x - d + i).toNat (roundHalfEven y - d + j).toNat := by
  obtain ⟨m, rfl⟩ : ∃ m, n = m + 1 := ⟨n - 1, by omega⟩
  obtain ⟨bl, hbl⟩ : ∃ bl, (List.range (m + 1)).map elem = elem 0 :: bl := by
    rw [List.range_succ_eq_map, List.map_cons]; exact ⟨_, rfl⟩
  obtain ⟨fl, hfl⟩ : ∃ fl, (List.range (m + 1)).map (fun k => some (field k)) = some (field 0) :: fl := by
    rw [List.range_succ_eq_map, List.map_cons]; exact ⟨_, rfl⟩
  have hterms : psfTerms (elem 0 :: bl) (some (field 0) :: fl) =
      ((List.range (m + 1)).map elem).zip ((List.range (m + 1)).map field) := by
    rw [← hbl, ← hfl, ← psfTerms_zip, List.map_map]
    rfl
  obtain ⟨p, hp, h1, h2, h3⟩ := psf_inside ev (toImg nr) d
    (((List.range (m + 1)).map elem).zip ((List.range (m + 1)).map field)) x y hx hy
  refine ⟨p, ?_, h1, h2, ?_⟩
  · rw [psf_xy_variable e ev toImg x y s (elem 0) bl (field 0) fl nr (hbl ▸ hb) (hfl ▸ ha) hnr, hterms, hs.1, hs.2, hp]
  · have key : ∀ i j, psfSpec ev (toImg nr) d (((List.range (m + 1)).map elem).zip ((List.range (m + 1)).map field))
        (roundHalfEven x) (roundHalfEven y) i j = ∑ k ∈ Finset.range (m + 1), (elem k).px i j *
            ev (field k) (roundHalfEven x - d + i) (roundHalfEven y - d + j) /
          (toImg nr).px (roundHalfEven x - d + i).toNat (roundHalfEven y - d + j).toNat := by
      intro i j
      unfold psfSpec
      rw [sum_zip_range _ _ _ elem field (by simp) (fun k => ?_) (fun k => ?_)]
      · simp
      · rcases Nat.lt_or_ge k (m + 1) with h | h
        · left; simp [h]
        · right; simpa using h
      · rcases Nat.lt_or_ge k (m + 1) with h | h
        · left; simp [h]
        · right; simpa using h
    intro i hi j hj
    rw [h3 i hi j hj]
    simp only [key]

/-- C59: a constant PSF is returned as it is, wherever the position; it is only normalised if
`get_variable_psf` was called before. -/
theorem psf_xy_constant (e : KEnv K F N S R) (ev : F → ℤ → ℤ → K) (toImg : N → Img K) (x y : ℚ)
    (s : PSFState K F N S R) (p : Img K) (b : List (Img K)) (a : List (Option F))
    (hb : s.basis = some (p :: b)) (ha : s.fields = some (none :: a)) :
    getPsfXY e ev toImg x y s = (.ok p, s) := by
  unfold getPsfXY
  rw [bind_ok _ _ _ _ _ (klBasis_some e s _ hb), bind_ok _ _ _ _ _ (klFields_some e s _ ha)]
  rfl

/-! ## Cases -/

/-- A 3 × 3 PSF on a 9 × 9 image: inside. -/
example : ∃ p, psfAt (K := ℚ) (fun (_ : Unit) x y => (x + y : ℤ)) ⟨9, 9, fun i _ => i + 1⟩ 3 3
    [(⟨3, 3, fun _ _ => 1⟩, ())] 4 (9 / 2) = .ok p ∧ p.h = 2 * 1 + 1 ∧ imgSum p = 1 := by
  have hx : roundHalfEven 4 = 4 := by decide +kernel
  have hy : roundHalfEven (9 / 2) = 4 := by decide +kernel
  obtain ⟨p, hp, h1, -, h3⟩ := psf_inside (K := ℚ) (fun (_ : Unit) x y => (x + y : ℤ))
    ⟨9, 9, fun i _ => i + 1⟩ 1 [(⟨3, 3, fun _ _ => 1⟩, ())] 4 (9 / 2)
    (by rw [hx]; decide) (by rw [hy]; decide)
  refine ⟨p, hp, h1, ?_⟩
  rcases psf_unit_sum _ _ _ _ _ _ _ p hp with h | h
  · exact h
  · exfalso
    have := h3 1 (by omega) 1 (by omega)
    rw [h 1 1, hx, hy] at this
    revert this
    decide +kernel

/-- The same PSF at the edge raises, beyond the edge it does not. -/
example : psfAt (K := ℚ) (fun (_ : Unit) x y => (x + y : ℤ)) ⟨9, 9, fun i _ => i + 1⟩ 3 3
    [(⟨3, 3, fun _ _ => 1⟩, ())] 0 4 = .error .ValueError := by
  have hx : roundHalfEven 0 = 0 := by decide +kernel
  have := (psf_raises_iff (K := ℚ) (fun (_ : Unit) x y => (x + y : ℤ)) ⟨9, 9, fun i _ => i + 1⟩ 1
    [(⟨3, 3, fun _ _ => 1⟩, ())] 0 4 (by simp) (le_refl _) (by simp) (by simp)).mpr
    (Or.inl (by rw [hx]; decide))
  exact this

example : ∃ p, psfAt (K := ℚ) (fun (_ : Unit) x y => (x + y : ℤ)) ⟨9, 9, fun i _ => i + 1⟩ 3 3
    [(⟨3, 3, fun _ _ => 1⟩, ())] (-4) 4 = .ok p := by
  have hx : roundHalfEven (-4) = -4 := by decide +kernel
  have hy : roundHalfEven 4 = 4 := by decide +kernel
  obtain ⟨p, h, -⟩ := psf_before_first (K := ℚ) (fun (_ : Unit) x y => (x + y : ℤ))
    ⟨9, 9, fun i _ => i + 1⟩ 1 [(⟨3, 3, fun _ _ => 1⟩, ())] (-4) 4 (by rw [hx]; decide) (by rw [hy]; decide)
  exact ⟨p, h⟩

/-- A measured PSF of two elements, the field of the first constant and that of the second growing along the rows. -/
def twoState : PSFState ℚ (List ℚ) ℕ (ℚ × ℕ × ℕ) (ℚ × ℕ × ℕ) :=
  { demoState with
    basis := some ((List.range 2).map fun k => ⟨3, 3, fun i j => if i = k ∧ j = 1 then 1 else 0⟩)
    fields := some ((List.range 2).map fun k => some [(1 : ℚ), k])
    normal := some 0 }

example : ∃ p, getPsfXY demoEnv (fun (f : List ℚ) x _ => f.getD 0 0 + f.getD 1 0 * x) (fun _ => ⟨9, 9, fun i _ => i + 1⟩) 4 4
    twoState = (.ok p, twoState) ∧ p.px 0 1 = 1 / 5 ∧ p.px 1 1 = 4 / 5 ∧ p.px 0 0 = 0 := by
  have hx : roundHalfEven 4 = 4 := by decide +kernel
  obtain ⟨p, hp, -, -, h⟩ := psf_xy_pairs demoEnv (fun (f : List ℚ) x _ => f.getD 0 0 + f.getD 1 0 * x)
    (fun _ => ⟨9, 9, fun i _ => i + 1⟩) 4 4 twoState 1 2
    (fun k => ⟨3, 3, fun i j => if i = k ∧ j = 1 then 1 else 0⟩) (fun k => [(1 : ℚ), k]) 0
    (by omega) rfl rfl rfl ⟨rfl, rfl⟩ (by rw [hx]; decide) (by rw [hx]; decide)
  refine ⟨p, hp, ?_, ?_, ?_⟩
  · rw [h 0 (by omega) 1 (by omega), hx]; decide +kernel
  · rw [h 1 (by omega) 1 (by omega), hx]; decide +kernel
  · rw [h 0 (by omega) 0 (by omega), hx]; decide +kernel

end PI
