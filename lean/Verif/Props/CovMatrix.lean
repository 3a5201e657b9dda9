import Verif.Props.KLMany
import Mathlib.Algebra.BigOperators.Intervals

/-! # Properties C53 and C54: `cov_matrix` in terms of the stored stamps -/

namespace PI
open PyS

variable {K F N S R : Type} [Field K]

/-- All pixels of an array with `h` rows of `w` columns, one after the other. -/
theorem sum_flat {M : Type} [AddCommMonoid M] (f : ℕ → ℕ → M) (h w : ℕ) :
    ∑ p ∈ Finset.range (h * w), f (p / w) (p % w) = ∑ i ∈ Finset.range h, ∑ j ∈ Finset.range w, f i j := by
  induction h with
  | zero => simp
  | succ h ih =>
    rw [Nat.succ_mul, Finset.sum_range_add, ih, Finset.sum_range_succ]
    congr 1
    refine Finset.sum_congr rfl fun j hj => ?_
    have hj := Finset.mem_range.1 hj
    rw [Nat.mul_comm h, Nat.mul_add_div (by omega), Nat.div_eq_of_lt hj, Nat.mul_add_mod, Nat.mod_eq_of_lt hj, add_zero]

/-- The mean pixel of a stamp of shape `h` x `w`. -/
def meanPx (h w : ℕ) (a : ℕ → ℕ → K) : K :=
  (∑ i ∈ Finset.range h, ∑ j ∈ Finset.range w, a i j) / ((h * w : ℕ) : K)

/-- What `cov_matrix` holds for finite stamps. -/
theorem cov_read (e : KEnv K F N S R) (s : PSFState K F N S R) (n : ℕ) (u : SIState) (hc : s.cov = none)
    (hn : nSources e.toEnv s.toSIState = (.ok n, u)) (st : ℕ → Img ℚ)
    (hst : ∀ k < n, (u.db.getD [])[k]? = some (.fin (st k))) :
    ∃ c : Columns K, c.P = u.stampShape.1 * u.stampShape.2 ∧ c.n = n ∧
      (∀ k < n, ∀ p, c.m p k = ((st k).px (p / u.stampShape.2) (p % u.stampShape.2) : ℚ)) ∧
      (covMatrix e s).1 = .ok (covOf c) ∧ (covMatrix e s).2.cov = some (covOf c) := by
  have hon : onSI (nSources e.toEnv) s = (.ok n, { s with toSIState := u }) := by
    unfold onSI; rw [hn]
  have hall : ∀ k < n, (((u.db.getD [])[k]?).bind (stampImg (K := K))).isSome := by
    intro k hk; rw [hst k hk]; rfl
  refine ⟨⟨u.stampShape.1 * u.stampShape.2, n, fun p k => match ((u.db.getD [])[k]?).bind (stampImg (K := K)) with
      | some a => a.px (p / u.stampShape.2) (p % u.stampShape.2)
      | none => 0⟩, rfl, rfl, fun k hk p => ?_, ?_⟩
  · simp only [hst k hk, Option.bind_some, stampImg, Img.map]
  · have hd : dbColumns (K := K) u.stampShape n (u.db.getD []) =
        some ⟨u.stampShape.1 * u.stampShape.2, n, fun p k => match ((u.db.getD [])[k]?).bind (stampImg (K := K)) with
          | some a => a.px (p / u.stampShape.2) (p % u.stampShape.2)
          | none => 0⟩ := by
      unfold dbColumns
      exact if_pos hall
    unfold covMatrix
    rw [get_bind, hc]
    simp only
    rw [bind_ok _ _ _ _ _ hon, get_bind, modify_bind]
    simp only [hd]
    exact ⟨rfl, rfl⟩

/-- C54: reading `cov_matrix` of an image with 2 to 250 stars: entry `(a, b)` is the covariance of the pixels of stamps `a` and
`b`, for stamps of any shape. -/
theorem cov_matrix_few (e : KEnv K F N S R) (s : PSFState K F N S R) (n : ℕ) (u : SIState) (hc : s.cov = none)
    (hn : nSources e.toEnv s.toSIState = (.ok n, u)) (st : ℕ → Img ℚ)
    (hst : ∀ k < n, (u.db.getD [])[k]? = some (.fin (st k))) (h2 : 2 ≤ n) (h250 : n ≤ 250) :
    ∃ f, (covMatrix e s).1 = .ok (.mat n f) ∧ ∀ a < n, ∀ b < n,
      f a b = (∑ i ∈ Finset.range u.stampShape.1, ∑ j ∈ Finset.range u.stampShape.2,
          ((st a).px i j - meanPx u.stampShape.1 u.stampShape.2 fun y x => ((st a).px y x : K)) *
          ((st b).px i j - meanPx u.stampShape.1 u.stampShape.2 fun y x => ((st b).px y x : K))) /
        (((u.stampShape.1 * u.stampShape.2 : ℕ) : K) - 1) := by
  obtain ⟨c, hP, hcn, hm, h1, -⟩ := cov_read e s n u hc hn st hst
  have hco : covOf c = .mat n (npCov c.P c.m) := by
    unfold covOf
    rw [if_pos (by omega), if_neg (by omega), hcn]
  refine ⟨npCov c.P c.m, h1.trans (by rw [hco]), fun a ha b hb => ?_⟩
  have hmean : ∀ k < n, colMean c.P c.m k =
      meanPx u.stampShape.1 u.stampShape.2 fun y x => ((st k).px y x : K) := by
    intro k hk
    unfold colMean meanPx
    rw [hP, Finset.sum_congr rfl fun p _ => hm k hk p]
    rw [sum_flat (fun y x => (((st k).px y x : ℚ) : K))]
  unfold npCov
  rw [hmean a ha, hmean b hb, hP]
  simp only [hm a ha, hm b hb]
  rw [sum_flat (fun y x => ((((st a).px y x : ℚ) : K) - _) * ((((st b).px y x : ℚ) : K) - _))]

/-- C54: with more than 250 stars entry `(a, b)` is the sum of the products of the pixels. -/
theorem cov_matrix_many (e : KEnv K F N S R) (s : PSFState K F N S R) (n : ℕ) (u : SIState) (hc : s.cov = none)
    (hn : nSources e.toEnv s.toSIState = (.ok n, u)) (st : ℕ → Img ℚ)
    (hst : ∀ k < n, (u.db.getD [])[k]? = some (.fin (st k))) (h250 : 250 < n) :
    ∃ f, (covMatrix e s).1 = .ok (.mat n f) ∧ ∀ a < n, ∀ b < n,
      f a b = ∑ i ∈ Finset.range u.stampShape.1, ∑ j ∈ Finset.range u.stampShape.2,
        ((st a).px i j : K) * ((st b).px i j : K) := by
  obtain ⟨c, hP, hcn, hm, h1, -⟩ := cov_read e s n u hc hn st hst
  obtain ⟨f, hf, hfe⟩ := cov_many c (by omega)
  refine ⟨f, h1.trans (by rw [hf, hcn]), fun a ha b hb => ?_⟩
  rw [hfe a (by omega) b (by omega), hP]
  simp only [hm a ha, hm b hb]
  rw [sum_flat (fun y x => (((st a).px y x : ℚ) : K) * (((st b).px y x : ℚ) : K))]

/-- C53: reading `cov_matrix` of an image with finite stamps: a number for one star, and for more stars (and stamps with
pixels) a symmetric positive semidefinite matrix with a row and a column for each. It is kept. -/
theorem cov_matrix_read [LinearOrder K] [IsStrictOrderedRing K] (e : KEnv K F N S R) (s : PSFState K F N S R) (n : ℕ) (u : SIState)
    (hc : s.cov = none) (hn : nSources e.toEnv s.toSIState = (.ok n, u)) (st : ℕ → Img ℚ)
    (hst : ∀ k < n, (u.db.getD [])[k]? = some (.fin (st k))) :
    (n = 1 → ∃ v, (covMatrix e s).1 = .ok (.scalar v)) ∧
      (2 ≤ n → 1 ≤ u.stampShape.1 * u.stampShape.2 → ∃ f, (covMatrix e s).1 = .ok (.mat n f) ∧ SymPSD n f) ∧
      ∀ c, (covMatrix e s).1 = .ok c → (covMatrix e s).2.cov = some c ∧
        covMatrix e (covMatrix e s).2 = (.ok c, (covMatrix e s).2) := by
  obtain ⟨c, hP, hcn, -, h1, h2⟩ := cov_read e s n u hc hn st hst
  refine ⟨fun hn1 => ?_, fun hn2 hp => ?_, fun d hd => ?_⟩
  · obtain ⟨v, hv⟩ := cov_single c (by omega)
    exact ⟨v, h1.trans (by rw [hv])⟩
  · obtain ⟨f, hf, hs⟩ := cov_sym_psd c (by omega) (by omega)
    rw [hcn] at hf hs
    exact ⟨f, h1.trans (by rw [hf]), hs⟩
  · have hd' : covOf c = d := by rw [h1] at hd; injection hd
    rw [hd'] at h2
    refine ⟨h2, ?_⟩
    generalize (covMatrix e s).2 = t at h2
    unfold covMatrix
    rw [get_bind, h2]
    rfl

/-- C53: with a stamp that has NaN or infinite pixels the matrix is not finite (which entries are not is not modelled). -/
theorem cov_matrix_nan (e : KEnv K F N S R) (s : PSFState K F N S R) (n : ℕ) (u : SIState) (hc : s.cov = none)
    (hn : nSources e.toEnv s.toSIState = (.ok n, u)) (k : ℕ) (hk : k < n) (x : Stamp)
    (hx : (u.db.getD [])[k]? = some x) (hf : x.finite = false) : (covMatrix e s).1 = .ok .nan := by
  have hcols : dbColumns (K := K) u.stampShape n (u.db.getD []) = none := by
    unfold dbColumns
    rw [if_neg]
    intro h
    have := h k hk
    rw [hx] at this
    cases x with
    | fin a => cases hf
    | nan a b => cases this
    | inf a b => cases this
  have hon : onSI (nSources e.toEnv) s = (.ok n, { s with toSIState := u }) := by
    unfold onSI; rw [hn]
  unfold covMatrix
  rw [get_bind, hc]
  simp only
  rw [bind_ok _ _ _ _ _ hon, get_bind, modify_bind]
  simp only [hcols]
  rfl

/-- The hypotheses hold: two stars with stamps of one row of two pixels, and the matrix. -/
def rowStamps : PSFState ℚ (List ℚ) ℕ (ℚ × ℕ × ℕ) (ℚ × ℕ × ℕ) :=
  { demoState with
    stampShape := (1, 2)
    db := some [.fin ⟨1, 2, fun _ j => j⟩, .fin ⟨1, 2, fun _ j => 2 * j⟩] }

example : nSources demoEnv.toEnv rowStamps.toSIState = (.ok 2, rowStamps.toSIState) ∧ rowStamps.cov = none ∧
    (∀ k < 2, (rowStamps.db.getD [])[k]? = some (.fin ⟨1, 2, fun _ j => ((k : ℚ) + 1) * j⟩)) ∧
    ∃ f, (covMatrix demoEnv rowStamps).1 = .ok (.mat 2 f) ∧ f 0 0 = 1 / 2 ∧ f 0 1 = 1 ∧ f 1 1 = 2 := by
  have h3 : ∀ k < 2, (rowStamps.db.getD [])[k]? = some (.fin ⟨1, 2, fun _ j => ((k : ℚ) + 1) * j⟩) := by
    intro k hk
    obtain rfl | rfl : k = 0 ∨ k = 1 := by omega
    · simp [rowStamps]
    · simp [rowStamps]; norm_num
  refine ⟨rfl, rfl, h3, ?_⟩
  obtain ⟨f, h1, h2⟩ := cov_matrix_few demoEnv rowStamps 2 rowStamps.toSIState rfl rfl
    (fun k => ⟨1, 2, fun _ j => ((k : ℚ) + 1) * j⟩) h3 (by omega) (by omega)
  refine ⟨f, h1, ?_, ?_, ?_⟩
  · rw [h2 0 (by omega) 0 (by omega)]; simp [rowStamps, meanPx, Finset.sum_range_succ]; norm_num
  · rw [h2 0 (by omega) 1 (by omega)]; simp [rowStamps, meanPx, Finset.sum_range_succ]; norm_num
  · rw [h2 1 (by omega) 1 (by omega)]; simp [rowStamps, meanPx, Finset.sum_range_succ]; norm_num

end PI
