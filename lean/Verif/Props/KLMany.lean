import Verif.Props.Cache
import Verif.Props.CacheMore
import Mathlib.Tactic.Linarith
import Mathlib.Tactic.FieldSimp
import Mathlib.Tactic.NormNum
import Mathlib.Tactic.Positivity

/-! # Properties C54 and C98: up to 250 stars, and more -/

namespace PI
open PyS

section cov
variable {K : Type} [Field K] [LinearOrder K] [IsStrictOrderedRing K]

/-- C54: up to 250 unit-sum stamps `cov_matrix` holds `(Gram - 1/P) / (P - 1)`. -/
theorem cov_few (c : Columns K) (hn : 2 ≤ c.n) (hn' : c.n ≤ 250) (hP : 2 ≤ c.P)
    (hu : ∀ s < c.n, ∑ p ∈ Finset.range c.P, c.m p s = 1) :
    ∃ f, covOf c = .mat c.n f ∧ ∀ i < c.n, ∀ j < c.n,
      f i j = ((∑ p ∈ Finset.range c.P, c.m p i * c.m p j) - 1 / c.P) / ((c.P : K) - 1) := by
  unfold covOf
  rw [if_pos hn', if_neg (by omega)]
  exact ⟨_, rfl, fun i hi j hj => cov_formulas c.P c.m hP i j (hu i hi) (hu j hj)⟩

omit [LinearOrder K] [IsStrictOrderedRing K] in
/-- C54: with more stamps it holds the Gram matrix. -/
theorem cov_many (c : Columns K) (hn : 250 < c.n) :
    ∃ f, covOf c = .mat c.n f ∧ ∀ i < c.n, ∀ j < c.n,
      f i j = ∑ p ∈ Finset.range c.P, c.m p i * c.m p j := by
  unfold covOf
  rw [if_neg (by omega)]
  exact ⟨_, rfl, fun i hi j hj => gramLoop_eq _ _ _ _ _ hi hj⟩

end cov

/-! ## The basis of an object that has not been measured -/

variable {K F N S R : Type} [Field K] [LinearOrder K]

theorem nSources_records (e : Env) (s u : SIState) (n : ℕ) (h : nSources e s = (.ok n, u)) :
    u.nSources = some n := by
  unfold nSources at h
  rw [get_bind] at h
  cases hs : s.nSources with
  | some k =>
    rw [hs] at h
    cases h
    exact hs
  | none =>
    rw [hs] at h
    simp only at h
    rcases hp : stampsPos e s with ⟨er | pos, v⟩
    · rw [bind_err _ _ _ _ _ hp] at h; cases h
    · rw [bind_ok _ _ _ _ _ hp, get_bind] at h
      cases hv : v.nSources with
      | none => rw [hv] at h; cases h
      | some k =>
        rw [hv] at h
        cases h
        exact hv

/-- The covariance of the stamps, NaN if a stamp has one. -/
def covOrNan (cols : Option (Columns K)) : Cov K :=
  match cols with
  | some c => covOf c
  | none => .nan

/-- C98: reading `kl_basis` of an object that has not been measured: up to 250 stars the elements are
combinations of the stamps; with more they are normalised twice. -/
theorem kl_basis_fresh (e : KEnv K F N S R) (s t : PSFState K F N S R) (n : ℕ) (u : SIState)
    (b : List (Img K)) (hb : s.basis = none) (hg : s.eig = none) (hc : s.cov = none) (hm : s.mMat = none)
    (hn : nSources e.toEnv s.toSIState = (.ok n, u)) (h : klBasis e s = (.ok b, t)) :
    ∃ c g, dbColumns u.stampShape n (u.db.getD []) = some c ∧ e.eigh (covOf c) = .ok g ∧
      buildBasis c (decide (n ≤ 250)) (if s.smooth then some e.gauss else none) g u.stampShape s.infLoss =
        .ok b := by
  unfold klBasis at h
  rw [get_bind, hb] at h
  simp only at h
  rcases hsb : setupBasis e none s with ⟨er | _, v⟩
  · rw [bind_err _ _ _ _ _ hsb] at h; cases h
  rw [bind_ok _ _ _ _ _ hsb, get_bind] at h
  have hvb : v.basis = some b := by
    cases hv : v.basis with
    | none => rw [hv] at h; cases h
    | some b' => rw [hv] at h; cases h; rfl
  unfold setupBasis at hsb
  rw [get_bind, if_pos (by rw [hb]; rfl), modify_bind] at hsb
  change (eigenv e >>= _) s = _ at hsb
  have hcov : covMatrix e s = (.ok (covOrNan (dbColumns (K := K) u.stampShape n (u.db.getD []))),
      { s with
        toSIState := u
        cov := some (covOrNan (dbColumns (K := K) u.stampShape n (u.db.getD [])))
        mMat := if n ≤ 250 then dbColumns u.stampShape n (u.db.getD []) else none }) := by
    have hon : onSI (nSources e.toEnv) s = (.ok n, { s with toSIState := u }) := by
      unfold onSI; rw [hn]
    unfold covMatrix
    rw [get_bind, hc]
    simp only
    rw [bind_ok _ _ _ _ _ hon, get_bind, modify_bind, ← hm]
    rfl
  obtain ⟨cm, hcm⟩ : ∃ cm : Cov K, cm = covOrNan (dbColumns (K := K) u.stampShape n (u.db.getD [])) := ⟨_, rfl⟩
  rw [← hcm] at hcov
  cases hge : e.eigh cm with
  | error er =>
    have : eigenv e s = (.error .ValueError, (covMatrix e s).2) := by
      unfold eigenv
      rw [get_bind, hg]
      simp only
      rw [bind_ok _ _ _ _ _ hcov, hge, hcov]
      rfl
    rw [bind_err _ _ _ _ _ this] at hsb
    cases hsb
  | ok g =>
    obtain ⟨w, hw⟩ : ∃ w : PSFState K F N S R, w = { s with
      toSIState := u
      cov := some cm
      eig := some g
      mMat := if n ≤ 250 then dbColumns u.stampShape n (u.db.getD []) else none } := ⟨_, rfl⟩
    have hev : eigenv e s = (.ok g, w) := by
      unfold eigenv
      rw [get_bind, hg]
      simp only
      rw [bind_ok _ _ _ _ _ hcov, hge, hw]
      rfl
    rw [bind_ok _ _ _ _ _ hev, get_bind] at hsb
    have hun := nSources_records _ _ _ _ hn
    have hwc : w.columns = dbColumns u.stampShape n (u.db.getD []) := by
      unfold PSFState.columns
      rw [hw]
      by_cases hk : n ≤ 250
      · simp only [if_pos hk]
        cases hd : dbColumns (K := K) u.stampShape n (u.db.getD []) with
        | none => simp only [hun, Option.getD_some]; exact hd
        | some c => rfl
      · simp only [if_neg hk, hun, Option.getD_some]
    rw [hwc] at hsb
    cases hd : dbColumns (K := K) u.stampShape n (u.db.getD []) with
    | none => rw [hd] at hsb; cases hsb
    | some c =>
      rw [hd] at hsb hcm
      simp only [covOrNan] at hsb hcm
      have hwm : w.mMat.isSome = decide (n ≤ 250) := by
        rw [hw]
        by_cases hk : n ≤ 250
        · simp [hk, hd]
        · simp [hk]
      have hws : w.smooth = s.smooth ∧ w.infLoss = s.infLoss ∧ w.stampShape = u.stampShape := by rw [hw]; exact ⟨rfl, rfl, rfl⟩
      rw [hwm, hws.1, hws.2.1, hws.2.2] at hsb
      refine ⟨c, g, rfl, hcm ▸ hge, ?_⟩
      cases hbb : buildBasis c (decide (n ≤ 250)) (if s.smooth then some e.gauss else none) g u.stampShape
        s.infLoss with
      | error er =>
        rw [hbb, bind_app] at hsb
        simp only [lift_app] at hsb
        cases hsb
      | ok b' =>
        rw [hbb, bind_app] at hsb
        simp only [lift_app, modify_app] at hsb
        cases hsb
        injection hvb with hvb
        rw [hvb]

/-- Whether all pixels of a stored stamp are finite. -/
def Stamp.finite : Stamp → Bool
  | .fin _ => true
  | .nan _ _ => false
  | .inf _ _ => false

/-- C98: a stamp with NaN or infinite pixels spoils the whole basis: if the library finds no eigenvalues of a matrix that is not
finite, reading `kl_basis` raises a ValueError. -/
theorem kl_basis_not_finite (e : KEnv K F N S R) (s : PSFState K F N S R) (n : ℕ) (u : SIState)
    (hb : s.basis = none) (hg : s.eig = none) (hc : s.cov = none)
    (hn : nSources e.toEnv s.toSIState = (.ok n, u)) (er : PyErr) (hev : e.eigh .nan = .error er)
    (k : ℕ) (hk : k < n) (st : Stamp) (hst : (u.db.getD [])[k]? = some st) (hf : st.finite = false) :
    (klBasis e s).1 = .error .ValueError := by
  have hcols : dbColumns (K := K) u.stampShape n (u.db.getD []) = none := by
    unfold dbColumns
    rw [if_neg]
    intro h
    have := h k hk
    rw [hst] at this
    cases st with
    | fin a => cases hf
    | nan a b => cases this
    | inf a b => cases this
  have hcov : ∃ t, covMatrix e s = (.ok .nan, t) := by
    have hon : onSI (nSources e.toEnv) s = (.ok n, { s with toSIState := u }) := by
      unfold onSI; rw [hn]
    unfold covMatrix
    rw [get_bind, hc]
    simp only
    rw [bind_ok _ _ _ _ _ hon, get_bind, modify_bind]
    simp only [hcols]
    exact ⟨_, rfl⟩
  obtain ⟨t, ht⟩ := hcov
  have hei : eigenv e s = (.error .ValueError, t) := by
    unfold eigenv
    rw [get_bind, hg]
    simp only
    rw [bind_ok _ _ _ _ _ ht, hev]
    rfl
  have hsb : setupBasis e none s = (.error .ValueError, t) := by
    unfold setupBasis
    rw [get_bind, if_pos (by rw [hb]; rfl), modify_bind]
    change (eigenv e >>= _) s = _
    rw [bind_err _ _ _ _ _ hei]
  unfold klBasis
  rw [get_bind, hb]
  simp only
  rw [bind_err _ _ _ _ _ hsb]

/-- Libraries that find no eigenvalues of a matrix with NaN. -/
def strictEnv : KEnv ℚ (List ℚ) ℕ (ℚ × ℕ × ℕ) (ℚ × ℕ × ℕ) :=
  { demoEnv with eigh := fun c => match c with
      | .nan => .error .LinAlgError
      | _ => .ok ⟨[1, 3], fun s c => if s = c then 1 else 0⟩ }

/-- Two stars, the second one with an infinite pixel. -/
example : (klBasis strictEnv { demoState with db := some [.fin ⟨1, 1, fun _ _ => 1⟩, .inf 1 1] }).1 = .error .ValueError :=
  kl_basis_not_finite _ _ 2 { demoState.toSIState with db := some [.fin ⟨1, 1, fun _ _ => 1⟩, .inf 1 1] } rfl rfl rfl rfl
    .LinAlgError rfl 1 (by omega) (.inf 1 1) rfl rfl

/-! ## The elements with more than 250 stars -/

section elements
variable {K : Type} [Field K] [LinearOrder K] [IsStrictOrderedRing K]

/-- Pixel `(i, j)` of the stamps combined with the components of eigenvector `col`. -/
def combined (c : Columns K) (eg : Eig K) (w col i j : ℕ) : K :=
  ∑ s ∈ Finset.range c.n, c.m (i * w + j) s * eg.vec s col

/-- `m` is the least pixel of an `h × w` image. -/
def LeastPixel (h w : ℕ) (f : ℕ → ℕ → K) (m : K) : Prop :=
  (∃ i < h, ∃ j < w, f i j = m) ∧ ∀ i < h, ∀ j < w, m ≤ f i j

omit [Field K] [IsStrictOrderedRing K] in
theorem foldr_min_le (l : List K) (d : K) : ∀ v ∈ l, l.foldr min d ≤ v := by
  induction l with
  | nil => simp
  | cons a l ih =>
    intro v hv
    rcases List.mem_cons.1 hv with rfl | hv
    · exact min_le_left _ _
    · exact le_trans (min_le_right _ _) (ih v hv)

omit [Field K] [IsStrictOrderedRing K] in
theorem foldr_min_mem (l : List K) (d : K) : l.foldr min d = d ∨ l.foldr min d ∈ l := by
  induction l with
  | nil => simp
  | cons a l ih =>
    simp only [List.foldr_cons]
    rcases min_choice a (l.foldr min d) with h | h
    · rw [h]; exact Or.inr (List.mem_cons_self ..)
    · rw [h]
      rcases ih with h' | h'
      · exact Or.inl h'
      · exact Or.inr (List.mem_cons_of_mem _ h')

omit [IsStrictOrderedRing K] in
theorem imgMin_least (a : Img K) (m : K) (hm : LeastPixel a.h a.w a.px m) : imgMin a = m := by
  obtain ⟨⟨i, hi, j, hj, hij⟩, hle⟩ := hm
  have hmem : m ∈ a.flat := List.mem_map.2 ⟨(i, j), Img.mem_indices.2 ⟨hi, hj⟩, hij⟩
  have hall : ∀ v ∈ a.flat, m ≤ v := by
    intro v hv
    obtain ⟨p, hp, rfl⟩ := List.mem_map.1 hv
    exact hle p.1 (Img.mem_indices.1 hp).1 p.2 (Img.mem_indices.1 hp).2
  unfold imgMin
  refine le_antisymm (foldr_min_le _ _ m hmem) ?_
  have hd : a.flat.headD 0 ∈ a.flat := by
    cases hf : a.flat with
    | nil => rw [hf] at hmem; cases hmem
    | cons x l => simp
  rcases foldr_min_mem a.flat (a.flat.headD 0) with h | h
  · rw [h]; exact hall _ hd
  · exact hall _ h

omit [IsStrictOrderedRing K] in
/-- C98: with more than 250 stars an element is the combination of the stamps divided by its sum, lowered by
the absolute value of its least pixel, and divided by its sum again. -/
theorem many_element (c : Columns K) (eg : Eig K) (h w col : ℕ) (t m : K)
    (ht : ∑ i ∈ Finset.range h, ∑ j ∈ Finset.range w, combined c eg w col i j = t) (ht0 : t ≠ 0)
    (hm : LeastPixel h w (fun i j => combined c eg w col i j / t) m) (i j : ℕ) :
    (pairElem c eg (h, w) col).px i j = (combined c eg w col i j / t - |m|) / (1 - h * w * |m|) := by
  have hs : imgSum (dotColumn c eg (h, w) col) = t := ht
  have hmin : imgMin (unitImg (dotColumn c eg (h, w) col)) = m := by
    refine imgMin_least _ _ ?_
    have : (unitImg (dotColumn c eg (h, w) col)).px = fun i j => combined c eg w col i j / t := by
      funext i j
      change combined c eg w col i j / imgSum (dotColumn c eg (h, w) col) = _
      rw [hs]
    rw [this]
    exact hm
  have hpx : ∀ i j, ((unitImg (dotColumn c eg (h, w) col)).map (· - |m|)).px i j =
      combined c eg w col i j / t - |m| := by
    intro i j
    change combined c eg w col i j / imgSum (dotColumn c eg (h, w) col) - |m| = _
    rw [hs]
  have hsum : imgSum ((unitImg (dotColumn c eg (h, w) col)).map (· - |m|)) = 1 - h * w * |m| := by
    change ∑ i ∈ Finset.range h, ∑ j ∈ Finset.range w,
      ((unitImg (dotColumn c eg (h, w) col)).map (· - |m|)).px i j = _
    simp only [hpx, Finset.sum_sub_distrib, Finset.sum_const, Finset.card_range, nsmul_eq_mul,
      ← Finset.sum_div, ht]
    rw [div_self ht0]
    ring
  unfold pairElem
  simp only [hmin]
  change ((unitImg (dotColumn c eg (h, w) col)).map (· - |m|)).px i j / _ = _
  rw [hpx, hsum]

omit [IsStrictOrderedRing K] in
/-- C98: such an element has unit sum. -/
theorem many_element_sum (c : Columns K) (eg : Eig K) (h w col : ℕ) (t m : K)
    (ht : ∑ i ∈ Finset.range h, ∑ j ∈ Finset.range w, combined c eg w col i j = t) (ht0 : t ≠ 0)
    (hm : LeastPixel h w (fun i j => combined c eg w col i j / t) m) (hne : h * w * |m| ≠ 1) :
    ∑ i ∈ Finset.range h, ∑ j ∈ Finset.range w, (pairElem c eg (h, w) col).px i j = 1 := by
  have h1 : 1 - h * w * |m| ≠ 0 := sub_ne_zero.2 hne.symm
  simp only [many_element c eg h w col t m ht ht0 hm, ← Finset.sum_div, Finset.sum_sub_distrib,
    Finset.sum_const, Finset.card_range, nsmul_eq_mul, ht]
  rw [div_self ht0, ← mul_assoc, div_self h1]

/-- C98: if the combination has no pixel of the other sign, the element has no negative pixel and its least
pixel is zero. -/
theorem many_element_nonneg (c : Columns K) (eg : Eig K) (h w col : ℕ) (t m : K)
    (ht : ∑ i ∈ Finset.range h, ∑ j ∈ Finset.range w, combined c eg w col i j = t) (ht0 : t ≠ 0)
    (hm : LeastPixel h w (fun i j => combined c eg w col i j / t) m) (h0 : 0 ≤ m) (hlt : h * w * m < 1) :
    LeastPixel h w (pairElem c eg (h, w) col).px 0 := by
  have hp : 0 < 1 - h * w * |m| := by rw [abs_of_nonneg h0]; linarith
  have hf := many_element c eg h w col t m ht ht0 hm
  obtain ⟨⟨i, hi, j, hj, hij⟩, hle⟩ := hm
  refine ⟨⟨i, hi, j, hj, ?_⟩, fun i hi j hj => ?_⟩
  · have hij' : combined c eg w col i j / t = m := hij
    rw [hf, hij', abs_of_nonneg h0, sub_self, zero_div]
  · rw [hf]
    refine div_nonneg ?_ hp.le
    rw [abs_of_nonneg h0]
    exact sub_nonneg.2 (hle i hi j hj)

/-- C98: if it has one, subtracting the absolute value doubles the negative pixel instead of removing it; the
least pixel ends at or below twice the least pixel of the normalised combination. -/
theorem many_element_negative (c : Columns K) (eg : Eig K) (h w col : ℕ) (t m : K)
    (ht : ∑ i ∈ Finset.range h, ∑ j ∈ Finset.range w, combined c eg w col i j = t) (ht0 : t ≠ 0)
    (hm : LeastPixel h w (fun i j => combined c eg w col i j / t) m) (h0 : m < 0) (hlt : h * w * |m| < 1) :
    LeastPixel h w (pairElem c eg (h, w) col).px (2 * m / (1 - h * w * |m|)) ∧
      2 * m / (1 - h * w * |m|) ≤ 2 * m := by
  have hp : 0 < 1 - h * w * |m| := by linarith
  have hf := many_element c eg h w col t m ht ht0 hm
  obtain ⟨⟨i, hi, j, hj, hij⟩, hle⟩ := hm
  refine ⟨⟨⟨i, hi, j, hj, ?_⟩, fun i hi j hj => ?_⟩, ?_⟩
  · have hij' : combined c eg w col i j / t = m := hij
    rw [hf, hij', abs_of_neg h0]; ring
  · rw [hf]
    refine div_le_div_of_nonneg_right ?_ hp.le
    rw [abs_of_neg h0]
    have := hle i hi j hj
    linarith
  · rw [div_le_iff₀ hp]
    have : 0 ≤ (h : K) * w * |m| := by positivity
    nlinarith

/-- C98: with so large a negative pixel that the second sum is negative, the picture is inverted: every pixel
above `|m|` becomes negative and the least one positive. -/
theorem many_element_inverted (c : Columns K) (eg : Eig K) (h w col : ℕ) (t m : K)
    (ht : ∑ i ∈ Finset.range h, ∑ j ∈ Finset.range w, combined c eg w col i j = t) (ht0 : t ≠ 0)
    (hm : LeastPixel h w (fun i j => combined c eg w col i j / t) m) (h0 : m < 0) (hgt : 1 < h * w * |m|)
    (i j : ℕ) :
    (|m| < combined c eg w col i j / t → (pairElem c eg (h, w) col).px i j < 0) ∧
      (combined c eg w col i j / t = m → 0 < (pairElem c eg (h, w) col).px i j) := by
  have hp : 1 - h * w * |m| < 0 := by linarith
  rw [many_element c eg h w col t m ht ht0 hm]
  constructor
  · intro h
    exact div_neg_of_pos_of_neg (by linarith) hp
  · intro h
    rw [h, abs_of_neg h0]
    rw [abs_of_neg h0] at hp
    exact div_pos_of_neg_of_neg (by linarith) hp

omit [LinearOrder K] [IsStrictOrderedRing K] in
/-- C98: if all elements have unit sum, the PSF put together with a star's own coefficients adds up to the sum
of those coefficients, not to one. -/
theorem recombined_total (h w n : ℕ) (b : ℕ → Img K) (coef : ℕ → K)
    (hb : ∀ k < n, ∑ i ∈ Finset.range h, ∑ j ∈ Finset.range w, (b k).px i j = 1) :
    ∑ i ∈ Finset.range h, ∑ j ∈ Finset.range w, ∑ k ∈ Finset.range n, coef k * (b k).px i j =
      ∑ k ∈ Finset.range n, coef k := by
  have h1 : ∀ i, ∑ j ∈ Finset.range w, ∑ k ∈ Finset.range n, coef k * (b k).px i j =
      ∑ k ∈ Finset.range n, coef k * ∑ j ∈ Finset.range w, (b k).px i j := by
    intro i
    rw [Finset.sum_comm]
    simp only [Finset.mul_sum]
  simp only [h1]
  rw [Finset.sum_comm]
  refine Finset.sum_congr rfl fun k hk => ?_
  rw [← Finset.mul_sum, hb k (Finset.mem_range.1 hk), mul_one]

omit [LinearOrder K] [IsStrictOrderedRing K] in
/-- C98: a smoothed element also has unit sum, unless the filtered image sums to zero. -/
theorem smoothed_sum (g : Img K → Img K) (raw : List (Img K)) (a : Img K) (ha : a ∈ smoothed (some g) raw) :
    ∃ r ∈ raw, (imgSum (g r) ≠ 0 → imgSum a = 1) ∧ ∀ i j, a.px i j = (g r).px i j / imgSum (g r) := by
  obtain ⟨r, hr, rfl⟩ := List.mem_map.1 ha
  refine ⟨r, hr, fun h0 => ?_, fun _ _ => rfl⟩
  change ∑ i ∈ Finset.range (g r).h, ∑ j ∈ Finset.range (g r).w, (g r).px i j / imgSum (g r) = 1
  simp only [← Finset.sum_div]
  exact div_self h0

end elements

/-- Two stamps of three pixels and a vector with a negative component: the normalised combination is
`(4/5, 3/10, -1/10)`. -/
def mixDemo : Columns ℚ := ⟨3, 2, fun p s => if s = 0 then (if p = 0 then 2 / 3 else if p = 1 then 1 / 3 else 0)
  else if p = 0 then 0 else 1 / 2⟩

def mixEig : Eig ℚ := ⟨[0, 1], fun s c => if c = 0 then 0 else if s = 0 then 6 / 5 else -1 / 5⟩

theorem mixDemo_ok : ∑ i ∈ Finset.range 1, ∑ j ∈ Finset.range 3, combined mixDemo mixEig 3 1 i j = 1 ∧
    LeastPixel 1 3 (fun i j => combined mixDemo mixEig 3 1 i j / 1) (-1 / 10) := by
  unfold LeastPixel
  decide +kernel

/-- Its element is `(1, 2/7, -2/7)`. -/
example : (pairElem mixDemo mixEig (1, 3) 1).px 0 0 = 1 ∧ (pairElem mixDemo mixEig (1, 3) 1).px 0 1 = 2 / 7 ∧
    (pairElem mixDemo mixEig (1, 3) 1).px 0 2 = -2 / 7 := by
  have hf := many_element mixDemo mixEig 1 3 1 1 (-1 / 10) mixDemo_ok.1 one_ne_zero mixDemo_ok.2
  have h0 : combined mixDemo mixEig 3 1 0 0 = 4 / 5 ∧ combined mixDemo mixEig 3 1 0 1 = 3 / 10 ∧
      combined mixDemo mixEig 3 1 0 2 = -1 / 10 := by decide +kernel
  have ha : |(-1 / 10 : ℚ)| = 1 / 10 := by rw [abs_of_neg (by norm_num)]; norm_num
  simp only [hf, h0, ha]
  norm_num

end PI
