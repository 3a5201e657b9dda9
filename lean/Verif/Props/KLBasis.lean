import Verif.Props.KL
import Mathlib.LinearAlgebra.Matrix.NonsingularInverse
import Mathlib.Algebra.BigOperators.Fin
import Mathlib.Tactic.IntervalCases
import Mathlib.Tactic.NormNum

/-! # Properties C55, C83, C84: the basis, its coefficients, and what it reconstructs -/

namespace PI

variable {K : Type} [Field K] [LinearOrder K]

/-! ## C55 -/

theorem lastCols_length (n cut : ℕ) : (lastCols n cut).length = min cut n := by
  simp [lastCols]

theorem lastCols_reverse (n cut i : ℕ) (hi : i < min cut n) :
    (lastCols n cut).reverse[i]? = some (n - 1 - i) := by
  have hl := lastCols_length n cut
  rw [List.getElem?_reverse (by omega), hl]
  unfold lastCols
  rw [List.getElem?_map, List.getElem?_range (by omega)]
  simp only [Option.map_some, Option.some.injEq]
  omega

/-- Number of elements, and element `i` before smoothing: it belongs to the `i`-th largest eigenvalue. -/
theorem rawBasis_get (c : Columns K) (hasM : Bool) (eg : Eig K) (sh : ℕ × ℕ) (cut : ℕ) (b : List (Img K))
    (h : rawBasis c hasM eg sh cut = .ok b) :
    b.length = min cut c.n ∧ ∀ i < b.length,
      b[i]? = some (if hasM then dotColumn c eg sh (c.n - 1 - i) else pairElem c eg sh (c.n - 1 - i)) := by
  have key : ∀ f : ℕ → Img K, b = ((lastCols c.n cut).map f).reverse →
      b.length = min cut c.n ∧ ∀ i < b.length, b[i]? = some (f (c.n - 1 - i)) := by
    rintro f rfl
    have hl : (((lastCols c.n cut).map f).reverse).length = min cut c.n := by
      rw [List.length_reverse, List.length_map, lastCols_length]
    refine ⟨hl, fun i hi => ?_⟩
    rw [← List.map_reverse, List.getElem?_map, lastCols_reverse _ _ _ (by omega)]
    rfl
  unfold rawBasis at h
  cases hasM with
  | true =>
    simp only [if_true] at h ⊢
    split at h
    · cases h; exact key _ rfl
    · cases h
  | false =>
    simp only [Bool.false_eq_true, if_false] at h ⊢
    split at h
    · cases h
    · cases h; exact key _ rfl

/-- C55, basis: with more than one element and no smoothing, element `i` is the stamps combined with
the components of the eigenvector of the `i`-th largest eigenvalue; a single element is divided by its
sum. -/
theorem basis_elements (c : Columns K) (hasM : Bool) (eg : Eig K) (sh : ℕ × ℕ) (loss : K) (b : List (Img K))
    (h : buildBasis c hasM none eg sh loss = .ok b) :
    b.length = min (klCut loss eg.vals) c.n ∧
    ∃ raw : ℕ → Img K,
      raw = (fun i => if hasM then dotColumn c eg sh (c.n - 1 - i) else pairElem c eg sh (c.n - 1 - i)) ∧
      (b.length ≠ 1 → ∀ i < b.length, b[i]? = some (raw i)) ∧
      (b.length = 1 → b = [unitImg (raw 0)]) := by
  unfold buildBasis at h
  cases hr : rawBasis c hasM eg sh (klCut loss eg.vals) with
  | error e => rw [hr] at h; cases h
  | ok r =>
    rw [hr] at h
    obtain ⟨h1, h2⟩ := rawBasis_get _ _ _ _ _ _ hr
    change Except.ok (if r.length = 1 then normHead r else r) = Except.ok b at h
    injection h with h
    by_cases hl : r.length = 1
    · rw [if_pos hl] at h
      obtain ⟨x, rfl⟩ := List.length_eq_one_iff.1 hl
      have hx := h2 0 (by simp)
      simp only [List.getElem?_cons_zero, Option.some.injEq] at hx
      subst h
      refine ⟨h1, _, rfl, fun hc => absurd rfl hc, fun _ => ?_⟩
      simp only [normHead, hx]
    · rw [if_neg hl] at h
      subst h
      exact ⟨h1, _, rfl, fun _ => h2, fun hc => absurd hc hl⟩

omit [LinearOrder K] in
theorem mapM_get {α β : Type} (f : α → Py β) (l : List α) (r : List β) (h : l.mapM f = .ok r) :
    r.length = l.length ∧ ∀ (i : ℕ) a, l[i]? = some a → ∃ b, f a = .ok b ∧ r[i]? = some b := by
  induction l generalizing r with
  | nil => cases h; simp
  | cons x l ih =>
    rw [List.mapM_cons] at h
    cases hx : f x with
    | error e => rw [hx] at h; cases h
    | ok y =>
      rw [hx] at h
      cases hl : l.mapM f with
      | error e => rw [hl] at h; cases h
      | ok ys =>
        rw [hl] at h
        cases h
        obtain ⟨h1, h2⟩ := ih ys hl
        refine ⟨by simp [h1], fun i a ha => ?_⟩
        cases i with
        | zero => simp only [List.getElem?_cons_zero, Option.some.injEq] at ha ⊢; subst ha; exact ⟨y, hx, rfl⟩
        | succ i => simpa using h2 i a (by simpa using ha)

omit [Field K] [LinearOrder K] in
/-- C55, fields: field `i` is fitted to the components of the eigenvector of the `i`-th largest
eigenvalue, one per source. -/
theorem field_elements {F N S R : Type} (e : KEnv K F N S R) (n nf : ℕ) (g : Eig K) (pos : List (ℚ × ℚ))
    (f : List (Option F)) (h : fitFields e n nf g pos = .ok f) :
    f.length = min nf n ∧ ∀ i < f.length, ∃ fit, f[i]? = some (some fit) ∧
      e.fit pos ((List.range n).map fun s => g.vec s (n - 1 - i)) = .ok fit := by
  obtain ⟨h1, h2⟩ := mapM_get _ _ _ h
  rw [List.length_reverse, lastCols_length] at h1
  refine ⟨h1, fun i hi => ?_⟩
  obtain ⟨b, hb, hr⟩ := h2 i _ (lastCols_reverse n nf i (by omega))
  cases hf : e.fit pos (measure n g (n - 1 - i)) with
  | error er => rw [hf] at hb; cases hb
  | ok fit =>
    rw [hf] at hb
    cases hb
    exact ⟨fit, hr, hf⟩

/-! ## C83: what the decomposition reconstructs -/

/-- Component of pixel `p` of all stamps along eigenvector `col`. -/
def projection (c : Columns K) (eg : Eig K) (p col : ℕ) : K := ∑ s ∈ Finset.range c.n, c.m p s * eg.vec s col

/-- The eigenvectors are orthonormal (contract of `np.linalg.eigh`). -/
def Orthonormal (n : ℕ) (eg : Eig K) : Prop :=
  ∀ c < n, ∀ d < n, ∑ s ∈ Finset.range n, eg.vec s c * eg.vec s d = if c = d then 1 else 0

omit [LinearOrder K] in
theorem orthonormal_rows (n : ℕ) (eg : Eig K) (h : Orthonormal n eg) (s t : ℕ) (hs : s < n) (ht : t < n) :
    ∑ c ∈ Finset.range n, eg.vec s c * eg.vec t c = if s = t then 1 else 0 := by
  let V : Matrix (Fin n) (Fin n) K := fun s c => eg.vec s c
  have h1 : V.transpose * V = 1 := by
    ext c d
    rw [Matrix.mul_apply, Matrix.one_apply]
    have := h c c.2 d d.2
    rw [Finset.sum_range] at this
    simp only [Fin.val_inj] at this
    exact this
  have h2 := mul_eq_one_comm.1 h1
  have h3 := congrFun (congrFun h2 ⟨s, hs⟩) ⟨t, ht⟩
  rw [Matrix.mul_apply, Matrix.one_apply] at h3
  rw [Finset.sum_range]
  simp only [Fin.mk.injEq] at h3
  exact h3

omit [LinearOrder K] in
/-- Sum over the first `k` elements in the order of decreasing eigenvalues plus the rest. -/
theorem sum_split (n k : ℕ) (hk : k ≤ n) (f : ℕ → K) :
    ∑ i ∈ Finset.range k, f (n - 1 - i) + ∑ c ∈ Finset.range (n - k), f c = ∑ c ∈ Finset.range n, f c := by
  have h1 : ∑ c ∈ Finset.range n, f c = ∑ c ∈ Finset.range (n - k), f c +
      ∑ x ∈ Finset.range k, f (n - k + x) := by
    conv_lhs => rw [← Nat.sub_add_cancel hk, Finset.sum_range_add]
  rw [h1, add_comm]
  congr 1
  rw [← Finset.sum_range_reflect]
  refine Finset.sum_congr rfl fun i hi => ?_
  rw [Finset.mem_range] at hi
  congr 1
  omega

omit [LinearOrder K] in
theorem full_sum (c : Columns K) (eg : Eig K) (h : Orthonormal c.n eg) (p s : ℕ) (hs : s < c.n) :
    ∑ col ∈ Finset.range c.n, projection c eg p col * eg.vec s col = c.m p s := by
  unfold projection
  simp only [Finset.sum_mul]
  rw [Finset.sum_comm]
  have : ∀ t ∈ Finset.range c.n, ∑ col ∈ Finset.range c.n, c.m p t * eg.vec t col * eg.vec s col =
      if t = s then c.m p t else 0 := by
    intro t ht
    simp only [mul_assoc]
    rw [← Finset.mul_sum, orthonormal_rows c.n eg h t s (Finset.mem_range.1 ht) hs]
    split <;> simp
  rw [Finset.sum_congr rfl this, Finset.sum_ite_eq', if_pos (Finset.mem_range.2 hs)]

omit [LinearOrder K] in
/-- What the first `k` elements leave of stamp `s`. -/
theorem residual (c : Columns K) (eg : Eig K) (h : Orthonormal c.n eg) (p s k : ℕ) (hs : s < c.n)
    (hk : k ≤ c.n) :
    c.m p s - ∑ i ∈ Finset.range k, projection c eg p (c.n - 1 - i) * eg.vec s (c.n - 1 - i) =
      ∑ col ∈ Finset.range (c.n - k), projection c eg p col * eg.vec s col := by
  rw [← full_sum c eg h p s hs, ← sum_split c.n k hk (fun col => projection c eg p col * eg.vec s col)]
  ring

omit [LinearOrder K] in
/-- C83: with all elements kept, combining the basis with the source's own coefficients gives the
source's stamp back exactly. -/
theorem kl_reconstructs (c : Columns K) (eg : Eig K) (h : Orthonormal c.n eg) (sh : ℕ × ℕ)
    (i j s : ℕ) (hs : s < c.n) :
    ∑ k ∈ Finset.range c.n, (dotColumn c eg sh (c.n - 1 - k)).px i j * eg.vec s (c.n - 1 - k) =
      c.m (i * sh.2 + j) s := by
  have h1 := residual c eg h (i * sh.2 + j) s c.n hs (le_refl _)
  rw [Nat.sub_self, Finset.sum_range_zero, sub_eq_zero] at h1
  exact h1.symm

omit [LinearOrder K] in
/-- C83: the stamps themselves: the combination for star `s`, at pixel `(i, j)`, is that pixel of the stamp stored
for star `s`. -/
theorem kl_reconstructs_stamp (sh : ℕ × ℕ) (n : ℕ) (db : List Stamp) (c : Columns K)
    (hc : dbColumns sh n db = some c) (eg : Eig K) (h : Orthonormal n eg) (s : ℕ) (hs : s < n) (a : Img ℚ)
    (ha : db[s]? = some (.fin a)) (i j : ℕ) (hj : j < sh.2) :
    ∑ k ∈ Finset.range n, (dotColumn c eg sh (n - 1 - k)).px i j * eg.vec s (n - 1 - k) = ((a.px i j : ℚ) : K) := by
  unfold dbColumns at hc
  split at hc
  · obtain rfl := Option.some.inj hc
    refine (kl_reconstructs _ eg h sh i j s hs).trans ?_
    simp only [ha, Option.bind_some, stampImg, Img.map]
    rw [Nat.mul_comm i, Nat.mul_add_div (by omega), Nat.div_eq_of_lt hj, Nat.mul_add_mod, Nat.mod_eq_of_lt hj, add_zero]
  · cases hc

omit [LinearOrder K] in
theorem residual_sq (c : Columns K) (eg : Eig K) (h : Orthonormal c.n eg) (p k : ℕ) (hk : k ≤ c.n) :
    ∑ s ∈ Finset.range c.n,
      (c.m p s - ∑ i ∈ Finset.range k, projection c eg p (c.n - 1 - i) * eg.vec s (c.n - 1 - i)) ^ 2 =
      ∑ col ∈ Finset.range (c.n - k), projection c eg p col ^ 2 := by
  have h1 : ∀ s ∈ Finset.range c.n,
      (c.m p s - ∑ i ∈ Finset.range k, projection c eg p (c.n - 1 - i) * eg.vec s (c.n - 1 - i)) ^ 2 =
      ∑ col ∈ Finset.range (c.n - k), ∑ d ∈ Finset.range (c.n - k),
        projection c eg p col * projection c eg p d * (eg.vec s col * eg.vec s d) := by
    intro s hs
    rw [residual c eg h p s k (Finset.mem_range.1 hs) hk, sq, Finset.sum_mul_sum]
    exact Finset.sum_congr rfl fun i _ => Finset.sum_congr rfl fun j _ => by ring
  rw [Finset.sum_congr rfl h1, Finset.sum_comm]
  refine Finset.sum_congr rfl fun col hcol => ?_
  rw [Finset.sum_comm]
  have h2 : ∀ d ∈ Finset.range (c.n - k), ∑ s ∈ Finset.range c.n,
      projection c eg p col * projection c eg p d * (eg.vec s col * eg.vec s d) =
      if col = d then projection c eg p col * projection c eg p d else 0 := by
    intro d hd
    rw [← Finset.mul_sum, h col (by rw [Finset.mem_range] at hcol; omega) d (by rw [Finset.mem_range] at hd; omega)]
    split <;> simp
  rw [Finset.sum_congr rfl h2, Finset.sum_ite_eq, if_pos hcol, sq]

/-- `vals[col]` is the eigenvalue of eigenvector `col` of `f` (contract of `np.linalg.eigh`). -/
def Eigenpairs (n : ℕ) (f : ℕ → ℕ → K) (eg : Eig K) : Prop :=
  eg.vals.length = n ∧ ∀ col < n, ∀ i < n,
    ∑ j ∈ Finset.range n, f i j * eg.vec j col = eg.vals.getD col 0 * eg.vec i col

omit [LinearOrder K] in
theorem rayleigh (n : ℕ) (f : ℕ → ℕ → K) (eg : Eig K) (h : Orthonormal n eg) (he : Eigenpairs n f eg)
    (col : ℕ) (hc : col < n) :
    ∑ i ∈ Finset.range n, ∑ j ∈ Finset.range n, eg.vec i col * f i j * eg.vec j col = eg.vals.getD col 0 := by
  have h1 : ∀ i ∈ Finset.range n, ∑ j ∈ Finset.range n, eg.vec i col * f i j * eg.vec j col =
      eg.vals.getD col 0 * (eg.vec i col * eg.vec i col) := by
    intro i hi
    simp only [mul_assoc]
    rw [← Finset.mul_sum, he.2 col hc i (Finset.mem_range.1 hi)]
    ring
  rw [Finset.sum_congr rfl h1, ← Finset.mul_sum, h col hc col hc, if_pos rfl, mul_one]

variable [IsStrictOrderedRing K]

/-- The squared projections of unit-sum stamps on eigenvector `col` of `np.cov`. -/
theorem projection_sq (c : Columns K) (eg : Eig K) (hP : 2 ≤ c.P) (h : Orthonormal c.n eg)
    (he : Eigenpairs c.n (npCov c.P c.m) eg)
    (hu : ∀ s < c.n, ∑ p ∈ Finset.range c.P, c.m p s = 1) (col : ℕ) (hc : col < c.n) :
    ∑ p ∈ Finset.range c.P, projection c eg p col ^ 2 =
      ((c.P : K) - 1) * eg.vals.getD col 0 + (∑ s ∈ Finset.range c.n, eg.vec s col) ^ 2 / c.P := by
  have hP2 : (2 : K) ≤ c.P := by exact_mod_cast hP
  have hP1 : (c.P : K) - 1 ≠ 0 := by intro hc; linarith
  have hP0 : (c.P : K) ≠ 0 := by intro hc; linarith
  have h1 : ∑ i ∈ Finset.range c.n, ∑ j ∈ Finset.range c.n, eg.vec i col * inner c.P c.m i j * eg.vec j col =
      ∑ p ∈ Finset.range c.P, projection c eg p col ^ 2 := by
    rw [quad_form]
    refine Finset.sum_congr rfl fun p _ => ?_
    unfold projection
    congr 1
    exact Finset.sum_congr rfl fun s _ => mul_comm _ _
  have h2 : ∀ i ∈ Finset.range c.n, ∀ j ∈ Finset.range c.n, eg.vec i col * inner c.P c.m i j * eg.vec j col =
      ((c.P : K) - 1) * (eg.vec i col * npCov c.P c.m i j * eg.vec j col) +
        eg.vec i col * eg.vec j col / c.P := by
    intro i hi j hj
    rw [cov_formulas c.P c.m hP i j (hu i (Finset.mem_range.1 hi)) (hu j (Finset.mem_range.1 hj))]
    field_simp
    ring
  rw [← h1, Finset.sum_congr rfl fun i hi => Finset.sum_congr rfl fun j hj => h2 i hi j hj]
  simp only [Finset.sum_add_distrib, ← Finset.mul_sum]
  rw [rayleigh c.n _ eg h he col hc]
  congr 1
  rw [sq, Finset.sum_mul_sum, Finset.sum_div]
  exact Finset.sum_congr rfl fun i _ => by rw [Finset.sum_div]

/-- C83: the total squared error of the first `k` elements, with exact coefficients: the discarded
eigenvalues times `P - 1`, plus what the discarded eigenvectors hold of the mean level. -/
theorem kl_error (c : Columns K) (eg : Eig K) (hP : 2 ≤ c.P) (h : Orthonormal c.n eg)
    (he : Eigenpairs c.n (npCov c.P c.m) eg)
    (hu : ∀ s < c.n, ∑ p ∈ Finset.range c.P, c.m p s = 1) (k : ℕ) (hk : k ≤ c.n) :
    ∑ p ∈ Finset.range c.P, ∑ s ∈ Finset.range c.n,
      (c.m p s - ∑ i ∈ Finset.range k, projection c eg p (c.n - 1 - i) * eg.vec s (c.n - 1 - i)) ^ 2 =
    ∑ col ∈ Finset.range (c.n - k),
      (((c.P : K) - 1) * eg.vals.getD col 0 + (∑ s ∈ Finset.range c.n, eg.vec s col) ^ 2 / c.P) := by
  rw [Finset.sum_congr rfl fun p _ => residual_sq c eg h p k hk, Finset.sum_comm]
  exact Finset.sum_congr rfl fun col hcol =>
    projection_sq c eg hP h he hu col (by rw [Finset.mem_range] at hcol; omega)

/-! ## C84: a PSF that sums to zero -/

omit [LinearOrder K] [IsStrictOrderedRing K] in
theorem sum_grid (f : ℕ → K) (h w : ℕ) :
    ∑ i ∈ Finset.range h, ∑ j ∈ Finset.range w, f (i * w + j) = ∑ p ∈ Finset.range (h * w), f p := by
  induction h with
  | zero => simp
  | succ h ih => rw [Finset.sum_range_succ, ih, Nat.succ_mul, Finset.sum_range_add]

omit [LinearOrder K] [IsStrictOrderedRing K] in
/-- C84: for unit-sum stamps a basis element sums to the sum of its eigenvector's components. -/
theorem basis_sum (c : Columns K) (eg : Eig K) (sh : ℕ × ℕ) (hsh : sh.1 * sh.2 = c.P)
    (hu : ∀ s < c.n, ∑ p ∈ Finset.range c.P, c.m p s = 1) (col : ℕ) :
    imgSum (dotColumn c eg sh col) = ∑ s ∈ Finset.range c.n, eg.vec s col := by
  unfold imgSum dotColumn
  simp only
  rw [sum_grid (fun p => ∑ s ∈ Finset.range c.n, c.m p s * eg.vec s col), hsh, Finset.sum_comm]
  refine Finset.sum_congr rfl fun s hs => ?_
  rw [← Finset.sum_mul, hu s (Finset.mem_range.1 hs), one_mul]

/-- Two stamps of 2×2 pixels, each the complement of the other. -/
def twoHalves : Columns K := ⟨4, 2, fun p s => if p / 2 = s then 1 / 2 else 0⟩

/-- Their covariance matrix. -/
theorem twoHalves_cov : npCov 4 (twoHalves (K := K)).m 0 0 = 1 / 12 ∧
    npCov 4 (twoHalves (K := K)).m 0 1 = -1 / 12 ∧ npCov 4 (twoHalves (K := K)).m 1 0 = -1 / 12 ∧
    npCov 4 (twoHalves (K := K)).m 1 1 = 1 / 12 := by
  have hc : ∀ i j, npCov 4 (twoHalves (K := K)).m i j =
      (∑ p ∈ Finset.range 4, ((if p / 2 = i then 1 / 2 else 0) - colMean 4 (twoHalves (K := K)).m i) *
        ((if p / 2 = j then 1 / 2 else 0) - colMean 4 (twoHalves (K := K)).m j)) / ((4 : ℕ) - 1 : K) :=
    fun _ _ => rfl
  have hm : ∀ i < 2, colMean 4 (twoHalves (K := K)).m i = 1 / 4 := by
    intro i hi
    unfold colMean twoHalves
    rw [Finset.sum_range_succ, Finset.sum_range_succ, Finset.sum_range_succ, Finset.sum_range_one]
    interval_cases i <;> norm_num
  have h00 : npCov 4 (twoHalves (K := K)).m 0 0 = 1 / 12 := by
    rw [hc, hm 0 (by omega)]
    simp only [Finset.sum_range_succ, Finset.sum_range_zero]
    norm_num
  have h11 : npCov 4 (twoHalves (K := K)).m 1 1 = 1 / 12 := by
    rw [hc, hm 1 (by omega)]
    simp only [Finset.sum_range_succ, Finset.sum_range_zero]
    norm_num
  have h01 : npCov 4 (twoHalves (K := K)).m 0 1 = -1 / 12 := by
    rw [hc, hm 1 (by omega), hm 0 (by omega)]
    simp only [Finset.sum_range_succ, Finset.sum_range_zero]
    norm_num
  have h10 : npCov 4 (twoHalves (K := K)).m 1 0 = -1 / 12 := by
    rw [hc, hm 1 (by omega), hm 0 (by omega)]
    simp only [Finset.sum_range_succ, Finset.sum_range_zero]
    norm_num
  exact ⟨h00, h01, h10, h11⟩

theorem twoHalves_unit : ∀ s < (twoHalves (K := K)).n,
    ∑ p ∈ Finset.range (twoHalves (K := K)).P, (twoHalves (K := K)).m p s = 1 := by
  intro s hs
  change ∑ p ∈ Finset.range 4, (if p / 2 = s then (1 / 2 : K) else 0) = 1
  change s < 2 at hs
  simp only [Finset.sum_range_succ, Finset.sum_range_zero]
  interval_cases s <;> norm_num

/-- C84: there are non-negative unit-sum stamps for which the PSF (the single element kept, for every
`inf_loss ≥ 0`) sums to zero whatever orthonormal eigenvectors numpy returns, so normalising it divides
by zero. -/
theorem psf_sum_zero (eg : Eig K) (h : Orthonormal 2 eg)
    (he : Eigenpairs 2 (npCov 4 (twoHalves (K := K)).m) eg)
    (hsorted : eg.vals.getD 0 0 ≤ eg.vals.getD 1 0) :
    imgSum (dotColumn (twoHalves (K := K)) eg (2, 2) 1) = 0 := by
  rw [basis_sum (twoHalves (K := K)) eg (2, 2) rfl ?_ 1]
  · change ∑ s ∈ Finset.range 2, eg.vec s 1 = 0
    obtain ⟨h00, h01, h10, h11⟩ := twoHalves_cov (K := K)
    have e00 := he.2 0 (by omega) 0 (by omega)
    have e01 := he.2 0 (by omega) 1 (by omega)
    have e10 := he.2 1 (by omega) 0 (by omega)
    have e11 := he.2 1 (by omega) 1 (by omega)
    have o00 := h 0 (by omega) 0 (by omega)
    have o11 := h 1 (by omega) 1 (by omega)
    have o01 := h 0 (by omega) 1 (by omega)
    simp only [Finset.sum_range_succ, Finset.sum_range_zero, zero_add, h00, h01, h10, h11] at *
    generalize eg.vals.getD 0 0 = l0 at *
    generalize eg.vals.getD 1 0 = l1 at *
    generalize eg.vec 0 0 = a at *
    generalize eg.vec 1 0 = b at *
    generalize eg.vec 0 1 = x at *
    generalize eg.vec 1 1 = y at *
    norm_num at o00 o11 o01
    by_contra hne
    have hl1 : l1 = 0 := by
      have : l1 * (x + y) = 0 := by linarith
      rcases mul_eq_zero.1 this with h | h
      · exact h
      · exact absurd h hne
    have hxy : x = y := by rw [hl1] at e10; linarith
    have hab : a * x + b * x = 0 := by rw [← hxy] at o01; exact o01
    have hx : x ≠ 0 := by
      intro h0
      rw [← hxy, h0] at o11
      norm_num at o11
    have hba : b = -a := by
      have : (a + b) * x = 0 := by linarith
      rcases mul_eq_zero.1 this with h | h
      · linarith
      · exact absurd h hx
    have ha : a ≠ 0 := by
      intro h0
      rw [hba, h0] at o00
      norm_num at o00
    rw [hba] at e00
    have : l0 = 1 / 6 := by
      have : (l0 - 1 / 6) * a = 0 := by linarith
      rcases mul_eq_zero.1 this with h | h
      · linarith
      · exact absurd h ha
    rw [this, hl1] at hsorted
    norm_num at hsorted
  · intro s hs
    change ∑ p ∈ Finset.range 4, (if p / 2 = s then (1 / 2 : K) else 0) = 1
    change s < 2 at hs
    simp only [Finset.sum_range_succ, Finset.sum_range_zero]
    interval_cases s <;> norm_num

/-- C84: for these stamps the number of elements kept is one, whatever the information loss. -/
theorem psf_sum_zero_single (eg : Eig K) (h : Orthonormal 2 eg)
    (he : Eigenpairs 2 (npCov 4 (twoHalves (K := K)).m) eg)
    (hsorted : eg.vals.getD 0 0 ≤ eg.vals.getD 1 0) (loss : K) (h0 : 0 ≤ loss) : klCut loss eg.vals = 1 := by
  have hsum := psf_sum_zero eg h he hsorted
  rw [basis_sum (twoHalves (K := K)) eg (2, 2) rfl twoHalves_unit 1] at hsum
  change ∑ s ∈ Finset.range 2, eg.vec s 1 = 0 at hsum
  obtain ⟨h00, h01, h10, h11⟩ := twoHalves_cov (K := K)
  have e00 := he.2 0 (by omega) 0 (by omega)
  have e10 := he.2 1 (by omega) 0 (by omega)
  have o00 := h 0 (by omega) 0 (by omega)
  have o11 := h 1 (by omega) 1 (by omega)
  have o01 := h 0 (by omega) 1 (by omega)
  obtain ⟨l0, l1, hv⟩ : ∃ l0 l1, eg.vals = [l0, l1] := by
    have hl := he.1
    match hv : eg.vals, hl with
    | [a, b], _ => exact ⟨a, b, rfl⟩
  rw [hv] at e00 e10 ⊢
  simp only [Finset.sum_range_succ, Finset.sum_range_zero, zero_add, h00, h01] at e00 e10 o00 o11 o01 hsum
  simp only [List.getD_cons_zero, List.getD_cons_succ] at e00 e10
  generalize eg.vec 0 0 = a at *
  generalize eg.vec 1 0 = b at *
  generalize eg.vec 0 1 = x at *
  generalize eg.vec 1 1 = y at *
  norm_num at o00 o11 o01
  have hy : y = -x := by linarith
  have hx : x ≠ 0 := by
    intro hc
    rw [hy, hc] at o11
    norm_num at o11
  have hab : a = b := by
    rw [hy] at o01
    have : (a - b) * x = 0 := by linarith
    rcases mul_eq_zero.1 this with h | h
    · linarith
    · exact absurd h hx
  have ha : a ≠ 0 := by
    intro hc
    rw [← hab, hc] at o00
    norm_num at o00
  have hl0 : l0 = 0 := by
    rw [← hab] at e00
    have : l0 * a = 0 := by linarith
    rcases mul_eq_zero.1 this with h | h
    · exact h
    · exact absurd h ha
  have hl1 : l1 = 1 / 6 := by
    rw [hy] at e10
    have : (l1 - 1 / 6) * x = 0 := by linarith
    rcases mul_eq_zero.1 this with h | h
    · linarith
    · exact absurd h hx
  subst hl0 hl1
  have hne : ∃ v ∈ [(0 : K), 1 / 6], v ≠ 0 := ⟨1 / 6, by simp, by norm_num⟩
  apply le_antisymm
  · apply (kl_cut_least loss _ hne h0).2
    refine ⟨le_refl _, ?_⟩
    have : keptShare [(0 : K), 1 / 6] 1 = 1 := by
      unfold keptShare
      simp
    rw [this]
    linarith
  · exact (kl_cut_range loss _ hne h0).1

/-- Such eigenvectors exist over the reals. -/
example : ∃ eg : Eig ℝ, Orthonormal 2 eg ∧ Eigenpairs 2 (npCov 4 (twoHalves (K := ℝ)).m) eg ∧
    eg.vals.getD 0 0 ≤ eg.vals.getD 1 0 := by
  have h2 : Real.sqrt (1 / 2) * Real.sqrt (1 / 2) = 1 / 2 := Real.mul_self_sqrt (by norm_num)
  obtain ⟨h00, h01, h10, h11⟩ := twoHalves_cov (K := ℝ)
  refine ⟨⟨[0, 1 / 6], fun s c => if s = 0 ∧ c = 1 then -Real.sqrt (1 / 2) else Real.sqrt (1 / 2)⟩, ?_, ⟨rfl, ?_⟩, ?_⟩
  · intro c hc d hd
    simp only [Finset.sum_range_succ, Finset.sum_range_zero]
    interval_cases c <;> interval_cases d <;> norm_num <;> norm_num at h2 <;> linarith
  · intro c hc d hd
    simp only [Finset.sum_range_succ, Finset.sum_range_zero]
    interval_cases c <;> interval_cases d <;> simp only [h00, h01, h10, h11] <;> norm_num <;> ring
  · norm_num

/-- A flat stamp and a point: their covariance matrix is diagonal. -/
def flatAndPoint : Columns ℚ := ⟨3, 2, fun p s => if s = 0 then 1 / 3 else if p = 0 then 1 else 0⟩

/-- The hypotheses of `kl_error` hold for them, with the unit vectors as eigenvectors. -/
example : Orthonormal 2 (⟨[0, 1 / 3], fun s c => if s = c then 1 else 0⟩ : Eig ℚ) ∧
    Eigenpairs 2 (npCov 3 flatAndPoint.m) ⟨[0, 1 / 3], fun s c => if s = c then 1 else 0⟩ ∧
    ∀ s < 2, ∑ p ∈ Finset.range 3, flatAndPoint.m p s = 1 := by
  refine ⟨?_, ⟨rfl, ?_⟩, ?_⟩
  · intro c hc d hd
    interval_cases c <;> interval_cases d <;> decide +kernel
  · intro c hc d hd
    interval_cases c <;> interval_cases d <;> decide +kernel
  · intro s hs
    interval_cases s <;> decide +kernel

end PI
