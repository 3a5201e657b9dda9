import Verif.Props.KLBasis
import Verif.Props.KLMany
import Mathlib.Analysis.InnerProductSpace.PiL2
import Mathlib.Algebra.BigOperators.Field
import Mathlib.Algebra.Order.BigOperators.Ring.Finset
import Mathlib.Tactic.LinearCombination

/-! # Property C139: how good the truncated PSF basis is, and what `inf_loss` promises -/

namespace PI

open Finset

/-- Total squared error, over all pixels of all stamps, of replacing the stamps by combinations of `k` pictures:
`b j p` is pixel `p` of picture `j`, `a j s` its coefficient for star `s`. -/
def approxErr (P n k : ℕ) (x b a : ℕ → ℕ → ℝ) : ℝ :=
  ∑ p ∈ range P, ∑ s ∈ range n, (x p s - ∑ j ∈ range k, b j p * a j s) ^ 2

/-- Vectors `u 0, …, u (r-1)` are orthonormal. -/
def Frame (n r : ℕ) (u : ℕ → ℕ → ℝ) : Prop :=
  ∀ i < r, ∀ j < r, ∑ s ∈ range n, u i s * u j s = if i = j then 1 else 0

/-- Scalar product of two vectors of length `n`. -/
def dotN (n : ℕ) (x y : ℕ → ℝ) : ℝ := ∑ s ∈ range n, x s * y s

/-- The combinations of `k` vectors lie in the span of an orthonormal family of at most `k` vectors. -/
theorem exists_frame (n k : ℕ) (a : ℕ → ℕ → ℝ) : ∃ r ≤ k, ∃ u : ℕ → ℕ → ℝ, Frame n r u ∧
    ∀ x co : ℕ → ℝ, dotN n x x - ∑ j ∈ range r, dotN n x (u j) ^ 2 ≤
      ∑ s ∈ range n, (x s - ∑ j ∈ range k, co j * a j s) ^ 2 := by
  let tv : (ℕ → ℝ) → EuclideanSpace ℝ (Fin n) := fun x => WithLp.toLp 2 fun s : Fin n => x s
  let W : Submodule ℝ (EuclideanSpace ℝ (Fin n)) := Submodule.span ℝ (Set.range fun j : Fin k => tv (a j))
  let B := stdOrthonormalBasis ℝ W
  have hr : Module.finrank ℝ W ≤ k := by
    have := finrank_range_le_card (R := ℝ) (fun j : Fin k => tv (a j))
    rw [Fintype.card_fin] at this
    exact this
  have hin : ∀ x y : ℕ → ℝ, Inner.inner ℝ (tv x) (tv y) = dotN n x y := by
    intro x y
    rw [PiLp.inner_apply, dotN, Finset.sum_range]
    exact Finset.sum_congr rfl fun s _ => mul_comm _ _
  let u : ℕ → ℕ → ℝ := fun j s => if hj : j < Module.finrank ℝ W then
    (if hs : s < n then (B ⟨j, hj⟩ : EuclideanSpace ℝ (Fin n)) ⟨s, hs⟩ else 0) else 0
  have hu : ∀ j (hj : j < Module.finrank ℝ W), tv (u j) = (B ⟨j, hj⟩ : EuclideanSpace ℝ (Fin n)) := by
    intro j hj
    ext s
    simp only [tv, u, hj, s.2, dif_pos]
  refine ⟨Module.finrank ℝ W, hr, u, ?_, ?_⟩
  · intro i hi j hj
    change dotN n (u i) (u j) = _
    rw [← hin, hu i hi, hu j hj, ← Submodule.coe_inner, B.inner_eq_ite]
    simp only [Fin.mk.injEq]
  · intro x co
    let y : ℕ → ℝ := fun s => ∑ j ∈ range k, co j * a j s
    have hy : tv y ∈ W := by
      have : tv y = ∑ j : Fin k, co j • tv (a j) := by
        ext s
        simp [tv, y, Finset.sum_range]
      rw [this]
      exact Submodule.sum_mem _ fun j _ => Submodule.smul_mem _ _ (Submodule.subset_span ⟨j, rfl⟩)
    have hd : ∀ z : ℕ → ℝ, dotN n z y = ∑ j ∈ range (Module.finrank ℝ W), dotN n y (u j) * dotN n z (u j) := by
      intro z
      have h1 : (tv y : EuclideanSpace ℝ (Fin n)) = ∑ j, Inner.inner ℝ (B j) (⟨tv y, hy⟩ : W) • (B j : EuclideanSpace ℝ (Fin n)) := by
        have := congrArg (Subtype.val) (B.sum_repr' ⟨tv y, hy⟩)
        refine this.symm.trans ?_
        simp
      rw [← hin, h1, inner_sum, Finset.sum_range]
      refine Finset.sum_congr rfl fun j _ => ?_
      rw [inner_smul_right, ← hin, ← hin, hu j j.2, Submodule.coe_inner, real_inner_comm]
    have h2 : ∑ s ∈ range n, (x s - y s) ^ 2 = dotN n x x - 2 * dotN n x y + dotN n y y := by
      unfold dotN
      rw [Finset.mul_sum, ← Finset.sum_sub_distrib, ← Finset.sum_add_distrib]
      exact Finset.sum_congr rfl fun s _ => by ring
    change _ ≤ ∑ s ∈ range n, (x s - y s) ^ 2
    rw [h2, hd x, hd y]
    have h3 : 0 ≤ ∑ j ∈ range (Module.finrank ℝ W), (dotN n x (u j) - dotN n y (u j)) ^ 2 :=
      Finset.sum_nonneg fun _ _ => sq_nonneg _
    have h4 : ∑ j ∈ range (Module.finrank ℝ W), (dotN n x (u j) - dotN n y (u j)) ^ 2 =
        ∑ j ∈ range (Module.finrank ℝ W), dotN n x (u j) ^ 2 -
        2 * ∑ j ∈ range (Module.finrank ℝ W), dotN n y (u j) * dotN n x (u j) +
        ∑ j ∈ range (Module.finrank ℝ W), dotN n y (u j) * dotN n y (u j) := by
      rw [Finset.mul_sum, ← Finset.sum_sub_distrib, ← Finset.sum_add_distrib]
      exact Finset.sum_congr rfl fun s _ => by ring
    linarith

/-- Bessel's inequality. -/
theorem frame_bessel (n r : ℕ) (u : ℕ → ℕ → ℝ) (h : Frame n r u) (x : ℕ → ℝ) :
    ∑ j ∈ range r, dotN n x (u j) ^ 2 ≤ dotN n x x := by
  have h0 : 0 ≤ ∑ s ∈ range n, (x s - ∑ j ∈ range r, dotN n x (u j) * u j s) ^ 2 :=
    Finset.sum_nonneg fun _ _ => sq_nonneg _
  have h1 : ∑ s ∈ range n, (x s - ∑ j ∈ range r, dotN n x (u j) * u j s) ^ 2 =
      dotN n x x - 2 * ∑ s ∈ range n, ∑ j ∈ range r, dotN n x (u j) * (x s * u j s) +
        ∑ s ∈ range n, ∑ i ∈ range r, ∑ j ∈ range r,
          dotN n x (u i) * dotN n x (u j) * (u i s * u j s) := by
    unfold dotN
    rw [Finset.mul_sum, ← Finset.sum_sub_distrib, ← Finset.sum_add_distrib]
    refine Finset.sum_congr rfl fun s _ => ?_
    rw [sub_sq, sq (∑ j ∈ range r, _), Finset.sum_mul_sum]
    congr 1
    · rw [sq, mul_assoc, Finset.mul_sum]
      congr 1
      congr 1
      exact Finset.sum_congr rfl fun j _ => by ring
    · exact Finset.sum_congr rfl fun i _ => Finset.sum_congr rfl fun j _ => by ring
  have h2 : ∑ s ∈ range n, ∑ j ∈ range r, dotN n x (u j) * (x s * u j s) = ∑ j ∈ range r, dotN n x (u j) ^ 2 := by
    rw [Finset.sum_comm]
    refine Finset.sum_congr rfl fun j _ => ?_
    rw [← Finset.mul_sum, sq]
    rfl
  have h3 : ∑ s ∈ range n, ∑ i ∈ range r, ∑ j ∈ range r,
      dotN n x (u i) * dotN n x (u j) * (u i s * u j s) = ∑ j ∈ range r, dotN n x (u j) ^ 2 := by
    rw [Finset.sum_comm]
    refine Finset.sum_congr rfl fun i hi => ?_
    rw [Finset.sum_comm]
    have : ∀ j ∈ range r, ∑ s ∈ range n, dotN n x (u i) * dotN n x (u j) * (u i s * u j s) =
        if i = j then dotN n x (u i) * dotN n x (u j) else 0 := by
      intro j hj
      rw [← Finset.mul_sum, h i (Finset.mem_range.1 hi) j (Finset.mem_range.1 hj)]
      split <;> simp
    rw [Finset.sum_congr rfl this, Finset.sum_ite_eq, if_pos hi, sq]
  rw [h1, h2, h3] at h0
  linarith

/-- Weights between 0 and 1 that add up to at least `d` cannot make an increasing non-negative sequence sum to less
than its first `d` terms. -/
theorem weights_ge (n d : ℕ) (hd : d ≤ n) (lam q : ℕ → ℝ) (mono : ∀ i j, i ≤ j → j < n → lam i ≤ lam j)
    (h0 : ∀ i < n, 0 ≤ lam i) (hq : ∀ i < n, 0 ≤ q i ∧ q i ≤ 1) (hs : (d : ℝ) ≤ ∑ i ∈ range n, q i) :
    ∑ i ∈ range d, lam i ≤ ∑ i ∈ range n, lam i * q i := by
  rcases Nat.eq_zero_or_pos d with rfl | hd0
  · rw [Finset.sum_range_zero]
    exact Finset.sum_nonneg fun i hi => mul_nonneg (h0 i (Finset.mem_range.1 hi)) (hq i (Finset.mem_range.1 hi)).1
  · have hx : ∀ i ∈ range n, lam (d - 1) * (q i - if i < d then 1 else 0) ≤
        lam i * q i - if i < d then lam i else 0 := by
      intro i hi
      rw [Finset.mem_range] at hi
      obtain ⟨h1, h2⟩ := hq i hi
      by_cases hid : i < d
      · rw [if_pos hid, if_pos hid]
        have := mono i (d - 1) (by omega) (by omega)
        nlinarith
      · rw [if_neg hid, if_neg hid]
        have := mono (d - 1) i (by omega) hi
        nlinarith
    have hS := Finset.sum_le_sum hx
    rw [← Finset.mul_sum, Finset.sum_sub_distrib, Finset.sum_sub_distrib] at hS
    have hc : ∀ f : ℕ → ℝ, ∑ i ∈ range n, (if i < d then f i else 0) = ∑ i ∈ range d, f i := by
      intro f
      rw [← Finset.sum_filter]
      refine Finset.sum_congr ?_ fun _ _ => rfl
      ext i
      simp only [Finset.mem_filter, Finset.mem_range]
      omega
    rw [hc (fun _ => 1), hc lam] at hS
    rw [Finset.sum_const, Finset.card_range, nsmul_eq_mul, mul_one] at hS
    have := mul_nonneg (h0 (d - 1) (by omega)) (sub_nonneg.2 hs)
    linarith

/-- The eigen-decomposition of the scalar products of the rows `x`: orthonormal vectors `vec · c` with eigenvalues
`lam c` in increasing order. -/
structure Spectral (P n : ℕ) (x vec : ℕ → ℕ → ℝ) (lam : ℕ → ℝ) : Prop where
  ortho : Orthonormal n (⟨[], vec⟩ : Eig ℝ)
  eig : ∀ c < n, ∀ i < n, ∑ j ∈ range n, PI.inner P x i j * vec j c = lam c * vec i c
  mono : ∀ i j, i ≤ j → j < n → lam i ≤ lam j

section core
variable {P n : ℕ} {x vec : ℕ → ℕ → ℝ} {lam : ℕ → ℝ} (h : Spectral P n x vec lam)
include h

theorem Spectral.entry (i j : ℕ) (hi : i < n) (hj : j < n) :
    PI.inner P x i j = ∑ c ∈ range n, lam c * (vec i c * vec j c) := by
  have h1 : ∀ l ∈ range n, PI.inner P x i l * (∑ c ∈ range n, vec l c * vec j c) =
      if l = j then PI.inner P x i l else 0 := by
    intro l hl
    rw [orthonormal_rows n ⟨[], vec⟩ h.ortho l j (Finset.mem_range.1 hl) hj]
    split <;> simp
  have h2 := Finset.sum_congr rfl h1
  rw [Finset.sum_ite_eq', if_pos (Finset.mem_range.2 hj)] at h2
  rw [← h2]
  simp only [Finset.mul_sum]
  rw [Finset.sum_comm]
  refine Finset.sum_congr rfl fun c hc => ?_
  rw [← mul_assoc, ← h.eig c (Finset.mem_range.1 hc) i hi, Finset.sum_mul]
  exact Finset.sum_congr rfl fun l _ => by ring

theorem Spectral.trace : ∑ p ∈ range P, dotN n (x p) (x p) = ∑ c ∈ range n, lam c := by
  unfold dotN
  rw [Finset.sum_comm]
  have h1 : ∀ s ∈ range n, ∑ p ∈ range P, x p s * x p s = ∑ c ∈ range n, lam c * (vec s c * vec s c) :=
    fun s hs => h.entry s s (Finset.mem_range.1 hs) (Finset.mem_range.1 hs)
  rw [Finset.sum_congr rfl h1, Finset.sum_comm]
  refine Finset.sum_congr rfl fun c hc => ?_
  rw [← Finset.mul_sum, h.ortho c (Finset.mem_range.1 hc) c (Finset.mem_range.1 hc), if_pos rfl, mul_one]

theorem Spectral.along (u : ℕ → ℝ) :
    ∑ p ∈ range P, dotN n (x p) u ^ 2 = ∑ c ∈ range n, lam c * dotN n (fun s => vec s c) u ^ 2 := by
  have h1 : ∑ p ∈ range P, dotN n (x p) u ^ 2 = ∑ i ∈ range n, ∑ j ∈ range n, u i * PI.inner P x i j * u j := by
    rw [quad_form]
    refine Finset.sum_congr rfl fun p _ => ?_
    unfold dotN
    congr 1
    exact Finset.sum_congr rfl fun s _ => mul_comm _ _
  rw [h1]
  have h2 : ∀ i ∈ range n, ∀ j ∈ range n, u i * PI.inner P x i j * u j =
      ∑ c ∈ range n, lam c * ((vec i c * u i) * (vec j c * u j)) := by
    intro i hi j hj
    rw [h.entry i j (Finset.mem_range.1 hi) (Finset.mem_range.1 hj), Finset.mul_sum, Finset.sum_mul]
    exact Finset.sum_congr rfl fun c _ => by ring
  rw [Finset.sum_congr rfl fun i hi => Finset.sum_congr rfl fun j hj => h2 i hi j hj]
  rw [Finset.sum_congr rfl fun i _ => Finset.sum_comm, Finset.sum_comm]
  refine Finset.sum_congr rfl fun c _ => ?_
  unfold dotN
  rw [sq, Finset.sum_mul_sum, Finset.mul_sum]
  exact Finset.sum_congr rfl fun i _ => by rw [Finset.mul_sum]

theorem Spectral.eq_sq (c : ℕ) (hc : c < n) : ∑ p ∈ range P, dotN n (x p) (fun s => vec s c) ^ 2 = lam c := by
  rw [h.along]
  have : ∀ d ∈ range n, lam d * dotN n (fun s => vec s d) (fun s => vec s c) ^ 2 = if d = c then lam d else 0 := by
    intro d hd
    have h1 := h.ortho d (Finset.mem_range.1 hd) c hc
    change dotN n (fun s => vec s d) (fun s => vec s c) = _ at h1
    rw [h1]
    split <;> simp
  rw [Finset.sum_congr rfl this, Finset.sum_ite_eq', if_pos (Finset.mem_range.2 hc)]

theorem Spectral.nonneg (c : ℕ) (hc : c < n) : 0 ≤ lam c := by
  rw [← h.eq_sq c hc]
  exact Finset.sum_nonneg fun _ _ => sq_nonneg _

/-- Orthonormal families of at most `k` vectors leave at least the smallest `n - k` eigenvalues. -/
theorem Spectral.frame_leaves (k r : ℕ) (hk : k ≤ n) (hr : r ≤ k) (u : ℕ → ℕ → ℝ) (hu : Frame n r u) :
    ∑ c ∈ range (n - k), lam c ≤
      ∑ p ∈ range P, (dotN n (x p) (x p) - ∑ j ∈ range r, dotN n (x p) (u j) ^ 2) := by
  have h1 : ∑ p ∈ range P, (dotN n (x p) (x p) - ∑ j ∈ range r, dotN n (x p) (u j) ^ 2) =
      ∑ c ∈ range n, lam c * (1 - ∑ j ∈ range r, dotN n (fun s => vec s c) (u j) ^ 2) := by
    rw [Finset.sum_sub_distrib, h.trace, Finset.sum_comm, Finset.sum_congr rfl fun j _ => h.along (u j),
      Finset.sum_comm, ← Finset.sum_sub_distrib]
    exact Finset.sum_congr rfl fun c _ => by rw [mul_sub, mul_one, Finset.mul_sum]
  rw [h1]
  have hv : ∀ c < n, dotN n (fun s => vec s c) (fun s => vec s c) = 1 := by
    intro c hc
    have := h.ortho c hc c hc
    rw [if_pos rfl] at this
    exact this
  refine weights_ge n (n - k) (Nat.sub_le _ _) lam _ h.mono h.nonneg (fun c hc => ⟨?_, ?_⟩) ?_
  · have := frame_bessel n r u hu (fun s => vec s c)
    rw [hv c hc] at this
    linarith
  · have : 0 ≤ ∑ j ∈ range r, dotN n (fun s => vec s c) (u j) ^ 2 := Finset.sum_nonneg fun _ _ => sq_nonneg _
    linarith
  · rw [Finset.sum_sub_distrib, Finset.sum_comm]
    have h2 : ∀ j ∈ range r, ∑ c ∈ range n, dotN n (fun s => vec s c) (u j) ^ 2 = 1 := by
      intro j hj
      rw [Finset.mem_range] at hj
      have h3 := hu j hj j hj
      rw [if_pos rfl] at h3
      rw [← h3]
      have h4 : ∀ c, dotN n (fun s => vec s c) (u j) ^ 2 =
          ∑ s ∈ range n, ∑ t ∈ range n, (vec s c * vec t c) * (u j s * u j t) := by
        intro c
        unfold dotN
        rw [sq, Finset.sum_mul_sum]
        exact Finset.sum_congr rfl fun i _ => Finset.sum_congr rfl fun j _ => by ring
      rw [Finset.sum_congr rfl fun c _ => h4 c, Finset.sum_comm]
      refine Finset.sum_congr rfl fun s hs => ?_
      rw [Finset.sum_comm]
      have h5 : ∀ t ∈ range n, ∑ c ∈ range n, vec s c * vec t c * (u j s * u j t) =
          if s = t then u j s * u j t else 0 := by
        intro t ht
        have := orthonormal_rows n ⟨[], vec⟩ h.ortho s t (Finset.mem_range.1 hs) (Finset.mem_range.1 ht)
        simp only at this
        rw [← Finset.sum_mul, this]
        split <;> simp
      rw [Finset.sum_congr rfl h5, Finset.sum_ite_eq, if_pos hs]
    rw [Finset.sum_congr rfl h2]
    simp only [Finset.sum_const, Finset.card_range, nsmul_eq_mul, mul_one]
    rw [Nat.cast_sub hk]
    have : (r : ℝ) ≤ k := by exact_mod_cast hr
    linarith

/-- Whatever `k` pictures and coefficients are taken, at least the smallest `n - k` eigenvalues are left. -/
theorem Spectral.approx_ge (k : ℕ) (hk : k ≤ n) (b a : ℕ → ℕ → ℝ) :
    ∑ c ∈ range (n - k), lam c ≤ approxErr P n k x b a := by
  obtain ⟨r, hr, u, hu, hl⟩ := exists_frame n k a
  exact (h.frame_leaves k r hk hr u hu).trans (Finset.sum_le_sum fun p _ => hl (x p) fun j => b j p)

/-- The eigenvectors of the `k` largest eigenvalues leave exactly that. -/
theorem Spectral.approx_eq (k : ℕ) (hk : k ≤ n) :
    approxErr P n k x (fun i p => dotN n (x p) fun s => vec s (n - 1 - i)) (fun i s => vec s (n - 1 - i)) =
      ∑ c ∈ range (n - k), lam c := by
  have h1 := fun p => residual_sq (⟨P, n, x⟩ : Columns ℝ) ⟨[], vec⟩ h.ortho p k hk
  unfold approxErr
  refine (Finset.sum_congr rfl fun p _ => h1 p).trans ?_
  rw [Finset.sum_comm]
  exact Finset.sum_congr rfl fun c hc => h.eq_sq c (by simp only [Finset.mem_range] at hc; omega)

end core

/-! ## The code -/

/-- What `np.linalg.eigh(cov_matrix)` returns: orthonormal eigenvectors of the matrix, eigenvalues increasing. -/
structure Decomposed (c : Columns ℝ) (eg : Eig ℝ) : Prop where
  ortho : Orthonormal c.n eg
  eig : ∃ f, covOf c = .mat c.n f ∧ Eigenpairs c.n f eg
  sorted : ∀ i j, i ≤ j → j < c.n → eg.vals.getD i 0 ≤ eg.vals.getD j 0

/-- The stamps the decomposition is made for: up to 250 stars every stamp with its own mean pixel subtracted, above
that the stamps as they are. -/
noncomputable def treated (c : Columns ℝ) (p s : ℕ) : ℝ := if c.n ≤ 250 then c.m p s - colMean c.P c.m s else c.m p s

/-- The factor between `cov_matrix` and the scalar products of the treated stamps. -/
noncomputable def covFactor (c : Columns ℝ) : ℝ := if c.n ≤ 250 then (c.P : ℝ) - 1 else 1

/-- Pixel `p` of the treated stamps combined with eigenvector `col`. -/
noncomputable def treatedElem (c : Columns ℝ) (eg : Eig ℝ) (col p : ℕ) : ℝ :=
  ∑ s ∈ range c.n, treated c p s * eg.vec s col

theorem covFactor_pos (c : Columns ℝ) (hP : 2 ≤ c.P) : 0 < covFactor c := by
  have : (2 : ℝ) ≤ c.P := by exact_mod_cast hP
  unfold covFactor
  split <;> linarith

theorem spectral_of (c : Columns ℝ) (eg : Eig ℝ) (hn : 2 ≤ c.n) (hP : 2 ≤ c.P) (h : Decomposed c eg) :
    Spectral c.P c.n (treated c) eg.vec fun col => covFactor c * eg.vals.getD col 0 := by
  obtain ⟨f, hf, he⟩ := h.eig
  refine ⟨h.ortho, ?_, fun i j hij hj =>
    mul_le_mul_of_nonneg_left (h.sorted i j hij hj) (covFactor_pos c hP).le⟩
  intro col hcol i hi
  rw [mul_assoc, ← he.2 col hcol i hi, Finset.mul_sum]
  refine Finset.sum_congr rfl fun j hj => ?_
  rw [← mul_assoc]
  congr 1
  have hP0 : (c.P : ℝ) - 1 ≠ 0 := by
    have : (2 : ℝ) ≤ c.P := by exact_mod_cast hP
    intro hc; linarith
  by_cases h250 : c.n ≤ 250
  · have ht : treated c = fun p s => c.m p s - colMean c.P c.m s := by
      funext p s; exact if_pos h250
    have hc : covFactor c = (c.P : ℝ) - 1 := if_pos h250
    unfold covOf at hf
    rw [if_pos h250, if_neg (by omega)] at hf
    injection hf with _ hf
    rw [ht, hc, ← hf, npCov_eq_inner, mul_div_cancel₀ _ hP0]
  · have ht : treated c = c.m := by
      funext p s; exact if_neg h250
    have hc : covFactor c = 1 := if_neg h250
    obtain ⟨g, hg, hgg⟩ := cov_many c (by omega)
    rw [hf] at hg
    injection hg with _ hg
    rw [ht, hc, hg, hgg i hi j (Finset.mem_range.1 hj), one_mul]
    rfl

/-- C139: the elements of the `k` largest eigenvalues are the best `k` pictures there are for the treated stamps:
no other pictures, with any coefficients, leave a smaller error, and what they leave is the sum of the discarded
eigenvalues. -/
theorem kl_best (c : Columns ℝ) (eg : Eig ℝ) (hn : 2 ≤ c.n) (hP : 2 ≤ c.P) (h : Decomposed c eg) (k : ℕ)
    (hk : k ≤ c.n) :
    approxErr c.P c.n k (treated c) (fun i => treatedElem c eg (c.n - 1 - i)) (fun i s => eg.vec s (c.n - 1 - i)) =
      covFactor c * ∑ col ∈ range (c.n - k), eg.vals.getD col 0 ∧
    ∀ b a, approxErr c.P c.n k (treated c) (fun i => treatedElem c eg (c.n - 1 - i))
        (fun i s => eg.vec s (c.n - 1 - i)) ≤ approxErr c.P c.n k (treated c) b a := by
  have hs := spectral_of c eg hn hP h
  have he := hs.approx_eq k hk
  refine ⟨?_, fun b a => ?_⟩
  · rw [Finset.mul_sum]
    exact he
  · exact he.le.trans (hs.approx_ge k hk b a)

theorem getD_nonneg (c : Columns ℝ) (eg : Eig ℝ) (hn : 2 ≤ c.n) (hP : 2 ≤ c.P) (h : Decomposed c eg) (col : ℕ)
    (hc : col < c.n) : 0 ≤ eg.vals.getD col 0 := by
  have := (spectral_of c eg hn hP h).nonneg col hc
  exact nonneg_of_mul_nonneg_right this (covFactor_pos c hP)

theorem sum_take_getD (l : List ℝ) (d : ℕ) : (l.take d).sum = ∑ i ∈ range d, l.getD i 0 := by
  induction l generalizing d with
  | nil => simp
  | cons v l ih =>
    cases d with
    | zero => simp
    | succ d => rw [List.take_succ_cons, List.sum_cons, ih, Finset.sum_range_succ', add_comm]; simp

/-- What is not kept, of non-negative eigenvalues. -/
theorem lostShare (vals : List ℝ) (h0 : ∀ v ∈ vals, 0 ≤ v) (h : ∃ v ∈ vals, v ≠ 0) (c : ℕ) :
    (1 - keptShare vals c) * ∑ i ∈ range vals.length, vals.getD i 0 =
      ∑ i ∈ range (vals.length - c), vals.getD i 0 := by
  have habs : ∀ l : List ℝ, (∀ v ∈ l, 0 ≤ v) → l.map (fun v => |v|) = l := by
    intro l hl
    conv_rhs => rw [← List.map_id l]
    exact List.map_congr_left fun v hv => abs_of_nonneg (hl v hv)
  have ht : 0 < vals.sum := by
    have := total_pos vals h
    rwa [habs vals h0] at this
  have hr : vals.reverse.take c = (vals.drop (vals.length - c)).reverse := by
    rw [List.take_reverse]
  unfold keptShare
  rw [habs vals h0, habs _ (fun v hv => h0 v (List.mem_reverse.1 (List.mem_of_mem_take hv))), hr, List.sum_reverse]
  rw [← sum_take_getD, ← sum_take_getD, List.take_length]
  have h2 := List.sum_take_add_sum_drop vals (vals.length - c)
  rw [sub_mul, div_mul_cancel₀ _ ht.ne', one_mul]
  linarith

/-- C139: what `inf_loss` promises: the elements kept leave at most that share of the treated stamps' total, and no
smaller (positive) number of pictures, whatever they are and whatever their coefficients, would have done. -/
theorem inf_loss_promise (c : Columns ℝ) (eg : Eig ℝ) (hn : 2 ≤ c.n) (hP : 2 ≤ c.P) (h : Decomposed c eg) (loss : ℝ)
    (h0 : 0 ≤ loss) (hv : ∃ v ∈ eg.vals, v ≠ 0) :
    approxErr c.P c.n (klCut loss eg.vals) (treated c) (fun i => treatedElem c eg (c.n - 1 - i))
        (fun i s => eg.vec s (c.n - 1 - i)) ≤ loss * ∑ p ∈ range c.P, ∑ s ∈ range c.n, treated c p s ^ 2 ∧
    ∀ k, 1 ≤ k → k < klCut loss eg.vals → ∀ b a,
      loss * ∑ p ∈ range c.P, ∑ s ∈ range c.n, treated c p s ^ 2 < approxErr c.P c.n k (treated c) b a := by
  obtain ⟨f, hf, he⟩ := h.eig
  have hs := spectral_of c eg hn hP h
  have hlen := he.1
  have hcut := kl_cut_range loss eg.vals hv h0
  have hleast := kl_cut_least loss eg.vals hv h0
  have hpos := covFactor_pos c hP
  have hnn : ∀ v ∈ eg.vals, 0 ≤ v := by
    intro v hv
    obtain ⟨i, hi, rfl⟩ := List.mem_iff_getElem.1 hv
    have := getD_nonneg c eg hn hP h i (by omega)
    rwa [List.getD_eq_getElem?_getD, List.getElem?_eq_getElem hi] at this
  have htot : ∑ p ∈ range c.P, ∑ s ∈ range c.n, treated c p s ^ 2 =
      covFactor c * ∑ col ∈ range c.n, eg.vals.getD col 0 := by
    rw [Finset.mul_sum, ← hs.trace]
    exact Finset.sum_congr rfl fun p _ => Finset.sum_congr rfl fun s _ => sq _
  have htp : 0 < ∑ col ∈ range c.n, eg.vals.getD col 0 := by
    have := total_pos eg.vals hv
    have h1 : eg.vals.map (fun v => |v|) = eg.vals := by
      conv_rhs => rw [← List.map_id eg.vals]
      exact List.map_congr_left fun v hv => abs_of_nonneg (hnn v hv)
    rw [h1, ← List.take_length (l := eg.vals), sum_take_getD, hlen] at this
    exact this
  have hlost := lostShare eg.vals hnn hv
  rw [hlen] at hlost
  rw [htot]
  refine ⟨?_, fun k hk1 hk b a => ?_⟩
  · rw [(kl_best c eg hn hP h _ (by omega)).1, ← hlost _]
    have h1 := hleast.1.2
    have : (1 - keptShare eg.vals (klCut loss eg.vals)) * ∑ col ∈ range c.n, eg.vals.getD col 0 ≤
        loss * ∑ col ∈ range c.n, eg.vals.getD col 0 := mul_le_mul_of_nonneg_right (by linarith) htp.le
    nlinarith
  · have h1 : ¬ (1 - loss ≤ keptShare eg.vals k) := fun hc => absurd (hleast.2 ⟨hk1, hc⟩) (by omega)
    obtain ⟨h2, h3⟩ := kl_best c eg hn hP h k (by omega)
    refine lt_of_lt_of_le ?_ (h3 b a)
    rw [h2, ← hlost _]
    have : loss * ∑ col ∈ range c.n, eg.vals.getD col 0 <
        (1 - keptShare eg.vals k) * ∑ col ∈ range c.n, eg.vals.getD col 0 :=
      mul_lt_mul_of_pos_right (by linarith) htp
    nlinarith

/-! ## The stamps themselves -/

/-- C139: up to 250 stars the elements kept (pixel by pixel as `kl_basis` holds them) are for the stamps themselves,
which add up to one, not far from the best pictures: the excess is at most what the discarded eigenvectors hold of
the mean level, and never more than the number of stars over the number of pixels. -/
theorem kl_near_best (c : Columns ℝ) (eg : Eig ℝ) (hn : 2 ≤ c.n) (hn' : c.n ≤ 250) (hP : 2 ≤ c.P)
    (h : Decomposed c eg) (hu : ∀ s < c.n, ∑ p ∈ range c.P, c.m p s = 1) (k : ℕ) (hk : k ≤ c.n) (b a : ℕ → ℕ → ℝ) :
    approxErr c.P c.n k c.m (fun i p => projection c eg p (c.n - 1 - i)) (fun i s => eg.vec s (c.n - 1 - i)) ≤
      approxErr c.P c.n k c.m b a + (∑ col ∈ range (c.n - k), (∑ s ∈ range c.n, eg.vec s col) ^ 2) / c.P ∧
    (∑ col ∈ range (c.n - k), (∑ s ∈ range c.n, eg.vec s col) ^ 2) / (c.P : ℝ) ≤ c.n / c.P := by
  have hs := spectral_of c eg hn hP h
  have hP2 : (2 : ℝ) ≤ c.P := by exact_mod_cast hP
  have hP0 : (c.P : ℝ) ≠ 0 := by intro hc; linarith
  have heig : Eigenpairs c.n (npCov c.P c.m) eg := by
    obtain ⟨f, hf, he⟩ := h.eig
    unfold covOf at hf
    rw [if_pos hn', if_neg (by omega)] at hf
    injection hf with _ hf
    rw [hf]
    exact he
  have herr : approxErr c.P c.n k c.m (fun i p => projection c eg p (c.n - 1 - i))
      (fun i s => eg.vec s (c.n - 1 - i)) = _ := kl_error c eg hP h.ortho heig hu k hk
  rw [herr]
  constructor
  · obtain ⟨r, hr, u, hfr, hl⟩ := exists_frame c.n k a
    have h1 : ∑ p ∈ range c.P, (dotN c.n (c.m p) (c.m p) - ∑ j ∈ range r, dotN c.n (c.m p) (u j) ^ 2) ≤
        approxErr c.P c.n k c.m b a := Finset.sum_le_sum fun p _ => hl (c.m p) fun j => b j p
    have h2 := hs.frame_leaves k r hk hr u hfr
    have ht : ∀ p s, s < c.n → treated c p s = c.m p s - 1 / c.P := by
      intro p s hsn
      unfold treated colMean
      rw [if_pos hn', hu s hsn]
    -- every direction holds at least as much of the stamps as of the treated stamps
    have hdir : ∀ y : ℕ → ℝ, ∑ p ∈ range c.P, dotN c.n (treated c p) y ^ 2 =
        ∑ p ∈ range c.P, dotN c.n (c.m p) y ^ 2 - dotN c.n (fun _ => 1) y ^ 2 / c.P := by
      intro y
      have e1 : ∀ p, dotN c.n (treated c p) y = dotN c.n (c.m p) y - dotN c.n (fun _ => 1) y / c.P := by
        intro p
        unfold dotN
        rw [Finset.sum_div, ← Finset.sum_sub_distrib]
        refine Finset.sum_congr rfl fun s hsn => ?_
        rw [ht p s (Finset.mem_range.1 hsn)]
        ring
      have e2 : ∑ p ∈ range c.P, dotN c.n (c.m p) y = dotN c.n (fun _ => 1) y := by
        unfold dotN
        rw [Finset.sum_comm]
        refine Finset.sum_congr rfl fun s hsn => ?_
        rw [← Finset.sum_mul, hu s (Finset.mem_range.1 hsn)]
      simp only [e1, sub_sq]
      rw [Finset.sum_add_distrib, Finset.sum_sub_distrib, ← Finset.sum_mul, ← Finset.mul_sum, e2, Finset.sum_const,
        Finset.card_range, nsmul_eq_mul]
      field_simp
      ring
    have hself : ∑ p ∈ range c.P, dotN c.n (treated c p) (treated c p) =
        ∑ p ∈ range c.P, dotN c.n (c.m p) (c.m p) - c.n / c.P := by
      unfold dotN
      rw [Finset.sum_comm, Finset.sum_comm (s := range c.P) (t := range c.n) (f := fun p s => c.m p s * c.m p s)]
      have e3 : ∀ s ∈ range c.n, ∑ p ∈ range c.P, treated c p s * treated c p s =
          ∑ p ∈ range c.P, c.m p s * c.m p s - 1 / c.P := by
        intro s hsn
        rw [Finset.mem_range] at hsn
        have e4 : ∀ p, treated c p s * treated c p s =
            c.m p s * c.m p s - 2 / c.P * c.m p s + 1 / c.P * (1 / c.P) := by
          intro p
          rw [ht p s hsn]
          ring
        simp only [e4]
        rw [Finset.sum_add_distrib, Finset.sum_sub_distrib, ← Finset.mul_sum, hu s hsn, Finset.sum_const,
          Finset.card_range, nsmul_eq_mul]
        field_simp
        ring
      rw [Finset.sum_congr rfl e3, Finset.sum_sub_distrib, Finset.sum_const, Finset.card_range, nsmul_eq_mul]
      ring
    have hb := frame_bessel c.n r u hfr (fun _ => 1)
    have hone : dotN c.n (fun _ => 1) (fun _ => 1) = c.n := by simp [dotN]
    rw [hone] at hb
    rw [Finset.sum_sub_distrib, hself, Finset.sum_comm, Finset.sum_congr rfl fun j _ => hdir (u j),
      Finset.sum_sub_distrib, ← Finset.sum_div, Finset.sum_comm] at h2
    rw [Finset.sum_sub_distrib] at h1
    have hcf : covFactor c = (c.P : ℝ) - 1 := if_pos hn'
    rw [hcf] at h2
    rw [Finset.sum_add_distrib, ← Finset.sum_div]
    have h3 : (∑ j ∈ range r, dotN c.n (fun _ => 1) (u j) ^ 2) / (c.P : ℝ) ≤ c.n / c.P :=
      div_le_div_of_nonneg_right hb (by linarith)
    linarith
  · refine div_le_div_of_nonneg_right ?_ (by linarith)
    have hfr : Frame c.n (c.n - k) fun col s => eg.vec s col := by
      intro i hi j hj
      exact h.ortho i (by omega) j (by omega)
    have hb := frame_bessel c.n (c.n - k) _ hfr (fun _ => 1)
    have hone : dotN c.n (fun _ => 1) (fun _ => 1) = c.n := by simp [dotN]
    rw [hone] at hb
    simpa [dotN] using hb

/-! ## Two nearly equal stars -/

/-- Two stamps of two pixels, mirror images of each other; `t` says how different they are. -/
noncomputable def nearPair (t : ℝ) : Columns ℝ := ⟨2, 2, fun p s => if p = s then 1 / 2 + t else 1 / 2 - t⟩

theorem nearPair_cov (t : ℝ) : covOf (nearPair t) = .mat 2 (npCov 2 (nearPair t).m) ∧
    npCov 2 (nearPair t).m 0 0 = 2 * t ^ 2 ∧ npCov 2 (nearPair t).m 0 1 = -(2 * t ^ 2) ∧
    npCov 2 (nearPair t).m 1 0 = -(2 * t ^ 2) ∧ npCov 2 (nearPair t).m 1 1 = 2 * t ^ 2 := by
  refine ⟨?_, ?_, ?_, ?_, ?_⟩
  · unfold covOf
    rw [if_pos (show (nearPair t).n ≤ 250 by simp [nearPair]), if_neg (show ¬ (nearPair t).n = 1 by simp [nearPair])]
    rfl
  all_goals
    simp [npCov, colMean, nearPair, Finset.sum_range_succ]
    ring

theorem nearPair_unit (t : ℝ) : ∀ s < (nearPair t).n, ∑ p ∈ range (nearPair t).P, (nearPair t).m p s = 1 := by
  intro s hs
  have hs' : s < 2 := hs
  change ∑ p ∈ range 2, (nearPair t).m p s = 1
  interval_cases s <;> simp [nearPair, Finset.sum_range_succ] <;> ring

/-- A valid decomposition. -/
theorem nearPair_decomposed (t : ℝ) : ∃ eg, Decomposed (nearPair t) eg := by
  have h2 : Real.sqrt (1 / 2) * Real.sqrt (1 / 2) = 1 / 2 := Real.mul_self_sqrt (by norm_num)
  obtain ⟨hc, h00, h01, h10, h11⟩ := nearPair_cov t
  refine ⟨⟨[0, 4 * t ^ 2], fun s c => if s = 0 ∧ c = 1 then -Real.sqrt (1 / 2) else Real.sqrt (1 / 2)⟩, ?_,
    ⟨_, hc, rfl, ?_⟩, ?_⟩
  · intro c hc d hd
    have hc : c < 2 := hc
    have hd : d < 2 := hd
    change ∑ s ∈ range 2, _ = _
    simp only [Finset.sum_range_succ, Finset.sum_range_zero]
    interval_cases c <;> interval_cases d <;> norm_num <;> norm_num at h2 <;> linarith
  · intro c hc d hd
    have hc : c < 2 := hc
    have hd : d < 2 := hd
    change ∑ s ∈ range 2, _ = _
    simp only [Finset.sum_range_succ, Finset.sum_range_zero]
    interval_cases c <;> interval_cases d <;> simp only [h00, h01, h10, h11] <;> norm_num <;> ring
  · intro i j hij hj
    have hj : j < 2 := hj
    have : 0 ≤ t ^ 2 := sq_nonneg t
    interval_cases j <;> interval_cases i <;> simp <;> linarith

/-- C139: two stars that differ by as little as one likes (`t ≠ 0`): for every `inf_loss ≥ 0` a single element is
kept, and with it the two stamps are missed by 1, while their plain mean would miss them by `4 t²` only. -/
theorem kl_misses_mean (t : ℝ) (ht : t ≠ 0) (eg : Eig ℝ) (h : Decomposed (nearPair t) eg) (loss : ℝ) (h0 : 0 ≤ loss) :
    klCut loss eg.vals = 1 ∧
    approxErr 2 2 1 (nearPair t).m (fun i p => projection (nearPair t) eg p (1 - i)) (fun i s => eg.vec s (1 - i)) = 1 ∧
    approxErr 2 2 1 (nearPair t).m (fun _ _ => 1 / 2) (fun _ _ => 1) = 4 * t ^ 2 := by
  obtain ⟨hcov, h00, h01, h10, h11⟩ := nearPair_cov t
  obtain ⟨f, hf, hlen, he⟩ := h.eig
  rw [hcov] at hf
  injection hf with _ hf
  subst hf
  have ht2 : 0 < t ^ 2 := by positivity
  have o := h.ortho
  have oo : ∀ c < 2, ∀ d < 2, eg.vec 0 c * eg.vec 0 d + eg.vec 1 c * eg.vec 1 d = if c = d then 1 else 0 := by
    intro c hc d hd
    have := o c hc d hd
    change ∑ s ∈ range 2, _ = _ at this
    simpa [Finset.sum_range_succ] using this
  have ee : ∀ c < 2, 2 * t ^ 2 * (eg.vec 0 c - eg.vec 1 c) = eg.vals.getD c 0 * eg.vec 0 c ∧
      -(2 * t ^ 2 * (eg.vec 0 c - eg.vec 1 c)) = eg.vals.getD c 0 * eg.vec 1 c := by
    intro c hc
    have e0 := he c hc 0 (show 0 < 2 by omega)
    have e1 := he c hc 1 (show 1 < 2 by omega)
    change ∑ s ∈ range 2, _ = _ at e0
    change ∑ s ∈ range 2, _ = _ at e1
    simp only [Finset.sum_range_succ, Finset.sum_range_zero, h00, h01, h10, h11] at e0 e1
    constructor <;> linarith
  have hsort : eg.vals.getD 0 0 ≤ eg.vals.getD 1 0 := h.sorted 0 1 (by omega) (show 1 < 2 by omega)
  have o00 := oo 0 (by omega) 0 (by omega)
  have o11 := oo 1 (by omega) 1 (by omega)
  have o01 := oo 0 (by omega) 1 (by omega)
  rw [if_pos rfl] at o00 o11
  rw [if_neg (by omega)] at o01
  obtain ⟨e00, e01⟩ := ee 0 (by omega)
  obtain ⟨e10, e11⟩ := ee 1 (by omega)
  have dich : ∀ c < 2, (eg.vals.getD c 0 = 0 ∧ eg.vec 0 c = eg.vec 1 c) ∨
      (eg.vals.getD c 0 = 4 * t ^ 2 ∧ eg.vec 0 c = -eg.vec 1 c) := by
    intro c hc
    obtain ⟨a1, a2⟩ := ee c hc
    have on := oo c hc c hc
    rw [if_pos rfl] at on
    have hz : eg.vals.getD c 0 * (eg.vec 0 c + eg.vec 1 c) = 0 := by linarith
    rcases mul_eq_zero.1 hz with hz | hz
    · left
      rw [hz, zero_mul] at a1
      refine ⟨hz, ?_⟩
      rcases mul_eq_zero.1 a1 with h3 | h3
      · exfalso; linarith
      · linarith
    · right
      have hv : eg.vec 0 c = -eg.vec 1 c := by linarith
      refine ⟨?_, hv⟩
      have hne : eg.vec 1 c ≠ 0 := by
        intro hc0
        rw [hv, hc0] at on
        norm_num at on
      rw [hv] at a2
      have : (4 * t ^ 2 - eg.vals.getD c 0) * eg.vec 1 c = 0 := by linarith
      rcases mul_eq_zero.1 this with h3 | h3
      · linarith
      · exact absurd h3 hne
  have hvals : eg.vals.getD 0 0 = 0 ∧ eg.vec 0 0 = eg.vec 1 0 ∧ eg.vals.getD 1 0 = 4 * t ^ 2 := by
    rcases dich 0 (by omega) with ⟨p1, p2⟩ | ⟨p1, p2⟩ <;> rcases dich 1 (by omega) with ⟨q1, q2⟩ | ⟨q1, q2⟩
    · exfalso
      rw [p2] at o00 o01
      rw [q2] at o11 o01
      nlinarith [sq_nonneg (eg.vec 1 0 * eg.vec 1 1)]
    · exact ⟨p1, p2, q1⟩
    · exfalso; linarith
    · exfalso
      rw [p2] at o00 o01
      rw [q2] at o11 o01
      nlinarith [sq_nonneg (eg.vec 1 0 * eg.vec 1 1)]
  obtain ⟨w0, w1, w2⟩ := hvals
  have hl : eg.vals = [0, 4 * t ^ 2] := by
    have hlen : eg.vals.length = 2 := hlen
    match hv : eg.vals, hlen with
    | [x, y], _ =>
      rw [hv] at w0 w2
      simp only [List.getD_cons_zero, List.getD_cons_succ] at w0 w2
      rw [w0, w2]
  have hne : ∃ v ∈ eg.vals, v ≠ 0 := ⟨4 * t ^ 2, by rw [hl]; simp, by positivity⟩
  refine ⟨?_, ?_, ?_⟩
  · have hc := kl_cut_least loss eg.vals hne h0
    have hr := kl_cut_range loss eg.vals hne h0
    refine le_antisymm (hc.2 ⟨le_refl 1, ?_⟩) hr.1
    have : keptShare eg.vals 1 = 1 := by
      rw [hl]
      unfold keptShare
      simp only [List.reverse_cons, List.reverse_nil, List.nil_append, List.cons_append, List.take_succ_cons,
        List.take_zero, List.map_cons, List.map_nil, List.sum_cons, List.sum_nil, abs_zero, add_zero, zero_add]
      have : |4 * t ^ 2| ≠ 0 := abs_ne_zero.2 (by positivity)
      exact div_self this
    rw [this]
    linarith
  · have := kl_error (nearPair t) eg (le_refl 2) h.ortho ⟨hlen, he⟩ (nearPair_unit t) 1 (show 1 ≤ 2 by omega)
    refine (show approxErr 2 2 1 (nearPair t).m (fun i p => projection (nearPair t) eg p (1 - i))
      (fun i s => eg.vec s (1 - i)) = _ from this).trans ?_
    change ∑ col ∈ range 1, ((((2 : ℕ) : ℝ) - 1) * eg.vals.getD col 0 +
      (∑ s ∈ range 2, eg.vec s col) ^ 2 / ((2 : ℕ) : ℝ)) = 1
    simp only [Finset.sum_range_succ, Finset.sum_range_zero, w0, w1]
    rw [w1] at o00
    push_cast
    linarith
  · simp only [approxErr, Finset.sum_range_succ, Finset.sum_range_zero, nearPair]
    norm_num
    ring

end PI
