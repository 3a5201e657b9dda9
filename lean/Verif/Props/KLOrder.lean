import Verif.Props.KLBest

/-! # Property C140: the PSF model depends neither on the order of the stars nor on the eigenvectors found -/

namespace PI

open Finset

section unique
variable {P n : ℕ} {x vec vec' : ℕ → ℕ → ℝ} {lam lam' : ℕ → ℝ} (h : Spectral P n x vec lam)
  (h' : Spectral P n x vec' lam')
include h h'

theorem Spectral.partial_sums (k : ℕ) (hk : k ≤ n) :
    ∑ c ∈ range (n - k), lam c = ∑ c ∈ range (n - k), lam' c :=
  le_antisymm ((h.approx_ge k hk _ _).trans_eq (h'.approx_eq k hk))
    ((h'.approx_ge k hk _ _).trans_eq (h.approx_eq k hk))

/-- The eigenvalues of two decompositions are the same. -/
theorem Spectral.vals_unique (c : ℕ) (hc : c < n) : lam c = lam' c := by
  have h1 := h.partial_sums h' (n - c) (Nat.sub_le _ _)
  have h2 := h.partial_sums h' (n - (c + 1)) (Nat.sub_le _ _)
  rw [show n - (n - c) = c by omega] at h1
  rw [show n - (n - (c + 1)) = c + 1 by omega, Finset.sum_range_succ, Finset.sum_range_succ, h1] at h2
  exact add_left_cancel h2

/-- Eigenvectors of different eigenvalues are orthogonal, across two decompositions too. -/
theorem Spectral.cross (c d : ℕ) (hc : c < n) (hd : d < n) (hne : lam c ≠ lam d) :
    ∑ s ∈ range n, vec s c * vec' s d = 0 := by
  have e1 : ∑ s ∈ range n, (∑ t ∈ range n, PI.inner P x s t * vec t c) * vec' s d =
      lam c * ∑ s ∈ range n, vec s c * vec' s d := by
    rw [Finset.mul_sum]
    refine Finset.sum_congr rfl fun s hs => ?_
    rw [h.eig c hc s (Finset.mem_range.1 hs)]
    ring
  have e2 : ∑ s ∈ range n, (∑ t ∈ range n, PI.inner P x s t * vec t c) * vec' s d =
      lam' d * ∑ s ∈ range n, vec s c * vec' s d := by
    rw [Finset.mul_sum]
    simp only [Finset.sum_mul]
    rw [Finset.sum_comm]
    refine Finset.sum_congr rfl fun t ht => ?_
    have := h'.eig d hd t (Finset.mem_range.1 ht)
    rw [show lam' d * (vec t c * vec' t d) = vec t c * (lam' d * vec' t d) by ring, ← this, Finset.mul_sum]
    refine Finset.sum_congr rfl fun s _ => ?_
    rw [inner_comm P x t s]
    ring
  have e3 := h.vals_unique h' d hd
  rw [e1, ← e3] at e2
  by_contra h0
  exact hne (mul_right_cancel₀ h0 e2)

omit h in
theorem Spectral.expand (y : ℕ → ℝ) (s : ℕ) (hs : s < n) :
    y s = ∑ d ∈ range n, (∑ t ∈ range n, y t * vec' t d) * vec' s d := by
  have h1 := full_sum (⟨1, n, fun _ t => y t⟩ : Columns ℝ) ⟨[], vec'⟩ h'.ortho 0 s hs
  exact h1.symm

/-- The discarded eigenvectors span the same space. -/
theorem Spectral.discarded_unique (m : ℕ) (hm : m ≤ n) (gap : ∀ c < m, ∀ d, m ≤ d → d < n → lam c < lam d) (s t : ℕ)
    (hs : s < n) (ht : t < n) :
    ∑ c ∈ range m, vec s c * vec t c = ∑ c ∈ range m, vec' s c * vec' t c := by
  let W : ℕ → ℕ → ℝ := fun c d => ∑ r ∈ range n, vec r c * vec' r d
  have hW : ∀ c d, c < n → d < n → (c < m ↔ ¬ d < m) → W c d = 0 := by
    intro c d hc hd hcd
    refine h.cross h' c d hc hd ?_
    by_cases hcm : c < m
    · exact (gap c hcm d (by have := hcd.1 hcm; omega) hd).ne
    · have hdm : d < m := by by_contra hx; exact hcm (hcd.2 hx)
      exact (gap d hdm c (by omega) hc).ne'
  have hcut : ∀ f : ℕ → ℝ, (∀ d, m ≤ d → d < n → f d = 0) → ∑ d ∈ range n, f d = ∑ d ∈ range m, f d := by
    intro f hf
    rw [← Finset.sum_subset (Finset.range_subset_range.2 hm)]
    intro d hd hd'
    rw [Finset.mem_range] at hd hd'
    exact hf d (by omega) hd
  have hexp : ∀ c < m, ∀ r < n, vec r c = ∑ d ∈ range m, W c d * vec' r d := by
    intro c hc r hr
    have := h'.expand (fun r => vec r c) r hr
    refine this.trans (hcut (fun d => W c d * vec' r d) ?_)
    intro d hd hdn
    show W c d * vec' r d = 0
    rw [hW c d (by omega) hdn (by simp [hc, hd]), zero_mul]
  have hWW : ∀ d < m, ∀ e < m, ∑ c ∈ range m, W c d * W c e = if d = e then 1 else 0 := by
    intro d hd e he
    have h1 := hcut (fun c => W c d * W c e) (by
      intro c hc hcn
      show W c d * W c e = 0
      rw [hW c d hcn (by omega) (by simp [hd, hc]), zero_mul])
    rw [← h1]
    have h2 := h'.ortho d (by omega) e (by omega)
    change ∑ s ∈ range n, vec' s d * vec' s e = _ at h2
    rw [← h2]
    have h3 : ∀ r ∈ range n, vec' r d = ∑ c ∈ range n, W c d * vec r c := by
      intro r hr
      refine (h.expand (fun r => vec' r d) r (Finset.mem_range.1 hr)).trans (Finset.sum_congr rfl fun c _ => ?_)
      congr 1
      exact Finset.sum_congr rfl fun _ _ => mul_comm _ _
    have h4 : ∑ r ∈ range n, vec' r d * vec' r e = ∑ r ∈ range n, (∑ c ∈ range n, W c d * vec r c) * vec' r e :=
      Finset.sum_congr rfl fun r hr => by rw [← h3 r hr]
    rw [h4]
    simp only [Finset.sum_mul]
    rw [Finset.sum_comm]
    refine Finset.sum_congr rfl fun c _ => ?_
    change W c d * ∑ r ∈ range n, vec r c * vec' r e = _
    rw [Finset.mul_sum]
    exact Finset.sum_congr rfl fun r _ => by ring
  have h5 : ∀ c ∈ range m, vec s c * vec t c =
      ∑ d ∈ range m, ∑ e ∈ range m, W c d * W c e * (vec' s d * vec' t e) := by
    intro c hc
    rw [Finset.mem_range] at hc
    rw [hexp c hc s hs, hexp c hc t ht, Finset.sum_mul_sum]
    exact Finset.sum_congr rfl fun i _ => Finset.sum_congr rfl fun j _ => by ring
  rw [Finset.sum_congr rfl h5, Finset.sum_comm]
  refine Finset.sum_congr rfl fun d hd => ?_
  rw [Finset.sum_comm]
  have h6 : ∀ e ∈ range m, ∑ c ∈ range m, W c d * W c e * (vec' s d * vec' t e) =
      if d = e then vec' s d * vec' t e else 0 := by
    intro e he
    rw [← Finset.sum_mul, hWW d (Finset.mem_range.1 hd) e (Finset.mem_range.1 he)]
    split <;> simp
  rw [Finset.sum_congr rfl h6, Finset.sum_ite_eq, if_pos hd]

/-- So do the kept ones. -/
theorem Spectral.kept_unique (k : ℕ) (hk : k ≤ n) (gap : ∀ c < n - k, ∀ d, n - k ≤ d → d < n → lam c < lam d)
    (s t : ℕ) (hs : s < n) (ht : t < n) :
    ∑ i ∈ range k, vec s (n - 1 - i) * vec t (n - 1 - i) = ∑ i ∈ range k, vec' s (n - 1 - i) * vec' t (n - 1 - i) := by
  have h1 := sum_split n k hk fun c => vec s c * vec t c
  have h2 := sum_split n k hk fun c => vec' s c * vec' t c
  have h3 := orthonormal_rows n ⟨[], vec⟩ h.ortho s t hs ht
  have h4 := orthonormal_rows n ⟨[], vec'⟩ h'.ortho s t hs ht
  have h5 := h.discarded_unique h' (n - k) (Nat.sub_le _ _) gap s t hs ht
  simp only at h3 h4 h1 h2
  rw [h3] at h1
  rw [h4] at h2
  linarith

/-- An eigenvector whose eigenvalue occurs once is determined up to its sign. -/
theorem Spectral.single_unique (c : ℕ) (hc : c < n) (hl : ∀ d < n, d ≠ c → lam d ≠ lam c) :
    ∃ e : ℝ, (e = 1 ∨ e = -1) ∧ ∀ s < n, vec' s c = e * vec s c := by
  have hz : ∀ d < n, d ≠ c → ∑ t ∈ range n, vec' t c * vec t d = 0 := by
    intro d hd hdc
    rw [← h.cross h' d c hd hc (hl d hd hdc)]
    exact Finset.sum_congr rfl fun _ _ => mul_comm _ _
  have h1 : ∀ s < n, vec' s c = (∑ t ∈ range n, vec' t c * vec t c) * vec s c := by
    intro s hs
    refine (h.expand (fun r => vec' r c) s hs).trans ?_
    rw [Finset.sum_eq_single_of_mem c (Finset.mem_range.2 hc)]
    intro d hd hdc
    rw [hz d (Finset.mem_range.1 hd) hdc, zero_mul]
  refine ⟨_, ?_, h1⟩
  have h2 := h'.ortho c hc c hc
  have h3 := h.ortho c hc c hc
  rw [if_pos rfl] at h2 h3
  change ∑ s ∈ range n, vec' s c * vec' s c = 1 at h2
  change ∑ s ∈ range n, vec s c * vec s c = 1 at h3
  generalize hE : ∑ t ∈ range n, vec' t c * vec t c = E at h1
  rw [Finset.sum_congr rfl fun s hs => by rw [h1 s (Finset.mem_range.1 hs)]] at h2
  have h4 : ∑ s ∈ range n, E * vec s c * (E * vec s c) = E * E * ∑ s ∈ range n, vec s c * vec s c := by
    rw [Finset.mul_sum]
    exact Finset.sum_congr rfl fun s _ => by ring
  rw [h4, h3, mul_one] at h2
  exact mul_self_eq_one_iff.1 h2

end unique

/-! ## Reordering -/

/-- The stamps in another order. -/
def Columns.reorder (c : Columns ℝ) (σ : Equiv.Perm ℕ) : Columns ℝ := ⟨c.P, c.n, fun p s => c.m p (σ s)⟩

theorem sum_reorder (n : ℕ) (σ : Equiv.Perm ℕ) (hσ : ∀ s, σ s < n ↔ s < n) (f : ℕ → ℝ) :
    ∑ s ∈ range n, f (σ s) = ∑ s ∈ range n, f s :=
  Finset.sum_equiv σ (fun s => by rw [Finset.mem_range, Finset.mem_range, hσ]) fun _ _ => rfl

theorem perm_symm_lt (n : ℕ) (σ : Equiv.Perm ℕ) (hσ : ∀ s, σ s < n ↔ s < n) (s : ℕ) : σ.symm s < n ↔ s < n := by
  have := hσ (σ.symm s)
  rw [Equiv.apply_symm_apply] at this
  exact this.symm

theorem Spectral.reorder {P n : ℕ} {x vec : ℕ → ℕ → ℝ} {lam : ℕ → ℝ} (σ : Equiv.Perm ℕ) (hσ : ∀ s, σ s < n ↔ s < n)
    (h : Spectral P n (fun p s => x p (σ s)) vec lam) : Spectral P n x (fun s c => vec (σ.symm s) c) lam := by
  have hs := perm_symm_lt n σ hσ
  refine ⟨?_, ?_, h.mono⟩
  · intro c hc d hd
    exact (sum_reorder n σ.symm hs fun s => vec s c * vec s d).trans (h.ortho c hc d hd)
  · intro c hc i hi
    rw [← h.eig c hc (σ.symm i) ((hs i).2 hi),
      ← sum_reorder n σ.symm hs fun j => PI.inner P (fun p s => x p (σ s)) (σ.symm i) j * vec j c]
    refine Finset.sum_congr rfl fun j _ => ?_
    congr 1
    unfold PI.inner
    simp only [Equiv.apply_symm_apply]

theorem treated_reorder (c : Columns ℝ) (σ : Equiv.Perm ℕ) (p s : ℕ) : treated (c.reorder σ) p s = treated c p (σ s) := rfl

theorem spectral_reorder (c : Columns ℝ) (σ : Equiv.Perm ℕ) (hσ : ∀ s, σ s < c.n ↔ s < c.n) (eg : Eig ℝ) (hn : 2 ≤ c.n)
    (hP : 2 ≤ c.P) (h : Decomposed (c.reorder σ) eg) :
    Spectral c.P c.n (treated c) (fun s col => eg.vec (σ.symm s) col) fun col => covFactor c * eg.vals.getD col 0 :=
  Spectral.reorder σ hσ (spectral_of (c.reorder σ) eg hn hP h)

/-- Every decomposition gives one of the reordered stamps. -/
theorem decomposed_reorder (c : Columns ℝ) (σ : Equiv.Perm ℕ) (hσ : ∀ s, σ s < c.n ↔ s < c.n) (eg : Eig ℝ)
    (hn : 2 ≤ c.n) (h : Decomposed c eg) : Decomposed (c.reorder σ) ⟨eg.vals, fun s col => eg.vec (σ s) col⟩ := by
  obtain ⟨f, hf, hl, he⟩ := h.eig
  refine ⟨?_, ?_, h.sorted⟩
  · intro a ha b hb
    exact (sum_reorder c.n σ hσ fun s => eg.vec s a * eg.vec s b).trans (h.ortho a ha b hb)
  · have key : ∃ g, covOf (c.reorder σ) = .mat c.n g ∧ ∀ i < c.n, ∀ j < c.n, g i j = f (σ i) (σ j) := by
      by_cases h250 : c.n ≤ 250
      · unfold covOf at hf ⊢
        rw [if_pos h250, if_neg (by omega)] at hf
        rw [if_pos (show (c.reorder σ).n ≤ 250 from h250), if_neg (show ¬ (c.reorder σ).n = 1 by
          change ¬ c.n = 1; omega)]
        injection hf with _ hf
        subst hf
        exact ⟨_, rfl, fun i _ j _ => rfl⟩
      · obtain ⟨g, hg, hgg⟩ := cov_many c (by omega)
        obtain ⟨g', hg', hgg'⟩ := cov_many (c.reorder σ) (show 250 < c.n by omega)
        rw [hf] at hg
        injection hg with _ hg
        refine ⟨g', hg', fun i hi j hj => ?_⟩
        rw [hgg' i hi j hj, hg, hgg (σ i) ((hσ i).2 hi) (σ j) ((hσ j).2 hj)]
        rfl
    obtain ⟨g, hg, hgg⟩ := key
    refine ⟨g, hg, hl, fun col hcol i hi => ?_⟩
    change ∑ j ∈ range c.n, g i j * eg.vec (σ j) col = eg.vals.getD col 0 * eg.vec (σ i) col
    rw [← he col hcol (σ i) ((hσ i).2 hi), ← sum_reorder c.n σ hσ fun j => f (σ i) j * eg.vec j col]
    exact Finset.sum_congr rfl fun j hj => by rw [hgg i hi j (Finset.mem_range.1 hj)]

theorem dotColumn_px_reorder (c : Columns ℝ) (σ : Equiv.Perm ℕ) (hσ : ∀ s, σ s < c.n ↔ s < c.n) (eg : Eig ℝ)
    (sh : ℕ × ℕ) (col i j : ℕ) : (dotColumn (c.reorder σ) eg sh col).px i j =
      ∑ s ∈ range c.n, c.m (i * sh.2 + j) s * eg.vec (σ.symm s) col := by
  rw [← sum_reorder c.n σ hσ]
  change ∑ s ∈ range c.n, c.m (i * sh.2 + j) (σ s) * eg.vec s col = _
  exact Finset.sum_congr rfl fun s _ => by rw [Equiv.symm_apply_apply]

/-- C140: two decompositions, of the stamps and of the same stamps in another order, have the same eigenvalues, so
the same number of elements is kept for any `inf_loss`. -/
theorem kl_vals_unique (c : Columns ℝ) (σ : Equiv.Perm ℕ) (hσ : ∀ s, σ s < c.n ↔ s < c.n) (eg eg' : Eig ℝ)
    (hn : 2 ≤ c.n) (hP : 2 ≤ c.P) (h : Decomposed c eg) (h' : Decomposed (c.reorder σ) eg') :
    eg'.vals = eg.vals ∧ ∀ loss, klCut loss eg'.vals = klCut loss eg.vals := by
  have hv : eg'.vals = eg.vals := by
    obtain ⟨f, _, hl, _⟩ := h.eig
    obtain ⟨f', _, hl', _⟩ := h'.eig
    have hl' : eg'.vals.length = c.n := hl'
    apply List.ext_getElem (by omega)
    intro i hi hi'
    have h1 := (spectral_of c eg hn hP h).vals_unique (spectral_reorder c σ hσ eg' hn hP h') i (by omega)
    have h2 := mul_left_cancel₀ (covFactor_pos c hP).ne' h1
    rw [List.getD_eq_getElem?_getD, List.getD_eq_getElem?_getD, List.getElem?_eq_getElem hi,
      List.getElem?_eq_getElem hi'] at h2
    exact h2.symm
  exact ⟨hv, fun loss => by rw [hv]⟩

/-- C140: if the kept eigenvalues are larger than the discarded ones, the model the elements and coefficients make
of every star is the same, whatever decomposition was found and in whatever order the stars came. -/
theorem kl_model_unique (c : Columns ℝ) (σ : Equiv.Perm ℕ) (hσ : ∀ s, σ s < c.n ↔ s < c.n) (eg eg' : Eig ℝ)
    (hn : 2 ≤ c.n) (hP : 2 ≤ c.P) (h : Decomposed c eg) (h' : Decomposed (c.reorder σ) eg') (k : ℕ) (hk : k ≤ c.n)
    (gap : ∀ a < c.n - k, ∀ d, c.n - k ≤ d → d < c.n → eg.vals.getD a 0 < eg.vals.getD d 0) (sh : ℕ × ℕ)
    (i j s : ℕ) (hs : s < c.n) :
    ∑ e ∈ range k, (dotColumn (c.reorder σ) eg' sh (c.n - 1 - e)).px i j * eg'.vec s (c.n - 1 - e) =
      ∑ e ∈ range k, (dotColumn c eg sh (c.n - 1 - e)).px i j * eg.vec (σ s) (c.n - 1 - e) := by
  have hS := spectral_of c eg hn hP h
  have hS' := spectral_reorder c σ hσ eg' hn hP h'
  have hgap : ∀ a < c.n - k, ∀ d, c.n - k ≤ d → d < c.n → covFactor c * eg.vals.getD a 0 < covFactor c * eg.vals.getD d 0 :=
    fun a ha d hd hd' => mul_lt_mul_of_pos_left (gap a ha d hd hd') (covFactor_pos c hP)
  have hu := fun t (ht : t < c.n) => hS.kept_unique hS' k hk hgap t (σ s) ht ((hσ s).2 hs)
  simp only [Equiv.symm_apply_apply] at hu
  simp only [dotColumn_px_reorder c σ hσ]
  simp only [dotColumn, Finset.sum_mul]
  rw [Finset.sum_comm, Finset.sum_comm (s := range k)]
  refine Finset.sum_congr rfl fun t ht => ?_
  have := hu t (Finset.mem_range.1 ht)
  simp only [mul_assoc]
  rw [← Finset.mul_sum, ← Finset.mul_sum, this]

theorem img_same {a b : Img ℝ} (h1 : a.h = b.h) (h2 : a.w = b.w) (h3 : a.px = b.px) : a = b := by
  cases a; cases b
  cases h1; cases h2; cases h3
  rfl

/-- C140: an element whose eigenvalue occurs once is the same up to the sign, together with its coefficients. -/
theorem kl_element_unique (c : Columns ℝ) (σ : Equiv.Perm ℕ) (hσ : ∀ s, σ s < c.n ↔ s < c.n) (eg eg' : Eig ℝ)
    (hn : 2 ≤ c.n) (hP : 2 ≤ c.P) (h : Decomposed c eg) (h' : Decomposed (c.reorder σ) eg') (col : ℕ) (hc : col < c.n)
    (hl : ∀ d < c.n, d ≠ col → eg.vals.getD d 0 ≠ eg.vals.getD col 0) (sh : ℕ × ℕ) :
    ∃ e : ℝ, (e = 1 ∨ e = -1) ∧
      dotColumn (c.reorder σ) eg' sh col = (dotColumn c eg sh col).map (e * ·) ∧
      ∀ s < c.n, eg'.vec s col = e * eg.vec (σ s) col := by
  have hS := spectral_of c eg hn hP h
  have hS' := spectral_reorder c σ hσ eg' hn hP h'
  obtain ⟨e, he, hv⟩ := hS.single_unique hS' col hc fun d hd hne heq =>
    hl d hd hne (mul_left_cancel₀ (covFactor_pos c hP).ne' heq)
  refine ⟨e, he, ?_, fun s hs => ?_⟩
  · have hpx : (dotColumn (c.reorder σ) eg' sh col).px = ((dotColumn c eg sh col).map (e * ·)).px := by
      funext i j
      rw [dotColumn_px_reorder c σ hσ]
      change _ = e * ∑ s ∈ range c.n, c.m (i * sh.2 + j) s * eg.vec s col
      rw [Finset.mul_sum]
      refine Finset.sum_congr rfl fun s hs => ?_
      have := hv s (Finset.mem_range.1 hs)
      rw [this]
      ring
    exact img_same rfl rfl hpx
  · have := hv (σ s) ((hσ s).2 hs)
    simp only [Equiv.symm_apply_apply] at this
    exact this

theorem imgSum_scale (a : Img ℝ) (e : ℝ) : imgSum (a.map (e * ·)) = e * imgSum a := by
  unfold imgSum Img.map
  rw [Finset.mul_sum]
  exact Finset.sum_congr rfl fun i _ => by rw [Finset.mul_sum]

/-- C140: a PSF of a single element, which is divided by its sum, is the same picture. -/
theorem kl_single_unique (c : Columns ℝ) (σ : Equiv.Perm ℕ) (hσ : ∀ s, σ s < c.n ↔ s < c.n) (eg eg' : Eig ℝ)
    (hn : 2 ≤ c.n) (hP : 2 ≤ c.P) (h : Decomposed c eg) (h' : Decomposed (c.reorder σ) eg')
    (hl : ∀ d < c.n - 1, eg.vals.getD d 0 < eg.vals.getD (c.n - 1) 0) (sh : ℕ × ℕ) (loss : ℝ)
    (h1 : klCut loss eg.vals = 1) :
    buildBasis (c.reorder σ) true none eg' sh loss = buildBasis c true none eg sh loss := by
  obtain ⟨e, he, hd, _⟩ := kl_element_unique c σ hσ eg eg' hn hP h h' (c.n - 1) (by omega)
    (fun d hd hne => (hl d (by omega)).ne) sh
  have hraw : ∀ d : Columns ℝ, ∀ g : Eig ℝ, d.n = c.n → d.P = c.P → klCut loss g.vals = 1 →
      buildBasis d true none g sh loss =
        if c.n = 0 ∨ sh.1 * sh.2 = c.P then .ok [unitImg (dotColumn d g sh (c.n - 1))] else .error .ValueError := by
    intro d g hdn hdP hcut
    unfold buildBasis rawBasis
    have hlc : lastCols d.n 1 = [c.n - 1] := by
      unfold lastCols
      rw [hdn, Nat.min_eq_left (by omega)]
      rfl
    rw [hcut, hlc, hdn, hdP]
    by_cases hsh : c.n = 0 ∨ sh.1 * sh.2 = c.P
    · rw [if_pos rfl, if_pos hsh, if_pos hsh]
      rfl
    · rw [if_pos rfl, if_neg hsh, if_neg hsh]
      rfl
  rw [hraw c eg rfl rfl h1, hraw (c.reorder σ) eg' rfl rfl
    ((kl_vals_unique c σ hσ eg eg' hn hP h h').2 loss ▸ h1), hd]
  have hu : unitImg ((dotColumn c eg sh (c.n - 1)).map (e * ·)) = unitImg (dotColumn c eg sh (c.n - 1)) := by
    have he0 : e ≠ 0 := by rcases he with rfl | rfl <;> norm_num
    apply img_same
    · rfl
    · rfl
    · funext i j
      change e * (dotColumn c eg sh (c.n - 1)).px i j / imgSum ((dotColumn c eg sh (c.n - 1)).map (e * ·)) =
        (dotColumn c eg sh (c.n - 1)).px i j / imgSum (dotColumn c eg sh (c.n - 1))
      rw [imgSum_scale, mul_div_mul_left _ _ he0]
  rw [hu]

/-- Two nearly equal stars, exchanged: all the hypotheses hold. -/
example : ∃ eg eg', Decomposed (nearPair 1) eg ∧ Decomposed ((nearPair 1).reorder (Equiv.swap 0 1)) eg' ∧
    klCut (1 / 10) eg.vals = 1 := by
  obtain ⟨eg, h⟩ := nearPair_decomposed 1
  refine ⟨eg, _, h, decomposed_reorder _ _ ?_ eg (le_refl 2) h, (kl_misses_mean 1 one_ne_zero eg h _ (by norm_num)).1⟩
  intro s
  change Equiv.swap 0 1 s < 2 ↔ s < 2
  rcases s with _ | _ | s
  · simp
  · simp
  · rw [Equiv.swap_apply_of_ne_of_ne (by omega) (by omega)]

/-! ## Where it depends on them -/

/-- Two stamps of four pixels whose deviations from flatness are orthogonal and equally large. -/
noncomputable def equalPair : Columns ℝ :=
  ⟨4, 2, fun p s => if s = 0 then (if p % 2 = 0 then 1 / 2 else 0) else if p < 2 then 1 / 2 else 0⟩

theorem equalPair_cov : covOf equalPair = .mat 2 (npCov 4 equalPair.m) ∧
    npCov 4 equalPair.m 0 0 = 1 / 12 ∧ npCov 4 equalPair.m 0 1 = 0 ∧
    npCov 4 equalPair.m 1 0 = 0 ∧ npCov 4 equalPair.m 1 1 = 1 / 12 := by
  refine ⟨?_, ?_, ?_, ?_, ?_⟩
  · unfold covOf
    rw [if_pos (show equalPair.n ≤ 250 by simp [equalPair]), if_neg (show ¬ equalPair.n = 1 by simp [equalPair])]
    rfl
  all_goals
    simp [npCov, colMean, equalPair, Finset.sum_range_succ]
    norm_num

/-- The unit vectors, in either order. -/
noncomputable def unitEig (flip : Bool) : Eig ℝ :=
  ⟨[1 / 12, 1 / 12], fun s c => if (s = c) ≠ (flip = true) then 1 else 0⟩

theorem equalPair_decomposed (flip : Bool) : Decomposed equalPair (unitEig flip) := by
  obtain ⟨hc, h00, h01, h10, h11⟩ := equalPair_cov
  refine ⟨?_, ⟨_, hc, rfl, ?_⟩, ?_⟩
  · intro c hc d hd
    have hc : c < 2 := hc
    have hd : d < 2 := hd
    change ∑ s ∈ range 2, _ = _
    simp only [Finset.sum_range_succ, Finset.sum_range_zero, unitEig]
    cases flip <;> interval_cases c <;> interval_cases d <;> simp
  · intro c hc d hd
    have hc : c < 2 := hc
    have hd : d < 2 := hd
    change ∑ s ∈ range 2, _ = _
    simp only [Finset.sum_range_succ, Finset.sum_range_zero, unitEig]
    cases flip <;> interval_cases c <;> interval_cases d <;> simp [h00, h01, h10, h11]
  · intro i j hij hj
    have hj : j < 2 := hj
    interval_cases j <;> interval_cases i <;> simp [unitEig]

/-- C140: without a gap at the cut the PSF depends on which eigenvectors the library happens to return: for two
equally strong stars and `inf_loss = 1/2` one element is kept, and it is the stamp of the one star or of the other. -/
theorem kl_tie : klCut (1 / 2) (unitEig false).vals = 1 ∧ klCut (1 / 2) (unitEig true).vals = 1 ∧
    (dotColumn equalPair (unitEig false) (2, 2) 1).px 1 0 = 0 ∧ (dotColumn equalPair (unitEig true) (2, 2) 1).px 1 0 = 1 / 2 := by
  have hcut : klCut (1 / 2 : ℝ) [1 / 12, 1 / 12] = 1 := by
    have hne : ∃ v ∈ ([1 / 12, 1 / 12] : List ℝ), v ≠ 0 := ⟨1 / 12, by simp, by norm_num⟩
    have hc := kl_cut_least (1 / 2 : ℝ) [1 / 12, 1 / 12] hne (by norm_num)
    have hr := kl_cut_range (1 / 2 : ℝ) [1 / 12, 1 / 12] hne (by norm_num)
    refine le_antisymm (hc.2 ⟨le_refl 1, ?_⟩) hr.1
    unfold keptShare
    have : |(1 / 12 : ℝ)| = 1 / 12 := abs_of_pos (by norm_num)
    simp only [List.reverse_cons, List.reverse_nil, List.nil_append, List.cons_append, List.take_succ_cons,
      List.take_zero, List.map_cons, List.map_nil, List.sum_cons, List.sum_nil, this]
    norm_num
  refine ⟨hcut, hcut, ?_, ?_⟩
  · change ∑ s ∈ range 2, equalPair.m 2 s * (unitEig false).vec s 1 = 0
    simp [equalPair, unitEig]
  · change ∑ s ∈ range 2, equalPair.m 2 s * (unitEig true).vec s 1 = 1 / 2
    simp [Finset.sum_range_succ, equalPair, unitEig]

end PI
