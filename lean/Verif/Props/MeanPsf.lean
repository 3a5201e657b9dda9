import Verif.Props.KLOrder
import Verif.Props.PsfReturns

/-!
# Property C192: a PSF of one element is a weighted mean of the stars, if the stars are alike
-/

namespace PI

open Finset

section core
variable {P n : ℕ} {x vec : ℕ → ℕ → ℝ} {lam : ℕ → ℝ} (h : Spectral P n x vec lam)
include h

theorem Spectral.parseval (u : ℕ → ℝ) : ∑ c ∈ range n, dotN n (fun s => vec s c) u ^ 2 = dotN n u u := by
  have h1 : dotN n u u = ∑ s ∈ range n, ∑ d ∈ range n, (∑ t ∈ range n, u t * vec t d) * vec s d * u s := by
    refine Finset.sum_congr rfl fun s hs => ?_
    rw [← Finset.sum_mul, ← Spectral.expand h u s (Finset.mem_range.1 hs)]
  rw [h1, Finset.sum_comm]
  refine Finset.sum_congr rfl fun d _ => ?_
  have h2 : ∑ t ∈ range n, u t * vec t d = dotN n (fun s => vec s d) u :=
    Finset.sum_congr rfl fun t _ => mul_comm _ _
  rw [h2, sq]
  unfold dotN
  rw [Finset.mul_sum]
  exact Finset.sum_congr rfl fun s _ => by ring

/-- No combination of the pictures has more power than that of the last eigenvector. -/
theorem Spectral.top (hn : 0 < n) (u : ℕ → ℝ) :
    ∑ i ∈ range n, ∑ j ∈ range n, u i * PI.inner P x i j * u j ≤ lam (n - 1) * dotN n u u := by
  have h1 : ∑ i ∈ range n, ∑ j ∈ range n, u i * PI.inner P x i j * u j = ∑ p ∈ range P, dotN n (x p) u ^ 2 := by
    rw [quad_form]
    refine Finset.sum_congr rfl fun p _ => ?_
    unfold dotN
    congr 1
    exact Finset.sum_congr rfl fun s _ => mul_comm _ _
  rw [h1, h.along, ← h.parseval u, Finset.mul_sum]
  refine Finset.sum_le_sum fun c hc => ?_
  have hc := Finset.mem_range.1 hc
  exact mul_le_mul_of_nonneg_right (h.mono c (n - 1) (by omega) (by omega)) (sq_nonneg _)

/-- If all scalar products are positive, the components of the last eigenvector have one sign. -/
theorem Spectral.perron (hn : 0 < n) (hG : ∀ i < n, ∀ j < n, 0 < PI.inner P x i j) :
    0 < lam (n - 1) ∧ ∀ i < n, ∀ j < n, 0 < vec i (n - 1) * vec j (n - 1) := by
  obtain ⟨v, hv⟩ : ∃ v : ℕ → ℝ, v = fun s => vec s (n - 1) := ⟨_, rfl⟩
  have hvs : ∀ s, vec s (n - 1) = v s := fun s => by rw [hv]
  have hnorm : ∑ s ∈ range n, v s * v s = 1 := by
    have := h.ortho (n - 1) (by omega) (n - 1) (by omega)
    rw [if_pos rfl] at this
    rw [hv]; exact this
  have heig : ∀ i < n, ∑ j ∈ range n, PI.inner P x i j * v j = lam (n - 1) * v i := by
    intro i hi
    rw [hv]
    exact h.eig (n - 1) (by omega) i hi
  have hq : ∑ i ∈ range n, ∑ j ∈ range n, v i * PI.inner P x i j * v j = lam (n - 1) := by
    have : ∀ i ∈ range n, ∑ j ∈ range n, v i * PI.inner P x i j * v j = lam (n - 1) * (v i * v i) := by
      intro i hi
      rw [show lam (n - 1) * (v i * v i) = v i * (lam (n - 1) * v i) by ring, ← heig i (Finset.mem_range.1 hi),
        Finset.mul_sum]
      exact Finset.sum_congr rfl fun j _ => by ring
    rw [Finset.sum_congr rfl this, ← Finset.mul_sum, hnorm, mul_one]
  have ht := h.top hn fun s => |v s|
  have hd : dotN n (fun s => |v s|) (fun s => |v s|) = 1 := by
    rw [← hnorm]
    exact Finset.sum_congr rfl fun s _ => abs_mul_abs_self _
  rw [hd, mul_one] at ht
  have hle : ∀ i ∈ range n, ∀ j ∈ range n, v i * PI.inner P x i j * v j ≤ |v i| * PI.inner P x i j * |v j| := by
    intro i hi j hj
    have hg := hG i (Finset.mem_range.1 hi) j (Finset.mem_range.1 hj)
    have : v i * v j ≤ |v i| * |v j| := by rw [← abs_mul]; exact le_abs_self _
    nlinarith
  have hsame : ∀ i < n, ∀ j < n, 0 ≤ v i * v j := by
    have e1 : ∑ i ∈ range n, ∑ j ∈ range n, v i * PI.inner P x i j * v j =
        ∑ i ∈ range n, ∑ j ∈ range n, |v i| * PI.inner P x i j * |v j| :=
      le_antisymm (Finset.sum_le_sum fun i hi => Finset.sum_le_sum fun j hj => hle i hi j hj) (by rw [hq]; exact ht)
    intro i hi j hj
    have e2 := (Finset.sum_eq_sum_iff_of_le fun i hi => Finset.sum_le_sum fun j hj => hle i hi j hj).1 e1 i
      (Finset.mem_range.2 hi)
    have e3 := (Finset.sum_eq_sum_iff_of_le fun j hj => hle i (Finset.mem_range.2 hi) j hj).1 e2 j
      (Finset.mem_range.2 hj)
    have hg := hG i hi j hj
    have : v i * v j = |v i| * |v j| := by
      apply mul_left_cancel₀ hg.ne'
      linarith
    rw [this]
    positivity
  obtain ⟨k, hk, hk0⟩ : ∃ k < n, v k ≠ 0 := by
    by_contra hc
    push Not at hc
    have : ∑ s ∈ range n, v s * v s = 0 :=
      Finset.sum_eq_zero fun s hs => by rw [hc s (Finset.mem_range.1 hs), mul_zero]
    rw [hnorm] at this
    exact one_ne_zero this
  have hkey : ∀ i < n, ∀ k < n, v k ≠ 0 → 0 < lam (n - 1) * (v i * v k) := by
    intro i hi k hk hk0
    have e : lam (n - 1) * (v i * v k) = ∑ j ∈ range n, PI.inner P x i j * (v j * v k) := by
      rw [← mul_assoc, ← heig i hi, Finset.sum_mul]
      exact Finset.sum_congr rfl fun j _ => by ring
    rw [e]
    refine Finset.sum_pos' (fun j hj => mul_nonneg (hG i hi j (Finset.mem_range.1 hj)).le
      (hsame j (Finset.mem_range.1 hj) k hk)) ⟨k, Finset.mem_range.2 hk, mul_pos (hG i hi k hk) (mul_self_pos.2 hk0)⟩
  have hlam : 0 < lam (n - 1) := by
    have := hkey k hk k hk hk0
    exact pos_of_mul_pos_left this (mul_self_nonneg _)
  have hall : ∀ i < n, v i ≠ 0 := by
    intro i hi h0
    have := hkey i hi k hk hk0
    rw [h0] at this
    simp at this
  refine ⟨hlam, fun i hi j hj => ?_⟩
  rw [hvs, hvs]
  exact pos_of_mul_pos_right (hkey i hi j hj (hall j hj)) hlam.le

end core

/-- `cov_matrix` and the scalar products of the treated stamps. -/
theorem treated_inner (c : Columns ℝ) (hn : 2 ≤ c.n) (hP : 2 ≤ c.P) (f : ℕ → ℕ → ℝ) (hf : covOf c = .mat c.n f) (i j : ℕ)
    (hi : i < c.n) (hj : j < c.n) : PI.inner c.P (treated c) i j = covFactor c * f i j := by
  have hP0 : (c.P : ℝ) - 1 ≠ 0 := by
    have : (2 : ℝ) ≤ c.P := by exact_mod_cast hP
    intro hc; linarith
  by_cases h250 : c.n ≤ 250
  · have ht : treated c = fun p s => c.m p s - colMean c.P c.m s := by
      funext p s; exact if_pos h250
    have hc : covFactor c = (c.P : ℝ) - 1 := if_pos h250
    unfold covOf at hf
    rw [if_pos h250, if_neg (by omega)] at hf
    injection hf with _ hf
    rw [ht, hc, ← hf, npCov_eq_inner, mul_div_cancel₀ _ hP0]
  · have ht : treated c = c.m := by
      funext p s; exact if_neg h250
    have hc : covFactor c = 1 := if_neg h250
    obtain ⟨g, hg, hgg⟩ := cov_many c (by omega)
    rw [hf] at hg
    injection hg with _ hg
    rw [ht, hc, hg, hgg i hi j hj, one_mul]
    rfl

/-- Every two stars (a star and itself included) have positive covariance. -/
def AllAlike (c : Columns ℝ) : Prop := ∃ f, covOf c = .mat c.n f ∧ ∀ i < c.n, ∀ j < c.n, 0 < f i j

/-- The share of star `s` in the first element: its component of the last eigenvector over the sum of all. -/
noncomputable def starWeight (c : Columns ℝ) (eg : Eig ℝ) (s : ℕ) : ℝ :=
  eg.vec s (c.n - 1) / ∑ t ∈ range c.n, eg.vec t (c.n - 1)

/-- C192: the shares are positive and add up to one; a star whose covariances with all stars are at most `r` times those
of another has at most `r` times its share. -/
theorem star_weights (c : Columns ℝ) (eg : Eig ℝ) (hn : 2 ≤ c.n) (hP : 2 ≤ c.P) (h : Decomposed c eg) (ha : AllAlike c) :
    (∀ s < c.n, 0 < starWeight c eg s) ∧ ∑ s ∈ range c.n, starWeight c eg s = 1 ∧
    ∀ i < c.n, ∀ j < c.n, ∀ r : ℝ, (∀ f, covOf c = .mat c.n f → ∀ k < c.n, f i k ≤ r * f j k) →
      starWeight c eg i ≤ r * starWeight c eg j := by
  obtain ⟨f, hf, hpos⟩ := ha
  have hs := spectral_of c eg hn hP h
  have hcf := covFactor_pos c hP
  have hG : ∀ i < c.n, ∀ j < c.n, 0 < PI.inner c.P (treated c) i j := by
    intro i hi j hj
    rw [treated_inner c hn hP f hf i j hi hj]
    exact mul_pos hcf (hpos i hi j hj)
  obtain ⟨hlam, hsign⟩ := hs.perron (by omega) hG
  set v : ℕ → ℝ := fun s => eg.vec s (c.n - 1) with hv
  set S : ℝ := ∑ t ∈ range c.n, v t with hS
  have hvS : ∀ s < c.n, 0 < v s * S := by
    intro s hs
    rw [hS, Finset.mul_sum]
    exact Finset.sum_pos (fun t ht => hsign s hs t (Finset.mem_range.1 ht)) ⟨0, Finset.mem_range.2 (by omega)⟩
  have hS0 : S ≠ 0 := by
    intro h0
    have := hvS 0 (by omega)
    rw [h0, mul_zero] at this
    exact lt_irrefl _ this
  have hw : ∀ s < c.n, 0 < starWeight c eg s := by
    intro s hs
    have : starWeight c eg s = v s * S / (S * S) := by
      unfold starWeight
      change v s / S = _
      rw [mul_div_mul_right _ _ hS0]
    rw [this]
    exact div_pos (hvS s hs) (mul_self_pos.2 hS0)
  refine ⟨hw, ?_, ?_⟩
  · unfold starWeight
    rw [← Finset.sum_div]
    exact div_self hS0
  · intro i hi j hj r hr
    obtain ⟨g, hg, hge⟩ := h.eig
    rw [hf] at hg
    injection hg with _ hg
    subst hg
    set μ := eg.vals.getD (c.n - 1) 0 with hμ
    have hμ0 : 0 < μ := pos_of_mul_pos_right hlam hcf.le
    have heig : ∀ i < c.n, μ * starWeight c eg i = ∑ k ∈ range c.n, f i k * starWeight c eg k := by
      intro i hi
      have := hge.2 (c.n - 1) (by omega) i hi
      unfold starWeight
      rw [← mul_div_assoc, ← this, Finset.sum_div]
      exact Finset.sum_congr rfl fun k _ => by rw [mul_div_assoc]
    have : μ * starWeight c eg i ≤ μ * (r * starWeight c eg j) := by
      rw [show μ * (r * starWeight c eg j) = r * (μ * starWeight c eg j) by ring, heig i hi, heig j hj, Finset.mul_sum]
      refine Finset.sum_le_sum fun k hk => ?_
      have hk := Finset.mem_range.1 hk
      have := hr f hf k hk
      rw [← mul_assoc]
      exact mul_le_mul_of_nonneg_right this (hw k hk).le
    exact le_of_mul_le_mul_left this hμ0

/-- The weighted mean of the stamps. -/
noncomputable def meanStar (c : Columns ℝ) (eg : Eig ℝ) (sh : ℕ × ℕ) (i j : ℕ) : ℝ :=
  ∑ s ∈ range c.n, starWeight c eg s * c.m (i * sh.2 + j) s

theorem unit_dotColumn (c : Columns ℝ) (eg : Eig ℝ) (sh : ℕ × ℕ) (hsh : sh.1 * sh.2 = c.P)
    (hu : ∀ s < c.n, ∑ p ∈ range c.P, c.m p s = 1) (i j : ℕ) :
    (unitImg (dotColumn c eg sh (c.n - 1))).px i j = meanStar c eg sh i j := by
  change (∑ s ∈ range c.n, c.m (i * sh.2 + j) s * eg.vec s (c.n - 1)) / imgSum (dotColumn c eg sh (c.n - 1)) = _
  rw [basis_sum c eg sh hsh hu, Finset.sum_div]
  refine Finset.sum_congr rfl fun s _ => ?_
  unfold starWeight
  ring

/-- C192: up to 250 stars, one element kept: the PSF is the weighted mean of the stamps. -/
theorem one_element_mean (c : Columns ℝ) (eg : Eig ℝ) (hn : 2 ≤ c.n) (sh : ℕ × ℕ) (hsh : sh.1 * sh.2 = c.P)
    (hu : ∀ s < c.n, ∑ p ∈ range c.P, c.m p s = 1) (loss : ℝ) (h1 : klCut loss eg.vals = 1) :
    buildBasis c true none eg sh loss = .ok [⟨sh.1, sh.2, meanStar c eg sh⟩] := by
  unfold buildBasis rawBasis
  have hlc : lastCols c.n 1 = [c.n - 1] := by
    unfold lastCols
    rw [Nat.min_eq_left (by omega)]
    rfl
  rw [h1, hlc, if_pos rfl, if_pos (Or.inr hsh)]
  change Except.ok [unitImg (dotColumn c eg sh (c.n - 1))] = _
  congr 2
  apply img_same
  · rfl
  · rfl
  · funext i j
    exact unit_dotColumn c eg sh hsh hu i j

/-- C192: so its pixels lie between the least and the largest value the stars have there. -/
theorem mean_star_between (c : Columns ℝ) (eg : Eig ℝ) (hn : 2 ≤ c.n) (hP : 2 ≤ c.P) (h : Decomposed c eg)
    (ha : AllAlike c) (sh : ℕ × ℕ) (i j : ℕ) (lo hi : ℝ)
    (hb : ∀ s < c.n, lo ≤ c.m (i * sh.2 + j) s ∧ c.m (i * sh.2 + j) s ≤ hi) :
    lo ≤ meanStar c eg sh i j ∧ meanStar c eg sh i j ≤ hi := by
  obtain ⟨hw, hs, _⟩ := star_weights c eg hn hP h ha
  have e : ∀ z : ℝ, z = ∑ s ∈ range c.n, starWeight c eg s * z := fun z => by rw [← Finset.sum_mul, hs, one_mul]
  constructor
  · rw [e lo]
    exact Finset.sum_le_sum fun s hs => mul_le_mul_of_nonneg_left (hb s (Finset.mem_range.1 hs)).1
      (hw s (Finset.mem_range.1 hs)).le
  · rw [e hi]
    exact Finset.sum_le_sum fun s hs => mul_le_mul_of_nonneg_left (hb s (Finset.mem_range.1 hs)).2
      (hw s (Finset.mem_range.1 hs)).le

theorem alike_nonzero (c : Columns ℝ) (eg : Eig ℝ) (hn : 2 ≤ c.n) (hP : 2 ≤ c.P) (h : Decomposed c eg) (ha : AllAlike c) :
    ∃ v ∈ eg.vals, v ≠ 0 := by
  obtain ⟨f, hf, hpos⟩ := ha
  have hs := spectral_of c eg hn hP h
  have hcf := covFactor_pos c hP
  obtain ⟨hlam, -⟩ := hs.perron (by omega) fun i hi j hj => by
    rw [treated_inner c hn hP f hf i j hi hj]
    exact mul_pos hcf (hpos i hi j hj)
  obtain ⟨g, -, hlen, -⟩ := h.eig
  have hpos : 0 < eg.vals.getD (c.n - 1) 0 := pos_of_mul_pos_right hlam hcf.le
  have hl : c.n - 1 < eg.vals.length := by omega
  rw [List.getD_eq_getElem?_getD, List.getElem?_eq_getElem hl] at hpos
  exact ⟨_, List.getElem_mem hl, hpos.ne'⟩

/-- C192: one element is kept exactly if some one picture, scaled for each star, leaves no more than the share `inf_loss`
of the treated stamps. -/
theorem one_element_iff (c : Columns ℝ) (eg : Eig ℝ) (hn : 2 ≤ c.n) (hP : 2 ≤ c.P) (h : Decomposed c eg)
    (hv : ∃ v ∈ eg.vals, v ≠ 0) (loss : ℝ) (h0 : 0 ≤ loss) :
    klCut loss eg.vals = 1 ↔ ∃ b a, approxErr c.P c.n 1 (treated c) b a ≤
      loss * ∑ p ∈ range c.P, ∑ s ∈ range c.n, treated c p s ^ 2 := by
  obtain ⟨h1, h2⟩ := inf_loss_promise c eg hn hP h loss h0 hv
  constructor
  · intro hk
    rw [hk] at h1
    exact ⟨_, _, h1⟩
  · rintro ⟨b, a, hba⟩
    by_contra hne
    have := (kl_cut_range loss eg.vals hv h0).1
    exact absurd (h2 1 le_rfl (by omega) b a) (not_lt.2 hba)

/-- C192: stars that all look the same, at most 250 of them: whatever the loss, the PSF is their picture. -/
theorem same_stars (c : Columns ℝ) (eg : Eig ℝ) (hn : 2 ≤ c.n) (hn' : c.n ≤ 250) (hP : 2 ≤ c.P) (h : Decomposed c eg)
    (q : ℕ → ℝ) (hq : ∀ p < c.P, ∀ s < c.n, c.m p s = q p) (hu : ∑ p ∈ range c.P, q p = 1)
    (hflat : ∃ p < c.P, q p ≠ 1 / c.P) (sh : ℕ × ℕ) (hsh : sh.1 * sh.2 = c.P) (loss : ℝ) (h0 : 0 ≤ loss) :
    ∃ b : Img ℝ, buildBasis c true none eg sh loss = .ok [b] ∧ b.h = sh.1 ∧ b.w = sh.2 ∧
      ∀ i < sh.1, ∀ j < sh.2, b.px i j = q (i * sh.2 + j) := by
  have hmean : ∀ s < c.n, colMean c.P c.m s = 1 / c.P := by
    intro s hs
    unfold colMean
    rw [Finset.sum_congr rfl fun p hp => hq p (Finset.mem_range.1 hp) s hs, hu]
  have hP1 : (0 : ℝ) < (c.P : ℝ) - 1 := by
    have : (2 : ℝ) ≤ c.P := by exact_mod_cast hP
    linarith
  have ha : AllAlike c := by
    refine ⟨npCov c.P c.m, ?_, ?_⟩
    · unfold covOf
      rw [if_pos hn', if_neg (by omega)]
    · intro i hi j hj
      unfold npCov
      refine div_pos ?_ hP1
      rw [hmean i hi, hmean j hj]
      have e : ∀ p ∈ range c.P, (c.m p i - 1 / c.P) * (c.m p j - 1 / c.P) = (q p - 1 / c.P) * (q p - 1 / c.P) := by
        intro p hp
        rw [hq p (Finset.mem_range.1 hp) i hi, hq p (Finset.mem_range.1 hp) j hj]
      rw [Finset.sum_congr rfl e]
      obtain ⟨p, hp, hpf⟩ := hflat
      exact Finset.sum_pos' (fun _ _ => mul_self_nonneg _) ⟨p, Finset.mem_range.2 hp, mul_self_pos.2 (sub_ne_zero.2 hpf)⟩
  have hcut : klCut loss eg.vals = 1 := by
    rw [one_element_iff c eg hn hP h (alike_nonzero c eg hn hP h ha) loss h0]
    refine ⟨fun _ p => q p - 1 / c.P, fun _ _ => 1, ?_⟩
    have : approxErr c.P c.n 1 (treated c) (fun _ p => q p - 1 / c.P) (fun _ _ => 1) = 0 := by
      unfold approxErr
      refine Finset.sum_eq_zero fun p hp => Finset.sum_eq_zero fun s hs => ?_
      have : treated c p s = q p - 1 / c.P := by
        unfold treated
        rw [if_pos hn', hq p (Finset.mem_range.1 hp) s (Finset.mem_range.1 hs), hmean s (Finset.mem_range.1 hs)]
      rw [this]
      simp
    rw [this]
    exact mul_nonneg h0 (Finset.sum_nonneg fun _ _ => Finset.sum_nonneg fun _ _ => sq_nonneg _)
  have hu' : ∀ s < c.n, ∑ p ∈ range c.P, c.m p s = 1 := by
    intro s hs
    rw [Finset.sum_congr rfl fun p hp => hq p (Finset.mem_range.1 hp) s hs, hu]
  refine ⟨_, one_element_mean c eg hn sh hsh hu' loss hcut, rfl, rfl, fun i hi j hj => ?_⟩
  change meanStar c eg sh i j = _
  have hlt : i * sh.2 + j < c.P := by
    rw [← hsh]
    calc i * sh.2 + j < i * sh.2 + sh.2 := by omega
      _ = (i + 1) * sh.2 := by ring
      _ ≤ sh.1 * sh.2 := Nat.mul_le_mul_right _ hi
  unfold meanStar
  rw [Finset.sum_congr rfl fun s hs => by rw [hq _ hlt s (Finset.mem_range.1 hs)], ← Finset.sum_mul,
    (star_weights c eg hn hP h ha).2.1, one_mul]

/-- C192: more than 250 stars, one element: the weighted mean less its least pixel, divided by its sum. -/
theorem many_element_mean (c : Columns ℝ) (eg : Eig ℝ) (hn : 250 < c.n) (hP : 2 ≤ c.P) (h : Decomposed c eg)
    (ha : AllAlike c) (sh : ℕ × ℕ) (hsh : sh.1 * sh.2 = c.P) (hu : ∀ s < c.n, ∑ p ∈ range c.P, c.m p s = 1) (loss : ℝ)
    (h1 : klCut loss eg.vals = 1) (m : ℝ) (hm : LeastPixel sh.1 sh.2 (meanStar c eg sh) m)
    (hne : (sh.1 * sh.2 : ℝ) * |m| ≠ 1) :
    buildBasis c false none eg sh loss =
      .ok [⟨sh.1, sh.2, fun i j => (meanStar c eg sh i j - |m|) / (1 - sh.1 * sh.2 * |m|)⟩] := by
  have hsum : ∑ i ∈ range sh.1, ∑ j ∈ range sh.2, combined c eg sh.2 (c.n - 1) i j = ∑ s ∈ range c.n, eg.vec s (c.n - 1) :=
    basis_sum c eg sh hsh hu (c.n - 1)
  have hS : ∑ s ∈ range c.n, eg.vec s (c.n - 1) ≠ 0 := by
    intro h0
    have := (star_weights c eg (by omega) hP h ha).1 0 (by omega)
    unfold starWeight at this
    rw [h0, div_zero] at this
    exact lt_irrefl _ this
  have hmean : ∀ i j, combined c eg sh.2 (c.n - 1) i j / ∑ s ∈ range c.n, eg.vec s (c.n - 1) = meanStar c eg sh i j := by
    intro i j
    unfold combined meanStar starWeight
    rw [Finset.sum_div]
    exact Finset.sum_congr rfl fun s _ => by ring
  have hm' : LeastPixel sh.1 sh.2
      (fun i j => combined c eg sh.2 (c.n - 1) i j / ∑ s ∈ range c.n, eg.vec s (c.n - 1)) m := by
    simp only [hmean]
    exact hm
  have hpx := many_element c eg sh.1 sh.2 (c.n - 1) _ m hsum hS hm'
  have hone := many_element_sum c eg sh.1 sh.2 (c.n - 1) _ m hsum hS hm' hne
  unfold buildBasis rawBasis
  have hlc : lastCols c.n 1 = [c.n - 1] := by
    unfold lastCols
    rw [Nat.min_eq_left (by omega)]
    rfl
  rw [h1, hlc, if_neg (by simp), if_neg (by omega)]
  change Except.ok [unitImg (pairElem c eg sh (c.n - 1))] = _
  congr 2
  apply img_same
  · rfl
  · rfl
  · funext i j
    change (pairElem c eg sh (c.n - 1)).px i j / imgSum (pairElem c eg sh (c.n - 1)) = _
    have : imgSum (pairElem c eg sh (c.n - 1)) = 1 := hone
    rw [this, div_one]
    change (pairElem c eg (sh.1, sh.2) (c.n - 1)).px i j = _
    rw [hpx, hmean]

/-- C192: the first `get_variable_psf` of an image, 2 to 250 of whose stars were cut out, all of them alike: whatever the
loss asked for, it returns their stamp, and no coefficient. -/
theorem same_stars_psf {F N S R : Type} (e : KEnv ℝ F N S R) (s : PSFState ℝ F N S R) (l : Option ℝ)
    (shape : Option (ℕ × ℕ)) (n : ℕ) (u : SIState) (c : Columns ℝ) (g : Eig ℝ)
    (hM : Measurable e s { s.toSIState with reqShape := shape.or s.reqShape } (l.getD s.infLoss) n u c g)
    (hg : Decomposed c g) (hn : 2 ≤ n) (hn' : n ≤ 250) (hsm : s.smooth = false) (a : Img ℚ)
    (ha : ∀ k < n, (u.db.getD [])[k]? = some (.fin a))
    (hu : ∑ i ∈ range u.stampShape.1, ∑ j ∈ range u.stampShape.2, a.px i j = 1)
    (hflat : ∃ i < u.stampShape.1, ∃ j < u.stampShape.2, a.px i j ≠ 1 / (u.stampShape.1 * u.stampShape.2)) :
    ∃ b : Img ℝ, (getVariablePsf e l shape s).1 = .ok ([none], [b]) ∧ b.h = u.stampShape.1 ∧ b.w = u.stampShape.2 ∧
      ∀ i < u.stampShape.1, ∀ j < u.stampShape.2, b.px i j = ((a.px i j : ℚ) : ℝ) := by
  obtain ⟨hcP, hcn⟩ := db_columns_size _ _ _ _ hM.columns
  obtain ⟨b, hb, hbl, hret, -⟩ := first_psf e s l shape n u c g hM
  have hcm : ∀ p, ∀ k < c.n, c.m p k = ((a.px (p / u.stampShape.2) (p % u.stampShape.2) : ℚ) : ℝ) := by
    intro p k hk
    have hd := hM.columns
    unfold dbColumns at hd
    split at hd
    · simp only [Option.some.injEq] at hd
      rw [← hd]
      simp only
      rw [ha k (by omega)]
      rfl
    · cases hd
  obtain ⟨i0, hi0, j0, hj0, hf0⟩ := hflat
  have hdiv : ∀ i j, j < u.stampShape.2 → (i * u.stampShape.2 + j) / u.stampShape.2 = i ∧
      (i * u.stampShape.2 + j) % u.stampShape.2 = j := by
    intro i j hj
    constructor
    · rw [Nat.add_comm, Nat.add_mul_div_right _ _ (by omega), Nat.div_eq_of_lt hj, Nat.zero_add]
    · rw [Nat.add_comm, Nat.add_mul_mod_self_right, Nat.mod_eq_of_lt hj]
  have hlt : ∀ i < u.stampShape.1, ∀ j < u.stampShape.2, i * u.stampShape.2 + j < c.P := by
    intro i hi j hj
    rw [hcP]
    calc i * u.stampShape.2 + j < i * u.stampShape.2 + u.stampShape.2 := by omega
      _ = (i + 1) * u.stampShape.2 := by ring
      _ ≤ u.stampShape.1 * u.stampShape.2 := Nat.mul_le_mul_right _ hi
  have hsumR : ∑ p ∈ range c.P, ((a.px (p / u.stampShape.2) (p % u.stampShape.2) : ℚ) : ℝ) = 1 := by
    rw [hcP, ← sum_grid (fun p => ((a.px (p / u.stampShape.2) (p % u.stampShape.2) : ℚ) : ℝ))]
    rw [← Rat.cast_one, ← hu]
    push_cast
    refine Finset.sum_congr rfl fun i _ => Finset.sum_congr rfl fun j hj => ?_
    rw [(hdiv i j (Finset.mem_range.1 hj)).1, (hdiv i j (Finset.mem_range.1 hj)).2]
  have hP2 : 2 ≤ c.P := by
    by_contra hlt2
    have h1 := hlt i0 hi0 j0 hj0
    have hP1 : c.P = 1 := by omega
    apply hf0
    have hw : u.stampShape.1 * u.stampShape.2 = 1 := by rw [← hcP, hP1]
    have e1 := Nat.eq_one_of_mul_eq_one_right hw
    have e2 := Nat.eq_one_of_mul_eq_one_left hw
    rw [e1, e2] at hu ⊢
    have ei : i0 = 0 := by omega
    have ej : j0 = 0 := by omega
    subst ei ej
    simpa using hu
  obtain ⟨b', hb', h1, h2, h3⟩ := same_stars c g (by omega) (by omega) hP2 hg
    (fun p => ((a.px (p / u.stampShape.2) (p % u.stampShape.2) : ℚ) : ℝ)) (fun p _ k hk => hcm p k hk) hsumR
    ⟨i0 * u.stampShape.2 + j0, hlt i0 hi0 j0 hj0, by
      rw [(hdiv i0 j0 hj0).1, (hdiv i0 j0 hj0).2, hcP]
      intro hc
      apply hf0
      have : ((a.px i0 j0 : ℚ) : ℝ) = ((1 / (u.stampShape.1 * u.stampShape.2) : ℚ) : ℝ) := by
        rw [hc]; push_cast; rfl
      exact_mod_cast this⟩ u.stampShape hcP.symm (l.getD s.infLoss) hM.loss
  rw [hsm, decide_eq_true hn'] at hb
  have hbb : buildBasis c true none g u.stampShape (l.getD s.infLoss) = .ok b := hb
  rw [hb'] at hbb
  injection hbb with hbb
  subst hbb
  refine ⟨b', hret rfl, h1, h2, fun i hi j hj => ?_⟩
  rw [h3 i hi j hj, (hdiv i j hj).1, (hdiv i j hj).2]

/-- Two stars of three pixels that agree in the first and differ in the others. -/
noncomputable def alikePair : Columns ℝ :=
  ⟨3, 2, fun p s => if p = 0 then 1 / 2 else if p = s + 1 then 1 / 3 else 1 / 6⟩

noncomputable def alikeEig : Eig ℝ :=
  ⟨[1 / 72, 3 / 72], fun s c => if s = 1 ∧ c = 0 then -Real.sqrt (1 / 2) else Real.sqrt (1 / 2)⟩

theorem alikePair_cov : covOf alikePair = .mat 2 (npCov 3 alikePair.m) ∧
    npCov 3 alikePair.m 0 0 = 1 / 36 ∧ npCov 3 alikePair.m 0 1 = 1 / 72 ∧
    npCov 3 alikePair.m 1 0 = 1 / 72 ∧ npCov 3 alikePair.m 1 1 = 1 / 36 := by
  refine ⟨?_, ?_, ?_, ?_, ?_⟩
  · unfold covOf
    rw [if_pos (by decide), if_neg (by decide)]
    rfl
  all_goals simp only [npCov, colMean, alikePair, Finset.sum_range_succ, Finset.sum_range_zero]; norm_num

/-- They meet the hypotheses of `star_weights`, `one_element_mean` and `mean_star_between`, and their PSF is their mean. -/
theorem alikePair_psf : Decomposed alikePair alikeEig ∧ AllAlike alikePair ∧ klCut (1 / 4) alikeEig.vals = 1 ∧
    (∀ s < 2, ∑ p ∈ range 3, alikePair.m p s = 1) ∧
    starWeight alikePair alikeEig 0 = 1 / 2 ∧ starWeight alikePair alikeEig 1 = 1 / 2 := by
  obtain ⟨hc, h00, h01, h10, h11⟩ := alikePair_cov
  have h2 : Real.sqrt (1 / 2) * Real.sqrt (1 / 2) = 1 / 2 := Real.mul_self_sqrt (by norm_num)
  have hpos : 0 < Real.sqrt (1 / 2) := Real.sqrt_pos.2 (by norm_num)
  refine ⟨⟨?_, ⟨_, hc, rfl, ?_⟩, ?_⟩, ⟨_, hc, ?_⟩, ?_, ?_, ?_, ?_⟩
  · intro c hc d hd
    have hc : c < 2 := hc
    have hd : d < 2 := hd
    change ∑ s ∈ range 2, alikeEig.vec s c * alikeEig.vec s d = _
    simp only [Finset.sum_range_succ, Finset.sum_range_zero, alikeEig]
    interval_cases c <;> interval_cases d <;> norm_num <;> norm_num at h2 <;> linarith
  · intro c hc d hd
    have hc : c < 2 := hc
    have hd : d < 2 := hd
    change ∑ s ∈ range 2, _ = _
    simp only [Finset.sum_range_succ, Finset.sum_range_zero, alikeEig]
    interval_cases c <;> interval_cases d <;> simp only [h00, h01, h10, h11] <;> norm_num <;> ring
  · intro i j hij hj
    have hj : j < 2 := hj
    interval_cases j <;> interval_cases i <;> norm_num [alikeEig]
  · intro i hi j hj
    have hi : i < 2 := hi
    have hj : j < 2 := hj
    interval_cases i <;> interval_cases j <;> simp only [h00, h01, h10, h11] <;> norm_num
  · norm_num [klCut, power, alikeEig, cutLoop, abs_of_pos]
  · intro s hs
    interval_cases s <;> simp only [alikePair, Finset.sum_range_succ, Finset.sum_range_zero] <;> norm_num
  all_goals
    simp only [starWeight, alikePair, alikeEig, Finset.sum_range_succ, Finset.sum_range_zero]
    norm_num
    norm_num at hpos
    field_simp
    norm_num

/-- Libraries and an image with two equal stars of two pixels, with loss 1/10. -/
noncomputable def twinEnv : KEnv ℝ Unit Unit Unit Unit :=
  { starEnv with
    eigh := fun _ => .ok ⟨[0, 1 / 4], alikeEig.vec⟩
    fit := fun _ _ => .ok ()
    gauss := id
    normalOf := fun _ _ => ()
    sOf := fun _ _ _ _ _ => ()
    inv := id }

def twinStamp : Img ℚ := ⟨1, 2, fun _ j => if j = 0 then 3 / 4 else 1 / 4⟩

noncomputable def twinState : PSFState ℝ Unit Unit Unit Unit :=
  { best := some [starSrc, starSrc], stampShape := (1, 2), stampsPos := some [(5, 5), (6, 6)], nSources := some 2,
    db := some [.fin twinStamp, .fin twinStamp], infLoss := 1 / 10 }

/-- Their PSF is their stamp. -/
example : ∃ b : Img ℝ, (getVariablePsf twinEnv none none twinState).1 = .ok ([none], [b]) ∧ b.h = 1 ∧ b.w = 2 ∧
    ∀ i < 1, ∀ j < 2, b.px i j = ((twinStamp.px i j : ℚ) : ℝ) := by
  obtain ⟨c, hc⟩ : ∃ c : Columns ℝ, dbColumns twinState.stampShape 2 (twinState.db.getD []) = some c := by
    unfold dbColumns
    rw [if_pos (by intro k hk; interval_cases k <;> rfl)]
    exact ⟨_, rfl⟩
  obtain ⟨hcP, hcn⟩ := db_columns_size _ _ _ _ hc
  have hcP2 : c.P = 2 := hcP
  have hcm : ∀ p, ∀ k < 2, c.m p k = ((twinStamp.px (p / 2) (p % 2) : ℚ) : ℝ) := by
    intro p k hk
    have hd := hc
    unfold dbColumns at hd
    split at hd
    · simp only [Option.some.injEq] at hd
      rw [← hd]
      interval_cases k <;> rfl
    · cases hd
  have hpx : ∀ k < 2, c.m 0 k = 3 / 4 ∧ c.m 1 k = 1 / 4 := by
    intro k hk
    rw [hcm 0 k hk, hcm 1 k hk]
    constructor <;> norm_num [twinStamp]
  have hcov : covOf c = .mat c.n (npCov c.P c.m) := by
    unfold covOf
    rw [hcn, if_pos (by decide), if_neg (by decide)]
  have hval : ∀ i < 2, ∀ j < 2, npCov c.P c.m i j = 1 / 8 := by
    intro i hi j hj
    unfold npCov colMean
    rw [hcP2]
    simp only [Finset.sum_range_succ, Finset.sum_range_zero, (hpx i hi).1, (hpx i hi).2, (hpx j hj).1, (hpx j hj).2]
    norm_num
  have hD : Decomposed c ⟨[0, 1 / 4], alikeEig.vec⟩ := by
    refine ⟨?_, ⟨_, hcov, ?_, ?_⟩, ?_⟩
    · rw [hcn]; exact alikePair_psf.1.ortho
    · rw [hcn]; rfl
    · rw [hcn]
      intro col hcol i hi
      rw [Finset.sum_congr rfl fun j hj => by rw [hval i hi j (Finset.mem_range.1 hj)]]
      simp only [Finset.sum_range_succ, Finset.sum_range_zero, alikeEig]
      interval_cases col <;> interval_cases i <;> norm_num <;> ring
    · rw [hcn]
      intro i j hij hj
      interval_cases j <;> interval_cases i <;> norm_num
  exact same_stars_psf twinEnv twinState none none 2 twinState.toSIState c ⟨[0, 1 / 4], alikeEig.vec⟩
    ⟨⟨rfl, rfl, rfl, rfl, rfl⟩, rfl, hc, rfl, rfl, ⟨1 / 4, by simp, by norm_num⟩, by
      change (0 : ℝ) ≤ 1 / 10; norm_num⟩ hD (by decide) (by decide) rfl twinStamp
    (by intro k hk; interval_cases k <;> rfl) (by decide +kernel) ⟨0, by decide, 0, by decide, by decide +kernel⟩

end PI
