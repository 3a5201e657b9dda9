import Verif.Props.MaximaSymm
import Verif.Props.PlotImage

/-!
# Property C142: the clipped statistics of `find_S_local_maxima`: what follows the image, how much can be detected, and which
stars are found

C75 and C133 take the clipped mean and deviation as they come. Here they are what `sigma_clipped_stats(S_image, maxiters=3)`
(utils.py:353) gives. The mean is exact; the deviation is a square root, which the rational model allows to be off by the
fraction `tol`.
-/

namespace PI

/-- All pixels. -/
def scoreValues (S : Img ℚ) : List ℝ := (Img.indices S.h S.w).map fun p => (S.px p.1 p.2 : ℝ)

/-- What the three rounds of clipping leave. -/
noncomputable def keptValues (S : Img ℚ) : List ℝ := clipN 3 3 (scoreValues S)

/-- `mean` and `std` are the clipped statistics of the image. -/
structure Clipped (tol : ℝ) (S : Img ℚ) (mean std : ℚ) : Prop where
  mean_eq : (mean : ℝ) = rMean (keptValues S)
  lo : (1 - tol) * rStd (keptValues S) ≤ std
  hi : (std : ℝ) ≤ (1 + tol) * rStd (keptValues S)

theorem indices_nodup (h w : ℕ) : (Img.indices h w).Nodup :=
  List.Nodup.product List.nodup_range List.nodup_range

theorem scoreValues_length (S : Img ℚ) : (scoreValues S).length = S.h * S.w := by
  rw [scoreValues, List.length_map, indices_len]

theorem mem_scoreValues (S : Img ℚ) (x : ℝ) : x ∈ scoreValues S ↔ ∃ i < S.h, ∃ j < S.w, (S.px i j : ℝ) = x := by
  unfold scoreValues
  rw [List.mem_map]
  constructor
  · rintro ⟨p, hp, rfl⟩
    have := Img.mem_indices.1 hp
    exact ⟨p.1, this.1, p.2, this.2, rfl⟩
  · rintro ⟨i, hi, j, hj, rfl⟩
    exact ⟨(i, j), Img.mem_indices.2 ⟨hi, hj⟩, rfl⟩

theorem Clipped.std_nonneg {tol : ℝ} {S : Img ℚ} {mean std : ℚ} (h : Clipped tol S mean std) (ht : tol ≤ 1) : 0 ≤ std := by
  have h1 : (0 : ℝ) ≤ rStd (keptValues S) := Real.sqrt_nonneg _
  have h2 := h.lo
  have h3 : (0 : ℝ) ≤ (1 - tol) * rStd (keptValues S) := mul_nonneg (by linarith) h1
  exact_mod_cast h3.trans h2

/-- The mean of rationals is rational. -/
theorem rMean_rat (l : List ℝ) (h : ∀ x ∈ l, ∃ q : ℚ, (q : ℝ) = x) : ∃ q : ℚ, (q : ℝ) = rMean l := by
  have : ∃ q : ℚ, (q : ℝ) = l.sum := by
    induction l with
    | nil => exact ⟨0, by simp⟩
    | cons a l ih =>
      obtain ⟨p, hp⟩ := h a (by simp)
      obtain ⟨q, hq⟩ := ih fun x hx => h x (by simp [hx])
      exact ⟨p + q, by push_cast; rw [hp, hq, List.sum_cons]⟩
  obtain ⟨q, hq⟩ := this
  exact ⟨q / l.length, by push_cast; rw [hq]; rfl⟩

/-- Every image has such statistics. -/
theorem clipped_exists (tol : ℝ) (ht : 0 < tol) (S : Img ℚ) : ∃ mean std, Clipped tol S mean std := by
  obtain ⟨m, hm⟩ := rMean_rat (keptValues S) fun x hx => by
    obtain ⟨i, -, j, -, e⟩ := (mem_scoreValues S x).1 ((clipN_sublist 3 3 _).subset hx)
    exact ⟨_, e⟩
  have h0 : (0 : ℝ) ≤ rStd (keptValues S) := Real.sqrt_nonneg _
  rcases h0.eq_or_lt with e | hp
  · exact ⟨m, 0, hm, by rw [← e]; simp, by rw [← e]; simp⟩
  · obtain ⟨s, h1, h2⟩ := exists_rat_btwn (show (1 - tol) * rStd (keptValues S) < (1 + tol) * rStd (keptValues S) by nlinarith)
    exact ⟨m, s, hm, h1.le, h2.le⟩

/-! ## The statistics follow the image -/

theorem rStd_perm (l l' : List ℝ) (h : l.Perm l') : rStd l = rStd l' := by
  unfold rStd
  rw [rVar_perm l l' h]

theorem clipped_perm (tol : ℝ) (S S' : Img ℚ) (mean std : ℚ) (hp : (scoreValues S).Perm (scoreValues S'))
    (h : Clipped tol S mean std) : Clipped tol S' mean std := by
  have hk : (keptValues S).Perm (keptValues S') := clipN_perm 3 3 _ _ hp
  have e1 := rMean_perm _ _ hk
  have e2 := rStd_perm _ _ hk
  exact ⟨e1 ▸ h.mean_eq, e2 ▸ h.lo, e2 ▸ h.hi⟩

theorem scoreValues_map (S : Img ℚ) (a c : ℚ) :
    scoreValues (S.map fun v => a * v + c) = (scoreValues S).map fun x => (a : ℝ) * x + c := by
  unfold scoreValues Img.map
  rw [List.map_map]
  refine List.map_congr_left fun p _ => ?_
  simp

theorem keptValues_ne (S : Img ℚ) (hS : 0 < S.h * S.w) : keptValues S ≠ [] := by
  apply clipN_ne_nil
  rw [← List.length_pos_iff, scoreValues_length]
  exact hS

/-- **C142 (unit and zero level).** The clipped statistics follow every change of unit and of zero level. -/
theorem clipped_affine (tol : ℝ) (S : Img ℚ) (mean std a c : ℚ) (ha : 0 < a) (hS : 0 < S.h * S.w)
    (h : Clipped tol S mean std) : Clipped tol (S.map fun v => a * v + c) (a * mean + c) (a * std) := by
  have ha' : (0 : ℝ) < a := by exact_mod_cast ha
  have hk : keptValues (S.map fun v => a * v + c) = (keptValues S).map fun x => (a : ℝ) * x + c := by
    unfold keptValues
    rw [scoreValues_map, clipN_affine _ _ _ ha'.ne']
  have hn := keptValues_ne S hS
  have e1 := rMean_affine (a : ℝ) c _ hn
  have e2 := rStd_affine (a : ℝ) c _ hn
  rw [abs_of_pos ha'] at e2
  constructor
  · rw [hk, e1, ← h.mean_eq]
    push_cast
    ring
  · rw [hk, e2]
    push_cast
    nlinarith [mul_le_mul_of_nonneg_left h.lo ha'.le]
  · rw [hk, e2]
    push_cast
    nlinarith [mul_le_mul_of_nonneg_left h.hi ha'.le]

/-- **C142 (pixels moved about).** An image with the same pixels in other places has the same statistics. -/
theorem clipped_moved (tol : ℝ) (S S' : Img ℚ) (mean std : ℚ) (f g : ℕ × ℕ → ℕ × ℕ)
    (hf : ∀ i < S.h, ∀ j < S.w, (f (i, j)).1 < S'.h ∧ (f (i, j)).2 < S'.w ∧ g (f (i, j)) = (i, j) ∧
      S'.px (f (i, j)).1 (f (i, j)).2 = S.px i j)
    (hg : ∀ i < S'.h, ∀ j < S'.w, (g (i, j)).1 < S.h ∧ (g (i, j)).2 < S.w ∧ f (g (i, j)) = (i, j))
    (h : Clipped tol S mean std) : Clipped tol S' mean std := by
  refine clipped_perm tol S S' mean std ?_ h
  have hp : ((Img.indices S.h S.w).map f).Perm (Img.indices S'.h S'.w) := by
    rw [List.perm_ext_iff_of_nodup]
    · rintro ⟨r, c⟩
      rw [List.mem_map, Img.mem_indices]
      constructor
      · rintro ⟨⟨i, j⟩, hp, e⟩
        have := hf i (Img.mem_indices.1 hp).1 j (Img.mem_indices.1 hp).2
        rw [e] at this
        exact ⟨this.1, this.2.1⟩
      · rintro ⟨hr, hc⟩
        have := hg r hr c hc
        exact ⟨g (r, c), Img.mem_indices.2 ⟨this.1, this.2.1⟩, this.2.2⟩
    · refine List.Nodup.map_on ?_ (indices_nodup _ _)
      rintro ⟨i, j⟩ hp ⟨i', j'⟩ hq e
      have h1 := (hf i (Img.mem_indices.1 hp).1 j (Img.mem_indices.1 hp).2).2.2.1
      have h2 := (hf i' (Img.mem_indices.1 hq).1 j' (Img.mem_indices.1 hq).2).2.2.1
      rw [← h1, ← h2, e]
    · exact indices_nodup _ _
  have e : scoreValues S = ((Img.indices S.h S.w).map f).map fun p => (S'.px p.1 p.2 : ℝ) := by
    unfold scoreValues
    rw [List.map_map]
    refine List.map_congr_left ?_
    rintro ⟨i, j⟩ hp
    have := (hf i (Img.mem_indices.1 hp).1 j (Img.mem_indices.1 hp).2).2.2.2
    simp only [Function.comp, this]
  rw [e]
  exact hp.map _

/-! ## How much is detected -/

/-- Number of detected pixels. -/
def numDetected (S : Img ℚ) (mean std thr : ℚ) : ℕ :=
  (Img.indices S.h S.w).countP fun p => (detected S mean std thr).px p.1 p.2

theorem sum_sq_shift (t s m : ℝ) (l : List ℝ) : (l.map fun x => (t * (x - m) + s) ^ 2).sum =
    t ^ 2 * (l.map fun x => (x - m) ^ 2).sum + 2 * t * s * (l.map fun x => x - m).sum + l.length * s ^ 2 := by
  induction l with
  | nil => simp
  | cons a l ih =>
    simp only [List.map_cons, List.sum_cons, List.length_cons, ih]
    push_cast
    ring

/-- One-sided Chebyshev inequality: what is `t` deviations above the mean. -/
theorem cantelli (l : List ℝ) (hl : l ≠ []) (t : ℝ) (ht : 0 < t) (p : ℝ → Bool)
    (hp : ∀ x ∈ l, p x = true → rMean l + t * rStd l ≤ x ∧ rMean l < x) :
    (l.countP p : ℝ) * (1 + t ^ 2) ≤ l.length := by
  have hn : (0 : ℝ) < l.length := by exact_mod_cast List.length_pos_iff.2 hl
  have h0 : 0 ≤ rStd l := Real.sqrt_nonneg _
  rcases h0.eq_or_lt with e | hs
  · have hv : rVar l = 0 := by
      have := Real.sqrt_eq_zero'.1 e.symm
      exact le_antisymm this (rVar_nonneg l)
    have : l.countP p = 0 := by
      rw [List.countP_eq_zero]
      intro x hx hpx
      have := eq_mean_of_var_zero l hv x hx
      have := (hp x hx hpx).2
      linarith
    rw [this]
    simp
  · set s := rStd l with hsd
    have hsq : s ^ 2 = rVar l := Real.sq_sqrt (rVar_nonneg l)
    have key := countP_mul_le l (fun x => (t * (x - rMean l) + s) ^ 2) p ((1 + t ^ 2) ^ 2 * s ^ 2) (fun x => sq_nonneg _) (by
      intro x hx hpx
      have := (hp x hx hpx).1
      have h1 : (1 + t ^ 2) * s ≤ t * (x - rMean l) + s := by nlinarith
      have h2 : 0 ≤ (1 + t ^ 2) * s := by positivity
      calc (1 + t ^ 2) ^ 2 * s ^ 2 = ((1 + t ^ 2) * s) ^ 2 := by ring
        _ ≤ _ := pow_le_pow_left₀ h2 h1 2)
    have hsum : (l.map fun x => (t * (x - rMean l) + s) ^ 2).sum = l.length * (1 + t ^ 2) * s ^ 2 := by
      have e1 := sum_sq_shift t s (rMean l) l
      have e2 : (l.map fun x => (x - rMean l) ^ 2).sum = l.length * s ^ 2 := by
        rw [hsq, rVar]
        field_simp
      rw [e1, e2, sum_sub_const, ← rMean_mul l hl]
      ring
    rw [hsum] at key
    have hs2 : 0 < (1 + t ^ 2) * s ^ 2 := by positivity
    have : (l.countP p : ℝ) * (1 + t ^ 2) * ((1 + t ^ 2) * s ^ 2) ≤ l.length * ((1 + t ^ 2) * s ^ 2) := by nlinarith
    exact le_of_mul_le_mul_right this hs2

theorem keptValues_length (S : Img ℚ) (hS : 0 < S.h * S.w) : 27 * (S.h * S.w) ≤ 64 * (keptValues S).length := by
  have h0 : scoreValues S ≠ [] := by rw [← List.length_pos_iff, scoreValues_length]; exact hS
  have h1 := clipStep_keeps _ h0
  have h2 := clipStep_keeps _ (clipStep_ne_nil _ h0)
  have h3 := clipStep_keeps _ (clipStep_ne_nil _ (clipStep_ne_nil _ h0))
  rw [scoreValues_length] at h1
  have e : keptValues S = clipStep 3 (clipStep 3 (clipStep 3 (scoreValues S))) := rfl
  rw [e]
  omega

theorem detected_real (tol : ℝ) (ht : tol ≤ 1) (S : Img ℚ) (mean std thr : ℚ) (h : Clipped tol S mean std) (hthr : 0 ≤ thr) (i j : ℕ)
    (hd : (detected S mean std thr).px i j = true) :
    rMean (keptValues S) + thr * ((1 - tol) * rStd (keptValues S)) < S.px i j ∧ rMean (keptValues S) < S.px i j := by
  have hs := h.std_nonneg ht
  have hc := (detected_iff S mean std thr hs i j).1 hd
  have hc' : ((cutLevel mean std thr : ℚ) : ℝ) < S.px i j := by exact_mod_cast hc
  have hthr' : (0 : ℝ) ≤ thr := by exact_mod_cast hthr
  have hs' : (0 : ℝ) ≤ std := by exact_mod_cast hs
  have e : ((cutLevel mean std thr : ℚ) : ℝ) = mean + thr * std := by
    unfold cutLevel
    split
    · next h0 => rw [h0]; simp
    · push_cast; rfl
  rw [e, h.mean_eq] at hc'
  have := mul_le_mul_of_nonneg_left h.lo hthr'
  constructor
  · linarith
  · nlinarith [mul_nonneg hthr' hs']

/-- **C142 (how much is detected).** At most the fraction `1 - 27/64 t² / (1 + t²)` of the pixels is above the threshold. -/
theorem detected_bound (tol : ℝ) (ht : tol < 1) (S : Img ℚ) (mean std thr : ℚ) (hS : 0 < S.h * S.w)
    (h : Clipped tol S mean std) (hthr : 0 < thr) :
    let t : ℝ := thr * (1 - tol)
    (numDetected S mean std thr : ℝ) * (64 * (1 + t ^ 2)) ≤ (S.h * S.w : ℕ) * (64 + 37 * t ^ 2) := by
  intro t
  have hthr' : (0 : ℝ) < thr := by exact_mod_cast hthr
  have ht0 : 0 < t := mul_pos hthr' (by linarith)
  classical
  let p : ℝ → Bool := fun x => decide (rMean (keptValues S) + t * rStd (keptValues S) ≤ x ∧ rMean (keptValues S) < x)
  have h1 : numDetected S mean std thr ≤ (scoreValues S).countP p := by
    unfold numDetected scoreValues
    rw [List.countP_map]
    refine List.countP_mono_left fun q _ hq => ?_
    have := detected_real tol ht.le S mean std thr h hthr.le q.1 q.2 hq
    refine decide_eq_true ⟨?_, this.2⟩
    have e : t * rStd (keptValues S) = thr * ((1 - tol) * rStd (keptValues S)) := by show thr * (1 - tol) * _ = _; ring
    rw [e]
    exact this.1.le
  have h2 : (scoreValues S).countP p + (keptValues S).length ≤ (scoreValues S).length + (keptValues S).countP p := by
    have hsub : (keptValues S).Sublist (scoreValues S) := clipN_sublist 3 3 _
    have h3 := hsub.countP_le (p := fun x => !p x)
    have a1 := List.length_eq_countP_add_countP p (l := scoreValues S)
    have a2 := List.length_eq_countP_add_countP p (l := keptValues S)
    have e : (fun x => !p x) = fun x => decide ¬ (p x = true) := by funext x; cases p x <;> rfl
    rw [e] at h3
    omega
  have h3 := cantelli (keptValues S) (keptValues_ne S hS) t ht0 p fun x _ hx => of_decide_eq_true hx
  have h4 := keptValues_length S hS
  rw [scoreValues_length] at h2
  have h1' : (numDetected S mean std thr : ℝ) ≤ (scoreValues S).countP p := by exact_mod_cast h1
  have h2' : ((scoreValues S).countP p : ℝ) + (keptValues S).length ≤ (S.h * S.w : ℕ) + (keptValues S).countP p := by
    exact_mod_cast h2
  have h4' : 27 * ((S.h * S.w : ℕ) : ℝ) ≤ 64 * (keptValues S).length := by exact_mod_cast h4
  generalize ((S.h * S.w : ℕ) : ℝ) = N at *
  generalize ((keptValues S).length : ℝ) = K at *
  generalize (numDetected S mean std thr : ℝ) = D at *
  have : D * (1 + t ^ 2) ≤ (N - K) * (1 + t ^ 2) + K := by nlinarith [sq_nonneg t]
  nlinarith [sq_nonneg t, mul_le_mul_of_nonneg_right h4' (sq_nonneg t)]

/-- There are at most as many entries as detected pixels. -/
theorem entries_le (label : Img Bool → Labels) (hL : ∀ m, IsLabelling m (label m)) (S : Img ℚ) (mean std thr : ℚ) :
    (label (detected S mean std thr)).num ≤ numDetected S mean std thr := by
  have hl := hL (detected S mean std thr)
  generalize label (detected S mean std thr) = L at hl
  let F := (Img.indices S.h S.w).filter fun p => (detected S mean std thr).px p.1 p.2
  have hsub : List.range' 1 L.num ⊆ F.map fun p => L.lab p.1 p.2 := by
    intro k hk
    rw [List.mem_range'_1] at hk
    obtain ⟨p, ⟨h1, h2, h3⟩, e⟩ := hl.used k hk.1 (by omega)
    exact List.mem_map.2 ⟨p, List.mem_filter.2 ⟨Img.mem_indices.2 ⟨h1, h2⟩, h3⟩, e⟩
  have := (List.Nodup.subperm List.nodup_range' hsub).length_le
  rw [List.length_range', List.length_map] at this
  unfold numDetected
  rw [List.countP_eq_length_filter]
  exact this

/-- **C142 (how many entries).** With the default threshold at most two thirds of the pixels are above the threshold, and the
list has at most as many entries. -/
theorem maxima_default_bound (tol : ℝ) (h0 : tol ≤ 1 / 100) (label : Img Bool → Labels) (hL : ∀ m, IsLabelling m (label m))
    (S : Img ℚ) (mean std nb : ℚ) (hS : 0 < S.h * S.w) (h : Clipped tol S mean std) :
    3 * numDetected S mean std (5 / 2) ≤ 2 * (S.h * S.w) ∧
      ∀ r, findMaxima label S mean std (5 / 2) nb = .ok r → r.length ≤ numDetected S mean std (5 / 2) := by
  constructor
  · have hb := detected_bound tol (by linarith) S mean std (5 / 2) hS h (by norm_num)
    have ht : (2475 / 1000 : ℝ) ≤ ((5 / 2 : ℚ) : ℝ) * (1 - tol) := by push_cast; linarith
    generalize ((5 / 2 : ℚ) : ℝ) * (1 - tol) = t at hb ht
    simp only [] at hb
    have hD : (0 : ℝ) ≤ numDetected S mean std (5 / 2) := Nat.cast_nonneg _
    have hN : (0 : ℝ) ≤ (S.h * S.w : ℕ) := Nat.cast_nonneg _
    have ht2 : (6 : ℝ) ≤ t ^ 2 := by nlinarith
    have : (3 * numDetected S mean std (5 / 2) : ℝ) ≤ 2 * (S.h * S.w : ℕ) := by
      generalize ((S.h * S.w : ℕ) : ℝ) = N at *
      generalize (numDetected S mean std (5 / 2) : ℝ) = D at *
      by_contra hc
      push Not at hc
      nlinarith [mul_le_mul_of_nonneg_left ht2 hN]
    exact_mod_cast this
  · intro r hr
    rw [findMaxima_eq] at hr
    have := ((mapM_ok_iff _ _ _).mp hr).length_eq
    rw [List.length_range] at this
    rw [← this]
    exact entries_le label hL S mean std (5 / 2)

/-- **C142 (few pixels).** In an image of at most five pixels nothing is ever above a threshold of 2 or more (up to the
error of the square root). -/
theorem few_pixels_none (tol : ℝ) (h1 : tol < 1) (S : Img ℚ) (mean std thr : ℚ) (hN : S.h * S.w ≤ 5)
    (hthr : 2 ≤ (thr : ℝ) * (1 - tol)) (h : Clipped tol S mean std) (i j : ℕ) (hi : i < S.h) (hj : j < S.w) :
    (detected S mean std thr).px i j = false := by
  by_contra hc
  have hthr0 : (0 : ℝ) ≤ thr := by
    by_contra hneg
    push Not at hneg
    nlinarith
  have hd := detected_real tol h1.le S mean std thr h (by exact_mod_cast hthr0) i j (by simpa using hc)
  have hk : keptValues S = scoreValues S := by
    apply clipStep_fixed_clipN
    apply clipStep_five
    rw [scoreValues_length]
    exact hN
  rw [hk] at hd
  have hx : (S.px i j : ℝ) ∈ scoreValues S := (mem_scoreValues S _).2 ⟨i, hi, j, hj, rfl⟩
  have hs := samuelson (scoreValues S) _ hx
  rw [scoreValues_length] at hs
  have hst : (0 : ℝ) ≤ rStd (scoreValues S) := Real.sqrt_nonneg _
  have hsq : rStd (scoreValues S) ^ 2 = rVar (scoreValues S) := Real.sq_sqrt (rVar_nonneg _)
  have h4 : ((S.h * S.w - 1 : ℕ) : ℝ) ≤ 4 := by exact_mod_cast (show S.h * S.w - 1 ≤ 4 by omega)
  have h5 : (S.px i j - rMean (scoreValues S) : ℝ) ^ 2 ≤ (2 * rStd (scoreValues S)) ^ 2 := by
    nlinarith [mul_le_mul_of_nonneg_right h4 (rVar_nonneg (scoreValues S))]
  have h6 := abs_le_of_sq_le_sq h5 (by linarith)
  have h7 := mul_le_mul_of_nonneg_right hthr hst
  linarith [(abs_le.1 h6).2, hd.1]

/-! ## Which stars are found -/

/-- Number of pixels of the stars. -/
def starPixels (S : Img ℚ) (star : ℕ → ℕ → Bool) : ℕ := (Img.indices S.h S.w).countP fun p => star p.1 p.2

theorem sum_sq_le (l : List ℝ) (hl : l ≠ []) (c : ℝ) : rVar l * l.length ≤ (l.map fun x => (x - c) ^ 2).sum := by
  have hn : (0 : ℝ) < l.length := by exact_mod_cast List.length_pos_iff.2 hl
  have e := sum_sq_shift 1 (rMean l - c) (rMean l) l
  rw [sum_sub_const, ← rMean_mul l hl] at e
  have e2 : rVar l * l.length = (l.map fun x => (x - rMean l) ^ 2).sum := by
    unfold rVar
    field_simp
  have e3 : (l.map fun x => (x - c) ^ 2).sum = (l.map fun x => (1 * (x - rMean l) + (rMean l - c)) ^ 2).sum := by
    congr 1
    refine List.map_congr_left fun x _ => ?_
    ring
  rw [e3, e, e2]
  nlinarith [mul_nonneg hn.le (sq_nonneg (rMean l - c))]

/-- Under these conditions the first round removes every pixel of the stars. -/
theorem stars_clipped (S : Img ℚ) (star : ℕ → ℕ → Bool) (lo hi m M : ℝ) (hS : 0 < S.h * S.w)
    (hfaint : ∀ i < S.h, ∀ j < S.w, star i j = false → lo ≤ S.px i j ∧ (S.px i j : ℝ) ≤ hi)
    (hstar : ∀ i < S.h, ∀ j < S.w, star i j = true → m ≤ S.px i j ∧ (S.px i j : ℝ) ≤ M)
    (hlo : lo ≤ hi) (hm : hi < m) (hM : m ≤ M)
    (hclip : 9 * ((hi - lo) ^ 2 * (S.h * S.w : ℕ) + (M - lo) ^ 2 * starPixels S star) < (m - hi) ^ 2 * (S.h * S.w : ℕ)) :
    ∀ x ∈ keptValues S, lo ≤ x ∧ x ≤ hi := by
  set l := scoreValues S with hldef
  have hl : l ≠ [] := by rw [← List.length_pos_iff, scoreValues_length]; exact hS
  have hN : (0 : ℝ) < (S.h * S.w : ℕ) := by exact_mod_cast hS
  have hvar : rVar l * (S.h * S.w : ℕ) ≤ (hi - lo) ^ 2 * (S.h * S.w : ℕ) + (M - lo) ^ 2 * starPixels S star := by
    have h1 := sum_sq_le l hl lo
    rw [hldef, scoreValues_length] at h1
    refine h1.trans ?_
    rw [← indices_len]
    unfold scoreValues starPixels
    rw [List.map_map]
    have hmem : ∀ p ∈ Img.indices S.h S.w, ((S.px p.1 p.2 : ℝ) - lo) ^ 2 ≤
        (hi - lo) ^ 2 + (M - lo) ^ 2 * (if star p.1 p.2 then 1 else 0) := by
      intro p hp
      obtain ⟨a, b⟩ := Img.mem_indices.1 hp
      cases hst : star p.1 p.2
      · have := hfaint p.1 a p.2 b hst
        simp only [Bool.false_eq_true, if_false, mul_zero, add_zero]
        nlinarith
      · have := hstar p.1 a p.2 b hst
        simp only [if_true, mul_one]
        nlinarith [sq_nonneg (hi - lo)]
    clear h1
    generalize Img.indices S.h S.w = L at hmem
    clear hldef
    induction L with
    | nil => simp
    | cons p L ih =>
      have h1 := hmem p (by simp)
      have h2 := ih fun q hq => hmem q (by simp [hq])
      simp only [List.map_cons, List.sum_cons, List.length_cons, List.countP_cons, Function.comp] at h2 ⊢
      push_cast
      nlinarith
  have hk9 : 9 * starPixels S star < S.h * S.w := by
    have : 9 * (starPixels S star : ℝ) * (M - lo) ^ 2 < (S.h * S.w : ℕ) * (M - lo) ^ 2 := by
      have h1 : (m - hi) ^ 2 ≤ (M - lo) ^ 2 := by nlinarith
      nlinarith [sq_nonneg (hi - lo), mul_nonneg (sq_nonneg (hi - lo)) hN.le, mul_le_mul_of_nonneg_right h1 hN.le]
    have := lt_of_mul_lt_mul_right this (sq_nonneg _)
    exact_mod_cast this
  have hmed : rMedian l ≤ hi := by
    refine (rMedian_mem l hl lo hi ?_).2
    have hc : l.countP (fun x => decide (lo ≤ x ∧ x ≤ hi)) + starPixels S star ≥ S.h * S.w := by
      rw [hldef, ← indices_len]
      unfold scoreValues starPixels
      rw [List.countP_map]
      have hmem : ∀ p ∈ Img.indices S.h S.w, star p.1 p.2 = false → lo ≤ S.px p.1 p.2 ∧ (S.px p.1 p.2 : ℝ) ≤ hi := by
        intro p hp
        obtain ⟨a, b⟩ := Img.mem_indices.1 hp
        exact hfaint p.1 a p.2 b
      have h3 := List.length_eq_countP_add_countP (fun p : ℕ × ℕ => star p.1 p.2) (l := Img.indices S.h S.w)
      have h4 : (Img.indices S.h S.w).countP (fun p => decide ¬ (star p.1 p.2 = true)) ≤
          (Img.indices S.h S.w).countP ((fun x : ℝ => decide (lo ≤ x ∧ x ≤ hi)) ∘ fun p => (S.px p.1 p.2 : ℝ)) := by
        refine List.countP_mono_left fun p hp hq => ?_
        exact decide_eq_true (hmem p hp (by simpa using hq))
      omega
    rw [hldef, scoreValues_length, ← hldef]
    omega
  have hstd : 3 * rStd l < m - hi := by
    have h1 : 9 * rVar l < (m - hi) ^ 2 := by
      have : 9 * rVar l * (S.h * S.w : ℕ) < (m - hi) ^ 2 * (S.h * S.w : ℕ) := by nlinarith
      exact lt_of_mul_lt_mul_right this hN.le
    have h2 : (3 * rStd l) ^ 2 < (m - hi) ^ 2 := by
      have : rStd l ^ 2 = rVar l := Real.sq_sqrt (rVar_nonneg _)
      nlinarith
    exact lt_of_pow_lt_pow_left₀ 2 (by linarith) h2
  intro x hx
  have hx1 : x ∈ clipStep 3 l := (clipN_sublist 3 2 (clipStep 3 l)).subset hx
  unfold clipStep at hx1
  obtain ⟨hxl, hxd⟩ := List.mem_filter.1 hx1
  obtain ⟨i, hi', j, hj', rfl⟩ := (mem_scoreValues S x).1 hxl
  cases hst : star i j
  · exact hfaint i hi' j hj' hst
  · exfalso
    have h1 := (hstar i hi' j hj' hst).1
    have h2 := (of_decide_eq_true hxd).2
    linarith

/-- **C142 (stars found).** If the pixels of the stars, a fraction `f` of the image, have values from `m` to `M`, all others lie
between `lo` and `hi`, and `9 ((hi - lo)² + f (M - lo)²) < (m - hi)²`, then the stars have no influence on the clipped
statistics worth mentioning: the mean is between `lo` and `hi`, the deviation at most `hi - lo`; and the pixels of the stars
are all detected as soon as `m` is above `hi + threshold (hi - lo)`. -/
theorem stars_found (tol : ℝ) (h0 : 0 ≤ tol) (h1 : tol ≤ 1) (S : Img ℚ) (mean std thr : ℚ) (h : Clipped tol S mean std)
    (star : ℕ → ℕ → Bool) (lo hi m M : ℝ) (hS : 0 < S.h * S.w)
    (hfaint : ∀ i < S.h, ∀ j < S.w, star i j = false → lo ≤ S.px i j ∧ (S.px i j : ℝ) ≤ hi)
    (hstar : ∀ i < S.h, ∀ j < S.w, star i j = true → m ≤ S.px i j ∧ (S.px i j : ℝ) ≤ M)
    (hlo : lo ≤ hi) (hm : hi < m) (hM : m ≤ M)
    (hclip : 9 * ((hi - lo) ^ 2 * (S.h * S.w : ℕ) + (M - lo) ^ 2 * starPixels S star) < (m - hi) ^ 2 * (S.h * S.w : ℕ))
    (hthr : 0 ≤ thr) (habove : hi + thr * ((1 + tol) * (hi - lo)) < m) :
    lo ≤ mean ∧ (mean : ℝ) ≤ hi ∧ (std : ℝ) ≤ (1 + tol) * (hi - lo) ∧
      ∀ i < S.h, ∀ j < S.w, star i j = true → (detected S mean std thr).px i j = true := by
  have hk := stars_clipped S star lo hi m M hS hfaint hstar hlo hm hM hclip
  have hn := keptValues_ne S hS
  have hmean := rMean_between _ hn lo hi hk
  rw [← h.mean_eq] at hmean
  have hs := rStd_le _ hn lo hi hk
  have hstd : (std : ℝ) ≤ (1 + tol) * (hi - lo) := h.hi.trans (mul_le_mul_of_nonneg_left hs (by linarith))
  refine ⟨hmean.1, hmean.2, hstd, fun i hi' j hj' hst => ?_⟩
  rw [detected_iff S mean std thr (h.std_nonneg h1)]
  have hpx := (hstar i hi' j hj' hst).1
  have hthr' : (0 : ℝ) ≤ thr := by exact_mod_cast hthr
  have : ((cutLevel mean std thr : ℚ) : ℝ) < S.px i j := by
    unfold cutLevel
    split
    · linarith
    · push_cast
      have := mul_le_mul_of_nonneg_left hstd hthr'
      linarith
  exact_mod_cast this

/-- A detected pixel belongs to an entry of the list: the entry of its region. -/
theorem detected_entry (label : Img Bool → Labels) (hL : ∀ m, IsLabelling m (label m)) (S : Img ℚ) (mean std thr nb : ℚ)
    (r : List (FVal × FVal × FVal)) (hr : findMaxima label S mean std thr nb = .ok r) (i j : ℕ) (hi : i < S.h) (hj : j < S.w)
    (hd : (detected S mean std thr).px i j = true) :
    ∃ k, k < r.length ∧ (label (detected S mean std thr)).lab i j = k + 1 := by
  have hl := hL (detected S mean std thr)
  have h1 : (label (detected S mean std thr)).lab i j ≠ 0 := fun h0 => by
    have := (hl.zero i hi j hj).1 h0
    rw [this] at hd
    cases hd
  have h2 := hl.le i hi j hj
  rw [findMaxima_eq] at hr
  have := ((mapM_ok_iff _ _ _).mp hr).length_eq
  rw [List.length_range] at this
  exact ⟨(label (detected S mean std thr)).lab i j - 1, by omega, by omega⟩

theorem one_star_arith (d e N k : ℝ) (hd0 : 0 ≤ d) (he0 : 0 < e) (hf : 4 * d ≤ e) (hN : 33 ≤ N) (hk : k ≤ 1) :
    9 * (d ^ 2 * N + (e + d) ^ 2 * k) < e ^ 2 * N := by
  have a1 : 16 * d ^ 2 ≤ e ^ 2 := by nlinarith
  have a2 : (e + d) ^ 2 ≤ 25 / 16 * e ^ 2 := by nlinarith
  have a3 : (e + d) ^ 2 * k ≤ 25 / 16 * e ^ 2 := by nlinarith [sq_nonneg (e + d)]
  have a4 : 16 * (d ^ 2 * N) ≤ e ^ 2 * N := by nlinarith
  have a5 : 33 * e ^ 2 ≤ e ^ 2 * N := by nlinarith [sq_nonneg e]
  have a6 : 0 < e ^ 2 := by positivity
  nlinarith

/-- **C142 (one star).** In an image of at least 33 pixels one pixel that is above all others by four times the range of
the others is detected with every threshold up to 3. -/
theorem one_star_found (tol : ℝ) (h0 : 0 ≤ tol) (h1 : tol ≤ 1 / 100) (S : Img ℚ) (mean std thr : ℚ) (h : Clipped tol S mean std)
    (lo hi : ℚ) (i j : ℕ) (hi' : i < S.h) (hj' : j < S.w) (hS : 33 ≤ S.h * S.w)
    (hrest : ∀ p < S.h, ∀ q < S.w, (p, q) ≠ (i, j) → lo ≤ S.px p q ∧ S.px p q ≤ hi) (hlo : lo ≤ hi)
    (hup : hi < S.px i j) (hfar : 4 * (hi - lo) ≤ S.px i j - hi) (hthr : 0 ≤ thr) (hthr3 : thr ≤ 3) :
    (detected S mean std thr).px i j = true := by
  let star : ℕ → ℕ → Bool := fun p q => (p, q) == (i, j)
  have hst : ∀ p q, star p q = true ↔ (p, q) = (i, j) := fun p q => beq_iff_eq
  have hk : starPixels S star ≤ 1 := by
    have : starPixels S star = (Img.indices S.h S.w).count (i, j) := rfl
    rw [this]
    exact List.nodup_iff_count_le_one.1 (indices_nodup _ _) _
  have hk' : (starPixels S star : ℝ) ≤ 1 := by exact_mod_cast hk
  have hN : (33 : ℝ) ≤ (S.h * S.w : ℕ) := by exact_mod_cast hS
  have hlo' : (lo : ℝ) ≤ hi := by exact_mod_cast hlo
  have hup' : (hi : ℝ) < S.px i j := by exact_mod_cast hup
  have hfar' : 4 * ((hi : ℝ) - lo) ≤ S.px i j - hi := by exact_mod_cast hfar
  have hthr' : (0 : ℝ) ≤ thr := by exact_mod_cast hthr
  have hthr3' : (thr : ℝ) ≤ 3 := by exact_mod_cast hthr3
  refine (stars_found tol h0 (by linarith) S mean std thr h star lo hi (S.px i j) (S.px i j) (by omega) ?_ ?_ hlo' hup' le_rfl ?_
    hthr ?_).2.2.2 i hi' j hj' ((hst i j).2 rfl)
  · intro p hp q hq hs
    have := hrest p hp q hq fun e => by rw [(hst p q).2 e] at hs; cases hs
    exact ⟨by exact_mod_cast this.1, by exact_mod_cast this.2⟩
  · intro p _ q _ hs
    obtain ⟨rfl, rfl⟩ := Prod.mk.inj ((hst p q).1 hs)
    exact ⟨le_rfl, le_rfl⟩
  · have := one_star_arith ((hi : ℝ) - lo) (S.px i j - hi) _ _ (by linarith) (by linarith) hfar' hN hk'
    rwa [show (S.px i j - hi + (hi - lo) : ℝ) = S.px i j - lo by ring] at this
  · have : (thr : ℝ) * ((1 + tol) * (hi - lo)) ≤ 3 * ((1 + tol) * (hi - lo)) :=
      mul_le_mul_of_nonneg_right hthr3' (mul_nonneg (by linarith) (by linarith))
    nlinarith

/-! ## Faint stars that bright ones hide -/

/-- A row of 36 pixels: one of value `a`, stars of 64, 16, 4 and 1, and zeros. -/
def starRow (a : ℕ) : Img ℚ :=
  ⟨1, 36, fun _ j => ((if j = 0 then a else if j = 2 then 64 else if j = 4 then 16 else if j = 6 then 4 else
    if j = 8 then 1 else 0 : ℕ) : ℚ)⟩

/-- A star among many zeros is clipped if it is beyond three deviations, and nothing else is if all others are within. -/
theorem clip_top (a b : ℝ) (s : List ℝ) (z : ℕ) (hs : ∀ x ∈ s, 0 ≤ x ∧ x ≤ b) (hz : s.length + 1 < z) (ha : 0 ≤ a)
    (h1 : 9 * rVar (a :: s ++ List.replicate z 0) < a ^ 2) (h2 : b ^ 2 ≤ 9 * rVar (a :: s ++ List.replicate z 0)) :
    clipStep 3 (a :: s ++ List.replicate z 0) = s ++ List.replicate z 0 := by
  set l := a :: s ++ List.replicate z 0 with hl
  have hne : l ≠ [] := by simp [hl]
  have hmed : rMedian l = 0 := by
    have := rMedian_mem l hne 0 0 (by
      have hz' : (List.replicate z (0 : ℝ)).countP (fun x => decide (0 ≤ x ∧ x ≤ 0)) = z := by
        have : (List.replicate z (0 : ℝ)).countP (fun x => decide (0 ≤ x ∧ x ≤ 0)) = (List.replicate z (0 : ℝ)).length :=
          List.countP_eq_length.2 fun x hx => by rw [List.eq_of_mem_replicate hx]; simp
        rwa [List.length_replicate] at this
      rw [hl, List.countP_append, hz', List.length_append, List.length_cons, List.length_replicate]
      omega)
    exact le_antisymm this.2 this.1
  have hst : 0 ≤ rStd l := Real.sqrt_nonneg _
  have hsq : rStd l ^ 2 = rVar l := Real.sq_sqrt (rVar_nonneg _)
  have g1 : 3 * rStd l < a := lt_of_pow_lt_pow_left₀ 2 ha (by nlinarith)
  have g2 : ∀ x : ℝ, 0 ≤ x → x ≤ b → x ≤ 3 * rStd l := fun x hx hb =>
    hb.trans (le_of_sq_le_sq (by nlinarith) (by linarith))
  unfold clipStep
  rw [hmed]
  have : l = a :: (s ++ List.replicate z 0) := rfl
  rw [List.filter_congr (q := fun x => decide (x ≤ 3 * rStd l ∧ -(3 * rStd l) ≤ x)) (fun x _ => by
    apply decide_eq_decide.2
    constructor
    · rintro ⟨u, v⟩; push Not at u v; constructor <;> linarith
    · rintro ⟨u, v⟩; constructor <;> push Not <;> linarith)]
  generalize rStd l = σ at *
  rw [this, List.filter_cons_of_neg (by simp; intro h; linarith), List.filter_eq_self]
  intro x hx
  rcases List.mem_append.1 hx with hx | hx
  · have := hs x hx
    exact decide_eq_true ⟨g2 x this.1 this.2, by linarith⟩
  · rw [List.eq_of_mem_replicate hx]
    exact decide_eq_true ⟨by linarith, by linarith⟩


theorem starRow_values (a : ℕ) : scoreValues (starRow a) =
    ((List.range 36).map fun j => if j = 0 then a else if j = 2 then 64 else if j = 4 then 16 else if j = 6 then 4 else
      if j = 8 then 1 else 0).map fun n : ℕ => (n : ℝ) := by
  have : Img.indices 1 36 = (List.range 36).map fun j => (0, j) := by decide +kernel
  unfold scoreValues
  rw [show Img.indices (starRow a).h (starRow a).w = Img.indices 1 36 from rfl, this, List.map_map, List.map_map]
  refine List.map_congr_left fun j _ => ?_
  show (((_ : ℕ) : ℚ) : ℝ) = _
  rw [Rat.cast_natCast]
  rfl

theorem starRow_bright : (scoreValues (starRow 256)).Perm (256 :: [64, 16, 4, 1] ++ List.replicate 31 0) := by
  rw [starRow_values]
  have h : ((List.range 36).map fun j => if j = 0 then 256 else if j = 2 then 64 else if j = 4 then 16 else if j = 6 then 4 else
      if j = 8 then 1 else 0).Perm ([256, 64, 16, 4, 1] ++ List.replicate 31 0) := by decide +kernel
  refine (h.map fun n : ℕ => (n : ℝ)).trans ?_
  rw [List.map_append, List.map_replicate]
  simp

theorem starRow_dark : (scoreValues (starRow 0)).Perm (64 :: [16, 4, 1] ++ List.replicate 32 0) := by
  rw [starRow_values]
  have h : ((List.range 36).map fun j => if j = 0 then 0 else if j = 2 then 64 else if j = 4 then 16 else if j = 6 then 4 else
      if j = 8 then 1 else 0).Perm ([64, 16, 4, 1] ++ List.replicate 32 0) := by decide +kernel
  refine (h.map fun n : ℕ => (n : ℝ)).trans ?_
  rw [List.map_append, List.map_replicate]
  simp

/-- The variance of a few values and many zeros. -/
theorem rVar_zeros (s : List ℝ) (z : ℕ) (hz : 0 < z) : rVar (s ++ List.replicate z 0) =
    (s.map fun x => x ^ 2).sum / (s.length + z) - (s.sum / (s.length + z)) ^ 2 := by
  rw [rVar_eq _ (by simp; omega)]
  simp

theorem starRow_kept_bright : (keptValues (starRow 256)).Perm ([4, 1] ++ List.replicate 31 0) := by
  refine (clipN_perm 3 3 _ _ starRow_bright).trans ?_
  rw [clipN, clip_top 256 64 [64, 16, 4, 1] 31 (by intro x hx; fin_cases hx <;> norm_num) (by simp) (by norm_num)
      (by rw [rVar_zeros _ _ (by norm_num)]; norm_num) (by rw [rVar_zeros _ _ (by norm_num)]; norm_num),
    clipN, clip_top 64 16 [16, 4, 1] 31 (by intro x hx; fin_cases hx <;> norm_num) (by simp) (by norm_num)
      (by rw [rVar_zeros _ _ (by norm_num)]; norm_num) (by rw [rVar_zeros _ _ (by norm_num)]; norm_num),
    clipN, clip_top 16 4 [4, 1] 31 (by intro x hx; fin_cases hx <;> norm_num) (by simp) (by norm_num)
      (by rw [rVar_zeros _ _ (by norm_num)]; norm_num) (by rw [rVar_zeros _ _ (by norm_num)]; norm_num)]
  exact List.Perm.refl _

theorem starRow_kept_dark : (keptValues (starRow 0)).Perm ([1] ++ List.replicate 32 0) := by
  refine (clipN_perm 3 3 _ _ starRow_dark).trans ?_
  rw [clipN, clip_top 64 16 [16, 4, 1] 32 (by intro x hx; fin_cases hx <;> norm_num) (by simp) (by norm_num)
      (by rw [rVar_zeros _ _ (by norm_num)]; norm_num) (by rw [rVar_zeros _ _ (by norm_num)]; norm_num),
    clipN, clip_top 16 4 [4, 1] 32 (by intro x hx; fin_cases hx <;> norm_num) (by simp) (by norm_num)
      (by rw [rVar_zeros _ _ (by norm_num)]; norm_num) (by rw [rVar_zeros _ _ (by norm_num)]; norm_num),
    clipN, clip_top 4 1 [1] 32 (by intro x hx; fin_cases hx; norm_num) (by simp) (by norm_num)
      (by rw [rVar_zeros _ _ (by norm_num)]; norm_num) (by rw [rVar_zeros _ _ (by norm_num)]; norm_num)]
  exact List.Perm.refl _

/-- **C142 (hidden star).** Three rounds remove three stars of decreasing brightness, not the fourth, whose deviation then
hides the fifth: with a star of 256 elsewhere in the row the star of 1, in an otherwise empty sky, is not detected; without the
star of 256 it is. -/
theorem bright_hides_faint (tol : ℝ) (h0 : 0 ≤ tol) (h1 : tol ≤ 1 / 100) (mean std mean' std' : ℚ)
    (h : Clipped tol (starRow 256) mean std) (h' : Clipped tol (starRow 0) mean' std') :
    (detected (starRow 256) mean std (5 / 2)).px 0 8 = false ∧ (detected (starRow 0) mean' std' (5 / 2)).px 0 8 = true := by
  constructor
  · by_contra hc
    have hd := (detected_real tol (by linarith) _ mean std (5 / 2) h (by norm_num) 0 8 (by simpa using hc)).1
    rw [rMean_perm _ _ starRow_kept_bright, rStd_perm _ _ starRow_kept_bright] at hd
    have hp : (((starRow 256).px 0 8 : ℚ) : ℝ) = 1 := by norm_num [starRow]
    have hm : (0 : ℝ) ≤ rMean ([4, 1] ++ List.replicate 31 0) := by unfold rMean; norm_num
    have hs : (1 / 2 : ℝ) ≤ rStd ([4, 1] ++ List.replicate 31 0) := by
      apply Real.le_sqrt_of_sq_le
      rw [rVar_zeros _ _ (by norm_num)]
      norm_num
    rw [hp] at hd
    generalize rMean ([4, 1] ++ List.replicate 31 0) = m at *
    generalize rStd ([4, 1] ++ List.replicate 31 0) = q at *
    push_cast at hd
    nlinarith
  · rw [detected_iff _ _ _ _ (h'.std_nonneg (by linarith))]
    have hp : (starRow 0).px 0 8 = 1 := by norm_num [starRow]
    have hm : (mean' : ℝ) = 1 / 33 := by
      rw [h'.mean_eq, rMean_perm _ _ starRow_kept_dark, rMean]
      norm_num
    have hs : rStd ([1] ++ List.replicate 32 0) ≤ (1 / 5 : ℝ) := by
      unfold rStd
      rw [Real.sqrt_le_left (by norm_num), rVar_zeros _ _ (by norm_num)]
      norm_num
    have hs2 := h'.hi
    rw [rStd_perm _ _ starRow_kept_dark] at hs2
    have hs3 : (std' : ℝ) ≤ 101 / 500 := by nlinarith [Real.sqrt_nonneg (rVar ([1] ++ List.replicate 32 0))]
    have : ((cutLevel mean' std' (5 / 2) : ℚ) : ℝ) < 1 := by
      unfold cutLevel
      split
      · rw [hm]; norm_num
      · push_cast
        rw [hm]
        linarith
    rw [hp]
    exact_mod_cast this

/-- Worked instance of the theorems on stars: the brightest star of the row, with the others as the rest. -/
example (tol : ℝ) (h0 : 0 ≤ tol) (h1 : tol ≤ 1 / 100) (mean std : ℚ) (h : Clipped tol (starRow 320) mean std) :
    (detected (starRow 320) mean std 3).px 0 0 = true := by
  refine one_star_found tol h0 h1 (starRow 320) mean std 3 h 0 64 0 0 (by decide) (by decide) (by decide) ?_ (by norm_num)
    (by norm_num [starRow]) (by norm_num [starRow]) (by norm_num) le_rfl
  intro p hp q hq hne
  have hp0 : p = 0 := by have : p < 1 := hp; omega
  have hq0 : q ≠ 0 := fun e => hne (by rw [hp0, e])
  simp only [starRow, if_neg hq0]
  constructor <;> (repeat' split) <;> norm_num

/-- The default threshold on the row: at most 24 of its 36 pixels. -/
example (mean std : ℚ) (h : Clipped (1 / 100) (starRow 256) mean std) : numDetected (starRow 256) mean std (5 / 2) ≤ 24 := by
  obtain ⟨label, hL⟩ := labelling_exists
  have := (maxima_default_bound (1 / 100) le_rfl label hL (starRow 256) mean std 5 (by decide) h).1
  have e : (starRow 256).h * (starRow 256).w = 36 := rfl
  omega

end PI
