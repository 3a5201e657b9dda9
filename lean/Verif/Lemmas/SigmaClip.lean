import Verif.Model.GaussPsf
import Mathlib.Data.List.GetD
import Mathlib.Algebra.Order.BigOperators.Group.List
import Mathlib.Algebra.BigOperators.Ring.List
import Mathlib.Tactic.Linarith
import Mathlib.Tactic.Positivity
import Mathlib.Tactic.FieldSimp
import Mathlib.Tactic.Ring

/-! # Sigma clipping never removes everything -/

namespace PI

theorem sortR_perm (l : List ℝ) : (sortR l).Perm l := List.perm_insertionSort _ _

theorem sortR_length (l : List ℝ) : (sortR l).length = l.length := (sortR_perm l).length_eq

theorem sortR_mono (l : List ℝ) (i j : ℕ) (hij : i ≤ j) (hj : j < l.length) :
    (sortR l).getD i 0 ≤ (sortR l).getD j 0 := by
  have hj' : j < (sortR l).length := by rw [sortR_length]; exact hj
  rw [List.getD_eq_getElem _ _ (lt_of_le_of_lt hij hj'), List.getD_eq_getElem _ _ hj']
  have hp : (sortR l).Pairwise (· ≤ ·) := List.pairwise_insertionSort _ _
  rcases Nat.lt_or_eq_of_le hij with h | h
  · exact (List.pairwise_iff_getElem.1 hp) i j _ hj' h
  · subst h; exact le_refl _

theorem sortR_eq_of_perm (l l' : List ℝ) (h : l.Perm l') : sortR l = sortR l' := by
  refine List.Perm.eq_of_pairwise' (r := (· ≤ ·)) (List.pairwise_insertionSort _ _)
    (List.pairwise_insertionSort _ _) ?_
  exact ((sortR_perm l).trans h).trans (sortR_perm l').symm

/-! ## Counting on the two sides of the median -/

theorem length_le_countP_drop (p : ℝ → Bool) (s : List ℝ) (k : ℕ)
    (h : ∀ i, k ≤ i → i < s.length → p (s.getD i 0) = true) : s.length - k ≤ s.countP p := by
  have h1 : (s.drop k).countP p = (s.drop k).length := by
    rw [List.countP_eq_length]
    intro x hx
    obtain ⟨i, hi, rfl⟩ := List.mem_iff_getElem.1 hx
    rw [List.length_drop] at hi
    rw [List.getElem_drop]
    have := h (k + i) (by omega) (by omega)
    rwa [List.getD_eq_getElem _ _ (by omega)] at this
  have h2 : (s.drop k).countP p ≤ s.countP p := (List.drop_sublist k s).countP_le
  rw [h1, List.length_drop] at h2
  exact h2

theorem length_le_countP_take (p : ℝ → Bool) (s : List ℝ) (k : ℕ) (hk : k ≤ s.length)
    (h : ∀ i < k, p (s.getD i 0) = true) : k ≤ s.countP p := by
  have h1 : (s.take k).countP p = (s.take k).length := by
    rw [List.countP_eq_length]
    intro x hx
    obtain ⟨i, hi, rfl⟩ := List.mem_iff_getElem.1 hx
    rw [List.length_take] at hi
    rw [List.getElem_take]
    have := h i (by omega)
    rwa [List.getD_eq_getElem _ _ (by omega)] at this
  have h2 : (s.take k).countP p ≤ s.countP p := (List.take_sublist k s).countP_le
  rw [h1, List.length_take] at h2
  omega

open Classical in
theorem median_half (l : List ℝ) (hl : l ≠ []) :
    l.length ≤ 2 * l.countP (fun x => decide (rMedian l ≤ x)) ∧
      l.length ≤ 2 * l.countP (fun x => decide (x ≤ rMedian l)) := by
  have hn : 0 < l.length := List.length_pos_iff.2 hl
  rw [← (sortR_perm l).countP_eq, ← (sortR_perm l).countP_eq]
  have hsl := sortR_length l
  have up := length_le_countP_drop (fun x => decide (rMedian l ≤ x)) (sortR l) (l.length / 2) (by
    intro i hi hi'
    rw [hsl] at hi'
    rw [decide_eq_true_eq]
    have h1 := sortR_mono l _ _ hi hi'
    refine le_trans ?_ h1
    unfold rMedian
    simp only [hsl]
    split
    · exact le_refl _
    · have := sortR_mono l (l.length / 2 - 1) (l.length / 2) (by omega) (by omega)
      linarith)
  have dn := length_le_countP_take (fun x => decide (x ≤ rMedian l)) (sortR l) (l.length - l.length / 2)
    (by omega) (by
    intro i hi
    rw [decide_eq_true_eq]
    unfold rMedian
    simp only [hsl]
    split
    · exact sortR_mono l _ _ (by omega) (by omega)
    · have h0 := sortR_mono l i (l.length / 2 - 1) (by omega) (by omega)
      have := sortR_mono l (l.length / 2 - 1) (l.length / 2) (by omega) (by omega)
      linarith)
  rw [hsl] at up
  constructor <;> omega

/-! ## Mean and median are within one standard deviation -/

theorem sum_filter_add (p : ℝ → Bool) (f : ℝ → ℝ) (l : List ℝ) :
    (l.map f).sum = ((l.filter p).map f).sum + ((l.filter fun x => !p x).map f).sum := by
  induction l with
  | nil => simp
  | cons a l ih =>
    rw [List.map_cons, List.sum_cons, ih]
    cases h : p a <;> simp [h] <;> ring

/-- Cauchy-Schwarz for lists: `(Σ x)² ≤ n Σ x²`. -/
theorem sq_sum_le (l : List ℝ) : l.sum ^ 2 ≤ l.length * (l.map fun x => x ^ 2).sum := by
  induction l with
  | nil => simp
  | cons a l ih =>
    rw [List.sum_cons, List.map_cons, List.sum_cons, List.length_cons]
    push_cast
    have h : 2 * a * l.sum ≤ l.length * a ^ 2 + (l.map fun x => x ^ 2).sum := by
      rcases Nat.eq_zero_or_pos l.length with h0 | h0
      · have : l = [] := List.length_eq_zero_iff.1 h0
        subst this; simp
      · have hn : (0 : ℝ) < l.length := by exact_mod_cast h0
        have : l.length * (2 * a * l.sum) ≤ l.length * (l.length * a ^ 2 + (l.map fun x => x ^ 2).sum) := by
          nlinarith [sq_nonneg (l.length * a - l.sum)]
        exact le_of_mul_le_mul_left this hn
    nlinarith

theorem sum_ge_count (l : List ℝ) (d : ℝ) (h : ∀ x ∈ l, d ≤ x) : l.length * d ≤ l.sum := by
  have := List.card_nsmul_le_sum l d h
  rwa [nsmul_eq_mul] at this

/-- If at least half of a list of sum zero is at least `d ≥ 0`, then `n d² ≤ Σ x²`. -/
theorem half_above (l : List ℝ) (h0 : l.sum = 0) (d : ℝ) (hd : 0 ≤ d) (p : ℝ → Bool)
    (hp : ∀ x, p x = true → d ≤ x) (hc : l.length ≤ 2 * l.countP p) :
    l.length * d ^ 2 ≤ (l.map fun x => x ^ 2).sum := by
  have hsplit := sum_filter_add p (fun x => x ^ 2) l
  have hs1 := sum_filter_add p (fun x => x) l
  rw [List.map_id', List.map_id', List.map_id', h0] at hs1
  have q1 := sq_sum_le (l.filter p)
  have q2 := sq_sum_le (l.filter fun x => !p x)
  have g := sum_ge_count (l.filter p) d (fun x hx => hp x (List.mem_filter.1 hx).2)
  have hlen : l.length = (l.filter p).length + (l.filter fun x => !p x).length := by
    rw [← List.countP_eq_length_filter, ← List.countP_eq_length_filter]
    rw [List.length_eq_countP_add_countP p]
    congr 2
    funext x
    cases p x <;> rfl
  rw [List.countP_eq_length_filter] at hc
  have nn : ∀ l : List ℝ, 0 ≤ (l.map fun x => x ^ 2).sum := by
    intro l
    refine List.sum_nonneg fun y hy => ?_
    obtain ⟨x, _, rfl⟩ := List.mem_map.1 hy
    exact sq_nonneg x
  have hA0 := nn (l.filter p)
  have hB0 := nn (l.filter fun x => !p x)
  rw [hsplit, hlen]
  push_cast
  generalize (l.filter p).length = k at *
  generalize (l.filter fun x => !p x).length = m at *
  generalize ((l.filter p).map fun x => x ^ 2).sum = A at *
  generalize ((l.filter fun x => !p x).map fun x => x ^ 2).sum = B at *
  generalize (l.filter p).sum = S at *
  have hT : (l.filter fun x => !p x).sum = -S := by linarith
  rw [hT] at q2
  have hmk : (m : ℝ) ≤ k := by
    have : m ≤ k := by omega
    exact_mod_cast this
  have hm0 : (0 : ℝ) ≤ m := Nat.cast_nonneg m
  have hS : (k * d) ^ 2 ≤ S ^ 2 := by
    have : 0 ≤ (k : ℝ) * d := by positivity
    nlinarith
  rcases Nat.eq_zero_or_pos k with hk | hk
  · have : m = 0 := by omega
    subst hk; subst this
    push_cast
    nlinarith
  · have hk0 : (0 : ℝ) < k := by exact_mod_cast hk
    have hA : k * d ^ 2 ≤ A := by
      have : k * (k * d ^ 2) ≤ k * A := by nlinarith
      exact le_of_mul_le_mul_left this hk0
    rcases Nat.eq_zero_or_pos m with hm | hm
    · subst hm
      push_cast
      linarith
    · have hm1 : (0 : ℝ) < m := by exact_mod_cast hm
      have hB : m * d ^ 2 ≤ B := by
        have : m * (m * d ^ 2) ≤ m * B := by nlinarith [mul_le_mul hmk hmk hm0 hk0.le]
        exact le_of_mul_le_mul_left this hm1
      linarith

theorem sum_sub_const (l : List ℝ) (c : ℝ) : (l.map fun x => x - c).sum = l.sum - l.length * c := by
  induction l with
  | nil => simp
  | cons a l ih =>
    rw [List.map_cons, List.sum_cons, ih, List.sum_cons, List.length_cons]
    push_cast
    ring

theorem sum_const_sub (l : List ℝ) (c : ℝ) : (l.map fun x => c - x).sum = l.length * c - l.sum := by
  induction l with
  | nil => simp
  | cons a l ih =>
    rw [List.map_cons, List.sum_cons, ih, List.sum_cons, List.length_cons]
    push_cast
    ring

theorem rMean_mul (l : List ℝ) (hl : l ≠ []) : rMean l * l.length = l.sum := by
  have : (l.length : ℝ) ≠ 0 := by
    exact_mod_cast (List.length_pos_iff.2 hl).ne'
  unfold rMean
  field_simp

theorem rVar_nonneg (l : List ℝ) : 0 ≤ rVar l := by
  unfold rVar
  refine div_nonneg (List.sum_nonneg fun y hy => ?_) (Nat.cast_nonneg _)
  obtain ⟨x, _, rfl⟩ := List.mem_map.1 hy
  exact sq_nonneg _

/-- The median is within one standard deviation of the mean. -/
theorem median_near_mean (l : List ℝ) (hl : l ≠ []) : (rMedian l - rMean l) ^ 2 ≤ rVar l := by
  classical
  have hn : (0 : ℝ) < l.length := by exact_mod_cast List.length_pos_iff.2 hl
  obtain ⟨hu, hd⟩ := median_half l hl
  unfold rVar
  rw [le_div_iff₀ hn, mul_comm]
  rcases le_total (rMean l) (rMedian l) with h | h
  · have := half_above (l.map fun x => x - rMean l) (by rw [sum_sub_const, ← rMean_mul l hl]; ring)
      (rMedian l - rMean l) (by linarith) (fun y => decide (rMedian l - rMean l ≤ y))
      (fun x hx => by simpa using hx) (by
        rw [List.length_map, List.countP_map]
        refine le_trans hu (Nat.mul_le_mul_left 2 (le_of_eq (List.countP_congr fun x _ => ?_)))
        simp)
    rw [List.length_map, List.map_map] at this
    exact this
  · have := half_above (l.map fun x => rMean l - x) (by rw [sum_const_sub, ← rMean_mul l hl]; ring)
      (rMean l - rMedian l) (by linarith) (fun y => decide (rMean l - rMedian l ≤ y))
      (fun x hx => by simpa using hx) (by
        rw [List.length_map, List.countP_map]
        refine le_trans hd (Nat.mul_le_mul_left 2 (le_of_eq (List.countP_congr fun x _ => ?_)))
        simp only [decide_eq_true_eq, Function.comp]
        constructor <;> intro h <;> linarith)
    rw [List.length_map, List.map_map] at this
    have e : (l.map ((fun x => x ^ 2) ∘ fun x => rMean l - x)) = l.map fun x => (x - rMean l) ^ 2 := by
      refine List.map_congr_left fun x _ => ?_
      simp only [Function.comp]
      ring
    rw [e] at this
    linarith [this, show (rMedian l - rMean l) ^ 2 = (rMean l - rMedian l) ^ 2 by ring]

/-- At most `Σ x / t` entries can be at least `t`. -/
theorem countP_mul_le (l : List ℝ) (f : ℝ → ℝ) (p : ℝ → Bool) (t : ℝ) (h0 : ∀ x, 0 ≤ f x)
    (h : ∀ x ∈ l, p x = true → t ≤ f x) : l.countP p * t ≤ (l.map f).sum := by
  induction l with
  | nil => simp
  | cons a l ih =>
    have ih' := ih fun x hx => h x (List.mem_cons_of_mem _ hx)
    rw [List.map_cons, List.sum_cons, List.countP_cons]
    by_cases hp : p a = true
    · rw [if_pos hp]
      push_cast
      linarith [h a (List.mem_cons_self ..) hp]
    · rw [if_neg hp, Nat.add_zero]
      linarith [h0 a]

/-- A variance of zero means that all entries are the mean. -/
theorem eq_mean_of_var_zero (l : List ℝ) (h : rVar l = 0) (x : ℝ) (hx : x ∈ l) : x = rMean l := by
  have hn : (0 : ℝ) < l.length := by exact_mod_cast List.length_pos_of_mem hx
  unfold rVar at h
  have hs : (l.map fun x => (x - rMean l) ^ 2).sum = 0 := by
    rcases div_eq_zero_iff.1 h with h | h
    · exact h
    · exact absurd h hn.ne'
  have hz : (x - rMean l) ^ 2 ≤ (l.map fun x => (x - rMean l) ^ 2).sum := by
    refine List.single_le_sum ?_ _ (List.mem_map.2 ⟨x, hx, rfl⟩)
    intro y hy
    obtain ⟨z, _, rfl⟩ := List.mem_map.1 hy
    exact sq_nonneg _
  rw [hs] at hz
  have := pow_eq_zero_iff (two_ne_zero) |>.1 (le_antisymm hz (sq_nonneg _))
  linarith

/-- One iteration at three sigma keeps at least three quarters of the values. -/
theorem clipStep_keeps (l : List ℝ) (hl : l ≠ []) : 3 * l.length ≤ 4 * (clipStep 3 l).length := by
  classical
  have hn0 : 0 < l.length := List.length_pos_iff.2 hl
  have hn : (0 : ℝ) < l.length := by exact_mod_cast hn0
  have hv := rVar_nonneg l
  have hmm := median_near_mean l hl
  have hstd : rStd l ^ 2 = rVar l := Real.sq_sqrt hv
  have hs0 : 0 ≤ rStd l := Real.sqrt_nonneg _
  set keep : ℝ → Bool := fun x =>
    decide (¬ x < rMedian l - 3 * rStd l ∧ ¬ rMedian l + 3 * rStd l < x) with hkeep
  have hlen : l.length = l.countP keep + l.countP (fun x => decide ¬ keep x = true) :=
    List.length_eq_countP_add_countP keep
  have hcl : (clipStep 3 l).length = l.countP keep := by
    rw [List.countP_eq_length_filter, hkeep]
    unfold clipStep
    congr
  have habs : |rMedian l - rMean l| ≤ rStd l := Real.abs_le_sqrt hmm
  have hab := abs_le.1 habs
  have hfar : ∀ x ∈ l, decide (¬ keep x = true) = true → 4 * rVar l < (x - rMean l) ^ 2 := by
    intro x hx hk
    rw [decide_eq_true_eq, hkeep, decide_eq_true_eq] at hk
    by_cases h1 : x < rMedian l - 3 * rStd l
    · rw [← hstd]
      nlinarith [hab.1, hab.2]
    · by_cases h2 : rMedian l + 3 * rStd l < x
      · rw [← hstd]
        nlinarith [hab.1, hab.2]
      · exact absurd ⟨h1, h2⟩ hk
  rcases hv.lt_or_eq with hpos | hzero
  · have hc := countP_mul_le l (fun x => (x - rMean l) ^ 2) (fun x => decide ¬ keep x = true) (4 * rVar l)
      (fun x => sq_nonneg _) (fun x hx hk => (hfar x hx hk).le)
    have hvar : (l.map fun x => (x - rMean l) ^ 2).sum = l.length * rVar l := by
      unfold rVar; field_simp
    rw [hvar] at hc
    have h4 : 4 * l.countP (fun x => decide ¬ keep x = true) ≤ l.length := by
      have : (4 * l.countP (fun x => decide ¬ keep x = true) : ℝ) ≤ l.length := by
        by_contra hlt
        push Not at hlt
        nlinarith
      exact_mod_cast this
    omega
  · have hc : l.countP (fun x => decide ¬ keep x = true) = 0 := by
      rw [List.countP_eq_zero]
      intro x hx hk
      have h1 := hfar x hx hk
      rw [eq_mean_of_var_zero l hzero.symm x hx, ← hzero] at h1
      simp at h1
    omega

theorem clipStep_ne_nil (l : List ℝ) (hl : l ≠ []) : clipStep 3 l ≠ [] := by
  intro h
  have := clipStep_keeps l hl
  have hn : 0 < l.length := List.length_pos_iff.2 hl
  rw [h, List.length_nil] at this
  omega

theorem clipN_ne_nil (n : ℕ) (l : List ℝ) (hl : l ≠ []) : clipN 3 n l ≠ [] := by
  induction n generalizing l with
  | zero => exact hl
  | succ n ih => exact ih _ (clipStep_ne_nil l hl)

theorem clipN_sublist (s : ℝ) (n : ℕ) (l : List ℝ) : (clipN s n l).Sublist l := by
  induction n generalizing l with
  | zero => exact List.Sublist.refl _
  | succ n ih => exact (ih _).trans (List.filter_sublist ..)

theorem sum_le_count (l : List ℝ) (d : ℝ) (h : ∀ x ∈ l, x ≤ d) : l.sum ≤ l.length * d := by
  have := List.sum_le_card_nsmul l d h
  rwa [nsmul_eq_mul] at this

theorem rMean_between (l : List ℝ) (hl : l ≠ []) (a b : ℝ) (h : ∀ x ∈ l, a ≤ x ∧ x ≤ b) :
    a ≤ rMean l ∧ rMean l ≤ b := by
  have hn : (0 : ℝ) < l.length := by exact_mod_cast List.length_pos_iff.2 hl
  unfold rMean
  rw [le_div_iff₀ hn, div_le_iff₀ hn]
  exact ⟨by linarith [sum_ge_count l a fun x hx => (h x hx).1],
    by linarith [sum_le_count l b fun x hx => (h x hx).2]⟩

/-- The clipped mean lies between any bounds of the values. -/
theorem clippedMean_between (l : List ℝ) (hl : l ≠ []) (a b : ℝ) (h : ∀ x ∈ l, a ≤ x ∧ x ≤ b) :
    a ≤ clippedMean l ∧ clippedMean l ≤ b :=
  rMean_between _ (clipN_ne_nil 5 l hl) a b fun x hx => h x ((clipN_sublist 3 5 l).subset hx)

/-! ## The order of the values does not matter -/

theorem rMean_perm (l l' : List ℝ) (h : l.Perm l') : rMean l = rMean l' := by
  unfold rMean; rw [h.sum_eq, h.length_eq]

theorem rVar_perm (l l' : List ℝ) (h : l.Perm l') : rVar l = rVar l' := by
  unfold rVar; rw [rMean_perm l l' h, (h.map _).sum_eq, h.length_eq]

theorem rMedian_perm (l l' : List ℝ) (h : l.Perm l') : rMedian l = rMedian l' := by
  unfold rMedian; rw [sortR_eq_of_perm l l' h]

theorem clipStep_perm (s : ℝ) (l l' : List ℝ) (h : l.Perm l') : (clipStep s l).Perm (clipStep s l') := by
  unfold clipStep rStd
  rw [rMedian_perm l l' h, rVar_perm l l' h]
  exact h.filter _

theorem clipN_perm (s : ℝ) (n : ℕ) (l l' : List ℝ) (h : l.Perm l') :
    (clipN s n l).Perm (clipN s n l') := by
  induction n generalizing l l' with
  | zero => exact h
  | succ n ih => exact ih _ _ (clipStep_perm s l l' h)

theorem clippedMean_perm (l l' : List ℝ) (h : l.Perm l') : clippedMean l = clippedMean l' :=
  rMean_perm _ _ (clipN_perm 3 5 l l' h)

/-! ## Up to five values nothing is removed -/

/-- Samuelson's inequality: no value is further than `√(n-1)` standard deviations from the mean. -/
theorem samuelson (l : List ℝ) (x : ℝ) (hx : x ∈ l) :
    (x - rMean l) ^ 2 ≤ (l.length - 1 : ℕ) * rVar l := by
  have hl : l ≠ [] := List.ne_nil_of_mem hx
  have hp : l.Perm (x :: l.erase x) := List.perm_cons_erase hx
  have hn : (0 : ℝ) < l.length := by exact_mod_cast List.length_pos_iff.2 hl
  have hvar : (l.map fun y => (y - rMean l) ^ 2).sum = l.length * rVar l := by
    unfold rVar; field_simp
  have hsum : (l.map fun y => y - rMean l).sum = 0 := by rw [sum_sub_const, ← rMean_mul l hl]; ring
  have hlen : l.length = (l.erase x).length + 1 := by rw [hp.length_eq, List.length_cons]
  rw [(hp.map _).sum_eq, List.map_cons, List.sum_cons] at hvar hsum
  have q := sq_sum_le ((l.erase x).map fun y => y - rMean l)
  rw [List.map_map, List.length_map] at q
  have e : ((l.erase x).map ((fun x => x ^ 2) ∘ fun y => y - rMean l)).sum =
      ((l.erase x).map fun y => (y - rMean l) ^ 2).sum := rfl
  rw [e] at q
  have e2 : (l.length - 1 : ℕ) = (l.erase x).length := by omega
  rw [e2]
  have e3 : (l.length : ℝ) = (l.erase x).length + 1 := by exact_mod_cast hlen
  generalize rMean l = μ at *
  generalize rVar l = v at *
  generalize ((l.erase x).map fun y => (y - μ) ^ 2).sum = B at *
  generalize ((l.erase x).map fun y => y - μ).sum = S at *
  have hS : S = -(x - μ) := by linarith
  rw [hS] at q
  rw [e3] at hvar hn
  have hB : B = ((l.erase x).length + 1) * v - (x - μ) ^ 2 := by linarith
  rw [hB] at q
  have : ((l.erase x).length + 1) * (x - μ) ^ 2 ≤ ((l.erase x).length + 1) * ((l.erase x).length * v) := by
    nlinarith
  exact le_of_mul_le_mul_left this hn

theorem clipStep_five (l : List ℝ) (h5 : l.length ≤ 5) : clipStep 3 l = l := by
  classical
  unfold clipStep
  rw [List.filter_eq_self]
  intro x hx
  rw [decide_eq_true_eq]
  have hl : l ≠ [] := List.ne_nil_of_mem hx
  have hv := rVar_nonneg l
  have h1 := samuelson l x hx
  have h2 : ((l.length - 1 : ℕ) : ℝ) ≤ 4 := by
    have : l.length - 1 ≤ 4 := by omega
    exact_mod_cast this
  have h3 : (x - rMean l) ^ 2 ≤ (2 * rStd l) ^ 2 := by
    have hstd : rStd l ^ 2 = rVar l := Real.sq_sqrt hv
    rw [mul_pow, hstd]
    nlinarith
  have hs0 : 0 ≤ rStd l := Real.sqrt_nonneg _
  have h4 := abs_le_of_sq_le_sq' h3 (by linarith)
  have h5 := abs_le.1 (Real.abs_le_sqrt (median_near_mean l hl))
  change -(rStd l) ≤ _ ∧ _ ≤ rStd l at h5
  constructor <;> intro h <;> linarith [h4.1, h4.2, h5.1, h5.2]

theorem clippedMean_five (l : List ℝ) (h5 : l.length ≤ 5) : clippedMean l = rMean l := by
  unfold clippedMean
  simp only [clipN, clipStep_five l h5]

/-! ## Change of unit, origin and direction -/

theorem getD_map_lt (f : ℝ → ℝ) (l : List ℝ) (i : ℕ) (hi : i < l.length) :
    (l.map f).getD i 0 = f (l.getD i 0) := by
  rw [List.getD_eq_getElem _ _ (by rw [List.length_map]; exact hi), List.getD_eq_getElem _ _ hi,
    List.getElem_map]

theorem sortR_map_mono (f : ℝ → ℝ) (hf : ∀ x y, x ≤ y → f x ≤ f y) (l : List ℝ) :
    sortR (l.map f) = (sortR l).map f := by
  refine List.Perm.eq_of_pairwise' (r := (· ≤ ·)) (List.pairwise_insertionSort _ _) ?_ ?_
  · rw [List.pairwise_map]
    exact (List.pairwise_insertionSort (· ≤ ·) l).imp fun h => hf _ _ h
  · exact (sortR_perm _).trans ((sortR_perm l).symm.map f)

theorem sortR_map_anti (f : ℝ → ℝ) (hf : ∀ x y, x ≤ y → f y ≤ f x) (l : List ℝ) :
    sortR (l.map f) = ((sortR l).map f).reverse := by
  refine List.Perm.eq_of_pairwise' (r := (· ≤ ·)) (List.pairwise_insertionSort _ _) ?_ ?_
  · rw [List.pairwise_reverse, List.pairwise_map]
    exact (List.pairwise_insertionSort (· ≤ ·) l).imp fun h => hf _ _ h
  · exact (sortR_perm _).trans (((sortR_perm l).symm.map f).trans (List.reverse_perm _).symm)

/-- The median follows every change of unit, origin and direction. -/
theorem rMedian_affine (a b : ℝ) (l : List ℝ) (hl : l ≠ []) :
    rMedian (l.map fun x => a * x + b) = a * rMedian l + b := by
  have hn : 0 < l.length := List.length_pos_iff.2 hl
  have hsl := sortR_length l
  rcases le_total 0 a with ha | ha
  · have hs := sortR_map_mono (fun x => a * x + b) (fun x y h => by nlinarith) l
    unfold rMedian
    rw [hs]
    simp only [List.length_map, hsl]
    split
    · rw [getD_map_lt _ _ _ (by omega)]
    · rw [getD_map_lt _ _ _ (by omega), getD_map_lt _ _ _ (by omega)]
      ring
  · have hs := sortR_map_anti (fun x => a * x + b) (fun x y h => by nlinarith) l
    have rev : ∀ i < l.length, (((sortR l).map fun x => a * x + b).reverse).getD i 0 =
        a * (sortR l).getD (l.length - 1 - i) 0 + b := by
      intro i hi
      rw [List.getD_eq_getElem _ _ (by rw [List.length_reverse, List.length_map, hsl]; exact hi),
        List.getElem_reverse, List.getElem_map, List.getD_eq_getElem _ _ (by rw [hsl]; omega)]
      simp only [List.length_map, hsl]
    unfold rMedian
    rw [hs]
    simp only [List.length_reverse, List.length_map, hsl]
    split
    · rw [rev _ (by omega), show l.length - 1 - l.length / 2 = l.length / 2 by omega]
    · rw [rev _ (by omega), rev _ (by omega), show l.length - 1 - (l.length / 2 - 1) = l.length / 2 by omega,
        show l.length - 1 - l.length / 2 = l.length / 2 - 1 by omega]
      ring

theorem rMean_affine (a b : ℝ) (l : List ℝ) (hl : l ≠ []) :
    rMean (l.map fun x => a * x + b) = a * rMean l + b := by
  have hn : (l.length : ℝ) ≠ 0 := by exact_mod_cast (List.length_pos_iff.2 hl).ne'
  unfold rMean
  have : (l.map fun x => a * x + b).sum = a * l.sum + l.length * b := by
    clear hl hn
    induction l with
    | nil => simp
    | cons x l ih =>
      rw [List.map_cons, List.sum_cons, ih, List.sum_cons, List.length_cons]
      push_cast
      ring
  rw [this, List.length_map]
  field_simp

theorem rStd_affine (a b : ℝ) (l : List ℝ) (hl : l ≠ []) :
    rStd (l.map fun x => a * x + b) = |a| * rStd l := by
  have : rVar (l.map fun x => a * x + b) = a ^ 2 * rVar l := by
    unfold rVar
    rw [rMean_affine a b l hl, List.map_map, List.length_map, ← mul_div_assoc, ← List.sum_map_mul_left]
    congr 2
    refine List.map_congr_left fun x _ => ?_
    simp only [Function.comp]
    ring
  unfold rStd
  rw [this, Real.sqrt_mul (sq_nonneg a), Real.sqrt_sq_eq_abs]

theorem clipStep_affine (a b s : ℝ) (ha : a ≠ 0) (l : List ℝ) :
    clipStep s (l.map fun x => a * x + b) = (clipStep s l).map fun x => a * x + b := by
  classical
  rcases eq_or_ne l [] with rfl | hl
  · simp [clipStep]
  unfold clipStep
  rw [List.filter_map, rMedian_affine a b l hl, rStd_affine a b l hl]
  congr 1
  refine List.filter_congr fun x _ => ?_
  simp only [Function.comp]
  refine decide_eq_decide.2 ?_
  rw [not_lt, not_lt, not_lt, not_lt]
  rcases lt_or_gt_of_ne ha with h | h
  · rw [abs_of_neg h]
    constructor
    · rintro ⟨h1, h2⟩
      constructor <;> nlinarith
    · rintro ⟨h1, h2⟩
      constructor <;> nlinarith
  · rw [abs_of_pos h]
    constructor
    · rintro ⟨h1, h2⟩
      constructor <;> nlinarith
    · rintro ⟨h1, h2⟩
      constructor <;> nlinarith

theorem clipN_affine (a b s : ℝ) (ha : a ≠ 0) (n : ℕ) (l : List ℝ) :
    clipN s n (l.map fun x => a * x + b) = (clipN s n l).map fun x => a * x + b := by
  induction n generalizing l with
  | zero => rfl
  | succ n ih => rw [clipN, clipN, clipStep_affine a b s ha, ih]

/-- The clipped mean follows every change of unit, origin and direction. -/
theorem clippedMean_affine (a b : ℝ) (ha : a ≠ 0) (l : List ℝ) (hl : l ≠ []) :
    clippedMean (l.map fun x => a * x + b) = a * clippedMean l + b := by
  unfold clippedMean
  rw [clipN_affine a b 3 ha, rMean_affine a b _ (clipN_ne_nil 5 l hl)]

end PI
