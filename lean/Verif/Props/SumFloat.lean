import Verif.Model.SumFloat
import Verif.Props.CoaddFloat
import Verif.Props.SimPsf
import Verif.Model.KL

/-!
# Property C174: the unit totals of PSFs in floating point
-/

namespace PI

open Finset

/-! ## Sums in any order -/

/-- In exact arithmetic the plan gives the sum of the first `n` numbers. -/
def SumPlan.Sums (t : SumPlan) (n : ℕ) : Prop := ∀ x : ℕ → ℝ, t.eval id x = ∑ k ∈ range n, x k

theorem plan_abs_nonneg (t : SumPlan) (x : ℕ → ℝ) : 0 ≤ t.eval id fun k => |x k| := by
  induction t with
  | leaf k => exact abs_nonneg _
  | node a b ha hb => exact add_nonneg ha hb

theorem plan_le_abs (t : SumPlan) (x : ℕ → ℝ) : |t.eval id x| ≤ t.eval id fun k => |x k| := by
  induction t with
  | leaf k => exact le_rfl
  | node a b ha hb => exact (abs_add_le _ _).trans (add_le_add ha hb)

/-- The error of a sum, whatever the order of the additions. -/
theorem plan_error {rnd : ℝ → ℝ} {u : ℝ} (hu : 0 ≤ u) (hr : RelErr rnd u) (x : ℕ → ℝ) (t : SumPlan) :
    |t.eval rnd x - t.eval id x| ≤ ((1 + u) ^ t.depth - 1) * t.eval id fun k => |x k| := by
  induction t with
  | leaf k => simp [SumPlan.eval, SumPlan.depth]
  | node a b ha hb =>
    have na := plan_abs_nonneg a x
    have nb := plan_abs_nonneg b x
    have la := plan_le_abs a x
    have lb := plan_le_abs b x
    have pa := pow_u_mono hu (le_max_left a.depth b.depth)
    have pb := pow_u_mono hu (le_max_right a.depth b.depth)
    have p1 := one_le_pow_u hu (max a.depth b.depth)
    change |rnd (a.eval rnd x + b.eval rnd x) - (a.eval id x + b.eval id x)| ≤
      ((1 + u) ^ (max a.depth b.depth + 1) - 1) * ((a.eval id fun k => |x k|) + b.eval id fun k => |x k|)
    generalize (a.eval id fun k => |x k|) = A at *
    generalize (b.eval id fun k => |x k|) = B at *
    generalize (1 + u) ^ a.depth = ga at *
    generalize (1 + u) ^ b.depth = gb at *
    rw [pow_succ]
    generalize (1 + u) ^ max a.depth b.depth = g at *
    generalize a.eval rnd x = a' at *
    generalize b.eval rnd x = b' at *
    generalize a.eval id x = a0 at *
    generalize b.eval id x = b0 at *
    have h1 := hr (a' + b')
    have h2 : |a' - a0| ≤ (g - 1) * A := ha.trans (mul_le_mul_of_nonneg_right (by linarith) na)
    have h3 : |b' - b0| ≤ (g - 1) * B := hb.trans (mul_le_mul_of_nonneg_right (by linarith) nb)
    have h4 : |a'| ≤ g * A := by
      have := abs_add_le (a' - a0) a0
      rw [sub_add_cancel] at this
      linarith
    have h5 : |b'| ≤ g * B := by
      have := abs_add_le (b' - b0) b0
      rw [sub_add_cancel] at this
      linarith
    have h6 : |a' + b'| ≤ g * (A + B) := (abs_add_le _ _).trans (by linarith)
    have h7 := mul_le_mul_of_nonneg_left h6 hu
    have e : rnd (a' + b') - (a0 + b0) = (rnd (a' + b') - (a' + b')) + ((a' - a0) + (b' - b0)) := by ring
    rw [e]
    have h8 := abs_add_le (rnd (a' + b') - (a' + b')) ((a' - a0) + (b' - b0))
    have h9 := abs_add_le (a' - a0) (b' - b0)
    nlinarith

/-! ## numpy's order -/

theorem thenAdd_eval (x : ℕ → ℝ) (ks : List ℕ) : ∀ t : SumPlan, (t.thenAdd ks).eval id x = t.eval id x + (ks.map x).sum := by
  induction ks with
  | nil => intro t; simp [SumPlan.thenAdd]
  | cons k ks ih =>
    intro t
    have : t.thenAdd (k :: ks) = (SumPlan.node t (.leaf k)).thenAdd ks := rfl
    rw [this, ih, List.map_cons, List.sum_cons]
    change t.eval id x + x k + _ = _
    ring

theorem thenAdd_depth (ks : List ℕ) : ∀ t : SumPlan, (t.thenAdd ks).depth = t.depth + ks.length := by
  induction ks with
  | nil => intro t; rfl
  | cons k ks ih =>
    intro t
    have : t.thenAdd (k :: ks) = (SumPlan.node t (.leaf k)).thenAdd ks := rfl
    rw [this, ih, List.length_cons]
    change max t.depth 0 + 1 + _ = _
    omega

theorem listSum_range (x : ℕ → ℝ) (n : ℕ) : ((List.range n).map x).sum = ∑ i ∈ range n, x i := by
  induction n with
  | zero => simp
  | succ n ih => rw [List.range_succ, List.map_append, List.sum_append, ih, Finset.sum_range_succ]; simp

theorem lane_eval (x : ℕ → ℝ) (s m j : ℕ) : (lanePlan s m j).eval id x = ∑ i ∈ range (m + 1), x (s + j + 8 * i) := by
  unfold lanePlan
  rw [thenAdd_eval, List.map_map, listSum_range, Finset.sum_range_succ', add_comm]
  rfl

theorem lanes_sum (x : ℕ → ℝ) (s m : ℕ) : ∑ k ∈ range (8 * m), x (s + k) =
    ∑ i ∈ range m, x (s + 0 + 8 * i) + ∑ i ∈ range m, x (s + 1 + 8 * i) + ∑ i ∈ range m, x (s + 2 + 8 * i) +
    ∑ i ∈ range m, x (s + 3 + 8 * i) + ∑ i ∈ range m, x (s + 4 + 8 * i) + ∑ i ∈ range m, x (s + 5 + 8 * i) +
    ∑ i ∈ range m, x (s + 6 + 8 * i) + ∑ i ∈ range m, x (s + 7 + 8 * i) := by
  induction m with
  | zero => simp
  | succ m ih =>
    have e : 8 * (m + 1) = 8 * m + 1 + 1 + 1 + 1 + 1 + 1 + 1 + 1 := by ring
    rw [e]
    simp only [Finset.sum_range_succ, ih]
    have a : ∀ j, s + j + 8 * m = s + (8 * m + j) := fun j => by ring
    simp only [a]
    have b1 : 8 * m + 0 = 8 * m := rfl
    simp only [b1, add_assoc]
    norm_num
    ring

theorem block_eval (x : ℕ → ℝ) (s n : ℕ) (hn : 8 ≤ n) : (blockPlan s n).eval id x = ∑ k ∈ range n, x (s + k) := by
  unfold blockPlan
  rw [thenAdd_eval, List.map_map, listSum_range]
  have e : n = 8 * (n / 8) + n % 8 := (Nat.div_add_mod n 8).symm
  have m1 : n / 8 - 1 + 1 = n / 8 := by omega
  have l : ∀ j, (lanePlan s (n / 8 - 1) j).eval id x = ∑ i ∈ range (n / 8), x (s + j + 8 * i) := fun j => by rw [lane_eval, m1]
  change (lanePlan s (n / 8 - 1) 0).eval id x + (lanePlan s (n / 8 - 1) 1).eval id x +
    ((lanePlan s (n / 8 - 1) 2).eval id x + (lanePlan s (n / 8 - 1) 3).eval id x) +
    ((lanePlan s (n / 8 - 1) 4).eval id x + (lanePlan s (n / 8 - 1) 5).eval id x +
    ((lanePlan s (n / 8 - 1) 6).eval id x + (lanePlan s (n / 8 - 1) 7).eval id x)) + ∑ i ∈ range (n % 8), x (s + 8 * (n / 8) + i) = _
  simp only [l]
  conv_rhs => rw [e, Finset.sum_range_add, lanes_sum]
  have a : ∀ i, s + 8 * (n / 8) + i = s + (8 * (n / 8) + i) := fun i => by ring
  simp only [a]
  ring

theorem block_depth (s n : ℕ) : (blockPlan s n).depth = n / 8 - 1 + 3 + n % 8 := by
  unfold blockPlan
  rw [thenAdd_depth, List.length_map, List.length_range]
  have l : ∀ j, (lanePlan s (n / 8 - 1) j).depth = n / 8 - 1 := by
    intro j
    unfold lanePlan
    rw [thenAdd_depth, List.length_map, List.length_range]
    exact Nat.zero_add _
  simp only [SumPlan.depth, l, max_self]

/-- numpy's order adds up the `n` numbers from `s` on. -/
theorem numpy_eval (x : ℕ → ℝ) (n : ℕ) : ∀ s, 0 < n → (numpyPlan s n).eval id x = ∑ k ∈ range n, x (s + k) := by
  induction n using Nat.strong_induction_on with
  | _ n ih =>
    intro s hn
    rw [numpyPlan]
    split
    · rw [thenAdd_eval, List.map_map, listSum_range]
      obtain ⟨m, rfl⟩ : ∃ m, n = m + 1 := ⟨n - 1, by omega⟩
      rw [Finset.sum_range_succ', add_comm]
      have a : ∀ i, s + 1 + i = s + (i + 1) := fun i => by ring
      simp only [Function.comp, a]
      rfl
    · split
      · exact block_eval x s n (by omega)
      · change (numpyPlan s (n / 2 - n / 2 % 8)).eval id x +
          (numpyPlan (s + (n / 2 - n / 2 % 8)) (n - (n / 2 - n / 2 % 8))).eval id x = _
        rw [ih _ (by omega) s (by omega), ih _ (by omega) _ (by omega)]
        conv_rhs => rw [show n = (n / 2 - n / 2 % 8) + (n - (n / 2 - n / 2 % 8)) by omega, Finset.sum_range_add]
        simp only [add_assoc]

theorem numpy_sums (n : ℕ) (hn : 0 < n) : (numpyPlan 0 n).Sums n := by
  intro x
  rw [numpy_eval x n 0 hn]
  simp

/-- Its depth: up to `112·2^k + 16` numbers go through at most `26 + k` additions. -/
theorem numpy_depth (k : ℕ) : ∀ n s, n ≤ 112 * 2 ^ k + 16 → (numpyPlan s n).depth ≤ 26 + k := by
  induction k with
  | zero =>
    intro n s hn
    rw [numpyPlan]
    split
    · rw [thenAdd_depth, List.length_map, List.length_range]
      change 0 + (n - 1) ≤ _
      omega
    · rw [dif_pos (by omega), block_depth]
      omega
  | succ k ih =>
    intro n s hn
    by_cases h : n ≤ 128
    · have := ih n s (by
        have : 1 ≤ 2 ^ k := Nat.one_le_two_pow
        omega)
      omega
    · rw [numpyPlan, if_neg (by omega), dif_neg h]
      have e : 2 ^ (k + 1) = 2 * 2 ^ k := by rw [pow_succ]; ring
      rw [e] at hn
      have h1 := ih (n / 2 - n / 2 % 8) s (by omega)
      have h2 := ih (n - (n / 2 - n / 2 % 8)) (s + (n / 2 - n / 2 % 8)) (by omega)
      change max _ _ + 1 ≤ _
      omega

/-! ## An array divided by its sum -/

theorem flatFn_sum (a : Img ℝ) (f : ℝ → ℝ) :
    ∑ k ∈ range (a.h * a.w), f (a.flatFn k) = ∑ i ∈ range a.h, ∑ j ∈ range a.w, f (a.px i j) := by
  unfold Img.flatFn
  induction a.h with
  | zero => simp
  | succ h ih =>
    rw [Nat.succ_mul, Finset.sum_range_add, ih, Finset.sum_range_succ]
    congr 1
    refine Finset.sum_congr rfl fun j hj => ?_
    have hw : 0 < a.w := by
      have := mem_range.1 hj
      omega
    rw [Nat.mul_comm h a.w, Nat.mul_add_div hw, Nat.mul_add_mod, Nat.div_eq_of_lt (mem_range.1 hj),
      Nat.mod_eq_of_lt (mem_range.1 hj), add_zero]

/-- Without rounding this is the division by the sum of the other models. -/
theorem divSumR_exact (t : SumPlan) (a : Img ℝ) (ht : t.Sums (a.h * a.w)) : divSumR id t a = divSum a := by
  unfold divSumR divSum
  rw [ht a.flatFn, flatFn_sum a fun x => x]
  rfl

/-- … and of the PSF basis and of `get_psf_xy`. -/
theorem divSum_unitImg (a : Img ℝ) (h : imgSum a ≠ 0) : divSum a = some (unitImg a) := by
  unfold divSum
  exact if_neg h

section
variable (rnd : ℝ → ℝ) (u : ℝ) (hu : 0 ≤ u) (hr : RelErr rnd u) (t : SumPlan) (a : Img ℝ) (ht : t.Sums (a.h * a.w))
  (T A g : ℝ) (hT : T = ∑ i ∈ range a.h, ∑ j ∈ range a.w, a.px i j)
  (hA : A = ∑ i ∈ range a.h, ∑ j ∈ range a.w, |a.px i j|) (hg : g = (1 + u) ^ t.depth - 1)

include hu hr ht hT hA hg

theorem computed_sum : |t.eval rnd a.flatFn - T| ≤ g * A := by
  have e := plan_error hu hr a.flatFn t
  rw [ht a.flatFn, ht fun k => |a.flatFn k|, flatFn_sum a fun x => x, flatFn_sum a fun x => |x|, ← hT, ← hA, ← hg] at e
  exact e

/-- C174: an array divided by its computed sum: the total is one up to the rounding errors, magnified by the cancellation in the
sum, and so is every pixel. -/
theorem unit_total (hc : g * A < |T|) : ∃ q, divSumR rnd t a = some q ∧ q.h = a.h ∧ q.w = a.w ∧
    |∑ i ∈ range a.h, ∑ j ∈ range a.w, q.px i j - 1| ≤ (u + g) * A / (|T| - g * A) ∧
    ∀ i j, |q.px i j - a.px i j / T| ≤ (u * |T| + g * A) / (|T| - g * A) * |a.px i j / T| := by
  have cs := computed_sum rnd u hu hr t a ht T A g hT hA hg
  obtain ⟨S, hS⟩ : ∃ S, S = t.eval rnd a.flatFn := ⟨_, rfl⟩
  rw [← hS] at cs
  have low : |T| - g * A ≤ |S| := by
    have := abs_sub_abs_le_abs_sub T S
    rw [abs_sub_comm] at this
    linarith
  have dpos : 0 < |T| - g * A := by linarith
  have S0 : 0 < |S| := by linarith
  have Sn : S ≠ 0 := abs_pos.1 S0
  have A0 : 0 ≤ A := by rw [hA]; exact Finset.sum_nonneg fun _ _ => Finset.sum_nonneg fun _ _ => abs_nonneg _
  have g0 : 0 ≤ g := by rw [hg]; linarith [one_le_pow_u hu t.depth]
  have T0 : 0 < |T| := by nlinarith
  have Tn : T ≠ 0 := abs_pos.1 T0
  refine ⟨⟨a.h, a.w, fun i j => rnd (a.px i j / S)⟩, ?_, rfl, rfl, ?_, ?_⟩
  · unfold divSumR
    rw [← hS, if_neg Sn]
  · change |∑ i ∈ range a.h, ∑ j ∈ range a.w, rnd (a.px i j / S) - 1| ≤ _
    have e1 : ∑ i ∈ range a.h, ∑ j ∈ range a.w, rnd (a.px i j / S) - 1 =
        ∑ i ∈ range a.h, ∑ j ∈ range a.w, (rnd (a.px i j / S) - a.px i j / S) + (T - S) / S := by
      simp only [Finset.sum_sub_distrib, ← Finset.sum_div]
      rw [← hT]
      field_simp
      ring
    have e2 : |∑ i ∈ range a.h, ∑ j ∈ range a.w, (rnd (a.px i j / S) - a.px i j / S)| ≤ u * A / |S| := by
      calc _ ≤ ∑ i ∈ range a.h, ∑ j ∈ range a.w, u * |a.px i j| / |S| := by
            refine (Finset.abs_sum_le_sum_abs _ _).trans (Finset.sum_le_sum fun i _ => ?_)
            refine (Finset.abs_sum_le_sum_abs _ _).trans (Finset.sum_le_sum fun j _ => ?_)
            have := hr (a.px i j / S)
            rwa [abs_div, ← mul_div_assoc] at this
        _ = _ := by
            rw [hA, Finset.mul_sum, Finset.sum_div]
            refine Finset.sum_congr rfl fun i _ => ?_
            rw [Finset.mul_sum, Finset.sum_div]
    have e3 : |(T - S) / S| ≤ g * A / |S| := by
      rw [abs_div, abs_sub_comm]
      exact div_le_div_of_nonneg_right cs S0.le
    rw [e1]
    calc _ ≤ u * A / |S| + g * A / |S| := (abs_add_le _ _).trans (add_le_add e2 e3)
      _ = (u + g) * A / |S| := by ring
      _ ≤ _ := div_le_div_of_nonneg_left (by positivity) dpos low
  · intro i j
    change |rnd (a.px i j / S) - a.px i j / T| ≤ _
    have e1 : rnd (a.px i j / S) - a.px i j / T = (rnd (a.px i j / S) - a.px i j / S) + a.px i j / T * ((T - S) / S) := by
      field_simp
      ring
    have e2 := hr (a.px i j / S)
    rw [e1]
    calc _ ≤ u * |a.px i j / S| + |a.px i j / T| * (g * A / |S|) := by
          refine (abs_add_le _ _).trans (add_le_add e2 ?_)
          rw [abs_mul]
          refine mul_le_mul_of_nonneg_left ?_ (abs_nonneg _)
          rw [abs_div, abs_sub_comm]
          exact div_le_div_of_nonneg_right cs S0.le
      _ = (u * |T| + g * A) / |S| * |a.px i j / T| := by
          rw [abs_div, abs_div]
          field_simp
      _ ≤ _ := by
          refine mul_le_mul_of_nonneg_right ?_ (abs_nonneg _)
          exact div_le_div_of_nonneg_left (by positivity) dpos low

/-- C174: an array without negative values has no cancellation: the result is not negative, NaN exactly if all is zero, and its
total and every pixel are right to a few roundings. -/
theorem unit_total_pos (u1 : u < 1) (g1 : g < 1) (hp : ∀ i < a.h, ∀ j < a.w, 0 ≤ a.px i j) :
    (divSumR rnd t a = none ↔ T = 0) ∧ ∀ q, divSumR rnd t a = some q →
      |∑ i ∈ range a.h, ∑ j ∈ range a.w, q.px i j - 1| ≤ (u + g) / (1 - g) ∧
      ∀ i < a.h, ∀ j < a.w, 0 ≤ q.px i j ∧ |q.px i j - a.px i j / T| ≤ (u + g) / (1 - g) * (a.px i j / T) := by
  have AT : A = T := by
    rw [hA, hT]
    exact Finset.sum_congr rfl fun i hi => Finset.sum_congr rfl fun j hj => abs_of_nonneg (hp i (mem_range.1 hi) j (mem_range.1 hj))
  have T0 : 0 ≤ T := by
    rw [hT]
    exact Finset.sum_nonneg fun i hi => Finset.sum_nonneg fun j hj => hp i (mem_range.1 hi) j (mem_range.1 hj)
  have cs := computed_sum rnd u hu hr t a ht T A g hT hA hg
  rw [AT] at cs
  rcases T0.eq_or_lt with z | z
  · rw [← z, mul_zero] at cs
    have : t.eval rnd a.flatFn = 0 := by
      have := abs_nonpos_iff.1 cs
      linarith
    have e : divSumR rnd t a = none := by
      unfold divSumR
      rw [if_pos this]
    refine ⟨by rw [e]; simp [z], ?_⟩
    intro q hq
    rw [e] at hq
    cases hq
  · obtain ⟨q, e, _, _, q1, q2⟩ := unit_total rnd u hu hr t a ht T A g hT hA hg (by
      rw [AT, abs_of_pos z]
      nlinarith)
    have Tn : T ≠ 0 := z.ne'
    have g1' : 1 - g ≠ 0 := by linarith
    have den : |T| - g * A = (1 - g) * T := by rw [AT, abs_of_pos z]; ring
    have fac : (u * |T| + g * A) / (|T| - g * A) = (u + g) / (1 - g) := by
      rw [den, AT, abs_of_pos z]
      field_simp
    have fac' : (u + g) * A / (|T| - g * A) = (u + g) / (1 - g) := by
      rw [den, AT]
      field_simp
    refine ⟨by rw [e]; simp [Tn], ?_⟩
    intro q' hq'
    have qq : q = q' := by
      rw [e] at hq'
      exact Option.some.inj hq'
    subst qq
    refine ⟨fac' ▸ q1, fun i hi j hj => ⟨?_, ?_⟩⟩
    · have Spos : 0 < t.eval rnd a.flatFn := by
        have := abs_le.1 cs
        nlinarith
      unfold divSumR at e
      rw [if_neg Spos.ne'] at e
      have eq := Option.some.inj e
      rw [← eq]
      change 0 ≤ rnd (a.px i j / t.eval rnd a.flatFn)
      have y0 : 0 ≤ a.px i j / t.eval rnd a.flatFn := div_nonneg (hp i hi j hj) Spos.le
      have := hr (a.px i j / t.eval rnd a.flatFn)
      rw [abs_of_nonneg y0] at this
      have := (abs_le.1 this).1
      nlinarith
    · have := q2 i j
      rw [fac, abs_of_nonneg (div_nonneg (hp i hi j hj) T0)] at this
      exact this

end

/-! ## binary64 and numpy -/

/-- In binary64, with sums of depth `d`, the error of a total is at most `(d + 1) 2^-52`. -/
theorem total_factor (d : ℕ) (hd : d ≤ 2 ^ 20) (g : ℝ) (hg : g = (1 + 1 / 2 ^ 53 : ℝ) ^ d - 1) :
    0 ≤ g ∧ g < 1 ∧ (1 / 2 ^ 53 + g) / (1 - g) ≤ (d + 1) / 2 ^ 52 := by
  have f := float_factor d (by omega)
  rw [← hg] at f
  have hd' : (d : ℝ) ≤ 2 ^ 20 := by exact_mod_cast hd
  have d0 : (0 : ℝ) ≤ d := Nat.cast_nonneg d
  have g0 : 0 ≤ g := by
    rw [hg]
    linarith [one_le_pow_u (show (0 : ℝ) ≤ 1 / 2 ^ 53 by positivity) d]
  have g1 : g ≤ 1 / 2 ^ 32 := f.trans (by
    rw [div_le_div_iff₀ (by positivity) (by positivity)]
    nlinarith)
  have g2 : g < 1 := by
    have : (1 : ℝ) / 2 ^ 32 < 1 := by norm_num
    linarith
  refine ⟨g0, g2, ?_⟩
  rw [div_le_iff₀ (by linarith)]
  have q : ((d : ℝ) + 1) / 2 ^ 52 * g ≤ 1 / 2 ^ 53 := by
    have h1 : ((d : ℝ) + 1) / 2 ^ 52 ≤ 1 / 2 ^ 31 := by
      rw [div_le_div_iff₀ (by positivity) (by positivity)]
      nlinarith
    calc _ ≤ 1 / 2 ^ 31 * (1 / 2 ^ 32 : ℝ) := mul_le_mul h1 g1 g0 (by positivity)
      _ ≤ _ := by norm_num
  have e : ((d : ℝ) + 1) / 2 ^ 52 = d / 2 ^ 52 + 1 / 2 ^ 52 := by rw [add_div]
  have e2 : (1 : ℝ) / 2 ^ 52 = 1 / 2 ^ 53 + 1 / 2 ^ 53 := by norm_num
  rw [mul_sub, mul_one]
  linarith

theorem gridVal_nonneg' (n : ℕ) (lo hi : ℤ) (f : ℤ → ℤ → ℝ) (hf : ∀ i j, 0 ≤ f i j) (r c : ℕ) : 0 ≤ gridVal n lo hi f r c := by
  unfold gridVal
  cases writer n lo hi r <;> cases writer n lo hi c <;> simp
  exact hf _ _

/-- Without rounding it is the `Psf` of C65. -/
theorem simPsfR_exact (plan : ℕ → SumPlan) (hpl : ∀ n, 0 < n → (plan n).Sums n) (N X Y : ℚ) (hN : 1 ≤ N) (hX : 0 < X) :
    simPsfR id plan (fun i j => normPdf i ((N - 1) / 2 : ℚ) (sigmaOf X : ℚ) * normPdf j ((N - 1) / 2 : ℚ) (sigmaOf (yWidth X Y) : ℚ))
      N X Y = simPsf N X Y := by
  obtain ⟨b1, b2, b3⟩ := psfRange_bounds N X (yWidth X Y) hN hX
  have hfl : 1 ≤ ⌊N⌋ := Int.le_floor.mpr (by push_cast; exact hN)
  have pN : pyInt N = ⌊N⌋ := pyInt_nonneg_eq (by linarith)
  obtain ⟨b, hb, hh, hw, hpx⟩ := setItems_square (⟨⌊N⌋.toNat, ⌊N⌋.toNat, fun _ _ => (0 : ℝ)⟩ : Img ℝ) (psfRange N X (yWidth X Y)).1
    (psfRange N X (yWidth X Y)).2 (fun i j => normPdf i ((N - 1) / 2 : ℚ) (sigmaOf X : ℚ) *
      normPdf j ((N - 1) / 2 : ℚ) (sigmaOf (yWidth X Y) : ℚ)) rfl b2 (by change -((⌊N⌋.toNat : ℕ) : ℤ) ≤ _; omega)
        (by change _ ≤ ((⌊N⌋.toNat : ℕ) : ℤ); omega)
  unfold simPsfR simPsf
  rw [pN]
  change (setItems _ (List.flatMap (fun i => List.map _ (pyRange (psfRange N X (yWidth X Y)).1 (psfRange N X (yWidth X Y)).2))
      (pyRange (psfRange N X (yWidth X Y)).1 (psfRange N X (yWidth X Y)).2))).map _ =
    (setItems _ (List.flatMap (fun i => List.map _ (pyRange (psfRange N X (yWidth X Y)).1 (psfRange N X (yWidth X Y)).2))
      (pyRange (psfRange N X (yWidth X Y)).1 (psfRange N X (yWidth X Y)).2))).map divSum
  refine (congrArg (Except.map _) hb).trans ((Eq.symm ?_))
  refine (congrArg (Except.map divSum) hb).trans ?_
  change Except.ok (divSum b) = Except.ok (divSumR id (plan (⌊N⌋.toNat * ⌊N⌋.toNat)) b)
  have hs : (plan (⌊N⌋.toNat * ⌊N⌋.toNat)).Sums (b.h * b.w) := by
    rw [hh, hw]
    exact hpl _ (Nat.mul_pos (by omega) (by omega))
  rw [divSumR_exact _ b hs]

/-- C174: `Psf` in binary64 with numpy's sum: whatever the computed densities, if not negative the result is not negative, and its
total differs from one by at most `(27 + k) 2^-52` for up to `112·2^k + 16` pixels. -/
theorem psf_total_float (val : ℤ → ℤ → ℝ) (hval : ∀ i j, 0 ≤ val i j) (N X Y : ℚ) (hN : 1 ≤ N) (hX : 0 < X) (k : ℕ) (hk : k ≤ 40)
    (hn : ⌊N⌋.toNat * ⌊N⌋.toNat ≤ 112 * 2 ^ k + 16) :
    ∃ o, simPsfR rnd64 (numpyPlan 0) val N X Y = .ok o ∧
      (o = none ↔ ∀ r < ⌊N⌋.toNat, ∀ c < ⌊N⌋.toNat,
        gridVal ⌊N⌋.toNat (psfRange N X (yWidth X Y)).1 (psfRange N X (yWidth X Y)).2 val r c = 0) ∧
      ∀ p, o = some p → p.h = ⌊N⌋.toNat ∧ p.w = ⌊N⌋.toNat ∧
        |∑ r ∈ range ⌊N⌋.toNat, ∑ c ∈ range ⌊N⌋.toNat, p.px r c - 1| ≤ (27 + k) / 2 ^ 52 ∧
        ∀ r < ⌊N⌋.toNat, ∀ c < ⌊N⌋.toNat, 0 ≤ p.px r c := by
  obtain ⟨b1, b2, b3⟩ := psfRange_bounds N X (yWidth X Y) hN hX
  have hfl : 1 ≤ ⌊N⌋ := Int.le_floor.mpr (by push_cast; exact hN)
  have pN : pyInt N = ⌊N⌋ := pyInt_nonneg_eq (by linarith)
  generalize hnn : ⌊N⌋.toNat = n at *
  obtain ⟨b, hb, hh, hw, hpx⟩ := setItems_square (⟨n, n, fun _ _ => (0 : ℝ)⟩ : Img ℝ) (psfRange N X (yWidth X Y)).1
    (psfRange N X (yWidth X Y)).2 val rfl b2 (by change -(n : ℤ) ≤ _; omega) (by change _ ≤ (n : ℤ); omega)
  replace hh : b.h = n := hh
  replace hw : b.w = n := hw
  have n0 : 0 < n := by omega
  have hpx' : ∀ r < n, ∀ c < n, b.px r c = gridVal n (psfRange N X (yWidth X Y)).1 (psfRange N X (yWidth X Y)).2 val r c := hpx
  have hp : ∀ i < b.h, ∀ j < b.w, 0 ≤ b.px i j := by
    rw [hh, hw]
    intro i hi j hj
    rw [hpx' i hi j hj]
    exact gridVal_nonneg' _ _ _ _ hval _ _
  have hs : (numpyPlan 0 (n * n)).Sums (b.h * b.w) := by
    rw [hh, hw]
    exact numpy_sums _ (Nat.mul_pos n0 n0)
  have dep := numpy_depth k (n * n) 0 hn
  have fac := total_factor (numpyPlan 0 (n * n)).depth (by
    have : (26 + 40 : ℕ) ≤ 2 ^ 20 := by norm_num
    omega) _ rfl
  obtain ⟨none', some'⟩ := unit_total_pos rnd64 (1 / 2 ^ 53) (by positivity) rnd64_relErr (numpyPlan 0 (n * n)) b hs _ _ _ rfl rfl rfl
    (by norm_num) fac.2.1 hp
  refine ⟨divSumR rnd64 (numpyPlan 0 (n * n)) b, ?_, ?_, ?_⟩
  · unfold simPsfR
    rw [pN, hnn]
    exact congrArg (Except.map _) hb
  · rw [none', Finset.sum_eq_zero_iff_of_nonneg fun i hi => Finset.sum_nonneg fun j hj => hp i (mem_range.1 hi) j (mem_range.1 hj), hh, hw]
    constructor
    · intro h r hr c hc
      have := h r (mem_range.2 hr)
      rw [Finset.sum_eq_zero_iff_of_nonneg fun j hj => hp r (by rw [hh]; exact hr) j (by rw [hw]; exact mem_range.1 hj)] at this
      rw [← hpx' r hr c hc]
      exact this c (mem_range.2 hc)
    · intro h r hr
      refine Finset.sum_eq_zero fun c hc => ?_
      rw [hpx' r (mem_range.1 hr) c (mem_range.1 hc)]
      exact h r (mem_range.1 hr) c (mem_range.1 hc)
  · intro p hp'
    obtain ⟨q1, q2⟩ := some' p hp'
    have sh : p.h = b.h ∧ p.w = b.w := by
      unfold divSumR at hp'
      split at hp'
      · cases hp'
      · have := Option.some.inj hp'
        rw [← this]
        exact ⟨rfl, rfl⟩
    rw [hh, hw] at q1 q2
    refine ⟨sh.1.trans hh, sh.2.trans hw, q1.trans (fac.2.2.trans ?_), fun r hr c hc => (q2 r hr c hc).1⟩
    have : ((numpyPlan 0 (n * n)).depth : ℝ) ≤ 26 + k := by exact_mod_cast dep
    refine div_le_div_of_nonneg_right ?_ (by positivity)
    linarith

/-! ## Cases -/

/-- A PSF of a million pixels. -/
theorem psf_thousand (val : ℤ → ℤ → ℝ) (hval : ∀ i j, 0 ≤ val i j) (X Y : ℚ) (hX : 0 < X) (p : Img ℝ)
    (hp : simPsfR rnd64 (numpyPlan 0) val 1000 X Y = .ok (some p)) :
    |∑ r ∈ range 1000, ∑ c ∈ range 1000, p.px r c - 1| ≤ 41 / 2 ^ 52 := by
  have fl : ⌊(1000 : ℚ)⌋.toNat = 1000 := by
    have : ⌊((1000 : ℤ) : ℚ)⌋ = 1000 := Int.floor_intCast _
    push_cast at this
    rw [this]
    rfl
  obtain ⟨o, e, _, h⟩ := psf_total_float val hval 1000 X Y (by norm_num) hX 14 (by norm_num) (by rw [fl]; norm_num)
  rw [hp] at e
  obtain ⟨_, _, h1, _⟩ := h p (Except.ok.inj e).symm
  rw [fl] at h1
  refine h1.trans ?_
  norm_num

/-- A multiple of a power of two is never a third. -/
theorem rnd64_third : rnd64 (1 / 3) ≠ 1 / 3 := by
  intro h
  unfold rnd64 at h
  rw [if_neg (by norm_num)] at h
  generalize roundEvenR _ = z at h
  generalize Int.log 2 |(1 / 3 : ℝ)| - 52 = e at h
  have h3 : (3 * z : ℝ) * 2 ^ e = 1 := by linarith
  rcases Int.eq_nat_or_neg e with ⟨m, rfl | rfl⟩
  · rw [zpow_natCast] at h3
    have h4 : 3 * z * 2 ^ m = 1 := by exact_mod_cast h3
    have : (3 : ℤ) ∣ 1 := ⟨z * 2 ^ m, by rw [← h4]; ring⟩
    omega
  · rw [zpow_neg, zpow_natCast] at h3
    have h4 : (3 * z : ℝ) = 2 ^ m := by
      have : (2 : ℝ) ^ m ≠ 0 := by positivity
      field_simp at h3
      linarith
    have h5 : 3 * z = 2 ^ m := by exact_mod_cast h4
    have d : (3 : ℤ) ∣ 2 ^ m := ⟨z, h5.symm⟩
    have := Int.Prime.dvd_pow' Nat.prime_three d
    omega

theorem numpyPlan_three : numpyPlan 0 3 = .node (.node (.leaf 0) (.leaf 1)) (.leaf 2) := by
  rw [numpyPlan]
  rfl

theorem rnd64_int (m : ℤ) (hm : |m| ≤ 2 ^ 53) : rnd64 m = m := by
  have := rnd64_exactOn 0 m hm
  rwa [zpow_zero, mul_one] at this

/-- C174: the total need not be one: three equal pixels. -/
theorem three_thirds : ∃ q, divSumR rnd64 (numpyPlan 0 3) ⟨1, 3, fun _ _ => 1⟩ = some q ∧
    ∑ i ∈ range 1, ∑ j ∈ range 3, q.px i j ≠ 1 := by
  have e : (numpyPlan 0 3).eval rnd64 (Img.flatFn ⟨1, 3, fun _ _ => 1⟩) = 3 := by
    rw [numpyPlan_three]
    change rnd64 (rnd64 (1 + 1) + 1) = 3
    have h2 := rnd64_int 2 (by norm_num)
    have h3 := rnd64_int 3 (by norm_num)
    push_cast at h2 h3
    rw [show (1 : ℝ) + 1 = 2 by norm_num, h2, show (2 : ℝ) + 1 = 3 by norm_num, h3]
  refine ⟨⟨1, 3, fun _ _ => rnd64 (1 / 3)⟩, ?_, ?_⟩
  · unfold divSumR
    rw [e, if_neg (by norm_num)]
  · simp only [Finset.sum_range_succ, Finset.sum_range_zero, zero_add]
    intro h
    exact rnd64_third (by linarith)

/-- The stamp `2^53, 1, -2^53`, whose total is one. -/
noncomputable def cancelStamp : Img ℝ := ⟨1, 3, fun _ j => if j = 0 then 2 ^ 53 else if j = 1 then 1 else -2 ^ 53⟩

/-- C174: cancellation: numpy's sum of that stamp is zero and the division gives no numbers, while another order of the additions
gives the exact result. -/
theorem cancelling_stamp : divSumR rnd64 (numpyPlan 0 3) cancelStamp = none ∧
    divSumR rnd64 (.node (.node (.leaf 0) (.leaf 2)) (.leaf 1)) cancelStamp = some ⟨1, 3, fun i j => rnd64 (cancelStamp.px i j)⟩ ∧
    ∑ i ∈ range 1, ∑ j ∈ range 3, cancelStamp.px i j = 1 := by
  have z : rnd64 0 = 0 := by simp [rnd64]
  have o : rnd64 1 = 1 := by simpa using rnd64_int 1 (by norm_num)
  refine ⟨?_, ?_, ?_⟩
  · unfold divSumR
    rw [if_pos]
    rw [numpyPlan_three]
    change rnd64 (rnd64 (2 ^ 53 + 1) + -2 ^ 53) = 0
    rw [add_comm (2 ^ 53 : ℝ) 1, rnd64_tie, add_neg_cancel, z]
  · have e : (SumPlan.node (.node (.leaf 0) (.leaf 2)) (.leaf 1)).eval rnd64 cancelStamp.flatFn = 1 := by
      change rnd64 (rnd64 (2 ^ 53 + -2 ^ 53) + 1) = 1
      rw [add_neg_cancel, z, zero_add, o]
    unfold divSumR
    rw [e, if_neg one_ne_zero]
    simp only [div_one]
    rfl
  · simp only [Finset.sum_range_succ, Finset.sum_range_zero, zero_add, cancelStamp]
    norm_num

end PI
