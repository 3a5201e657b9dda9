import Verif.Model.CoaddFloat
import Verif.Props.CoaddMore

/-!
# Property C164: the sums of `coadd` in floating point
-/

namespace PI

open Complex

/-! ## Rounded sums of real numbers -/

/-- The relative error of the rounding is at most `u`. -/
def RelErr (rnd : ℝ → ℝ) (u : ℝ) : Prop := ∀ x, |rnd x - x| ≤ u * |x|

/-- A running sum. -/
def flSum (rnd : ℝ → ℝ) (xs : List ℝ) (s : ℝ) : ℝ := xs.foldl (fun s x => rnd (x + s)) s

/-- The sum of the absolute values. -/
def absSum (xs : List ℝ) : ℝ := (xs.map fun x => |x|).sum

theorem absSum_nonneg (xs : List ℝ) : 0 ≤ absSum xs := by
  unfold absSum
  induction xs with
  | nil => simp
  | cons x xs ih => simp only [List.map_cons, List.sum_cons]; positivity

theorem one_le_pow_u {u : ℝ} (hu : 0 ≤ u) (n : ℕ) : 1 ≤ (1 + u) ^ n := one_le_pow₀ (by linarith)

theorem pow_u_mono {u : ℝ} (hu : 0 ≤ u) {m n : ℕ} (h : m ≤ n) : (1 + u) ^ m ≤ (1 + u) ^ n :=
  pow_le_pow_right₀ (by linarith) h

theorem flSum_err {rnd : ℝ → ℝ} {u : ℝ} (hu : 0 ≤ u) (hr : RelErr rnd u) (xs : List ℝ) :
    ∀ s, |flSum rnd xs s - (xs.sum + s)| ≤ ((1 + u) ^ xs.length - 1) * (|s| + absSum xs) := by
  induction xs with
  | nil => intro s; simp [flSum, absSum]
  | cons x xs ih =>
    intro s
    have e : flSum rnd (x :: xs) s = flSum rnd xs (rnd (x + s)) := rfl
    have a : absSum (x :: xs) = |x| + absSum xs := rfl
    have h1 := ih (rnd (x + s))
    have h2 := hr (x + s)
    have h3 := abs_add_le x s
    have h4 : |rnd (x + s)| ≤ (1 + u) * (|x| + |s|) := by
      have := abs_add_le (rnd (x + s) - (x + s)) (x + s)
      rw [sub_add_cancel] at this
      nlinarith [abs_nonneg (x + s)]
    have p := one_le_pow_u hu xs.length
    have na := absSum_nonneg xs
    rw [e, a, List.sum_cons, List.length_cons, pow_succ]
    have h5 : |flSum rnd xs (rnd (x + s)) - (x + xs.sum + s)| ≤
        |flSum rnd xs (rnd (x + s)) - (xs.sum + rnd (x + s))| + |rnd (x + s) - (x + s)| := by
      have := abs_add_le (flSum rnd xs (rnd (x + s)) - (xs.sum + rnd (x + s))) (rnd (x + s) - (x + s))
      have e2 : flSum rnd xs (rnd (x + s)) - (xs.sum + rnd (x + s)) + (rnd (x + s) - (x + s)) =
        flSum rnd xs (rnd (x + s)) - (x + xs.sum + s) := by ring
      rwa [e2] at this
    have h6 : u * |x + s| ≤ u * (|x| + |s|) := mul_le_mul_of_nonneg_left h3 hu
    have h7 : ((1 + u) ^ xs.length - 1) * (|rnd (x + s)| + absSum xs) ≤
        ((1 + u) ^ xs.length - 1) * ((1 + u) * (|x| + |s|) + absSum xs) :=
      mul_le_mul_of_nonneg_left (by linarith) (by linarith)
    have h8 : 0 ≤ (1 + u) ^ xs.length * u * absSum xs := by positivity
    calc _ ≤ ((1 + u) ^ xs.length - 1) * ((1 + u) * (|x| + |s|) + absSum xs) + u * (|x| + |s|) := by linarith
      _ ≤ ((1 + u) ^ xs.length * (1 + u) - 1) * (|s| + (|x| + absSum xs)) := by nlinarith

theorem absSum_flatten (css : List (List ℝ)) : absSum css.flatten = (css.map absSum).sum := by
  induction css with
  | nil => rfl
  | cons c cs ih =>
    rw [List.flatten_cons, List.map_cons, List.sum_cons, ← ih]
    simp [absSum]

/-- Chunks summed apart and their sums summed. -/
theorem flSum_chunks_err {rnd : ℝ → ℝ} {u : ℝ} (hu : 0 ≤ u) (hr : RelErr rnd u) (css : List (List ℝ)) (m : ℕ)
    (hm : ∀ c ∈ css, c.length ≤ m) :
    |flSum rnd (css.map fun c => flSum rnd c 0) 0 - css.flatten.sum| ≤
      ((1 + u) ^ (m + css.length) - 1) * absSum css.flatten := by
  have each : ∀ c ∈ css, |flSum rnd c 0 - c.sum| ≤ ((1 + u) ^ m - 1) * absSum c := by
    intro c hc
    have := flSum_err hu hr c 0
    rw [add_zero, abs_zero, zero_add] at this
    refine this.trans (mul_le_mul_of_nonneg_right ?_ (absSum_nonneg c))
    have := pow_u_mono hu (hm c hc)
    linarith
  have tot : |(css.map fun c => flSum rnd c 0).sum - css.flatten.sum| ≤ ((1 + u) ^ m - 1) * absSum css.flatten ∧
      absSum (css.map fun c => flSum rnd c 0) ≤ (1 + u) ^ m * absSum css.flatten := by
    clear hm
    induction css with
    | nil => simp [absSum]
    | cons c cs ih =>
      obtain ⟨i1, i2⟩ := ih fun c' hc' => each c' (by simp [hc'])
      have h1 := each c (by simp)
      have a1 : absSum (c :: cs).flatten = absSum c + absSum cs.flatten := by simp [absSum]
      have a2 : absSum ((c :: cs).map fun c => flSum rnd c 0) =
        |flSum rnd c 0| + absSum (cs.map fun c => flSum rnd c 0) := rfl
      rw [a1, a2, List.map_cons, List.sum_cons, List.flatten_cons, List.sum_append]
      have h2 : |c.sum| ≤ absSum c := by
        clear h1 a1 a2 i1 i2 each
        induction c with
        | nil => simp [absSum]
        | cons x xs ih => exact (abs_add_le x xs.sum).trans (add_le_add_right ih |x|)
      constructor
      · have e : flSum rnd c 0 + (cs.map fun c => flSum rnd c 0).sum - (c.sum + cs.flatten.sum) =
          (flSum rnd c 0 - c.sum) + ((cs.map fun c => flSum rnd c 0).sum - cs.flatten.sum) := by ring
        rw [e]
        refine (abs_add_le _ _).trans ?_
        rw [mul_add]
        exact add_le_add h1 i1
      · have h3 : |flSum rnd c 0| ≤ (1 + u) ^ m * absSum c := by
          have := abs_add_le (flSum rnd c 0 - c.sum) c.sum
          rw [sub_add_cancel] at this
          nlinarith
        rw [mul_add]
        exact add_le_add h3 i2
  have h1 := flSum_err hu hr (css.map fun c => flSum rnd c 0) 0
  rw [add_zero, abs_zero, zero_add, List.length_map] at h1
  have h2 := one_le_pow_u hu css.length
  have h3 : ((1 + u) ^ css.length - 1) * absSum (css.map fun c => flSum rnd c 0) ≤
      ((1 + u) ^ css.length - 1) * ((1 + u) ^ m * absSum css.flatten) :=
    mul_le_mul_of_nonneg_left tot.2 (by linarith)
  have e : flSum rnd (css.map fun c => flSum rnd c 0) 0 - css.flatten.sum =
    (flSum rnd (css.map fun c => flSum rnd c 0) 0 - (css.map fun c => flSum rnd c 0).sum) +
      ((css.map fun c => flSum rnd c 0).sum - css.flatten.sum) := by ring
  rw [e]
  refine (abs_add_le _ _).trans ?_
  rw [pow_add]
  nlinarith [tot.1]

/-- If every chunk holds something, the longest and the number of chunks together are at most one more than the whole. -/
theorem chunk_depth {α : Type} (css : List (List α)) (hne : [] ∉ css) (c : List α) (hc : c ∈ css) :
    c.length + css.length ≤ css.flatten.length + 1 := by
  have low : ∀ l : List (List α), [] ∉ l → l.length ≤ l.flatten.length := by
    intro l
    induction l with
    | nil => simp
    | cons x xs ih =>
      intro h
      have := ih fun h' => h (by simp [h'])
      have x0 : x.length ≠ 0 := fun h' => h (by simp [List.length_eq_zero_iff.1 h'])
      simp only [List.length_cons, List.flatten_cons, List.length_append]
      omega
  induction css with
  | nil => cases hc
  | cons x xs ih =>
    have hx : [] ∉ xs := fun h' => hne (by simp [h'])
    have x0 : x.length ≠ 0 := fun h' => hne (by simp [List.length_eq_zero_iff.1 h'])
    simp only [List.length_cons, List.flatten_cons, List.length_append]
    rcases List.mem_cons.1 hc with rfl | h
    · have := low xs hx
      omega
    · have := ih hx h
      omega

/-- Sums that are exact: `g` times whole numbers whose absolute values add up to at most `2^53`. -/
def ExactOn (rnd : ℝ → ℝ) (g : ℝ) : Prop := ∀ m : ℤ, |m| ≤ 2 ^ 53 → rnd (m * g) = m * g

theorem flSum_exact {rnd : ℝ → ℝ} {g : ℝ} (hg : ExactOn rnd g) (ms : List ℤ) :
    ∀ s : ℤ, |s| + (ms.map fun m => |m|).sum ≤ 2 ^ 53 →
      flSum rnd (ms.map fun m : ℤ => (m : ℝ) * g) ((s : ℝ) * g) = ((ms.sum + s : ℤ) : ℝ) * g := by
  induction ms with
  | nil => intro s _; simp [flSum]
  | cons m ms ih =>
    intro s h
    simp only [List.map_cons, List.sum_cons] at h
    have hn : 0 ≤ (ms.map fun m => |m|).sum := List.sum_nonneg (by simp)
    have h1 := abs_add_le m s
    have e : rnd ((m : ℝ) * g + (s : ℝ) * g) = ((m + s : ℤ) : ℝ) * g := by
      have := hg (m + s) (by omega)
      rw [← this]
      congr 1
      push_cast
      ring
    change flSum rnd (ms.map fun m : ℤ => (m : ℝ) * g) (rnd ((m : ℝ) * g + (s : ℝ) * g)) = _
    rw [e, ih (m + s) (by omega)]
    congr 2
    simp only [List.sum_cons]
    ring

theorem flSum_chunks_exact {rnd : ℝ → ℝ} {g : ℝ} (hg : ExactOn rnd g) (mss : List (List ℤ))
    (h : (mss.flatten.map fun m => |m|).sum ≤ 2 ^ 53) :
    flSum rnd ((mss.map fun c => c.map fun m : ℤ => (m : ℝ) * g).map fun c => flSum rnd c 0) 0 =
      ((mss.flatten.sum : ℤ) : ℝ) * g := by
  have nn : ∀ l : List ℤ, 0 ≤ (l.map fun m => |m|).sum := fun l => List.sum_nonneg (by simp)
  have le : ∀ l : List ℤ, |l.sum| ≤ (l.map fun m => |m|).sum := by
    intro l
    induction l with
    | nil => simp
    | cons x xs ih =>
      simp only [List.sum_cons, List.map_cons]
      exact (abs_add_le _ _).trans (by omega)
  have k : ∀ l : List (List ℤ), (l.flatten.map fun m => |m|).sum ≤ 2 ^ 53 →
      ((l.map fun c => c.map fun m : ℤ => (m : ℝ) * g).map fun c => flSum rnd c 0) =
        (l.map List.sum).map (fun m : ℤ => (m : ℝ) * g) ∧
      ((l.map List.sum).map fun m => |m|).sum ≤ (l.flatten.map fun m => |m|).sum ∧ (l.map List.sum).sum = l.flatten.sum := by
    intro l
    induction l with
    | nil => intro _; simp
    | cons c cs ih =>
      intro hl
      simp only [List.flatten_cons, List.map_append, List.sum_append] at hl
      have n1 := nn c
      have n2 := nn cs.flatten
      obtain ⟨i1, i2, i3⟩ := ih (by omega)
      have hc := flSum_exact hg c 0 (by simp only [abs_zero, zero_add]; omega)
      simp only [Int.cast_zero, zero_mul, add_zero] at hc
      refine ⟨?_, ?_, ?_⟩
      · simp only [List.map_cons, List.map_map] at i1 ⊢
        rw [hc, ← i1]
      · simp only [List.map_cons, List.sum_cons, List.flatten_cons, List.map_append, List.sum_append]
        have := le c
        omega
      · simp only [List.map_cons, List.sum_cons, List.flatten_cons, List.sum_append]
        rw [i3]
  obtain ⟨k1, k2, k3⟩ := k mss h
  rw [k1]
  have := flSum_exact hg (mss.map List.sum) 0 (by simp only [abs_zero, zero_add]; omega)
  simp only [Int.cast_zero, zero_mul, add_zero] at this
  rw [this, k3]

/-! ## binary64 -/

theorem roundEvenR_err (x : ℝ) : |(roundEvenR x : ℝ) - x| ≤ 1 / 2 := by
  have h1 := Int.floor_le x
  have h2 := Int.lt_floor_add_one x
  unfold roundEvenR
  rw [abs_le]
  split_ifs <;> push_cast <;> constructor <;> linarith

theorem roundEvenR_int (n : ℤ) : roundEvenR (n : ℝ) = n := by
  simp [roundEvenR]

/-- The rounding error of binary64 is at most `2^-53` of the number. -/
theorem rnd64_relErr : RelErr rnd64 (1 / 2 ^ 53) := by
  intro x
  by_cases h : x = 0
  · simp [rnd64, h]
  have ha : 0 < |x| := abs_pos.2 h
  have hlog : (2 : ℝ) ^ (Int.log 2 |x|) ≤ |x| := by
    have := Int.zpow_log_le_self (b := 2) (r := |x|) (by norm_num) ha
    simpa using this
  set e := Int.log 2 |x| with he
  have hcancel : (2 : ℝ) ^ (52 - e) * 2 ^ (e - 52) = 1 := by
    rw [← zpow_add₀ (by norm_num)]; simp
  have hpos : (0 : ℝ) < 2 ^ (e - 52) := zpow_pos (by norm_num) _
  have key : rnd64 x - x = ((roundEvenR (x * 2 ^ (52 - e)) : ℝ) - x * 2 ^ (52 - e)) * 2 ^ (e - 52) := by
    rw [sub_mul, mul_assoc x, hcancel, mul_one]
    simp [rnd64, h, ← he]
  rw [key, abs_mul, abs_of_pos hpos]
  calc _ ≤ (1 / 2) * (2 : ℝ) ^ (e - 52) := by
        have := roundEvenR_err (x * 2 ^ (52 - e))
        gcongr
    _ = 1 / 2 ^ 53 * 2 ^ e := by rw [zpow_sub₀ (by norm_num)]; norm_num; ring
    _ ≤ 1 / 2 ^ 53 * |x| := by gcongr

theorem rnd64_of_int {x : ℝ} (n : ℤ) (hn : x * 2 ^ (52 - Int.log 2 |x|) = n) : rnd64 x = x := by
  unfold rnd64
  by_cases h : x = 0
  · rw [if_pos h, h]
  rw [if_neg h, hn, roundEvenR_int, ← hn, mul_assoc, ← zpow_add₀ (by norm_num)]
  simp

/-- binary64 represents the whole numbers up to `2^53`, times any power of two, without error. -/
theorem rnd64_exactOn (f : ℤ) : ExactOn rnd64 (2 ^ f) := by
  intro m hm
  by_cases h0 : m = 0
  · simp [h0, rnd64]
  have hx : ((m : ℝ) * 2 ^ f) ≠ 0 := mul_ne_zero (by exact_mod_cast h0) (zpow_ne_zero _ (by norm_num))
  have ha : 0 < |(m : ℝ) * 2 ^ f| := abs_pos.2 hx
  set e := Int.log 2 |(m : ℝ) * 2 ^ f| with he
  have hlog : (2 : ℝ) ^ e ≤ |(m : ℝ)| * 2 ^ f := by
    have := Int.zpow_log_le_self (b := 2) (r := |(m : ℝ) * 2 ^ f|) (by norm_num) ha
    rw [← he, abs_mul, abs_of_pos (zpow_pos (by norm_num : (0 : ℝ) < 2) f)] at this
    simpa using this
  have hm' : |(m : ℝ)| ≤ 2 ^ (53 : ℤ) := by
    have : ((|m| : ℤ) : ℝ) ≤ 2 ^ 53 := by exact_mod_cast hm
    rw [Int.cast_abs] at this
    exact_mod_cast this
  have hle : (2 : ℝ) ^ e ≤ 2 ^ (53 + f) := by
    rw [zpow_add₀ (by norm_num)]
    exact hlog.trans (mul_le_mul_of_nonneg_right hm' (zpow_pos (by norm_num) _).le)
  have hef : e ≤ 53 + f := (zpow_le_zpow_iff_right₀ (by norm_num : (1 : ℝ) < 2)).1 hle
  have key : (m : ℝ) * 2 ^ f * 2 ^ (52 - e) = m * 2 ^ (52 + f - e) := by
    rw [mul_assoc, ← zpow_add₀ (by norm_num)]
    congr 2
    ring
  rcases lt_or_eq_of_le hef with hlt | heq
  · refine rnd64_of_int (m * 2 ^ (52 + f - e).toNat) ?_
    rw [← he, key]
    push_cast
    congr 1
    have : 52 + f - e = ((52 + f - e).toNat : ℤ) := (Int.toNat_of_nonneg (by omega)).symm
    conv_lhs => rw [this]
    rw [zpow_natCast]
  · have habs : |m| = 2 ^ 53 := by
      refine le_antisymm hm ?_
      rw [heq, zpow_add₀ (by norm_num)] at hlog
      have := le_of_mul_le_mul_right hlog (zpow_pos (by norm_num) f)
      have h2 : ((2 ^ 53 : ℤ) : ℝ) ≤ ((|m| : ℤ) : ℝ) := by
        have e2 : ((2 ^ 53 : ℤ) : ℝ) = (2 : ℝ) ^ (53 : ℤ) := by norm_num
        rw [Int.cast_abs, e2]
        exact this
      exact_mod_cast h2
    have hz : (2 : ℝ) ^ (52 + f - e) = 1 / 2 := by
      rw [heq]
      have : 52 + f - (53 + f) = -1 := by ring
      rw [this, zpow_neg_one]
      norm_num
    rcases abs_eq (by norm_num : (0 : ℤ) ≤ 2 ^ 53) |>.1 habs with h | h
    · refine rnd64_of_int (2 ^ 52) ?_
      rw [← he, key, hz, h]
      norm_num
    · refine rnd64_of_int (-2 ^ 52) ?_
      rw [← he, key, hz, h]
      norm_num

/-! ## The loops of `coadd` -/

/-- Without rounding these are the sums of `Model/Coadd`. -/
theorem coaddSumsR_exact (lt : List CoImg → List CoImg → Option Bool) (imgs : List CoImg) (psfShape : ℕ) (nProcs : ℤ) :
    coaddCore lt imgs psfShape nProcs = (coaddSumsR id CoImg.weighted lt imgs nProcs).map (finishCoadd psfShape) := by
  have ca : (caddR id) = fun a s : ℂ => a + s := by
    funext a s
    exact Complex.ext rfl rfl
  have ao : ∀ {K : Type} [Add K] (a s : Img K), addOutR (fun a s => a + s) a s = addOut a s := fun a s => rfl
  have st : accStepR id CoImg.weighted = accStep := by
    funext acc im
    unfold accStepR accStep
    rw [ca]
    simp only [ao]
  have co : combineStepR id = combineStep := by
    funext acc res
    unfold combineStepR combineStep
    simp only [id, ao]
  have pc : ∀ gs, processChunkR id CoImg.weighted gs = processChunk gs := by
    intro gs
    funext c
    cases c with
    | nil => rfl
    | cons x xs =>
      unfold processChunkR processChunk
      rw [st]
  unfold coaddCore coaddSumsR accParallel
  cases globalShape imgs with
  | error e => rfl
  | ok gs =>
    simp only [bind, Except.bind, pc, co]
    by_cases h : 1 < nProcs
    · simp only [if_pos h]
      rfl
    · simp only [if_neg h]
      rw [← accSequential_eq]
      rfl

section
variable (rnd : ℝ → ℝ) (wt : CoImg → Img ℂ) (h w : ℕ)

theorem foldl_accStepR : ∀ (imgs : List CoImg), AllShape imgs h w → (∀ im ∈ imgs, (wt im).h = h ∧ (wt im).w = w) →
    ∀ acc : Acc, acc.S.h = h ∧ acc.S.w = w → acc.P.h = h ∧ acc.P.w = w → acc.mask.HasShape h w →
    ∃ acc', imgs.foldlM (accStepR rnd wt) acc = .ok acc' ∧
      (acc'.S.h = h ∧ acc'.S.w = w) ∧ (acc'.P.h = h ∧ acc'.P.w = w) ∧ acc'.mask.HasShape h w ∧
      ∀ i j, (acc'.S.px i j).re = flSum rnd (imgs.map fun im => (im.sHat i j).re) (acc.S.px i j).re ∧
        (acc'.S.px i j).im = flSum rnd (imgs.map fun im => (im.sHat i j).im) (acc.S.px i j).im ∧
        (acc'.P.px i j).re = flSum rnd (imgs.map fun im => ((wt im).px i j).re) (acc.P.px i j).re ∧
        (acc'.P.px i j).im = flSum rnd (imgs.map fun im => ((wt im).px i j).im) (acc.P.px i j).im := by
  intro imgs
  induction imgs with
  | nil =>
    intro _ _ acc hS hP hm
    exact ⟨acc, rfl, hS, hP, hm, fun i j => ⟨rfl, rfl, rfl, rfl⟩⟩
  | cons im rest ih =>
    intro hall hwt acc hS hP hm
    have hi := hall im (by simp)
    have hw' := hwt im (by simp)
    obtain ⟨m, hm1, hm2, _, _⟩ := NMask.maskOr_spec acc.mask im.mask h w hm hi.2.2
    have e1 : accStepR rnd wt acc im = .ok ⟨⟨h, w, fun i j => caddR rnd (im.sHat i j) (acc.S.px i j)⟩,
        ⟨h, w, fun i j => caddR rnd ((wt im).px i j) (acc.P.px i j)⟩, m⟩ := by
      unfold accStepR addOutR
      simp [CoImg.comp, hi.1, hi.2.1, hS.1, hS.2, hP.1, hP.2, hw'.1, hw'.2, hm1, bind, Except.bind, pure, Except.pure]
    obtain ⟨a2, e2, k1, k2, k3, k4⟩ := ih (fun x hx => hall x (by simp [hx])) (fun x hx => hwt x (by simp [hx]))
      ⟨⟨h, w, fun i j => caddR rnd (im.sHat i j) (acc.S.px i j)⟩,
        ⟨h, w, fun i j => caddR rnd ((wt im).px i j) (acc.P.px i j)⟩, m⟩ ⟨rfl, rfl⟩ ⟨rfl, rfl⟩ hm2
    refine ⟨a2, ?_, k1, k2, k3, k4⟩
    rw [List.foldlM_cons, e1]
    exact e2

theorem processChunkR_ok (chunk : List CoImg) (hne : chunk ≠ []) (hall : AllShape chunk h w)
    (hwt : ∀ im ∈ chunk, (wt im).h = h ∧ (wt im).w = w) :
    ∃ acc, processChunkR rnd wt (h, w) chunk = .ok acc ∧
      (acc.S.h = h ∧ acc.S.w = w) ∧ (acc.P.h = h ∧ acc.P.w = w) ∧ acc.mask.HasShape h w ∧
      ∀ i j, (acc.S.px i j).re = flSum rnd (chunk.map fun im => (im.sHat i j).re) 0 ∧
        (acc.S.px i j).im = flSum rnd (chunk.map fun im => (im.sHat i j).im) 0 ∧
        (acc.P.px i j).re = flSum rnd (chunk.map fun im => ((wt im).px i j).re) 0 ∧
        (acc.P.px i j).im = flSum rnd (chunk.map fun im => ((wt im).px i j).im) 0 := by
  match chunk, hne with
  | im0 :: rest, _ =>
    obtain ⟨acc, e, k⟩ := foldl_accStepR rnd wt h w (im0 :: rest) hall hwt
      ⟨Img.const h w 0, Img.const h w 0, im0.mask⟩ ⟨rfl, rfl⟩ ⟨rfl, rfl⟩ (hall im0 (by simp)).2.2
    exact ⟨acc, e, k⟩

theorem foldl_combineR : ∀ (res : List Acc),
    (∀ r ∈ res, (r.S.h = h ∧ r.S.w = w) ∧ (r.P.h = h ∧ r.P.w = w) ∧ r.mask.HasShape h w) →
    ∀ acc : Acc, acc.S.h = h ∧ acc.S.w = w → acc.P.h = h ∧ acc.P.w = w → acc.mask.HasShape h w →
    ∃ acc', res.foldlM (combineStepR rnd) acc = .ok acc' ∧
      ((acc'.S.h = h ∧ acc'.S.w = w) ∧ acc'.P.h = h ∧ acc'.P.w = w) ∧
      ∀ i j, (acc'.S.px i j).re = flSum rnd (res.map fun r => (r.S.px i j).re) (acc.S.px i j).re ∧
        (acc'.S.px i j).im = flSum rnd (res.map fun r => (r.S.px i j).im) (acc.S.px i j).im ∧
        (acc'.P.px i j).re = flSum rnd (res.map fun r => (r.P.px i j).re) (acc.P.px i j).re ∧
        (acc'.P.px i j).im = flSum rnd (res.map fun r => (r.P.px i j).im) (acc.P.px i j).im := by
  intro res
  induction res with
  | nil =>
    intro _ acc hS hP hm
    exact ⟨acc, rfl, ⟨hS, hP⟩, fun i j => ⟨rfl, rfl, rfl, rfl⟩⟩
  | cons r rest ih =>
    intro hall acc hS hP hm
    obtain ⟨r1, r2, r3⟩ := hall r (by simp)
    obtain ⟨m, hm1, hm2, _, _⟩ := NMask.maskOr_spec acc.mask r.mask h w hm r3
    have e1 : combineStepR rnd acc r = .ok ⟨⟨h, w, fun i j => caddR rnd (r.S.px i j) (acc.S.px i j)⟩,
        ⟨h, w, fun i j => caddR rnd (r.P.px i j) (acc.P.px i j)⟩, m⟩ := by
      unfold combineStepR addOutR
      simp [Img.map, Img.zip, r1.1, r1.2, r2.1, r2.2, hS.1, hS.2, hP.1, hP.2, hm1, bind, Except.bind, pure, Except.pure,
        caddR]
    obtain ⟨a2, e2, k⟩ := ih (fun x hx => hall x (by simp [hx]))
      ⟨⟨h, w, fun i j => caddR rnd (r.S.px i j) (acc.S.px i j)⟩,
        ⟨h, w, fun i j => caddR rnd (r.P.px i j) (acc.P.px i j)⟩, m⟩ ⟨rfl, rfl⟩ ⟨rfl, rfl⟩ hm2
    refine ⟨a2, ?_, k⟩
    rw [List.foldlM_cons, e1]
    exact e2

end

/-- How `coadd` adds up: one running sum (`n_procs ≤ 1`), or one for each chunk and a running sum of these. -/
def addedUp (rnd : ℝ → ℝ) (chunks : Option (List (List CoImg))) (imgs : List CoImg) (f : CoImg → ℝ) : ℝ :=
  match chunks with
  | none => flSum rnd (imgs.map f) 0
  | some cs => flSum rnd ((cs.map fun c => c.map f).map fun c => flSum rnd c 0) 0

/-- Every coefficient of the sums, and the chunks they come from. -/
theorem coaddSumsR_eq (rnd : ℝ → ℝ) (wt : CoImg → Img ℂ) (lt : List CoImg → List CoImg → Option Bool) (h w : ℕ)
    (imgs : List CoImg) (n : ℤ) (hne : imgs ≠ []) (hall : AllShape imgs h w)
    (hwt : ∀ im ∈ imgs, (wt im).h = h ∧ (wt im).w = w)
    (hn : n ≤ imgs.length) (hn' : n ≤ 2 ^ 25) (hb : n * imgs.length ≤ 2 ^ 50) :
    ∃ acc chunks, coaddSumsR rnd wt lt imgs n = .ok acc ∧
      ((acc.S.h = h ∧ acc.S.w = w) ∧ acc.P.h = h ∧ acc.P.w = w) ∧ (chunks = none ↔ n ≤ 1) ∧
      (∀ cs, chunks = some cs → chunkIt floatArith lt imgs n.toNat (n.toNat + 2) = .ok cs ∧ cs.flatten.Perm imgs ∧ [] ∉ cs) ∧
      ∀ i j, (acc.S.px i j).re = addedUp rnd chunks imgs (fun im => (im.sHat i j).re) ∧
        (acc.S.px i j).im = addedUp rnd chunks imgs (fun im => (im.sHat i j).im) ∧
        (acc.P.px i j).re = addedUp rnd chunks imgs (fun im => ((wt im).px i j).re) ∧
        (acc.P.px i j).im = addedUp rnd chunks imgs (fun im => ((wt im).px i j).im) := by
  have hgs := globalShape_same imgs hne h w (fun im him => ⟨(hall im him).1, (hall im him).2.1⟩)
  by_cases h1 : 1 < n
  · obtain ⟨chunks, hc, hcnt⟩ := chunk_it_count lt imgs n.toNat (n.toNat + 2) hne (by omega) (by omega) (by omega)
    clear hcnt
    have hperm := chunk_it_elements_once lt imgs n.toNat (n.toNat + 2) chunks hc
    have hempty := chunk_it_empty_iff lt imgs n.toNat (n.toNat + 2) hne (by omega) (by omega) (by
        have : ((n.toNat * imgs.length : ℕ) : ℤ) ≤ 2 ^ 50 := by
          push_cast; rw [Int.toNat_of_nonneg (by omega)]; exact hb
        exact_mod_cast this) (by omega) chunks hc
    have hnot : [] ∉ chunks := fun hin => by have := hempty.1 hin; omega
    have hmem : ∀ c ∈ chunks, ∀ im ∈ c, im ∈ imgs := fun c hc im him => hperm.subset (List.mem_flatten.2 ⟨c, hc, him⟩)
    obtain ⟨res, hres, hf⟩ := mapM_ok (processChunkR rnd wt (h, w)) chunks
      (fun c acc => ((acc.S.h = h ∧ acc.S.w = w) ∧ (acc.P.h = h ∧ acc.P.w = w) ∧ acc.mask.HasShape h w) ∧
        ∀ i j, (acc.S.px i j).re = flSum rnd (c.map fun im => (im.sHat i j).re) 0 ∧
        (acc.S.px i j).im = flSum rnd (c.map fun im => (im.sHat i j).im) 0 ∧
        (acc.P.px i j).re = flSum rnd (c.map fun im => ((wt im).px i j).re) 0 ∧
        (acc.P.px i j).im = flSum rnd (c.map fun im => ((wt im).px i j).im) 0)
      (by
        intro c hc'
        obtain ⟨acc, e, k1, k2, k3, k4⟩ := processChunkR_ok rnd wt h w c (fun h0 => hnot (h0 ▸ hc'))
          (fun im him => hall im (hmem c hc' im him)) (fun im him => hwt im (hmem c hc' im him))
        exact ⟨acc, e, ⟨k1, k2, k3⟩, k4⟩)
    obtain ⟨acc, e, hsh, k⟩ := foldl_combineR rnd h w res
      (fun r hr => (forall₂_right _ _ _ hf r hr).elim fun c hq => hq.1)
      ⟨Img.const h w 0, Img.const h w 0, some (Img.const h w false)⟩ ⟨rfl, rfl⟩ ⟨rfl, rfl⟩
      (by intro a ha; cases ha; exact ⟨rfl, rfl⟩)
    have lists : ∀ (g : Acc → ℝ) (f : CoImg → ℝ), (List.Forall₂ (fun c acc => g acc = flSum rnd (c.map f) 0) chunks res) →
        res.map g = (chunks.map fun c => c.map f).map fun c => flSum rnd c 0 := by
      intro g f hh
      clear hf e k hres hnot hmem hperm hempty hc
      induction hh with
      | nil => rfl
      | cons a _ ih => simp only [List.map_cons, a, ih]
    refine ⟨acc, some chunks, ?_, hsh, ⟨(fun hx => by cases hx), (fun hx => by omega)⟩, ?_, ?_⟩
    · unfold coaddSumsR
      rw [hgs]
      simp only [bind, Except.bind, if_pos h1, hc, hres]
      exact e
    · intro cs hcs
      cases hcs
      exact ⟨hc, hperm, hnot⟩
    · intro i j
      obtain ⟨k1, k2, k3, k4⟩ := k i j
      refine ⟨k1.trans ?_, k2.trans ?_, k3.trans ?_, k4.trans ?_⟩
      · rw [lists (fun r => (r.S.px i j).re) (fun im => (im.sHat i j).re) (hf.imp fun c acc hq => (hq.2 i j).1)]
        rfl
      · rw [lists (fun r => (r.S.px i j).im) (fun im => (im.sHat i j).im) (hf.imp fun c acc hq => (hq.2 i j).2.1)]
        rfl
      · rw [lists (fun r => (r.P.px i j).re) (fun im => ((wt im).px i j).re) (hf.imp fun c acc hq => (hq.2 i j).2.2.1)]
        rfl
      · rw [lists (fun r => (r.P.px i j).im) (fun im => ((wt im).px i j).im) (hf.imp fun c acc hq => (hq.2 i j).2.2.2)]
        rfl
  · obtain ⟨acc, e, s1, s2, _, k⟩ := processChunkR_ok rnd wt h w imgs hne hall hwt
    refine ⟨acc, none, ?_, ⟨s1, s2⟩, ⟨(fun _ => by omega), fun _ => rfl⟩, (fun cs hcs => by cases hcs), k⟩
    unfold coaddSumsR
    rw [hgs]
    simp only [bind, Except.bind, if_neg h1]
    exact e

/-- The error of one coefficient. -/
theorem addedUp_err {rnd : ℝ → ℝ} {u : ℝ} (hu : 0 ≤ u) (hr : RelErr rnd u) (chunks : Option (List (List CoImg)))
    (imgs : List CoImg) (hc : ∀ cs, chunks = some cs → cs.flatten.Perm imgs ∧ [] ∉ cs) (f : CoImg → ℝ) :
    |addedUp rnd chunks imgs f - (imgs.map f).sum| ≤ ((1 + u) ^ (imgs.length + 1) - 1) * absSum (imgs.map f) := by
  cases chunks with
  | none =>
    have := flSum_err hu hr (imgs.map f) 0
    rw [add_zero, abs_zero, zero_add, List.length_map] at this
    refine this.trans (mul_le_mul_of_nonneg_right ?_ (absSum_nonneg _))
    have := pow_u_mono hu (Nat.le_succ imgs.length)
    exact sub_le_sub_right this 1
  | some cs =>
    obtain ⟨hp, hne⟩ := hc cs rfl
    rcases cs.eq_nil_or_concat with rfl | _
    · have : imgs = [] := by simpa using hp
      subst this
      simp [addedUp, flSum, absSum]
    obtain ⟨m, hm, hm2⟩ : ∃ m, (∀ c ∈ cs.map fun c => c.map f, c.length ≤ m) ∧ m + cs.length ≤ imgs.length + 1 := by
      refine ⟨imgs.length + 1 - cs.length, ?_, ?_⟩
      · intro c hc'
        obtain ⟨c0, h0, rfl⟩ := List.mem_map.1 hc'
        have := chunk_depth cs hne c0 h0
        rw [hp.length_eq] at this
        rw [List.length_map]
        omega
      · have : cs.length ≤ imgs.length + 1 := by
          cases cs with
          | nil => simp
          | cons c0 rest =>
            have := chunk_depth (c0 :: rest) hne c0 (by simp)
            rw [hp.length_eq] at this
            omega
        omega
    have key := flSum_chunks_err hu hr (cs.map fun c => c.map f) m hm
    have fl : (cs.map fun c => c.map f).flatten = cs.flatten.map f := List.map_flatten.symm
    have s1 : (cs.flatten.map f).sum = (imgs.map f).sum := (hp.map f).sum_eq
    have s2 : absSum (cs.flatten.map f) = absSum (imgs.map f) := ((hp.map f).map fun x => |x|).sum_eq
    rw [fl, s1, s2, List.length_map] at key
    refine key.trans (mul_le_mul_of_nonneg_right ?_ (absSum_nonneg _))
    exact sub_le_sub_right (pow_u_mono hu hm2) 1

theorem addedUp_exact {rnd : ℝ → ℝ} {g : ℝ} (hg : ExactOn rnd g) (chunks : Option (List (List CoImg)))
    (imgs : List CoImg) (hc : ∀ cs, chunks = some cs → cs.flatten.Perm imgs ∧ [] ∉ cs) (f : CoImg → ℤ)
    (hf : (imgs.map fun im => |f im|).sum ≤ 2 ^ 53) :
    addedUp rnd chunks imgs (fun im => (f im : ℝ) * g) = (((imgs.map f).sum : ℤ) : ℝ) * g := by
  cases chunks with
  | none =>
    have := flSum_exact hg (imgs.map f) 0 (by
      rw [abs_zero, zero_add, List.map_map]
      exact hf)
    simp only [Int.cast_zero, zero_mul, add_zero, List.map_map] at this
    exact this
  | some cs =>
    obtain ⟨hp, _⟩ := hc cs rfl
    have fl : (cs.map fun c => c.map f).flatten = cs.flatten.map f := List.map_flatten.symm
    have key := flSum_chunks_exact hg (cs.map fun c => c.map f) (by
      rw [fl, List.map_map]
      rw [← (hp.map fun im => |f im|).sum_eq] at hf
      exact hf)
    rw [fl, (hp.map f).sum_eq] at key
    rw [← key]
    simp only [addedUp, List.map_map, Function.comp_def]

/-! ## C164 -/

section
variable (rnd : ℝ → ℝ) (wt : CoImg → Img ℂ) (lt : List CoImg → List CoImg → Option Bool) (h w : ℕ)
    (imgs : List CoImg) (n : ℤ) (hne : imgs ≠ []) (hall : AllShape imgs h w)
    (hwt : ∀ im ∈ imgs, (wt im).h = h ∧ (wt im).w = w)
    (hn : n ≤ imgs.length) (hn' : n ≤ 2 ^ 25) (hb : n * imgs.length ≤ 2 ^ 50)
include hne hall hwt hn hn' hb

/-- C164: whatever the number of workers, every coefficient of both sums is within `(1+u)^(k+1) - 1` times the sum of the
absolute values of the exact one, `k` the number of images and `u` the relative error of a rounding. -/
theorem float_sums (u : ℝ) (hu : 0 ≤ u) (hr : RelErr rnd u) :
    ∃ acc, coaddSumsR rnd wt lt imgs n = .ok acc ∧ ∀ i j,
      |(acc.S.px i j).re - (imgs.map fun im => (im.sHat i j).re).sum| ≤
        ((1 + u) ^ (imgs.length + 1) - 1) * (imgs.map fun im => |(im.sHat i j).re|).sum ∧
      |(acc.S.px i j).im - (imgs.map fun im => (im.sHat i j).im).sum| ≤
        ((1 + u) ^ (imgs.length + 1) - 1) * (imgs.map fun im => |(im.sHat i j).im|).sum ∧
      |(acc.P.px i j).re - (imgs.map fun im => ((wt im).px i j).re).sum| ≤
        ((1 + u) ^ (imgs.length + 1) - 1) * (imgs.map fun im => |((wt im).px i j).re|).sum ∧
      |(acc.P.px i j).im - (imgs.map fun im => ((wt im).px i j).im).sum| ≤
        ((1 + u) ^ (imgs.length + 1) - 1) * (imgs.map fun im => |((wt im).px i j).im|).sum := by
  obtain ⟨acc, chunks, e, _, _, hc, k⟩ := coaddSumsR_eq rnd wt lt h w imgs n hne hall hwt hn hn' hb
  refine ⟨acc, e, fun i j => ?_⟩
  obtain ⟨k1, k2, k3, k4⟩ := k i j
  have b := fun f => addedUp_err hu hr chunks imgs (fun cs hcs => (hc cs hcs).2) f
  have a : ∀ f : CoImg → ℝ, absSum (imgs.map f) = (imgs.map fun im => |f im|).sum := by
    intro f
    simp only [absSum, List.map_map, Function.comp_def]
  rw [k1, k2, k3, k4]
  refine ⟨?_, ?_, ?_, ?_⟩
  · rw [← a]; exact b _
  · rw [← a]; exact b _
  · rw [← a]; exact b _
  · rw [← a]; exact b _

/-- C164: the sum of the weighted PSF powers, which are real and not negative, is relatively accurate. -/
theorem float_power (u : ℝ) (hu : 0 ≤ u) (hr : RelErr rnd u)
    (hpos : ∀ im ∈ imgs, ∀ i j, 0 ≤ ((wt im).px i j).re ∧ ((wt im).px i j).im = 0) :
    ∃ acc, coaddSumsR rnd wt lt imgs n = .ok acc ∧ ∀ i j,
      |(acc.P.px i j).re - (imgs.map fun im => ((wt im).px i j).re).sum| ≤
        ((1 + u) ^ (imgs.length + 1) - 1) * (imgs.map fun im => ((wt im).px i j).re).sum ∧ (acc.P.px i j).im = 0 := by
  obtain ⟨acc, e, k⟩ := float_sums rnd wt lt h w imgs n hne hall hwt hn hn' hb u hu hr
  refine ⟨acc, e, fun i j => ?_⟩
  obtain ⟨_, _, k3, k4⟩ := k i j
  have e1 : (imgs.map fun im => |((wt im).px i j).re|) = imgs.map fun im => ((wt im).px i j).re :=
    List.map_congr_left fun im him => abs_of_nonneg (hpos im him i j).1
  have e2 : (imgs.map fun im => |((wt im).px i j).im|) = imgs.map fun _ => (0 : ℝ) :=
    List.map_congr_left fun im him => by rw [(hpos im him i j).2, abs_zero]
  have e3 : (imgs.map fun im => ((wt im).px i j).im) = imgs.map fun _ => (0 : ℝ) :=
    List.map_congr_left fun im him => (hpos im him i j).2
  rw [e1] at k3
  rw [e2, e3] at k4
  refine ⟨k3, ?_⟩
  simp only [List.map_const', List.sum_replicate, smul_zero, sub_zero, mul_zero] at k4
  exact abs_eq_zero.1 (le_antisymm k4 (abs_nonneg _))

/-- C164: two numbers of workers, and two orders of the images, differ by at most twice that. -/
theorem float_procs (u : ℝ) (hu : 0 ≤ u) (hr : RelErr rnd u) (imgs' : List CoImg) (hp : imgs'.Perm imgs) (n' : ℤ)
    (gn : n' ≤ imgs.length) (gn' : n' ≤ 2 ^ 25) (gb : n' * imgs.length ≤ 2 ^ 50) :
    ∃ acc acc', coaddSumsR rnd wt lt imgs n = .ok acc ∧ coaddSumsR rnd wt lt imgs' n' = .ok acc' ∧ ∀ i j,
      |(acc.S.px i j).re - (acc'.S.px i j).re| ≤
        2 * (((1 + u) ^ (imgs.length + 1) - 1) * (imgs.map fun im => |(im.sHat i j).re|).sum) ∧
      |(acc.S.px i j).im - (acc'.S.px i j).im| ≤
        2 * (((1 + u) ^ (imgs.length + 1) - 1) * (imgs.map fun im => |(im.sHat i j).im|).sum) ∧
      |(acc.P.px i j).re - (acc'.P.px i j).re| ≤
        2 * (((1 + u) ^ (imgs.length + 1) - 1) * (imgs.map fun im => |((wt im).px i j).re|).sum) ∧
      |(acc.P.px i j).im - (acc'.P.px i j).im| ≤
        2 * (((1 + u) ^ (imgs.length + 1) - 1) * (imgs.map fun im => |((wt im).px i j).im|).sum) := by
  obtain ⟨acc, e, k⟩ := float_sums rnd wt lt h w imgs n hne hall hwt hn hn' hb u hu hr
  have hl := hp.length_eq
  obtain ⟨acc', e', k'⟩ := float_sums rnd wt lt h w imgs' n' (fun h0 => hne (by rw [h0] at hp; simpa using hp.symm))
    (fun im him => hall im (hp.subset him)) (fun im him => hwt im (hp.subset him))
    (by rw [hl]; exact gn) gn' (by rw [hl]; exact gb) u hu hr
  refine ⟨acc, acc', e, e', fun i j => ?_⟩
  obtain ⟨k1, k2, k3, k4⟩ := k i j
  obtain ⟨c1, c2, c3, c4⟩ := k' i j
  simp only [fun f : CoImg → ℝ => (hp.map f).sum_eq, hl] at c1 c2 c3 c4
  have tri : ∀ a b s c : ℝ, |a - s| ≤ c → |b - s| ≤ c → |a - b| ≤ 2 * c := by
    intro a b s c h1 h2
    rw [abs_le] at *
    constructor <;> linarith
  exact ⟨tri _ _ _ _ k1 c1, tri _ _ _ _ k2 c2, tri _ _ _ _ k3 c3, tri _ _ _ _ k4 c4⟩

/-- C164: coefficients on a common binary grid, small enough, are added up without any error. -/
theorem float_grid (g : ℝ) (hg : ExactOn rnd g) (i j : ℕ) (a b : CoImg → ℤ)
    (ha : ∀ im ∈ imgs, im.sHat i j = ⟨a im * g, b im * g⟩)
    (sa : (imgs.map fun im => |a im|).sum ≤ 2 ^ 53) (sb : (imgs.map fun im => |b im|).sum ≤ 2 ^ 53) :
    ∃ acc, coaddSumsR rnd wt lt imgs n = .ok acc ∧ acc.S.px i j = (imgs.map fun im => im.sHat i j).sum := by
  obtain ⟨acc, chunks, e, _, _, hc, k⟩ := coaddSumsR_eq rnd wt lt h w imgs n hne hall hwt hn hn' hb
  refine ⟨acc, e, ?_⟩
  obtain ⟨k1, k2, _, _⟩ := k i j
  have congr1 : ∀ f f' : CoImg → ℝ, (∀ im ∈ imgs, f im = f' im) → addedUp rnd chunks imgs f = addedUp rnd chunks imgs f' := by
    intro f f' hff
    cases chunks with
    | none => exact congrArg (fun l => flSum rnd l 0) (List.map_congr_left hff)
    | some cs =>
      have : (cs.map fun c => c.map f) = cs.map fun c => c.map f' := by
        refine List.map_congr_left fun c hc' => List.map_congr_left fun im him => hff im ?_
        exact (hc cs rfl).2.1.subset (List.mem_flatten.2 ⟨c, hc', him⟩)
      simp only [addedUp, this]
  rw [congr1 _ (fun im => (a im : ℝ) * g) fun im him => by rw [ha im him],
    addedUp_exact hg chunks imgs (fun cs hcs => (hc cs hcs).2) a sa] at k1
  rw [congr1 _ (fun im => (b im : ℝ) * g) fun im him => by rw [ha im him],
    addedUp_exact hg chunks imgs (fun cs hcs => (hc cs hcs).2) b sb] at k2
  have sum : ∀ l : List CoImg, (∀ im ∈ l, im.sHat i j = ⟨a im * g, b im * g⟩) →
      (l.map fun im => im.sHat i j).sum = ⟨((l.map a).sum : ℤ) * g, ((l.map b).sum : ℤ) * g⟩ := by
    intro l
    induction l with
    | nil => intro _; apply Complex.ext <;> simp
    | cons x xs ih =>
      intro hl
      rw [List.map_cons, List.sum_cons, ih fun im him => hl im (by simp [him]), hl x (by simp)]
      apply Complex.ext
      · simp [add_mul]
      · simp [add_mul]
  rw [sum imgs ha]
  exact Complex.ext k1 k2

end

/-- A quotient `S / √P` with errors in both. -/
theorem quotient_err (S S' : ℂ) (P P' A γ : ℝ) (hγ0 : 0 ≤ γ) (hγ : γ < 1) (hP : 0 < P) (hPe : |P' - P| ≤ γ * P)
    (hSA : ‖S‖ ≤ A) (hSe : ‖S' - S‖ ≤ 2 * (γ * A)) :
    ‖S' / csqrt (P' : ℂ) - S / csqrt (P : ℂ)‖ ≤ 3 * γ / Real.sqrt (1 - γ) * (A / Real.sqrt P) := by
  have hP' : (1 - γ) * P ≤ P' := by
    have := (abs_le.1 hPe).1
    linarith
  have hq : 0 < (1 - γ) * P := mul_pos (by linarith) hP
  have pP' : 0 < P' := lt_of_lt_of_le hq hP'
  rw [csqrt_ofReal_nonneg P hP.le, csqrt_ofReal_nonneg P' pP'.le]
  have s1 : 0 < Real.sqrt P := Real.sqrt_pos.2 hP
  have s2 : 0 < Real.sqrt P' := Real.sqrt_pos.2 pP'
  have s3 : Real.sqrt (1 - γ) * Real.sqrt P ≤ Real.sqrt P' := by
    rw [← Real.sqrt_mul (by linarith)]
    exact Real.sqrt_le_sqrt hP'
  have s4 : 0 < Real.sqrt (1 - γ) := Real.sqrt_pos.2 (by linarith)
  have e : S' / ((Real.sqrt P' : ℝ) : ℂ) - S / ((Real.sqrt P : ℝ) : ℂ) =
      ((S' - S) + S * (((Real.sqrt P - Real.sqrt P') / Real.sqrt P : ℝ) : ℂ)) / ((Real.sqrt P' : ℝ) : ℂ) := by
    have h1 : ((Real.sqrt P : ℝ) : ℂ) ≠ 0 := by exact_mod_cast s1.ne'
    have h2 : ((Real.sqrt P' : ℝ) : ℂ) ≠ 0 := by exact_mod_cast s2.ne'
    push_cast
    field_simp
    ring
  have d : |(Real.sqrt P - Real.sqrt P') / Real.sqrt P| ≤ γ := by
    rw [abs_div, abs_of_pos s1, div_le_iff₀ s1]
    have h1 : (Real.sqrt P - Real.sqrt P') * (Real.sqrt P + Real.sqrt P') = P - P' := by
      have a := Real.mul_self_sqrt hP.le
      have b := Real.mul_self_sqrt pP'.le
      nlinarith
    have h2 : |Real.sqrt P - Real.sqrt P'| * (Real.sqrt P + Real.sqrt P') ≤ γ * P := by
      rw [← abs_of_pos (add_pos s1 s2), ← abs_mul, h1, abs_sub_comm]
      exact hPe
    have h3 : |Real.sqrt P - Real.sqrt P'| * Real.sqrt P ≤ γ * Real.sqrt P * Real.sqrt P := by
      have a := Real.mul_self_sqrt hP.le
      have := mul_nonneg (abs_nonneg (Real.sqrt P - Real.sqrt P')) s2.le
      nlinarith
    exact le_of_mul_le_mul_right h3 s1
  have A0 : 0 ≤ A := (norm_nonneg S).trans hSA
  rw [e, norm_div, Complex.norm_of_nonneg s2.le, div_le_iff₀ s2]
  have n1 : ‖(S' - S) + S * (((Real.sqrt P - Real.sqrt P') / Real.sqrt P : ℝ) : ℂ)‖ ≤ 3 * γ * A := by
    refine (norm_add_le _ _).trans ?_
    rw [norm_mul, Complex.norm_real, Real.norm_eq_abs]
    have := mul_le_mul hSA d (abs_nonneg _) A0
    linarith
  refine n1.trans ?_
  have : 3 * γ / Real.sqrt (1 - γ) * (A / Real.sqrt P) * Real.sqrt P' =
      3 * γ * A * (Real.sqrt P' / (Real.sqrt (1 - γ) * Real.sqrt P)) := by
    field_simp
  rw [this]
  have h5 : 1 ≤ Real.sqrt P' / (Real.sqrt (1 - γ) * Real.sqrt P) := by
    rw [le_div_iff₀ (mul_pos s4 s1), one_mul]
    exact s3
  exact le_mul_of_one_le_right (by positivity) h5

/-- C164: and of R, if the steps after the sums are exact: every pixel is within `3γ/√(1-γ)` times the mean over the frequencies
of what the images contribute in absolute value over the root of the power, `γ = (1+u)^(k+1) - 1`. -/
theorem float_coadd (rnd : ℝ → ℝ) (wt : CoImg → Img ℂ) (lt : List CoImg → List CoImg → Option Bool) (h w : ℕ)
    (imgs : List CoImg) (n : ℤ) (hne : imgs ≠ []) (hall : AllShape imgs h w)
    (hwt : ∀ im ∈ imgs, (wt im).h = h ∧ (wt im).w = w)
    (hn : n ≤ imgs.length) (hn' : n ≤ 2 ^ 25) (hb : n * imgs.length ≤ 2 ^ 50) (psfShape : ℕ)
    (u γ : ℝ) (hu : 0 ≤ u) (hr : RelErr rnd u) (hγ : γ = (1 + u) ^ (imgs.length + 1) - 1) (hγ1 : γ < 1)
    (hpos : ∀ im ∈ imgs, ∀ i j, 0 ≤ ((wt im).px i j).re ∧ ((wt im).px i j).im = 0)
    (hP : ∀ k < h, ∀ l < w, 0 < (imgs.map fun im => ((wt im).px k l).re).sum) :
    ∃ acc, coaddSumsR rnd wt lt imgs n = .ok acc ∧ ∀ i j,
      ‖(finishCoadd psfShape acc).R.px i j -
        (coaddR ⟨h, w, fun k l => (imgs.map fun im => im.sHat k l).sum⟩
          ⟨h, w, fun k l => (((imgs.map fun im => ((wt im).px k l).re).sum : ℝ) : ℂ)⟩).px i j‖ ≤
      3 * γ / Real.sqrt (1 - γ) * ((∑ k ∈ Finset.range h, ∑ l ∈ Finset.range w,
        (imgs.map fun im => ‖im.sHat k l‖).sum / Real.sqrt (imgs.map fun im => ((wt im).px k l).re).sum) / (h * w : ℕ)) := by
  obtain ⟨acc0, e0, kS⟩ := float_sums rnd wt lt h w imgs n hne hall hwt hn hn' hb u hu hr
  obtain ⟨acc1, e1, kP⟩ := float_power rnd wt lt h w imgs n hne hall hwt hn hn' hb u hu hr hpos
  obtain ⟨acc, chunks, e, hsh, _⟩ := coaddSumsR_eq rnd wt lt h w imgs n hne hall hwt hn hn' hb
  obtain rfl : acc = acc0 := Except.ok.inj (e.symm.trans e0)
  obtain rfl : acc = acc1 := Except.ok.inj (e.symm.trans e1)
  refine ⟨acc, e, fun i j => ?_⟩
  have γ0 : 0 ≤ γ := by
    have := one_le_pow_u hu (imgs.length + 1)
    linarith
  -- the error at one frequency
  have one : ∀ k < h, ∀ l < w, ‖acc.S.px k l / csqrt (acc.P.px k l) - (imgs.map fun im => im.sHat k l).sum /
      csqrt (((imgs.map fun im => ((wt im).px k l).re).sum : ℝ) : ℂ)‖ ≤ 3 * γ / Real.sqrt (1 - γ) *
        ((imgs.map fun im => ‖im.sHat k l‖).sum / Real.sqrt (imgs.map fun im => ((wt im).px k l).re).sum) := by
    intro k hk l hl
    obtain ⟨a1, a2, _, _⟩ := kS k l
    obtain ⟨b1, b2⟩ := kP k l
    rw [← hγ] at a1 a2 b1
    have eP : acc.P.px k l = (((acc.P.px k l).re : ℝ) : ℂ) := Complex.ext rfl (by rw [b2]; rfl)
    have parts : ∀ ls : List CoImg, (ls.map fun im => im.sHat k l).sum =
        ⟨(ls.map fun im => (im.sHat k l).re).sum, (ls.map fun im => (im.sHat k l).im).sum⟩ ∧
        ‖(ls.map fun im => im.sHat k l).sum‖ ≤ (ls.map fun im => ‖im.sHat k l‖).sum ∧
        (ls.map fun im => |(im.sHat k l).re|).sum ≤ (ls.map fun im => ‖im.sHat k l‖).sum ∧
        (ls.map fun im => |(im.sHat k l).im|).sum ≤ (ls.map fun im => ‖im.sHat k l‖).sum := by
      intro ls
      induction ls with
      | nil => refine ⟨Complex.ext rfl rfl, ?_, ?_, ?_⟩ <;> simp
      | cons x xs ih =>
        obtain ⟨i1, i2, i3, i4⟩ := ih
        simp only [List.map_cons, List.sum_cons]
        refine ⟨by rw [i1]; exact Complex.ext rfl rfl, (norm_add_le _ _).trans (by linarith), ?_, ?_⟩
        · have := Complex.abs_re_le_norm (x.sHat k l); linarith
        · have := Complex.abs_im_le_norm (x.sHat k l); linarith
    obtain ⟨p1, p2, p3, p4⟩ := parts imgs
    rw [eP]
    refine quotient_err _ _ _ _ _ γ γ0 hγ1 (hP k hk l hl) b1 p2 ?_
    refine (Complex.norm_le_abs_re_add_abs_im _).trans ?_
    rw [Complex.sub_re, Complex.sub_im, p1]
    have c1 := a1.trans (mul_le_mul_of_nonneg_left p3 γ0)
    have c2 := a2.trans (mul_le_mul_of_nonneg_left p4 γ0)
    linarith
  have shape : (finishCoadd psfShape acc).R.px i j =
      (∑ k ∈ Finset.range h, ∑ l ∈ Finset.range w, acc.S.px k l / csqrt (acc.P.px k l) *
        (tw h (-((k : ℝ) * i)) * tw w (-((l : ℝ) * j)))) / ((h * w : ℕ) : ℂ) := by
    rw [← hsh.1.1, ← hsh.1.2]
    rfl
  have shape' : (coaddR ⟨h, w, fun k l => (imgs.map fun im => im.sHat k l).sum⟩
          ⟨h, w, fun k l => (((imgs.map fun im => ((wt im).px k l).re).sum : ℝ) : ℂ)⟩).px i j =
      (∑ k ∈ Finset.range h, ∑ l ∈ Finset.range w, (imgs.map fun im => im.sHat k l).sum /
        csqrt (((imgs.map fun im => ((wt im).px k l).re).sum : ℝ) : ℂ) *
        (tw h (-((k : ℝ) * i)) * tw w (-((l : ℝ) * j)))) / ((h * w : ℕ) : ℂ) := rfl
  rw [shape, shape', ← sub_div, norm_div, Complex.norm_natCast, ← mul_div_assoc]
  refine div_le_div_of_nonneg_right ?_ (Nat.cast_nonneg _)
  rw [← Finset.sum_sub_distrib, Finset.mul_sum]
  refine (norm_sum_le _ _).trans (Finset.sum_le_sum fun k hk => ?_)
  rw [← Finset.sum_sub_distrib, Finset.mul_sum]
  refine (norm_sum_le _ _).trans (Finset.sum_le_sum fun l hl => ?_)
  rw [← sub_mul, norm_mul, norm_mul, norm_tw, norm_tw, mul_one, mul_one]
  exact one k (Finset.mem_range.1 hk) l (Finset.mem_range.1 hl)

/-- Up to `2^52` roundings of binary64 cost at most `2^-52` each. -/
theorem float_factor (m : ℕ) (hm : m ≤ 2 ^ 52) : (1 + 1 / 2 ^ 53 : ℝ) ^ m - 1 ≤ m / 2 ^ 52 := by
  induction m with
  | zero => simp
  | succ m ih =>
    have h1 := ih (by omega)
    have h2 : (m : ℝ) ≤ 2 ^ 52 := by exact_mod_cast (show m ≤ 2 ^ 52 by omega)
    rw [pow_succ]
    push_cast
    have h3 : (1 + 1 / 2 ^ 53 : ℝ) ^ m ≤ 1 + m / 2 ^ 52 := by linarith
    have h4 : (1 + 1 / 2 ^ 53 : ℝ) ^ m * (1 + 1 / 2 ^ 53) ≤ (1 + m / 2 ^ 52) * (1 + 1 / 2 ^ 53) :=
      mul_le_mul_of_nonneg_right h3 (by positivity)
    have h5 : (m : ℝ) / 2 ^ 52 * (1 / 2 ^ 53) ≤ 1 / 2 ^ 53 := by
      have : (m : ℝ) / 2 ^ 52 ≤ 1 := by rw [div_le_one (by positivity)]; exact h2
      calc _ ≤ 1 * (1 / 2 ^ 53 : ℝ) := mul_le_mul_of_nonneg_right this (by positivity)
        _ = _ := one_mul _
    have h6 : (1 / 2 ^ 53 : ℝ) + 1 / 2 ^ 53 = 1 / 2 ^ 52 := by norm_num
    rw [add_div]
    nlinarith

/-- C164: in binary64, with fewer than `2^52` images. -/
theorem float_sums_64 (wt : CoImg → Img ℂ) (lt : List CoImg → List CoImg → Option Bool) (h w : ℕ)
    (imgs : List CoImg) (n : ℤ) (hne : imgs ≠ []) (hall : AllShape imgs h w)
    (hwt : ∀ im ∈ imgs, (wt im).h = h ∧ (wt im).w = w)
    (hn : n ≤ imgs.length) (hn' : n ≤ 2 ^ 25) (hb : n * imgs.length ≤ 2 ^ 50) (hk : imgs.length < 2 ^ 52) :
    ∃ acc, coaddSumsR rnd64 wt lt imgs n = .ok acc ∧ ∀ i j,
      |(acc.S.px i j).re - (imgs.map fun im => (im.sHat i j).re).sum| ≤
        ((imgs.length + 1 : ℕ) : ℝ) / 2 ^ 52 * (imgs.map fun im => |(im.sHat i j).re|).sum ∧
      |(acc.S.px i j).im - (imgs.map fun im => (im.sHat i j).im).sum| ≤
        ((imgs.length + 1 : ℕ) : ℝ) / 2 ^ 52 * (imgs.map fun im => |(im.sHat i j).im|).sum ∧
      |(acc.P.px i j).re - (imgs.map fun im => ((wt im).px i j).re).sum| ≤
        ((imgs.length + 1 : ℕ) : ℝ) / 2 ^ 52 * (imgs.map fun im => |((wt im).px i j).re|).sum ∧
      |(acc.P.px i j).im - (imgs.map fun im => ((wt im).px i j).im).sum| ≤
        ((imgs.length + 1 : ℕ) : ℝ) / 2 ^ 52 * (imgs.map fun im => |((wt im).px i j).im|).sum := by
  obtain ⟨acc, e, k⟩ := float_sums rnd64 wt lt h w imgs n hne hall hwt hn hn' hb (1 / 2 ^ 53) (by positivity) rnd64_relErr
  refine ⟨acc, e, fun i j => ?_⟩
  obtain ⟨k1, k2, k3, k4⟩ := k i j
  have nn : ∀ f : CoImg → ℝ, 0 ≤ (imgs.map fun im => |f im|).sum := fun f => List.sum_nonneg (by simp)
  have fac := float_factor (imgs.length + 1) (by omega)
  exact ⟨k1.trans (mul_le_mul_of_nonneg_right fac (nn _)), k2.trans (mul_le_mul_of_nonneg_right fac (nn _)),
    k3.trans (mul_le_mul_of_nonneg_right fac (nn _)), k4.trans (mul_le_mul_of_nonneg_right fac (nn _))⟩

/-! ## Cases -/

theorem rnd64_tie : rnd64 (1 + 2 ^ 53) = 2 ^ 53 := by
  rw [add_comm]
  have hl : Int.log 2 |(2 ^ 53 + 1 : ℝ)| = 53 := by
    have e : |(2 ^ 53 + 1 : ℝ)| = ((2 ^ 53 + 1 : ℕ) : ℝ) := by
      rw [abs_of_pos (by norm_num)]
      norm_num
    have l : Nat.log 2 (2 ^ 53 + 1) = 53 := by decide +kernel
    rw [e, Int.log_natCast, l]
    rfl
  have hx : (2 ^ 53 + 1 : ℝ) * 2 ^ ((52 : ℤ) - 53) = 2 ^ 52 + 1 / 2 := by norm_num
  have hf : ⌊(2 ^ 52 + 1 / 2 : ℝ)⌋ = 2 ^ 52 := by
    rw [Int.floor_eq_iff]
    norm_num
  have hr : roundEvenR (2 ^ 52 + 1 / 2) = 2 ^ 52 := by
    unfold roundEvenR
    rw [hf]
    norm_num
  unfold rnd64
  rw [if_neg (by norm_num), hl, hx, hr]
  norm_num

/-- Three images of one pixel whose coefficients are `2^53`, 1 and `-2^53`. -/
noncomputable def cancelling : List CoImg :=
  [⟨1, 1, fun _ _ => ⟨2 ^ 53, 0⟩, fun _ _ => 1, 1, 1, none⟩, ⟨1, 1, fun _ _ => ⟨1, 0⟩, fun _ _ => 1, 1, 1, none⟩,
    ⟨1, 1, fun _ _ => ⟨-2 ^ 53, 0⟩, fun _ _ => 1, 1, 1, none⟩]

theorem cancelling_shape : AllShape cancelling 1 1 := by
  intro im him
  simp only [cancelling, List.mem_cons, List.not_mem_nil, or_false] at him
  rcases him with rfl | rfl | rfl <;> exact ⟨rfl, rfl, by intro a h; cases h⟩

theorem cancelling_chunks {α : Type} (a b c : α) :
    chunkIt floatArith (fun _ _ => none) [a, b, c] 2 4 = .ok [[a], [b, c]] := by
  have e1 : floatArith.ratio 3 2 = (3 / 2 : ℚ) := by decide +kernel
  have e2 : floatArith.add floatArith.zero (3 / 2) = (3 / 2 : ℚ) := by decide +kernel
  have e3 : floatArith.add (3 / 2 : ℚ) (3 / 2) = (3 : ℚ) := by decide +kernel
  have l0 : floatArith.lt floatArith.zero 3 = true := by decide +kernel
  have l1 : floatArith.lt (3 / 2 : ℚ) 3 = true := by decide +kernel
  have l2 : floatArith.lt (3 : ℚ) 3 = false := by decide +kernel
  have t0 : floatArith.toInt floatArith.zero = 0 := by decide +kernel
  have t1 : floatArith.toInt (3 / 2 : ℚ) = 1 := by decide +kernel
  have t2 : floatArith.toInt (3 : ℚ) = 3 := by decide +kernel
  simp [chunkIt, chunkRaw, chunkLoop, e1, e2, e3, l0, l1, l2, t0, t1, t2, pySlice, sliceBound, Except.map, sortedDesc,
    insertDesc]

/-- C164: so the number of workers does change the result: in binary64 one worker gives 0 and two give 1 for the same
three images, whose exact sum is 1. -/
theorem workers_change_the_sum : ∃ a1 a2,
    coaddSumsR rnd64 CoImg.weighted (fun _ _ => none) cancelling 1 = .ok a1 ∧
    coaddSumsR rnd64 CoImg.weighted (fun _ _ => none) cancelling 2 = .ok a2 ∧
    a1.S.px 0 0 = 0 ∧ a2.S.px 0 0 = 1 := by
  have hall := cancelling_shape
  have hwt : ∀ im ∈ cancelling, im.weighted.h = 1 ∧ im.weighted.w = 1 := fun im him => ⟨(hall im him).1, (hall im him).2.1⟩
  have ex : ∀ (m : ℤ), |m| ≤ 2 ^ 53 → rnd64 m = m := by
    intro m hm
    have := rnd64_exactOn 0 m hm
    rwa [zpow_zero, mul_one] at this
  have z : rnd64 0 = 0 := by simp [rnd64]
  have r1 : rnd64 (2 ^ 53) = 2 ^ 53 := by
    have := ex (2 ^ 53) (by norm_num)
    rw [Int.cast_pow] at this
    exact_mod_cast this
  have r2 : rnd64 1 = 1 := by simpa using ex 1 (by norm_num)
  have r3 : rnd64 (-2 ^ 53 + 1) = -2 ^ 53 + 1 := by
    have := ex (-2 ^ 53 + 1) (by norm_num)
    rw [Int.cast_add, Int.cast_neg, Int.cast_pow, Int.cast_one, Int.cast_ofNat] at this
    exact this
  obtain ⟨a1, c1, e1, _, n1, _, k1⟩ := coaddSumsR_eq rnd64 CoImg.weighted (fun _ _ => none) 1 1 cancelling 1 (by simp [cancelling])
    hall hwt (by simp [cancelling]) (by norm_num) (by simp [cancelling])
  obtain ⟨a2, c2, e2, _, n2, q2, k2⟩ := coaddSumsR_eq rnd64 CoImg.weighted (fun _ _ => none) 1 1 cancelling 2 (by simp [cancelling])
    hall hwt (by simp [cancelling]) (by norm_num) (by simp [cancelling])
  refine ⟨a1, a2, e1, e2, ?_, ?_⟩
  · obtain rfl := n1.2 (by norm_num)
    obtain ⟨f1, f2, _, _⟩ := k1 0 0
    apply Complex.ext
    · rw [f1]
      change rnd64 (-2 ^ 53 + rnd64 (1 + rnd64 (2 ^ 53 + 0))) = 0
      rw [add_zero, r1, rnd64_tie, neg_add_cancel, z]
    · rw [f2]
      change rnd64 (0 + rnd64 (0 + rnd64 (0 + 0))) = 0
      simp only [add_zero, z]
  · cases c2 with
    | none => exact absurd (n2.1 rfl) (by norm_num)
    | some cs =>
      obtain ⟨q, _⟩ := q2 cs rfl
      have : chunkIt floatArith (fun _ _ => none) cancelling 2 4 = .ok cs := q
      unfold cancelling at this
      rw [cancelling_chunks] at this
      cases this
      obtain ⟨f1, f2, _, _⟩ := k2 0 0
      apply Complex.ext
      · rw [f1]
        change rnd64 (rnd64 (-2 ^ 53 + rnd64 (1 + 0)) + rnd64 (rnd64 (2 ^ 53 + 0) + 0)) = 1
        rw [add_zero, add_zero, add_zero, r1, r1, r2, r3, neg_add_eq_sub, sub_add_cancel, r2]
      · rw [f2]
        change rnd64 (rnd64 (0 + rnd64 (0 + 0)) + rnd64 (rnd64 (0 + 0) + 0)) = 0
        simp only [add_zero, z]

/-- Their weighted powers are added up to 3, up to a relative error of `2^-50`, with either number of workers. -/
theorem cancelling_power (n : ℤ) (hn : n ≤ 3) : ∃ acc,
    coaddSumsR rnd64 CoImg.weighted (fun _ _ => none) cancelling n = .ok acc ∧ |(acc.P.px 0 0).re - 3| ≤ 3 * (4 / 2 ^ 52) := by
  have hwt : ∀ im ∈ cancelling, im.weighted.h = 1 ∧ im.weighted.w = 1 :=
    fun im him => ⟨(cancelling_shape im him).1, (cancelling_shape im him).2.1⟩
  have hl : cancelling.length = 3 := rfl
  obtain ⟨acc, e, k⟩ := float_power rnd64 CoImg.weighted (fun _ _ => none) 1 1 cancelling n (by simp [cancelling])
    cancelling_shape hwt (by rw [hl]; exact hn) (by omega) (by rw [hl]; push_cast; omega) (1 / 2 ^ 53) (by positivity) rnd64_relErr
    (by
      intro im him i j
      simp only [cancelling, List.mem_cons, List.not_mem_nil, or_false] at him
      rcases him with rfl | rfl | rfl <;> simp [CoImg.weighted])
  refine ⟨acc, e, ?_⟩
  have h0 := (k 0 0).1
  have s3 : (cancelling.map fun im => ((CoImg.weighted im).px 0 0).re).sum = 3 := by
    simp [cancelling, CoImg.weighted]
    norm_num
  rw [s3, hl] at h0
  have fac := float_factor 4 (by norm_num)
  push_cast at fac
  calc _ ≤ _ := h0
    _ ≤ 4 / 2 ^ 52 * 3 := mul_le_mul_of_nonneg_right fac (by norm_num)
    _ = _ := mul_comm _ _

/-- Coefficients 3/4 and -1/2 (three and minus two quarters) are added up exactly. -/
example (lt : List CoImg → List CoImg → Option Bool) : ∃ acc,
    coaddSumsR rnd64 CoImg.weighted lt
      [⟨1, 1, fun _ _ => ⟨(3 : ℤ) * 2 ^ (-2 : ℤ), (0 : ℤ) * 2 ^ (-2 : ℤ)⟩, fun _ _ => 1, 1, 1, none⟩,
        ⟨1, 1, fun _ _ => ⟨(-2 : ℤ) * 2 ^ (-2 : ℤ), (0 : ℤ) * 2 ^ (-2 : ℤ)⟩, fun _ _ => 1, 2, 1, none⟩] 2 = .ok acc ∧
      acc.S.px 0 0 = 1 / 4 := by
  obtain ⟨acc, e, k⟩ := float_grid rnd64 CoImg.weighted lt 1 1
      [⟨1, 1, fun _ _ => ⟨(3 : ℤ) * 2 ^ (-2 : ℤ), (0 : ℤ) * 2 ^ (-2 : ℤ)⟩, fun _ _ => 1, 1, 1, none⟩,
        ⟨1, 1, fun _ _ => ⟨(-2 : ℤ) * 2 ^ (-2 : ℤ), (0 : ℤ) * 2 ^ (-2 : ℤ)⟩, fun _ _ => 1, 2, 1, none⟩] 2 (by simp)
    (by
      intro im him
      simp only [List.mem_cons, List.not_mem_nil, or_false] at him
      rcases him with rfl | rfl <;> exact ⟨rfl, rfl, by intro a h; cases h⟩)
    (by
      intro im him
      simp only [List.mem_cons, List.not_mem_nil, or_false] at him
      rcases him with rfl | rfl <;> exact ⟨rfl, rfl⟩)
    (by simp) (by norm_num) (by simp) (2 ^ (-2 : ℤ)) (rnd64_exactOn (-2)) 0 0
    (fun im => if im.zp = 1 then 3 else -2) (fun _ => 0)
    (by
      intro im him
      simp only [List.mem_cons, List.not_mem_nil, or_false] at him
      rcases him with rfl | rfl <;> norm_num)
    (by norm_num) (by norm_num)
  refine ⟨acc, e, k.trans ?_⟩
  apply Complex.ext <;> norm_num

/-- The bound on R for the three images above, whose terms are huge beside their sum. -/
theorem cancelling_coadd (n : ℤ) (hn : n ≤ 3) : ∃ acc,
    coaddSumsR rnd64 CoImg.weighted (fun _ _ => none) cancelling n = .ok acc ∧ ∀ i j,
      ‖(finishCoadd 0 acc).R.px i j -
        (coaddR ⟨1, 1, fun k l => (cancelling.map fun im => im.sHat k l).sum⟩
          ⟨1, 1, fun k l => (((cancelling.map fun im => (im.weighted.px k l).re).sum : ℝ) : ℂ)⟩).px i j‖ ≤
      3 * ((1 + 1 / 2 ^ 53) ^ 4 - 1) / Real.sqrt (1 - ((1 + 1 / 2 ^ 53) ^ 4 - 1)) * ((2 ^ 54 + 1) / Real.sqrt 3) := by
  have hwt : ∀ im ∈ cancelling, im.weighted.h = 1 ∧ im.weighted.w = 1 :=
    fun im him => ⟨(cancelling_shape im him).1, (cancelling_shape im him).2.1⟩
  have hl : cancelling.length = 3 := rfl
  have s3 : ∀ k l, (cancelling.map fun im => ((CoImg.weighted im).px k l).re).sum = 3 := by
    intro k l
    simp [cancelling, CoImg.weighted]
    norm_num
  have sA : ∀ k l, (cancelling.map fun im => ‖im.sHat k l‖).sum = 2 ^ 54 + 1 := by
    intro k l
    have nr : ∀ r : ℝ, ‖(⟨r, 0⟩ : ℂ)‖ = |r| := fun r => Complex.norm_real r
    simp only [cancelling, List.map_cons, List.map_nil, List.sum_cons, List.sum_nil, nr]
    norm_num
  obtain ⟨acc, e, k⟩ := float_coadd rnd64 CoImg.weighted (fun _ _ => none) 1 1 cancelling n (by simp [cancelling])
    cancelling_shape hwt (by rw [hl]; exact hn) (by omega) (by rw [hl]; push_cast; omega) 0 (1 / 2 ^ 53)
    ((1 + 1 / 2 ^ 53) ^ 4 - 1) (by positivity) rnd64_relErr (by rw [hl])
    (by
      have := float_factor 4 (by norm_num)
      refine lt_of_le_of_lt this ?_
      norm_num)
    (by
      intro im him i j
      simp only [cancelling, List.mem_cons, List.not_mem_nil, or_false] at him
      rcases him with rfl | rfl | rfl <;> simp [CoImg.weighted])
    (fun k _ l _ => by rw [s3]; norm_num)
  refine ⟨acc, e, fun i j => (k i j).trans (le_of_eq ?_)⟩
  rw [Finset.sum_range_one, Finset.sum_range_one, s3, sA]
  norm_num

end PI
