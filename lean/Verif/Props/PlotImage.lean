import Verif.Model.PlotImage
import Verif.Lemmas.SigmaClip
import Mathlib.Tactic.Linarith
import Mathlib.Tactic.Ring
import Mathlib.Tactic.FieldSimp
import Mathlib.Tactic.Positivity
import Mathlib.Tactic.NormNum

/-!
# What `plot_R` and `plot_S` draw (C112, C113)
-/

namespace PI

/-! ## `plot_R` -/

/-- An array `plot_R` can draw: floats, or `complex128` whose first pixel is not masked. -/
def Drawable (a : PlotArr) : Prop := a.type = .float ∨ (a.type = .complex128 ∧ a.isMasked 0 0 = false)

/-- The value a masked pixel is drawn with. -/
noncomputable def fillOf (a : PlotArr) : ℝ :=
  if a.type = .float then
    match a.masked with
    | none => 0
    | some (_, f) => f.re
  else 10 ^ 20

theorem realIfComplex_float_iff (a : PlotArr) : (realIfComplex a).type = .float ↔ Drawable a := by
  unfold realIfComplex Drawable
  by_cases hc : a.type = .complex128 ∧ a.isMasked 0 0 = false
  · rw [if_pos hc]; exact iff_of_true rfl (Or.inr hc)
  · rw [if_neg hc]
    constructor
    · exact Or.inl
    · rintro (h | h)
      · exact h
      · exact absurd h hc

/-- **C112 (what is raised).** On a non-empty array `plot_R` raises `TypeError` exactly when the elements
are `complex64`, or `complex128` and the pixel `[0, 0]` is masked; an empty figure stays open if none
was. Otherwise it succeeds. -/
theorem plotR_raises_iff (a : PlotArr) (nbook : Bool) (figs : Figures) (hh : 0 < a.img.h)
    (hw : 0 < a.img.w) :
    (plotR a nbook figs = (.error .TypeError, if figs = [] then [[]] else figs) ↔
      (a.type = .complex64 ∨ (a.type = .complex128 ∧ a.isMasked 0 0 = true))) ∧
    ((∃ figs', plotR a nbook figs = (.ok (), figs')) ↔ Drawable a) := by
  have hne : ¬ (a.img.h = 0 ∨ a.img.w = 0) := by omega
  have hcases : Drawable a ↔ ¬ (a.type = .complex64 ∨ (a.type = .complex128 ∧ a.isMasked 0 0 = true)) := by
    unfold Drawable
    cases a.type <;> cases a.isMasked 0 0 <;> simp
  unfold plotR
  rw [if_neg hne]
  simp only []
  by_cases hd : Drawable a
  · have hf := (realIfComplex_float_iff a).2 hd
    rw [if_pos hf]
    refine ⟨iff_of_false (fun h => ?_) (hcases.1 hd), iff_of_true ⟨_, rfl⟩ hd⟩
    exact absurd (congrArg Prod.fst h) (by simp)
  · have hf : ¬ (realIfComplex a).type = .float := fun h => hd ((realIfComplex_float_iff a).1 h)
    rw [if_neg hf]
    refine ⟨iff_of_true rfl (by_contra fun h => hd (hcases.2 h)), iff_of_false ?_ hd⟩
    rintro ⟨f, h⟩
    exact absurd (congrArg Prod.fst h) (by simp)

/-- **C112 (what is drawn).** Of an array it accepts `plot_R` draws, pixel by pixel, the logarithm of the
real part, blank where the real part is not positive; a masked pixel is drawn with the logarithm of the
fill value. Nothing is returned; the drawing is the newest one of the current figure, and unless
`nbook` the current figure is closed with everything in it. -/
theorem plotR_draws (a : PlotArr) (nbook : Bool) (figs : Figures) (hh : 0 < a.img.h) (hw : 0 < a.img.w)
    (hd : Drawable a) :
    ∃ d : Drawing, plotR a nbook figs
        = (.ok (), if nbook then showIn d figs else figs.tail) ∧
      d.h = a.img.h ∧ d.w = a.img.w ∧ d.limits = none ∧
      ∀ y x, (a.isMasked y x = true → d.px y x = log10Px (fillOf a)) ∧
        (a.isMasked y x = false →
          (0 < (a.img.px y x).re → d.px y x = some (Real.logb 10 (a.img.px y x).re)) ∧
          ((a.img.px y x).re ≤ 0 → d.px y x = none)) := by
  have hne : ¬ (a.img.h = 0 ∨ a.img.w = 0) := by omega
  have hf := (realIfComplex_float_iff a).2 hd
  have hclose : ∀ d, closeCurrent (showIn d figs) = figs.tail := by
    intro d; cases figs <;> rfl
  refine ⟨{ h := (realIfComplex a).img.h, w := (realIfComplex a).img.w
            px := fun y x => log10Px ((realIfComplex a).filledAt y x).re, limits := none }, ?_, ?_, ?_, rfl, ?_⟩
  · unfold plotR
    rw [if_neg hne]
    simp only []
    rw [if_pos hf, hclose]
  · unfold realIfComplex; split <;> rfl
  · unfold realIfComplex; split <;> rfl
  · intro y x
    have key : ((realIfComplex a).filledAt y x).re
        = if a.isMasked y x then fillOf a else (a.img.px y x).re := by
      unfold realIfComplex
      by_cases hc : a.type = .complex128 ∧ a.isMasked 0 0 = false
      · rw [if_pos hc]
        unfold PlotArr.filledAt PlotArr.isMasked fillOf
        have hnf : ¬ a.type = .float := by rw [hc.1]; decide
        rw [if_neg hnf]
        cases a.masked with
        | none => simp
        | some m =>
          simp only [Option.map_some]
          split
          · exact Complex.ofReal_re _
          · exact Complex.ofReal_re _
      · rw [if_neg hc]
        have hfl : a.type = .float := hd.resolve_right hc
        unfold PlotArr.filledAt PlotArr.isMasked fillOf
        rw [if_pos hfl]
        cases a.masked with
        | none => simp
        | some m => simp only []; split <;> simp
    simp only [key]
    refine ⟨fun hm => by rw [if_pos hm], fun hm => ?_⟩
    rw [if_neg (by rw [hm]; decide)]
    refine ⟨fun h => by rw [log10Px, if_pos h], fun h => by rw [log10Px, if_neg (not_lt.2 h)]⟩

/-- The default fill value is drawn as 20. -/
theorem log10_default_fill : log10Px (10 ^ 20) = some 20 := by
  have h : (0 : ℝ) < 10 ^ 20 := by positivity
  rw [log10Px, if_pos h]
  congr 1
  have := Real.logb_pow (10 : ℝ) 10 20
  rw [this, Real.logb_self_eq_one (by norm_num)]
  norm_num

/-! ## Statistics of a list in which some values are replaced by a far one -/

/-- The variance is the mean square minus the squared mean. -/
theorem rVar_eq (l : List ℝ) (hl : l ≠ []) :
    rVar l = (l.map fun x => x ^ 2).sum / l.length - (l.sum / l.length) ^ 2 := by
  have hn : (l.length : ℝ) ≠ 0 := by exact_mod_cast (List.length_pos_iff.2 hl).ne'
  have hgen : ∀ (c : ℝ) (l : List ℝ),
      (l.map fun x => (x - c) ^ 2).sum = (l.map fun x => x ^ 2).sum - 2 * c * l.sum + l.length * c ^ 2 := by
    intro c l
    induction l with
    | nil => simp
    | cons a l ih =>
      simp only [List.map_cons, List.sum_cons, List.length_cons, ih]
      push_cast; ring
  unfold rVar
  rw [hgen]
  unfold rMean
  field_simp
  ring

/-- `g` with `k` further values `M`: the variance is that inside `g`, weighted, plus that between the two
groups. -/
theorem rVar_append (g : List ℝ) (hg : g ≠ []) (k : ℕ) (M : ℝ) :
    rVar (g ++ List.replicate k M)
      = g.length / (g.length + k) * rVar g
        + g.length * k / (g.length + k) ^ 2 * (M - rMean g) ^ 2 := by
  have hg0 : (0 : ℝ) < g.length := by exact_mod_cast List.length_pos_iff.2 hg
  have hk0 : (0 : ℝ) ≤ k := Nat.cast_nonneg k
  have hs : (0 : ℝ) < g.length + k := by linarith
  rw [rVar_eq _ (by simp [hg]), rVar_eq g hg]
  unfold rMean
  simp only [List.map_append, List.sum_append, List.length_append, List.length_replicate,
    List.map_replicate, List.sum_replicate, nsmul_eq_mul]
  push_cast
  field_simp
  ring

theorem rVar_le_sq (g : List ℝ) (hg : g ≠ []) (lo hi : ℝ) (h : ∀ x ∈ g, lo ≤ x ∧ x ≤ hi) :
    rVar g ≤ (hi - lo) ^ 2 := by
  have hn : (0 : ℝ) < g.length := by exact_mod_cast List.length_pos_iff.2 hg
  have hm := rMean_between g hg lo hi h
  unfold rVar
  rw [div_le_iff₀ hn, mul_comm]
  have := sum_le_count (g.map fun x => (x - rMean g) ^ 2) ((hi - lo) ^ 2) (by
    intro y hy
    obtain ⟨x, hx, rfl⟩ := List.mem_map.1 hy
    have hx' := h x hx
    have : |x - rMean g| ≤ |hi - lo| := by
      rw [abs_of_nonneg (show 0 ≤ hi - lo by linarith), abs_le]
      constructor <;> linarith
    exact sq_le_sq.2 this)
  simpa using this

theorem rStd_le (g : List ℝ) (hg : g ≠ []) (lo hi : ℝ) (h : ∀ x ∈ g, lo ≤ x ∧ x ≤ hi) :
    rStd g ≤ hi - lo := by
  obtain ⟨x, hx⟩ := List.exists_mem_of_ne_nil g hg
  have := h x hx
  unfold rStd
  rw [Real.sqrt_le_left (by linarith)]
  exact rVar_le_sq g hg lo hi h

/-- The median lies in an interval that holds more than half of the values. -/
theorem rMedian_mem (l : List ℝ) (hl : l ≠ []) (lo hi : ℝ)
    (h : l.length < 2 * l.countP fun x => decide (lo ≤ x ∧ x ≤ hi)) :
    lo ≤ rMedian l ∧ rMedian l ≤ hi := by
  obtain ⟨hu, hd⟩ := median_half l hl
  have disj : ∀ p q : ℝ → Bool, (∀ x, p x = true → q x = false) → l.countP p + l.countP q ≤ l.length := by
    intro p q hpq
    have h1 : l.countP p + l.countP (fun x => !p x) = l.length := by
      rw [List.length_eq_countP_add_countP p]
      simp
    have h2 : l.countP q ≤ l.countP (fun x => !p x) := by
      apply List.countP_mono_left
      intro x _ hq
      cases hp : p x
      · rfl
      · rw [hpq x hp] at hq; exact absurd hq (by simp)
    omega
  constructor
  · by_contra hc
    have := disj (fun x => decide (x ≤ rMedian l)) (fun x => decide (lo ≤ x ∧ x ≤ hi)) (by
      intro x hx
      have hx := of_decide_eq_true hx
      refine decide_eq_false fun hq => ?_
      linarith [hq.1])
    omega
  · by_contra hc
    have := disj (fun x => decide (rMedian l ≤ x)) (fun x => decide (lo ≤ x ∧ x ≤ hi)) (by
      intro x hx
      have hx := of_decide_eq_true hx
      refine decide_eq_false fun hq => ?_
      linarith [hq.2])
    omega

theorem rMedian_between (l : List ℝ) (hl : l ≠ []) (lo hi : ℝ) (h : ∀ x ∈ l, lo ≤ x ∧ x ≤ hi) :
    lo ≤ rMedian l ∧ rMedian l ≤ hi := by
  apply rMedian_mem l hl
  have : l.countP (fun x => decide (lo ≤ x ∧ x ≤ hi)) = l.length :=
    List.countP_eq_length.2 fun x hx => decide_eq_true (h x hx)
  have := List.length_pos_iff.2 hl
  omega

theorem clipStep_fixed_clipN (n : ℕ) (l : List ℝ) (h : clipStep 3 l = l) : clipN 3 n l = l := by
  induction n with
  | zero => rfl
  | succ n ih => rw [clipN, h, ih]

/-- When at least one value in seven (but fewer than half) is a far one, nothing is clipped. -/
theorem clipN_many (g : List ℝ) (hg : g ≠ []) (k : ℕ) (lo hi M : ℝ) (h : ∀ x ∈ g, lo ≤ x ∧ x ≤ hi)
    (hM : 21 * (hi - lo) < M - hi) (hmany : g.length + k ≤ 7 * k) (hfew : k < g.length) :
    clipN 3 5 (g ++ List.replicate k M) = g ++ List.replicate k M ∧
      lo ≤ rMedian (g ++ List.replicate k M) ∧ rMedian (g ++ List.replicate k M) ≤ hi ∧
      (M - lo) / 3 ≤ rStd (g ++ List.replicate k M) := by
  set l := g ++ List.replicate k M with hldef
  have hl : l ≠ [] := by simp [hldef, hg]
  obtain ⟨x0, hx0⟩ := List.exists_mem_of_ne_nil g hg
  have hlh : lo ≤ hi := by have := h x0 hx0; linarith
  have hmed : lo ≤ rMedian l ∧ rMedian l ≤ hi := by
    apply rMedian_mem l hl
    have h1 : g.countP (fun x => decide (lo ≤ x ∧ x ≤ hi)) = g.length :=
      List.countP_eq_length.2 fun x hx => decide_eq_true (h x hx)
    rw [hldef, List.countP_append, h1, List.length_append, List.length_replicate]
    omega
  have hg0 : (0 : ℝ) < g.length := by exact_mod_cast List.length_pos_iff.2 hg
  have hk1 : (0 : ℝ) ≤ k := Nat.cast_nonneg k
  have hs : (0 : ℝ) < g.length + k := by linarith
  have hmany' : (g.length : ℝ) + k ≤ 7 * k := by exact_mod_cast hmany
  have hfew' : (k : ℝ) < g.length := by exact_mod_cast hfew
  have hfrac : (6 : ℝ) / 49 ≤ g.length * k / (g.length + k) ^ 2 := by
    rw [div_le_div_iff₀ (by norm_num) (by positivity)]
    nlinarith
  have hmean := rMean_between g hg lo hi h
  have hvar : ((M - lo) / 3) ^ 2 ≤ rVar l := by
    rw [hldef, rVar_append g hg]
    have h1 : (0 : ℝ) ≤ g.length / (g.length + k) * rVar g :=
      mul_nonneg (by positivity) (rVar_nonneg g)
    have h2 : (M - hi) ^ 2 ≤ (M - rMean g) ^ 2 := by nlinarith
    have h3 : (6 : ℝ) / 49 * (M - hi) ^ 2 ≤ g.length * k / (g.length + k) ^ 2 * (M - rMean g) ^ 2 :=
      mul_le_mul hfrac h2 (sq_nonneg _) (by positivity)
    have h4 : ((M - lo) / 3) ^ 2 ≤ 6 / 49 * (M - hi) ^ 2 := by nlinarith
    linarith
  have hstd : (M - lo) / 3 ≤ rStd l := Real.le_sqrt_of_sq_le hvar
  refine ⟨?_, hmed.1, hmed.2, hstd⟩
  apply clipStep_fixed_clipN
  unfold clipStep
  rw [List.filter_eq_self]
  intro x hx
  apply decide_eq_true
  have hx' : lo ≤ x ∧ x ≤ M := by
    rcases List.mem_append.1 hx with hx | hx
    · have := h x hx; exact ⟨this.1, by linarith⟩
    · rw [List.eq_of_mem_replicate hx]; exact ⟨by linarith, le_refl _⟩
  constructor <;> linarith

/-- When at most one value in ten is a far one, the far ones are clipped: what remains lies in the interval
of the others. -/
theorem clipN_few (g : List ℝ) (hg : g ≠ []) (k : ℕ) (lo hi M : ℝ) (h : ∀ x ∈ g, lo ≤ x ∧ x ≤ hi)
    (hM : 21 * (hi - lo) < M - hi) (hfew : 10 * k ≤ g.length + k) (x : ℝ)
    (hx : x ∈ clipN 3 5 (g ++ List.replicate k M)) : lo ≤ x ∧ x ≤ hi := by
  set l := g ++ List.replicate k M with hldef
  have hl : l ≠ [] := by simp [hldef, hg]
  have hgl : 0 < g.length := List.length_pos_iff.2 hg
  obtain ⟨x0, hx0⟩ := List.exists_mem_of_ne_nil g hg
  have hlh : lo ≤ hi := by have := h x0 hx0; linarith
  have hmed : lo ≤ rMedian l ∧ rMedian l ≤ hi := by
    apply rMedian_mem l hl
    have h1 : g.countP (fun x => decide (lo ≤ x ∧ x ≤ hi)) = g.length :=
      List.countP_eq_length.2 fun x hx => decide_eq_true (h x hx)
    rw [hldef, List.countP_append, h1, List.length_append, List.length_replicate]
    omega
  have hg0 : (0 : ℝ) < g.length := by exact_mod_cast hgl
  have hk1 : (0 : ℝ) ≤ k := Nat.cast_nonneg k
  have hs : (0 : ℝ) < g.length + k := by linarith
  have hfew' : 10 * (k : ℝ) ≤ g.length + k := by exact_mod_cast hfew
  have hfrac : g.length * k / ((g.length : ℝ) + k) ^ 2 ≤ 9 / 100 := by
    rw [div_le_div_iff₀ (by positivity) (by norm_num)]
    nlinarith
  have hmean := rMean_between g hg lo hi h
  have hvar : rVar l < ((M - hi) / 3) ^ 2 := by
    rw [hldef, rVar_append g hg]
    have h1 : (g.length : ℝ) / (g.length + k) * rVar g ≤ 1 * (hi - lo) ^ 2 := by
      refine mul_le_mul ?_ (rVar_le_sq g hg lo hi h) (rVar_nonneg g) (by norm_num)
      rw [div_le_one hs]; linarith
    have h2 : (M - rMean g) ^ 2 ≤ (M - lo) ^ 2 := by nlinarith
    have h3 : g.length * k / ((g.length : ℝ) + k) ^ 2 * (M - rMean g) ^ 2 ≤ 9 / 100 * (M - lo) ^ 2 :=
      mul_le_mul hfrac h2 (sq_nonneg _) (by norm_num)
    have h4 : 1 * (hi - lo) ^ 2 + 9 / 100 * (M - lo) ^ 2 < ((M - hi) / 3) ^ 2 := by
      have : 0 ≤ hi - lo := by linarith
      nlinarith
    linarith
  have hstd : rStd l < (M - hi) / 3 := by
    unfold rStd
    rw [Real.sqrt_lt' (by linarith)]
    exact hvar
  have hx1 : x ∈ clipStep 3 l := (clipN_sublist 3 4 (clipStep 3 l)).subset hx
  unfold clipStep at hx1
  obtain ⟨hxl, hxd⟩ := List.mem_filter.1 hx1
  rcases List.mem_append.1 hxl with hxg | hxM
  · exact h x hxg
  · have := (of_decide_eq_true hxd).2
    rw [List.eq_of_mem_replicate hxM] at this
    exact absurd this (not_not.2 (by linarith))

/-! ## `plot_S` -/

/-- Number of pixels of the array. -/
def pixelCount (a : PlotArr) : ℕ := a.img.h * a.img.w

/-- Number of masked pixels of the array. -/
def maskedCount (a : PlotArr) : ℕ := (Img.indices a.img.h a.img.w).countP fun p => a.isMasked p.1 p.2

/-- The values of the pixels that are not masked. -/
def goodValues (a : PlotArr) : List ℝ :=
  ((Img.indices a.img.h a.img.w).filter fun p => !a.isMasked p.1 p.2).map fun p => (a.img.px p.1 p.2).re

/-- The unmasked pixels have values between `lo` and `hi`. -/
def GoodBetween (a : PlotArr) (lo hi : ℝ) : Prop :=
  ∀ y < a.img.h, ∀ x < a.img.w, a.isMasked y x = false → lo ≤ (a.img.px y x).re ∧ (a.img.px y x).re ≤ hi

theorem indices_len (h w : ℕ) : (Img.indices h w).length = h * w := by
  simp [Img.indices, List.length_flatMap]

theorem good_add_masked (a : PlotArr) : (goodValues a).length + maskedCount a = pixelCount a := by
  unfold goodValues maskedCount pixelCount
  rw [← indices_len, List.length_map, ← List.countP_eq_length_filter,
    List.length_eq_countP_add_countP (fun p : ℕ × ℕ => a.isMasked p.1 p.2)]
  simp only [Bool.not_eq_true, Bool.decide_eq_false]
  omega

/-- The values statistics are made of: those of the unmasked pixels and, for each masked one, the fill
value. -/
theorem filledReals_perm (a : PlotArr) (m : ℕ → ℕ → Bool) (M : ℝ) (ha : a.masked = some (m, (M : ℂ))) :
    a.filledReals.Perm (goodValues a ++ List.replicate (maskedCount a) M) := by
  unfold PlotArr.filledReals goodValues maskedCount
  have hfill : ∀ y x, (a.filledAt y x).re = if a.isMasked y x then M else (a.img.px y x).re := by
    intro y x
    unfold PlotArr.filledAt PlotArr.isMasked
    rw [ha]
    simp only []
    split <;> simp
  simp only [hfill]
  induction Img.indices a.img.h a.img.w with
  | nil => simp
  | cons p l ih =>
    cases hp : a.isMasked p.1 p.2
    · simp only [List.map_cons, hp, List.filter_cons, Bool.not_false, if_true, List.cons_append,
        List.countP_cons, Bool.false_eq_true, if_false, Nat.add_zero]
      exact ih.cons _
    · simp only [List.map_cons, hp, List.filter_cons, Bool.not_true, if_true, List.countP_cons,
        Bool.false_eq_true, if_false, List.replicate_succ]
      exact (ih.cons _).trans List.perm_middle.symm

theorem goodValues_between (a : PlotArr) (lo hi : ℝ) (h : GoodBetween a lo hi) :
    ∀ x ∈ goodValues a, lo ≤ x ∧ x ≤ hi := by
  intro v hv
  obtain ⟨p, hp, rfl⟩ := List.mem_map.1 hv
  obtain ⟨hi', hm⟩ := List.mem_filter.1 hp
  have := Img.mem_indices.1 hi'
  exact h p.1 this.1 p.2 this.2 (by simpa using hm)

/-- **C113 (many pixels masked).** If at least one pixel in seven, but fewer than half, is masked and the
fill value `M` is far from the other pixels, which lie between `lo` and `hi`, the colour scale of `plot_S`
spans at least `8/3 (M - lo)`: any two unmasked pixels differ by at most the fraction
`3 (hi - lo) / (8 (M - lo))` of the scale. -/
theorem plotS_many_masked (a : PlotArr) (m : ℕ → ℕ → Bool) (M lo hi : ℝ)
    (ha : a.masked = some (m, (M : ℂ))) (h : GoodBetween a lo hi) (hM : 21 * (hi - lo) < M - hi)
    (hmany : pixelCount a ≤ 7 * maskedCount a) (hfew : 2 * maskedCount a < pixelCount a) :
    ∃ v0 v1 : ℝ, (drawS a).limits = some (v0, v1) ∧ v0 ≤ lo ∧ M ≤ v1 ∧ 8 / 3 * (M - lo) ≤ v1 - v0 ∧
      ∀ y < a.img.h, ∀ x < a.img.w, ∀ y' < a.img.h, ∀ x' < a.img.w,
        a.isMasked y x = false → a.isMasked y' x' = false →
        |(a.img.px y x).re - (a.img.px y' x').re| ≤ 3 * (hi - lo) / (8 * (M - lo)) * (v1 - v0) := by
  have hc := good_add_masked a
  have hg : goodValues a ≠ [] := by
    intro h0; rw [h0, List.length_nil] at hc; omega
  obtain ⟨x0, hx0⟩ := List.exists_mem_of_ne_nil _ hg
  have hb := goodValues_between a lo hi h
  have hlh : lo ≤ hi := by have := hb x0 hx0; linarith
  obtain ⟨hclip, hm1, hm2, hs⟩ := clipN_many (goodValues a) hg (maskedCount a) lo hi M hb hM
    (by omega) (by omega)
  have hp := filledReals_perm a m M ha
  have hmed : clippedMedian a.filledReals = rMedian (goodValues a ++ List.replicate (maskedCount a) M) := by
    unfold clippedMedian
    rw [rMedian_perm _ _ (clipN_perm 3 5 _ _ hp), hclip]
  have hstd : clippedStd a.filledReals = rStd (goodValues a ++ List.replicate (maskedCount a) M) := by
    unfold clippedStd rStd
    rw [rVar_perm _ _ (clipN_perm 3 5 _ _ hp), hclip]
  refine ⟨_, _, rfl, ?_, ?_, ?_, ?_⟩
  · simp only [hmed, hstd]; linarith
  · simp only [hmed, hstd]; linarith
  · simp only [hmed, hstd]; linarith
  · intro y hy x hx y' hy' x' hx' hu hu'
    simp only [hmed, hstd]
    have h1 := h y hy x hx hu
    have h2 := h y' hy' x' hx' hu'
    have hd : |(a.img.px y x).re - (a.img.px y' x').re| ≤ hi - lo := by
      rw [abs_le]; constructor <;> linarith
    have hpos : 0 < M - lo := by linarith
    have h3 : hi - lo = 3 * (hi - lo) / (8 * (M - lo)) * (8 / 3 * (M - lo)) := by field_simp
    have h4 : 0 ≤ 3 * (hi - lo) / (8 * (M - lo)) :=
      div_nonneg (by linarith) (by linarith)
    refine (hd.trans h3.le).trans (mul_le_mul_of_nonneg_left ?_ h4)
    linarith

/-- **C113 (few pixels masked).** If at most one pixel in ten is masked, the colour limits of `plot_S` are
made of unmasked pixels only and stay within four times the range of these; the masked pixels are off the
scale. -/
theorem plotS_few_masked (a : PlotArr) (m : ℕ → ℕ → Bool) (M lo hi : ℝ)
    (ha : a.masked = some (m, (M : ℂ))) (h : GoodBetween a lo hi) (hM : 21 * (hi - lo) < M - hi)
    (hne : maskedCount a < pixelCount a) (hfew : 10 * maskedCount a ≤ pixelCount a) :
    ∃ v0 v1 : ℝ, (drawS a).limits = some (v0, v1) ∧ lo - 4 * (hi - lo) ≤ v0 ∧ v0 ≤ v1 ∧
      v1 ≤ hi + 4 * (hi - lo) ∧ v1 < M := by
  have hc := good_add_masked a
  have hg : goodValues a ≠ [] := by
    intro h0; rw [h0, List.length_nil] at hc; omega
  obtain ⟨x0, hx0⟩ := List.exists_mem_of_ne_nil _ hg
  have hb := goodValues_between a lo hi h
  have hlh : lo ≤ hi := by have := hb x0 hx0; linarith
  have hp := filledReals_perm a m M ha
  have hin := clipN_few (goodValues a) hg (maskedCount a) lo hi M hb hM (by omega)
  have hcl : clipN 3 5 (goodValues a ++ List.replicate (maskedCount a) M) ≠ [] :=
    clipN_ne_nil 5 _ (by simp [hg])
  have hmed := rMedian_between _ hcl lo hi hin
  have hstd := rStd_le _ hcl lo hi hin
  have hstd0 := Real.sqrt_nonneg (rVar (clipN 3 5 (goodValues a ++ List.replicate (maskedCount a) M)))
  have e1 : clippedMedian a.filledReals
      = rMedian (clipN 3 5 (goodValues a ++ List.replicate (maskedCount a) M)) :=
    rMedian_perm _ _ (clipN_perm 3 5 _ _ hp)
  have e2 : clippedStd a.filledReals
      = rStd (clipN 3 5 (goodValues a ++ List.replicate (maskedCount a) M)) := by
    unfold clippedStd rStd
    rw [rVar_perm _ _ (clipN_perm 3 5 _ _ hp)]
  change 0 ≤ rStd (clipN 3 5 (goodValues a ++ List.replicate (maskedCount a) M)) at hstd0
  refine ⟨_, _, rfl, ?_, ?_, ?_, ?_⟩ <;> simp only [e1, e2] <;> linarith [hmed.1, hmed.2]

/-- **C113 (the axes returned).** With `nbook` the axes returned hold the image on top of what the current
axes held. Without, the current figure is closed with everything in it, and the axes returned are those of
the figure that was open before it, or of a new empty figure that stays open: never the image. -/
theorem plotS_axes (a : PlotArr) (figs : Figures) :
    plotS a true figs = (.ok (drawS a :: figs.headD []), (drawS a :: figs.headD []) :: figs.tail) ∧
      plotS a false figs = (.ok (figs.tail.headD []), figs.tail.headD [] :: figs.tail.tail) := by
  constructor
  · cases figs <;> rfl
  · rcases figs with _ | ⟨f, _ | ⟨g, fs⟩⟩ <;> rfl

/-- `plot_S` draws every pixel with its value, and masked ones with the fill value. -/
theorem plotS_pixels (a : PlotArr) (y x : ℕ) :
    (drawS a).h = a.img.h ∧ (drawS a).w = a.img.w ∧
      (a.isMasked y x = false → (drawS a).px y x = some (a.img.px y x).re) ∧
      (∀ m M, a.masked = some (m, M) → m y x = true → (drawS a).px y x = some M.re) := by
  refine ⟨rfl, rfl, fun h => ?_, fun m M ha hm => ?_⟩
  · change some (a.filledAt y x).re = _
    unfold PlotArr.isMasked at h
    unfold PlotArr.filledAt
    cases hmk : a.masked with
    | none => rfl
    | some m =>
      rw [hmk] at h
      simp only [] at h ⊢
      rw [if_neg (by rw [h]; decide)]
  · change some (a.filledAt y x).re = _
    unfold PlotArr.filledAt
    rw [ha]
    simp only []
    rw [if_pos hm]

/-! ## Worked instances -/

/-- One row of seven pixels with the values 0 to 6, the last one masked, default fill value. -/
noncomputable def rowOfSeven : PlotArr :=
  { type := .float
    img := { h := 1, w := 7, px := fun _ x => ((x : ℝ) : ℂ) }
    masked := some (fun _ x => x == 6, ((10 ^ 20 : ℝ) : ℂ)) }

/-- A single masked pixel of seven makes the six others differ by less than a part in `10 ^ 18` of the
colour scale. -/
example : ∃ v0 v1 : ℝ, (drawS rowOfSeven).limits = some (v0, v1) ∧
    ∀ x : ℕ, x < 6 → ∀ x' : ℕ, x' < 6 → |(x : ℝ) - x'| ≤ (v1 - v0) / 10 ^ 18 := by
  have hgood : GoodBetween rowOfSeven 0 5 := by
    intro y _ x hx hm
    change x < 7 at hx
    have hx5 : x ≤ 5 := by
      have : (x == 6) = false := hm
      have : x ≠ 6 := by simpa using this
      omega
    change (0 : ℝ) ≤ ((x : ℝ) : ℂ).re ∧ ((x : ℝ) : ℂ).re ≤ 5
    rw [Complex.ofReal_re]
    exact ⟨Nat.cast_nonneg x, by exact_mod_cast hx5⟩
  have hcount : maskedCount rowOfSeven = 1 := by
    change (Img.indices 1 7).countP (fun p => p.2 == 6) = 1
    decide
  have hpix : pixelCount rowOfSeven = 7 := rfl
  obtain ⟨v0, v1, hl, _, _, hspan, hd⟩ := plotS_many_masked rowOfSeven _ (10 ^ 20) 0 5 rfl hgood
    (by norm_num) (by rw [hcount, hpix]) (by rw [hcount, hpix]; norm_num)
  refine ⟨v0, v1, hl, fun x hx x' hx' => ?_⟩
  have hum : ∀ z < 6, rowOfSeven.isMasked 0 z = false := by
    intro z hz
    change (z == 6) = false
    simp; omega
  have h1 := hd 0 (by decide) x (by change x < 7; omega) 0 (by decide) x' (by change x' < 7; omega)
    (hum x hx) (hum x' hx')
  change |((x : ℝ) : ℂ).re - ((x' : ℝ) : ℂ).re| ≤ _ at h1
  rw [Complex.ofReal_re, Complex.ofReal_re] at h1
  refine h1.trans ?_
  have : (0 : ℝ) ≤ v1 - v0 := by
    refine le_trans ?_ hspan; norm_num
  have hq : (v1 - v0) / 10 ^ 18 = 1 / 10 ^ 18 * (v1 - v0) := by ring
  rw [hq]
  refine mul_le_mul_of_nonneg_right ?_ this
  norm_num

/-- A complex image of one masked pixel: `plot_R` raises. -/
example : plotR { type := .complex128, img := ⟨1, 1, fun _ _ => 1⟩, masked := some (fun _ _ => true, 0) }
    false [] = (.error .TypeError, [[]]) :=
  ((plotR_raises_iff _ false [] (by decide) (by decide)).1).2 (Or.inr ⟨rfl, rfl⟩)

/-- The same pixel unmasked is drawn; a pixel with the value -1 would be blank. -/
example : Drawable { type := .complex128, img := ⟨1, 1, fun _ _ => 1⟩, masked := none } :=
  Or.inr ⟨rfl, rfl⟩

end PI
