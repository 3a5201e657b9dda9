import Verif.Props.VarPsf
import Verif.Lemmas.Filter
import Verif.Props.StarRecovery

/-!
# Property C173: the matched filter of an image whose PSF varies

`s_component` weighs every pixel with the PSF that a star *at that pixel* would have, not with the PSF of the star it looks for.
-/

namespace PI

open Complex Finset

/-- The PSF of a star at pixel `(x, y)`: the basis elements with their coefficients there (C161), `(a, b)` counted from the corner
of the stamp. -/
noncomputable def starShape (d : VarPsf) (x y a b : ℕ) : ℝ := (d.terms.map fun t => t.field x y * padPx t.psf a b).sum

/-- `s_component` as a function of the pixels. -/
noncomputable def filteredOf (d : VarPsf) (x : Img ℝ) : Img ℝ := filteredImg ({ d with interped := x } : VarPsf).sHatComp

/-- The pixel at offset `a` from the corner of a stamp whose point `A` is put on pixel `i`, wrapping around the edges. -/
def fromCorner (n : ℕ) (A : ℤ) (i a : ℕ) : ℕ := ((((i : ℤ) - A) % n).toNat + a) % n

theorem circCorr_real (h w : ℕ) (f g : ℕ → ℕ → ℝ) (p q : ℕ) :
    circCorr h w (fun i j => ((f i j : ℝ) : ℂ)) (fun i j => ((g i j : ℝ) : ℂ)) p q =
      ((∑ a ∈ range h, ∑ b ∈ range w, f ((p + a) % h) ((q + b) % w) * g a b : ℝ) : ℂ) := by
  unfold circCorr
  push_cast
  refine Finset.sum_congr rfl fun a _ => Finset.sum_congr rfl fun b _ => ?_
  rw [Complex.conj_ofReal]

theorem termHat_filtered (d : VarPsf) (t : PsfTerm) (A B : ℤ) (hcom : d.com = ((A : ℝ), (B : ℝ))) (i j : ℕ)
    (hi : i < d.interped.h) (hj : j < d.interped.w) :
    (ifftOrtho (d.termHat t)).px i j =
      (((∑ a ∈ range d.interped.h, ∑ b ∈ range d.interped.w,
        d.interped.px (fromCorner d.interped.h A i a) (fromCorner d.interped.w B j b) *
          t.field (fromCorner d.interped.h A i a) (fromCorner d.interped.w B j b) /
          d.normalImg.px (fromCorner d.interped.h A i a) (fromCorner d.interped.w B j b) * padPx t.psf a b) /
        Real.sqrt ((d.interped.h * d.interped.w : ℕ) : ℝ) : ℝ) : ℂ) := by
  have c := ifftOrtho_corr (⟨d.interped.h, d.interped.w, fun i j =>
        d.interped.px i j * t.field i j / d.normalImg.px i j⟩ : Img ℝ).toC (padTo d.interped.h d.interped.w t.psf.toC) rfl rfl
        A B i j hi hj
  have e : (padTo d.interped.h d.interped.w t.psf.toC).px = fun a b => ((padPx t.psf a b : ℝ) : ℂ) := by
    funext a b
    change (if a < t.psf.h ∧ b < t.psf.w then ((t.psf.px a b : ℝ) : ℂ) else 0) = _
    unfold padPx
    split_ifs <;> simp
  unfold VarPsf.termHat
  rw [hcom]
  refine c.trans ?_
  rw [e, Complex.ofReal_div]
  exact congrArg (· / _) (circCorr_real d.interped.h d.interped.w
    (fun i j => d.interped.px i j * t.field i j / d.normalImg.px i j) (padPx t.psf) _ _)

theorem ifftOrtho_listSum {α : Type} (h w : ℕ) (ts : List α) (X : α → ℕ → ℕ → ℂ) (i j : ℕ) :
    (ifftOrtho ⟨h, w, fun k l => (ts.map fun t => X t k l).sum⟩).px i j =
      (ts.map fun t => (ifftOrtho ⟨h, w, X t⟩).px i j).sum := by
  induction ts with
  | nil =>
    change (∑ k ∈ range h, ∑ l ∈ range w, 0 * _) / _ = 0
    simp
  | cons t ts ih =>
    rw [List.map_cons, List.sum_cons, ← ih]
    simp only [List.map_cons, List.sum_cons]
    change (∑ k ∈ range h, ∑ l ∈ range w, (X t k l + (ts.map fun t => X t k l).sum) * _) / _ =
      (∑ k ∈ range h, ∑ l ∈ range w, X t k l * _) / _ + (∑ k ∈ range h, ∑ l ∈ range w, (ts.map fun t => X t k l).sum * _) / _
    rw [← add_div, ← Finset.sum_add_distrib]
    congr 1
    refine Finset.sum_congr rfl fun k _ => ?_
    rw [← Finset.sum_add_distrib]
    exact Finset.sum_congr rfl fun l _ => add_mul _ _ _

theorem listSum_sum {α : Type} (ts : List α) (h w : ℕ) (g : α → ℕ → ℕ → ℝ) :
    (ts.map fun t => ∑ a ∈ range h, ∑ b ∈ range w, g t a b).sum = ∑ a ∈ range h, ∑ b ∈ range w, (ts.map fun t => g t a b).sum := by
  induction ts with
  | nil => simp
  | cons t ts ih => simp only [List.map_cons, List.sum_cons, ih, Finset.sum_add_distrib]

theorem listSum_mul {α : Type} (ts : List α) (c : ℝ) (g : α → ℝ) : (ts.map fun t => c * g t).sum = c * (ts.map g).sum := by
  induction ts with
  | nil => simp
  | cons t ts ih => simp only [List.map_cons, List.sum_cons, ih, mul_add]

/-- The weight that `s_component[i, j]` gives the pixel at offset `(a, b)`: the PSF of a star at that pixel, over the
normalisation there. -/
noncomputable def usedWeight (d : VarPsf) (A B : ℤ) (i j a b : ℕ) : ℝ :=
  starShape d (fromCorner d.interped.h A i a) (fromCorner d.interped.w B j b) a b /
    d.normalImg.px (fromCorner d.interped.h A i a) (fromCorner d.interped.w B j b)

/-- C173: what `s_component` is. -/
theorem varfilter_formula (d : VarPsf) (A B : ℤ) (hcom : d.com = ((A : ℝ), (B : ℝ))) (i j : ℕ)
    (hi : i < d.interped.h) (hj : j < d.interped.w) :
    (filteredImg d.sHatComp).px i j = d.zp / d.var ^ 2 / Real.sqrt ((d.interped.h * d.interped.w : ℕ) : ℝ) *
      ∑ a ∈ range d.interped.h, ∑ b ∈ range d.interped.w,
        d.interped.px (fromCorner d.interped.h A i a) (fromCorner d.interped.w B j b) * usedWeight d A B i j a b := by
  have e1 : (ifftOrtho d.sHatComp).px i j = ((d.zp / d.var ^ 2 : ℝ) : ℂ) *
      (ifftOrtho ⟨d.interped.h, d.interped.w, fun k l => (d.terms.map fun t => (d.termHat t).px k l).sum⟩).px i j :=
    ifftOrtho_const_mul d.interped.h d.interped.w _ _ i j
  have e2 : ∀ t ∈ d.terms, (ifftOrtho ⟨d.interped.h, d.interped.w, (d.termHat t).px⟩).px i j =
      (((1 / Real.sqrt ((d.interped.h * d.interped.w : ℕ) : ℝ) * ∑ a ∈ range d.interped.h, ∑ b ∈ range d.interped.w,
        d.interped.px (fromCorner d.interped.h A i a) (fromCorner d.interped.w B j b) *
          t.field (fromCorner d.interped.h A i a) (fromCorner d.interped.w B j b) /
          d.normalImg.px (fromCorner d.interped.h A i a) (fromCorner d.interped.w B j b) * padPx t.psf a b) : ℝ) : ℂ) := by
    intro t _
    refine (termHat_filtered d t A B hcom i j hi hj).trans ?_
    congr 1
    ring
  change ((ifftOrtho d.sHatComp).px i j).re = _
  rw [e1, ifftOrtho_listSum, List.map_congr_left e2]
  have cast : ∀ (ts : List PsfTerm) (g : PsfTerm → ℝ), (ts.map fun t => ((g t : ℝ) : ℂ)).sum = (((ts.map g).sum : ℝ) : ℂ) := by
    intro ts g
    induction ts with
    | nil => simp
    | cons t ts ih => simp only [List.map_cons, List.sum_cons, ih, Complex.ofReal_add]
  have last : ∀ (u v a b : ℕ), (d.terms.map fun t => d.interped.px u v * t.field u v / d.normalImg.px u v * padPx t.psf a b).sum =
      d.interped.px u v * (starShape d u v a b / d.normalImg.px u v) := by
    intro u v a b
    have : ∀ t ∈ d.terms, d.interped.px u v * t.field u v / d.normalImg.px u v * padPx t.psf a b =
        d.interped.px u v / d.normalImg.px u v * (t.field u v * padPx t.psf a b) := fun t _ => by ring
    rw [List.map_congr_left this, listSum_mul]
    unfold starShape
    ring
  rw [cast, ← Complex.ofReal_mul, Complex.ofReal_re, listSum_mul, listSum_sum, ← mul_assoc]
  congr 1
  · ring
  · exact Finset.sum_congr rfl fun a _ => Finset.sum_congr rfl fun b _ => last _ _ a b

/-! ## Pixels, signal and noise -/

theorem filteredOf_eq (d : VarPsf) (A B : ℤ) (hcom : d.com = ((A : ℝ), (B : ℝ))) (x : Img ℝ) (hh : x.h = d.interped.h)
    (hw : x.w = d.interped.w) (i j : ℕ) (hi : i < d.interped.h) (hj : j < d.interped.w) :
    (filteredOf d x).px i j = d.zp / d.var ^ 2 / Real.sqrt ((d.interped.h * d.interped.w : ℕ) : ℝ) *
      ∑ a ∈ range d.interped.h, ∑ b ∈ range d.interped.w,
        x.px (fromCorner d.interped.h A i a) (fromCorner d.interped.w B j b) * usedWeight d A B i j a b := by
  have f := varfilter_formula ({ d with interped := x } : VarPsf) A B hcom i j (by exact hh ▸ hi) (by exact hw ▸ hj)
  have e : ∀ a b, usedWeight ({ d with interped := x } : VarPsf) A B i j a b = usedWeight d A B i j a b := by
    intro a b
    unfold usedWeight starShape VarPsf.normalImg
    simp only [hh, hw]
  refine f.trans ?_
  simp only [e, hh, hw]

theorem fromCorner_lt (n : ℕ) (A : ℤ) (i a : ℕ) (hi : i < n) : fromCorner n A i a < n := Nat.mod_lt _ (by omega)

theorem fromCorner_sum (n : ℕ) (A : ℤ) (i : ℕ) (hi : i < n) (f : ℕ → ℝ) :
    ∑ a ∈ range n, f (fromCorner n A i a) = ∑ u ∈ range n, f u := by
  have p : (((i : ℤ) - A) % n).toNat < n := by
    have := Int.emod_lt_of_pos ((i : ℤ) - A) (by omega : (0 : ℤ) < n)
    have := Int.emod_nonneg ((i : ℤ) - A) (by omega : (n : ℤ) ≠ 0)
    omega
  unfold fromCorner
  generalize (((i : ℤ) - A) % n).toNat = c at p
  refine Finset.sum_bij' (fun a _ => (c + a) % n) (fun u _ => (u + (n - c)) % n) ?_ ?_ ?_ ?_ ?_
  · intro a ha
    exact mem_range.2 (Nat.mod_lt _ (by omega))
  · intro a ha
    exact mem_range.2 (Nat.mod_lt _ (by omega))
  · intro a ha
    rw [mem_range] at ha
    rw [Nat.mod_add_mod, show c + a + (n - c) = a + n by omega, Nat.add_mod_right, Nat.mod_eq_of_lt ha]
  · intro a ha
    rw [mem_range] at ha
    rw [Nat.add_mod_mod, show c + (a + (n - c)) = a + n by omega, Nat.add_mod_right, Nat.mod_eq_of_lt ha]
  · intro a ha
    rfl

theorem fromCorner_inj (n : ℕ) (A : ℤ) (i a a' : ℕ) (ha : a < n) (ha' : a' < n) :
    fromCorner n A i a = fromCorner n A i a' ↔ a = a' := by
  unfold fromCorner
  generalize (((i : ℤ) - A) % n).toNat = c
  constructor
  · intro e
    have : a ≡ a' [MOD n] := Nat.ModEq.add_left_cancel' c e
    rwa [Nat.ModEq, Nat.mod_eq_of_lt ha, Nat.mod_eq_of_lt ha'] at this
  · rintro rfl
    rfl

/-- Change of `s_component[i, j]` when pixel `(u, v)` is one larger. -/
noncomputable def respFilter (d : VarPsf) (i j u v : ℕ) : ℝ :=
  (filteredOf d (bump d.interped u v 1)).px i j - (filteredOf d d.interped).px i j

theorem respFilter_eq (d : VarPsf) (A B : ℤ) (hcom : d.com = ((A : ℝ), (B : ℝ))) (i j : ℕ) (hi : i < d.interped.h)
    (hj : j < d.interped.w) (a b : ℕ) (ha : a < d.interped.h) (hb : b < d.interped.w) :
    respFilter d i j (fromCorner d.interped.h A i a) (fromCorner d.interped.w B j b) =
      d.zp / d.var ^ 2 / Real.sqrt ((d.interped.h * d.interped.w : ℕ) : ℝ) * usedWeight d A B i j a b := by
  unfold respFilter
  rw [filteredOf_eq d A B hcom (bump _ _ _ _) rfl rfl i j hi hj, filteredOf_eq d A B hcom d.interped rfl rfl i j hi hj, ← mul_sub,
    ← Finset.sum_sub_distrib]
  congr 1
  rw [Finset.sum_eq_single a]
  · rw [← Finset.sum_sub_distrib, Finset.sum_eq_single b]
    · unfold bump
      simp only [and_self, if_true]
      ring
    · intro b' hb' q
      unfold bump
      simp only []
      rw [if_neg (fun r => q ((fromCorner_inj _ B j b' b (mem_range.1 hb') hb).1 r.2))]
      ring
    · intro q
      exact absurd (mem_range.2 hb) q
  · intro a' ha' q
    rw [← Finset.sum_sub_distrib]
    refine Finset.sum_eq_zero fun b' _ => ?_
    unfold bump
    simp only []
    rw [if_neg (fun r => q ((fromCorner_inj _ A i a' a (mem_range.1 ha') ha).1 r.1))]
    ring
  · intro q
    exact absurd (mem_range.2 ha) q

/-- C173: independent errors of standard deviation `var` in the pixels: the variance of `s_component[i, j]`. -/
theorem varfilter_noise (d : VarPsf) (A B : ℤ) (hcom : d.com = ((A : ℝ), (B : ℝ))) (i j : ℕ) (hi : i < d.interped.h)
    (hj : j < d.interped.w) (hv : d.var ≠ 0) :
    d.var ^ 2 * ∑ u ∈ range d.interped.h, ∑ v ∈ range d.interped.w, respFilter d i j u v ^ 2 =
      (d.zp / d.var) ^ 2 / ((d.interped.h * d.interped.w : ℕ) : ℝ) *
        ∑ a ∈ range d.interped.h, ∑ b ∈ range d.interped.w, usedWeight d A B i j a b ^ 2 := by
  have e : ∑ u ∈ range d.interped.h, ∑ v ∈ range d.interped.w, respFilter d i j u v ^ 2 =
      ∑ a ∈ range d.interped.h, ∑ b ∈ range d.interped.w,
        (d.zp / d.var ^ 2 / Real.sqrt ((d.interped.h * d.interped.w : ℕ) : ℝ) * usedWeight d A B i j a b) ^ 2 := by
    rw [← fromCorner_sum d.interped.h A i hi]
    refine Finset.sum_congr rfl fun a ha => ?_
    rw [← fromCorner_sum d.interped.w B j hj]
    refine Finset.sum_congr rfl fun b hb => ?_
    rw [respFilter_eq d A B hcom i j hi hj a b (mem_range.1 ha) (mem_range.1 hb)]
  rw [e, Finset.mul_sum, Finset.mul_sum]
  refine Finset.sum_congr rfl fun a _ => ?_
  rw [Finset.mul_sum, Finset.mul_sum]
  refine Finset.sum_congr rfl fun b _ => ?_
  rw [mul_pow, div_pow _ (Real.sqrt _), Real.sq_sqrt (Nat.cast_nonneg _)]
  field_simp

/-- The identity behind the inequality of Cauchy and Schwarz. -/
theorem lagrange_sums {α : Type} (s : Finset α) (f g : α → ℝ) :
    (∑ x ∈ s, f x ^ 2) * (∑ x ∈ s, g x ^ 2) - (∑ x ∈ s, f x * g x) ^ 2 =
      (∑ x ∈ s, ∑ y ∈ s, (f x * g y - f y * g x) ^ 2) / 2 := by
  have e : ∑ x ∈ s, ∑ y ∈ s, (f x * g y - f y * g x) ^ 2 =
      ∑ x ∈ s, ∑ y ∈ s, f x ^ 2 * g y ^ 2 + ∑ x ∈ s, ∑ y ∈ s, f y ^ 2 * g x ^ 2 - 2 * ∑ x ∈ s, ∑ y ∈ s, (f x * g x) * (f y * g y) := by
    rw [Finset.mul_sum, ← Finset.sum_add_distrib, ← Finset.sum_sub_distrib]
    refine Finset.sum_congr rfl fun x _ => ?_
    rw [Finset.mul_sum, ← Finset.sum_add_distrib, ← Finset.sum_sub_distrib]
    refine Finset.sum_congr rfl fun y _ => ?_
    ring
  rw [e, Finset.sum_comm (f := fun x y => f y ^ 2 * g x ^ 2), ← Finset.sum_mul_sum, ← Finset.sum_mul_sum]
  ring

/-- C173: a star of flux `F` with its centre in pixel `(i, j)`, drawn with the PSF the image's model has there, over any image. What
it adds to `s_component[i, j]`, and how this compares with the noise: the squared ratio is at most `F²` times the energy of the
star's PSF over the noise power, which a filter with the star's own PSF would reach, with equality if and only if the weights
that are used are proportional to the star's PSF. -/
theorem varfilter_star (d : VarPsf) (A B : ℤ) (hcom : d.com = ((A : ℝ), (B : ℝ))) (i j : ℕ) (hi : i < d.interped.h)
    (hj : j < d.interped.w) (F : ℝ) (S : Img ℝ) (hz : d.zp ≠ 0) (hv : d.var ≠ 0) (hF : F ≠ 0)
    (hS : ∀ a < d.interped.h, ∀ b < d.interped.w,
      S.px (fromCorner d.interped.h A i a) (fromCorner d.interped.w B j b) = F * starShape d i j a b) :
    (filteredOf d (plusImg d.interped S)).px i j - (filteredOf d d.interped).px i j =
      d.zp / d.var ^ 2 / Real.sqrt ((d.interped.h * d.interped.w : ℕ) : ℝ) * (F *
        ∑ a ∈ range d.interped.h, ∑ b ∈ range d.interped.w, usedWeight d A B i j a b * starShape d i j a b) ∧
    ((filteredOf d (plusImg d.interped S)).px i j - (filteredOf d d.interped).px i j) ^ 2 ≤
      (d.var ^ 2 * ∑ u ∈ range d.interped.h, ∑ v ∈ range d.interped.w, respFilter d i j u v ^ 2) *
        (F ^ 2 / d.var ^ 2 * ∑ a ∈ range d.interped.h, ∑ b ∈ range d.interped.w, starShape d i j a b ^ 2) ∧
    (((filteredOf d (plusImg d.interped S)).px i j - (filteredOf d d.interped).px i j) ^ 2 =
      (d.var ^ 2 * ∑ u ∈ range d.interped.h, ∑ v ∈ range d.interped.w, respFilter d i j u v ^ 2) *
        (F ^ 2 / d.var ^ 2 * ∑ a ∈ range d.interped.h, ∑ b ∈ range d.interped.w, starShape d i j a b ^ 2) ↔
      ∀ a < d.interped.h, ∀ b < d.interped.w, ∀ a' < d.interped.h, ∀ b' < d.interped.w,
        usedWeight d A B i j a b * starShape d i j a' b' = usedWeight d A B i j a' b' * starShape d i j a b) := by
  have h0 : d.interped.h ≠ 0 := by omega
  have w0 : d.interped.w ≠ 0 := by omega
  have hw0 : (0 : ℝ) < ((d.interped.h * d.interped.w : ℕ) : ℝ) := by exact_mod_cast Nat.mul_pos (by omega) (by omega)
  have sig : (filteredOf d (plusImg d.interped S)).px i j - (filteredOf d d.interped).px i j =
      d.zp / d.var ^ 2 / Real.sqrt ((d.interped.h * d.interped.w : ℕ) : ℝ) * (F *
        ∑ a ∈ range d.interped.h, ∑ b ∈ range d.interped.w, usedWeight d A B i j a b * starShape d i j a b) := by
    rw [filteredOf_eq d A B hcom (plusImg _ _) rfl rfl i j hi hj, filteredOf_eq d A B hcom d.interped rfl rfl i j hi hj, ← mul_sub,
      ← Finset.sum_sub_distrib]
    congr 1
    rw [Finset.mul_sum]
    refine Finset.sum_congr rfl fun a ha => ?_
    rw [← Finset.sum_sub_distrib, Finset.mul_sum]
    refine Finset.sum_congr rfl fun b hb => ?_
    unfold plusImg
    simp only []
    rw [hS a (mem_range.1 ha) b (mem_range.1 hb)]
    ring
  have noi := varfilter_noise d A B hcom i j hi hj hv
  have L := lagrange_sums (range d.interped.h ×ˢ range d.interped.w) (fun x => usedWeight d A B i j x.1 x.2)
    (fun x => starShape d i j x.1 x.2)
  simp only [Finset.sum_product] at L
  rw [sig, noi]
  generalize hN : ((d.interped.h * d.interped.w : ℕ) : ℝ) = N at hw0 ⊢
  have sq : Real.sqrt N ^ 2 = N := Real.sq_sqrt hw0.le
  have dif : (d.zp / d.var) ^ 2 / N * (∑ a ∈ range d.interped.h, ∑ b ∈ range d.interped.w, usedWeight d A B i j a b ^ 2) *
        (F ^ 2 / d.var ^ 2 * ∑ a ∈ range d.interped.h, ∑ b ∈ range d.interped.w, starShape d i j a b ^ 2) -
      (d.zp / d.var ^ 2 / Real.sqrt N * (F *
        ∑ a ∈ range d.interped.h, ∑ b ∈ range d.interped.w, usedWeight d A B i j a b * starShape d i j a b)) ^ 2 =
      (d.zp * F / d.var ^ 2) ^ 2 / N * ((∑ x ∈ range d.interped.h, ∑ y ∈ range d.interped.w, ∑ x' ∈ range d.interped.h,
        ∑ y' ∈ range d.interped.w, (usedWeight d A B i j x y * starShape d i j x' y' -
          usedWeight d A B i j x' y' * starShape d i j x y) ^ 2) / 2) := by
    rw [← L, mul_pow (_ / _), div_pow _ (Real.sqrt N), sq]
    field_simp
  have kpos : 0 < (d.zp * F / d.var ^ 2) ^ 2 / N := by
    have : d.zp * F / d.var ^ 2 ≠ 0 := div_ne_zero (mul_ne_zero hz hF) (pow_ne_zero 2 hv)
    positivity
  have nonneg : 0 ≤ ∑ x ∈ range d.interped.h, ∑ y ∈ range d.interped.w, ∑ x' ∈ range d.interped.h,
        ∑ y' ∈ range d.interped.w, (usedWeight d A B i j x y * starShape d i j x' y' -
          usedWeight d A B i j x' y' * starShape d i j x y) ^ 2 := by positivity
  refine ⟨rfl, ?_, ?_⟩
  · have := mul_nonneg kpos.le (div_nonneg nonneg (by norm_num : (0 : ℝ) ≤ 2))
    linarith
  · constructor
    · intro q
      rw [q, sub_self] at dif
      have z : ∑ x ∈ range d.interped.h, ∑ y ∈ range d.interped.w, ∑ x' ∈ range d.interped.h,
        ∑ y' ∈ range d.interped.w, (usedWeight d A B i j x y * starShape d i j x' y' -
          usedWeight d A B i j x' y' * starShape d i j x y) ^ 2 = 0 := by
        rcases mul_eq_zero.1 dif.symm with r | r
        · exact absurd r kpos.ne'
        · linarith
      intro a ha b hb a' ha' b' hb'
      have z1 := (Finset.sum_eq_zero_iff_of_nonneg (fun x _ => by positivity)).1 z a (mem_range.2 ha)
      have z2 := (Finset.sum_eq_zero_iff_of_nonneg (fun x _ => by positivity)).1 z1 b (mem_range.2 hb)
      have z3 := (Finset.sum_eq_zero_iff_of_nonneg (fun x _ => by positivity)).1 z2 a' (mem_range.2 ha')
      have z4 := (Finset.sum_eq_zero_iff_of_nonneg (fun x _ => by positivity)).1 z3 b' (mem_range.2 hb')
      exact sub_eq_zero.1 (pow_eq_zero_iff (by norm_num)|>.1 z4)
    · intro q
      have z : ∑ x ∈ range d.interped.h, ∑ y ∈ range d.interped.w, ∑ x' ∈ range d.interped.h,
        ∑ y' ∈ range d.interped.w, (usedWeight d A B i j x y * starShape d i j x' y' -
          usedWeight d A B i j x' y' * starShape d i j x y) ^ 2 = 0 := by
        refine Finset.sum_eq_zero fun a ha => Finset.sum_eq_zero fun b hb => Finset.sum_eq_zero fun a' ha' =>
          Finset.sum_eq_zero fun b' hb' => ?_
        rw [q a (mem_range.1 ha) b (mem_range.1 hb) a' (mem_range.1 ha') b' (mem_range.1 hb'), sub_self]
        norm_num
      rw [z, zero_div, mul_zero] at dif
      linarith

/-! ## Worked instance -/

/-- One row of three pixels: the PSF is `(1, 2, 1)/4` in columns 1 and 2 and `(1, 6, 1)/4`, twice as bright and sharper, in
column 0. -/
noncomputable def sharpLeft (I : ℕ → ℝ) : VarPsf :=
  ⟨⟨1, 3, fun _ j => I j⟩, [⟨fun _ _ => 1, ⟨1, 3, fun _ j => if j = 1 then 1 / 2 else 1 / 4⟩⟩,
    ⟨fun _ j => if j = 0 then 1 else 0, ⟨1, 3, fun _ j => if j = 1 then 1 else 0⟩⟩], 1, 1, none⟩

theorem sharpLeft_com (I : ℕ → ℝ) : (sharpLeft I).com = (((0 : ℤ) : ℝ), ((1 : ℤ) : ℝ)) := by
  change psfCentroid ⟨1, 3, fun _ j => if j = 1 then 1 / 2 else 1 / 4⟩ = _
  unfold psfCentroid
  simp [Finset.sum_range_succ]
  norm_num

theorem sharpLeft_shape (I : ℕ → ℝ) (y b : ℕ) (hb : b < 3) : starShape (sharpLeft I) 0 y 0 b =
    (if b = 1 then 1 / 2 else 1 / 4) + (if y = 0 then 1 else 0) * if b = 1 then 1 else 0 := by
  unfold starShape sharpLeft padPx
  simp [hb]

theorem sharpLeft_normal (I : ℕ → ℝ) (y : ℕ) (hy : y < 3) : (sharpLeft I).normalImg.px 0 y = if y = 0 then 2 else 1 := by
  unfold VarPsf.normalImg sharpLeft ndConvolve
  interval_cases y
  all_goals
    simp only [List.map_cons, List.map_nil, List.sum_cons, List.sum_nil, Finset.sum_range_succ, Finset.sum_range_zero,
      reflectZ]
    norm_num

theorem sharpLeft_weight (I : ℕ → ℝ) (j b : ℕ) (hj : j < 3) (hb : b < 3) : usedWeight (sharpLeft I) 0 1 0 j 0 b =
    ((if b = 1 then 1 / 2 else 1 / 4) + (if (j + 2 + b) % 3 = 0 then 1 else 0) * if b = 1 then 1 else 0) /
      if (j + 2 + b) % 3 = 0 then 2 else 1 := by
  have e : fromCorner 3 1 j b = (j + 2 + b) % 3 := by
    interval_cases j <;> interval_cases b <;> decide
  have e0 : fromCorner 1 0 0 0 = 0 := by decide
  unfold usedWeight
  change starShape (sharpLeft I) (fromCorner 1 0 0 0) (fromCorner 3 1 j b) 0 b /
    (sharpLeft I).normalImg.px (fromCorner 1 0 0 0) (fromCorner 3 1 j b) = _
  rw [e0, e, sharpLeft_shape I _ b hb, sharpLeft_normal I _ (Nat.mod_lt _ (by norm_num))]

/-- C173: a star in column 1, alone: `s_component` is larger in column 0 than at the star; and it finds the star in column 1 less
well than the star's own PSF would (by `varfilter_star`). -/
theorem varfilter_misplaces : ∃ F : ℝ, F ≠ 0 ∧ ∃ I : ℕ → ℝ,
    (∀ b < 3, I (fromCorner 3 1 1 b) = F * starShape (sharpLeft I) 0 1 0 b) ∧
    (filteredImg (sharpLeft I).sHatComp).px 0 1 < (filteredImg (sharpLeft I).sHatComp).px 0 0 ∧
    ¬ ∀ b < 3, ∀ b' < 3, usedWeight (sharpLeft I) 0 1 0 1 0 b * starShape (sharpLeft I) 0 1 0 b' =
      usedWeight (sharpLeft I) 0 1 0 1 0 b' * starShape (sharpLeft I) 0 1 0 b := by
  refine ⟨4, by norm_num, fun j => if j = 1 then 2 else 1, ?_, ?_, ?_⟩
  · intro b hb
    rw [sharpLeft_shape _ 1 b hb]
    interval_cases b
    · norm_num [fromCorner]
    · norm_num [fromCorner]
    · norm_num [fromCorner]
  · rw [varfilter_formula (sharpLeft _) 0 1 (sharpLeft_com _) 0 1 (by change 0 < 1; norm_num) (by change 1 < 3; norm_num),
      varfilter_formula (sharpLeft _) 0 1 (sharpLeft_com _) 0 0 (by change 0 < 1; norm_num) (by change 0 < 3; norm_num)]
    have pos : (0 : ℝ) < 1 / 1 ^ 2 / Real.sqrt ((1 * 3 : ℕ) : ℝ) := by positivity
    change 1 / 1 ^ 2 / Real.sqrt ((1 * 3 : ℕ) : ℝ) * (∑ a ∈ range 1, ∑ b ∈ range 3,
        (fun j => if j = 1 then (2 : ℝ) else 1) (fromCorner 3 1 1 b) * usedWeight (sharpLeft _) 0 1 0 1 a b) <
      1 / 1 ^ 2 / Real.sqrt ((1 * 3 : ℕ) : ℝ) * ∑ a ∈ range 1, ∑ b ∈ range 3,
        (fun j => if j = 1 then (2 : ℝ) else 1) (fromCorner 3 1 0 b) * usedWeight (sharpLeft _) 0 1 0 0 a b
    refine mul_lt_mul_of_pos_left ?_ pos
    simp only [Finset.sum_range_succ, Finset.sum_range_zero, zero_add]
    rw [sharpLeft_weight _ 1 0 (by norm_num) (by norm_num), sharpLeft_weight _ 1 1 (by norm_num) (by norm_num),
      sharpLeft_weight _ 1 2 (by norm_num) (by norm_num), sharpLeft_weight _ 0 0 (by norm_num) (by norm_num),
      sharpLeft_weight _ 0 1 (by norm_num) (by norm_num), sharpLeft_weight _ 0 2 (by norm_num) (by norm_num),
      show fromCorner 3 1 1 0 = 0 by decide, show fromCorner 3 1 1 1 = 1 by decide, show fromCorner 3 1 1 2 = 2 by decide,
      show fromCorner 3 1 0 0 = 2 by decide, show fromCorner 3 1 0 1 = 0 by decide, show fromCorner 3 1 0 2 = 1 by decide]
    norm_num
  · intro q
    have := q 0 (by norm_num) 2 (by norm_num)
    rw [sharpLeft_weight _ 1 0 (by norm_num) (by norm_num), sharpLeft_weight _ 1 2 (by norm_num) (by norm_num),
      sharpLeft_shape _ 1 0 (by norm_num), sharpLeft_shape _ 1 2 (by norm_num)] at this
    norm_num at this

/-- C173: the noise of `s_component` is not the same in all pixels. -/
theorem varfilter_noise_uneven (I : ℕ → ℝ) :
    (sharpLeft I).var ^ 2 * ∑ u ∈ range 1, ∑ v ∈ range 3, respFilter (sharpLeft I) 0 0 u v ^ 2 = 44 / 192 ∧
    (sharpLeft I).var ^ 2 * ∑ u ∈ range 1, ∑ v ∈ range 3, respFilter (sharpLeft I) 0 1 u v ^ 2 = 21 / 192 := by
  have n : ∀ j < 3, (sharpLeft I).var ^ 2 * ∑ u ∈ range 1, ∑ v ∈ range 3, respFilter (sharpLeft I) 0 j u v ^ 2 =
      (1 / 1) ^ 2 / ((1 * 3 : ℕ) : ℝ) * ∑ a ∈ range 1, ∑ b ∈ range 3, usedWeight (sharpLeft I) 0 1 0 j a b ^ 2 :=
    fun j hj => varfilter_noise (sharpLeft I) 0 1 (sharpLeft_com I) 0 j (by change 0 < 1; norm_num) hj
      (by change (1 : ℝ) ≠ 0; norm_num)
  constructor
  · rw [n 0 (by norm_num)]
    simp only [Finset.sum_range_succ, Finset.sum_range_zero, zero_add]
    rw [sharpLeft_weight _ 0 0 (by norm_num) (by norm_num),
      sharpLeft_weight _ 0 1 (by norm_num) (by norm_num), sharpLeft_weight _ 0 2 (by norm_num) (by norm_num)]
    norm_num
  · rw [n 1 (by norm_num)]
    simp only [Finset.sum_range_succ, Finset.sum_range_zero, zero_add]
    rw [sharpLeft_weight _ 1 0 (by norm_num) (by norm_num),
      sharpLeft_weight _ 1 1 (by norm_num) (by norm_num), sharpLeft_weight _ 1 2 (by norm_num) (by norm_num)]
    norm_num

end PI
