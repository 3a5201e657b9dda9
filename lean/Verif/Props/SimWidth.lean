import Verif.Props.SimCart
import Mathlib.Analysis.SpecialFunctions.Log.Deriv
import Mathlib.Analysis.Complex.ExponentialBounds
import Mathlib.Tactic.NormNum
import Mathlib.Tactic.Linarith
import Mathlib.Tactic.FieldSimp
import Mathlib.Tactic.Ring

/-!
# The profile and the width of the simulated PSFs (C158)
-/

namespace PI

/-- Specification: the height, relative to the peak, at `dx` rows and `dy` columns from the centre of a Gaussian whose standard
deviations are the widths over 2.335. -/
noncomputable def relHeight (X Y dx dy : ℝ) : ℝ :=
  Real.exp (-((2335 / 1000) ^ 2 / 2 * (dx ^ 2 / X ^ 2 + dy ^ 2 / Y ^ 2)))

/-- The number of pixels that `Psf` fills on either side of the middle of an array of `2 k + 1` pixels: five standard deviations of
the wider axis, or half of the array. -/
def psfTail (k : ℕ) (X Y : ℚ) : ℤ := min ⌊5 * max (X / (2335 / 1000)) (Y / (2335 / 1000))⌋ k

theorem psfRange_mid (k : ℕ) (X Y : ℚ) (hX : 0 < X) :
    psfRange ((2 * k + 1 : ℕ) : ℚ) X Y = (k - psfTail k X Y, k + psfTail k X Y) := by
  have hs : 0 < max (sigmaOf X) (sigmaOf Y) := lt_of_lt_of_le (sigmaOf_pos hX) (le_max_left _ _)
  have h5 : pyInt (5 * max (sigmaOf X) (sigmaOf Y)) = ⌊5 * max (sigmaOf X) (sigmaOf Y)⌋ := pyInt_nonneg_eq (by positivity)
  have h50 : 0 ≤ ⌊5 * max (sigmaOf X) (sigmaOf Y)⌋ := Int.floor_nonneg.mpr (by positivity)
  have hk' : (0 : ℚ) ≤ k := by positivity
  have hmu : pyInt ((((2 * k + 1 : ℕ) : ℚ) - 1) / 2) = k := by
    rw [show (((2 * k + 1 : ℕ) : ℚ) - 1) / 2 = ((k : ℤ) : ℚ) by push_cast; ring, pyInt_nonneg_eq (by positivity), Int.floor_intCast]
  have htail : psfTail k X Y = min ⌊5 * max (sigmaOf X) (sigmaOf Y)⌋ k := rfl
  rw [htail]
  unfold psfRange
  simp only [hmu, h5]
  generalize ⌊5 * max (sigmaOf X) (sigmaOf Y)⌋ = s at *
  rcases le_or_gt s k with h | h
  · have hq : (s : ℚ) ≤ k := by exact_mod_cast h
    rw [min_eq_left h, min_eq_left (by push_cast; linarith)]
    refine Prod.ext ?_ ?_
    · show pyInt ((((k : ℕ) : ℤ) : ℚ) - s) = k - s
      rw [show (((k : ℕ) : ℤ) : ℚ) - s = (((k : ℤ) - s : ℤ) : ℚ) by push_cast; ring,
        pyInt_nonneg_eq (by push_cast; linarith), Int.floor_intCast]
    · show pyInt ((((k : ℕ) : ℤ) : ℚ) + s) = k + s
      rw [show (((k : ℕ) : ℤ) : ℚ) + s = (((k : ℤ) + s : ℤ) : ℚ) by push_cast; ring,
        pyInt_nonneg_eq (by exact_mod_cast (by omega : (0 : ℤ) ≤ (k : ℤ) + s)), Int.floor_intCast]
  · have hq : (k : ℚ) + 1 ≤ s := by exact_mod_cast h
    rw [min_eq_right h.le, min_eq_right (by push_cast; linarith)]
    refine Prod.ext ?_ ?_
    · show pyInt ((((k : ℕ) : ℤ) : ℚ) - ((2 * k + 1 : ℕ) : ℚ) / 2) = k - k
      rw [pyInt_neg_eq (by push_cast; linarith), Int.ceil_eq_iff]
      push_cast
      constructor <;> linarith
    · show pyInt ((((k : ℕ) : ℤ) : ℚ) + ((2 * k + 1 : ℕ) : ℚ) / 2) = k + k
      rw [pyInt_nonneg_eq (by push_cast; linarith), Int.floor_eq_iff]
      push_cast
      constructor <;> linarith

theorem normPdf_rel (x mu : ℝ) (X : ℚ) :
    normPdf x mu (sigmaOf X : ℚ) =
      normPdf mu mu (sigmaOf X : ℚ) * Real.exp (-((2335 / 1000) ^ 2 / 2 * ((x - mu) ^ 2 / (X : ℝ) ^ 2))) := by
  unfold normPdf
  rw [sub_self, zero_div, div_mul_eq_mul_div, ← Real.exp_add]
  congr 2
  unfold sigmaOf
  push_cast
  rw [div_div_eq_mul_div, div_pow, mul_pow]
  ring

/-- C158: in an array of odd size `Psf` is a Gaussian around the middle pixel of the stated tails, and zero elsewhere: each pixel is
the middle one times the height of the profile. -/
theorem psf_profile (k : ℕ) (X Y : ℚ) (hX : 0 < X) (hY : 0 ≤ Y) (p : Img ℝ)
    (hp : simPsf ((2 * k + 1 : ℕ) : ℚ) X Y = .ok (some p)) :
    0 < p.px k k ∧ ∀ r < 2 * k + 1, ∀ c < 2 * k + 1, p.px r c =
      if (k : ℤ) - psfTail k X (yWidth X Y) ≤ r ∧ (r : ℤ) < k + psfTail k X (yWidth X Y) ∧
        (k : ℤ) - psfTail k X (yWidth X Y) ≤ c ∧ (c : ℤ) < k + psfTail k X (yWidth X Y)
      then p.px k k * relHeight X (yWidth X Y) (r - k) (c - k) else 0 := by
  have hN : (1 : ℚ) ≤ ((2 * k + 1 : ℕ) : ℚ) := by push_cast; linarith [show (0 : ℚ) ≤ k by positivity]
  have hYp : 0 < yWidth X Y := by
    unfold yWidth
    split
    · exact hX
    · rename_i h; exact lt_of_le_of_ne hY (Ne.symm h)
  have hsx : (0 : ℝ) < (sigmaOf X : ℚ) := by exact_mod_cast sigmaOf_pos hX
  have hsy : (0 : ℝ) < (sigmaOf (yWidth X Y) : ℚ) := by exact_mod_cast sigmaOf_pos hYp
  obtain ⟨o, ho, hn, hsm⟩ := psf_ok _ X Y hN hX hY
  rw [hp] at ho
  cases ho
  obtain ⟨-, -, -, -, T, hT, e⟩ := hsm p rfl
  have hno : ¬ (((2 * k + 1 : ℕ) : ℚ) < 2 ∨ 5 * max (sigmaOf X) (sigmaOf (yWidth X Y)) < 1) := fun h => by
    cases hn.mpr h
  rw [not_or, not_lt, not_lt] at hno
  have hk : 1 ≤ k := by
    by_contra h
    have : k = 0 := by omega
    subst this
    norm_num at hno
  have ht1 : 1 ≤ psfTail k X (yWidth X Y) := by
    refine le_min (Int.le_floor.mpr ?_) (by omega)
    push_cast
    exact hno.2
  have htk : psfTail k X (yWidth X Y) ≤ k := min_le_right _ _
  rw [floor_nat, psfRange_mid k X _ hX] at e
  generalize psfTail k X (yWidth X Y) = t at *
  have hmu : (((((2 * k + 1 : ℕ) : ℚ) - 1) / 2 : ℚ) : ℝ) = k := by push_cast; ring
  rw [hmu] at e
  have hw : ∀ x < 2 * k + 1, writer (2 * k + 1) ((k : ℤ) - t) (k + t) x =
      if (k : ℤ) - t ≤ x ∧ (x : ℤ) < k + t then some (x : ℤ) else none := by
    intro x hx
    unfold writer
    by_cases h : (k : ℤ) - t ≤ x ∧ (x : ℤ) < k + t
    · rw [if_pos h, if_pos h]
    · rw [if_neg h, if_neg h, if_neg (by omega)]
  have hmid : p.px k k = normPdf k k (sigmaOf X : ℚ) * normPdf k k (sigmaOf (yWidth X Y) : ℚ) / T := by
    rw [e k (by omega) k (by omega)]
    unfold gridVal
    simp only [hw k (by omega)]
    rw [if_pos (by omega)]
    simp
  refine ⟨?_, fun r hr c hc => ?_⟩
  · rw [hmid]
    exact div_pos (mul_pos (normPdf_pos _ _ _ hsx) (normPdf_pos _ _ _ hsy)) hT
  · rw [e r hr c hc]
    unfold gridVal
    simp only [hw r hr, hw c hc]
    by_cases h1 : (k : ℤ) - t ≤ r ∧ (r : ℤ) < k + t
    · by_cases h2 : (k : ℤ) - t ≤ c ∧ (c : ℤ) < k + t
      · rw [if_pos h1, if_pos h2, if_pos ⟨h1.1, h1.2, h2⟩, hmid]
        simp only [Option.bind_some, Option.map_some, Option.getD_some]
        rw [normPdf_rel ((r : ℤ) : ℝ), normPdf_rel ((c : ℤ) : ℝ)]
        unfold relHeight
        rw [mul_add, neg_add, Real.exp_add]
        push_cast
        ring
      · have h3 : ¬ ((k : ℤ) - t ≤ r ∧ (r : ℤ) < k + t ∧ (k : ℤ) - t ≤ c ∧ (c : ℤ) < k + t) := by omega
        simp only [if_neg h2, if_neg h3]
        simp
    · have h3 : ¬ ((k : ℤ) - t ≤ r ∧ (r : ℤ) < k + t ∧ (k : ℤ) - t ≤ c ∧ (c : ℤ) < k + t) := by omega
      simp only [if_neg h1, if_neg h3]
      simp

/-- C158: the same for `astropy_Psf`, which fills seven standard deviations. -/
theorem astropy_profile (k : ℕ) (F : ℚ) (hF : 0 < F) (p : Img ℝ) (hp : astropyPsf (2 * k + 1) F = .ok (some p)) :
    0 < p.px k k ∧ ∀ r < 2 * k + 1, ∀ c < 2 * k + 1, p.px r c =
      if (k : ℤ) - ⌊7 * (F / (2335 / 1000))⌋ ≤ r ∧ (r : ℤ) < k + ⌊7 * (F / (2335 / 1000))⌋ ∧
        (k : ℤ) - ⌊7 * (F / (2335 / 1000))⌋ ≤ c ∧ (c : ℤ) < k + ⌊7 * (F / (2335 / 1000))⌋
      then p.px k k * relHeight F F (r - k) (c - k) else 0 := by
  have htl : ⌊7 * (F / (2335 / 1000))⌋ = tailLen F := rfl
  rw [htl]
  have hN : 1 ≤ 2 * k + 1 := by omega
  have hmid : (2 * k + 1 - 1) / 2 = k := by omega
  have hfit : (((2 * k + 1 - 1) / 2 : ℕ) : ℤ) + tailLen F ≤ ((2 * k + 1 : ℕ) : ℤ) := by
    by_contra h
    have := (astropy_psf_error (2 * k + 1) F hN hF).1.mpr ⟨by rw [hmid] at h; push_cast at h; omega, not_le.mp h⟩
    rw [hp] at this
    cases this
  obtain ⟨o, ho, hn, hsm⟩ := astropy_psf_ok (2 * k + 1) F hN hF hfit
  rw [hp] at ho
  cases ho
  obtain ⟨-, -, -, -, T, hT, e⟩ := hsm p rfl
  have ht1 : 1 ≤ tailLen F := by
    by_contra h
    have h2 : tailLen F < 1 := not_le.mp h
    unfold tailLen at h2
    rw [Int.floor_lt] at h2
    have := hn.mpr (by push_cast at h2; exact h2)
    cases this
  rw [hmid] at e hfit
  generalize tailLen F = t at *
  have hmu : (((((2 * k + 1 : ℕ) : ℚ) - 1) / 2 : ℚ) : ℝ) = k := by push_cast; ring
  rw [hmu] at e
  have hg : ∀ x y : ℝ, gauss2d k (sigmaOf F : ℚ) x y = relHeight F F (x - k) (y - k) := by
    intro x y
    unfold gauss2d relHeight sigmaOf
    congr 2
    push_cast
    have : (F : ℝ) ≠ 0 := by exact_mod_cast hF.ne'
    field_simp
  have hw : ∀ x < 2 * k + 1, writer (2 * k + 1) ((k : ℤ) - t) (k + t) x =
      if (k : ℤ) - t ≤ x ∧ (x : ℤ) < k + t then some (x : ℤ) else none := by
    intro x hx
    unfold writer
    push_cast at hfit ⊢
    by_cases h : (k : ℤ) - t ≤ x ∧ (x : ℤ) < k + t
    · rw [if_pos h, if_pos h]
    · rw [if_neg h, if_neg h, if_neg (by omega)]
  have h00 : relHeight F F 0 0 = 1 := by unfold relHeight; simp
  have hpk : p.px k k = 1 / T := by
    rw [e k (by omega) k (by omega)]
    unfold gridVal
    simp only [hw k (by omega)]
    rw [if_pos (by omega)]
    simp only [Option.bind_some, Option.map_some, Option.getD_some, hg]
    push_cast
    rw [sub_self, h00]
  refine ⟨?_, fun r hr c hc => ?_⟩
  · rw [hpk]
    exact div_pos one_pos hT
  · rw [e r hr c hc]
    unfold gridVal
    simp only [hw r hr, hw c hc]
    by_cases h1 : (k : ℤ) - t ≤ r ∧ (r : ℤ) < k + t
    · by_cases h2 : (k : ℤ) - t ≤ c ∧ (c : ℤ) < k + t
      · rw [if_pos h1, if_pos h2, if_pos ⟨h1.1, h1.2, h2⟩, hpk]
        simp only [Option.bind_some, Option.map_some, Option.getD_some, hg]
        push_cast
        ring
      · have h3 : ¬ ((k : ℤ) - t ≤ r ∧ (r : ℤ) < k + t ∧ (k : ℤ) - t ≤ c ∧ (c : ℤ) < k + t) := by omega
        simp only [if_neg h2, if_neg h3]
        simp
    · have h3 : ¬ ((k : ℤ) - t ≤ r ∧ (r : ℤ) < k + t ∧ (k : ℤ) - t ≤ c ∧ (c : ℤ) < k + t) := by omega
      simp only [if_neg h1, if_neg h3]
      simp

/-- The distance at which a Gaussian of standard deviation `F / 2.335` has fallen to half of its peak. -/
noncomputable def halfRadius (F : ℝ) : ℝ := F * Real.sqrt (2 * Real.log 2) / (2335 / 1000)

/-- C158: a profile asked for with width `F` has at least half of its peak height exactly up to the distance `halfRadius F`. -/
theorem half_height_iff (F dx dy : ℝ) (hF : 0 < F) :
    1 / 2 ≤ relHeight F F dx dy ↔ dx ^ 2 + dy ^ 2 ≤ halfRadius F ^ 2 := by
  unfold relHeight halfRadius
  have hl : 0 ≤ 2 * Real.log 2 := by have := Real.log_two_gt_d9; linarith
  have hsq : (F * Real.sqrt (2 * Real.log 2) / (2335 / 1000)) ^ 2 = F ^ 2 * (2 * Real.log 2) / (2335 / 1000) ^ 2 := by
    rw [div_pow (F * Real.sqrt (2 * Real.log 2)) (2335 / 1000) 2, mul_pow, Real.sq_sqrt hl]
  rw [hsq, ← Real.log_le_iff_le_exp (by norm_num), one_div, Real.log_inv, neg_le_neg_iff, le_div_iff₀ (by norm_num)]
  have hF2 : 0 < F ^ 2 := by positivity
  rw [← add_div, mul_div_assoc', div_le_iff₀ hF2]
  constructor <;> intro h <;> nlinarith

/-- C158: this is more than half of the width asked for: the full width at half maximum is between 1.0084 and 1.0085 times `F`. -/
theorem half_radius_bounds (F : ℝ) (hF : 0 < F) :
    10084 / 10000 * F < 2 * halfRadius F ∧ 2 * halfRadius F < 10085 / 10000 * F := by
  have h1 := Real.log_two_gt_d9
  have h2 := Real.log_two_lt_d9
  have hl : 1177307 / 1000000 < Real.sqrt (2 * Real.log 2) := by
    rw [Real.lt_sqrt (by norm_num)]
    norm_num at h1 ⊢
    linarith
  have hu : Real.sqrt (2 * Real.log 2) < 11774235 / 10000000 := by
    rw [Real.sqrt_lt' (by norm_num)]
    norm_num at h2 ⊢
    linarith
  unfold halfRadius
  constructor
  · rw [mul_div_assoc', lt_div_iff₀ (by norm_num)]
    nlinarith
  · rw [mul_div_assoc', div_lt_iff₀ (by norm_num)]
    nlinarith

/-- C158: a pixel half of the width asked for from the middle is higher than half of the peak. -/
theorem half_width_pixel (k d : ℕ) (hd : 1 ≤ d) (hdk : d < k) (p : Img ℝ)
    (hp : simPsf ((2 * k + 1 : ℕ) : ℚ) (2 * d) 0 = .ok (some p)) :
    505 / 1000 * p.px k k < p.px (k + d) k ∧ p.px (k + d) k < 506 / 1000 * p.px k k ∧
      p.px (k - d) k = p.px (k + d) k ∧ p.px k (k + d) = p.px (k + d) k := by
  have hd' : (1 : ℚ) ≤ d := by exact_mod_cast hd
  obtain ⟨-, h⟩ := psf_profile k (2 * d) 0 (by linarith) le_rfl p hp
  have hy : yWidth (2 * d) 0 = 2 * d := by simp [yWidth]
  have ht : (d : ℤ) + 1 ≤ psfTail k (2 * d) (2 * d) := by
    refine le_min (Int.le_floor.mpr ?_) (by omega)
    rw [max_self]
    push_cast
    rw [mul_div_assoc', le_div_iff₀ (by norm_num)]
    linarith
  rw [hy] at h
  have hdr : (1 : ℝ) ≤ d := by exact_mod_cast hd
  have hv : ∀ dx dy : ℝ, dx ^ 2 + dy ^ 2 = d ^ 2 →
      relHeight ((2 * d : ℚ) : ℝ) ((2 * d : ℚ) : ℝ) dx dy = Real.exp (-((2335 / 1000) ^ 2 / 8)) := by
    intro dx dy hh
    unfold relHeight
    rw [← add_div, hh]
    congr 2
    push_cast
    field_simp
    norm_num
  have hk : ((k - d : ℕ) : ℝ) = (k : ℝ) - d := by push_cast [hdk.le]; ring
  have e1 := h (k + d) (by omega) k (by omega)
  have e2 := h (k - d) (by omega) k (by omega)
  have e3 := h k (by omega) (k + d) (by omega)
  rw [if_pos (by push_cast; omega), hv _ _ (by push_cast; ring)] at e1
  rw [if_pos (by omega), hv _ _ (by rw [hk]; ring)] at e2
  rw [if_pos (by push_cast; omega), hv _ _ (by push_cast; ring)] at e3
  obtain ⟨hpos, -⟩ := psf_profile k (2 * d) 0 (by linarith) le_rfl p hp
  have h1 := Real.log_two_gt_d9
  have h2 := Real.log_two_lt_d9
  have hhalf : Real.exp (-((2335 / 1000) ^ 2 / 8)) = 1 / 2 * Real.exp (Real.log 2 - (2335 / 1000) ^ 2 / 8) := by
    rw [Real.exp_sub, Real.exp_log (by norm_num), Real.exp_neg]
    ring
  have hlo : (505 / 1000 : ℝ) < Real.exp (-((2335 / 1000) ^ 2 / 8)) := by
    rw [hhalf]
    have := Real.add_one_le_exp (Real.log 2 - (2335 / 1000) ^ 2 / 8)
    norm_num at this h1 ⊢
    linarith
  have hhi : Real.exp (-((2335 / 1000) ^ 2 / 8)) < (506 / 1000 : ℝ) := by
    have hm : Real.exp (-((2335 / 1000) ^ 2 / 8)) * (2 * Real.exp (-(Real.log 2 - (2335 / 1000) ^ 2 / 8))) = 1 := by
      rw [hhalf, Real.exp_neg (Real.log 2 - _)]
      field_simp
    have h3 := Real.add_one_le_exp (-(Real.log 2 - (2335 / 1000 : ℝ) ^ 2 / 8))
    have h4 : (988 / 1000 : ℝ) < Real.exp (-(Real.log 2 - (2335 / 1000 : ℝ) ^ 2 / 8)) := by
      refine lt_of_lt_of_le ?_ h3
      norm_num at h2 ⊢
      linarith
    have h5 := Real.exp_pos (-((2335 / 1000 : ℝ) ^ 2 / 8))
    generalize Real.exp (-(Real.log 2 - (2335 / 1000 : ℝ) ^ 2 / 8)) = v at *
    by_contra hc
    have hc := not_lt.mp hc
    nlinarith
  refine ⟨?_, ?_, by rw [e2, e1], by rw [e3, e1]⟩
  · rw [e1]; nlinarith
  · rw [e1]; nlinarith

/-- C158: on the pixels that both fill, `Psf` and `astropy_Psf` of one width differ by a constant factor only. -/
theorem psf_astropy_same (k : ℕ) (F : ℚ) (hF : 0 < F) (p q : Img ℝ)
    (hp : simPsf ((2 * k + 1 : ℕ) : ℚ) F 0 = .ok (some p)) (hq : astropyPsf (2 * k + 1) F = .ok (some q))
    (r c : ℕ) (hr : r < 2 * k + 1) (hc : c < 2 * k + 1) (hpn : p.px r c ≠ 0) (hqn : q.px r c ≠ 0) :
    p.px r c * q.px k k = q.px r c * p.px k k := by
  obtain ⟨-, h1⟩ := psf_profile k F 0 hF le_rfl p hp
  obtain ⟨-, h2⟩ := astropy_profile k F hF q hq
  have e1 := h1 r hr c hc
  have e2 := h2 r hr c hc
  have hy : yWidth F 0 = F := by simp [yWidth]
  rw [hy] at e1
  split at e1
  · split at e2
    · rw [e1, e2]; ring
    · exact absurd e2 hqn
  · exact absurd e1 hpn

/-- A 9 x 9 PSF of width 4: two pixels off the middle it has 50.5 to 50.6 percent of the peak. -/
example : ∃ p, simPsf ((2 * 4 + 1 : ℕ) : ℚ) (2 * (2 : ℕ)) 0 = .ok (some p) ∧ 505 / 1000 * p.px 4 4 < p.px 6 4 ∧
    p.px 6 4 < 506 / 1000 * p.px 4 4 := by
  obtain ⟨p, h1, -⟩ := psf_odd 4 (2 * (2 : ℕ)) 0 (by norm_num) (by norm_num) le_rfl (by
    unfold yWidth sigmaOf; norm_num)
  obtain ⟨h2, h3, -⟩ := half_width_pixel 4 2 (by norm_num) (by norm_num) p h1
  exact ⟨p, h1, h2, h3⟩

/-- Both functions on 13 x 13 pixels with width 2.335: the pixel next to the middle. -/
example : ∃ p q, simPsf ((2 * 6 + 1 : ℕ) : ℚ) (2335 / 1000) 0 = .ok (some p) ∧
    astropyPsf (2 * 6 + 1) (2335 / 1000) = .ok (some q) ∧ p.px 7 6 * q.px 6 6 = q.px 7 6 * p.px 6 6 ∧
    p.px 7 6 = p.px 6 6 * Real.exp (-(1 / 2)) ∧ p.px 0 6 = 0 ∧ q.px 0 6 ≠ 0 := by
  have hs : (1 : ℚ) ≤ 5 * max (sigmaOf (2335 / 1000)) (sigmaOf (yWidth (2335 / 1000) 0)) := by
    unfold yWidth sigmaOf; norm_num
  obtain ⟨o, ho, hn, -⟩ := psf_ok ((2 * 6 + 1 : ℕ) : ℚ) (2335 / 1000) 0 (by norm_num) (by norm_num) le_rfl
  cases o with
  | none =>
    rcases hn.mp rfl with h | h
    · norm_num at h
    · linarith
  | some p =>
    have ht : tailLen (2335 / 1000) = 7 := by
      unfold tailLen sigmaOf; rw [Int.floor_eq_iff]; norm_num
    obtain ⟨o, ho', hn', -⟩ := astropy_psf_ok (2 * 6 + 1) (2335 / 1000) (by norm_num) (by norm_num) (by rw [ht]; norm_num)
    cases o with
    | none => have := hn'.mp rfl; unfold sigmaOf at this; norm_num at this
    | some q =>
      obtain ⟨p0, p1⟩ := psf_profile 6 (2335 / 1000) 0 (by norm_num) le_rfl p ho
      obtain ⟨q0, q1⟩ := astropy_profile 6 (2335 / 1000) (by norm_num) q ho'
      have hy : yWidth (2335 / 1000) 0 = 2335 / 1000 := by simp [yWidth]
      have hpt : psfTail 6 (2335 / 1000) (2335 / 1000) = 5 := by
        unfold psfTail
        rw [max_self, show (5 : ℚ) * (2335 / 1000 / (2335 / 1000)) = ((5 : ℤ) : ℚ) by norm_num, Int.floor_intCast]
        rfl
      have hqt : ⌊7 * ((2335 / 1000 : ℚ) / (2335 / 1000))⌋ = 7 := ht
      rw [hy, hpt] at p1
      rw [hqt] at q1
      have a := p1 7 (by norm_num) 6 (by norm_num)
      have b := q1 7 (by norm_num) 6 (by norm_num)
      have c := p1 0 (by norm_num) 6 (by norm_num)
      have d := q1 0 (by norm_num) 6 (by norm_num)
      rw [if_pos (by norm_num)] at a b d
      rw [if_neg (by norm_num)] at c
      have he : relHeight ((2335 / 1000 : ℚ) : ℝ) ((2335 / 1000 : ℚ) : ℝ) (((7 : ℕ) : ℝ) - ((6 : ℕ) : ℝ))
          (((6 : ℕ) : ℝ) - ((6 : ℕ) : ℝ)) = Real.exp (-(1 / 2)) := by
        unfold relHeight
        congr 1
        push_cast
        norm_num
      refine ⟨p, q, ho, ho', ?_, ?_, c, ?_⟩
      · rw [a, b]; ring
      · rw [a, he]
      · rw [d]
        exact (mul_pos q0 (Real.exp_pos _)).ne'

end PI
