import Verif.Props.GaussNoise
import Verif.Props.Translate
import Mathlib.Analysis.SpecialFunctions.Trigonometric.Bounds

/-!
# Property C180: a star that moves and changes between the exposures

A star of flux `cr` in the reference and of flux `cn` in the new image, at two places. What it leaves in D.
-/

namespace PI

open Complex Finset MeasureTheory ProbabilityTheory
open scoped NNReal ENNReal

/-- Half the angle by which a displacement turns coefficient `(k, l)`. -/
noncomputable def moveAngle (h w : ℕ) (δ : ℝ × ℝ) (k l : ℕ) : ℝ :=
  Real.pi * (sfreq h k * δ.1 / h + sfreq w l * δ.2 / w)

/-- What one coefficient contributes to `diffInfo`. -/
noncomputable def infoAt (ref new : SubImg) (b : ℝ) (k l : ℕ) : ℝ :=
  normSq (ref.psfHat.px k l) * normSq (new.psfHat.px k l) / normReal ref new b k l

/-- The power that a star of flux `cr` in the reference and `cn` in the new image leaves in D when it moved by `δ`. -/
noncomputable def movedPower (ref new : SubImg) (b : ℝ) (h w : ℕ) (cr cn : ℝ) (δ : ℝ × ℝ) : ℝ :=
  (cn - b * cr) ^ 2 * diffInfo ref new b h w +
    4 * (cn * (b * cr)) * ∑ k ∈ range h, ∑ l ∈ range w, infoAt ref new b k l * Real.sin (moveAngle h w δ k l) ^ 2

/-- The displacement: the place of a star is the corner of its stamp plus the centre of mass of the image's PSF. -/
noncomputable def displacement (ref new : SubImg) (pr qr pn qn : ℕ) : ℝ × ℝ :=
  (((pn : ℝ) + (centerOfMass new.psf).1) - (pr + (centerOfMass ref.psf).1),
    ((qn : ℝ) + (centerOfMass new.psf).2) - (qr + (centerOfMass ref.psf).2))

theorem shiftPhase_exp (h w : ℕ) (δ : ℝ × ℝ) (k l : ℕ) :
    shiftPhase h w δ k l = Complex.exp (((-(2 * moveAngle h w δ k l) : ℝ) : ℂ) * I) := by
  unfold shiftPhase tw moveAngle
  rw [← Complex.exp_add, ← add_mul, ← ofReal_add]
  congr 3
  ring

theorem two_phases (a b x y : ℝ) :
    normSq (a * Complex.exp ((x : ℂ) * I) - b * Complex.exp ((y : ℂ) * I)) =
      (a - b) ^ 2 + 4 * (a * b) * Real.sin ((x - y) / 2) ^ 2 := by
  rw [normSq_apply, sub_re, sub_im, re_ofReal_mul, re_ofReal_mul, im_ofReal_mul, im_ofReal_mul, exp_ofReal_mul_I_re,
    exp_ofReal_mul_I_re, exp_ofReal_mul_I_im, exp_ofReal_mul_I_im]
  have c := Real.cos_sub x y
  have d : Real.cos (x - y) = 1 - 2 * Real.sin ((x - y) / 2) ^ 2 := by
    have := Real.cos_two_mul ((x - y) / 2)
    rw [mul_div_cancel₀ _ (two_ne_zero)] at this
    rw [this, Real.sin_sq]
    ring
  have h1 := Real.sin_sq_add_cos_sq x
  have h2 := Real.sin_sq_add_cos_sq y
  have e : Real.sin ((x - y) / 2) ^ 2 = (1 - (Real.cos x * Real.cos y + Real.sin x * Real.sin y)) / 2 := by
    rw [← c, d]; ring
  rw [e]
  linear_combination a ^ 2 * h1 + b ^ 2 * h2

section
variable (env : SubEnv) (it : Bool) (ref new : SubImg) (h w : ℕ) (z : ℝ × ℝ)
    (hmr : ref.mask.HasShape h w) (hmn : new.mask.HasShape h w) (hz : env.zps = .ok z)
    (hc : env.fitted = true ∨ (0 ≤ (centerOfMass new.psf).1 ∧ 0 ≤ (centerOfMass new.psf).2))
    (hr : ref.interped.shape = (h, w)) (hn : new.interped.shape = (h, w))
    (pr qr pn qn : ℕ) (cr cn : ℝ) (hpr : pr < h) (hqr : qr < w) (hpn : pn < h) (hqn : qn < w)
    (gr : GuardIdle h w ref.psf) (gn : GuardIdle h w new.psf)
    (hv : new.var ≠ 0 ∨ (ref.var ≠ 0 ∧ z.2 / z.1 ≠ 0))

/-- What the star adds to a pixel of D. -/
noncomputable def movedTrace (i j : ℕ) : ℂ :=
  (diffOf env ⟨false, false, it⟩ ref new (plusImg ref.interped (starAt h w ref.psf pr qr cr))
      (plusImg new.interped (starAt h w new.psf pn qn cn))).px i j -
    (diffOf env ⟨false, false, it⟩ ref new ref.interped new.interped).px i j

include hv in
theorem infoAt_pos (k l : ℕ) : 0 < infoAt ref new (z.2 / z.1) k l := by
  obtain ⟨_, _, r, hr1, hr2⟩ := subtract_norm_pos ref new (z.2 / z.1) k l hv
  rw [normHat_eq] at hr2
  have hr3 : normReal ref new (z.2 / z.1) k l = r := by exact_mod_cast hr2
  exact div_pos (mul_pos (psf_power_pos ref k l) (psf_power_pos new k l)) (hr3 ▸ hr1)

include hmr hmn hz hc hr hn hpr hqr hpn hqn gr gn hv

/-- C180: the power of the trace. A change of flux counts with the information of C156, a motion with the sines of the angles by
which it turns the coefficients. -/
theorem moved_star_power :
    ∑ i ∈ range h, ∑ j ∈ range w, normSq (movedTrace env it ref new h w pr qr pn qn cr cn i j) =
      movedPower ref new (z.2 / z.1) h w cr cn (displacement ref new pr qr pn qn) := by
  have e : ∀ i j, movedTrace env it ref new h w pr qr pn qn cr cn i j = (ifftOrtho ⟨h, w, fun k l =>
      gainNew ref new (z.2 / z.1) k l * (fftOrtho (toC (starAt h w new.psf pn qn cn))).px k l +
        gainRef ref new (z.2 / z.1) 0 0 k l * (fftOrtho (toC (starAt h w ref.psf pr qr cr))).px k l⟩).px i j := by
    intro i j
    unfold movedTrace
    rw [diffOf_plus env it ref new h w z hmr hmn hz hc hr hn _ _ ⟨rfl, rfl⟩ ⟨rfl, rfl⟩, add_sub_cancel_left]
  simp only [e]
  rw [ifftOrtho_power, movedPower, diffInfo, Finset.mul_sum, Finset.mul_sum, ← Finset.sum_add_distrib]
  refine Finset.sum_congr rfl fun k hk => ?_
  rw [Finset.mul_sum, Finset.mul_sum, ← Finset.sum_add_distrib]
  refine Finset.sum_congr rfl fun l hl => ?_
  obtain ⟨_, _, r, hr1, hr2⟩ := subtract_norm_pos ref new (z.2 / z.1) k l hv
  rw [normHat_eq] at hr2
  have hr3 : normReal ref new (z.2 / z.1) k l = r := by exact_mod_cast hr2
  rw [gains_stars ref new h w z hr hn pr qr pn qn cr cn hpr hqr hpn hqn gr gn k l (mem_range.1 hk) (mem_range.1 hl),
    normSq_mul, normSq_div, normSq_mul, normSq_ofReal, Real.mul_self_sqrt (hr3 ▸ hr1.le), shiftPhase_exp, shiftPhase_exp,
    ← ofReal_mul, two_phases]
  have ang : (-(2 * moveAngle h w ((pn : ℝ) - (centerOfMass ref.psf).1, (qn : ℝ) - (centerOfMass ref.psf).2) k l) -
      -(2 * moveAngle h w ((pr : ℝ) - (centerOfMass new.psf).1, (qr : ℝ) - (centerOfMass new.psf).2) k l)) / 2 =
      -moveAngle h w (displacement ref new pr qr pn qn) k l := by
    unfold moveAngle displacement
    simp only
    ring
  rw [ang, Real.sin_neg, neg_sq]
  unfold infoAt
  ring

/-- C180: when the star leaves no trace: its flux keeps the ratio of the zero points, and (unless it is dark) it did not move, or
moved around the frame, along every axis of more than one pixel. -/
theorem moved_star_invisible :
    (∀ i < h, ∀ j < w, movedTrace env it ref new h w pr qr pn qn cr cn i j = 0) ↔
      cn = z.2 / z.1 * cr ∧ (cn = 0 ∨
        ((h = 1 ∨ ∃ m : ℤ, (displacement ref new pr qr pn qn).1 = m * h) ∧
         (w = 1 ∨ ∃ m : ℤ, (displacement ref new pr qr pn qn).2 = m * w))) := by
  have pw := moved_star_power env it ref new h w z hmr hmn hz hc hr hn pr qr pn qn cr cn hpr hqr hpn hqn gr gn hv
  have z0 : (∀ i < h, ∀ j < w, movedTrace env it ref new h w pr qr pn qn cr cn i j = 0) ↔
      movedPower ref new (z.2 / z.1) h w cr cn (displacement ref new pr qr pn qn) = 0 := by
    rw [← pw]
    constructor
    · intro H
      refine Finset.sum_eq_zero fun i hi => Finset.sum_eq_zero fun j hj => ?_
      rw [H i (mem_range.1 hi) j (mem_range.1 hj), normSq_zero]
    · intro H i hi j hj
      have a := (Finset.sum_eq_zero_iff_of_nonneg fun i _ => Finset.sum_nonneg fun j _ => normSq_nonneg _).1 H i (mem_range.2 hi)
      have b := (Finset.sum_eq_zero_iff_of_nonneg fun j _ => normSq_nonneg _).1 a j (mem_range.2 hj)
      exact normSq_eq_zero.1 b
  have info := infoAt_pos ref new z hv
  generalize displacement ref new pr qr pn qn = δ at z0 ⊢
  rw [z0]
  generalize z.2 / z.1 = b at *
  -- the power, coefficient by coefficient
  have split : movedPower ref new b h w cr cn δ = ∑ k ∈ range h, ∑ l ∈ range w, infoAt ref new b k l *
      ((cn - b * cr) ^ 2 + 4 * (cn * (b * cr)) * Real.sin (moveAngle h w δ k l) ^ 2) := by
    unfold movedPower diffInfo infoAt
    rw [Finset.mul_sum, Finset.mul_sum, ← Finset.sum_add_distrib]
    refine Finset.sum_congr rfl fun k _ => ?_
    rw [Finset.mul_sum, Finset.mul_sum, ← Finset.sum_add_distrib]
    exact Finset.sum_congr rfl fun l _ => by ring
  have nn : ∀ k l, 0 ≤ infoAt ref new b k l *
      ((cn - b * cr) ^ 2 + 4 * (cn * (b * cr)) * Real.sin (moveAngle h w δ k l) ^ 2) := by
    intro k l
    refine mul_nonneg (info k l).le ?_
    have s1 := Real.sin_sq_le_one (moveAngle h w δ k l)
    have s0 := sq_nonneg (Real.sin (moveAngle h w δ k l))
    nlinarith [sq_nonneg (cn - b * cr), sq_nonneg (cn + b * cr), mul_nonneg s0 (sq_nonneg (cn + b * cr)),
      mul_nonneg (sub_nonneg.2 s1) (sq_nonneg (cn - b * cr))]
  have each : movedPower ref new b h w cr cn δ = 0 ↔ ∀ k < h, ∀ l < w,
      (cn - b * cr) ^ 2 + 4 * (cn * (b * cr)) * Real.sin (moveAngle h w δ k l) ^ 2 = 0 := by
    rw [split, Finset.sum_eq_zero_iff_of_nonneg fun k _ => Finset.sum_nonneg fun l _ => nn k l]
    constructor
    · intro H k hk l hl
      have := (Finset.sum_eq_zero_iff_of_nonneg fun l _ => nn k l).1 (H k (mem_range.2 hk)) l (mem_range.2 hl)
      exact (mul_eq_zero.1 this).resolve_left (info k l).ne'
    · intro H k hk
      refine Finset.sum_eq_zero fun l hl => ?_
      rw [H k (mem_range.1 hk) l (mem_range.1 hl), mul_zero]
  rw [each]
  have h0 : 0 < h := by omega
  have w0 : 0 < w := by omega
  have f0 : ∀ n : ℕ, 0 < n → sfreq n 0 = 0 := by
    intro n hn
    unfold sfreq
    rw [if_pos (by omega), Nat.cast_zero]
  have f1 : ∀ n : ℕ, 1 < n → sfreq n 1 = 1 ∨ sfreq n 1 = -1 := by
    intro n hn
    unfold sfreq
    split
    · exact .inl rfl
    · have : n = 2 := by omega
      subst this
      exact .inr (by norm_num)
  have axis : ∀ (n : ℕ) (t : ℝ), 0 < n → ((∀ k < n, Real.sin (Real.pi * (sfreq n k * t / n)) = 0) ↔
      (n = 1 ∨ ∃ m : ℤ, t = m * n)) := by
    intro n t hn
    have hn' : (n : ℝ) ≠ 0 := by positivity
    constructor
    · intro H
      by_cases h1 : n = 1
      · exact .inl h1
      · right
        obtain ⟨m, hm⟩ := Real.sin_eq_zero_iff.1 (H 1 (by omega))
        have hm' : (m : ℝ) = sfreq n 1 * t / n := by
          have := Real.pi_ne_zero
          apply mul_left_cancel₀ this
          rw [mul_comm, hm]
        rcases f1 n (by omega) with f | f
        · exact ⟨m, by rw [f, Int.cast_one, one_mul] at hm'; field_simp at hm'; linarith⟩
        · exact ⟨-m, by rw [f] at hm'; push_cast at hm' ⊢; field_simp at hm'; linarith⟩
    · rintro (h1 | ⟨m, hm⟩) k hk
      · have : k = 0 := by omega
        subst this
        rw [f0 n hn]
        simp
      · rw [Real.sin_eq_zero_iff]
        refine ⟨sfreq n k * m, ?_⟩
        rw [hm]
        push_cast
        field_simp
  constructor
  · intro H
    have a := H 0 h0 0 w0
    have m0 : moveAngle h w δ 0 0 = 0 := by
      unfold moveAngle
      rw [f0 h h0, f0 w w0]
      simp
    rw [m0, Real.sin_zero] at a
    have e : cn = b * cr := by
      have : (cn - b * cr) ^ 2 = 0 := by linarith
      linarith [pow_eq_zero_iff (two_ne_zero) |>.1 this]
    refine ⟨e, ?_⟩
    by_cases c0 : cn = 0
    · exact .inl c0
    · right
      have s : ∀ k < h, ∀ l < w, Real.sin (moveAngle h w δ k l) = 0 := by
        intro k hk l hl
        have := H k hk l hl
        rw [← e, sub_self] at this
        have c2 : cn * cn ≠ 0 := mul_ne_zero c0 c0
        have : Real.sin (moveAngle h w δ k l) ^ 2 = 0 := by
          have : 4 * (cn * cn) * Real.sin (moveAngle h w δ k l) ^ 2 = 0 := by linarith
          exact (mul_eq_zero.1 this).resolve_left (by simpa using c0)
        exact pow_eq_zero_iff (two_ne_zero) |>.1 this
      refine ⟨(axis h δ.1 h0).1 fun k hk => ?_, (axis w δ.2 w0).1 fun l hl => ?_⟩
      · have := s k hk 0 w0
        unfold moveAngle at this
        rw [f0 w w0] at this
        simpa using this
      · have := s 0 h0 l hl
        unfold moveAngle at this
        rw [f0 h h0] at this
        simpa using this
  · rintro ⟨e, c⟩ k hk l hl
    rw [← e, sub_self]
    rcases c with c | ⟨c1, c2⟩
    · rw [c]; ring
    · have s1 := (axis h δ.1 h0).2 c1 k hk
      have s2 := (axis w δ.2 w0).2 c2 l hl
      have : Real.sin (moveAngle h w δ k l) = 0 := by
        unfold moveAngle
        rw [mul_add, Real.sin_add, s1, s2]
        ring
      rw [this]
      ring

omit hv in
/-- C180: the trace of a star that kept its brightness sums to zero; otherwise the sum is proportional to the change of flux. -/
theorem moved_star_total :
    ∑ i ∈ range h, ∑ j ∈ range w, movedTrace env it ref new h w pr qr pn qn cr cn i j =
      (Real.sqrt ((h * w : ℕ) : ℝ) : ℂ) * (ref.psfHat.px 0 0 * new.psfHat.px 0 0 /
        (Real.sqrt (normReal ref new (z.2 / z.1) 0 0) : ℂ)) * ((cn - z.2 / z.1 * cr : ℝ) : ℂ) := by
  have h0 : h ≠ 0 := by omega
  have w0 : w ≠ 0 := by omega
  let Y : Img ℂ := ⟨h, w, fun k l =>
      gainNew ref new (z.2 / z.1) k l * (fftOrtho (toC (starAt h w new.psf pn qn cn))).px k l +
        gainRef ref new (z.2 / z.1) 0 0 k l * (fftOrtho (toC (starAt h w ref.psf pr qr cr))).px k l⟩
  have e : ∀ i j, movedTrace env it ref new h w pr qr pn qn cr cn i j =
      (idftSum Y).px i j / (Real.sqrt ((h * w : ℕ) : ℝ) : ℂ) := by
    intro i j
    unfold movedTrace
    rw [diffOf_plus env it ref new h w z hmr hmn hz hc hr hn _ _ ⟨rfl, rfl⟩ ⟨rfl, rfl⟩, add_sub_cancel_left]
    rfl
  simp only [e, ← Finset.sum_div]
  have s : ∑ i ∈ range h, ∑ j ∈ range w, (idftSum Y).px i j = _ := sum_idftSum Y h0 w0
  have hq0 : (Real.sqrt ((h * w : ℕ) : ℝ) : ℂ) ≠ 0 := by
    have : 0 < Real.sqrt ((h * w : ℕ) : ℝ) := Real.sqrt_pos.2 (by positivity)
    exact_mod_cast this.ne'
  have f0 : ∀ n : ℕ, n ≠ 0 → sfreq n 0 = 0 := by
    intro n hn
    unfold sfreq
    rw [if_pos (by omega), Nat.cast_zero]
  have ph : ∀ d : ℝ × ℝ, shiftPhase h w d 0 0 = 1 := by
    intro d
    simp [shiftPhase, f0 h h0, f0 w w0, tw_zero]
  have y0 : Y.px 0 0 = ref.psfHat.px 0 0 * new.psfHat.px 0 0 / (Real.sqrt (normReal ref new (z.2 / z.1) 0 0) : ℂ) *
      ((cn - z.2 / z.1 * cr : ℝ) : ℂ) := by
    change gainNew ref new (z.2 / z.1) 0 0 * (fftOrtho (toC (starAt h w new.psf pn qn cn))).px 0 0 +
        gainRef ref new (z.2 / z.1) 0 0 0 0 * (fftOrtho (toC (starAt h w ref.psf pr qr cr))).px 0 0 = _
    rw [gains_stars ref new h w z hr hn pr qr pn qn cr cn hpr hqr hpn hqn gr gn 0 0 (by omega) (by omega), ph, ph]
    push_cast
    ring
  rw [s, y0]
  change _ * ((h : ℂ) * (w : ℂ)) / _ = _
  rw [show ((h : ℂ) * (w : ℂ)) = ((h * w : ℕ) : ℂ) by push_cast; rfl, ← sqrt_mul_self_cast]
  field_simp

omit hmr hmn hz hc hr hn hpr hqr hpn hqn gr gn in
/-- C180: a motion by a fraction of a pixel. -/
theorem moved_star_small (hh : h ≠ 0) (hw : w ≠ 0) (hs : 0 ≤ cn * (z.2 / z.1 * cr)) (δ : ℝ × ℝ) :
    movedPower ref new (z.2 / z.1) h w cr cn δ ≤
      ((cn - z.2 / z.1 * cr) ^ 2 + cn * (z.2 / z.1 * cr) * (Real.pi * (|δ.1| + |δ.2|)) ^ 2) *
        diffInfo ref new (z.2 / z.1) h w := by
  have info := infoAt_pos ref new z hv
  have fb : ∀ n k : ℕ, n ≠ 0 → k < n → |(sfreq n k : ℝ)| ≤ n / 2 := by
    intro n k hn hk
    have : 2 * |sfreq n k| ≤ n := by
      unfold sfreq
      split
      · rw [abs_of_nonneg (by omega)]; omega
      · rw [abs_of_nonpos (by omega)]; omega
    have : (2 : ℝ) * |(sfreq n k : ℝ)| ≤ n := by exact_mod_cast this
    linarith
  have ax : ∀ (n k : ℕ) (t : ℝ), n ≠ 0 → k < n → |(sfreq n k : ℝ) * t / n| ≤ |t| / 2 := by
    intro n k t hn hk
    have hn' : (0 : ℝ) < n := by positivity
    rw [abs_div, abs_mul, abs_of_pos hn', div_le_iff₀ hn']
    have := mul_le_mul_of_nonneg_right (fb n k hn hk) (abs_nonneg t)
    linarith
  have sb : ∀ k < h, ∀ l < w, Real.sin (moveAngle h w δ k l) ^ 2 ≤ (Real.pi * (|δ.1| + |δ.2|)) ^ 2 / 4 := by
    intro k hk l hl
    have a : |moveAngle h w δ k l| ≤ Real.pi * (|δ.1| + |δ.2|) / 2 := by
      unfold moveAngle
      rw [abs_mul, abs_of_pos Real.pi_pos]
      have := abs_add_le ((sfreq h k : ℝ) * δ.1 / h) ((sfreq w l : ℝ) * δ.2 / w)
      have b1 := ax h k δ.1 hh hk
      have b2 := ax w l δ.2 hw hl
      have := mul_le_mul_of_nonneg_left (this.trans (add_le_add b1 b2)) Real.pi_pos.le
      linarith
    have c := Real.abs_sin_le_abs (x := moveAngle h w δ k l)
    have d := pow_le_pow_left₀ (abs_nonneg _) (c.trans a) 2
    rw [sq_abs] at d
    linarith
  have key : ∑ k ∈ range h, ∑ l ∈ range w, infoAt ref new (z.2 / z.1) k l * Real.sin (moveAngle h w δ k l) ^ 2 ≤
      diffInfo ref new (z.2 / z.1) h w * ((Real.pi * (|δ.1| + |δ.2|)) ^ 2 / 4) := by
    unfold diffInfo
    rw [Finset.sum_mul]
    refine Finset.sum_le_sum fun k hk => ?_
    rw [Finset.sum_mul]
    exact Finset.sum_le_sum fun l hl =>
      mul_le_mul_of_nonneg_left (sb k (mem_range.1 hk) l (mem_range.1 hl)) (info k l).le
  unfold movedPower
  have := mul_le_mul_of_nonneg_left key (mul_nonneg (by norm_num : (0 : ℝ) ≤ 4) hs)
  linarith

variable (h1 : AxisOK h (centerOfMass ref.psf).1) (h2 : AxisOK w (centerOfMass ref.psf).2)
    (h3 : AxisOK h (centerOfMass new.psf).1) (h4 : AxisOK w (centerOfMass new.psf).2)
    {Ω : Type*} [MeasurableSpace Ω] {P : Measure Ω}
    {X : Bool × Fin h × Fin w → Ω → ℝ} (hX : GaussErrors P X (pairNoise ref new))
include h1 h2 h3 h4 hX

/-- C180: with Gaussian noise on an otherwise unchanged sky, the sum of D against the trace is Gaussian with the power of the
trace as mean and as variance. -/
theorem moved_star_gaussian
    (h0 : ∀ i < h, ∀ j < w, (diffOf env ⟨false, false, it⟩ ref new ref.interped new.interped).px i j = 0) :
    HasLaw (fun ω => ∑ p : Fin h × Fin w, (movedTrace env it ref new h w pr qr pn qn cr cn p.1 p.2).re *
        ((noisyDiff env it (ref.withPixels (plusImg ref.interped (starAt h w ref.psf pr qr cr)))
          (new.withPixels (plusImg new.interped (starAt h w new.psf pn qn cn))) h w fun q => X q ω).px p.1 p.2).re)
      (gaussianReal (movedPower ref new (z.2 / z.1) h w cr cn (displacement ref new pr qr pn qn))
        (movedPower ref new (z.2 / z.1) h w cr cn (displacement ref new pr qr pn qn)).toNNReal) P := by
  have pw := moved_star_power env it ref new h w z hmr hmn hz hc hr hn pr qr pn qn cr cn hpr hqr hpn hqn gr gn hv
  have L := weighted_gaussian env it (ref.withPixels (plusImg ref.interped (starAt h w ref.psf pr qr cr)))
    (new.withPixels (plusImg new.interped (starAt h w new.psf pn qn cn))) h w z hmr hmn hz hc hr hn h1 h2 h3 h4 hv (X := X) hX
    (fun p => (movedTrace env it ref new h w pr qr pn qn cr cn p.1 p.2).re)
  have im : ∀ i j, (movedTrace env it ref new h w pr qr pn qn cr cn i j).im = 0 := by
    intro i j
    unfold movedTrace
    rw [sub_im, diffOf_im env it ref new h w z hmr hmn hz hc h1 h2 h3 h4 (plusImg ref.interped (starAt h w ref.psf pr qr cr))
      (plusImg new.interped (starAt h w new.psf pn qn cn)) hr hn,
      diffOf_im env it ref new h w z hmr hmn hz hc h1 h2 h3 h4 ref.interped new.interped hr hn, sub_zero]
  have sq' : ∀ p : Fin h × Fin w, (movedTrace env it ref new h w pr qr pn qn cr cn p.1 p.2).re ^ 2 =
      normSq (movedTrace env it ref new h w pr qr pn qn cr cn p.1 p.2) := by
    intro p
    rw [normSq_apply, im]
    ring
  have v : ∑ p : Fin h × Fin w, (movedTrace env it ref new h w pr qr pn qn cr cn p.1 p.2).re ^ 2 =
      movedPower ref new (z.2 / z.1) h w cr cn (displacement ref new pr qr pn qn) := by
    rw [← pw, sum_pixels]
    exact Finset.sum_congr rfl fun p _ => sq' p
  have m : ∑ p : Fin h × Fin w, (movedTrace env it ref new h w pr qr pn qn cr cn p.1 p.2).re *
      ((diffOf env ⟨false, false, it⟩ (ref.withPixels (plusImg ref.interped (starAt h w ref.psf pr qr cr)))
        (new.withPixels (plusImg new.interped (starAt h w new.psf pn qn cn)))
        (ref.withPixels (plusImg ref.interped (starAt h w ref.psf pr qr cr))).interped
        (new.withPixels (plusImg new.interped (starAt h w new.psf pn qn cn))).interped).px p.1 p.2).re =
      movedPower ref new (z.2 / z.1) h w cr cn (displacement ref new pr qr pn qn) := by
    rw [← v]
    refine Finset.sum_congr rfl fun p _ => ?_
    rw [sq]
    congr 2
    unfold movedTrace
    rw [h0 p.1 p.1.2 p.2 p.2.2, sub_zero]
    rfl
  rw [m, v] at L
  exact L

end

/-! ## Worked instance -/

/-- A star that moved by one column of three is seen in D; had it moved by three, it would not be. -/
example : ¬ (∀ i < 1, ∀ j < 3, movedTrace (tinyEnv 1 3) true (seeingSub 5 7 0 1) (seeingSub 1 0 4 2) 1 3 0 1 0 2 1 3 i j = 0) ∧
    ∀ i < 1, ∀ j < 3, movedTrace (tinyEnv 1 3) true (seeingSub 5 7 0 1) (seeingSub 1 0 4 2) 1 3 0 1 0 1 1 3 i j = 0 := by
  have k := fun qn hq => moved_star_invisible (tinyEnv 1 3) true (seeingSub 5 7 0 1) (seeingSub 1 0 4 2) 1 3 (1, 3)
    (by intro a h; cases h) (by intro a h; cases h) rfl (Or.inl rfl) rfl rfl 0 1 0 qn 1 3 (by norm_num) (by norm_num)
    (by norm_num) hq seeing_idle seeing_idle (Or.inl (by norm_num [seeingSub]))
  have com : ∀ a b c s, centerOfMass (seeingSub a b c s).psf = (((0 : ℤ) : ℝ), ((1 : ℤ) : ℝ)) := fun _ _ _ _ => seeing_com
  refine ⟨?_, ?_⟩
  · rw [k 2 (by norm_num)]
    rintro ⟨-, h | ⟨-, h | ⟨m, h⟩⟩⟩
    · norm_num at h
    · norm_num at h
    · unfold displacement at h
      rw [com, com] at h
      have h' : (1 : ℝ) = m * 3 := by push_cast at h; linarith
      have : (1 : ℤ) = m * 3 := by exact_mod_cast h'
      omega
  · rw [k 1 (by norm_num)]
    refine ⟨by norm_num, Or.inr ⟨Or.inl rfl, Or.inr ⟨0, ?_⟩⟩⟩
    unfold displacement
    rw [com, com]
    simp

/-- The same sky seen twice, with noise 1 and 2: a star of flux 5 that moved by one column. -/
example : HasLaw (fun ω : Bool × Fin 1 × Fin 3 → ℝ => ∑ p : Fin 1 × Fin 3,
        (movedTrace (tinyEnv 1 1) true (seeingSub 5 7 4 1) (seeingSub 5 7 4 2) 1 3 0 1 0 2 5 5 p.1 p.2).re *
          ((noisyDiff (tinyEnv 1 1) true
            ((seeingSub 5 7 4 1).withPixels (plusImg (seeingSub 5 7 4 1).interped (starAt 1 3 seeingPsf 0 1 5)))
            ((seeingSub 5 7 4 2).withPixels (plusImg (seeingSub 5 7 4 2).interped (starAt 1 3 seeingPsf 0 2 5))) 1 3
              fun q => ω q).px p.1 p.2).re)
      (gaussianReal (movedPower (seeingSub 5 7 4 1) (seeingSub 5 7 4 2) (1 / 1) 1 3 5 5
          (displacement (seeingSub 5 7 4 1) (seeingSub 5 7 4 2) 0 1 0 2))
        (movedPower (seeingSub 5 7 4 1) (seeingSub 5 7 4 2) (1 / 1) 1 3 5 5
          (displacement (seeingSub 5 7 4 1) (seeingSub 5 7 4 2) 0 1 0 2)).toNNReal)
      (Measure.pi fun q : Bool × Fin 1 × Fin 3 =>
        gaussianReal 0 ((pairNoise (seeingSub 5 7 4 1) (seeingSub 5 7 4 2) q ^ 2).toNNReal)) := by
  have c1 : (centerOfMass seeingPsf).1 = ((0 : ℤ) : ℝ) := congrArg Prod.fst seeing_com
  have c2 : (centerOfMass seeingPsf).2 = ((1 : ℤ) : ℝ) := congrArg Prod.snd seeing_com
  refine moved_star_gaussian (tinyEnv 1 1) true (seeingSub 5 7 4 1) (seeingSub 5 7 4 2) 1 3 (1, 1)
    (by intro a h; cases h) (by intro a h; cases h) rfl (Or.inl rfl) rfl rfl 0 1 0 2 5 5 (by norm_num) (by norm_num)
    (by norm_num) (by norm_num) seeing_idle seeing_idle (Or.inl (by norm_num [seeingSub])) (Or.inr ⟨0, c1⟩) (Or.inr ⟨1, c2⟩)
    (Or.inr ⟨0, c1⟩) (Or.inr ⟨1, c2⟩) (gauss_errors_exist _) (fun i _ j _ => ?_)
  obtain ⟨out, e, k, _⟩ := subtract_self_zero (tinyEnv 1 1) true (seeingSub 5 7 4 1) (seeingSub 5 7 4 2) 1 3 rfl rfl rfl
    (by intro a h; cases h) (by intro a h; cases h) 1 (by norm_num) rfl (Or.inl rfl)
  unfold diffOf
  rw [show subtract (tinyEnv 1 1) ⟨false, false, true⟩ ((seeingSub 5 7 4 1).withPixels (seeingSub 5 7 4 1).interped)
    ((seeingSub 5 7 4 2).withPixels (seeingSub 5 7 4 2).interped) = .ok out from e]
  exact k i j

end PI
