import Verif.Props.Noise
import Verif.Props.SubtractScore

/-!
# Property C111: what the fits of `subtract` minimise

The specification is in terms of the difference image: `diffAt` is the real part of the D that
`subtract` returns if its fit ends with the given scale and shift.
-/

namespace PI
open Complex Finset

/-- Real part of the difference image for a scale and shift. -/
noncomputable def diffAt (ref new : SubImg) (b dx dy : ℝ) (i j : ℕ) : ℝ :=
  ((ifftOrtho (dHat ref new b dx dy)).px i j).re

/-- The noise of the difference for a scale. -/
noncomputable def diffSigma (ref new : SubImg) (b : ℝ) : ℝ := Real.sqrt (new.var ^ 2 + b ^ 2 * ref.var ^ 2)

theorem shiftPhase_no_shift (h w k l : ℕ) : shiftPhase h w (0, 0) k l = 1 := by
  unfold shiftPhase
  rw [mul_zero, mul_zero, tw_zero, tw_zero, mul_one]

theorem dHat_px (ref new : SubImg) (hh : new.h = ref.h) (hw : new.w = ref.w) (b dx dy : ℝ) :
    dHat ref new b dx dy = ⟨ref.h, ref.w, fun k l =>
      (dHatN ref new).px k l / csqrt (normHat ref new b k l) +
        (-b : ℂ) * ((dHatR ref new).px k l / csqrt (normHat ref new b k l) *
          shiftPhase ref.h ref.w (dx, dy) k l)⟩ := by
  have hpx : (dHat ref new b dx dy).px = fun k l =>
      (dHatN ref new).px k l / csqrt (normHat ref new b k l) +
        (-b : ℂ) * ((dHatR ref new).px k l / csqrt (normHat ref new b k l) *
          shiftPhase ref.h ref.w (dx, dy) k l) := by
    funext k l
    by_cases hd : dx = 0 ∧ dy = 0
    · unfold dHat
      rw [if_pos hd, hd.1, hd.2, shiftPhase_no_shift]
      change ((dHatN ref new).px k l - b * (dHatR ref new).px k l) / _ = _
      ring
    · unfold dHat
      rw [if_neg hd]
      change ((dHatN ref new).px k l - b * (dHatR ref new).px k l *
        shiftPhase new.h new.w (dx, dy) k l) / _ = _
      rw [hh, hw]
      ring
  rw [← hpx]
  rfl

theorem ifft_dHat (ref new : SubImg) (hh : new.h = ref.h) (hw : new.w = ref.w) (b dx dy : ℝ) (i j : ℕ) :
    (ifftOrtho (dHat ref new b dx dy)).px i j =
      (ifftOrtho ⟨ref.h, ref.w, fun k l => (dHatN ref new).px k l / csqrt (normHat ref new b k l)⟩).px i j -
      b * (ifftOrtho ⟨ref.h, ref.w, fun k l => (dHatR ref new).px k l / csqrt (normHat ref new b k l) *
          shiftPhase ref.h ref.w (dx, dy) k l⟩).px i j := by
  rw [dHat_px ref new hh hw, ifftOrtho_add, ifftOrtho_smul]
  ring

/-- C111: the cost of the fits of the scale alone is the sum of `|D - gamma / sigma|` over the unmasked
pixels, where D is the difference image that would be returned for this scale, gamma the difference of
the backgrounds and sigma² = new.var² + b² ref.var². -/
theorem scale_cost_is_difference (gamma : Img ℝ) (mask : NMask) (ref new : SubImg) (hh : new.h = ref.h)
    (hw : new.w = ref.w) (b : ℝ) :
    scaleCost gamma mask ref new b = ∑ i ∈ range ref.h, ∑ j ∈ range ref.w,
      if mask.marks i j then 0 else |diffAt ref new b 0 0 i j - gamma.px i j / diffSigma ref new b| := by
  unfold scaleCost
  refine Finset.sum_congr rfl fun i _ => Finset.sum_congr rfl fun j _ => ?_
  split
  · rfl
  · unfold diffAt
    rw [ifft_dHat ref new hh hw]
    simp only [shiftPhase_no_shift, mul_one]
    change |(_ - ((gamma.px i j / diffSigma ref new b : ℝ) : ℂ) - _).re| = _
    rw [Complex.sub_re, Complex.sub_re, Complex.sub_re, Complex.ofReal_re]
    congr 1
    ring

/-- C111: the residual of the shift fits is D for this scale and shift minus the rolled background term. -/
theorem shift_residual_is_difference (gamma : Img ℝ) (ref new : SubImg) (hh : new.h = ref.h)
    (hw : new.w = ref.w) (b dx dy : ℝ) (i j : ℕ) :
    (shiftResidual gamma ref new b dx dy).px i j = diffAt ref new b dx dy i j -
      (rollFlat (gamma.map fun g => g / diffSigma ref new b) (roundReal dx) (roundReal dy)).px i j := by
  unfold diffAt
  rw [ifft_dHat ref new hh hw]
  change ((ifftOrtho ⟨ref.h, ref.w, fun k l => (dHatN ref new).px k l / csqrt (normHat ref new b k l)⟩).px i j -
    (ifftOrtho ⟨ref.h, ref.w, fun k l => (dHatR ref new).px k l / csqrt (normHat ref new b k l) *
          shiftPhase ref.h ref.w (dx, dy) k l⟩).px i j * b -
    (((rollFlat (gamma.map fun g => g / diffSigma ref new b) (roundReal dx) (roundReal dy)).px i j : ℝ) : ℂ)).re = _
  rw [Complex.sub_re, Complex.sub_re, Complex.sub_re, Complex.ofReal_re, mul_comm _ (b : ℂ)]

/-- C111: so the three functions that are minimised by least squares are: for the scale alone the same sum; for shifts, with
or without the scale, the mean over the pixels at least 100 away from the borders, the masked ones counting as zero, of the
distance between D for that scale and shift and the rolled background term. -/
theorem fit_costs (gamma : Img ℝ) (mask : NMask) (ref new : SubImg) (hh : new.h = ref.h) (hw : new.w = ref.w)
    (b dx dy : ℝ) (c : ℝ)
    (hc : c = (∑ i ∈ Ico 100 (ref.h - 100), ∑ j ∈ Ico 100 (ref.w - 100), if mask.marks i j then 0 else
      |diffAt ref new b dx dy i j -
        (rollFlat (gamma.map fun g => g / diffSigma ref new b) (roundReal dx) (roundReal dy)).px i j|) /
          (((ref.h - 200) * (ref.w - 200) : ℕ) : ℝ)) :
    costScale gamma mask ref new [b] = (∑ i ∈ range ref.h, ∑ j ∈ range ref.w,
      if mask.marks i j then 0 else |diffAt ref new b 0 0 i j - gamma.px i j / diffSigma ref new b|) ∧
    costShift gamma mask ref new b [dx, dy] = c ∧ costScaleShift gamma mask ref new [b, dx, dy] = c := by
  have key : borderCost mask (shiftResidual gamma ref new b dx dy) = c := by
    rw [hc]
    unfold borderCost
    change (∑ i ∈ Ico 100 (ref.h - 100), ∑ j ∈ Ico 100 (ref.w - 100), if mask.marks i j then (0 : ℝ) else
      |(shiftResidual gamma ref new b dx dy).px i j / (((ref.h - 100 - 100) * (ref.w - 100 - 100) : ℕ) : ℝ)|) = _
    rw [Nat.sub_sub, Nat.sub_sub, Finset.sum_div]
    refine Finset.sum_congr rfl fun i _ => ?_
    rw [Finset.sum_div]
    refine Finset.sum_congr rfl fun j _ => ?_
    split
    · rw [zero_div]
    · rw [abs_div, Nat.abs_cast, shift_residual_is_difference gamma ref new hh hw]
  exact ⟨scale_cost_is_difference gamma mask ref new hh hw b, key, key⟩

/-! ## A uniform sky -/

/-- The image with a constant added to every pixel; PSF and noise are the same. -/
def SubImg.lifted (d : SubImg) (s : ℝ) : SubImg :=
  { d with interped := ⟨d.interped.h, d.interped.w, fun i j => d.interped.px i j + s⟩ }

/-- A filter passes a constant with its gain at frequency zero. -/
theorem sum_impulseResp (h w : ℕ) (h0 : h ≠ 0) (w0 : w ≠ 0) (A : ℕ → ℕ → ℂ) (i j : ℕ) :
    ∑ x ∈ range h, ∑ y ∈ range w, impulseResp h w A i j x y = A 0 0 := by
  have hz : ∀ n : ℕ, n ≠ 0 → ∀ k < n, ∑ x ∈ range n, tw n ((k : ℝ) * x) = if k = 0 then (n : ℂ) else 0 := by
    intro n hn k hk
    have := sum_tw n hn (k : ℤ)
    simp only [Int.cast_natCast, mul_comm _ (k : ℝ)] at this
    rw [this]
    have : ((n : ℤ) ∣ (k : ℤ)) ↔ k = 0 := by
      rw [Int.natCast_dvd_natCast]
      exact ⟨fun hd => Nat.eq_zero_of_dvd_of_lt hd hk, fun e => e ▸ dvd_zero _⟩
    simp only [this]
  have f := filter_eq (⟨h, w, fun _ _ => 1⟩ : Img ℂ) A i j
  simp only [one_mul] at f
  rw [← f]
  have e : ∀ k ∈ range h, ∀ l ∈ range w, A k l * (fftOrtho (⟨h, w, fun _ _ => 1⟩ : Img ℂ)).px k l =
      if k = 0 ∧ l = 0 then A 0 0 * (Real.sqrt ((h * w : ℕ) : ℝ) : ℂ) else 0 := by
    intro k hk l hl
    have : (fftOrtho (⟨h, w, fun _ _ => 1⟩ : Img ℂ)).px k l =
        (∑ x ∈ range h, tw h ((k : ℝ) * x)) * (∑ y ∈ range w, tw w ((l : ℝ) * y)) /
          (Real.sqrt ((h * w : ℕ) : ℝ) : ℂ) := by
      change (∑ x ∈ range h, ∑ y ∈ range w, (1 : ℂ) * (tw h ((k : ℝ) * x) * tw w ((l : ℝ) * y))) / _ = _
      rw [Finset.sum_mul_sum]
      simp only [one_mul]
    rw [this, hz h h0 k (mem_range.1 hk), hz w w0 l (mem_range.1 hl)]
    by_cases hk0 : k = 0
    · by_cases hl0 : l = 0
      · have hq : (Real.sqrt ((h * w : ℕ) : ℝ) : ℂ) ≠ 0 := by
          have : (0 : ℝ) < ((h * w : ℕ) : ℝ) := by exact_mod_cast Nat.mul_pos (Nat.pos_of_ne_zero h0) (Nat.pos_of_ne_zero w0)
          exact_mod_cast (Real.sqrt_pos.2 this).ne'
        rw [if_pos hk0, if_pos hl0, if_pos ⟨hk0, hl0⟩, hk0, hl0]
        congr 1
        rw [div_eq_iff hq, sqrt_mul_self_cast]
        push_cast
        ring
      · have hc : ¬ (k = 0 ∧ l = 0) := fun hc => hl0 hc.2
        rw [if_neg hc, if_neg hl0]
        simp
    · have hc : ¬ (k = 0 ∧ l = 0) := fun hc => hk0 hc.1
      rw [if_neg hc, if_neg hk0]
      simp
  have hq : (Real.sqrt ((h * w : ℕ) : ℝ) : ℂ) ≠ 0 := by
    have : (0 : ℝ) < ((h * w : ℕ) : ℝ) := by exact_mod_cast Nat.mul_pos (Nat.pos_of_ne_zero h0) (Nat.pos_of_ne_zero w0)
    exact_mod_cast (Real.sqrt_pos.2 this).ne'
  change (∑ k ∈ range h, ∑ l ∈ range w, A k l * (fftOrtho (⟨h, w, fun _ _ => 1⟩ : Img ℂ)).px k l *
    (tw h (-((k : ℝ) * i)) * tw w (-((l : ℝ) * j)))) / (Real.sqrt ((h * w : ℕ) : ℝ) : ℂ) = _
  rw [div_eq_iff hq, Finset.sum_eq_single 0, Finset.sum_eq_single 0]
  · rw [e 0 (mem_range.2 (Nat.pos_of_ne_zero h0)) 0 (mem_range.2 (Nat.pos_of_ne_zero w0)), if_pos ⟨rfl, rfl⟩]
    simp [tw_zero]
  · intro l hl hl0
    rw [e 0 (mem_range.2 (Nat.pos_of_ne_zero h0)) l hl, if_neg (fun hc => hl0 hc.2), zero_mul]
  · intro hn
    exact absurd (mem_range.2 (Nat.pos_of_ne_zero w0)) hn
  · intro k hk hk0
    refine Finset.sum_eq_zero fun l hl => ?_
    rw [e k hk l hl, if_neg (fun hc => hk0 hc.1), zero_mul]
  · intro hn
    exact absurd (mem_range.2 (Nat.pos_of_ne_zero h0)) hn

section
variable (ref new : SubImg) (hh : new.h = ref.h) (hw : new.w = ref.w) (h0 : ref.h ≠ 0) (w0 : ref.w ≠ 0)
  (fr : ref.psf.h ≤ ref.h ∧ ref.psf.w ≤ ref.w) (fn : new.psf.h ≤ ref.h ∧ new.psf.w ≤ ref.w)
  (sr : rsum ref.psf = 1) (sn : rsum new.psf = 1)
include hh hw h0 w0 fr fn sr sn

theorem gains_at_zero (b dx dy : ℝ) (hv : new.var ≠ 0 ∨ (ref.var ≠ 0 ∧ b ≠ 0)) :
    gainNew ref new b 0 0 = ((1 / diffSigma ref new b : ℝ) : ℂ) ∧
      gainRef ref new b dx dy 0 0 = ((-b / diffSigma ref new b : ℝ) : ℂ) := by
  have hp : 0 < ref.h * ref.w := Nat.mul_pos (Nat.pos_of_ne_zero h0) (Nat.pos_of_ne_zero w0)
  have hp' : (0 : ℝ) < ((ref.h * ref.w : ℕ) : ℝ) := by exact_mod_cast hp
  have zr := psfHat_zero ref fr.1 fr.2 hp (by rw [sr]; exact one_ne_zero)
  have zn := psfHat_zero new (by rw [hh]; exact fn.1) (by rw [hw]; exact fn.2) (by rw [hh, hw]; exact hp)
    (by rw [sn]; exact one_ne_zero)
  rw [hh, hw] at zn
  have ph : ∀ (h w : ℕ), h ≠ 0 → w ≠ 0 → ∀ c : ℝ × ℝ, shiftPhase h w c 0 0 = 1 := by
    intro h w h0 w0 c
    unfold shiftPhase sfreq
    rw [if_pos (by omega), if_pos (by omega)]
    simp [tw_zero]
  have cr : centredPsf ref 0 0 = ((1 / Real.sqrt ((ref.h * ref.w : ℕ) : ℝ) : ℝ) : ℂ) := by
    unfold centredPsf
    rw [zr, ph _ _ h0 w0, mul_one, sr]
  have cn : centredPsf new 0 0 = ((1 / Real.sqrt ((ref.h * ref.w : ℕ) : ℝ) : ℝ) : ℂ) := by
    unfold centredPsf
    rw [zn, ph _ _ (by rw [hh]; exact h0) (by rw [hw]; exact w0), mul_one, sn]
  have hn : normReal ref new b 0 0 = (new.var ^ 2 + b ^ 2 * ref.var ^ 2) / ((ref.h * ref.w : ℕ) : ℝ) := by
    unfold normReal
    rw [zr, zn, sr, sn, normSq_ofReal, div_mul_div_comm, one_mul, Real.mul_self_sqrt hp'.le]
    ring
  have hs : (0 : ℝ) < new.var ^ 2 + b ^ 2 * ref.var ^ 2 := by
    rcases hv with hv | ⟨h1, h2⟩
    · positivity
    · positivity
  have hsq : Real.sqrt (normReal ref new b 0 0) = diffSigma ref new b / Real.sqrt ((ref.h * ref.w : ℕ) : ℝ) := by
    rw [hn, Real.sqrt_div hs.le]
    rfl
  have hd : diffSigma ref new b ≠ 0 := (Real.sqrt_pos.2 hs).ne'
  have hq := (Real.sqrt_pos.2 hp').ne'
  unfold gainNew gainRef
  rw [cr, cn, hsq, ph _ _ h0 w0]
  generalize Real.sqrt ((ref.h * ref.w : ℕ) : ℝ) = q at hq ⊢
  constructor
  · rw [← Complex.ofReal_div]
    congr 1
    field_simp
  · rw [mul_one, ← Complex.ofReal_mul, ← Complex.ofReal_neg, ← Complex.ofReal_div]
    congr 1
    field_simp

/-- C111: with PSFs of unit sum, a sky of `s` in the reference and `t` in the new image adds
`(t - b s) / sigma` to every pixel of D, for every scale and shift. -/
theorem sky_in_difference (b dx dy : ℝ) (hv : new.var ≠ 0 ∨ (ref.var ≠ 0 ∧ b ≠ 0)) (s t : ℝ) (i j : ℕ) :
    diffAt (ref.lifted s) (new.lifted t) b dx dy i j =
      diffAt ref new b dx dy i j + (t - b * s) / diffSigma ref new b := by
  obtain ⟨g1, g2⟩ := gains_at_zero ref new hh hw h0 w0 fr fn sr sn b dx dy hv
  have e : (ifftOrtho (dHat (ref.lifted s) (new.lifted t) b dx dy)).px i j =
      (ifftOrtho (dHat ref new b dx dy)).px i j + (((t - b * s) / diffSigma ref new b : ℝ) : ℂ) := by
    rw [dHat_filter ref new hh hw, dHat_filter (ref.lifted s) (new.lifted t) hh hw]
    change (∑ x ∈ range ref.h, ∑ y ∈ range ref.w, ((new.interped.px x y + t : ℝ) : ℂ) *
        impulseResp ref.h ref.w (gainNew ref new b) i j x y) +
      (∑ x ∈ range ref.h, ∑ y ∈ range ref.w, ((ref.interped.px x y + s : ℝ) : ℂ) *
        impulseResp ref.h ref.w (gainRef ref new b dx dy) i j x y) = _
    simp only [Complex.ofReal_add, add_mul, Finset.sum_add_distrib, ← Finset.mul_sum]
    rw [sum_impulseResp ref.h ref.w h0 w0, sum_impulseResp ref.h ref.w h0 w0, g1, g2]
    push_cast
    ring
  unfold diffAt
  rw [e, Complex.add_re, Complex.ofReal_re]

/-- C111, the defect: the background term of the fit is not scaled by `b`. A sky `s` in the reference,
recognised by the background estimate together with any sky `t` in the new image, adds `(1 - b) s / sigma`
to the residual: the fit is not blind to the sky unless `b = 1`. -/
theorem scale_cost_sees_sky (gamma : Img ℝ) (mask : NMask) (b : ℝ)
    (hv : new.var ≠ 0 ∨ (ref.var ≠ 0 ∧ b ≠ 0)) (s t : ℝ) :
    scaleCost (gamma.map fun g => g + (t - s)) mask (ref.lifted s) (new.lifted t) b =
      ∑ i ∈ range ref.h, ∑ j ∈ range ref.w, if mask.marks i j then 0 else
        |diffAt ref new b 0 0 i j - gamma.px i j / diffSigma ref new b + (1 - b) * s / diffSigma ref new b| := by
  rw [scale_cost_is_difference _ mask (ref.lifted s) (new.lifted t) hh hw]
  refine Finset.sum_congr rfl fun i _ => Finset.sum_congr rfl fun j _ => ?_
  rw [sky_in_difference ref new hh hw h0 w0 fr fn sr sn b 0 0 hv s t i j]
  change (if _ then _ else |_ - (gamma.px i j + (t - s)) / diffSigma ref new b|) = _
  split
  · rfl
  · congr 1
    ring

end

theorem diffAt_dark (ref new : SubImg) (hh : new.h = ref.h) (hw : new.w = ref.w)
    (hr : ∀ i < ref.h, ∀ j < ref.w, ref.interped.px i j = 0)
    (hn : ∀ i < ref.h, ∀ j < ref.w, new.interped.px i j = 0) (b dx dy : ℝ) (i j : ℕ) :
    diffAt ref new b dx dy i j = 0 := by
  unfold diffAt
  rw [dHat_filter ref new hh hw, Finset.sum_eq_zero, Finset.sum_eq_zero]
  · rw [add_zero]; rfl
  · intro x hx
    refine Finset.sum_eq_zero fun y hy => ?_
    rw [hr x (mem_range.1 hx) y (mem_range.1 hy), Complex.ofReal_zero, zero_mul]
  · intro x hx
    refine Finset.sum_eq_zero fun y hy => ?_
    rw [hn x (mem_range.1 hx) y (mem_range.1 hy), Complex.ofReal_zero, zero_mul]

/-- Number of unmasked pixels. -/
def goodPixels (mask : NMask) (h w : ℕ) : ℕ := ∑ i ∈ range h, ∑ j ∈ range w, if mask.marks i j then 0 else 1

/-- C111: for two images of pure sky, `s` and `t`, whose backgrounds are estimated exactly, the cost is
`|1 - b| |s| / sigma` for each unmasked pixel, whatever `t` is. -/
theorem scale_cost_pure_sky (mask : NMask) (ref new : SubImg) (hh : new.h = ref.h)
    (hw : new.w = ref.w) (h0 : ref.h ≠ 0) (w0 : ref.w ≠ 0)
    (fr : ref.psf.h ≤ ref.h ∧ ref.psf.w ≤ ref.w) (fn : new.psf.h ≤ ref.h ∧ new.psf.w ≤ ref.w)
    (sr : rsum ref.psf = 1) (sn : rsum new.psf = 1) (b : ℝ) (hv : new.var ≠ 0 ∨ (ref.var ≠ 0 ∧ b ≠ 0))
    (s t : ℝ) (hr : ∀ i < ref.h, ∀ j < ref.w, ref.interped.px i j = s)
    (hn : ∀ i < ref.h, ∀ j < ref.w, new.interped.px i j = t) (gamma : Img ℝ)
    (hg : ∀ i < ref.h, ∀ j < ref.w, gamma.px i j = t - s) :
    scaleCost gamma mask ref new b = goodPixels mask ref.h ref.w * (|1 - b| * |s| / diffSigma ref new b) := by
  have back : ∀ (d : SubImg) (u : ℝ), (d.lifted (-u)).lifted u = d := by
    rintro ⟨⟨h, w, px⟩, m, f, p, v⟩ u
    unfold SubImg.lifted
    simp only [neg_add_cancel_right]
  have dz : ∀ i j, diffAt (ref.lifted (-s)) (new.lifted (-t)) b 0 0 i j = 0 := by
    refine diffAt_dark (ref.lifted (-s)) (new.lifted (-t)) hh hw (fun i hi j hj => ?_) (fun i hi j hj => ?_) b 0 0
    · change ref.interped.px i j + -s = 0
      rw [hr i hi j hj, add_neg_cancel]
    · change new.interped.px i j + -t = 0
      rw [hn i hi j hj, add_neg_cancel]
  have key : ∀ i j, diffAt ref new b 0 0 i j = (t - b * s) / diffSigma ref new b := by
    intro i j
    have := sky_in_difference (ref.lifted (-s)) (new.lifted (-t)) hh hw h0 w0 fr fn sr sn b 0 0 hv s t i j
    rw [back ref s, back new t, dz, zero_add] at this
    exact this
  rw [scale_cost_is_difference gamma mask ref new hh hw]
  unfold goodPixels
  push_cast
  rw [Finset.sum_mul]
  refine Finset.sum_congr rfl fun i hi => ?_
  rw [Finset.sum_mul]
  refine Finset.sum_congr rfl fun j hj => ?_
  split
  · rw [zero_mul]
  · rw [one_mul, key, hg i (mem_range.1 hi) j (mem_range.1 hj), ← sub_div, abs_div, ← abs_mul,
      abs_of_nonneg (show 0 ≤ diffSigma ref new b from Real.sqrt_nonneg _)]
    congr 2
    ring

/-- The optimiser succeeds on `f` and finds a global minimum between the bounds. -/
def FindsMin (opt : Opt) (f : ℝ → ℝ) (lo hi : ℝ) : Prop :=
  (opt.scalar f lo hi).1 = true ∧ lo ≤ (opt.scalar f lo hi).2 ∧ (opt.scalar f lo hi).2 ≤ hi ∧
    ∀ x, lo ≤ x → x ≤ hi → f (opt.scalar f lo hi).2 ≤ f x

/-- C111: so for two images of pure sky a perfect optimiser ends at scale one, whatever the levels of
the two skies and the zero points are. -/
theorem perfect_fit_of_sky (opt : Opt) (mask : NMask) (ref new : SubImg)
    (hh : new.h = ref.h) (hw : new.w = ref.w) (h0 : ref.h ≠ 0) (w0 : ref.w ≠ 0)
    (fr : ref.psf.h ≤ ref.h ∧ ref.psf.w ≤ ref.w) (fn : new.psf.h ≤ ref.h ∧ new.psf.w ≤ ref.w)
    (sr : rsum ref.psf = 1) (sn : rsum new.psf = 1) (hv : new.var ≠ 0)
    (s t : ℝ) (hs : s ≠ 0) (hr : ∀ i < ref.h, ∀ j < ref.w, ref.interped.px i j = s)
    (hn : ∀ i < ref.h, ∀ j < ref.w, new.interped.px i j = t) (gamma : Img ℝ)
    (hg : ∀ i < ref.h, ∀ j < ref.w, gamma.px i j = t - s) (hm : 0 < goodPixels mask ref.h ref.w)
    (ho : FindsMin opt (scaleCost gamma mask ref new) (1 / 10) 10) (zr zn : ℝ) :
    scaleShift opt ⟨true, false, true⟩ gamma mask ref new zr zn = .ok (1, 0, 0) := by
  have cost : ∀ b, scaleCost gamma mask ref new b =
      goodPixels mask ref.h ref.w * (|1 - b| * |s| / diffSigma ref new b) := fun b =>
    scale_cost_pure_sky mask ref new hh hw h0 w0 fr fn sr sn b (Or.inl hv) s t hr hn gamma hg
  obtain ⟨h1, -, -, h4⟩ := ho
  have hx : (opt.scalar (scaleCost gamma mask ref new) (1 / 10) 10).2 = 1 := by
    have := h4 1 (by norm_num) (by norm_num)
    rw [cost, cost, sub_self, abs_zero, zero_mul, zero_div, mul_zero] at this
    generalize (opt.scalar (scaleCost gamma mask ref new) (1 / 10) 10).2 = b at this ⊢
    by_contra hb
    have hd : 0 < diffSigma ref new b := Real.sqrt_pos.2 (by positivity)
    have hs' : 0 < |s| := abs_pos.2 hs
    have hb' : 0 < |1 - b| := abs_pos.2 (sub_ne_zero.2 (Ne.symm hb))
    have hm' : (0 : ℝ) < goodPixels mask ref.h ref.w := by exact_mod_cast hm
    exact absurd this (not_le.2 (by positivity))
  unfold scaleShift
  simp only [if_true, Bool.false_eq_true, if_false]
  rw [h1, hx]
  rfl

/-- C111: if the new image is the reference times `B`, seen with the same PSF, then D is exactly zero for
the scale `B`; but the cost of the fit at `B` is the total of `|gamma| / sigma` over the unmasked pixels,
and the backgrounds of such images differ by `(B - 1)` times that of the reference. -/
theorem scale_cost_at_truth (gamma : Img ℝ) (mask : NMask) (ref new : SubImg) (hh : new.h = ref.h)
    (hw : new.w = ref.w) (B : ℝ) (hp : new.psf = ref.psf)
    (hB : ∀ i < ref.h, ∀ j < ref.w, new.interped.px i j = B * ref.interped.px i j) :
    (∀ i j, diffAt ref new B 0 0 i j = 0) ∧
      scaleCost gamma mask ref new B = ∑ i ∈ range ref.h, ∑ j ∈ range ref.w,
        if mask.marks i j then 0 else |gamma.px i j| / diffSigma ref new B := by
  have hps : ∀ k l, new.psfHat.px k l = ref.psfHat.px k l := by
    intro k l
    change guardHat ((fftOrtho (padTo new.h new.w (toC new.psf))).px k l) = _
    rw [hh, hw, hp]
    rfl
  have hcp : ∀ k l, centredPsf new k l = centredPsf ref k l := by
    intro k l
    unfold centredPsf
    rw [hps, hh, hw, hp]
  have hg : gainRef ref new B 0 0 = fun k l => (-B : ℂ) * gainNew ref new B k l := by
    funext k l
    unfold gainRef gainNew
    rw [shiftPhase_no_shift, hcp]
    ring
  have hz : ∀ i j, diffAt ref new B 0 0 i j = 0 := by
    intro i j
    unfold diffAt
    rw [dHat_filter ref new hh hw, ← Finset.sum_add_distrib, Finset.sum_eq_zero]
    · rfl
    · intro x hx
      rw [← Finset.sum_add_distrib]
      refine Finset.sum_eq_zero fun y hy => ?_
      have : impulseResp ref.h ref.w (gainRef ref new B 0 0) i j x y =
          (-B : ℂ) * impulseResp ref.h ref.w (gainNew ref new B) i j x y := by
        rw [hg]
        unfold impulseResp
        rw [← mul_div_assoc, Finset.mul_sum]
        congr 1
        refine Finset.sum_congr rfl fun k _ => ?_
        rw [Finset.mul_sum]
        exact Finset.sum_congr rfl fun l _ => by ring
      rw [this, hB x (mem_range.1 hx) y (mem_range.1 hy)]
      push_cast
      ring
  refine ⟨hz, ?_⟩
  rw [scale_cost_is_difference gamma mask ref new hh hw]
  refine Finset.sum_congr rfl fun i _ => Finset.sum_congr rfl fun j _ => ?_
  rw [hz, zero_sub, abs_neg, abs_div, abs_of_nonneg (show 0 ≤ diffSigma ref new B from Real.sqrt_nonneg _)]

/-- One pixel of sky with a one-pixel PSF. -/
def skyPixel (s : ℝ) : SubImg := ⟨⟨1, 1, fun _ _ => s⟩, none, ⟨1, 1, fun _ _ => s⟩, ⟨1, 1, fun _ _ => 1⟩, 1⟩

theorem skyPixel_unit (s : ℝ) : rsum (skyPixel s).psf = 1 := by simp [rsum, skyPixel]

/-- The hypotheses hold: a sky of 100 and one of 300 are matched with scale 1, although the second is three
times the first; a minimiser as assumed exists. -/
example : ∃ opt : Opt, scaleShift opt ⟨true, false, true⟩ ⟨1, 1, fun _ _ => 300 - 100⟩ none
    (skyPixel 100) (skyPixel 300) 1 3 = .ok (1, 0, 0) := by
  refine ⟨⟨fun _ x _ _ => (true, x), fun _ _ _ => (true, 1)⟩, ?_⟩
  refine perfect_fit_of_sky _ none (skyPixel 100) (skyPixel 300) rfl rfl one_ne_zero one_ne_zero
    ⟨le_refl 1, le_refl 1⟩ ⟨le_refl 1, le_refl 1⟩ (skyPixel_unit _) (skyPixel_unit _) one_ne_zero 100 300
    (by norm_num) (fun _ _ _ _ => rfl) (fun _ _ _ _ => rfl) _ (fun _ _ _ _ => rfl) (by decide)
    ⟨rfl, ?_, ?_, fun x _ _ => ?_⟩ 1 3
  · change (1 / 10 : ℝ) ≤ 1
    norm_num
  · change (1 : ℝ) ≤ 10
    norm_num
  · rw [scale_cost_pure_sky none (skyPixel 100) (skyPixel 300) rfl rfl one_ne_zero one_ne_zero
      ⟨le_refl 1, le_refl 1⟩ ⟨le_refl 1, le_refl 1⟩ (skyPixel_unit _) (skyPixel_unit _) _ (Or.inl one_ne_zero)
      100 300 (fun _ _ _ _ => rfl) (fun _ _ _ _ => rfl) _ (fun _ _ _ _ => rfl)]
    change _ * (|1 - (1 : ℝ)| * _ / _) ≤ _
    rw [sub_self, abs_zero, zero_mul, zero_div, mul_zero]
    unfold scaleCost
    refine Finset.sum_nonneg fun i _ => Finset.sum_nonneg fun j _ => ?_
    split
    · exact le_refl _
    · exact abs_nonneg _

/-- The hypotheses of `scale_cost_at_truth` hold for the same pair and the scale 3: the difference image is
zero but the cost is not. -/
example : diffAt (skyPixel 100) (skyPixel 300) 3 0 0 0 0 = 0 ∧
    0 < scaleCost ⟨1, 1, fun _ _ => 300 - 100⟩ none (skyPixel 100) (skyPixel 300) 3 := by
  obtain ⟨h1, h2⟩ := scale_cost_at_truth ⟨1, 1, fun _ _ => 300 - 100⟩ none (skyPixel 100) (skyPixel 300) rfl rfl 3
    rfl (fun _ _ _ _ => by change (300 : ℝ) = 3 * 100; norm_num)
  refine ⟨h1 0 0, ?_⟩
  rw [h2]
  change 0 < ∑ i ∈ range 1, ∑ j ∈ range 1, if NMask.marks none i j = true then (0 : ℝ) else
    |(300 : ℝ) - 100| / diffSigma (skyPixel 100) (skyPixel 300) 3
  rw [Finset.sum_range_one, Finset.sum_range_one, if_neg (by decide)]
  refine div_pos (by norm_num) (Real.sqrt_pos.2 ?_)
  change (0 : ℝ) < 1 ^ 2 + 3 ^ 2 * 1 ^ 2
  norm_num

end PI
