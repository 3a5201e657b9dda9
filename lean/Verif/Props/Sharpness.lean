import Verif.Props.Fit
import Verif.Props.DeepRef

/-!
# Property C195: how sharp the coadd and the difference image are
-/

namespace PI

open Complex Finset

/-- The square of the contrast that a PSF leaves of frequency `(k, l)`. -/
noncomputable def contrast (p : Img ℂ) (k l : ℕ) : ℝ := normSq ((dft p).px k l)

theorem contrast_fftOrtho (p : Img ℂ) (hN : p.h * p.w ≠ 0) (k l : ℕ) :
    contrast p k l = ((p.h * p.w : ℕ) : ℝ) * normSq ((fftOrtho p).px k l) := by
  have h0 : (0 : ℝ) < ((p.h * p.w : ℕ) : ℝ) := by exact_mod_cast Nat.pos_of_ne_zero hN
  change _ = _ * normSq ((dft p).px k l / (Real.sqrt ((p.h * p.w : ℕ) : ℝ) : ℂ))
  rw [map_div₀, normSq_ofReal, Real.mul_self_sqrt h0.le, mul_div_cancel₀ _ h0.ne']
  rfl

/-- The summed squares of an image are its contrasts over the number of pixels. -/
theorem contrast_power (p : Img ℂ) (hN : p.h * p.w ≠ 0) :
    imgPower p = (∑ k ∈ range p.h, ∑ l ∈ range p.w, contrast p k l) / ((p.h * p.w : ℕ) : ℝ) := by
  have h0 : (0 : ℝ) < ((p.h * p.w : ℕ) : ℝ) := by exact_mod_cast Nat.pos_of_ne_zero hN
  rw [eq_div_iff h0.ne']
  unfold imgPower
  rw [← fftOrtho_power p.h p.w p.px, Finset.sum_mul]
  refine Finset.sum_congr rfl fun k _ => ?_
  rw [Finset.sum_mul]
  refine Finset.sum_congr rfl fun l _ => ?_
  rw [contrast_fftOrtho p hN, mul_comm]

section
variable (lt : List CoImg → List CoImg → Option Bool) {n : ℕ} (hn : 0 < n)
    (d : Fin n → SinglePsf) (h w psfShape : ℕ) (procs : ℤ)
    (hs : ∀ j, (d j).interped.h = h ∧ (d j).interped.w = w ∧ (d j).mask.HasShape h w)
    (hp : procs ≤ n) (hp' : procs ≤ 2 ^ 25) (hb : procs * n ≤ 2 ^ 50)
    (hu : ∀ m, imSum (padTo h w (d m).psf) = 1) (hh : 0 < h) (hw : 0 < w)
    (hpow : ∀ k < h, ∀ l < w, powerAt d k l ≠ 0)

/-- The weight of an exposure. -/
noncomputable def coWeight (m : Fin n) : ℝ := (d m).zp ^ 2 / (d m).var ^ 2

include hs hh hw in
theorem powerAt_contrast (k l : ℕ) :
    powerAt d k l = (∑ m, coWeight d m * contrast (padTo h w (d m).psf) k l) / ((h * w : ℕ) : ℝ) := by
  have hN : h * w ≠ 0 := Nat.mul_ne_zero hh.ne' hw.ne'
  have h0 : (0 : ℝ) < ((h * w : ℕ) : ℝ) := by exact_mod_cast Nat.pos_of_ne_zero hN
  rw [eq_div_iff h0.ne']
  unfold powerAt zackayPower
  rw [Finset.sum_mul]
  refine Finset.sum_congr rfl fun m _ => ?_
  have e : (d m).psfHat = fftOrtho (padTo h w (d m).psf) := by
    unfold SinglePsf.psfHat
    rw [(hs m).1, (hs m).2.1]
  beta_reduce
  rw [contrast_fftOrtho (padTo h w (d m).psf) hN, e]
  change _ = coWeight d m * (((h * w : ℕ) : ℝ) * _)
  unfold coWeight
  ring

include hu in
theorem contrast_zero (m : Fin n) : contrast (padTo h w (d m).psf) 0 0 = 1 := by
  unfold contrast
  rw [dft_zero, hu, map_one]

include hn hs hp hp' hb hu hh hw hpow

/-- C195: at every frequency the squared contrast of the PSF of a coadd is the weighted mean of those of the exposures, with weights
zp²/var²; so are its summed squares. -/
theorem coadd_sharpness : ∃ out, coaddCore lt ((List.ofFn d).map SinglePsf.toCoImg) psfShape procs = .ok out ∧
    0 < ∑ m, coWeight d m ∧
    (∀ k < h, ∀ l < w, contrast out.Pr k l =
      (∑ m, coWeight d m * contrast (padTo h w (d m).psf) k l) / ∑ m, coWeight d m) ∧
    imgPower out.Pr = (∑ m, coWeight d m * imgPower (padTo h w (d m).psf)) / ∑ m, coWeight d m := by
  have hN : h * w ≠ 0 := Nat.mul_ne_zero hh.ne' hw.ne'
  have h0 : (0 : ℝ) < ((h * w : ℕ) : ℝ) := by exact_mod_cast Nat.pos_of_ne_zero hN
  have hlen : ((List.ofFn d).map SinglePsf.toCoImg).length = n := by simp
  obtain ⟨out, e, ho, _⟩ := coadd_spec lt h w ((List.ofFn d).map SinglePsf.toCoImg) psfShape procs
    (by intro hnil; rw [hnil] at hlen; simp at hlen; omega) (allShape_single d h w hs)
    (by rw [hlen]; exact hp) hp' (by rw [hlen]; exact hb)
  have hP : out.Pr = coaddPsf ⟨h, w, specP ((List.ofFn d).map SinglePsf.toCoImg)⟩ psfShape := congrArg Prod.snd ho
  have sp : ∀ k l, specP ((List.ofFn d).map SinglePsf.toCoImg) k l = ((powerAt d k l : ℝ) : ℂ) := specP_single d
  have pp : PositivePower h w ((List.ofFn d).map SinglePsf.toCoImg) := by
    intro k hk l hl
    rw [sp, ofReal_re, ofReal_im]
    exact ⟨powerAt_pos d h w hpow k l hk hl, rfl⟩
  have p00 := powerAt_pos d h w hpow 0 0 hh hw
  have e00 := powerAt_contrast d h w hs hh hw 0 0
  simp only [contrast_zero d h w hu, mul_one] at e00
  have hW : 0 < ∑ m, coWeight d m := by
    rw [e00] at p00
    exact (div_pos_iff_of_pos_right h0).1 p00
  have hc : ∀ k < h, ∀ l < w, contrast out.Pr k l =
      (∑ m, coWeight d m * contrast (padTo h w (d m).psf) k l) / ∑ m, coWeight d m := by
    intro k hk l hl
    have t := stage_psfHat h w psfShape _ pp k l hk hl
    unfold fluxScale at t
    rw [sp, sp, ofReal_re, ofReal_re] at t
    have hhw : out.Pr.h = h ∧ out.Pr.w = w := by rw [hP]; exact ⟨rfl, rfl⟩
    rw [contrast_fftOrtho out.Pr (by rw [hhw.1, hhw.2]; exact hN), hhw.1, hhw.2, hP, t, map_mul, normSq_shiftPhase, mul_one,
      normSq_ofReal, ← sq, div_pow, div_pow, Real.sq_sqrt (powerAt_pos d h w hpow k l hk hl).le, Real.sq_sqrt p00.le,
      Real.sq_sqrt h0.le, e00, powerAt_contrast d h w hs hh hw k l]
    field_simp
  refine ⟨out, e, hW, hc, ?_⟩
  have hhw : out.Pr.h = h ∧ out.Pr.w = w := by rw [hP]; exact ⟨rfl, rfl⟩
  rw [contrast_power out.Pr (by rw [hhw.1, hhw.2]; exact hN), hhw.1, hhw.2]
  rw [Finset.sum_congr rfl fun k hk => Finset.sum_congr rfl fun l hl => hc k (mem_range.1 hk) l (mem_range.1 hl)]
  simp only [← Finset.sum_div]
  rw [div_right_comm]
  congr 1
  rw [Finset.sum_div]
  simp only [Finset.sum_div]
  have : ∀ m, coWeight d m * imgPower (padTo h w (d m).psf) =
      ∑ k ∈ range h, ∑ l ∈ range w, coWeight d m * contrast (padTo h w (d m).psf) k l / ((h * w : ℕ) : ℝ) := by
    intro m
    rw [contrast_power (padTo h w (d m).psf) hN]
    change _ * ((∑ k ∈ range h, ∑ l ∈ range w, _) / ((h * w : ℕ) : ℝ)) = _
    rw [Finset.sum_div, Finset.mul_sum]
    refine Finset.sum_congr rfl fun k _ => ?_
    rw [Finset.sum_div, Finset.mul_sum]
    exact Finset.sum_congr rfl fun l _ => by ring
  simp only [this]
  rw [Finset.sum_comm' (s := univ) (t := fun _ => range h) (t' := range h) (s' := fun _ => univ) (by simp)]
  refine Finset.sum_congr rfl fun k _ => ?_
  rw [Finset.sum_comm]

/-- C195: so it leaves no more contrast than the sharpest exposure and no less than the most blurred. -/
theorem coadd_sharp_between : ∃ out, coaddCore lt ((List.ofFn d).map SinglePsf.toCoImg) psfShape procs = .ok out ∧
    ∀ k < h, ∀ l < w, ∀ lo hi : ℝ,
      (∀ m, lo ≤ contrast (padTo h w (d m).psf) k l ∧ contrast (padTo h w (d m).psf) k l ≤ hi) →
        lo ≤ contrast out.Pr k l ∧ contrast out.Pr k l ≤ hi := by
  obtain ⟨out, e, hW, hc, _⟩ := coadd_sharpness lt hn d h w psfShape procs hs hp hp' hb hu hh hw hpow
  refine ⟨out, e, fun k hk l hl lo hi hm => ?_⟩
  have w0 : ∀ m, 0 ≤ coWeight d m := fun m => by unfold coWeight; positivity
  rw [hc k hk l hl, le_div_iff₀ hW, div_le_iff₀ hW, Finset.mul_sum, Finset.mul_sum]
  exact ⟨Finset.sum_le_sum fun m _ => by rw [mul_comm]; exact mul_le_mul_of_nonneg_left (hm m).1 (w0 m),
    Finset.sum_le_sum fun m _ => by rw [mul_comm hi]; exact mul_le_mul_of_nonneg_left (hm m).2 (w0 m)⟩

end

/-- The harmonic mean is at most the arithmetic one, and equal only for equal numbers. -/
theorem harmonic_le (a b A B : ℝ) (ha : 0 ≤ a) (hb : 0 ≤ b) (hab : 0 < a + b) (hA : 0 < A) (hB : 0 < B) :
    (a + b) / (a / A + b / B) ≤ (a * A + b * B) / (a + b) ∧
    (0 < a → 0 < b → ((a + b) / (a / A + b / B) = (a * A + b * B) / (a + b) ↔ A = B)) := by
  have hD : 0 < a * B + b * A := by
    rcases ha.lt_or_eq with h | h
    · have : 0 ≤ b * A := by positivity
      have : 0 < a * B := by positivity
      linarith
    · have hb' : 0 < b := by linarith
      have : 0 < b * A := by positivity
      have : 0 ≤ a * B := by positivity
      linarith
  have e : a / A + b / B = (a * B + b * A) / (A * B) := by field_simp
  have hdiff : (a * A + b * B) / (a + b) - (a + b) / (a / A + b / B) =
      a * b * (A - B) ^ 2 / ((a + b) * (a * B + b * A)) := by
    rw [e, div_div_eq_mul_div, div_sub_div _ _ hab.ne' hD.ne',
      div_eq_div_iff (mul_pos hab hD).ne' (mul_pos hab hD).ne']
    ring
  refine ⟨?_, fun ha' hb' => ⟨fun q => ?_, fun q => ?_⟩⟩
  · rw [← sub_nonneg, hdiff]
    positivity
  · rw [q, sub_self] at hdiff
    have h1 : a * b * (A - B) ^ 2 = 0 := by
      have := hdiff.symm
      rw [div_eq_zero_iff] at this
      rcases this with h | h
      · exact h
      · exact absurd h (mul_pos hab hD).ne'
    have h2 : (A - B) ^ 2 = 0 := by
      rcases mul_eq_zero.1 h1 with h | h
      · exact absurd h (mul_pos ha' hb').ne'
      · exact h
    exact sub_eq_zero.1 (pow_eq_zero_iff (by norm_num) |>.1 h2)
  · rw [q, sub_self] at hdiff
    simp only [ne_eq, OfNat.ofNat_ne_zero, not_false_eq_true, zero_pow, mul_zero, zero_div] at hdiff
    rw [q]
    linarith

section
variable (env : SubEnv) (it : Bool) (ref new : SubImg) (h w : ℕ) (z : ℝ × ℝ)
    (hr : ref.interped.shape = (h, w)) (hn : new.interped.shape = (h, w))
    (hmr : ref.mask.HasShape h w) (hmn : new.mask.HasShape h w) (hz : env.zps = .ok z)
    (hc : env.fitted = true ∨ (0 ≤ (centerOfMass new.psf).1 ∧ 0 ≤ (centerOfMass new.psf).2))
    (gr : GuardIdle h w ref.psf) (gn : GuardIdle h w new.psf) (hh : 0 < h) (hw : 0 < w) (hb : z.2 / z.1 ≠ 0)
    (hv : 0 < new.var ^ 2 + (z.2 / z.1) ^ 2 * ref.var ^ 2)

omit hv in
theorem guard_contrast (p : Img ℝ) (g : GuardIdle h w p) (hN : h * w ≠ 0) (k l : ℕ) (hk : k < h) (hl : l < w) :
    0 < contrast (padTo h w (toC p)) k l := by
  rw [contrast_fftOrtho (padTo h w (toC p)) hN]
  refine mul_pos (by exact_mod_cast Nat.pos_of_ne_zero hN) (normSq_pos.2 fun q => g k hk l hl ?_)
  rw [q, zero_re]

include hr hn hmr hmn hz hc gr gn hh hw hb hv

/-- C195: at every frequency the squared contrast of the PSF of D is the weighted harmonic mean of those of the two exposures, with
weights var² and, for the reference, times the squared flux ratio. -/
theorem diff_sharpness : ∃ out, subtract env ⟨false, false, it⟩ ref new = .ok out ∧
    (∀ k < h, ∀ l < w, contrast (toC out.P) k l = (new.var ^ 2 + (z.2 / z.1) ^ 2 * ref.var ^ 2) /
      (new.var ^ 2 / contrast (padTo h w (toC new.psf)) k l +
        (z.2 / z.1) ^ 2 * ref.var ^ 2 / contrast (padTo h w (toC ref.psf)) k l)) ∧
    imgPower (toC out.P) = (∑ k ∈ range h, ∑ l ∈ range w, contrast (toC out.P) k l) / ((h * w : ℕ) : ℝ) := by
  have hN : h * w ≠ 0 := Nat.mul_ne_zero hh.ne' hw.ne'
  have h0 : (0 : ℝ) < ((h * w : ℕ) : ℝ) := by exact_mod_cast Nat.pos_of_ne_zero hN
  obtain ⟨out, e, _, hP, _⟩ := subtract_returns env it ref new h w hr hn hmr hmn z hz hc
  have rh : ref.h = h := congrArg Prod.fst hr
  have rw' : ref.w = w := congrArg Prod.snd hr
  have nh : new.h = h := congrArg Prod.fst hn
  have nw : new.w = w := congrArg Prod.snd hn
  have ph : out.P.h = h ∧ out.P.w = w := by rw [hP]; exact ⟨rh, rw'⟩
  have hI : toC out.P = ifftOrtho (pHat ref new (z.2 / z.1)) := by
    rw [hP]
    unfold toC
    refine congrArg (Img.mk ref.h ref.w) ?_
    funext i j
    exact subtract_P_real ref new (nh.trans rh.symm) (nw.trans rw'.symm) _ i j
  have hpos : ((toC out.P).h * (toC out.P).w) ≠ 0 := by
    change out.P.h * out.P.w ≠ 0
    rw [ph.1, ph.2]
    exact hN
  refine ⟨out, e, fun k hk l hl => ?_, ?_⟩
  · rw [contrast_fftOrtho (toC out.P) hpos]
    change ((out.P.h * out.P.w : ℕ) : ℝ) * _ = _
    rw [ph.1, ph.2, hI, fftOrtho_ifftOrtho _ k l (by rw [← rh] at hk; exact hk) (by rw [← rw'] at hl; exact hl)]
    have cA := contrast_fftOrtho (padTo h w (toC new.psf)) hN k l
    have cB := contrast_fftOrtho (padTo h w (toC ref.psf)) hN k l
    have pA := guard_contrast h w new.psf gn hN k l hk hl
    have pB := guard_contrast h w ref.psf gr hN k l hk hl
    change contrast (padTo h w (toC new.psf)) k l = ((h * w : ℕ) : ℝ) * _ at cA
    change contrast (padTo h w (toC ref.psf)) k l = ((h * w : ℕ) : ℝ) * _ at cB
    rw [← psfHat_idle new h w nh nw gn k l hk hl] at cA
    rw [← psfHat_idle ref h w rh rw' gr k l hk hl] at cB
    have hq : normSq ((pHat ref new (z.2 / z.1)).px k l) =
        normSq (ref.psfHat.px k l) * normSq (new.psfHat.px k l) * (new.var ^ 2 + (z.2 / z.1) ^ 2 * ref.var ^ 2) /
          (new.var ^ 2 * normSq (ref.psfHat.px k l) + (z.2 / z.1) ^ 2 * ref.var ^ 2 * normSq (new.psfHat.px k l)) := by
      change normSq ((ref.psfHat.px k l * new.psfHat.px k l * ((z.2 / z.1 : ℝ) : ℂ)) /
        (csqrt (normHat ref new (z.2 / z.1) k l) * ((dZp ref new (z.2 / z.1) : ℝ) : ℂ))) = _
      rw [csqrt_normHat, map_div₀, map_mul, map_mul, map_mul, normSq_ofReal, normSq_ofReal, normSq_ofReal]
      have hnr : 0 ≤ normReal ref new (z.2 / z.1) k l := by
        unfold normReal
        have := normSq_nonneg (ref.psfHat.px k l)
        have := normSq_nonneg (new.psfHat.px k l)
        positivity
      have hd : dZp ref new (z.2 / z.1) * dZp ref new (z.2 / z.1) =
          (z.2 / z.1) ^ 2 / (new.var ^ 2 + (z.2 / z.1) ^ 2 * ref.var ^ 2) := by
        unfold dZp
        rw [div_mul_div_comm, Real.mul_self_sqrt (by positivity), ← sq]
        congr 1
        ring
      rw [Real.mul_self_sqrt hnr, hd]
      unfold normReal
      generalize z.2 / z.1 = b at hb hv ⊢
      have := hv.ne'
      by_cases hz0 : new.var ^ 2 * normSq (ref.psfHat.px k l) + b ^ 2 * ref.var ^ 2 * normSq (new.psfHat.px k l) = 0
      · rw [hz0]
        simp
      · field_simp
    rw [hq, cA, cB]
    have qA : 0 < normSq (new.psfHat.px k l) := by
      rw [cA] at pA
      exact (mul_pos_iff_of_pos_left h0).1 pA
    have qB : 0 < normSq (ref.psfHat.px k l) := by
      rw [cB] at pB
      exact (mul_pos_iff_of_pos_left h0).1 pB
    generalize normSq (new.psfHat.px k l) = a at qA ⊢
    generalize normSq (ref.psfHat.px k l) = c at qB ⊢
    generalize (z.2 / z.1) ^ 2 * ref.var ^ 2 = t at hv ⊢
    have e1 : new.var ^ 2 / (((h * w : ℕ) : ℝ) * a) + t / (((h * w : ℕ) : ℝ) * c) =
        (new.var ^ 2 * c + t * a) / (((h * w : ℕ) : ℝ) * (c * a)) := by
      have := h0.ne'
      field_simp
    rw [e1, div_div_eq_mul_div]
    ring
  · rw [contrast_power (toC out.P) hpos]
    change (∑ k ∈ range out.P.h, ∑ l ∈ range out.P.w, _) / ((out.P.h * out.P.w : ℕ) : ℝ) = _
    rw [ph.1, ph.2]

/-- C195: so D leaves no more contrast than the sharper exposure and no less than the more blurred one; its PSF has at most the weighted
mean of the summed squares of the two PSFs, and exactly that only if the two leave the same contrast at every frequency. -/
theorem diff_sharp_between : ∃ out, subtract env ⟨false, false, it⟩ ref new = .ok out ∧
    (∀ k < h, ∀ l < w,
      min (contrast (padTo h w (toC new.psf)) k l) (contrast (padTo h w (toC ref.psf)) k l) ≤ contrast (toC out.P) k l ∧
      contrast (toC out.P) k l ≤ max (contrast (padTo h w (toC new.psf)) k l) (contrast (padTo h w (toC ref.psf)) k l)) ∧
    imgPower (toC out.P) ≤ (new.var ^ 2 * imgPower (padTo h w (toC new.psf)) +
      (z.2 / z.1) ^ 2 * ref.var ^ 2 * imgPower (padTo h w (toC ref.psf))) /
        (new.var ^ 2 + (z.2 / z.1) ^ 2 * ref.var ^ 2) ∧
    (new.var ≠ 0 → ref.var ≠ 0 →
      (imgPower (toC out.P) = (new.var ^ 2 * imgPower (padTo h w (toC new.psf)) +
        (z.2 / z.1) ^ 2 * ref.var ^ 2 * imgPower (padTo h w (toC ref.psf))) /
          (new.var ^ 2 + (z.2 / z.1) ^ 2 * ref.var ^ 2) ↔
        ∀ k < h, ∀ l < w, contrast (padTo h w (toC new.psf)) k l = contrast (padTo h w (toC ref.psf)) k l)) := by
  have hN : h * w ≠ 0 := Nat.mul_ne_zero hh.ne' hw.ne'
  have h0 : (0 : ℝ) < ((h * w : ℕ) : ℝ) := by exact_mod_cast Nat.pos_of_ne_zero hN
  obtain ⟨out, e, hk, hp⟩ := diff_sharpness env it ref new h w z hr hn hmr hmn hz hc gr gn hh hw hb hv
  have pA := fun k hk l hl => guard_contrast h w new.psf gn hN k l hk hl
  have pB := fun k hk l hl => guard_contrast h w ref.psf gr hN k l hk hl
  have hα : 0 ≤ new.var ^ 2 := sq_nonneg _
  have hβ : 0 ≤ (z.2 / z.1) ^ 2 * ref.var ^ 2 := by positivity
  have hβ' : ref.var ≠ 0 → 0 < (z.2 / z.1) ^ 2 * ref.var ^ 2 := fun q => by positivity
  have hα' : new.var ≠ 0 → 0 < new.var ^ 2 := fun q => by positivity
  have eN := contrast_power (padTo h w (toC new.psf)) hN
  have eR := contrast_power (padTo h w (toC ref.psf)) hN
  change _ = (∑ k ∈ range h, ∑ l ∈ range w, _) / ((h * w : ℕ) : ℝ) at eN
  change _ = (∑ k ∈ range h, ∑ l ∈ range w, _) / ((h * w : ℕ) : ℝ) at eR
  have hmean : (new.var ^ 2 * imgPower (padTo h w (toC new.psf)) +
      (z.2 / z.1) ^ 2 * ref.var ^ 2 * imgPower (padTo h w (toC ref.psf))) /
        (new.var ^ 2 + (z.2 / z.1) ^ 2 * ref.var ^ 2) =
      (∑ k ∈ range h, ∑ l ∈ range w, (new.var ^ 2 * contrast (padTo h w (toC new.psf)) k l +
        (z.2 / z.1) ^ 2 * ref.var ^ 2 * contrast (padTo h w (toC ref.psf)) k l) /
          (new.var ^ 2 + (z.2 / z.1) ^ 2 * ref.var ^ 2)) / ((h * w : ℕ) : ℝ) := by
    rw [eN, eR]
    simp only [← Finset.sum_div, Finset.sum_add_distrib, ← Finset.mul_sum]
    rw [mul_div_assoc', mul_div_assoc', ← add_div, div_right_comm]
  generalize hβd : (z.2 / z.1) ^ 2 * ref.var ^ 2 = β at *
  generalize hαd : new.var ^ 2 = α at *
  have hle : ∀ k ∈ range h, ∀ l ∈ range w, contrast (toC out.P) k l ≤
      (α * contrast (padTo h w (toC new.psf)) k l + β * contrast (padTo h w (toC ref.psf)) k l) / (α + β) := by
    intro k hk' l hl'
    rw [hk k (mem_range.1 hk') l (mem_range.1 hl')]
    exact (harmonic_le α β _ _ hα hβ hv (pA k (mem_range.1 hk') l (mem_range.1 hl'))
      (pB k (mem_range.1 hk') l (mem_range.1 hl'))).1
  refine ⟨out, e, fun k hk' l hl' => ?_, ?_, fun vn vr => ?_⟩
  · rw [hk k hk' l hl']
    have a0 := pA k hk' l hl'
    have b0 := pB k hk' l hl'
    generalize contrast (padTo h w (toC new.psf)) k l = A at a0 ⊢
    generalize contrast (padTo h w (toC ref.psf)) k l = B at b0 ⊢
    have hden : 0 < α / A + β / B := by
      rcases hα.lt_or_eq with q | q
      · have : 0 < α / A := by positivity
        have : 0 ≤ β / B := by positivity
        linarith
      · have hb' : 0 < β := by linarith
        have : 0 < β / B := by positivity
        have : 0 ≤ α / A := by positivity
        linarith
    rw [le_div_iff₀ hden, div_le_iff₀ hden, mul_add, mul_add]
    have m0 : 0 < min A B := lt_min a0 b0
    have k1 : ∀ γ X : ℝ, 0 ≤ γ → 0 < X → min A B ≤ X → min A B * (γ / X) ≤ γ := by
      intro γ X hγ hX hm
      rw [mul_div_assoc', div_le_iff₀ hX, mul_comm]
      exact mul_le_mul_of_nonneg_left hm hγ
    have k2 : ∀ γ X : ℝ, 0 ≤ γ → 0 < X → X ≤ max A B → γ ≤ max A B * (γ / X) := by
      intro γ X hγ hX hm
      rw [mul_div_assoc', le_div_iff₀ hX, mul_comm]
      exact mul_le_mul_of_nonneg_right hm hγ
    exact ⟨add_le_add (k1 α A hα a0 (min_le_left _ _)) (k1 β B hβ b0 (min_le_right _ _)),
      add_le_add (k2 α A hα a0 (le_max_left _ _)) (k2 β B hβ b0 (le_max_right _ _))⟩
  · rw [hp, hmean]
    exact div_le_div_of_nonneg_right (Finset.sum_le_sum fun k hk' => Finset.sum_le_sum fun l hl' => hle k hk' l hl') h0.le
  · rw [hp, hmean, div_left_inj' h0.ne',
      Finset.sum_eq_sum_iff_of_le fun k hk' => Finset.sum_le_sum fun l hl' => hle k hk' l hl']
    refine ⟨fun H k hk' l hl' => ?_, fun H k hk' => Finset.sum_congr rfl fun l hl' => ?_⟩
    · have q := (Finset.sum_eq_sum_iff_of_le fun l hl' => hle k (mem_range.2 hk') l hl').1 (H k (mem_range.2 hk')) l
        (mem_range.2 hl')
      rw [hk k hk' l hl'] at q
      exact ((harmonic_le α β _ _ hα hβ hv (pA k hk' l hl') (pB k hk' l hl')).2 (hα' vn) (hβ' vr)).1 q
    · rw [hk k (mem_range.1 hk') l (mem_range.1 hl')]
      exact ((harmonic_le α β _ _ hα hβ hv (pA k (mem_range.1 hk') l (mem_range.1 hl'))
        (pB k (mem_range.1 hk') l (mem_range.1 hl'))).2 (hα' vn) (hβ' vr)).2
          (H k (mem_range.1 hk') l (mem_range.1 hl'))

end

/-! ## Worked instances -/

/-- The sharp and the soft exposure of 1×2 pixels leave 1 and 0 of the contrast of frequency 1, and their coadd 1/2; the summed squares
of the PSFs are 1, 1/2 and 3/4. -/
example (lt : List CoImg → List CoImg → Option Bool) :
    ∃ out, coaddCore lt ((List.ofFn sharpAndSoft).map SinglePsf.toCoImg) 0 2 = .ok out ∧
      contrast (padTo 1 2 (sharpAndSoft 0).psf) 0 1 = 1 ∧ contrast (padTo 1 2 (sharpAndSoft 1).psf) 0 1 = 0 ∧
      contrast out.Pr 0 1 = 1 / 2 ∧ imgPower out.Pr = 3 / 4 := by
  have hpow : ∀ k < 1, ∀ l < 2, powerAt sharpAndSoft k l ≠ 0 := by
    intro k hk l hl
    obtain rfl : k = 0 := by omega
    obtain rfl | rfl : l = 0 ∨ l = 1 := by omega
    · exact ne_of_eq_of_ne sharpAndSoft_power.1 (by norm_num)
    · exact ne_of_eq_of_ne sharpAndSoft_power.2 (by norm_num)
  obtain ⟨out, e, _, hc, hp⟩ := coadd_sharpness lt (n := 2) (by norm_num) sharpAndSoft 1 2 0 2
    (fun m => ⟨rfl, rfl, by intro a h; cases h⟩) (by norm_num) (by norm_num) (by norm_num)
    (by intro m; fin_cases m <;> norm_num [sharpAndSoft, imSum, padTo, Finset.sum_range_succ])
    (by norm_num) (by norm_num) hpow
  have c0 : contrast (padTo 1 2 (sharpAndSoft 0).psf) 0 1 = 1 := by
    rw [contrast_fftOrtho _ (by norm_num [padTo])]
    have := sharp_hat 0 1
    change (fftOrtho (padTo 1 2 (sharpAndSoft 0).psf)).px 0 1 = _ at this
    rw [this, normSq_ofReal]
    change ((1 * 2 : ℕ) : ℝ) * _ = 1
    rw [← mul_inv, Real.mul_self_sqrt (by norm_num)]
    norm_num
  have c1 : contrast (padTo 1 2 (sharpAndSoft 1).psf) 0 1 = 0 := by
    rw [contrast_fftOrtho _ (by norm_num [padTo])]
    have := soft_hat.2
    change (fftOrtho (padTo 1 2 (sharpAndSoft 1).psf)).px 0 1 = _ at this
    rw [this]
    simp
  have w1 : ∀ m, coWeight sharpAndSoft m = 1 := by intro m; simp [coWeight, sharpAndSoft]
  refine ⟨out, e, c0, c1, ?_, ?_⟩
  · rw [hc 0 (by norm_num) 1 (by norm_num)]
    simp only [Fin.sum_univ_two, w1, c0, c1]
    norm_num
  · rw [hp]
    have p0 : imgPower (padTo 1 2 (sharpAndSoft 0).psf) = 1 := by
      norm_num [imgPower, padTo, sharpAndSoft, Finset.sum_range_succ]
    have p1 : imgPower (padTo 1 2 (sharpAndSoft 1).psf) = 1 / 2 := by
      norm_num [imgPower, padTo, sharpAndSoft, Finset.sum_range_succ, normSq_apply]
    simp only [Fin.sum_univ_two, w1, p0, p1]
    norm_num

/-- A new image with the PSF of one pixel less a soft reference of the same noise: D leaves 2/3 of the contrast at frequency 1, where the
two leave 1 and 1/2. -/
example (new : SubImg) (hs : new.interped.shape = (1, 2)) (hm : new.mask = none) (hψ : new.psf = ⟨1, 1, fun _ _ => 1⟩)
    (hv : new.var ^ 2 = 1 / 2) (env : SubEnv) (hz : env.zps = .ok (1, 1)) (hf : env.fitted = true) :
    ∃ out, subtract env ⟨false, false, true⟩ softRef new = .ok out ∧ contrast (toC out.P) 0 1 = 2 / 3 := by
  have cn : ∀ l, contrast (padTo 1 2 (toC new.psf)) 0 l = 1 := by
    intro l
    rw [hψ]
    norm_num [contrast, dft, padTo, toC, Img.map, Finset.sum_range_succ, tw_zero]
  have cr : contrast (padTo 1 2 (toC softRef.psf)) 0 1 = 1 / 2 := by
    rw [contrast_fftOrtho _ (by norm_num [padTo]), softRef_hat]
    rw [Nat.cast_one, tw_zero, tw_two_one, mul_one, mul_neg_one, ← Complex.ofReal_neg, ← Complex.ofReal_add, map_div₀,
      normSq_ofReal, normSq_ofReal]
    have : (1 + Real.sqrt (1 / 2)) / 2 + -((1 - Real.sqrt (1 / 2)) / 2) = Real.sqrt (1 / 2 : ℝ) := by ring
    rw [this, Real.mul_self_sqrt (by norm_num), Real.mul_self_sqrt (by positivity)]
    change ((1 * 2 : ℕ) : ℝ) * _ = _
    norm_num
  have gn : GuardIdle 1 2 new.psf := by
    intro k hk l hl
    obtain rfl : k = 0 := by omega
    rw [hψ]
    have : (fftOrtho (padTo 1 2 (toC (⟨1, 1, fun _ _ => 1⟩ : Img ℝ)))).px 0 l = (((Real.sqrt 2)⁻¹ : ℝ) : ℂ) := by
      norm_num [fftOrtho, dft, padTo, toC, Img.map, Finset.sum_range_succ, tw_zero]
    rw [this, ofReal_re]
    positivity
  obtain ⟨out, e, hk, _⟩ := diff_sharpness env true softRef new 1 2 (1, 1) rfl hs (by intro a h; cases h)
    (by rw [hm]; intro a h; cases h) hz (Or.inl hf) softRef_idle gn (by norm_num) (by norm_num) (by norm_num)
    (by rw [hv]; positivity)
  refine ⟨out, e, ?_⟩
  rw [hk 0 (by norm_num) 1 (by norm_num), cn, cr, hv]
  have : softRef.var ^ 2 = 1 / 2 := by
    change (1 / Real.sqrt ((1 * 2 : ℕ) : ℝ)) ^ 2 = _
    rw [div_pow, Real.sq_sqrt (by positivity)]
    norm_num
  rw [this]
  norm_num

end PI
