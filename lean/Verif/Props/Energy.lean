import Verif.Props.PsfStamp

/-!
# Property C143: the difference image and the coadd share the power of the images between them, and errors are not amplified
-/

namespace PI

open Complex Finset

/-- Sum of the squared moduli of the pixels. -/
noncomputable def imgPower (a : Img ℂ) : ℝ := ∑ i ∈ range a.h, ∑ j ∈ range a.w, normSq (a.px i j)

/-! ## One frequency -/

theorem lagrange (a c x y : ℂ) :
    normSq (a * x - c * y) + normSq ((starRingEnd ℂ) c * x + (starRingEnd ℂ) a * y) =
      (normSq a + normSq c) * (normSq x + normSq y) := by
  simp only [normSq_apply, mul_re, mul_im, sub_re, sub_im, add_re, add_im, conj_re, conj_im]
  ring

theorem zackayD_power (σr σn b : ℝ) (hr : σr ≠ 0) (hn : σn ≠ 0) (Pr Pn R N : ℂ) :
    normSq (zackayD σr σn 1 b Pr Pn R N) =
      normSq (((σn : ℂ) * Pr) * (N / σn) - ((b * σr : ℝ) * Pn) * (R / σr)) /
        (normSq ((σn : ℂ) * Pr) + normSq ((b * σr : ℝ) * Pn)) := by
  have hr' : (σr : ℂ) ≠ 0 := by exact_mod_cast hr
  have hn' : (σn : ℂ) ≠ 0 := by exact_mod_cast hn
  have e1 : ((1 : ℝ) : ℂ) * Pr * N - (b : ℂ) * Pn * R = ((σn : ℂ) * Pr) * (N / σn) - ((b * σr : ℝ) * Pn) * (R / σr) := by
    push_cast
    field_simp
  have e2 : σn ^ 2 * 1 ^ 2 * normSq Pr + σr ^ 2 * b ^ 2 * normSq Pn = normSq ((σn : ℂ) * Pr) + normSq ((b * σr : ℝ) * Pn) := by
    rw [normSq_mul, normSq_mul, normSq_ofReal, normSq_ofReal]
    ring
  unfold zackayD
  rw [e1, e2, normSq_div, normSq_ofReal, Real.mul_self_sqrt (add_nonneg (normSq_nonneg _) (normSq_nonneg _))]

/-- Errors in the two images, in units of their noises, are not amplified. -/
theorem zackayD_power_le (σr σn b : ℝ) (hr : σr ≠ 0) (hn : σn ≠ 0) (Pr Pn R N : ℂ) :
    normSq (zackayD σr σn 1 b Pr Pn R N) ≤ normSq R / σr ^ 2 + normSq N / σn ^ 2 := by
  rw [zackayD_power σr σn b hr hn]
  have l := lagrange ((σn : ℂ) * Pr) ((b * σr : ℝ) * Pn) (N / σn) (R / σr)
  have e1 : normSq (N / σn) = normSq N / σn ^ 2 := by rw [normSq_div, normSq_ofReal, sq]
  have e2 : normSq (R / σr) = normSq R / σr ^ 2 := by rw [normSq_div, normSq_ofReal, sq]
  rw [e1, e2] at l
  have h0 : 0 ≤ normSq R / σr ^ 2 + normSq N / σn ^ 2 :=
    add_nonneg (div_nonneg (normSq_nonneg _) (sq_nonneg _)) (div_nonneg (normSq_nonneg _) (sq_nonneg _))
  refine div_le_of_le_mul₀ (add_nonneg (normSq_nonneg _) (normSq_nonneg _)) h0 ?_
  have := normSq_nonneg ((starRingEnd ℂ) ((b * σr : ℝ) * Pn) * (N / σn) + (starRingEnd ℂ) ((σn : ℂ) * Pr) * (R / σr))
  nlinarith

theorem zackayR_two (σr σn b zr : ℝ) (hr : σr ≠ 0) (hn : σn ≠ 0) (hz : zr ≠ 0) (Pr Pn R N : ℂ) :
    normSq (zackayR ![zr, b * zr] ![σr, σn] ![R, N] ![Pr, Pn]) =
      normSq ((starRingEnd ℂ) ((b * σr : ℝ) * Pn) * (N / σn) + (starRingEnd ℂ) ((σn : ℂ) * Pr) * (R / σr)) /
        (normSq ((σn : ℂ) * Pr) + normSq ((b * σr : ℝ) * Pn)) := by
  have hr' : (σr : ℂ) ≠ 0 := by exact_mod_cast hr
  have hn' : (σn : ℂ) ≠ 0 := by exact_mod_cast hn
  unfold zackayR
  simp only [Fin.sum_univ_two, Matrix.cons_val_zero, Matrix.cons_val_one, Matrix.cons_val_fin_one]
  have e1 : ((zr / σr ^ 2 : ℝ) : ℂ) * ((starRingEnd ℂ) Pr * R) + ((b * zr / σn ^ 2 : ℝ) : ℂ) * ((starRingEnd ℂ) Pn * N) =
      ((zr / (σr * σn) : ℝ) : ℂ) *
        ((starRingEnd ℂ) ((b * σr : ℝ) * Pn) * (N / σn) + (starRingEnd ℂ) ((σn : ℂ) * Pr) * (R / σr)) := by
    rw [map_mul, map_mul, conj_ofReal, conj_ofReal]
    push_cast
    field_simp
    ring
  have e2 : zr ^ 2 / σr ^ 2 * normSq Pr + (b * zr) ^ 2 / σn ^ 2 * normSq Pn =
      (zr / (σr * σn)) ^ 2 * (normSq ((σn : ℂ) * Pr) + normSq ((b * σr : ℝ) * Pn)) := by
    rw [normSq_mul, normSq_mul, normSq_ofReal, normSq_ofReal]
    field_simp
  have hc : zr / (σr * σn) ≠ 0 := div_ne_zero hz (mul_ne_zero hr hn)
  have h0 : 0 ≤ normSq ((σn : ℂ) * Pr) + normSq ((b * σr : ℝ) * Pn) := add_nonneg (normSq_nonneg _) (normSq_nonneg _)
  rw [e1, e2, normSq_div, normSq_ofReal, Real.mul_self_sqrt (mul_nonneg (sq_nonneg _) h0), normSq_mul, normSq_ofReal, ← sq,
    mul_div_mul_left _ _ (pow_ne_zero 2 hc)]

/-- The power of two images at one frequency, in units of their noises, is that of the difference plus that of the coadd. -/
theorem zackay_split (σr σn b zr : ℝ) (hr : σr ≠ 0) (hn : σn ≠ 0) (hz : zr ≠ 0) (Pr Pn R N : ℂ) (hP : Pr ≠ 0) :
    normSq (zackayD σr σn 1 b Pr Pn R N) + normSq (zackayR ![zr, b * zr] ![σr, σn] ![R, N] ![Pr, Pn]) =
      normSq R / σr ^ 2 + normSq N / σn ^ 2 := by
  rw [zackayD_power σr σn b hr hn, zackayR_two σr σn b zr hr hn hz, ← add_div, lagrange]
  have hpos : 0 < normSq ((σn : ℂ) * Pr) + normSq ((b * σr : ℝ) * Pn) := by
    have : 0 < normSq ((σn : ℂ) * Pr) := normSq_pos.2 (mul_ne_zero (by exact_mod_cast hn) hP)
    linarith [normSq_nonneg ((b * σr : ℝ) * Pn)]
  rw [mul_div_cancel_left₀ _ hpos.ne', normSq_div, normSq_div, normSq_ofReal, normSq_ofReal]
  ring

/-- The power of the coadd of any number of images at one frequency. -/
theorem zackayR_power_le {n : ℕ} (F σ : Fin n → ℝ) (hσ : ∀ j, σ j ≠ 0) (M P : Fin n → ℂ) :
    normSq (zackayR F σ M P) ≤ ∑ j, normSq (M j) / σ j ^ 2 := by
  unfold zackayR
  have h0 : 0 ≤ ∑ j, F j ^ 2 / σ j ^ 2 * normSq (P j) := Finset.sum_nonneg fun j _ => mul_nonneg (by positivity) (normSq_nonneg _)
  have h1 : 0 ≤ ∑ j, normSq (M j) / σ j ^ 2 := Finset.sum_nonneg fun j _ => div_nonneg (normSq_nonneg _) (sq_nonneg _)
  rw [normSq_div, normSq_ofReal, Real.mul_self_sqrt h0]
  refine div_le_of_le_mul₀ h0 h1 ?_
  rw [mul_comm]
  refine response_bound univ _ _ _ (fun j _ => mul_nonneg (by positivity) (normSq_nonneg _))
    (fun j _ => div_nonneg (normSq_nonneg _) (sq_nonneg _)) fun j _ => le_of_eq ?_
  have := hσ j
  rw [normSq_mul, normSq_mul, normSq_ofReal, normSq_conj]
  field_simp

/-! ## Whole images -/

theorem imgPower_ifftDefault (h w : ℕ) (X : ℕ → ℕ → ℂ) :
    ((h * w : ℕ) : ℝ) * imgPower (ifftDefault ⟨h, w, X⟩) = ∑ k ∈ range h, ∑ l ∈ range w, normSq (X k l) := by
  by_cases hne : h * w = 0
  · rcases Nat.mul_eq_zero.1 hne with h0 | h0 <;> simp [h0]
  have hpos : (0 : ℝ) < ((h * w : ℕ) : ℝ) := by exact_mod_cast Nat.pos_of_ne_zero hne
  have e : ∀ i j, normSq ((ifftDefault ⟨h, w, X⟩).px i j) = normSq ((ifftOrtho ⟨h, w, X⟩).px i j) / ((h * w : ℕ) : ℝ) := by
    intro i j
    change normSq ((idftSum ⟨h, w, X⟩).px i j / ((h * w : ℕ) : ℂ)) =
      normSq ((idftSum ⟨h, w, X⟩).px i j / (Real.sqrt ((h * w : ℕ) : ℝ) : ℂ)) / ((h * w : ℕ) : ℝ)
    rw [normSq_div, normSq_div, normSq_ofReal, Real.mul_self_sqrt hpos.le, normSq_natCast, div_div]
  rw [← ifftOrtho_power h w X]
  change ((h * w : ℕ) : ℝ) * ∑ i ∈ range h, ∑ j ∈ range w, normSq ((ifftDefault ⟨h, w, X⟩).px i j) = _
  simp only [e, ← Finset.sum_div]
  field_simp

theorem fftOrtho_sub (h w : ℕ) (x y : ℕ → ℕ → ℂ) (k l : ℕ) :
    (fftOrtho ⟨h, w, fun i j => x i j - y i j⟩).px k l = (fftOrtho ⟨h, w, x⟩).px k l - (fftOrtho ⟨h, w, y⟩).px k l := by
  change (∑ i ∈ range h, ∑ j ∈ range w, (x i j - y i j) * _) / _ =
    (∑ i ∈ range h, ∑ j ∈ range w, x i j * _) / _ - (∑ i ∈ range h, ∑ j ∈ range w, y i j * _) / _
  rw [← sub_div, ← Finset.sum_sub_distrib]
  congr 1
  refine Finset.sum_congr rfl fun i _ => ?_
  rw [← Finset.sum_sub_distrib]
  refine Finset.sum_congr rfl fun j _ => ?_
  ring

theorem ifftOrtho_sub (h w : ℕ) (X Y : ℕ → ℕ → ℂ) (i j : ℕ) :
    (ifftOrtho ⟨h, w, fun k l => X k l - Y k l⟩).px i j = (ifftOrtho ⟨h, w, X⟩).px i j - (ifftOrtho ⟨h, w, Y⟩).px i j := by
  change (∑ k ∈ range h, ∑ l ∈ range w, (X k l - Y k l) * _) / _ =
    (∑ k ∈ range h, ∑ l ∈ range w, X k l * _) / _ - (∑ k ∈ range h, ∑ l ∈ range w, Y k l * _) / _
  rw [← sub_div, ← Finset.sum_sub_distrib]
  congr 1
  refine Finset.sum_congr rfl fun k _ => ?_
  rw [← Finset.sum_sub_distrib]
  refine Finset.sum_congr rfl fun l _ => ?_
  ring

theorem ifftDefault_sub (h w : ℕ) (X Y : ℕ → ℕ → ℂ) (i j : ℕ) :
    (ifftDefault ⟨h, w, fun k l => X k l - Y k l⟩).px i j =
      (ifftDefault ⟨h, w, X⟩).px i j - (ifftDefault ⟨h, w, Y⟩).px i j := by
  change (∑ k ∈ range h, ∑ l ∈ range w, (X k l - Y k l) * _) / _ =
    (∑ k ∈ range h, ∑ l ∈ range w, X k l * _) / _ - (∑ k ∈ range h, ∑ l ∈ range w, Y k l * _) / _
  rw [← sub_div, ← Finset.sum_sub_distrib]
  congr 1
  refine Finset.sum_congr rfl fun k _ => ?_
  rw [← Finset.sum_sub_distrib]
  refine Finset.sum_congr rfl fun l _ => ?_
  ring

theorem ifftDefault_same (h w : ℕ) (X Y : ℕ → ℕ → ℂ) (e : ∀ k < h, ∀ l < w, X k l = Y k l) (i j : ℕ) :
    (ifftDefault ⟨h, w, X⟩).px i j = (ifftDefault ⟨h, w, Y⟩).px i j := by
  change (∑ k ∈ range h, ∑ l ∈ range w, X k l * _) / _ = (∑ k ∈ range h, ∑ l ∈ range w, Y k l * _) / _
  congr 1
  exact Finset.sum_congr rfl fun k hk => Finset.sum_congr rfl fun l hl => by rw [e k (mem_range.1 hk) l (mem_range.1 hl)]

/-- The transform of Zackay's difference of two images with pixels `r` and `n`. -/
noncomputable def diffHat (ref new : SubImg) (b : ℝ) (h w : ℕ) (r n : ℕ → ℕ → ℂ) (k l : ℕ) : ℂ :=
  zackayD ref.var new.var 1 b (centredPsf ref k l) (centredPsf new k l) ((fftOrtho ⟨h, w, r⟩).px k l)
    ((fftOrtho ⟨h, w, n⟩).px k l)

/-- The transform of Zackay's coadd of two images with pixels `r` and `n`. -/
noncomputable def sumHat (ref new : SubImg) (zr zn : ℝ) (h w : ℕ) (r n : ℕ → ℕ → ℂ) (k l : ℕ) : ℂ :=
  zackayR ![zr, zn] ![ref.var, new.var] ![(fftOrtho ⟨h, w, r⟩).px k l, (fftOrtho ⟨h, w, n⟩).px k l]
    ![centredPsf ref k l, centredPsf new k l]

theorem diffHat_sub (ref new : SubImg) (b : ℝ) (h w : ℕ) (r n r' n' : ℕ → ℕ → ℂ) (k l : ℕ) :
    diffHat ref new b h w (fun i j => r' i j - r i j) (fun i j => n' i j - n i j) k l =
      diffHat ref new b h w r' n' k l - diffHat ref new b h w r n k l := by
  unfold diffHat zackayD
  rw [fftOrtho_sub, fftOrtho_sub, ← sub_div]
  congr 1
  ring

theorem sumHat_sub (ref new : SubImg) (zr zn : ℝ) (h w : ℕ) (r n r' n' : ℕ → ℕ → ℂ) (k l : ℕ) :
    sumHat ref new zr zn h w (fun i j => r' i j - r i j) (fun i j => n' i j - n i j) k l =
      sumHat ref new zr zn h w r' n' k l - sumHat ref new zr zn h w r n k l := by
  unfold sumHat zackayR
  simp only [Fin.sum_univ_two, Matrix.cons_val_zero, Matrix.cons_val_one, Matrix.cons_val_fin_one]
  rw [fftOrtho_sub, fftOrtho_sub, ← sub_div]
  congr 1
  ring

theorem diff_power_le (ref new : SubImg) (b : ℝ) (h w : ℕ) (hr : ref.var ≠ 0) (hn : new.var ≠ 0) (r n : ℕ → ℕ → ℂ) :
    imgPower (ifftOrtho ⟨h, w, diffHat ref new b h w r n⟩) ≤
      imgPower ⟨h, w, r⟩ / ref.var ^ 2 + imgPower ⟨h, w, n⟩ / new.var ^ 2 := by
  change ∑ i ∈ range h, ∑ j ∈ range w, normSq ((ifftOrtho ⟨h, w, diffHat ref new b h w r n⟩).px i j) ≤ _
  unfold imgPower
  rw [ifftOrtho_power, ← fftOrtho_power h w r, ← fftOrtho_power h w n, Finset.sum_div, Finset.sum_div, ← Finset.sum_add_distrib]
  refine Finset.sum_le_sum fun k _ => ?_
  rw [Finset.sum_div, Finset.sum_div, ← Finset.sum_add_distrib]
  exact Finset.sum_le_sum fun l _ => zackayD_power_le _ _ b hr hn _ _ _ _

theorem power_split_pixels (ref new : SubImg) (b zr : ℝ) (h w : ℕ) (hr : ref.var ≠ 0) (hn : new.var ≠ 0) (hz : zr ≠ 0)
    (hP : ∀ k < h, ∀ l < w, centredPsf ref k l ≠ 0) (r n : ℕ → ℕ → ℂ) :
    imgPower (ifftOrtho ⟨h, w, diffHat ref new b h w r n⟩) +
        ((h * w : ℕ) : ℝ) * imgPower (ifftDefault ⟨h, w, sumHat ref new zr (b * zr) h w r n⟩) =
      imgPower ⟨h, w, r⟩ / ref.var ^ 2 + imgPower ⟨h, w, n⟩ / new.var ^ 2 := by
  rw [imgPower_ifftDefault]
  change ∑ i ∈ range h, ∑ j ∈ range w, normSq ((ifftOrtho ⟨h, w, diffHat ref new b h w r n⟩).px i j) + _ = _
  unfold imgPower
  rw [ifftOrtho_power, ← fftOrtho_power h w r, ← fftOrtho_power h w n, Finset.sum_div, Finset.sum_div, ← Finset.sum_add_distrib,
    ← Finset.sum_add_distrib]
  refine Finset.sum_congr rfl fun k hk => ?_
  rw [Finset.sum_div, Finset.sum_div, ← Finset.sum_add_distrib, ← Finset.sum_add_distrib]
  exact Finset.sum_congr rfl fun l hl =>
    zackay_split _ _ b zr hr hn hz _ _ _ _ (hP k (mem_range.1 hk) l (mem_range.1 hl))

/-! ## The calls -/

/-- The same image as `coadd` reads it, if its PSF does not vary. -/
noncomputable def SubImg.exposure (d : SubImg) (zp : ℝ) : SinglePsf :=
  ⟨toC d.interped, toC d.psf, centerOfMass d.psf, zp, d.var, d.mask⟩

/-- Two images of the same shape with the same PSF and noise. -/
structure SameOptics (d d' : SubImg) : Prop where
  psf : d'.psf = d.psf
  var : d'.var = d.var
  shape : d'.interped.shape = d.interped.shape

theorem SameOptics.h_eq {d d' : SubImg} (s : SameOptics d d') : d'.interped.h = d.interped.h := congrArg Prod.fst s.shape
theorem SameOptics.w_eq {d d' : SubImg} (s : SameOptics d d') : d'.interped.w = d.interped.w := congrArg Prod.snd s.shape

theorem SameOptics.centred {d d' : SubImg} (s : SameOptics d d') (k l : ℕ) : centredPsf d' k l = centredPsf d k l := by
  unfold centredPsf SubImg.psfHat SubImg.h SubImg.w
  rw [s.psf, s.h_eq, s.w_eq]

/-- Pixels as complex numbers. -/
noncomputable def pixC (a : Img ℝ) (i j : ℕ) : ℂ := ((a.px i j : ℝ) : ℂ)

theorem diffHat_same (ref new ref' new' : SubImg) (b : ℝ) (h w : ℕ) (sr : SameOptics ref ref') (sn : SameOptics new new')
    (r n : ℕ → ℕ → ℂ) : diffHat ref' new' b h w r n = diffHat ref new b h w r n := by
  funext k l
  unfold diffHat
  rw [sr.var, sn.var, sr.centred, sn.centred]

theorem sumHat_same (ref new ref' new' : SubImg) (zr zn : ℝ) (h w : ℕ) (sr : SameOptics ref ref') (sn : SameOptics new new')
    (r n : ℕ → ℕ → ℂ) : sumHat ref' new' zr zn h w r n = sumHat ref new zr zn h w r n := by
  funext k l
  unfold sumHat
  rw [sr.var, sn.var, sr.centred, sn.centred]

theorem dHat_eq_diffHat (ref new : SubImg) (h w : ℕ) (hr : ref.interped.shape = (h, w)) (hn : new.interped.shape = (h, w))
    (b : ℝ) : dHat ref new b 0 0 = ⟨h, w, diffHat ref new b h w (pixC ref.interped) (pixC new.interped)⟩ := by
  have r1 : ref.interped.h = h := congrArg Prod.fst hr
  have r2 : ref.interped.w = w := congrArg Prod.snd hr
  have n1 : new.interped.h = h := congrArg Prod.fst hn
  have n2 : new.interped.w = w := congrArg Prod.snd hn
  subst r1 r2
  have e : (dHat ref new b 0 0).px = diffHat ref new b ref.interped.h ref.interped.w (pixC ref.interped) (pixC new.interped) := by
    funext k l
    rw [subtract_D_is_zackay ref new n1 n2 b 0 0 k l]
    have s1 : shiftPhase ref.h ref.w (0, 0) k l = 1 := by simp [shiftPhase, tw_zero]
    rw [s1, mul_one]
    have q : new.interpedHat.px k l = (fftOrtho ⟨ref.interped.h, ref.interped.w, pixC new.interped⟩).px k l := by
      rw [← n1, ← n2]
      rfl
    rw [q]
    rfl
  rw [← e]
  rfl

/-- What `subtract` without the fits and `coadd` return for the same two images. -/
theorem calls_return (env : SubEnv) (it : Bool) (lt : List CoImg → List CoImg → Option Bool) (ref new : SubImg) (h w psfShape : ℕ)
    (procs : ℤ) (z : ℝ × ℝ) (hmr : ref.mask.HasShape h w) (hmn : new.mask.HasShape h w) (hz : env.zps = .ok z)
    (hc : env.fitted = true ∨ (0 ≤ (centerOfMass new.psf).1 ∧ 0 ≤ (centerOfMass new.psf).2))
    (hr : ref.interped.shape = (h, w)) (hn : new.interped.shape = (h, w)) (hp : procs ≤ 2) :
    ∃ out out', subtract env ⟨false, false, it⟩ ref new = .ok out ∧
      coaddCore lt ((List.ofFn ![ref.exposure z.1, new.exposure z.2]).map SinglePsf.toCoImg) psfShape procs = .ok out' ∧
      out.D = ifftOrtho ⟨h, w, diffHat ref new (z.2 / z.1) h w (pixC ref.interped) (pixC new.interped)⟩ ∧
      (GuardIdle h w ref.psf → GuardIdle h w new.psf → ∀ i j, out'.R.px i j =
        (ifftDefault ⟨h, w, sumHat ref new z.1 z.2 h w (pixC ref.interped) (pixC new.interped)⟩).px i j) ∧
      out'.R.h = h ∧ out'.R.w = w := by
  obtain ⟨out, e, eD, -, -⟩ := subtract_returns env it ref new h w hr hn hmr hmn z hz hc
  have r1 : ref.interped.h = h := congrArg Prod.fst hr
  have r2 : ref.interped.w = w := congrArg Prod.snd hr
  have n1 : new.interped.h = h := congrArg Prod.fst hn
  have n2 : new.interped.w = w := congrArg Prod.snd hn
  obtain ⟨out', e', eR, -⟩ := coadd_single_spec lt (by norm_num) ![ref.exposure z.1, new.exposure z.2] h w psfShape procs (by
    intro j
    fin_cases j
    · exact ⟨r1, r2, hmr⟩
    · exact ⟨n1, n2, hmn⟩) hp (by omega) (by omega)
  refine ⟨out, out', e, e', ?_, ?_, by rw [eR]; rfl, by rw [eR]; rfl⟩
  · rw [eD, dHat_eq_diffHat ref new h w hr hn]
  · intro gr gn i j
    rw [eR]
    refine ifftDefault_same h w _ _ (fun k hk l hl => ?_) i j
    rw [coadd_is_zackay]
    have nz : ∀ d : SubImg, d.interped.h = h → d.interped.w = w → GuardIdle h w d.psf → ∀ zp : ℝ,
        (starRingEnd ℂ) ((d.exposure zp).psfHat.px k l) * ((fftOrtho (d.exposure zp).interped).px k l *
          shiftPhase (d.exposure zp).interped.h (d.exposure zp).interped.w (d.exposure zp).com k l) =
        (starRingEnd ℂ) (centredPsf d k l) * (fftOrtho ⟨h, w, pixC d.interped⟩).px k l ∧
        normSq ((d.exposure zp).psfHat.px k l) = normSq (centredPsf d k l) := by
      intro d d1 d2 hg zp
      have q := psfHat_idle d h w d1 d2 hg k l hk hl
      have q' : (d.exposure zp).psfHat.px k l = d.psfHat.px k l := by
        rw [q, ← d1, ← d2]
        rfl
      have qc : (starRingEnd ℂ) (shiftPhase d.h d.w (negPair (centerOfMass d.psf)) k l) =
          shiftPhase d.h d.w (centerOfMass d.psf) k l := by
        have a1 := shiftPhase_conj_mul d.h d.w (negPair (centerOfMass d.psf)) k l
        have a2 := shiftPhase_neg_mul d.h d.w (centerOfMass d.psf) k l
        have a3 : shiftPhase d.h d.w (negPair (centerOfMass d.psf)) k l ≠ 0 := left_ne_zero_of_mul_eq_one a1
        refine mul_left_cancel₀ a3 ?_
        rw [a1, mul_comm, a2]
      refine ⟨?_, ?_⟩
      · rw [q']
        unfold centredPsf
        rw [map_mul, qc, ← d1, ← d2]
        change _ * ((fftOrtho (toC d.interped)).px k l * shiftPhase d.h d.w (centerOfMass d.psf) k l) =
          _ * (fftOrtho (toC d.interped)).px k l
        ring
      · rw [q', normSq_centredPsf]
    obtain ⟨a1, a2⟩ := nz ref r1 r2 gr z.1
    obtain ⟨b1, b2⟩ := nz new n1 n2 gn z.2
    unfold sumHat zackayR
    simp only [Fin.sum_univ_two, Matrix.cons_val_zero, Matrix.cons_val_one, Matrix.cons_val_fin_one]
    rw [a1, a2, b1, b2]
    rfl

theorem guardHat_ne (z : ℂ) : guardHat z ≠ 0 := by
  unfold guardHat
  split
  · next h =>
    intro h0
    have : (epsR : ℝ) = 0 := by exact_mod_cast h0
    have hp : (0 : ℝ) < epsR := by unfold epsR; positivity
    linarith
  · next h => exact fun h0 => h (by rw [h0]; rfl)

theorem centredPsf_ne (d : SubImg) (k l : ℕ) : centredPsf d k l ≠ 0 := by
  rw [← normSq_pos, normSq_centredPsf, normSq_pos]
  exact guardHat_ne _

theorem imgPower_congr (a b : Img ℂ) (h w : ℕ) (ha : a.h = h) (ha' : a.w = w) (hb : b.h = h) (hb' : b.w = w)
    (e : ∀ i < h, ∀ j < w, a.px i j = b.px i j) : imgPower a = imgPower b := by
  unfold imgPower
  rw [ha, ha', hb, hb']
  exact Finset.sum_congr rfl fun i hi => Finset.sum_congr rfl fun j hj => by rw [e i (mem_range.1 hi) j (mem_range.1 hj)]

theorem imgPower_zero (a : Img ℂ) (h0 : imgPower a = 0) (i j : ℕ) (hi : i < a.h) (hj : j < a.w) : a.px i j = 0 := by
  unfold imgPower at h0
  have h1 := (Finset.sum_eq_zero_iff_of_nonneg fun i _ => Finset.sum_nonneg fun j _ => normSq_nonneg _).1 h0 i (mem_range.2 hi)
  exact normSq_eq_zero.1 ((Finset.sum_eq_zero_iff_of_nonneg fun j _ => normSq_nonneg _).1 h1 j (mem_range.2 hj))

section
variable (env : SubEnv) (it : Bool) (lt : List CoImg → List CoImg → Option Bool) (ref new : SubImg) (h w psfShape : ℕ)
    (procs : ℤ) (z : ℝ × ℝ) (hmr : ref.mask.HasShape h w) (hmn : new.mask.HasShape h w) (hz : env.zps = .ok z)
    (hc : env.fitted = true ∨ (0 ≤ (centerOfMass new.psf).1 ∧ 0 ≤ (centerOfMass new.psf).2))
    (hr : ref.interped.shape = (h, w)) (hn : new.interped.shape = (h, w)) (hp : procs ≤ 2) (hvr : ref.var ≠ 0) (hvn : new.var ≠ 0)
include hmr hmn hz hc hr hn hp hvr hvn

/-- **C143 (power).** The power of the difference image plus that of the coadd of the same two images, times the number of pixels,
is the power of the two images in units of their noises. -/
theorem power_split (hz0 : z.1 ≠ 0) (gr : GuardIdle h w ref.psf) (gn : GuardIdle h w new.psf) :
    ∃ out out', subtract env ⟨false, false, it⟩ ref new = .ok out ∧
      coaddCore lt ((List.ofFn ![ref.exposure z.1, new.exposure z.2]).map SinglePsf.toCoImg) psfShape procs = .ok out' ∧
      imgPower out.D + ((h * w : ℕ) : ℝ) * imgPower out'.R =
        imgPower ⟨h, w, pixC ref.interped⟩ / ref.var ^ 2 + imgPower ⟨h, w, pixC new.interped⟩ / new.var ^ 2 := by
  obtain ⟨out, out', e, e', eD, eR, s1, s2⟩ :=
    calls_return env it lt ref new h w psfShape procs z hmr hmn hz hc hr hn hp
  refine ⟨out, out', e, e', ?_⟩
  have q := power_split_pixels ref new (z.2 / z.1) z.1 h w hvr hvn hz0 (fun k _ l _ => centredPsf_ne ref k l)
    (pixC ref.interped) (pixC new.interped)
  rw [div_mul_cancel₀ _ hz0] at q
  rw [← q, eD, imgPower_congr out'.R (ifftDefault ⟨h, w, sumHat ref new z.1 z.2 h w (pixC ref.interped) (pixC new.interped)⟩)
    h w s1 s2 rfl rfl fun i _ j _ => eR gr gn i j]

omit hp in
/-- **C143 (errors).** If the pixels of the two images change, the power of the change of the difference image is at most that of
the changes in units of the noises. -/
theorem errors_not_amplified (ref' new' : SubImg) (sr : SameOptics ref ref') (sn : SameOptics new new')
    (hmr' : ref'.mask.HasShape h w) (hmn' : new'.mask.HasShape h w) :
    ∃ out out', subtract env ⟨false, false, it⟩ ref new = .ok out ∧ subtract env ⟨false, false, it⟩ ref' new' = .ok out' ∧
      ∑ i ∈ range h, ∑ j ∈ range w, normSq (out'.D.px i j - out.D.px i j) ≤
        (∑ i ∈ range h, ∑ j ∈ range w, (ref'.interped.px i j - ref.interped.px i j) ^ 2) / ref.var ^ 2 +
        (∑ i ∈ range h, ∑ j ∈ range w, (new'.interped.px i j - new.interped.px i j) ^ 2) / new.var ^ 2 := by
  obtain ⟨out, o1, e, e1, eD, -⟩ := calls_return env it (fun _ _ => none) ref new h w 0 0 z hmr hmn hz hc hr hn (by norm_num)
  obtain ⟨out', o2, e', e2, eD', -⟩ := calls_return env it (fun _ _ => none) ref' new' h w 0 0 z hmr' hmn' hz
    (by rw [sn.psf]; exact hc) (sr.shape.trans hr) (sn.shape.trans hn) (by norm_num)
  refine ⟨out, out', e, e', ?_⟩
  have q := diff_power_le ref new (z.2 / z.1) h w hvr hvn (fun i j => pixC ref'.interped i j - pixC ref.interped i j)
    (fun i j => pixC new'.interped i j - pixC new.interped i j)
  have eX : diffHat ref new (z.2 / z.1) h w (fun i j => pixC ref'.interped i j - pixC ref.interped i j)
      (fun i j => pixC new'.interped i j - pixC new.interped i j) = fun k l =>
      diffHat ref new (z.2 / z.1) h w (pixC ref'.interped) (pixC new'.interped) k l -
        diffHat ref new (z.2 / z.1) h w (pixC ref.interped) (pixC new.interped) k l := by
    funext k l
    exact diffHat_sub ref new (z.2 / z.1) h w _ _ _ _ k l
  rw [eX] at q
  rw [eD, eD', diffHat_same ref new ref' new' _ h w sr sn]
  have eL : ∀ i j, normSq ((ifftOrtho ⟨h, w, diffHat ref new (z.2 / z.1) h w (pixC ref'.interped) (pixC new'.interped)⟩).px i j -
      (ifftOrtho ⟨h, w, diffHat ref new (z.2 / z.1) h w (pixC ref.interped) (pixC new.interped)⟩).px i j) =
      normSq ((ifftOrtho ⟨h, w, fun k l =>
        diffHat ref new (z.2 / z.1) h w (pixC ref'.interped) (pixC new'.interped) k l -
          diffHat ref new (z.2 / z.1) h w (pixC ref.interped) (pixC new.interped) k l⟩).px i j) := fun i j => by
    rw [ifftOrtho_sub]
  simp only [eL]
  have eP : ∀ (a b : Img ℝ), imgPower ⟨h, w, fun i j => pixC a i j - pixC b i j⟩ =
      ∑ i ∈ range h, ∑ j ∈ range w, (a.px i j - b.px i j) ^ 2 := by
    intro a b
    refine Finset.sum_congr rfl fun i _ => Finset.sum_congr rfl fun j _ => ?_
    change normSq (((a.px i j : ℝ) : ℂ) - ((b.px i j : ℝ) : ℂ)) = _
    rw [← ofReal_sub, normSq_ofReal, sq]
  rw [eP, eP] at q
  exact q

/-- **C143 (nothing is lost).** Two pairs of images with the same PSFs, noises and zero points that have the same difference image and
the same coadd are the same pair. -/
theorem pair_recovered (ref' new' : SubImg) (sr : SameOptics ref ref') (sn : SameOptics new new')
    (hmr' : ref'.mask.HasShape h w) (hmn' : new'.mask.HasShape h w) (hz0 : z.1 ≠ 0) (gr : GuardIdle h w ref.psf)
    (gn : GuardIdle h w new.psf) (out out' : SubOut) (co co' : CoaddOut)
    (e : subtract env ⟨false, false, it⟩ ref new = .ok out) (e' : subtract env ⟨false, false, it⟩ ref' new' = .ok out')
    (c : coaddCore lt ((List.ofFn ![ref.exposure z.1, new.exposure z.2]).map SinglePsf.toCoImg) psfShape procs = .ok co)
    (c' : coaddCore lt ((List.ofFn ![ref'.exposure z.1, new'.exposure z.2]).map SinglePsf.toCoImg) psfShape procs = .ok co')
    (hD : ∀ i < h, ∀ j < w, out'.D.px i j = out.D.px i j) (hR : ∀ i < h, ∀ j < w, co'.R.px i j = co.R.px i j) :
    ∀ i < h, ∀ j < w, ref'.interped.px i j = ref.interped.px i j ∧ new'.interped.px i j = new.interped.px i j := by
  obtain ⟨o, k, f, g, eD, eR, -⟩ := calls_return env it lt ref new h w psfShape procs z hmr hmn hz hc hr hn hp
  obtain ⟨o', k', f', g', eD', eR', -⟩ := calls_return env it lt ref' new' h w psfShape procs z hmr' hmn' hz
    (by rw [sn.psf]; exact hc) (sr.shape.trans hr) (sn.shape.trans hn) hp
  obtain rfl : out = o := by rw [e] at f; exact Except.ok.inj f
  obtain rfl : out' = o' := by rw [e'] at f'; exact Except.ok.inj f'
  obtain rfl : co = k := by rw [c] at g; exact Except.ok.inj g
  obtain rfl : co' = k' := by rw [c'] at g'; exact Except.ok.inj g'
  have eR := eR gr gn
  have eR' := eR' (by rw [sr.psf]; exact gr) (by rw [sn.psf]; exact gn)
  rw [diffHat_same ref new ref' new' _ h w sr sn] at eD'
  rw [sumHat_same ref new ref' new' _ _ h w sr sn] at eR'
  have q := power_split_pixels ref new (z.2 / z.1) z.1 h w hvr hvn hz0 (fun k _ l _ => centredPsf_ne ref k l)
    (fun i j => pixC ref'.interped i j - pixC ref.interped i j) (fun i j => pixC new'.interped i j - pixC new.interped i j)
  rw [div_mul_cancel₀ _ hz0] at q
  have z1 : imgPower (ifftOrtho ⟨h, w, diffHat ref new (z.2 / z.1) h w (fun i j => pixC ref'.interped i j - pixC ref.interped i j)
      (fun i j => pixC new'.interped i j - pixC new.interped i j)⟩) = 0 := by
    rw [show diffHat ref new (z.2 / z.1) h w (fun i j => pixC ref'.interped i j - pixC ref.interped i j)
        (fun i j => pixC new'.interped i j - pixC new.interped i j) = fun k l =>
        diffHat ref new (z.2 / z.1) h w (pixC ref'.interped) (pixC new'.interped) k l -
        diffHat ref new (z.2 / z.1) h w (pixC ref.interped) (pixC new.interped) k l from by
      funext k l; exact diffHat_sub ref new (z.2 / z.1) h w _ _ _ _ k l]
    refine Finset.sum_eq_zero fun i hi => Finset.sum_eq_zero fun j hj => ?_
    rw [ifftOrtho_sub, ← eD, ← eD', hD i (mem_range.1 hi) j (mem_range.1 hj), sub_self, normSq_zero]
  have z2 : imgPower (ifftDefault ⟨h, w, sumHat ref new z.1 z.2 h w (fun i j => pixC ref'.interped i j - pixC ref.interped i j)
      (fun i j => pixC new'.interped i j - pixC new.interped i j)⟩) = 0 := by
    rw [show sumHat ref new z.1 z.2 h w (fun i j => pixC ref'.interped i j - pixC ref.interped i j)
        (fun i j => pixC new'.interped i j - pixC new.interped i j) = fun k l =>
        sumHat ref new z.1 z.2 h w (pixC ref'.interped) (pixC new'.interped) k l -
        sumHat ref new z.1 z.2 h w (pixC ref.interped) (pixC new.interped) k l from by
      funext k l; exact sumHat_sub ref new z.1 z.2 h w _ _ _ _ k l]
    refine Finset.sum_eq_zero fun i hi => Finset.sum_eq_zero fun j hj => ?_
    rw [ifftDefault_sub, ← eR, ← eR', hR i (mem_range.1 hi) j (mem_range.1 hj), sub_self, normSq_zero]
  rw [z1, z2, mul_zero, add_zero] at q
  have pos1 : 0 < ref.var ^ 2 := by positivity
  have pos2 : 0 < new.var ^ 2 := by positivity
  have nn : ∀ a : Img ℂ, 0 ≤ imgPower a := fun a => Finset.sum_nonneg fun i _ => Finset.sum_nonneg fun j _ => normSq_nonneg _
  have t1 := div_nonneg (nn ⟨h, w, fun i j => pixC ref'.interped i j - pixC ref.interped i j⟩) pos1.le
  have t2 := div_nonneg (nn ⟨h, w, fun i j => pixC new'.interped i j - pixC new.interped i j⟩) pos2.le
  have u := (add_eq_zero_iff_of_nonneg t1 t2).1 q.symm
  have u1 := (div_eq_zero_iff.1 u.1).resolve_right pos1.ne'
  have u2 := (div_eq_zero_iff.1 u.2).resolve_right pos2.ne'
  intro i hi j hj
  have v1 := imgPower_zero _ u1 i j hi hj
  have v2 := imgPower_zero _ u2 i j hi hj
  constructor
  · exact ofReal_injective (sub_eq_zero.1 v1)
  · exact ofReal_injective (sub_eq_zero.1 v2)
end

/-- **C143 (coadd).** The power of the coadd of any number of images, times the number of pixels, is at most that of the images in units
of their noises. -/
theorem coadd_power_bound (lt : List CoImg → List CoImg → Option Bool) {n : ℕ} (hn : 0 < n) (d : Fin n → SinglePsf)
    (h w psfShape : ℕ) (procs : ℤ) (hs : ∀ j, (d j).interped.h = h ∧ (d j).interped.w = w ∧ (d j).mask.HasShape h w)
    (hv : ∀ j, (d j).var ≠ 0) (hp : procs ≤ n) (hp' : procs ≤ 2 ^ 25) (hb : procs * n ≤ 2 ^ 50) :
    ∃ out, coaddCore lt ((List.ofFn d).map SinglePsf.toCoImg) psfShape procs = .ok out ∧
      ((h * w : ℕ) : ℝ) * imgPower out.R ≤ ∑ j, imgPower (d j).interped / (d j).var ^ 2 := by
  obtain ⟨out, e, eR, -⟩ := coadd_single_spec lt hn d h w psfShape procs hs hp hp' hb
  refine ⟨out, e, ?_⟩
  rw [eR, imgPower_ifftDefault]
  have b : ∀ k l, normSq (coaddRhat ((List.ofFn d).map SinglePsf.toCoImg) k l) ≤
      ∑ j, normSq ((fftOrtho (d j).interped).px k l) / (d j).var ^ 2 := by
    intro k l
    rw [coadd_is_zackay]
    refine (zackayR_power_le _ _ hv _ _).trans (le_of_eq (Finset.sum_congr rfl fun j _ => ?_))
    rw [normSq_mul, normSq_shiftPhase, mul_one]
  refine (Finset.sum_le_sum fun k _ => Finset.sum_le_sum fun l _ => b k l).trans (le_of_eq ?_)
  have c : ∀ j, imgPower (d j).interped / (d j).var ^ 2 =
      ∑ k ∈ range h, ∑ l ∈ range w, normSq ((fftOrtho (d j).interped).px k l) / (d j).var ^ 2 := by
    intro j
    have f : ∑ k ∈ range (d j).interped.h, ∑ l ∈ range (d j).interped.w, normSq ((fftOrtho (d j).interped).px k l) =
        imgPower (d j).interped := fftOrtho_power (d j).interped.h (d j).interped.w (d j).interped.px
    rw [← f, (hs j).1, (hs j).2.1, Finset.sum_div]
    exact Finset.sum_congr rfl fun k _ => by rw [Finset.sum_div]
  have c' : ∑ j, imgPower (d j).interped / (d j).var ^ 2 = ∑ k ∈ range h, ∑ j,
      ∑ l ∈ range w, normSq ((fftOrtho (d j).interped).px k l) / (d j).var ^ 2 := by
    rw [Finset.sum_congr rfl fun j _ => c j, Finset.sum_comm]
  rw [c']
  exact Finset.sum_congr rfl fun k _ => Finset.sum_comm

/-- An error `e` in one pixel of the new image moves no pixel of the difference image by more than `|e|` in units of the noise. -/
theorem pixel_error (env : SubEnv) (it : Bool) (ref new : SubImg) (h w : ℕ) (z : ℝ × ℝ) (hmr : ref.mask.HasShape h w)
    (hmn : new.mask.HasShape h w) (hz : env.zps = .ok z)
    (hc : env.fitted = true ∨ (0 ≤ (centerOfMass new.psf).1 ∧ 0 ≤ (centerOfMass new.psf).2))
    (hr : ref.interped.shape = (h, w)) (hn : new.interped.shape = (h, w)) (hvr : ref.var ≠ 0) (hvn : 0 < new.var)
    (a b : ℕ) (e : ℝ) (px : Img ℝ) (hpx : px = ⟨new.interped.h, new.interped.w, fun i j =>
      new.interped.px i j + if i = a ∧ j = b then e else 0⟩) :
    ∃ out out', subtract env ⟨false, false, it⟩ ref new = .ok out ∧
      subtract env ⟨false, false, it⟩ ref { new with interped := px } = .ok out' ∧
      ∀ i < h, ∀ j < w, ‖out'.D.px i j - out.D.px i j‖ ≤ |e| / new.var := by
  obtain ⟨out, out', f, f', q⟩ := errors_not_amplified env it ref new h w z hmr hmn hz hc hr hn hvr hvn.ne' ref
    { new with interped := px } ⟨rfl, rfl, rfl⟩ ⟨rfl, rfl, by rw [hpx]; rfl⟩ hmr hmn
  refine ⟨out, out', f, f', fun i hi j hj => ?_⟩
  have z0 : ∑ i ∈ range h, ∑ j ∈ range w, (ref.interped.px i j - ref.interped.px i j) ^ 2 = 0 :=
    Finset.sum_eq_zero fun i _ => Finset.sum_eq_zero fun j _ => by ring
  have z1 : ∑ i ∈ range h, ∑ j ∈ range w, (px.px i j - new.interped.px i j) ^ 2 ≤ e ^ 2 := by
    rw [hpx]
    have t : ∀ i j, (new.interped.px i j + (if i = a ∧ j = b then e else 0) - new.interped.px i j) ^ 2 =
        if i = a then (if j = b then e ^ 2 else 0) else 0 := by
      intro i j
      by_cases u : i = a <;> by_cases v : j = b <;> simp [u, v]
    simp only [t]
    rw [Finset.sum_congr rfl fun i _ => show ∑ j ∈ range w, (if i = a then (if j = b then e ^ 2 else 0) else 0) =
      if i = a then (if b ∈ range w then e ^ 2 else 0) else 0 by
        by_cases u : i = a
        · simp [u]
        · simp [u]]
    rw [Finset.sum_ite_eq']
    split_ifs
    · exact le_rfl
    · exact sq_nonneg e
    · exact sq_nonneg e
  have one : normSq (out'.D.px i j - out.D.px i j) ≤ (|e| / new.var) ^ 2 := by
    refine (Finset.single_le_sum (f := fun j => normSq (out'.D.px i j - out.D.px i j)) (fun j _ => normSq_nonneg _)
      (mem_range.2 hj)).trans ?_
    refine (Finset.single_le_sum (f := fun i => ∑ j ∈ range w, normSq (out'.D.px i j - out.D.px i j))
      (fun i _ => Finset.sum_nonneg fun j _ => normSq_nonneg _) (mem_range.2 hi)).trans (q.trans ?_)
    rw [z0, zero_div, zero_add, div_pow, sq_abs]
    exact div_le_div_of_nonneg_right z1 (by positivity)
  rw [normSq_eq_norm_sq] at one
  exact abs_le_of_sq_le_sq' one (by positivity) |>.2

/-! ## Worked instance -/

/-- Two 1×3 images with unit noise and the same zero points whose PSF is one pixel: the whole power is `8 ^ 2 + 6 ^ 2`. -/
theorem power_split_example (env : SubEnv) (it : Bool) (hz : env.zps = .ok (1, 1)) :
    ∃ out out', subtract env ⟨false, false, it⟩ (pointSub fun j => if j = 1 then 8 else 0) (pointSub fun j => if j = 0 then 6 else 0)
        = .ok out ∧
      coaddCore (fun _ _ => none) ((List.ofFn ![(pointSub fun j => if j = 1 then 8 else 0).exposure 1,
        (pointSub fun j => if j = 0 then 6 else 0).exposure 1]).map SinglePsf.toCoImg) 5 2 = .ok out' ∧
      imgPower out.D + 3 * imgPower out'.R = 100 := by
  obtain ⟨out, out', e, e', q⟩ := power_split env it (fun _ _ => none) (pointSub fun j => if j = 1 then 8 else 0)
    (pointSub fun j => if j = 0 then 6 else 0) 1 3 5 2 (1, 1)
    (by simp [pointSub, dotSub, NMask.HasShape]) (by simp [pointSub, dotSub, NMask.HasShape]) hz
    (Or.inr (by
      change 0 ≤ (centerOfMass ⟨1, 1, fun _ _ => 1⟩).1 ∧ 0 ≤ (centerOfMass ⟨1, 1, fun _ _ => 1⟩).2
      unfold centerOfMass rsum
      simp)) rfl rfl le_rfl one_ne_zero one_ne_zero one_ne_zero point_idle point_idle
  refine ⟨out, out', e, e', ?_⟩
  rw [show ((1 * 3 : ℕ) : ℝ) = 3 by norm_num] at q
  rw [q]
  unfold imgPower pixC
  change (∑ i ∈ range 1, ∑ j ∈ range 3, normSq (((if j = 1 then (8 : ℝ) else 0 : ℝ) : ℂ))) / (1 : ℝ) ^ 2 +
    (∑ i ∈ range 1, ∑ j ∈ range 3, normSq (((if j = 0 then (6 : ℝ) else 0 : ℝ) : ℂ))) / (1 : ℝ) ^ 2 = 100
  simp only [normSq_ofReal, Finset.sum_range_succ, Finset.sum_range_zero]
  norm_num

end PI
