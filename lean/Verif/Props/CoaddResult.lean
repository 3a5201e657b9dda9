import Verif.Props.CoaddMore

/-!
# Properties C09, C10 and C86 on the images that `coadd` returns

The theorems of `CoaddMore` are about the accumulated transforms; these are about the returned pixels.
-/

namespace PI

open Complex Finset

/-- A shift by whole pixels in the Fourier domain rolls the image. -/
theorem idftSum_shift_roll (X : Img ℂ) (a b : ℤ) (i j : ℕ) (hi : i < X.h) (hj : j < X.w) :
    (idftSum (fourierShift X ((a : ℝ), (b : ℝ)))).px i j =
      (idftSum X).px (((i : ℤ) - a) % X.h).toNat (((j : ℤ) - b) % X.w).toNat := by
  have hh : X.h ≠ 0 := by omega
  have hw : X.w ≠ 0 := by omega
  have axis : ∀ (n k p : ℕ) (c : ℤ), n ≠ 0 →
      tw n ((sfreq n k : ℝ) * c) * tw n (-((k : ℝ) * p)) =
        tw n (-((k : ℝ) * ((((p : ℤ) - c) % n).toNat : ℕ))) := by
    intro n k p c hn
    rw [tw_sfreq n hn]
    have hnn : (0 : ℤ) ≤ ((p : ℤ) - c) % n := Int.emod_nonneg _ (by exact_mod_cast hn)
    have hcast : (((((p : ℤ) - c) % n).toNat : ℕ) : ℝ) = (((((p : ℤ) - c) % n) : ℤ) : ℝ) := by
      exact_mod_cast Int.toNat_of_nonneg hnn
    have hdm := Int.mul_ediv_add_emod ((p : ℤ) - c) n
    have hr : (((((p : ℤ) - c) % n) : ℤ) : ℝ) = (p : ℝ) - c - n * ((((p : ℤ) - c) / n : ℤ) : ℝ) := by
      have : ((p : ℤ) - c) % n = (p : ℤ) - c - n * (((p : ℤ) - c) / n) := by omega
      rw [this]; push_cast; ring
    rw [hcast, hr]
    have e : -((k : ℝ) * ((p : ℝ) - c - n * ((((p : ℤ) - c) / n : ℤ) : ℝ))) =
        ((k : ℝ) * c + -((k : ℝ) * p)) + (n : ℝ) * ((k * (((p : ℤ) - c) / n) : ℤ) : ℝ) := by
      push_cast; ring
    rw [e, tw_add n ((k : ℝ) * c + -((k : ℝ) * p)), tw_period n hn, mul_one, tw_add]
  change ∑ k ∈ range X.h, ∑ l ∈ range X.w, _ = ∑ k ∈ range X.h, ∑ l ∈ range X.w, _
  refine Finset.sum_congr rfl fun k _ => Finset.sum_congr rfl fun l _ => ?_
  change X.px k l * shiftPhase X.h X.w _ k l * (tw X.h _ * tw X.w _) = _
  rw [← axis X.h k i a hh, ← axis X.w l j b hw, shiftPhase]
  ring

/-- Zackay & Ofek's weighted PSF power at one frequency. -/
noncomputable def zackayPower {n : ℕ} (F σ : Fin n → ℝ) (P : Fin n → ℂ) : ℝ :=
  ∑ j, F j ^ 2 / σ j ^ 2 * Complex.normSq (P j)

theorem specP_single {n : ℕ} (d : Fin n → SinglePsf) (k l : ℕ) :
    specP ((List.ofFn d).map SinglePsf.toCoImg) k l =
      ((zackayPower (fun j => (d j).zp) (fun j => (d j).var) (fun j => (d j).psfHat.px k l) : ℝ) : ℂ) := by
  unfold specP zackayPower
  rw [List.map_map, List.map_ofFn, List.sum_ofFn]
  push_cast
  refine Finset.sum_congr rfl fun j _ => ?_
  simp only [Function.comp, SinglePsf.toCoImg, SinglePsf.psfSqnorm, Img.map]
  rw [Complex.mul_conj, div_pow]

theorem zackayPower_nonneg {n : ℕ} (F σ : Fin n → ℝ) (P : Fin n → ℂ) : 0 ≤ zackayPower F σ P :=
  Finset.sum_nonneg fun j _ => mul_nonneg (by positivity) (Complex.normSq_nonneg _)

theorem allShape_single {n : ℕ} (d : Fin n → SinglePsf) (h w : ℕ)
    (hs : ∀ j, (d j).interped.h = h ∧ (d j).interped.w = w ∧ (d j).mask.HasShape h w) :
    AllShape ((List.ofFn d).map SinglePsf.toCoImg) h w := by
  intro im him
  rw [List.mem_map] at him
  obtain ⟨x, hx, rfl⟩ := him
  rw [List.mem_ofFn] at hx
  obtain ⟨j, rfl⟩ := hx
  exact hs j

/-- C09: the image `R` that `coadd` returns for single-PSF images of one shape, with any admissible
number of workers: the inverse transform (with factor `1/(h w)`) of Zackay & Ofek's proper coadd. -/
theorem coadd_returns_zackay (lt : List CoImg → List CoImg → Option Bool) {n : ℕ} (hn : 0 < n)
    (d : Fin n → SinglePsf) (h w psfShape : ℕ) (procs : ℤ)
    (hs : ∀ j, (d j).interped.h = h ∧ (d j).interped.w = w ∧ (d j).mask.HasShape h w)
    (hp : procs ≤ n) (hp' : procs ≤ 2 ^ 25) (hb : procs * n ≤ 2 ^ 50) :
    ∃ out, coaddCore lt ((List.ofFn d).map SinglePsf.toCoImg) psfShape procs = .ok out ∧
      out.R.h = h ∧ out.R.w = w ∧ ∀ i j : ℕ,
        out.R.px i j = (∑ k ∈ range h, ∑ l ∈ range w,
          zackayR (fun j => (d j).zp) (fun j => (d j).var)
            (fun j => (fftOrtho (d j).interped).px k l * shiftPhase h w (d j).com k l)
            (fun j => (d j).psfHat.px k l) *
              (tw h (-((k : ℝ) * i)) * tw w (-((l : ℝ) * j)))) / ((h * w : ℕ) : ℂ) := by
  have hlen : ((List.ofFn d).map SinglePsf.toCoImg).length = n := by simp
  obtain ⟨out, e, ho, _⟩ := coadd_spec lt h w ((List.ofFn d).map SinglePsf.toCoImg) psfShape procs
    (by intro hnil; rw [hnil] at hlen; simp at hlen; omega) (allShape_single d h w hs)
    (by rw [hlen]; exact hp) hp' (by rw [hlen]; exact hb)
  have hR : out.R = ifftDefault ⟨h, w, coaddRhat ((List.ofFn d).map SinglePsf.toCoImg)⟩ := by
    rw [← coadd_R_eq h w _ psfShape, ← ho]
  refine ⟨out, e, by rw [hR]; rfl, by rw [hR]; rfl, ?_⟩
  intro i j
  rw [hR]
  change (∑ k ∈ range h, ∑ l ∈ range w, _) / _ = _
  congr 1
  refine Finset.sum_congr rfl fun k _ => Finset.sum_congr rfl fun l _ => ?_
  change coaddRhat ((List.ofFn d).map SinglePsf.toCoImg) k l * _ = _
  rw [coadd_is_zackay]
  simp only [(hs _).1, (hs _).2.1]

/-- C09: coadding `n` copies of an image multiplies every pixel of the coadd of that image by the square
root of `n`. -/
theorem coadd_copies_pixels (lt : List CoImg → List CoImg → Option Bool) (n : ℕ) (hn : 0 < n)
    (d : SinglePsf) (psfShape : ℕ) (procs : ℤ) (hm : d.mask.HasShape d.interped.h d.interped.w)
    (hp : procs ≤ n) (hp' : procs ≤ 2 ^ 25) (hb : procs * n ≤ 2 ^ 50) :
    ∃ out one, coaddCore lt (List.replicate n d.toCoImg) psfShape procs = .ok out ∧
      coaddCore lt [d.toCoImg] psfShape 1 = .ok one ∧
      ∀ i j : ℕ, out.R.px i j = ((Real.sqrt n : ℝ) : ℂ) * one.R.px i j := by
  have hall : ∀ m, AllShape (List.replicate m d.toCoImg) d.interped.h d.interped.w := by
    intro m im him
    rw [List.eq_of_mem_replicate him]
    exact ⟨rfl, rfl, hm⟩
  obtain ⟨out, e, ho, _⟩ := coadd_spec lt d.interped.h d.interped.w (List.replicate n d.toCoImg) psfShape procs
    (by intro hnil; have := congrArg List.length hnil; simp at this; omega) (hall n)
    (by simpa using hp) hp' (by simpa using hb)
  obtain ⟨one, e1, ho1, _⟩ := coadd_spec lt d.interped.h d.interped.w [d.toCoImg] psfShape 1
    (by simp) (hall 1) (by simp) (by norm_num) (by norm_num)
  have hR : out.R = ifftDefault ⟨d.interped.h, d.interped.w, coaddRhat (List.replicate n d.toCoImg)⟩ := by
    rw [← coadd_R_eq d.interped.h d.interped.w _ psfShape, ← ho]
  have hR1 : one.R = ifftDefault ⟨d.interped.h, d.interped.w, coaddRhat [d.toCoImg]⟩ := by
    rw [← coadd_R_eq d.interped.h d.interped.w _ psfShape, ← ho1]
  refine ⟨out, one, e, e1, ?_⟩
  intro i j
  rw [hR, hR1]
  change (∑ k ∈ range d.interped.h, ∑ l ∈ range d.interped.w, _) / _ =
    _ * ((∑ k ∈ range d.interped.h, ∑ l ∈ range d.interped.w, _) / _)
  rw [← mul_div_assoc, Finset.mul_sum]
  congr 1
  refine Finset.sum_congr rfl fun k _ => ?_
  rw [Finset.mul_sum]
  refine Finset.sum_congr rfl fun l _ => ?_
  change coaddRhat (List.replicate n d.toCoImg) k l * _ = _ * (coaddRhat [d.toCoImg] k l * _)
  rw [coadd_copies n hn d.toCoImg k l _ (Complex.normSq_nonneg _) (singlePsf_sqnorm d k l), mul_assoc]

/-- C10: the PSF image `coadd` returns for single-PSF images: the square root of the weighted PSF power,
relative to frequency zero, transformed back and rolled by the stamp size along both axes. It sums to one
if the power at frequency zero is not zero, that is, if an image with a non-zero zero point and noise has
a PSF with non-zero sum. -/
theorem coadd_returns_psf (lt : List CoImg → List CoImg → Option Bool) {n : ℕ} (hn : 0 < n)
    (d : Fin n → SinglePsf) (h w psfShape : ℕ) (procs : ℤ) (hh : h ≠ 0) (hw : w ≠ 0)
    (hs : ∀ j, (d j).interped.h = h ∧ (d j).interped.w = w ∧ (d j).mask.HasShape h w)
    (hp : procs ≤ n) (hp' : procs ≤ 2 ^ 25) (hb : procs * n ≤ 2 ^ 50) :
    ∃ out, coaddCore lt ((List.ofFn d).map SinglePsf.toCoImg) psfShape procs = .ok out ∧
      out.Pr.h = h ∧ out.Pr.w = w ∧
      (∀ i < h, ∀ j < w, out.Pr.px i j = (∑ k ∈ range h, ∑ l ∈ range w,
        ((Real.sqrt (zackayPower (fun j => (d j).zp) (fun j => (d j).var) (fun j => (d j).psfHat.px k l)) : ℝ) : ℂ) *
          (tw h (-((k : ℝ) * ((((i : ℤ) - psfShape) % h).toNat : ℕ))) *
           tw w (-((l : ℝ) * ((((j : ℤ) - psfShape) % w).toNat : ℕ))))) / ((h * w : ℕ) : ℂ) /
        ((Real.sqrt (zackayPower (fun j => (d j).zp) (fun j => (d j).var) (fun j => (d j).psfHat.px 0 0)) : ℝ) : ℂ)) ∧
      (zackayPower (fun j => (d j).zp) (fun j => (d j).var) (fun j => (d j).psfHat.px 0 0) ≠ 0 →
        ∑ i ∈ range h, ∑ j ∈ range w, out.Pr.px i j = 1) := by
  have hlen : ((List.ofFn d).map SinglePsf.toCoImg).length = n := by simp
  obtain ⟨out, e, ho, _⟩ := coadd_spec lt h w ((List.ofFn d).map SinglePsf.toCoImg) psfShape procs
    (by intro hnil; rw [hnil] at hlen; simp at hlen; omega) (allShape_single d h w hs)
    (by rw [hlen]; exact hp) hp' (by rw [hlen]; exact hb)
  have hP : out.Pr = coaddPsf ⟨h, w, specP ((List.ofFn d).map SinglePsf.toCoImg)⟩ psfShape :=
    congrArg Prod.snd ho
  have hraw := coadd_psf_raw_sum ⟨h, w, specP ((List.ofFn d).map SinglePsf.toCoImg)⟩ psfShape hh hw
  have hsq : ∀ k l, csqrt (specP ((List.ofFn d).map SinglePsf.toCoImg) k l) =
      ((Real.sqrt (zackayPower (fun j => (d j).zp) (fun j => (d j).var) (fun j => (d j).psfHat.px k l)) : ℝ) : ℂ) := by
    intro k l
    rw [specP_single, csqrt_ofReal_nonneg _ (zackayPower_nonneg _ _ _)]
  refine ⟨out, e, by rw [hP]; rfl, by rw [hP]; rfl, ?_, ?_⟩
  · intro i hi j hj
    rw [hP]
    change (coaddPsfRaw _ psfShape).px i j / imSum (coaddPsfRaw _ psfShape) = _
    rw [hraw]
    change _ / csqrt (specP _ 0 0) = _
    rw [hsq 0 0]
    congr 1
    have hroll := idftSum_shift_roll ((⟨h, w, specP ((List.ofFn d).map SinglePsf.toCoImg)⟩ : Img ℂ).map csqrt)
      psfShape psfShape i j hi hj
    rw [coaddPsfRaw]
    change (idftSum _).px i j / _ = _
    rw [Int.cast_natCast] at hroll
    rw [hroll]
    change (∑ k ∈ range h, ∑ l ∈ range w, _) / _ = _
    congr 1
    refine Finset.sum_congr rfl fun k _ => Finset.sum_congr rfl fun l _ => ?_
    change csqrt (specP _ k l) * _ = _
    rw [hsq k l]
    rfl
  · intro hne
    have := coadd_psf_sum_one ⟨h, w, specP ((List.ofFn d).map SinglePsf.toCoImg)⟩ psfShape (by
      rw [hraw]
      change csqrt (specP _ 0 0) ≠ 0
      rw [hsq 0 0]
      have hpos := lt_of_le_of_ne (zackayPower_nonneg (fun j => (d j).zp) (fun j => (d j).var)
        (fun j => (d j).psfHat.px 0 0)) (Ne.symm hne)
      exact_mod_cast (Real.sqrt_pos.2 hpos).ne')
    rw [imSum] at this
    rw [hP]
    exact this

/-! ## C86 -/

/-- The transform of a one-pixel PSF at the origin. -/
theorem psfHat_delta (d : SinglePsf) (hp : d.psf = ⟨1, 1, fun _ _ => 1⟩) (k l : ℕ)
    (hh : d.interped.h ≠ 0) (hw : d.interped.w ≠ 0) :
    d.psfHat.px k l = (((Real.sqrt ((d.interped.h * d.interped.w : ℕ) : ℝ))⁻¹ : ℝ) : ℂ) := by
  unfold SinglePsf.psfHat
  rw [hp]
  change (∑ i ∈ range d.interped.h, ∑ j ∈ range d.interped.w,
    (if i < 1 ∧ j < 1 then (1 : ℂ) else 0) * (tw d.interped.h ((k : ℝ) * i) * tw d.interped.w ((l : ℝ) * j))) / _ = _
  rw [Finset.sum_eq_single 0, Finset.sum_eq_single 0]
  · simp only [Nat.cast_zero, mul_zero, tw_zero, mul_one]
    rw [if_pos ⟨by omega, by omega⟩]
    push_cast
    rw [one_div]
    rfl
  · intro j _ hj
    rw [if_neg (by omega), zero_mul]
  · intro h0; exact absurd (mem_range.2 (Nat.pos_of_ne_zero hw)) h0
  · intro i _ hi
    refine Finset.sum_eq_zero fun j _ => ?_
    rw [if_neg (by omega), zero_mul]
  · intro h0; exact absurd (mem_range.2 (Nat.pos_of_ne_zero hh)) h0

/-- C86: the coadd of a single image whose PSF is one pixel is the image divided by its noise *and by the
square root of the number of pixels*: the forward transforms are orthonormal, the final inverse transform
is not. -/
theorem coadd_one_delta (lt : List CoImg → List CoImg → Option Bool) (d : SinglePsf) (psfShape : ℕ)
    (hp : d.psf = ⟨1, 1, fun _ _ => 1⟩) (hc : d.com = (0, 0)) (hz : 0 < d.zp) (hv : 0 < d.var)
    (hm : d.mask.HasShape d.interped.h d.interped.w) :
    ∃ out, coaddCore lt [d.toCoImg] psfShape 1 = .ok out ∧
      ∀ i < d.interped.h, ∀ j < d.interped.w, out.R.px i j =
        d.interped.px i j / ((d.var * Real.sqrt ((d.interped.h * d.interped.w : ℕ) : ℝ) : ℝ) : ℂ) := by
  obtain ⟨out, e, _, _, hR⟩ := coadd_returns_zackay lt (n := 1) (by omega) (fun _ => d) d.interped.h d.interped.w
    psfShape 1 (fun _ => ⟨rfl, rfl, hm⟩) (by norm_num) (by norm_num) (by norm_num)
  refine ⟨out, by simpa using e, ?_⟩
  intro i hi j hj
  have hh : d.interped.h ≠ 0 := by omega
  have hw : d.interped.w ≠ 0 := by omega
  have hpos : (0 : ℝ) < ((d.interped.h * d.interped.w : ℕ) : ℝ) := by
    exact_mod_cast Nat.mul_pos (Nat.pos_of_ne_zero hh) (Nat.pos_of_ne_zero hw)
  set s : ℝ := Real.sqrt ((d.interped.h * d.interped.w : ℕ) : ℝ) with hs
  have hs0 : 0 < s := Real.sqrt_pos.2 hpos
  have hzk : ∀ k l, zackayR (fun _ : Fin 1 => d.zp) (fun _ => d.var)
      (fun _ => (fftOrtho d.interped).px k l * shiftPhase d.interped.h d.interped.w d.com k l)
      (fun _ => d.psfHat.px k l) = (fftOrtho d.interped).px k l / (d.var : ℂ) := by
    intro k l
    have hph : shiftPhase d.interped.h d.interped.w d.com k l = 1 := by
      rw [hc]; simp [shiftPhase, tw_zero]
    rw [hph, psfHat_delta d hp k l hh hw, ← hs]
    unfold zackayR
    rw [Fin.sum_univ_one, Fin.sum_univ_one, Complex.conj_ofReal, Complex.normSq_ofReal]
    have hsq : Real.sqrt (d.zp ^ 2 / d.var ^ 2 * (s⁻¹ * s⁻¹)) = d.zp / d.var * s⁻¹ := by
      rw [show d.zp ^ 2 / d.var ^ 2 * (s⁻¹ * s⁻¹) = (d.zp / d.var * s⁻¹) ^ 2 by rw [mul_pow, div_pow]; ring,
        Real.sqrt_sq (by positivity)]
    rw [hsq]
    have h1 : (d.zp : ℂ) ≠ 0 := by exact_mod_cast hz.ne'
    have h2 : (d.var : ℂ) ≠ 0 := by exact_mod_cast hv.ne'
    have h3 : (s : ℂ) ≠ 0 := by exact_mod_cast hs0.ne'
    push_cast
    field_simp
  rw [hR i j]
  simp only [hzk]
  have hdft := idftSum_dft d.interped i j hi hj
  have hsum : ∑ k ∈ range d.interped.h, ∑ l ∈ range d.interped.w,
      (fftOrtho d.interped).px k l / (d.var : ℂ) *
        (tw d.interped.h (-((k : ℝ) * i)) * tw d.interped.w (-((l : ℝ) * j))) =
      (idftSum (dft d.interped)).px i j / (s : ℂ) / (d.var : ℂ) := by
    change _ = (∑ k ∈ range d.interped.h, ∑ l ∈ range d.interped.w, _) / _ / _
    rw [div_div, div_eq_mul_inv, Finset.sum_mul]
    refine Finset.sum_congr rfl fun k _ => ?_
    rw [Finset.sum_mul]
    refine Finset.sum_congr rfl fun l _ => ?_
    change (dft d.interped).px k l / (s : ℂ) / (d.var : ℂ) * (tw d.interped.h _ * tw d.interped.w _) =
      (dft d.interped).px k l * (tw d.interped.h _ * tw d.interped.w _) * _
    rw [mul_inv]
    ring
  rw [hsum, hdft]
  have h2 : (d.var : ℂ) ≠ 0 := by exact_mod_cast hv.ne'
  have h3 : (s : ℂ) ≠ 0 := by exact_mod_cast hs0.ne'
  have h4 : ((d.interped.h * d.interped.w : ℕ) : ℂ) ≠ 0 := by exact_mod_cast hpos.ne'
  push_cast at h4 ⊢
  field_simp

/-- A 2x3 image with a one-pixel PSF, meeting the hypotheses of `coadd_one_delta`: its four-fold coadd is
twice its coadd, which is the image over `2√6`. -/
noncomputable def deltaDemo : SinglePsf where
  interped := ⟨2, 3, fun i j => (i : ℂ) + 10 * j⟩
  psf := ⟨1, 1, fun _ _ => 1⟩
  com := (0, 0)
  zp := 5
  var := 2
  mask := some (Img.const 2 3 false)

example (lt : List CoImg → List CoImg → Option Bool) :
    ∃ out, coaddCore lt [deltaDemo.toCoImg] 5 1 = .ok out ∧
      out.R.px 1 2 = 21 / ((2 * Real.sqrt 6 : ℝ) : ℂ) := by
  obtain ⟨out, e, hR⟩ := coadd_one_delta lt deltaDemo 5 rfl rfl (by norm_num [deltaDemo]) (by norm_num [deltaDemo])
    (by intro m hm; cases hm; exact ⟨rfl, rfl⟩)
  refine ⟨out, e, ?_⟩
  have := hR 1 (by norm_num [deltaDemo]) 2 (by norm_num [deltaDemo])
  rw [this]
  norm_num [deltaDemo]

example (lt : List CoImg → List CoImg → Option Bool) :
    ∃ out, coaddCore lt (List.replicate 4 deltaDemo.toCoImg) 5 2 = .ok out := by
  obtain ⟨out, _, e, _⟩ := coadd_copies_pixels lt 4 (by norm_num) deltaDemo 5 2
    (by intro m hm; cases hm; exact ⟨rfl, rfl⟩) (by norm_num) (by norm_num) (by norm_num)
  exact ⟨out, e⟩

end PI
