import Verif.Props.StarRecovery
import Verif.Props.SubtractReal
import Mathlib.Analysis.InnerProductSpace.PiL2
import Mathlib.Algebra.Order.BigOperators.Ring.Finset

/-!
# Property C155: how high a star stands in a coadd
-/

namespace PI

open Complex Finset

/-- The weighted PSF power of images at a frequency. -/
noncomputable def powerAt {n : ℕ} (d : Fin n → SinglePsf) (k l : ℕ) : ℝ :=
  zackayPower (fun j => (d j).zp) (fun j => (d j).var) (fun j => (d j).psfHat.px k l)

/-- What a star with the flux of the zero points adds to the pixel of the coadd it is centred on: the mean over the
frequencies of the square root of the power. -/
noncomputable def starPeak {n : ℕ} (d : Fin n → SinglePsf) (h w : ℕ) : ℝ :=
  (∑ k ∈ range h, ∑ l ∈ range w, Real.sqrt (powerAt d k l)) / ((h * w : ℕ) : ℝ)

theorem powerAt_nonneg {n : ℕ} (d : Fin n → SinglePsf) (k l : ℕ) : 0 ≤ powerAt d k l := zackayPower_nonneg _ _ _

theorem starPeak_nonneg {n : ℕ} (d : Fin n → SinglePsf) (h w : ℕ) : 0 ≤ starPeak d h w :=
  div_nonneg (Finset.sum_nonneg fun _ _ => Finset.sum_nonneg fun _ _ => Real.sqrt_nonneg _) (Nat.cast_nonneg _)

section

variable (lt : List CoImg → List CoImg → Option Bool) {n : ℕ} (hn : 0 < n)
  (d : Fin n → SinglePsf) (h w psfShape : ℕ) (procs : ℤ)
  (hs : ∀ j, (d j).interped.h = h ∧ (d j).interped.w = w ∧ (d j).mask.HasShape h w)
  (hp : procs ≤ n) (hp' : procs ≤ 2 ^ 25) (hb : procs * n ≤ 2 ^ 50)
  (ψ : Fin n → Img ℝ) (hψ : ∀ m, (d m).psf = toC (ψ m)) (p q : Fin n → ℕ) (c : ℝ) (X Y : ℤ)
  (hpq : ∀ m, p m < h ∧ q m < w)
  (hX : ∀ m, (p m : ℝ) + (d m).com.1 = X) (hY : ∀ m, (q m : ℝ) + (d m).com.2 = Y)
  (hpow : ∀ k < h, ∀ l < w, powerAt d k l ≠ 0)

include hn hs hp hp' hb hψ hpq hX hY hpow
/-- C155: a star with `c` times the flux of the zero points raises the pixel of R it is centred on by `c` times the peak,
and no pixel by more. -/
theorem coadd_peak :
    ∃ out, coaddCore lt ((List.ofFn d).map SinglePsf.toCoImg) psfShape procs = .ok out ∧
      ∀ star, star = coaddOf lt d psfShape procs (fun m =>
          plusImg (d m).interped (toC (starAt h w (ψ m) (p m) (q m) (c * (d m).zp)))) →
        star.px (X % h).toNat (Y % w).toNat =
          out.R.px (X % h).toNat (Y % w).toNat + ((c * starPeak d h w : ℝ) : ℂ) ∧
        ∀ i < h, ∀ j < w, ‖star.px i j - out.R.px i j‖ ≤ |c| * starPeak d h w := by
  have h0 : h ≠ 0 := by have := (hpq ⟨0, hn⟩).1; omega
  have w0 : w ≠ 0 := by have := (hpq ⟨0, hn⟩).2; omega
  obtain ⟨out, e, hst⟩ := coadd_star lt hn d h w psfShape procs hs hp hp' hb ψ hψ p q c X Y hpq hX hY hpow
  obtain ⟨out', e', _, _, hPr, _⟩ := coadd_returns_psf lt hn d h w psfShape procs h0 w0 hs hp hp' hb
  rw [e] at e'
  cases e'
  have nn : ∀ (N : ℕ), N ≠ 0 → ∀ (u s : ℤ) (t : ℕ), ((((u - (s - t)) % (N : ℤ)).toNat : ℤ) - (t : ℤ)) % N = (u - s) % N := by
    intro N hN u s t
    have h1 := Int.emod_nonneg (u - (s - t)) (show (N : ℤ) ≠ 0 by exact_mod_cast hN)
    rw [Int.toNat_of_nonneg h1, Int.emod_sub_emod]
    congr 1
    ring
  have ltN : ∀ (N : ℕ), N ≠ 0 → ∀ u : ℤ, (u % (N : ℤ)).toNat < N := by
    intro N hN u
    have h1 := Int.emod_lt_of_pos u (show (0 : ℤ) < N by omega)
    have h2 := Int.emod_nonneg u (show (N : ℤ) ≠ 0 by omega)
    omega
  have hs0 : ((Real.sqrt (powerAt d 0 0) : ℝ) : ℂ) ≠ 0 := by
    exact_mod_cast (Real.sqrt_pos.2 (lt_of_le_of_ne (powerAt_nonneg d 0 0) (Ne.symm (hpow 0 (by omega) 0 (by omega))))).ne'
  have hN : (0 : ℝ) < ((h * w : ℕ) : ℝ) := by exact_mod_cast Nat.pos_of_ne_zero (Nat.mul_ne_zero h0 w0)
  refine ⟨out, e, fun star hstar => ?_⟩
  have key : ∀ i < h, ∀ j < w, star.px i j - out.R.px i j =
      (c : ℂ) * ((∑ k ∈ range h, ∑ l ∈ range w, ((Real.sqrt (powerAt d k l) : ℝ) : ℂ) *
        (tw h (-((k : ℝ) * ((((i : ℤ) - X) % h).toNat : ℕ))) *
           tw w (-((l : ℝ) * ((((j : ℤ) - Y) % w).toNat : ℕ))))) / ((h * w : ℕ) : ℂ)) := by
    intro i hi j hj
    rw [hstar, hst i hi j hj, hPr _ (ltN h h0 _) _ (ltN w w0 _), nn h h0, nn w w0, add_sub_cancel_left, Complex.ofReal_mul,
      mul_assoc, ← mul_div_assoc]
    congr 1
    exact mul_div_cancel_left₀ _ hs0
  constructor
  · have hz : ∀ (N : ℕ) (Z : ℤ), N ≠ 0 → ((((Z % (N : ℤ)).toNat : ℤ) - Z) % N).toNat = 0 := by
      intro N Z hN
      rw [Int.toNat_of_nonneg (Int.emod_nonneg Z (by exact_mod_cast hN)), Int.emod_sub_emod, sub_self]
      rfl
    have k0 := key _ (ltN h h0 X) _ (ltN w w0 Y)
    rw [hz h X h0, hz w Y w0] at k0
    rw [sub_eq_iff_eq_add] at k0
    rw [k0, add_comm]
    congr 1
    unfold starPeak
    push_cast
    simp [tw_zero]
  · intro i hi j hj
    rw [key i hi j hj, norm_mul, Complex.norm_real, Real.norm_eq_abs, norm_div]
    refine mul_le_mul_of_nonneg_left ?_ (abs_nonneg _)
    unfold starPeak
    rw [Complex.norm_natCast]
    refine div_le_div_of_nonneg_right ?_ hN.le
    refine (norm_sum_le _ _).trans (Finset.sum_le_sum fun k _ => (norm_sum_le _ _).trans (Finset.sum_le_sum fun l _ => ?_))
    rw [norm_mul, norm_mul, norm_tw, norm_tw, Complex.norm_real, Real.norm_eq_abs, abs_of_nonneg (Real.sqrt_nonneg _),
      mul_one, mul_one]

end

/-- The power of some of the images is at most the power of all. -/
theorem powerAt_some {m n : ℕ} (d : Fin n → SinglePsf) (e : Fin m → Fin n) (he : Function.Injective e) (k l : ℕ) :
    powerAt (d ∘ e) k l ≤ powerAt d k l := by
  unfold powerAt zackayPower
  simp only [Function.comp]
  rw [← Finset.sum_image (s := univ) (g := e)
    (f := fun j => (d j).zp ^ 2 / (d j).var ^ 2 * Complex.normSq ((d j).psfHat.px k l)) fun a _ b _ hab => he hab]
  exact Finset.sum_le_sum_of_subset_of_nonneg (Finset.subset_univ _) fun j _ _ =>
    mul_nonneg (by positivity) (Complex.normSq_nonneg _)

/-- C155: further images never lower the peak of a star, -/
theorem peak_grows {m n : ℕ} (d : Fin n → SinglePsf) (h w : ℕ) (e : Fin m → Fin n) (he : Function.Injective e) :
    starPeak (d ∘ e) h w ≤ starPeak d h w :=
  div_le_div_of_nonneg_right (Finset.sum_le_sum fun k _ => Finset.sum_le_sum fun l _ =>
    Real.sqrt_le_sqrt (powerAt_some d e he k l)) (Nat.cast_nonneg _)

/-- and a further image raises it, unless it does not see the sky at all. -/
theorem peak_grows_strictly {m n : ℕ} (d : Fin n → SinglePsf) (h w : ℕ) (e : Fin m → Fin n) (he : Function.Injective e)
    (j : Fin n) (hj : ∀ a, e a ≠ j) (hz : (d j).zp ≠ 0) (hv : (d j).var ≠ 0) (k l : ℕ) (hk : k < h) (hl : l < w)
    (hq : (d j).psfHat.px k l ≠ 0) : starPeak (d ∘ e) h w < starPeak d h w := by
  have hN : (0 : ℝ) < ((h * w : ℕ) : ℝ) := by exact_mod_cast Nat.mul_pos (by omega) (by omega)
  refine div_lt_div_of_pos_right ?_ hN
  have hstrict : powerAt (d ∘ e) k l < powerAt d k l := by
    unfold powerAt zackayPower
    simp only [Function.comp]
    rw [← Finset.sum_image (s := univ) (g := e)
      (f := fun j => (d j).zp ^ 2 / (d j).var ^ 2 * Complex.normSq ((d j).psfHat.px k l)) fun a _ b _ hab => he hab]
    refine Finset.sum_lt_sum_of_subset (Finset.subset_univ _) (mem_univ j) ?_ ?_ fun i _ _ =>
      mul_nonneg (by positivity) (Complex.normSq_nonneg _)
    · intro hc
      obtain ⟨a, _, ha⟩ := Finset.mem_image.1 hc
      exact hj a ha
    · exact mul_pos (by positivity) (Complex.normSq_pos.2 hq)
  refine Finset.sum_lt_sum (fun k _ => Finset.sum_le_sum fun l _ => Real.sqrt_le_sqrt (powerAt_some d e he k l))
    ⟨k, mem_range.2 hk, Finset.sum_lt_sum (fun l _ => Real.sqrt_le_sqrt (powerAt_some d e he k l)) ⟨l, mem_range.2 hl, ?_⟩⟩
  exact Real.sqrt_lt_sqrt (powerAt_nonneg _ k l) hstrict

/-- The amplitude of one image at a frequency. -/
noncomputable def amplitude {n : ℕ} (d : Fin n → SinglePsf) (k l : ℕ) (m : Fin n) : ℝ :=
  |(d m).zp| / |(d m).var| * ‖(d m).psfHat.px k l‖

theorem powerAt_amplitude {n : ℕ} (d : Fin n → SinglePsf) (k l : ℕ) :
    powerAt d k l = ∑ m, amplitude d k l m ^ 2 := by
  unfold powerAt zackayPower
  refine Finset.sum_congr rfl fun m _ => ?_
  · unfold amplitude
    rw [mul_pow, div_pow, sq_abs, sq_abs, Complex.normSq_eq_norm_sq]

theorem amplitude_nonneg {n : ℕ} (d : Fin n → SinglePsf) (k l : ℕ) (m : Fin n) : 0 ≤ amplitude d k l m := by
  unfold amplitude
  positivity

/-- The images' amplitudes at a frequency as a vector; its length is the square root of the power. -/
noncomputable def ampVec {n : ℕ} (d : Fin n → SinglePsf) (x : ℕ × ℕ) : EuclideanSpace ℝ (Fin n) :=
  WithLp.toLp 2 (amplitude d x.1 x.2)

theorem norm_ampVec {n : ℕ} (d : Fin n → SinglePsf) (x : ℕ × ℕ) : ‖ampVec d x‖ = Real.sqrt (powerAt d x.1 x.2) := by
  rw [EuclideanSpace.norm_eq, powerAt_amplitude]
  congr 1
  exact Finset.sum_congr rfl fun m _ => by
    rw [Real.norm_eq_abs, sq_abs]
    rfl

theorem peak_flat {n : ℕ} (d : Fin n → SinglePsf) (h w : ℕ) :
    starPeak d h w = (∑ x ∈ range h ×ˢ range w, ‖ampVec d x‖) / ((h * w : ℕ) : ℝ) := by
  unfold starPeak
  rw [Finset.sum_product]
  simp only [norm_ampVec]

/-- The peak of the star in the coadd of one image alone. -/
theorem peak_alone {n : ℕ} (d : Fin n → SinglePsf) (h w : ℕ) (m : Fin n) :
    starPeak (fun _ : Fin 1 => d m) h w = (∑ x ∈ range h ×ˢ range w, ampVec d x m) / ((h * w : ℕ) : ℝ) := by
  unfold starPeak
  rw [Finset.sum_product]
  congr 1
  refine Finset.sum_congr rfl fun k _ => Finset.sum_congr rfl fun l _ => ?_
  rw [powerAt_amplitude, Fin.sum_univ_one, Real.sqrt_sq (amplitude_nonneg _ k l 0)]
  rfl

/-- The vector of the peaks of the images. -/
theorem norm_peaks {n : ℕ} (d : Fin n → SinglePsf) (h w : ℕ) :
    ∑ m, starPeak (fun _ : Fin 1 => d m) h w ^ 2 =
      (‖∑ x ∈ range h ×ˢ range w, ampVec d x‖ / ((h * w : ℕ) : ℝ)) ^ 2 := by
  rw [div_pow, EuclideanSpace.norm_sq_eq, Finset.sum_div]
  refine Finset.sum_congr rfl fun m _ => ?_
  rw [peak_alone, div_pow, Real.norm_eq_abs, sq_abs]
  congr 2
  simp

/-- C155: the squared peak in the coadd is at least the sum of the squared peaks of the images, and the peak at most their
sum. -/
theorem peak_between {n : ℕ} (d : Fin n → SinglePsf) (h w : ℕ) :
    ∑ m, starPeak (fun _ : Fin 1 => d m) h w ^ 2 ≤ starPeak d h w ^ 2 ∧
    starPeak d h w ≤ ∑ m, starPeak (fun _ : Fin 1 => d m) h w := by
  constructor
  · rw [norm_peaks, peak_flat]
    exact pow_le_pow_left₀ (div_nonneg (norm_nonneg _) (Nat.cast_nonneg _))
      (div_le_div_of_nonneg_right (norm_sum_le _ _) (Nat.cast_nonneg _)) 2
  · simp only [peak_alone]
    rw [peak_flat, ← Finset.sum_div, Finset.sum_comm]
    refine div_le_div_of_nonneg_right (Finset.sum_le_sum fun x _ => ?_) (Nat.cast_nonneg _)
    rw [norm_ampVec]
    change Real.sqrt (powerAt d x.1 x.2) ≤ ∑ m, amplitude d x.1 x.2 m
    refine (Real.sqrt_le_left (Finset.sum_nonneg fun m _ => amplitude_nonneg d x.1 x.2 m)).2 ?_
    rw [powerAt_amplitude]
    exact Finset.sum_sq_le_sq_sum_of_nonneg fun m _ => amplitude_nonneg d x.1 x.2 m

/-- C155: the squared peak is the sum of the squares exactly if at every frequency the amplitudes of the images are in the
proportion of their peaks, as they are if all images have the same seeing. -/
theorem peak_adds_iff {n : ℕ} (d : Fin n → SinglePsf) (h w : ℕ) (h0 : h ≠ 0) (w0 : w ≠ 0) :
    starPeak d h w ^ 2 = ∑ m, starPeak (fun _ : Fin 1 => d m) h w ^ 2 ↔
    ∀ k < h, ∀ l < w, ∀ m, amplitude d k l m * starPeak d h w =
      Real.sqrt (powerAt d k l) * starPeak (fun _ : Fin 1 => d m) h w := by
  have hN : (0 : ℝ) < ((h * w : ℕ) : ℝ) := by exact_mod_cast Nat.pos_of_ne_zero (Nat.mul_ne_zero h0 w0)
  set s := range h ×ˢ range w with hs
  set V := ∑ x ∈ s, ampVec d x with hV
  rw [norm_peaks, peak_flat]
  have e1 : ((∑ x ∈ s, ‖ampVec d x‖) / ((h * w : ℕ) : ℝ)) ^ 2 = (‖V‖ / ((h * w : ℕ) : ℝ)) ^ 2 ↔
      ∑ x ∈ s, ‖ampVec d x‖ = ‖V‖ := by
    rw [pow_left_inj₀ (div_nonneg (Finset.sum_nonneg fun _ _ => norm_nonneg _) hN.le)
      (div_nonneg (norm_nonneg _) hN.le) two_ne_zero, div_left_inj' hN.ne']
  rw [e1]
  have hVm : ∀ m, V m = starPeak (fun _ : Fin 1 => d m) h w * ((h * w : ℕ) : ℝ) := by
    intro m
    rw [peak_alone, div_mul_cancel₀ _ hN.ne', hV]
    simp [hs]
  constructor
  · intro heq k hk l hl m
    have hx : (k, l) ∈ s := Finset.mem_product.2 ⟨mem_range.2 hk, mem_range.2 hl⟩
    have hin : ∑ x ∈ s, (‖V‖ * ‖ampVec d x‖ - Inner.inner ℝ V (ampVec d x)) = 0 := by
      rw [Finset.sum_sub_distrib, ← Finset.mul_sum, heq, ← inner_sum, ← hV, real_inner_self_eq_norm_mul_norm, sub_self]
    have hz := (Finset.sum_eq_zero_iff_of_nonneg fun x _ => sub_nonneg.2 (real_inner_le_norm V (ampVec d x))).1 hin (k, l) hx
    have hpar := inner_eq_norm_mul_iff_real.1 (sub_eq_zero.1 hz).symm
    have hm := congrArg (fun v : EuclideanSpace ℝ (Fin n) => v m) hpar
    have hm' : ‖ampVec d (k, l)‖ * V m = ‖V‖ * amplitude d k l m := hm
    rw [norm_ampVec, hVm] at hm'
    rw [heq, mul_comm, div_mul_eq_mul_div, ← hm']
    field_simp
  · intro hall
    by_cases hV0 : ∑ x ∈ s, ‖ampVec d x‖ = 0
    · refine le_antisymm ?_ (norm_sum_le _ _)
      rw [hV0]
      exact norm_nonneg _
    · have hpar : ∀ x ∈ s, (∑ y ∈ s, ‖ampVec d y‖) • ampVec d x = ‖ampVec d x‖ • V := by
        intro x hx
        obtain ⟨hk, hl⟩ := Finset.mem_product.1 hx
        ext m
        have := hall x.1 (mem_range.1 hk) x.2 (mem_range.1 hl) m
        rw [← norm_ampVec] at this
        change (∑ y ∈ s, ‖ampVec d y‖) * amplitude d x.1 x.2 m = ‖ampVec d x‖ * V m
        rw [hVm]
        field_simp at this
        linarith
      obtain ⟨x, hx, hx0⟩ : ∃ x ∈ s, ‖ampVec d x‖ ≠ 0 := by
        by_contra hc
        push Not at hc
        exact hV0 (Finset.sum_eq_zero hc)
      have hnorm := congrArg (fun v : EuclideanSpace ℝ (Fin n) => ‖v‖) (hpar x hx)
      rw [norm_smul, norm_smul, Real.norm_eq_abs, Real.norm_eq_abs, abs_of_nonneg (norm_nonneg _),
        abs_of_nonneg (Finset.sum_nonneg fun _ _ => norm_nonneg _), mul_comm] at hnorm
      exact mul_left_cancel₀ hx0 hnorm

/-- C155: the peak over the noise of a pixel (`1/√(h w)`, C105), squared, is at most the sum of the power over the
frequencies, which is the squared signal to noise ratio of the best statistic (C116); they are equal exactly if the power is
the same at all frequencies. -/
theorem peak_loses {n : ℕ} (d : Fin n → SinglePsf) (h w : ℕ) (h0 : h ≠ 0) (w0 : w ≠ 0) :
    ((h * w : ℕ) : ℝ) * starPeak d h w ^ 2 ≤ ∑ k ∈ range h, ∑ l ∈ range w, powerAt d k l ∧
    (((h * w : ℕ) : ℝ) * starPeak d h w ^ 2 = ∑ k ∈ range h, ∑ l ∈ range w, powerAt d k l ↔
      ∀ k < h, ∀ l < w, powerAt d k l = starPeak d h w ^ 2) := by
  have hN : (0 : ℝ) < ((h * w : ℕ) : ℝ) := by exact_mod_cast Nat.pos_of_ne_zero (Nat.mul_ne_zero h0 w0)
  have hcard : ((range h ×ˢ range w).card : ℝ) = ((h * w : ℕ) : ℝ) := by simp
  have key : ∑ x ∈ range h ×ˢ range w, (Real.sqrt (powerAt d x.1 x.2) - starPeak d h w) ^ 2 =
      ∑ k ∈ range h, ∑ l ∈ range w, powerAt d k l - ((h * w : ℕ) : ℝ) * starPeak d h w ^ 2 := by
    have hsum : ∑ x ∈ range h ×ˢ range w, Real.sqrt (powerAt d x.1 x.2) = ((h * w : ℕ) : ℝ) * starPeak d h w := by
      unfold starPeak
      rw [Finset.sum_product, mul_div_cancel₀ _ hN.ne']
    have e : ∀ x : ℕ × ℕ, (Real.sqrt (powerAt d x.1 x.2) - starPeak d h w) ^ 2 =
        powerAt d x.1 x.2 - 2 * starPeak d h w * Real.sqrt (powerAt d x.1 x.2) + starPeak d h w ^ 2 := by
      intro x
      have := Real.sq_sqrt (powerAt_nonneg d x.1 x.2)
      nlinarith
    simp only [e]
    rw [Finset.sum_add_distrib, Finset.sum_sub_distrib, ← Finset.mul_sum, hsum, Finset.sum_const, nsmul_eq_mul, hcard,
      Finset.sum_product]
    ring
  have hnn : ∀ x ∈ range h ×ˢ range w, 0 ≤ (Real.sqrt (powerAt d x.1 x.2) - starPeak d h w) ^ 2 := fun _ _ => sq_nonneg _
  refine ⟨by have := Finset.sum_nonneg hnn; linarith, ?_⟩
  have e2 : ((h * w : ℕ) : ℝ) * starPeak d h w ^ 2 = ∑ k ∈ range h, ∑ l ∈ range w, powerAt d k l ↔
      ∑ x ∈ range h ×ˢ range w, (Real.sqrt (powerAt d x.1 x.2) - starPeak d h w) ^ 2 = 0 := by
    rw [key, sub_eq_zero]
    exact eq_comm
  rw [e2, Finset.sum_eq_zero_iff_of_nonneg hnn]
  constructor
  · intro hz k hk l hl
    have := hz (k, l) (Finset.mem_product.2 ⟨mem_range.2 hk, mem_range.2 hl⟩)
    rw [pow_eq_zero_iff two_ne_zero, sub_eq_zero] at this
    rw [← this, Real.sq_sqrt (powerAt_nonneg d k l)]
  · intro hz x hx
    obtain ⟨hk, hl⟩ := Finset.mem_product.1 hx
    rw [hz x.1 (mem_range.1 hk) x.2 (mem_range.1 hl), Real.sqrt_sq (starPeak_nonneg d h w), sub_self]
    norm_num

/-- Two images of a pixel's light, one of them sharp and one spread over two pixels. -/
noncomputable def sharpAndSoft (m : Fin 2) : SinglePsf where
  interped := ⟨1, 2, fun _ j => j⟩
  psf := if m = 0 then ⟨1, 1, fun _ _ => 1⟩ else ⟨1, 2, fun _ _ => 1 / 2⟩
  com := (0, 0)
  zp := 1
  var := 1
  mask := none

theorem sharp_hat (k l : ℕ) : (sharpAndSoft 0).psfHat.px k l = (((Real.sqrt 2)⁻¹ : ℝ) : ℂ) := by
  rw [psfHat_delta (sharpAndSoft 0) rfl k l (by norm_num [sharpAndSoft]) (by norm_num [sharpAndSoft])]
  norm_num [sharpAndSoft]

theorem soft_hat : (sharpAndSoft 1).psfHat.px 0 0 = (((Real.sqrt 2)⁻¹ : ℝ) : ℂ) ∧ (sharpAndSoft 1).psfHat.px 0 1 = 0 := by
  have e : ∀ l : ℕ, (sharpAndSoft 1).psfHat.px 0 l =
      (1 / 2 * (tw 1 0 * tw 2 0) + 1 / 2 * (tw 1 0 * tw 2 (l : ℝ))) / ((Real.sqrt ((1 * 2 : ℕ) : ℝ) : ℝ) : ℂ) := by
    intro l
    change (∑ i ∈ range 1, ∑ j ∈ range 2, (if i < 1 ∧ j < 2 then (1 / 2 : ℂ) else 0) *
      (tw 1 (((0 : ℕ) : ℝ) * i) * tw 2 ((l : ℝ) * j))) / ((Real.sqrt ((1 * 2 : ℕ) : ℝ) : ℝ) : ℂ) = _
    rw [Finset.sum_range_one, Finset.sum_range_succ, Finset.sum_range_one]
    norm_num
  constructor
  · rw [e]
    norm_num [tw_zero]
  · rw [e]
    norm_num [tw_zero, tw_two_one]

theorem sharpAndSoft_power : powerAt sharpAndSoft 0 0 = 1 ∧ powerAt sharpAndSoft 0 1 = 1 / 2 := by
  unfold powerAt zackayPower
  simp only [Fin.sum_univ_two, sharp_hat, soft_hat.1, soft_hat.2]
  norm_num [sharpAndSoft]

/-- Alone the peaks of the two images are `1/√2` and `1/√8`, together the peak is higher than the square root of the sum of
their squares. -/
theorem sharpAndSoft_peaks :
    starPeak sharpAndSoft 1 2 = (1 + Real.sqrt (1 / 2)) / 2 ∧
    starPeak (fun _ : Fin 1 => sharpAndSoft 0) 1 2 = Real.sqrt (1 / 2) ∧
    starPeak (fun _ : Fin 1 => sharpAndSoft 1) 1 2 = Real.sqrt (1 / 2) / 2 ∧
    starPeak (fun _ : Fin 1 => sharpAndSoft 0) 1 2 ^ 2 + starPeak (fun _ : Fin 1 => sharpAndSoft 1) 1 2 ^ 2 <
      starPeak sharpAndSoft 1 2 ^ 2 := by
  have e0 : starPeak sharpAndSoft 1 2 = (1 + Real.sqrt (1 / 2)) / 2 := by
    unfold starPeak
    rw [Finset.sum_range_one, Finset.sum_range_succ, Finset.sum_range_one, sharpAndSoft_power.1, sharpAndSoft_power.2]
    norm_num
  have a1 : ∀ l, powerAt (fun _ : Fin 1 => sharpAndSoft 0) 0 l = 1 / 2 := by
    intro l
    unfold powerAt zackayPower
    simp only [Fin.sum_univ_one, sharp_hat]
    norm_num [sharpAndSoft]
  have e1 : starPeak (fun _ : Fin 1 => sharpAndSoft 0) 1 2 = Real.sqrt (1 / 2) := by
    unfold starPeak
    rw [Finset.sum_range_one, Finset.sum_range_succ, Finset.sum_range_one, a1, a1]
    push_cast
    ring
  have a2 : powerAt (fun _ : Fin 1 => sharpAndSoft 1) 0 0 = 1 / 2 ∧ powerAt (fun _ : Fin 1 => sharpAndSoft 1) 0 1 = 0 := by
    unfold powerAt zackayPower
    simp only [Fin.sum_univ_one, soft_hat.1, soft_hat.2]
    norm_num [sharpAndSoft]
  have e2 : starPeak (fun _ : Fin 1 => sharpAndSoft 1) 1 2 = Real.sqrt (1 / 2) / 2 := by
    unfold starPeak
    rw [Finset.sum_range_one, Finset.sum_range_succ, Finset.sum_range_one, a2.1, a2.2, Real.sqrt_zero]
    push_cast
    ring
  refine ⟨e0, e1, e2, ?_⟩
  rw [e0, e1, e2]
  have hsq := Real.sq_sqrt (show (0 : ℝ) ≤ 1 / 2 by norm_num)
  have hpos := Real.sqrt_nonneg (1 / 2 : ℝ)
  nlinarith

/-- A star at the first pixel of both images raises that pixel of their coadd by the peak. -/
theorem sharpAndSoft_star (lt : List CoImg → List CoImg → Option Bool) :
    ∃ out, coaddCore lt ((List.ofFn sharpAndSoft).map SinglePsf.toCoImg) 1 2 = .ok out ∧
      (coaddOf lt sharpAndSoft 1 2 fun m => plusImg (sharpAndSoft m).interped
        (toC (starAt 1 2 (if m = 0 then ⟨1, 1, fun _ _ => 1⟩ else ⟨1, 2, fun _ _ => 1 / 2⟩) 0 0
          (3 * (sharpAndSoft m).zp)))).px 0 0 = out.R.px 0 0 + ((3 * ((1 + Real.sqrt (1 / 2)) / 2) : ℝ) : ℂ) := by
  obtain ⟨out, e, k⟩ := coadd_peak lt (n := 2) (by norm_num) sharpAndSoft 1 2 1 2
    (fun m => ⟨rfl, rfl, by intro a h; cases h⟩) (by norm_num) (by norm_num) (by norm_num)
    (fun m => if m = 0 then ⟨1, 1, fun _ _ => 1⟩ else ⟨1, 2, fun _ _ => 1 / 2⟩)
    (by intro m; fin_cases m <;> simp [sharpAndSoft, toC, Img.map])
    (fun _ => 0) (fun _ => 0) 3 0 0 (fun _ => ⟨by norm_num, by norm_num⟩) (fun _ => by norm_num [sharpAndSoft])
    (fun _ => by norm_num [sharpAndSoft])
    (by
      intro k hk l hl
      obtain rfl : k = 0 := by omega
      obtain rfl | rfl : l = 0 ∨ l = 1 := by omega
      · rw [sharpAndSoft_power.1]; norm_num
      · rw [sharpAndSoft_power.2]; norm_num)
  refine ⟨out, e, ?_⟩
  have := (k _ rfl).1
  rw [sharpAndSoft_peaks.1] at this
  exact this

end PI
