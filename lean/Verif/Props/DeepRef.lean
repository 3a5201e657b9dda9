import Verif.Props.Transient
import Verif.Props.Peak
import Verif.Props.Stages
import Mathlib.Analysis.SpecificLimits.Basic

/-!
# Property C157: a coadd as the reference of `subtract`
-/

namespace PI

open Complex Finset

/-- A coadd given to `subtract` as reference: an image of its shape with the noise of a coadd (C105), and the PSF image that
`coadd` returned as PSF. -/
structure CoaddRef (h w : ℕ) (out : CoaddOut) (ref : SubImg) : Prop where
  shape : ref.interped.shape = (h, w)
  psfShape : ref.psf.h = h ∧ ref.psf.w = w
  psf : ∀ i < h, ∀ j < w, (ref.psf.px i j : ℂ) = out.Pr.px i j
  noise : ref.var = 1 / Real.sqrt ((h * w : ℕ) : ℝ)
  idle : GuardIdle h w ref.psf

theorem fftOrtho_same (h w : ℕ) (X Y : Img ℂ) (hX : X.h = h ∧ X.w = w) (hY : Y.h = h ∧ Y.w = w)
    (e : ∀ i < h, ∀ j < w, X.px i j = Y.px i j) (k l : ℕ) : (fftOrtho X).px k l = (fftOrtho Y).px k l := by
  obtain ⟨a, b, x⟩ := X
  obtain ⟨a', b', y⟩ := Y
  obtain ⟨rfl, rfl⟩ := hX
  obtain ⟨rfl, rfl⟩ := hY
  change (∑ i ∈ range a', ∑ j ∈ range b', x i j * _) / _ = (∑ i ∈ range a', ∑ j ∈ range b', y i j * _) / _
  congr 1
  exact Finset.sum_congr rfl fun i hi => Finset.sum_congr rfl fun j hj => by
    rw [show x i j = y i j from e i (mem_range.1 hi) j (mem_range.1 hj)]

/-- The noise of the coadd over its PSF power is the squared flux scale over the weighted PSF power of its images. -/
theorem coaddRef_noise (h w a : ℕ) (imgs : List CoImg) (hP : PositivePower h w imgs) (out : CoaddOut)
    (ho : (out.R, out.Pr) = specOut h w imgs a) (ref : SubImg) (hr : CoaddRef h w out ref) (k l : ℕ) (hk : k < h) (hl : l < w) :
    noiseAt ref k l = fluxScale imgs ^ 2 / (specP imgs k l).re := by
  have hPr : out.Pr = coaddPsf ⟨h, w, specP imgs⟩ a := congrArg Prod.snd ho
  have e : ref.psfHat.px k l = ((Real.sqrt (specP imgs k l).re / fluxScale imgs / Real.sqrt ((h * w : ℕ) : ℝ) : ℝ) : ℂ) *
        shiftPhase h w ((a : ℝ), (a : ℝ)) k l := by
    rw [psfHat_idle ref h w (congrArg Prod.fst hr.shape) (congrArg Prod.snd hr.shape) hr.idle k l hk hl,
      fftOrtho_padSelf h w (toC ref.psf) hr.psfShape.1 hr.psfShape.2,
      fftOrtho_same h w (toC ref.psf) out.Pr hr.psfShape (by rw [hPr]; exact ⟨rfl, rfl⟩) hr.psf, hPr]
    exact stage_psfHat h w a imgs hP k l hk hl
  have hN : 0 < Real.sqrt ((h * w : ℕ) : ℝ) := Real.sqrt_pos.2 (by exact_mod_cast Nat.mul_pos (by omega) (by omega))
  have hF : 0 < fluxScale imgs := (hP.csqrt (show 0 < h by omega) (show 0 < w by omega)).2.1
  have hp := (hP k hk l hl).1
  have hq := Real.sq_sqrt hp.le
  have hq0 := Real.sqrt_pos.2 hp
  unfold noiseAt
  rw [e, normSq_mul, normSq_shiftPhase, normSq_ofReal, hr.noise, mul_one]
  conv_rhs => rw [← hq]
  generalize Real.sqrt ((h * w : ℕ) : ℝ) = N at hN
  field_simp

/-- C157: the signal to noise ratio of a new star when the reference is a coadd with its flux scale as zero point, and `z` is
the zero point of the new image. -/
theorem coaddRef_info (h w a : ℕ) (imgs : List CoImg) (hP : PositivePower h w imgs) (out : CoaddOut)
    (ho : (out.R, out.Pr) = specOut h w imgs a) (ref new : SubImg) (hr : CoaddRef h w out ref) (z : ℝ) :
    diffInfo ref new (z / fluxScale imgs) h w =
      ∑ k ∈ range h, ∑ l ∈ range w, (noiseAt new k l + z ^ 2 / (specP imgs k l).re)⁻¹ := by
  refine Finset.sum_congr rfl fun k hk => Finset.sum_congr rfl fun l hl => ?_
  have hF : 0 < fluxScale imgs :=
    (hP.csqrt (Nat.pos_of_ne_zero (by rintro rfl; simp at hk)) (Nat.pos_of_ne_zero (by rintro rfl; simp at hl))).2.1
  rw [diff_term', coaddRef_noise h w a imgs hP out ho ref hr k l (mem_range.1 hk) (mem_range.1 hl)]
  congr 2
  have hp := (hP k (mem_range.1 hk) l (mem_range.1 hl)).1
  field_simp

/-- The squared signal to noise ratio of a new star of flux one when the coadd of the images `d` is subtracted. -/
noncomputable def refInfo {n : ℕ} (d : Fin n → SinglePsf) (new : SubImg) (z : ℝ) (h w : ℕ) : ℝ :=
  ∑ k ∈ range h, ∑ l ∈ range w, (noiseAt new k l + z ^ 2 / powerAt d k l)⁻¹

/-- C157: what a new star reaches with the coadd of single-PSF images as reference: at each frequency the noise of the new
image and the inverse of the weighted PSF power of the reference images add up. -/
theorem coadd_as_reference (lt : List CoImg → List CoImg → Option Bool) {n : ℕ} (hn : 0 < n) (d : Fin n → SinglePsf)
    (h w a : ℕ) (procs : ℤ)
    (hs : ∀ j, (d j).interped.h = h ∧ (d j).interped.w = w ∧ (d j).mask.HasShape h w)
    (hp : procs ≤ n ∧ procs ≤ 2 ^ 25 ∧ procs * n ≤ 2 ^ 50)
    (hpow : ∀ k < h, ∀ l < w, powerAt d k l ≠ 0) (new : SubImg) (z : ℝ) :
    ∃ out, coaddCore lt ((List.ofFn d).map SinglePsf.toCoImg) a procs = .ok out ∧
      ∀ ref, CoaddRef h w out ref →
        diffInfo ref new (z / Real.sqrt (powerAt d 0 0)) h w = refInfo d new z h w := by
  have l1 : ((List.ofFn d).map SinglePsf.toCoImg).length = n := by simp
  have n1 : (List.ofFn d).map SinglePsf.toCoImg ≠ [] := fun q => by rw [q] at l1; simp at l1; omega
  obtain ⟨o1, c1, s1, _⟩ := coadd_spec lt h w _ a procs n1 (allShape_single d h w hs)
    (by rw [l1]; exact hp.1) hp.2.1 (by rw [l1]; exact hp.2.2)
  have q1 : ∀ k l, (specP ((List.ofFn d).map SinglePsf.toCoImg) k l) = ((powerAt d k l : ℝ) : ℂ) :=
    fun k l => specP_single d k l
  have P1 : PositivePower h w ((List.ofFn d).map SinglePsf.toCoImg) := fun k hk l hl => by
    rw [q1]
    exact ⟨by rw [ofReal_re]; exact lt_of_le_of_ne (powerAt_nonneg _ k l) (Ne.symm (hpow k hk l hl)), ofReal_im _⟩
  refine ⟨o1, c1, fun ref h1 => ?_⟩
  have i1 := coaddRef_info h w a _ P1 o1 s1 ref new h1 z
  have f1 : fluxScale ((List.ofFn d).map SinglePsf.toCoImg) = Real.sqrt (powerAt d 0 0) := by
    unfold fluxScale; rw [q1, ofReal_re]
  rw [f1] at i1
  rw [i1]
  simp only [q1, ofReal_re]
  rfl

/-- C157: a deeper reference never hurts: with further images in the coadd that is subtracted, the signal to noise ratio of a
new star does not get smaller, -/
theorem deeper_reference {m n : ℕ} (d : Fin n → SinglePsf) (e : Fin m → Fin n) (he : Function.Injective e) (h w : ℕ)
    (hpow : ∀ k < h, ∀ l < w, powerAt (d ∘ e) k l ≠ 0) (new : SubImg) (hv : new.var ≠ 0) (z : ℝ) :
    refInfo (d ∘ e) new z h w ≤ refInfo d new z h w := by
  refine Finset.sum_le_sum fun k hk => Finset.sum_le_sum fun l hl => ?_
  have a1 : 0 < powerAt (d ∘ e) k l :=
    lt_of_le_of_ne (powerAt_nonneg _ k l) (Ne.symm (hpow k (mem_range.1 hk) l (mem_range.1 hl)))
  have a3 := powerAt_some d e he k l
  have hz : z ^ 2 / powerAt d k l ≤ z ^ 2 / powerAt (d ∘ e) k l := div_le_div_of_nonneg_left (sq_nonneg z) a1 a3
  have h0 : 0 ≤ z ^ 2 / powerAt d k l := div_nonneg (sq_nonneg z) (powerAt_nonneg _ k l)
  exact inv_anti₀ (add_pos_of_pos_of_nonneg (noiseAt_pos new hv k l) h0) (by linarith)

/-- it stays below that of the new image alone, -/
theorem reference_le_new {n : ℕ} (d : Fin n → SinglePsf) (h w : ℕ) (new : SubImg) (hv : new.var ≠ 0) (z : ℝ) :
    refInfo d new z h w ≤ aloneInfo new 1 h w := by
  refine Finset.sum_le_sum fun k _ => Finset.sum_le_sum fun l _ => ?_
  rw [alone_term, one_pow, one_mul]
  exact inv_anti₀ (noiseAt_pos new hv k l)
    (le_add_of_nonneg_right (div_nonneg (sq_nonneg z) (powerAt_nonneg _ k l)))

theorem powerAt_copies (x : SinglePsf) (n k l : ℕ) :
    powerAt (fun _ : Fin n => x) k l = n * powerAt (fun _ : Fin 1 => x) k l := by
  unfold powerAt zackayPower
  rw [Finset.sum_const, Finset.card_univ, Fintype.card_fin, nsmul_eq_mul, Fin.sum_univ_one]

/-- and comes as close to it as one likes with enough exposures. -/
theorem reference_limit (x : SinglePsf) (h w : ℕ) (new : SubImg) (hv : new.var ≠ 0) (z : ℝ) :
    Filter.Tendsto (fun n : ℕ => refInfo (fun _ : Fin n => x) new z h w) Filter.atTop (nhds (aloneInfo new 1 h w)) := by
  refine tendsto_finsetSum _ fun k _ => tendsto_finsetSum _ fun l _ => ?_
  rw [alone_term, one_pow, one_mul]
  refine Filter.Tendsto.inv₀ ?_ (noiseAt_pos new hv k l).ne'
  have h1 : Filter.Tendsto (fun n : ℕ => z ^ 2 / powerAt (fun _ : Fin n => x) k l) Filter.atTop (nhds 0) := by
    have e : (fun n : ℕ => z ^ 2 / powerAt (fun _ : Fin n => x) k l) =
        fun n : ℕ => z ^ 2 / powerAt (fun _ : Fin 1 => x) k l / (n : ℝ) := by
      funext n
      rw [powerAt_copies x n, mul_comm, div_mul_eq_div_div]
    rw [e]
    exact tendsto_const_div_atTop_nhds_zero_nat _
  simpa using h1.const_add (noiseAt new k l)

/-- The coadd of the sharp and the soft image as reference: its PSF image has the pixels `(1 ± √(1/2))/2`. -/
noncomputable def softRef : SubImg where
  interped := ⟨1, 2, fun _ _ => 0⟩
  mask := none
  filled := ⟨1, 2, fun _ _ => 0⟩
  psf := ⟨1, 2, fun _ j => if j = 0 then (1 + Real.sqrt (1 / 2)) / 2 else (1 - Real.sqrt (1 / 2)) / 2⟩
  var := 1 / Real.sqrt ((1 * 2 : ℕ) : ℝ)

theorem softRef_hat (l : ℕ) : (fftOrtho (padTo 1 2 (toC softRef.psf))).px 0 l =
    ((((1 + Real.sqrt (1 / 2)) / 2 : ℝ) : ℂ) * tw 2 0 + (((1 - Real.sqrt (1 / 2)) / 2 : ℝ) : ℂ) * tw 2 (l : ℝ)) /
      ((Real.sqrt ((1 * 2 : ℕ) : ℝ) : ℝ) : ℂ) := by
  rw [fftOrtho_padSelf 1 2 (toC softRef.psf) rfl rfl]
  change (∑ i ∈ range 1, ∑ j ∈ range 2,
    (((if j = 0 then (1 + Real.sqrt (1 / 2)) / 2 else (1 - Real.sqrt (1 / 2)) / 2 : ℝ) : ℂ)) *
      (tw 1 (((0 : ℕ) : ℝ) * i) * tw 2 ((l : ℝ) * j))) / ((Real.sqrt ((1 * 2 : ℕ) : ℝ) : ℝ) : ℂ) = _
  rw [Finset.sum_range_one, Finset.sum_range_succ, Finset.sum_range_one]
  simp [tw_zero]

theorem softRef_idle : GuardIdle 1 2 softRef.psf := by
  intro k hk l hl
  obtain rfl : k = 0 := by omega
  rw [softRef_hat, Complex.div_ofReal_re]
  refine div_ne_zero ?_ (by positivity)
  have hs : 0 < Real.sqrt (1 / 2 : ℝ) := Real.sqrt_pos.2 (by norm_num)
  obtain rfl | rfl : l = 0 ∨ l = 1 := by omega
  · rw [Nat.cast_zero, tw_zero, mul_one, mul_one, ← Complex.ofReal_add, Complex.ofReal_re]
    have : (1 + Real.sqrt (1 / 2)) / 2 + (1 - Real.sqrt (1 / 2)) / 2 = (1 : ℝ) := by ring
    rw [this]
    exact one_ne_zero
  · rw [Nat.cast_one, tw_zero, tw_two_one, mul_one, mul_neg_one, ← Complex.ofReal_neg, ← Complex.ofReal_add,
      Complex.ofReal_re]
    have : (1 + Real.sqrt (1 / 2)) / 2 + -((1 - Real.sqrt (1 / 2)) / 2) = Real.sqrt (1 / 2 : ℝ) := by ring
    rw [this]
    exact hs.ne'

/-- The coadd of the two images is `softRef` to `subtract`, and a new star is seen against it with the signal to noise ratio
of `refInfo`, no worse than against the sharp image alone. -/
theorem softRef_reference (lt : List CoImg → List CoImg → Option Bool) (new : SubImg) (hv : new.var ≠ 0) (z : ℝ) :
    ∃ out, coaddCore lt ((List.ofFn sharpAndSoft).map SinglePsf.toCoImg) 0 2 = .ok out ∧ CoaddRef 1 2 out softRef ∧
      diffInfo softRef new z 1 2 = refInfo sharpAndSoft new z 1 2 ∧
      refInfo (fun _ : Fin 1 => sharpAndSoft 0) new z 1 2 ≤ refInfo sharpAndSoft new z 1 2 := by
  have hs : ∀ j, (sharpAndSoft j).interped.h = 1 ∧ (sharpAndSoft j).interped.w = 2 ∧ (sharpAndSoft j).mask.HasShape 1 2 :=
    fun m => ⟨rfl, rfl, by intro a h; cases h⟩
  have hpow : ∀ k < 1, ∀ l < 2, powerAt sharpAndSoft k l ≠ 0 := by
    intro k hk l hl
    obtain rfl : k = 0 := by omega
    obtain rfl | rfl : l = 0 ∨ l = 1 := by omega
    · rw [sharpAndSoft_power.1]; norm_num
    · rw [sharpAndSoft_power.2]; norm_num
  obtain ⟨out, e, k⟩ := coadd_as_reference lt (n := 2) (by norm_num) sharpAndSoft 1 2 0 2 hs (by norm_num) hpow new z
  obtain ⟨out', e', _, _, hPr, _⟩ := coadd_returns_psf lt (n := 2) (by norm_num) sharpAndSoft 1 2 0 2 (by norm_num)
    (by norm_num) hs (by norm_num) (by norm_num) (by norm_num)
  rw [e] at e'
  cases e'
  have ref : CoaddRef 1 2 out softRef := by
    refine ⟨rfl, ⟨rfl, rfl⟩, ?_, rfl, softRef_idle⟩
    intro i hi j hj
    obtain rfl : i = 0 := by omega
    rw [hPr 0 hi j hj, Finset.sum_range_one, Finset.sum_range_succ, Finset.sum_range_one]
    have p0 : zackayPower (fun j => (sharpAndSoft j).zp) (fun j => (sharpAndSoft j).var)
        (fun j => (sharpAndSoft j).psfHat.px 0 0) = 1 := sharpAndSoft_power.1
    have p1 : zackayPower (fun j => (sharpAndSoft j).zp) (fun j => (sharpAndSoft j).var)
        (fun j => (sharpAndSoft j).psfHat.px 0 1) = 1 / 2 := sharpAndSoft_power.2
    have tm : tw 2 (-1) = -1 := by
      have := tw_neg_mul 2 1
      rw [tw_two_one] at this
      linear_combination -this
    rw [p0, p1]
    obtain rfl | rfl : j = 0 ∨ j = 1 := by omega
    · simp [softRef, tw_zero]
    · simp [softRef, tw_zero, tm]
      ring
  refine ⟨out, e, ref, ?_, ?_⟩
  · have := k softRef ref
    rwa [sharpAndSoft_power.1, Real.sqrt_one, div_one] at this
  · refine deeper_reference sharpAndSoft (fun _ : Fin 1 => 0) (fun a b _ => Subsingleton.elim a b) 1 2 ?_ new hv z
    intro k hk l hl
    obtain rfl : k = 0 := by omega
    unfold powerAt zackayPower
    simp only [Function.comp, Fin.sum_univ_one, sharp_hat]
    norm_num [sharpAndSoft]

end PI
