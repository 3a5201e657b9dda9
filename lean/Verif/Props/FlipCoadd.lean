import Verif.Props.Flip
import Verif.Props.Peak

/-!
# Property C172, continued: the coadd of images turned upside down
-/

namespace PI

open Complex Finset

/-- The image object of the arrays upside down. -/
noncomputable def SinglePsf.upDown (d : SinglePsf) : SinglePsf :=
  ⟨d.interped.upDown, d.psf.upDown, ((d.psf.h : ℝ) - 1 - d.com.1, d.com.2), d.zp, d.var, d.mask.upDown⟩

section
variable (h w : ℕ) (h0 : h ≠ 0) (w0 : w ≠ 0) (d : SinglePsf) (hd : d.Turnable h w)

include h0 hd

theorem single_psfHat_upDown (k l : ℕ) (hk : k < h) :
    d.upDown.psfHat.px k l = d.psfHat.px (negIdx h k) l * tw h ((k : ℝ) * ((d.psf.h : ℤ) - 1 : ℤ)) := by
  obtain ⟨rfl, rfl, f1, _, _, _⟩ := hd
  exact padded_upDown d.psf d.interped.h d.interped.w h0 f1 k l hk

theorem single_interped_upDown (k l : ℕ) (hk : k < h) :
    (fftOrtho d.upDown.interped).px k l =
      (fftOrtho d.interped).px (negIdx h k) l * tw h ((k : ℝ) * ((h : ℤ) - 1 : ℤ)) := by
  obtain ⟨rfl, rfl, _, _, _, _⟩ := hd
  exact fftOrtho_upDown d.interped h0 k l hk

omit h0

theorem single_psfHat_herm (k l : ℕ) (hk : k < h) (hl : l < w) :
    d.psfHat.px (negIdx h k) (negIdx w l) = (starRingEnd ℂ) (d.psfHat.px k l) := by
  obtain ⟨rfl, rfl, _, _, _, r⟩ := hd
  refine hermitian_fftOrtho (padTo d.interped.h d.interped.w d.psf) ?_ k hk l hl
  intro i _ j _
  change (starRingEnd ℂ) (if i < d.psf.h ∧ j < d.psf.w then d.psf.px i j else 0) =
    if i < d.psf.h ∧ j < d.psf.w then d.psf.px i j else 0
  split_ifs with q
  · exact r i q.1 j q.2
  · exact map_zero _

theorem single_interped_herm (k l : ℕ) (hk : k < h) (hl : l < w) :
    (fftOrtho d.interped).px (negIdx h k) (negIdx w l) = (starRingEnd ℂ) ((fftOrtho d.interped).px k l) := by
  obtain ⟨rfl, rfl, _, _, r, _⟩ := hd
  exact hermitian_fftOrtho d.interped r k hk l hl

end

/-- The real pixels. -/
def Img.rePart (x : Img ℂ) : Img ℝ := x.map Complex.re

theorem fft_rePart (x : Img ℂ) (h w : ℕ) (hx : ∀ i < x.h, ∀ j < x.w, (starRingEnd ℂ) (x.px i j) = x.px i j) (k l : ℕ) :
    (fftOrtho (padTo h w x)).px k l = (fftOrtho (padTo h w (toC x.rePart))).px k l := by
  have e : padTo h w x = padTo h w (toC x.rePart) := by
    unfold padTo
    refine congrArg (Img.mk h w) ?_
    funext i j
    change (if i < x.h ∧ j < x.w then x.px i j else 0) = if i < x.h ∧ j < x.w then (((x.px i j).re : ℝ) : ℂ) else 0
    split_ifs with q
    · exact (Complex.conj_eq_iff_re.1 (hx i q.1 j q.2)).symm
    · rfl
  rw [e]

theorem idftSum_sum {n : ℕ} (h w : ℕ) (X : Fin n → ℕ → ℕ → ℂ) (i j : ℕ) :
    (idftSum ⟨h, w, fun k l => ∑ m, X m k l⟩).px i j = ∑ m, (idftSum ⟨h, w, X m⟩).px i j := by
  change ∑ k ∈ range h, ∑ l ∈ range w, (∑ m, X m k l) * (tw h (-((k : ℝ) * i)) * tw w (-((l : ℝ) * j))) =
    ∑ m, ∑ k ∈ range h, ∑ l ∈ range w, X m k l * (tw h (-((k : ℝ) * i)) * tw w (-((l : ℝ) * j)))
  simp only [Finset.sum_mul]
  rw [Finset.sum_congr rfl fun k (_ : k ∈ range h) => Finset.sum_comm, Finset.sum_comm]

section
variable {n : ℕ} (h w : ℕ) (h0 : h ≠ 0) (w0 : w ≠ 0) (d : Fin n → SinglePsf) (hd : ∀ m, (d m).Turnable h w)

include hd

theorem powerAt_herm (k l : ℕ) (hk : k < h) (hl : l < w) : powerAt d (negIdx h k) (negIdx w l) = powerAt d k l := by
  unfold powerAt zackayPower
  refine Finset.sum_congr rfl fun m _ => ?_
  simp only []
  rw [single_psfHat_herm h w (d m) (hd m) k l hk hl, normSq_conj]

include h0 in
theorem powerAt_upDown (k l : ℕ) (hk : k < h) : powerAt (fun m => (d m).upDown) k l = powerAt d (negIdx h k) l := by
  unfold powerAt zackayPower
  refine Finset.sum_congr rfl fun m _ => ?_
  simp only []
  have n1 : normSq (tw h ((k : ℝ) * (((d m).psf.h : ℤ) - 1 : ℤ))) = 1 := by
    rw [Complex.normSq_eq_norm_sq, norm_tw, one_pow]
  rw [single_psfHat_upDown h w h0 (d m) (hd m) k l hk, normSq_mul, n1, mul_one]
  rfl

omit hd in
theorem csqrt_powerAt (k l : ℕ) : csqrt (specP ((List.ofFn d).map SinglePsf.toCoImg) k l) =
    ((Real.sqrt (powerAt d k l) : ℝ) : ℂ) := by
  rw [specP_single, csqrt_ofReal_nonneg _ (zackayPower_nonneg _ _ _)]
  rfl

/-- The coadd's transform, image by image. -/
theorem coaddRhat_terms (k l : ℕ) : coaddRhat ((List.ofFn d).map SinglePsf.toCoImg) k l =
    ∑ m, ((((d m).zp / (d m).var ^ 2 : ℝ) : ℂ) * ((fftOrtho (d m).interped).px k l * (starRingEnd ℂ) ((d m).psfHat.px k l)) /
      ((Real.sqrt (powerAt d k l) : ℝ) : ℂ)) * shiftPhase h w (d m).com k l := by
  unfold coaddRhat
  rw [specS_ofFn, csqrt_powerAt, Finset.sum_div]
  refine Finset.sum_congr rfl fun m _ => ?_
  change ((((d m).zp / (d m).var ^ 2 : ℝ) : ℂ) * ((fftOrtho (d m).interped).px k l * (starRingEnd ℂ) ((d m).psfHat.px k l) *
      shiftPhase (d m).interped.h (d m).interped.w (d m).com k l)) / _ = _
  rw [(hd m).sh, (hd m).sw]
  ring

include h0 w0

/-- The real part of the coadd of the images upside down. -/
theorem re_R_upDown (i j : ℕ) (hi : i < h) :
    ((ifftDefault ⟨h, w, coaddRhat ((List.ofFn fun m => (d m).upDown).map SinglePsf.toCoImg)⟩).px i j).re =
      ((ifftDefault ⟨h, w, coaddRhat ((List.ofFn d).map SinglePsf.toCoImg)⟩).px (h - 1 - i) j).re +
      (∑ m, cornerTerm h w ((((d m).zp / (d m).var ^ 2 : ℝ) : ℂ) * ((fftOrtho (d m).interped).px (h / 2) (w / 2) *
        (starRingEnd ℂ) ((d m).psfHat.px (h / 2) (w / 2))) / ((Real.sqrt (powerAt d (h / 2) (w / 2)) : ℝ) : ℂ)).re
          (d m).com.1 (d m).com.2 i j) / ((h * w : ℕ) : ℝ) := by
  have hd' : ∀ m, ((d m).upDown).interped.h = h ∧ ((d m).upDown).interped.w = w := fun m => ⟨(hd m).sh, (hd m).sw⟩
  have each : ∀ m, ((idftSum ⟨h, w, fun k l => ((((d m).upDown.zp / (d m).upDown.var ^ 2 : ℝ) : ℂ) *
        ((fftOrtho (d m).upDown.interped).px k l * (starRingEnd ℂ) ((d m).upDown.psfHat.px k l)) /
      ((Real.sqrt (powerAt (fun m => (d m).upDown) k l) : ℝ) : ℂ)) * shiftPhase h w (d m).upDown.com k l⟩).px i j).re =
      ((idftSum ⟨h, w, fun k l => ((((d m).zp / (d m).var ^ 2 : ℝ) : ℂ) *
        ((fftOrtho (d m).interped).px k l * (starRingEnd ℂ) ((d m).psfHat.px k l)) /
      ((Real.sqrt (powerAt d k l) : ℝ) : ℂ)) * shiftPhase h w (d m).com k l⟩).px (h - 1 - i) j).re +
      cornerTerm h w ((((d m).zp / (d m).var ^ 2 : ℝ) : ℂ) * ((fftOrtho (d m).interped).px (h / 2) (w / 2) *
        (starRingEnd ℂ) ((d m).psfHat.px (h / 2) (w / 2))) / ((Real.sqrt (powerAt d (h / 2) (w / 2)) : ℝ) : ℂ)).re
          (d m).com.1 (d m).com.2 i j := by
    intro m
    refine re_idft_flipped h w h0 w0
      (fun k l => (((d m).zp / (d m).var ^ 2 : ℝ) : ℂ) * ((fftOrtho (d m).interped).px k l *
        (starRingEnd ℂ) ((d m).psfHat.px k l)) / ((Real.sqrt (powerAt d k l) : ℝ) : ℂ)) _ _ _ _ ?_ ?_ ?_ i j hi
    · intro k hk l hl
      rw [single_interped_herm h w (d m) (hd m) k l hk hl, single_psfHat_herm h w (d m) (hd m) k l hk hl,
        powerAt_herm h w d hd k l hk hl, map_div₀, map_mul, map_mul, Complex.conj_ofReal, Complex.conj_ofReal]
    · intro k hk l hl
      rfl
    · intro k hk l hl
      change ((((d m).zp / (d m).var ^ 2 : ℝ) : ℂ) * ((fftOrtho (d m).upDown.interped).px k l *
          (starRingEnd ℂ) ((d m).upDown.psfHat.px k l)) / ((Real.sqrt (powerAt (fun m => (d m).upDown) k l) : ℝ) : ℂ)) *
        shiftPhase h w (((d m).psf.h : ℝ) - 1 - (d m).com.1, (d m).com.2) k l = _
      have e : (((d m).psf.h : ℝ) - 1 - (d m).com.1, (d m).com.2) =
          (-(d m).com.1 + ((((d m).psf.h : ℤ) - 1 : ℤ) : ℝ), (d m).com.2) := by
        push_cast
        congr 1
        ring
      rw [single_interped_upDown h w h0 (d m) (hd m) k l hk, single_psfHat_upDown h w h0 (d m) (hd m) k l hk,
        powerAt_upDown h w h0 d hd k l hk, e, shiftPhase_row h w h0, map_mul, conj_tw]
      have t := tw_neg_mul h ((k : ℝ) * (((d m).psf.h : ℤ) - 1 : ℤ))
      linear_combination ((((d m).zp / (d m).var ^ 2 : ℝ) : ℂ) * (fftOrtho (d m).interped).px (negIdx h k) l *
        (starRingEnd ℂ) ((d m).psfHat.px (negIdx h k) l) / ((Real.sqrt (powerAt d (negIdx h k) l) : ℝ) : ℂ) *
        tw h ((k : ℝ) * ((h : ℤ) - 1 : ℤ)) * shiftPhase h w (-(d m).com.1, (d m).com.2) k l) * t
  have re : ∀ (X : ℕ → ℕ → ℂ) i j, ((ifftDefault ⟨h, w, X⟩).px i j).re =
      ((idftSum ⟨h, w, X⟩).px i j).re / ((h * w : ℕ) : ℝ) := by
    intro X i j
    change ((idftSum ⟨h, w, X⟩).px i j / ((h * w : ℕ) : ℂ)).re = _
    rw [← Complex.ofReal_natCast, Complex.div_ofReal_re]
  have terms' : coaddRhat ((List.ofFn fun m => (d m).upDown).map SinglePsf.toCoImg) = fun k l =>
      ∑ m, ((((d m).upDown.zp / (d m).upDown.var ^ 2 : ℝ) : ℂ) *
        ((fftOrtho (d m).upDown.interped).px k l * (starRingEnd ℂ) ((d m).upDown.psfHat.px k l)) /
      ((Real.sqrt (powerAt (fun m => (d m).upDown) k l) : ℝ) : ℂ)) * shiftPhase h w (d m).upDown.com k l := by
    funext k l
    refine coaddRhat_terms h w (fun m => (d m).upDown) (fun m => ⟨(hd m).sh, (hd m).sw, (hd m).fitsH, (hd m).fitsW, ?_, ?_⟩) k l
    · intro i hi j hj
      exact (hd m).real _ (by rw [(hd m).sh]; omega) j hj
    · intro i hi j hj
      change i < (d m).psf.h at hi
      exact (hd m).realP ((d m).psf.h - 1 - i) (by omega) j hj
  rw [re, re, terms', show coaddRhat ((List.ofFn d).map SinglePsf.toCoImg) = _ from
    funext fun k => funext fun l => coaddRhat_terms h w d hd k l, idftSum_sum, idftSum_sum, Complex.re_sum, Complex.re_sum,
    Finset.sum_congr rfl fun m _ => each m, Finset.sum_add_distrib, add_div]

omit w0 in
/-- The coadd's PSF is reflected. -/
theorem coaddPsf_upDown (a i j : ℕ) :
    (coaddPsf ⟨h, w, specP ((List.ofFn fun m => (d m).upDown).map SinglePsf.toCoImg)⟩ a).px i j =
      (coaddPsf ⟨h, w, specP ((List.ofFn d).map SinglePsf.toCoImg)⟩ a).px (turnAt h (2 * a) i) j := by
  have raw : ∀ i j, (coaddPsfRaw ⟨h, w, specP ((List.ofFn fun m => (d m).upDown).map SinglePsf.toCoImg)⟩ a).px i j =
      (coaddPsfRaw ⟨h, w, specP ((List.ofFn d).map SinglePsf.toCoImg)⟩ a).px (turnAt h (2 * a) i) j := by
    intro i j
    have r := idft_upDown h w
      (fun k l => csqrt (specP ((List.ofFn d).map SinglePsf.toCoImg) k l) * shiftPhase h w ((a : ℝ), (a : ℝ)) k l)
      (fun k l => csqrt (specP ((List.ofFn fun m => (d m).upDown).map SinglePsf.toCoImg) k l) *
        shiftPhase h w ((a : ℝ), (a : ℝ)) k l) (2 * a) h0
      (fun k hk l hl => by
        rw [csqrt_powerAt, csqrt_powerAt, powerAt_upDown h w h0 d hd k l hk]
        have s1 : ∀ k, shiftPhase h w ((a : ℝ), (a : ℝ)) k l = tw h ((k : ℝ) * (a : ℤ)) * shiftPhase h w (0, (a : ℝ)) k l := by
          intro k
          have := shiftPhase_row h w h0 0 (a : ℝ) (a : ℤ) k l
          rw [zero_add] at this
          push_cast at this ⊢
          rw [this]
          ring
        have s2 : ∀ k, shiftPhase h w (0, (a : ℝ)) k l = shiftPhase h w (0, (a : ℝ)) 0 l := by
          intro k
          unfold shiftPhase
          simp only [mul_zero]
        rw [s1, s1, s2 k, s2 (negIdx h k), tw_negIdx h k hk]
        have t := tw_neg_mul h ((k : ℝ) * (a : ℤ))
        have u : tw h ((k : ℝ) * ((2 * a : ℤ) : ℝ)) = tw h ((k : ℝ) * (a : ℤ)) * tw h ((k : ℝ) * (a : ℤ)) := by
          rw [← tw_add]
          congr 1
          push_cast
          ring
        rw [u]
        linear_combination (-(((Real.sqrt (powerAt d (negIdx h k) l) : ℝ) : ℂ) * tw h ((k : ℝ) * (a : ℤ)) *
          shiftPhase h w (0, (a : ℝ)) 0 l)) * t) i j
    change (idftSum ⟨h, w, _⟩).px i j / _ = (idftSum ⟨h, w, _⟩).px _ j / _
    exact congrArg (· / ((h * w : ℕ) : ℂ)) r
  have tot : imSum (coaddPsfRaw ⟨h, w, specP ((List.ofFn fun m => (d m).upDown).map SinglePsf.toCoImg)⟩ a) =
      imSum (coaddPsfRaw ⟨h, w, specP ((List.ofFn d).map SinglePsf.toCoImg)⟩ a) := by
    change ∑ i ∈ range h, ∑ j ∈ range w, _ = ∑ i ∈ range h, ∑ j ∈ range w, _
    rw [← sum_turnAt h (2 * a) fun i => ∑ j ∈ range w,
      (coaddPsfRaw ⟨h, w, specP ((List.ofFn d).map SinglePsf.toCoImg)⟩ a).px i j]
    exact Finset.sum_congr rfl fun i _ => Finset.sum_congr rfl fun j _ => raw i j
  change (coaddPsfRaw _ a).px i j / imSum (coaddPsfRaw _ a) = (coaddPsfRaw _ a).px _ j / imSum (coaddPsfRaw _ a)
  rw [raw, tot]

end

/-- C172: every image upside down (pixels, masks, PSFs): the real part of the coadd and its mask are upside down, its PSF is
reflected about twice `psfShape`; on images with even sides a checkerboard is added to the coadd, whose amplitude goes with the
products of the sines of the PSFs' centres. -/
theorem coadd_upDown (lt lt' : List CoImg → List CoImg → Option Bool) {n : ℕ} (hn : 0 < n)
    (d : Fin n → SinglePsf) (h w psfShape : ℕ) (h0 : h ≠ 0) (w0 : w ≠ 0) (procs procs' : ℤ)
    (hd : ∀ m, (d m).Turnable h w) (hmask : ∀ m, (d m).mask.HasShape h w)
    (hp : procs ≤ n) (hp' : procs ≤ 2 ^ 25) (hb : procs * n ≤ 2 ^ 50)
    (hq : procs' ≤ n) (hq' : procs' ≤ 2 ^ 25) (hc : procs' * n ≤ 2 ^ 50) :
    ∃ out out', coaddCore lt ((List.ofFn d).map SinglePsf.toCoImg) psfShape procs = .ok out ∧
      coaddCore lt' ((List.ofFn fun m => (d m).upDown).map SinglePsf.toCoImg) psfShape procs' = .ok out' ∧
      (out'.mask = none ↔ out.mask = none) ∧ ∀ i < h, ∀ j < w,
        ((out'.R.px i j).re = (out.R.px (h - 1 - i) j).re -
          if h % 2 = 0 ∧ w % 2 = 0 then (-1) ^ (i + j) * (2 / ((h * w : ℝ) * Real.sqrt (h * w))) *
            ((∑ m, (d m).zp / (d m).var ^ 2 * (Real.sin (Real.pi * (d m).com.1) * Real.sin (Real.pi * (d m).com.2)) *
                altSum (d m).interped.rePart * altSum (d m).psf.rePart) /
              Real.sqrt (∑ m, (d m).zp ^ 2 / (d m).var ^ 2 * altSum (d m).psf.rePart ^ 2)) else 0) ∧
        out'.Pr.px i j = out.Pr.px (turnAt h (2 * psfShape) i) j ∧
        out'.mask.marks i j = out.mask.marks (h - 1 - i) j := by
  obtain ⟨out, e, eR, eP, em, en⟩ := coadd_single_spec lt hn d h w psfShape procs
    (fun m => ⟨(hd m).sh, (hd m).sw, hmask m⟩) hp hp' hb
  obtain ⟨out', e', eR', eP', em', en'⟩ := coadd_single_spec lt' hn (fun m => (d m).upDown) h w psfShape procs'
    (fun m => ⟨(hd m).sh, (hd m).sw, by
      intro a ha
      obtain ⟨a0, h0, rfl⟩ := Option.map_eq_some_iff.1 ha
      exact hmask m a0 h0⟩) hq hq' hc
  have hm : ∀ m i j, (d m).upDown.mask.marks i j = (d m).mask.marks (h - 1 - i) j :=
    fun m i j => marks_upDown _ h w (hmask m) i j
  refine ⟨out, out', e, e', ?_, fun i hi j hj => ⟨?_, ?_, ?_⟩⟩
  · rw [en, en']
    constructor
    · intro q m i hi j hj
      have := q m (h - 1 - i) (by omega) j hj
      rw [hm, show h - 1 - (h - 1 - i) = i by omega] at this
      exact this
    · intro q m i hi j hj
      rw [hm]
      exact q m _ (by omega) _ hj
  · rw [eR, eR', re_R_upDown h w h0 w0 d hd i j hi, sub_eq_add_neg]
    congr 1
    by_cases c : h % 2 = 0 ∧ w % 2 = 0
    · obtain ⟨q, hq⟩ : ∃ q, q = Real.sqrt ((h * w : ℕ) : ℝ) := ⟨_, rfl⟩
      have hw0 : (0 : ℝ) < ((h * w : ℕ) : ℝ) := by exact_mod_cast Nat.mul_pos (by omega) (by omega)
      have sq : q ^ 2 = ((h * w : ℕ) : ℝ) := by rw [hq]; exact Real.sq_sqrt hw0.le
      have sp : 0 < q := by rw [hq]; exact Real.sqrt_pos.2 hw0
      have P : ∀ m, (d m).psfHat.px (h / 2) (w / 2) = ((altSum (d m).psf.rePart / q : ℝ) : ℂ) := by
        intro m
        change (fftOrtho (padTo (d m).interped.h (d m).interped.w (d m).psf)).px _ _ = _
        rw [(hd m).sh, (hd m).sw, fft_rePart (d m).psf h w (hd m).realP, hq]
        exact fft_corner (d m).psf.rePart h w (h / 2) (w / 2) (by omega) (by omega) (by omega) (by omega) (hd m).fitsH (hd m).fitsW
      have I : ∀ m, (fftOrtho (d m).interped).px (h / 2) (w / 2) = ((altSum (d m).interped.rePart / q : ℝ) : ℂ) := by
        intro m
        rw [← padTo_self (d m).interped h w (hd m).sh (hd m).sw, fft_rePart (d m).interped h w (by
          rw [(hd m).sh, (hd m).sw]; exact (hd m).real), hq]
        exact fft_corner (d m).interped.rePart h w (h / 2) (w / 2) (by omega) (by omega) (by omega) (by omega)
          (hd m).sh.le (hd m).sw.le
      have pw : Real.sqrt (powerAt d (h / 2) (w / 2)) =
          Real.sqrt (∑ m, (d m).zp ^ 2 / (d m).var ^ 2 * altSum (d m).psf.rePart ^ 2) / q := by
        have : powerAt d (h / 2) (w / 2) = (∑ m, (d m).zp ^ 2 / (d m).var ^ 2 * altSum (d m).psf.rePart ^ 2) / q ^ 2 := by
          unfold powerAt zackayPower
          rw [Finset.sum_div]
          refine Finset.sum_congr rfl fun m _ => ?_
          simp only []
          rw [P m, normSq_ofReal]
          ring
        rw [this, Real.sqrt_div' _ (sq_nonneg q), Real.sqrt_sq sp.le]
      have qe : Real.sqrt ((h : ℝ) * w) = q := by rw [hq]; push_cast; rfl
      have we : (h : ℝ) * w = q ^ 2 := by rw [sq]; push_cast; rfl
      rw [if_pos c, qe, we, ← sq, pw]
      have s0 : q ≠ 0 := sp.ne'
      generalize Real.sqrt (∑ m, (d m).zp ^ 2 / (d m).var ^ 2 * altSum (d m).psf.rePart ^ 2) = A
      have each : ∀ m, cornerTerm h w ((((d m).zp / (d m).var ^ 2 : ℝ) : ℂ) * ((fftOrtho (d m).interped).px (h / 2) (w / 2) *
          (starRingEnd ℂ) ((d m).psfHat.px (h / 2) (w / 2))) / ((A / q : ℝ) : ℂ)).re (d m).com.1 (d m).com.2 i j =
          -((-1) ^ (i + j) * (2 / q) / A * ((d m).zp / (d m).var ^ 2 *
            (Real.sin (Real.pi * (d m).com.1) * Real.sin (Real.pi * (d m).com.2)) *
                altSum (d m).interped.rePart * altSum (d m).psf.rePart)) := by
        intro m
        unfold cornerTerm
        rw [if_pos c, P m, I m, Complex.conj_ofReal, ← Complex.ofReal_mul, ← Complex.ofReal_mul, ← Complex.ofReal_div,
          Complex.ofReal_re]
        field_simp
      rw [Finset.sum_congr rfl fun m _ => each m, Finset.sum_neg_distrib, ← Finset.mul_sum]
      field_simp
    · rw [if_neg c, neg_zero]
      unfold cornerTerm
      simp only [if_neg c, Finset.sum_const_zero, zero_div]
  · rw [eP, eP']
    exact coaddPsf_upDown h w h0 d hd psfShape i j
  · exact marks_agree _ _ _ _ (em' i hi j hj) (em (h - 1 - i) (by omega) j hj) fun m => hm m i j

/-! ## Worked instances -/

/-- A PSF centred a quarter of a pixel off in both directions. -/
noncomputable def quarterPsf : Img ℝ := ⟨2, 2, fun i j => (if i = 0 then 3 else 1) * (if j = 0 then 3 else 1) / 16⟩

noncomputable def quarterSub (u : ℕ → ℕ → ℝ) : SubImg := ⟨⟨2, 2, u⟩, none, ⟨2, 2, fun _ _ => 0⟩, quarterPsf, 1⟩

theorem quarter_com : centerOfMass quarterPsf = (1 / 4, 1 / 4) := by
  unfold centerOfMass rsum quarterPsf
  simp [Finset.sum_range_succ]
  norm_num

theorem quarter_alt : altSum quarterPsf = 1 / 4 := by
  unfold altSum quarterPsf
  simp [Finset.sum_range_succ]
  norm_num

theorem quarter_dft (x : Img ℝ) (hh : x.h = 2) (hw : x.w = 2) (k l : ℕ) (hk : k < 2) (hl : l < 2) :
    (fftOrtho (padTo 2 2 (toC x))).px k l =
      (((x.px 0 0 + (-1) ^ l * x.px 0 1 + ((-1) ^ k * x.px 1 0 + (-1) ^ (k + l) * x.px 1 1)) / 2 : ℝ) : ℂ) := by
  have s : Real.sqrt ((2 * 2 : ℕ) : ℝ) = 2 := by
    rw [show ((2 * 2 : ℕ) : ℝ) = 2 ^ 2 by norm_num, Real.sqrt_sq (by norm_num)]
  change (∑ i ∈ range 2, ∑ j ∈ range 2, (if i < x.h ∧ j < x.w then ((x.px i j : ℝ) : ℂ) else 0) *
    (tw 2 ((k : ℝ) * i) * tw 2 ((l : ℝ) * j))) / ((Real.sqrt ((2 * 2 : ℕ) : ℝ) : ℝ) : ℂ) = _
  rw [s, hh, hw]
  have t : ∀ k : ℕ, k < 2 → tw 2 (k : ℝ) = (-1) ^ k := by
    intro k hk
    interval_cases k
    · simp [tw_zero]
    · simp [tw_two_one]
  simp only [Finset.sum_range_succ, Finset.sum_range_zero, zero_add]
  norm_num [tw_zero, t k hk, t l hl]
  ring

theorem quarter_idle : GuardIdle 2 2 quarterPsf ∧ GuardIdle 2 2 quarterPsf.upDown := by
  constructor <;> intro k hk l hl
  · rw [quarter_dft quarterPsf rfl rfl k l hk hl, Complex.ofReal_re]
    unfold quarterPsf
    interval_cases k <;> interval_cases l <;> norm_num
  · rw [quarter_dft quarterPsf.upDown rfl rfl k l hk hl, Complex.ofReal_re]
    unfold quarterPsf Img.upDown
    interval_cases k <;> interval_cases l <;> norm_num

theorem quarter_flippable (u : ℕ → ℕ → ℝ) : Flippable (quarterSub u) 2 2 := by
  refine ⟨rfl, le_refl _, le_refl _, ?_, quarter_idle.1, quarter_idle.2⟩
  change rsum quarterPsf ≠ 0
  unfold rsum quarterPsf
  simp [Finset.sum_range_succ]
  norm_num

theorem sin_quarter : Real.sin (Real.pi * (1 / 4)) * Real.sin (Real.pi * (1 / 4)) = 1 / 2 := by
  have := Real.sq_sqrt (by norm_num : (0 : ℝ) ≤ 2)
  rw [show Real.pi * (1 / 4) = Real.pi / 4 by ring, Real.sin_pi_div_four]
  nlinarith

/-- C172: one bright pixel on an empty sky, 2 × 2 pixels, PSFs centred a quarter of a pixel off in both directions: upside down,
D gains a checkerboard of amplitude 1/(4√2). -/
theorem subtract_checkerboard : ∃ out out',
    subtract (tinyEnv 1 1) ⟨false, false, true⟩ (quarterSub fun _ _ => 0)
      (quarterSub fun i j => if i = 0 ∧ j = 0 then 1 else 0) = .ok out ∧
    subtract (tinyEnv 1 1).upDown ⟨false, false, true⟩ (quarterSub fun _ _ => 0).upDown
      (quarterSub fun i j => if i = 0 ∧ j = 0 then 1 else 0).upDown = .ok out' ∧
    ∀ i < 2, ∀ j < 2, (out'.D.px i j).re = (out.D.px (1 - i) j).re - (-1) ^ (i + j) / (4 * Real.sqrt 2) := by
  obtain ⟨out, out', e, e', hD⟩ := subtract_upDown_exact (tinyEnv 1 1) true (quarterSub fun _ _ => 0)
    (quarterSub fun i j => if i = 0 ∧ j = 0 then 1 else 0) 2 2 (1, 1) (by norm_num) (by norm_num) (quarter_flippable _)
    (quarter_flippable _) (by intro a h; cases h) (by intro a h; cases h) rfl (Or.inl rfl)
  refine ⟨out, out', e, e', fun i hi j hj => ?_⟩
  rw [hD i hi j hj, if_pos ⟨rfl, rfl⟩]
  have a1 : altSum (quarterSub fun i j => if i = 0 ∧ j = 0 then 1 else 0).interped = 1 := by
    unfold altSum quarterSub
    simp [Finset.sum_range_succ]
  have a2 : altSum (quarterSub fun _ _ => 0).interped = 0 := by
    unfold altSum quarterSub
    simp
  rw [a1, a2]
  change _ - (-1) ^ (i + j) * _ * ((Real.sin (Real.pi * (centerOfMass quarterPsf).1) *
    Real.sin (Real.pi * (centerOfMass quarterPsf).2) * altSum quarterPsf * 1 - _ * (_ * altSum quarterPsf * 0)) /
    Real.sqrt (1 ^ 2 * altSum quarterPsf ^ 2 + _ ^ 2 * 1 ^ 2 * altSum quarterPsf ^ 2)) = _
  rw [quarter_com, quarter_alt]
  simp only []
  rw [sin_quarter]
  have r : Real.sqrt (1 ^ 2 * (1 / 4) ^ 2 + (1 / 1) ^ 2 * 1 ^ 2 * (1 / 4) ^ 2) = Real.sqrt 2 / 4 := by
    rw [show (1 : ℝ) ^ 2 * (1 / 4) ^ 2 + (1 / 1) ^ 2 * 1 ^ 2 * (1 / 4) ^ 2 = 2 / 4 ^ 2 by norm_num,
      Real.sqrt_div' _ (by norm_num), Real.sqrt_sq (by norm_num)]
  rw [r]
  have p : Real.sqrt 2 ≠ 0 := by positivity
  push_cast
  field_simp
  norm_num

/-- A single exposure of the same kind for `coadd`. -/
noncomputable def quarterSingle (_ : Fin 1) : SinglePsf :=
  ⟨⟨2, 2, fun i j => if i = 0 ∧ j = 0 then 1 else 0⟩, toC quarterPsf, (1 / 4, 1 / 4), 1, 1, none⟩

theorem quarterSingle_turnable (m : Fin 1) : (quarterSingle m).Turnable 2 2 := by
  refine ⟨rfl, rfl, le_refl _, le_refl _, fun i _ j _ => ?_, fun i _ j _ => ?_⟩
  · change (starRingEnd ℂ) (if i = 0 ∧ j = 0 then (1 : ℂ) else 0) = if i = 0 ∧ j = 0 then (1 : ℂ) else 0
    split_ifs
    · exact map_one _
    · exact map_zero _
  · exact Complex.conj_ofReal _

/-- C172: the coadd of that exposure upside down is not the coadd upside down either: it gains a checkerboard of amplitude 1/8. -/
theorem coadd_checkerboard (lt : List CoImg → List CoImg → Option Bool) : ∃ out out',
    coaddCore lt ((List.ofFn quarterSingle).map SinglePsf.toCoImg) 0 1 = .ok out ∧
    coaddCore lt ((List.ofFn fun m => (quarterSingle m).upDown).map SinglePsf.toCoImg) 0 1 = .ok out' ∧
    ∀ i < 2, ∀ j < 2, (out'.R.px i j).re = (out.R.px (1 - i) j).re - (-1) ^ (i + j) / 8 := by
  obtain ⟨out, out', e, e', _, hR⟩ := coadd_upDown lt lt (by norm_num) quarterSingle 2 2 0 (by norm_num) (by norm_num) 1 1
    quarterSingle_turnable (fun _ => by intro a h; cases h) (by norm_num) (by norm_num) (by norm_num) (by norm_num) (by norm_num)
    (by norm_num)
  refine ⟨out, out', e, e', fun i hi j hj => ?_⟩
  rw [(hR i hi j hj).1, if_pos ⟨rfl, rfl⟩]
  have a1 : altSum (quarterSingle 0).interped.rePart = 1 := by
    unfold altSum quarterSingle Img.rePart Img.map
    simp [Finset.sum_range_succ]
  have a2 : altSum (quarterSingle 0).psf.rePart = 1 / 4 := quarter_alt
  have s : Real.sqrt ((2 : ℕ) * (2 : ℕ) : ℝ) = 2 := by
    push_cast
    exact Real.sqrt_mul_self (by norm_num)
  rw [Fin.sum_univ_one, Fin.sum_univ_one, a1, a2, s]
  change _ - (-1) ^ (i + j) * _ * ((1 / 1 ^ 2 * (Real.sin (Real.pi * (1 / 4)) * Real.sin (Real.pi * (1 / 4))) * 1 * (1 / 4)) /
    Real.sqrt (1 ^ 2 / 1 ^ 2 * (1 / 4) ^ 2)) = _
  rw [sin_quarter]
  have r : Real.sqrt (1 ^ 2 / 1 ^ 2 * (1 / 4) ^ 2) = 1 / 4 := by
    rw [show (1 : ℝ) ^ 2 / 1 ^ 2 * (1 / 4) ^ 2 = (1 / 4) ^ 2 by norm_num, Real.sqrt_sq (by norm_num)]
  rw [r]
  push_cast
  ring

/-- A column of two pixels whose PSF is centred a quarter of a pixel below the first. -/
noncomputable def columnSub (u : ℕ → ℝ) : SubImg :=
  ⟨⟨2, 1, fun i _ => u i⟩, none, ⟨2, 1, fun _ _ => 0⟩, ⟨2, 1, fun i _ => if i = 0 then 3 else 1⟩, 1⟩

theorem column_dft (x : Img ℝ) (hh : x.h = 2) (hw : x.w = 1) (k : ℕ) (hk : k < 2) :
    (fftOrtho (padTo 2 1 (toC x))).px k 0 = (((x.px 0 0 + (-1) ^ k * x.px 1 0) / Real.sqrt ((2 * 1 : ℕ) : ℝ) : ℝ) : ℂ) := by
  change (∑ i ∈ range 2, ∑ j ∈ range 1, (if i < x.h ∧ j < x.w then ((x.px i j : ℝ) : ℂ) else 0) *
    (tw 2 ((k : ℝ) * i) * tw 1 (((0 : ℕ) : ℝ) * j))) / ((Real.sqrt ((2 * 1 : ℕ) : ℝ) : ℝ) : ℂ) = _
  rw [Complex.ofReal_div, hh, hw]
  have t : ∀ k : ℕ, k < 2 → tw 2 (k : ℝ) = (-1) ^ k := by
    intro k hk
    interval_cases k
    · simp [tw_zero]
    · simp [tw_two_one]
  congr 1
  simp only [Finset.sum_range_succ, Finset.sum_range_zero, zero_add]
  norm_num [tw_zero, t k hk]
  ring

theorem column_flippable (u : ℕ → ℝ) : Flippable (columnSub u) 2 1 := by
  have s : Real.sqrt ((2 * 1 : ℕ) : ℝ) ≠ 0 := (Real.sqrt_pos.2 (by norm_num)).ne'
  refine ⟨rfl, le_refl _, le_refl _, ?_, ?_, ?_⟩
  · unfold rsum columnSub
    simp [Finset.sum_range_succ]
    norm_num
  · intro k hk l hl
    interval_cases l
    rw [column_dft _ rfl rfl k hk, Complex.ofReal_re]
    refine div_ne_zero ?_ s
    unfold columnSub
    interval_cases k <;> norm_num
  · intro k hk l hl
    interval_cases l
    rw [column_dft _ rfl rfl k hk, Complex.ofReal_re]
    refine div_ne_zero ?_ s
    unfold columnSub Img.upDown
    interval_cases k <;> norm_num

/-- Two columns upside down, with the scale fitted: D is upside down, P as it was. -/
theorem column_upDown (u v : ℕ → ℝ) :
    (∃ er, subtract { tinyEnv 1 1 with gamma := Img.const 2 1 0 } ⟨true, false, true⟩ (columnSub u) (columnSub v) = .error er ∧
      subtract { tinyEnv 1 1 with gamma := Img.const 2 1 0 } ⟨true, false, true⟩ (columnSub u).upDown (columnSub v).upDown =
        .error er) ∨
    ∃ out out', subtract { tinyEnv 1 1 with gamma := Img.const 2 1 0 } ⟨true, false, true⟩ (columnSub u) (columnSub v) = .ok out ∧
      subtract { tinyEnv 1 1 with gamma := Img.const 2 1 0 } ⟨true, false, true⟩ (columnSub u).upDown (columnSub v).upDown =
        .ok out' ∧ (out'.D.px 0 0).re = (out.D.px 1 0).re ∧ (out'.D.px 1 0).re = (out.D.px 0 0).re ∧
        out'.P.px 0 0 = out.P.px 0 0 := by
  rcases subtract_upDown { tinyEnv 1 1 with gamma := Img.const 2 1 0 } true true (columnSub u) (columnSub v) 2 1 (by norm_num)
    (by norm_num) (column_flippable u) (column_flippable v) rfl (by intro a h; cases h) (by intro a h; cases h) (Or.inl rfl)
    (Or.inr (Or.inl rfl)) with q | ⟨out, out', e, e', _, hD⟩
  · exact Or.inl q
  · refine Or.inr ⟨out, out', e, e', (hD 0 (by norm_num) 0 (by norm_num)).1, (hD 1 (by norm_num) 0 (by norm_num)).1, ?_⟩
    refine (hD 0 (by norm_num) 0 (by norm_num)).2.trans ?_
    change out.P.px (turnAt 2 ((2 : ℤ) + 2 - 2) 0) 0 = _
    rw [show turnAt 2 ((2 : ℤ) + 2 - 2) 0 = 0 by decide]

end PI
