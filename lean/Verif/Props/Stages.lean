import Verif.Props.CoaddSymm
import Verif.Props.ScoreStar
import Verif.Props.Energy

/-!
# Property C154: coadding in stages
-/

namespace PI

open Complex Finset

/-- A coadd handed to `coadd` as an image: its pixels are R, its PSF stamp is the PSF image that `coadd` returned, centred
where that image is centred (the stamp size `a` on both axes), its zero point is `c` and its noise that of a coadd
(C105). -/
noncomputable def asExposure (h w a : ℕ) (c : ℝ) (out : CoaddOut) : SinglePsf where
  interped := out.R
  psf := out.Pr
  com := ((a : ℝ), (a : ℝ))
  zp := c
  var := 1 / Real.sqrt ((h * w : ℕ) : ℝ)
  mask := out.mask

/-- The flux scale of a coadd: the square root of the weighted PSF power at frequency zero (C108). -/
noncomputable def fluxScale (imgs : List CoImg) : ℝ := Real.sqrt (specP imgs 0 0).re

/-- The weighted PSF power of a list of images is a positive real number at every frequency. -/
def PositivePower (h w : ℕ) (imgs : List CoImg) : Prop :=
  ∀ k < h, ∀ l < w, 0 < (specP imgs k l).re ∧ (specP imgs k l).im = 0

theorem PositivePower.csqrt {h w : ℕ} {imgs : List CoImg} (hP : PositivePower h w imgs) {k l : ℕ} (hk : k < h) (hl : l < w) :
    PI.csqrt (specP imgs k l) = ((Real.sqrt (specP imgs k l).re : ℝ) : ℂ) ∧ 0 < Real.sqrt (specP imgs k l).re ∧
      specP imgs k l = (((specP imgs k l).re : ℝ) : ℂ) := by
  obtain ⟨h1, h2⟩ := hP k hk l hl
  have e : specP imgs k l = (((specP imgs k l).re : ℝ) : ℂ) := Complex.ext rfl h2
  refine ⟨?_, Real.sqrt_pos.2 h1, e⟩
  conv_lhs => rw [e]
  exact csqrt_ofReal_nonneg _ h1.le

theorem fftOrtho_ifftDefault (X : Img ℂ) (k l : ℕ) (hk : k < X.h) (hl : l < X.w) :
    (fftOrtho (ifftDefault X)).px k l = X.px k l / ((Real.sqrt ((X.h * X.w : ℕ) : ℝ) : ℝ) : ℂ) := by
  have hN : 0 < Real.sqrt ((X.h * X.w : ℕ) : ℝ) :=
    Real.sqrt_pos.2 (by exact_mod_cast Nat.mul_pos (by omega) (by omega))
  have hN' : ((Real.sqrt ((X.h * X.w : ℕ) : ℝ) : ℝ) : ℂ) ≠ 0 := by exact_mod_cast hN.ne'
  have e : ifftDefault X = (ifftOrtho X).map fun z => (((Real.sqrt ((X.h * X.w : ℕ) : ℝ) : ℝ) : ℂ))⁻¹ * z := by
    unfold ifftDefault ifftOrtho Img.map
    simp only
    congr 1
    funext i j
    rw [← sqrt_mul_self_cast, div_mul_eq_div_div, div_eq_inv_mul]
  rw [e, times_fft, fftOrtho_ifftOrtho X k l hk hl, div_eq_inv_mul]

theorem fftOrtho_padSelf (h w : ℕ) (x : Img ℂ) (hh : x.h = h) (hw : x.w = w) (k l : ℕ) :
    (fftOrtho (padTo h w x)).px k l = (fftOrtho x).px k l := by
  subst hh hw
  change (∑ i ∈ range x.h, ∑ j ∈ range x.w, (if i < x.h ∧ j < x.w then x.px i j else 0) * _) / _ =
    (∑ i ∈ range x.h, ∑ j ∈ range x.w, x.px i j * _) / _
  congr 1
  exact Finset.sum_congr rfl fun i hi => Finset.sum_congr rfl fun j hj => by
    rw [if_pos ⟨mem_range.1 hi, mem_range.1 hj⟩]
    rfl

theorem conj_shiftPhase_mul (h w : ℕ) (d : ℝ × ℝ) (k l : ℕ) :
    (starRingEnd ℂ) (shiftPhase h w d k l) * shiftPhase h w d k l = 1 := by
  unfold shiftPhase
  rw [map_mul, conj_tw, conj_tw]
  have h1 := tw_neg_mul h ((sfreq h k : ℝ) * d.1)
  have h2 := tw_neg_mul w ((sfreq w l : ℝ) * d.2)
  calc _ = (tw h ((sfreq h k : ℝ) * d.1) * tw h (-((sfreq h k : ℝ) * d.1))) *
        (tw w ((sfreq w l : ℝ) * d.2) * tw w (-((sfreq w l : ℝ) * d.2))) := by ring
    _ = 1 := by rw [h1, h2, one_mul]

/-- The transform of the PSF image `coadd` returns. -/
theorem stage_psfHat (h w a : ℕ) (imgs : List CoImg) (hP : PositivePower h w imgs) (k l : ℕ) (hk : k < h) (hl : l < w) :
    (fftOrtho (coaddPsf ⟨h, w, specP imgs⟩ a)).px k l =
      ((Real.sqrt (specP imgs k l).re / fluxScale imgs / Real.sqrt ((h * w : ℕ) : ℝ) : ℝ) : ℂ) *
        shiftPhase h w ((a : ℝ), (a : ℝ)) k l := by
  have hraw := coadd_psf_raw_sum ⟨h, w, specP imgs⟩ a (by show h ≠ 0; omega) (by show w ≠ 0; omega)
  have h0 := hP.csqrt (show 0 < h by omega) (show 0 < w by omega)
  have hraw' : imSum (coaddPsfRaw ⟨h, w, specP imgs⟩ a) = ((fluxScale imgs : ℝ) : ℂ) := by
    rw [hraw]
    exact h0.1
  have e : coaddPsf ⟨h, w, specP imgs⟩ a =
      (coaddPsfRaw ⟨h, w, specP imgs⟩ a).map fun z => ((fluxScale imgs : ℝ) : ℂ)⁻¹ * z := by
    unfold coaddPsf
    rw [hraw']
    congr 1
    funext z
    rw [div_eq_inv_mul]
  rw [e, times_fft]
  unfold coaddPsfRaw
  rw [fftOrtho_ifftDefault _ k l hk hl]
  change _ * (PI.csqrt (specP imgs k l) * shiftPhase h w ((a : ℝ), (a : ℝ)) k l /
    ((Real.sqrt ((h * w : ℕ) : ℝ) : ℝ) : ℂ)) = _
  rw [(hP.csqrt hk hl).1]
  push_cast
  ring

/-- The record `coadd` accumulates for a coadd as an image is the sum of the records of its images. -/
theorem stage_terms (h w a : ℕ) (imgs : List CoImg) (hP : PositivePower h w imgs) (out : CoaddOut)
    (ho : (out.R, out.Pr) = specOut h w imgs a) (k l : ℕ) (hk : k < h) (hl : l < w) :
    (asExposure h w a (fluxScale imgs) out).sHatComp.px k l = specS imgs k l ∧
    ((((asExposure h w a (fluxScale imgs) out).zp / (asExposure h w a (fluxScale imgs) out).var) ^ 2 : ℝ) : ℂ) *
      (asExposure h w a (fluxScale imgs) out).psfSqnorm.px k l = specP imgs k l := by
  have hR : out.R = coaddR ⟨h, w, specS imgs⟩ ⟨h, w, specP imgs⟩ := congrArg Prod.fst ho
  have hPr : out.Pr = coaddPsf ⟨h, w, specP imgs⟩ a := congrArg Prod.snd ho
  have hN : 0 < Real.sqrt ((h * w : ℕ) : ℝ) :=
    Real.sqrt_pos.2 (by exact_mod_cast Nat.mul_pos (by omega) (by omega))
  have hF : 0 < fluxScale imgs := (hP.csqrt (show 0 < h by omega) (show 0 < w by omega)).2.1
  obtain ⟨hc, hq, hre⟩ := hP.csqrt hk hl
  have hsq : Real.sqrt (specP imgs k l).re * Real.sqrt (specP imgs k l).re = (specP imgs k l).re :=
    Real.mul_self_sqrt (hP k hk l hl).1.le
  have hh : (asExposure h w a (fluxScale imgs) out).interped.h = h := by
    change out.R.h = h
    rw [hR]; rfl
  have hw' : (asExposure h w a (fluxScale imgs) out).interped.w = w := by
    change out.R.w = w
    rw [hR]; rfl
  have hpsf : (asExposure h w a (fluxScale imgs) out).psfHat.px k l =
      ((Real.sqrt (specP imgs k l).re / fluxScale imgs / Real.sqrt ((h * w : ℕ) : ℝ) : ℝ) : ℂ) *
        shiftPhase h w ((a : ℝ), (a : ℝ)) k l := by
    unfold SinglePsf.psfHat
    rw [hh, hw']
    change (fftOrtho (padTo h w out.Pr)).px k l = _
    rw [fftOrtho_padSelf h w out.Pr (by rw [hPr]; rfl) (by rw [hPr]; rfl), hPr]
    exact stage_psfHat h w a imgs hP k l hk hl
  have hfft : (fftOrtho (asExposure h w a (fluxScale imgs) out).interped).px k l =
      specS imgs k l / ((Real.sqrt (specP imgs k l).re : ℝ) : ℂ) / ((Real.sqrt ((h * w : ℕ) : ℝ) : ℝ) : ℂ) := by
    change (fftOrtho out.R).px k l = _
    rw [hR]
    unfold coaddR
    rw [fftOrtho_ifftDefault _ k l hk hl]
    change specS imgs k l / PI.csqrt (specP imgs k l) / ((Real.sqrt ((h * w : ℕ) : ℝ) : ℝ) : ℂ) = _
    rw [hc]
  have hph := conj_shiftPhase_mul h w ((a : ℝ), (a : ℝ)) k l
  have hq' : ((Real.sqrt (specP imgs k l).re : ℝ) : ℂ) ≠ 0 := by exact_mod_cast hq.ne'
  have hN' : ((Real.sqrt ((h * w : ℕ) : ℝ) : ℝ) : ℂ) ≠ 0 := by exact_mod_cast hN.ne'
  have hF' : ((fluxScale imgs : ℝ) : ℂ) ≠ 0 := by exact_mod_cast hF.ne'
  constructor
  · change ((fluxScale imgs / (1 / Real.sqrt ((h * w : ℕ) : ℝ)) ^ 2 : ℝ) : ℂ) *
      ((fftOrtho (asExposure h w a (fluxScale imgs) out).interped).px k l *
        (starRingEnd ℂ) ((asExposure h w a (fluxScale imgs) out).psfHat.px k l) *
        shiftPhase (asExposure h w a (fluxScale imgs) out).interped.h
          (asExposure h w a (fluxScale imgs) out).interped.w ((a : ℝ), (a : ℝ)) k l) = _
    rw [hh, hw', hpsf, hfft, map_mul, conj_ofReal]
    generalize Real.sqrt ((h * w : ℕ) : ℝ) = N at hN'
    push_cast
    calc _ = specS imgs k l * ((starRingEnd ℂ) (shiftPhase h w ((a : ℝ), (a : ℝ)) k l) *
          shiftPhase h w ((a : ℝ), (a : ℝ)) k l) := by
            field_simp
      _ = specS imgs k l := by rw [hph, mul_one]
  · change ((((fluxScale imgs) / (1 / Real.sqrt ((h * w : ℕ) : ℝ))) ^ 2 : ℝ) : ℂ) *
      ((asExposure h w a (fluxScale imgs) out).psfHat.px k l *
        (starRingEnd ℂ) ((asExposure h w a (fluxScale imgs) out).psfHat.px k l)) = _
    rw [hpsf, map_mul, conj_ofReal]
    have e2 : (((Real.sqrt (specP imgs k l).re : ℝ) : ℂ)) * ((Real.sqrt (specP imgs k l).re : ℝ) : ℂ) = specP imgs k l := by
      rw [← Complex.ofReal_mul, hsq]
      exact hre.symm
    generalize Real.sqrt ((h * w : ℕ) : ℝ) = N at hN'
    push_cast
    calc _ = ((Real.sqrt (specP imgs k l).re : ℝ) : ℂ) * ((Real.sqrt (specP imgs k l).re : ℝ) : ℂ) *
          ((starRingEnd ℂ) (shiftPhase h w ((a : ℝ), (a : ℝ)) k l) * shiftPhase h w ((a : ℝ), (a : ℝ)) k l) := by
            field_simp
      _ = specP imgs k l := by rw [hph, mul_one, e2]

theorem coaddPsf_same (h w a : ℕ) (P P' : ℕ → ℕ → ℂ) (e : ∀ k < h, ∀ l < w, P k l = P' k l) (i j : ℕ) :
    (coaddPsf ⟨h, w, P⟩ a).px i j = (coaddPsf ⟨h, w, P'⟩ a).px i j := by
  have hraw : ∀ i j, (coaddPsfRaw ⟨h, w, P⟩ a).px i j = (coaddPsfRaw ⟨h, w, P'⟩ a).px i j := by
    intro i j
    refine ifftDefault_same h w _ _ (fun k hk l hl => ?_) i j
    change PI.csqrt (P k l) * _ = PI.csqrt (P' k l) * _
    rw [e k hk l hl]
    rfl
  change (coaddPsfRaw ⟨h, w, P⟩ a).px i j / imSum (coaddPsfRaw ⟨h, w, P⟩ a) =
    (coaddPsfRaw ⟨h, w, P'⟩ a).px i j / imSum (coaddPsfRaw ⟨h, w, P'⟩ a)
  have hsum : imSum (coaddPsfRaw ⟨h, w, P⟩ a) = imSum (coaddPsfRaw ⟨h, w, P'⟩ a) :=
    Finset.sum_congr rfl fun i _ => Finset.sum_congr rfl fun j _ => hraw i j
  rw [hraw, hsum]

theorem sum_flatten_map {α : Type} (g : α → ℂ) (L : List (List α)) :
    (L.flatten.map g).sum = (L.map fun x => (x.map g).sum).sum := by
  rw [List.map_flatten, List.sum_flatten, List.map_map]
  rfl

/-- C154: coadding in stages. Coadd the images group by group, and then coadd the coadds, each with the PSF image returned
for it (centred at the stamp size used for its group), its flux scale as zero point and the noise of a coadd: R, the PSF
image and the mask are those of the coadd of all images at once. -/
theorem coadd_in_stages (lt : List CoImg → List CoImg → Option Bool) (h w : ℕ) {n : ℕ} (hn : 0 < n)
    (g : Fin n → List CoImg) (hne : ∀ m, g m ≠ []) (hall : ∀ m, AllShape (g m) h w)
    (hP : ∀ m, PositivePower h w (g m)) (a : Fin n → ℕ) (p : Fin n → ℤ)
    (hp : ∀ m, p m ≤ (g m).length ∧ p m ≤ 2 ^ 25 ∧ p m * (g m).length ≤ 2 ^ 50)
    (b : ℕ) (p1 p2 : ℤ) (h1 : p1 ≤ n ∧ p1 ≤ 2 ^ 25 ∧ p1 * n ≤ 2 ^ 50)
    (h2 : p2 ≤ (List.ofFn g).flatten.length ∧ p2 ≤ 2 ^ 25 ∧ p2 * (List.ofFn g).flatten.length ≤ 2 ^ 50) :
    ∃ (part : Fin n → CoaddOut) (staged all : CoaddOut),
      (∀ m, coaddCore lt (g m) (a m) (p m) = .ok (part m)) ∧
      coaddCore lt (List.ofFn fun m => (asExposure h w (a m) (fluxScale (g m)) (part m)).toCoImg) b p1 = .ok staged ∧
      coaddCore lt (List.ofFn g).flatten b p2 = .ok all ∧
      (∀ i j, staged.R.px i j = all.R.px i j ∧ staged.Pr.px i j = all.Pr.px i j) ∧
      (∀ i < h, ∀ j < w, staged.mask.marks i j = all.mask.marks i j) ∧ (staged.mask = none ↔ all.mask = none) := by
  have hpart : ∀ m, ∃ out, coaddCore lt (g m) (a m) (p m) = .ok out ∧
      (out.R, out.Pr) = specOut h w (g m) (a m) ∧ IsUnionMask h w (g m) out.mask :=
    fun m => coadd_spec lt h w (g m) (a m) (p m) (hne m) (hall m) (hp m).1 (hp m).2.1 (hp m).2.2
  choose part hok hspec hmask using hpart
  set st : List CoImg := List.ofFn fun m => (asExposure h w (a m) (fluxScale (g m)) (part m)).toCoImg with hst
  have hRm : ∀ m, (part m).R = coaddR ⟨h, w, specS (g m)⟩ ⟨h, w, specP (g m)⟩ := fun m => congrArg Prod.fst (hspec m)
  have hlen : st.length = n := by rw [hst]; simp
  have hstne : st ≠ [] := by
    intro q
    rw [q] at hlen
    simp at hlen
    omega
  have hstall : AllShape st h w := by
    intro im him
    rw [hst, List.mem_ofFn] at him
    obtain ⟨m, rfl⟩ := him
    refine ⟨?_, ?_, (hmask m).1⟩
    · change (part m).R.h = h
      rw [hRm]; rfl
    · change (part m).R.w = w
      rw [hRm]; rfl
  have hflat : (List.ofFn g).flatten ≠ [] := by
    intro q
    rw [List.flatten_eq_nil_iff] at q
    exact hne ⟨0, hn⟩ (q _ (List.mem_ofFn.2 ⟨⟨0, hn⟩, rfl⟩))
  have hflatall : AllShape (List.ofFn g).flatten h w := by
    intro im him
    obtain ⟨x, hx, hm⟩ := List.mem_flatten.1 him
    obtain ⟨m, rfl⟩ := List.mem_ofFn.1 hx
    exact hall m im hm
  obtain ⟨staged, e1, s1, m1⟩ := coadd_spec lt h w st b p1 hstne hstall (by rw [hlen]; exact h1.1) h1.2.1
    (by rw [hlen]; exact h1.2.2)
  obtain ⟨all, e2, s2, m2⟩ := coadd_spec lt h w (List.ofFn g).flatten b p2 hflat hflatall h2.1 h2.2.1 h2.2.2
  have hS : ∀ k < h, ∀ l < w, specS st k l = specS (List.ofFn g).flatten k l := by
    intro k hk l hl
    unfold specS
    rw [sum_flatten_map, List.map_ofFn, List.map_ofFn]
    congr 2
    funext m
    exact (stage_terms h w (a m) (g m) (hP m) (part m) (hspec m) k l hk hl).1
  have hPp : ∀ k < h, ∀ l < w, specP st k l = specP (List.ofFn g).flatten k l := by
    intro k hk l hl
    unfold specP
    rw [sum_flatten_map, List.map_ofFn, List.map_ofFn]
    congr 2
    funext m
    exact (stage_terms h w (a m) (g m) (hP m) (part m) (hspec m) k l hk hl).2
  have hmarks : ∀ i < h, ∀ j < w, (∃ im ∈ st, im.mask.marks i j = true) ↔
      ∃ im ∈ (List.ofFn g).flatten, im.mask.marks i j = true := by
    intro i hi j hj
    constructor
    · rintro ⟨im, him, hm⟩
      rw [hst, List.mem_ofFn] at him
      obtain ⟨m, rfl⟩ := him
      obtain ⟨im', h', hm'⟩ := ((hmask m).2.1 i hi j hj).1 hm
      exact ⟨im', List.mem_flatten.2 ⟨g m, List.mem_ofFn.2 ⟨m, rfl⟩, h'⟩, hm'⟩
    · rintro ⟨im, him, hm⟩
      obtain ⟨x, hx, hmem⟩ := List.mem_flatten.1 him
      obtain ⟨m, rfl⟩ := List.mem_ofFn.1 hx
      exact ⟨_, by rw [hst]; exact List.mem_ofFn.2 ⟨m, rfl⟩, ((hmask m).2.1 i hi j hj).2 ⟨im, hmem, hm⟩⟩
  refine ⟨part, staged, all, hok, e1, e2, fun i j => ⟨?_, ?_⟩, fun i hi j hj => ?_, ?_⟩
  · rw [show staged.R = _ from congrArg Prod.fst s1, show all.R = _ from congrArg Prod.fst s2]
    refine ifftDefault_same h w _ _ (fun k hk l hl => ?_) i j
    change specS st k l / PI.csqrt (specP st k l) = specS _ k l / PI.csqrt (specP _ k l)
    rw [hS k hk l hl, hPp k hk l hl]
  · rw [show staged.Pr = _ from congrArg Prod.snd s1, show all.Pr = _ from congrArg Prod.snd s2]
    exact coaddPsf_same h w b _ _ hPp i j
  · rw [Bool.eq_iff_iff, m1.2.1 i hi j hj, m2.2.1 i hi j hj]
    exact hmarks i hi j hj
  · rw [m1.2.2, m2.2.2]
    constructor
    · intro q im him i hi j hj
      by_contra hc
      obtain ⟨im', h', hm'⟩ := (hmarks i hi j hj).2 ⟨im, him, by simpa using hc⟩
      rw [q im' h' i hi j hj] at hm'
      exact absurd hm' (by simp)
    · intro q im him i hi j hj
      by_contra hc
      obtain ⟨im', h', hm'⟩ := (hmarks i hi j hj).1 ⟨im, him, by simpa using hc⟩
      rw [q im' h' i hi j hj] at hm'
      exact absurd hm' (by simp)

/-- Images with one PSF each have a positive power where one of them sees the frequency. -/
theorem positivePower_single {n : ℕ} (d : Fin n → SinglePsf) (h w : ℕ)
    (hp : ∀ k < h, ∀ l < w, ∃ m, (d m).zp ≠ 0 ∧ (d m).var ≠ 0 ∧ (d m).psfHat.px k l ≠ 0) :
    PositivePower h w ((List.ofFn d).map SinglePsf.toCoImg) := by
  intro k hk l hl
  rw [specP_single, Complex.ofReal_re, Complex.ofReal_im]
  refine ⟨?_, rfl⟩
  obtain ⟨m, z, v, q⟩ := hp k hk l hl
  refine Finset.sum_pos' (fun j _ => mul_nonneg (by positivity) (Complex.normSq_nonneg _)) ⟨m, mem_univ _, ?_⟩
  exact mul_pos (by positivity) (Complex.normSq_pos.2 q)

/-- C154: a coadd coadded alone, with its own PSF image, flux scale and noise, is itself. -/
theorem coadd_own_coadd (lt : List CoImg → List CoImg → Option Bool) (h w : ℕ) (imgs : List CoImg) (hne : imgs ≠ [])
    (hall : AllShape imgs h w) (hP : PositivePower h w imgs) (a : ℕ) (p : ℤ)
    (hp : p ≤ imgs.length ∧ p ≤ 2 ^ 25 ∧ p * imgs.length ≤ 2 ^ 50) :
    ∃ out again, coaddCore lt imgs a p = .ok out ∧
      coaddCore lt [(asExposure h w a (fluxScale imgs) out).toCoImg] a 1 = .ok again ∧
      (∀ i j, again.R.px i j = out.R.px i j ∧ again.Pr.px i j = out.Pr.px i j) ∧
      ∀ i < h, ∀ j < w, again.mask.marks i j = out.mask.marks i j := by
  obtain ⟨part, staged, all, h1, h2, h3, h4, h5, _⟩ := coadd_in_stages lt h w (n := 1) (by norm_num) (fun _ => imgs)
    (fun _ => hne) (fun _ => hall) (fun _ => hP) (fun _ => a) (fun _ => p) (fun _ => hp) a 1 p (by norm_num)
    (by simpa using hp)
  have e : (List.ofFn fun _ : Fin 1 => imgs).flatten = imgs := by simp
  rw [e] at h3
  have e2 := h1 0
  rw [h3] at e2
  have e3 : all = part 0 := by injection e2
  refine ⟨part 0, staged, h1 0, ?_, ?_, ?_⟩
  · simpa using h2
  · rw [← e3]; exact h4
  · rw [← e3]; exact h5

/-- The 2x3 image `deltaDemo` a night later, with a masked pixel. -/
noncomputable def laterDemo : SinglePsf where
  interped := ⟨2, 3, fun i j => (3 * i : ℂ) - j⟩
  psf := ⟨1, 1, fun _ _ => 1⟩
  com := (0, 0)
  zp := 1
  var := 3
  mask := some ⟨2, 3, fun i j => decide (i = 1 ∧ j = 2)⟩

/-- Two nights, of two images and of one. -/
noncomputable def nights (m : Fin 2) : List CoImg :=
  if m = 0 then (List.ofFn fun _ : Fin 2 => deltaDemo).map SinglePsf.toCoImg
  else (List.ofFn fun _ : Fin 1 => laterDemo).map SinglePsf.toCoImg

/-- The coadds of the two nights, coadded with stamp sizes of one and two pixels, give the coadd of the three images, with
the masked pixel of the last one. -/
theorem nights_in_stages (lt : List CoImg → List CoImg → Option Bool) :
    ∃ (part : Fin 2 → CoaddOut) (staged all : CoaddOut),
      coaddCore lt [deltaDemo.toCoImg, deltaDemo.toCoImg] 1 2 = .ok (part 0) ∧
      coaddCore lt [laterDemo.toCoImg] 2 1 = .ok (part 1) ∧
      coaddCore lt (List.ofFn fun m : Fin 2 =>
        (asExposure 2 3 (1 + m.val) (fluxScale (nights m)) (part m)).toCoImg) 1 2 = .ok staged ∧
      coaddCore lt [deltaDemo.toCoImg, deltaDemo.toCoImg, laterDemo.toCoImg] 1 3 = .ok all ∧
      (∀ i j, staged.R.px i j = all.R.px i j ∧ staged.Pr.px i j = all.Pr.px i j) ∧
      staged.mask.marks 1 2 = true ∧ staged.mask.marks 0 0 = false := by
  have hsA : ∀ _ : Fin 2, deltaDemo.interped.h = 2 ∧ deltaDemo.interped.w = 3 ∧ deltaDemo.mask.HasShape 2 3 :=
    fun _ => ⟨rfl, rfl, by intro a ha; cases ha; exact ⟨rfl, rfl⟩⟩
  have hsB : ∀ _ : Fin 1, laterDemo.interped.h = 2 ∧ laterDemo.interped.w = 3 ∧ laterDemo.mask.HasShape 2 3 :=
    fun _ => ⟨rfl, rfl, by intro a ha; cases ha; exact ⟨rfl, rfl⟩⟩
  have n0 : nights 0 = [deltaDemo.toCoImg, deltaDemo.toCoImg] := by simp [nights]
  have n1 : nights 1 = [laterDemo.toCoImg] := by simp [nights]
  have hA : AllShape (nights 0) 2 3 := by
    rw [nights, if_pos rfl]; exact allShape_single _ 2 3 hsA
  have hB : AllShape (nights 1) 2 3 := by
    rw [nights, if_neg (by decide)]; exact allShape_single _ 2 3 hsB
  have hPA : PositivePower 2 3 (nights 0) := by
    rw [nights, if_pos rfl]
    refine positivePower_single _ 2 3 fun k _ l _ => ⟨0, by norm_num [deltaDemo], by norm_num [deltaDemo], ?_⟩
    rw [psfHat_delta deltaDemo rfl k l (by norm_num [deltaDemo]) (by norm_num [deltaDemo])]
    norm_num [deltaDemo]
  have hPB : PositivePower 2 3 (nights 1) := by
    rw [nights, if_neg (by decide)]
    refine positivePower_single _ 2 3 fun k _ l _ => ⟨0, by norm_num [laterDemo], by norm_num [laterDemo], ?_⟩
    rw [psfHat_delta laterDemo rfl k l (by norm_num [laterDemo]) (by norm_num [laterDemo])]
    norm_num [laterDemo]
  have hflat : (List.ofFn nights).flatten = [deltaDemo.toCoImg, deltaDemo.toCoImg, laterDemo.toCoImg] := by
    simp [n0, n1]
  obtain ⟨part, staged, all, h1, h2, h3, h4, h5, _⟩ := coadd_in_stages lt 2 3 (n := 2) (by norm_num) nights
    (by intro m; fin_cases m <;> simp [nights]) (by intro m; fin_cases m <;> assumption)
    (by intro m; fin_cases m <;> assumption) (fun m => 1 + m.val) (fun m => 2 - m.val)
    (by intro m; fin_cases m <;> norm_num [nights]) 1 2 3 (by norm_num) (by rw [hflat]; norm_num)
  rw [hflat] at h3
  refine ⟨part, staged, all, ?_, ?_, h2, h3, h4, ?_, ?_⟩
  · simpa [n0] using h1 0
  · simpa [n1] using h1 1
  all_goals
    have hall : AllShape [deltaDemo.toCoImg, deltaDemo.toCoImg, laterDemo.toCoImg] 2 3 := by
      intro im him
      simp only [List.mem_cons, List.not_mem_nil, or_false] at him
      rcases him with rfl | rfl | rfl
      · exact hsA 0
      · exact hsA 0
      · exact hsB 0
    obtain ⟨out, e, _, hm⟩ := coadd_spec lt 2 3 _ 1 3 (by simp) hall (by simp) (by norm_num) (by simp)
    rw [h3] at e
    cases e
  · rw [h5 1 (by norm_num) 2 (by norm_num), hm.2.1 1 (by norm_num) 2 (by norm_num)]
    exact ⟨laterDemo.toCoImg, by simp, rfl⟩
  · rw [h5 0 (by norm_num) 0 (by norm_num), Bool.eq_false_iff, Ne, hm.2.1 0 (by norm_num) 0 (by norm_num)]
    rintro ⟨im, him, hmk⟩
    simp only [List.mem_cons, List.not_mem_nil, or_false] at him
    rcases him with rfl | rfl | rfl <;>
      simp [SinglePsf.toCoImg, deltaDemo, laterDemo, NMask.marks, Img.const] at hmk

end PI
