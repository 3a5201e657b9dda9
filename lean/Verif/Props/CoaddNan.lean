import Verif.Model.CoaddNan
import Verif.Props.PsfStamp

/-!
# Property C145: frequencies at which every PSF vanishes

`subtract` replaces vanishing coefficients of the PSFs by a small number, `coadd` does not: one frequency at which the PSFs of
all images vanish makes every pixel of the coadd nan.
-/

namespace PI

open Complex Finset

theorem csqrt_eq_zero (z : ℂ) : csqrt z = 0 ↔ z = 0 := by
  unfold csqrt
  rw [Complex.cpow_eq_zero_iff]
  norm_num

/-- Both models of `coadd` are computed from the same sums: they raise the same errors, and return the same mask. -/
theorem coaddN_same_run (lt : List CoImg → List CoImg → Option Bool) (imgs : List CoImg) (psfShape : ℕ) (n : ℤ) :
    (∃ er, coaddCore lt imgs psfShape n = .error er ∧ coaddCoreN lt imgs psfShape n = .error er) ∨
    ∃ acc, coaddCore lt imgs psfShape n = .ok (finishCoadd psfShape acc) ∧
      coaddCoreN lt imgs psfShape n = .ok (finishCoaddN psfShape acc) := by
  unfold coaddCore coaddCoreN
  rcases globalShape imgs with er | gs
  · exact Or.inl ⟨er, rfl, rfl⟩
  by_cases h1 : 1 < n
  · simp only [bind, Except.bind, if_pos h1]
    rcases accParallel lt gs imgs n.toNat with er | acc
    · exact Or.inl ⟨er, rfl, rfl⟩
    · exact Or.inr ⟨acc, rfl, rfl⟩
  · simp only [bind, Except.bind, if_neg h1]
    rcases accSequential gs imgs with er | acc
    · exact Or.inl ⟨er, rfl, rfl⟩
    · exact Or.inr ⟨acc, rfl, rfl⟩

/-- The last step without a division by zero. -/
theorem finish_finite (psfShape : ℕ) (acc : Acc) (hP : ∀ k < acc.S.h, ∀ l < acc.S.w, acc.P.px k l ≠ 0) :
    (finishCoaddN psfShape acc).R = (finishCoadd psfShape acc).R.map some := by
  change ifftDefaultN (acc.S.zip (fun s p => quotN s (csqrt p)) acc.P) = (coaddR acc.S acc.P).map some
  unfold ifftDefaultN
  have fine : ∀ k < acc.S.h, ∀ l < acc.S.w, quotN (acc.S.px k l) (csqrt (acc.P.px k l)) =
      some (acc.S.px k l / csqrt (acc.P.px k l)) := by
    intro k hk l hl
    unfold quotN
    rw [if_neg (mt (csqrt_eq_zero _).1 (hP k hk l hl))]
  rw [if_pos]
  · congr 1
    unfold coaddR ifftDefault
    have e : idftSum ((acc.S.zip (fun s p => quotN s (csqrt p)) acc.P).map fun z => z.getD 0) =
        idftSum (acc.S.zip (fun s p => s / csqrt p) acc.P) := by
      unfold idftSum
      refine congrArg (Img.mk _ _) ?_
      funext i j
      refine Finset.sum_congr rfl fun k hk => Finset.sum_congr rfl fun l hl => ?_
      change (quotN (acc.S.px k l) (csqrt (acc.P.px k l))).getD 0 * _ = (acc.S.px k l / csqrt (acc.P.px k l)) * _
      rw [fine k (mem_range.1 hk) l (mem_range.1 hl)]
      rfl
    rw [e]
    rfl
  · intro k hk l hl
    change quotN (acc.S.px k l) (csqrt (acc.P.px k l)) ≠ none
    rw [fine k hk l hl]
    exact Option.some_ne_none _

/-- The last step with a division by zero. -/
theorem finish_nan (psfShape : ℕ) (acc : Acc) (k l : ℕ) (hk : k < acc.S.h) (hl : l < acc.S.w) (hP : acc.P.px k l = 0) :
    (finishCoaddN psfShape acc).R = Img.const acc.S.h acc.S.w none := by
  change ifftDefaultN (acc.S.zip (fun s p => quotN s (csqrt p)) acc.P) = _
  unfold ifftDefaultN
  rw [if_neg]
  · rfl
  · intro q
    refine q k hk l hl ?_
    change quotN (acc.S.px k l) (csqrt (acc.P.px k l)) = none
    unfold quotN
    rw [if_pos ((csqrt_eq_zero _).2 hP)]

/-- The sums of a run that succeeds. -/
theorem coaddN_spec (lt : List CoImg → List CoImg → Option Bool) (h w : ℕ) (imgs : List CoImg) (psfShape : ℕ) (n : ℤ)
    (hne : imgs ≠ []) (hall : AllShape imgs h w) (hn : n ≤ imgs.length) (hn' : n ≤ 2 ^ 25) (hb : n * imgs.length ≤ 2 ^ 50) :
    ∃ acc : Acc, acc.S = ⟨h, w, specS imgs⟩ ∧ acc.P = ⟨h, w, specP imgs⟩ ∧
      coaddCore lt imgs psfShape n = .ok (finishCoadd psfShape acc) ∧
      coaddCoreN lt imgs psfShape n = .ok (finishCoaddN psfShape acc) := by
  have hgs := globalShape_same imgs hne h w (fun im him => ⟨(hall im him).1, (hall im him).2.1⟩)
  by_cases h1 : 1 < n
  · obtain ⟨acc, e, hs, hm⟩ := accParallel_spec lt h w imgs n.toNat hall (by omega) (by omega)
      (by omega) (by
        have : ((n.toNat * imgs.length : ℕ) : ℤ) ≤ 2 ^ 50 := by
          push_cast; rw [Int.toNat_of_nonneg (by omega)]; exact hb
        exact_mod_cast this)
    refine ⟨acc, (acc_eq_of_spec hs).1, (acc_eq_of_spec hs).2, ?_, ?_⟩
    · unfold coaddCore
      rw [hgs]
      simp only [bind, Except.bind, if_pos h1, e]
      rfl
    · unfold coaddCoreN
      rw [hgs]
      simp only [bind, Except.bind, if_pos h1, e]
      rfl
  · obtain ⟨acc, e, hs, hm⟩ := accSequential_spec h w imgs hne hall
    refine ⟨acc, (acc_eq_of_spec hs).1, (acc_eq_of_spec hs).2, ?_, ?_⟩
    · unfold coaddCore
      rw [hgs]
      simp only [bind, Except.bind, if_neg h1, e]
      rfl
    · unfold coaddCoreN
      rw [hgs]
      simp only [bind, Except.bind, if_neg h1, e]
      rfl

/-- An image that counts sees the frequency. -/
def Sees (d : SinglePsf) (k l : ℕ) : Prop := d.zp ≠ 0 ∧ d.psfHat.px k l ≠ 0

theorem power_zero_iff {n : ℕ} (d : Fin n → SinglePsf) (hv : ∀ m, (d m).var ≠ 0) (k l : ℕ) :
    specP ((List.ofFn d).map SinglePsf.toCoImg) k l = 0 ↔ ∀ m, ¬ Sees (d m) k l := by
  rw [specP_single, Complex.ofReal_eq_zero]
  unfold zackayPower
  rw [Finset.sum_eq_zero_iff_of_nonneg (fun m _ => mul_nonneg (by positivity) (normSq_nonneg _))]
  refine ⟨fun q m s => ?_, fun q m _ => ?_⟩
  · have z := q m (Finset.mem_univ m)
    simp only [mul_eq_zero, div_eq_zero_iff, pow_eq_zero_iff, ne_eq, OfNat.ofNat_ne_zero, not_false_eq_true, hv m, or_false,
      Complex.normSq_eq_zero] at z
    rcases z with z | z
    · exact s.1 z
    · exact s.2 z
  · have t := q m
    unfold Sees at t
    rw [not_and_or, not_not, not_not] at t
    rcases t with t | t
    · simp only [t]
      ring
    · simp only [t, map_zero, mul_zero]

/-- C145: at such a frequency the numerator vanishes as well, so that numpy divides zero by zero. -/
theorem zero_over_zero {n : ℕ} (d : Fin n → SinglePsf) (k l : ℕ) (hs : ∀ m, ¬ Sees (d m) k l) :
    specS ((List.ofFn d).map SinglePsf.toCoImg) k l = 0 := by
  rw [specS_ofFn]
  refine Finset.sum_eq_zero fun m _ => ?_
  change (((d m).zp / (d m).var ^ 2 : ℝ) : ℂ) * ((fftOrtho (d m).interped).px k l * (starRingEnd ℂ) ((d m).psfHat.px k l) *
    shiftPhase _ _ (d m).com k l) = 0
  have t := hs m
  unfold Sees at t
  rw [not_and_or, not_not, not_not] at t
  rcases t with t | t
  · simp only [t, zero_div, Complex.ofReal_zero, zero_mul]
  · simp only [t, map_zero, mul_zero, zero_mul]

section
variable (lt : List CoImg → List CoImg → Option Bool) {n : ℕ} (hn : 0 < n) (d : Fin n → SinglePsf) (h w psfShape : ℕ)
    (procs : ℤ) (hs : ∀ j, (d j).interped.h = h ∧ (d j).interped.w = w ∧ (d j).mask.HasShape h w)
    (hv : ∀ m, (d m).var ≠ 0) (hp : procs ≤ n) (hp' : procs ≤ 2 ^ 25) (hb : procs * n ≤ 2 ^ 50)
include hn hs hv hp hp' hb

/-- C145: the coadd is a finite image if at every frequency some image that counts has a non-vanishing PSF coefficient;
otherwise every pixel of it is nan. -/
theorem coadd_finite :
    ∃ out outN, coaddCore lt ((List.ofFn d).map SinglePsf.toCoImg) psfShape procs = .ok out ∧
      coaddCoreN lt ((List.ofFn d).map SinglePsf.toCoImg) psfShape procs = .ok outN ∧ outN.mask = out.mask ∧
      ((∀ k < h, ∀ l < w, ∃ m, Sees (d m) k l) → outN.R = out.R.map some) ∧
      ((∃ k < h, ∃ l < w, ∀ m, ¬ Sees (d m) k l) → outN.R = Img.const h w none) := by
  have hl : ((List.ofFn d).map SinglePsf.toCoImg).length = n := by simp
  obtain ⟨acc, eS, eP, e, eN⟩ := coaddN_spec lt h w ((List.ofFn d).map SinglePsf.toCoImg) psfShape procs
    (by intro q; rw [q] at hl; simp at hl; omega) (allShape_single d h w hs) (by rw [hl]; exact hp) hp' (by rw [hl]; exact hb)
  refine ⟨_, _, e, eN, rfl, fun q => ?_, ?_⟩
  · refine finish_finite psfShape acc fun k hk l hl => ?_
    rw [eS] at hk hl
    obtain ⟨m, hm⟩ := q k hk l hl
    rw [eP]
    change specP _ k l ≠ 0
    rw [Ne, power_zero_iff d hv k l]
    exact fun t => t m hm
  · rintro ⟨k, hk, l, hl, q⟩
    have r := finish_nan psfShape acc k l (by rw [eS]; exact hk) (by rw [eS]; exact hl) (by
      rw [eP]
      exact (power_zero_iff d hv k l).2 q)
    rw [eS] at r
    exact r

/-- C145: one pixel of the coadd is a number exactly if all are. -/
theorem coadd_pixel_finite_iff :
    ∃ outN, coaddCoreN lt ((List.ofFn d).map SinglePsf.toCoImg) psfShape procs = .ok outN ∧ ∀ i < h, ∀ j < w,
      (outN.R.px i j ≠ none ↔ ∀ k < h, ∀ l < w, ∃ m, Sees (d m) k l) := by
  obtain ⟨out, outN, e, eN, _, f1, f2⟩ := coadd_finite lt hn d h w psfShape procs hs hv hp hp' hb
  refine ⟨outN, eN, fun i hi j hj => ⟨fun q => ?_, fun q => ?_⟩⟩
  · by_contra t
    refine q ?_
    rw [f2 (by push Not at t; exact t)]
    rfl
  · rw [f1 q]
    exact Option.some_ne_none _

/-- C145: the returned PSF is a number at every pixel if an image that counts has a PSF with a non-vanishing total, and nan at
every pixel otherwise. -/
theorem coadd_psf_finite (h0 : 0 < h) (w0 : 0 < w) :
    ∃ out outN, coaddCore lt ((List.ofFn d).map SinglePsf.toCoImg) psfShape procs = .ok out ∧
      coaddCoreN lt ((List.ofFn d).map SinglePsf.toCoImg) psfShape procs = .ok outN ∧
      ((∃ m, Sees (d m) 0 0) → outN.Pr = out.Pr.map some) ∧
      ((∀ m, ¬ Sees (d m) 0 0) → outN.Pr = Img.const h w none) := by
  have hl : ((List.ofFn d).map SinglePsf.toCoImg).length = n := by simp
  obtain ⟨acc, eS, eP, e, eN⟩ := coaddN_spec lt h w ((List.ofFn d).map SinglePsf.toCoImg) psfShape procs
    (by intro q; rw [q] at hl; simp at hl; omega) (allShape_single d h w hs) (by rw [hl]; exact hp) hp' (by rw [hl]; exact hb)
  have t : imSum (coaddPsfRaw acc.P psfShape) = 0 ↔ ∀ m, ¬ Sees (d m) 0 0 := by
    rw [coadd_psf_raw_sum acc.P psfShape (by rw [eP]; exact h0.ne') (by rw [eP]; exact w0.ne'), csqrt_eq_zero, eP]
    exact power_zero_iff d hv 0 0
  refine ⟨_, _, e, eN, ?_, fun q => ?_⟩
  · rintro ⟨m, hm⟩
    change (coaddPsfRaw acc.P psfShape).map (fun z => quotN z (imSum (coaddPsfRaw acc.P psfShape))) =
      ((coaddPsfRaw acc.P psfShape).map fun z => z / imSum (coaddPsfRaw acc.P psfShape)).map some
    unfold quotN
    simp only [if_neg (fun q => t.1 q m hm)]
    rfl
  · change (coaddPsfRaw acc.P psfShape).map (fun z => quotN z (imSum (coaddPsfRaw acc.P psfShape))) = _
    unfold quotN
    simp only [if_pos (t.2 q)]
    have a : (coaddPsfRaw acc.P psfShape).h = h := congrArg Img.h eP
    have b : (coaddPsfRaw acc.P psfShape).w = w := congrArg Img.w eP
    unfold Img.map Img.const
    rw [a, b]

end

/-! ## PSFs that vanish somewhere -/

theorem tw_half (c : ℕ) (hc : c ≠ 0) (j : ℕ) : tw (2 * c) ((c : ℝ) * j) = (-1) ^ j := by
  have e : tw (2 * c) ((c : ℤ) : ℝ) = -1 := by
    unfold tw
    have hc' : (c : ℝ) ≠ 0 := by exact_mod_cast hc
    have r : -(2 * Real.pi * ((c : ℤ) : ℝ) / ((2 * c : ℕ) : ℝ)) = -Real.pi := by
      push_cast
      field_simp
    rw [r]
    push_cast
    rw [neg_mul, Complex.exp_neg, Complex.exp_pi_mul_I]
    norm_num
  have q := tw_natMul (2 * c) ((c : ℤ) : ℝ) j
  rw [e] at q
  rw [← q]
  congr 1
  push_cast
  ring

/-- C145: a stamp with an even number of columns that is its own mirror image, column by column, has no power at the highest
horizontal frequency of an image with an even number of columns. -/
theorem mirror_psf_vanishes (d : SinglePsf) (c : ℕ) (hw : d.interped.w = 2 * c) (hc : c ≠ 0) (hfit : d.psf.w ≤ 2 * c)
    (he : Even d.psf.w) (hm : ∀ i < d.psf.h, ∀ j < d.psf.w, d.psf.px i (d.psf.w - 1 - j) = d.psf.px i j) (k : ℕ) :
    d.psfHat.px k c = 0 := by
  have row : ∀ i, ∑ j ∈ range (2 * c), (if i < d.psf.h ∧ j < d.psf.w then d.psf.px i j else 0) * (-1) ^ j = 0 := by
    intro i
    by_cases hi : i < d.psf.h
    · have a : ∑ j ∈ range (2 * c), (if i < d.psf.h ∧ j < d.psf.w then d.psf.px i j else 0) * (-1) ^ j =
          ∑ j ∈ range d.psf.w, d.psf.px i j * (-1) ^ j := by
        rw [← Finset.sum_subset (Finset.range_mono hfit) (fun j _ hj => by
          rw [if_neg (fun q => hj (mem_range.2 q.2)), zero_mul])]
        refine Finset.sum_congr rfl fun j hj => ?_
        rw [if_pos ⟨hi, mem_range.1 hj⟩]
      have b : ∑ j ∈ range d.psf.w, d.psf.px i j * (-1) ^ j = -∑ j ∈ range d.psf.w, d.psf.px i j * (-1 : ℂ) ^ j := by
        conv_lhs => rw [← Finset.sum_range_reflect]
        rw [← Finset.sum_neg_distrib]
        refine Finset.sum_congr rfl fun j hj => ?_
        rw [mem_range] at hj
        rw [hm i hi j hj]
        have s : (-1 : ℂ) ^ (d.psf.w - 1 - j) = -(-1) ^ j := by
          obtain ⟨p, hp⟩ := he
          rcases Nat.even_or_odd j with ej | oj
          · rw [ej.neg_one_pow, Odd.neg_one_pow]
            obtain ⟨q, rfl⟩ := ej
            exact ⟨p - 1 - q, by omega⟩
          · rw [oj.neg_one_pow, Even.neg_one_pow, neg_neg]
            obtain ⟨q, rfl⟩ := oj
            exact ⟨p - 1 - q, by omega⟩
        rw [s]
        ring
      rw [a]
      exact self_eq_neg.1 b
    · refine Finset.sum_eq_zero fun j _ => ?_
      rw [if_neg (fun q => hi q.1), zero_mul]
  unfold SinglePsf.psfHat
  rw [hw]
  change (∑ i ∈ range d.interped.h, ∑ j ∈ range (2 * c), (if i < d.psf.h ∧ j < d.psf.w then d.psf.px i j else 0) *
    (tw d.interped.h ((k : ℝ) * i) * tw (2 * c) ((c : ℝ) * j))) / _ = 0
  rw [Finset.sum_eq_zero, zero_div]
  intro i _
  have r := row i
  calc _ = tw d.interped.h ((k : ℝ) * i) * ∑ j ∈ range (2 * c),
        (if i < d.psf.h ∧ j < d.psf.w then d.psf.px i j else 0) * (-1) ^ j := by
        rw [Finset.mul_sum]
        refine Finset.sum_congr rfl fun j _ => ?_
        rw [tw_half c hc j]
        ring
    _ = 0 := by rw [r, mul_zero]

/-- C145: so the coadd of any number of images of even width with such stamps is nan everywhere. -/
theorem coadd_mirror_nan (lt : List CoImg → List CoImg → Option Bool) {n : ℕ} (hn : 0 < n) (d : Fin n → SinglePsf)
    (h c psfShape : ℕ) (procs : ℤ) (h0 : 0 < h) (hc : c ≠ 0)
    (hs : ∀ j, (d j).interped.h = h ∧ (d j).interped.w = 2 * c ∧ (d j).mask.HasShape h (2 * c))
    (hv : ∀ m, (d m).var ≠ 0) (hfit : ∀ m, (d m).psf.w ≤ 2 * c) (he : ∀ m, Even (d m).psf.w)
    (hm : ∀ m, ∀ i < (d m).psf.h, ∀ j < (d m).psf.w, (d m).psf.px i ((d m).psf.w - 1 - j) = (d m).psf.px i j)
    (hp : procs ≤ n) (hp' : procs ≤ 2 ^ 25) (hb : procs * n ≤ 2 ^ 50) :
    ∃ outN, coaddCoreN lt ((List.ofFn d).map SinglePsf.toCoImg) psfShape procs = .ok outN ∧
      outN.R = Img.const h (2 * c) none := by
  obtain ⟨out, outN, e, eN, _, _, f2⟩ := coadd_finite lt hn d h (2 * c) psfShape procs hs hv hp hp' hb
  exact ⟨outN, eN, f2 ⟨0, h0, c, by omega, fun m s =>
    s.2 (mirror_psf_vanishes (d m) c (hs m).2.1 hc (hfit m) (he m) (hm m) 0)⟩⟩

/-- C145: a PSF with one pixel that outweighs all others together vanishes nowhere. -/
theorem sharp_psf_sees (d : SinglePsf) (a b : ℕ) (ha : a < d.interped.h) (hb : b < d.interped.w) (hz : d.zp ≠ 0)
    (hd : ∑ i ∈ range d.interped.h, ∑ j ∈ range d.interped.w, ‖(padTo d.interped.h d.interped.w d.psf).px i j‖ <
      2 * ‖(padTo d.interped.h d.interped.w d.psf).px a b‖) (k l : ℕ) : Sees d k l := by
  refine ⟨hz, fun q => ?_⟩
  set p := padTo d.interped.h d.interped.w d.psf with hpdef
  have hpos : (0 : ℝ) < ((d.interped.h * d.interped.w : ℕ) : ℝ) := by
    exact_mod_cast Nat.mul_pos (by omega) (by omega)
  have z : ∑ i ∈ range d.interped.h, ∑ j ∈ range d.interped.w, p.px i j *
      (tw d.interped.h ((k : ℝ) * i) * tw d.interped.w ((l : ℝ) * j)) = 0 := by
    change (∑ i ∈ range d.interped.h, ∑ j ∈ range d.interped.w, p.px i j *
      (tw d.interped.h ((k : ℝ) * i) * tw d.interped.w ((l : ℝ) * j))) /
        (Real.sqrt ((d.interped.h * d.interped.w : ℕ) : ℝ) : ℂ) = 0 at q
    rcases div_eq_zero_iff.1 q with q | q
    · exact q
    · rw [Complex.ofReal_eq_zero] at q
      exact absurd q (Real.sqrt_pos.2 hpos).ne'
  rw [← Finset.sum_product'] at z hd
  have hm : (a, b) ∈ range d.interped.h ×ˢ range d.interped.w := by
    rw [Finset.mem_product]
    exact ⟨mem_range.2 ha, mem_range.2 hb⟩
  rw [← Finset.add_sum_erase _ _ hm] at z hd
  have nrm : ∀ i j : ℕ, ‖p.px i j * (tw d.interped.h ((k : ℝ) * i) * tw d.interped.w ((l : ℝ) * j))‖ = ‖p.px i j‖ := by
    intro i j
    rw [norm_mul, norm_mul, norm_tw, norm_tw, mul_one, mul_one]
  have e := eq_neg_of_add_eq_zero_left z
  have le : ‖p.px a b‖ ≤ ∑ x ∈ (range d.interped.h ×ˢ range d.interped.w).erase (a, b), ‖p.px x.1 x.2‖ := by
    calc ‖p.px a b‖ = ‖p.px a b * (tw d.interped.h ((k : ℝ) * a) * tw d.interped.w ((l : ℝ) * b))‖ := (nrm a b).symm
      _ = ‖∑ x ∈ (range d.interped.h ×ˢ range d.interped.w).erase (a, b), p.px x.1 x.2 *
          (tw d.interped.h ((k : ℝ) * x.1) * tw d.interped.w ((l : ℝ) * x.2))‖ := by
          rw [e, norm_neg]
      _ ≤ ∑ x ∈ (range d.interped.h ×ˢ range d.interped.w).erase (a, b), ‖p.px x.1 x.2 *
          (tw d.interped.h ((k : ℝ) * x.1) * tw d.interped.w ((l : ℝ) * x.2))‖ := norm_sum_le _ _
      _ = _ := Finset.sum_congr rfl fun x _ => nrm x.1 x.2
  simp only at hd
  linarith

/-! ## Worked instances -/

/-- A 1×4 exposure whose PSF is two equal pixels. -/
noncomputable def boxExposure : SinglePsf where
  interped := ⟨1, 4, fun _ j => if j = 1 then 7 else 2⟩
  psf := ⟨1, 2, fun _ _ => 1 / 2⟩
  com := (0, 1 / 2)
  zp := 1
  var := 1
  mask := none

/-- Alone, its coadd is nan; together with an exposure of the same size and a one-pixel PSF, it is not. -/
theorem box_exposure (lt : List CoImg → List CoImg → Option Bool) :
    (∃ outN, coaddCoreN lt ((List.ofFn fun _ : Fin 1 => boxExposure).map SinglePsf.toCoImg) 0 1 = .ok outN ∧
      outN.R = Img.const 1 4 none) ∧
    ∃ out outN, coaddCore lt ((List.ofFn fun m : Fin 2 => if m = 0 then boxExposure else
        { boxExposure with psf := ⟨1, 1, fun _ _ => 1⟩ }).map SinglePsf.toCoImg) 0 1 = .ok out ∧
      coaddCoreN lt ((List.ofFn fun m : Fin 2 => if m = 0 then boxExposure else
        { boxExposure with psf := ⟨1, 1, fun _ _ => 1⟩ }).map SinglePsf.toCoImg) 0 1 = .ok outN ∧
      outN.R = out.R.map some := by
  refine ⟨coadd_mirror_nan lt (by norm_num) (fun _ => boxExposure) 1 2 0 1 (by norm_num) (by norm_num)
    (fun _ => ⟨rfl, rfl, by intro a h; cases h⟩) (fun _ => one_ne_zero) (fun _ => by change 2 ≤ 2 * 2; norm_num)
    (fun _ => by change Even 2; decide) (fun _ _ _ _ _ => rfl) (by norm_num) (by norm_num) (by norm_num), ?_⟩
  obtain ⟨out, outN, e, eN, _, f1, _⟩ := coadd_finite lt (n := 2) (by norm_num) (fun m : Fin 2 => if m = 0 then boxExposure else
        { boxExposure with psf := ⟨1, 1, fun _ _ => 1⟩ }) 1 4 0 1
    (fun m => by
      fin_cases m
      · exact ⟨rfl, rfl, by intro a h; cases h⟩
      · exact ⟨rfl, rfl, by intro a h; cases h⟩)
    (fun m => by
      fin_cases m
      · exact one_ne_zero
      · exact one_ne_zero) (by norm_num) (by norm_num) (by norm_num)
  refine ⟨out, outN, e, eN, f1 fun k _ l _ => ⟨1, ?_⟩⟩
  refine sharp_psf_sees _ 0 0 (by change 0 < 1; norm_num) (by change 0 < 4; norm_num) one_ne_zero ?_ k l
  change ∑ i ∈ range 1, ∑ j ∈ range 4, ‖if i < 1 ∧ j < 1 then (1 : ℂ) else 0‖ < 2 * ‖if 0 < 1 ∧ 0 < 1 then (1 : ℂ) else 0‖
  simp [Finset.sum_range_succ]

end PI
