import Verif.Props.Subtract

/-! # Properties C24–C26, C28, C29: what `subtract` returns -/

namespace PI
open Complex Finset

/-! ## C24 (continued) -/

/-- C24: the flux zero point of D. -/
theorem subtract_dzp_is_zackay (ref new : SubImg) (b : ℝ) :
    dZp ref new b = zackayFD ref.var new.var 1 b := by
  unfold dZp zackayFD
  congr 1
  · ring
  · congr 1; ring

/-- C24: every coefficient of the PSF of D (the PSFs are *not* recentred here). -/
theorem subtract_P_is_zackay (ref new : SubImg) (b : ℝ) (k l : ℕ) :
    (pHat ref new b).px k l =
      zackayPD ref.var new.var 1 b (ref.psfHat.px k l) (new.psfHat.px k l) := by
  unfold zackayPD
  change _ / (csqrt _ * _) = _
  rw [csqrt_normHat, subtract_dzp_is_zackay]
  have e : normReal ref new b k l = new.var ^ 2 * 1 ^ 2 * normSq (ref.psfHat.px k l) +
      ref.var ^ 2 * b ^ 2 * normSq (new.psfHat.px k l) := by unfold normReal; ring
  rw [e]
  push_cast
  rw [mul_comm (Complex.ofReal (Real.sqrt _))]
  congr 1
  ring

/-! ## C26 -/

/-- Zackay's D changes sign when the images trade places. -/
theorem zackayD_swap (σr σn b : ℝ) (hb : 0 < b) (Pr Pn R N : ℂ) :
    zackayD σn σr 1 (1 / b) Pn Pr N R = -zackayD σr σn 1 b Pr Pn R N := by
  unfold zackayD
  have hb' : (b : ℂ) ≠ 0 := by exact_mod_cast hb.ne'
  have e : σr ^ 2 * 1 ^ 2 * normSq Pn + σn ^ 2 * (1 / b) ^ 2 * normSq Pr =
      (1 / b) ^ 2 * (σn ^ 2 * 1 ^ 2 * normSq Pr + σr ^ 2 * b ^ 2 * normSq Pn) := by
    field_simp
    ring
  rw [e, Real.sqrt_mul (by positivity), Real.sqrt_sq (by positivity)]
  set q := Real.sqrt (σn ^ 2 * 1 ^ 2 * normSq Pr + σr ^ 2 * b ^ 2 * normSq Pn)
  push_cast
  by_cases hq : (q : ℂ) = 0
  · simp [hq]
  · field_simp
    ring

theorem dHat_swap (ref new : SubImg) (hh : new.h = ref.h) (hw : new.w = ref.w) (b : ℝ)
    (hb : 0 < b) (k l : ℕ) :
    (dHat new ref (1 / b) 0 0).px k l = -(dHat ref new b 0 0).px k l := by
  have h1 : ∀ h w, shiftPhase h w (0, 0) k l = 1 := by
    intro h w; simp [shiftPhase, tw_zero]
  rw [subtract_D_is_zackay new ref hh.symm hw.symm, subtract_D_is_zackay ref new hh hw,
    h1, h1, mul_one, mul_one, zackayD_swap _ _ _ hb]

theorem ifftOrtho_neg (X Y : Img ℂ) (hh : Y.h = X.h) (hw : Y.w = X.w)
    (h : ∀ k l, Y.px k l = -X.px k l) (i j : ℕ) :
    (ifftOrtho Y).px i j = -(ifftOrtho X).px i j := by
  simp only [ifftOrtho, Img.map, idftSum, hh, hw, h, neg_mul, Finset.sum_neg_distrib, neg_div]

/-- C26: the difference images of (ref, new) with scale `b` and of (new, ref) with scale `1/b`,
without shifts, are opposite in every pixel. -/
theorem subtract_swap (ref new : SubImg) (hh : new.h = ref.h) (hw : new.w = ref.w) (b : ℝ)
    (hb : 0 < b) (i j : ℕ) :
    (ifftOrtho (dHat new ref (1 / b) 0 0)).px i j = -(ifftOrtho (dHat ref new b 0 0)).px i j :=
  ifftOrtho_neg _ _ hh hw (fun k l => dHat_swap ref new hh hw b hb k l) i j

/-! ## C28 -/

/-- C28: images of different shapes raise ValueError whatever the photometry does. -/
theorem subtract_shape_mismatch (env : SubEnv) (o : SubOpts) (ref new : SubImg)
    (h : new.interped.shape ≠ ref.interped.shape) : subtract env o ref new = .error .ValueError := by
  simp [subtract, h]

/-- C28: on images of equal shape, whenever `subtract` returns, the mask marks exactly the pixels
masked in one of the images (and is the scalar nomask iff there are none), and D, P, S have the
shape of the images. -/
theorem subtract_masks_and_shapes (env : SubEnv) (o : SubOpts) (ref new : SubImg) (h w : ℕ)
    (hr : ref.interped.shape = (h, w)) (hn : new.interped.shape = (h, w))
    (hmr : ref.mask.HasShape h w) (hmn : new.mask.HasShape h w)
    (out : SubOut) (hout : subtract env o ref new = .ok out) :
    (∀ i < h, ∀ j < w, out.mask.marks i j = true ↔
      (ref.mask.marks i j = true ∨ new.mask.marks i j = true)) ∧
    (out.mask = none ↔ ∀ i < h, ∀ j < w, ref.mask.marks i j = false ∧ new.mask.marks i j = false) ∧
    out.D.shape = (h, w) ∧ out.P.shape = (h, w) ∧ out.S.shape = (h, w) := by
  obtain ⟨m, hm1, hm2, hm3, hm4⟩ := NMask.maskOr_spec new.mask ref.mask h w hmn hmr
  have hshape : ¬ new.interped.shape ≠ ref.interped.shape := by rw [hr, hn]; simp
  simp only [subtract, if_neg hshape, hm1, bind, Except.bind] at hout
  cases hz : env.zps with
  | error e => rw [hz] at hout; simp at hout
  | ok z =>
    rw [hz] at hout
    simp only at hout
    split at hout
    · exact absurd hout (by simp)
    · cases hs : scaleShift env.opt o env.gamma m ref new z.1 z.2 with
      | error e => rw [hs] at hout; simp at hout
      | ok s =>
        rw [hs] at hout
        obtain rfl := (Except.ok.inj hout).symm
        have hh : ref.h = h := congrArg Prod.fst hr
        have hw : ref.w = w := congrArg Prod.snd hr
        refine ⟨?_, ?_, ?_, ?_, ?_⟩
        · intro i hi j hj
          change m.marks i j = true ↔ _
          rw [hm3 i hi j hj, Bool.or_eq_true]
          exact Or.comm
        · change m = none ↔ _
          rw [hm4]
          refine forall_congr' fun i => forall_congr' fun _ => forall_congr' fun j =>
            forall_congr' fun _ => ?_
          rw [Bool.or_eq_false_iff]
          exact And.comm
        · change (ref.h, ref.w) = _; rw [hh, hw]
        · change (ref.h, ref.w) = _; rw [hh, hw]
        · change (ref.h, ref.w) = _; rw [hh, hw]

/-- C28: with beta=False, shift=False and photometry that succeeds, images of equal shape always
give a result. -/
theorem subtract_returns (env : SubEnv) (iterative : Bool) (ref new : SubImg) (h w : ℕ)
    (hr : ref.interped.shape = (h, w)) (hn : new.interped.shape = (h, w))
    (hmr : ref.mask.HasShape h w) (hmn : new.mask.HasShape h w) (z : ℝ × ℝ)
    (hz : env.zps = .ok z)
    (hc : env.fitted = true ∨ (0 ≤ (centerOfMass new.psf).1 ∧ 0 ≤ (centerOfMass new.psf).2)) :
    ∃ out, subtract env ⟨false, false, iterative⟩ ref new = .ok out ∧
      out.D = ifftOrtho (dHat ref new (z.2 / z.1) 0 0) ∧ out.P = subP ref new (z.2 / z.1) ∧
      out.S = (sCorr env.peak ref new z.2 (z.2 / z.1) 0 0).map re := by
  obtain ⟨m, hm1, _⟩ := NMask.maskOr_spec new.mask ref.mask h w hmn hmr
  have hshape : ¬ new.interped.shape ≠ ref.interped.shape := by rw [hr, hn]; simp
  have hcc : ¬ (env.fitted = false ∧
      ((centerOfMass new.psf).1 < 0 ∨ (centerOfMass new.psf).2 < 0)) := by
    rintro ⟨h1, h2⟩
    rcases hc with hc | hc
    · rw [hc] at h1; simp at h1
    · rcases h2 with h2 | h2 <;> linarith [hc.1, hc.2]
  refine ⟨{ D := ifftOrtho (dHat ref new (z.2 / z.1) 0 0)
            P := subP ref new (z.2 / z.1)
            S := (sCorr env.peak ref new z.2 (z.2 / z.1) 0 0).map re
            mask := m }, ?_, rfl, rfl, rfl⟩
  · simp only [subtract, if_neg hshape, hm1, bind, Except.bind, hz, if_neg hcc, scaleShift,
      Bool.false_eq_true, if_false]
    rfl

/-! ## C25 -/

theorem dHat_self (ref new : SubImg) (h1 : new.interped = ref.interped) (h2 : new.psf = ref.psf)
    (k l : ℕ) : (dHat ref new 1 0 0).px k l = 0 := by
  have hp : new.psfHat = ref.psfHat := by
    simp only [SubImg.psfHat, SubImg.h, SubImg.w, h1, h2]
  have hi : new.interpedHat = ref.interpedHat := by simp only [SubImg.interpedHat, h1]
  have e : dHatN ref new = dHatR ref new := by simp only [dHatN, dHatR, hp, hi, h2]
  simp [dHat, e, Img.map]

/-- C25: equal pixels and PSFs (whatever the masks and noise) and a common non-zero zero point give
an identically zero D and S for beta=False, shift=False. -/
theorem subtract_self_zero (env : SubEnv) (iterative : Bool) (ref new : SubImg) (h w : ℕ)
    (hr : ref.interped.shape = (h, w)) (h1 : new.interped = ref.interped) (h2 : new.psf = ref.psf)
    (hmr : ref.mask.HasShape h w) (hmn : new.mask.HasShape h w) (z : ℝ) (hz0 : z ≠ 0)
    (hz : env.zps = .ok (z, z))
    (hc : env.fitted = true ∨ (0 ≤ (centerOfMass new.psf).1 ∧ 0 ≤ (centerOfMass new.psf).2)) :
    ∃ out, subtract env ⟨false, false, iterative⟩ ref new = .ok out ∧
      (∀ i j, out.D.px i j = 0) ∧ (∀ i j, out.S.px i j = 0) := by
  obtain ⟨out, ho, hD, _, hS⟩ := subtract_returns env iterative ref new h w hr (by rw [h1, hr])
    hmr hmn (z, z) hz hc
  have h11 : z / z = 1 := div_self hz0
  simp only [h11] at hD hS
  refine ⟨out, ho, ?_, ?_⟩
  · intro i j
    rw [hD]
    simp [ifftOrtho, Img.map, idftSum, dHat_self ref new h1 h2]
  · intro i j
    rw [hS]
    simp [sCorr, sHat, fourierShift, ifftOrtho, Img.map, Img.zip, idftSum,
      dHat_self ref new h1 h2]

/-- C26 for whole calls: exchanging the images, and with them their zero points (of equal sign),
negates D for beta=False, shift=False. -/
theorem subtract_swap_calls (env env' : SubEnv) (it it' : Bool) (ref new : SubImg) (h w : ℕ)
    (hr : ref.interped.shape = (h, w)) (hn : new.interped.shape = (h, w))
    (hmr : ref.mask.HasShape h w) (hmn : new.mask.HasShape h w) (zr zn : ℝ)
    (hz : env.zps = .ok (zr, zn)) (hz' : env'.zps = .ok (zn, zr)) (hpos : 0 < zn / zr)
    (hf : env.fitted = true) (hf' : env'.fitted = true) :
    ∃ out out', subtract env ⟨false, false, it⟩ ref new = .ok out ∧
      subtract env' ⟨false, false, it'⟩ new ref = .ok out' ∧
      ∀ i j, out'.D.px i j = -out.D.px i j := by
  obtain ⟨out, ho, hD, _, _⟩ := subtract_returns env it ref new h w hr hn hmr hmn _ hz (Or.inl hf)
  obtain ⟨out', ho', hD', _, _⟩ :=
    subtract_returns env' it' new ref h w hn hr hmn hmr _ hz' (Or.inl hf')
  refine ⟨out, out', ho, ho', fun i j => ?_⟩
  have hh : new.h = ref.h := by
    have := hn.trans hr.symm; exact congrArg Prod.fst this
  have hw : new.w = ref.w := by
    have := hn.trans hr.symm; exact congrArg Prod.snd this
  have := subtract_swap ref new hh hw (zn / zr) hpos i j
  rw [hD, hD', ← this]
  congr 3
  simp

/-! ## C29 -/

theorem dft_zero (x : Img ℂ) : (dft x).px 0 0 = imSum x := by
  simp [dft, imSum, tw_zero]

/-- Padding keeps the total when the stamp fits. -/
theorem imSum_padTo (h w : ℕ) (x : Img ℝ) (hh : x.h ≤ h) (hw : x.w ≤ w) :
    imSum (padTo h w (toC x)) = (rsum x : ℂ) := by
  unfold imSum rsum
  push_cast
  change ∑ i ∈ range h, ∑ j ∈ range w, (if i < x.h ∧ j < x.w then (x.px i j : ℂ) else 0) = _
  have h1 : ∀ i ∈ range h, i ∉ range x.h →
      ∑ j ∈ range w, (if i < x.h ∧ j < x.w then (x.px i j : ℂ) else 0) = 0 := by
    intro i _ hi
    refine sum_eq_zero fun j _ => ?_
    rw [if_neg]
    rintro ⟨h1, _⟩
    exact hi (mem_range.2 h1)
  rw [← sum_subset (range_mono hh) h1]
  refine sum_congr rfl fun i hi => ?_
  have h2 : ∀ j ∈ range w, j ∉ range x.w →
      (if i < x.h ∧ j < x.w then (x.px i j : ℂ) else 0) = 0 := by
    intro j _ hj
    rw [if_neg]
    rintro ⟨_, h1⟩
    exact hj (mem_range.2 h1)
  rw [← sum_subset (range_mono hw) h2]
  refine sum_congr rfl fun j hj => ?_
  rw [if_pos ⟨mem_range.1 hi, mem_range.1 hj⟩]

theorem psfHat_zero (d : SubImg) (hh : d.psf.h ≤ d.h) (hw : d.psf.w ≤ d.w) (hpos : 0 < d.h * d.w)
    (hs : rsum d.psf ≠ 0) :
    d.psfHat.px 0 0 = ((rsum d.psf / Real.sqrt ((d.h * d.w : ℕ) : ℝ) : ℝ) : ℂ) := by
  have hq : Real.sqrt ((d.h * d.w : ℕ) : ℝ) ≠ 0 := by
    apply (Real.sqrt_pos.2 _).ne'
    exact_mod_cast hpos
  have e : (fftOrtho (padTo d.h d.w (toC d.psf))).px 0 0 =
      ((rsum d.psf / Real.sqrt ((d.h * d.w : ℕ) : ℝ) : ℝ) : ℂ) := by
    change (dft (padTo d.h d.w (toC d.psf))).px 0 0 / _ = _
    rw [dft_zero, imSum_padTo _ _ _ hh hw]
    push_cast
    rfl
  change guardHat _ = _
  rw [e, guardHat, if_neg]
  rw [Complex.ofReal_re]
  exact div_ne_zero hs hq

/-- C29: the total of P. -/
theorem subtract_psf_total (ref new : SubImg) (hh : new.h = ref.h) (hw : new.w = ref.w)
    (hpos : 0 < ref.h * ref.w)
    (fr : ref.psf.h ≤ ref.h ∧ ref.psf.w ≤ ref.w) (fn : new.psf.h ≤ new.h ∧ new.psf.w ≤ new.w)
    (hr : rsum ref.psf ≠ 0) (hn : rsum new.psf ≠ 0) (b : ℝ) (hb : b ≠ 0)
    (hv : ref.var ≠ 0 ∨ new.var ≠ 0) :
    rsum (subP ref new b) =
      rsum ref.psf * rsum new.psf * Real.sqrt (new.var ^ 2 + b ^ 2 * ref.var ^ 2) /
        Real.sqrt (new.var ^ 2 * rsum ref.psf ^ 2 + b ^ 2 * ref.var ^ 2 * rsum new.psf ^ 2) := by
  set n : ℝ := ((ref.h * ref.w : ℕ) : ℝ) with hn_def
  have hn0 : 0 < n := by rw [hn_def]; exact_mod_cast hpos
  have hq0 : 0 < Real.sqrt n := Real.sqrt_pos.2 hn0
  have hqq : Real.sqrt n * Real.sqrt n = n := Real.mul_self_sqrt hn0.le
  set sr := rsum ref.psf
  set sn := rsum new.psf
  set A := new.var ^ 2 * sr ^ 2 + b ^ 2 * ref.var ^ 2 * sn ^ 2 with hA
  set B := new.var ^ 2 + b ^ 2 * ref.var ^ 2 with hB
  have hBpos : 0 < B := by
    rw [hB]
    rcases hv with hv | hv
    · have h1 : 0 < b ^ 2 * ref.var ^ 2 := by positivity
      have h2 : 0 ≤ new.var ^ 2 := by positivity
      linarith
    · have h1 : 0 < new.var ^ 2 := by positivity
      have h2 : 0 ≤ b ^ 2 * ref.var ^ 2 := by positivity
      linarith
  have hsB : 0 < Real.sqrt B := Real.sqrt_pos.2 hBpos
  -- zero-frequency coefficients
  have pr : ref.psfHat.px 0 0 = ((sr / Real.sqrt n : ℝ) : ℂ) :=
    psfHat_zero ref fr.1 fr.2 hpos hr
  have pn : new.psfHat.px 0 0 = ((sn / Real.sqrt n : ℝ) : ℂ) := by
    have := psfHat_zero new fn.1 fn.2 (by rw [hh, hw]; exact hpos) hn
    rw [hh, hw] at this
    exact this
  have hnorm : normReal ref new b 0 0 = A / n := by
    unfold normReal
    rw [pr, pn, normSq_ofReal, normSq_ofReal, hA]
    have : sr / Real.sqrt n * (sr / Real.sqrt n) = sr ^ 2 / n := by
      rw [div_mul_div_comm, hqq, sq]
    have h2 : sn / Real.sqrt n * (sn / Real.sqrt n) = sn ^ 2 / n := by
      rw [div_mul_div_comm, hqq, sq]
    rw [this, h2]
    ring
  have hP : (pHat ref new b).px 0 0 = ((sr * sn * Real.sqrt B / (Real.sqrt n * Real.sqrt A) : ℝ) : ℂ) := by
    change (ref.psfHat.px 0 0 * new.psfHat.px 0 0 * b) / (csqrt (normHat ref new b 0 0) * dZp ref new b) = _
    rw [csqrt_normHat, hnorm, pr, pn]
    have hA0 : 0 ≤ A := by rw [hA]; positivity
    rw [Real.sqrt_div hA0]
    have hd : dZp ref new b = b / Real.sqrt B := by
      unfold dZp
      rw [hB]
      congr 2
      ring
    rw [hd, ← Complex.ofReal_mul, ← Complex.ofReal_mul, ← Complex.ofReal_mul, ← Complex.ofReal_div]
    congr 1
    rcases eq_or_ne (Real.sqrt A) 0 with h0 | h0
    · simp [h0]
    · field_simp
  have hX := sum_idftSum (pHat ref new b)
    (by change ref.h ≠ 0; rintro h; simp [h] at hpos) (by change ref.w ≠ 0; rintro h; simp [h] at hpos)
  have hsum : ∑ i ∈ range ref.h, ∑ j ∈ range ref.w, (ifftOrtho (pHat ref new b)).px i j =
      (pHat ref new b).px 0 0 * ((Real.sqrt n : ℝ) : ℂ) := by
    have e : ∀ i j, (ifftOrtho (pHat ref new b)).px i j =
        (idftSum (pHat ref new b)).px i j * ((Real.sqrt n : ℝ) : ℂ)⁻¹ := fun i j => rfl
    simp only [e, ← sum_mul]
    change (∑ i ∈ range (pHat ref new b).h, ∑ j ∈ range (pHat ref new b).w, _) * _ = _
    rw [hX]
    have hc : ((pHat ref new b).h * (pHat ref new b).w : ℂ) =
        ((Real.sqrt n : ℝ) : ℂ) * ((Real.sqrt n : ℝ) : ℂ) := by
      rw [← Complex.ofReal_mul, hqq, hn_def]
      push_cast
      rfl
    rw [hc]
    have hq1 : ((Real.sqrt n : ℝ) : ℂ) ≠ 0 := by exact_mod_cast hq0.ne'
    field_simp
  have hre : rsum (subP ref new b) =
      (∑ i ∈ range ref.h, ∑ j ∈ range ref.w, (ifftOrtho (pHat ref new b)).px i j).re := by
    rw [Complex.re_sum]
    unfold rsum
    change ∑ i ∈ range ref.h, _ = _
    refine sum_congr rfl fun i _ => ?_
    rw [Complex.re_sum]
    rfl
  rw [hre, hsum, hP, ← Complex.ofReal_mul, Complex.ofReal_re]
  rcases eq_or_ne (Real.sqrt A) 0 with h0 | h0
  · simp [h0]
  · field_simp

/-- C29: unit-sum PSFs give a unit-sum P. -/
theorem subtract_psf_total_unit (ref new : SubImg) (hh : new.h = ref.h) (hw : new.w = ref.w)
    (hpos : 0 < ref.h * ref.w)
    (fr : ref.psf.h ≤ ref.h ∧ ref.psf.w ≤ ref.w) (fn : new.psf.h ≤ new.h ∧ new.psf.w ≤ new.w)
    (hr : rsum ref.psf = 1) (hn : rsum new.psf = 1) (b : ℝ) (hb : b ≠ 0)
    (hv : ref.var ≠ 0 ∨ new.var ≠ 0) : rsum (subP ref new b) = 1 := by
  rw [subtract_psf_total ref new hh hw hpos fr fn (by rw [hr]; norm_num) (by rw [hn]; norm_num) b
    hb hv, hr, hn]
  simp only [one_pow, mul_one, one_mul]
  apply div_self
  apply (Real.sqrt_pos.2 _).ne'
  rcases hv with hv | hv
  · have h1 : 0 < b ^ 2 * ref.var ^ 2 := by positivity
    have h2 : 0 ≤ new.var ^ 2 := by positivity
    linarith
  · have h1 : 0 < new.var ^ 2 := by positivity
    have h2 : 0 ≤ b ^ 2 * ref.var ^ 2 := by positivity
    linarith

/-- C29: PSFs that both sum to `s` give a P that sums to `s`, not to one (the amplitude-one
Gaussians of `fitted_psf=True` sum to about 2πσ²). -/
theorem subtract_psf_total_equal (ref new : SubImg) (hh : new.h = ref.h) (hw : new.w = ref.w)
    (hpos : 0 < ref.h * ref.w)
    (fr : ref.psf.h ≤ ref.h ∧ ref.psf.w ≤ ref.w) (fn : new.psf.h ≤ new.h ∧ new.psf.w ≤ new.w)
    (s : ℝ) (hs : 0 < s) (hr : rsum ref.psf = s) (hn : rsum new.psf = s) (b : ℝ) (hb : b ≠ 0)
    (hv : ref.var ≠ 0 ∨ new.var ≠ 0) : rsum (subP ref new b) = s := by
  rw [subtract_psf_total ref new hh hw hpos fr fn (by rw [hr]; exact hs.ne')
    (by rw [hn]; exact hs.ne') b hb hv, hr, hn]
  have hB : 0 < new.var ^ 2 + b ^ 2 * ref.var ^ 2 := by
    rcases hv with hv | hv
    · have h1 : 0 < b ^ 2 * ref.var ^ 2 := by positivity
      have h2 : 0 ≤ new.var ^ 2 := by positivity
      linarith
    · have h1 : 0 < new.var ^ 2 := by positivity
      have h2 : 0 ≤ b ^ 2 * ref.var ^ 2 := by positivity
      linarith
  have e : new.var ^ 2 * s ^ 2 + b ^ 2 * ref.var ^ 2 * s ^ 2 =
      s ^ 2 * (new.var ^ 2 + b ^ 2 * ref.var ^ 2) := by ring
  rw [e, Real.sqrt_mul (by positivity), Real.sqrt_sq hs.le]
  have := (Real.sqrt_pos.2 hB).ne'
  field_simp

/-! ## A concrete call -/

/-- A 1×2 image with a one-pixel PSF. -/
def tinySub (a b : ℝ) : SubImg where
  interped := ⟨1, 2, fun _ j => if j = 0 then a else b⟩
  mask := none
  filled := ⟨1, 2, fun _ j => if j = 0 then a else b⟩
  psf := ⟨1, 1, fun _ _ => 1⟩
  var := 1

/-- The environment of a call in which photometry gives `(zr, zn)` and every fit fails. -/
noncomputable def tinyEnv (zr zn : ℝ) : SubEnv where
  opt := ⟨fun _ x0 _ _ => (false, x0), fun _ lo _ => (false, lo)⟩
  zps := .ok (zr, zn)
  gamma := Img.const 1 2 0
  peak := fun _ => (0, 0)
  fitted := true

example : ∃ out, subtract (tinyEnv 3 3) ⟨false, false, false⟩ (tinySub 5 7) (tinySub 5 7) = .ok out ∧
    (∀ i j, out.D.px i j = 0) ∧ (∀ i j, out.S.px i j = 0) :=
  subtract_self_zero (tinyEnv 3 3) false (tinySub 5 7) (tinySub 5 7) 1 2 rfl rfl rfl
    (by intro a h; cases h) (by intro a h; cases h) 3 (by norm_num) rfl (Or.inl rfl)

example : rsum (subP (tinySub 5 7) (tinySub 1 0) 2) = 1 :=
  subtract_psf_total_unit _ _ rfl rfl (by decide) ⟨by decide, by decide⟩ ⟨by decide, by decide⟩
    (by simp [rsum, tinySub]) (by simp [rsum, tinySub]) 2 (by norm_num) (Or.inl (by simp [tinySub]))

example : scaleShift ⟨fun _ x0 _ _ => (true, x0), fun _ lo _ => (true, lo)⟩ ⟨true, true, false⟩ (Img.const 1 2 0) none (tinySub 5 7) (tinySub 1 0) 1 20
    = .error .ValueError := by
  have hf : feasible [(20 : ℝ) / 1, 0, 0] [1 / 10, -9 / 10, -9 / 10] [10, 9 / 10, 9 / 10] = false := by
    rw [Bool.eq_false_iff]
    intro h
    have := (feasible3 _).1 h
    norm_num at this
  simp only [scaleShift, leastSquares, hf]
  rfl

/-- The wave of frequency `(k, l)` at pixel `(i, j)` of an `h` by `w` image. -/
noncomputable def waveAt (h w k l i j : ℕ) : ℂ :=
  Complex.exp (-(2 * Real.pi * ((k : ℂ) * i / h + (l : ℂ) * j / w)) * I)

theorem waveAt_tw (h w k l i j : ℕ) : tw h ((k : ℝ) * i) * tw w ((l : ℝ) * j) = waveAt h w k l i j := by
  unfold tw waveAt
  rw [← Complex.exp_add]
  congr 1
  push_cast
  ring

/-- C24: the transforms of the images in the formula are those of the interpolated pixels. -/
theorem subtract_image_hat (d : SubImg) (k l : ℕ) :
    d.interpedHat.px k l = (∑ i ∈ range d.interped.h, ∑ j ∈ range d.interped.w,
      (d.interped.px i j : ℂ) * waveAt d.interped.h d.interped.w k l i j) /
        (Real.sqrt ((d.interped.h * d.interped.w : ℕ) : ℝ) : ℂ) := by
  change (∑ i ∈ range d.interped.h, ∑ j ∈ range d.interped.w, (d.interped.px i j : ℂ) *
    (tw d.interped.h ((k : ℝ) * i) * tw d.interped.w ((l : ℝ) * j))) / _ = _
  simp only [waveAt_tw]
  rfl

/-- C24: those of the PSFs are of the pixels of the stamp that lie within the image, with `2⁻⁵²` for a coefficient whose
real part is zero. -/
theorem subtract_psf_hat (d : SubImg) (k l : ℕ) (z : ℂ)
    (hz : z = (∑ i ∈ range (min d.interped.h d.psf.h), ∑ j ∈ range (min d.interped.w d.psf.w),
      (d.psf.px i j : ℂ) * waveAt d.interped.h d.interped.w k l i j) /
        (Real.sqrt ((d.interped.h * d.interped.w : ℕ) : ℝ) : ℂ)) :
    (z.re ≠ 0 → d.psfHat.px k l = z) ∧ (z.re = 0 → d.psfHat.px k l = (((1 / 2) ^ 52 : ℝ) : ℂ)) := by
  have cut : ∀ (n m : ℕ) (f : ℕ → ℂ), (∑ i ∈ range n, if i < m then f i else 0) = ∑ i ∈ range (min n m), f i := by
    intro n m f
    rw [← Finset.sum_filter]
    congr 1
    ext x
    simp
  have key : (fftOrtho (padTo d.h d.w (toC d.psf))).px k l = z := by
    rw [hz]
    change (∑ i ∈ range d.interped.h, ∑ j ∈ range d.interped.w,
      (if i < d.psf.h ∧ j < d.psf.w then (d.psf.px i j : ℂ) else 0) *
        (tw d.interped.h ((k : ℝ) * i) * tw d.interped.w ((l : ℝ) * j))) / _ = _
    simp only [waveAt_tw]
    congr 1
    rw [← cut]
    refine sum_congr rfl fun i _ => ?_
    by_cases hi : i < d.psf.h
    · rw [if_pos hi, ← cut]
      refine sum_congr rfl fun j _ => ?_
      by_cases hj : j < d.psf.w
      · rw [if_pos ⟨hi, hj⟩, if_pos hj]
      · rw [if_neg (fun h => hj h.2), if_neg hj, zero_mul]
    · rw [if_neg hi]
      refine sum_eq_zero fun j _ => ?_
      rw [if_neg (fun h => hi h.1), zero_mul]
  have hg : d.psfHat.px k l = guardHat z := by rw [← key]; rfl
  unfold guardHat epsR at hg
  refine ⟨fun h => ?_, fun h => ?_⟩
  · rw [hg, if_neg h]
  · rw [hg, if_pos h]

/-- One pixel: a PSF of value 3 is its own transform, a PSF of value 0 is replaced. -/
example (m : NMask) (a f : Img ℝ) (ha : a.h = 1 ∧ a.w = 1) :
    (⟨a, m, f, ⟨1, 1, fun _ _ => 3⟩, 1⟩ : SubImg).psfHat.px 0 0 = 3 ∧
      (⟨a, m, f, ⟨1, 1, fun _ _ => 0⟩, 1⟩ : SubImg).psfHat.px 0 0 = (((1 / 2) ^ 52 : ℝ) : ℂ) := by
  refine ⟨(subtract_psf_hat _ 0 0 3 ?_).1 ?_, (subtract_psf_hat _ 0 0 0 ?_).2 rfl⟩
  · simp [ha.1, ha.2, waveAt]
  · norm_num
  · simp [ha.1, ha.2, waveAt]

end PI
