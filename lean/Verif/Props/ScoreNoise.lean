import Verif.Props.Optimal
import Verif.Props.SubtractScore

/-!
# Property C119: the noise of subtract's score image

The score divides a matched filter by the noise it should have if every pixel `x` has the variance
`x + 1`. The theorems compare this with the noise it does have under that very assumption.
-/

namespace PI

open Complex Finset

/-! ## Kernels moved by whole pixels -/

/-- Pixel `i` moved back by `t`, wrapping around. -/
def backBy (n : ℕ) (t : ℤ) (i : ℕ) : ℕ := (((i : ℤ) - t) % (n : ℤ)).toNat

theorem backBy_sub (n i x : ℕ) (t : ℤ) (hx : x < n) :
    (((i : ℤ) - (t + x)) % (n : ℤ)).toNat = (backBy n t i + (n - x)) % n := by
  have hn : (0 : ℤ) < n := by omega
  have h1 : ((backBy n t i : ℕ) : ℤ) = ((i : ℤ) - t) % n := by
    unfold backBy
    exact Int.toNat_of_nonneg (Int.emod_nonneg _ hn.ne')
  have h2 : (((backBy n t i + (n - x)) % n : ℕ) : ℤ) = ((i : ℤ) - (t + x)) % n := by
    push_cast [Nat.cast_sub hx.le]
    rw [h1, Int.emod_add_emod]
    have : (i : ℤ) - t + ((n : ℤ) - x) = (i : ℤ) - (t + x) + n := by ring
    rw [this, Int.add_emod_right]
  omega

/-- The response to an impulse of a filter moved by whole pixels. -/
theorem impulse_moved (h w : ℕ) (A : ℕ → ℕ → ℂ) (s t : ℤ) (i j x y : ℕ) (hi : i < h) (hj : j < w)
    (hx : x < h) (hy : y < w) :
    impulseResp h w (fun k l => A k l * shiftPhase h w ((s : ℝ), (t : ℝ)) k l) i j x y =
      (ifftOrtho ⟨h, w, A⟩).px ((backBy h s i + (h - x)) % h) ((backBy w t j + (w - y)) % w) /
        (Real.sqrt ((h * w : ℕ) : ℝ) : ℂ) := by
  have hh : h ≠ 0 := by omega
  have hw : w ≠ 0 := by omega
  have r := ifftOrtho_roll h w A (s + x) (t + y) i j hi hj
  rw [backBy_sub h i x s hx, backBy_sub w j y t hy] at r
  rw [← r]
  unfold impulseResp
  change _ = (∑ k ∈ range h, ∑ l ∈ range w, A k l * shiftPhase h w (((s + x : ℤ) : ℝ), ((t + y : ℤ) : ℝ)) k l *
    (tw h (-((k : ℝ) * i)) * tw w (-((l : ℝ) * j)))) / (Real.sqrt ((h * w : ℕ) : ℝ) : ℂ) / _
  rw [div_div, sqrt_mul_self_cast]
  congr 1
  refine Finset.sum_congr rfl fun k _ => Finset.sum_congr rfl fun l _ => ?_
  simp only []
  rw [shiftPhase_int h w hh hw, shiftPhase_int h w hh hw]
  push_cast
  rw [mul_add, mul_add, tw_add, tw_add]
  ring

/-! ## The score as a function of the pixels -/

/-- S as a function of the pixels of the two images, everything else (photometry, PSFs, noise estimates and the
images that enter the denominator) held fixed; `0 × 0` if `subtract` raises. -/
noncomputable def scoreOf (env : SubEnv) (o : SubOpts) (ref new : SubImg) (r n : Img ℝ) : Img ℝ :=
  match subtract env o (ref.withPixels r) (new.withPixels n) with
  | .ok out => out.S
  | .error _ => ⟨0, 0, fun _ _ => 0⟩

/-- Change of `S[i, j]` when the new image's pixel `(x, y)` is one larger. -/
noncomputable def scoreRespNew (env : SubEnv) (o : SubOpts) (ref new : SubImg) (i j x y : ℕ) : ℝ :=
  (scoreOf env o ref new ref.interped (bump new.interped x y 1)).px i j -
    (scoreOf env o ref new ref.interped new.interped).px i j

/-- Change of `S[i, j]` when the reference's pixel `(x, y)` is one larger. -/
noncomputable def scoreRespRef (env : SubEnv) (o : SubOpts) (ref new : SubImg) (i j x y : ℕ) : ℝ :=
  (scoreOf env o ref new (bump ref.interped x y 1) new.interped).px i j -
    (scoreOf env o ref new ref.interped new.interped).px i j

/-- Variance at pixel `(i, j)` of `kn * N` if the pixels of N are independent with variance `N + 1`. -/
noncomputable def varNew (ref new : SubImg) (b : ℝ) (i j : ℕ) : ℝ :=
  ∑ x ∈ range ref.h, ∑ y ∈ range ref.w, (new.filled.px x y + 1) *
    ((knImg ref new b).px ((i + (ref.h - x)) % ref.h) ((j + (ref.w - y)) % ref.w)).re ^ 2

/-- Variance at pixel `(i, j)` of `kr * R` if the pixels of R are independent with variance `R + 1`. -/
noncomputable def varRef (ref new : SubImg) (b : ℝ) (i j : ℕ) : ℝ :=
  ∑ x ∈ range ref.h, ∑ y ∈ range ref.w, (ref.filled.px x y + 1) *
    ((krImg ref new b).px ((i + (ref.h - x)) % ref.h) ((j + (ref.w - y)) % ref.w)).re ^ 2

theorem scoreVar_split (ref new : SubImg) (hh : new.h = ref.h) (hw : new.w = ref.w) (b : ℝ) (i j : ℕ) :
    scoreVar ref new b i j = ((varNew ref new b i j + varRef ref new b i j : ℝ) : ℂ) := by
  have kn : ∀ a b', (knImg ref new b).px a b' = (((knImg ref new b).px a b').re : ℂ) := fun a b' =>
    Complex.ext rfl (by rw [ofReal_im]; exact (kernels_real ref new hh hw b a b').2)
  have kr : ∀ a b', (krImg ref new b).px a b' = (((krImg ref new b).px a b').re : ℂ) := fun a b' =>
    Complex.ext rfl (by rw [ofReal_im]; exact (kernels_real ref new hh hw b a b').1)
  unfold scoreVar varNew varRef circConv
  rw [ofReal_add, ofReal_sum, ofReal_sum]
  congr 1
  · refine Finset.sum_congr rfl fun x _ => ?_
    rw [ofReal_sum]
    refine Finset.sum_congr rfl fun y _ => ?_
    rw [ofReal_mul, ofReal_pow, ← kn, ofReal_add, ofReal_one]
  · refine Finset.sum_congr rfl fun x _ => ?_
    rw [ofReal_sum]
    refine Finset.sum_congr rfl fun y _ => ?_
    rw [ofReal_mul, ofReal_pow, ← kr, ofReal_add, ofReal_one]

/-- Transfer functions of the score's numerator. -/
noncomputable def numNew (ref new : SubImg) (b : ℝ) (c : ℝ × ℝ) (k l : ℕ) : ℂ :=
  zackayKn ref.var new.var 1 b (ref.psfHat.px k l) (new.psfHat.px k l) *
    shiftPhase ref.h ref.w (c.1 - (centerOfMass ref.psf).1, c.2 - (centerOfMass ref.psf).2) k l

/-- Transfer functions of the score's numerator. -/
noncomputable def numRef (ref new : SubImg) (b : ℝ) (c : ℝ × ℝ) (k l : ℕ) : ℂ :=
  -(zackayKr ref.var new.var 1 b (ref.psfHat.px k l) (new.psfHat.px k l) *
    shiftPhase ref.h ref.w (c.1 - (centerOfMass new.psf).1, c.2 - (centerOfMass new.psf).2) k l)

theorem withPixels_psfHat (d : SubImg) (x : Img ℝ) (h : x.shape = d.interped.shape) :
    (d.withPixels x).psfHat = d.psfHat := by
  have h1 : x.h = d.interped.h := congrArg Prod.fst h
  have h2 : x.w = d.interped.w := congrArg Prod.snd h
  unfold SubImg.psfHat SubImg.h SubImg.w SubImg.withPixels
  simp only []
  rw [h1, h2]

section
variable (env : SubEnv) (it : Bool) (ref new : SubImg) (h w : ℕ) (z : ℝ × ℝ)
    (hmr : ref.mask.HasShape h w) (hmn : new.mask.HasShape h w) (hz : env.zps = .ok z)
    (hc : env.fitted = true ∨ (0 ≤ (centerOfMass new.psf).1 ∧ 0 ≤ (centerOfMass new.psf).2))
    (hr : ref.interped.shape = (h, w)) (hn : new.interped.shape = (h, w))
    (hfr : ref.filled.shape = (h, w)) (hfn : new.filled.shape = (h, w))
    (h0 : h ≠ 0) (w0 : w ≠ 0) (hb : z.2 / z.1 ≠ 0) (hv : ref.var ≠ 0 ∨ new.var ≠ 0)
    (hpr : ∀ i < h, ∀ j < w, -1 ≤ ref.filled.px i j) (hpn : ∀ i < h, ∀ j < w, -1 ≤ new.filled.px i j)
include hmr hmn hz hc hr hn hfr hfn h0 w0 hb hv hpr hpn

theorem scoreOf_eq (r n : Img ℝ) (hr' : r.shape = (h, w)) (hn' : n.shape = (h, w)) (i j : ℕ) :
    (scoreOf env ⟨false, false, it⟩ ref new r n).px i j = |z.2 / z.1 / z.2| *
      (((∑ x ∈ range h, ∑ y ∈ range w, (n.px x y : ℂ) *
          impulseResp h w (numNew ref new (z.2 / z.1) (subCenter env.peak (subP ref new (z.2 / z.1)))) i j x y) +
        ∑ x ∈ range h, ∑ y ∈ range w, (r.px x y : ℂ) *
          impulseResp h w (numRef ref new (z.2 / z.1) (subCenter env.peak (subP ref new (z.2 / z.1)))) i j x y).re /
        Real.sqrt (varNew ref new (z.2 / z.1) i j + varRef ref new (z.2 / z.1) i j)) := by
  obtain ⟨out, e, _, _, hS⟩ := subtract_returns env it (ref.withPixels r) (new.withPixels n) h w hr' hn' hmr hmn z hz hc
  have ed : scoreOf env ⟨false, false, it⟩ ref new r n = out.S := by
    unfold scoreOf
    rw [e]
  set b := z.2 / z.1 with hbdef
  have rh0 : ref.interped.h = h := congrArg Prod.fst hr
  have rw0 : ref.interped.w = w := congrArg Prod.snd hr
  have nh0 : new.interped.h = h := congrArg Prod.fst hn
  have nw0 : new.interped.w = w := congrArg Prod.snd hn
  have rh : r.h = h := congrArg Prod.fst hr'
  have rw' : r.w = w := congrArg Prod.snd hr'
  have nh : n.h = h := congrArg Prod.fst hn'
  have nw : n.w = w := congrArg Prod.snd hn'
  have qr : (ref.withPixels r).psfHat = ref.psfHat := withPixels_psfHat ref r (hr'.trans hr.symm)
  have qn : (new.withPixels n).psfHat = new.psfHat := withPixels_psfHat new n (hn'.trans hn.symm)
  have sh1 : (ref.withPixels r).h = ref.h := rh.trans rh0.symm
  have sh2 : (ref.withPixels r).w = ref.w := rw'.trans rw0.symm
  have hP : subP (ref.withPixels r) (new.withPixels n) b = subP ref new b := by
    have hnorm : normHat (ref.withPixels r) (new.withPixels n) b = normHat ref new b := by
      funext k l
      unfold normHat
      rw [qr, qn]
      rfl
    unfold subP pHat
    rw [qr, qn, hnorm, sh1, sh2]
    rfl
  have hkn : knImg (ref.withPixels r) (new.withPixels n) b = knImg ref new b := by
    unfold knImg
    rw [qr, qn, sh1, sh2]
    rfl
  have hkr : krImg (ref.withPixels r) (new.withPixels n) b = krImg ref new b := by
    unfold krImg
    rw [qr, qn, sh1, sh2]
    rfl
  have hV : scoreVar (ref.withPixels r) (new.withPixels n) b i j =
      ((varNew ref new b i j + varRef ref new b i j : ℝ) : ℂ) := by
    rw [← scoreVar_split ref new (nh0.trans rh0.symm) (nw0.trans rw0.symm)]
    unfold scoreVar
    rw [hkn, hkr, sh1, sh2]
    rfl
  have hV0 : 0 ≤ varNew ref new b i j + varRef ref new b i j := by
    unfold varNew varRef
    have hrh : ref.h = h := rh0
    have hrw : ref.w = w := rw0
    refine add_nonneg ?_ ?_
    · refine Finset.sum_nonneg fun x hx => Finset.sum_nonneg fun y hy => mul_nonneg ?_ (sq_nonneg _)
      rw [hrh, mem_range] at hx
      rw [hrw, mem_range] at hy
      linarith [hpn x hx y hy]
    · refine Finset.sum_nonneg fun x hx => Finset.sum_nonneg fun y hy => mul_nonneg ?_ (sq_nonneg _)
      rw [hrh, mem_range] at hx
      rw [hrw, mem_range] at hy
      linarith [hpr x hx y hy]
  have hd : dZp (ref.withPixels r) (new.withPixels n) b ≠ 0 := by
    change b / Real.sqrt (ref.var ^ 2 * b ^ 2 + new.var ^ 2) ≠ 0
    refine div_ne_zero hb (Real.sqrt_ne_zero'.2 ?_)
    rcases hv with hv | hv
    · have : 0 < ref.var ^ 2 * b ^ 2 := by positivity
      have := sq_nonneg new.var
      linarith
    · have : 0 < new.var ^ 2 := by positivity
      have : 0 ≤ ref.var ^ 2 * b ^ 2 := by positivity
      linarith
  set c := subCenter env.peak (subP ref new b) with hcdef
  have hnum : (ifftOrtho (sHat env.peak (ref.withPixels r) (new.withPixels n) b 0 0)).px i j =
      (∑ x ∈ range h, ∑ y ∈ range w, (n.px x y : ℂ) * impulseResp h w (numNew ref new b c) i j x y) +
      ∑ x ∈ range h, ∑ y ∈ range w, (r.px x y : ℂ) * impulseResp h w (numRef ref new b c) i j x y := by
    have es : sHat env.peak (ref.withPixels r) (new.withPixels n) b 0 0 = ⟨h, w, fun k l =>
        numNew ref new b c k l * (fftOrtho (toC n)).px k l + numRef ref new b c k l * (fftOrtho (toC r)).px k l⟩ := by
      have hpx : (sHat env.peak (ref.withPixels r) (new.withPixels n) b 0 0).px = fun k l =>
          numNew ref new b c k l * (fftOrtho (toC n)).px k l + numRef ref new b c k l * (fftOrtho (toC r)).px k l := by
        funext k l
        rw [score_hat env.peak (ref.withPixels r) (new.withPixels n) (nh.trans rh.symm) (nw.trans rw'.symm) b 0 0 hd k l, hP]
        unfold scoreHat numNew numRef SubImg.interpedHat
        rw [qr, qn, sh1, sh2, add_zero, add_zero]
        simp only [SubImg.withPixels, ← hcdef]
        ring
      have e1 : (sHat env.peak (ref.withPixels r) (new.withPixels n) b 0 0).h = h := rh
      have e2 : (sHat env.peak (ref.withPixels r) (new.withPixels n) b 0 0).w = w := rw'
      rw [← hpx]
      conv_rhs => rw [← e1, ← e2]
    rw [es, ifftOrtho_add]
    have f1 := filter_eq (toC n) (numNew ref new b c) i j
    have f2 := filter_eq (toC r) (numRef ref new b c) i j
    have t1 : (toC n).h = h := nh
    have t2 : (toC n).w = w := nw
    have t3 : (toC r).h = h := rh
    have t4 : (toC r).w = w := rw'
    rw [t1, t2] at f1
    rw [t3, t4] at f2
    rw [f1, f2]
    rfl
  rw [ed, hS, ← hnum]
  change ((ifftOrtho (sHat env.peak (ref.withPixels r) (new.withPixels n) b 0 0)).px i j /
      csqrt ((subV (new.withPixels n).filled (subKn (ref.withPixels r) (new.withPixels n) z.2 b)).px i j +
        (subV (ref.withPixels r).filled (subKr (ref.withPixels r) (new.withPixels n) z.2 b)).px i j)).re = _
  rw [score_var_total (ref.withPixels r) (new.withPixels n) (hfr.trans hr'.symm) (hfn.trans hr'.symm)
      (by rw [sh1]; change ref.interped.h ≠ 0; omega) (by rw [sh2]; change ref.interped.w ≠ 0; omega) z.2 b hb, hV,
    ← ofReal_mul, csqrt_ofReal_nonneg _ (by positivity), Real.sqrt_mul (sq_nonneg _), Real.sqrt_sq_eq_abs,
    div_ofReal_re]
  have ha : |z.2 / b| = |b / z.2|⁻¹ := by rw [← abs_inv, inv_div]
  rw [ha, div_mul_eq_div_div, div_inv_eq_mul]
  ring

theorem scoreResp_eq (i j x y : ℕ) (hx : x < h) (hy : y < w) :
    scoreRespNew env ⟨false, false, it⟩ ref new i j x y = |z.2 / z.1 / z.2| *
      ((impulseResp h w (numNew ref new (z.2 / z.1) (subCenter env.peak (subP ref new (z.2 / z.1)))) i j x y).re /
        Real.sqrt (varNew ref new (z.2 / z.1) i j + varRef ref new (z.2 / z.1) i j)) ∧
    scoreRespRef env ⟨false, false, it⟩ ref new i j x y = |z.2 / z.1 / z.2| *
      ((impulseResp h w (numRef ref new (z.2 / z.1) (subCenter env.peak (subP ref new (z.2 / z.1)))) i j x y).re /
        Real.sqrt (varNew ref new (z.2 / z.1) i j + varRef ref new (z.2 / z.1) i j)) := by
  have d := fun r n hr' hn' =>
    scoreOf_eq env it ref new h w z hmr hmn hz hc hr hn hfr hfn h0 w0 hb hv hpr hpn r n hr' hn' i j
  refine ⟨?_, ?_⟩
  · unfold scoreRespNew
    rw [d ref.interped (bump new.interped x y 1) hr hn, d ref.interped new.interped hr hn, sum_bump h w _ x y hx hy]
    simp only [add_re]
    ring
  · unfold scoreRespRef
    rw [d (bump ref.interped x y 1) new.interped hr hn, d ref.interped new.interped hr hn, sum_bump h w _ x y hx hy]
    simp only [add_re]
    ring

/-- C119: without fits S is a linear function of the two images' pixels (for a given denominator). -/
theorem score_linear (f e : Img ℝ) (i j : ℕ) :
    (scoreOf env ⟨false, false, it⟩ ref new (plusImg ref.interped f) (plusImg new.interped e)).px i j =
      (scoreOf env ⟨false, false, it⟩ ref new ref.interped new.interped).px i j +
      ∑ x ∈ range h, ∑ y ∈ range w, (e.px x y * scoreRespNew env ⟨false, false, it⟩ ref new i j x y +
        f.px x y * scoreRespRef env ⟨false, false, it⟩ ref new i j x y) := by
  have d := fun r n hr' hn' =>
    scoreOf_eq env it ref new h w z hmr hmn hz hc hr hn hfr hfn h0 w0 hb hv hpr hpn r n hr' hn' i j
  have q := fun x hx y hy => scoreResp_eq env it ref new h w z hmr hmn hz hc hr hn hfr hfn h0 w0 hb hv hpr hpn i j x y
    (mem_range.1 hx) (mem_range.1 hy)
  rw [Finset.sum_congr rfl fun x hx => Finset.sum_congr rfl fun y hy => by rw [(q x hx y hy).1, (q x hx y hy).2],
    d (plusImg ref.interped f) (plusImg new.interped e) hr hn, d ref.interped new.interped hr hn]
  set a := |z.2 / z.1 / z.2|
  set v := Real.sqrt (varNew ref new (z.2 / z.1) i j + varRef ref new (z.2 / z.1) i j)
  generalize impulseResp h w (numNew ref new (z.2 / z.1) (subCenter env.peak (subP ref new (z.2 / z.1)))) i j = Kn
  generalize impulseResp h w (numRef ref new (z.2 / z.1) (subCenter env.peak (subP ref new (z.2 / z.1)))) i j = Kr
  have e1 : ∀ (u g : Img ℝ) (K : ℕ → ℕ → ℂ), ∑ x ∈ range h, ∑ y ∈ range w, ((plusImg u g).px x y : ℂ) * K x y =
      (∑ x ∈ range h, ∑ y ∈ range w, (u.px x y : ℂ) * K x y) + ∑ x ∈ range h, ∑ y ∈ range w, (g.px x y : ℂ) * K x y := by
    intro u g K
    simp only [plusImg, Complex.ofReal_add, add_mul, Finset.sum_add_distrib]
  have e2 : ∀ (g : Img ℝ) (K : ℕ → ℕ → ℂ), (∑ x ∈ range h, ∑ y ∈ range w, (g.px x y : ℂ) * K x y).re =
      ∑ x ∈ range h, ∑ y ∈ range w, g.px x y * (K x y).re := by
    intro g K
    simp only [Complex.re_sum, Complex.re_ofReal_mul]
  have e3 : ∑ x ∈ range h, ∑ y ∈ range w, (e.px x y * (a * ((Kn x y).re / v)) + f.px x y * (a * ((Kr x y).re / v))) =
      a * (((∑ x ∈ range h, ∑ y ∈ range w, e.px x y * (Kn x y).re) +
        ∑ x ∈ range h, ∑ y ∈ range w, f.px x y * (Kr x y).re) / v) := by
    rw [← Finset.sum_add_distrib, Finset.sum_div, Finset.mul_sum]
    refine Finset.sum_congr rfl fun x _ => ?_
    rw [← Finset.sum_add_distrib, Finset.sum_div, Finset.mul_sum]
    refine Finset.sum_congr rfl fun y _ => ?_
    ring
  rw [e3, e1, e1, ← e2, ← e2]
  simp only [add_re]
  ring

variable (out : SubOut) (hout : subtract env ⟨false, false, it⟩ ref new = .ok out) (c : ℝ × ℝ)
    (hcen : ScoreCentre (env.peak out.P) out.P c) (sn tn sr tr : ℤ)
    (h1 : c.1 - (centerOfMass ref.psf).1 = sn) (h2 : c.2 - (centerOfMass ref.psf).2 = tn)
    (h3 : c.1 - (centerOfMass new.psf).1 = sr) (h4 : c.2 - (centerOfMass new.psf).2 = tr)
include hout hcen h1 h2 h3 h4

/-- C119: if the pixels are independent and pixel `x` has the variance `x + 1`, as the denominator of the score
supposes, then the variance of `S[i, j]` is not one. It is one over the number of pixels and the squared zero point of
the reference, times the ratio of the noise around the pixel itself (the filter is centred on it) to the noise that
the denominator takes from pixels displaced by the PSF's centre. -/
theorem score_noise (i j : ℕ) (hi : i < h) (hj : j < w) :
    ∑ x ∈ range h, ∑ y ∈ range w,
      ((new.filled.px x y + 1) * scoreRespNew env ⟨false, false, it⟩ ref new i j x y ^ 2 +
        (ref.filled.px x y + 1) * scoreRespRef env ⟨false, false, it⟩ ref new i j x y ^ 2) =
      1 / (z.1 ^ 2 * ((h * w : ℕ) : ℝ)) *
        ((varNew ref new (z.2 / z.1) (backBy h sn i) (backBy w tn j) +
          varRef ref new (z.2 / z.1) (backBy h sr i) (backBy w tr j)) /
        (varNew ref new (z.2 / z.1) i j + varRef ref new (z.2 / z.1) i j)) := by
  have rh0 : ref.h = h := congrArg Prod.fst hr
  have rw0 : ref.w = w := congrArg Prod.snd hr
  obtain ⟨out', eo, _, hP, _⟩ := subtract_returns env it ref new h w hr hn hmr hmn z hz hc
  rw [hout] at eo
  cases eo
  have hcc : subCenter env.peak (subP ref new (z.2 / z.1)) = c := by
    rw [← hP]
    have sp := subCenter_spec env.peak out.P
    by_cases hcl : |(centerOfMass out.P).1 - (env.peak out.P).1| ≤ 30 ∧
        |(centerOfMass out.P).2 - (env.peak out.P).2| ≤ 30
    · rw [sp.1 hcl, hcen.1 hcl]
    · rw [sp.2 hcl, hcen.2 hcl]
  have q := fun x hx y hy => scoreResp_eq env it ref new h w z hmr hmn hz hc hr hn hfr hfn h0 w0 hb hv hpr hpn i j x y
    (mem_range.1 hx) (mem_range.1 hy)
  rw [hcc] at q
  have en : ∀ x ∈ range h, ∀ y ∈ range w, impulseResp h w (numNew ref new (z.2 / z.1) c) i j x y =
      (knImg ref new (z.2 / z.1)).px ((backBy h sn i + (h - x)) % h) ((backBy w tn j + (w - y)) % w) /
        (Real.sqrt ((h * w : ℕ) : ℝ) : ℂ) := by
    intro x hx y hy
    have m := impulse_moved h w (fun k l => zackayKn ref.var new.var 1 (z.2 / z.1) (ref.psfHat.px k l) (new.psfHat.px k l))
      sn tn i j x y hi hj (mem_range.1 hx) (mem_range.1 hy)
    unfold numNew knImg
    rw [rh0, rw0, h1, h2]
    exact m
  have er : ∀ x ∈ range h, ∀ y ∈ range w, impulseResp h w (numRef ref new (z.2 / z.1) c) i j x y =
      -((krImg ref new (z.2 / z.1)).px ((backBy h sr i + (h - x)) % h) ((backBy w tr j + (w - y)) % w) /
        (Real.sqrt ((h * w : ℕ) : ℝ) : ℂ)) := by
    intro x hx y hy
    have m := impulse_moved h w (fun k l => zackayKr ref.var new.var 1 (z.2 / z.1) (ref.psfHat.px k l) (new.psfHat.px k l))
      sr tr i j x y hi hj (mem_range.1 hx) (mem_range.1 hy)
    unfold numRef krImg
    rw [rh0, rw0, h3, h4, ← m]
    unfold impulseResp
    rw [← neg_div, ← Finset.sum_neg_distrib]
    congr 1
    refine Finset.sum_congr rfl fun k _ => ?_
    rw [← Finset.sum_neg_distrib]
    refine Finset.sum_congr rfl fun l _ => ?_
    ring
  rw [Finset.sum_congr rfl fun x hx => Finset.sum_congr rfl fun y hy => by
    rw [(q x hx y hy).1, (q x hx y hy).2, en x hx y hy, er x hx y hy]]
  have hz1 : z.1 ≠ 0 := fun hc => hb (by rw [hc, div_zero])
  have hz2 : z.2 ≠ 0 := fun hc => hb (by rw [hc, zero_div])
  have hcoef : |z.2 / z.1 / z.2| ^ 2 = 1 / z.1 ^ 2 := by
    rw [sq_abs]
    field_simp
  have hvn : 0 ≤ varNew ref new (z.2 / z.1) i j + varRef ref new (z.2 / z.1) i j := by
    unfold varNew varRef
    refine add_nonneg ?_ ?_
    · refine Finset.sum_nonneg fun x hx => Finset.sum_nonneg fun y hy => mul_nonneg ?_ (sq_nonneg _)
      rw [rh0, mem_range] at hx
      rw [rw0, mem_range] at hy
      linarith [hpn x hx y hy]
    · refine Finset.sum_nonneg fun x hx => Finset.sum_nonneg fun y hy => mul_nonneg ?_ (sq_nonneg _)
      rw [rh0, mem_range] at hx
      rw [rw0, mem_range] at hy
      linarith [hpr x hx y hy]
  have hsq : Real.sqrt (varNew ref new (z.2 / z.1) i j + varRef ref new (z.2 / z.1) i j) ^ 2 = _ := Real.sq_sqrt hvn
  have hsn : Real.sqrt ((h * w : ℕ) : ℝ) ^ 2 = ((h * w : ℕ) : ℝ) := Real.sq_sqrt (Nat.cast_nonneg _)
  set V := varNew ref new (z.2 / z.1) i j + varRef ref new (z.2 / z.1) i j
  have key : ∀ (u : ℝ) (K : ℂ), u * (|z.2 / z.1 / z.2| * ((K / (Real.sqrt ((h * w : ℕ) : ℝ) : ℂ)).re / Real.sqrt V)) ^ 2 =
      1 / (z.1 ^ 2 * ((h * w : ℕ) : ℝ)) * ((u * K.re ^ 2) / V) := by
    intro u K
    rw [div_ofReal_re, mul_pow, div_pow, div_pow, hcoef, hsq, hsn, one_div, one_div, mul_inv]
    ring
  have key' : ∀ (u : ℝ) (K : ℂ), u * (|z.2 / z.1 / z.2| * ((-(K / (Real.sqrt ((h * w : ℕ) : ℝ) : ℂ))).re / Real.sqrt V)) ^ 2 =
      1 / (z.1 ^ 2 * ((h * w : ℕ) : ℝ)) * ((u * K.re ^ 2) / V) := by
    intro u K
    rw [← key, neg_re]
    ring
  simp only [key, key']
  unfold varNew varRef
  rw [rh0, rw0, ← Finset.sum_add_distrib, Finset.sum_div, Finset.mul_sum]
  refine Finset.sum_congr rfl fun x _ => ?_
  rw [← Finset.sum_add_distrib, Finset.sum_div, Finset.mul_sum]
  refine Finset.sum_congr rfl fun y _ => ?_
  rw [← mul_add, ← add_div]

end

/-! ## Worked instance -/

/-- A PSF of one pixel, stored in the middle of a stamp of three. -/
noncomputable def dotPsf : Img ℝ := ⟨1, 3, fun _ j => if j = 1 then 1 else 0⟩

/-- A 1×3 image with that PSF and unit noise. -/
noncomputable def dotSub (u : ℕ → ℝ) : SubImg where
  interped := ⟨1, 3, fun _ j => u j⟩
  mask := none
  filled := ⟨1, 3, fun _ j => u j⟩
  psf := dotPsf
  var := 1

theorem dot_com (m : ℕ) (hm : m < 3) :
    centerOfMass (⟨1, 3, fun _ j => if j = m then 1 else 0⟩ : Img ℝ) = (((0 : ℤ) : ℝ), ((m : ℤ) : ℝ)) := by
  unfold centerOfMass rsum
  interval_cases m <;> simp

theorem dot_hat (m : ℕ) (hm : m < 3) (k l : ℕ) (hk : k < 1) :
    (fftOrtho (⟨1, 3, fun _ j => if j = m then 1 else 0⟩ : Img ℂ)).px k l =
      tw 3 ((l : ℝ) * m) / (Real.sqrt ((1 * 3 : ℕ) : ℝ) : ℂ) := by
  have hk0 : k = 0 := by omega
  subst hk0
  change (∑ i ∈ range 1, ∑ j ∈ range 3, (if j = m then (1 : ℂ) else 0) *
      (tw 1 (((0 : ℕ) : ℝ) * i) * tw 3 ((l : ℝ) * j))) / (Real.sqrt ((1 * 3 : ℕ) : ℝ) : ℂ) = _
  congr 1
  interval_cases m <;> simp [tw_zero]

theorem dot_back (m : ℕ) (hm : m < 3) (i j : ℕ) (hi : i < 1) (hj : j < 3) :
    (ifftOrtho ⟨1, 3, fun _ l => tw 3 ((l : ℝ) * m) / (Real.sqrt ((1 * 3 : ℕ) : ℝ) : ℂ)⟩).px i j =
      if j = m then 1 else 0 := by
  refine Eq.trans ?_ (ifftOrtho_fftOrtho (⟨1, 3, fun _ j => if j = m then 1 else 0⟩ : Img ℂ) i j hi hj)
  exact ifftOrtho_congr 1 3 _ _ (fun k hk l _ => (dot_hat m hm k l hk).symm) i j

theorem dot_padded (k l : ℕ) (hk : k < 1) :
    (fftOrtho (padTo 1 3 (toC dotPsf))).px k l = tw 3 (l : ℝ) / (Real.sqrt ((1 * 3 : ℕ) : ℝ) : ℂ) := by
  have d := dot_hat 1 (by norm_num) k l hk
  rw [Nat.cast_one, mul_one] at d
  rw [← d]
  have hk0 : k = 0 := by omega
  subst hk0
  change (∑ i ∈ range 1, ∑ j ∈ range 3, (if i < 1 ∧ j < 3 then ((if j = 1 then 1 else 0 : ℝ) : ℂ) else 0) *
      (tw 1 (((0 : ℕ) : ℝ) * i) * tw 3 ((l : ℝ) * j))) / (Real.sqrt ((1 * 3 : ℕ) : ℝ) : ℂ) =
    (∑ i ∈ range 1, ∑ j ∈ range 3, (if j = 1 then (1 : ℂ) else 0) *
      (tw 1 (((0 : ℕ) : ℝ) * i) * tw 3 ((l : ℝ) * j))) / (Real.sqrt ((1 * 3 : ℕ) : ℝ) : ℂ)
  simp [Finset.sum_range_succ]

theorem dot_idle : GuardIdle 1 3 dotPsf := by
  intro k hk l hl
  rw [dot_padded k l hk, Complex.div_ofReal_re]
  refine div_ne_zero ?_ (by positivity)
  by_cases h0 : l = 0
  · subst h0
    norm_num [tw_zero]
  · rw [tw_three_re l (by omega)]
    norm_num

theorem dot_psfHat (u : ℕ → ℝ) (k l : ℕ) (hk : k < 1) (hl : l < 3) :
    (dotSub u).psfHat.px k l = tw 3 (l : ℝ) / (Real.sqrt ((1 * 3 : ℕ) : ℝ) : ℂ) := by
  rw [psfHat_idle (dotSub u) 1 3 rfl rfl dot_idle k l hk hl]
  exact dot_padded k l hk

theorem dot_power (l : ℝ) : normSq (tw 3 l / (Real.sqrt ((1 * 3 : ℕ) : ℝ) : ℂ)) = 1 / 3 := by
  rw [normSq_div, normSq_ofReal, Real.mul_self_sqrt (Nat.cast_nonneg _), Complex.normSq_eq_norm_sq, norm_tw]
  norm_num

theorem tw_three_neg (l : ℕ) : tw 3 (-(l : ℝ)) = tw 3 ((l : ℝ) * (2 : ℕ)) := by
  have p := tw_period 3 (by norm_num) (l : ℤ)
  rw [← mul_one (tw 3 (-(l : ℝ))), ← p, ← tw_add]
  congr 1
  push_cast
  ring

theorem dot_kernel (u v : ℕ → ℝ) (i j : ℕ) (hi : i < 1) (hj : j < 3) :
    (knImg (dotSub u) (dotSub v) (1 / 1)).px i j = ((1 / 2 : ℝ) : ℂ) * (if j = 2 then 1 else 0) ∧
    (krImg (dotSub u) (dotSub v) (1 / 1)).px i j = ((1 / 2 : ℝ) : ℂ) * (if j = 2 then 1 else 0) := by
  rw [← dot_back 2 (by norm_num) i j hi hj, ← ifftOrtho_const_mul]
  unfold knImg krImg
  refine ⟨ifftOrtho_congr 1 3 _ _ (fun k hk l hl => ?_) i j, ifftOrtho_congr 1 3 _ _ (fun k hk l hl => ?_) i j⟩
  · unfold zackayKn
    rw [dot_psfHat u k l hk hl, dot_psfHat v k l hk hl, dot_power, map_div₀, conj_tw, tw_three_neg, Complex.conj_ofReal]
    simp only [dotSub]
    push_cast
    ring
  · unfold zackayKr
    rw [dot_psfHat u k l hk hl, dot_psfHat v k l hk hl, dot_power, map_div₀, conj_tw, tw_three_neg, Complex.conj_ofReal]
    simp only [dotSub]
    push_cast
    ring

theorem dot_var (u v : ℕ → ℝ) (j : ℕ) (hj : j < 3) :
    varNew (dotSub u) (dotSub v) (1 / 1) 0 j = (v ((j + 1) % 3) + 1) / 4 ∧
    varRef (dotSub u) (dotSub v) (1 / 1) 0 j = (u ((j + 1) % 3) + 1) / 4 := by
  have en : ∀ x y, ((knImg (dotSub u) (dotSub v) (1 / 1)).px ((0 + (1 - x)) % 1) ((j + (3 - y)) % 3)).re =
      if (j + (3 - y)) % 3 = 2 then 1 / 2 else 0 := by
    intro x y
    rw [(dot_kernel u v _ _ (Nat.mod_lt _ (by norm_num)) (Nat.mod_lt _ (by norm_num))).1]
    split_ifs <;> simp
  have er : ∀ x y, ((krImg (dotSub u) (dotSub v) (1 / 1)).px ((0 + (1 - x)) % 1) ((j + (3 - y)) % 3)).re =
      if (j + (3 - y)) % 3 = 2 then 1 / 2 else 0 := by
    intro x y
    rw [(dot_kernel u v _ _ (Nat.mod_lt _ (by norm_num)) (Nat.mod_lt _ (by norm_num))).2]
    split_ifs <;> simp
  unfold varNew varRef
  constructor
  · change ∑ x ∈ range 1, ∑ y ∈ range 3, (v y + 1) *
      ((knImg (dotSub u) (dotSub v) (1 / 1)).px ((0 + (1 - x)) % 1) ((j + (3 - y)) % 3)).re ^ 2 = _
    simp only [en, Finset.sum_range_succ, Finset.sum_range_zero]
    interval_cases j <;> norm_num <;> ring
  · change ∑ x ∈ range 1, ∑ y ∈ range 3, (u y + 1) *
      ((krImg (dotSub u) (dotSub v) (1 / 1)).px ((0 + (1 - x)) % 1) ((j + (3 - y)) % 3)).re ^ 2 = _
    simp only [er, Finset.sum_range_succ, Finset.sum_range_zero]
    interval_cases j <;> norm_num <;> ring

theorem dot_P (u v : ℕ → ℝ) (i j : ℕ) (hi : i < 1) (hj : j < 3) :
    (subP (dotSub u) (dotSub v) (1 / 1)).px i j = if j = 2 then 1 else 0 := by
  have e : (ifftOrtho (pHat (dotSub u) (dotSub v) (1 / 1))).px i j = if j = 2 then 1 else 0 := by
    rw [← dot_back 2 (by norm_num) i j hi hj]
    refine ifftOrtho_congr 1 3 _ _ (fun k hk l hl => ?_) i j
    rw [csqrt_normHat]
    unfold normReal dZp
    rw [dot_psfHat u k l hk hl, dot_psfHat v k l hk hl, dot_power]
    have e2 : tw 3 ((l : ℝ) * (2 : ℕ)) = tw 3 (l : ℝ) * tw 3 (l : ℝ) := by
      rw [← tw_add]
      congr 1
      push_cast
      ring
    have e3 : Real.sqrt ((dotSub v).var ^ 2 * (1 / 3) + (1 / 1) ^ 2 * (dotSub u).var ^ 2 * (1 / 3)) =
        Real.sqrt 2 / Real.sqrt 3 := by
      rw [← Real.sqrt_div (by norm_num)]
      congr 1
      norm_num [dotSub]
    have e4 : (dotSub u).var ^ 2 * (1 / 1) ^ 2 + (dotSub v).var ^ 2 = 2 := by norm_num [dotSub]
    have e5 : Real.sqrt ((1 * 3 : ℕ) : ℝ) = Real.sqrt 3 := by norm_num
    rw [e2, e3, e4, e5]
    have p2 : (Real.sqrt 2 : ℂ) ≠ 0 := by exact_mod_cast (Real.sqrt_pos.2 (by norm_num : (0 : ℝ) < 2)).ne'
    have p3 : (Real.sqrt 3 : ℂ) ≠ 0 := by exact_mod_cast (Real.sqrt_pos.2 (by norm_num : (0 : ℝ) < 3)).ne'
    push_cast
    field_simp
  change ((ifftOrtho (pHat (dotSub u) (dotSub v) (1 / 1))).px i j).re = _
  rw [e]
  split_ifs <;> simp

/-- C119 for two 1×3 images whose PSF is a single pixel: the score's variance is a third of the ratio of the noise of
its own pixel to the noise of the pixel beside it. -/
theorem dot_score_noise (u v : ℕ → ℝ) (hu : ∀ j < 3, -1 ≤ u j) (hv : ∀ j < 3, -1 ≤ v j) (j : ℕ) (hj : j < 3) :
    ∑ x ∈ range 1, ∑ y ∈ range 3,
      ((v y + 1) * scoreRespNew (tinyEnv 1 1) ⟨false, false, true⟩ (dotSub u) (dotSub v) 0 j x y ^ 2 +
        (u y + 1) * scoreRespRef (tinyEnv 1 1) ⟨false, false, true⟩ (dotSub u) (dotSub v) 0 j x y ^ 2) =
      1 / 3 * ((v j + u j + 2) / (v ((j + 1) % 3) + u ((j + 1) % 3) + 2)) := by
  obtain ⟨out, eo, _, hP, _⟩ := subtract_returns (tinyEnv 1 1) true (dotSub u) (dotSub v) 1 3 rfl rfl
    (by intro a h; cases h) (by intro a h; cases h) (1, 1) rfl (Or.inl rfl)
  have hcm : centerOfMass out.P = (((0 : ℤ) : ℝ), (((2 : ℕ) : ℤ) : ℝ)) := by
    rw [hP, ← dot_com 2 (by norm_num)]
    unfold centerOfMass rsum
    change ((∑ i ∈ range 1, ∑ j ∈ range 3, _) / (∑ i ∈ range 1, ∑ j ∈ range 3, _),
      (∑ i ∈ range 1, ∑ j ∈ range 3, _) / (∑ i ∈ range 1, ∑ j ∈ range 3, _)) = _
    simp only [Finset.sum_range_succ, Finset.sum_range_zero, dot_P u v 0 0 (by norm_num) (by norm_num),
      dot_P u v 0 1 (by norm_num) (by norm_num), dot_P u v 0 2 (by norm_num) (by norm_num)]
  have m := score_noise (tinyEnv 1 1) true (dotSub u) (dotSub v) 1 3 (1, 1) (by intro a h; cases h)
    (by intro a h; cases h) rfl (Or.inl rfl) rfl rfl rfl rfl (by norm_num) (by norm_num) (by norm_num)
    (Or.inl (by norm_num [dotSub])) (fun i _ j hj => hu j hj) (fun i _ j hj => hv j hj) out eo
    (((0 : ℤ) : ℝ), (((2 : ℕ) : ℤ) : ℝ))
    ⟨fun _ => hcm.symm, fun hn => absurd (by rw [hcm]; norm_num [tinyEnv]) hn⟩ 0 1 0 1
    (by rw [show (dotSub u).psf = dotPsf from rfl, dotPsf, dot_com 1 (by norm_num)]; norm_num)
    (by rw [show (dotSub u).psf = dotPsf from rfl, dotPsf, dot_com 1 (by norm_num)]; norm_num)
    (by rw [show (dotSub v).psf = dotPsf from rfl, dotPsf, dot_com 1 (by norm_num)]; norm_num)
    (by rw [show (dotSub v).psf = dotPsf from rfl, dotPsf, dot_com 1 (by norm_num)]; norm_num) 0 j (by norm_num) hj
  refine Eq.trans m ?_
  have b0 : backBy 1 0 0 = 0 := rfl
  have bj : backBy 3 1 j < 3 ∧ (backBy 3 1 j + 1) % 3 = j := by interval_cases j <;> decide
  rw [b0, (dot_var u v _ bj.1).1, (dot_var u v _ bj.1).2, (dot_var u v j hj).1, (dot_var u v j hj).2, bj.2, ← add_div,
    ← add_div, div_div_div_cancel_right₀ (by norm_num)]
  norm_num
  congr 1 <;> ring

/-- A star of 97 counts in the middle pixel: the variance of S there is 16.5, where an image without the star has 1/3. -/
example : ∑ x ∈ range 1, ∑ y ∈ range 3,
      (((if y = 1 then 97 else 0 : ℝ) + 1) * scoreRespNew (tinyEnv 1 1) ⟨false, false, true⟩ (dotSub fun _ => 0)
          (dotSub fun y => if y = 1 then 97 else 0) 0 1 x y ^ 2 +
        (0 + 1) * scoreRespRef (tinyEnv 1 1) ⟨false, false, true⟩ (dotSub fun _ => 0)
          (dotSub fun y => if y = 1 then 97 else 0) 0 1 x y ^ 2) = 33 / 2 := by
  rw [dot_score_noise (fun _ => 0) (fun y => if y = 1 then 97 else 0) (by intros; norm_num)
    (by intro j _; split_ifs <;> norm_num) 1 (by norm_num)]
  norm_num

end PI
