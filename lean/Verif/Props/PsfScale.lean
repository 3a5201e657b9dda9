import Verif.Props.PsfStamp

/-!
# Property C132: the normalisation of the PSFs in `subtract`

Multiplying the two PSFs by constants acts on D as multiplying the zero points by the same constants.
-/

namespace PI

open Complex Finset

/-- Two image objects that differ by a factor of the PSF. -/
structure Rescaled (d d' : SubImg) (c : ℝ) : Prop where
  interped : d'.interped = d.interped
  mask : d'.mask = d.mask
  filled : d'.filled = d.filled
  var : d'.var = d.var
  hat : ∀ k < d.interped.h, ∀ l < d.interped.w, d'.psfHat.px k l = (c : ℂ) * d.psfHat.px k l
  com : centerOfMass d'.psf = centerOfMass d.psf

/-- The image object with its PSF multiplied by a constant. -/
def SubImg.psfTimes (d : SubImg) (c : ℝ) : SubImg := { d with psf := d.psf.map fun x => c * x }

theorem centerOfMass_times (p : Img ℝ) (c : ℝ) (hc : c ≠ 0) : centerOfMass (p.map fun x => c * x) = centerOfMass p := by
  have e : ∀ f : ℕ → ℕ → ℝ, rsum ⟨p.h, p.w, fun i j => f i j * (c * p.px i j)⟩ = c * rsum ⟨p.h, p.w, fun i j => f i j * p.px i j⟩ := by
    intro f
    unfold rsum
    rw [Finset.mul_sum]
    refine Finset.sum_congr rfl fun i _ => ?_
    rw [Finset.mul_sum]
    refine Finset.sum_congr rfl fun j _ => ?_
    ring
  have e1 := e fun _ _ => 1
  simp only [one_mul] at e1
  unfold centerOfMass
  change (rsum ⟨p.h, p.w, fun i j => (i : ℝ) * (c * p.px i j)⟩ / rsum ⟨p.h, p.w, fun i j => c * p.px i j⟩,
    rsum ⟨p.h, p.w, fun i j => (j : ℝ) * (c * p.px i j)⟩ / rsum ⟨p.h, p.w, fun i j => c * p.px i j⟩) = _
  rw [e fun i _ => (i : ℝ), e fun _ j => (j : ℝ), e1, mul_div_mul_left _ _ hc, mul_div_mul_left _ _ hc]

theorem fft_times (h w : ℕ) (p : Img ℝ) (c : ℝ) (k l : ℕ) :
    (fftOrtho (padTo h w (toC (p.map fun x => c * x)))).px k l = (c : ℂ) * (fftOrtho (padTo h w (toC p))).px k l := by
  change (∑ i ∈ range h, ∑ j ∈ range w, (if i < p.h ∧ j < p.w then ((c * p.px i j : ℝ) : ℂ) else 0) *
      (tw h ((k : ℝ) * i) * tw w ((l : ℝ) * j))) / (Real.sqrt ((h * w : ℕ) : ℝ) : ℂ) =
    (c : ℂ) * ((∑ i ∈ range h, ∑ j ∈ range w, (if i < p.h ∧ j < p.w then ((p.px i j : ℝ) : ℂ) else 0) *
      (tw h ((k : ℝ) * i) * tw w ((l : ℝ) * j))) / (Real.sqrt ((h * w : ℕ) : ℝ) : ℂ))
  rw [← mul_div_assoc, Finset.mul_sum]
  refine congrArg (· / _) (Finset.sum_congr rfl fun i _ => ?_)
  rw [Finset.mul_sum]
  refine Finset.sum_congr rfl fun j _ => ?_
  split_ifs
  · push_cast
    ring
  · ring

theorem rescaled_times (d : SubImg) (c : ℝ) (hc : c ≠ 0) (hg : GuardIdle d.interped.h d.interped.w d.psf) :
    Rescaled d (d.psfTimes c) c where
  interped := rfl
  mask := rfl
  filled := rfl
  var := rfl
  com := centerOfMass_times d.psf c hc
  hat k hk l hl := by
    have hg' : GuardIdle d.interped.h d.interped.w (d.psfTimes c).psf := by
      intro k hk l hl
      change ((fftOrtho (padTo _ _ (toC (d.psf.map fun x => c * x)))).px k l).re ≠ 0
      rw [fft_times, Complex.re_ofReal_mul]
      exact mul_ne_zero hc (hg k hk l hl)
    rw [psfHat_idle (d.psfTimes c) d.interped.h d.interped.w rfl rfl hg' k l hk hl,
      psfHat_idle d d.interped.h d.interped.w rfl rfl hg k l hk hl]
    exact fft_times d.interped.h d.interped.w d.psf c k l

section
variable (ref ref' new new' : SubImg) (h w : ℕ) (hr : ref.interped.shape = (h, w)) (hn : new.interped.shape = (h, w))
    (p q : ℝ) (hp : 0 < p) (hq : 0 < q) (Rr : Rescaled ref ref' p) (Rn : Rescaled new new' q)

include hr Rr in
theorem rescaled_dims : ref.h = h ∧ ref.w = w ∧ ref'.h = h ∧ ref'.w = w := by
  have e1 : ref.interped.h = h := congrArg Prod.fst hr
  have e2 : ref.interped.w = w := congrArg Prod.snd hr
  have q1 : ref'.h = ref.h := congrArg Img.h Rr.interped
  have q2 : ref'.w = ref.w := congrArg Img.w Rr.interped
  exact ⟨e1, e2, q1.trans e1, q2.trans e2⟩

theorem rescaled_interpedHat (d d' : SubImg) (R : Rescaled d d' p) : d'.interpedHat = d.interpedHat := by
  unfold SubImg.interpedHat
  rw [R.interped]

include hn Rr Rn in
theorem rescaled_dHatR (k l : ℕ) (hk : k < h) (hl : l < w) : (dHatR ref' new').px k l = (q : ℂ) * (dHatR ref new).px k l := by
  obtain ⟨d1, d2, d3, d4⟩ := rescaled_dims new new' h w hn q Rn
  rw [dHatR_px, dHatR_px, Rn.hat k (by change k < new.h; omega) l (by change l < new.w; omega), rescaled_interpedHat p ref ref' Rr,
    Rn.com, d1, d2, d3, d4]
  ring

include hr Rr Rn in
theorem rescaled_dHatN (k l : ℕ) (hk : k < h) (hl : l < w) : (dHatN ref' new').px k l = (p : ℂ) * (dHatN ref new).px k l := by
  obtain ⟨d1, d2, d3, d4⟩ := rescaled_dims ref ref' h w hr p Rr
  rw [dHatN_px, dHatN_px, Rr.hat k (by change k < ref.h; omega) l (by change l < ref.w; omega), rescaled_interpedHat q new new' Rn,
    Rr.com, d1, d2, d3, d4]
  ring

include hr hn hp Rr Rn in
theorem rescaled_normHat (s : ℝ) (k l : ℕ) (hk : k < h) (hl : l < w) :
    normHat ref' new' s k l = ((p ^ 2 : ℝ) : ℂ) * normHat ref new (s * q / p) k l := by
  obtain ⟨d1, d2, d3, d4⟩ := rescaled_dims ref ref' h w hr p Rr
  obtain ⟨n1, n2, n3, n4⟩ := rescaled_dims new new' h w hn q Rn
  have p0 : (p : ℂ) ≠ 0 := by exact_mod_cast hp.ne'
  unfold normHat
  rw [Rr.var, Rn.var, Rr.hat k (by change k < ref.h; omega) l (by change l < ref.w; omega),
    Rn.hat k (by change k < new.h; omega) l (by change l < new.w; omega), map_mul, map_mul, Complex.conj_ofReal, Complex.conj_ofReal]
  push_cast
  field_simp

include hr hn hp Rr Rn in
theorem rescaled_csqrt (s : ℝ) (k l : ℕ) (hk : k < h) (hl : l < w) :
    csqrt (normHat ref' new' s k l) = (p : ℂ) * csqrt (normHat ref new (s * q / p) k l) := by
  rw [rescaled_normHat ref ref' new new' h w hr hn p q hp Rr Rn s k l hk hl, csqrt_scale p hp.ne', abs_of_pos hp]

include hr hn hp Rr Rn in
theorem rescaled_dHat (s dx dy : ℝ) (k l : ℕ) (hk : k < h) (hl : l < w) :
    (dHat ref' new' s dx dy).px k l = (dHat ref new (s * q / p) dx dy).px k l := by
  obtain ⟨d1, d2, d3, d4⟩ := rescaled_dims ref ref' h w hr p Rr
  obtain ⟨n1, n2, n3, n4⟩ := rescaled_dims new new' h w hn q Rn
  have p0 : (p : ℂ) ≠ 0 := by exact_mod_cast hp.ne'
  rw [dHat_px ref' new' (by omega) (by omega), dHat_px ref new (by omega) (by omega)]
  simp only []
  rw [rescaled_csqrt ref ref' new new' h w hr hn p q hp Rr Rn s k l hk hl,
    rescaled_dHatR ref ref' new new' h w hn p q Rr Rn k l hk hl, rescaled_dHatN ref ref' new new' h w hr p q Rr Rn k l hk hl,
    d1, d2, d3, d4]
  generalize csqrt (normHat ref new (s * q / p) k l) = c
  rcases eq_or_ne c 0 with rfl | hc
  · simp
  · push_cast
    field_simp

/-- The factor by which P changes. -/
noncomputable def psfGain (ref new : SubImg) (p q s : ℝ) : ℝ := p * dZp ref new (s * q / p) / dZp ref new s

theorem dZp_pos (hv : 0 < ref.var ∨ 0 < new.var) (s : ℝ) (hs : 0 < s) : 0 < dZp ref new s := by
  unfold dZp
  refine div_pos hs (Real.sqrt_pos.2 ?_)
  rcases hv with hv | hv
  · have := mul_pos (pow_pos hv 2) (pow_pos hs 2)
    nlinarith [sq_nonneg new.var]
  · have := pow_pos hv 2
    nlinarith [mul_nonneg (sq_nonneg ref.var) (sq_nonneg s)]

include Rr Rn in
theorem rescaled_dZp (s : ℝ) : dZp ref' new' s = dZp ref new s := by
  unfold dZp
  rw [Rr.var, Rn.var]

include hr hn hp hq Rr Rn in
theorem rescaled_pHat (hv : 0 < ref.var ∨ 0 < new.var) (s : ℝ) (hs : 0 < s) (k l : ℕ) (hk : k < h) (hl : l < w) :
    (pHat ref' new' s).px k l = (psfGain ref new p q s : ℂ) * (pHat ref new (s * q / p)).px k l := by
  obtain ⟨d1, d2, d3, d4⟩ := rescaled_dims ref ref' h w hr p Rr
  obtain ⟨n1, n2, n3, n4⟩ := rescaled_dims new new' h w hn q Rn
  have p0 : (p : ℂ) ≠ 0 := by exact_mod_cast hp.ne'
  have z1 : (dZp ref new s : ℂ) ≠ 0 := by exact_mod_cast (dZp_pos ref new hv s hs).ne'
  have z2 : (dZp ref new (s * q / p) : ℂ) ≠ 0 := by exact_mod_cast (dZp_pos ref new hv _ (by positivity)).ne'
  change ref'.psfHat.px k l * new'.psfHat.px k l * _ / (csqrt _ * (dZp ref' new' s : ℂ)) =
    _ * (ref.psfHat.px k l * new.psfHat.px k l * _ / (csqrt _ * (dZp ref new (s * q / p) : ℂ)))
  rw [rescaled_csqrt ref ref' new new' h w hr hn p q hp Rr Rn s k l hk hl, rescaled_dZp ref ref' new new' p q Rr Rn,
    Rr.hat k (by change k < ref.h; omega) l (by change l < ref.w; omega),
    Rn.hat k (by change k < new.h; omega) l (by change l < new.w; omega)]
  unfold psfGain
  push_cast
  generalize csqrt (normHat ref new (s * q / p) k l) = c
  rcases eq_or_ne c 0 with rfl | hc
  · simp
  · field_simp

include hr hn hp hq Rr Rn in
theorem rescaled_subP (hv : 0 < ref.var ∨ 0 < new.var) (s : ℝ) (hs : 0 < s) (i j : ℕ) :
    (subP ref' new' s).px i j = psfGain ref new p q s * (subP ref new (s * q / p)).px i j := by
  obtain ⟨d1, d2, d3, d4⟩ := rescaled_dims ref ref' h w hr p Rr
  have u := ifftOrtho_ext (pHat ref' new' s) ⟨ref.h, ref.w, fun k l => (psfGain ref new p q s : ℂ) * (pHat ref new (s * q / p)).px k l⟩
    (d3.trans d1.symm) (d4.trans d2.symm) (fun k hk l hl => by
      change k < ref'.h at hk
      change l < ref'.w at hl
      exact rescaled_pHat ref ref' new new' h w hr hn p q hp hq Rr Rn hv s hs k l (by omega) (by omega))
  change ((ifftOrtho (pHat ref' new' s)).px i j).re = _ * ((ifftOrtho (pHat ref new (s * q / p))).px i j).re
  rw [u, ifftOrtho_const_mul, Complex.re_ofReal_mul]
  rfl

/-- The search for the brightest pixel does not depend on the unit. -/
def UnitFree (peak : Img ℝ → ℕ × ℕ) : Prop := ∀ (P P' : Img ℝ) (c : ℝ), 0 < c → P'.Same (P.map fun x => c * x) → peak P' = peak P

theorem psfGain_pos (hp : 0 < p) (hq : 0 < q) (hv : 0 < ref.var ∨ 0 < new.var) (s : ℝ) (hs : 0 < s) : 0 < psfGain ref new p q s := by
  unfold psfGain
  have h1 := dZp_pos ref new hv s hs
  have h2 := dZp_pos ref new hv (s * q / p) (by positivity)
  positivity

theorem centerOfMass_same (P P' : Img ℝ) (e : P'.Same P) : centerOfMass P' = centerOfMass P := by
  obtain ⟨e1, e2, e3⟩ := e
  have r : ∀ f : ℕ → ℕ → ℝ, rsum ⟨P'.h, P'.w, fun i j => f i j * P'.px i j⟩ = rsum ⟨P.h, P.w, fun i j => f i j * P.px i j⟩ := by
    intro f
    unfold rsum
    simp only [e1, e2]
    refine Finset.sum_congr rfl fun i hi => Finset.sum_congr rfl fun j hj => ?_
    rw [e3 i (by rw [e1]; exact mem_range.1 hi) j (by rw [e2]; exact mem_range.1 hj)]
  have r1 := r fun _ _ => 1
  simp only [one_mul] at r1
  unfold centerOfMass
  rw [r fun i _ => (i : ℝ), r fun _ j => (j : ℝ)]
  change (_ / rsum ⟨P'.h, P'.w, P'.px⟩, _ / rsum ⟨P'.h, P'.w, P'.px⟩) = (_ / rsum ⟨P.h, P.w, P.px⟩, _ / rsum ⟨P.h, P.w, P.px⟩)
  rw [r1]

theorem subCenter_times (peak : Img ℝ → ℕ × ℕ) (hk : UnitFree peak) (P P' : Img ℝ) (c : ℝ) (hc : 0 < c)
    (e : P'.Same (P.map fun x => c * x)) : subCenter peak P' = subCenter peak P := by
  unfold subCenter
  rw [hk P P' c hc e, centerOfMass_same _ _ e, centerOfMass_times P c hc.ne']

include hr hn hp hq Rr Rn in
theorem rescaled_sHat (peak : Img ℝ → ℕ × ℕ) (hk' : UnitFree peak) (hv : 0 < ref.var ∨ 0 < new.var) (s dx dy : ℝ) (hs : 0 < s)
    (k l : ℕ) (hk : k < h) (hl : l < w) :
    (sHat peak ref' new' s dx dy).px k l = (p : ℂ) * (sHat peak ref new (s * q / p) dx dy).px k l := by
  obtain ⟨d1, d2, d3, d4⟩ := rescaled_dims ref ref' h w hr p Rr
  have z1 : (dZp ref new s : ℂ) ≠ 0 := by exact_mod_cast (dZp_pos ref new hv s hs).ne'
  rw [sHat_px, sHat_px, rescaled_dHat ref ref' new new' h w hr hn p q hp Rr Rn s dx dy k l hk hl,
    rescaled_pHat ref ref' new new' h w hr hn p q hp hq Rr Rn hv s hs k l hk hl, rescaled_dZp ref ref' new new' p q Rr Rn,
    subCenter_times peak hk' (subP ref new (s * q / p)) (subP ref' new' s) (psfGain ref new p q s)
      (psfGain_pos ref new p q hp hq hv s hs) ⟨d3.trans d1.symm, d4.trans d2.symm, fun i _ j _ =>
        rescaled_subP ref ref' new new' h w hr hn p q hp hq Rr Rn hv s hs i j⟩, d1, d2, d3, d4, map_mul, Complex.conj_ofReal]
  unfold psfGain
  push_cast
  field_simp

include hr hn hp hq Rr Rn in
theorem rescaled_kernels (z s : ℝ) : subKr ref' new' z s = subKr ref new (q * z) (s * q / p) ∧
    subKn ref' new' z s = subKn ref new (q * z) (s * q / p) := by
  obtain ⟨d1, d2, d3, d4⟩ := rescaled_dims ref ref' h w hr p Rr
  obtain ⟨n1, n2, n3, n4⟩ := rescaled_dims new new' h w hn q Rn
  have p0 : (p : ℂ) ≠ 0 := by exact_mod_cast hp.ne'
  have q0 : (q : ℂ) ≠ 0 := by exact_mod_cast hq.ne'
  constructor
  · refine ifftOrtho_ext _ _ (d3.trans d1.symm) (d4.trans d2.symm) fun k hk l hl => ?_
    change k < ref'.h at hk
    change l < ref'.w at hl
    change _ / normHat ref' new' s k l = _ / normHat ref new (s * q / p) k l
    rw [rescaled_normHat ref ref' new new' h w hr hn p q hp Rr Rn s k l (by omega) (by omega),
      Rr.hat k (by change k < ref.h; omega) l (by change l < ref.w; omega),
      Rn.hat k (by change k < new.h; omega) l (by change l < new.w; omega), map_mul, map_mul, Complex.conj_ofReal, Complex.conj_ofReal]
    generalize normHat ref new (s * q / p) k l = c
    rcases eq_or_ne c 0 with rfl | hc
    · simp
    · push_cast
      field_simp
  · refine ifftOrtho_ext _ _ (d3.trans d1.symm) (d4.trans d2.symm) fun k hk l hl => ?_
    change k < ref'.h at hk
    change l < ref'.w at hl
    change _ / normHat ref' new' s k l = _ / normHat ref new (s * q / p) k l
    rw [rescaled_normHat ref ref' new new' h w hr hn p q hp Rr Rn s k l (by omega) (by omega),
      Rr.hat k (by change k < ref.h; omega) l (by change l < ref.w; omega),
      Rn.hat k (by change k < new.h; omega) l (by change l < new.w; omega), map_mul, map_mul, Complex.conj_ofReal, Complex.conj_ofReal]
    generalize normHat ref new (s * q / p) k l = c
    rcases eq_or_ne c 0 with rfl | hc
    · simp
    · push_cast
      field_simp

/-- What the two results have in common. -/
structure ScaledOut (out out' : SubOut) (g p : ℝ) : Prop where
  D : out'.D = out.D
  mask : out'.mask = out.mask
  P : ∀ i j, out'.P.px i j = g * out.P.px i j
  S : ∀ i j, out'.S.px i j = p * out.S.px i j

include hr hn hp hq Rr Rn in
theorem rescaled_out (env env' : SubEnv) (hpk : env'.peak = env.peak) (hk : UnitFree env.peak) (hv : 0 < ref.var ∨ 0 < new.var)
    (z s dx dy : ℝ) (hs : 0 < s) (m : NMask) :
    ScaledOut (outShift env' ref new (q * z) (s * q / p) dx dy m) (outShift env ref' new' z s dx dy m) (psfGain ref new p q s) p := by
  obtain ⟨d1, d2, d3, d4⟩ := rescaled_dims ref ref' h w hr p Rr
  refine ⟨?_, rfl, fun i j => rescaled_subP ref ref' new new' h w hr hn p q hp hq Rr Rn hv s hs i j, fun i j => ?_⟩
  · refine ifftOrtho_ext _ _ (d3.trans d1.symm) (d4.trans d2.symm) fun k hk l hl => ?_
    change k < ref'.h at hk
    change l < ref'.w at hl
    exact rescaled_dHat ref ref' new new' h w hr hn p q hp Rr Rn s dx dy k l (by omega) (by omega)
  · obtain ⟨k1, k2⟩ := rescaled_kernels ref ref' new new' h w hr hn p q hp hq Rr Rn z s
    rw [outShift_S, outShift_S]
    unfold scoreNum noiseNew noiseRef
    rw [k1, k2, Rr.filled, Rn.filled, hpk, ifftOrtho_ext (sHat env.peak ref' new' s dx dy)
      ⟨ref.h, ref.w, fun k l => (p : ℂ) * (sHat env.peak ref new (s * q / p) dx dy).px k l⟩ (d3.trans d1.symm) (d4.trans d2.symm)
      (fun k hk' l hl => by
        change k < ref'.h at hk'
        change l < ref'.w at hl
        exact rescaled_sHat ref ref' new new' h w hr hn p q hp hq Rr Rn env.peak hk hv s dx dy hs k l (by omega) (by omega)),
      ifftOrtho_const_mul, mul_div_assoc, Complex.re_ofReal_mul]
    rfl

include hr hn hp hq Rr Rn in
/-- **C132 (zero points).** Without a fit, PSFs multiplied by `p` and `q` give what the zero points multiplied by `p` and `q` give:
the same D and mask; P is multiplied by a constant and S by `p`. -/
theorem subtract_psf_scale (env : SubEnv) (it : Bool) (zr zn : ℝ) (hz : env.zps = .ok (zr, zn)) (hzr : 0 < zr) (hzn : 0 < zn)
    (hk : UnitFree env.peak) (hv : 0 < ref.var ∨ 0 < new.var) :
    (∃ er, subtract { env with zps := .ok (p * zr, q * zn) } ⟨false, false, it⟩ ref new = .error er ∧
      subtract env ⟨false, false, it⟩ ref' new' = .error er) ∨
    ∃ out out', subtract { env with zps := .ok (p * zr, q * zn) } ⟨false, false, it⟩ ref new = .ok out ∧
      subtract env ⟨false, false, it⟩ ref' new' = .ok out' ∧ ScaledOut out out' (psfGain ref new p q (zn / zr)) p := by
  have hb : q * zn / (p * zr) = zn / zr * q / p := by field_simp
  unfold subtract
  rw [Rr.interped, Rn.interped, Rr.mask, Rn.mask, Rn.com]
  by_cases h1 : new.interped.shape ≠ ref.interped.shape
  · rw [if_pos h1, if_pos h1]
    exact Or.inl ⟨_, rfl, rfl⟩
  rw [if_neg h1, if_neg h1]
  rcases new.mask.maskOr ref.mask with er | m
  · exact Or.inl ⟨er, rfl, rfl⟩
  rw [hz]
  change (∃ er, (if env.fitted = false ∧ ((centerOfMass new.psf).1 < 0 ∨ (centerOfMass new.psf).2 < 0) then _
        else Except.ok (outShift _ ref new (q * zn) (q * zn / (p * zr)) 0 0 m)) = Except.error er ∧
      (if env.fitted = false ∧ ((centerOfMass new.psf).1 < 0 ∨ (centerOfMass new.psf).2 < 0) then _ else
        Except.ok (outShift env ref' new' zn (zn / zr) 0 0 m)) = Except.error er) ∨
    ∃ out out', (if env.fitted = false ∧ ((centerOfMass new.psf).1 < 0 ∨ (centerOfMass new.psf).2 < 0) then _
        else Except.ok (outShift _ ref new (q * zn) (q * zn / (p * zr)) 0 0 m)) = Except.ok out ∧
      (if env.fitted = false ∧ ((centerOfMass new.psf).1 < 0 ∨ (centerOfMass new.psf).2 < 0) then _ else
        Except.ok (outShift env ref' new' zn (zn / zr) 0 0 m)) = Except.ok out' ∧ _
  by_cases h3 : env.fitted = false ∧ ((centerOfMass new.psf).1 < 0 ∨ (centerOfMass new.psf).2 < 0)
  · rw [if_pos h3, if_pos h3]
    exact Or.inl ⟨_, rfl, rfl⟩
  rw [if_neg h3, if_neg h3, hb]
  exact Or.inr ⟨_, _, rfl, rfl, rescaled_out ref ref' new new' h w hr hn p q hp hq Rr Rn env _ rfl hk hv zn (zn / zr) 0 0
    (by positivity) m⟩

end

section
variable (ref ref' new new' : SubImg) (h w : ℕ) (hr : ref.interped.shape = (h, w)) (hn : new.interped.shape = (h, w))
    (p : ℝ) (hp : 0 < p) (Rr : Rescaled ref ref' p) (Rn : Rescaled new new' p)

include hr hn hp Rr Rn in
theorem rescaled_quotients (s : ℝ) (k l : ℕ) (hk : k < h) (hl : l < w) :
    (dHatN ref' new').px k l / csqrt (normHat ref' new' s k l) = (dHatN ref new).px k l / csqrt (normHat ref new s k l) ∧
    (dHatR ref' new').px k l / csqrt (normHat ref' new' s k l) = (dHatR ref new).px k l / csqrt (normHat ref new s k l) := by
  have p0 : (p : ℂ) ≠ 0 := by exact_mod_cast hp.ne'
  rw [rescaled_csqrt ref ref' new new' h w hr hn p p hp Rr Rn s k l hk hl, mul_div_cancel_right₀ _ hp.ne',
    rescaled_dHatR ref ref' new new' h w hn p p Rr Rn k l hk hl, rescaled_dHatN ref ref' new new' h w hr p p Rr Rn k l hk hl,
    mul_div_mul_left _ _ p0, mul_div_mul_left _ _ p0]
  exact ⟨rfl, rfl⟩

include hr hn hp Rr Rn in
theorem rescaled_costs (gamma : Img ℝ) (m : NMask) : scaleCost gamma m ref' new' = scaleCost gamma m ref new ∧
    ∀ s dx dy, shiftResidual gamma ref' new' s dx dy = shiftResidual gamma ref new s dx dy := by
  obtain ⟨d1, d2, d3, d4⟩ := rescaled_dims ref ref' h w hr p Rr
  have eg : ∀ s, gammaP gamma ref' new' s = gammaP gamma ref new s := by
    intro s
    unfold gammaP
    rw [Rr.var, Rn.var]
  have e := rescaled_quotients ref ref' new new' h w hr hn p hp Rr Rn
  constructor
  · funext s
    rw [scaleCost_eq, scaleCost_eq, eg,
      ifftOrtho_mk_congr ref.h ref.w ref'.h ref'.w (by omega) (by omega) (fun k l => (dHatN ref' new').px k l / _) _
        (fun k hk l hl => (e s k l (by omega) (by omega)).1),
      ifftOrtho_mk_congr ref.h ref.w ref'.h ref'.w (by omega) (by omega) (fun k l => (dHatR ref' new').px k l / _) _
        (fun k hk l hl => (e s k l (by omega) (by omega)).2), d3, d4, d1, d2]
  · intro s dx dy
    rw [shiftResidual_eq, shiftResidual_eq, eg,
      ifftOrtho_mk_congr ref.h ref.w ref'.h ref'.w (by omega) (by omega) (fun k l => (dHatN ref' new').px k l / _) _
        (fun k hk l hl => (e s k l (by omega) (by omega)).1),
      ifftOrtho_shift_congr ref.h ref.w ref'.h ref'.w (by omega) (by omega) (fun k l => (dHatR ref' new').px k l / _) _ _
        (fun k hk l hl => (e s k l (by omega) (by omega)).2), d3, d4, d1, d2]

include hr hn hp Rr Rn in
/-- **C132 (common factor).** A common factor of the two PSFs changes, for all switches, nothing but P, which it multiplies, as
long as the fitted scale is positive. -/
theorem subtract_psf_common (env : SubEnv) (o : SubOpts) (h0 : h ≠ 0) (w0 : w ≠ 0) (hfr : ref.filled.shape = (h, w))
    (hfn : new.filled.shape = (h, w)) (hk : UnitFree env.peak) (hv : 0 < ref.var ∨ 0 < new.var)
    (hpos : ∀ m z1 z s dx dy, env.zps = .ok (z1, z) → scaleShift env.opt o env.gamma m ref new z1 z = .ok (s, dx, dy) → 0 < s) :
    (∃ er, subtract env o ref new = .error er ∧ subtract env o ref' new' = .error er) ∨
    ∃ out out', subtract env o ref new = .ok out ∧ subtract env o ref' new' = .ok out' ∧ out'.D = out.D ∧ out'.mask = out.mask ∧
      (∀ i j, out'.P.px i j = p * out.P.px i j) ∧ ∀ i j, out'.S.px i j = out.S.px i j := by
  rcases subtract_pair_all env o ref new ref' new' (by rw [Rr.interped, Rn.interped]) Rr.mask Rn.mask (congrArg Img.h Rr.interped) (congrArg Img.w Rr.interped) (by rw [Rn.com])
    (fun m => (rescaled_costs ref ref' new new' h w hr hn p hp Rr Rn env.gamma m).1)
    (fun m s dx dy => by rw [(rescaled_costs ref ref' new new' h w hr hn p hp Rr Rn env.gamma m).2]) with q | q
  · exact Or.inl q
  · obtain ⟨m, z1, z, s, dx, dy, q1, q2, q3, q4⟩ := q
    have hs := hpos m z1 z s dx dy q1 q2
    have hss : s * p / p = s := mul_div_cancel_right₀ _ hp.ne'
    have r := rescaled_out ref ref' new new' h w hr hn p p hp hp Rr Rn env env rfl hk hv z s dx dy hs m
    rw [hss] at r
    have g : psfGain ref new p p s = p := by
      unfold psfGain
      rw [hss, mul_div_cancel_right₀ _ (dZp_pos ref new hv s hs).ne']
    refine Or.inr ⟨_, _, q3, q4, r.D, r.mask, fun i j => by rw [r.P, g]; rfl, fun i j => ?_⟩
    obtain ⟨d1, d2, d3, d4⟩ := rescaled_dims ref ref' h w hr p Rr
    have v1 := score_var_total ref new (by rw [hfr, d1, d2]) (by rw [hfn, d1, d2]) (by omega) (by omega) (p * z) s hs.ne' i j
    have v2 := score_var_total ref new (by rw [hfr, d1, d2]) (by rw [hfn, d1, d2]) (by omega) (by omega) z s hs.ne' i j
    have e3 : p * z / s = p * (z / s) := by ring
    rw [r.S, outShift_S, outShift_S]
    unfold noiseNew noiseRef
    rw [v1, v2, e3, mul_pow, ofReal_mul, mul_assoc, csqrt_scale p hp.ne', mul_comm ((|p| : ℝ) : ℂ), ← div_div, div_ofReal_re,
      abs_of_pos hp, mul_div_cancel₀ _ hp.ne']

end

/-! ## Worked instance -/

theorem tiny_unitFree (zr zn : ℝ) : UnitFree (tinyEnv zr zn).peak := fun _ _ _ _ _ => rfl

theorem point_dHat_scale (u v : ℕ → ℝ) (b : ℝ) (k l : ℕ) (hk : k < 1) (hl : l < 3) :
    (dHat (pointSub u) (pointSub v) b 0 0).px k l =
      ((1 / Real.sqrt (1 + b ^ 2) : ℝ) : ℂ) * ((pointSub v).interpedHat.px k l - b * (pointSub u).interpedHat.px k l) := by
  have p3 : (Real.sqrt 3 : ℂ) ≠ 0 := by exact_mod_cast (Real.sqrt_pos.2 (by norm_num : (0 : ℝ) < 3)).ne'
  have pb : (Real.sqrt (1 + b ^ 2) : ℂ) ≠ 0 := by exact_mod_cast (Real.sqrt_pos.2 (by positivity : (0 : ℝ) < 1 + b ^ 2)).ne'
  have ns : Complex.normSq (1 / (Real.sqrt 3 : ℂ)) = 1 / 3 := by
    rw [Complex.normSq_div, Complex.normSq_one, Complex.normSq_ofReal, Real.mul_self_sqrt (by norm_num)]
  have hn : csqrt (normHat (pointSub u) (pointSub v) b k l) = (Real.sqrt (1 + b ^ 2) : ℂ) / (Real.sqrt 3 : ℂ) := by
    rw [csqrt_normHat]
    unfold normReal
    rw [point_psfHat u k l hk hl, point_psfHat v k l hk hl, ns, ← Complex.ofReal_div, ← Real.sqrt_div (by positivity)]
    congr 2
    change (1 : ℝ) ^ 2 * (1 / 3) + b ^ 2 * (1 : ℝ) ^ 2 * (1 / 3) = _
    ring
  rw [dHat_px (pointSub u) (pointSub v) rfl rfl]
  simp only []
  rw [hn, dHatN_px, dHatR_px, point_com, point_com, shiftPhase_no_shift, shiftPhase_no_shift, point_psfHat u k l hk hl,
    point_psfHat v k l hk hl]
  generalize (pointSub v).interpedHat.px k l = A
  generalize (pointSub u).interpedHat.px k l = B
  push_cast at pb ⊢
  field_simp
  ring

/-- Two identical 1×3 images with unit noise and a PSF of one pixel, subtracted with equal zero points: if the PSF of the second
is given with twice the normalisation, the images do not cancel. -/
theorem twice_normalised (u : ℕ → ℝ) : ∃ out out',
    subtract (tinyEnv 1 1) ⟨false, false, true⟩ (pointSub u) (pointSub u) = .ok out ∧
    subtract (tinyEnv 1 1) ⟨false, false, true⟩ (pointSub u) ((pointSub u).psfTimes 2) = .ok out' ∧
    ∀ j < 3, out.D.px 0 j = 0 ∧ out'.D.px 0 j = ((-(u j) / Real.sqrt 5 : ℝ) : ℂ) := by
  have R1 : Rescaled (pointSub u) (pointSub u) 1 := ⟨rfl, rfl, rfl, rfl, fun k _ l _ => by simp, rfl⟩
  have R2 : Rescaled (pointSub u) ((pointSub u).psfTimes 2) 2 := rescaled_times (pointSub u) 2 (by norm_num) point_idle
  obtain ⟨out, e, hD, _⟩ := subtract_self_zero (tinyEnv 1 1) true (pointSub u) (pointSub u) 1 3 rfl rfl rfl
    (by intro a h; cases h) (by intro a h; cases h) 1 (by norm_num) rfl (Or.inl rfl)
  obtain ⟨o, eo, oD, _⟩ := subtract_returns { tinyEnv 1 1 with zps := .ok (1 * 1, 2 * 1) } true (pointSub u) (pointSub u) 1 3 rfl rfl
    (by intro a h; cases h) (by intro a h; cases h) (1 * 1, 2 * 1) rfl (Or.inl rfl)
  rcases subtract_psf_scale (pointSub u) (pointSub u) (pointSub u) ((pointSub u).psfTimes 2) 1 3 rfl rfl 1 2 (by norm_num)
    (by norm_num) R1 R2 (tinyEnv 1 1) true 1 1 rfl (by norm_num) (by norm_num) (tiny_unitFree 1 1)
    (Or.inl (by change (0 : ℝ) < 1; norm_num)) with q | q
  · obtain ⟨er, q1, _⟩ := q
    rw [eo] at q1
    cases q1
  · obtain ⟨o', out', q1, q2, q3⟩ := q
    rw [eo] at q1
    cases q1
    refine ⟨out, out', e, q2, fun j hj => ⟨hD 0 j, ?_⟩⟩
    have b2 : ((1 : ℝ) * 1, (2 : ℝ) * 1).2 / ((1 : ℝ) * 1, (2 : ℝ) * 1).1 = 2 := by norm_num
    rw [q3.D, oD, b2, ifftOrtho_ext (dHat (pointSub u) (pointSub u) 2 0 0) ⟨1, 3, fun k l => ((-(1 / Real.sqrt 5) : ℝ) : ℂ) *
      (pointSub u).interpedHat.px k l⟩ rfl rfl (fun k hk l hl => by
        rw [point_dHat_scale u u 2 k l hk hl]
        norm_num
        ring), ifftOrtho_const_mul]
    have z := ifftOrtho_fftOrtho (toC (pointSub u).interped) 0 j (show 0 < 1 by norm_num) hj
    change _ * (ifftOrtho (fftOrtho (toC (pointSub u).interped))).px 0 j = _
    rw [z]
    change _ * ((u j : ℝ) : ℂ) = _
    rw [← Complex.ofReal_mul]
    congr 1
    ring

end PI
