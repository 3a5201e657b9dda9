import Verif.Base.DFT

/-!
# Model of `operations.subtract` (properimage/operations.py:143-426)

From the point where both arguments are image objects (conversion and alignment, lines 104-141, are
not part of this file). Arithmetic is exact; `x / 0 = 0` stands for numpy's nan/inf and statements
carry hypotheses excluding it. The optimisers, the backgrounds and `transparency` are parameters.
-/

namespace PI

open Complex

/-- What `subtract` reads of an image object: interpolated pixels (whose shape is that of
`data`), mask, `data.filled(0)`, the PSF image used (`p_r` / `p_n`: a full-size Gaussian rendering
or the first KL stamp), and `var`. -/
structure SubImg where
  interped : Img ℝ
  mask : NMask
  filled : Img ℝ
  psf : Img ℝ
  var : ℝ

/-- Shape of `data`. -/
def SubImg.h (d : SubImg) : ℕ := d.interped.h
/-- Shape of `data`. -/
def SubImg.w (d : SubImg) : ℕ := d.interped.w

/-- Total of a real image. -/
noncomputable def rsum (a : Img ℝ) : ℝ := ∑ i ∈ Finset.range a.h, ∑ j ∈ Finset.range a.w, a.px i j

/-- `scipy.ndimage.center_of_mass(a)` (operations.py:177-178, 184-185, 389). -/
noncomputable def centerOfMass (a : Img ℝ) : ℝ × ℝ :=
  (rsum ⟨a.h, a.w, fun i j => i * a.px i j⟩ / rsum a, rsum ⟨a.h, a.w, fun i j => j * a.px i j⟩ / rsum a)

/-- Real array used as complex. -/
noncomputable def toC (a : Img ℝ) : Img ℂ := a.map fun x : ℝ => (x : ℂ)

/-- `eps = np.finfo(np.float64).eps` (operations.py:52). -/
noncomputable def epsR : ℝ := (1 / 2) ^ 52

/-- operations.py:191-192: coefficients with zero real part are replaced by `eps`. -/
noncomputable def guardHat (z : ℂ) : ℂ := if z.re = 0 then (epsR : ℂ) else z

/-- `psf_ref_hat` / `psf_new_hat` after the guard (operations.py:188-192). -/
noncomputable def SubImg.psfHat (d : SubImg) : Img ℂ :=
  (fftOrtho (padTo d.h d.w (toC d.psf))).map guardHat

/-- `interped_hat`. -/
noncomputable def SubImg.interpedHat (d : SubImg) : Img ℂ := fftOrtho (toC d.interped)

/-- `-com` -/
noncomputable def negPair (c : ℝ × ℝ) : ℝ × ℝ := (-c.1, -c.2)

/-- `D_hat_r` (operations.py:197): reference image times the *new* image's PSF, recentred by it. -/
noncomputable def dHatR (ref new : SubImg) : Img ℂ :=
  fourierShift (new.psfHat.zip (· * ·) ref.interpedHat) (negPair (centerOfMass new.psf))

/-- `D_hat_n` (operations.py:198). -/
noncomputable def dHatN (ref new : SubImg) : Img ℂ :=
  fourierShift (ref.psfHat.zip (· * ·) new.interpedHat) (negPair (centerOfMass ref.psf))

/-- `norm = norm_a + norm_b * b**2` (operations.py:200-201, 366). -/
noncomputable def normHat (ref new : SubImg) (b : ℝ) (k l : ℕ) : ℂ :=
  (new.var : ℂ) ^ 2 * ref.psfHat.px k l * (starRingEnd ℂ) (ref.psfHat.px k l) +
    (ref.var : ℂ) ^ 2 * new.psfHat.px k l * (starRingEnd ℂ) (new.psfHat.px k l) * (b : ℂ) ^ 2

/-- `D_hat` (operations.py:368-373); a zero shift is not applied. -/
noncomputable def dHat (ref new : SubImg) (b dx dy : ℝ) : Img ℂ :=
  let shifted : Img ℂ := if dx = 0 ∧ dy = 0 then (dHatR ref new).map (fun z => (b : ℂ) * z)
    else fourierShift ((dHatR ref new).map fun z => (b : ℂ) * z) (dx, dy)
  ⟨ref.h, ref.w, fun k l =>
    ((dHatN ref new).px k l - shifted.px k l) / csqrt (normHat ref new b k l)⟩

/-- `d_zp` (operations.py:379). -/
noncomputable def dZp (ref new : SubImg) (b : ℝ) : ℝ :=
  b / Real.sqrt (ref.var ^ 2 * b ^ 2 + new.var ^ 2)

/-- `P_hat` (operations.py:380). -/
noncomputable def pHat (ref new : SubImg) (b : ℝ) : Img ℂ :=
  ⟨ref.h, ref.w, fun k l => (ref.psfHat.px k l * new.psfHat.px k l * b) /
    (csqrt (normHat ref new b k l) * dZp ref new b)⟩

/-- `P` (operations.py:382). -/
noncomputable def subP (ref new : SubImg) (b : ℝ) : Img ℝ := (ifftOrtho (pHat ref new b)).map re

/-- `kr` (operations.py:397-400). -/
noncomputable def subKr (ref new : SubImg) (zpNew b : ℝ) : Img ℂ :=
  ifftOrtho ⟨ref.h, ref.w, fun k l =>
    (zpNew : ℂ) * (starRingEnd ℂ) (ref.psfHat.px k l) * b * new.psfHat.px k l *
      (starRingEnd ℂ) (new.psfHat.px k l) / normHat ref new b k l⟩

/-- `kn` (operations.py:402-405). -/
noncomputable def subKn (ref new : SubImg) (zpNew b : ℝ) : Img ℂ :=
  ifftOrtho ⟨ref.h, ref.w, fun k l =>
    (zpNew : ℂ) * (starRingEnd ℂ) (new.psfHat.px k l) * ref.psfHat.px k l *
      (starRingEnd ℂ) (ref.psfHat.px k l) / normHat ref new b k l⟩

/-- `V_en` / `V_er` (operations.py:407-417): note the second transform is not orthonormal. -/
noncomputable def subV (filled : Img ℝ) (kern : Img ℂ) : Img ℂ :=
  ifftOrtho ((fftOrtho (filled.map fun x => ((x + 1 : ℝ) : ℂ))).zip (· * ·)
    (dft (kern.map fun z => z ^ 2)))

/-- The centre `(dx_p, dy_p)` used for S (operations.py:384-391). `peak` is the first maximum. -/
noncomputable def subCenter (peak : Img ℝ → ℕ × ℕ) (P : Img ℝ) : ℝ × ℝ :=
  let c := centerOfMass P
  let k := peak P
  if 30 < |c.1 - k.1| ∨ 30 < |c.2 - k.2| then ((k.1 : ℝ), (k.2 : ℝ)) else c

/-- `S_hat` (operations.py:393). -/
noncomputable def sHat (peak : Img ℝ → ℕ × ℕ) (ref new : SubImg) (b dx dy : ℝ) : Img ℂ :=
  fourierShift ((dHat ref new b dx dy).zip
      (fun d p => (dZp ref new b : ℂ) * d * (starRingEnd ℂ) p) (pHat ref new b))
    (subCenter peak (subP ref new b))

/-- `S_corr` (operations.py:419). -/
noncomputable def sCorr (peak : Img ℝ → ℕ × ℕ) (ref new : SubImg) (zpNew b dx dy : ℝ) : Img ℂ :=
  (ifftOrtho (sHat peak ref new b dx dy)).zip (fun s v => s / csqrt v)
    ((subV new.filled (subKn ref new zpNew b)).zip (· + ·)
      (subV ref.filled (subKr ref new zpNew b)))

/-! ## The fit of scale and shift -/

/-- scipy's optimisers: outcome flag and point. -/
structure Opt where
  lsq : (List ℝ → ℝ) → List ℝ → List ℝ → List ℝ → Bool × List ℝ
  scalar : (ℝ → ℝ) → ℝ → ℝ → Bool × ℝ

/-- `lo ≤ x ≤ hi` in every coordinate (scipy's feasibility test). -/
noncomputable def feasible (x lo hi : List ℝ) : Bool :=
  (List.zipWith (fun (v : ℝ) (p : ℝ × ℝ) => decide (p.1 ≤ v ∧ v ≤ p.2)) x (lo.zip hi)).all id

/-- `optimize.least_squares(cost, x0, bounds=(lo, hi))`: ValueError if `x0` is infeasible, or if the residual at `x0` is
not finite. The cost functions sum the unmasked pixels of a masked array; without any (`seen = false`) `np.sum` returns
`np.ma.masked`, which scipy takes for not finite. -/
noncomputable def leastSquares (opt : Opt) (cost : List ℝ → ℝ) (seen : Bool) (x0 lo hi : List ℝ) :
    Py (Bool × List ℝ) :=
  if feasible x0 lo hi && seen then .ok (opt.lsq cost x0 lo hi) else .error .ValueError

/-- `np.roll(a, (sx, sy))` without `axis`: the flattened array is rolled by `sx + sy`. -/
def rollFlat (a : Img ℝ) (sx sy : ℤ) : Img ℝ :=
  ⟨a.h, a.w, fun i j =>
    let p := (((i * a.w + j : ℕ) : ℤ) - (sx + sy)) % ((a.h * a.w : ℕ) : ℤ)
    a.px (p.toNat / a.w) (p.toNat % a.w)⟩

/-- `round` to the nearest integer, ties to even (python's `round`) on reals. -/
noncomputable def roundReal (x : ℝ) : ℤ :=
  let f := ⌊x⌋
  let r := x - f
  if r < 1 / 2 then f else if 1 / 2 < r then f + 1 else if f % 2 = 0 then f else f + 1

/-- `gammap` (operations.py:212, 247, 283, 315). -/
noncomputable def gammaP (gamma : Img ℝ) (ref new : SubImg) (b : ℝ) : Img ℝ :=
  gamma.map fun g => g / Real.sqrt (new.var ^ 2 + b ^ 2 * ref.var ^ 2)

/-- The residual image of the shift fits (operations.py:213-221, 319-331). -/
noncomputable def shiftResidual (gamma : Img ℝ) (ref new : SubImg) (b dx dy : ℝ) : Img ℝ :=
  let dhn := (dHatN ref new).px
  let dhr := (dHatR ref new).px
  let n := ifftOrtho ⟨ref.h, ref.w, fun k l => dhn k l / csqrt (normHat ref new b k l)⟩
  let r := ifftOrtho (fourierShift ⟨ref.h, ref.w, fun k l => dhr k l / csqrt (normHat ref new b k l)⟩
    (dx, dy))
  let g := rollFlat (gammaP gamma ref new b) (roundReal dx) (roundReal dy)
  ⟨ref.h, ref.w, fun i j => (n.px i j - r.px i j * b - (g.px i j : ℂ)).re⟩

/-- `OPT_BORDER` (operations.py:53). -/
def optBorder : ℕ := 100

/-- Sum of `|·|` over the unmasked pixels of `chi[100:-100, 100:-100]`, divided by the window's
number of pixels (operations.py:222-226, 332-334). -/
noncomputable def borderCost (mask : NMask) (r : Img ℝ) : ℝ :=
  (∑ i ∈ Finset.Ico optBorder (r.h - optBorder), ∑ j ∈ Finset.Ico optBorder (r.w - optBorder),
    if mask.marks i j then 0 else
      |r.px i j / (((r.h - optBorder - optBorder) * (r.w - optBorder - optBorder) : ℕ) : ℝ)|)

/-- Whether `chi[100:-100, 100:-100]` has an unmasked pixel; `chi / n` has a mask array even if `chi` has none, so that the
sum over an empty window is masked too. -/
def windowSeen (mask : NMask) (h w : ℕ) : Bool :=
  decide (∃ i ∈ Finset.Ico optBorder (h - optBorder), ∃ j ∈ Finset.Ico optBorder (w - optBorder), mask.marks i j = false)

/-- Whether the image has an unmasked pixel. -/
def imageSeen (mask : NMask) (h w : ℕ) : Bool :=
  decide (∃ i ∈ Finset.range h, ∃ j ∈ Finset.range w, mask.marks i j = false)

/-- The residual image and cost of the scale-only fits (operations.py:246-257, 282-291). -/
noncomputable def scaleCost (gamma : Img ℝ) (mask : NMask) (ref new : SubImg) (b : ℝ) : ℝ :=
  let dhn := (dHatN ref new).px
  let dhr := (dHatR ref new).px
  let n := ifftOrtho ⟨ref.h, ref.w, fun k l => dhn k l / csqrt (normHat ref new b k l)⟩
  let r := ifftOrtho ⟨ref.h, ref.w, fun k l => dhr k l / csqrt (normHat ref new b k l)⟩
  let g := gammaP gamma ref new b
  ∑ i ∈ Finset.range ref.h, ∑ j ∈ Finset.range ref.w,
    if mask.marks i j then 0 else |(n.px i j - (g.px i j : ℂ) - b * r.px i j).re|

/-- `cost` of the fit of scale and shift (operations.py:210-228). -/
noncomputable def costScaleShift (gamma : Img ℝ) (mask : NMask) (ref new : SubImg) : List ℝ → ℝ
  | [b, dx, dy] => borderCost mask (shiftResidual gamma ref new b dx dy)
  | _ => 0

/-- `F` of the least-squares fit of the scale (operations.py:282-291). -/
noncomputable def costScale (gamma : Img ℝ) (mask : NMask) (ref new : SubImg) : List ℝ → ℝ
  | [b] => scaleCost gamma mask ref new b
  | _ => 0

/-- `cost` of the fit of the shift (operations.py:320-335). -/
noncomputable def costShift (gamma : Img ℝ) (mask : NMask) (ref new : SubImg) (b : ℝ) : List ℝ → ℝ
  | [dx, dy] => borderCost mask (shiftResidual gamma ref new b dx dy)
  | _ => 0

/-- The switches of `subtract`. -/
structure SubOpts where
  beta : Bool
  shift : Bool
  iterative : Bool

/-- The decision tree operations.py:203-364: scale and shift. (`minimize_scalar` does not look at the residual; for an
entirely masked image the model hands it the zero function instead of one that always gives `np.ma.masked`.) -/
noncomputable def scaleShift (opt : Opt) (o : SubOpts) (gamma : Img ℝ) (mask : NMask)
    (ref new : SubImg) (zpRef zpNew : ℝ) : Py (ℝ × ℝ × ℝ) :=
  let b := zpNew / zpRef
  if o.beta then
    if o.shift then do
      let r ← leastSquares opt
        (costScaleShift gamma mask ref new) (windowSeen mask ref.h ref.w) [b, 0, 0] [1 / 10, -9 / 10, -9 / 10] [10, 9 / 10, 9 / 10]
      if r.1 then
        match r.2 with
        | [b', dx, dy] => .ok (b', dx, dy)
        | _ => .error .ValueError
      else .ok (b, 0, 0)
    else if o.iterative then
      let r := opt.scalar (scaleCost gamma mask ref new) (1 / 10) 10
      if r.1 then .ok (r.2, 0, 0) else .ok (b, 0, 0)
    else do
      let r ← leastSquares opt
        (costScale gamma mask ref new) (imageSeen mask ref.h ref.w) [b] [1 / 10] [10]
      if r.1 then
        match r.2 with
        | [b'] => .ok (b', 0, 0)
        | _ => .error .ValueError
      else .ok (b, 0, 0)
  else
    if o.shift then do
      let r ← leastSquares opt
        (costShift gamma mask ref new b) (windowSeen mask ref.h ref.w) [0, 0] [-9 / 10, -9 / 10] [9 / 10, 9 / 10]
      if r.1 then
        match r.2 with
        | [dx, dy] => .ok (b, dx, dy)
        | _ => .error .ValueError
      else .ok (b, 0, 0)
    else .ok (b, 0, 0)

/-- What `subtract` returns. -/
structure SubOut where
  D : Img ℂ
  P : Img ℝ
  S : Img ℝ
  mask : NMask

/-- The externals of one call: optimisers, photometry (`transparency([ref, new])`), background
difference, argmax, and whether `fitted_psf` is set. -/
structure SubEnv where
  opt : Opt
  zps : Py (ℝ × ℝ)
  gamma : Img ℝ
  peak : Img ℝ → ℕ × ℕ
  fitted : Bool

/-- `subtract` from operations.py:143 on. -/
noncomputable def subtract (env : SubEnv) (o : SubOpts) (ref new : SubImg) : Py SubOut :=
  if new.interped.shape ≠ ref.interped.shape then .error .ValueError
  else do
    let mask ← new.mask.maskOr ref.mask
    let zps ← env.zps
    let c := centerOfMass new.psf
    if env.fitted = false ∧ (c.1 < 0 ∨ c.2 < 0) then .error .ValueError
    else do
      let s ← scaleShift env.opt o env.gamma mask ref new zps.1 zps.2
      pure { D := ifftOrtho (dHat ref new s.1 s.2.1 s.2.2)
             P := subP ref new s.1
             S := (sCorr env.peak ref new zps.2 s.1 s.2.1 s.2.2).map re
             mask := mask }

end PI
