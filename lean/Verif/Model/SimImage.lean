import Verif.Model.Sim
import Verif.Base.PyS

/-!
# Model of simulated images (properimage/simtools.py:39-61 with rotation, 122-135, 223-271, 308-360)

Pixels are reals. numpy's random generators are a parameter: a state machine whose normal deviates with
standard deviation `s` are `s` times standard normal deviates (which is how numpy computes them). The
state of a method is the state of the module's generator `random_def`. An array of NaN is `none`. The
32 bit rounding of Poisson deviates and numpy's upper bound on their mean are not modelled; `SN = 0` is
excluded by the theorems. A PSF narrower than 0.2 is an empty array, for which `np.max` raises ValueError: here it is `none`.
-/

namespace PI

/-- A random number generator. -/
structure Rng (σ : Type) where
  /-- `default_rng(seed=s)` -/
  seed : ℕ → σ
  /-- `standard_normal(n)` in order of drawing -/
  normal : σ → ℕ → (ℕ → ℝ) × σ
  /-- `poisson(mean, n)` -/
  poisson : σ → ℝ → ℕ → (ℕ → ℝ) × σ
  /-- `integers(low, high, n)` -/
  integers : σ → ℤ → ℤ → ℕ → List ℤ × σ

/-- `Psf` with its rotation (simtools.py:39-61); `rot` is `scipy.ndimage.rotate`. -/
noncomputable def psfTheta (rot : Img ℝ → ℚ → Img ℝ) (N X Y0 theta : ℚ) : Py (Option (Img ℝ)) :=
  let Y := if Y0 = 0 then X else Y0
  let n := (pyInt N).toNat
  let mu := (N - 1) / 2
  let r := psfRange N X Y
  (setItems ⟨n, n, fun _ _ => (0 : ℝ)⟩
    ((pyRange r.1 r.2).flatMap fun i => (pyRange r.1 r.2).map fun j =>
      (i, j, normPdf i mu (sigmaOf X : ℚ) * normPdf j mu (sigmaOf Y : ℚ)))).map
    fun a => divSum (if theta = 0 then a else rot a theta)

/-- `convol_gal_psf_fft` (simtools.py:122-135): `fftconvolve(gal, a, mode="same")`, the part of the full
convolution with the shape of `gal` that starts at `(shape(a) - 1) // 2`. -/
noncomputable def convSame (gal a : Img ℝ) : Img ℝ :=
  ⟨gal.h, gal.w, fun i j => ∑ k ∈ Finset.range a.h, ∑ l ∈ Finset.range a.w,
    if k ≤ i + (a.h - 1) / 2 ∧ i + (a.h - 1) / 2 < k + gal.h ∧ l ≤ j + (a.w - 1) / 2 ∧ j + (a.w - 1) / 2 < l + gal.w
    then gal.px (i + (a.h - 1) / 2 - k) (j + (a.w - 1) / 2 - l) * a.px k l else 0⟩

/-- `np.max` -/
noncomputable def npMax (a : Img ℝ) : Py ℝ :=
  if h : (Finset.range a.h ×ˢ Finset.range a.w).Nonempty then
    .ok ((Finset.range a.h ×ˢ Finset.range a.w).sup' h fun p => a.px p.1 p.2)
  else .error .ValueError

/-- Broadcasting of one axis. -/
def imDim (a b : ℕ) : Py ℕ :=
  if a = b then .ok a else if a = 1 then .ok b else if b = 1 then .ok a else .error .ValueError

/-- Index into a broadcast axis of length `n`. -/
def imIdx (n i : ℕ) : ℕ := if n = 1 then 0 else i

/-- `a + b` with broadcasting. -/
noncomputable def addBc (a b : Img ℝ) : Py (Img ℝ) := do
  let h ← imDim a.h b.h
  let w ← imDim a.w b.w
  pure ⟨h, w, fun i j => a.px (imIdx a.h i) (imIdx a.w j) + b.px (imIdx b.h i) (imIdx b.w j)⟩

variable {σ : Type}

/-- The `bkg_pdf` argument; only equality with the two names matters. -/
inductive BkgPdf
  | poisson
  | gaussian
  | other (name : String)

/-- The noise `C` (simtools.py:263-270): `b = none` is NaN. -/
noncomputable def noise (R : Rng σ) (pdf : BkgPdf) (b : Option ℝ) (SN : ℝ) (N : ℕ) (g : σ) :
    Py (Option (Img ℝ)) × σ :=
  match pdf with
  | .poisson =>
    match b with
    | none => (.error .ValueError, g)
    | some b =>
      if b / SN < 0 then (.error .ValueError, g)
      else (.ok (some ⟨N, N, fun i j => (R.poisson g (b / SN) (N * N)).1 (i * N + j)⟩), (R.poisson g (b / SN) (N * N)).2)
  | .gaussian =>
    match b with
    | none => (.ok none, (R.normal g (N * N)).2)
    | some b =>
      if b / SN < 0 then (.error .ValueError, g)
      else (.ok (some ⟨N, N, fun i j => b / SN * (R.normal g (N * N)).1 (i * N + j)⟩), (R.normal g (N * N)).2)
  | .other _ => (.error .UnboundLocalError, g)

/-- `C + IM + bias` (simtools.py:271); a NaN operand of either kind gives NaN after the shapes are checked. -/
noncomputable def addUp (N : ℕ) (C IM : Option (Img ℝ)) (h w : ℕ) (bias : ℝ) : Py (Option (Img ℝ)) :=
  match C, IM with
  | some C, some IM => (addBc C IM).map fun s => some ⟨s.h, s.w, fun i j => s.px i j + bias⟩
  | _, _ => (addBc ⟨N, N, fun _ _ => 0⟩ ⟨h, w, fun _ _ => 0⟩).map fun _ => none

/-- `image` (simtools.py:223-271). With a seed the noise comes from a new generator, without from the
module's. -/
noncomputable def simImage (R : Rng σ) (rot : Img ℝ → ℚ → Img ℝ) (MF : Img ℝ) (N : ℕ) (_tExp : ℝ) (X : ℚ)
    (SN : ℝ) (Y theta : ℚ) (pdf : BkgPdf) (_std : Option ℝ) (seed : Option ℕ) (bias : ℝ) :
    PyS σ (Option (Img ℝ)) := fun g =>
  match psfTheta rot (5 * max X Y) X Y theta with
  | .error e => (.error e, g)
  | .ok psf =>
    let IM := psf.map (convSame MF)
    match (if MF.h * MF.w = 0 then (.error .ValueError : Py (Option ℝ)) else
        match IM with
        | none => .ok none
        | some im => (npMax im).map some) with
    | .error e => (.error e, g)
    | .ok b =>
      match seed with
      | some s =>
        match noise R pdf b SN N (R.seed s) with
        | (.error e, _) => (.error e, g)
        | (.ok C, _) => (addUp N C IM MF.h MF.w bias, g)
      | none =>
        match noise R pdf b SN N g with
        | (.error e, g') => (.error e, g')
        | (.ok C, g') => (addUp N C IM MF.h MF.w bias, g')

/-- `np.linspace(100.0, 10000.0, n)` -/
def linspaceW (n : ℕ) : List ℚ :=
  (List.range n).map fun i : ℕ => if n = 1 then 100 else 100 + (i : ℚ) * 9900 / ((n : ℚ) - 1)

/-- `random.integers(low=lo, high=hi, size=n)` for float bounds, which numpy truncates; an empty request
returns before the bounds are checked. -/
def drawInts (R : Rng σ) (lo hi : ℚ) (n : ℕ) : PyS σ (List ℤ) := fun g =>
  if n = 0 then (.ok [], g)
  else if pyInt hi ≤ pyInt lo then (.error .ValueError, g)
  else (.ok (R.integers g (pyInt lo) (pyInt hi) n).1, (R.integers g (pyInt lo) (pyInt hi) n).2)

/-- `X_FWHM` (simtools.py:327) -/
def xFwhm (theta : ℚ) : ℚ := 5 + 5 * theta / 180

/-- One quadrant of `sim_varpsf` (simtools.py:326-353). The state is that of the generator `random`: with a
seed `image` makes its own generator. -/
noncomputable def varFrame (R : Rng σ) (rot : Img ℝ → ℚ → Img ℝ) (nstars : ℕ) (SN : ℝ) (N : ℕ)
    (seed : Option ℕ) (theta : ℚ) : PyS σ (Option (Img ℝ)) := do
  let fw := max (xFwhm theta) 5
  let x ← drawInts R (3 * fw) ((N : ℚ) - 3 * fw) (nstars / 4)
  let y ← drawInts R (3 * fw) ((N : ℚ) - 3 * fw) (nstars / 4)
  let m ← PyS.lift (deltaPoint N false
    (some (.iter ((x.zip y).map fun p => ((p.1 : ℚ), (p.2 : ℚ))))) (some (linspaceW x.length)))
  let im ← simImage R rot ⟨m.h, m.w, fun i j => ((m.px i j : ℚ) : ℝ)⟩ N 1 (xFwhm theta) SN 5 theta
    .gaussian none seed 100
  pure (im.map fun a => ⟨a.h, a.w, fun i j => a.px i j + 100⟩)

/-- All quadrants, in order. -/
noncomputable def varFrames (R : Rng σ) (rot : Img ℝ → ℚ → Img ℝ) (nstars : ℕ) (SN : ℝ) (N : ℕ)
    (seed : Option ℕ) : List ℚ → PyS σ (List (Option (Img ℝ)))
  | [] => pure []
  | t :: ts => do
    let f ← varFrame R rot nstars SN N seed t
    let fs ← varFrames R rot nstars SN N seed ts
    pure (f :: fs)

/-- `frame[r0:r0+N, c0:c0+N] = b` for a block of `N`×`N` pixels (`none`: all NaN). -/
def setBlock (N r0 c0 : ℕ) (f : Img (Option ℝ)) (b : Option (Img ℝ)) : Img (Option ℝ) :=
  ⟨f.h, f.w, fun r c => if r0 ≤ r ∧ r < r0 + N ∧ c0 ≤ c ∧ c < c0 + N then b.map fun a => a.px (r - r0) (c - c0)
    else f.px r c⟩

/-- The inner loop, over `i`, of placing the quadrants (simtools.py:357-358). -/
def tileRow (N : ℕ) (frames : List (Option (Img ℝ))) (j : ℕ) (f : Img (Option ℝ)) : Py (Img (Option ℝ)) :=
  (List.range 2).foldlM (fun f i =>
    match frames[i + 2 * j]? with
    | none => .error .IndexError
    | some b => .ok (setBlock N (i * N) (j * N) f b)) f

/-- Placing the quadrants (simtools.py:355-358). -/
def tile (N : ℕ) (frames : List (Option (Img ℝ))) : Py (Img (Option ℝ)) :=
  (List.range 2).foldlM (fun f j => tileRow N frames j f) ⟨2 * N, 2 * N, fun _ _ => some 0⟩

/-- `sim_varpsf` (simtools.py:308-360). -/
noncomputable def simVarpsf (R : Rng σ) (rot : Img ℝ → ℚ → Img ℝ) (nstars : ℕ) (SN : ℝ) (thetas : List ℚ)
    (N : ℕ) (seed : Option ℕ) : PyS σ (Img (Option ℝ)) := fun g =>
  match seed with
  | some s =>
    match varFrames R rot nstars SN N seed thetas (R.seed s) with
    | (.error e, _) => (.error e, g)
    | (.ok fs, _) => (tile N fs, g)
  | none =>
    match varFrames R rot nstars SN N seed thetas g with
    | (.error e, g') => (.error e, g')
    | (.ok fs, g') => (tile N fs, g')

end PI
