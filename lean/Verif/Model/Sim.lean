import Verif.Base.Img
import Mathlib.Analysis.SpecialFunctions.Pow.Real
import Mathlib.Analysis.Real.Pi.Bounds
import Mathlib.Analysis.SpecialFunctions.Exp

/-!
# Model of the simulation tools (properimage/simtools.py:39-187, 190-220)

Parameters are exact rationals, pixels are reals, 2.335 is the exact decimal. A division of an array by a
sum that is zero gives an array of NaN: this is `none`. Rotation of a PSF (`theta != 0`) is not modelled here, and
neither are sizes below 1 and widths that are not positive, which the theorems exclude.
-/

namespace PI

/-- `range(lo, hi)` -/
def pyRange (lo hi : ℤ) : List ℤ := (List.range (hi - lo).toNat).map fun k : ℕ => lo + (k : ℤ)

/-- `a[i, j] = v` with Python indices. -/
def setItem {α : Type} (a : Img α) (i j : ℤ) (v : α) : Py (Img α) :=
  match pyIdx a.h i, pyIdx a.w j with
  | some p, some q => .ok ⟨a.h, a.w, fun r c => if r = p ∧ c = q then v else a.px r c⟩
  | _, _ => .error .IndexError

/-- A sequence of assignments. -/
def setItems {α : Type} (a : Img α) : List (ℤ × ℤ × α) → Py (Img α)
  | [] => .ok a
  | e :: l => do
    let b ← setItem a e.1 e.2.1 e.2.2
    setItems b l

/-- `a / np.sum(a)`; `none` is an array of NaN. -/
noncomputable def divSum (a : Img ℝ) : Option (Img ℝ) :=
  let t := ∑ i ∈ Finset.range a.h, ∑ j ∈ Finset.range a.w, a.px i j
  if t = 0 then none else some ⟨a.h, a.w, fun i j => a.px i j / t⟩

/-- `stats.norm.pdf(x, loc=mu, scale=s)` -/
noncomputable def normPdf (x mu s : ℝ) : ℝ :=
  Real.exp (-((x - mu) / s) ^ 2 / 2) / (s * Real.sqrt (2 * Real.pi))

/-- `FWHM / 2.335` -/
def sigmaOf (fwhm : ℚ) : ℚ := fwhm / (2335 / 1000)

/-- The range of indices that `Psf` fills (simtools.py:48-54). -/
def psfRange (N X Y : ℚ) : ℤ × ℤ :=
  let mu := (N - 1) / 2
  let sigma := max (sigmaOf X) (sigmaOf Y)
  let tail : ℚ := min ((pyInt (5 * sigma) : ℤ) : ℚ) (N / 2)
  (pyInt ((pyInt mu : ℤ) - tail), pyInt ((pyInt mu : ℤ) + tail))

/-- `Psf` (simtools.py:39-61) with `theta = 0`. `N` need not be whole. -/
noncomputable def simPsf (N X Y0 : ℚ) : Py (Option (Img ℝ)) :=
  let Y := if Y0 = 0 then X else Y0
  let n := (pyInt N).toNat
  let mu := (N - 1) / 2
  let r := psfRange N X Y
  (setItems ⟨n, n, fun _ _ => (0 : ℝ)⟩
    ((pyRange r.1 r.2).flatMap fun i => (pyRange r.1 r.2).map fun j =>
      (i, j, normPdf i mu (sigmaOf X : ℚ) * normPdf j mu (sigmaOf Y : ℚ)))).map divSum

/-- Element `r` of the flattened broadcast array number `k` (simtools.py:179-185): index `k` of the
`r`-th index tuple in C order. `lens` are the lengths of the arrays. -/
def flatIdx (lens : List ℕ) (k r : ℕ) : ℕ := r / (lens.drop (k + 1)).prod % lens.getD k 0

/-- `cartesian_product` (simtools.py:171-187); `cast` is the conversion to the type of the first array. -/
def cartesianProduct {α : Type} [Inhabited α] (cast : α → α) (arrays : List (List α)) : Py (List (List α)) :=
  match arrays with
  | [] => .error .IndexError
  | _ =>
    let lens := arrays.map List.length
    .ok ((List.range lens.prod).map fun r =>
      (List.range arrays.length).map fun k => cast ((arrays.getD k []).getD (flatIdx lens k r) default))

/-- `models.Gaussian2D(1, mu, mu, sigma, sigma)(x, y)` -/
noncomputable def gauss2d (mu sigma x y : ℝ) : ℝ :=
  Real.exp (-((x - mu) ^ 2 / (2 * sigma ^ 2) + (y - mu) ^ 2 / (2 * sigma ^ 2)))

/-- `astropy_Psf` (simtools.py:64-82) -/
noncomputable def astropyPsf (N : ℕ) (fwhm : ℚ) : Py (Option (Img ℝ)) := do
  let mu : ℚ := ((N : ℚ) - 1) / 2
  let sigma := sigmaOf fwhm
  let tail := pyInt (7 * sigma)
  let i := pyRange (pyInt mu - tail) (pyInt mu + tail)
  let rows ← cartesianProduct id [i, i]
  let a ← setItems ⟨N, N, fun _ _ => (0 : ℝ)⟩
    (rows.map fun row => (row.getD 0 0, row.getD 1 0, gauss2d mu sigma (row.getD 0 0 : ℤ) (row.getD 1 0 : ℤ)))
  pure (divSum a)

/-- `_airy_func` (simtools.py:85-92); 0/0 is NaN (`none`). `j1` is the Bessel function. -/
noncomputable def airyFunc (j1 : ℝ → ℝ) (rr width : ℝ) : Option ℝ :=
  let r := rr / width
  if r = 0 then none else some ((2 * j1 r / r) ^ 2)

/-- `airy_patron` (simtools.py:95-119), for `width ≠ 0`. -/
noncomputable def airyPatron (j1 : ℝ → ℝ) (N : ℕ) (width : ℝ) : Img (Option ℝ) :=
  let mu : ℝ := ((N : ℝ) - 1) / 2
  ⟨N, N, fun i j => airyFunc j1 (Real.sqrt ((i - mu) ^ 2 + (j - mu) ^ 2)) width⟩

/-- `perfilsersic` (simtools.py:138-151), for `r_e ≠ 0` and `n > 0`. -/
noncomputable def perfilSersic (re Ie n r : ℝ) : ℝ :=
  let b := 1999 / 1000 * n - 327 / 1000
  let Ir := Ie * Real.exp (-b * ((r / re) ^ (1 / n) - 1))
  Ir / (Ie * Real.exp (-b * ((0 / re) ^ (1 / n) - 1)))

/-- `gal_sersic` (simtools.py:154-168) -/
noncomputable def galSersic (N : ℕ) (n : ℝ) : Img ℝ :=
  let mu : ℝ := ((N : ℝ) - 1) / 2
  let re : ℝ := ((N : ℝ) - 1) / 6
  ⟨N, N, fun i j =>
    if i < N - 1 ∧ j < N - 1 then
      let r := Real.sqrt ((i - mu) ^ 2 + (j - mu) ^ 2)
      if r ≤ 4 * re then perfilSersic re 10 n r else 0
    else 0⟩

/-- The `xy` argument of `delta_point`: a sequence, or an iterator such as `zip(x, y)`, which has no length. -/
inductive XY
  | seq (l : List (ℚ × ℚ))
  | iter (l : List (ℚ × ℚ))

/-- The points in order. -/
def XY.points : XY → List (ℚ × ℚ)
  | .seq l => l
  | .iter l => l

/-- The loop of `delta_point` (simtools.py:215-219): `j` starts at -1 and decreases. -/
def deltaLoop (weights : List ℚ) (m : Img ℚ) : ℤ → List (ℚ × ℚ) → Py (Img ℚ)
  | _, [] => .ok m
  | j, p :: l =>
    match pyIdx weights.length j with
    | none => .error .IndexError
    | some k => do
      let m' ← setItem m (pyInt p.1) (pyInt p.2) (weights.getD k 0)
      deltaLoop weights m' (j - 1) l

/-- `delta_point` (simtools.py:190-220) -/
def deltaPoint (N : ℕ) (center : Bool) (xy : Option XY) (weights : Option (List ℚ)) : Py (Img ℚ) :=
  let m : Img ℚ := ⟨N, N, fun _ _ => 0⟩
  if center then setItem m (pyInt ((N : ℚ) / 2)) (pyInt ((N : ℚ) / 2)) 1
  else
    match xy, weights with
    | none, _ => .error .TypeError
    | some (.iter _), none => .error .TypeError
    | some (.seq l), none => deltaLoop (List.replicate l.length 1) m (-1) l
    | some x, some w => deltaLoop w m (-1) x.points

end PI
