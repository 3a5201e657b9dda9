import Verif.Model.KL

/-!
# Model of the PSF at a position (properimage/single_image.py:1416-1438)

Exact arithmetic in a field `K`. The elements of the basis all have the shape of the first one (they
are built that way). `ev f x y` is the value of a coefficient field at a pixel, `toImg` the pixels of
the normalisation image. Numpy's broadcasting and slicing rules are explicit: a slice with a negative
bound counts from the end.
-/

namespace PI
open PyS

variable {K F N S R : Type} [Field K] [LinearOrder K]

/-- An axis of length `t` can be broadcast to `n`. -/
def bcOk (n t : ℕ) : Bool := t == 1 || t == n

/-- The index that is read on a broadcast axis of length `t`. -/
def bcIdx (t i : ℕ) : ℕ := if t = 1 then 0 else i

/-- `len(range(n)[a:b])` -/
def sliceLen (n : ℕ) (a b : ℤ) : ℕ := sliceBound n b - sliceBound n a

/-- One term of the sum at pixel `(i, j)` of the PSF (single_image.py:1429-1433):
`apsf * afield(*np.mgrid[x0:x1, y0:y1]) / nrm[x0:x1, y0:y1]`. -/
def psfTerm (ev : F → ℤ → ℤ → K) (nrm : Img K) (x0 x1 y0 y1 : ℤ) (t : Img K × F) (i j : ℕ) : K :=
  t.1.px i j
    * ev t.2 (x0 + bcIdx (x1 - x0).toNat i) (y0 + bcIdx (y1 - y0).toNat j)
    / nrm.px (sliceBound nrm.h x0 + bcIdx (sliceLen nrm.h x0 x1) i)
        (sliceBound nrm.w y0 + bcIdx (sliceLen nrm.w y0 y1) j)

/-- The loop and the normalisation (single_image.py:1421-1436) for a basis of shape `h × w`; `delta` comes
from the height alone. A term that does not broadcast to the shape of the PSF raises. -/
def psfAt (ev : F → ℤ → ℤ → K) (nrm : Img K) (h w : ℕ) (terms : List (Img K × F)) (x y : ℚ) :
    Py (Img K) :=
  let delta : ℤ := pyInt (((h : ℚ) - 1) / 2)
  let xp := roundHalfEven x
  let yp := roundHalfEven y
  let x0 := xp - delta
  let x1 := xp + delta + 1
  let y0 := yp - delta
  let y1 := yp + delta + 1
  if terms.isEmpty || (bcOk h (x1 - x0).toNat && bcOk w (y1 - y0).toNat &&
      bcOk h (sliceLen nrm.h x0 x1) && bcOk w (sliceLen nrm.w y0 y1)) then
    let p : Img K := ⟨h, w, fun i j => (terms.map fun t => psfTerm ev nrm x0 x1 y0 y1 t i j).sum⟩
    .ok ⟨h, w, fun i j => p.px i j / imgSum p⟩
  else .error .ValueError

/-- `zip(psf_basis, a_fields)` when no field is None. -/
def psfTerms (b : List (Img K)) (a : List (Option F)) : List (Img K × F) :=
  (b.zip a).filterMap fun p => p.2.map fun f => (p.1, f)

/-- `get_psf_xy` (single_image.py:1416-1438) -/
def getPsfXY (e : KEnv K F N S R) (ev : F → ℤ → ℤ → K) (toImg : N → Img K) (x y : ℚ) :
    PyS (PSFState K F N S R) (Img K) := do
  let b ← klBasis e
  let a ← klFields e
  match a, b with
  | [], _ => raise .IndexError
  | none :: _, [] => raise .IndexError
  | none :: _, p :: _ => pure p
  | some _ :: _, [] => raise .IndexError
  | some _ :: _, p :: _ => do
    let n ← normalImage e
    lift (psfAt ev (toImg n) p.h p.w (psfTerms b a) x y)

end PI
