import Verif.Model.SepInput
import Verif.Model.CoaddFront
import Verif.Model.PsfXY

/-!
# Model of the kind of number in `normal_image` (properimage/single_image.py:1193-1212) and in what reads it

`Model/KL` has the methods for pixels stored as floating point numbers. Here the kind is an argument. NumPy refuses an
in-place addition whose result cannot be stored under the casting rule "same_kind" with `UFuncTypeError`, a subclass of
TypeError: doubles go into any floating kind, and into no integer or boolean one. The methods are otherwise those of
`Model/KL`, `Model/CoaddFront` and `Model/PsfXY`.
-/

namespace PI
open PyS

/-- Kinds into which NumPy adds doubles in place. -/
def NumKind.floating : NumKind → Bool
  | .f2 | .f4 | .f8 => true
  | _ => false

variable {K F N S R W : Type} [Field K] [LinearOrder K]

/-- `normal_image` (single_image.py:1193-1212): line 1208 makes an array of the kind of the pixels, to which line 1210
adds doubles, once for each pair of coefficient field and basis element. Line 1203 has no such addition. -/
def normalImageAs (k : NumKind) (e : KEnv K F N S R) : PyS (PSFState K F N S R) N := do
  let s ← get
  match s.normal with
  | some v => pure v
  | none => do
    let r ← getVariablePsf e none none
    if constantPsf r.1 || k.floating || (r.1.zip r.2).isEmpty then do
      modify fun s => { s with normal := some (e.normalOf r.1 r.2) }
      pure (e.normalOf r.1 r.2)
    else raise .TypeError

/-- `s_hat_comp` (single_image.py:1258-1296); the array of line 1284 is complex whatever the kind. -/
def sHatCompAs (k : NumKind) (e : KEnv K F N S R) : PyS (PSFState K F N S R) S := do
  let s ← get
  match (if s.sHatLoss = some s.infLoss then s.sHat else none) with
  | some v => pure v
  | none => do
    let r ← getVariablePsf e none none
    let nrm ← normalImageAs k e
    let img ← (if constantPsf r.1 then interpedHat e else onSI (interped e.toEnv))
    let s ← get
    let v := e.sOf (s.zp.getD 1) r.1 r.2 nrm img
    modify fun s => { s with sHat := some v, sHatLoss := some s.infLoss }
    pure v

/-- What an image adds to the sums of coadd (operations.py:447-453, 558-565). -/
def coaddTermsAs (k : NumKind) (e : KEnv K F N S R) (w : K → List (Img K) → W) :
    PyS (PSFState K F N S R) (S × W) := do
  let v ← sHatCompAs k e
  let s ← get
  let z := s.zp.getD 1
  let b ← klBasis e
  let _ ← klFields e
  pure (v, w z b)

/-- One image through `coadd` (operations.py:507-508, 447-453). -/
def coaddImageAs (k : NumKind) (e : KEnv K F N S R) (w : K → List (Img K) → W) (z l : K) :
    PyS (PSFState K F N S R) (S × W) := do
  coaddPrepare e z l
  coaddTermsAs k e w

/-- `get_psf_xy` (single_image.py:1416-1438) -/
def getPsfXYAs (k : NumKind) (e : KEnv K F N S R) (ev : F → ℤ → ℤ → K) (toImg : N → Img K) (x y : ℚ) :
    PyS (PSFState K F N S R) (Img K) := do
  let b ← klBasis e
  let a ← klFields e
  match a, b with
  | [], _ => raise .IndexError
  | none :: _, [] => raise .IndexError
  | none :: _, p :: _ => pure p
  | some _ :: _, [] => raise .IndexError
  | some _ :: _, p :: _ => do
    let n ← normalImageAs k e
    lift (psfAt ev (toImg n) p.h p.w (psfTerms b a) x y)

end PI
