import Verif.Model.KL

/-!
# What coadd does to each image object (properimage/operations.py:440-456, 486-562)

The image objects are those of `Model/KL`; the accumulation of their terms is `Model/Coadd`.
-/

namespace PI
open PyS

variable {K F N S R W : Type} [Field K] [LinearOrder K]

/-- `an_img.zp = zps[j]; an_img._setup_kl_a_fields(inf_loss)` (operations.py:507-509). -/
def coaddPrepare (e : KEnv K F N S R) (z l : K) : PyS (PSFState K F N S R) Unit := do
  modify fun s => { s with zp := some z }
  setupFields e (some l) false

/-- What an image adds to the two sums (operations.py:447-453, 549-556): `s_hat_comp`, and
`((zp / var) ** 2) * psf_hat_sqnorm()`, which is a function `w` of the zero point and the basis
(single_image.py:1389-1404 reads `kl_basis` and `kl_afields`). -/
def coaddTerms (e : KEnv K F N S R) (w : K → List (Img K) → W) : PyS (PSFState K F N S R) (S × W) := do
  let v ← sHatComp e
  let s ← get
  let z := s.zp.getD 1
  let b ← klBasis e
  let _ ← klFields e
  pure (v, w z b)

/-- One image through `coadd`. -/
def coaddImage (e : KEnv K F N S R) (w : K → List (Img K) → W) (z l : K) :
    PyS (PSFState K F N S R) (S × W) := do
  coaddPrepare e z l
  coaddTerms e w

/-- The loop operations.py:506-508 over the images of the list, which are objects by number: an object that stands in the
list more than once is prepared more than once. Stops at the first exception. -/
def coaddLoop (e : ℕ → KEnv K F N S R) (l : K) : List (ℕ × K) → PyS (ℕ → PSFState K F N S R) Unit
  | [] => pure ()
  | (k, z) :: rest => fun st =>
    match coaddPrepare (e k) z l (st k) with
    | (.error er, t) => (.error er, Function.update st k t)
    | (.ok _, t) => coaddLoop e l rest (Function.update st k t)

/-- The loop operations.py:549-556 (one process) over the same list: what each entry adds to the sums. -/
def coaddRead (e : ℕ → KEnv K F N S R) (w : K → List (Img K) → W) :
    List ℕ → PyS (ℕ → PSFState K F N S R) (List (S × W))
  | [] => pure []
  | k :: rest => fun st =>
    match coaddTerms (e k) w (st k) with
    | (.error er, t) => (.error er, Function.update st k t)
    | (.ok v, t) =>
      match coaddRead e w rest (Function.update st k t) with
      | (.error er, st') => (.error er, st')
      | (.ok vs, st') => (.ok (v :: vs), st')

/-- `an_img.update_sources()` for every image of the aligned list (operations.py:494-495), stopping
at the first exception. -/
def updateAll : List (Env × SIState) → Py Unit × List SIState
  | [] => (.ok (), [])
  | (e, s) :: rest =>
    match updateSources e none s with
    | (.error er, t) => (.error er, t :: rest.map (·.2))
    | (.ok _, t) => ((updateAll rest).1, t :: (updateAll rest).2)

end PI
