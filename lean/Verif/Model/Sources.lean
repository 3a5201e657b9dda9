import Verif.Base.PyS
import Verif.Base.Stats

/-!
# Model of source detection (properimage/single_image.py:513-751)

`sep.extract`, `sigma_clipped_stats` and `np.random.choice` are parameters. Coordinates, fluxes and
stamp pixels are exact rationals. `SIState` holds the attributes that source detection and stamp
extraction read and write; an attribute that does not exist yet is `none`.
-/

namespace PI

/-- A row of sep's catalogue (the columns the code reads). -/
structure SepRow where
  y : ℚ
  x : ℚ
  npix : ℕ
  flux : ℚ
  flag : ℕ
deriving DecidableEq, Inhabited, Repr

/-- A stored stamp: pixels, or an array with a NaN pixel, or one without NaN but with infinities
(both come from dividing by a zero sum or subtracting the median of nothing). -/
inductive Stamp
  | fin (a : Img ℚ)
  | nan (h w : ℕ)
  | inf (h w : ℕ)

/-- Shape of the array. -/
def Stamp.shape : Stamp → ℕ × ℕ
  | .fin a => a.shape
  | .nan h w => (h, w)
  | .inf h w => (h, w)

/-- The libraries and the image, as far as they matter here. `extract thresh minarea pixstack` is
`sep.extract` on the background-subtracted image; `interp` is the result of the interpolation of
`interped`; `locmax` is `utils.find_S_local_maxima(·, threshold=3.5, neighborhood_size=5)`. -/
structure Env where
  rms : ℚ
  extract : ℚ → ℕ → ℕ → Py (List SepRow)
  clippedMean : ℚ
  clippedStd : ℚ
  choice : ℕ → ℕ → List ℕ
  interp : Py (Img ℚ)
  locmax : Img ℚ → List (ℚ × ℚ × ℚ)

/-- The attributes (single_image.py:108-146); `strict` is `_strict_star_pick`, `strictPublic` is
`strict_star_pick`, `reqShape` is `_shape`, `pixstack` is sep's global setting. Interpolated pixels
are `none` when NaN. -/
structure SIState where
  minSources : Option ℕ := none
  strict : Bool := false
  strictPublic : Option Bool := none
  pixstack : ℕ := 300000
  best : Option (List SepRow) := none
  stampShape : ℕ × ℕ := (5, 5)
  reqShape : Option (ℕ × ℕ) := none
  stampsPos : Option (List (ℚ × ℚ)) := none
  nSources : Option ℕ := none
  db : Option (List Stamp) := none
  interped : Option (Img (Option ℚ)) := none

open PyS

/-- One call of `sep.extract` at `mult` times the background rms. -/
def sepExtract (e : Env) (mult : ℚ) (minarea : ℕ) : PyS SIState (List SepRow) := fun s =>
  (e.extract (mult * e.rms) minarea s.pixstack, s)

/-- `min_sources` (single_image.py:1215-1222). -/
def SIState.minSrc (s : SIState) : ℕ := s.minSources.getD 20

/-- The extraction ladder (single_image.py:588-664). -/
def detect (e : Env) : PyS SIState (List SepRow) := do
  let srcs ← orElse (sepExtract e 8 9) do
    modify fun s => { s with pixstack := 3600000 }
    sepExtract e 35 9
  let s ← get
  if srcs.length < s.minSrc then
    let new ← orElse (sepExtract e 3 5) do
      modify fun s => { s with pixstack := 900000 }
      sepExtract e 3 9
    if new.length < srcs.length then pure srcs else pure new
  else pure srcs

/-- The five quality cuts (single_image.py:687-703). -/
def quality (l : List SepRow) : List SepRow :=
  let npix := l.map fun s => (s.npix : ℚ)
  let flux := l.map fun s => s.flux
  l.filter fun s =>
    decide (percentile 20 npix ≤ s.npix) && decide (s.flag = 0) &&
    decide ((s.npix : ℚ) ≤ percentile 80 npix) && decide (s.flux ≤ percentile 85 flux) &&
    decide (percentile 15 flux ≤ s.flux)

/-- single_image.py:715-734 -/
def limitSources (e : Env) (l : List SepRow) : List SepRow :=
  let b := if (quality l).length < 5 then l else quality l
  if 1800 < b.length then (e.choice b.length 1800).map fun k => b.getD k default else b

/-- The checks on the number of detections (single_image.py:666-684). -/
def checkCount (e : Env) (n : ℕ) : Py Unit :=
  if n = 0 then .error .ValueError
  else if n = 1 then
    if e.clippedStd ≤ 1 / 10 then .error .ValueError
    else if 65535 ≤ e.clippedMean then .error .ValueError
    else .error .ValueError
  else .ok ()

/-- `best_sources` (single_image.py:571-739). -/
def bestSources (e : Env) : PyS SIState (List SepRow) := do
  let s ← get
  match s.best with
  | some b => pure b
  | none => do
    let srcs ← detect e
    lift (checkCount e srcs.length)
    modify fun s => { s with best := some (limitSources e srcs) }
    pure (limitSources e srcs)

/-- `3 * sqrt(p) > 5`, and `int(3 * sqrt(p))` made odd (single_image.py:559-569). -/
def defaultShape (p : ℚ) : ℕ × ℕ :=
  if sqrtGt (9 * p) 5 then
    let d := Nat.sqrt ⌊9 * p⌋₊
    let d := if d % 2 = 1 then d else d + 1
    (d, d)
  else (5, 5)

/-- The `stamp_shape` setter (single_image.py:555-569). -/
def setStampShape (e : Env) (shape : Option (ℕ × ℕ)) : PyS SIState Unit :=
  match shape with
  | some sh => modify fun s => { s with stampShape := sh }
  | none => do
    let b ← bestSources e
    modify fun s => { s with stampShape := defaultShape (percentile 65 (b.map fun s => (s.npix : ℚ))) }

end PI
