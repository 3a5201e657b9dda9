import Verif.Model.Stamps
import Mathlib.Algebra.BigOperators.Group.Finset.Basic
import Mathlib.Algebra.Field.Defs
import Mathlib.Data.Rat.Cast.Defs

/-!
# Model of the PSF measurement (properimage/single_image.py:961-1311)

Numbers are an ordered field `K` (exact arithmetic; the theorems are for every such field, ℝ included;
division by zero gives zero where numpy gives NaN or infinity). `np.linalg.eigh`, the polynomial fitter,
the Gaussian filter, and the transforms are parameters. Log messages are left out. An attribute that
does not exist yet is `none`.
-/

namespace PI
open PyS

section numerics
variable {K : Type} [Field K] [LinearOrder K]

/-- `np.mean` of column `i` of a `P`-row matrix. -/
def colMean (P : ℕ) (m : ℕ → ℕ → K) (i : ℕ) : K := (∑ p ∈ Finset.range P, m p i) / P

/-- `np.cov(m, rowvar=False)[i, j]` for a `P`-row matrix (single_image.py:988). -/
def npCov (P : ℕ) (m : ℕ → ℕ → K) (i j : ℕ) : K :=
  (∑ p ∈ Finset.range P, (m p i - colMean P m i) * (m p j - colMean P m j)) / ((P : K) - 1)

/-- `np.vdot` of columns `i` and `j`. -/
def inner (P : ℕ) (m : ℕ → ℕ → K) (i j : ℕ) : K := ∑ p ∈ Finset.range P, m p i * m p j

/-- `mat[i, j] = v` -/
def setCell (M : ℕ → ℕ → K) (i j : ℕ) (v : K) : ℕ → ℕ → K :=
  fun a b => if a = i ∧ b = j then v else M a b

/-- The double loop over pairs of sources (single_image.py:990-1005). -/
def gramLoop (P n : ℕ) (m : ℕ → ℕ → K) : ℕ → ℕ → K :=
  (List.range n).foldl (fun M i =>
    (List.range n).foldl (fun M j =>
      if i ≤ j then setCell (setCell M i j (inner P m i j)) j i (inner P m i j) else M) M)
    (fun _ _ => 0)

/-- What `cov_matrix` holds: a number (one source), a matrix, or a matrix with NaN. -/
inductive Cov (K : Type)
  | scalar (v : K)
  | mat (n : ℕ) (f : ℕ → ℕ → K)
  | nan

/-- The stamps as columns: pixels, sources, values (`self._m`). -/
structure Columns (K : Type) where
  P : ℕ
  n : ℕ
  m : ℕ → ℕ → K

/-- The covariance matrix of the columns (single_image.py:979-1006). -/
def covOf (c : Columns K) : Cov K :=
  if c.n ≤ 250 then
    if c.n = 1 then .scalar (npCov c.P c.m 0 0) else .mat c.n (npCov c.P c.m)
  else .mat c.n (gramLoop c.P c.n c.m)

/-- Eigenvalues in increasing order; `vec j c` is component `j` of eigenvector `c`. -/
structure Eig (K : Type) where
  vals : List K
  vec : ℕ → ℕ → K

/-- `abs(valh) / np.sum(abs(valh))` (single_image.py:1040) -/
def power (vals : List K) : List K := vals.map fun v => |v| / (vals.map fun v => |v|).sum

/-- The loop choosing the number of basis elements (single_image.py:1041-1048). -/
def cutLoop (loss : K) : List K → K → ℕ → ℕ
  | [], _, cut => cut
  | e :: es, pw, cut => if loss < pw - e then cutLoop loss es (pw - e) (cut + 1) else cut

/-- The number of basis elements asked for (single_image.py:1040-1048). -/
def klCut (loss : K) (vals : List K) : ℕ := cutLoop loss (power vals).reverse 1 1

/-- `np.sum` of an image. -/
def imgSum (a : Img K) : K := ∑ i ∈ Finset.range a.h, ∑ j ∈ Finset.range a.w, a.px i j

/-- Division by the sum. -/
def unitImg (a : Img K) : Img K := a.map (· / imgSum a)

/-- Least pixel. -/
def imgMin (a : Img K) : K := a.flat.foldr min (a.flat.headD 0)

/-- `self._bases[:, i].reshape(stamp_shape)` where column `c` of `np.dot(m, vech)` is meant. -/
def dotColumn (c : Columns K) (eg : Eig K) (sh : ℕ × ℕ) (col : ℕ) : Img K :=
  ⟨sh.1, sh.2, fun i j => ∑ s ∈ Finset.range c.n, c.m (i * sh.2 + j) s * eg.vec s col⟩

/-- The basis element of more than 250 sources (single_image.py:1066-1073). -/
def pairElem (c : Columns K) (eg : Eig K) (sh : ℕ × ℕ) (col : ℕ) : Img K :=
  let b := unitImg (dotColumn c eg sh col)
  unitImg (b.map (· - |imgMin b|))

/-- Columns `-cut:` of an `n`-column matrix. -/
def lastCols (n cut : ℕ) : List ℕ := (List.range (min cut n)).map (n - min cut n + ·)

/-- The basis before smoothing, largest eigenvalue first (single_image.py:1050-1074). `hasM` is whether
`self._m` exists. -/
def rawBasis (c : Columns K) (hasM : Bool) (eg : Eig K) (sh : ℕ × ℕ) (cut : ℕ) : Py (List (Img K)) :=
  if hasM then
    if c.n = 0 ∨ sh.1 * sh.2 = c.P then .ok ((lastCols c.n cut).map (dotColumn c eg sh)).reverse
    else .error .ValueError
  else if c.n < cut then .error .IndexError
  else .ok ((lastCols c.n cut).map (pairElem c eg sh)).reverse

/-- `psf_basis[0] = psf_basis[0] / np.sum(psf_basis[0])` -/
def normHead : List (Img K) → List (Img K)
  | [] => []
  | b :: bs => unitImg b :: bs

/-- The optional smoothing (single_image.py:1076-1084); `gauss` is the filter, if on. -/
def smoothed (gauss : Option (Img K → Img K)) (raw : List (Img K)) : List (Img K) :=
  match gauss with
  | none => raw
  | some g => raw.map fun a => unitImg (g a)

/-- Lines 1036-1087: the basis for an information loss. `gauss` is the smoothing filter, if on. -/
def buildBasis (c : Columns K) (hasM : Bool) (gauss : Option (Img K → Img K)) (eg : Eig K)
    (sh : ℕ × ℕ) (loss : K) : Py (List (Img K)) := do
  let raw ← rawBasis c hasM eg sh (klCut loss eg.vals)
  let b := smoothed gauss raw
  pure (if b.length = 1 then normHead b else b)

/-- `measures[i]`: row `i` of the flipped last `nf` columns, for `n` sources
(single_image.py:1127-1129). -/
def measure (n : ℕ) (eg : Eig K) (col : ℕ) : List K := (List.range n).map fun s => eg.vec s col

end numerics

/-! ## The object -/

variable {K F N S R : Type} [Field K] [LinearOrder K]

/-- The libraries. `normalOf fields basis` is the convolution of lines 1200-1211;
`sOf zp fields basis nrm img` is `_s_hat_comp` (lines 1267-1293) from image `img`; `inv` is
`_ifftwn(·).real`. -/
structure KEnv (K F N S R : Type) extends Env where
  eigh : Cov K → Py (Eig K)
  fit : List (ℚ × ℚ) → List K → Py F
  gauss : Img K → Img K
  normalOf : List (Option F) → List (Img K) → N
  sOf : K → List (Option F) → List (Img K) → N → Img (Option ℚ) → S
  inv : S → R

/-- The attributes of the image object that these methods use. -/
structure PSFState (K F N S R : Type) extends SIState where
  infLoss : K
  smooth : Bool := false
  cov : Option (Cov K) := none
  mMat : Option (Columns K) := none
  eig : Option (Eig K) := none
  basis : Option (List (Img K)) := none
  fields : Option (List (Option F)) := none
  normal : Option N := none
  zp : Option K := none
  imgHat : Option (Img (Option ℚ)) := none
  sHat : Option S := none
  sHatLoss : Option K := none
  sComp : Option R := none
  sLoss : Option K := none

/-- A method that only uses the attributes of source and stamp extraction. -/
def onSI {α : Type} (f : PyS SIState α) : PyS (PSFState K F N S R) α := fun s =>
  ((f s.toSIState).1, { s with toSIState := (f s.toSIState).2 })

/-- Pixels of a stored stamp as numbers. -/
def stampImg : Stamp → Option (Img K)
  | .fin a => some (a.map fun q : ℚ => (Rat.cast q : K))
  | _ => none

/-- The stamps in the database as columns, `none` if one is not finite. They are taken to have the current stamp shape: that
a caller assigns another `stamp_shape` after the stamps were cut (ValueError) is not modelled. -/
def dbColumns (sh : ℕ × ℕ) (n : ℕ) (db : List Stamp) : Option (Columns K) :=
  if ∀ k < n, ((db[k]?).bind (stampImg (K := K))).isSome then
    some ⟨sh.1 * sh.2, n, fun p k => match (db[k]?).bind (stampImg (K := K)) with
      | some a => a.px (p / sh.2) (p % sh.2)
      | none => 0⟩
  else none

/-- `cov_matrix` (single_image.py:970-1007) -/
def covMatrix (e : KEnv K F N S R) : PyS (PSFState K F N S R) (Cov K) := do
  let s ← get
  match s.cov with
  | some c => pure c
  | none => do
    let n ← onSI (nSources e.toEnv)
    let s ← get
    let cols := dbColumns (K := K) s.stampShape n (s.db.getD [])
    let c := match cols with
      | some c => covOf c
      | none => Cov.nan
    modify fun s => { s with cov := some c, mMat := if n ≤ 250 then cols else s.mMat }
    pure c

/-- `eigenv` (single_image.py:1009-1019); `LinAlgError` becomes `ValueError`. -/
def eigenv (e : KEnv K F N S R) : PyS (PSFState K F N S R) (Eig K) := do
  let s ← get
  match s.eig with
  | some g => pure g
  | none => do
    let c ← covMatrix e
    match e.eigh c with
    | .error _ => raise .ValueError
    | .ok g => do
      modify fun s => { s with eig := some g }
      pure g

/-- Whether a new information loss is given. -/
def lossChanged (l : Option K) (cur : K) : Bool :=
  match l with
  | some l => decide (cur ≠ l)
  | none => false

/-- The stamps the basis is made of: `self._m` if it exists, otherwise the database. -/
def PSFState.columns (s : PSFState K F N S R) : Option (Columns K) :=
  match s.mMat with
  | some c => some c
  | none => dbColumns s.stampShape (s.nSources.getD 0) (s.db.getD [])

/-- `_setup_kl_basis` (single_image.py:1028-1087) -/
def setupBasis (e : KEnv K F N S R) (l : Option K) : PyS (PSFState K F N S R) Unit := do
  let s ← get
  if s.basis.isNone || lossChanged l s.infLoss then do
    modify fun s => { s with infLoss := l.getD s.infLoss }
    let g ← eigenv e
    let s ← get
    match s.columns with
    | none => raise .ValueError
    | some c => do
      let b ← lift (buildBasis c s.mMat.isSome (if s.smooth then some e.gauss else none) g
        s.stampShape s.infLoss)
      modify fun s => { s with basis := some b }
  else pure ()

/-- `kl_basis` (single_image.py:1021-1026) -/
def klBasis (e : KEnv K F N S R) : PyS (PSFState K F N S R) (List (Img K)) := do
  let s ← get
  match s.basis with
  | some b => pure b
  | none => do
    setupBasis e none
    let s ← get
    match s.basis with
    | some b => pure b
    | none => raise .AttributeError

/-- The fits for the coefficient fields, largest eigenvalue first (single_image.py:1119-1136). -/
def fitFields (e : KEnv K F N S R) (n nf : ℕ) (g : Eig K) (pos : List (ℚ × ℚ)) : Py (List (Option F)) :=
  (lastCols n nf).reverse.mapM fun col => (e.fit pos (measure n g col)).map some

/-- `_setup_kl_a_fields` (single_image.py:1101-1137) -/
def setupFields (e : KEnv K F N S R) (l : Option K) (updating : Bool) :
    PyS (PSFState K F N S R) Unit := do
  let s ← get
  if s.fields.isNone || lossChanged l s.infLoss || updating then do
    match l with
    | some x => do
      setupBasis e (some x)
      modify fun s => { s with infLoss := x }
    | none => pure ()
    let b ← klBasis e
    if b.length = 1 then modify fun s => { s with fields := some [none] }
    else do
      let _ ← onSI (bestSources e.toEnv)
      let pos ← onSI (stampsPos e.toEnv)
      if pos.isEmpty then raise .IndexError
      else do
        let g ← eigenv e
        let f ← lift (fitFields e g.vals.length b.length g pos)
        modify fun s => { s with fields := some f }
  else pure ()

/-- `kl_afields` (single_image.py:1089-1094) -/
def klFields (e : KEnv K F N S R) : PyS (PSFState K F N S R) (List (Option F)) := do
  let s ← get
  match s.fields with
  | some f => pure f
  | none => do
    setupFields e none false
    let s ← get
    match s.fields with
    | some f => pure f
    | none => raise .AttributeError

/-- Lines 1189-1191: the single element of a constant PSF is divided by its sum, in the cached list. -/
def finishPsf (a : List (Option F)) (b : List (Img K)) :
    PyS (PSFState K F N S R) (List (Option F) × List (Img K)) :=
  match a with
  | [] => raise .IndexError
  | some _ :: _ => pure (a, b)
  | none :: _ =>
    if b.isEmpty then raise .IndexError
    else do
      modify fun s => { s with basis := some (normHead b) }
      pure (a, normHead b)

/-- `get_variable_psf` (single_image.py:1139-1191) -/
def getVariablePsf (e : KEnv K F N S R) (l : Option K) (shape : Option (ℕ × ℕ)) :
    PyS (PSFState K F N S R) (List (Option F) × List (Img K)) := do
  modify fun s => { s with reqShape := shape.or s.reqShape }
  let s ← get
  let updating := lossChanged l s.infLoss
  setupBasis e l
  setupFields e l updating
  let a ← klFields e
  let b ← klBasis e
  finishPsf a b

/-- `normal_image` (single_image.py:1193-1212) -/
def normalImage (e : KEnv K F N S R) : PyS (PSFState K F N S R) N := do
  let s ← get
  match s.normal with
  | some v => pure v
  | none => do
    let r ← getVariablePsf e none none
    modify fun s => { s with normal := some (e.normalOf r.1 r.2) }
    pure (e.normalOf r.1 r.2)

/-- `interped_hat` (single_image.py:1377-1382), as the image whose transform it is. -/
def interpedHat (e : KEnv K F N S R) : PyS (PSFState K F N S R) (Img (Option ℚ)) := do
  let s ← get
  match s.imgHat with
  | some a => pure a
  | none => do
    let a ← onSI (interped e.toEnv)
    modify fun s => { s with imgHat := some a }
    pure a

/-- `a_fields[0] is None` -/
def constantPsf (a : List (Option F)) : Bool :=
  match a with
  | none :: _ => true
  | _ => false

/-- `s_hat_comp` (single_image.py:1258-1296) -/
def sHatComp (e : KEnv K F N S R) : PyS (PSFState K F N S R) S := do
  let s ← get
  match (if s.sHatLoss = some s.infLoss then s.sHat else none) with
  | some v => pure v
  | none => do
    let r ← getVariablePsf e none none
    let nrm ← normalImage e
    let img ← (if constantPsf r.1 then interpedHat e else onSI (interped e.toEnv))
    let s ← get
    let v := e.sOf (s.zp.getD 1) r.1 r.2 nrm img
    modify fun s => { s with sHat := some v, sHatLoss := some s.infLoss }
    pure v

/-- `s_component` (single_image.py:1298-1311) -/
def sComponent (e : KEnv K F N S R) : PyS (PSFState K F N S R) R := do
  let s ← get
  match s.sComp with
  | none => do
    let v ← sHatComp e
    modify fun s => { s with sComp := some (e.inv v), sLoss := some s.infLoss }
    pure (e.inv v)
  | some r =>
    if s.sLoss ≠ some s.infLoss then do
      let v ← sHatComp e
      modify fun s => { s with sComp := some (e.inv v) }
      pure (e.inv v)
    else pure r

end PI
