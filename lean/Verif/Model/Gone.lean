import Verif.Model.KL

/-!
# Model of an image whose temporary files have been removed (properimage/single_image.py:160-166)

The stamps of the stars are kept in two files, `<dbname>.dat` and `<dbname>.map`. `_clean` removes them;
it is called at the end of a `with` block (single_image.py:152-154) and by `subtract(align=True)` on the
new image that the caller passed (operations.py:132). The object lives on, and its methods are those of
`Model/KL`, with one difference: `self.db.load` of a removed file raises FileNotFoundError, an OSError.

tinynpydb is trusted to do the following (its source is not in `/repo`): opening a database in "store"
mode creates both files empty; `load` opens the `.dat` file at each call. That the removal succeeds is
assumed here (`Model/Clean` says what happens if it does not).
-/

namespace PI
open PyS

variable {K F N S R : Type} [Field K] [LinearOrder K]

/-- The attributes of an image, and whether its stamps were removed after they had been stored. -/
structure Disk (K F N S R : Type) where
  obj : PSFState K F N S R
  lost : Bool

/-- `_clean()` (single_image.py:160-166): no attribute is touched. -/
def Disk.clean (d : Disk K F N S R) : Disk K F N S R := { d with lost := true }

/-- A step that does not use the files. -/
def noFiles {α : Type} (f : PyS (PSFState K F N S R) α) : PyS (Disk K F N S R) α := fun d =>
  ((f d.obj).1, ⟨(f d.obj).2, d.lost⟩)

/-- Whether `stamps_pos` cuts the stamps anew (single_image.py:756-762). -/
def SIState.willExtract (s : SIState) : Bool := s.stampsPos.isNone || s.wantShape.isSome

/-- `stamps_pos` (single_image.py:753-959): a new extraction creates the files again. -/
def stampsPosD (e : KEnv K F N S R) : PyS (Disk K F N S R) (List (ℚ × ℚ)) := fun d =>
  ((onSI (stampsPos e.toEnv) d.obj).1,
    ⟨(onSI (stampsPos e.toEnv) d.obj).2, d.lost && !d.obj.willExtract⟩)

/-- `n_sources` (single_image.py:961-968) -/
def nSourcesD (e : KEnv K F N S R) : PyS (Disk K F N S R) ℕ := fun d =>
  ((onSI (nSources e.toEnv) d.obj).1,
    ⟨(onSI (nSources e.toEnv) d.obj).2, d.lost && !(d.obj.nSources.isNone && d.obj.willExtract)⟩)

/-- `cov_matrix` (single_image.py:970-1007): every stamp is loaded, if there is one. -/
def covMatrixD (e : KEnv K F N S R) : PyS (Disk K F N S R) (Cov K) := do
  let d ← get
  match d.obj.cov with
  | some c => pure c
  | none => do
    let n ← nSourcesD e
    let d ← get
    if d.lost && decide (0 < n) then raise .OSError
    else noFiles (covMatrix e)

/-- `eigenv` (single_image.py:1009-1019) -/
def eigenvD (e : KEnv K F N S R) : PyS (Disk K F N S R) (Eig K) := do
  let d ← get
  match d.obj.eig with
  | some g => pure g
  | none => do
    let _ ← covMatrixD e
    noFiles (eigenv e)

/-- Lines 1038-1087: the basis from the eigenvectors. -/
def makeBasis (e : KEnv K F N S R) (g : Eig K) : PyS (PSFState K F N S R) Unit := do
  let s ← get
  match s.columns with
  | none => raise .ValueError
  | some c => do
    let b ← lift (buildBasis c s.mMat.isSome (if s.smooth then some e.gauss else none) g
      s.stampShape s.infLoss)
    modify fun s => { s with basis := some b }

/-- `_setup_kl_basis` (single_image.py:1028-1087): the stamps are loaded if `_m` does not exist, which
is the case for more than 250 sources (for fewer, `mMat` is missing here only if a stamp is not finite,
and then `eigh` has raised). -/
def setupBasisD (e : KEnv K F N S R) (l : Option K) : PyS (Disk K F N S R) Unit := do
  let d ← get
  if d.obj.basis.isNone || lossChanged l d.obj.infLoss then do
    noFiles (modify fun s => { s with infLoss := l.getD s.infLoss })
    let g ← eigenvD e
    let d ← get
    if d.lost && d.obj.mMat.isNone && decide (0 < d.obj.nSources.getD 0) then raise .OSError
    else noFiles (makeBasis e g)
  else pure ()

/-- `kl_basis` (single_image.py:1021-1026) -/
def klBasisD (e : KEnv K F N S R) : PyS (Disk K F N S R) (List (Img K)) := do
  let d ← get
  match d.obj.basis with
  | some b => pure b
  | none => do
    setupBasisD e none
    let d ← get
    match d.obj.basis with
    | some b => pure b
    | none => raise .AttributeError

/-- `_setup_kl_a_fields` (single_image.py:1101-1137) -/
def setupFieldsD (e : KEnv K F N S R) (l : Option K) (updating : Bool) :
    PyS (Disk K F N S R) Unit := do
  let d ← get
  if d.obj.fields.isNone || lossChanged l d.obj.infLoss || updating then do
    match l with
    | some x => do
      setupBasisD e (some x)
      noFiles (modify fun s => { s with infLoss := x })
    | none => pure ()
    let b ← klBasisD e
    if b.length = 1 then noFiles (modify fun s => { s with fields := some [none] })
    else do
      let _ ← noFiles (onSI (bestSources e.toEnv))
      let pos ← stampsPosD e
      if pos.isEmpty then raise .IndexError
      else do
        let g ← eigenvD e
        let f ← lift (fitFields e g.vals.length b.length g pos)
        noFiles (modify fun s => { s with fields := some f })
  else pure ()

/-- `kl_afields` (single_image.py:1089-1094) -/
def klFieldsD (e : KEnv K F N S R) : PyS (Disk K F N S R) (List (Option F)) := do
  let d ← get
  match d.obj.fields with
  | some f => pure f
  | none => do
    setupFieldsD e none false
    let d ← get
    match d.obj.fields with
    | some f => pure f
    | none => raise .AttributeError

/-- `get_variable_psf` (single_image.py:1139-1191) -/
def getVariablePsfD (e : KEnv K F N S R) (l : Option K) (shape : Option (ℕ × ℕ)) :
    PyS (Disk K F N S R) (List (Option F) × List (Img K)) := do
  noFiles (modify fun s => { s with reqShape := shape.or s.reqShape })
  let d ← get
  let updating := lossChanged l d.obj.infLoss
  setupBasisD e l
  setupFieldsD e l updating
  let a ← klFieldsD e
  let b ← klBasisD e
  noFiles (finishPsf a b)

/-- `SingleImageGaussPSF.get_variable_psf` (single_image.py:1469-1507) up to the fits: the stamps that
are fitted. They are loaded at every call, nothing is kept. -/
def gaussStampsD (e : KEnv K F N S R) : PyS (Disk K F N S R) (List Stamp) := do
  let n ← nSourcesD e
  let d ← get
  if d.lost && decide (0 < n) then raise .OSError
  else pure ((d.obj.db.getD []).take n)

end PI
