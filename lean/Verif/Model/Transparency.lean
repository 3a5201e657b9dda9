import Verif.Model.Match
import Mathlib.Data.List.Sort
import Mathlib.Analysis.SpecialFunctions.Log.Base
import Mathlib.Algebra.BigOperators.Intervals

/-!
# Model of `utils.transparency` (properimage/utils.py:141-243)

Images are identified by numbers, so that the catalogues they cache (`best_sources`) can be a store
that the calls update. Only the columns the function uses are kept. Positions and fluxes are exact
rationals. `append_fields` raises ValueError when the field is already there (numpy), which is what
the `try` blocks rely on. `newcat.sort(order="sourceid")` is modelled by a stable sort on that
column; the order among rows with equal `sourceid` is irrelevant to every statement made. (The sort
also moves the entries of a `detected` column that an image may have from an earlier call as master;
nothing reads them before they are overwritten, and the model leaves them in place.) When a catalogue has
its `sourceid` column already, the code works on the cached array itself. The one case where this shows
within a call, the master being also among the other images with such a column, is not modelled. Fluxes
are positive: the logarithm of others is not modelled.
-/

namespace PI

/-- A catalogue row: `x`, `y`, `flux`, and `sourceid` (meaningful if the catalogue has the column). -/
structure Src where
  x : ℚ
  y : ℚ
  flux : ℚ
  sid : ℤ
deriving DecidableEq

/-- A catalogue: its rows, whether it has a `sourceid` column, and its `detected` column if any. -/
structure Cat where
  rows : List Src
  hasSid : Bool
  det : Option (List Bool)
deriving DecidableEq

/-- The cached catalogues of all image objects. -/
abbrev Store := ℕ → Cat

/-- The coordinates `_matching` extracts (utils.py:117-122). -/
def Cat.xy (c : Cat) : List Pt := c.rows.map fun s => [s.x, s.y]

/-- The `sourceid` column. -/
def Cat.sids (c : Cat) : List ℤ := c.rows.map (·.sid)

/-- utils.py:167-177: add `sourceid = arange(len)` unless there is such a column already. -/
def withSid (c : Cat) : Cat :=
  if c.hasSid then c
  else { c with rows := c.rows.zipIdx.map (fun p => { p.1 with sid := (p.2 : ℤ) }), hasSid := true }

/-- `radius=2.0` (utils.py:187), squared. -/
def radius2 : Bound := some 4

/-- utils.py:183-189: the IDs given to the rows of an image's catalogue. -/
def idsFor (q : Query) (mastercat cat : Cat) : List ℤ :=
  matching q mastercat.xy mastercat.sids cat.xy radius2

/-- utils.py:190-198: the new catalogue of an image: `sourceid` set to the IDs, sorted by it. -/
def newCat (q : Query) (mastercat cat : Cat) : Cat :=
  { rows := (List.zipWith (fun s v => { s with sid := v }) cat.rows
      (idsFor q mastercat cat)).insertionSort (fun a b => a.sid ≤ b.sid)
    hasSid := true
    det := cat.det }

/-- Replace one image's catalogue (`update_sources(newcat)`, single_image.py:741-751). -/
def Store.set (st : Store) (k : ℕ) (c : Cat) : Store := fun j => if j = k then c else st j

/-- One round of the loop utils.py:181-199. -/
def trStep (q : Query) (mastercat : Cat) (acc : Store × List Bool) (img : ℕ) :
    Store × List Bool :=
  let cat := acc.1 img
  let ids := idsFor q mastercat cat
  (acc.1.set img (newCat q mastercat cat),
    List.zipWith (fun (s : Src) d => if s.sid ∈ ids then d else false) mastercat.rows acc.2)

/-- utils.py:158-165: master and list of the other images. -/
def splitMaster (images : List ℕ) (master : Option ℕ) : Py (ℕ × List ℕ) :=
  match master with
  | some m => .ok (m, images)
  | none =>
    match images with
    | [] => .error .IndexError
    | m :: rest => .ok (m, rest)

/-- What the matching stage leaves: stores, detection vector, and the fluxes whose magnitudes make
up `m`, in the order in which `m` is filled. -/
structure TrMatch where
  store : Store
  p : ℕ
  det : List Bool
  fluxes : List ℚ

/-- The selected rows `mastercat[mastercat["detected"]]`. -/
def selectRows (rows : List Src) (det : List Bool) : List Src :=
  ((rows.zip det).filter (·.2)).map (·.1)

/-- utils.py:221-222: the first flux among the rows with that `sourceid`; IndexError if none. -/
def fluxOf (cat : Cat) (sid : ℤ) : Py ℚ :=
  match cat.rows.filter (fun s => s.sid = sid) with
  | [] => .error .IndexError
  | s :: _ => .ok s.flux

/-- The matching and filling stage of `transparency` (utils.py:158-224). With no detected source
(`q = 0`) the master's catalogue is not updated, unless it has both columns already: then no field is
appended and `mastercat["detected"] = detect` writes to the cached array (utils.py:200-205). -/
def trMatch (q : Query) (st : Store) (images : List ℕ) (master : Option ℕ) : Py TrMatch :=
  match splitMaster images master with
  | .error e => .error e
  | .ok (m, imgs) =>
    let mastercat := withSid (st m)
    let (st', det) := imgs.foldl (trStep q mastercat) (st, mastercat.rows.map fun _ => true)
    let sel := selectRows mastercat.rows det
    let p := imgs.length + 1
    if sel.length = 0 then
      .ok { store := if (st m).hasSid && (st m).det.isSome then st'.set m { mastercat with det := some det } else st'
            p := p, det := det, fluxes := [] }
    else
      match (sel.flatMap fun s => imgs.map fun k => (k, s.sid)).mapM
          (fun ks => fluxOf (st' ks.1) ks.2) with
      | .error e => .error e
      | .ok fl =>
        .ok { store := st'.set m { mastercat with det := some det }
              p := p, det := det, fluxes := sel.map (·.flux) ++ fl }

/-- Instrumental magnitude, `-2.5*log10(flux) + 20` (utils.py:213-215, 222). -/
noncomputable def magOf (f : ℚ) : ℝ := -(5 / 2) * Real.logb 10 (f : ℝ) + 20

/-- The block matrix `H` of utils.py:226-234: block row `j` is `[ones in column j | identity]`. -/
def trH (p q : ℕ) (r c : ℕ) : ℝ :=
  if c < p then (if c = r / q then 1 else 0) else (if c - p = r % q then 1 else 0)

/-- The squared residual norm of `H x - m`. -/
noncomputable def lsqCost (p q : ℕ) (m x : ℕ → ℝ) : ℝ :=
  ∑ r ∈ Finset.range (p * q), ((∑ c ∈ Finset.range (p + q), trH p q r c * x c) - m r) ^ 2

/-- `x` is a least-squares solution of `H x = m`. -/
def IsLsq (p q : ℕ) (m x : ℕ → ℝ) : Prop := ∀ x', lsqCost p q m x ≤ lsqCost p q m x'

/-- `x` is a minimum-norm least-squares solution (what `lsqr` started at 0 converges to). -/
def IsMinLsq (p q : ℕ) (m x : ℕ → ℝ) : Prop :=
  IsLsq p q m x ∧ ∀ x', IsLsq p q m x' →
    ∑ c ∈ Finset.range (p + q), x c ^ 2 ≤ ∑ c ∈ Finset.range (p + q), x' c ^ 2

/-- A list as a vector. -/
def vecOf (l : List ℝ) : ℕ → ℝ := fun i => (l[i]?).getD 0

/-- `transparency(images, master)` (utils.py:141-243): zero points and mean magnitudes (`none` is
`np.nan`), and the new store. `lsqr p q m` is the solver. -/
noncomputable def transparency (q : Query) (lsqr : ℕ → ℕ → List ℝ → ℕ → ℝ) (st : Store)
    (images : List ℕ) (master : Option ℕ) : Py (List ℝ × Option (List ℝ) × Store) :=
  match trMatch q st images master with
  | .error e => .error e
  | .ok r =>
    let n := r.det.count true
    if n = 0 then .ok (List.replicate r.p 1, none, r.store)
    else
      let x := lsqr r.p n (r.fluxes.map magOf)
      .ok ((List.range r.p).map x, some ((List.range n).map fun i => x (r.p + i)), r.store)

end PI
