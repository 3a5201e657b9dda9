import Verif.Model.Sources

/-!
# Model of stamp extraction (properimage/single_image.py:741-968)

`astropy.nddata.extract_array` is modelled with its documented geometry, including the fact that a
window that lies inside the image is returned as a *view*: the in-place operations of `stamps_pos`
then write into the interpolated image. The stamp database is a list (stamp number k is entry k);
opening it in "store" mode empties it.
-/

namespace PI
open PyS

/-- First row (column) of a window of `n` pixels around `p`: `ceil(p - n / 2)`. -/
def winStart (n : ℕ) (p : ℚ) : ℤ := ⌈p - (n : ℚ) / 2⌉

/-- Window of `sh` pixels around `pos`, pixels outside of the image filled
(`extract_array(..., mode="partial", fill_value=fill)`); no overlap raises a ValueError. -/
def extractArray (a : Img (Option ℚ)) (sh : ℕ × ℕ) (pos : ℚ × ℚ) (fill : ℚ) : Py (Img (Option ℚ)) :=
  let r0 := winStart sh.1 pos.1
  let c0 := winStart sh.2 pos.2
  if r0 + sh.1 ≤ 0 ∨ c0 + sh.2 ≤ 0 ∨ (a.h : ℤ) ≤ r0 ∨ (a.w : ℤ) ≤ c0 then .error .ValueError
  else .ok ⟨sh.1, sh.2, fun i j =>
    if 0 ≤ r0 + i ∧ r0 + i < a.h ∧ 0 ≤ c0 + j ∧ c0 + j < a.w
    then a.px (r0 + i).toNat (c0 + j).toNat else some fill⟩

/-- Whether the window is a view of the image (it lies inside). -/
def isView (a : Img (Option ℚ)) (sh : ℕ × ℕ) (pos : ℚ × ℚ) : Bool :=
  decide (0 ≤ winStart sh.1 pos.1 ∧ winStart sh.1 pos.1 + sh.1 ≤ a.h ∧
    0 ≤ winStart sh.2 pos.2 ∧ winStart sh.2 pos.2 + sh.2 ≤ a.w)

/-- The image after the window has been changed to `sub` in place. -/
def writeBack (a : Img (Option ℚ)) (sh : ℕ × ℕ) (pos : ℚ × ℚ) (sub : Img (Option ℚ)) :
    Img (Option ℚ) :=
  if isView a sh pos then
    let r0 := (winStart sh.1 pos.1).toNat
    let c0 := (winStart sh.2 pos.2).toNat
    ⟨a.h, a.w, fun i j => if r0 ≤ i ∧ i < r0 + sh.1 ∧ c0 ≤ j ∧ j < c0 + sh.2
      then sub.px (i - r0) (j - c0) else a.px i j⟩
  else a

/-- All values of a list, unless one is NaN. -/
def allFin : List (Option ℚ) → Option (List ℚ)
  | [] => some []
  | none :: _ => none
  | some v :: l => (allFin l).map (v :: ·)

/-- The four margins of a stamp (single_image.py:774-779). -/
def margins (st : Img (Option ℚ)) : List (Option ℚ) :=
  ((List.range st.h).map fun i => st.px i 0) ++ ((List.range st.h).map fun i => st.px i (st.w - 1)) ++
  ((List.range st.w).map fun j => st.px (st.h - 1) j) ++ ((List.range st.w).map fun j => st.px 0 j)

/-- `check_margin` (single_image.py:771-789); comparisons with NaN are false. -/
def checkMargin (rms : ℚ) (st : Img (Option ℚ)) : Bool :=
  match allFin (margins st) with
  | none => false
  | some l => sqrtGt (varQ l) (7 / 2 * rms - meanQ l) || sqrtGt (varQ l) (meanQ l - 7 / 2 * rms)

/-- The enlarging loop (single_image.py:819-832): `k` is the enlargement so far; returns the final
enlargement and stamp. `fuel` bounds the number of rounds (three suffice, see `growStamp_spec`). -/
def growStamp (rms : ℚ) (ext : ℕ → Py (Img (Option ℚ))) : ℕ → ℕ → Img (Option ℚ) →
    Py (ℕ × Img (Option ℚ))
  | 0, _, _ => .error .NonTermination
  | fuel + 1, k, sub =>
    match ext (k + 2) with
    | .error e => .error e
    | .ok sub' =>
      if 6 ≤ k + 2 then .ok (k + 2, sub')
      else if checkMargin rms sub then growStamp rms ext fuel (k + 2) sub'
      else .ok (k + 2, sub')

/-- Least element (of a non-empty list). -/
def minQ (l : List ℚ) : ℚ := l.foldr min (l.headD 0)

/-- The median of the values below the 70th percentile of the absolute values
(single_image.py:837-841). -/
def backLevel (v : List ℚ) : Option ℚ :=
  median (v.filter fun x => decide (x < percentile 70 (v.map abs)))

/-- The background handling done in place (single_image.py:836-841): the pixels after it. -/
def rebase (sub : Img (Option ℚ)) : Img (Option ℚ) :=
  match allFin sub.flat with
  | none => sub.map fun _ => none
  | some v =>
    let m := |minQ v|
    match backLevel (v.map (· + m)) with
    | none => sub.map fun _ => none
    | some b => sub.map fun p => p.map fun x => x + m - b

/-- `sub_array_data / np.sum(sub_array_data)` (single_image.py:854). -/
def unitSum (sub : Img (Option ℚ)) : Stamp :=
  match allFin sub.flat with
  | none => .nan sub.h sub.w
  | some v =>
    if v.sum = 0 then (if v.any (· = 0) then .nan sub.h sub.w else .inf sub.h sub.w)
    else .fin ⟨sub.h, sub.w, fun i j => (sub.px i j).getD 0 / v.sum⟩

/-- Position of the first maximum in C order (single_image.py:858-861). -/
def argMax (a : Img ℚ) : ℕ × ℕ :=
  ((Img.indices a.h a.w).find? fun p => a.flat.all fun v => decide (v ≤ a.px p.1 p.2)).getD (0, 0)

/-- Distance of `(p, q)` from half the shape exceeds a fifth of the height
(single_image.py:863-865, 910-912). -/
def offCentre (h w : ℕ) (p q : ℚ) : Bool :=
  sqrtGt ((p - (h : ℚ) / 2) ^ 2 + (q - (w : ℚ) / 2) ^ 2) ((h : ℚ) / 5)

/-- The strict checks (single_image.py:856-921) on a finite stamp. -/
def strictReject (e : Env) (a : Img ℚ) : Bool :=
  offCentre a.h a.w (argMax a).1 (argMax a).2 ||
  sqrtGt (varQ a.flat) (15 / 100) ||
  a.flat.any (fun v => decide (1 / 2 < v)) ||
  (match e.locmax a with
   | [] => false
   | [(y, x, _)] => offCentre a.h a.w x y
   | _ => true)

/-- What happens to a candidate. -/
inductive Outcome
  | reject
  | accept (st : Stamp)

/-- The strict checks on any stamp: `np.where(sub == max)` finds nothing if there is a NaN. -/
def strictCheck (e : Env) : Stamp → Py Outcome
  | .nan _ _ => .error .IndexError
  | .inf _ _ => .ok .reject
  | .fin a => .ok (if strictReject e a then .reject else .accept (.fin a))

/-- The pixels of a stamp before it is normalised: enlarged window, or `none` if the candidate is
dropped for a NaN (single_image.py:803-832). -/
def window (rms : ℚ) (img : Img (Option ℚ)) (sh : ℕ × ℕ) (pos : ℚ × ℚ) :
    Py (Option (ℕ × Img (Option ℚ))) :=
  match extractArray img sh pos rms with
  | .error er => .error er
  | .ok sub =>
    if sub.flat.any (·.isNone) then .ok none
    else match growStamp rms (fun k => extractArray img (sh.1 + k, sh.2 + k) pos rms) 3 0 sub with
      | .error er => .error er
      | .ok r => .ok (some r)

/-- One candidate (single_image.py:802-925): what becomes of it, and of the interpolated image. -/
def tryStamp (e : Env) (strict : Bool) (sh : ℕ × ℕ) (img : Img (Option ℚ)) (src : SepRow) :
    Py Outcome × Img (Option ℚ) :=
  match window e.rms img sh (src.y, src.x) with
  | .error er => (.error er, img)
  | .ok none => (.ok .reject, img)
  | .ok (some (k, sub)) =>
    let r := rebase sub
    let img' := writeBack img (sh.1 + k, sh.2 + k) (src.y, src.x) r
    if k ≠ 6 then (.error .TypeError, img')
    else if strict then (strictCheck e (unitSum r), img')
    else (.ok (.accept (unitSum r)), img')

/-- `interped` (single_image.py:1313-1375): the interpolation, computed once. -/
def interped (e : Env) : PyS SIState (Img (Option ℚ)) := do
  let s ← get
  match s.interped with
  | some a => pure a
  | none => do
    let a ← lift e.interp
    let a : Img (Option ℚ) := a.map some
    modify fun s => { s with interped := some a }
    pure a

/-- The loop over the candidates (single_image.py:801-925): `jj` counts candidates; returns the
positions of the accepted ones and the numbers of the rejected ones. -/
def stampLoop (e : Env) (sh : ℕ × ℕ) : List SepRow → ℕ → List (ℚ × ℚ) → List ℕ →
    PyS SIState (List (ℚ × ℚ) × List ℕ)
  | [], _, pos, del => pure (pos, del)
  | src :: rest, jj, pos, del => do
    let img ← interped e
    let s ← get
    let r := tryStamp e s.strict sh img src
    modify fun s => { s with interped := some r.2 }
    let o ← lift r.1
    match o with
    | .reject => stampLoop e sh rest (jj + 1) pos (del ++ [jj])
    | .accept st => do
      modify fun s => { s with db := some ((s.db.getD []) ++ [st]) }
      stampLoop e sh rest (jj + 1) (pos ++ [(src.y, src.x)]) del

/-- `np.delete(l, idx)` -/
def deleteIdx {α : Type _} (l : List α) (idx : List ℕ) : List α :=
  (l.zipIdx.filter fun p => decide (p.2 ∉ idx)).map (·.1)

/-- `_cond` (single_image.py:756-760): the shape asked for, if it differs from the current one. -/
def SIState.wantShape (s : SIState) : Option (ℕ × ℕ) :=
  match s.reqShape with
  | some sh => if sh ≠ s.stampShape then some sh else none
  | none => none

/-- Lines 762-956: a new extraction. -/
def extractStamps (e : Env) : PyS SIState (List (ℚ × ℚ)) := do
  modify fun s => { s with stampShape := s.wantShape.getD s.stampShape, db := some [] }
  let cands ← bestSources e
  modify fun s => { s with strictPublic := if cands.length ≤ 20 then some false else s.strictPublic }
  let s ← get
  let r ← stampLoop e s.stampShape cands 0 [] []
  modify fun s => { s with
    best := if 15 ≤ (cands.length : ℤ) - r.2.length then s.best.map fun b => deleteIdx b r.2 else s.best
    stampShape := (s.stampShape.1 + 6, s.stampShape.2 + 6)
    stampsPos := some r.1
    nSources := some r.1.length }
  pure r.1

/-- `stamps_pos` (single_image.py:753-959). -/
def stampsPos (e : Env) : PyS SIState (List (ℚ × ℚ)) := do
  let s ← get
  match s.stampsPos with
  | some p => if s.wantShape.isSome then extractStamps e else pure p
  | none => extractStamps e

/-- `n_sources` (single_image.py:961-968). -/
def nSources (e : Env) : PyS SIState ℕ := do
  let s ← get
  match s.nSources with
  | some n => pure n
  | none => do
    let _ ← stampsPos e
    let s ← get
    match s.nSources with
    | some n => pure n
    | none => raise .AttributeError

/-- `update_sources` (single_image.py:741-751). -/
def updateSources (e : Env) (new : Option (List SepRow)) : PyS SIState Unit := do
  let s ← get
  match s.best with
  | none => raise .AttributeError
  | some _ => do
    modify fun s => { s with best := none }
    match new with
    | some l => modify fun s => { s with best := some l }
    | none => do
      let _ ← bestSources e
      let _ ← nSources e

end PI
