import Verif.Model.Construct
import Verif.Base.PyS

/-!
# Model of assigning to an existing `SingleImage` (properimage/single_image.py:121-148, 190-271, 318-490, 503-535, 566-733)

The object keeps what it was built from (`__img`, `attached_to`), its options and gain, the pixels and mask (`__data`), the
background (`__bkg`), the catalogue (`_best_sources`) and the interpolated image (`_interped`). The last three are computed by
libraries; the model records the pixels and masks they were computed from. That the detection or the interpolation can raise,
and the removal of rejected stars from the catalogue, are left to `Model/Sources` and `Model/Stamps`.
-/

namespace PI

/-- The object. -/
structure Obj where
  opts : CtorOpts
  /-- `__img` and `attached_to` -/
  src : Source
  /-- `__gain` -/
  gain : ℚ
  /-- `__data` -/
  data : MA
  /-- the array and mask given to `sep.Background` -/
  bkgFrom : MA
  /-- the arrays (pixels and mask; background) from which `_best_sources` was made -/
  cat : Option (MA × MA)
  /-- the arrays from which `_interped` was made -/
  interp : Option (MA × MA)

/-- What the data setter has put into `__data` before it looks for borders (single_image.py:193-213): an object of an
unsupported class leaves the old `__data` in place. -/
def loadOver (old : MA) : Source → Py MA
  | .other => .ok old
  | src => loadData src

/-- `obj.data = src` (single_image.py:190-271). The stored gain is applied. If no border is found, the exception leaves the
loaded array in place. -/
def assignData (src : Source) : PyS Obj Unit := fun s =>
  match loadOver s.data src with
  | .error e => (.error e, s)
  | .ok d =>
    match (if s.opts.borders then trimBorders d else .ok d) with
    | .error e => (.error e, { s with data := d })
    | .ok d' => (.ok (), { s with data := (cropMA s.opts.crop d').scale s.gain })

/-- `obj.mask = mask` (single_image.py:318-490): with no mask the object it was built from is consulted. -/
def assignMask (mask : MaskArg) : PyS Obj Unit := fun s =>
  match chooseMask s.opts s.src mask s.data with
  | .error e => (.error e, s)
  | .ok d =>
    match finishMask d with
    | .error e => (.error e, { s with data := d })
    | .ok d' => (.ok (), { s with data := d' })

/-- Reading `obj.best_sources` (single_image.py:579-733): detected once, on `data - background`. -/
def readSources : PyS Obj (MA × MA) := fun s =>
  match s.cat with
  | some c => (.ok c, s)
  | none => (.ok (s.data, s.bkgFrom), { s with cat := some (s.data, s.bkgFrom) })

/-- Reading `obj.interped` (single_image.py:1313-1375). -/
def readInterp : PyS Obj (MA × MA) := fun s =>
  match s.interp with
  | some c => (.ok c, s)
  | none => (.ok (s.data, s.bkgFrom), { s with interp := some (s.data, s.bkgFrom) })

/-- `obj.update_sources()` (single_image.py:740-750): deletes the catalogue, which must be there, reads it again and then the
number of stars (962-968), for which the stamps were or are now cut from the interpolated image. -/
def refreshSources : PyS Obj Unit := fun s =>
  match s.cat with
  | none => (.error .AttributeError, s)
  | some _ => (.ok (), (readInterp (readSources { s with cat := none }).2).2)

/-- `SingleImage(img, mask, stamp_shape=...)` (single_image.py:121-148): the stamp shape is derived from the catalogue unless
it is given (543-557). -/
def build (o : CtorOpts) (src : Source) (mask : MaskArg) (shapeGiven : Bool) : Py Obj := do
  let g ← gainOf o src
  let d ← construct o src mask
  pure { opts := o, src := src, gain := g, data := d, bkgFrom := d
         cat := if shapeGiven then none else some (d, d), interp := none }

/-- What a caller can do. -/
inductive ObjOp
  | data (src : Source)
  | mask (m : MaskArg)
  | sources
  | refresh
  | interped

/-- One operation; exceptions are caught by the caller. -/
def ObjOp.run : ObjOp → Obj → Obj
  | .data src, s => (assignData src s).2
  | .mask m, s => (assignMask m s).2
  | .sources, s => (readSources s).2
  | .refresh, s => (refreshSources s).2
  | .interped, s => (readInterp s).2

/-- A sequence of operations. -/
def runOps (l : List ObjOp) (s : Obj) : Obj := l.foldl (fun s op => op.run s) s

end PI
