import Verif.Model.Construct

/-!
# Model of what reaches `sep.Background` (properimage/single_image.py:190-271, 352-389, 517-543)

How an array is stored in memory: kind of number, byte order, and whether rows or columns are contiguous once it has
been copied. `ndarray.astype` and the product with the gain keep the order of the axes ("K"); `masked_invalid` keeps
kind, byte order and order of axes. The machine is little-endian, so that `<f4` is native; a gain that is a NumPy
double (which would make the product double precision, which sep takes too) is not distinguished. What `sep` accepts
is modelled after its source; its other requirements are not modelled.
-/

namespace PI

/-- NumPy's kinds of real numbers. -/
inductive NumKind
  | f2 | f4 | f8 | i1 | i2 | i4 | i8 | u1 | u2 | u4 | u8 | bool
deriving DecidableEq, Repr

/-- The storage of an array. -/
structure Layout where
  dtype : NumKind
  native : Bool
  rowMajor : Bool

/-- The checks of sep on an array of the given shape: native byte order, C-contiguous (an array with one row or one
column always is, when its axes were packed), and one of its five kinds of numbers. -/
def sepTakes (l : Layout) (h w : ℕ) : Bool :=
  l.native && (l.rowMajor || decide (h ≤ 1) || decide (w ≤ 1)) &&
    (match l.dtype with
      | .f4 | .f8 | .i4 | .u1 | .bool => true
      | _ => false)

/-- Whether the mask setter replaces the converted pixels by the array of the caller (single_image.py:352-389). -/
def keepsRaw (o : CtorOpts) (src : Source) : MaskArg → Bool
  | .absent => o.guess && (match src with
    | .primary _ _ => true
    | .array _ => true
    | .hduList f => f.extend == some false
    | _ => false)
  | _ => false

/-- The storage of the pixels after data and mask setter, for an input stored as `l`. -/
def storedLayout (o : CtorOpts) (src : Source) (mask : MaskArg) (l : Layout) : Layout :=
  if keepsRaw o src mask then l else { l with dtype := .f4, native := true }

/-- Construction up to the background (single_image.py:125-138, 521-543): the array and the mask given to sep; `none`
is a call without mask. -/
def bkgInput (o : CtorOpts) (src : Source) (mask : MaskArg) (l : Layout) : Py (Img FVal × Option (Img Bool)) := do
  let d ← construct o src mask
  if sepTakes (storedLayout o src mask l) d.data.h d.data.w then
    pure (d.data, if d.maskArray.any then some d.maskArray else none)
  else .error .ValueError

/-- `repr(img)` (single_image.py:153-155). -/
def reprOf (d : MA) : String := s!"SingleImage {d.data.h}, {d.data.w}"

end PI
