import Verif.Model.Utils
import Verif.Model.MaskGrow

/-!
# Model of `_align_for_diff` (properimage/utils.py:246-298)

The file system is a function from paths to FITS files: the pixels of the first HDU, its header, and the mask plane that
may follow. `astroalign.register(source, target)`, `np.median` of the new image and `hdr.set("comment", …)` are parameters.
The casts to float of the second attempt do not change values.
-/

namespace PI

/-- A FITS file with a header of type `H`. -/
structure HduFile (H : Type) where
  data : Img FVal
  hdr : H
  mask : Option (Img Bool) := none

/-- What `astroalign.register` returns: an array or masked array (old versions), or a pair of image and footprint
(the versions that `_align_for_coadd` unpacks). -/
inductive RegRes
  | array (a : Img FVal)
  | masked (m : MA)
  | pair (a : Img FVal) (footprint : Img Bool)

/-- `np.ma.masked_invalid(a)` (utils.py:266, 273). -/
def maskedInvalid (a : Img FVal) : MA := ⟨a, some (a.map fun v => !v.isFinite)⟩

/-- Whether a pixel of a mask file counts: anything but zero (NaN too). -/
def nonZero : FVal → Bool
  | .fin q => decide (q ≠ 0)
  | _ => true

/-- `np.ma.masked_array(a, mask=m)` (utils.py:270): a mask of one pixel is repeated, one of the same size but another shape
reshaped, others are refused. -/
def maskedArray (a m : Img FVal) : Py MA :=
  if m.shape = a.shape then .ok ⟨a, some (m.map nonZero)⟩
  else if m.h * m.w = 1 then .ok ⟨a, some ⟨a.h, a.w, fun _ _ => nonZero (m.px 0 0)⟩⟩
  else if m.h * m.w = a.h * a.w then
    .ok ⟨a, some ⟨a.h, a.w, fun i j => nonZero (m.px ((i * a.w + j) / m.w) ((i * a.w + j) % m.w))⟩⟩
  else .error .MaskError

/-- `x.filled(v)` as an array (utils.py:279). -/
def MA.filledArr (x : MA) (v : FVal) : MA :=
  ⟨⟨x.data.h, x.data.w, fun i j => if x.mask.marks i j then v else x.data.px i j⟩, none⟩

/-- The new image with the mask of its mask file, or its invalid pixels masked (utils.py:267, 269-273). -/
def readNew {H : Type} (fs : List Char → Option (HduFile H)) (newmask : Option (List Char)) (n : HduFile H) : Py MA :=
  match newmask with
  | none => .ok (maskedInvalid n.data)
  | some p =>
    match fs p with
    | none => .error .OSError
    | some m => maskedArray n.data m.data

/-- The two attempts at a registration (utils.py:278-283): the first argument of `register` is the reference. -/
def registerTwice (reg : MA → MA → Py RegRes) (median : MA → FVal) (ref new : MA) : Py RegRes :=
  match reg ref (new.filledArr (median new)) with
  | .error .ValueError => reg ref new
  | x => x

/-- What is written for a result of `register` (utils.py:285-296). Only arrays can be: `fits.writeto` raises KeyError for a
pair, and `new2.mask.astype` is a scalar, which `fits.ImageHDU` refuses with TypeError, for a masked array without mask
array. -/
def fileOf {H : Type} (hdr : H) : RegRes → Py (HduFile H)
  | .pair _ _ => .error .KeyError
  | .masked ⟨_, none⟩ => .error .TypeError
  | .masked ⟨a, some m⟩ => .ok ⟨a, hdr, some m⟩
  | .array a => .ok ⟨a, hdr, none⟩

/-- The file that `_align_for_diff` writes (utils.py:266-296). -/
def alignedFile {H : Type} (reg : MA → MA → Py RegRes) (median : MA → FVal) (note : H → List Char → List Char → H)
    (refpath newpath : List Char) (newmask : Option (List Char)) (fs : List Char → Option (HduFile H)) :
    Py (HduFile H) := do
  let r ← (fs refpath).elim (.error .OSError) .ok
  let n ← (fs newpath).elim (.error .OSError) .ok
  let new ← readNew fs newmask n
  let res ← registerTwice reg median (maskedInvalid r.data) new
  fileOf (note n.hdr newpath refpath) res

/-- `_align_for_diff` (utils.py:246-298) on a file system `fs`: what it returns or raises, and the files afterwards. -/
def alignForDiff {H : Type} (reg : MA → MA → Py RegRes) (median : MA → FVal) (note : H → List Char → List Char → H)
    (refpath newpath : List Char) (newmask : Option (List Char)) (fs : List Char → Option (HduFile H)) :
    Py (List Char) × (List Char → Option (HduFile H)) :=
  match alignedFile reg median note refpath newpath newmask fs with
  | .error e => (.error e, fs)
  | .ok c => (.ok (destFile newpath), fun f => if f = destFile newpath then some c else fs f)

end PI
