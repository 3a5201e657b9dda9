import Verif.Base.FVal
import Mathlib.Algebra.BigOperators.Group.Finset.Sigma
import Mathlib.Data.Rat.Floor
import Mathlib.Data.Complex.Basic

/-!
# Model of the remaining utilities (properimage/utils.py:40-66, 246-298, 333-362)

Pixels are exact rationals (complex numbers with rational parts in `store_img`). `sigma_clipped_stats` is a
parameter: its `mean` and `std`. `ndimage.label` is a parameter with the contract `IsLabelling` of the
theorems. Of `_align_for_diff` only the name of its file is here, the rest is in `Model/AlignDiff`.
-/

namespace PI

/-! ## find_S_local_maxima -/

/-- `(v - mean) / std` with numpy's division by zero. -/
def signif (mean std v : ℚ) : FVal :=
  if std = 0 then (if v = mean then .nan else if mean < v then .pinf else .ninf)
  else .fin ((v - mean) / std)

/-- The result of `ndimage.label`: labels and their number. -/
structure Labels where
  num : ℕ
  lab : ℕ → ℕ → ℕ

/-- Sum over the pixels with label `k`. -/
def labSum (S : Img ℚ) (L : Labels) (k : ℕ) (f : ℕ → ℕ → ℚ) : ℚ :=
  ∑ i ∈ Finset.range S.h, ∑ j ∈ Finset.range S.w, if L.lab i j = k then f i j else 0

/-- Division of numpy floats. -/
def divF (a b : ℚ) : FVal :=
  if b = 0 then (if a = 0 then .nan else if 0 < a then .pinf else .ninf) else .fin (a / b)

/-- `ndimage.center_of_mass(S, labeled, [k])` -/
def centreOfMass (S : Img ℚ) (L : Labels) (k : ℕ) : FVal × FVal :=
  (divF (labSum S L k fun i j => S.px i j * i) (labSum S L k S.px),
   divF (labSum S L k fun i j => S.px i j * j) (labSum S L k S.px))

/-- `int(x)` of a float. -/
def intF : FVal → Py ℤ
  | .nan => .error .ValueError
  | .pinf => .error .OverflowError
  | .ninf => .error .OverflowError
  | .fin q => .ok (pyInt q)

/-- One turn of the loop (utils.py:358-359). -/
def maxEntry (S : Img ℚ) (mean std : ℚ) (x y : FVal) : Py (FVal × FVal × FVal) := do
  let i ← intF x
  let j ← intF y
  match pyIdx S.h i, pyIdx S.w j with
  | some p, some q => pure (y, x, signif mean std (S.px p q))
  | _, _ => .error .IndexError

/-- `find_S_local_maxima` (utils.py:333-362); `mean` and `std` are the clipped statistics. The argument
`neighborhood_size` is not used. -/
def findMaxima (label : Img Bool → Labels) (S : Img ℚ) (mean std threshold : ℚ) (_neighborhood : ℚ) :
    Py (List (FVal × FVal × FVal)) :=
  let L := label ⟨S.h, S.w, fun i j => (signif mean std (S.px i j)).gt threshold⟩
  (List.range L.num).mapM fun k =>
    maxEntry S mean std (centreOfMass S L (k + 1)).1 (centreOfMass S L (k + 1)).2

/-! ## store_img -/

/-- numpy element types that matter here. -/
inductive DType
  | bool | int | float32 | float64 | complex64 | complex128
deriving DecidableEq

/-- A 2-D array: element type, values (real and imaginary part), and the mask of a masked array (`none`: a plain
array). -/
structure StoreArr where
  dtype : DType
  px : Img (ℚ × ℚ)
  mask : Option NMask

/-- What is in a FITS image: the element type and the values. -/
structure FitsImg where
  dtype : DType
  px : Img ℚ

/-- The result of `store_img`: a primary HDU, with the mask HDU of a masked array. -/
structure StoreHDU where
  data : FitsImg
  mask : Option (Img ℕ)

/-- `isinstance(img[0, 0], complex)` (utils.py:50): complex128 is a subclass of Python's complex, complex64 is not;
a masked element is numpy's constant `masked`. -/
def firstIsComplex (a : StoreArr) : Bool :=
  decide (a.dtype = .complex128) &&
    match a.mask with
    | none => true
    | some m => !m.marks 0 0

/-- `fits.PrimaryHDU(data)`: no FITS type for complex and boolean arrays (KeyError). -/
def primaryHDU (a : StoreArr) : Py FitsImg :=
  match a.dtype with
  | .bool | .complex64 | .complex128 => .error .KeyError
  | d => .ok ⟨d, a.px.map Prod.fst⟩

/-- Lines 50-63 of `store_img`. `f32` is what astropy's
`hdu.scale(type="float32")` makes of a pixel (it rounds to whole numbers before it converts other types than
float32). A scalar mask is no image (TypeError). -/
def storeHDU (f32 : ℚ → ℚ) (a : StoreArr) : Py StoreHDU :=
  if a.px.h = 0 ∨ a.px.w = 0 then .error .IndexError
  else
    let b : StoreArr := if firstIsComplex a then ⟨.float64, a.px.map fun z => (z.1, 0), a.mask⟩ else a
    match b.mask with
    | some m => do
      let d ← primaryHDU b
      let d' : FitsImg := ⟨.float32, d.px.map f32⟩
      match m with
      | none => .error .TypeError
      | some mm => pure ⟨d', some (mm.map fun x => if x then 1 else 0)⟩
    | none => do
      let d ← primaryHDU b
      pure ⟨d, none⟩

/-- `store_img` (utils.py:40-66): what is returned and the files written. -/
def storeImg (f32 : ℚ → ℚ) (a : StoreArr) (path : Option String) :
    Py (Option StoreHDU × List (String × StoreHDU)) := do
  let h ← storeHDU f32 a
  match path with
  | some p => pure (none, [(p, h)])
  | none => pure (some h, [])

/-! ## The file of _align_for_diff -/

/-- Position of the text after the last slash: `os.path.basename` (POSIX). -/
def baseName (p : List Char) : List Char := (p.reverse.takeWhile (· ≠ '/')).reverse

/-- Everything up to and including the last slash. -/
def headPart (p : List Char) : List Char := (p.reverse.dropWhile (· ≠ '/')).reverse

/-- `os.path.dirname` (POSIX): trailing slashes are removed unless there is nothing else. -/
def dirName (p : List Char) : List Char :=
  let h := headPart p
  if h.all (· = '/') then h else (h.reverse.dropWhile (· = '/')).reverse

/-- `os.path.join(a, b)` (POSIX). -/
def joinPath (a b : List Char) : List Char :=
  if b.head? = some '/' then b
  else if a = [] ∨ a.getLast? = some '/' then a ++ b
  else a ++ '/' :: b

/-- The destination (utils.py:275-276). -/
def destFile (newpath : List Char) : List Char :=
  joinPath (dirName newpath) ("aligned_".toList ++ baseName newpath)

end PI
