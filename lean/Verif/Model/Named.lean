import Verif.Model.Construct

/-!
# Model of the choice of the mask by name (properimage/single_image.py:165-181, 342-441)

`attached_to` is the path if the image is given as a string, else the name of its class, and without a mask the branch
is chosen by comparing that name with three class names; any other name is opened as a FITS file. `Model/Construct`
chooses by the kind of the object instead; this file follows the names. Files are a function of their name (`none`:
cannot be opened). Subclasses of `ndarray` that carry one of the three names are not modelled.
-/

namespace PI

/-- What is passed as `img`. -/
inductive PyObj
  | str (s : String)
  | ndarray (a : Img FVal)
  | subarray (cls : String) (d : MA)
  | hduList (f : FitsFile)
  | primary (a : Img FVal) (gain : Option ℚ)
  | other (cls : String)

/-- `attached_to` (single_image.py:175-181). -/
def PyObj.attachedTo : PyObj → String
  | .str s => s
  | .ndarray _ => "ndarray"
  | .subarray c _ => c
  | .hduList _ => "HDUList"
  | .primary _ _ => "PrimaryHDU"
  | .other c => c

/-- The object, for the header, gain and data setters, which look at its kind (single_image.py:190-213, 279-311). -/
def PyObj.source (fs : String → Option FitsFile) : PyObj → Source
  | .str s => match fs s with
    | some f => .path f
    | none => .missing
  | .ndarray a => .array a
  | .subarray _ d => .masked d
  | .hduList f => .hduList f
  | .primary a g => .primary a g
  | .other _ => .other

/-- `ma.masked_invalid(self.__img.data)` (single_image.py:354): a string has no attribute `data`. -/
def invalidOfData : PyObj → Py MA
  | .primary a _ => .ok (MA.maskedInvalid ⟨a, none⟩)
  | _ => .error .AttributeError

/-- `ma.masked_invalid(self.__img)` (single_image.py:358): `np.isfinite` raises on a string. -/
def invalidOfImg : PyObj → Py MA
  | .ndarray a => .ok (MA.maskedInvalid ⟨a, none⟩)
  | _ => .error .TypeError

/-- The branch for "HDUList" (single_image.py:359-384): an item of a string has no attribute `data`. -/
def maskOfList (fs : String → Option FitsFile) (o : CtorOpts) (x : PyObj) (d : MA) : Py MA :=
  match x with
  | .hduList f =>
    match f.extend with
    | none => .error .KeyError
    | some true =>
      match f.ext1 with
      | none => .error .IndexError
      | some m => .ok (d.setMask (some (thresholdMask (threshOf o) m)))
    | some false => .ok (MA.maskedInvalid ⟨f.data, none⟩)
  | .str s => match (fs s).bind fun f => f.extend with
    | none => .error .KeyError
    | some _ => .error .AttributeError
  | _ => .error .AttributeError

/-- The branch for every other name: `fits.open(self.attached_to)` (single_image.py:386-441). -/
def maskOfFile (fs : String → Option FitsFile) (o : CtorOpts) (name : String) (d : MA) : Py MA :=
  match fs name with
  | none => .ok (MA.maskedInvalid d)
  | some f =>
    match f.extend with
    | none => .ok (saturationMask d)
    | some true =>
      match f.ext1 with
      | none => .ok (MA.maskedInvalid ⟨d.data, none⟩)
      | some m => .ok (d.setMask (some (thresholdMask (threshOf o) m)))
    | some false => .ok d

/-- Without a mask: the branch with the given name (single_image.py:349-441). -/
def guessByName (fs : String → Option FitsFile) (o : CtorOpts) (x : PyObj) (d : MA) (name : String) : Py MA :=
  if name = "PrimaryHDU" then invalidOfData x
  else if name = "ndarray" then invalidOfImg x
  else if name = "HDUList" then maskOfList fs o x d
  else maskOfFile fs o name d

/-- The mask setter up to the threshold filters, by name (single_image.py:319-447). -/
def chooseByName (fs : String → Option FitsFile) (o : CtorOpts) (x : PyObj) (mask : MaskArg) (d : MA) : Py MA :=
  match mask with
  | .file m => .ok (d.setMask (some (thresholdMask (threshOf o) m)))
  | .array m => .ok (d.setMask (some m))
  | .other => .ok (saturationMask d)
  | .absent =>
    if o.guess then guessByName fs o x d x.attachedTo else .ok (saturationMask d)

/-- `SingleImage(img, mask=..., ...)`: the stored pixels and mask. -/
def constructByName (fs : String → Option FitsFile) (o : CtorOpts) (x : PyObj) (mask : MaskArg) : Py MA := do
  let d ← setData o (x.source fs)
  let d ← chooseByName fs o x mask d
  finishMask d

end PI
