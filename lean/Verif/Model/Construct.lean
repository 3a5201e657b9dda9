import Verif.Model.MaskGrow

/-!
# Model of building a `SingleImage` (properimage/single_image.py:108-490)

Loading pixels, gain, header, borders, crop and mask. The rest of the constructor (background
estimation, stamp shape) does not change the stored pixels or the mask and is not part of this file.
FITS files are what they contain; float32 rounding is not modelled; `MaskedArray` stands for every
proper subclass of `ndarray` (no file of the class' name exists in the working directory).
-/

namespace PI

/-- The parts of a FITS file / HDU list that are used: primary pixels, `GAIN`, `EXTEND`, and the
pixels of extension 1 if there is one. -/
structure FitsFile where
  data : Img FVal
  gain : Option ℚ
  extend : Option Bool
  ext1 : Option (Img ℚ)

/-- What is passed as `img`. -/
inductive Source
  | path (f : FitsFile)
  | missing
  | array (a : Img FVal)
  | masked (d : MA)
  | hduList (f : FitsFile)
  | primary (a : Img FVal) (gain : Option ℚ)
  | other

/-- What is passed as `mask`: nothing, the pixels of a FITS file, an array, or something else (a
list, a scalar, ...). -/
inductive MaskArg
  | absent
  | file (m : Img ℚ)
  | array (m : Img Bool)
  | other

/-- The options of the constructor that matter here. -/
structure CtorOpts where
  guess : Bool := true
  borders : Bool := false
  crop : (ℤ × ℤ) × (ℤ × ℤ) := ((0, 0), (0, 0))
  gain : Option ℚ := none
  thresh : Option ℚ := none

/-- header and gain setters (single_image.py:279-311). -/
def gainOf (o : CtorOpts) : Source → Py ℚ
  | .missing => .error .OSError
  | .path f | .hduList f => .ok (o.gain.getD (f.gain.getD 1))
  | .primary _ g => .ok (o.gain.getD (g.getD 1))
  | .array _ | .masked _ => .ok (o.gain.getD 1)
  | .other => match o.gain with
    | some g => .ok g
    | none => .error .AttributeError

/-- The first part of the data setter (single_image.py:193-213). -/
def loadData : Source → Py MA
  | .missing => .error .OSError
  | .path f | .hduList f => .ok ⟨f.data, none⟩
  | .primary a _ => .ok ⟨a, none⟩
  | .array a => .ok ⟨a, some (Img.const a.h a.w false)⟩
  | .masked d => .ok ⟨d.data, some d.maskArray⟩
  | .other => .error .AttributeError

/-! ## Border detection (single_image.py:214-263) -/

/-- The index at which the running sum first exceeds zero (single_image.py:218-222 and the like). -/
def firstPosAux : FVal → ℕ → List FVal → Option ℕ
  | _, _, [] => none
  | s, x, v :: l => let s' := s.add v
    if s'.gt 0 then some x else firstPosAux s' (x + 1) l

/-- As `firstPosAux`, from the start. -/
def firstPos (l : List FVal) : Option ℕ := firstPosAux (.fin 0) 0 l

/-- Rows `[a, b)`, as a list of pixels. -/
def rowBlock (d : Img FVal) (a b : ℕ) : List FVal :=
  (List.range (b - a)).flatMap fun i => (List.range d.w).map fun j => d.px (a + i) j

/-- Columns `[a, b)`. -/
def colBlock (d : Img FVal) (a b : ℕ) : List FVal :=
  (List.range d.h).flatMap fun i => (List.range (b - a)).map fun j => d.px i (a + j)

/-- `not np.sum(block) == 0` -/
def nonEmpty (l : List FVal) : Bool := !(FVal.sum l).isZero

/-- `ldx` / `ldy` (single_image.py:217-227, 239-247): UnboundLocalError if the line has no positive
running sum. -/
def leftEdge (line : List FVal) (block : ℕ → List FVal) : Py ℕ :=
  match firstPos line with
  | none => .error .UnboundLocalError
  | some x => .ok (((List.range x).find? fun dx => nonEmpty (block dx)).getD x)

/-- `rdx` / `rdy` (single_image.py:228-237, 248-257); `none` is an unbound variable. -/
def rightEdge (n : ℕ) (line : List FVal) (block : ℕ → List FVal) : Option ℤ :=
  let r := firstPos line.reverse
  match (List.range (r.getD (line.length - 1))).find? fun dx => nonEmpty (block dx) with
  | some dx => some ((n : ℤ) - dx)
  | none => r.map fun (x : ℕ) => (n : ℤ) - x

/-- The middle row `data[sx // 2, :]`. -/
def midRow (d : Img FVal) : List FVal := (List.range d.w).map fun j => d.px (d.h / 2) j

/-- The middle column `data[:, sy // 2]`. -/
def midCol (d : Img FVal) : List FVal := (List.range d.h).map fun i => d.px i (d.w / 2)

/-- The bounds `ldx, rdx, ldy, rdy`. Note that `rdy` is searched on the middle *row* too. -/
def borderBounds (d : Img FVal) : Py (ℕ × ℤ × ℕ × ℤ) :=
  if d.h = 0 then .error .IndexError
  else do
    let ldx ← leftEdge (midRow d) fun dx => rowBlock d 0 (min dx d.h)
    let rdx := rightEdge d.h (midRow d) fun dx => rowBlock d (d.h - (dx + 1)) d.h
    let ldy ← leftEdge (midCol d) fun dy => colBlock d 0 (min dy d.w)
    let rdy := rightEdge d.w (midRow d) fun dy => colBlock d (d.w - (dy + 1)) d.w
    match rdx, rdy with
    | some rx, some ry => .ok (ldx, rx, ldy, ry)
    | _, _ => .error .UnboundLocalError

/-- single_image.py:214-263 -/
def trimBorders (d : MA) : Py MA := do
  let b ← borderBounds d.data
  pure (d.slice b.1 b.2.1 b.2.2.1 b.2.2.2)

/-- single_image.py:264-268 -/
def cropMA (c : (ℤ × ℤ) × (ℤ × ℤ)) (d : MA) : MA :=
  if c.1.1 + c.1.2 + (c.2.1 + c.2.2) = 0 then d
  else d.slice c.1.1 (-c.1.2) c.2.1 (-c.2.2)

/-- The data setter (single_image.py:190-271). -/
def setData (o : CtorOpts) (src : Source) : Py MA := do
  let g ← gainOf o src
  let d ← loadData src
  let d ← if o.borders then trimBorders d else pure d
  pure ((cropMA o.crop d).scale g)

/-! ## The mask setter -/

/-- `np.median(m) == 0`: for `n` values in increasing order, the mean of the middle one or two; the
median of nothing is NaN. -/
def medianIsZero (m : Img ℚ) : Bool :=
  let s := m.flat.mergeSort (fun a b => decide (a ≤ b))
  let n := s.length
  if n = 0 then false
  else if n % 2 = 1 then decide (s.getD (n / 2) 0 = 0)
  else decide ((s.getD (n / 2 - 1) 0 + s.getD (n / 2) 0) / 2 = 0)

/-- The threshold (single_image.py:1226-1239). -/
def threshOf (o : CtorOpts) : ℚ := o.thresh.getD 16

/-- Thresholding of a mask image (single_image.py:329-339, 377-380, 407-414). -/
def thresholdMask (t : ℚ) (m : Img ℚ) : Img Bool :=
  if medianIsZero m then m.map fun v => decide (t ≤ v) else m.map fun v => decide (v ≤ t)

/-- Masking of saturated pixels if 1000 pixels stay (single_image.py:424-432, 440-447). -/
def saturationMask (d : MA) : MA :=
  let m := d.maskedWhere (FVal.gt 65000)
  let good := match m.mask with
    | none => 1
    | some a => (a.map fun b => !b).count
  if good < 1000 then d else m

/-- The branches of the mask setter before the threshold filters (single_image.py:319-447). -/
def chooseMask (o : CtorOpts) (src : Source) (mask : MaskArg) (d : MA) : Py MA :=
  match mask with
  | .file m => .ok (d.setMask (some (thresholdMask (threshOf o) m)))
  | .array m => .ok (d.setMask (some m))
  | .other => .ok (saturationMask d)
  | .absent =>
    if o.guess then
      match src with
      | .primary a _ => .ok (MA.maskedInvalid ⟨a, none⟩)
      | .array a => .ok (MA.maskedInvalid ⟨a, none⟩)
      | .hduList f =>
        match f.extend with
        | none => .error .KeyError
        | some true =>
          match f.ext1 with
          | none => .error .IndexError
          | some m => .ok (d.setMask (some (thresholdMask (threshOf o) m)))
        | some false => .ok (MA.maskedInvalid ⟨f.data, none⟩)
      | .path f =>
        match f.extend with
        | none => .ok (saturationMask d)
        | some true =>
          match f.ext1 with
          | none => .ok (MA.maskedInvalid ⟨d.data, none⟩)
          | some m => .ok (d.setMask (some (thresholdMask (threshOf o) m)))
        | some false => .ok d
      | _ => .ok (MA.maskedInvalid d)
    else .ok (saturationMask d)

/-- `SingleImage(img, mask=..., ...)`: the stored pixels and mask. -/
def construct (o : CtorOpts) (src : Source) (mask : MaskArg) : Py MA := do
  let d ← setData o src
  let d ← chooseMask o src mask d
  finishMask d

end PI
