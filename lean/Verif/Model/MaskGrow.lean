import Verif.Base.FVal

/-!
# numpy masked arrays, and the growth of the mask (properimage/single_image.py:445-487)
-/

namespace PI

/-- A numpy masked array: `.data` and `.mask` (`none` is `nomask`). -/
structure MA where
  data : Img FVal
  mask : NMask

namespace MA

/-- Mask and data have the same shape. -/
def WF (d : MA) : Prop := d.mask.HasShape d.data.h d.data.w

/-- `numpy.ma.getmaskarray` -/
def maskArray (d : MA) : Img Bool := d.mask.getD (Img.const d.data.h d.data.w false)

/-- `current.flat = src`: the values of `src` in C order, repeated as often as needed, whatever the
shapes; an empty source changes nothing. -/
def flatAssign (cur src : Img Bool) : Img Bool :=
  if src.h * src.w = 0 then cur
  else ⟨cur.h, cur.w, fun i j =>
    let p := (i * cur.w + j) % (src.h * src.w)
    src.px (p / src.w) (p % src.w)⟩

/-- `d.mask = m` (numpy's `MaskedArray.__setmask__` with a soft mask): assigning `nomask` to an array
mask clears it but keeps it an array. -/
def setMask (d : MA) (m : NMask) : MA :=
  match d.mask, m with
  | none, none => d
  | some _, none => { d with mask := some (Img.const d.data.h d.data.w false) }
  | _, some b => { d with mask := some (flatAssign d.maskArray b) }

/-- `ma.masked_where(cond(d), d)`: used as `masked_less` / `masked_greater`. Masked entries stay
masked; a result without masked entries is shrunk to `nomask` before being assigned. -/
def maskedWhere (c : FVal → Bool) (d : MA) : MA :=
  d.setMask (NMask.shrink ⟨d.data.h, d.data.w, fun i j => c (d.data.px i j) || d.mask.marks i j⟩)

/-- `ma.masked_invalid(d)`; its mask is always an array. -/
def maskedInvalid (d : MA) : MA :=
  let r := maskedWhere (fun v => !v.isFinite) d
  { r with mask := some r.maskArray }

/-- `d * g` for a scalar `g`: masked entries keep their data. -/
def scale (g : ℚ) (d : MA) : MA :=
  { d with data := ⟨d.data.h, d.data.w, fun i j =>
      if d.mask.marks i j then d.data.px i j else (d.data.px i j).mulQ g⟩ }

/-- `d[a:b, c:e]` -/
def slice (a b c e : ℤ) (d : MA) : MA :=
  let r0 := sliceBound d.data.h a
  let r1 := sliceBound d.data.h b
  let c0 := sliceBound d.data.w c
  let c1 := sliceBound d.data.w e
  { data := ⟨r1 - r0, c1 - c0, fun i j => d.data.px (r0 + i) (c0 + j)⟩
    mask := d.mask.map fun m => ⟨r1 - r0, c1 - c0, fun i j => m.px (r0 + i) (c0 + j)⟩ }

end MA

/-- `scipy.ndimage.convolve`'s default boundary mode ("reflect": `d c b a | a b c d | d c b a`) for
offsets -1, 0, 1: the index read instead of `i + o - 1`, `o ∈ {0, 1, 2}`. -/
def reflIdx (n i o : ℕ) : ℕ := min (i + o - 1) (n - 1)

/-- The nine offsets of a 3x3 window. -/
def offsets9 : List (ℕ × ℕ) := [(0, 0), (0, 1), (0, 2), (1, 0), (1, 1), (1, 2), (2, 0), (2, 1), (2, 2)]

/-- `convolve(mask.astype(int), np.ones((3, 3)))` at `(i, j)` (single_image.py:477-479). -/
def winCount (m : Img Bool) (i j : ℕ) : ℕ :=
  (offsets9.map fun o => if m.px (reflIdx m.h i o.1) (reflIdx m.w j o.2) then 1 else 0).sum

/-- `enlarged_mask` (single_image.py:477-480). -/
def enlarged (m : Img Bool) : Img Bool := ⟨m.h, m.w, fun i j => decide (2 < winCount m i j)⟩

/-- One growth iteration (single_image.py:476-481). -/
def growOnce (d : MA) : Py MA := do
  let m ← d.mask.maskOr (some (enlarged d.maskArray))
  pure (d.setMask m)

/-- `n` growth iterations (seven in the code). -/
def growN : ℕ → MA → Py MA
  | 0, d => .ok d
  | n + 1, d => growOnce d >>= growN n

/-- The last step of the mask setter (single_image.py:471-490): an array mask grows seven times,
`nomask` becomes an empty array mask. -/
def growOrEmpty (d : MA) : Py MA :=
  match d.mask with
  | some _ => growN 7 d
  | none => pure { d with mask := some (Img.const d.data.h d.data.w false) }

/-- The end of the mask setter (single_image.py:445-490): threshold filters, growth if the mask is an
array, an empty array mask otherwise. -/
def finishMask (d : MA) : Py MA := do
  let lower := d.maskedWhere (FVal.lt (-50))
  let greater := d.maskedWhere (FVal.gt 65000)
  let m1 ← d.mask.maskOr lower.mask
  let d1 := d.setMask m1
  let m2 ← d1.mask.maskOr greater.mask
  growOrEmpty (d1.setMask m2)

end PI
