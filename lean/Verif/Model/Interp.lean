import Verif.Base.PyS
import Verif.Base.Img
import Mathlib.Algebra.BigOperators.Group.Finset.Basic
import Mathlib.Algebra.Order.Field.Rat
import Mathlib.Data.Int.Interval

/-!
# Model of the interpolated image (properimage/single_image.py:85-87, 546-548, 1313-1375)

Pixels are exact rationals, `none` is NaN. `astropy.convolution` is modelled from its source:
`interpolate_replace_nans` keeps every pixel that is not NaN and replaces a NaN pixel by what
`convolve_fft(nan_treatment='interpolate')` gives there, the weighted mean of the valid pixels under the
kernel. With the default `boundary='fill', fill_value=0` the pixels outside of the image count as valid
pixels with value 0 (the flag `pad`; `pad = false` only serves to measure the weight inside the image), and
with the default `min_wt=0` a pixel with no weight at all becomes 0 (`astropy.convolution.convolve` would
leave it NaN, but the code passes `convolve_fft`). `detect_cosmics` is a parameter. Arrays live in a
heap, because the property `bkg_sub_img` makes a new array at each access.
-/

namespace PI
open PyS

/-- Profile of `Box2DKernel(10)`: 11 pixels, half weight at both ends (single_image.py:1323). -/
def boxW (d : ℤ) : ℚ := if |d| < 5 then 1 else if |d| = 5 then 1 / 2 else 0

/-- The kernel (up to its normalisation, which cancels). -/
def kern (d e : ℤ) : ℚ := boxW d * boxW e

/-- Offsets under the kernel. -/
def offs : Finset ℤ := Finset.Icc (-5) 5

/-- Whether `(r, c)` is a pixel of the image. -/
def inImg {α : Type} (a : Img α) (r c : ℤ) : Prop := 0 ≤ r ∧ r < a.h ∧ 0 ≤ c ∧ c < a.w

instance {α : Type} (a : Img α) (r c : ℤ) : Decidable (inImg a r c) := by
  unfold inImg; infer_instance

/-- Value at `(r, c)`, `none` if it does not count. -/
def sample (pad : Bool) (a : Img (Option ℚ)) (r c : ℤ) : Option ℚ :=
  if inImg a r c then a.px r.toNat c.toNat else if pad then some 0 else none

/-- Total weight of what counts around pixel `(i, j)`. -/
def wsum (pad : Bool) (a : Img (Option ℚ)) (i j : ℕ) : ℚ :=
  ∑ d ∈ offs, ∑ e ∈ offs, if (sample pad a (i + d) (j + e)).isSome then kern d e else 0

/-- Weighted sum of what counts around pixel `(i, j)`. -/
def vsum (pad : Bool) (a : Img (Option ℚ)) (i j : ℕ) : ℚ :=
  ∑ d ∈ offs, ∑ e ∈ offs, kern d e * (sample pad a (i + d) (j + e)).getD 0

/-- `interpolate_replace_nans(img, kernel, convolve=conv)` (single_image.py:85-87, 1352). -/
def replaceNans (a : Img (Option ℚ)) : Img (Option ℚ) :=
  ⟨a.h, a.w, fun i j => match a.px i j with
    | some v => some v
    | none => if wsum true a i j = 0 then some 0 else some (vsum true a i j / wsum true a i j)⟩

/-- `np.any(np.isnan(img))` -/
def anyNan (a : Img (Option ℚ)) : Bool := (a.map fun v => v.isNone).any

/-- The `while` loop (single_image.py:1355-1365), at most `fuel` rounds. -/
def nanLoop : ℕ → Img (Option ℚ) → Py (Img (Option ℚ))
  | 0, a => if anyNan a then .error .NonTermination else .ok a
  | fuel + 1, a => if anyNan a then nanLoop fuel (replaceNans a) else .ok a

/-- Lines 1351-1365: one interpolation, then the loop. -/
def interpolate (fuel : ℕ) (img : Img (Option ℚ)) : Py (Img (Option ℚ)) :=
  nanLoop fuel (replaceNans img)

/-- A numpy masked array. -/
structure MArr where
  data : Img (Option ℚ)
  mask : Img Bool

/-- `arr.filled(v)` -/
def MArr.filled (m : MArr) (v : Option ℚ) : Img (Option ℚ) :=
  ⟨m.data.h, m.data.w, fun i j => if m.mask.px i j then v else m.data.px i j⟩

/-- The image object: its pixels and background, the arrays made so far, and the cached result. -/
structure IState where
  data : MArr
  bkg : Img ℚ
  heap : List MArr := []
  interped : Option (Img (Option ℚ)) := none

/-- `self.data - self.__bkg`: a new array, with a copy of the mask (single_image.py:545-548). -/
def bkgSubImg : PyS IState ℕ := fun s =>
  (.ok s.heap.length, { s with heap := s.heap ++
    [⟨⟨s.data.data.h, s.data.data.w, fun i j => (s.data.data.px i j).map (· - s.bkg.px i j)⟩,
      s.data.mask⟩] })

/-- The array with reference `r`. -/
def deref (r : ℕ) : PyS IState MArr := fun s =>
  match s.heap[r]? with
  | some m => (.ok m, s)
  | none => (.error .AttributeError, s)

/-- `arr.mask = m` -/
def setMask (r : ℕ) (m : Img Bool) : PyS IState Unit := fun s =>
  (.ok (), { s with heap := s.heap.modify r fun x => { x with mask := m } })

/-- `interped` (single_image.py:1313-1375); `det` is `detect_cosmics`. -/
def interpedImg (fuel : ℕ) (det : Img (Option ℚ) → Img Bool → Py (Img Bool)) :
    PyS IState (Img (Option ℚ)) := do
  let s ← get
  match s.interped with
  | some a => pure a
  | none => do
    let a ← bkgSubImg >>= deref
    let b ← bkgSubImg >>= deref
    let crmask ← lift (det (a.filled (some (-9999))) b.mask)
    let m ← bkgSubImg >>= deref
    let r ← bkgSubImg
    setMask r (m.mask.zip (fun p q => p || q) crmask)
    let m ← bkgSubImg >>= deref
    let n ← bkgSubImg >>= deref
    let r ← bkgSubImg
    setMask r (m.mask.zip (fun p q => p || q) (n.data.map fun v => v.isNone))
    let x ← bkgSubImg >>= deref
    let img ← lift (interpolate fuel (x.filled none))
    modify fun s => { s with interped := some img }
    pure img

end PI
