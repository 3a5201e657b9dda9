import Verif.Model.Construct

/-!
# Model of the front end of `operations.subtract` (properimage/operations.py:104-145)

Conversion of the arguments, alignment and the shape check. The part of the image constructor that is
not in `construct` (background, stamp shape) changes neither pixels nor mask but can raise: it is a
parameter, as is `astroalign.register`. Temporary files are left out (they are in `Model/Clean`).
-/

namespace PI

/-- An argument of `subtract`: anything an image can be built from, or an image object, which is a
`SingleImageGaussPSF` (`gauss`) or a plain `SingleImage`. -/
inductive SubArg
  | raw (src : Source)
  | object (gauss : Bool) (d : MA)

/-- External parts: the rest of the constructor, and `astroalign.register(source, target)`, which
returns the registered pixels and the footprint mask. -/
structure FrontEnv where
  rest : MA → Py Unit
  register : MA → MA → Py (Img FVal × Img Bool)

/-- `SI(src, mask=mask, smooth_psf=...)` (single_image.py:108-176); `borders=False` is the default. -/
def buildSI (env : FrontEnv) (src : Source) (mask : MaskArg) : Py MA := do
  let d ← construct {} src mask
  let _ ← env.rest d
  pure d

/-- What the constructor makes of the argument: an image object is none of the supported types
(single_image.py:192-213, 279-303). -/
def SubArg.asSource : SubArg → Source
  | .raw s => s
  | .object _ _ => .other

/-- `arg.data` (operations.py:118, 127): `str` and HDU lists have no such attribute; that of a primary
HDU is its array; that of an array is a memory buffer, which no constructor supports; that of a masked
array is the array without its mask; that of an image object is its masked array. -/
def SubArg.dataAttr : SubArg → Py Source
  | .object _ d => .ok (.masked d)
  | .raw (.primary a _) => .ok (.array a)
  | .raw (.array _) => .ok .other
  | .raw (.masked d) => .ok (.array d.data)
  | .raw (.path _) | .raw .missing | .raw (.hduList _) | .raw .other => .error .AttributeError

/-- `isinstance(arg, SI)` (operations.py:104-113, 122). -/
def SubArg.isSI (fitted : Bool) : SubArg → Option MA
  | .object gauss d => if fitted && !gauss then none else some d
  | .raw _ => none

/-- Conversion of one argument (operations.py:113-129). -/
def wrapArg (env : FrontEnv) (fitted : Bool) (a : SubArg) : Py MA :=
  match a.isSI fitted with
  | some d => .ok d
  | none =>
    match buildSI env a.asSource .absent with
    | .ok d => .ok d
    | .error _ => do
      let s ← a.dataAttr
      buildSI env s .absent

/-- `arr[:h, :w]` -/
def cutTo {α : Type} (h w : ℕ) (a : Img α) : Img α := ⟨min h a.h, min w a.w, a.px⟩

/-- Alignment (operations.py:131-141). -/
def alignNew (env : FrontEnv) (ref new : MA) : Py MA := do
  let r ← env.register new ref
  buildSI env (.array (cutTo ref.data.h ref.data.w r.1)) (.array (cutTo ref.data.h ref.data.w r.2))

/-- operations.py:104-150: the two images the subtraction works on, and `mix_mask`. -/
def subtractFront (env : FrontEnv) (fitted align : Bool) (ref new : SubArg) :
    Py (MA × MA × NMask) := do
  let r ← wrapArg env fitted ref
  let n ← wrapArg env fitted new
  let n ← if align then alignNew env r n else pure n
  if n.data.shape ≠ r.data.shape then .error .ValueError
  else do
    let m ← n.mask.maskOr r.mask
    pure (r, n, m)

end PI
