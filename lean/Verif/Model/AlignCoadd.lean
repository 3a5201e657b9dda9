import Verif.Model.SubtractFront
import Verif.Model.Coadd

/-!
# Model of the alignment in `coadd(align=True)`, down to the masks of the aligned images
-/

namespace PI

/-- One turn of the loop of `utils._align_for_coadd` (utils.py:319-328). `env.register` is
`astroalign.register(·, ·, propagate_mask=True)`; the new image is built with the default options, whatever those of the old
one were, from the whole registered array and the registered mask. -/
def registerOne (env : FrontEnv) (animg ref : MA) : Py MA := do
  let r ← env.register animg ref
  buildSI env (.array r.1) (.array r.2)

/-- The image object in an element of the list. -/
def Elem.object {ρ ω : Type} : Elem ρ ω → Option ω
  | .obj o => some o
  | .raw _ => none

/-- The conversion of the list and its alignment (operations.py:485-491): what the caller's list holds afterwards, and the
aligned list. -/
def coaddAligned (env : FrontEnv) (l : List (Elem (Img FVal) MA)) : Py (List MA) :=
  let w := wrapList (fun a => buildSI env (.array a) .absent) l
  match w.2 with
  | .error e => .error e
  | .ok _ => alignForCoadd (registerOne env) (w.1.filterMap Elem.object)

end PI
