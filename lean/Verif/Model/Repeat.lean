import Verif.Model.Transparency
import Verif.Model.Stamps
import Verif.Model.Coadd

/-!
# The star catalogues through several calls of `subtract` and `coadd` (properimage/operations.py:150-157, 505-508)

`subtract` first estimates the zero points from the star catalogues the two image objects carry
(`transparency`, operations.py:150), then asks both for their PSF (operations.py:156-157). The first
time an image is asked it cuts out its stars and, if at least 15 of them are good, drops the others
from its catalogue (single_image.py:927-937); afterwards the PSF is there already. Which stars are
dropped is a parameter here (`rej`: the numbers of the rejected rows, given the rows; Model/Stamps
models how they are found). The images are different objects.
-/

namespace PI

/-- `best_sources` after the stars were cut out (single_image.py:927-937, `extractStamps`): the rejected rows are
deleted, if at least 15 others remain. -/
def dropRejected (rej : List Src → List ℕ) (c : Cat) : Cat :=
  if 15 ≤ (c.rows.length : ℤ) - (rej c.rows).length then
    { c with rows := deleteIdx c.rows (rej c.rows), det := c.det.map fun d => deleteIdx d (rej c.rows) }
  else c

/-- The catalogues of all the images, and which images have their PSF already. -/
structure Shelf where
  cats : Store
  seen : ℕ → Bool

/-- `get_variable_psf` as far as the catalogue of image `k` is concerned. -/
def Shelf.measure (rej : ℕ → List Src → List ℕ) (s : Shelf) (k : ℕ) : Shelf :=
  if s.seen k then s
  else { cats := s.cats.set k (dropRejected (rej k) (s.cats k)), seen := fun j => if j = k then true else s.seen j }

/-- `subtract(ref, new)` (operations.py:150-157) as far as zero points and catalogues are concerned: the zero points
given to the two images, and the catalogues afterwards. -/
noncomputable def subtractZps (q : Query) (lsqr : ℕ → ℕ → List ℝ → ℕ → ℝ) (rej : ℕ → List Src → List ℕ) (ref new : ℕ)
    (s : Shelf) : Py (List ℝ × Shelf) :=
  match transparency q lsqr s.cats [ref, new] none with
  | .error e => .error e
  | .ok (zps, _, cats) => .ok (zps, (({ s with cats := cats } : Shelf).measure rej ref).measure rej new)

/-- `coadd(imgs)` (operations.py:505-508) as far as zero points and catalogues are concerned: the zero points given to the
images, which then are all measured in turn (`_setup_kl_a_fields`), and the catalogues afterwards. -/
noncomputable def coaddZps (q : Query) (lsqr : ℕ → ℕ → List ℝ → ℕ → ℝ) (rej : ℕ → List Src → List ℕ) (imgs : List ℕ)
    (s : Shelf) : Py (List ℝ × Shelf) :=
  match transparency q lsqr s.cats imgs none with
  | .error e => .error e
  | .ok (zps, _, cats) => .ok (zps, imgs.foldl (Shelf.measure rej) { s with cats := cats })

/-- What the next coadd reads of an image that was coadded before: the new zero point, everything else as remembered, the
matched filter too (`s_hat_comp`, single_image.py:1261-1264, is kept with the zero point it was made with). -/
def CoImg.again (im : CoImg) (z : ℝ) : CoImg := { im with zp := z }

end PI
