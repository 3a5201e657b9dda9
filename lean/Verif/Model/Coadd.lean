import Verif.Base.DFT
import Verif.Model.Chunk

/-!
# Model of `operations.coadd` (properimage/operations.py:440-577) and of
`utils._align_for_coadd` (properimage/utils.py:301-330)

Arithmetic is exact (complex numbers). `S_hat / np.sqrt(P_hat)` divides by zero where `P_hat`
vanishes; Lean's `x / 0 = 0` stands for numpy's nan/inf there, and statements that depend on those
frequencies carry the hypothesis that they do not occur.
-/

namespace PI

open Complex

/-- What `coadd` reads of one SingleImage after transparency and PSF set-up:
`data.shape`, `s_hat_comp`, `psf_hat_sqnorm()`, `zp`, `var`, `data.mask`. -/
structure CoImg where
  h : ℕ
  w : ℕ
  sHat : ℕ → ℕ → ℂ
  psfSq : ℕ → ℕ → ℂ
  zp : ℝ
  var : ℝ
  mask : NMask

/-- `((an_img.zp / an_img.var) ** 2) * an_img.psf_hat_sqnorm()` (operations.py:449, 553). -/
noncomputable def CoImg.weighted (im : CoImg) : Img ℂ :=
  ⟨im.h, im.w, fun i j => (((im.zp / im.var) ^ 2 : ℝ) : ℂ) * im.psfSq i j⟩

/-- `an_img.s_hat_comp` as an array. -/
def CoImg.comp (im : CoImg) : Img ℂ := ⟨im.h, im.w, im.sHat⟩

/-- `np.add(a, s, out=s)`: broadcasting of `a` against `s` must give the shape of `s`
(numpy raises ValueError otherwise). -/
def addOut {K : Type} [Add K] (a s : Img K) : Py (Img K) :=
  if (a.h = s.h ∨ a.h = 1) ∧ (a.w = s.w ∨ a.w = 1) then
    .ok ⟨s.h, s.w, fun i j =>
      a.px (if a.h = s.h then i else 0) (if a.w = s.w then j else 0) + s.px i j⟩
  else .error .ValueError

/-- The running sums of one accumulation loop. -/
structure Acc where
  S : Img ℂ
  P : Img ℂ
  mask : NMask

/-- The loop body: operations.py:447-453 and 551-557. -/
noncomputable def accStep (acc : Acc) (im : CoImg) : Py Acc := do
  let S ← addOut im.comp acc.S
  let P ← addOut im.weighted acc.P
  let m ← acc.mask.maskOr im.mask
  pure ⟨S, P, m⟩

/-- `process_chunk_joblib(chunk, global_shape)` (operations.py:440-454). `chunk[0]` on an empty
chunk raises IndexError. -/
noncomputable def processChunk (gs : ℕ × ℕ) (chunk : List CoImg) : Py Acc :=
  match chunk with
  | [] => .error .IndexError
  | im0 :: _ => chunk.foldlM accStep ⟨Img.const gs.1 gs.2 0, Img.const gs.1 gs.2 0, im0.mask⟩

/-- Adding one worker's result, real and imaginary parts separately (operations.py:522-533). -/
noncomputable def combineStep (acc res : Acc) : Py Acc := do
  let Sre ← addOut (res.S.map re) (acc.S.map re)
  let Sim ← addOut (res.S.map im) (acc.S.map im)
  let Pre ← addOut (res.P.map re) (acc.P.map re)
  let Pim ← addOut (res.P.map im) (acc.P.map im)
  let m ← acc.mask.maskOr res.mask
  pure ⟨Sre.zip Complex.mk Sim, Pre.zip Complex.mk Pim, m⟩

/-- The un-normalised PSF image `_ifftwn(fourier_shift(np.sqrt(P_hat), psf_shape))`
(operations.py:536-537, 565-566). -/
noncomputable def coaddPsfRaw (P : Img ℂ) (psfShape : ℕ) : Img ℂ :=
  ifftDefault (fourierShift (P.map csqrt) ((psfShape : ℝ), (psfShape : ℝ)))

/-- operations.py:538, 567: `P_r = P_r / np.sum(P_r)`. -/
noncomputable def coaddPsf (P : Img ℂ) (psfShape : ℕ) : Img ℂ :=
  (coaddPsfRaw P psfShape).map fun z => z / imSum (coaddPsfRaw P psfShape)

/-- operations.py:539, 568: `R = _ifftwn(S_hat / np.sqrt(P_hat))` (default normalisation, although
the forward transforms use `norm="ortho"`). -/
noncomputable def coaddR (S P : Img ℂ) : Img ℂ :=
  ifftDefault (S.zip (fun s p => s / csqrt p) P)

/-- What `coadd` returns. -/
structure CoaddOut where
  R : Img ℂ
  Pr : Img ℂ
  mask : NMask

/-- The final step, common to both paths. -/
noncomputable def finishCoadd (psfShape : ℕ) (acc : Acc) : CoaddOut :=
  ⟨coaddR acc.S acc.P, coaddPsf acc.P psfShape, acc.mask⟩

/-- `np.min` of the list of heights/widths (operations.py:494-496); empty list raises. -/
def globalShape : List CoImg → Py (ℕ × ℕ)
  | [] => .error .ValueError
  | im :: rest => .ok (rest.foldl (fun m x => min m x.h) im.h, rest.foldl (fun m x => min m x.w) im.w)

/-- Sequential accumulation (operations.py:543-557). -/
noncomputable def accSequential (gs : ℕ × ℕ) (imgs : List CoImg) : Py Acc :=
  match imgs with
  | [] => .error .IndexError
  | im0 :: _ => imgs.foldlM accStep ⟨Img.const gs.1 gs.2 0, Img.const gs.1 gs.2 0, im0.mask⟩

/-- Parallel accumulation (operations.py:511-534). `joblib.Parallel` returns the results in task
order; an exception in a worker is re-raised (simplification: the first failing chunk decides).
`lt` is the comparison of chunks used by `chunk_it`'s sort. -/
noncomputable def accParallel (lt : List CoImg → List CoImg → Option Bool) (gs : ℕ × ℕ)
    (imgs : List CoImg) (nJobs : ℕ) : Py Acc := do
  let chunks ← chunkIt floatArith lt imgs nJobs (nJobs + 2)
  let results ← chunks.mapM (processChunk gs)
  results.foldlM combineStep
    ⟨Img.const gs.1 gs.2 0, Img.const gs.1 gs.2 0, some (Img.const gs.1 gs.2 false)⟩

/-- `coadd` from the aligned list on (operations.py:494-577). -/
noncomputable def coaddCore (lt : List CoImg → List CoImg → Option Bool) (imgs : List CoImg)
    (psfShape : ℕ) (nProcs : ℤ) : Py CoaddOut := do
  let gs ← globalShape imgs
  let acc ← if 1 < nProcs then accParallel lt gs imgs nProcs.toNat else accSequential gs imgs
  pure (finishCoadd psfShape acc)

/-! ## Wrapping and aligning the input list -/

/-- An element of the caller's list: something else (`raw`) or a SingleImage object. -/
inductive Elem (ρ ω : Type)
  | raw (r : ρ)
  | obj (o : ω)

/-- The conversion loop of operations.py:479-481. It assigns into the caller's list, so the list is
part of the result even when the constructor `mk` raises half way. -/
def wrapList {ρ ω : Type} (mk : ρ → Py ω) : List (Elem ρ ω) → List (Elem ρ ω) × Py Unit
  | [] => ([], .ok ())
  | .obj o :: rest => let r := wrapList mk rest; (.obj o :: r.1, r.2)
  | .raw x :: rest =>
    match mk x with
    | .ok o => let r := wrapList mk rest; (.obj o :: r.1, r.2)
    | .error e => (.raw x :: rest, .error e)

/-- `utils._align_for_coadd` (utils.py:301-330): `reg animg ref` stands for `aa.register` followed
by the construction of a new image. -/
def alignForCoadd {ω : Type} (reg : ω → ω → Py ω) (imgs : List ω) : Py (List ω) :=
  match imgs with
  | [] => .error .IndexError
  | ref :: rest => (rest.mapM fun a => reg a ref).map (ref :: ·)

/-! ## s_hat_comp of an image with a single PSF -/

/-- The inputs of `s_hat_comp` / `psf_hat_sqnorm` for an image whose PSF does not vary
(single_image.py:1268-1281, 1293 and 1389-1394). -/
structure SinglePsf where
  interped : Img ℂ
  psf : Img ℂ
  com : ℝ × ℝ
  zp : ℝ
  var : ℝ
  mask : NMask

/-- `_fftwn(psf, s=self.data.shape, norm="ortho")`. -/
noncomputable def SinglePsf.psfHat (d : SinglePsf) : Img ℂ :=
  fftOrtho (padTo d.interped.h d.interped.w d.psf)

/-- single_image.py:1273-1281, 1293: `(zp/var**2) * fourier_shift(interped_hat*psf_hat.conj(), com)`. -/
noncomputable def SinglePsf.sHatComp (d : SinglePsf) : Img ℂ :=
  (fourierShift ((fftOrtho d.interped).zip (fun m p => m * (starRingEnd ℂ) p) d.psfHat) d.com).map
    fun z => ((d.zp / d.var ^ 2 : ℝ) : ℂ) * z

/-- single_image.py:1393-1394. -/
noncomputable def SinglePsf.psfSqnorm (d : SinglePsf) : Img ℂ :=
  d.psfHat.map fun p => p * (starRingEnd ℂ) p

/-- The record `coadd` accumulates for such an image. -/
noncomputable def SinglePsf.toCoImg (d : SinglePsf) : CoImg where
  h := d.interped.h
  w := d.interped.w
  sHat := d.sHatComp.px
  psfSq := d.psfSqnorm.px
  zp := d.zp
  var := d.var
  mask := d.mask

end PI
