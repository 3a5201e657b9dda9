import Verif.Model.Coadd
import Mathlib.Data.Real.Basic

/-!
# The accumulation of `operations.coadd` in floating point (properimage/operations.py:440-454, 511-534, 543-557)

The same loops as in `Model/Coadd`, with every sum rounded by `rnd`. numpy adds complex numbers by adding, and rounding, the real
and the imaginary parts. What the images contribute (`s_hat_comp` and the weighted `psf_hat_sqnorm()`) is taken as computed: `wt`
is the value of `((an_img.zp / an_img.var) ** 2) * an_img.psf_hat_sqnorm()`.
Simplification: no overflow and no subnormal numbers.
-/

namespace PI

open Complex

/-- Round half to even on the reals. -/
noncomputable def roundEvenR (x : ℝ) : ℤ :=
  if x - ⌊x⌋ < 1 / 2 then ⌊x⌋
  else if 1 / 2 < x - ⌊x⌋ then ⌊x⌋ + 1
  else if ⌊x⌋ % 2 = 0 then ⌊x⌋ else ⌊x⌋ + 1

/-- binary64 rounding of a real number: 53 significant bits, to nearest, ties to even. -/
noncomputable def rnd64 (x : ℝ) : ℝ :=
  if x = 0 then 0
  else (roundEvenR (x * 2 ^ (52 - Int.log 2 |x|)) : ℝ) * 2 ^ (Int.log 2 |x| - 52)

/-- `a + s` of complex numbers in floating point. -/
noncomputable def caddR (rnd : ℝ → ℝ) (a s : ℂ) : ℂ := ⟨rnd (a.re + s.re), rnd (a.im + s.im)⟩

/-- `np.add(a, s, out=s)` with the addition `add` (see `addOut`). -/
def addOutR {K : Type} (add : K → K → K) (a s : Img K) : Py (Img K) :=
  if (a.h = s.h ∨ a.h = 1) ∧ (a.w = s.w ∨ a.w = 1) then
    .ok ⟨s.h, s.w, fun i j =>
      add (a.px (if a.h = s.h then i else 0) (if a.w = s.w then j else 0)) (s.px i j)⟩
  else .error .ValueError

/-- The loop body: operations.py:447-453 and 551-557. -/
noncomputable def accStepR (rnd : ℝ → ℝ) (wt : CoImg → Img ℂ) (acc : Acc) (im : CoImg) : Py Acc := do
  let S ← addOutR (caddR rnd) im.comp acc.S
  let P ← addOutR (caddR rnd) (wt im) acc.P
  let m ← acc.mask.maskOr im.mask
  pure ⟨S, P, m⟩

/-- One loop over images: `process_chunk_joblib` (operations.py:440-454), and the sequential loop (operations.py:543-557). -/
noncomputable def processChunkR (rnd : ℝ → ℝ) (wt : CoImg → Img ℂ) (gs : ℕ × ℕ) (chunk : List CoImg) : Py Acc :=
  match chunk with
  | [] => .error .IndexError
  | im0 :: _ => chunk.foldlM (accStepR rnd wt) ⟨Img.const gs.1 gs.2 0, Img.const gs.1 gs.2 0, im0.mask⟩

/-- Adding one worker's result, real and imaginary parts separately (operations.py:522-533). -/
noncomputable def combineStepR (rnd : ℝ → ℝ) (acc res : Acc) : Py Acc := do
  let Sre ← addOutR (fun a s => rnd (a + s)) (res.S.map re) (acc.S.map re)
  let Sim ← addOutR (fun a s => rnd (a + s)) (res.S.map im) (acc.S.map im)
  let Pre ← addOutR (fun a s => rnd (a + s)) (res.P.map re) (acc.P.map re)
  let Pim ← addOutR (fun a s => rnd (a + s)) (res.P.map im) (acc.P.map im)
  let m ← acc.mask.maskOr res.mask
  pure ⟨Sre.zip Complex.mk Sim, Pre.zip Complex.mk Pim, m⟩

/-- The accumulated `S_hat`, `P_hat` and mask (operations.py:494-557). -/
noncomputable def coaddSumsR (rnd : ℝ → ℝ) (wt : CoImg → Img ℂ) (lt : List CoImg → List CoImg → Option Bool)
    (imgs : List CoImg) (nProcs : ℤ) : Py Acc := do
  let gs ← globalShape imgs
  if 1 < nProcs then do
    let chunks ← chunkIt floatArith lt imgs nProcs.toNat (nProcs.toNat + 2)
    let results ← chunks.mapM (processChunkR rnd wt gs)
    results.foldlM (combineStepR rnd)
      ⟨Img.const gs.1 gs.2 0, Img.const gs.1 gs.2 0, some (Img.const gs.1 gs.2 false)⟩
  else processChunkR rnd wt gs imgs

end PI
