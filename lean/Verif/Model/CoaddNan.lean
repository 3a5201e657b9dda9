import Verif.Model.Coadd

/-!
# The divisions of `coadd` with their NaNs (properimage/operations.py:535-539, 563-568)

`Model/Coadd` reads a quotient with zero denominator as zero. Here the same last step is written with values that may be
not-a-number: `none` is numpy's nan. Everything before the last step is as in `Model/Coadd`.
-/

namespace PI

open Complex

/-- `a / b` of complex arrays: nan (or inf) where the denominator is zero. -/
noncomputable def quotN (a b : ℂ) : Option ℂ := if b = 0 then none else some (a / b)

/-- `_ifftwn(X)` (default normalisation) of coefficients that may be nan: every pixel is a sum over all coefficients, so that
one nan makes all of them nan. -/
noncomputable def ifftDefaultN (X : Img (Option ℂ)) : Img (Option ℂ) :=
  if ∀ k < X.h, ∀ l < X.w, X.px k l ≠ none then (ifftDefault (X.map fun z => z.getD 0)).map some
  else Img.const X.h X.w none

/-- What `coadd` returns, with nan. -/
structure CoaddOutN where
  R : Img (Option ℂ)
  Pr : Img (Option ℂ)
  mask : NMask

/-- The last step (operations.py:535-539, 563-568): `R = _ifftwn(S_hat / np.sqrt(P_hat))`, `P_r = P_r / np.sum(P_r)`. -/
noncomputable def finishCoaddN (psfShape : ℕ) (acc : Acc) : CoaddOutN :=
  ⟨ifftDefaultN (acc.S.zip (fun s p => quotN s (csqrt p)) acc.P),
    (coaddPsfRaw acc.P psfShape).map fun z => quotN z (imSum (coaddPsfRaw acc.P psfShape)), acc.mask⟩

/-- `coadd` from the aligned list on (operations.py:494-577). -/
noncomputable def coaddCoreN (lt : List CoImg → List CoImg → Option Bool) (imgs : List CoImg)
    (psfShape : ℕ) (nProcs : ℤ) : Py CoaddOutN := do
  let gs ← globalShape imgs
  let acc ← if 1 < nProcs then accParallel lt gs imgs nProcs.toNat else accSequential gs imgs
  pure (finishCoaddN psfShape acc)

end PI
