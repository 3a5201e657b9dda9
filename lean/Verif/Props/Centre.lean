import Verif.Model.Subtract
import Verif.Props.VarPsfNorm

/-!
# The centre of mass used by `subtract`
-/

namespace PI
open Finset

/-- C24: the point by which `subtract` moves its filters is the point of the PSF stamp about which its moments vanish. -/
theorem centerOfMass_balance (p : Img ℝ) (hT : psfTotal p ≠ 0) (c : ℝ × ℝ) :
    BalancePoint p c ↔ c = centerOfMass p :=
  balancePoint_iff p hT c

/-- The balance point of a 1×3 stamp 1 : 2 : 5. -/
theorem centerOfMass_example :
    centerOfMass ⟨1, 3, fun _ j => if j = 0 then 1 else if j = 1 then 2 else 5⟩ = (0, 3 / 2) := by
  refine ((centerOfMass_balance _ ?_ _).1 ?_).symm
  · norm_num [psfTotal, sum_range_succ]
  · constructor <;> norm_num [sum_range_succ]

end PI
