import Verif.Model.Coadd
import Verif.Model.PlotImage

/-!
# Empty inputs (C11, C112)
-/

namespace PI

/-- C11: without images `coadd` raises ValueError, for any number of workers. -/
theorem coadd_no_images (lt : List CoImg → List CoImg → Option Bool) (psfShape : ℕ) (n : ℤ) :
    coaddCore lt [] psfShape n = .error .ValueError := rfl

/-- C112: an array without pixels raises IndexError, and no figure is opened or closed. -/
theorem plotR_empty (a : PlotArr) (nbook : Bool) (figs : Figures) :
    (a.img.h = 0 ∨ a.img.w = 0) ↔ plotR a nbook figs = (.error .IndexError, figs) := by
  unfold plotR
  by_cases h : a.img.h = 0 ∨ a.img.w = 0
  · rw [if_pos h]
    exact iff_of_true h rfl
  · rw [if_neg h]
    refine iff_of_false h ?_
    simp only []
    intro q
    split at q
    · cases congrArg Prod.fst q
    · cases congrArg Prod.fst q

end PI
