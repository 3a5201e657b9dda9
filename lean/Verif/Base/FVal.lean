import Verif.Base.Img

/-!
# Floating-point pixel values

A pixel is NaN, an infinity, or a finite number (exact rational; rounding is not modelled).
Models numpy, not a file of `/repo`.
-/

namespace PI

/-- A floating-point value. -/
inductive FVal
  | nan | pinf | ninf
  | fin (q : ℚ)
deriving DecidableEq

namespace FVal

/-- `np.isfinite` -/
def isFinite : FVal → Bool
  | fin _ => true
  | _ => false

/-- `x > c` (false for NaN). -/
def gt (c : ℚ) : FVal → Bool
  | fin q => decide (c < q)
  | pinf => true
  | _ => false

/-- `x < c` (false for NaN). -/
def lt (c : ℚ) : FVal → Bool
  | fin q => decide (q < c)
  | ninf => true
  | _ => false

/-- `x == 0` -/
def isZero : FVal → Bool
  | fin q => decide (q = 0)
  | _ => false

/-- `x + y` -/
def add : FVal → FVal → FVal
  | fin a, fin b => fin (a + b)
  | nan, _ => nan
  | _, nan => nan
  | pinf, ninf => nan
  | ninf, pinf => nan
  | pinf, _ => pinf
  | _, pinf => pinf
  | ninf, _ => ninf
  | _, ninf => ninf

/-- `x * g` for a finite `g`. -/
def mulQ (g : ℚ) : FVal → FVal
  | fin a => fin (a * g)
  | nan => nan
  | pinf => if g = 0 then nan else if 0 < g then pinf else ninf
  | ninf => if g = 0 then nan else if 0 < g then ninf else pinf

/-- `np.sum` -/
def sum (l : List FVal) : FVal := l.foldl add (fin 0)

end FVal

end PI
