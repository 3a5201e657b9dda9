import Mathlib.Data.Rat.Floor
import Mathlib.Data.Int.Log
import Mathlib.Data.List.Basic

/-!
# Python primitives used by the models

Exceptions are values (`Except PyErr`), Python indexing and slicing conventions are explicit.
These definitions model the Python language itself, not a file of `/repo`.
-/

namespace PI

/-- The exception classes that the modelled code can raise. -/
inductive PyErr
  | ValueError | IndexError | TypeError | KeyError | AttributeError
  | ZeroDivisionError | UnboundLocalError | OSError | LinAlgError | NoDataToPlot
  | NonTermination | OverflowError | MaskError
deriving DecidableEq, Repr

/-- The result of a Python computation: a value or a raised exception. -/
abbrev Py (α : Type _) := Except PyErr α

/-- Python's normalisation of an index into a sequence of length `n`:
`i` for `0 ≤ i < n`, `i + n` for `-n ≤ i < 0`, otherwise `IndexError` (`none`). -/
def pyIdx (n : ℕ) (i : ℤ) : Option ℕ :=
  if 0 ≤ i ∧ i < n then some i.toNat
  else if -(n : ℤ) ≤ i ∧ i < 0 then some (i + n).toNat
  else none

/-- Python's clipping of a slice bound against a sequence of length `n`. -/
def sliceBound (n : ℕ) (i : ℤ) : ℕ :=
  if i < 0 then (i + n).toNat else min i.toNat n

/-- `l[a:b]`. -/
def pySlice {α : Type _} (l : List α) (a b : ℤ) : List α :=
  (l.take (sliceBound l.length b)).drop (sliceBound l.length a)

/-- `int(q)`: truncation towards zero. -/
def pyInt (q : ℚ) : ℤ := if 0 ≤ q then ⌊q⌋ else ⌈q⌉

/-- Round half to even, as Python's `round` and IEEE-754 round-to-nearest do. -/
def roundHalfEven (q : ℚ) : ℤ :=
  if q - ⌊q⌋ < 1 / 2 then ⌊q⌋
  else if 1 / 2 < q - ⌊q⌋ then ⌊q⌋ + 1
  else if ⌊q⌋ % 2 = 0 then ⌊q⌋ else ⌊q⌋ + 1

/-- IEEE-754 binary64 rounding (round to nearest, ties to even, 53-bit significand) of a
rational. Simplification: the exponent range is unbounded (no overflow, no subnormals). -/
def fl64 (q : ℚ) : ℚ :=
  if q = 0 then 0
  else (roundHalfEven (q * 2 ^ (52 - Int.log 2 |q|)) : ℚ) * 2 ^ (Int.log 2 |q| - 52)

end PI
