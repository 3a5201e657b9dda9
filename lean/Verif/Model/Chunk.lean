import Verif.Base.Py

/-!
# Model of `utils.chunk_it` (properimage/utils.py:365-392)
-/

namespace PI

/-- The arithmetic `chunk_it` performs, as parameters, so that the loop can be run both in exact
arithmetic and in the binary64 arithmetic CPython uses. -/
structure ChunkArith (F : Type) where
  /-- `len(seq) / float(num)` -/
  ratio : ℕ → ℕ → F
  /-- the literal `0.0` -/
  zero : F
  /-- `last + avg` -/
  add : F → F → F
  /-- `last < len(seq)` -/
  lt : F → ℕ → Bool
  /-- `int(x)` -/
  toInt : F → ℤ

/-- utils.py:384-386, the `while` loop; `fuel` bounds the number of tests of the loop condition
and `none` means that it was not enough. -/
def chunkLoop {F α : Type} (A : ChunkArith F) (seq : List α) (avg : F) :
    ℕ → F → Option (List (List α))
  | 0, _ => none
  | fuel + 1, last =>
    if A.lt last seq.length then
      (chunkLoop A seq avg fuel (A.add last avg)).map
        (fun rest => pySlice seq (A.toInt last) (A.toInt (A.add last avg)) :: rest)
    else some []

/-- utils.py:381-386: `avg`, `out`, `last` and the loop, before the final ordering.
`float(0)` as divisor raises. -/
def chunkRaw {F α : Type} (A : ChunkArith F) (seq : List α) (num fuel : ℕ) :
    Py (List (List α)) :=
  if num = 0 then .error .ZeroDivisionError
  else match chunkLoop A seq (A.ratio seq.length num) fuel A.zero with
    | some out => .ok out
    | none => .error .NonTermination

/-- One insertion of a descending insertion sort whose comparison may raise (`none`). -/
def insertDesc {β : Type} (lt : β → β → Option Bool) (x : β) : List β → Option (List β)
  | [] => some [x]
  | y :: ys =>
    match lt x y with
    | none => none
    | some true => (insertDesc lt x ys).map (y :: ·)
    | some false => some (x :: y :: ys)

/-- `sorted(out, reverse=True)` with comparison `lt` on chunks, `none` if a comparison raises.
Simplification: insertion sort stands for timsort. -/
def sortedDesc {β : Type} (lt : β → β → Option Bool) : List β → Option (List β)
  | [] => some []
  | x :: xs => (sortedDesc lt xs).bind (insertDesc lt x)

/-- utils.py:365-392. `lt` is Python's `<` on chunks, `none` when it raises TypeError (objects) or
ValueError (numpy arrays): then the unsorted list is returned (utils.py:387-392). -/
def chunkIt {F α : Type} (A : ChunkArith F) (lt : List α → List α → Option Bool)
    (seq : List α) (num fuel : ℕ) : Py (List (List α)) :=
  (chunkRaw A seq num fuel).map (fun out => (sortedDesc lt out).getD out)

/-- Exact arithmetic. -/
def exactArith : ChunkArith ℚ where
  ratio := fun l n => (l : ℚ) / n
  zero := 0
  add := fun x y => x + y
  lt := fun x n => decide (x < n)
  toInt := pyInt

/-- CPython's arithmetic: binary64 with rounding after the division and after every addition
(utils.py:381, 385, 386; `last + avg` is computed twice with the same operands). -/
def floatArith : ChunkArith ℚ where
  ratio := fun l n => fl64 ((l : ℚ) / n)
  zero := 0
  add := fun x y => fl64 (x + y)
  lt := fun x n => decide (x < n)
  toInt := pyInt

end PI
