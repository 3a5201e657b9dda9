import Verif.Base.Img
import Mathlib.Analysis.Real.Sqrt
import Mathlib.Data.List.Sort

/-!
# numpy statistics on finite lists of exact numbers

Models numpy (`np.percentile`, `np.median`, `np.mean`, `np.std`), not a file of `/repo`.
-/

namespace PI

/-- Sorted in increasing order. -/
def sortQ (l : List ℚ) : List ℚ := l.insertionSort (· ≤ ·)

/-- `np.percentile(l, q)` with linear interpolation, for a non-empty `l` and `0 ≤ q ≤ 100`. -/
def percentile (q : ℚ) (l : List ℚ) : ℚ :=
  let s := sortQ l
  let h := q / 100 * ((s.length : ℚ) - 1)
  let k := ⌊h⌋₊
  s.getD k 0 + (h - k) * (s.getD (min (k + 1) (s.length - 1)) 0 - s.getD k 0)

/-- `np.median(l)`; NaN (`none`) for an empty list. -/
def median (l : List ℚ) : Option ℚ :=
  let s := sortQ l
  let n := s.length
  if n = 0 then none
  else if n % 2 = 1 then some (s.getD (n / 2) 0)
  else some ((s.getD (n / 2 - 1) 0 + s.getD (n / 2) 0) / 2)

/-- `np.mean(l)` -/
def meanQ (l : List ℚ) : ℚ := l.sum / l.length

/-- `np.std(l) ** 2` -/
def varQ (l : List ℚ) : ℚ := (l.map fun x => (x - meanQ l) ^ 2).sum / l.length

/-- `√v > t`, decided without the root. -/
def sqrtGt (v t : ℚ) : Bool := decide (t < 0) || decide (t ^ 2 < v)

theorem sqrtGt_iff (v t : ℚ) : sqrtGt v t = true ↔ (t : ℝ) < Real.sqrt v := by
  unfold sqrtGt
  rw [Bool.or_eq_true, decide_eq_true_iff, decide_eq_true_iff]
  by_cases ht : t < 0
  · refine iff_of_true (Or.inl ht) ?_
    have : (t : ℝ) < 0 := by exact_mod_cast ht
    exact lt_of_lt_of_le this (Real.sqrt_nonneg _)
  · rw [Real.lt_sqrt (by exact_mod_cast not_lt.1 ht)]
    constructor
    · rintro (h | h)
      · exact absurd h ht
      · exact_mod_cast h
    · intro h; right; exact_mod_cast h

end PI
