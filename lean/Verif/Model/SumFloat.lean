import Verif.Model.Sim
import Verif.Model.CoaddFloat

/-!
# Dividing an array by its sum in floating point

`a / np.sum(a)` occurs in `Psf` and `astropy_Psf` (properimage/simtools.py:61, 82), for the star stamps
(properimage/single_image.py:855), for the elements of the PSF basis (single_image.py:1069-1086) and in `get_psf_xy`
(single_image.py:1436). Here every addition of the sum and every division is rounded by `rnd`. The order of the additions is a
binary tree; `numpyPlan` is the one numpy uses for a contiguous array of doubles. What is in the array is taken as computed.
Simplification: no overflow and no subnormal numbers.
-/

namespace PI

/-- An order in which numbers are added up. -/
inductive SumPlan
  | leaf (k : ℕ)
  | node (a b : SumPlan)

/-- The number of additions that the worst placed number goes through. -/
def SumPlan.depth : SumPlan → ℕ
  | .leaf _ => 0
  | .node a b => max a.depth b.depth + 1

/-- The computed sum of the numbers `x 0, x 1, …`. -/
def SumPlan.eval (rnd : ℝ → ℝ) (x : ℕ → ℝ) : SumPlan → ℝ
  | .leaf k => x k
  | .node a b => rnd (a.eval rnd x + b.eval rnd x)

/-- `for k in ks: res += x[k]` -/
def SumPlan.thenAdd (t : SumPlan) (ks : List ℕ) : SumPlan := ks.foldl (fun t k => .node t (.leaf k)) t

/-- One of the eight running sums: elements `s + j, s + j + 8, …`, `m + 1` of them. -/
def lanePlan (s m j : ℕ) : SumPlan := (SumPlan.leaf (s + j)).thenAdd ((List.range m).map fun i => s + j + 8 * (i + 1))

/-- From 8 to 128 numbers: eight running sums, added in pairs, and what is left over one by one. -/
def blockPlan (s n : ℕ) : SumPlan :=
  (SumPlan.node
    (.node (.node (lanePlan s (n / 8 - 1) 0) (lanePlan s (n / 8 - 1) 1))
      (.node (lanePlan s (n / 8 - 1) 2) (lanePlan s (n / 8 - 1) 3)))
    (.node (.node (lanePlan s (n / 8 - 1) 4) (lanePlan s (n / 8 - 1) 5))
      (.node (lanePlan s (n / 8 - 1) 6) (lanePlan s (n / 8 - 1) 7)))).thenAdd
    ((List.range (n % 8)).map fun i => s + 8 * (n / 8) + i)

/-- numpy's pairwise summation of `n ≥ 1` numbers from position `s` on (`DOUBLE_pairwise_sum`). -/
def numpyPlan (s n : ℕ) : SumPlan :=
  if n < 8 then (SumPlan.leaf s).thenAdd ((List.range (n - 1)).map fun i => s + 1 + i)
  else if h : n ≤ 128 then blockPlan s n
  else .node (numpyPlan s (n / 2 - n / 2 % 8)) (numpyPlan (s + (n / 2 - n / 2 % 8)) (n - (n / 2 - n / 2 % 8)))
termination_by n
decreasing_by
  all_goals omega

/-- The pixels in C order. -/
def Img.flatFn (a : Img ℝ) (k : ℕ) : ℝ := a.px (k / a.w) (k % a.w)

/-- `a / np.sum(a)`; `none` is an array of NaN and infinities. -/
noncomputable def divSumR (rnd : ℝ → ℝ) (t : SumPlan) (a : Img ℝ) : Option (Img ℝ) :=
  if t.eval rnd a.flatFn = 0 then none else some ⟨a.h, a.w, fun i j => rnd (a.px i j / t.eval rnd a.flatFn)⟩

/-- `Psf` (simtools.py:39-61) with `theta = 0`, summed as `plan` says for the number of pixels; `val i j` is the computed product of
the two densities. -/
noncomputable def simPsfR (rnd : ℝ → ℝ) (plan : ℕ → SumPlan) (val : ℤ → ℤ → ℝ) (N X Y0 : ℚ) : Py (Option (Img ℝ)) :=
  let Y := if Y0 = 0 then X else Y0
  let n := (pyInt N).toNat
  let r := psfRange N X Y
  (setItems ⟨n, n, fun _ _ => (0 : ℝ)⟩
    ((pyRange r.1 r.2).flatMap fun i => (pyRange r.1 r.2).map fun j => (i, j, val i j))).map (divSumR rnd (plan (n * n)))

end PI
