import Verif.Base.Py

/-!
# Model of `utils.crossmatch` and `utils._matching` (properimage/utils.py:69-138)

Simplifications: coordinates are exact rationals; the model carries *squared* distances and squared
radii (same order and same comparisons, no square root), so `dist` below is the square of the code's.
-/

namespace PI

/-- A row of coordinates. -/
abbrev Pt := List ℚ

/-- Squared euclidean distance. -/
def sqDist (a b : Pt) : ℚ := (List.zipWith (fun x y => (x - y) ^ 2) a b).sum

/-- A squared upper bound; `none` is infinity. -/
abbrev Bound := Option ℚ

/-- `d < bound` (strict, as in scipy). -/
def ltBound (d : ℚ) (b : Bound) : Bool :=
  match b with
  | none => true
  | some r => decide (d < r)

/-- What `cKDTree.query(x, k=1, distance_upper_bound=b)` returns for one point:
distance (`none` = inf) and index. -/
abbrev QRes := Option ℚ × ℕ

/-- `cKDTree(X2).query(x, ..)` as a parameter: data, bound, point. -/
abbrev Query := List Pt → Bound → Pt → QRes

/-- The contract of scipy's KD-tree (documentation): the nearest point among those strictly inside
the bound, ties broken arbitrarily; otherwise distance inf and index `N2`. -/
def KdContract (q : Query) : Prop :=
  ∀ X b x, (∃ (k : ℕ) (y : Pt), X[k]? = some y ∧ ltBound (sqDist x y) b = true ∧
      q X b x = (some (sqDist x y), k) ∧ ∀ y' ∈ X, sqDist x y ≤ sqDist x y') ∨
    ((∀ y ∈ X, ltBound (sqDist x y) b = false) ∧ q X b x = (none, X.length))

/-- Index of a first minimum of `sqDist x` in `X`, starting the count at `k`. -/
def bruteMin (x : Pt) : List Pt → ℕ → Option (ℚ × ℕ)
  | [], _ => none
  | y :: ys, k =>
    match bruteMin x ys (k + 1) with
    | none => some (sqDist x y, k)
    | some (d, i) => if sqDist x y ≤ d then some (sqDist x y, k) else some (d, i)

/-- A concrete query meeting the contract (used for examples and to show it is satisfiable). -/
def bruteQuery : Query := fun X b x =>
  match bruteMin x X 0 with
  | none => (none, X.length)
  | some (d, i) => if ltBound d b then (some d, i) else (none, X.length)

/-- `crossmatch(X1, X2, max_distance)` (utils.py:69-105). `D1`, `D2` are the second dimensions of
the two arrays. -/
def crossmatch (q : Query) (D1 D2 : ℕ) (X1 X2 : List Pt) (b : Bound) : Py (List QRes) :=
  if D1 ≠ D2 then .error .ValueError else .ok (X1.map (q X2 b))

/-- The value `np.zeros_like(ind_) - 13133` leaves on unmatched rows (utils.py:126). -/
def unmatchedId : ℤ := -13133

/-- One round of the loop utils.py:127-133. `dist_ind` are the results master → cat. -/
def matchOne (ids : List ℤ) (distInd : List QRes) (i : ℕ) (r : QRes) : ℤ :=
  match r.1 with
  | none => unmatchedId
  | some _ =>
    match distInd[r.2]? with
    | some (some _, indS) => if indS = i then (ids[r.2]?).getD unmatchedId else unmatchedId
    | _ => unmatchedId

/-- `_matching(master, cat, masteridskey, radius)` (utils.py:108-138): `ids` is `master[idkey]`,
`b` the (squared) radius. -/
def matching (q : Query) (masterXY : List Pt) (ids : List ℤ) (catXY : List Pt) (b : Bound) :
    List ℤ :=
  let distInd := masterXY.map (q catXY b)
  let distInd_ := catXY.map (q masterXY b)
  distInd_.zipIdx.map fun p => matchOne ids distInd p.2 p.1

/-- utils.py:135-137: the boolean mask returned with `masked=True`. -/
def matchMask (IDs : List ℤ) : List Bool := IDs.map fun k => decide (0 < k)

end PI
