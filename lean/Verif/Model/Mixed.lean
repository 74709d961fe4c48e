import Verif.Model.Metrics

/-!
# Model of the `'mixed'` distance and the `'jaccard'` sparsity of `metrics/_counterfactual.py`

`scipy.spatial.distance.cdist` on two matrices of one row: the cells are converted to `float` (`ValueError` for a string), and the
distance of the two rows is put in a 1×1 matrix, whose `np.mean` is its only entry. `'jaccard'` on numbers is the number of columns that
differ over the number of columns that are not zero in both rows, and 0 when there is no such column. Rows are numpy arrays; column indices
are not negative. The square root is a parameter (`Real.sqrt` in the theorems). The argument `mad` of `_mixed_distance` is not used by the
code, and `ratio_cont`, `agg` are always `None` in the calls through `DISTANCES`.
-/

namespace Teacher

variable {K : Type}

/-- `x.reshape(1, -1)[:, idx]` (metrics/_counterfactual.py:38-39, 54): `IndexError` when out of range. -/
def pickCols (a : List (Cell K)) (idx : List Nat) : Py (List (Cell K)) :=
  idx.mapM (fun i => match a[i]? with
    | some c => Except.ok c
    | none => .error .indexError)

/-- conversion of a row to `float` inside `cdist`: a string is a `ValueError`. -/
def toFloats (a : List (Cell K)) : Py (List K) :=
  a.mapM (fun c => match c with
    | .num x => Except.ok x
    | .str _ => .error .valueError)

/-- `cdist(u, v, metric='euclidean')` of two rows of floats. -/
def euclidRow [Field K] (sqrt : K → K) (u v : List K) : K := sqrt ((List.zipWith (fun x y => (x - y) * (x - y)) u v).sum)

/-- `cdist(u, v, metric='jaccard')` of two rows of floats. -/
def jaccardRow [Field K] [DecidableEq K] (u v : List K) : K :=
  let nonzero := (u.zip v).filter (fun p => p.1 ≠ 0 ∨ p.2 ≠ 0)
  let num := (nonzero.filter (fun p => p.1 ≠ p.2)).length
  if nonzero.length = 0 then 0 else (num : K) / (nonzero.length : K)

/-- `cdist` of the columns `idx` of two rows (metrics/_counterfactual.py:38-43, 54-58), with the `np.mean` after it. -/
def colsDistance (f : List K → List K → K) (a b : List (Cell K)) (idx : List Nat) : Py K := do
  let u ← pickCols a idx
  let v ← pickCols b idx
  let u ← toFloats u
  let v ← toFloats v
  pure (f u v)

section
variable [Field K] [LinearOrder K]

/-- `_mixed_distance` (metrics/_counterfactual.py:67-78). -/
def cfMixedDistance (sqrt : K → K) (a b : List (Cell K)) (cont disc : List Nat) : Py K := do
  let n := b.length
  let dc ← colsDistance (euclidRow sqrt) a b cont
  let dd ← colsDistance jaccardRow a b disc
  let rc ← pyDiv (cont.length : K) (n : K)
  let rd ← pyDiv (disc.length : K) (n : K)
  pure (rc * dc + rd * dd)

/-- `DISTANCES[distance]` (metrics/_counterfactual.py:121-124). -/
def distanceNamed (sqrt : K → K) (name : String) (a b : List (Cell K)) (cont disc : List Nat) (mad : Nat → Option K) : Py K :=
  if name = "mixed" then cfMixedDistance sqrt a b cont disc
  else if name = "moth" then mothDistance a b cont disc mad
  else .error .keyError

/-- `sparsity_dissimilarity` (metrics/_counterfactual.py:180-198) for any value of `distance`. -/
def sparsityNamed (name : String) (a b : List (Cell K)) : Py K :=
  if name = "mismatch" then sparsity a b
  else if a.length ≠ b.length then .error .valueError
  else do
    let u ← toFloats a
    let v ← toFloats b
    pure (jaccardRow u v)

/-- `DISTANCES[distance](cf_instance, closest_instance, …)` where the closest instance may be the list `[]`, which has no attribute `shape`
(metrics/_counterfactual.py:221, 68). -/
def distanceToClosest (sqrt : K → K) (name : String) (a : List (Cell K)) (closest : Option (List (Cell K))) (cont disc : List Nat)
    (mad : Nat → Option K) : Py K :=
  match closest with
  | some r => distanceNamed sqrt name a r cont disc mad
  | none => if name = "mixed" then .error .attributeError else distanceNamed sqrt name a [] cont disc mad

/-- `implausibility` (metrics/_counterfactual.py:201-221) for any value of `distance`. -/
def implausibilityNamed (sqrt : K → K) (name : String) (cf : List (Cell K)) (dataset : List (List (Cell K))) (cont disc : List Nat)
    (mad : Nat → Option K) : Py K := do
  let closest ← closestInstance (fun r => distanceNamed sqrt name cf r cont disc mad) dataset
  distanceToClosest sqrt name cf closest cont disc mad

/-- `instability` (metrics/_counterfactual.py:224-257) for any value of `distance`. -/
def instabilityNamed (sqrt : K → K) (name : String) (inst cf closest cfClosest : List (Cell K)) (cont disc : List Nat)
    (mad : Nat → Option K) : Py K := do
  let d1 ← distanceNamed sqrt name cf cfClosest cont disc mad
  let d2 ← distanceNamed sqrt name inst closest cont disc mad
  pyDiv d1 (d2 + 1)

end

end Teacher
