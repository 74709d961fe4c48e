import Verif.Model.Mixed
import Verif.Model.Utils

/-!
# Model of the distances that no entry of `DISTANCES` uses with these options

`normalized_square_euclidean_distance` (utils/distance_functions.py:17-20), `mad_cityblock`, `_continuous_distance` with
`metric='mad'`, and the options `agg` and `ratio_cont` of metrics/_counterfactual.py:20-78.

`cdist` with a function as metric does not convert the cells, so that a string meets the subtraction (`TypeError`). A division of numpy
arrays by zero gives `nan` or `inf`, both are the error `nan` here. The table `X` holds numbers.
-/

namespace Teacher

section
variable {K : Type} [Field K] [LinearOrder K]

/-- `normalized_square_euclidean_distance(ranges)(x, y)` (utils/distance_functions.py:17-20); the three arrays have the same length, otherwise
`ValueError` (broadcasting an array of length 1 is not modelled). -/
def normSqEuclid (ranges x y : List K) : Py K := do
  let d ← npSub x y
  if d.length = ranges.length then do
    let q ← (d.zip ranges).mapM (fun p => npDiv |p.1| p.2)
    pure (q.map (fun t => t * t)).sum
  else .error .valueError

/-- `np.median(l)`: the mean of the two middle elements of the sorted list, which are the same one when the length is odd; `nan` for no
values. -/
def npMedian (l : List K) : Py K :=
  let s := l.insertionSort (· ≤ ·)
  match s[(l.length - 1) / 2]?, s[l.length / 2]? with
  | some a, some b => .ok ((a + b) / 2)
  | _, _ => .error .nan

/-- `median_abs_deviation` of one column (metrics/_counterfactual.py:31): the median of the distances to the median. -/
def medianAbsDev (l : List K) : Py K := do
  let m ← npMedian l
  npMedian (l.map (fun x => |x - m|))

/-- `v if v != 0 else 1.0` (metrics/_counterfactual.py:32). -/
def zeroToOne (v : K) : K := if v ≠ 0 then v else 1

/-- `mad_cityblock` (metrics/_counterfactual.py:20-25) on the picked cells. -/
def madCityblock (u v : List (Cell K)) (mad : List K) : Py K := do
  let d ← (u.zip v).mapM (fun p => cellDiff p.1 p.2)
  let q ← (d.zip mad).mapM (fun p => npDiv p.1 p.2)
  pure q.sum

/-- `_continuous_distance` with `metric='mad'` up to the 1×1 matrix (metrics/_counterfactual.py:30-37). -/
def contMad (a b : List (Cell K)) (cont : List Nat) (X : List (List K)) : Py K := do
  let cols ← cont.mapM (column X)
  let mad ← cols.mapM medianAbsDev
  let u ← pickCols a cont
  let v ← pickCols b cont
  madCityblock u v (mad.map zeroToOne)

/-- the aggregation of a matrix with the only entry `d` (metrics/_counterfactual.py:42-49, 57-64): the `mean`, the `max` and the `min` are
that entry; another value of `agg` returns `None`. -/
def aggregate (agg : Option String) (d : K) : Option K :=
  if agg = none ∨ agg = some "mean" then some d
  else if agg = some "max" then some d
  else if agg = some "min" then some d
  else none

/-- `_continuous_distance(x, cf_list, continuous_features, metric, X, agg)` (metrics/_counterfactual.py:28-49), `metric` being `'mad'` or
`'euclidean'`. -/
def cdistContinuous (sqrt : K → K) (mad : Bool) (a b : List (Cell K)) (cont : List Nat) (X : List (List K)) (agg : Option String) :
    Py (Option K) := do
  let d ← (if mad then contMad a b cont X else colsDistance (euclidRow sqrt) a b cont)
  pure (aggregate agg d)

/-- `_categorical_distance` (metrics/_counterfactual.py:52-64). -/
def cdistCategorical (a b : List (Cell K)) (disc : List Nat) (agg : Option String) : Py (Option K) := do
  let d ← colsDistance jaccardRow a b disc
  pure (aggregate agg d)

/-- the two weights of `_mixed_distance` (metrics/_counterfactual.py:71-76). -/
def mixedRatios (n : Nat) (cont disc : List Nat) (ratio : Option K) : Py (K × K) :=
  match ratio with
  | none => do
    let rc ← pyDiv (cont.length : K) (n : K)
    let rd ← pyDiv (disc.length : K) (n : K)
    pure (rc, rd)
  | some r => .ok (r, 1 - r)

/-- `ratio * dist` where `dist` may be `None` (metrics/_counterfactual.py:77). -/
def timesOpt (r : K) (d : Option K) : Py K :=
  match d with
  | some x => .ok (r * x)
  | none => .error .typeError

/-- `_mixed_distance` with all its options (metrics/_counterfactual.py:67-78). -/
def mixedDistanceOpt (sqrt : K → K) (a b : List (Cell K)) (cont disc : List Nat) (ratio : Option K) (agg : Option String) : Py K := do
  let dc ← cdistContinuous sqrt false a b cont [] agg
  let dd ← cdistCategorical a b disc agg
  let r ← mixedRatios b.length cont disc ratio
  let tc ← timesOpt r.1 dc
  let td ← timesOpt r.2 dd
  pure (tc + td)

end

end Teacher
