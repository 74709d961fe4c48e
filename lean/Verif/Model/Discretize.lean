import Verif.Model.FDT
import Verif.Model.Factual

/-!
# Model of `fuzzy/_discretize.py` and of `get_fuzzy_points`

The logarithm is a parameter `lg` (the theorems about entropy take `Real.logb 2`). The recursive calls of
`_fuzzy_discretization` pass the classes as a tuple instead of an array (lines 121-130), and then `class_variable == value`
depends on the numpy version; so the entropy used by the recursion is a parameter `ent tuple mu y` which may be any function,
different for arrays (`tuple = false`) and tuples (`tuple = true`).
-/

namespace Teacher

variable {C K : Type}

section
variable [Field K] [LinearOrder K]

/-- `np.sum(triangle[class_variable == value])` (fuzzy/_discretize.py:158). -/
def classCard [DecidableEq C] (mu : List K) (y : List C) (c : C) : K :=
  ((mu.zip y).map (fun p => if p.2 = c then p.1 else 0)).sum

/-- `_fuzzy_entropy` (fuzzy/_discretize.py:139-168) with `log2 = lg`. `C15_arguments_of_log` shows that `log2` only gets
positive arguments and that the divisor is not zero. -/
def fuzzyEntropy [LinearOrder C] (lg : K → K) (mu : List K) (y : List C) : K :=
  ((npUnique y).map (fun c =>
    if 0 < classCard mu y c then -(classCard mu y c / mu.sum) * lg (classCard mu y c / mu.sum) else 0)).sum

/-- `fuzz.trimf(variable, [a, b, c])`, with its assertion. -/
def trimf (a b c : K) (v : List K) : Py (List K) :=
  if a ≤ b ∧ b ≤ c then .ok (v.map (trimfAt a b c)) else .error .assertionError

/-- `_fuzzy_triangle` with two divisions (fuzzy/_discretize.py:171-213). -/
def triangle2 (v : List K) (lo hi : K) : Py (List (List K)) := do
  let a ← trimf lo lo hi v
  let b ← trimf lo hi hi v
  pure [a, b]

/-- `_fuzzy_triangle` with three divisions (fuzzy/_discretize.py:171-213); the dict keeps the order low, mid, high. -/
def triangle3 (v : List K) (lo mid hi : K) : Py (List (List K)) := do
  let a ← trimf lo lo mid v
  let b ← trimf lo mid hi v
  let c ← trimf mid hi hi v
  pure [a, b, c]

/-- `_weighted_fuzzy_entropy` (fuzzy/_discretize.py:216-239); the division by `len(class_variable)` never happens with an empty
column, for which `variable.max()` fails before. -/
def weightedEntropy (ent : List K → List C → K) (tri : List (List K)) (y : List C) : K :=
  (tri.map (fun t => t.sum * ent t y)).sum / (y.length : K)

/-- `_get_delta_point` (fuzzy/_discretize.py:242-282). -/
def deltaPoint [DecidableEq C] (lg : K → K) (ent : List K → List C → K) (global best : List (List K)) (y : List C) : K :=
  let n := y.dedup.length
  let old := (n : K) * weightedEntropy ent global y
  let new := (best.map (fun t => ((((t.zip y).filter (fun p => 0 < p.1)).map Prod.snd).dedup.length : K) * ent t y)).sum
  lg (3 ^ n - 2) - (old - new)

/-- `threshold` (fuzzy/_discretize.py:103-106): `log2(0)` is a `ValueError`. -/
def gainThreshold [DecidableEq C] (lg : K → K) (ent : List K → List C → K) (th : Option K) (global best : List (List K))
    (y : List C) (n : Nat) : Py K :=
  match th with
  | some t => .ok t
  | none => if n ≤ 1 then .error .valueError else .ok ((lg ((n : K) - 1) + deltaPoint lg ent global best y) / (n : K))

/-- body of the loop over the candidate points (fuzzy/_discretize.py:75-92); `none` is `best_wfe = inf`. -/
def bestPointStep (ent : List K → List C → K) (v : List K) (y : List C) (lo hi : K) (s : Option (K × K × List (List K)))
    (p : K) : Py (Option (K × K × List (List K))) :=
  if p ≠ lo ∧ p ≠ hi then do
    let tri ← triangle3 v lo p hi
    let w := weightedEntropy ent tri y
    match s with
    | none => pure (some (p, w, tri))
    | some (p₀, w₀, tri₀) => pure (if w < w₀ then some (p, w, tri) else some (p₀, w₀, tri₀))
  else pure s

/-- the loop over the candidate points (fuzzy/_discretize.py:75-92). -/
def bestPoint (ent : List K → List C → K) (v : List K) (y : List C) (lo hi : K) : Py (Option (K × K × List (List K))) :=
  (npUnique v).foldlM (bestPointStep ent v y lo hi) none

/-- `best_fuzzy_triangle` after the loop, `[]` without a candidate (fuzzy/_discretize.py:74, 92). -/
def bestTriangle (s : Option (K × K × List (List K))) : List (List K) :=
  match s with
  | none => []
  | some b => b.2.2

/-- `variable.max()`, `ValueError` on an empty array. -/
def npMax (v : List K) : Py K :=
  match v with
  | [] => .error .valueError
  | x :: xs => .ok (xs.foldl max x)

/-- the decision of lines 94-114 of fuzzy/_discretize.py: the cut point, or `none` when the column is not split. Without a
candidate point the gain is `-inf`, below every threshold. -/
def splitPoint [DecidableEq C] (lg : K → K) (ent : List K → List C → K) (th : Option K) (maxDepth depth : Nat) (v : List K)
    (y : List C) (lo hi : K) : Py (Option K) := do
  let best ← bestPoint ent v y lo hi
  let global ← triangle2 v lo hi
  let threshold ← gainThreshold lg ent th global (bestTriangle best) y v.length
  pure (match best with
    | none => none
    | some (p, w, _) =>
      if (maxDepth > depth ∨ maxDepth = 0) ∧ ¬ (weightedEntropy ent global y - w < threshold) then some p else none)

/-- the points of one of the two branches (fuzzy/_discretize.py:121-130): a branch with one element gives none. -/
def branchPoints (rec : List K → List C → Py (List K)) (b : List (K × C)) : Py (List K) :=
  if 1 < b.length then rec (b.map Prod.fst) (b.map Prod.snd) else .ok []

/-- `_fuzzy_discretization` (fuzzy/_discretize.py:70-136); `fuel` bounds the recursion (`PyErr.fuel`). -/
def discretize [DecidableEq C] (lg : K → K) (ent : Bool → List K → List C → K) (th : Option K) (maxDepth : Nat) :
    Nat → List K → List C → K → Nat → Py (List K)
  | 0, _, _, _, _ => .error .fuel
  | fuel + 1, v, y, lo, depth => do
    let hi ← npMax v
    let s ← splitPoint lg (ent (depth != 0)) th maxDepth depth v y lo hi
    match s with
    | none => pure [lo, hi]
    | some p => do
      let left := (v.zip y).filter (fun q => q.1 ≤ p)
      let right := (v.zip y).filter (fun q => p < q.1)
      let l ← branchPoints (fun v y => discretize lg ent th maxDepth fuel v y lo (depth + 1)) left
      let r ← branchPoints (fun v y => discretize lg ent th maxDepth fuel v y p (depth + 1)) right
      pure (npUnique (l ++ r))

/-- `np.min`, `ValueError` on an empty array. -/
def npMin (v : List K) : Py K := pyMin v

/-- `get_fuzzy_points('entropy', [column], X, y, max_depth, th)` on one column (fuzzy/_base.py:83-89). The two classes of
Python errors of `zip(*left)` cannot happen: both branches contain an element (`C12_entropy_points`). -/
def entropyPoints [DecidableEq C] (lg : K → K) (ent : Bool → List K → List C → K) (th : Option K) (maxDepth : Nat) (v : List K)
    (y : List C) : Py (List K) := do
  let lo ← npMin v
  discretize lg ent th maxDepth (v.length + 1) v y lo 0

/-! ## equal width, equal frequency

`pd.cut` and `pd.qcut` compute bin edges and then round them for the labels of the categories (`cat.left`, `cat.right`), lowering
also the first edge a little. The rounding is a parameter `fmt` (edges to edges). -/

/-- `np.linspace(min, max, k + 1)`, the bins of `pd.cut(variable, k)` for a column with two different values. -/
def linspaceBins (lo hi : K) (k : Nat) : List K := (List.range (k + 1)).map (fun (i : Nat) => lo + (hi - lo) * (i : K) / (k : K))

/-- `sorted(variable)`. -/
def npSort (v : List K) : List K := v.insertionSort (· ≤ ·)

/-- the `i/k` quantile of `variable` (linear interpolation between the two neighbouring sorted values). -/
def quantile (v : List K) (k i : Nat) : K :=
  let s := npSort v
  let p := (v.length - 1) * i
  s.getD (p / k) 0 + ((p % k : Nat) : K) / (k : K) * (s.getD (p / k + 1) 0 - s.getD (p / k) 0)

/-- the bins of `pd.qcut(variable, k)`. -/
def quantiles (v : List K) (k : Nat) : List K := (List.range (k + 1)).map (quantile v k)

/-- replacing the first element: `sol[0] = variable.min()` (`IndexError` on an empty list). -/
def setFirst (m : K) (e : List K) : Py (List K) :=
  match e with
  | [] => .error .indexError
  | _ :: t => .ok (m :: t)

/-- `_equal_width` (fuzzy/_discretize.py:19-41) on a column with two different values, `k = sets - 1 > 0`. `pd.cut` with a number
of bins gives different edges, so the `except` branch (marked `no cover` in the source) is not reached in exact arithmetic. -/
def equalWidth (fmt : List K → List K) (v : List K) (k : Nat) : Py (List K) := do
  let lo ← npMin v
  let hi ← npMax v
  setFirst lo (fmt (linspaceBins lo hi k))

/-- `pd.qcut(variable, k)`: repeated bins (when there are more than two) raise `ValueError`. -/
def qcut (fmt : List K → List K) (v : List K) (k : Nat) : Py (List K) :=
  if (quantiles v k).dedup.length < (quantiles v k).length ∧ (quantiles v k).length ≠ 2 then .error .valueError
  else .ok (fmt (quantiles v k))

/-- `pd.qcut(variable, k, duplicates='drop')`. -/
def qcutDrop (fmt : List K → List K) (v : List K) (k : Nat) : List K := fmt (npUnique (quantiles v k))

/-- `_equal_freq` (fuzzy/_discretize.py:44-67); in the `except` branch the list is the minimum followed by the edges, and then
`sol[1] = sol[0]`. -/
def equalFreq (fmt : List K → List K) (v : List K) (k : Nat) : Py (List K) := do
  let lo ← npMin v
  match qcut fmt v k with
  | .ok e => setFirst lo e
  | .error _ => do
    let e ← setFirst lo (qcutDrop fmt v k)
    pure (lo :: e)

end

end Teacher
