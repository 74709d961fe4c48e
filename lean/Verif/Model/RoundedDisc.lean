import Verif.Model.Rounded
import Verif.Model.Discretize

/-!
# The entropy discretisation in floating point arithmetic

`fuzzy/_discretize.py` with a rounding after each operation, see `Model/Rounded.lean` (the arithmetic `Arith`) and `Model/Discretize.lean` (the
exact version). `lg` is the computed `math.log2`, any function on the positive numbers; `math.log2(0)` raises `ValueError`, and a ratio can be
rounded to 0 although its numerator is positive. Hence an entropy can fail, and the parameter `ent tuple mu y` of the recursion (any function,
for the reason told in `Model/Discretize.lean`) has its values in `Py K`. Integers (`len`, numbers of classes) are converted with a rounding.
-/

namespace Teacher

variable {C K : Type} [Field K] [LinearOrder K]

/-- `np.sum(triangle[class_variable == value])` (fuzzy/_discretize.py:158): the sum of the selected degrees. -/
def classCardF [DecidableEq C] (A : Arith K) (mu : List K) (y : List C) (c : C) : K :=
  A.sum (((mu.zip y).filter (fun p => p.2 = c)).map Prod.fst)

/-- `math.log2`: `ValueError` at 0 (and below). -/
def log2F (lg : K → K) (x : K) : Py K := if 0 < x then .ok (lg x) else .error .valueError

/-- body of the loop of `_fuzzy_entropy` (fuzzy/_discretize.py:157-167). -/
def fuzzyEntropyStepF [DecidableEq C] (A : Arith K) (lg : K → K) (mu : List K) (y : List C) (fe : K) (c : C) : Py K :=
  if 0 < classCardF A mu y c then do
    let ratio := A.fl (classCardF A mu y c / A.sum mu)
    let l ← log2F lg ratio
    pure (A.fl (fe + A.fl (-ratio * l)))
  else pure fe

/-- `_fuzzy_entropy` (fuzzy/_discretize.py:139-168). -/
def fuzzyEntropyF [LinearOrder C] (A : Arith K) (lg : K → K) (mu : List K) (y : List C) : Py K :=
  (npUnique y).foldlM (fuzzyEntropyStepF A lg mu y) 0

/-- `fuzz.trimf(variable, [a, b, c])`, with its assertion. -/
def trimfF (A : Arith K) (a b c : K) (v : List K) : Py (List K) :=
  if a ≤ b ∧ b ≤ c then .ok (v.map (trimfAtF A a b c)) else .error .assertionError

/-- `_fuzzy_triangle` with two divisions (fuzzy/_discretize.py:171-213). -/
def triangle2F (A : Arith K) (v : List K) (lo hi : K) : Py (List (List K)) := do
  let a ← trimfF A lo lo hi v
  let b ← trimfF A lo hi hi v
  pure [a, b]

/-- `_fuzzy_triangle` with three divisions (fuzzy/_discretize.py:171-213). -/
def triangle3F (A : Arith K) (v : List K) (lo mid hi : K) : Py (List (List K)) := do
  let a ← trimfF A lo lo mid v
  let b ← trimfF A lo mid hi v
  let c ← trimfF A mid hi hi v
  pure [a, b, c]

/-- body of the loop of `_weighted_fuzzy_entropy` (fuzzy/_discretize.py:234-237). -/
def weightedEntropyStepF (A : Arith K) (ent : List K → List C → Py K) (y : List C) (wfe : K) (t : List K) : Py K := do
  let e ← ent t y
  pure (A.fl (wfe + A.fl (A.sum t * e)))

/-- `_weighted_fuzzy_entropy` (fuzzy/_discretize.py:216-239). -/
def weightedEntropyF (A : Arith K) (ent : List K → List C → Py K) (tri : List (List K)) (y : List C) : Py K := do
  let wfe ← tri.foldlM (weightedEntropyStepF A ent y) 0
  pure (A.fl (wfe / A.fl (y.length : K)))

/-- body of the loop of `_get_delta_point` (fuzzy/_discretize.py:269-274). -/
def newEntropyStepF [DecidableEq C] (A : Arith K) (ent : List K → List C → Py K) (y : List C) (s : K) (t : List K) : Py K := do
  let e ← ent t y
  pure (A.fl (s + A.fl (A.fl ((((t.zip y).filter (fun p => 0 < p.1)).map Prod.snd).dedup.length : K) * e)))

/-- `_get_delta_point` (fuzzy/_discretize.py:242-282); `pow(3, n_classes) - 2` is at least 1. -/
def deltaPointF [DecidableEq C] (A : Arith K) (lg : K → K) (ent : List K → List C → Py K) (global best : List (List K)) (y : List C) : Py K := do
  let n := y.dedup.length
  let w ← weightedEntropyF A ent global y
  let old := A.fl (A.fl (n : K) * w)
  let new ← best.foldlM (newEntropyStepF A ent y) 0
  pure (A.fl (lg (A.fl (A.fl (3 ^ n) - 2)) - A.fl (old - new)))

/-- `delta` and `threshold` (fuzzy/_discretize.py:102-106): `delta` is computed also when a threshold is given; `log2(0)` is a `ValueError`. -/
def gainThresholdF [DecidableEq C] (A : Arith K) (lg : K → K) (ent : List K → List C → Py K) (th : Option K) (global best : List (List K))
    (y : List C) (n : Nat) : Py K := do
  let delta ← deltaPointF A lg ent global best y
  match th with
  | some t => pure t
  | none => if n ≤ 1 then .error .valueError else pure (A.fl (A.fl (lg ((n : K) - 1) + delta) / A.fl (n : K)))

/-- body of the loop over the candidate points (fuzzy/_discretize.py:75-92); `none` is `best_wfe = inf`. -/
def bestPointStepF (A : Arith K) (ent : List K → List C → Py K) (v : List K) (y : List C) (lo hi : K) (s : Option (K × K × List (List K)))
    (p : K) : Py (Option (K × K × List (List K))) :=
  if p ≠ lo ∧ p ≠ hi then do
    let tri ← triangle3F A v lo p hi
    let w ← weightedEntropyF A ent tri y
    match s with
    | none => pure (some (p, w, tri))
    | some (p₀, w₀, tri₀) => pure (if w < w₀ then some (p, w, tri) else some (p₀, w₀, tri₀))
  else pure s

/-- the loop over the candidate points (fuzzy/_discretize.py:75-92). -/
def bestPointF (A : Arith K) (ent : List K → List C → Py K) (v : List K) (y : List C) (lo hi : K) : Py (Option (K × K × List (List K))) :=
  (npUnique v).foldlM (bestPointStepF A ent v y lo hi) none

/-- the decision of lines 94-117 of fuzzy/_discretize.py, see `splitPoint`. -/
def splitPointF [DecidableEq C] (A : Arith K) (lg : K → K) (ent : List K → List C → Py K) (th : Option K) (maxDepth depth : Nat) (v : List K)
    (y : List C) (lo hi : K) : Py (Option K) := do
  let best ← bestPointF A ent v y lo hi
  let global ← triangle2F A v lo hi
  let gw ← weightedEntropyF A ent global y
  let threshold ← gainThresholdF A lg ent th global (bestTriangle best) y v.length
  pure (match best with
    | none => none
    | some (p, w, _) => if (maxDepth > depth ∨ maxDepth = 0) ∧ ¬ (A.fl (gw - w) < threshold) then some p else none)

/-- `_fuzzy_discretization` (fuzzy/_discretize.py:70-136); `fuel` bounds the recursion (`PyErr.fuel`). -/
def discretizeF [DecidableEq C] (A : Arith K) (lg : K → K) (ent : Bool → List K → List C → Py K) (th : Option K) (maxDepth : Nat) :
    Nat → List K → List C → K → Nat → Py (List K)
  | 0, _, _, _, _ => .error .fuel
  | fuel + 1, v, y, lo, depth => do
    let hi ← npMax v
    let s ← splitPointF A lg (ent (depth != 0)) th maxDepth depth v y lo hi
    match s with
    | none => pure [lo, hi]
    | some p => do
      let left := (v.zip y).filter (fun q => q.1 ≤ p)
      let right := (v.zip y).filter (fun q => p < q.1)
      let l ← branchPoints (fun v y => discretizeF A lg ent th maxDepth fuel v y lo (depth + 1)) left
      let r ← branchPoints (fun v y => discretizeF A lg ent th maxDepth fuel v y p (depth + 1)) right
      pure (npUnique (l ++ r))

/-- `get_fuzzy_points('entropy', [column], X, y, max_depth, th)` on one column (fuzzy/_base.py:83-89). -/
def entropyPointsF [DecidableEq C] (A : Arith K) (lg : K → K) (ent : Bool → List K → List C → Py K) (th : Option K) (maxDepth : Nat) (v : List K)
    (y : List C) : Py (List K) := do
  let lo ← npMin v
  discretizeF A lg ent th maxDepth (v.length + 1) v y lo 0

end Teacher
