import Verif.Model.RoundedRules
import Verif.Model.Metrics

/-!
# The metrics in floating point

`metrics/_rule.py` and `metrics/_counterfactual.py` with a rounding after every operation, as in `Model/Rounded.lean`. The degrees in a fuzzy
dataset are numbers of the arithmetic; `np.minimum` and the comparison with the threshold are exact, so the covered instances are those of
`Model/Metrics.lean`. Counts are integers; a quotient of two integers is the exact quotient, rounded (Python does so for all
integers, numpy for integers below 2^53). The remarks of `Model/Metrics.lean` on exceptions apply.
-/

namespace Teacher

variable {C K : Type} [Field K] [LinearOrder K]

/-- a quotient of numpy integers. -/
def npDivF (A : Arith K) (a b : K) : Py K := if b = 0 then .error .nan else .ok (A.fl (a / b))

/-- `coverage` (metrics/_rule.py:32-55). -/
def coverageF (A : Arith K) (rules : List (Rule String C K)) (ds : FuzzyDS K) (th : K) : Py K := do
  let (cov, n) ← fuzzyCoverage rules ds th
  npDivF A (npCount cov : K) (n : K)

/-- `precision` (metrics/_rule.py:58-83). -/
def precisionF [DecidableEq C] (A : Arith K) (rules : List (Rule String C K)) (ds : FuzzyDS K) (y : List C) (th : K) : Py K := do
  let (cov, _) ← fuzzyCoverage rules ds th
  let c ← headConsequent rules
  let both ← npZip (fun a b => a && b) cov (y.map (fun v => decide (v = c)))
  npDivF A (npCount both : K) (npCount cov : K)

/-- `fidelity` (metrics/_rule.py:86-102). -/
def fidelityF [DecidableEq C] (A : Arith K) (y z : List C) : Py K := do
  let eqs ← npZip (fun a b => decide (a = b)) y z
  npDivF A (npCount eqs : K) (y.length : K)

/-- `rule_fidelity` (metrics/_rule.py:105-132). -/
def ruleFidelityF [DecidableEq C] (A : Arith K) (y z : List C) (ds : FuzzyDS K) (rules : List (Rule String C K)) (th : K) : Py K := do
  let (cov, _) ← fuzzyCoverage rules ds th
  let a ← npMask y cov
  let b ← npMask z cov
  let eqs ← npZip (fun a b => decide (a = b)) a b
  npDivF A (npCount eqs : K) (npCount cov : K)

/-- `sparsity_dissimilarity` with `distance='mismatch'` (metrics/_counterfactual.py:180-198). -/
def sparsityF (A : Arith K) (a b : List (Cell K)) : Py K :=
  pyDivF A ((((a.zip b).map (fun p => if p.1 ≠ p.2 then (1 : Nat) else 0)).sum : Nat) : K) (a.length : K)

/-- `abs(instance_var - cf_instance_var)`: the difference is rounded, the absolute value is exact. -/
def cellDiffF (A : Arith K) (a b : Cell K) : Py K :=
  match a, b with
  | .num x, .num y => .ok |A.fl (x - y)|
  | _, _ => .error .typeError

/-- contribution of a continuous variable (metrics/_counterfactual.py:105-108). -/
def contTermF (A : Arith K) (mad : Nat → Option K) (i : Nat) (a b : Cell K) : Py K := do
  let d ← cellDiffF A a b
  if d = 0 then pure 0
  else
    match mad i with
    | none => .error .keyError
    | some m => pyDivF A d m

/-- one iteration of the loop of `_distance` (metrics/_counterfactual.py:103-110): the state is `(cont, disc)`. -/
def distStepF (A : Arith K) (cont : List Nat) (mad : Nat → Option K) (s : K × Nat) (p : (Cell K × Cell K) × Nat) : Py (K × Nat) :=
  if p.2 ∈ cont then do
    let t ← contTermF A mad p.2 p.1.1 p.1.2
    pure (A.fl (s.1 + t), s.2)
  else pure (s.1, s.2 + (if p.1.1 ≠ p.1.2 then 1 else 0))

/-- `_distance`, the `'moth'` distance (metrics/_counterfactual.py:81-118). The first `diss += …` adds to the integer 0, which is exact. -/
def mothDistanceF (A : Arith K) (a b : List (Cell K)) (cont disc : List Nat) (mad : Nat → Option K) : Py K := do
  let s ← (a.zip b).zipIdx.foldlM (distStepF A cont mad) (0, 0)
  let d1 ← (if s.1 ≠ 0 then pyDivF A s.1 (cont.length : K) else .ok 0)
  let d2 ← (if s.2 ≠ 0 then pyDivF A (s.2 : K) (disc.length : K) else .ok 0)
  pure (A.fl (d1 + d2))

/-- `implausibility` with `distance='moth'` (metrics/_counterfactual.py:201-221). -/
def implausibilityF (A : Arith K) (cf : List (Cell K)) (dataset : List (List (Cell K))) (cont disc : List Nat) (mad : Nat → Option K) :
    Py K := do
  let closest ← closestInstance (fun r => mothDistanceF A cf r cont disc mad) dataset
  mothDistanceF A cf (closest.getD []) cont disc mad

/-- `instability` with `distance='moth'` (metrics/_counterfactual.py:224-257). -/
def instabilityF (A : Arith K) (inst cf closest cfClosest : List (Cell K)) (cont disc : List Nat) (mad : Nat → Option K) : Py K := do
  let d1 ← mothDistanceF A cf cfClosest cont disc mad
  let d2 ← mothDistanceF A inst closest cont disc mad
  pyDivF A d1 (A.fl (d2 + 1))

end Teacher
