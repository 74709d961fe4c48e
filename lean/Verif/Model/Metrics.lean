import Verif.Model.Factual

/-!
# Model of `metrics/_rule.py` and `metrics/_counterfactual.py`

Rules have one set per condition. A `numpy` operation on two arrays of different length is a `ValueError` (numpy would
broadcast an array of length 1: not modelled). `0/0` of numpy integers is `nan`.

The `'mixed'` distance and the `'jaccard'` sparsity are in `Model/Mixed.lean`; `_closest_instance` is modelled for an arbitrary distance.
-/

namespace Teacher

variable {C K : Type}

/-- `{feature: {set: [degree of each instance]}}`. -/
abbrev FuzzyDS (K : Type) := Dict String (Dict String (List K))

/-- `list(d.keys())[0]` with the entry, `IndexError` on an empty dict. -/
def firstEntry {κ ν : Type} (d : Dict κ ν) : Py (κ × ν) :=
  match d with
  | [] => .error .indexError
  | p :: _ => .ok p

/-- an element-wise numpy operation of two arrays. -/
def npZip {α β γ : Type} (f : α → β → γ) (a : List α) (b : List β) : Py (List γ) :=
  if a.length = b.length then .ok (List.zipWith f a b) else .error .valueError

/-- `fuzzy_dataset[feat][val]`. -/
def dsLookup (ds : FuzzyDS K) (f v : String) : Py (List K) := do
  let d ← Dict.get ds f
  Dict.get d v

section
variable [Field K] [LinearOrder K]

/-- `_get_covered_instances` (metrics/_rule.py:13-21). -/
def coveredInstances (r : Rule String C K) (ds : FuzzyDS K) (th : K) : Py (List Bool × Nat) := do
  let first ← firstEntry ds
  let firstVal ← firstEntry first.2
  let n := firstVal.2.length
  let mu ← r.antecedent.foldlM (fun mu p => do
    let col ← dsLookup ds p.1 p.2
    npZip min mu col) (List.replicate n 1)
  pure (mu.map (fun m => decide (th < m)), n)

/-- `_get_fuzzy_coverage` (metrics/_rule.py:24-29); `rules[0]` on an empty list is an `IndexError`. -/
def fuzzyCoverage (rules : List (Rule String C K)) (ds : FuzzyDS K) (th : K) : Py (List Bool × Nat) :=
  match rules with
  | [] => .error .indexError
  | r :: _ => do
    let (cov, n) ← coveredInstances r ds th
    let cov ← rules.foldlM (fun cov r => do
      let (c, _) ← coveredInstances r ds th
      npZip (fun a b => a && b) cov c) cov
    pure (cov, n)

/-- `np.sum` of a boolean array. -/
def npCount (l : List Bool) : Nat := l.count true

/-- `coverage` (metrics/_rule.py:32-55). -/
def coverage (rules : List (Rule String C K)) (ds : FuzzyDS K) (th : K) : Py K := do
  let (cov, n) ← fuzzyCoverage rules ds th
  npDiv (npCount cov : K) (n : K)

/-- `rules[0].consequent`. -/
def headConsequent (rules : List (Rule String C K)) : Py C :=
  match rules with
  | [] => .error .indexError
  | r :: _ => .ok r.consequent

/-- `precision` (metrics/_rule.py:58-83). -/
def precision [DecidableEq C] (rules : List (Rule String C K)) (ds : FuzzyDS K) (y : List C) (th : K) : Py K := do
  let (cov, _) ← fuzzyCoverage rules ds th
  let c ← headConsequent rules
  let both ← npZip (fun a b => a && b) cov (y.map (fun v => decide (v = c)))
  npDiv (npCount both : K) (npCount cov : K)

/-- `fidelity` (metrics/_rule.py:86-102). -/
def fidelity [DecidableEq C] (y z : List C) : Py K := do
  let eqs ← npZip (fun a b => decide (a = b)) y z
  npDiv (npCount eqs : K) (y.length : K)

/-- `y[mask]` for a boolean mask, `IndexError` on a length mismatch. -/
def npMask {α : Type} (y : List α) (mask : List Bool) : Py (List α) :=
  if y.length = mask.length then .ok (((y.zip mask).filter (fun p => p.2)).map Prod.fst) else .error .indexError

/-- `rule_fidelity` (metrics/_rule.py:105-132). -/
def ruleFidelity [DecidableEq C] (y z : List C) (ds : FuzzyDS K) (rules : List (Rule String C K)) (th : K) : Py K := do
  let (cov, _) ← fuzzyCoverage rules ds th
  let a ← npMask y cov
  let b ← npMask z cov
  let eqs ← npZip (fun a b => decide (a = b)) a b
  npDiv (npCount eqs : K) (npCount cov : K)

/-- `abs(instance_var - cf_instance_var)`: strings cannot be subtracted. -/
def cellDiff (a b : Cell K) : Py K :=
  match a, b with
  | .num x, .num y => .ok |x - y|
  | _, _ => .error .typeError

/-- contribution of a continuous variable (metrics/_counterfactual.py:105-108). A deviation of 0 is the `ZeroDivisionError` of Python floats
(with numpy numbers the quotient would be `inf`). -/
def contTerm (mad : Nat → Option K) (i : Nat) (a b : Cell K) : Py K := do
  let d ← cellDiff a b
  if d = 0 then pure 0
  else
    match mad i with
    | none => .error .keyError
    | some m => pyDiv d m

/-- one iteration of the loop of `_distance` (metrics/_counterfactual.py:103-110): the state is `(cont, disc)`. -/
def distStep (cont : List Nat) (mad : Nat → Option K) (s : K × Nat) (p : (Cell K × Cell K) × Nat) : Py (K × Nat) :=
  if p.2 ∈ cont then do
    let t ← contTerm mad p.2 p.1.1 p.1.2
    pure (s.1 + t, s.2)
  else pure (s.1, s.2 + (if p.1.1 ≠ p.1.2 then 1 else 0))

/-- `_distance`, the `'moth'` distance (metrics/_counterfactual.py:81-118). -/
def mothDistance (a b : List (Cell K)) (cont disc : List Nat) (mad : Nat → Option K) : Py K := do
  let s ← (a.zip b).zipIdx.foldlM (distStep cont mad) (0, 0)
  let d1 ← (if s.1 ≠ 0 then pyDiv s.1 (cont.length : K) else .ok 0)
  let d2 ← (if s.2 ≠ 0 then pyDiv (s.2 : K) (disc.length : K) else .ok 0)
  pure (d1 + d2)

/-- the loop of `_closest_instance` (metrics/_counterfactual.py:145-154); `none` is the pair (`[]`, `inf`). -/
def closestStep {R : Type} (dist : R → Py K) (s : Option (R × K)) (r : R) : Py (Option (R × K)) := do
  let d ← dist r
  match s with
  | none => pure (if 0 < d then some (r, d) else none)
  | some (r₀, m) => pure (if d < m ∧ 0 < d then some (r, d) else some (r₀, m))

/-- `_closest_instance` (metrics/_counterfactual.py:127-156); `none` is the empty list it returns when nothing is found. -/
def closestInstance {R : Type} (dist : R → Py K) (dataset : List R) : Py (Option R) := do
  let s ← dataset.foldlM (closestStep dist) none
  pure (s.map Prod.fst)

/-- `proximity_dissimilarity` with `distance='moth'` (metrics/_counterfactual.py:159-177). -/
def proximity (a b : List (Cell K)) (cont disc : List Nat) (mad : Nat → Option K) : Py K := mothDistance a b cont disc mad

/-- `sparsity_dissimilarity` with `distance='mismatch'` (metrics/_counterfactual.py:180-198). -/
def sparsity (a b : List (Cell K)) : Py K :=
  pyDiv ((((a.zip b).map (fun p => if p.1 ≠ p.2 then (1 : Nat) else 0)).sum : Nat) : K) (a.length : K)

/-- `implausibility` with `distance='moth'` (metrics/_counterfactual.py:201-221). -/
def implausibility (cf : List (Cell K)) (dataset : List (List (Cell K))) (cont disc : List Nat) (mad : Nat → Option K) :
    Py K := do
  let closest ← closestInstance (fun r => mothDistance cf r cont disc mad) dataset
  mothDistance cf (closest.getD []) cont disc mad

/-- `instability` with `distance='moth'` (metrics/_counterfactual.py:224-257). -/
def instability (inst cf closest cfClosest : List (Cell K)) (cont disc : List Nat) (mad : Nat → Option K) : Py K := do
  let d1 ← mothDistance cf cfClosest cont disc mad
  let d2 ← mothDistance inst closest cont disc mad
  pyDiv d1 (d2 + 1)

end

end Teacher
