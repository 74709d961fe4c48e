import Verif.Model.RoundedRules
import Verif.Model.Counterfactual

/-!
# Weighted vote and counterfactual explanations in floating point arithmetic

As `Model/RoundedRules` for `Rule.weighted_vote` and explanation/_counterfactual.py: every addition, subtraction, multiplication and division of
floats is followed by the rounding `fl`. The numbers of literals and the positions of sets are Python integers; the quotient of two of them is
rounded once, and an integer count is taken to be a number of the arithmetic. `_apply_changes` only writes the constants 0 and 1.
-/

namespace Teacher

section
variable {V C K : Type} [Field K] [LinearOrder K] [DecidableEq C]

/-- one iteration of the loop of `weighted_vote` (tree/rule.py:185-187). -/
def voteStepF (A : Arith K) (matching : Rule V C K → Py K) (d : Dict C K) (r : Rule V C K) : Py (Dict C K) := do
  let a ← actF A matching r
  pure (Dict.set d r.consequent (A.fl ((Dict.get? d r.consequent).getD 0 + a)))

/-- `Rule.weighted_vote` (tree/rule.py:166-188). -/
def weightedVoteWithF (A : Arith K) (matching : Rule V C K → Py K) (rs : List (Rule V C K)) : Py C := do
  let d ← rs.foldlM (voteStepF A matching) []
  pyMax (fun c => (Dict.get? d c).getD 0) (Dict.keys d)

end

section
variable {C K : Type} [Field K] [LinearOrder K]

/-- `Rule.weighted_vote` for rules with one set per condition. -/
def weightedVoteF [DecidableEq C] (A : Arith K) (rs : List (Rule String C K)) (inst : Inst K) : Py C :=
  weightedVoteWithF A (fun r => r.matching inst) rs

/-- `_literal_distance` (explanation/_counterfactual.py:89-93): `abs` and the indices are integers. -/
def literalDistanceF (A : Arith K) (clause : Dict String K) (value cfValue : String) : Py K := do
  let i ← pyIndex (Dict.keys clause) value
  let j ← pyIndex (Dict.keys clause) cfValue
  pyDivF A (|(i : K) - (j : K)|) ((clause.length : K) - 1)

/-- `_weighted_literal_distance` (explanation/_counterfactual.py:84-86). -/
def weightedLiteralDistanceF (A : Arith K) (clause : Dict String K) (value cfValue : String) : Py K := do
  let d ← literalDistanceF A clause value cfValue
  let m ← Dict.get clause cfValue
  pure (A.fl (d * A.fl (1 - m)))

/-- `total + sum of f(key)` as a loop that can raise. -/
def sumLoopF {α : Type} (A : Arith K) (f : α → Py K) (start : K) (l : List α) : Py K :=
  l.foldlM (fun acc k => do let d ← f k; pure (A.fl (acc + d))) start

/-- `_cf_dist_instance` (explanation/_counterfactual.py:39-49). -/
def cfDistInstanceF (A : Arith K) (ident : String → Bool) (cf : Rule String C K) (inst : Inst K) (numerical : List String) : Py K := do
  let fz ← fuzzified inst
  let cfd := cf.anteDict
  let nums := numerical.filter (fun x => x ∈ Dict.keys fz ∧ x ∈ Dict.keys cfd)
  sumLoopF A (fun k => do
    let clause ← Dict.get inst k
    let v ← Dict.get fz k
    let w ← Dict.get cfd k
    weightedLiteralDistanceF A clause v w) (categoricalDistance ident fz cfd numerical : K) nums

/-- `_cf_dist_rule` (explanation/_counterfactual.py:52-65). -/
def cfDistRuleF (A : Arith K) (ident : String → Bool) (cf rule : Rule String C K) (inst : Inst K) (numerical : List String) (tau : K) :
    Py K := do
  let rd := rule.anteDict
  let cfd := cf.anteDict
  let nums := numerical.filter (fun x => x ∈ Dict.keys rd ∧ x ∈ Dict.keys cfd)
  let d ← sumLoopF A (fun k => do
    let clause ← Dict.get inst k
    let v ← Dict.get rd k
    let w ← Dict.get cfd k
    literalDistanceF A clause v w) (categoricalDistance ident rd cfd numerical : K) nums
  let sym := ((Dict.keys rd).filter (fun x => x ∉ Dict.keys cfd)).length +
    ((Dict.keys cfd).filter (fun x => x ∉ Dict.keys rd)).length
  pure (A.fl (A.fl (tau * (sym : K)) + A.fl (A.fl (1 - tau) * d)))

variable [DecidableEq C]

/-- the loop of `_search_counterfactual` with `multiclass=False` (explanation/_counterfactual.py:120-125, 135); `vote` is the weighted vote. -/
def searchLoopF (vote : Inst K → Py C) (inst : Inst K) (c : C) : List (Rule String C K × K) → Py (Option (List (String × String)))
  | [] => .ok none
  | cf :: rest => do
    let (inst', changes) ← applyChanges cf.1 inst
    let c' ← vote inst'
    if c' ≠ c then pure (some changes) else searchLoopF vote inst c rest

/-- `_search_counterfactual` with `multiclass=False` (explanation/_counterfactual.py:114-135). -/
def searchCfF (A : Arith K) (inst : Inst K) (c : C) (rules : List (Rule String C K)) (cfs : List (Rule String C K × K)) :
    Py (Option (List (String × String))) :=
  searchLoopF (weightedVoteF A rules) inst c (sortCf cfs)

/-- `possible_cf` of `i_counterfactual` (explanation/_counterfactual.py:192-194). -/
def iCandidatesF (A : Arith K) (ident : Nat → String → Bool) (inst : Inst K) (rules : List (Rule String C K)) (c : C)
    (numerical : List String) : Py (List (Rule String C K × K)) :=
  (otherClass rules c).zipIdx.mapM (fun p => do
    let d ← cfDistInstanceF A (ident p.2) p.1 inst numerical
    pure (p.1, d))

/-- `i_counterfactual`, `multiclass=False` (explanation/_counterfactual.py:171-195). -/
def iCounterfactualF (A : Arith K) (ident : Nat → String → Bool) (inst : Inst K) (rules : List (Rule String C K)) (c : C)
    (numerical : List String) : Py (Option (List (String × String))) := do
  let cfs ← iCandidatesF A ident inst rules c numerical
  searchCfF A inst c rules cfs

/-- the inner loop of `f_counterfactual` (explanation/_counterfactual.py:228-231). -/
def fDistF (A : Arith K) (ident : Nat → String → Bool) (factual : List (Rule String C K)) (inst : Inst K) (numerical : List String) (tau : K)
    (cf : Rule String C K) : Py K :=
  sumLoopF A (fun p => do
    let md ← p.1.matching inst
    let d ← cfDistRuleF A (ident p.2) cf p.1 inst numerical tau
    pure (A.fl (md * d))) 0 factual.zipIdx

/-- `possible_cf` of `f_counterfactual` (explanation/_counterfactual.py:225-233). -/
def fCandidatesF (A : Arith K) (ident : Nat → Nat → String → Bool) (factual : List (Rule String C K)) (inst : Inst K)
    (rules : List (Rule String C K)) (c : C) (numerical : List String) (tau : K) : Py (List (Rule String C K × K)) := do
  let ds ← (otherClass rules c).zipIdx.mapM (fun p => do
    let d ← fDistF A (ident p.2) factual inst numerical tau p.1
    pure (p.1, d))
  pure (ds.filter (fun p => 0 < p.2))

/-- `f_counterfactual` (explanation/_counterfactual.py:198-235). -/
def fCounterfactualF (A : Arith K) (ident : Nat → Nat → String → Bool) (factual : List (Rule String C K)) (inst : Inst K)
    (rules : List (Rule String C K)) (c : C) (numerical : List String) (tau : K) : Py (Option (List (String × String))) := do
  let cfs ← fCandidatesF A ident factual inst rules c numerical tau
  searchCfF A inst c rules cfs

/-- `d_counterfactual` (explanation/_counterfactual.py:239-285): the distance `dist` is given as computed. -/
def dCounterfactualF (A : Arith K) (parse : String → Py K) (dist : List (Cell K) → Py K) (continuous : List Nat) (inst : Inst K)
    (rules : List (Rule String C K)) (c : C) : Py (Option (List (String × String))) := do
  let cfs ← (otherClass rules c).mapM (fun r => do
    let d ← dDist parse dist continuous inst r
    pure (r, d))
  searchCfF A inst c rules cfs

end

end Teacher
