import Verif.Model.Rule

/-! # Model of `Rule.to_json` (tree/rule.py:94-131) -/

namespace Teacher

variable {V C K : Type}

/-- an entry of `fuzzy_things` (tree/rule.py:117-119): feature, name of the set and the points of a continuous set. -/
abbrev JsonSet (K : Type) := String × String × Option (K × K × K)

/-- the entry of a fuzzy set. -/
def jsonEntry (f : String) : FSet K → JsonSet K
  | .cont s => (f, s.name, some (s.a, s.b, s.c))
  | .disc d => (f, d.name, none)

/-- `fuzzy_sets[value]` with its entry (tree/rule.py:115-119, 125-129). -/
def jsonLookup (f : String) (sets : List (FSet K)) (v : String) : Py (JsonSet K) := do
  let fs ← Dict.get (setDict sets) v
  pure (jsonEntry f fs)

/-- the list `[json_antecedents, consequent, weight, fuzzy_things]` (tree/rule.py:131). -/
structure RuleJson (V C K : Type) where
  antecedents : Dict String V
  consequent : C
  weight : K
  sets : List (JsonSet K)
  deriving DecidableEq

/-- one condition of `to_json` with `multiple_antecedents=False` (tree/rule.py:124-129). -/
def jsonClause (vars : List (FVar K)) (p : String × String) : Py (JsonSet K) := do
  let sets ← Dict.get (varDict vars) p.1
  jsonLookup p.1 sets p.2

/-- `Rule.to_json` with `multiple_antecedents=False` (tree/rule.py:120-131). -/
def Rule.toJson (r : Rule String C K) (vars : List (FVar K)) : Py (RuleJson String C K) := do
  let sets ← r.antecedent.mapM (jsonClause vars)
  pure ⟨Dict.ofPairs r.antecedent, r.consequent, r.weight, sets⟩

/-- one condition of `to_json` with `multiple_antecedents=True` (tree/rule.py:111-119). -/
def jsonClauseMulti (vars : List (FVar K)) (p : String × List String) : Py (List (JsonSet K)) := do
  let sets ← Dict.get (varDict vars) p.1
  p.2.mapM (jsonLookup p.1 sets)

/-- `Rule.to_json` with `multiple_antecedents=True` (tree/rule.py:108-119, 131). -/
def Rule.toJsonMulti (r : Rule (List String) C K) (vars : List (FVar K)) : Py (RuleJson (List String) C K) := do
  let sets ← r.antecedent.mapM (jsonClauseMulti vars)
  pure ⟨Dict.ofPairs r.antecedent, r.consequent, r.weight, sets.flatten⟩

end Teacher
