import Verif.Spec.Rules

/-! # Specifications for the factual explanations -/

namespace Teacher.Spec

variable {V C K : Type}

/-- `out` is `l` sorted by decreasing `key`, elements with the same key keeping the order they have in `l`. -/
structure SortedDesc {α : Type} [LinearOrder K] (key : α → K) (l out : List α) : Prop where
  perm : out.Perm l
  desc : out.Pairwise (fun a b => key b ≤ key a)
  stable : ∀ k, out.filter (fun a => key a = k) = l.filter (fun a => key a = k)

/-- The rules of class `c` fired by the instance: degree above `0.001`, in the order of the rule list. -/
def firedOf [Field K] [LinearOrder K] [DecidableEq C] (deg : Rule V C K → K) (rs : List (Rule V C K)) (c : C) :
    List (Rule V C K) :=
  rs.filter (fun r => 1 / 1000 < deg r ∧ r.consequent = c)

/-- activation of one rule. -/
def ruleAct [Field K] (deg : Rule V C K → K) (r : Rule V C K) : K := deg r * r.weight

/-- total activation of a list of rules. -/
def mass [Field K] (deg : Rule V C K → K) (rs : List (Rule V C K)) : K := (rs.map (ruleAct deg)).sum

/-- the mass `x` beats the total activation of every class other than `c` that occurs in the rule list. -/
def OutVotes [Field K] [LinearOrder K] [DecidableEq C] (deg : Rule V C K → K) (rs : List (Rule V C K)) (c : C) (x : K) :
    Prop :=
  ∀ c', c' ≠ c → (∃ r ∈ rs, r.consequent = c') → activation deg rs c' < x

end Teacher.Spec
