import Verif.Spec.Rules

/-! # Specifications for the counterfactual explanations -/

namespace Teacher.Spec

variable {C K : Type}

/-- `inst'` is `inst` with exactly the features of `changes` moved entirely to the listed set: degree 1 for it, 0 for the other
sets of the feature; the other features keep their memberships. -/
def Moved [Zero K] [One K] (inst : Inst K) (changes : List (String × String)) (inst' : Inst K) : Prop :=
  List.Forall₂ (fun p p' => p'.1 = p.1 ∧
    (∀ v, (p.1, v) ∈ changes → p'.2 = p.2.map (fun q => (q.1, if q.1 = v then 1 else 0))) ∧
    ((∀ v, (p.1, v) ∉ changes) → p'.2 = p.2)) inst inst'

/-- the value a rule gives to a feature: the last one of its antecedent. -/
def ruleValue (r : Rule String C K) (f : String) : Option String :=
  (r.antecedent.reverse.find? (fun p => p.1 = f)).map Prod.snd

/-- `s` is the first of the sets with the largest degree. -/
def IsStrongest [LinearOrder K] (sets : Dict String K) (s : String) : Prop := ∃ q, IsFirstMax Prod.snd sets q ∧ q.1 = s

/-- the rule asks to move feature `f` of the instance to the set `v`: `v` is the value of the rule and is not the strongest set
of the feature. -/
def Asks [LinearOrder K] (r : Rule String C K) (inst : Inst K) (f v : String) : Prop :=
  ∃ sets s, (f, sets) ∈ inst ∧ ruleValue r f = some v ∧ IsStrongest sets s ∧ s ≠ v

/-- the changes a rule means to an instance, in any order, each feature once. -/
def IsChanges [LinearOrder K] (r : Rule String C K) (inst : Inst K) (changes : List (String × String)) : Prop :=
  (changes.map Prod.fst).Nodup ∧ ∀ f v, (f, v) ∈ changes ↔ Asks r inst f v

/-- applying the changes of the rule gives the class `c'`. -/
def LeadsTo [Field K] [LinearOrder K] [DecidableEq C] (vote : Inst K → Py C) (inst : Inst K) (r : Rule String C K)
    (changes : List (String × String)) (c' : C) : Prop :=
  ∃ inst', IsChanges r inst changes ∧ Moved inst changes inst' ∧ vote inst' = .ok c'

/-- number of features on which two antecedents, seen as dictionaries, differ. -/
def differing (a b : Rule String C K) : Nat :=
  (((a.antecedent ++ b.antecedent).map Prod.fst).dedup.filter (fun f => ruleValue a f ≠ ruleValue b f)).length

end Teacher.Spec
