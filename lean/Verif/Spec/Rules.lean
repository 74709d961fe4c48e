import Verif.Model.Rule

/-!
# Specifications about rules

Small definitions used in the statements; they do not use the functions of the model, only the data types.
-/

namespace Teacher.Spec

variable {V C K : Type}

/-- The total activation of class `c`: the sum over the rules of class `c` of their degree times their weight. -/
def activation [Field K] [DecidableEq C] (deg : Rule V C K → K) (rs : List (Rule V C K)) (c : C) : K :=
  ((rs.filter (fun r => r.consequent = c)).map (fun r => deg r * r.weight)).sum

/-- The instance gives degree `x` to the set `s` of feature `f`. -/
def HasDegree [DecidableEq String] (inst : Inst K) (f s : String) (x : K) : Prop :=
  ∃ d, Dict.get? inst f = some d ∧ Dict.get? d s = some x

/-- The instance knows the set `s` of feature `f`. -/
def Known (inst : Inst K) (f s : String) : Prop := ∃ x, HasDegree inst f s x

/-- `m` is the smallest member of a non-empty list. -/
def IsLeastOf [LE K] (m : K) (l : List K) : Prop := m ∈ l ∧ ∀ x ∈ l, m ≤ x

/-- `a` is the first element of `l` with the largest key. -/
def IsFirstMax {α : Type} [LinearOrder K] (key : α → K) (l : List α) (a : α) : Prop :=
  ∃ pre post, l = pre ++ a :: post ∧ (∀ x ∈ pre, key x < key a) ∧ ∀ x ∈ post, key x ≤ key a

/-- names of variables are unique, and so are the names of the sets inside each variable. -/
def WellNamed (vars : List (FVar K)) : Prop :=
  (vars.map FVar.name).Nodup ∧ ∀ v ∈ vars, (v.sets.map FSet.name).Nodup

/-- the condition `(f, n)` of a rule refers to the fuzzy set `s` of the variables. -/
def RefersTo (vars : List (FVar K)) (f n : String) (s : FSet K) : Prop :=
  ∃ v ∈ vars, v.name = f ∧ s ∈ v.sets ∧ s.name = n

/-- row `x` (feature to cell) satisfies a crisp condition: its number lies in the interval, or its cell is the value of
the discrete set with that name. -/
def CrispSat [LE K] (vars : List (FVar K)) (x : String → Cell K) (p : String × CrispVal K) : Prop :=
  match p.2 with
  | .interval l r => ∃ t, x p.1 = .num t ∧ l ≤ t ∧ t ≤ r
  | .label n => ∃ d, RefersTo vars p.1 n (.disc d) ∧ x p.1 = d.value

end Teacher.Spec
