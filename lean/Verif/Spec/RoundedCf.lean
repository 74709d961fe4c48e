import Verif.Spec.RoundedRules
import Verif.Spec.Counterfactual
import Verif.Model.RoundedCf

/-! # Specification of the counterfactual explanations in floating point -/

namespace Teacher.Spec
open Teacher

variable {C K : Type} [Field K] [LinearOrder K]

/-- the degrees of a fuzzified instance are in `[0,1]`. -/
def UnitInst (inst : Inst K) : Prop := ∀ p ∈ inst, ∀ q ∈ p.2, 0 ≤ q.2 ∧ q.2 ≤ 1

/-- after the changes the weighted vote, computed in floating point, is not `c`. -/
def RoundedFlipsBy [DecidableEq C] (A : Arith K) (rules : List (Rule String C K)) (inst : Inst K) (c : C) (changes : List (String × String)) : Prop :=
  ∃ inst' c', Moved inst changes inst' ∧ weightedVoteF A rules inst' = .ok c' ∧ c' ≠ c

/-- the changes that rule `r` means to the instance flip the computed class. -/
def RoundedFlips [DecidableEq C] (A : Arith K) (rules : List (Rule String C K)) (inst : Inst K) (c : C) (r : Rule String C K) : Prop :=
  ∃ ch, IsChanges r inst ch ∧ RoundedFlipsBy A rules inst c ch

/-- error of a sum of at most `n` terms, each computed up to `ε`, that starts from an exact value and whose partial sums are at most `S`. -/
def loopError (u η ε S : K) (n : Nat) : K := n * (ε + (u * S + η)) * (1 + u) ^ n

/-- error of the distance to an instance: `n` bounds the number of features compared; each is computed up to `3 (u + η)`. -/
def iDistError (u η : K) (n : Nat) : K := loopError u η (3 * (u + η)) n n

/-- error of the distance between two rules, `n` bounding the number of literals. -/
def litSumError (u η : K) (n : Nat) : K := loopError u η (u + η) n n
def ruleDistError (u η : K) (n : Nat) : K :=
  ((u * n + η) + (litSumError u η n + (u + η) * n + (u * (n + litSumError u η n) + η))) * (1 + u) + (u * n + η)

/-- error of the distance to a factual explanation of `m` rules. -/
def fDistError (u η : K) (n m : Nat) : K := loopError u η (ruleDistError u η n * (1 + u) + (u * n + η)) (m * n) m

end Teacher.Spec
