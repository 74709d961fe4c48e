import Verif.Spec.Rounded
import Verif.Spec.Factual
import Verif.Model.RoundedRules

/-! # Specification of the factual explanations in floating point -/

namespace Teacher.Spec
open Teacher

variable {V C K : Type} [Field K] [LinearOrder K]

/-- the rules of class `c` with degree above `th`, in the order of the rule list. -/
def firedAbove [DecidableEq C] (th : K) (deg : Rule V C K → K) (rs : List (Rule V C K)) (c : C) : List (Rule V C K) :=
  rs.filter (fun r => th < deg r ∧ r.consequent = c)

/-- the degrees and weights are in `[0,1]`. -/
def UnitRules (deg : Rule V C K → K) (rs : List (Rule V C K)) : Prop := ∀ r ∈ rs, 0 ≤ deg r ∧ deg r ≤ 1 ∧ 0 ≤ r.weight ∧ r.weight ≤ 1

/-- error of one activation. -/
def actError (u η : K) : K := u + η

/-- error of a sum of `n` activations. -/
def massError (u η : K) (n : Nat) : K := n * (actError u η + (u * n + η)) * (1 + u) ^ n

/-- error of the comparison of an activation with the mean of `n` activations. -/
def meanError (u η : K) (n : Nat) : K := (actError u η + (u * n + η)) * (1 + u) ^ (n + 1) + actError u η + actError u η

/-- error of a sum of `n` degrees. -/
def setsError (u η : K) (n : Nat) : K := n * (u * n + η) * (1 + u) ^ n

/-- bounds for a quotient whose rounded value is at most, or more than, the rounded `1 + lam`. -/
def ratioUp (u η lam : K) : K := ((1 + lam) * (1 + u) + 2 * η) / (1 - u)
def ratioDown (u η lam : K) : K := ((1 + lam) * (1 - u) - 2 * η) / (1 + u)

end Teacher.Spec
