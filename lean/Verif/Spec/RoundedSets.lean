import Verif.Model.RoundedSets
import Verif.Spec.Rounded

/-! Specification of the operations of fuzzy sets in floating point. -/

namespace Teacher.Spec
open Teacher

variable {K : Type} [Field K] [LinearOrder K]

/-- error of the ends of an alpha cut of a set with points of at most `M` in absolute value. -/
def cutError (u η M : K) : K := u * M + (1 + u) * (6 * u * M + η)

/-- a condition of the computed crisp rule and the exact one: the same feature, the same label or the ends of the interval at most `e` apart. -/
def NearCondition (e : K) (p q : String × CrispVal K) : Prop :=
  p.1 = q.1 ∧ match p.2, q.2 with
    | .interval l r, .interval l' r' => |l - l'| ≤ e ∧ |r - r'| ≤ e
    | .label n, .label n' => n = n'
    | _, _ => False

/-- sets of one variable that can be told apart with precision `u`: valid triangles of numbers of the arithmetic whose peaks are further apart than
`8u` times the sum of the widths, or discrete sets. -/
def ApartSets (A : Arith K) (u : K) (sets : List (FSet K)) : Prop :=
  (∃ cs : List (CSet K), sets = cs.map .cont ∧ (∀ s ∈ cs, s.a ≤ s.b ∧ s.b ≤ s.c ∧ FloatSet A s) ∧
    ∀ s ∈ cs, ∀ o ∈ cs, s ≠ o → 8 * u * ((s.c - s.a) + (o.c - o.a)) < |s.b - o.b|) ∨
  (∃ ds : List (DSet K), sets = ds.map .disc)

end Teacher.Spec
