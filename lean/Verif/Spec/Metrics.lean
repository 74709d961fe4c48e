import Verif.Model.Metrics

/-! # Specifications for the metrics -/

namespace Teacher.Spec

variable {C K : Type}

/-- the fuzzy dataset has `n` instances, and `μ f v i` is the degree of instance `i` in the set `v` of feature `f` for the
features and sets it contains. -/
structure Represents (ds : FuzzyDS K) (n : Nat) (μ : String → String → Nat → K) : Prop where
  nonempty : ds ≠ []
  sets : ∀ p ∈ ds, p.2 ≠ []
  degrees : ∀ f d v col, Dict.get? ds f = some d → Dict.get? d v = some col → col = (List.range n).map (μ f v)

/-- every condition of the rules refers to a feature and a set of the dataset. -/
def KnowsRules (ds : FuzzyDS K) (rules : List (Rule String C K)) : Prop :=
  ∀ r ∈ rules, ∀ p ∈ r.antecedent, ∃ d col, Dict.get? ds p.1 = some d ∧ Dict.get? d p.2 = some col

/-- instances covered by *every* rule: all the conditions of all the rules hold above the threshold (and the threshold is below
1, the degree of an empty conjunction). -/
def coveredByAll [LinearOrder K] [One K] (rules : List (Rule String C K)) (μ : String → String → Nat → K) (th : K) (n : Nat) :
    List Nat :=
  (List.range n).filter (fun i => th < 1 ∧ ∀ r ∈ rules, ∀ p ∈ r.antecedent, th < μ p.1 p.2 i)

/-- instances covered by *some* rule (what the documentation of the module announces). -/
def coveredBySome [LinearOrder K] [One K] (rules : List (Rule String C K)) (μ : String → String → Nat → K) (th : K) (n : Nat) :
    List Nat :=
  (List.range n).filter (fun i => th < 1 ∧ ∃ r ∈ rules, ∀ p ∈ r.antecedent, th < μ p.1 p.2 i)

/-- the number in a cell of a row. -/
def numAt [Zero K] (a : List (Cell K)) (i : Nat) : K :=
  match a[i]? with
  | some (.num x) => x
  | _ => 0

/-- a row of `n` cells with numbers in the continuous columns. -/
def TypedRow (cont : List Nat) (n : Nat) (a : List (Cell K)) : Prop :=
  a.length = n ∧ ∀ i ∈ cont, i < n → ∃ x, a[i]? = some (.num x)

/-- the MAD of every continuous column is known and positive, and if some column is not continuous the list of discrete columns
is not empty. -/
def GoodColumns [Zero K] [LT K] (n : Nat) (cont disc : List Nat) (mad : Nat → Option K) (m : Nat → K) : Prop :=
  (∀ i ∈ cont, i < n → mad i = some (m i) ∧ 0 < m i) ∧ ((∃ i < n, i ∉ cont) → disc ≠ [])

end Teacher.Spec
