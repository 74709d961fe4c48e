import Mathlib.Algebra.Order.Field.Basic
import Mathlib.Algebra.Order.BigOperators.Group.List
import Mathlib.Data.List.Basic

/-!
# Specification vocabulary for the sampling neighborhood

Nothing here mentions the model.
-/

namespace Teacher

/-- an index drawn with probabilities `p` is the index of one of them. -/
def FairDraw {K R : Type} (draw : List K → R → Nat × R) : Prop := ∀ p r, p ≠ [] → (draw p r).1 < p.length

/-- `d = (values, probabilities)` is the distribution of the values of the column that satisfy `ok`: the values are those
observed, each one once and in increasing order, and the probability of a value is its share of the cells that satisfy `ok`. -/
structure IsDistOf {K : Type} [Field K] [LinearOrder K] (ok : K → Prop) [DecidablePred ok] (col : List K) (d : List K × List K) : Prop where
  values : ∀ x, x ∈ d.1 ↔ x ∈ col ∧ ok x
  sorted : d.1.Pairwise (· < ·)
  probs : d.2 = d.1.map (fun x => (col.count x : K) / (col.countP (fun v => ok v) : K))

/-- number of rows of class `c`. -/
def classCount {K : Type} (bb : List K → Nat) (rows : List (List K)) (c : Nat) : Nat := rows.countP (fun x => bb x = c)

/-- `⌈size / n⌉`. -/
def quota (size n : Nat) : Nat := (size + n - 1) / n

end Teacher
