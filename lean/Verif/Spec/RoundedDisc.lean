import Verif.Model.RoundedDisc

/-! # Specification: entropy discretisation in floating point -/

namespace Teacher.Spec
open Teacher

variable {C K : Type} [Field K] [LinearOrder K]

/-- `mu` are the computed degrees of some rows of the column `col` in a triangle whose three points are values of the column. -/
def ColumnDegrees (A : Arith K) (col mu : List K) : Prop :=
  ∃ (v : List K) (a b c : K), v.Sublist col ∧ a ∈ col ∧ b ∈ col ∧ c ∈ col ∧ a ≤ b ∧ b ≤ c ∧ mu = v.map (trimfAtF A a b c)

/-- what is promised of the fuzzy points of a column: increasing values of the column, from the smallest one; they end with the largest one if
it occurs twice, and `max_depth` bounds their number. -/
structure GoodPoints (col : List K) (maxDepth : Nat) (pts : List K) : Prop where
  increasing : pts.Pairwise (· < ·)
  from_column : ∀ x ∈ pts, x ∈ col
  starts : ∃ lo, pts.head? = some lo ∧ ∀ x ∈ col, lo ≤ x
  ends : ∀ top, (∀ x ∈ col, x ≤ top) → 2 ≤ col.count top → pts.getLast? = some top
  bounded : 0 < maxDepth → pts.length ≤ 2 ^ maxDepth + 1

/-- sums of degrees do not decrease when more degrees are added (true for left to right summation, false for pairwise summation). -/
def SumSublist (A : Arith K) : Prop :=
  ∀ xs ys : List K, ys.Sublist xs → (∀ x ∈ xs, A.fl x = x ∧ 0 ≤ x) → A.sum ys ≤ A.sum xs

end Teacher.Spec
