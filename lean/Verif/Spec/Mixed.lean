import Verif.Spec.Metrics
import Mathlib.Analysis.Real.Sqrt

/-! # Specifications for the `'mixed'` distance and the `'jaccard'` sparsity -/

namespace Teacher.Spec

variable {K : Type}

/-- a row of `n` cells with numbers in the given columns. -/
def NumRow (idx : List Nat) (n : Nat) (a : List (Cell K)) : Prop := a.length = n ∧ ∀ i ∈ idx, ∃ x, a[i]? = some (Cell.num x)

/-- a row of `n` numbers. -/
def IsNumeric (n : Nat) (a : List (Cell K)) : Prop := NumRow (List.range n) n a

/-- the row with every cell of column `i` recoded by `f i`. -/
def recode (f : Nat → Cell K → Cell K) (a : List (Cell K)) : List (Cell K) := a.mapIdx f

/-- number of the given columns whose numbers differ. -/
def diffCols [Zero K] [DecidableEq K] (idx : List Nat) (a b : List (Cell K)) : Nat := (idx.filter (fun i => numAt a i ≠ numAt b i)).length

/-- number of the given columns that are not zero in one of the rows. -/
def usedCols [Zero K] [DecidableEq K] (idx : List Nat) (a b : List (Cell K)) : Nat :=
  (idx.filter (fun i => numAt a i ≠ 0 ∨ numAt b i ≠ 0)).length

/-- the rate of the columns in use that differ, 0 when no column is in use. -/
def jaccard [Field K] [DecidableEq K] (idx : List Nat) (a b : List (Cell K)) : K :=
  if usedCols idx a b = 0 then 0 else (diffCols idx a b : K) / (usedCols idx a b : K)

/-- the Euclidean distance of the given columns. -/
noncomputable def euclid (idx : List Nat) (a b : List (Cell ℝ)) : ℝ := √ ((idx.map (fun i => (numAt a i - numAt b i) ^ 2)).sum)

/-- the mean over the `n` columns: each continuous column counts the Euclidean distance, each discrete one the jaccard distance. -/
noncomputable def mixed (n : Nat) (cont disc : List Nat) (a b : List (Cell ℝ)) : ℝ :=
  ((cont.length : ℝ) * euclid cont a b + (disc.length : ℝ) * jaccard disc a b) / (n : ℝ)

end Teacher.Spec
