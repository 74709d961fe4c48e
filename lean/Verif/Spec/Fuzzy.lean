import Mathlib.Algebra.Order.Field.Basic

/-!
# Specification of triangular membership functions

Independent of the model: what it means for `μ` to be the triangular membership function with points `a ≤ b ≤ c`.
-/

namespace Teacher.Spec

variable {K : Type} [Field K] [LinearOrder K]

/-- `μ` is the triangle that is 0 up to `a`, raises linearly to 1 at `b`, falls linearly to 0 at `c` and stays 0. -/
structure IsTriangle (a b c : K) (μ : K → K) : Prop where
  peak : μ b = 1
  rise : ∀ x, a < x → x < b → μ x = (x - a) / (b - a)
  fall : ∀ x, b < x → x < c → μ x = (c - x) / (c - b)
  left : ∀ x, x ≤ a → x ≠ b → μ x = 0
  right : ∀ x, c ≤ x → x ≠ b → μ x = 0

/-- pointwise facts a user expects of a membership function with support `(a, c)` and peak `b`. -/
structure IsDegree (a b c : K) (μ : K → K) : Prop where
  nonneg : ∀ x, 0 ≤ μ x
  le_one : ∀ x, μ x ≤ 1
  eq_one_iff : ∀ x, μ x = 1 ↔ x = b
  pos_iff : ∀ x, 0 < μ x ↔ (a < x ∧ x < c) ∨ x = b
  mono : ∀ x y, x ≤ y → y ≤ b → μ x ≤ μ y
  anti : ∀ x y, b ≤ x → x ≤ y → μ y ≤ μ x

/-- `values` lists the different values of a column in the order of their first appearance. -/
structure ByAppearance {α : Type} [DecidableEq α] (col values : List α) : Prop where
  once : values.Nodup
  all : ∀ x, x ∈ values ↔ x ∈ col
  order : values.Pairwise (fun a b => col.idxOf a < col.idxOf b)

end Teacher.Spec
