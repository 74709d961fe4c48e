import Verif.Model.Rounded

/-! # What the theorems about floating point assume of the arithmetic -/

namespace Teacher.Spec
open Teacher

variable {K : Type} [Field K] [LinearOrder K]

/-- the numbers of the arithmetic: those that are not changed by the rounding. -/
def IsFloat (A : Arith K) (x : K) : Prop := A.fl x = x

/-- `fl` rounds to a set of numbers that contains 0 and 1, in a monotone way, with a relative error of at most `u` and an absolute error of
at most `η` (underflow); a difference of two numbers has no underflow. `np.sum` is monotone, 0 if
all the summands are 0, and at least each summand if none is negative. `ieee_lawful` and `binary64_lawful`
(Props/IEEE) prove this for IEEE 754 rounding to nearest even without overflow and for every fixed order of summation; double precision has
`u = 2⁻⁵³` and `η = 2⁻¹⁰⁷⁵`. -/
structure Lawful (A : Arith K) (u η : K) : Prop where
  zero : A.fl 0 = 0
  one : A.fl 1 = 1
  idem : ∀ x, A.fl (A.fl x) = A.fl x
  mono : ∀ x y, x ≤ y → A.fl x ≤ A.fl y
  u_nonneg : 0 ≤ u
  u_lt : u < 1
  η_nonneg : 0 ≤ η
  err : ∀ x, |A.fl x - x| ≤ u * |x| + η
  sub_err : ∀ x y, IsFloat A x → IsFloat A y → |A.fl (x - y) - (x - y)| ≤ u * |x - y|
  sum_mono : ∀ xs ys, List.Forall₂ (· ≤ ·) xs ys → A.sum xs ≤ A.sum ys
  sum_zero : ∀ xs : List K, (∀ x ∈ xs, x = 0) → A.sum xs = 0
  sum_float : ∀ xs : List K, (∀ x ∈ xs, IsFloat A x) → IsFloat A (A.sum xs)
  sum_ge : ∀ xs : List K, (∀ x ∈ xs, IsFloat A x ∧ 0 ≤ x) → ∀ x ∈ xs, x ≤ A.sum xs

/-- the exact arithmetic. -/
def exactArith : Arith K := ⟨id, List.sum⟩

/-- sums are taken from left to right, with a rounding after each addition. -/
def leftSum (fl : K → K) (xs : List K) : K := xs.foldl (fun s x => fl (s + x)) 0

/-- the numbers of a fuzzy set are numbers of the arithmetic. -/
def FloatSet (A : Arith K) (s : CSet K) : Prop := IsFloat A s.a ∧ IsFloat A s.b ∧ IsFloat A s.c

/-- error of a membership degree. -/
def degreeError (u η : K) : K := 2 * u / (1 - u) + u + η

end Teacher.Spec

namespace Teacher.Spec
open Teacher

variable {C K : Type} [Field K] [LinearOrder K]

/-- error of the vote of a class, from `n` leaves whose degrees have an error of at most `ε`. -/
def voteError (v : Voting) (u η ε : K) (n : Nat) : K :=
  match v with
  | .agg => n * (ε + u + η + (u * n + η)) * (1 + u) ^ n
  | .max => ε + u + η

/-- error of the vote of a class, from `n` leaves of an FDT. -/
def votingError (v : Voting) (u η : K) (n : Nat) : K := voteError v u η (degreeError u η) n

/-- error of the degree of a node of an FBDT whose tests have at most `n` sets: the degree of a test is a sum of at most `n` degrees. -/
def unionError (u η : K) (n : Nat) : K := n * (degreeError u η + (u * n + η)) * (1 + u) ^ n

/-- all the numbers of a table are numbers of the arithmetic. -/
def FloatTable (A : Arith K) (X : List (List (Cell K))) : Prop := ∀ row ∈ X, ∀ x, Cell.num x ∈ row → IsFloat A x

/-- all the numbers in the sets of a variable are numbers of the arithmetic. -/
def FloatVar (A : Arith K) (v : FVar K) : Prop := ∀ s, FSet.cont s ∈ v.sets → FloatSet A s

/-- `row` belongs with degree `m`, computed in floating point, to the fuzzy set of test `t`. -/
def TestDegreeF (A : Arith K) (row : List (Cell K)) (t : FTest K) (m : K) : Prop :=
  ∃ fs x, t.var.sets[t.idx]? = some fs ∧ row[t.att]? = some x ∧ fs.membershipF A [x] = .ok [m]

/-- `row` belongs with degree `m` to the node behind the tests `path`: the minimum of 1 and the degrees of the tests. -/
def LeafDegreeF (A : Arith K) (row : List (Cell K)) (path : List (FTest K)) (m : K) : Prop :=
  ∃ ms, List.Forall₂ (TestDegreeF A row) path ms ∧ m = ms.foldl min 1

end Teacher.Spec
