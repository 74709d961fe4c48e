import Verif.Spec.Rounded
import Verif.Spec.FBDT

/-! Specification of the degrees that FBDT computes in floating point. -/

namespace Teacher.Spec
open Teacher

variable {C K : Type} [Field K] [LinearOrder K]

/-- `row` belongs with degree `m`, computed in floating point, to the union of the sets of test `t`: its degrees in them, added from left to
right with a rounding after each addition. -/
def BTestDegreeF (A : Arith K) (row : List (Cell K)) (t : BTest K) (m : K) : Prop :=
  ∃ ms, List.Forall₂ (fun i m => TestDegreeF A row ⟨t.var, t.att, i⟩ m) t.idxs ms ∧ m = leftSum A.fl ms

/-- `row` belongs with degree `m` to the node behind the tests `path`: the minimum of 1 and the degrees of the tests. -/
def BLeafDegreeF (A : Arith K) (row : List (Cell K)) (path : List (BTest K)) (m : K) : Prop :=
  ∃ ms, List.Forall₂ (BTestDegreeF A row) path ms ∧ m = ms.foldl min 1

end Teacher.Spec
