import Verif.Model.FDT

/-!
# Specification of fuzzy decision trees

What the leaves of a tree are, to which degree a row belongs to a leaf, and who wins the vote of the leaves.
Only the data types of the model and the membership of a single cell in a single fuzzy set are used.
-/

namespace Teacher.Spec

variable {C K : Type}

mutual
/-- the leaves of a tree from left to right: the tests on the way from the root and the content of the leaf. -/
def leafPaths : FNode C K → List (List (FTest K) × Option (Dict C K))
  | .mk test _ _ isLeaf cv children =>
    if isLeaf then [(test.toList, cv)] else (leafPathsList children).map (fun p => (test.toList ++ p.1, p.2))
/-- the leaves of a list of trees. -/
def leafPathsList : List (FNode C K) → List (List (FTest K) × Option (Dict C K))
  | [] => []
  | c :: cs => leafPaths c ++ leafPathsList cs
end

mutual
/-- every split node has at least one child. -/
def Branching : FNode C K → Prop
  | .mk _ _ _ isLeaf _ children => isLeaf = false → children ≠ [] ∧ BranchingList children
/-- `Branching` for a list of trees. -/
def BranchingList : List (FNode C K) → Prop
  | [] => True
  | c :: cs => Branching c ∧ BranchingList cs
end

section
variable [Field K] [LinearOrder K]

/-- `row` belongs with degree `m` to the fuzzy set of test `t`. -/
def TestDegree (row : List (Cell K)) (t : FTest K) (m : K) : Prop :=
  ∃ fs x, t.var.sets[t.idx]? = some fs ∧ row[t.att]? = some x ∧ fs.membership [x] = .ok [m]

/-- `row` belongs with degree `m` to the leaf behind the tests `path`: the t-norm of 1 and the degrees of the tests. -/
def LeafDegree (T : K → K → K) (row : List (Cell K)) (path : List (FTest K)) (m : K) : Prop :=
  ∃ ms, List.Forall₂ (TestDegree row) path ms ∧ m = ms.foldl T 1

/-- the distributions of the leaves of `t` with the degree of `row` in each of them. -/
def RowLeaves (T : K → K → K) (row : List (Cell K)) (t : FNode C K) (L : List (Dict C K × K)) : Prop :=
  List.Forall₂ (fun p q => p.2 = some q.1 ∧ LeafDegree T row p.1 q.2) (leafPaths t) L

/-- all the contributions `weight * degree` that the leaves give to class `c`. -/
def contributions [DecidableEq C] (L : List (Dict C K × K)) (c : C) : List K :=
  L.flatMap (fun q => (q.1.filter (fun kv => kv.1 = c)).map (fun kv => kv.2 * q.2))

/-- vote of class `c`: sum of its contributions (`agg_vote`), or the largest of them and 0 (`max_match`). -/
def vote [DecidableEq C] (v : Voting) (L : List (Dict C K × K)) (c : C) : K :=
  match v with
  | .agg => (contributions L c).sum
  | .max => (contributions L c).foldr max 0

/-- `c` is the class with the largest vote, the first one met in the leaves among those. -/
def IsWinner [DecidableEq C] (v : Voting) (L : List (Dict C K × K)) (c : C) : Prop :=
  ∃ pre post, L.flatMap (fun q => q.1.map Prod.fst) = pre ++ c :: post ∧
    (∀ c' ∈ pre, vote v L c' < vote v L c) ∧ ∀ c' ∈ post, vote v L c' ≤ vote v L c

mutual
/-- at every split node exactly one child has degree 1 for `row` and the others have degree 0. -/
def CrispOn (row : List (Cell K)) : FNode C K → Prop
  | .mk _ _ _ isLeaf _ children => isLeaf = false →
    (∃ pre c post, children = pre ++ c :: post ∧ (∃ t, c.test = some t ∧ TestDegree row t 1) ∧
      ∀ c' ∈ pre ++ post, ∃ t, c'.test = some t ∧ TestDegree row t 0) ∧ CrispOnList row children
/-- `CrispOn` for a list of trees. -/
def CrispOnList (row : List (Cell K)) : List (FNode C K) → Prop
  | [] => True
  | c :: cs => CrispOn row c ∧ CrispOnList row cs
end

/-- the leaf content reached from a node by following, at every split, a child whose test has degree 1. -/
inductive Reaches (row : List (Cell K)) : FNode C K → Option (Dict C K) → Prop where
  | leaf (test level mu cv children) : Reaches row (.mk test level mu true cv children) cv
  | step (test level mu cv children c t out) (hc : c ∈ children) (ht : c.test = some t) (hd : TestDegree row t 1)
      (h : Reaches row c out) : Reaches row (.mk test level mu false cv children) out

end

mutual
/-- all the nodes of a tree with the tests on the way from the root (the test of the node included). -/
def nodePaths : FNode C K → List (List (FTest K) × FNode C K)
  | .mk test level mu isLeaf cv children =>
    (test.toList, .mk test level mu isLeaf cv children) ::
      (if isLeaf then [] else (nodePathsList children).map (fun p => (test.toList ++ p.1, p.2)))
/-- the nodes of a list of trees. -/
def nodePathsList : List (FNode C K) → List (List (FTest K) × FNode C K)
  | [] => []
  | c :: cs => nodePaths c ++ nodePathsList cs
end

/-- share of class `c` in the labels `y` weighted by `mu`. -/
def classShare [Field K] [DecidableEq C] (mu : List K) (y : List C) (c : C) : K :=
  (((mu.zip y).filter (fun q => q.2 = c)).map Prod.fst).sum / mu.sum

/-- `cv` has one entry for every class occurring in `y`, in increasing order, holding its share weighted by `mu`. -/
def IsDistribution [Field K] [LinearOrder C] (mu : List K) (y : List C) (cv : Dict C K) : Prop :=
  (cv.map Prod.fst).Pairwise (· < ·) ∧ (∀ c, c ∈ cv.map Prod.fst ↔ c ∈ y) ∧ ∀ kv ∈ cv, kv.2 = classShare mu y kv.1

end Teacher.Spec

namespace Teacher.Spec
variable {C K : Type}

/-- the degrees of the column of variable number `j` in each of its sets, one list per set. -/
def SetDegrees [Field K] [LinearOrder K] (X : List (List (Cell K))) (j : Nat) (v : FVar K) (D : List (List K)) : Prop :=
  List.Forall₂ (fun fs ms => List.Forall₂ (fun row m => ∃ x, row[j]? = some x ∧ fs.membership [x] = .ok [m]) X ms) v.sets D

/-- the information gain of splitting rows of degrees `mu` into the sets with degrees `D`: impurity minus the impurity of
the parts, each weighted by its share of the degrees. -/
def splitGain [Field K] [LinearOrder K] (ent : List K → List C → K) (mu : List K) (y : List C) (D : List (List K)) : K :=
  ent mu y - (D.map (fun ms => (List.zipWith min mu ms).sum * ent (List.zipWith min mu ms) y)).sum / mu.sum

/-- the classes of the rows with positive degree. -/
def livingClasses [Zero K] [LT K] [DecidableLT K] (mu : List K) (y : List C) : List C :=
  ((mu.zip y).filter (fun p => 0 < p.1)).map Prod.snd

end Teacher.Spec
