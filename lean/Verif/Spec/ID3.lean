import Verif.Model.ID3

/-!
# Specification of ID3 trees

Which rows reach a node, what a majority class is, when a row satisfies a rule, and Shannon entropy / information gain as a
formula about labels. Only the data types of the model are used.
-/

namespace Teacher.Spec

variable {V C K : Type}

mutual
/-- the visible nodes of a tree (nothing below a leaf), each with the tests `feature index = value` on the way to it. -/
def idNodes : INode V C K → List (List (Option Nat × V) × INode V C K)
  | .mk isLeaf var branches cv cc level err nl =>
    ([], .mk isLeaf var branches cv cc level err nl) :: (if isLeaf then [] else idNodesBranches var branches)
/-- the nodes below a node that tests `var`. -/
def idNodesBranches (var : Option Nat) : List (V × INode V C K) → List (List (Option Nat × V) × INode V C K)
  | [] => []
  | (s, t) :: rest => (idNodes t).map (fun p => ((var, s) :: p.1, p.2)) ++ idNodesBranches var rest
end

/-- `x` passes all the tests of `path`. -/
def passes [DecidableEq V] (x : List V) (path : List (Option Nat × V)) : Bool :=
  path.all (fun q => decide (q.1.bind (fun i => x[i]?) = some q.2))

/-- the rows that pass all the tests of `path`. -/
def reaching [DecidableEq V] (rows : IRows V C) (path : List (Option Nat × V)) : IRows V C :=
  rows.filter (fun r => passes r.1 path)

/-- `c` is a most frequent class of `labels`. -/
def IsMode [DecidableEq C] (labels : List C) (c : C) : Prop := c ∈ labels ∧ ∀ c', labels.count c' ≤ labels.count c

/-- `x` has for every condition `feature = value` that value in the column of the feature. -/
def satisfies [DecidableEq V] (features : List String) (x : List V) (antecedent : List (String × V)) : Bool :=
  antecedent.all (fun q => decide (x[features.idxOf q.1]? = some q.2))

/-- number of rows to which the tree does not give their class. -/
def mistakes [DecidableEq V] [DecidableEq C] (t : INode V C K) (rows : IRows V C) : Nat :=
  rows.countP (fun r => match t.predict r.1 with
    | .ok (.cls c) => decide (c ≠ r.2)
    | _ => true)

/-- every row has a value for each of the first `k` columns. -/
def Wide (rows : IRows V C) (k : Nat) : Prop := ∀ r ∈ rows, k ≤ r.1.length

/-- every value of `x` (in the first `k` columns) occurs in the same column of `rows`. -/
def KnownValues (rows : IRows V C) (k : Nat) (x : List V) : Prop :=
  ∀ j < k, ∃ v, x[j]? = some v ∧ ∃ r ∈ rows, r.1[j]? = some v

/-- the iteration order of a Python set: some arrangement of its elements. -/
def IsArrangement {α : Type} (ord : List α → List α) : Prop := ∀ l, (ord l).Perm l

/-- `ord l` lists the elements of `set(l)`, each once; the order may depend on the order of insertion and on the repetitions. -/
def IsSetListing {α : Type} [DecidableEq α] (ord : List α → List α) : Prop := ∀ l, (ord l).Perm l.dedup

/-- the gain never goes below -1, for data whose values are all among the splits. (True for the information gain, which is
non-negative: `C105_gain_nonneg`.) -/
def GainOk [Field K] [LinearOrder K] (gain : List V → List C → List V → K) : Prop :=
  ∀ col y splits, splits.Nodup → (∀ v ∈ col, v ∈ splits) → col.length = y.length → y ≠ [] → -1 < gain col y splits

/-- column `i` of the rows that have one. -/
def colOf (rows : IRows V C) (i : Nat) : List V := rows.filterMap (fun r => r.1[i]?)

/-- the labels of the rows. -/
def labels (rows : IRows V C) : List C := rows.map Prod.snd

end Teacher.Spec
