import Verif.Model.FBDT
import Verif.Spec.Tree

/-!
# Specification of binary fuzzy trees

* Fitting without sharing: the functions of this first part are those of `FBDT.fit` if every node had its own arrays of ignored examples
  (passed by value), so that nothing done while one subtree grows can be seen by another one.
* Leaves, degrees and votes of a binary tree, as in `Spec/Tree.lean`.
-/

namespace Teacher.Spec

variable {C K : Type}

section
variable [Field K] [LinearOrder K]

/-- one side of a candidate split: the membership, the ignored examples of this side, and the ones of the node afterwards. -/
def sideByValue (n : Nat) (ign : Dict String (List K)) (feature : String) (mem : List K) : List K × List K × Dict String (List K) :=
  match Dict.get? ign feature with
  | none => (mem, markPartial mem (List.replicate n 0), ign)
  | some a =>
    let m := List.zipWith max mem a
    (m, markPartial m a, Dict.set ign feature (markPartial m a))

/-- one candidate split. -/
def partByValue (ent : List K → List C → K) (Xm : Dict String (Dict String (List K))) (y : List C)
    (mu : List K) (st : Option (BBest K (List K)) × Dict String (List K)) (part : BPart) :
    Py (Option (BBest K (List K)) × Dict String (List K)) := do
  let lm ← sumSets Xm y.length part.1 part.2.1
  let l := sideByValue y.length st.2 part.1 lm
  let rm ← sumSets Xm y.length part.1 part.2.2
  let r := sideByValue y.length l.2.2 part.1 rm
  let muL := List.zipWith min mu l.1
  let muR := List.zipWith min mu r.1
  let g ← splitGainOf ent y mu muL muR
  pure (if (match st.1 with | none => 0 | some b => b.gain) < g then some ⟨part.1, g, (muL, muR), part.2, (l.2.1, r.2.1)⟩ else st.1,
    r.2.2)

/-- the best split of a node, and its ignored examples afterwards. -/
def maxGainByValue [LinearOrder C] [NanSort K] (ent : List K → List C → K) (cats : List String)
    (Xm : Dict String (Dict String (List K))) (y : List C) (mu : List K) (ign : Dict String (List K)) (fd : Dict String (List String)) :
    Py (Option (BBest K (List K)) × Dict String (List K)) :=
  match (npUnique y)[0]? with
  | none => .error .indexError
  | some c0 => do
    let parts ← binaryPartitions cats Xm (y.map (fun c => decide (c = c0))) fd
    parts.foldlM (partByValue ent Xm y mu) (none, ign)

/-- the ignored examples of a child. -/
def childIgnored (ign : Dict String (List K)) (feature : String) (arr : List K) : Dict String (List K) :=
  match Dict.get? ign feature with
  | some a => Dict.set ign feature (List.zipWith max a arr)
  | none => Dict.set ign feature arr

/-- a child of a node. -/
def childByValue [LinearOrder C]
    (rec : BNode C K → Dict String (List K) → Dict String (List String) → Py (BNode C K)) (p : FDTParams K) (y : List C)
    (mu : List K) (ign : Dict String (List K)) (fd : Dict String (List String)) (att : String) (sets : List String) (childMu : List K)
    (arr : List K) : Py (BNode C K) := do
  let test ← childTest p att sets
  let fd' ← restrictDict fd att sets
  if 0 < childMu.sum then rec (.fresh (some test) childMu) (childIgnored ign att arr) fd'
  else do
    let cv ← classValueOf mu y
    pure (.mk (some test) (-1) childMu true (some cv) [])

/-- growing a node. -/
def growByValue [LinearOrder C] [NanSort K] (ent : List K → List C → K) (cats : List String) (p : FDTParams K)
    (Xm : Dict String (Dict String (List K))) (y : List C) :
    Nat → Nat → BNode C K → Dict String (List K) → Dict String (List String) → Py (BNode C K)
  | 0, _, _, _, _ => .error .fuel
  | fuel + 1, depth, current, ign, fd => do
    let (best, ign) ← maxGainByValue ent cats Xm y current.mu ign fd
    let gain := match best with | none => 0 | some b => b.gain
    if stopMet p gain (maskedY current.mu y) depth then do
      let cv ← classValueOf current.mu y
      pure (.mk current.test depth current.mu true (some cv) current.children)
    else match best with
      | none => .error .keyError
      | some b => do
        let l ← childByValue (growByValue ent cats p Xm y fuel (depth + 1)) p y current.mu ign fd b.att b.split.1 b.mus.1 b.ignored.1
        let r ← childByValue (growByValue ent cats p Xm y fuel (depth + 1)) p y current.mu ign fd b.att b.split.2 b.mus.2 b.ignored.2
        pure (.mk current.test depth current.mu false current.classValue (current.children ++ [l, r]))

/-- `FBDT.fit` without sharing. -/
def fitByValue [LinearOrder C] [NanSort K] (ent : List K → List C → K) (p : FDTParams K) (root : BNode C K)
    (X : List (List (Cell K))) (y : List C) : Py (BNode C K) := do
  let cats ← categoricalFeatures p.vars
  checkArray X
  if X.length ≠ y.length then .error .valueError
  else do
    let Xm ← datasetMembership X p.vars
    growByValue ent cats p Xm y (p.maxDepth + 1) 0
      (.mk root.test root.level (y.map (fun _ => 1)) root.isLeaf root.classValue root.children) [] (setNames p.vars)

end

/-! ### leaves and degrees -/

mutual
/-- the leaves of a tree from left to right: the tests on the way from the root and the content of the leaf. -/
def bLeafPaths : BNode C K → List (List (BTest K) × Option (Dict C K))
  | .mk test _ _ isLeaf cv children =>
    if isLeaf then [(test.toList, cv)] else (bLeafPathsList children).map (fun p => (test.toList ++ p.1, p.2))
/-- the leaves of a list of trees. -/
def bLeafPathsList : List (BNode C K) → List (List (BTest K) × Option (Dict C K))
  | [] => []
  | c :: cs => bLeafPaths c ++ bLeafPathsList cs
end

mutual
/-- every split node has at least one child. -/
def BBranching : BNode C K → Prop
  | .mk _ _ _ isLeaf _ children => isLeaf = false → children ≠ [] ∧ BBranchingList children
/-- `BBranching` for a list of trees. -/
def BBranchingList : List (BNode C K) → Prop
  | [] => True
  | c :: cs => BBranching c ∧ BBranchingList cs
end

mutual
/-- all the nodes of a tree with the tests on the way from the root (the test of the node included). -/
def bNodePaths : BNode C K → List (List (BTest K) × BNode C K)
  | .mk test level mu isLeaf cv children =>
    (test.toList, .mk test level mu isLeaf cv children) ::
      (if isLeaf then [] else (bNodePathsList children).map (fun p => (test.toList ++ p.1, p.2)))
/-- the nodes of a list of trees. -/
def bNodePathsList : List (BNode C K) → List (List (BTest K) × BNode C K)
  | [] => []
  | c :: cs => bNodePaths c ++ bNodePathsList cs
end

section
variable [Field K] [LinearOrder K]

/-- `row` belongs with degree `m` to the union of the sets of test `t`: the sum of its degrees in them. -/
def BTestDegree (row : List (Cell K)) (t : BTest K) (m : K) : Prop :=
  ∃ ms, List.Forall₂ (fun i m => TestDegree row ⟨t.var, t.att, i⟩ m) t.idxs ms ∧ m = ms.sum

/-- `row` belongs with degree `m` to the leaf behind the tests `path`: the t-norm of 1 and the degrees of the tests. -/
def BLeafDegree (T : K → K → K) (row : List (Cell K)) (path : List (BTest K)) (m : K) : Prop :=
  ∃ ms, List.Forall₂ (BTestDegree row) path ms ∧ m = ms.foldl T 1

/-- the distributions of the leaves of `t` with the degree of `row` in each of them. -/
def BRowLeaves (T : K → K → K) (row : List (Cell K)) (t : BNode C K) (L : List (Dict C K × K)) : Prop :=
  List.Forall₂ (fun p q => p.2 = some q.1 ∧ BLeafDegree T row p.1 q.2) (bLeafPaths t) L

/-- the cells of the row have a degree in all the sets of their variables, and the degrees in the sets of a variable add up to at most 1. -/
def SubPartition (vars : List (FVar K)) (row : List (Cell K)) : Prop :=
  ∀ (i : Nat) v, vars[i]? = some v → ∃ x ms, row[i]? = some x ∧ List.Forall₂ (fun (s : FSet K) m => s.membership [x] = .ok [m]) v.sets ms ∧
    ms.sum ≤ 1

end

/-- the numbers of the sets of variable number `att` that are left after the tests `path`: those of the last test on it, all of them if
there is none. -/
def available (vars : List (FVar K)) (path : List (BTest K)) (att : Nat) : List Nat :=
  match path.reverse.find? (fun t => t.att = att) with
  | some t => t.idxs
  | none => List.range ((vars[att]?.map (fun v => v.sets.length)).getD 0)

section
variable [Field K]

/-- the degrees of `n` rows in the union of the sets number `idxs`, when `D` has the degrees in each set: the sums. -/
def unionDegrees (n : Nat) (D : List (List K)) (idxs : List Nat) : List K :=
  (List.range n).map (fun r => (idxs.map (fun i => (D.getD i []).getD r 0)).sum)

/-- share of the rows of class `c` in a set with degrees `ms`. -/
def setShare [DecidableEq C] (y : List C) (c : C) (ms : List K) : K :=
  (((ms.zip y).filter (fun q => q.2 = c)).map Prod.fst).sum / ms.sum

variable [LinearOrder K]

/-- a candidate split at a node behind the tests `path`: variable number `j`, not tested on the path, with its sets divided into the groups
`left` and `right`, not empty. The sets of a continuous variable are cut in their order; those of a discrete variable are divided such that
the share of the smallest class is less in every set on the left than in every set on the right, and every set has a training example. -/
def BCandidate [LinearOrder C] (vars : List (FVar K)) (X : List (List (Cell K))) (y : List C) (path : List (BTest K))
    (j : Nat) (v : FVar K) (D : List (List K)) (left right : List Nat) : Prop :=
  vars[j]? = some v ∧ (∀ t ∈ path, t.att ≠ j) ∧ SetDegrees X j v D ∧ left ≠ [] ∧ right ≠ [] ∧
  (∀ s, v.sets[0]? = some (.cont s) → left ++ right = List.range v.sets.length) ∧
  (∀ s, v.sets[0]? = some (.disc s) → (∀ ms ∈ D, 0 < ms.sum) ∧ (left ++ right).Perm (List.range v.sets.length) ∧
    ∀ c ∈ y, (∀ c' ∈ y, c ≤ c') → ∀ a ∈ left, ∀ b ∈ right, setShare y c (D.getD a []) < setShare y c (D.getD b []))

end

end Teacher.Spec
