import Verif.Model.FDT

/-!
# The fuzzy sets and FDT in floating point arithmetic

The other models compute exactly. Here every addition, subtraction, multiplication and division of `skfuzzy.trimf`, `tree/_voting.py` and
`tree/fdt_tree.py` is followed by a rounding `fl`, and `np.sum` is any function `sum` of the summands (numpy adds in pairs, in an order that
depends on the length and on the memory layout). Comparisons, `np.minimum` and `np.maximum` are exact in floating point; a product with a
Boolean mask is exact too. Simplifications: no overflow (no infinities); `nan` is an error, as in the other models. The fuzzy entropy is
any function `ent`, so the roundings inside it are included. What is assumed of `fl` and `sum` is stated by each theorem (`Spec.Lawful`).
-/

namespace Teacher

/-- a floating point arithmetic: the rounding of the exact result of an operation, and `np.sum`. -/
structure Arith (K : Type) where
  fl : K → K
  sum : List K → K

variable {C K : Type} [Field K] [LinearOrder K]

/-- `skfuzzy.trimf` at one point (called in fuzzy/fuzzy_set.py:93), see `trimfAt`: the same branches, two rounded differences and a rounded
quotient. -/
def trimfAtF (A : Arith K) (a b c x : K) : K :=
  if x = b then 1
  else if b ≠ c ∧ b < x ∧ x < c then A.fl (A.fl (c - x) / A.fl (c - b))
  else if a ≠ b ∧ a < x ∧ x < b then A.fl (A.fl (x - a) / A.fl (b - a))
  else 0

/-- `FuzzyContinuousSet.membership` (fuzzy/fuzzy_set.py:92-93), see `CSet.membership`. -/
def CSet.membershipF (A : Arith K) (s : CSet K) (v : List (Cell K)) : Py (List K) :=
  if s.a ≤ s.b ∧ s.b ≤ s.c then
    v.mapM (fun x => match x with
      | .num x => .ok (trimfAtF A s.a s.b s.c x)
      | .str _ => if s.a = s.b ∧ s.b = s.c then .ok 0 else .error .typeError)
  else .error .assertionError

/-- `membership` of any fuzzy set (fuzzy/fuzzy_set.py:92-93, 201-205). -/
def FSet.membershipF (A : Arith K) (s : FSet K) (v : List (Cell K)) : Py (List K) :=
  match s with
  | .cont s => s.membershipF A v
  | .disc s => .ok (s.membership v)

/-- `FuzzyVariable.membership` (fuzzy/fuzzy_variable.py:22-35). -/
def FVar.membershipF (A : Arith K) (v : FVar K) (col : List (Cell K)) : Py (Dict String (List K)) := do
  let ps ← v.sets.mapM (fun fs => do let m ← fs.membershipF A col; pure (fs.name, m))
  pure (Dict.ofPairs ps)

/-- loop of `dataset_membership` (fuzzy/_base.py:117-120). -/
def datasetMembershipFromF (A : Arith K) (X : List (List (Cell K))) (i : Nat) (acc : Dict String (Dict String (List K))) :
    List (FVar K) → Py (Dict String (Dict String (List K)))
  | [] => .ok acc
  | v :: vs => do
    let col ← column X i
    let m ← v.membershipF A col
    datasetMembershipFromF A X (i + 1) (acc.set v.name m) vs

/-- `dataset_membership` (fuzzy/_base.py:94-120). -/
def datasetMembershipF (A : Arith K) (X : List (List (Cell K))) (vars : List (FVar K)) : Py (Dict String (Dict String (List K))) := do
  checkArray X
  datasetMembershipFromF A X 0 [] vars

/-! ## predict -/

/-- new memberships at a node (tree/fdt_tree.py:89-98). -/
def nodeMuF (A : Arith K) (T : K → K → K) (X : List (List (Cell K))) (mu : List K) (test : Option (FTest K)) : Py (List K) :=
  match test with
  | none => .ok mu
  | some t => match t.var.sets[t.idx]? with
    | none => .error .indexError
    | some fs => do
      let col ← column X t.att
      let m ← fs.membershipF A col
      pure (List.zipWith T mu m)

mutual
/-- `TreeFDT._partial_predict` (tree/fdt_tree.py:88-102). -/
def partialPredictF (A : Arith K) (T : K → K → K) (X : List (List (Cell K))) (mu : List K) :
    FNode C K → Py (List (Option (Dict C K) × List K))
  | .mk test _ _ isLeaf cv children => do
    let newMu ← nodeMuF A T X mu test
    if isLeaf then pure [(cv, newMu)]
    else match children with
      | [] => .error .valueError
      | c :: cs => do
        let r ← partialPredictF A T X newMu c
        let rs ← partialPredictListF A T X newMu cs
        pure (r ++ rs)
/-- the list comprehension over the children (tree/fdt_tree.py:102). -/
def partialPredictListF (A : Arith K) (T : K → K → K) (X : List (List (Cell K))) (mu : List K) :
    List (FNode C K) → Py (List (Option (Dict C K) × List K))
  | [] => .ok []
  | c :: cs => do
    let r ← partialPredictF A T X mu c
    let rs ← partialPredictListF A T X mu cs
    pure (r ++ rs)
end

/-- how a vote is combined with the next contribution: `+=` rounds (tree/_voting.py:20), `np.maximum` does not (tree/_voting.py:28). -/
def Voting.opF (A : Arith K) (v : Voting) : K → K → K :=
  match v with
  | .agg => fun a b => A.fl (a + b)
  | .max => Max.max

/-- one entry of a leaf (tree/_voting.py:18-20 and 26-28): the rounded products are combined with the votes of the class so far, which
are 0 for a class that is not in the `defaultdict` yet. -/
def Voting.entryF [DecidableEq C] (A : Arith K) (v : Voting) (mu : List K) (d : Dict C (List K)) (kv : C × K) : Dict C (List K) :=
  let w := mu.map (fun m => A.fl (kv.2 * m))
  Dict.set d kv.1 (match Dict.get? d kv.1 with
    | none => w.map (v.opF A 0)
    | some u => List.zipWith (v.opF A) u w)

/-- `_aggregated_vote` and `_maximum_matching` (tree/_voting.py:16-29). -/
def Voting.runF [DecidableEq C] (A : Arith K) (v : Voting) (leaves : List (Option (Dict C K) × List K)) : Py (Dict C (List K)) :=
  leaves.foldlM (fun d leaf => match leaf.1 with
    | none => .error .typeError
    | some cv => .ok (cv.foldl (v.entryF A leaf.2) d)) []

/-- `TreeFDT.predict` (tree/fdt_tree.py:75-86). -/
def FNode.predictF [DecidableEq C] (A : Arith K) (T : K → K → K) (v : Voting) (t : FNode C K) (X : List (List (Cell K))) : Py (List C) := do
  let leaves ← partialPredictF A T X (X.map (fun _ => 1)) t
  let votes ← v.runF A leaves
  if votes = [] then .error .valueError
  else (List.range X.length).mapM (bestClass votes)

/-- `BaseDecisionTree.predict` for FDT (tree/base_decision_tree.py:57-75). -/
def fdtPredictF [DecidableEq C] (A : Arith K) (T : K → K → K) (v : Voting) (t : FNode C K) (X : List (List (Cell K))) :
    Py (List (List C)) := do
  checkArray X
  let cs ← t.predictF A T v X
  pure [cs]

/-! ## fit -/

/-- rounded numpy division of two scalars, `nan` on a zero divisor. -/
def flDiv (A : Arith K) (a b : K) : Py K := if b = 0 then .error .nan else .ok (A.fl (a / b))

/-- `f_gain` of one feature (tree/fdt_tree.py:168-191). -/
def fGainF (A : Arith K) (ent : List K → List C → K) (mu : List K) (y : List C) (child : Dict String (List K)) : Py K := do
  let wef := child.foldl (fun w p => A.fl (w + A.fl (A.sum p.2 * ent p.2 y))) 0
  let wef ← flDiv A wef (A.sum mu)
  pure (A.fl (ent mu y - wef))

/-- loop over the features (tree/fdt_tree.py:167-196). -/
def maxGainFromF (A : Arith K) (ent : List K → List C → K) (Xm : Dict String (Dict String (List K)))
    (y : List C) (mu : List K) (best : String × K × Dict String (List K)) : List String → Py (String × K × Dict String (List K))
  | [] => .ok best
  | f :: fs => do
    let d ← Dict.get Xm f
    let child := childMus mu d
    let g ← fGainF A ent mu y child
    maxGainFromF A ent Xm y mu (if best.2.1 < g then (f, g, child) else best) fs

/-- `FDT._get_max_f_gain` (tree/fdt_tree.py:163-198). -/
def getMaxFGainF (A : Arith K) (ent : List K → List C → K) (Xm : Dict String (Dict String (List K)))
    (y : List C) (mu : List K) (features : List String) : Py (String × K × Dict String (List K)) :=
  maxGainFromF A ent Xm y mu ("", 0, []) features

/-- `FDT._get_class_value` (tree/fdt_tree.py:211-217); `mu * mask` is exact. -/
def classValueOfF [LinearOrder C] (A : Arith K) (mu : List K) (y : List C) : Py (Dict C K) :=
  (npUnique y).mapM (fun c => do
    let w ← flDiv A (A.sum ((mu.zip y).map (fun p => if p.2 = c then p.1 else 0))) (A.sum mu)
    pure (c, w))

/-- lines 245-249 of tree/fdt_tree.py on a new child. -/
def fitChildF [LinearOrder C] (A : Arith K) (rec : FNode C K → Py (FNode C K)) (y : List C) (mu : List K)
    (child : FNode C K) : Py (FNode C K) :=
  if 0 < A.sum child.mu then rec child
  else do
    let cv ← classValueOfF A mu y
    pure (.mk child.test child.level child.mu true (some cv) [])

/-- the loop of lines 238-249 of tree/fdt_tree.py. -/
def fitChildrenF [LinearOrder C] (A : Arith K) (rec : FNode C K → Py (FNode C K)) (p : FDTParams K)
    (y : List C) (mu : List K) (att : String) (childMu : Dict String (List K)) (features : List String)
    (i : Nat) : List String → Py (List (FNode C K))
  | [] => .ok []
  | value :: values => do
    if att ∉ features then .error .keyError
    else do
      let fi ← Dict.get (featuresDict p.vars) att
      let var ← (match p.vars[fi]? with | some v => .ok v | none => .error .indexError : Py (FVar K))
      let cmu ← Dict.get childMu value
      let child ← fitChildF A rec y mu (.fresh (some ⟨var, fi, i⟩) cmu)
      let rest ← fitChildrenF A rec p y mu att childMu features (i + 1) values
      pure (child :: rest)

/-- `FDT._partial_fit` (tree/fdt_tree.py:225-249). -/
def partialFitF [LinearOrder C] (A : Arith K) (ent : List K → List C → K)
    (ord : List String → List String) (p : FDTParams K) (Xm : Dict String (Dict String (List K))) (y : List C) :
    Nat → FNode C K → List String → Nat → Py (FNode C K)
  | 0, _, _, _ => .error .fuel
  | fuel + 1, current, features, depth => do
    let (att, gain, childMu) ← getMaxFGainF A ent Xm y current.mu (ord features)
    if stopMet p gain (maskedY current.mu y) depth then do
      let cv ← classValueOfF A current.mu y
      pure (.mk current.test depth current.mu true (some cv) current.children)
    else do
      let sets ← Dict.get Xm att
      let cs ← fitChildrenF A (fun child => partialFitF A ent ord p Xm y fuel child (features.erase att) (depth + 1))
        p y current.mu att childMu features 0 (Dict.keys sets)
      pure (.mk current.test depth current.mu false current.classValue (current.children ++ cs))

/-- `FDT.fit` (tree/fdt_tree.py:219-223). -/
def fdtFitF [LinearOrder C] (A : Arith K) (ent : List K → List C → K)
    (ord : List String → List String) (p : FDTParams K) (root : FNode C K) (X : List (List (Cell K))) (y : List C) :
    Py (FNode C K) := do
  checkArray X
  if X.length ≠ y.length then .error .valueError
  else do
    let Xm ← datasetMembershipF A X p.vars
    let features := (p.vars.map FVar.name).dedup
    let root : FNode C K := .mk root.test root.level (y.map (fun _ => 1)) root.isLeaf root.classValue root.children
    partialFitF A ent ord p Xm y (features.length + 1) root features 0

end Teacher
