import Verif.Model.Rule

/-!
# Model of `tree/_voting.py`, `tree/fdt_tree.py` and `tree/base_decision_tree.py` (for FDT)

Simplifications. Exact arithmetic. The fuzzy entropy (`_fuzzy_entropy`, `_discretize.py:139-168`) is a parameter `ent` of
the fitting functions (any function of memberships and classes); the iteration order of the Python `set` of features is
a parameter `ord`, a function of the features that are left (the order in which the others were removed is not taken into account). Objects are values: an exception in the middle of `fit` would leave a half-built tree, here it is only
an error. Tables are lists of rows.
-/

namespace Teacher

variable {C K : Type}

/-- The attributes `value = (feature index, set index)` and `fuzzy_variable` of a node below the root
(tree/fdt_tree.py:38-39, 241-242). -/
structure FTest (K : Type) where
  var : FVar K
  att : Nat
  idx : Nat
  deriving DecidableEq, Repr

/-- `TreeFDT` (tree/fdt_tree.py:32-45): `test = none` is `value = None` (root), `classValue = none` is the initial `-1`.
`t_norm` and the voting method of a node are only read at the root and are arguments of `predict` here. -/
inductive FNode (C K : Type) where
  | mk (test : Option (FTest K)) (level : Int) (mu : List K) (isLeaf : Bool) (classValue : Option (Dict C K))
      (children : List (FNode C K))

namespace FNode
/-- attribute `value`/`fuzzy_variable`. -/
def test : FNode C K → Option (FTest K) | .mk t _ _ _ _ _ => t
/-- attribute `level`. -/
def level : FNode C K → Int | .mk _ l _ _ _ _ => l
/-- attribute `mu`. -/
def mu : FNode C K → List K | .mk _ _ m _ _ _ => m
/-- attribute `is_leaf`. -/
def isLeaf : FNode C K → Bool | .mk _ _ _ b _ _ => b
/-- attribute `class_value`. -/
def classValue : FNode C K → Option (Dict C K) | .mk _ _ _ _ c _ => c
/-- attribute `childlist`. -/
def children : FNode C K → List (FNode C K) | .mk _ _ _ _ _ cs => cs
/-- `TreeFDT(None)` (tree/fdt_tree.py:33-45, 160). -/
def fresh (test : Option (FTest K)) (mu : List K) : FNode C K := .mk test (-1) mu true none []
end FNode

/-- voting methods (tree/fdt_tree.py:22-25). -/
inductive Voting where
  | agg
  | max
  deriving DecidableEq, Repr

/-- `agg_vote[key] += leaf[0][key] * leaf[1]` (tree/_voting.py:20) on a `defaultdict(lambda: 0)` of vectors. -/
def aggEntry [Field K] [DecidableEq C] (mu : List K) (d : Dict C (List K)) (kv : C × K) : Dict C (List K) :=
  let v := mu.map (kv.2 * ·)
  Dict.set d kv.1 (match Dict.get? d kv.1 with
    | none => v
    | some u => List.zipWith (· + ·) u v)

/-- `max_match[key] = np.maximum(max_match[key], leaf[0][key] * leaf[1])` (tree/_voting.py:28). -/
def maxEntry [Field K] [LinearOrder K] [DecidableEq C] (mu : List K) (d : Dict C (List K)) (kv : C × K) :
    Dict C (List K) :=
  let v := mu.map (kv.2 * ·)
  Dict.set d kv.1 (match Dict.get? d kv.1 with
    | none => v.map (Max.max 0)
    | some u => List.zipWith Max.max u v)

/-- the entry update of a voting method. -/
def Voting.entry [Field K] [LinearOrder K] [DecidableEq C] (v : Voting) (mu : List K) (d : Dict C (List K))
    (kv : C × K) : Dict C (List K) :=
  match v with
  | .agg => aggEntry mu d kv
  | .max => maxEntry mu d kv

/-- `_aggregated_vote` and `_maximum_matching` (tree/_voting.py:16-29). A leaf whose `class_value` is still `-1` is a
`TypeError` (iterating an int). -/
def Voting.run [Field K] [LinearOrder K] [DecidableEq C] (v : Voting) (leaves : List (Option (Dict C K) × List K)) :
    Py (Dict C (List K)) :=
  leaves.foldlM (fun d leaf => match leaf.1 with
    | none => .error .typeError
    | some cv => .ok (cv.foldl (v.entry leaf.2) d)) []

/-- new memberships at a node (tree/fdt_tree.py:89-98); `IndexError` if the set index does not exist. `T` is the t-norm
applied element by element. -/
def nodeMu [Field K] [LinearOrder K] (T : K → K → K) (X : List (List (Cell K))) (mu : List K) (test : Option (FTest K)) :
    Py (List K) :=
  match test with
  | none => .ok mu
  | some t => match t.var.sets[t.idx]? with
    | none => .error .indexError
    | some fs => do
      let col ← column X t.att
      let m ← fs.membership col
      pure (List.zipWith T mu m)

mutual
/-- `TreeFDT._partial_predict` (tree/fdt_tree.py:88-102); `np.concatenate([])` is a `ValueError`. -/
def partialPredict [Field K] [LinearOrder K] (T : K → K → K) (X : List (List (Cell K))) (mu : List K) :
    FNode C K → Py (List (Option (Dict C K) × List K))
  | .mk test _ _ isLeaf cv children => do
    let newMu ← nodeMu T X mu test
    if isLeaf then pure [(cv, newMu)]
    else match children with
      | [] => .error .valueError
      | c :: cs => do
        let r ← partialPredict T X newMu c
        let rs ← partialPredictList T X newMu cs
        pure (r ++ rs)
/-- the list comprehension over the children (tree/fdt_tree.py:102). -/
def partialPredictList [Field K] [LinearOrder K] (T : K → K → K) (X : List (List (Cell K))) (mu : List K) :
    List (FNode C K) → Py (List (Option (Dict C K) × List K))
  | [] => .ok []
  | c :: cs => do
    let r ← partialPredict T X mu c
    let rs ← partialPredictList T X mu cs
    pure (r ++ rs)
end

/-- lines 83-85 of tree/fdt_tree.py for row `j`: first class with the largest vote; `np.argmax` of no class is a
`ValueError`. All vectors have one entry per row, so the default of `getD` is never used. -/
def bestClass [Field K] [LinearOrder K] (votes : Dict C (List K)) (j : Nat) : Py C := do
  let b ← pyMax (fun p => p.2.getD j 0) votes
  pure b.1

/-- `TreeFDT.predict` (tree/fdt_tree.py:75-86). -/
def FNode.predict [Field K] [LinearOrder K] [DecidableEq C] (T : K → K → K) (v : Voting) (t : FNode C K)
    (X : List (List (Cell K))) : Py (List C) := do
  let leaves ← partialPredict T X (X.map (fun _ => 1)) t
  let votes ← v.run leaves
  if votes = [] then .error .valueError
  else (List.range X.length).mapM (bestClass votes)

/-- `BaseDecisionTree.predict` for FDT (tree/base_decision_tree.py:57-75): the outer list is the extra axis of
`np.array([...])`. -/
def fdtPredict [Field K] [LinearOrder K] [DecidableEq C] (T : K → K → K) (v : Voting) (t : FNode C K)
    (X : List (List (Cell K))) : Py (List (List C)) := do
  checkArray X
  let cs ← t.predict T v X
  pure [cs]

/-- `BaseDecisionTree.score` for FDT (tree/base_decision_tree.py:77-94); `check_X_y` also compares the lengths. -/
def fdtScore [Field K] [LinearOrder K] [DecidableEq C] (T : K → K → K) (v : Voting) (t : FNode C K)
    (X : List (List (Cell K))) (y : List C) : Py K := do
  checkArray X
  if X.length ≠ y.length then .error .valueError
  else do
    let p ← fdtPredict T v t X
    npDiv ((p.map (fun cs => ((cs.zip y).filter (fun q => q.1 = q.2)).length)).sum : K) y.length

/-- clause of a node (tree/fdt_tree.py:109-116). -/
def nodeClause (test : Option (FTest K)) (rule : List (String × String)) : Py (List (String × String)) :=
  match test with
  | none => .ok rule
  | some t => match t.var.sets[t.idx]? with
    | none => .error .indexError
    | some fs => .ok (rule ++ [(t.var.name, fs.name)])

mutual
/-- `TreeFDT._get_rules` (tree/fdt_tree.py:108-129), without the printing; `(-1).items()` is an `AttributeError`. -/
def getRules [LT K] [DecidableLT K] (th : K) (rule : List (String × String)) :
    FNode C K → Py (List (Rule String C K))
  | .mk test _ _ isLeaf cv children => do
    let newRule ← nodeClause test rule
    if isLeaf then match cv with
      | none => .error .attributeError
      | some cv => pure ((cv.filter (fun kv => th < kv.2)).map (fun kv => ⟨newRule, kv.1, kv.2⟩))
    else getRulesList th newRule children
/-- the loop over the children (tree/fdt_tree.py:125-129). -/
def getRulesList [LT K] [DecidableLT K] (th : K) (rule : List (String × String)) :
    List (FNode C K) → Py (List (Rule String C K))
  | [] => .ok []
  | c :: cs => do
    let r ← getRules th rule c
    let rs ← getRulesList th rule cs
    pure (r ++ rs)
end

/-- `TreeFDT.to_rule_based_system(th, verbose)` (tree/fdt_tree.py:104-106); `verbose` only prints. -/
def FNode.toRules [LT K] [DecidableLT K] (t : FNode C K) (th : K) (_verbose : Bool) : Py (List (Rule String C K)) :=
  getRules th [] t

/-- `BaseDecisionTree.to_rule_based_system(verbose, simplify)` for FDT (tree/base_decision_tree.py:96-112): the two flags
are passed by position, so `verbose` becomes the threshold `th` (`False` is 0, `True` is 1) and `simplify` becomes
`verbose`. -/
def fdtToRules [Zero K] [One K] [LT K] [DecidableLT K] (t : FNode C K) (verbose simplify : Bool) :
    Py (List (Rule String C K)) :=
  t.toRules (if verbose then 1 else 0) simplify

/-! ## fit -/

/-- parameters of `FDT.__init__` (tree/fdt_tree.py:133-161); `features_dict` and the set of features are computed from
the variables. -/
structure FDTParams (K : Type) where
  vars : List (FVar K)
  fuzzyThreshold : K
  maxDepth : Nat
  minNumExamples : Nat

/-- `self.features_dict` (tree/fdt_tree.py:157). -/
def featuresDict (vars : List (FVar K)) : Dict String Nat :=
  Dict.ofPairs ((vars.zipIdx).map (fun p => (p.1.name, p.2)))

/-- `child_mu` of one feature (tree/fdt_tree.py:173-177); `t_norm` is always `np.minimum` here. -/
def childMus [LinearOrder K] (mu : List K) (d : Dict String (List K)) : Dict String (List K) :=
  d.map (fun p => (p.1, List.zipWith min mu p.2))

/-- `f_gain` of one feature (tree/fdt_tree.py:168-191). -/
def fGain [Field K] [DecidableEq K] (ent : List K → List C → K) (mu : List K) (y : List C)
    (child : Dict String (List K)) : Py K := do
  let wef := (child.map (fun p => p.2.sum * ent p.2 y)).sum
  let wef ← npDiv wef mu.sum
  pure (ent mu y - wef)

/-- `(best_att, best_f_gain, best_child_mu)` after the loop over the features (tree/fdt_tree.py:167-196). -/
def maxGainFrom [Field K] [LinearOrder K] (ent : List K → List C → K) (Xm : Dict String (Dict String (List K)))
    (y : List C) (mu : List K) (best : String × K × Dict String (List K)) :
    List String → Py (String × K × Dict String (List K))
  | [] => .ok best
  | f :: fs => do
    let d ← Dict.get Xm f
    let child := childMus mu d
    let g ← fGain ent mu y child
    maxGainFrom ent Xm y mu (if best.2.1 < g then (f, g, child) else best) fs

/-- `FDT._get_max_f_gain` (tree/fdt_tree.py:163-198). -/
def getMaxFGain [Field K] [LinearOrder K] (ent : List K → List C → K) (Xm : Dict String (Dict String (List K)))
    (y : List C) (mu : List K) (features : List String) : Py (String × K × Dict String (List K)) :=
  maxGainFrom ent Xm y mu ("", 0, []) features

/-- `y[mask]` (tree/fdt_tree.py:229-230). -/
def maskedY [Zero K] [LT K] [DecidableLT K] (mu : List K) (y : List C) : List C :=
  ((mu.zip y).filter (fun p => 0 < p.1)).map Prod.snd

/-- `FDT._stop_met` (tree/fdt_tree.py:200-209). -/
def stopMet [LinearOrder C] [LT K] [DecidableLT K] (p : FDTParams K) (gain : K) (ym : List C) (depth : Nat) : Bool :=
  (npUnique ym).length < 2 || ym.length < p.minNumExamples || p.maxDepth ≤ depth || decide (gain < p.fuzzyThreshold)

/-- `FDT._get_class_value` (tree/fdt_tree.py:211-217). -/
def classValueOf [Field K] [DecidableEq K] [LinearOrder C] (mu : List K) (y : List C) : Py (Dict C K) :=
  (npUnique y).mapM (fun c => do
    let w ← npDiv ((mu.zip y).map (fun p => if p.2 = c then p.1 else 0)).sum mu.sum
    pure (c, w))

/-- lines 245-249 of tree/fdt_tree.py on a new child. -/
def fitChild [Field K] [LinearOrder K] [LinearOrder C] (rec : FNode C K → Py (FNode C K)) (y : List C) (mu : List K)
    (child : FNode C K) : Py (FNode C K) :=
  if 0 < child.mu.sum then rec child
  else do
    let cv ← classValueOf mu y
    pure (.mk child.test child.level child.mu true (some cv) [])

/-- the loop of lines 238-249 of tree/fdt_tree.py, from set number `i` on; `rec child` is the recursive call
`self._partial_fit(X_membership, y, child, new_features, current_depth + 1)`. -/
def fitChildren [Field K] [LinearOrder K] [LinearOrder C] (rec : FNode C K → Py (FNode C K)) (p : FDTParams K)
    (y : List C) (mu : List K) (att : String) (childMu : Dict String (List K)) (features : List String)
    (i : Nat) : List String → Py (List (FNode C K))
  | [] => .ok []
  | value :: values => do
    if att ∉ features then .error .keyError
    else do
      let fi ← Dict.get (featuresDict p.vars) att
      let var ← (match p.vars[fi]? with | some v => .ok v | none => .error .indexError : Py (FVar K))
      let cmu ← Dict.get childMu value
      let child ← fitChild rec y mu (.fresh (some ⟨var, fi, i⟩) cmu)
      let rest ← fitChildren rec p y mu att childMu features (i + 1) values
      pure (child :: rest)

/-- `FDT._partial_fit` (tree/fdt_tree.py:225-249) on the node `current`. `ord` gives the iteration order of a set of
features; `fuel` bounds the recursion depth (see `PyErr.fuel`). -/
def partialFit [Field K] [LinearOrder K] [LinearOrder C] (ent : List K → List C → K)
    (ord : List String → List String) (p : FDTParams K) (Xm : Dict String (Dict String (List K))) (y : List C) :
    Nat → FNode C K → List String → Nat → Py (FNode C K)
  | 0, _, _, _ => .error .fuel
  | fuel + 1, current, features, depth => do
    let (att, gain, childMu) ← getMaxFGain ent Xm y current.mu (ord features)
    if stopMet p gain (maskedY current.mu y) depth then do
      let cv ← classValueOf current.mu y
      pure (.mk current.test depth current.mu true (some cv) current.children)
    else do
      let sets ← Dict.get Xm att
      let cs ← fitChildren (fun child => partialFit ent ord p Xm y fuel child (features.erase att) (depth + 1))
        p y current.mu att childMu features 0 (Dict.keys sets)
      pure (.mk current.test depth current.mu false current.classValue (current.children ++ cs))

/-- the tree of a new `FDT` object, `TreeFDT(None, ...)` (tree/fdt_tree.py:33-45, 160). -/
def fdtNew : FNode C K := .fresh none []

/-- `FDT.fit` (tree/fdt_tree.py:219-223) on an object whose current tree is `root`. -/
def fdtFit [Field K] [LinearOrder K] [LinearOrder C] (ent : List K → List C → K)
    (ord : List String → List String) (p : FDTParams K) (root : FNode C K) (X : List (List (Cell K))) (y : List C) :
    Py (FNode C K) := do
  checkArray X
  if X.length ≠ y.length then .error .valueError
  else do
    let Xm ← datasetMembership X p.vars
    let features := (p.vars.map FVar.name).dedup
    let root : FNode C K := .mk root.test root.level (y.map (fun _ => 1)) root.isLeaf root.classValue root.children
    partialFit ent ord p Xm y (features.length + 1) root features 0

end Teacher
