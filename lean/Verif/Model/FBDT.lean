import Verif.Model.FDT

/-!
# Model of `tree/fdt_binary_tree.py`

Simplifications. Exact arithmetic; the fuzzy entropy is a parameter `ent`, as in `Model/FDT.lean`. Objects are values except the arrays
`ignored`, which nodes share and the code overwrites in place: they live in a `IgnHeap` and a node holds references to them. The attribute
`ignored` is only read while the tree is grown, so it is an argument of `_partial_fit` and not a part of the node. `__str__`, `__eq__` and
printing are not modelled.
-/

namespace Teacher

variable {C K : Type}

/-- attributes `value = (feature index, set indices)` and `fuzzy_variable` of a node below the root
(tree/fdt_binary_tree.py:38-39, 302-303). -/
structure BTest (K : Type) where
  var : FVar K
  att : Nat
  idxs : List Nat
  deriving DecidableEq, Repr

/-- `TreeFBDT` (tree/fdt_binary_tree.py:32-46): `test = none` is `value = None` (root), `classValue = none` is the initial `-1`. -/
inductive BNode (C K : Type) where
  | mk (test : Option (BTest K)) (level : Int) (mu : List K) (isLeaf : Bool) (classValue : Option (Dict C K))
      (children : List (BNode C K))

namespace BNode
/-- attribute `value`/`fuzzy_variable`. -/
def test : BNode C K → Option (BTest K) | .mk t _ _ _ _ _ => t
/-- attribute `level`. -/
def level : BNode C K → Int | .mk _ l _ _ _ _ => l
/-- attribute `mu`. -/
def mu : BNode C K → List K | .mk _ _ m _ _ _ => m
/-- attribute `is_leaf`. -/
def isLeaf : BNode C K → Bool | .mk _ _ _ b _ _ => b
/-- attribute `class_value`. -/
def classValue : BNode C K → Option (Dict C K) | .mk _ _ _ _ c _ => c
/-- attribute `childlist`. -/
def children : BNode C K → List (BNode C K) | .mk _ _ _ _ _ cs => cs
/-- `TreeFBDT(fuzzy_variable)` with its `value` and `mu` (tree/fdt_binary_tree.py:33-46, 302-304). -/
def fresh (test : Option (BTest K)) (mu : List K) : BNode C K := .mk test (-1) mu true none []
end BNode

/-! ## prediction -/

/-- `pert_degree` (tree/fdt_binary_tree.py:100-104): the sum of the memberships of the sets of the test; `IndexError` if a set does not
exist. -/
def pertDegree [Field K] [LinearOrder K] (X : List (List (Cell K))) (t : BTest K) : Py (List K) :=
  t.idxs.foldlM (fun acc i => match t.var.sets[i]? with
    | none => .error .indexError
    | some fs => do
      let col ← column X t.att
      let m ← fs.membership col
      pure (List.zipWith (· + ·) acc m)) (X.map (fun _ => 0))

/-- `new_mu` (tree/fdt_binary_tree.py:98-109). -/
def bnodeMu [Field K] [LinearOrder K] (T : K → K → K) (X : List (List (Cell K))) (mu : List K) (test : Option (BTest K)) :
    Py (List K) :=
  match test with
  | none => .ok mu
  | some t => do
    let m ← pertDegree X t
    pure (List.zipWith T mu m)

mutual
/-- `TreeFBDT._partial_predict` (tree/fdt_binary_tree.py:97-113); `np.concatenate([])` is a `ValueError`. -/
def bPartialPredict [Field K] [LinearOrder K] (T : K → K → K) (X : List (List (Cell K))) (mu : List K) :
    BNode C K → Py (List (Option (Dict C K) × List K))
  | .mk test _ _ isLeaf cv children => do
    let newMu ← bnodeMu T X mu test
    if isLeaf then pure [(cv, newMu)]
    else match children with
      | [] => .error .valueError
      | c :: cs => do
        let r ← bPartialPredict T X newMu c
        let rs ← bPartialPredictList T X newMu cs
        pure (r ++ rs)
/-- the list comprehension over the children (tree/fdt_binary_tree.py:113). -/
def bPartialPredictList [Field K] [LinearOrder K] (T : K → K → K) (X : List (List (Cell K))) (mu : List K) :
    List (BNode C K) → Py (List (Option (Dict C K) × List K))
  | [] => .ok []
  | c :: cs => do
    let r ← bPartialPredict T X mu c
    let rs ← bPartialPredictList T X mu cs
    pure (r ++ rs)
end

/-- `TreeFBDT.predict` (tree/fdt_binary_tree.py:84-95). -/
def BNode.predict [Field K] [LinearOrder K] [DecidableEq C] (T : K → K → K) (v : Voting) (t : BNode C K)
    (X : List (List (Cell K))) : Py (List C) := do
  let leaves ← bPartialPredict T X (X.map (fun _ => 1)) t
  let votes ← v.run leaves
  if votes = [] then .error .valueError
  else (List.range X.length).mapM (bestClass votes)

/-- `BaseDecisionTree.predict` for FBDT (tree/base_decision_tree.py:57-75). -/
def fbdtPredict [Field K] [LinearOrder K] [DecidableEq C] (T : K → K → K) (v : Voting) (t : BNode C K)
    (X : List (List (Cell K))) : Py (List (List C)) := do
  checkArray X
  let cs ← t.predict T v X
  pure [cs]

/-- `BaseDecisionTree.score` for FBDT (tree/base_decision_tree.py:77-94); `check_X_y` also compares the lengths. -/
def fbdtScore [Field K] [LinearOrder K] [DecidableEq C] (T : K → K → K) (v : Voting) (t : BNode C K)
    (X : List (List (Cell K))) (y : List C) : Py K := do
  checkArray X
  if X.length ≠ y.length then .error .valueError
  else do
    let p ← fbdtPredict T v t X
    npDiv ((p.map (fun cs => ((cs.zip y).filter (fun q => q.1 = q.2)).length)).sum : K) y.length

/-! ## rules -/

/-- clause of a node (tree/fdt_binary_tree.py:121-126). -/
def bnodeClause (test : Option (BTest K)) (rule : List (String × List String)) : Py (List (String × List String)) :=
  match test with
  | none => .ok rule
  | some t => do
    let names ← t.idxs.mapM (fun i => match t.var.sets[i]? with
      | none => .error .indexError
      | some fs => .ok fs.name)
    pure (rule ++ [(t.var.name, names)])

mutual
/-- `TreeFBDT._get_rules` (tree/fdt_binary_tree.py:120-141), without the printing; `(-1).items()` is an `AttributeError`. -/
def bGetRules [LT K] [DecidableLT K] (th : K) (rule : List (String × List String)) :
    BNode C K → Py (List (Rule (List String) C K))
  | .mk test _ _ isLeaf cv children => do
    let newRule ← bnodeClause test rule
    if isLeaf then match cv with
      | none => .error .attributeError
      | some cv => pure ((cv.filter (fun kv => th < kv.2)).map (fun kv => ⟨newRule, kv.1, kv.2⟩))
    else bGetRulesList th newRule children
/-- the loop over the children (tree/fdt_binary_tree.py:137-141). -/
def bGetRulesList [LT K] [DecidableLT K] (th : K) (rule : List (String × List String)) :
    List (BNode C K) → Py (List (Rule (List String) C K))
  | [] => .ok []
  | c :: cs => do
    let r ← bGetRules th rule c
    let rs ← bGetRulesList th rule cs
    pure (r ++ rs)
end

/-- `TreeFBDT.to_rule_based_system(th, simplify, verbose)` (tree/fdt_binary_tree.py:115-118); `Rule.__init__` simplifies when asked to
(tree/rule.py:33-34); `verbose` only prints. -/
def BNode.toRules [LT K] [DecidableLT K] (t : BNode C K) (th : K) (simplify : Bool) : Py (List (Rule (List String) C K)) := do
  let rules ← bGetRules th [] t
  pure (if simplify then rules.map (Rule.simplify List.length) else rules)

/-- `BaseDecisionTree.to_rule_based_system(verbose, simplify)` for FBDT (tree/base_decision_tree.py:96-112): the flags are passed by
position, so `verbose` becomes the threshold `th` (`False` is 0, `True` is 1). -/
def fbdtToRules [Zero K] [One K] [LT K] [DecidableLT K] (t : BNode C K) (verbose simplify : Bool) :
    Py (List (Rule (List String) C K)) :=
  t.toRules (if verbose then 1 else 0) simplify

/-! ## fit -/

/-- `self.categorical_features` (tree/fdt_binary_tree.py:171-172): the variables whose first set is not continuous; `IndexError` (in
`__init__`) for a variable without sets. -/
def categoricalFeatures (vars : List (FVar K)) : Py (List String) := do
  let l ← vars.mapM (fun v => match v.sets[0]? with
    | none => .error .indexError
    | some (.cont _) => .ok (v.name, false)
    | some (.disc _) => .ok (v.name, true))
  pure ((l.filter Prod.snd).map Prod.fst)

/-- a candidate split: feature, left sets, right sets. -/
abbrev BPart := String × List String × List String

/-- What `list.sort` makes of a list in which some keys are nan (`none`): the comparisons with nan are all false, so the result depends on
the sorting algorithm. Here it is an arbitrary function that returns the elements of its argument in some order. -/
class NanSort (K : Type) where
  sort : List (String × Option K) → List (String × Option K)
  perm : ∀ l, (sort l).Perm l

/-- share of the first class in a set, the key of the sort in line 186 (tree/fdt_binary_tree.py:183-185); `none` is the nan of `0 / 0`, for a
set without training examples. -/
def positiveShare [Field K] [DecidableEq K] (Xm : Dict String (Dict String (List K))) (pos : List Bool) (feature val : String) :
    Py (String × Option K) := do
  let d ← Dict.get Xm feature
  let m ← Dict.get d val
  pure (val, if m.sum = 0 then none else some ((((m.zip pos).filter Prod.snd).map Prod.fst).sum / m.sum))

/-- `splits.sort(key=lambda x: x[1])` (tree/fdt_binary_tree.py:186): a stable sort, unless some key is nan. -/
def sortShares [Field K] [LinearOrder K] [NanSort K] (l : List (String × Option K)) : List (String × Option K) :=
  if ∀ q ∈ l, q.2.isSome = true then l.insertionSort (fun a b => a.2.getD 0 ≤ b.2.getD 0) else NanSort.sort l

/-- `splits` of one feature (tree/fdt_binary_tree.py:181-189). -/
def featureOrder [Field K] [LinearOrder K] [NanSort K] (cats : List String) (Xm : Dict String (Dict String (List K))) (pos : List Bool)
    (feature : String) (sets : List String) : Py (List String) :=
  if feature ∈ cats then do
    let l ← sets.mapM (positiveShare Xm pos feature)
    pure ((sortShares l).map Prod.fst)
  else .ok sets

/-- lines 191-192 of tree/fdt_binary_tree.py: the prefixes of `splits` with the rest. -/
def cuts (feature : String) (splits : List String) : List BPart :=
  (List.range (splits.length - 1)).map (fun i => (feature, splits.take (i + 1), splits.drop (i + 1)))

/-- `FBDT._get_binary_partitions` (tree/fdt_binary_tree.py:178-193). -/
def binaryPartitions [Field K] [LinearOrder K] [NanSort K] (cats : List String) (Xm : Dict String (Dict String (List K))) (pos : List Bool)
    (fd : Dict String (List String)) : Py (List BPart) := do
  let l ← fd.mapM (fun p => do
    let s ← featureOrder cats Xm pos p.1 p.2
    pure (cuts p.1 s))
  pure l.flatten

/-- the arrays `ignored` of all the nodes; a reference is a position. -/
abbrev IgnHeap (K : Type) := List (List K)

/-- `sum([X_membership[feature][f_set] for f_set in sets])` (tree/fdt_binary_tree.py:216, 226), for `n` examples. -/
def sumSets [Field K] (Xm : Dict String (Dict String (List K))) (n : Nat) (feature : String) (sets : List String) : Py (List K) :=
  sets.foldlM (fun acc s => do
    let d ← Dict.get Xm feature
    let m ← Dict.get d s
    pure (List.zipWith (· + ·) acc m)) (List.replicate n 0)

/-- `ignored[(membership > 0) & (membership < 1)] = 1` (tree/fdt_binary_tree.py:224, 235). -/
def markPartial [Field K] [LinearOrder K] (mem arr : List K) : List K :=
  List.zipWith (fun m a => if 0 < m ∧ m < 1 then 1 else a) mem arr

/-- one side of a candidate split (tree/fdt_binary_tree.py:216-224 and 226-235): the membership, the reference of the array `ignored` of
this side and the heap after it was overwritten. When the node ignores the feature already, the array is the one of the node itself,
otherwise it is a new one. -/
def evalSide [Field K] [LinearOrder K] (n : Nat) (ign : Dict String Nat) (heap : IgnHeap K) (feature : String) (mem : List K) :
    List K × Nat × IgnHeap K :=
  match Dict.get? ign feature with
  | none => (mem, heap.length, heap ++ [markPartial mem (List.replicate n 0)])
  | some r =>
    let m := List.zipWith max mem (heap.getD r [])
    (m, r, heap.set r (markPartial m (heap.getD r [])))

/-- the best candidate so far: `best_att`, `best_f_gain`, `best_child_mu`, `best_split`, `best_ignored`; `none` before the first one. -/
structure BBest (K I : Type) where
  att : String
  gain : K
  mus : List K × List K
  split : List String × List String
  ignored : I × I

/-- `f_gain` of a split (tree/fdt_binary_tree.py:202-203, 237-241), from the memberships of the two children. -/
def splitGainOf [Field K] [DecidableEq K] (ent : List K → List C → K) (y : List C) (mu left right : List K) : Py K := do
  let wef ← npDiv (left.sum * ent left y + right.sum * ent right y) mu.sum
  pure (ent mu y - wef)

/-- the body of the loop over the candidate splits (tree/fdt_binary_tree.py:210-248). `t_norm` is always `np.minimum` here (line 283 does not pass it). -/
def evalPart [Field K] [LinearOrder K] (ent : List K → List C → K) (Xm : Dict String (Dict String (List K))) (y : List C)
    (mu : List K) (ign : Dict String Nat) (st : Option (BBest K Nat) × IgnHeap K) (part : BPart) : Py (Option (BBest K Nat) × IgnHeap K) := do
  let lm ← sumSets Xm y.length part.1 part.2.1
  let l := evalSide y.length ign st.2 part.1 lm
  let rm ← sumSets Xm y.length part.1 part.2.2
  let r := evalSide y.length ign l.2.2 part.1 rm
  let muL := List.zipWith min mu l.1
  let muR := List.zipWith min mu r.1
  let g ← splitGainOf ent y mu muL muR
  pure (if (match st.1 with | none => 0 | some b => b.gain) < g then some ⟨part.1, g, (muL, muR), part.2, (l.2.1, r.2.1)⟩ else st.1,
    r.2.2)

/-- `FBDT._get_max_f_gain` (tree/fdt_binary_tree.py:195-250); `y == np.unique(y)[0]` is an `IndexError` without examples. -/
def bMaxGain [Field K] [LinearOrder K] [NanSort K] [LinearOrder C] (ent : List K → List C → K) (cats : List String)
    (Xm : Dict String (Dict String (List K))) (y : List C) (mu : List K) (ign : Dict String Nat) (fd : Dict String (List String))
    (heap : IgnHeap K) : Py (Option (BBest K Nat) × IgnHeap K) :=
  match (npUnique y)[0]? with
  | none => .error .indexError
  | some c0 => do
    let parts ← binaryPartitions cats Xm (y.map (fun c => decide (c = c0))) fd
    parts.foldlM (evalPart ent Xm y mu ign) (none, heap)

/-- `update_ignored` (tree/fdt_binary_tree.py:76-82): a shallow copy of the dict of the parent; the array of the split feature is a new
maximum, or the array of the split. -/
def updateIgnored [LinearOrder K] (ign : Dict String Nat) (heap : IgnHeap K) (feature : String) (ref : Nat) :
    Dict String Nat × IgnHeap K :=
  match Dict.get? ign feature with
  | some r => (Dict.set ign feature heap.length, heap ++ [List.zipWith max (heap.getD r []) (heap.getD ref [])])
  | none => (Dict.set ign feature ref, heap)

/-- `{s.name: i for i, s in enumerate(fuzzy_var.fuzzy_sets)}` (tree/fdt_binary_tree.py:299). -/
def setIndices (v : FVar K) : Dict String Nat := Dict.ofPairs ((v.sets.zipIdx).map (fun p => (p.1.name, p.2)))

/-- the test of a child (tree/fdt_binary_tree.py:298-303). -/
def childTest (p : FDTParams K) (att : String) (sets : List String) : Py (BTest K) := do
  let fi ← Dict.get (featuresDict p.vars) att
  let var ← (match p.vars[fi]? with | some v => .ok v | none => .error .indexError : Py (FVar K))
  let idxs ← sets.mapM (Dict.get (setIndices var))
  pure ⟨var, fi, idxs⟩

/-- `new_features_dict` (tree/fdt_binary_tree.py:307-308). -/
def restrictDict (fd : Dict String (List String)) (att : String) (sets : List String) : Py (Dict String (List String)) := do
  let l ← Dict.get fd att
  pure (Dict.set fd att (l.filter (fun x => x ∈ sets)))

/-- lines 302-314 (and 317-328) of tree/fdt_binary_tree.py: one child of the node with memberships `mu`. `rec` is the recursive call. -/
def bFitChild [Field K] [LinearOrder K] [LinearOrder C]
    (rec : IgnHeap K → BNode C K → Dict String Nat → Dict String (List String) → Py (BNode C K × IgnHeap K)) (p : FDTParams K) (y : List C)
    (mu : List K) (ign : Dict String Nat) (fd : Dict String (List String)) (att : String) (sets : List String) (childMu : List K)
    (ref : Nat) (heap : IgnHeap K) : Py (BNode C K × IgnHeap K) := do
  let test ← childTest p att sets
  let (ign', heap) := updateIgnored ign heap att ref
  let fd' ← restrictDict fd att sets
  if 0 < childMu.sum then rec heap (.fresh (some test) childMu) ign' fd'
  else do
    let cv ← classValueOf mu y
    pure (.mk (some test) (-1) childMu true (some cv) [], heap)

/-- `FBDT._partial_fit` (tree/fdt_binary_tree.py:281-328). Without a candidate of positive gain `best_att` is `''`, a `KeyError` in line
298 (unless a variable has the empty name: then an `IndexError` in line 303). `fuel` bounds the recursion depth. `stopMet` and
`classValueOf` are also the functions of lines 252-269, which are the same text as in `fdt_tree.py`. -/
def bPartialFit [Field K] [LinearOrder K] [NanSort K] [LinearOrder C] (ent : List K → List C → K) (cats : List String) (p : FDTParams K)
    (Xm : Dict String (Dict String (List K))) (y : List C) :
    Nat → Nat → IgnHeap K → BNode C K → Dict String Nat → Dict String (List String) → Py (BNode C K × IgnHeap K)
  | 0, _, _, _, _, _ => .error .fuel
  | fuel + 1, depth, heap, current, ign, fd => do
    let (best, heap) ← bMaxGain ent cats Xm y current.mu ign fd heap
    let gain := match best with | none => 0 | some b => b.gain
    if stopMet p gain (maskedY current.mu y) depth then do
      let cv ← classValueOf current.mu y
      pure (.mk current.test depth current.mu true (some cv) current.children, heap)
    else match best with
      | none => .error .keyError
      | some b => do
        let (l, heap) ← bFitChild (bPartialFit ent cats p Xm y fuel (depth + 1)) p y current.mu ign fd b.att b.split.1 b.mus.1
          b.ignored.1 heap
        let (r, heap) ← bFitChild (bPartialFit ent cats p Xm y fuel (depth + 1)) p y current.mu ign fd b.att b.split.2 b.mus.2
          b.ignored.2 heap
        pure (.mk current.test depth current.mu false current.classValue (current.children ++ [l, r]), heap)

/-- `features_dict` of `fit` (tree/fdt_binary_tree.py:275-278). -/
def setNames (vars : List (FVar K)) : Dict String (List String) := Dict.ofPairs (vars.map (fun v => (v.name, v.sets.map FSet.name)))

/-- `FBDT.fit` (tree/fdt_binary_tree.py:271-279) on an object whose current tree is `root` (the attribute `ignored` of a root is always
empty). -/
def fbdtFit [Field K] [LinearOrder K] [NanSort K] [LinearOrder C] (ent : List K → List C → K) (p : FDTParams K) (root : BNode C K)
    (X : List (List (Cell K))) (y : List C) : Py (BNode C K) := do
  let cats ← categoricalFeatures p.vars
  checkArray X
  if X.length ≠ y.length then .error .valueError
  else do
    let Xm ← datasetMembership X p.vars
    let (t, _) ← bPartialFit ent cats p Xm y (p.maxDepth + 1) 0 []
      (.mk root.test root.level (y.map (fun _ => 1)) root.isLeaf root.classValue root.children) [] (setNames p.vars)
    pure t

/-- the tree of a new `FBDT` object (tree/fdt_binary_tree.py:175). -/
def fbdtNew : BNode C K := .fresh none []

end Teacher
