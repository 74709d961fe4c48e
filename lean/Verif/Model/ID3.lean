import Verif.Model.Rule

/-!
# Model of `tree/id3_tree.py` (and of `tree/base_decision_tree.py` for `ID3`)

Simplifications. Exact arithmetic. `X` and `y` are one table: a list of rows, each with its class (`X` and `y` of different
lengths are not modelled). The lists `splits` and `childlist` of a node, which are always assigned together, are one list of
pairs. The iteration order of the Python sets is a parameter (`ordC` for the classes, a function of the list the set is made of, `ordF` for the features that are left). The gain of
a feature is a parameter `gain` of the fitting functions, so that the theorems hold for any gain, in particular when numpy
converts numbers to strings in `np.vstack` (line 157); `id3Gain` is the gain of the code for features and classes of the same
type, over an arbitrary function `H` for `scipy.stats.entropy(·, base=2)`. Objects are values: an exception in the middle of
`fit` is only an error. The classes are kept as they are (the code puts them in an array together with their counts, line 120, which
turns booleans into numbers). `__str__` and the printing are not modelled.
-/

namespace Teacher

variable {V C K : Type}

/-- `TreeID3` (tree/id3_tree.py:19-30). `varIndex = none` is `var_index = -1`, `classValue = none` is `class_value = -1`;
the attribute `features` is an argument of the functions that use it. -/
inductive INode (V C K : Type) where
  | mk (isLeaf : Bool) (varIndex : Option Nat) (branches : List (V × INode V C K)) (classValue : Option C)
      (classCount : Nat × Nat) (level : Int) (error : K) (numLeaf : Nat)

namespace INode
/-- attribute `is_leaf`. -/
def isLeaf : INode V C K → Bool | .mk b _ _ _ _ _ _ _ => b
/-- attribute `var_index`. -/
def varIndex : INode V C K → Option Nat | .mk _ v _ _ _ _ _ _ => v
/-- attributes `splits` and `childlist`. -/
def branches : INode V C K → List (V × INode V C K) | .mk _ _ b _ _ _ _ _ => b
/-- attribute `class_value`. -/
def classValue : INode V C K → Option C | .mk _ _ _ c _ _ _ _ => c
/-- attribute `class_count`. -/
def classCount : INode V C K → Nat × Nat | .mk _ _ _ _ c _ _ _ => c
/-- attribute `level`. -/
def level : INode V C K → Int | .mk _ _ _ _ _ l _ _ => l
/-- attribute `error`. -/
def error : INode V C K → K | .mk _ _ _ _ _ _ e _ => e
/-- attribute `num_leaf`. -/
def numLeaf : INode V C K → Nat | .mk _ _ _ _ _ _ _ n => n
/-- `TreeID3(features)` (tree/id3_tree.py:20-30). -/
def fresh [Zero K] : INode V C K := .mk true none [] none (0, 0) (-1) 0 0
end INode

/-- what `TreeID3.predict` returns: a class, the initial `class_value` of a tree that was never fitted, or `None`. -/
inductive IPred (C : Type) where
  | cls (c : C)
  | minusOne
  | noneVal
  deriving DecidableEq, Repr

mutual
/-- `TreeID3.predict` (tree/id3_tree.py:63-72). -/
def INode.predict [DecidableEq V] (x : List V) : INode V C K → Py (IPred C)
  | .mk isLeaf var branches cv _ _ _ _ =>
    if isLeaf then .ok (match cv with | some c => .cls c | none => .minusOne)
    else predictBranches x var branches
/-- the loop over the splits (tree/id3_tree.py:67-72); without a match the function ends and returns `None`. -/
def predictBranches [DecidableEq V] (x : List V) (var : Option Nat) : List (V × INode V C K) → Py (IPred C)
  | [] => .ok .noneVal
  | (s, t) :: rest => match var.bind (fun i => x[i]?) with
    | none => .error .indexError
    | some v => if v = s then t.predict x else predictBranches x var rest
end

mutual
/-- `TreeID3._get_rules` (tree/id3_tree.py:79-88), without the printing. -/
def INode.getRules (features : List String) (conditions : List (String × V)) : INode V C K → Py (List (List (String × V) × Option C))
  | .mk isLeaf var branches cv _ _ _ _ =>
    if isLeaf then .ok [(conditions, cv)] else getRulesBranches features conditions var branches
/-- the loop over the splits (tree/id3_tree.py:81-83). -/
def getRulesBranches (features : List String) (conditions : List (String × V)) (var : Option Nat) :
    List (V × INode V C K) → Py (List (List (String × V) × Option C))
  | [] => .ok []
  | (s, t) :: rest => match var.bind (fun i => features[i]?) with
    | none => .error .indexError
    | some f => do
      let r ← t.getRules features (conditions ++ [(f, s)])
      let rs ← getRulesBranches features conditions var rest
      pure (r ++ rs)
end

/-- `TreeID3.to_rule_based_system` (tree/id3_tree.py:74-77); the consequent `none` is the class `-1` of an unfitted tree. -/
def INode.toRules [One K] (features : List String) (t : INode V C K) : Py (List (Rule V (Option C) K)) := do
  let rules ← t.getRules features []
  pure (rules.map (fun p => ⟨p.1, p.2, 1⟩))

/-- a call by position of `TreeID3.to_rule_based_system(self, verbose=False)` (tree/id3_tree.py:74): Python raises `TypeError` when there
are more arguments than parameters. (`verbose` only prints.) -/
def INode.toRulesCall [One K] (features : List String) (t : INode V C K) (args : List Bool) : Py (List (Rule V (Option C) K)) :=
  if args.length ≤ 1 then t.toRules features else .error .typeError

/-- `ID3.to_rule_based_system(verbose, simplify)`, inherited (tree/base_decision_tree.py:96-112): the two flags are passed by
position. -/
def id3ToRules [One K] (features : List String) (t : INode V C K) (verbose simplify : Bool) : Py (List (Rule V (Option C) K)) :=
  t.toRulesCall features [verbose, simplify]

/-- parameters of `ID3.__init__` (tree/id3_tree.py:92-98, base_decision_tree.py:22-42). -/
structure ID3Params (K : Type) where
  features : List String
  th : K
  maxDepth : Nat
  minNumExamples : Nat
  prunning : Bool

/-- `self.features_dic` (tree/id3_tree.py:96). -/
def featuresDic (features : List String) : Dict String Nat := Dict.ofPairs features.zipIdx

/-- rows of the training table: values and class. -/
abbrev IRows (V C : Type) := List (List V × C)

/-- `class_counts` (tree/id3_tree.py:110-115). -/
def classCounts [DecidableEq C] (ordC : List C → List C) (rows : IRows V C) : List (C × Nat) :=
  (ordC (rows.map Prod.snd)).map (fun c => (c, (rows.map Prod.snd).count c))

/-- entropy of the classes of `labels` (tree/id3_tree.py:113-117, 164-168): the frequencies of `classes`. -/
def freqEntropy [Field K] [DecidableEq C] (H : List K → K) (classes labels : List C) : K :=
  H (classes.map (fun c => (labels.count c : K) / (labels.length : K)))

/-- `gain` of the feature with data `col` and splits `splits` (tree/id3_tree.py:153-172). -/
def id3Gain [Field K] [DecidableEq V] [DecidableEq C] (H : List K → K) (ordC : List C → List C) (col : List V) (y : List C)
    (splits : List V) : K :=
  let classes := ordC y
  let parts := splits.map (fun s => ((col.zip y).filter (fun p => p.1 = s)).map Prod.snd)
  freqEntropy H classes y
    - ((parts.filter (fun q => q ≠ [])).map (fun q => (q.length : K) * freqEntropy H classes q / (y.length : K))).sum

/-- the loop over the features (tree/id3_tree.py:149-176): `(best_feature, best_splits, best_gain)`. -/
def id3Best [Field K] [LinearOrder K] (gain : List V → List C → List V → K) (features : List String)
    (featuresSplits : List (List V)) (rows : IRows V C) (best : Option Nat × List V × K) : List String →
    Py (Option Nat × List V × K)
  | [] => .ok best
  | ft :: fts => do
    let i ← Dict.get (featuresDic features) ft
    let col ← column (rows.map Prod.fst) i
    let splits ← (match featuresSplits[i]? with | some s => .ok s | none => .error .indexError : Py (List V))
    let g := gain col (rows.map Prod.snd) splits
    id3Best gain features featuresSplits rows (if best.2.2 < g then (some i, splits, g) else best) fts

/-- the rows `X[X[:, var] == sp]` with their classes (tree/id3_tree.py:194-202). -/
def rowsWhere [DecidableEq V] (rows : IRows V C) (var : Nat) (s : V) : IRows V C :=
  rows.filter (fun r => r.1[var]? = some s)

/-- body of the loop over the splits (tree/id3_tree.py:192-218): the new child, and what it adds to `current_tree.error`.
`rec` is the recursive call. -/
def id3Child [Field K] [DecidableEq V] (rec : IRows V C → INode V C K → Py (INode V C K)) (rows : IRows V C) (var : Nat) (cv : C)
    (depth : Nat) (s : V) : Py ((V × INode V C K) × K) :=
  let sub := rowsWhere rows var s
  if sub ≠ [] then do
    let child ← rec sub .fresh
    pure ((s, child), child.error * ((sub.length : K) / (rows.length : K)))
  else pure ((s, .mk true none [] (some cv) (0, 0) (depth + 1) 0 1), 0)

/-- `self.features[best_feature]` (tree/id3_tree.py:184); `best_feature = -1` is the last feature. -/
def erasedName (features : List String) (best : Option Nat) : Py String :=
  match (match best with | some i => features[i]? | none => features.getLast?) with
  | some f => .ok f
  | none => .error .indexError

/-- a node that becomes a leaf (tree/id3_tree.py:129-141, 230-234). -/
def id3Leaf [Field K] (t : INode V C K) (cv : C) (cnt n : Nat) (depth : Nat) : INode V C K :=
  .mk true t.varIndex t.branches (some cv) (n, cnt) depth (1 - (cnt : K) / (n : K)) 1

/-- pruning (tree/id3_tree.py:227-235) of the split node `t`, with the division in Python floats. -/
def id3Prune [Field K] [LinearOrder K] (p : ID3Params K) (errorNode : K) (t : INode V C K) (cv : C) (cnt n : Nat) (depth : Nat) :
    Py (INode V C K) :=
  if p.prunning then
    if (t.numLeaf : K) - 1 = 0 then .error .zeroDivision
    else if (errorNode - t.error) / ((t.numLeaf : K) - 1) < p.th then .ok (id3Leaf t cv cnt n depth)
    else .ok t
  else .ok t

/-- `ID3._partial_fit` (tree/id3_tree.py:105-238) on the node `t`; `fuel` bounds the recursion depth (see `PyErr.fuel`). -/
def id3PartialFit [Field K] [LinearOrder K] [DecidableEq V] [DecidableEq C] (gain : List V → List C → List V → K)
    (ordC : List C → List C) (ordF : List String → List String) (p : ID3Params K) (featuresSplits : List (List V))
    (yClasses : List C) : Nat → IRows V C → INode V C K → Nat → List String → Py (INode V C K)
  | 0, _, _, _, _ => .error .fuel
  | fuel + 1, rows, t, depth, erased =>
    match pyMax (fun q : C × Nat => q.2) (classCounts ordC rows) with
    | .error _ => match yClasses[0]? with
      | none => .error .indexError
      | some c => .ok (.mk true t.varIndex t.branches (some c) (0, 0) depth 0 1)
    | .ok (cv, cnt) =>
      let n := rows.length
      if p.maxDepth ≤ depth then .ok (id3Leaf t cv cnt n depth)
      else if n < p.minNumExamples then .ok (id3Leaf t cv cnt n depth)
      else do
        let best ← id3Best gain p.features featuresSplits rows (none, [], -1)
          (ordF ((p.features.filter (fun f => f ∉ erased)).dedup))
        let name ← erasedName p.features best.1
        let cs ← best.2.1.mapM (id3Child
          (fun sub child => id3PartialFit gain ordC ordF p featuresSplits yClasses fuel sub child (depth + 1) (erased ++ [name]))
          rows (best.1.getD 0) cv depth)
        id3Prune p (1 - (cnt : K) / (n : K))
          (.mk false best.1 (cs.map Prod.fst) (some cv) (n, cnt) depth (cs.map Prod.snd).sum (t.numLeaf + cs.length)) cv cnt n depth

/-- `ID3.fit` (tree/id3_tree.py:100-103) on an object whose current tree is `t`. -/
def id3FitWith [Field K] [LinearOrder K] [LinearOrder V] [LinearOrder C] (gain : List V → List C → List V → K)
    (ordC : List C → List C) (ordF : List String → List String) (p : ID3Params K) (t : INode V C K) (rows : IRows V C) :
    Py (INode V C K) := do
  let cols ← (List.range p.features.length).mapM (column (rows.map Prod.fst))
  id3PartialFit gain ordC ordF p (cols.map npUnique) (npUnique (rows.map Prod.snd)) (p.maxDepth + 1) rows t 0 []

/-- `ID3.fit` with the gain of the code. -/
def id3Fit [Field K] [LinearOrder K] [LinearOrder V] [LinearOrder C] (H : List K → K) (ordC : List C → List C)
    (ordF : List String → List String) (p : ID3Params K) (t : INode V C K) (rows : IRows V C) : Py (INode V C K) :=
  id3FitWith (id3Gain H ordC) ordC ordF p t rows

/-- `ID3.predict` (tree/id3_tree.py:244-246). -/
def id3Predict [DecidableEq V] (t : INode V C K) (X : List (List V)) : Py (List (IPred C)) := do
  checkArray X
  X.mapM (fun x => t.predict x)

/-- `BaseDecisionTree.score` for ID3 (tree/base_decision_tree.py:77-94). -/
def id3Score [Field K] [DecidableEq K] [DecidableEq V] [DecidableEq C] (t : INode V C K) (rows : IRows V C) : Py K := do
  checkArray (rows.map Prod.fst)
  let p ← id3Predict t (rows.map Prod.fst)
  npDiv ((p.zip (rows.map Prod.snd)).countP (fun q => q.1 = .cls q.2) : K) (rows.length : K)

end Teacher
