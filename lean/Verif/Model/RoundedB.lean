import Verif.Model.Rounded
import Verif.Model.FBDT

/-!
# FBDT in floating point arithmetic

As `Model/Rounded` for `tree/fdt_binary_tree.py`: every addition, subtraction, multiplication and division is followed by the rounding `fl`,
`ndarray.sum()` is any function `sum`; Python's own `sum` adds from left to right. The comparisons, `np.minimum`, `np.maximum` and the
assignments to the arrays `ignored` are exact, so `evalSide`, `markPartial`, `updateIgnored`, `childTest`, `restrictDict` and `cuts` are the
functions of `Model/FBDT`.
-/

namespace Teacher

variable {C K : Type} [Field K] [LinearOrder K]

/-! ## predict -/

/-- `pert_degree` (tree/fdt_binary_tree.py:100-104): rounded additions of the memberships of the sets of the test, starting with 0. -/
def pertDegreeF (A : Arith K) (X : List (List (Cell K))) (t : BTest K) : Py (List K) :=
  t.idxs.foldlM (fun acc i => match t.var.sets[i]? with
    | none => .error .indexError
    | some fs => do
      let col ← column X t.att
      let m ← fs.membershipF A col
      pure (List.zipWith (fun a b => A.fl (a + b)) acc m)) (X.map (fun _ => 0))

/-- `new_mu` (tree/fdt_binary_tree.py:98-109). -/
def bnodeMuF (A : Arith K) (T : K → K → K) (X : List (List (Cell K))) (mu : List K) (test : Option (BTest K)) : Py (List K) :=
  match test with
  | none => .ok mu
  | some t => do
    let m ← pertDegreeF A X t
    pure (List.zipWith T mu m)

mutual
/-- `TreeFBDT._partial_predict` (tree/fdt_binary_tree.py:97-113). -/
def bPartialPredictF (A : Arith K) (T : K → K → K) (X : List (List (Cell K))) (mu : List K) :
    BNode C K → Py (List (Option (Dict C K) × List K))
  | .mk test _ _ isLeaf cv children => do
    let newMu ← bnodeMuF A T X mu test
    if isLeaf then pure [(cv, newMu)]
    else match children with
      | [] => .error .valueError
      | c :: cs => do
        let r ← bPartialPredictF A T X newMu c
        let rs ← bPartialPredictListF A T X newMu cs
        pure (r ++ rs)
/-- the list comprehension over the children (tree/fdt_binary_tree.py:113). -/
def bPartialPredictListF (A : Arith K) (T : K → K → K) (X : List (List (Cell K))) (mu : List K) :
    List (BNode C K) → Py (List (Option (Dict C K) × List K))
  | [] => .ok []
  | c :: cs => do
    let r ← bPartialPredictF A T X mu c
    let rs ← bPartialPredictListF A T X mu cs
    pure (r ++ rs)
end

/-- `TreeFBDT.predict` (tree/fdt_binary_tree.py:84-95). -/
def BNode.predictF [DecidableEq C] (A : Arith K) (T : K → K → K) (v : Voting) (t : BNode C K) (X : List (List (Cell K))) : Py (List C) := do
  let leaves ← bPartialPredictF A T X (X.map (fun _ => 1)) t
  let votes ← v.runF A leaves
  if votes = [] then .error .valueError
  else (List.range X.length).mapM (bestClass votes)

/-- `BaseDecisionTree.predict` for FBDT (tree/base_decision_tree.py:57-75). -/
def fbdtPredictF [DecidableEq C] (A : Arith K) (T : K → K → K) (v : Voting) (t : BNode C K) (X : List (List (Cell K))) :
    Py (List (List C)) := do
  checkArray X
  let cs ← t.predictF A T v X
  pure [cs]

/-! ## fit -/

/-- Python's `sum` of numbers. -/
def pySumF (A : Arith K) (l : List K) : K := l.foldl (fun s x => A.fl (s + x)) 0

/-- the key of the sort in line 186 (tree/fdt_binary_tree.py:183-185). -/
def positiveShareF (A : Arith K) (Xm : Dict String (Dict String (List K))) (pos : List Bool) (feature val : String) :
    Py (String × Option K) := do
  let d ← Dict.get Xm feature
  let m ← Dict.get d val
  pure (val, if pySumF A m = 0 then none else some (A.fl (pySumF A (((m.zip pos).filter Prod.snd).map Prod.fst) / pySumF A m)))

/-- `splits` of one feature (tree/fdt_binary_tree.py:181-189). -/
def featureOrderF [NanSort K] (A : Arith K) (cats : List String) (Xm : Dict String (Dict String (List K))) (pos : List Bool)
    (feature : String) (sets : List String) : Py (List String) :=
  if feature ∈ cats then do
    let l ← sets.mapM (positiveShareF A Xm pos feature)
    pure ((sortShares l).map Prod.fst)
  else .ok sets

/-- `FBDT._get_binary_partitions` (tree/fdt_binary_tree.py:178-193). -/
def binaryPartitionsF [NanSort K] (A : Arith K) (cats : List String) (Xm : Dict String (Dict String (List K))) (pos : List Bool)
    (fd : Dict String (List String)) : Py (List BPart) := do
  let l ← fd.mapM (fun p => do
    let s ← featureOrderF A cats Xm pos p.1 p.2
    pure (cuts p.1 s))
  pure l.flatten

/-- `sum([X_membership[feature][f_set] for f_set in sets])` (tree/fdt_binary_tree.py:216, 226), for `n` examples. -/
def sumSetsF (A : Arith K) (Xm : Dict String (Dict String (List K))) (n : Nat) (feature : String) (sets : List String) : Py (List K) :=
  sets.foldlM (fun acc s => do
    let d ← Dict.get Xm feature
    let m ← Dict.get d s
    pure (List.zipWith (fun a b => A.fl (a + b)) acc m)) (List.replicate n 0)

/-- `f_gain` of a split (tree/fdt_binary_tree.py:202-203, 237-241), from the memberships of the two children. -/
def splitGainOfF (A : Arith K) (ent : List K → List C → K) (y : List C) (mu left right : List K) : Py K := do
  let wef ← flDiv A (A.fl (A.fl (A.sum left * ent left y) + A.fl (A.sum right * ent right y))) (A.sum mu)
  pure (A.fl (ent mu y - wef))

/-- the body of the loop over the candidate splits (tree/fdt_binary_tree.py:210-248). -/
def evalPartF (A : Arith K) (ent : List K → List C → K) (Xm : Dict String (Dict String (List K))) (y : List C)
    (mu : List K) (ign : Dict String Nat) (st : Option (BBest K Nat) × IgnHeap K) (part : BPart) : Py (Option (BBest K Nat) × IgnHeap K) := do
  let lm ← sumSetsF A Xm y.length part.1 part.2.1
  let l := evalSide y.length ign st.2 part.1 lm
  let rm ← sumSetsF A Xm y.length part.1 part.2.2
  let r := evalSide y.length ign l.2.2 part.1 rm
  let muL := List.zipWith min mu l.1
  let muR := List.zipWith min mu r.1
  let g ← splitGainOfF A ent y mu muL muR
  pure (if (match st.1 with | none => 0 | some b => b.gain) < g then some ⟨part.1, g, (muL, muR), part.2, (l.2.1, r.2.1)⟩ else st.1,
    r.2.2)

/-- `FBDT._get_max_f_gain` (tree/fdt_binary_tree.py:195-250). -/
def bMaxGainF [NanSort K] [LinearOrder C] (A : Arith K) (ent : List K → List C → K) (cats : List String)
    (Xm : Dict String (Dict String (List K))) (y : List C) (mu : List K) (ign : Dict String Nat) (fd : Dict String (List String))
    (heap : IgnHeap K) : Py (Option (BBest K Nat) × IgnHeap K) :=
  match (npUnique y)[0]? with
  | none => .error .indexError
  | some c0 => do
    let parts ← binaryPartitionsF A cats Xm (y.map (fun c => decide (c = c0))) fd
    parts.foldlM (evalPartF A ent Xm y mu ign) (none, heap)

/-- lines 302-314 (and 317-328) of tree/fdt_binary_tree.py. -/
def bFitChildF [LinearOrder C] (A : Arith K)
    (rec : IgnHeap K → BNode C K → Dict String Nat → Dict String (List String) → Py (BNode C K × IgnHeap K)) (p : FDTParams K) (y : List C)
    (mu : List K) (ign : Dict String Nat) (fd : Dict String (List String)) (att : String) (sets : List String) (childMu : List K)
    (ref : Nat) (heap : IgnHeap K) : Py (BNode C K × IgnHeap K) := do
  let test ← childTest p att sets
  let (ign', heap) := updateIgnored ign heap att ref
  let fd' ← restrictDict fd att sets
  if 0 < A.sum childMu then rec heap (.fresh (some test) childMu) ign' fd'
  else do
    let cv ← classValueOfF A mu y
    pure (.mk (some test) (-1) childMu true (some cv) [], heap)

/-- `FBDT._partial_fit` (tree/fdt_binary_tree.py:281-328). -/
def bPartialFitF [NanSort K] [LinearOrder C] (A : Arith K) (ent : List K → List C → K) (cats : List String) (p : FDTParams K)
    (Xm : Dict String (Dict String (List K))) (y : List C) :
    Nat → Nat → IgnHeap K → BNode C K → Dict String Nat → Dict String (List String) → Py (BNode C K × IgnHeap K)
  | 0, _, _, _, _, _ => .error .fuel
  | fuel + 1, depth, heap, current, ign, fd => do
    let (best, heap) ← bMaxGainF A ent cats Xm y current.mu ign fd heap
    let gain := match best with | none => 0 | some b => b.gain
    if stopMet p gain (maskedY current.mu y) depth then do
      let cv ← classValueOfF A current.mu y
      pure (.mk current.test depth current.mu true (some cv) current.children, heap)
    else match best with
      | none => .error .keyError
      | some b => do
        let (l, heap) ← bFitChildF A (bPartialFitF A ent cats p Xm y fuel (depth + 1)) p y current.mu ign fd b.att b.split.1 b.mus.1
          b.ignored.1 heap
        let (r, heap) ← bFitChildF A (bPartialFitF A ent cats p Xm y fuel (depth + 1)) p y current.mu ign fd b.att b.split.2 b.mus.2
          b.ignored.2 heap
        pure (.mk current.test depth current.mu false current.classValue (current.children ++ [l, r]), heap)

/-- `FBDT.fit` (tree/fdt_binary_tree.py:271-279). -/
def fbdtFitF [NanSort K] [LinearOrder C] (A : Arith K) (ent : List K → List C → K) (p : FDTParams K) (root : BNode C K)
    (X : List (List (Cell K))) (y : List C) : Py (BNode C K) := do
  let cats ← categoricalFeatures p.vars
  checkArray X
  if X.length ≠ y.length then .error .valueError
  else do
    let Xm ← datasetMembershipF A X p.vars
    let (t, _) ← bPartialFitF A ent cats p Xm y (p.maxDepth + 1) 0 []
      (.mk root.test root.level (y.map (fun _ => 1)) root.isLeaf root.classValue root.children) [] (setNames p.vars)
    pure t

end Teacher
