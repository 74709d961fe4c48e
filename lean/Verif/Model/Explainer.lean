import Verif.Model.Neighborhood
import Verif.Model.Factual
import Verif.Model.Counterfactual
import Verif.Model.FBDT
import Verif.Model.ID3

/-!
# Model of `explanation/_base_explainer.py`, `_factual_local_explainer.py`, `FDT_explainer.py`, `FBDT_explainer.py`, `FID3_explainer.py`

An explainer is an object; its methods are functions from a state to a result and a new state (`Act`), so that the assignments made before
an exception stay.

Simplifications. The classes are naturals, as in `Model/Neighborhood.lean`; `exp_value`, an array of shape (1, 1), is its only element and
`target`, an array of shape (1,), is a class. The memberships of an instance are arrays of one element, used as numbers. The attributes
`factual_method`, `counterfactual_method` and `local_explainer`, that no method reads, are left out. Identity of strings, fuzzy entropy, order of sets, `float`
and the distances of `d_counterfactual` are parameters (`ExpCtx`).
-/

namespace Teacher

/-- the attributes of a `FactualLocalExplainer` (explanation/_base_explainer.py:19-20, _factual_local_explainer.py:17-20) and the attribute
`fidelity` that `fit` creates; `F`, `G` are the types of the factual and the counterfactual. -/
structure EState (K F G : Type) where
  target : Option Nat := none
  expValue : Option Nat := none
  fidelity : Option K := none
  explanation : Option (F × G) := none
  deriving DecidableEq, Repr

section
variable {K F G : Type}

/-- `BaseExplainer.explain` (explanation/_base_explainer.py:26-41). -/
def explain : Act (EState K F G) (F × G) := fun s =>
  match s.explanation with
  | none => (.error .notFitted, s)
  | some e => (.ok e, s)

/-- `FactualLocalExplainer.hit` (explanation/_factual_local_explainer.py:36-52). -/
def hit : Act (EState K F G) Bool := fun s =>
  match s.expValue, s.target with
  | some c, some t => (.ok (decide (c = t)), s)
  | _, _ => (.error .notFitted, s)

/-- `FactualLocalExplainer.write_explanation` (explanation/_factual_local_explainer.py:22-34). `showC`, `showF` are `str` of the class and of
the factual, `items` is the iteration over the counterfactual as pairs (`cf[0]`, `cf[1]`). Before `fit` the attributes are `None`: a
`TypeError`. -/
def writeExplanation (showC : Nat → String) (showF : F → String) (items : G → Py (List (String × String))) :
    Act (EState K F G) String := fun s =>
  match s.expValue, s.explanation with
  | some c, some e =>
    (do
      let ps ← items e.2
      pure ("The element is " ++ showC c ++ " because " ++ showF e.1 ++ "\n" ++ "Otherwise, you would need " ++
        " and ".intercalate (ps.map (fun p => p.1 ++ " = " ++ p.2))), s)
  | _, _ => (.error .typeError, s)

/-- iterating over the counterfactual of an `FDTExplainer`: a set of pairs, or `None` (a `TypeError`). `ord` is the order of the set. -/
def changesItems (ord : List (String × String) → List (String × String)) : Option (List (String × String)) → Py (List (String × String))
  | none => .error .typeError
  | some ch => .ok (ord ch)

/-- iterating over the counterfactual of an `FBDTExplainer`: the characters of a text, which have no second element. -/
def textItems (s : String) : Py (List (String × String)) :=
  s.toList.mapM (fun c => match (String.singleton c).toList with
    | a :: b :: _ => .ok (String.singleton a, String.singleton b)
    | _ => .error .indexError)

/-- the order of the effects of `FDTExplainer.fit` (explanation/FDT_explainer.py:87-177) and `FBDTExplainer.fit`
(explanation/FBDT_explainer.py:84-132): `check` are the checks of the arguments, `train` fits the local tree, `fid` is the fidelity,
`conclude` computes rules and predicted class, `finish` the factual and the counterfactual. -/
def explainerFit {T R : Type} (check : Py Unit) (target : Nat) (train : Py T) (fid : T → Py K) (conclude : T → Py (R × Nat))
    (finish : R → Nat → Py (F × G)) : Act (EState K F G) Unit := fun s =>
  match check with
  | .error e => (.error e, s)
  | .ok _ =>
    let s := { s with target := some target }
    match train with
    | .error e => (.error e, s)
    | .ok t =>
      match fid t with
      | .error e => (.error e, s)
      | .ok f =>
        let s := { s with fidelity := some f }
        match conclude t with
        | .error e => (.error e, s)
        | .ok (r, c) =>
          let s := { s with expValue := some c }
          match finish r c with
          | .error e => (.error e, s)
          | .ok x => (.ok (), { s with explanation := some x })

end

/-! ## `f1_score` -/

/-- true positives, false positives and false negatives of class `c`. -/
def confusion (c : Nat) (y p : List Nat) : Nat × Nat × Nat :=
  ((y.zip p).countP (fun q => q.1 = c && q.2 = c), (y.zip p).countP (fun q => q.1 ≠ c && q.2 = c),
    (y.zip p).countP (fun q => q.1 = c && q.2 ≠ c))

section
variable {K : Type} [Field K] [LinearOrder K]

/-- F1 of one class, 0 when the class is nowhere (scikit-learn, `zero_division`). -/
def f1Of (c : Nat) (y p : List Nat) : K :=
  let n := confusion c y p
  if 2 * n.1 + n.2.1 + n.2.2 = 0 then 0 else (2 * n.1 : K) / (2 * n.1 + n.2.1 + n.2.2 : K)

/-- `f1_score(y, p)` of scikit-learn (FDT_explainer.py:159, FBDT_explainer.py:126): `ValueError` for more than two classes, and for two classes
none of which is 1. -/
def f1Binary (y p : List Nat) : Py K :=
  let labels := npUnique (y ++ p)
  if 2 < labels.length ∨ (labels.length = 2 ∧ 1 ∉ labels) then .error .valueError else .ok (f1Of 1 y p)

/-- `f1_score(y, p, average='weighted')` of scikit-learn (FDT_explainer.py:157). -/
def f1Weighted (y p : List Nat) : K :=
  ((npUnique (y ++ p)).map (fun c => (y.count c : K) * f1Of c y p)).sum / (y.length : K)

/-- `fidelity` (explanation/FDT_explainer.py:156-159). -/
def fdtFidelity (y p : List Nat) : Py K := if 2 < (npUnique y).length then .ok (f1Weighted y p) else f1Binary y p

/-! ## arguments -/

/-- the keyword arguments of `fit`; `other` is whether any other one is given. `beta = some none` is `beta=None`. -/
structure ExpKw (K : Type) where
  lam : Option K := none
  beta : Option (Option K) := none
  maxDepth : Option Nat := none
  minNumExamples : Option Nat := none
  fuzzyThreshold : Option K := none
  contIdx : Option (List Nat) := none
  discIdx : Option (List Nat) := none
  mad : Option (Nat → Option K) := none
  cfDist : Option String := none
  other : Bool := false

/-- the code below `fit` that is not modelled as a function of values. -/
structure ExpCtx (K : Type) where
  ent : List K → List Nat → K
  ord : List String → List String
  ident : Nat → Nat → String → Bool
  parse : String → Py K
  dist : String → List (Cell K) → List (Cell K) → List Nat → List Nat → (Nat → Option K) → Py K

/-- `FACTUAL_METHODS` (explanation/FDT_explainer.py:25-29). -/
inductive FMethod where
  | m | mr | c
  deriving DecidableEq, Repr

/-- `FACTUAL_METHODS[name]`. -/
def FMethod.ofName (name : String) : Option FMethod :=
  if name = "m_factual" then some .m else if name = "mr_factual" then some .mr else if name = "c_factual" then some .c else none

/-- `COUNTERFACTUAL_METHODS` (explanation/FDT_explainer.py:32-36). -/
inductive CMethod where
  | i | f | d
  deriving DecidableEq, Repr

/-- `COUNTERFACTUAL_METHODS[name]`. -/
def CMethod.ofName (name : String) : Option CMethod :=
  if name = "i_counterfactual" then some .i else if name = "f_counterfactual" then some .f
  else if name = "d_counterfactual" then some .d else none

/-- the arguments of `fit`. The neighborhood is an object: its state. -/
structure ExpArgs (K : Type) where
  inst : List (List (Cell K))
  target : Nat
  nb : NState K
  numCols : List String
  factual : String
  counterfactual : String
  kw : ExpKw K

/-- the checks in front of `self.target = target` (explanation/FDT_explainer.py:87-98, FBDT_explainer.py:84-95). -/
def checkExpArgs (a : ExpArgs K) : Py Unit := do
  checkArray a.inst
  match FMethod.ofName a.factual with
  | none => .error .valueError
  | some fm =>
    if fm = .c ∧ a.kw.lam = none then .error .valueError
    else match CMethod.ofName a.counterfactual with
      | none => .error .valueError
      | some _ => .ok ()

/-- the keyword arguments that only `d_counterfactual` reads are given. -/
def ExpKw.dGiven (kw : ExpKw K) : Bool := kw.contIdx.isSome || kw.discIdx.isSome || kw.mad.isSome || kw.cfDist.isSome

/-- `self.factual_method(instance_membership, rules, self.exp_value, **kwargs)` (explanation/FDT_explainer.py:163, FBDT_explainer.py:130); `rest` is whether
`kwargs` still holds a keyword that no factual method has, which is a `TypeError`, as is `lam` or `beta` for `m_factual` and `mr_factual`. -/
def runFactual {V : Type} (m : Option FMethod) (kw : ExpKw K) (rest : Bool) (matching : Rule V Nat K → Py K) (rs : List (Rule V Nat K))
    (c : Nat) : Py (List (Rule V Nat K)) :=
  if rest then .error .typeError
  else match m with
    | some .m => if kw.lam.isSome || kw.beta.isSome then .error .typeError else mFactual matching rs c
    | some .mr => if kw.lam.isSome || kw.beta.isSome then .error .typeError else mrFactual matching rs c
    | some .c => match kw.lam with
      | some lam => cFactual matching rs c lam (kw.beta.getD none)
      | none => .error .typeError
    | none => .error .typeError

/-- the memberships of one instance, as numbers; an array with several elements has no truth value (`ValueError`). -/
def scalarInst (m : Memb K) : Py (Inst K) :=
  m.mapM (fun p => do
    let d ← p.2.mapM (fun q => match q.2 with
      | [x] => .ok (q.1, x)
      | _ => .error .valueError)
    pure (p.1, d))

/-- a value that is not `None`. -/
def orError {α : Type} (o : Option α) (e : PyErr) : Py α := match o with | some x => .ok x | none => .error e

/-- what the local tree is trained on and asked about. -/
structure ExpData (K : Type) where
  params : FDTParams K
  im : Memb K
  decoded : List (Cell K)
  X : List (List (Cell K))
  y : List Nat

/-- the keyword arguments of `d_counterfactual` (explanation/FDT_explainer.py:125-148). -/
def checkD (a : ExpArgs K) : Py Unit :=
  if CMethod.ofName a.counterfactual = some .d ∧ (a.kw.contIdx = none ∨ a.kw.discIdx = none ∨ a.kw.mad.isNone) then .error .valueError
  else .ok ()

/-- the parameters of the tree (explanation/FDT_explainer.py:107-123, 150-153; FBDT_explainer.py:103-124). A position of the list of variables that is `None` is an
`AttributeError` as soon as the tree reads it. -/
def expParams (vars : List (Option (FVar K))) (kw : ExpKw K) : Py (FDTParams K) := do
  let vs ← vars.mapM (fun v => orError v .attributeError)
  pure ⟨vs, kw.fuzzyThreshold.getD (1 / 10000), kw.maxDepth.getD 10, kw.minNumExamples.getD 1⟩

/-- a one-element list of one-element lists, the result of `predict` on one row. -/
def onlyClass : List (List Nat) → Py Nat
  | [[c]] => .ok c
  | _ => .error .valueError

/-- `predict(X)[0]`. -/
def firstRow : List (List Nat) → Py (List Nat)
  | p :: _ => .ok p
  | [] => .error .indexError

/-! ## `FDTExplainer` -/

/-- the counterfactual of an `FDTExplainer`. -/
abbrev Changes := Option (List (String × String))

/-- the data of `FDTExplainer.fit` (explanation/FDT_explainer.py:101-153): the getters of the neighborhood raise without data, and `decoded_instance` is an attribute
that only some neighborhoods have. -/
def fdtData (a : ExpArgs K) : Py (ExpData K) := do
  let vars ← (getFuzzyVars a.nb).1
  let im ← (getInstanceMembership a.nb).1
  let dec ← orError a.nb.decodedInst .attributeError
  let X ← (getX a.nb).1
  let y ← (getY a.nb).1
  checkD a
  let p ← expParams vars a.kw
  pure ⟨p, im, dec, X.rows, y⟩

/-- the trained local tree with its data (explanation/FDT_explainer.py:150-155) and its predictions on the neighborhood. -/
def fdtTrain (cx : ExpCtx K) (a : ExpArgs K) : Py ((ExpData K × FNode Nat K) × List Nat) := do
  let d ← fdtData a
  let t ← fdtFit cx.ent cx.ord d.params fdtNew d.X d.y
  let out ← fdtPredict min .agg t d.X
  let p ← firstRow out
  pure ((d, t), p)

/-- rules and predicted class (explanation/FDT_explainer.py:161-162). -/
def fdtConclude (a : ExpArgs K) (dt : ExpData K × FNode Nat K) : Py ((ExpData K × List (Rule String Nat K)) × Nat) := do
  let rs ← fdtToRules dt.2 false false
  let out ← fdtPredict min .agg dt.2 [a.inst.flatten]
  let c ← onlyClass out
  pure ((dt.1, rs), c)

/-- the counterfactual (explanation/FDT_explainer.py:164-176). -/
def fdtCounterfactual (cx : ExpCtx K) (a : ExpArgs K) (d : ExpData K) (inst : Inst K) (rs fact : List (Rule String Nat K)) (c : Nat) :
    Py Changes :=
  match CMethod.ofName a.counterfactual with
  | some .i => iCounterfactual (fun i => cx.ident i 0) inst rs c a.numCols
  | some .f => fCounterfactual cx.ident fact inst rs c a.numCols (1 / 2)
  | some .d =>
    dCounterfactual cx.parse (fun cells => cx.dist (a.kw.cfDist.getD "moth") d.decoded cells (a.kw.contIdx.getD []) (a.kw.discIdx.getD [])
      (a.kw.mad.getD (fun _ => none))) (a.kw.contIdx.getD []) inst rs c
  | none => .error .valueError

/-- factual and counterfactual (explanation/FDT_explainer.py:163-177). -/
def fdtFinish (cx : ExpCtx K) (a : ExpArgs K) (dr : ExpData K × List (Rule String Nat K)) (c : Nat) :
    Py (List (Rule String Nat K) × Changes) := do
  let inst ← scalarInst dr.1.im
  let fact ← runFactual (FMethod.ofName a.factual) a.kw
    (a.kw.other || (a.kw.dGiven && decide (CMethod.ofName a.counterfactual ≠ some .d))) (fun r => r.matching inst) dr.2 c
  let cf ← fdtCounterfactual cx a dr.1 inst dr.2 fact c
  pure (fact, cf)

/-- `FDTExplainer.fit` (explanation/FDT_explainer.py:52-177). -/
def fdtExplainerFit (cx : ExpCtx K) (a : ExpArgs K) : Act (EState K (List (Rule String Nat K)) Changes) Unit :=
  explainerFit (checkExpArgs a) a.target (fdtTrain cx a) (fun t => fdtFidelity t.1.1.y t.2) (fun t => fdtConclude a t.1) (fdtFinish cx a)

/-! ## `FBDTExplainer` -/

/-- the data of `FBDTExplainer.fit` (explanation/FBDT_explainer.py:98-124). -/
def fbdtData (a : ExpArgs K) : Py (ExpData K) := do
  let vars ← (getFuzzyVars a.nb).1
  let im ← (getInstanceMembership a.nb).1
  let X ← (getX a.nb).1
  let y ← (getY a.nb).1
  let p ← expParams vars a.kw
  pure ⟨p, im, [], X.rows, y⟩

/-- the trained local tree with its data (explanation/FBDT_explainer.py:121-126) and its predictions on the neighborhood. -/
def fbdtTrain [NanSort K] (cx : ExpCtx K) (a : ExpArgs K) : Py ((ExpData K × BNode Nat K) × List Nat) := do
  let d ← fbdtData a
  let t ← fbdtFit cx.ent d.params fbdtNew d.X d.y
  let out ← fbdtPredict min .agg t d.X
  let p ← firstRow out
  pure ((d, t), p)

/-- rules and predicted class (explanation/FBDT_explainer.py:128-129). -/
def fbdtConclude (a : ExpArgs K) (dt : ExpData K × BNode Nat K) : Py ((ExpData K × List (Rule (List String) Nat K)) × Nat) := do
  let rs ← fbdtToRules dt.2 false false
  let out ← fbdtPredict min .agg dt.2 [a.inst.flatten]
  let c ← onlyClass out
  pure ((dt.1, rs), c)

/-- the factual, and the text that is the counterfactual (explanation/FBDT_explainer.py:130-132). No keyword of `d_counterfactual` is taken out of
`kwargs`. -/
def fbdtFinish (a : ExpArgs K) (dr : ExpData K × List (Rule (List String) Nat K)) (c : Nat) :
    Py (List (Rule (List String) Nat K) × String) := do
  let inst ← scalarInst dr.1.im
  let fact ← runFactual (FMethod.ofName a.factual) a.kw (a.kw.other || a.kw.dGiven) (fun r => r.matchingMulti inst) dr.2 c
  pure (fact, "COUNTERFACTUAL NOT IMPLEMENTED FOR BINARY TREE")

/-- `FBDTExplainer.fit` (explanation/FBDT_explainer.py:51-132). -/
def fbdtExplainerFit [NanSort K] (cx : ExpCtx K) (a : ExpArgs K) : Act (EState K (List (Rule (List String) Nat K)) String) Unit :=
  explainerFit (checkExpArgs a) a.target (fbdtTrain cx a) (fun t => f1Binary t.1.1.y t.2) (fun t => fbdtConclude a t.1) (fbdtFinish a)

/-! ## `FID3Explainer` -/

/-- the set of largest degree in row `i`: `label[np.argmax(x, axis=0)[i]]` (explanation/FID3_explainer.py:56-59), the first one of several. -/
def argmaxLabel (var : Dict String (List K)) (i : Nat) : Py String := do
  let best ← pyMax (fun (p : String × List K) => p.2.getD i 0) var
  pure best.1

/-- `_get_categorical_fuzzy` (explanation/FID3_explainer.py:56-59) for `n` rows; `np.argmax` of an empty array is a `ValueError`. -/
def categoricalFuzzy (n : Nat) (var : Dict String (List K)) : Py (List String) := (List.range n).mapM (argmaxLabel var)

/-- one column of `_fuzzify_dataset` (explanation/FID3_explainer.py:61-65): a known column is replaced, a new one is added at the end. -/
def replaceColumn (X : Frame K) (name : String) (col : List String) : Frame K :=
  if name ∈ X.cols then { X with rows := List.zipWith (fun r s => r.set (X.cols.idxOf name) (.str s)) X.rows col }
  else { cols := X.cols ++ [name], rows := List.zipWith (fun r s => r ++ [.str s]) X.rows col }

/-- `_fuzzify_dataset` (explanation/FID3_explainer.py:61-65). -/
def fuzzifyDataset (X : Frame K) (m : Memb K) : Py (Frame K) :=
  m.foldlM (fun X p => do
    let col ← categoricalFuzzy X.rows.length p.2
    pure (replaceColumn X p.1 col)) X

/-- a cell as text, the type of the values of the tree here. -/
def cellText (fmt : K → String) : Cell K → String
  | .num x => fmt x
  | .str s => s

/-- `FID3Explainer.fit` (explanation/FID3_explainer.py:26-54). `fmt` stands for the columns that stay numbers, `fit` is `ID3.fit` on a table of texts
(`Model/ID3.lean`), `finish` everything behind the rules. -/
def fid3ExplainerFit {G : Type} (fmt : K → String) (fit : List String → List (List String × Nat) → Py (INode String Nat K))
    (finish : List (Rule String (Option Nat) K) → INode String Nat K → Py (Nat × (Rule String (Option Nat) K × G)))
    (target : Nat) (nb : NState K) : Act (EState K (Rule String (Option Nat) K) G) Unit := fun s =>
  let s := { s with target := some target }
  match (do
    let m ← (getXMembership nb).1
    let X ← (getX nb).1
    let _ ← (getInstanceMembership nb).1
    let y ← (getY nb).1
    let df ← fuzzifyDataset X m
    let t ← fit df.cols ((df.rows.map (fun r => r.map (cellText fmt))).zip y)
    let rs ← id3ToRules df.cols t false false
    finish rs t : Py (Nat × (Rule String (Option Nat) K × G))) with
  | .error e => (.error e, s)
  | .ok (c, x) => (.ok (), { s with expValue := some c, explanation := some x })

end

end Teacher
