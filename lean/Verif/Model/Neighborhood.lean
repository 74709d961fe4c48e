import Verif.Model.Sampling
import Verif.Model.FuzzySet

/-!
# Model of `neighbors/_base_neighborhood.py`, `_simple_neighborhood.py`, `_fuzzy_neighborhood.py` and the methods of
`_sampling_neighborhood.py` that change the object

A neighborhood is an object with attributes; its methods are functions from a state to a result and a new state, so that the
assignments made before an exception stay (`Act`). Parameters stand for the code below: `std` is `Series.std`, `disc` is the
table `DISCRETIZE_METHODS` (any discretizers), `fmtK`/`fmtC` format the labels.

Simplifications: column names are different from each other; the classes are naturals (encoded).
-/

namespace Teacher

/-- a method of an object with state `S`: its result and the state it leaves. -/
abbrev Act (S α : Type) := S → Py α × S

/-- a DataFrame: column names and rows. -/
structure Frame (K : Type) where
  cols : List String
  rows : List (List (Cell K))
  deriving DecidableEq, Repr

/-- memberships: `{variable: {set: [degrees]}}`. -/
abbrev Memb (K : Type) := Dict String (Dict String (List K))

/-- the attributes of a `FuzzyNeighborhood` (neighbors/_base_neighborhood.py:35-41, _fuzzy_neighborhood.py:29-31 and
_sampling_neighborhood.py:166-182). `None` is `none`; the attributes that `fit` creates (`decoded_instance`, …) are absent before. -/
structure NState (K : Type) where
  X : Option (Frame K) := none
  y : Option (List Nat) := none
  Xy : Option (Frame K) := none
  Xmem : Option (Memb K) := none
  instMem : Option (Memb K) := none
  vars : Option (List (Option (FVar K))) := none
  decodedInst : Option (List (Cell K)) := none
  decodedTarget : Option String := none
  yDecoded : Option (List String) := none

section
variable {K : Type}

/-- a getter: the attribute, or the exception when it is `None`. -/
def getter {α : Type} (f : NState K → Option α) (e : PyErr) : Act (NState K) α := fun s =>
  match f s with
  | some v => (.ok v, s)
  | none => (.error e, s)

/-- `get_X` (neighbors/_base_neighborhood.py:50-67). -/
def getX : Act (NState K) (Frame K) := getter NState.X .notFitted
/-- `get_y` (neighbors/_base_neighborhood.py:69-86). -/
def getY : Act (NState K) (List Nat) := getter NState.y .notFitted
/-- `get_X_membership` (neighbors/_fuzzy_neighborhood.py:104-121). -/
def getXMembership : Act (NState K) (Memb K) := getter NState.Xmem .notFuzzified
/-- `get_instance_membership` (neighbors/_fuzzy_neighborhood.py:123-140). -/
def getInstanceMembership : Act (NState K) (Memb K) := getter NState.instMem .notFuzzified
/-- `get_fuzzy_variables` (neighbors/_fuzzy_neighborhood.py:142-158). -/
def getFuzzyVars : Act (NState K) (List (Option (FVar K))) := getter NState.vars .notFuzzified
/-- `get_y_decoded` (neighbors/_sampling_neighborhood.py:189-190): without `fit` the attribute does not exist. -/
def getYDecoded : Act (NState K) (List String) := getter NState.yDecoded .attributeError

/-- `SimpleNeighborhood.fit` (neighbors/_simple_neighborhood.py:27-29); `names` are the default column names of the DataFrame. -/
def simpleFit (inst : List (Cell K)) (size : Nat) (names : List String) (bb : List (Cell K) → Nat) : Act (NState K) Unit := fun s =>
  let rows := List.replicate size inst
  (.ok (), { s with X := some ⟨names, rows⟩, y := some (rows.map bb) })

/-! ## `fuzzify` -/

/-- the arguments of `fuzzify` (neighbors/_fuzzy_neighborhood.py:33-65): a keyword argument that is not given is `none`. `verbose` is
whether that keyword is given. -/
structure FuzzArgs (K : Type) where
  division : String
  numCols : Option (List String)
  catCols : Option (List String)
  sets : Option Nat
  th : Option K
  verbose : Bool := false
  instanceMembership : Option Bool := none

variable [Field K] [LinearOrder K]

/-- the position of a column, `KeyError` when there is none. -/
def Frame.colIdx (X : Frame K) (c : String) : Py Nat := if c ∈ X.cols then .ok (X.cols.idxOf c) else .error .keyError

/-- `X[c]`. -/
def Frame.col (X : Frame K) (c : String) : Py (List (Cell K)) := do
  let i ← X.colIdx c
  column X.rows i

/-- a column as numbers: an operation on a column of strings is a `TypeError`. -/
def numCells (l : List (Cell K)) : Py (List K) :=
  l.mapM (fun c => match c with
    | .num x => .ok x
    | .str _ => .error .typeError)

/-- `X[c]` as numbers. -/
def Frame.numCol (X : Frame K) (c : String) : Py (List K) := do
  let l ← X.col c
  numCells l

/-- `Series.unique()`: the different values in order of appearance. -/
def pdUnique {α : Type} [DecidableEq α] (l : List α) : List α := l.reverse.dedup.reverse

/-- the table of discretizers: name, `sets`, `th`, column, classes. -/
abbrev Discs (K : Type) := String → Option (Nat → Option K → List K → List Nat → Py (List K))

/-- everything that `fuzzify` uses besides the state. -/
structure FuzzCtx (K : Type) where
  disc : Discs K
  std : List K → K
  fmtK : K → String
  fmtC : Cell K → String

/-- the loop of `get_fuzzy_points` (fuzzy/_base.py:80-91) on the numeric columns. -/
def fuzzyPointsOf (cx : FuzzCtx K) (d : Nat → Option K → List K → List Nat → Py (List K)) (a : FuzzArgs K)
    (y : List Nat) (p : String × List K) : Py (String × List K) :=
  -- the threshold of neighbors/_fuzzy_neighborhood.py:82
  if cx.std p.2 < 1 / 100000 then .ok (p.1, npUnique p.2)
  else do
    let pts ← d (a.sets.getD 0) a.th p.2 y
    pure (p.1, pts)

/-- `get_fuzzy_points` as `fuzzify` calls it (neighbors/_fuzzy_neighborhood.py:90-93; fuzzy/_base.py:64-91): the keyword `verbose`
is not one of its parameters (`TypeError`); `check_X_y` wants at least one row and one column and one class per row
(`ValueError`); an unknown method is a `ValueError`. -/
def getFuzzyPoints (cx : FuzzCtx K) (a : FuzzArgs K) (num : List (String × List K)) (nrows : Nat) (y : List Nat) :
    Py (Dict String (List K)) :=
  if a.verbose then .error .typeError
  else if num = [] ∨ nrows = 0 ∨ y.length ≠ nrows then .error .valueError
  else
    match cx.disc a.division with
    | none => .error .valueError
    | some d => do
      let ps ← num.mapM (fuzzyPointsOf cx d a y)
      pure (Dict.ofPairs ps)

/-- the first part of `fuzzify`: the fuzzy variables (neighbors/_fuzzy_neighborhood.py:67-97). -/
def fuzzyVarsOf (cx : FuzzCtx K) (a : FuzzArgs K) (X : Frame K) (y : List Nat) : Py (List (Option (FVar K))) :=
  if (a.division = "equal_width" ∨ a.division = "equal_freq") ∧ a.sets = none then .error .valueError
  else
    match a.numCols, a.catCols with
    | some nums, some cats => do
      let num ← nums.mapM (fun c => do let v ← X.numCol c; pure (c, v))
      let pts ← getFuzzyPoints cx a num X.rows.length y
      let vals ← cats.mapM (fun c => do let v ← X.col c; pure (c, pdUnique v))
      getFuzzyVariables cx.fmtK cx.fmtC pts (Dict.ofPairs vals) X.cols.zipIdx none none true
    | _, _ => .error .valueError

/-- `dataset_membership(X, variables)` when some position of the list is `None` (fuzzy/_base.py:94-120): reading an attribute of
`None` is an `AttributeError`. -/
def membershipOpt (rows : List (List (Cell K))) (vars : List (Option (FVar K))) : Py (Memb K) := do
  checkArray rows
  match vars.idxOf? none with
  | none => datasetMembership rows (vars.filterMap id)
  | some k => do
    let _ ← datasetMembership rows ((vars.take k).filterMap id)
    .error .attributeError

/-- the instance as a DataFrame of one row (neighbors/_fuzzy_neighborhood.py:101): `IndexError` when it is longer than the columns. -/
def instanceRow (X : Frame K) (inst : List (Cell K)) : Py (List (List (Cell K))) :=
  if X.cols.length < inst.length then .error .indexError else .ok [inst]

/-- `FuzzyNeighborhood.fuzzify` (neighbors/_fuzzy_neighborhood.py:33-102). -/
def fuzzify (cx : FuzzCtx K) (inst : List (Cell K)) (a : FuzzArgs K) : Act (NState K) Unit := fun s =>
  match s.X, s.y, s.Xy with
  | some X, some y, some _ =>
    match fuzzyVarsOf cx a X y with
    | .error e => (.error e, s)
    | .ok vars =>
      let s := { s with vars := some vars }
      match membershipOpt X.rows vars with
      | .error e => (.error e, s)
      | .ok m =>
        let s := { s with Xmem := some m }
        if a.instanceMembership.getD true then
          match instanceRow X inst with
          | .error e => (.error e, s)
          | .ok rows =>
            match membershipOpt rows vars with
            | .error e => (.error e, s)
            | .ok im => (.ok (), { s with instMem := some im })
        else (.ok (), s)
  | _, _, _ => (.error .notFitted, s)

/-- `SamplingNeighborhood.fuzzify` (neighbors/_sampling_neighborhood.py:184-187): giving `instance_membership` twice is a
`TypeError`. -/
def samplingFuzzify (cx : FuzzCtx K) (inst : List (Cell K)) (a : FuzzArgs K) : Act (NState K) Unit := fun s =>
  if a.instanceMembership ≠ none then (.error .typeError, s)
  else
    match fuzzify cx inst { a with instanceMembership := some false } s with
    | (.error e, s) => (.error e, s)
    | (.ok (), s) =>
      match s.decodedInst, s.vars with
      | some d, some vars =>
        match membershipOpt [d] vars with
        | .error e => (.error e, s)
        | .ok im => (.ok (), { s with instMem := some im })
      | _, _ => (.error .attributeError, s)

/-! ## `SamplingNeighborhood.fit` -/

/-- a fitted `sklearn` `LabelEncoder`: its classes in order. `inverse_transform` of an integer out of range is a `ValueError`. -/
def inverseTransform (classes : List String) (i : Int) : Py String :=
  match i with
  | .ofNat n => match classes[n]? with
    | some s => .ok s
    | none => .error .valueError
  | .negSucc _ => .error .valueError

/-- the dataset a sampling neighborhood is made for. -/
structure DsCtx (K : Type) where
  columns : List String
  className : String
  encoders : Dict String (List String)
  toInt : K → Int

/-- `features` (neighbors/_sampling_neighborhood.py:157). -/
def DsCtx.features (d : DsCtx K) : List String := d.columns.filter (fun c => c ≠ d.className)

/-- decoding of one cell of the instance (neighbors/_sampling_neighborhood.py:158-163). -/
def decodeFeature (d : DsCtx K) (inst : List K) (p : String × Nat) : Py (Cell K) :=
  match Dict.get? d.encoders p.1, inst[p.2]? with
  | _, none => .error .indexError
  | none, some x => .ok (.num x)
  | some cls, some x => do
    let s ← inverseTransform cls (d.toInt x)
    pure (.str s)

/-- `pd.DataFrame(np.array(neighborhood), columns=features)`: `ValueError` when the number of names is not the number of columns. -/
def mkFrame (features : List String) (rows : List (List K)) : Py (Frame K) :=
  if rows.any (fun r => r.length ≠ features.length) then .error .valueError
  else .ok ⟨features, rows.map (fun r => r.map .num)⟩

/-- a decoded cell (neighbors/_sampling_neighborhood.py:177): the cells of the frame are numbers at this point. -/
def decodeCellOf (d : DsCtx K) (cls : List String) (c : Cell K) : Py (Cell K) :=
  match c with
  | .num x => do
    let s ← inverseTransform cls (d.toInt x)
    pure (.str s)
  | .str _ => .error .valueError

/-- `row[i] = f(row[i])`. -/
def updCell (i : Nat) (f : Cell K → Py (Cell K)) (row : List (Cell K)) : Py (List (Cell K)) :=
  match row[i]? with
  | none => .error .indexError
  | some c => do
    let c' ← f c
    pure (row.set i c')

/-- the loop decoding the columns (neighbors/_sampling_neighborhood.py:175-177). -/
def decodeColumns (d : DsCtx K) : List (String × List String) → Frame K → Py (Frame K)
  | [], df => .ok df
  | (le, cls) :: rest, df =>
    if le = d.className then decodeColumns d rest df
    else do
      let i ← df.colIdx le
      let rows ← df.rows.mapM (updCell i (decodeCellOf d cls))
      decodeColumns d rest { df with rows := rows }

/-- the encoder of the class (`KeyError` without it). -/
def classEncoder (d : DsCtx K) : Py (List String) := Dict.get d.encoders d.className

/-- the decoded class of the instance (neighbors/_sampling_neighborhood.py:172-173), with the encoder used for it. -/
def decodeTarget (d : DsCtx K) (c : Nat) : Py (List String × String) := do
  let cls ← classEncoder d
  let t ← inverseTransform cls (.ofNat c)
  pure (cls, t)

/-- `inverse_transform(y)` on a list of classes. -/
def inverseClasses (cls : List String) (y : List Nat) : Py (List String) := y.mapM (fun c => inverseTransform cls (.ofNat c))

/-- what `fit` computes before it assigns `_X`: the decoded instance, the sample and its frames. `gen` is the chosen generation
method (neighbors/_sampling_neighborhood.py:152-165): `none` for an unknown name (`KeyError`). -/
def fitValues (d : DsCtx K) (gen : Option (Py (List (List K)))) (inst : List K) : Py (List (Cell K) × List (List K) × Frame K) := do
  let dec ← d.features.zipIdx.mapM (decodeFeature d inst)
  match gen with
  | none => .error .keyError
  | some g => do
    let rows ← g
    let Z ← mkFrame d.features rows
    pure (dec, rows, Z)

/-- the frame `_Xy`: the classes and the encoded sample side by side (neighbors/_sampling_neighborhood.py:181). -/
def xyFrame (className : String) (y : List Nat) (Z : Frame K) : Frame K :=
  { cols := className :: Z.cols, rows := (y.zip Z.rows).map (fun p => Cell.num (p.1 : K) :: p.2) }

/-- `SamplingNeighborhood.fit` (neighbors/_sampling_neighborhood.py:151-182). -/
def samplingFit (d : DsCtx K) (bb : List K → Nat) (gen : Option (Py (List (List K)))) (inst : List K) : Act (NState K) Unit := fun s =>
  match fitValues d gen inst with
  | .error e => (.error e, s)
  | .ok (dec, rows, Z) =>
    let s := { s with decodedInst := some dec }
    match decodeTarget d (bb inst) with
    | .error e => (.error e, s)
    | .ok (cls, t) =>
      let s := { s with decodedTarget := some t }
      match decodeColumns d d.encoders Z with
      | .error e => (.error e, s)
      | .ok df =>
        let y := rows.map bb
        let s := { s with X := some df, y := some y, Xy := some (xyFrame d.className y Z) }
        match inverseClasses cls y with
        | .error e => (.error e, s)
        | .ok yd => (.ok (), { s with yDecoded := some yd })

end

end Teacher
