import Verif.Model.Neighborhood

/-!
# Model of `neighbors/_lore_neighborhood.py`

Simplifications. Exact arithmetic: `|zscore| < 3` is `(x - mean)^2 < 9 * variance`, which is also right for a constant column, whose scores
are nan, so that the comparison is false. The chained assignment of lines 58-59 is taken to change the frame (it does without copy-on-write).
Numbers have no dtype. What happens before the smoothing (`calculate_feature_values`, `dataframe2explain`, `genetic_neighborhood`) is a
parameter `gen`: these functions are in `Model/GP.lean` and `Model/Utils.lean`. Printing is left out.
-/

namespace Teacher

section
variable {K : Type} [Field K] [LinearOrder K]

/-- what a `LoreNeighborhood` is made from (neighbors/_lore_neighborhood.py:29-49): `columns`, `continuous`, `idx_features` and
`label_encoder` of the dataset (an encoder is the list of its classes), the class name and `X2E`. -/
structure LoreCtx (K : Type) where
  columns : List String
  className : String
  encoders : Dict String (List (Cell K))
  continuous : List String
  idxFeatures : Dict Nat String
  X2E : List (List K)
  toInt : K → Int

/-- lines 58-59 of neighbors/_lore_neighborhood.py on one value. -/
def clipVal (lo hi x : K) : K :=
  let x' := if hi < x then hi else x
  if x' < lo then lo else x'

/-- lines 58-59 on one cell: comparing a string with a number is a `TypeError`. -/
def clipCell (lo hi : K) : Cell K → Py (Cell K)
  | .num x => .ok (.num (clipVal lo hi x))
  | .str _ => .error .typeError

/-- a column of `X2E` (`IndexError` out of range). -/
def numColumn (X : List (List K)) (j : Nat) : Py (List K) :=
  X.mapM (fun r => match r[j]? with
    | some x => .ok x
    | none => .error .indexError)

/-- the range of a column of `X2E` (neighbors/_lore_neighborhood.py:54-55); `ValueError` without rows. -/
def trainRange (cx : LoreCtx K) (featIdx : Dict String Nat) (col : String) : Py (K × K) := do
  let j ← Dict.get featIdx col
  let v ← numColumn cx.X2E j
  let lo ← pyMin v
  let hi ← pyMax id v
  pure (lo, hi)

/-- the loop of lines 53-59 of neighbors/_lore_neighborhood.py. -/
def clipColumns (cx : LoreCtx K) (featIdx : Dict String Nat) : List String → Frame K → Py (Frame K)
  | [], df => .ok df
  | c :: cs, df => do
    let b ← trainRange cx featIdx c
    let i ← df.colIdx c
    let rows ← df.rows.mapM (updCell i (clipCell b.1 b.2))
    clipColumns cx featIdx cs { df with rows := rows }

/-- mean of a column. -/
def colMean (v : List K) : K := v.sum / (v.length : K)

/-- variance of a column (`ddof = 0`). -/
def colVar (v : List K) : K := colMean (v.map (fun x => (x - colMean v) * (x - colMean v)))

/-- `np.abs(zscore) < 3` for the value `x` of column `v` (neighbors/_lore_neighborhood.py:62). -/
def zKeep (v : List K) (x : K) : Bool := (x - colMean v) * (x - colMean v) < 9 * colVar v

/-- `.all(axis=1)` for row number `i`. -/
def keepRow (cols : List (List K)) (i : Nat) : Bool :=
  cols.all (fun v => match v[i]? with
    | some x => zKeep v x
    | none => false)

/-- `ndf[(np.abs(stats.zscore(ndf[continuous])) < 3).all(axis=1)]` (neighbors/_lore_neighborhood.py:62, 65). -/
def zFilter (continuous : List String) (df : Frame K) : Py (Frame K) := do
  let cols ← continuous.mapM df.numCol
  pure { df with rows := (df.rows.zipIdx.filter (fun p => keepRow cols p.2)).map Prod.fst }

/-- the loop of lines 64-65 of neighbors/_lore_neighborhood.py; its body does not change the two lengths. `fuel` bounds the iterations. -/
def smoothLoop (continuous : List String) (oldLen newLen : Int) : Nat → Frame K → Py (Frame K)
  | 0, _ => .error .fuel
  | fuel + 1, df =>
    if newLen - oldLen > 0 then do
      let df' ← zFilter continuous df
      smoothLoop continuous oldLen newLen fuel df'
    else .ok df

/-- the row of the instance (neighbors/_lore_neighborhood.py:67-68): `ValueError` when it has not as many cells as there are columns. -/
def loreRow (bb : List K → Nat) (inst : List K) (cols : List String) : Py (List (Cell K)) :=
  let row := ((bb inst : K) :: inst).map Cell.num
  if row.length = cols.length then .ok row else .error .valueError

/-- `df.drop(c, axis=1)`: `KeyError` if there is no such column. -/
def Frame.drop (df : Frame K) (c : String) : Py (Frame K) := do
  let i ← df.colIdx c
  pure ⟨df.cols.eraseIdx i, df.rows.map (fun r => r.eraseIdx i)⟩

/-- `LabelEncoder.transform` on one cell: `ValueError` for a value that is not a class. -/
def encodeCell (classes : List (Cell K)) (c : Cell K) : Py (Cell K) :=
  if c ∈ classes then .ok (.num (classes.idxOf c : K)) else .error .valueError

/-- the loop of lines 71-73 of neighbors/_lore_neighborhood.py. -/
def encodeColumns (className : String) : List (String × List (Cell K)) → Frame K → Py (Frame K)
  | [], df => .ok df
  | (le, cls) :: rest, df =>
    if le = className then encodeColumns className rest df
    else do
      let i ← df.colIdx le
      let rows ← df.rows.mapM (updCell i (encodeCell cls))
      encodeColumns className rest { df with rows := rows }

/-- the clipping and filtering part of `_smooth_neighborhood` (neighbors/_lore_neighborhood.py:52-65). -/
def smoothRows (cx : LoreCtx K) (fuel : Nat) (df : Frame K) (continuous : List String) (featIdx : Dict String Nat) : Py (Frame K) := do
  let ndf ← clipColumns cx featIdx continuous df
  let ndf' ← zFilter continuous ndf
  smoothLoop continuous ndf.rows.length ndf'.rows.length fuel ndf'

/-- `_smooth_neighborhood` (neighbors/_lore_neighborhood.py:51-75): the frame with the instance, and the encoded rows. -/
def smoothNeighborhood (cx : LoreCtx K) (bb : List K → Nat) (inst : List K) (fuel : Nat) (df : Frame K) (continuous : List String)
    (featIdx : Dict String Nat) : Py (Frame K × List (List (Cell K))) := do
  let ndf ← smoothRows cx fuel df continuous featIdx
  let row ← loreRow bb inst ndf.cols
  let ndf := { ndf with rows := ndf.rows ++ [row] }
  let x ← ndf.drop cx.className
  let edf ← encodeColumns cx.className cx.encoders x
  pure (ndf, edf.rows)

/-! ## `fit` and `fuzzify` -/

/-- the attributes of a `LoreNeighborhood`: `decoded_target` and `_y_decoded` are not strings here. -/
structure LState (K : Type) where
  base : NState K := {}
  target : Option (Cell K) := none
  yDecoded : Option (List (Cell K)) := none

/-- `inverse_transform` of a value: `ValueError` if it is not the number of a class. -/
def inverseCell (cx : LoreCtx K) (classes : List (Cell K)) (x : K) : Py (Cell K) :=
  if ((cx.toInt x : Int) : K) = x then
    match cx.toInt x with
    | .ofNat n => match classes[n]? with
      | some c => .ok c
      | none => .error .valueError
    | .negSucc _ => .error .valueError
  else .error .valueError

/-- decoding of a feature of the instance (neighbors/_lore_neighborhood.py:80-84). -/
def loreDecode (cx : LoreCtx K) (inst : List K) (p : String × Nat) : Py (Cell K) :=
  match Dict.get? cx.encoders p.1, inst[p.2]? with
  | _, none => .error .indexError
  | none, some x => .ok (.num x)
  | some cls, some x => inverseCell cx cls x

/-- `features` (neighbors/_lore_neighborhood.py:79). -/
def LoreCtx.features (cx : LoreCtx K) : List String := cx.columns.filter (fun c => c ≠ cx.className)

/-- `decoded_target` (neighbors/_lore_neighborhood.py:87-88). -/
def loreTarget (cx : LoreCtx K) (x : K) : Py (Cell K) := do
  let cls ← Dict.get cx.encoders cx.className
  inverseCell cx cls x

/-- the black box on an encoded row: a string in it is a `ValueError`. -/
def predictCells (bb : List K → Nat) (row : List (Cell K)) : Py Nat := do
  let r ← row.mapM (fun c => match c with
    | .num x => .ok x
    | .str _ => .error .valueError)
  pure (bb r)

/-- lines 103-115 of neighbors/_lore_neighborhood.py: `_Xy`, `_X`, `_y` and `_y_decoded`. -/
def loreFrames (cx : LoreCtx K) (bb : List K → Nat) (inst : List K) (fuel : Nat) (df : Frame K) :
    Py (Frame K × Frame K × List Nat × List (Cell K)) := do
  let featIdx := Dict.ofPairs (cx.idxFeatures.map (fun p => (p.2, p.1)))
  let (xy, Z) ← smoothNeighborhood cx bb inst fuel df (cx.continuous.filter (fun c => c ≠ cx.className)) featIdx
  let x ← xy.drop cx.className
  let y ← Z.mapM (predictCells bb)
  let yd ← xy.col cx.className
  pure (xy, x, y, yd)

/-- `LoreNeighborhood.fit` (neighbors/_lore_neighborhood.py:77-115). `gen` is the frame made by lines 91-103. When `bb.predict` or
`df[class_name]` raise, some of the four attributes of lines 112-115 are already assigned; here none is. -/
def loreFit (cx : LoreCtx K) (bb : List K → Nat) (gen : Py (Frame K)) (inst : List K) (fuel : Nat) : Act (LState K) Unit := fun s =>
  match cx.features.zipIdx.mapM (loreDecode cx inst) with
  | .error e => (.error e, s)
  | .ok dec =>
    let s := { s with base := { s.base with decodedInst := some dec } }
    match loreTarget cx (bb inst : K) with
    | .error e => (.error e, s)
    | .ok t =>
      let s := { s with target := some t }
      match gen.bind (loreFrames cx bb inst fuel) with
      | .error e => (.error e, s)
      | .ok (xy, x, y, yd) =>
        (.ok (), { s with base := { s.base with Xy := some xy, X := some x, y := some y }, yDecoded := some yd })

/-- `LoreNeighborhood.fuzzify` (neighbors/_lore_neighborhood.py:117-119): the membership of the instance is computed twice. -/
def loreFuzzify (cx : FuzzCtx K) (inst : List (Cell K)) (a : FuzzArgs K) : Act (NState K) Unit := fun s =>
  match fuzzify cx inst a s with
  | (.error e, s) => (.error e, s)
  | (.ok (), s) =>
    match s.decodedInst, s.vars with
    | some d, some vars =>
      match membershipOpt [d] vars with
      | .error e => (.error e, s)
      | .ok im => (.ok (), { s with instMem := some im })
    | _, _ => (.error .attributeError, s)

end

end Teacher
