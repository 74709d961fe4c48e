import Verif.Model.Basic
import Verif.Model.Factual

/-!
# Model of `utils/util.py`, `utils/distance_functions.py` and `generate_dataset` of `datasets/_base.py`

A DataFrame is an ordered dict from column names to columns (`DF`); column names are different from each other. Cells are of any
linearly ordered type `V` (the order `np.unique` sorts by); some cells are numbers (`CellOps`).

Simplifications: a column with values that cannot be compared with each other (`TypeError` in `np.unique`) is outside the model; numbers
are exact.
-/

namespace Teacher

/-! ## distances -/

section
variable {K : Type} [Field K] [LinearOrder K]

/-- `np.var(x)`: mean of the squares of the differences to the mean (`nan` for no values). -/
def npVar (x : List K) : Py K := do
  let mean ← npDiv x.sum (x.length : K)
  npDiv ((x.map (fun a => (a - mean) * (a - mean))).sum) (x.length : K)

/-- `x - y` on arrays: `ValueError` for different lengths (broadcasting an array of length 1 is not modelled). -/
def npSub (x y : List K) : Py (List K) := if x.length = y.length then .ok (List.zipWith (· - ·) x y) else .error .valueError

/-- `normalized_euclidean_distance` (utils/distance_functions.py:4-5). -/
def normEuclid (x y : List K) : Py K := do
  let d ← npSub x y
  let v ← npVar d
  let vx ← npVar x
  let vy ← npVar y
  npDiv (1 / 2 * v) (vx + vy)

/-- `simple_match_distance` (utils/distance_functions.py:8-14): `zip` stops at the shorter list, the divisor is `len(x)`. -/
def simpleMatch {V : Type} [DecidableEq V] (x y : List V) : Py K := do
  let r ← pyDiv (((x.zip y).countP (fun p => p.1 = p.2) : Nat) : K) (x.length : K)
  pure (1 - r)

/-- one term of `mad_distance` (utils/distance_functions.py:45-49). -/
def madTerm (x y : List K) (p : K × Nat) : Py K :=
  if p.1 = 0 then .ok 0
  else
    match x[p.2]?, y[p.2]? with
    | some a, some b => .ok (|a - b| / p.1)
    | _, _ => .error .indexError

/-- `mad_distance` (utils/distance_functions.py:43-51). -/
def madDistance (x y mad : List K) : Py K := do
  let ts ← mad.zipIdx.mapM (madTerm x y)
  pure ts.sum

/-- `[x[att] for att in atts]` on a record. -/
def attrs {V : Type} (x : Dict String V) (atts : List String) : Py (List V) := atts.mapM (fun a => Dict.get x a)

/-- the discrete attributes of `mixed_distance` (utils/distance_functions.py:24). -/
def noClass (className : String) (l : List String) : List String := l.filter (fun a => a ≠ className)

/-- the weighted distance of the discrete attributes (utils/distance_functions.py:25-30), `xd` being those of `x`. -/
def discretePart {V : Type} (ddist : List V → List V → Py K) (xd : List V) (y : Dict String V) (discrete continuous : List String)
    (className : String) : Py K :=
  if 0 < xd.length then do
    let yd ← attrs y (noClass className discrete)
    let dd ← ddist xd yd
    pure ((discrete.length : K) / ((discrete.length : K) + (continuous.length : K)) * dd)
  else pure 0

/-- the weighted distance of the continuous attributes (utils/distance_functions.py:33-38); the condition is also on the discrete
attributes `xd` in the source. `toNum` reads a cell as a number (an array of strings fails in `cdist`, here `TypeError`). -/
def continuousPart {V : Type} (toNum : V → Py K) (cdist : List K → List K → Py K) (xd xc : List V) (y : Dict String V)
    (discrete continuous : List String) : Py K :=
  if 0 < xd.length then do
    let yc ← attrs y continuous
    let xn ← xc.mapM toNum
    let yn ← yc.mapM toNum
    let cd ← cdist xn yn
    pure ((continuous.length : K) / ((discrete.length : K) + (continuous.length : K)) * cd)
  else pure 0

/-- `mixed_distance` (utils/distance_functions.py:23-40). -/
def mixedDistance {V : Type} (toNum : V → Py K) (ddist : List V → List V → Py K) (cdist : List K → List K → Py K)
    (x y : Dict String V) (discrete continuous : List String) (className : String) : Py K := do
  let xd ← attrs x (noClass className discrete)
  let d ← discretePart ddist xd y discrete continuous className
  let xc ← attrs x continuous
  let c ← continuousPart toNum cdist xd xc y discrete continuous
  pure (d + c)

end

/-! ## types of the features -/

/-- the dtype of a column. -/
inductive DType where
  | integer
  | double
  | string
  | other
  deriving DecidableEq, Repr

/-- the two results of `recognize_features_type`: the names of each type, and the type of each name. -/
structure TypeFeatures where
  integer : List String
  double : List String
  string : List String
  deriving DecidableEq, Repr

/-- the columns of a dtype. -/
def columnsOf (t : DType) (dtypes : List (String × DType)) : List String := (dtypes.filter (fun p => p.2 = t)).map Prod.fst

/-- `recognize_features_type` (utils/util.py:8-25), first result. -/
def typeFeatures (dtypes : List (String × DType)) : TypeFeatures :=
  ⟨columnsOf .integer dtypes, columnsOf .double dtypes, columnsOf .string dtypes⟩

/-- `recognize_features_type` (utils/util.py:17-25), second result. -/
def featuresType (dtypes : List (String × DType)) : Dict String DType :=
  let t := typeFeatures dtypes
  Dict.ofPairs (t.integer.map (fun c => (c, .integer)) ++ t.double.map (fun c => (c, .double)) ++ t.string.map (fun c => (c, .string)))

/-- `set_discrete_continuous` (utils/util.py:28-44). `ord` is the order in which a `set` is listed. -/
def setDiscreteContinuous (ord : List String → List String) (features : List String) (t : TypeFeatures) (className : String)
    (discrete continuous : Option (List String)) : List String × List String :=
  let (d, c) : List String × List String := match discrete, continuous with
    | none, none => (t.string, t.integer ++ t.double)
    | none, some c => (features.filter (fun f => f ∉ c), ord (c ++ t.integer ++ t.double))
    | some d, none => (ord (d ++ t.string), features.filter (fun f => f ∉ d ∧ (f ∈ t.integer ∨ f ∈ t.double)))
    | some d, some c => (d, c)
  (d.filter (fun f => f ≠ className) ++ [className], c.filter (fun f => f ≠ className))

/-! ## label encoding -/

/-- a DataFrame. -/
abbrev DF (V : Type) := Dict String (List V)

/-- the cells that are numbers: `num x`; `toInt` is the conversion of a float to an integer. -/
structure CellOps (K V : Type) where
  num : K → V
  toNum : V → Option K
  toInt : K → Int

section
variable {K V : Type} [Field K] [LinearOrder K] [LinearOrder V]

/-- `LabelEncoder.fit` (sklearn): `classes_` are the sorted different values. -/
def leFit (col : List V) : List V := npUnique col

/-- `LabelEncoder.transform` on one value: `ValueError` if it was not seen. -/
def leTransform1 (ops : CellOps K V) (classes : List V) (v : V) : Py V :=
  if v ∈ classes then .ok (ops.num (classes.idxOf v : K)) else .error .valueError

/-- `LabelEncoder.transform`. -/
def leTransform (ops : CellOps K V) (classes : List V) (col : List V) : Py (List V) := col.mapM (leTransform1 ops classes)

/-- the class with an integer number. -/
def leClass (classes : List V) (i : Int) : Py V :=
  match i with
  | .ofNat n => match classes[n]? with
    | some s => .ok s
    | none => .error .valueError
  | .negSucc _ => .error .valueError

/-- `LabelEncoder.inverse_transform` on one value: `ValueError` if it is not the number of a class. -/
def leInverse1 (ops : CellOps K V) (classes : List V) (v : V) : Py V :=
  match ops.toNum v with
  | none => .error .valueError
  | some x => if ((ops.toInt x : Int) : K) = x then leClass classes (ops.toInt x) else .error .valueError

/-- `LabelEncoder.inverse_transform`. -/
def leInverse (ops : CellOps K V) (classes : List V) (col : List V) : Py (List V) := col.mapM (leInverse1 ops classes)

/-- the loop of `label_encode` with new encoders (utils/util.py:51-55). -/
def encodeNew (ops : CellOps K V) : List String → DF V → Dict String (List V) → Py (DF V × Dict String (List V))
  | [], df, les => .ok (df, les)
  | c :: cs, df, les => do
    let col ← Dict.get df c
    let enc ← leTransform ops (leFit col) col
    encodeNew ops cs (Dict.set df c enc) (Dict.set les c (leFit col))

/-- the loop of `label_encode` with given encoders (utils/util.py:56-58). -/
def encodeWith (ops : CellOps K V) (les : Dict String (List V)) : List String → DF V → Py (DF V)
  | [], df => .ok df
  | c :: cs, df => do
    let le ← Dict.get les c
    let col ← Dict.get df c
    let enc ← leTransform ops le col
    encodeWith ops les cs (Dict.set df c enc)

/-- `label_encode` (utils/util.py:47-59). -/
def labelEncode (ops : CellOps K V) (df : DF V) (columns : List String) (les : Option (Dict String (List V))) :
    Py (DF V × Dict String (List V)) :=
  match les with
  | none => encodeNew ops columns df []
  | some les => do
    let d ← encodeWith ops les columns df
    pure (d, les)

/-- `label_decode` (utils/util.py:62-67). -/
def labelDecode (ops : CellOps K V) (les : Dict String (List V)) : List String → DF V → Py (DF V)
  | [], df => .ok df
  | c :: cs, df => do
    let le ← Dict.get les c
    let col ← Dict.get df c
    let dec ← leInverse ops le col
    labelDecode ops les cs (Dict.set df c dec)

end

/-! ## the nearest records -/

section
variable {K V : Type}

/-- number of rows of a DataFrame. -/
def DF.nrows (df : DF V) : Nat := match df with
  | [] => 0
  | p :: _ => p.2.length

/-- row `i` as a record. -/
def DF.record (df : DF V) (i : Nat) : Dict String V := df.filterMap (fun p => (p.2[i]?).map (fun v => (p.1, v)))

/-- `df.to_dict('records')`. -/
def DF.records (df : DF V) : List (Dict String V) := (List.range (DF.nrows df)).map (DF.record df)

/-- `df.iloc[:, df.columns != class_name].values`: the rows without a column. -/
def DF.rowsWithout (df : DF V) (className : String) : List (List V) :=
  (List.range (DF.nrows df)).map (fun i => (df.filter (fun p => p.1 ≠ className)).filterMap (fun p => p.2[i]?))

/-- `l[:k]` for any integer `k`. -/
def pyTake {α : Type} (k : Int) (l : List α) : List α :=
  match k with
  | .ofNat n => l.take n
  | .negSucc n => l.take (l.length - (n + 1))

/-- `get_closest` (utils/util.py:70-75). `argsort` is `np.argsort`, whose order of equal values is not specified. -/
def getClosest (argsort : List K → List Nat) (dist : Dict String V → Py K) (df : DF V) (k : Int) : Py (List Nat) := do
  let ds ← (DF.records df).mapM dist
  pure (pyTake k (argsort ds))

/-- the indices and distances of the records with a given outcome (utils/util.py:88-98). -/
def withOutcome (o : Bool) (l : List ((K × Bool) × Nat)) : List (K × Nat) :=
  (l.filter (fun p => p.1.2 = o)).map (fun p => (p.1.1, p.2))

/-- `idx[np.argsort(distances)[:k]]` (utils/util.py:104-105). -/
def closestIdx (argsort : List K → List Nat) (k : Int) (l : List (K × Nat)) : List Nat :=
  (pyTake k (argsort (l.map Prod.fst))).filterMap (fun j => (l[j]?).map Prod.snd)

variable [Field K] [LinearOrder K]

/-- the choice among the three lists of `get_closest_diffoutcome` (utils/util.py:107-116). `toInt` is `int(·)`. The second condition
compares a number of records with the ratio (there is no division in the source). -/
def chooseIdx (toInt : K → Int) (k : Int) (ratio : K) (all i0 i1 : List Nat) : Py (List Nat) := do
  let q ← pyDiv (((all.dedup.filter (fun i => i ∈ i0)).length : Nat) : K) (all.length : K)
  if q < ratio then pure (pyTake (k - toInt ((k : K) * ratio)) all ++ pyTake (toInt ((k : K) * ratio)) i0)
  else if (((all.dedup.filter (fun i => i ∈ i1)).length : Nat) : K) < ratio then
    pure (pyTake (k - toInt ((k : K) * ratio)) all ++ pyTake (toInt ((k : K) * ratio)) i1)
  else pure all

/-- `get_closest_diffoutcome` (utils/util.py:78-116); `bb0` is `blackbox.predict(row)[0] == 0`. -/
def getClosestDiff [LinearOrder V] (ops : CellOps K V) (argsort : List K → List Nat) (dist : Dict String V → Py K) (bb0 : List V → Bool)
    (df : DF V) (discrete : List String) (className : String) (les : Dict String (List V)) (k : Int) (ratio : K) : Py (List Nat) := do
  let Z ← encodeWith ops les discrete df
  let ds ← (DF.records df).mapM dist
  let outs := (DF.rowsWithout Z className).map bb0
  let l := (ds.zip outs).zipIdx
  let all := pyTake k (argsort ds)
  chooseIdx ops.toInt k ratio all (closestIdx argsort k (withOutcome true l)) (closestIdx argsort k (withOutcome false l))

/-- `get_diff_outcome` (utils/util.py:220-221). -/
def getDiffOutcome {α : Type} [DecidableEq α] (o : α) (outcomes : List α) : Py α :=
  match outcomes with
  | [] => .error .indexError
  | a :: rest =>
    if o = a then match rest with
      | [] => .error .indexError
      | b :: _ => .ok b
    else .ok a

end

/-! ## datasets -/

section
variable {K V : Type} [Field K] [LinearOrder K] [LinearOrder V]

/-- the dictionary returned by `generate_dataset` (datasets/_base.py:90-105); `name` and `normalize_scaler` are left out. -/
structure Dataset (V : Type) where
  df : DF V
  columns : List String
  className : String
  possibleOutcomes : List V
  types : Dict String DType
  discrete : List String
  continuous : List String
  idxFeatures : Dict Nat String
  encoders : Dict String (List V)
  X : List (List V)
  y : List V

/-- `l.remove(x)`: `ValueError` if it is absent. -/
def pyRemove {α : Type} [DecidableEq α] (l : List α) (x : α) : Py (List α) := if x ∈ l then .ok (l.erase x) else .error .valueError

/-- the different values in order of appearance, `Series.unique()`. -/
def appearance {α : Type} [DecidableEq α] (l : List α) : List α := l.reverse.dedup.reverse

/-- `df[continuous] = scaler.fit_transform(df[continuous])` (datasets/_base.py:80-84), column by column; `scale` is the scaler. -/
def scaleColumns (scale : List V → List V) : List String → DF V → Py (DF V)
  | [], df => .ok df
  | c :: cs, df => do
    let col ← Dict.get df c
    scaleColumns scale cs (Dict.set df c (scale col))

/-- the scaling step (datasets/_base.py:80-84): the scaler raises `ValueError` for no columns or no rows. -/
def scaleStep (scale : List V → List V) (normalize : Bool) (continuous : List String) (df : DF V) : Py (DF V) :=
  if normalize then
    if continuous = [] ∨ DF.nrows df = 0 then .error .valueError else scaleColumns scale continuous df
  else .ok df

/-- `generate_dataset` (datasets/_base.py:35-107). `dtypes` are the dtypes of the columns of `df`. With `normalize` the scaling is done
in the DataFrame of the caller, which is `df` of the result. -/
def generateDataset (ops : CellOps K V) (ord : List String → List String) (scale : List V → List V) (dtype : String → DType) (df : DF V)
    (columns : List String) (className : String) (discrete : List String) (normalize : Bool) : Py (Dataset V) := do
  let cls ← Dict.get df className
  let dtypes := (Dict.keys df).map (fun c => (c, dtype c))
  let dc := setDiscreteContinuous ord columns (typeFeatures dtypes) className (some discrete) none
  let tmp ← pyRemove columns className
  let df' ← scaleStep scale normalize dc.2 df
  let (enc, les) ← labelEncode ops df' dc.1 none
  let y ← Dict.get enc className
  pure { df := df', columns := columns, className := className, possibleOutcomes := appearance cls, types := featuresType dtypes,
         discrete := dc.1, continuous := dc.2, idxFeatures := tmp.zipIdx.map (fun p => (p.2, p.1)), encoders := les,
         X := DF.rowsWithout enc className, y := y }

/-- one column of `build_df2explain` (utils/util.py:194-198). -/
def explainColumn (ops : CellOps K V) (ds : Dataset V) (yX : List (List K)) (p : String × Nat) : Py (String × List V) := do
  let col ← column yX p.2
  let t ← Dict.get ds.types p.1
  let col := if p.1 ∈ ds.discrete ∨ t = .integer then col.map (fun x => ((ops.toInt x : Int) : K)) else col
  pure (p.1, col.map ops.num)

/-- `build_df2explain` (utils/util.py:184-203): the predictions are put before the columns of `X`. -/
def buildDf2explain (ops : CellOps K V) (bb : List K → K) (X : List (List K)) (ds : Dataset V) : Py (DF V) := do
  let yX := X.map (fun r => bb r :: r)
  let cols ← ds.columns.zipIdx.mapM (explainColumn ops ds yX)
  labelDecode ops ds.encoders ds.discrete cols

end

end Teacher
