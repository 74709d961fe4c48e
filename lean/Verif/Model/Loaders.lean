import Verif.Model.GP

/-!
# Model of the `load_*` functions of `datasets/_base.py`

The table read from the file (or from `sklearn.datasets`) is the argument `raw`. The dtypes pandas gives to the columns are a parameter
(`dtype`), and so are the order of sets (`ord`), the scaler (`scale`) and the most frequent value of a column (`mode`, `value_counts().index[0]`).
For `load_compas` the arithmetic on dates is a parameter too.
The in-place `replace`/`fillna` on a column of the DataFrame change the DataFrame (pandas without copy-on-write).
-/

namespace Teacher

variable {K V : Type} [Field K] [LinearOrder K] [LinearOrder V]

/-- `df[columns]`. -/
def selectCols (df : DF V) (cols : List String) : Py (DF V) :=
  cols.mapM (fun c => do
    let col ← Dict.get df c
    pure (c, col))

/-- `del df[c]` for each of the columns. -/
def delCols : List String → DF V → Py (DF V)
  | [], df => .ok df
  | c :: cs, df => if c ∈ Dict.keys df then delCols cs (df.filter (fun p => p.1 ≠ c)) else .error .keyError

/-- the lists of columns of the loaders: the class first, then the others (datasets/_base.py:244-247). -/
def classFirst (df : DF V) (className : String) : Py (List String) := do
  let rest ← pyRemove (Dict.keys df) className
  pure (className :: rest)

/-- `load_beer`, `load_pima`, `load_flavia` (datasets/_base.py:231-297), and, with the columns to delete, `load_phishing` (300-329). -/
def loadClassFirst (ops : CellOps K V) (ord : List String → List String) (scale : List V → List V) (dtype : String → DType) (raw : DF V)
    (del : List String) (className : String) (normalize : Bool) : Py (Dataset V) := do
  let df ← delCols del raw
  let cols ← classFirst df className
  let df ← selectCols df cols
  generateDataset ops ord scale dtype df (Dict.keys df) className [] normalize

/-- `load_iris`, `load_wine` (datasets/_base.py:332-381): the class is the last column of the frame. -/
def loadLastClass (ops : CellOps K V) (ord : List String → List String) (scale : List V → List V) (dtype : String → DType) (raw : DF V)
    (normalize : Bool) : Py (Dataset V) :=
  match (Dict.keys raw).getLast? with
  | none => .error .indexError
  | some className => loadClassFirst ops ord scale dtype raw [] className normalize

/-- `load_german`, `load_heloc` (datasets/_base.py:110-128, 212-228) and `load_breast` (384-401): the columns in the order of the file. -/
def loadAsIs (ops : CellOps K V) (ord : List String → List String) (scale : List V → List V) (dtype : String → DType) (raw : DF V)
    (del : List String) (className : String) (discrete : List String) (normalize : Bool) : Py (Dataset V) := do
  let df ← delCols del raw
  generateDataset ops ord scale dtype df (Dict.keys df) className discrete normalize

/-- `load_basket` (datasets/_base.py:404-427): `columns` is taken before the class is put first. -/
def loadBasket (ops : CellOps K V) (ord : List String → List String) (scale : List V → List V) (dtype : String → DType) (raw : DF V)
    (className : String) (normalize : Bool) : Py (Dataset V) := do
  let cols ← classFirst raw className
  let df ← selectCols raw cols
  generateDataset ops ord scale dtype df (Dict.keys raw) className [] normalize

/-- the replacement of the missing values `'?'` by the most frequent value of the column (datasets/_base.py:148-149). -/
def replaceMissing (q : V) (mode : List V → Py V) (df : DF V) : Py (DF V) :=
  df.mapM (fun p => do
    let m ← mode p.2
    pure (p.1, p.2.map (fun v => if v = q then m else v)))

/-- `columns[-1:] + columns[:-1]` (datasets/_base.py:153). -/
def lastToFront (l : List String) : List String := (l.getLast?).toList ++ l.dropLast

/-- `load_adult` (datasets/_base.py:131-158). -/
def loadAdult (ops : CellOps K V) (ord : List String → List String) (scale : List V → List V) (dtype : String → DType) (q : V)
    (mode : List V → Py V) (raw : DF V) (normalize : Bool) : Py (Dataset V) := do
  let df ← delCols ["fnlwgt", "education-num"] raw
  let df ← replaceMissing q mode df
  let df ← selectCols df (lastToFront (Dict.keys df))
  generateDataset ops ord scale dtype df (Dict.keys df) "class" [] normalize

/-- the operations on cells of `load_compas`: `np.abs` of the days (`none`: missing), the absolute number of days between two dates, `astype(int)`,
`x < 7` and the two labels (datasets/_base.py:177-199). -/
structure CompasOps (V : Type) where
  absDays : V → Option V
  stay : V → V → Option V
  toInt : V → V
  lt7 : V → Bool
  low : V
  high : V

/-- `fillna(value_counts().index[0])` (datasets/_base.py:184-185). -/
def fillMissing (mode : List V → Py V) (l : List (Option V)) : Py (List V) := do
  let m ← mode (l.filterMap id)
  pure (l.map (fun v => v.getD m))

/-- the columns of `load_compas` (datasets/_base.py:172-173). -/
def compasCols : List String :=
  ["age", "age_cat", "sex", "race", "priors_count", "days_b_screening_arrest", "c_jail_in", "c_jail_out", "c_charge_degree", "is_recid",
    "is_violent_recid", "two_year_recid", "decile_score", "score_text"]

/-- the preparation of the table by `load_compas` (datasets/_base.py:175-208). Simplified: the columns with missing values are kept outside
the table until they are filled. -/
def compasFrame (cx : CompasOps V) (mode : List V → Py V) (raw : DF V) : Py (DF V) := do
  let df ← selectCols raw compasCols
  let days ← Dict.get df "days_b_screening_arrest"
  let jout ← Dict.get df "c_jail_out"
  let jin ← Dict.get df "c_jail_in"
  let stay ← fillMissing mode (List.zipWith cx.stay jout jin)
  let days ← fillMissing mode (days.map cx.absDays)
  let df := Dict.set df "length_of_stay" (stay.map cx.toInt)
  let df := Dict.set df "days_b_screening_arrest" (days.map cx.toInt)
  let dec ← Dict.get df "decile_score"
  let df := Dict.set df "class" (dec.map (fun v => if cx.lt7 v then cx.low else cx.high))
  let df ← delCols ["c_jail_in", "c_jail_out", "decile_score", "score_text"] df
  selectCols df (lastToFront (Dict.keys df))

/-- `load_compas` (datasets/_base.py:161-209). -/
def loadCompas (ops : CellOps K V) (ord : List String → List String) (scale : List V → List V) (dtype : String → DType) (cx : CompasOps V)
    (mode : List V → Py V) (raw : DF V) (normalize : Bool) : Py (Dataset V) := do
  let df ← compasFrame cx mode raw
  generateDataset ops ord scale dtype df (Dict.keys df) "class" ["is_recid", "is_violent_recid", "two_year_recid"] normalize

end Teacher
