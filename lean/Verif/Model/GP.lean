import Verif.Model.Utils

/-!
# Model of `neighbors/gpdatagenerator.py` and `neighbors/neighbor_generator.py`

The records are rows of numbers (the data are label encoded). Random numbers come from an abstract generator with state `R`. The
evolutionary algorithm of the library deap (`fit`, gpdatagenerator.py:128-143) is a parameter that returns the final population and the
hall of fame with their fitness; its hypotheses are in the theorems (`Spec.DeapRun`). The function `get_distr_values` (scipy.stats) is a
parameter too.
-/

namespace Teacher

/-- the random functions of numpy: `random()`, the index of `choice(values, 1)`, `normal(mu, sigma, size)`, `choice(values, size)` and
`choice(values, size, p=prob)`. -/
structure GPRng (R K : Type) where
  random : R → K × R
  pick : Nat → R → Nat × R
  normals : K → K → Nat → R → List K × R
  choices : List K → Nat → R → List K × R
  choicesP : List K → List K → Nat → R → List K × R

section
variable {R K : Type} [Field K] [LinearOrder K]

/-- `np.random.choice(values, 1)[0]`: `ValueError` for no values. -/
def choice1 (rng : GPRng R K) (values : List K) (r : R) : Py (K × R) :=
  match values[(rng.pick values.length r).1]? with
  | some v => .ok (v, (rng.pick values.length r).2)
  | none => .error .valueError

/-- `random_init` (neighbors/gpdatagenerator.py:15-21): a value of each feature, in the order of the dict. -/
def gpRandomInit (rng : GPRng R K) : Dict Nat (List K) → R → Py (List K × R)
  | [], r => .ok ([], r)
  | p :: fv, r => do
    let (v, r) ← choice1 rng p.2 r
    let (l, r) ← gpRandomInit rng fv r
    pure (v :: l, r)

/-- one gene of `mutate` (neighbors/gpdatagenerator.py:31-34). -/
def mutateGene (rng : GPRng R K) (indpb : K) (values : List K) (g : K) (r : R) : Py (K × R) :=
  if (rng.random r).1 ≤ indpb then choice1 rng values (rng.random r).2 else .ok (g, (rng.random r).2)

/-- the loop of `mutate` from gene number `i` (neighbors/gpdatagenerator.py:30-34). -/
def mutateFrom (rng : GPRng R K) (fv : Dict Nat (List K)) (indpb : K) : Nat → List K → R → Py (List K × R)
  | _, [], r => .ok ([], r)
  | i, g :: gs, r => do
    let values ← Dict.get fv i
    let (g', r) ← mutateGene rng indpb values g r
    let (l, r) ← mutateFrom rng fv indpb (i + 1) gs r
    pure (g' :: l, r)

/-- `mutate` (neighbors/gpdatagenerator.py:28-35): the argument is not changed (it is cloned first). -/
def gpMutate (rng : GPRng R K) (fv : Dict Nat (List K)) (indpb : K) (ind : List K) (r : R) : Py (List K × R) :=
  mutateFrom rng fv indpb 0 ind r

/-! ## fitness -/

/-- `{idx_features[i]: val for i, val in enumerate(x)}` (neighbors/gpdatagenerator.py:40-41). -/
def asRecord (idx : Dict Nat String) (x : List K) : Py (Dict String K) := do
  let l ← x.zipIdx.mapM (fun p => do
    let name ← Dict.get idx p.2
    pure (name, p.1))
  pure (Dict.ofPairs l)

/-- the similarity of two records (neighbors/gpdatagenerator.py:40-44). -/
def simRatio (dist : Dict String K → Dict String K → Py K) (idx : Dict Nat String) (x0 x1 : List K) : Py K := do
  let x0d ← asRecord idx x0
  let x1d ← asRecord idx x1
  let d ← dist x0d x1d
  pure (1 - d)

variable {C : Type} [DecidableEq C]

/-- `fitness_sso` (neighbors/gpdatagenerator.py:38-52). -/
def fitnessSSO (bb : List K → C) (alpha1 alpha2 eta : K) (dist : Dict String K → Dict String K → Py K) (idx : Dict Nat String)
    (x0 x1 : List K) : Py K := do
  let s ← simRatio dist idx x0 x1
  pure (alpha1 * (if eta ≤ s then 0 else s) + alpha2 * (if bb x0 = bb x1 then 1 else 0))

/-- `fitness_sdo` (neighbors/gpdatagenerator.py:55-69). -/
def fitnessSDO (bb : List K → C) (alpha1 alpha2 eta : K) (dist : Dict String K → Dict String K → Py K) (idx : Dict Nat String)
    (x0 x1 : List K) : Py K := do
  let s ← simRatio dist idx x0 x1
  pure (alpha1 * (if eta ≤ s then 0 else s) + alpha2 * (if bb x0 ≠ bb x1 then 1 else 0))

/-- `fitness_dso` (neighbors/gpdatagenerator.py:72-86). -/
def fitnessDSO (bb : List K → C) (alpha1 alpha2 eta : K) (dist : Dict String K → Dict String K → Py K) (idx : Dict Nat String)
    (x0 x1 : List K) : Py K := do
  let s ← simRatio dist idx x0 x1
  pure (alpha1 * (if s ≤ eta then 0 else 1 - s) + alpha2 * (if bb x0 = bb x1 then 1 else 0))

/-- `fitness_ddo` (neighbors/gpdatagenerator.py:89-103). -/
def fitnessDDO (bb : List K → C) (alpha1 alpha2 eta : K) (dist : Dict String K → Dict String K → Py K) (idx : Dict Nat String)
    (x0 x1 : List K) : Py K := do
  let s ← simRatio dist idx x0 x1
  pure (alpha1 * (if s ≤ eta then 0 else 1 - s) + alpha2 * (if bb x0 ≠ bb x1 then 1 else 0))

/-! ## the records of high fitness -/

/-- the differences of consecutive values (neighbors/gpdatagenerator.py:149). -/
def gaps : List K → List K
  | a :: b :: l => (b - a) :: gaps (b :: l)
  | _ => []

/-- the threshold of `get_oversample` (neighbors/gpdatagenerator.py:147-152): the value below the last of the largest gaps;
`ValueError` for fewer than two individuals. -/
def fitnessThreshold (fitness : List K) : Py K := do
  let sorted := fitness.insertionSort (· ≤ ·)
  let d := gaps sorted
  let m ← match d with
    | [] => .error .valueError
    | a :: l => .ok (l.foldl max a)
  let index := ((d.zipIdx.filter (fun p => p.1 = m)).map Prod.snd).foldl max 0
  match sorted[index]? with
  | some t => .ok t
  | none => .error .indexError

/-- `get_oversample` (neighbors/gpdatagenerator.py:146-164); an individual is given with its fitness. -/
def getOversample (population halloffame : List (List K × K)) : Py (List (List K)) := do
  let thr ← fitnessThreshold (population.map Prod.snd)
  pure (((population.filter (fun p => thr < p.2)) ++ (halloffame.filter (fun p => thr < p.2))).map Prod.fst)

/-- the four kinds of neighbours. -/
inductive NeigKind where
  | ss
  | sd
  | ds
  | dd
  deriving DecidableEq, Repr

/-- one of the four blocks of `generate_data` (neighbors/gpdatagenerator.py:181-231); `ea kind size` is `fit` on the toolbox of this
kind. -/
def gpBlock (ea : NeigKind → Nat → R → Py ((List (List K × K) × List (List K × K)) × R)) (kind : NeigKind) (size : Int)
    (acc : List (List (List K))) (r : R) : Py (List (List (List K)) × R) :=
  if 0 < size then do
    let (p, r) ← ea kind size.toNat r
    let o ← getOversample p.1 p.2
    if o = [] then pure (acc, r) else pure (acc ++ [o], r)
  else pure (acc, r)

/-- `generate_data` (neighbors/gpdatagenerator.py:167-238). `neigtype` gives the proportions (`'all'` is a quarter of each), `rnd` is
`int(np.round(·))`. `np.concatenate` of no arrays raises `ValueError`. -/
def generateData (ea : NeigKind → Nat → R → Py ((List (List K × K) × List (List K × K)) × R)) (rnd : K → Int)
    (neigtype : Dict NeigKind K) (populationSize : K) (r : R) : Py (List (List K) × R) := do
  let size := fun k => rnd (populationSize * (Dict.get? neigtype k).getD 0)
  let (acc, r) ← gpBlock ea .ss (size .ss) [] r
  let (acc, r) ← gpBlock ea .sd (size .sd) acc r
  let (acc, r) ← gpBlock ea .ds (size .ds) acc r
  let (acc, r) ← gpBlock ea .dd (size .dd) acc r
  if acc = [] then .error .valueError else pure (acc.flatten, r)

/-! ## candidate values -/

/-- the values for one column of `calculate_feature_values` (neighbors/gpdatagenerator.py:250-267); `prev` is the variable `new_values`
left by the previous column: a column in neither list keeps it, or raises `UnboundLocalError` if it is the first. -/
def featureColumn (rng : GPRng R K) (std : List K → K) (distr : List K → Nat → Py (List K)) (col : String)
    (discrete continuous : List String) (size : Nat) (useProb estim : Bool) (values : List K) (prev : Option (List K)) (r : R) :
    Py (List K × R) :=
  if col ∈ discrete then
    if useProb then
      let u := npUnique values
      let prob := u.map (fun v => (values.count v : K) / (values.length : K))
      .ok (values ++ (rng.choicesP u prob size r).1, (rng.choicesP u prob size r).2)
    else .ok (npUnique values, r)
  else if col ∈ continuous then
    if estim then do
      let d ← distr values size
      pure (values ++ d, r)
    else
      let mu := values.sum / (values.length : K)
      .ok (values ++ (rng.normals mu (std values) size r).1, (rng.normals mu (std values) size r).2)
  else
    match prev with
    | some v => .ok (v, r)
    | none => .error .unboundLocal

/-- the loop of `calculate_feature_values` (neighbors/gpdatagenerator.py:249-269). -/
def featureLoop (rng : GPRng R K) (std : List K → K) (distr : List K → Nat → Py (List K)) (X : List (List K))
    (discrete continuous : List String) (size : Nat) (useProb estim : Bool) :
    List (String × Nat) → Option (List K) → R → Py (Dict Nat (List K) × R)
  | [], _, r => .ok ([], r)
  | p :: ps, prev, r => do
    let values ← column X p.2
    let (v, r) ← featureColumn rng std distr p.1 discrete continuous size useProb estim values prev r
    let (l, r) ← featureLoop rng std distr X discrete continuous size useProb estim ps (some v) r
    pure ((p.2, v) :: l, r)

/-- `calculate_feature_values` (neighbors/gpdatagenerator.py:241-271). -/
def calculateFeatureValues (rng : GPRng R K) (std : List K → K) (distr : List K → Nat → Py (List K)) (X : List (List K))
    (columns : List String) (className : String) (discrete continuous : List String) (size : Nat) (useProb estim : Bool) (r : R) :
    Py (Dict Nat (List K) × R) := do
  let columns1 ← pyRemove columns className
  featureLoop rng std distr X discrete continuous size useProb estim columns1.zipIdx none r

/-! ## random data -/

/-- the new values of one column of `generate_random_data` before the conversion to integers (neighbors/neighbor_generator.py:145-159).
The list of probabilities is given to `np.random.choice` in the position of `replace`: the draws are uniform whatever the argument
`uniform`. A column in neither list keeps the values of the previous one, already converted. -/
def randomValues (rng : GPRng R K) (std : List K → K) (col : String) (discrete continuous : List String) (size : Nat)
    (values : List K) (prev : Option (List K)) (r : R) : Py (List K × R) :=
  if col ∈ discrete then .ok (rng.choices (npUnique values) size r)
  else if col ∈ continuous then
    if std values ≤ 0 then
      match values with
      | [] => .error .indexError
      | a :: _ => .ok (List.replicate size a, r)
    else .ok (rng.normals (values.sum / (values.length : K)) (std values) size r)
  else
    match prev with
    | some v => .ok (v, r)
    | none => .error .unboundLocal

/-- the new values of one column of `generate_random_data` (neighbors/neighbor_generator.py:145-161). `toInt` is the conversion to
integers. -/
def randomColumn (rng : GPRng R K) (std : List K → K) (toInt : K → Int) (types : Dict String DType) (col : String)
    (discrete continuous : List String) (size : Nat) (values : List K) (prev : Option (List K)) (r : R) : Py (List K × R) := do
  let (v, r) ← randomValues rng std col discrete continuous size values prev r
  let t ← Dict.get types col
  pure (if t = .integer then v.map (fun x => ((toInt x : Int) : K)) else v, r)

/-- the loop of `generate_random_data` (neighbors/neighbor_generator.py:144-162). -/
def randomLoop (rng : GPRng R K) (std : List K → K) (toInt : K → Int) (types : Dict String DType) (X : List (List K))
    (discrete continuous : List String) (size : Nat) : List (String × Nat) → Option (List K) → R → Py (List (List K) × R)
  | [], _, r => .ok ([], r)
  | p :: ps, prev, r => do
    let values ← column X p.2
    let (v, r) ← randomColumn rng std toInt types p.1 discrete continuous size values prev r
    let (l, r) ← randomLoop rng std toInt types X discrete continuous size ps (some v) r
    pure (v :: l, r)

/-- `np.column_stack(cols)`: row `i` has element `i` of every column. -/
def columnStack (n : Nat) (cols : List (List K)) : List (List K) := (List.range n).map (fun i => cols.filterMap (fun c => c[i]?))

/-- `generate_random_data` (neighbors/neighbor_generator.py:138-166) on an array `X`. -/
def generateRandomData (rng : GPRng R K) (std : List K → K) (toInt : K → Int) (types : Dict String DType) (X : List (List K))
    (className : String) (columns discrete continuous : List String) (size : Nat) (r : R) : Py (List (List K) × R) := do
  let columns1 ← pyRemove columns className
  let (cols, r) ← randomLoop rng std toInt types X discrete continuous size columns1.zipIdx none r
  if cols = [] then .error .valueError else pure (X ++ columnStack size cols, r)

/-! ## the neighbourhoods -/

variable {V : Type} [LinearOrder V]

/-- `genetic_neighborhood` (neighbors/neighbor_generator.py:30-63). `gen` are the generated data; `dist` the distance to the explained
record; `bb` the black box on rows of numbers (the encoded rows of cells are read with `toRow`). With a single predicted class, line 59
reads the attribute `columns` of an array. -/
def geneticNeighborhood (ops : CellOps K V) (argsort : List K → List Nat) (dist : Dict String V → Dict String V → Py K)
    (bb : List K → K) (bbV : List V → Bool) (gen : R → Py (List (List K) × R)) (dfZ : DF V) (x : List K) (ds : Dataset V) (r : R) :
    Py ((DF V × List (List K)) × R) := do
  let _ ← pyRemove ds.discrete ds.className
  let (Z, r) ← gen r
  if (npUnique (Z.map bb)).length = 1 then do
    let dfx ← buildDf2explain ops bb [x] ds
    let _ ← getClosestDiff ops argsort (dist (DF.record dfx 0)) bbV dfZ ds.discrete ds.className ds.encoders 100 (1 / 10)
    let _ ← labelEncode ops dfZ ds.discrete (some ds.encoders)
    .error .attributeError
  else do
    let df ← buildDf2explain ops bb Z ds
    pure ((df, Z), r)

/-- a row of cells as numbers, for the black box. -/
def rowNums (ops : CellOps K V) (row : List V) : Py (List K) :=
  row.mapM (fun v => match ops.toNum v with
    | some x => .ok x
    | none => .error .valueError)

/-- `real_data` (neighbors/neighbor_generator.py:66-76). -/
def realData (ops : CellOps K V) (bb : List K → K) (dfZ : DF V) (ds : Dataset V) :
    Py (DF V × List (List K)) := do
  let enc ← encodeWith ops ds.encoders ds.discrete dfZ
  let Z ← (DF.rowsWithout enc ds.className).mapM (rowNums ops)
  let df ← buildDf2explain ops bb Z ds
  pure (df, Z)

/-- `closed_real_data` (neighbors/neighbor_generator.py:79-99): the rows of the nearest records. -/
def closedRealData (ops : CellOps K V) (argsort : List K → List Nat) (dist : Dict String V → Dict String V → Py K)
    (bb : List K → K) (bbV : List V → Bool) (dfZ : DF V) (x : List K) (ds : Dataset V) :
    Py (DF V × List (List K)) := do
  let dfx ← buildDf2explain ops bb [x] ds
  let idx ← getClosestDiff ops argsort (dist (DF.record dfx 0)) bbV dfZ ds.discrete ds.className ds.encoders 100 (1 / 10)
  let enc ← encodeWith ops ds.encoders ds.discrete dfZ
  let Z ← (idx.filterMap (fun i => (DF.rowsWithout enc ds.className)[i]?)).mapM (rowNums ops)
  let df ← buildDf2explain ops bb Z ds
  pure (df, Z)

end

end Teacher
