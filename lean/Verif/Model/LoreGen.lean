import Verif.Model.RandomNb
import Verif.Model.Lore

/-!
# Model of `dataframe2explain` of `utils/util.py`, of the generation step of `neighbors/_lore_neighborhood.py` and of the remaining
functions of `neighbors/neighbor_generator.py`

The samplers of the library imblearn are parameters: `none` stands for a version whose class has no method `fit_sample` (it was removed in
favour of `fit_resample`).
-/

namespace Teacher

/-- `l[i]` for an integer: from the end if it is negative, `IndexError` out of range. -/
def pyItem {α : Type} (l : List α) (i : Int) : Py α :=
  match (if i < 0 then i + (l.length : Int) else i) with
  | .ofNat n => match l[n]? with
    | some a => .ok a
    | none => .error .indexError
  | .negSucc _ => .error .indexError

section
variable {R K V : Type} [Field K] [LinearOrder K] [LinearOrder V]

/-- `dataframe2explain` (utils/util.py:206-218): the record number `idx` and the DataFrame of all the records. -/
def dataframe2explain (ops : CellOps K V) (bb : List K → K) (X2E : List (List K)) (ds : Dataset V) (idx : Int) : Py (DF V × List K) := do
  let x ← pyItem X2E idx
  let df ← buildDf2explain ops bb X2E ds
  pure (df, x)

/-- `genetic_neighborhood_old` (neighbors/neighbor_generator.py:8-27). `fv` is the entry `'feature_values'` of the dataset, if it has one;
`gen` generates the data from these values. -/
def geneticNeighborhoodOld (ops : CellOps K V) (bb : List K → K) (gen : Dict Nat (List K) → R → Py (List (List K) × R))
    (fv : Option (Dict Nat (List K))) (ds : Dataset V) (r : R) : Py ((DF V × List (List K)) × R) :=
  match fv with
  | none => .error .keyError
  | some fv => do
    let _ ← pyRemove ds.discrete ds.className
    let (Z, r) ← gen fv r
    let df ← buildDf2explain ops bb Z ds
    pure ((df, Z), r)

/-- lines 91-103 of neighbors/_lore_neighborhood.py: the candidate values, the record to explain and the genetic neighbourhood. `ea fv x` are
the runs of the evolutionary algorithm for the values `fv` and the record `x`; `rnd` is `int(np.round(·))`. The proportions are those of
neighbors/neighbor_generator.py:45. -/
def loreGenerate (rng : GPRng R K) (std : List K → K) (distr : List K → Nat → Py (List K))
    (ea : Dict Nat (List K) → List K → NeigKind → Nat → R → Py ((List (List K × K) × List (List K × K)) × R)) (rnd : K → Int)
    (ops : CellOps K V) (argsort : List K → List Nat) (dist : Dict String V → Dict String V → Py K) (bb : List K → K)
    (bbV : List V → Bool) (X2E : List (List K)) (ds : Dataset V) (className : String) (size : Nat) (idx : Int) (r : R) :
    Py ((DF V × List (List K)) × R) := do
  let (fv, r) ← calculateFeatureValues rng std distr X2E ds.columns className ds.discrete ds.continuous size false false r
  let (dfZ, x) ← dataframe2explain ops bb X2E ds idx
  geneticNeighborhood ops argsort dist bb bbV (generateData (ea fv x) rnd [(.ss, 1 / 2), (.sd, 1 / 2)] (size : K)) dfZ x ds r

/-- `random_oversampling` (neighbors/neighbor_generator.py:169-176). `sampler` is `RandomOverSampler().fit_sample`, which gets the rows and
their classes. -/
def randomOversampling (sampler : Option (List (List K) → List K → R → Py (List (List K) × R))) (rng : GPRng R K) (std : List K → K)
    (ops : CellOps K V) (argsort : List K → List Nat) (dist : Dict String V → Dict String V → Py K) (bb : List K → K) (bbV : List V → Bool)
    (dfZ : DF V) (x : List K) (ds : Dataset V) (r : R) : Py ((DF V × List (List K)) × R) := do
  let (p, r) ← randomNeighborhood rng std ops argsort dist bb bbV dfZ x ds true r
  match sampler with
  | none => .error .attributeError
  | some f => do
    let (Z, r) ← f p.2 (p.2.map bb) r
    let df ← buildDf2explain ops bb Z ds
    pure ((df, Z), r)

/-- `random_instance_selection` (neighbors/neighbor_generator.py:179-186). `sampler` is
`CondensedNearestNeighbour(return_indices=True).fit_sample`: `none` for the versions without the argument `return_indices`, where the
constructor raises `TypeError`. -/
def randomInstanceSelection (sampler : Option (List (List K) → List K → R → Py (List (List K) × R))) (rng : GPRng R K) (std : List K → K)
    (ops : CellOps K V) (argsort : List K → List Nat) (dist : Dict String V → Dict String V → Py K) (bb : List K → K) (bbV : List V → Bool)
    (dfZ : DF V) (x : List K) (ds : Dataset V) (r : R) : Py ((DF V × List (List K)) × R) := do
  let (p, r) ← randomNeighborhood rng std ops argsort dist bb bbV dfZ x ds true r
  match sampler with
  | none => .error .typeError
  | some f => do
    let (Z, r) ← f p.2 (p.2.map bb) r
    let df ← buildDf2explain ops bb Z ds
    pure ((df, Z), r)

end

/-- a DataFrame as a list of rows. -/
def DF.toFrame {K : Type} (df : DF (Cell K)) : Frame K :=
  ⟨Dict.keys df, (List.range (DF.nrows df)).map (fun i => df.filterMap (fun p => p.2[i]?))⟩

section
variable {R K : Type} [Field K] [LinearOrder K] [LinearOrder (Cell K)]

/-- what `LoreNeighborhood.fit` uses of the dataset (neighbors/_lore_neighborhood.py:77-115). -/
def loreCtx (ds : Dataset (Cell K)) (className : String) (X2E : List (List K)) (toInt : K → Int) : LoreCtx K where
  columns := ds.columns
  className := className
  encoders := ds.encoders
  continuous := ds.continuous
  idxFeatures := ds.idxFeatures
  X2E := X2E
  toInt := toInt

/-- `LoreNeighborhood.fit` with its generation step (neighbors/_lore_neighborhood.py:77-115). The order of cells is only used by the
encoders made for data without them. -/
def loreFitFull (rng : GPRng R K) (std : List K → K) (distr : List K → Nat → Py (List K))
    (ea : Dict Nat (List K) → List K → NeigKind → Nat → R → Py ((List (List K × K) × List (List K × K)) × R)) (rnd : K → Int)
    (ops : CellOps K (Cell K)) (argsort : List K → List Nat) (dist : Dict String (Cell K) → Dict String (Cell K) → Py K)
    (bb : List K → Nat) (bbV : List (Cell K) → Bool) (X2E : List (List K)) (ds : Dataset (Cell K)) (className : String) (size : Nat)
    (idx : Int) (inst : List K) (fuel : Nat) (r : R) : Act (LState K) Unit :=
  loreFit (loreCtx ds className X2E ops.toInt) bb
    ((loreGenerate rng std distr ea rnd ops argsort dist (fun row => (bb row : K)) bbV X2E ds className size idx r).map
      (fun p => DF.toFrame p.1.1)) inst fuel

end

end Teacher
