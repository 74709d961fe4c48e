import Verif.Model.GP

/-!
# Model of `random_neighborhood` of `neighbors/neighbor_generator.py`

As in `Model/GP`: `dist` is the distance between records, `bb` the black box on rows of numbers, `bbV` whether its prediction for an encoded
row is 0.
-/

namespace Teacher

variable {R K V : Type} [Field K] [LinearOrder K] [LinearOrder V]

/-- the rows from which the random records are made: the nearest ones if `stratified` (neighbors/neighbor_generator.py:117-122), all of them
otherwise (lines 130-131). -/
def randomBase (ops : CellOps K V) (argsort : List K → List Nat) (dist : Dict String V → Dict String V → Py K) (bb : List K → K)
    (bbV : List V → Bool) (dfZ : DF V) (x : List K) (ds : Dataset V) (stratified : Bool) : Py (List (List K)) :=
  if stratified then do
    let dfx ← buildDf2explain ops bb [x] ds
    let idx ← getClosestDiff ops argsort (dist (DF.record dfx 0)) bbV dfZ ds.discrete ds.className ds.encoders 100 (1 / 10)
    let enc ← encodeWith ops ds.encoders ds.discrete dfZ
    (idx.filterMap (fun i => (DF.rowsWithout enc ds.className)[i]?)).mapM (rowNums ops)
  else do
    let enc ← encodeWith ops ds.encoders ds.discrete dfZ
    (DF.rowsWithout enc ds.className).mapM (rowNums ops)

/-- `random_neighborhood` (neighbors/neighbor_generator.py:102-135). -/
def randomNeighborhood (rng : GPRng R K) (std : List K → K) (ops : CellOps K V) (argsort : List K → List Nat)
    (dist : Dict String V → Dict String V → Py K) (bb : List K → K) (bbV : List V → Bool) (dfZ : DF V) (x : List K) (ds : Dataset V)
    (stratified : Bool) (r : R) : Py ((DF V × List (List K)) × R) := do
  let base ← randomBase ops argsort dist bb bbV dfZ x ds stratified
  let (Z, r) ← generateRandomData rng std ops.toInt ds.types base ds.className ds.columns ds.discrete ds.continuous 1000 r
  let df ← buildDf2explain ops bb Z ds
  pure ((df, Z), r)

end Teacher
