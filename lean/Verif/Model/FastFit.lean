import Verif.Model.Neighborhood
import Verif.Model.Mixed

/-!
# Model of `SamplingNeighborhood.fit` with its generation methods

`Model/Sampling.lean` has the generation methods over an abstract table and `Model/Neighborhood.lean` has `fit` over an abstract sample; here the
object of the code is put together: the columns of `X2E`, the indices of the continuous and discrete features, the `'mixed'` distance and the
choice of the method by its name. The square root of the distance and the standard deviation are parameters; `draw`, `r` and `fuel` are as in
`Model/Sampling.lean`.
-/

namespace Teacher

/-- the attributes of a `SamplingNeighborhood` (neighbors/_sampling_neighborhood.py:28-66); `idxFeatures`, `continuous`, `discrete` and `outcomes`
(their number) belong to its dataset. -/
structure SampObj (K : Type) where
  ds : DsCtx K
  bb : List K → Nat
  inst : List K
  idxFeatures : Dict Nat String
  continuous : List String
  discrete : List String
  outcomes : Nat
  X2E : List (List K)
  size : Nat
  generation : String
  nr : NRange K
  std : List K → K

variable {K : Type}

/-- `cont_idx` (neighbors/_sampling_neighborhood.py:97). -/
def SampObj.contIdx (o : SampObj K) : List Nat := (o.idxFeatures.filter (fun p => p.2 ∈ o.continuous)).map Prod.fst

/-- `disc_idx` (neighbors/_sampling_neighborhood.py:98). -/
def SampObj.discIdx (o : SampObj K) : List Nat := (o.idxFeatures.filter (fun p => p.2 ∈ o.discrete)).map Prod.fst

/-- the rows of `X2E.T` (neighbors/_sampling_neighborhood.py:70), for a table with at least one row. -/
def tableCols (X : List (List K)) : List (List K) := (List.range (X.headD []).length).map (fun j => X.filterMap (fun r => r[j]?))

section
variable [Field K] [LinearOrder K]

/-- what `_generate_neighborhood_fast` reads (neighbors/_sampling_neighborhood.py:96-109). -/
def SampObj.ctx (sqrt : K → K) (o : SampObj K) : SampleCtx K where
  cols := tableCols o.X2E
  rows := o.X2E
  bb := o.bb
  n := o.outcomes
  cont := o.contIdx
  std := o.std
  nr := o.nr
  size := o.size
  inst := o.inst
  dist row := distanceNamed sqrt "mixed" (o.inst.map .num) (row.map .num) o.contIdx o.discIdx (fun _ => none)

/-- `NEIGH_GENERATION[self.neighbor_generation]()` (neighbors/_sampling_neighborhood.py:152-155, 165). -/
def SampObj.gen {R : Type} (draw : List K → R → Nat × R) (sqrt : K → K) (fuel : Nat) (r : R) (o : SampObj K) : Option (Py (List (List K))) :=
  if o.generation = "slow" then some generateSlow
  else if o.generation = "fast" then some (do
    let t ← generateFast draw (o.ctx sqrt) fuel r
    pure t.1)
  else none

/-- `SamplingNeighborhood.fit` (neighbors/_sampling_neighborhood.py:151-182). -/
def SampObj.fit {R : Type} (draw : List K → R → Nat × R) (sqrt : K → K) (fuel : Nat) (r : R) (o : SampObj K) : Act (NState K) Unit :=
  samplingFit o.ds o.bb (o.gen draw sqrt fuel r) o.inst

end

end Teacher
