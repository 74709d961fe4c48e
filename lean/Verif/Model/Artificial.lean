import Verif.Model.GP

/-!
# Model of `generate_artificial_features` (utils/util.py:122-181)

The arguments `columns`, `features_type`, `discrete` and `continuous` are changed in place: their final values are part of the result. The
rounding `np.round` is a parameter, and so are the draws. The strings of `'artificial_disc_%d' % i` are exact.
-/

namespace Teacher

variable {R K : Type} [Field K] [LinearOrder K]

/-- the random draws: the values of a new discrete feature (lines 134-135, 151) and of a new continuous one (lines 141-145, 162-165). Simplified:
in the code the numbers of values and the distributions are drawn before the data. -/
structure ArtRng (R K : Type) where
  disc : Nat → R → List K × R
  cont : Nat → R → List K × R

/-- the result, with the final values of the arguments. -/
structure ArtResult (K : Type) where
  columns : List String
  types : Dict String DType
  discrete : List String
  continuous : List String
  data : List (List K)
  newDiscrete : List String
  newContinuous : List String
  deriving DecidableEq

/-- the number of new discrete features (utils/util.py:127, 131): a negative number gives an empty `range`. -/
def numDisc (rnd : K → Int) (ratio : K) (discrete : List String) : Nat := (rnd (ratio * (discrete.length : K))).toNat

/-- the number of new continuous features (utils/util.py:126, 128). -/
def numCont (rnd : K → Int) (ratio : K) (columns discrete : List String) : Nat :=
  (max 0 (rnd (ratio * ((columns.length : K) - 1)) - rnd (ratio * (discrete.length : K)))).toNat

/-- the loop over the new discrete features (utils/util.py:149-157). -/
def discLoop (rng : ArtRng R K) (size : Nat) : List String → ArtResult K → R → ArtResult K × R
  | [], s, r => (s, r)
  | name :: l, s, r =>
    discLoop rng size l
      ⟨s.columns ++ [name], Dict.set s.types name .integer, s.discrete ++ [name], s.continuous, s.data ++ [(rng.disc size r).1],
        s.newDiscrete ++ [name], s.newContinuous⟩ (rng.disc size r).2

/-- the loop over the new continuous features (utils/util.py:159-171). -/
def contLoop (rng : ArtRng R K) (size : Nat) : List String → ArtResult K → R → ArtResult K × R
  | [], s, r => (s, r)
  | name :: l, s, r =>
    contLoop rng size l
      ⟨s.columns ++ [name], Dict.set s.types name .double, s.discrete, s.continuous ++ [name], s.data ++ [(rng.cont size r).1],
        s.newDiscrete, s.newContinuous ++ [name]⟩ (rng.cont size r).2

/-- `generate_artificial_features` (utils/util.py:122-181). `map(None)` without data raises `TypeError` (line 181). -/
def generateArtificial (rng : ArtRng R K) (rnd : K → Int) (size : Nat) (className : String) (columns : List String)
    (types : Dict String DType) (discrete continuous : List String) (ratio : K) (r : R) : Py (ArtResult K × R) := do
  let dnc ← pyRemove discrete className
  let discNames := (List.range (numDisc rnd ratio dnc)).map (fun i => "artificial_disc_" ++ toString i)
  let contNames := (List.range (numCont rnd ratio columns dnc)).map (fun i => "artificial_cont_" ++ toString i)
  let (s, r) := discLoop rng size discNames ⟨columns, types, discrete, continuous, [], [], []⟩ r
  let (s, r) := contLoop rng size contNames s r
  if s.data = [] then .error .typeError else pure (s, r)

/-- reading the first value returned, `map(list, map(None, *artificial_data))` (utils/util.py:181): the first element of the inner iterator
calls `None`, unless a column is empty. -/
def ArtResult.rows (s : ArtResult K) : Py (List (List K)) := if [] ∈ s.data then .ok [] else .error .typeError

end Teacher
