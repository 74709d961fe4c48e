import Verif.Model.Basic

/-!
# Model of `neighbors/genetic_algorithm.py`

Individuals are mutable Python lists: they live in a heap (`Heap`, a list of contents) and populations are lists of addresses, so
that the aliasing of individuals (the tournament returns the same object several times, `replacement` keeps objects of the old
population) and in-place assignments are explicit. Allocation appends to the heap.

Randomness: `Rng` is any type of states with any functions for `np.random.random()`, `np.random.choice(n, k)` and the generators of
the features; every seed, and every sequence of draws, is one such object.

Not modelled: individuals that are numpy arrays (their assignments convert types), a fitness function that changes its argument.
-/

namespace Teacher

/-- source of random draws: `random` is `np.random.random()`, `choice n k` is `np.random.choice(n, k)` and `gen i` is
`feature_values[i]()`. -/
structure Rng (R K V : Type) where
  random : R → K × R
  choice : Nat → Nat → R → List Nat × R
  gen : Nat → R → V × R

/-- contents of the individuals. -/
abbrev Heap (V : Type) := List (List V)

section
variable {R K V : Type}

/-- contents of the object at address `a` (every address in use is allocated: the error is unreachable). -/
def deref (h : Heap V) (a : Nat) : Py (List V) :=
  match h[a]? with
  | some l => .ok l
  | none => .error .attributeError

/-- `individual.copy()`: a new object. -/
def copyInd (h : Heap V) (a : Nat) : Py (Nat × Heap V) := do
  let l ← deref h a
  pure (h.length, h ++ [l])

/-- `individual[i]`. -/
def getItem (h : Heap V) (a i : Nat) : Py V := do
  let l ← deref h a
  match l[i]? with
  | some x => .ok x
  | none => .error .indexError

/-- `individual[i] = x`. -/
def setItem (h : Heap V) (a i : Nat) (x : V) : Py (Heap V) := do
  let l ← deref h a
  if i < l.length then pure (h.set a (l.set i x)) else .error .indexError

/-- the loop of `random_init` (neighbors/genetic_algorithm.py:26-29); the values are appended in the order of the keys. -/
def randomInitLoop (rng : Rng R K V) : List Nat → R → List V × R
  | [], r => ([], r)
  | f :: fs, r =>
    let (v, r) := rng.gen f r
    let (vs, r) := randomInitLoop rng fs r
    (v :: vs, r)

/-- `random_init` (neighbors/genetic_algorithm.py:24-30); `features` are the keys of `feature_values`, in order. -/
def randomInit (rng : Rng R K V) (features : List Nat) (h : Heap V) (r : R) : Nat × Heap V × R :=
  let (l, r) := randomInitLoop rng features r
  (h.length, h ++ [l], r)

variable [LinearOrder K]

/-- the loop of `informed_init` (neighbors/genetic_algorithm.py:35-39) on the object `a`. -/
def mutateLoop (rng : Rng R K V) (prob : K) (a : Nat) : List Nat → Heap V → R → Py (Heap V × R)
  | [], h, r => .ok (h, r)
  | f :: fs, h, r =>
    let (u, r) := rng.random r
    if u < prob then do
      let (v, r) := rng.gen f r
      let h ← setItem h a f v
      mutateLoop rng prob a fs h r
    else mutateLoop rng prob a fs h r

/-- `informed_init` (neighbors/genetic_algorithm.py:33-40). -/
def informedInit (rng : Rng R K V) (features : List Nat) (original : Nat) (prob : K) (h : Heap V) (r : R) :
    Py (Nat × Heap V × R) := do
  let (a, h) ← copyInd h original
  let (h, r) ← mutateLoop rng prob a features h r
  pure (a, h, r)

/-- the loop of `uniform_crossover` (neighbors/genetic_algorithm.py:47-50). -/
def crossLoop (rng : Rng R K V) (prob : K) (first second newFirst newSecond : Nat) :
    List Nat → Heap V → R → Py (Heap V × R)
  | [], h, r => .ok (h, r)
  | i :: is, h, r =>
    let (u, r) := rng.random r
    if u < prob then do
      let x ← getItem h second i
      let h ← setItem h newFirst i x
      let y ← getItem h first i
      let h ← setItem h newSecond i y
      crossLoop rng prob first second newFirst newSecond is h r
    else crossLoop rng prob first second newFirst newSecond is h r

/-- `uniform_crossover` (neighbors/genetic_algorithm.py:43-52). -/
def uniformCrossover (rng : Rng R K V) (first second : Nat) (prob : K) (h : Heap V) (r : R) :
    Py ((Nat × Nat) × Heap V × R) := do
  let (a, h) ← copyInd h first
  let (b, h) ← copyInd h second
  let l ← deref h first
  let (h, r) ← crossLoop rng prob first second a b (List.range l.length) h r
  pure ((a, b), h, r)

/-- `(population[i], fitness_function(population[i]))` (neighbors/genetic_algorithm.py:59). -/
def candidate (fitness : List V → K) (h : Heap V) (pop : List Nat) (i : Nat) : Py (Nat × K) :=
  match pop[i]? with
  | none => .error .indexError
  | some a => do
    let l ← deref h a
    pure (a, fitness l)

/-- the loop of `tournament_selection` (neighbors/genetic_algorithm.py:57-60), `n` more iterations. -/
def tournamentLoop (rng : Rng R K V) (fitness : List V → K) (h : Heap V) (pop : List Nat) (k : Nat) : Nat → R → Py (List Nat × R)
  | 0, r => .ok ([], r)
  | n + 1, r => do
    let (idx, r) := rng.choice pop.length k r
    let cands ← idx.mapM (candidate fitness h pop)
    let best ← pyMax Prod.snd cands
    let (rest, r) ← tournamentLoop rng fitness h pop k n r
    pure (best.1 :: rest, r)

/-- `tournament_selection` (neighbors/genetic_algorithm.py:55-62). -/
def tournamentSelection (rng : Rng R K V) (fitness : List V → K) (h : Heap V) (pop : List Nat) (k : Nat) (r : R) :
    Py (List Nat × R) :=
  tournamentLoop rng fitness h pop k pop.length r

/-- `replacement` (neighbors/genetic_algorithm.py:65-68): stable sort by decreasing fitness, then a slice. -/
def replacement (fitness : List V → K) (h : Heap V) (old new : List Nat) : Py (List Nat) := do
  let big := old ++ new
  let keys ← big.mapM (fun a => do let l ← deref h a; pure (fitness l))
  pure ((((big.zip keys).insertionSort (fun a b => b.2 ≤ a.2)).map Prod.fst).take old.length)

/-- the crossover loop of a round (neighbors/genetic_algorithm.py:79-83) from position `i` on, `n` more iterations. -/
def crossPhase (rng : Rng R K V) (cxProb crossProb : K) : Nat → Nat → List Nat → Heap V → R → Py (List Nat × Heap V × R)
  | 0, _, pop, h, r => .ok (pop, h, r)
  | n + 1, i, pop, h, r =>
    let (u, r) := rng.random r
    if u < crossProb then
      match pop[i]?, pop[i+1]? with
      | some a, some b => do
        let ((a', b'), h, r) ← uniformCrossover rng a b cxProb h r
        crossPhase rng cxProb crossProb n (i + 1) ((pop.set i a').set (i + 1) b') h r
      | _, _ => .error .indexError
    else crossPhase rng cxProb crossProb n (i + 1) pop h r

/-- the mutation loop of a round (neighbors/genetic_algorithm.py:86-89) from position `i` on, `n` more iterations. -/
def mutPhase (rng : Rng R K V) (features : List Nat) (mutProb mutExtProb : K) :
    Nat → Nat → List Nat → Heap V → R → Py (List Nat × Heap V × R)
  | 0, _, pop, h, r => .ok (pop, h, r)
  | n + 1, i, pop, h, r =>
    let (u, r) := rng.random r
    if u < mutExtProb then
      match pop[i]? with
      | some a => do
        let (a', h, r) ← informedInit rng features a mutProb h r
        mutPhase rng features mutProb mutExtProb n (i + 1) (pop.set i a') h r
      | none => .error .indexError
    else mutPhase rng features mutProb mutExtProb n (i + 1) pop h r

/-- the parameters of `genetic_algorithm` (neighbors/genetic_algorithm.py:71-72). -/
structure GAParams (K V : Type) where
  cxProb : K
  crossProb : K
  mutProb : K
  mutExtProb : K
  features : List Nat
  tournamentK : Nat
  fitness : List V → K

/-- one round (neighbors/genetic_algorithm.py:74-93). -/
def gaRound (rng : Rng R K V) (p : GAParams K V) (pop : List Nat) (h : Heap V) (r : R) : Py (List Nat × Heap V × R) := do
  let (new, r) ← tournamentSelection rng p.fitness h pop p.tournamentK r
  let (new, h, r) ← crossPhase rng p.cxProb p.crossProb (new.length - 1) 0 new h r
  let (new, h, r) ← mutPhase rng p.features p.mutProb p.mutExtProb new.length 0 new h r
  let pop ← replacement p.fitness h pop new
  pure (pop, h, r)

/-- `genetic_algorithm` (neighbors/genetic_algorithm.py:71-95). -/
def geneticAlgorithm (rng : Rng R K V) (p : GAParams K V) : Nat → List Nat → Heap V → R → Py (List Nat × Heap V × R)
  | 0, pop, h, r => .ok (pop, h, r)
  | rounds + 1, pop, h, r => do
    let (pop, h, r) ← gaRound rng p pop h r
    geneticAlgorithm rng p rounds pop h r

end

/-! ## `get_feature_values` -/

/-- a generator of `get_feature_values` (neighbors/genetic_algorithm.py:11-17): a normal distribution for a numeric column, a choice
of an observed value for a categorical one. -/
inductive Gen (K : Type) where
  | normal (mean std : K)
  | choice (values : List String)
  deriving DecidableEq, Repr

/-- a column of a DataFrame. -/
inductive Column (K : Type) where
  | numeric (xs : List K)
  | object (xs : List String)
  deriving DecidableEq, Repr

/-- `dataset[col].mean()` (`nan` for an empty column). -/
def pdMean {K : Type} [Field K] [LinearOrder K] (xs : List K) : K := xs.sum / (xs.length : K)

/-- one column of `get_feature_values` (neighbors/genetic_algorithm.py:11-17); `std` is `Series.std` (it has a square root). -/
def columnGen {K : Type} [Field K] [LinearOrder K] (std : List K → K) : Column K → Gen K
  | .numeric xs => .normal (pdMean xs) (std xs)
  | .object xs => .choice xs.dedup

/-- `get_feature_values` (neighbors/genetic_algorithm.py:5-21). -/
def getFeatureValues {K : Type} [Field K] [LinearOrder K] (std : List K → K) (ds : List (Column K)) : Dict Nat (Gen K) :=
  (ds.map (columnGen std)).zipIdx.map (fun p => (p.2, p.1))

/-- `gen_function()`: `normal` and `pick` are numpy's `random.normal` and the index drawn by `random.choice`. A choice from no
value (a `ValueError`) cannot happen for a column of a non-empty dataset; it is the default here. -/
def runGen {R K : Type} (normal : K → K → R → K × R) (pick : Nat → R → Nat × R) (g : Gen K) (r : R) : Cell K × R :=
  match g with
  | .normal m s => let (x, r) := normal m s r; (.num x, r)
  | .choice vs => let (i, r) := pick vs.length r; (.str (vs.getD i ""), r)

/-- the source of draws of `genetic_algorithm` with the generators of `get_feature_values`. -/
def tableRng {R K : Type} (random : R → K × R) (choice : Nat → Nat → R → List Nat × R) (normal : K → K → R → K × R)
    (pick : Nat → R → Nat × R) (fv : Dict Nat (Gen K)) : Rng R K (Cell K) where
  random := random
  choice := choice
  gen i r := match Dict.get? fv i with
    | some g => runGen normal pick g r
    | none => (.str "", r)

end Teacher
