import Verif.Model.Metrics
import Verif.Model.Discretize

/-!
# Model of `neighbors/_sampling_neighborhood.py`

The training data `X2E` is a label-encoded table of numbers given by its columns. The black box is any function of a row (its classes
are naturals, as encoded by the `LabelEncoder` of the class). Random draws: `draw p` is the index chosen by
`np.random.choice(values, p=p)`, for any type of generator states.

Parameters standing for code outside this repository: `std` (`numpy` standard deviation, which has a square root), `dist` (the
`'mixed'` distance, made of scipy's euclidean and jaccard distances), `toInt` (conversion of a float to an integer).
-/

namespace Teacher

/-- the argument `neighbor_range` (neighbors/_sampling_neighborhood.py:56-59): the string `'std'`, a float, or anything else (an
integer, another string). -/
inductive NRange (K : Type) where
  | std
  | float (x : K)
  | other
  deriving DecidableEq, Repr

section
variable {K : Type} [Field K] [LinearOrder K]

/-- `col_range` (neighbors/_sampling_neighborhood.py:72-78). -/
def colRange (std : List K → K) (nr : NRange K) (col : List K) : Py K :=
  match nr with
  | .std => .ok (std col)
  | .float f =>
    if 0 < f ∧ f < 1 then do
      let hi ← npMax col
      let lo ← npMin col
      pure ((hi - lo) * f)
    else .error .valueError
  | .other => .error .valueError

/-- `dists` (neighbors/_sampling_neighborhood.py:80-81 and 84-85): the frequencies of the values, divided by their sum. -/
def freqs (col vals : List K) : List K :=
  let d : List Nat := vals.map (fun v => col.count v)
  d.map (fun (c : Nat) => (c : K) / ((d.sum : Nat) : K))

/-- the values of a continuous column (neighbors/_sampling_neighborhood.py:79). `instance[i]` is read for each value of the column
only: no error if there is none. -/
def valsInRange (inst : List K) (i : Nat) (w : K) (col : List K) : Py (List K) :=
  match npUnique col, inst[i]? with
  | [], _ => .ok []
  | _, none => .error .indexError
  | vs, some x => .ok (vs.filter (fun v => v < x + w ∧ v > x - w))

/-- one iteration of the loop of `_generate_prob_dist` (neighbors/_sampling_neighborhood.py:70-86). -/
def colDist (std : List K → K) (nr : NRange K) (inst : List K) (cont : List Nat) (p : List K × Nat) : Py (List K × List K) :=
  if p.2 ∈ cont then do
    let w ← colRange std nr p.1
    let vals ← valsInRange inst p.2 w p.1
    pure (vals, freqs p.1 vals)
  else pure (npUnique p.1, freqs p.1 (npUnique p.1))

/-- `_generate_prob_dist(instance, cont_idx)` (neighbors/_sampling_neighborhood.py:68-88): a dict with the keys `0, 1, …`, that is, a
list. -/
def probDist (std : List K → K) (nr : NRange K) (cols : List (List K)) (inst : List K) (cont : List Nat) :
    Py (List (List K × List K)) :=
  cols.zipIdx.mapM (colDist std nr inst cont)

/-- `np.random.choice(vals, p=dists)`: `ValueError` if there are no values. -/
def drawVal {R : Type} (draw : List K → R → Nat × R) (d : List K × List K) (r : R) : Py (K × R) :=
  if d.1 = [] then .error .valueError
  else
    match d.1[(draw d.2 r).1]? with
    | some x => .ok (x, (draw d.2 r).2)
    | none => .error .indexError

/-- `_get_instance_from_prob_dist` (neighbors/_sampling_neighborhood.py:90-94). -/
def sampleRow {R : Type} (draw : List K → R → Nat × R) : List (List K × List K) → R → Py (List K × R)
  | [], r => .ok ([], r)
  | d :: ds, r => do
    let (x, r) ← drawVal draw d r
    let (xs, r) ← sampleRow draw ds r
    pure (x :: xs, r)

/-- acceptance of a candidate (neighbors/_sampling_neighborhood.py:117-120 and 122-125). The state is `class_values` and
`neighborhood`. -/
def tryAdd (bb : List K → Nat) (size : Nat) (row : List K) (s : Dict Nat Nat × List (List K)) : Py (Dict Nat Nat × List (List K)) := do
  let c ← Dict.get s.1 (bb row)
  if (c : K) < (size : K) / (s.1.length : K) then pure (s.1.set (bb row) (c + 1), s.2 ++ [row]) else pure s

/-- one iteration of the `while` (neighbors/_sampling_neighborhood.py:113-125). -/
def fastStep {R : Type} (draw : List K → R → Nat × R) (bb : List K → Nat) (size : Nat) (pd cpd : List (List K × List K))
    (s : Dict Nat Nat × List (List K)) (r : R) : Py ((Dict Nat Nat × List (List K)) × R) := do
  let (a, r) ← sampleRow draw pd r
  let (b, r) ← sampleRow draw cpd r
  let s ← tryAdd bb size a s
  let s ← tryAdd bb size b s
  pure (s, r)

/-- the `while` loop (neighbors/_sampling_neighborhood.py:112-127), also returning the number of iterations; `fuel` bounds the
number of iterations (`PyErr.fuel`). -/
def fastLoop {R : Type} (draw : List K → R → Nat × R) (bb : List K → Nat) (size : Nat) (pd cpd : List (List K × List K)) :
    Nat → Nat → Dict Nat Nat × List (List K) → R → Py (List (List K) × Nat × R)
  | 0, _, _, _ => .error .fuel
  | fuel + 1, tries, s, r =>
    if s.2.length < size then do
      let (s, r) ← fastStep draw bb size pd cpd s r
      if tries + 1 > size * 100 then pure (s.2, tries + 1, r)
      else fastLoop draw bb size pd cpd fuel (tries + 1) s r
    else .ok (s.2, tries, r)

/-- `class_values = {i: 0 for i in range(n)}` (neighbors/_sampling_neighborhood.py:109). -/
def zeroCounts (n : Nat) : Dict Nat Nat := (List.range n).map (fun i => (i, 0))

/-- everything the sampling neighborhood reads: `X2E` by columns and by rows, the black box, the number of possible outcomes, the
continuous columns, the distance to the instance. -/
structure SampleCtx (K : Type) where
  cols : List (List K)
  rows : List (List K)
  bb : List K → Nat
  n : Nat
  cont : List Nat
  std : List K → K
  nr : NRange K
  size : Nat
  inst : List K
  dist : List K → Py K

/-- `_generate_neighborhood_fast` (neighbors/_sampling_neighborhood.py:96-130) without the conversion of the rows to a DataFrame.
`none` of `closestInstance` is the empty list (`[]`). -/
def generateFast {R : Type} (draw : List K → R → Nat × R) (cx : SampleCtx K) (fuel : Nat) (r : R) :
    Py (List (List K) × Nat × R) := do
  let pd ← probDist cx.std cx.nr cx.cols cx.inst cx.cont
  let closest ← closestInstance cx.dist (cx.rows.filter (fun x => cx.bb x ≠ cx.bb cx.inst))
  let cpd ← probDist cx.std cx.nr cx.cols (closest.getD []) cx.cont
  let (rows, tries, r) ← fastLoop draw cx.bb cx.size pd cpd fuel 0 (zeroCounts cx.n, []) r
  pure (rows ++ [cx.inst], tries, r)

/-- `_generate_neighborhood`, the method `'slow'` (neighbors/_sampling_neighborhood.py:132-149): its first statement calls
`_generate_prob_dist()` without its two required arguments. -/
def generateSlow : Py (List (List K)) := .error .typeError

end

end Teacher
