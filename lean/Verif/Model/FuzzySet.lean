import Verif.Model.Basic

/-!
# Model of `fuzzy/fuzzy_set.py`, `fuzzy/fuzzy_variable.py` and `fuzzy/_base.py`

Simplifications: `fuzzy_points` is a triple (the constructors of the library always pass three points);
exact ordered-field arithmetic.
-/

namespace Teacher

variable {K : Type} [Field K] [LinearOrder K] [IsStrictOrderedRing K]

/-- `FuzzyContinuousSet` (fuzzy/fuzzy_set.py:78-85): a name, three points and the `point_set` flag. -/
structure CSet (K : Type) where
  name : String
  a : K
  b : K
  c : K
  pointSet : Bool := false
  deriving DecidableEq, Repr

/-- `FuzzyDiscreteSet` (fuzzy/fuzzy_set.py:193-199). -/
structure DSet (K : Type) where
  name : String
  value : Cell K
  deriving DecidableEq, Repr

/-- A `FuzzySet` is continuous or discrete (fuzzy/fuzzy_set.py:18-76). -/
inductive FSet (K : Type) where
  | cont (s : CSet K)
  | disc (s : DSet K)
  deriving DecidableEq, Repr

/-- attribute `name` (fuzzy/fuzzy_set.py:19). -/
def FSet.name : FSet K → String
  | .cont s => s.name
  | .disc s => s.name

/-- `skfuzzy.trimf` at one point, after its assertion: `y = 0`; on the left side (if `a != b`) for `a < x < b` it is
`(x-a)/(b-a)`; on the right side (if `b != c`) for `b < x < c` it is `(c-x)/(c-b)`; at `x == b` it is 1.
(called in fuzzy/fuzzy_set.py:93) -/
def trimfAt (a b c x : K) : K :=
  if x = b then 1
  else if b ≠ c ∧ b < x ∧ x < c then (c - x) / (c - b)
  else if a ≠ b ∧ a < x ∧ x < b then (x - a) / (b - a)
  else 0

/-- `FuzzyContinuousSet.membership` on a vector (fuzzy/fuzzy_set.py:92-93): `trimf` asserts `a <= b and b <= c`,
then computes element by element. Comparing a string with a number by `<` is a `TypeError`; a set with three equal points only
compares by `==`, so that a string has degree 0. -/
def CSet.membership (s : CSet K) (v : List (Cell K)) : Py (List K) :=
  if s.a ≤ s.b ∧ s.b ≤ s.c then
    v.mapM (fun x => match x with
      | .num x => .ok (trimfAt s.a s.b s.c x)
      | .str _ => if s.a = s.b ∧ s.b = s.c then .ok 0 else .error .typeError)
  else .error .assertionError

/-- A segment of the graph of a triangle: two points of the plane (fuzzy/fuzzy_set.py:99-103). -/
abbrev Seg (K : Type) := (K × K) × (K × K)

/-- `_line_intersect` (fuzzy/fuzzy_set.py:113-130). -/
def lineIntersect (A B : Seg K) : K :=
  if A = B then 1
  else
    let ((ax1, ay1), (ax2, ay2)) := A
    let ((bx1, by1), (bx2, by2)) := B
    let denom := (ax1 - ax2) * (by1 - by2) - (ay1 - ay2) * (bx1 - bx2)
    if denom = 0 then 0
    else
      let y := ((ax1 * ay2 - ay1 * ax2) * (by1 - by2) - (ay1 - ay2) * (bx1 * by2 - by1 * bx2)) / denom
      if y < 0 ∨ y > 1 then 0 else y

/-- `FuzzyContinuousSet.intersection` between two continuous sets (fuzzy/fuzzy_set.py:99-111). -/
def CSet.intersection (s o : CSet K) : K :=
  let A : Seg K := ((s.a, 0), (s.b, 1))
  let B : Seg K := ((s.b, 1), (s.c, 0))
  let C : Seg K := ((o.a, 0), (o.b, 1))
  let D : Seg K := ((o.b, 1), (o.c, 0))
  max (max (max (lineIntersect A C) (lineIntersect A D)) (lineIntersect B C)) (lineIntersect B D)

/-- `FuzzyContinuousSet.simmilarity` between two continuous sets (fuzzy/fuzzy_set.py:136-150). -/
def CSet.simmilarity (s o : CSet K) : K :=
  let minSelf := (s.b - s.a) / 2
  let maxSelf := (s.c - s.b) / 2
  let minOther := (o.b - o.a) / 2
  let maxOther := (o.c - o.b) / 2
  if minSelf ≥ maxOther ∨ minOther ≥ maxSelf then 0
  else
    let inters := min maxSelf maxOther - max minSelf minOther
    let union := max maxSelf maxOther - min minSelf minOther
    inters / union

/-- `FuzzyContinuousSet.alpha_cut` (fuzzy/fuzzy_set.py:152-161). -/
def CSet.alphaCut (s : CSet K) (cut : K) : Py (K × K) :=
  if cut < 0 ∨ cut > 1 then .error .valueError
  else .ok (s.a + (s.b - s.a) * cut, s.c - (s.c - s.b) * cut)

/-- `FuzzyContinuousSet.merge` (fuzzy/fuzzy_set.py:163-171). The names must be readable as numbers
(`float(a.name)`, `ValueError` otherwise): `readNum` models `float(str)` and `fmt` models `str(float)`. -/
def CSet.merge (readNum : String → Option K) (fmt : K → String) (s o : CSet K) : Py (CSet K) :=
  match readNum s.name, readNum o.name with
  | some x, some y =>
    .ok { name := fmt ((x + y) / 2), a := min s.a o.a, b := (s.b + o.b) / 2, c := max s.c o.c }
  | _, _ => .error .valueError

/-- `FuzzyContinuousSet.jaccard_similarity` (fuzzy/fuzzy_set.py:173-190). -/
def CSet.jaccard (s o : CSet K) : K :=
  let start := max s.a o.a
  let stop := min s.c o.c
  if start ≥ stop then 0
  else
    let inters := stop - start
    let union := max s.c o.c - min s.a o.a
    inters / union * s.intersection o

/-- `FuzzyDiscreteSet.membership` on a vector (fuzzy/fuzzy_set.py:201-205). Simplification: an old numpy compares a float array with a
string to the scalar `False`, which line 205 turns into the scalar 0; here it is a vector of zeros, as with a new numpy. -/
def DSet.membership (s : DSet K) (v : List (Cell K)) : List K :=
  v.map (fun x => if x = s.value then 1 else 0)

/-- `membership` of any fuzzy set. -/
def FSet.membership (s : FSet K) (v : List (Cell K)) : Py (List K) :=
  match s with
  | .cont s => s.membership v
  | .disc s => .ok (s.membership v)

/-- `intersection` of any two fuzzy sets (fuzzy/fuzzy_set.py:95-97 and 207-211): the types must agree;
for discrete sets it is dataclass equality (name and value). -/
def FSet.intersection (s o : FSet K) : Py K :=
  match s, o with
  | .cont s, .cont o => .ok (s.intersection o)
  | .disc s, .disc o => .ok (if s = o then 1 else 0)
  | _, _ => .error .valueError

/-- `simmilarity` of any two fuzzy sets (fuzzy/fuzzy_set.py:132-134 and 213-214). -/
def FSet.simmilarity (s o : FSet K) : Py K :=
  match s, o with
  | .cont s, .cont o => .ok (s.simmilarity o)
  | .disc s, .disc o => .ok (if s = o then 1 else 0)
  | _, _ => .error .valueError

/-- `FuzzyVariable` (fuzzy/fuzzy_variable.py:14-20). -/
structure FVar (K : Type) where
  name : String
  sets : List (FSet K)
  deriving DecidableEq, Repr

/-- `FuzzyVariable.membership` (fuzzy/fuzzy_variable.py:22-35): dict comprehension over the sets. -/
def FVar.membership (v : FVar K) (col : List (Cell K)) : Py (Dict String (List K)) := do
  let ps ← v.sets.mapM (fun fs => do let m ← fs.membership col; pure (fs.name, m))
  pure (Dict.ofPairs ps)

/-- loop of `dataset_membership` (fuzzy/_base.py:117-120) from column `i` on with accumulator `acc`. -/
def datasetMembershipFrom (X : List (List (Cell K))) (i : Nat) (acc : Dict String (Dict String (List K))) :
    List (FVar K) → Py (Dict String (Dict String (List K)))
  | [] => .ok acc
  | v :: vs => do
    let col ← column X i
    let m ← v.membership col
    datasetMembershipFrom X (i + 1) (acc.set v.name m) vs

/-- `dataset_membership` (fuzzy/_base.py:94-120); `check_array` (line 115) rejects an empty table
and rows of different lengths with `ValueError`. -/
def datasetMembership (X : List (List (Cell K))) (vars : List (FVar K)) :
    Py (Dict String (Dict String (List K))) :=
  match X with
  | [] => .error .valueError
  | r :: rs =>
    if r.length = 0 ∨ ∃ r' ∈ rs, r'.length ≠ r.length then .error .valueError
    else datasetMembershipFrom X 0 [] vars

/-- the inner triangles of `get_fuzzy_continuous_sets` (fuzzy/_base.py:216-219): one triangle for each three
consecutive divisions, named after the middle one. -/
def innerTriangles : List (String × K) → List (CSet K)
  | d₀ :: d₁ :: d₂ :: ds => { name := d₁.1, a := d₀.2, b := d₁.2, c := d₂.2 } :: innerTriangles (d₁ :: d₂ :: ds)
  | _ => []

/-- the last half triangle `divisions[-1][0], [divisions[-2][1], divisions[-1][1], divisions[-1][1]]`
(fuzzy/_base.py:221-222). -/
def lastTriangle : List (String × K) → List (CSet K)
  | [d₀, d₁] => [{ name := d₁.1, a := d₀.2, b := d₁.2, c := d₁.2 }]
  | _ :: d₁ :: d₂ :: ds => lastTriangle (d₁ :: d₂ :: ds)
  | _ => []

/-- `get_fuzzy_continuous_sets` (fuzzy/_base.py:187-224) with `_point_set` (174-184);
`pointSetOk` is `point_set_method == 'point_set'`. An empty list fails on `divisions[0]`. -/
def getFuzzyContinuousSets (pointSetOk : Bool) (ds : List (String × K)) : Py (List (CSet K)) :=
  match ds with
  | [] => .error .indexError
  | [d] =>
    if pointSetOk then .ok [{ name := d.1, a := d.2, b := d.2, c := d.2, pointSet := true }]
    else .error .valueError
  | d₀ :: d₁ :: rest =>
    .ok ({ name := d₀.1, a := d₀.2, b := d₀.2, c := d₁.2 } ::
      (innerTriangles (d₀ :: d₁ :: rest) ++ lastTriangle (d₀ :: d₁ :: rest)))

/-- `get_fuzzy_discrete_sets` (fuzzy/_base.py:227-244). -/
def getFuzzyDiscreteSets (ds : List (String × Cell K)) : List (DSet K) :=
  ds.map (fun d => { name := d.1, value := d.2 })

/-- one assignment `fuzzy_variables[order[name]] = ...` (fuzzy/_base.py:160 and 168): `KeyError` if the name is not
in `order`, `IndexError` if the position is outside the list. Simplification: positions are naturals
(a negative position would count from the end). -/
def placeVar (order : Dict String Nat) (acc : List (Option (FVar K))) (v : FVar K) :
    Py (List (Option (FVar K))) := do
  let p ← order.get v.name
  if p < acc.length then pure (acc.set p (some v)) else .error .indexError

/-- labels of a column (fuzzy/_base.py:155-158, 164-167): given labels or `f'{value}'` (`fmt`). -/
def colLabels {α : Type} (fmt : α → String) (labels : Option (Dict String (List String)))
    (name : String) (vals : List α) : List String :=
  match labels with
  | none => vals.map fmt
  | some l => match Dict.get? l name with
    | none => vals.map fmt
    | some ls => ls

/-- body of the first loop of `get_fuzzy_variables` (fuzzy/_base.py:154-161). -/
def continuousVar (fmt : K → String) (labels : Option (Dict String (List String))) (pointSetOk : Bool)
    (p : String × List K) : Py (FVar K) := do
  let sets ← getFuzzyContinuousSets pointSetOk ((colLabels fmt labels p.1 p.2).zip p.2)
  pure { name := p.1, sets := sets.map .cont }

/-- body of the second loop of `get_fuzzy_variables` (fuzzy/_base.py:163-168). -/
def discreteVar (fmt : Cell K → String) (labels : Option (Dict String (List String)))
    (p : String × List (Cell K)) : FVar K :=
  { name := p.1, sets := (getFuzzyDiscreteSets ((colLabels fmt labels p.1 p.2).zip p.2)).map .disc }

/-- first loop of `get_fuzzy_variables` (fuzzy/_base.py:154-161). Evaluation order of the Python assignment: the
right-hand side first, then `order[name]`. -/
def placeContinuous (fmt : K → String) (labels : Option (Dict String (List String))) (pointSetOk : Bool)
    (order : Dict String Nat) (acc : List (Option (FVar K))) :
    List (String × List K) → Py (List (Option (FVar K)))
  | [] => .ok acc
  | p :: ps => do
    let v ← continuousVar fmt labels pointSetOk p
    let acc ← placeVar order acc v
    placeContinuous fmt labels pointSetOk order acc ps

/-- second loop of `get_fuzzy_variables` (fuzzy/_base.py:163-168). -/
def placeDiscrete (fmt : Cell K → String) (labels : Option (Dict String (List String)))
    (order : Dict String Nat) (acc : List (Option (FVar K))) :
    List (String × List (Cell K)) → Py (List (Option (FVar K)))
  | [] => .ok acc
  | p :: ps => do
    let acc ← placeVar order acc (discreteVar fmt labels p)
    placeDiscrete fmt labels order acc ps

/-- `get_fuzzy_variables` (fuzzy/_base.py:123-171). -/
def getFuzzyVariables (fmtK : K → String) (fmtC : Cell K → String)
    (cont : Dict String (List K)) (disc : Dict String (List (Cell K))) (order : Dict String Nat)
    (contLabels discLabels : Option (Dict String (List String))) (pointSetOk : Bool) :
    Py (List (Option (FVar K))) := do
  let acc := List.replicate order.length none
  let acc ← placeContinuous fmtK contLabels pointSetOk order acc cont
  placeDiscrete fmtC discLabels order acc disc

end Teacher
