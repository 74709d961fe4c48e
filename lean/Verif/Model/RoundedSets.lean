import Verif.Model.Rounded
import Verif.Model.Rule

/-!
# The operations of fuzzy sets in floating point

`intersection`, `simmilarity`, `alpha_cut`, `merge` and `jaccard_similarity` of `fuzzy/fuzzy_set.py`, and the two methods of `Rule` that use
them, with a rounding after every operation, as in `Model/Rounded.lean`. The heights 0 and 1 of the ends of a segment are Python integers; the
differences of heights are 0, 1 or -1, which rounding does not change. `min`, `max` and comparisons are exact. Simplification: the fuzzy
points are floating point numbers (with Python integers beyond 2^53 the subtractions would be exact).
-/

namespace Teacher

variable {C K : Type} [Field K] [LinearOrder K]

/-- `_line_intersect` (fuzzy/fuzzy_set.py:113-130). -/
def lineIntersectF (A : Arith K) (P Q : Seg K) : K :=
  if P = Q then 1
  else
    let ((ax1, ay1), (ax2, ay2)) := P
    let ((bx1, by1), (bx2, by2)) := Q
    let denom := A.fl (A.fl (A.fl (ax1 - ax2) * (by1 - by2)) - A.fl ((ay1 - ay2) * A.fl (bx1 - bx2)))
    if denom = 0 then 0
    else
      let n1 := A.fl (A.fl (ax1 * ay2) - A.fl (ay1 * ax2))
      let n2 := A.fl (A.fl (bx1 * by2) - A.fl (by1 * bx2))
      let y := A.fl (A.fl (A.fl (n1 * (by1 - by2)) - A.fl ((ay1 - ay2) * n2)) / denom)
      if y < 0 ∨ y > 1 then 0 else y

/-- `FuzzyContinuousSet.intersection` between two continuous sets (fuzzy/fuzzy_set.py:99-111). -/
def CSet.intersectionF (A : Arith K) (s o : CSet K) : K :=
  let P : Seg K := ((s.a, 0), (s.b, 1))
  let Q : Seg K := ((s.b, 1), (s.c, 0))
  let R : Seg K := ((o.a, 0), (o.b, 1))
  let S : Seg K := ((o.b, 1), (o.c, 0))
  max (max (max (lineIntersectF A P R) (lineIntersectF A P S)) (lineIntersectF A Q R)) (lineIntersectF A Q S)

/-- `FuzzyContinuousSet.simmilarity` between two continuous sets (fuzzy/fuzzy_set.py:136-150). -/
def CSet.simmilarityF (A : Arith K) (s o : CSet K) : K :=
  let minSelf := A.fl (A.fl (s.b - s.a) / 2)
  let maxSelf := A.fl (A.fl (s.c - s.b) / 2)
  let minOther := A.fl (A.fl (o.b - o.a) / 2)
  let maxOther := A.fl (A.fl (o.c - o.b) / 2)
  if minSelf ≥ maxOther ∨ minOther ≥ maxSelf then 0
  else
    let inters := A.fl (min maxSelf maxOther - max minSelf minOther)
    let union := A.fl (max maxSelf maxOther - min minSelf minOther)
    A.fl (inters / union)

/-- `FuzzyContinuousSet.alpha_cut` (fuzzy/fuzzy_set.py:152-161). -/
def CSet.alphaCutF (A : Arith K) (s : CSet K) (cut : K) : Py (K × K) :=
  if cut < 0 ∨ cut > 1 then .error .valueError
  else .ok (A.fl (s.a + A.fl (A.fl (s.b - s.a) * cut)), A.fl (s.c - A.fl (A.fl (s.c - s.b) * cut)))

/-- `FuzzyContinuousSet.merge` (fuzzy/fuzzy_set.py:163-171), see `CSet.merge`; `np.mean` of two numbers adds them and divides by 2. -/
def CSet.mergeF (A : Arith K) (readNum : String → Option K) (fmt : K → String) (s o : CSet K) : Py (CSet K) :=
  match readNum s.name, readNum o.name with
  | some x, some y =>
    .ok { name := fmt (A.fl (A.fl (x + y) / 2)), a := min s.a o.a, b := A.fl (A.fl (s.b + o.b) / 2), c := max s.c o.c }
  | _, _ => .error .valueError

/-- `FuzzyContinuousSet.jaccard_similarity` (fuzzy/fuzzy_set.py:173-190). -/
def CSet.jaccardF (A : Arith K) (s o : CSet K) : K :=
  let start := max s.a o.a
  let stop := min s.c o.c
  if start ≥ stop then 0
  else
    let inters := A.fl (stop - start)
    let union := A.fl (max s.c o.c - min s.a o.a)
    A.fl (A.fl (inters / union) * s.intersectionF A o)

/-- `intersection` of any two fuzzy sets (fuzzy/fuzzy_set.py:95-97 and 207-211). -/
def FSet.intersectionF (A : Arith K) (s o : FSet K) : Py K :=
  match s, o with
  | .cont s, .cont o => .ok (s.intersectionF A o)
  | .disc s, .disc o => .ok (if s = o then 1 else 0)
  | _, _ => .error .valueError

/-- `simmilarity` of any two fuzzy sets (fuzzy/fuzzy_set.py:132-134 and 213-214). -/
def FSet.simmilarityF (A : Arith K) (s o : FSet K) : Py K :=
  match s, o with
  | .cont s, .cont o => .ok (s.simmilarityF A o)
  | .disc s, .disc o => .ok (if s = o then 1 else 0)
  | _, _ => .error .valueError

/-- one condition of `to_crisp` (tree/rule.py:148-160). -/
def crispClauseF (A : Arith K) (alpha : K) (vars : List (FVar K)) (p : String × String) : Py (String × CrispVal K) := do
  let sets ← Dict.get (varDict vars) p.1
  let fs ← Dict.get (setDict sets) p.2
  match fs with
  | .cont s => do
    let (l, r) ← s.alphaCutF A alpha
    pure (p.1, .interval l r)
  | .disc _ => pure (p.1, .label p.2)

/-- `Rule.to_crisp` (tree/rule.py:133-163). -/
def Rule.toCrispF (A : Arith K) (r : Rule String C K) (alpha : K) (vars : List (FVar K)) : Py (Rule (CrispVal K) C K) := do
  let a ← r.antecedent.mapM (crispClauseF A alpha vars)
  pure { antecedent := a, consequent := r.consequent, weight := r.weight }

/-- the key functions of lines 230-235 of tree/rule.py. -/
def MapFun.keyF (A : Arith K) (f : MapFun) (fs o : FSet K) : Py K :=
  match f with
  | .intersection => fs.intersectionF A o
  | .simmilarity => fs.simmilarityF A o
  | .other => .error .valueError

/-- one condition of `map_rule_variables` (tree/rule.py:223-238), see `mapClause`. -/
def mapClauseF (A : Arith K) (f : MapFun) (odict ddict : Dict String (List (FSet K))) (p : String × String) : Py (String × String) := do
  let osets ← Dict.get odict p.1
  let dsets ← Dict.get ddict p.1
  let ofs ← Dict.get (setDict osets) p.2
  let keys ← dsets.mapM (fun fs => f.keyF A fs ofs)
  let best ← pyMax Prod.snd (dsets.zip keys)
  pure (p.1, best.1.name)

/-- `Rule.map_rule_variables` (tree/rule.py:190-240). -/
def Rule.mapVariablesF (A : Arith K) (r : Rule String C K) (origin dest : List (FVar K)) (f : MapFun) : Py (Rule String C K) := do
  let odict := varDict origin
  let ddict := varDict dest
  if (∀ k ∈ Dict.keys odict, k ∈ Dict.keys ddict) ∧ (∀ k ∈ Dict.keys ddict, k ∈ Dict.keys odict) then do
    let a ← r.antecedent.mapM (mapClauseF A f odict ddict)
    pure { antecedent := a, consequent := r.consequent, weight := r.weight }
  else .error .valueError

end Teacher
