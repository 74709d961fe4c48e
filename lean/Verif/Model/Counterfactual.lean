import Verif.Model.Factual

/-!
# Model of `explanation/_counterfactual.py`

The rules have one set per condition (`multiple_antecedents=False`): with lists of sets `_apply_changes` would put an unhashable
list in a Python set. Python sets of pairs are lists without repetition, in order of insertion (their order is not observable).

`a is not b` on strings compares object identities, which are not determined by the values. An *identity oracle* says, for a
key, whether the two strings compared are the same object; it is arbitrary up to "the same object has one value".
-/

namespace Teacher

variable {C K : Type}

/-- `{key: val for key, val in rule.antecedent}`: for a repeated feature the last value stays. -/
def Rule.anteDict (r : Rule String C K) : Dict String String := Dict.ofPairs r.antecedent

/-- one loop of `_compare_rules_FID3` (explanation/_counterfactual.py:29-35): the keys of `a` that are not in `b` with the same
value are added to the set `diffs`. -/
def diffKeys (a b : Dict String String) (diffs : List String) : List String :=
  (Dict.keys a).foldl (fun ds k => if (Dict.get? b k).isSome ∧ Dict.get? a k = Dict.get? b k then ds
    else if k ∈ ds then ds else ds ++ [k]) diffs

/-- `_compare_rules_FID3` (explanation/_counterfactual.py:22-36). -/
def compareRulesFID3 (factual counter : Rule String C K) : Nat :=
  (diffKeys counter.anteDict factual.anteDict (diffKeys factual.anteDict counter.anteDict [])).length

/-- body of the loop of `FID3_counterfactual` (explanation/_counterfactual.py:157-166); `none` is `np.inf`. -/
def fid3CfStep (factual : Rule String C K) (s : List (Rule String C K) × Option Nat) (cr : Rule String C K) :
    List (Rule String C K) × Option Nat :=
  let d := compareRulesFID3 factual cr
  match s.2 with
  | none => ([cr], some d)
  | some m => if d < m then ([cr], some d) else if d = m then (s.1 ++ [cr], some m) else s

/-- `FID3_counterfactual` (explanation/_counterfactual.py:138-168). -/
def fid3Counterfactual (factual : Rule String C K) (counter : List (Rule String C K)) :
    List (Rule String C K) × Option Nat :=
  counter.foldl (fid3CfStep factual) ([], none)

section
variable [Field K] [LinearOrder K]

/-- `max(fuzz_sets, key=lambda x: fuzz_sets[x])`: the first set with the largest degree, `ValueError` without sets. -/
def strongest (sets : Dict String K) : Py String := do
  let best ← pyMax Prod.snd sets
  pure best.1

/-- `list(l).index(x)`, `ValueError` when absent. -/
def pyIndex (l : List String) (x : String) : Py Nat :=
  if x ∈ l then .ok (l.idxOf x) else .error .valueError

/-- `_literal_distance` (explanation/_counterfactual.py:89-93). -/
def literalDistance (clause : Dict String K) (value cfValue : String) : Py K := do
  let i ← pyIndex (Dict.keys clause) value
  let j ← pyIndex (Dict.keys clause) cfValue
  pyDiv (|(i : K) - (j : K)|) ((clause.length : K) - 1)

/-- `_weighted_literal_distance` (explanation/_counterfactual.py:84-86). -/
def weightedLiteralDistance (clause : Dict String K) (value cfValue : String) : Py K := do
  let d ← literalDistance clause value cfValue
  let m ← Dict.get clause cfValue
  pure (d * (1 - m))

/-- `_get_categorical_cf_distance` (explanation/_counterfactual.py:68-81). The set `common_keys` is the set of keys of the first
dict that are in the second; `ident` is the identity oracle. -/
def categoricalDistance (ident : String → Bool) (elem cf : Dict String String) (numerical : List String) : Nat :=
  ((Dict.keys elem).filter (fun k => k ∈ Dict.keys cf ∧ k ∉ numerical ∧ ident k = false)).length

/-- `total + sum of f(key)` as a loop that can raise. -/
def sumLoop {α : Type} (f : α → Py K) (start : K) (l : List α) : Py K :=
  l.foldlM (fun acc k => do let d ← f k; pure (acc + d)) start

/-- `{feat: max(fuzz_sets, ...) for feat, fuzz_sets in instance.items()}` (explanation/_counterfactual.py:41). -/
def fuzzified (inst : Inst K) : Py (Dict String String) :=
  inst.mapM (fun p => do let s ← strongest p.2; pure (p.1, s))

/-- `_cf_dist_instance` (explanation/_counterfactual.py:39-49). -/
def cfDistInstance (ident : String → Bool) (cf : Rule String C K) (inst : Inst K) (numerical : List String) : Py K := do
  let fz ← fuzzified inst
  let cfd := cf.anteDict
  let nums := numerical.filter (fun x => x ∈ Dict.keys fz ∧ x ∈ Dict.keys cfd)
  sumLoop (fun k => do
    let clause ← Dict.get inst k
    let v ← Dict.get fz k
    let w ← Dict.get cfd k
    weightedLiteralDistance clause v w) (categoricalDistance ident fz cfd numerical : K) nums

/-- `_cf_dist_rule` (explanation/_counterfactual.py:52-65). -/
def cfDistRule (ident : String → Bool) (cf rule : Rule String C K) (inst : Inst K) (numerical : List String) (tau : K) :
    Py K := do
  let rd := rule.anteDict
  let cfd := cf.anteDict
  let nums := numerical.filter (fun x => x ∈ Dict.keys rd ∧ x ∈ Dict.keys cfd)
  let d ← sumLoop (fun k => do
    let clause ← Dict.get inst k
    let v ← Dict.get rd k
    let w ← Dict.get cfd k
    literalDistance clause v w) (categoricalDistance ident rd cfd numerical : K) nums
  let sym := ((Dict.keys rd).filter (fun x => x ∉ Dict.keys cfd)).length +
    ((Dict.keys cfd).filter (fun x => x ∉ Dict.keys rd)).length
  pure (tau * (sym : K) + (1 - tau) * d)

/-- one iteration of the loop of `_apply_changes` (explanation/_counterfactual.py:101-109): the new memberships of one variable
and the change, if any. -/
def applyOne (changes : Dict String String) (p : String × Dict String K) :
    Py ((String × Dict String K) × List (String × String)) := do
  let m ← strongest p.2
  match Dict.get? changes p.1 with
  | none => pure (p, [])
  | some v =>
    if m ≠ v then pure ((p.1, p.2.map (fun q => (q.1, if q.1 = v then 1 else 0))), [(p.1, v)])
    else pure (p, [])

/-- `_apply_changes` (explanation/_counterfactual.py:96-111); the `deepcopy` makes it a function of values. -/
def applyChanges (r : Rule String C K) (inst : Inst K) : Py (Inst K × List (String × String)) := do
  let rs ← inst.mapM (applyOne r.anteDict)
  pure (rs.map Prod.fst, (rs.map Prod.snd).flatten)

variable [DecidableEq C]

/-- `sorted(cf_list, key=lambda rule: rule[1])` (explanation/_counterfactual.py:116): stable. -/
def sortCf (cfs : List (Rule String C K × K)) : List (Rule String C K × K) := cfs.insertionSort (fun a b => a.2 ≤ b.2)

/-- the loop of `_search_counterfactual` with `multiclass=False` (explanation/_counterfactual.py:120-125, 135). -/
def searchLoop (inst : Inst K) (c : C) (rules : List (Rule String C K)) :
    List (Rule String C K × K) → Py (Option (List (String × String)))
  | [] => .ok none
  | cf :: rest => do
    let (inst', changes) ← applyChanges cf.1 inst
    let c' ← weightedVote rules inst'
    if c' ≠ c then pure (some changes) else searchLoop inst c rules rest

/-- `_search_counterfactual` with `multiclass=False` (explanation/_counterfactual.py:114-135). -/
def searchCf (inst : Inst K) (c : C) (rules : List (Rule String C K)) (cfs : List (Rule String C K × K)) :
    Py (Option (List (String × String))) :=
  searchLoop inst c rules (sortCf cfs)

/-- the loop of `_search_counterfactual` with `multiclass=True` (explanation/_counterfactual.py:120-134); `n` is the size of
`possible_class_values`. -/
def searchLoopMulti (inst : Inst K) (c : C) (rules : List (Rule String C K)) (n : Nat) :
    Dict C (List (String × String)) → List (Rule String C K × K) → Py (Dict C (List (String × String)))
  | d, [] => .ok d
  | d, cf :: rest => do
    let (inst', changes) ← applyChanges cf.1 inst
    let c' ← weightedVote rules inst'
    if c' ≠ c ∧ c' ∉ Dict.keys d then
      if (Dict.set d c' changes).length = n then pure (Dict.set d c' changes)
      else searchLoopMulti inst c rules n (Dict.set d c' changes) rest
    else searchLoopMulti inst c rules n d rest

/-- `_search_counterfactual` with `multiclass=True` (explanation/_counterfactual.py:114-135). -/
def searchCfMulti (inst : Inst K) (c : C) (rules : List (Rule String C K)) (cfs : List (Rule String C K × K)) :
    Py (Dict C (List (String × String))) :=
  searchLoopMulti inst c rules (cfs.map (fun cf => cf.1.consequent)).dedup.length [] (sortCf cfs)

/-- the rules of another class (explanation/_counterfactual.py:192, 226, 279). -/
def otherClass (rules : List (Rule String C K)) (c : C) : List (Rule String C K) := rules.filter (fun r => r.consequent ≠ c)

/-- `possible_cf` of `i_counterfactual` (explanation/_counterfactual.py:192-194); `ident i` is the identity oracle of the `i`-th
rule of another class. -/
def iCandidates (ident : Nat → String → Bool) (inst : Inst K) (rules : List (Rule String C K)) (c : C)
    (numerical : List String) : Py (List (Rule String C K × K)) :=
  (otherClass rules c).zipIdx.mapM (fun p => do
    let d ← cfDistInstance (ident p.2) p.1 inst numerical
    pure (p.1, d))

/-- `i_counterfactual`, `multiclass=False` (explanation/_counterfactual.py:171-195). -/
def iCounterfactual (ident : Nat → String → Bool) (inst : Inst K) (rules : List (Rule String C K)) (c : C)
    (numerical : List String) : Py (Option (List (String × String))) := do
  let cfs ← iCandidates ident inst rules c numerical
  searchCf inst c rules cfs

/-- `i_counterfactual`, `multiclass=True` (explanation/_counterfactual.py:171-195). -/
def iCounterfactualMulti (ident : Nat → String → Bool) (inst : Inst K) (rules : List (Rule String C K)) (c : C)
    (numerical : List String) : Py (Dict C (List (String × String))) := do
  let cfs ← iCandidates ident inst rules c numerical
  searchCfMulti inst c rules cfs

/-- the inner loop of `f_counterfactual` (explanation/_counterfactual.py:228-231): distance of a rule to the factual; `ident j`
is the identity oracle of the `j`-th rule of the factual. -/
def fDist (ident : Nat → String → Bool) (factual : List (Rule String C K)) (inst : Inst K) (numerical : List String) (tau : K)
    (cf : Rule String C K) : Py K :=
  sumLoop (fun p => do
    let md ← p.1.matching inst
    let d ← cfDistRule (ident p.2) cf p.1 inst numerical tau
    pure (md * d)) 0 factual.zipIdx

/-- `possible_cf` of `f_counterfactual` (explanation/_counterfactual.py:225-233): only rules at a positive distance. -/
def fCandidates (ident : Nat → Nat → String → Bool) (factual : List (Rule String C K)) (inst : Inst K)
    (rules : List (Rule String C K)) (c : C) (numerical : List String) (tau : K) : Py (List (Rule String C K × K)) := do
  let ds ← (otherClass rules c).zipIdx.mapM (fun p => do
    let d ← fDist (ident p.2) factual inst numerical tau p.1
    pure (p.1, d))
  pure (ds.filter (fun p => 0 < p.2))

/-- `f_counterfactual` (explanation/_counterfactual.py:198-235). -/
def fCounterfactual (ident : Nat → Nat → String → Bool) (factual : List (Rule String C K)) (inst : Inst K)
    (rules : List (Rule String C K)) (c : C) (numerical : List String) (tau : K) : Py (Option (List (String × String))) := do
  let cfs ← fCandidates ident factual inst rules c numerical tau
  searchCf inst c rules cfs

/-- `float(x) if i in continuous else x` (explanation/_counterfactual.py:282); `parse` is `float` on strings. -/
def decodeCell (parse : String → Py K) (continuous : List Nat) (p : String × Nat) : Py (Cell K) :=
  if p.2 ∈ continuous then do let x ← parse p.1; pure (.num x) else .ok (.str p.1)

/-- the decoded modified instance of `d_counterfactual` (explanation/_counterfactual.py:281-282). -/
def decodeInst (parse : String → Py K) (continuous : List Nat) (inst : Inst K) : Py (List (Cell K)) := do
  let names ← inst.mapM (fun p => strongest p.2)
  names.zipIdx.mapM (decodeCell parse continuous)

/-- the distance of one candidate of `d_counterfactual` (explanation/_counterfactual.py:280-283); `dist` is
`DISTANCES[distance](decoded_instance, ·, continuous, discrete, mad)`. -/
def dDist (parse : String → Py K) (dist : List (Cell K) → Py K) (continuous : List Nat) (inst : Inst K)
    (cf : Rule String C K) : Py K := do
  let (inst', _) ← applyChanges cf inst
  let cells ← decodeInst parse continuous inst'
  dist cells

/-- `d_counterfactual` (explanation/_counterfactual.py:239-285). -/
def dCounterfactual (parse : String → Py K) (dist : List (Cell K) → Py K) (continuous : List Nat) (inst : Inst K)
    (rules : List (Rule String C K)) (c : C) : Py (Option (List (String × String))) := do
  let cfs ← (otherClass rules c).mapM (fun r => do
    let d ← dDist parse dist continuous inst r
    pure (r, d))
  searchCf inst c rules cfs

end

end Teacher
