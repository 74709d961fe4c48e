import Verif.Model.FuzzySet

/-!
# Model of `tree/rule.py`

Simplifications. `multiple_antecedents` is represented by the type of the values of the antecedent: `String` (one set per
condition, `multiple_antecedents=False`) or `List String` (`multiple_antecedents=True`); the t-norm is the default `min`.
-/

namespace Teacher

variable {V C K : Type}

/-- `Rule.__init__` (tree/rule.py:16-34): antecedent, consequent, weight. -/
structure Rule (V C K : Type) where
  antecedent : List (String × V)
  consequent : C
  weight : K
  deriving DecidableEq, Repr

/-- `{feature: {value: degree}}`, the argument of `matching` (tree/rule.py:65-76). -/
abbrev Inst (K : Type) := Dict String (Dict String K)

/-- `Rule.__eq__` (tree/rule.py:43-48); `none` stands for an object that is not a `Rule`. -/
def Rule.pyEq [DecidableEq V] [DecidableEq C] [DecidableEq K] (r : Rule V C K) (o : Option (Rule V C K)) : Bool :=
  match o with
  | none => false
  | some o => r.antecedent = o.antecedent && r.consequent = o.consequent && r.weight = o.weight

/-- `Rule.__hash__` (tree/rule.py:50-51): `hash` of the tuple of the antecedent (a tuple of pairs), the consequent and the weight. `hs`, `hc`
and `hk` are the hashes of the names, the consequent and the weight, `comb` combines those of the components of a tuple, and `hv` is the hash
of the values of the antecedent, which may raise. -/
def Rule.pyHash {H : Type} (hv : V → Py H) (hs : String → H) (hc : C → H) (hk : K → H) (comb : List H → H) (r : Rule V C K) : Py H := do
  let hashes ← r.antecedent.mapM (fun p => do
    let h ← hv p.2
    pure (comb [hs p.1, h]))
  pure (comb [comb hashes, hc r.consequent, hk r.weight])

/-- `hash` of a list of names: lists are not hashable (the values of the antecedent of a rule with `multiple_antecedents`, tree/rule.py:50-51). -/
def listHash {H : Type} (_ : List String) : Py H := .error .typeError

/-- loop of `simplify` (tree/rule.py:56-62): `len` is Python's `len` on the values. -/
def simplifyStep (len : V → Nat) (d : Dict String V) (p : String × V) : Dict String V :=
  match Dict.get? d p.1 with
  | none => Dict.set d p.1 p.2
  | some v => if len v > len p.2 then Dict.set d p.1 p.2 else d

/-- `Rule.simplify` (tree/rule.py:53-63). -/
def Rule.simplify (len : V → Nat) (r : Rule V C K) : Rule V C K :=
  { r with antecedent := r.antecedent.foldl (simplifyStep len) [] }

/-- `instance_membership[feature][value]`. -/
def lookup2 (inst : Inst K) (feature value : String) : Py K := do
  let d ← Dict.get inst feature
  Dict.get d value

/-- The `try … except KeyError: return 0` around the list of degrees and the t-norm (tree/rule.py:78-92). -/
def matchDegrees [Field K] [LinearOrder K] (ms : Py (List K)) : Py K :=
  match ms with
  | .error .keyError => .ok 0
  | .error e => .error e
  | .ok ms => pyMin ms

/-- `Rule.matching` with `multiple_antecedents=False` (tree/rule.py:88-92). -/
def Rule.matching [Field K] [LinearOrder K] (r : Rule String C K) (inst : Inst K) : Py K :=
  matchDegrees (r.antecedent.mapM (fun p => lookup2 inst p.1 p.2))

/-- inner loop of `matching` with `multiple_antecedents=True` (tree/rule.py:81-84). -/
def sumValues [Field K] (inst : Inst K) (feature : String) (values : List String) : Py K :=
  values.foldlM (fun m v => do let x ← lookup2 inst feature v; pure (m + x)) 0

/-- `Rule.matching` with `multiple_antecedents=True` (tree/rule.py:77-87). -/
def Rule.matchingMulti [Field K] [LinearOrder K] (r : Rule (List String) C K) (inst : Inst K) : Py K :=
  matchDegrees (r.antecedent.mapM (fun p => sumValues inst p.1 p.2))

/-- Value of a crisp condition (tree/rule.py:155-158): an interval, or the name of a discrete set. -/
inductive CrispVal (K : Type) where
  | interval (l r : K)
  | label (name : String)
  deriving DecidableEq, Repr

/-- `{fv.name: fv.fuzzy_sets for fv in fuzzy_variables}` (tree/rule.py:146, 216-217). -/
def varDict (vars : List (FVar K)) : Dict String (List (FSet K)) :=
  Dict.ofPairs (vars.map (fun v => (v.name, v.sets)))

/-- `{fs.name: fs for fs in fuzzy_sets}` (tree/rule.py:150, 227). -/
def setDict (sets : List (FSet K)) : Dict String (FSet K) :=
  Dict.ofPairs (sets.map (fun s => (s.name, s)))

/-- one condition of `to_crisp` (tree/rule.py:148-160). -/
def crispClause [Field K] [LinearOrder K] (alpha : K) (vars : List (FVar K)) (p : String × String) :
    Py (String × CrispVal K) := do
  let sets ← Dict.get (varDict vars) p.1
  let fs ← Dict.get (setDict sets) p.2
  match fs with
  | .cont s => do
    let (l, r) ← s.alphaCut alpha
    pure (p.1, .interval l r)
  | .disc _ => pure (p.1, .label p.2)

/-- `Rule.to_crisp` (tree/rule.py:133-163). -/
def Rule.toCrisp [Field K] [LinearOrder K] (r : Rule String C K) (alpha : K) (vars : List (FVar K)) :
    Py (Rule (CrispVal K) C K) := do
  let a ← r.antecedent.mapM (crispClause alpha vars)
  pure { antecedent := a, consequent := r.consequent, weight := r.weight }

/-- one step of the loop of `weighted_vote` (tree/rule.py:184-187), on the `defaultdict(lambda: 0)`;
`matching` is the matching of the kind of rule used. -/
def voteStep [Field K] [DecidableEq C] (matching : Rule V C K → Py K) (d : Dict C K) (r : Rule V C K) : Py (Dict C K) := do
  let m ← matching r
  pure (Dict.set d r.consequent ((Dict.get? d r.consequent).getD 0 + m * r.weight))

/-- `Rule.weighted_vote` (tree/rule.py:165-188). -/
def weightedVoteWith [Field K] [LinearOrder K] [DecidableEq C] (matching : Rule V C K → Py K) (rs : List (Rule V C K)) :
    Py C := do
  let d ← rs.foldlM (voteStep matching) []
  pyMax (fun c => (Dict.get? d c).getD 0) (Dict.keys d)

/-- `Rule.weighted_vote` for rules with one set per condition. -/
def weightedVote [Field K] [LinearOrder K] [DecidableEq C] (rs : List (Rule String C K)) (inst : Inst K) : Py C :=
  weightedVoteWith (fun r => r.matching inst) rs

/-- `Rule.weighted_vote` for rules with several sets per condition. -/
def weightedVoteMulti [Field K] [LinearOrder K] [DecidableEq C] (rs : List (Rule (List String) C K)) (inst : Inst K) :
    Py C :=
  weightedVoteWith (fun r => r.matchingMulti inst) rs

/-- argument `map_function` of `map_rule_variables` (tree/rule.py:191, 230-235). -/
inductive MapFun where
  | intersection
  | simmilarity
  | other
  deriving DecidableEq, Repr

/-- the key functions of lines 230-235 of tree/rule.py. -/
def MapFun.key [Field K] [LinearOrder K] (f : MapFun) (fs o : FSet K) : Py K :=
  match f with
  | .intersection => fs.intersection o
  | .simmilarity => fs.simmilarity o
  | .other => .error .valueError

/-- one condition of `map_rule_variables` (tree/rule.py:223-238). For an unsupported map function the `ValueError` of line
235 is raised after the look-ups; evaluating the keys of an empty destination gives the `ValueError` of `max`. -/
def mapClause [Field K] [LinearOrder K] (f : MapFun) (odict ddict : Dict String (List (FSet K))) (p : String × String) :
    Py (String × String) := do
  let osets ← Dict.get odict p.1
  let dsets ← Dict.get ddict p.1
  let ofs ← Dict.get (setDict osets) p.2
  let keys ← dsets.mapM (fun fs => f.key fs ofs)
  let best ← pyMax Prod.snd (dsets.zip keys)
  pure (p.1, best.1.name)

/-- `Rule.map_rule_variables` (tree/rule.py:190-240). -/
def Rule.mapVariables [Field K] [LinearOrder K] (r : Rule String C K) (origin dest : List (FVar K)) (f : MapFun) :
    Py (Rule String C K) := do
  let odict := varDict origin
  let ddict := varDict dest
  if (∀ k ∈ Dict.keys odict, k ∈ Dict.keys ddict) ∧ (∀ k ∈ Dict.keys ddict, k ∈ Dict.keys odict) then do
    let a ← r.antecedent.mapM (mapClause f odict ddict)
    pure { antecedent := a, consequent := r.consequent, weight := r.weight }
  else .error .valueError

end Teacher
