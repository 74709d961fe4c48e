import Verif.Model.Rounded
import Verif.Model.Factual

/-!
# Rules and factual explanations in floating point arithmetic

As `Model/Rounded` for tree/rule.py and explanation/_factual.py: every addition, multiplication and division is followed by the rounding `fl`.
`Rule.matching` with one value per condition only takes minima, so it is the function of `Model/Rule`; with several values per condition it adds
degrees. The number of rules, by which `m_factual` divides, is taken to be a number of the arithmetic.
-/

namespace Teacher

variable {V C K : Type} [Field K] [LinearOrder K]

/-- inner loop of `matching` with `multiple_antecedents=True` (tree/rule.py:81-84). -/
def sumValuesF (A : Arith K) (inst : Inst K) (feature : String) (values : List String) : Py K :=
  values.foldlM (fun m v => do let x ← lookup2 inst feature v; pure (A.fl (m + x))) 0

/-- `Rule.matching` with `multiple_antecedents=True` (tree/rule.py:77-87). -/
def Rule.matchingMultiF (A : Arith K) (r : Rule (List String) C K) (inst : Inst K) : Py K :=
  matchDegrees (r.antecedent.mapM (fun p => sumValuesF A inst p.1 p.2))

/-- `rule.matching(instance) * rule.weight`. -/
def actF (A : Arith K) (matching : Rule V C K → Py K) (r : Rule V C K) : Py K := do
  let m ← matching r
  pure (A.fl (m * r.weight))

/-- `rules.sort(key=lambda rule: rule.matching(instance) * rule.weight, reverse=True)`. -/
def sortByActF (A : Arith K) (matching : Rule V C K → Py K) (rs : List (Rule V C K)) : Py (List (Rule V C K)) := do
  let ks ← rs.mapM (actF A matching)
  pure (((rs.zip ks).insertionSort (fun a b => b.2 ≤ a.2)).map Prod.fst)

/-- the inner loop of `_robust_threshold` (explanation/_factual.py:50-53). -/
def classMassF [DecidableEq C] (A : Arith K) (matching : Rule V C K → Py K) (rs : List (Rule V C K)) (cv : C) : Py K :=
  rs.foldlM (fun th r => if r.consequent = cv then do let a ← actF A matching r; pure (A.fl (th + a)) else pure th) 0

/-- `_robust_threshold` (explanation/_factual.py:45-57). -/
def robustThresholdF [LinearOrder C] (A : Arith K) (matching : Rule V C K → Py K) (rs : List (Rule V C K)) (c : C) : Py K := do
  let others := npUnique ((rs.filter (fun r => r.consequent ≠ c)).map Rule.consequent)
  let ths ← others.mapM (classMassF A matching rs)
  pyMax id ths

/-- lines 103-105, 128-130 and 169-171 of explanation/_factual.py; the literal `0.001` is rounded. -/
def classFiredF [DecidableEq C] (A : Arith K) (matching : Rule V C K → Py K) (rs : List (Rule V C K)) (c : C) : Py (List (Rule V C K)) := do
  let fired ← firedRules matching rs (A.fl (1 / 1000))
  sortByActF A matching (classValueRules fired c)

/-- `reduce(lambda x, y: x + act(y), rules, 0)` (explanation/_factual.py:106). -/
def sumActF (A : Arith K) (matching : Rule V C K → Py K) (rs : List (Rule V C K)) : Py K :=
  rs.foldlM (fun x y => do let a ← actF A matching y; pure (A.fl (x + a))) 0

/-- Python's `/` on floats. -/
def pyDivF (A : Arith K) (a b : K) : Py K := if b = 0 then .error .zeroDivision else .ok (A.fl (a / b))

/-- `m_factual` (explanation/_factual.py:85-107). -/
def mFactualF [DecidableEq C] (A : Arith K) (matching : Rule V C K → Py K) (rs : List (Rule V C K)) (c : C) : Py (List (Rule V C K)) := do
  let cf ← classFiredF A matching rs c
  let s ← sumActF A matching cf
  let avg ← pyDivF A s (cf.length : K)
  filterPy (fun r => do let a ← actF A matching r; pure (decide (avg ≤ a))) cf

/-- the loop of `mr_factual` (explanation/_factual.py:133-140): `ad` is `AD_sum`. -/
def mrLoopF (A : Arith K) (matching : Rule V C K → Py K) (rt : K) : K → List (Rule V C K) → Py (List (Rule V C K))
  | _, [] => .ok []
  | ad, r :: rs =>
    if rt < ad then .ok []
    else do
      let a ← actF A matching r
      let rest ← mrLoopF A matching rt (A.fl (ad + a)) rs
      pure (r :: rest)

/-- `mr_factual` (explanation/_factual.py:110-141). -/
def mrFactualF [LinearOrder C] (A : Arith K) (matching : Rule V C K → Py K) (rs : List (Rule V C K)) (c : C) : Py (List (Rule V C K)) := do
  let cf ← classFiredF A matching rs c
  let rt ← robustThresholdF A matching rs c
  mrLoopF A matching rt 0 cf

/-- the loop of `c_factual` (explanation/_factual.py:175-186): `prev` is `prev_matching`, `ad` is `AD_sum`. -/
def cLoopF (A : Arith K) (matching : Rule V C K → Py K) (lam : K) (beta : Option K) : K → K → List (Rule V C K) → Py (List (Rule V C K))
  | _, _, [] => .ok []
  | prev, ad, r :: rs => do
    let m ← actF A matching r
    let factor ← pyDivF A prev m
    if A.fl (1 + lam) < factor ∧ betaReached beta ad = true then pure []
    else do
      let rest ← cLoopF A matching lam beta m (A.fl (ad + m)) rs
      pure (r :: rest)

/-- `c_factual` (explanation/_factual.py:144-188). -/
def cFactualF [DecidableEq C] (A : Arith K) (matching : Rule V C K → Py K) (rs : List (Rule V C K)) (c : C) (lam : K) (beta : Option K) :
    Py (List (Rule V C K)) := do
  let cf ← classFiredF A matching rs c
  match cf with
  | [] => .error .indexError
  | r :: rest => do
    let prev ← actF A matching r
    let more ← cLoopF A matching lam beta prev prev rest
    pure (r :: more)

end Teacher
