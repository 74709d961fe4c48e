import Verif.Model.Rule

/-!
# Model of `explanation/_factual.py`

`matching` stands for `rule.matching(instance)`: the functions below are used with `fun r => r.matching inst` and with
`fun r => r.matchingMulti inst`. The numbers are Python floats seen as elements of an ordered field, so a division by zero is
`ZeroDivisionError` (a numpy float with an activation of 0, possible only for a rule of weight 0, would give `inf` or nan in line 179).
-/

namespace Teacher

variable {V C K : Type} [Field K] [LinearOrder K]

/-- a Python list comprehension `[x for x in l if p(x)]` whose condition can raise. -/
def filterPy {α : Type} (p : α → Py Bool) : List α → Py (List α)
  | [] => .ok []
  | x :: xs => do
    let b ← p x
    let r ← filterPy p xs
    pure (if b then x :: r else r)

/-- `_fired_rules` (explanation/_factual.py:18-37). -/
def firedRules (matching : Rule V C K → Py K) (rs : List (Rule V C K)) (threshold : K) : Py (List (Rule V C K)) :=
  filterPy (fun r => do let m ← matching r; pure (decide (threshold < m))) rs

/-- `_get_class_value_rules` (explanation/_factual.py:40-42). -/
def classValueRules [DecidableEq C] (rs : List (Rule V C K)) (c : C) : List (Rule V C K) :=
  rs.filter (fun r => r.consequent = c)

/-- `rule.matching(instance) * rule.weight`. -/
def act (matching : Rule V C K → Py K) (r : Rule V C K) : Py K := do
  let m ← matching r
  pure (m * r.weight)

/-- `rules.sort(key=lambda rule: rule.matching(instance) * rule.weight, reverse=True)`: Python computes all the keys, then
sorts; the sort is stable, also with `reverse=True`. -/
def sortByAct (matching : Rule V C K → Py K) (rs : List (Rule V C K)) : Py (List (Rule V C K)) := do
  let ks ← rs.mapM (act matching)
  pure (((rs.zip ks).insertionSort (fun a b => b.2 ≤ a.2)).map Prod.fst)

/-- the inner loop of `_robust_threshold` (explanation/_factual.py:50-53). -/
def classMass [DecidableEq C] (matching : Rule V C K → Py K) (rs : List (Rule V C K)) (cv : C) : Py K :=
  rs.foldlM (fun th r => if r.consequent = cv then do let a ← act matching r; pure (th + a) else pure th) 0

/-- `_robust_threshold` (explanation/_factual.py:45-57); the `max` of an empty list is a `ValueError`. -/
def robustThreshold [LinearOrder C] (matching : Rule V C K → Py K) (rs : List (Rule V C K)) (c : C) : Py K := do
  let others := npUnique ((rs.filter (fun r => r.consequent ≠ c)).map Rule.consequent)
  let ths ← others.mapM (classMass matching rs)
  pyMax id ths

/-- `FID3_factual` (explanation/_factual.py:60-82). -/
def fid3Factual (matching : Rule V C K → Py K) (rs : List (Rule V C K)) (threshold : K) : Py (Rule V C K) := do
  let fired ← firedRules matching rs threshold
  let ks ← fired.mapM matching
  let best ← pyMax Prod.snd (fired.zip ks)
  pure best.1

/-- lines 103-105, 128-130 and 169-171 of explanation/_factual.py: fired rules of the class by decreasing activation; the
default threshold of `_fired_rules` is `0.001`. -/
def classFired [DecidableEq C] (matching : Rule V C K → Py K) (rs : List (Rule V C K)) (c : C) : Py (List (Rule V C K)) := do
  let fired ← firedRules matching rs (1 / 1000)
  sortByAct matching (classValueRules fired c)

/-- `reduce(lambda x, y: x + act(y), rules, 0)` (explanation/_factual.py:106). -/
def sumAct (matching : Rule V C K → Py K) (rs : List (Rule V C K)) : Py K :=
  rs.foldlM (fun x y => do let a ← act matching y; pure (x + a)) 0

/-- Python's `/` on floats. -/
def pyDiv (a b : K) : Py K := if b = 0 then .error .zeroDivision else .ok (a / b)

/-- `m_factual` (explanation/_factual.py:85-107). -/
def mFactual [DecidableEq C] (matching : Rule V C K → Py K) (rs : List (Rule V C K)) (c : C) : Py (List (Rule V C K)) := do
  let cf ← classFired matching rs c
  let s ← sumAct matching cf
  let avg ← pyDiv s (cf.length : K)
  filterPy (fun r => do let a ← act matching r; pure (decide (avg ≤ a))) cf

/-- the loop of `mr_factual` (explanation/_factual.py:133-140): `ad` is `AD_sum`. -/
def mrLoop (matching : Rule V C K → Py K) (rt : K) : K → List (Rule V C K) → Py (List (Rule V C K))
  | _, [] => .ok []
  | ad, r :: rs =>
    if rt < ad then .ok []
    else do
      let a ← act matching r
      let rest ← mrLoop matching rt (ad + a) rs
      pure (r :: rest)

/-- `mr_factual` (explanation/_factual.py:110-141). -/
def mrFactual [LinearOrder C] (matching : Rule V C K → Py K) (rs : List (Rule V C K)) (c : C) : Py (List (Rule V C K)) := do
  let cf ← classFired matching rs c
  let rt ← robustThreshold matching rs c
  mrLoop matching rt 0 cf

/-- line 180 of explanation/_factual.py: `beta is None or beta <= AD_sum`. -/
def betaReached (beta : Option K) (ad : K) : Bool :=
  match beta with
  | none => true
  | some b => decide (b ≤ ad)

/-- the loop of `c_factual` (explanation/_factual.py:175-186): `prev` is `prev_matching`, `ad` is `AD_sum`. -/
def cLoop (matching : Rule V C K → Py K) (lam : K) (beta : Option K) : K → K → List (Rule V C K) → Py (List (Rule V C K))
  | _, _, [] => .ok []
  | prev, ad, r :: rs => do
    let m ← act matching r
    let factor ← pyDiv prev m
    if 1 + lam < factor ∧ betaReached beta ad = true then pure []
    else do
      let rest ← cLoop matching lam beta m (ad + m) rs
      pure (r :: rest)

/-- `c_factual` (explanation/_factual.py:144-188); `class_fired_rules[0]` on an empty list is an `IndexError`. -/
def cFactual [DecidableEq C] (matching : Rule V C K → Py K) (rs : List (Rule V C K)) (c : C) (lam : K) (beta : Option K) :
    Py (List (Rule V C K)) := do
  let cf ← classFired matching rs c
  match cf with
  | [] => .error .indexError
  | r :: rest => do
    let prev ← act matching r
    let more ← cLoop matching lam beta prev prev rest
    pure (r :: more)

end Teacher
