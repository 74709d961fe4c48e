import Verif.Model.Rule

/-! # `Rule.matching` with a `t_norm` given by the caller (tree/rule.py:65-92) -/

namespace Teacher

variable {C K : Type}

/-- The `try … except KeyError: return 0` around the list of degrees and the call of `t_norm` (tree/rule.py:78-92). `T` is the function of
the caller; a `KeyError` that it raises is caught as well. -/
def matchDegreesWith [Zero K] (T : List K → Py K) (ms : Py (List K)) : Py K :=
  match ms.bind T with
  | .error .keyError => .ok 0
  | r => r

/-- `Rule.matching(instance, t_norm)` with `multiple_antecedents=False` (tree/rule.py:65-76, 88-92). -/
def Rule.matchingWith [Zero K] (T : List K → Py K) (r : Rule String C K) (inst : Inst K) : Py K :=
  matchDegreesWith T (r.antecedent.mapM (fun p => lookup2 inst p.1 p.2))

/-- `Rule.matching(instance, t_norm)` with `multiple_antecedents=True` (tree/rule.py:65-87). -/
def Rule.matchingMultiWith [Field K] (T : List K → Py K) (r : Rule (List String) C K) (inst : Inst K) : Py K :=
  matchDegreesWith T (r.antecedent.mapM (fun p => sumValues inst p.1 p.2))

end Teacher
