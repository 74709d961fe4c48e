import Verif.Model.Explainer

/-! # Specifications for the explainers -/

namespace Teacher.Spec

/-- a call of a method of an explainer; `A` are the arguments of `fit`. -/
inductive ExpCall (A : Type) where
  | fit (a : A)
  | explain
  | hit
  | write

/-- the arguments of the `fit` calls of a history, in order. -/
def fitCalls {A : Type} : List (ExpCall A) → List A
  | [] => []
  | .fit a :: cs => a :: fitCalls cs
  | _ :: cs => fitCalls cs

/-- the object after one call. -/
def afterCall {A K F G : Type} (fit : A → Act (EState K F G) Unit) (items : G → Py (List (String × String))) (s : EState K F G) :
    ExpCall A → EState K F G
  | .fit a => (fit a s).2
  | .explain => (explain s).2
  | .hit => (hit s).2
  | .write => (writeExplanation (fun _ => "") (fun _ => "") items s).2

/-- the object after a history of calls, starting with a new object. -/
def afterCalls {A K F G : Type} (fit : A → Act (EState K F G) Unit) (items : G → Py (List (String × String))) (cs : List (ExpCall A)) :
    EState K F G :=
  cs.foldl (afterCall fit items) {}

/-- `fit(a)` on a new object succeeds and gives the explanation `e`. -/
def FitGives {A K F G : Type} (fit : A → Act (EState K F G) Unit) (a : A) (e : F × G) : Prop :=
  (fit a {}).1 = .ok () ∧ (fit a {}).2.explanation = some e

/-- `fit(a)` on a new object raises. -/
def FitFails {A K F G : Type} (fit : A → Act (EState K F G) Unit) (a : A) : Prop := ∃ err, (fit a {}).1 = .error err

/-- the last element of `l` with property `P` is `a`. -/
def IsLastWith {A : Type} (P : A → Prop) (l : List A) (a : A) : Prop :=
  ∃ pre post, l = pre ++ a :: post ∧ P a ∧ ∀ b ∈ post, ¬ P b

/-- the names of the factual and counterfactual methods. -/
def factualNames : List String := ["m_factual", "mr_factual", "c_factual"]
def counterfactualNames : List String := ["i_counterfactual", "f_counterfactual", "d_counterfactual"]

/-- `inst` are the degrees of the memberships `im` of one instance. -/
def OneInstance {K : Type} (im : Memb K) (inst : Inst K) : Prop :=
  List.Forall₂ (fun p q => p.1 = q.1 ∧ List.Forall₂ (fun a b => a.1 = b.1 ∧ a.2 = [b.2]) p.2 q.2) im inst

end Teacher.Spec
