import Verif.Spec.Explainer
import Verif.Props.Factual
import Verif.Props.Counterfactual
import Verif.Props.FDTFitted
import Verif.Props.FBDTPredict
import Verif.Props.ID3More

/-! # C86-C88, C112-C115: the explainers -/

set_option linter.unusedSectionVars false

namespace Teacher

open Spec

/-! ### C86: call histories -/

section history
variable {K F G A : Type}

/-- `fit` of one of the two explainers: the effects have the order of `explainerFit`. -/
def IsFit (fit : A → Act (EState K F G) Unit) : Prop :=
  ∀ a, ∃ (T R : Type) (check : Py Unit) (target : Nat) (train : Py T) (fid : T → Py K) (conclude : T → Py (R × Nat))
    (finish : R → Nat → Py (F × G)), fit a = explainerFit check target train fid conclude finish

/-- what `fit` does to an object, in terms of what it does to a new one. -/
theorem explainerFit_effect {T R : Type} (check : Py Unit) (target : Nat) (train : Py T) (fid : T → Py K) (conclude : T → Py (R × Nat))
    (finish : R → Nat → Py (F × G)) (s : EState K F G) :
    let f := explainerFit check target train fid conclude finish
    (f s).1 = (f {}).1 ∧
    (f s).2.explanation = (f {}).2.explanation.or s.explanation ∧
    (f s).2.expValue = (f {}).2.expValue.or s.expValue ∧
    (f s).2.target = (f {}).2.target.or s.target ∧
    (f s).2.fidelity = (f {}).2.fidelity.or s.fidelity ∧
    ((f {}).1 = .ok () ↔ (f {}).2.explanation.isSome) ∧
    ((f {}).2.explanation.isSome → (f {}).2.expValue.isSome) ∧
    ((f {}).2.expValue.isSome → (f {}).2.target = some target) := by
  intro f
  simp only [f, explainerFit]
  cases check with
  | error e => simp
  | ok u =>
    cases train with
    | error e => simp
    | ok t =>
      dsimp only
      cases fid t with
      | error e => simp
      | ok k =>
        dsimp only
        cases conclude t with
        | error e => simp
        | ok rc =>
          obtain ⟨r, c⟩ := rc
          dsimp only
          cases finish r c with
          | error e => simp
          | ok x => simp

theorem isFit_effect {fit : A → Act (EState K F G) Unit} (hf : IsFit fit) (a : A) (s : EState K F G) :
    (fit a s).1 = (fit a {}).1 ∧
    (fit a s).2.explanation = (fit a {}).2.explanation.or s.explanation ∧
    (fit a s).2.expValue = (fit a {}).2.expValue.or s.expValue ∧
    (fit a s).2.target = (fit a {}).2.target.or s.target ∧
    ((fit a {}).1 = .ok () ↔ (fit a {}).2.explanation.isSome) ∧
    ((fit a {}).2.explanation.isSome → (fit a {}).2.expValue.isSome) ∧
    ((fit a {}).2.expValue.isSome → (fit a {}).2.target.isSome) := by
  obtain ⟨T, R, c, t, tr, fi, co, fn, h⟩ := hf a
  rw [h]
  obtain ⟨h1, h2, h3, h4, -, h5, h6, h7⟩ := explainerFit_effect c t tr fi co fn s
  exact ⟨h1, h2, h3, h4, h5, h6, fun x => by rw [h7 x]; rfl⟩

theorem afterCall_other (fit : A → Act (EState K F G) Unit) (items : G → Py (List (String × String))) (s : EState K F G) :
    afterCall fit items s .explain = s ∧ afterCall fit items s .hit = s ∧ afterCall fit items s .write = s := by
  refine ⟨?_, ?_, ?_⟩
  · simp only [afterCall, explain]; split <;> rfl
  · simp only [afterCall, hit]; split <;> rfl
  · simp only [afterCall, writeExplanation]; split <;> rfl

theorem foldl_afterCall (fit : A → Act (EState K F G) Unit) (items : G → Py (List (String × String))) (cs : List (ExpCall A))
    (s : EState K F G) : cs.foldl (afterCall fit items) s = (fitCalls cs).foldl (fun s a => (fit a s).2) s := by
  induction cs generalizing s with
  | nil => rfl
  | cons c cs ih =>
    obtain ⟨h1, h2, h3⟩ := afterCall_other fit items s
    cases c with
    | fit a => simp only [List.foldl_cons, fitCalls]; exact ih _
    | explain => simp only [List.foldl_cons, fitCalls, h1]; exact ih _
    | hit => simp only [List.foldl_cons, fitCalls, h2]; exact ih _
    | write => simp only [List.foldl_cons, fitCalls, h3]; exact ih _

/-- an attribute that a call either sets or leaves. -/
theorem foldl_lastSet {S B : Type} (step : S → A → S) (attr : S → Option B) (sets : A → Option B)
    (h : ∀ s a, attr (step s a) = (sets a).or (attr s)) (as : List A) (s : S) :
    (∀ b, attr (as.foldl step s) = some b ↔
      (∃ a, IsLastWith (fun a => (sets a).isSome) as a ∧ sets a = some b) ∨ ((∀ a ∈ as, sets a = none) ∧ attr s = some b)) ∧
    (attr (as.foldl step s) = none ↔ (∀ a ∈ as, sets a = none) ∧ attr s = none) := by
  induction as using List.reverseRecOn with
  | nil =>
    refine ⟨fun b => ?_, by simp⟩
    simp only [List.foldl_nil, List.not_mem_nil, false_implies, implies_true, true_and]
    constructor
    · exact Or.inr
    · rintro (⟨a, ⟨pre, post, he, -⟩, -⟩ | h)
      · simp at he
      · exact h
  | append_singleton l a ih =>
    rw [List.foldl_append, List.foldl_cons, List.foldl_nil, h]
    cases hs : sets a with
    | some b =>
      refine ⟨fun b' => ?_, ?_⟩
      · simp only [Option.some_or]
        constructor
        · intro e
          refine Or.inl ⟨a, ⟨l, [], rfl, by simp [hs], by simp⟩, by rw [hs, e]⟩
        · rintro (⟨a', ⟨pre, post, he, h1, h2⟩, h3⟩ | h3)
          · cases post using List.reverseRecOn with
            | nil =>
              obtain ⟨-, e⟩ := List.append_inj' he (by simp)
              simp only [List.cons.injEq, and_true] at e
              rw [e, h3] at hs
              exact hs.symm
            | append_singleton post q _ =>
              rw [← List.cons_append, ← List.append_assoc] at he
              obtain ⟨-, e⟩ := List.append_inj' he (by simp)
              simp only [List.cons.injEq, and_true] at e
              exact absurd (show (sets q).isSome = true by rw [← e, hs]; rfl) (h2 q (by simp))
          · have := h3.1 a (by simp)
            rw [hs] at this; cases this
      · simp only [Option.some_or, reduceCtorEq, false_iff, not_and]
        intro h3
        have := h3 a (by simp)
        rw [hs] at this; cases this
    | none =>
      simp only [Option.none_or]
      have hall : (∀ x ∈ l ++ [a], sets x = none) ↔ ∀ x ∈ l, sets x = none := by
        constructor
        · intro g x hx; exact g x (by simp [hx])
        · intro g x hx
          rcases List.mem_append.1 hx with hx | hx
          · exact g x hx
          · rw [List.mem_singleton.1 hx, hs]
      have hlast : ∀ x, IsLastWith (fun a => (sets a).isSome) (l ++ [a]) x ↔ IsLastWith (fun a => (sets a).isSome) l x := by
        intro x
        constructor
        · rintro ⟨pre, post, he, h1, h2⟩
          cases post using List.reverseRecOn with
          | nil =>
            obtain ⟨-, e⟩ := List.append_inj' he (by simp)
            simp only [List.cons.injEq, and_true] at e
            rw [← e, hs] at h1; simp at h1
          | append_singleton post q _ =>
            rw [← List.cons_append, ← List.append_assoc] at he
            obtain ⟨e, -⟩ := List.append_inj' he (by simp)
            exact ⟨pre, post, e, h1, fun b hb => h2 b (by simp [hb])⟩
        · rintro ⟨pre, post, he, h1, h2⟩
          refine ⟨pre, post ++ [a], by rw [he]; simp, h1, ?_⟩
          intro b hb
          rcases List.mem_append.1 hb with hb | hb
          · exact h2 b hb
          · rw [List.mem_singleton.1 hb]; simp [hs]
      simp only [hlast, hall]
      exact ih

/-- C86, `explain` (for any object whose `fit` has the effects of the two explainers). -/
theorem explain_history {fit : A → Act (EState K F G) Unit} (hf : IsFit fit) (items : G → Py (List (String × String)))
    (cs : List (ExpCall A)) :
    (∀ e, (explain (afterCalls fit items cs)).1 = .ok e ↔
      ∃ a, IsLastWith (fun a => ¬ FitFails fit a) (fitCalls cs) a ∧ FitGives fit a e) ∧
    ((explain (afterCalls fit items cs)).1 = .error .notFitted ↔ ∀ a ∈ fitCalls cs, FitFails fit a) := by
  have hff : ∀ a, (fit a {}).2.explanation = none ↔ FitFails fit a := by
    intro a
    obtain ⟨-, -, -, -, h5, -⟩ := isFit_effect hf a {}
    constructor
    · intro h
      rw [h] at h5
      cases hr : (fit a {}).1 with
      | error e => exact ⟨e, hr⟩
      | ok u => rw [hr] at h5; simp at h5
    · rintro ⟨e, he⟩
      rw [he] at h5
      simpa using h5
  have hP : (fun a => ((fit a {}).2.explanation).isSome = true) = (fun a => ¬ FitFails fit a) := by
    funext a
    rw [← hff, Option.isSome_iff_ne_none]
  obtain ⟨k1, k2⟩ := foldl_lastSet (fun s a => (fit a s).2) EState.explanation (fun a => (fit a {}).2.explanation)
    (fun s a => (isFit_effect hf a s).2.1) (fitCalls cs) {}
  rw [← foldl_afterCall fit items] at k1 k2
  constructor
  · intro e
    have he : (explain (afterCalls fit items cs)).1 = .ok e ↔ (afterCalls fit items cs).explanation = some e := by
      unfold explain
      cases (afterCalls fit items cs).explanation <;> simp
    rw [he]
    refine (k1 e).trans ?_
    rw [hP]
    constructor
    · rintro (⟨a, h1, h2⟩ | ⟨-, h2⟩)
      · exact ⟨a, h1, (isFit_effect hf a {}).2.2.2.2.1.2 (by rw [h2]; rfl), h2⟩
      · cases h2
    · rintro ⟨a, h1, h2⟩
      exact Or.inl ⟨a, h1, h2.2⟩
  · have he : (explain (afterCalls fit items cs)).1 = .error .notFitted ↔ (afterCalls fit items cs).explanation = none := by
      unfold explain
      cases (afterCalls fit items cs).explanation <;> simp
    rw [he]
    refine k2.trans ?_
    simp only [and_true]
    exact forall₂_congr (fun a _ => hff a)

/-- C86, `hit`. -/
theorem hit_history {fit : A → Act (EState K F G) Unit} (hf : IsFit fit) (items : G → Py (List (String × String)))
    (cs : List (ExpCall A)) :
    ((hit (afterCalls fit items cs)).1 = .error .notFitted ↔ ∀ a ∈ fitCalls cs, (fit a {}).2.expValue = none) ∧
    ((∃ a ∈ fitCalls cs, ¬ FitFails fit a) → ∃ b, (hit (afterCalls fit items cs)).1 = .ok b) ∧
    ∀ pre a, fitCalls cs = pre ++ [a] → ¬ FitFails fit a →
      ∃ c t, (fit a {}).2.expValue = some c ∧ (fit a {}).2.target = some t ∧
        (hit (afterCalls fit items cs)).1 = .ok (decide (c = t)) := by
  obtain ⟨-, k2⟩ := foldl_lastSet (fun s a => (fit a s).2) EState.expValue (fun a => (fit a {}).2.expValue)
    (fun s a => (isFit_effect hf a s).2.2.1) (fitCalls cs) {}
  have htarget : ∀ as : List A, (as.foldl (fun s a => (fit a s).2) {}).expValue.isSome → (as.foldl (fun s a => (fit a s).2) {}).target.isSome := by
    intro as
    induction as using List.reverseRecOn with
    | nil => intro h; simp at h
    | append_singleton l a ih =>
      rw [List.foldl_append, List.foldl_cons, List.foldl_nil]
      obtain ⟨-, -, h3, h4, -, -, h7⟩ := isFit_effect hf a (l.foldl (fun s a => (fit a s).2) {})
      rw [h3, h4]
      cases he : (fit a {}).2.expValue with
      | some c => intro _; have := h7 (by rw [he]; rfl); obtain ⟨t, ht⟩ := Option.isSome_iff_exists.1 this; rw [ht]; rfl
      | none =>
        intro h
        simp only [Option.none_or] at h
        obtain ⟨t, ht⟩ := Option.isSome_iff_exists.1 (ih h)
        rw [ht]
        cases (fit a {}).2.target <;> rfl
  have htg := htarget (fitCalls cs)
  rw [← foldl_afterCall fit items] at k2 htg
  have h1 : (hit (afterCalls fit items cs)).1 = .error .notFitted ↔ ∀ a ∈ fitCalls cs, (fit a {}).2.expValue = none := by
    have he : (hit (afterCalls fit items cs)).1 = .error .notFitted ↔ (afterCalls fit items cs).expValue = none := by
      unfold hit
      cases h1 : (afterCalls fit items cs).expValue with
      | none => simp
      | some c =>
        have : (afterCalls fit items cs).target.isSome := htg (show (afterCalls fit items cs).expValue.isSome = true by rw [h1]; rfl)
        obtain ⟨t, ht⟩ := Option.isSome_iff_exists.1 this
        rw [ht]
        simp
    rw [he]
    refine k2.trans ?_
    simp
  refine ⟨h1, ?_, ?_⟩
  · rintro ⟨a, ha, hnf⟩
    cases hh : (hit (afterCalls fit items cs)).1 with
    | ok b => exact ⟨b, rfl⟩
    | error e =>
      exfalso
      have he : e = .notFitted := by
        unfold hit at hh
        split at hh
        · cases hh
        · cases hh; rfl
      rw [he] at hh
      have := h1.1 hh a ha
      obtain ⟨-, -, -, -, h5, h6, -⟩ := isFit_effect hf a {}
      rw [this] at h6
      apply hnf
      cases hr : (fit a {}).1 with
      | error e => exact ⟨e, hr⟩
      | ok u =>
        have := h6 (h5.1 hr)
        simp at this
  · intro pre a hp hnf
    obtain ⟨-, -, -, -, h5, h6, h7⟩ := isFit_effect hf a {}
    have hok : (fit a {}).1 = .ok () := by
      cases hr : (fit a {}).1 with
      | error e => exact absurd ⟨e, hr⟩ hnf
      | ok u => rfl
    obtain ⟨c, hc⟩ := Option.isSome_iff_exists.1 (h6 (h5.1 hok))
    obtain ⟨t, ht⟩ := Option.isSome_iff_exists.1 (h7 (h6 (h5.1 hok)))
    refine ⟨c, t, hc, ht, ?_⟩
    have hst : afterCalls fit items cs = (fit a (pre.foldl (fun s a => (fit a s).2) {})).2 := by
      show cs.foldl (afterCall fit items) {} = _
      rw [foldl_afterCall, hp, List.foldl_append]
      rfl
    obtain ⟨-, -, h3, h4, -⟩ := isFit_effect hf a (pre.foldl (fun s a => (fit a s).2) {})
    unfold hit
    rw [hst, h3, h4, hc, ht]
    simp

end history

section
variable {K : Type} [Field K] [LinearOrder K]

theorem isFit_fdt (cx : ExpCtx K) : IsFit (fdtExplainerFit cx) := fun _ => ⟨_, _, _, _, _, _, _, _, rfl⟩

theorem isFit_fbdt [NanSort K] (cx : ExpCtx K) : IsFit (fbdtExplainerFit cx) := fun _ => ⟨_, _, _, _, _, _, _, _, rfl⟩

/-- C86 for `FDTExplainer`: after any history of calls `explain` returns the explanation of the last `fit` that succeeded, and raises
`NotFittedError` exactly when no `fit` succeeded. -/
theorem C86_explain_fdt (cx : ExpCtx K) (items : Changes → Py (List (String × String))) (cs : List (ExpCall (ExpArgs K))) :
    (∀ e, (explain (afterCalls (fdtExplainerFit cx) items cs)).1 = .ok e ↔
      ∃ a, IsLastWith (fun a => ¬ FitFails (fdtExplainerFit cx) a) (fitCalls cs) a ∧ FitGives (fdtExplainerFit cx) a e) ∧
    ((explain (afterCalls (fdtExplainerFit cx) items cs)).1 = .error .notFitted ↔ ∀ a ∈ fitCalls cs, FitFails (fdtExplainerFit cx) a) :=
  explain_history (isFit_fdt cx) items cs

/-- C86 for `FBDTExplainer`. -/
theorem C86_explain_fbdt [NanSort K] (cx : ExpCtx K) (items : String → Py (List (String × String))) (cs : List (ExpCall (ExpArgs K))) :
    (∀ e, (explain (afterCalls (fbdtExplainerFit cx) items cs)).1 = .ok e ↔
      ∃ a, IsLastWith (fun a => ¬ FitFails (fbdtExplainerFit cx) a) (fitCalls cs) a ∧ FitGives (fbdtExplainerFit cx) a e) ∧
    ((explain (afterCalls (fbdtExplainerFit cx) items cs)).1 = .error .notFitted ↔ ∀ a ∈ fitCalls cs, FitFails (fbdtExplainerFit cx) a) :=
  explain_history (isFit_fbdt cx) items cs

theorem explainerFit_target {F G T R : Type} (check : Py Unit) (target : Nat) (train : Py T) (fid : T → Py K) (conclude : T → Py (R × Nat))
    (finish : R → Nat → Py (F × G)) (t : Nat) (h : (explainerFit check target train fid conclude finish {}).2.target = some t) : t = target := by
  simp only [explainerFit] at h
  cases check with
  | error e => simp at h
  | ok u =>
    cases train with
    | error e => simp at h; exact h.symm
    | ok tt =>
      dsimp only at h
      cases hf : fid tt with
      | error e => simp [hf] at h; exact h.symm
      | ok k =>
        simp only [hf] at h
        cases hc : conclude tt with
        | error e => simp [hc] at h; exact h.symm
        | ok rc =>
          obtain ⟨r, c⟩ := rc
          simp only [hc] at h
          cases hn : finish r c with
          | error e => simp [hn] at h; exact h.symm
          | ok x => simp [hn] at h; exact h.symm

/-- C86, the part of `hit` that holds: it raises when `fit` was never called, answers as soon as some `fit` succeeded, and when the last `fit`
succeeded it says whether the class found by that `fit` is its target. Missing: a `fit` that raises can make `hit` answer (`C86_hit_false`) or
change its answer (`C86_stale_false`). -/
theorem C86_hit_partial (cx : ExpCtx K) (items : Changes → Py (List (String × String))) (cs : List (ExpCall (ExpArgs K))) :
    (fitCalls cs = [] → (hit (afterCalls (fdtExplainerFit cx) items cs)).1 = .error .notFitted) ∧
    ((∃ a ∈ fitCalls cs, ¬ FitFails (fdtExplainerFit cx) a) → ∃ b, (hit (afterCalls (fdtExplainerFit cx) items cs)).1 = .ok b) ∧
    ∀ pre a, fitCalls cs = pre ++ [a] → ¬ FitFails (fdtExplainerFit cx) a →
      ∃ c, (fdtExplainerFit cx a {}).2.expValue = some c ∧
        (hit (afterCalls (fdtExplainerFit cx) items cs)).1 = .ok (decide (c = a.target)) := by
  obtain ⟨h1, h2, h3⟩ := hit_history (isFit_fdt cx) items cs
  refine ⟨fun h => h1.2 (by rw [h]; simp), h2, ?_⟩
  intro pre a hp hnf
  obtain ⟨c, t, hc, ht, hh⟩ := h3 pre a hp hnf
  have := explainerFit_target _ _ _ _ _ _ t ht
  exact ⟨c, hc, by rw [hh, this]⟩

/-- C86, `hit` of an `FBDTExplainer`. -/
theorem C86_hit_fbdt_partial [NanSort K] (cx : ExpCtx K) (items : String → Py (List (String × String))) (cs : List (ExpCall (ExpArgs K))) :
    (fitCalls cs = [] → (hit (afterCalls (fbdtExplainerFit cx) items cs)).1 = .error .notFitted) ∧
    ((∃ a ∈ fitCalls cs, ¬ FitFails (fbdtExplainerFit cx) a) → ∃ b, (hit (afterCalls (fbdtExplainerFit cx) items cs)).1 = .ok b) ∧
    ∀ pre a, fitCalls cs = pre ++ [a] → ¬ FitFails (fbdtExplainerFit cx) a →
      ∃ c, (fbdtExplainerFit cx a {}).2.expValue = some c ∧
        (hit (afterCalls (fbdtExplainerFit cx) items cs)).1 = .ok (decide (c = a.target)) := by
  obtain ⟨h1, h2, h3⟩ := hit_history (isFit_fbdt cx) items cs
  refine ⟨fun h => h1.2 (by rw [h]; simp), h2, ?_⟩
  intro pre a hp hnf
  obtain ⟨c, t, hc, ht, hh⟩ := h3 pre a hp hnf
  have := explainerFit_target _ _ _ _ _ _ t ht
  exact ⟨c, hc, by rw [hh, this]⟩

end

/-! examples -/

def expCtx : ExpCtx ℚ := ⟨exEnt, id, fun _ _ _ => false, fun _ => .error .valueError, fun _ _ _ _ _ _ => .ok 0⟩
def expRow : List (Cell ℚ) := [.num 2, .str "m"]
def expNb : NState ℚ where
  X := some ⟨["age", "sex"], exX⟩
  y := some exY
  vars := some (exParams.vars.map some)
  instMem := (datasetMembership [expRow] exParams.vars).toOption
  decodedInst := some expRow
def expArgs (f c : String) (kw : ExpKw ℚ) (target : Nat) : ExpArgs ℚ := ⟨[expRow], target, expNb, ["age"], f, c, kw⟩

/-- fit, explain, hit of the example. -/
theorem expFit_mi : fdtExplainerFit expCtx (expArgs "m_factual" "i_counterfactual" {} 0) {} =
    (.ok (), ⟨some 0, some 0, some 1, some ([⟨[("age", "1"), ("sex", "m")], 0, 1⟩], some [("age", "3")])⟩) := by
  decide +kernel

/-- a history: a failing call without data, `explain`, the fit of the example, `hit`. -/
def expHistory : List (ExpCall (ExpArgs ℚ)) :=
  [.explain, .fit ⟨[expRow], 1, {}, ["age"], "m_factual", "i_counterfactual", {}⟩, .explain,
    .fit (expArgs "m_factual" "i_counterfactual" {} 0), .hit]

set_option synthInstance.maxSize 1000 in
set_option synthInstance.maxHeartbeats 200000 in
example : (explain (afterCalls (fdtExplainerFit expCtx) (changesItems id) (expHistory.take 3))).1 = .error .notFitted ∧
    (explain (afterCalls (fdtExplainerFit expCtx) (changesItems id) expHistory)).1 =
      .ok ([⟨[("age", "1"), ("sex", "m")], 0, 1⟩], some [("age", "3")]) ∧
    (hit (afterCalls (fdtExplainerFit expCtx) (changesItems id) expHistory)).1 = .ok true := by
  decide +kernel

/-- C86 is false of `hit`: a `fit` that raises (here `lam` for a method without it) can leave the object with an answer. -/
theorem C86_hit_false : ∃ a : ExpArgs ℚ, FitFails (fdtExplainerFit expCtx) a ∧
    (explain (afterCalls (fdtExplainerFit expCtx) (changesItems id) [.fit a])).1 = .error .notFitted ∧
    (hit (afterCalls (fdtExplainerFit expCtx) (changesItems id) [.fit a])).1 = .ok true :=
  ⟨expArgs "m_factual" "i_counterfactual" { lam := some (1 / 10) } 0, ⟨.typeError, by decide +kernel⟩, by decide +kernel, by decide +kernel⟩

/-- C86 is false of `hit` after a second `fit` that raises: `explain` still returns the first explanation, whose value was equal to its target,
and `hit` compares that value with the target of the second call. -/
theorem C86_stale_false : ∃ a b : ExpArgs ℚ, ¬ FitFails (fdtExplainerFit expCtx) a ∧ FitFails (fdtExplainerFit expCtx) b ∧
    (explain (afterCalls (fdtExplainerFit expCtx) (changesItems id) [.fit a, .fit b])).1 =
      (explain (afterCalls (fdtExplainerFit expCtx) (changesItems id) [.fit a])).1 ∧
    (hit (afterCalls (fdtExplainerFit expCtx) (changesItems id) [.fit a])).1 = .ok true ∧
    (hit (afterCalls (fdtExplainerFit expCtx) (changesItems id) [.fit a, .fit b])).1 = .ok false := by
  refine ⟨expArgs "m_factual" "i_counterfactual" {} 0, ⟨[expRow], 1, {}, ["age"], "m_factual", "i_counterfactual", {}⟩, ?_,
    ⟨.notFuzzified, by decide +kernel⟩, by decide +kernel, by decide +kernel, by decide +kernel⟩
  rintro ⟨e, he⟩
  rw [expFit_mi] at he
  cases he

/-! ### C88: what a successful fit gives -/

section
variable {K : Type} [Field K] [LinearOrder K]

theorem explainerFit_ok {F G T R : Type} {check : Py Unit} {target : Nat} {train : Py T} {fid : T → Py K} {conclude : T → Py (R × Nat)}
    {finish : R → Nat → Py (F × G)} {s s' : EState K F G} (h : explainerFit check target train fid conclude finish s = (.ok (), s')) :
    ∃ t f r c x, check = .ok () ∧ train = .ok t ∧ fid t = .ok f ∧ conclude t = .ok (r, c) ∧ finish r c = .ok x ∧
      s' = ⟨some target, some c, some f, some x⟩ := by
  simp only [explainerFit] at h
  cases check with
  | error e => simp at h
  | ok u =>
    cases train with
    | error e => simp at h
    | ok tt =>
      dsimp only at h
      cases hf : fid tt with
      | error e => simp [hf] at h
      | ok k =>
        simp only [hf] at h
        cases hc : conclude tt with
        | error e => simp [hc] at h
        | ok rc =>
          obtain ⟨r, c⟩ := rc
          simp only [hc] at h
          cases hn : finish r c with
          | error e => simp [hn] at h
          | ok x =>
            simp only [hn, Prod.mk.injEq, true_and] at h
            exact ⟨tt, k, r, c, x, rfl, rfl, hf, hc, hn, h.symm⟩

theorem scalarInst_ok_iff (m : Memb K) (inst : Inst K) : scalarInst m = .ok inst ↔ OneInstance m inst := by
  unfold scalarInst OneInstance
  rw [mapM_ok_iff]
  constructor
  · intro h
    refine h.imp ?_
    intro p q hpq
    rw [py_bind_eq_ok] at hpq
    obtain ⟨d, h1, h2⟩ := hpq
    cases h2
    refine ⟨rfl, ?_⟩
    rw [mapM_ok_iff] at h1
    refine h1.imp ?_
    intro a b hab
    obtain ⟨n, xs⟩ := a
    cases xs with
    | nil => simp at hab
    | cons x xs =>
      cases xs with
      | nil => simp only [Except.ok.injEq] at hab; subst hab; exact ⟨rfl, rfl⟩
      | cons y ys => simp at hab
  · intro h
    refine h.imp ?_
    rintro ⟨f, d⟩ ⟨f', d'⟩ ⟨h1, h2⟩
    simp only at h1 h2
    subst h1
    rw [py_bind_eq_ok]
    refine ⟨d', ?_, rfl⟩
    rw [mapM_ok_iff]
    refine h2.imp ?_
    rintro ⟨n, xs⟩ ⟨n', x⟩ ⟨h3, h4⟩
    simp only at h3 h4
    subst h3; subst h4
    rfl

theorem oneInstance_keys {m : Memb K} {inst : Inst K} (h : OneInstance m inst) : Dict.keys inst = Dict.keys m := by
  unfold OneInstance at h
  induction h with
  | nil => rfl
  | cons h _ ih =>
    simp only [Dict.keys, List.map_cons] at ih ⊢
    rw [h.1, ih]

theorem filterPy_total {α : Type} {f : α → Py Bool} {l out : List α} (h : filterPy f l = .ok out) : ∀ a ∈ l, ∃ b, f a = .ok b := by
  induction l generalizing out with
  | nil => simp
  | cons a l ih =>
    simp only [filterPy] at h
    rw [py_bind_eq_ok] at h
    obtain ⟨b, h1, h2⟩ := h
    rw [py_bind_eq_ok] at h2
    obtain ⟨r, h2, -⟩ := h2
    intro x hx
    rcases List.mem_cons.1 hx with rfl | hx
    · exact ⟨b, h1⟩
    · exact ih h2 x hx

theorem classFired_total {V C : Type} [DecidableEq C] {matching : Rule V C K → Py K} {rs out : List (Rule V C K)} {c : C}
    (h : classFired matching rs c = .ok out) : ∀ r ∈ rs, ∃ d, matching r = .ok d := by
  unfold classFired at h
  rw [py_bind_eq_ok] at h
  obtain ⟨fired, h1, -⟩ := h
  intro r hr
  obtain ⟨b, hb⟩ := filterPy_total h1 r hr
  rw [py_bind_eq_ok] at hb
  obtain ⟨d, hd, -⟩ := hb
  exact ⟨d, hd⟩

theorem runFactual_cases {V : Type} {m : Option FMethod} {kw : ExpKw K} {rest : Bool} {matching : Rule V Nat K → Py K}
    {rs out : List (Rule V Nat K)} {c : Nat} (h : runFactual m kw rest matching rs c = .ok out) :
    (mFactual matching rs c = .ok out ∨ mrFactual matching rs c = .ok out ∨ ∃ lam beta, cFactual matching rs c lam beta = .ok out) ∧
    ∃ cf, classFired matching rs c = .ok cf := by
  have key : mFactual matching rs c = .ok out ∨ mrFactual matching rs c = .ok out ∨
      ∃ lam beta, cFactual matching rs c lam beta = .ok out := by
    unfold runFactual at h
    split at h
    · cases h
    · split at h
      · split at h
        · cases h
        · exact Or.inl h
      · split at h
        · cases h
        · exact Or.inr (Or.inl h)
      · split at h
        · exact Or.inr (Or.inr ⟨_, _, h⟩)
        · cases h
      · cases h
  refine ⟨key, ?_⟩
  rcases key with h | h | ⟨lam, beta, h⟩
  · unfold mFactual at h
    rw [py_bind_eq_ok] at h
    obtain ⟨cf, h1, -⟩ := h
    exact ⟨cf, h1⟩
  · unfold mrFactual at h
    rw [py_bind_eq_ok] at h
    obtain ⟨cf, h1, -⟩ := h
    exact ⟨cf, h1⟩
  · unfold cFactual at h
    rw [py_bind_eq_ok] at h
    obtain ⟨cf, h1, -⟩ := h
    exact ⟨cf, h1⟩

end

section
variable {K : Type} [Field K] [LinearOrder K] [IsStrictOrderedRing K]

/-- the rules of a factual explanation: rules of the list, of the class, that match the instance. -/
theorem runFactual_ok {V : Type} {m : Option FMethod} {kw : ExpKw K} {rest : Bool} {matching : Rule V Nat K → Py K}
    {rs out : List (Rule V Nat K)} {c : Nat} (h : runFactual m kw rest matching rs c = .ok out) :
    ∀ r ∈ out, r ∈ rs ∧ r.consequent = c ∧ ∃ d, matching r = .ok d ∧ 1 / 1000 < d := by
  obtain ⟨h1, cf, h2⟩ := runFactual_cases h
  have htot := classFired_total h2
  let deg : Rule V Nat K → K := fun r => match matching r with | .ok d => d | .error _ => 0
  have hdeg : ∀ r ∈ rs, matching r = .ok (deg r) := by
    intro r hr
    obtain ⟨d, hd⟩ := htot r hr
    simp [deg, hd]
  obtain ⟨h3, -⟩ := C52_only_fired_rules matching deg rs hdeg c out h1
  intro r hr
  obtain ⟨h4, h5, h6⟩ := h3 r hr
  exact ⟨h4, h5, deg r, hdeg r h4, h6⟩

theorem expGetter_ok {α : Type} {field : NState K → Option α} {e : PyErr} {s : NState K} {x : α} (h : (getter field e s).1 = .ok x) :
    field s = some x := by
  unfold getter at h
  cases hf : field s with
  | none => rw [hf] at h; cases h
  | some v => rw [hf] at h; cases h; rfl

theorem orError_ok {α : Type} {o : Option α} {e : PyErr} {x : α} (h : orError o e = .ok x) : o = some x := by
  unfold orError at h
  split at h
  · cases h; rfl
  · cases h

theorem expParams_ok {vars : List (Option (FVar K))} {kw : ExpKw K} {p : FDTParams K} (h : expParams vars kw = .ok p) :
    vars = p.vars.map some ∧ p.fuzzyThreshold = kw.fuzzyThreshold.getD (1 / 10000) ∧ p.maxDepth = kw.maxDepth.getD 10 ∧
      p.minNumExamples = kw.minNumExamples.getD 1 := by
  unfold expParams at h
  rw [py_bind_eq_ok] at h
  obtain ⟨vs, h1, h2⟩ := h
  cases h2
  refine ⟨?_, rfl, rfl, rfl⟩
  rw [mapM_ok_iff] at h1
  simp only
  induction h1 with
  | nil => rfl
  | cons h _ ih => rw [List.map_cons, ← ih, orError_ok h]

/-- the parameters a fit gives to the local tree. -/
def TreeParams (a : ExpArgs K) (p : FDTParams K) : Prop :=
  a.nb.vars = some (p.vars.map some) ∧ p.fuzzyThreshold = a.kw.fuzzyThreshold.getD (1 / 10000) ∧ p.maxDepth = a.kw.maxDepth.getD 10 ∧
    p.minNumExamples = a.kw.minNumExamples.getD 1

/-- C88: after `FDTExplainer.fit` succeeds, there are a tree `t` fitted to the neighborhood, its rules `rs` and the class `c` that the tree
predicts for the instance, such that `exp_value` is `c`, every rule of the factual is a rule of the tree with consequent `c` that matches the
memberships of the instance, and the changes of the counterfactual, if any, make the weighted vote of the rules return another class. -/
theorem C88_explains_tree (cx : ExpCtx K) (a : ExpArgs K) (hdict : ∀ im, a.nb.instMem = some im → (Dict.keys im).Nodup)
    (s s' : EState K (List (Rule String Nat K)) Changes) (h : fdtExplainerFit cx a s = (.ok (), s')) :
    ∃ (p : FDTParams K) (X : Frame K) (y : List Nat) (t : FNode Nat K) (rs : List (Rule String Nat K)) (c : Nat) (im : Memb K) (inst : Inst K)
      (fact : List (Rule String Nat K)) (cf : Changes),
      TreeParams a p ∧ a.nb.X = some X ∧ a.nb.y = some y ∧ fdtFit cx.ent cx.ord p fdtNew X.rows y = .ok t ∧
      fdtToRules t false false = .ok rs ∧ fdtPredict min .agg t [a.inst.flatten] = .ok [[c]] ∧
      a.nb.instMem = some im ∧ OneInstance im inst ∧
      s'.target = some a.target ∧ s'.expValue = some c ∧ s'.explanation = some (fact, cf) ∧
      (∀ r ∈ fact, r ∈ rs ∧ r.consequent = c ∧ ∃ d, r.matching inst = .ok d ∧ 1 / 1000 < d) ∧
      ∀ ch, cf = some ch → ∃ inst' c', Moved inst ch inst' ∧ weightedVote rs inst' = .ok c' ∧ c' ≠ c := by
  obtain ⟨⟨⟨d, t⟩, pr⟩, f, ⟨d', rs⟩, c, ⟨fact, cf⟩, -, h2, h3, h4, h5, rfl⟩ := explainerFit_ok h
  unfold fdtTrain at h2
  simp only [py_bind_eq_ok] at h2
  obtain ⟨d1, hd, t1, ht, out, ho, pr1, hp, he⟩ := h2
  cases he
  unfold fdtData at hd
  simp only [py_bind_eq_ok] at hd
  obtain ⟨vars, hv, im, him, dec, hdec, X, hX, y, hy, -, -, p, hpar, he⟩ := hd
  cases he
  obtain ⟨e1, e2, e3, e4⟩ := expParams_ok hpar
  unfold fdtConclude at h4
  simp only [py_bind_eq_ok] at h4
  obtain ⟨rs1, hrs, out2, ho2, c1, hc, he⟩ := h4
  cases he
  unfold fdtFinish at h5
  simp only [py_bind_eq_ok] at h5
  obtain ⟨inst, hinst, fact1, hfact, cf1, hcf, he⟩ := h5
  cases he
  have hone := (scalarInst_ok_iff _ _).1 hinst
  have hnd : (Dict.keys inst).Nodup := by rw [oneInstance_keys hone]; exact hdict im (expGetter_ok him)
  have hout2 : out2 = [[c]] := by
    unfold onlyClass at hc
    split at hc
    · cases hc; rfl
    · cases hc
  refine ⟨p, X, y, t, rs, c, im, inst, fact, cf, ⟨by rw [← e1]; exact expGetter_ok hv, e2, e3, e4⟩, expGetter_ok hX, expGetter_ok hy, ht, hrs, by rw [← hout2]; exact ho2,
    expGetter_ok him, hone, rfl, rfl, rfl, runFactual_ok hfact, ?_⟩
  intro ch hch
  subst hch
  unfold fdtCounterfactual at hcf
  split at hcf
  · exact C53_i_changes_class _ inst rs c _ hnd ch hcf
  · exact C53_f_changes_class _ _ inst rs c _ _ hnd ch hcf
  · exact (C57_d_sound_closest _ _ _ inst rs c hnd ch hcf).1
  · cases hcf

example : ∃ s', fdtExplainerFit expCtx (expArgs "m_factual" "i_counterfactual" {} 0) {} = (.ok (), s') ∧
    (Dict.keys (expNb.instMem.getD [])).Nodup := ⟨_, expFit_mi, by decide +kernel⟩

theorem fmethod_ofName (n : String) : FMethod.ofName n = none ↔ n ∉ factualNames := by
  unfold FMethod.ofName factualNames
  split_ifs with h1 h2 h3 <;> simp_all

theorem cmethod_ofName (n : String) : CMethod.ofName n = none ↔ n ∉ counterfactualNames := by
  unfold CMethod.ofName counterfactualNames
  split_ifs with h1 h2 h3 <;> simp_all

theorem fmethod_c (n : String) : FMethod.ofName n = some .c ↔ n = "c_factual" := by
  unfold FMethod.ofName
  split_ifs with h1 h2 h3 <;> simp_all

theorem cmethod_d (n : String) : CMethod.ofName n = some .d ↔ n = "d_counterfactual" := by
  unfold CMethod.ofName
  split_ifs with h1 h2 h3 <;> simp_all

/-- the checks of the arguments raise nothing else than `ValueError`, and exactly in these cases. -/
theorem checkExpArgs_spec (a : ExpArgs K) :
    (checkExpArgs a = .error .valueError ↔ ¬ Rectangular a.inst ∨ a.factual ∉ factualNames ∨ (a.factual = "c_factual" ∧ a.kw.lam = none) ∨
      a.counterfactual ∉ counterfactualNames) ∧ (checkExpArgs a = .ok () ∨ checkExpArgs a = .error .valueError) := by
  have hca : checkArray a.inst = .ok () ∨ checkArray a.inst = .error .valueError := by
    unfold checkArray
    split
    · exact Or.inr rfl
    · split
      · exact Or.inr rfl
      · exact Or.inl rfl
  unfold checkExpArgs
  rcases hca with hca | hca
  · have hr : Rectangular a.inst := (checkArray_ok_iff _).1 hca
    rw [hca]
    simp only [py_bind_ok]
    cases hf : FMethod.ofName a.factual with
    | none =>
      have := (fmethod_ofName a.factual).1 hf
      simp [this]
    | some fm =>
      have h1 : a.factual ∈ factualNames := by
        by_contra hn
        rw [(fmethod_ofName _).2 hn] at hf; cases hf
      simp only
      by_cases hc : fm = .c ∧ a.kw.lam = none
      · rw [if_pos hc]
        have : a.factual = "c_factual" := (fmethod_c _).1 (by rw [hf, hc.1])
        simp [this, hc.2]
      · rw [if_neg hc]
        have h2 : ¬ (a.factual = "c_factual" ∧ a.kw.lam = none) := by
          rintro ⟨e, h3⟩
          rw [(fmethod_c _).2 e] at hf
          cases hf
          exact hc ⟨rfl, h3⟩
        cases hcf : CMethod.ofName a.counterfactual with
        | none =>
          have := (cmethod_ofName _).1 hcf
          simp [this]
        | some cm =>
          have h3 : a.counterfactual ∈ counterfactualNames := by
            by_contra hn
            rw [(cmethod_ofName _).2 hn] at hcf; cases hcf
          simp [hr, h1, h2, h3]
  · have hr : ¬ Rectangular a.inst := by
      intro hr
      rw [(checkArray_ok_iff _).2 hr] at hca; cases hca
    rw [hca]
    simp [hr, Bind.bind, Except.bind]

/-- C88, errors: an instance that is no table, an unknown factual or counterfactual method, or `c_factual` without `lam` raise `ValueError`
and leave the explainer as it was, in both explainers. -/
theorem C88_invalid [NanSort K] (cx : ExpCtx K) (a : ExpArgs K)
    (h : ¬ Rectangular a.inst ∨ a.factual ∉ factualNames ∨ (a.factual = "c_factual" ∧ a.kw.lam = none) ∨
      a.counterfactual ∉ counterfactualNames) :
    (∀ s, fdtExplainerFit cx a s = (.error .valueError, s)) ∧ ∀ s, fbdtExplainerFit cx a s = (.error .valueError, s) := by
  have hc := (checkExpArgs_spec a).1.2 h
  constructor
  · intro s
    unfold fdtExplainerFit explainerFit
    rw [hc]
  · intro s
    unfold fbdtExplainerFit explainerFit
    rw [hc]

set_option synthInstance.maxSize 1000 in
set_option synthInstance.maxHeartbeats 200000 in
example : "x_factual" ∉ factualNames ∧ "" ∉ counterfactualNames ∧
    fdtExplainerFit expCtx (expArgs "c_factual" "i_counterfactual" {} 0) {} = (.error .valueError, {}) ∧
    fdtExplainerFit expCtx (expArgs "x_factual" "i_counterfactual" {} 0) {} = (.error .valueError, {}) := by decide +kernel

/-- C88, errors: `d_counterfactual` on a fuzzified neighborhood with data raises `ValueError` unless the continuous and discrete indices
and the MAD are given; only the target of the explainer changes. -/
theorem C88_d_needs_arguments (cx : ExpCtx K) (a : ExpArgs K) (hchk : Rectangular a.inst ∧ a.factual ∈ factualNames ∧
      (a.factual = "c_factual" → a.kw.lam ≠ none)) (hd : a.counterfactual = "d_counterfactual")
    (hnb : a.nb.vars ≠ none ∧ a.nb.instMem ≠ none ∧ a.nb.decodedInst ≠ none ∧ a.nb.X ≠ none ∧ a.nb.y ≠ none)
    (h : a.kw.contIdx = none ∨ a.kw.discIdx = none ∨ a.kw.mad = none) (s : EState K (List (Rule String Nat K)) Changes) :
    fdtExplainerFit cx a s = (.error .valueError, { s with target := some a.target }) := by
  have hc : checkExpArgs a = .ok () := by
    rcases (checkExpArgs_spec a).2 with h1 | h1
    · exact h1
    · exfalso
      rcases (checkExpArgs_spec a).1.1 h1 with g | g | g | g
      · exact g hchk.1
      · exact g hchk.2.1
      · exact hchk.2.2 g.1 g.2
      · rw [hd] at g; exact g (by decide)
  obtain ⟨h1, h2, h3, h4, h5⟩ := hnb
  obtain ⟨vars, e1⟩ := Option.ne_none_iff_exists'.1 h1
  obtain ⟨im, e2⟩ := Option.ne_none_iff_exists'.1 h2
  obtain ⟨dec, e3⟩ := Option.ne_none_iff_exists'.1 h3
  obtain ⟨X, e4⟩ := Option.ne_none_iff_exists'.1 h4
  obtain ⟨y, e5⟩ := Option.ne_none_iff_exists'.1 h5
  have hD : checkD a = .error .valueError := by
    unfold checkD
    rw [if_pos]
    refine ⟨(cmethod_d _).2 hd, ?_⟩
    rcases h with h | h | h
    · exact Or.inl h
    · exact Or.inr (Or.inl h)
    · exact Or.inr (Or.inr (by rw [h]; rfl))
  have ht : fdtTrain cx a = .error .valueError := by
    unfold fdtTrain fdtData
    simp only [getFuzzyVars, getInstanceMembership, getX, getY, getter, e1, e2, e3, e4, e5, orError, py_bind_ok, hD]
    rfl
  unfold fdtExplainerFit explainerFit
  rw [hc, ht]

example : (∀ x, fdtExplainerFit expCtx (expArgs "m_factual" "d_counterfactual" {} 0) {} = x → x.1 = .error .valueError) ∧
    expNb.vars.isSome ∧ expNb.instMem.isSome ∧ expNb.decodedInst.isSome ∧ expNb.X.isSome ∧ expNb.y.isSome := by
  refine ⟨?_, by decide +kernel⟩
  rintro x rfl
  decide +kernel

/-- the `d_counterfactual` of the example, with its arguments. -/
theorem expFit_d : (fdtExplainerFit expCtx (expArgs "mr_factual" "d_counterfactual"
      { contIdx := some [], discIdx := some [0, 1], mad := some (fun _ => none) } 0) {}).2.explanation =
    some ([⟨[("age", "1"), ("sex", "m")], 0, 1⟩], some [("sex", "f")]) := by
  decide +kernel

/-- C115: after `FBDTExplainer.fit` succeeds, `exp_value` is the class that a binary tree fitted to the neighborhood predicts for the
instance, every rule of the factual is a rule of that tree with this consequent that matches the memberships of the instance, and the
counterfactual is a fixed text. -/
theorem C115_fbdt_explains_tree [NanSort K] (cx : ExpCtx K) (a : ExpArgs K)
    (s s' : EState K (List (Rule (List String) Nat K)) String) (h : fbdtExplainerFit cx a s = (.ok (), s')) :
    ∃ (p : FDTParams K) (X : Frame K) (y : List Nat) (t : BNode Nat K) (rs : List (Rule (List String) Nat K)) (c : Nat) (im : Memb K)
      (inst : Inst K) (fact : List (Rule (List String) Nat K)),
      TreeParams a p ∧ a.nb.X = some X ∧ a.nb.y = some y ∧ fbdtFit cx.ent p fbdtNew X.rows y = .ok t ∧
      fbdtToRules t false false = .ok rs ∧ fbdtPredict min .agg t [a.inst.flatten] = .ok [[c]] ∧
      a.nb.instMem = some im ∧ OneInstance im inst ∧
      s'.target = some a.target ∧ s'.expValue = some c ∧
      s'.explanation = some (fact, "COUNTERFACTUAL NOT IMPLEMENTED FOR BINARY TREE") ∧
      (∀ r ∈ fact, r ∈ rs ∧ r.consequent = c ∧ ∃ d, r.matchingMulti inst = .ok d ∧ 1 / 1000 < d) := by
  obtain ⟨⟨⟨d, t⟩, pr⟩, f, ⟨d', rs⟩, c, ⟨fact, cf⟩, -, h2, h3, h4, h5, rfl⟩ := explainerFit_ok h
  unfold fbdtTrain at h2
  simp only [py_bind_eq_ok] at h2
  obtain ⟨d1, hd, t1, ht, out, ho, pr1, hp, he⟩ := h2
  cases he
  unfold fbdtData at hd
  simp only [py_bind_eq_ok] at hd
  obtain ⟨vars, hv, im, him, X, hX, y, hy, p, hpar, he⟩ := hd
  cases he
  obtain ⟨e1, e2, e3, e4⟩ := expParams_ok hpar
  unfold fbdtConclude at h4
  simp only [py_bind_eq_ok] at h4
  obtain ⟨rs1, hrs, out2, ho2, c1, hc, he⟩ := h4
  cases he
  unfold fbdtFinish at h5
  simp only [py_bind_eq_ok] at h5
  obtain ⟨inst, hinst, fact1, hfact, he⟩ := h5
  cases he
  have hone := (scalarInst_ok_iff _ _).1 hinst
  have hout2 : out2 = [[c]] := by
    unfold onlyClass at hc
    split at hc
    · cases hc; rfl
    · cases hc
  exact ⟨p, X, y, t, rs, c, im, inst, fact, ⟨by rw [← e1]; exact expGetter_ok hv, e2, e3, e4⟩, expGetter_ok hX, expGetter_ok hy, ht, hrs,
    by rw [← hout2]; exact ho2, expGetter_ok him, hone, rfl, rfl, rfl, runFactual_ok hfact⟩

/-- the binary explainer on the example. -/
theorem expFit_fb : fbdtExplainerFit expCtx (expArgs "m_factual" "i_counterfactual" {} 0) {} =
    (.ok (), ⟨some 0, some 0, some 1, some ([⟨[("sex", ["m"]), ("age", ["0", "1"])], 0, 1⟩],
      "COUNTERFACTUAL NOT IMPLEMENTED FOR BINARY TREE")⟩) := by
  decide +kernel

end

/-! ### C87: `write_explanation` -/

section
variable {K F G A : Type}

theorem mem_intercalate (sep : String) (l : List String) (x : String) (hx : x ∈ l) : ∃ pre post, sep.intercalate l = pre ++ x ++ post := by
  induction l with
  | nil => simp at hx
  | cons a l ih =>
    cases l with
    | nil =>
      rw [List.mem_singleton.1 hx]
      exact ⟨"", "", by simp⟩
    | cons b l =>
      rw [String.intercalate_cons_cons]
      rcases List.mem_cons.1 hx with rfl | h
      · exact ⟨"", sep ++ sep.intercalate (b :: l), by simp [String.append_assoc]⟩
      · obtain ⟨pre, post, he⟩ := ih h
        exact ⟨a ++ sep ++ pre, post, by rw [he]; simp [String.append_assoc]⟩

/-- after a successful `fit` in the history, the object holds a class and an explanation. -/
theorem fitted_state {fit : A → Act (EState K F G) Unit} (hf : IsFit fit) (items : G → Py (List (String × String)))
    (cs : List (ExpCall A)) (h : ∃ a ∈ fitCalls cs, ¬ FitFails fit a) :
    ∃ c e, (afterCalls fit items cs).expValue = some c ∧ (afterCalls fit items cs).explanation = some e := by
  obtain ⟨a, ha, hnf⟩ := h
  have h1 : ¬ (explain (afterCalls fit items cs)).1 = .error .notFitted := fun h => hnf ((explain_history hf items cs).2.1 h a ha)
  obtain ⟨b, h2⟩ := (hit_history hf items cs).2.1 ⟨a, ha, hnf⟩
  unfold explain at h1
  unfold hit at h2
  cases he : (afterCalls fit items cs).explanation with
  | none => rw [he] at h1; simp at h1
  | some e =>
    cases hc : (afterCalls fit items cs).expValue with
    | none => rw [hc] at h2; simp at h2
    | some c => exact ⟨c, e, rfl, rfl⟩

end

section
variable {K : Type} [Field K] [LinearOrder K] [IsStrictOrderedRing K]

/-- C87, the part that holds: an `FDTExplainer` with a successful `fit` in its history and a counterfactual writes a text that has in it the
class, the factual and every change as `feature = value`. Missing: without a counterfactual it raises (`C87_none_false`), and so does every
`FBDTExplainer` (`C87_fbdt_false`). -/
theorem C87_write_partial (cx : ExpCtx K) (ord : List (String × String) → List (String × String)) (hord : ∀ l, (ord l).Perm l)
    (showC : Nat → String) (showF : List (Rule String Nat K) → String) (cs : List (ExpCall (ExpArgs K)))
    (h : ∃ a ∈ fitCalls cs, ¬ FitFails (fdtExplainerFit cx) a) :
    ∃ c fact cf, (afterCalls (fdtExplainerFit cx) (changesItems ord) cs).expValue = some c ∧
      (explain (afterCalls (fdtExplainerFit cx) (changesItems ord) cs)).1 = .ok (fact, cf) ∧
      (cf = none → (writeExplanation showC showF (changesItems ord) (afterCalls (fdtExplainerFit cx) (changesItems ord) cs)).1 = .error .typeError) ∧
      ∀ ch, cf = some ch → ∃ text changes,
        (writeExplanation showC showF (changesItems ord) (afterCalls (fdtExplainerFit cx) (changesItems ord) cs)).1 = .ok text ∧
        text = "The element is " ++ showC c ++ " because " ++ showF fact ++ "\nOtherwise, you would need " ++ changes ∧
        ∀ p ∈ ch, ∃ pre post, changes = pre ++ (p.1 ++ " = " ++ p.2) ++ post := by
  obtain ⟨c, ⟨fact, cf⟩, hc, he⟩ := fitted_state (isFit_fdt cx) (changesItems ord) cs h
  refine ⟨c, fact, cf, hc, by simp [explain, he], ?_, ?_⟩
  · rintro rfl
    simp [writeExplanation, hc, he, changesItems, Bind.bind, Except.bind]
  · rintro ch rfl
    refine ⟨_, " and ".intercalate ((ord ch).map (fun p => p.1 ++ " = " ++ p.2)), by simp [writeExplanation, hc, he, changesItems]; rfl, ?_, ?_⟩
    · simp [String.append_assoc]
    · intro p hp
      exact mem_intercalate _ _ _ (List.mem_map.2 ⟨p, (hord ch).mem_iff.2 hp, rfl⟩)

end

/-- an example without a counterfactual. -/
def expNoneNb : NState ℚ where
  X := some ⟨["age", "sex"], [[.num 2, .str "m"], [.num 2, .str "m"], [.num 2, .str "f"], [.num 2, .str "f"], [.num 2, .str "f"]]⟩
  y := some [0, 0, 0, 0, 1]
  vars := some (exParams.vars.map some)
  instMem := (datasetMembership [expRow] exParams.vars).toOption
  decodedInst := some expRow

def expNoneArgs : ExpArgs ℚ := ⟨[expRow], 0, expNoneNb, ["age"], "m_factual", "i_counterfactual", {}⟩

/-- C87 is false of the code: a fitted `FDTExplainer` that found no counterfactual raises a `TypeError`. -/
theorem C87_none_false : ¬ FitFails (fdtExplainerFit expCtx) expNoneArgs ∧
    ∀ showC showF, (writeExplanation showC showF (changesItems id) (afterCalls (fdtExplainerFit expCtx) (changesItems id) [.fit expNoneArgs])).1 =
      .error .typeError := by
  have h : fdtExplainerFit expCtx expNoneArgs {} = (.ok (), ⟨some 0, some 0, some 0, some ([⟨[("sex", "m")], 0, 1⟩], none)⟩) := by
    decide +kernel
  constructor
  · rintro ⟨e, he⟩
    rw [h] at he; cases he
  · intro showC showF
    have : afterCalls (fdtExplainerFit expCtx) (changesItems id) [.fit expNoneArgs] = (fdtExplainerFit expCtx expNoneArgs {}).2 := rfl
    rw [this, h]
    rfl

section
variable {K : Type} [Field K] [LinearOrder K] [IsStrictOrderedRing K]

/-- C87 is false of the code: no fitted `FBDTExplainer` writes a text: it raises an `IndexError` on the characters of its counterfactual. -/
theorem C87_fbdt_false [NanSort K] (cx : ExpCtx K) (showC : Nat → String) (showF : List (Rule (List String) Nat K) → String)
    (cs : List (ExpCall (ExpArgs K))) (h : ∃ a ∈ fitCalls cs, ¬ FitFails (fbdtExplainerFit cx) a) :
    (writeExplanation showC showF textItems (afterCalls (fbdtExplainerFit cx) textItems cs)).1 = .error .indexError := by
  obtain ⟨c, ⟨fact, cf⟩, hc, he⟩ := fitted_state (isFit_fbdt cx) textItems cs h
  have h1 : (explain (afterCalls (fbdtExplainerFit cx) textItems cs)).1 = .ok (fact, cf) := by simp [explain, he]
  obtain ⟨a, -, h2⟩ := ((C86_explain_fbdt cx textItems cs).1 (fact, cf)).1 h1
  have hfit : fbdtExplainerFit cx a {} = (.ok (), (fbdtExplainerFit cx a {}).2) := Prod.ext h2.1 rfl
  obtain ⟨_, _, _, _, _, _, _, _, _, -, -, -, -, -, -, -, -, -, -, h3, -⟩ := C115_fbdt_explains_tree cx a {} _ hfit
  rw [h2.2] at h3
  have hcf : cf = "COUNTERFACTUAL NOT IMPLEMENTED FOR BINARY TREE" := by
    simp only [Option.some.injEq, Prod.mk.injEq] at h3
    exact h3.2
  simp only [writeExplanation, hc, he]
  have : textItems cf = .error .indexError := by rw [hcf]; decide +kernel
  rw [this]
  rfl

example : ¬ FitFails (fbdtExplainerFit expCtx) (expArgs "m_factual" "i_counterfactual" {} 0) := by
  rintro ⟨e, he⟩
  rw [expFit_fb] at he
  cases he

end

end Teacher
