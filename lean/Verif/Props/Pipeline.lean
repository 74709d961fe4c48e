import Verif.Props.Fidelity
import Verif.Props.Failures
import Verif.Props.CfTotal
import Verif.Props.Fuzzify

/-! # C143: explaining a fuzzified neighborhood, end to end -/

set_option linter.unusedSectionVars false

namespace Teacher

open Spec

section
variable {K : Type} [Field K] [LinearOrder K] [IsStrictOrderedRing K]

/-- a neighborhood ready for an explainer: data, labels and decoded instance are there, the fuzzy variables have different names and sets
with different names, all rows and the decoded instance have degrees in the sets, and the memberships of the instance are those of the decoded instance. -/
structure Spec.Ready (nb : NState K) (vs : List (FVar K)) (X : Frame K) (y : List Nat) (dec : List (Cell K)) (im : Memb K) : Prop where
  hvars : nb.vars = some (vs.map some)
  hX : nb.X = some X
  hy : nb.y = some y
  hdec : nb.decodedInst = some dec
  him : nb.instMem = some im
  names : (vs.map FVar.name).Nodup
  sets : ProperSets vs
  rect : Rectangular X.rows
  len : X.rows.length = y.length
  rows : ∀ row ∈ X.rows, WellTyped vs row
  decNe : dec ≠ []
  decRow : WellTyped vs dec
  mem : datasetMembership [dec] vs = .ok im

/-- the degrees of one row as numbers: the features are the variables in order, each with its sets in order. -/
theorem one_row (vs : List (FVar K)) (hn : (vs.map FVar.name).Nodup) (hs : ∀ v ∈ vs, (v.sets.map FSet.name).Nodup) (dec : List (Cell K))
    (im : Memb K) (h : datasetMembership [dec] vs = .ok im) :
    ∃ inst : Inst K, OneInstance im inst ∧ Dict.keys inst = vs.map FVar.name ∧
      (∀ p ∈ inst, ∃ v ∈ vs, v.name = p.1 ∧ p.2.map Prod.fst = v.sets.map FSet.name) ∧
      ∀ (i : Nat) v s x m, vs[i]? = some v → s ∈ v.sets → dec[i]? = some x → s.membership [x] = .ok [m] → HasDegree inst v.name s.name m := by
  obtain ⟨hkeys, hcell⟩ := C11_cellwise [dec] vs im hn hs h
  have hnd : (Dict.keys im).Nodup := by rw [hkeys]; exact hn
  -- an entry of the memberships is the entry of a variable
  have hent : ∀ p ∈ im, ∃ (i : Nat) (v : FVar K), vs[i]? = some v ∧ v.name = p.1 ∧ Dict.keys p.2 = v.sets.map FSet.name ∧
      (∀ s ∈ v.sets, ∃ x m, dec[i]? = some x ∧ s.membership [x] = .ok [m] ∧ Dict.get? p.2 s.name = some [m]) := by
    rintro ⟨k, d⟩ hp
    have hk : k ∈ vs.map FVar.name := by rw [← hkeys]; exact List.mem_map_of_mem hp
    obtain ⟨v, hv, rfl⟩ := List.mem_map.1 hk
    obtain ⟨i, hi⟩ := List.mem_iff_getElem?.1 hv
    obtain ⟨d', hd', hdk, hds⟩ := hcell i v hi
    rw [Dict.get?_of_mem_nodup hnd hp] at hd'
    cases hd'
    refine ⟨i, v, hi, rfl, hdk, ?_⟩
    intro s hsv
    obtain ⟨ms, h1, h2, h3⟩ := hds s hsv
    obtain ⟨x, m, e1, e2, e3⟩ := h3 0 dec rfl
    have : ms = [m] := by
      match ms, h2, e2 with
      | [a], _, e2 => simpa using e2
    exact ⟨x, m, e1, e3, by rw [h1, this]⟩
  have hone : ∃ inst : Inst K, OneInstance im inst := by
    apply forall₂_of_forall_exists
    intro p hp
    obtain ⟨i, v, hi, hvn, hk, hds⟩ := hent p hp
    obtain ⟨d, hd⟩ := forall₂_of_forall_exists (fun (a : String × List K) (b : String × K) => a.1 = b.1 ∧ a.2 = [b.2]) p.2 (by
      rintro ⟨n, l⟩ ha
      have : n ∈ v.sets.map FSet.name := by rw [← hk]; exact List.mem_map_of_mem ha
      obtain ⟨s, hsv, rfl⟩ := List.mem_map.1 this
      obtain ⟨x, m, -, -, e⟩ := hds s hsv
      have hnd' : (Dict.keys p.2).Nodup := by rw [hk]; exact hs v (List.mem_of_getElem? hi)
      rw [Dict.get?_of_mem_nodup hnd' ha] at e
      exact ⟨(s.name, m), rfl, Option.some.inj e⟩)
    exact ⟨(p.1, d), rfl, hd⟩
  obtain ⟨inst, hone⟩ := hone
  have hkI : Dict.keys inst = vs.map FVar.name := by rw [oneInstance_keys hone, hkeys]
  have hfst : ∀ {l : Dict String (List K)} {l' : Dict String K}, List.Forall₂ (fun a b => a.1 = b.1 ∧ a.2 = [b.2]) l l' →
      Dict.keys l' = Dict.keys l := by
    intro l l' h
    exact (forall₂_map_eq h (fun a b h => h.1.symm))
  refine ⟨inst, hone, hkI, ?_, ?_⟩
  · intro p hp
    obtain ⟨q, hq, e1, e2⟩ := forall₂_mem_right hone p hp
    obtain ⟨i, v, hi, hvn, hk, -⟩ := hent q hq
    exact ⟨v, List.mem_of_getElem? hi, hvn.trans e1, by rw [← hk]; exact hfst e2⟩
  · intro i v s x m hi hsv hx hm
    obtain ⟨d, hd, hdk, hds⟩ := hcell i v hi
    obtain ⟨q, hq, e1, e2⟩ := forall₂_mem_left hone _ (Dict.mem_of_get? hd)
    obtain ⟨ms, h1, h2, h3⟩ := hds s hsv
    obtain ⟨x', m', f1, f2, f3⟩ := h3 0 dec rfl
    rw [f1] at hx
    cases hx
    rw [f3] at hm
    simp only [Except.ok.injEq, List.cons.injEq, and_true] at hm
    subst hm
    have hms : ms = [m'] := by
      match ms, h2, f2 with
      | [a], _, e2 => simpa using e2
    rw [hms] at h1
    obtain ⟨b, hb, g1, g2⟩ := forall₂_mem_left e2 _ (Dict.mem_of_get? h1)
    simp only [List.cons.injEq, and_true] at g1 g2 e1
    refine ⟨q.2, ?_, ?_⟩
    · rw [e1]; exact Dict.get?_of_mem_nodup (by rw [hkI]; exact hn) hq
    · have : Dict.keys q.2 = v.sets.map FSet.name := by rw [← hdk]; exact hfst e2
      rw [g1, g2]
      exact Dict.get?_of_mem_nodup (by rw [this]; exact hs v (List.mem_of_getElem? hi)) hb

/-- the rules of a fitted tree: every condition names a variable and one of its sets, the weight is positive, and there is a condition unless the
tree is a single leaf. -/
theorem fitted_rules {ent : List K → List Nat → K} {ord : List String → List String} {p : FDTParams K} (hs : ProperSets p.vars)
    {X : List (List (Cell K))} {y : List Nat} {t : FNode Nat K} (h : fdtFit ent ord p fdtNew X y = .ok t) :
    ∃ rs, fdtToRules t false false = .ok rs ∧ rs ≠ [] ∧ (∀ r ∈ rs, 0 < r.weight) ∧
      (∀ r ∈ rs, ∀ q ∈ r.antecedent, ∃ v ∈ p.vars, v.name = q.1 ∧ q.2 ∈ v.sets.map FSet.name) ∧
      (∀ r ∈ rs, r.antecedent = [] ↔ t.isLeaf = true) := by
  obtain ⟨rs, h1, h2⟩ := C47_fdt_rules ent ord p hs X y t h false
  have hn : ∀ v ∈ p.vars, (v.sets.map FSet.name).Nodup := fun v hv => (hs v hv).2
  refine ⟨rs, h1, ?_, ?_, ?_, ?_⟩
  · obtain ⟨q0, hq0⟩ := Branching.exists_leaf t (fitted_branching hs h)
    obtain ⟨cv, c1, c2, c3, c4, c5⟩ := C30_leaf_distributions ent ord p X y t h q0 hq0
    have : ∃ kv ∈ cv, 0 < kv.2 := by
      by_contra hc
      push Not at hc
      have : (cv.map Prod.snd).sum ≤ 0 := by
        apply sum_nonpos_list
        intro x hx
        obtain ⟨kv, hkv, rfl⟩ := List.mem_map.1 hx
        exact hc kv hkv
      rw [c5] at this
      exact absurd this (not_le.2 zero_lt_one)
    obtain ⟨kv, hkv, hpos⟩ := this
    have hcl : ∃ cls, List.Forall₂ (fun (test : FTest K) (cl : String × String) => cl.1 = test.var.name ∧
          ∃ s, test.var.sets[test.idx]? = some s ∧ cl.2 = s.name) q0.1 cls := by
      apply forall₂_of_forall_exists
      intro test ht
      obtain ⟨g1, -⟩ := fitted_tests hn h q0 hq0 test ht
      exact ⟨(test.var.name, (test.var.sets[test.idx]).name), rfl, _, List.getElem?_eq_getElem g1, rfl⟩
    obtain ⟨cls, hcls⟩ := hcl
    have : (⟨cls, kv.1, kv.2⟩ : Rule String Nat K) ∈ rs := by
      rw [h2]
      refine ⟨q0.1, cv, ?_, hkv, hpos, hcls⟩
      rw [← c1]; exact hq0
    exact List.ne_nil_of_mem this
  · intro r hr
    obtain ⟨path, cv, -, -, hpos, -⟩ := (h2 r).1 hr
    exact hpos
  · intro r hr q hq
    obtain ⟨path, cv, hp, -, -, hf⟩ := (h2 r).1 hr
    obtain ⟨test, ht, e1, s, e2, e3⟩ := forall₂_mem_right hf q hq
    obtain ⟨-, g2⟩ := fitted_tests hn h _ hp test ht
    exact ⟨test.var, List.mem_of_getElem? g2, e1.symm, by rw [e3]; exact List.mem_map_of_mem (List.mem_of_getElem? e2)⟩
  · intro r hr
    obtain ⟨path, cv, hp, -, -, hf⟩ := (h2 r).1 hr
    constructor
    · intro he
      rw [he] at hf
      cases hf
      by_contra hl
      exact fitted_split hn h (by simpa using hl) _ hp rfl
    · intro hl
      obtain ⟨-, -, -, -, -, -, hroot⟩ := fdtFit_grown h
      obtain ⟨a, b, c, d, e, f⟩ := t
      simp only [FNode.isLeaf] at hl
      simp only [FNode.test] at hroot
      subst hl hroot
      simp only [leafPaths, if_true, List.mem_singleton, Prod.mk.injEq, Option.toList_none] at hp
      rw [hp.1] at hf
      exact List.forall₂_nil_left_iff.1 hf

/-- a rule of class `c` matches the instance by more than the threshold 0.001 of the factual methods. -/
def Spec.Fires {V : Type} (matching : Rule V Nat K → Py K) (rs : List (Rule V Nat K)) (c : Nat) : Prop :=
  ∃ r ∈ rs, r.consequent = c ∧ ∃ d, matching r = .ok d ∧ 1 / 1000 < d

/-- the factual method has an answer: `m_factual` and `c_factual` need a rule of the class that fires, `mr_factual` a rule of another class. -/
def Spec.FactualAnswers {V : Type} (name : String) (matching : Rule V Nat K → Py K) (rs : List (Rule V Nat K)) (c : Nat) : Prop :=
  (name ≠ "mr_factual" → Fires matching rs c) ∧ (name = "mr_factual" → ∃ r ∈ rs, r.consequent ≠ c)

/-- the exception of a factual method without an answer. -/
def Spec.factualError (name : String) : PyErr :=
  if name = "m_factual" then .zeroDivision else if name = "c_factual" then .indexError else .valueError

/-- when the rules can be matched, each factual method returns exactly when it has an answer. -/
theorem runFactual_exact (name : String) (hname : name ∈ factualNames) (kw : ExpKw K) (hlam : name = "c_factual" → kw.lam ≠ none)
    (hkw : name ≠ "c_factual" → kw.lam = none ∧ kw.beta = none) {V : Type}
    (matching : Rule V Nat K → Py K) (rs : List (Rule V Nat K)) (c : Nat)
    (hant : ∀ r ∈ rs, ∃ m, matching r = .ok m) (hw : ∀ r ∈ rs, 0 < r.weight) :
    (FactualAnswers name matching rs c → ∃ out, runFactual (FMethod.ofName name) kw false matching rs c = .ok out) ∧
    (¬ FactualAnswers name matching rs c →
      runFactual (FMethod.ofName name) kw false matching rs c = .error (factualError name)) := by
  set deg : Rule V Nat K → K := fun r => match matching r with | .ok m => m | .error _ => 0 with hdegdef
  have hdeg : ∀ r ∈ rs, matching r = .ok (deg r) := by
    intro r hr
    obtain ⟨m, hm⟩ := hant r hr
    simp only [hdegdef, hm]
  have hfire : Fires matching rs c ↔ firedOf deg rs c ≠ [] := by
    constructor
    · rintro ⟨r, hr, hc, d, hd, hlt⟩
      have : deg r = d := by simp only [hdegdef, hd]
      exact List.ne_nil_of_mem (a := r) (List.mem_filter.2 ⟨hr, by simpa [this, hc] using hlt⟩)
    · intro hne
      obtain ⟨r, hr⟩ := List.exists_mem_of_ne_nil _ hne
      obtain ⟨h1, h2⟩ := List.mem_filter.1 hr
      simp only [decide_eq_true_eq] at h2
      exact ⟨r, h1, h2.2, deg r, hdeg r h1, h2.1⟩
  have hcases : name = "m_factual" ∨ name = "mr_factual" ∨ name = "c_factual" := by
    simpa [factualNames] using hname
  rcases hcases with rfl | rfl | rfl
  · obtain ⟨k1, k2⟩ := hkw (by decide)
    have hm : FMethod.ofName "m_factual" = some .m := by decide
    have hf := C49_m_factual _ _ _ hdeg c
    have hA : FactualAnswers "m_factual" matching rs c ↔ firedOf deg rs c ≠ [] := by
      simp [FactualAnswers, hfire]
    rw [hA]
    simp only [runFactual, hm, k1, k2, Option.isSome_none, Bool.or_self, Bool.false_eq_true, if_false]
    refine ⟨fun h => ?_, fun h => hf.2 (by simpa using h)⟩
    obtain ⟨out, ho, -⟩ := hf.1 h
    exact ⟨out, ho⟩
  · obtain ⟨k1, k2⟩ := hkw (by decide)
    have hm : FMethod.ofName "mr_factual" = some .mr := by decide
    have hA : FactualAnswers "mr_factual" matching rs c ↔ ∃ r ∈ rs, r.consequent ≠ c := by simp [FactualAnswers]
    rw [hA]
    simp only [runFactual, hm, k1, k2, Option.isSome_none, Bool.or_self, Bool.false_eq_true, if_false]
    constructor
    · intro hex
      unfold mrFactual
      rw [classFired_ok hdeg]
      simp only [py_bind_ok]
      obtain ⟨rt, hrt, -⟩ := robustThreshold_ok hdeg c hex
      rw [hrt]
      simp only [py_bind_ok]
      obtain ⟨k, -, h1, -⟩ := mrLoop_ok (matching := matching) (deg := deg)
        (sortDesc (ruleAct deg) (firedOf deg rs c)) (by
          intro r hr
          exact hdeg r (List.mem_filter.1 ((sortDesc_spec (ruleAct deg) (firedOf deg rs c)).perm.mem_iff.1 hr)).1) rt 0
      exact ⟨_, h1⟩
    · intro hno
      push Not at hno
      exact (C50_mr_factual_otherwise _ _ _ hdeg c).2 hno
  · have hm : FMethod.ofName "c_factual" = some .c := by decide
    obtain ⟨lam, hl⟩ := Option.ne_none_iff_exists'.1 (hlam rfl)
    have hA : FactualAnswers "c_factual" matching rs c ↔ firedOf deg rs c ≠ [] := by
      simp [FactualAnswers, hfire]
    rw [hA]
    simp only [runFactual, hm, hl, Bool.false_eq_true, if_false]
    have hf := C51_c_factual _ _ _ hdeg hw c lam (kw.beta.getD none)
    refine ⟨fun h => ?_, fun h => hf.2 (by simpa using h)⟩
    obtain ⟨L, k, -, h1, -⟩ := hf.1 h
    exact ⟨_, h1⟩

/-- rules that cannot be matched: `ValueError`. -/
theorem runFactual_empty (name : String) (hname : name ∈ factualNames) (kw : ExpKw K) (hlam : name = "c_factual" → kw.lam ≠ none)
    (hkw : name ≠ "c_factual" → kw.lam = none ∧ kw.beta = none) {V : Type}
    (matching : Rule V Nat K → Py K) (rs : List (Rule V Nat K)) (c : Nat)
    (hne : rs ≠ []) (hant : ∀ r ∈ rs, matching r = .error .valueError) :
    runFactual (FMethod.ofName name) kw false matching rs c = .error .valueError := by
  have hcf : classFired matching rs c = .error .valueError := by
    obtain ⟨r, rest, rfl⟩ := List.exists_cons_of_ne_nil hne
    unfold classFired firedRules filterPy
    simp only [hant r (by simp)]
    rfl
  have hcases : name = "m_factual" ∨ name = "mr_factual" ∨ name = "c_factual" := by
    simpa [factualNames] using hname
  rcases hcases with rfl | rfl | rfl
  · obtain ⟨k1, k2⟩ := hkw (by decide)
    have hm : FMethod.ofName "m_factual" = some .m := by decide
    simp only [runFactual, hm, k1, k2, Option.isSome_none, Bool.or_self, Bool.false_eq_true, if_false, mFactual, hcf]
    rfl
  · obtain ⟨k1, k2⟩ := hkw (by decide)
    have hm : FMethod.ofName "mr_factual" = some .mr := by decide
    simp only [runFactual, hm, k1, k2, Option.isSome_none, Bool.or_self, Bool.false_eq_true, if_false, mrFactual, hcf]
    rfl
  · have hm : FMethod.ofName "c_factual" = some .c := by decide
    obtain ⟨lam, hl⟩ := Option.ne_none_iff_exists'.1 (hlam rfl)
    simp only [runFactual, hm, hl, Bool.false_eq_true, if_false, cFactual, hcf]
    rfl

/-- the fidelity of the local tree is defined: all its predictions are labels, and with two labels one of them is 1. -/
theorem fdtFidelity_total (y p : List Nat) (hp : ∀ c ∈ p, c ∈ y) (hy : 2 < y.dedup.length ∨ 1 ∈ y ∨ ∀ a ∈ y, ∀ b ∈ y, a = b) :
    ∃ f : K, fdtFidelity y p = .ok f := by
  unfold fdtFidelity
  have hlen : (npUnique y).length = y.dedup.length := by
    apply List.Perm.length_eq
    rw [List.perm_ext_iff_of_nodup (npUnique_nodup y) (List.nodup_dedup y)]
    intro a
    rw [mem_npUnique, List.mem_dedup]
  have hlen2 : (npUnique (y ++ p)).length = (npUnique y).length := by
    apply List.Perm.length_eq
    rw [List.perm_ext_iff_of_nodup (npUnique_nodup _) (npUnique_nodup _)]
    intro a
    rw [mem_npUnique, mem_npUnique, List.mem_append]
    exact ⟨fun h => h.elim id (hp a), Or.inl⟩
  by_cases h2 : 2 < (npUnique y).length
  · rw [if_pos h2]; exact ⟨_, rfl⟩
  · rw [if_neg h2]
    unfold f1Binary
    rw [if_neg]
    · exact ⟨_, rfl⟩
    · rintro (h | ⟨h, h1⟩)
      · rw [hlen2] at h; exact h2 h
      · rw [mem_npUnique, List.mem_append] at h1
        rw [hlen2] at h
        rcases hy with hy | hy | hy
        · omega
        · exact h1 (Or.inl hy)
        · match hq : npUnique y, h with
          | [a, b], _ =>
            have hnd := npUnique_nodup y
            rw [hq] at hnd
            have ha : a ∈ y := by rw [← mem_npUnique, hq]; simp
            have hb : b ∈ y := by rw [← mem_npUnique, hq]; simp
            simp [hy a ha b hb] at hnd

/-- arguments of `FDTExplainer.fit` that fit to the variables `vs` and to the decoded instance: valid names of methods, only the keywords that
these methods read, a positive fuzzy threshold, at least two sets for each numerical variable; and for `d_counterfactual` its three keywords,
numbers as names of the sets of the continuous variables, and a distance that is defined on rows of the right shape. -/
structure Spec.GoodArgs (cx : ExpCtx K) (a : ExpArgs K) (vs : List (FVar K)) (dec : List (Cell K)) : Prop where
  rect : Rectangular a.inst
  fname : a.factual ∈ factualNames
  cname : a.counterfactual ∈ counterfactualNames
  lam : a.factual = "c_factual" → a.kw.lam ≠ none
  noLam : a.factual ≠ "c_factual" → a.kw.lam = none ∧ a.kw.beta = none
  other : a.kw.other = false
  noD : a.counterfactual ≠ "d_counterfactual" → a.kw.dGiven = false
  isD : a.counterfactual = "d_counterfactual" → ∃ cont disc mad, a.kw.contIdx = some cont ∧ a.kw.discIdx = some disc ∧ a.kw.mad = some mad ∧
    (∀ i ∈ cont, ∀ v, vs[i]? = some v → ∀ s ∈ v.sets, ∃ x, cx.parse s.name = .ok x) ∧
    ∀ cells : List (Cell K), cells.length = vs.length → (∀ (i : Nat) cell, cells[i]? = some cell → (i ∈ cont ↔ ∃ x, cell = .num x)) →
      ∃ d, cx.dist (a.kw.cfDist.getD "moth") dec cells cont disc mad = .ok d
  th : ∀ th, a.kw.fuzzyThreshold = some th → 0 < th
  num : ∀ v ∈ vs, v.name ∈ a.numCols → 2 ≤ v.sets.length

theorem expParams_total (vs : List (FVar K)) (kw : ExpKw K) : expParams (vs.map some) kw =
    .ok ⟨vs, kw.fuzzyThreshold.getD (1 / 10000), kw.maxDepth.getD 10, kw.minNumExamples.getD 1⟩ := by
  unfold expParams
  have : (vs.map some).mapM (fun v => orError v .attributeError) = .ok vs := by
    rw [mapM_ok_iff, List.forall₂_map_left_iff]
    exact List.forall₂_same.2 (fun v _ => rfl)
  rw [this]
  rfl

/-- every counterfactual method returns on the rules of a fitted tree with a split. -/
theorem fdtCounterfactual_total (cx : ExpCtx K) (a : ExpArgs K) (vs : List (FVar K)) (d : ExpData K) (hs : ProperSets vs)
    (hg : GoodArgs cx a vs d.decoded) (inst : Inst K) (hkeys : Dict.keys inst = vs.map FVar.name) (hn : (vs.map FVar.name).Nodup)
    (hent : ∀ p ∈ inst, ∃ v ∈ vs, v.name = p.1 ∧ p.2.map Prod.fst = v.sets.map FSet.name)
    (rs fact : List (Rule String Nat K)) (c : Nat) (hant : ∀ r ∈ rs, r.antecedent ≠ [])
    (hcl : ∀ r ∈ rs, ∀ q ∈ r.antecedent, ∃ v ∈ vs, v.name = q.1 ∧ q.2 ∈ v.sets.map FSet.name) (hfact : ∀ r ∈ fact, r ∈ rs) :
    ∃ cf, fdtCounterfactual cx a d inst rs fact c = .ok cf := by
  have hnd : (Dict.keys inst).Nodup := by rw [hkeys]; exact hn
  have hinj : ∀ v ∈ vs, ∀ w ∈ vs, v.name = w.name → v = w := fun v hv w hw h => List.inj_on_of_nodup_map hn hv hw h
  have hne : ∀ p ∈ inst, p.2 ≠ [] := by
    intro p hp h0
    obtain ⟨v, hv, -, e⟩ := hent p hp
    rw [h0] at e
    exact (hs v hv).1 (List.map_eq_nil_iff.1 e.symm)
  have hlen : ∀ v ∈ vs, ∀ sets : Dict String K, (v.name, sets) ∈ inst → sets.map Prod.fst = v.sets.map FSet.name := by
    intro v hv sets hm
    obtain ⟨w, hw, e1, e2⟩ := hent _ hm
    rw [hinj v hv w hw e1.symm]
    exact e2
  have hnum : ∀ r ∈ rs, ∀ p ∈ r.antecedent, p.1 ∈ a.numCols → ∀ sets, (p.1, sets) ∈ inst → p.2 ∈ sets.map Prod.fst ∧ 2 ≤ sets.length := by
    intro r hr p hp hpn sets hm
    obtain ⟨v, hv, e1, e2⟩ := hcl r hr p hp
    rw [← e1] at hm hpn
    have := hlen v hv sets hm
    refine ⟨by rw [this]; exact e2, ?_⟩
    have hl := congrArg List.length this
    simp only [List.length_map] at hl
    rw [hl]
    exact hg.num v hv hpn
  have hcases : a.counterfactual = "i_counterfactual" ∨ a.counterfactual = "f_counterfactual" ∨ a.counterfactual = "d_counterfactual" := by
    simpa [counterfactualNames] using hg.cname
  unfold fdtCounterfactual
  rcases hcases with h | h | h
  · have hm : CMethod.ofName a.counterfactual = some .i := by rw [h]; decide
    rw [hm]
    exact C55_i_total _ inst rs c a.numCols hnd hne hant hnum
  · have hm : CMethod.ofName a.counterfactual = some .f := by rw [h]; decide
    rw [hm]
    refine C55_f_total _ fact inst rs c a.numCols _ hne hant hfact ?_
    intro r hr p hp hpn
    obtain ⟨v, hv, e1, e2⟩ := hcl r hr p hp
    obtain ⟨sets, hsets⟩ := (Dict.get?_isSome_iff inst p.1).2 (by rw [hkeys, ← e1]; exact List.mem_map_of_mem hv)
    exact ⟨sets, hsets, hnum r hr p hp hpn sets (Dict.mem_of_get? hsets)⟩
  · have hm : CMethod.ofName a.counterfactual = some .d := by rw [h]; decide
    rw [hm]
    obtain ⟨cont, disc, mad, e1, e2, e3, hparse, hdist⟩ := hg.isD h
    simp only [e1, e2, e3, Option.getD_some]
    have hlI : List.length inst = vs.length := by
      have := congrArg List.length hkeys
      simpa [Dict.keys] using this
    refine C57_d_total _ _ cont inst rs c hne hant ?_ ?_
    · intro i hi p hp s hsm
      have hv : vs[i]?.map FVar.name = some p.1 := by
        rw [← List.getElem?_map, ← hkeys, Dict.keys, List.getElem?_map, hp]; rfl
      obtain ⟨v, hv1, hv2⟩ := Option.map_eq_some_iff.1 hv
      have hvm := List.mem_of_getElem? hv1
      have : p.2.map Prod.fst = v.sets.map FSet.name := hlen v hvm p.2 (by rw [hv2]; exact List.mem_of_getElem? hp)
      rw [this] at hsm
      obtain ⟨st, hst, rfl⟩ := List.mem_map.1 hsm
      exact hparse i hi v hv1 st hst
    · intro cells hl hc
      exact hdist cells (hl.trans hlI) hc

/-- **C143** (for the decoded instance; `C143_encoded_instance_false` is the part that fails). `FDTExplainer.fit` on a ready neighborhood, asked about its decoded instance with good arguments and labels that the fidelity accepts,
fits a tree and finds the class `c` that the tree predicts for the instance, a label. If the tree has a split, `c` has the largest activation of
all labels in the rules of the tree, evaluated on the memberships of the instance; the fit then succeeds exactly when the factual method has an answer
(otherwise it raises the exception of that method), with `exp_value = c`. If the tree is a single leaf, the fit raises `ValueError`. -/
theorem C143_fdt_explains_partial (cx : ExpCtx K) (hord : ∀ l, (cx.ord l).Perm l) (a : ExpArgs K) (vs : List (FVar K)) (X : Frame K) (y : List Nat)
    (dec : List (Cell K)) (im : Memb K) (hr : Ready a.nb vs X y dec im) (hg : GoodArgs cx a vs dec) (hinst : a.inst.flatten = dec)
    (hy : 2 < y.dedup.length ∨ 1 ∈ y ∨ ∀ a ∈ y, ∀ b ∈ y, a = b) (s : EState K (List (Rule String Nat K)) Changes) :
    ∃ (p : FDTParams K) (t : FNode Nat K) (rs : List (Rule String Nat K)) (c : Nat) (inst : Inst K),
      TreeParams a p ∧ fdtFit cx.ent cx.ord p fdtNew X.rows y = .ok t ∧ fdtToRules t false false = .ok rs ∧
      fdtPredict min .agg t [dec] = .ok [[c]] ∧ c ∈ y ∧ OneInstance im inst ∧
      (t.isLeaf = false → (∃ deg : Rule String Nat K → K, (∀ r ∈ rs, r.matching inst = .ok (deg r)) ∧
        ∀ c' ∈ y, activation deg rs c' ≤ activation deg rs c)) ∧
      (t.isLeaf = false → FactualAnswers a.factual (fun r => r.matching inst) rs c →
        ∃ f fact cf, fdtExplainerFit cx a s = (.ok (), ⟨some a.target, some c, some f, some (fact, cf)⟩)) ∧
      (t.isLeaf = false → ¬ FactualAnswers a.factual (fun r => r.matching inst) rs c → (fdtExplainerFit cx a s).1 = .error (factualError a.factual)) ∧
      (t.isLeaf = true → (fdtExplainerFit cx a s).1 = .error .valueError) := by
  obtain ⟨p, hpdef⟩ : ∃ p : FDTParams K, p = ⟨vs, a.kw.fuzzyThreshold.getD (1 / 10000), a.kw.maxDepth.getD 10, a.kw.minNumExamples.getD 1⟩ := ⟨_, rfl⟩
  have hpv : p.vars = vs := by rw [hpdef]
  have hth : 0 < p.fuzzyThreshold := by
    rw [hpdef]
    simp only
    cases ht : a.kw.fuzzyThreshold with
    | none => simp only [Option.getD_none]; positivity
    | some th => exact hg.th th ht
  have hTP : TreeParams a p := by rw [hpdef]; exact ⟨hr.hvars, rfl, rfl, rfl⟩
  have hnn : ∀ v ∈ p.vars, (v.sets.map FSet.name).Nodup := fun v hv => (hr.sets v (by rw [← hpv]; exact hv)).2
  have hs : ProperSets p.vars := by rw [hpv]; exact hr.sets
  obtain ⟨t, ht⟩ := C32_fit_succeeds cx.ent cx.ord hord p hth fdtNew X.rows y hr.rect hr.len (by
    intro i v hv row hrow
    rw [hpv] at hv
    exact hr.rows row hrow i v hv)
  obtain ⟨rs, hrs, hrsne, hrsw, hrscl, hrsl⟩ := fitted_rules hs ht
  have hpred : ∀ row : List (Cell K), row ≠ [] → WellTyped vs row → ∃ c ∈ y, fdtPredict min .agg t [row] = .ok [[c]] := fun row h1 h2 =>
    C27_fitted_total cx.ent cx.ord p hs X.rows y t ht min .agg row h1 (by rw [hpv]; exact h2)
  obtain ⟨c, hc, hcp⟩ := hpred dec hr.decNe hr.decRow
  obtain ⟨inst, hone, hkI, hent, hdegs⟩ := one_row vs hr.names (fun v hv => (hr.sets v hv).2) dec im hr.mem
  -- the predictions on the neighborhood
  obtain ⟨cs, hcs⟩ : ∃ cs, List.Forall₂ (fun row c => c ∈ y ∧ fdtPredict min .agg t [row] = .ok [[c]]) X.rows cs := by
    apply forall₂_of_forall_exists
    intro row hrow
    obtain ⟨n, hn0, -, hn⟩ := hr.rect
    exact hpred row (by intro h0; have := hn row hrow; rw [h0] at this; simp only [List.length_nil] at this; omega) (hr.rows row hrow)
  have hout : fdtPredict min .agg t X.rows = .ok [cs] := ((C26_row_wise min .agg t X.rows hr.rect).2 cs).2 (hcs.imp (fun _ _ h => h.2))
  have hcsy : ∀ k ∈ cs, k ∈ y := by
    intro k hk
    obtain ⟨row, -, h1, -⟩ := forall₂_mem_right hcs k hk
    exact h1
  obtain ⟨f, hf⟩ := fdtFidelity_total (K := K) y cs hcsy hy
  have hchk : checkExpArgs a = .ok () := by
    obtain ⟨h1, h2⟩ := checkExpArgs_spec a
    refine h2.resolve_right (fun h => ?_)
    rcases h1.1 h with h | h | h | h
    · exact h hg.rect
    · exact h hg.fname
    · exact hg.lam h.1 h.2
    · exact h hg.cname
  have hD : checkD a = .ok () := by
    unfold checkD
    rw [if_neg]
    rintro ⟨h1, h2⟩
    rw [cmethod_d] at h1
    obtain ⟨cont, disc, mad, e1, e2, e3, -⟩ := hg.isD h1
    simp [e1, e2, e3] at h2
  have hdata : fdtData a = .ok ⟨p, im, dec, X.rows, y⟩ := by
    unfold fdtData getFuzzyVars getInstanceMembership getX getY getter
    simp only [hr.hvars, hr.him, hr.hdec, hr.hX, hr.hy, orError, py_bind_ok, hD, expParams_total, py_pure, hpdef]
  have htrain : fdtTrain cx a = .ok ((⟨p, im, dec, X.rows, y⟩, t), cs) := by
    unfold fdtTrain
    simp only [hdata, py_bind_ok, ht, hout, firstRow, py_pure]
  have hconcl : fdtConclude a (⟨p, im, dec, X.rows, y⟩, t) = .ok ((⟨p, im, dec, X.rows, y⟩, rs), c) := by
    unfold fdtConclude
    simp only [hrs, py_bind_ok, hinst, hcp, onlyClass, py_pure]
  have hrest : (a.kw.other || (a.kw.dGiven && decide (CMethod.ofName a.counterfactual ≠ some .d))) = false := by
    rw [hg.other, Bool.false_or, Bool.and_eq_false_iff]
    by_cases hcd : a.counterfactual = "d_counterfactual"
    · right
      simp [(cmethod_d _).2 hcd]
    · exact Or.inl (hg.noD hcd)
  have hfin : ∀ r : Py (List (Rule String Nat K)),
      runFactual (FMethod.ofName a.factual) a.kw false (fun r => r.matching inst) rs c = r →
      fdtFinish cx a (⟨p, im, dec, X.rows, y⟩, rs) c = (do
        let fact ← r
        let cf ← fdtCounterfactual cx a ⟨p, im, dec, X.rows, y⟩ inst rs fact c
        pure (fact, cf)) := by
    intro r h
    unfold fdtFinish
    simp only [(scalarInst_ok_iff im inst).2 hone, py_bind_ok, hrest, h]
  have hfit : ∀ o, fdtFinish cx a (⟨p, im, dec, X.rows, y⟩, rs) c = o → fdtExplainerFit cx a s = match o with
      | .error e => (.error e, ⟨some a.target, some c, some f, s.explanation⟩)
      | .ok x => (.ok (), ⟨some a.target, some c, some f, some x⟩) := by
    intro o ho
    unfold fdtExplainerFit explainerFit
    simp only [hchk, htrain, hf, hconcl, ho]
    cases o <;> rfl
  refine ⟨p, t, rs, c, inst, hTP, ht, hrs, hcp, hc, hone, ?_, ?_, ?_, ?_⟩
  · intro hl
    obtain ⟨L, hL, pre, post, he, h1, h2⟩ := C27_max_vote min .agg t dec c hcp
    obtain ⟨rs', hrs', deg, hdeg, hact⟩ := C28_same_votes t (fitted_branching hs ht) (fitted_split hnn ht hl) dec L hL
      (fun q hq => (fitted_rowLeaves_weights ht hL q hq).2.1) inst (by
        intro q hq test htest m hm
        obtain ⟨fs, x, g1, g2, g3⟩ := hm
        have := hdegs test.att test.var fs x m (by rw [← hpv]; exact (fitted_tests hnn ht q hq test htest).2) (List.mem_of_getElem? g1) g2 g3
        simpa [clauseOf, g1] using this) false
    rw [hrs] at hrs'
    cases hrs'
    refine ⟨deg, hdeg, fun c' hc' => ?_⟩
    rw [hact, hact]
    have hmem : c' ∈ L.flatMap (fun q => q.1.map Prod.fst) := by
      obtain ⟨q0, hq0⟩ := Branching.exists_leaf t (fitted_branching hs ht)
      obtain ⟨q, hq, e, -⟩ := forall₂_mem_left hL q0 hq0
      obtain ⟨cv, k1, -, k2, -⟩ := C30_leaf_distributions cx.ent cx.ord p X.rows y t ht q0 hq0
      rw [e] at k1
      cases k1
      exact List.mem_flatMap.2 ⟨q, hq, (k2 c').2 hc'⟩
    rw [he, List.mem_append, List.mem_cons] at hmem
    rcases hmem with hm | rfl | hm
    · exact (h1 c' hm).le
    · exact le_refl _
    · exact h2 c' hm
  · intro hl hans
    have hant : ∀ r ∈ rs, r.antecedent ≠ [] := fun r hr h0 => by simp [hl] at hrsl; exact hrsl r hr h0
    have hmt : ∀ r ∈ rs, ∃ m, r.matching inst = .ok m := fun r hr => ((C17_matching r inst).2 (hant r hr)).imp (fun _ h => h.1)
    obtain ⟨fact, hfact⟩ := (runFactual_exact a.factual hg.fname a.kw hg.lam hg.noLam (fun r => r.matching inst) rs c hmt hrsw).1 hans
    obtain ⟨cf, hcf⟩ := fdtCounterfactual_total cx a vs ⟨p, im, dec, X.rows, y⟩ hr.sets hg inst hkI hr.names hent rs fact c hant
      (by rw [hpv] at hrscl; exact hrscl) (fun r hr => (runFactual_ok hfact r hr).1)
    refine ⟨f, fact, cf, ?_⟩
    refine (hfit (.ok (fact, cf)) ?_).trans rfl
    rw [hfin _ hfact]
    simp only [py_bind_ok, hcf, py_pure]
  · intro hl hans
    have hant : ∀ r ∈ rs, r.antecedent ≠ [] := fun r hr h0 => by simp [hl] at hrsl; exact hrsl r hr h0
    have hmt : ∀ r ∈ rs, ∃ m, r.matching inst = .ok m := fun r hr => ((C17_matching r inst).2 (hant r hr)).imp (fun _ h => h.1)
    have hfact := (runFactual_exact a.factual hg.fname a.kw hg.lam hg.noLam (fun r => r.matching inst) rs c hmt hrsw).2 hans
    rw [hfit (.error (factualError a.factual)) (by rw [hfin _ hfact]; rfl)]
  · intro hl
    have hfact := runFactual_empty a.factual hg.fname a.kw hg.lam hg.noLam (fun r => r.matching inst) rs c hrsne
      (fun r hr => (C17_matching r inst).1 ((hrsl r hr).2 hl))
    rw [hfit (.error .valueError) (by rw [hfin _ hfact]; rfl)]

/-- every set of a categorical variable contains some row to a positive degree. -/
def Spec.Covered (vs : List (FVar K)) (rows : List (List (Cell K))) : Prop :=
  ∀ (i : Nat) v, vs[i]? = some v → (∃ d, v.sets[0]? = some (.disc d)) → ∀ s ∈ v.sets,
    ∃ row ∈ rows, ∃ x m, row[i]? = some x ∧ s.membership [x] = .ok [m] ∧ 0 < m

/-- the sets of a categorical variable. -/
theorem disc_sets (sets : List (FSet K)) (vals : List (Cell K))
    (h : sets.map (fun s => match s with | .disc s => some s.value | .cont _ => none) = vals.map some) :
    ∃ ds : List (DSet K), sets = ds.map .disc ∧ ds.map DSet.value = vals := by
  induction sets generalizing vals with
  | nil =>
    cases vals with
    | nil => exact ⟨[], rfl, rfl⟩
    | cons v vals => simp at h
  | cons s sets ih =>
    cases vals with
    | nil => simp at h
    | cons v vals =>
      simp only [List.map_cons, List.cons.injEq] at h
      obtain ⟨ds, h1, h2⟩ := ih vals h.2
      cases s with
      | cont s => simp at h
      | disc s => exact ⟨s :: ds, by rw [h1]; rfl, by rw [← h2]; simpa using h.1⟩

/-- **C143**, readiness: under the hypotheses of C93, when moreover different values get different names, the sampling neighborhood that
`fuzzify` leaves is ready for the explainers. -/
theorem C143_ready (cx : FuzzCtx K) (inst : List (Cell K)) (a : FuzzArgs K) (s : NState K) (X Xy : Frame K) (y : List Nat)
    (dec : List (Cell K)) (nums cats : List String) (d : Nat → Option K → List K → List Nat → Py (List K))
    (hX : s.X = some X) (hsy : s.y = some y) (hXy : s.Xy = some Xy) (hdec : s.decodedInst = some dec)
    (hcols : X.cols.Nodup) (hrne : X.rows ≠ []) (hrows : ∀ r ∈ dec :: X.rows, r.length = X.cols.length)
    (hn : a.numCols = some nums) (hc : a.catCols = some cats) (hne : nums ≠ []) (hperm : (nums ++ cats).Perm X.cols)
    (hverb : a.verbose = false) (himem : a.instanceMembership = none)
    (hsets : (a.division = "equal_width" ∨ a.division = "equal_freq") → a.sets ≠ none)
    (hy : y.length = X.rows.length) (hdisc : cx.disc a.division = some d)
    (hnum : ∀ c ∈ nums, ∀ row ∈ dec :: X.rows, ∃ x, row[X.cols.idxOf c]? = some (.num x))
    (hd : ∀ c ∈ nums, ∀ v : List K, X.rows.map (fun r => r[X.cols.idxOf c]?) = v.map (fun x => some (Cell.num x)) → ¬ cx.std v < 1 / 100000 →
      ∃ pts, d (a.sets.getD 0) a.th v y = .ok pts ∧ pts ≠ [] ∧ pts.Pairwise (· ≤ ·))
    (hnames : ∀ c ∈ nums, ∀ col pts, X.numCol c = .ok col → PeaksOf cx d a y col pts → (pts.map cx.fmtK).Nodup)
    (hnamesC : ∀ c ∈ cats, ∀ col, X.col c = .ok col → ∀ x ∈ col, ∀ y ∈ col, cx.fmtC x = cx.fmtC y → x = y) :
    ∃ (vs : List (FVar K)) (im : Memb K), (samplingFuzzify cx inst a s).1 = .ok () ∧
      Ready (samplingFuzzify cx inst a s).2 vs X y dec im ∧ vs.map FVar.name = X.cols ∧
      (∀ v ∈ vs, v.name ∈ nums → ∃ col pts, X.numCol v.name = .ok col ∧ PeaksOf cx d a y col pts ∧ v.sets.length = pts.length) ∧
      (∀ row ∈ dec :: X.rows, SubPartition vs row) ∧ Covered vs X.rows := by
  obtain ⟨vs, m, im, h1, h2, -, -, h3, h4, -, h5, h6⟩ := fuzzify_ok cx inst a s X Xy y dec nums cats d hX hsy hXy hdec hcols hrne hrows hn hc
    hne hperm hverb himem hsets hy hdisc hnum hd
  have hvn : ∀ w ∈ vs, ∀ v ∈ vs, w.name = v.name → w = v := fun w hw v hv h => List.inj_on_of_nodup_map (by rw [h2]; exact hcols) hw hv h
  have hpos : 0 < X.cols.length := by
    cases nums with
    | nil => exact absurd rfl hne
    | cons c nums => exact List.length_pos_of_mem (hperm.mem_iff.1 (List.mem_append_left _ (List.mem_cons_self)))
  have hlen : ∀ {α β : Type} {f : α → β} {l : List α} {g : K → β} {l' : List K}, l.map f = l'.map g → l.length = l'.length := by
    intro α β f l g l' h
    simpa using congrArg List.length h
  have hproper : ProperSets vs := by
    intro v hv
    have hvc : v.name ∈ X.cols := by rw [← h2]; exact List.mem_map_of_mem hv
    rcases List.mem_append.1 (hperm.mem_iff.2 hvc) with hk | hk
    · obtain ⟨w, hw, col, pts, w1, w2, w3, w4, w5, -⟩ := h3 _ hk
      rw [hvn w hw v hv w1] at w4 w5
      refine ⟨?_, by rw [w5]; exact hnames _ hk col pts w2 w3⟩
      intro h0
      rw [h0] at w5
      have hpn : pts = [] := by simpa using w5.symm
      subst hpn
      have hcol : X.rows.map (fun r => r[X.cols.idxOf v.name]?) = col.map (fun x => some (Cell.num x)) := by
        obtain ⟨col', q1, q2⟩ := Frame.numCol_ok X v.name hvc (fun r hr => hrows r (by simp [hr])) (fun row hr => hnum _ hk row (by simp [hr]))
        rw [w2] at q1
        cases q1
        exact (forall₂_map_eq q2 (fun r x hx => hx.symm)).symm
      have hcne : col ≠ [] := by
        rintro rfl
        simp at hcol
        exact hrne hcol
      rcases w3 with ⟨-, -, q⟩ | ⟨q1, q2⟩
      · obtain ⟨x, hx⟩ := List.exists_mem_of_ne_nil _ hcne
        exact absurd ((q x).2 hx) (by simp)
      · obtain ⟨pts, e1, e2, -⟩ := hd _ hk col hcol q1
        rw [q2] at e1
        cases e1
        exact e2 rfl
    · obtain ⟨w, hw, col, w1, w2, w3, w4⟩ := h4 _ hk
      rw [hvn w hw v hv w1] at w3 w4
      refine ⟨?_, by
        rw [w4]
        exact List.Nodup.map_on (fun x hx y hy => hnamesC _ hk col w2 x ((mem_pdUnique col x).1 hx) y ((mem_pdUnique col y).1 hy)) (pdUnique_nodup col)⟩
      intro h0
      rw [h0] at w4
      have hpn : pdUnique col = [] := by simpa using w4.symm
      have hcn : col = [] := List.eq_nil_iff_forall_not_mem.2 (fun x hx => by
        have := (mem_pdUnique col x).2 hx; rw [hpn] at this; cases this)
      obtain ⟨col', q1, q2⟩ := Frame.col_ok X v.name hvc (fun r hr => hrows r (by simp [hr]))
      rw [w2] at q1
      cases q1
      rw [hcn] at q2
      have hl := q2.length_eq
      simp at hl
      exact hrne hl
  have hpn : ∀ (i : Nat) v, vs[i]? = some v → X.cols.idxOf v.name = i := by
    intro i v hv
    have hname : X.cols[i]? = some v.name := by rw [← h2, List.getElem?_map, hv]; rfl
    obtain ⟨h, h'⟩ := List.getElem?_eq_some_iff.1 hname
    rw [← h']; exact List.Nodup.idxOf_getElem hcols i h
  refine ⟨vs, im, by rw [h1], ?_, h2, ?_, ?_, ?_⟩
  · rw [h1]
    exact {
      hvars := rfl
      hX := hX
      hy := hsy
      hdec := hdec
      him := rfl
      names := by rw [h2]; exact hcols
      sets := hproper
      rect := ⟨X.cols.length, hpos, hrne, fun r hr => hrows r (by simp [hr])⟩
      len := hy.symm
      rows := fun row hr => h6 row (by simp [hr])
      decNe := by
        intro h0
        have := hrows dec (by simp)
        rw [h0] at this
        simp at this; omega
      decRow := h6 dec (by simp)
      mem := h5 }
  · intro v hv hk
    obtain ⟨w, hw, col, pts, w1, w2, w3, w4, w5, -⟩ := h3 _ hk
    rw [hvn w hw v hv w1] at w5
    exact ⟨col, pts, w2, w3, by simpa using congrArg List.length w5⟩
  · intro row hrow i v hv
    have hvm := List.mem_of_getElem? hv
    have hvc : v.name ∈ X.cols := by rw [← h2]; exact List.mem_map_of_mem hvm
    rcases List.mem_append.1 (hperm.mem_iff.2 hvc) with hk | hk
    · obtain ⟨w, hw, col, pts, w1, w2, w3, w4, w5, -, w6⟩ := h3 _ hk
      rw [hvn w hw v hvm w1] at w4 w5 w6
      have hpne : pts ≠ [] := by
        rintro rfl
        exact (hproper v hvm).1 (by simpa using w5)
      have hinc : pts.Pairwise (· < ·) := by
        have hnd : pts.Nodup := List.Nodup.of_map _ (hnames _ hk col pts w2 w3)
        have hle : pts.Pairwise (· ≤ ·) := by
          rcases w3 with ⟨-, q, -⟩ | ⟨q1, q2⟩
          · exact q.imp le_of_lt
          · have hcol : X.rows.map (fun r => r[X.cols.idxOf v.name]?) = col.map (fun x => some (Cell.num x)) := by
              obtain ⟨col', e1, e2⟩ := Frame.numCol_ok X v.name hvc (fun r hr => hrows r (by simp [hr]))
                (fun row hr => hnum _ hk row (by simp [hr]))
              rw [w2] at e1
              cases e1
              exact (forall₂_map_eq e2 (fun r x hx => hx.symm)).symm
            obtain ⟨pts', e1, -, e2⟩ := hd _ hk col hcol q1
            rw [q2] at e1
            cases e1
            exact e2
        exact (List.pairwise_and_iff.2 ⟨hle, hnd⟩).imp (fun h => lt_of_le_of_ne h.1 h.2)
      obtain ⟨lo, hlo⟩ : ∃ lo, pts.head? = some lo := ⟨_, List.head?_eq_some_head hpne⟩
      obtain ⟨hi, hhi⟩ : ∃ hi, pts.getLast? = some hi := ⟨_, List.getLast?_eq_some_getLast hpne⟩
      obtain ⟨x, hx⟩ := hnum _ hk row hrow
      rw [hpn i v hv] at hx
      obtain ⟨ms, q1, q2, q3⟩ := C93_partition w6 hinc lo hi hlo hhi x
      refine ⟨_, ms, hx, q1, ?_⟩
      by_cases hin : lo ≤ x ∧ x ≤ hi
      · exact (q2 hin.1 hin.2).le
      · rw [List.sum_eq_zero (q3 (by by_contra hc; push Not at hc; exact hin hc))]
        exact zero_le_one
    · obtain ⟨w, hw, col, w1, w2, w3, w4⟩ := h4 _ hk
      rw [hvn w hw v hvm w1] at w3 w4
      obtain ⟨ds, e1, e2⟩ := disc_sets _ _ w3
      obtain ⟨x, hx, -⟩ := h6 row hrow i v hv
      obtain ⟨ms, q1, q2⟩ := C40_hypothesis_discrete (ds.map (fun d => (d.name, d.value))) (by
        rw [List.map_map]
        show (ds.map DSet.value).Nodup
        rw [e2]; exact pdUnique_nodup col) x
      have : getFuzzyDiscreteSets (ds.map (fun d => (d.name, d.value))) = ds := by
        unfold getFuzzyDiscreteSets
        rw [List.map_map]
        exact List.map_id _
      rw [this, ← e1] at q1
      exact ⟨x, ms, hx, q1, q2⟩
  · intro i v hv ⟨d0, hd0⟩ st hst
    have hvm := List.mem_of_getElem? hv
    have hvc : v.name ∈ X.cols := by rw [← h2]; exact List.mem_map_of_mem hvm
    rcases List.mem_append.1 (hperm.mem_iff.2 hvc) with hk | hk
    · obtain ⟨w, hw, col, pts, w1, -, -, -, -, -, w6⟩ := h3 _ hk
      rw [hvn w hw v hvm w1] at w6
      have : 0 < pts.length := by rw [← w6.1]; exact (List.getElem?_eq_some_iff.1 hd0).1
      obtain ⟨c, q, -⟩ := w6.2 0 _ (List.getElem?_eq_getElem this)
      rw [hd0] at q
      cases q
    · obtain ⟨w, hw, col, w1, w2, w3, w4⟩ := h4 _ hk
      rw [hvn w hw v hvm w1] at w3 w4
      obtain ⟨ds, e1, e2⟩ := disc_sets _ _ w3
      rw [e1] at hst
      obtain ⟨dd, hdd, rfl⟩ := List.mem_map.1 hst
      have hmc : dd.value ∈ col := (mem_pdUnique col _).1 (by rw [← e2]; exact List.mem_map_of_mem hdd)
      obtain ⟨col', q1, q2⟩ := Frame.col_ok X v.name hvc (fun r hr => hrows r (by simp [hr]))
      rw [w2] at q1
      cases q1
      obtain ⟨row, hrow, q⟩ := forall₂_mem_right q2 _ hmc
      rw [hpn i v hv] at q
      exact ⟨row, hrow, _, 1, q, by simp [FSet.membership, DSet.membership], zero_lt_one⟩

end

/-! ## The hypotheses hold on the example, and what fails for an encoded instance -/

section

/-- the memberships of the example's instance. -/
def expIm : Memb ℚ := ((datasetMembership [expRow] exParams.vars).toOption).getD []

theorem exParams_typed : ∀ row ∈ expRow :: [.num 1, .str "f"] :: exX, WellTyped exParams.vars row := by
  have hb : ((expRow :: [.num 1, .str "f"] :: exX).all (fun row => exParams.vars.zipIdx.all (fun p => match row[p.2]? with
      | none => false
      | some x => p.1.sets.all (fun s => match s.membership [x] with
        | .ok [_] => true
        | _ => false)))) = true := by decide +kernel
  intro row hrow i v hv
  have h1 := List.all_eq_true.1 (List.all_eq_true.1 hb row hrow) (v, i) (List.mk_mem_zipIdx_iff_getElem?.2 hv)
  simp only at h1
  cases hx : row[i]? with
  | none => simp [hx] at h1
  | some x =>
    simp only [hx] at h1
    refine ⟨x, rfl, fun s hs => ?_⟩
    have h2 := List.all_eq_true.1 h1 s hs
    split at h2
    · rename_i m hm; exact ⟨m, hm⟩
    · cases h2

theorem expNb_ready : Ready expNb exParams.vars ⟨["age", "sex"], exX⟩ exY expRow expIm where
  hvars := rfl
  hX := rfl
  hy := rfl
  hdec := rfl
  him := by decide +kernel
  names := by decide +kernel
  sets := by
    intro v hv
    have : (exParams.vars.all (fun v => decide (v.sets ≠ [] ∧ (v.sets.map FSet.name).Nodup))) = true := by decide +kernel
    exact of_decide_eq_true (List.all_eq_true.1 this v hv)
  rect := ⟨2, by decide, by decide +kernel, by decide +kernel⟩
  len := by decide +kernel
  rows := fun row hr => exParams_typed row (by simp [hr])
  decNe := by decide
  decRow := exParams_typed _ (by simp)
  mem := by decide +kernel

theorem expArgs_good : GoodArgs expCtx (expArgs "m_factual" "i_counterfactual" {} 0) exParams.vars expRow where
  rect := ⟨2, by decide, by decide, by decide⟩
  fname := by decide
  cname := by decide
  lam := by decide
  noLam := fun _ => ⟨rfl, rfl⟩
  other := rfl
  noD := fun _ => rfl
  isD := by
    intro h
    exact absurd h (by decide)
  th := by
    intro th h
    cases h
  num := by
    intro v hv hn
    have : (exParams.vars.all (fun v => decide (v.name = "age" → 2 ≤ v.sets.length))) = true := by decide +kernel
    exact of_decide_eq_true (List.all_eq_true.1 this v hv) (by simpa [expArgs] using hn)

example : (expArgs "m_factual" "i_counterfactual" {} 0).inst.flatten = expRow ∧ 1 ∈ exY := by decide +kernel

/-- the same neighborhood for the instance decoded as `[1, "f"]`. -/
def encNb : NState ℚ := { expNb with
  instMem := (datasetMembership [[.num 1, .str "f"]] exParams.vars).toOption, decodedInst := some [.num 1, .str "f"] }

/-- C143 is false without `a.inst.flatten = dec`: the neighborhood is ready for the decoded instance `[1, "f"]`, for which the tree and the
rules answer class 1, but `fit` gets the instance in its encoded form `[1, 0]`, explains class 0, and returns no rule at all. -/
theorem C143_encoded_instance_false : ∃ (a : ExpArgs ℚ) (im : Memb ℚ) (t : FNode Nat ℚ),
    Ready a.nb exParams.vars ⟨["age", "sex"], exX⟩ exY [.num 1, .str "f"] im ∧ GoodArgs expCtx a exParams.vars [.num 1, .str "f"] ∧
    a.inst.flatten = [.num 1, .num 0] ∧ fdtFit expCtx.ent expCtx.ord exParams fdtNew exX exY = .ok t ∧
    fdtPredict min .agg t [[.num 1, .str "f"]] = .ok [[1]] ∧
    fdtExplainerFit expCtx a {} = (.ok (), ⟨some 0, some 0, some 1, some ([], some [("age", "3")])⟩) := by
  have hfit : ∃ t, fdtFit expCtx.ent expCtx.ord exParams fdtNew exX exY = .ok t ∧ fdtPredict min .agg t [[.num 1, .str "f"]] = .ok [[1]] := by
    have : ((fdtFit expCtx.ent expCtx.ord exParams fdtNew exX exY).toOption.map (fun t => fdtPredict min .agg t [[.num 1, .str "f"]])) =
        some (.ok [[1]]) := by decide +kernel
    cases h : fdtFit expCtx.ent expCtx.ord exParams fdtNew exX exY with
    | error e => rw [h] at this; cases this
    | ok t =>
      rw [h] at this
      exact ⟨t, rfl, by simpa [Except.toOption] using this⟩
  obtain ⟨t, ht, hp⟩ := hfit
  refine ⟨⟨[[.num 1, .num 0]], 0, encNb, ["age"], "mr_factual", "i_counterfactual", {}⟩,
    ((datasetMembership [[.num 1, .str "f"]] exParams.vars).toOption).getD [], t, ?_, ?_, rfl, ht, hp, by decide +kernel⟩
  · exact {
      hvars := rfl
      hX := rfl
      hy := rfl
      hdec := rfl
      him := by decide +kernel
      names := expNb_ready.names
      sets := expNb_ready.sets
      rect := expNb_ready.rect
      len := expNb_ready.len
      rows := expNb_ready.rows
      decNe := by decide
      decRow := exParams_typed _ (by simp)
      mem := by decide +kernel }
  · exact {
      rect := ⟨2, by decide, by decide, by decide⟩
      fname := by decide
      cname := by decide
      lam := by decide
      noLam := fun _ => ⟨rfl, rfl⟩
      other := rfl
      noD := fun _ => rfl
      isD := by
        intro h
        exact absurd h (by decide)
      th := expArgs_good.th
      num := expArgs_good.num }

/-- a neighborhood where the black box gives a single class: the tree is one leaf and `fit` raises `ValueError`. -/
example : (fdtExplainerFit expCtx ⟨[expRow], 0, { expNb with y := some [1, 1, 1, 1, 1] }, ["age"], "mr_factual", "i_counterfactual", {}⟩ {}).1 =
    .error .valueError := by decide +kernel

end

end Teacher
