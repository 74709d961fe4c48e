import Verif.Model.TreeEq
import Verif.Props.FDTFitted
import Verif.Props.FBDTPredict
import Verif.Lemmas.ID3

/-! # C120: trees that compare equal behave alike -/

set_option linter.unusedSectionVars false

namespace Teacher
open Spec

/-! ### dicts -/

section
variable {C K : Type} [LinearOrder C] [DecidableEq K]

/-- two equal dicts with their keys in increasing order are the same list. -/
theorem pyEq_sorted {d e : Dict C K} (hd : (d.map Prod.fst).Pairwise (· < ·)) (he : (e.map Prod.fst).Pairwise (· < ·))
    (h : Dict.pyEq d e = true) : d = e := by
  unfold Dict.pyEq at h
  rw [Bool.and_eq_true, beq_iff_eq, List.all_eq_true] at h
  obtain ⟨hlen, hall⟩ := h
  have hsub : ∀ kv ∈ d, kv ∈ e := by
    intro kv hkv
    have := hall kv hkv
    rw [beq_iff_eq] at this
    exact Dict.mem_of_get? this
  have hnd : d.Nodup := List.Nodup.of_map Prod.fst (hd.imp (fun h => h.ne))
  have hne : e.Nodup := List.Nodup.of_map Prod.fst (he.imp (fun h => h.ne))
  have hperm : d.Perm e := (List.subperm_of_subset hnd hsub).perm_of_length_le (by rw [hlen])
  have h1 : d.Pairwise (fun a b => a.1 < b.1) := List.pairwise_map.1 hd
  have h2 : e.Pairwise (fun a b => a.1 < b.1) := List.pairwise_map.1 he
  exact hperm.eq_of_pairwise (fun a b _ _ hab hba => absurd (lt_trans hab hba) (lt_irrefl _)) h1 h2

theorem classValueEq_sorted {a b : Option (Dict C K)} (ha : ∀ d, a = some d → (d.map Prod.fst).Pairwise (· < ·))
    (hb : ∀ d, b = some d → (d.map Prod.fst).Pairwise (· < ·)) (h : classValueEq a b = true) : a = b := by
  cases a with
  | none => cases b with
    | none => rfl
    | some d => cases h
  | some d => cases b with
    | none => cases h
    | some e => rw [pyEq_sorted (ha d rfl) (hb e rfl) h]
end

/-! ### FDT -/

section
variable {C K : Type} [Field K] [LinearOrder K] [IsStrictOrderedRing K] [LinearOrder C]

/-- the tests of the tree are on the variables of the list, and the leaves have their classes in order. -/
def Ordered (vars : List (FVar K)) (t : FNode C K) : Prop :=
  ∀ q ∈ nodePaths t, (∀ test ∈ q.1, vars[test.att]? = some test.var) ∧
    (q.2.isLeaf = true → ∀ d, q.2.classValue = some d → (d.map Prod.fst).Pairwise (· < ·))

theorem Ordered.child {vars : List (FVar K)} {test level m cv} {children : List (FNode C K)} {c : FNode C K}
    (h : Ordered vars (.mk test level m false cv children)) (hc : c ∈ children) : Ordered vars c := by
  intro q hq
  obtain ⟨h1, h2⟩ := h _ (nodePaths_child hc hq)
  exact ⟨fun t ht => h1 t (List.mem_append_right _ ht), h2⟩

theorem fitted_ordered {ent : List K → List C → K} {ord : List String → List String} {p : FDTParams K}
    {X : List (List (Cell K))} {y : List C} {t : FNode C K} (h : fdtFit ent ord p fdtNew X y = .ok t) : Ordered p.vars t := by
  intro q hq
  refine ⟨(C31_depth_and_features ent ord p X y t h q hq).2.2.2, fun hl d hd => ?_⟩
  obtain ⟨cv, h1, h2, -⟩ := C30_leaf_distributions ent ord p X y t h (q.1, q.2.classValue) ((leafPaths_iff t _).2 ⟨q.2, hq, hl, rfl⟩)
  simp only [hd, Option.some.injEq] at h1
  rw [h1]
  exact h2

theorem test_eq_of_value {vars : List (FVar K)} {a b : Option (FTest K)}
    (ha : ∀ t ∈ a.toList, vars[t.att]? = some t.var) (hb : ∀ t ∈ b.toList, vars[t.att]? = some t.var)
    (h : a.map (fun t => (t.att, t.idx)) = b.map (fun t => (t.att, t.idx))) : a = b := by
  cases a with
  | none => cases b with
    | none => rfl
    | some t => cases h
  | some t => cases b with
    | none => cases h
    | some u =>
      simp only [Option.map_some, Option.some.injEq, Prod.mk.injEq] at h
      have h1 := ha t (by simp)
      have h2 := hb u (by simp)
      rw [h.1, h2] at h1
      obtain ⟨v, i, j⟩ := t
      obtain ⟨v', i', j'⟩ := u
      simp only [Option.some.injEq] at h h1
      rw [h.1, h.2, h1]

/-- the parts of equal nodes. -/
theorem pyEq_parts {vars : List (FVar K)} {test test' : Option (FTest K)} {level level' mu mu' isLeaf isLeaf' cv cv'}
    {children children' : List (FNode C K)} (h : FNode.pyEq (.mk test level mu isLeaf cv children) (.mk test' level' mu' isLeaf' cv' children') = true)
    (ht : Ordered vars (.mk test level mu isLeaf cv children)) (hu : Ordered vars (.mk test' level' mu' isLeaf' cv' children')) :
    test = test' ∧ isLeaf = isLeaf' ∧ (isLeaf = true → cv = cv') ∧ FNode.pyEqList children children' = true := by
  simp only [FNode.pyEq, Bool.and_eq_true, beq_iff_eq] at h
  obtain ⟨⟨⟨⟨⟨h1, h2⟩, h3⟩, -⟩, h5⟩, -⟩ := h
  obtain ⟨t1, t2⟩ := ht _ (nodePaths_self _)
  obtain ⟨u1, u2⟩ := hu _ (nodePaths_self _)
  refine ⟨test_eq_of_value t1 u1 h5, h1, fun hl => classValueEq_sorted (t2 hl) (u2 (h1 ▸ hl)) h3, h2⟩

theorem pyEq_predict {vars : List (FVar K)} (T : K → K → K) (X : List (List (Cell K))) (t : FNode C K) :
    ∀ (u : FNode C K) (mu : List K), t.pyEq u = true → Ordered vars t → Ordered vars u →
      partialPredict T X mu t = partialPredict T X mu u := by
  induction t using FNode.induction with
  | h test level m isLeaf cv children ih =>
    rintro ⟨test', level', m', isLeaf', cv', children'⟩ mu h ht hu
    obtain ⟨rfl, rfl, h3, h4⟩ := pyEq_parts h ht hu
    cases isLeaf with
    | true => simp only [partialPredict, h3 rfl, if_true]
    | false =>
      have hlist : ∀ (cs ds : List (FNode C K)) (mu : List K), (∀ c ∈ cs, c ∈ children) → (∀ d ∈ ds, d ∈ children') →
          FNode.pyEqList cs ds = true → partialPredictList T X mu cs = partialPredictList T X mu ds := by
        intro cs
        induction cs with
        | nil => intro ds mu _ _ he; cases ds with
          | nil => rfl
          | cons d ds => cases he
        | cons c cs ihc =>
          intro ds mu hc hd he
          cases ds with
          | nil => cases he
          | cons d ds =>
            simp only [FNode.pyEqList, Bool.and_eq_true] at he
            simp only [partialPredictList]
            rw [ih c (hc c (by simp)) d mu he.1 (ht.child (hc c (by simp))) (hu.child (hd d (by simp))),
              ihc ds mu (fun x hx => hc x (by simp [hx])) (fun x hx => hd x (by simp [hx])) he.2]
      simp only [partialPredict, Bool.false_eq_true, if_false]
      cases hmu : nodeMu T X mu test with
      | error e => rfl
      | ok nm =>
        simp only [py_bind_ok]
        cases children with
        | nil => cases children' with
          | nil => rfl
          | cons d ds => cases h4
        | cons c cs => cases children' with
          | nil => cases h4
          | cons d ds => exact hlist (c :: cs) (d :: ds) nm (fun _ h => h) (fun _ h => h) h4

theorem pyEq_rules {vars : List (FVar K)} (th : K) (t : FNode C K) :
    ∀ (u : FNode C K) (rule : List (String × String)), t.pyEq u = true → Ordered vars t → Ordered vars u →
      getRules th rule t = getRules th rule u := by
  induction t using FNode.induction with
  | h test level m isLeaf cv children ih =>
    rintro ⟨test', level', m', isLeaf', cv', children'⟩ rule h ht hu
    obtain ⟨rfl, rfl, h3, h4⟩ := pyEq_parts h ht hu
    cases isLeaf with
    | true => simp only [getRules, h3 rfl, if_true]
    | false =>
      have hlist : ∀ (cs ds : List (FNode C K)) (rule : List (String × String)), (∀ c ∈ cs, c ∈ children) → (∀ d ∈ ds, d ∈ children') →
          FNode.pyEqList cs ds = true → getRulesList th rule cs = getRulesList th rule ds := by
        intro cs
        induction cs with
        | nil => intro ds rule _ _ he; cases ds with
          | nil => rfl
          | cons d ds => cases he
        | cons c cs ihc =>
          intro ds rule hc hd he
          cases ds with
          | nil => cases he
          | cons d ds =>
            simp only [FNode.pyEqList, Bool.and_eq_true] at he
            simp only [getRulesList]
            rw [ih c (hc c (by simp)) d rule he.1 (ht.child (hc c (by simp))) (hu.child (hd d (by simp))),
              ihc ds rule (fun x hx => hc x (by simp [hx])) (fun x hx => hd x (by simp [hx])) he.2]
      simp only [getRules, Bool.false_eq_true, if_false]
      cases nodeClause test rule with
      | error e => rfl
      | ok r => exact hlist children children' r (fun _ h => h) (fun _ h => h) h4

/-- C120: two FDT trees that were grown (on any data, with any settings) over the same fuzzy variables and compare equal have the same
predictions on every table, with any t-norm and voting method, and the same rules. -/
theorem C120_fdt_partial (ent ent' : List K → List C → K) (ord ord' : List String → List String) (p p' : FDTParams K) (hp : p.vars = p'.vars)
    (X X' : List (List (Cell K))) (y y' : List C) (t u : FNode C K) (ht : fdtFit ent ord p fdtNew X y = .ok t)
    (hu : fdtFit ent' ord' p' fdtNew X' y' = .ok u) (h : t.pyEq u = true) (T : K → K → K) (v : Voting) (Z : List (List (Cell K)))
    (verbose simplify : Bool) :
    fdtPredict T v t Z = fdtPredict T v u Z ∧ fdtToRules t verbose simplify = fdtToRules u verbose simplify := by
  have h1 := fitted_ordered ht
  have h2 := fitted_ordered hu
  rw [← hp] at h2
  constructor
  · unfold fdtPredict FNode.predict
    rw [pyEq_predict T Z t u _ h h1 h2]
  · unfold fdtToRules FNode.toRules
    rw [pyEq_rules _ t u _ h h1 h2]

end

/-! ### FBDT -/

section
variable {C K : Type} [Field K] [LinearOrder K] [IsStrictOrderedRing K] [LinearOrder C]
open FB

/-- the same for binary trees. -/
def BOrdered (vars : List (FVar K)) (t : BNode C K) : Prop :=
  ∀ q ∈ bNodePaths t, (∀ test ∈ q.1, vars[test.att]? = some test.var) ∧
    (q.2.isLeaf = true → ∀ d, q.2.classValue = some d → (d.map Prod.fst).Pairwise (· < ·))

theorem BOrdered.child {vars : List (FVar K)} {test level m cv} {children : List (BNode C K)} {c : BNode C K}
    (h : BOrdered vars (.mk test level m false cv children)) (hc : c ∈ children) : BOrdered vars c := by
  intro q hq
  obtain ⟨h1, h2⟩ := h _ (bNodePaths_child hc hq)
  exact ⟨fun t ht => h1 t (List.mem_append_right _ ht), h2⟩

theorem bfitted_ordered [NanSort K] {ent : List K → List C → K} {p : FDTParams K}
    {X : List (List (Cell K))} {y : List C} {t : BNode C K} (h : fbdtFit ent p fbdtNew X y = .ok t) : BOrdered p.vars t := by
  intro q hq
  refine ⟨fun test ht => ((C38_depth ent p X y t h q hq).2 test ht).1, fun hl d hd => ?_⟩
  obtain ⟨cv, h1, h2, -⟩ := C38_leaf_distributions ent p X y t h (q.1, q.2.classValue) ((bLeafPaths_iff t _).2 ⟨q.2, hq, hl, rfl⟩)
  simp only [hd, Option.some.injEq] at h1
  rw [h1]
  exact h2

theorem btest_eq_of_value {vars : List (FVar K)} {a b : Option (BTest K)}
    (ha : ∀ t ∈ a.toList, vars[t.att]? = some t.var) (hb : ∀ t ∈ b.toList, vars[t.att]? = some t.var)
    (h : a.map (fun t => (t.att, t.idxs)) = b.map (fun t => (t.att, t.idxs))) : a = b := by
  cases a with
  | none => cases b with
    | none => rfl
    | some t => cases h
  | some t => cases b with
    | none => cases h
    | some u =>
      simp only [Option.map_some, Option.some.injEq, Prod.mk.injEq] at h
      have h1 := ha t (by simp)
      have h2 := hb u (by simp)
      rw [h.1, h2] at h1
      obtain ⟨v, i, j⟩ := t
      obtain ⟨v', i', j'⟩ := u
      simp only [Option.some.injEq] at h h1
      rw [h.1, h.2, h1]

/-- the parts of equal nodes. -/
theorem bpyEq_parts {vars : List (FVar K)} {test test' : Option (BTest K)} {level level' mu mu' isLeaf isLeaf' cv cv'}
    {children children' : List (BNode C K)} (h : BNode.pyEq (.mk test level mu isLeaf cv children) (.mk test' level' mu' isLeaf' cv' children') = true)
    (ht : BOrdered vars (.mk test level mu isLeaf cv children)) (hu : BOrdered vars (.mk test' level' mu' isLeaf' cv' children')) :
    test = test' ∧ isLeaf = isLeaf' ∧ (isLeaf = true → cv = cv') ∧ BNode.pyEqList children children' = true := by
  simp only [BNode.pyEq, Bool.and_eq_true, beq_iff_eq] at h
  obtain ⟨⟨⟨⟨⟨h1, h2⟩, h3⟩, -⟩, h5⟩, -⟩ := h
  obtain ⟨t1, t2⟩ := ht _ (bNodePaths_self _)
  obtain ⟨u1, u2⟩ := hu _ (bNodePaths_self _)
  refine ⟨btest_eq_of_value t1 u1 h5, h1, fun hl => classValueEq_sorted (t2 hl) (u2 (h1 ▸ hl)) h3, h2⟩

theorem bpyEq_predict {vars : List (FVar K)} (T : K → K → K) (X : List (List (Cell K))) (t : BNode C K) :
    ∀ (u : BNode C K) (mu : List K), t.pyEq u = true → BOrdered vars t → BOrdered vars u →
      bPartialPredict T X mu t = bPartialPredict T X mu u := by
  induction t using BNode.induction with
  | h test level m isLeaf cv children ih =>
    rintro ⟨test', level', m', isLeaf', cv', children'⟩ mu h ht hu
    obtain ⟨rfl, rfl, h3, h4⟩ := bpyEq_parts h ht hu
    cases isLeaf with
    | true => simp only [bPartialPredict, h3 rfl, if_true]
    | false =>
      have hlist : ∀ (cs ds : List (BNode C K)) (mu : List K), (∀ c ∈ cs, c ∈ children) → (∀ d ∈ ds, d ∈ children') →
          BNode.pyEqList cs ds = true → bPartialPredictList T X mu cs = bPartialPredictList T X mu ds := by
        intro cs
        induction cs with
        | nil => intro ds mu _ _ he; cases ds with
          | nil => rfl
          | cons d ds => cases he
        | cons c cs ihc =>
          intro ds mu hc hd he
          cases ds with
          | nil => cases he
          | cons d ds =>
            simp only [BNode.pyEqList, Bool.and_eq_true] at he
            simp only [bPartialPredictList]
            rw [ih c (hc c (by simp)) d mu he.1 (ht.child (hc c (by simp))) (hu.child (hd d (by simp))),
              ihc ds mu (fun x hx => hc x (by simp [hx])) (fun x hx => hd x (by simp [hx])) he.2]
      simp only [bPartialPredict, Bool.false_eq_true, if_false]
      cases hmu : bnodeMu T X mu test with
      | error e => rfl
      | ok nm =>
        simp only [py_bind_ok]
        cases children with
        | nil => cases children' with
          | nil => rfl
          | cons d ds => cases h4
        | cons c cs => cases children' with
          | nil => cases h4
          | cons d ds => exact hlist (c :: cs) (d :: ds) nm (fun _ h => h) (fun _ h => h) h4

theorem bpyEq_rules {vars : List (FVar K)} (th : K) (t : BNode C K) :
    ∀ (u : BNode C K) (rule : List (String × List String)), t.pyEq u = true → BOrdered vars t → BOrdered vars u →
      bGetRules th rule t = bGetRules th rule u := by
  induction t using BNode.induction with
  | h test level m isLeaf cv children ih =>
    rintro ⟨test', level', m', isLeaf', cv', children'⟩ rule h ht hu
    obtain ⟨rfl, rfl, h3, h4⟩ := bpyEq_parts h ht hu
    cases isLeaf with
    | true => simp only [bGetRules, h3 rfl, if_true]
    | false =>
      have hlist : ∀ (cs ds : List (BNode C K)) (rule : List (String × List String)), (∀ c ∈ cs, c ∈ children) → (∀ d ∈ ds, d ∈ children') →
          BNode.pyEqList cs ds = true → bGetRulesList th rule cs = bGetRulesList th rule ds := by
        intro cs
        induction cs with
        | nil => intro ds rule _ _ he; cases ds with
          | nil => rfl
          | cons d ds => cases he
        | cons c cs ihc =>
          intro ds rule hc hd he
          cases ds with
          | nil => cases he
          | cons d ds =>
            simp only [BNode.pyEqList, Bool.and_eq_true] at he
            simp only [bGetRulesList]
            rw [ih c (hc c (by simp)) d rule he.1 (ht.child (hc c (by simp))) (hu.child (hd d (by simp))),
              ihc ds rule (fun x hx => hc x (by simp [hx])) (fun x hx => hd x (by simp [hx])) he.2]
      simp only [bGetRules, Bool.false_eq_true, if_false]
      cases bnodeClause test rule with
      | error e => rfl
      | ok r => exact hlist children children' r (fun _ h => h) (fun _ h => h) h4

/-- C120: the same for FBDT. -/
theorem C120_fbdt_partial [NanSort K] (ent ent' : List K → List C → K) (p p' : FDTParams K) (hp : p.vars = p'.vars)
    (X X' : List (List (Cell K))) (y y' : List C) (t u : BNode C K) (ht : fbdtFit ent p fbdtNew X y = .ok t)
    (hu : fbdtFit ent' p' fbdtNew X' y' = .ok u) (h : t.pyEq u = true) (T : K → K → K) (v : Voting) (Z : List (List (Cell K)))
    (verbose simplify : Bool) :
    fbdtPredict T v t Z = fbdtPredict T v u Z ∧ fbdtToRules t verbose simplify = fbdtToRules u verbose simplify := by
  have h1 := bfitted_ordered ht
  have h2 := bfitted_ordered hu
  rw [← hp] at h2
  constructor
  · unfold fbdtPredict BNode.predict
    rw [bpyEq_predict T Z t u _ h h1 h2]
  · unfold fbdtToRules BNode.toRules
    rw [bpyEq_rules _ t u _ h h1 h2]

end

/-! ### ID3 -/

section
variable {V C K : Type} [DecidableEq V] [DecidableEq C] [DecidableEq K]

mutual
theorem INode.pyEq_eq : ∀ (t u : INode V C K), t.pyEq u = true → t = u
  | .mk a b c d e f g i, .mk a' b' c' d' e' f' g' i', h => by
    simp only [INode.pyEq, Bool.and_eq_true, beq_iff_eq] at h
    obtain ⟨⟨⟨⟨⟨⟨⟨h1, h2⟩, h3⟩, h4⟩, h5⟩, h6⟩, h7⟩, h8⟩ := h
    rw [h1, h2, INode.pyEqList_eq c c' h3, h4, h5, h6, h7, h8]
theorem INode.pyEqList_eq : ∀ (t u : List (V × INode V C K)), INode.pyEqList t u = true → t = u
  | [], [], _ => rfl
  | (s, c) :: cs, (s', d) :: ds, h => by
    simp only [INode.pyEqList, Bool.and_eq_true, beq_iff_eq] at h
    rw [h.1.1, INode.pyEq_eq c d h.1.2, INode.pyEqList_eq cs ds h.2]
  | [], _ :: _, h => by cases h
  | _ :: _, [], h => by cases h
end

/-- C120: ID3 trees that compare equal, fitted or not, have the same predictions and the same rules. -/
theorem C120_id3 [One K] (features features' : List String) (t u : INode V C K) (h : id3TreeEq features features' t u = true) (x : List V) :
    t.predict x = u.predict x ∧ t.toRules features = u.toRules features' := by
  unfold id3TreeEq at h
  rw [Bool.and_eq_true, beq_iff_eq] at h
  obtain ⟨h1, rfl⟩ := h
  rw [INode.pyEq_eq t u h1]
  exact ⟨rfl, rfl⟩
end

/-! ### the fuzzy variables are not compared -/

/-- one numeric feature with two fuzzy sets; `low` ends at `r`. -/
def eqParams (r : ℚ) : FDTParams ℚ :=
  ⟨[⟨"x", [.cont ⟨"low", 0, 0, r, false⟩, .cont ⟨"high", 0, 1, 1, false⟩]⟩], 1/100, 10, 2⟩

theorem eq_fits_fdt : ((fdtFit exEnt id (eqParams 1) fdtNew [[.num 0], [.num 1]] [0, 1]).toOption.bind fun t =>
    (fdtFit exEnt id (eqParams (1/4)) fdtNew [[.num 0], [.num 1]] [0, 1]).toOption.map fun u =>
      (t.pyEq u, (fdtPredict min .max t [[.num (1/4)]]).toOption, (fdtPredict min .max u [[.num (1/4)]]).toOption)) =
    some (true, some [[0]], some [[1]]) := by decide +kernel

theorem eq_fits_fbdt : ((fbdtFit exEnt (eqParams 1) fbdtNew [[.num 0], [.num 1]] [0, 1]).toOption.bind fun t =>
    (fbdtFit exEnt (eqParams (1/4)) fbdtNew [[.num 0], [.num 1]] [0, 1]).toOption.map fun u =>
      (t.pyEq u, (fbdtPredict min .max t [[.num (1/4)]]).toOption, (fbdtPredict min .max u [[.num (1/4)]]).toOption)) =
    some (true, some [[0]], some [[1]]) := by decide +kernel

/-- C120 is false for fuzzy trees over different fuzzy variables: trees grown on the same data compare equal and classify the same row
differently. -/
theorem C120_fdt_variables_false : ∃ (p p' : FDTParams ℚ) (X : List (List (Cell ℚ))) (y : List Nat) (t u : FNode Nat ℚ) (Z : List (List (Cell ℚ))),
    fdtFit exEnt id p fdtNew X y = .ok t ∧ fdtFit exEnt id p' fdtNew X y = .ok u ∧ t.pyEq u = true ∧
      fdtPredict min .max t Z = .ok [[0]] ∧ fdtPredict min .max u Z = .ok [[1]] := by
  have h := eq_fits_fdt
  cases h1 : fdtFit exEnt id (eqParams 1) fdtNew [[.num 0], [.num 1]] [0, 1] with
  | error e => rw [h1] at h; cases h
  | ok t =>
    cases h2 : fdtFit exEnt id (eqParams (1/4)) fdtNew [[.num 0], [.num 1]] [0, 1] with
    | error e => rw [h1, h2] at h; cases h
    | ok u =>
      rw [h1, h2] at h
      simp only [Except.toOption, Option.bind_some, Option.map_some, Option.some.injEq, Prod.mk.injEq] at h
      obtain ⟨ha, hb, hc⟩ := h
      refine ⟨_, _, _, _, t, u, [[.num (1/4)]], h1, h2, ha, ?_, ?_⟩
      · cases e : fdtPredict min .max t [[.num (1/4)]] with
        | error e' => rw [e] at hb; cases hb
        | ok r => rw [e] at hb; cases hb; rfl
      · cases e : fdtPredict min .max u [[.num (1/4)]] with
        | error e' => rw [e] at hc; cases hc
        | ok r => rw [e] at hc; cases hc; rfl

/-- the same for binary trees. -/
theorem C120_fbdt_variables_false : ∃ (p p' : FDTParams ℚ) (X : List (List (Cell ℚ))) (y : List Nat) (t u : BNode Nat ℚ) (Z : List (List (Cell ℚ))),
    fbdtFit exEnt p fbdtNew X y = .ok t ∧ fbdtFit exEnt p' fbdtNew X y = .ok u ∧ t.pyEq u = true ∧
      fbdtPredict min .max t Z = .ok [[0]] ∧ fbdtPredict min .max u Z = .ok [[1]] := by
  have h := eq_fits_fbdt
  cases h1 : fbdtFit exEnt (eqParams 1) fbdtNew [[.num 0], [.num 1]] [0, 1] with
  | error e => rw [h1] at h; cases h
  | ok t =>
    cases h2 : fbdtFit exEnt (eqParams (1/4)) fbdtNew [[.num 0], [.num 1]] [0, 1] with
    | error e => rw [h1, h2] at h; cases h
    | ok u =>
      rw [h1, h2] at h
      simp only [Except.toOption, Option.bind_some, Option.map_some, Option.some.injEq, Prod.mk.injEq] at h
      obtain ⟨ha, hb, hc⟩ := h
      refine ⟨_, _, _, _, t, u, [[.num (1/4)]], h1, h2, ha, ?_, ?_⟩
      · cases e : fbdtPredict min .max t [[.num (1/4)]] with
        | error e' => rw [e] at hb; cases hb
        | ok r => rw [e] at hb; cases hb; rfl
      · cases e : fbdtPredict min .max u [[.num (1/4)]] with
        | error e' => rw [e] at hc; cases hc
        | ok r => rw [e] at hc; cases hc; rfl

/-- the hypotheses of `C120_fdt_partial` and `C120_fbdt_partial` are met by trees that are not leaves (here with different thresholds). -/
example : ((fdtFit exEnt id (eqParams 1) fdtNew [[.num 0], [.num 1]] [0, 1]).toOption.bind fun t =>
    (fdtFit exEnt id { eqParams 1 with fuzzyThreshold := 1/50 } fdtNew [[.num 0], [.num 1]] [0, 1]).toOption.map fun u =>
      (t.pyEq u, t.isLeaf, t.children.length)) = some (true, false, 2) := by decide +kernel
example : ((fbdtFit exEnt (eqParams 1) fbdtNew [[.num 0], [.num 1]] [0, 1]).toOption.bind fun t =>
    (fbdtFit exEnt { eqParams 1 with fuzzyThreshold := 1/50 } fbdtNew [[.num 0], [.num 1]] [0, 1]).toOption.map fun u =>
      (t.pyEq u, t.isLeaf, t.children.length)) = some (true, false, 2) := by decide +kernel
/-- trees on different data differ. -/
example : ((fdtFit exEnt id (eqParams 1) fdtNew [[.num 0], [.num 1]] [0, 1]).toOption.bind fun t =>
    (fdtFit exEnt id (eqParams 1) fdtNew [[.num 0], [.num 1]] [1, 0]).toOption.map fun u => t.pyEq u) = some false := by decide +kernel
/-- ID3 trees that compare equal. -/
example : id3TreeEq ["a"] ["a"]
    (.mk false (some 0) [(0, .mk true none [] (some 7) (2, 2) 1 0 1), (1, .mk true none [] (some 8) (1, 1) 1 0 1)] (some 7) (2, 3) 0 1 2 : INode Nat Nat ℚ)
    (.mk false (some 0) [(0, .mk true none [] (some 7) (2, 2) 1 0 1), (1, .mk true none [] (some 8) (1, 1) 1 0 1)] (some 7) (2, 3) 0 1 2) = true := by
  decide +kernel

end Teacher
