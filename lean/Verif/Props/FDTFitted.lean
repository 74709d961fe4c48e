import Verif.Props.FDTFit

/-! C28, C29, C34, C35, C47 for fitted fuzzy decision trees: no assumption on the tree other than being the result of `fit`. -/

set_option linter.unusedSectionVars false

namespace Teacher
open Spec

variable {C K : Type} [Field K] [LinearOrder K] [IsStrictOrderedRing K] [LinearOrder C]

/-! ### structure of a fitted tree -/

/-- the fuzzy variables have at least one set each, with different names. -/
def ProperSets (vars : List (FVar K)) : Prop := ∀ v ∈ vars, v.sets ≠ [] ∧ (v.sets.map FSet.name).Nodup

/-- the cells of the row have a degree in all the sets of their variables. -/
def WellTyped (vars : List (FVar K)) (row : List (Cell K)) : Prop :=
  ∀ (i : Nat) v, vars[i]? = some v → ∃ x, row[i]? = some x ∧ ∀ s ∈ v.sets, ∃ m, s.membership [x] = .ok [m]

theorem sum_nonpos_list {l : List K} (h : ∀ x ∈ l, x ≤ 0) : l.sum ≤ 0 := by
  induction l with
  | nil => simp
  | cons a l ih =>
    rw [List.sum_cons]
    exact add_nonpos (h a (by simp)) (ih (fun x hx => h x (by simp [hx])))

theorem nodePaths_self (t : FNode C K) : (t.test.toList, t) ∈ nodePaths t := by
  obtain ⟨a, b, c, d, e, f⟩ := t
  simp [nodePaths, FNode.test]

theorem nodePaths_child {test level m cv} {children : List (FNode C K)} {c : FNode C K} (hc : c ∈ children)
    {q : List (FTest K) × FNode C K} (hq : q ∈ nodePaths c) :
    (test.toList ++ q.1, q.2) ∈ nodePaths (.mk test level m false cv children) := by
  simp only [nodePaths, Bool.false_eq_true, if_false, List.mem_cons, nodePathsList_eq, List.mem_map]
  exact .inr ⟨q, List.mem_flatMap.2 ⟨c, hc, hq⟩, rfl⟩

theorem branching_of_nodes (t : FNode C K) (h : ∀ q ∈ nodePaths t, q.2.isLeaf = false → q.2.children ≠ []) :
    Branching t := by
  induction t using FNode.induction with
  | h test level m isLeaf cv children ih =>
    cases isLeaf with
    | true => simp [Branching]
    | false =>
      simp only [Branching, forall_const, BranchingList_iff]
      refine ⟨h _ (nodePaths_self _) rfl, ?_⟩
      intro c hc
      exact ih c hc (fun q hq => h (test.toList ++ q.1, q.2) (nodePaths_child hc hq))

theorem crispOn_of_nodes (row : List (Cell K)) (t : FNode C K) (h : ∀ q ∈ nodePaths t, q.2.isLeaf = false →
    ∃ pre c post, q.2.children = pre ++ c :: post ∧ (∃ t, c.test = some t ∧ TestDegree row t 1) ∧
      ∀ c' ∈ pre ++ post, ∃ t, c'.test = some t ∧ TestDegree row t 0) : CrispOn row t := by
  induction t using FNode.induction with
  | h test level m isLeaf cv children ih =>
    cases isLeaf with
    | true => simp [CrispOn]
    | false =>
      simp only [CrispOn, forall_const, CrispOnList_iff]
      refine ⟨h _ (nodePaths_self _) rfl, ?_⟩
      intro c hc
      exact ih c hc (fun q hq => h (test.toList ++ q.1, q.2) (nodePaths_child hc hq))

section
variable {ent : List K → List C → K} {ord : List String → List String} {p : FDTParams K}
    {X : List (List (Cell K))} {y : List C} {t : FNode C K}

theorem fitted_branching (hs : ProperSets p.vars) (h : fdtFit ent ord p fdtNew X y = .ok t) : Branching t := by
  apply branching_of_nodes
  intro q hq hl
  obtain ⟨fi, var, hv, hc⟩ := C31_children ent ord p (fun v hv => (hs v hv).2) X y t h q hq hl
  intro e
  rw [e] at hc
  have := congrArg List.length hc
  simp only [List.map_nil, List.length_nil, List.length_map, List.length_range] at this
  exact (hs var (List.mem_of_getElem? hv)).1 (List.length_eq_zero_iff.1 this.symm)

theorem fitted_tests (hn : ∀ v ∈ p.vars, (v.sets.map FSet.name).Nodup) (h : fdtFit ent ord p fdtNew X y = .ok t) :
    ∀ q ∈ leafPaths t, ∀ test ∈ q.1, test.idx < test.var.sets.length ∧ p.vars[test.att]? = some test.var := by
  intro q hq test ht
  obtain ⟨n, hn', -, -⟩ := (leafPaths_iff t q).1 hq
  refine ⟨?_, (C31_depth_and_features ent ord p X y t h _ hn').2.2.2 test ht⟩
  obtain ⟨hX, -, -, -⟩ := fdtFit_grown h
  obtain ⟨row, hr⟩ := List.exists_mem_of_ne_nil _ hX
  obtain ⟨m, -, ms, hms, -⟩ := forall₂_mem_left (C36_trained_sets_partial ent ord p hn X y t h _ hn') row hr
  obtain ⟨m', -, fs, x, h3, -⟩ := forall₂_mem_left hms test ht
  exact (List.getElem?_eq_some_iff.1 h3).1

theorem leafPaths_start (c : FNode C K) (t : FTest K) (ht : c.test = some t) : ∀ p ∈ leafPaths c, ∃ rest, p.1 = t :: rest := by
  intro p hp
  obtain ⟨test', _, _, leaf', _, _⟩ := c
  simp only [FNode.test] at ht
  subst ht
  simp only [leafPaths] at hp
  split at hp
  · simp only [List.mem_singleton] at hp; subst hp; exact ⟨[], rfl⟩
  · obtain ⟨q, -, rfl⟩ := List.mem_map.1 hp; exact ⟨_, rfl⟩

theorem fitted_split (hn : ∀ v ∈ p.vars, (v.sets.map FSet.name).Nodup) (h : fdtFit ent ord p fdtNew X y = .ok t)
    (hl : t.isLeaf = false) : ∀ q ∈ leafPaths t, q.1 ≠ [] := by
  intro q hq
  obtain ⟨fi, var, hv, hc⟩ := C31_children ent ord p hn X y t h _ (nodePaths_self t) hl
  obtain ⟨a, b, c, d, e, f⟩ := t
  simp only [FNode.isLeaf] at hl
  subst hl
  simp only [leafPaths, Bool.false_eq_true, if_false, leafPathsList_eq] at hq
  obtain ⟨q', hq', rfl⟩ := List.mem_map.1 hq
  obtain ⟨ch, hch, hq'⟩ := List.mem_flatMap.1 hq'
  have : ch.test ∈ f.map FNode.test := List.mem_map_of_mem hch
  simp only [FNode.children] at hc
  rw [hc] at this
  obtain ⟨k, -, hk⟩ := List.mem_map.1 this
  obtain ⟨rest, hr⟩ := leafPaths_start ch _ hk.symm q' hq'
  simp [hr]

theorem fitted_rowLeaves (hn : ∀ v ∈ p.vars, (v.sets.map FSet.name).Nodup) (h : fdtFit ent ord p fdtNew X y = .ok t)
    (T : K → K → K) (row : List (Cell K)) (hrow : WellTyped p.vars row) : ∃ L, RowLeaves T row t L := by
  apply forall₂_of_forall_exists
  intro q hq
  obtain ⟨cv, hcv, -⟩ := C30_leaf_distributions ent ord p X y t h q hq
  have : ∀ test ∈ q.1, ∃ m, TestDegree row test m := by
    intro test ht
    obtain ⟨h1, h2⟩ := fitted_tests hn h q hq test ht
    obtain ⟨x, hx, hm⟩ := hrow _ _ h2
    obtain ⟨m, hm⟩ := hm _ (List.getElem_mem h1)
    exact ⟨m, _, x, List.getElem?_eq_getElem h1, hx, hm⟩
  obtain ⟨ms, hms⟩ := forall₂_of_forall_exists _ _ this
  exact ⟨(cv, ms.foldl T 1), hcv, ms, hms, rfl⟩

theorem fitted_rowLeaves_weights (h : fdtFit ent ord p fdtNew X y = .ok t)
    {T : K → K → K} {row : List (Cell K)} {L : List (Dict C K × K)} (hL : RowLeaves T row t L) :
    ∀ q ∈ L, (q.1.map Prod.fst).Nodup ∧ (∀ kv ∈ q.1, 0 ≤ kv.2) ∧ ∃ kv ∈ q.1, 0 < kv.2 := by
  intro q hq
  obtain ⟨pth, hp, h1, -⟩ := forall₂_mem_right hL q hq
  obtain ⟨cv, h2, h3, h4, h5, h6⟩ := C30_leaf_distributions ent ord p X y t h pth hp
  rw [h1] at h2
  cases h2
  refine ⟨h3.imp (fun h => h.ne), fun kv hkv => (h5 kv hkv).1, ?_⟩
  by_contra hc
  push Not at hc
  have : (q.1.map Prod.snd).sum ≤ 0 := by
    apply sum_nonpos_list
    intro x hx
    obtain ⟨kv, hkv, rfl⟩ := List.mem_map.1 hx
    exact hc kv hkv
  rw [h6] at this
  exact absurd this (not_le.2 zero_lt_one)
end

/-! ### C26/C27 -/

/-- C27: a fitted tree predicts a class of the training set for every well-typed row. -/
theorem C27_fitted_total (ent : List K → List C → K) (ord : List String → List String) (p : FDTParams K)
    (hs : ProperSets p.vars) (X : List (List (Cell K))) (y : List C) (t : FNode C K)
    (h : fdtFit ent ord p fdtNew X y = .ok t) (T : K → K → K) (v : Voting) (row : List (Cell K)) (hne : row ≠ [])
    (hrow : WellTyped p.vars row) : ∃ c ∈ y, fdtPredict T v t [row] = .ok [[c]] := by
  obtain ⟨L, hL⟩ := fitted_rowLeaves (fun v hv => (hs v hv).2) h T row hrow
  have hb := fitted_branching hs h
  have hw := fitted_rowLeaves_weights h hL
  obtain ⟨q0, hq0⟩ := Branching.exists_leaf t hb
  obtain ⟨q, hq, -⟩ := forall₂_mem_left hL q0 hq0
  obtain ⟨c, hc⟩ := (C27_predicts T v t row hne hb L hL).2 ⟨q, hq, by
    obtain ⟨-, -, kv, hkv, -⟩ := hw q hq
    exact List.ne_nil_of_mem hkv⟩
  refine ⟨c, ?_, hc⟩
  obtain ⟨L', hL', pre, post, he, -⟩ := C27_max_vote T v t row c hc
  have hm : c ∈ L'.flatMap (fun q => q.1.map Prod.fst) := by rw [he]; simp
  obtain ⟨q', hq', hcq⟩ := List.mem_flatMap.1 hm
  obtain ⟨pth, hp, h1, -⟩ := forall₂_mem_right hL' q' hq'
  obtain ⟨cv, h2, -, h4, -⟩ := C30_leaf_distributions ent ord p X y t h pth hp
  rw [h1] at h2
  cases h2
  exact (h4 c).1 hcq

/-! ### C28 -/

/-- C28 for fitted trees: for a fitted tree with at least one split and an instance that holds, under the names of the
variables and sets, the membership degrees of a row, the rules of `to_rule_based_system()` give every class the
`agg_vote` of the tree; and when one class is strictly best, the weighted vote of the rules is the class predicted by the
tree. -/
theorem C28_fitted (ent : List K → List C → K) (ord : List String → List String) (p : FDTParams K)
    (hs : ProperSets p.vars) (X : List (List (Cell K))) (y : List C) (t : FNode C K)
    (h : fdtFit ent ord p fdtNew X y = .ok t) (hl : t.isLeaf = false)
    (row : List (Cell K)) (hne : row ≠ []) (hrow : WellTyped p.vars row) (inst : Inst K)
    (hinst : ∀ (i : Nat) v s x m, p.vars[i]? = some v → s ∈ v.sets → row[i]? = some x → s.membership [x] = .ok [m] →
      HasDegree inst v.name s.name m) (simplify : Bool) :
    ∃ rs L deg, fdtToRules t false simplify = .ok rs ∧ RowLeaves min row t L ∧
      (∀ r ∈ rs, r.matching inst = .ok (deg r)) ∧ (∀ c, activation deg rs c = vote .agg L c) ∧
      ∀ c ∈ y, (∀ c' ∈ y, c' ≠ c → vote .agg L c' < vote .agg L c) →
        fdtPredict min .agg t [row] = .ok [[c]] ∧ weightedVote rs inst = .ok c := by
  have hn : ∀ v ∈ p.vars, (v.sets.map FSet.name).Nodup := fun v hv => (hs v hv).2
  obtain ⟨L, hL⟩ := fitted_rowLeaves hn h min row hrow
  have hw := fitted_rowLeaves_weights h hL
  have hb := fitted_branching hs h
  have hsp := fitted_split hn h hl
  have hin : ∀ q ∈ leafPaths t, ∀ test ∈ q.1, ∀ m, TestDegree row test m →
      HasDegree inst (clauseOf test).1 (clauseOf test).2 m := by
    intro q hq test ht m hm
    obtain ⟨fs, x, h1, h2, h3⟩ := hm
    have := hinst _ _ fs x m (fitted_tests hn h q hq test ht).2 (List.mem_of_getElem? h1) h2 h3
    simpa [clauseOf, h1] using this
  obtain ⟨rs, h1, deg, h2, h3⟩ := C28_same_votes t hb hsp row L hL (fun q hq => (hw q hq).2.1) inst hin simplify
  refine ⟨rs, L, deg, h1, hL, h2, h3, ?_⟩
  intro c hc hbest
  have hcl : ∀ q ∈ L, ∀ c, c ∈ q.1.map Prod.fst ↔ c ∈ y := by
    intro q hq c
    obtain ⟨pth, hp, h1, -⟩ := forall₂_mem_right hL q hq
    obtain ⟨cv, h2, -, h4, -⟩ := C30_leaf_distributions ent ord p X y t h pth hp
    rw [h1] at h2
    cases h2
    exact h4 c
  obtain ⟨q0, hq0⟩ := Branching.exists_leaf t hb
  obtain ⟨q, hq, -⟩ := forall₂_mem_left hL q0 hq0
  obtain ⟨r1, rs', r2, r3⟩ := C28_same_class t hb hsp row hne L hL (fun q hq => (hw q hq).2) inst hin simplify c
    ⟨q, hq, (hcl q hq c).2 hc⟩ (by
      intro c' hne' ⟨q', hq', hc'⟩
      exact hbest c' ((hcl q' hq' c').1 hc') hne')
  rw [h1] at r2
  cases r2
  exact ⟨r1, r3⟩

/-! ### C29, C47 -/

/-- C29 is false of every fitted FDT: `to_rule_based_system(verbose=True)` returns no rule, `verbose=False` at least one. -/
theorem C29_fdt_fitted_false (ent : List K → List C → K) (ord : List String → List String) (p : FDTParams K)
    (hs : ProperSets p.vars) (X : List (List (Cell K))) (y : List C) (t : FNode C K)
    (h : fdtFit ent ord p fdtNew X y = .ok t) (simplify : Bool) :
    fdtToRules t true simplify = .ok [] ∧ ∃ r rs, fdtToRules t false simplify = .ok (r :: rs) := by
  apply C29_fdt_verbose_false t (fitted_branching hs h)
  intro q hq
  refine ⟨fun test ht => (fitted_tests (fun v hv => (hs v hv).2) h q hq test ht).1, ?_⟩
  obtain ⟨cv, h1, h2, h3, h4, h5⟩ := C30_leaf_distributions ent ord p X y t h q hq
  refine ⟨cv, h1, fun kv hkv => (h4 kv hkv).2, ?_⟩
  by_contra hc
  push Not at hc
  have : (cv.map Prod.snd).sum ≤ 0 := by
    apply sum_nonpos_list
    intro x hx
    obtain ⟨kv, hkv, rfl⟩ := List.mem_map.1 hx
    exact hc kv hkv
  rw [h5] at this
  exact absurd this (not_le.2 zero_lt_one)

/-- C47 for FDT: a fitted FDT is always turned into a list of rules, one rule per leaf and class of positive weight, with
the clauses of the leaf as antecedent. -/
theorem C47_fdt_rules (ent : List K → List C → K) (ord : List String → List String) (p : FDTParams K)
    (hs : ProperSets p.vars) (X : List (List (Cell K))) (y : List C) (t : FNode C K)
    (h : fdtFit ent ord p fdtNew X y = .ok t) (simplify : Bool) :
    ∃ rs, fdtToRules t false simplify = .ok rs ∧
      ∀ r, r ∈ rs ↔ ∃ path cv, (path, some cv) ∈ leafPaths t ∧ (r.consequent, r.weight) ∈ cv ∧ 0 < r.weight ∧
        List.Forall₂ (fun (test : FTest K) (cl : String × String) => cl.1 = test.var.name ∧
          ∃ s, test.var.sets[test.idx]? = some s ∧ cl.2 = s.name) path r.antecedent := by
  have hv : ∀ q ∈ leafPaths t, (∀ test ∈ q.1, test.idx < test.var.sets.length) ∧ ∃ cv, q.2 = some cv := by
    intro q hq
    refine ⟨fun test ht => (fitted_tests (fun v hv => (hs v hv).2) h q hq test ht).1, ?_⟩
    obtain ⟨cv, h1, -⟩ := C30_leaf_distributions ent ord p X y t h q hq
    exact ⟨cv, h1⟩
  refine ⟨_, toRules_ok t 0 simplify (fitted_branching hs h) hv, ?_⟩
  have hcl : ∀ path : List (FTest K), (∀ test ∈ path, test.idx < test.var.sets.length) → ∀ a,
      List.Forall₂ (fun (test : FTest K) (cl : String × String) => cl.1 = test.var.name ∧
          ∃ s, test.var.sets[test.idx]? = some s ∧ cl.2 = s.name) path a ↔ a = path.map clauseOf := by
    intro path hp a
    induction path generalizing a with
    | nil => simp
    | cons test path ih =>
      have hi := hp test (by simp)
      simp only [List.forall₂_cons_left_iff, List.map_cons]
      constructor
      · rintro ⟨cl, a', ⟨h1, s, h2, h3⟩, h4, rfl⟩
        rw [(ih (fun t ht => hp t (by simp [ht])) a').1 h4]
        congr 1
        exact Prod.ext h1 (by simp [clauseOf, h2, h3])
      · rintro rfl
        refine ⟨_, _, ⟨rfl, _, List.getElem?_eq_getElem hi, ?_⟩, (ih (fun t ht => hp t (by simp [ht])) _).2 rfl, rfl⟩
        simp [clauseOf, hi]
  intro r
  rw [List.mem_flatMap]
  constructor
  · rintro ⟨q, hq, hr⟩
    obtain ⟨h1, cv, h2⟩ := hv q hq
    obtain ⟨path, o⟩ := q
    simp only at h2
    subst h2
    simp only [leafRules, Option.getD_some, List.mem_map, List.mem_filter, decide_eq_true_eq] at hr
    obtain ⟨kv, ⟨hkv, hpos⟩, rfl⟩ := hr
    exact ⟨path, cv, hq, hkv, hpos, (hcl path h1 _).2 rfl⟩
  · rintro ⟨path, cv, hq, hkv, hpos, ha⟩
    refine ⟨_, hq, ?_⟩
    have := (hcl path (hv _ hq).1 _).1 ha
    simp only [leafRules, Option.getD_some, List.mem_map, List.mem_filter, decide_eq_true_eq]
    refine ⟨(r.consequent, r.weight), ⟨hkv, hpos⟩, ?_⟩
    rw [← this]

/-! ### C34 -/

/-- C34: if a row has degree 0 in every test of a fitted tree with at least one split, the predicted class is the smallest
class of the training labels. -/
theorem C34_smallest_class (ent : List K → List C → K) (ord : List String → List String) (p : FDTParams K)
    (hs : ProperSets p.vars) (X : List (List (Cell K))) (y : List C) (t : FNode C K)
    (h : fdtFit ent ord p fdtNew X y = .ok t) (hl : t.isLeaf = false) (T : K → K → K) (hT : ∀ x, 0 ≤ x → T x 0 = 0)
    (v : Voting) (row : List (Cell K)) (hne : row ≠ [])
    (hzero : ∀ q ∈ leafPaths t, ∀ test ∈ q.1, TestDegree row test 0) :
    ∃ c ∈ y, (∀ c' ∈ y, c ≤ c') ∧ fdtPredict T v t [row] = .ok [[c]] := by
  have hb := fitted_branching hs h
  obtain ⟨q0, hq0⟩ := Branching.exists_leaf t hb
  have hcv : ∀ q ∈ leafPaths t, ∃ cv, q.2 = some cv := by
    intro q hq
    obtain ⟨cv, h1, -⟩ := C30_leaf_distributions ent ord p X y t h q hq
    exact ⟨cv, h1⟩
  obtain ⟨-, hy, -⟩ := fdtFit_grown h
  cases hpaths : leafPaths t with
  | nil => rw [hpaths] at hq0; simp at hq0
  | cons q qs =>
    obtain ⟨cv, h1, h2, h3, -⟩ := C30_leaf_distributions ent ord p X y t h q (by rw [hpaths]; simp)
    obtain ⟨path, o⟩ := q
    simp only at h1
    subst h1
    cases cv with
    | nil =>
      obtain ⟨c, hc⟩ := List.exists_mem_of_ne_nil _ hy
      have := (h3 c).2 hc
      simp at this
    | cons kv rest =>
      refine ⟨kv.1, (h3 kv.1).1 (by simp), ?_, ?_⟩
      · intro c' hc'
        have := (h3 c').2 hc'
        rw [List.map_cons, List.mem_cons] at this
        rcases this with rfl | this
        · exact le_rfl
        · rw [List.map_cons, List.pairwise_cons] at h2
          exact (h2.1 c' this).le
      · exact C34_first_class T hT v row hne t hb (fitted_split (fun v hv => (hs v hv).2) h hl) hzero kv.1 kv.2 rest path qs
          hpaths hcv

/-! ### C35 -/

/-- the row has degree 1 in exactly one set of every variable and 0 in the others. -/
def CrispRow (vars : List (FVar K)) (row : List (Cell K)) : Prop :=
  ∀ (i : Nat) v, vars[i]? = some v → ∃ x k, row[i]? = some x ∧ k < v.sets.length ∧
    ∀ (j : Nat) s, v.sets[j]? = some s → s.membership [x] = .ok [if j = k then 1 else 0]

/-- C35 for fitted trees: on a row that has degree 1 in exactly one set of every variable and 0 in the others, the
prediction is a heaviest class of the leaf reached by following the active child at each node, for both voting methods. -/
theorem C35_fitted (ent : List K → List C → K) (ord : List String → List String) (p : FDTParams K)
    (hs : ProperSets p.vars) (X : List (List (Cell K))) (y : List C) (t : FNode C K)
    (h : fdtFit ent ord p fdtNew X y = .ok t) (v : Voting) (row : List (Cell K)) (hne : row ≠ [])
    (hcr : CrispRow p.vars row) :
    ∃ c cv w, fdtPredict min v t [row] = .ok [[c]] ∧ Reaches row t (some cv) ∧ (c, w) ∈ cv ∧ ∀ kv ∈ cv, kv.2 ≤ w := by
  have hn : ∀ v ∈ p.vars, (v.sets.map FSet.name).Nodup := fun v hv => (hs v hv).2
  have hwt : WellTyped p.vars row := by
    intro i v hv
    obtain ⟨x, k, h1, h2, h3⟩ := hcr i v hv
    refine ⟨x, h1, fun s hs => ?_⟩
    obtain ⟨j, hj⟩ := List.mem_iff_getElem?.1 hs
    exact ⟨_, h3 j s hj⟩
  have hcrisp : CrispOn row t := by
    apply crispOn_of_nodes
    intro q hq hl
    obtain ⟨fi, var, hv, hc⟩ := C31_children ent ord p hn X y t h q hq hl
    obtain ⟨x, k, h1, h2, h3⟩ := hcr fi var hv
    have hlen : q.2.children.length = var.sets.length := by
      have := congrArg List.length hc
      simpa using this
    have htest : ∀ (j : Nat) c, q.2.children[j]? = some c → ∃ tt, c.test = some tt ∧
        TestDegree row tt (if j = k then 1 else 0) := by
      intro j c hj
      have hj' : (q.2.children.map FNode.test)[j]? = some c.test := by rw [List.getElem?_map, hj]; rfl
      rw [hc, List.getElem?_map] at hj'
      have hjl : j < var.sets.length := by
        rw [← hlen]; exact (List.getElem?_eq_some_iff.1 hj).1
      rw [List.getElem?_range hjl] at hj'
      simp only [Option.map_some, Option.some.injEq] at hj'
      exact ⟨_, hj'.symm, _, x, List.getElem?_eq_getElem hjl, h1, h3 j _ (List.getElem?_eq_getElem hjl)⟩
    have hk : k < q.2.children.length := by rw [hlen]; exact h2
    refine ⟨q.2.children.take k, q.2.children[k], q.2.children.drop (k + 1), ?_, ?_, ?_⟩
    · rw [← List.drop_eq_getElem_cons, List.take_append_drop]
    · obtain ⟨tt, ht, hd⟩ := htest k _ (List.getElem?_eq_getElem hk)
      rw [if_pos rfl] at hd
      exact ⟨tt, ht, hd⟩
    · intro c' hc'
      rcases List.mem_append.1 hc' with hc' | hc'
      · obtain ⟨j, hj⟩ := List.mem_iff_getElem?.1 hc'
        rw [List.getElem?_take] at hj
        split at hj
        · rename_i hjk
          obtain ⟨tt, ht, hd⟩ := htest j _ hj
          rw [if_neg (by omega)] at hd
          exact ⟨tt, ht, hd⟩
        · cases hj
      · obtain ⟨j, hj⟩ := List.mem_iff_getElem?.1 hc'
        rw [List.getElem?_drop] at hj
        obtain ⟨tt, ht, hd⟩ := htest _ _ hj
        rw [if_neg (by omega)] at hd
        exact ⟨tt, ht, hd⟩
  obtain ⟨L, hL⟩ := fitted_rowLeaves hn h min row hwt
  obtain ⟨-, -, -, Xm, -, -, hroot⟩ := fdtFit_grown h
  obtain ⟨c, -, hc⟩ := C27_fitted_total ent ord p hs X y t h min v row hne hwt
  obtain ⟨cv, w, r1, r2, r3⟩ := C35_prediction v row t hroot hcrisp L hL (fitted_rowLeaves_weights h hL) c hc
  exact ⟨c, cv, w, hc, r1, r2, r3⟩

/-- the example parameters and rows meet the hypotheses of the theorems of this file -/
example : ProperSets exParams.vars ∧ (exFit.toOption).map FNode.isLeaf = some false ∧
    WellTyped exParams.vars [.num 2, .str "f"] ∧ CrispRow exParams.vars [.num 1, .str "f"] := by
  refine ⟨by unfold ProperSets; decide +kernel, by decide +kernel, ?_, ?_⟩
  · intro i v hv
    match i, hv with
    | 0, hv =>
      simp only [exParams, List.getElem?_cons_zero, Option.some.injEq] at hv
      subst hv
      refine ⟨_, rfl, fun s hs => ?_⟩
      simp only [List.mem_cons, List.not_mem_nil, or_false] at hs
      rcases hs with rfl | rfl | rfl
      · exact ⟨0, by decide +kernel⟩
      · exact ⟨1/2, by decide +kernel⟩
      · exact ⟨1/2, by decide +kernel⟩
    | 1, hv =>
      simp only [exParams, List.getElem?_cons_zero, List.getElem?_cons_succ, Option.some.injEq] at hv
      subst hv
      refine ⟨_, rfl, fun s hs => ?_⟩
      simp only [List.mem_cons, List.not_mem_nil, or_false] at hs
      rcases hs with rfl | rfl
      · exact ⟨0, by decide +kernel⟩
      · exact ⟨1, by decide +kernel⟩
    | n + 2, hv => simp [exParams] at hv
  · intro i v hv
    match i, hv with
    | 0, hv =>
      simp only [exParams, List.getElem?_cons_zero, Option.some.injEq] at hv
      subst hv
      refine ⟨_, 1, rfl, by decide, fun j s hs => ?_⟩
      match j, hs with
      | 0, hs => simp only [List.getElem?_cons_zero, Option.some.injEq] at hs; subst hs; decide +kernel
      | 1, hs =>
        simp only [List.getElem?_cons_zero, List.getElem?_cons_succ, Option.some.injEq] at hs; subst hs; decide +kernel
      | 2, hs =>
        simp only [List.getElem?_cons_zero, List.getElem?_cons_succ, Option.some.injEq] at hs; subst hs; decide +kernel
      | n + 3, hs => simp at hs
    | 1, hv =>
      simp only [exParams, List.getElem?_cons_zero, List.getElem?_cons_succ, Option.some.injEq] at hv
      subst hv
      refine ⟨_, 1, rfl, by decide, fun j s hs => ?_⟩
      match j, hs with
      | 0, hs => simp only [List.getElem?_cons_zero, Option.some.injEq] at hs; subst hs; decide +kernel
      | 1, hs =>
        simp only [List.getElem?_cons_zero, List.getElem?_cons_succ, Option.some.injEq] at hs; subst hs; decide +kernel
      | n + 2, hs => simp at hs
    | n + 2, hv => simp [exParams] at hv

end Teacher
