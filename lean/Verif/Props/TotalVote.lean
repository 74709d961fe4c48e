import Verif.Props.Coverage
import Mathlib.Algebra.BigOperators.Ring.List
import Mathlib.Algebra.BigOperators.Fin
import Mathlib.Algebra.Order.BigOperators.Ring.Finset
import Mathlib.Algebra.Order.BigOperators.Group.List

/-! C164: the total vote that a row in the range of the fuzzy variables gives to the classes. -/

set_option linter.unusedSectionVars false

namespace Teacher
open Spec FB

variable {C K : Type} [LinearOrder C] [Field K] [LinearOrder K] [IsStrictOrderedRing K]

/-- all the votes together are the degrees of the leaves, each times the weights in it -/
theorem votes_total_degrees (L : List (Dict C K × K)) (cs : List C) (hnd : cs.Nodup) (hcov : ∀ q ∈ L, ∀ kv ∈ q.1, kv.1 ∈ cs) :
    (cs.map (vote .agg L)).sum = (L.map (fun q => (q.1.map Prod.snd).sum * q.2)).sum := by
  have h := sum_filter_classes (L.flatMap (fun q => q.1.map (fun kv => (kv.2 * q.2, kv.1)))) cs hnd (by
    intro q hq
    obtain ⟨q', hq', hq⟩ := List.mem_flatMap.1 hq
    obtain ⟨kv, hkv, rfl⟩ := List.mem_map.1 hq
    exact hcov q' hq' kv hkv)
  have e1 : ∀ c, (((L.flatMap (fun q => q.1.map (fun kv => (kv.2 * q.2, kv.1)))).filter (fun q => q.2 = c)).map Prod.fst) =
      contributions L c := by
    intro c
    unfold contributions
    induction L with
    | nil => rfl
    | cons q L ih =>
      rw [List.flatMap_cons, List.flatMap_cons, List.filter_append, List.map_append,
        ih (fun q hq => hcov q (by simp [hq])) (by
          apply sum_filter_classes _ cs hnd
          intro q hq
          obtain ⟨q', hq', hq⟩ := List.mem_flatMap.1 hq
          obtain ⟨kv, hkv, rfl⟩ := List.mem_map.1 hq
          exact hcov q' (by simp [hq']) kv hkv), List.filter_map, List.map_map]
      rfl
  have e2 : (L.flatMap (fun q => q.1.map (fun kv => (kv.2 * q.2, kv.1)))).map Prod.fst = L.flatMap (fun q => q.1.map (fun kv => kv.2 * q.2)) := by
    rw [List.map_flatMap]
    congr 1
    funext q
    rw [List.map_map]
    rfl
  rw [e2] at h
  simp only [e1] at h
  refine h.trans ?_
  clear h e1 e2 hcov
  induction L with
  | nil => rfl
  | cons q L ih =>
    rw [List.flatMap_cons, List.sum_append, ih, List.map_cons, List.sum_cons, List.sum_map_mul_right]

theorem foldl_mul_prod (ms : List K) : ∀ a : K, ms.foldl (· * ·) a = a * ms.prod := by
  induction ms with
  | nil => intro a; simp
  | cons m ms ih => intro a; rw [List.foldl_cons, ih, List.prod_cons, mul_assoc]

theorem prod_range {ms : List K} (h : ∀ m ∈ ms, 0 ≤ m ∧ m ≤ 1) : 0 ≤ ms.prod ∧ ms.prod ≤ 1 := by
  induction ms with
  | nil => simp
  | cons m ms ih =>
    have h1 := h m (by simp)
    have h2 := ih (fun x hx => h x (by simp [hx]))
    rw [List.prod_cons]
    exact ⟨mul_nonneg h1.1 h2.1, mul_le_one₀ h1.2 h2.1 h2.2⟩

theorem prod_le_foldl_min {ms : List K} (h : ∀ m ∈ ms, 0 ≤ m ∧ m ≤ 1) : ms.prod ≤ ms.foldl min 1 := by
  apply foldl_min_ge
  · intro m hm
    induction ms with
    | nil => simp at hm
    | cons a ms ih =>
      have ha := h a (by simp)
      have hp := prod_range (ms := ms) (fun x hx => h x (by simp [hx]))
      rw [List.prod_cons]
      rcases List.mem_cons.1 hm with rfl | hm
      · exact mul_le_of_le_one_right ha.1 hp.2
      · exact (mul_le_of_le_one_left hp.1 ha.2).trans (ih (fun x hx => h x (by simp [hx])) hm)
  · exact (prod_range h).2

/-- if the degrees of the children of every split add up to 1, the products along the paths add up to 1 -/
theorem leaf_products (deg : FTest K → K) (n : FNode C K)
    (hs : ∀ q ∈ nodePaths n, q.2.isLeaf = false → (q.2.children.map (fun c => (c.test.toList.map deg).prod)).sum = 1) :
    ((leafPaths n).map (fun q => (q.1.map deg).prod)).sum = (n.test.toList.map deg).prod := by
  induction n using FNode.induction with
  | h test level m isLeaf cv children ih =>
    cases isLeaf with
    | true => simp [leafPaths, FNode.test]
    | false =>
      have h1 := hs _ (nodePaths_self _) rfl
      simp only [FNode.children] at h1
      have h2 : ∀ c ∈ children, ((leafPaths c).map (fun q => (q.1.map deg).prod)).sum = (c.test.toList.map deg).prod := by
        intro c hc
        refine ih c hc (fun q hq hl => ?_)
        have := hs _ (nodePaths_child (test := test) (level := level) (m := m) (cv := cv) hc hq) hl
        exact this
      clear hs ih
      simp only [leafPaths, Bool.false_eq_true, if_false, leafPathsList_eq, FNode.test, List.map_map, Function.comp_def, List.map_append,
        List.prod_append]
      rw [List.sum_map_mul_left]
      have : ((children.flatMap leafPaths).map (fun q => (q.1.map deg).prod)).sum = 1 := by
        rw [← h1]
        clear h1
        induction children with
        | nil => rfl
        | cons c cs ih =>
          rw [List.flatMap_cons, List.map_append, List.sum_append, List.map_cons, List.sum_cons, h2 c (by simp),
            ih (fun c hc => h2 c (by simp [hc]))]
      rw [this, mul_one]

section
variable {ent : List K → List C → K} {ord : List String → List String} {p : FDTParams K} {X : List (List (Cell K))} {y : List C}
  {t : FNode C K}

open Classical in
/-- the degrees of a row in the leaves, and in the product of the tests -/
theorem fitted_products (hs : ProperSets p.vars) (h : fdtFit ent ord p fdtNew X y = .ok t) {row : List (Cell K)}
    (hrow : StrongRow p.vars row) :
    ∃ deg : FTest K → K, (∀ q ∈ leafPaths t, ∀ test ∈ q.1, TestDegree row test (deg test)) ∧
      ((leafPaths t).map (fun q => (q.1.map deg).prod)).sum = 1 := by
  have hn : ∀ v ∈ p.vars, (v.sets.map FSet.name).Nodup := fun v hv => (hs v hv).2
  obtain ⟨-, -, -, -, -, -, hrt⟩ := fdtFit_grown h
  have hwt := hrow.subPartition.wellTyped
  set deg : FTest K → K := fun test => if hx : ∃ m, TestDegree row test m then hx.choose else 0 with hdeg
  have hdeg' : ∀ test m, TestDegree row test m → deg test = m := by
    intro test m hm
    have hx : ∃ m, TestDegree row test m := ⟨m, hm⟩
    simp only [hdeg, dif_pos hx]
    exact hx.choose_spec.unique hm
  refine ⟨deg, ?_, ?_⟩
  · intro q hq test ht
    obtain ⟨h1, h2⟩ := fitted_tests hn h q hq test ht
    obtain ⟨x, hx, hm⟩ := hwt _ _ h2
    obtain ⟨m, hm⟩ := hm _ (List.getElem_mem h1)
    have htd : TestDegree row test m := ⟨_, x, List.getElem?_eq_getElem h1, hx, hm⟩
    rw [hdeg' test m htd]
    exact htd
  · have := leaf_products deg t (by
      intro q hq hl
      obtain ⟨fi, var, hv, hc⟩ := C31_children ent ord p hn X y t h q hq hl
      obtain ⟨x, ms, hx, hms, hsum⟩ := hrow fi var hv
      have e : q.2.children.map (fun c => (c.test.toList.map deg).prod) = ms := by
        have : q.2.children.map (fun c => (c.test.toList.map deg).prod) =
            (q.2.children.map FNode.test).map (fun o => (o.toList.map deg).prod) := by rw [List.map_map]; rfl
        rw [this, hc, List.map_map]
        obtain ⟨hlen, hget⟩ := List.forall₂_iff_get.1 hms
        apply List.ext_getElem
        · simp [hlen]
        · intro i h1 h2
          simp only [List.getElem_map, List.getElem_range, Function.comp_apply, Option.toList_some, List.map_singleton, List.prod_singleton]
          have hi : i < var.sets.length := by omega
          exact hdeg' _ _ ⟨_, x, List.getElem?_eq_getElem hi, hx, hget i hi h2⟩
      rw [e, hsum])
    rw [this, hrt]
    simp

/-- the leaves of the tree have weights that add up to 1, for the classes of the data -/
theorem fitted_rowLeaves_sum (h : fdtFit ent ord p fdtNew X y = .ok t)
    {T : K → K → K} {row : List (Cell K)} {L : List (Dict C K × K)} (hL : RowLeaves T row t L) :
    ∀ q ∈ L, (q.1.map Prod.snd).sum = 1 ∧ (∀ kv ∈ q.1, 0 ≤ kv.2) ∧ ∀ kv ∈ q.1, kv.1 ∈ y := by
  intro q hq
  obtain ⟨pth, hp, h1, -⟩ := forall₂_mem_right hL q hq
  obtain ⟨cv, h2, h3, h4, h5, h6⟩ := C30_leaf_distributions ent ord p X y t h pth hp
  rw [h1] at h2
  cases h2
  exact ⟨h6, fun kv hkv => (h5 kv hkv).1, fun kv hkv => (h4 kv.1).1 (List.mem_map_of_mem hkv)⟩

end

/-- the winner has at least the mean vote -/
theorem winner_ge {v : Voting} {L : List (Dict C K × K)} {c : C} (hw : IsWinner v L c) {cs : List C}
    (hcs : ∀ c' ∈ cs, ∃ q ∈ L, c' ∈ q.1.map Prod.fst) : (cs.map (vote v L)).sum ≤ cs.length * vote v L c := by
  obtain ⟨pre, post, he, h1, h2⟩ := hw
  have : ∀ c' ∈ cs, vote v L c' ≤ vote v L c := by
    intro c' hc'
    obtain ⟨q, hq, hc'⟩ := hcs c' hc'
    have hm : c' ∈ L.flatMap (fun q => q.1.map Prod.fst) := List.mem_flatMap.2 ⟨q, hq, hc'⟩
    rw [he] at hm
    rcases List.mem_append.1 hm with hm | hm
    · exact (h1 _ hm).le
    · rcases List.mem_cons.1 hm with rfl | hm
      · exact le_rfl
      · exact h2 _ hm
  clear hcs
  induction cs with
  | nil => simp
  | cons a cs ih =>
    have := ih (fun c hc => this c (by simp [hc]))
    have := ‹∀ c' ∈ a :: cs, _› a (by simp)
    rw [List.map_cons, List.sum_cons, List.length_cons]
    push_cast
    linarith

theorem vote_agg_nonneg {L : List (Dict C K × K)} (h : ∀ q ∈ L, 0 ≤ q.2 ∧ ∀ kv ∈ q.1, 0 ≤ kv.2) (c : C) : 0 ≤ vote .agg L c := by
  simp only [vote, contributions]
  apply List.sum_nonneg
  intro x hx
  obtain ⟨q, hq, hx⟩ := List.mem_flatMap.1 hx
  obtain ⟨kv, hkv, rfl⟩ := List.mem_map.1 hx
  exact mul_nonneg ((h q hq).2 kv (List.mem_filter.1 hkv).1) (h q hq).1

theorem le_vote_max {L : List (Dict C K × K)} {q : Dict C K × K} (hq : q ∈ L) {kv : C × K} (hkv : kv ∈ q.1) :
    kv.2 * q.2 ≤ vote .max L kv.1 := by
  simp only [vote]
  have hm : kv.2 * q.2 ∈ contributions L kv.1 := by
    unfold contributions
    exact List.mem_flatMap.2 ⟨q, hq, List.mem_map.2 ⟨kv, List.mem_filter.2 ⟨hkv, by simp⟩, rfl⟩⟩
  generalize contributions L kv.1 = l at hm
  induction l with
  | nil => simp at hm
  | cons a l ih =>
    rw [List.foldr_cons]
    rcases List.mem_cons.1 hm with e | hm
    · rw [e]; exact le_max_left _ _
    · exact (ih hm).trans (le_max_right _ _)

/-- a leaf of degree at least 1/2 gives the class that wins the vote for the largest contribution at least half the mean weight -/
theorem winner_max_ge {L : List (Dict C K × K)} {c : C} (hw : IsWinner .max L c) {cs : List C}
    {q : Dict C K × K} (hq : q ∈ L) (hdeg : 1 / 2 ≤ q.2) (hsum : (q.1.map Prod.snd).sum = 1) (hnd' : (q.1.map Prod.fst).Nodup)
    (hcs : ∀ kv ∈ q.1, kv.1 ∈ cs) (hnn : ∀ kv ∈ q.1, 0 ≤ kv.2) : 1 / 2 ≤ cs.length * vote .max L c := by
  obtain ⟨pre, post, he, h1, h2⟩ := hw
  have hbest : ∀ kv ∈ q.1, kv.2 * q.2 ≤ vote .max L c := by
    intro kv hkv
    refine (le_vote_max hq hkv).trans ?_
    have hm : kv.1 ∈ L.flatMap (fun q => q.1.map Prod.fst) := List.mem_flatMap.2 ⟨q, hq, List.mem_map_of_mem hkv⟩
    rw [he] at hm
    rcases List.mem_append.1 hm with hm | hm
    · exact (h1 _ hm).le
    · rcases List.mem_cons.1 hm with hm | hm
      · rw [hm]
      · exact h2 _ hm
  have hlen : q.1.length ≤ cs.length := by
    rw [← List.length_map (f := Prod.fst) (as := q.1)]
    exact (List.subperm_of_subset hnd' (by
      intro x hx
      obtain ⟨kv, hkv, rfl⟩ := List.mem_map.1 hx
      exact hcs kv hkv)).length_le
  have hv0 : 0 ≤ vote .max L c := by
    obtain ⟨kv, hkv⟩ : ∃ kv, kv ∈ q.1 := by
      cases h : q.1 with
      | nil => rw [h] at hsum; simp at hsum
      | cons a l => exact ⟨a, by simp⟩
    exact (mul_nonneg (hnn kv hkv) ((by norm_num : (0:K) ≤ 1 / 2).trans hdeg)).trans (hbest kv hkv)
  have hs2 : (q.1.map Prod.snd).sum * q.2 ≤ q.1.length * vote .max L c := by
    clear hsum hnd' hcs hlen hq
    generalize q.1 = l at hbest
    induction l with
    | nil => simp
    | cons a l ih =>
      have e1 := ih (fun kv hkv => hbest kv (by simp [hkv]))
      have e2 := hbest a (by simp)
      rw [List.map_cons, List.sum_cons, List.length_cons, add_mul]
      push_cast
      linarith
  rw [hsum, one_mul] at hs2
  have : (q.1.length : K) * vote .max L c ≤ cs.length * vote .max L c :=
    mul_le_mul_of_nonneg_right (by exact_mod_cast hlen) hv0
  linarith

/-- C164: with the product as t-norm the votes of a row in the range of the fuzzy variables are a probability distribution over the classes
of the training data. -/
theorem C164_fdt_product (ent : List K → List C → K) (ord : List String → List String) (p : FDTParams K)
    (hs : ProperSets p.vars) (X : List (List (Cell K))) (y : List C) (t : FNode C K)
    (h : fdtFit ent ord p fdtNew X y = .ok t) (row : List (Cell K)) (hrow : RowInRange p.vars row)
    (cs : List C) (hnd : cs.Nodup) (hcs : ∀ c, c ∈ cs ↔ c ∈ y) :
    ∃ L, RowLeaves (· * ·) row t L ∧ (∀ c, 0 ≤ vote .agg L c) ∧ (cs.map (vote .agg L)).sum = 1 := by
  have hst := hrow.covered.2
  obtain ⟨deg, hdeg, hsum⟩ := fitted_products hs h hst
  obtain ⟨L, hL⟩ := fitted_rowLeaves (fun v hv => (hs v hv).2) h (· * ·) row hst.subPartition.wellTyped
  have hw := fitted_rowLeaves_sum h hL
  have hq2 : L.map Prod.snd = (leafPaths t).map (fun q => (q.1.map deg).prod) := by
    unfold RowLeaves at hL
    generalize leafPaths t = ps at hL hdeg
    clear hw hsum
    induction hL with
    | nil => rfl
    | @cons pth q ps L hpq _ ih =>
      rw [List.map_cons, List.map_cons, ih (fun q hq => hdeg q (by simp [hq]))]
      obtain ⟨-, ms, hms, he⟩ := hpq
      have : ms = pth.1.map deg := by
        have hd := hdeg pth (by simp)
        generalize pth.1 = l at hms hd
        clear he
        induction hms with
        | nil => rfl
        | cons ha _ ih' =>
          rw [List.map_cons, ← ih' (fun x hx => hd x (by simp [hx])), (hd _ (by simp)).unique ha]
      rw [he, this, foldl_mul_prod, one_mul]
  have hnn : ∀ q ∈ L, 0 ≤ q.2 := by
    intro q hq
    obtain ⟨pth, -, -, ms, hms, he⟩ := forall₂_mem_right hL q hq
    rw [he, foldl_mul_prod, one_mul]
    refine (prod_range (fun m hm => ?_)).1
    obtain ⟨test, -, ht⟩ := forall₂_mem_right hms m hm
    exact TestDegree.range ht
  refine ⟨L, hL, vote_agg_nonneg (fun q hq => ⟨hnn q hq, (hw q hq).2.1⟩), ?_⟩
  rw [votes_total_degrees L cs hnd (fun q hq kv hkv => (hcs _).2 ((hw q hq).2.2 kv hkv))]
  rw [← hsum, ← hq2]
  congr 1
  apply List.map_congr_left
  intro q hq
  rw [(hw q hq).1, one_mul]

/-- C164: with the default t-norm (the minimum) the votes of a row in the range of the fuzzy variables add up to at least 1, so the
predicted class has at least the vote 1/n of n classes; with `max_match` it has at least 1/(2n). -/
theorem C164_fdt_min (ent : List K → List C → K) (ord : List String → List String) (p : FDTParams K)
    (hs : ProperSets p.vars) (X : List (List (Cell K))) (y : List C) (t : FNode C K)
    (h : fdtFit ent ord p fdtNew X y = .ok t) (row : List (Cell K)) (hrow : RowInRange p.vars row)
    (cs : List C) (hnd : cs.Nodup) (hcs : ∀ c, c ∈ cs ↔ c ∈ y) :
    ∃ L, RowLeaves min row t L ∧ (∀ c, 0 ≤ vote .agg L c) ∧ 1 ≤ (cs.map (vote .agg L)).sum ∧
      (∀ c, fdtPredict min .agg t [row] = .ok [[c]] → 1 ≤ cs.length * vote .agg L c) ∧
      ∀ c, fdtPredict min .max t [row] = .ok [[c]] → 1 / 2 ≤ cs.length * vote .max L c := by
  have hst := hrow.covered.2
  have hn : ∀ v ∈ p.vars, (v.sets.map FSet.name).Nodup := fun v hv => (hs v hv).2
  obtain ⟨L, hL⟩ := fitted_rowLeaves hn h min row hst.subPartition.wellTyped
  have hw := fitted_rowLeaves_sum h hL
  have hnn : ∀ q ∈ L, 0 ≤ q.2 := by
    intro q hq
    obtain ⟨pth, -, -, ms, hms, he⟩ := forall₂_mem_right hL q hq
    rw [he]
    refine foldl_min_ge (fun m hm => ?_) 1 zero_le_one
    obtain ⟨test, -, ht⟩ := forall₂_mem_right hms m hm
    exact (TestDegree.range ht).1
  have hcl : ∀ c ∈ cs, ∃ q ∈ L, c ∈ q.1.map Prod.fst := by
    intro c hc
    obtain ⟨q0, hq0⟩ := Branching.exists_leaf t (fitted_branching hs h)
    obtain ⟨q, hq, hcv, -⟩ := forall₂_mem_left hL q0 hq0
    obtain ⟨cv, hcv', -, h4, -⟩ := C30_leaf_distributions ent ord p X y t h q0 hq0
    rw [hcv] at hcv'
    cases hcv'
    exact ⟨q, hq, (h4 c).2 ((hcs c).1 hc)⟩
  have htot : 1 ≤ (cs.map (vote .agg L)).sum := by
    rw [votes_total_degrees L cs hnd (fun q hq kv hkv => (hcs _).2 ((hw q hq).2.2 kv hkv))]
    have e : L.map (fun q => (q.1.map Prod.snd).sum * q.2) = L.map Prod.snd := by
      apply List.map_congr_left
      intro q hq
      rw [(hw q hq).1, one_mul]
    rw [e]
    obtain ⟨deg, hdeg, hsum⟩ := fitted_products hs h hst
    rw [← hsum]
    unfold RowLeaves at hL
    generalize leafPaths t = ps at hL hdeg
    clear hw hsum hnn hcl e
    induction hL with
    | nil => simp
    | @cons pth q ps L hpq _ ih =>
      rw [List.map_cons, List.map_cons, List.sum_cons, List.sum_cons]
      refine add_le_add ?_ (ih (fun q hq => hdeg q (by simp [hq])))
      obtain ⟨-, ms, hms, he⟩ := hpq
      have : ms = pth.1.map deg := by
        have hd := hdeg pth (by simp)
        generalize pth.1 = l at hms hd
        clear he
        induction hms with
        | nil => rfl
        | cons ha _ ih' =>
          rw [List.map_cons, ← ih' (fun x hx => hd x (by simp [hx])), (hd _ (by simp)).unique ha]
      rw [he, ← this]
      apply prod_le_foldl_min
      intro m hm
      obtain ⟨test, -, ht⟩ := forall₂_mem_right hms m hm
      exact TestDegree.range ht
  refine ⟨L, hL, vote_agg_nonneg (fun q hq => ⟨hnn q hq, (hw q hq).2.1⟩), htot, ?_, ?_⟩
  · intro c hc
    obtain ⟨L', hL', hwin⟩ := C27_max_vote min .agg t row c hc
    have := hL'.unique hL
    subst this
    exact htot.trans (winner_ge hwin hcl)
  · intro c hc
    obtain ⟨L', hL', hwin⟩ := C27_max_vote min .max t row c hc
    have := hL'.unique hL
    subst this
    obtain ⟨q0, hq0, m, hm, hle⟩ := (C163_fdt ent ord p hs X y t h row hrow).1
    obtain ⟨q, hq, hcv, hq2⟩ := forall₂_mem_left hL q0 hq0
    have e : q.2 = m := hq2.unique hm
    have hnd' := (fitted_rowLeaves_weights h hL q hq).1
    exact winner_max_ge hwin hq (e ▸ hle) (hw q hq).1 hnd' (fun kv hkv => (hcs _).2 ((hw q hq).2.2 kv hkv)) (hw q hq).2.1

/-! ### the binary tree -/

theorem available_snoc (vars : List (FVar K)) (path : List (BTest K)) (tst : BTest K) (i : Nat) :
    available vars (path ++ [tst]) i = if tst.att = i then tst.idxs else available vars path i := by
  unfold available
  rw [List.reverse_append, List.reverse_singleton, List.singleton_append, List.find?_cons]
  by_cases e : tst.att = i
  · simp [e]
  · simp [e]

/-- the share of the sets of variable `i` that are left -/
def leftMass (vars : List (FVar K)) (pd : Nat → Nat → K) (path : List (BTest K)) (i : Nat) : K :=
  ((available vars path i).map (pd i)).sum

/-- the product of these shares over the variables -/
def boxMass (vars : List (FVar K)) (pd : Nat → Nat → K) (path : List (BTest K)) : K :=
  ∏ i ∈ Finset.range vars.length, leftMass vars pd path i

theorem boxMass_split (vars : List (FVar K)) (pd : Nat → Nat → K) (path : List (BTest K)) (tl tr : BTest K) (hatt : tl.att = tr.att)
    (hlt : tl.att < vars.length) (hperm : (tl.idxs ++ tr.idxs).Perm (available vars path tl.att)) :
    boxMass vars pd (path ++ [tl]) + boxMass vars pd (path ++ [tr]) = boxMass vars pd path := by
  have hm : tl.att ∈ Finset.range vars.length := Finset.mem_range.2 hlt
  unfold boxMass
  rw [← Finset.mul_prod_erase _ _ hm, ← Finset.mul_prod_erase _ (leftMass vars pd (path ++ [tr])) hm,
    ← Finset.mul_prod_erase _ (leftMass vars pd path) hm]
  have e : ∀ tst : BTest K, tst.att = tl.att → ∏ x ∈ (Finset.range vars.length).erase tl.att, leftMass vars pd (path ++ [tst]) x =
      ∏ x ∈ (Finset.range vars.length).erase tl.att, leftMass vars pd path x := by
    intro tst ht
    apply Finset.prod_congr rfl
    intro i hi
    unfold leftMass
    rw [available_snoc, if_neg]
    rw [ht]
    exact fun e => (Finset.mem_erase.1 hi).1 e.symm
  rw [e tl rfl, e tr hatt.symm, ← add_mul]
  congr 1
  unfold leftMass
  rw [available_snoc, available_snoc, if_pos rfl, if_pos hatt.symm, ← List.sum_append, ← List.map_append]
  exact (hperm.map _).sum_eq

theorem subperm_sum_le {l l' : List Nat} (h : l.Subperm l') {f : Nat → K} (hf : ∀ k, 0 ≤ f k) : (l.map f).sum ≤ (l'.map f).sum := by
  obtain ⟨l₁, hp, hs⟩ := h
  rw [← (hp.map f).sum_eq]
  exact (hs.map f).sum_le_sum (by
    intro x hx
    obtain ⟨k, -, rfl⟩ := List.mem_map.1 hx
    exact hf k)

section
variable {ent : List K → List C → K} {p : FDTParams K} {X : List (List (Cell K))} {y : List C} {t : BNode C K}

/-- the tests on a path get smaller and smaller -/
def Shrinks (vars : List (FVar K)) (path : List (BTest K)) : Prop :=
  (∀ test ∈ path, (available vars path test.att).Subperm test.idxs) ∧
    ∀ i v, vars[i]? = some v → (available vars path i).Subperm (List.range v.sets.length)

theorem Shrinks.snoc {vars : List (FVar K)} {path : List (BTest K)} (h : Shrinks vars path) {tst : BTest K}
    (hsub : tst.idxs.Subperm (available vars path tst.att)) : Shrinks vars (path ++ [tst]) := by
  constructor
  · intro test ht
    rw [available_snoc]
    rcases List.mem_append.1 ht with ht | ht
    · split
      · rename_i e
        exact hsub.trans (e ▸ h.1 test ht)
      · exact h.1 test ht
    · rw [List.mem_singleton] at ht
      subst ht
      rw [if_pos rfl]
  · intro i v hv
    rw [available_snoc]
    split
    · rename_i e
      subst e
      exact hsub.trans (h.2 _ v hv)
    · exact h.2 i v hv

theorem bfitted_boxes [NanSort K] (hv : (p.vars.map FVar.name).Nodup) (hn : ∀ v ∈ p.vars, (v.sets.map FSet.name).Nodup)
    (h : fbdtFit ent p fbdtNew X y = .ok t) (pd : Nat → Nat → K) :
    ∀ (n : BNode C K) (path : List (BTest K)), (∀ q ∈ bNodePaths n, (path ++ q.1, q.2) ∈ bNodePaths t) →
      Shrinks p.vars (path ++ n.test.toList) →
      ((bLeafPaths n).map (fun q => boxMass p.vars pd (path ++ q.1))).sum = boxMass p.vars pd (path ++ n.test.toList) ∧
      ∀ q ∈ bLeafPaths n, Shrinks p.vars (path ++ q.1) := by
  intro n
  induction n using BNode.induction with
  | h test level m isLeaf cv children ih =>
    intro path hsub hsh
    cases isLeaf with
    | true => simpa [bLeafPaths, BNode.test] using hsh
    | false =>
      have hself := hsub _ (bNodePaths_self _)
      obtain ⟨l, r, tl, tr, hc, htl, htr, hatt, hvar, -, -, hperm⟩ := C38_two_children ent p X y t h _ hself rfl
      have hperm := hperm hv hn
      simp only [BNode.children] at hc
      subst hc
      simp only [BNode.test] at hsh hperm ⊢
      have hchild : ∀ c ∈ [l, r], ∀ q ∈ bNodePaths c, (path ++ test.toList ++ q.1, q.2) ∈ bNodePaths t := by
        intro c hc q hq
        have := hsub _ (bNodePaths_child (test := test) (level := level) (m := m) (cv := cv) hc hq)
        rwa [← List.append_assoc] at this
      have hdl := (C38_depth ent p X y t h _ (hchild l (by simp) _ (bNodePaths_self l))).2 tl (by simp [htl])
      have hlt : tl.att < p.vars.length := (List.getElem?_eq_some_iff.1 hdl.1).1
      have hsl : tl.idxs.Subperm (available p.vars (path ++ test.toList) tl.att) :=
        (List.sublist_append_left _ _).subperm.trans hperm.subperm
      have hsr : tr.idxs.Subperm (available p.vars (path ++ test.toList) tr.att) :=
        hatt ▸ (List.sublist_append_right _ _).subperm.trans hperm.subperm
      obtain ⟨l1, l2⟩ := ih l (by simp) (path ++ test.toList) (hchild l (by simp)) (by rw [htl]; exact hsh.snoc hsl)
      obtain ⟨r1, r2⟩ := ih r (by simp) (path ++ test.toList) (hchild r (by simp)) (by rw [htr]; exact hsh.snoc hsr)
      rw [htl] at l1
      rw [htr] at r1
      simp only [bLeafPaths, Bool.false_eq_true, if_false, bLeafPathsList_eq, List.flatMap_cons, List.flatMap_nil, List.append_nil,
        List.map_map, Function.comp_def, ← List.append_assoc]
      constructor
      · rw [List.map_append, List.sum_append, l1, r1]
        exact boxMass_split p.vars pd _ tl tr hatt hlt hperm
      · intro q hq
        obtain ⟨q', hq', rfl⟩ := List.mem_map.1 hq
        rw [← List.append_assoc]
        rcases List.mem_append.1 hq' with hq' | hq'
        · exact l2 q' hq'
        · exact r2 q' hq'

end

/-- C164 for the binary tree: with the default t-norm the votes of a row in the range of the fuzzy variables add up to at least 1, so the
predicted class has at least the vote 1/n of n classes; with `max_match` it has at least 1/(2n). -/
theorem C164_fbdt_min [NanSort K] (ent : List K → List C → K) (p : FDTParams K) (hv : (p.vars.map FVar.name).Nodup)
    (hn : ∀ v ∈ p.vars, (v.sets.map FSet.name).Nodup) (X : List (List (Cell K))) (y : List C) (t : BNode C K)
    (h : fbdtFit ent p fbdtNew X y = .ok t) (row : List (Cell K)) (hrow : RowInRange p.vars row)
    (cs : List C) (hnd : cs.Nodup) (hcs : ∀ c, c ∈ cs ↔ c ∈ y) :
    ∃ L, BRowLeaves min row t L ∧ (∀ c, 0 ≤ vote .agg L c) ∧ 1 ≤ (cs.map (vote .agg L)).sum ∧
      (∀ c, fbdtPredict min .agg t [row] = .ok [[c]] → 1 ≤ cs.length * vote .agg L c) ∧
      ∀ c, fbdtPredict min .max t [row] = .ok [[c]] → 1 / 2 ≤ cs.length * vote .max L c := by
  have hst := hrow.covered.2
  have hsp := hst.subPartition
  obtain ⟨-, -, -, hrt, -⟩ := fbdtFit_nodes h
  obtain ⟨L, hL⟩ := bfitted_rowLeaves h min row hsp.wellTyped
  have hw := bfitted_rowLeaves_weights h hL
  have hw1 : ∀ q ∈ L, (q.1.map Prod.snd).sum = 1 := by
    intro q hq
    obtain ⟨pth, hp, h1, -⟩ := forall₂_mem_right hL q hq
    obtain ⟨cv, h2, h3, h4, h5, h6⟩ := C38_leaf_distributions ent p X y t h pth hp
    rw [h1] at h2
    cases h2
    exact h6
  have hnn : ∀ q ∈ L, 0 ≤ q.2 := by
    intro q hq
    obtain ⟨pth, -, -, ms, hms, he⟩ := forall₂_mem_right hL q hq
    rw [he]
    refine foldl_min_ge (fun m hm => ?_) 1 zero_le_one
    obtain ⟨test, -, ht⟩ := forall₂_mem_right hms m hm
    exact bTestDegree_nonneg ht
  have hcov : ∀ q ∈ L, ∀ kv ∈ q.1, kv.1 ∈ cs := fun q hq kv hkv =>
    (hcs _).2 (((hw q hq).2.2.2 kv.1).1 (List.mem_map_of_mem hkv))
  obtain ⟨q0, hq0, m0, hm0, hle0⟩ := (C163_fbdt ent p hv hn X y t h row hrow).1
  obtain ⟨q1, hq1, hcv1, hdeg1⟩ := forall₂_mem_left hL q0 hq0
  have hcl : ∀ c ∈ cs, ∃ q ∈ L, c ∈ q.1.map Prod.fst := fun c hc => ⟨q1, hq1, ((hw q1 hq1).2.2.2 c).2 ((hcs c).1 hc)⟩
  have htot : 1 ≤ (cs.map (vote .agg L)).sum := by
    rw [votes_total_degrees L cs hnd hcov]
    have e : L.map (fun q => (q.1.map Prod.snd).sum * q.2) = L.map Prod.snd := by
      apply List.map_congr_left
      intro q hq
      rw [hw1 q hq, one_mul]
    rw [e]
    have hex : ∀ i : Nat, ∃ ms : List K, ∀ v : FVar K, p.vars[i]? = some v → ∃ x, row[i]? = some x ∧
        List.Forall₂ (fun (s : FSet K) m => s.membership [x] = .ok [m]) v.sets ms ∧ ms.sum = 1 := by
      intro i
      cases hi : p.vars[i]? with
      | none => exact ⟨[], fun v hv => by cases hv⟩
      | some v =>
        obtain ⟨x, ms, h1, h2, h3⟩ := hst i v hi
        exact ⟨ms, fun v' hv' => by cases hv'; exact ⟨x, h1, h2, h3⟩⟩
    choose ms hms using hex
    set pd : Nat → Nat → K := fun i k => if i < p.vars.length then (ms i).getD k 0 else 0 with hpd
    have hpd0 : ∀ i k, 0 ≤ pd i k := by
      intro i k
      simp only [hpd]
      split
      · rename_i hi
        obtain ⟨x, h1, h2, -⟩ := hms i _ (List.getElem?_eq_getElem hi)
        rw [List.getD_eq_getElem?_getD]
        cases hk : (ms i)[k]? with
        | none => simp
        | some m =>
          obtain ⟨s, -, hm⟩ := forall₂_mem_right h2 m (List.mem_of_getElem? hk)
          exact (FSet.membership_singleton_range hm).1
      · exact le_rfl
    have hdeg : ∀ i v k, p.vars[i]? = some v → k < v.sets.length → TestDegree row ⟨v, i, k⟩ (pd i k) := by
      intro i v k hiv hk
      obtain ⟨x, h1, h2, -⟩ := hms i v hiv
      obtain ⟨hlen, hget⟩ := List.forall₂_iff_get.1 h2
      have hk' : k < (ms i).length := by omega
      have : pd i k = (ms i)[k] := by
        simp only [hpd, if_pos (List.getElem?_eq_some_iff.1 hiv).1]
        rw [List.getD_eq_getElem?_getD, List.getElem?_eq_getElem hk']
        rfl
      rw [this]
      exact ⟨_, x, List.getElem?_eq_getElem hk, h1, hget k hk hk'⟩
    have hall : ∀ i v, p.vars[i]? = some v → ((List.range v.sets.length).map (pd i)).sum = 1 := by
      intro i v hiv
      obtain ⟨x, h1, h2, h3⟩ := hms i v hiv
      rw [← h3]
      congr 1
      apply List.ext_getElem
      · simp [h2.length_eq]
      · intro k h4 h5
        simp only [List.getElem_map, List.getElem_range, hpd, if_pos (List.getElem?_eq_some_iff.1 hiv).1]
        rw [List.getD_eq_getElem?_getD, List.getElem?_eq_getElem h5]
        rfl
    have hnil : ∀ i v, p.vars[i]? = some v → available p.vars [] i = List.range v.sets.length := by
      intro i v hiv
      simp [available, hiv]
    obtain ⟨hbox, hshr⟩ := bfitted_boxes hv hn h pd t [] (by simp) (by
      rw [hrt]
      exact ⟨by simp, fun i v hiv => by simp [hnil i v hiv, List.Subperm.refl]⟩)
    rw [hrt] at hbox
    simp only [List.nil_append, Option.toList_none] at hbox hshr
    have hroot : boxMass p.vars pd [] = 1 := by
      unfold boxMass
      apply Finset.prod_eq_one
      intro i hi
      have hi' := Finset.mem_range.1 hi
      have hiv := List.getElem?_eq_getElem hi'
      unfold leftMass
      rw [hnil i _ hiv]
      exact hall i _ hiv
    rw [← hroot, ← hbox]
    have hleaf : ∀ q ∈ bLeafPaths t, ∀ m, BLeafDegree min row q.1 m → boxMass p.vars pd q.1 ≤ m := by
      intro q hq m hm
      obtain ⟨ds, hds, rfl⟩ := hm
      have hf0 : ∀ i ∈ Finset.range p.vars.length, 0 ≤ leftMass p.vars pd q.1 i := by
        intro i _
        unfold leftMass
        apply List.sum_nonneg
        intro x hx
        obtain ⟨k, -, rfl⟩ := List.mem_map.1 hx
        exact hpd0 i k
      have hf1 : ∀ i ∈ Finset.range p.vars.length, leftMass p.vars pd q.1 i ≤ 1 := by
        intro i hi
        have hiv := List.getElem?_eq_getElem (Finset.mem_range.1 hi)
        rw [← hall i _ hiv]
        exact subperm_sum_le ((hshr q hq).2 i _ hiv) (hpd0 i)
      apply foldl_min_ge
      · intro d hd
        obtain ⟨test, ht, htd⟩ := forall₂_mem_right hds d hd
        have htv := bfitted_tests h q hq test ht
        have hlt : test.att ∈ Finset.range p.vars.length := Finset.mem_range.2 (List.getElem?_eq_some_iff.1 htv.1).1
        have e : BTestDegree row test ((test.idxs.map (pd test.att)).sum) := by
          refine ⟨_, ?_, rfl⟩
          rw [List.forall₂_map_right_iff, List.forall₂_same]
          intro k hk
          obtain ⟨n, hn', -, -⟩ := (bLeafPaths_iff t q).1 hq
          exact hdeg _ _ k htv.1 (((C38_depth ent p X y t h _ hn').2 test ht).2.2 k hk)
        rw [htd.unique e]
        refine le_trans ?_ (subperm_sum_le ((hshr q hq).1 test ht) (hpd0 test.att))
        unfold boxMass
        rw [← Finset.mul_prod_erase _ _ hlt]
        apply mul_le_of_le_one_right (hf0 _ hlt)
        exact Finset.prod_le_one (fun i hi => hf0 i (Finset.mem_of_mem_erase hi)) (fun i hi => hf1 i (Finset.mem_of_mem_erase hi))
      · exact Finset.prod_le_one hf0 hf1
    unfold BRowLeaves at hL
    generalize bLeafPaths t = ps at hL hleaf
    clear hw hw1 hnn hcov hq1 hcl e
    induction hL with
    | nil => simp
    | @cons pth q ps L hpq _ ih =>
      rw [List.map_cons, List.map_cons, List.sum_cons, List.sum_cons]
      exact add_le_add (hleaf pth (by simp) _ hpq.2) (ih (fun q hq => hleaf q (by simp [hq])))
  refine ⟨L, hL, vote_agg_nonneg (fun q hq => ⟨hnn q hq, (hw q hq).2.1⟩), htot, ?_, ?_⟩
  · intro c hc
    obtain ⟨L', hL', hwin⟩ := C27_fbdt_max_vote min .agg t row c hc
    have := hL'.unique hL
    subst this
    exact htot.trans (winner_ge hwin hcl)
  · intro c hc
    obtain ⟨L', hL', hwin⟩ := C27_fbdt_max_vote min .max t row c hc
    have := hL'.unique hL
    subst this
    have e : q1.2 = m0 := hdeg1.unique hm0
    exact winner_max_ge hwin hq1 (e ▸ hle0) (hw1 q1 hq1) (hw q1 hq1).1 (hcov q1 hq1) (hw q1 hq1).2.1

/-- `(5/2, "f")` is in the range of the variables of the example of FDT. -/
theorem exRow_inRange : RowInRange exParams.vars [.num (5 / 2), .str "f"] := by
  intro i v hv
  match i, hv with
  | 0, hv =>
    simp only [exParams, List.getElem?_cons_zero, Option.some.injEq] at hv
    subst hv
    exact ⟨_, rfl, .continuous "age" true [("0", 0), ("1", 1), ("3", 3)] _ ("0", 0) ("3", 3) _ (by decide) rfl rfl rfl
      (by norm_num) (by norm_num)⟩
  | 1, hv =>
    simp only [exParams, List.getElem?_cons_zero, List.getElem?_cons_succ, Option.some.injEq] at hv
    subst hv
    exact ⟨_, rfl, .discrete "sex" [("m", .str "m"), ("f", .str "f")] _ (by decide) (by decide)⟩

/-- `(5/2, "f")` is in the range of the variables of the example of FBDT. -/
theorem exBRow_inRange : RowInRange exBParams.vars [.num (5 / 2), .str "f"] := by
  intro i v hv
  match i, hv with
  | 0, hv =>
    simp only [exBParams, List.getElem?_cons_zero, Option.some.injEq] at hv
    subst hv
    exact ⟨_, rfl, .continuous "age" true [("0", 0), ("2", 2), ("4", 4), ("6", 6)] _ ("0", 0) ("6", 6) _ (by decide) rfl rfl rfl
      (by norm_num) (by norm_num)⟩
  | 1, hv =>
    simp only [exBParams, List.getElem?_cons_zero, List.getElem?_cons_succ, Option.some.injEq] at hv
    subst hv
    exact ⟨_, rfl, .discrete "sex" [("m", .str "m"), ("f", .str "f")] _ (by decide) (by decide)⟩

/-- the hypotheses of C163 and C164 hold for the fitted examples and the row `(5/2, "f")`, which is in two sets of `age`. -/
example : ProperSets exParams.vars ∧ exFit.toOption.isSome = true ∧ RowInRange exParams.vars [.num (5 / 2), .str "f"] ∧
    (fbdtFit exEnt exBParams fbdtNew exBX exBY).toOption.map BNode.isLeaf = some false ∧
    (exBParams.vars.map FVar.name).Nodup ∧ (∀ v ∈ exBParams.vars, (v.sets.map FSet.name).Nodup) ∧
    RowInRange exBParams.vars [.num (5 / 2), .str "f"] := by
  refine ⟨?_, by decide +kernel, exRow_inRange, by decide +kernel, by decide, by decide, exBRow_inRange⟩
  unfold ProperSets
  decide

end Teacher
