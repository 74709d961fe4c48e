import Verif.Props.FBDTPredict

/-! C161: predictions of a fitted binary fuzzy tree on crisp rows (the analogue of C35). -/

set_option linter.unusedSectionVars false

namespace Teacher.Spec
open Teacher

variable {C K : Type} [Field K] [LinearOrder K]

/-- from the node, following at every split a child whose test holds with degree 1, the row gets to a leaf with content `cv`. -/
inductive BReaches (row : List (Cell K)) : BNode C K → Option (Dict C K) → Prop where
  | leaf (test level mu cv children) : BReaches row (.mk test level mu true cv children) cv
  | step (test level mu cv children c t out) (hc : c ∈ children) (ht : c.test = some t) (hd : BTestDegree row t 1)
      (h : BReaches row c out) : BReaches row (.mk test level mu false cv children) out

end Teacher.Spec

namespace Teacher
open Spec FB

variable {C K : Type} [LinearOrder C] [Field K] [LinearOrder K] [IsStrictOrderedRing K]

/-- on the way from the node to a leaf, at every split one child holds with degree 1 and the others with degree 0. -/
inductive BCrispOn (row : List (Cell K)) : BNode C K → Prop where
  | leaf (test level mu cv children) : BCrispOn row (.mk test level mu true cv children)
  | split (test level mu cv pre c post t) (ht : c.test = some t) (hd : BTestDegree row t 1)
      (ho : ∀ c' ∈ pre ++ post, ∃ t', c'.test = some t' ∧ BTestDegree row t' 0) (h : BCrispOn row c) :
      BCrispOn row (.mk test level mu false cv (pre ++ c :: post))

theorem forall₂_append_split {α β : Type} {R : α → β → Prop} (l₁ : List α) : ∀ (l₂ : List α) (L : List β),
    List.Forall₂ R (l₁ ++ l₂) L → ∃ L₁ L₂, L = L₁ ++ L₂ ∧ List.Forall₂ R l₁ L₁ ∧ List.Forall₂ R l₂ L₂ := by
  induction l₁ with
  | nil => intro l₂ L h; exact ⟨[], L, rfl, .nil, h⟩
  | cons a l₁ ih =>
    intro l₂ L h
    cases h with
    | cons ha h =>
      obtain ⟨L₁, L₂, rfl, h1, h2⟩ := ih _ _ h
      exact ⟨_ :: L₁, L₂, rfl, .cons ha h1, h2⟩

theorem foldl_zero {T : K → K → K} (hT : ∀ x, 0 ≤ x → x ≤ 1 → T 0 x = 0) {ms : List K} (h : ∀ m ∈ ms, 0 ≤ m ∧ m ≤ 1) :
    ms.foldl T 0 = 0 := by
  induction ms with
  | nil => rfl
  | cons m ms ih =>
    rw [List.foldl_cons, hT m (h m (by simp)).1 (h m (by simp)).2]
    exact ih (fun m hm => h m (by simp [hm]))

/-- one leaf has degree 1 and the others 0 -/
theorem bcrisp_leaves {T : K → K → K} (h11 : T 1 1 = 1) (h10 : T 1 0 = 0) (hT : ∀ x, 0 ≤ x → x ≤ 1 → T 0 x = 0)
    {row : List (Cell K)} {t : BNode C K} (hcr : BCrispOn row t) : ∀ (L : List (Option (Dict C K) × K)),
    (∀ q ∈ bLeafPaths t, ∀ test ∈ q.1, ∀ m, BTestDegree row test m → m ≤ 1) →
    List.Forall₂ (fun p q => p.2 = q.1 ∧ ∃ ms, List.Forall₂ (BTestDegree row) (p.1.drop t.test.toList.length) ms ∧
      q.2 = ms.foldl T 1) (bLeafPaths t) L →
    ∃ pre cv post, L = pre ++ (cv, 1) :: post ∧ (∀ q ∈ pre ++ post, q.2 = 0) ∧ BReaches row t cv := by
  induction hcr with
  | leaf test level mu cv children =>
    intro L hle hL
    simp only [bLeafPaths, if_true] at hL
    cases hL with
    | cons h hn =>
      cases hn
      rename_i q
      obtain ⟨h1, ms, h2, h3⟩ := h
      simp only [BNode.test, List.drop_length] at h2
      cases h2
      simp only [List.foldl_nil] at h3
      refine ⟨[], cv, [], ?_, by simp, .leaf ..⟩
      obtain ⟨a, b⟩ := q
      simp only at h1 h3
      rw [h1, h3]; rfl
  | split test level mu cv pre c post tc htc hdc hothers _ ih =>
    intro L hle hL
    simp only [bLeafPaths, Bool.false_eq_true, if_false, bLeafPathsList_eq] at hL hle
    rw [List.forall₂_map_left_iff] at hL
    simp only [BNode.test, List.drop_left] at hL
    have hle' : ∀ c' ∈ pre ++ c :: post, ∀ q ∈ bLeafPaths c', ∀ test ∈ q.1, ∀ m, BTestDegree row test m → m ≤ 1 := by
      intro c' hc' q hq ts hts
      exact hle (test.toList ++ q.1, q.2) (List.mem_map_of_mem (f := fun p : List (BTest K) × Option (Dict C K) => (test.toList ++ p.1, p.2))
        (List.mem_flatMap.2 ⟨c', hc', hq⟩)) ts (List.mem_append.2 (.inr hts))
    rw [List.flatMap_append, List.flatMap_cons] at hL
    obtain ⟨Lp, Lr, rfl, hLp, hLr⟩ := forall₂_append_split _ _ _ hL
    obtain ⟨Lc, Lq, rfl, hLc, hLq⟩ := forall₂_append_split _ _ _ hLr
    have hzero : ∀ (cs : List (BNode C K)) (L : List (Option (Dict C K) × K)), (∀ c' ∈ cs, c' ∈ pre ++ post) →
        List.Forall₂ (fun p q => p.2 = q.1 ∧ ∃ ms, List.Forall₂ (BTestDegree row) p.1 ms ∧ q.2 = ms.foldl T 1)
          (cs.flatMap bLeafPaths) L → ∀ q ∈ L, q.2 = 0 := by
      intro cs L hcs h q hq
      obtain ⟨p, hp, -, ms, hms, he⟩ := forall₂_mem_right h q hq
      obtain ⟨c', hc', hp⟩ := List.mem_flatMap.1 hp
      have hc'' := hcs c' hc'
      obtain ⟨t', ht', hd⟩ := hothers c' hc''
      have hb := hle' c' (by
        rcases List.mem_append.1 hc'' with h | h
        · simp [h]
        · simp [h]) p hp
      obtain ⟨rest, hr⟩ := bLeafPaths_start c' t' ht' p hp
      rw [hr] at hms hb
      cases hms with
      | cons ha has =>
        rw [he, ha.unique hd, List.foldl_cons, h10]
        apply foldl_zero hT
        intro m hm
        obtain ⟨test, ht, htm⟩ := forall₂_mem_right has m hm
        exact ⟨bTestDegree_nonneg htm, hb test (by simp [ht]) m htm⟩
    have hc' : List.Forall₂ (fun p q => p.2 = q.1 ∧ ∃ ms, List.Forall₂ (BTestDegree row)
        (p.1.drop c.test.toList.length) ms ∧ q.2 = ms.foldl T 1) (bLeafPaths c) Lc := by
      have aux : ∀ (l : List (List (BTest K) × Option (Dict C K))) (L : List (Option (Dict C K) × K)),
          (∀ p ∈ l, p ∈ bLeafPaths c) →
          List.Forall₂ (fun p q => p.2 = q.1 ∧ ∃ ms, List.Forall₂ (BTestDegree row) p.1 ms ∧ q.2 = ms.foldl T 1) l L →
          List.Forall₂ (fun p q => p.2 = q.1 ∧ ∃ ms, List.Forall₂ (BTestDegree row)
            (p.1.drop c.test.toList.length) ms ∧ q.2 = ms.foldl T 1) l L := by
        intro l L hsub h
        induction h with
        | nil => exact .nil
        | @cons p q l L h _ ihh =>
          refine .cons ⟨h.1, ?_⟩ (ihh (fun p hp => hsub p (by simp [hp])))
          obtain ⟨-, ms, h2, h3⟩ := h
          obtain ⟨rest, hr⟩ := bLeafPaths_start c tc htc p (hsub p (by simp))
          rw [hr] at h2 ⊢
          rw [htc]
          cases h2 with
          | @cons _ m _ ms ha has =>
            refine ⟨ms, by simpa using has, ?_⟩
            rw [h3, List.foldl_cons, ha.unique hdc, h11]
      exact aux _ _ (fun _ h => h) hLc
    obtain ⟨pre', cv', post', rfl, hz, hreach⟩ := ih Lc (hle' c (by simp)) hc'
    refine ⟨Lp ++ pre', cv', post' ++ Lq, by simp, ?_, ?_⟩
    · intro q hq
      simp only [List.mem_append] at hq
      rcases hq with (hq | hq) | (hq | hq)
      · exact hzero pre Lp (fun c' hc' => by simp [hc']) hLp q hq
      · exact hz q (by simp [hq])
      · exact hz q (by simp [hq])
      · exact hzero post Lq (fun c' hc' => by simp [hc']) hLq q hq
    · exact .step _ _ _ _ _ c tc _ (by simp) htc hdc hreach

theorem CrispRow.subPartition {vars : List (FVar K)} {row : List (Cell K)} (h : CrispRow vars row) :
    SubPartition vars row := by
  intro i v hv
  obtain ⟨x, k, h1, h2, h3⟩ := h i v hv
  refine ⟨x, (List.range v.sets.length).map (fun j => if j = k then 1 else 0), h1, ?_, ?_⟩
  · rw [List.forall₂_iff_get]
    refine ⟨by simp, fun j hj hj' => ?_⟩
    simp only [List.get_eq_getElem, List.getElem_map, List.getElem_range]
    exact h3 j _ (List.getElem?_eq_getElem hj)
  · clear h3 hv h1
    generalize v.sets.length = n at h2
    apply le_of_eq
    induction n with
    | zero => omega
    | succ n ih =>
      rw [List.range_succ, List.map_append, List.sum_append, List.map_singleton, List.sum_singleton]
      by_cases e : k = n
      · subst e
        have : ((List.range k).map (fun j => if j = k then (1:K) else 0)).sum = 0 := by
          apply List.sum_eq_zero
          intro x hx
          obtain ⟨j, hj, rfl⟩ := List.mem_map.1 hx
          rw [if_neg (by have := List.mem_range.1 hj; omega)]
        rw [this]; simp
      · rw [ih (by omega), if_neg (fun h => e h.symm), add_zero]

/-- `row` is in set number `k` of the variable of the test, and in no other: the test has degree 1 if it lists `k`, else 0. -/
theorem crisp_test {row : List (Cell K)} {t : BTest K} {x : Cell K} {k : Nat}
    (hx : row[t.att]? = some x)
    (hd : ∀ (j : Nat) s, t.var.sets[j]? = some s → s.membership [x] = .ok [if j = k then 1 else 0])
    (hlt : ∀ i ∈ t.idxs, i < t.var.sets.length) (hnd : t.idxs.Nodup) :
    BTestDegree row t (if k ∈ t.idxs then 1 else 0) := by
  refine ⟨t.idxs.map (fun j => if j = k then 1 else 0), ?_, ?_⟩
  · rw [List.forall₂_map_right_iff, List.forall₂_same]
    intro i hi
    exact ⟨_, x, List.getElem?_eq_getElem (hlt i hi), hx, hd i _ (List.getElem?_eq_getElem (hlt i hi))⟩
  · clear hlt
    generalize t.idxs = l at hnd ⊢
    induction l with
    | nil => simp
    | cons i l ih =>
      rw [List.nodup_cons] at hnd
      have ih' := ih hnd.2
      rw [List.map_cons, List.sum_cons, ← ih']
      by_cases e : i = k
      · subst e; simp [hnd.1]
      · simp [e, Ne.symm e]

section
variable {ent : List K → List C → K} {p : FDTParams K} {X : List (List (Cell K))} {y : List C} {t : BNode C K}

theorem bfitted_crisp [NanSort K] (hv : (p.vars.map FVar.name).Nodup) (hn : ∀ v ∈ p.vars, (v.sets.map FSet.name).Nodup)
    (h : fbdtFit ent p fbdtNew X y = .ok t) {row : List (Cell K)} (hcr : CrispRow p.vars row) :
    ∀ (n : BNode C K) (path : List (BTest K)), (∀ q ∈ bNodePaths n, (path ++ q.1, q.2) ∈ bNodePaths t) →
      (∀ test ∈ path ++ n.test.toList, test.idxs.Nodup ∧ BTestDegree row test 1) → BCrispOn row n := by
  intro n
  induction n using BNode.induction with
  | h test level m isLeaf cv children ih =>
    intro path hsub hact
    cases isLeaf with
    | true => exact .leaf ..
    | false =>
      have hself := hsub _ (bNodePaths_self _)
      obtain ⟨l, r, tl, tr, hc, htl, htr, hatt, hvar, -, -, hperm⟩ := C38_two_children ent p X y t h _ hself rfl
      have hperm := hperm hv hn
      simp only [BNode.children] at hc
      subst hc
      simp only [BNode.test] at hact hperm
      have hchild : ∀ c ∈ [l, r], ∀ q ∈ bNodePaths c, (path ++ test.toList ++ q.1, q.2) ∈ bNodePaths t := by
        intro c hc q hq
        have := hsub _ (bNodePaths_child (test := test) (level := level) (m := m) (cv := cv) hc hq)
        rwa [← List.append_assoc] at this
      have hdl := (C38_depth ent p X y t h _ (hchild l (by simp) _ (bNodePaths_self l))).2 tl (by simp [htl])
      have hdr := (C38_depth ent p X y t h _ (hchild r (by simp) _ (bNodePaths_self r))).2 tr (by simp [htr])
      obtain ⟨x, k, hx, hk, hdeg⟩ := hcr _ _ hdl.1
      have havail : (available p.vars (path ++ test.toList) tl.att).Nodup ∧ k ∈ available p.vars (path ++ test.toList) tl.att := by
        unfold available
        split
        · rename_i tst hf
          have hm := List.mem_reverse.1 (List.mem_of_find?_eq_some hf)
          have he := List.find?_some hf
          simp only [decide_eq_true_eq] at he
          obtain ⟨hnd, hd⟩ := hact tst hm
          refine ⟨hnd, ?_⟩
          obtain ⟨hv', -, hlt⟩ := (C38_depth ent p X y t h _ hself).2 tst hm
          have hv2 : tst.var = tl.var := by
            rw [he, hdl.1] at hv'; exact (Option.some.inj hv').symm
          have := crisp_test (t := tst) (k := k) (by rw [he]; exact hx) (by rw [hv2]; exact hdeg) hlt hnd
          by_contra hk'
          rw [if_neg hk'] at this
          exact zero_ne_one (this.unique hd)
        · rw [hdl.1]
          exact ⟨List.nodup_range, List.mem_range.2 hk⟩
      have hnd := hperm.nodup_iff.2 havail.1
      have hmem := hperm.mem_iff.2 havail.2
      rw [List.nodup_append] at hnd
      have hl := crisp_test (t := tl) (k := k) hx hdeg hdl.2.2 hnd.1
      have hr := crisp_test (t := tr) (k := k) (hatt ▸ hx) (hvar ▸ hdeg) hdr.2.2 hnd.2.1
      by_cases e : k ∈ tl.idxs
      · have e' : k ∉ tr.idxs := fun e' => hnd.2.2 k e k e' rfl
        rw [if_pos e] at hl
        rw [if_neg e'] at hr
        refine .split test level m cv [] l [r] tl htl hl (by simpa using ⟨tr, htr, hr⟩) ?_
        apply ih l (by simp) (path ++ test.toList) (hchild l (by simp))
        intro ts hts
        rw [htl] at hts
        rcases List.mem_append.1 hts with hts | hts
        · exact hact ts hts
        · simp only [Option.toList_some, List.mem_singleton] at hts
          subst hts
          exact ⟨hnd.1, hl⟩
      · have e' : k ∈ tr.idxs := (List.mem_append.1 hmem).resolve_left e
        rw [if_neg e] at hl
        rw [if_pos e'] at hr
        refine .split test level m cv [l] r [] tr htr hr (by simpa using ⟨tl, htl, hl⟩) ?_
        apply ih r (by simp) (path ++ test.toList) (hchild r (by simp))
        intro ts hts
        rw [htr] at hts
        rcases List.mem_append.1 hts with hts | hts
        · exact hact ts hts
        · simp only [Option.toList_some, List.mem_singleton] at hts
          subst hts
          exact ⟨hnd.2.1, hr⟩

end

/-- C161: on a row that has degree 1 in exactly one set of every variable and 0 in the others, exactly one leaf of a fitted binary fuzzy
tree has degree 1 and all the others 0, it is the one reached by following at each split the child that lists the active set, and the
prediction is a heaviest class of that leaf, for both voting methods and every t-norm (only `T 1 1 = 1`, `T 1 0 = 0` and `T 0 x = 0` are
used). -/
theorem C161_crisp [NanSort K] (ent : List K → List C → K) (p : FDTParams K) (hv : (p.vars.map FVar.name).Nodup)
    (hn : ∀ v ∈ p.vars, (v.sets.map FSet.name).Nodup) (X : List (List (Cell K))) (y : List C) (t : BNode C K)
    (h : fbdtFit ent p fbdtNew X y = .ok t) (T : K → K → K) (h11 : T 1 1 = 1) (h10 : T 1 0 = 0)
    (hT : ∀ x, 0 ≤ x → x ≤ 1 → T 0 x = 0) (v : Voting) (row : List (Cell K)) (hne : row ≠ []) (hcr : CrispRow p.vars row) :
    ∃ pre cv post c w, BRowLeaves T row t (pre ++ (cv, 1) :: post) ∧ (∀ q ∈ pre ++ post, q.2 = 0) ∧ BReaches row t (some cv) ∧
      fbdtPredict T v t [row] = .ok [[c]] ∧ (c, w) ∈ cv ∧ ∀ kv ∈ cv, kv.2 ≤ w := by
  have hsp := hcr.subPartition
  obtain ⟨L, hL⟩ := bfitted_rowLeaves h T row hsp.wellTyped
  obtain ⟨-, -, -, hrt, -⟩ := fbdtFit_nodes h
  have hb : BCrispOn row t := bfitted_crisp hv hn h hcr t [] (by simp) (by simp [hrt])
  have hle : ∀ q ∈ bLeafPaths t, ∀ test ∈ q.1, ∀ m, BTestDegree row test m → m ≤ 1 := by
    intro q hq test ht m hm
    exact bTestDegree_le_one hsp (bfitted_tests h q hq test ht).1 (List.Nodup.of_map _ ((bfitted_chain hn h q hq).1 test ht)) hm
  have hL' : List.Forall₂ (fun p (q : Option (Dict C K) × K) => p.2 = q.1 ∧ ∃ ms, List.Forall₂ (BTestDegree row)
      (p.1.drop t.test.toList.length) ms ∧ q.2 = ms.foldl T 1) (bLeafPaths t) (L.map (fun q => (some q.1, q.2))) := by
    rw [List.forall₂_map_right_iff, hrt]
    exact hL
  obtain ⟨pre, cv, post, he, hz, hr⟩ := bcrisp_leaves h11 h10 hT hb _ hle hL'
  obtain ⟨l₁, l₂, rfl, rfl, h2⟩ := List.map_eq_append_iff.1 he
  obtain ⟨q, l₃, rfl, h3, rfl⟩ := List.map_eq_cons_iff.1 h2
  obtain ⟨qc, qd⟩ := q
  simp only [Prod.mk.injEq] at h3
  obtain ⟨rfl, rfl⟩ := h3
  have hz' : ∀ q ∈ l₁ ++ l₃, q.2 = 0 := by
    intro x hx
    exact hz (some x.1, x.2) (by
      rw [← List.map_append]
      exact List.mem_map_of_mem (f := fun q : Dict C K × K => (some q.1, q.2)) hx)
  obtain ⟨c, -, hc⟩ := C27_fbdt_fitted_total ent p X y t h T v row hne hsp.wellTyped
  obtain ⟨L', hL'', pre', post', he', h1, h2⟩ := C27_fbdt_max_vote T v t row c hc
  have := hL''.unique hL
  subst this
  obtain ⟨hnd, hnn, ⟨kv₀, hkv₀, hpos⟩, -⟩ := bfitted_rowLeaves_weights h hL (qc, 1) (by simp)
  simp only at hnd hnn hkv₀
  have hbest : ∀ kv ∈ qc, kv.2 ≤ vote v (l₁ ++ (qc, 1) :: l₃) c := by
    intro kv hkv
    rw [← (crisp_vote v l₁ l₃ qc hz' hnd hnn kv.1).1 kv.2 hkv]
    have hm : kv.1 ∈ (l₁ ++ (qc, 1) :: l₃).flatMap (fun q => q.1.map Prod.fst) :=
      List.mem_flatMap.2 ⟨(qc, 1), by simp, List.mem_map_of_mem hkv⟩
    rw [he'] at hm
    rcases List.mem_append.1 hm with hm | hm
    · exact (h1 _ hm).le
    · rcases List.mem_cons.1 hm with hm | hm
      · rw [hm]
      · exact h2 _ hm
  have hcm : c ∈ qc.map Prod.fst := by
    by_contra hc
    have := hbest kv₀ hkv₀
    rw [(crisp_vote v l₁ l₃ qc hz' hnd hnn c).2 hc] at this
    exact absurd hpos (not_lt.2 this)
  obtain ⟨kv, hkv, rfl⟩ := List.mem_map.1 hcm
  refine ⟨l₁, qc, l₃, kv.1, kv.2, hL, hz', hr, hc, hkv, fun kv' h' => ?_⟩
  have := hbest kv' h'
  rwa [(crisp_vote v l₁ l₃ qc hz' hnd hnn kv.1).1 kv.2 hkv] at this

theorem exB_crisp : CrispRow exBParams.vars [.num 4, .str "m"] := by
  intro i v hv
  match i, hv with
  | 0, hv =>
    simp only [exBParams, List.getElem?_cons_zero, Option.some.injEq] at hv
    subst hv
    refine ⟨_, 2, rfl, by decide, fun j s hs => ?_⟩
    match j, hs with
    | 0, hs => cases hs; decide +kernel
    | 1, hs => cases hs; decide +kernel
    | 2, hs => cases hs; decide +kernel
    | 3, hs => cases hs; decide +kernel
  | 1, hv =>
    simp only [exBParams, List.getElem?_cons_zero, List.getElem?_cons_succ, Option.some.injEq] at hv
    subst hv
    refine ⟨_, 0, rfl, by decide, fun j s hs => ?_⟩
    match j, hs with
    | 0, hs => cases hs; decide +kernel
    | 1, hs => cases hs; decide +kernel

/-- the hypotheses of C161: the tree of four leaves of `C111_trained_sets_false` on the row `(4, "m")`, with two tests on `age` on the way
to the reached leaf; a tie between the two classes of that leaf. -/
example : (exBParams.vars.map FVar.name).Nodup ∧ (∀ v ∈ exBParams.vars, (v.sets.map FSet.name).Nodup) ∧
    CrispRow exBParams.vars [.num 4, .str "m"] ∧
    ((fbdtFit exEnt exBParams fbdtNew exBX exBY).toOption.map (fun t =>
      ((fbdtPredict min .agg t [[.num 4, .str "m"]]).toOption, (fbdtPredict (· * ·) .max t [[.num 0, .str "m"]]).toOption))) =
      some (some [[0]], some [[0]]) :=
  ⟨by decide, by decide, exB_crisp, by decide +kernel⟩

end Teacher
