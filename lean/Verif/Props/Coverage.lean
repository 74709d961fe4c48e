import Verif.Props.FBDTPredict

/-! C163: every row in the range of the fuzzy variables is covered by a leaf and by a rule. C164: the total vote of a row. -/

set_option linter.unusedSectionVars false

namespace Teacher.Spec
open Teacher

variable {K : Type} [Field K] [LinearOrder K]

/-- the cell is in the range of the fuzzy variable: between the first and the last peak of a continuous variable made from increasing
peaks, or one of the values of a discrete one. -/
inductive InRange : FVar K → Cell K → Prop where
  | continuous (name : String) (ok : Bool) (ps : List (String × K)) (sets : List (CSet K)) (first last : String × K) (x : K)
      (hinc : (ps.map Prod.snd).Pairwise (· < ·)) (hsets : getFuzzyContinuousSets ok ps = .ok sets)
      (hfirst : ps.head? = some first) (hlast : ps.getLast? = some last) (h1 : first.2 ≤ x) (h2 : x ≤ last.2) :
      InRange ⟨name, sets.map .cont⟩ (.num x)
  | discrete (name : String) (ds : List (String × Cell K)) (x : Cell K) (hnd : (ds.map Prod.snd).Nodup) (hx : x ∈ ds.map Prod.snd) :
      InRange ⟨name, (getFuzzyDiscreteSets ds).map .disc⟩ x

/-- every cell of the row is in the range of its variable. -/
def RowInRange (vars : List (FVar K)) (row : List (Cell K)) : Prop :=
  ∀ (i : Nat) v, vars[i]? = some v → ∃ x, row[i]? = some x ∧ InRange v x

/-- every variable has a set in which the row has at least degree `h`. -/
def CoveredBy (h : K) (vars : List (FVar K)) (row : List (Cell K)) : Prop :=
  ∀ (i : Nat) v, vars[i]? = some v → ∃ x s m, row[i]? = some x ∧ s ∈ v.sets ∧ s.membership [x] = .ok [m] ∧ h ≤ m

/-- the degrees of the row in the sets of each variable add up to 1. -/
def StrongRow (vars : List (FVar K)) (row : List (Cell K)) : Prop :=
  ∀ (i : Nat) v, vars[i]? = some v → ∃ x ms, row[i]? = some x ∧
    List.Forall₂ (fun (s : FSet K) m => s.membership [x] = .ok [m]) v.sets ms ∧ ms.sum = 1

end Teacher.Spec

namespace Teacher
open Spec FB

variable {C K : Type} [LinearOrder C] [Field K] [LinearOrder K] [IsStrictOrderedRing K]

theorem sum_two_neighbours {h : K} (h0 : 0 < h) : ∀ (ms : List K), (∀ m ∈ ms, 0 ≤ m) →
    (∀ (i j : Nat) (a b : K), i < j → ms[i]? = some a → ms[j]? = some b → 0 < a → 0 < b → j = i + 1) → (∀ m ∈ ms, m < h) → ms.sum < 2 * h := by
  intro ms
  induction ms with
  | nil => intro _ _ _; simpa using h0
  | cons m ms ih =>
    intro hn hp hl
    rw [List.sum_cons]
    rcases (hn m (by simp)).eq_or_lt with e | e
    · rw [← e, zero_add]
      refine ih (fun x hx => hn x (by simp [hx])) (fun i j a b hij ha hb => ?_) (fun x hx => hl x (by simp [hx]))
      intro pa pb
      have := hp (i + 1) (j + 1) a b (by omega) (by simpa using ha) (by simpa using hb) pa pb
      omega
    · cases ms with
      | nil => have := hl m (by simp); simp only [List.sum_nil, add_zero]; linarith
      | cons m' rest =>
        have hz : rest.sum = 0 := by
          apply List.sum_eq_zero
          intro x hx
          rcases (hn x (by simp [hx])).eq_or_lt with e' | e'
          · exact e'.symm
          · obtain ⟨j, hj, rfl⟩ := List.mem_iff_getElem.1 hx
            have := hp 0 (j + 2) m rest[j] (by omega) rfl (by simp [hj]) e e'
            omega
        rw [List.sum_cons, hz]
        have := hl m (by simp)
        have := hl m' (by simp)
        linarith

theorem Spec.InRange.strong {v : FVar K} {x : Cell K} (h : InRange v x) :
    (∃ ms, List.Forall₂ (fun (s : FSet K) m => s.membership [x] = .ok [m]) v.sets ms ∧ ms.sum = 1) ∧
      ∃ s ∈ v.sets, ∃ m, s.membership [x] = .ok [m] ∧ 1 / 2 ≤ m := by
  have half : (0 : K) < 1 / 2 := by norm_num
  cases h with
  | continuous name ok ps sets first last x hinc hsets hfirst hlast h1 h2 =>
    have key : ∃ ms : List K, List.Forall₂ (fun (s : FSet K) m => s.membership [.num x] = .ok [m]) (sets.map .cont) ms ∧ ms.sum = 1 := by
      match ps, hinc, hsets, hfirst, hlast with
      | [q], _, hs, hf, hl =>
        cases ok with
        | false => rw [(C02_single_peak q).2.1] at hs; cases hs
        | true =>
          obtain ⟨s, h3, -, h4⟩ := (C02_single_peak q).1
          rw [h3] at hs
          cases hs
          simp only [List.head?_cons, Option.some.injEq] at hf
          simp only [List.getLast?_singleton, Option.some.injEq] at hl
          subst hf hl
          have : x = q.2 := le_antisymm h2 h1
          refine ⟨[1], .cons ?_ .nil, by simp⟩
          have := h4 x
          rwa [if_pos (le_antisymm h2 h1)] at this
      | q₀ :: q₁ :: qs, hinc, hs, hf, hl =>
        obtain ⟨sets', h3, -, h4⟩ := C02_strong_partition ok q₀ q₁ qs last hl hinc
        rw [h3] at hs
        cases hs
        simp only [List.head?_cons, Option.some.injEq] at hf
        subst hf
        obtain ⟨ms, h5, h6, -⟩ := h4 x
        refine ⟨ms, ?_, h6 h1 h2⟩
        rw [List.forall₂_map_left_iff]
        have := (mapM_ok_iff _ _ _).1 h5
        rw [List.forall₂_map_right_iff] at this
        exact this
    obtain ⟨ms, hms, hsum⟩ := key
    refine ⟨⟨ms, hms, hsum⟩, ?_⟩
    by_contra hcon
    push Not at hcon
    have hlt : ms.sum < 2 * (1 / 2) := by
      apply sum_two_neighbours half
      · intro m hm
        obtain ⟨s, hs, hd⟩ := forall₂_mem_right hms m hm
        exact (FSet.membership_singleton_range hd).1
      · intro i j a b hij ha hb pa pb
        rw [List.forall₂_map_left_iff] at hms
        obtain ⟨hlen, hget⟩ := List.forall₂_iff_get.1 hms
        obtain ⟨hi, rfl⟩ := List.getElem?_eq_some_iff.1 ha
        obtain ⟨hj, rfl⟩ := List.getElem?_eq_some_iff.1 hb
        have hi' : i < sets.length := by omega
        have hj' : j < sets.length := by omega
        exact C03_two_neighbours ok ps sets hinc hsets x i j _ _ _ _ hij (List.getElem?_eq_getElem hi') (List.getElem?_eq_getElem hj')
          (hget i hi' hi) (hget j hj' hj) pa pb
      · intro m hm
        obtain ⟨s, hs, hd⟩ := forall₂_mem_right hms m hm
        exact hcon s hs m hd
    rw [hsum] at hlt
    norm_num at hlt
  | discrete name ds x hnd hx =>
    obtain ⟨ms, h1, h2, h3, h4, h5⟩ := C09_crisp_partition ds hnd x
    have hf : List.Forall₂ (fun (s : FSet K) m => s.membership [x] = .ok [m]) ((getFuzzyDiscreteSets ds).map .disc) ms := by
      rw [List.forall₂_map_left_iff]
      have := List.forall₂_eq_eq_eq.symm ▸ h1
      rw [List.forall₂_map_left_iff, List.forall₂_map_right_iff] at this
      refine this.imp (fun s m h => ?_)
      simp only [FSet.membership, h]
    refine ⟨⟨ms, hf, by rw [h4, if_pos hx]⟩, ?_⟩
    obtain ⟨d, hd, rfl⟩ := List.mem_map.1 hx
    obtain ⟨i, hi, rfl⟩ := List.mem_iff_getElem.1 hd
    obtain ⟨h6, -⟩ := h3 i (by simp [hi])
    obtain ⟨hi', he⟩ := List.getElem?_eq_some_iff.1 h6
    obtain ⟨s, hs, hd⟩ := forall₂_mem_right hf 1 (he ▸ List.getElem_mem hi')
    exact ⟨s, hs, 1, hd, by norm_num⟩

/-- a row in the range of the variables has at least degree 1/2 in some set of each of them, and its degrees add up to 1. -/
theorem Spec.RowInRange.covered {vars : List (FVar K)} {row : List (Cell K)} (h : RowInRange vars row) :
    CoveredBy (1 / 2) vars row ∧ StrongRow vars row := by
  constructor
  · intro i v hv
    obtain ⟨x, hx, hr⟩ := h i v hv
    obtain ⟨s, hs, m, h1, h2⟩ := hr.strong.2
    exact ⟨x, s, m, hx, hs, h1, h2⟩
  · intro i v hv
    obtain ⟨x, hx, hr⟩ := h i v hv
    obtain ⟨ms, h1, h2⟩ := hr.strong.1
    exact ⟨x, ms, hx, h1, h2⟩

theorem foldl_min_ge {h : K} {ms : List K} (hms : ∀ m ∈ ms, h ≤ m) : ∀ a, h ≤ a → h ≤ ms.foldl min a := by
  induction ms with
  | nil => intro a ha; exact ha
  | cons m ms ih =>
    intro a ha
    exact ih (fun x hx => hms x (by simp [hx])) _ (le_min ha (hms m (by simp)))

/-- a tree all of whose splits have a child with at least degree `h` has a leaf with all the tests at least `h` -/
theorem covered_leaf {row : List (Cell K)} {h : K} (n : FNode C K)
    (hs : ∀ q ∈ nodePaths n, q.2.isLeaf = false → ∃ c ∈ q.2.children, ∃ t m, c.test = some t ∧ TestDegree row t m ∧ h ≤ m) :
    ∃ q ∈ leafPaths n, ∃ rest, q.1 = n.test.toList ++ rest ∧ ∀ t ∈ rest, ∃ m, TestDegree row t m ∧ h ≤ m := by
  induction n using FNode.induction with
  | h test level m isLeaf cv children ih =>
    cases isLeaf with
    | true => exact ⟨(test.toList, cv), by simp [leafPaths], [], by simp [FNode.test], by simp⟩
    | false =>
      obtain ⟨c, hc, t, d, ht, hd, hle⟩ := hs _ (nodePaths_self _) rfl
      replace hc : c ∈ children := hc
      obtain ⟨q, hq, rest, he, hrest⟩ := ih c hc (fun q hq => by
        have := hs _ (nodePaths_child (test := test) (level := level) (m := m) (cv := cv) hc hq)
        exact this)
      refine ⟨(test.toList ++ q.1, q.2), ?_, t :: rest, ?_, ?_⟩
      · simp only [leafPaths, Bool.false_eq_true, if_false, leafPathsList_eq]
        exact List.mem_map.2 ⟨q, List.mem_flatMap.2 ⟨c, hc, hq⟩, rfl⟩
      · rw [he, ht]; simp [FNode.test]
      · intro t' ht'
        rcases List.mem_cons.1 ht' with rfl | ht'
        · exact ⟨d, hd, hle⟩
        · exact hrest t' ht'

section
variable {ent : List K → List C → K} {ord : List String → List String} {p : FDTParams K} {X : List (List (Cell K))} {y : List C}
  {t : FNode C K}

theorem Spec.StrongRow.subPartition {vars : List (FVar K)} {row : List (Cell K)} (h : StrongRow vars row) : SubPartition vars row := by
  intro i v hv
  obtain ⟨x, ms, h1, h2, h3⟩ := h i v hv
  exact ⟨x, ms, h1, h2, h3.le⟩

theorem fitted_covered (hs : ProperSets p.vars) (h : fdtFit ent ord p fdtNew X y = .ok t) {row : List (Cell K)} {d : K} (hd1 : d ≤ 1)
    (hrow : CoveredBy d p.vars row) : ∃ q ∈ leafPaths t, ∃ m, LeafDegree min row q.1 m ∧ d ≤ m := by
  obtain ⟨-, -, -, -, -, -, hrt⟩ := fdtFit_grown h
  obtain ⟨q, hq, rest, he, hrest⟩ := covered_leaf (row := row) (h := d) t (by
    intro q hq hl
    obtain ⟨fi, var, hv, hc⟩ := C31_children ent ord p (fun v hv => (hs v hv).2) X y t h q hq hl
    obtain ⟨x, s, m, hx, hsm, hm, hle⟩ := hrow fi var hv
    obtain ⟨k, hk, rfl⟩ := List.mem_iff_getElem.1 hsm
    have : some (⟨var, fi, k⟩ : FTest K) ∈ q.2.children.map FNode.test := by
      rw [hc]; exact List.mem_map.2 ⟨k, List.mem_range.2 hk, rfl⟩
    obtain ⟨c, hc', ht⟩ := List.mem_map.1 this
    exact ⟨c, hc', _, m, ht, ⟨_, x, List.getElem?_eq_getElem hk, hx, hm⟩, hle⟩)
  rw [hrt] at he
  simp only [Option.toList_none, List.nil_append] at he
  subst he
  obtain ⟨ms, hms⟩ := forall₂_of_forall_exists (l := q.1) (R := fun t m => TestDegree row t m ∧ d ≤ m) hrest
  refine ⟨q, hq, _, ⟨ms, hms.imp (fun _ _ h => h.1), rfl⟩, foldl_min_ge (fun m hm => ?_) 1 hd1⟩
  obtain ⟨_, -, h⟩ := forall₂_mem_right hms m hm
  exact h.2

/-- the rules of a leaf match to the degree of the leaf -/
theorem leafRules_matching {row : List (Cell K)} {inst : Inst K} (hn : ∀ v ∈ p.vars, (v.sets.map FSet.name).Nodup)
    (h : fdtFit ent ord p fdtNew X y = .ok t) (hl : t.isLeaf = false) (hinst : Teacher.Holds p.vars row inst)
    {q : List (FTest K) × Option (Dict C K)} (hq : q ∈ leafPaths t) {m : K} (hm : LeafDegree min row q.1 m) :
    ∀ r ∈ leafRules 0 q, r.matching inst = .ok m := by
  intro r hr
  obtain ⟨kv, -, rfl⟩ := List.mem_map.1 hr
  obtain ⟨ms, h1, h2⟩ := hm
  rw [matching_of_known _ inst ms]
  · rw [h2]
    apply foldl_min_one
    · intro m hm
      obtain ⟨test, -, ht⟩ := forall₂_mem_right h1 m hm
      exact (TestDegree.range ht).2
    · rintro rfl
      cases h1' : q.1 with
      | nil => exact fitted_split hn h hl q hq h1'
      | cons a b => rw [h1'] at h1; cases h1
  · have hv := fitted_tests hn h q hq
    clear h2
    generalize q.1 = l at h1 hv
    induction h1 with
    | nil => exact .nil
    | cons ht _ ih =>
      refine .cons ?_ (ih (fun t' ht' => hv t' (List.mem_cons_of_mem _ ht')))
      obtain ⟨fs, x, h3, h4, h5⟩ := ht
      have := hinst _ _ fs x _ (hv _ (by simp)).2 (List.mem_of_getElem? h3) h4 h5
      simpa [clauseOf, h3] using this

end

/-- C163: a row in the range of the fuzzy variables reaches some leaf of a fitted fuzzy tree with at least degree 1/2, and some extracted
rule matches it with at least degree 1/2. -/
theorem C163_fdt (ent : List K → List C → K) (ord : List String → List String) (p : FDTParams K)
    (hs : ProperSets p.vars) (X : List (List (Cell K))) (y : List C) (t : FNode C K)
    (h : fdtFit ent ord p fdtNew X y = .ok t) (row : List (Cell K)) (hrow : RowInRange p.vars row) :
    (∃ q ∈ leafPaths t, ∃ m, LeafDegree min row q.1 m ∧ 1 / 2 ≤ m) ∧
    (t.isLeaf = false → ∀ (simplify : Bool) (inst : Inst K), Teacher.Holds p.vars row inst →
      ∃ rs, fdtToRules t false simplify = .ok rs ∧ ∃ r ∈ rs, ∃ m, r.matching inst = .ok m ∧ 1 / 2 ≤ m) := by
  have hn : ∀ v ∈ p.vars, (v.sets.map FSet.name).Nodup := fun v hv => (hs v hv).2
  have hc := fitted_covered hs h (by norm_num) hrow.covered.1
  refine ⟨hc, fun hl simplify inst hinst => ?_⟩
  obtain ⟨q, hq, m, hm, hle⟩ := hc
  have hval : ∀ p ∈ leafPaths t, (∀ test ∈ p.1, test.idx < test.var.sets.length) ∧ ∃ cv, p.2 = some cv := by
    intro q hq
    obtain ⟨cv, hcv, -⟩ := C30_leaf_distributions ent ord p X y t h q hq
    exact ⟨fun test ht => (fitted_tests hn h q hq test ht).1, cv, hcv⟩
  refine ⟨_, toRules_ok t _ simplify (fitted_branching hs h) hval, ?_⟩
  obtain ⟨cv, hcv, -, -, hr, hsum⟩ := C30_leaf_distributions ent ord p X y t h q hq
  have : ∃ kv ∈ cv, 0 < kv.2 := by
    by_contra hcon
    push Not at hcon
    have : (cv.map Prod.snd).sum ≤ 0 := sum_nonpos_list (fun x hx => by
      obtain ⟨kv, hkv, rfl⟩ := List.mem_map.1 hx
      exact hcon kv hkv)
    rw [hsum] at this
    exact absurd this (not_le.2 one_pos)
  obtain ⟨kv, hkv, hpos⟩ := this
  have hrule : (⟨q.1.map clauseOf, kv.1, kv.2⟩ : Rule String C K) ∈ leafRules 0 q := by
    unfold leafRules
    rw [hcv]
    exact List.mem_map.2 ⟨kv, List.mem_filter.2 ⟨hkv, by simpa using hpos⟩, rfl⟩
  exact ⟨_, List.mem_flatMap.2 ⟨q, hq, hrule⟩, m, leafRules_matching hn h hl hinst hq hm _ hrule, hle⟩

section
variable {ent : List K → List C → K} {p : FDTParams K} {X : List (List (Cell K))} {y : List C} {t : BNode C K}

/-- the degree of a test is at least the degree of each set it lists -/
theorem bTestDegree_ge {row : List (Cell K)} {tst : BTest K} {m : K} (hm : BTestDegree row tst m) {k : Nat} (hk : k ∈ tst.idxs) {d : K}
    (hd : TestDegree row ⟨tst.var, tst.att, k⟩ d) : d ≤ m := by
  obtain ⟨ms, h1, rfl⟩ := hm
  generalize tst.idxs = l at h1 hk
  induction h1 with
  | nil => simp at hk
  | @cons i a l ms ha has ih =>
    have hnn : ∀ x ∈ ms, 0 ≤ x := fun x hx => by
      obtain ⟨j, -, hj⟩ := forall₂_mem_right has x hx
      exact (TestDegree.range hj).1
    rw [List.sum_cons]
    rcases List.mem_cons.1 hk with rfl | hk
    · rw [hd.unique ha]
      have := List.sum_nonneg hnn
      linarith
    · have := ih hk
      have := (TestDegree.range ha).1
      linarith

/-- choosing a set of each variable, some leaf lists the chosen set in all its tests -/
theorem bfitted_chosen [NanSort K] (hv : (p.vars.map FVar.name).Nodup) (hn : ∀ v ∈ p.vars, (v.sets.map FSet.name).Nodup)
    (h : fbdtFit ent p fbdtNew X y = .ok t) (k : Nat → Nat) (hk : ∀ i v, p.vars[i]? = some v → k i < v.sets.length) :
    ∀ (n : BNode C K) (path : List (BTest K)), (∀ q ∈ bNodePaths n, (path ++ q.1, q.2) ∈ bNodePaths t) →
      (∀ test ∈ path ++ n.test.toList, k test.att ∈ test.idxs) → ∃ q ∈ bLeafPaths n, ∀ test ∈ q.1, k test.att ∈ test.idxs := by
  intro n
  induction n using BNode.induction with
  | h test level m isLeaf cv children ih =>
    intro path hsub hact
    cases isLeaf with
    | true => exact ⟨(test.toList, cv), by simp [bLeafPaths], fun ts hts => hact ts (List.mem_append.2 (.inr hts))⟩
    | false =>
      have hself := hsub _ (bNodePaths_self _)
      obtain ⟨l, r, tl, tr, hc, htl, htr, hatt, hvar, -, -, hperm⟩ := C38_two_children ent p X y t h _ hself rfl
      have hperm := hperm hv hn
      simp only [BNode.children] at hc
      subst hc
      simp only [BNode.test] at hact hperm
      have hchild : ∀ c ∈ [l, r], ∀ q ∈ bNodePaths c, (path ++ test.toList ++ q.1, q.2) ∈ bNodePaths t := by
        intro c hc q hq
        have := hsub _ (bNodePaths_child (test := test) (level := level) (m := m) (cv := cv) hc hq)
        rwa [← List.append_assoc] at this
      have hdl := (C38_depth ent p X y t h _ (hchild l (by simp) _ (bNodePaths_self l))).2 tl (by simp [htl])
      have havail : k tl.att ∈ available p.vars (path ++ test.toList) tl.att := by
        unfold available
        split
        · rename_i tst hf
          have hm := List.mem_reverse.1 (List.mem_of_find?_eq_some hf)
          have he := List.find?_some hf
          simp only [decide_eq_true_eq] at he
          exact he ▸ hact tst hm
        · rw [hdl.1]
          exact List.mem_range.2 (hk _ _ hdl.1)
      have go : ∀ c tc, c ∈ [l, r] → c.test = some tc → k tc.att ∈ tc.idxs →
          ∃ q ∈ bLeafPaths (.mk test level m false cv [l, r]), ∀ test ∈ q.1, k test.att ∈ test.idxs := by
        intro c tc hc htc hin
        obtain ⟨q, hq, hall⟩ := ih c hc (path ++ test.toList) (hchild c hc) (by
          intro ts hts
          rcases List.mem_append.1 hts with hts | hts
          · exact hact ts hts
          · rw [htc] at hts
            simp only [Option.toList_some, List.mem_singleton] at hts
            subst hts
            exact hin)
        refine ⟨(test.toList ++ q.1, q.2), ?_, ?_⟩
        · simp only [bLeafPaths, Bool.false_eq_true, if_false, bLeafPathsList_eq]
          exact List.mem_map.2 ⟨q, List.mem_flatMap.2 ⟨c, hc, hq⟩, rfl⟩
        · intro ts hts
          rcases List.mem_append.1 hts with hts | hts
          · exact hact ts (List.mem_append.2 (.inr hts))
          · exact hall ts hts
      rcases List.mem_append.1 (hperm.mem_iff.2 havail) with hin | hin
      · exact go l tl (by simp) htl hin
      · exact go r tr (by simp) htr (hatt ▸ hin)

theorem bfitted_covered [NanSort K] (hv : (p.vars.map FVar.name).Nodup) (hn : ∀ v ∈ p.vars, (v.sets.map FSet.name).Nodup)
    (h : fbdtFit ent p fbdtNew X y = .ok t) {row : List (Cell K)} {d : K} (hd1 : d ≤ 1)
    (hrow : CoveredBy d p.vars row) (hwt : WellTyped p.vars row) : ∃ q ∈ bLeafPaths t, ∃ m, BLeafDegree min row q.1 m ∧ d ≤ m := by
  obtain ⟨-, -, -, hrt, -⟩ := fbdtFit_nodes h
  have hex : ∀ i, ∃ k, ∀ v, p.vars[i]? = some v → k < v.sets.length ∧ ∃ m, TestDegree row ⟨v, i, k⟩ m ∧ d ≤ m := by
    intro i
    cases hi : p.vars[i]? with
    | none => exact ⟨0, fun v hv => by cases hv⟩
    | some v =>
      obtain ⟨x, s, m, hx, hs, hm, hle⟩ := hrow i v hi
      obtain ⟨k, hk, rfl⟩ := List.mem_iff_getElem.1 hs
      refine ⟨k, fun v' hv' => ?_⟩
      cases hv'
      exact ⟨hk, m, ⟨_, x, List.getElem?_eq_getElem hk, hx, hm⟩, hle⟩
  choose k hk using hex
  obtain ⟨q, hq, hall⟩ := bfitted_chosen hv hn h k (fun i v hi => (hk i v hi).1) t [] (by simp) (by simp [hrt])
  obtain ⟨L, hL⟩ := bfitted_rowLeaves h min row hwt
  obtain ⟨q', -, -, ms, hms, he⟩ := forall₂_mem_left hL q hq
  refine ⟨q, hq, _, ⟨ms, hms, rfl⟩, foldl_min_ge (fun m hm => ?_) 1 hd1⟩
  obtain ⟨test, ht, htm⟩ := forall₂_mem_right hms m hm
  obtain ⟨-, m', hm', hle⟩ := hk test.att test.var (bfitted_tests h q hq test ht).1
  exact hle.trans (bTestDegree_ge htm (hall test ht) hm')

end

/-- C163 for the binary tree. -/
theorem C163_fbdt [NanSort K] (ent : List K → List C → K) (p : FDTParams K) (hv : (p.vars.map FVar.name).Nodup)
    (hn : ∀ v ∈ p.vars, (v.sets.map FSet.name).Nodup) (X : List (List (Cell K))) (y : List C) (t : BNode C K)
    (h : fbdtFit ent p fbdtNew X y = .ok t) (row : List (Cell K)) (hrow : RowInRange p.vars row) :
    (∃ q ∈ bLeafPaths t, ∃ m, BLeafDegree min row q.1 m ∧ 1 / 2 ≤ m) ∧
    (t.isLeaf = false → ∀ (simplify : Bool) (inst : Inst K), Teacher.Holds p.vars row inst →
      ∃ rs, fbdtToRules t false simplify = .ok rs ∧ ∃ r ∈ rs, ∃ m, r.matchingMulti inst = .ok m ∧ 1 / 2 ≤ m) := by
  have hsp := hrow.covered.2.subPartition
  have hc := bfitted_covered hv hn h (by norm_num) hrow.covered.1 hsp.wellTyped
  refine ⟨hc, fun hl simplify inst hinst => ?_⟩
  obtain ⟨q, hq, m, hm, hle⟩ := hc
  obtain ⟨L, hL⟩ := bfitted_rowLeaves h min row hsp.wellTyped
  obtain ⟨q', hq', hcv, -⟩ := forall₂_mem_left hL q hq
  obtain ⟨-, -, ⟨kv, hkv, hpos⟩, -⟩ := bfitted_rowLeaves_weights h hL q' hq'
  have hrule : (⟨q.1.map bClauseOf, kv.1, kv.2⟩ : Rule (List String) C K) ∈ bLeafRules 0 [] q := by
    unfold bLeafRules
    rw [hcv]
    exact List.mem_map.2 ⟨kv, List.mem_filter.2 ⟨hkv, by simpa using hpos⟩, rfl⟩
  have hmem := List.mem_flatMap.2 ⟨q, hq, hrule⟩
  have hmatch := bLeafRules_matching hn h hl row hsp inst hinst simplify q hq m hm _ hrule
  unfold fbdtToRules
  rw [bToRules_ok t _ simplify (bfitted_branching h) (bfitted_valid h)]
  cases simplify with
  | false => exact ⟨_, rfl, _, hmem, m, hmatch, hle⟩
  | true => exact ⟨_, rfl, _, List.mem_map_of_mem hmem, m, hmatch, hle⟩

end Teacher
