import Verif.Props.RoundedFlow
import Verif.Props.RoundedBNear

/-! # C207: rows are not lost by binary trees fitted in floating point -/

set_option linter.unusedSectionVars false

namespace Teacher
open Spec FB

variable {C K : Type} [LinearOrder C] [Field K] [LinearOrder K] [IsStrictOrderedRing K] {A : Arith K} {u η : K}

theorem fbdtFitF_root [NanSort K] (hA : Lawful A u η) {ent : List K → List C → K} {p : FDTParams K} {X : List (List (Cell K))} {y : List C}
    {t : BNode C K} (h : fbdtFitF A ent p fbdtNew X y = .ok t) : t.test = none := by
  unfold fbdtFitF at h
  obtain ⟨cats, -, h1⟩ := py_bind_eq_ok.1 h
  obtain ⟨_, hX, h2⟩ := py_bind_eq_ok.1 h1
  obtain ⟨n, -, hne, -⟩ := (checkArray_ok_iff X).1 hX
  split at h2
  · cases h2
  · rename_i hlen
    have hlen' := not_not.1 hlen
    obtain ⟨Xm, hXm, h3⟩ := py_bind_eq_ok.1 h2
    obtain ⟨⟨t', heap⟩, h4, h5⟩ := py_bind_eq_ok.1 h3
    cases h5
    have hT := tableF_table hXm hlen'
    have hy : y ≠ [] := by
      intro e
      rw [e] at hlen'
      exact hne (List.length_eq_zero_iff.1 hlen')
    obtain ⟨g1, g2, -, -⟩ := growF_grown hT _ _ _ _ _ _ t heap [] (y.map (fun _ => 1))
      ⟨fun a ha => by simp at ha, fun f r hf => by simp at hf, fun f => by simp⟩ (Dict.nodup_keys_ofPairs _) rfl (sumF_ones_pos hA hy) h4
    exact g2

section
variable {ent : List K → List C → K} {p : FDTParams K} {X : List (List (Cell K))} {y : List C} {t : BNode C K}

/-- choosing a set of each variable, some leaf lists the chosen set in all its tests -/
theorem bfittedF_chosen [NanSort K] (hA : Lawful A u η) (hv : (p.vars.map FVar.name).Nodup) (hn : ∀ v ∈ p.vars, (v.sets.map FSet.name).Nodup)
    (hfv : ∀ v ∈ p.vars, FloatVar A v) (hXf : FloatTable A X)
    (h : fbdtFitF A ent p fbdtNew X y = .ok t) (k : Nat → Nat) (hk : ∀ i v, p.vars[i]? = some v → k i < v.sets.length) :
    ∀ (n : BNode C K) (path : List (BTest K)), (∀ q ∈ bNodePaths n, (path ++ q.1, q.2) ∈ bNodePaths t) →
      (∀ test ∈ path ++ n.test.toList, k test.att ∈ test.idxs) → ∃ q ∈ bLeafPaths n, ∀ test ∈ q.1, k test.att ∈ test.idxs := by
  intro n
  induction n using BNode.induction with
  | h test level m isLeaf cv children ih =>
    intro path hsub hact
    cases isLeaf with
    | true => exact ⟨(test.toList, cv), by simp [bLeafPaths], fun ts hts => hact ts (List.mem_append.2 (.inr hts))⟩
    | false =>
      have hself := hsub _ (bNodePaths_self _)
      obtain ⟨l, r, tl, tr, hc, htl, htr, hatt, hvar, -, -, hperm⟩ := C173_two_children hA ent p X y t h _ hself rfl
      have hperm := hperm hv hn
      simp only [BNode.children] at hc
      subst hc
      simp only [BNode.test] at hact hperm
      have hchild : ∀ c ∈ [l, r], ∀ q ∈ bNodePaths c, (path ++ test.toList ++ q.1, q.2) ∈ bNodePaths t := by
        intro c hc q hq
        have := hsub _ (bNodePaths_child (test := test) (level := level) (m := m) (cv := cv) hc hq)
        rwa [← List.append_assoc] at this
      have hdl := (C173_nodes hA ent p hn hfv X hXf y t h _ (hchild l (by simp) _ (bNodePaths_self l))).2.1 tl (by simp [htl])
      have havail : k tl.att ∈ available p.vars (path ++ test.toList) tl.att := by
        unfold available
        split
        · rename_i tst hf
          have hm := List.mem_reverse.1 (List.mem_of_find?_eq_some hf)
          have he := List.find?_some hf
          simp only [decide_eq_true_eq] at he
          exact he ▸ hact tst hm
        · rw [hdl.1]
          exact List.mem_range.2 (hk _ _ hdl.1)
      have go : ∀ c tc, c ∈ [l, r] → c.test = some tc → k tc.att ∈ tc.idxs →
          ∃ q ∈ bLeafPaths (.mk test level m false cv [l, r]), ∀ test ∈ q.1, k test.att ∈ test.idxs := by
        intro c tc hc htc hin
        obtain ⟨q, hq, hall⟩ := ih c hc (path ++ test.toList) (hchild c hc) (by
          intro ts hts
          rcases List.mem_append.1 hts with hts | hts
          · exact hact ts hts
          · rw [htc] at hts
            simp only [Option.toList_some, List.mem_singleton] at hts
            subst hts
            exact hin)
        refine ⟨(test.toList ++ q.1, q.2), ?_, ?_⟩
        · simp only [bLeafPaths, Bool.false_eq_true, if_false, bLeafPathsList_eq]
          exact List.mem_map.2 ⟨q, List.mem_flatMap.2 ⟨c, hc, hq⟩, rfl⟩
        · intro ts hts
          rcases List.mem_append.1 hts with hts | hts
          · exact hact ts (List.mem_append.2 (.inr hts))
          · exact hall ts hts
      rcases List.mem_append.1 (hperm.mem_iff.2 havail) with hin | hin
      · exact go l tl (by simp) htl hin
      · exact go r tr (by simp) htr (hatt ▸ hin)

/-- a sum of degrees, added from left to right with roundings, is at least each of them. -/
theorem leftSum_ge_mem (hA : Lawful A u η) {ms : List K} (h : ∀ m ∈ ms, A.fl m = m ∧ 0 ≤ m) {m : K} (hm : m ∈ ms) : m ≤ leftSum A.fl ms := by
  have := C200_left_sum hA ms [m] (List.singleton_sublist.2 hm) h
  have e : leftSum A.fl [m] = m := by simp [leftSum, (h m hm).1]
  have h2 : leftSum A.fl [m] ≤ leftSum A.fl ms := this
  rwa [e] at h2

/-- **C207**: in floating point a row in the range of the fuzzy variables reaches some leaf of a binary tree fitted in floating point, with a
computed degree of at least 1/2 minus the error of one degree, however deep the tree is. -/
theorem C207_fbdt [NanSort K] (hA : Lawful A u η) (ent : List K → List C → K) (p : FDTParams K) (hnames : (p.vars.map FVar.name).Nodup)
    (hn : ∀ v ∈ p.vars, (v.sets.map FSet.name).Nodup) (hv : ∀ v ∈ p.vars, FloatVar A v)
    (X : List (List (Cell K))) (hXf : FloatTable A X) (y : List C) (t : BNode C K) (h : fbdtFitF A ent p fbdtNew X y = .ok t)
    (row : List (Cell K)) (hrf : ∀ x, Cell.num x ∈ row → IsFloat A x) (hrow : RowInRange p.vars row) :
    ∃ q ∈ bLeafPaths t, ∃ m, BLeafDegreeF A row q.1 m ∧ 1 / 2 - degreeError u η ≤ m := by
  have hE := degreeError_nonneg hA
  -- the computed degrees exist and are near the exact ones
  have hdeg : ∀ (i : Nat) v, p.vars[i]? = some v → ∀ k, k < v.sets.length → ∃ m m', TestDegree row ⟨v, i, k⟩ m ∧
      TestDegreeF A row ⟨v, i, k⟩ m' ∧ NearDeg (degreeError u η) m m' ∧ IsFloat A m' := by
    intro i v hi k hk
    obtain ⟨x, hx, hin⟩ := hrow i v hi
    obtain ⟨ms, hms, -⟩ := hin.strong.1
    obtain ⟨m, -, hm⟩ := forall₂_mem_left hms v.sets[k] (List.getElem_mem hk)
    have hfv := hv v (List.mem_of_getElem? hi)
    have hfl : ∀ c, v.sets[k] = FSet.cont c → FloatSet A c := fun c hc => hfv c (by rw [← hc]; exact List.getElem_mem hk)
    have hxf : ∀ z, x = Cell.num z → IsFloat A z := fun z hz => hrf z (by rw [← hz]; exact List.mem_of_getElem? hx)
    obtain ⟨ms', k1, k2⟩ := FSet.membershipF_near hA (s := v.sets[k]) hfl
      (v := [x]) (fun z hz => hxf z (List.mem_singleton.1 hz).symm) hm
    cases k2 with
    | @cons _ m' _ _ k3 k4 =>
      cases k4
      exact ⟨m, m', ⟨_, x, List.getElem?_eq_getElem hk, hx, hm⟩, ⟨_, x, List.getElem?_eq_getElem hk, hx, k1⟩, k3,
        (FSet.membershipF_range hA hfl hxf k1).2.2⟩
  have hex : ∀ i, ∃ k, ∀ v, p.vars[i]? = some v → k < v.sets.length ∧ ∃ m, TestDegree row ⟨v, i, k⟩ m ∧ 1 / 2 ≤ m := by
    intro i
    cases hi : p.vars[i]? with
    | none => exact ⟨0, fun v hv => by cases hv⟩
    | some v =>
      obtain ⟨x, s, m, hx, hs, hm, hle⟩ := hrow.covered.1 i v hi
      obtain ⟨k, hk, rfl⟩ := List.mem_iff_getElem.1 hs
      refine ⟨k, fun v' hv' => ?_⟩
      cases hv'
      exact ⟨hk, m, ⟨_, x, List.getElem?_eq_getElem hk, hx, hm⟩, hle⟩
  choose k hk using hex
  obtain ⟨q, hq, hall⟩ := bfittedF_chosen hA hnames hn hv hXf h k (fun i v hi => (hk i v hi).1) t [] (by simp)
    (by simp [fbdtFitF_root hA h])
  obtain ⟨n, hn', -⟩ := (bLeafPaths_iff t q).1 hq
  have htests := (C173_nodes hA ent p hn hv X hXf y t h _ hn').2.1
  have hF : ∀ test ∈ q.1, ∃ m, BTestDegreeF A row test m ∧ 1 / 2 - degreeError u η ≤ m := by
    intro test ht
    obtain ⟨h1, -, h3⟩ := htests test ht
    obtain ⟨ms, hms⟩ := forall₂_of_forall_exists (l := test.idxs)
      (R := fun i m => TestDegreeF A row ⟨test.var, test.att, i⟩ m ∧ IsFloat A m ∧ 0 ≤ m) (by
        intro i hi
        obtain ⟨m, m', -, g2, g3, g4⟩ := hdeg _ _ h1 i (h3 i hi)
        exact ⟨m', g2, g4, g3.2.2.1⟩)
    refine ⟨_, ⟨ms, hms.imp (fun _ _ h => h.1), rfl⟩, ?_⟩
    obtain ⟨m', hm', g1, -⟩ := forall₂_mem_left hms _ (hall test ht)
    obtain ⟨g2, m, g3, g4⟩ := hk test.att test.var h1
    have near := testDegreeF_near hA hrf (hv _ (List.mem_of_getElem? h1)) g3 g1
    have h5 := (abs_le.1 near.2.2.2.2).1
    have h6 := leftSum_ge_mem hA (fun m hm => by
      obtain ⟨_, -, g⟩ := forall₂_mem_right hms m hm
      exact ⟨g.2.1, g.2.2⟩) hm'
    linarith
  obtain ⟨ms, hms⟩ := forall₂_of_forall_exists (l := q.1) (R := fun t m => BTestDegreeF A row t m ∧ 1 / 2 - degreeError u η ≤ m) hF
  refine ⟨q, hq, _, ⟨ms, hms.imp (fun _ _ h => h.1), rfl⟩, foldl_min_ge (fun m hm => ?_) 1 (by linarith)⟩
  obtain ⟨_, -, h⟩ := forall₂_mem_right hms m hm
  exact h.2

end

/-- **C207**, end to end: training a binary tree on the variables made by entropy discretisation, everything in floating point. -/
theorem C207_training [NanSort K] (hA : Lawful A u η) (lg : K → K) (entD : Bool → List K → List C → Py K) (th : Option K) (depth : Nat)
    (fmt : K → String) (hfmt : ∀ a b, IsFloat A a → IsFloat A b → fmt a = fmt b → a = b) (rows : List (List K)) (y : List C)
    (hR : Rectangular rows) (hlen : rows.length = y.length) (hf : ∀ r ∈ rows, ∀ x ∈ r, IsFloat A x) (htop : TopTwice rows)
    (ent : List K → List C → K) (p : FDTParams K) (hth : 0 < p.fuzzyThreshold) (hnames : (p.vars.map FVar.name).Nodup)
    (hvars : ∀ (i : Nat) v, p.vars[i]? = some v → EntropyVar A lg entD th depth fmt rows y i v) :
    ∃ t, fbdtFitF A ent p fbdtNew (rows.map (fun r => r.map .num)) y = .ok t ∧
      ∀ r ∈ rows, ∃ q ∈ bLeafPaths t, ∃ m, BLeafDegreeF A (r.map .num) q.1 m ∧ 1 / 2 - degreeError u η ≤ m := by
  have hfacts := fun i v hv => entropyVar_facts hA hfmt hlen hf htop (hvars i v hv)
  have hrange : ∀ r ∈ rows, RowInRange p.vars (r.map .num) := by
    intro r hr i v hv
    obtain ⟨-, -, h⟩ := hfacts i v hv
    obtain ⟨x, hx, hin⟩ := h r hr
    exact ⟨.num x, by simp [hx], hin⟩
  have hXf : FloatTable A (rows.map (fun r => r.map .num)) := by
    intro row hrow x hx
    obtain ⟨r, hr, rfl⟩ := List.mem_map.1 hrow
    obtain ⟨z, hz, e⟩ := List.mem_map.1 hx
    cases e
    exact hf r hr _ hz
  have hRect : Rectangular (rows.map (fun r => r.map (Cell.num (K := K)))) := by
    obtain ⟨n, h1, h2, h3⟩ := hR
    refine ⟨n, h1, by simpa using h2, ?_⟩
    intro row hrow
    obtain ⟨r, hr, rfl⟩ := List.mem_map.1 hrow
    simpa using h3 r hr
  have hidx : ∀ v ∈ p.vars, ∃ i : Nat, p.vars[i]? = some v := fun v hv => List.mem_iff_getElem?.1 hv
  have hrne : rows ≠ [] := by obtain ⟨_, _, h, _⟩ := hR; exact h
  obtain ⟨t, ht⟩ := C173_fit_succeeds hA ent p hth fbdtNew (rows.map (fun r => r.map .num)) y hRect (by simpa using hlen) hnames
    (by
      intro v hv
      obtain ⟨i, hi⟩ := hidx v hv
      obtain ⟨r, hr⟩ := List.exists_mem_of_ne_nil _ hrne
      obtain ⟨x, -, hin⟩ := hrange r hr i v hi
      obtain ⟨s, hs, -⟩ := hin.strong.2
      exact List.ne_nil_of_mem hs)
    (by
      intro i v hv row hrow
      obtain ⟨r, hr, rfl⟩ := List.mem_map.1 hrow
      obtain ⟨x, hx, hin⟩ := hrange r hr i v hv
      refine ⟨x, hx, ?_⟩
      obtain ⟨ms, hms, -⟩ := hin.strong.1
      intro s hs
      obtain ⟨m, -, hm⟩ := forall₂_mem_left hms s hs
      exact ⟨m, hm⟩)
  refine ⟨t, ht, ?_⟩
  intro r hr
  refine C207_fbdt hA ent p hnames ?_ ?_ _ hXf y t ht _ ?_ (hrange r hr)
  · intro v hv
    obtain ⟨i, hi⟩ := hidx v hv
    exact (hfacts i v hi).2.1
  · intro v hv
    obtain ⟨i, hi⟩ := hidx v hv
    exact (hfacts i v hi).1
  · exact hXf _ (List.mem_map_of_mem hr)

/-- the hypotheses of C207 are met by a table of doubles with two columns. -/
example [NanSort ℚ] : ∃ vars : List (FVar ℚ), vars.map FVar.name = ["a", "b"] ∧
    ∃ t, fbdtFitF binary64 (fun _ _ => 1) ⟨vars, 1 / 1000, 5, 2⟩ fbdtNew (exFlow.map (fun r => r.map .num)) [0, 0, 1, 1] = .ok t ∧
      ∀ r ∈ exFlow, ∃ q ∈ bLeafPaths t, ∃ m, BLeafDegreeF binary64 (r.map .num) q.1 m ∧
        1 / 2 - degreeError (2 ^ (-53 : ℤ)) (2 ^ (-1075 : ℤ)) ≤ m := by
  obtain ⟨vars, h1, h2, -⟩ := C206_binary64 exLg (entDbl exLg) (fun _ => Or.inl fun _ _ => rfl) none 0 exFmt (fun a b _ _ => exFmt_inj a b)
    exFlow [0, 0, 1, 1] ["a", "b"]
    (by simp [exFlow]) (by simp) (by decide +kernel) rfl (by unfold IsFloat; decide +kernel) exFlow_top (by simp [exFlow])
    (by intro i col h
        rcases exFlow_cols i col h with rfl | rfl <;> decide +kernel)
    (fun _ _ => 1) id (fun l => List.Perm.refl l) (1 / 1000) (by norm_num) 5 2
  refine ⟨vars, h1, ?_⟩
  exact C207_training binary64_lawful exLg (entDbl exLg) none 0 exFmt (fun a b _ _ => exFmt_inj a b) exFlow [0, 0, 1, 1]
    ⟨2, by norm_num, by simp [exFlow], by decide +kernel⟩ rfl (by unfold IsFloat; decide +kernel) exFlow_top
    (fun _ _ => 1) ⟨vars, 1 / 1000, 5, 2⟩ (by norm_num) (by simp [h1]) h2

end Teacher
