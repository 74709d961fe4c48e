import Verif.Props.ID3

/-! # ID3: the theorems about prediction, rules and training error (C42, C43, C44, C106) -/

namespace Teacher
set_option linter.unusedSectionVars false

variable {V C K : Type} [Field K] [LinearOrder K] [IsStrictOrderedRing K] [LinearOrder V] [LinearOrder C]

/-- **C42**: after a successful `ID3.fit` (on a new or on a fitted object), `predict` returns a class of the training set for every row
whose values all occur in the corresponding training columns. The hypothesis on the parameters: pruning with a positive threshold, as by
default, or a depth that does not exceed the number of features. -/
theorem C42_known (gain : List V → List C → List V → K) (hgain : Spec.GainOk gain) (ordC : List C → List C)
    (hC : Spec.IsSetListing ordC) (ordF : List String → List String) (hF : Spec.IsArrangement ordF) (p : ID3Params K)
    (hp : (p.prunning = true ∧ 0 < p.th) ∨ p.maxDepth ≤ p.features.dedup.length) (t t' : INode V C K) (rows : IRows V C)
    (h : id3FitWith gain ordC ordF p t rows = .ok t') (x : List V) (hx : Spec.KnownValues rows p.features.length x) :
    ∃ c ∈ Spec.labels rows, t'.predict x = .ok (.cls c) := by
  obtain ⟨fs, -, hs, -, hfit⟩ := id3FitWith_eq_ok hC hF h
  have hxl : p.features.length ≤ x.length := by
    by_contra hlt
    obtain ⟨v, hv, -⟩ := hx x.length (by omega)
    simp at hv
  rcases (hfit.toTree hgain hs hp (fun r hr => hr) (by simp) rfl).predict_spec hs x hxl with ⟨c, hc, h1, -⟩ | ⟨-, h2⟩
  · exact ⟨c, hc, h1⟩
  · exfalso
    obtain ⟨path, node, j, v, hmem, hl, hpass, hvar, hxj, hno⟩ := h2
    have hj : j < p.features.length := by
      have key : ∀ {depth rows} {t : INode V C K}, ITree p fs depth rows t → ∀ path node, (path, node) ∈ Spec.idNodes t →
          node.isLeaf = false → ∀ j, node.varIndex = some j → j < p.features.length := by
        intro depth rows t ht
        induction ht with
        | leaf depth rows t cv hm =>
          intro path node hmem hl
          rw [id3Leaf, idNodes_leaf, List.mem_singleton] at hmem
          cases hmem
          simp [INode.isLeaf] at hl
        | split depth rows cv nl i splits branches hm hi hfs hkeys hempty hrec ih =>
          intro path node hmem hl j hj
          rcases mem_idNodes_split.1 hmem with ⟨rfl, rfl⟩ | ⟨s', t', path', g1, g2, rfl⟩
          · simp only [INode.varIndex, Option.some.injEq] at hj
            omega
          · by_cases he : rowsWhere rows i s' = []
            · rw [hempty _ _ g1 he, emptyLeaf, idNodes_leaf, List.mem_singleton] at g2
              cases g2
              simp [INode.isLeaf] at hl
            · exact ih _ _ g1 he _ _ g2 hl j hj
      exact key (hfit.toTree hgain hs hp (fun r hr => hr) (by simp) rfl) path node hmem hl j hvar
    obtain ⟨v', hv', hr⟩ := hx j hj
    rw [hxj] at hv'
    cases hv'
    exact hno hr

/-- a combination of known values that is not a training row. -/
example : ∃ t, id3FitWith ID3Ex.gain List.dedup id ID3Ex.p .fresh ID3Ex.rows = .ok t ∧
    Spec.KnownValues ID3Ex.rows ID3Ex.p.features.length [0, 2] ∧ ∃ c ∈ Spec.labels ID3Ex.rows, t.predict [0, 2] = .ok (.cls c) := by
  obtain ⟨t, h, -⟩ := ID3Ex.fit_ok
  have hk : Spec.KnownValues ID3Ex.rows ID3Ex.p.features.length [0, 2] := by
    intro j hj
    have : j = 0 ∨ j = 1 := by simp [ID3Ex.p] at hj; omega
    rcases this with rfl | rfl
    · exact ⟨0, rfl, ([0, 0], 0), by decide, rfl⟩
    · exact ⟨2, rfl, ([1, 2], 0), by decide, rfl⟩
  exact ⟨t, h, hk, C42_known _ ID3Ex.gain_ok _ ID3Ex.arr_dedup _ ID3Ex.arr_id _ (.inl ⟨rfl, by norm_num [ID3Ex.p]⟩) _ _ _ h _ hk⟩

/-- **C42**: under the same conditions, for any row that is long enough `predict` returns a class of the training set or `None`; and it
returns `None` exactly when the row arrives at a node that tests a feature for which the value of the row does not occur in the training
column. -/
theorem C42_unknown (gain : List V → List C → List V → K) (hgain : Spec.GainOk gain) (ordC : List C → List C)
    (hC : Spec.IsSetListing ordC) (ordF : List String → List String) (hF : Spec.IsArrangement ordF) (p : ID3Params K)
    (hp : (p.prunning = true ∧ 0 < p.th) ∨ p.maxDepth ≤ p.features.dedup.length) (t t' : INode V C K) (rows : IRows V C)
    (h : id3FitWith gain ordC ordF p t rows = .ok t') (x : List V) (hx : p.features.length ≤ x.length) :
    ((∃ c ∈ Spec.labels rows, t'.predict x = .ok (.cls c)) ∨ t'.predict x = .ok .noneVal) ∧
    (t'.predict x = .ok .noneVal ↔ ∃ path node j v, (path, node) ∈ Spec.idNodes t' ∧ node.isLeaf = false ∧
      Spec.passes x path = true ∧ node.varIndex = some j ∧ x[j]? = some v ∧ ∀ r ∈ rows, r.1[j]? ≠ some v) := by
  obtain ⟨fs, -, hs, -, hfit⟩ := id3FitWith_eq_ok hC hF h
  rcases (hfit.toTree hgain hs hp (fun r hr => hr) (by simp) rfl).predict_spec hs x hx with ⟨c, hc, h1, h2⟩ | ⟨h1, h2⟩
  · refine ⟨.inl ⟨c, hc, h1⟩, ?_⟩
    constructor
    · intro hn; rw [h1] at hn; cases hn
    · rintro ⟨path, node, j, v, g1, g2, g3, g4, g5, g6⟩
      obtain ⟨r, hr, hrv⟩ := h2 path node j v g1 g2 g3 g4 g5
      exact absurd hrv (g6 r hr)
  · refine ⟨.inr h1, fun _ => ?_, fun _ => h1⟩
    obtain ⟨path, node, j, v, g1, g2, g3, g4, g5, g6⟩ := h2
    refine ⟨path, node, j, v, g1, g2, g3, g4, g5, ?_⟩
    intro r hr hrv
    exact g6 ⟨r, hr, hrv⟩

example : (id3FitWith ID3Ex.gain List.dedup id ID3Ex.p .fresh ID3Ex.rows).map (fun t => (t.predict [0, 2], t.predict [0, 7], t.predict [7, 0],
    t.predict [7, 1])) = .ok (.ok (.cls 0), .ok .noneVal, .ok .noneVal, .ok (.cls 0)) := by decide +kernel

/-- **C43**: the rules of a fitted tree (with different feature names) have weight 1, and for every row that is long enough: either
`predict` returns a class and exactly one rule is satisfied, whose consequent is that class; or `predict` returns `None` and no rule is
satisfied. -/
theorem C43_rules (gain : List V → List C → List V → K) (ordC : List C → List C) (hC : Spec.IsSetListing ordC)
    (ordF : List String → List String) (hF : Spec.IsArrangement ordF) (p : ID3Params K) (hnd : p.features.Nodup)
    (t t' : INode V C K) (rows : IRows V C) (h : id3FitWith gain ordC ordF p t rows = .ok t') :
    ∃ rules, t'.toRules p.features = .ok rules ∧ (∀ r ∈ rules, r.weight = 1) ∧
      ∀ x : List V, p.features.length ≤ x.length →
        (∃ c, t'.predict x = .ok (.cls c) ∧
          (rules.filter (fun r => Spec.satisfies p.features x r.antecedent)).map Rule.consequent = [some c]) ∨
        (t'.predict x = .ok .noneVal ∧ rules.filter (fun r => Spec.satisfies p.features x r.antecedent) = []) := by
  obtain ⟨fs, hne, hs, -, hfit⟩ := id3FitWith_eq_ok hC hF h
  -- a row long enough exists
  obtain ⟨r0, rest, hr0⟩ := List.exists_cons_of_ne_nil hne
  obtain ⟨L0, e0, -⟩ := hfit.rules_spec hs hnd r0.1 (hs.wide r0 (by simp [hr0])) []
  simp only [List.nil_append, Prod.mk.eta, List.map_id'] at e0
  refine ⟨L0.map (fun p => ⟨p.1, p.2, 1⟩), ?_, ?_, ?_⟩
  · simp [INode.toRules, e0]
  · intro r hr
    obtain ⟨q, -, rfl⟩ := List.mem_map.1 hr
    rfl
  · intro x hx
    obtain ⟨L, e1, e2⟩ := hfit.rules_spec hs hnd x hx []
    simp only [List.nil_append, Prod.mk.eta, List.map_id'] at e1
    rw [e0] at e1
    cases e1
    have hfil : (L0.map (fun p => (⟨p.1, p.2, 1⟩ : Rule V (Option C) K))).filter (fun r => Spec.satisfies p.features x r.antecedent)
        = (L0.filter (fun q => Spec.satisfies p.features x q.1)).map (fun p => ⟨p.1, p.2, 1⟩) := by
      rw [List.filter_map]; rfl
    rw [hfil]
    rcases e2 with ⟨c, h1, h2⟩ | ⟨h1, h2⟩
    · left
      refine ⟨c, h1, ?_⟩
      rw [List.map_map]
      exact h2
    · right
      exact ⟨h1, by rw [h2]; rfl⟩

example : ID3Ex.p.features.Nodup ∧ (id3FitWith ID3Ex.gain List.dedup id ID3Ex.p .fresh ID3Ex.rows).map (fun t => (t.toRules ["a", "b"]).map
    (fun rs => rs.map (fun r => (r.antecedent, r.consequent)))) = .ok (.ok [([("b", 0), ("a", 0)], some 0), ([("b", 0), ("a", 1)], some 1),
      ([("b", 1)], some 0), ([("b", 2)], some 0)]) := by decide +kernel

/-- **C44**: after a successful fit, the attribute `error` of the root is the fraction of training rows that the tree misclassifies. -/
theorem C44_error (gain : List V → List C → List V → K) (hgain : Spec.GainOk gain) (ordC : List C → List C)
    (hC : Spec.IsSetListing ordC) (ordF : List String → List String) (hF : Spec.IsArrangement ordF) (p : ID3Params K)
    (hp : (p.prunning = true ∧ 0 < p.th) ∨ p.maxDepth ≤ p.features.dedup.length) (t t' : INode V C K) (rows : IRows V C)
    (h : id3FitWith gain ordC ordF p t rows = .ok t') :
    t'.error = (Spec.mistakes t' rows : K) / (rows.length : K) := by
  obtain ⟨fs, hne, hs, -, hfit⟩ := id3FitWith_eq_ok hC hF h
  have hl : (rows.length : K) ≠ 0 := by
    have := List.length_pos_of_ne_nil hne
    exact_mod_cast this.ne'
  rw [eq_div_iff hl]
  exact ((hfit.toTree hgain hs hp (fun r hr => hr) (by simp) rfl).error_spec hs (fun r hr => hr)).1

/-- a tree with an error: the split is pruned. -/
example : (id3FitWith ID3Ex.gain List.dedup id ⟨["a", "b"], 1/10, 1, 1, true⟩ .fresh ID3Ex.rows).map (fun t => (t.error, Spec.mistakes t ID3Ex.rows,
    t.isLeaf)) = .ok (1/5, 1, true) := by decide +kernel

/-- a tree with an error at depth 1. -/
example : (id3FitWith ID3Ex.gain List.dedup id ⟨["a"], 1/10, 1, 1, true⟩ .fresh
      [([0],0),([0],0),([0],1),([1],1),([1],1)]).map (fun t => (t.error, Spec.mistakes t [([0],0),([0],0),([0],1),([1],1),([1],1)],
    t.isLeaf)) = .ok (1/5, 1, false) := by decide +kernel

/-- **C106**: the fitted tree makes on the training rows at most as many mistakes as answering any fixed class. -/
theorem C106_majority (gain : List V → List C → List V → K) (hgain : Spec.GainOk gain) (ordC : List C → List C)
    (hC : Spec.IsSetListing ordC) (ordF : List String → List String) (hF : Spec.IsArrangement ordF) (p : ID3Params K)
    (hp : (p.prunning = true ∧ 0 < p.th) ∨ p.maxDepth ≤ p.features.dedup.length) (t t' : INode V C K) (rows : IRows V C)
    (h : id3FitWith gain ordC ordF p t rows = .ok t') (c : C) :
    Spec.mistakes t' rows ≤ (Spec.labels rows).countP (fun l => l ≠ c) := by
  obtain ⟨fs, hne, hs, -, hfit⟩ := id3FitWith_eq_ok hC hF h
  have := ((hfit.toTree hgain hs hp (fun r hr => hr) (by simp) rfl).error_spec hs (fun r hr => hr)).2 c
  have hc : (Spec.labels rows).count c + (Spec.labels rows).countP (fun l => l ≠ c) = rows.length := by
    have h1 := List.length_eq_countP_add_countP (fun l => l == c) (l := Spec.labels rows)
    have h2 : (Spec.labels rows).length = rows.length := by simp [Spec.labels]
    have h3 : (Spec.labels rows).countP (fun l => l ≠ c) = (Spec.labels rows).countP (fun a => ¬ (a == c) = true) := by
      apply List.countP_congr
      intro l _
      simp
    rw [h3, List.count]
    omega
  have : Spec.mistakes t' rows + (Spec.labels rows).count c ≤ rows.length := this
  omega

example : ∃ t, id3FitWith ID3Ex.gain List.dedup id ID3Ex.p .fresh ID3Ex.rows = .ok t ∧ Spec.mistakes t ID3Ex.rows ≤ 1 := by
  obtain ⟨t, h, -⟩ := ID3Ex.fit_ok
  exact ⟨t, h, C106_majority _ ID3Ex.gain_ok _ ID3Ex.arr_dedup _ ID3Ex.arr_id _ (.inl ⟨rfl, by norm_num [ID3Ex.p]⟩) _ _ _ h 0⟩

/-- **C44**: the score of the fitted tree on its training set is `1 - error`. -/
theorem C44_score (gain : List V → List C → List V → K) (hgain : Spec.GainOk gain) (ordC : List C → List C)
    (hC : Spec.IsSetListing ordC) (ordF : List String → List String) (hF : Spec.IsArrangement ordF) (p : ID3Params K)
    (hp : (p.prunning = true ∧ 0 < p.th) ∨ p.maxDepth ≤ p.features.dedup.length) (t t' : INode V C K) (rows : IRows V C)
    (m : Nat) (hm : 0 < m) (hrect : ∀ r ∈ rows, r.1.length = m)
    (h : id3FitWith gain ordC ordF p t rows = .ok t') : id3Score t' rows = .ok (1 - t'.error) := by
  have herr := C44_error gain hgain ordC hC ordF hF p hp t t' rows h
  obtain ⟨fs, hne, hs, -, hfit⟩ := id3FitWith_eq_ok hC hF h
  have htree := hfit.toTree hgain hs hp (fun r hr => hr) (by simp) rfl
  have hl : (rows.length : K) ≠ 0 := by
    have := List.length_pos_of_ne_nil hne
    exact_mod_cast this.ne'
  have hcheck : checkArray (rows.map Prod.fst) = .ok () := by
    obtain ⟨r0, rest, rfl⟩ := List.exists_cons_of_ne_nil hne
    simp only [checkArray, List.map_cons]
    rw [if_neg]
    rintro (h0 | ⟨r', hr', hne'⟩)
    · have := hrect r0 (by simp); omega
    · obtain ⟨q, hq, rfl⟩ := List.mem_map.1 hr'
      have h1 := hrect r0 (by simp)
      have h2 := hrect q (by simp [hq])
      exact hne' (by rw [h1, h2])
  have hpred : ∀ r ∈ rows, ∃ o, t'.predict r.1 = .ok o := by
    intro r hr
    rcases htree.predict_spec hs r.1 (hs.wide r hr) with ⟨c, -, h1, -⟩ | ⟨h1, -⟩
    · exact ⟨_, h1⟩
    · exact ⟨_, h1⟩
  obtain ⟨ps, hps⟩ := forall₂_of_forall_exists (fun (r : List V × C) o => t'.predict r.1 = .ok o) rows hpred
  have hmap : (rows.map Prod.fst).mapM (fun x => t'.predict x) = .ok ps := by
    rw [mapM_ok_iff, List.forall₂_map_left_iff]
    exact hps
  have hcount : (ps.zip (rows.map Prod.snd)).countP (fun q => q.1 = .cls q.2) + Spec.mistakes t' rows = rows.length := by
    clear hcheck hmap herr hl htree hfit hs hne h hpred hrect
    unfold Spec.mistakes
    induction hps with
    | nil => rfl
    | @cons r o rows ps h1 _ ih =>
      simp only [List.map_cons, List.zip_cons_cons, List.countP_cons, List.length_cons, h1]
      generalize List.countP _ (ps.zip _) = a at ih ⊢
      generalize List.countP _ rows = b at ih ⊢
      cases o with
      | cls c =>
        by_cases hc : c = r.2
        · simp [hc]; omega
        · simp [hc]; omega
      | minusOne => simp; omega
      | noneVal => simp; omega
  have hcK : ((ps.zip (rows.map Prod.snd)).countP (fun q => q.1 = .cls q.2) : K) + (Spec.mistakes t' rows : K) = (rows.length : K) := by
    exact_mod_cast hcount
  simp only [id3Score, id3Predict, hcheck, hmap, py_bind_ok, npDiv, if_neg hl, Except.ok.injEq]
  rw [herr]
  field_simp
  linarith

example : (id3FitWith ID3Ex.gain List.dedup id ⟨["a"], 1/10, 1, 1, true⟩ .fresh [([0],0),([0],0),([0],1),([1],1),([1],1)]).map (fun t =>
    id3Score t [([0],0),([0],0),([0],1),([1],1),([1],1)]) = .ok (.ok (4/5)) := by decide +kernel

end Teacher
