import Verif.Props.ID3Predict

/-! # ID3: structure of a fitted tree and success of `fit` (C44 leaves, C45, C46, C104, C107, C108) -/

namespace Teacher
set_option linter.unusedSectionVars false

section
variable {V C K : Type} [Field K] [LinearOrder K] [IsStrictOrderedRing K] [DecidableEq V] [DecidableEq C]

/-- every visible node of a fitted tree is a fitted tree for the rows that reach it, or a leaf for a value without rows. -/
theorem IFitted.node {nl0 : Nat} {gain : List V → List C → List V → K} {p : ID3Params K} {fs : List (List V)}
    {depth : Nat} {erased : List String} {rows : IRows V C} {t : INode V C K} (h : IFitted gain p fs nl0 depth erased rows t)
    (hnd : erased.Nodup) (path : List (Option Nat × V)) (node : INode V C K) (hmem : (path, node) ∈ Spec.idNodes t) :
    (path = [] ∨ depth + path.length ≤ p.maxDepth) ∧
    ∃ names, List.Forall₂ (fun q name => ∃ i, q.1 = some i ∧ Dict.get? (featuresDic p.features) name = some i) path names ∧
      (erased ++ names).Nodup ∧
      (IFitted gain p fs nl0 (depth + path.length) (erased ++ names) (Spec.reaching rows path) node ∨
        ∃ pre last cv, path = pre ++ [last] ∧ Spec.reaching rows path = [] ∧ node = emptyLeaf cv (depth + pre.length) ∧
          Spec.IsMode ((Spec.reaching rows pre).map Prod.snd) cv) := by
  induction h generalizing path with
  | leaf depth erased rows t cv hm =>
    rw [id3Leaf, idNodes_leaf, List.mem_singleton] at hmem
    cases hmem
    refine ⟨.inl rfl, [], .nil, by simpa using hnd, .inl ?_⟩
    rw [reaching_nil, List.append_nil]
    exact .leaf _ _ _ _ _ hm
  | dead depth erased rows cv nl hm hd hg hnp hne =>
    rcases mem_idNodes_split.1 hmem with ⟨rfl, rfl⟩ | ⟨s', t', path', g1, g2, rfl⟩
    · refine ⟨.inl rfl, [], .nil, by simpa using hnd, .inl ?_⟩
      rw [reaching_nil, List.append_nil]
      exact .dead _ _ _ _ _ hm hd hg hnp hne
    · cases g1
  | split depth erased rows cv nl i name col splits g branches hm hd hn hname her hg hmax hprune hnl hnz hkeys hempty hrec ih =>
    rcases mem_idNodes_split.1 hmem with ⟨rfl, rfl⟩ | ⟨s', t', path', g1, g2, rfl⟩
    · refine ⟨.inl rfl, [], .nil, by simpa using hnd, .inl ?_⟩
      rw [reaching_nil, List.append_nil]
      exact .split _ _ _ _ _ _ _ _ _ _ _ hm hd hn hname her hg hmax hprune hnl hnz hkeys hempty hrec
    · have hnd' : (erased ++ [name]).Nodup := by
        rw [List.nodup_append]
        refine ⟨hnd, by simp, ?_⟩
        intro a ha b hb
        rw [List.mem_singleton] at hb
        subst hb
        rintro rfl
        exact her ha
      by_cases he : rowsWhere rows i s' = []
      · rw [hempty _ _ g1 he, emptyLeaf, idNodes_leaf, List.mem_singleton] at g2
        cases g2
        refine ⟨.inr (by simp only [List.length_cons, List.length_nil]; omega), [name], .cons ⟨i, rfl, hg.1⟩ .nil, hnd', .inr ?_⟩
        refine ⟨[], (some i, s'), cv, rfl, ?_, rfl, ?_⟩
        · rw [reaching_cons, he]; rfl
        · rw [reaching_nil]; exact hm
      · obtain ⟨h1, names, h2, h3, h4⟩ := ih _ _ g1 he hnd' path' g2
        rw [List.append_assoc] at h3 h4
        refine ⟨.inr ?_, name :: names, .cons ⟨i, rfl, hg.1⟩ h2, h3, ?_⟩
        · rw [List.length_cons]
          rcases h1 with rfl | h1
          · simp only [List.length_nil]; omega
          · omega
        · rw [reaching_cons]
          rcases h4 with h4 | ⟨pre, last, cv', e1, e2, e3, e4⟩
          · left
            have : depth + ((some i, s') :: path').length = depth + 1 + path'.length := by rw [List.length_cons]; omega
            rw [this]
            exact h4
          · right
            refine ⟨(some i, s') :: pre, last, cv', by rw [e1]; rfl, e2, ?_, by rw [reaching_cons]; exact e4⟩
            rw [e3, List.length_cons]
            congr 1
            omega

theorem IFitted.level {nl0 : Nat} {gain : List V → List C → List V → K} {p : ID3Params K} {fs : List (List V)}
    {depth : Nat} {erased : List String} {rows : IRows V C} {t : INode V C K} (h : IFitted gain p fs nl0 depth erased rows t) :
    t.level = depth := by
  cases h <;> rfl

theorem IFitted.leaf_class {nl0 : Nat} {gain : List V → List C → List V → K} {p : ID3Params K} {fs : List (List V)}
    {depth : Nat} {erased : List String} {rows : IRows V C} {t : INode V C K} (h : IFitted gain p fs nl0 depth erased rows t) :
    ∃ cv, t.classValue = some cv ∧ Spec.IsMode (rows.map Prod.snd) cv ∧
      t.classCount = (rows.length, (rows.map Prod.snd).count cv) := by
  cases h with
  | leaf _ _ _ t cv hm => exact ⟨cv, rfl, hm, rfl⟩
  | dead _ _ _ cv nl hm => exact ⟨cv, rfl, hm, rfl⟩
  | split _ _ _ cv nl i name col splits g branches hm => exact ⟨cv, rfl, hm, rfl⟩

theorem featuresDic_nodup {features : List String} (hnd : features.Nodup) {i : Nat} {f : String} (h : features[i]? = some f) :
    Dict.get? (featuresDic features) f = some i := by
  obtain ⟨j, hj⟩ := featuresDic_isSome (List.mem_of_getElem? h)
  have := featuresDic_get hj
  rw [hj]
  congr 1
  obtain ⟨h1, rfl⟩ := List.getElem?_eq_some_iff.1 h
  obtain ⟨h2, h3⟩ := List.getElem?_eq_some_iff.1 this
  exact (hnd.getElem_inj_iff).1 h3

theorem column_eq_colOf {rows : IRows V C} {i : Nat} {col : List V} (h : column (rows.map Prod.fst) i = .ok col) :
    col = Spec.colOf rows i := by
  have hF := (column_eq_ok_iff _ _ _).1 h
  rw [List.forall₂_map_left_iff] at hF
  have key : ∀ (rs : IRows V C) (c : List V), List.Forall₂ (fun r v => r.1[i]? = some v) rs c →
      c = rs.filterMap (fun r => r.1[i]?) := by
    intro rs c h
    induction h with
    | nil => rfl
    | cons h1 _ ih => rw [List.filterMap_cons, h1]; exact congrArg _ ih
  exact key _ _ hF

/-- names of different features in a path give different indices. -/
theorem path_indices_nodup {features : List String} {path : List (Option Nat × V)} {names : List String}
    (h : List.Forall₂ (fun q name => ∃ i, q.1 = some i ∧ Dict.get? (featuresDic features) name = some i) path names)
    (hnd : names.Nodup) : (path.map Prod.fst).Nodup := by
  induction h with
  | nil => simp
  | @cons q name path names h1 h2 ih =>
    rw [List.nodup_cons] at hnd
    rw [List.map_cons, List.nodup_cons]
    refine ⟨?_, ih hnd.2⟩
    intro hm
    obtain ⟨q', hq', he⟩ := List.mem_map.1 hm
    obtain ⟨name', hn', i', e1, e2⟩ := forall₂_mem_left h2 q' hq'
    obtain ⟨i, e3, e4⟩ := h1
    rw [e1, e3] at he
    cases he
    have := featuresDic_get e2
    rw [featuresDic_get e4] at this
    cases this
    exact hnd.1 hn'

end

variable {V C K : Type} [Field K] [LinearOrder K] [IsStrictOrderedRing K] [LinearOrder V] [LinearOrder C]

/-- **C44**: every leaf of the fitted tree has a most frequent class among the training rows that reach it; a leaf that no row reaches has
a most frequent class of its parent. -/
theorem C44_leaves (gain : List V → List C → List V → K) (ordC : List C → List C)
    (hC : Spec.IsSetListing ordC) (ordF : List String → List String) (hF : Spec.IsArrangement ordF) (p : ID3Params K)
    (t t' : INode V C K) (rows : IRows V C) (h : id3FitWith gain ordC ordF p t rows = .ok t')
    (path : List (Option Nat × V)) (node : INode V C K) (hmem : (path, node) ∈ Spec.idNodes t') (_hl : node.isLeaf = true) :
    ∃ c, node.classValue = some c ∧
      (Spec.reaching rows path ≠ [] → Spec.IsMode (Spec.labels (Spec.reaching rows path)) c ∧
        node.classCount = ((Spec.reaching rows path).length, (Spec.labels (Spec.reaching rows path)).count c)) ∧
      (Spec.reaching rows path = [] → Spec.IsMode (Spec.labels (Spec.reaching rows path.dropLast)) c ∧ node.classCount = (0, 0)) := by
  obtain ⟨fs, hne, hs, -, hfit⟩ := id3FitWith_eq_ok hC hF h
  obtain ⟨-, names, -, -, h4⟩ := hfit.node (by simp) path node hmem
  rcases h4 with h4 | ⟨pre, last, cv, e1, e2, e3, e4⟩
  · obtain ⟨cv, h1, h2, h3⟩ := h4.leaf_class
    refine ⟨cv, h1, fun _ => ⟨h2, h3⟩, fun he => ?_⟩
    exfalso
    rw [he] at h2
    have := h2.1
    simp at this
  · refine ⟨cv, by rw [e3]; rfl, fun h => absurd e2 h, fun _ => ⟨?_, by rw [e3]; rfl⟩⟩
    rw [e1, List.dropLast_concat]
    exact e4

example : ∃ t path node, id3FitWith ID3Ex.gain List.dedup id ID3Ex.p .fresh ID3Ex.rows = .ok t ∧ (path, node) ∈ Spec.idNodes t ∧ node.isLeaf = true ∧
    path.length = 2 := by
  obtain ⟨t, h, hn⟩ := ID3Ex.fit_ok
  have : ([(some 1, 0), (some 0, 1)], true, none, some 1, (1, 1), 2, 0) ∈ ID3Ex.nodes t := by rw [hn]; simp
  obtain ⟨⟨path, node⟩, hm, he⟩ := List.mem_map.1 this
  simp only [ID3Ex.view, Prod.mk.injEq] at he
  exact ⟨t, path, node, h, hm, he.2.1, by rw [he.1]; rfl⟩

/-- **C45**: the level of every node of the fitted tree is its distance from the root, which does not exceed `max_depth`; and no feature
is tested twice on the way to a node. -/
theorem C45_bounded (gain : List V → List C → List V → K) (ordC : List C → List C)
    (hC : Spec.IsSetListing ordC) (ordF : List String → List String) (hF : Spec.IsArrangement ordF) (p : ID3Params K)
    (t t' : INode V C K) (rows : IRows V C) (h : id3FitWith gain ordC ordF p t rows = .ok t')
    (path : List (Option Nat × V)) (node : INode V C K) (hmem : (path, node) ∈ Spec.idNodes t') :
    node.level = path.length ∧ path.length ≤ p.maxDepth ∧ (path.map Prod.fst).Nodup ∧
      ∀ q ∈ path, ∃ i, q.1 = some i ∧ i < p.features.length := by
  obtain ⟨fs, hne, hs, -, hfit⟩ := id3FitWith_eq_ok hC hF h
  obtain ⟨h1, names, h2, h3, h4⟩ := hfit.node (by simp) path node hmem
  rw [List.nil_append] at h3
  refine ⟨?_, ?_, path_indices_nodup h2 h3, ?_⟩
  · rcases h4 with h4 | ⟨pre, last, cv, e1, e2, e3, e4⟩
    · simpa using h4.level
    · rw [e3, e1]
      simp [emptyLeaf, INode.level]
  · rcases h1 with rfl | h1
    · simp
    · omega
  · intro q hq
    obtain ⟨name, -, i, e1, e2⟩ := forall₂_mem_left h2 q hq
    exact ⟨i, e1, (List.getElem?_eq_some_iff.1 (featuresDic_get e2)).1⟩

example : ∃ t, id3FitWith ID3Ex.gain List.dedup id ID3Ex.p .fresh ID3Ex.rows = .ok t ∧ (Spec.idNodes t).length = 6 := by
  obtain ⟨t, h, hn⟩ := ID3Ex.fit_ok
  have := congrArg List.length hn
  rw [ID3Ex.nodes, List.length_map] at this
  exact ⟨t, h, this⟩

/-- **C104**: a node of the fitted tree that tests a feature is above `max_depth` and has at least `min_num_examples` rows; it has a branch
for each value of the training column, in increasing order; the feature was not tested above; and its gain on the rows that reach the
node is the largest among the features not tested above. -/
theorem C104_best_feature (gain : List V → List C → List V → K) (ordC : List C → List C)
    (hC : Spec.IsSetListing ordC) (ordF : List String → List String) (hF : Spec.IsArrangement ordF) (p : ID3Params K)
    (hnd : p.features.Nodup) (t t' : INode V C K) (rows : IRows V C) (h : id3FitWith gain ordC ordF p t rows = .ok t')
    (path : List (Option Nat × V)) (node : INode V C K) (hmem : (path, node) ∈ Spec.idNodes t') (hl : node.isLeaf = false)
    (i : Nat) (hi : node.varIndex = some i) :
    path.length < p.maxDepth ∧ p.minNumExamples ≤ (Spec.reaching rows path).length ∧ i < p.features.length ∧
    node.branches.map Prod.fst = npUnique (Spec.colOf rows i) ∧ (∀ q ∈ path, q.1 ≠ some i) ∧
    ∀ j < p.features.length, (∀ q ∈ path, q.1 ≠ some j) →
      gain (Spec.colOf (Spec.reaching rows path) j) (Spec.labels (Spec.reaching rows path)) (npUnique (Spec.colOf rows j)) ≤
      gain (Spec.colOf (Spec.reaching rows path) i) (Spec.labels (Spec.reaching rows path)) (npUnique (Spec.colOf rows i)) := by
  obtain ⟨fs, hne, hs, hfs, hfit⟩ := id3FitWith_eq_ok hC hF h
  obtain ⟨h1, names, h2, h3, h4⟩ := hfit.node (by simp) path node hmem
  simp only [List.nil_append, Nat.zero_add] at h3 h4
  rcases h4 with h4 | ⟨pre, last, cv, e1, e2, e3, e4⟩
  · generalize hR : Spec.reaching rows path = R at h4 ⊢
    generalize hD : path.length = D at h4 ⊢
    cases h4 with
    | leaf => simp [id3Leaf, INode.isLeaf] at hl
    | dead => simp [INode.varIndex] at hi
    | split _ _ _ cv nl i' name col splits g branches hm hd hn hname her hg hmax hprune hnl hnz hkeys =>
      simp only [INode.varIndex, Option.some.injEq] at hi
      subst hi
      have hpath : ∀ (j : Nat) (f : String), p.features[j]? = some f → (f ∈ names ↔ ∃ q ∈ path, q.1 = some j) := by
        intro j f hf
        constructor
        · intro hfn
          obtain ⟨q, hq, i2, e1, e2⟩ := forall₂_mem_right h2 f hfn
          rw [featuresDic_nodup hnd hf] at e2
          cases e2
          exact ⟨q, hq, e1⟩
        · rintro ⟨q, hq, hqj⟩
          obtain ⟨f', hf', i2, e1, e2⟩ := forall₂_mem_left h2 q hq
          rw [hqj] at e1
          cases e1
          have := featuresDic_get e2
          rw [hf] at this
          cases this
          exact hf'
      refine ⟨hd, hn, hg.idx, ?_, ?_, ?_⟩
      · simp only [INode.branches, hkeys]
        exact hfs _ _ hg.2.2.1
      · intro q hq hqi
        exact her ((hpath i' name (featuresDic_get hg.1)).2 ⟨q, hq, hqi⟩)
      · intro j hj hq
        have hfj : p.features[j]? = some p.features[j] := List.getElem?_eq_getElem hj
        obtain ⟨i2, col2, s2, g2, hF2, hle⟩ := hmax p.features[j] (List.getElem_mem hj) (fun hmem => by
          obtain ⟨q, hq1, hq2⟩ := (hpath j _ hfj).1 hmem
          exact hq q hq1 hq2)
        have hij : i2 = j := by
          have := hF2.1
          rw [featuresDic_nodup hnd hfj] at this
          exact (Option.some.inj this).symm
        subst hij
        rw [hF2.2.2.2, hg.2.2.2, column_eq_colOf hF2.2.1, column_eq_colOf hg.2.1, hfs _ _ hF2.2.2.1, hfs _ _ hg.2.2.1] at hle
        exact hle
  · rw [e3] at hl
    simp [emptyLeaf, INode.isLeaf] at hl

/-- the inner node that tests feature 0 in the example. -/
example : ∃ t path node, id3FitWith ID3Ex.gain List.dedup id ID3Ex.p .fresh ID3Ex.rows = .ok t ∧ (path, node) ∈ Spec.idNodes t ∧ node.isLeaf = false ∧
    node.varIndex = some 0 ∧ path = [(some 1, 0)] := by
  obtain ⟨t, h, hn⟩ := ID3Ex.fit_ok
  have : ([(some 1, 0)], false, some 0, some 0, (2, 1), 1, 0) ∈ ID3Ex.nodes t := by rw [hn]; simp
  obtain ⟨⟨path, node⟩, hm, he⟩ := List.mem_map.1 this
  simp only [ID3Ex.view, Prod.mk.injEq] at he
  exact ⟨t, path, node, h, hm, he.2.1, he.2.2.1, he.1⟩

/-- **C107**: when a new object is fitted with pruning, every split of the fitted tree has a number of branches different from 1 and
pays off: the drop of the error, from the error of the most frequent class of the node to the error of the subtree, is at least `th` for
each branch beyond the first. -/
theorem C107_prunning (gain : List V → List C → List V → K) (hgain : Spec.GainOk gain) (ordC : List C → List C)
    (hC : Spec.IsSetListing ordC) (ordF : List String → List String) (hF : Spec.IsArrangement ordF) (p : ID3Params K)
    (hp : p.prunning = true) (hth : 0 < p.th) (t t' : INode V C K) (hnew : t.numLeaf = 0) (rows : IRows V C)
    (h : id3FitWith gain ordC ordF p t rows = .ok t')
    (path : List (Option Nat × V)) (node : INode V C K) (hmem : (path, node) ∈ Spec.idNodes t') (hl : node.isLeaf = false) :
    2 ≤ node.branches.length ∧
    ∃ c, Spec.IsMode (Spec.labels (Spec.reaching rows path)) c ∧
      p.th * ((node.branches.length : K) - 1) ≤
        ((Spec.labels (Spec.reaching rows path)).countP (fun l => l ≠ c) : K) / ((Spec.reaching rows path).length : K)
        - (Spec.mistakes node (Spec.reaching rows path) : K) / ((Spec.reaching rows path).length : K) := by
  obtain ⟨fs, hne, hs, hfs, hfit⟩ := id3FitWith_eq_ok hC hF h
  obtain ⟨h1, names, h2, h3, h4⟩ := hfit.node (by simp) path node hmem
  simp only [List.nil_append, Nat.zero_add] at h3 h4
  rcases h4 with h4 | ⟨pre, last, cv, e1, e2, e3, e4⟩
  · have hsub : ∀ r ∈ Spec.reaching rows path, r ∈ rows := fun r hr => (List.mem_filter.1 hr).1
    have hlen : names.length = path.length := h2.length_eq.symm
    have htree := h4.toTree hgain hs (.inl ⟨hp, hth⟩) hsub h3 hlen
    have herr := (htree.error_spec hs hsub).1
    generalize hR : Spec.reaching rows path = R at h4 herr htree hsub ⊢
    generalize hD : path.length = D at h4 ⊢
    rw [hnew] at h4
    cases h4 with
    | leaf => simp [id3Leaf, INode.isLeaf] at hl
    | dead => 
      exfalso
      cases htree
    | split _ _ _ cv nl i' name col splits g branches hm hd hn hname her hg hmax hprune hnl hnz hkeys =>
      have hnl' : nl = branches.length := by rw [hnl]; split <;> simp
      have hRpos : 0 < R.length := by
        obtain ⟨r, hr, -⟩ := List.mem_map.1 hm.1
        exact List.length_pos_of_mem hr
      have hRne : (R.length : K) ≠ 0 := by exact_mod_cast hRpos.ne'
      have hbr : branches ≠ [] := by
        obtain ⟨r, hr⟩ := List.exists_mem_of_length_pos hRpos
        have hw := hs.wide r (hsub r hr)
        have hi' : i' < r.1.length := by have := hg.idx; omega
        have : r.1[i'] ∈ splits := (hs.mem i' splits hg.2.2.1 _).2 ⟨r, hsub r hr, List.getElem?_eq_getElem hi'⟩
        intro hnil
        rw [← hkeys, hnil] at this
        cases this
      have h2b : 2 ≤ branches.length := by
        have := List.length_pos_of_ne_nil hbr
        have := hnz hp
        omega
      refine ⟨h2b, cv, hm, ?_⟩
      have hpr := hprune hp
      have hpos : (0 : K) < (nl : K) - 1 := by
        rw [hnl']
        have : (1 : K) < (branches.length : K) := by exact_mod_cast h2b
        linarith
      rw [le_div_iff₀ hpos] at hpr
      have hcnt : ((Spec.labels R).countP (fun l => l ≠ cv) : K) / (R.length : K)
          = 1 - ((R.map Prod.snd).count cv : K) / (R.length : K) := by
        have hc : (R.map Prod.snd).count cv + (R.map Prod.snd).countP (fun l => l ≠ cv) = R.length := by
          have h1 := List.length_eq_countP_add_countP (fun l => l == cv) (l := R.map Prod.snd)
          have h2 : (R.map Prod.snd).length = R.length := by simp
          have h3 : (R.map Prod.snd).countP (fun l => l ≠ cv) = (R.map Prod.snd).countP (fun a => ¬ (a == cv) = true) := by
            apply List.countP_congr
            intro l _
            simp
          rw [h3, List.count]
          omega
        have hcK : ((R.map Prod.snd).count cv : K) + ((R.map Prod.snd).countP (fun l => l ≠ cv) : K) = (R.length : K) := by
          exact_mod_cast hc
        unfold Spec.labels
        field_simp
        linarith
      rw [hcnt]
      generalize (Spec.mistakes _ R : K) = mk at herr ⊢
      have hm2 : mk / (R.length : K) = (branches.map (fun b => if rowsWhere R i' b.1 = [] then 0
            else b.2.error * (((rowsWhere R i' b.1).length : K) / (R.length : K)))).sum := by
        rw [← herr, mul_div_cancel_right₀ _ hRne]
        rfl
      rw [hm2]
      simp only [INode.branches]
      rw [hnl'] at hpr
      linarith
  · rw [e3] at hl
    simp [emptyLeaf, INode.isLeaf] at hl

/-- in the example `th = 1/10` and the root, with 3 branches, lowers the error from 1/5 to 0; with `th = 1/9` it is pruned. -/
example : (id3FitWith ID3Ex.gain List.dedup id ID3Ex.p .fresh ID3Ex.rows).map (fun t => (t.isLeaf, t.branches.length, t.error)) = .ok (false, 3, 0) ∧
    (id3FitWith ID3Ex.gain List.dedup id ⟨["a", "b"], 1/9, 2, 1, true⟩ .fresh ID3Ex.rows).map (fun t => (t.isLeaf, t.error)) = .ok (true, 1/5) := by
  decide +kernel

/-! ## success -/

/-- `_partial_fit` succeeds on a non-empty table. -/
theorem id3PartialFit_total (gain : List V → List C → List V → K) (hgain : Spec.GainOk gain) (ordC : List C → List C)
    (hC : Spec.IsSetListing ordC) (ordF : List String → List String) (hF : Spec.IsArrangement ordF) (p : ID3Params K)
    (hfe : p.features ≠ []) (fs : List (List V)) (yClasses : List C) (rows0 : IRows V C) (hs : ISetup p fs rows0)
    (h2 : p.prunning = true → ∀ (i : Nat) (s : List V), fs[i]? = some s → 2 ≤ s.length) (fuel : Nat) (rows : IRows V C)
    (hsub : ∀ r ∈ rows, r ∈ rows0) (hne : rows ≠ []) (t : INode V C K) (depth : Nat) (erased : List String)
    (herased : depth = 0 → erased = []) (hnl : depth ≠ 0 → t.numLeaf = 0) (hfuel : p.maxDepth + 1 ≤ fuel + depth) (hfuel0 : fuel ≠ 0) :
    ∃ t', id3PartialFit gain ordC ordF p fs yClasses fuel rows t depth erased = .ok t' := by
  induction fuel generalizing rows t depth erased with
  | zero => exact absurd rfl hfuel0
  | succ fuel ih =>
    simp only [id3PartialFit]
    obtain ⟨⟨cv, cnt⟩, hq⟩ := pyMax_classCounts hC hne
    rw [hq]
    simp only
    by_cases hd : p.maxDepth ≤ depth
    · rw [if_pos hd]; exact ⟨_, rfl⟩
    rw [if_neg hd]
    by_cases hmin : rows.length < p.minNumExamples
    · rw [if_pos hmin]; exact ⟨_, rfl⟩
    rw [if_neg hmin]
    have hmem : ∀ f, f ∈ ordF ((p.features.filter (fun f => f ∉ erased)).dedup) ↔ f ∈ p.features ∧ f ∉ erased := by
      intro f; rw [(hF _).mem_iff, List.mem_dedup, List.mem_filter]; simp
    obtain ⟨best, hb⟩ := id3Best_total gain p.features fs rows (by rw [hs.len]) (fun r hr => hs.wide r (hsub r hr))
      (ordF ((p.features.filter (fun f => f ∉ erased)).dedup)) (fun f hf => ((hmem f).1 hf).1) (none, [], -1)
    rw [hb]
    simp only [py_bind_ok]
    obtain ⟨-, hall, hbest⟩ := id3Best_spec _ _ _ _ _ _ _ hb
    have hname : ∃ name, erasedName p.features best.1 = .ok name := by
      rcases hbest with rfl | ⟨ft, hft, i, col, s, g, hFG, rfl, -⟩
      · obtain ⟨f, l, hf⟩ := List.exists_cons_of_ne_nil hfe
        have hlast : p.features.getLast? = some (p.features.getLast hfe) := List.getLast?_eq_getLast_of_ne_nil hfe
        exact ⟨_, by simp [erasedName, hlast]; rfl⟩
      · exact ⟨ft, by simp [erasedName, featuresDic_get hFG.1]⟩
    obtain ⟨name, hname⟩ := hname
    rw [hname]
    simp only [py_bind_ok]
    have hcs : ∃ cs, best.2.1.mapM (id3Child
          (fun sub child => id3PartialFit gain ordC ordF p fs yClasses fuel sub child (depth + 1) (erased ++ [name]))
          rows (best.1.getD 0) cv depth) = .ok cs := by
      obtain ⟨cs, hcs⟩ := forall₂_of_forall_exists (fun s r => id3Child
          (fun sub child => id3PartialFit gain ordC ordF p fs yClasses fuel sub child (depth + 1) (erased ++ [name]))
          rows (best.1.getD 0) cv depth s = .ok r) best.2.1 (by
        intro s _
        unfold id3Child
        simp only
        split
        · rename_i hne'
          obtain ⟨t', ht'⟩ := ih (rowsWhere rows (best.1.getD 0) s) (fun r hr => hsub r (mem_rowsWhere.1 hr).1) hne' .fresh (depth + 1)
            (erased ++ [name]) (by omega) (fun _ => rfl) (by omega) (by omega)
          rw [ht']
          exact ⟨_, rfl⟩
        · exact ⟨_, rfl⟩)
      exact ⟨cs, (mapM_ok_iff _ _ _).2 hcs⟩
    obtain ⟨cs, hcs⟩ := hcs
    rw [hcs]
    simp only [py_bind_ok]
    have hlen : cs.length = best.2.1.length := ((mapM_ok_iff _ _ _).1 hcs).length_eq.symm
    have hne1 : p.prunning = true → t.numLeaf + cs.length ≠ 1 := by
      intro hp
      rw [hlen]
      rcases hbest with rfl | ⟨ft, hft, i, col, s, g, hFG, rfl, -⟩
      · -- no feature left: only below the root
        by_cases h0 : depth = 0
        · exfalso
          have he := herased h0
          obtain ⟨f, l, hf⟩ := List.exists_cons_of_ne_nil hfe
          obtain ⟨i, col, s, g, hFG, hle⟩ := hall f ((hmem f).2 ⟨by simp [hf], by simp [he]⟩)
          obtain ⟨e1, e2, e3⟩ := hFG.col_mem hs hsub
          have := hgain col (rows.map Prod.snd) s e1 e2 e3 (by simpa using hne)
          rw [← hFG.2.2.2] at this
          exact absurd hle (not_le.2 this)
        · rw [hnl h0]; simp
      · have := h2 hp i s hFG.2.2.1
        simp only
        omega
    unfold id3Prune
    by_cases hp : p.prunning = true
    · rw [if_pos hp]
      rw [if_neg]
      · split
        · exact ⟨_, rfl⟩
        · exact ⟨_, rfl⟩
      · intro hz
        apply hne1 hp
        have : ((t.numLeaf + cs.length : Nat) : K) = 1 := sub_eq_zero.1 hz
        exact_mod_cast this
    · rw [if_neg hp]; exact ⟨_, rfl⟩

/-- **C46**, partial: `ID3.fit` succeeds on every non-empty table with a value for each feature, if it does not prune or every column has
at least two different values. Missing: the full statement, for columns with a single value, is false (`C46_constant_column_false`). -/
theorem C46_success_partial (gain : List V → List C → List V → K) (hgain : Spec.GainOk gain) (ordC : List C → List C)
    (hC : Spec.IsSetListing ordC) (ordF : List String → List String) (hF : Spec.IsArrangement ordF) (p : ID3Params K)
    (hfe : p.features ≠ []) (rows : IRows V C) (hne : rows ≠ []) (hw : Spec.Wide rows p.features.length)
    (h2 : p.prunning = true → ∀ i < p.features.length, ∃ r ∈ rows, ∃ r' ∈ rows, r.1[i]? ≠ r'.1[i]?) (t : INode V C K) :
    ∃ t', id3FitWith gain ordC ordF p t rows = .ok t' := by
  have hcol : ∀ i ∈ List.range p.features.length, ∃ col, column (rows.map Prod.fst) i = .ok col := by
    intro i hi
    rw [List.mem_range] at hi
    obtain ⟨bs, hbs⟩ := forall₂_of_forall_exists (fun (r : List V) (v : V) => r[i]? = some v) (rows.map Prod.fst) (by
      intro r hr
      obtain ⟨q, hq, rfl⟩ := List.mem_map.1 hr
      exact ⟨_, List.getElem?_eq_getElem (lt_of_lt_of_le hi (hw q hq))⟩)
    exact ⟨bs, (column_eq_ok_iff _ _ _).2 hbs⟩
  obtain ⟨cols, hcols⟩ := forall₂_of_forall_exists _ _ hcol
  have hlen : cols.length = p.features.length := by simpa using hcols.length_eq.symm
  have hget : ∀ (i : Nat) (c : List V), cols[i]? = some c → i < p.features.length ∧ column (rows.map Prod.fst) i = .ok c := by
    intro i c hi
    obtain ⟨hl, hc⟩ := List.getElem?_eq_some_iff.1 hi
    have := List.Forall₂.get hcols (i := i) (by simpa [hlen] using hl) hl
    simp only [List.get_eq_getElem, List.getElem_range] at this
    rw [this, hc]
    exact ⟨by omega, rfl⟩
  have hmem : ∀ (i : Nat) (c : List V), cols[i]? = some c → ∀ v, v ∈ c ↔ ∃ r ∈ rows, r.1[i]? = some v := by
    intro i c hi v
    rw [column_eq_colOf (hget i c hi).2]
    unfold Spec.colOf
    rw [List.mem_filterMap]
  have hs : ISetup p (cols.map npUnique) rows := by
    refine ⟨by simpa using hlen, hw, ?_, ?_⟩
    · intro i s hi
      rw [List.getElem?_map] at hi
      obtain ⟨c, -, rfl⟩ := Option.map_eq_some_iff.1 hi
      exact npUnique_nodup c
    · intro i s hi v
      rw [List.getElem?_map] at hi
      obtain ⟨c, hc, rfl⟩ := Option.map_eq_some_iff.1 hi
      rw [mem_npUnique]
      exact hmem i c hc v
  obtain ⟨t', ht'⟩ := id3PartialFit_total gain hgain ordC hC ordF hF p hfe _ (npUnique (rows.map Prod.snd)) rows hs (by
    intro hp i s hi
    rw [List.getElem?_map] at hi
    obtain ⟨c, hc, rfl⟩ := Option.map_eq_some_iff.1 hi
    obtain ⟨r, hr, r', hr', hrr⟩ := h2 hp i (hget i c hc).1
    have hv : r.1[i]? = some (r.1[i]'(lt_of_lt_of_le (hget i c hc).1 (hw r hr))) := List.getElem?_eq_getElem _
    have hv' : r'.1[i]? = some (r'.1[i]'(lt_of_lt_of_le (hget i c hc).1 (hw r' hr'))) := List.getElem?_eq_getElem _
    have m1 := (mem_npUnique c _).2 ((hmem i c hc _).2 ⟨r, hr, hv⟩)
    have m2 := (mem_npUnique c _).2 ((hmem i c hc _).2 ⟨r', hr', hv'⟩)
    by_contra hlt
    have hcase : (npUnique c).length = 0 ∨ (npUnique c).length = 1 := by omega
    rcases hcase with h0 | h1
    · rw [List.length_eq_zero_iff] at h0
      rw [h0] at m1
      cases m1
    · obtain ⟨a, ha⟩ := List.length_eq_one_iff.1 h1
      rw [ha, List.mem_singleton] at m1 m2
      apply hrr
      rw [hv, hv', m1, m2]) (p.maxDepth + 1) rows (fun r hr => hr) hne t 0 [] (fun _ => rfl) (fun h => absurd rfl h) (by omega) (by omega)
  refine ⟨t', ?_⟩
  unfold id3FitWith
  rw [(mapM_ok_iff _ _ _).2 hcols]
  exact ht'

example : ∀ i < 2, ∃ r ∈ ID3Ex.rows, ∃ r' ∈ ID3Ex.rows, r.1[i]? ≠ r'.1[i]? := by decide

/-- below a node that tested the only feature, `_partial_fit` succeeds. -/
theorem id3PartialFit_exhausted (gain : List V → List C → List V → K) (ordC : List C → List C)
    (hC : Spec.IsSetListing ordC) (ordF : List String → List String) (hF : Spec.IsArrangement ordF) (p : ID3Params K)
    (f : String) (hfe : p.features = [f]) (fs : List (List V)) (yClasses : List C) (fuel : Nat) (rows : IRows V C)
    (hne : rows ≠ []) (depth : Nat) :
    ∃ t', id3PartialFit gain ordC ordF p fs yClasses (fuel + 1) rows .fresh depth [f] = .ok t' := by
  simp only [id3PartialFit]
  obtain ⟨⟨cv, cnt⟩, hq⟩ := pyMax_classCounts hC hne
  rw [hq]
  simp only
  by_cases hd : p.maxDepth ≤ depth
  · rw [if_pos hd]; exact ⟨_, rfl⟩
  rw [if_neg hd]
  by_cases hmin : rows.length < p.minNumExamples
  · rw [if_pos hmin]; exact ⟨_, rfl⟩
  rw [if_neg hmin]
  have hnil : ordF ((p.features.filter (fun f' => f' ∉ [f])).dedup) = [] := by
    rw [hfe]
    have : ([f].filter (fun f' => decide (f' ∉ [f]))).dedup = [] := by simp
    rw [this]
    exact (hF []).eq_nil
  rw [hnil]
  simp only [id3Best, py_bind_ok, erasedName, hfe, List.getLast?_singleton, List.mapM_nil, id3Prune]
  have hpure : (pure [] : Py (List ((V × INode V C K) × K))) = .ok [] := rfl
  rw [hpure]
  simp only [py_bind_ok, List.length_nil, INode.numLeaf, INode.fresh, Nat.add_zero, Nat.cast_zero, zero_sub, neg_eq_zero, one_ne_zero,
    if_false]
  split
  · split
    · exact ⟨_, rfl⟩
    · exact ⟨_, rfl⟩
  · exact ⟨_, rfl⟩

/-- **C46** is false: a table whose only feature has the same value in every row makes `fit` of a new pruning `ID3` (with `max_depth` at
least 1 and enough rows) divide by zero. -/
theorem C46_constant_column_false (gain : List V → List C → List V → K) (hgain : Spec.GainOk gain) (ordC : List C → List C)
    (hC : Spec.IsSetListing ordC) (ordF : List String → List String) (hF : Spec.IsArrangement ordF) (p : ID3Params K)
    (f : String) (hfe : p.features = [f]) (hp : p.prunning = true) (hd : 0 < p.maxDepth) (v : V) (labels : List C)
    (hmin : p.minNumExamples ≤ labels.length) (hne : labels ≠ []) :
    id3FitWith gain ordC ordF p .fresh (labels.map (fun c => ([v], c))) = .error .zeroDivision := by
  have hcol : column ((labels.map (fun c => ([v], c))).map Prod.fst) 0 = .ok (labels.map (fun _ => v)) := by
    rw [column_eq_ok_iff, List.map_map]
    induction labels with
    | nil => exact .nil
    | cons a l ih => 
      by_cases hl : l = []
      · subst hl; exact .cons rfl .nil
      · exact .cons rfl (List.forall₂_iff_get.2 (by simp))
  have huniq : npUnique (labels.map (fun _ => v)) = [v] := by
    have hmem : ∀ a, a ∈ npUnique (labels.map (fun _ => v)) ↔ a = v := by
      intro a
      rw [mem_npUnique, List.mem_map]
      constructor
      · rintro ⟨_, _, rfl⟩; rfl
      · rintro rfl
        obtain ⟨c, l, rfl⟩ := List.exists_cons_of_ne_nil hne
        exact ⟨c, by simp, rfl⟩
    have hnd := npUnique_nodup (labels.map (fun _ => v))
    generalize npUnique (labels.map (fun _ => v)) = l at hmem hnd
    match l, hmem, hnd with
    | [], hmem, _ => exact absurd ((hmem v).2 rfl) (by simp)
    | [a], hmem, _ => rw [(hmem a).1 (by simp)]
    | a :: b :: l, hmem, hnd =>
      exfalso
      have h1 := (hmem a).1 (by simp)
      have h2 := (hmem b).1 (by simp)
      rw [List.nodup_cons] at hnd
      exact hnd.1 (by rw [h1, h2]; simp)
  have hrne : labels.map (fun c => ([v], c)) ≠ [] := by simpa using hne
  have hs : ISetup p [[v]] (labels.map (fun c => ([v], c))) := by
    refine ⟨by simp [hfe], ?_, ?_, ?_⟩
    · intro r hr
      obtain ⟨c, -, rfl⟩ := List.mem_map.1 hr
      simp [hfe]
    · intro i s hi
      cases i with
      | zero => simp at hi; subst hi; simp
      | succ i => simp at hi
    · intro i s hi a
      cases i with
      | zero =>
        simp at hi; subst hi
        obtain ⟨c, l, rfl⟩ := List.exists_cons_of_ne_nil hne
        rw [List.mem_singleton]
        constructor
        · rintro rfl
          exact ⟨([a], c), by simp, rfl⟩
        · rintro ⟨r, hr, hra⟩
          obtain ⟨c', -, rfl⟩ := List.mem_map.1 hr
          simpa using hra.symm
      | succ i => simp at hi
  have hdic : Dict.get? (featuresDic p.features) f = some 0 := by rw [hfe]; simp [featuresDic, Dict.ofPairs, Dict.set, Dict.get?]
  unfold id3FitWith
  rw [hfe]
  have hmapM : (List.range ([f] : List String).length).mapM (column ((labels.map (fun c => ([v], c))).map Prod.fst)) =
      .ok [labels.map (fun _ => v)] := (mapM_ok_iff _ _ _).2 (.cons hcol .nil)
  rw [hmapM]
  simp only [py_bind_ok, List.map_cons, List.map_nil, huniq]
  generalize npUnique ((labels.map (fun c => ([v], c))).map Prod.snd) = yc
  have hlen : (labels.map (fun c => ([v], c))).length = labels.length := by simp
  have hrv : rowsWhere (labels.map (fun c => ([v], c))) 0 v ≠ [] := by
    obtain ⟨c, l, rfl⟩ := List.exists_cons_of_ne_nil hne
    simp [rowsWhere]
  generalize labels.map (fun c => ([v], c)) = rows at hcol hrne hs hlen hrv
  rw [← hlen] at hmin
  obtain ⟨d, hd'⟩ : ∃ d, p.maxDepth = d + 1 := ⟨p.maxDepth - 1, by omega⟩
  rw [hd']
  generalize hfu : d + 1 = fu
  simp only [id3PartialFit]
  obtain ⟨⟨cv, cnt⟩, hq⟩ := pyMax_classCounts hC hrne
  rw [hq]
  simp only
  rw [if_neg (by omega), if_neg (by omega)]
  have hone : ordF ((p.features.filter (fun f' => f' ∉ ([] : List String))).dedup) = [f] := by
    rw [hfe]
    have : ([f].filter (fun f' => decide (f' ∉ ([] : List String)))).dedup = [f] := by simp
    rw [this]
    exact List.perm_singleton.1 (hF [f])
  rw [hone]
  obtain ⟨best, hb⟩ := id3Best_total gain p.features [[v]] rows (by rw [hs.len]) hs.wide [f] (by simp [hfe]) (none, [], -1)
  rw [hb]
  obtain ⟨-, hall, hbest⟩ := id3Best_spec _ _ _ _ _ _ _ hb
  have hbe : best.1 = some 0 ∧ best.2.1 = [v] := by
    rcases hbest with rfl | ⟨ft, hft, i, col, s, g, hFG, rfl, -⟩
    · exfalso
      obtain ⟨i, col, s, g, hFG, hle⟩ := hall f (by simp)
      obtain ⟨e1, e2, e3⟩ := hFG.col_mem hs (fun r hr => hr)
      have := hgain col (rows.map Prod.snd) s e1 e2 e3 (by simpa using hrne)
      rw [← hFG.2.2.2] at this
      exact absurd hle (not_le.2 this)
    · rw [List.mem_singleton] at hft
      subst hft
      have h1 := hFG.1
      rw [hdic] at h1
      cases h1
      have h2 := hFG.2.2.1
      simp only [List.getElem?_cons_zero, Option.some.injEq] at h2
      exact ⟨rfl, h2.symm⟩
  obtain ⟨b1, b2, b3⟩ := best
  obtain ⟨rfl, rfl⟩ := hbe
  simp only [py_bind_ok, erasedName, hfe, List.getElem?_cons_zero, List.nil_append, Option.getD_some]
  obtain ⟨t', ht'⟩ := id3PartialFit_exhausted gain ordC hC ordF hF p f hfe [[v]] yc d (rowsWhere rows 0 v) hrv 1
  rw [hfu] at ht'
  have hchild : [v].mapM (id3Child (fun sub child => id3PartialFit gain ordC ordF p [[v]] yc fu sub child (0 + 1) [f])
      rows 0 cv 0) = .ok [((v, t'), t'.error * (((rowsWhere rows 0 v).length : K) / (rows.length : K)))] := by
    refine (mapM_ok_iff _ _ _).2 (.cons ?_ .nil)
    unfold id3Child
    simp only
    rw [if_pos hrv, ht']
    rfl
  rw [hchild]
  simp [id3Prune, hp, INode.numLeaf, INode.fresh]

example : id3FitWith ID3Ex.gain List.dedup id ⟨["a"], 1/10, 2, 1, true⟩ .fresh [([5], 0), ([5], 1), ([5], 1)] = .error .zeroDivision :=
  C46_constant_column_false _ ID3Ex.gain_ok _ ID3Ex.arr_dedup _ ID3Ex.arr_id _ "a" rfl rfl (by decide) 5 [0, 1, 1] (by decide) (by decide)

end Teacher
