import Verif.Props.FDTFitted

/-! C91: where FDT splits, and on which feature. -/

set_option linter.unusedSectionVars false

namespace Teacher
open Spec

variable {C K : Type} [Field K] [LinearOrder K] [IsStrictOrderedRing K] [LinearOrder C]

/-! ### what `partialFit` decided at a node -/

/-- the decision at a node: `feats` are the unused features, `depth` the depth. -/
def Decision (ent : List K → List C → K) (ord : List String → List String) (p : FDTParams K)
    (Xm : Dict String (Dict String (List K))) (y : List C) (feats : List String) (depth : Nat) (n : FNode C K) : Prop :=
  ∃ att gain cm, getMaxFGain ent Xm y n.mu (ord feats) = .ok (att, gain, cm) ∧
    ((n.isLeaf = true ∧ stopMet p gain (maskedY n.mu y) depth = true) ∨
     (n.isLeaf = false ∧ stopMet p gain (maskedY n.mu y) depth = false ∧
      (n.children ≠ [] → cm ≠ []) ∧ ∀ c ∈ n.children, ∃ tst, c.test = some tst ∧ tst.var.name = att ∧
        p.vars[tst.att]? = some tst.var))

theorem fitChildren_mem {rec : FNode C K → Py (FNode C K)} {p : FDTParams K} {y : List C} {mu : List K} {att : String}
    {childMu : Dict String (List K)} {feats : List String} (values : List String) (i : Nat) (cs : List (FNode C K))
    (h : fitChildren rec p y mu att childMu feats i values = .ok cs) :
    (cs ≠ [] → childMu ≠ []) ∧ ∀ c ∈ cs, ∃ tst : FTest K, tst.var.name = att ∧ p.vars[tst.att]? = some tst.var ∧
      ((∃ child : FNode C K, child.children = [] ∧ child.test = some tst ∧ rec child = .ok c) ∨
       (c.test = some tst ∧ c.isLeaf = true ∧ ¬ 0 < c.mu.sum)) := by
  induction values generalizing i cs with
  | nil =>
    simp only [fitChildren, Except.ok.injEq] at h
    subst h
    simp
  | cons value values ih =>
    simp only [fitChildren] at h
    split at h
    · cases h
    · rw [py_bind_eq_ok] at h
      obtain ⟨fi, hfi, h⟩ := h
      rw [py_bind_eq_ok] at h
      obtain ⟨var, hvar, h⟩ := h
      rw [py_bind_eq_ok] at h
      obtain ⟨cmu, hcmu, h⟩ := h
      rw [py_bind_eq_ok] at h
      obtain ⟨c, hc, h⟩ := h
      rw [py_bind_eq_ok] at h
      obtain ⟨rest, hrest, h⟩ := h
      cases h
      have hv : p.vars[fi]? = some var := by
        cases hg : p.vars[fi]? with
        | none => rw [hg] at hvar; simp at hvar
        | some v => rw [hg] at hvar; simp at hvar; rw [hvar]
      refine ⟨fun _ e => ?_, ?_⟩
      · rw [e] at hcmu
        simp [Dict.get, Dict.get?] at hcmu
      · intro c' hc'
        rcases List.mem_cons.1 hc' with rfl | hc'
        · refine ⟨⟨var, fi, i⟩, featuresDict_name (Dict.get_eq_ok_iff.1 hfi) hv, hv, ?_⟩
          unfold fitChild at hc
          split at hc <;> rename_i hpos
          · exact .inl ⟨_, rfl, rfl, hc⟩
          · rw [py_bind_eq_ok] at hc
            obtain ⟨cv, hcv, hc⟩ := hc
            cases hc
            exact .inr ⟨rfl, rfl, hpos⟩
        · exact (ih _ _ hrest).2 c' hc'

theorem partialFit_test {ent : List K → List C → K} {ord : List String → List String} {p : FDTParams K}
    {Xm : Dict String (Dict String (List K))} {y : List C} {fuel : Nat} {current : FNode C K} {feats : List String} {depth : Nat}
    {t : FNode C K} (h : partialFit ent ord p Xm y fuel current feats depth = .ok t) : t.test = current.test := by
  cases fuel with
  | zero => cases h
  | succ fuel =>
    simp only [partialFit] at h
    rw [py_bind_eq_ok] at h
    obtain ⟨⟨att, gain, cm⟩, hg, h⟩ := h
    simp only at h
    split at h
    · rw [py_bind_eq_ok] at h
      obtain ⟨cv, hcv, h⟩ := h
      cases h; rfl
    · rw [py_bind_eq_ok] at h
      obtain ⟨sets, hsets, h⟩ := h
      rw [py_bind_eq_ok] at h
      obtain ⟨cs, hcs, h⟩ := h
      cases h; rfl

theorem partialFit_decisions {ent : List K → List C → K} {ord : List String → List String} {p : FDTParams K}
    {Xm : Dict String (Dict String (List K))} {y : List C} (fuel : Nat) :
    ∀ (current : FNode C K) (feats : List String) (depth : Nat) (t : FNode C K), feats.Nodup →
    partialFit ent ord p Xm y fuel current feats depth = .ok t → current.children = [] →
    ∀ q ∈ nodePaths t, ∃ rest, q.1 = t.test.toList ++ rest ∧
      ((∃ feats', feats'.Nodup ∧ (∀ f, f ∈ feats' ↔ f ∈ feats ∧ ∀ tst ∈ rest, tst.var.name ≠ f) ∧
          Decision ent ord p Xm y feats' (depth + rest.length) q.2) ∨
        (q.2.isLeaf = true ∧ ¬ 0 < q.2.mu.sum)) := by
  induction fuel with
  | zero => intro _ _ _ _ _ h; cases h
  | succ fuel ih =>
    intro current feats depth t hnd h hch q hq
    simp only [partialFit] at h
    rw [py_bind_eq_ok] at h
    obtain ⟨⟨att, gain, cm⟩, hg, h⟩ := h
    simp only at h
    split at h <;> rename_i hstop
    · rw [py_bind_eq_ok] at h
      obtain ⟨cv, hcv, h⟩ := h
      cases h
      rw [nodePaths_leaf rfl, List.mem_singleton] at hq
      subst hq
      exact ⟨[], by simp, .inl ⟨feats, hnd, by simp, att, gain, cm, hg, .inl ⟨rfl, hstop⟩⟩⟩
    · rw [py_bind_eq_ok] at h
      obtain ⟨sets, hsets, h⟩ := h
      rw [py_bind_eq_ok] at h
      obtain ⟨cs, hcs, h⟩ := h
      cases h
      obtain ⟨hcm, hmem⟩ := fitChildren_mem _ _ _ hcs
      simp only [nodePaths, List.mem_cons, Bool.false_eq_true, if_false, hch, List.nil_append] at hq
      rcases hq with rfl | hq
      · refine ⟨[], by simp [FNode.test], .inl ⟨feats, hnd, by simp, att, gain, cm, hg, .inr ⟨rfl, Bool.eq_false_of_not_eq_true hstop, hcm, ?_⟩⟩⟩
        intro c hc
        obtain ⟨tst, h1, h2, ⟨child, h3, h4, h5⟩ | ⟨h3, -⟩⟩ := hmem c hc
        · exact ⟨tst, by rw [partialFit_test h5, h4], h1, h2⟩
        · exact ⟨tst, h3, h1, h2⟩
      · rw [nodePathsList_eq, List.mem_map] at hq
        obtain ⟨q', hq', rfl⟩ := hq
        obtain ⟨c, hc, hq'⟩ := List.mem_flatMap.1 hq'
        obtain ⟨tst, h1, h2, ⟨child, h3, h4, h5⟩ | ⟨h3, h4, h5⟩⟩ := hmem c hc
        · obtain ⟨rest, r1, r2⟩ := ih child _ _ c (hnd.erase att) h5 h3 q' hq'
          rw [partialFit_test h5, h4] at r1
          refine ⟨tst :: rest, by simp [FNode.test, r1], ?_⟩
          rcases r2 with ⟨feats', n1, n2, n3⟩ | r2
          · refine .inl ⟨feats', n1, ?_, ?_⟩
            · intro f
              rw [n2, hnd.mem_erase_iff]
              simp only [List.mem_cons, forall_eq_or_imp, h1]
              constructor
              · rintro ⟨⟨a, b⟩, c⟩; exact ⟨b, Ne.symm a, c⟩
              · rintro ⟨b, a, c⟩; exact ⟨⟨Ne.symm a, b⟩, c⟩
            · rw [List.length_cons, ← Nat.add_assoc, Nat.add_right_comm]
              exact n3
          · exact .inr r2
        · rw [nodePaths_leaf h4, List.mem_singleton, h3] at hq'
          subst hq'
          exact ⟨[tst], by simp [FNode.test], .inr ⟨h4, h5⟩⟩

/-! ### the best gain -/

theorem maxGainFrom_best {ent : List K → List C → K} {Xm : Dict String (Dict String (List K))} {y : List C} {mu : List K}
    {best : String × K × Dict String (List K)} {fs : List String} {r : String × K × Dict String (List K)}
    (h : maxGainFrom ent Xm y mu best fs = .ok r) :
    best.2.1 ≤ r.2.1 ∧ (∀ f ∈ fs, ∃ d g, Dict.get? Xm f = some d ∧ fGain ent mu y (childMus mu d) = .ok g ∧ g ≤ r.2.1) ∧
      (r = best ∨ ∃ d, r.1 ∈ fs ∧ Dict.get? Xm r.1 = some d ∧ fGain ent mu y (childMus mu d) = .ok r.2.1) := by
  induction fs generalizing best with
  | nil =>
    simp only [maxGainFrom, Except.ok.injEq] at h
    subst h
    simp
  | cons f fs ih =>
    simp only [maxGainFrom] at h
    rw [py_bind_eq_ok] at h
    obtain ⟨d, hd, h⟩ := h
    rw [py_bind_eq_ok] at h
    obtain ⟨g, hg, h⟩ := h
    have hd' := Dict.get_eq_ok_iff.1 hd
    split at h <;> rename_i hlt
    · obtain ⟨h1, h2, h3⟩ := ih h
      refine ⟨le_trans hlt.le h1, ?_, ?_⟩
      · intro f' hf'
        rcases List.mem_cons.1 hf' with rfl | hf'
        · exact ⟨d, g, hd', hg, h1⟩
        · exact h2 f' hf'
      · rcases h3 with e | ⟨d', a, b⟩
        · right
          rw [e]
          exact ⟨d, by simp, hd', hg⟩
        · exact .inr ⟨d', by simp [a], b⟩
    · obtain ⟨h1, h2, h3⟩ := ih h
      refine ⟨h1, ?_, ?_⟩
      · intro f' hf'
        rcases List.mem_cons.1 hf' with rfl | hf'
        · exact ⟨d, g, hd', hg, le_trans (not_lt.1 hlt) h1⟩
        · exact h2 f' hf'
      · rcases h3 with e | ⟨d', a, b⟩
        · exact .inl e
        · exact .inr ⟨d', by simp [a], b⟩

/-- the table holds, under the name of a variable, the degrees of its column in each of its sets. -/
theorem setDegrees_table {X : List (List (Cell K))} {vars : List (FVar K)}
    {Xm : Dict String (Dict String (List K))} (hX : datasetMembership X vars = .ok Xm) (hnames : (vars.map FVar.name).Nodup)
    (hn : ∀ v ∈ vars, (v.sets.map FSet.name).Nodup) {j : Nat} {v : FVar K}
    (hv : vars[j]? = some v) {d : Dict String (List K)} (hd : Dict.get? Xm v.name = some d) :
    SetDegrees X j v (d.map Prod.snd) ∧ Dict.keys d = v.sets.map FSet.name := by
  rcases datasetMembership_lookup hX v.name with ⟨h1, -⟩ | ⟨j', v', col, d', hj', hv', hname, hcol, hd', h2⟩
  · rw [hd] at h1; cases h1
  · rw [hd] at h2; cases h2
    have hjj : j' = j := by
      obtain ⟨h1, e1⟩ := List.getElem?_eq_some_iff.1 hv
      obtain ⟨h2, e2⟩ := List.getElem?_eq_some_iff.1 hv'
      have := List.nodup_iff_injective_get.1 hnames (a₁ := ⟨j', by simpa using h2⟩) (a₂ := ⟨j, by simpa using h1⟩)
        (by simp [e1, e2, hname])
      simpa using this
    subst hjj
    rw [hv] at hv'; cases hv'
    obtain ⟨hk, hall⟩ := FVar.membership_ok (hn _ (List.mem_of_getElem? hv)) hd'
    refine ⟨?_, hk⟩
    have hnd := FVar.membership_nodup hd'
    unfold SetDegrees
    rw [List.forall₂_iff_get]
    have hlen : v.sets.length = d.length := by
      have := congrArg List.length hk
      simpa [Dict.keys] using this.symm
    refine ⟨by simpa using hlen, ?_⟩
    intro i hi hi'
    simp only [List.get_eq_getElem, List.getElem_map]
    have hi2 : i < d.length := by omega
    obtain ⟨ms, hms, hget⟩ := hall v.sets[i] (List.getElem_mem _)
    have hkey : d[i].1 = v.sets[i].name := by
      have e : (Dict.keys d)[i]? = (v.sets.map FSet.name)[i]? := by rw [hk]
      simpa [Dict.keys, hi, hi2] using e
    have hms' : ms = d[i].2 := by
      have := Dict.get?_of_mem_nodup hnd (k := d[i].1) (v := d[i].2) (List.getElem_mem _)
      rw [hkey, hget] at this
      simpa using this
    subst hms'
    have hf := (FSet.membership_ok_iff v.sets[i] col d[i].2).1 hms
    unfold column at hcol
    rw [mapM_ok_iff] at hcol
    rw [List.forall₂_iff_get] at hcol ⊢
    have hf2 := List.forall₂_iff_get.1 hf.2
    refine ⟨hcol.1.trans hf2.1, ?_⟩
    intro r hr hr'
    have hrc : r < col.length := by rw [← hcol.1]; exact hr
    have a := hcol.2 r hr hrc
    have b := hf2.2 r hrc hr'
    refine ⟨col.get ⟨r, hrc⟩, ?_, b⟩
    cases e : (X.get ⟨r, hr⟩)[j']? with
    | none => rw [e] at a; simp at a
    | some x => rw [e] at a; simp at a; rw [a]; rfl

/-- the gain of the code is the gain of the specification. -/
theorem fGain_spec {ent : List K → List C → K} {X : List (List (Cell K))} {vars : List (FVar K)}
    {Xm : Dict String (Dict String (List K))} (hX : datasetMembership X vars = .ok Xm) (hnames : (vars.map FVar.name).Nodup)
    (hn : ∀ v ∈ vars, (v.sets.map FSet.name).Nodup) (mu : List K) (y : List C) {j : Nat} {v : FVar K}
    (hv : vars[j]? = some v) {d : Dict String (List K)} (hd : Dict.get? Xm v.name = some d) {g : K}
    (hg : fGain ent mu y (childMus mu d) = .ok g) :
    ∃ D, SetDegrees X j v D ∧ g = splitGain ent mu y D := by
  refine ⟨d.map Prod.snd, (setDegrees_table hX hnames hn hv hd).1, ?_⟩
  unfold fGain npDiv at hg
  simp only at hg
  split at hg
  · simp at hg
  · simp only [py_bind_ok, py_pure, Except.ok.injEq] at hg
    rw [← hg]
    unfold splitGain childMus
    simp [List.map_map, Function.comp_def]

/-! ### C91 -/

/-- the features no test of the path is about. -/
def Spec.Unused (vars : List (FVar K)) (path : List (FTest K)) (j : Nat) (v : FVar K) : Prop :=
  vars[j]? = some v ∧ ∀ t ∈ path, t.att ≠ j

theorem mem_feats_iff {vars : List (FVar K)} (hnames : (vars.map FVar.name).Nodup) {path : List (FTest K)}
    (hpath : ∀ t ∈ path, vars[t.att]? = some t.var) {feats : List String}
    (hf : ∀ f, f ∈ feats ↔ f ∈ (vars.map FVar.name).dedup ∧ ∀ t ∈ path, t.var.name ≠ f) {j : Nat} {v : FVar K}
    (hv : vars[j]? = some v) : v.name ∈ feats ↔ Unused vars path j v := by
  have hinj : ∀ i w, vars[i]? = some w → w.name = v.name → i = j := by
    intro i w hw he
    obtain ⟨h1, e1⟩ := List.getElem?_eq_some_iff.1 hv
    obtain ⟨h2, e2⟩ := List.getElem?_eq_some_iff.1 hw
    have := List.nodup_iff_injective_get.1 hnames (a₁ := ⟨i, by simpa using h2⟩) (a₂ := ⟨j, by simpa using h1⟩)
      (by simp [e1, e2, he])
    simpa using this
  rw [hf, List.mem_dedup]
  constructor
  · rintro ⟨-, h⟩
    refine ⟨hv, fun t ht e => ?_⟩
    have := hpath t ht
    rw [e, hv] at this
    cases this
    exact h t ht rfl
  · rintro ⟨-, h⟩
    refine ⟨List.mem_map_of_mem (List.mem_of_getElem? hv), fun t ht e => ?_⟩
    exact h t ht (hinj _ _ (hpath t ht) e)

theorem forall₂_right_unique {α β : Type} {R : α → β → Prop} (hR : ∀ a b b', R a b → R a b' → b = b') {l : List α}
    {m m' : List β} (h : List.Forall₂ R l m) (h' : List.Forall₂ R l m') : m = m' := by
  induction h generalizing m' with
  | nil => cases h'; rfl
  | cons hab _ ih =>
    cases h' with
    | cons hab' h'' => rw [hR _ _ _ hab hab', ih h'']

theorem Spec.SetDegrees.unique {X : List (List (Cell K))} {j : Nat} {v : FVar K} {D D' : List (List K)}
    (h : SetDegrees X j v D) (h' : SetDegrees X j v D') : D = D' := by
  refine forall₂_right_unique ?_ h h'
  intro fs ms ms' h h'
  refine forall₂_right_unique ?_ h h'
  rintro row m m' ⟨x, hx, hm⟩ ⟨x', hx', hm'⟩
  rw [hx] at hx'; cases hx'
  rw [hm] at hm'; simpa using hm'

theorem two_classes_iff (l : List C) : (npUnique l).length < 2 ↔ ∀ a ∈ l, ∀ b ∈ l, a = b := by
  constructor
  · intro h a ha b hb
    rw [← mem_npUnique] at ha hb
    match hl : npUnique l with
    | [] => rw [hl] at ha; simp at ha
    | [x] => rw [hl] at ha hb; simp at ha hb; rw [ha, hb]
    | x :: x' :: r => rw [hl] at h; simp only [List.length_cons] at h; omega
  · intro h
    match hl : npUnique l with
    | [] => simp
    | [x] => simp
    | x :: x' :: r =>
      have hnd := npUnique_nodup l
      rw [hl] at hnd
      have hx : x = x' := h x (by rw [← mem_npUnique, hl]; simp) x' (by rw [← mem_npUnique, hl]; simp)
      simp [hx] at hnd

/-- C91: at every node of a fitted tree, with `degs` the degrees of the training rows in the node:
a split node has rows of two classes, at least `min_num_examples` rows, depth below `max_depth`, and is split on an unused
feature of positive gain, at least the threshold and at least the gain of every other unused feature;
a leaf has no membership, or rows of less than two classes, or less than `min_num_examples` rows, or depth `max_depth`, or no
unused feature reaches the (positive) threshold. For every impurity function and every iteration order of the features. -/
theorem C91_splits (ent : List K → List C → K) (ord : List String → List String) (hord : ∀ l, (ord l).Perm l)
    (p : FDTParams K) (hnames : (p.vars.map FVar.name).Nodup) (hs : ProperSets p.vars)
    (X : List (List (Cell K))) (y : List C) (t : FNode C K) (h : fdtFit ent ord p fdtNew X y = .ok t) :
    ∀ q ∈ nodePaths t, ∃ degs, List.Forall₂ (fun row m => LeafDegree min row q.1 m) X degs ∧
      (q.2.isLeaf = false →
        (∃ a ∈ livingClasses degs y, ∃ b ∈ livingClasses degs y, a ≠ b) ∧
        p.minNumExamples ≤ (livingClasses degs y).length ∧ q.1.length < p.maxDepth ∧
        ∃ j v D, Unused p.vars q.1 j v ∧ SetDegrees X j v D ∧
          q.2.children.map FNode.test = (List.range v.sets.length).map (fun k => some ⟨v, j, k⟩) ∧
          0 < splitGain ent degs y D ∧ p.fuzzyThreshold ≤ splitGain ent degs y D ∧
          ∀ j' v' D', Unused p.vars q.1 j' v' → SetDegrees X j' v' D' →
            splitGain ent degs y D' ≤ splitGain ent degs y D) ∧
      (q.2.isLeaf = true →
        ¬ 0 < degs.sum ∨ (∀ a ∈ livingClasses degs y, ∀ b ∈ livingClasses degs y, a = b) ∨
        (livingClasses degs y).length < p.minNumExamples ∨ q.1.length = p.maxDepth ∨
        (0 < p.fuzzyThreshold ∧ ∀ j v D, Unused p.vars q.1 j v → SetDegrees X j v D →
          splitGain ent degs y D < p.fuzzyThreshold)) := by
  intro q hq
  have hn : ∀ v ∈ p.vars, (v.sets.map FSet.name).Nodup := fun v hv => (hs v hv).2
  obtain ⟨-, hy, hlen, -⟩ := fdtFit_grown h
  obtain ⟨Xm, hXm, hall⟩ := fdtFit_nodes h
  have hdf := C31_depth_and_features ent ord p X y t h q hq
  obtain ⟨f'', d'', htr⟩ := (hall _ hq).trace
  have hones : ∀ m ∈ y.map (fun _ => (1:K)), m = 1 := by
    intro m hm; obtain ⟨_, -, rfl⟩ := List.mem_map.1 hm; rfl
  obtain ⟨-, -, Xm', hXm', hp⟩ := fdtFit_ok h
  rw [hXm] at hXm'; cases hXm'
  obtain ⟨rest, hr1, hr2⟩ := partialFit_decisions _ _ _ _ _ (List.nodup_dedup _) hp rfl q hq
  rw [partialFit_test hp] at hr1
  have hr1' : q.1 = rest := by simpa [fdtNew, FNode.fresh, FNode.test] using hr1
  subst hr1'
  refine ⟨q.2.mu, htr.rowDegrees hXm hn (by simp [hlen]) hones, ?_, ?_⟩
  · intro hl
    rcases hr2 with ⟨feats, hfn, hfi, att, gain, cm, hg, ⟨h1, -⟩ | ⟨-, hstop, hcm, hch⟩⟩ | ⟨h1, -⟩
    · rw [hl] at h1; cases h1
    · have hstop' : 2 ≤ (npUnique (maskedY q.2.mu y)).length ∧ p.minNumExamples ≤ (maskedY q.2.mu y).length ∧
          q.1.length < p.maxDepth ∧ p.fuzzyThreshold ≤ gain := by
        simpa [stopMet, and_assoc] using hstop
      obtain ⟨s1, s2, s3, s4⟩ := hstop'
      obtain ⟨j, v, hv, hc⟩ := C31_children ent ord p hn X y t h q hq hl
      have hne : q.2.children ≠ [] := by
        intro e
        rw [e] at hc
        have := congrArg List.length hc
        simp only [List.map_nil, List.length_nil, List.length_map, List.length_range] at this
        exact (hs v (List.mem_of_getElem? hv)).1 (List.length_eq_zero_iff.1 this.symm)
      have hatt : v.name = att := by
        obtain ⟨c, cs, e⟩ := List.exists_cons_of_ne_nil hne
        obtain ⟨tst, t1, t2, t3⟩ := hch c (by rw [e]; simp)
        have : some tst ∈ q.2.children.map FNode.test := by rw [← t1, e]; simp
        rw [hc] at this
        obtain ⟨k, -, hk⟩ := List.mem_map.1 this
        cases hk
        exact t2
      subst hatt
      obtain ⟨b1, b2, b3⟩ := maxGainFrom_best hg
      have hcm' := hcm hne
      obtain ⟨d, b4, b5, b6⟩ : ∃ d, v.name ∈ ord feats ∧ Dict.get? Xm v.name = some d ∧
          fGain ent q.2.mu y (childMus q.2.mu d) = .ok gain := by
        rcases b3 with e | b3
        · exact absurd (congrArg (fun r => r.2.2) e) hcm'
        · exact b3
      have hpos : 0 < gain := by
        rcases getMaxFGain_ok hg with ⟨-, -, e⟩ | ⟨h0, -⟩
        · exact absurd e hcm'
        · exact h0
      obtain ⟨D, hD, hgain⟩ := fGain_spec hXm hnames hn q.2.mu y hv b5 b6
      have hmf : ∀ j v, p.vars[j]? = some v → (v.name ∈ feats ↔ Unused p.vars q.1 j v) :=
        fun j v hv => mem_feats_iff hnames hdf.2.2.2 hfi hv
      refine ⟨?_, s2, s3, j, v, D, (hmf j v hv).1 ((hord feats).mem_iff.1 b4), hD, hc, hgain ▸ hpos, hgain ▸ s4, ?_⟩
      · by_contra hno
        have : (npUnique (maskedY q.2.mu y)).length < 2 := by
          rw [two_classes_iff]
          intro a ha b hb
          by_contra hab
          exact hno ⟨a, ha, b, hb, hab⟩
        omega
      · intro j' v' D' hu hD'
        obtain ⟨d', g', c1, c2, c3⟩ := b2 v'.name ((hord feats).mem_iff.2 ((hmf j' v' hu.1).2 hu))
        obtain ⟨D2, hD2, hg2⟩ := fGain_spec hXm hnames hn q.2.mu y hu.1 c1 c2
        rw [hD'.unique hD2, ← hg2, ← hgain]
        exact c3
    · rw [hl] at h1; cases h1
  · intro hl
    rcases hr2 with ⟨feats, hfn, hfi, att, gain, cm, hg, ⟨-, hstop⟩ | ⟨h1, -⟩⟩ | ⟨-, h1⟩
    · have hstop' : (((npUnique (maskedY q.2.mu y)).length < 2 ∨ (maskedY q.2.mu y).length < p.minNumExamples) ∨
          p.maxDepth ≤ q.1.length) ∨ gain < p.fuzzyThreshold := by
        simpa [stopMet] using hstop
      rcases hstop' with ((h1 | h1) | h1) | h1
      · exact .inr (.inl ((two_classes_iff _).1 h1))
      · exact .inr (.inr (.inl h1))
      · exact .inr (.inr (.inr (.inl (le_antisymm hdf.1 h1))))
      · obtain ⟨b1, b2, -⟩ := maxGainFrom_best hg
        refine .inr (.inr (.inr (.inr ⟨lt_of_le_of_lt b1 h1, ?_⟩)))
        intro j v D hu hD
        obtain ⟨d', g', c1, c2, c3⟩ := b2 v.name ((hord feats).mem_iff.2
          ((mem_feats_iff hnames hdf.2.2.2 hfi hu.1).2 hu))
        obtain ⟨D2, hD2, hg2⟩ := fGain_spec hXm hnames hn q.2.mu y hu.1 c1 c2
        rw [hD.unique hD2, ← hg2]
        exact lt_of_le_of_lt c3 h1
    · rw [hl] at h1; cases h1
    · exact .inl h1

/-- the example of `exFit` meets the hypotheses (its tree splits at two levels). -/
example : (exParams.vars.map FVar.name).Nodup ∧ ProperSets exParams.vars ∧ (∀ l : List String, (id l).Perm l) ∧
    ∃ t, exFit = .ok t ∧ t.isLeaf = false := by
  refine ⟨by decide, ?_, fun _ => List.Perm.refl _, ?_⟩
  · intro v hv
    simp only [exParams, List.mem_cons, List.not_mem_nil, or_false] at hv
    rcases hv with rfl | rfl <;> exact ⟨by decide, by decide⟩
  · have h : (exFit.toOption).map (fun t => t.isLeaf) = some false := by decide +kernel
    cases e : exFit with
    | error _ => rw [e] at h; simp [Except.toOption] at h
    | ok t => rw [e] at h; exact ⟨t, rfl, by simpa [Except.toOption] using h⟩

end Teacher
