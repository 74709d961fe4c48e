import Verif.Props.RoundedPipeline
import Verif.Props.FDTSplits

/-! # C210: where FDT splits in floating point, and on which feature -/

set_option linter.unusedSectionVars false

namespace Teacher
open Spec

variable {C K : Type} [Field K] [LinearOrder K] [IsStrictOrderedRing K] [LinearOrder C] {A : Arith K} {u η : K}

/-- `D` are the degrees, computed in floating point, of the rows in the sets of variable `j`. -/
def Spec.SetDegreesF (A : Arith K) (X : List (List (Cell K))) (j : Nat) (v : FVar K) (D : List (List K)) : Prop :=
  D.length = v.sets.length ∧ ∀ (k : Nat) ms, D[k]? = some ms → List.Forall₂ (fun row m => TestDegreeF A row ⟨v, j, k⟩ m) X ms

/-- the information gain of splitting rows of degrees `mu` into the sets with degrees `D`, with a rounding after each operation: the impurities
of the parts weighted with the sums of their degrees are added up one after another, divided by the sum of the degrees and subtracted. -/
def Spec.splitGainF (A : Arith K) (ent : List K → List C → K) (mu : List K) (y : List C) (D : List (List K)) : K :=
  A.fl (ent mu y -
    A.fl ((D.map (fun ms => A.fl (A.sum (List.zipWith min mu ms) * ent (List.zipWith min mu ms) y))).foldl (fun s x => A.fl (s + x)) 0 / A.sum mu))

/-- the decision at a node: `feats` are the unused features, `depth` the depth. -/
def DecisionF (A : Arith K) (ent : List K → List C → K) (ord : List String → List String) (p : FDTParams K)
    (Xm : Dict String (Dict String (List K))) (y : List C) (feats : List String) (depth : Nat) (n : FNode C K) : Prop :=
  ∃ att gain cm, getMaxFGainF A ent Xm y n.mu (ord feats) = .ok (att, gain, cm) ∧
    ((n.isLeaf = true ∧ stopMet p gain (maskedY n.mu y) depth = true) ∨
     (n.isLeaf = false ∧ stopMet p gain (maskedY n.mu y) depth = false ∧
      (n.children ≠ [] → cm ≠ []) ∧ ∀ c ∈ n.children, ∃ tst, c.test = some tst ∧ tst.var.name = att ∧
        p.vars[tst.att]? = some tst.var))

theorem fitChildrenF_mem {rec : FNode C K → Py (FNode C K)} {p : FDTParams K} {y : List C} {mu : List K} {att : String}
    {childMu : Dict String (List K)} {feats : List String} (values : List String) (i : Nat) (cs : List (FNode C K))
    (h : fitChildrenF A rec p y mu att childMu feats i values = .ok cs) :
    (cs ≠ [] → childMu ≠ []) ∧ ∀ c ∈ cs, ∃ tst : FTest K, tst.var.name = att ∧ p.vars[tst.att]? = some tst.var ∧
      ((∃ child : FNode C K, child.children = [] ∧ child.test = some tst ∧ rec child = .ok c) ∨
       (c.test = some tst ∧ c.isLeaf = true ∧ ¬ 0 < A.sum c.mu)) := by
  induction values generalizing i cs with
  | nil =>
    simp only [fitChildrenF, Except.ok.injEq] at h
    subst h
    simp
  | cons value values ih =>
    simp only [fitChildrenF] at h
    split at h
    · cases h
    · rw [py_bind_eq_ok] at h
      obtain ⟨fi, hfi, h⟩ := h
      rw [py_bind_eq_ok] at h
      obtain ⟨var, hvar, h⟩ := h
      rw [py_bind_eq_ok] at h
      obtain ⟨cmu, hcmu, h⟩ := h
      rw [py_bind_eq_ok] at h
      obtain ⟨c, hc, h⟩ := h
      rw [py_bind_eq_ok] at h
      obtain ⟨rest, hrest, h⟩ := h
      cases h
      have hv : p.vars[fi]? = some var := by
        cases hg : p.vars[fi]? with
        | none => rw [hg] at hvar; simp at hvar
        | some v => rw [hg] at hvar; simp at hvar; rw [hvar]
      refine ⟨fun _ e => ?_, ?_⟩
      · rw [e] at hcmu
        simp [Dict.get, Dict.get?] at hcmu
      · intro c' hc'
        rcases List.mem_cons.1 hc' with rfl | hc'
        · refine ⟨⟨var, fi, i⟩, featuresDict_name (Dict.get_eq_ok_iff.1 hfi) hv, hv, ?_⟩
          unfold fitChildF at hc
          split at hc <;> rename_i hpos
          · exact .inl ⟨_, rfl, rfl, hc⟩
          · rw [py_bind_eq_ok] at hc
            obtain ⟨cv, hcv, hc⟩ := hc
            cases hc
            exact .inr ⟨rfl, rfl, hpos⟩
        · exact (ih _ _ hrest).2 c' hc'

theorem partialFitF_test {ent : List K → List C → K} {ord : List String → List String} {p : FDTParams K}
    {Xm : Dict String (Dict String (List K))} {y : List C} {fuel : Nat} {current : FNode C K} {feats : List String} {depth : Nat}
    {t : FNode C K} (h : partialFitF A ent ord p Xm y fuel current feats depth = .ok t) : t.test = current.test := by
  cases fuel with
  | zero => cases h
  | succ fuel =>
    simp only [partialFitF] at h
    rw [py_bind_eq_ok] at h
    obtain ⟨⟨att, gain, cm⟩, hg, h⟩ := h
    simp only at h
    split at h
    · rw [py_bind_eq_ok] at h
      obtain ⟨cv, hcv, h⟩ := h
      cases h; rfl
    · rw [py_bind_eq_ok] at h
      obtain ⟨sets, hsets, h⟩ := h
      rw [py_bind_eq_ok] at h
      obtain ⟨cs, hcs, h⟩ := h
      cases h; rfl

theorem partialFitF_decisions {ent : List K → List C → K} {ord : List String → List String} {p : FDTParams K}
    {Xm : Dict String (Dict String (List K))} {y : List C} (fuel : Nat) :
    ∀ (current : FNode C K) (feats : List String) (depth : Nat) (t : FNode C K), feats.Nodup →
    partialFitF A ent ord p Xm y fuel current feats depth = .ok t → current.children = [] →
    ∀ q ∈ nodePaths t, ∃ rest, q.1 = t.test.toList ++ rest ∧
      ((∃ feats', feats'.Nodup ∧ (∀ f, f ∈ feats' ↔ f ∈ feats ∧ ∀ tst ∈ rest, tst.var.name ≠ f) ∧
          DecisionF A ent ord p Xm y feats' (depth + rest.length) q.2) ∨
        (q.2.isLeaf = true ∧ ¬ 0 < A.sum q.2.mu)) := by
  induction fuel with
  | zero => intro _ _ _ _ _ h; cases h
  | succ fuel ih =>
    intro current feats depth t hnd h hch q hq
    simp only [partialFitF] at h
    rw [py_bind_eq_ok] at h
    obtain ⟨⟨att, gain, cm⟩, hg, h⟩ := h
    simp only at h
    split at h <;> rename_i hstop
    · rw [py_bind_eq_ok] at h
      obtain ⟨cv, hcv, h⟩ := h
      cases h
      rw [nodePaths_leaf rfl, List.mem_singleton] at hq
      subst hq
      exact ⟨[], by simp, .inl ⟨feats, hnd, by simp, att, gain, cm, hg, .inl ⟨rfl, hstop⟩⟩⟩
    · rw [py_bind_eq_ok] at h
      obtain ⟨sets, hsets, h⟩ := h
      rw [py_bind_eq_ok] at h
      obtain ⟨cs, hcs, h⟩ := h
      cases h
      obtain ⟨hcm, hmem⟩ := fitChildrenF_mem _ _ _ hcs
      simp only [nodePaths, List.mem_cons, Bool.false_eq_true, if_false, hch, List.nil_append] at hq
      rcases hq with rfl | hq
      · refine ⟨[], by simp [FNode.test], .inl ⟨feats, hnd, by simp, att, gain, cm, hg, .inr ⟨rfl, Bool.eq_false_of_not_eq_true hstop, hcm, ?_⟩⟩⟩
        intro c hc
        obtain ⟨tst, h1, h2, ⟨child, h3, h4, h5⟩ | ⟨h3, -⟩⟩ := hmem c hc
        · exact ⟨tst, by rw [partialFitF_test h5, h4], h1, h2⟩
        · exact ⟨tst, h3, h1, h2⟩
      · rw [nodePathsList_eq, List.mem_map] at hq
        obtain ⟨q', hq', rfl⟩ := hq
        obtain ⟨c, hc, hq'⟩ := List.mem_flatMap.1 hq'
        obtain ⟨tst, h1, h2, ⟨child, h3, h4, h5⟩ | ⟨h3, h4, h5⟩⟩ := hmem c hc
        · obtain ⟨rest, r1, r2⟩ := ih child _ _ c (hnd.erase att) h5 h3 q' hq'
          rw [partialFitF_test h5, h4] at r1
          refine ⟨tst :: rest, by simp [FNode.test, r1], ?_⟩
          rcases r2 with ⟨feats', n1, n2, n3⟩ | r2
          · refine .inl ⟨feats', n1, ?_, ?_⟩
            · intro f
              rw [n2, hnd.mem_erase_iff]
              simp only [List.mem_cons, forall_eq_or_imp, h1]
              constructor
              · rintro ⟨⟨a, b⟩, c⟩; exact ⟨b, Ne.symm a, c⟩
              · rintro ⟨b, a, c⟩; exact ⟨⟨Ne.symm a, b⟩, c⟩
            · rw [List.length_cons, ← Nat.add_assoc, Nat.add_right_comm]
              exact n3
          · exact .inr r2
        · rw [nodePaths_leaf h4, List.mem_singleton, h3] at hq'
          subst hq'
          exact ⟨[tst], by simp [FNode.test], .inr ⟨h4, h5⟩⟩

/-! ### the best gain -/

theorem maxGainFromF_best {ent : List K → List C → K} {Xm : Dict String (Dict String (List K))} {y : List C} {mu : List K}
    {best : String × K × Dict String (List K)} {fs : List String} {r : String × K × Dict String (List K)}
    (h : maxGainFromF A ent Xm y mu best fs = .ok r) :
    best.2.1 ≤ r.2.1 ∧ (∀ f ∈ fs, ∃ d g, Dict.get? Xm f = some d ∧ fGainF A ent mu y (childMus mu d) = .ok g ∧ g ≤ r.2.1) ∧
      (r = best ∨ ∃ d, r.1 ∈ fs ∧ Dict.get? Xm r.1 = some d ∧ fGainF A ent mu y (childMus mu d) = .ok r.2.1) := by
  induction fs generalizing best with
  | nil =>
    simp only [maxGainFromF, Except.ok.injEq] at h
    subst h
    simp
  | cons f fs ih =>
    simp only [maxGainFromF] at h
    rw [py_bind_eq_ok] at h
    obtain ⟨d, hd, h⟩ := h
    rw [py_bind_eq_ok] at h
    obtain ⟨g, hg, h⟩ := h
    have hd' := Dict.get_eq_ok_iff.1 hd
    split at h <;> rename_i hlt
    · obtain ⟨h1, h2, h3⟩ := ih h
      refine ⟨le_trans hlt.le h1, ?_, ?_⟩
      · intro f' hf'
        rcases List.mem_cons.1 hf' with rfl | hf'
        · exact ⟨d, g, hd', hg, h1⟩
        · exact h2 f' hf'
      · rcases h3 with e | ⟨d', a, b⟩
        · right
          rw [e]
          exact ⟨d, by simp, hd', hg⟩
        · exact .inr ⟨d', by simp [a], b⟩
    · obtain ⟨h1, h2, h3⟩ := ih h
      refine ⟨h1, ?_, ?_⟩
      · intro f' hf'
        rcases List.mem_cons.1 hf' with rfl | hf'
        · exact ⟨d, g, hd', hg, le_trans (not_lt.1 hlt) h1⟩
        · exact h2 f' hf'
      · rcases h3 with e | ⟨d', a, b⟩
        · exact .inl e
        · exact .inr ⟨d', by simp [a], b⟩

theorem Spec.SetDegreesF.unique {X : List (List (Cell K))} {j : Nat} {v : FVar K} {D D' : List (List K)}
    (h : SetDegreesF A X j v D) (h' : SetDegreesF A X j v D') : D = D' := by
  refine List.ext_getElem? fun k => ?_
  cases hk : D[k]? with
  | none =>
    rw [List.getElem?_eq_none_iff, h.1, ← h'.1] at hk
    exact (List.getElem?_eq_none hk).symm
  | some ms =>
    have hk' : k < D'.length := by rw [h'.1, ← h.1]; exact (List.getElem?_eq_some_iff.1 hk).1
    rw [List.getElem?_eq_getElem hk']
    congr 1
    refine forall₂_right_unique ?_ (h.2 k ms hk) (h'.2 k _ (List.getElem?_eq_getElem hk'))
    rintro row m m' ⟨fs, x, h1, h2, h3⟩ ⟨fs', x', h1', h2', h3'⟩
    simp only at h1 h2 h1' h2'
    rw [h1] at h1'; cases h1'
    rw [h2] at h2'; cases h2'
    rw [h3] at h3'; simpa using h3'

/-- the gain of the code is the gain of the specification. -/
theorem fGainF_spec {ent : List K → List C → K} {X : List (List (Cell K))} {vars : List (FVar K)}
    {Xm : Dict String (Dict String (List K))} (hX : datasetMembershipF A X vars = .ok Xm) (hnames : (vars.map FVar.name).Nodup)
    (hn : ∀ v ∈ vars, (v.sets.map FSet.name).Nodup) (mu : List K) (y : List C) {j : Nat} {v : FVar K}
    (hv : vars[j]? = some v) {d : Dict String (List K)} (hd : Dict.get? Xm v.name = some d) {g : K}
    (hg : fGainF A ent mu y (childMus mu d) = .ok g) :
    ∃ D, SetDegreesF A X j v D ∧ g = splitGainF A ent mu y D := by
  refine ⟨d.map Prod.snd, ?_, ?_⟩
  · obtain ⟨fi, var, -, hvar, hname, -, hlen, hall⟩ := tableF_column hX hn hd
    have hjj : fi = j := by
      obtain ⟨h1, e1⟩ := List.getElem?_eq_some_iff.1 hv
      obtain ⟨h2, e2⟩ := List.getElem?_eq_some_iff.1 hvar
      have := List.nodup_iff_injective_get.1 hnames (a₁ := ⟨fi, by simpa using h2⟩) (a₂ := ⟨j, by simpa using h1⟩)
        (by simp [e1, e2, hname])
      simpa using this
    subst hjj
    rw [hv] at hvar; cases hvar
    refine ⟨by simpa using hlen, ?_⟩
    intro k ms hk
    rw [List.getElem?_map] at hk
    obtain ⟨s, hs, rfl⟩ := Option.map_eq_some_iff.1 hk
    exact hall k s hs
  · unfold fGainF flDiv at hg
    simp only at hg
    split at hg
    · simp at hg
    · simp only [py_bind_ok, py_pure, Except.ok.injEq] at hg
      rw [← hg]
      unfold splitGainF childMus
      simp [List.foldl_map]

/-- **C210**: at every node of a tree fitted in floating point, with `degs` the computed degrees of the training rows in the node:
a split node has rows of two classes, at least `min_num_examples` rows, depth below `max_depth`, and is split on an unused
feature of positive computed gain, at least the threshold and at least the computed gain of every other unused feature;
a leaf has no membership, or rows of less than two classes, or less than `min_num_examples` rows, or depth `max_depth`, or no
unused feature reaches the (positive) threshold. For every impurity function and every iteration order of the features. -/
theorem C210_splits (hA : Lawful A u η) (ent : List K → List C → K) (ord : List String → List String) (hord : ∀ l, (ord l).Perm l)
    (p : FDTParams K) (hnames : (p.vars.map FVar.name).Nodup) (hs : ProperSets p.vars) (hv : ∀ v ∈ p.vars, FloatVar A v)
    (X : List (List (Cell K))) (hXf : FloatTable A X) (y : List C) (t : FNode C K) (h : fdtFitF A ent ord p fdtNew X y = .ok t) :
    ∀ q ∈ nodePaths t, ∃ degs, List.Forall₂ (fun row m => LeafDegreeF A row q.1 m) X degs ∧
      (q.2.isLeaf = false →
        (∃ a ∈ livingClasses degs y, ∃ b ∈ livingClasses degs y, a ≠ b) ∧
        p.minNumExamples ≤ (livingClasses degs y).length ∧ q.1.length < p.maxDepth ∧
        ∃ j v D, Unused p.vars q.1 j v ∧ SetDegreesF A X j v D ∧
          q.2.children.map FNode.test = (List.range v.sets.length).map (fun k => some ⟨v, j, k⟩) ∧
          0 < splitGainF A ent degs y D ∧ p.fuzzyThreshold ≤ splitGainF A ent degs y D ∧
          ∀ j' v' D', Unused p.vars q.1 j' v' → SetDegreesF A X j' v' D' →
            splitGainF A ent degs y D' ≤ splitGainF A ent degs y D) ∧
      (q.2.isLeaf = true →
        (∀ m ∈ degs, m = 0) ∨ (∀ a ∈ livingClasses degs y, ∀ b ∈ livingClasses degs y, a = b) ∨
        (livingClasses degs y).length < p.minNumExamples ∨ q.1.length = p.maxDepth ∨
        (0 < p.fuzzyThreshold ∧ ∀ j v D, Unused p.vars q.1 j v → SetDegreesF A X j v D →
          splitGainF A ent degs y D < p.fuzzyThreshold)) := by
  intro q hq
  have hn : ∀ v ∈ p.vars, (v.sets.map FSet.name).Nodup := fun v hv => (hs v hv).2
  obtain ⟨hdep, -, hpath, hdeg, hchn, hleaf⟩ := C170_tree hA ent ord p hn hv X hXf y t h q hq
  obtain ⟨-, hlen, Xm, hXm, hp⟩ := fdtFitF_ok h
  obtain ⟨rest, hr1, hr2⟩ := partialFitF_decisions _ _ _ _ _ (List.nodup_dedup _) hp rfl q hq
  rw [partialFitF_test hp] at hr1
  have hr1' : q.1 = rest := by simpa [fdtNew, FNode.fresh, FNode.test] using hr1
  subst hr1'
  refine ⟨q.2.mu, hdeg, ?_, ?_⟩
  · intro hl
    rcases hr2 with ⟨feats, hfn, hfi, att, gain, cm, hg, ⟨h1, -⟩ | ⟨-, hstop, hcm, hch⟩⟩ | ⟨h1, -⟩
    · rw [hl] at h1; cases h1
    · have hstop' : 2 ≤ (npUnique (maskedY q.2.mu y)).length ∧ p.minNumExamples ≤ (maskedY q.2.mu y).length ∧
          q.1.length < p.maxDepth ∧ p.fuzzyThreshold ≤ gain := by
        simpa [stopMet, and_assoc] using hstop
      obtain ⟨s1, s2, s3, s4⟩ := hstop'
      obtain ⟨j, v, hv, hc⟩ := hchn hl
      have hne : q.2.children ≠ [] := by
        intro e
        rw [e] at hc
        have := congrArg List.length hc
        simp only [List.map_nil, List.length_nil, List.length_map, List.length_range] at this
        exact (hs v (List.mem_of_getElem? hv)).1 (List.length_eq_zero_iff.1 this.symm)
      have hatt : v.name = att := by
        obtain ⟨c, cs, e⟩ := List.exists_cons_of_ne_nil hne
        obtain ⟨tst, t1, t2, t3⟩ := hch c (by rw [e]; simp)
        have : some tst ∈ q.2.children.map FNode.test := by rw [← t1, e]; simp
        rw [hc] at this
        obtain ⟨k, -, hk⟩ := List.mem_map.1 this
        cases hk
        exact t2
      subst hatt
      obtain ⟨b1, b2, b3⟩ := maxGainFromF_best hg
      have hcm' := hcm hne
      obtain ⟨d, b4, b5, b6⟩ : ∃ d, v.name ∈ ord feats ∧ Dict.get? Xm v.name = some d ∧
          fGainF A ent q.2.mu y (childMus q.2.mu d) = .ok gain := by
        rcases b3 with e | b3
        · exact absurd (congrArg (fun r => r.2.2) e) hcm'
        · exact b3
      have hpos : 0 < gain := by
        rcases getMaxFGainF_ok hg with ⟨-, -, e⟩ | ⟨h0, -⟩
        · exact absurd e hcm'
        · exact h0
      obtain ⟨D, hD, hgain⟩ := fGainF_spec hXm hnames hn q.2.mu y hv b5 b6
      have hmf : ∀ j v, p.vars[j]? = some v → (v.name ∈ feats ↔ Unused p.vars q.1 j v) :=
        fun j v hv => mem_feats_iff hnames hpath hfi hv
      refine ⟨?_, s2, s3, j, v, D, (hmf j v hv).1 ((hord feats).mem_iff.1 b4), hD, hc, hgain ▸ hpos, hgain ▸ s4, ?_⟩
      · by_contra hno
        have : (npUnique (maskedY q.2.mu y)).length < 2 := by
          rw [two_classes_iff]
          intro a ha b hb
          by_contra hab
          exact hno ⟨a, ha, b, hb, hab⟩
        omega
      · intro j' v' D' hu hD'
        obtain ⟨d', g', c1, c2, c3⟩ := b2 v'.name ((hord feats).mem_iff.2 ((hmf j' v' hu.1).2 hu))
        obtain ⟨D2, hD2, hg2⟩ := fGainF_spec hXm hnames hn q.2.mu y hu.1 c1 c2
        rw [hD'.unique hD2, ← hg2, ← hgain]
        exact c3
    · rw [hl] at h1; cases h1
  · intro hl
    rcases hr2 with ⟨feats, hfn, hfi, att, gain, cm, hg, ⟨-, hstop⟩ | ⟨h1, -⟩⟩ | ⟨-, h1⟩
    · have hstop' : (((npUnique (maskedY q.2.mu y)).length < 2 ∨ (maskedY q.2.mu y).length < p.minNumExamples) ∨
          p.maxDepth ≤ q.1.length) ∨ gain < p.fuzzyThreshold := by
        simpa [stopMet] using hstop
      rcases hstop' with ((h1 | h1) | h1) | h1
      · exact .inr (.inl ((two_classes_iff _).1 h1))
      · exact .inr (.inr (.inl h1))
      · exact .inr (.inr (.inr (.inl (le_antisymm hdep h1))))
      · obtain ⟨b1, b2, -⟩ := maxGainFromF_best hg
        refine .inr (.inr (.inr (.inr ⟨lt_of_le_of_lt b1 h1, ?_⟩)))
        intro j v D hu hD
        obtain ⟨d', g', c1, c2, c3⟩ := b2 v.name ((hord feats).mem_iff.2
          ((mem_feats_iff hnames hpath hfi hu.1).2 hu))
        obtain ⟨D2, hD2, hg2⟩ := fGainF_spec hXm hnames hn q.2.mu y hu.1 c1 c2
        rw [hD.unique hD2, ← hg2]
        exact lt_of_le_of_lt c3 h1
    · rw [hl] at h1; cases h1
    · left
      obtain ⟨-, -, -, -, -, ⟨⟨m, hm, h0⟩, -⟩ | ⟨h0, -⟩, -⟩ := hleaf hl
      · refine absurd (lt_of_lt_of_le h0 (hA.sum_ge _ ?_ m hm)) h1
        intro x hx
        obtain ⟨row, hrow, hd⟩ := forall₂_mem_right hdeg x hx
        obtain ⟨r1, -, r2⟩ := leafDegreeF_range hA (hXf row hrow) (fun test ht => hv _ (List.mem_of_getElem? (hpath test ht))) hd
        exact ⟨r2, r1⟩
      · exact h0

/-! ### examples -/

/-- the hypotheses of C210 are met by a tree of doubles with a split. -/
example : (exAlways.vars.map FVar.name).Nodup ∧ ProperSets exAlways.vars ∧ (∀ v ∈ exAlways.vars, FloatVar binary64 v) ∧
    FloatTable binary64 [[.num 0], [.num 1], [.num 3], [.num 4]] ∧
    ∃ t, fdtFitF binary64 exAlwaysEnt id exAlways fdtNew [[.num 0], [.num 1], [.num 3], [.num 4]] [0, 0, 1, 1] = .ok t ∧ t.isLeaf = false := by
  refine ⟨by decide, ?_, ?_, ?_, ?_⟩
  · intro v hv
    simp only [exAlways, List.mem_singleton] at hv
    subst hv
    exact ⟨by simp, by decide +kernel⟩
  · intro v hv s hs
    simp only [exAlways, List.mem_singleton] at hv
    subst hv
    simp only [List.mem_cons, FSet.cont.injEq, List.not_mem_nil, or_false] at hs
    rcases hs with rfl | rfl <;> (unfold FloatSet IsFloat; decide +kernel)
  · intro row hrow x hx
    simp only [List.mem_cons, List.not_mem_nil, or_false] at hrow
    rcases hrow with rfl | rfl | rfl | rfl <;> (simp at hx; subst hx; unfold IsFloat; decide +kernel)
  · have h : ((fdtFitF binary64 exAlwaysEnt id exAlways fdtNew [[.num 0], [.num 1], [.num 3], [.num 4]] [0, 0, 1, 1]).toOption).map
        (fun t => t.isLeaf) = some false := by decide +kernel
    cases e : fdtFitF binary64 exAlwaysEnt id exAlways fdtNew [[.num 0], [.num 1], [.num 3], [.num 4]] [0, 0, 1, 1] with
    | error _ => rw [e] at h; simp [Except.toOption] at h
    | ok t => rw [e] at h; exact ⟨t, rfl, by simpa [Except.toOption] using h⟩

end Teacher
