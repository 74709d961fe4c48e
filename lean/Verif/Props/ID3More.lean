import Verif.Props.ID3Gain

/-! # ID3: fitting again, trees without pruning, the inherited rule export (C42, C108, C109) -/

namespace Teacher
set_option linter.unusedSectionVars false

section
variable {V C K : Type} [Field K] [LinearOrder K] [IsStrictOrderedRing K] [DecidableEq V] [DecidableEq C]

/-- two nodes that differ at most in `num_leaf`, or two leaves with the same class and error. -/
def SameNode (a b : INode V C K) : Prop :=
  (∃ var var' bs bs' cv cc l e n n', a = .mk true var bs cv cc l e n ∧ b = .mk true var' bs' cv cc l e n') ∨
  ∃ var bs cv cc l e n n', a = .mk false var bs cv cc l e n ∧ b = .mk false var bs cv cc l e n'

theorem SameNode.spec {a b : INode V C K} (h : SameNode a b) (features : List String) :
    (∀ x, a.predict x = b.predict x) ∧ a.toRules features = b.toRules features ∧ a.error = b.error ∧ a.classValue = b.classValue ∧
      a.classCount = b.classCount := by
  rcases h with ⟨var, var', bs, bs', cv, cc, l, e, n, n', rfl, rfl⟩ | ⟨var, bs, cv, cc, l, e, n, n', rfl, rfl⟩
  · refine ⟨fun x => ?_, ?_, rfl, rfl, rfl⟩
    · rw [INode.predict.eq_def, INode.predict.eq_def]; rfl
    · simp [INode.toRules, INode.getRules]
  · refine ⟨fun x => ?_, ?_, rfl, rfl, rfl⟩
    · rw [INode.predict.eq_def, INode.predict.eq_def]
    · simp [INode.toRules, INode.getRules]

theorem sameNode_leaf (a b : INode V C K) (cv : C) (cnt n depth : Nat) : SameNode (id3Leaf a cv cnt n depth) (id3Leaf b cv cnt n depth) :=
  .inl ⟨_, _, _, _, _, _, _, _, _, _, rfl, rfl⟩

theorem id3PartialFit_same (gain : List V → List C → List V → K) (ordC : List C → List C) (ordF : List String → List String)
    (p : ID3Params K) (fs : List (List V)) (yc : List C) (fuel : Nat) (rows : IRows V C) (a b a' : INode V C K) (depth : Nat)
    (erased : List String) (hab : p.prunning = false ∨ a.numLeaf = b.numLeaf)
    (h : id3PartialFit gain ordC ordF p fs yc fuel rows a depth erased = .ok a') :
    ∃ b', id3PartialFit gain ordC ordF p fs yc fuel rows b depth erased = .ok b' ∧ SameNode a' b' := by
  cases fuel with
  | zero => cases h
  | succ fuel =>
    simp only [id3PartialFit] at h ⊢
    cases hq : pyMax (fun q : C × Nat => q.2) (classCounts ordC rows) with
    | error e =>
      rw [hq] at h
      simp only at h ⊢
      cases hy : yc[0]? with
      | none => rw [hy] at h; cases h
      | some c =>
        rw [hy] at h
        simp only [Except.ok.injEq] at h ⊢
        subst h
        exact ⟨_, rfl, .inl ⟨_, _, _, _, _, _, _, _, _, _, rfl, rfl⟩⟩
    | ok q =>
      obtain ⟨cv, cnt⟩ := q
      rw [hq] at h
      simp only at h ⊢
      split at h
      · rename_i hd
        rw [if_pos hd]
        cases h
        exact ⟨_, rfl, sameNode_leaf _ _ _ _ _ _⟩
      · rename_i hd
        rw [if_neg hd]
        split at h
        · rename_i hn
          rw [if_pos hn]
          cases h
          exact ⟨_, rfl, sameNode_leaf _ _ _ _ _ _⟩
        · rename_i hn
          rw [if_neg hn]
          obtain ⟨best, hb, h1⟩ := py_bind_eq_ok.1 h
          obtain ⟨name, hname, h2⟩ := py_bind_eq_ok.1 h1
          obtain ⟨cs, hcs, h3⟩ := py_bind_eq_ok.1 h2
          rw [hb, py_bind_ok, hname, py_bind_ok, hcs, py_bind_ok]
          rcases hab with hp | hnl
          · simp only [id3Prune, hp, Bool.false_eq_true, if_false, Except.ok.injEq] at h3 ⊢
            subst h3
            exact ⟨_, rfl, .inr ⟨_, _, _, _, _, _, _, _, rfl, rfl⟩⟩
          · rw [← hnl]
            refine ⟨a', h3, ?_⟩
            obtain ⟨l, var, bs, cv', cc, lv, e, n⟩ := a'
            cases l
            · exact .inr ⟨_, _, _, _, _, _, _, _, rfl, rfl⟩
            · exact .inl ⟨_, _, _, _, _, _, _, _, _, _, rfl, rfl⟩
end

variable {V C K : Type} [Field K] [LinearOrder K] [IsStrictOrderedRing K] [LinearOrder V] [LinearOrder C]

/-- **C108**, partial: `fit` without pruning on an object that was fitted before (with any data) gives the same predictions, rules, error
and class as on a new object; with pruning the same holds when the attribute `num_leaf` of the old tree is still 0. Missing: the full
statement, with pruning, is false (`C108_refit_false`), because `fit` adds to `num_leaf` instead of resetting it. -/
theorem C108_refit_partial (gain : List V → List C → List V → K) (ordC : List C → List C) (ordF : List String → List String)
    (p : ID3Params K) (t t' : INode V C K) (rows : IRows V C) (hp : p.prunning = false ∨ t.numLeaf = 0)
    (h : id3FitWith gain ordC ordF p t rows = .ok t') :
    ∃ t'', id3FitWith gain ordC ordF p .fresh rows = .ok t'' ∧ (∀ x, t'.predict x = t''.predict x) ∧
      t'.toRules p.features = t''.toRules p.features ∧ t'.error = t''.error ∧ t'.classValue = t''.classValue ∧
      t'.classCount = t''.classCount := by
  unfold id3FitWith at h ⊢
  obtain ⟨cols, hc, h⟩ := py_bind_eq_ok.1 h
  rw [hc, py_bind_ok]
  obtain ⟨b, hb, hs⟩ := id3PartialFit_same gain ordC ordF p _ _ _ rows t .fresh t' 0 [] hp h
  exact ⟨b, hb, hs.spec p.features⟩

/-- an object fitted before with other data. -/
example : ((id3FitWith ID3Ex.gain List.dedup id ⟨["a", "b"], 1/10, 2, 1, false⟩ .fresh [([0, 0], 1), ([1, 1], 0)]).bind
    (fun t => id3FitWith ID3Ex.gain List.dedup id ⟨["a", "b"], 1/10, 2, 1, false⟩ t ID3Ex.rows)).map (fun t => (t.numLeaf, t.error, t.predict [1, 0])) =
    .ok (5, 0, .ok (.cls 1)) := by decide +kernel

/-- **C108** is false: fitting the same object twice with the same data can prune the split that the first fit kept. -/
theorem C108_refit_false :
    ¬ ∀ (p : ID3Params ℚ) (rows : IRows Nat Nat) (t t' : INode Nat Nat ℚ),
      id3FitWith ID3Ex.gain List.dedup id p .fresh rows = .ok t → id3FitWith ID3Ex.gain List.dedup id p t rows = .ok t' →
      ∀ x, t'.predict x = t.predict x := by
  intro hall
  obtain ⟨t, ht, h1⟩ := ID3Ex.exists_of_map (show (id3FitWith ID3Ex.gain List.dedup id ⟨["a"], 1/2, 1, 1, true⟩ .fresh [([0], 0), ([1], 1)]).map
    (fun t => t.predict [1]) = .ok (.ok (.cls 1)) by decide +kernel)
  have h2 : ((id3FitWith ID3Ex.gain List.dedup id ⟨["a"], 1/2, 1, 1, true⟩ .fresh [([0], 0), ([1], 1)]).bind (fun t =>
    id3FitWith ID3Ex.gain List.dedup id ⟨["a"], 1/2, 1, 1, true⟩ t [([0], 0), ([1], 1)])).map (fun t => t.predict [1]) = .ok (.ok (.cls 0)) := by
    decide +kernel
  rw [ht] at h2
  obtain ⟨t', ht', h3⟩ := ID3Ex.exists_of_map h2
  have := hall _ _ t t' ht ht' [1]
  rw [h1, h3] at this
  exact absurd this (by decide)

/-- **C42**, limits of the hypothesis: without pruning and with a depth above the number of features, `predict` gives `None` to a training
row. -/
theorem C42_no_prunning_false :
    ¬ ∀ (p : ID3Params ℚ) (rows : IRows Nat Nat) (t : INode Nat Nat ℚ), id3FitWith ID3Ex.gain List.dedup id p .fresh rows = .ok t →
      ∀ r ∈ rows, ∃ c, t.predict r.1 = .ok (.cls c) := by
  intro hall
  obtain ⟨t, ht, h1⟩ := ID3Ex.exists_of_map (show (id3FitWith ID3Ex.gain List.dedup id ⟨["a"], 1/2, 2, 1, false⟩ .fresh [([0], 0), ([1], 1)]).map
    (fun t => t.predict [1]) = .ok (.ok .noneVal) by decide +kernel)
  obtain ⟨c, hc⟩ := hall _ _ t ht ([1], 1) (by simp)
  rw [h1] at hc
  exact absurd hc (by simp)

/-- **C109**, partial: `ID3.to_rule_based_system` fails with a `TypeError` for every tree and both flags, although the tree itself can
produce its rules (`C43_rules`). Missing: the full statement, that the method of the estimator returns the rules of its tree, is false. -/
theorem C109_to_rules_false (features : List String) (t : INode V C K) (verbose simplify : Bool) :
    id3ToRules features t verbose simplify = (.error .typeError : Py (List (Rule V (Option C) K))) := by
  simp [id3ToRules, INode.toRulesCall]

/-- the tree of the example has rules. -/
example : ∃ t rules, id3FitWith ID3Ex.gain List.dedup id ID3Ex.p .fresh ID3Ex.rows = .ok t ∧ t.toRulesCall ["a", "b"] [false] = .ok rules ∧
    id3ToRules ["a", "b"] t false false = .error .typeError := by
  obtain ⟨t, h, -⟩ := ID3Ex.fit_ok
  obtain ⟨rules, hr, -⟩ := C43_rules _ _ ID3Ex.arr_dedup _ ID3Ex.arr_id _ (by decide) _ _ _ h
  exact ⟨t, rules, h, hr, C109_to_rules_false _ _ _ _⟩

end Teacher
