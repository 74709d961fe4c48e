import Verif.Props.CfDistance

/-! # C55, C57: the counterfactual methods return on well formed inputs -/

set_option linter.unusedSectionVars false

namespace Teacher

open Spec

section
variable {C K : Type} [Field K] [LinearOrder K] [IsStrictOrderedRing K] [DecidableEq C]

theorem votes_total {rules : List (Rule String C K)} (hant : ∀ r ∈ rules, r.antecedent ≠ []) (hr : rules ≠ []) (inst' : Inst K) :
    ∃ c', weightedVote rules inst' = .ok c' := by
  obtain ⟨_, _, c', hc', _⟩ := C20_weighted_vote rules inst' hr hant
  exact ⟨c', hc'⟩

theorem literalDistance_total {sets : Dict String K} {v w : String} (hv : v ∈ sets.map Prod.fst) (hw : w ∈ sets.map Prod.fst)
    (hlen : 2 ≤ sets.length) : ∃ d, literalDistance sets v w = .ok d := by
  unfold literalDistance pyIndex
  rw [if_pos (show v ∈ Dict.keys sets from hv), if_pos (show w ∈ Dict.keys sets from hw)]
  have : ((sets.length : K) - 1) ≠ 0 := by
    have : (2 : K) ≤ (sets.length : K) := by exact_mod_cast hlen
    intro h0; linarith
  simp only [py_bind_ok, pyDiv, if_neg this]
  exact ⟨_, rfl⟩

/-- C55: `f_counterfactual` returns on well formed inputs: every feature of the instance has sets, every rule has conditions, the rules of
the factual are rules of the list, and a numerical feature that a rule uses is a feature of the instance with at least two sets, the one of the rule
among them. -/
theorem C55_f_total (ident : Nat → Nat → String → Bool) (factual : List (Rule String C K)) (inst : Inst K)
    (rules : List (Rule String C K)) (c : C) (num : List String) (tau : K) (hne : ∀ p ∈ inst, p.2 ≠ [])
    (hant : ∀ r ∈ rules, r.antecedent ≠ []) (hfact : ∀ r ∈ factual, r ∈ rules)
    (hnum : ∀ r ∈ rules, ∀ p ∈ r.antecedent, p.1 ∈ num →
      ∃ sets, Dict.get? inst p.1 = some sets ∧ p.2 ∈ sets.map Prod.fst ∧ 2 ≤ sets.length) :
    ∃ o, fCounterfactual ident factual inst rules c num tau = .ok o := by
  have hrule : ∀ id, ∀ cf ∈ rules, ∀ r ∈ rules, ∃ d, cfDistRule id cf r inst num tau = .ok d := by
    intro id cf hcf r hr
    unfold cfDistRule
    obtain ⟨d, hd⟩ := sumLoop_total (fun k => (do
      let clause ← Dict.get inst k
      let v ← Dict.get r.anteDict k
      let w ← Dict.get cf.anteDict k
      literalDistance clause v w : Py K)) (num.filter (fun x => x ∈ Dict.keys r.anteDict ∧ x ∈ Dict.keys cf.anteDict))
      (categoricalDistance id r.anteDict cf.anteDict num : K) (by
        intro k hk
        obtain ⟨hk1, h2⟩ := List.mem_filter.1 hk
        simp only [decide_eq_true_eq] at h2
        obtain ⟨v, hv⟩ := (Dict.get?_isSome_iff _ _).2 h2.1
        obtain ⟨w, hw⟩ := (Dict.get?_isSome_iff _ _).2 h2.2
        obtain ⟨sets, s1, s2, s3⟩ := hnum r hr _ (ruleValue_mem ((anteDict_get? r k).symm.trans hv)) hk1
        obtain ⟨sets', t1, t2, -⟩ := hnum cf hcf _ (ruleValue_mem ((anteDict_get? cf k).symm.trans hw)) hk1
        simp only at s1 s2 t1 t2
        rw [s1] at t1
        cases t1
        obtain ⟨d, hd⟩ := literalDistance_total (v := v) (w := w) s2 t2 s3
        refine ⟨d, ?_⟩
        rw [Dict.get_eq_ok_iff.2 s1, Dict.get_eq_ok_iff.2 hv, Dict.get_eq_ok_iff.2 hw]
        exact hd)
    simp only [hd, py_bind_ok]
    exact ⟨_, rfl⟩
  have hdist : ∀ i, ∀ r ∈ rules, ∃ d, fDist (ident i) factual inst num tau r = .ok d := by
    intro i r hr
    unfold fDist
    apply sumLoop_total
    rintro ⟨q, j⟩ hq
    have hq' := hfact q (List.fst_mem_of_mem_zipIdx hq)
    obtain ⟨m, hm, -⟩ := (C17_matching q inst).2 (hant q hq')
    obtain ⟨d, hd⟩ := hrule (ident i j) r hr q hq'
    simp only [hm, hd, py_bind_ok]
    exact ⟨_, rfl⟩
  unfold fCounterfactual fCandidates
  obtain ⟨cfs, hcfs⟩ := forall₂_of_forall_exists
    (fun (p : Rule String C K × Nat) b => (do
      let d ← fDist (ident p.2) factual inst num tau p.1
      pure (p.1, d) : Py (Rule String C K × K)) = .ok b) (otherClass rules c).zipIdx (by
    rintro ⟨r, i⟩ hp
    have hr : r ∈ rules := (List.mem_filter.1 (List.fst_mem_of_mem_zipIdx hp)).1
    obtain ⟨d, hd⟩ := hdist i r hr
    exact ⟨(r, d), by simp only [hd]; rfl⟩)
  rw [(mapM_ok_iff _ _ _).2 hcfs]
  simp only [py_bind_ok, py_pure]
  by_cases hr : rules = []
  · have : otherClass rules c = [] := by rw [hr]; rfl
    rw [this] at hcfs
    cases hcfs
    exact ⟨_, rfl⟩
  · exact searchLoop_total hne (votes_total hant hr) _

/-- C57: `d_counterfactual` returns when every feature of the instance has sets, every rule has conditions, the names of the sets of the
continuous features are numbers, and the distance is defined on every row that has numbers exactly at the continuous positions. -/
theorem C57_d_total (parse : String → Py K) (dist : List (Cell K) → Py K) (cont : List Nat) (inst : Inst K)
    (rules : List (Rule String C K)) (c : C) (hne : ∀ p ∈ inst, p.2 ≠ []) (hant : ∀ r ∈ rules, r.antecedent ≠ [])
    (hparse : ∀ i ∈ cont, ∀ p, inst[i]? = some p → ∀ s ∈ p.2.map Prod.fst, ∃ x, parse s = .ok x)
    (hdist : ∀ cells : List (Cell K), cells.length = inst.length →
      (∀ (i : Nat) cell, cells[i]? = some cell → (i ∈ cont ↔ ∃ x, cell = .num x)) → ∃ d, dist cells = .ok d) :
    ∃ o, dCounterfactual parse dist cont inst rules c = .ok o := by
  have hd : ∀ r : Rule String C K, ∃ d, dDist parse dist cont inst r = .ok d := by
    intro r
    unfold dDist
    obtain ⟨⟨inst', ch⟩, ho⟩ := (applyChanges_ok_iff r inst).2 hne
    rw [ho]
    simp only [py_bind_ok]
    -- the moved instance has the sets of the instance
    have hsame : List.Forall₂ (fun (p p' : String × Dict String K) => p'.2.map Prod.fst = p.2.map Prod.fst) inst inst' := by
      unfold applyChanges at ho
      rw [py_bind_eq_ok] at ho
      obtain ⟨l, hl, he⟩ := ho
      simp only [py_pure, Except.ok.injEq, Prod.mk.injEq] at he
      rw [← he.1]
      rw [mapM_ok_iff] at hl
      rw [List.forall₂_map_right_iff]
      refine hl.imp ?_
      intro p q hq
      unfold applyOne at hq
      rw [py_bind_eq_ok] at hq
      obtain ⟨m, -, hq⟩ := hq
      cases hg : Dict.get? r.anteDict p.1 with
      | none =>
        rw [hg] at hq
        simp only [py_pure, Except.ok.injEq] at hq
        rw [← hq]
      | some v =>
        rw [hg] at hq
        simp only at hq
        by_cases hmv : m ≠ v
        · rw [if_pos hmv] at hq
          simp only [py_pure, Except.ok.injEq] at hq
          rw [← hq]
          simp
        · rw [if_neg hmv] at hq
          simp only [py_pure, Except.ok.injEq] at hq
          rw [← hq]
    have hnames : ∃ names : List String, inst'.mapM (fun p => strongest p.2) = .ok names ∧
        List.Forall₂ (fun (p : String × Dict String K) s => s ∈ p.2.map Prod.fst) inst' names := by
      obtain ⟨names, hn⟩ := forall₂_of_forall_exists (fun (p : String × Dict String K) s => strongest p.2 = .ok s) inst' (by
        intro p' hp'
        obtain ⟨p, hp, he⟩ := forall₂_mem_right hsame p' hp'
        apply strongest_ok_of_ne
        intro h0
        rw [h0] at he
        exact hne p hp (List.map_eq_nil_iff.1 he.symm))
      exact ⟨names, (mapM_ok_iff _ _ _).2 hn, hn.imp (fun p s h => strongest_mem h)⟩
    obtain ⟨names, hn, hin⟩ := hnames
    unfold decodeInst
    rw [hn]
    simp only [py_bind_ok]
    have hin' : ∀ (i : Nat) s, names[i]? = some s → ∃ p, inst[i]? = some p ∧ s ∈ p.2.map Prod.fst := by
      intro i s hs
      obtain ⟨hi, rfl⟩ := List.getElem?_eq_some_iff.1 hs
      have h1 : i < inst'.length := by rw [hin.length_eq]; exact hi
      have h2 : i < inst.length := by rw [hsame.length_eq]; exact h1
      refine ⟨inst[i], List.getElem?_eq_getElem h2, ?_⟩
      have e1 := List.Forall₂.get hsame h2 h1
      have e2 := List.Forall₂.get hin h1 hi
      simp only [List.get_eq_getElem] at e1 e2
      rw [← e1]
      exact e2
    have hcell : ∀ p ∈ names.zipIdx, ∃ cell, decodeCell parse cont p = .ok cell ∧ (p.2 ∈ cont ↔ ∃ x, cell = .num x) := by
      rintro ⟨s, i⟩ hp
      rw [List.mk_mem_zipIdx_iff_getElem?] at hp
      obtain ⟨p, hp1, hp2⟩ := hin' i s hp
      unfold decodeCell
      by_cases hc : i ∈ cont
      · obtain ⟨x, hx⟩ := hparse i hc p hp1 s hp2
        exact ⟨.num x, by simp only [if_pos hc, hx, py_bind_ok, py_pure], by simp [hc]⟩
      · exact ⟨.str s, by simp only [if_neg hc], by simp [hc]⟩
    obtain ⟨cells, hcells⟩ := forall₂_of_forall_exists _ _ hcell
    rw [(mapM_ok_iff _ _ cells).2 (hcells.imp (fun _ _ h => h.1))]
    simp only [py_bind_ok]
    apply hdist
    · rw [← hcells.length_eq, List.length_zipIdx, ← hin.length_eq, hsame.length_eq]
    · intro i cell hi
      obtain ⟨hl, rfl⟩ := List.getElem?_eq_some_iff.1 hi
      have h1 : i < names.zipIdx.length := by rw [hcells.length_eq]; exact hl
      have := (List.Forall₂.get hcells h1 hl).2
      simpa using this
  unfold dCounterfactual
  obtain ⟨cfs, hcfs⟩ := forall₂_of_forall_exists
    (fun (r : Rule String C K) b => (do
      let d ← dDist parse dist cont inst r
      pure (r, d) : Py (Rule String C K × K)) = .ok b) (otherClass rules c) (by
    intro r _
    obtain ⟨d, hd⟩ := hd r
    exact ⟨(r, d), by simp only [hd]; rfl⟩)
  rw [(mapM_ok_iff _ _ _).2 hcfs]
  simp only [py_bind_ok]
  by_cases hr : rules = []
  · have : otherClass rules c = [] := by rw [hr]; rfl
    rw [this] at hcfs
    cases hcfs
    exact ⟨_, rfl⟩
  · exact searchLoop_total hne (votes_total hant hr) _

end

/-- the concrete instance and rules meet the hypotheses of both. -/
example : (∀ p ∈ cfInst, p.2 ≠ []) ∧ (∀ r ∈ cfRules, r.antecedent ≠ []) ∧
    (∀ r ∈ cfRules, ∀ p ∈ r.antecedent, p.1 ∈ ["age"] →
      ((Dict.get? cfInst p.1).any (fun sets => p.2 ∈ sets.map Prod.fst ∧ 2 ≤ sets.length)) = true) := by decide +kernel

end Teacher
