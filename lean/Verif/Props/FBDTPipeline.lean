import Verif.Props.EndToEnd

/-! # C146: explaining a fuzzified neighborhood with the binary tree, end to end -/

set_option linter.unusedSectionVars false

namespace Teacher

open Spec

section
variable {K : Type} [Field K] [LinearOrder K] [IsStrictOrderedRing K]

/-- the rules of a fitted binary tree: the weight is positive, and there is a condition unless the tree is a single leaf. -/
theorem bfitted_rules [NanSort K] {ent : List K → List Nat → K} {p : FDTParams K}
    {X : List (List (Cell K))} {y : List Nat} {t : BNode Nat K} (h : fbdtFit ent p fbdtNew X y = .ok t) :
    ∃ rs, fbdtToRules t false false = .ok rs ∧ rs ≠ [] ∧ (∀ r ∈ rs, 0 < r.weight) ∧
      (∀ r ∈ rs, r.antecedent = [] ↔ t.isLeaf = true) := by
  obtain ⟨rs, h1, h2⟩ := C47_fbdt_rules ent p X y t h
  refine ⟨rs, h1, ?_, ?_, ?_⟩
  · have hb := bfitted_branching h
    obtain ⟨q0, hq0⟩ := BBranching.exists_leaf t hb
    obtain ⟨cv, c1, c2, c3, c4, c5⟩ := C38_leaf_distributions ent p X y t h q0 hq0
    have : ∃ kv ∈ cv, 0 < kv.2 := by
      by_contra hc
      push Not at hc
      have : (cv.map Prod.snd).sum ≤ 0 := by
        apply sum_nonpos_list
        intro x hx
        obtain ⟨kv, hkv, rfl⟩ := List.mem_map.1 hx
        exact hc kv hkv
      rw [c5] at this
      exact absurd this (not_le.2 zero_lt_one)
    obtain ⟨kv, hkv, hpos⟩ := this
    have hcl : ∃ cls, List.Forall₂ (fun (test : BTest K) (cl : String × List String) => cl.1 = test.var.name ∧
          List.Forall₂ (fun i s => ∃ fs, test.var.sets[i]? = some fs ∧ s = fs.name) test.idxs cl.2) q0.1 cls := by
      apply forall₂_of_forall_exists
      intro test ht
      obtain ⟨-, -, g3⟩ := bfitted_tests h q0 hq0 test ht
      obtain ⟨l, hl⟩ := forall₂_of_forall_exists (fun (i : Nat) (s : String) => ∃ fs, test.var.sets[i]? = some fs ∧ s = fs.name) test.idxs
        (fun i hi => ⟨(test.var.sets[i]'(g3 i hi)).name, _, List.getElem?_eq_getElem (g3 i hi), rfl⟩)
      exact ⟨(test.var.name, l), rfl, hl⟩
    obtain ⟨cls, hcls⟩ := hcl
    have : (⟨cls, kv.1, kv.2⟩ : Rule (List String) Nat K) ∈ rs := by
      rw [h2]
      refine ⟨q0.1, cv, ?_, hkv, hpos, hcls⟩
      rw [← c1]; exact hq0
    exact List.ne_nil_of_mem this
  · intro r hr
    obtain ⟨path, cv, -, -, hpos, -⟩ := (h2 r).1 hr
    exact hpos
  · intro r hr
    obtain ⟨path, cv, hp, -, -, hf⟩ := (h2 r).1 hr
    constructor
    · intro he
      rw [he] at hf
      cases hf
      by_contra hl
      exact bfitted_split h (by simpa using hl) _ hp rfl
    · intro hl
      obtain ⟨-, -, -, hroot, -⟩ := fbdtFit_nodes h
      obtain ⟨a, b, c, d, e, f⟩ := t
      simp only [BNode.isLeaf] at hl
      simp only [BNode.test] at hroot
      subst hl hroot
      simp only [bLeafPaths, if_true, List.mem_singleton, Prod.mk.injEq, Option.toList_none] at hp
      rw [hp.1] at hf
      exact List.forall₂_nil_left_iff.1 hf

/-- arguments of `FBDTExplainer.fit`: valid names of methods, only the keywords that these methods read, a positive fuzzy threshold. -/
structure Spec.GoodBArgs (a : ExpArgs K) : Prop where
  rect : Rectangular a.inst
  fname : a.factual ∈ factualNames
  cname : a.counterfactual ∈ counterfactualNames
  lam : a.factual = "c_factual" → a.kw.lam ≠ none
  noLam : a.factual ≠ "c_factual" → a.kw.lam = none ∧ a.kw.beta = none
  th : ∀ th, a.kw.fuzzyThreshold = some th → 0 < th

/-- **C146** (for the decoded instance, at most two classes and no keywords of `d_counterfactual`). `FBDTExplainer.fit` on a ready neighborhood, asked about its decoded instance, fits a binary tree and finds
the class `c` that the tree predicts for the instance, a label. If the tree has a split and the degrees of the instance add up to at most 1 in each variable,
`c` has the largest activation of all labels in the rules of the tree, evaluated on the memberships of the instance; the fit then succeeds exactly when the factual method has an
answer (otherwise it raises the exception of that method). If the tree is a single leaf, the fit raises `ValueError`; with a keyword of `d_counterfactual` or
another one that is not known it raises `TypeError`, also when `d_counterfactual` was asked for. -/
theorem C146_fbdt_explains_partial [NanSort K] (cx : ExpCtx K) (a : ExpArgs K) (vs : List (FVar K)) (X : Frame K) (y : List Nat)
    (dec : List (Cell K)) (im : Memb K) (hr : Ready a.nb vs X y dec im) (hg : GoodBArgs a) (hinst : a.inst.flatten = dec)
    (hy2 : y.dedup.length ≤ 2) (hy : 1 ∈ y ∨ ∀ a ∈ y, ∀ b ∈ y, a = b) (s : EState K (List (Rule (List String) Nat K)) String) :
    ∃ (p : FDTParams K) (t : BNode Nat K) (rs : List (Rule (List String) Nat K)) (c : Nat) (inst : Inst K),
      TreeParams a p ∧ fbdtFit cx.ent p fbdtNew X.rows y = .ok t ∧ fbdtToRules t false false = .ok rs ∧
      fbdtPredict min .agg t [dec] = .ok [[c]] ∧ c ∈ y ∧ OneInstance im inst ∧
      (t.isLeaf = false → SubPartition vs dec → (∃ deg : Rule (List String) Nat K → K, (∀ r ∈ rs, r.matchingMulti inst = .ok (deg r)) ∧
        ∀ c' ∈ y, activation deg rs c' ≤ activation deg rs c)) ∧
      (a.kw.other = false → a.kw.dGiven = false → t.isLeaf = false → FactualAnswers a.factual (fun r => r.matchingMulti inst) rs c →
        ∃ f fact, fbdtExplainerFit cx a s =
          (.ok (), ⟨some a.target, some c, some f, some (fact, "COUNTERFACTUAL NOT IMPLEMENTED FOR BINARY TREE")⟩)) ∧
      (a.kw.other = false → a.kw.dGiven = false → t.isLeaf = false → ¬ FactualAnswers a.factual (fun r => r.matchingMulti inst) rs c →
        (fbdtExplainerFit cx a s).1 = .error (factualError a.factual)) ∧
      (a.kw.other = false → a.kw.dGiven = false → t.isLeaf = true → (fbdtExplainerFit cx a s).1 = .error .valueError) ∧
      (a.kw.other = true ∨ a.kw.dGiven = true → (fbdtExplainerFit cx a s).1 = .error .typeError) := by
  obtain ⟨p, hpdef⟩ : ∃ p : FDTParams K, p = ⟨vs, a.kw.fuzzyThreshold.getD (1 / 10000), a.kw.maxDepth.getD 10, a.kw.minNumExamples.getD 1⟩ := ⟨_, rfl⟩
  have hpv : p.vars = vs := by rw [hpdef]
  have hth : 0 < p.fuzzyThreshold := by
    rw [hpdef]
    simp only
    cases ht : a.kw.fuzzyThreshold with
    | none => simp only [Option.getD_none]; positivity
    | some th => exact hg.th th ht
  have hTP : TreeParams a p := by rw [hpdef]; exact ⟨hr.hvars, rfl, rfl, rfl⟩
  have hnn : ∀ v ∈ p.vars, (v.sets.map FSet.name).Nodup := fun v hv => (hr.sets v (by rw [← hpv]; exact hv)).2
  obtain ⟨t, ht⟩ := C38_fit_succeeds cx.ent p hth fbdtNew X.rows y hr.rect hr.len (by rw [hpv]; exact hr.names)
    (fun v hv => (hr.sets v (by rw [← hpv]; exact hv)).1)
    (by
      intro i v hv row hrow
      rw [hpv] at hv
      exact hr.rows row hrow i v hv)
  obtain ⟨rs, hrs, hrsne, hrsw, hrsl⟩ := bfitted_rules ht
  have hpred : ∀ row : List (Cell K), row ≠ [] → WellTyped vs row → ∃ c ∈ y, fbdtPredict min .agg t [row] = .ok [[c]] := fun row h1 h2 =>
    C27_fbdt_fitted_total cx.ent p X.rows y t ht min .agg row h1 (by rw [hpv]; exact h2)
  obtain ⟨c, hc, hcp⟩ := hpred dec hr.decNe hr.decRow
  obtain ⟨inst, hone, hkI, hent, hdegs⟩ := one_row vs hr.names (fun v hv => (hr.sets v hv).2) dec im hr.mem
  obtain ⟨cs, hcs⟩ : ∃ cs, List.Forall₂ (fun row c => c ∈ y ∧ fbdtPredict min .agg t [row] = .ok [[c]]) X.rows cs := by
    apply forall₂_of_forall_exists
    intro row hrow
    obtain ⟨n, hn0, -, hn⟩ := hr.rect
    exact hpred row (by intro h0; have := hn row hrow; rw [h0] at this; simp only [List.length_nil] at this; omega) (hr.rows row hrow)
  have hout : fbdtPredict min .agg t X.rows = .ok [cs] := ((C26_fbdt_row_wise min .agg t X.rows hr.rect).2 cs).2 (hcs.imp (fun _ _ h => h.2))
  have hcsy : ∀ k ∈ cs, k ∈ y := by
    intro k hk
    obtain ⟨row, -, h1, -⟩ := forall₂_mem_right hcs k hk
    exact h1
  obtain ⟨f, hf⟩ := fdtFidelity_total (K := K) y cs hcsy (.inr hy)
  have hf : f1Binary y cs = .ok f := by
    have hlen : (npUnique y).length = y.dedup.length := by
      apply List.Perm.length_eq
      rw [List.perm_ext_iff_of_nodup (npUnique_nodup y) (List.nodup_dedup y)]
      intro a
      rw [mem_npUnique, List.mem_dedup]
    unfold fdtFidelity at hf
    rwa [if_neg (by omega)] at hf
  have hchk : checkExpArgs a = .ok () := by
    obtain ⟨h1, h2⟩ := checkExpArgs_spec a
    refine h2.resolve_right (fun h => ?_)
    rcases h1.1 h with h | h | h | h
    · exact h hg.rect
    · exact h hg.fname
    · exact hg.lam h.1 h.2
    · exact h hg.cname
  have hdata : fbdtData a = .ok ⟨p, im, [], X.rows, y⟩ := by
    unfold fbdtData getFuzzyVars getInstanceMembership getX getY getter
    simp only [hr.hvars, hr.him, hr.hX, hr.hy, py_bind_ok, expParams_total, py_pure, hpdef]
  have htrain : fbdtTrain cx a = .ok ((⟨p, im, [], X.rows, y⟩, t), cs) := by
    unfold fbdtTrain
    simp only [hdata, py_bind_ok, ht, hout, firstRow, py_pure]
  have hconcl : fbdtConclude a (⟨p, im, [], X.rows, y⟩, t) = .ok ((⟨p, im, [], X.rows, y⟩, rs), c) := by
    unfold fbdtConclude
    simp only [hrs, py_bind_ok, hinst, hcp, onlyClass, py_pure]
  have hfin : ∀ rest, (a.kw.other || a.kw.dGiven) = rest → ∀ r : Py (List (Rule (List String) Nat K)),
      runFactual (FMethod.ofName a.factual) a.kw rest (fun r => r.matchingMulti inst) rs c = r →
      fbdtFinish a (⟨p, im, [], X.rows, y⟩, rs) c = (do
        let fact ← r
        pure (fact, "COUNTERFACTUAL NOT IMPLEMENTED FOR BINARY TREE")) := by
    intro rest hrest r h
    unfold fbdtFinish
    simp only [(scalarInst_ok_iff im inst).2 hone, py_bind_ok, hrest, h]
  have hfit : ∀ o, fbdtFinish a (⟨p, im, [], X.rows, y⟩, rs) c = o → fbdtExplainerFit cx a s = match o with
      | .error e => (.error e, ⟨some a.target, some c, some f, s.explanation⟩)
      | .ok x => (.ok (), ⟨some a.target, some c, some f, some x⟩) := by
    intro o ho
    unfold fbdtExplainerFit explainerFit
    simp only [hchk, htrain, hf, hconcl, ho]
    cases o <;> rfl
  have hmt : t.isLeaf = false → ∀ r ∈ rs, ∃ m, r.matchingMulti inst = .ok m := by
    intro hl r hr0
    have hant : r.antecedent ≠ [] := fun h0 => by simp [hl] at hrsl; exact hrsl r hr0 h0
    obtain ⟨-, h2, h3⟩ := C17_matching_multi r inst
    by_cases hk : ∃ p ∈ r.antecedent, ∃ v ∈ p.2, ¬ Known inst p.1 v
    · exact ⟨0, h2 hant hk⟩
    · push Not at hk
      have hdeg : ∀ n v, ∃ d : K, Known inst n v → HasDegree inst n v d := by
        intro n v
        by_cases hkn : Known inst n v
        · obtain ⟨d, hd⟩ := hkn
          exact ⟨d, fun _ => hd⟩
        · exact ⟨0, fun h => absurd h hkn⟩
      choose deg hdeg using hdeg
      obtain ⟨m, hm, -⟩ := h3 hant deg (fun p hp v hv => hdeg _ _ (hk p hp v hv))
      exact ⟨m, hm⟩
  refine ⟨p, t, rs, c, inst, hTP, ht, hrs, hcp, hc, hone, ?_, ?_, ?_, ?_, ?_⟩
  · intro hl hsub
    obtain ⟨L, hL, pre, post, he, h1, h2⟩ := C27_fbdt_max_vote min .agg t dec c hcp
    obtain ⟨rs', L', deg, hrs', hL', hdeg, hact, -⟩ := C40_same_votes cx.ent p hnn X.rows y t ht hl dec hr.decNe (by rw [hpv]; exact hsub) inst
      (by rw [hpv]; exact hdegs) false
    rw [hrs] at hrs'
    cases hrs'
    have hLL : L' = L := hL'.unique hL
    subst hLL
    refine ⟨deg, hdeg, fun c' hc' => ?_⟩
    rw [hact, hact]
    have hmem : c' ∈ L'.flatMap (fun q => q.1.map Prod.fst) := by
      have hne : c ∈ L'.flatMap (fun q => q.1.map Prod.fst) := by rw [he]; simp
      obtain ⟨q, hq, -⟩ := List.mem_flatMap.1 hne
      exact List.mem_flatMap.2 ⟨q, hq, ((bfitted_rowLeaves_weights ht hL q hq).2.2.2 c').2 hc'⟩
    rw [he, List.mem_append, List.mem_cons] at hmem
    rcases hmem with hm | rfl | hm
    · exact (h1 c' hm).le
    · exact le_refl _
    · exact h2 c' hm
  · intro ho hd hl hans
    obtain ⟨fact, hfact⟩ := (runFactual_exact a.factual hg.fname a.kw hg.lam hg.noLam (fun r => r.matchingMulti inst) rs c (hmt hl) hrsw).1 hans
    refine ⟨f, fact, ?_⟩
    refine (hfit (.ok (fact, _)) ?_).trans rfl
    rw [hfin false (by rw [ho, hd]; rfl) _ hfact]
    rfl
  · intro ho hd hl hans
    have hfact := (runFactual_exact a.factual hg.fname a.kw hg.lam hg.noLam (fun r => r.matchingMulti inst) rs c (hmt hl) hrsw).2 hans
    rw [hfit (.error (factualError a.factual)) (by rw [hfin false (by rw [ho, hd]; rfl) _ hfact]; rfl)]
  · intro ho hd hl
    have hfact := runFactual_empty a.factual hg.fname a.kw hg.lam hg.noLam (fun r => r.matchingMulti inst) rs c hrsne
      (fun r hr => (C17_matching_multi r inst).1 ((hrsl r hr).2 hl))
    rw [hfit (.error .valueError) (by rw [hfin false (by rw [ho, hd]; rfl) _ hfact]; rfl)]
  · intro h
    rw [hfit (.error .typeError) (by
      rw [hfin true (by rcases h with h | h <;> simp [h]) (.error .typeError) (by simp [runFactual])]
      rfl)]

/-- **C146**, from the sample to the explanation: after `fit` and `fuzzify` of a sampling neighborhood (C145) the `FBDTExplainer`, asked about the decoded
instance without unknown keywords, succeeds exactly when the tree has a split and the factual method has an answer; `exp_value` is then a class that the black box gave to the sample, and
no class has a larger activation in the rules. -/
theorem C146_end_to_end [NanSort K] (o : NObj K) (hd : GoodDs o.ds) (rows : List (List K)) (cls : List String) (hs : GoodSample o rows cls)
    (fa : FuzzArgs K) (nums cats : List String) (ha : GoodFuzz o fa nums cats rows) (h : List (NCall K))
    (cx : ExpCtx K) (a : ExpArgs K) (hnb : a.nb = o.run (h ++ [.fit (some (.ok rows)), .fuzzify fa]))
    (hdec : ShowsRow o.ds o.ds.features o.inst a.inst.flatten) (hg : GoodBArgs a) (hother : a.kw.other = false) (hdg : a.kw.dGiven = false)
    (hy2 : (rows.map o.bb).dedup.length ≤ 2) (hy : (∃ r ∈ rows, o.bb r = 1) ∨ ∀ r ∈ rows, ∀ r' ∈ rows, o.bb r = o.bb r')
    (s : EState K (List (Rule (List String) Nat K)) String) :
    ∃ (p : FDTParams K) (X : Frame K) (t : BNode Nat K) (rs : List (Rule (List String) Nat K)) (c : Nat) (inst : Inst K),
      TreeParams a p ∧ a.nb.X = some X ∧ fbdtFit cx.ent p fbdtNew X.rows (rows.map o.bb) = .ok t ∧ fbdtToRules t false false = .ok rs ∧ fbdtPredict min .agg t [a.inst.flatten] = .ok [[c]] ∧ (∃ r ∈ rows, c = o.bb r) ∧
      (∃ im, a.nb.instMem = some im ∧ OneInstance im inst) ∧
      (t.isLeaf = false → ∃ deg : Rule (List String) Nat K → K, (∀ r ∈ rs, r.matchingMulti inst = .ok (deg r)) ∧
        ∀ r ∈ rows, activation deg rs (o.bb r) ≤ activation deg rs c) ∧
      ((fbdtExplainerFit cx a s).1 = .ok () ↔ t.isLeaf = false ∧ FactualAnswers a.factual (fun r => r.matchingMulti inst) rs c) ∧
      ((fbdtExplainerFit cx a s).1 = .ok () → (fbdtExplainerFit cx a s).2.expValue = some c) := by
  obtain ⟨-, -, vs, shown, dec, im, g1, g2, g3, g4, g5, g6⟩ := C145_pipeline o hd rows cls hs fa nums cats ha h
  rw [← hnb] at g4
  have hde : a.inst.flatten = dec := hdec.unique g1
  obtain ⟨p, t, rs, c, inst, h1, h2, h3, h4, h5, h6, h7, h8, h9, h10, -⟩ := C146_fbdt_explains_partial cx a vs _ _ dec im g4 hg hde hy2 (by
      rcases hy with ⟨r, hr, e⟩ | hy
      · exact .inl (by rw [← e]; exact List.mem_map_of_mem hr)
      · refine .inr ?_
        simp only [List.mem_map]
        rintro _ ⟨r, hr, rfl⟩ _ ⟨r', hr', rfl⟩
        exact hy r hr r' hr') s
  obtain ⟨r, hr, e⟩ := List.mem_map.1 h5
  have hiff : (fbdtExplainerFit cx a s).1 = .ok () → t.isLeaf = false ∧ FactualAnswers a.factual (fun r => r.matchingMulti inst) rs c := by
    intro hok
    have hl : t.isLeaf = false := by
      by_contra hl
      rw [h10 hother hdg (by simpa using hl)] at hok
      cases hok
    refine ⟨hl, ?_⟩
    by_contra hn
    rw [h9 hother hdg hl hn] at hok
    cases hok
  refine ⟨p, _, t, rs, c, inst, h1, g4.hX, h2, h3, by rw [hde]; exact h4, ⟨r, hr, e.symm⟩, ⟨im, g4.him, h6⟩, ?_, ⟨hiff, fun hh => ?_⟩, fun hok => ?_⟩
  · intro hl
    obtain ⟨deg, k1, k2⟩ := h7 hl g5
    exact ⟨deg, k1, fun r hr => k2 _ (List.mem_map_of_mem hr)⟩
  · obtain ⟨f, fact, q⟩ := h8 hother hdg hh.1 hh.2
    rw [q]
  · obtain ⟨l1, l2⟩ := hiff hok
    obtain ⟨f, fact, q⟩ := h8 hother hdg l1 l2
    rw [q]

end

/-! ## The hypotheses hold on the example -/

section

theorem expArgs_goodB : GoodBArgs (expArgs "m_factual" "i_counterfactual" {} 0) where
  rect := expArgs_good.rect
  fname := expArgs_good.fname
  cname := expArgs_good.cname
  lam := expArgs_good.lam
  noLam := expArgs_good.noLam
  th := expArgs_good.th

example : SubPartition exParams.vars expRow := by
  intro i v hv
  match i, hv with
  | 0, hv =>
    simp only [exParams, List.getElem?_cons_zero, Option.some.injEq] at hv
    subst hv
    exact ⟨.num 2, [0, 1/2, 1/2], rfl, .cons (by decide +kernel) (.cons (by decide +kernel) (.cons (by decide +kernel) .nil)), by decide +kernel⟩
  | 1, hv =>
    simp only [exParams, List.getElem?_cons_zero, List.getElem?_cons_succ, Option.some.injEq] at hv
    subst hv
    exact ⟨.str "m", [1, 0], rfl, .cons (by decide +kernel) (.cons (by decide +kernel) .nil), by decide +kernel⟩
  | n + 2, hv => simp [exParams] at hv

example : exY.dedup.length ≤ 2 ∧ 1 ∈ exY := by decide +kernel

/-- the explanation of the example. -/
example : fbdtExplainerFit expCtx (expArgs "m_factual" "i_counterfactual" {} 0) {} = (.ok (), ⟨some 0, some 0, some 1,
    some ([⟨[("sex", ["m"]), ("age", ["0", "1"])], 0, 1⟩], "COUNTERFACTUAL NOT IMPLEMENTED FOR BINARY TREE")⟩) := by decide +kernel

/-- and that of the neighborhood fitted and fuzzified in `Props/EndToEnd`. -/
example : fbdtExplainerFit expCtx e2eArgs {} = (.ok (), ⟨some 0, some 0, some 1,
    some ([⟨[("age", ["low", "mid"])], 0, 1⟩], "COUNTERFACTUAL NOT IMPLEMENTED FOR BINARY TREE")⟩) := by decide +kernel

/-- C146 is false with three classes, or with the keywords that `d_counterfactual` requires: the first is a `ValueError` of the fidelity, the second a
`TypeError` of the factual method, although both sets of arguments satisfy the other hypotheses. -/
theorem C146_fbdt_explains_false :
    (GoodBArgs expThreeArgs ∧ (fdtExplainerFit expCtx expThreeArgs {}).1 = .ok () ∧ (fbdtExplainerFit expCtx expThreeArgs {}).1 = .error .valueError) ∧
    (∀ a : ExpArgs ℚ, a = expArgs "m_factual" "d_counterfactual" { contIdx := some [0], discIdx := some [1], mad := some (fun _ => none) } 0 →
      GoodBArgs a ∧ (fbdtExplainerFit expCtx a {}).1 = .error .typeError) := by
  refine ⟨⟨?_, C112_fdt_three_classes⟩, ?_⟩
  · exact {
      rect := ⟨2, by decide, by decide, by decide⟩
      fname := by decide
      cname := by decide
      lam := by decide
      noLam := fun _ => ⟨rfl, rfl⟩
      th := by
        intro th h
        cases h }
  · rintro a rfl
    refine ⟨?_, by decide +kernel⟩
    exact {
      rect := ⟨2, by decide, by decide, by decide⟩
      fname := by decide
      cname := by decide
      lam := by decide
      noLam := fun _ => ⟨rfl, rfl⟩
      th := by
        intro th h
        cases h }

end

end Teacher
