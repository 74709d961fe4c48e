import Verif.Props.RoundedSplits
import Verif.Props.FBDTSplits

/-! # C211: where FBDT splits in floating point, and how -/

set_option linter.unusedSectionVars false

namespace Teacher
open Spec FB

variable {C K : Type} [Field K] [LinearOrder K] [IsStrictOrderedRing K] [LinearOrder C] {A : Arith K} {u η : K}

/-- the degrees of `n` rows in the union of sets with degrees `D`: added up from left to right, with a rounding after each addition. -/
def Spec.unionF (A : Arith K) (n : Nat) (D : List (List K)) : List K :=
  D.foldl (List.zipWith (fun a b => A.fl (a + b))) (List.replicate n 0)

/-- the information gain of splitting rows of degrees `mu` into parts with degrees `l` and `r`, with a rounding after each operation. -/
def Spec.gainOfPartsF (A : Arith K) (ent : List K → List C → K) (mu : List K) (y : List C) (l r : List K) : K :=
  A.fl (ent mu y - A.fl (A.fl (A.fl (A.sum l * ent l y) + A.fl (A.sum r * ent r y)) / A.sum mu))

/-- a cut of a numerical variable that is not tested on the path, into its first `k` sets and the others. -/
def Spec.CutF (A : Arith K) (vars : List (FVar K)) (X : List (List (Cell K))) (path : List (BTest K)) (j : Nat) (v : FVar K)
    (D : List (List K)) (k : Nat) : Prop :=
  vars[j]? = some v ∧ (∀ t ∈ path, t.att ≠ j) ∧ (∃ s, v.sets[0]? = some (.cont s)) ∧ SetDegreesF A X j v D ∧ 0 < k ∧ k < v.sets.length

/-! ### the best candidate -/

theorem evalSide_unused {n : Nat} {used : List String} {ign : Dict String Nat} {heap : IgnHeap K} (hf : HeapOk n used ign heap) {f : String}
    (hu : f ∉ used) (s : List K) : (evalSide n ign heap f s).1 = s := by
  unfold evalSide
  rw [(hf.2.2 f).2 hu]

theorem foldPartsF_best {ent : List K → List C → K} {Xm : Dict String (Dict String (List K))} {y : List C} (hX : Table Xm y.length)
    {used : List String} {mu : List K} {ign : Dict String Nat} (parts : List BPart) :
    ∀ (st st' : Option (BBest K Nat) × IgnHeap K), HeapOk y.length used ign st.2 →
    parts.foldlM (evalPartF A ent Xm y mu ign) st = .ok st' →
    bestGain st.1 ≤ bestGain st'.1 ∧
    (∀ q ∈ parts, q.1 ∉ used → ∃ lm rm g, sumSetsF A Xm y.length q.1 q.2.1 = .ok lm ∧ sumSetsF A Xm y.length q.1 q.2.2 = .ok rm ∧
      splitGainOfF A ent y mu (List.zipWith min mu lm) (List.zipWith min mu rm) = .ok g ∧ g ≤ bestGain st'.1) ∧
    (st'.1 = st.1 ∨ ∃ b, st'.1 = some b ∧ splitGainOfF A ent y mu b.mus.1 b.mus.2 = .ok b.gain) := by
  induction parts with
  | nil =>
    intro st st' _ h
    simp only [List.foldlM_nil, py_pure, Except.ok.injEq] at h
    subst h
    exact ⟨le_rfl, by simp, .inl rfl⟩
  | cons q parts ih =>
    intro st st' hf h
    rw [List.foldlM_cons] at h
    obtain ⟨st1, hq, h1⟩ := py_bind_eq_ok.1 h
    obtain ⟨lm, hl, e1⟩ := py_bind_eq_ok.1 hq
    obtain ⟨rm, hr, e2⟩ := py_bind_eq_ok.1 e1
    obtain ⟨g, hg, e3⟩ := py_bind_eq_ok.1 e2
    obtain ⟨-, -, l3, -⟩ := evalSideF_spec hX hf hl
    obtain ⟨-, -, r3, -⟩ := evalSideF_spec hX l3 hr
    cases e3
    obtain ⟨i1, i2, i3⟩ := ih _ _ r3 h1
    simp only at i1 i3
    have hlt_iff : ∀ hp : Prop, hp = (bestGain st.1 < g) → (hp ↔ bestGain st.1 < g) := fun _ e => by rw [e]
    have hle : bestGain st.1 ≤ bestGain st'.1 ∧ g ≤ bestGain st'.1 := by
      split_ifs at i1 with hlt
      · have h2 : g ≤ bestGain st'.1 := i1
        have h3 : bestGain st.1 < g := (hlt_iff _ (by cases st.1 <;> rfl)).1 hlt
        exact ⟨h3.le.trans h2, h2⟩
      · have h3 : ¬ bestGain st.1 < g := fun h3 => hlt ((hlt_iff _ (by cases st.1 <;> rfl)).2 h3)
        exact ⟨i1, (not_lt.1 h3).trans i1⟩
    refine ⟨hle.1, ?_, ?_⟩
    · intro q' hq' hu
      rcases List.mem_cons.1 hq' with rfl | hq'
      · refine ⟨lm, rm, g, hl, hr, ?_, hle.2⟩
        rwa [evalSide_unused hf hu lm, evalSide_unused l3 hu rm] at hg
      · exact i2 q' hq' hu
    · rcases i3 with i3 | i3
      · split_ifs at i3 with hlt
        · exact .inr ⟨_, i3, hg⟩
        · exact .inl i3
      · exact .inr i3

theorem bMaxGainF_best [NanSort K] {ent : List K → List C → K} {cats : List String} {Xm : Dict String (Dict String (List K))} {y : List C}
    (hX : Table Xm y.length) {used : List String} {mu : List K} {ign : Dict String Nat} {heap heap' : IgnHeap K}
    (hf : HeapOk y.length used ign heap) {fd : Dict String (List String)} {best : Option (BBest K Nat)}
    (h : bMaxGainF A ent cats Xm y mu ign fd heap = .ok (best, heap')) :
    ∃ c0 parts, (npUnique y)[0]? = some c0 ∧ binaryPartitionsF A cats Xm (y.map (fun c => decide (c = c0))) fd = .ok parts ∧
      0 ≤ bestGain best ∧
      (∀ q ∈ parts, q.1 ∉ used → ∃ lm rm g, sumSetsF A Xm y.length q.1 q.2.1 = .ok lm ∧ sumSetsF A Xm y.length q.1 q.2.2 = .ok rm ∧
        splitGainOfF A ent y mu (List.zipWith min mu lm) (List.zipWith min mu rm) = .ok g ∧ g ≤ bestGain best) ∧
      ∀ b, best = some b → 0 < b.gain ∧ splitGainOfF A ent y mu b.mus.1 b.mus.2 = .ok b.gain := by
  obtain ⟨_, _, _, _, _, _, hb⟩ := bMaxGainF_ok hX hf h
  unfold bMaxGainF at h
  cases hc : (npUnique y)[0]? with
  | none => rw [hc] at h; cases h
  | some c0 =>
    rw [hc] at h
    obtain ⟨parts, hp, h1⟩ := py_bind_eq_ok.1 h
    obtain ⟨i1, i2, i3⟩ := foldPartsF_best hX parts _ _ hf h1
    refine ⟨c0, parts, rfl, hp, i1, i2, ?_⟩
    intro b e
    refine ⟨(hb b e).1, ?_⟩
    rcases i3 with i3 | ⟨b', e', i3⟩
    · simp only at i3; rw [e] at i3; cases i3
    · simp only at e'; rw [e] at e'; cases e'; exact i3

/-! ### what was decided at a node -/

/-- the decision at a node: `used` are the features tested above it. -/
def BDecisionF [NanSort K] (A : Arith K) (ent : List K → List C → K) (cats : List String) (p : FDTParams K)
    (Xm : Dict String (Dict String (List K))) (y : List C)
    (fd0 : Dict String (List String)) (used : List String) (depth : Nat) (n : BNode C K) : Prop :=
  ∃ ign fd best heap heap', HeapOk y.length used ign heap ∧ (∀ f, f ∉ used → Dict.get? fd f = Dict.get? fd0 f) ∧
    bMaxGainF A ent cats Xm y n.mu ign fd heap = .ok (best, heap') ∧
    ((n.isLeaf = true ∧ stopMet p (bestGain best) (maskedY n.mu y) depth = true) ∨
     (n.isLeaf = false ∧ stopMet p (bestGain best) (maskedY n.mu y) depth = false ∧
      ∃ b l r, best = some b ∧ n.children = [l, r] ∧ l.mu = b.mus.1 ∧ r.mu = b.mus.2))

theorem growF_decisions [NanSort K] {ent : List K → List C → K} {cats : List String} {p : FDTParams K}
    {Xm : Dict String (Dict String (List K))} {y : List C} (hX : Table Xm y.length) (fuel : Nat) :
    ∀ (depth : Nat) (heap : IgnHeap K) (cur : BNode C K) (ign : Dict String Nat) (fd : Dict String (List String)) (t : BNode C K)
    (heap' : IgnHeap K) (used : List String), HeapOk y.length used ign heap → cur.children = [] →
    bPartialFitF A ent cats p Xm y fuel depth heap cur ign fd = .ok (t, heap') →
    t.test = cur.test ∧ t.mu = cur.mu ∧ (∀ a ∈ heap', Flags y.length a) ∧ heap.length ≤ heap'.length ∧
    ∀ q ∈ bNodePaths t, ∃ rest, q.1 = t.test.toList ++ rest ∧
      ((∃ used', (∀ f, f ∈ used' ↔ f ∈ used ∨ ∃ tst ∈ rest, tst.var.name = f) ∧
          BDecisionF A ent cats p Xm y fd used' (depth + rest.length) q.2) ∨
        (q.2.isLeaf = true ∧ ¬ 0 < A.sum q.2.mu)) := by
  induction fuel with
  | zero => intro _ _ _ _ _ _ _ _ _ _ h; cases h
  | succ fuel ih =>
    intro depth heap cur ign fd t heap' used hf hch h
    rw [bPartialFitF] at h
    obtain ⟨⟨best, heap1⟩, hm, h1⟩ := py_bind_eq_ok.1 h
    obtain ⟨c0, parts, hc0, hparts, hf', hlen1, hbest⟩ := bMaxGainF_ok hX hf hm
    simp only at h1
    split_ifs at h1 with hstop
    · obtain ⟨cv, hcv, h2⟩ := py_bind_eq_ok.1 h1
      cases h2
      refine ⟨rfl, rfl, hf'.1, hlen1, ?_⟩
      intro q hq
      simp only [bNodePaths, if_true, List.mem_singleton] at hq
      subst hq
      exact ⟨[], by simp [BNode.test], .inl ⟨used, by simp, ign, fd, best, heap, _, hf, fun _ _ => rfl, hm,
        .inl ⟨rfl, by cases best <;> exact hstop⟩⟩⟩
    · cases best with
      | none => cases h1
      | some b =>
        obtain ⟨-, hpart, fl, fr, -⟩ := hbest b rfl
        simp only at h1
        obtain ⟨⟨l, heap2⟩, hl, h2⟩ := py_bind_eq_ok.1 h1
        simp only at h2
        obtain ⟨⟨r, heap3⟩, hr, h3⟩ := py_bind_eq_ok.1 h2
        cases h3
        have hchild : ∀ (s : List String) (m : List K) (ref : Nat) (hp hp' : IgnHeap K) (c : BNode C K),
            HeapOk y.length used ign hp → ref < hp.length →
            bFitChildF A (bPartialFitF A ent cats p Xm y fuel (depth + 1)) p y cur.mu ign fd b.att s m ref hp = .ok (c, hp') →
            (∀ a ∈ hp', Flags y.length a) ∧ hp.length ≤ hp'.length ∧ c.mu = m ∧ ∃ tc, c.test = some tc ∧ tc.var.name = b.att ∧
              ∀ q ∈ bNodePaths c, ∃ rest, q.1 = tc :: rest ∧
              ((∃ used', (∀ f, f ∈ used' ↔ f ∈ used ∨ ∃ tst ∈ tc :: rest, tst.var.name = f) ∧
                  BDecisionF A ent cats p Xm y fd used' (depth + (rest.length + 1)) q.2) ∨
                (q.2.isLeaf = true ∧ ¬ 0 < A.sum q.2.mu)) := by
          intro s m ref hp hp' c hpo href hc
          unfold bFitChildF at hc
          obtain ⟨tc, htc, hc1⟩ := py_bind_eq_ok.1 hc
          simp only at hc1
          obtain ⟨fd', hfd, hc2⟩ := py_bind_eq_ok.1 hc1
          have hname : tc.var.name = b.att := by
            obtain ⟨n1, n2, -⟩ := childTest_ok htc
            exact featuresDict_name n1 n2
          obtain ⟨sets, hfd'⟩ : ∃ sets, fd' = Dict.set fd b.att sets := by
            unfold restrictDict at hfd
            obtain ⟨l, -, e⟩ := py_bind_eq_ok.1 hfd
            cases e
            exact ⟨_, rfl⟩
          subst hfd'
          obtain ⟨u1, u2⟩ := updateIgnored_spec hpo href (att := b.att)
          split at hc2
          · obtain ⟨g1, g2, g3, g4, g5⟩ := ih (depth + 1) _ (.fresh (some tc) m) _ _ c hp' (b.att :: used) u1 rfl hc2
            refine ⟨g3, by omega, g2, tc, g1, hname, ?_⟩
            intro q hq
            obtain ⟨rest, r1, r2⟩ := g5 q hq
            rw [g1] at r1
            refine ⟨rest, by simpa [BNode.fresh, BNode.test] using r1, ?_⟩
            rcases r2 with ⟨used', v1, ign2, fd2, best2, h2, h2', d1, d3, d4, d5⟩ | r2
            · refine .inl ⟨used', ?_, ign2, fd2, best2, h2, h2', d1, ?_, d4, ?_⟩
              · intro f
                rw [v1]
                simp only [List.mem_cons, exists_eq_or_imp, hname]
                constructor
                · rintro ((rfl | h) | h)
                  · exact .inr (.inl rfl)
                  · exact .inl h
                  · exact .inr (.inr h)
                · rintro (h | rfl | h)
                  · exact .inl (.inr h)
                  · exact .inl (.inl rfl)
                  · exact .inr h
              · intro f hfu
                rw [d3 f hfu, Dict.get?_set, if_neg]
                rintro rfl
                exact hfu ((v1 _).2 (.inl (by simp)))
              · rw [show depth + (rest.length + 1) = depth + 1 + rest.length by omega]
                exact d5
            · exact .inr r2
          · rename_i hz
            obtain ⟨cv, hcv, hc3⟩ := py_bind_eq_ok.1 hc2
            cases hc3
            refine ⟨u1.1, u2, rfl, tc, rfl, hname, ?_⟩
            intro q hq
            simp only [bNodePaths, if_true, List.mem_singleton] at hq
            subst hq
            exact ⟨[], by simp, .inr ⟨rfl, hz⟩⟩
        obtain ⟨l1, l2, ml, tl, htl, -, hpl⟩ := hchild _ _ _ _ _ l hf' fl hl
        obtain ⟨r1, r2, mr, tr, htr, -, hpr⟩ := hchild _ _ _ _ _ r (hf'.grow l1 l2) (lt_of_lt_of_le fr l2) hr
        refine ⟨rfl, rfl, r1, hlen1.trans (l2.trans r2), ?_⟩
        intro q hq
        simp only [bNodePaths, Bool.false_eq_true, if_false, bNodePathsList_eq, List.mem_cons, List.mem_map, List.mem_flatMap,
          hch, List.nil_append, List.not_mem_nil, or_false] at hq
        rcases hq with rfl | ⟨q', ⟨c, hc, hq'⟩, rfl⟩
        · exact ⟨[], by simp [BNode.test], .inl ⟨used, by simp, ign, fd, some b, heap, heap1, hf, fun _ _ => rfl, hm,
            .inr ⟨rfl, Bool.eq_false_of_not_eq_true hstop, b, l, r, rfl, rfl, ml, mr⟩⟩⟩
        · rcases hc with rfl | rfl
          · obtain ⟨rest, r1, r2⟩ := hpl q' hq'
            exact ⟨tl :: rest, by simp [BNode.test, r1], r2⟩
          · obtain ⟨rest, r1, r2⟩ := hpr q' hq'
            exact ⟨tr :: rest, by simp [BNode.test, r1], r2⟩

/-! ### candidates -/

theorem sumSetsF_cut {Xm : Dict String (Dict String (List K))} {n : Nat} {f : String} {d : Dict String (List K)}
    (hd : Dict.get? Xm f = some d) (hnd : (Dict.keys d).Nodup) (l : List (String × List K)) (hl : ∀ s ∈ l, s ∈ d) :
    sumSetsF A Xm n f (l.map Prod.fst) = .ok (unionF A n (l.map Prod.snd)) := by
  unfold sumSetsF unionF
  generalize List.replicate n (0 : K) = acc
  induction l generalizing acc with
  | nil => rfl
  | cons s l ih =>
    rw [List.map_cons, List.map_cons, List.foldlM_cons, List.foldl_cons, Dict.get_eq_ok_iff.2 hd, py_bind_ok,
      Dict.get_eq_ok_iff.2 (Dict.get?_of_mem_nodup hnd (k := s.1) (v := s.2) (hl s (by simp))), py_bind_ok, py_pure, py_bind_ok]
    have := ih (fun s hs => hl s (by simp [hs])) (List.zipWith (fun a b => A.fl (a + b)) acc s.2)
    rw [Dict.get_eq_ok_iff.2 hd] at this
    exact this

theorem splitGainOfF_ok {ent : List K → List C → K} {y : List C} {mu l r : List K} {g : K} (h : splitGainOfF A ent y mu l r = .ok g) :
    g = gainOfPartsF A ent mu y l r := by
  unfold splitGainOfF flDiv at h
  split_ifs at h
  · cases h
  · cases h; rfl

/-- the table holds the degrees of a variable under its name, with the names of its sets. -/
theorem setDegreesF_table {X : List (List (Cell K))} {vars : List (FVar K)} {Xm : Dict String (Dict String (List K))}
    (hX : datasetMembershipF A X vars = .ok Xm) (hnames : (vars.map FVar.name).Nodup)
    (hn : ∀ v ∈ vars, (v.sets.map FSet.name).Nodup) {j : Nat} {v : FVar K} (hv : vars[j]? = some v) :
    ∃ d, Dict.get? Xm v.name = some d ∧ SetDegreesF A X j v (d.map Prod.snd) ∧ Dict.keys d = v.sets.map FSet.name := by
  have hvm := List.mem_of_getElem? hv
  rcases datasetMembershipF_lookup hX v.name with ⟨-, h2⟩ | ⟨j', v', col, d, hj, hv', hname, hcol, hd, h2⟩
  · have hk := (mem_keys_featuresDict vars v.name).2 (List.mem_map_of_mem hvm)
    rw [← Dict.get?_isSome_iff, h2] at hk
    simp at hk
  · have hinj : ∀ i w, vars[i]? = some w → w.name = v.name → i = j := by
      intro i w hw he
      obtain ⟨h1, e1⟩ := List.getElem?_eq_some_iff.1 hv
      obtain ⟨h2, e2⟩ := List.getElem?_eq_some_iff.1 hw
      have := List.nodup_iff_injective_get.1 hnames (a₁ := ⟨i, by simpa using h2⟩) (a₂ := ⟨j, by simpa using h1⟩)
        (by simp [e1, e2, he])
      simpa using this
    have hjj := hinj j' v' hv' hname
    subst hjj
    rw [hv] at hv'; cases hv'
    refine ⟨d, h2, ?_, ?_⟩
    · obtain ⟨fi, var, -, hvar, hname', -, hlen, hall⟩ := tableF_column hX hn h2
      have hfi := hinj fi var hvar hname'
      subst hfi
      rw [hv] at hvar; cases hvar
      refine ⟨by simpa using hlen, ?_⟩
      intro k ms hk
      rw [List.getElem?_map] at hk
      obtain ⟨s, hs, rfl⟩ := Option.map_eq_some_iff.1 hk
      exact hall k s hs
    · have hf := FVar.membershipF_ok (hn v hvm) hd
      clear h2 hd
      unfold Dict.keys
      generalize v.sets = l at hf
      induction hf with
      | nil => rfl
      | cons h _ ih => rw [List.map_cons, List.map_cons, ih, h.1]

/-- **C211**: at every node of a binary tree fitted in floating point, with `mu` the memberships of the training rows in the node:
a split node has rows of two classes, at least `min_num_examples` rows, depth below `max_depth` and two children; the computed gain of its
split is positive, at least the threshold and at least the computed gain of every cut of a numerical variable that is not tested above the
node; a leaf has no membership, or rows of less than two classes, or less than `min_num_examples` rows, or depth `max_depth`, or no such cut
reaches the (positive) threshold. For every impurity function. -/
theorem C211_splits [NanSort K] (hA : Lawful A u η) (ent : List K → List C → K) (p : FDTParams K) (hnames : (p.vars.map FVar.name).Nodup)
    (hs : ProperSets p.vars) (hv : ∀ v ∈ p.vars, FloatVar A v)
    (X : List (List (Cell K))) (hXf : FloatTable A X) (y : List C) (t : BNode C K) (h : fbdtFitF A ent p fbdtNew X y = .ok t) :
    ∀ q ∈ bNodePaths t,
      (q.2.isLeaf = false →
        (∃ a ∈ livingClasses q.2.mu y, ∃ b ∈ livingClasses q.2.mu y, a ≠ b) ∧
        p.minNumExamples ≤ (livingClasses q.2.mu y).length ∧ q.1.length < p.maxDepth ∧
        ∃ l r gain, q.2.children = [l, r] ∧ gain = gainOfPartsF A ent q.2.mu y l.mu r.mu ∧ 0 < gain ∧ p.fuzzyThreshold ≤ gain ∧
          ∀ j v D k, CutF A p.vars X q.1 j v D k →
            gainOfPartsF A ent q.2.mu y (List.zipWith min q.2.mu (unionF A X.length (D.take k)))
              (List.zipWith min q.2.mu (unionF A X.length (D.drop k))) ≤ gain) ∧
      (q.2.isLeaf = true →
        (∀ m ∈ q.2.mu, m = 0) ∨ (∀ a ∈ livingClasses q.2.mu y, ∀ b ∈ livingClasses q.2.mu y, a = b) ∨
        (livingClasses q.2.mu y).length < p.minNumExamples ∨ q.1.length = p.maxDepth ∨
        (0 < p.fuzzyThreshold ∧ ∀ j v D k, CutF A p.vars X q.1 j v D k →
          gainOfPartsF A ent q.2.mu y (List.zipWith min q.2.mu (unionF A X.length (D.take k)))
            (List.zipWith min q.2.mu (unionF A X.length (D.drop k))) < p.fuzzyThreshold)) := by
  intro q hq
  have hn : ∀ v ∈ p.vars, (v.sets.map FSet.name).Nodup := fun v hv => (hs v hv).2
  obtain ⟨hdepth, htests, hmus⟩ := C173_nodes hA ent p hn hv X hXf y t h q hq
  have hleaf := C173_leaves hA ent p hn hv X hXf y t h q hq
  obtain ⟨hlen, Xm, hXm, hT, -⟩ := fbdtFitF_nodes hA h
  unfold fbdtFitF at h
  obtain ⟨cats, hcats, h1⟩ := py_bind_eq_ok.1 h
  obtain ⟨_, hX, h2⟩ := py_bind_eq_ok.1 h1
  obtain ⟨cats', hcats', hcs⟩ := categoricalFeatures_ok (fun v hv => (hs v hv).1)
  rw [hcats] at hcats'; cases hcats'
  rw [if_neg (by simp [hlen])] at h2
  obtain ⟨Xm', hXm', h3⟩ := py_bind_eq_ok.1 h2
  rw [hXm] at hXm'; cases hXm'
  obtain ⟨⟨t', heap⟩, h4, h5⟩ := py_bind_eq_ok.1 h3
  cases h5
  obtain ⟨ht1, -, -, -, hdec⟩ := growF_decisions hT _ _ _ _ _ _ t heap []
    ⟨fun a ha => by simp at ha, fun f r hf => by simp at hf, fun f => by simp⟩ rfl h4
  obtain ⟨rest, hr1, hr2⟩ := hdec q hq
  have htest : t.test = none := ht1
  rw [htest] at hr1
  have hr1' : q.1 = rest := hr1
  subst hr1'
  rw [Nat.zero_add] at hr2
  -- the gains of the candidates
  have hcand : ∀ used, (∀ f, f ∈ used ↔ f ∈ ([] : List String) ∨ ∃ tst ∈ q.1, tst.var.name = f) →
      ∀ ign fd best heap heap', HeapOk y.length used ign heap → (∀ f, f ∉ used → Dict.get? fd f = Dict.get? (setNames p.vars) f) →
      bMaxGainF A ent cats Xm y q.2.mu ign fd heap = .ok (best, heap') → ∀ j v D k, CutF A p.vars X q.1 j v D k →
      gainOfPartsF A ent q.2.mu y (List.zipWith min q.2.mu (unionF A X.length (D.take k)))
        (List.zipWith min q.2.mu (unionF A X.length (D.drop k))) ≤ bestGain best := by
    intro used hused ign fd best heap heap' hf hfd hm j v D k hc
    obtain ⟨hv', hunused, ⟨s0, hs0⟩, hD, hk0, hkl⟩ := hc
    have hvm := List.mem_of_getElem? hv'
    have hinj : ∀ i w, p.vars[i]? = some w → w.name = v.name → i = j ∧ w = v := by
      intro i w hw he
      obtain ⟨h1, e1⟩ := List.getElem?_eq_some_iff.1 hv'
      obtain ⟨h2, e2⟩ := List.getElem?_eq_some_iff.1 hw
      have := List.nodup_iff_injective_get.1 hnames (a₁ := ⟨i, by simpa using h2⟩) (a₂ := ⟨j, by simpa using h1⟩)
        (by simp [e1, e2, he])
      have hij : i = j := by simpa using this
      subst hij
      rw [hv'] at hw
      cases hw
      exact ⟨rfl, rfl⟩
    have hnot : v.name ∉ used := by
      rw [hused]
      rintro (h | ⟨tst, ht, e⟩)
      · cases h
      · exact hunused tst ht (hinj _ _ (htests tst ht).1 e).1
    have hncat : v.name ∉ cats := by
      rw [hcs]
      rintro ⟨w, hw, e, d, hd⟩
      obtain ⟨i, hi⟩ := List.mem_iff_getElem?.1 hw
      rw [(hinj i w hi e).2, hs0] at hd
      cases hd
    have hsn : Dict.get? (setNames p.vars) v.name = some (v.sets.map FSet.name) := by
      unfold setNames
      have hk : (Dict.keys (p.vars.map (fun v => (v.name, v.sets.map FSet.name)))).Nodup := by
        simpa [Dict.keys, Function.comp_def] using hnames
      rw [Dict.ofPairs_eq_self _ hk]
      exact Dict.get?_of_mem_nodup hk (List.mem_map.2 ⟨v, hvm, rfl⟩)
    obtain ⟨c0, parts, hc0, hparts, -, hgains, -⟩ := bMaxGainF_best hT hf hm
    obtain ⟨d, hd, hD', hkeys⟩ := setDegreesF_table hXm hnames hn hv'
    have hDD := hD.unique hD'
    have hnd : (Dict.keys d).Nodup := by rw [hkeys]; exact hn v hvm
    have hdl : d.length = v.sets.length := by
      have := congrArg List.length hkeys
      simpa [Dict.keys] using this
    obtain ⟨lm, rm, g, e1, e2, e3, e4⟩ := hgains (v.name, (d.take k).map Prod.fst, (d.drop k).map Prod.fst)
      ((mem_binaryPartitionsF hparts _).2 ⟨v.name, v.sets.map FSet.name, v.sets.map FSet.name,
        Dict.mem_of_get? (by rw [hfd _ hnot, hsn]), by unfold featureOrderF; rw [if_neg hncat],
        mem_cuts_iff.2 ⟨rfl, by
          intro e
          have := congrArg List.length e
          simp only [List.length_map, List.length_take, List.length_nil] at this
          omega, by
          intro e
          have := congrArg List.length e
          simp only [List.length_map, List.length_drop, List.length_nil] at this
          omega, by
          simp only
          rw [← List.map_append, List.take_append_drop]
          exact hkeys⟩⟩) hnot
    simp only at e1 e2
    rw [sumSetsF_cut hd hnd _ (fun s hs => List.mem_of_mem_take hs)] at e1
    rw [sumSetsF_cut hd hnd _ (fun s hs => List.mem_of_mem_drop hs)] at e2
    cases e1
    cases e2
    rw [splitGainOfF_ok e3, List.map_take, List.map_drop, ← hDD, ← hlen] at e4
    exact e4
  refine ⟨?_, ?_⟩
  · intro hl
    rcases hr2 with ⟨used, hused, ign, fd, best, hp, hp', hf, hfd, hm, ⟨h1, -⟩ | ⟨-, hstop, b, l, r, hb, hch, hml, hmr⟩⟩ | ⟨h1, -⟩
    · rw [hl] at h1; cases h1
    · have hstop' : 2 ≤ (npUnique (maskedY q.2.mu y)).length ∧ p.minNumExamples ≤ (maskedY q.2.mu y).length ∧
          q.1.length < p.maxDepth ∧ p.fuzzyThreshold ≤ bestGain best := by
        simpa [stopMet, and_assoc] using hstop
      obtain ⟨s1, s2, s3, s4⟩ := hstop'
      have hall' := hcand used hused ign fd best hp hp' hf hfd hm
      obtain ⟨_, _, _, _, _, _, hbb⟩ := bMaxGainF_best hT hf hm
      obtain ⟨hpos, hg⟩ := hbb b hb
      subst hb
      refine ⟨?_, s2, s3, l, r, b.gain, hch, ?_, hpos, s4, hall'⟩
      · by_contra hno
        have : (npUnique (maskedY q.2.mu y)).length < 2 := by
          rw [two_classes_iff]
          intro a ha b hb
          by_contra hab
          exact hno ⟨a, ha, b, hb, hab⟩
        omega
      · rw [hml, hmr]; exact splitGainOfF_ok hg
    · rw [hl] at h1; cases h1
  · intro hl
    rcases hr2 with ⟨used, hused, ign, fd, best, hp, hp', hf, hfd, hm, ⟨-, hstop⟩ | ⟨h1, -⟩⟩ | ⟨-, h1⟩
    · have hstop' : (((npUnique (maskedY q.2.mu y)).length < 2 ∨ (maskedY q.2.mu y).length < p.minNumExamples) ∨
          p.maxDepth ≤ q.1.length) ∨ bestGain best < p.fuzzyThreshold := by
        simpa [stopMet] using hstop
      rcases hstop' with ((h1 | h1) | h1) | h1
      · exact .inr (.inl ((two_classes_iff _).1 h1))
      · exact .inr (.inr (.inl h1))
      · exact .inr (.inr (.inr (.inl (le_antisymm hdepth h1))))
      · have hall' := hcand used hused ign fd best hp hp' hf hfd hm
        obtain ⟨_, _, _, _, h0, _⟩ := bMaxGainF_best hT hf hm
        exact .inr (.inr (.inr (.inr ⟨lt_of_le_of_lt h0 h1, fun j v D k hc => lt_of_le_of_lt (hall' j v D k hc) h1⟩)))
    · rw [hl] at h1; cases h1
    · left
      obtain ⟨-, -, -, -, -, ⟨⟨m, hm, h0⟩, -⟩ | ⟨h0, -⟩, -⟩ := hleaf hl
      · refine absurd (lt_of_lt_of_le h0 (hA.sum_ge _ ?_ m hm)) h1
        intro x hx
        obtain ⟨_, -, r1, -, r2, -⟩ := forall₂_mem_right hmus x hx
        exact ⟨r2, r1⟩
      · exact h0

/-! ### examples -/

/-- the hypotheses of C211 are met by a tree of doubles with a split. -/
example : ∃ t, fbdtFitF binary64 exAlwaysEnt exAlways fbdtNew [[.num 0], [.num 1], [.num 3], [.num 4]] [0, 0, 1, 1] = .ok t ∧ t.isLeaf = false := by
  have h : ((fbdtFitF binary64 exAlwaysEnt exAlways fbdtNew [[.num 0], [.num 1], [.num 3], [.num 4]] [0, 0, 1, 1]).toOption).map
      (fun t => t.isLeaf) = some false := by decide +kernel
  cases e : fbdtFitF binary64 exAlwaysEnt exAlways fbdtNew [[.num 0], [.num 1], [.num 3], [.num 4]] [0, 0, 1, 1] with
  | error _ => rw [e] at h; simp [Except.toOption] at h
  | ok t => rw [e] at h; exact ⟨t, rfl, by simpa [Except.toOption] using h⟩

/-- a cut of the variable of the example. -/
example : CutF binary64 exAlways.vars [[.num 0], [.num 1], [.num 3], [.num 4]] [] 0
    ⟨"a", [.cont ⟨"lo", 0, 0, 4, false⟩, .cont ⟨"hi", 0, 4, 4, false⟩]⟩ [[1, 3 / 4, 1 / 4, 0], [0, 1 / 4, 3 / 4, 1]] 1 := by
  refine ⟨rfl, by simp, ⟨_, rfl⟩, ⟨rfl, ?_⟩, by norm_num, by simp⟩
  intro k ms hk
  match k, hk with
  | 0, hk =>
    cases hk
    refine .cons ⟨_, _, rfl, rfl, by decide +kernel⟩ (.cons ⟨_, _, rfl, rfl, by decide +kernel⟩
      (.cons ⟨_, _, rfl, rfl, by decide +kernel⟩ (.cons ⟨_, _, rfl, rfl, by decide +kernel⟩ .nil)))
  | 1, hk =>
    cases hk
    refine .cons ⟨_, _, rfl, rfl, by decide +kernel⟩ (.cons ⟨_, _, rfl, rfl, by decide +kernel⟩
      (.cons ⟨_, _, rfl, rfl, by decide +kernel⟩ (.cons ⟨_, _, rfl, rfl, by decide +kernel⟩ .nil)))
  | k + 2, hk => simp at hk

end Teacher
