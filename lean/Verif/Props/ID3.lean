import Verif.Lemmas.ID3
import Mathlib.Tactic.FieldSimp
import Mathlib.Tactic.Ring

/-! # ID3: prediction, rules, training error, depth and success of `fit` (C42 – C46, C104, C106, C107) -/

namespace Teacher
set_option linter.unusedSectionVars false

section
variable {V C K : Type} [Field K] [LinearOrder K] [IsStrictOrderedRing K] [DecidableEq V] [DecidableEq C]

/-! ## nodes -/

theorem mem_idNodesBranches {var : Option Nat} {path : List (Option Nat × V)} {node : INode V C K} :
    ∀ {bs : List (V × INode V C K)}, (path, node) ∈ Spec.idNodesBranches var bs ↔
      ∃ s t path', (s, t) ∈ bs ∧ (path', node) ∈ Spec.idNodes t ∧ path = (var, s) :: path'
  | [] => by simp [Spec.idNodesBranches]
  | (s, t) :: rest => by
    rw [Spec.idNodesBranches, List.mem_append, mem_idNodesBranches (bs := rest)]
    constructor
    · rintro (h | ⟨s', t', p', h1, h2, h3⟩)
      · obtain ⟨⟨p', n'⟩, h1, h2⟩ := List.mem_map.1 h
        cases h2
        exact ⟨s, t, p', by simp, h1, rfl⟩
      · exact ⟨s', t', p', by simp [h1], h2, h3⟩
    · rintro ⟨s', t', p', h1, h2, h3⟩
      rcases List.mem_cons.1 h1 with h1 | h1
      · cases h1
        left
        exact List.mem_map.2 ⟨(p', node), h2, by rw [h3]⟩
      · exact .inr ⟨s', t', p', h1, h2, h3⟩

theorem idNodes_leaf {var : Option Nat} {bs : List (V × INode V C K)} {cv cc l e n} :
    Spec.idNodes (.mk true var bs cv cc l e n : INode V C K) = [([], .mk true var bs cv cc l e n)] := by
  simp [Spec.idNodes]

theorem mem_idNodes_split {var : Option Nat} {bs : List (V × INode V C K)} {cv cc l e n} {path : List (Option Nat × V)}
    {node : INode V C K} :
    (path, node) ∈ Spec.idNodes (.mk false var bs cv cc l e n : INode V C K) ↔
      (path = [] ∧ node = .mk false var bs cv cc l e n) ∨
      ∃ s t path', (s, t) ∈ bs ∧ (path', node) ∈ Spec.idNodes t ∧ path = (var, s) :: path' := by
  rw [Spec.idNodes, List.mem_cons]
  simp only [Prod.mk.injEq, Bool.false_eq_true, if_false]
  rw [mem_idNodesBranches]

theorem reaching_cons {rows : IRows V C} {i : Nat} {s : V} {path : List (Option Nat × V)} :
    Spec.reaching rows ((some i, s) :: path) = Spec.reaching (rowsWhere rows i s) path := by
  unfold Spec.reaching rowsWhere
  rw [List.filter_filter]
  apply List.filter_congr
  intro r _
  simp [Spec.passes, Bool.and_comm]

theorem reaching_nil {rows : IRows V C} : Spec.reaching rows [] = rows := by
  simp [Spec.reaching, Spec.passes]

/-! ## C42 -/

theorem ITree.predict_spec {p : ID3Params K} {fs : List (List V)} {rows0 : IRows V C} (hs : ISetup p fs rows0)
    {depth : Nat} {rows : IRows V C} {t : INode V C K} (h : ITree p fs depth rows t) (x : List V)
    (hx : p.features.length ≤ x.length) :
    (∃ c ∈ rows.map Prod.snd, t.predict x = .ok (.cls c) ∧
      ∀ path node j v, (path, node) ∈ Spec.idNodes t → node.isLeaf = false → Spec.passes x path = true →
        node.varIndex = some j → x[j]? = some v → ∃ r ∈ rows0, r.1[j]? = some v) ∨
    (t.predict x = .ok .noneVal ∧
      ∃ path node j v, (path, node) ∈ Spec.idNodes t ∧ node.isLeaf = false ∧ Spec.passes x path = true ∧
        node.varIndex = some j ∧ x[j]? = some v ∧ ¬ ∃ r ∈ rows0, r.1[j]? = some v) := by
  induction h with
  | leaf depth rows t cv hm =>
    left
    refine ⟨cv, hm.1, by simp [id3Leaf, INode.predict], ?_⟩
    intro path node j v hmem hl
    rw [id3Leaf, idNodes_leaf, List.mem_singleton] at hmem
    cases hmem
    simp [INode.isLeaf] at hl
  | split depth rows cv nl i splits branches hm hi hfs hkeys hempty hrec ih =>
    have hxi : x[i]? = some x[i] := List.getElem?_eq_getElem (by omega)
    have hnd : (branches.map Prod.fst).Nodup := by rw [hkeys]; exact hs.nodup i _ hfs
    by_cases hv : x[i] ∈ splits
    · rw [← hkeys] at hv
      obtain ⟨⟨s, t⟩, hst, hsx⟩ := List.mem_map.1 hv
      simp only at hsx
      subst hsx
      have hpred : (INode.mk false (some i) branches (some cv) (rows.length, (rows.map Prod.snd).count cv) (depth : Int)
          (branches.map (fun b => if rowsWhere rows i b.1 = [] then 0
            else b.2.error * (((rowsWhere rows i b.1).length : K) / (rows.length : K)))).sum nl).predict x = t.predict x := by
        rw [INode.predict]
        simp only [Bool.false_eq_true, if_false]
        exact predictBranches_mem hxi branches t hnd hst
      have huniq : ∀ t', (x[i], t') ∈ branches → t' = t := by
        intro t' ht'
        have h1 := Dict.get?_of_mem_nodup hnd ht'
        have h2 := Dict.get?_of_mem_nodup hnd hst
        rw [h1] at h2
        exact Option.some.inj h2
      have hknown : ∃ r ∈ rows0, r.1[i]? = some x[i] := (hs.mem i splits hfs _).1 (by rw [← hkeys]; exact hv)
      have hsub : (∃ c ∈ rows.map Prod.snd, t.predict x = .ok (.cls c) ∧
          ∀ path node j v, (path, node) ∈ Spec.idNodes t → node.isLeaf = false → Spec.passes x path = true →
            node.varIndex = some j → x[j]? = some v → ∃ r ∈ rows0, r.1[j]? = some v) ∨
          (t.predict x = .ok .noneVal ∧
            ∃ path node j v, (path, node) ∈ Spec.idNodes t ∧ node.isLeaf = false ∧ Spec.passes x path = true ∧
              node.varIndex = some j ∧ x[j]? = some v ∧ ¬ ∃ r ∈ rows0, r.1[j]? = some v) := by
        by_cases he : rowsWhere rows i x[i] = []
        · left
          have ht := hempty _ _ hst he
          subst ht
          refine ⟨cv, hm.1, by simp [emptyLeaf, INode.predict], ?_⟩
          intro path node j v hmem hl
          rw [emptyLeaf, idNodes_leaf, List.mem_singleton] at hmem
          cases hmem
          simp [INode.isLeaf] at hl
        · rcases ih _ _ hst he with ⟨c, hc, h1, h2⟩ | h
          · left
            obtain ⟨r, hr, hrc⟩ := List.mem_map.1 hc
            exact ⟨c, by rw [← hrc]; exact List.mem_map_of_mem (mem_rowsWhere.1 hr).1, h1, h2⟩
          · exact .inr h
      rcases hsub with ⟨c, hc, h1, h2⟩ | ⟨h1, path, node, j, v, g1, g2, g3, g4, g5, g6⟩
      · left
        refine ⟨c, hc, hpred.trans h1, ?_⟩
        intro path node j v hmem hl hpass hvar hxj
        rcases mem_idNodes_split.1 hmem with ⟨rfl, rfl⟩ | ⟨s', t', path', g1, g2, rfl⟩
        · simp only [INode.varIndex, Option.some.injEq] at hvar
          subst hvar
          rw [hxi] at hxj
          cases hxj
          exact hknown
        · simp only [Spec.passes, List.all_cons, Option.bind_some, Bool.and_eq_true, decide_eq_true_eq] at hpass
          have hs' : s' = x[i] := by have := hpass.1; rw [hxi] at this; exact (Option.some.inj this).symm
          subst hs'
          rw [huniq _ g1] at g2
          exact h2 path' node j v g2 hl hpass.2 hvar hxj
      · right
        refine ⟨hpred.trans h1, (some i, x[i]) :: path, node, j, v, ?_, g2, ?_, g4, g5, g6⟩
        · exact mem_idNodes_split.2 (.inr ⟨_, _, path, hst, g1, rfl⟩)
        · simp only [Spec.passes, List.all_cons, Option.bind_some, hxi, decide_true, Bool.true_and]
          exact g3
    · right
      refine ⟨?_, [], _, i, x[i], mem_idNodes_split.2 (.inl ⟨rfl, rfl⟩), rfl, rfl, rfl, hxi, ?_⟩
      · rw [INode.predict]
        simp only [Bool.false_eq_true, if_false]
        exact predictBranches_not_mem hxi branches (by rw [hkeys]; exact hv)
      · rwa [← hs.mem i splits hfs]

/-! ## C43 -/

/-- the rules of a list of branches, for the row `x`. -/
theorem rules_spec_branches {features : List String} (hnd : features.Nodup) {i : Nat} {f : String} (hf : features[i]? = some f)
    (x : List V) (hx : features.length ≤ x.length) (bs : List (V × INode V C K))
    (hbs : ∀ s t, (s, t) ∈ bs → ∀ conds, ∃ L : List (List (String × V) × Option C), t.getRules features conds = .ok (L.map (fun p => (conds ++ p.1, p.2))) ∧
      ((∃ c, t.predict x = .ok (.cls c) ∧ (L.filter (fun p => Spec.satisfies features x p.1)).map Prod.snd = [some c]) ∨
        (t.predict x = .ok .noneVal ∧ L.filter (fun p => Spec.satisfies features x p.1) = []))) (hk : (bs.map Prod.fst).Nodup)
    (conds : List (String × V)) :
    ∃ L : List (List (String × V) × Option C), getRulesBranches features conds (some i) bs = .ok (L.map (fun p => (conds ++ p.1, p.2))) ∧
      (∀ p ∈ L, ∃ s rest, s ∈ bs.map Prod.fst ∧ p.1 = (f, s) :: rest) ∧
      ((∃ c, predictBranches x (some i) bs = .ok (.cls c) ∧ (L.filter (fun p => Spec.satisfies features x p.1)).map Prod.snd = [some c]) ∨
        (predictBranches x (some i) bs = .ok .noneVal ∧ L.filter (fun p => Spec.satisfies features x p.1) = [])) := by
  have hil : i < features.length := (List.getElem?_eq_some_iff.1 hf).1
  have hidx : features.idxOf f = i := by
    obtain ⟨h1, rfl⟩ := List.getElem?_eq_some_iff.1 hf
    exact List.Nodup.idxOf_getElem hnd _ _
  have hxi : x[i]? = some x[i] := List.getElem?_eq_getElem (by omega)
  induction bs with
  | nil => exact ⟨[], rfl, by simp, .inr ⟨rfl, rfl⟩⟩
  | cons b bs ih =>
    obtain ⟨s, t⟩ := b
    rw [List.map_cons, List.nodup_cons] at hk
    obtain ⟨L1, e1, e2⟩ := hbs s t (by simp) (conds ++ [(f, s)])
    obtain ⟨L2, e3, e5, e4⟩ := ih (fun s' t' h => hbs s' t' (by simp [h])) hk.2
    have hsat : ∀ p : List (String × V) × Option C, Spec.satisfies features x ((f, s) :: p.1) = true ↔
        x[i] = s ∧ Spec.satisfies features x p.1 = true := by
      intro p
      simp only [Spec.satisfies, List.all_cons, Bool.and_eq_true, decide_eq_true_eq, hidx, hxi, Option.some.injEq]
    refine ⟨L1.map (fun p => ((f, s) :: p.1, p.2)) ++ L2, ?_, ?_, ?_⟩
    · simp only [getRulesBranches, Option.bind_some, hf, e1, e3, py_bind_ok, py_pure, List.map_append, List.map_map]
      congr 2
      apply List.map_congr_left
      intro p _
      simp
    · intro p hp
      rcases List.mem_append.1 hp with hp | hp
      · obtain ⟨q, -, rfl⟩ := List.mem_map.1 hp
        exact ⟨s, q.1, by simp, rfl⟩
      · obtain ⟨s', rest, h1, h2⟩ := e5 p hp
        exact ⟨s', rest, by simp only [List.map_cons, List.mem_cons]; exact .inr h1, h2⟩
    · simp only [predictBranches, Option.bind_some, hxi]
      by_cases hv : x[i] = s
      · rw [if_pos hv]
        have h2nil : L2.filter (fun p => Spec.satisfies features x p.1) = [] := by
          rw [List.filter_eq_nil_iff]
          intro p hp hsatp
          obtain ⟨s', rest, h1, h2⟩ := e5 p hp
          rw [h2] at hsatp
          simp only [Spec.satisfies, List.all_cons, Bool.and_eq_true, decide_eq_true_eq, hidx, hxi, Option.some.injEq] at hsatp
          exact hk.1 (by rw [← hv, hsatp.1]; exact h1)
        have h1f : (L1.map (fun p => ((f, s) :: p.1, p.2))).filter (fun p => Spec.satisfies features x p.1)
            = (L1.filter (fun p => Spec.satisfies features x p.1)).map (fun p => ((f, s) :: p.1, p.2)) := by
          rw [List.filter_map]
          congr 1
          apply List.filter_congr
          intro p _
          simp only [Function.comp_apply]
          rw [Bool.eq_iff_iff, hsat p]
          simp [hv]
        rw [List.filter_append, h2nil, List.append_nil, h1f, List.map_map]
        rcases e2 with ⟨c, h1, h2⟩ | ⟨h1, h2⟩
        · left; exact ⟨c, h1, by rw [← h2]; rfl⟩
        · right; exact ⟨h1, by rw [h2]; rfl⟩
      · rw [if_neg hv]
        have h1nil : (L1.map (fun p => ((f, s) :: p.1, p.2))).filter (fun p => Spec.satisfies features x p.1) = [] := by
          rw [List.filter_eq_nil_iff]
          intro p hp hsatp
          obtain ⟨q, -, rfl⟩ := List.mem_map.1 hp
          exact hv ((hsat q).1 hsatp).1
        rw [List.filter_append, h1nil, List.nil_append]
        exact e4

theorem IFitted.rules_spec {nl0 : Nat} {gain : List V → List C → List V → K} {p : ID3Params K} {fs : List (List V)} {rows0 : IRows V C}
    (hs : ISetup p fs rows0) (hnd : p.features.Nodup)
    {depth : Nat} {erased : List String} {rows : IRows V C} {t : INode V C K} (h : IFitted gain p fs nl0 depth erased rows t)
    (x : List V) (hx : p.features.length ≤ x.length) (conds : List (String × V)) :
    ∃ L : List (List (String × V) × Option C), t.getRules p.features conds = .ok (L.map (fun p => (conds ++ p.1, p.2))) ∧
      ((∃ c, t.predict x = .ok (.cls c) ∧ (L.filter (fun q => Spec.satisfies p.features x q.1)).map Prod.snd = [some c]) ∨
        (t.predict x = .ok .noneVal ∧ L.filter (fun q => Spec.satisfies p.features x q.1) = [])) := by
  induction h generalizing conds with
  | leaf depth erased rows t cv hm =>
    refine ⟨[([], some cv)], by simp [id3Leaf, INode.getRules], .inl ⟨cv, by simp [id3Leaf, INode.predict], by simp [Spec.satisfies, List.filter_cons]⟩⟩
  | dead depth erased rows cv nl hm hd hg hnp hne =>
    exact ⟨[], by simp [INode.getRules, getRulesBranches], .inr ⟨by simp [INode.predict, predictBranches], rfl⟩⟩
  | split depth erased rows cv nl i name col splits g branches hm hd hn hname her hg hmax hprune hnl hnz hkeys hempty hrec ih =>
    have hf := featuresDic_get hg.1
    obtain ⟨L, h1, -, h2⟩ := rules_spec_branches hnd hf x hx branches (fun s t hst conds => by
      by_cases he : rowsWhere rows i s = []
      · rw [hempty s t hst he]
        exact ⟨[([], some cv)], by simp [emptyLeaf, INode.getRules],
          .inl ⟨cv, by simp [emptyLeaf, INode.predict], by simp [Spec.satisfies, List.filter_cons]⟩⟩
      · exact ih s t hst he conds) (by rw [hkeys]; exact hs.nodup i _ hg.2.2.1) conds
    refine ⟨L, ?_, ?_⟩
    · rw [INode.getRules]; simpa using h1
    · rw [INode.predict]; simpa using h2

/-! ## C44 -/

theorem mistakes_eq_of_predict {t t' : INode V C K} {rows : IRows V C} (h : ∀ r ∈ rows, t.predict r.1 = t'.predict r.1) :
    Spec.mistakes t rows = Spec.mistakes t' rows := by
  unfold Spec.mistakes
  apply List.countP_congr
  intro r hr
  rw [h r hr]

theorem mistakes_const {t : INode V C K} {rows : IRows V C} {c : C} (h : ∀ r ∈ rows, t.predict r.1 = .ok (.cls c)) :
    Spec.mistakes t rows + (rows.map Prod.snd).count c = rows.length := by
  unfold Spec.mistakes
  induction rows with
  | nil => rfl
  | cons r rows ih =>
    have ih := ih (fun r' hr' => h r' (by simp [hr']))
    rw [List.countP_cons, h r (by simp), List.map_cons, List.count_cons, List.length_cons]
    generalize List.countP _ rows = k at ih ⊢
    by_cases hc : c = r.2
    · subst hc; simp; omega
    · have : ¬ r.2 = c := fun h => hc h.symm
      simp [hc, this]; omega

theorem split_predict {p : ID3Params K} {fs : List (List V)} {rows0 rows : IRows V C} (hs : ISetup p fs rows0)
    {i : Nat} {splits : List V} (hfs : fs[i]? = some splits) {branches : List (V × INode V C K)}
    (hkeys : branches.map Prod.fst = splits) {cv cc l e n} {s : V} {t : INode V C K} (hst : (s, t) ∈ branches)
    (r : List V × C) (hr : r ∈ rowsWhere rows i s) :
    (INode.mk false (some i) branches (some cv) cc l e n).predict r.1 = t.predict r.1 := by
  conv_lhs => rw [INode.predict]
  simp only [Bool.false_eq_true, if_false]
  exact predictBranches_mem (mem_rowsWhere.1 hr).2 branches t (by rw [hkeys]; exact hs.nodup i _ hfs) hst

theorem ITree.error_spec {p : ID3Params K} {fs : List (List V)} {rows0 : IRows V C} (hs : ISetup p fs rows0)
    {depth : Nat} {rows : IRows V C} {t : INode V C K} (h : ITree p fs depth rows t) (hsub : ∀ r ∈ rows, r ∈ rows0) :
    t.error * (rows.length : K) = (Spec.mistakes t rows : K) ∧
      ∀ c, Spec.mistakes t rows + (rows.map Prod.snd).count c ≤ rows.length := by
  induction h with
  | leaf depth rows t cv hm =>
    have hne : (rows.length : K) ≠ 0 := by
      obtain ⟨r, hr, -⟩ := List.mem_map.1 hm.1
      have := List.length_pos_of_mem hr
      exact_mod_cast this.ne'
    have hmis := mistakes_const (t := id3Leaf t cv ((rows.map Prod.snd).count cv) rows.length depth) (rows := rows) (c := cv)
      (fun r _ => by simp [id3Leaf, INode.predict])
    constructor
    · have h2 : (Spec.mistakes (id3Leaf t cv ((rows.map Prod.snd).count cv) rows.length depth) rows : K)
          + ((rows.map Prod.snd).count cv : K) = (rows.length : K) := by exact_mod_cast hmis
      generalize (Spec.mistakes _ rows : K) = m at h2 ⊢
      simp only [id3Leaf, INode.error]
      rw [sub_mul, one_mul, div_mul_cancel₀ _ hne]
      linarith
    · intro c
      have := hm.2 c
      omega
  | split depth rows cv nl i splits branches hm hi hfs hkeys hempty hrec ih =>
    have hnd : splits.Nodup := hs.nodup i _ hfs
    have hpart : ∀ q : List V × C → Bool, rows.countP q = (splits.map (fun s => (rowsWhere rows i s).countP q)).sum :=
      fun q => countP_rowsWhere q i splits hnd rows (fun r hr => by
        have hw := hs.wide r (hsub r hr)
        refine ⟨r.1[i], ?_, List.getElem?_eq_getElem (by omega)⟩
        exact (hs.mem i splits hfs _).2 ⟨r, hsub r hr, List.getElem?_eq_getElem (by omega)⟩)
    have hne : (rows.length : K) ≠ 0 := by
      obtain ⟨r, hr, -⟩ := List.mem_map.1 hm.1
      have := List.length_pos_of_mem hr
      exact_mod_cast this.ne'
    have hmis : Spec.mistakes (.mk false (some i) branches (some cv) (rows.length, (rows.map Prod.snd).count cv) (depth : Int)
          (branches.map (fun b => if rowsWhere rows i b.1 = [] then 0
            else b.2.error * (((rowsWhere rows i b.1).length : K) / (rows.length : K)))).sum nl : INode V C K) rows
        = (branches.map (fun b => Spec.mistakes b.2 (rowsWhere rows i b.1))).sum := by
      conv_lhs => unfold Spec.mistakes
      rw [hpart, ← hkeys, List.map_map]
      congr 1
      apply List.map_congr_left
      rintro ⟨s, t⟩ hst
      exact mistakes_eq_of_predict (fun r hr => split_predict hs hfs hkeys hst r hr)
    have hsub' : ∀ s, ∀ r ∈ rowsWhere rows i s, r ∈ rows0 := fun s r hr => hsub r (mem_rowsWhere.1 hr).1
    constructor
    · rw [hmis]
      simp only [INode.error]
      have key : ∀ (l : List (V × INode V C K)), (∀ b ∈ l, b ∈ branches) →
          (l.map (fun b => if rowsWhere rows i b.1 = [] then 0
            else b.2.error * (((rowsWhere rows i b.1).length : K) / (rows.length : K)))).sum * (rows.length : K)
          = ((l.map (fun b => Spec.mistakes b.2 (rowsWhere rows i b.1))).sum : Nat) := by
        intro l
        induction l with
        | nil => simp
        | cons b l ihl =>
          intro hl
          have ihl := ihl (fun b hb => hl b (by simp [hb]))
          simp only [List.map_cons, List.sum_cons, Nat.cast_add]
          rw [add_mul, ihl]
          congr 1
          by_cases he : rowsWhere rows i b.1 = []
          · rw [if_pos he, he]; simp [Spec.mistakes]
          · rw [if_neg he]
            have := (ih b.1 b.2 (hl b (by simp)) he (hsub' b.1)).1
            rw [← this]
            field_simp
      exact key branches (fun b hb => hb)
    · intro c
      rw [hmis]
      have hlen := hpart (fun _ => true)
      have hcnt : (rows.map Prod.snd).count c = (splits.map (fun s => ((rowsWhere rows i s).map Prod.snd).count c)).sum := by
        have := hpart (fun r => r.2 == c)
        simpa [List.count, List.countP_map, Function.comp_def] using this
      rw [hcnt]
      simp only [List.countP_true] at hlen
      rw [hlen, ← hkeys, List.map_map, List.map_map]
      have key : ∀ (l : List (V × INode V C K)), (∀ b ∈ l, b ∈ branches) →
          (l.map (fun b => Spec.mistakes b.2 (rowsWhere rows i b.1))).sum
          + (l.map ((fun s => ((rowsWhere rows i s).map Prod.snd).count c) ∘ Prod.fst)).sum
          ≤ (l.map ((fun s => (rowsWhere rows i s).length) ∘ Prod.fst)).sum := by
        intro l
        induction l with
        | nil => simp
        | cons b l ihl =>
          intro hl
          have ihl := ihl (fun b hb => hl b (by simp [hb]))
          simp only [List.map_cons, List.sum_cons, Function.comp_apply]
          by_cases he : rowsWhere rows i b.1 = []
          · simp only [he, Spec.mistakes, List.countP_nil, List.map_nil, List.count_nil, List.length_nil, Nat.zero_add]
            exact ihl
          · have := (ih b.1 b.2 (hl b (by simp)) he (hsub' b.1)).2 c
            omega
      exact key branches (fun b hb => hb)

end

/-! ## a concrete case for the theorems of the next files -/

namespace ID3Ex

/-- Gini impurity in place of the entropy (which has no rational values). -/
def gini (l : List ℚ) : ℚ := (l.map (fun p => p * (1 - p))).sum

/-- the gain of the code, over the Gini impurity, and not below 0. -/
def gain (col : List Nat) (y : List Nat) (s : List Nat) : ℚ := max 0 (id3Gain gini List.dedup col y s)

theorem gain_ok : Spec.GainOk gain := by
  intro col y s _ _ _ _
  exact lt_of_lt_of_le (by norm_num) (le_max_left _ _)

theorem arr_dedup {α : Type} [DecidableEq α] : Spec.IsSetListing (List.dedup : List α → List α) := fun _ => List.Perm.refl _

theorem arr_id {α : Type} : Spec.IsArrangement (id : List α → List α) := fun _ => List.Perm.refl _

/-- two features, pruning, default depth. -/
def p : ID3Params ℚ := ⟨["a", "b"], 1/10, 2, 1, true⟩

/-- five rows, two classes. -/
def rows : IRows Nat Nat := [([0,0],0),([0,1],0),([1,0],1),([1,1],0),([1,2],0)]

/-- what can be seen of a node: leaf?, feature, class, counts, level, error. -/
def view (t : INode Nat Nat ℚ) : Bool × Option Nat × Option Nat × (Nat × Nat) × Int × ℚ :=
  (t.isLeaf, t.varIndex, t.classValue, t.classCount, t.level, t.error)

/-- the nodes of a tree, as `view` shows them. -/
def nodes (t : INode Nat Nat ℚ) : List (List (Option Nat × Nat) × Bool × Option Nat × Option Nat × (Nat × Nat) × Int × ℚ) :=
  (Spec.idNodes t).map (fun q => (q.1, view q.2))

theorem exists_of_map {α β : Type} {x : Py α} {f : α → β} {b : β} (h : x.map f = .ok b) : ∃ a, x = .ok a ∧ f a = b := by
  cases x with
  | error e => cases h
  | ok a => exact ⟨a, rfl, Except.ok.inj h⟩

set_option synthInstance.maxSize 1000 in
set_option synthInstance.maxHeartbeats 200000 in
/-- fitting the rows gives a tree with two splits and four leaves. -/
theorem fit_ok : ∃ t, id3FitWith gain List.dedup id p .fresh rows = .ok t ∧ nodes t =
    [([], false, some 1, some 0, (5, 4), 0, 0),
     ([(some 1, 0)], false, some 0, some 0, (2, 1), 1, 0),
     ([(some 1, 0), (some 0, 0)], true, none, some 0, (1, 1), 2, 0),
     ([(some 1, 0), (some 0, 1)], true, none, some 1, (1, 1), 2, 0),
     ([(some 1, 1)], true, some 0, some 0, (2, 2), 1, 0),
     ([(some 1, 2)], true, some 0, some 0, (1, 1), 1, 0)] := by
  apply exists_of_map
  decide +kernel

end ID3Ex

end Teacher
