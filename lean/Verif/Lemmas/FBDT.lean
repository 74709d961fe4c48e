import Verif.Spec.FBDT
import Verif.Lemmas.FDT

/-! Lemmas about binary fuzzy trees: prediction as a vote of the leaves. The text follows `Lemmas/FDT.lean`. -/

set_option linter.unusedSectionVars false

namespace Teacher.FB
open Teacher Spec

variable {C K : Type} [Field K] [LinearOrder K] [IsStrictOrderedRing K]

theorem _root_.Teacher.BNode.induction {P : BNode C K → Prop}
    (h : ∀ test level mu isLeaf cv children, (∀ c ∈ children, P c) → P (.mk test level mu isLeaf cv children)) :
    ∀ t, P t := by
  intro t
  refine BNode.rec (motive_1 := P) (motive_2 := fun l => ∀ c ∈ l, P c) ?_ ?_ ?_ t
  · intro test level mu isLeaf cv children ih; exact h _ _ _ _ _ _ ih
  · intro c hc; simp at hc
  · intro c cs hc hcs x hx
    rcases List.mem_cons.1 hx with rfl | hx
    · exact hc
    · exact hcs x hx

theorem bLeafPathsList_eq (cs : List (BNode C K)) : bLeafPathsList cs = cs.flatMap bLeafPaths := by
  induction cs with
  | nil => rfl
  | cons c cs ih => simp [bLeafPathsList, ih]

theorem BBranchingList_iff (cs : List (BNode C K)) : BBranchingList cs ↔ ∀ c ∈ cs, BBranching c := by
  induction cs with
  | nil => simp [BBranchingList]
  | cons c cs ih => simp [BBranchingList, ih]

theorem _root_.Teacher.Spec.BBranching.exists_leaf (t : BNode C K) : BBranching t → ∃ p, p ∈ bLeafPaths t := by
  induction t using BNode.induction with
  | h test level m isLeaf cv children ih =>
    cases isLeaf with
    | true => intro _; exact ⟨_, by simp only [bLeafPaths, if_true]; exact List.mem_singleton.2 rfl⟩
    | false =>
      intro hb
      simp only [BBranching, forall_const, BBranchingList_iff] at hb
      obtain ⟨c, hc⟩ := List.exists_mem_of_ne_nil _ hb.1
      obtain ⟨p, hp⟩ := ih c hc (hb.2 c hc)
      simp only [bLeafPaths, Bool.false_eq_true, if_false, bLeafPathsList_eq]
      exact ⟨_, List.mem_map_of_mem (List.mem_flatMap.2 ⟨c, hc, hp⟩)⟩


/-! ### degrees of tests -/

theorem _root_.Teacher.Spec.BTestDegree.unique {row : List (Cell K)} {t : BTest K} {m m' : K} (h : BTestDegree row t m)
    (h' : BTestDegree row t m') : m = m' := by
  obtain ⟨ms, h1, rfl⟩ := h
  obtain ⟨ms', h2, rfl⟩ := h'
  have : ms = ms' := by
    generalize t.idxs = l at h1 h2
    induction h1 generalizing ms' with
    | nil => cases h2; rfl
    | cons ha _ ih =>
      cases h2 with
      | cons hb hbs => rw [ha.unique hb, ih _ hbs]
  rw [this]

/-- the column of a test -/
theorem sumColumns (X : List (List (Cell K))) (hX : X ≠ []) (var : FVar K) (att : Nat) (idxs : List Nat) (acc r : List K)
    (hacc : acc.length = X.length) :
    idxs.foldlM (fun acc i => match var.sets[i]? with
      | none => .error .indexError
      | some fs => do
        let col ← column X att
        let m ← fs.membership col
        pure (List.zipWith (· + ·) acc m)) acc = (.ok r : Py (List K)) ↔
      ∃ D, List.Forall₂ (fun row d => ∃ ms, List.Forall₂ (fun i m => TestDegree row ⟨var, att, i⟩ m) idxs ms ∧ d = ms.sum) X D ∧
        r = List.zipWith (· + ·) acc D := by
  induction idxs generalizing acc with
  | nil =>
    simp only [List.foldlM_nil, py_pure, Except.ok.injEq]
    have hz : ∀ (X : List (List (Cell K))) (acc : List K), acc.length = X.length →
        List.zipWith (· + ·) acc (X.map (fun _ => (0:K))) = acc := by
      intro X
      induction X with
      | nil => intro acc h; simp only [List.length_nil, List.length_eq_zero_iff] at h; simp [h]
      | cons x X ih =>
        intro acc h
        cases acc with
        | nil => simp at h
        | cons a acc => simp only [List.map_cons, List.zipWith_cons_cons, add_zero]; rw [ih acc (by simpa using h)]
    constructor
    · rintro rfl
      refine ⟨X.map (fun _ => 0), ?_, (hz X acc hacc).symm⟩
      rw [List.forall₂_map_right_iff, List.forall₂_same]
      intro row _
      exact ⟨[], .nil, rfl⟩
    · rintro ⟨D, hD, rfl⟩
      have : D = X.map (fun _ => 0) := by
        clear hacc hX
        induction hD with
        | nil => rfl
        | cons h _ ih =>
          obtain ⟨ms, h1, rfl⟩ := h
          cases h1
          rw [ih]; rfl
      rw [this, hz X acc hacc]
  | cons i idxs ih =>
    rw [List.foldlM_cons, py_bind_eq_ok]
    have hstep : ∀ r', (match var.sets[i]? with
      | none => .error .indexError
      | some fs => do
        let col ← column X att
        let m ← fs.membership col
        pure (List.zipWith (· + ·) acc m) : Py (List K)) = .ok r' ↔
        ∃ ms, List.Forall₂ (fun row m => TestDegree row ⟨var, att, i⟩ m) X ms ∧ r' = List.zipWith (· + ·) acc ms :=
      fun r' => nodeMu_some_iff (· + ·) X hX acc r' ⟨var, att, i⟩
    constructor
    · rintro ⟨r', h1, h2⟩
      obtain ⟨ms, hms, rfl⟩ := (hstep r').1 h1
      have hl : ms.length = X.length := hms.length_eq.symm
      obtain ⟨D, hD, rfl⟩ := (ih _ (by simp [hacc, hl])).1 h2
      refine ⟨List.zipWith (· + ·) ms D, ?_, ?_⟩
      · clear h2 h1 hl hacc hX hstep ih
        induction hms generalizing D with
        | nil => cases hD; exact .nil
        | cons ha _ ih =>
          cases hD with
          | cons hb hbs =>
            obtain ⟨ks, hk, rfl⟩ := hb
            exact .cons ⟨_ :: ks, .cons ha hk, by simp⟩ (ih _ hbs)
      · have hDl : D.length = X.length := hD.length_eq.symm
        apply List.ext_getElem
        · simp [hacc, hl, hDl]
        · intro j h3 h4
          simp [add_assoc]
    · rintro ⟨D, hD, rfl⟩
      have : ∃ ms D', List.Forall₂ (fun row m => TestDegree row ⟨var, att, i⟩ m) X ms ∧
          List.Forall₂ (fun row d => ∃ ms, List.Forall₂ (fun i m => TestDegree row ⟨var, att, i⟩ m) idxs ms ∧ d = ms.sum) X D' ∧
          D = List.zipWith (· + ·) ms D' := by
        clear ih hstep hacc hX
        induction hD with
        | nil => exact ⟨[], [], .nil, .nil, rfl⟩
        | cons h _ ih =>
          obtain ⟨ms, D', i1, i2, i3⟩ := ih
          obtain ⟨ks, hk, rfl⟩ := h
          cases hk with
          | cons ha hk =>
            exact ⟨_ :: ms, _ :: D', .cons ha i1, .cons ⟨_, hk, rfl⟩ i2, by rw [i3, List.sum_cons]; rfl⟩
      obtain ⟨ms, D', i1, i2, rfl⟩ := this
      have hl : ms.length = X.length := i1.length_eq.symm
      have hDl : D'.length = X.length := i2.length_eq.symm
      refine ⟨_, (hstep _).2 ⟨ms, i1, rfl⟩, (ih _ (by simp [hacc, hl])).2 ⟨D', i2, ?_⟩⟩
      apply List.ext_getElem
      · simp [hacc, hl, hDl]
      · intro j h3 h4
        simp [add_assoc]

theorem bnodeMu_some_iff (T : K → K → K) (X : List (List (Cell K))) (hX : X ≠ []) (mu r : List K) (t : BTest K) :
    bnodeMu T X mu (some t) = .ok r ↔ ∃ ms, List.Forall₂ (fun row m => BTestDegree row t m) X ms ∧ r = List.zipWith T mu ms := by
  unfold bnodeMu
  simp only [py_bind_eq_ok, py_pure, Except.ok.injEq]
  have h0 : ∀ D : List K, D.length = X.length → List.zipWith (· + ·) (X.map (fun _ => (0:K))) D = D := by
    intro D hD
    apply List.ext_getElem
    · simp [hD]
    · intro j h3 h4; simp
  have key : ∀ a, pertDegree X t = .ok a ↔ List.Forall₂ (fun row m => BTestDegree row t m) X a := by
    intro a
    unfold pertDegree
    refine (sumColumns X hX t.var t.att t.idxs (X.map (fun _ => 0)) a (by simp)).trans ?_
    constructor
    · rintro ⟨D, hD, rfl⟩; rw [h0 D hD.length_eq.symm]; exact hD
    · intro h; exact ⟨a, h, (h0 a h.length_eq.symm).symm⟩
  constructor
  · rintro ⟨a, h1, rfl⟩; exact ⟨a, (key a).1 h1, rfl⟩
  · rintro ⟨a, h1, rfl⟩; exact ⟨a, (key a).2 h1, rfl⟩

/-- the column of degrees of a test: the one of the rows if it exists. -/
noncomputable def degCol (X : List (List (Cell K))) (t : BTest K) : List K := by
  classical
  exact if h : ∃ ms, List.Forall₂ (fun row m => BTestDegree row t m) X ms then h.choose else []

/-- the test has a degree on every row -/
def HasCol (X : List (List (Cell K))) (t : BTest K) : Prop := ∃ ms, List.Forall₂ (fun row m => BTestDegree row t m) X ms

theorem degCol_spec {X : List (List (Cell K))} {t : BTest K} (h : HasCol X t) :
    List.Forall₂ (fun row m => BTestDegree row t m) X (degCol X t) := by
  unfold degCol
  unfold HasCol at h
  rw [dif_pos h]
  exact h.choose_spec

theorem degCol_unique {X : List (List (Cell K))} {t : BTest K} {ms : List K}
    (h : List.Forall₂ (fun row m => BTestDegree row t m) X ms) : degCol X t = ms := by
  have h2 := degCol_spec ⟨ms, h⟩
  generalize degCol X t = ms' at h2
  induction h generalizing ms' with
  | nil => cases h2; rfl
  | cons ha _ ih =>
    cases h2 with
    | cons hb hbs => rw [hb.unique ha, ih _ hbs]

theorem HasCol_iff (X : List (List (Cell K))) (t : BTest K) : HasCol X t ↔ ∀ row ∈ X, ∃ m, BTestDegree row t m := by
  constructor
  · rintro ⟨ms, h⟩ row hrow
    obtain ⟨m, -, hm⟩ := forall₂_mem_left h row hrow
    exact ⟨m, hm⟩
  · intro h; exact forall₂_of_forall_exists _ _ h

/-- vector of degrees of a leaf -/
noncomputable def pathCol (T : K → K → K) (X : List (List (Cell K))) (mu : List K) (path : List (BTest K)) : List K :=
  path.foldl (fun m t => List.zipWith T m (degCol X t)) mu

/-! ### `_partial_predict` -/

theorem bPartialPredictList_ok_iff (T : K → K → K) (X : List (List (Cell K))) (mu : List K) (cs : List (BNode C K))
    (L : List (Option (Dict C K) × List K)) :
    bPartialPredictList T X mu cs = .ok L ↔
      ∃ Ls, List.Forall₂ (fun c l => bPartialPredict T X mu c = .ok l) cs Ls ∧ L = Ls.flatten := by
  induction cs generalizing L with
  | nil =>
    simp only [bPartialPredictList, Except.ok.injEq]
    constructor
    · rintro rfl; exact ⟨[], .nil, rfl⟩
    · rintro ⟨Ls, h, rfl⟩; cases h; rfl
  | cons c cs ih =>
    simp only [bPartialPredictList, py_bind_eq_ok, ih]
    constructor
    · rintro ⟨r, hr, rs, ⟨Ls, h, rfl⟩, he⟩
      cases he
      exact ⟨r :: Ls, .cons hr h, rfl⟩
    · rintro ⟨Ls, h, rfl⟩
      cases h with
      | cons hr h => exact ⟨_, hr, _, ⟨_, h, rfl⟩, rfl⟩

theorem bPartialPredict_ok_iff (T : K → K → K) (X : List (List (Cell K))) (hX : X ≠ []) (t : BNode C K) :
    ∀ (mu : List K) (L : List (Option (Dict C K) × List K)),
    bPartialPredict T X mu t = .ok L ↔ BBranching t ∧ (∀ p ∈ bLeafPaths t, ∀ test ∈ p.1, HasCol X test) ∧
      L = (bLeafPaths t).map (fun p => (p.2, pathCol T X mu p.1)) := by
  induction t using BNode.induction with
  | h test level m isLeaf cv children ih =>
    intro mu L
    have hnode : ∀ r, bnodeMu T X mu test = .ok r ↔ (∀ t ∈ test.toList, HasCol X t) ∧ r = pathCol T X mu test.toList := by
      intro r
      cases test with
      | none => simp [bnodeMu, pathCol, eq_comm]
      | some t =>
        rw [bnodeMu_some_iff T X hX]
        simp only [Option.toList_some, List.mem_singleton, forall_eq, pathCol, List.foldl_cons, List.foldl_nil]
        constructor
        · rintro ⟨ms, h, rfl⟩; exact ⟨⟨ms, h⟩, by rw [degCol_unique h]⟩
        · rintro ⟨h, rfl⟩; exact ⟨_, degCol_spec h, rfl⟩
    cases isLeaf with
    | true =>
      simp only [bPartialPredict, py_bind_eq_ok, hnode, BBranching, bLeafPaths, if_true]
      constructor
      · rintro ⟨r, ⟨h1, rfl⟩, h2⟩
        cases h2
        refine ⟨by simp, ?_, by simp⟩
        intro p hp
        simp only [List.mem_singleton] at hp
        subst hp
        exact h1
      · rintro ⟨-, h1, rfl⟩
        exact ⟨_, ⟨h1 _ List.mem_cons_self, rfl⟩, rfl⟩
    | false =>
      have hlist : bPartialPredict T X mu (.mk test level m false cv children) = .ok L ↔
          children ≠ [] ∧ ∃ r, bnodeMu T X mu test = .ok r ∧ bPartialPredictList T X r children = .ok L := by
        simp only [bPartialPredict, py_bind_eq_ok, Bool.false_eq_true, if_false]
        cases children with
        | nil => simp
        | cons c cs =>
          simp only [ne_eq, reduceCtorEq, not_false_eq_true, true_and, bPartialPredictList, py_bind_eq_ok]
      rw [hlist]
      have hch : ∀ r, bPartialPredictList T X r children = .ok L ↔ (∀ c ∈ children, BBranching c) ∧
          (∀ p ∈ bLeafPathsList children, ∀ test ∈ p.1, HasCol X test) ∧
          L = (bLeafPathsList children).map (fun p => (p.2, pathCol T X r p.1)) := by
        intro r
        rw [bLeafPathsList_eq, bPartialPredictList_ok_iff]
        clear hlist
        induction children generalizing L with
        | nil =>
          constructor
          · rintro ⟨Ls, h, rfl⟩; cases h; simp
          · rintro ⟨-, -, rfl⟩; exact ⟨[], .nil, rfl⟩
        | cons c cs ihc =>
          have ihc' := ihc (fun c hc => ih c (by simp [hc]))
          constructor
          · rintro ⟨Ls, h, rfl⟩
            cases h with
            | @cons _ l _ ls hc hcs =>
              obtain ⟨a1, a2, a3⟩ := (ih c (by simp) r l).1 hc
              obtain ⟨b1, b2, b3⟩ := (ihc' ls.flatten).1 ⟨ls, hcs, rfl⟩
              refine ⟨by simpa using ⟨a1, b1⟩, ?_, ?_⟩
              · intro p hp
                simp only [List.flatMap_cons, List.mem_append] at hp
                rcases hp with hp | hp
                · exact a2 p hp
                · exact b2 p hp
              · simp only [List.flatten_cons, List.flatMap_cons, List.map_append]
                rw [← a3, b3]
          · rintro ⟨h1, h2, rfl⟩
            obtain ⟨ls, hls, he⟩ := (ihc' ((cs.flatMap bLeafPaths).map (fun p => (p.2, pathCol T X r p.1)))).2
              ⟨fun c hc => h1 c (by simp [hc]), fun p hp => h2 p (by
                simp only [List.flatMap_cons, List.mem_append]; exact .inr hp), rfl⟩
            refine ⟨(bLeafPaths c).map (fun p => (p.2, pathCol T X r p.1)) :: ls, .cons ?_ hls, ?_⟩
            · exact (ih c (by simp) r _).2 ⟨h1 c (by simp), fun p hp => h2 p (by
                simp only [List.flatMap_cons, List.mem_append]; exact .inl hp), rfl⟩
            · simp only [List.flatten_cons, List.flatMap_cons, List.map_append]
              rw [he]
      simp only [hnode, hch, BBranching, bLeafPaths, Bool.false_eq_true, if_false, forall_const, BBranchingList_iff]
      constructor
      · rintro ⟨hne, r, ⟨h1, rfl⟩, h2, h3, rfl⟩
        refine ⟨⟨hne, h2⟩, ?_, ?_⟩
        · intro p hp
          obtain ⟨q, hq, rfl⟩ := List.mem_map.1 hp
          intro t ht
          rcases List.mem_append.1 ht with ht | ht
          · exact h1 t ht
          · exact h3 q hq t ht
        · simp [List.map_map, Function.comp_def, pathCol, List.foldl_append]
      · rintro ⟨⟨hne, h2⟩, h3, rfl⟩
        have hex : ∃ p, p ∈ bLeafPathsList children := by
          obtain ⟨c, hc⟩ := List.exists_mem_of_ne_nil _ hne
          obtain ⟨p, hp⟩ := BBranching.exists_leaf c (h2 c hc)
          exact ⟨p, by rw [bLeafPathsList_eq]; exact List.mem_flatMap.2 ⟨c, hc, hp⟩⟩
        refine ⟨hne, _, ⟨?_, rfl⟩, h2, ?_, ?_⟩
        · intro t ht
          obtain ⟨p, hp⟩ := hex
          exact h3 _ (List.mem_map_of_mem hp) t (List.mem_append.2 (.inl ht))
        · intro p hp t ht
          exact h3 _ (List.mem_map_of_mem hp) t (List.mem_append.2 (.inr ht))
        · simp [List.map_map, Function.comp_def, pathCol, List.foldl_append]

section voting
variable [DecidableEq C]

theorem pathCol_length (T : K → K → K) (X : List (List (Cell K))) (mu : List K) (hmu : mu.length = X.length)
    (path : List (BTest K)) (h : ∀ t ∈ path, HasCol X t) : (pathCol T X mu path).length = X.length := by
  unfold pathCol
  induction path generalizing mu with
  | nil => exact hmu
  | cons t path ih =>
    rw [List.foldl_cons]
    apply ih
    · have := (degCol_spec (h t (by simp))).length_eq
      simp [hmu, ← this]
    · exact fun t ht => h t (by simp [ht])

theorem pathCol_getD (T : K → K → K) (X : List (List (Cell K))) (mu : List K) (hmu : mu.length = X.length)
    (path : List (BTest K)) (h : ∀ t ∈ path, HasCol X t) (j : Nat) (hj : j < X.length) :
    (pathCol T X mu path).getD j 0 = (path.map (fun t => (degCol X t).getD j 0)).foldl T (mu.getD j 0) := by
  unfold pathCol
  induction path generalizing mu with
  | nil => rfl
  | cons t path ih =>
    have hl := (degCol_spec (h t (by simp))).length_eq
    rw [List.foldl_cons, ih _ (by simp [hmu, ← hl]) (fun t ht => h t (by simp [ht])),
      getD_zipWith _ _ _ _ (by omega) (by omega), List.map_cons, List.foldl_cons]

theorem degCol_getD {X : List (List (Cell K))} {t : BTest K} (h : HasCol X t) {j : Nat} {row : List (Cell K)}
    (hj : X[j]? = some row) : BTestDegree row t ((degCol X t).getD j 0) := by
  have hf := degCol_spec h
  generalize degCol X t = ms at hf
  induction hf generalizing j with
  | nil => simp at hj
  | cons ha _ ih =>
    cases j with
    | zero => simp only [List.getElem?_cons_zero, Option.some.injEq] at hj; subst hj; simpa using ha
    | succ j =>
      simp only [List.getElem?_cons_succ] at hj
      simpa using ih ⟨_, ‹_›⟩ hj

theorem _root_.Teacher.Spec.BLeafDegree.unique {T : K → K → K} {row : List (Cell K)} {path : List (BTest K)} {m m' : K}
    (h : BLeafDegree T row path m) (h' : BLeafDegree T row path m') : m = m' := by
  obtain ⟨ms, h1, rfl⟩ := h
  obtain ⟨ms', h2, rfl⟩ := h'
  have : ms = ms' := by
    induction h1 generalizing ms' with
    | nil => cases h2; rfl
    | cons ha _ ih =>
      cases h2 with
      | cons hb hbs => rw [ha.unique hb, ih _ hbs]
  rw [this]

theorem _root_.Teacher.Spec.BRowLeaves.unique {T : K → K → K} {row : List (Cell K)} {t : BNode C K} {L L' : List (Dict C K × K)}
    (h : BRowLeaves T row t L) (h' : BRowLeaves T row t L') : L = L' := by
  unfold BRowLeaves at h h'
  generalize bLeafPaths t = ps at h h'
  induction h generalizing L' with
  | nil => cases h'; rfl
  | cons ha _ ih =>
    cases h' with
    | cons hb hbs =>
      rw [ih hbs]
      congr 1
      refine Prod.ext ?_ (ha.2.unique hb.2)
      have := ha.1.symm.trans hb.1
      exact Option.some.inj this

/-- the tree can be evaluated on a table: the leaves are filled in and every test has degrees -/
theorem rowLeaves_of_cols (T : K → K → K) (X : List (List (Cell K))) (t : BNode C K)
    (h : ∀ p ∈ bLeafPaths t, ∀ test ∈ p.1, HasCol X test) (L : List (Dict C K × List K))
    (hL : (bLeafPaths t).map (fun p => (p.2, pathCol T X (X.map (fun _ => 1)) p.1)) = L.map (fun q => (some q.1, q.2)))
    (j : Nat) (row : List (Cell K)) (hj : X[j]? = some row) : BRowLeaves T row t (atRow j L) := by
  have hjl : j < X.length := (List.getElem?_eq_some_iff.1 hj).1
  unfold BRowLeaves
  generalize bLeafPaths t = ps at h hL
  induction ps generalizing L with
  | nil =>
    cases L with
    | nil => exact .nil
    | cons q L => simp at hL
  | cons p ps ih =>
    cases L with
    | nil => simp at hL
    | cons q L =>
      simp only [List.map_cons, List.cons.injEq, Prod.mk.injEq] at hL
      refine .cons ⟨hL.1.1, ?_⟩ (ih L (fun p hp => h p (by simp [hp])) hL.2)
      have hcol := h p (by simp)
      refine ⟨p.1.map (fun t => (degCol X t).getD j 0), ?_, ?_⟩
      · rw [List.forall₂_map_right_iff, List.forall₂_same]
        intro t ht
        exact degCol_getD (hcol t ht) hj
      · show q.2.getD j 0 = _
        rw [← hL.1.2, pathCol_getD T X _ (by simp) p.1 hcol j hjl, getD_one X j hjl]

/-- full description of `TreeFBDT.predict` on a non-empty table. -/
theorem predict_ok_iff (T : K → K → K) (v : Voting) (t : BNode C K) (X : List (List (Cell K))) (hX : X ≠ []) (cs : List C) :
    t.predict T v X = .ok cs ↔ BBranching t ∧
      List.Forall₂ (fun row c => ∃ L, BRowLeaves T row t L ∧ IsWinner v L c) X cs := by
  have hbest : ∀ (L : List (Dict C K × List K)), (∀ p ∈ bLeafPaths t, ∀ test ∈ p.1, HasCol X test) →
      (bLeafPaths t).map (fun p => (p.2, pathCol T X (X.map (fun _ => 1)) p.1)) = L.map (fun q => (some q.1, q.2)) →
      ((List.range X.length).mapM (bestClass (votesFold v (entriesOf L) [])) = .ok cs ↔
        List.Forall₂ (fun row c => ∃ L, BRowLeaves T row t L ∧ IsWinner v L c) X cs) := by
    intro L hcols hL
    have hlen : ∀ q ∈ L, q.2.length = X.length := by
      intro q hq
      have : (some q.1, q.2) ∈ L.map (fun q => (some q.1, q.2)) := List.mem_map_of_mem (f := fun q => (some q.1, q.2)) hq
      rw [← hL] at this
      obtain ⟨p, hp, he⟩ := List.mem_map.1 this
      simp only [Prod.mk.injEq] at he
      rw [← he.2]
      exact pathCol_length T X _ (by simp) p.1 (hcols p hp)
    rw [mapM_ok_iff, List.forall₂_iff_get, List.forall₂_iff_get]
    simp only [List.length_range, List.get_eq_getElem, List.getElem_range]
    refine and_congr_right (fun hlen' => ?_)
    refine forall_congr' (fun j => forall_congr' (fun h1 => forall_congr' (fun h2 => ?_)))
    rw [bestClass_iff v L X.length hlen j h1]
    have hrow := rowLeaves_of_cols T X t hcols L hL j X[j] (by simp [h1])
    constructor
    · intro h; exact ⟨_, hrow, h⟩
    · rintro ⟨L', h3, h4⟩; rw [hrow.unique h3]; exact h4
  unfold BNode.predict
  constructor
  · intro h
    rw [py_bind_eq_ok] at h
    obtain ⟨leaves, h1, h⟩ := h
    rw [py_bind_eq_ok] at h
    obtain ⟨votes, h2, h⟩ := h
    obtain ⟨hb, hcols, rfl⟩ := (bPartialPredict_ok_iff T X hX t _ _).1 h1
    obtain ⟨L, hL⟩ := Voting.run_none v _ _ h2
    rw [hL, Voting.run_some] at h2
    cases h2
    split at h
    · cases h
    · exact ⟨hb, (hbest L hcols hL).1 h⟩
  · rintro ⟨hb, hf⟩
    have hcols : ∀ p ∈ bLeafPaths t, ∀ test ∈ p.1, HasCol X test := by
      intro p hp test ht
      rw [HasCol_iff]
      intro row hrow
      obtain ⟨c, -, L, hL, -⟩ := forall₂_mem_left hf row hrow
      obtain ⟨q, -, -, ms, hms, -⟩ := forall₂_mem_left hL p hp
      obtain ⟨m, -, hm⟩ := forall₂_mem_left hms test ht
      exact ⟨m, hm⟩
    obtain ⟨row, hrow⟩ := List.exists_mem_of_ne_nil _ hX
    obtain ⟨c, -, L₀, hL₀, hw⟩ := forall₂_mem_left hf row hrow
    have hsome : ∃ L : List (Dict C K × List K),
        (bLeafPaths t).map (fun p => (p.2, pathCol T X (X.map (fun _ => 1)) p.1)) = L.map (fun q => (some q.1, q.2)) := by
      unfold BRowLeaves at hL₀
      clear hw hbest hcols hf hb
      generalize bLeafPaths t = ps at hL₀
      induction hL₀ with
      | nil => exact ⟨[], rfl⟩
      | @cons p q _ _ h _ ih =>
        obtain ⟨L, hL⟩ := ih
        exact ⟨(q.1, pathCol T X (X.map (fun _ => 1)) p.1) :: L, by rw [List.map_cons, List.map_cons, hL, h.1]⟩
    obtain ⟨L, hL⟩ := hsome
    rw [(bPartialPredict_ok_iff T X hX t _ _).2 ⟨hb, hcols, rfl⟩, py_bind_ok, hL, Voting.run_some, py_bind_ok]
    have hm := (hbest L hcols hL).2 hf
    rw [if_neg]
    · exact hm
    · intro he
      rw [he] at hm
      rw [mapM_ok_iff] at hm
      cases X with
      | nil => exact hX rfl
      | cons x X =>
        rw [List.length_cons, List.range_succ_eq_map] at hm
        cases hm with
        | cons h _ => simp [bestClass, pyMax] at h

end voting

end Teacher.FB
