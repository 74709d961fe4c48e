import Verif.Lemmas.Rule
import Verif.Lemmas.Fuzzy
import Verif.Spec.Tree

/-! Lemmas about the prediction of `FDT`. -/

set_option linter.unusedSectionVars false

namespace Teacher
open Spec

variable {C K : Type}

/-! ### induction on trees -/

theorem FNode.induction {P : FNode C K → Prop}
    (h : ∀ test level mu isLeaf cv children, (∀ c ∈ children, P c) → P (.mk test level mu isLeaf cv children)) :
    ∀ t, P t := by
  intro t
  refine FNode.rec (motive_1 := P) (motive_2 := fun l => ∀ c ∈ l, P c) ?_ ?_ ?_ t
  · intro test level mu isLeaf cv children ih; exact h _ _ _ _ _ _ ih
  · intro c hc; simp at hc
  · intro c cs hc hcs x hx
    rcases List.mem_cons.1 hx with rfl | hx
    · exact hc
    · exact hcs x hx

theorem leafPathsList_eq (cs : List (FNode C K)) : leafPathsList cs = cs.flatMap leafPaths := by
  induction cs with
  | nil => rfl
  | cons c cs ih => simp [leafPathsList, ih]

theorem BranchingList_iff (cs : List (FNode C K)) : BranchingList cs ↔ ∀ c ∈ cs, Branching c := by
  induction cs with
  | nil => simp [BranchingList]
  | cons c cs ih => simp [BranchingList, ih]

theorem Branching.exists_leaf (t : FNode C K) : Branching t → ∃ p, p ∈ leafPaths t := by
  induction t using FNode.induction with
  | h test level m isLeaf cv children ih =>
    cases isLeaf with
    | true => intro _; exact ⟨_, by simp only [leafPaths, if_true]; exact List.mem_singleton.2 rfl⟩
    | false =>
      intro hb
      simp only [Branching, forall_const, BranchingList_iff] at hb
      obtain ⟨c, hc⟩ := List.exists_mem_of_ne_nil _ hb.1
      obtain ⟨p, hp⟩ := ih c hc (hb.2 c hc)
      simp only [leafPaths, Bool.false_eq_true, if_false, leafPathsList_eq]
      exact ⟨_, List.mem_map_of_mem (List.mem_flatMap.2 ⟨c, hc, hp⟩)⟩

variable [Field K] [LinearOrder K] [IsStrictOrderedRing K]

/-! ### degrees of tests -/

theorem FSet.membership_singleton_length {s : FSet K} {x : Cell K} {ms : List K} (h : s.membership [x] = .ok ms) :
    ∃ m, ms = [m] := by
  obtain ⟨-, hf⟩ := (FSet.membership_ok_iff s [x] ms).1 h
  cases hf with
  | cons h1 h2 => cases h2; exact ⟨_, rfl⟩

theorem Spec.TestDegree.unique {row : List (Cell K)} {t : FTest K} {m m' : K} (h : TestDegree row t m)
    (h' : TestDegree row t m') : m = m' := by
  obtain ⟨fs, x, h1, h2, h3⟩ := h
  obtain ⟨fs', x', h1', h2', h3'⟩ := h'
  rw [h1] at h1'; cases h1'
  rw [h2] at h2'; cases h2'
  rw [h3] at h3'; cases h3'; rfl

theorem nodeMu_some_iff (T : K → K → K) (X : List (List (Cell K))) (hX : X ≠ []) (mu r : List K) (t : FTest K) :
    nodeMu T X mu (some t) = .ok r ↔ ∃ ms, List.Forall₂ (fun row m => TestDegree row t m) X ms ∧ r = List.zipWith T mu ms := by
  unfold nodeMu
  cases hfs : t.var.sets[t.idx]? with
  | none =>
    simp only [hfs, reduceCtorEq, false_iff]
    rintro ⟨ms, hf, -⟩
    cases hf with
    | nil => exact hX rfl
    | cons h _ =>
      obtain ⟨fs, x, h1, -⟩ := h
      rw [hfs] at h1; cases h1
  | some fs =>
    simp only [hfs]
    rw [py_bind_eq_ok]
    constructor
    · rintro ⟨col, hcol, h⟩
      rw [py_bind_eq_ok] at h
      obtain ⟨ms, hms, h⟩ := h
      cases h
      refine ⟨ms, ?_, rfl⟩
      have h1 := (column_eq_ok_iff X t.att col).1 hcol
      have h2 := ((FSet.membership_ok_iff fs col ms).1 hms).2
      clear hcol hms hX
      induction h1 generalizing ms with
      | nil => cases h2; exact .nil
      | cons ha _ ih =>
        cases h2 with
        | cons hb hbs => exact .cons ⟨fs, _, hfs, ha, hb⟩ (ih _ hbs)
    · rintro ⟨ms, hf, rfl⟩
      have hev : fs.Evaluable := by
        cases hf with
        | nil => exact absurd rfl hX
        | cons h _ =>
          obtain ⟨fs', x, h1, -, h3⟩ := h
          rw [hfs] at h1; cases h1
          exact ((FSet.membership_ok_iff _ _ _).1 h3).1
      have : ∃ col, List.Forall₂ (fun (r : List (Cell K)) c => r[t.att]? = some c) X col ∧
          List.Forall₂ (fun x m => fs.membership [x] = .ok [m]) col ms := by
        clear hX
        induction hf with
        | nil => exact ⟨[], .nil, .nil⟩
        | cons h _ ih =>
          obtain ⟨col, i1, i2⟩ := ih
          obtain ⟨fs', x, h1, h2, h3⟩ := h
          rw [hfs] at h1; cases h1
          exact ⟨x :: col, .cons h2 i1, .cons h3 i2⟩
      obtain ⟨col, h1, h2⟩ := this
      exact ⟨col, (column_eq_ok_iff X t.att col).2 h1, by
        rw [(FSet.membership_ok_iff fs col ms).2 ⟨hev, h2⟩]; rfl⟩

/-- the column of degrees of a test: the one of the rows if it exists. -/
noncomputable def degCol (X : List (List (Cell K))) (t : FTest K) : List K := by
  classical
  exact if h : ∃ ms, List.Forall₂ (fun row m => TestDegree row t m) X ms then h.choose else []

/-- the test has a degree on every row -/
def HasCol (X : List (List (Cell K))) (t : FTest K) : Prop := ∃ ms, List.Forall₂ (fun row m => TestDegree row t m) X ms

theorem degCol_spec {X : List (List (Cell K))} {t : FTest K} (h : HasCol X t) :
    List.Forall₂ (fun row m => TestDegree row t m) X (degCol X t) := by
  unfold degCol
  unfold HasCol at h
  rw [dif_pos h]
  exact h.choose_spec

theorem degCol_unique {X : List (List (Cell K))} {t : FTest K} {ms : List K}
    (h : List.Forall₂ (fun row m => TestDegree row t m) X ms) : degCol X t = ms := by
  have h2 := degCol_spec ⟨ms, h⟩
  generalize degCol X t = ms' at h2
  induction h generalizing ms' with
  | nil => cases h2; rfl
  | cons ha _ ih =>
    cases h2 with
    | cons hb hbs => rw [hb.unique ha, ih _ hbs]

theorem HasCol_iff (X : List (List (Cell K))) (t : FTest K) : HasCol X t ↔ ∀ row ∈ X, ∃ m, TestDegree row t m := by
  constructor
  · rintro ⟨ms, h⟩ row hrow
    obtain ⟨m, -, hm⟩ := forall₂_mem_left h row hrow
    exact ⟨m, hm⟩
  · intro h; exact forall₂_of_forall_exists _ _ h

/-- vector of degrees of a leaf -/
noncomputable def pathCol (T : K → K → K) (X : List (List (Cell K))) (mu : List K) (path : List (FTest K)) : List K :=
  path.foldl (fun m t => List.zipWith T m (degCol X t)) mu

/-! ### `_partial_predict` -/

theorem partialPredictList_ok_iff (T : K → K → K) (X : List (List (Cell K))) (mu : List K) (cs : List (FNode C K))
    (L : List (Option (Dict C K) × List K)) :
    partialPredictList T X mu cs = .ok L ↔
      ∃ Ls, List.Forall₂ (fun c l => partialPredict T X mu c = .ok l) cs Ls ∧ L = Ls.flatten := by
  induction cs generalizing L with
  | nil =>
    simp only [partialPredictList, Except.ok.injEq]
    constructor
    · rintro rfl; exact ⟨[], .nil, rfl⟩
    · rintro ⟨Ls, h, rfl⟩; cases h; rfl
  | cons c cs ih =>
    simp only [partialPredictList, py_bind_eq_ok, ih]
    constructor
    · rintro ⟨r, hr, rs, ⟨Ls, h, rfl⟩, he⟩
      cases he
      exact ⟨r :: Ls, .cons hr h, rfl⟩
    · rintro ⟨Ls, h, rfl⟩
      cases h with
      | cons hr h => exact ⟨_, hr, _, ⟨_, h, rfl⟩, rfl⟩

theorem partialPredict_ok_iff (T : K → K → K) (X : List (List (Cell K))) (hX : X ≠ []) (t : FNode C K) :
    ∀ (mu : List K) (L : List (Option (Dict C K) × List K)),
    partialPredict T X mu t = .ok L ↔ Branching t ∧ (∀ p ∈ leafPaths t, ∀ test ∈ p.1, HasCol X test) ∧
      L = (leafPaths t).map (fun p => (p.2, pathCol T X mu p.1)) := by
  induction t using FNode.induction with
  | h test level m isLeaf cv children ih =>
    intro mu L
    have hnode : ∀ r, nodeMu T X mu test = .ok r ↔ (∀ t ∈ test.toList, HasCol X t) ∧ r = pathCol T X mu test.toList := by
      intro r
      cases test with
      | none => simp [nodeMu, pathCol, eq_comm]
      | some t =>
        rw [nodeMu_some_iff T X hX]
        simp only [Option.toList_some, List.mem_singleton, forall_eq, pathCol, List.foldl_cons, List.foldl_nil]
        constructor
        · rintro ⟨ms, h, rfl⟩; exact ⟨⟨ms, h⟩, by rw [degCol_unique h]⟩
        · rintro ⟨h, rfl⟩; exact ⟨_, degCol_spec h, rfl⟩
    cases isLeaf with
    | true =>
      simp only [partialPredict, py_bind_eq_ok, hnode, Branching, leafPaths, if_true]
      constructor
      · rintro ⟨r, ⟨h1, rfl⟩, h2⟩
        cases h2
        refine ⟨by simp, ?_, by simp⟩
        intro p hp
        simp only [List.mem_singleton] at hp
        subst hp
        exact h1
      · rintro ⟨-, h1, rfl⟩
        exact ⟨_, ⟨h1 _ List.mem_cons_self, rfl⟩, rfl⟩
    | false =>
      have hlist : partialPredict T X mu (.mk test level m false cv children) = .ok L ↔
          children ≠ [] ∧ ∃ r, nodeMu T X mu test = .ok r ∧ partialPredictList T X r children = .ok L := by
        simp only [partialPredict, py_bind_eq_ok, Bool.false_eq_true, if_false]
        cases children with
        | nil => simp
        | cons c cs =>
          simp only [ne_eq, reduceCtorEq, not_false_eq_true, true_and, partialPredictList, py_bind_eq_ok]
      rw [hlist]
      have hch : ∀ r, partialPredictList T X r children = .ok L ↔ (∀ c ∈ children, Branching c) ∧
          (∀ p ∈ leafPathsList children, ∀ test ∈ p.1, HasCol X test) ∧
          L = (leafPathsList children).map (fun p => (p.2, pathCol T X r p.1)) := by
        intro r
        rw [leafPathsList_eq, partialPredictList_ok_iff]
        clear hlist
        induction children generalizing L with
        | nil =>
          constructor
          · rintro ⟨Ls, h, rfl⟩; cases h; simp
          · rintro ⟨-, -, rfl⟩; exact ⟨[], .nil, rfl⟩
        | cons c cs ihc =>
          have ihc' := ihc (fun c hc => ih c (by simp [hc]))
          constructor
          · rintro ⟨Ls, h, rfl⟩
            cases h with
            | @cons _ l _ ls hc hcs =>
              obtain ⟨a1, a2, a3⟩ := (ih c (by simp) r l).1 hc
              obtain ⟨b1, b2, b3⟩ := (ihc' ls.flatten).1 ⟨ls, hcs, rfl⟩
              refine ⟨by simpa using ⟨a1, b1⟩, ?_, ?_⟩
              · intro p hp
                simp only [List.flatMap_cons, List.mem_append] at hp
                rcases hp with hp | hp
                · exact a2 p hp
                · exact b2 p hp
              · simp only [List.flatten_cons, List.flatMap_cons, List.map_append]
                rw [← a3, b3]
          · rintro ⟨h1, h2, rfl⟩
            obtain ⟨ls, hls, he⟩ := (ihc' ((cs.flatMap leafPaths).map (fun p => (p.2, pathCol T X r p.1)))).2
              ⟨fun c hc => h1 c (by simp [hc]), fun p hp => h2 p (by
                simp only [List.flatMap_cons, List.mem_append]; exact .inr hp), rfl⟩
            refine ⟨(leafPaths c).map (fun p => (p.2, pathCol T X r p.1)) :: ls, .cons ?_ hls, ?_⟩
            · exact (ih c (by simp) r _).2 ⟨h1 c (by simp), fun p hp => h2 p (by
                simp only [List.flatMap_cons, List.mem_append]; exact .inl hp), rfl⟩
            · simp only [List.flatten_cons, List.flatMap_cons, List.map_append]
              rw [he]
      simp only [hnode, hch, Branching, leafPaths, Bool.false_eq_true, if_false, forall_const, BranchingList_iff]
      constructor
      · rintro ⟨hne, r, ⟨h1, rfl⟩, h2, h3, rfl⟩
        refine ⟨⟨hne, h2⟩, ?_, ?_⟩
        · intro p hp
          obtain ⟨q, hq, rfl⟩ := List.mem_map.1 hp
          intro t ht
          rcases List.mem_append.1 ht with ht | ht
          · exact h1 t ht
          · exact h3 q hq t ht
        · simp [List.map_map, Function.comp_def, pathCol, List.foldl_append]
      · rintro ⟨⟨hne, h2⟩, h3, rfl⟩
        have hex : ∃ p, p ∈ leafPathsList children := by
          obtain ⟨c, hc⟩ := List.exists_mem_of_ne_nil _ hne
          obtain ⟨p, hp⟩ := Branching.exists_leaf c (h2 c hc)
          exact ⟨p, by rw [leafPathsList_eq]; exact List.mem_flatMap.2 ⟨c, hc, hp⟩⟩
        refine ⟨hne, _, ⟨?_, rfl⟩, h2, ?_, ?_⟩
        · intro t ht
          obtain ⟨p, hp⟩ := hex
          exact h3 _ (List.mem_map_of_mem hp) t (List.mem_append.2 (.inl ht))
        · intro p hp t ht
          exact h3 _ (List.mem_map_of_mem hp) t (List.mem_append.2 (.inr ht))
        · simp [List.map_map, Function.comp_def, pathCol, List.foldl_append]

/-! ### voting -/

section voting
variable [DecidableEq C]

/-- how a vote is combined with the next contribution -/
def Voting.op (v : Voting) : K → K → K :=
  match v with
  | .agg => (· + ·)
  | .max => Max.max

/-- the votes after a list of entries (vector of degrees, class and weight) -/
def votesFold (v : Voting) (E : List (List K × C × K)) (d : Dict C (List K)) : Dict C (List K) :=
  E.foldl (fun d e => v.entry e.1 d e.2) d

theorem getD_zipWith (f : K → K → K) (u w : List K) (j : Nat) (hu : j < u.length) (hw : j < w.length) :
    (List.zipWith f u w).getD j 0 = f (u.getD j 0) (w.getD j 0) := by
  simp [List.getD_eq_getElem?_getD, hu, hw]

theorem getD_map0 (f : K → K) (u : List K) (j : Nat) (hu : j < u.length) : (u.map f).getD j 0 = f (u.getD j 0) := by
  simp [List.getD_eq_getElem?_getD, hu]

theorem Voting.entry_get? (v : Voting) (mu : List K) (d : Dict C (List K)) (kv : C × K) (n : Nat) (hmu : mu.length = n)
    (hd : ∀ c u, Dict.get? d c = some u → u.length = n) (c : C) :
    (∀ u, Dict.get? (v.entry mu d kv) c = some u → u.length = n) ∧
    ∀ j, j < n → ((Dict.get? (v.entry mu d kv) c).getD []).getD j 0 =
      if kv.1 = c then v.op (((Dict.get? d c).getD []).getD j 0) (kv.2 * mu.getD j 0)
      else ((Dict.get? d c).getD []).getD j 0 := by
  have key : ∃ u, v.entry mu d kv = Dict.set d kv.1 u ∧ u.length = n ∧
      ∀ j, j < n → u.getD j 0 = v.op (((Dict.get? d kv.1).getD []).getD j 0) (kv.2 * mu.getD j 0) := by
    cases v with
    | agg =>
      simp only [Voting.entry, aggEntry]
      cases hg : Dict.get? d kv.1 with
      | none =>
        refine ⟨_, rfl, by simpa using hmu, ?_⟩
        intro j hj
        rw [getD_map0 _ _ _ (by omega)]
        simp [Voting.op]
      | some u =>
        have hu := hd _ _ hg
        refine ⟨_, rfl, by simp [hu, hmu], ?_⟩
        intro j hj
        simp only [Option.getD_some]
        rw [getD_zipWith _ _ _ _ (by omega) (by simp; omega), getD_map0 _ _ _ (by omega)]
        rfl
    | max =>
      simp only [Voting.entry, maxEntry]
      cases hg : Dict.get? d kv.1 with
      | none =>
        refine ⟨_, rfl, by simpa using hmu, ?_⟩
        intro j hj
        rw [getD_map0 _ _ _ (by simp; omega), getD_map0 _ _ _ (by omega)]
        simp [Voting.op]
      | some u =>
        have hu := hd _ _ hg
        refine ⟨_, rfl, by simp [hu, hmu], ?_⟩
        intro j hj
        simp only [Option.getD_some]
        rw [getD_zipWith _ _ _ _ (by omega) (by simp; omega), getD_map0 _ _ _ (by omega)]
        rfl
  obtain ⟨u, he, hl, hv⟩ := key
  rw [he, Dict.get?_set]
  by_cases hc : kv.1 = c
  · subst hc
    simp only [if_true, Option.some.injEq, Option.getD_some]
    exact ⟨fun w hw => hw ▸ hl, hv⟩
  · simp only [hc, if_false]
    exact ⟨fun w hw => hd _ _ hw, fun j _ => trivial⟩

theorem Voting.entry_keys (v : Voting) (mu : List K) (d : Dict C (List K)) (kv : C × K) :
    Dict.keys (v.entry mu d kv) = insKey (Dict.keys d) kv.1 := by
  cases v <;> simp only [Voting.entry, aggEntry, maxEntry, keys_set_insKey]

theorem votesFold_spec (v : Voting) (E : List (List K × C × K)) (n : Nat) (hE : ∀ e ∈ E, e.1.length = n)
    (d : Dict C (List K)) (hd : ∀ c u, Dict.get? d c = some u → u.length = n) :
    Dict.keys (votesFold v E d) = (E.map (fun e => e.2.1)).foldl insKey (Dict.keys d) ∧
    ∀ c j, j < n → ((Dict.get? (votesFold v E d) c).getD []).getD j 0 =
      ((E.filter (fun e => e.2.1 = c)).map (fun e => e.2.2 * e.1.getD j 0)).foldl v.op
        (((Dict.get? d c).getD []).getD j 0) := by
  induction E generalizing d with
  | nil => exact ⟨rfl, fun c j _ => rfl⟩
  | cons e E ih =>
    have h1 := fun c => Voting.entry_get? v e.1 d e.2 n (hE e (by simp)) hd c
    obtain ⟨i1, i2⟩ := ih (fun e he => hE e (by simp [he])) (v.entry e.1 d e.2) (fun c => (h1 c).1)
    refine ⟨?_, ?_⟩
    · show Dict.keys (votesFold v E (v.entry e.1 d e.2)) = _
      rw [i1, Voting.entry_keys]; rfl
    · intro c j hj
      show ((Dict.get? (votesFold v E (v.entry e.1 d e.2)) c).getD []).getD j 0 = _
      rw [i2 c j hj, (h1 c).2 j hj]
      by_cases hc : e.2.1 = c
      · simp [hc]
      · simp [hc]

/-- entries of a list of leaves -/
def entriesOf (L : List (Dict C K × List K)) : List (List K × C × K) :=
  L.flatMap (fun q => q.1.map (fun kv => (q.2, kv)))

theorem Voting.run_some (v : Voting) (L : List (Dict C K × List K)) :
    v.run (L.map (fun q => (some q.1, q.2))) = .ok (votesFold v (entriesOf L) []) := by
  unfold Voting.run
  generalize ([] : Dict C (List K)) = d
  induction L generalizing d with
  | nil => rfl
  | cons q L ih =>
    rw [List.map_cons, List.foldlM_cons]
    show (_ : Py _) = _
    simp only [py_bind_ok]
    refine (ih _).trans ?_
    simp only [votesFold, entriesOf, List.flatMap_cons, List.foldl_append, List.foldl_map]

theorem Voting.run_none (v : Voting) (L : List (Option (Dict C K) × List K)) (r : Dict C (List K))
    (h : v.run L = .ok r) : ∃ L' : List (Dict C K × List K), L = L'.map (fun q => (some q.1, q.2)) := by
  unfold Voting.run at h
  generalize ([] : Dict C (List K)) = d at h
  induction L generalizing d with
  | nil => exact ⟨[], rfl⟩
  | cons q L ih =>
    rw [List.foldlM_cons, py_bind_eq_ok] at h
    obtain ⟨d', h1, h2⟩ := h
    obtain ⟨L', rfl⟩ := ih _ h2
    obtain ⟨cv, mu⟩ := q
    cases cv with
    | none => cases h1
    | some cv => exact ⟨(cv, mu) :: L', rfl⟩

/-- the leaves as seen by row `j` -/
def atRow (j : Nat) (L : List (Dict C K × List K)) : List (Dict C K × K) := L.map (fun q => (q.1, q.2.getD j 0))

theorem contributions_atRow (L : List (Dict C K × List K)) (j : Nat) (c : C) :
    contributions (atRow j L) c = ((entriesOf L).filter (fun e => e.2.1 = c)).map (fun e => e.2.2 * e.1.getD j 0) := by
  unfold contributions atRow entriesOf
  induction L with
  | nil => rfl
  | cons q L ih =>
    simp only [List.map_cons, List.flatMap_cons, ih, List.filter_append, List.map_append]
    congr 1
    induction q.1 with
    | nil => rfl
    | cons kv l ihl =>
      by_cases h : kv.1 = c
      · simp only [List.map_cons, List.filter_cons, h, decide_true, if_true, ihl]
      · simp only [List.map_cons, List.filter_cons, h, decide_false, Bool.false_eq_true, if_false, ihl]

theorem vote_eq_foldl (v : Voting) (L : List (Dict C K × K)) (c : C) : vote v L c = (contributions L c).foldl v.op 0 := by
  cases v with
  | agg => simp only [vote, Voting.op]; rw [List.sum_eq_foldl]
  | max =>
    simp only [vote, Voting.op]
    have : ∀ (l : List K) (a : K), l.foldl Max.max a = l.foldr Max.max a := by
      intro l
      induction l with
      | nil => intro a; rfl
      | cons b l ih =>
        intro a
        rw [List.foldl_cons, List.foldr_cons, ih]
        clear ih
        induction l with
        | nil => exact max_comm a b
        | cons c l ih => rw [List.foldr_cons, List.foldr_cons, ih, max_left_comm]
    exact (this _ _).symm

theorem Spec.IsWinner.unique {v : Voting} {L : List (Dict C K × K)} {c c' : C} (h : IsWinner v L c)
    (h' : IsWinner v L c') : c = c' := by
  by_contra hne
  obtain ⟨pre, post, e1, h1, h2⟩ := h
  obtain ⟨pre', post', e1', h1', h2'⟩ := h'
  have hall : ∀ x ∈ pre ++ c :: post, vote v L x ≤ vote v L c := by
    intro x hx
    rcases List.mem_append.1 hx with hx | hx
    · exact (h1 x hx).le
    · rcases List.mem_cons.1 hx with rfl | hx
      · exact le_refl _
      · exact h2 x hx
  have hall' : ∀ x ∈ pre' ++ c' :: post', vote v L x ≤ vote v L c' := by
    intro x hx
    rcases List.mem_append.1 hx with hx | hx
    · exact (h1' x hx).le
    · rcases List.mem_cons.1 hx with rfl | hx
      · exact le_refl _
      · exact h2' x hx
  have a1 : vote v L c' ≤ vote v L c := hall c' (by rw [← e1, e1']; simp)
  have a2 : vote v L c ≤ vote v L c' := hall' c (by rw [← e1', e1]; simp)
  have heq := le_antisymm a1 a2
  have e := e1.symm.trans e1'
  rw [List.append_eq_append_iff] at e
  rcases e with ⟨as, h3, h4⟩ | ⟨bs, h3, h4⟩
  · cases as with
    | nil => simp only [List.nil_append, List.cons.injEq] at h4; exact hne h4.1
    | cons a as =>
      simp only [List.cons_append, List.cons.injEq] at h4
      have := h1' c (by rw [h3, ← h4.1]; simp)
      rw [heq] at this; exact lt_irrefl _ this
  · cases bs with
    | nil => simp only [List.nil_append, List.cons.injEq] at h4; exact hne h4.1.symm
    | cons b bs =>
      simp only [List.cons_append, List.cons.injEq] at h4
      have := h1 c' (by rw [h3, ← h4.1]; simp)
      rw [heq] at this; exact lt_irrefl _ this

theorem entriesOf_keys (L : List (Dict C K × List K)) (j : Nat) :
    (entriesOf L).map (fun e => e.2.1) = (atRow j L).flatMap (fun q => q.1.map Prod.fst) := by
  unfold entriesOf atRow
  induction L with
  | nil => rfl
  | cons q L ih =>
    simp only [List.map_cons, List.flatMap_cons, List.map_append, ih]
    congr 1
    simp [List.map_map, Function.comp_def]

/-- the class chosen for row `j` -/
theorem bestClass_iff (v : Voting) (L : List (Dict C K × List K)) (n : Nat) (hL : ∀ q ∈ L, q.2.length = n) (j : Nat)
    (hj : j < n) (c : C) :
    bestClass (votesFold v (entriesOf L) []) j = .ok c ↔ IsWinner v (atRow j L) c := by
  have hE : ∀ e ∈ entriesOf L, e.1.length = n := by
    intro e he
    obtain ⟨q, hq, he⟩ := List.mem_flatMap.1 he
    obtain ⟨kv, -, rfl⟩ := List.mem_map.1 he
    exact hL q hq
  obtain ⟨k1, k2⟩ := votesFold_spec v (entriesOf L) n hE [] (by simp [Dict.get?])
  have hvote : ∀ c, ((Dict.get? (votesFold v (entriesOf L) []) c).getD []).getD j 0 = vote v (atRow j L) c := by
    intro c
    rw [k2 c j hj, vote_eq_foldl, contributions_atRow]
    rfl
  rw [entriesOf_keys L j] at k1
  have hnd : (Dict.keys (votesFold v (entriesOf L) [])).Nodup := by
    rw [k1]; exact nodup_foldl_insKey _ _ (by simp [Dict.keys])
  have hval : ∀ p ∈ votesFold v (entriesOf L) [], p.2.getD j 0 = vote v (atRow j L) p.1 := by
    intro p hp
    rw [← hvote p.1, Dict.get?_of_mem_nodup hnd (v := p.2) hp]
    rfl
  have fwd : ∀ c, bestClass (votesFold v (entriesOf L) []) j = .ok c → IsWinner v (atRow j L) c := by
    intro c hc
    unfold bestClass at hc
    rw [py_bind_eq_ok] at hc
    obtain ⟨b, hb, hc⟩ := hc
    cases hc
    obtain ⟨m1, m2, pre, post, m3, m4⟩ := pyMax_eq_ok _ _ _ hb
    have hks : Dict.keys (votesFold v (entriesOf L) []) = pre.map Prod.fst ++ b.1 :: post.map Prod.fst := by
      unfold Dict.keys; rw [m3]; simp
    rw [k1] at hks
    obtain ⟨pre', post', hl, hp⟩ := foldl_insKey_split _ _ _ _ b.1 (by simp [Dict.keys]) hks
    refine ⟨pre', post', hl, ?_, ?_⟩
    · intro x hx
      obtain ⟨p, hp', rfl⟩ := List.mem_map.1 (hp x hx)
      have hmem : p ∈ votesFold v (entriesOf L) [] := by rw [m3]; simp [hp']
      rw [← hval p hmem, ← hval b m1]
      exact m4 p hp'
    · intro x hx
      have hxk : x ∈ Dict.keys (votesFold v (entriesOf L) []) := by
        rw [k1, mem_foldl_insKey]; right; rw [hl]; simp [hx]
      obtain ⟨p, hp', rfl⟩ := List.mem_map.1 hxk
      rw [← hval p hp', ← hval b m1]
      exact m2 p hp'
  refine ⟨fwd c, ?_⟩
  intro hw
  have hne : votesFold v (entriesOf L) [] ≠ [] := by
    intro he
    have : c ∈ Dict.keys (votesFold v (entriesOf L) []) := by
      rw [k1, mem_foldl_insKey]; right
      obtain ⟨pre, post, e, -⟩ := hw
      rw [e]; simp
    rw [he] at this; simp [Dict.keys] at this
  obtain ⟨b, hb⟩ := pyMax_ok_of_ne_nil (fun p : C × List K => p.2.getD j 0) _ hne
  have hbc : bestClass (votesFold v (entriesOf L) []) j = .ok b.1 := by
    unfold bestClass; rw [hb]; rfl
  rw [hbc, (fwd _ hbc).unique hw]

theorem getD_one {α : Type} (X : List α) (j : Nat) (hj : j < X.length) : (X.map (fun _ => (1:K))).getD j 0 = 1 := by
  simp [List.getD_eq_getElem?_getD, hj]

theorem pathCol_length (T : K → K → K) (X : List (List (Cell K))) (mu : List K) (hmu : mu.length = X.length)
    (path : List (FTest K)) (h : ∀ t ∈ path, HasCol X t) : (pathCol T X mu path).length = X.length := by
  unfold pathCol
  induction path generalizing mu with
  | nil => exact hmu
  | cons t path ih =>
    rw [List.foldl_cons]
    apply ih
    · have := (degCol_spec (h t (by simp))).length_eq
      simp [hmu, ← this]
    · exact fun t ht => h t (by simp [ht])

theorem pathCol_getD (T : K → K → K) (X : List (List (Cell K))) (mu : List K) (hmu : mu.length = X.length)
    (path : List (FTest K)) (h : ∀ t ∈ path, HasCol X t) (j : Nat) (hj : j < X.length) :
    (pathCol T X mu path).getD j 0 = (path.map (fun t => (degCol X t).getD j 0)).foldl T (mu.getD j 0) := by
  unfold pathCol
  induction path generalizing mu with
  | nil => rfl
  | cons t path ih =>
    have hl := (degCol_spec (h t (by simp))).length_eq
    rw [List.foldl_cons, ih _ (by simp [hmu, ← hl]) (fun t ht => h t (by simp [ht])),
      getD_zipWith _ _ _ _ (by omega) (by omega), List.map_cons, List.foldl_cons]

theorem degCol_getD {X : List (List (Cell K))} {t : FTest K} (h : HasCol X t) {j : Nat} {row : List (Cell K)}
    (hj : X[j]? = some row) : TestDegree row t ((degCol X t).getD j 0) := by
  have hf := degCol_spec h
  generalize degCol X t = ms at hf
  induction hf generalizing j with
  | nil => simp at hj
  | cons ha _ ih =>
    cases j with
    | zero => simp only [List.getElem?_cons_zero, Option.some.injEq] at hj; subst hj; simpa using ha
    | succ j =>
      simp only [List.getElem?_cons_succ] at hj
      simpa using ih ⟨_, ‹_›⟩ hj

theorem Spec.LeafDegree.unique {T : K → K → K} {row : List (Cell K)} {path : List (FTest K)} {m m' : K}
    (h : LeafDegree T row path m) (h' : LeafDegree T row path m') : m = m' := by
  obtain ⟨ms, h1, rfl⟩ := h
  obtain ⟨ms', h2, rfl⟩ := h'
  have : ms = ms' := by
    induction h1 generalizing ms' with
    | nil => cases h2; rfl
    | cons ha _ ih =>
      cases h2 with
      | cons hb hbs => rw [ha.unique hb, ih _ hbs]
  rw [this]

theorem Spec.RowLeaves.unique {T : K → K → K} {row : List (Cell K)} {t : FNode C K} {L L' : List (Dict C K × K)}
    (h : RowLeaves T row t L) (h' : RowLeaves T row t L') : L = L' := by
  unfold RowLeaves at h h'
  generalize leafPaths t = ps at h h'
  induction h generalizing L' with
  | nil => cases h'; rfl
  | cons ha _ ih =>
    cases h' with
    | cons hb hbs =>
      rw [ih hbs]
      congr 1
      refine Prod.ext ?_ (ha.2.unique hb.2)
      have := ha.1.symm.trans hb.1
      exact Option.some.inj this

/-- the tree can be evaluated on a table: the leaves are filled in and every test has degrees -/
theorem rowLeaves_of_cols (T : K → K → K) (X : List (List (Cell K))) (t : FNode C K)
    (h : ∀ p ∈ leafPaths t, ∀ test ∈ p.1, HasCol X test) (L : List (Dict C K × List K))
    (hL : (leafPaths t).map (fun p => (p.2, pathCol T X (X.map (fun _ => 1)) p.1)) = L.map (fun q => (some q.1, q.2)))
    (j : Nat) (row : List (Cell K)) (hj : X[j]? = some row) : RowLeaves T row t (atRow j L) := by
  have hjl : j < X.length := (List.getElem?_eq_some_iff.1 hj).1
  unfold RowLeaves
  generalize leafPaths t = ps at h hL
  induction ps generalizing L with
  | nil =>
    cases L with
    | nil => exact .nil
    | cons q L => simp at hL
  | cons p ps ih =>
    cases L with
    | nil => simp at hL
    | cons q L =>
      simp only [List.map_cons, List.cons.injEq, Prod.mk.injEq] at hL
      refine .cons ⟨hL.1.1, ?_⟩ (ih L (fun p hp => h p (by simp [hp])) hL.2)
      have hcol := h p (by simp)
      refine ⟨p.1.map (fun t => (degCol X t).getD j 0), ?_, ?_⟩
      · rw [List.forall₂_map_right_iff, List.forall₂_same]
        intro t ht
        exact degCol_getD (hcol t ht) hj
      · show q.2.getD j 0 = _
        rw [← hL.1.2, pathCol_getD T X _ (by simp) p.1 hcol j hjl, getD_one X j hjl]

/-- full description of `TreeFDT.predict` on a non-empty table. -/
theorem predict_ok_iff (T : K → K → K) (v : Voting) (t : FNode C K) (X : List (List (Cell K))) (hX : X ≠ []) (cs : List C) :
    t.predict T v X = .ok cs ↔ Branching t ∧
      List.Forall₂ (fun row c => ∃ L, RowLeaves T row t L ∧ IsWinner v L c) X cs := by
  have hbest : ∀ (L : List (Dict C K × List K)), (∀ p ∈ leafPaths t, ∀ test ∈ p.1, HasCol X test) →
      (leafPaths t).map (fun p => (p.2, pathCol T X (X.map (fun _ => 1)) p.1)) = L.map (fun q => (some q.1, q.2)) →
      ((List.range X.length).mapM (bestClass (votesFold v (entriesOf L) [])) = .ok cs ↔
        List.Forall₂ (fun row c => ∃ L, RowLeaves T row t L ∧ IsWinner v L c) X cs) := by
    intro L hcols hL
    have hlen : ∀ q ∈ L, q.2.length = X.length := by
      intro q hq
      have : (some q.1, q.2) ∈ L.map (fun q => (some q.1, q.2)) := List.mem_map_of_mem (f := fun q => (some q.1, q.2)) hq
      rw [← hL] at this
      obtain ⟨p, hp, he⟩ := List.mem_map.1 this
      simp only [Prod.mk.injEq] at he
      rw [← he.2]
      exact pathCol_length T X _ (by simp) p.1 (hcols p hp)
    rw [mapM_ok_iff, List.forall₂_iff_get, List.forall₂_iff_get]
    simp only [List.length_range, List.get_eq_getElem, List.getElem_range]
    refine and_congr_right (fun hlen' => ?_)
    refine forall_congr' (fun j => forall_congr' (fun h1 => forall_congr' (fun h2 => ?_)))
    rw [bestClass_iff v L X.length hlen j h1]
    have hrow := rowLeaves_of_cols T X t hcols L hL j X[j] (by simp [h1])
    constructor
    · intro h; exact ⟨_, hrow, h⟩
    · rintro ⟨L', h3, h4⟩; rw [hrow.unique h3]; exact h4
  unfold FNode.predict
  constructor
  · intro h
    rw [py_bind_eq_ok] at h
    obtain ⟨leaves, h1, h⟩ := h
    rw [py_bind_eq_ok] at h
    obtain ⟨votes, h2, h⟩ := h
    obtain ⟨hb, hcols, rfl⟩ := (partialPredict_ok_iff T X hX t _ _).1 h1
    obtain ⟨L, hL⟩ := Voting.run_none v _ _ h2
    rw [hL, Voting.run_some] at h2
    cases h2
    split at h
    · cases h
    · exact ⟨hb, (hbest L hcols hL).1 h⟩
  · rintro ⟨hb, hf⟩
    have hcols : ∀ p ∈ leafPaths t, ∀ test ∈ p.1, HasCol X test := by
      intro p hp test ht
      rw [HasCol_iff]
      intro row hrow
      obtain ⟨c, -, L, hL, -⟩ := forall₂_mem_left hf row hrow
      obtain ⟨q, -, -, ms, hms, -⟩ := forall₂_mem_left hL p hp
      obtain ⟨m, -, hm⟩ := forall₂_mem_left hms test ht
      exact ⟨m, hm⟩
    obtain ⟨row, hrow⟩ := List.exists_mem_of_ne_nil _ hX
    obtain ⟨c, -, L₀, hL₀, hw⟩ := forall₂_mem_left hf row hrow
    have hsome : ∃ L : List (Dict C K × List K),
        (leafPaths t).map (fun p => (p.2, pathCol T X (X.map (fun _ => 1)) p.1)) = L.map (fun q => (some q.1, q.2)) := by
      unfold RowLeaves at hL₀
      clear hw hbest hcols hf hb
      generalize leafPaths t = ps at hL₀
      induction hL₀ with
      | nil => exact ⟨[], rfl⟩
      | @cons p q _ _ h _ ih =>
        obtain ⟨L, hL⟩ := ih
        exact ⟨(q.1, pathCol T X (X.map (fun _ => 1)) p.1) :: L, by rw [List.map_cons, List.map_cons, hL, h.1]⟩
    obtain ⟨L, hL⟩ := hsome
    rw [(partialPredict_ok_iff T X hX t _ _).2 ⟨hb, hcols, rfl⟩, py_bind_ok, hL, Voting.run_some, py_bind_ok]
    have hm := (hbest L hcols hL).2 hf
    rw [if_neg]
    · exact hm
    · intro he
      rw [he] at hm
      rw [mapM_ok_iff] at hm
      cases X with
      | nil => exact hX rfl
      | cons x X =>
        rw [List.length_cons, List.range_succ_eq_map] at hm
        cases hm with
        | cons h _ => simp [bestClass, pyMax] at h

end voting

end Teacher
