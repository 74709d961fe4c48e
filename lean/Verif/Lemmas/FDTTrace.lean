import Verif.Lemmas.FDTFit

/-! From the shape of the grown tree to facts about its nodes. -/

set_option linter.unusedSectionVars false

namespace Teacher
open Spec

variable {C K : Type}

theorem nodePathsList_eq (cs : List (FNode C K)) : nodePathsList cs = cs.flatMap nodePaths := by
  induction cs with
  | nil => rfl
  | cons c cs ih => simp [nodePathsList, ih]

theorem leafPaths_iff (t : FNode C K) (q : List (FTest K) × Option (Dict C K)) :
    q ∈ leafPaths t ↔ ∃ n, (q.1, n) ∈ nodePaths t ∧ n.isLeaf = true ∧ n.classValue = q.2 := by
  induction t using FNode.induction generalizing q with
  | h test level m isLeaf cv children ih =>
    cases isLeaf with
    | true =>
      simp only [leafPaths, nodePaths, if_true, List.mem_singleton, Prod.mk.injEq]
      constructor
      · rintro rfl; exact ⟨_, ⟨rfl, rfl⟩, rfl, rfl⟩
      · rintro ⟨n, ⟨h1, rfl⟩, -, h3⟩
        obtain ⟨a, b⟩ := q
        simp only at h1 h3
        rw [h1, ← h3]; rfl
    | false =>
      simp only [leafPaths, nodePaths, Bool.false_eq_true, if_false, leafPathsList_eq, nodePathsList_eq, List.mem_map,
        List.mem_flatMap, List.mem_cons, Prod.mk.injEq]
      constructor
      · rintro ⟨q', ⟨c, hc, hq'⟩, rfl⟩
        obtain ⟨n, h1, h2, h3⟩ := (ih c hc q').1 hq'
        exact ⟨n, .inr ⟨(q'.1, n), ⟨c, hc, h1⟩, rfl, rfl⟩, h2, h3⟩
      · rintro ⟨n, h1 | ⟨⟨path, n'⟩, ⟨c, hc, h1⟩, h4, rfl⟩, h2, h3⟩
        · rw [h1.2] at h2; cases h2
        · refine ⟨(path, q.2), ⟨c, hc, (ih c hc _).2 ⟨n', h1, h2, h3⟩⟩, ?_⟩
          rw [h4]

variable [Field K] [LinearOrder K] [IsStrictOrderedRing K] [LinearOrder C]

/-- one step from a split node to a child -/
def Step (p : FDTParams K) (Xm : Dict String (Dict String (List K))) (mu : List K) (feats : List String) (depth : Nat)
    (test : FTest K) (mu' : List K) (att : String) : Prop :=
  depth < p.maxDepth ∧ att ∈ feats ∧ Dict.get? (featuresDict p.vars) att = some test.att ∧
  p.vars[test.att]? = some test.var ∧ ∃ sets s, Dict.get? Xm att = some sets ∧ sets[test.idx]? = some s ∧
    mu' = List.zipWith min mu s.2

/-- the steps along a path -/
inductive Trace (p : FDTParams K) (Xm : Dict String (Dict String (List K))) :
    List K → List String → Nat → List (FTest K) → List K → List String → Nat → Prop where
  | nil (mu feats d) : Trace p Xm mu feats d [] mu feats d
  | cons (mu feats d test mu1 att ts mu' feats' d') (hs : Step p Xm mu feats d test mu1 att)
      (h : Trace p Xm mu1 (feats.erase att) (d + 1) ts mu' feats' d') : Trace p Xm mu feats d (test :: ts) mu' feats' d'

/-- what is known of a node of a grown tree: it is grown itself, or a leaf for a set without examples -/
def NodeFact (p : FDTParams K) (Xm : Dict String (Dict String (List K))) (y : List C) (mu : List K) (feats : List String)
    (depth : Nat) (rest : List (FTest K)) (n : FNode C K) : Prop :=
  (∃ mu' feats' d', Trace p Xm mu feats depth rest mu' feats' d' ∧ Grown p Xm y mu' feats' d' n) ∨
  (∃ init last mu1 feats1 d1 mu2 att, Trace p Xm mu feats depth init mu1 feats1 d1 ∧
    Step p Xm mu1 feats1 d1 last mu2 att ∧ rest = init ++ [last] ∧ ¬ 0 < mu2.sum ∧ n.isLeaf = true ∧ n.mu = mu2 ∧
    ∃ cv, classValueOf mu1 y = .ok cv ∧ n.classValue = some cv)

theorem NodeFact.step {p : FDTParams K} {Xm : Dict String (Dict String (List K))} {y : List C} {mu : List K}
    {feats : List String} {depth : Nat} {test : FTest K} {mu1 : List K} {att : String}
    (hs : Step p Xm mu feats depth test mu1 att) {rest : List (FTest K)} {n : FNode C K}
    (h : NodeFact p Xm y mu1 (feats.erase att) (depth + 1) rest n) : NodeFact p Xm y mu feats depth (test :: rest) n := by
  rcases h with ⟨mu', feats', d', h1, h2⟩ | ⟨init, last, m1, f1, d1, m2, att', h1, h2, h3, h4⟩
  · exact .inl ⟨mu', feats', d', .cons _ _ _ _ _ _ _ _ _ _ hs h1, h2⟩
  · exact .inr ⟨test :: init, last, m1, f1, d1, m2, att', .cons _ _ _ _ _ _ _ _ _ _ hs h1, h2, by rw [h3]; rfl, h4⟩

theorem GrownList_mem {p : FDTParams K} {Xm : Dict String (Dict String (List K))} {y : List C} {mu : List K}
    {feats : List String} {depth : Nat} {att : String} {i : Nat} {sets : Dict String (List K)} {cs : List (FNode C K)}
    (h : GrownList p Xm y mu feats depth att i sets cs) : ∀ c ∈ cs, ∃ j s, sets[j]? = some s ∧
      ChildTest p feats att (i + j) c ∧ ((0 < (List.zipWith min mu s.2).sum ∧
        Grown p Xm y (List.zipWith min mu s.2) (feats.erase att) (depth + 1) c) ∨
     (¬ 0 < (List.zipWith min mu s.2).sum ∧ c.isLeaf = true ∧ c.mu = List.zipWith min mu s.2 ∧
        ∃ cv, classValueOf mu y = .ok cv ∧ c.classValue = some cv)) := by
  induction cs generalizing i sets with
  | nil => simp
  | cons c cs ih =>
    simp only [GrownList] at h
    obtain ⟨s, sets', rfl, h1, h2, h3⟩ := h
    intro c' hc'
    rcases List.mem_cons.1 hc' with rfl | hc'
    · exact ⟨0, s, rfl, h1, h2⟩
    · obtain ⟨j, s', e, h4, h5⟩ := ih h3 c' hc'
      exact ⟨j + 1, s', by simpa using e, by rw [← Nat.add_assoc, Nat.add_right_comm]; exact h4, h5⟩

theorem nodePaths_leaf {n : FNode C K} (h : n.isLeaf = true) : nodePaths n = [(n.test.toList, n)] := by
  obtain ⟨a, b, c, d, e, f⟩ := n
  simp only [FNode.isLeaf] at h
  subst h
  simp [nodePaths, FNode.test]

theorem Grown.nodes {p : FDTParams K} {Xm : Dict String (Dict String (List K))} {y : List C} (t : FNode C K) :
    ∀ {mu : List K} {feats : List String} {depth : Nat}, Grown p Xm y mu feats depth t →
    ∀ q ∈ nodePaths t, ∃ rest, q.1 = t.test.toList ++ rest ∧ NodeFact p Xm y mu feats depth rest q.2 := by
  induction t using FNode.induction with
  | h test level m isLeaf cv children ih =>
    intro mu feats depth hg q hq
    have hself : NodeFact p Xm y mu feats depth [] (.mk test level m isLeaf cv children) :=
      .inl ⟨mu, feats, depth, .nil _ _ _, hg⟩
    simp only [nodePaths, List.mem_cons] at hq
    rcases hq with rfl | hq
    · exact ⟨[], by simp [FNode.test], hself⟩
    · split at hq
      · simp at hq
      · rename_i hl
        simp only [Grown] at hg
        obtain ⟨-, -, ⟨h1, -⟩ | ⟨-, hd, att, sets, hx, hgl⟩⟩ := hg
        · exact absurd h1 hl
        · rw [nodePathsList_eq, List.mem_map] at hq
          obtain ⟨q', hq', rfl⟩ := hq
          obtain ⟨c, hc, hq'⟩ := List.mem_flatMap.1 hq'
          obtain ⟨j, s, hj, ⟨hatt, fi, var, hfi, hvar, htest⟩, hcase⟩ := GrownList_mem hgl c hc
          rw [Nat.zero_add] at htest
          have hs : Step p Xm mu feats depth ⟨var, fi, j⟩ (List.zipWith min mu s.2) att :=
            ⟨hd, hatt, hfi, hvar, sets, s, hx, hj, rfl⟩
          rcases hcase with ⟨-, hgc⟩ | ⟨hz, hlc, hmu, hcv⟩
          · obtain ⟨rest, h1, h2⟩ := ih c hc hgc q' hq'
            rw [htest] at h1
            refine ⟨⟨var, fi, j⟩ :: rest, ?_, h2.step hs⟩
            simp only [FNode.test, h1]
            rfl
          · rw [nodePaths_leaf hlc, List.mem_singleton, htest] at hq'
            subst hq'
            refine ⟨[⟨var, fi, j⟩], by simp [FNode.test], ?_⟩
            exact .inr ⟨[], ⟨var, fi, j⟩, mu, feats, depth, _, att, .nil _ _ _, hs, rfl, hz, hlc, hmu, hcv⟩

/-! ### facts along a trace -/

theorem Trace.append {p : FDTParams K} {Xm : Dict String (Dict String (List K))} {mu feats d ts mu1 feats1 d1 last mu2 att}
    (h : Trace p Xm mu feats d ts mu1 feats1 d1) (hs : Step p Xm mu1 feats1 d1 last mu2 att) :
    Trace p Xm mu feats d (ts ++ [last]) mu2 (feats1.erase att) (d1 + 1) := by
  induction h with
  | nil mu feats d => exact .cons _ _ _ _ _ _ _ _ _ _ hs (.nil _ _ _)
  | cons mu feats d test mu1 att' ts mu' feats' d' hs' _ ih =>
    rw [List.cons_append]
    exact .cons _ _ _ _ _ _ _ _ _ _ hs' (ih hs)

theorem NodeFact.trace {p : FDTParams K} {Xm : Dict String (Dict String (List K))} {y : List C} {mu : List K}
    {feats : List String} {depth : Nat} {rest : List (FTest K)} {n : FNode C K}
    (h : NodeFact p Xm y mu feats depth rest n) : ∃ feats' d', Trace p Xm mu feats depth rest n.mu feats' d' := by
  rcases h with ⟨mu', feats', d', h1, h2⟩ | ⟨init, last, m1, f1, d1, m2, att', h1, h2, h3, h4, -, h5, -⟩
  · have : n.mu = mu' := by
      obtain ⟨a, b, c, d, e, f⟩ := n
      simp only [Grown] at h2
      exact h2.2.1
    rw [this]
    exact ⟨feats', d', h1⟩
  · rw [h3, h5]
    exact ⟨_, _, h1.append h2⟩

theorem Trace.depth {p : FDTParams K} {Xm : Dict String (Dict String (List K))} {mu feats d ts mu' feats' d'}
    (h : Trace p Xm mu feats d ts mu' feats' d') : d' = d + ts.length ∧ (ts ≠ [] → d' ≤ p.maxDepth) := by
  induction h with
  | nil => simp
  | cons mu feats d test mu1 att ts mu' feats' d' hs _ ih =>
    refine ⟨by rw [ih.1, List.length_cons]; omega, fun _ => ?_⟩
    by_cases e : ts = []
    · subst e
      rw [ih.1]
      exact hs.1
    · exact ih.2 e

theorem featuresDict_name {vars : List (FVar K)} {k : String} {i : Nat} {v : FVar K}
    (h : Dict.get? (featuresDict vars) k = some i) (hv : vars[i]? = some v) : v.name = k := by
  have hm := Dict.mem_of_get? h
  unfold featuresDict at hm
  have key : ∀ (l : List (String × Nat)) (d : Dict String Nat), (∀ q ∈ l, vars[q.2]?.map FVar.name = some q.1) →
      (∀ q ∈ d, vars[q.2]?.map FVar.name = some q.1) → ∀ q ∈ l.foldl (fun d p => Dict.set d p.1 p.2) d,
        vars[q.2]?.map FVar.name = some q.1 := by
    intro l
    induction l with
    | nil => intro d _ hd; exact hd
    | cons a l ih =>
      intro d hl hd
      refine ih _ (fun q hq => hl q (by simp [hq])) ?_
      intro q hq
      have : ∀ (d : Dict String Nat), q ∈ Dict.set d a.1 a.2 → q = a ∨ q ∈ d := by
        intro d
        induction d with
        | nil => intro h; simp [Dict.set] at h; exact .inl h
        | cons x d ih =>
          obtain ⟨x1, x2⟩ := x
          simp only [Dict.set]
          split
          · rename_i hx
            intro h
            rcases List.mem_cons.1 h with h | h
            · exact .inl (by rw [h, hx])
            · exact .inr (by simp [h])
          · intro h
            rcases List.mem_cons.1 h with h | h
            · exact .inr (by simp [h])
            · rcases ih h with h | h
              · exact .inl h
              · exact .inr (by simp [h])
      rcases this d hq with rfl | hq
      · exact hl q (by simp)
      · exact hd q hq
  have := key _ [] (by
    intro q hq
    obtain ⟨x, hx, rfl⟩ := List.mem_map.1 hq
    rw [List.mem_zipIdx_iff_getElem?] at hx
    simp [hx]) (by simp) _ hm
  rw [hv] at this
  simpa using this

theorem Trace.names {p : FDTParams K} {Xm : Dict String (Dict String (List K))} {mu feats d ts mu' feats' d'}
    (h : Trace p Xm mu feats d ts mu' feats' d') (hnd : feats.Nodup) :
    (ts.map (fun t => t.var.name)).Nodup ∧ (∀ t ∈ ts, t.var.name ∈ feats) ∧ (∀ t ∈ ts, p.vars[t.att]? = some t.var) := by
  induction h with
  | nil => simp
  | cons mu feats d test mu1 att ts mu' feats' d' hs _ ih =>
    obtain ⟨i1, i2, i3⟩ := ih (hnd.erase att)
    obtain ⟨-, hatt, hfi, hvar, -⟩ := hs
    have hname : test.var.name = att := featuresDict_name hfi hvar
    refine ⟨?_, ?_, ?_⟩
    · rw [List.map_cons, List.nodup_cons]
      refine ⟨?_, i1⟩
      rw [hname, List.mem_map]
      rintro ⟨t, ht, he⟩
      have := i2 t ht
      rw [he] at this
      exact hnd.not_mem_erase this
    · intro t ht
      rcases List.mem_cons.1 ht with rfl | ht
      · rw [hname]; exact hatt
      · exact List.mem_of_mem_erase (i2 t ht)
    · intro t ht
      rcases List.mem_cons.1 ht with rfl | ht
      · exact hvar
      · exact i3 t ht

/-- entries of the membership table are vectors of degrees, one per row -/
theorem table_entries {X : List (List (Cell K))} {vars : List (FVar K)} {Xm : Dict String (Dict String (List K))}
    (hX : datasetMembership X vars = .ok Xm) {att : String} {sets : Dict String (List K)}
    (hs : Dict.get? Xm att = some sets) (s : String × List K) (h : s ∈ sets) :
    s.2.length = X.length ∧ ∀ m ∈ s.2, 0 ≤ m ∧ m ≤ 1 := by
  rcases datasetMembership_lookup hX att with ⟨h1, -⟩ | ⟨j, v, col, d, -, -, -, hcol, hd, h2⟩
  · rw [hs] at h1; cases h1
  · rw [hs] at h2; cases h2
    obtain ⟨fs, -, -, hf⟩ := FVar.membership_entries hd s h
    have := (FSet.membership_ok_iff fs col s.2).1 hf
    refine ⟨by rw [← this.2.length_eq, column_length hcol], ?_⟩
    intro m hm
    obtain ⟨x, -, hx⟩ := forall₂_mem_right this.2 m hm
    exact FSet.membership_singleton_range hx

theorem zipWith_min_range {l l' : List K} {n : Nat} (h1 : l.length = n) (h2 : l'.length = n) (h3 : ∀ m ∈ l, 0 ≤ m ∧ m ≤ 1)
    (h4 : ∀ m ∈ l', 0 ≤ m ∧ m ≤ 1) :
    (List.zipWith min l l').length = n ∧ ∀ m ∈ List.zipWith min l l', 0 ≤ m ∧ m ≤ 1 := by
  refine ⟨by simp [h1, h2], ?_⟩
  intro m hm
  rw [← List.map_uncurry_zip_eq_zipWith] at hm
  obtain ⟨⟨a, b⟩, hab, rfl⟩ := List.mem_map.1 hm
  have := List.of_mem_zip hab
  exact ⟨le_min (h3 a this.1).1 (h4 b this.2).1, le_trans (min_le_left _ _) (h3 a this.1).2⟩

theorem Trace.range {p : FDTParams K} {X : List (List (Cell K))} {Xm : Dict String (Dict String (List K))}
    {mu feats d ts mu' feats' d'}
    (hX : datasetMembership X p.vars = .ok Xm)
    (h : Trace p Xm mu feats d ts mu' feats' d') (hl : mu.length = X.length) (hr : ∀ m ∈ mu, 0 ≤ m ∧ m ≤ 1) :
    mu'.length = X.length ∧ ∀ m ∈ mu', 0 ≤ m ∧ m ≤ 1 := by
  induction h with
  | nil => exact ⟨hl, hr⟩
  | cons mu feats d test mu1 att ts mu' feats' d' hs _ ih =>
    obtain ⟨-, -, -, -, sets, s, hsets, hsj, rfl⟩ := hs
    obtain ⟨e1, e2⟩ := table_entries hX hsets s (List.mem_of_getElem? hsj)
    obtain ⟨r1, r2⟩ := zipWith_min_range hl e1 hr e2
    exact ih r1 r2

/-- under unique set names, a column of the table is the membership in the set of the same number -/
theorem table_degree {X : List (List (Cell K))} {vars : List (FVar K)} {Xm : Dict String (Dict String (List K))}
    (hX : datasetMembership X vars = .ok Xm) (hn : ∀ v ∈ vars, (v.sets.map FSet.name).Nodup) {att : String}
    {sets : Dict String (List K)}
    (hs : Dict.get? Xm att = some sets) {test : FTest K} (hfi : Dict.get? (featuresDict vars) att = some test.att)
    (hvar : vars[test.att]? = some test.var) {s : String × List K} (hsj : sets[test.idx]? = some s)
    (j : Nat) (row : List (Cell K)) (m : K) (hj : X[j]? = some row) (hm : s.2[j]? = some m) : TestDegree row test m := by
  rcases datasetMembership_lookup hX att with ⟨h1, -⟩ | ⟨j', v, col, d, hj', hv, -, hcol, hd, h2⟩
  · rw [hs] at h1; cases h1
  · rw [hs] at h2; cases h2
    rw [hfi] at hj'
    cases hj'
    rw [hvar] at hv
    cases hv
    obtain ⟨hk, hall⟩ := FVar.membership_ok (hn _ (List.mem_of_getElem? hvar)) hd
    have hnd := FVar.membership_nodup hd
    have hkey : (Dict.keys sets)[test.idx]? = some s.1 := by
      unfold Dict.keys
      rw [List.getElem?_map, hsj]; rfl
    rw [hk, List.getElem?_map] at hkey
    obtain ⟨fs, hfs, hname⟩ := Option.map_eq_some_iff.1 hkey
    obtain ⟨ms, hms, hget⟩ := hall fs (List.mem_of_getElem? hfs)
    have hs2 : ms = s.2 := by
      have := Dict.get?_of_mem_nodup hnd (k := s.1) (v := s.2) (List.mem_of_getElem? hsj)
      rw [hname, this] at hget
      exact (Option.some.inj hget).symm
    subst hs2
    have hf := ((FSet.membership_ok_iff fs col s.2).1 hms).2
    unfold column at hcol
    rw [mapM_ok_iff] at hcol
    have hcj : ∃ x, col[j]? = some x := by
      have := (List.getElem?_eq_some_iff.1 hm).1
      rw [← hf.length_eq] at this
      exact ⟨_, List.getElem?_eq_getElem this⟩
    obtain ⟨x, hx⟩ := hcj
    have h1 : row[test.att]? = some x := by
      have := (List.forall₂_iff_get.1 hcol).2 j (List.getElem?_eq_some_iff.1 hj).1 (List.getElem?_eq_some_iff.1 hx).1
      simp only [List.get_eq_getElem, (List.getElem?_eq_some_iff.1 hj).2, (List.getElem?_eq_some_iff.1 hx).2] at this
      cases hr : row[test.att]? with
      | none => rw [hr] at this; simp at this
      | some z => rw [hr] at this; simp at this; rw [this]
    have h2 : fs.membership [x] = .ok [m] := by
      have := (List.forall₂_iff_get.1 hf).2 j (List.getElem?_eq_some_iff.1 hx).1 (List.getElem?_eq_some_iff.1 hm).1
      simpa only [List.get_eq_getElem, (List.getElem?_eq_some_iff.1 hx).2, (List.getElem?_eq_some_iff.1 hm).2] using this
    exact ⟨fs, x, hfs, h1, h2⟩

theorem Trace.degrees {p : FDTParams K} {X : List (List (Cell K))} {Xm : Dict String (Dict String (List K))}
    {mu feats d ts mu' feats' d'}
    (hX : datasetMembership X p.vars = .ok Xm) (hn : ∀ v ∈ p.vars, (v.sets.map FSet.name).Nodup)
    (h : Trace p Xm mu feats d ts mu' feats' d') :
    ∀ (j : Nat) (row : List (Cell K)) (m' : K), X[j]? = some row → mu'[j]? = some m' →
      ∃ m ms, mu[j]? = some m ∧ List.Forall₂ (TestDegree row) ts ms ∧ m' = ms.foldl min m := by
  induction h with
  | nil => intro j row m' _ hm'; exact ⟨m', [], hm', .nil, rfl⟩
  | cons mu feats d test mu1 att ts mu' feats' d' hs _ ih =>
    intro j row m' hj hm'
    obtain ⟨m1, ms, hm1, hms, he⟩ := ih j row m' hj hm'
    obtain ⟨-, -, hfi, hvar, sets, s, hsets, hsj, rfl⟩ := hs
    rw [List.getElem?_zipWith_eq_some] at hm1
    obtain ⟨a, b, ha, hb, rfl⟩ := hm1
    refine ⟨a, b :: ms, ha, .cons (table_degree hX hn hsets hfi hvar hsj j row b hj hb) hms, ?_⟩
    rw [he, List.foldl_cons]

theorem Trace.rowDegrees {p : FDTParams K} {X : List (List (Cell K))} {Xm : Dict String (Dict String (List K))}
    {feats d ts mu' feats' d'}
    (hX : datasetMembership X p.vars = .ok Xm) (hn : ∀ v ∈ p.vars, (v.sets.map FSet.name).Nodup)
    {ones : List K} (ho : ones.length = X.length) (ho1 : ∀ m ∈ ones, m = 1)
    (h : Trace p Xm ones feats d ts mu' feats' d') :
    List.Forall₂ (fun row m => LeafDegree min row ts m) X mu' := by
  have hl := (h.range hX ho (fun m hm => by rw [ho1 m hm]; exact ⟨zero_le_one, le_rfl⟩)).1
  rw [List.forall₂_iff_get]
  refine ⟨hl.symm, ?_⟩
  intro j h1 h2
  obtain ⟨m, ms, hm, hms, he⟩ := h.degrees hX hn j X[j] mu'[j] (List.getElem?_eq_getElem h1) (List.getElem?_eq_getElem h2)
  refine ⟨ms, hms, ?_⟩
  rw [ho1 m (List.mem_of_getElem? hm)] at he
  exact he

end Teacher
