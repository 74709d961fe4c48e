import Verif.Props.RoundedPredict

/-! # C170: trees fitted in floating point -/

set_option linter.unusedSectionVars false

namespace Teacher
open Spec FB

variable {C K : Type} [Field K] [LinearOrder K] [IsStrictOrderedRing K]

section membership
variable {A : Arith K} {u η : K}

/-- the degrees of a column are those of its cells. -/
theorem FSet.membershipF_cells {s : FSet K} {v : List (Cell K)} {ms : List K} (h : s.membershipF A v = .ok ms) :
    List.Forall₂ (fun x m => s.membershipF A [x] = .ok [m]) v ms := by
  cases s with
  | disc s =>
    simp only [FSet.membershipF, Except.ok.injEq] at h
    subst h
    unfold DSet.membership
    rw [List.forall₂_map_right_iff, List.forall₂_same]
    intro x _
    rfl
  | cont s =>
    simp only [FSet.membershipF, CSet.membershipF] at h ⊢
    split at h
    · rename_i hab
      rw [mapM_ok_iff] at h
      refine h.imp ?_
      intro x m hx
      rw [if_pos hab, mapM_ok_iff]
      exact .cons hx .nil
    · cases h

/-- degrees of floating point numbers are floating point numbers in `[0,1]`. -/
theorem FSet.membershipF_range (hA : Lawful A u η) {s : FSet K} (hs : ∀ c, s = .cont c → FloatSet A c) {x : Cell K}
    (hx : ∀ z, x = .num z → IsFloat A z) {m : K} (h : s.membershipF A [x] = .ok [m]) : 0 ≤ m ∧ m ≤ 1 ∧ IsFloat A m := by
  cases s with
  | disc s =>
    simp only [FSet.membershipF, DSet.membership, List.map_cons, List.map_nil, Except.ok.injEq, List.cons.injEq, and_true] at h
    subst h
    split
    · exact ⟨zero_le_one, le_refl _, hA.one⟩
    · exact ⟨le_refl _, zero_le_one, hA.zero⟩
  | cont s =>
    have hf := hs s rfl
    simp only [FSet.membershipF, CSet.membershipF] at h
    split at h
    · rw [mapM_ok_iff] at h
      cases h with
      | cons h _ =>
        cases x with
        | num z =>
          cases h
          obtain ⟨a1, a2, -, a4⟩ := trimfAtF_spec hA hf.1 hf.2.1 hf.2.2 (hx z rfl)
          exact ⟨a1, a2, a4⟩
        | str z =>
          simp only at h
          split at h
          · cases h; exact ⟨le_refl _, zero_le_one, hA.zero⟩
          · cases h
    · cases h

theorem FVar.membershipF_ok {v : FVar K} {col : List (Cell K)} {d : Dict String (List K)} (hn : (v.sets.map FSet.name).Nodup)
    (h : v.membershipF A col = .ok d) :
    List.Forall₂ (fun (s : FSet K) (p : String × List K) => p.1 = s.name ∧ s.membershipF A col = .ok p.2) v.sets d := by
  unfold FVar.membershipF at h
  rw [py_bind_eq_ok] at h
  obtain ⟨ps, hps, h⟩ := h
  simp only [py_pure, Except.ok.injEq] at h
  rw [mapM_ok_iff] at hps
  have hps' : List.Forall₂ (fun (s : FSet K) (p : String × List K) => p.1 = s.name ∧ s.membershipF A col = .ok p.2) v.sets ps := by
    refine hps.imp ?_
    intro s p hp
    rw [py_bind_eq_ok] at hp
    obtain ⟨m, hm, hp⟩ := hp
    simp only [py_pure, Except.ok.injEq] at hp
    subst hp
    exact ⟨rfl, hm⟩
  have hkeys : ps.map Prod.fst = v.sets.map FSet.name := by
    clear h hps hn
    generalize v.sets = l at hps'
    induction hps' with
    | nil => rfl
    | cons h _ ih => simp [h.1, ih]
  have hd : d = ps := by
    rw [← h]
    exact Dict.ofPairs_eq_self _ (by rw [hkeys]; exact hn)
  rw [hd]
  exact hps'

theorem datasetMembershipFromF_lookup (vars : List (FVar K)) (X : List (List (Cell K))) (vs : List (FVar K)) (i : Nat)
    (hvs : ∀ k v, vs[k]? = some v → vars[i + k]? = some v)
    (acc D : Dict String (Dict String (List K))) (facc : Dict String Nat)
    (hacc : ∀ k, (Dict.get? acc k = none ∧ Dict.get? facc k = none) ∨ ∃ j v col d, Dict.get? facc k = some j ∧ vars[j]? = some v ∧
      v.name = k ∧ column X j = .ok col ∧ v.membershipF A col = .ok d ∧ Dict.get? acc k = some d)
    (h : datasetMembershipFromF A X i acc vs = .ok D) (k : String) :
    (Dict.get? D k = none ∧
      Dict.get? (((vs.zipIdx i).map (fun p => (p.1.name, p.2))).foldl (fun d p => Dict.set d p.1 p.2) facc) k = none) ∨
    ∃ j v col d, Dict.get? (((vs.zipIdx i).map (fun p => (p.1.name, p.2))).foldl (fun d p => Dict.set d p.1 p.2) facc) k
        = some j ∧ vars[j]? = some v ∧
      v.name = k ∧ column X j = .ok col ∧ v.membershipF A col = .ok d ∧ Dict.get? D k = some d := by
  induction vs generalizing i acc facc with
  | nil =>
    simp only [datasetMembershipFromF, Except.ok.injEq] at h
    subst h
    exact hacc k
  | cons v vs ih =>
    simp only [datasetMembershipFromF] at h
    rw [py_bind_eq_ok] at h
    obtain ⟨col, hcol, h⟩ := h
    rw [py_bind_eq_ok] at h
    obtain ⟨d, hd, h⟩ := h
    simp only [List.zipIdx_cons, List.map_cons, List.foldl_cons]
    refine ih (i + 1) ?_ _ _ ?_ h
    · intro k w hw
      have := hvs (k + 1) w (by simpa using hw)
      rw [← this]; congr 1; omega
    · intro k
      rw [Dict.get?_set, Dict.get?_set]
      by_cases e : v.name = k
      · right
        rw [if_pos e, if_pos e]
        exact ⟨i, v, col, d, rfl, by simpa using hvs 0 v (by simp), e, hcol, hd, rfl⟩
      · rw [if_neg e, if_neg e]
        exact hacc k

theorem datasetMembershipF_lookup {X : List (List (Cell K))} {vars : List (FVar K)} {D : Dict String (Dict String (List K))}
    (h : datasetMembershipF A X vars = .ok D) (k : String) :
    (Dict.get? D k = none ∧ Dict.get? (featuresDict vars) k = none) ∨
    ∃ j v col d, Dict.get? (featuresDict vars) k = some j ∧ vars[j]? = some v ∧
      v.name = k ∧ column X j = .ok col ∧ v.membershipF A col = .ok d ∧ Dict.get? D k = some d := by
  unfold datasetMembershipF at h
  rw [py_bind_eq_ok] at h
  obtain ⟨_, -, h⟩ := h
  exact datasetMembershipFromF_lookup vars X vars 0 (by simp) [] D [] (fun k => .inl ⟨rfl, rfl⟩) h k

/-- a column of the table of degrees. -/
theorem tableF_column {X : List (List (Cell K))} {vars : List (FVar K)} {Xm : Dict String (Dict String (List K))}
    (hX : datasetMembershipF A X vars = .ok Xm) (hn : ∀ v ∈ vars, (v.sets.map FSet.name).Nodup) {att : String}
    {sets : Dict String (List K)} (hs : Dict.get? Xm att = some sets) :
    ∃ fi var, Dict.get? (featuresDict vars) att = some fi ∧ vars[fi]? = some var ∧ var.name = att ∧ (Dict.keys sets).Nodup ∧
      sets.length = var.sets.length ∧ ∀ (k : Nat) (s : String × List K), sets[k]? = some s →
        List.Forall₂ (fun row m => TestDegreeF A row ⟨var, fi, k⟩ m) X s.2 := by
  rcases datasetMembershipF_lookup hX att with ⟨h1, -⟩ | ⟨j, v, col, d, hj, hv, hname, hcol, hd, h2⟩
  · rw [hs] at h1; cases h1
  · rw [hs] at h2; cases h2
    have hnv := hn v (List.mem_of_getElem? hv)
    have hf := FVar.membershipF_ok hnv hd
    have hk : Dict.keys sets = v.sets.map FSet.name := by
      clear hd hs hnv
      unfold Dict.keys
      generalize v.sets = l at hf
      induction hf with
      | nil => rfl
      | cons h _ ih => rw [List.map_cons, List.map_cons, ih, h.1]
    refine ⟨j, v, hj, hv, hname, by rw [hk]; exact hnv, hf.length_eq.symm, ?_⟩
    intro k s hks
    obtain ⟨h1, h2⟩ := List.forall₂_iff_get.1 hf
    obtain ⟨b1, b2⟩ := List.getElem?_eq_some_iff.1 hks
    have b3 : k < v.sets.length := by omega
    have := h2 k b3 b1
    simp only [List.get_eq_getElem, b2] at this
    have hcells := FSet.membershipF_cells this.2
    rw [column_eq_ok_iff] at hcol
    have : ∀ {X : List (List (Cell K))} {col : List (Cell K)} {ms : List K}, List.Forall₂ (fun r x => r[j]? = some x) X col →
        List.Forall₂ (fun x m => (v.sets[k]).membershipF A [x] = .ok [m]) col ms →
        List.Forall₂ (fun row m => TestDegreeF A row ⟨v, j, k⟩ m) X ms := by
      intro X col ms hX
      induction hX generalizing ms with
      | nil => intro h; cases h; exact .nil
      | cons hr _ ih =>
        intro h
        cases h with
        | cons h hms => exact .cons ⟨_, _, by simp [b3], hr, h⟩ (ih hms)
    exact this hcol hcells

theorem tableF_range (hA : Lawful A u η) {X : List (List (Cell K))} (hXf : FloatTable A X) {var : FVar K} (hv : FloatVar A var) {fi k : Nat}
    {ms : List K} (h : List.Forall₂ (fun row m => TestDegreeF A row ⟨var, fi, k⟩ m) X ms) :
    ms.length = X.length ∧ ∀ m ∈ ms, 0 ≤ m ∧ m ≤ 1 ∧ IsFloat A m := by
  refine ⟨h.length_eq.symm, ?_⟩
  intro m hm
  obtain ⟨row, hrow, fs, x, h1, h2, h3⟩ := forall₂_mem_right h m hm
  refine FSet.membershipF_range hA ?_ ?_ h3
  · rintro c rfl
    exact hv c (List.mem_of_getElem? h1)
  · rintro z rfl
    exact hXf row hrow z (List.mem_of_getElem? h2)

end membership

section fit
variable [LinearOrder C] {A : Arith K} {u η : K}

theorem maxGainFromF_ok {ent : List K → List C → K} {Xm : Dict String (Dict String (List K))} {y : List C} {mu : List K}
    {best : String × K × Dict String (List K)} {fs : List String} {r : String × K × Dict String (List K)}
    (h : maxGainFromF A ent Xm y mu best fs = .ok r) :
    r = best ∨ (best.2.1 < r.2.1 ∧ r.1 ∈ fs ∧ ∃ d, Dict.get? Xm r.1 = some d ∧ r.2.2 = childMus mu d) := by
  induction fs generalizing best with
  | nil => simp only [maxGainFromF, Except.ok.injEq] at h; exact .inl h.symm
  | cons f fs ih =>
    simp only [maxGainFromF] at h
    rw [py_bind_eq_ok] at h
    obtain ⟨d, hd, h⟩ := h
    rw [py_bind_eq_ok] at h
    obtain ⟨g, hg, h⟩ := h
    split at h <;> rename_i hlt
    · rcases ih h with e | ⟨h1, h2, h3⟩
      · refine .inr ⟨by rw [e]; exact hlt, by rw [e]; simp, d, ?_⟩
        rw [e]; exact ⟨Dict.get_eq_ok_iff.1 hd, rfl⟩
      · exact .inr ⟨lt_trans hlt h1, by simp [h2], h3⟩
    · rcases ih h with e | ⟨h1, h2, h3⟩
      · exact .inl e
      · exact .inr ⟨h1, by simp [h2], h3⟩

theorem getMaxFGainF_ok {ent : List K → List C → K} {Xm : Dict String (Dict String (List K))} {y : List C} {mu : List K}
    {fs : List String} {att : String} {gain : K} {cm : Dict String (List K)}
    (h : getMaxFGainF A ent Xm y mu fs = .ok (att, gain, cm)) :
    (att = "" ∧ gain = 0 ∧ cm = []) ∨
      (0 < gain ∧ att ∈ fs ∧ ∃ d, Dict.get? Xm att = some d ∧ cm = childMus mu d) := by
  rcases maxGainFromF_ok h with e | ⟨h1, h2, h3⟩
  · cases e; exact .inl ⟨rfl, rfl, rfl⟩
  · exact .inr ⟨h1, h2, h3⟩

theorem maxGainFromF_exists (ent : List K → List C → K) (Xm : Dict String (Dict String (List K))) (y : List C) (mu : List K)
    (best : String × K × Dict String (List K)) (fs : List String) (hmu : A.sum mu ≠ 0)
    (h : ∀ f ∈ fs, ∃ d, Dict.get? Xm f = some d) : ∃ r, maxGainFromF A ent Xm y mu best fs = .ok r := by
  induction fs generalizing best with
  | nil => exact ⟨best, rfl⟩
  | cons f fs ih =>
    obtain ⟨d, hd⟩ := h f (by simp)
    simp only [maxGainFromF]
    rw [Dict.get_eq_ok_iff.2 hd, py_bind_ok]
    simp only [fGainF, flDiv, hmu, if_false, py_bind_ok, py_pure]
    exact ih _ (fun f hf => h f (by simp [hf]))

/-- what is known of a node: the steps that lead to it, and its content. -/
def NodeFactF (A : Arith K) (p : FDTParams K) (Xm : Dict String (Dict String (List K))) (y : List C) (mu : List K) (feats : List String)
    (depth : Nat) (rest : List (FTest K)) (n : FNode C K) : Prop :=
  (∃ feats' d', Trace p Xm mu feats depth rest n.mu feats' d' ∧ 0 < A.sum n.mu ∧
    ((n.isLeaf = true ∧ ∃ cv, classValueOfF A n.mu y = .ok cv ∧ n.classValue = some cv) ∨
     (n.isLeaf = false ∧ ∃ att sets fi var, Dict.get? Xm att = some sets ∧ Dict.get? (featuresDict p.vars) att = some fi ∧
        p.vars[fi]? = some var ∧ n.children.map FNode.test = (List.range sets.length).map (fun k => some ⟨var, fi, k⟩)))) ∨
  (∃ init last mu1 feats1 d1 att, Trace p Xm mu feats depth init mu1 feats1 d1 ∧ Step p Xm mu1 feats1 d1 last n.mu att ∧
    rest = init ++ [last] ∧ 0 < A.sum mu1 ∧ ¬ 0 < A.sum n.mu ∧ n.isLeaf = true ∧ ∃ cv, classValueOfF A mu1 y = .ok cv ∧ n.classValue = some cv)

theorem NodeFactF.step {p : FDTParams K} {Xm : Dict String (Dict String (List K))} {y : List C} {mu : List K}
    {feats : List String} {depth : Nat} {test : FTest K} {mu1 : List K} {att : String}
    (hs : Step p Xm mu feats depth test mu1 att) {rest : List (FTest K)} {n : FNode C K}
    (h : NodeFactF A p Xm y mu1 (feats.erase att) (depth + 1) rest n) : NodeFactF A p Xm y mu feats depth (test :: rest) n := by
  rcases h with ⟨feats', d', h1, h2⟩ | ⟨init, last, m1, f1, d1, att', h1, h2, h3, h4⟩
  · exact .inl ⟨feats', d', .cons _ _ _ _ _ _ _ _ _ _ hs h1, h2⟩
  · exact .inr ⟨test :: init, last, m1, f1, d1, att', .cons _ _ _ _ _ _ _ _ _ _ hs h1, h2, by rw [h3]; rfl, h4⟩

theorem fitChildrenF_ok {p : FDTParams K} {y : List C} {mu : List K}
    {feats : List String} {att : String} {rec : FNode C K → Py (FNode C K)} (hrec : ∀ c t, rec c = .ok t → t.test = c.test)
    {fi : Nat} {var : FVar K} (hfi : Dict.get? (featuresDict p.vars) att = some fi) (hvar : p.vars[fi]? = some var)
    {childMu : Dict String (List K)} (sets : Dict String (List K))
    (hcm : ∀ s ∈ sets, ∀ m, Dict.get? childMu s.1 = some m → m = List.zipWith min mu s.2) (i : Nat) (cs : List (FNode C K))
    (h : fitChildrenF A rec p y mu att childMu feats i (Dict.keys sets) = .ok cs) :
    cs.map FNode.test = (List.range' i sets.length).map (fun k => some ⟨var, fi, k⟩) ∧
    ∀ c ∈ cs, att ∈ feats ∧ ∃ j s, sets[j]? = some s ∧ c.test = some ⟨var, fi, i + j⟩ ∧
      ((0 < A.sum (List.zipWith min mu s.2) ∧ rec (.fresh (some ⟨var, fi, i + j⟩) (List.zipWith min mu s.2)) = .ok c) ∨
       (¬ 0 < A.sum (List.zipWith min mu s.2) ∧ c.isLeaf = true ∧ c.mu = List.zipWith min mu s.2 ∧
          ∃ cv, classValueOfF A mu y = .ok cv ∧ c.classValue = some cv)) := by
  induction sets generalizing i cs with
  | nil =>
    simp only [Dict.keys, List.map_nil, fitChildrenF, Except.ok.injEq] at h
    subst h
    simp
  | cons s sets ih =>
    simp only [Dict.keys, List.map_cons, fitChildrenF] at h
    split at h
    · cases h
    · rename_i hatt
      rw [py_bind_eq_ok] at h
      obtain ⟨fi', hfi', h⟩ := h
      have := Dict.get_eq_ok_iff.1 hfi'
      rw [hfi] at this
      cases this
      rw [hvar] at h
      simp only [py_bind_ok] at h
      rw [py_bind_eq_ok] at h
      obtain ⟨cmu, hcmu, h⟩ := h
      rw [py_bind_eq_ok] at h
      obtain ⟨c, hc, h⟩ := h
      rw [py_bind_eq_ok] at h
      obtain ⟨rest, hrest, h⟩ := h
      cases h
      have hmu := hcm s (by simp) cmu (Dict.get_eq_ok_iff.1 hcmu)
      subst hmu
      obtain ⟨i1, i2⟩ := ih (fun s hs => hcm s (by simp [hs])) (i + 1) rest hrest
      have hctest : c.test = some ⟨var, fi, i⟩ := by
        unfold fitChildF at hc
        split at hc
        · exact hrec _ _ hc
        · rw [py_bind_eq_ok] at hc
          obtain ⟨cv, hcv, hc⟩ := hc
          cases hc
          rfl
      refine ⟨?_, ?_⟩
      · rw [List.map_cons, i1, hctest, List.length_cons, List.range'_succ, List.map_cons]
      · intro c' hc'
        rcases List.mem_cons.1 hc' with rfl | hc'
        · refine ⟨not_not.1 hatt, 0, s, rfl, hctest, ?_⟩
          unfold fitChildF at hc
          split at hc <;> rename_i hpos
          · exact .inl ⟨hpos, hc⟩
          · rw [py_bind_eq_ok] at hc
            obtain ⟨cv, hcv, hc⟩ := hc
            cases hc
            exact .inr ⟨hpos, rfl, rfl, cv, hcv, rfl⟩
        · obtain ⟨h1, j, s', h2, h3, h4⟩ := i2 c' hc'
          refine ⟨h1, j + 1, s', by simpa using h2, ?_, ?_⟩
          · rw [show i + (j + 1) = i + 1 + j by omega]; exact h3
          · rw [show i + (j + 1) = i + 1 + j by omega]; exact h4

theorem partialFitF_nodes {ent : List K → List C → K} {ord : List String → List String} {p : FDTParams K} {X : List (List (Cell K))}
    {Xm : Dict String (Dict String (List K))} {y : List C} (hX : datasetMembershipF A X p.vars = .ok Xm)
    (hn : ∀ v ∈ p.vars, (v.sets.map FSet.name).Nodup)
    (fuel : Nat) : ∀ (current : FNode C K) (feats : List String) (depth : Nat) (t : FNode C K),
    partialFitF A ent ord p Xm y fuel current feats depth = .ok t → t.test = current.test ∧ (current.children = [] → 0 < A.sum current.mu →
      ∀ q ∈ nodePaths t, ∃ rest, q.1 = current.test.toList ++ rest ∧ NodeFactF A p Xm y current.mu feats depth rest q.2) := by
  induction fuel with
  | zero => intro _ _ _ _ h; cases h
  | succ fuel ih =>
    intro current feats depth t h
    simp only [partialFitF] at h
    rw [py_bind_eq_ok] at h
    obtain ⟨⟨att, gain, cm⟩, hg, h⟩ := h
    simp only at h
    split at h <;> rename_i hstop
    · rw [py_bind_eq_ok] at h
      obtain ⟨cv, hcv, h⟩ := h
      cases h
      refine ⟨rfl, fun hch hpos q hq => ?_⟩
      rw [nodePaths_leaf rfl, List.mem_singleton] at hq
      subst hq
      exact ⟨[], by simp [FNode.test], .inl ⟨feats, depth, .nil _ _ _, hpos, .inl ⟨rfl, cv, hcv, rfl⟩⟩⟩
    · rw [py_bind_eq_ok] at h
      obtain ⟨sets, hsets, h⟩ := h
      rw [py_bind_eq_ok] at h
      obtain ⟨cs, hcs, h⟩ := h
      cases h
      refine ⟨rfl, fun hch hpos => ?_⟩
      have hsets' := Dict.get_eq_ok_iff.1 hsets
      have hd : depth < p.maxDepth := by
        by_contra hc
        apply hstop
        simp only [stopMet, Bool.or_eq_true, decide_eq_true_eq]
        exact .inl (.inr (not_lt.1 hc))
      obtain ⟨fi, var, hfi, hvar, -, hnd, -, -⟩ := tableF_column hX hn hsets'
      obtain ⟨k1, k2⟩ := fitChildrenF_ok (fun c t hc => (ih c _ _ t hc).1) hfi hvar sets (by
        intro s hs m hm
        rcases getMaxFGainF_ok hg with ⟨-, -, rfl⟩ | ⟨-, -, d, hd', rfl⟩
        · simp [Dict.get?] at hm
        · rw [hsets'] at hd'
          cases hd'
          rw [get?_childMus, Dict.get?_of_mem_nodup hnd (v := s.2) (by simpa using hs)] at hm
          simpa using hm.symm) 0 cs hcs
      intro q hq
      simp only [nodePaths, List.mem_cons, Bool.false_eq_true, if_false] at hq
      rcases hq with rfl | hq
      · refine ⟨[], by simp, .inl ⟨feats, depth, .nil _ _ _, hpos, .inr ⟨rfl, att, sets, fi, var, hsets', hfi, hvar, ?_⟩⟩⟩
        change List.map FNode.test (current.children ++ cs) = _
        rw [hch, List.nil_append, k1, List.range_eq_range']
      · rw [hch, List.nil_append, nodePathsList_eq, List.mem_map] at hq
        obtain ⟨q', hq', rfl⟩ := hq
        obtain ⟨c, hc, hq'⟩ := List.mem_flatMap.1 hq'
        obtain ⟨hatt, j, s, hj, htest, hcase⟩ := k2 c hc
        rw [Nat.zero_add] at htest hcase
        have hs : Step p Xm current.mu feats depth ⟨var, fi, j⟩ (List.zipWith min current.mu s.2) att :=
          ⟨hd, hatt, hfi, hvar, sets, s, hsets', hj, rfl⟩
        rcases hcase with ⟨hp, hgc⟩ | ⟨hz, hlc, hmu, hcv⟩
        · obtain ⟨rest, h1, h2⟩ := (ih _ _ _ _ hgc).2 rfl hp q' hq'
          refine ⟨⟨var, fi, j⟩ :: rest, ?_, h2.step hs⟩
          simp only [h1]
          rfl
        · rw [nodePaths_leaf hlc, List.mem_singleton, htest] at hq'
          subst hq'
          refine ⟨[⟨var, fi, j⟩], by simp, .inr ⟨[], ⟨var, fi, j⟩, current.mu, feats, depth, att, .nil _ _ _, ?_, rfl, hpos, ?_, hlc, hcv⟩⟩
          · rw [hmu]; exact hs
          · rw [hmu]; exact hz

/-! ### leaves -/

theorem fl_range (hA : Lawful A u η) {a b : K} (ha : 0 ≤ a) (hab : a ≤ b) (hb : 0 < b) :
    0 ≤ A.fl (a / b) ∧ A.fl (a / b) ≤ 1 ∧ IsFloat A (A.fl (a / b)) := by
  refine ⟨?_, ?_, hA.idem _⟩
  · have := hA.mono 0 (a / b) (div_nonneg ha hb.le); rwa [hA.zero] at this
  · have := hA.mono (a / b) 1 ((div_le_one hb).2 hab); rwa [hA.one] at this

theorem classValueOfF_ok (hA : Lawful A u η) {mu : List K} {y : List C} (hlen : mu.length = y.length) (hmu : ∀ m ∈ mu, 0 ≤ m)
    (hpos : 0 < A.sum mu) {cv : Dict C K} (h : classValueOfF A mu y = .ok cv) :
    (cv.map Prod.fst).Pairwise (· < ·) ∧ (∀ c, c ∈ cv.map Prod.fst ↔ c ∈ y) ∧
    ∀ kv ∈ cv, 0 ≤ kv.2 ∧ kv.2 ≤ 1 ∧ IsFloat A kv.2 ∧ ((∀ q ∈ mu.zip y, q.2 = kv.1 → q.1 = 0) → kv.2 = 0) ∧
      ((∀ q ∈ mu.zip y, q.2 ≠ kv.1 → q.1 = 0) → kv.2 = 1) := by
  have he : classValueOfF A mu y = .ok ((npUnique y).map (fun c =>
      (c, A.fl (A.sum ((mu.zip y).map (fun p => if p.2 = c then p.1 else 0)) / A.sum mu)))) := by
    unfold classValueOfF
    apply mapM_ok_of_forall
    intro c _
    simp only [flDiv, hpos.ne', if_false, py_bind_ok, py_pure]
  rw [he] at h
  cases h
  refine ⟨?_, ?_, ?_⟩
  · simpa [List.map_map, Function.comp_def] using npUnique_pairwise y
  · intro c; simp [List.map_map, Function.comp_def, mem_npUnique]
  · intro kv hkv
    obtain ⟨c, -, rfl⟩ := List.mem_map.1 hkv
    simp only
    have hz : mu = (mu.zip y).map Prod.fst := (List.map_fst_zip (by omega)).symm
    have hnn : ∀ q ∈ mu.zip y, 0 ≤ q.1 := fun q hq => hmu _ (List.of_mem_zip hq).1
    have h1 : A.sum ((mu.zip y).map (fun p => if p.2 = c then p.1 else 0)) ≤ A.sum mu := by
      conv_rhs => rw [hz]
      apply hA.sum_mono
      rw [List.forall₂_map_left_iff, List.forall₂_map_right_iff, List.forall₂_same]
      intro q hq
      split
      · exact le_refl _
      · exact hnn q hq
    have h0 : 0 ≤ A.sum ((mu.zip y).map (fun p => if p.2 = c then p.1 else 0)) := by
      refine (hA.sum_zero ((mu.zip y).map (fun _ => (0 : K))) (by simp)).symm.le.trans ?_
      apply hA.sum_mono
      rw [List.forall₂_map_left_iff, List.forall₂_map_right_iff, List.forall₂_same]
      intro q hq
      split
      · exact hnn q hq
      · exact le_refl (0 : K)
    obtain ⟨r1, r2, r3⟩ := fl_range hA h0 h1 hpos
    refine ⟨r1, r2, r3, ?_, ?_⟩
    · intro hno
      rw [hA.sum_zero, zero_div, hA.zero]
      intro x hx
      obtain ⟨q, hq, rfl⟩ := List.mem_map.1 hx
      split
      · rename_i e; exact hno q hq e
      · rfl
    · intro hall
      have : (mu.zip y).map (fun p => if p.2 = c then p.1 else 0) = mu := by
        conv_rhs => rw [hz]
        apply List.map_congr_left
        intro q hq
        split
        · rfl
        · rename_i e; exact (hall q hq e).symm
      rw [this, div_self hpos.ne', hA.one]

theorem Trace.degreesF {p : FDTParams K} {X : List (List (Cell K))} {Xm : Dict String (Dict String (List K))}
    {mu feats d ts mu' feats' d'} (hX : datasetMembershipF A X p.vars = .ok Xm) (hn : ∀ v ∈ p.vars, (v.sets.map FSet.name).Nodup)
    (h : Trace p Xm mu feats d ts mu' feats' d') : ∀ P : List (Cell K) → K → Prop, List.Forall₂ P X mu →
      List.Forall₂ (fun row m' => ∃ m ms, P row m ∧ List.Forall₂ (TestDegreeF A row) ts ms ∧ m' = ms.foldl min m) X mu' := by
  induction h with
  | nil =>
    intro P hP
    exact hP.imp (fun row m h => ⟨m, [], h, .nil, rfl⟩)
  | cons mu feats d test mu1 att ts mu' feats' d' hs _ ih =>
    intro P hP
    obtain ⟨-, -, hfi, hvar, sets, s, hsets, hsj, rfl⟩ := hs
    obtain ⟨fi, var, hfi', hvar', -, -, -, hcol⟩ := tableF_column hX hn hsets
    rw [hfi] at hfi'; cases hfi'
    rw [hvar] at hvar'; cases hvar'
    have hc : List.Forall₂ (TestDegreeF A · test) X s.2 := hcol _ s hsj
    have h1 : List.Forall₂ (fun row m1 => ∃ m k, P row m ∧ TestDegreeF A row test k ∧ m1 = min m k) X (List.zipWith min mu s.2) := by
      clear * - hP hc
      generalize s.2 = l at hc
      induction hP generalizing l with
      | nil => cases hc; exact .nil
      | cons hx _ ih =>
        cases hc with
        | cons hy hl => exact .cons ⟨_, _, hx, hy, rfl⟩ (ih _ hl)
    refine (ih _ h1).imp ?_
    rintro row m' ⟨m1, ms, ⟨m, k, hm, hk, rfl⟩, hms, rfl⟩
    exact ⟨m, k :: ms, hm, .cons hk hms, rfl⟩

theorem leafDegreeF_range (hA : Lawful A u η) {row : List (Cell K)} (hrow : ∀ x, Cell.num x ∈ row → IsFloat A x) {path : List (FTest K)}
    (hv : ∀ test ∈ path, FloatVar A test.var) {m : K} (h : LeafDegreeF A row path m) : 0 ≤ m ∧ m ≤ 1 ∧ IsFloat A m := by
  obtain ⟨ms, hms, rfl⟩ := h
  have : ∀ a : K, 0 ≤ a ∧ a ≤ 1 ∧ IsFloat A a → 0 ≤ ms.foldl min a ∧ ms.foldl min a ≤ 1 ∧ IsFloat A (ms.foldl min a) := by
    induction hms with
    | nil => intro a h; exact h
    | @cons test m path ms h _ ih =>
      intro a ha
      refine ih (fun t ht => hv t (by simp [ht])) _ ?_
      obtain ⟨fs, x, h1, h2, h3⟩ := h
      have hr := FSet.membershipF_range hA (by rintro c rfl; exact hv test (by simp) c (List.mem_of_getElem? h1))
        (by rintro z rfl; exact hrow z (List.mem_of_getElem? h2)) h3
      rcases min_choice a m with e | e <;> rw [e]
      · exact ha
      · exact hr
  exact this 1 ⟨zero_le_one, le_refl _, hA.one⟩

theorem fdtFitF_ok {ent : List K → List C → K} {ord : List String → List String} {p : FDTParams K} {root : FNode C K}
    {X : List (List (Cell K))} {y : List C} {t : FNode C K} (h : fdtFitF A ent ord p root X y = .ok t) :
    Rectangular X ∧ X.length = y.length ∧ ∃ Xm, datasetMembershipF A X p.vars = .ok Xm ∧
      partialFitF A ent ord p Xm y ((p.vars.map FVar.name).dedup.length + 1)
        (.mk root.test root.level (y.map (fun _ => 1)) root.isLeaf root.classValue root.children)
        (p.vars.map FVar.name).dedup 0 = .ok t := by
  unfold fdtFitF at h
  rw [py_bind_eq_ok] at h
  obtain ⟨_, h1, h⟩ := h
  split at h
  · cases h
  · rename_i hlen
    rw [py_bind_eq_ok] at h
    obtain ⟨Xm, hXm, h⟩ := h
    exact ⟨(checkArray_ok_iff X).1 h1, not_not.1 hlen, Xm, hXm, h⟩

theorem sumF_ones_pos (hA : Lawful A u η) {y : List C} (hy : y ≠ []) : 0 < A.sum (y.map (fun _ => (1 : K))) := by
  obtain ⟨c, hc⟩ := List.exists_mem_of_ne_nil _ hy
  have := hA.sum_ge (y.map (fun _ => (1 : K))) (by
    intro x hx
    obtain ⟨_, -, rfl⟩ := List.mem_map.1 hx
    exact ⟨hA.one, zero_le_one⟩) 1 (List.mem_map.2 ⟨c, hc, rfl⟩)
  linarith [zero_lt_one (α := K)]

theorem sumF_pos_iff (hA : Lawful A u η) {xs : List K} (h : ∀ x ∈ xs, IsFloat A x ∧ 0 ≤ x) : 0 < A.sum xs ↔ ∃ x ∈ xs, 0 < x := by
  constructor
  · intro hp
    by_contra hc
    push Not at hc
    rw [hA.sum_zero xs (fun x hx => le_antisymm (hc x hx) (h x hx).2)] at hp
    exact lt_irrefl _ hp
  · rintro ⟨x, hx, hp⟩
    exact hp.trans_le (hA.sum_ge xs h x hx)

/-- **C170**: a tree fitted in floating point, for every rounding, every order of summation and every (rounded) entropy: no path is longer
than `max_depth` or uses a variable twice; the stored memberships of a node are the minima of the rounded degrees along its path; a split
node has one child per fuzzy set; a leaf has exactly the classes of the training data, in increasing order, with weights in `[0,1]`. The
weights are computed from the memberships of the leaf or, if these are all 0, of its parent: a class without positive memberships there has
exactly weight 0, and a class that has all of them exactly weight 1. -/
theorem C170_tree (hA : Lawful A u η) (ent : List K → List C → K) (ord : List String → List String) (p : FDTParams K)
    (hn : ∀ v ∈ p.vars, (v.sets.map FSet.name).Nodup) (hv : ∀ v ∈ p.vars, FloatVar A v)
    (X : List (List (Cell K))) (hXf : FloatTable A X) (y : List C) (t : FNode C K) (h : fdtFitF A ent ord p fdtNew X y = .ok t) :
    ∀ q ∈ nodePaths t, q.1.length ≤ p.maxDepth ∧ (q.1.map FTest.att).Nodup ∧ (∀ test ∈ q.1, p.vars[test.att]? = some test.var) ∧
      List.Forall₂ (fun row m => LeafDegreeF A row q.1 m) X q.2.mu ∧
      (q.2.isLeaf = false → ∃ fi var, p.vars[fi]? = some var ∧
        q.2.children.map FNode.test = (List.range var.sets.length).map (fun k => some ⟨var, fi, k⟩)) ∧
      (q.2.isLeaf = true → ∃ cv degs, q.2.classValue = some cv ∧ (cv.map Prod.fst).Pairwise (· < ·) ∧ (∀ c, c ∈ cv.map Prod.fst ↔ c ∈ y) ∧
        ((∃ m ∈ q.2.mu, 0 < m) ∧ degs = q.2.mu ∨ (∀ m ∈ q.2.mu, m = 0) ∧ (∃ m ∈ degs, 0 < m) ∧
          List.Forall₂ (fun row m => LeafDegreeF A row q.1.dropLast m) X degs) ∧
        ∀ kv ∈ cv, 0 ≤ kv.2 ∧ kv.2 ≤ 1 ∧ IsFloat A kv.2 ∧ ((∀ z ∈ degs.zip y, z.2 = kv.1 → z.1 = 0) → kv.2 = 0) ∧
          ((∀ z ∈ degs.zip y, z.2 ≠ kv.1 → z.1 = 0) → kv.2 = 1)) := by
  obtain ⟨hR, hlen, Xm, hXm, hp⟩ := fdtFitF_ok h
  have hy : y ≠ [] := by
    rintro rfl
    obtain ⟨_, -, hne, -⟩ := hR
    exact hne (List.length_eq_zero_iff.1 hlen)
  have hones : List.Forall₂ (fun (_ : List (Cell K)) (m : K) => m = 1) X (y.map (fun _ => 1)) := by
    rw [List.forall₂_iff_get]
    refine ⟨by simp [hlen], ?_⟩
    intro i h1 h2
    simp
  have hdeg : ∀ {ts : List (FTest K)} {mu' : List K} {feats' : List String} {d' : Nat},
      Trace p Xm (y.map (fun _ => 1)) (p.vars.map FVar.name).dedup 0 ts mu' feats' d' →
      List.Forall₂ (fun row m => LeafDegreeF A row ts m) X mu' := by
    intro ts mu' feats' d' htr
    refine (htr.degreesF hXm hn _ hones).imp ?_
    rintro row m' ⟨m, ms, rfl, hms, rfl⟩
    exact ⟨ms, hms, rfl⟩
  have hrange : ∀ {ts : List (FTest K)} {mu' : List K} {feats' : List String} {d' : Nat},
      Trace p Xm (y.map (fun _ => 1)) (p.vars.map FVar.name).dedup 0 ts mu' feats' d' →
      mu'.length = y.length ∧ ∀ m ∈ mu', IsFloat A m ∧ 0 ≤ m := by
    intro ts mu' feats' d' htr
    have h1 := hdeg htr
    obtain ⟨-, -, h3⟩ := htr.names (List.nodup_dedup _)
    refine ⟨by rw [← h1.length_eq, hlen], ?_⟩
    intro m hm
    obtain ⟨row, hrow, hd⟩ := forall₂_mem_right h1 m hm
    have := leafDegreeF_range hA (hXf row hrow) (fun test ht => hv _ (List.mem_of_getElem? (h3 test ht))) hd
    exact ⟨this.2.2, this.1⟩
  intro q hq
  obtain ⟨rest, hrest, hfact⟩ := (partialFitF_nodes hXm hn _ _ _ _ _ hp).2 rfl (sumF_ones_pos hA hy) q hq
  have hrest : q.1 = rest := hrest
  rw [hrest]
  have htrace : ∃ feats' d', Trace p Xm (y.map (fun _ => 1)) (p.vars.map FVar.name).dedup 0 rest q.2.mu feats' d' := by
    rcases hfact with ⟨feats', d', h1, -⟩ | ⟨init, last, m1, f1, d1, att', h1, h2, h3, -⟩
    · exact ⟨feats', d', h1⟩
    · rw [h3]; exact ⟨_, _, h1.append h2⟩
  obtain ⟨feats', d', htr⟩ := htrace
  obtain ⟨h1, h2, h3⟩ := htr.names (List.nodup_dedup _)
  have hd := htr.depth
  refine ⟨?_, ?_, h3, hdeg htr, ?_, ?_⟩
  · by_cases e : rest = []
    · simp [e]
    · have := hd.2 e; rw [hd.1] at this; omega
  · have e : rest.map (fun t => t.var.name) = (rest.map FTest.att).map (fun a => ((p.vars[a]?).map FVar.name).getD "") := by
      rw [List.map_map]
      apply List.map_congr_left
      intro t ht
      simp [h3 t ht]
    rw [e] at h1
    exact h1.of_map
  · intro hl
    rcases hfact with ⟨f, d, -, -, ⟨hl', -⟩ | ⟨-, att, sets, fi, var, k1, k2, k3, k4⟩⟩ | ⟨_, _, _, _, _, _, -, -, -, -, -, hl', -⟩
    · rw [hl] at hl'; cases hl'
    · obtain ⟨fi', var', l1, l2, -, -, l3, -⟩ := tableF_column hXm hn k1
      rw [k2] at l1; cases l1
      rw [k3] at l2; cases l2
      exact ⟨fi, var, k3, by rw [k4, l3]⟩
    · rw [hl] at hl'; cases hl'
  · intro hl
    rcases hfact with ⟨f, d, g1, g2, ⟨-, cv, g3, g4⟩ | ⟨hl', -⟩⟩ | ⟨init, last, m1, f1, d1, att', g1, -, gr, g2, gz, -, cv, g3, g4⟩
    · obtain ⟨r1, r2⟩ := hrange htr
      obtain ⟨c1, c2, c3⟩ := classValueOfF_ok hA r1 (fun m hm => (r2 m hm).2) g2 g3
      exact ⟨cv, _, g4, c1, c2, .inl ⟨(sumF_pos_iff hA r2).1 g2, rfl⟩, c3⟩
    · rw [hl] at hl'; cases hl'
    · obtain ⟨r1, r2⟩ := hrange g1
      obtain ⟨c1, c2, c3⟩ := classValueOfF_ok hA r1 (fun m hm => (r2 m hm).2) g2 g3
      refine ⟨cv, m1, g4, c1, c2, .inr ⟨?_, (sumF_pos_iff hA r2).1 g2, ?_⟩, c3⟩
      · intro m hm
        by_contra hne
        obtain ⟨-, s2⟩ := hrange htr
        exact gz ((sumF_pos_iff hA s2).2 ⟨m, hm, lt_of_le_of_ne (s2 m hm).2 (Ne.symm hne)⟩)
      · rw [gr, List.dropLast_concat]
        exact hdeg g1

/-! ### fitting succeeds -/

theorem classValueOfF_exists {mu : List K} (hmu : A.sum mu ≠ 0) (y : List C) : ∃ cv, classValueOfF A mu y = .ok cv := by
  have : classValueOfF A mu y = .ok ((npUnique y).map (fun c =>
      (c, A.fl (A.sum ((mu.zip y).map (fun p => if p.2 = c then p.1 else 0)) / A.sum mu)))) := by
    unfold classValueOfF
    apply mapM_ok_of_forall
    intro c _
    simp only [flDiv, hmu, if_false, py_bind_ok, py_pure]
  exact ⟨_, this⟩

theorem fitChildrenF_exists {p : FDTParams K} {y : List C} {mu : List K} (hmu : A.sum mu ≠ 0)
    {feats : List String} {att : String} (hatt : att ∈ feats) {rec : FNode C K → Py (FNode C K)}
    {fi : Nat} {var : FVar K} (hfi : Dict.get? (featuresDict p.vars) att = some fi) (hvar : p.vars[fi]? = some var)
    {childMu : Dict String (List K)} (values : List String)
    (hv : ∀ k ∈ values, ∃ m, Dict.get? childMu k = some m)
    (hrec : ∀ (c : FNode C K), 0 < A.sum c.mu → ∃ t, rec c = .ok t) (i : Nat) :
    ∃ cs, fitChildrenF A rec p y mu att childMu feats i values = .ok cs := by
  induction values generalizing i with
  | nil => exact ⟨[], rfl⟩
  | cons k values ih =>
    obtain ⟨m, hm⟩ := hv k (by simp)
    simp only [fitChildrenF]
    rw [if_neg (by simpa using hatt), Dict.get_eq_ok_iff.2 hfi, py_bind_ok, hvar]
    simp only [py_bind_ok]
    rw [Dict.get_eq_ok_iff.2 hm, py_bind_ok]
    have hc : ∃ t, fitChildF A rec y mu (FNode.fresh (C := C) (some ⟨var, fi, i⟩) m) = .ok t := by
      unfold fitChildF
      split
      · rename_i hp
        exact hrec _ hp
      · have := classValueOfF_exists hmu y
        obtain ⟨cv, hcv⟩ := this
        rw [hcv, py_bind_ok]
        exact ⟨_, rfl⟩
    obtain ⟨t, ht⟩ := hc
    obtain ⟨cs, hcs⟩ := ih (fun k hk => hv k (by simp [hk])) (i + 1)
    rw [ht, py_bind_ok, hcs, py_bind_ok]
    exact ⟨_, rfl⟩

theorem partialFitF_exists {ent : List K → List C → K} {ord : List String → List String} (hord : ∀ l, (ord l).Perm l)
    {p : FDTParams K} (hth : 0 < p.fuzzyThreshold) {X : List (List (Cell K))}
    {Xm : Dict String (Dict String (List K))} {y : List C} (hX : datasetMembershipF A X p.vars = .ok Xm)
    (fuel : Nat) : ∀ (current : FNode C K) (feats : List String) (depth : Nat), feats.length < fuel →
    (∀ f ∈ feats, f ∈ p.vars.map FVar.name) → 0 < A.sum current.mu →
    ∃ t, partialFitF A ent ord p Xm y fuel current feats depth = .ok t := by
  induction fuel with
  | zero => intro _ _ _ h; omega
  | succ fuel ih =>
    intro current feats depth hlen hf hmu
    have hlook : ∀ f ∈ feats, ∃ j v col d, Dict.get? (featuresDict p.vars) f = some j ∧ p.vars[j]? = some v ∧
        v.name = f ∧ column X j = .ok col ∧ v.membershipF A col = .ok d ∧ Dict.get? Xm f = some d := by
      intro f hff
      rcases datasetMembershipF_lookup hX f with ⟨-, h1⟩ | h1
      · rw [Dict.get?_eq_none_iff, mem_keys_featuresDict] at h1
        exact absurd (hf f hff) h1
      · exact h1
    obtain ⟨⟨att, gain, cm⟩, hg⟩ := maxGainFromF_exists (A := A) ent Xm y current.mu ("", 0, []) (ord feats) hmu.ne' (by
      intro f hff
      obtain ⟨j, v, col, d, -, -, -, -, -, h⟩ := hlook f ((hord feats).mem_iff.1 hff)
      exact ⟨d, h⟩)
    have hg' : getMaxFGainF A ent Xm y current.mu (ord feats) = .ok (att, gain, cm) := hg
    simp only [partialFitF]
    rw [hg', py_bind_ok]
    simp only
    split <;> rename_i hstop
    · have := classValueOfF_exists hmu.ne' y
      obtain ⟨cv, hcv⟩ := this
      rw [hcv, py_bind_ok]
      exact ⟨_, rfl⟩
    · have hgain : ¬ gain < p.fuzzyThreshold := by
        intro hc
        apply hstop
        simp [stopMet, hc]
      rcases getMaxFGainF_ok hg' with ⟨-, rfl, -⟩ | ⟨-, hatt, d, hd, rfl⟩
      · exact absurd hth hgain
      · have hatt' := (hord feats).mem_iff.1 hatt
        obtain ⟨j, v, col, d', hfi, hvar, -, -, -, hd'⟩ := hlook att hatt'
        rw [hd] at hd'; cases hd'
        rw [Dict.get_eq_ok_iff.2 hd, py_bind_ok]
        obtain ⟨cs, hcs⟩ := fitChildrenF_exists (A := A) (y := y) hmu.ne' hatt' hfi hvar
          (rec := fun child => partialFitF A ent ord p Xm y fuel child (feats.erase att) (depth + 1))
          (childMu := childMus current.mu d) (Dict.keys d) (by
            intro k hk
            rw [get?_childMus]
            obtain ⟨m, hm⟩ := (Dict.get?_isSome_iff d k).2 hk
            rw [hm]; exact ⟨_, rfl⟩) (by
            intro c hpos
            apply ih c _ _ _ _ hpos
            · rw [List.length_erase_of_mem hatt']
              have := List.length_pos_of_mem hatt'
              omega
            · intro f hff
              exact hf f (List.mem_of_mem_erase hff)) 0
        rw [hcs, py_bind_ok]
        exact ⟨_, rfl⟩

/-- degrees are defined in floating point where they are defined exactly. -/
theorem FSet.membershipF_exists {s : FSet K} {v : List (Cell K)} (h : ∀ x ∈ v, ∃ m, s.membership [x] = .ok [m]) (hne : v ≠ []) :
    ∃ ms, s.membershipF A v = .ok ms := by
  cases s with
  | disc s => exact ⟨_, rfl⟩
  | cont s =>
    simp only [FSet.membership, CSet.membership, FSet.membershipF, CSet.membershipF] at h ⊢
    have hab : s.a ≤ s.b ∧ s.b ≤ s.c := by
      obtain ⟨x, hx⟩ := List.exists_mem_of_ne_nil _ hne
      obtain ⟨m, hm⟩ := h x hx
      by_contra hc
      rw [if_neg hc] at hm
      cases hm
    rw [if_pos hab]
    clear hne
    induction v with
    | nil => exact ⟨[], rfl⟩
    | cons x v ih =>
      obtain ⟨ms, hms⟩ := ih (fun x hx => h x (by simp [hx]))
      obtain ⟨m, hm⟩ := h x (by simp)
      rw [if_pos hab, mapM_ok_iff] at hm
      rw [mapM_ok_iff] at hms
      cases hm with
      | cons hm _ =>
        cases x with
        | num x => exact ⟨trimfAtF A s.a s.b s.c x :: ms, by rw [mapM_ok_iff]; exact .cons rfl hms⟩
        | str x =>
          simp only at hm
          split at hm
          · rename_i he
            exact ⟨0 :: ms, by rw [mapM_ok_iff]; exact .cons (by simp only [he, and_self, if_true]) hms⟩
          · cases hm

theorem FVar.membershipF_exists {v : FVar K} {col : List (Cell K)}
    (h : ∀ s ∈ v.sets, ∃ ms, s.membershipF A col = .ok ms) : ∃ d, v.membershipF A col = .ok d := by
  unfold FVar.membershipF
  have : ∃ ps, v.sets.mapM (fun fs => do let m ← fs.membershipF A col; pure (fs.name, m)) = (.ok ps : Py _) := by
    generalize v.sets = l at h
    induction l with
    | nil => exact ⟨[], rfl⟩
    | cons s l ih =>
      obtain ⟨ps, hps⟩ := ih (fun s hs => h s (by simp [hs]))
      obtain ⟨ms, hms⟩ := h s (by simp)
      refine ⟨(s.name, ms) :: ps, ?_⟩
      rw [List.mapM_cons, hps, hms]
      rfl
  obtain ⟨ps, hps⟩ := this
  exact ⟨Dict.ofPairs ps, by rw [hps]; rfl⟩

theorem datasetMembershipFromF_exists (X : List (List (Cell K))) (vs : List (FVar K)) (i : Nat) (acc : Dict String (Dict String (List K)))
    (h : ∀ k v, vs[k]? = some v → ∃ col d, column X (i + k) = .ok col ∧ v.membershipF A col = .ok d) :
    ∃ D, datasetMembershipFromF A X i acc vs = .ok D := by
  induction vs generalizing i acc with
  | nil => exact ⟨acc, rfl⟩
  | cons v vs ih =>
    obtain ⟨col, d, h1, h2⟩ := h 0 v rfl
    simp only [datasetMembershipFromF]
    rw [Nat.add_zero] at h1
    rw [h1, py_bind_ok, h2, py_bind_ok]
    apply ih
    intro k w hw
    have := h (k + 1) w (by simpa using hw)
    rwa [show i + 1 + k = i + (k + 1) by omega]

theorem datasetMembershipF_exists (X : List (List (Cell K))) (vars : List (FVar K)) (hR : Rectangular X)
    (hcells : ∀ (i : Nat) v, vars[i]? = some v → ∀ row ∈ X, ∃ x, row[i]? = some x ∧
      ∀ s ∈ v.sets, ∃ m, s.membership [x] = .ok [m]) : ∃ Xm, datasetMembershipF A X vars = .ok Xm := by
  have hXne : X ≠ [] := by obtain ⟨_, _, hne, _⟩ := hR; exact hne
  unfold datasetMembershipF
  rw [(checkArray_ok_iff X).2 hR, py_bind_ok]
  apply datasetMembershipFromF_exists
  intro k v hv
  rw [Nat.zero_add]
  have hcol : ∃ col, column X k = .ok col ∧ ∀ x ∈ col, ∀ s ∈ v.sets, ∃ m, s.membership [x] = .ok [m] := by
    have h' := hcells k v hv
    clear hR hcells hv hXne
    induction X with
    | nil => exact ⟨[], rfl, by simp⟩
    | cons r X ih =>
      obtain ⟨col, hc, hm⟩ := ih (fun row hrow => h' row (by simp [hrow]))
      obtain ⟨x, hx, hxs⟩ := h' r (by simp)
      refine ⟨x :: col, ?_, ?_⟩
      · rw [column_eq_ok_iff] at hc ⊢
        exact .cons hx hc
      · intro y hy
        rcases List.mem_cons.1 hy with rfl | hy
        · exact hxs
        · exact hm y hy
  obtain ⟨col, hc, hm⟩ := hcol
  have hne : col ≠ [] := by
    rintro rfl
    exact hXne (List.length_eq_zero_iff.1 (column_length hc).symm)
  obtain ⟨d, hd⟩ := FVar.membershipF_exists (A := A) (v := v) (col := col)
    (fun s hs => FSet.membershipF_exists (fun x hx => hm x hx s hs) hne)
  exact ⟨col, d, hc, hd⟩

/-- **C170**: in floating point, `fit` succeeds on every data set on which it succeeds in exact arithmetic (C32), for every rounding, every
order of summation and every entropy, if `fuzzy_threshold > 0`. -/
theorem C170_fit_succeeds (hA : Lawful A u η) (ent : List K → List C → K) (ord : List String → List String) (hord : ∀ l, (ord l).Perm l)
    (p : FDTParams K) (hth : 0 < p.fuzzyThreshold) (root : FNode C K) (X : List (List (Cell K))) (y : List C)
    (hR : Rectangular X) (hlen : X.length = y.length)
    (hcells : ∀ (i : Nat) v, p.vars[i]? = some v → ∀ row ∈ X, ∃ x, row[i]? = some x ∧
      ∀ s ∈ v.sets, ∃ m, s.membership [x] = .ok [m]) :
    ∃ t, fdtFitF A ent ord p root X y = .ok t := by
  have hXne : X ≠ [] := by obtain ⟨_, _, hne, _⟩ := hR; exact hne
  have hy : y ≠ [] := by
    rintro rfl
    exact hXne (List.length_eq_zero_iff.1 hlen)
  obtain ⟨Xm, hXm⟩ := datasetMembershipF_exists (A := A) X p.vars hR hcells
  unfold fdtFitF
  rw [(checkArray_ok_iff X).2 hR, py_bind_ok, if_neg (by simp [hlen]), hXm, py_bind_ok]
  apply partialFitF_exists hord hth hXm
  · exact Nat.lt_succ_self _
  · intro f hf; simpa using hf
  · exact sumF_ones_pos hA hy

/-! ### from fit to predict -/

/-- **C169** for a tree that has been fitted in floating point. -/
theorem C169_fitted (hA : Lawful A u η) (ent : List K → List C → K) (ord : List String → List String) (p : FDTParams K)
    (hs : ProperSets p.vars) (hv : ∀ v ∈ p.vars, FloatVar A v) (X : List (List (Cell K))) (hXf : FloatTable A X) (y : List C) (t : FNode C K)
    (h : fdtFitF A ent ord p fdtNew X y = .ok t) (v : Voting) (X' : List (List (Cell K))) (hR : Rectangular X') (hX' : FloatTable A X')
    (cs : List C) (hc : List.Forall₂ (fun row c => ∃ L, RowLeaves min row t L ∧ c ∈ y ∧
      ∀ c', c' ≠ c → vote v L c' + 2 * votingError v u η (leafPaths t).length < vote v L c) X' cs) :
    fdtPredictF A min v t X' = .ok [cs] ∧ fdtPredict min v t X' = .ok [cs] := by
  have hall := C170_tree hA ent ord p (fun v hv => (hs v hv).2) hv X hXf y t h
  have hb : Branching t := by
    apply branching_of_nodes
    intro q hq hl e
    obtain ⟨-, -, -, -, h1, -⟩ := hall q hq
    obtain ⟨fi, var, h2, h3⟩ := h1 hl
    rw [e] at h3
    have := congrArg List.length h3
    simp only [List.map_nil, List.length_nil, List.length_map, List.length_range] at this
    exact (hs var (List.mem_of_getElem? h2)).1 (List.length_eq_zero_iff.1 this.symm)
  have hleaf : ∀ q ∈ leafPaths t, ∃ cv, q.2 = some cv ∧ (cv.map Prod.fst).Nodup ∧ (∀ c, c ∈ cv.map Prod.fst ↔ c ∈ y) ∧
      ∀ kv ∈ cv, 0 ≤ kv.2 ∧ kv.2 ≤ 1 := by
    intro q hq
    obtain ⟨n, hn, hl, hcv⟩ := (leafPaths_iff t q).1 hq
    obtain ⟨-, -, -, -, -, h1⟩ := hall _ hn
    obtain ⟨cv, degs, h2, h3, h4, -, h5⟩ := h1 hl
    exact ⟨cv, by rw [← hcv]; exact h2, h3.imp (fun h => h.ne), h4, fun kv hkv => ⟨(h5 kv hkv).1, (h5 kv hkv).2.1⟩⟩
  obtain ⟨q0, hq0⟩ := Branching.exists_leaf t hb
  refine C169_same_prediction hA v t hb ?_ ?_ X' hR hX' cs (hc.imp ?_)
  · intro q hq cv hcv
    obtain ⟨cv', h1, h2, -, h3⟩ := hleaf q hq
    rw [hcv] at h1
    cases h1
    exact ⟨h2, h3⟩
  · intro q hq test ht
    obtain ⟨n, hn, -⟩ := (leafPaths_iff t q).1 hq
    obtain ⟨-, -, h3, -⟩ := hall _ hn
    exact hv _ (List.mem_of_getElem? (h3 test ht))
  · rintro row c ⟨L, hL, hcy, hw⟩
    refine ⟨L, hL, ?_, hw⟩
    obtain ⟨q, hq, h1, -⟩ := forall₂_mem_left hL q0 hq0
    obtain ⟨cv, h2, -, h3, -⟩ := hleaf q0 hq0
    rw [h2] at h1
    cases h1
    exact ⟨q, hq, (h3 c).2 hcy⟩

end fit

/-! ### examples -/

def exFParams : FDTParams ℚ := ⟨[exParams.vars[0]], 1 / 100, 1, 2⟩
def exFX : List (List (Cell ℚ)) := [[.num 0], [.num (233 / 100)], [.num 1], [.num 3], [.num 2], [.num (133 / 100)]]
def exFY : List Nat := [0, 1, 0, 1, 1, 0]

theorem exFParams_float : ∀ v ∈ exFParams.vars, FloatVar (gridArith 100) v := by
  intro v hv s hs
  simp only [exFParams, List.mem_cons, List.not_mem_nil, or_false] at hv
  subst hv
  simp only [exParams, List.getElem_cons_zero, List.mem_cons, List.not_mem_nil, or_false, FSet.cont.injEq] at hs
  unfold FloatSet IsFloat
  rcases hs with rfl | rfl | rfl <;> decide +kernel

theorem exFX_float : FloatTable (gridArith 100) exFX := by
  intro row hrow x hx
  simp only [exFX, List.mem_cons, List.not_mem_nil, or_false] at hrow
  unfold IsFloat
  rcases hrow with rfl | rfl | rfl | rfl | rfl | rfl <;>
    (simp only [List.mem_cons, List.not_mem_nil, or_false, Cell.num.injEq] at hx; subst hx; decide +kernel)

set_option synthInstance.maxSize 1000 in
set_option synthInstance.maxHeartbeats 200000 in
/-- fit and predict with two decimals: the hypotheses of C170 and of C169 hold, degrees and weights are rounded, and the prediction for
`267/100` is that of the exact computation. -/
example : ProperSets exFParams.vars ∧ (∀ v ∈ exFParams.vars, FloatVar (gridArith 100) v) ∧ FloatTable (gridArith 100) exFX ∧
    ∃ t, fdtFitF (gridArith 100) exEnt id exFParams fdtNew exFX exFY = .ok t ∧
      (nodePaths t).map (fun q => (q.1.map (fun s => (s.att, s.idx)), q.2.mu, q.2.classValue)) =
        [([], [1, 1, 1, 1, 1, 1], none), ([(0, 0)], [1, 0, 0, 0, 0, 0], some [(0, 1), (1, 0)]),
          ([(0, 1)], [0, 17 / 50, 1, 0, 1 / 2, 21 / 25], some [(0, 69 / 100), (1, 31 / 100)]),
          ([(0, 2)], [0, 67 / 100, 0, 1, 1 / 2, 17 / 100], some [(0, 7 / 100), (1, 93 / 100)])] ∧
      fdtPredictF (gridArith 100) min .agg t [[.num (267 / 100)]] = .ok [[1]] ∧ fdtPredict min .agg t [[.num (267 / 100)]] = .ok [[1]] := by
  have hps : ProperSets exFParams.vars := by unfold ProperSets; decide
  refine ⟨hps, exFParams_float, exFX_float, ?_⟩
  have h1 : (fdtFitF (gridArith 100) exEnt id exFParams fdtNew exFX exFY).toOption.map (fun t =>
      ((nodePaths t).map (fun q => (q.1.map (fun s => (s.att, s.idx)), q.2.mu, q.2.classValue)), leafPaths t)) = some
      ([([], [1, 1, 1, 1, 1, 1], none), ([(0, 0)], [1, 0, 0, 0, 0, 0], some [(0, 1), (1, 0)]),
          ([(0, 1)], [0, 17 / 50, 1, 0, 1 / 2, 21 / 25], some [(0, 69 / 100), (1, 31 / 100)]),
          ([(0, 2)], [0, 67 / 100, 0, 1, 1 / 2, 17 / 100], some [(0, 7 / 100), (1, 93 / 100)])],
        [([⟨exParams.vars[0], 0, 0⟩], some [(0, 1), (1, 0)]), ([⟨exParams.vars[0], 0, 1⟩], some [(0, 69 / 100), (1, 31 / 100)]),
          ([⟨exParams.vars[0], 0, 2⟩], some [(0, 7 / 100), (1, 93 / 100)])]) := by decide +kernel
  cases e : fdtFitF (gridArith 100) exEnt id exFParams fdtNew exFX exFY with
  | error _ => rw [e] at h1; cases h1
  | ok t =>
    rw [e] at h1
    simp only [Except.toOption, Option.map_some, Option.some.injEq, Prod.mk.injEq] at h1
    obtain ⟨h1, h2⟩ := h1
    refine ⟨t, rfl, h1, ?_⟩
    have d0 : TestDegree (K := ℚ) [.num (267 / 100)] ⟨exParams.vars[0], 0, 0⟩ 0 := ⟨_, _, rfl, rfl, by decide +kernel⟩
    have d1 : TestDegree (K := ℚ) [.num (267 / 100)] ⟨exParams.vars[0], 0, 1⟩ (33 / 200) := ⟨_, _, rfl, rfl, by decide +kernel⟩
    have d2 : TestDegree (K := ℚ) [.num (267 / 100)] ⟨exParams.vars[0], 0, 2⟩ (167 / 200) := ⟨_, _, rfl, rfl, by decide +kernel⟩
    have hL : RowLeaves min [.num (267 / 100)] t
        [([(0, 1), (1, 0)], 0), ([(0, 69 / 100), (1, 31 / 100)], 33 / 200), ([(0, 7 / 100), (1, 93 / 100)], 167 / 200)] := by
      unfold RowLeaves
      rw [h2]
      exact .cons ⟨rfl, _, .cons d0 .nil, by decide +kernel⟩ (.cons ⟨rfl, _, .cons d1 .nil, by decide +kernel⟩
        (.cons ⟨rfl, _, .cons d2 .nil, by decide +kernel⟩ .nil))
    refine C169_fitted (gridArith_lawful 100 (by norm_num)) exEnt id exFParams hps exFParams_float exFX exFX_float exFY t e .agg _
      ⟨1, by decide, by decide, by decide⟩ ?_ [1] (.cons ⟨_, hL, by decide, ?_⟩ .nil)
    · intro row hrow x hx
      simp only [List.mem_cons, List.not_mem_nil, or_false] at hrow
      subst hrow
      simp only [List.mem_cons, List.not_mem_nil, or_false, Cell.num.injEq] at hx
      subst hx
      unfold IsFloat
      decide +kernel
    · intro c' hc'
      rw [h2]
      by_cases e0 : c' = 0
      · subst e0; decide +kernel
      · have : vote .agg [([(0, 1), (1, 0)], (0 : ℚ)), ([(0, 69 / 100), (1, 31 / 100)], 33 / 200), ([(0, 7 / 100), (1, 93 / 100)], 167 / 200)] c'
            = 0 := by
          simp [vote, contributions, Ne.symm e0, Ne.symm hc']
        rw [this]
        decide +kernel

/-! ### the exact arithmetic -/

section exact

theorem trimfAtF_exact (a b c x : K) : trimfAtF exactArith a b c x = trimfAt a b c x := rfl

theorem FSet.membershipF_exact (s : FSet K) (v : List (Cell K)) : s.membershipF exactArith v = s.membership v := by
  cases s <;> rfl

theorem FVar.membershipF_exact (v : FVar K) (col : List (Cell K)) : v.membershipF exactArith col = v.membership col := by
  unfold FVar.membershipF FVar.membership
  simp only [FSet.membershipF_exact]

theorem datasetMembershipF_exact (X : List (List (Cell K))) (vars : List (FVar K)) :
    datasetMembershipF exactArith X vars = datasetMembership X vars := by
  have : ∀ (vs : List (FVar K)) (i : Nat) (acc : Dict String (Dict String (List K))),
      datasetMembershipFromF exactArith X i acc vs = datasetMembershipFrom X i acc vs := by
    intro vs
    induction vs with
    | nil => intro _ _; rfl
    | cons v vs ih => intro i acc; simp only [datasetMembershipFromF, datasetMembershipFrom, FVar.membershipF_exact, ih]
  unfold datasetMembershipF datasetMembership checkArray
  rw [this]
  cases X with
  | nil => rfl
  | cons r rs => simp only; split <;> rfl

variable [LinearOrder C]

theorem fGainF_exact (ent : List K → List C → K) (mu : List K) (y : List C) (child : Dict String (List K)) :
    fGainF exactArith ent mu y child = fGain ent mu y child := by
  have : child.foldl (fun w p => (exactArith : Arith K).fl (w + (exactArith : Arith K).fl ((exactArith : Arith K).sum p.2 * ent p.2 y))) 0 =
      (child.map (fun p => p.2.sum * ent p.2 y)).sum := by
    rw [List.sum_eq_foldl, List.foldl_map]
    rfl
  unfold fGainF fGain
  rw [this]
  rfl

theorem partialFitF_exact (ent : List K → List C → K) (ord : List String → List String) (p : FDTParams K)
    (Xm : Dict String (Dict String (List K))) (y : List C) (fuel : Nat) : ∀ (current : FNode C K) (feats : List String) (depth : Nat),
    partialFitF exactArith ent ord p Xm y fuel current feats depth = partialFit ent ord p Xm y fuel current feats depth := by
  have hgain : ∀ (mu : List K) (fs : List String) best, maxGainFromF exactArith ent Xm y mu best fs = maxGainFrom ent Xm y mu best fs := by
    intro mu fs
    induction fs with
    | nil => intro _; rfl
    | cons f fs ih => intro best; simp only [maxGainFromF, maxGainFrom, fGainF_exact, ih]
  have hch : ∀ (rec : FNode C K → Py (FNode C K)) (mu : List K) (att : String) cm fs (vals : List String) (i : Nat),
      fitChildrenF exactArith rec p y mu att cm fs i vals = fitChildren rec p y mu att cm fs i vals := by
    intro rec mu att cm fs vals
    induction vals with
    | nil => intro _; rfl
    | cons v vals ih =>
      intro i
      simp only [fitChildrenF, fitChildren, ih]
      rfl
  induction fuel with
  | zero => intro _ _ _; rfl
  | succ fuel ih =>
    intro current feats depth
    have hr : (fun child => partialFitF exactArith ent ord p Xm y fuel child) = fun child => partialFit ent ord p Xm y fuel child := by
      funext child f d
      exact ih child f d
    simp only [partialFitF, partialFit, getMaxFGainF, getMaxFGain, hgain, hch, ih]
    rfl

/-- without roundings, the computation in floating point is the exact one. -/
theorem fdtFitF_exact (ent : List K → List C → K) (ord : List String → List String) (p : FDTParams K) (root : FNode C K)
    (X : List (List (Cell K))) (y : List C) : fdtFitF exactArith ent ord p root X y = fdtFit ent ord p root X y := by
  unfold fdtFitF fdtFit
  simp only [datasetMembershipF_exact, partialFitF_exact]

theorem partialPredictF_exact (T : K → K → K) (X : List (List (Cell K))) (t : FNode C K) : ∀ mu : List K,
    partialPredictF exactArith T X mu t = partialPredict T X mu t := by
  have hmu : ∀ (mu : List K) (test : Option (FTest K)), nodeMuF exactArith T X mu test = nodeMu T X mu test := by
    intro mu test
    unfold nodeMuF nodeMu
    simp only [FSet.membershipF_exact]
    rfl
  induction t using FNode.induction with
  | h test level m isLeaf cv children ih =>
    intro mu
    have hl : ∀ (cs : List (FNode C K)), (∀ c ∈ cs, ∀ mu, partialPredictF exactArith T X mu c = partialPredict T X mu c) → ∀ mu,
        partialPredictListF exactArith T X mu cs = partialPredictList T X mu cs := by
      intro cs
      induction cs with
      | nil => intro _ _; rfl
      | cons c cs ihc =>
        intro h mu
        simp only [partialPredictListF, partialPredictList, h c (by simp), ihc (fun c hc => h c (by simp [hc]))]
    cases children with
    | nil => simp only [partialPredictF, partialPredict, hmu]
    | cons c cs =>
      simp only [partialPredictF, partialPredict, hmu, ih c (by simp), hl cs (fun c hc => ih c (by simp [hc]))]

theorem Voting.runF_exact (v : Voting) (L : List (Option (Dict C K) × List K)) : v.runF exactArith L = v.run L := by
  have hv : ∀ (mu : List K) (d : Dict C (List K)) (kv : C × K), v.entryF exactArith mu d kv = v.entry mu d kv := by
    intro mu d kv
    cases v with
    | agg =>
      simp only [Voting.entryF, Voting.entry, aggEntry, Voting.opF, exactArith, id]
      cases Dict.get? d kv.1 with
      | none => simp [Function.comp_def]
      | some w => rfl
    | max =>
      simp only [Voting.entryF, Voting.entry, maxEntry, Voting.opF, exactArith, id]
      cases Dict.get? d kv.1 <;> rfl
  unfold Voting.runF Voting.run
  have : ∀ mu : List K, v.entryF (C := C) exactArith mu = v.entry mu := by
    intro mu; funext d kv; exact hv mu d kv
  simp only [this]
  rfl

/-- without roundings, the prediction in floating point is the exact one. -/
theorem fdtPredictF_exact (T : K → K → K) (v : Voting) (t : FNode C K) (X : List (List (Cell K))) :
    fdtPredictF exactArith T v t X = fdtPredict T v t X := by
  unfold fdtPredictF fdtPredict FNode.predictF FNode.predict
  simp only [partialPredictF_exact, Voting.runF_exact]

end exact
end Teacher
