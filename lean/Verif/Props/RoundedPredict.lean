import Verif.Props.Rounded

/-! # C169: predictions in floating point -/

set_option linter.unusedSectionVars false

namespace Teacher
open Spec FB

variable {C K : Type} [Field K] [LinearOrder K] [IsStrictOrderedRing K]

section close
variable {A : Arith K} {u η : K}

/-- degrees in `[0,1]` at most `ε` apart. -/
def NearDeg (ε m m' : K) : Prop := 0 ≤ m ∧ m ≤ 1 ∧ 0 ≤ m' ∧ m' ≤ 1 ∧ |m' - m| ≤ ε

theorem FSet.membershipF_near (hA : Lawful A u η) {s : FSet K} (hs : ∀ c, s = .cont c → FloatSet A c) {v : List (Cell K)}
    (hv : ∀ x, Cell.num x ∈ v → IsFloat A x) {ms : List K} (h : s.membership v = .ok ms) :
    ∃ ms', s.membershipF A v = .ok ms' ∧ List.Forall₂ (NearDeg (degreeError u η)) ms ms' := by
  have hE := degreeError_nonneg hA
  cases s with
  | disc s =>
    simp only [FSet.membership, Except.ok.injEq] at h
    subst h
    refine ⟨_, rfl, ?_⟩
    rw [List.forall₂_same]
    intro m hm
    simp only [DSet.membership, List.mem_map] at hm
    obtain ⟨x, -, rfl⟩ := hm
    split <;> simp [NearDeg, hE]
  | cont s =>
    have hf := hs s rfl
    simp only [FSet.membership, FSet.membershipF, CSet.membership, CSet.membershipF] at h ⊢
    by_cases hab : s.a ≤ s.b ∧ s.b ≤ s.c
    · rw [if_pos hab] at h ⊢
      rw [mapM_ok_iff] at h
      induction h with
      | nil => exact ⟨[], rfl, .nil⟩
      | @cons x m v ms hx _ ih =>
        obtain ⟨ms', i1, i2⟩ := ih (fun x hx => hv x (by simp [hx]))
        rw [mapM_ok_iff] at i1
        cases x with
        | num x =>
          simp only [Except.ok.injEq] at hx
          subst hx
          obtain ⟨a1, a2, a3, -⟩ := trimfAtF_spec hA hf.1 hf.2.1 hf.2.2 (hv x (by simp))
          have T := trimfAt_isTriangle hab.1 hab.2
          refine ⟨trimfAtF A s.a s.b s.c x :: ms', ?_, .cons ⟨T.nonneg x, T.le_one x, a1, a2, a3⟩ i2⟩
          rw [mapM_ok_iff]
          exact .cons rfl i1
        | str x =>
          simp only at hx
          split at hx
          · rename_i he
            cases hx
            refine ⟨0 :: ms', ?_, .cons (by simp [NearDeg, hE]) i2⟩
            rw [mapM_ok_iff]
            exact .cons (by simp only [he, and_self, if_true]) i1
          · cases hx
    · rw [if_neg hab] at h; cases h

theorem near_zipWith_min {ε : K} {a a' b b' : List K} (ha : List.Forall₂ (NearDeg ε) a a') (hb : List.Forall₂ (NearDeg ε) b b') :
    List.Forall₂ (NearDeg ε) (List.zipWith min a b) (List.zipWith min a' b') := by
  induction ha generalizing b b' with
  | nil => cases hb <;> exact .nil
  | cons hx _ ih =>
    cases hb with
    | nil => exact .nil
    | cons hy hb =>
      refine .cons ?_ (ih hb)
      obtain ⟨x1, x2, x3, x4, x5⟩ := hx
      obtain ⟨y1, y2, y3, y4, y5⟩ := hy
      exact ⟨le_min x1 y1, (min_le_left _ _).trans x2, le_min x3 y3, (min_le_left _ _).trans x4,
        (abs_min_sub_min_le_max _ _ _ _).trans (max_le x5 y5)⟩

theorem floatColumn {X : List (List (Cell K))} (hX : FloatTable A X) {i : Nat} {col : List (Cell K)} (h : column X i = .ok col) :
    ∀ x, Cell.num x ∈ col → IsFloat A x := by
  rw [column_eq_ok_iff] at h
  intro x hx
  obtain ⟨row, hrow, hr⟩ := forall₂_mem_right h _ hx
  exact hX row hrow x (List.mem_of_getElem? hr)

theorem nodeMuF_near (hA : Lawful A u η) {X : List (List (Cell K))} (hX : FloatTable A X) {test : Option (FTest K)}
    (ht : ∀ t ∈ test.toList, FloatVar A t.var) {mu mu' r : List K} (hmu : List.Forall₂ (NearDeg (degreeError u η)) mu mu')
    (h : nodeMu min X mu test = .ok r) : ∃ r', nodeMuF A min X mu' test = .ok r' ∧ List.Forall₂ (NearDeg (degreeError u η)) r r' := by
  cases test with
  | none => simp only [nodeMu, Except.ok.injEq] at h; subst h; exact ⟨mu', rfl, hmu⟩
  | some t =>
    simp only [nodeMu, nodeMuF] at h ⊢
    cases hfs : t.var.sets[t.idx]? with
    | none => rw [hfs] at h; cases h
    | some fs =>
      rw [hfs] at h
      simp only at h ⊢
      rw [py_bind_eq_ok] at h
      obtain ⟨col, hc, h⟩ := h
      rw [py_bind_eq_ok] at h
      obtain ⟨ms, hm, h⟩ := h
      cases h
      obtain ⟨ms', g1, g2⟩ := FSet.membershipF_near hA
        (fun c hc => ht t (by simp) c (by rw [← hc]; exact List.mem_of_getElem? hfs)) (floatColumn hX hc) hm
      exact ⟨List.zipWith min mu' ms', by rw [hc, py_bind_ok, g1]; rfl, near_zipWith_min hmu g2⟩

/-- leaves with the same content and near degrees. -/
def NearLeaves (ε : K) : List (Option (Dict C K) × List K) → List (Option (Dict C K) × List K) → Prop :=
  List.Forall₂ (fun q q' => q.1 = q'.1 ∧ List.Forall₂ (NearDeg ε) q.2 q'.2)

theorem NearLeaves.append {ε : K} {a a' b b' : List (Option (Dict C K) × List K)} (h : NearLeaves ε a a') (h' : NearLeaves ε b b') :
    NearLeaves ε (a ++ b) (a' ++ b') := by
  unfold NearLeaves at *
  induction h with
  | nil => exact h'
  | cons hx _ ih => exact .cons hx ih

theorem partialPredictF_near (hA : Lawful A u η) {X : List (List (Cell K))} (hX : FloatTable A X) (t : FNode C K) :
    Branching t → (∀ p ∈ leafPaths t, ∀ test ∈ p.1, FloatVar A test.var) → ∀ (mu mu' : List K) L,
      List.Forall₂ (NearDeg (degreeError u η)) mu mu' → partialPredict min X mu t = .ok L →
      ∃ L', partialPredictF A min X mu' t = .ok L' ∧ NearLeaves (degreeError u η) L L' := by
  induction t using FNode.induction with
  | h test level m isLeaf cv children ih =>
    intro hb hf mu mu' L hmu h
    have hl : ∀ (cs : List (FNode C K)), (∀ c ∈ cs, ∀ (mu mu' : List K) L, List.Forall₂ (NearDeg (degreeError u η)) mu mu' →
        partialPredict min X mu c = .ok L → ∃ L', partialPredictF A min X mu' c = .ok L' ∧ NearLeaves (degreeError u η) L L') →
        ∀ (mu mu' : List K) L, List.Forall₂ (NearDeg (degreeError u η)) mu mu' → partialPredictList min X mu cs = .ok L →
          ∃ L', partialPredictListF A min X mu' cs = .ok L' ∧ NearLeaves (degreeError u η) L L' := by
      intro cs
      induction cs with
      | nil =>
        intro _ mu mu' L _ h
        simp only [partialPredictList, Except.ok.injEq] at h
        subst h
        exact ⟨[], by simp only [partialPredictListF], .nil⟩
      | cons c cs ihc =>
        intro hc mu mu' L hmu h
        simp only [partialPredictList, py_bind_eq_ok] at h
        obtain ⟨r, hr, rs, hrs, h⟩ := h
        cases h
        obtain ⟨r', a1, a2⟩ := hc c (by simp) mu mu' r hmu hr
        obtain ⟨rs', b1, b2⟩ := ihc (fun c' h' => hc c' (by simp [h'])) mu mu' rs hmu hrs
        exact ⟨r' ++ rs', by simp only [partialPredictListF, a1, b1, py_bind_ok]; rfl, a2.append b2⟩
    cases isLeaf with
    | true =>
      simp only [partialPredict, py_bind_eq_ok, if_true] at h
      obtain ⟨r, hr, h⟩ := h
      cases h
      obtain ⟨r', g1, g2⟩ := nodeMuF_near hA hX (fun t ht => hf (test.toList, cv) (by simp [leafPaths]) t ht) hmu hr
      exact ⟨[(cv, r')], by simp only [partialPredictF, g1, py_bind_ok, if_true]; rfl, .cons ⟨rfl, g2⟩ .nil⟩
    | false =>
      simp only [Branching, forall_const, BranchingList_iff] at hb
      obtain ⟨hne, hbc⟩ := hb
      have hchild : ∀ c ∈ children, ∀ p ∈ leafPaths c, (test.toList ++ p.1, p.2) ∈ leafPaths (.mk test level m false cv children) := by
        intro c hc p hp
        simp only [leafPaths, Bool.false_eq_true, if_false, leafPathsList_eq]
        exact List.mem_map.2 ⟨p, List.mem_flatMap.2 ⟨c, hc, hp⟩, rfl⟩
      have hft : ∀ t ∈ test.toList, FloatVar A t.var := by
        intro t ht
        obtain ⟨c, hc⟩ := List.exists_mem_of_ne_nil _ hne
        obtain ⟨p, hp⟩ := Branching.exists_leaf c (hbc c hc)
        exact hf _ (hchild c hc p hp) t (by simp [ht])
      have ih' : ∀ c ∈ children, ∀ (mu mu' : List K) L, List.Forall₂ (NearDeg (degreeError u η)) mu mu' →
          partialPredict min X mu c = .ok L → ∃ L', partialPredictF A min X mu' c = .ok L' ∧ NearLeaves (degreeError u η) L L' := by
        intro c hc
        exact ih c hc (hbc c hc) (fun p hp test' ht' => hf _ (hchild c hc p hp) test' (by simp [ht']))
      simp only [partialPredict, py_bind_eq_ok, Bool.false_eq_true, if_false] at h
      obtain ⟨r, hr, h⟩ := h
      obtain ⟨r', g1, g2⟩ := nodeMuF_near hA hX hft hmu hr
      cases children with
      | nil => exact absurd rfl hne
      | cons c cs =>
        simp only [py_bind_eq_ok] at h
        obtain ⟨x, hx, xs, hxs, h⟩ := h
        cases h
        obtain ⟨x', a1, a2⟩ := ih' c (by simp) r r' x g2 hx
        obtain ⟨xs', b1, b2⟩ := hl cs (fun c' hc' => ih' c' (by simp [hc'])) r r' xs g2 hxs
        exact ⟨x' ++ xs', by simp only [partialPredictF, g1, py_bind_ok, Bool.false_eq_true, if_false, a1, b1]; rfl, a2.append b2⟩

end close

/-! ### votes -/

section votes
variable [DecidableEq C] {A : Arith K} {u η : K}

/-- the votes after a list of entries. -/
def votesFoldF (A : Arith K) (v : Voting) (E : List (List K × C × K)) (d : Dict C (List K)) : Dict C (List K) :=
  E.foldl (fun d e => v.entryF A e.1 d e.2) d

theorem Voting.entryF_get? (v : Voting) (mu : List K) (d : Dict C (List K)) (kv : C × K) (n : Nat) (hmu : mu.length = n)
    (hd : ∀ c w, Dict.get? d c = some w → w.length = n) (c : C) :
    (∀ w, Dict.get? (v.entryF A mu d kv) c = some w → w.length = n) ∧
    ∀ j, j < n → ((Dict.get? (v.entryF A mu d kv) c).getD []).getD j 0 =
      if kv.1 = c then v.opF A (((Dict.get? d c).getD []).getD j 0) (A.fl (kv.2 * mu.getD j 0))
      else ((Dict.get? d c).getD []).getD j 0 := by
  have key : ∃ w, v.entryF A mu d kv = Dict.set d kv.1 w ∧ w.length = n ∧
      ∀ j, j < n → w.getD j 0 = v.opF A (((Dict.get? d kv.1).getD []).getD j 0) (A.fl (kv.2 * mu.getD j 0)) := by
    simp only [Voting.entryF]
    cases hg : Dict.get? d kv.1 with
    | none =>
      refine ⟨_, rfl, by simpa using hmu, ?_⟩
      intro j hj
      rw [getD_map0 _ _ _ (by simp; omega), getD_map0 (fun m => A.fl (kv.2 * m)) _ _ (by omega)]
      simp
    | some w =>
      have hw := hd _ _ hg
      refine ⟨_, rfl, by simp [hw, hmu], ?_⟩
      intro j hj
      simp only [Option.getD_some]
      rw [getD_zipWith _ _ _ _ (by omega) (by simp; omega), getD_map0 (fun m => A.fl (kv.2 * m)) _ _ (by omega)]
  obtain ⟨w, he, hl, hv⟩ := key
  rw [he, Dict.get?_set]
  by_cases hc : kv.1 = c
  · subst hc
    simp only [if_true, Option.some.injEq, Option.getD_some]
    exact ⟨fun w hw => hw ▸ hl, hv⟩
  · simp only [hc, if_false]
    exact ⟨fun w hw => hd _ _ hw, fun j _ => trivial⟩

theorem votesFoldF_spec (v : Voting) (E : List (List K × C × K)) (n : Nat) (hE : ∀ e ∈ E, e.1.length = n)
    (d : Dict C (List K)) (hd : ∀ c w, Dict.get? d c = some w → w.length = n) :
    Dict.keys (votesFoldF A v E d) = (E.map (fun e => e.2.1)).foldl insKey (Dict.keys d) ∧
    ∀ c j, j < n → ((Dict.get? (votesFoldF A v E d) c).getD []).getD j 0 =
      ((E.filter (fun e => e.2.1 = c)).map (fun e => A.fl (e.2.2 * e.1.getD j 0))).foldl (v.opF A)
        (((Dict.get? d c).getD []).getD j 0) := by
  induction E generalizing d with
  | nil => exact ⟨rfl, fun c j _ => rfl⟩
  | cons e E ih =>
    have h1 := fun c => Voting.entryF_get? (A := A) v e.1 d e.2 n (hE e (by simp)) hd c
    obtain ⟨i1, i2⟩ := ih (fun e he => hE e (by simp [he])) (v.entryF A e.1 d e.2) (fun c => (h1 c).1)
    refine ⟨?_, ?_⟩
    · show Dict.keys (votesFoldF A v E (v.entryF A e.1 d e.2)) = _
      rw [i1]
      simp only [Voting.entryF, keys_set_insKey]
      rfl
    · intro c j hj
      show ((Dict.get? (votesFoldF A v E (v.entryF A e.1 d e.2)) c).getD []).getD j 0 = _
      rw [i2 c j hj, (h1 c).2 j hj]
      by_cases hc : e.2.1 = c
      · simp [hc]
      · simp [hc]

theorem Voting.runF_some (v : Voting) (L : List (Dict C K × List K)) :
    v.runF A (L.map (fun q => (some q.1, q.2))) = .ok (votesFoldF A v (entriesOf L) []) := by
  unfold Voting.runF
  generalize ([] : Dict C (List K)) = d
  induction L generalizing d with
  | nil => rfl
  | cons q L ih =>
    rw [List.map_cons, List.foldlM_cons]
    show (_ : Py _) = _
    simp only [py_bind_ok]
    refine (ih _).trans ?_
    simp only [votesFoldF, entriesOf, List.flatMap_cons, List.foldl_append, List.foldl_map]

/-- one vote in floating point: the rounded contributions, combined with roundings. -/
def voteF (A : Arith K) (v : Voting) (L : List (Dict C K × K)) (c : C) : K :=
  (L.flatMap (fun q => (q.1.filter (fun kv => kv.1 = c)).map (fun kv => A.fl (kv.2 * q.2)))).foldl (v.opF A) 0

theorem entriesOf_atRow_F (L : List (Dict C K × List K)) (j : Nat) (c : C) :
    (atRow j L).flatMap (fun q => (q.1.filter (fun kv => kv.1 = c)).map (fun kv => A.fl (kv.2 * q.2))) =
      ((entriesOf L).filter (fun e => e.2.1 = c)).map (fun e => A.fl (e.2.2 * e.1.getD j 0)) := by
  unfold atRow entriesOf
  induction L with
  | nil => rfl
  | cons q L ih =>
    simp only [List.map_cons, List.flatMap_cons, ih, List.filter_append, List.map_append]
    congr 1
    induction q.1 with
    | nil => rfl
    | cons kv l ihl =>
      by_cases h : kv.1 = c
      · simp only [List.map_cons, List.filter_cons, h, decide_true, if_true, ihl]
      · simp only [List.map_cons, List.filter_cons, h, decide_false, Bool.false_eq_true, if_false, ihl]

/-- a class whose vote in floating point is larger than all the others is chosen. -/
theorem bestClassF (v : Voting) (L : List (Dict C K × List K)) (n : Nat) (hL : ∀ q ∈ L, q.2.length = n) (j : Nat) (hj : j < n) (c : C)
    (hc : ∃ q ∈ L, c ∈ q.1.map Prod.fst) (h : ∀ c', c' ≠ c → voteF A v (atRow j L) c' < voteF A v (atRow j L) c) :
    bestClass (votesFoldF A v (entriesOf L) []) j = .ok c := by
  have hE : ∀ e ∈ entriesOf L, e.1.length = n := by
    intro e he
    obtain ⟨q, hq, he⟩ := List.mem_flatMap.1 he
    obtain ⟨kv, -, rfl⟩ := List.mem_map.1 he
    exact hL q hq
  obtain ⟨k1, k2⟩ := votesFoldF_spec (A := A) v (entriesOf L) n hE [] (by simp [Dict.get?])
  have hvote : ∀ c, ((Dict.get? (votesFoldF A v (entriesOf L) []) c).getD []).getD j 0 = voteF A v (atRow j L) c := by
    intro c
    rw [k2 c j hj, voteF, entriesOf_atRow_F]
    rfl
  have hnd : (Dict.keys (votesFoldF A v (entriesOf L) [])).Nodup := by
    rw [k1]; exact nodup_foldl_insKey _ _ (by simp [Dict.keys])
  have hval : ∀ p ∈ votesFoldF A v (entriesOf L) [], p.2.getD j 0 = voteF A v (atRow j L) p.1 := by
    intro p hp
    rw [← hvote p.1, Dict.get?_of_mem_nodup hnd (v := p.2) hp]
    rfl
  have hck : c ∈ Dict.keys (votesFoldF A v (entriesOf L) []) := by
    rw [k1, mem_foldl_insKey, entriesOf_keys L j]
    right
    obtain ⟨q, hq, hcq⟩ := hc
    exact List.mem_flatMap.2 ⟨(q.1, q.2.getD j 0), List.mem_map_of_mem hq, hcq⟩
  obtain ⟨pc, hpc, hpc'⟩ := List.mem_map.1 hck
  obtain ⟨b, hb⟩ := pyMax_ok_of_ne_nil (fun p : C × List K => p.2.getD j 0) _ (List.ne_nil_of_mem hpc)
  obtain ⟨m1, m2, -⟩ := pyMax_eq_ok _ _ _ hb
  unfold bestClass
  rw [hb, py_bind_ok]
  by_contra hne
  have hne' : b.1 ≠ c := fun e => hne (by rw [e]; rfl)
  have h1 := m2 pc hpc
  rw [hval pc hpc, hval b m1, hpc'] at h1
  exact absurd (h b.1 hne') (not_lt.2 h1)

/-- a sum in floating point is close to the exact sum of close contributions. -/
theorem fold_near_agg (hA : Lawful A u η) {ε : K} (hε : 0 ≤ ε) (n : Nat) {xs xs' : List K}
    (h : List.Forall₂ (fun x x' => 0 ≤ x ∧ x ≤ 1 ∧ |x' - x| ≤ ε) xs xs') : ∀ (k : Nat) (a a' : K), k + xs.length ≤ n → 0 ≤ a → a ≤ k →
      |a' - a| ≤ k * (ε + (u * n + η)) * (1 + u) ^ k →
      |xs'.foldl (fun s x => A.fl (s + x)) a' - (a + xs.sum)| ≤ (k + xs.length : Nat) * (ε + (u * n + η)) * (1 + u) ^ (k + xs.length) := by
  have hu := hA.u_nonneg
  have hη := hA.η_nonneg
  induction h with
  | nil => intro k a a' _ _ _ h; simpa using h
  | @cons x x' xs xs' hx _ ih =>
    intro k a a' hk h0 hak ha
    obtain ⟨x0, x1, xe⟩ := hx
    rw [List.length_cons] at hk
    set B := ε + (u * n + η) with hB
    have hB0 : 0 ≤ B := by positivity
    set P := (1 + u) ^ k with hP
    have hP1 : 1 ≤ P := one_le_pow₀ (by linarith)
    have hnew : |A.fl (a' + x') - (a + x)| ≤ (k + 1 : Nat) * B * (1 + u) ^ (k + 1) := by
      have e1 := hA.err (a' + x')
      have e2 : |(a' + x') - (a + x)| ≤ k * B * P + ε := by
        have : (a' + x') - (a + x) = (a' - a) + (x' - x) := by ring
        rw [this]
        exact (abs_add_le _ _).trans (add_le_add ha xe)
      have e3 : |a' + x'| ≤ (k + 1) + (k * B * P + ε) := by
        have h1 : |a' + x'| ≤ |(a' + x') - (a + x)| + |a + x| := by
          have := abs_add_le ((a' + x') - (a + x)) (a + x)
          simpa using this
        rw [abs_of_nonneg (by linarith : 0 ≤ a + x)] at h1
        linarith
      have e4 : |A.fl (a' + x') - (a + x)| ≤ u * ((k + 1) + (k * B * P + ε)) + η + (k * B * P + ε) := by
        have : A.fl (a' + x') - (a + x) = (A.fl (a' + x') - (a' + x')) + ((a' + x') - (a + x)) := by ring
        rw [this]
        refine (abs_add_le _ _).trans (add_le_add (e1.trans ?_) e2)
        have := mul_le_mul_of_nonneg_left e3 hu
        linarith
      refine e4.trans ?_
      have hkn : (k : K) + 1 ≤ n := by exact_mod_cast (by omega : k + 1 ≤ n)
      have hq : 1 ≤ (1 + u) * P := by nlinarith
      have b1 : u * ((k : K) + 1) ≤ u * n := mul_le_mul_of_nonneg_left hkn hu
      have b2 : (1 + u) * ε + (u * n + η) ≤ B * ((1 + u) * P) := by
        have c1 : (u * n + η) ≤ (u * n + η) * ((1 + u) * P) := le_mul_of_one_le_right (by positivity) hq
        have c2 : (1 + u) * ε ≤ ε * ((1 + u) * P) := by
          have : (1 + u) * ε * 1 ≤ (1 + u) * ε * P := mul_le_mul_of_nonneg_left hP1 (by positivity)
          nlinarith
        rw [hB]; nlinarith
      rw [pow_succ, ← hP]
      push_cast
      nlinarith
    have := ih (k + 1) (a + x) (A.fl (a' + x')) (by omega) (by linarith) (by push_cast; linarith) hnew
    rw [List.foldl_cons, List.sum_cons, List.length_cons]
    rw [show a + (x + xs.sum) = a + x + xs.sum by ring, show k + (xs.length + 1) = k + 1 + xs.length by omega]
    exact this

theorem fold_near_max {ε : K} {xs xs' : List K} (h : List.Forall₂ (fun x x' => 0 ≤ x ∧ x ≤ 1 ∧ |x' - x| ≤ ε) xs xs') :
    ∀ a a' : K, |a' - a| ≤ ε → |xs'.foldl max a' - xs.foldl max a| ≤ ε := by
  induction h with
  | nil => intro a a' h; exact h
  | cons hx _ ih =>
    intro a a' h
    exact ih _ _ ((abs_max_sub_max_le_max _ _ _ _).trans (max_le h hx.2.2))

end votes

section votes2
variable [LinearOrder C] {A : Arith K} {u η : K}

/-- the contributions of near leaves. -/
theorem contributions_near (hA : Lawful A u η) {ε : K} {L L' : List (Dict C K × K)}
    (h : List.Forall₂ (fun q q' => q.1 = q'.1 ∧ NearDeg ε q.2 q'.2) L L')
    (hw : ∀ q ∈ L, (q.1.map Prod.fst).Nodup ∧ ∀ kv ∈ q.1, 0 ≤ kv.2 ∧ kv.2 ≤ 1) (c : C) :
    (contributions L c).length ≤ L.length ∧
    List.Forall₂ (fun x x' => 0 ≤ x ∧ x ≤ 1 ∧ |x' - x| ≤ ε + u + η) (contributions L c)
      (L'.flatMap (fun q => (q.1.filter (fun kv => kv.1 = c)).map (fun kv => A.fl (kv.2 * q.2)))) := by
  induction h with
  | nil => exact ⟨le_refl _, .nil⟩
  | @cons q q' L L' hq _ ih =>
    obtain ⟨i1, i2⟩ := ih (fun q hq => hw q (by simp [hq]))
    obtain ⟨n1, n2⟩ := hw q (by simp)
    obtain ⟨e, m1, m2, m3, m4, m5⟩ := hq
    have hc : contributions (q :: L) c = (q.1.filter (fun kv => kv.1 = c)).map (fun kv => kv.2 * q.2) ++ contributions L c := rfl
    rw [hc, List.flatMap_cons, ← e]
    rcases filter_key n1 c with f | ⟨kv, hkv, f⟩
    · rw [f]
      simp only [List.map_nil, List.nil_append, List.length_cons]
      exact ⟨by omega, i2⟩
    · rw [f]
      simp only [List.map_cons, List.map_nil, List.singleton_append, List.length_cons]
      refine ⟨by omega, .cons ?_ i2⟩
      obtain ⟨w0, w1⟩ := n2 kv hkv
      refine ⟨mul_nonneg w0 m1, mul_le_one₀ w1 m1 m2, ?_⟩
      have p0 : 0 ≤ kv.2 * q'.2 := mul_nonneg w0 m3
      have p1 : kv.2 * q'.2 ≤ 1 := mul_le_one₀ w1 m3 m4
      have e1 := hA.err (kv.2 * q'.2)
      rw [abs_of_nonneg p0] at e1
      have e2 : u * (kv.2 * q'.2) ≤ u := mul_le_of_le_one_right hA.u_nonneg p1
      have e3 := weighted_diff ⟨w0, w1⟩ m5
      have : A.fl (kv.2 * q'.2) - kv.2 * q.2 = (A.fl (kv.2 * q'.2) - kv.2 * q'.2) + (kv.2 * q'.2 - kv.2 * q.2) := by ring
      rw [this]
      refine (abs_add_le _ _).trans ?_
      linarith

/-- the votes in floating point are close to the exact votes. -/
theorem voteF_near (hA : Lawful A u η) {ε : K} (hε0 : 0 ≤ ε) {L L' : List (Dict C K × K)}
    (h : List.Forall₂ (fun q q' => q.1 = q'.1 ∧ NearDeg ε q.2 q'.2) L L')
    (hw : ∀ q ∈ L, (q.1.map Prod.fst).Nodup ∧ ∀ kv ∈ q.1, 0 ≤ kv.2 ∧ kv.2 ≤ 1) (v : Voting) (c : C) :
    |voteF A v L' c - vote v L c| ≤ voteError v u η ε L.length := by
  obtain ⟨h1, h2⟩ := contributions_near hA h hw c
  have hu := hA.u_nonneg
  have hη := hA.η_nonneg
  have hε : 0 ≤ ε + u + η := by linarith
  cases v with
  | agg =>
    have := fold_near_agg hA hε L.length h2 0 0 0 (by omega) (le_refl _) (by simp) (by simp)
    simp only [zero_add] at this
    refine le_trans this ?_
    unfold voteError
    have hl : ((contributions L c).length : K) ≤ L.length := by exact_mod_cast h1
    have hB : 0 ≤ ε + u + η + (u * L.length + η) := by positivity
    apply mul_le_mul
    · exact mul_le_mul_of_nonneg_right hl hB
    · exact pow_le_pow_right₀ (by linarith) h1
    · positivity
    · positivity
  | max =>
    rw [vote_eq_foldl]
    exact fold_near_max h2 0 0 (by simpa using hε)

end votes2

section main
variable [LinearOrder C] {A : Arith K} {u η : K}

/-- **C169**: a table of floating point numbers, and a tree whose fuzzy sets are made of floating point numbers and whose leaves have weights
in `[0,1]`. Where a class wins the exact vote by more than twice the error of the votes, the computation in floating point predicts that
class, as the exact one. -/
theorem C169_same_prediction (hA : Lawful A u η) (v : Voting) (t : FNode C K) (hb : Branching t)
    (hcv : ∀ p ∈ leafPaths t, ∀ cv, p.2 = some cv → (cv.map Prod.fst).Nodup ∧ ∀ kv ∈ cv, 0 ≤ kv.2 ∧ kv.2 ≤ 1)
    (hft : ∀ p ∈ leafPaths t, ∀ test ∈ p.1, FloatVar A test.var) (X : List (List (Cell K))) (hR : Rectangular X) (hX : FloatTable A X)
    (cs : List C) (h : List.Forall₂ (fun row c => ∃ L, RowLeaves min row t L ∧ (∃ q ∈ L, c ∈ q.1.map Prod.fst) ∧
      ∀ c', c' ≠ c → vote v L c' + 2 * votingError v u η (leafPaths t).length < vote v L c) X cs) :
    fdtPredictF A min v t X = .ok [cs] ∧ fdtPredict min v t X = .ok [cs] := by
  have hne : X ≠ [] := by
    rintro rfl
    obtain ⟨n, -, h0, -⟩ := hR
    exact h0 rfl
  have hcheck : checkArray X = .ok () := (checkArray_ok_iff X).2 hR
  have hcols : ∀ p ∈ leafPaths t, ∀ test ∈ p.1, HasCol X test := by
    intro p hp test ht
    rw [HasCol_iff]
    intro row hrow
    obtain ⟨c, -, L, hL, -⟩ := forall₂_mem_left h row hrow
    obtain ⟨q, -, -, ms, hms, -⟩ := forall₂_mem_left hL p hp
    obtain ⟨m, -, hm⟩ := forall₂_mem_left hms test ht
    exact ⟨m, hm⟩
  obtain ⟨row, hrow⟩ := List.exists_mem_of_ne_nil _ hne
  obtain ⟨c0, -, L₀, hL₀, -⟩ := forall₂_mem_left h row hrow
  obtain ⟨L, hL⟩ : ∃ L : List (Dict C K × List K),
      (leafPaths t).map (fun p => (p.2, pathCol min X (X.map (fun _ => 1)) p.1)) = L.map (fun q => (some q.1, q.2)) := by
    unfold RowLeaves at hL₀
    clear * - hL₀
    generalize leafPaths t = ps at hL₀
    induction hL₀ with
    | nil => exact ⟨[], rfl⟩
    | @cons p q _ _ h _ ih =>
      obtain ⟨L, hL⟩ := ih
      exact ⟨(q.1, pathCol min X (X.map (fun _ => 1)) p.1) :: L, by rw [List.map_cons, List.map_cons, hL, h.1]⟩
  have hexact : partialPredict min X (X.map (fun _ => 1)) t = .ok (L.map (fun q => (some q.1, q.2))) := by
    rw [(partialPredict_ok_iff min X hne t _ _).2 ⟨hb, hcols, rfl⟩, hL]
  have hones : List.Forall₂ (NearDeg (degreeError u η)) (X.map (fun _ => (1 : K))) (X.map (fun _ => 1)) := by
    rw [List.forall₂_same]
    intro x hx
    obtain ⟨_, -, rfl⟩ := List.mem_map.1 hx
    simp [NearDeg, degreeError_nonneg hA]
  obtain ⟨L', hL', hnear⟩ := partialPredictF_near hA hX t hb hft _ _ _ hones hexact
  obtain ⟨M, rfl, hM⟩ : ∃ M : List (Dict C K × List K), L' = M.map (fun q => (some q.1, q.2)) ∧
      List.Forall₂ (fun q q' => q.1 = q'.1 ∧ List.Forall₂ (NearDeg (degreeError u η)) q.2 q'.2) L M := by
    clear * - hnear
    unfold NearLeaves at hnear
    generalize hL : L.map (fun q => (some q.1, q.2)) = Z at hnear
    induction hnear generalizing L with
    | nil =>
      cases L with
      | nil => exact ⟨[], rfl, .nil⟩
      | cons => simp at hL
    | @cons z z' Z Z' hz _ ih =>
      cases L with
      | nil => simp at hL
      | cons q L =>
        simp only [List.map_cons, List.cons.injEq] at hL
        obtain ⟨hq, hL⟩ := hL
        obtain ⟨M, rfl, hM⟩ := ih L hL
        obtain ⟨zc, zv⟩ := z'
        rw [← hq] at hz
        obtain ⟨hz1, hz2⟩ := hz
        simp only at hz1 hz2
        exact ⟨(q.1, zv) :: M, by rw [List.map_cons, hz1], .cons ⟨rfl, hz2⟩ hM⟩
  have hlen : ∀ q ∈ L, q.2.length = X.length := by
    intro q hq
    have : (some q.1, q.2) ∈ L.map (fun q => (some q.1, q.2)) := List.mem_map_of_mem (f := fun q => (some q.1, q.2)) hq
    rw [← hL] at this
    obtain ⟨p, hp, he⟩ := List.mem_map.1 this
    simp only [Prod.mk.injEq] at he
    rw [← he.2]
    exact pathCol_length min X _ (by simp) p.1 (hcols p hp)
  have hlenM : ∀ q ∈ M, q.2.length = X.length := by
    intro q hq
    obtain ⟨q0, hq0, -, h2⟩ := forall₂_mem_right hM q hq
    rw [← h2.length_eq, hlen q0 hq0]
  have hLlen : L.length = (leafPaths t).length := by simpa using (congrArg List.length hL).symm
  have hwL : ∀ j, ∀ q ∈ atRow j L, (q.1.map Prod.fst).Nodup ∧ ∀ kv ∈ q.1, 0 ≤ kv.2 ∧ kv.2 ≤ 1 := by
    intro j q hq
    obtain ⟨q0, hq0, rfl⟩ := List.mem_map.1 hq
    have : (some q0.1, q0.2) ∈ L.map (fun q => (some q.1, q.2)) := List.mem_map_of_mem (f := fun q => (some q.1, q.2)) hq0
    rw [← hL] at this
    obtain ⟨p, hp, he⟩ := List.mem_map.1 this
    simp only [Prod.mk.injEq] at he
    exact hcv p hp q0.1 he.1
  have hnearRow : ∀ j, j < X.length → List.Forall₂ (fun q q' => q.1 = q'.1 ∧ NearDeg (degreeError u η) q.2 q'.2) (atRow j L) (atRow j M) := by
    intro j hj
    unfold atRow
    rw [List.forall₂_map_left_iff, List.forall₂_map_right_iff]
    have hmem : ∀ q ∈ L, j < q.2.length := fun q hq => by rw [hlen q hq]; exact hj
    clear * - hM hmem
    induction hM with
    | nil => exact .nil
    | @cons q q' L M hq _ ih =>
      refine .cons ⟨hq.1, ?_⟩ (ih (fun q hq => hmem q (by simp [hq])))
      have h1 := hmem q (by simp)
      have h2 := hq.2
      have h3 := h2.length_eq
      have := (List.forall₂_iff_get.1 h2).2 j h1 (by omega)
      simpa [List.getD_eq_getElem?_getD, h1, h3 ▸ h1] using this
  have hrow : ∀ (j : Nat) (r : List (Cell K)) (c : C), X[j]? = some r → cs[j]? = some c →
      (∃ q ∈ L, c ∈ q.1.map Prod.fst) ∧ ∀ c', c' ≠ c → vote v (atRow j L) c' + 2 * votingError v u η L.length < vote v (atRow j L) c := by
    intro j r c hj hc
    have hrl := rowLeaves_of_cols min X t hcols L hL j r hj
    obtain ⟨h1, h2⟩ := List.forall₂_iff_get.1 h
    obtain ⟨a1, a2⟩ := List.getElem?_eq_some_iff.1 hj
    obtain ⟨b1, b2⟩ := List.getElem?_eq_some_iff.1 hc
    have := h2 j a1 b1
    simp only [List.get_eq_getElem, a2, b2] at this
    obtain ⟨L1, g1, ⟨q, hq, g2⟩, g3⟩ := this
    rw [← hrl.unique g1] at g3 hq
    obtain ⟨q0, hq0, rfl⟩ := List.mem_map.1 hq
    exact ⟨⟨q0, hq0, g2⟩, by rw [hLlen]; exact g3⟩
  have hcsl : X.length = cs.length := h.length_eq
  have hbest : (List.range X.length).mapM (bestClass (votesFoldF A v (entriesOf M) [])) = .ok cs := by
    rw [mapM_ok_iff, List.forall₂_iff_get]
    refine ⟨by simpa using hcsl, ?_⟩
    intro j h1 h2
    simp only [List.get_eq_getElem, List.getElem_range]
    have hj : j < X.length := by simpa using h1
    obtain ⟨⟨q, hq, hcq⟩, hm⟩ := hrow j X[j] cs[j] (by simp [hj]) (by simp [h2])
    apply bestClassF v M X.length hlenM j hj
    · obtain ⟨q', hq', e, -⟩ := forall₂_mem_left hM q hq
      exact ⟨q', hq', by rw [← e]; exact hcq⟩
    · intro c' hne'
      have k0 := hm c' hne'
      have k1 := abs_le.1 (voteF_near hA (degreeError_nonneg hA) (hnearRow j hj) (hwL j) v c')
      have k2 := abs_le.1 (voteF_near hA (degreeError_nonneg hA) (hnearRow j hj) (hwL j) v cs[j])
      have hl : (atRow j L).length = L.length := by simp [atRow]
      rw [hl] at k1 k2
      unfold votingError at k0
      linarith [k1.1, k1.2, k2.1, k2.2]
  constructor
  · unfold fdtPredictF FNode.predictF
    rw [hcheck]
    simp only [py_bind_ok]
    rw [hL', py_bind_ok, Voting.runF_some, py_bind_ok, if_neg, hbest]
    · rfl
    · intro he
      rw [he] at hbest
      rw [mapM_ok_iff] at hbest
      cases X with
      | nil => exact hne rfl
      | cons x X =>
        rw [List.length_cons, List.range_succ_eq_map] at hbest
        cases hbest with
        | cons h0 _ => cases h0
  · rw [fdtPredict_ok_iff]
    refine ⟨hR, cs, rfl, (predict_ok_iff min v t X hne cs).2 ⟨hb, ?_⟩⟩
    refine h.imp ?_
    rintro row c ⟨L1, g1, g2, g3⟩
    refine ⟨L1, g1, ?_⟩
    have hwin : ∀ c', c' ≠ c → vote v L1 c' < vote v L1 c := by
      intro c' hc'
      have := g3 c' hc'
      have h0 : 0 ≤ votingError v u η (leafPaths t).length := by
        have := degreeError_nonneg hA
        have := hA.u_nonneg
        have := hA.η_nonneg
        unfold votingError; cases v <;> simp only [voteError] <;> positivity
      linarith
    obtain ⟨q, hq, hcq⟩ := g2
    have hmem : c ∈ L1.flatMap (fun q => q.1.map Prod.fst) := List.mem_flatMap.2 ⟨q, hq, hcq⟩
    obtain ⟨pre, post, he, hnot⟩ := List.eq_append_cons_of_mem hmem
    refine ⟨pre, post, he, fun c' hc' => hwin c' (fun e => hnot (e ▸ hc')), fun c' hc' => ?_⟩
    by_cases e : c' = c
    · rw [e]
    · exact (hwin c' e).le

end main

set_option synthInstance.maxSize 1000 in
set_option synthInstance.maxHeartbeats 200000 in
/-- the fitted example in an arithmetic with two decimals: the degrees of `267/100` are rounded to `17/100` and `84/100`, class 1 wins the
exact vote by 1, and the error of the votes is at most `6/100`. -/
example : ∃ t, exFit = .ok t ∧ fdtPredictF (gridArith 100) min .agg t [[.num (267 / 100), .str "f"]] = .ok [[1]] ∧
    partialPredictF (gridArith 100) min [[.num (267 / 100), .str "f"]] [1] t =
      .ok [(some [(0, 1), (1, 0)], [0]), (some [(0, 1), (1, 0)], [0]), (some [(0, 0), (1, 1)], [17 / 100]), (some [(0, 0), (1, 1)], [84 / 100])] := by
  have h2 : exFit.toOption.map leafPaths = some
      [([⟨exParams.vars[0], 0, 0⟩], some [(0, 1), (1, 0)]), ([⟨exParams.vars[0], 0, 1⟩, ⟨exParams.vars[1], 1, 0⟩], some [(0, 1), (1, 0)]),
        ([⟨exParams.vars[0], 0, 1⟩, ⟨exParams.vars[1], 1, 1⟩], some [(0, 0), (1, 1)]),
        ([⟨exParams.vars[0], 0, 2⟩], some [(0, 0), (1, 1)])] := by decide +kernel
  have h3 : exFit.toOption.bind (fun t => (partialPredictF (gridArith 100) min [[.num (267 / 100), .str "f"]] [1] t).toOption) =
      some [(some [(0, 1), (1, 0)], [0]), (some [(0, 1), (1, 0)], [0]), (some [(0, 0), (1, 1)], [17 / 100]),
        (some [(0, 0), (1, 1)], [84 / 100])] := by decide +kernel
  have hf : ∀ v ∈ exParams.vars, FloatVar (gridArith 100) v := by
    intro v hv s hs
    simp only [exParams, List.mem_cons, List.not_mem_nil, or_false] at hv
    unfold FloatSet IsFloat
    rcases hv with rfl | rfl
    · simp only [List.mem_cons, List.not_mem_nil, or_false, FSet.cont.injEq] at hs
      rcases hs with rfl | rfl | rfl <;> decide +kernel
    · simp at hs
  cases e : exFit with
  | error _ => rw [e] at h2; cases h2
  | ok t =>
    rw [e] at h2 h3
    simp only [Except.toOption, Option.map_some, Option.some.injEq, Option.bind_some] at h2 h3
    have h4 : partialPredictF (gridArith 100) min [[.num (267 / 100), .str "f"]] [1] t =
      .ok [(some [(0, 1), (1, 0)], [0]), (some [(0, 1), (1, 0)], [0]), (some [(0, 0), (1, 1)], [17 / 100]), (some [(0, 0), (1, 1)], [84 / 100])] := by
      cases h5 : partialPredictF (gridArith 100) min [[.num (267 / 100), .str "f"]] [1] t with
      | error _ => rw [h5] at h3; cases h3
      | ok r => rw [h5] at h3; exact congrArg Except.ok (Option.some.inj h3)
    refine ⟨t, rfl, ?_, h4⟩
    have hb : Branching t := fitted_branching (p := exParams) (by unfold ProperSets; decide) e
    refine (C169_same_prediction (gridArith_lawful 100 (by norm_num)) .agg t hb ?_ ?_ _ ?_ ?_ [1] (.cons ?_ .nil)).1
    · rw [h2]
      intro p hp cv hcv
      simp only [List.mem_cons, List.not_mem_nil, or_false] at hp
      rcases hp with rfl | rfl | rfl | rfl <;> (simp only [Option.some.injEq] at hcv; subst hcv; decide +kernel)
    · rw [h2]
      intro p hp test ht
      apply hf
      simp only [List.mem_cons, List.not_mem_nil, or_false] at hp
      rcases hp with rfl | rfl | rfl | rfl <;>
        (simp only [List.mem_cons, List.not_mem_nil, or_false] at ht; rcases ht with rfl | rfl <;> simp)
    · exact ⟨2, by decide, by decide, by decide⟩
    · intro row hrow x hx
      simp only [List.mem_cons, List.not_mem_nil, or_false] at hrow
      subst hrow
      simp only [List.mem_cons, List.not_mem_nil, or_false, Cell.num.injEq, reduceCtorEq] at hx
      subst hx
      unfold IsFloat
      decide +kernel
    · have hL2 : RowLeaves min [.num (267 / 100), .str "f"] t
          [([(0, 1), (1, 0)], 0), ([(0, 1), (1, 0)], 0), ([(0, 0), (1, 1)], 33 / 200), ([(0, 0), (1, 1)], 167 / 200)] := by
        unfold RowLeaves
        rw [h2]
        have d0 : TestDegree (K := ℚ) [.num (267 / 100), .str "f"] ⟨exParams.vars[0], 0, 0⟩ 0 := ⟨_, _, rfl, rfl, by decide +kernel⟩
        have d1 : TestDegree (K := ℚ) [.num (267 / 100), .str "f"] ⟨exParams.vars[0], 0, 1⟩ (33 / 200) := ⟨_, _, rfl, rfl, by decide +kernel⟩
        have d2 : TestDegree (K := ℚ) [.num (267 / 100), .str "f"] ⟨exParams.vars[0], 0, 2⟩ (167 / 200) := ⟨_, _, rfl, rfl, by decide +kernel⟩
        have s0 : TestDegree (K := ℚ) [.num (267 / 100), .str "f"] ⟨exParams.vars[1], 1, 0⟩ 0 := ⟨_, _, rfl, rfl, by decide +kernel⟩
        have s1 : TestDegree (K := ℚ) [.num (267 / 100), .str "f"] ⟨exParams.vars[1], 1, 1⟩ 1 := ⟨_, _, rfl, rfl, by decide +kernel⟩
        exact .cons ⟨rfl, _, .cons d0 .nil, by decide +kernel⟩ (.cons ⟨rfl, _, .cons d1 (.cons s0 .nil), by decide +kernel⟩
          (.cons ⟨rfl, _, .cons d1 (.cons s1 .nil), by decide +kernel⟩ (.cons ⟨rfl, _, .cons d2 .nil, by decide +kernel⟩ .nil)))
      refine ⟨_, hL2, by decide +kernel, ?_⟩
      intro c' hc'
      rw [h2]
      by_cases e0 : c' = 0
      · subst e0; decide +kernel
      · have : vote .agg [([(0, 1), (1, 0)], (0 : ℚ)), ([(0, 1), (1, 0)], 0), ([(0, 0), (1, 1)], 33 / 200), ([(0, 0), (1, 1)], 167 / 200)] c' = 0 := by
          simp [vote, contributions, Ne.symm e0, Ne.symm hc']
        rw [this]
        decide +kernel

end Teacher
