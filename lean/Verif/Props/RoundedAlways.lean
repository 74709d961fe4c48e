import Verif.Props.RoundedFlowB

/-! # C208: `predict` in floating point always answers, with a class whose exact vote is near the best -/

set_option linter.unusedSectionVars false

namespace Teacher
open Spec

variable {C K : Type} [LinearOrder C] [Field K] [LinearOrder K] [IsStrictOrderedRing K] {A : Arith K} {u η : K}

theorem bestClassF_any (v : Voting) (L : List (Dict C K × List K)) (n : Nat) (hL : ∀ q ∈ L, q.2.length = n) (j : Nat) (hj : j < n)
    (hc : ∃ q ∈ L, q.1 ≠ []) :
    ∃ c, bestClass (votesFoldF A v (entriesOf L) []) j = .ok c ∧ (∃ q ∈ L, c ∈ q.1.map Prod.fst) ∧
      ∀ c', (∃ q ∈ L, c' ∈ q.1.map Prod.fst) → voteF A v (atRow j L) c' ≤ voteF A v (atRow j L) c := by
  have hE : ∀ e ∈ entriesOf L, e.1.length = n := by
    intro e he
    obtain ⟨q, hq, he⟩ := List.mem_flatMap.1 he
    obtain ⟨kv, -, rfl⟩ := List.mem_map.1 he
    exact hL q hq
  obtain ⟨k1, k2⟩ := votesFoldF_spec (A := A) v (entriesOf L) n hE [] (by simp [Dict.get?])
  have hvote : ∀ c, ((Dict.get? (votesFoldF A v (entriesOf L) []) c).getD []).getD j 0 = voteF A v (atRow j L) c := by
    intro c
    rw [k2 c j hj, voteF, entriesOf_atRow_F]
    rfl
  have hnd : (Dict.keys (votesFoldF A v (entriesOf L) [])).Nodup := by
    rw [k1]; exact nodup_foldl_insKey _ _ (by simp [Dict.keys])
  have hval : ∀ p ∈ votesFoldF A v (entriesOf L) [], p.2.getD j 0 = voteF A v (atRow j L) p.1 := by
    intro p hp
    rw [← hvote p.1, Dict.get?_of_mem_nodup hnd (v := p.2) hp]
    rfl
  have hck : ∀ c, c ∈ Dict.keys (votesFoldF A v (entriesOf L) []) ↔ ∃ q ∈ L, c ∈ q.1.map Prod.fst := by
    intro c
    rw [k1, mem_foldl_insKey, entriesOf_keys L j]
    constructor
    · rintro (h | h)
      · simp [Dict.keys] at h
      · obtain ⟨q, hq, hcq⟩ := List.mem_flatMap.1 h
        obtain ⟨q0, hq0, rfl⟩ := List.mem_map.1 hq
        exact ⟨q0, hq0, hcq⟩
    · rintro ⟨q, hq, hcq⟩
      exact Or.inr (List.mem_flatMap.2 ⟨(q.1, q.2.getD j 0), List.mem_map_of_mem hq, hcq⟩)
  have hne : votesFoldF A v (entriesOf L) [] ≠ [] := by
    intro he
    obtain ⟨q, hq, hq'⟩ := hc
    obtain ⟨kv, hkv⟩ := List.exists_mem_of_ne_nil _ hq'
    have := (hck kv.1).2 ⟨q, hq, List.mem_map_of_mem hkv⟩
    rw [he] at this
    simp [Dict.keys] at this
  obtain ⟨b, hb⟩ := pyMax_ok_of_ne_nil (fun p : C × List K => p.2.getD j 0) _ hne
  obtain ⟨m1, m2, -⟩ := pyMax_eq_ok _ _ _ hb
  refine ⟨b.1, ?_, (hck b.1).1 (List.mem_map_of_mem m1), ?_⟩
  · unfold bestClass
    rw [hb]
    rfl
  · intro c' hc'
    obtain ⟨pc, hpc, rfl⟩ := List.mem_map.1 ((hck c').2 hc')
    have := m2 pc hpc
    rwa [hval pc hpc, hval b m1] at this

/-- near leaves: the winner of the rounded votes has an exact vote near the best one. -/
theorem nearLeaves_any (hA : Lawful A u η) {ε : K} (hε : 0 ≤ ε) (v : Voting) (n : Nat) {L M : List (Dict C K × List K)}
    (hM : List.Forall₂ (fun q q' => q.1 = q'.1 ∧ List.Forall₂ (NearDeg ε) q.2 q'.2) L M) (hlen : ∀ q ∈ L, q.2.length = n)
    (hw : ∀ q ∈ L, (q.1.map Prod.fst).Nodup ∧ ∀ kv ∈ q.1, 0 ≤ kv.2 ∧ kv.2 ≤ 1) (hex : ∃ q ∈ L, q.1 ≠ []) :
    ∃ cs, (List.range n).mapM (bestClass (votesFoldF A v (entriesOf M) [])) = .ok cs ∧ cs.length = n ∧
      ∀ j c, cs[j]? = some c → (∃ q ∈ L, c ∈ q.1.map Prod.fst) ∧
        ∀ c', (∃ q ∈ L, c' ∈ q.1.map Prod.fst) → vote v (atRow j L) c' ≤ vote v (atRow j L) c + 2 * voteError v u η ε L.length := by
  have hlenM : ∀ q ∈ M, q.2.length = n := by
    intro q hq
    obtain ⟨q0, hq0, -, h2⟩ := forall₂_mem_right hM q hq
    rw [← h2.length_eq, hlen q0 hq0]
  have hwL : ∀ j, ∀ q ∈ atRow j L, (q.1.map Prod.fst).Nodup ∧ ∀ kv ∈ q.1, 0 ≤ kv.2 ∧ kv.2 ≤ 1 := by
    intro j q hq
    obtain ⟨q0, hq0, rfl⟩ := List.mem_map.1 hq
    exact hw q0 hq0
  have hnearRow : ∀ j, j < n → List.Forall₂ (fun q q' => q.1 = q'.1 ∧ NearDeg ε q.2 q'.2) (atRow j L) (atRow j M) := by
    intro j hj
    unfold atRow
    rw [List.forall₂_map_left_iff, List.forall₂_map_right_iff]
    have hmem : ∀ q ∈ L, j < q.2.length := fun q hq => by rw [hlen q hq]; exact hj
    clear * - hM hmem
    induction hM with
    | nil => exact .nil
    | @cons q q' L M hq _ ih =>
      refine .cons ⟨hq.1, ?_⟩ (ih (fun q hq => hmem q (by simp [hq])))
      have h1 := hmem q (by simp)
      have h2 := hq.2
      have h3 := h2.length_eq
      have := (List.forall₂_iff_get.1 h2).2 j h1 (by omega)
      simpa [List.getD_eq_getElem?_getD, h1, h3 ▸ h1] using this
  have hexM : ∃ q ∈ M, q.1 ≠ [] := by
    obtain ⟨q, hq, hq'⟩ := hex
    obtain ⟨q', hm, e, -⟩ := forall₂_mem_left hM q hq
    exact ⟨q', hm, by rw [← e]; exact hq'⟩
  have hkeys : ∀ c, (∃ q ∈ L, c ∈ q.1.map Prod.fst) ↔ ∃ q ∈ M, c ∈ q.1.map Prod.fst := by
    intro c
    constructor
    · rintro ⟨q, hq, h⟩
      obtain ⟨q', hm, e, -⟩ := forall₂_mem_left hM q hq
      exact ⟨q', hm, by rw [← e]; exact h⟩
    · rintro ⟨q, hq, h⟩
      obtain ⟨q', hm, e, -⟩ := forall₂_mem_right hM q hq
      exact ⟨q', hm, by rw [e]; exact h⟩
  obtain ⟨cs, hcs⟩ := forall₂_of_forall_exists (l := List.range n) (R := fun j c =>
      bestClass (votesFoldF A v (entriesOf M) []) j = .ok c ∧ (∃ q ∈ L, c ∈ q.1.map Prod.fst) ∧
        ∀ c', (∃ q ∈ L, c' ∈ q.1.map Prod.fst) → vote v (atRow j L) c' ≤ vote v (atRow j L) c + 2 * voteError v u η ε L.length) (by
    intro j hj
    have hj := List.mem_range.1 hj
    obtain ⟨c, h1, h2, h3⟩ := bestClassF_any (A := A) v M n hlenM j hj hexM
    refine ⟨c, h1, (hkeys c).2 h2, ?_⟩
    intro c' hc'
    have k0 := h3 c' ((hkeys c').1 hc')
    have k1 := abs_le.1 (voteF_near hA hε (hnearRow j hj) (hwL j) v c')
    have k2 := abs_le.1 (voteF_near hA hε (hnearRow j hj) (hwL j) v c)
    have hl : (atRow j L).length = L.length := by simp [atRow]
    rw [hl] at k1 k2
    linarith [k1.1, k1.2, k2.1, k2.2])
  refine ⟨cs, (mapM_ok_iff _ _ _).2 (hcs.imp fun _ _ h => h.1), by rw [← hcs.length_eq, List.length_range], ?_⟩
  intro j c hc
  obtain ⟨h2, rfl⟩ := List.getElem?_eq_some_iff.1 hc
  have h1 : j < (List.range n).length := by rw [hcs.length_eq]; exact h2
  have := (List.forall₂_iff_get.1 hcs).2 j h1 h2
  simp only [List.get_eq_getElem, List.getElem_range] at this
  exact this.2

/-- a tree with usable leaves predicts in floating point. -/
theorem fdtPredictF_any (hA : Lawful A u η) (v : Voting) (t : FNode C K) (hb : Branching t)
    (hcv : ∀ p ∈ leafPaths t, ∀ cv, p.2 = some cv → cv ≠ [] ∧ (cv.map Prod.fst).Nodup ∧ ∀ kv ∈ cv, 0 ≤ kv.2 ∧ kv.2 ≤ 1)
    (hft : ∀ p ∈ leafPaths t, ∀ test ∈ p.1, FloatVar A test.var) (X : List (List (Cell K))) (hR : Rectangular X)
    (hX : FloatTable A X) (h : ∀ row ∈ X, ∃ L, RowLeaves min row t L) :
    ∃ cs, fdtPredictF A min v t X = .ok [cs] ∧ List.Forall₂ (fun row c => ∃ L, RowLeaves min row t L ∧ (∃ q ∈ L, c ∈ q.1.map Prod.fst) ∧
      ∀ c', (∃ q ∈ L, c' ∈ q.1.map Prod.fst) →
        vote v L c' ≤ vote v L c + 2 * voteError v u η (degreeError u η) (leafPaths t).length) X cs := by
  have hE := degreeError_nonneg hA
  have hne : X ≠ [] := by
    rintro rfl
    obtain ⟨n, -, h0, -⟩ := hR
    exact h0 rfl
  have hcheck : checkArray X = .ok () := (checkArray_ok_iff X).2 hR
  have hcols : ∀ p ∈ leafPaths t, ∀ test ∈ p.1, HasCol X test := by
    intro p hp test ht
    rw [HasCol_iff]
    intro row hrow
    obtain ⟨L, hL⟩ := h row hrow
    obtain ⟨q, -, -, ms, hms, -⟩ := forall₂_mem_left hL p hp
    obtain ⟨m, -, hm⟩ := forall₂_mem_left hms test ht
    exact ⟨m, hm⟩
  obtain ⟨row, hrow⟩ := List.exists_mem_of_ne_nil _ hne
  obtain ⟨L₀, hL₀⟩ := h row hrow
  obtain ⟨L, hL⟩ : ∃ L : List (Dict C K × List K),
      (leafPaths t).map (fun p => (p.2, pathCol min X (X.map (fun _ => 1)) p.1)) = L.map (fun q => (some q.1, q.2)) := by
    unfold RowLeaves at hL₀
    clear * - hL₀
    generalize leafPaths t = ps at hL₀
    induction hL₀ with
    | nil => exact ⟨[], rfl⟩
    | @cons p q _ _ h _ ih =>
      obtain ⟨L, hL⟩ := ih
      exact ⟨(q.1, pathCol min X (X.map (fun _ => 1)) p.1) :: L, by rw [List.map_cons, List.map_cons, hL, h.1]⟩
  have hexact : partialPredict min X (X.map (fun _ => 1)) t = .ok (L.map (fun q => (some q.1, q.2))) := by
    rw [(partialPredict_ok_iff min X hne t _ _).2 ⟨hb, hcols, rfl⟩, hL]
  have hones : List.Forall₂ (NearDeg (degreeError u η)) (X.map (fun _ => (1 : K))) (X.map (fun _ => 1)) := by
    rw [List.forall₂_same]
    intro x hx
    obtain ⟨_, -, rfl⟩ := List.mem_map.1 hx
    simp [NearDeg, hE]
  obtain ⟨L', hL', hnear⟩ := partialPredictF_near hA hX t hb hft _ _ _ hones hexact
  obtain ⟨M, rfl, hM⟩ : ∃ M : List (Dict C K × List K), L' = M.map (fun q => (some q.1, q.2)) ∧
      List.Forall₂ (fun q q' => q.1 = q'.1 ∧ List.Forall₂ (NearDeg (degreeError u η)) q.2 q'.2) L M := by
    clear * - hnear
    unfold NearLeaves at hnear
    generalize hL : L.map (fun q => (some q.1, q.2)) = Z at hnear
    induction hnear generalizing L with
    | nil =>
      cases L with
      | nil => exact ⟨[], rfl, .nil⟩
      | cons => simp at hL
    | @cons z z' Z Z' hz _ ih =>
      cases L with
      | nil => simp at hL
      | cons q L =>
        simp only [List.map_cons, List.cons.injEq] at hL
        obtain ⟨hq, hL⟩ := hL
        obtain ⟨M, rfl, hM⟩ := ih L hL
        obtain ⟨zc, zv⟩ := z'
        rw [← hq] at hz
        obtain ⟨hz1, hz2⟩ := hz
        simp only at hz1 hz2
        exact ⟨(q.1, zv) :: M, by rw [List.map_cons, hz1], .cons ⟨rfl, hz2⟩ hM⟩
  have hfrom : ∀ q ∈ L, ∃ p ∈ leafPaths t, p.2 = some q.1 ∧ pathCol min X (X.map (fun _ => 1)) p.1 = q.2 := by
    intro q hq
    have : (some q.1, q.2) ∈ L.map (fun q => (some q.1, q.2)) := List.mem_map_of_mem (f := fun q => (some q.1, q.2)) hq
    rw [← hL] at this
    obtain ⟨p, hp, he⟩ := List.mem_map.1 this
    simp only [Prod.mk.injEq] at he
    exact ⟨p, hp, he⟩
  have hlen : ∀ q ∈ L, q.2.length = X.length := by
    intro q hq
    obtain ⟨p, hp, -, he⟩ := hfrom q hq
    rw [← he]
    exact pathCol_length min X _ (by simp) p.1 (hcols p hp)
  have hLlen : L.length = (leafPaths t).length := by simpa using (congrArg List.length hL).symm
  obtain ⟨q0, hq0⟩ := Branching.exists_leaf t hb
  have hexL : ∃ q ∈ L, q.1 ≠ [] := by
    have : L ≠ [] := by
      rintro rfl
      rw [List.length_nil] at hLlen
      exact List.ne_nil_of_mem hq0 (List.length_eq_zero_iff.1 hLlen.symm)
    obtain ⟨q, hq⟩ := List.exists_mem_of_ne_nil _ this
    obtain ⟨p, hp, he, -⟩ := hfrom q hq
    exact ⟨q, hq, (hcv p hp q.1 he).1⟩
  obtain ⟨cs, hbest, hcl, hcs⟩ := nearLeaves_any hA hE v X.length hM hlen (fun q hq => by
    obtain ⟨p, hp, he, -⟩ := hfrom q hq
    exact (hcv p hp q.1 he).2) hexL
  refine ⟨cs, ?_, ?_⟩
  · unfold fdtPredictF FNode.predictF
    rw [hcheck]
    simp only [py_bind_ok]
    rw [hL', py_bind_ok, Voting.runF_some, py_bind_ok, if_neg, hbest]
    · rfl
    · intro he
      rw [he] at hbest
      rw [mapM_ok_iff] at hbest
      cases X with
      | nil => exact hne rfl
      | cons x X =>
        rw [List.length_cons, List.range_succ_eq_map] at hbest
        cases hbest with
        | cons h0 _ => cases h0
  · rw [List.forall₂_iff_get]
    refine ⟨hcl.symm, ?_⟩
    intro j h1 h2
    simp only [List.get_eq_getElem]
    obtain ⟨g1, g2⟩ := hcs j cs[j] (by simp [h2])
    have hrl := rowLeaves_of_cols min X t hcols L hL j X[j] (by simp [h1])
    have hk : ∀ c, (∃ q ∈ atRow j L, c ∈ q.1.map Prod.fst) ↔ ∃ q ∈ L, c ∈ q.1.map Prod.fst := by
      intro c
      constructor
      · rintro ⟨q, hq, hc⟩
        obtain ⟨q0, hq0, rfl⟩ := List.mem_map.1 hq
        exact ⟨q0, hq0, hc⟩
      · rintro ⟨q, hq, hc⟩
        exact ⟨(q.1, q.2.getD j 0), List.mem_map_of_mem (f := fun q : Dict C K × List K => (q.1, q.2.getD j 0)) hq, hc⟩
    refine ⟨atRow j L, hrl, (hk _).2 g1, ?_⟩
    intro c' hc'
    rw [← hLlen]
    exact g2 c' ((hk c').1 hc')

/-- a binary tree with usable leaves predicts in floating point. -/
theorem fbdtPredictF_any (hA : Lawful A u η) (v : Voting) (t : BNode C K) (hb : BBranching t)
    (hcv : ∀ p ∈ bLeafPaths t, ∀ cv, p.2 = some cv → cv ≠ [] ∧ (cv.map Prod.fst).Nodup ∧ ∀ kv ∈ cv, 0 ≤ kv.2 ∧ kv.2 ≤ 1) (N : Nat)
    (hft : ∀ p ∈ bLeafPaths t, ∀ test ∈ p.1, FloatVar A test.var ∧ test.idxs.length ≤ N) (X : List (List (Cell K))) (hR : Rectangular X)
    (hX : FloatTable A X) (h : ∀ row ∈ X, ∃ L, BRowLeaves min row t L) :
    ∃ cs, fbdtPredictF A min v t X = .ok [cs] ∧ List.Forall₂ (fun row c => ∃ L, BRowLeaves min row t L ∧ (∃ q ∈ L, c ∈ q.1.map Prod.fst) ∧
      ∀ c', (∃ q ∈ L, c' ∈ q.1.map Prod.fst) →
        vote v L c' ≤ vote v L c + 2 * voteError v u η (unionError u η N) (bLeafPaths t).length) X cs := by
  have hE := unionError_nonneg hA N
  have hne : X ≠ [] := by
    rintro rfl
    obtain ⟨n, -, h0, -⟩ := hR
    exact h0 rfl
  have hcheck : checkArray X = .ok () := (checkArray_ok_iff X).2 hR
  have hcols : ∀ p ∈ bLeafPaths t, ∀ test ∈ p.1, FB.HasCol X test := by
    intro p hp test ht
    rw [FB.HasCol_iff]
    intro row hrow
    obtain ⟨L, hL⟩ := h row hrow
    obtain ⟨q, -, -, ms, hms, -⟩ := forall₂_mem_left hL p hp
    obtain ⟨m, -, hm⟩ := forall₂_mem_left hms test ht
    exact ⟨m, hm⟩
  obtain ⟨row, hrow⟩ := List.exists_mem_of_ne_nil _ hne
  obtain ⟨L₀, hL₀⟩ := h row hrow
  obtain ⟨L, hL⟩ : ∃ L : List (Dict C K × List K),
      (bLeafPaths t).map (fun p => (p.2, FB.pathCol min X (X.map (fun _ => 1)) p.1)) = L.map (fun q => (some q.1, q.2)) := by
    unfold BRowLeaves at hL₀
    clear * - hL₀
    generalize bLeafPaths t = ps at hL₀
    induction hL₀ with
    | nil => exact ⟨[], rfl⟩
    | @cons p q _ _ h _ ih =>
      obtain ⟨L, hL⟩ := ih
      exact ⟨(q.1, FB.pathCol min X (X.map (fun _ => 1)) p.1) :: L, by rw [List.map_cons, List.map_cons, hL, h.1]⟩
  have hexact : bPartialPredict min X (X.map (fun _ => 1)) t = .ok (L.map (fun q => (some q.1, q.2))) := by
    rw [(FB.bPartialPredict_ok_iff min X hne t _ _).2 ⟨hb, hcols, rfl⟩, hL]
  have hones : List.Forall₂ (NearDeg (unionError u η N)) (X.map (fun _ => (1 : K))) (X.map (fun _ => 1)) := by
    rw [List.forall₂_same]
    intro x hx
    obtain ⟨_, -, rfl⟩ := List.mem_map.1 hx
    simp [NearDeg, hE]
  obtain ⟨L', hL', hnear⟩ := bPartialPredictF_near hA hX t hb hft _ _ _ hones hexact
  obtain ⟨M, rfl, hM⟩ : ∃ M : List (Dict C K × List K), L' = M.map (fun q => (some q.1, q.2)) ∧
      List.Forall₂ (fun q q' => q.1 = q'.1 ∧ List.Forall₂ (NearDeg (unionError u η N)) q.2 q'.2) L M := by
    clear * - hnear
    unfold NearLeaves at hnear
    generalize hL : L.map (fun q => (some q.1, q.2)) = Z at hnear
    induction hnear generalizing L with
    | nil =>
      cases L with
      | nil => exact ⟨[], rfl, .nil⟩
      | cons => simp at hL
    | @cons z z' Z Z' hz _ ih =>
      cases L with
      | nil => simp at hL
      | cons q L =>
        simp only [List.map_cons, List.cons.injEq] at hL
        obtain ⟨hq, hL⟩ := hL
        obtain ⟨M, rfl, hM⟩ := ih L hL
        obtain ⟨zc, zv⟩ := z'
        rw [← hq] at hz
        obtain ⟨hz1, hz2⟩ := hz
        simp only at hz1 hz2
        exact ⟨(q.1, zv) :: M, by rw [List.map_cons, hz1], .cons ⟨rfl, hz2⟩ hM⟩
  have hfrom : ∀ q ∈ L, ∃ p ∈ bLeafPaths t, p.2 = some q.1 ∧ FB.pathCol min X (X.map (fun _ => 1)) p.1 = q.2 := by
    intro q hq
    have : (some q.1, q.2) ∈ L.map (fun q => (some q.1, q.2)) := List.mem_map_of_mem (f := fun q => (some q.1, q.2)) hq
    rw [← hL] at this
    obtain ⟨p, hp, he⟩ := List.mem_map.1 this
    simp only [Prod.mk.injEq] at he
    exact ⟨p, hp, he⟩
  have hlen : ∀ q ∈ L, q.2.length = X.length := by
    intro q hq
    obtain ⟨p, hp, -, he⟩ := hfrom q hq
    rw [← he]
    exact FB.pathCol_length min X _ (by simp) p.1 (hcols p hp)
  have hLlen : L.length = (bLeafPaths t).length := by simpa using (congrArg List.length hL).symm
  obtain ⟨q0, hq0⟩ := BBranching.exists_leaf t hb
  have hexL : ∃ q ∈ L, q.1 ≠ [] := by
    have : L ≠ [] := by
      rintro rfl
      rw [List.length_nil] at hLlen
      exact List.ne_nil_of_mem hq0 (List.length_eq_zero_iff.1 hLlen.symm)
    obtain ⟨q, hq⟩ := List.exists_mem_of_ne_nil _ this
    obtain ⟨p, hp, he, -⟩ := hfrom q hq
    exact ⟨q, hq, (hcv p hp q.1 he).1⟩
  obtain ⟨cs, hbest, hcl, hcs⟩ := nearLeaves_any hA hE v X.length hM hlen (fun q hq => by
    obtain ⟨p, hp, he, -⟩ := hfrom q hq
    exact (hcv p hp q.1 he).2) hexL
  refine ⟨cs, ?_, ?_⟩
  · unfold fbdtPredictF BNode.predictF
    rw [hcheck]
    simp only [py_bind_ok]
    rw [hL', py_bind_ok, Voting.runF_some, py_bind_ok, if_neg, hbest]
    · rfl
    · intro he
      rw [he] at hbest
      rw [mapM_ok_iff] at hbest
      cases X with
      | nil => exact hne rfl
      | cons x X =>
        rw [List.length_cons, List.range_succ_eq_map] at hbest
        cases hbest with
        | cons h0 _ => cases h0
  · rw [List.forall₂_iff_get]
    refine ⟨hcl.symm, ?_⟩
    intro j h1 h2
    simp only [List.get_eq_getElem]
    obtain ⟨g1, g2⟩ := hcs j cs[j] (by simp [h2])
    have hrl := FB.rowLeaves_of_cols min X t hcols L hL j X[j] (by simp [h1])
    have hk : ∀ c, (∃ q ∈ atRow j L, c ∈ q.1.map Prod.fst) ↔ ∃ q ∈ L, c ∈ q.1.map Prod.fst := by
      intro c
      constructor
      · rintro ⟨q, hq, hc⟩
        obtain ⟨q0, hq0, rfl⟩ := List.mem_map.1 hq
        exact ⟨q0, hq0, hc⟩
      · rintro ⟨q, hq, hc⟩
        exact ⟨(q.1, q.2.getD j 0), List.mem_map_of_mem (f := fun q : Dict C K × List K => (q.1, q.2.getD j 0)) hq, hc⟩
    refine ⟨atRow j L, hrl, (hk _).2 g1, ?_⟩
    intro c' hc'
    rw [← hLlen]
    exact g2 c' ((hk c').1 hc')

/-- **C208**: in floating point, `predict` of a fitted fuzzy tree succeeds on every table of numbers and values that fits the variables; the
class it predicts is a class of the training data, and no class has an exact vote larger by more than twice the error of the votes. -/
theorem C208_fdt (hA : Lawful A u η) (ent : List K → List C → K) (ord : List String → List String) (p : FDTParams K)
    (hs : ProperSets p.vars) (hv : ∀ v ∈ p.vars, FloatVar A v) (X : List (List (Cell K))) (hXf : FloatTable A X) (y : List C) (t : FNode C K)
    (h : fdtFitF A ent ord p fdtNew X y = .ok t) (v : Voting) (X' : List (List (Cell K))) (hR : Rectangular X') (hX' : FloatTable A X')
    (hw : ∀ row ∈ X', WellTyped p.vars row) :
    ∃ cs, fdtPredictF A min v t X' = .ok [cs] ∧ List.Forall₂ (fun row c => c ∈ y ∧ ∃ L, RowLeaves min row t L ∧
      ∀ c' ∈ y, vote v L c' ≤ vote v L c + 2 * votingError v u η (leafPaths t).length) X' cs := by
  have hall := C170_tree hA ent ord p (fun v hv => (hs v hv).2) hv X hXf y t h
  have hy : y ≠ [] := by
    rintro rfl
    obtain ⟨⟨_, -, hne, -⟩, hlen, -⟩ := fdtFitF_ok h
    exact hne (List.length_eq_zero_iff.1 hlen)
  have hb : Branching t := by
    apply branching_of_nodes
    intro q hq hl e
    obtain ⟨-, -, -, -, h1, -⟩ := hall q hq
    obtain ⟨fi, var, h2, h3⟩ := h1 hl
    rw [e] at h3
    have := congrArg List.length h3
    simp only [List.map_nil, List.length_nil, List.length_map, List.length_range] at this
    exact (hs var (List.mem_of_getElem? h2)).1 (List.length_eq_zero_iff.1 this.symm)
  have hleaf : ∀ q ∈ leafPaths t, ∃ cv, q.2 = some cv ∧ (cv.map Prod.fst).Nodup ∧ (∀ c, c ∈ cv.map Prod.fst ↔ c ∈ y) ∧
      ∀ kv ∈ cv, 0 ≤ kv.2 ∧ kv.2 ≤ 1 := by
    intro q hq
    obtain ⟨n, hn, hl, hcv⟩ := (leafPaths_iff t q).1 hq
    obtain ⟨-, -, -, -, -, h1⟩ := hall _ hn
    obtain ⟨cv, degs, h2, h3, h4, -, h5⟩ := h1 hl
    exact ⟨cv, by rw [← hcv]; exact h2, h3.imp (fun h => h.ne), h4, fun kv hkv => ⟨(h5 kv hkv).1, (h5 kv hkv).2.1⟩⟩
  have hpath : ∀ q ∈ leafPaths t, ∀ test ∈ q.1, p.vars[test.att]? = some test.var ∧ test.idx < test.var.sets.length := by
    intro q hq test ht
    obtain ⟨n, hn, -⟩ := (leafPaths_iff t q).1 hq
    obtain ⟨-, -, h3, h4, -⟩ := hall _ hn
    refine ⟨h3 test ht, ?_⟩
    obtain ⟨⟨_, -, hne, -⟩, -⟩ := fdtFitF_ok h
    obtain ⟨row, hrow⟩ := List.exists_mem_of_ne_nil _ hne
    obtain ⟨m, -, ms, hms, -⟩ := forall₂_mem_left h4 row hrow
    obtain ⟨_, -, fs, x, hfs, -⟩ := forall₂_mem_left hms test ht
    exact (List.getElem?_eq_some_iff.1 hfs).1
  obtain ⟨q0, hq0⟩ := Branching.exists_leaf t hb
  obtain ⟨cs, h1, h2⟩ := fdtPredictF_any hA v t hb (by
      intro q hq cv hcv
      obtain ⟨cv', h1, h2, h2', h3⟩ := hleaf q hq
      rw [hcv] at h1
      cases h1
      refine ⟨?_, h2, h3⟩
      rintro rfl
      obtain ⟨c, hc⟩ := List.exists_mem_of_ne_nil _ hy
      simpa using (h2' c).2 hc) (by
      intro q hq test ht
      exact hv _ (List.mem_of_getElem? (hpath q hq test ht).1)) X' hR hX' (by
      intro row hrow
      apply forall₂_of_forall_exists
      intro q hq
      obtain ⟨cv, hcv, -⟩ := hleaf q hq
      obtain ⟨ms, hms⟩ := forall₂_of_forall_exists (l := q.1) (R := TestDegree row) (by
        intro test ht
        obtain ⟨k1, k2⟩ := hpath q hq test ht
        obtain ⟨x, hx, hm⟩ := hw row hrow _ _ k1
        obtain ⟨m, hm⟩ := hm _ (List.getElem_mem k2)
        exact ⟨m, _, x, List.getElem?_eq_getElem k2, hx, hm⟩)
      exact ⟨(cv, _), hcv, ms, hms, rfl⟩)
  refine ⟨cs, h1, h2.imp ?_⟩
  rintro row c ⟨L, hL, ⟨q, hq, hc⟩, hbest⟩
  obtain ⟨p0, hp0, e0, -⟩ := forall₂_mem_right hL q hq
  obtain ⟨cv, e1, -, hcl, -⟩ := hleaf p0 hp0
  rw [e1] at e0
  cases e0
  exact ⟨(hcl c).1 hc, L, hL, fun c' hc' => hbest c' ⟨q, hq, (hcl c').2 hc'⟩⟩

/-- **C208** for the binary tree; `N` bounds the number of sets of a variable. -/
theorem C208_fbdt [NanSort K] (hA : Lawful A u η) (ent : List K → List C → K) (p : FDTParams K)
    (hn : ∀ v ∈ p.vars, (v.sets.map FSet.name).Nodup) (hv : ∀ v ∈ p.vars, FloatVar A v) (N : Nat)
    (hN : ∀ v ∈ p.vars, v.sets.length ≤ N) (X : List (List (Cell K))) (hXf : FloatTable A X)
    (y : List C) (t : BNode C K) (h : fbdtFitF A ent p fbdtNew X y = .ok t) (v : Voting) (X' : List (List (Cell K))) (hR : Rectangular X')
    (hX' : FloatTable A X') (hw : ∀ row ∈ X', WellTyped p.vars row) :
    ∃ cs, fbdtPredictF A min v t X' = .ok [cs] ∧ List.Forall₂ (fun row c => c ∈ y ∧ ∃ L, BRowLeaves min row t L ∧
      ∀ c' ∈ y, vote v L c' ≤ vote v L c + 2 * voteError v u η (unionError u η N) (bLeafPaths t).length) X' cs := by
  have hnodes := C173_nodes hA ent p hn hv X hXf y t h
  have hsplit := C173_two_children hA ent p X y t h
  have hy : y ≠ [] := by
    rintro rfl
    obtain ⟨hlen, -⟩ := fbdtFitF_nodes hA h
    have hX0 : X = [] := List.length_eq_zero_iff.1 hlen
    subst hX0
    unfold fbdtFitF at h
    obtain ⟨cats, -, h1⟩ := py_bind_eq_ok.1 h
    obtain ⟨_, hX, h2⟩ := py_bind_eq_ok.1 h1
    obtain ⟨n, -, hne, -⟩ := (checkArray_ok_iff ([] : List (List (Cell K)))).1 hX
    exact hne rfl
  have hb : BBranching t := by
    apply bbranching_of_nodes
    intro q hq hl e
    obtain ⟨l, r, tl, tr, h1, -⟩ := hsplit q hq hl
    rw [h1] at e; cases e
  have hleaf : ∀ q ∈ bLeafPaths t, ∃ cv, q.2 = some cv ∧ (cv.map Prod.fst).Nodup ∧ (∀ c, c ∈ cv.map Prod.fst ↔ c ∈ y) ∧
      ∀ kv ∈ cv, 0 ≤ kv.2 ∧ kv.2 ≤ 1 := by
    intro q hq
    obtain ⟨n, hnn, hl, hcv⟩ := (bLeafPaths_iff t q).1 hq
    obtain ⟨cv, degs, h2, h3, h4, -, h5⟩ := C173_leaves hA ent p hn hv X hXf y t h _ hnn hl
    exact ⟨cv, by rw [← hcv]; exact h2, h3.imp (fun h => h.ne), h4, fun kv hkv => ⟨(h5 kv hkv).1, (h5 kv hkv).2.1⟩⟩
  have hpath : ∀ q ∈ bLeafPaths t, ∀ test ∈ q.1, p.vars[test.att]? = some test.var ∧ (∀ i ∈ test.idxs, i < test.var.sets.length) ∧
      test.idxs.length ≤ N := by
    intro q hq test ht
    obtain ⟨n, hnn, -⟩ := (bLeafPaths_iff t q).1 hq
    obtain ⟨-, h3, -⟩ := hnodes _ hnn
    obtain ⟨k1, k2, k3⟩ := h3 test ht
    exact ⟨k1, k3, (fittedF_idxs_length hA hn h _ hnn test ht).trans (hN _ (List.mem_of_getElem? k1))⟩
  obtain ⟨cs, h1, h2⟩ := fbdtPredictF_any hA v t hb (by
      intro q hq cv hcv
      obtain ⟨cv', h1, h2, h2', h3⟩ := hleaf q hq
      rw [hcv] at h1
      cases h1
      refine ⟨?_, h2, h3⟩
      rintro rfl
      obtain ⟨c, hc⟩ := List.exists_mem_of_ne_nil _ hy
      simpa using (h2' c).2 hc) N (by
      intro q hq test ht
      obtain ⟨k1, -, k3⟩ := hpath q hq test ht
      exact ⟨hv _ (List.mem_of_getElem? k1), k3⟩) X' hR hX' (by
      intro row hrow
      apply forall₂_of_forall_exists
      intro q hq
      obtain ⟨cv, hcv, -⟩ := hleaf q hq
      obtain ⟨ms, hms⟩ := forall₂_of_forall_exists (l := q.1) (R := BTestDegree row) (by
        intro test ht
        obtain ⟨k1, k2, -⟩ := hpath q hq test ht
        obtain ⟨x, hx, hm⟩ := hw row hrow _ _ k1
        obtain ⟨ds, hds⟩ := forall₂_of_forall_exists (l := test.idxs) (R := fun i m => TestDegree row ⟨test.var, test.att, i⟩ m) (by
          intro i hi
          obtain ⟨m, hm⟩ := hm _ (List.getElem_mem (k2 i hi))
          exact ⟨m, _, x, List.getElem?_eq_getElem (k2 i hi), hx, hm⟩)
        exact ⟨_, ds, hds, rfl⟩)
      exact ⟨(cv, _), hcv, ms, hms, rfl⟩)
  refine ⟨cs, h1, h2.imp ?_⟩
  rintro row c ⟨L, hL, ⟨q, hq, hc⟩, hbest⟩
  obtain ⟨p0, hp0, e0, -⟩ := forall₂_mem_right hL q hq
  obtain ⟨cv, e1, -, hcl, -⟩ := hleaf p0 hp0
  rw [e1] at e0
  cases e0
  exact ⟨(hcl c).1 hc, L, hL, fun c' hc' => hbest c' ⟨q, hq, (hcl c').2 hc'⟩⟩

/-- **C208** in double precision: a fitted FDT with at most 1000 leaves always predicts a class of the training data, and no class has an exact
vote larger by more than `10⁻⁹`. -/
theorem C208_binary64 {C : Type} [LinearOrder C] (ent : List ℚ → List C → ℚ) (ord : List String → List String) (p : FDTParams ℚ)
    (hs : ProperSets p.vars) (hv : ∀ v ∈ p.vars, FloatVar binary64 v) (X : List (List (Cell ℚ))) (hXf : FloatTable binary64 X) (y : List C)
    (t : FNode C ℚ) (h : fdtFitF binary64 ent ord p fdtNew X y = .ok t) (hl : (leafPaths t).length ≤ 1000) (v : Voting)
    (X' : List (List (Cell ℚ))) (hR : Rectangular X') (hX' : FloatTable binary64 X') (hw : ∀ row ∈ X', WellTyped p.vars row) :
    ∃ cs, fdtPredictF binary64 min v t X' = .ok [cs] ∧ List.Forall₂ (fun row c => c ∈ y ∧ ∃ L, RowLeaves min row t L ∧
      ∀ c' ∈ y, vote v L c' ≤ vote v L c + 1 / 10 ^ 9) X' cs := by
  obtain ⟨cs, h1, h2⟩ := C208_fdt binary64_lawful ent ord p hs hv X hXf y t h v X' hR hX' hw
  refine ⟨cs, h1, h2.imp ?_⟩
  rintro row c ⟨hc, L, hL, hb⟩
  refine ⟨hc, L, hL, fun c' hc' => (hb c' hc').trans ?_⟩
  have := voteError64 v (degreeError_nonneg binary64_lawful) degreeError64 hl
  have h4 : (2 : ℚ) * (1500 * (1 / 2 ^ 51) + 1 / (4 * 10 ^ 9)) ≤ 1 / 10 ^ 9 := by norm_num
  have : votingError v ((2 : ℚ) ^ (-53 : ℤ)) ((2 : ℚ) ^ (-1075 : ℤ)) (leafPaths t).length ≤ 1500 * (1 / 2 ^ 51) + 1 / (4 * 10 ^ 9) := this
  linarith

/-- **C208** in double precision: a fitted FBDT with at most 1000 leaves and at most 100 sets per variable. -/
theorem C208_fbdt_binary64 {C : Type} [LinearOrder C] [NanSort ℚ] (ent : List ℚ → List C → ℚ) (p : FDTParams ℚ)
    (hn : ∀ v ∈ p.vars, (v.sets.map FSet.name).Nodup) (hv : ∀ v ∈ p.vars, FloatVar binary64 v)
    (hN : ∀ v ∈ p.vars, v.sets.length ≤ 100) (X : List (List (Cell ℚ))) (hXf : FloatTable binary64 X)
    (y : List C) (t : BNode C ℚ) (h : fbdtFitF binary64 ent p fbdtNew X y = .ok t) (hl : (bLeafPaths t).length ≤ 1000) (v : Voting)
    (X' : List (List (Cell ℚ))) (hR : Rectangular X') (hX' : FloatTable binary64 X') (hw : ∀ row ∈ X', WellTyped p.vars row) :
    ∃ cs, fbdtPredictF binary64 min v t X' = .ok [cs] ∧ List.Forall₂ (fun row c => c ∈ y ∧ ∃ L, BRowLeaves min row t L ∧
      ∀ c' ∈ y, vote v L c' ≤ vote v L c + 1 / 10 ^ 7) X' cs := by
  obtain ⟨cs, h1, h2⟩ := C208_fbdt binary64_lawful ent p hn hv 100 hN X hXf y t h v X' hR hX' hw
  refine ⟨cs, h1, h2.imp ?_⟩
  rintro row c ⟨hc, L, hL, hb⟩
  refine ⟨hc, L, hL, fun c' hc' => (hb c' hc').trans ?_⟩
  have := voteError64 v (unionError_nonneg binary64_lawful 100) (unionError64 (le_refl 100)) hl
  have h4 : (2 : ℚ) * (1500 * (1 / 10 ^ 11) + 1 / (4 * 10 ^ 9)) ≤ 1 / 10 ^ 7 := by norm_num
  linarith

/-! ### examples -/

/-- one variable with two sets; the fitted tree has a split. -/
def exAlways : FDTParams ℚ := ⟨[⟨"a", [.cont ⟨"lo", 0, 0, 4, false⟩, .cont ⟨"hi", 0, 4, 4, false⟩]⟩], 1 / 1000, 3, 2⟩

/-- an entropy for the example: all the rows together are mixed, their parts are not. -/
def exAlwaysEnt (mu : List ℚ) (_ : List Nat) : ℚ := if mu.sum = 4 then 1 else 0

/-- the hypotheses of C208 are met, also by a row on which the vote is a tie. -/
example : ∃ t, fdtFitF binary64 exAlwaysEnt id exAlways fdtNew [[.num 0], [.num 1], [.num 3], [.num 4]] [0, 0, 1, 1] = .ok t ∧
    ∃ cs, fdtPredictF binary64 min .agg t [[.num 2], [.num 0], [.num 4]] = .ok [cs] ∧ ∀ c ∈ cs, c ∈ [0, 0, 1, 1] := by
  have hv : ∀ v ∈ exAlways.vars, FloatVar binary64 v := by
    intro v hv s hs
    simp only [exAlways, List.mem_singleton] at hv
    subst hv
    simp only [List.mem_cons, FSet.cont.injEq, List.not_mem_nil, or_false] at hs
    rcases hs with rfl | rfl <;> (unfold FloatSet IsFloat; decide +kernel)
  have hcell : ∀ x : ℚ, WellTyped exAlways.vars [.num x] := by
    intro x i v hi
    match i, hi with
    | 0, hi =>
      simp only [exAlways, List.getElem?_cons_zero, Option.some.injEq] at hi
      subst hi
      refine ⟨.num x, rfl, ?_⟩
      intro s hs
      simp only [List.mem_cons, List.not_mem_nil, or_false] at hs
      rcases hs with rfl | rfl
      · exact ⟨_, CSet.membership_nums (s := ⟨"lo", 0, 0, 4, false⟩) ⟨by norm_num, by norm_num⟩ [x]⟩
      · exact ⟨_, CSet.membership_nums (s := ⟨"hi", 0, 4, 4, false⟩) ⟨by norm_num, by norm_num⟩ [x]⟩
    | i + 1, hi => simp [exAlways] at hi
  have hs : ProperSets exAlways.vars := by
    intro v hv
    simp only [exAlways, List.mem_singleton] at hv
    subst hv
    exact ⟨by simp, by decide +kernel⟩
  have hf : FloatTable binary64 [[.num 0], [.num 1], [.num 3], [.num 4]] := by
    intro row hrow x hx
    simp only [List.mem_cons, List.not_mem_nil, or_false] at hrow
    rcases hrow with rfl | rfl | rfl | rfl <;> (simp at hx; subst hx; unfold IsFloat; decide +kernel)
  have hf' : FloatTable binary64 [[.num 2], [.num 0], [.num 4]] := by
    intro row hrow x hx
    simp only [List.mem_cons, List.not_mem_nil, or_false] at hrow
    rcases hrow with rfl | rfl | rfl <;> (simp at hx; subst hx; unfold IsFloat; decide +kernel)
  obtain ⟨t, ht⟩ := C170_fit_succeeds binary64_lawful exAlwaysEnt id (fun l => List.Perm.refl l) exAlways
    (by norm_num [exAlways]) fdtNew [[.num 0], [.num 1], [.num 3], [.num 4]] [0, 0, 1, 1]
    ⟨1, by norm_num, by simp, by simp⟩ rfl (by
      intro i v hi row hrow
      have : ∃ x, row = [.num x] := by
        simp only [List.mem_cons, List.not_mem_nil, or_false] at hrow
        rcases hrow with rfl | rfl | rfl | rfl <;> exact ⟨_, rfl⟩
      obtain ⟨x, rfl⟩ := this
      exact hcell x i v hi)
  refine ⟨t, ht, ?_⟩
  obtain ⟨cs, h1, h2⟩ := C208_fdt binary64_lawful exAlwaysEnt id exAlways hs hv _ hf _ t ht .agg [[.num 2], [.num 0], [.num 4]]
    ⟨1, by norm_num, by simp, by simp⟩ hf' (by
      intro row hrow
      simp only [List.mem_cons, List.not_mem_nil, or_false] at hrow
      rcases hrow with rfl | rfl | rfl <;> exact hcell _)
  refine ⟨cs, h1, fun c hc => ?_⟩
  obtain ⟨_, -, h, -⟩ := forall₂_mem_right h2 c hc
  exact h

end Teacher
