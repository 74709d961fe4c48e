import Verif.Model.RoundedB
import Verif.Props.RoundedPredict
import Verif.Lemmas.FBDT

/-! # FBDT.predict in floating point (C172) -/

namespace Teacher
open Spec FB
set_option linter.unusedSectionVars false

variable {C K : Type} [Field K] [LinearOrder K] [IsStrictOrderedRing K]

section close
variable {A : Arith K} {u η : K}

/-- partial sums of `k` near degrees, of at most `N`. -/
def NearSum (u η : K) (N k : Nat) (a a' : K) : Prop :=
  0 ≤ a ∧ a ≤ k ∧ 0 ≤ a' ∧ |a' - a| ≤ k * (degreeError u η + (u * N + η)) * (1 + u) ^ k

theorem nearSum_step (hA : Lawful A u η) {N k : Nat} {a a' x x' : K} (h : NearSum u η N k a a') (hk : k + 1 ≤ N)
    (hx : NearDeg (degreeError u η) x x') : NearSum u η N (k + 1) (a + x) (A.fl (a' + x')) := by
  obtain ⟨h1, h2, h3, h4⟩ := h
  obtain ⟨x1, x2, x3, x4, x5⟩ := hx
  refine ⟨by linarith, by push_cast; linarith, ?_, ?_⟩
  · rw [← hA.zero]; exact hA.mono _ _ (by linarith)
  · have := fold_near_agg hA (degreeError_nonneg hA) N (.cons ⟨x1, x2, x5⟩ .nil : List.Forall₂ _ [x] [x']) k a a' (by simpa using hk) h1 h2 h4
    simpa using this

theorem unionError_nonneg (hA : Lawful A u η) (n : Nat) : 0 ≤ unionError u η n := by
  have := degreeError_nonneg hA
  have := hA.u_nonneg
  have := hA.η_nonneg
  unfold unionError
  positivity

/-- the minimum of near degrees and near sums. -/
theorem near_min_sum (hA : Lawful A u η) {N k : Nat} (hk : k ≤ N) {m m' a a' : K} (hm : NearDeg (unionError u η N) m m')
    (ha : NearSum u η N k a a') : NearDeg (unionError u η N) (min m a) (min m' a') := by
  obtain ⟨m1, m2, m3, m4, m5⟩ := hm
  obtain ⟨a1, -, a3, a4⟩ := ha
  refine ⟨le_min m1 a1, (min_le_left _ _).trans m2, le_min m3 a3, (min_le_left _ _).trans m4, ?_⟩
  refine (abs_min_sub_min_le_max _ _ _ _).trans (max_le m5 (a4.trans ?_))
  have h1 := degreeError_nonneg hA
  have hu := hA.u_nonneg
  have hη := hA.η_nonneg
  unfold unionError
  have hkN : (k : K) ≤ N := by exact_mod_cast hk
  apply mul_le_mul
  · exact mul_le_mul_of_nonneg_right hkN (by positivity)
  · exact pow_le_pow_right₀ (by linarith) hk
  · positivity
  · positivity

theorem nearSum_zipWith (hA : Lawful A u η) {N k : Nat} (hk : k + 1 ≤ N) {a a' b b' : List K} (ha : List.Forall₂ (NearSum u η N k) a a')
    (hb : List.Forall₂ (NearDeg (degreeError u η)) b b') :
    List.Forall₂ (NearSum u η N (k + 1)) (List.zipWith (· + ·) a b) (List.zipWith (fun a b => A.fl (a + b)) a' b') := by
  induction ha generalizing b b' with
  | nil => cases hb <;> exact .nil
  | cons hx _ ih =>
    cases hb with
    | nil => exact .nil
    | cons hy hbs => exact .cons (nearSum_step hA hx hk hy) (ih hbs)

theorem near_zipWith_min_sum (hA : Lawful A u η) {N k : Nat} (hk : k ≤ N) {a a' b b' : List K}
    (ha : List.Forall₂ (NearDeg (unionError u η N)) a a') (hb : List.Forall₂ (NearSum u η N k) b b') :
    List.Forall₂ (NearDeg (unionError u η N)) (List.zipWith min a b) (List.zipWith min a' b') := by
  induction ha generalizing b b' with
  | nil => cases hb <;> exact .nil
  | cons hx _ ih =>
    cases hb with
    | nil => exact .nil
    | cons hy hbs => exact .cons (near_min_sum hA hk hx hy) (ih hbs)

/-- the sums of a test in floating point. -/
theorem pertDegreeF_near (hA : Lawful A u η) {X : List (List (Cell K))} (hX : FloatTable A X) {N : Nat} (t : BTest K) (ht : FloatVar A t.var) :
    ∀ (idxs : List Nat) (k : Nat) (acc acc' r : List K), k + idxs.length ≤ N → List.Forall₂ (NearSum u η N k) acc acc' →
      idxs.foldlM (fun acc i => match t.var.sets[i]? with
        | none => .error .indexError
        | some fs => do
          let col ← column X t.att
          let m ← fs.membership col
          pure (List.zipWith (· + ·) acc m)) acc = (.ok r : Py (List K)) →
      ∃ r', idxs.foldlM (fun acc i => match t.var.sets[i]? with
        | none => .error .indexError
        | some fs => do
          let col ← column X t.att
          let m ← fs.membershipF A col
          pure (List.zipWith (fun a b => A.fl (a + b)) acc m)) acc' = (.ok r' : Py (List K)) ∧
        List.Forall₂ (NearSum u η N (k + idxs.length)) r r' := by
  intro idxs
  induction idxs with
  | nil =>
    intro k acc acc' r _ h hr
    cases hr
    exact ⟨acc', rfl, by simpa using h⟩
  | cons i idxs ih =>
    intro k acc acc' r hk h hr
    rw [List.length_cons] at hk
    rw [List.foldlM_cons, py_bind_eq_ok] at hr
    obtain ⟨r1, h1, hr⟩ := hr
    cases hfs : t.var.sets[i]? with
    | none => rw [hfs] at h1; cases h1
    | some fs =>
      rw [hfs] at h1
      simp only at h1
      obtain ⟨col, hc, h1⟩ := py_bind_eq_ok.1 h1
      obtain ⟨ms, hm, h1⟩ := py_bind_eq_ok.1 h1
      cases h1
      obtain ⟨ms', g1, g2⟩ := FSet.membershipF_near hA
        (fun c hc => ht c (by rw [← hc]; exact List.mem_of_getElem? hfs)) (floatColumn hX hc) hm
      obtain ⟨r', e1, e2⟩ := ih (k + 1) _ _ r (by omega) (nearSum_zipWith hA (by omega) h g2) hr
      refine ⟨r', ?_, ?_⟩
      · rw [List.foldlM_cons, py_bind_eq_ok]
        refine ⟨_, ?_, e1⟩
        rw [hfs]
        simp only [hc, g1, py_bind_ok]
        rfl
      · rw [List.length_cons, show k + (idxs.length + 1) = k + 1 + idxs.length by omega]
        exact e2

theorem bnodeMuF_near (hA : Lawful A u η) {X : List (List (Cell K))} (hX : FloatTable A X) {N : Nat} {test : Option (BTest K)}
    (ht : ∀ t ∈ test.toList, FloatVar A t.var ∧ t.idxs.length ≤ N) {mu mu' r : List K}
    (hmu : List.Forall₂ (NearDeg (unionError u η N)) mu mu') (h : bnodeMu min X mu test = .ok r) :
    ∃ r', bnodeMuF A min X mu' test = .ok r' ∧ List.Forall₂ (NearDeg (unionError u η N)) r r' := by
  cases test with
  | none => simp only [bnodeMu, Except.ok.injEq] at h; subst h; exact ⟨mu', rfl, hmu⟩
  | some t =>
    obtain ⟨hv, hlen⟩ := ht t (by simp)
    unfold bnodeMu at h
    simp only at h
    obtain ⟨m, hm, h⟩ := py_bind_eq_ok.1 h
    cases h
    have h0 : List.Forall₂ (NearSum u η N 0) (X.map (fun _ => (0 : K))) (X.map (fun _ => 0)) := by
      rw [List.forall₂_same]
      intro x hx
      obtain ⟨_, -, rfl⟩ := List.mem_map.1 hx
      simp [NearSum]
    obtain ⟨m', g1, g2⟩ := pertDegreeF_near hA hX t hv t.idxs 0 _ _ m (by omega) h0 hm
    refine ⟨List.zipWith min mu' m', ?_, near_zipWith_min_sum hA (by omega) hmu g2⟩
    have g : pertDegreeF A X t = .ok m' := g1
    unfold bnodeMuF
    simp only
    rw [g]
    rfl

theorem bPartialPredictF_near (hA : Lawful A u η) {X : List (List (Cell K))} (hX : FloatTable A X) {N : Nat} (t : BNode C K) :
    BBranching t → (∀ p ∈ bLeafPaths t, ∀ test ∈ p.1, FloatVar A test.var ∧ test.idxs.length ≤ N) → ∀ (mu mu' : List K) L,
      List.Forall₂ (NearDeg (unionError u η N)) mu mu' → bPartialPredict min X mu t = .ok L →
      ∃ L', bPartialPredictF A min X mu' t = .ok L' ∧ NearLeaves (unionError u η N) L L' := by
  induction t using BNode.induction with
  | h test level m isLeaf cv children ih =>
    intro hb hf mu mu' L hmu h
    have hl : ∀ (cs : List (BNode C K)), (∀ c ∈ cs, ∀ (mu mu' : List K) L, List.Forall₂ (NearDeg (unionError u η N)) mu mu' →
        bPartialPredict min X mu c = .ok L → ∃ L', bPartialPredictF A min X mu' c = .ok L' ∧ NearLeaves (unionError u η N) L L') →
        ∀ (mu mu' : List K) L, List.Forall₂ (NearDeg (unionError u η N)) mu mu' → bPartialPredictList min X mu cs = .ok L →
          ∃ L', bPartialPredictListF A min X mu' cs = .ok L' ∧ NearLeaves (unionError u η N) L L' := by
      intro cs
      induction cs with
      | nil =>
        intro _ mu mu' L _ h
        simp only [bPartialPredictList, Except.ok.injEq] at h
        subst h
        exact ⟨[], by simp only [bPartialPredictListF], .nil⟩
      | cons c cs ihc =>
        intro hc mu mu' L hmu h
        simp only [bPartialPredictList, py_bind_eq_ok] at h
        obtain ⟨r, hr, rs, hrs, h⟩ := h
        cases h
        obtain ⟨r', a1, a2⟩ := hc c (by simp) mu mu' r hmu hr
        obtain ⟨rs', b1, b2⟩ := ihc (fun c' h' => hc c' (by simp [h'])) mu mu' rs hmu hrs
        exact ⟨r' ++ rs', by simp only [bPartialPredictListF, a1, b1, py_bind_ok]; rfl, a2.append b2⟩
    cases isLeaf with
    | true =>
      simp only [bPartialPredict, py_bind_eq_ok, if_true] at h
      obtain ⟨r, hr, h⟩ := h
      cases h
      obtain ⟨r', g1, g2⟩ := bnodeMuF_near hA hX (fun t ht => hf (test.toList, cv) (by simp [bLeafPaths]) t ht) hmu hr
      exact ⟨[(cv, r')], by simp only [bPartialPredictF, g1, py_bind_ok, if_true]; rfl, .cons ⟨rfl, g2⟩ .nil⟩
    | false =>
      simp only [BBranching, forall_const, BBranchingList_iff] at hb
      obtain ⟨hne, hbc⟩ := hb
      have hchild : ∀ c ∈ children, ∀ p ∈ bLeafPaths c, (test.toList ++ p.1, p.2) ∈ bLeafPaths (.mk test level m false cv children) := by
        intro c hc p hp
        simp only [bLeafPaths, Bool.false_eq_true, if_false, bLeafPathsList_eq]
        exact List.mem_map.2 ⟨p, List.mem_flatMap.2 ⟨c, hc, hp⟩, rfl⟩
      have hft : ∀ t ∈ test.toList, FloatVar A t.var ∧ t.idxs.length ≤ N := by
        intro t ht
        obtain ⟨c, hc⟩ := List.exists_mem_of_ne_nil _ hne
        obtain ⟨p, hp⟩ := BBranching.exists_leaf c (hbc c hc)
        exact hf _ (hchild c hc p hp) t (by simp [ht])
      have ih' : ∀ c ∈ children, ∀ (mu mu' : List K) L, List.Forall₂ (NearDeg (unionError u η N)) mu mu' →
          bPartialPredict min X mu c = .ok L → ∃ L', bPartialPredictF A min X mu' c = .ok L' ∧ NearLeaves (unionError u η N) L L' := by
        intro c hc
        exact ih c hc (hbc c hc) (fun p hp test' ht' => hf _ (hchild c hc p hp) test' (by simp [ht']))
      simp only [bPartialPredict, py_bind_eq_ok, Bool.false_eq_true, if_false] at h
      obtain ⟨r, hr, h⟩ := h
      obtain ⟨r', g1, g2⟩ := bnodeMuF_near hA hX hft hmu hr
      cases children with
      | nil => exact absurd rfl hne
      | cons c cs =>
        simp only [py_bind_eq_ok] at h
        obtain ⟨x, hx, xs, hxs, h⟩ := h
        cases h
        obtain ⟨x', a1, a2⟩ := ih' c (by simp) r r' x g2 hx
        obtain ⟨xs', b1, b2⟩ := hl cs (fun c' hc' => ih' c' (by simp [hc'])) r r' xs g2 hxs
        exact ⟨x' ++ xs', by simp only [bPartialPredictF, g1, py_bind_ok, Bool.false_eq_true, if_false, a1, b1]; rfl, a2.append b2⟩

end close

section main
variable [LinearOrder C] {A : Arith K} {u η : K}

/-- near leaves have the same winner where the exact winner is clear. -/
theorem nearLeaves_winner (hA : Lawful A u η) {ε : K} (hε : 0 ≤ ε) (v : Voting) (n : Nat) {L M : List (Dict C K × List K)}
    (hM : List.Forall₂ (fun q q' => q.1 = q'.1 ∧ List.Forall₂ (NearDeg ε) q.2 q'.2) L M) (hlen : ∀ q ∈ L, q.2.length = n)
    (hw : ∀ q ∈ L, (q.1.map Prod.fst).Nodup ∧ ∀ kv ∈ q.1, 0 ≤ kv.2 ∧ kv.2 ≤ 1) (cs : List C) (hcs : cs.length = n)
    (h : ∀ j c, cs[j]? = some c → (∃ q ∈ L, c ∈ q.1.map Prod.fst) ∧
      ∀ c', c' ≠ c → vote v (atRow j L) c' + 2 * voteError v u η ε L.length < vote v (atRow j L) c) :
    (List.range n).mapM (bestClass (votesFoldF A v (entriesOf M) [])) = .ok cs := by
  have hlenM : ∀ q ∈ M, q.2.length = n := by
    intro q hq
    obtain ⟨q0, hq0, -, h2⟩ := forall₂_mem_right hM q hq
    rw [← h2.length_eq, hlen q0 hq0]
  have hwL : ∀ j, ∀ q ∈ atRow j L, (q.1.map Prod.fst).Nodup ∧ ∀ kv ∈ q.1, 0 ≤ kv.2 ∧ kv.2 ≤ 1 := by
    intro j q hq
    obtain ⟨q0, hq0, rfl⟩ := List.mem_map.1 hq
    exact hw q0 hq0
  have hnearRow : ∀ j, j < n → List.Forall₂ (fun q q' => q.1 = q'.1 ∧ NearDeg ε q.2 q'.2) (atRow j L) (atRow j M) := by
    intro j hj
    unfold atRow
    rw [List.forall₂_map_left_iff, List.forall₂_map_right_iff]
    have hmem : ∀ q ∈ L, j < q.2.length := fun q hq => by rw [hlen q hq]; exact hj
    clear * - hM hmem
    induction hM with
    | nil => exact .nil
    | @cons q q' L M hq _ ih =>
      refine .cons ⟨hq.1, ?_⟩ (ih (fun q hq => hmem q (by simp [hq])))
      have h1 := hmem q (by simp)
      have h2 := hq.2
      have h3 := h2.length_eq
      have := (List.forall₂_iff_get.1 h2).2 j h1 (by omega)
      simpa [List.getD_eq_getElem?_getD, h1, h3 ▸ h1] using this
  rw [mapM_ok_iff, List.forall₂_iff_get]
  refine ⟨by simpa using hcs.symm, ?_⟩
  intro j h1 h2
  simp only [List.get_eq_getElem, List.getElem_range]
  have hj : j < n := by simpa using h1
  obtain ⟨⟨q, hq, hcq⟩, hm⟩ := h j cs[j] (by simp [h2])
  apply bestClassF v M n hlenM j hj
  · obtain ⟨q', hq', e, -⟩ := forall₂_mem_left hM q hq
    exact ⟨q', hq', by rw [← e]; exact hcq⟩
  · intro c' hne'
    have k0 := hm c' hne'
    have k1 := abs_le.1 (voteF_near hA hε (hnearRow j hj) (hwL j) v c')
    have k2 := abs_le.1 (voteF_near hA hε (hnearRow j hj) (hwL j) v cs[j])
    have hl : (atRow j L).length = L.length := by simp [atRow]
    rw [hl] at k1 k2
    linarith [k1.1, k1.2, k2.1, k2.2]

/-- a clear winner is the winner. -/
theorem clear_winner {v : Voting} {L : List (Dict C K × K)} {c : C} {e : K} (he : 0 ≤ e) (hc : ∃ q ∈ L, c ∈ q.1.map Prod.fst)
    (h : ∀ c', c' ≠ c → vote v L c' + 2 * e < vote v L c) : IsWinner v L c := by
  have hwin : ∀ c', c' ≠ c → vote v L c' < vote v L c := by
    intro c' hc'
    have := h c' hc'
    linarith
  obtain ⟨q, hq, hcq⟩ := hc
  have hmem : c ∈ L.flatMap (fun q => q.1.map Prod.fst) := List.mem_flatMap.2 ⟨q, hq, hcq⟩
  obtain ⟨pre, post, he, hnot⟩ := List.eq_append_cons_of_mem hmem
  refine ⟨pre, post, he, fun c' hc' => hwin c' (fun e => hnot (e ▸ hc')), fun c' hc' => ?_⟩
  by_cases e : c' = c
  · rw [e]
  · exact (hwin c' e).le

theorem voteError_nonneg (hA : Lawful A u η) {ε : K} (hε : 0 ≤ ε) (v : Voting) (n : Nat) : 0 ≤ voteError v u η ε n := by
  have := hA.u_nonneg
  have := hA.η_nonneg
  cases v <;> simp only [voteError] <;> positivity

/-- **C172**: a table of floating point numbers, and a binary tree whose fuzzy sets are made of floating point numbers, whose leaves have weights
in `[0,1]` and whose tests have at most `N` sets. Where a class wins the exact vote by more than twice the error of the votes, the computation
in floating point predicts that class, as the exact one. -/
theorem C172_same_prediction (hA : Lawful A u η) (v : Voting) (t : BNode C K) (hb : BBranching t)
    (hcv : ∀ p ∈ bLeafPaths t, ∀ cv, p.2 = some cv → (cv.map Prod.fst).Nodup ∧ ∀ kv ∈ cv, 0 ≤ kv.2 ∧ kv.2 ≤ 1) (N : Nat)
    (hft : ∀ p ∈ bLeafPaths t, ∀ test ∈ p.1, FloatVar A test.var ∧ test.idxs.length ≤ N) (X : List (List (Cell K))) (hR : Rectangular X)
    (hX : FloatTable A X) (cs : List C) (h : List.Forall₂ (fun row c => ∃ L, BRowLeaves min row t L ∧ (∃ q ∈ L, c ∈ q.1.map Prod.fst) ∧
      ∀ c', c' ≠ c → vote v L c' + 2 * voteError v u η (unionError u η N) (bLeafPaths t).length < vote v L c) X cs) :
    fbdtPredictF A min v t X = .ok [cs] ∧ fbdtPredict min v t X = .ok [cs] := by
  have hE := unionError_nonneg hA N
  have hne : X ≠ [] := by
    rintro rfl
    obtain ⟨n, -, h0, -⟩ := hR
    exact h0 rfl
  have hcheck : checkArray X = .ok () := (checkArray_ok_iff X).2 hR
  have hpred : t.predict min v X = .ok cs := by
    refine (FB.predict_ok_iff min v t X hne cs).2 ⟨hb, h.imp ?_⟩
    rintro row c ⟨L1, g1, g2, g3⟩
    exact ⟨L1, g1, clear_winner (voteError_nonneg hA hE v _) g2 g3⟩
  refine ⟨?_, (fbdtPredict_ok_iff min v t X [cs]).2 ⟨hR, cs, rfl, hpred⟩⟩
  have hcols : ∀ p ∈ bLeafPaths t, ∀ test ∈ p.1, FB.HasCol X test := by
    intro p hp test ht
    rw [FB.HasCol_iff]
    intro row hrow
    obtain ⟨c, -, L, hL, -⟩ := forall₂_mem_left h row hrow
    obtain ⟨q, -, -, ms, hms, -⟩ := forall₂_mem_left hL p hp
    obtain ⟨m, -, hm⟩ := forall₂_mem_left hms test ht
    exact ⟨m, hm⟩
  obtain ⟨row, hrow⟩ := List.exists_mem_of_ne_nil _ hne
  obtain ⟨c0, -, L₀, hL₀, -⟩ := forall₂_mem_left h row hrow
  obtain ⟨L, hL⟩ : ∃ L : List (Dict C K × List K),
      (bLeafPaths t).map (fun p => (p.2, FB.pathCol min X (X.map (fun _ => 1)) p.1)) = L.map (fun q => (some q.1, q.2)) := by
    unfold BRowLeaves at hL₀
    clear * - hL₀
    generalize bLeafPaths t = ps at hL₀
    induction hL₀ with
    | nil => exact ⟨[], rfl⟩
    | @cons p q _ _ h _ ih =>
      obtain ⟨L, hL⟩ := ih
      exact ⟨(q.1, FB.pathCol min X (X.map (fun _ => 1)) p.1) :: L, by rw [List.map_cons, List.map_cons, hL, h.1]⟩
  have hexact : bPartialPredict min X (X.map (fun _ => 1)) t = .ok (L.map (fun q => (some q.1, q.2))) := by
    rw [(FB.bPartialPredict_ok_iff min X hne t _ _).2 ⟨hb, hcols, rfl⟩, hL]
  have hones : List.Forall₂ (NearDeg (unionError u η N)) (X.map (fun _ => (1 : K))) (X.map (fun _ => 1)) := by
    rw [List.forall₂_same]
    intro x hx
    obtain ⟨_, -, rfl⟩ := List.mem_map.1 hx
    simp [NearDeg, hE]
  obtain ⟨L', hL', hnear⟩ := bPartialPredictF_near hA hX t hb hft _ _ _ hones hexact
  obtain ⟨M, rfl, hM⟩ : ∃ M : List (Dict C K × List K), L' = M.map (fun q => (some q.1, q.2)) ∧
      List.Forall₂ (fun q q' => q.1 = q'.1 ∧ List.Forall₂ (NearDeg (unionError u η N)) q.2 q'.2) L M := by
    clear * - hnear
    unfold NearLeaves at hnear
    generalize hL : L.map (fun q => (some q.1, q.2)) = Z at hnear
    induction hnear generalizing L with
    | nil =>
      cases L with
      | nil => exact ⟨[], rfl, .nil⟩
      | cons => simp at hL
    | @cons z z' Z Z' hz _ ih =>
      cases L with
      | nil => simp at hL
      | cons q L =>
        simp only [List.map_cons, List.cons.injEq] at hL
        obtain ⟨hq, hL⟩ := hL
        obtain ⟨M, rfl, hM⟩ := ih L hL
        obtain ⟨zc, zv⟩ := z'
        rw [← hq] at hz
        obtain ⟨hz1, hz2⟩ := hz
        simp only at hz1 hz2
        exact ⟨(q.1, zv) :: M, by rw [List.map_cons, hz1], .cons ⟨rfl, hz2⟩ hM⟩
  have hfrom : ∀ q ∈ L, ∃ p ∈ bLeafPaths t, p.2 = some q.1 ∧ FB.pathCol min X (X.map (fun _ => 1)) p.1 = q.2 := by
    intro q hq
    have : (some q.1, q.2) ∈ L.map (fun q => (some q.1, q.2)) := List.mem_map_of_mem (f := fun q => (some q.1, q.2)) hq
    rw [← hL] at this
    obtain ⟨p, hp, he⟩ := List.mem_map.1 this
    simp only [Prod.mk.injEq] at he
    exact ⟨p, hp, he⟩
  have hlen : ∀ q ∈ L, q.2.length = X.length := by
    intro q hq
    obtain ⟨p, hp, -, he⟩ := hfrom q hq
    rw [← he]
    exact FB.pathCol_length min X _ (by simp) p.1 (hcols p hp)
  have hLlen : L.length = (bLeafPaths t).length := by simpa using (congrArg List.length hL).symm
  have hbest : (List.range X.length).mapM (bestClass (votesFoldF A v (entriesOf M) [])) = .ok cs := by
    refine nearLeaves_winner hA hE v X.length hM hlen ?_ cs h.length_eq.symm ?_
    · intro q hq
      obtain ⟨p, hp, he, -⟩ := hfrom q hq
      exact hcv p hp q.1 he
    · intro j c hc
      obtain ⟨h1, h2⟩ := List.forall₂_iff_get.1 h
      obtain ⟨b1, b2⟩ := List.getElem?_eq_some_iff.1 hc
      have a1 : j < X.length := by omega
      have hrl := FB.rowLeaves_of_cols min X t hcols L hL j X[j] (by simp [a1])
      have := h2 j a1 b1
      simp only [List.get_eq_getElem, b2] at this
      obtain ⟨L1, g1, ⟨q, hq, g2⟩, g3⟩ := this
      rw [← hrl.unique g1] at g3 hq
      obtain ⟨q0, hq0, rfl⟩ := List.mem_map.1 hq
      exact ⟨⟨q0, hq0, g2⟩, by rw [hLlen]; exact g3⟩
  unfold fbdtPredictF BNode.predictF
  rw [hcheck]
  simp only [py_bind_ok]
  rw [hL', py_bind_ok, Voting.runF_some, py_bind_ok, if_neg, hbest]
  · rfl
  · intro he
    rw [he] at hbest
    rw [mapM_ok_iff] at hbest
    cases X with
    | nil => exact hne rfl
    | cons x X =>
      rw [List.length_cons, List.range_succ_eq_map] at hbest
      cases hbest with
      | cons h0 _ => cases h0

end main

/-- a binary tree that asks whether the first variable of `exParams` is low or medium, or high. -/
def fbTree : BNode Nat ℚ :=
  .mk none 0 [] false none [.mk (some ⟨exParams.vars[0], 0, [0, 1]⟩) (-1) [] true (some [(0, 1), (1, 0)]) [],
    .mk (some ⟨exParams.vars[0], 0, [2]⟩) (-1) [] true (some [(0, 0), (1, 1)]) []]

set_option synthInstance.maxSize 1000 in
set_option synthInstance.maxHeartbeats 200000 in
/-- in an arithmetic with two decimals the degrees `33/200` and `167/200` of the two children are rounded to `17/100` and `84/100`. Class 1
wins the exact vote by 2/3, and the error of the votes is at most `12/100`. -/
example : fbdtPredictF (gridArith 100) min .agg fbTree [[.num (267 / 100), .str "f"]] = .ok [[1]] ∧
    bPartialPredictF (gridArith 100) min [[.num (267 / 100), .str "f"]] [1] fbTree =
      .ok [(some [(0, 1), (1, 0)], [17 / 100]), (some [(0, 0), (1, 1)], [84 / 100])] := by
  refine ⟨?_, by decide +kernel⟩
  have h2 : bLeafPaths fbTree = [([⟨exParams.vars[0], 0, [0, 1]⟩], some [(0, 1), (1, 0)]), ([⟨exParams.vars[0], 0, [2]⟩],
    some [(0, 0), (1, 1)])] := by decide +kernel
  have hf : ∀ v ∈ exParams.vars, FloatVar (gridArith 100) v := by
    intro v hv s hs
    simp only [exParams, List.mem_cons, List.not_mem_nil, or_false] at hv
    unfold FloatSet IsFloat
    rcases hv with rfl | rfl
    · simp only [List.mem_cons, List.not_mem_nil, or_false, FSet.cont.injEq] at hs
      rcases hs with rfl | rfl | rfl <;> decide +kernel
    · simp at hs
  refine (C172_same_prediction (gridArith_lawful 100 (by norm_num)) .agg fbTree ?_ ?_ 2 ?_ _ ?_ ?_ [1] (.cons ?_ .nil)).1
  · simp [fbTree, BBranching, BBranchingList]
  · rw [h2]
    intro p hp cv hcv
    simp only [List.mem_cons, List.not_mem_nil, or_false] at hp
    rcases hp with rfl | rfl <;> (simp only [Option.some.injEq] at hcv; subst hcv; decide +kernel)
  · rw [h2]
    intro p hp test ht
    simp only [List.mem_cons, List.not_mem_nil, or_false] at hp
    rcases hp with rfl | rfl <;> (simp only [List.mem_cons, List.not_mem_nil, or_false] at ht; subst ht; exact ⟨hf _ (by simp), by simp⟩)
  · exact ⟨2, by decide, by decide, by decide⟩
  · intro row hrow x hx
    simp only [List.mem_cons, List.not_mem_nil, or_false] at hrow
    subst hrow
    simp only [List.mem_cons, List.not_mem_nil, or_false, Cell.num.injEq, reduceCtorEq] at hx
    subst hx
    unfold IsFloat
    decide +kernel
  · refine ⟨[([(0, 1), (1, 0)], 33 / 200), ([(0, 0), (1, 1)], 167 / 200)], ?_, by decide +kernel, ?_⟩
    · unfold BRowLeaves
      rw [h2]
      have d0 : TestDegree (K := ℚ) [.num (267 / 100), .str "f"] ⟨exParams.vars[0], 0, 0⟩ 0 := ⟨_, _, rfl, rfl, by decide +kernel⟩
      have d1 : TestDegree (K := ℚ) [.num (267 / 100), .str "f"] ⟨exParams.vars[0], 0, 1⟩ (33 / 200) := ⟨_, _, rfl, rfl, by decide +kernel⟩
      have d2 : TestDegree (K := ℚ) [.num (267 / 100), .str "f"] ⟨exParams.vars[0], 0, 2⟩ (167 / 200) := ⟨_, _, rfl, rfl, by decide +kernel⟩
      exact .cons ⟨rfl, [33 / 200], .cons ⟨_, .cons d0 (.cons d1 .nil), by decide +kernel⟩ .nil, by decide +kernel⟩
        (.cons ⟨rfl, [167 / 200], .cons ⟨_, .cons d2 .nil, by decide +kernel⟩ .nil, by decide +kernel⟩ .nil)
    · intro c' hc'
      rw [h2]
      by_cases e0 : c' = 0
      · subst e0; decide +kernel
      · have : vote .agg [([(0, 1), (1, 0)], (33 / 200 : ℚ)), ([(0, 0), (1, 1)], 167 / 200)] c' = 0 := by
          simp [vote, contributions, Ne.symm e0, Ne.symm hc']
        rw [this]
        decide +kernel

end Teacher
