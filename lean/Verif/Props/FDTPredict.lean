import Verif.Lemmas.FDT
import Verif.Props.RuleMap

/-! Properties C26-C29, C35 of FDT prediction and rule extraction. -/

set_option linter.unusedSectionVars false

namespace Teacher
open Spec

variable {C K : Type} [Field K] [LinearOrder K] [IsStrictOrderedRing K] [DecidableEq C]

/-! ### example tree -/

/-- a fitted-looking tree on the variables `exVars`: split on `age`, then the set `age=1` is split on `sex`. -/
def exTree : FNode String ℚ :=
  let v0 : FVar ℚ := ⟨"age", [.cont ⟨"0", 0, 0, 1, false⟩, .cont ⟨"1", 0, 1, 3, false⟩, .cont ⟨"3", 1, 3, 3, false⟩]⟩
  let v1 : FVar ℚ := ⟨"sex", [.disc ⟨"m", .str "m"⟩, .disc ⟨"f", .str "f"⟩]⟩
  .mk none 0 [] false none
    [.mk (some ⟨v0, 0, 0⟩) 1 [] true (some [("no", 3/4), ("yes", 1/4)]) [],
     .mk (some ⟨v0, 0, 1⟩) 1 [] false none
      [.mk (some ⟨v1, 1, 0⟩) 2 [] true (some [("no", 1), ("yes", 0)]) [],
       .mk (some ⟨v1, 1, 1⟩) 2 [] true (some [("no", 0), ("yes", 1)]) []],
     .mk (some ⟨v0, 0, 2⟩) 1 [] true (some [("no", 1/8), ("yes", 7/8)]) []]

/-! ### C26 -/

theorem checkArray_ok_iff {α : Type} (X : List (List α)) : checkArray X = .ok () ↔ Rectangular X := by
  unfold checkArray
  cases X with
  | nil => simp [Rectangular]
  | cons r rs =>
    dsimp only
    split
    · rename_i h
      simp only [reduceCtorEq, false_iff]
      rintro ⟨n, hn, -, hr⟩
      rcases h with h | ⟨r', hr', h⟩
      · have := hr r (by simp); omega
      · exact h ((hr r' (by simp [hr'])).trans (hr r (by simp)).symm)
    · rename_i h
      push Not at h
      simp only [true_iff]
      exact ⟨r.length, by omega, by simp, by
        intro r' hr'
        rcases List.mem_cons.1 hr' with rfl | hr'
        · rfl
        · exact h.2 r' hr'⟩

theorem Rectangular.singleton {α : Type} {X : List (List α)} (h : Rectangular X) {row : List α} (hr : row ∈ X) :
    Rectangular [row] := by
  obtain ⟨n, hn, -, h⟩ := h
  exact ⟨n, hn, by simp, by simpa using h row hr⟩

theorem fdtPredict_ok_iff (T : K → K → K) (v : Voting) (t : FNode C K) (X : List (List (Cell K))) (out : List (List C)) :
    fdtPredict T v t X = .ok out ↔ Rectangular X ∧ ∃ cs, out = [cs] ∧ t.predict T v X = .ok cs := by
  unfold fdtPredict
  rw [py_bind_eq_ok]
  constructor
  · rintro ⟨u, h1, h2⟩
    rw [py_bind_eq_ok] at h2
    obtain ⟨cs, h3, h4⟩ := h2
    cases h4
    exact ⟨(checkArray_ok_iff X).1 h1, cs, rfl, h3⟩
  · rintro ⟨h1, cs, rfl, h2⟩
    exact ⟨(), (checkArray_ok_iff X).2 h1, by rw [h2]; rfl⟩

/-- C26: on every table accepted by `check_array` and for every tree, t-norm and voting method, `predict` returns one list
with one class per row, and it is the list of the classes that `predict` returns for the rows alone; in particular the
batch succeeds exactly when all the rows do. -/
theorem C26_row_wise (T : K → K → K) (v : Voting) (t : FNode C K) (X : List (List (Cell K))) (hX : Rectangular X) :
    (∀ out, fdtPredict T v t X = .ok out → ∃ cs, out = [cs] ∧ cs.length = X.length) ∧
    ∀ cs, fdtPredict T v t X = .ok [cs] ↔ List.Forall₂ (fun row c => fdtPredict T v t [row] = .ok [[c]]) X cs := by
  have hne : X ≠ [] := by obtain ⟨_, _, h, _⟩ := hX; exact h
  constructor
  · intro out h
    obtain ⟨-, cs, rfl, hp⟩ := (fdtPredict_ok_iff T v t X out).1 h
    exact ⟨cs, rfl, ((predict_ok_iff T v t X hne cs).1 hp).2.length_eq.symm⟩
  · intro cs
    have hrow : ∀ row ∈ X, ∀ c, fdtPredict T v t [row] = .ok [[c]] ↔
        Branching t ∧ ∃ L, RowLeaves T row t L ∧ IsWinner v L c := by
      intro row hr c
      rw [fdtPredict_ok_iff]
      constructor
      · rintro ⟨-, cs, he, hp⟩
        cases he
        obtain ⟨h1, h2⟩ := (predict_ok_iff T v t [row] (by simp) _).1 hp
        cases h2 with
        | cons h _ => exact ⟨h1, h⟩
      · rintro ⟨h1, h2⟩
        exact ⟨hX.singleton hr, [c], rfl, (predict_ok_iff T v t [row] (by simp) _).2 ⟨h1, .cons h2 .nil⟩⟩
    rw [fdtPredict_ok_iff]
    constructor
    · rintro ⟨-, cs', he, hp⟩
      cases he
      obtain ⟨h1, h2⟩ := (predict_ok_iff T v t X hne _).1 hp
      have aux : ∀ X', (∀ r ∈ X', r ∈ X) → ∀ cs, List.Forall₂ (fun row c => ∃ L, RowLeaves T row t L ∧ IsWinner v L c) X' cs →
          List.Forall₂ (fun row c => fdtPredict T v t [row] = .ok [[c]]) X' cs := by
        intro X' hsub cs h
        induction h with
        | nil => exact .nil
        | cons h _ ih => exact .cons ((hrow _ (hsub _ (by simp)) _).2 ⟨h1, h⟩) (ih (fun r hr => hsub r (by simp [hr])))
      exact aux X (fun _ h => h) _ h2
    · intro h
      refine ⟨hX, cs, rfl, (predict_ok_iff T v t X hne _).2 ?_⟩
      have hb : Branching t := by
        obtain ⟨row, hr⟩ := List.exists_mem_of_ne_nil _ hne
        obtain ⟨c, -, hc⟩ := forall₂_mem_left h row hr
        exact ((hrow row hr c).1 hc).1
      refine ⟨hb, ?_⟩
      have aux : ∀ X', (∀ r ∈ X', r ∈ X) → ∀ cs, List.Forall₂ (fun row c => fdtPredict T v t [row] = .ok [[c]]) X' cs →
          List.Forall₂ (fun row c => ∃ L, RowLeaves T row t L ∧ IsWinner v L c) X' cs := by
        intro X' hsub cs h
        induction h with
        | nil => exact .nil
        | cons h _ ih => exact .cons ((hrow _ (hsub _ (by simp)) _).1 h).2 (ih (fun r hr => hsub r (by simp [hr])))
      exact aux X (fun _ h => h) _ h

example : fdtPredict min .agg exTree [[.num 2, .str "m"], [.num 1, .str "f"], [.num 3, .str "m"]] =
    .ok [["no", "yes", "yes"]] ∧ fdtPredict min .max exTree [[.num 2, .str "m"]] = .ok [["no"]] := by
  decide +kernel

/-! ### C27 -/

/-- C27: the predicted class of a row is the first class met in the leaves among those of largest vote, where the vote is
built from the leaf degrees of the row. -/
theorem C27_max_vote (T : K → K → K) (v : Voting) (t : FNode C K) (row : List (Cell K)) (c : C)
    (h : fdtPredict T v t [row] = .ok [[c]]) :
    ∃ L, RowLeaves T row t L ∧ IsWinner v L c := by
  obtain ⟨-, cs, he, hp⟩ := (fdtPredict_ok_iff T v t [row] _).1 h
  cases he
  obtain ⟨-, h2⟩ := (predict_ok_iff T v t [row] (by simp) _).1 hp
  cases h2 with
  | cons h _ => exact h

/-- C27: conversely a tree without empty splits predicts the winner of the vote, and some class as soon as one leaf
names a class. -/
theorem C27_predicts (T : K → K → K) (v : Voting) (t : FNode C K) (row : List (Cell K)) (hrow : row ≠ [])
    (hb : Branching t) (L : List (Dict C K × K)) (hL : RowLeaves T row t L) :
    (∀ c, IsWinner v L c → fdtPredict T v t [row] = .ok [[c]]) ∧
    ((∃ q ∈ L, q.1 ≠ []) → ∃ c, fdtPredict T v t [row] = .ok [[c]]) := by
  have h1 : ∀ c, IsWinner v L c → fdtPredict T v t [row] = .ok [[c]] := by
    intro c hc
    rw [fdtPredict_ok_iff]
    refine ⟨⟨row.length, List.length_pos_iff.2 hrow, by simp, by simp⟩, [c], rfl, ?_⟩
    exact (predict_ok_iff T v t [row] (by simp) _).2 ⟨hb, .cons ⟨L, hL, hc⟩ .nil⟩
  refine ⟨h1, ?_⟩
  rintro ⟨q, hq, hne⟩
  obtain ⟨kv, hkv⟩ := List.exists_mem_of_ne_nil _ hne
  have hk : L.flatMap (fun q => q.1.map Prod.fst) ≠ [] :=
    List.ne_nil_of_mem (List.mem_flatMap.2 ⟨q, hq, List.mem_map_of_mem hkv⟩)
  obtain ⟨c, hc⟩ := pyMax_ok_of_ne_nil (fun c => vote v L c) _ hk
  obtain ⟨-, m2, pre, post, m3, m4⟩ := pyMax_eq_ok _ _ _ hc
  exact ⟨c, h1 c ⟨pre, post, m3, m4, fun c' hc' => m2 c' (by rw [m3]; simp [hc'])⟩⟩

/-! ### C28 -/

/-- the condition that a test contributes to a rule: name of the variable and name of the set -/
def clauseOf (t : FTest K) : String × String := (t.var.name, ((t.var.sets[t.idx]?).map FSet.name).getD "")

theorem getRulesList_ok (th : K) (rule : List (String × String)) (cs : List (FNode C K))
    (f : FNode C K → List (Rule String C K)) (h : ∀ c ∈ cs, getRules th rule c = .ok (f c)) :
    getRulesList th rule cs = .ok (cs.flatMap f) := by
  induction cs with
  | nil => rfl
  | cons c cs ih =>
    simp only [getRulesList]
    rw [h c (by simp), py_bind_ok, ih (fun c hc => h c (by simp [hc]))]
    rfl

theorem getRules_ok (th : K) (t : FNode C K) : ∀ (rule : List (String × String)), Branching t →
    (∀ p ∈ leafPaths t, (∀ test ∈ p.1, test.idx < test.var.sets.length) ∧ ∃ cv, p.2 = some cv) →
    getRules th rule t = .ok ((leafPaths t).flatMap (fun p =>
      ((p.2.getD []).filter (fun kv => th < kv.2)).map (fun kv => ⟨rule ++ p.1.map clauseOf, kv.1, kv.2⟩))) := by
  induction t using FNode.induction with
  | h test level m isLeaf cv children ih =>
    intro rule hb hp
    have hnode : (∀ t ∈ test.toList, t.idx < t.var.sets.length) →
        nodeClause test rule = .ok (rule ++ test.toList.map clauseOf) := by
      intro hv
      cases test with
      | none => simp [nodeClause]
      | some t =>
        have := hv t (by simp)
        simp [nodeClause, clauseOf, this]
    cases isLeaf with
    | true =>
      simp only [leafPaths, if_true] at hp ⊢
      obtain ⟨h1, cv', h2⟩ := hp _ List.mem_cons_self
      simp only at h2
      subst h2
      simp only [getRules]
      rw [hnode h1, py_bind_ok]
      simp
    | false =>
      simp only [Branching, forall_const, BranchingList_iff] at hb
      simp only [leafPaths, Bool.false_eq_true, if_false, leafPathsList_eq] at hp ⊢
      have hv : ∀ t ∈ test.toList, t.idx < t.var.sets.length := by
        intro t ht
        obtain ⟨c, hc⟩ := List.exists_mem_of_ne_nil _ hb.1
        obtain ⟨p, hpm⟩ := Branching.exists_leaf c (hb.2 c hc)
        exact (hp _ (List.mem_map_of_mem (List.mem_flatMap.2 ⟨c, hc, hpm⟩))).1 t (List.mem_append.2 (.inl ht))
      simp only [getRules]
      rw [hnode hv, py_bind_ok]
      simp only [Bool.false_eq_true, if_false]
      rw [getRulesList_ok th _ children (fun c => (leafPaths c).flatMap (fun p =>
        ((p.2.getD []).filter (fun kv => th < kv.2)).map
          (fun kv => ⟨(rule ++ test.toList.map clauseOf) ++ p.1.map clauseOf, kv.1, kv.2⟩)))]
      · congr 1
        simp [List.flatMap_map, List.flatMap_assoc]
      · intro c hc
        apply ih c hc _ (hb.2 c hc)
        intro p hpm
        obtain ⟨h1, h2⟩ := hp _ (List.mem_map_of_mem (List.mem_flatMap.2 ⟨c, hc, hpm⟩))
        exact ⟨fun t ht => h1 t (List.mem_append.2 (.inr ht)), h2⟩

/-- rules of one leaf -/
def leafRules (th : K) (p : List (FTest K) × Option (Dict C K)) : List (Rule String C K) :=
  ((p.2.getD []).filter (fun kv => th < kv.2)).map (fun kv => ⟨p.1.map clauseOf, kv.1, kv.2⟩)

theorem toRules_ok (t : FNode C K) (th : K) (b : Bool) (hb : Branching t)
    (hp : ∀ p ∈ leafPaths t, (∀ test ∈ p.1, test.idx < test.var.sets.length) ∧ ∃ cv, p.2 = some cv) :
    t.toRules th b = .ok ((leafPaths t).flatMap (leafRules th)) := by
  unfold FNode.toRules
  rw [getRules_ok th t [] hb hp]
  simp only [List.nil_append]
  rfl

theorem RowLeaves.valid {T : K → K → K} {row : List (Cell K)} {t : FNode C K} {L : List (Dict C K × K)}
    (h : RowLeaves T row t L) :
    ∀ p ∈ leafPaths t, (∀ test ∈ p.1, test.idx < test.var.sets.length) ∧ ∃ cv, p.2 = some cv := by
  intro p hp
  obtain ⟨q, -, h1, ms, h2, -⟩ := forall₂_mem_left h p hp
  refine ⟨?_, q.1, h1⟩
  intro test ht
  obtain ⟨m, -, fs, x, h3, -⟩ := forall₂_mem_left h2 test ht
  exact (List.getElem?_eq_some_iff.1 h3).1

theorem foldl_min_one (ms : List K) (h : ∀ m ∈ ms, m ≤ 1) (hne : ms ≠ []) : pyMin ms = .ok (ms.foldl min 1) := by
  cases ms with
  | nil => exact absurd rfl hne
  | cons x xs =>
    simp only [pyMin, List.foldl_cons]
    rw [min_eq_right (h x (by simp))]

theorem TestDegree.range {row : List (Cell K)} {t : FTest K} {m : K} (h : TestDegree row t m) : 0 ≤ m ∧ m ≤ 1 := by
  obtain ⟨fs, x, -, -, h3⟩ := h
  exact FSet.membership_singleton_range h3

/-- the rules of a leaf give each class the contribution of the leaf -/
theorem activation_leafRules (deg : Rule String C K → K) (p : List (FTest K) × Option (Dict C K)) (cv : Dict C K) (d : K)
    (hp : p.2 = some cv) (hw : ∀ kv ∈ cv, 0 ≤ kv.2)
    (hdeg : ∀ r ∈ leafRules 0 p, deg r = d) (c : C) :
    activation deg (leafRules 0 p) c = ((cv.filter (fun kv => kv.1 = c)).map (fun kv => kv.2 * d)).sum := by
  unfold leafRules at hdeg ⊢
  rw [hp] at hdeg ⊢
  simp only [Option.getD_some] at hdeg ⊢
  clear hp
  induction cv with
  | nil => simp
  | cons kv cv ih =>
    have ih' := ih (fun kv h => hw kv (by simp [h]))
    by_cases hpos : 0 < kv.2
    · simp only [List.filter_cons, hpos, decide_true, if_true, List.map_cons] at hdeg ⊢
      rw [activation_cons, ih' (fun r hr => hdeg r (by simp [hr])), hdeg _ (by simp)]
      by_cases hc : kv.1 = c
      · simp [hc, mul_comm]
      · simp [hc]
    · have h0 : kv.2 = 0 := le_antisymm (not_lt.1 hpos) (hw kv (by simp))
      simp only [List.filter_cons, hpos, decide_false, Bool.false_eq_true, if_false] at hdeg ⊢
      rw [ih' hdeg]
      by_cases hc : kv.1 = c
      · simp [hc, h0]
      · simp [hc]

/-- C28: the rules extracted by `to_rule_based_system()` give every class exactly the `agg_vote` of the tree: for a tree
with at least one split (no test-free path), non-negative leaf weights, and an instance `inst` that gives each condition
of the tree the membership of the row. -/
theorem C28_same_votes (t : FNode C K) (hb : Branching t) (hsplit : ∀ p ∈ leafPaths t, p.1 ≠ [])
    (row : List (Cell K)) (L : List (Dict C K × K)) (hL : RowLeaves min row t L)
    (hw : ∀ q ∈ L, ∀ kv ∈ q.1, 0 ≤ kv.2) (inst : Inst K)
    (hinst : ∀ p ∈ leafPaths t, ∀ test ∈ p.1, ∀ m, TestDegree row test m →
      HasDegree inst (clauseOf test).1 (clauseOf test).2 m) (simplify : Bool) :
    ∃ rs, fdtToRules t false simplify = .ok rs ∧ ∃ deg : Rule String C K → K,
      (∀ r ∈ rs, r.matching inst = .ok (deg r)) ∧ ∀ c, activation deg rs c = vote .agg L c := by
  refine ⟨(leafPaths t).flatMap (leafRules 0), toRules_ok t 0 simplify hb (RowLeaves.valid hL), ?_⟩
  set deg : Rule String C K → K := fun r => match r.matching inst with | .ok m => m | .error _ => 0 with hdegdef
  refine ⟨deg, ?_⟩
  have hleaf : ∀ p ∈ leafPaths t, ∀ q : Dict C K × K, LeafDegree min row p.1 q.2 →
      ∀ r ∈ leafRules 0 p, r.matching inst = .ok q.2 := by
    intro p hp q hq r hr
    obtain ⟨kv, -, rfl⟩ := List.mem_map.1 hr
    obtain ⟨ms, h1, h2⟩ := hq
    rw [matching_of_known _ inst ms]
    · rw [h2]
      apply foldl_min_one
      · intro m hm
        obtain ⟨test, -, ht⟩ := forall₂_mem_right h1 m hm
        exact (TestDegree.range ht).2
      · rintro rfl
        cases h1' : p.1 with
        | nil => exact hsplit p hp h1'
        | cons a b => rw [h1'] at h1; cases h1
    · have aux : ∀ (l : List (FTest K)) (ms : List K), (∀ test ∈ l, test ∈ p.1) → List.Forall₂ (TestDegree row) l ms →
          List.Forall₂ (fun (a : String × String) x => HasDegree inst a.1 a.2 x) (l.map clauseOf) ms := by
        intro l ms hsub h
        induction h with
        | nil => exact .nil
        | cons h _ ih => exact .cons (hinst p hp _ (hsub _ (by simp)) _ h) (ih (fun t ht => hsub t (by simp [ht])))
      exact aux p.1 ms (fun _ h => h) h1
  have hdeg : ∀ p ∈ leafPaths t, ∀ q : Dict C K × K, LeafDegree min row p.1 q.2 → ∀ r ∈ leafRules 0 p, deg r = q.2 := by
    intro p hp q hq r hr
    simp only [hdegdef, hleaf p hp q hq r hr]
  refine ⟨?_, ?_⟩
  · intro r hr
    obtain ⟨p, hp, hr⟩ := List.mem_flatMap.1 hr
    obtain ⟨q, -, -, hq⟩ := forall₂_mem_left hL p hp
    rw [hdeg p hp q hq r hr, hleaf p hp q hq r hr]
  · intro c
    simp only [vote]
    unfold RowLeaves at hL
    have aux : ∀ (ps : List (List (FTest K) × Option (Dict C K))) (L : List (Dict C K × K)), (∀ p ∈ ps, p ∈ leafPaths t) →
        (∀ q ∈ L, ∀ kv ∈ q.1, 0 ≤ kv.2) →
        List.Forall₂ (fun p q => p.2 = some q.1 ∧ LeafDegree min row p.1 q.2) ps L →
        activation deg (ps.flatMap (leafRules 0)) c = (contributions L c).sum := by
      intro ps L hsub hw h
      induction h with
      | nil => rfl
      | @cons p q ps L h _ ih =>
        rw [List.flatMap_cons, activation_append, ih (fun p hp => hsub p (by simp [hp])) (fun q hq => hw q (by simp [hq])),
          activation_leafRules deg p q.1 q.2 h.1 (hw q (by simp)) (hdeg p (hsub p (by simp)) q h.2)]
        simp [contributions, List.flatMap_cons]
    exact aux _ L (fun _ h => h) hw hL

/-- C28: so whenever one class is strictly best in the tree, the weighted vote of the extracted rules returns the class
predicted by the tree (leaves with some positive weight). -/
theorem C28_same_class (t : FNode C K) (hb : Branching t) (hsplit : ∀ p ∈ leafPaths t, p.1 ≠ [])
    (row : List (Cell K)) (hrow : row ≠ []) (L : List (Dict C K × K)) (hL : RowLeaves min row t L)
    (hw : ∀ q ∈ L, (∀ kv ∈ q.1, 0 ≤ kv.2) ∧ ∃ kv ∈ q.1, 0 < kv.2) (inst : Inst K)
    (hinst : ∀ p ∈ leafPaths t, ∀ test ∈ p.1, ∀ m, TestDegree row test m →
      HasDegree inst (clauseOf test).1 (clauseOf test).2 m) (simplify : Bool) (c : C)
    (hc : ∃ q ∈ L, c ∈ q.1.map Prod.fst)
    (hbest : ∀ c', c' ≠ c → (∃ q ∈ L, c' ∈ q.1.map Prod.fst) → vote .agg L c' < vote .agg L c) :
    fdtPredict min .agg t [row] = .ok [[c]] ∧
      ∃ rs, fdtToRules t false simplify = .ok rs ∧ weightedVote rs inst = .ok c := by
  constructor
  · apply (C27_predicts min .agg t row hrow hb L hL).1
    obtain ⟨q, hq, hcq⟩ := hc
    have hm : c ∈ L.flatMap (fun q => q.1.map Prod.fst) := List.mem_flatMap.2 ⟨q, hq, hcq⟩
    obtain ⟨pre, post, he, hnot⟩ := List.eq_append_cons_of_mem hm
    refine ⟨pre, post, he, ?_, ?_⟩
    · intro c' hc'
      apply hbest c' (fun e => hnot (e ▸ hc'))
      have : c' ∈ L.flatMap (fun q => q.1.map Prod.fst) := by rw [he]; simp [hc']
      obtain ⟨q', h1, h2⟩ := List.mem_flatMap.1 this
      exact ⟨q', h1, h2⟩
    · intro c' hc'
      by_cases e : c' = c
      · rw [e]
      · have : c' ∈ L.flatMap (fun q => q.1.map Prod.fst) := by rw [he]; simp [hc']
        obtain ⟨q', h1, h2⟩ := List.mem_flatMap.1 this
        exact (hbest c' e ⟨q', h1, h2⟩).le
  · obtain ⟨rs, hrs, deg, hdeg, hact⟩ := C28_same_votes t hb hsplit row L hL (fun q hq => (hw q hq).1) inst hinst simplify
    refine ⟨rs, hrs, ?_⟩
    have hrs' : rs = (leafPaths t).flatMap (leafRules 0) := by
      have := toRules_ok t 0 simplify hb (RowLeaves.valid hL)
      unfold fdtToRules at hrs
      simp only [Bool.false_eq_true, if_false] at hrs
      rw [this] at hrs
      exact (Except.ok.inj hrs).symm
    -- consequents of the rules are classes of the leaves
    have hcons : ∀ c' ∈ rs.map Rule.consequent, ∃ q ∈ L, c' ∈ q.1.map Prod.fst := by
      intro c' hc'
      obtain ⟨r, hr, rfl⟩ := List.mem_map.1 hc'
      rw [hrs'] at hr
      obtain ⟨p, hp, hr⟩ := List.mem_flatMap.1 hr
      obtain ⟨q, hq, hpq, -⟩ := forall₂_mem_left hL p hp
      obtain ⟨kv, hkv, rfl⟩ := List.mem_map.1 hr
      rw [hpq] at hkv
      exact ⟨q, hq, List.mem_map_of_mem (List.mem_filter.1 hkv).1⟩
    have hmem : c ∈ rs.map Rule.consequent := by
      obtain ⟨p, hp⟩ := Branching.exists_leaf t hb
      obtain ⟨q, hq, hpq, -⟩ := forall₂_mem_left hL p hp
      obtain ⟨kv, hkv, hpos⟩ := (hw q hq).2
      have hr : (⟨p.1.map clauseOf, kv.1, kv.2⟩ : Rule String C K) ∈ rs := by
        rw [hrs']
        refine List.mem_flatMap.2 ⟨p, hp, List.mem_map.2 ⟨kv, List.mem_filter.2 ⟨?_, by simpa using hpos⟩, rfl⟩⟩
        rw [hpq]; exact hkv
      by_cases e : kv.1 = c
      · rw [← e]; exact List.mem_map_of_mem hr
      · have hlt := hbest kv.1 e ⟨q, hq, List.mem_map_of_mem hkv⟩
        by_contra hnc
        rw [← hact c, activation_eq_zero_of_not_mem deg rs c hnc] at hlt
        have hnn : 0 ≤ vote .agg L kv.1 := by
          simp only [vote]
          apply List.sum_nonneg
          intro x hx
          obtain ⟨q', hq', hx⟩ := List.mem_flatMap.1 hx
          obtain ⟨kv', hkv', rfl⟩ := List.mem_map.1 hx
          obtain ⟨p', -, -, ms, hms, he⟩ := forall₂_mem_right hL q' hq'
          refine mul_nonneg ((hw q' hq').1 kv' (List.mem_filter.1 hkv').1) ?_
          rw [he]
          have : ∀ (ms : List K) (a : K), 0 ≤ a → (∀ m ∈ ms, 0 ≤ m) → 0 ≤ ms.foldl min a := by
            intro ms
            induction ms with
            | nil => intro a ha _; exact ha
            | cons m ms ih => intro a ha h; exact ih _ (le_min ha (h m (by simp))) (fun x hx => h x (by simp [hx]))
          apply this ms 1 zero_le_one
          intro m hm
          obtain ⟨test, -, ht⟩ := forall₂_mem_right hms m hm
          exact (TestDegree.range ht).1
        exact absurd hlt (not_lt.2 hnn)
    refine weightedVoteWith_eq_of_strict _ deg rs hdeg c hmem ?_
    intro c' hc' hne
    rw [hact, hact]
    exact hbest c' hne (hcons c' hc')

example : (fdtToRules exTree false false).map (fun rs => rs.map (fun r => (r.antecedent, r.consequent))) =
    .ok [([("age", "0")], "no"), ([("age", "0")], "yes"), ([("age", "1"), ("sex", "m")], "no"),
      ([("age", "1"), ("sex", "f")], "yes"), ([("age", "3")], "no"), ([("age", "3")], "yes")] ∧
    (∀ p ∈ leafPaths exTree, p.1 ≠ []) := by
  decide +kernel

/-! ### C29 -/

/-- C29 is false of FDT: on every tree whose leaf weights are at most 1 (all fitted trees, C30), `verbose=True` returns no
rule at all, because the flag is passed by position as the weight threshold; with `verbose=False` a leaf with a positive
weight gives a rule. -/
theorem C29_fdt_verbose_false (t : FNode C K) (hb : Branching t)
    (hp : ∀ p ∈ leafPaths t, (∀ test ∈ p.1, test.idx < test.var.sets.length) ∧ ∃ cv, p.2 = some cv ∧
      (∀ kv ∈ cv, kv.2 ≤ 1) ∧ ∃ kv ∈ cv, 0 < kv.2) (simplify : Bool) :
    fdtToRules t true simplify = .ok [] ∧ ∃ r rs, fdtToRules t false simplify = .ok (r :: rs) := by
  have hv : ∀ p ∈ leafPaths t, (∀ test ∈ p.1, test.idx < test.var.sets.length) ∧ ∃ cv, p.2 = some cv := by
    intro p h; obtain ⟨h1, cv, h2, -⟩ := hp p h; exact ⟨h1, cv, h2⟩
  constructor
  · unfold fdtToRules
    rw [toRules_ok t _ simplify hb hv]
    congr 1
    rw [List.flatMap_eq_nil_iff]
    intro p hpm
    obtain ⟨-, cv, h2, h3, -⟩ := hp p hpm
    unfold leafRules
    rw [h2, List.map_eq_nil_iff, List.filter_eq_nil_iff]
    intro kv hkv
    simpa using h3 kv hkv
  · unfold fdtToRules
    rw [toRules_ok t _ simplify hb hv]
    obtain ⟨p, hpm⟩ := Branching.exists_leaf t hb
    obtain ⟨-, cv, h2, -, kv, hkv, hpos⟩ := hp p hpm
    have hr : (⟨p.1.map clauseOf, kv.1, kv.2⟩ : Rule String C K) ∈ (leafPaths t).flatMap (leafRules (0:K)) := by
      refine List.mem_flatMap.2 ⟨p, hpm, List.mem_map.2 ⟨kv, List.mem_filter.2 ⟨?_, by simpa using hpos⟩, rfl⟩⟩
      rw [h2]; exact hkv
    simp only [Bool.false_eq_true, if_false]
    cases he : (leafPaths t).flatMap (leafRules (0:K)) with
    | nil => rw [he] at hr; simp at hr
    | cons r rs => exact ⟨r, rs, rfl⟩

example : (fdtToRules exTree true false).toOption = some [] := by decide +kernel

/-! ### C35 -/

theorem CrispOnList_iff (row : List (Cell K)) (cs : List (FNode C K)) :
    CrispOnList row cs ↔ ∀ c ∈ cs, CrispOn row c := by
  induction cs with
  | nil => simp [CrispOnList]
  | cons c cs ih => simp [CrispOnList, ih]

theorem foldl_min_zero {ms : List K} (h : ∀ m ∈ ms, 0 ≤ m) : ms.foldl min 0 = 0 := by
  induction ms with
  | nil => rfl
  | cons m ms ih =>
    rw [List.foldl_cons, min_eq_left (h m (by simp))]
    exact ih (fun m hm => h m (by simp [hm]))

/-- one leaf has degree 1 and the others 0, below a node all of whose tests from the node itself on are crisp -/
theorem crisp_leaves (row : List (Cell K)) (t : FNode C K) : CrispOn row t → ∀ (L : List (Option (Dict C K) × K)),
    List.Forall₂ (fun p q => p.2 = q.1 ∧ ∃ ms, List.Forall₂ (TestDegree row) (p.1.drop t.test.toList.length) ms ∧
      q.2 = ms.foldl min 1) (leafPaths t) L →
    ∃ pre cv post, L = pre ++ (cv, 1) :: post ∧ (∀ q ∈ pre ++ post, q.2 = 0) ∧ Reaches row t cv := by
  induction t using FNode.induction with
  | h test level m isLeaf cv children ih =>
    intro hcr L hL
    cases isLeaf with
    | true =>
      simp only [leafPaths, if_true] at hL
      cases hL with
      | cons h hn =>
        cases hn
        rename_i q
        obtain ⟨h1, ms, h2, h3⟩ := h
        simp only [FNode.test, List.drop_length] at h2
        cases h2
        simp only [List.foldl_nil] at h3
        refine ⟨[], cv, [], ?_, by simp, .leaf ..⟩
        obtain ⟨a, b⟩ := q
        simp only at h1 h3
        rw [h1, h3]; rfl
    | false =>
      simp only [CrispOn, forall_const, CrispOnList_iff] at hcr
      obtain ⟨⟨pre, c, post, rfl, ⟨tc, htc, hdc⟩, hothers⟩, hall⟩ := hcr
      simp only [leafPaths, Bool.false_eq_true, if_false, leafPathsList_eq] at hL
      rw [List.forall₂_map_left_iff] at hL
      simp only [FNode.test, List.drop_left] at hL
      rw [List.flatMap_append, List.flatMap_cons] at hL
      -- split L
      have split : ∀ (l₁ l₂ : List (List (FTest K) × Option (Dict C K))) (L : List (Option (Dict C K) × K))
          (R : List (FTest K) × Option (Dict C K) → Option (Dict C K) × K → Prop),
          List.Forall₂ R (l₁ ++ l₂) L → ∃ L₁ L₂, L = L₁ ++ L₂ ∧ List.Forall₂ R l₁ L₁ ∧ List.Forall₂ R l₂ L₂ := by
        intro l₁
        induction l₁ with
        | nil => intro l₂ L R h; exact ⟨[], L, rfl, .nil, h⟩
        | cons a l₁ ih =>
          intro l₂ L R h
          cases h with
          | cons ha h =>
            obtain ⟨L₁, L₂, rfl, h1, h2⟩ := ih _ _ _ h
            exact ⟨_ :: L₁, L₂, rfl, .cons ha h1, h2⟩
      obtain ⟨Lp, Lr, rfl, hLp, hLr⟩ := split _ _ _ _ hL
      obtain ⟨Lc, Lq, rfl, hLc, hLq⟩ := split _ _ _ _ hLr
      -- paths below a child begin with its test
      have hstart : ∀ (c : FNode C K) (t : FTest K), c.test = some t → ∀ p ∈ leafPaths c, ∃ rest, p.1 = t :: rest := by
        intro c t ht p hp
        obtain ⟨test', _, _, leaf', _, _⟩ := c
        simp only [FNode.test] at ht
        subst ht
        simp only [leafPaths] at hp
        split at hp
        · simp only [List.mem_singleton] at hp; subst hp; exact ⟨[], rfl⟩
        · obtain ⟨q, -, rfl⟩ := List.mem_map.1 hp; exact ⟨_, rfl⟩
      have hzero : ∀ (cs : List (FNode C K)) (L : List (Option (Dict C K) × K)),
          (∀ c' ∈ cs, ∃ t, c'.test = some t ∧ TestDegree row t 0) →
          List.Forall₂ (fun p q => p.2 = q.1 ∧ ∃ ms, List.Forall₂ (TestDegree row) p.1 ms ∧ q.2 = ms.foldl min 1)
            (cs.flatMap leafPaths) L → ∀ q ∈ L, q.2 = 0 := by
        intro cs L hcs h q hq
        obtain ⟨p, hp, -, ms, hms, he⟩ := forall₂_mem_right h q hq
        obtain ⟨c', hc', hp⟩ := List.mem_flatMap.1 hp
        obtain ⟨t', ht', hd⟩ := hcs c' hc'
        obtain ⟨rest, hr⟩ := hstart c' t' ht' p hp
        rw [hr] at hms
        cases hms with
        | cons ha has =>
          rw [he, ha.unique hd, List.foldl_cons, min_eq_right zero_le_one]
          apply foldl_min_zero
          intro m hm
          obtain ⟨test, -, htm⟩ := forall₂_mem_right has m hm
          exact (TestDegree.range htm).1
      have hc' : List.Forall₂ (fun p q => p.2 = q.1 ∧ ∃ ms, List.Forall₂ (TestDegree row)
          (p.1.drop c.test.toList.length) ms ∧ q.2 = ms.foldl min 1) (leafPaths c) Lc := by
        have aux : ∀ (l : List (List (FTest K) × Option (Dict C K))) (L : List (Option (Dict C K) × K)),
            (∀ p ∈ l, p ∈ leafPaths c) →
            List.Forall₂ (fun p q => p.2 = q.1 ∧ ∃ ms, List.Forall₂ (TestDegree row) p.1 ms ∧ q.2 = ms.foldl min 1) l L →
            List.Forall₂ (fun p q => p.2 = q.1 ∧ ∃ ms, List.Forall₂ (TestDegree row)
              (p.1.drop c.test.toList.length) ms ∧ q.2 = ms.foldl min 1) l L := by
          intro l L hsub h
          induction h with
          | nil => exact .nil
          | @cons p q l L h _ ihh =>
            refine .cons ⟨h.1, ?_⟩ (ihh (fun p hp => hsub p (by simp [hp])))
            obtain ⟨-, ms, h2, h3⟩ := h
            obtain ⟨rest, hr⟩ := hstart c tc htc p (hsub p (by simp))
            rw [hr] at h2 ⊢
            rw [htc]
            cases h2 with
            | @cons _ m _ ms ha has =>
              refine ⟨ms, by simpa using has, ?_⟩
              rw [h3, List.foldl_cons, ha.unique hdc, min_self]
        exact aux _ _ (fun _ h => h) hLc
      obtain ⟨pre', cv', post', rfl, hz, hreach⟩ := ih c (by simp) (hall c (by simp)) Lc hc'
      refine ⟨Lp ++ pre', cv', post' ++ Lq, by simp, ?_, ?_⟩
      · intro q hq
        simp only [List.mem_append] at hq
        rcases hq with (hq | hq) | (hq | hq)
        · exact hzero pre Lp (fun c' hc' => hothers c' (by simp [hc'])) hLp q hq
        · exact hz q (by simp [hq])
        · exact hz q (by simp [hq])
        · exact hzero post Lq (fun c' hc' => hothers c' (by simp [hc'])) hLq q hq
      · exact .step _ _ _ _ _ c tc _ (by simp) htc hdc hreach

/-- C35: on a row whose degrees are 0/1 with exactly one active child at every split, exactly one leaf has degree 1 and all
the others 0, and it is the leaf reached by following the active children from the root. -/
theorem C35_one_leaf (row : List (Cell K)) (t : FNode C K) (hroot : t.test = none) (hcr : CrispOn row t)
    (L : List (Dict C K × K)) (hL : RowLeaves min row t L) :
    ∃ pre cv post, L = pre ++ (cv, 1) :: post ∧ (∀ q ∈ pre ++ post, q.2 = 0) ∧ Reaches row t (some cv) := by
  have h : List.Forall₂ (fun p (q : Option (Dict C K) × K) => p.2 = q.1 ∧ ∃ ms, List.Forall₂ (TestDegree row)
      (p.1.drop t.test.toList.length) ms ∧ q.2 = ms.foldl min 1) (leafPaths t) (L.map (fun q => (some q.1, q.2))) := by
    rw [List.forall₂_map_right_iff, hroot]
    exact hL
  obtain ⟨pre, cv, post, he, hz, hr⟩ := crisp_leaves row t hcr _ h
  obtain ⟨l₁, l₂, rfl, rfl, h2⟩ := List.map_eq_append_iff.1 he
  obtain ⟨q, l₃, rfl, h3, rfl⟩ := List.map_eq_cons_iff.1 h2
  obtain ⟨qc, qd⟩ := q
  simp only [Prod.mk.injEq] at h3
  obtain ⟨rfl, rfl⟩ := h3
  refine ⟨l₁, qc, l₃, rfl, ?_, hr⟩
  · intro x hx
    have := hz (some x.1, x.2) (by
      rw [← List.map_append]
      exact List.mem_map_of_mem (f := fun q : Dict C K × K => (some q.1, q.2)) hx)
    exact this

theorem contributions_append (L₁ L₂ : List (Dict C K × K)) (c : C) :
    contributions (L₁ ++ L₂) c = contributions L₁ c ++ contributions L₂ c := by
  simp [contributions]

theorem contributions_zero {L : List (Dict C K × K)} (h : ∀ q ∈ L, q.2 = 0) (c : C) :
    ∀ x ∈ contributions L c, x = 0 := by
  intro x hx
  obtain ⟨q, hq, hx⟩ := List.mem_flatMap.1 hx
  obtain ⟨kv, -, rfl⟩ := List.mem_map.1 hx
  rw [h q hq, mul_zero]

/-- aggregation of a list of contributions. -/
def aggr (v : Voting) (l : List K) : K := match v with | .agg => l.sum | .max => l.foldr max 0

theorem vote_eq_aggr (v : Voting) (L : List (Dict C K × K)) (c : C) : vote v L c = aggr v (contributions L c) := by
  cases v <;> rfl

theorem aggr_zeros (v : Voting) (l : List K) (h : ∀ x ∈ l, x = 0) : aggr v l = 0 := by
  induction l with
  | nil => cases v <;> rfl
  | cons x l ih =>
    have := ih (fun y hy => h y (by simp [hy]))
    have hx := h x (by simp)
    cases v <;> simp_all [aggr]

theorem aggr_zeros_append (v : Voting) (l l' : List K) (h : ∀ x ∈ l, x = 0) (hl' : 0 ≤ aggr v l') :
    aggr v (l ++ l') = aggr v l' := by
  induction l with
  | nil => rfl
  | cons x l ih =>
    have := ih (fun y hy => h y (by simp [hy]))
    have hx := h x (by simp)
    cases v
    · simp_all [aggr]
    · simp only [aggr, List.cons_append, List.foldr_cons] at this hl' ⊢
      rw [this, hx, max_eq_right hl']

theorem filter_key_eq {cv : Dict C K} (hn : (cv.map Prod.fst).Nodup) {c : C} {w : K} (h : (c, w) ∈ cv) :
    cv.filter (fun kv => kv.1 = c) = [(c, w)] := by
  induction cv with
  | nil => simp at h
  | cons kv cv ih =>
    simp only [List.map_cons, List.nodup_cons] at hn
    rcases List.mem_cons.1 h with h | h
    · subst h
      rw [List.filter_cons_of_pos (by simp), List.filter_eq_nil_iff.2]
      intro kv hkv
      simp only [decide_eq_true_eq]
      intro e
      exact hn.1 (by rw [← e]; show kv.1 ∈ _; exact List.mem_map_of_mem hkv)
    · rw [List.filter_cons_of_neg, ih hn.2 h]
      simp only [decide_eq_true_eq]
      intro e
      exact hn.1 (e ▸ List.mem_map_of_mem h)

/-- C35: with one active leaf the vote of a class is its weight in that leaf. -/
theorem crisp_vote (v : Voting) (pre post : List (Dict C K × K)) (cv : Dict C K) (hz : ∀ q ∈ pre ++ post, q.2 = 0)
    (hn : (cv.map Prod.fst).Nodup) (hw : ∀ kv ∈ cv, 0 ≤ kv.2) (c : C) :
    (∀ w, (c, w) ∈ cv → vote v (pre ++ (cv, 1) :: post) c = w) ∧
    (c ∉ cv.map Prod.fst → vote v (pre ++ (cv, 1) :: post) c = 0) := by
  have hpre := contributions_zero (fun q hq => hz q (List.mem_append.2 (.inl hq))) c
  have hpost := contributions_zero (fun q hq => hz q (List.mem_append.2 (.inr hq))) c
  rw [vote_eq_aggr, contributions_append]
  have hcons : contributions ((cv, 1) :: post) c =
      (cv.filter (fun kv => kv.1 = c)).map (fun kv => kv.2) ++ contributions post c := by
    simp [contributions]
  rw [hcons]
  constructor
  · intro w hcw
    have hw0 := hw _ hcw
    have key : aggr v ((cv.filter (fun kv => kv.1 = c)).map (fun kv => kv.2) ++ contributions post c) = w := by
      rw [filter_key_eq hn hcw]
      have h0 := aggr_zeros v _ hpost
      cases v
      · simp only [aggr, List.map_cons, List.map_nil, List.cons_append, List.nil_append, List.sum_cons] at h0 ⊢
        rw [h0, add_zero]
      · simp only [aggr, List.map_cons, List.map_nil, List.cons_append, List.nil_append, List.foldr_cons] at h0 ⊢
        rw [h0, max_eq_left hw0]
    rw [aggr_zeros_append v _ _ hpre (by rw [key]; exact hw0), key]
  · intro hc
    have hf : cv.filter (fun kv => kv.1 = c) = [] := by
      rw [List.filter_eq_nil_iff]
      intro kv hkv
      simp only [decide_eq_true_eq]
      intro e
      exact hc (e ▸ List.mem_map_of_mem hkv)
    rw [hf]
    apply aggr_zeros
    intro x hx
    rcases List.mem_append.1 hx with hx | hx
    · exact hpre x hx
    · exact hpost x (by simpa using hx)

/-- C35: the prediction on such a row is a heaviest class of the leaf reached by following the active children, for both
voting methods (leaf weights are non-negative, with one entry per class and some positive weight, as in every fitted tree;
see C30). -/
theorem C35_prediction (v : Voting) (row : List (Cell K)) (t : FNode C K) (hroot : t.test = none)
    (hcr : CrispOn row t) (L : List (Dict C K × K)) (hL : RowLeaves min row t L)
    (hw : ∀ q ∈ L, (q.1.map Prod.fst).Nodup ∧ (∀ kv ∈ q.1, 0 ≤ kv.2) ∧ ∃ kv ∈ q.1, 0 < kv.2)
    (c : C) (h : fdtPredict min v t [row] = .ok [[c]]) :
    ∃ cv w, Reaches row t (some cv) ∧ (c, w) ∈ cv ∧ ∀ kv ∈ cv, kv.2 ≤ w := by
  obtain ⟨pre, cv, post, rfl, hz, hr⟩ := C35_one_leaf row t hroot hcr L hL
  obtain ⟨L', hL', pre', post', he, h1, h2⟩ := C27_max_vote min v t row c h
  have := hL'.unique hL
  subst this
  obtain ⟨hn, hnn, kv₀, hkv₀, hpos⟩ := hw (cv, 1) (by simp)
  simp only at hn hnn hkv₀
  have hbest : ∀ kv ∈ cv, kv.2 ≤ vote v (pre ++ (cv, 1) :: post) c := by
    intro kv hkv
    rw [← (crisp_vote v pre post cv hz hn hnn kv.1).1 kv.2 hkv]
    have hm : kv.1 ∈ (pre ++ (cv, 1) :: post).flatMap (fun q => q.1.map Prod.fst) :=
      List.mem_flatMap.2 ⟨(cv, 1), by simp, List.mem_map_of_mem hkv⟩
    rw [he] at hm
    rcases List.mem_append.1 hm with hm | hm
    · exact (h1 _ hm).le
    · rcases List.mem_cons.1 hm with hm | hm
      · rw [hm]
      · exact h2 _ hm
  have hc : c ∈ cv.map Prod.fst := by
    by_contra hc
    have := hbest kv₀ hkv₀
    rw [(crisp_vote v pre post cv hz hn hnn c).2 hc] at this
    exact absurd hpos (not_lt.2 this)
  obtain ⟨kv, hkv, rfl⟩ := List.mem_map.1 hc
  refine ⟨cv, kv.2, hr, hkv, fun kv' h' => ?_⟩
  have := hbest kv' h'
  rwa [(crisp_vote v pre post cv hz hn hnn kv.1).1 kv.2 hkv] at this

theorem exTree_deg (row : List (Cell ℚ)) (t : FTest ℚ) (fs : FSet ℚ) (x : Cell ℚ) (m : ℚ) (h1 : t.var.sets[t.idx]? = some fs)
    (h2 : row[t.att]? = some x) (h3 : (fs.membership [x]).toOption = some [m]) : TestDegree row t m := by
  refine ⟨fs, x, h1, h2, ?_⟩
  cases h : fs.membership [x] with
  | ok l => rw [h] at h3; simp [Except.toOption] at h3; rw [h3]
  | error e => rw [h] at h3; simp [Except.toOption] at h3

/-- the hypotheses of C35 hold for `exTree` on the row `(1, "f")` (and it predicts "yes") -/
example : CrispOn [.num 1, .str "f"] exTree ∧
    RowLeaves min [.num 1, .str "f"] exTree [([("no", 3/4), ("yes", 1/4)], 0), ([("no", 1), ("yes", 0)], 0),
      ([("no", 0), ("yes", 1)], 1), ([("no", 1/8), ("yes", 7/8)], 0)] ∧
    fdtPredict min .agg exTree [[.num 1, .str "f"]] = .ok [["yes"]] := by
  refine ⟨?_, ?_, by decide +kernel⟩
  · simp only [exTree, CrispOn, CrispOnList, Bool.true_eq_false, IsEmpty.forall_iff, true_and, and_true, forall_const]
    refine ⟨⟨[_], _, [_], rfl, ⟨_, rfl, exTree_deg _ _ _ _ _ rfl rfl (by decide +kernel)⟩, ?_⟩,
      [_], _, [], rfl, ⟨_, rfl, exTree_deg _ _ _ _ _ rfl rfl (by decide +kernel)⟩, ?_⟩
    · intro c' hc'
      simp only [List.cons_append, List.nil_append, List.mem_cons, List.not_mem_nil, or_false] at hc'
      rcases hc' with rfl | rfl <;> exact ⟨_, rfl, exTree_deg _ _ _ _ _ rfl rfl (by decide +kernel)⟩
    · intro c' hc'
      simp only [List.append_nil, List.mem_cons, List.not_mem_nil, or_false] at hc'
      subst hc'
      exact ⟨_, rfl, exTree_deg _ _ _ _ _ rfl rfl (by decide +kernel)⟩
  · refine .cons ⟨rfl, [0], .cons (exTree_deg _ _ _ _ _ rfl rfl (by decide +kernel)) .nil, by decide +kernel⟩
      (.cons ⟨rfl, [1, 0], .cons (exTree_deg _ _ _ _ _ rfl rfl (by decide +kernel))
        (.cons (exTree_deg _ _ _ _ _ rfl rfl (by decide +kernel)) .nil), by decide +kernel⟩
      (.cons ⟨rfl, [1, 1], .cons (exTree_deg _ _ _ _ _ rfl rfl (by decide +kernel))
        (.cons (exTree_deg _ _ _ _ _ rfl rfl (by decide +kernel)) .nil), by decide +kernel⟩
      (.cons ⟨rfl, [0], .cons (exTree_deg _ _ _ _ _ rfl rfl (by decide +kernel)) .nil, by decide +kernel⟩ .nil)))

/-! ### C34 -/

theorem foldl_T_zero {T : K → K → K} (hT : ∀ x, 0 ≤ x → T x 0 = 0) (ms : List K) (hne : ms ≠ []) (h : ∀ m ∈ ms, m = 0)
    (a : K) (ha : 0 ≤ a) :
    ms.foldl T a = 0 := by
  induction ms generalizing a with
  | nil => exact absurd rfl hne
  | cons m ms ih =>
    rw [List.foldl_cons, h m (by simp), hT a ha]
    by_cases hms : ms = []
    · subst hms; rfl
    · exact ih hms (fun m hm => h m (by simp [hm])) 0 le_rfl

/-- C34: if every test of the tree has degree 0 on a row, a tree with at least one split predicts the first class listed
in its first leaf, for every t-norm with `T x 0 = 0` for `0 ≤ x` and both voting methods. (In a fitted tree that is the smallest class
label of the training set, `C34_smallest_class`.) -/
theorem C34_first_class (T : K → K → K) (hT : ∀ x, 0 ≤ x → T x 0 = 0) (v : Voting) (row : List (Cell K)) (hrow : row ≠ [])
    (t : FNode C K) (hb : Branching t) (hsplit : ∀ p ∈ leafPaths t, p.1 ≠ [])
    (hzero : ∀ p ∈ leafPaths t, ∀ test ∈ p.1, TestDegree row test 0)
    (c : C) (w : K) (rest : Dict C K) (test0 : List (FTest K)) (paths : List (List (FTest K) × Option (Dict C K)))
    (hfirst : leafPaths t = (test0, some ((c, w) :: rest)) :: paths)
    (hcv : ∀ p ∈ leafPaths t, ∃ cv, p.2 = some cv) :
    fdtPredict T v t [row] = .ok [[c]] := by
  have hL : ∃ L, RowLeaves T row t L ∧ (∀ q ∈ L, q.2 = 0) := by
    have : ∀ p ∈ leafPaths t, ∃ q : Dict C K × K, (p.2 = some q.1 ∧ LeafDegree T row p.1 q.2) ∧ q.2 = 0 := by
      intro p hp
      obtain ⟨cv, hcv⟩ := hcv p hp
      refine ⟨(cv, 0), ⟨hcv, p.1.map (fun _ => 0), ?_, ?_⟩, rfl⟩
      · rw [List.forall₂_map_right_iff]
        exact List.forall₂_same.2 (fun test ht => hzero p hp test ht)
      · rw [foldl_T_zero hT _ (by simpa using hsplit p hp) (by simp) 1 zero_le_one]
    obtain ⟨L, hL⟩ := forall₂_of_forall_exists _ _ this
    refine ⟨L, hL.imp (fun _ _ h => h.1), ?_⟩
    intro q hq
    obtain ⟨p, -, h⟩ := forall₂_mem_right hL q hq
    exact h.2
  obtain ⟨L, hL, hL0⟩ := hL
  apply (C27_predicts T v t row hrow hb L hL).1
  have hv : ∀ c, vote v L c = 0 := by
    intro c
    rw [vote_eq_aggr]
    exact aggr_zeros v _ (contributions_zero hL0 c)
  have hL' := hL
  unfold RowLeaves at hL'
  rw [hfirst] at hL'
  cases hL' with
  | @cons _ q _ L' h _ =>
    obtain ⟨h1, -⟩ := h
    simp only [Option.some.injEq] at h1
    refine ⟨[], rest.map Prod.fst ++ L'.flatMap (fun q => q.1.map Prod.fst), ?_, by simp, ?_⟩
    · rw [List.flatMap_cons, ← h1]; rfl
    · intro c' _
      rw [hv, hv]

example : fdtPredict min .agg exTree [[.num 7, .str "x"]] = .ok [["no"]] ∧
    fdtPredict min .max exTree [[.num 7, .str "x"]] = .ok [["no"]] ∧ ∀ x : ℚ, 0 ≤ x → min x 0 = 0 := by
  refine ⟨by decide +kernel, by decide +kernel, fun x h => min_eq_right h⟩

end Teacher
