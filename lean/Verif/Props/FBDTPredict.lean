import Verif.Props.FBDTFit
import Verif.Props.FDTFitted

/-! Prediction and rules of binary fuzzy trees: C39, C40, and C26, C27, C29, C34, C35, C47 for FBDT. -/

set_option linter.unusedSectionVars false

namespace Teacher
open Spec FB

section
variable {C K : Type} [Field K] [LinearOrder K] [IsStrictOrderedRing K] [DecidableEq C]

/-! ### C26, C27 -/

theorem fbdtPredict_ok_iff (T : K → K → K) (v : Voting) (t : BNode C K) (X : List (List (Cell K))) (out : List (List C)) :
    fbdtPredict T v t X = .ok out ↔ Rectangular X ∧ ∃ cs, out = [cs] ∧ t.predict T v X = .ok cs := by
  unfold fbdtPredict
  rw [py_bind_eq_ok]
  constructor
  · rintro ⟨u, h1, h2⟩
    rw [py_bind_eq_ok] at h2
    obtain ⟨cs, h3, h4⟩ := h2
    cases h4
    exact ⟨(checkArray_ok_iff X).1 h1, cs, rfl, h3⟩
  · rintro ⟨h1, cs, rfl, h2⟩
    exact ⟨(), (checkArray_ok_iff X).2 h1, by rw [h2]; rfl⟩

/-- C26 for FBDT: on every table accepted by `check_array` and for every tree, t-norm and voting method, `predict` returns one list
with one class per row, and it is the list of the classes that `predict` returns for the rows alone; in particular the
batch succeeds exactly when all the rows do. -/
theorem C26_fbdt_row_wise (T : K → K → K) (v : Voting) (t : BNode C K) (X : List (List (Cell K))) (hX : Rectangular X) :
    (∀ out, fbdtPredict T v t X = .ok out → ∃ cs, out = [cs] ∧ cs.length = X.length) ∧
    ∀ cs, fbdtPredict T v t X = .ok [cs] ↔ List.Forall₂ (fun row c => fbdtPredict T v t [row] = .ok [[c]]) X cs := by
  have hne : X ≠ [] := by obtain ⟨_, _, h, _⟩ := hX; exact h
  constructor
  · intro out h
    obtain ⟨-, cs, rfl, hp⟩ := (fbdtPredict_ok_iff T v t X out).1 h
    exact ⟨cs, rfl, ((FB.predict_ok_iff T v t X hne cs).1 hp).2.length_eq.symm⟩
  · intro cs
    have hrow : ∀ row ∈ X, ∀ c, fbdtPredict T v t [row] = .ok [[c]] ↔
        BBranching t ∧ ∃ L, BRowLeaves T row t L ∧ IsWinner v L c := by
      intro row hr c
      rw [fbdtPredict_ok_iff]
      constructor
      · rintro ⟨-, cs, he, hp⟩
        cases he
        obtain ⟨h1, h2⟩ := (FB.predict_ok_iff T v t [row] (by simp) _).1 hp
        cases h2 with
        | cons h _ => exact ⟨h1, h⟩
      · rintro ⟨h1, h2⟩
        exact ⟨hX.singleton hr, [c], rfl, (FB.predict_ok_iff T v t [row] (by simp) _).2 ⟨h1, .cons h2 .nil⟩⟩
    rw [fbdtPredict_ok_iff]
    constructor
    · rintro ⟨-, cs', he, hp⟩
      cases he
      obtain ⟨h1, h2⟩ := (FB.predict_ok_iff T v t X hne _).1 hp
      have aux : ∀ X', (∀ r ∈ X', r ∈ X) → ∀ cs, List.Forall₂ (fun row c => ∃ L, BRowLeaves T row t L ∧ IsWinner v L c) X' cs →
          List.Forall₂ (fun row c => fbdtPredict T v t [row] = .ok [[c]]) X' cs := by
        intro X' hsub cs h
        induction h with
        | nil => exact .nil
        | cons h _ ih => exact .cons ((hrow _ (hsub _ (by simp)) _).2 ⟨h1, h⟩) (ih (fun r hr => hsub r (by simp [hr])))
      exact aux X (fun _ h => h) _ h2
    · intro h
      refine ⟨hX, cs, rfl, (FB.predict_ok_iff T v t X hne _).2 ?_⟩
      have hb : BBranching t := by
        obtain ⟨row, hr⟩ := List.exists_mem_of_ne_nil _ hne
        obtain ⟨c, -, hc⟩ := forall₂_mem_left h row hr
        exact ((hrow row hr c).1 hc).1
      refine ⟨hb, ?_⟩
      have aux : ∀ X', (∀ r ∈ X', r ∈ X) → ∀ cs, List.Forall₂ (fun row c => fbdtPredict T v t [row] = .ok [[c]]) X' cs →
          List.Forall₂ (fun row c => ∃ L, BRowLeaves T row t L ∧ IsWinner v L c) X' cs := by
        intro X' hsub cs h
        induction h with
        | nil => exact .nil
        | cons h _ ih => exact .cons ((hrow _ (hsub _ (by simp)) _).1 h).2 (ih (fun r hr => hsub r (by simp [hr])))
      exact aux X (fun _ h => h) _ h

/-- C27 for FBDT: the predicted class of a row is the first class met in the leaves among those of largest vote, where the vote is
built from the leaf degrees of the row. -/
theorem C27_fbdt_max_vote (T : K → K → K) (v : Voting) (t : BNode C K) (row : List (Cell K)) (c : C)
    (h : fbdtPredict T v t [row] = .ok [[c]]) :
    ∃ L, BRowLeaves T row t L ∧ IsWinner v L c := by
  obtain ⟨-, cs, he, hp⟩ := (fbdtPredict_ok_iff T v t [row] _).1 h
  cases he
  obtain ⟨-, h2⟩ := (FB.predict_ok_iff T v t [row] (by simp) _).1 hp
  cases h2 with
  | cons h _ => exact h

/-- C27 for FBDT: conversely a tree without empty splits predicts the winner of the vote, and some class as soon as one leaf
names a class. -/
theorem C27_fbdt_predicts (T : K → K → K) (v : Voting) (t : BNode C K) (row : List (Cell K)) (hrow : row ≠ [])
    (hb : BBranching t) (L : List (Dict C K × K)) (hL : BRowLeaves T row t L) :
    (∀ c, IsWinner v L c → fbdtPredict T v t [row] = .ok [[c]]) ∧
    ((∃ q ∈ L, q.1 ≠ []) → ∃ c, fbdtPredict T v t [row] = .ok [[c]]) := by
  have h1 : ∀ c, IsWinner v L c → fbdtPredict T v t [row] = .ok [[c]] := by
    intro c hc
    rw [fbdtPredict_ok_iff]
    refine ⟨⟨row.length, List.length_pos_iff.2 hrow, by simp, by simp⟩, [c], rfl, ?_⟩
    exact (FB.predict_ok_iff T v t [row] (by simp) _).2 ⟨hb, .cons ⟨L, hL, hc⟩ .nil⟩
  refine ⟨h1, ?_⟩
  rintro ⟨q, hq, hne⟩
  obtain ⟨kv, hkv⟩ := List.exists_mem_of_ne_nil _ hne
  have hk : L.flatMap (fun q => q.1.map Prod.fst) ≠ [] :=
    List.ne_nil_of_mem (List.mem_flatMap.2 ⟨q, hq, List.mem_map_of_mem hkv⟩)
  obtain ⟨c, hc⟩ := pyMax_ok_of_ne_nil (fun c => vote v L c) _ hk
  obtain ⟨-, m2, pre, post, m3, m4⟩ := pyMax_eq_ok _ _ _ hc
  exact ⟨c, h1 c ⟨pre, post, m3, m4, fun c' hc' => m2 c' (by rw [m3]; simp [hc'])⟩⟩


/-! ### rules -/

theorem bGetRulesList_ok (th : K) (rule : List (String × List String)) (cs : List (BNode C K))
    (f : BNode C K → List (Rule (List String) C K)) (h : ∀ c ∈ cs, bGetRules th rule c = .ok (f c)) :
    bGetRulesList th rule cs = .ok (cs.flatMap f) := by
  induction cs with
  | nil => rfl
  | cons c cs ih =>
    simp only [bGetRulesList]
    rw [h c (by simp), py_bind_ok, ih (fun c hc => h c (by simp [hc]))]
    rfl

/-- rules of one leaf -/
def bLeafRules (th : K) (rule : List (String × List String)) (p : List (BTest K) × Option (Dict C K)) : List (Rule (List String) C K) :=
  ((p.2.getD []).filter (fun kv => th < kv.2)).map (fun kv => ⟨rule ++ p.1.map bClauseOf, kv.1, kv.2⟩)

/-- the tests name sets of their variable -/
def BValid (path : List (BTest K)) : Prop := ∀ test ∈ path, ∀ i ∈ test.idxs, i < test.var.sets.length

theorem bGetRules_ok (th : K) (t : BNode C K) : ∀ (rule : List (String × List String)), BBranching t →
    (∀ p ∈ bLeafPaths t, BValid p.1 ∧ ∃ cv, p.2 = some cv) →
    bGetRules th rule t = .ok ((bLeafPaths t).flatMap (bLeafRules th rule)) := by
  induction t using BNode.induction with
  | h test level m isLeaf cv children ih =>
    intro rule hb hp
    have hnode : BValid test.toList →
        bnodeClause test rule = .ok (rule ++ test.toList.map bClauseOf) := by
      intro hv
      cases test with
      | none => simp [bnodeClause]
      | some t =>
        have := hv t (by simp)
        unfold bnodeClause
        simp only
        rw [mapM_ok_of_forall _ (fun i => ((t.var.sets[i]?).map FSet.name).getD "")]
        · rfl
        · intro i hi
          rw [List.getElem?_eq_getElem (this i hi)]
          rfl
    cases isLeaf with
    | true =>
      simp only [bLeafPaths, if_true] at hp ⊢
      obtain ⟨h1, cv', h2⟩ := hp _ List.mem_cons_self
      simp only at h2
      subst h2
      simp only [bGetRules]
      rw [hnode h1, py_bind_ok]
      simp [bLeafRules]
    | false =>
      simp only [BBranching, forall_const, BBranchingList_iff] at hb
      simp only [bLeafPaths, Bool.false_eq_true, if_false, bLeafPathsList_eq] at hp ⊢
      have hv : BValid test.toList := by
        intro t ht
        obtain ⟨c, hc⟩ := List.exists_mem_of_ne_nil _ hb.1
        obtain ⟨p, hpm⟩ := BBranching.exists_leaf c (hb.2 c hc)
        exact (hp _ (List.mem_map_of_mem (List.mem_flatMap.2 ⟨c, hc, hpm⟩))).1 t (List.mem_append.2 (.inl ht))
      simp only [bGetRules]
      rw [hnode hv, py_bind_ok]
      simp only [Bool.false_eq_true, if_false]
      rw [bGetRulesList_ok th _ children (fun c => (bLeafPaths c).flatMap (bLeafRules th (rule ++ test.toList.map bClauseOf)))]
      · congr 1
        rw [List.flatMap_map, List.flatMap_assoc]
        refine List.flatMap_congr (fun c _ => List.flatMap_congr (fun p _ => ?_))
        simp [bLeafRules]
      · intro c hc
        apply ih c hc _ (hb.2 c hc)
        intro p hpm
        obtain ⟨h1, h2⟩ := hp _ (List.mem_map_of_mem (List.mem_flatMap.2 ⟨c, hc, hpm⟩))
        exact ⟨fun t ht => h1 t (List.mem_append.2 (.inr ht)), h2⟩

theorem bToRules_ok (t : BNode C K) (th : K) (b : Bool) (hb : BBranching t)
    (hp : ∀ p ∈ bLeafPaths t, BValid p.1 ∧ ∃ cv, p.2 = some cv) :
    t.toRules th b = .ok (if b then ((bLeafPaths t).flatMap (bLeafRules th [])).map (Rule.simplify List.length)
      else (bLeafPaths t).flatMap (bLeafRules th [])) := by
  unfold BNode.toRules
  rw [bGetRules_ok th t [] hb hp]
  rfl

/-- the rules of a leaf give each class the contribution of the leaf -/
theorem activation_bLeafRules (deg : Rule (List String) C K → K) (p : List (BTest K) × Option (Dict C K)) (cv : Dict C K) (d : K)
    (hp : p.2 = some cv) (hw : ∀ kv ∈ cv, 0 ≤ kv.2)
    (hdeg : ∀ r ∈ bLeafRules 0 [] p, deg r = d) (c : C) :
    activation deg (bLeafRules 0 [] p) c = ((cv.filter (fun kv => kv.1 = c)).map (fun kv => kv.2 * d)).sum := by
  unfold bLeafRules at hdeg ⊢
  rw [hp] at hdeg ⊢
  simp only [Option.getD_some] at hdeg ⊢
  clear hp
  induction cv with
  | nil => simp
  | cons kv cv ih =>
    have ih' := ih (fun kv h => hw kv (by simp [h]))
    by_cases hpos : 0 < kv.2
    · simp only [List.filter_cons, hpos, decide_true, if_true, List.map_cons] at hdeg ⊢
      rw [activation_cons, ih' (fun r hr => hdeg r (List.mem_cons_of_mem _ hr)), hdeg _ List.mem_cons_self]
      by_cases hc : kv.1 = c
      · simp [hc, mul_comm]
      · simp [hc]
    · have h0 : kv.2 = 0 := le_antisymm (not_lt.1 hpos) (hw kv (by simp))
      simp only [List.filter_cons, hpos, decide_false, Bool.false_eq_true, if_false] at hdeg ⊢
      rw [ih' hdeg]
      by_cases hc : kv.1 = c
      · simp [hc, h0]
      · simp [hc]

theorem activation_map (deg deg' : Rule (List String) C K → K) (f : Rule (List String) C K → Rule (List String) C K)
    (rs : List (Rule (List String) C K)) (h : ∀ r ∈ rs, (f r).consequent = r.consequent ∧ (f r).weight = r.weight ∧ deg' (f r) = deg r)
    (c : C) : activation deg' (rs.map f) c = activation deg rs c := by
  induction rs with
  | nil => rfl
  | cons r rs ih =>
    obtain ⟨h1, h2, h3⟩ := h r (by simp)
    rw [List.map_cons, activation_cons, activation_cons, h1, h2, h3, ih (fun r hr => h r (by simp [hr]))]

end

section
variable {C K : Type} [Field K] [LinearOrder K] [IsStrictOrderedRing K] [LinearOrder C]

/-! ### structure of a fitted tree -/

theorem bNodePaths_self (t : BNode C K) : (t.test.toList, t) ∈ bNodePaths t := by
  obtain ⟨a, b, c, d, e, f⟩ := t
  simp [bNodePaths, BNode.test]

theorem bNodePaths_child {test level m cv} {children : List (BNode C K)} {c : BNode C K} (hc : c ∈ children)
    {q : List (BTest K) × BNode C K} (hq : q ∈ bNodePaths c) :
    (test.toList ++ q.1, q.2) ∈ bNodePaths (.mk test level m false cv children) := by
  simp only [bNodePaths, Bool.false_eq_true, if_false, List.mem_cons, bNodePathsList_eq, List.mem_map]
  exact .inr ⟨q, List.mem_flatMap.2 ⟨c, hc, hq⟩, rfl⟩

theorem bbranching_of_nodes (t : BNode C K) (h : ∀ q ∈ bNodePaths t, q.2.isLeaf = false → q.2.children ≠ []) :
    BBranching t := by
  induction t using BNode.induction with
  | h test level m isLeaf cv children ih =>
    cases isLeaf with
    | true => simp [BBranching]
    | false =>
      simp only [BBranching, forall_const, BBranchingList_iff]
      refine ⟨h _ (bNodePaths_self _) rfl, ?_⟩
      intro c hc
      exact ih c hc (fun q hq => h (test.toList ++ q.1, q.2) (bNodePaths_child hc hq))

variable {ent : List K → List C → K} {p : FDTParams K} {X : List (List (Cell K))} {y : List C} {t : BNode C K}

theorem bfitted_branching [NanSort K] (h : fbdtFit ent p fbdtNew X y = .ok t) : BBranching t := by
  apply bbranching_of_nodes
  intro q hq hl
  obtain ⟨l, r, _, _, hc, -⟩ := C38_two_children ent p X y t h q hq hl
  simp [hc]

theorem bfitted_tests [NanSort K] (h : fbdtFit ent p fbdtNew X y = .ok t) :
    ∀ q ∈ bLeafPaths t, ∀ test ∈ q.1, p.vars[test.att]? = some test.var ∧ test.idxs ≠ [] ∧ ∀ i ∈ test.idxs, i < test.var.sets.length := by
  intro q hq test ht
  obtain ⟨n, hn', -, -⟩ := (bLeafPaths_iff t q).1 hq
  exact (C38_depth ent p X y t h _ hn').2 test ht

theorem bfitted_valid [NanSort K] (h : fbdtFit ent p fbdtNew X y = .ok t) : ∀ q ∈ bLeafPaths t, BValid q.1 ∧ ∃ cv, q.2 = some cv := by
  intro q hq
  obtain ⟨cv, hcv, -⟩ := C38_leaf_distributions ent p X y t h q hq
  exact ⟨fun test ht => (bfitted_tests h q hq test ht).2.2, cv, hcv⟩

theorem bLeafPaths_start (c : BNode C K) (t : BTest K) (ht : c.test = some t) : ∀ p ∈ bLeafPaths c, ∃ rest, p.1 = t :: rest := by
  intro p hp
  obtain ⟨test', _, _, leaf', _, _⟩ := c
  simp only [BNode.test] at ht
  subst ht
  simp only [bLeafPaths] at hp
  split at hp
  · simp only [List.mem_singleton] at hp; subst hp; exact ⟨[], rfl⟩
  · obtain ⟨q, -, rfl⟩ := List.mem_map.1 hp; exact ⟨_, rfl⟩

theorem bfitted_split [NanSort K] (h : fbdtFit ent p fbdtNew X y = .ok t) (hl : t.isLeaf = false) : ∀ q ∈ bLeafPaths t, q.1 ≠ [] := by
  intro q hq
  obtain ⟨l, r, tl, tr, hc, h1, h2, -⟩ := C38_two_children ent p X y t h _ (bNodePaths_self t) hl
  obtain ⟨a, b, c, d, e, f⟩ := t
  simp only [BNode.isLeaf] at hl
  subst hl
  simp only [BNode.children] at hc
  subst hc
  simp only [bLeafPaths, Bool.false_eq_true, if_false, bLeafPathsList_eq] at hq
  obtain ⟨q', hq', rfl⟩ := List.mem_map.1 hq
  obtain ⟨ch, hch, hq2⟩ := List.mem_flatMap.1 hq'
  simp only [List.mem_cons, List.not_mem_nil, or_false] at hch
  rcases hch with rfl | rfl
  · obtain ⟨rest, hr⟩ := bLeafPaths_start _ _ h1 q' hq2
    simp [hr]
  · obtain ⟨rest, hr⟩ := bLeafPaths_start _ _ h2 q' hq2
    simp [hr]

theorem bfitted_rowLeaves [NanSort K] (h : fbdtFit ent p fbdtNew X y = .ok t)
    (T : K → K → K) (row : List (Cell K)) (hrow : WellTyped p.vars row) : ∃ L, BRowLeaves T row t L := by
  apply forall₂_of_forall_exists
  intro q hq
  obtain ⟨cv, hcv, -⟩ := C38_leaf_distributions ent p X y t h q hq
  have : ∀ test ∈ q.1, ∃ m, BTestDegree row test m := by
    intro test ht
    obtain ⟨h2, -, h1⟩ := bfitted_tests h q hq test ht
    obtain ⟨x, hx, hm⟩ := hrow _ _ h2
    have : ∀ i ∈ test.idxs, ∃ m, TestDegree row ⟨test.var, test.att, i⟩ m := by
      intro i hi
      obtain ⟨m, hm⟩ := hm _ (List.getElem_mem (h1 i hi))
      exact ⟨m, _, x, List.getElem?_eq_getElem (h1 i hi), hx, hm⟩
    obtain ⟨ms, hms⟩ := forall₂_of_forall_exists _ _ this
    exact ⟨_, ms, hms, rfl⟩
  obtain ⟨ms, hms⟩ := forall₂_of_forall_exists _ _ this
  exact ⟨(cv, ms.foldl T 1), hcv, ms, hms, rfl⟩

theorem bfitted_rowLeaves_weights [NanSort K] (h : fbdtFit ent p fbdtNew X y = .ok t)
    {T : K → K → K} {row : List (Cell K)} {L : List (Dict C K × K)} (hL : BRowLeaves T row t L) :
    ∀ q ∈ L, (q.1.map Prod.fst).Nodup ∧ (∀ kv ∈ q.1, 0 ≤ kv.2) ∧ (∃ kv ∈ q.1, 0 < kv.2) ∧ ∀ c, c ∈ q.1.map Prod.fst ↔ c ∈ y := by
  intro q hq
  obtain ⟨pth, hp, h1, -⟩ := forall₂_mem_right hL q hq
  obtain ⟨cv, h2, h3, h4, h5, h6⟩ := C38_leaf_distributions ent p X y t h pth hp
  rw [h1] at h2
  cases h2
  refine ⟨h3.imp (fun h => h.ne), fun kv hkv => (h5 kv hkv).1, ?_, h4⟩
  by_contra hc
  push Not at hc
  have : (q.1.map Prod.snd).sum ≤ 0 := by
    apply sum_nonpos_list
    intro x hx
    obtain ⟨kv, hkv, rfl⟩ := List.mem_map.1 hx
    exact hc kv hkv
  rw [h6] at this
  exact absurd this (not_le.2 zero_lt_one)

/-- C27 for FBDT: a fitted tree predicts a class of the training set for every well-typed row, whatever the t-norm and the voting. -/
theorem C27_fbdt_fitted_total [NanSort K] (ent : List K → List C → K) (p : FDTParams K)
    (X : List (List (Cell K))) (y : List C) (t : BNode C K)
    (h : fbdtFit ent p fbdtNew X y = .ok t) (T : K → K → K) (v : Voting) (row : List (Cell K)) (hne : row ≠ [])
    (hrow : WellTyped p.vars row) : ∃ c ∈ y, fbdtPredict T v t [row] = .ok [[c]] := by
  obtain ⟨L, hL⟩ := bfitted_rowLeaves h T row hrow
  have hb := bfitted_branching h
  have hw := bfitted_rowLeaves_weights h hL
  obtain ⟨q0, hq0⟩ := BBranching.exists_leaf t hb
  obtain ⟨q, hq, -⟩ := forall₂_mem_left hL q0 hq0
  obtain ⟨c, hc⟩ := (C27_fbdt_predicts T v t row hne hb L hL).2 ⟨q, hq, by
    obtain ⟨-, -, ⟨kv, hkv, -⟩, -⟩ := hw q hq
    exact List.ne_nil_of_mem hkv⟩
  refine ⟨c, ?_, hc⟩
  obtain ⟨L', hL', pre, post, he, -⟩ := C27_fbdt_max_vote T v t row c hc
  have hm : c ∈ L'.flatMap (fun q => q.1.map Prod.fst) := by rw [he]; simp
  obtain ⟨q', hq', hcq⟩ := List.mem_flatMap.1 hm
  exact ((bfitted_rowLeaves_weights h hL' q' hq').2.2.2 c).1 hcq

/-! ### C39 -/

theorem _root_.Teacher.FB.BTrace.chain {p : FDTParams K} {Xm : Dict String (Dict String (List K))} {n : Nat} {used mu fd d ts mu' fd' d'}
    (h : BTrace p Xm n used mu fd d ts mu' fd' d') (hfd : ∀ att sets, Dict.get? fd att = some sets → sets.Nodup) :
    (∀ t ∈ ts, ∀ sets, Dict.get? fd (bClauseOf t).1 = some sets → (bClauseOf t).2.Subperm sets) ∧
    (∀ t ∈ ts, (bClauseOf t).2.Nodup) ∧
    (ts.map bClauseOf).Pairwise (fun a b => a.1 = b.1 → b.2.Subperm a.2) := by
  induction h with
  | nil => simp
  | cons used mu fd d t att sets s m ts mu' fd' d' _ hsets _ hsub ht _ _ ih =>
    obtain ⟨-, -, hcl, -, -⟩ := childTest_ok ht
    have hnd := hfd att sets hsets
    have hperm := filter_mem_perm hnd hsub
    obtain ⟨i1, i2, i3⟩ := ih (by
      intro att' sets' h'
      rw [Dict.get?_set] at h'
      split at h'
      · cases h'; exact hnd.filter _
      · exact hfd att' sets' h')
    refine ⟨?_, ?_, ?_⟩
    · intro t' ht' sets' hs'
      rcases List.mem_cons.1 ht' with rfl | ht'
      · rw [hcl] at hs' ⊢
        rw [hsets] at hs'
        cases hs'
        exact hsub
      · by_cases e : (bClauseOf t').1 = att
        · have := i1 t' ht' (sets.filter (fun x => x ∈ s)) (by rw [Dict.get?_set]; simp [e])
          rw [e, hsets] at hs'
          cases hs'
          exact this.trans List.filter_sublist.subperm
        · apply i1 t' ht'
          rw [Dict.get?_set, if_neg (fun h => e h.symm)]
          exact hs'
    · intro t' ht'
      rcases List.mem_cons.1 ht' with rfl | ht'
      · rw [hcl]
        obtain ⟨l, hl, hsl⟩ := hsub
        exact hl.nodup_iff.1 (hsl.nodup hnd)
      · exact i2 t' ht'
    · rw [List.map_cons, List.pairwise_cons]
      refine ⟨?_, i3⟩
      intro b hb hab
      obtain ⟨t', ht', rfl⟩ := List.mem_map.1 hb
      rw [hcl] at hab ⊢
      have := i1 t' ht' (sets.filter (fun x => x ∈ s)) (by rw [Dict.get?_set]; simp [← hab])
      exact this.trans hperm.subperm

theorem bfitted_chain [NanSort K] (hn : ∀ v ∈ p.vars, (v.sets.map FSet.name).Nodup) (h : fbdtFit ent p fbdtNew X y = .ok t) :
    ∀ q ∈ bLeafPaths t, (∀ test ∈ q.1, (bClauseOf test).2.Nodup) ∧
      (q.1.map bClauseOf).Pairwise (fun a b => a.1 = b.1 → b.2.Subperm a.2) := by
  intro q hq
  obtain ⟨n, hn', -, -⟩ := (bLeafPaths_iff t q).1 hq
  obtain ⟨-, -, -, -, Xm, -, -, -, hall⟩ := fbdtFit_nodes h
  obtain ⟨used, pmu, mu, fd, d, h1, -, -⟩ := hall _ hn'
  exact (h1.chain (by
    intro att sets hs
    obtain ⟨v, hv, he⟩ := List.mem_map.1 (mem_of_ofPairs_get? _ _ _ hs)
    simp only [Prod.mk.injEq] at he
    rw [← he.2]
    exact hn v hv)).2

theorem simplify_same_matching [NanSort K] (hn : ∀ v ∈ p.vars, (v.sets.map FSet.name).Nodup) (h : fbdtFit ent p fbdtNew X y = .ok t)
    (th : K) : ∀ r ∈ (bLeafPaths t).flatMap (bLeafRules th []), ∀ (inst : Inst K) (deg : String → String → K),
      (∀ cl ∈ r.antecedent, ∀ v ∈ cl.2, HasDegree inst cl.1 v (deg cl.1 v) ∧ 0 ≤ deg cl.1 v) →
      (r.simplify List.length).matchingMulti inst = r.matchingMulti inst := by
  intro r hr inst deg hd
  obtain ⟨q, hq, hr⟩ := List.mem_flatMap.1 hr
  obtain ⟨kv, -, rfl⟩ := List.mem_map.1 hr
  by_cases hne : q.1 = []
  · simp [hne, Rule.simplify]
  · exact C19_same_matching _ inst deg (by simpa using hne) hd (bfitted_chain hn h q hq).2

/-- C39: on a fitted FBDT (sets of a variable with different names) `simplify=True` and `simplify=False` give the same number of rules, in
the same order, with the same consequents and weights, and the same matching on every instance that holds non-negative degrees for the
sets of the rule; also for a tree that is a single leaf, where both fail in the same way. -/
theorem C39_simplify [NanSort K] (ent : List K → List C → K) (p : FDTParams K) (hn : ∀ v ∈ p.vars, (v.sets.map FSet.name).Nodup)
    (X : List (List (Cell K))) (y : List C) (t : BNode C K) (h : fbdtFit ent p fbdtNew X y = .ok t) (verbose : Bool) :
    ∃ rs rs', fbdtToRules t verbose false = .ok rs ∧ fbdtToRules t verbose true = .ok rs' ∧
      List.Forall₂ (fun r r' => r'.consequent = r.consequent ∧ r'.weight = r.weight ∧
        (r'.antecedent.map Prod.fst).Nodup ∧ (∀ cl ∈ r'.antecedent, cl ∈ r.antecedent) ∧
        ∀ (inst : Inst K) (deg : String → String → K),
          (∀ cl ∈ r.antecedent, ∀ v ∈ cl.2, HasDegree inst cl.1 v (deg cl.1 v) ∧ 0 ≤ deg cl.1 v) →
          r'.matchingMulti inst = r.matchingMulti inst) rs rs' := by
  refine ⟨_, _, bToRules_ok t _ false (bfitted_branching h) (bfitted_valid h),
    bToRules_ok t _ true (bfitted_branching h) (bfitted_valid h), ?_⟩
  simp only [Bool.false_eq_true, if_false, if_true]
  rw [List.forall₂_map_right_iff, List.forall₂_same]
  intro r hr
  exact ⟨rfl, rfl, simplify_nodup_fst _ r, simplify_subset _ r, simplify_same_matching hn h _ r hr⟩

/-! ### C40 -/

theorem bTestDegree_nonneg {row : List (Cell K)} {t : BTest K} {m : K} (h : BTestDegree row t m) : 0 ≤ m := by
  obtain ⟨ms, hms, rfl⟩ := h
  apply List.sum_nonneg
  intro x hx
  obtain ⟨i, -, hi⟩ := forall₂_mem_right hms x hx
  exact (TestDegree.range hi).1

theorem bTestDegree_le_one {row : List (Cell K)} {t : BTest K} {m : K} (hrow : SubPartition p.vars row)
    (hv : p.vars[t.att]? = some t.var) (hnd : t.idxs.Nodup) (h : BTestDegree row t m) : m ≤ 1 := by
  obtain ⟨ms, hms, rfl⟩ := h
  obtain ⟨x, ds, hx, hds, hsum⟩ := hrow _ _ hv
  refine le_trans ?_ hsum
  have hdeg : ∀ i d, TestDegree row ⟨t.var, t.att, i⟩ d → i < ds.length ∧ d = ds.getD i 0 := by
    rintro i d ⟨fs, x', h1, h2, h3⟩
    simp only at h1 h2
    rw [hx] at h2
    cases h2
    obtain ⟨hi, rfl⟩ := List.getElem?_eq_some_iff.1 h1
    have hi' : i < ds.length := hds.length_eq ▸ hi
    refine ⟨hi', ?_⟩
    have := (List.forall₂_iff_get.1 hds).2 i hi hi'
    simp only [List.get_eq_getElem] at this
    rw [h3] at this
    simp only [Except.ok.injEq, List.cons.injEq, and_true] at this
    rw [this]
    simp [hi']
  have e1 : ms = t.idxs.map (fun i => ds.getD i 0) := by
    clear hnd
    generalize t.idxs = l at hms
    induction hms with
    | nil => rfl
    | cons h _ ih => rw [List.map_cons, ← ih, ← (hdeg _ _ h).2]
  have e2 : ds = (List.range ds.length).map (fun i => ds.getD i 0) := by
    apply List.ext_getElem
    · simp
    · intro i h1 h2
      simp [h1]
  have hsub : t.idxs.Subperm (List.range ds.length) := by
    apply List.subperm_of_subset hnd
    intro i hi
    obtain ⟨d, -, hd⟩ := forall₂_mem_left hms i hi
    exact List.mem_range.2 (hdeg i d hd).1
  obtain ⟨l, hl, hs⟩ := hsub
  rw [e1, ← (hl.map _).sum_eq]
  conv_rhs => rw [e2]
  apply List.Sublist.sum_le_sum (hs.map _)
  intro z hz
  obtain ⟨i, hi, rfl⟩ := List.mem_map.1 hz
  have hi' := List.mem_range.1 hi
  have := (List.forall₂_iff_get.1 hds).2 i (hds.length_eq.symm ▸ hi') hi'
  simp only [List.get_eq_getElem] at this
  have := (FSet.membership_singleton_range this).1
  simpa [hi'] using this

theorem _root_.Teacher.Spec.SubPartition.wellTyped {vars : List (FVar K)} {row : List (Cell K)} (h : SubPartition vars row) : WellTyped vars row := by
  intro i v hv
  obtain ⟨x, ms, h1, h2, -⟩ := h i v hv
  refine ⟨x, h1, fun s hs => ?_⟩
  obtain ⟨m, -, hm⟩ := forall₂_mem_left h2 s hs
  exact ⟨m, hm⟩

/-- the instance holds, under the names of the variables and sets, the degrees of the row. -/
def Holds (vars : List (FVar K)) (row : List (Cell K)) (inst : Inst K) : Prop :=
  ∀ (i : Nat) v s x m, vars[i]? = some v → s ∈ v.sets → row[i]? = some x → s.membership [x] = .ok [m] → HasDegree inst v.name s.name m

theorem bLeafRules_matching [NanSort K] (hn : ∀ v ∈ p.vars, (v.sets.map FSet.name).Nodup) (h : fbdtFit ent p fbdtNew X y = .ok t)
    (hl : t.isLeaf = false) (row : List (Cell K)) (hrow : SubPartition p.vars row) (inst : Inst K) (hinst : Holds p.vars row inst)
    (simplify : Bool) : ∀ q ∈ bLeafPaths t, ∀ d, BLeafDegree min row q.1 d → ∀ r ∈ bLeafRules 0 [] q,
      (if simplify then r.simplify List.length else r).matchingMulti inst = .ok d := by
  intro q hq d hd r hr
  have hmem : r ∈ (bLeafPaths t).flatMap (bLeafRules 0 []) := List.mem_flatMap.2 ⟨q, hq, hr⟩
  obtain ⟨kv, -, rfl⟩ := List.mem_map.1 hr
  obtain ⟨ms, hms, rfl⟩ := hd
  have hsp := bfitted_split h hl q hq
  -- the degree of each name
  obtain ⟨deg, hdeg⟩ : ∃ deg : String → String → K, ∀ f s x, HasDegree inst f s x → deg f s = x := by
    refine ⟨fun f s => (((Dict.get? inst f).bind (fun d => Dict.get? d s)).getD 0), ?_⟩
    rintro f s x ⟨d, h1, h2⟩
    simp [h1, h2]
  have hknown : ∀ test ∈ q.1, ∀ m, BTestDegree row test m →
      (∀ v ∈ (bClauseOf test).2, HasDegree inst (bClauseOf test).1 v (deg (bClauseOf test).1 v) ∧ 0 ≤ deg (bClauseOf test).1 v) ∧
      m = ((bClauseOf test).2.map (deg (bClauseOf test).1)).sum := by
    intro test ht m hm
    obtain ⟨hv, -, hidx⟩ := bfitted_tests h q hq test ht
    obtain ⟨ds, hds, rfl⟩ := hm
    have key : ∀ i d, TestDegree row ⟨test.var, test.att, i⟩ d →
        HasDegree inst test.var.name (((test.var.sets[i]?).map FSet.name).getD "") d ∧ 0 ≤ d := by
      rintro i d ⟨fs, x, h1, h2, h3⟩
      simp only at h1 h2
      have := hinst _ _ fs x d hv (List.mem_of_getElem? h1) h2 h3
      exact ⟨by simpa [h1] using this, (FSet.membership_singleton_range h3).1⟩
    constructor
    · intro v hv'
      obtain ⟨i, hi, rfl⟩ := List.mem_map.1 hv'
      obtain ⟨d, -, hd⟩ := forall₂_mem_left hds i hi
      obtain ⟨k1, k2⟩ := key i d hd
      have e := hdeg _ _ _ k1
      simp only [bClauseOf] at e ⊢
      rw [e]
      exact ⟨k1, k2⟩
    · simp only [bClauseOf]
      congr 1
      clear hidx
      generalize test.idxs = l at hds
      induction hds with
      | nil => rfl
      | cons h _ ih =>
        rw [List.map_cons, List.map_cons, ← ih, hdeg _ _ _ (key _ _ h).1]
  have hall : ∀ cl ∈ (q.1.map bClauseOf), ∀ v ∈ cl.2, HasDegree inst cl.1 v (deg cl.1 v) ∧ 0 ≤ deg cl.1 v := by
    intro cl hcl
    obtain ⟨test, ht, rfl⟩ := List.mem_map.1 hcl
    obtain ⟨m, -, hm⟩ := forall₂_mem_left hms test ht
    exact (hknown test ht m hm).1
  have e0 : ms = (q.1.map bClauseOf).map (fun cl => (cl.2.map (deg cl.1)).sum) := by
    have : ∀ (l : List (BTest K)) (ms : List K), (∀ t ∈ l, t ∈ q.1) → List.Forall₂ (BTestDegree row) l ms →
        ms = (l.map bClauseOf).map (fun cl => (cl.2.map (deg cl.1)).sum) := by
      intro l ms hl h
      induction h with
      | nil => rfl
      | cons h _ ih =>
        rw [List.map_cons, List.map_cons, ← ih (fun t ht => hl t (by simp [ht])), ← (hknown _ (hl _ (by simp)) _ h).2]
    exact this _ _ (fun _ h => h) hms
  have hmatch : (⟨[] ++ q.1.map bClauseOf, kv.1, kv.2⟩ : Rule (List String) C K).matchingMulti inst = .ok (ms.foldl min 1) := by
    obtain ⟨m, hm, hleast⟩ := (C17_matching_multi (⟨[] ++ q.1.map bClauseOf, kv.1, kv.2⟩ : Rule (List String) C K) inst).2.2
      (by simpa using hsp) deg (fun cl hcl v hv => (hall cl (by simpa using hcl) v hv).1)
    rw [hm]
    have hms1 : ∀ m ∈ ms, m ≤ 1 := by
      intro m hm
      obtain ⟨test, ht, hd⟩ := forall₂_mem_right hms m hm
      refine bTestDegree_le_one hrow (bfitted_tests h q hq test ht).1 ?_ hd
      have := (bfitted_chain hn h q hq).1 test ht
      exact List.Nodup.of_map _ this
    have hne : ms ≠ [] := by
      rw [e0]; simpa using hsp
    have hmin := foldl_min_one ms hms1 hne
    simp only [List.nil_append] at hleast
    rw [← e0] at hleast
    congr 1
    have := (pyMin_eq_ok_iff _ _).1 hmin
    exact le_antisymm (hleast.2 _ this.1) (this.2 _ hleast.1)
  cases simplify with
  | false => simpa using hmatch
  | true =>
    simp only [if_true]
    rw [simplify_same_matching hn h 0 _ hmem inst deg (fun cl hcl => hall cl (by simpa using hcl))]
    exact hmatch

/-- C40: for a fitted FBDT with at least one split and a row whose degrees in the sets of each variable add up to at most 1 (as those of
`get_fuzzy_variables` do, `C40_hypothesis`), the rules of `to_rule_based_system()`, simplified or not, give every class exactly the
`agg_vote` of the tree; and when one class is strictly best, the weighted vote of the rules is the class predicted by the tree. -/
theorem C40_same_votes [NanSort K] (ent : List K → List C → K) (p : FDTParams K) (hn : ∀ v ∈ p.vars, (v.sets.map FSet.name).Nodup)
    (X : List (List (Cell K))) (y : List C) (t : BNode C K)
    (h : fbdtFit ent p fbdtNew X y = .ok t) (hl : t.isLeaf = false)
    (row : List (Cell K)) (hne : row ≠ []) (hrow : SubPartition p.vars row) (inst : Inst K) (hinst : Holds p.vars row inst)
    (simplify : Bool) :
    ∃ rs L deg, fbdtToRules t false simplify = .ok rs ∧ BRowLeaves min row t L ∧
      (∀ r ∈ rs, r.matchingMulti inst = .ok (deg r)) ∧ (∀ c, activation deg rs c = vote .agg L c) ∧
      ∀ c ∈ y, (∀ c' ∈ y, c' ≠ c → vote .agg L c' < vote .agg L c) →
        fbdtPredict min .agg t [row] = .ok [[c]] ∧ weightedVoteMulti rs inst = .ok c := by
  obtain ⟨L, hL⟩ := bfitted_rowLeaves h min row (Spec.SubPartition.wellTyped hrow)
  have hw := bfitted_rowLeaves_weights h hL
  have hb := bfitted_branching h
  have hleaf := bLeafRules_matching hn h hl row hrow inst hinst simplify
  set simp' : Rule (List String) C K → Rule (List String) C K := fun r => if simplify then r.simplify List.length else r with hsimp
  have hcw : ∀ r, (simp' r).consequent = r.consequent ∧ (simp' r).weight = r.weight := by
    intro r; cases simplify <;> simp [hsimp, Rule.simplify]
  set rs := ((bLeafPaths t).flatMap (bLeafRules 0 [])).map simp' with hrs
  set deg : Rule (List String) C K → K := fun r => match r.matchingMulti inst with | .ok m => m | .error _ => 0 with hdegdef
  have hto : fbdtToRules t false simplify = .ok rs := by
    unfold fbdtToRules
    rw [bToRules_ok t _ simplify hb (bfitted_valid h)]
    cases simplify <;> simp [hrs, hsimp]
  have hdeg : ∀ q ∈ bLeafPaths t, ∀ d, BLeafDegree min row q.1 d → ∀ r ∈ bLeafRules 0 [] q, deg (simp' r) = d := by
    intro q hq d hd r hr
    simp only [hdegdef, hsimp, hleaf q hq d hd r hr]
  have hmatch : ∀ r ∈ rs, r.matchingMulti inst = .ok (deg r) := by
    intro r hr
    obtain ⟨r0, hr0, rfl⟩ := List.mem_map.1 hr
    obtain ⟨q, hq, hr0⟩ := List.mem_flatMap.1 hr0
    obtain ⟨q', -, -, hd⟩ := forall₂_mem_left hL q hq
    rw [hdeg q hq _ hd r0 hr0]
    exact hleaf q hq _ hd r0 hr0
  have hact : ∀ c, activation deg rs c = vote .agg L c := by
    intro c
    rw [hrs, activation_map (fun r => deg (simp' r)) deg simp' _ (fun r _ => ⟨(hcw r).1, (hcw r).2, rfl⟩)]
    simp only [vote]
    have aux : ∀ (ps : List (List (BTest K) × Option (Dict C K))) (L : List (Dict C K × K)), (∀ q ∈ ps, q ∈ bLeafPaths t) →
        (∀ q ∈ L, ∀ kv ∈ q.1, 0 ≤ kv.2) →
        List.Forall₂ (fun p q => p.2 = some q.1 ∧ BLeafDegree min row p.1 q.2) ps L →
        activation (fun r => deg (simp' r)) (ps.flatMap (bLeafRules 0 [])) c = (contributions L c).sum := by
      intro ps L hsub hw h
      induction h with
      | nil => rfl
      | @cons p q ps L h _ ih =>
        rw [List.flatMap_cons, activation_append, ih (fun p hp => hsub p (by simp [hp])) (fun q hq => hw q (by simp [hq])),
          activation_bLeafRules _ p q.1 q.2 h.1 (hw q (by simp)) (hdeg p (hsub p (by simp)) q.2 h.2)]
        simp [contributions, List.flatMap_cons]
    exact aux _ L (fun _ h => h) (fun q hq => (hw q hq).2.1) hL
  refine ⟨rs, L, deg, hto, hL, hmatch, hact, ?_⟩
  intro c hc hbest
  have hclass : ∀ c', c' ∈ L.flatMap (fun q => q.1.map Prod.fst) → c' ∈ y := by
    intro c' hc'
    obtain ⟨q', h1, h2⟩ := List.mem_flatMap.1 hc'
    exact ((hw q' h1).2.2.2 c').1 h2
  obtain ⟨p0, hp0⟩ := BBranching.exists_leaf t hb
  obtain ⟨q0, hq0, hpq0, hd0⟩ := forall₂_mem_left hL p0 hp0
  constructor
  · apply (C27_fbdt_predicts min .agg t row hne hb L hL).1
    have hm : c ∈ L.flatMap (fun q => q.1.map Prod.fst) := List.mem_flatMap.2 ⟨q0, hq0, ((hw q0 hq0).2.2.2 c).2 hc⟩
    obtain ⟨pre, post, he, hnot⟩ := List.eq_append_cons_of_mem hm
    refine ⟨pre, post, he, ?_, ?_⟩
    · intro c' hc'
      exact hbest c' (hclass c' (by rw [he]; simp [hc'])) (fun e => hnot (e ▸ hc'))
    · intro c' hc'
      by_cases e : c' = c
      · rw [e]
      · exact (hbest c' (hclass c' (by rw [he]; simp [hc'])) e).le
  · have hcons : ∀ c' ∈ rs.map Rule.consequent, c' ∈ y := by
      intro c' hc'
      obtain ⟨r, hr, rfl⟩ := List.mem_map.1 hc'
      obtain ⟨r0, hr0, rfl⟩ := List.mem_map.1 hr
      obtain ⟨q, hq, hr0⟩ := List.mem_flatMap.1 hr0
      obtain ⟨q', hq', hpq, -⟩ := forall₂_mem_left hL q hq
      obtain ⟨kv, hkv, rfl⟩ := List.mem_map.1 hr0
      rw [hpq] at hkv
      rw [(hcw _).1]
      exact ((hw q' hq').2.2.2 kv.1).1 (List.mem_map_of_mem (List.mem_filter.1 hkv).1)
    have hmem : c ∈ rs.map Rule.consequent := by
      obtain ⟨kv, hkv, hpos⟩ := (hw q0 hq0).2.2.1
      have hr : (⟨[] ++ p0.1.map bClauseOf, kv.1, kv.2⟩ : Rule (List String) C K) ∈ (bLeafPaths t).flatMap (bLeafRules 0 []) := by
        refine List.mem_flatMap.2 ⟨p0, hp0, List.mem_map.2 ⟨kv, List.mem_filter.2 ⟨?_, by simpa using hpos⟩, rfl⟩⟩
        rw [hpq0]; exact hkv
      by_cases e : kv.1 = c
      · rw [← e]
        have := List.mem_map_of_mem (f := Rule.consequent) (List.mem_map_of_mem (f := simp') hr)
        rwa [(hcw _).1] at this
      · have hlt := hbest kv.1 (((hw q0 hq0).2.2.2 kv.1).1 (List.mem_map_of_mem hkv)) e
        by_contra hnc
        rw [← hact c, activation_eq_zero_of_not_mem deg rs c hnc] at hlt
        have hnn : 0 ≤ vote .agg L kv.1 := by
          simp only [vote]
          apply List.sum_nonneg
          intro x hx
          obtain ⟨q', hq', hx⟩ := List.mem_flatMap.1 hx
          obtain ⟨kv', hkv', rfl⟩ := List.mem_map.1 hx
          obtain ⟨p', -, -, ms, hms, he⟩ := forall₂_mem_right hL q' hq'
          refine mul_nonneg ((hw q' hq').2.1 kv' (List.mem_filter.1 hkv').1) ?_
          rw [he]
          have : ∀ (ms : List K) (a : K), 0 ≤ a → (∀ m ∈ ms, 0 ≤ m) → 0 ≤ ms.foldl min a := by
            intro ms
            induction ms with
            | nil => intro a ha _; exact ha
            | cons m ms ih => intro a ha h; exact ih _ (le_min ha (h m (by simp))) (fun x hx => h x (by simp [hx]))
          apply this ms 1 zero_le_one
          intro m hm
          obtain ⟨test, -, ht⟩ := forall₂_mem_right hms m hm
          exact bTestDegree_nonneg ht
        exact absurd hlt (not_lt.2 hnn)
    refine weightedVoteWith_eq_of_strict _ deg rs hmatch c hmem ?_
    intro c' hc' hne
    rw [hact, hact]
    exact hbest c' (hcons c' hc') hne


/-- the hypothesis of `C40_same_votes` on a variable that `get_fuzzy_variables` builds from strictly increasing points: it holds for every
number, inside or outside of the range of the points. -/
theorem C40_hypothesis_continuous (ok : Bool) (ps : List (String × K)) (hinc : (ps.map Prod.snd).Pairwise (· < ·)) (sets : List (CSet K))
    (h : getFuzzyContinuousSets ok ps = .ok sets) (x : K) :
    ∃ ms, List.Forall₂ (fun (s : FSet K) m => s.membership [.num x] = .ok [m]) (sets.map .cont) ms ∧ ms.sum ≤ 1 := by
  match ps, hinc, h with
  | [], _, h => simp [getFuzzyContinuousSets] at h
  | [q], _, h =>
    cases ok with
    | false => rw [(C02_single_peak q).2.1] at h; cases h
    | true =>
      obtain ⟨s, h1, -, h2⟩ := (C02_single_peak q).1
      rw [h1] at h
      cases h
      refine ⟨[if x = q.2 then 1 else 0], .cons (h2 x) .nil, ?_⟩
      by_cases e : x = q.2 <;> simp [e]
  | p₀ :: p₁ :: ps, hinc, h =>
    obtain ⟨l, hl⟩ : ∃ l, (p₀ :: p₁ :: ps).getLast? = some l := ⟨_, List.getLast?_eq_some_getLast (by simp)⟩
    obtain ⟨sets', h1, -, h2⟩ := C02_strong_partition ok p₀ p₁ ps l hl hinc
    rw [h] at h1
    cases h1
    obtain ⟨ms, h3, h4, h5⟩ := h2 x
    rw [mapM_ok_iff, List.forall₂_map_right_iff] at h3
    refine ⟨ms, ?_, ?_⟩
    · rw [List.forall₂_map_left_iff]
      exact h3
    · by_cases hin : p₀.2 ≤ x ∧ x ≤ l.2
      · exact (h4 hin.1 hin.2).le
      · have : x < p₀.2 ∨ l.2 < x := by
          by_contra hc
          push Not at hc
          exact hin hc
        have h0 := h5 this
        rw [List.sum_eq_zero h0]
        exact zero_le_one

/-- the same for a variable built from different discrete values, for every cell. -/
theorem C40_hypothesis_discrete (ds : List (String × Cell K)) (hnd : (ds.map Prod.snd).Nodup) (x : Cell K) :
    ∃ ms, List.Forall₂ (fun (s : FSet K) m => s.membership [x] = .ok [m]) ((getFuzzyDiscreteSets ds).map .disc) ms ∧ ms.sum ≤ 1 := by
  refine ⟨ds.map (fun d => if d.2 = x then 1 else 0), ?_, ?_⟩
  · rw [List.forall₂_map_left_iff, List.forall₂_map_right_iff]
    unfold getFuzzyDiscreteSets
    rw [List.forall₂_map_left_iff, List.forall₂_same]
    intro d _
    simp [FSet.membership, DSet.membership, eq_comm]
  · induction ds with
    | nil => simp
    | cons d ds ih =>
      rw [List.map_cons, List.nodup_cons] at hnd
      rw [List.map_cons, List.sum_cons]
      by_cases e : d.2 = x
      · have : (ds.map (fun d => if d.2 = x then (1:K) else 0)).sum = 0 := by
          apply List.sum_eq_zero
          intro z hz
          obtain ⟨d', hd', rfl⟩ := List.mem_map.1 hz
          rw [if_neg]
          intro e'
          exact hnd.1 (e ▸ e' ▸ List.mem_map_of_mem hd')
        rw [this]; simp [e]
      · rw [if_neg e, zero_add]
        exact ih hnd.2

/-! ### C29, C47 -/

/-- C29 is false of every fitted FBDT: `to_rule_based_system(verbose=True)` returns no rule, `verbose=False` at least one. -/
theorem C29_fbdt_fitted_false [NanSort K] (ent : List K → List C → K) (p : FDTParams K)
    (X : List (List (Cell K))) (y : List C) (t : BNode C K)
    (h : fbdtFit ent p fbdtNew X y = .ok t) (simplify : Bool) :
    fbdtToRules t true simplify = .ok [] ∧ ∃ r rs, fbdtToRules t false simplify = .ok (r :: rs) := by
  have hb := bfitted_branching h
  constructor
  · unfold fbdtToRules
    rw [bToRules_ok t _ simplify hb (bfitted_valid h)]
    have : (bLeafPaths t).flatMap (bLeafRules (1 : K) []) = [] := by
      rw [List.flatMap_eq_nil_iff]
      intro q hq
      obtain ⟨cv, h2, -, -, h3, -⟩ := C38_leaf_distributions ent p X y t h q hq
      unfold bLeafRules
      rw [h2, List.map_eq_nil_iff, List.filter_eq_nil_iff]
      intro kv hkv
      simpa using (h3 kv hkv).2
    simp [this]
  · unfold fbdtToRules
    rw [bToRules_ok t _ simplify hb (bfitted_valid h)]
    obtain ⟨q, hq⟩ := BBranching.exists_leaf t hb
    obtain ⟨cv, h2, -, -, h3, h4⟩ := C38_leaf_distributions ent p X y t h q hq
    have : ∃ kv ∈ cv, 0 < kv.2 := by
      by_contra hc
      push Not at hc
      have : (cv.map Prod.snd).sum ≤ 0 := by
        apply sum_nonpos_list
        intro x hx
        obtain ⟨kv, hkv, rfl⟩ := List.mem_map.1 hx
        exact hc kv hkv
      rw [h4] at this
      exact absurd this (not_le.2 zero_lt_one)
    obtain ⟨kv, hkv, hpos⟩ := this
    have hr : (⟨[] ++ q.1.map bClauseOf, kv.1, kv.2⟩ : Rule (List String) C K) ∈ (bLeafPaths t).flatMap (bLeafRules (0:K) []) := by
      refine List.mem_flatMap.2 ⟨q, hq, List.mem_map.2 ⟨kv, List.mem_filter.2 ⟨?_, by simpa using hpos⟩, rfl⟩⟩
      rw [h2]; exact hkv
    simp only [Bool.false_eq_true, if_false]
    cases he : (bLeafPaths t).flatMap (bLeafRules (0:K) []) with
    | nil => rw [he] at hr; simp at hr
    | cons r rs => cases simplify <;> simp

/-- C47 for FBDT: a fitted FBDT is always turned into a list of rules, one rule per leaf and class of positive weight, with
the clauses of the leaf as antecedent. -/
theorem C47_fbdt_rules [NanSort K] (ent : List K → List C → K) (p : FDTParams K)
    (X : List (List (Cell K))) (y : List C) (t : BNode C K) (h : fbdtFit ent p fbdtNew X y = .ok t) :
    ∃ rs, fbdtToRules t false false = .ok rs ∧
      ∀ r, r ∈ rs ↔ ∃ path cv, (path, some cv) ∈ bLeafPaths t ∧ (r.consequent, r.weight) ∈ cv ∧ 0 < r.weight ∧
        List.Forall₂ (fun (test : BTest K) (cl : String × List String) => cl.1 = test.var.name ∧
          List.Forall₂ (fun i s => ∃ fs, test.var.sets[i]? = some fs ∧ s = fs.name) test.idxs cl.2) path r.antecedent := by
  refine ⟨_, bToRules_ok t 0 false (bfitted_branching h) (bfitted_valid h), ?_⟩
  have hnames : ∀ (v : FVar K) (l : List Nat), (∀ i ∈ l, i < v.sets.length) → ∀ a,
      List.Forall₂ (fun i s => ∃ fs, v.sets[i]? = some fs ∧ s = fs.name) l a ↔
        a = l.map (fun i => ((v.sets[i]?).map FSet.name).getD "") := by
    intro v l hl a
    induction l generalizing a with
    | nil => simp
    | cons i l ih =>
      have hi := hl i (by simp)
      simp only [List.forall₂_cons_left_iff, List.map_cons]
      constructor
      · rintro ⟨b, a', ⟨fs, h1, h2⟩, h3, rfl⟩
        rw [(ih (fun t ht => hl t (by simp [ht])) a').1 h3, h2, h1]
        rfl
      · rintro rfl
        refine ⟨_, _, ⟨_, List.getElem?_eq_getElem hi, ?_⟩, (ih (fun t ht => hl t (by simp [ht])) _).2 rfl, rfl⟩
        simp [hi]
  have hcl : ∀ path : List (BTest K), BValid path → ∀ a,
      List.Forall₂ (fun (test : BTest K) (cl : String × List String) => cl.1 = test.var.name ∧
          List.Forall₂ (fun i s => ∃ fs, test.var.sets[i]? = some fs ∧ s = fs.name) test.idxs cl.2) path a ↔ a = path.map bClauseOf := by
    intro path hp a
    induction path generalizing a with
    | nil => simp
    | cons test path ih =>
      have hi := hp test (by simp)
      simp only [List.forall₂_cons_left_iff, List.map_cons, hnames test.var test.idxs hi]
      constructor
      · rintro ⟨cl, a', ⟨h1, h2⟩, h4, rfl⟩
        rw [(ih (fun t ht => hp t (by simp [ht])) a').1 h4]
        congr 1
        exact Prod.ext h1 h2
      · rintro rfl
        exact ⟨_, _, ⟨rfl, rfl⟩, (ih (fun t ht => hp t (by simp [ht])) _).2 rfl, rfl⟩
  intro r
  simp only [Bool.false_eq_true, if_false]
  rw [List.mem_flatMap]
  constructor
  · rintro ⟨q, hq, hr⟩
    obtain ⟨h1, cv, h2⟩ := bfitted_valid h q hq
    obtain ⟨path, o⟩ := q
    simp only at h2
    subst h2
    simp only [bLeafRules, Option.getD_some, List.mem_map, List.mem_filter, decide_eq_true_eq] at hr
    obtain ⟨kv, ⟨hkv, hpos⟩, rfl⟩ := hr
    exact ⟨path, cv, hq, hkv, hpos, (hcl path h1 _).2 rfl⟩
  · rintro ⟨path, cv, hq, hkv, hpos, ha⟩
    refine ⟨_, hq, ?_⟩
    have := (hcl path (bfitted_valid h _ hq).1 _).1 ha
    simp only [bLeafRules, Option.getD_some, List.mem_map, List.mem_filter, decide_eq_true_eq]
    refine ⟨(r.consequent, r.weight), ⟨hkv, hpos⟩, ?_⟩
    rw [List.nil_append, ← this]

/-! ### C34 -/

/-- C34 for FBDT: if every test of the tree has degree 0 on a row, a tree with at least one split predicts the first class listed
in its first leaf, for every t-norm with `T x 0 = 0` for `0 ≤ x` and both voting methods. (In a fitted tree that is the smallest class
label of the training set, `C34_fbdt_smallest_class`.) -/
theorem C34_fbdt_first_class (T : K → K → K) (hT : ∀ x, 0 ≤ x → T x 0 = 0) (v : Voting) (row : List (Cell K)) (hrow : row ≠ [])
    (t : BNode C K) (hb : BBranching t) (hsplit : ∀ p ∈ bLeafPaths t, p.1 ≠ [])
    (hzero : ∀ p ∈ bLeafPaths t, ∀ test ∈ p.1, BTestDegree row test 0)
    (c : C) (w : K) (rest : Dict C K) (test0 : List (BTest K)) (paths : List (List (BTest K) × Option (Dict C K)))
    (hfirst : bLeafPaths t = (test0, some ((c, w) :: rest)) :: paths)
    (hcv : ∀ p ∈ bLeafPaths t, ∃ cv, p.2 = some cv) :
    fbdtPredict T v t [row] = .ok [[c]] := by
  have hL : ∃ L, BRowLeaves T row t L ∧ (∀ q ∈ L, q.2 = 0) := by
    have : ∀ p ∈ bLeafPaths t, ∃ q : Dict C K × K, (p.2 = some q.1 ∧ BLeafDegree T row p.1 q.2) ∧ q.2 = 0 := by
      intro p hp
      obtain ⟨cv, hcv⟩ := hcv p hp
      refine ⟨(cv, 0), ⟨hcv, p.1.map (fun _ => 0), ?_, ?_⟩, rfl⟩
      · rw [List.forall₂_map_right_iff]
        exact List.forall₂_same.2 (fun test ht => hzero p hp test ht)
      · rw [foldl_T_zero hT _ (by simpa using hsplit p hp) (by simp) 1 zero_le_one]
    obtain ⟨L, hL⟩ := forall₂_of_forall_exists _ _ this
    refine ⟨L, hL.imp (fun _ _ h => h.1), ?_⟩
    intro q hq
    obtain ⟨p, -, h⟩ := forall₂_mem_right hL q hq
    exact h.2
  obtain ⟨L, hL, hL0⟩ := hL
  apply (C27_fbdt_predicts T v t row hrow hb L hL).1
  have hv : ∀ c, vote v L c = 0 := by
    intro c
    rw [vote_eq_aggr]
    exact aggr_zeros v _ (contributions_zero hL0 c)
  have hL' := hL
  unfold BRowLeaves at hL'
  rw [hfirst] at hL'
  cases hL' with
  | @cons _ q _ L' h _ =>
    obtain ⟨h1, -⟩ := h
    simp only [Option.some.injEq] at h1
    refine ⟨[], rest.map Prod.fst ++ L'.flatMap (fun q => q.1.map Prod.fst), ?_, by simp, ?_⟩
    · rw [List.flatMap_cons, ← h1]; rfl
    · intro c' _
      rw [hv, hv]

/-- C34 for FBDT: if a row has degree 0 in every test of a fitted tree with at least one split, the predicted class is the smallest
class of the training labels. -/
theorem C34_fbdt_smallest_class [NanSort K] (ent : List K → List C → K) (p : FDTParams K)
    (X : List (List (Cell K))) (y : List C) (t : BNode C K)
    (h : fbdtFit ent p fbdtNew X y = .ok t) (hl : t.isLeaf = false) (T : K → K → K) (hT : ∀ x, 0 ≤ x → T x 0 = 0)
    (v : Voting) (row : List (Cell K)) (hne : row ≠ [])
    (hzero : ∀ q ∈ bLeafPaths t, ∀ test ∈ q.1, BTestDegree row test 0) :
    ∃ c ∈ y, (∀ c' ∈ y, c ≤ c') ∧ fbdtPredict T v t [row] = .ok [[c]] := by
  have hb := bfitted_branching h
  obtain ⟨q0, hq0⟩ := BBranching.exists_leaf t hb
  have hcv : ∀ q ∈ bLeafPaths t, ∃ cv, q.2 = some cv := by
    intro q hq
    obtain ⟨cv, h1, -⟩ := C38_leaf_distributions ent p X y t h q hq
    exact ⟨cv, h1⟩
  obtain ⟨-, hy, -⟩ := fbdtFit_nodes h
  cases hpaths : bLeafPaths t with
  | nil => rw [hpaths] at hq0; simp at hq0
  | cons q qs =>
    obtain ⟨cv, h1, h2, h3, -⟩ := C38_leaf_distributions ent p X y t h q (by rw [hpaths]; simp)
    obtain ⟨path, o⟩ := q
    simp only at h1
    subst h1
    cases cv with
    | nil =>
      obtain ⟨c, hc⟩ := List.exists_mem_of_ne_nil _ hy
      have := (h3 c).2 hc
      simp at this
    | cons kv rest =>
      refine ⟨kv.1, (h3 kv.1).1 (by simp), ?_, ?_⟩
      · intro c' hc'
        have := (h3 c').2 hc'
        rw [List.map_cons, List.mem_cons] at this
        rcases this with rfl | this
        · exact le_rfl
        · rw [List.map_cons, List.pairwise_cons] at h2
          exact (h2.1 c' this).le
      · exact C34_fbdt_first_class T hT v row hne t hb (bfitted_split h hl) hzero kv.1 kv.2 rest path qs
          hpaths hcv

end

/-! ### examples -/

/-- the rules of a fit, for the examples. -/
def exBRules (p : FDTParams ℚ) (X : List (List (Cell ℚ))) (y : List Nat) (simplify : Bool) :
    Option (List (List (String × List String) × Nat × ℚ)) :=
  ((fbdtFit exEnt p fbdtNew X y).toOption).bind (fun t => ((fbdtToRules t false simplify).toOption).map
    (fun rs => rs.map (fun r => (r.antecedent, r.consequent, r.weight))))

set_option synthInstance.maxSize 1000 in
set_option synthInstance.maxHeartbeats 200000 in
/-- `C39_simplify`, `C47_fbdt_rules`: the fit of `exBX` splits twice on `age`; simplifying keeps the narrower clause. -/
example : exBRules exBParams exBX exBY false = some [([("sex", ["f"])], 1, 1), ([("sex", ["m"]), ("age", ["0"])], 0, 1),
      ([("sex", ["m"]), ("age", ["2", "4", "6"]), ("age", ["2", "4"])], 0, 1 / 2),
      ([("sex", ["m"]), ("age", ["2", "4", "6"]), ("age", ["2", "4"])], 1, 1 / 2),
      ([("sex", ["m"]), ("age", ["2", "4", "6"]), ("age", ["6"])], 1, 1)] ∧
    exBRules exBParams exBX exBY true = some [([("sex", ["f"])], 1, 1), ([("sex", ["m"]), ("age", ["0"])], 0, 1),
      ([("sex", ["m"]), ("age", ["2", "4"])], 0, 1 / 2), ([("sex", ["m"]), ("age", ["2", "4"])], 1, 1 / 2),
      ([("sex", ["m"]), ("age", ["6"])], 1, 1)] ∧
    ∀ v ∈ exBParams.vars, (v.sets.map FSet.name).Nodup := by decide +kernel

/-- `C26_fbdt_row_wise`, `C27_fbdt_max_vote`, `C34_fbdt_smallest_class`: predictions of fitted trees, the last one on a row without any
membership. -/
example : ((fbdtFit exEnt exBParams fbdtNew exBX exBY).toOption).bind (fun t => (fbdtPredict min .agg t exBX).toOption) =
      some [[0, 1, 1, 0, 0, 1, 1]] ∧
    ((fbdtFit exEnt exBParams fbdtNew exBX exBY).toOption).bind (fun t => (fbdtPredict min .max t exBX).toOption) =
      some [[0, 1, 1, 0, 0, 1, 1]] ∧
    ((fbdtFit exEnt exParams fbdtNew exX exY).toOption).bind (fun t => (fbdtPredict min .agg t exX).toOption) =
      some [[0, 1, 0, 1, 1]] ∧
    ((fbdtFit exEnt exParams fbdtNew exX exY).toOption).bind (fun t => (fbdtPredict min .agg t [[.num 100, .str "x"]]).toOption) =
      some [[0]] := by decide +kernel

/-- the row and the instance of `C40_same_votes` for the variables of `exBParams`. -/
example : SubPartition exBParams.vars [.num 3, .str "m"] ∧
    Holds exBParams.vars [.num 3, .str "m"] [("age", [("0", 0), ("2", 1/2), ("4", 1/2), ("6", 0)]), ("sex", [("m", 1), ("f", 0)])] := by
  constructor
  · intro i v hv
    match i, hv with
    | 0, hv =>
      simp only [exBParams, List.getElem?_cons_zero, Option.some.injEq] at hv
      subst hv
      exact ⟨_, [0, 1/2, 1/2, 0], rfl, .cons (by decide +kernel) (.cons (by decide +kernel) (.cons (by decide +kernel)
        (.cons (by decide +kernel) .nil))), by decide +kernel⟩
    | 1, hv =>
      simp only [exBParams, List.getElem?_cons_zero, List.getElem?_cons_succ, Option.some.injEq] at hv
      subst hv
      exact ⟨_, [1, 0], rfl, .cons (by decide +kernel) (.cons (by decide +kernel) .nil), by decide +kernel⟩
    | n + 2, hv => simp [exBParams] at hv
  · intro i v s x m hv hs hx hm
    match i, hv with
    | 0, hv =>
      simp only [exBParams, List.getElem?_cons_zero, Option.some.injEq] at hv hx
      subst hv hx
      simp only [List.mem_cons, List.not_mem_nil, or_false] at hs
      rcases hs with rfl | rfl | rfl | rfl
      · have : m = 0 := by
          have h : (Except.ok [0] : Py (List ℚ)) = .ok [m] := hm ▸ (by decide +kernel)
          simpa [eq_comm] using h
        subst this
        exact ⟨_, rfl, rfl⟩
      · have : m = 1/2 := by
          have h : (Except.ok [1/2] : Py (List ℚ)) = .ok [m] := hm ▸ (by decide +kernel)
          simpa [eq_comm] using h
        subst this
        exact ⟨_, rfl, rfl⟩
      · have : m = 1/2 := by
          have h : (Except.ok [1/2] : Py (List ℚ)) = .ok [m] := hm ▸ (by decide +kernel)
          simpa [eq_comm] using h
        subst this
        exact ⟨_, rfl, rfl⟩
      · have : m = 0 := by
          have h : (Except.ok [0] : Py (List ℚ)) = .ok [m] := hm ▸ (by decide +kernel)
          simpa [eq_comm] using h
        subst this
        exact ⟨_, rfl, rfl⟩
    | 1, hv =>
      simp only [exBParams, List.getElem?_cons_zero, List.getElem?_cons_succ, Option.some.injEq] at hv hx
      subst hv hx
      simp only [List.mem_cons, List.not_mem_nil, or_false] at hs
      rcases hs with rfl | rfl
      · have : m = 1 := by
          have h : (Except.ok [1] : Py (List ℚ)) = .ok [m] := hm ▸ (by decide +kernel)
          simpa [eq_comm] using h
        subst this
        exact ⟨_, rfl, rfl⟩
      · have : m = 0 := by
          have h : (Except.ok [0] : Py (List ℚ)) = .ok [m] := hm ▸ (by decide +kernel)
          simpa [eq_comm] using h
        subst this
        exact ⟨_, rfl, rfl⟩
    | n + 2, hv => simp [exBParams] at hv

/-- variables with overlapping sets: 0 belongs fully to "a" and to "b". -/
def exOParams : FDTParams ℚ where
  vars := [⟨"age", [.cont ⟨"a", 0, 0, 10, false⟩, .cont ⟨"b", 0, 0, 10, false⟩, .cont ⟨"c", 0, 10, 10, false⟩]⟩]
  fuzzyThreshold := 1/100
  maxDepth := 10
  minNumExamples := 2

/-- Without the hypothesis on the degrees `C40_same_votes` is false: here the row 0 has the vote 1 for class 0 in the fitted tree (the
t-norm starts from 1) while the rule `age in {a, b} => 0` of weight 1 matches with 2. -/
theorem C40_overlap_false :
    ∃ t, fbdtFit exEnt exOParams fbdtNew [[.num 0], [.num 10]] [0, 1] = .ok t ∧ t.isLeaf = false ∧
      fbdtToRules t false false = .ok [⟨[("age", ["a", "b"])], 0, 1⟩, ⟨[("age", ["c"])], 1, 1⟩] ∧
      (⟨[("age", ["a", "b"])], 0, 1⟩ : Rule (List String) Nat ℚ).matchingMulti [("age", [("a", 1), ("b", 1), ("c", 0)])] = .ok 2 ∧
      ∃ L, BRowLeaves min [.num 0] t L ∧ vote .agg L 0 = 1 := by
  have h : (fbdtFit exEnt exOParams fbdtNew [[.num 0], [.num 10]] [0, 1]).toOption.map (fun t =>
      (t.isLeaf, (fbdtToRules t false false).toOption)) =
      some (false, some [⟨[("age", ["a", "b"])], 0, 1⟩, ⟨[("age", ["c"])], 1, 1⟩]) := by decide +kernel
  have h2 : (fbdtFit exEnt exOParams fbdtNew [[.num 0], [.num 10]] [0, 1]).toOption.map bLeafPaths =
    some [([⟨⟨"age", [.cont ⟨"a", 0, 0, 10, false⟩, .cont ⟨"b", 0, 0, 10, false⟩, .cont ⟨"c", 0, 10, 10, false⟩]⟩, 0, [0, 1]⟩],
        some [(0, 1), (1, 0)]),
      ([⟨⟨"age", [.cont ⟨"a", 0, 0, 10, false⟩, .cont ⟨"b", 0, 0, 10, false⟩, .cont ⟨"c", 0, 10, 10, false⟩]⟩, 0, [2]⟩],
        some [(0, 0), (1, 1)])] := by decide +kernel
  cases e : fbdtFit exEnt exOParams fbdtNew [[.num 0], [.num 10]] [0, 1] with
  | error _ => rw [e] at h; simp [Except.toOption] at h
  | ok t =>
    rw [e] at h h2
    simp only [Except.toOption, Option.map_some, Option.some.injEq, Prod.mk.injEq] at h h2
    refine ⟨t, rfl, h.1, ?_, by decide +kernel, [([(0, 1), (1, 0)], 1), ([(0, 0), (1, 1)], 0)], ?_, by decide +kernel⟩
    · cases hr : fbdtToRules t false false with
      | error _ => rw [hr] at h; simp at h
      | ok rs => rw [hr] at h; simpa using h.2
    · unfold BRowLeaves
      rw [h2]
      refine .cons ⟨rfl, [2], .cons ⟨[1, 1], .cons ⟨_, _, rfl, rfl, by decide +kernel⟩ (.cons ⟨_, _, rfl, rfl, by decide +kernel⟩ .nil),
        by norm_num⟩ .nil, by decide +kernel⟩ (.cons ⟨rfl, [0], .cons ⟨[0], .cons ⟨_, _, rfl, rfl, by decide +kernel⟩ .nil,
        by norm_num⟩ .nil, by decide +kernel⟩ .nil)

end Teacher
