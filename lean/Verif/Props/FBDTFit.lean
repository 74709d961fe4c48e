import Verif.Lemmas.FBDTFit
import Verif.Props.FDTFit

/-! Properties C37, C38, C41 of `FBDT.fit`, and C110 (refit). -/

set_option linter.unusedSectionVars false

namespace Teacher
open Spec FB

variable {C K : Type} [Field K] [LinearOrder K] [IsStrictOrderedRing K] [LinearOrder C]

/-! ### C37 -/

/-- C37: the candidate splits that `_get_binary_partitions` returns for a dict of sets left: each one is on a feature of the dict, its two
sides are non-empty and together are the sets left of this feature, each as many times as it is there. -/
theorem C37_bipartition [NanSort K] (cats : List String) (Xm : Dict String (Dict String (List K))) (pos : List Bool)
    (fd : Dict String (List String)) (hnd : (Dict.keys fd).Nodup) (parts : List BPart)
    (h : binaryPartitions cats Xm pos fd = .ok parts) :
    ∀ q ∈ parts, ∃ sets, (q.1, sets) ∈ fd ∧ q.2.1 ≠ [] ∧ q.2.2 ≠ [] ∧ (q.2.1 ++ q.2.2).Perm sets ∧
      (sets.Nodup → ∀ s, s ∈ q.2.1 → s ∉ q.2.2) := by
  intro q hq
  obtain ⟨sets, h1, h2, h3, h4⟩ := part_bipartition hnd h hq
  refine ⟨sets, Dict.mem_of_get? h1, h2, h3, h4, ?_⟩
  intro hs s hl hr
  exact (List.nodup_append.1 (h4.nodup_iff.2 hs)).2.2 s hl s hr rfl

/-- C37: and the candidates of a feature that is not categorical are all the cuts of its list of sets, in order. -/
theorem C37_all_cuts [NanSort K] (cats : List String) (Xm : Dict String (Dict String (List K))) (pos : List Bool)
    (fd : Dict String (List String)) (hnd : (Dict.keys fd).Nodup) (parts : List BPart)
    (h : binaryPartitions cats Xm pos fd = .ok parts) (f : String) (sets : List String) (hf : (f, sets) ∈ fd) (hc : f ∉ cats)
    (l r : List String) : (f, l, r) ∈ parts ↔ l ≠ [] ∧ r ≠ [] ∧ l ++ r = sets := by
  have hfo : featureOrder cats Xm pos f sets = .ok sets := by unfold featureOrder; rw [if_neg hc]
  rw [FB.mem_binaryPartitions h]
  constructor
  · rintro ⟨g, sets', s, h1, h2, h3⟩
    obtain ⟨rfl, h4, h5, h6⟩ := mem_cuts_iff.1 h3
    have := Dict.get?_of_mem_nodup hnd h1
    rw [Dict.get?_of_mem_nodup hnd hf] at this
    cases this
    rw [hfo] at h2; cases h2
    exact ⟨h4, h5, h6⟩
  · rintro ⟨h1, h2, h3⟩
    exact ⟨f, sets, sets, hf, hfo, mem_cuts_iff.2 ⟨rfl, h1, h2, h3⟩⟩

/-- C37: a feature with `n` sets left has exactly `n - 1` candidates, whether it is categorical or not. -/
theorem C37_count [NanSort K] (cats : List String) (Xm : Dict String (Dict String (List K))) (pos : List Bool)
    (fd : Dict String (List String)) (parts : List BPart) (h : binaryPartitions cats Xm pos fd = .ok parts) :
    parts.length = (fd.map (fun p => p.2.length - 1)).sum := by
  obtain ⟨l, h1, h2⟩ := py_bind_eq_ok.1 h
  cases h2
  rw [mapM_ok_iff] at h1
  rw [List.length_flatten]
  congr 1
  clear h
  induction h1 with
  | nil => rfl
  | cons h _ ih =>
    obtain ⟨s, hs, hs'⟩ := py_bind_eq_ok.1 h
    cases hs'
    rw [List.map_cons, List.map_cons, ih]
    congr 1
    simp [cuts, (featureOrder_perm hs).length_eq]

/-- the sets of a categorical feature are put in increasing order of the share of the first class, when each of them has an example. -/
theorem featureOrder_sorted [NanSort K] {cats : List String} {Xm : Dict String (Dict String (List K))} {pos : List Bool} {f : String}
    {sets s : List String} (h2 : featureOrder cats Xm pos f sets = .ok s) (hc : f ∈ cats) (share : String → K)
    (hshare : ∀ d s m, Dict.get? Xm f = some d → Dict.get? d s = some m →
      share s = (((m.zip pos).filter Prod.snd).map Prod.fst).sum / m.sum)
    (hne : ∀ d m, ∀ s ∈ sets, Dict.get? Xm f = some d → Dict.get? d s = some m → m.sum ≠ 0) :
    s.Pairwise (fun a b => share a ≤ share b) := by
  unfold featureOrder at h2
  rw [if_pos hc] at h2
  obtain ⟨l, hl, h7⟩ := py_bind_eq_ok.1 h2
  cases h7
  rw [mapM_ok_iff] at hl
  have hval : ∀ w ∈ l, w.2 = some (share w.1) := by
    intro w hw
    obtain ⟨v, hvs, hv⟩ := forall₂_mem_right hl w hw
    unfold positiveShare at hv
    obtain ⟨d, hd, v1⟩ := py_bind_eq_ok.1 hv
    obtain ⟨m, hm, v2⟩ := py_bind_eq_ok.1 v1
    cases v2
    have hd' := Dict.get_eq_ok_iff.1 hd
    have hm' := Dict.get_eq_ok_iff.1 hm
    simp only [if_neg (hne d m v hvs hd' hm'), hshare d v m hd' hm']
  have hsort : sortShares l = l.insertionSort (fun a b => a.2.getD 0 ≤ b.2.getD 0) := by
    unfold sortShares
    rw [if_pos]
    intro q hq
    rw [hval q hq]; rfl
  have hpw : (l.insertionSort (fun a b => a.2.getD 0 ≤ b.2.getD 0)).Pairwise (fun a b => a.2.getD 0 ≤ b.2.getD 0) := by
    have : Std.Total (fun a b : String × Option K => a.2.getD 0 ≤ b.2.getD 0) := ⟨fun a b => le_total _ _⟩
    have : IsTrans (String × Option K) (fun a b : String × Option K => a.2.getD 0 ≤ b.2.getD 0) := ⟨fun a b c h h' => le_trans h h'⟩
    exact List.pairwise_insertionSort _ l
  rw [hsort, List.pairwise_map]
  refine hpw.imp_of_mem ?_
  intro a b ha hb hab
  rw [(List.perm_insertionSort _ l).mem_iff] at ha hb
  rw [hval a ha, hval b hb] at hab
  exact hab

/-- C37: the candidates of a categorical feature are the cuts of its sets in increasing order of the share of the first class, when each
set left has a training example (else the share is nan and the order is the one `sort` makes of it, see `NanSort`). -/
theorem C37_categorical [NanSort K] (cats : List String) (Xm : Dict String (Dict String (List K))) (pos : List Bool)
    (fd : Dict String (List String)) (parts : List BPart)
    (h : binaryPartitions cats Xm pos fd = .ok parts) (share : String → String → K)
    (hshare : ∀ f d s m, Dict.get? Xm f = some d → Dict.get? d s = some m →
      share f s = (((m.zip pos).filter Prod.snd).map Prod.fst).sum / m.sum)
    (hne : ∀ f sets d m, (f, sets) ∈ fd → f ∈ cats → ∀ s ∈ sets, Dict.get? Xm f = some d → Dict.get? d s = some m → m.sum ≠ 0) :
    ∀ q ∈ parts, q.1 ∈ cats → ∀ a ∈ q.2.1, ∀ b ∈ q.2.2, share q.1 a ≤ share q.1 b := by
  intro q hq hc a ha b hb
  obtain ⟨f, sets, s, h1, h2, h3⟩ := (FB.mem_binaryPartitions h q).1 hq
  obtain ⟨rfl, h4, h5, h6⟩ := mem_cuts_iff.1 h3
  have hp2 := featureOrder_sorted h2 hc (share q.1) (hshare q.1) (fun d m s hs => hne _ sets d m h1 hc s hs)
  rw [← h6] at hp2
  exact (List.pairwise_append.1 hp2).2.2 a ha b hb

/-- For the examples: the order is left as it is when some key is nan. -/
instance : NanSort ℚ := ⟨id, fun l => List.Perm.refl l⟩

/-- three ordered sets of `age` and a categorical `sex`. -/
example : binaryPartitions (K := ℚ) ["sex"] [("sex", [("m", [1, 1, 0]), ("f", [0, 0, 1])])] [true, false, false]
      [("age", ["0", "1", "3"]), ("sex", ["m", "f"])] =
    .ok [("age", ["0"], ["1", "3"]), ("age", ["0", "1"], ["3"]), ("sex", ["f"], ["m"])] := by decide +kernel

/-! ### C41 -/

theorem table_of {X : List (List (Cell K))} {vars : List (FVar K)} {Xm : Dict String (Dict String (List K))} {n : Nat}
    (h : datasetMembership X vars = .ok Xm) (hn : X.length = n) : Table Xm n ∧ NonnegTable Xm := by
  constructor
  · intro f d hd s m hm
    rw [← hn]
    exact (table_entries h hd (s, m) (Dict.mem_of_get? hm)).1
  · intro f d hd s m hm x hx
    exact ((table_entries h hd (s, m) (Dict.mem_of_get? hm)).2 x hx).1

/-- C41: `FBDT.fit`, which overwrites arrays shared by a node, its children and their children, returns in every case (also of failure) the
result of the fit in which every node has its own arrays: there the right subtree is a function of the data of its own path, and not of the
left subtree. For every dataset, gain, parameters and state of the object. -/
theorem C41_independent [NanSort K] (ent : List K → List C → K) (p : FDTParams K) (root : BNode C K) (X : List (List (Cell K))) (y : List C) :
    fbdtFit ent p root X y = fitByValue ent p root X y := by
  unfold fbdtFit fitByValue
  cases hc : categoricalFeatures p.vars with
  | error e => rfl
  | ok cats =>
    rw [py_bind_ok, py_bind_ok]
    cases hx : checkArray X with
    | error e => rfl
    | ok u =>
      rw [py_bind_ok, py_bind_ok]
      split
      · rfl
      · rename_i hlen
        cases hm : datasetMembership X p.vars with
        | error e => rfl
        | ok Xm =>
          rw [py_bind_ok, py_bind_ok]
          have hT := (table_of hm (not_not.1 hlen)).1
          have := FB.grow_spec ent cats p Xm y hT (p.maxDepth + 1) 0 []
            (.mk root.test root.level (y.map (fun _ => 1)) root.isLeaf root.classValue root.children) [] [] (setNames p.vars)
            ⟨fun f r h => by simp at h, fun f h => rfl, fun f g r h => by simp at h⟩
          revert this
          generalize bPartialFit ent cats p Xm y (p.maxDepth + 1) 0 [] _ [] (setNames p.vars) = a
          generalize growByValue ent cats p Xm y (p.maxDepth + 1) 0 _ [] (setNames p.vars) = b
          cases a <;> cases b
          · intro h; exact congrArg _ h
          · intro h; exact h.elim
          · intro h; exact h.elim
          · intro h; exact congrArg _ h.1

/-! ### C38 -/

/-- what is known of every node of a fitted tree -/
theorem fbdtFit_nodes [NanSort K] {ent : List K → List C → K} {p : FDTParams K} {X : List (List (Cell K))} {y : List C} {t : BNode C K}
    (h : fbdtFit ent p fbdtNew X y = .ok t) :
    X ≠ [] ∧ y ≠ [] ∧ X.length = y.length ∧ t.test = none ∧ ∃ Xm, datasetMembership X p.vars = .ok Xm ∧
      Table Xm y.length ∧ NonnegTable Xm ∧ ∀ q ∈ bNodePaths t, ∃ used pmu mu fd d,
        BTrace p Xm y.length [] (y.map (fun _ => 1)) (setNames p.vars) 0 q.1 mu fd d ∧ BGrown p Xm y used pmu mu fd d q.2 ∧
        ((q.1 = [] ∧ pmu = y.map (fun _ => 1)) ∨ (q.1 ≠ [] ∧ ∃ fd' d', BTrace p Xm y.length [] (y.map (fun _ => 1)) (setNames p.vars) 0
          q.1.dropLast pmu fd' d')) := by
  rw [C41_independent] at h
  unfold fitByValue at h
  obtain ⟨cats, -, h1⟩ := py_bind_eq_ok.1 h
  obtain ⟨_, hX, h2⟩ := py_bind_eq_ok.1 h1
  obtain ⟨n, -, hne, -⟩ := (checkArray_ok_iff X).1 hX
  split at h2
  · cases h2
  · rename_i hlen
    have hlen' := not_not.1 hlen
    obtain ⟨Xm, hXm, h3⟩ := py_bind_eq_ok.1 h2
    obtain ⟨hT, hN⟩ := table_of hXm hlen'
    have hy : y ≠ [] := by
      intro e
      rw [e] at hlen'
      exact hne (List.length_eq_zero_iff.1 hlen')
    obtain ⟨g1, g2⟩ := grow_grown hT _ _ _ _ _ t [] (y.map (fun _ => 1)) ⟨fun f a hf => by simp at hf, fun f => by simp⟩
      (Dict.nodup_keys_ofPairs _) rfl h3
    refine ⟨hne, hy, hlen', g2, Xm, hXm, hT, hN, ?_⟩
    intro q hq
    obtain ⟨rest, used, pmu, mu, fd, d, h4, h5, h6, h7⟩ := g1.nodes q hq
    have h2' : t.test = none := g2
    rw [h2'] at h4
    have h4' : q.1 = rest := h4
    subst h4'
    exact ⟨used, pmu, mu, fd, d, h5, h6, h7⟩

theorem degrees_ones (y : List C) : Degrees y.length (y.map (fun _ => (1:K))) :=
  ⟨by simp, fun x hx => by obtain ⟨_, -, rfl⟩ := List.mem_map.1 hx; exact ⟨zero_le_one, le_rfl⟩⟩

theorem bLeafPaths_iff (t : BNode C K) (q : List (BTest K) × Option (Dict C K)) :
    q ∈ bLeafPaths t ↔ ∃ n, (q.1, n) ∈ bNodePaths t ∧ n.isLeaf = true ∧ n.classValue = q.2 := by
  induction t using BNode.induction generalizing q with
  | h test level m isLeaf cv children ih =>
    cases isLeaf with
    | true =>
      simp only [bLeafPaths, if_true, bNodePaths, List.mem_singleton]
      constructor
      · rintro rfl; exact ⟨_, rfl, rfl, rfl⟩
      · rintro ⟨n, h1, h2, h3⟩
        obtain ⟨q1, q2⟩ := q
        simp only [Prod.mk.injEq] at h1 h3
        obtain ⟨rfl, rfl⟩ := h1
        rw [← h3]; rfl
    | false =>
      simp only [bLeafPaths, Bool.false_eq_true, if_false, bNodePaths, bLeafPathsList_eq, bNodePathsList_eq, List.mem_cons,
        List.mem_map, List.mem_flatMap]
      constructor
      · rintro ⟨q', ⟨c, hc, hq'⟩, rfl⟩
        obtain ⟨n, h1, h2, h3⟩ := (ih c hc q').1 hq'
        exact ⟨n, .inr ⟨(q'.1, n), ⟨c, hc, h1⟩, rfl⟩, h2, h3⟩
      · rintro ⟨n, h1 | ⟨q', ⟨c, hc, hq'⟩, he⟩, h2, h3⟩
        · obtain ⟨q1, q2⟩ := q
          simp only [Prod.mk.injEq] at h1
          rw [h1.2] at h2; cases h2
        · obtain ⟨q1, q2⟩ := q
          simp only [Prod.mk.injEq] at he h3
          obtain ⟨rfl, rfl⟩ := he
          exact ⟨(q'.1, q2), ⟨c, hc, (ih c hc (q'.1, q2)).2 ⟨q'.2, hq', h2, h3⟩⟩, rfl⟩

/-- C38: after `fit` on a new object, every leaf maps exactly the classes of `y`, in increasing order, to weights in [0,1]
that add up to 1; for every gain function, threshold and depth. -/
theorem C38_leaf_distributions [NanSort K] (ent : List K → List C → K) (p : FDTParams K)
    (X : List (List (Cell K))) (y : List C) (t : BNode C K) (h : fbdtFit ent p fbdtNew X y = .ok t) :
    ∀ q ∈ bLeafPaths t, ∃ cv, q.2 = some cv ∧ (cv.map Prod.fst).Pairwise (· < ·) ∧
      (∀ c, c ∈ cv.map Prod.fst ↔ c ∈ y) ∧ (∀ kv ∈ cv, 0 ≤ kv.2 ∧ kv.2 ≤ 1) ∧ (cv.map Prod.snd).sum = 1 := by
  intro q hq
  obtain ⟨n, hn, hl, hcv⟩ := (bLeafPaths_iff t q).1 hq
  obtain ⟨-, hy, -, -, Xm, -, hT, hN, hall⟩ := fbdtFit_nodes h
  obtain ⟨used, pmu, mu, fd, d, h1, h2, h3⟩ := hall _ hn
  have key : ∀ (mu' : List K) (cv : Dict C K), Degrees y.length mu' → classValueOf mu' y = .ok cv → (cv.map Prod.fst).Pairwise (· < ·) ∧
      (∀ c, c ∈ cv.map Prod.fst ↔ c ∈ y) ∧ (∀ kv ∈ cv, 0 ≤ kv.2 ∧ kv.2 ≤ 1) ∧ (cv.map Prod.snd).sum = 1 := by
    intro mu' cv hd hc
    obtain ⟨r1, r2⟩ := classValueOf_ok hy hc
    exact ⟨r2.1, r2.2.1, r2.range hd.1 (fun m hm => (hd.2 m hm).1) r1, r2.sum_one hd.1 r1⟩
  simp only at h2 hcv
  cases h2 with
  | empty hz test cv hcv' =>
    refine ⟨_, hcv.symm, key pmu _ ?_ (by assumption)⟩
    rcases h3 with ⟨-, rfl⟩ | ⟨-, fd', d', h4⟩
    · exact degrees_ones y
    · exact h4.degrees hN hT (degrees_ones y)
  | leaf test cv hcv' => exact ⟨_, hcv.symm, key mu _ (h1.degrees hN hT (degrees_ones y)) (by assumption)⟩
  | split => simp [BNode.isLeaf] at hl

/-- C38: no node is deeper than `max_depth`, and every test on a path is on the fuzzy variable with its number and a non-empty list of
sets of this variable. -/
theorem C38_depth [NanSort K] (ent : List K → List C → K) (p : FDTParams K)
    (X : List (List (Cell K))) (y : List C) (t : BNode C K) (h : fbdtFit ent p fbdtNew X y = .ok t) :
    ∀ q ∈ bNodePaths t, q.1.length ≤ p.maxDepth ∧ ∀ test ∈ q.1, p.vars[test.att]? = some test.var ∧ test.idxs ≠ [] ∧
      ∀ i ∈ test.idxs, i < test.var.sets.length := by
  intro q hq
  obtain ⟨-, -, -, -, Xm, -, -, -, hall⟩ := fbdtFit_nodes h
  obtain ⟨used, pmu, mu, fd, d, h1, -, -⟩ := hall _ hq
  refine ⟨?_, h1.tests⟩
  by_cases e : q.1 = []
  · simp [e]
  · have := h1.depth
    have h2 := this.2 e
    rw [this.1] at h2
    omega

/-- C38: every inner node has exactly two children, both testing the same variable. With unique names, the numbers of the sets of the left
test and of the right test are non-empty, and together they are exactly those left by the path to the node: all the sets of
the variable, or the ones of the last test on it. -/
theorem C38_two_children [NanSort K] (ent : List K → List C → K) (p : FDTParams K)
    (X : List (List (Cell K))) (y : List C) (t : BNode C K) (h : fbdtFit ent p fbdtNew X y = .ok t) :
    ∀ q ∈ bNodePaths t, q.2.isLeaf = false → ∃ l r tl tr, q.2.children = [l, r] ∧ l.test = some tl ∧ r.test = some tr ∧
      tl.att = tr.att ∧ tl.var = tr.var ∧ tl.idxs ≠ [] ∧ tr.idxs ≠ [] ∧
      ((p.vars.map FVar.name).Nodup → (∀ v ∈ p.vars, (v.sets.map FSet.name).Nodup) →
        (tl.idxs ++ tr.idxs).Perm (available p.vars q.1 tl.att)) := by
  intro q hq hl
  obtain ⟨-, -, -, -, Xm, -, -, -, hall⟩ := fbdtFit_nodes h
  obtain ⟨used, pmu, mu, fd, d, h1, h2, -⟩ := hall _ hq
  obtain ⟨path, node⟩ := q
  simp only at h1 h2 hl ⊢
  cases h2 with
  | empty => simp [BNode.isLeaf] at hl
  | leaf => simp [BNode.isLeaf] at hl
  | split _ _ _ _ _ test cv att sets sl sr tl tr ml mr l r hd hsets hsl hsr hperm htl htr hml hmr hlt hrt gl gr =>
    obtain ⟨a1, a2, a3, a4, a5⟩ := childTest_ok htl
    obtain ⟨b1, b2, b3, b4, b5⟩ := childTest_ok htr
    rw [a1] at b1
    have hatt := Option.some.inj b1
    have hvar : tl.var = tr.var := by
      rw [← hatt, a2] at b2
      exact Option.some.inj b2
    have hne : ∀ (t : BTest K) s, s ≠ [] → bClauseOf t = (att, s) → t.idxs ≠ [] := by
      intro t s hs hb e
      have := congrArg Prod.snd hb
      simp only [bClauseOf, e, List.map_nil] at this
      exact hs this.symm
    refine ⟨l, r, tl, tr, rfl, hlt, hrt, hatt, hvar, hne tl sl hsl a3, hne tr sr hsr b3, ?_⟩
    intro hv hn
    obtain ⟨-, i, v, idxs, c1, c2, c3, c4⟩ := h1.lists (lists_init hv hn) att sets hsets
    rw [a1] at c1; cases c1
    rw [a2] at c2; cases c2
    obtain ⟨l', hl', hp⟩ := mapM_get_perm hperm c3
    have : (sl ++ sr).mapM (Dict.get (setIndices tl.var)) = .ok (tl.idxs ++ tr.idxs) := by
      rw [hvar] at a5 ⊢
      rw [List.mapM_append, a5, b5]
      rfl
    rw [this] at hl'
    rw [Except.ok.inj hl']
    exact hp.trans c4

theorem membership_keys {v : FVar K} {col : List (Cell K)} {d : Dict String (List K)} (h : v.membership col = .ok d) :
    ∀ s ∈ v.sets.map FSet.name, s ∈ Dict.keys d := by
  intro s hs
  unfold FVar.membership at h
  obtain ⟨ps, hps, h1⟩ := py_bind_eq_ok.1 h
  cases h1
  rw [Dict.mem_keys_ofPairs]
  rw [mapM_ok_iff] at hps
  obtain ⟨fs, hfs, rfl⟩ := List.mem_map.1 hs
  obtain ⟨q, hq, hr⟩ := forall₂_mem_left hps fs hfs
  obtain ⟨m, -, hm⟩ := py_bind_eq_ok.1 hr
  cases hm
  exact List.mem_map.2 ⟨_, hq, rfl⟩

theorem categoricalFeatures_ok {vars : List (FVar K)} (h : ∀ v ∈ vars, v.sets ≠ []) : ∃ cats, categoricalFeatures vars = .ok cats ∧
    ∀ f, f ∈ cats ↔ ∃ v ∈ vars, v.name = f ∧ ∃ d, v.sets[0]? = some (.disc d) := by
  refine ⟨((vars.map (fun v => (v.name, match v.sets[0]? with | some (.disc _) => true | _ => false))).filter Prod.snd).map Prod.fst, ?_, ?_⟩
  · unfold categoricalFeatures
    rw [mapM_ok_of_forall _ (fun v => (v.name, match v.sets[0]? with | some (.disc _) => true | _ => false))]
    · rfl
    · intro v hv
      cases hs : v.sets with
      | nil => exact absurd hs (h v hv)
      | cons s ss => cases s <;> simp
  · intro f
    simp only [List.mem_map, List.mem_filter]
    constructor
    · rintro ⟨q, ⟨⟨v, hv, rfl⟩, hb⟩, rfl⟩
      refine ⟨v, hv, rfl, ?_⟩
      simp only at hb
      split at hb
      · rename_i d hd; exact ⟨d, hd⟩
      · cases hb
    · rintro ⟨v, hv, rfl, d, hd⟩
      exact ⟨_, ⟨⟨v, hv, rfl⟩, by simp [hd]⟩, rfl⟩

/-- C38: `fit` succeeds, and in particular terminates (the recursion is not deeper than `max_depth + 1`), on every dataset whose cells have
a membership in the sets of their variables, with unique variable names and at least one set per variable (a category without training examples is fine);
for every gain and every state of the object, provided `fuzzy_threshold > 0`. -/
theorem C38_fit_succeeds [NanSort K] (ent : List K → List C → K) (p : FDTParams K) (hth : 0 < p.fuzzyThreshold) (root : BNode C K)
    (X : List (List (Cell K))) (y : List C) (hR : Rectangular X) (hlen : X.length = y.length) (hv : (p.vars.map FVar.name).Nodup)
    (hsets : ∀ v ∈ p.vars, v.sets ≠ [])
    (hcells : ∀ (i : Nat) v, p.vars[i]? = some v → ∀ row ∈ X, ∃ x, row[i]? = some x ∧
      ∀ s ∈ v.sets, ∃ m, s.membership [x] = .ok [m]) :
    ∃ t, fbdtFit ent p root X y = .ok t := by
  obtain ⟨Xm, hXm⟩ := C11_succeeds X p.vars hR hcells
  obtain ⟨hT, hN⟩ := table_of hXm hlen
  obtain ⟨cats, hcats, hcmem⟩ := categoricalFeatures_ok hsets
  have hy : 0 < y.length := by
    obtain ⟨_, _, hne, _⟩ := hR
    rw [← hlen]; exact List.length_pos_iff.2 hne
  rw [C41_independent]
  unfold fitByValue
  rw [hcats, py_bind_ok, (checkArray_ok_iff X).2 hR, py_bind_ok, if_neg (by simp [hlen]), hXm, py_bind_ok]
  refine grow_exists hth hT (List.length_pos_iff.1 hy) _ _ _ [] _ _ (by omega) (Nat.zero_le _) ⟨fun f a hf => by simp at hf, fun f => by simp⟩
    (Dict.nodup_keys_ofPairs _) ?_ ?_
  · intro att sets hs
    have hmem := mem_of_ofPairs_get? _ _ _ hs
    obtain ⟨v, hvm, he⟩ := List.mem_map.1 hmem
    simp only [Prod.mk.injEq] at he
    obtain ⟨rfl, rfl⟩ := he
    rcases datasetMembership_lookup hXm v.name with ⟨-, h1⟩ | ⟨j, v', col, d, h1, h2, h3, h4, h5, h6⟩
    · rw [Dict.get?_eq_none_iff, mem_keys_featuresDict] at h1
      exact absurd (List.mem_map_of_mem hvm) h1
    · have hvv : v' = v := List.inj_on_of_nodup_map hv (List.mem_of_getElem? h2) hvm h3
      subst hvv
      refine ⟨j, v', d, h1, h2, h6, ?_⟩
      intro s hsm
      refine ⟨?_, ?_⟩
      · rw [Dict.get?_isSome_iff]
        unfold setIndices
        rw [Dict.mem_keys_ofPairs]
        obtain ⟨fs, hfs, rfl⟩ := List.mem_map.1 hsm
        obtain ⟨i, hi, he⟩ := List.getElem_of_mem hfs
        refine List.mem_map.2 ⟨(fs.name, i), List.mem_map.2 ⟨(fs, i), ?_, rfl⟩, rfl⟩
        rw [List.mem_zipIdx_iff_getElem?]
        simp [hi, he]
      · have hk : s ∈ Dict.keys d := membership_keys h5 s hsm
        obtain ⟨m, hm⟩ := (Dict.get?_isSome_iff d s).2 hk
        exact ⟨m, hm⟩
  · simp only [BNode.mu, sum_ones]
    exact_mod_cast hy

/-! #### no fit runs out of recursion fuel -/

theorem noFuel_bind {α β : Type} {x : Py α} {f : α → Py β} (hx : x ≠ .error .fuel) (hf : ∀ a, f a ≠ .error .fuel) :
    (x >>= f) ≠ .error .fuel := by
  intro h
  rcases py_bind_eq_error.1 h with h | ⟨a, -, h⟩
  · exact hx h
  · exact hf a h

theorem noFuel_mapM {α β : Type} {f : α → Py β} (l : List α) (hf : ∀ a, f a ≠ .error .fuel) : l.mapM f ≠ .error .fuel := by
  induction l with
  | nil => simp
  | cons a l ih =>
    rw [List.mapM_cons]
    exact noFuel_bind (hf a) (fun b => noFuel_bind ih (fun bs => by simp))

theorem noFuel_foldlM {α β : Type} {f : β → α → Py β} (l : List α) (hf : ∀ b a, f b a ≠ .error .fuel) (b : β) :
    l.foldlM f b ≠ .error .fuel := by
  induction l generalizing b with
  | nil => simp
  | cons a l ih =>
    rw [List.foldlM_cons]
    exact noFuel_bind (hf b a) (fun b => ih b)

theorem noFuel_get {α β : Type} [DecidableEq α] (d : Dict α β) (a : α) : Dict.get d a ≠ .error .fuel := by
  intro h
  rw [Dict.get_eq_error_iff] at h; exact absurd h.2 (by simp)

theorem noFuel_npDiv (a b : K) : npDiv a b ≠ .error .fuel := by
  unfold npDiv; split <;> simp

theorem noFuel_classValueOf (mu : List K) (y : List C) : classValueOf mu y ≠ .error .fuel := by
  unfold classValueOf
  exact noFuel_mapM _ (fun c => noFuel_bind (noFuel_npDiv _ _) (fun _ => by simp))

theorem noFuel_sumSets (Xm : Dict String (Dict String (List K))) (n : Nat) (f : String) (sets : List String) :
    sumSets Xm n f sets ≠ .error .fuel := by
  unfold sumSets
  exact noFuel_foldlM _ (fun b a => noFuel_bind (noFuel_get _ _) (fun d => noFuel_bind (noFuel_get _ _) (fun _ => by simp))) _

theorem noFuel_maxGain [NanSort K] (ent : List K → List C → K) (cats : List String) (Xm : Dict String (Dict String (List K))) (y : List C)
    (mu : List K) (ign : Dict String (List K)) (fd : Dict String (List String)) :
    maxGainByValue ent cats Xm y mu ign fd ≠ .error .fuel := by
  unfold maxGainByValue
  split
  · simp
  · refine noFuel_bind ?_ (fun parts => noFuel_foldlM _ (fun st part => ?_) _)
    · unfold binaryPartitions
      refine noFuel_bind (noFuel_mapM _ (fun q => noFuel_bind ?_ (fun _ => by simp))) (fun _ => by simp)
      unfold featureOrder
      split
      · refine noFuel_bind (noFuel_mapM _ (fun s => ?_)) (fun _ => by simp)
        unfold positiveShare
        exact noFuel_bind (noFuel_get _ _) (fun d => noFuel_bind (noFuel_get _ _) (fun m => by simp))
      · simp
    · unfold partByValue
      refine noFuel_bind (noFuel_sumSets _ _ _ _) (fun lm => noFuel_bind (noFuel_sumSets _ _ _ _) (fun rm => noFuel_bind ?_ (fun _ => by simp)))
      unfold splitGainOf
      exact noFuel_bind (noFuel_npDiv _ _) (fun _ => by simp)

theorem noFuel_grow [NanSort K] (ent : List K → List C → K) (cats : List String) (p : FDTParams K)
    (Xm : Dict String (Dict String (List K))) (y : List C) (fuel : Nat) :
    ∀ (depth : Nat) (cur : BNode C K) (ign : Dict String (List K)) (fd : Dict String (List String)), p.maxDepth < fuel + depth →
    depth ≤ p.maxDepth → growByValue ent cats p Xm y fuel depth cur ign fd ≠ .error .fuel := by
  induction fuel with
  | zero => intro depth _ _ _ h h'; omega
  | succ fuel ih =>
    intro depth cur ign fd hfuel hdep
    rw [growByValue.eq_def]
    simp only
    refine noFuel_bind (noFuel_maxGain _ _ _ _ _ _ _) ?_
    rintro ⟨best, ign'⟩
    simp only
    split_ifs with hstop
    · exact noFuel_bind (noFuel_classValueOf _ _) (fun _ => by simp)
    · have hns : depth < p.maxDepth := by
        by_contra hc
        apply hstop
        simp only [stopMet, Bool.or_eq_true, decide_eq_true_eq]
        exact .inl (.inr (not_lt.1 hc))
      have hchild : ∀ att s m a, childByValue (growByValue ent cats p Xm y fuel (depth + 1)) p y cur.mu ign' fd att s m a ≠
          .error .fuel := by
        intro att s m a
        unfold childByValue
        refine noFuel_bind ?_ (fun test => noFuel_bind ?_ (fun fd' => ?_))
        · unfold childTest
          refine noFuel_bind (noFuel_get _ _) (fun fi => noFuel_bind ?_ (fun v => noFuel_bind (noFuel_mapM _ (fun _ => noFuel_get _ _)) (fun _ => by simp)))
          split <;> simp
        · unfold restrictDict
          exact noFuel_bind (noFuel_get _ _) (fun _ => by simp)
        · split
          · exact ih _ _ _ _ (by omega) (by omega)
          · exact noFuel_bind (noFuel_classValueOf _ _) (fun _ => by simp)
      cases best with
      | none => simp
      | some b => exact noFuel_bind (hchild _ _ _ _) (fun l => noFuel_bind (hchild _ _ _ _) (fun r => by simp))

theorem noFuel_membership (X : List (List (Cell K))) (vars : List (FVar K)) : datasetMembership X vars ≠ .error .fuel := by
  have hF : ∀ (s : FSet K) (col : List (Cell K)), s.membership col ≠ .error .fuel := by
    intro s col
    cases s with
    | disc s => simp [FSet.membership]
    | cont s =>
      simp only [FSet.membership, CSet.membership]
      split
      · exact noFuel_mapM _ (fun x => by cases x <;> simp; split <;> simp)
      · simp
  have hcol : ∀ i, column X i ≠ .error .fuel := fun i => noFuel_mapM _ (fun r => by split <;> simp)
  have gen : ∀ (vars : List (FVar K)) (i : Nat) acc, datasetMembershipFrom X i acc vars ≠ .error .fuel := by
    intro vars
    induction vars with
    | nil => intro i acc; simp [datasetMembershipFrom]
    | cons v vs ih =>
      intro i acc
      rw [datasetMembershipFrom]
      refine noFuel_bind (hcol _) (fun c => noFuel_bind ?_ (fun d => ih _ _))
      unfold FVar.membership
      exact noFuel_bind (noFuel_mapM _ (fun s => noFuel_bind (hF _ _) (fun _ => by simp))) (fun _ => by simp)
  unfold datasetMembership
  split
  · simp
  · split
    · simp
    · exact gen _ _ _

/-- C38: the fit terminates on every input, also when it fails: the recursion is never deeper than `max_depth + 1` calls (the model, which
is given that many, never stops for lack of them). -/
theorem C38_terminates [NanSort K] (ent : List K → List C → K) (p : FDTParams K) (root : BNode C K) (X : List (List (Cell K))) (y : List C) :
    fbdtFit ent p root X y ≠ .error .fuel := by
  rw [C41_independent]
  unfold fitByValue
  refine noFuel_bind ?_ (fun cats => noFuel_bind ?_ (fun _ => ?_))
  · unfold categoricalFeatures
    refine noFuel_bind (noFuel_mapM _ (fun v => ?_)) (fun _ => by simp)
    split <;> simp
  · unfold checkArray
    split
    · simp
    · split <;> simp
  · split
    · simp
    · exact noFuel_bind (noFuel_membership _ _) (fun Xm => noFuel_grow _ _ _ _ _ _ _ _ _ _ (by omega) (Nat.zero_le _))

/-- the leaves of a result of `fbdtFit`, for the examples: numbers of the tests, and contents. -/
def bSummary (r : Py (BNode Nat ℚ)) : Option (List (List (Nat × List Nat) × Option (Dict Nat ℚ))) :=
  r.toOption.map (fun t => (bLeafPaths t).map (fun q => (q.1.map (fun t => (t.att, t.idxs)), q.2)))

set_option synthInstance.maxSize 1000 in
set_option synthInstance.maxHeartbeats 200000 in
/-- the fit of `exX` has two splits and three leaves. -/
example : bSummary (fbdtFit exEnt exParams fbdtNew exX exY) = some [([(1, [1])], some [(0, 0), (1, 1)]),
    ([(1, [0]), (0, [0, 1])], some [(0, 1), (1, 0)]), ([(1, [0]), (0, [2])], some [(0, 0), (1, 1)])] := by decide +kernel

/-- `C38_fit_succeeds` needs the positive threshold: two balanced classes in each set, no split gains anything, and with threshold 0 the
fit ends in a `KeyError`. -/
example : (fbdtFit exEnt ⟨[⟨"sex", [.disc ⟨"m", .str "m"⟩, .disc ⟨"f", .str "f"⟩]⟩], 0, 10, 2⟩ fbdtNew
      [[.str "m"], [.str "f"], [.str "m"], [.str "f"]] [0, 1, 1, 0]).map bLeafPaths = .error .keyError := by decide +kernel

set_option synthInstance.maxSize 1000 in
set_option synthInstance.maxHeartbeats 200000 in
/-- a category without training examples: its share 0/0 is nan, and the fit goes on. -/
example : bSummary (fbdtFit exEnt ⟨[⟨"sex", [.disc ⟨"m", .str "m"⟩, .disc ⟨"f", .str "f"⟩, .disc ⟨"d", .str "d"⟩]⟩], 1/100, 10, 2⟩ fbdtNew
      [[.str "m"], [.str "m"], [.str "f"], [.str "f"]] [0, 0, 1, 1]) =
    some [([(0, [0])], some [(0, 1), (1, 0)]), ([(0, [1, 2])], some [(0, 0), (1, 1)])] := by decide +kernel

/-! ### C111: the memberships a node is trained with -/

theorem sumSets_entry {Xm : Dict String (Dict String (List K))} {n : Nat} {f : String} {sets : List String} {m : List K}
    (h : sumSets Xm n f sets = .ok m) (j : Nat) (x : K) (hx : m[j]? = some x) :
    ∃ ms, List.Forall₂ (fun s z => ∃ d w, Dict.get? Xm f = some d ∧ Dict.get? d s = some w ∧ w[j]? = some z) sets ms ∧ x = ms.sum := by
  have gen : ∀ (sets : List String) (acc m : List K) (x : K), sets.foldlM (fun acc s => do
      let d ← Dict.get Xm f
      let m ← Dict.get d s
      pure (List.zipWith (· + ·) acc m)) acc = (.ok m : Py (List K)) → m[j]? = some x →
      ∃ a ms, acc[j]? = some a ∧ List.Forall₂ (fun s z => ∃ d w, Dict.get? Xm f = some d ∧ Dict.get? d s = some w ∧ w[j]? = some z)
        sets ms ∧ x = a + ms.sum := by
    intro sets
    induction sets with
    | nil =>
      intro acc m x h hx
      simp only [List.foldlM_nil, py_pure, Except.ok.injEq] at h
      subst h
      exact ⟨x, [], hx, .nil, by simp⟩
    | cons s sets ih =>
      intro acc m x h hx
      rw [List.foldlM_cons] at h
      obtain ⟨acc', h1, h2⟩ := py_bind_eq_ok.1 h
      obtain ⟨d, hd, h3⟩ := py_bind_eq_ok.1 h1
      obtain ⟨w, hw, h4⟩ := py_bind_eq_ok.1 h3
      cases h4
      obtain ⟨a, ms, ha, hms, rfl⟩ := ih _ _ x h2 hx
      rw [List.getElem?_zipWith_eq_some] at ha
      obtain ⟨u, v, hu, hv, rfl⟩ := ha
      exact ⟨u, v :: ms, hu, .cons ⟨d, w, Dict.get_eq_ok_iff.1 hd, Dict.get_eq_ok_iff.1 hw, hv⟩ hms, by
        rw [List.sum_cons, add_assoc]⟩
  obtain ⟨a, ms, ha, hms, rfl⟩ := gen sets _ m x h hx
  have : a = 0 := by
    have := List.mem_of_getElem? ha
    exact List.eq_of_mem_replicate this
  exact ⟨ms, hms, by rw [this, zero_add]⟩

theorem sumSets_degree {X : List (List (Cell K))} {p : FDTParams K} {Xm : Dict String (Dict String (List K))}
    (hX : datasetMembership X p.vars = .ok Xm) (hn : ∀ v ∈ p.vars, (v.sets.map FSet.name).Nodup) {att : String} {s : List String}
    {t : BTest K} (ht : childTest p att s = .ok t) {n : Nat} {m : List K} (h : sumSets Xm n att s = .ok m)
    (j : Nat) (row : List (Cell K)) (x : K) (hj : X[j]? = some row) (hx : m[j]? = some x) : BTestDegree row t x := by
  obtain ⟨ms, hms, rfl⟩ := sumSets_entry h j x hx
  obtain ⟨h1, h2, -, -, h5⟩ := childTest_ok ht
  refine ⟨ms, ?_, rfl⟩
  rw [mapM_ok_iff] at h5
  generalize t.idxs = idxs at h5
  clear ht h hx
  induction h5 generalizing ms with
  | nil => cases hms; exact .nil
  | @cons s i sets idxs hsi _ ih =>
    cases hms with
    | cons hz hms =>
      refine .cons ?_ (ih _ hms)
      obtain ⟨d, w, hd, hw, hz⟩ := hz
      obtain ⟨fs, hfs, hname⟩ := setIndices_get? (Dict.get_eq_ok_iff.1 hsi)
      rcases datasetMembership_lookup hX att with ⟨e1, -⟩ | ⟨j', v, col, d', hj', hv, -, hcol, hd', e2⟩
      · rw [hd] at e1; cases e1
      · rw [hd] at e2; cases e2
        rw [h1] at hj'; cases hj'
        rw [h2] at hv; cases hv
        obtain ⟨hk, hall⟩ := FVar.membership_ok (hn _ (List.mem_of_getElem? h2)) hd'
        have hnd := FVar.membership_nodup hd'
        have hkey : (Dict.keys d)[i]? = some s := by
          rw [hk, List.getElem?_map, hfs]; simp [hname]
        have : d[i]? = some (s, w) := by
          unfold Dict.keys at hkey
          rw [List.getElem?_map] at hkey
          obtain ⟨q, hq, hq'⟩ := Option.map_eq_some_iff.1 hkey
          have := Dict.get?_of_mem_nodup hnd (k := q.1) (v := q.2) (List.mem_of_getElem? hq)
          rw [hq', hw] at this
          rw [hq, ← hq', Option.some.inj this]
        exact table_degree (test := ⟨t.var, t.att, i⟩) hX hn hd h1 h2 this j row _ hj hz

/-- the training membership of a row at the end of a path against its degree in the tests of the path -/
theorem BTrace_degrees {X : List (List (Cell K))} {p : FDTParams K} {Xm : Dict String (Dict String (List K))}
    (hX : datasetMembership X p.vars = .ok Xm) (hn : ∀ v ∈ p.vars, (v.sets.map FSet.name).Nodup) {n : Nat} (hT : Table Xm n)
    {used mu fd d ts mu' fd' d'} (h : BTrace p Xm n used mu fd d ts mu' fd' d') :
    ∀ (j : Nat) (row : List (Cell K)) (m' : K), X[j]? = some row → mu'[j]? = some m' →
      ∃ m ms, mu[j]? = some m ∧ List.Forall₂ (BTestDegree row) ts ms ∧ (∀ m0, m0 ≤ m → ms.foldl min m0 ≤ m') ∧
        ((ts.map BTest.att).Nodup → (∀ t ∈ ts, t.var.name ∉ used) → m' = ms.foldl min m) := by
  have mono : ∀ (ms : List K) (a b : K), a ≤ b → ms.foldl min a ≤ ms.foldl min b := by
    intro ms
    induction ms with
    | nil => intro a b h; exact h
    | cons m ms ih => intro a b h; exact ih _ _ (min_le_min_right m h)
  induction h with
  | nil => intro j row m' _ hm'; exact ⟨m', [], hm', .nil, fun m0 h => h, fun _ _ => rfl⟩
  | cons used mu fd d t att sets s m ts mu' fd' d' hd hsets hs hsub ht hm htr ih =>
    intro j row m' hj hm'
    obtain ⟨m1, ms, hm1, hms, hle, heq⟩ := ih j row m' hj hm'
    rw [List.getElem?_zipWith_eq_some] at hm1
    obtain ⟨a, b, ha, hb, rfl⟩ := hm1
    obtain ⟨sm, hsm, hcase⟩ := hm
    have hlen := sumSets_length hT _ _ _ hsm
    obtain ⟨t1, t2, t3, -, -⟩ := childTest_ok ht
    have hname : t.var.name = att := featuresDict_name t1 t2
    rcases hcase with ⟨hu, rfl⟩ | ⟨hu, fl, hfl, rfl⟩
    · refine ⟨a, b :: ms, ha, .cons (sumSets_degree hX hn ht hsm j row b hj hb) hms, ?_, ?_⟩
      · intro m0 hm0
        exact le_trans (mono ms _ _ (min_le_min_right b hm0)) (hle _ le_rfl)
      · intro hnd hused
        rw [List.map_cons, List.nodup_cons] at hnd
        refine heq hnd.2 ?_
        intro t' ht' hc
        rcases List.mem_cons.1 hc with hc | hc
        · apply hnd.1
          obtain ⟨e1, -⟩ := htr.tests t' ht'
          have : Dict.get? (featuresDict p.vars) att = some t'.att := by
            have hk := htr.names t' ht'
            rw [hc] at hk
            exact hk
          rw [t1] at this
          rw [Option.some.inj this]
          exact List.mem_map_of_mem ht'
        · exact hused t' (by simp [ht']) hc
    · rw [List.getElem?_zipWith_eq_some] at hb
      obtain ⟨b0, f0, hb0, hf0, rfl⟩ := hb
      refine ⟨a, b0 :: ms, ha, .cons (sumSets_degree hX hn ht hsm j row b0 hj hb0) hms, ?_, ?_⟩
      · intro m0 hm0
        exact le_trans (mono ms _ _ (min_le_min hm0 (le_max_left _ _))) (hle _ le_rfl)
      · intro _ hused
        exact absurd (hname ▸ hu) (hused t (by simp))

/-- C111, what does hold (unique set names): the training membership of a row in a node is at least its degree in the tests of the path to
the node, and it is equal to it if no feature is tested twice on the path. Missing: `C111_trained_sets_false`. -/
theorem C111_trained_sets_partial [NanSort K] (ent : List K → List C → K) (p : FDTParams K)
    (hn : ∀ v ∈ p.vars, (v.sets.map FSet.name).Nodup)
    (X : List (List (Cell K))) (y : List C) (t : BNode C K) (h : fbdtFit ent p fbdtNew X y = .ok t) :
    ∀ q ∈ bNodePaths t, List.Forall₂ (fun row m => ∃ m0, BLeafDegree min row q.1 m0 ∧ m0 ≤ m ∧
      ((q.1.map BTest.att).Nodup → m0 = m)) X q.2.mu := by
  intro q hq
  obtain ⟨-, -, hlen, -, Xm, hXm, hT, hN, hall⟩ := fbdtFit_nodes h
  obtain ⟨used, pmu, mu, fd, d, h1, h2, -⟩ := hall _ hq
  obtain ⟨path, node⟩ := q
  simp only at h1 h2 ⊢
  have hmu : node.mu = mu := by cases h2 <;> rfl
  rw [hmu, List.forall₂_iff_get]
  have hl := (h1.degrees hN hT (degrees_ones y)).1
  refine ⟨by rw [hl, hlen], ?_⟩
  intro j h3 h4
  obtain ⟨m, ms, hm, hms, hle, heq⟩ := BTrace_degrees hXm hn hT h1 j X[j] mu[j] (List.getElem?_eq_getElem h3)
    (List.getElem?_eq_getElem h4)
  have h1' : m = 1 := by
    have := List.mem_of_getElem? hm
    obtain ⟨_, -, rfl⟩ := List.mem_map.1 this
    rfl
  subst h1'
  exact ⟨ms.foldl min 1, ⟨ms, hms, rfl⟩, hle 1 le_rfl, fun hnd => (heq hnd (by simp)).symm⟩



/-- a variable with four overlapping sets and a categorical one. -/
def exBParams : FDTParams ℚ where
  vars := [⟨"age", [.cont ⟨"0", 0, 0, 2, false⟩, .cont ⟨"2", 0, 2, 4, false⟩, .cont ⟨"4", 2, 4, 6, false⟩, .cont ⟨"6", 4, 6, 6, false⟩]⟩,
    ⟨"sex", [.disc ⟨"m", .str "m"⟩, .disc ⟨"f", .str "f"⟩]⟩]
  fuzzyThreshold := 1/100
  maxDepth := 10
  minNumExamples := 2
/-- seven rows. -/
def exBX : List (List (Cell ℚ)) :=
  [[.num 0, .str "m"], [.num 2, .str "f"], [.num 2, .str "f"], [.num 3, .str "m"], [.num 4, .str "m"], [.num 6, .str "f"],
    [.num 6, .str "m"]]
/-- their classes. -/
def exBY : List Nat := [0, 1, 1, 1, 0, 1, 1]

set_option synthInstance.maxSize 1000 in
set_option synthInstance.maxHeartbeats 200000 in
/-- `C111_trained_sets_partial` on this fit: the leaves, two of them behind two tests on `age`. -/
example : bSummary (fbdtFit exEnt exBParams fbdtNew exBX exBY) = some [([(1, [1])], some [(0, 0), (1, 1)]),
    ([(1, [0]), (0, [0])], some [(0, 1), (1, 0)]), ([(1, [0]), (0, [1, 2, 3]), (0, [1, 2])], some [(0, 1/2), (1, 1/2)]),
    ([(1, [0]), (0, [1, 2, 3]), (0, [3])], some [(0, 0), (1, 1)])] := by decide +kernel

/-- C111 is false: in the tree of this fit the row `(3, "m")` has the membership 1 in the leaf "age is 6", although the
membership of 3 in that set is 0: comparing the candidate splits below the first split on `age` overwrites the array of the examples
that count fully, so they count fully on both sides. -/
theorem C111_trained_sets_false :
    ∃ t q, fbdtFit exEnt exBParams fbdtNew exBX exBY = .ok t ∧ q ∈ bNodePaths t ∧ q.2.isLeaf = true ∧
      exBX[3]? = some [.num 3, .str "m"] ∧ q.2.mu[3]? = some 1 ∧ BLeafDegree min [.num 3, .str "m"] q.1 0 := by
  have h : (fbdtFit exEnt exBParams fbdtNew exBX exBY).toOption.map (fun t => (bNodePaths t)[6]?.map (fun q =>
      (q.1, q.2.isLeaf, q.2.mu[3]?))) = some (some ([⟨⟨"sex", [.disc ⟨"m", .str "m"⟩, .disc ⟨"f", .str "f"⟩]⟩, 1, [0]⟩,
        ⟨⟨"age", [.cont ⟨"0", 0, 0, 2, false⟩, .cont ⟨"2", 0, 2, 4, false⟩, .cont ⟨"4", 2, 4, 6, false⟩, .cont ⟨"6", 4, 6, 6, false⟩]⟩, 0,
          [1, 2, 3]⟩,
        ⟨⟨"age", [.cont ⟨"0", 0, 0, 2, false⟩, .cont ⟨"2", 0, 2, 4, false⟩, .cont ⟨"4", 2, 4, 6, false⟩, .cont ⟨"6", 4, 6, 6, false⟩]⟩, 0,
          [3]⟩], true, some 1)) := by decide +kernel
  cases e : fbdtFit exEnt exBParams fbdtNew exBX exBY with
  | error _ => rw [e] at h; simp [Except.toOption] at h
  | ok t =>
    rw [e] at h
    simp only [Except.toOption, Option.map_some, Option.some.injEq] at h
    obtain ⟨q, hq, hq'⟩ := Option.map_eq_some_iff.1 h
    simp only [Prod.mk.injEq] at hq'
    refine ⟨t, q, rfl, List.mem_of_getElem? hq, hq'.2.1, rfl, hq'.2.2, ?_⟩
    rw [hq'.1]
    refine ⟨[1, 1, 0], .cons ⟨[1], .cons ⟨_, _, rfl, rfl, by decide +kernel⟩ .nil, by norm_num⟩
      (.cons ⟨[1/2, 1/2, 0], .cons ⟨_, _, rfl, rfl, by decide +kernel⟩ (.cons ⟨_, _, rfl, rfl, by decide +kernel⟩
        (.cons ⟨_, _, rfl, rfl, by decide +kernel⟩ .nil)), by norm_num⟩
      (.cons ⟨[0], .cons ⟨_, _, rfl, rfl, by decide +kernel⟩ .nil, by norm_num⟩ .nil)), by decide +kernel⟩

/-! ### C110: fitting the same object again -/

/-- the result of growing a node depends on the object only through its memberships, test, earlier class value and earlier children -/
theorem growByValue_congr [NanSort K] {ent : List K → List C → K} {cats : List String} {p : FDTParams K}
    {Xm : Dict String (Dict String (List K))} {y : List C} {fuel depth : Nat} {cur cur' t' : BNode C K}
    {ign : Dict String (List K)} {fd : Dict String (List String)} (hmu : cur.mu = cur'.mu)
    (h : growByValue ent cats p Xm y fuel depth cur' ign fd = .ok t') :
    ∃ t, growByValue ent cats p Xm y fuel depth cur ign fd = .ok t ∧ t.test = cur.test ∧ t'.test = cur'.test ∧
      t.isLeaf = t'.isLeaf ∧ t.mu = t'.mu ∧ ∃ cs, t.children = cur.children ++ cs ∧ t'.children = cur'.children ++ cs ∧
        (t'.isLeaf = true → t.classValue = t'.classValue) := by
  cases fuel with
  | zero => simp [growByValue] at h
  | succ fuel =>
    rw [growByValue.eq_def] at h
    simp only at h
    rw [growByValue.eq_def]
    simp only
    rw [hmu]
    obtain ⟨⟨best, ign'⟩, h1, h2⟩ := py_bind_eq_ok.1 h
    rw [h1, py_bind_ok]
    simp only at h2 ⊢
    split_ifs at h2 with hs
    · rw [if_pos hs]
      obtain ⟨cv, hcv, h3⟩ := py_bind_eq_ok.1 h2
      cases h3
      rw [hcv, py_bind_ok]
      exact ⟨_, rfl, rfl, rfl, rfl, rfl, [], by simp [BNode.children], by simp [BNode.children], fun _ => rfl⟩
    · rw [if_neg hs]
      cases best with
      | none => cases h2
      | some b =>
        simp only at h2 ⊢
        obtain ⟨l, hl, h3⟩ := py_bind_eq_ok.1 h2
        obtain ⟨r, hr, h4⟩ := py_bind_eq_ok.1 h3
        cases h4
        rw [hl, py_bind_ok, hr, py_bind_ok]
        exact ⟨_, rfl, rfl, rfl, rfl, rfl, [l, r], rfl, rfl, fun h => by simp [BNode.isLeaf] at h⟩

/-- C110, what does hold: fitting an object again succeeds when a fit of a new object does; if the new tree is one leaf, both trees are that
leaf; otherwise the refitted tree has the leaves of the old tree's children in front of those of the new tree. Missing (and false, see
`C110_refit_false`): the two trees are the same. -/
theorem C110_refit_partial [NanSort K] (ent : List K → List C → K) (p : FDTParams K)
    (old : BNode C K) (hold : old.test = none) (X : List (List (Cell K))) (y : List C) (t' : BNode C K)
    (h : fbdtFit ent p fbdtNew X y = .ok t') :
    ∃ t, fbdtFit ent p old X y = .ok t ∧ t.test = none ∧ t'.test = none ∧ t.isLeaf = t'.isLeaf ∧ t.mu = t'.mu ∧
      t.children = old.children ++ t'.children ∧
      (t'.isLeaf = true → bLeafPaths t = bLeafPaths t') ∧
      (t'.isLeaf = false → bLeafPaths t = old.children.flatMap bLeafPaths ++ bLeafPaths t') := by
  rw [C41_independent] at h ⊢
  unfold fitByValue at h ⊢
  obtain ⟨cats, hc, h1⟩ := py_bind_eq_ok.1 h
  obtain ⟨u, hX, h2⟩ := py_bind_eq_ok.1 h1
  rw [hc, py_bind_ok, hX, py_bind_ok]
  split_ifs at h2 with hlen
  rw [if_neg hlen]
  obtain ⟨Xm, hXm, h3⟩ := py_bind_eq_ok.1 h2
  rw [hXm, py_bind_ok]
  obtain ⟨t, g1, g2, g3, g4, g5, cs, g6, g7, g8⟩ := growByValue_congr (cur := .mk old.test old.level (y.map (fun _ => 1))
    old.isLeaf old.classValue old.children) (by rfl) h3
  have g3' : t'.test = none := g3
  have g7' : t'.children = cs := by rw [g7]; rfl
  have g2' : t.test = none := g2.trans hold
  have g6' : t.children = old.children ++ cs := g6
  clear g2 g3 g6 g7
  refine ⟨t, g1, g2', g3', g4, g5, by rw [g6', g7'], ?_, ?_⟩
  · intro hl
    have := g8 hl
    obtain ⟨a, b, c, d, e, f⟩ := t
    obtain ⟨a', b', c', d', e', f'⟩ := t'
    simp only [BNode.test, BNode.isLeaf, BNode.classValue] at g2' g3' g4 this hl
    subst g2' g3' this hl g4
    simp [bLeafPaths]
  · intro hl
    obtain ⟨a, b, c, d, e, f⟩ := t
    obtain ⟨a', b', c', d', e', f'⟩ := t'
    have g6'' : f = old.children ++ cs := g6'
    simp only [BNode.test, BNode.isLeaf, BNode.children] at g2' g3' g4 g7' hl
    subst g2' g3' hl g4 g7' g6''
    simp [bLeafPaths, bLeafPathsList_eq, List.flatMap_append]


/-- C110 is false: fit on `"m" ↦ 1, "f" ↦ 0`, then on the opposite labels. The second fit returns a tree with the
children of both fits, whose prediction on its own training data is constant, while a new object classifies it. -/
theorem C110_refit_false :
    let p : FDTParams ℚ := ⟨[⟨"sex", [.disc ⟨"m", .str "m"⟩, .disc ⟨"f", .str "f"⟩]⟩], 1/100, 10, 2⟩
    let X : List (List (Cell ℚ)) := [[.str "m"], [.str "f"]]
    ∃ t₁ t₂ t', fbdtFit exEnt p fbdtNew X [1, 0] = .ok t₁ ∧ fbdtFit exEnt p t₁ X [0, 1] = .ok t₂ ∧
      fbdtFit exEnt p fbdtNew X [0, 1] = .ok t' ∧ t₂.children.length = 4 ∧ t'.children.length = 2 ∧
      fbdtPredict min .agg t' X = .ok [[0, 1]] ∧ fbdtPredict min .agg t₂ X = .ok [[0, 0]] := by
  intro p X
  have h1 : ((fbdtFit exEnt p fbdtNew X [0, 1]).toOption).map (fun t =>
      (t.children.length, (fbdtPredict min .agg t X).toOption)) = some (2, some [[0, 1]]) := by decide +kernel
  have h2 : ((fbdtFit exEnt p fbdtNew X [1, 0]).toOption).map (fun t₁ =>
      ((fbdtFit exEnt p t₁ X [0, 1]).toOption).map (fun t =>
      (t.children.length, (fbdtPredict min .agg t X).toOption))) = some (some (4, some [[0, 0]])) := by decide +kernel
  cases e1 : fbdtFit exEnt p fbdtNew X [0, 1] with
  | error _ => rw [e1] at h1; simp [Except.toOption] at h1
  | ok t' =>
    rw [e1] at h1
    cases e2 : fbdtFit exEnt p fbdtNew X [1, 0] with
    | error _ => rw [e2] at h2; simp [Except.toOption] at h2
    | ok t₁ =>
      rw [e2] at h2
      simp only [Except.toOption, Option.map_some, Option.some.injEq, Prod.mk.injEq] at h1 h2
      cases e3 : fbdtFit exEnt p t₁ X [0, 1] with
      | error _ => rw [e3] at h2; simp at h2
      | ok t₂ =>
        rw [e3] at h2
        simp only [Option.map_some, Option.some.injEq, Prod.mk.injEq] at h2
        refine ⟨t₁, t₂, t', rfl, e3, rfl, h2.1, h1.1, ?_, ?_⟩
        · cases hp : fbdtPredict min .agg t' X with
          | error _ => rw [hp] at h1; simp at h1
          | ok out => rw [hp] at h1; simpa using h1.2
        · cases hp : fbdtPredict min .agg t₂ X with
          | error _ => rw [hp] at h2; simp at h2
          | ok out => rw [hp] at h2; simpa using h2.2

end Teacher
