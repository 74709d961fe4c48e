import Verif.Lemmas.FDTTrace
import Verif.Props.FDTPredict

/-! Properties C30-C36 of FDT fitting, and C28, C29, C34, C35, C47 for fitted trees. -/

set_option linter.unusedSectionVars false

namespace Teacher
open Spec

variable {C K : Type} [Field K] [LinearOrder K] [IsStrictOrderedRing K] [LinearOrder C]

/-! ### example data -/

/-- an impurity that works over any field: 0 if all the positive memberships belong to one class, else 1. -/
def exEnt (mu : List ℚ) (y : List Nat) : ℚ := if (npUnique (maskedY mu y)).length < 2 then 0 else 1

def exParams : FDTParams ℚ where
  vars := [⟨"age", [.cont ⟨"0", 0, 0, 1, false⟩, .cont ⟨"1", 0, 1, 3, false⟩, .cont ⟨"3", 1, 3, 3, false⟩]⟩,
    ⟨"sex", [.disc ⟨"m", .str "m"⟩, .disc ⟨"f", .str "f"⟩]⟩]
  fuzzyThreshold := 1/100
  maxDepth := 10
  minNumExamples := 2

def exX : List (List (Cell ℚ)) :=
  [[.num 0, .str "m"], [.num 1, .str "f"], [.num 1, .str "m"], [.num 3, .str "m"], [.num 2, .str "f"]]
def exY : List Nat := [0, 1, 0, 1, 1]

/-! ### a successful fit -/

theorem fdtFit_ok {ent : List K → List C → K} {ord : List String → List String} {p : FDTParams K} {root : FNode C K}
    {X : List (List (Cell K))} {y : List C} {t : FNode C K} (h : fdtFit ent ord p root X y = .ok t) :
    Rectangular X ∧ X.length = y.length ∧ ∃ Xm, datasetMembership X p.vars = .ok Xm ∧
      partialFit ent ord p Xm y ((p.vars.map FVar.name).dedup.length + 1)
        (.mk root.test root.level (y.map (fun _ => 1)) root.isLeaf root.classValue root.children)
        (p.vars.map FVar.name).dedup 0 = .ok t := by
  unfold fdtFit at h
  rw [py_bind_eq_ok] at h
  obtain ⟨_, h1, h⟩ := h
  split at h
  · cases h
  · rename_i hlen
    rw [py_bind_eq_ok] at h
    obtain ⟨Xm, hXm, h⟩ := h
    exact ⟨(checkArray_ok_iff X).1 h1, not_not.1 hlen, Xm, hXm, h⟩

theorem table_nodup {X : List (List (Cell K))} {vars : List (FVar K)} {Xm : Dict String (Dict String (List K))}
    (hX : datasetMembership X vars = .ok Xm) : ∀ f d, Dict.get? Xm f = some d → (Dict.keys d).Nodup := by
  intro f d hd
  rcases datasetMembership_lookup hX f with ⟨h1, -⟩ | ⟨j, v, col, d', -, -, -, -, h3, h2⟩
  · rw [hd] at h1; cases h1
  · rw [hd] at h2; cases h2; exact FVar.membership_nodup h3

theorem fdtFit_grown {ent : List K → List C → K} {ord : List String → List String} {p : FDTParams K}
    {X : List (List (Cell K))} {y : List C} {t : FNode C K} (h : fdtFit ent ord p fdtNew X y = .ok t) :
    X ≠ [] ∧ y ≠ [] ∧ X.length = y.length ∧ ∃ Xm, datasetMembership X p.vars = .ok Xm ∧
      Grown p Xm y (y.map (fun _ => 1)) (p.vars.map FVar.name).dedup 0 t ∧ t.test = none := by
  obtain ⟨⟨n, -, hne, -⟩, hlen, Xm, hXm, hp⟩ := fdtFit_ok h
  obtain ⟨h1, h2⟩ := partialFit_grown (table_nodup hXm) _ _ _ _ _ hp rfl
  refine ⟨hne, ?_, hlen, Xm, hXm, h1, h2⟩
  intro e
  rw [e] at hlen
  exact hne (List.length_eq_zero_iff.1 hlen)

/-- facts on every node of a fitted tree -/
theorem fdtFit_nodes {ent : List K → List C → K} {ord : List String → List String} {p : FDTParams K}
    {X : List (List (Cell K))} {y : List C} {t : FNode C K} (h : fdtFit ent ord p fdtNew X y = .ok t) :
    ∃ Xm, datasetMembership X p.vars = .ok Xm ∧ ∀ q ∈ nodePaths t,
      NodeFact p Xm y (y.map (fun _ => 1)) (p.vars.map FVar.name).dedup 0 q.1 q.2 := by
  obtain ⟨-, -, -, Xm, hXm, hg, ht⟩ := fdtFit_grown h
  refine ⟨Xm, hXm, fun q hq => ?_⟩
  obtain ⟨rest, h1, h2⟩ := hg.nodes t q hq
  rw [ht] at h1
  rw [h1]
  exact h2

/-- a leaf of a fitted tree is a distribution for the memberships of the leaf or of its parent -/
theorem leaf_distribution {p : FDTParams K} {X : List (List (Cell K))} {Xm : Dict String (Dict String (List K))} {y : List C}
    (hX : datasetMembership X p.vars = .ok Xm) (hlen : X.length = y.length) (hy : y ≠ [])
    {path : List (FTest K)} {n : FNode C K} {feats : List String} {d : Nat}
    (h : NodeFact p Xm y (y.map (fun _ => 1)) feats d path n) (hn : n.isLeaf = true) :
    ∃ cv path' mu' feats' d', n.classValue = some cv ∧ Trace p Xm (y.map (fun _ => 1)) feats d path' mu' feats' d' ∧
      mu'.length = y.length ∧ (∀ m ∈ mu', 0 ≤ m ∧ m ≤ 1) ∧ mu'.sum ≠ 0 ∧ IsDistribution mu' y cv ∧
      ((path' = path ∧ mu' = n.mu) ∨ (path' = path.dropLast ∧ ¬ 0 < n.mu.sum)) := by
  have hr : ∀ {path' mu' feats' d'}, Trace p Xm (y.map (fun _ => (1:K))) feats d path' mu' feats' d' →
      mu'.length = y.length ∧ ∀ m ∈ mu', 0 ≤ m ∧ m ≤ 1 := by
    intro path' mu' feats' d' ht
    have := ht.range hX (by simp [hlen]) (by
      intro m hm
      obtain ⟨_, -, rfl⟩ := List.mem_map.1 hm
      exact ⟨zero_le_one, le_rfl⟩)
    exact ⟨by rw [this.1, hlen], this.2⟩
  rcases h with ⟨mu', feats', d', h1, h2⟩ | ⟨init, last, m1, f1, d1, m2, att', h1, h2, h3, h4, -, h5, cv, hcv, hn'⟩
  · obtain ⟨a, b, c, dd, e, f⟩ := n
    simp only [Grown] at h2
    simp only [FNode.isLeaf] at hn
    subst hn
    obtain ⟨-, h3, ⟨-, cv, h4, h5⟩ | ⟨h4, -⟩⟩ := h2
    · obtain ⟨r1, r2⟩ := classValueOf_ok hy h5
      exact ⟨cv, path, mu', feats', d', h4, h1, (hr h1).1, (hr h1).2, r1, r2, .inl ⟨rfl, h3.symm⟩⟩
    · cases h4
  · obtain ⟨r1, r2⟩ := classValueOf_ok hy hcv
    exact ⟨cv, init, m1, f1, d1, hn', h1, (hr h1).1, (hr h1).2, r1, r2, .inr ⟨by rw [h3]; simp, by rw [h5]; exact h4⟩⟩

/-! ### C30 -/

/-- C30: after `fit` on a new object, every leaf maps exactly the classes of `y`, in increasing order, to weights in [0,1]
that add up to 1; for every gain function, set order, threshold and depth. -/
theorem C30_leaf_distributions (ent : List K → List C → K) (ord : List String → List String) (p : FDTParams K)
    (X : List (List (Cell K))) (y : List C) (t : FNode C K) (h : fdtFit ent ord p fdtNew X y = .ok t) :
    ∀ q ∈ leafPaths t, ∃ cv, q.2 = some cv ∧ (cv.map Prod.fst).Pairwise (· < ·) ∧
      (∀ c, c ∈ cv.map Prod.fst ↔ c ∈ y) ∧ (∀ kv ∈ cv, 0 ≤ kv.2 ∧ kv.2 ≤ 1) ∧ (cv.map Prod.snd).sum = 1 := by
  intro q hq
  obtain ⟨n, hn, hl, hcv⟩ := (leafPaths_iff t q).1 hq
  obtain ⟨-, hy, hlen, -⟩ := fdtFit_grown h
  obtain ⟨Xm, hXm, hall⟩ := fdtFit_nodes h
  obtain ⟨cv, path', mu', feats', d', h1, h2, h3, h4, h5, h6, -⟩ := leaf_distribution hXm hlen hy (hall _ hn) hl
  exact ⟨cv, by rw [← hcv, h1], h6.1, h6.2.1, h6.range h3 (fun m hm => (h4 m hm).1) h5, h6.sum_one h3 h5⟩

/-- C30: with unique set names the weight of a class in a leaf is its share of the training rows, each counted with its
degree in the leaf; a leaf that no training row reaches has the shares of its parent. -/
theorem C30_leaf_shares (ent : List K → List C → K) (ord : List String → List String) (p : FDTParams K)
    (hn : ∀ v ∈ p.vars, (v.sets.map FSet.name).Nodup)
    (X : List (List (Cell K))) (y : List C) (t : FNode C K) (h : fdtFit ent ord p fdtNew X y = .ok t) :
    ∀ q ∈ leafPaths t, ∃ cv degs, q.2 = some cv ∧ List.Forall₂ (fun row m => LeafDegree min row q.1 m) X degs ∧
      (0 < degs.sum → IsDistribution degs y cv) ∧
      (¬ 0 < degs.sum → ∃ degs', List.Forall₂ (fun row m => LeafDegree min row q.1.dropLast m) X degs' ∧
        0 < degs'.sum ∧ IsDistribution degs' y cv) := by
  intro q hq
  obtain ⟨n, hnode, hl, hcv⟩ := (leafPaths_iff t q).1 hq
  obtain ⟨-, hy, hlen, -⟩ := fdtFit_grown h
  obtain ⟨Xm, hXm, hall⟩ := fdtFit_nodes h
  obtain ⟨cv, path', mu', feats', d', h1, h2, h3, h4, h5, h6, hcase⟩ := leaf_distribution hXm hlen hy (hall _ hnode) hl
  obtain ⟨f'', d'', htr⟩ := (hall _ hnode).trace
  have hones : ∀ m ∈ y.map (fun _ => (1:K)), m = 1 := by
    intro m hm; obtain ⟨_, -, rfl⟩ := List.mem_map.1 hm; rfl
  have hpos : 0 < mu'.sum := lt_of_le_of_ne (List.sum_nonneg (fun m hm => (h4 m hm).1)) h5.symm
  refine ⟨cv, n.mu, by rw [← hcv, h1], htr.rowDegrees hXm hn (by simp [hlen]) hones, ?_, ?_⟩
  · intro hp
    rcases hcase with ⟨-, rfl⟩ | ⟨-, hz⟩
    · exact h6
    · exact absurd hp hz
  · intro hz
    rcases hcase with ⟨-, rfl⟩ | ⟨rfl, -⟩
    · exact absurd hpos hz
    · exact ⟨mu', h2.rowDegrees hXm hn (by simp [hlen]) hones, hpos, h6⟩

/-- the fitted example tree -/
def exFit : Py (FNode Nat ℚ) := fdtFit exEnt id exParams fdtNew exX exY

def pathsOf (r : Py (FNode Nat ℚ)) : Option (List (List (Nat × Nat) × Option (Dict Nat ℚ))) :=
  (r.toOption).map (fun t => (leafPaths t).map (fun q => (q.1.map (fun t => (t.att, t.idx)), q.2)))

/-- the example data fits, with a tree of two levels -/
example : pathsOf exFit = some
    [([(0, 0)], some [(0, 1), (1, 0)]),
     ([(0, 1), (1, 0)], some [(0, 1), (1, 0)]), ([(0, 1), (1, 1)], some [(0, 0), (1, 1)]),
     ([(0, 2)], some [(0, 0), (1, 1)])] := by
  decide +kernel

/-! ### C31 -/

/-- C31: no node of a fitted tree is deeper than `max_depth` nor than the number of features, the feature numbers on a
path are pairwise different, and every test is on the fuzzy variable with its feature number. -/
theorem C31_depth_and_features (ent : List K → List C → K) (ord : List String → List String) (p : FDTParams K)
    (X : List (List (Cell K))) (y : List C) (t : FNode C K) (h : fdtFit ent ord p fdtNew X y = .ok t) :
    ∀ q ∈ nodePaths t, q.1.length ≤ p.maxDepth ∧ q.1.length ≤ p.vars.length ∧ (q.1.map FTest.att).Nodup ∧
      ∀ test ∈ q.1, p.vars[test.att]? = some test.var := by
  intro q hq
  obtain ⟨Xm, hXm, hall⟩ := fdtFit_nodes h
  obtain ⟨f', d', htr⟩ := (hall q hq).trace
  obtain ⟨h1, h2, h3⟩ := htr.names (List.nodup_dedup _)
  have hd := htr.depth
  refine ⟨?_, ?_, ?_, h3⟩
  · by_cases e : q.1 = []
    · simp [e]
    · have := hd.2 e; rw [hd.1] at this; omega
  · have hsub : (q.1.map (fun t => t.var.name)).Subperm (p.vars.map FVar.name).dedup := by
      apply List.subperm_of_subset h1
      intro x hx
      obtain ⟨t, ht, rfl⟩ := List.mem_map.1 hx
      exact h2 t ht
    have := hsub.length_le
    rw [List.length_map] at this
    refine le_trans this ?_
    have := (List.dedup_sublist (p.vars.map FVar.name)).length_le
    rwa [List.length_map] at this
  · have e : q.1.map (fun t => t.var.name) = (q.1.map FTest.att).map (fun a => ((p.vars[a]?).map FVar.name).getD "") := by
      rw [List.map_map]
      apply List.map_congr_left
      intro t ht
      simp [h3 t ht]
    rw [e] at h1
    exact h1.of_map

theorem GrownList_tests {p : FDTParams K} {Xm : Dict String (Dict String (List K))} {y : List C} {mu : List K}
    {feats : List String} {depth : Nat} {att : String} {fi : Nat} {var : FVar K}
    (hfi : Dict.get? (featuresDict p.vars) att = some fi) (hvar : p.vars[fi]? = some var) {i : Nat}
    {sets : Dict String (List K)} {cs : List (FNode C K)}
    (h : GrownList p Xm y mu feats depth att i sets cs) :
    cs.map FNode.test = (List.range' i sets.length).map (fun k => some ⟨var, fi, k⟩) := by
  induction cs generalizing i sets with
  | nil =>
    simp only [GrownList] at h
    subst h; rfl
  | cons c cs ih =>
    simp only [GrownList] at h
    obtain ⟨s, sets', rfl, ⟨-, fi', var', h1, h2, h3⟩, -, h4⟩ := h
    rw [hfi] at h1; cases h1
    rw [hvar] at h2; cases h2
    rw [List.map_cons, ih h4, h3, List.length_cons, List.range'_succ, List.map_cons]

/-- C31: a split node of a fitted tree has exactly one child per fuzzy set of the feature it splits on, in order
(unique set names). -/
theorem C31_children (ent : List K → List C → K) (ord : List String → List String) (p : FDTParams K)
    (hn : ∀ v ∈ p.vars, (v.sets.map FSet.name).Nodup)
    (X : List (List (Cell K))) (y : List C) (t : FNode C K) (h : fdtFit ent ord p fdtNew X y = .ok t) :
    ∀ q ∈ nodePaths t, q.2.isLeaf = false → ∃ fi var, p.vars[fi]? = some var ∧
      q.2.children.map FNode.test = (List.range var.sets.length).map (fun k => some ⟨var, fi, k⟩) := by
  intro q hq hl
  obtain ⟨Xm, hXm, hall⟩ := fdtFit_nodes h
  rcases hall q hq with ⟨mu', feats', d', h1, h2⟩ | ⟨init, last, m1, f1, d1, m2, att', h1, h2, h3, h4, h5, -⟩
  · obtain ⟨path, a, b, c, dd, e, f⟩ := q
    simp only [Grown] at h2
    simp only [FNode.isLeaf] at hl
    subst hl
    obtain ⟨-, -, ⟨h4, -⟩ | ⟨-, -, att, sets, hs, hg⟩⟩ := h2
    · cases h4
    · rcases datasetMembership_lookup hXm att with ⟨h1, -⟩ | ⟨j, v, col, d, hfi, hvar, -, hcol, hd, h2⟩
      · rw [hs] at h1; cases h1
      · rw [hs] at h2; cases h2
        refine ⟨j, v, hvar, ?_⟩
        have hk := (FVar.membership_ok (hn _ (List.mem_of_getElem? hvar)) hd).1
        have hlen : sets.length = v.sets.length := by
          have := congrArg List.length hk
          simpa [Dict.keys] using this
        rw [FNode.children, GrownList_tests hfi hvar hg, hlen, List.range_eq_range']
  · rw [hl] at h5; cases h5

example : ∃ t, exFit = .ok t ∧ ¬ t.isLeaf ∧ (nodePaths t).length = 6 ∧
    (∀ v ∈ exParams.vars, (v.sets.map FSet.name).Nodup) := by
  have h : (exFit.toOption).map (fun t => (t.isLeaf, (nodePaths t).length)) = some (false, 6) := by decide +kernel
  cases e : exFit with
  | error _ => rw [e] at h; simp [Except.toOption] at h
  | ok t =>
    rw [e] at h
    simp only [Except.toOption, Option.map_some, Option.some.injEq, Prod.mk.injEq] at h
    exact ⟨t, rfl, by simp [h.1], h.2, by decide +kernel⟩

/-! ### C32 -/

theorem sum_ones (y : List C) : (y.map (fun _ => (1:K))).sum = y.length := by
  induction y with
  | nil => simp
  | cons a y ih => rw [List.map_cons, List.sum_cons, ih, List.length_cons]; push_cast; ring

theorem fitChildren_exists {p : FDTParams K} {y : List C} {mu : List K} (hmu : mu.sum ≠ 0)
    {feats : List String} {att : String} (hatt : att ∈ feats) {rec : FNode C K → Py (FNode C K)}
    {fi : Nat} {var : FVar K} (hfi : Dict.get? (featuresDict p.vars) att = some fi) (hvar : p.vars[fi]? = some var)
    {childMu : Dict String (List K)} (values : List String)
    (hv : ∀ k ∈ values, ∃ m, Dict.get? childMu k = some m)
    (hrec : ∀ (c : FNode C K) k, Dict.get? childMu k = some c.mu → 0 < c.mu.sum → ∃ t, rec c = .ok t) (i : Nat) :
    ∃ cs, fitChildren rec p y mu att childMu feats i values = .ok cs := by
  induction values generalizing i with
  | nil => exact ⟨[], rfl⟩
  | cons k values ih =>
    obtain ⟨m, hm⟩ := hv k (by simp)
    simp only [fitChildren]
    rw [if_neg (by simpa using hatt), Dict.get_eq_ok_iff.2 hfi, py_bind_ok, hvar]
    simp only [py_bind_ok]
    rw [Dict.get_eq_ok_iff.2 hm, py_bind_ok]
    have hc : ∃ t, fitChild rec y mu (FNode.fresh (C := C) (some ⟨var, fi, i⟩) m) = .ok t := by
      unfold fitChild
      split
      · rename_i hp
        exact hrec _ k hm hp
      · rw [classValueOf_ok_of_ne hmu, py_bind_ok]
        exact ⟨_, rfl⟩
    obtain ⟨t, ht⟩ := hc
    obtain ⟨cs, hcs⟩ := ih (fun k hk => hv k (by simp [hk])) (i + 1)
    rw [ht, py_bind_ok, hcs, py_bind_ok]
    exact ⟨_, rfl⟩

theorem partialFit_exists {ent : List K → List C → K} {ord : List String → List String} (hord : ∀ l, (ord l).Perm l)
    {p : FDTParams K} (hth : 0 < p.fuzzyThreshold) {X : List (List (Cell K))}
    {Xm : Dict String (Dict String (List K))} {y : List C} (hX : datasetMembership X p.vars = .ok Xm)
    (fuel : Nat) : ∀ (current : FNode C K) (feats : List String) (depth : Nat), feats.length < fuel →
    (∀ f ∈ feats, f ∈ p.vars.map FVar.name) → 0 < current.mu.sum →
    ∃ t, partialFit ent ord p Xm y fuel current feats depth = .ok t := by
  induction fuel with
  | zero => intro _ _ _ h; omega
  | succ fuel ih =>
    intro current feats depth hlen hf hmu
    have hlook : ∀ f ∈ feats, ∃ j v col d, Dict.get? (featuresDict p.vars) f = some j ∧ p.vars[j]? = some v ∧
        v.name = f ∧ column X j = .ok col ∧ v.membership col = .ok d ∧ Dict.get? Xm f = some d := by
      intro f hff
      rcases datasetMembership_lookup hX f with ⟨-, h1⟩ | h1
      · rw [Dict.get?_eq_none_iff, mem_keys_featuresDict] at h1
        exact absurd (hf f hff) h1
      · exact h1
    obtain ⟨⟨att, gain, cm⟩, hg⟩ := maxGainFrom_exists ent Xm y current.mu ("", 0, []) (ord feats) hmu.ne' (by
      intro f hff
      obtain ⟨j, v, col, d, -, -, -, -, -, h⟩ := hlook f ((hord feats).mem_iff.1 hff)
      exact ⟨d, h⟩)
    have hg' : getMaxFGain ent Xm y current.mu (ord feats) = .ok (att, gain, cm) := hg
    simp only [partialFit]
    rw [hg', py_bind_ok]
    simp only
    split <;> rename_i hstop
    · rw [classValueOf_ok_of_ne hmu.ne', py_bind_ok]
      exact ⟨_, rfl⟩
    · have hgain : ¬ gain < p.fuzzyThreshold := by
        intro hc
        apply hstop
        simp [stopMet, hc]
      rcases getMaxFGain_ok hg' with ⟨-, rfl, -⟩ | ⟨-, hatt, d, hd, rfl⟩
      · exact absurd hth hgain
      · have hatt' := (hord feats).mem_iff.1 hatt
        obtain ⟨j, v, col, d', hfi, hvar, -, -, -, hd'⟩ := hlook att hatt'
        rw [hd] at hd'; cases hd'
        rw [Dict.get_eq_ok_iff.2 hd, py_bind_ok]
        obtain ⟨cs, hcs⟩ := fitChildren_exists (y := y) hmu.ne' hatt' hfi hvar
          (rec := fun child => partialFit ent ord p Xm y fuel child (feats.erase att) (depth + 1))
          (childMu := childMus current.mu d) (Dict.keys d) (by
            intro k hk
            rw [get?_childMus]
            obtain ⟨m, hm⟩ := (Dict.get?_isSome_iff d k).2 hk
            rw [hm]; exact ⟨_, rfl⟩) (by
            intro c k _ hpos
            apply ih c _ _ _ _ hpos
            · rw [List.length_erase_of_mem hatt']
              have := List.length_pos_of_mem hatt'
              omega
            · intro f hff
              exact hf f (List.mem_of_mem_erase hff)) 0
        rw [hcs, py_bind_ok]
        exact ⟨_, rfl⟩

/-- C32: `fit` succeeds (and in particular terminates within the recursion depth `number of features + 1`) on every
non-empty dataset whose cells have a membership in the sets of their variables, for every gain function, every order of
the features, and every state of the object, provided `fuzzy_threshold > 0`. -/
theorem C32_fit_succeeds (ent : List K → List C → K) (ord : List String → List String) (hord : ∀ l, (ord l).Perm l)
    (p : FDTParams K) (hth : 0 < p.fuzzyThreshold) (root : FNode C K) (X : List (List (Cell K))) (y : List C)
    (hR : Rectangular X) (hlen : X.length = y.length)
    (hcells : ∀ (i : Nat) v, p.vars[i]? = some v → ∀ row ∈ X, ∃ x, row[i]? = some x ∧
      ∀ s ∈ v.sets, ∃ m, s.membership [x] = .ok [m]) :
    ∃ t, fdtFit ent ord p root X y = .ok t := by
  obtain ⟨Xm, hXm⟩ := C11_succeeds X p.vars hR hcells
  have hy : 0 < y.length := by
    obtain ⟨_, _, hne, _⟩ := hR
    rw [← hlen]; exact List.length_pos_iff.2 hne
  unfold fdtFit
  rw [(checkArray_ok_iff X).2 hR, py_bind_ok, if_neg (by simp [hlen]), hXm, py_bind_ok]
  apply partialFit_exists hord hth hXm
  · exact Nat.lt_succ_self _
  · intro f hf; simpa using hf
  · simp only [FNode.mu, sum_ones]
    exact_mod_cast hy

/-- C32: the condition `fuzzy_threshold > 0` is needed: with a threshold of at most 0, two classes, enough examples and
depth, if no feature has a positive gain then `fit` fails with `KeyError` (it looks up the feature `''`). -/
theorem C32_threshold_zero_fails (ent : List K → List C → K) (ord : List String → List String) (p : FDTParams K)
    (hth : p.fuzzyThreshold ≤ 0) (hname : "" ∉ p.vars.map FVar.name) (hdepth : 0 < p.maxDepth) (root : FNode C K)
    (X : List (List (Cell K))) (y : List C) (hR : Rectangular X) (hlen : X.length = y.length)
    (hmin : p.minNumExamples ≤ y.length) (hcl : ∃ a ∈ y, ∃ b ∈ y, a ≠ b)
    (Xm : Dict String (Dict String (List K))) (hXm : datasetMembership X p.vars = .ok Xm)
    (hgain : ∀ r, getMaxFGain ent Xm y (y.map (fun _ => 1)) (ord (p.vars.map FVar.name).dedup) = .ok r → r.2.1 ≤ 0)
    (hord : ∀ l, (ord l).Perm l) :
    fdtFit ent ord p root X y = .error .keyError := by
  unfold fdtFit
  rw [(checkArray_ok_iff X).2 hR, py_bind_ok, if_neg (by simp [hlen]), hXm, py_bind_ok]
  simp only
  obtain ⟨cur, hcur⟩ : ∃ c : FNode C K, c = .mk root.test root.level (y.map (fun _ => 1)) root.isLeaf root.classValue
    root.children := ⟨_, rfl⟩
  rw [← hcur]
  have hmu : cur.mu = y.map (fun _ => 1) := by rw [hcur]; rfl
  simp only [partialFit]
  rw [hmu]
  have hy : 0 < y.length := by
    obtain ⟨a, ha, -⟩ := hcl; exact List.length_pos_of_mem ha
  obtain ⟨⟨att, gain, cm⟩, hg⟩ := maxGainFrom_exists ent Xm y (y.map (fun _ => (1:K))) ("", 0, [])
    (ord (p.vars.map FVar.name).dedup) (by rw [sum_ones]; exact_mod_cast hy.ne') (by
      intro f hff
      have := (hord _).mem_iff.1 hff
      rw [List.mem_dedup] at this
      rcases datasetMembership_lookup hXm f with ⟨-, h1⟩ | ⟨j, v, col, d, -, -, -, -, -, h⟩
      · rw [Dict.get?_eq_none_iff, mem_keys_featuresDict] at h1
        exact absurd this h1
      · exact ⟨d, h⟩)
  have hg' : getMaxFGain ent Xm y (y.map (fun _ => (1:K))) (ord (p.vars.map FVar.name).dedup) = .ok (att, gain, cm) := hg
  rw [hg', py_bind_ok]
  have hle := hgain _ hg'
  simp only at hle
  have hmask : maskedY (y.map (fun _ => (1:K))) y = y := by
    unfold maskedY
    clear hg hg' hgain hy hmin hlen hcl hcur hmu
    induction y with
    | nil => rfl
    | cons a y ih => simpa using ih
  have hns : stopMet p gain (maskedY (y.map (fun _ => (1:K))) y) 0 = false := by
    rcases getMaxFGain_ok hg' with ⟨-, rfl, -⟩ | ⟨hpos, -⟩
    · rw [hmask]
      simp only [stopMet, Bool.or_eq_false_iff, decide_eq_false_iff_not, not_lt, not_le]
      refine ⟨⟨⟨?_, hmin⟩, hdepth⟩, hth⟩
      obtain ⟨a, ha, b, hb, hab⟩ := hcl
      have h1 := (mem_npUnique y a).2 ha
      have h2 := (mem_npUnique y b).2 hb
      match hu : npUnique y, h1, h2 with
      | [x], h1, h2 =>
        simp only [List.mem_singleton] at h1 h2
        exact absurd (h1.trans h2.symm) hab
      | _ :: _ :: _, _, _ => simp
    · exact absurd hpos (not_lt.2 hle)
  simp only
  split
  · rename_i hc
    have hc' : stopMet p gain (maskedY (y.map (fun _ => (1:K))) y) 0 = true := hc
    rw [hns] at hc'; cases hc'
  · rcases getMaxFGain_ok hg' with ⟨rfl, -, -⟩ | ⟨hpos, -⟩
    · have : Dict.get Xm "" = .error .keyError := by
        rw [Dict.get_eq_error_iff, ← Dict.get?_eq_none_iff]
        rcases datasetMembership_lookup hXm "" with ⟨h1, -⟩ | ⟨j, v, col, d, -, h1, h2, -⟩
        · exact ⟨h1, rfl⟩
        · exact absurd (h2 ▸ List.mem_map_of_mem (List.mem_of_getElem? h1)) hname
      rw [this]
      rfl
    · exact absurd hpos (not_lt.2 hle)

def sexParams (th : ℚ) : FDTParams ℚ := ⟨[⟨"sex", [.disc ⟨"m", .str "m"⟩, .disc ⟨"f", .str "f"⟩]⟩], th, 10, 2⟩

/-- a dataset with two classes and useless features: succeeds with a positive threshold, fails with 0 -/
example : (fdtFit exEnt id (sexParams 0) fdtNew [[.str "m"], [.str "m"]] [0, 1]).toOption.isSome = false ∧
    (fdtFit exEnt id (sexParams (1/100)) fdtNew [[.str "m"], [.str "m"]] [0, 1]).toOption.isSome = true := by
  decide +kernel

/-! ### C36 -/

/-- C36 (unique set names): every node of a fitted tree was trained with the memberships that prediction uses to traverse
it: the training memberships stored in a node are, row by row, the degree of the training row in the tests of the path
to the node. Missing: with repeated names the claim is false, `C36_repeated_names_false`. -/
theorem C36_trained_sets_partial (ent : List K → List C → K) (ord : List String → List String) (p : FDTParams K)
    (hn : ∀ v ∈ p.vars, (v.sets.map FSet.name).Nodup)
    (X : List (List (Cell K))) (y : List C) (t : FNode C K) (h : fdtFit ent ord p fdtNew X y = .ok t) :
    ∀ q ∈ nodePaths t, List.Forall₂ (fun row m => LeafDegree min row q.1 m) X q.2.mu := by
  intro q hq
  obtain ⟨-, hy, hlen, -⟩ := fdtFit_grown h
  obtain ⟨Xm, hXm, hall⟩ := fdtFit_nodes h
  obtain ⟨f', d', htr⟩ := (hall q hq).trace
  exact htr.rowDegrees hXm hn (by simp [hlen]) (by intro m hm; obtain ⟨_, -, rfl⟩ := List.mem_map.1 hm; rfl)

/-- the variable that `get_fuzzy_continuous_sets` builds from the repeated point list `[1, 1, 2]` (which `equal_freq`
returns on skewed data, see C13) -/
def dupVar : FVar ℚ := ⟨"x", [.cont ⟨"1", 1, 1, 1, false⟩, .cont ⟨"1", 1, 1, 2, false⟩, .cont ⟨"2", 1, 2, 2, false⟩]⟩

/-- C36 is false with repeated set names: on the separable training set `1 ↦ 0, 2 ↦ 1` the second child is trained with
the third set but is traversed with the second one, so the tree misclassifies a training row although its leaves are pure. -/
theorem C36_repeated_names_false :
    let p : FDTParams ℚ := ⟨[dupVar], 1/100, 10, 2⟩
    let X : List (List (Cell ℚ)) := [[.num 1], [.num 2]]
    getFuzzyContinuousSets false [("1", (1:ℚ)), ("1", 1), ("2", 2)] =
      .ok [⟨"1", 1, 1, 1, false⟩, ⟨"1", 1, 1, 2, false⟩, ⟨"2", 1, 2, 2, false⟩] ∧
    ∃ t, fdtFit exEnt id p fdtNew X [0, 1] = .ok t ∧
      (∃ q ∈ nodePaths t, q.1.map (fun s => (s.att, s.idx)) = [(0, 1)] ∧ q.2.mu = [0, 1] ∧
        ∀ test ∈ q.1, TestDegree [.num 2] test 0) ∧
      fdtPredict min .agg t X = .ok [[0, 0]] := by
  intro p X
  refine ⟨by decide +kernel, ?_⟩
  have h : ((fdtFit exEnt id p fdtNew X [0, 1]).toOption).map (fun t =>
      ((nodePaths t).map (fun q => (q.1, q.2.mu)), (fdtPredict min .agg t X).toOption)) =
      some ([([], [1, 1]), ([⟨dupVar, 0, 0⟩], [1, 0]), ([⟨dupVar, 0, 1⟩], [0, 1])], some [[0, 0]]) := by decide +kernel
  cases e : fdtFit exEnt id p fdtNew X [0, 1] with
  | error _ => rw [e] at h; simp [Except.toOption] at h
  | ok t =>
    rw [e] at h
    simp only [Except.toOption, Option.map_some, Option.some.injEq, Prod.mk.injEq] at h
    obtain ⟨h1, h2⟩ := h
    refine ⟨t, rfl, ?_, ?_⟩
    · have hm : (([⟨dupVar, 0, 1⟩], [0, 1]) : List (FTest ℚ) × List ℚ) ∈ (nodePaths t).map (fun q => (q.1, q.2.mu)) := by
        rw [h1]; simp
      obtain ⟨q, hq, he⟩ := List.mem_map.1 hm
      simp only [Prod.mk.injEq] at he
      refine ⟨q, hq, by rw [he.1]; rfl, he.2, ?_⟩
      intro test ht
      rw [he.1, List.mem_singleton] at ht
      subst ht
      exact ⟨_, _, rfl, rfl, by decide +kernel⟩
    · cases hp : fdtPredict min .agg t X with
      | error _ => rw [hp] at h2; simp at h2
      | ok out => rw [hp] at h2; simpa using h2

/-! ### C33 -/

theorem partialFit_congr {ent : List K → List C → K} {ord : List String → List String} {p : FDTParams K}
    {Xm : Dict String (Dict String (List K))} {y : List C} {fuel : Nat} {cur cur' t' : FNode C K} {feats : List String}
    {depth : Nat} (hmu : cur.mu = cur'.mu) (h : partialFit ent ord p Xm y (fuel + 1) cur' feats depth = .ok t') :
    ∃ t, partialFit ent ord p Xm y (fuel + 1) cur feats depth = .ok t ∧ t.test = cur.test ∧ t'.test = cur'.test ∧
      t.isLeaf = t'.isLeaf ∧ t.mu = t'.mu ∧ ∃ cs, t.children = cur.children ++ cs ∧ t'.children = cur'.children ++ cs ∧
      (t'.isLeaf = true → t.classValue = t'.classValue) := by
  simp only [partialFit] at h ⊢
  rw [hmu]
  rw [py_bind_eq_ok] at h
  obtain ⟨⟨att, gain, cm⟩, hg, h⟩ := h
  rw [hg, py_bind_ok]
  simp only at h ⊢
  split at h <;> rename_i hstop
  · rw [py_bind_eq_ok] at h
    obtain ⟨cv, hcv, h⟩ := h
    cases h
    rw [if_pos hstop, hcv, py_bind_ok]
    exact ⟨_, rfl, rfl, rfl, rfl, rfl, [], by simp [FNode.children], by simp [FNode.children], fun _ => rfl⟩
  · rw [py_bind_eq_ok] at h
    obtain ⟨sets, hsets, h⟩ := h
    rw [py_bind_eq_ok] at h
    obtain ⟨cs, hcs, h⟩ := h
    cases h
    rw [if_neg hstop, hsets, py_bind_ok, hcs, py_bind_ok]
    exact ⟨_, rfl, rfl, rfl, rfl, rfl, cs, rfl, rfl, fun h => by cases h⟩

/-- C33, what does hold: a second `fit` puts the whole new tree after the children left by the first one. If `old` is the
tree left by the first fit and `t'` the tree that a new object would get from the same data, the second fit returns the
leaf of `t'` if `t'` is a leaf, and otherwise a split with the old children followed by those of `t'`. So it forgets the
old data exactly when the old tree has no children or the new tree is a single leaf. -/
theorem C33_refit_partial (ent : List K → List C → K) (ord : List String → List String) (p : FDTParams K)
    (old : FNode C K) (hold : old.test = none) (X : List (List (Cell K))) (y : List C) (t' : FNode C K)
    (h : fdtFit ent ord p fdtNew X y = .ok t') :
    ∃ t, fdtFit ent ord p old X y = .ok t ∧ t.test = none ∧ t'.test = none ∧ t.isLeaf = t'.isLeaf ∧ t.mu = t'.mu ∧
      t.children = old.children ++ t'.children ∧
      (t'.isLeaf = true → leafPaths t = leafPaths t') ∧
      (t'.isLeaf = false → leafPaths t = old.children.flatMap leafPaths ++ leafPaths t') := by
  obtain ⟨hR, hlen, Xm, hXm, hp⟩ := fdtFit_ok h
  have hfit : fdtFit ent ord p old X y = partialFit ent ord p Xm y ((p.vars.map FVar.name).dedup.length + 1)
        (.mk old.test old.level (y.map (fun _ => 1)) old.isLeaf old.classValue old.children)
        (p.vars.map FVar.name).dedup 0 := by
    unfold fdtFit
    rw [(checkArray_ok_iff X).2 hR, py_bind_ok, if_neg (by simp [hlen]), hXm, py_bind_ok]
  rw [hfit]
  obtain ⟨t, h1, h2, h3, h4, h5, cs, h6, h7, h8⟩ := partialFit_congr (cur := .mk old.test old.level (y.map (fun _ => 1))
    old.isLeaf old.classValue old.children) (cur' := .mk fdtNew.test fdtNew.level (y.map (fun _ => 1)) fdtNew.isLeaf
    fdtNew.classValue fdtNew.children) rfl hp
  have h3' : t'.test = none := h3
  have h7' : t'.children = cs := by rw [h7]; rfl
  have h2' : t.test = none := h2.trans hold
  have h6' : t.children = old.children ++ cs := h6
  clear h2 h3 h6 h7
  refine ⟨t, h1, h2', h3', h4, h5, by rw [h6', h7'], ?_, ?_⟩
  · intro hl
    have := h8 hl
    obtain ⟨a, b, c, d, e, f⟩ := t
    obtain ⟨a', b', c', d', e', f'⟩ := t'
    simp only [FNode.test, FNode.isLeaf, FNode.classValue] at h2' h3' h4 this hl
    subst h2' h3' this hl h4
    simp [leafPaths]
  · intro hl
    obtain ⟨a, b, c, d, e, f⟩ := t
    obtain ⟨a', b', c', d', e', f'⟩ := t'
    have h6'' : f = old.children ++ cs := h6'
    simp only [FNode.test, FNode.isLeaf, FNode.children] at h2' h3' h4 h7' hl
    subst h2' h3' hl h4 h7' h6''
    simp [leafPaths, leafPathsList_eq, List.flatMap_append]

/-- C33 is false: fit on `(0,"m") ↦ 1, (0,"f") ↦ 0`, then on the opposite labels. The second fit returns a tree with the
children of both fits, whose prediction on its own training data is constant, while a new object classifies it. -/
theorem C33_refit_false :
    let p : FDTParams ℚ := ⟨[⟨"sex", [.disc ⟨"m", .str "m"⟩, .disc ⟨"f", .str "f"⟩]⟩], 1/100, 10, 2⟩
    let X : List (List (Cell ℚ)) := [[.str "m"], [.str "f"]]
    ∃ t₁ t₂ t', fdtFit exEnt id p fdtNew X [1, 0] = .ok t₁ ∧ fdtFit exEnt id p t₁ X [0, 1] = .ok t₂ ∧
      fdtFit exEnt id p fdtNew X [0, 1] = .ok t' ∧ t₂.children.length = 4 ∧ t'.children.length = 2 ∧
      fdtPredict min .agg t' X = .ok [[0, 1]] ∧ fdtPredict min .agg t₂ X = .ok [[0, 0]] := by
  intro p X
  have h1 : ((fdtFit exEnt id p fdtNew X [0, 1]).toOption).map (fun t =>
      (t.children.length, (fdtPredict min .agg t X).toOption)) = some (2, some [[0, 1]]) := by decide +kernel
  have h2 : ((fdtFit exEnt id p fdtNew X [1, 0]).toOption).map (fun t₁ =>
      ((fdtFit exEnt id p t₁ X [0, 1]).toOption).map (fun t =>
      (t.children.length, (fdtPredict min .agg t X).toOption))) = some (some (4, some [[0, 0]])) := by decide +kernel
  cases e1 : fdtFit exEnt id p fdtNew X [0, 1] with
  | error _ => rw [e1] at h1; simp [Except.toOption] at h1
  | ok t' =>
    rw [e1] at h1
    cases e2 : fdtFit exEnt id p fdtNew X [1, 0] with
    | error _ => rw [e2] at h2; simp [Except.toOption] at h2
    | ok t₁ =>
      rw [e2] at h2
      simp only [Except.toOption, Option.map_some, Option.some.injEq, Prod.mk.injEq] at h1 h2
      cases e3 : fdtFit exEnt id p t₁ X [0, 1] with
      | error _ => rw [e3] at h2; simp at h2
      | ok t₂ =>
        rw [e3] at h2
        simp only [Option.map_some, Option.some.injEq, Prod.mk.injEq] at h2
        refine ⟨t₁, t₂, t', rfl, e3, rfl, h2.1, h1.1, ?_, ?_⟩
        · cases hp : fdtPredict min .agg t' X with
          | error _ => rw [hp] at h1; simp at h1
          | ok out => rw [hp] at h1; simpa using h1.2
        · cases hp : fdtPredict min .agg t₂ X with
          | error _ => rw [hp] at h2; simp at h2
          | ok out => rw [hp] at h2; simpa using h2.2

end Teacher
