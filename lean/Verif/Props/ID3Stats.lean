import Verif.Props.ID3More

/-! # ID3: the attributes `num_leaf`, `error` and `class_count` of the nodes (C134), and fitting without rows -/

namespace Teacher
set_option linter.unusedSectionVars false

namespace Spec
variable {V C K : Type}

/-- number of visible leaves of a tree. -/
def leafCount (t : INode V C K) : Nat := ((idNodes t).filter (fun q => q.2.isLeaf)).length

end Spec

variable {V C K : Type} [Field K] [LinearOrder K] [IsStrictOrderedRing K] [LinearOrder V] [LinearOrder C]

/-- **C134**, partial: in the tree fitted by a new object, `num_leaf` is 1 in every leaf and the number of branches in every node that
tests a feature. A leaf that rows reach has as `error` the share of these rows that do not have its class; a leaf that no row reaches has
the error 0. Missing: `num_leaf` is not the number of leaves below the node (`C134_num_leaf_false`). -/
theorem C134_num_leaf_partial (gain : List V → List C → List V → K) (ordC : List C → List C)
    (hC : Spec.IsSetListing ordC) (ordF : List String → List String) (hF : Spec.IsArrangement ordF) (p : ID3Params K)
    (t t' : INode V C K) (hnew : t.numLeaf = 0) (rows : IRows V C) (h : id3FitWith gain ordC ordF p t rows = .ok t')
    (path : List (Option Nat × V)) (node : INode V C K) (hmem : (path, node) ∈ Spec.idNodes t') :
    (node.isLeaf = true → node.numLeaf = 1) ∧
    (node.isLeaf = false → node.varIndex ≠ none → node.numLeaf = node.branches.length) ∧
    (node.isLeaf = true → Spec.reaching rows path = [] → node.error = 0) ∧
    (node.isLeaf = true → Spec.reaching rows path ≠ [] → ∃ c, node.classValue = some c ∧
      node.error = ((Spec.labels (Spec.reaching rows path)).countP (fun l => l ≠ c) : K) / ((Spec.reaching rows path).length : K)) := by
  obtain ⟨fs, hne, hs, -, hfit⟩ := id3FitWith_eq_ok hC hF h
  obtain ⟨-, names, -, -, h4⟩ := hfit.node (by simp) path node hmem
  rcases h4 with h4 | ⟨pre, last, cv, e1, e2, e3, e4⟩
  · generalize Spec.reaching rows path = R at h4 ⊢
    rw [hnew] at h4
    cases h4 with
    | leaf _ _ _ t0 cv hm =>
      have hRpos : 0 < R.length := by
        obtain ⟨r, hr, -⟩ := List.mem_map.1 hm.1
        exact List.length_pos_of_mem hr
      have hRne : (R.length : K) ≠ 0 := by exact_mod_cast hRpos.ne'
      refine ⟨fun _ => rfl, fun hl => by simp [id3Leaf, INode.isLeaf] at hl, fun _ he => ?_, fun _ _ => ⟨cv, rfl, ?_⟩⟩
      · rw [he] at hRpos; simp at hRpos
      · have hc : (R.map Prod.snd).count cv + (R.map Prod.snd).countP (fun l => l ≠ cv) = R.length := by
          have h1 := List.length_eq_countP_add_countP (fun l => l == cv) (l := R.map Prod.snd)
          have h2 : (R.map Prod.snd).length = R.length := by simp
          have h3 : (R.map Prod.snd).countP (fun l => l ≠ cv) = (R.map Prod.snd).countP (fun a => ¬ (a == cv) = true) := by
            apply List.countP_congr
            intro l _
            simp
          rw [h3, List.count]
          omega
        have hcK : ((R.map Prod.snd).count cv : K) + ((R.map Prod.snd).countP (fun l => l ≠ cv) : K) = (R.length : K) := by
          exact_mod_cast hc
        show 1 - ((R.map Prod.snd).count cv : K) / (R.length : K) = _
        unfold Spec.labels
        field_simp
        linarith
    | dead =>
      exact ⟨fun hl => by simp [INode.isLeaf] at hl, fun _ hv => absurd rfl hv, fun hl => by simp [INode.isLeaf] at hl,
        fun hl => by simp [INode.isLeaf] at hl⟩
    | split _ _ _ cv nl i' name col splits g branches hm hd hn hname her hg hmax hprune hnl hnz hkeys =>
      refine ⟨fun hl => by simp [INode.isLeaf] at hl, fun _ _ => ?_, fun hl => by simp [INode.isLeaf] at hl,
        fun hl => by simp [INode.isLeaf] at hl⟩
      show nl = branches.length
      rw [hnl]; split <;> simp
  · subst e3
    exact ⟨fun _ => rfl, fun hl => by simp [emptyLeaf, INode.isLeaf] at hl, fun _ _ => rfl, fun _ he => absurd e2 he⟩

/-- in the example the root has three branches, and an inner node below it has two. -/
example : (id3FitWith ID3Ex.gain List.dedup id ID3Ex.p .fresh ID3Ex.rows).map (fun t => (Spec.idNodes t).map (fun q => (q.2.isLeaf, q.2.numLeaf)))
    = .ok [(false, 3), (false, 2), (true, 1), (true, 1), (true, 1), (true, 1)] := by decide +kernel

/-- **C134** is false as the name of the attribute says it: the root of the example has four leaves below it, and `num_leaf = 3`. -/
theorem C134_num_leaf_false :
    ¬ ∀ (p : ID3Params ℚ) (rows : IRows Nat Nat) (t : INode Nat Nat ℚ), id3FitWith ID3Ex.gain List.dedup id p .fresh rows = .ok t →
      t.numLeaf = Spec.leafCount t := by
  intro hall
  obtain ⟨t, ht, h1⟩ := ID3Ex.exists_of_map (show (id3FitWith ID3Ex.gain List.dedup id ID3Ex.p .fresh ID3Ex.rows).map
    (fun t => (t.numLeaf, Spec.leafCount t)) = .ok (3, 4) by decide +kernel)
  have := hall _ _ t ht
  obtain ⟨a, b⟩ := Prod.mk.inj h1
  rw [a, b] at this
  exact absurd this (by decide)

/-- what holds at the lowest level: a node with only leaves below it counts its leaves. -/
theorem C134_last_split (gain : List V → List C → List V → K) (ordC : List C → List C)
    (hC : Spec.IsSetListing ordC) (ordF : List String → List String) (hF : Spec.IsArrangement ordF) (p : ID3Params K)
    (t t' : INode V C K) (hnew : t.numLeaf = 0) (rows : IRows V C) (h : id3FitWith gain ordC ordF p t rows = .ok t')
    (path : List (Option Nat × V)) (node : INode V C K) (hmem : (path, node) ∈ Spec.idNodes t') (hv : node.varIndex ≠ none)
    (hl : node.isLeaf = false) (hlast : ∀ b ∈ node.branches, b.2.isLeaf = true) : node.numLeaf = Spec.leafCount node := by
  rw [(C134_num_leaf_partial gain ordC hC ordF hF p t t' hnew rows h path node hmem).2.1 hl hv]
  obtain ⟨isLeaf, var, branches, cv, cc, level, err, nl⟩ := node
  simp only [INode.isLeaf] at hl
  subst hl
  simp only [INode.branches] at hlast ⊢
  unfold Spec.leafCount
  simp only [Spec.idNodes, Bool.false_eq_true, if_false]
  rw [List.filter_cons_of_neg (by simp [INode.isLeaf])]
  clear hmem hv h
  induction branches with
  | nil => rfl
  | cons b bs ih =>
    obtain ⟨s, ⟨il, v', bs', cv', cc', l', e', n'⟩⟩ := b
    have hb := hlast _ (List.mem_cons_self ..)
    simp only [INode.isLeaf] at hb
    subst hb
    have := ih (fun b hb => hlast b (List.mem_cons_of_mem _ hb))
    simp only [Spec.idNodesBranches, idNodes_leaf, List.map_cons, List.map_nil, List.cons_append, List.nil_append]
    rw [List.filter_cons_of_pos (by simp [INode.isLeaf]), List.length_cons, List.length_cons, this]

/-- the inner node of the example. -/
example : (id3FitWith ID3Ex.gain List.dedup id ID3Ex.p .fresh ID3Ex.rows).map (fun t => (Spec.idNodes t).map (fun q => (q.2.numLeaf, Spec.leafCount q.2)))
    = .ok [(3, 4), (2, 2), (1, 1), (1, 1), (1, 1), (1, 1)] := by decide +kernel

end Teacher
