import Verif.Props.TreeEq

/-! # C153: `==` of trees is an equivalence relation -/

set_option linter.unusedSectionVars false

namespace Teacher

section
variable {κ ν : Type} [DecidableEq κ] [DecidableEq ν]

/-- dicts, whose keys are distinct, are `==` exactly when they have the same value for every key. -/
theorem dictPyEq_iff {d e : Dict κ ν} (hd : (Dict.keys d).Nodup) (he : (Dict.keys e).Nodup) :
    Dict.pyEq d e = true ↔ ∀ k, Dict.get? d k = Dict.get? e k := by
  unfold Dict.pyEq
  rw [Bool.and_eq_true, beq_iff_eq, List.all_eq_true]
  have hnd : d.Nodup := List.Nodup.of_map Prod.fst hd
  have hne : e.Nodup := List.Nodup.of_map Prod.fst he
  constructor
  · rintro ⟨hlen, hall⟩ k
    have hsub : ∀ kv ∈ d, kv ∈ e := by
      intro kv hkv
      have := hall kv hkv
      rw [beq_iff_eq] at this
      exact Dict.mem_of_get? this
    have hperm : d.Perm e := (List.subperm_of_subset hnd hsub).perm_of_length_le (by rw [hlen])
    cases h : Dict.get? d k with
    | some v => exact (Dict.get?_of_mem_nodup he (hsub _ (Dict.mem_of_get? h))).symm
    | none =>
      cases h' : Dict.get? e k with
      | none => rfl
      | some v =>
        have := Dict.get?_of_mem_nodup hd (hperm.mem_iff.2 (Dict.mem_of_get? h'))
        rw [h] at this
        cases this
  · intro h
    have hsub : ∀ kv, kv ∈ d ↔ kv ∈ e := by
      rintro ⟨k, v⟩
      exact ⟨fun hm => Dict.mem_of_get? ((h k) ▸ Dict.get?_of_mem_nodup hd hm), fun hm => Dict.mem_of_get? ((h k).symm ▸ Dict.get?_of_mem_nodup he hm)⟩
    refine ⟨((List.perm_ext_iff_of_nodup hnd hne).2 hsub).length_eq, ?_⟩
    rintro ⟨k, v⟩ hkv
    rw [beq_iff_eq, ← h k]
    exact Dict.get?_of_mem_nodup hd hkv

/-- an attribute `class_value` is `-1` or a dict (whose keys are distinct). -/
def Spec.IsClassValue (a : Option (Dict κ ν)) : Prop := ∀ d, a = some d → (Dict.keys d).Nodup

theorem classValueEq_iff {a b : Option (Dict κ ν)} (ha : Spec.IsClassValue a) (hb : Spec.IsClassValue b) :
    classValueEq a b = true ↔ a.map (fun d k => Dict.get? d k) = b.map (fun d k => Dict.get? d k) := by
  cases a with
  | none => cases b <;> simp [classValueEq]
  | some d =>
    cases b with
    | none => simp [classValueEq]
    | some e =>
      simp only [classValueEq, dictPyEq_iff (ha d rfl) (hb e rfl), Option.map_some, Option.some.injEq, funext_iff]

end

section
variable {C K : Type} [DecidableEq C] [DecidableEq K]

mutual
/-- every `class_value` of the tree is `-1` or a dict: true of every Python tree. -/
def Spec.PyTree : FNode C K → Prop
  | .mk _ _ _ _ cv children => IsClassValue cv ∧ PyTrees children
/-- the same for a list of trees. -/
def Spec.PyTrees : List (FNode C K) → Prop
  | [] => True
  | c :: cs => PyTree c ∧ PyTrees cs
end

mutual
/-- every `class_value` of the binary tree is `-1` or a dict. -/
def Spec.PyBTree : BNode C K → Prop
  | .mk _ _ _ _ cv children => IsClassValue cv ∧ PyBTrees children
/-- the same for a list of trees. -/
def Spec.PyBTrees : List (BNode C K) → Prop
  | [] => True
  | c :: cs => PyBTree c ∧ PyBTrees cs
end

open Spec

mutual
theorem FNode.pyEq_refl : ∀ t : FNode C K, PyTree t → t.pyEq t = true
  | .mk test level mu isLeaf cv children, h => by
    simp only [PyTree] at h
    simp only [FNode.pyEq, FNode.pyEqList_refl children h.2, (classValueEq_iff h.1 h.1).2 rfl, beq_self_eq_true, Bool.and_self]
theorem FNode.pyEqList_refl : ∀ l : List (FNode C K), PyTrees l → FNode.pyEqList l l = true
  | [], _ => by simp only [FNode.pyEqList]
  | c :: cs, h => by
    simp only [PyTrees] at h
    simp only [FNode.pyEqList, FNode.pyEq_refl c h.1, FNode.pyEqList_refl cs h.2, Bool.and_self]
end

mutual
theorem FNode.pyEq_symm : ∀ t u : FNode C K, PyTree t → PyTree u → t.pyEq u = true → u.pyEq t = true
  | .mk test level mu isLeaf cv children, .mk test' level' mu' isLeaf' cv' children', ht, hu, h => by
    simp only [PyTree] at ht hu
    simp only [FNode.pyEq, Bool.and_eq_true, beq_iff_eq] at h ⊢
    obtain ⟨⟨⟨⟨⟨h1, h2⟩, h3⟩, h4⟩, h5⟩, h6⟩ := h
    exact ⟨⟨⟨⟨⟨h1.symm, FNode.pyEqList_symm children children' ht.2 hu.2 h2⟩,
      (classValueEq_iff hu.1 ht.1).2 ((classValueEq_iff ht.1 hu.1).1 h3).symm⟩, h4.symm⟩, h5.symm⟩, h6.symm⟩
theorem FNode.pyEqList_symm : ∀ l m : List (FNode C K), PyTrees l → PyTrees m → FNode.pyEqList l m = true → FNode.pyEqList m l = true
  | [], [], _, _, h => h
  | [], _ :: _, _, _, h => by simp [FNode.pyEqList] at h
  | _ :: _, [], _, _, h => by simp [FNode.pyEqList] at h
  | c :: cs, d :: ds, hl, hm, h => by
    simp only [PyTrees] at hl hm
    simp only [FNode.pyEqList, Bool.and_eq_true] at h ⊢
    exact ⟨FNode.pyEq_symm c d hl.1 hm.1 h.1, FNode.pyEqList_symm cs ds hl.2 hm.2 h.2⟩
end

mutual
theorem FNode.pyEq_trans : ∀ t u v : FNode C K, PyTree t → PyTree u → PyTree v → t.pyEq u = true → u.pyEq v = true → t.pyEq v = true
  | .mk test level mu isLeaf cv children, .mk test' level' mu' isLeaf' cv' children', .mk test'' level'' mu'' isLeaf'' cv'' children'',
      ht, hu, hv, h, h' => by
    simp only [PyTree] at ht hu hv
    simp only [FNode.pyEq, Bool.and_eq_true, beq_iff_eq] at h h' ⊢
    obtain ⟨⟨⟨⟨⟨h1, h2⟩, h3⟩, h4⟩, h5⟩, h6⟩ := h
    obtain ⟨⟨⟨⟨⟨g1, g2⟩, g3⟩, g4⟩, g5⟩, g6⟩ := h'
    exact ⟨⟨⟨⟨⟨h1.trans g1, FNode.pyEqList_trans children children' children'' ht.2 hu.2 hv.2 h2 g2⟩,
      (classValueEq_iff ht.1 hv.1).2 (((classValueEq_iff ht.1 hu.1).1 h3).trans ((classValueEq_iff hu.1 hv.1).1 g3))⟩,
      h4.trans g4⟩, h5.trans g5⟩, h6.trans g6⟩
theorem FNode.pyEqList_trans : ∀ l m n : List (FNode C K), PyTrees l → PyTrees m → PyTrees n → FNode.pyEqList l m = true →
    FNode.pyEqList m n = true → FNode.pyEqList l n = true
  | [], [], n, _, _, _, _, h' => h'
  | [], _ :: _, _, _, _, _, h, _ => by simp [FNode.pyEqList] at h
  | _ :: _, [], _, _, _, _, h, _ => by simp [FNode.pyEqList] at h
  | _ :: _, _ :: _, [], _, _, _, _, h' => by simp [FNode.pyEqList] at h'
  | c :: cs, d :: ds, e :: es, hl, hm, hn, h, h' => by
    simp only [PyTrees] at hl hm hn
    simp only [FNode.pyEqList, Bool.and_eq_true] at h h' ⊢
    exact ⟨FNode.pyEq_trans c d e hl.1 hm.1 hn.1 h.1 h'.1, FNode.pyEqList_trans cs ds es hl.2 hm.2 hn.2 h.2 h'.2⟩
end

mutual
theorem BNode.pyEq_refl : ∀ t : BNode C K, PyBTree t → t.pyEq t = true
  | .mk test level mu isLeaf cv children, h => by
    simp only [PyBTree] at h
    simp only [BNode.pyEq, BNode.pyEqList_refl children h.2, (classValueEq_iff h.1 h.1).2 rfl, beq_self_eq_true, Bool.and_self]
theorem BNode.pyEqList_refl : ∀ l : List (BNode C K), PyBTrees l → BNode.pyEqList l l = true
  | [], _ => by simp only [BNode.pyEqList]
  | c :: cs, h => by
    simp only [PyBTrees] at h
    simp only [BNode.pyEqList, BNode.pyEq_refl c h.1, BNode.pyEqList_refl cs h.2, Bool.and_self]
end

mutual
theorem BNode.pyEq_symm : ∀ t u : BNode C K, PyBTree t → PyBTree u → t.pyEq u = true → u.pyEq t = true
  | .mk test level mu isLeaf cv children, .mk test' level' mu' isLeaf' cv' children', ht, hu, h => by
    simp only [PyBTree] at ht hu
    simp only [BNode.pyEq, Bool.and_eq_true, beq_iff_eq] at h ⊢
    obtain ⟨⟨⟨⟨⟨h1, h2⟩, h3⟩, h4⟩, h5⟩, h6⟩ := h
    exact ⟨⟨⟨⟨⟨h1.symm, BNode.pyEqList_symm children children' ht.2 hu.2 h2⟩,
      (classValueEq_iff hu.1 ht.1).2 ((classValueEq_iff ht.1 hu.1).1 h3).symm⟩, h4.symm⟩, h5.symm⟩, h6.symm⟩
theorem BNode.pyEqList_symm : ∀ l m : List (BNode C K), PyBTrees l → PyBTrees m → BNode.pyEqList l m = true → BNode.pyEqList m l = true
  | [], [], _, _, h => h
  | [], _ :: _, _, _, h => by simp [BNode.pyEqList] at h
  | _ :: _, [], _, _, h => by simp [BNode.pyEqList] at h
  | c :: cs, d :: ds, hl, hm, h => by
    simp only [PyBTrees] at hl hm
    simp only [BNode.pyEqList, Bool.and_eq_true] at h ⊢
    exact ⟨BNode.pyEq_symm c d hl.1 hm.1 h.1, BNode.pyEqList_symm cs ds hl.2 hm.2 h.2⟩
end

mutual
theorem BNode.pyEq_trans : ∀ t u v : BNode C K, PyBTree t → PyBTree u → PyBTree v → t.pyEq u = true → u.pyEq v = true → t.pyEq v = true
  | .mk test level mu isLeaf cv children, .mk test' level' mu' isLeaf' cv' children', .mk test'' level'' mu'' isLeaf'' cv'' children'',
      ht, hu, hv, h, h' => by
    simp only [PyBTree] at ht hu hv
    simp only [BNode.pyEq, Bool.and_eq_true, beq_iff_eq] at h h' ⊢
    obtain ⟨⟨⟨⟨⟨h1, h2⟩, h3⟩, h4⟩, h5⟩, h6⟩ := h
    obtain ⟨⟨⟨⟨⟨g1, g2⟩, g3⟩, g4⟩, g5⟩, g6⟩ := h'
    exact ⟨⟨⟨⟨⟨h1.trans g1, BNode.pyEqList_trans children children' children'' ht.2 hu.2 hv.2 h2 g2⟩,
      (classValueEq_iff ht.1 hv.1).2 (((classValueEq_iff ht.1 hu.1).1 h3).trans ((classValueEq_iff hu.1 hv.1).1 g3))⟩,
      h4.trans g4⟩, h5.trans g5⟩, h6.trans g6⟩
theorem BNode.pyEqList_trans : ∀ l m n : List (BNode C K), PyBTrees l → PyBTrees m → PyBTrees n → BNode.pyEqList l m = true →
    BNode.pyEqList m n = true → BNode.pyEqList l n = true
  | [], [], n, _, _, _, _, h' => h'
  | [], _ :: _, _, _, _, _, h, _ => by simp [BNode.pyEqList] at h
  | _ :: _, [], _, _, _, _, h, _ => by simp [BNode.pyEqList] at h
  | _ :: _, _ :: _, [], _, _, _, _, h' => by simp [BNode.pyEqList] at h'
  | c :: cs, d :: ds, e :: es, hl, hm, hn, h, h' => by
    simp only [PyBTrees] at hl hm hn
    simp only [BNode.pyEqList, Bool.and_eq_true] at h h' ⊢
    exact ⟨BNode.pyEq_trans c d e hl.1 hm.1 hn.1 h.1 h'.1, BNode.pyEqList_trans cs ds es hl.2 hm.2 hn.2 h.2 h'.2⟩
end

/-- C153: `==` is an equivalence relation on `TreeFDT` objects. -/
theorem C153_fdt : Equivalence (fun t u : {t : FNode C K // PyTree t} => t.1.pyEq u.1 = true) where
  refl t := FNode.pyEq_refl t.1 t.2
  symm {t u} h := FNode.pyEq_symm t.1 u.1 t.2 u.2 h
  trans {t u v} h h' := FNode.pyEq_trans t.1 u.1 v.1 t.2 u.2 v.2 h h'

/-- C153: and on `TreeFBDT` objects. -/
theorem C153_fbdt : Equivalence (fun t u : {t : BNode C K // PyBTree t} => t.1.pyEq u.1 = true) where
  refl t := BNode.pyEq_refl t.1 t.2
  symm {t u} h := BNode.pyEq_symm t.1 u.1 t.2 u.2 h
  trans {t u v} h h' := BNode.pyEq_trans t.1 u.1 v.1 t.2 u.2 v.2 h h'

/-- a tree with a leaf of two classes, written in two orders. -/
example : PyTree (.mk none 0 [1] false none [.mk none 1 [1] true (some [(0, 1/2), (1, 1/2)]) []] : FNode Nat ℚ) ∧
    PyTree (.mk none 0 [1] false none [.mk none 1 [1] true (some [(1, 1/2), (0, 1/2)]) []] : FNode Nat ℚ) ∧
    (.mk none 0 [1] false none [.mk none 1 [1] true (some [(0, 1/2), (1, 1/2)]) []] : FNode Nat ℚ).pyEq
      (.mk none 0 [1] false none [.mk none 1 [1] true (some [(1, 1/2), (0, 1/2)]) []]) = true := by
  refine ⟨?_, ?_, by decide +kernel⟩ <;> simp [PyTree, PyTrees, IsClassValue, Dict.keys]

end

section
variable {V C K : Type} [DecidableEq V] [DecidableEq C] [DecidableEq K]

mutual
theorem INode.pyEq_refl : ∀ t : INode V C K, t.pyEq t = true
  | .mk a b c d e f g i => by
    simp only [INode.pyEq, INode.pyEqList_refl c, beq_self_eq_true, Bool.and_self]
theorem INode.pyEqList_refl : ∀ l : List (V × INode V C K), INode.pyEqList l l = true
  | [] => by simp only [INode.pyEqList]
  | (s, c) :: cs => by
    simp only [INode.pyEqList, INode.pyEq_refl c, INode.pyEqList_refl cs, beq_self_eq_true, Bool.and_self]
end

/-- C153: two `TreeID3` objects are `==` exactly when they agree in every attribute, all the way down: it is an equivalence relation. -/
theorem C153_id3 (features features' : List String) (t u : INode V C K) :
    id3TreeEq features features' t u = true ↔ features = features' ∧ t = u := by
  unfold id3TreeEq
  rw [Bool.and_eq_true, beq_iff_eq]
  constructor
  · rintro ⟨h, rfl⟩
    exact ⟨rfl, INode.pyEq_eq t u h⟩
  · rintro ⟨rfl, rfl⟩
    exact ⟨INode.pyEq_refl t, rfl⟩

end

end Teacher
