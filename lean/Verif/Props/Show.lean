import Verif.Model.Show
import Verif.Props.FDTFitted
import Verif.Props.FBDTPredict
import Verif.Props.ID3Fit
import Mathlib.Tactic.Order

/-!
# C141, C142: comparing, hashing, ordering and printing
-/

set_option linter.unusedSectionVars false

namespace Teacher

open Spec

variable {V C K : Type}

/-! ## C141: fuzzy sets -/

section
variable [Field K] [LinearOrder K] [IsStrictOrderedRing K]

theorem FSet.pyEq_iff (s t : FSet K) : s.pyEq t = true ↔ s = t := by
  cases s with
  | cont s =>
    cases t with
    | cont t =>
      obtain ⟨n, a, b, c, p⟩ := s
      obtain ⟨n', a', b', c', p'⟩ := t
      simp [FSet.pyEq, and_assoc]
    | disc t => simp [FSet.pyEq]
  | disc s =>
    cases t with
    | cont t => simp [FSet.pyEq]
    | disc t =>
      obtain ⟨n, v⟩ := s
      obtain ⟨n', v'⟩ := t
      simp [FSet.pyEq]

/-- **C141**, partial: two fuzzy sets are equal exactly when both are continuous with the same name, points and flag or both discrete with the same
name and value; equal sets have the same hash; and every continuous set has one. Missing: discrete sets (C141_hash_false). -/
theorem C141_equality_partial (s t : FSet K) :
    (s.pyEq t = true ↔
      (∃ n a b c p, s = .cont ⟨n, a, b, c, p⟩ ∧ t = .cont ⟨n, a, b, c, p⟩) ∨ (∃ n v, s = .disc ⟨n, v⟩ ∧ t = .disc ⟨n, v⟩)) ∧
    ∀ (H : Type) (hs : String → H) (hk : K → H) (hb : Bool → H) (comb : List H → H),
      (s.pyEq t = true → s.pyHash hs hk hb comb = t.pyHash hs hk hb comb) ∧
      ((∃ c, s = .cont c) → ∃ h, s.pyHash hs hk hb comb = .ok h) := by
  rw [FSet.pyEq_iff]
  refine ⟨⟨?_, ?_⟩, fun H hs hk hb comb => ⟨fun h => by rw [h], ?_⟩⟩
  · rintro rfl
    cases s with
    | cont s => exact .inl ⟨_, _, _, _, _, rfl, rfl⟩
    | disc s => exact .inr ⟨_, _, rfl, rfl⟩
  · rintro (⟨n, a, b, c, p, rfl, rfl⟩ | ⟨n, v, rfl, rfl⟩) <;> rfl
  · rintro ⟨c, rfl⟩
    exact ⟨_, rfl⟩

/-- **C141** is false for discrete sets: taking the hash of any of them raises `TypeError`; neither can they be compared with `<`. -/
theorem C141_hash_false {H : Type} (hs : String → H) (hk : K → H) (hb : Bool → H) (comb : List H → H) (d : DSet K) (c : CSet K) (t : FSet K) :
    (FSet.disc d).pyHash hs hk hb comb = .error .typeError ∧ (FSet.disc d).pyLt t = .error .typeError ∧
      (FSet.cont c).pyLt (.disc d) = .error .attributeError := ⟨rfl, rfl, rfl⟩

theorem pointsLt_iff (s t : CSet K) :
    s.pointsLt t = true ↔ s.a < t.a ∨ (s.a = t.a ∧ (s.b < t.b ∨ (s.b = t.b ∧ s.c < t.c))) := by
  unfold CSet.pointsLt
  by_cases h1 : s.a = t.a
  · rw [if_neg (by simpa using h1)]
    by_cases h2 : s.b = t.b
    · rw [if_neg (by simpa using h2)]
      by_cases h3 : s.c = t.c
      · rw [if_neg (by simpa using h3)]
        simp [h1, h2, h3]
      · rw [if_pos h3]
        simp [h1, h2]
    · rw [if_pos h2]
      simp [h1, h2]
  · rw [if_pos h1]
    simp [h1]

/-- **C141**: `<` of continuous sets compares the points from left to right; it is a strict order that only depends on the points, and two sets
are not comparable exactly when their points agree. -/
theorem C141_order (s t u : CSet K) :
    (FSet.cont s).pyLt (.cont t) = .ok (decide (s.a < t.a ∨ (s.a = t.a ∧ (s.b < t.b ∨ (s.b = t.b ∧ s.c < t.c))))) ∧
    (FSet.cont s).pyLt (.cont s) = .ok false ∧
    ((FSet.cont s).pyLt (.cont t) = .ok true → (FSet.cont t).pyLt (.cont u) = .ok true → (FSet.cont s).pyLt (.cont u) = .ok true) ∧
    ((FSet.cont s).pyLt (.cont t) = .ok true → (FSet.cont t).pyLt (.cont s) = .ok false) ∧
    ((FSet.cont s).pyLt (.cont t) = .ok false ∧ (FSet.cont t).pyLt (.cont s) = .ok false ↔ s.a = t.a ∧ s.b = t.b ∧ s.c = t.c) := by
  have key : ∀ s t : CSet K, (FSet.cont s).pyLt (.cont t) = .ok (decide (s.a < t.a ∨ (s.a = t.a ∧ (s.b < t.b ∨ (s.b = t.b ∧ s.c < t.c))))) := by
    intro s t
    change Except.ok (s.pointsLt t) = _
    congr 1
    rw [Bool.eq_iff_iff, pointsLt_iff, decide_eq_true_eq]
  simp only [key, Except.ok.injEq, decide_eq_true_eq, decide_eq_false_iff_not]
  refine ⟨trivial, by simp, ?_, ?_, ?_⟩
  · rintro (h | ⟨h, h' | ⟨h', h''⟩⟩) (g | ⟨g, g' | ⟨g', g''⟩⟩)
    · exact .inl (h.trans g)
    · exact .inl (by rw [← g]; exact h)
    · exact .inl (by rw [← g]; exact h)
    · exact .inl (by rw [h]; exact g)
    · exact .inr ⟨h.trans g, .inl (h'.trans g')⟩
    · exact .inr ⟨h.trans g, .inl (by rw [← g']; exact h')⟩
    · exact .inl (by rw [h]; exact g)
    · exact .inr ⟨h.trans g, .inl (by rw [h']; exact g')⟩
    · exact .inr ⟨h.trans g, .inr ⟨h'.trans g', h''.trans g''⟩⟩
  · rintro (h | ⟨h, h' | ⟨h', h''⟩⟩) (g | ⟨g, g' | ⟨g', g''⟩⟩) <;> order
  · constructor
    · rintro ⟨h1, h2⟩
      rcases lt_trichotomy s.a t.a with h | h | h
      · exact absurd (.inl h) h1
      · rcases lt_trichotomy s.b t.b with h' | h' | h'
        · exact absurd (.inr ⟨h, .inl h'⟩) h1
        · rcases lt_trichotomy s.c t.c with h'' | h'' | h''
          · exact absurd (.inr ⟨h, .inr ⟨h', h''⟩⟩) h1
          · exact ⟨h, h', h''⟩
          · exact absurd (.inr ⟨h.symm, .inr ⟨h'.symm, h''⟩⟩) h2
        · exact absurd (.inr ⟨h.symm, .inl h'⟩) h2
      · exact absurd (.inl h) h2
    · rintro ⟨h, h', h''⟩
      simp [h, h', h'']

theorem triangles_increasing (l : List (String × K)) (s : CSet K) (hinc : (l.map Prod.snd).Pairwise (· < ·))
    (hs : ∀ d₀ d₁ ds, l = d₀ :: d₁ :: ds → s.a ≤ d₀.2 ∧ s.b ≤ d₀.2) :
    (s :: (innerTriangles l ++ lastTriangle l)).IsChain (fun s t => s.pointsLt t = true) := by
  induction l generalizing s with
  | nil => simp [innerTriangles, lastTriangle]
  | cons d₀ l ih =>
    cases l with
    | nil => simp [innerTriangles, lastTriangle]
    | cons d₁ l =>
      have h01 : d₀.2 < d₁.2 := by
        rw [List.map_cons, List.pairwise_cons] at hinc
        exact hinc.1 _ (by simp)
      obtain ⟨g1, g2⟩ := hs _ _ _ rfl
      cases l with
      | nil =>
        simp only [innerTriangles, lastTriangle, List.nil_append, List.isChain_cons_cons, List.IsChain.singleton, and_true]
        rw [pointsLt_iff]
        rcases g1.lt_or_eq with h | h
        · exact .inl h
        · exact .inr ⟨h, .inl (lt_of_le_of_lt g2 h01)⟩
      | cons d₂ l =>
        simp only [innerTriangles, lastTriangle, List.cons_append, List.isChain_cons_cons]
        constructor
        · rw [pointsLt_iff]
          rcases g1.lt_or_eq with h | h
          · exact .inl h
          · exact .inr ⟨h, .inl (lt_of_le_of_lt g2 h01)⟩
        · refine ih _ (List.Pairwise.of_cons hinc) ?_
          intro e₀ e₁ es he
          cases he
          exact ⟨h01.le, le_refl _⟩

/-- **C141**: the sets made for increasing peaks are already in increasing order, each smaller than all that follow it; so sorting them changes
nothing. -/
theorem C141_sorted (ok : Bool) (ds : List (String × K)) (hinc : (ds.map Prod.snd).Pairwise (· < ·)) (sets : List (CSet K))
    (h : getFuzzyContinuousSets ok ds = .ok sets) : sets.Pairwise (fun s t => (FSet.cont s).pyLt (.cont t) = .ok true) := by
  have htr : IsTrans (CSet K) (fun s t => s.pointsLt t = true) := ⟨fun s t u h1 h2 => by
    have := (C141_order s t u).2.2.1
    simp only [FSet.pyLt, Except.ok.injEq] at this
    exact this h1 h2⟩
  have hc : sets.IsChain (fun s t => s.pointsLt t = true) := by
    match ds, h with
    | [], h => cases h
    | [d], h =>
      unfold getFuzzyContinuousSets at h
      cases ok
      · cases h
      · cases h; simp
    | d₀ :: d₁ :: rest, h =>
      cases h
      refine triangles_increasing _ _ hinc ?_
      intro e₀ e₁ es he
      cases he
      exact ⟨le_refl _, le_refl _⟩
  rw [List.isChain_iff_pairwise] at hc
  exact hc.imp (fun h => congrArg Except.ok h)

end

/-- the sets of three peaks are in order, and a set with the same points and another name is neither smaller nor greater. -/
example : (getFuzzyContinuousSets true [("l", 0), ("m", 1), ("h", (3 : ℚ))]).map (fun l => l.map CSet.name) = .ok ["l", "m", "h"] ∧
    (FSet.cont (⟨"l", 0, 0, 1, false⟩ : CSet ℚ)).pyLt (.cont ⟨"m", 0, 1, 3, false⟩) = .ok true ∧
    (FSet.cont (⟨"l", 0, 0, 1, false⟩ : CSet ℚ)).pyEq (.cont ⟨"k", 0, 0, 1, false⟩) = false ∧
    (FSet.cont (⟨"l", 0, 0, 1, false⟩ : CSet ℚ)).pyLt (.cont ⟨"k", 0, 0, 1, false⟩) = .ok false := by decide +kernel

/-! ## C142: printing -/

namespace Spec

/-- white space. -/
def Blank (s : String) : Prop := ∀ c ∈ s.toList, c = '\n' ∨ c = '\t'

/-- the text consists of the pieces in that order, each followed by white space only. -/
inductive Listing : List String → String → Prop where
  | nil : Listing [] ""
  | cons (p b rest : String) (ps : List String) (hb : Blank b) (h : Listing ps rest) : Listing (p :: ps) (p ++ b ++ rest)

/-- an indentation of `n` tabs. -/
def Indent (n : Nat) (s : String) : Prop := s.toList = List.replicate n '\t'

/-- the description of a node of a fuzzy tree: indented by its level, `Root` for the root, otherwise its feature and the name of its fuzzy set; at a
leaf a further line with its class values. -/
def FDescription (showCV : Option (Dict C K) → String) (n : FNode C K) (text : String) : Prop :=
  ∃ ind head, Indent n.level.toNat ind ∧
    ((n.test = none ∧ head = "Root ") ∨
      ∃ t s, n.test = some t ∧ t.var.sets[t.idx]? = some s ∧ head = "Feature " ++ t.var.name ++ " " ++ s.name) ∧
    ((n.isLeaf = true ∧ text = ind ++ head ++ "\n" ++ ind ++ "Class value: " ++ showCV n.classValue) ∨
      (n.isLeaf = false ∧ text = ind ++ head ++ "\n"))

end Spec

theorem Spec.Blank.append {s t : String} (hs : Blank s) (ht : Blank t) : Blank (s ++ t) := by
  intro c hc
  rw [String.toList_append, List.mem_append] at hc
  exact hc.elim (hs c) (ht c)

theorem tabs_blank (n : Int) : Blank (tabs n) := by
  intro c hc
  rw [tabs, String.toList_ofList] at hc
  exact .inr (List.eq_of_mem_replicate hc)

theorem tabs_indent (n : Int) : Indent n.toNat (tabs n) := by
  rw [Indent, tabs, String.toList_ofList]

theorem blank_newline : Blank "\n" := by
  intro c hc
  rw [show "\n".toList = ['\n'] from rfl, List.mem_singleton] at hc
  exact .inl hc

theorem Spec.Listing.append {ps qs : List String} {s t : String} (h : Listing ps s) (h' : Listing qs t) : Listing (ps ++ qs) (s ++ t) := by
  induction h with
  | nil => rw [List.nil_append, String.empty_append]; exact h'
  | cons p b rest ps hb _ ih =>
    rw [String.append_assoc]
    exact .cons p b _ _ hb ih

theorem Spec.Listing.blank {ps : List String} {s b : String} (h : Listing ps s) (hne : ps ≠ []) (hb : Blank b) : Listing ps (s ++ b) := by
  induction h with
  | nil => exact absurd rfl hne
  | cons p b' rest ps hb' h ih =>
    cases ps with
    | nil =>
      cases h
      rw [String.append_empty, String.append_assoc, ← String.append_empty (s := p ++ (b' ++ b))]
      exact .cons p _ _ _ (hb'.append hb) .nil
    | cons q qs =>
      rw [String.append_assoc]
      exact .cons p b' _ _ hb' (ih (by simp))

theorem Spec.Listing.one (p b : String) (hb : Blank b) : Listing [p] (p ++ b) := by
  have := Listing.cons p b "" [] hb .nil
  rwa [String.append_empty] at this

/-- the text of a node of a fuzzy tree. -/
def fPiece (showCV : Option (Dict C K) → String) (n : FNode C K) : String :=
  tabs n.level ++ FNode.header n.test ++ (if n.isLeaf then tabs n.level ++ "Class value: " ++ showCV n.classValue else "")

theorem FNode.listing (showCV : Option (Dict C K) → String) (t : FNode C K) :
    Listing ((nodePaths t).map (fun q => fPiece showCV q.2)) (t.str showCV) := by
  induction t using FNode.induction with
  | h test level mu isLeaf cv children ih =>
    have hl : ∀ cs : List (FNode C K), (∀ c ∈ cs, Listing ((nodePaths c).map (fun q => fPiece showCV q.2)) (c.str showCV)) →
        Listing ((nodePathsList cs).map (fun q => fPiece showCV q.2)) (FNode.strList showCV cs) := by
      intro cs
      induction cs with
      | nil => intro _; simp only [nodePathsList, FNode.strList, List.map_nil]; exact .nil
      | cons c cs ihc =>
        intro h
        simp only [nodePathsList, FNode.strList, List.map_append]
        exact (h c (by simp)).append (ihc (fun d hd => h d (by simp [hd])))
    simp only [nodePaths, FNode.str, List.map_cons]
    cases isLeaf
    · simp only [Bool.false_eq_true, if_false, List.map_map]
      have e : fPiece showCV (.mk test level mu false cv children) = tabs level ++ FNode.header test := by
        simp only [fPiece, FNode.level, FNode.test, FNode.isLeaf, Bool.false_eq_true, if_false, String.append_empty]
      rw [e]
      have := Listing.cons (tabs level ++ FNode.header test) "" _ _ (by intro c hc; simp at hc) (hl children ih)
      rw [String.append_empty] at this
      have := this.blank (b := "\n" ++ tabs level ++ "\n") (by simp) ((blank_newline.append (tabs_blank _)).append blank_newline)
      simp only [String.append_assoc] at this ⊢
      exact this
    · simp only [if_true, List.map_nil]
      have e : fPiece showCV (.mk test level mu true cv children) = tabs level ++ FNode.header test ++ (tabs level ++ "Class value: " ++ showCV cv) := by
        simp only [fPiece, FNode.level, FNode.test, FNode.isLeaf, FNode.classValue, if_true]
      rw [e]
      exact Listing.one _ _ blank_newline

section
variable [Field K] [LinearOrder K] [IsStrictOrderedRing K] [LinearOrder C]

theorem node_tests_valid (t : FNode C K) (h0 : ∀ x ∈ t.test, x.idx < x.var.sets.length)
    (h : ∀ q ∈ nodePaths t, q.2.isLeaf = false → ∀ c ∈ q.2.children, ∀ x ∈ c.test, x.idx < x.var.sets.length) :
    ∀ q ∈ nodePaths t, ∀ x ∈ q.2.test, x.idx < x.var.sets.length := by
  induction t using FNode.induction with
  | h test level mu isLeaf cv children ih =>
    intro q hq
    cases isLeaf
    · simp only [nodePaths, Bool.false_eq_true, if_false, List.mem_cons, nodePathsList_eq, List.mem_map, List.mem_flatMap] at hq
      rcases hq with rfl | ⟨q', ⟨c, hc, hq'⟩, rfl⟩
      · exact h0
      · refine ih c hc ?_ ?_ q' hq'
        · exact h (test.toList, .mk test level mu false cv children) (nodePaths_self _) rfl c hc
        · intro r hr
          exact h (test.toList ++ r.1, r.2) (nodePaths_child hc hr)
    · simp only [nodePaths, if_true, List.mem_singleton] at hq
      subst hq
      exact h0

/-- **C142**, partial: printing a fitted fuzzy tree lists, in order (a node before its children, children in the order of the sets), the
description of every node with its feature, fuzzy set and class values, and between them only white space. Missing: binary trees
(C142_fbdt_false). -/
theorem C142_fdt_partial (showCV : Option (Dict C K) → String) (ent : List K → List C → K) (ord : List String → List String) (p : FDTParams K)
    (hn : ∀ v ∈ p.vars, (v.sets.map FSet.name).Nodup)
    (X : List (List (Cell K))) (y : List C) (t : FNode C K) (h : fdtFit ent ord p fdtNew X y = .ok t) :
    ∃ pieces, Listing pieces (t.str showCV) ∧ List.Forall₂ (fun q piece => FDescription showCV q.2 piece) (nodePaths t) pieces := by
  refine ⟨_, FNode.listing showCV t, ?_⟩
  rw [List.forall₂_map_right_iff, List.forall₂_same]
  have hvalid : ∀ q ∈ nodePaths t, ∀ x ∈ q.2.test, x.idx < x.var.sets.length := by
    refine node_tests_valid t ?_ ?_
    · intro x hx
      obtain ⟨-, -, -, Xm, hXm, hg, ht⟩ := fdtFit_grown h
      rw [ht] at hx
      cases hx
    · intro q hq hl c hc x hx
      obtain ⟨fi, var, hv, hch⟩ := C31_children ent ord p hn X y t h q hq hl
      have : c.test ∈ q.2.children.map FNode.test := List.mem_map_of_mem hc
      rw [hch] at this
      obtain ⟨k, hk, e⟩ := List.mem_map.1 this
      rw [← e] at hx
      cases hx
      exact List.mem_range.1 hk
  intro q hq
  have hv := hvalid q hq
  obtain ⟨path, ⟨test, level, mu, isLeaf, cv, children⟩⟩ := q
  have hhead : ∃ head, FNode.header test = head ++ "\n" ∧
      ((test = none ∧ head = "Root ") ∨
      ∃ t s, test = some t ∧ t.var.sets[t.idx]? = some s ∧ head = "Feature " ++ t.var.name ++ " " ++ s.name) := by
    cases test with
    | none => exact ⟨"Root ", rfl, .inl ⟨rfl, rfl⟩⟩
    | some x =>
      have hx := hv x rfl
      refine ⟨_, ?_, .inr ⟨x, _, rfl, List.getElem?_eq_getElem hx, rfl⟩⟩
      simp only [FNode.header, List.getElem?_eq_getElem hx, String.append_assoc]
  obtain ⟨head, e, hh⟩ := hhead
  refine ⟨tabs level, head, tabs_indent level, hh, ?_⟩
  cases isLeaf
  · refine .inr ⟨rfl, ?_⟩
    simp only [fPiece, FNode.level, FNode.test, FNode.isLeaf, Bool.false_eq_true, if_false, String.append_empty, e, String.append_assoc]
  · refine .inl ⟨rfl, ?_⟩
    simp only [fPiece, FNode.level, FNode.test, FNode.isLeaf, FNode.classValue, if_true, e, String.append_assoc]

end

/-- a printed node of a fuzzy tree. -/
example : (fPiece (fun _ => "{..}") (.mk (some ⟨⟨"age", [.cont ⟨"0", 0, 0, 1, false⟩]⟩, 0, 0⟩) 1 [1] true none [] : FNode Nat ℚ)) =
    "\tFeature age 0\n\tClass value: {..}" := by decide +kernel

/-! ### binary trees -/

namespace Spec

/-- the description of a node of a binary fuzzy tree with its feature, without its fuzzy sets. -/
def BDescription (showCV : Option (Dict C K) → String) (n : BNode C K) (text : String) : Prop :=
  ∃ ind head, Indent n.level.toNat ind ∧
    ((n.test = none ∧ head = "Root ") ∨ ∃ t, n.test = some t ∧ head = "Feature " ++ t.var.name ++ " Root ") ∧
    ((n.isLeaf = true ∧ text = ind ++ head ++ "\n" ++ ind ++ "Class value: " ++ showCV n.classValue) ∨
      (n.isLeaf = false ∧ text = ind ++ head ++ "\n"))

end Spec

/-- the text of a node of a binary tree. -/
def bPiece (showCV : Option (Dict C K) → String) (n : BNode C K) : String :=
  tabs n.level ++ BNode.header n.test ++ (if n.isLeaf then tabs n.level ++ "Class value: " ++ showCV n.classValue else "")

section
variable [Field K] [LinearOrder K] [IsStrictOrderedRing K]

theorem BNode.listing (showCV : Option (Dict C K) → String) (t : BNode C K) :
    Listing ((bNodePaths t).map (fun q => bPiece showCV q.2)) (t.str showCV) := by
  induction t using BNode.induction with
  | h test level mu isLeaf cv children ih =>
    have hl : ∀ cs : List (BNode C K), (∀ c ∈ cs, Listing ((bNodePaths c).map (fun q => bPiece showCV q.2)) (c.str showCV)) →
        Listing ((bNodePathsList cs).map (fun q => bPiece showCV q.2)) (BNode.strList showCV cs) := by
      intro cs
      induction cs with
      | nil => intro _; simp only [bNodePathsList, BNode.strList, List.map_nil]; exact .nil
      | cons c cs ihc =>
        intro h
        simp only [bNodePathsList, BNode.strList, List.map_append]
        exact (h c (by simp)).append (ihc (fun d hd => h d (by simp [hd])))
    simp only [bNodePaths, BNode.str, List.map_cons]
    cases isLeaf
    · simp only [Bool.false_eq_true, if_false, List.map_map]
      have e : bPiece showCV (.mk test level mu false cv children) = tabs level ++ BNode.header test := by
        simp only [bPiece, BNode.level, BNode.test, BNode.isLeaf, Bool.false_eq_true, if_false, String.append_empty]
      rw [e]
      have := Listing.cons (tabs level ++ BNode.header test) "" _ _ (by intro c hc; simp at hc) (hl children ih)
      rw [String.append_empty] at this
      have := this.blank (b := "\n" ++ tabs level ++ "\n") (by simp) ((blank_newline.append (tabs_blank _)).append blank_newline)
      simp only [String.append_assoc] at this ⊢
      exact this
    · simp only [if_true, List.map_nil]
      have e : bPiece showCV (.mk test level mu true cv children) = tabs level ++ BNode.header test ++ (tabs level ++ "Class value: " ++ showCV cv) := by
        simp only [bPiece, BNode.level, BNode.test, BNode.isLeaf, BNode.classValue, if_true]
      rw [e]
      exact Listing.one _ _ blank_newline

/-- **C142**, partial: printing any binary tree lists every node with its feature and class values in the same way; but not its fuzzy sets. -/
theorem C142_fbdt_partial (showCV : Option (Dict C K) → String) (t : BNode C K) :
    ∃ pieces, Listing pieces (t.str showCV) ∧ List.Forall₂ (fun q piece => BDescription showCV q.2 piece) (bNodePaths t) pieces := by
  refine ⟨_, BNode.listing showCV t, ?_⟩
  rw [List.forall₂_map_right_iff, List.forall₂_same]
  intro q _
  obtain ⟨path, ⟨test, level, mu, isLeaf, cv, children⟩⟩ := q
  have hhead : ∃ head, BNode.header test = head ++ "\n" ∧
      ((test = none ∧ head = "Root ") ∨ ∃ t, test = some t ∧ head = "Feature " ++ t.var.name ++ " Root ") := by
    cases test with
    | none => exact ⟨"Root ", rfl, .inl ⟨rfl, rfl⟩⟩
    | some x =>
      refine ⟨_, ?_, .inr ⟨x, rfl, rfl⟩⟩
      simp only [BNode.header, String.append_assoc]
      rfl
  obtain ⟨head, e, hh⟩ := hhead
  refine ⟨tabs level, head, tabs_indent level, hh, ?_⟩
  cases isLeaf
  · refine .inr ⟨rfl, ?_⟩
    simp only [bPiece, BNode.level, BNode.test, BNode.isLeaf, Bool.false_eq_true, if_false, String.append_empty, e, String.append_assoc]
  · refine .inl ⟨rfl, ?_⟩
    simp only [bPiece, BNode.level, BNode.test, BNode.isLeaf, BNode.classValue, if_true, e, String.append_assoc]

end

/-- one variable with three fuzzy sets. -/
def shParams : FDTParams ℚ where
  vars := [⟨"x", [.cont ⟨"0", 0, 0, 1, false⟩, .cont ⟨"1", 0, 1, 2, false⟩, .cont ⟨"2", 1, 2, 2, false⟩]⟩]
  fuzzyThreshold := 1/100
  maxDepth := 10
  minNumExamples := 2

/-- three rows, at the peaks. -/
def shX : List (List (Cell ℚ)) := [[.num 0], [.num 1], [.num 2]]

/-- what is printed of a node. -/
def shNode (t : BNode Nat ℚ) : Int × Option String × Bool × Option (Dict Nat ℚ) := (t.level, t.test.map (fun x => x.var.name), t.isLeaf, t.classValue)

theorem shNode_str (showCV : Option (Dict Nat ℚ) → String) (ts us : List (BNode Nat ℚ)) (h : ts.map shNode = us.map shNode)
    (hl : ∀ t ∈ ts, t.isLeaf = true) : BNode.strList showCV ts = BNode.strList showCV us := by
  induction ts generalizing us with
  | nil =>
    cases us with
    | nil => rfl
    | cons u us => cases h
  | cons t ts ih =>
    cases us with
    | nil => cases h
    | cons u us =>
      rw [List.map_cons, List.map_cons, List.cons.injEq] at h
      simp only [BNode.strList]
      rw [ih us h.2 (fun t ht => hl t (by simp [ht]))]
      congr 1
      have h1 := h.1
      have hl1 := hl t (by simp)
      obtain ⟨te, l, m, b, cv, ch⟩ := t
      obtain ⟨te', l', m', b', cv', ch'⟩ := u
      simp only [shNode, BNode.level, BNode.test, BNode.isLeaf, BNode.classValue, Prod.mk.injEq] at h1 hl1
      obtain ⟨rfl, h2, h3, rfl⟩ := h1
      subst hl1
      subst h3
      have : BNode.header te = BNode.header te' := by
        cases te with
        | none => cases te' with
          | none => rfl
          | some x => cases h2
        | some x => cases te' with
          | none => cases h2
          | some x' =>
            simp only [Option.map_some, Option.some.injEq] at h2
            simp only [BNode.header, h2]
      simp only [BNode.str, this, if_true]

theorem sh_fit (y : List Nat) (k : Nat) (h : (fbdtFit exEnt shParams fbdtNew shX y).toOption.map (fun t =>
      (shNode t, t.children.map shNode, (fbdtPredict min .max t [[.num 1]]).toOption)) =
      some ((0, none, false, none), [(1, some "x", true, some [(0, 1), (1, 0)]), (1, some "x", true, some [(0, 0), (1, 1)])], some [[k]])) :
    ∃ t, fbdtFit exEnt shParams fbdtNew shX y = .ok t ∧ shNode t = (0, none, false, none) ∧
      t.children.map shNode = [(1, some "x", true, some [(0, 1), (1, 0)]), (1, some "x", true, some [(0, 0), (1, 1)])] ∧
      fbdtPredict min .max t [[.num 1]] = .ok [[k]] := by
  cases e : fbdtFit exEnt shParams fbdtNew shX y with
  | error _ => rw [e] at h; cases h
  | ok t =>
    rw [e] at h
    simp only [Except.toOption, Option.map_some, Option.some.injEq, Prod.mk.injEq] at h
    obtain ⟨h1, h2, h3⟩ := h
    refine ⟨t, rfl, h1, h2, ?_⟩
    cases e' : fbdtPredict min .max t [[.num 1]] with
    | error _ => rw [e'] at h3; cases h3
    | ok r => rw [e'] at h3; cases h3; rfl

instance : DecidableEq (Option (Dict Nat ℚ)) := inferInstanceAs (DecidableEq (Option (List (Nat × ℚ))))
instance : DecidableEq (Int × Option String × Bool × Option (Dict Nat ℚ)) := inferInstance

/-- **C142** is false for binary trees: two trees fitted to the same rows, which predict different classes for a row, print the same text. -/
theorem C142_fbdt_false : ∃ (p : FDTParams ℚ) (X : List (List (Cell ℚ))) (y y' : List Nat) (t u : BNode Nat ℚ) (row : List (Cell ℚ)),
    fbdtFit exEnt p fbdtNew X y = .ok t ∧ fbdtFit exEnt p fbdtNew X y' = .ok u ∧
      fbdtPredict min .max t [row] = .ok [[1]] ∧ fbdtPredict min .max u [row] = .ok [[0]] ∧ ∀ showCV, t.str showCV = u.str showCV := by
  obtain ⟨t, h1, h2, h3, h4⟩ := sh_fit [0, 1, 1] 1 (by decide +kernel)
  obtain ⟨u, g1, g2, g3, g4⟩ := sh_fit [0, 0, 1] 0 (by decide +kernel)
  refine ⟨shParams, shX, [0, 1, 1], [0, 0, 1], t, u, [.num 1], h1, g1, h4, g4, fun showCV => ?_⟩
  have hch := shNode_str showCV t.children u.children (by rw [h3, g3]) (by
    intro c hc
    have : shNode c ∈ t.children.map shNode := List.mem_map_of_mem hc
    rw [h3] at this
    simp only [List.mem_cons, List.not_mem_nil, or_false, shNode, Prod.mk.injEq] at this
    rcases this with h | h <;> exact h.2.2.1)
  obtain ⟨te, l, m, b, cv, ch⟩ := t
  obtain ⟨te', l', m', b', cv', ch'⟩ := u
  simp only [shNode, BNode.level, BNode.test, BNode.isLeaf, BNode.classValue, Prod.mk.injEq, Option.map_eq_none_iff] at h2 g2
  obtain ⟨rfl, rfl, rfl, rfl⟩ := h2
  obtain ⟨rfl, rfl, rfl, rfl⟩ := g2
  simp only [BNode.children] at hch
  simp only [BNode.str, hch]

/-! ### ID3 trees -/

namespace Spec

/-- the description of a node of an ID3 tree: below the root, first a line `feature = value` with the test that leads to it, indented as the node
above; then, indented by its level, the class and the counts of a leaf or the number of the feature an inner node tests. -/
def IDescription (showC : Option C → String) (showN : Nat × Nat → String) (showV : V → String) (features : List String)
    (q : List (Option Nat × V) × INode V C K) (text : String) : Prop :=
  ∃ branch own, text = branch ++ own ∧
    ((q.1 = [] ∧ branch = "") ∨ ∃ pre i v f ind, q.1 = pre ++ [(some i, v)] ∧ features[i]? = some f ∧ Indent (q.2.level - 1).toNat ind ∧
      branch = ind ++ f ++ " = " ++ showV v ++ "\n") ∧
    ∃ ind, Indent q.2.level.toNat ind ∧
      ((q.2.isLeaf = true ∧ own = ind ++ "Class value: " ++ showC q.2.classValue ++ "\tCounts: " ++ showN q.2.classCount) ∨
       (q.2.isLeaf = false ∧ ∃ i, q.2.varIndex = some i ∧ own = ind ++ "Feature " ++ toString i) ∨
       (q.2.isLeaf = false ∧ q.2.varIndex = none ∧ own = ind ++ "Feature -1"))

end Spec

section
variable [Field K] [LinearOrder K] [IsStrictOrderedRing K] [DecidableEq V] [DecidableEq C]
variable (showC : Option C → String) (showN : Nat × Nat → String) (showV : V → String) (features : List String)

omit [Field K] [LinearOrder K] [IsStrictOrderedRing K] [DecidableEq V] [DecidableEq C] in
theorem forall₂_and_mem_left {α β : Type} {R : α → β → Prop} {l : List α} {l' : List β} (h : List.Forall₂ R l l') :
    List.Forall₂ (fun a b => a ∈ l ∧ R a b) l l' := by
  induction h with
  | nil => exact .nil
  | cons hd _ ih => exact .cons ⟨by simp, hd⟩ (ih.imp (fun a b h => ⟨by simp [h.1], h.2⟩))

/-- the text of a node of an ID3 tree. -/
def iOwn (n : INode V C K) : String :=
  if n.isLeaf then tabs n.level ++ "Class value: " ++ showC n.classValue ++ "\tCounts: " ++ showN n.classCount
  else tabs n.level ++ "Feature " ++ showVar n.varIndex

theorem iOwn_spec (n : INode V C K) : ∃ ind, Indent n.level.toNat ind ∧
      ((n.isLeaf = true ∧ iOwn showC showN n = ind ++ "Class value: " ++ showC n.classValue ++ "\tCounts: " ++ showN n.classCount) ∨
       (n.isLeaf = false ∧ ∃ i, n.varIndex = some i ∧ iOwn showC showN n = ind ++ "Feature " ++ toString i) ∨
       (n.isLeaf = false ∧ n.varIndex = none ∧ iOwn showC showN n = ind ++ "Feature -1")) := by
  refine ⟨_, tabs_indent _, ?_⟩
  unfold iOwn
  cases hl : n.isLeaf
  · refine .inr ?_
    cases hv : n.varIndex with
    | none => 
      refine .inr ⟨rfl, rfl, ?_⟩
      simp only [Bool.false_eq_true, if_false, showVar, String.append_assoc]
      rfl
    | some i => exact .inl ⟨rfl, i, rfl, by simp only [Bool.false_eq_true, if_false, showVar]⟩
  · exact .inl ⟨rfl, by simp only [if_true]⟩

/-- the levels increase by one from a node to its children, and the tests name features. -/
def ShowOk (t : INode V C K) : Prop :=
  ∀ path node, (path, node) ∈ Spec.idNodes t → node.level = t.level + path.length ∧ ∀ q ∈ path, ∃ i, q.1 = some i ∧ i < features.length

theorem ShowOk.child {var : Option Nat} {bs : List (V × INode V C K)} {cv cc l e n} (h : ShowOk features (.mk false var bs cv cc l e n)) {s : V}
    {t : INode V C K} (hm : (s, t) ∈ bs) : ShowOk features t ∧ t.level = l + 1 ∧ ∃ i, var = some i ∧ i < features.length := by
  have hself : ([], t) ∈ Spec.idNodes t := by
    obtain ⟨a, b, c, d, f, g, i, j⟩ := t
    simp [Spec.idNodes]
  have h1 := h _ _ (mem_idNodes_split.2 (.inr ⟨s, t, [], hm, hself, rfl⟩))
  have hlev : t.level = l + 1 := by simpa [INode.level] using h1.1
  refine ⟨?_, hlev, h1.2 (var, s) (by simp)⟩
  intro path node hp
  have h2 := h _ _ (mem_idNodes_split.2 (.inr ⟨s, t, path, hm, hp, rfl⟩))
  refine ⟨?_, fun q hq => h2.2 q (by simp [hq])⟩
  have := h2.1
  rw [List.length_cons] at this
  change node.level = l + _ at this
  rw [this, hlev]
  push_cast
  ring

/-- the text is a listing of descriptions of the nodes, the first without the line of its test. -/
def IListed (t : INode V C K) : Prop :=
  ∃ text rest, t.str showC showN showV features = .ok text ∧ Listing (iOwn showC showN t :: rest) text ∧
    List.Forall₂ (fun q piece => IDescription showC showN showV features q piece) (Spec.idNodes t).tail rest

theorem idNodes_cons (t : INode V C K) : Spec.idNodes t = ([], t) :: (Spec.idNodes t).tail := by
  obtain ⟨a, b, c, d, f, g, i, j⟩ := t
  simp [Spec.idNodes]

theorem Spec.IDescription.below {q : List (Option Nat × V) × INode V C K} {text : String} (hne : q.1 ≠ [])
    (h : IDescription showC showN showV features q text) (x : Option Nat × V) : IDescription showC showN showV features (x :: q.1, q.2) text := by
  obtain ⟨b, o, e, hb, ho⟩ := h
  refine ⟨b, o, e, ?_, ho⟩
  rcases hb with ⟨h1, -⟩ | ⟨pre, i, v, f, ind, h1, h2⟩
  · exact absurd h1 hne
  · exact .inr ⟨x :: pre, i, v, f, ind, by rw [h1]; rfl, h2⟩

theorem idNodes_tail_ne (t : INode V C K) : ∀ q ∈ (Spec.idNodes t).tail, q.1 ≠ [] := by
  obtain ⟨a, b, c, d, f, g, i, j⟩ := t
  intro q hq
  obtain ⟨path, node⟩ := q
  simp only [Spec.idNodes, List.tail_cons] at hq
  cases a
  · simp only [Bool.false_eq_true, if_false] at hq
    obtain ⟨s, t, p', -, -, rfl⟩ := mem_idNodesBranches.1 hq
    simp
  · simp at hq

mutual
theorem INode.listing : ∀ t : INode V C K, ShowOk features t → IListed showC showN showV features t
  | .mk true var bs cv cc l e n, _ => by
    refine ⟨_, [], by rw [INode.str, if_pos rfl], ?_, ?_⟩
    · have := Listing.one (iOwn showC showN (.mk true var bs cv cc l e n : INode V C K)) "" (by intro c hc; simp at hc)
      rw [String.append_empty] at this
      exact this
    · rw [idNodes_leaf]; exact .nil
  | .mk false var bs cv cc l e n, h => by
    have hown : iOwn showC showN (.mk false var bs cv cc l e n : INode V C K) = tabs l ++ "Feature " ++ showVar var := by
      simp [iOwn, INode.isLeaf, INode.level, INode.varIndex]
    have h0 : Listing [tabs l ++ "Feature " ++ showVar var] (tabs l ++ "Feature " ++ showVar var) := by
      have := Listing.one (tabs l ++ "Feature " ++ showVar var) "" (by intro c hc; simp at hc)
      rwa [String.append_empty] at this
    obtain ⟨body, rest, hb, hl, hd⟩ := INode.listingList bs var l
      (fun s t hm => (h.child features hm).1) (fun s t hm => (h.child features hm).2) _ _ h0 (by simp)
    refine ⟨_, rest, by rw [INode.str, if_neg (by simp), hb]; rfl, ?_, ?_⟩
    · rw [hown, String.append_assoc (s₂ := "\n")]
      exact hl.blank (by simp) (blank_newline.append (tabs_blank _))
    · simpa [Spec.idNodes] using hd
theorem INode.listingList : ∀ (bs : List (V × INode V C K)) (var : Option Nat) (l : Int), (∀ s t, (s, t) ∈ bs → ShowOk features t) →
    (∀ s t, (s, t) ∈ bs → t.level = l + 1 ∧ ∃ i, var = some i ∧ i < features.length) → ∀ (ps : List String) (text : String), Listing ps text → ps ≠ [] →
    ∃ body rest, INode.strList showC showN showV features var l bs = .ok body ∧ Listing (ps ++ rest) (text ++ body) ∧
      List.Forall₂ (fun q piece => IDescription showC showN showV features q piece) (Spec.idNodesBranches var bs) rest
  | [], var, l, _, _, ps, text, h, _ => by
    refine ⟨"", [], rfl, ?_, ?_⟩
    · rwa [List.append_nil, String.append_empty]
    · rw [Spec.idNodesBranches]; exact .nil
  | (s, c) :: cs, var, l, hok, hlev, ps, text, h, hne => by
    obtain ⟨ct, crest, hc1, hc2, hc3⟩ := INode.listing c (hok s c (by simp))
    obtain ⟨hcl, i, rfl, hi⟩ := hlev s c (by simp)
    have hbranch : Listing ((tabs l ++ features[i] ++ " = " ++ showV s ++ "\n" ++ iOwn showC showN c) :: crest)
        (tabs l ++ features[i] ++ " = " ++ showV s ++ "\n" ++ ct) := by
      cases hc2 with
      | cons _ b r _ hb hr =>
        have := Listing.cons (tabs l ++ features[i] ++ " = " ++ showV s ++ "\n" ++ iOwn showC showN c) b r crest hb hr
        simp only [String.append_assoc] at this ⊢
        exact this
    have hstart := (h.blank hne blank_newline).append hbranch
    obtain ⟨body, rest, hb1, hb2, hb3⟩ := INode.listingList cs (some i) l (fun s t hm => hok s t (by simp [hm]))
      (fun s t hm => hlev s t (by simp [hm])) _ _ hstart (by simp)
    refine ⟨"\n" ++ tabs l ++ features[i] ++ " = " ++ showV s ++ "\n" ++ ct ++ body,
      (tabs l ++ features[i] ++ " = " ++ showV s ++ "\n" ++ iOwn showC showN c) :: (crest ++ rest), ?_, ?_, ?_⟩
    · rw [INode.strList, hc1, hb1, featureAt, List.getElem?_eq_getElem hi]
      rfl
    · have e : ∀ x : String, ps ++ x :: (crest ++ rest) = ps ++ x :: crest ++ rest := by intro x; simp
      rw [e]
      simp only [String.append_assoc] at hb2 ⊢
      exact hb2
    · rw [Spec.idNodesBranches, idNodes_cons c, List.map_cons, List.cons_append]
      refine .cons ?_ (List.rel_append ?_ hb3)
      · refine ⟨tabs l ++ features[i] ++ " = " ++ showV s ++ "\n", iOwn showC showN c, by simp only [String.append_assoc], .inr ⟨[], i, s, features[i],
          tabs l, rfl, List.getElem?_eq_getElem hi, ?_, by simp only [String.append_assoc]⟩, iOwn_spec showC showN c⟩
        simp only [hcl, add_sub_cancel_right]
        exact tabs_indent l
      · rw [List.forall₂_map_left_iff]
        refine List.Forall₂.imp ?_ (forall₂_and_mem_left hc3)
        rintro q piece ⟨hq, hd⟩
        exact hd.below showC showN showV features (idNodes_tail_ne c q hq) _
end

end

section
variable [Field K] [LinearOrder K] [IsStrictOrderedRing K] [LinearOrder V] [LinearOrder C]

/-- **C142**: printing a fitted ID3 tree succeeds and lists every node in order (a node before its children), with the test that leads to it, its
class and counts or the feature it tests; between the descriptions there is only white space. -/
theorem C142_id3 (showC : Option C → String) (showN : Nat × Nat → String) (showV : V → String)
    (gain : List V → List C → List V → K) (ordC : List C → List C)
    (hC : Spec.IsSetListing ordC) (ordF : List String → List String) (hF : Spec.IsArrangement ordF) (p : ID3Params K)
    (t t' : INode V C K) (rows : IRows V C) (h : id3FitWith gain ordC ordF p t rows = .ok t') :
    ∃ text pieces, t'.str showC showN showV p.features = .ok text ∧ Listing pieces text ∧
      List.Forall₂ (fun q piece => IDescription showC showN showV p.features q piece) (Spec.idNodes t') pieces := by
  have hok : ShowOk p.features t' := by
    intro path node hm
    obtain ⟨h1, -, -, h2⟩ := C45_bounded gain ordC hC ordF hF p t t' rows h path node hm
    obtain ⟨h3, -⟩ := C45_bounded gain ordC hC ordF hF p t t' rows h [] t' (by rw [idNodes_cons]; simp)
    exact ⟨by rw [h1, h3]; simp, h2⟩
  obtain ⟨text, rest, h1, h2, h3⟩ := INode.listing showC showN showV p.features t' hok
  refine ⟨text, _, h1, h2, ?_⟩
  rw [idNodes_cons]
  exact .cons ⟨"", _, by rw [String.empty_append], .inl ⟨rfl, rfl⟩, iOwn_spec showC showN t'⟩ h3

end

/-- a printed ID3 tree with one test. -/
example : (INode.mk false (some 0) [("m", .mk true none [] (some 1) (2, 2) 1 0 0), ("f", .mk true none [] (some 0) (1, 1) 1 0 0)] (some 1) (3, 2) 0 0 2 :
    INode String Nat ℚ).str (fun c => if c = some 1 then "1" else "0") (fun _ => "[]") id ["sex"] =
    .ok "Feature 0\nsex = m\n\tClass value: 1\tCounts: []\nsex = f\n\tClass value: 0\tCounts: []\n" := by decide +kernel

/-! ### rules -/

theorem append_sep_inj {α : Type} (x : α) {a b u v : List α} (ha : x ∉ a) (hb : x ∉ b) (h : a ++ x :: u = b ++ x :: v) : a = b ∧ u = v := by
  induction a generalizing b with
  | nil =>
    cases b with
    | nil => simpa using h
    | cons c b => simp only [List.nil_append, List.cons_append, List.cons.injEq] at h; exact absurd (by simp [h.1]) hb
  | cons c a ih =>
    cases b with
    | nil => simp only [List.nil_append, List.cons_append, List.cons.injEq] at h; exact absurd (by simp [h.1]) ha
    | cons d b =>
      simp only [List.cons_append, List.cons.injEq] at h
      obtain ⟨rfl, h⟩ := h
      obtain ⟨rfl, h'⟩ := ih (fun hx => ha (by simp [hx])) (fun hx => hb (by simp [hx])) h
      exact ⟨rfl, h'⟩

/-- the characters of the conditions. -/
def antChars : List (String × String) → List Char
  | [] => []
  | [p] => p.1.toList ++ ':' :: ' ' :: p.2.toList
  | p :: q :: rest => p.1.toList ++ ':' :: ' ' :: (p.2.toList ++ ' ' :: 'A' :: 'N' :: 'D' :: ' ' :: antChars (q :: rest))

theorem pyJoin_chars (l : List (String × String)) : (pyJoin " AND " (l.map (fun p => p.1 ++ ": " ++ p.2))).toList = antChars l := by
  induction l with
  | nil => rfl
  | cons p l ih =>
    cases l with
    | nil => simp [pyJoin, antChars]
    | cons q l =>
      simp only [List.map_cons] at ih
      simp only [List.map_cons, pyJoin, antChars, String.toList_append, ih]
      simp

theorem antChars_inj (l m : List (String × String)) (Z W : List Char) (hl : ∀ p ∈ l, ':' ∉ p.1.toList ∧ '=' ∉ p.1.toList ∧ ' ' ∉ p.2.toList)
    (hm : ∀ p ∈ m, ':' ∉ p.1.toList ∧ '=' ∉ p.1.toList ∧ ' ' ∉ p.2.toList)
    (h : antChars l ++ ' ' :: '=' :: Z = antChars m ++ ' ' :: '=' :: W) : l = m ∧ Z = W := by
  have contra : ∀ (p : String × String) (rest : List (String × String)) (Z W : List Char), ':' ∉ p.1.toList → '=' ∉ p.1.toList →
      ' ' :: '=' :: Z = antChars (p :: rest) ++ W → False := by
    intro p rest Z W h1 h2 h
    have e : ∃ T, antChars (p :: rest) = p.1.toList ++ ':' :: T := by
      cases rest with
      | nil => exact ⟨_, rfl⟩
      | cons q rest => exact ⟨_, rfl⟩
    obtain ⟨T, e⟩ := e
    rw [e] at h
    generalize p.1.toList = f at h h1 h2
    match f, h with
    | [], h => simp at h
    | [c], h => simp at h
    | c :: d :: f, h =>
      simp only [List.cons_append, List.cons.injEq] at h
      exact h2 (by simp [← h.2.1])
  induction l generalizing m with
  | nil =>
    cases m with
    | nil => simpa [antChars] using h
    | cons q m => exact (contra q m Z _ (hm q (by simp)).1 (hm q (by simp)).2.1 (by simpa only [antChars, List.nil_append] using h)).elim
  | cons p l ih =>
    cases m with
    | nil => exact (contra p l W _ (hl p (by simp)).1 (hl p (by simp)).2.1 (by simpa only [antChars, List.nil_append] using h.symm)).elim
    | cons q m =>
      obtain ⟨p1, p2, p3⟩ := hl p (by simp)
      obtain ⟨q1, q2, q3⟩ := hm q (by simp)
      have fin : p.1.toList = q.1.toList → p.2.toList = q.2.toList → p = q := fun e1 e2 =>
        Prod.ext (String.toList_inj.1 e1) (String.toList_inj.1 e2)
      cases l with
      | nil =>
        cases m with
        | nil =>
          simp only [antChars, List.append_assoc, List.cons_append] at h
          obtain ⟨e1, h⟩ := append_sep_inj _ p1 q1 h
          simp only [List.cons.injEq, true_and] at h
          obtain ⟨e2, h⟩ := append_sep_inj _ p3 q3 h
          simp only [List.cons.injEq, true_and] at h
          exact ⟨by rw [fin e1 e2], h⟩
        | cons q' m =>
          simp only [antChars, List.append_assoc, List.cons_append] at h
          obtain ⟨e1, h⟩ := append_sep_inj _ p1 q1 h
          simp only [List.cons.injEq, true_and] at h
          obtain ⟨e2, h⟩ := append_sep_inj _ p3 q3 h
          simp at h
      | cons p' l =>
        cases m with
        | nil =>
          simp only [antChars, List.append_assoc, List.cons_append] at h
          obtain ⟨e1, h⟩ := append_sep_inj _ p1 q1 h
          simp only [List.cons.injEq, true_and] at h
          obtain ⟨e2, h⟩ := append_sep_inj _ p3 q3 h
          simp at h
        | cons q' m =>
          simp only [antChars, List.append_assoc, List.cons_append] at h
          obtain ⟨e1, h⟩ := append_sep_inj _ p1 q1 h
          simp only [List.cons.injEq, true_and] at h
          obtain ⟨e2, h⟩ := append_sep_inj _ p3 q3 h
          simp only [List.cons.injEq, true_and] at h
          obtain ⟨e3, e4⟩ := ih (q' :: m) (fun x hx => hl x (by simp [hx])) (fun x hx => hm x (by simp [hx])) (by simpa using h)
          exact ⟨by rw [fin e1 e2, e3], e4⟩

/-- **C142**, partial: rules print differently: two rules with the same text have the same conditions, consequent and weight, when the values, classes
and weights print differently, no feature has a colon or an equals sign, no value a space and no class an opening parenthesis in its text.
Missing: names with the separators of the text (C142_rule_false). -/
theorem C142_rule_partial (showV : V → String) (showC : C → String) (showK : K → String) (hV : Function.Injective showV)
    (hC : Function.Injective showC) (hK : Function.Injective showK) (r s : Rule V C K)
    (hsep : ∀ p ∈ r.antecedent ++ s.antecedent, ':' ∉ p.1.toList ∧ '=' ∉ p.1.toList ∧ ' ' ∉ (showV p.2).toList)
    (hcls : ∀ c ∈ [r.consequent, s.consequent], '(' ∉ (showC c).toList) (h : r.str showV showC showK = s.str showV showC showK) : r = s := by
  have key : ∀ r : Rule V C K, (r.str showV showC showK).toList = antChars (r.antecedent.map (fun p => (p.1, showV p.2))) ++ ' ' :: '=' ::
      ('>' :: ' ' :: (((showC r.consequent).toList ++ [' ']) ++ '(' :: 'W' :: 'e' :: 'i' :: 'g' :: 'h' :: 't' :: ':' :: ' ' ::
        ((showK r.weight).toList ++ [')']))) := by
    intro r
    have e : r.antecedent.map (fun p => p.1 ++ ": " ++ showV p.2) =
        (r.antecedent.map (fun p => (p.1, showV p.2))).map (fun p => p.1 ++ ": " ++ p.2) := by rw [List.map_map]; rfl
    unfold Rule.str
    rw [e]
    simp only [String.toList_append, pyJoin_chars]
    simp
  have hl := congrArg String.toList h
  rw [key, key] at hl
  have conv : ∀ t : Rule V C K, t.antecedent ⊆ r.antecedent ++ s.antecedent →
      ∀ p ∈ t.antecedent.map (fun p => (p.1, showV p.2)), ':' ∉ p.1.toList ∧ '=' ∉ p.1.toList ∧ ' ' ∉ p.2.toList := by
    intro t ht p hp
    obtain ⟨q, hq, rfl⟩ := List.mem_map.1 hp
    exact hsep q (ht hq)
  obtain ⟨h1, h2⟩ := antChars_inj _ _ _ _ (conv r (by simp)) (conv s (by simp)) hl
  simp only [List.cons.injEq, true_and] at h2
  obtain ⟨h3, h4⟩ := append_sep_inj '(' (by
    simpa using hcls r.consequent (by simp)) (by simpa using hcls s.consequent (by simp)) h2
  simp only [List.cons.injEq, true_and] at h4
  rw [List.append_left_inj] at h3 h4
  have e1 : r.antecedent = s.antecedent := (List.map_injective_iff.2 (fun p q hpq => by
    simp only [Prod.mk.injEq] at hpq
    exact Prod.ext hpq.1 (hV hpq.2))) h1
  obtain ⟨a, c, w⟩ := r
  obtain ⟨a', c', w'⟩ := s
  simp only at e1 h3 h4
  rw [e1, hC (String.toList_inj.1 h3), hK (String.toList_inj.1 h4)]

/-- **C142** is false for names with the separators: two different rules with the same text. -/
theorem C142_rule_false : ∃ r s : Rule String String String, r ≠ s ∧ r.str id id id = s.str id id id :=
  ⟨⟨[("x", "a AND y: b")], "c", "1"⟩, ⟨[("x", "a"), ("y", "b")], "c", "1"⟩, by decide, by decide +kernel⟩

/-- a rule that meets the conditions, and its text. -/
example : (⟨[("age", "low"), ("sex", "m")], "yes", "0.5"⟩ : Rule String String String).str id id id = "age: low AND sex: m => yes (Weight: 0.5)" := by
  decide +kernel
example : ∀ p ∈ [("age", "low"), ("sex", "m")], ':' ∉ p.1.toList ∧ '=' ∉ p.1.toList ∧ ' ' ∉ p.2.toList := by decide +kernel

end Teacher
