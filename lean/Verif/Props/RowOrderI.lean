import Verif.Props.RowOrderB
import Verif.Props.ID3

/-! # C158: the order of the training rows and ID3 -/

namespace Teacher
set_option linter.unusedSectionVars false

section permI
variable {V C K : Type} [Field K] [LinearOrder K] [IsStrictOrderedRing K] [LinearOrder V] [LinearOrder C]

/-- an order in which a set is listed that depends on its elements only, not on the order in which they were inserted. -/
def Spec.SetOrder (ord : List C → List C) : Prop := ∀ l l' : List C, l.dedup.Perm l'.dedup → ord l = ord l'

/-- a gain that does not depend on the order of the rows. -/
def Spec.GainOrderFree (gain : List V → List C → List V → K) : Prop :=
  ∀ (l l' : List (V × C)) (s : List V), l.Perm l' → gain (l.map Prod.fst) (l.map Prod.snd) s = gain (l'.map Prod.fst) (l'.map Prod.snd) s

theorem dedup_order {ord : List C → List C} (ho : Spec.SetOrder ord) {l l' : List C} (hp : l.Perm l') : ord l = ord l' :=
  ho _ _ hp.dedup

theorem freqEntropy_perm (H : List K → K) (classes : List C) {l l' : List C} (hp : l.Perm l') : freqEntropy H classes l = freqEntropy H classes l' := by
  unfold freqEntropy
  rw [hp.length_eq]
  congr 1
  apply List.map_congr_left
  intro c _
  rw [hp.count_eq]

/-- the gain of ID3 does not depend on the order of the rows when the order of a set depends on its elements only. -/
theorem id3Gain_orderFree (H : List K → K) {ordC : List C → List C} (ho : Spec.SetOrder ordC) :
    Spec.GainOrderFree (id3Gain H ordC : List V → List C → List V → K) := by
  intro l l' s hp
  unfold id3Gain
  have hy := hp.map Prod.snd
  dsimp only
  rw [dedup_order ho hy, freqEntropy_perm H _ hy, hy.length_eq]
  congr 1
  have e : ∀ m : List (V × C), (m.map Prod.fst).zip (m.map Prod.snd) = m := fun m => by simp [List.zip_map']
  rw [e, e]
  rw [List.filter_map, List.filter_map, List.map_map, List.map_map]
  have hq : ∀ v : V, (((l.filter (fun p => p.1 = v)).map Prod.snd).Perm ((l'.filter (fun p => p.1 = v)).map Prod.snd)) :=
    fun v => (hp.filter _).map _
  have hf : s.filter ((fun q : List C => decide (q ≠ [])) ∘ fun v => (l.filter (fun p => p.1 = v)).map Prod.snd) =
      s.filter ((fun q : List C => decide (q ≠ [])) ∘ fun v => (l'.filter (fun p => p.1 = v)).map Prod.snd) := by
    apply List.filter_congr
    intro v _
    simp only [Function.comp]
    have : ((l.filter (fun p => p.1 = v)).map Prod.snd = []) ↔ ((l'.filter (fun p => p.1 = v)).map Prod.snd = []) := by
      rw [← List.length_eq_zero_iff, ← List.length_eq_zero_iff, (hq v).length_eq]
    rw [decide_eq_decide]
    exact not_congr this
  rw [hf]
  congr 1
  apply List.map_congr_left
  intro v _
  simp only [Function.comp]
  rw [(hq v).length_eq, freqEntropy_perm H _ (hq v)]

theorem classCounts_perm {ordC : List C → List C} (ho : Spec.SetOrder ordC) {rows rows' : IRows V C} (hp : rows.Perm rows') :
    classCounts ordC rows = classCounts ordC rows' := by
  unfold classCounts
  have hy := hp.map Prod.snd
  rw [dedup_order ho hy]
  apply List.map_congr_left
  intro c _
  rw [hy.count_eq]

/-- a column of the rows in the two orders: an `IndexError` in both, or the same value for every row. -/
theorem column_perm {rows rows' : IRows V C} (hp : rows.Perm rows') (i : Nat) :
    PyRel (fun c c' => (c.zip (rows.map Prod.snd)).Perm (c'.zip (rows'.map Prod.snd)) ∧ c.length = rows.length ∧ c'.length = rows'.length)
      (column (rows.map Prod.fst) i) (column (rows'.map Prod.fst) i) := by
  by_cases h : ∀ r ∈ rows, i < r.1.length
  · by_cases hne : rows = []
    · subst hne
      have : rows' = [] := List.nil_perm.mp hp
      subst this
      exact .ok ⟨.refl _, rfl, rfl⟩
    · obtain ⟨r0, hr0⟩ := List.exists_mem_of_ne_nil rows hne
      have d : V := r0.1[i]'(h r0 hr0)
      have hcol : ∀ R : IRows V C, (∀ r ∈ R, i < r.1.length) → column (R.map Prod.fst) i = .ok (R.map (fun r => r.1.getD i d)) := by
        intro R hR
        rw [column_eq_ok_iff, List.forall₂_map_left_iff, List.forall₂_map_right_iff, List.forall₂_same]
        intro r hr
        rw [List.getElem?_eq_getElem (hR r hr), List.getD_eq_getElem?_getD, List.getElem?_eq_getElem (hR r hr)]
        rfl
      rw [hcol rows h, hcol rows' (fun r hr => h r (hp.mem_iff.mpr hr))]
      refine .ok ⟨?_, by simp, by simp⟩
      rw [zip_maps, zip_maps]
      exact hp.map _
  · push Not at h
    obtain ⟨r, hr, hlen⟩ := h
    have herr : ∀ R : IRows V C, r ∈ R → column (R.map Prod.fst) i = .error .indexError := by
      intro R hR
      unfold column
      refine mapM_error_eq _ _ _ ?_ ?_
      · intro a _
        cases a[i]? <;> simp
      · refine ⟨r.1, List.mem_map_of_mem hR, ?_⟩
        rw [List.getElem?_eq_none hlen]
    rw [herr rows hr, herr rows' (hp.mem_iff.mp hr)]
    exact .error _

theorem id3Best_perm {gain : List V → List C → List V → K} (hg : Spec.GainOrderFree gain) (features : List String) (fs : List (List V))
    {rows rows' : IRows V C} (hp : rows.Perm rows') (fts : List String) : ∀ best : Option Nat × List V × K,
    id3Best gain features fs rows best fts = id3Best gain features fs rows' best fts := by
  induction fts with
  | nil => intro best; rfl
  | cons ft fts ih =>
    intro best
    simp only [id3Best]
    cases Dict.get (featuresDic features) ft with
    | error e => rfl
    | ok i =>
      simp only [py_bind_ok]
      rcases column_perm hp i with ⟨e, h1, h2⟩ | ⟨c, c', h1, h2, h3, h4, h5⟩
      · rw [h1, h2]; rfl
      · rw [h1, h2]
        simp only [py_bind_ok]
        cases fs[i]? with
        | none => rfl
        | some s =>
          simp only [py_bind_ok]
          have := hg _ _ s h3
          rw [List.map_fst_zip (by simp [h4]), List.map_snd_zip (by simp [h4]), List.map_fst_zip (by simp [h5]), List.map_snd_zip (by simp [h5])] at this
          rw [this, ih]

theorem rowsWhere_perm {rows rows' : IRows V C} (hp : rows.Perm rows') (var : Nat) (s : V) : (rowsWhere rows var s).Perm (rowsWhere rows' var s) :=
  hp.filter _

theorem id3PartialFit_perm {gain : List V → List C → List V → K} (hg : Spec.GainOrderFree gain) {ordC : List C → List C} (ho : Spec.SetOrder ordC)
    (ordF : List String → List String) (p : ID3Params K) (fs : List (List V)) (yc : List C) :
    ∀ (fuel : Nat) (rows rows' : IRows V C) (t : INode V C K) (depth : Nat) (erased : List String), rows.Perm rows' →
      id3PartialFit gain ordC ordF p fs yc fuel rows t depth erased = id3PartialFit gain ordC ordF p fs yc fuel rows' t depth erased := by
  intro fuel
  induction fuel with
  | zero => intro rows rows' t depth erased _; rfl
  | succ fuel ih =>
    intro rows rows' t depth erased hp
    simp only [id3PartialFit]
    rw [classCounts_perm ho hp, hp.length_eq]
    have hb := id3Best_perm hg p.features fs hp
    have hc : ∀ (name : String) (var : Nat) (cv : C),
        id3Child (fun sub child => id3PartialFit gain ordC ordF p fs yc fuel sub child (depth + 1) (erased ++ [name])) rows var cv depth =
        id3Child (fun sub child => id3PartialFit gain ordC ordF p fs yc fuel sub child (depth + 1) (erased ++ [name])) rows' var cv depth := by
      intro name var cv
      funext s
      have hs := rowsWhere_perm hp var s
      unfold id3Child
      dsimp only
      have hne : rowsWhere rows var s ≠ [] ↔ rowsWhere rows' var s ≠ [] := by
        rw [← List.length_pos_iff, ← List.length_pos_iff, hs.length_eq]
      by_cases h : rowsWhere rows var s ≠ []
      · rw [if_pos h, if_pos (hne.mp h), ih _ _ _ _ _ hs, hs.length_eq, hp.length_eq]
      · rw [if_neg h, if_neg (fun h' => h (hne.mpr h'))]
    simp only [hb, hc]

/-- **C158**, partial: if the order in which a Python `set` of classes is listed depends on its elements only, fitting ID3 to the same labelled rows
in any other order gives exactly the same tree (tests, splits, classes, counts, errors, levels), for the gain of the library with any entropy
function. What is missing: the order of a `set` may depend on the order of insertion, and then the tree may (`C158_false`). -/
theorem C158_row_order_partial (H : List K → K) {ordC : List C → List C} (ho : Spec.SetOrder ordC) (ordF : List String → List String)
    (p : ID3Params K) (t0 : INode V C K) (rows rows' : IRows V C) (hp : rows.Perm rows') :
    id3Fit H ordC ordF p t0 rows' = id3Fit H ordC ordF p t0 rows := by
  unfold id3Fit id3FitWith
  have hcols : ∀ l : List Nat, PyRel (fun cs cs' => cs.map npUnique = cs'.map npUnique) (l.mapM (column (rows'.map Prod.fst)))
      (l.mapM (column (rows.map Prod.fst))) := by
    intro l
    induction l with
    | nil => exact .ok rfl
    | cons i l ih =>
      rw [List.mapM_cons, List.mapM_cons]
      refine (column_perm hp.symm i).bind ?_
      rintro c c' ⟨h1, h2, h3⟩
      refine ih.bind ?_
      intro cs cs' hcs
      refine .ok ?_
      have := h1.map Prod.fst
      rw [List.map_fst_zip (by simp [h2]), List.map_fst_zip (by simp [h3])] at this
      rw [List.map_cons, List.map_cons, hcs, npUnique_perm this]
  rcases hcols (List.range p.features.length) with ⟨e, h1, h2⟩ | ⟨cs, cs', h1, h2, h3⟩
  · rw [h1, h2]; rfl
  · rw [h1, h2, py_bind_ok, py_bind_ok, h3, npUnique_perm (hp.map Prod.snd)]
    exact (id3PartialFit_perm (id3Gain_orderFree H ho) ho ordF p _ _ _ _ _ _ _ _ hp).symm

end permI

/-- listing a set in increasing order is such an order. -/
theorem setOrder_sorted {C : Type} [LinearOrder C] : Spec.SetOrder (fun l : List C => l.dedup.insertionSort (· ≤ ·)) := by
  intro l l' hp
  exact List.Perm.eq_of_pairwise (fun a b _ _ h1 h2 => le_antisymm h1 h2) (List.pairwise_insertionSort _ _) (List.pairwise_insertionSort _ _)
    ((List.perm_insertionSort _ _).trans (hp.trans (List.perm_insertionSort _ _).symm))

/-- the rows of the example of ID3, reversed: the same tree, which is not a single leaf. -/
example : id3Fit ID3Ex.gini (fun l : List Nat => l.dedup.insertionSort (· ≤ ·)) id { ID3Ex.p with prunning := false } .fresh ID3Ex.rows.reverse =
      id3Fit ID3Ex.gini (fun l : List Nat => l.dedup.insertionSort (· ≤ ·)) id { ID3Ex.p with prunning := false } .fresh ID3Ex.rows ∧
    (id3Fit ID3Ex.gini (fun l : List Nat => l.dedup.insertionSort (· ≤ ·)) id { ID3Ex.p with prunning := false } .fresh ID3Ex.rows).toOption.map INode.isLeaf =
      some false :=
  ⟨C158_row_order_partial ID3Ex.gini setOrder_sorted id _ .fresh _ _ (List.reverse_perm _).symm, by decide +kernel⟩

/-- **C158** is false when the order of a set of classes depends on the order of insertion (in Python `list({0, 8})` is `[0, 8]` and
`list({8, 0})` is `[8, 0]`): with as many rows of class 0 as of class 8 the tree predicts the class inserted first. -/
theorem C158_false : ∃ (ordC : List Nat → List Nat) (p : ID3Params ℚ) (rows rows' : IRows Nat Nat) (t t' : INode Nat Nat ℚ) (x : List Nat),
    Spec.IsSetListing ordC ∧ rows.Perm rows' ∧ id3Fit ID3Ex.gini ordC id p .fresh rows = .ok t ∧ id3Fit ID3Ex.gini ordC id p .fresh rows' = .ok t' ∧
      id3Predict t [x] = .ok [.cls 0] ∧ id3Predict t' [x] = .ok [.cls 8] := by
  have h : (id3Fit ID3Ex.gini List.dedup id ⟨["a"], 0, 0, 1, false⟩ .fresh [([1], 0), ([2], 8)] : Py (INode Nat Nat ℚ)).toOption.bind (fun t =>
      (id3Fit ID3Ex.gini List.dedup id ⟨["a"], 0, 0, 1, false⟩ .fresh [([2], 8), ([1], 0)] : Py (INode Nat Nat ℚ)).toOption.map (fun t' =>
        (id3Predict t [[1]], id3Predict t' [[1]]))) = some (.ok [.cls 0], .ok [.cls 8]) := by decide +kernel
  cases e : (id3Fit ID3Ex.gini List.dedup id ⟨["a"], 0, 0, 1, false⟩ .fresh [([1], 0), ([2], 8)] : Py (INode Nat Nat ℚ)) with
  | error _ => rw [e] at h; simp [Except.toOption] at h
  | ok t =>
    cases e' : (id3Fit ID3Ex.gini List.dedup id ⟨["a"], 0, 0, 1, false⟩ .fresh [([2], 8), ([1], 0)] : Py (INode Nat Nat ℚ)) with
    | error _ => rw [e, e'] at h; simp [Except.toOption] at h
    | ok t' =>
      rw [e, e'] at h
      simp only [Except.toOption, Option.bind_some, Option.map_some, Option.some.injEq, Prod.mk.injEq] at h
      exact ⟨List.dedup, _, _, _, t, t', [1], fun l => .refl _, .swap _ _ _, e, e', h.1, h.2⟩

end Teacher
