import Verif.Model.MadDistance
import Verif.Props.Mixed
import Mathlib.Data.List.Sort
import Mathlib.Data.List.GetD
import Mathlib.Tactic.Ring
import Mathlib.Tactic.Linarith
import Mathlib.Tactic.FieldSimp

/-! # C149-C151: the normalized square Euclidean distance, the MAD distance, and the options of the mixed distance -/

set_option linter.unusedSectionVars false

namespace Teacher

open Spec

section
variable {K : Type} [Field K] [LinearOrder K] [IsStrictOrderedRing K]

/-! ### specifications -/

/-- textbook median: the mean of the two middle elements of the list put in increasing order (the same one for an odd length). -/
def Spec.IsMedian (l : List K) (m : K) : Prop :=
  ∃ (s : List K) (a b : K), s.Perm l ∧ s.Pairwise (· ≤ ·) ∧ s[(l.length - 1) / 2]? = some a ∧ s[l.length / 2]? = some b ∧ m = (a + b) / 2

/-- one value fills more than half of the list. -/
def Spec.Majority (l : List K) : Prop := ∃ v, l.length < 2 * l.count v

/-- the median of the distances to the median. -/
def Spec.IsMad (l : List K) (d : K) : Prop := ∃ m, IsMedian l m ∧ IsMedian (l.map (fun x => |x - m|)) d

/-- the unit in which differences of a column are measured: 1 when one value fills more than half of it, otherwise its MAD. -/
def Spec.IsScale (l : List K) (s : K) : Prop := (Majority l → s = 1) ∧ (¬ Majority l → IsMad l s)

/-! ### medians -/

theorem perm_sorted_unique {s t : List K} (h : s.Perm t) (hs : s.Pairwise (· ≤ ·)) (ht : t.Pairwise (· ≤ ·)) : s = t :=
  h.eq_of_pairwise' hs ht

theorem npMedian_iff (l : List K) (m : K) : npMedian l = .ok m ↔ IsMedian l m := by
  unfold npMedian IsMedian
  constructor
  · intro h
    dsimp only at h
    split at h
    · rename_i a b ha hb
      injection h with h
      exact ⟨_, a, b, List.perm_insertionSort _ _, List.pairwise_insertionSort _ _, ha, hb, h.symm⟩
    · cases h
  · rintro ⟨s, a, b, hp, hs, ha, hb, rfl⟩
    have : s = l.insertionSort (· ≤ ·) :=
      perm_sorted_unique (hp.trans (List.perm_insertionSort _ _).symm) hs (List.pairwise_insertionSort _ _)
    subst this
    dsimp only
    rw [ha, hb]

theorem Spec.IsMedian.unique {l : List K} {m n : K} (h : IsMedian l m) (h' : IsMedian l n) : m = n := by
  rw [← npMedian_iff] at h h'
  rw [h] at h'
  injection h'

theorem Spec.IsMedian.exists {l : List K} (h : l ≠ []) : ∃ m, IsMedian l m := by
  have hl : 0 < l.length := List.length_pos_of_ne_nil h
  have h1 : (l.length - 1) / 2 < (l.insertionSort (· ≤ ·)).length := by rw [List.length_insertionSort]; omega
  have h2 : l.length / 2 < (l.insertionSort (· ≤ ·)).length := by rw [List.length_insertionSort]; omega
  exact ⟨_, _, _, _, List.perm_insertionSort _ _, List.pairwise_insertionSort _ _, List.getElem?_eq_getElem h1, List.getElem?_eq_getElem h2, rfl⟩

theorem Spec.IsMedian.ne_nil {l : List K} {m : K} (h : IsMedian l m) : l ≠ [] := by
  rintro rfl
  obtain ⟨s, a, b, hp, -, ha, -⟩ := h
  rw [List.perm_nil.1 hp] at ha
  simp at ha

/-- a median moves with a change of unit and of origin. -/
theorem Spec.IsMedian.affine {l : List K} {m : K} (h : IsMedian l m) (c d : K) : IsMedian (l.map (fun x => c * x + d)) (c * m + d) := by
  have hne := h.ne_nil
  have hl : 0 < l.length := List.length_pos_of_ne_nil hne
  obtain ⟨s, a, b, hp, hs, ha, hb, rfl⟩ := h
  have hsl := hp.length_eq
  rcases le_total 0 c with hc | hc
  · refine ⟨s.map (fun x => c * x + d), c * a + d, c * b + d, hp.map _, ?_, ?_, ?_, by ring⟩
    · rw [List.pairwise_map]
      exact hs.imp (fun h => by nlinarith [mul_le_mul_of_nonneg_left h hc])
    · rw [List.length_map, List.getElem?_map, ha]; rfl
    · rw [List.length_map, List.getElem?_map, hb]; rfl
  · refine ⟨(s.map (fun x => c * x + d)).reverse, c * b + d, c * a + d, (List.reverse_perm _).trans (hp.map _), ?_, ?_, ?_, by ring⟩
    · rw [List.pairwise_reverse, List.pairwise_map]
      exact hs.imp (fun h => by nlinarith [mul_le_mul_of_nonpos_left h hc])
    · rw [List.length_map, List.getElem?_reverse (by rw [List.length_map]; omega), List.length_map, List.getElem?_map,
        show s.length - 1 - (l.length - 1) / 2 = l.length / 2 by omega, hb]; rfl
    · rw [List.length_map, List.getElem?_reverse (by rw [List.length_map]; omega), List.length_map, List.getElem?_map,
        show s.length - 1 - l.length / 2 = (l.length - 1) / 2 by omega, ha]; rfl

/-- the MAD scales with the unit and does not move with the origin. -/
theorem Spec.IsMad.affine {l : List K} {m : K} (h : IsMad l m) (c d : K) : IsMad (l.map (fun x => c * x + d)) (|c| * m) := by
  obtain ⟨e, he, hm⟩ := h
  refine ⟨c * e + d, he.affine c d, ?_⟩
  have := hm.affine |c| 0
  rw [add_zero, List.map_map] at this
  rw [List.map_map]
  convert this using 2
  funext x
  simp only [Function.comp]
  rw [add_zero, ← abs_mul]
  congr 1
  ring

theorem Spec.IsMad.unique {l : List K} {m n : K} (h : IsMad l m) (h' : IsMad l n) : m = n := by
  obtain ⟨e, he, hm⟩ := h
  obtain ⟨e', he', hm'⟩ := h'
  cases he.unique he'
  exact hm.unique hm'

theorem Spec.IsMad.exists {l : List K} (h : l ≠ []) : ∃ m, IsMad l m := by
  obtain ⟨m, hm⟩ := IsMedian.exists h
  obtain ⟨d, hd⟩ := IsMedian.exists (l := l.map (fun x => |x - m|)) (by simpa using h)
  exact ⟨d, m, hm, hd⟩

theorem medianAbsDev_iff (l : List K) (d : K) : medianAbsDev l = .ok d ↔ IsMad l d := by
  unfold medianAbsDev IsMad
  rw [py_bind_eq_ok]
  simp only [npMedian_iff]

/-- in a sorted list the elements before a position are at most the element there. -/
theorem sorted_count_lt {s : List K} (hs : s.Pairwise (· ≤ ·)) {i : Nat} {a : K} (h : s[i]? = some a) :
    s.countP (fun x => x < a) ≤ i := by
  obtain ⟨hi, ha⟩ := List.getElem?_eq_some_iff.1 h
  have hsplit : s = s.take i ++ s.drop i := (List.take_append_drop i s).symm
  rw [hsplit, List.countP_append]
  have h2 : (s.drop i).countP (fun x => x < a) = 0 := by
    rw [List.countP_eq_zero]
    intro x hx
    obtain ⟨j, hj, rfl⟩ := List.mem_iff_getElem.1 hx
    rw [List.getElem_drop]
    simp only [decide_eq_true_eq, not_lt]
    rw [← ha]
    rcases Nat.eq_zero_or_pos j with rfl | hj0
    · simp
    · exact List.pairwise_iff_getElem.1 hs _ _ _ _ (by omega)
  rw [h2, Nat.add_zero]
  exact le_trans List.countP_le_length (by simp)

theorem sorted_count_gt {s : List K} (hs : s.Pairwise (· ≤ ·)) {i : Nat} {a : K} (h : s[i]? = some a) :
    s.countP (fun x => a < x) ≤ s.length - 1 - i := by
  obtain ⟨hi, ha⟩ := List.getElem?_eq_some_iff.1 h
  have hsplit : s = s.take (i + 1) ++ s.drop (i + 1) := (List.take_append_drop _ s).symm
  rw [hsplit, List.countP_append]
  have h2 : (s.take (i + 1)).countP (fun x => a < x) = 0 := by
    rw [List.countP_eq_zero]
    intro x hx
    obtain ⟨j, hj, rfl⟩ := List.mem_iff_getElem.1 hx
    rw [List.length_take] at hj
    rw [List.getElem_take]
    simp only [decide_eq_true_eq, not_lt]
    rw [← ha]
    rcases Nat.lt_or_ge j i with hj0 | hj0
    · exact List.pairwise_iff_getElem.1 hs _ _ _ _ hj0
    · have : j = i := by omega
      subst this; exact le_refl _
  rw [h2, Nat.zero_add]
  refine le_trans List.countP_le_length ?_
  rw [← hsplit, List.length_drop]
  omega

/-- a value that fills more than half of a list is its median. -/
theorem Spec.IsMedian.majority {l : List K} {m v : K} (h : IsMedian l m) (hv : l.length < 2 * l.count v) : m = v := by
  obtain ⟨s, a, b, hp, hs, ha, hb, rfl⟩ := h
  have hsl := hp.length_eq
  rw [← hp.count_eq] at hv
  have key : ∀ {i : Nat} {x : K}, s[i]? = some x → (i = (l.length - 1) / 2 ∨ i = l.length / 2) → x = v := by
    intro i x hx hi
    have hil : i < s.length := (List.getElem?_eq_some_iff.1 hx).1
    rcases lt_trichotomy x v with hlt | heq | hgt
    · have h1 := sorted_count_gt hs hx
      have h2 : s.count v ≤ s.countP (fun z => x < z) := by
        rw [List.count]
        apply List.countP_mono_left
        intro z _ hz
        rw [beq_iff_eq] at hz
        simpa [hz] using hlt
      omega
    · exact heq
    · have h1 := sorted_count_lt hs hx
      have h2 : s.count v ≤ s.countP (fun z => z < x) := by
        rw [List.count]
        apply List.countP_mono_left
        intro z _ hz
        rw [beq_iff_eq] at hz
        simpa [hz] using hgt
      omega
  rw [key ha (.inl rfl), key hb (.inr rfl)]
  ring

theorem Spec.IsMedian.nonneg {l : List K} {m : K} (h : IsMedian l m) (h0 : ∀ x ∈ l, 0 ≤ x) : 0 ≤ m := by
  obtain ⟨s, a, b, hp, hs, ha, hb, rfl⟩ := h
  have h1 := h0 a (hp.mem_iff.1 (List.mem_of_getElem? ha))
  have h2 := h0 b (hp.mem_iff.1 (List.mem_of_getElem? hb))
  linarith

theorem Spec.IsMad.nonneg {l : List K} {d : K} (h : IsMad l d) : 0 ≤ d := by
  obtain ⟨m, -, hd⟩ := h
  refine hd.nonneg (fun x hx => ?_)
  obtain ⟨y, -, rfl⟩ := List.mem_map.1 hx
  exact abs_nonneg _

/-- the MAD is 0 exactly when one value fills more than half of the list. -/
theorem Spec.IsMad.eq_zero_iff {l : List K} {d : K} (h : IsMad l d) : d = 0 ↔ Majority l := by
  obtain ⟨m, hm, hd⟩ := h
  have hcount : ∀ v : K, (l.map (fun x => |x - v|)).count 0 = l.count v := by
    intro v
    rw [List.count, List.countP_map, List.count]
    congr 1
    funext x
    simp only [Function.comp, beq_eq_beq, abs_eq_zero, sub_eq_zero]
  constructor
  · rintro rfl
    refine ⟨m, ?_⟩
    obtain ⟨s, a, b, hp, hs, ha, hb, h0⟩ := hd
    have hnn : ∀ x ∈ s, 0 ≤ x := by
      intro x hx
      obtain ⟨y, -, rfl⟩ := List.mem_map.1 (hp.mem_iff.1 hx)
      exact abs_nonneg _
    have hb0 : b = 0 := by
      have := hnn a (List.mem_of_getElem? ha)
      have := hnn b (List.mem_of_getElem? hb)
      linarith
    subst hb0
    have h1 := sorted_count_gt hs hb
    have h2 : s.countP (fun z => 0 < z) + s.count 0 = s.length := by
      rw [List.length_eq_countP_add_countP (fun z => 0 < z), List.count]
      congr 1
      apply List.countP_congr
      intro x hx
      have := hnn x hx
      simp only [beq_iff_eq, decide_eq_true_eq, not_lt]
      exact ⟨fun h => h ▸ le_refl _, fun h => le_antisymm h this⟩
    have hsl := hp.length_eq
    rw [List.length_map] at hsl hb
    rw [← hcount, ← hp.count_eq]
    have : l.length / 2 < s.length := (List.getElem?_eq_some_iff.1 hb).1
    rw [List.length_map] at h1
    omega
  · rintro ⟨v, hv⟩
    cases hm.majority hv
    exact hd.majority (v := 0) (by rw [hcount, List.length_map]; exact hv)

example : IsMad [(1 : ℚ), 5, 2, 9] 2 := (medianAbsDev_iff _ _).1 (by decide +kernel)
example : ¬ Majority [(1 : ℚ), 5, 2, 9] := by
  intro h
  have h1 : IsMad [(1 : ℚ), 5, 2, 9] 2 := (medianAbsDev_iff _ _).1 (by decide +kernel)
  have := h1.eq_zero_iff.2 h
  norm_num at this

theorem Spec.IsScale.zeroToOne {l : List K} {d : K} (h : IsMad l d) : IsScale l (zeroToOne d) ∧ 0 < Teacher.zeroToOne d := by
  unfold Teacher.zeroToOne
  by_cases hd : d = 0
  · simp only [hd, ne_eq, not_true_eq_false, if_false]
    exact ⟨⟨fun _ => rfl, fun hn => absurd (h.eq_zero_iff.1 hd) hn⟩, one_pos⟩
  · simp only [ne_eq, hd, not_false_eq_true, if_true]
    exact ⟨⟨fun hm => absurd (h.eq_zero_iff.2 hm) hd, fun _ => h⟩, lt_of_le_of_ne h.nonneg (Ne.symm hd)⟩

theorem Spec.IsScale.unique {l : List K} {s t : K} (h : IsScale l s) (h' : IsScale l t) : s = t := by
  by_cases hm : Majority l
  · rw [h.1 hm, h'.1 hm]
  · exact (h.2 hm).unique (h'.2 hm)

/-! ### the MAD distance -/

/-- the table has rows, and all of them have the given columns. -/
def Spec.HasCols (X : List (List K)) (cont : List Nat) : Prop := X ≠ [] ∧ ∀ r ∈ X, ∀ i ∈ cont, i < r.length

/-- column `i` of a table. -/
def Spec.IsColumn (X : List (List K)) (i : Nat) (col : List K) : Prop := List.Forall₂ (fun r v => r[i]? = some v) X col

/-- the sum over the columns of the differences measured in the units `s`. -/
def Spec.cityblock (s : Nat → K) (cont : List Nat) (a b : List (Cell K)) : K := (cont.map (fun i => |numAt a i - numAt b i| / s i)).sum

theorem madCityblock_ok (cont : List Nat) {n m : Nat} {a b : List (Cell K)} (ha : NumRow cont n a) (hb : NumRow cont m b) (s : Nat → K)
    (hs : ∀ i ∈ cont, s i ≠ 0) : (do
      let u ← pickCols a cont
      let v ← pickCols b cont
      madCityblock u v (cont.map s)) = .ok (cityblock s cont a b) := by
  rw [pickCols_ok ha, pickCols_ok hb]
  simp only [py_bind_ok, madCityblock]
  rw [List.zip_map', mapM_ok_of_forall (g := fun p => match p with
    | (Cell.num x, Cell.num y) => |x - y|
    | _ => 0)]
  · simp only [py_bind_ok, List.map_map]
    rw [List.zip_map', mapM_ok_of_forall (g := fun p => p.1 / p.2)]
    · simp only [py_bind_ok, List.map_map]
      rfl
    · intro p hp
      obtain ⟨i, hi, rfl⟩ := List.mem_map.1 hp
      simp only [npDiv]
      rw [if_neg (hs i hi)]
  · intro p hp
    obtain ⟨i, hi, rfl⟩ := List.mem_map.1 hp
    rfl

theorem isColumn_exists {X : List (List K)} {cont : List Nat} (h : HasCols X cont) {i : Nat} (hi : i ∈ cont) :
    ∃ col, IsColumn X i col ∧ col ≠ [] := by
  obtain ⟨col, hcol⟩ := forall₂_of_forall_exists (fun (r : List K) v => r[i]? = some v) X
    (fun r hr => ⟨_, List.getElem?_eq_getElem (h.2 r hr i hi)⟩)
  refine ⟨col, hcol, ?_⟩
  rintro rfl
  exact h.1 (List.length_eq_zero_iff.1 hcol.length_eq)

theorem Spec.IsColumn.unique {X : List (List K)} {i : Nat} {c d : List K} (h : IsColumn X i c) (h' : IsColumn X i d) : c = d := by
  rw [IsColumn, ← column_eq_ok_iff] at h h'
  rw [h] at h'
  injection h'

/-- the units of a table. -/
theorem scales_exist {X : List (List K)} {cont : List Nat} (h : HasCols X cont) : ∃ s : Nat → K,
    (∀ i ∈ cont, ∃ col, IsColumn X i col ∧ IsScale col (s i)) ∧ (∀ i ∈ cont, 0 < s i) ∧
    (do
      let cols ← cont.mapM (column X)
      let mad ← cols.mapM medianAbsDev
      pure (mad.map zeroToOne)) = Except.ok (cont.map s) := by
  have hex : ∀ i ∈ cont, ∃ col d, column X i = .ok col ∧ medianAbsDev col = .ok d := by
    intro i hi
    obtain ⟨col, hcol, hne⟩ := isColumn_exists h hi
    obtain ⟨d, hd⟩ := IsMad.exists hne
    exact ⟨col, d, (column_eq_ok_iff _ _ _).2 hcol, (medianAbsDev_iff _ _).2 hd⟩
  classical
  let C : Nat → List K := fun i => if hi : i ∈ cont then (hex i hi).choose else []
  let D : Nat → K := fun i => if hi : i ∈ cont then (hex i hi).choose_spec.choose else 0
  have hC : ∀ i ∈ cont, column X i = .ok (C i) ∧ medianAbsDev (C i) = .ok (D i) := by
    intro i hi
    have := (hex i hi).choose_spec.choose_spec
    simp only [C, D, hi, dif_pos]
    exact this
  refine ⟨fun i => zeroToOne (D i), fun i hi => ⟨C i, (column_eq_ok_iff _ _ _).1 (hC i hi).1, ?_⟩, fun i hi => ?_, ?_⟩
  · exact (IsScale.zeroToOne ((medianAbsDev_iff _ _).1 (hC i hi).2)).1
  · exact (IsScale.zeroToOne ((medianAbsDev_iff _ _).1 (hC i hi).2)).2
  · rw [mapM_ok_of_forall _ C cont (fun i hi => (hC i hi).1)]
    simp only [py_bind_ok]
    have h2 : (cont.map C).mapM medianAbsDev = .ok (cont.map D) := by
      rw [mapM_ok_iff, List.forall₂_map_left_iff, List.forall₂_map_right_iff, List.forall₂_same]
      exact fun i hi => (hC i hi).2
    rw [h2]
    simp only [py_bind_ok, List.map_map]
    rfl

theorem contMad_eq (a b : List (Cell K)) (cont : List Nat) (X : List (List K)) {s : Nat → K}
    (h : (do
      let cols ← cont.mapM (column X)
      let mad ← cols.mapM medianAbsDev
      pure (mad.map zeroToOne)) = Except.ok (cont.map s)) :
    contMad a b cont X = (do
      let u ← pickCols a cont
      let v ← pickCols b cont
      madCityblock u v (cont.map s)) := by
  unfold contMad
  rw [py_bind_eq_ok] at h
  obtain ⟨cols, hc, h⟩ := h
  rw [py_bind_eq_ok] at h
  obtain ⟨mad, hm, h⟩ := h
  injection h with h
  rw [hc]
  simp only [py_bind_ok]
  rw [hm]
  simp only [py_bind_ok]
  rw [h]

/-- C150: the MAD distance of two rows with numbers in the continuous columns, whatever `agg` of `None`, `'mean'`, `'max'`, `'min'`, is the
sum of the differences of the columns, each measured in a positive unit that depends on the table only: 1 when one value fills more than
half of the column of the table, otherwise the median of the distances to the median. -/
theorem C150_mad_value {X : List (List K)} {cont : List Nat} (h : HasCols X cont) (sqrt : K → K) : ∃ s : Nat → K,
    (∀ i ∈ cont, 0 < s i ∧ ∃ col, IsColumn X i col ∧ IsScale col (s i)) ∧
    ∀ (n m : Nat) (a b : List (Cell K)), NumRow cont n a → NumRow cont m b → ∀ agg ∈ [none, some "mean", some "max", some "min"],
      cdistContinuous sqrt true a b cont X agg = .ok (some (cityblock s cont a b)) := by
  obtain ⟨s, h1, h2, h3⟩ := scales_exist h
  refine ⟨s, fun i hi => ⟨h2 i hi, h1 i hi⟩, fun n m a b ha hb agg hagg => ?_⟩
  unfold cdistContinuous
  rw [if_pos rfl, contMad_eq a b cont X h3, madCityblock_ok cont ha hb s (fun i hi => (h2 i hi).ne')]
  simp only [py_bind_ok, List.mem_cons, List.not_mem_nil, or_false] at hagg ⊢
  rcases hagg with rfl | rfl | rfl | rfl <;> rfl

/-- a table with a column of different values, and one where 7 fills more than half of the column. -/
def madTable : List (List ℚ) := [[1, 7], [5, 7], [2, 7], [9, 0]]

theorem madTable_cols : HasCols madTable [0, 1] := by
  refine ⟨by simp [madTable], fun r hr i hi => ?_⟩
  simp only [madTable, List.mem_cons, List.not_mem_nil, or_false] at hr hi
  rcases hr with rfl | rfl | rfl | rfl <;> rcases hi with rfl | rfl <;> simp

example : cdistContinuous id true [.num (4 : ℚ), .num 7] [.num 8, .num 10] [0, 1] madTable (some "max") = .ok (some 5) := by
  decide +kernel

/-- C150: the MAD distance is a pseudometric that is 0 exactly for rows that agree in the continuous columns. -/
theorem C150_mad_metric {X : List (List K)} {cont : List Nat} (h : HasCols X cont) (sqrt : K → K) : ∃ d : List (Cell K) → List (Cell K) → K,
    (∀ (n m : Nat) (a b : List (Cell K)), NumRow cont n a → NumRow cont m b →
      cdistContinuous sqrt true a b cont X none = .ok (some (d a b))) ∧
    (∀ a b, 0 ≤ d a b) ∧ (∀ a b, d a b = d b a) ∧ (∀ a b c, d a c ≤ d a b + d b c) ∧
    ∀ (n m : Nat) (a b : List (Cell K)), NumRow cont n a → NumRow cont m b → (d a b = 0 ↔ ∀ i ∈ cont, a[i]? = b[i]?) := by
  obtain ⟨s, h1, h2⟩ := C150_mad_value h sqrt
  have hnn : ∀ a b : List (Cell K), ∀ t ∈ cont.map (fun i => |numAt a i - numAt b i| / s i), 0 ≤ t := by
    intro a b t ht
    obtain ⟨i, hi, rfl⟩ := List.mem_map.1 ht
    exact div_nonneg (abs_nonneg _) (h1 i hi).1.le
  refine ⟨cityblock s cont, fun n m a b ha hb => h2 n m a b ha hb none (by simp), fun a b => List.sum_nonneg (hnn a b), ?_, ?_, ?_⟩
  · intro a b
    unfold cityblock
    congr 1
    apply List.map_congr_left
    intro i _
    rw [abs_sub_comm]
  · intro a b c
    unfold cityblock
    rw [← List.sum_map_add]
    apply List.sum_le_sum
    intro i hi
    rw [← add_div]
    exact div_le_div_of_nonneg_right (abs_sub_le _ _ _) (h1 i hi).1.le
  · intro n m a b ha hb
    have hz : cityblock s cont a b = 0 ↔ ∀ i ∈ cont, numAt a i = numAt b i := by
      unfold cityblock
      constructor
      · intro h0 i hi
        have := List.all_zero_of_le_zero_le_of_sum_eq_zero (hnn a b) h0 (List.mem_map_of_mem hi)
        rw [div_eq_zero_iff, or_iff_left (h1 i hi).1.ne', abs_eq_zero, sub_eq_zero] at this
        exact this
      · intro h0
        rw [List.sum_eq_zero]
        intro t ht
        obtain ⟨i, hi, rfl⟩ := List.mem_map.1 ht
        rw [h0 i hi]; simp
    rw [hz]
    apply forall₂_congr
    intro i hi
    obtain ⟨x, hx⟩ := ha.2 i hi
    obtain ⟨y, hy⟩ := hb.2 i hi
    rw [hx, hy, numAt_of_num hx, numAt_of_num hy]
    simp

/-! ### change of the units -/

/-- a row with every column in other units: `c i * x + d i`. -/
def Spec.rescaleRow (c d : Nat → K) (r : List K) : List K := r.mapIdx (fun i x => c i * x + d i)

/-- the same on an instance; strings stay. -/
def Spec.rescaleInst (c d : Nat → K) (a : List (Cell K)) : List (Cell K) :=
  recode (fun i x => match x with
    | .num x => .num (c i * x + d i)
    | .str s => .str s) a

theorem isColumn_rescale (c d : Nat → K) {X : List (List K)} {i : Nat} {col : List K} (h : IsColumn X i col) :
    IsColumn (X.map (rescaleRow c d)) i (col.map (fun x => c i * x + d i)) := by
  unfold IsColumn at *
  rw [List.forall₂_map_left_iff, List.forall₂_map_right_iff]
  refine h.imp (fun r v hv => ?_)
  unfold rescaleRow
  rw [List.getElem?_mapIdx, hv]; rfl

theorem majority_rescale {c d : K} (hc : c ≠ 0) (l : List K) : Majority (l.map (fun x => c * x + d)) ↔ Majority l := by
  have hcount : ∀ v : K, (l.map (fun x => c * x + d)).count (c * v + d) = l.count v := by
    intro v
    rw [List.count, List.countP_map, List.count]
    congr 1
    funext x
    simp only [Function.comp, beq_eq_beq, add_left_inj]
    exact ⟨fun h => mul_left_cancel₀ hc h, fun h => h ▸ rfl⟩
  unfold Majority
  rw [List.length_map]
  constructor
  · rintro ⟨v, hv⟩
    refine ⟨(v - d) / c, ?_⟩
    rw [← hcount, show c * ((v - d) / c) + d = v by field_simp; ring]
    exact hv
  · rintro ⟨v, hv⟩
    exact ⟨c * v + d, by rw [hcount]; exact hv⟩

theorem numRow_rescale (c d : Nat → K) {cont : List Nat} {n : Nat} {a : List (Cell K)} (h : NumRow cont n a) :
    NumRow cont n (rescaleInst c d a) ∧ ∀ i ∈ cont, numAt (rescaleInst c d a) i = c i * numAt a i + d i := by
  have key : ∀ i ∈ cont, ∃ x, numAt a i = x ∧ (rescaleInst c d a)[i]? = some (.num (c i * x + d i)) := by
    intro i hi
    obtain ⟨x, hx⟩ := h.2 i hi
    refine ⟨x, numAt_of_num hx, ?_⟩
    unfold rescaleInst recode
    rw [List.getElem?_mapIdx, hx]; rfl
  refine ⟨⟨by unfold rescaleInst recode; rw [List.length_mapIdx]; exact h.1, fun i hi => ?_⟩, fun i hi => ?_⟩
  · obtain ⟨x, -, hx⟩ := key i hi
    exact ⟨_, hx⟩
  · obtain ⟨x, hx, hx'⟩ := key i hi
    rw [numAt_of_num hx', hx]

/-- C151: the MAD distance does not depend on the units and the origins of the continuous columns, when no column of the table has a value
that fills more than half of it. -/
theorem C151_units_partial {X : List (List K)} {cont : List Nat} (h : HasCols X cont)
    (hmaj : ∀ i ∈ cont, ∀ col, IsColumn X i col → ¬ Majority col) (c d : Nat → K) (hc : ∀ i ∈ cont, c i ≠ 0) (sqrt : K → K) {n m : Nat}
    {a b : List (Cell K)} (ha : NumRow cont n a) (hb : NumRow cont m b) (agg : Option String) :
    cdistContinuous sqrt true (rescaleInst c d a) (rescaleInst c d b) cont (X.map (rescaleRow c d)) agg =
      cdistContinuous sqrt true a b cont X agg := by
  have h' : HasCols (X.map (rescaleRow c d)) cont := by
    refine ⟨by simpa using h.1, fun r hr i hi => ?_⟩
    obtain ⟨r', hr', rfl⟩ := List.mem_map.1 hr
    unfold rescaleRow
    rw [List.length_mapIdx]
    exact h.2 r' hr' i hi
  obtain ⟨s, h1, h2, h3⟩ := scales_exist h
  obtain ⟨s', h1', h2', h3'⟩ := scales_exist h'
  have hs : ∀ i ∈ cont, s' i = |c i| * s i := by
    intro i hi
    obtain ⟨col, hcol, hsc⟩ := h1 i hi
    obtain ⟨col', hcol', hsc'⟩ := h1' i hi
    cases hcol'.unique (isColumn_rescale c d hcol)
    have hm := hmaj i hi col hcol
    exact (hsc'.2 (by rw [majority_rescale (hc i hi)]; exact hm)).unique ((hsc.2 hm).affine _ _)
  unfold cdistContinuous
  rw [if_pos rfl, if_pos rfl, contMad_eq _ _ cont _ h3, contMad_eq _ _ cont _ h3',
    madCityblock_ok cont ha hb s (fun i hi => (h2 i hi).ne'),
    madCityblock_ok cont (numRow_rescale c d ha).1 (numRow_rescale c d hb).1 s' (fun i hi => (h2' i hi).ne')]
  have : cityblock s' cont (rescaleInst c d a) (rescaleInst c d b) = cityblock s cont a b := by
    unfold cityblock
    congr 1
    apply List.map_congr_left
    intro i hi
    rw [(numRow_rescale c d ha).2 i hi, (numRow_rescale c d hb).2 i hi, hs i hi,
      show c i * numAt a i + d i - (c i * numAt b i + d i) = c i * (numAt a i - numAt b i) by ring, abs_mul]
    exact mul_div_mul_left _ _ (abs_pos.2 (hc i hi)).ne'
  rw [this]

example : HasCols madTable [0] ∧ ∀ i ∈ [0], ∀ col, IsColumn madTable i col → ¬ Majority col := by
  refine ⟨⟨madTable_cols.1, fun r hr i hi => madTable_cols.2 r hr i (by simp at hi; simp [hi])⟩, ?_⟩
  intro i hi col hcol
  simp only [List.mem_cons, List.not_mem_nil, or_false] at hi
  subst hi
  have h0 : IsColumn madTable 0 [1, 5, 2, 9] := (column_eq_ok_iff _ _ _).1 (by decide +kernel)
  cases hcol.unique h0
  intro h
  have h1 : IsMad [(1 : ℚ), 5, 2, 9] 2 := (medianAbsDev_iff _ _).1 (by decide +kernel)
  have := h1.eq_zero_iff.2 h
  norm_num at this

/-- C151: with a value that fills more than half of a column the distance depends on the unit: it doubles here when the unit is halved. -/
theorem C151_units_false : ∃ (X : List (List ℚ)) (a b : List (Cell ℚ)) (c d : Nat → ℚ), HasCols X [0, 1] ∧ (∀ i, c i ≠ 0) ∧
    NumRow [0, 1] 2 a ∧ NumRow [0, 1] 2 b ∧ cdistContinuous id true a b [0, 1] X none = .ok (some 3) ∧
    cdistContinuous id true (rescaleInst c d a) (rescaleInst c d b) [0, 1] (X.map (rescaleRow c d)) none = .ok (some 6) := by
  refine ⟨madTable, [.num 4, .num 7], [.num 4, .num 10], fun _ => 2, fun _ => 0, madTable_cols, fun _ => by norm_num, ?_, ?_,
    by decide +kernel, by decide +kernel⟩
  · exact ⟨rfl, by simp⟩
  · exact ⟨rfl, by simp⟩

/-- C150: a string in a continuous column raises `TypeError` (the `'euclidean'` metric raises `ValueError`). -/
theorem C150_mad_string {X : List (List K)} {cont : List Nat} (h : HasCols X cont) (sqrt : K → K) (agg : Option String) {a b : List (Cell K)}
    (hla : ∀ i ∈ cont, i < a.length) (hlb : ∀ i ∈ cont, i < b.length) {i : Nat} (hi : i ∈ cont) {t : String}
    (ht : a[i]? = some (.str t) ∨ b[i]? = some (.str t)) : cdistContinuous sqrt true a b cont X agg = .error .typeError := by
  obtain ⟨s, h1, h2, h3⟩ := scales_exist h
  have hpick : ∀ c : List (Cell K), (∀ i ∈ cont, i < c.length) → pickCols c cont = .ok (cont.map (fun i => (c[i]?).getD (.num 0))) := by
    intro c hc
    unfold pickCols
    apply mapM_ok_of_forall
    intro j hj
    rw [List.getElem?_eq_getElem (hc j hj)]; rfl
  unfold cdistContinuous
  rw [if_pos rfl, contMad_eq _ _ cont _ h3, hpick a hla, hpick b hlb]
  simp only [py_bind_ok, madCityblock]
  have herr : (((cont.map (fun i => (a[i]?).getD (.num 0))).zip (cont.map (fun i => (b[i]?).getD (.num 0)))).mapM
      (fun p => cellDiff p.1 p.2)) = .error .typeError := by
    rw [List.zip_map']
    apply mapM_error_eq
    · intro p hp e' he
      obtain ⟨j, hj, rfl⟩ := List.mem_map.1 hp
      revert he
      cases (a[j]?).getD (.num 0) <;> cases (b[j]?).getD (.num 0) <;> simp [cellDiff, eq_comm]
    · refine ⟨_, List.mem_map.2 ⟨i, hi, rfl⟩, ?_⟩
      rcases ht with ht | ht <;> rw [ht]
      · rfl
      · simp only [Option.getD_some]
        cases (a[i]?).getD (.num 0) <;> rfl
  rw [herr]
  rfl

/-- C150: without a row in the table no median exists, and the distance is not a number (when there is a continuous column). -/
theorem C150_no_table (sqrt : K → K) (agg : Option String) (a b : List (Cell K)) (i : Nat) (cont : List Nat) :
    cdistContinuous sqrt true a b (i :: cont) [] agg = .error .nan := by
  have h : (i :: cont).mapM (column ([] : List (List K))) = .ok ((i :: cont).map (fun _ => [])) :=
    mapM_ok_of_forall _ _ _ (fun _ _ => rfl)
  unfold cdistContinuous contMad
  rw [if_pos rfl, h]
  rfl

/-! ### the options of the mixed distance -/


/-- C150: the value of `agg` is immaterial among `None`, `'mean'`, `'max'` and `'min'`. -/
theorem C150_agg (sqrt : K → K) (a b : List (Cell K)) (cont disc : List Nat) (ratio : Option K) (agg : Option String)
    (h : agg ∈ [none, some "mean", some "max", some "min"]) :
    mixedDistanceOpt sqrt a b cont disc ratio agg = mixedDistanceOpt sqrt a b cont disc ratio none := by
  have hagg : ∀ d : K, aggregate agg d = aggregate none d := by
    intro d
    simp only [List.mem_cons, List.not_mem_nil, or_false] at h
    rcases h with rfl | rfl | rfl | rfl <;> rfl
  unfold mixedDistanceOpt cdistContinuous cdistCategorical
  simp only [hagg]

/-- C150: without options it is the `'mixed'` distance of C121 (on rows where that one returns a number). -/
theorem C150_default (sqrt : K → K) (a b : List (Cell K)) (cont disc : List Nat) :
    mixedDistanceOpt sqrt a b cont disc none none = cfMixedDistance sqrt a b cont disc := by
  unfold mixedDistanceOpt cfMixedDistance cdistContinuous cdistCategorical mixedRatios
  simp only [Bool.false_eq_true, if_false]
  cases colsDistance (euclidRow sqrt) a b cont with
  | error e => rfl
  | ok dc =>
    cases colsDistance jaccardRow a b disc with
    | error e => rfl
    | ok dd =>
      simp only [py_bind_ok]
      cases pyDiv (cont.length : K) (b.length : K) with
      | error e => rfl
      | ok rc =>
        cases pyDiv (disc.length : K) (b.length : K) with
        | error e => rfl
        | ok rd => rfl

/-- C150: any other value of `agg` makes the two distances `None`, and their product with the weights raises `TypeError`. -/
theorem C150_agg_other (sqrt : K → K) {n : Nat} (hn : n ≠ 0) {cont disc : List Nat} {a b : List (Cell K)} (ha : NumRow (cont ++ disc) n a)
    (hb : NumRow (cont ++ disc) n b) (ratio : Option K) (agg : Option String) (h : agg ∉ [none, some "mean", some "max", some "min"]) :
    mixedDistanceOpt sqrt a b cont disc ratio agg = .error .typeError := by
  have hagg : ∀ d : K, aggregate agg d = none := by
    intro d
    simp only [List.mem_cons, List.not_mem_nil, or_false, not_or] at h
    obtain ⟨h1, h2, h3, h4⟩ := h
    simp only [aggregate, h1, h2, h3, h4, or_self, if_false]
  have hn' : (n : K) ≠ 0 := by exact_mod_cast hn
  unfold mixedDistanceOpt cdistContinuous cdistCategorical
  simp only [Bool.false_eq_true, if_false]
  rw [colsDistance_ok _ (ha.mono (by simp +contextual)) (hb.mono (by simp +contextual)),
    colsDistance_ok _ (ha.mono (by simp +contextual)) (hb.mono (by simp +contextual)), hb.1]
  simp only [py_bind_ok, py_pure, hagg, mixedRatios, pyDiv, hn', if_false]
  cases ratio <;> rfl

example : mixedDistanceOpt id [.num (1 : ℚ), .num 2] [.num 1, .num 3] [0] [1] none (some "median") = .error .typeError := by decide +kernel

end

/-- the weighted distance of `_mixed_distance` with `ratio_cont=r`. -/
noncomputable def Spec.ratioMixed (r : ℝ) (cont disc : List Nat) (a b : List (Cell ℝ)) : ℝ := r * euclid cont a b + (1 - r) * jaccard disc a b

/-- C150: with `ratio_cont=r` between 0 and 1 the mixed distance is `r` times the Euclidean distance of the continuous columns plus `1 - r`
times the jaccard distance of the discrete ones: a pseudometric, and, strictly between 0 and 1, 0 exactly for rows that agree in the given
columns. -/
theorem C150_ratio {n : Nat} {cont disc : List Nat} {r : ℝ} (h0 : 0 ≤ r) (h1 : r ≤ 1) : ∃ d : List (Cell ℝ) → List (Cell ℝ) → ℝ,
    (∀ a b, NumRow (cont ++ disc) n a → NumRow (cont ++ disc) n b →
      mixedDistanceOpt Real.sqrt a b cont disc (some r) none = .ok (d a b) ∧ d a b = r * euclid cont a b + (1 - r) * jaccard disc a b) ∧
    (∀ a b, 0 ≤ d a b) ∧ (∀ a b, d a b = d b a) ∧ (∀ a b c, d a c ≤ d a b + d b c) ∧
    (0 < r → r < 1 → ∀ a b, NumRow (cont ++ disc) n a → NumRow (cont ++ disc) n b →
      (d a b = 0 ↔ ∀ i ∈ cont ++ disc, a[i]? = b[i]?)) := by
  have he : ∀ a b : List (Cell ℝ), 0 ≤ euclid cont a b := fun a b => Real.sqrt_nonneg _
  have hj : ∀ a b : List (Cell ℝ), 0 ≤ jaccard disc a b := fun a b => (jaccard_mem disc a b).1
  have hr : 0 ≤ 1 - r := by linarith
  refine ⟨ratioMixed r cont disc, ?_, ?_, ?_, ?_, ?_⟩
  · intro a b ha hb
    refine ⟨?_, rfl⟩
    unfold mixedDistanceOpt cdistContinuous cdistCategorical
    simp only [Bool.false_eq_true, if_false]
    rw [colsDistance_ok _ (ha.mono (by simp +contextual)) (hb.mono (by simp +contextual)),
      colsDistance_ok _ (ha.mono (by simp +contextual)) (hb.mono (by simp +contextual)), euclidRow_eq, jaccardRow_eq]
    rfl
  · intro a b
    exact add_nonneg (mul_nonneg h0 (he a b)) (mul_nonneg hr (hj a b))
  · intro a b
    unfold ratioMixed
    rw [euclid_symm, jaccard_symm]
  · intro a b c
    unfold ratioMixed
    have h1 := mul_le_mul_of_nonneg_left (euclid_triangle cont a b c) h0
    have h2 := mul_le_mul_of_nonneg_left (jaccard_triangle disc a b c) hr
    linarith
  · intro hr0 hr1 a b ha hb
    have hz : ratioMixed r cont disc a b = 0 ↔ ∀ i ∈ cont ++ disc, numAt a i = numAt b i := by
      unfold ratioMixed
      rw [add_eq_zero_iff_of_nonneg (mul_nonneg h0 (he a b)) (mul_nonneg hr (hj a b)), mul_eq_zero, mul_eq_zero, or_iff_right hr0.ne',
        or_iff_right (by linarith : (1 : ℝ) - r ≠ 0), euclid_eq_zero, jaccard_eq_zero]
      simp only [List.mem_append]
      exact ⟨fun h i hi => hi.elim (h.1 i) (h.2 i), fun h => ⟨fun i hi => h i (.inl hi), fun i hi => h i (.inr hi)⟩⟩
    rw [hz]
    apply forall₂_congr
    intro i hi
    obtain ⟨x, hx⟩ := ha.2 i hi
    obtain ⟨y, hy⟩ := hb.2 i hi
    rw [hx, hy, numAt_of_num hx, numAt_of_num hy]
    simp

example : (0 : ℝ) ≤ 1 / 2 ∧ (1 / 2 : ℝ) ≤ 1 ∧ NumRow ([0] ++ [1]) 2 [.num (1 : ℝ), .num 2] :=
  ⟨by norm_num, by norm_num, rfl, by simp⟩

/-- C150: outside of that range the result can be negative. -/
theorem C150_ratio_negative : ∃ (a b : List (Cell ℚ)) (x : ℚ), mixedDistanceOpt id a b [0] [1] (some 2) none = .ok x ∧ x < 0 :=
  ⟨[.num 1, .num 2], [.num 1, .num 3], -1, by decide +kernel, by norm_num⟩

section
variable {K : Type} [Field K] [LinearOrder K] [IsStrictOrderedRing K]

/-! ### the normalized square Euclidean distance -/

/-- the sum of the squares of the differences, each over the range of its position. -/
def Spec.sqNorm (ranges x y : List K) : K := ((List.range ranges.length).map (fun i => ((x.getD i 0 - y.getD i 0) / ranges.getD i 0) ^ 2)).sum

theorem sqNorm_cons (r a b : K) (ranges x y : List K) : sqNorm (r :: ranges) (a :: x) (b :: y) = ((a - b) / r) ^ 2 + sqNorm ranges x y := by
  unfold sqNorm
  rw [List.length_cons, List.range_succ_eq_map, List.map_cons, List.sum_cons, List.map_map]
  rfl

theorem npSub_cons {a b : K} {x y : List K} (h : x.length = y.length) : npSub (a :: x) (b :: y) = .ok ((a - b) :: List.zipWith (· - ·) x y) := by
  unfold npSub
  rw [if_pos (by simp [h])]
  rfl

/-- C149: with ranges that are not 0, on vectors of the length of the ranges, it is the sum of the squares of the differences over the
ranges. -/
theorem C149_value (ranges x y : List K) (hx : x.length = ranges.length) (hy : y.length = ranges.length) (hr : ∀ r ∈ ranges, r ≠ 0) :
    normSqEuclid ranges x y = .ok (sqNorm ranges x y) := by
  have key : ∀ (ranges x y : List K), x.length = ranges.length → y.length = ranges.length → (∀ r ∈ ranges, r ≠ 0) →
      ((List.zipWith (· - ·) x y).zip ranges).mapM (fun p => npDiv |p.1| p.2) =
        .ok (((List.zipWith (· - ·) x y).zip ranges).map (fun p => |p.1| / p.2)) ∧
      ((((List.zipWith (· - ·) x y).zip ranges).map (fun p => |p.1| / p.2)).map (fun t => t * t)).sum = sqNorm ranges x y := by
    intro ranges
    induction ranges with
    | nil => intro x y hx hy _; simp at hx hy; subst hx; subst hy; exact ⟨rfl, rfl⟩
    | cons r ranges ih =>
      intro x y hx hy hr
      obtain _ | ⟨a, x⟩ := x
      · simp at hx
      obtain _ | ⟨b, y⟩ := y
      · simp at hy
      simp only [List.length_cons, Nat.add_right_cancel_iff] at hx hy
      obtain ⟨h1, h2⟩ := ih x y hx hy (fun r hr' => hr r (List.mem_cons_of_mem _ hr'))
      refine ⟨?_, ?_⟩
      · simp only [List.zipWith_cons_cons, List.zip_cons_cons, List.mapM_cons, List.map_cons]
        rw [h1, npDiv, if_neg (hr r List.mem_cons_self)]
        rfl
      · simp only [List.zipWith_cons_cons, List.zip_cons_cons, List.map_cons, List.sum_cons]
        rw [h2, sqNorm_cons, div_pow, ← sq_abs (a - b)]
        congr 1
        rw [div_mul_div_comm]; ring
  obtain ⟨h1, h2⟩ := key ranges x y hx hy hr
  unfold normSqEuclid npSub
  rw [if_pos (hx.trans hy.symm)]
  simp only [py_bind_ok]
  rw [if_pos (by rw [List.length_zipWith, hx, hy, min_self]), h1]
  simp only [py_bind_ok]
  rw [h2]
  rfl

/-- C149: it is not negative, symmetric, and 0 exactly for equal vectors. -/
theorem C149_zero (ranges : List K) (hr : ∀ r ∈ ranges, r ≠ 0) : ∃ d : List K → List K → K,
    (∀ x y, x.length = ranges.length → y.length = ranges.length → normSqEuclid ranges x y = .ok (d x y)) ∧
    (∀ x y, 0 ≤ d x y) ∧ (∀ x y, d x y = d y x) ∧ ∀ x y, x.length = ranges.length → y.length = ranges.length → (d x y = 0 ↔ x = y) := by
  have hnn : ∀ x y : List K, ∀ t ∈ (List.range ranges.length).map (fun i => ((x.getD i 0 - y.getD i 0) / ranges.getD i 0) ^ 2), 0 ≤ t := by
    intro x y t ht
    obtain ⟨i, -, rfl⟩ := List.mem_map.1 ht
    exact sq_nonneg _
  refine ⟨sqNorm ranges, fun x y hx hy => C149_value ranges x y hx hy hr, fun x y => List.sum_nonneg (hnn x y), ?_, ?_⟩
  · intro x y
    unfold sqNorm
    congr 1
    apply List.map_congr_left
    intro i _
    rw [← neg_sub (y.getD i 0), neg_div, neg_sq]
  · intro x y hx hy
    constructor
    · intro h
      apply List.ext_getElem (hx.trans hy.symm)
      intro i hi hi'
      have hri : ranges.getD i 0 ≠ 0 := by
        rw [List.getD_eq_getElem _ _ (hx ▸ hi)]
        exact hr _ (List.getElem_mem _)
      have := List.all_zero_of_le_zero_le_of_sum_eq_zero (hnn x y) h (List.mem_map_of_mem (List.mem_range.2 (hx ▸ hi)))
      rw [sq_eq_zero_iff, div_eq_zero_iff, or_iff_left hri, sub_eq_zero, List.getD_eq_getElem _ _ hi, List.getD_eq_getElem _ _ hi'] at this
      exact this
    · rintro rfl
      unfold sqNorm
      apply List.sum_eq_zero
      intro t ht
      obtain ⟨i, -, rfl⟩ := List.mem_map.1 ht
      simp

/-- C149: at most the number of positions when no difference exceeds its range. -/
theorem C149_bounded (ranges x y : List K) (hx : x.length = ranges.length) (hy : y.length = ranges.length)
    (h : ∀ i < ranges.length, 0 < ranges.getD i 0 ∧ |x.getD i 0 - y.getD i 0| ≤ ranges.getD i 0) :
    ∃ d, normSqEuclid ranges x y = .ok d ∧ 0 ≤ d ∧ d ≤ ranges.length := by
  have hr : ∀ r ∈ ranges, r ≠ 0 := by
    intro r hr
    obtain ⟨i, hi, rfl⟩ := List.mem_iff_getElem.1 hr
    have := (h i hi).1
    rw [List.getD_eq_getElem _ _ hi] at this
    exact this.ne'
  refine ⟨_, C149_value ranges x y hx hy hr, ?_, ?_⟩
  · apply List.sum_nonneg
    intro t ht
    obtain ⟨i, -, rfl⟩ := List.mem_map.1 ht
    exact sq_nonneg _
  · have : sqNorm ranges x y ≤ ((List.range ranges.length).map (fun _ => (1 : K))).sum := by
      apply List.sum_le_sum
      intro i hi
      obtain ⟨h1, h2⟩ := h i (List.mem_range.1 hi)
      rw [sq_le_one_iff_abs_le_one, abs_div, abs_of_pos h1]
      exact (div_le_one h1).2 h2
    simpa using this

/-- C149: it does not depend on the units and origins of the positions, when the ranges are in the same units. -/
theorem C149_units (ranges x y : List K) (hx : x.length = ranges.length) (hy : y.length = ranges.length) (hr : ∀ r ∈ ranges, r ≠ 0)
    (c d : Nat → K) (hc : ∀ i, c i ≠ 0) :
    normSqEuclid (ranges.mapIdx (fun i r => c i * r)) (rescaleRow c d x) (rescaleRow c d y) = normSqEuclid ranges x y := by
  have hr' : ∀ r ∈ ranges.mapIdx (fun i r => c i * r), r ≠ 0 := by
    intro r h
    obtain ⟨i, hi, rfl⟩ := List.mem_mapIdx.1 h
    exact mul_ne_zero (hc i) (hr _ (List.getElem_mem _))
  rw [C149_value ranges x y hx hy hr, C149_value _ _ _ (by simp [rescaleRow, hx]) (by simp [rescaleRow, hy]) hr']
  congr 1
  unfold sqNorm rescaleRow
  rw [List.length_mapIdx]
  congr 1
  apply List.map_congr_left
  intro i hi
  rw [List.mem_range] at hi
  rw [List.getD_eq_getElem _ _ (by simp [hx, hi]), List.getD_eq_getElem _ _ (by simp [hy, hi]), List.getD_eq_getElem _ _ (by simp [hi]),
    List.getD_eq_getElem _ _ (hx ▸ hi), List.getD_eq_getElem _ _ (hy ▸ hi), List.getD_eq_getElem _ _ hi]
  simp only [List.getElem_mapIdx]
  congr 1
  rw [show c i * x[i] + d i - (c i * y[i] + d i) = c i * (x[i] - y[i]) by ring]
  exact mul_div_mul_left _ _ (hc i)

example : normSqEuclid [(2 : ℚ), 4] [1, 5] [3, 1] = .ok 2 := by decide +kernel

/-- C149: it is no metric, the triangle inequality fails. -/
theorem C149_triangle_false : ∃ (x y z : List ℚ) (p q r : ℚ), normSqEuclid [1] x z = .ok p ∧ normSqEuclid [1] x y = .ok q ∧
    normSqEuclid [1] y z = .ok r ∧ q + r < p :=
  ⟨[0], [1], [2], 4, 1, 1, by decide +kernel, by decide +kernel, by decide +kernel, by norm_num⟩

/-- C149: vectors of different lengths, or of another length than the ranges, raise `ValueError`; a range 0 (a feature that is constant
in the dataset) makes the result `nan` or infinite, even for equal vectors. -/
theorem C149_errors (ranges x y : List K) : (x.length ≠ y.length ∨ x.length ≠ ranges.length → normSqEuclid ranges x y = .error .valueError) ∧
    (x.length = y.length → x.length = ranges.length → (0 : K) ∈ ranges → normSqEuclid ranges x y = .error .nan) := by
  constructor
  · intro h
    unfold normSqEuclid npSub
    by_cases hl : x.length = y.length
    · rw [if_pos hl]
      simp only [py_bind_ok]
      rw [if_neg]
      rw [List.length_zipWith, ← hl, min_self]
      exact h.resolve_left (fun h => h hl)
    · rw [if_neg hl]; rfl
  · intro h1 h2 h0
    unfold normSqEuclid npSub
    rw [if_pos h1]
    simp only [py_bind_ok]
    rw [if_pos (by rw [List.length_zipWith, ← h1, min_self, h2])]
    have : ((List.zipWith (· - ·) x y).zip ranges).mapM (fun p => npDiv |p.1| p.2) = .error .nan := by
      apply mapM_error_eq
      · intro p _ e he
        unfold npDiv at he
        split at he
        · injection he with he; exact he.symm
        · cases he
      · obtain ⟨i, hi, h0⟩ := List.mem_iff_getElem.1 h0
        have hiz : i < (List.zipWith (· - ·) x y).length := by rw [List.length_zipWith, ← h1, min_self, h2]; exact hi
        refine ⟨((List.zipWith (· - ·) x y)[i], ranges[i]), ?_, ?_⟩
        · exact List.mem_iff_getElem.2 ⟨i, by rw [List.length_zip]; omega, by rw [List.getElem_zip]⟩
        · simp only [npDiv, h0, if_true]
    rw [this]
    rfl

example : normSqEuclid [(2 : ℚ), 0] [1, 5] [3, 5] = .error .nan ∧ normSqEuclid [(2 : ℚ)] [1, 5] [3, 5] = .error .valueError := by decide +kernel

end

end Teacher
