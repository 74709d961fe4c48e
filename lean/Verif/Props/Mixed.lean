import Verif.Model.Mixed
import Verif.Spec.Mixed
import Verif.Props.Metrics
import Mathlib.Tactic.Ring

/-! # C121–C123: the `'mixed'` distance, the `'jaccard'` sparsity and the metrics built on them -/

set_option linter.unusedSectionVars false

namespace Teacher
open Spec

section
variable {K : Type} [Field K] [LinearOrder K] [IsStrictOrderedRing K]

theorem numAt_of_num {a : List (Cell K)} {i : Nat} {x : K} (h : a[i]? = some (Cell.num x)) : numAt a i = x := by
  unfold numAt; rw [h]

theorem pickCols_ok {idx : List Nat} {n : Nat} {a : List (Cell K)} (h : NumRow idx n a) :
    pickCols a idx = .ok (idx.map (fun i => Cell.num (numAt a i))) := by
  unfold pickCols
  apply mapM_ok_of_forall
  intro i hi
  obtain ⟨x, hx⟩ := h.2 i hi
  rw [hx, numAt_of_num hx]

theorem toFloats_ok (u : List K) : toFloats (u.map Cell.num) = .ok u := by
  unfold toFloats
  induction u with
  | nil => rfl
  | cons x u ih => rw [List.map_cons, List.mapM_cons, ih]; rfl

theorem colsDistance_ok (f : List K → List K → K) {idx : List Nat} {n m : Nat} {a b : List (Cell K)} (ha : NumRow idx n a)
    (hb : NumRow idx m b) : colsDistance f a b idx = .ok (f (idx.map (numAt a)) (idx.map (numAt b))) := by
  have h (c : List (Cell K)) : idx.map (fun i => Cell.num (numAt c i)) = (idx.map (numAt c)).map Cell.num := by
    rw [List.map_map]; rfl
  unfold colsDistance
  rw [pickCols_ok ha, pickCols_ok hb]
  simp only [py_bind_ok, h, toFloats_ok]
  rfl

theorem jaccardRow_eq (idx : List Nat) (a b : List (Cell K)) : jaccardRow (idx.map (numAt a)) (idx.map (numAt b)) = jaccard idx a b := by
  have hz : (idx.map (numAt a)).zip (idx.map (numAt b)) = idx.map (fun i => (numAt a i, numAt b i)) := by
    rw [List.zip_map']
  have h1 : (((idx.map (numAt a)).zip (idx.map (numAt b))).filter (fun p => p.1 ≠ 0 ∨ p.2 ≠ 0)).length = usedCols idx a b := by
    rw [hz, List.filter_map, List.length_map]; rfl
  have h2 : ((((idx.map (numAt a)).zip (idx.map (numAt b))).filter (fun p => p.1 ≠ 0 ∨ p.2 ≠ 0)).filter (fun p => p.1 ≠ p.2)).length =
      diffCols idx a b := by
    rw [hz, List.filter_map, List.filter_map, List.length_map, List.filter_filter]
    unfold diffCols
    congr 1
    apply List.filter_congr
    intro i _
    simp only [Function.comp]
    by_cases h : numAt a i = numAt b i
    · simp [h]
    · have : numAt a i ≠ 0 ∨ numAt b i ≠ 0 := by
        by_contra h0
        push Not at h0
        exact h (h0.1.trans h0.2.symm)
      simp [h, this]
  unfold jaccardRow jaccard
  simp only [h1, h2]

theorem diff_le_used (idx : List Nat) (a b : List (Cell K)) : diffCols idx a b ≤ usedCols idx a b := by
  unfold diffCols usedCols
  apply List.Sublist.length_le
  apply List.monotone_filter_right
  intro i hi
  simp only [decide_eq_true_eq] at hi ⊢
  by_contra h0
  push Not at h0
  exact hi (h0.1.trans h0.2.symm)

theorem jaccard_eq_div (idx : List Nat) (a b : List (Cell K)) : jaccard idx a b = (diffCols idx a b : K) / (usedCols idx a b : K) := by
  unfold jaccard
  split_ifs with h
  · rw [h]; simp
  · rfl

theorem jaccard_mem (idx : List Nat) (a b : List (Cell K)) : 0 ≤ jaccard idx a b ∧ jaccard idx a b ≤ 1 := by
  rw [jaccard_eq_div]
  exact ratio_mem (diff_le_used idx a b)

theorem jaccard_symm (idx : List Nat) (a b : List (Cell K)) : jaccard idx a b = jaccard idx b a := by
  have h1 : diffCols idx a b = diffCols idx b a := by unfold diffCols; simp only [ne_comm]
  have h2 : usedCols idx a b = usedCols idx b a := by unfold usedCols; simp only [or_comm]
  rw [jaccard_eq_div, jaccard_eq_div, h1, h2]

theorem diffCols_eq_zero (idx : List Nat) (a b : List (Cell K)) : diffCols idx a b = 0 ↔ ∀ i ∈ idx, numAt a i = numAt b i := by
  unfold diffCols
  rw [List.length_eq_zero_iff, List.filter_eq_nil_iff]
  simp

theorem jaccard_eq_zero (idx : List Nat) (a b : List (Cell K)) : jaccard idx a b = 0 ↔ ∀ i ∈ idx, numAt a i = numAt b i := by
  rw [jaccard_eq_div, div_eq_zero_iff, Nat.cast_eq_zero, Nat.cast_eq_zero, diffCols_eq_zero]
  constructor
  · rintro (h | h)
    · exact h
    · rw [← diffCols_eq_zero]
      have := diff_le_used idx a b
      omega
  · exact Or.inl

theorem filter_length_add_le {ι : Type} (l : List ι) (p q r s : ι → Bool)
    (h : ∀ i ∈ l, (if p i then 1 else 0) + (if q i then 1 else 0) ≤ (if r i then 1 else 0) + (if s i then 1 else 0)) :
    (l.filter p).length + (l.filter q).length ≤ (l.filter r).length + (l.filter s).length := by
  induction l with
  | nil => simp
  | cons x l ih =>
    have hx := h x (by simp)
    have := ih (fun i hi => h i (by simp [hi]))
    have hl (f : ι → Bool) : ((x :: l).filter f).length = (l.filter f).length + (if f x then 1 else 0) := by
      rw [List.filter_cons]; split_ifs <;> simp
    rw [hl, hl, hl, hl]
    omega

theorem mismatch_triangle (x y z : K) : (if x ≠ z then 1 else 0) + (if (x = 0 ∧ z = 0) ∧ y ≠ 0 then 1 else 0) ≤
    (if x ≠ y then 1 else 0) + (if y ≠ z then 1 else 0 : Nat) := by
  by_cases h1 : x = y
  · subst h1
    by_cases h2 : x = z
    · subst h2; simp
    · have : ¬ ((x = 0 ∧ z = 0) ∧ x ≠ 0) := fun h => h.2 h.1.1
      rw [if_pos h2, if_neg this]; omega
  · rw [if_pos (c := x ≠ y) h1]
    by_cases h2 : x = z
    · have : y ≠ z := fun h => h1 (h2.trans h.symm)
      rw [if_pos this, if_neg (not_not.2 h2)]
      split_ifs <;> omega
    · have : ¬ ((x = 0 ∧ z = 0) ∧ y ≠ 0) := fun h => h2 (h.1.1.trans h.1.2.symm)
      rw [if_pos h2, if_neg this]; omega

/-- the triangle inequality of the jaccard distance on numbers. -/
theorem jaccard_triangle (idx : List Nat) (a b c : List (Cell K)) : jaccard idx a c ≤ jaccard idx a b + jaccard idx b c := by
  set T := (idx.filter (fun i => (numAt a i ≠ 0 ∨ numAt c i ≠ 0) ∨ numAt b i ≠ 0)).length with hT
  set k := (idx.filter (fun i => (numAt a i = 0 ∧ numAt c i = 0) ∧ numAt b i ≠ 0)).length with hk
  have hTk : T = usedCols idx a c + k := by
    have h1 := filter_length_add_le idx (fun i => (numAt a i ≠ 0 ∨ numAt c i ≠ 0) ∨ numAt b i ≠ 0) (fun _ => false)
      (fun i => numAt a i ≠ 0 ∨ numAt c i ≠ 0) (fun i => (numAt a i = 0 ∧ numAt c i = 0) ∧ numAt b i ≠ 0) (by
        intro i _
        by_cases h1 : numAt a i = 0 <;> by_cases h2 : numAt b i = 0 <;> by_cases h3 : numAt c i = 0 <;> simp [h1, h2, h3])
    have h2 := filter_length_add_le idx (fun i => numAt a i ≠ 0 ∨ numAt c i ≠ 0) (fun i => (numAt a i = 0 ∧ numAt c i = 0) ∧ numAt b i ≠ 0)
      (fun i => (numAt a i ≠ 0 ∨ numAt c i ≠ 0) ∨ numAt b i ≠ 0) (fun _ => false) (by
        intro i _
        by_cases h1 : numAt a i = 0 <;> by_cases h2 : numAt b i = 0 <;> by_cases h3 : numAt c i = 0 <;> simp [h1, h2, h3])
    have hf : (idx.filter (fun _ => false)).length = 0 := by simp
    unfold usedCols
    omega
  have hab : usedCols idx a b ≤ T := by
    apply List.Sublist.length_le
    apply List.monotone_filter_right
    intro i hi
    simp only [decide_eq_true_eq] at hi ⊢
    tauto
  have hbc : usedCols idx b c ≤ T := by
    apply List.Sublist.length_le
    apply List.monotone_filter_right
    intro i hi
    simp only [decide_eq_true_eq] at hi ⊢
    tauto
  have hnum : diffCols idx a c + k ≤ diffCols idx a b + diffCols idx b c := by
    apply filter_length_add_le
    intro i _
    simp only [decide_eq_true_eq]
    exact mismatch_triangle _ _ _
  by_cases hT0 : T = 0
  · have : usedCols idx a c = 0 := by omega
    unfold jaccard
    rw [if_pos this]
    exact add_nonneg (jaccard_mem idx a b).1 (jaccard_mem idx b c).1
  have hTpos : (0 : K) < (T : K) := by exact_mod_cast Nat.pos_of_ne_zero hT0
  have key : ∀ d u : Nat, d ≤ u → u ≤ T → (d : K) / (T : K) ≤ (d : K) / (u : K) := by
    intro d u hd hu
    by_cases hu0 : u = 0
    · subst hu0
      have : d = 0 := by omega
      simp [this]
    · exact div_le_div_of_nonneg_left (Nat.cast_nonneg _) (by exact_mod_cast Nat.pos_of_ne_zero hu0) (by exact_mod_cast hu)
  have h1 := key _ _ (diff_le_used idx a b) hab
  have h2 := key _ _ (diff_le_used idx b c) hbc
  have h3 : jaccard idx a c ≤ ((diffCols idx a c + k : Nat) : K) / (T : K) := by
    rw [jaccard_eq_div]
    by_cases hu0 : usedCols idx a c = 0
    · rw [hu0]; simp; positivity
    · have hup : (0 : K) < (usedCols idx a c : K) := by exact_mod_cast Nat.pos_of_ne_zero hu0
      rw [div_le_div_iff₀ hup hTpos]
      have := diff_le_used idx a c
      have h : diffCols idx a c * T ≤ (diffCols idx a c + k) * usedCols idx a c := by
        rw [hTk]
        nlinarith
      exact_mod_cast h
  have h4 : ((diffCols idx a c + k : Nat) : K) / (T : K) ≤ ((diffCols idx a b + diffCols idx b c : Nat) : K) / (T : K) :=
    div_le_div_of_nonneg_right (by exact_mod_cast hnum) hTpos.le
  rw [jaccard_eq_div idx a b, jaccard_eq_div idx b c]
  rw [Nat.cast_add (diffCols idx a b), add_div] at h4
  linarith

/-! ### C122: the jaccard sparsity -/

theorem sparsityNamed_jaccard {n : Nat} {a b : List (Cell K)} (ha : IsNumeric n a) (hb : IsNumeric n b) {name : String}
    (hname : name ≠ "mismatch") : sparsityNamed name a b = .ok (jaccard (List.range n) a b) := by
  have h : ∀ {c : List (Cell K)}, IsNumeric n c → c = ((List.range n).map (numAt c)).map Cell.num := by
    intro c hc
    apply List.ext_getElem?
    intro i
    rw [List.getElem?_map, List.getElem?_map]
    by_cases hi : i < n
    · obtain ⟨x, hx⟩ := hc.2 i (List.mem_range.2 hi)
      rw [hx, List.getElem?_range hi]
      simp [numAt_of_num hx]
    · rw [List.getElem?_eq_none (by rw [hc.1]; omega), List.getElem?_eq_none (by simp; omega)]
      rfl
  unfold sparsityNamed
  rw [if_neg hname, if_neg (by rw [ha.1, hb.1]; simp)]
  conv => lhs; rw [h ha, h hb]
  simp only [toFloats_ok, py_bind_ok, jaccardRow_eq]
  rfl

theorem Spec.NumRow.ext {idx : List Nat} {n : Nat} {a b : List (Cell K)} (ha : NumRow idx n a) (hb : NumRow idx n b)
    (hall : ∀ i < n, i ∈ idx) (h : ∀ i ∈ idx, numAt a i = numAt b i) : a = b := by
  apply List.ext_getElem?
  intro i
  by_cases hi : i < n
  · have hm := hall i hi
    obtain ⟨x, hx⟩ := ha.2 i hm
    obtain ⟨y, hy⟩ := hb.2 i hm
    have := h i hm
    rw [numAt_of_num hx, numAt_of_num hy] at this
    rw [hx, hy, this]
  · rw [List.getElem?_eq_none (by rw [ha.1]; omega), List.getElem?_eq_none (by rw [hb.1]; omega)]

/-- C122: the jaccard sparsity of rows of `n` numbers is in [0,1], symmetric, 0 exactly for equal rows, and satisfies the triangle
inequality; its value is the number of columns that differ over the number of columns that are not zero in both rows. -/
theorem C122_jaccard_metric (n : Nat) : ∃ d : List (Cell K) → List (Cell K) → K,
    (∀ a b, IsNumeric n a → IsNumeric n b → sparsityNamed "jaccard" a b = .ok (d a b)) ∧
    (∀ a b, d a b * (usedCols (List.range n) a b : K) = (diffCols (List.range n) a b : K)) ∧
    (∀ a b, 0 ≤ d a b ∧ d a b ≤ 1) ∧ (∀ a b, d a b = d b a) ∧
    (∀ a b, IsNumeric n a → IsNumeric n b → (d a b = 0 ↔ a = b)) ∧ ∀ a b c, d a c ≤ d a b + d b c := by
  refine ⟨jaccard (List.range n), fun a b ha hb => sparsityNamed_jaccard ha hb (by decide), ?_, jaccard_mem _, jaccard_symm _, ?_,
    jaccard_triangle _⟩
  · intro a b
    rw [jaccard_eq_div]
    by_cases h : usedCols (List.range n) a b = 0
    · have := diff_le_used (List.range n) a b
      have h' : diffCols (List.range n) a b = 0 := by omega
      rw [h, h']; simp
    · exact div_mul_cancel₀ _ (by exact_mod_cast h)
  · intro a b ha hb
    rw [jaccard_eq_zero]
    constructor
    · exact fun h => NumRow.ext ha hb (fun i hi => List.mem_range.2 hi) h
    · rintro rfl i _; rfl

/-- C122: the jaccard sparsity is never below the fraction of changed features, and equal to it when no feature is 0 in both rows. -/
theorem C122_mismatch_le {n : Nat} (hn : n ≠ 0) {a b : List (Cell K)} (ha : IsNumeric n a) (hb : IsNumeric n b) :
    ∃ s j, sparsityNamed "mismatch" a b = .ok s ∧ sparsityNamed "jaccard" a b = .ok j ∧ s ≤ j ∧
      ((∀ i < n, a[i]? ≠ some (Cell.num 0) ∨ b[i]? ≠ some (Cell.num 0)) → s = j) := by
  have hne : a ≠ [] := by rintro rfl; exact hn ha.1.symm
  refine ⟨_, _, (if_pos rfl).trans (C68_sparsity_value a b (by rw [ha.1, hb.1]) hne), sparsityNamed_jaccard ha hb (by decide), ?_⟩
  have hd : ((List.range a.length).filter (fun i => a[i]? ≠ b[i]?)).length = diffCols (List.range n) a b := by
    rw [ha.1]
    unfold diffCols
    congr 1
    apply List.filter_congr
    intro i hi
    obtain ⟨x, hx⟩ := ha.2 i hi
    obtain ⟨y, hy⟩ := hb.2 i hi
    rw [hx, hy, numAt_of_num hx, numAt_of_num hy]
    simp
  have hu : usedCols (List.range n) a b ≤ n := by
    unfold usedCols
    exact (List.length_filter_le _ _).trans (by simp)
  have hnpos : (0 : K) < (n : K) := by exact_mod_cast Nat.pos_of_ne_zero hn
  rw [hd, ha.1, jaccard_eq_div]
  constructor
  · by_cases h0 : usedCols (List.range n) a b = 0
    · have := diff_le_used (List.range n) a b
      have h' : diffCols (List.range n) a b = 0 := by omega
      rw [h0, h']; simp
    · exact div_le_div_of_nonneg_left (Nat.cast_nonneg _) (by exact_mod_cast Nat.pos_of_ne_zero h0) (by exact_mod_cast hu)
  · intro h
    have : usedCols (List.range n) a b = n := by
      unfold usedCols
      rw [List.filter_eq_self.2, List.length_range]
      intro i hi
      obtain ⟨x, hx⟩ := ha.2 i hi
      obtain ⟨y, hy⟩ := hb.2 i hi
      have := h i (List.mem_range.1 hi)
      rw [hx, hy] at this
      rw [numAt_of_num hx, numAt_of_num hy]
      simpa using this
    rw [this]

/-- C122: the fraction of changed features does not depend on the coding of the features. -/
theorem C122_recode_mismatch (f : Nat → Cell K → Cell K) (hf : ∀ i, Function.Injective (f i)) (a b : List (Cell K)) (h : a.length = b.length) :
    sparsityNamed "mismatch" (recode f a) (recode f b) = sparsityNamed "mismatch" a b := by
  have e : ∀ (x y : List (Cell K)), sparsityNamed "mismatch" x y = sparsity x y := fun x y => if_pos rfl
  rw [e, e]
  by_cases hne : a = []
  · subst hne
    have : b = [] := List.length_eq_zero_iff.1 h.symm
    subst this; rfl
  · unfold recode
    rw [C68_sparsity_value a b h hne, C68_sparsity_value _ _ (by simp [h]) (by simpa using hne)]
    rw [List.length_mapIdx]
    congr 4
    · apply List.filter_congr
      intro i hi
      rw [List.mem_range] at hi
      rw [List.getElem?_mapIdx, List.getElem?_mapIdx, List.getElem?_eq_getElem hi, List.getElem?_eq_getElem (h ▸ hi)]
      simp [(hf i).eq_iff]

/-- C122 is false for jaccard: adding 1 to every code changes the sparsity. -/
theorem C122_recode_jaccard_false : ∃ (a b : List (Cell ℚ)) (f : Nat → Cell ℚ → Cell ℚ), (∀ i, Function.Injective (f i)) ∧
    IsNumeric 2 a ∧ IsNumeric 2 b ∧ sparsityNamed "jaccard" a b = .ok 1 ∧ sparsityNamed "jaccard" (recode f a) (recode f b) = .ok (1/2) := by
  refine ⟨[.num 0, .num 0], [.num 0, .num 1], fun _ c => match c with
    | .num x => .num (x + 1)
    | .str s => .str s, ?_, ⟨rfl, ?_⟩, ⟨rfl, ?_⟩, by decide +kernel, by decide +kernel⟩
  · rintro i (x | x) (y | y) h <;> simp at h ⊢ <;> exact h
  · intro i hi
    have : i = 0 ∨ i = 1 := by simp at hi; omega
    rcases this with rfl | rfl <;> exact ⟨_, rfl⟩
  · intro i hi
    have : i = 0 ∨ i = 1 := by simp at hi; omega
    rcases this with rfl | rfl <;> exact ⟨_, rfl⟩

/-- C122: every name that is not `'mismatch'` gives the jaccard sparsity, misspelt names too. -/
theorem C122_any_name (a b : List (Cell K)) (name : String) (h : name ≠ "mismatch") : sparsityNamed name a b = sparsityNamed "jaccard" a b := by
  unfold sparsityNamed
  rw [if_neg h, if_neg (c := "jaccard" = "mismatch") (by decide)]

theorem toFloats_cases (a : List (Cell K)) : (∃ u : List K, a = u.map Cell.num ∧ toFloats a = .ok u) ∨ toFloats a = .error .valueError := by
  induction a with
  | nil => exact .inl ⟨[], rfl, rfl⟩
  | cons c a ih =>
    cases c with
    | str t => exact .inr rfl
    | num x =>
      rcases ih with ⟨u, hu, h⟩ | h
      · exact .inl ⟨x :: u, by rw [hu]; rfl, by unfold toFloats at h ⊢; rw [List.mapM_cons, h]; rfl⟩
      · exact .inr (by unfold toFloats at h ⊢; rw [List.mapM_cons, h]; rfl)

theorem toFloats_string {a : List (Cell K)} {s : String} (h : Cell.str s ∈ a) : toFloats a = .error .valueError := by
  unfold toFloats
  induction a with
  | nil => cases h
  | cons c a ih =>
    rw [List.mapM_cons]
    cases c with
    | str t => rfl
    | num x =>
      rcases List.mem_cons.1 h with h | h
      · cases h
      · rw [ih h]; rfl

/-- C122: the jaccard sparsity of rows with a string raises `ValueError`. -/
theorem C122_strings (a b : List (Cell K)) (s : String) (h : Cell.str s ∈ a ∨ (Cell.str s ∈ b)) :
    sparsityNamed "jaccard" a b = .error .valueError := by
  unfold sparsityNamed
  rw [if_neg (by decide)]
  split_ifs with hl
  · rfl
  · rcases h with h | h
    · rw [toFloats_string h]; rfl
    · rw [toFloats_string h]
      cases e : toFloats a with
      | ok u => rfl
      | error e' =>
        rcases toFloats_cases a with ⟨u, -, hu⟩ | ha
        · rw [hu] at e; cases e
        · rw [ha] at e; cases e; rfl

example : sparsityNamed "jaccard" [Cell.num (3 : ℚ), .num 0, .num 0] [.num 4, .num 0, .num 2] = .ok 1 ∧
    sparsityNamed "mismatch" [Cell.num (3 : ℚ), .num 0, .num 0] [.num 4, .num 0, .num 2] = .ok (2/3) := by decide +kernel

end

/-! ### C121: the mixed distance -/

section

theorem sq_sum_nonneg (idx : List Nat) (f : Nat → ℝ) : 0 ≤ (idx.map (fun i => f i ^ 2)).sum :=
  List.sum_nonneg (by intro x hx; obtain ⟨i, -, rfl⟩ := List.mem_map.1 hx; exact sq_nonneg _)

theorem euclid_symm (idx : List Nat) (a b : List (Cell ℝ)) : euclid idx a b = euclid idx b a := by
  unfold euclid
  congr 3
  funext i
  ring

theorem euclid_eq_zero (idx : List Nat) (a b : List (Cell ℝ)) : euclid idx a b = 0 ↔ ∀ i ∈ idx, numAt a i = numAt b i := by
  unfold euclid
  rw [Real.sqrt_eq_zero (sq_sum_nonneg idx _)]
  induction idx with
  | nil => simp
  | cons j idx ih =>
    rw [List.map_cons, List.sum_cons, List.forall_mem_cons, ← ih]
    have h1 := sq_nonneg (numAt a j - numAt b j)
    have h2 := sq_sum_nonneg idx (fun i => numAt a i - numAt b i)
    constructor
    · intro h
      have h3 : (numAt a j - numAt b j) ^ 2 = 0 := by linarith
      exact ⟨sub_eq_zero.1 (pow_eq_zero_iff (two_ne_zero)|>.1 h3), by linarith⟩
    · rintro ⟨h3, h4⟩
      rw [h3, h4]; simp

theorem minkowski_two {x y A B C : ℝ} (hA : 0 ≤ A) (hB : 0 ≤ B) (hC : 0 ≤ C) (h : √ A ≤ √ B + √ C) :
    √ ((x + y) ^ 2 + A) ≤ √ (x ^ 2 + B) + √ (y ^ 2 + C) := by
  have hp := Real.sqrt_nonneg (x ^ 2 + B)
  have hq := Real.sqrt_nonneg (y ^ 2 + C)
  have hp2 := Real.sq_sqrt (show 0 ≤ x ^ 2 + B by positivity)
  have hq2 := Real.sq_sqrt (show 0 ≤ y ^ 2 + C by positivity)
  have hb2 := Real.sq_sqrt hB
  have hc2 := Real.sq_sqrt hC
  have ha2 := Real.sq_sqrt hA
  have hb := Real.sqrt_nonneg B
  have hc := Real.sqrt_nonneg C
  have ha := Real.sqrt_nonneg A
  rw [Real.sqrt_le_left (by positivity)]
  set p := √ (x ^ 2 + B)
  set q := √ (y ^ 2 + C)
  set u := √ B
  set v := √ C
  set w := √ A
  have hcs : x * y + u * v ≤ p * q := by
    apply abs_le_of_sq_le_sq' _ (by positivity) |>.2
    have : (p * q) ^ 2 = (x ^ 2 + u ^ 2) * (y ^ 2 + v ^ 2) := by rw [mul_pow, hp2, hq2, hb2, hc2]
    rw [this]
    nlinarith [sq_nonneg (x * v - y * u)]
  have hw : w ^ 2 ≤ (u + v) ^ 2 := by
    apply pow_le_pow_left₀ ha h
  nlinarith

theorem euclid_triangle (idx : List Nat) (a b c : List (Cell ℝ)) : euclid idx a c ≤ euclid idx a b + euclid idx b c := by
  induction idx with
  | nil => simp [euclid]
  | cons j idx ih =>
    unfold euclid at ih ⊢
    simp only [List.map_cons, List.sum_cons]
    have := minkowski_two (x := numAt a j - numAt b j) (y := numAt b j - numAt c j) (sq_sum_nonneg idx (fun i => numAt a i - numAt c i))
      (sq_sum_nonneg idx (fun i => numAt a i - numAt b i)) (sq_sum_nonneg idx (fun i => numAt b i - numAt c i)) ih
    rw [sub_add_sub_cancel] at this
    exact this

theorem euclidRow_eq (idx : List Nat) (a b : List (Cell ℝ)) :
    euclidRow Real.sqrt (idx.map (numAt a)) (idx.map (numAt b)) = euclid idx a b := by
  unfold euclidRow euclid
  rw [List.zipWith_map, List.zipWith_self]
  congr 3
  funext i
  ring

theorem Spec.NumRow.mono {K : Type} {idx idx' : List Nat} {n : Nat} {a : List (Cell K)} (h : NumRow idx' n a) (hs : ∀ i ∈ idx, i ∈ idx') : NumRow idx n a :=
  ⟨h.1, fun i hi => h.2 i (hs i hi)⟩

/-- C121: the value of the mixed distance. -/
theorem C121_mixed_value {n : Nat} (hn : n ≠ 0) {cont disc : List Nat} {a b : List (Cell ℝ)} (ha : NumRow (cont ++ disc) n a)
    (hb : NumRow (cont ++ disc) n b) (mad : Nat → Option ℝ) :
    distanceNamed Real.sqrt "mixed" a b cont disc mad = .ok (mixed n cont disc a b) := by
  have hn' : (n : ℝ) ≠ 0 := by exact_mod_cast hn
  unfold distanceNamed cfMixedDistance
  rw [if_pos rfl, colsDistance_ok _ (ha.mono (by simp +contextual)) (hb.mono (by simp +contextual)),
    colsDistance_ok _ (ha.mono (by simp +contextual)) (hb.mono (by simp +contextual)), euclidRow_eq, jaccardRow_eq, hb.1]
  simp only [py_bind_ok, pyDiv, hn', if_false]
  unfold mixed
  show Except.ok _ = _
  congr 1
  ring

theorem mixed_nonneg (n : Nat) (cont disc : List Nat) (a b : List (Cell ℝ)) : 0 ≤ mixed n cont disc a b := by
  unfold mixed euclid
  have := (jaccard_mem disc a b).1
  have := Real.sqrt_nonneg ((cont.map (fun i => (numAt a i - numAt b i) ^ 2)).sum)
  positivity

theorem mixed_eq_zero {n : Nat} (hn : n ≠ 0) (cont disc : List Nat) (a b : List (Cell ℝ)) :
    mixed n cont disc a b = 0 ↔ ∀ i ∈ cont ++ disc, numAt a i = numAt b i := by
  have hn' : (n : ℝ) ≠ 0 := by exact_mod_cast hn
  have h1 := (jaccard_mem disc a b).1
  have h2 : 0 ≤ euclid cont a b := Real.sqrt_nonneg _
  have hc : (0 : ℝ) ≤ (cont.length : ℝ) := Nat.cast_nonneg _
  have hd : (0 : ℝ) ≤ (disc.length : ℝ) := Nat.cast_nonneg _
  unfold mixed
  rw [div_eq_zero_iff, or_iff_left hn', add_eq_zero_iff_of_nonneg (mul_nonneg hc h2) (mul_nonneg hd h1), mul_eq_zero, mul_eq_zero,
    euclid_eq_zero, jaccard_eq_zero, Nat.cast_eq_zero, Nat.cast_eq_zero, List.length_eq_zero_iff, List.length_eq_zero_iff]
  simp only [List.mem_append]
  constructor
  · rintro ⟨h3, h4⟩ i (hi | hi)
    · rcases h3 with rfl | h3
      · cases hi
      · exact h3 i hi
    · rcases h4 with rfl | h4
      · cases hi
      · exact h4 i hi
  · exact fun h => ⟨.inr fun i hi => h i (.inl hi), .inr fun i hi => h i (.inr hi)⟩

/-- C121: the mixed distance of rows with numbers in the given columns is a pseudometric; it is 0 exactly for rows that agree in the given
columns, and exactly for equal rows when every column is given. -/
theorem C121_mixed_metric {n : Nat} (hn : n ≠ 0) (cont disc : List Nat) (mad : Nat → Option ℝ) : ∃ d : List (Cell ℝ) → List (Cell ℝ) → ℝ,
    (∀ a b, NumRow (cont ++ disc) n a → NumRow (cont ++ disc) n b → distanceNamed Real.sqrt "mixed" a b cont disc mad = .ok (d a b)) ∧
    (∀ a b, 0 ≤ d a b) ∧ (∀ a b, d a b = d b a) ∧
    (∀ a b, NumRow (cont ++ disc) n a → NumRow (cont ++ disc) n b → (d a b = 0 ↔ ∀ i ∈ cont ++ disc, a[i]? = b[i]?)) ∧
    ((∀ i < n, i ∈ cont ++ disc) → ∀ a b, NumRow (cont ++ disc) n a → NumRow (cont ++ disc) n b → (d a b = 0 ↔ a = b)) ∧
    ∀ a b c, d a c ≤ d a b + d b c := by
  have hz : ∀ a b : List (Cell ℝ), NumRow (cont ++ disc) n a → NumRow (cont ++ disc) n b →
      (mixed n cont disc a b = 0 ↔ ∀ i ∈ cont ++ disc, a[i]? = b[i]?) := by
    intro a b ha hb
    rw [mixed_eq_zero hn]
    apply forall₂_congr
    intro i hi
    obtain ⟨x, hx⟩ := ha.2 i hi
    obtain ⟨y, hy⟩ := hb.2 i hi
    rw [hx, hy, numAt_of_num hx, numAt_of_num hy]
    simp
  refine ⟨mixed n cont disc, fun a b ha hb => C121_mixed_value hn ha hb mad, mixed_nonneg n cont disc, ?_, hz, ?_, ?_⟩
  · intro a b
    unfold mixed
    rw [euclid_symm, jaccard_symm]
  · intro hall a b ha hb
    rw [mixed_eq_zero hn]
    exact ⟨NumRow.ext ha hb hall, by rintro rfl i _; rfl⟩
  · intro a b c
    unfold mixed
    rw [← add_div]
    apply div_le_div_of_nonneg_right _ (Nat.cast_nonneg _)
    have h1 := mul_le_mul_of_nonneg_left (euclid_triangle cont a b c) (Nat.cast_nonneg (α := ℝ) cont.length)
    have h2 := mul_le_mul_of_nonneg_left (jaccard_triangle disc a b c) (Nat.cast_nonneg (α := ℝ) disc.length)
    linarith

/-- C121: a string in one of the given columns raises `ValueError`. -/
theorem C121_strings {n : Nat} {cont disc : List Nat} (hr : ∀ i ∈ cont ++ disc, i < n) {a b : List (Cell ℝ)} (ha : a.length = n)
    (hb : b.length = n) (mad : Nat → Option ℝ) {i : Nat} (hi : i ∈ cont ++ disc) {s : String}
    (h : a[i]? = some (.str s) ∨ b[i]? = some (.str s)) : distanceNamed Real.sqrt "mixed" a b cont disc mad = .error .valueError := by
  have hpick : ∀ (idx : List Nat) (c : List (Cell ℝ)), (∀ i ∈ idx, i < c.length) →
      ∃ p, pickCols c idx = .ok p ∧ ∀ i ∈ idx, ∀ x, c[i]? = some x → x ∈ p := by
    intro idx c hidx
    induction idx with
    | nil => exact ⟨[], rfl, by simp⟩
    | cons j idx ih =>
      obtain ⟨p, hp, hm⟩ := ih (fun i hi => hidx i (by simp [hi]))
      refine ⟨c[j]'(hidx j (by simp)) :: p, ?_, ?_⟩
      · unfold pickCols at hp ⊢
        rw [List.mapM_cons, hp, List.getElem?_eq_getElem (hidx j (by simp))]
        rfl
      · intro i hi x hx
        rcases List.mem_cons.1 hi with rfl | hi
        · rw [List.getElem?_eq_getElem (hidx i (by simp))] at hx
          cases hx; simp
        · exact List.mem_cons_of_mem _ (hm i hi x hx)
  have hcols : ∀ (f : List ℝ → List ℝ → ℝ) (idx : List Nat), (∀ i ∈ idx, i < n) →
      ((∃ d, colsDistance f a b idx = .ok d) ∨ colsDistance f a b idx = .error .valueError) ∧
      (i ∈ idx → colsDistance f a b idx = .error .valueError) := by
    intro f idx hidx
    obtain ⟨p, hp, hpm⟩ := hpick idx a (by rw [ha]; exact hidx)
    obtain ⟨q, hq, hqm⟩ := hpick idx b (by rw [hb]; exact hidx)
    have e : colsDistance f a b idx = (toFloats p).bind (fun u => (toFloats q).bind (fun v => .ok (f u v))) := by
      unfold colsDistance
      rw [hp, hq]; rfl
    rw [e]
    constructor
    · rcases toFloats_cases p with ⟨u, -, hu⟩ | hu <;> rcases toFloats_cases q with ⟨v, -, hv⟩ | hv <;> rw [hu, hv]
      · exact .inl ⟨_, rfl⟩
      · exact .inr rfl
      · exact .inr rfl
      · exact .inr rfl
    · intro him
      rcases h with h | h
      · rw [toFloats_string (hpm i him _ h)]; rfl
      · rw [toFloats_string (hqm i him _ h)]
        rcases toFloats_cases p with ⟨u, -, hu⟩ | hu <;> rw [hu] <;> rfl
  unfold distanceNamed cfMixedDistance
  rw [if_pos rfl]
  obtain ⟨h1, h2⟩ := hcols (euclidRow Real.sqrt) cont (fun i hi => hr i (by simp [hi]))
  obtain ⟨-, h4⟩ := hcols jaccardRow disc (fun i hi => hr i (by simp [hi]))
  rcases List.mem_append.1 hi with hi | hi
  · rw [h2 hi]; rfl
  · rw [h4 hi]
    rcases h1 with ⟨d, h1⟩ | h1 <;> rw [h1] <;> rfl

/-- an unknown name of a distance is a `KeyError`. -/
theorem C121_unknown_name (a b : List (Cell ℝ)) (cont disc : List Nat) (mad : Nat → Option ℝ) (name : String) (h1 : name ≠ "mixed")
    (h2 : name ≠ "moth") : distanceNamed Real.sqrt name a b cont disc mad = .error .keyError := by
  unfold distanceNamed
  rw [if_neg h1, if_neg h2]

/-! ### C123: closest instance, implausibility and instability with the mixed distance -/

/-- C123 (what holds): when some row of the dataset differs from the counterfactual, implausibility with the mixed distance is the smallest
distance to a different row. Missing: otherwise it raises `AttributeError` (second part), also for a counterfactual that is the only
instance of the dataset. -/
theorem C123_implausibility_partial {n : Nat} (hn : n ≠ 0) {cont disc : List Nat} (hall : ∀ i < n, i ∈ cont ++ disc) (mad : Nat → Option ℝ)
    (cf : List (Cell ℝ)) (hcf : NumRow (cont ++ disc) n cf) (ds : List (List (Cell ℝ))) (hds : ∀ r ∈ ds, NumRow (cont ++ disc) n r) :
    ((∃ r ∈ ds, r ≠ cf) → ∃ v, implausibilityNamed Real.sqrt "mixed" cf ds cont disc mad = .ok v ∧ 0 < v ∧
      (∃ r ∈ ds, r ≠ cf ∧ distanceNamed Real.sqrt "mixed" cf r cont disc mad = .ok v) ∧
      ∀ r ∈ ds, r ≠ cf → ∀ w, distanceNamed Real.sqrt "mixed" cf r cont disc mad = .ok w → v ≤ w) ∧
    ((∀ r ∈ ds, r = cf) → implausibilityNamed Real.sqrt "mixed" cf ds cont disc mad = .error .attributeError) := by
  obtain ⟨d, h1, h2, h3, -, h4, h5⟩ := C121_mixed_metric hn cont disc mad
  replace h4 := h4 hall
  have hdist : ∀ r ∈ ds, distanceNamed Real.sqrt "mixed" cf r cont disc mad = .ok (d cf r) := fun r hr => h1 cf r hcf (hds r hr)
  rcases C66_closest_instance (fun r => distanceNamed Real.sqrt "mixed" cf r cont disc mad) (d cf) ds hdist with
    ⟨hle, hc⟩ | ⟨pre, r, post, e, hc, hpos, hpre, hpost⟩
  · have heq : ∀ r ∈ ds, r = cf := fun r hr => ((h4 cf r hcf (hds r hr)).1 (le_antisymm (hle r hr) (h2 cf r))).symm
    refine ⟨fun ⟨r, hr, hne⟩ => absurd (heq r hr) hne, fun _ => ?_⟩
    unfold implausibilityNamed
    rw [hc]
    rfl
  · have hmem : r ∈ ds := by rw [e]; simp
    have hne : r ≠ cf := by
      intro h0
      rw [h0, (h4 cf cf hcf hcf).2 rfl] at hpos
      exact lt_irrefl _ hpos
    refine ⟨fun _ => ⟨d cf r, ?_, hpos, ⟨r, hmem, hne, hdist r hmem⟩, ?_⟩, fun h => absurd (h r hmem) hne⟩
    · unfold implausibilityNamed
      rw [hc]
      exact hdist r hmem
    · intro x hx hxne w hw
      rw [hdist x hx] at hw
      cases hw
      have hx0 : 0 < d cf x := lt_of_le_of_ne (h2 _ _) (fun h0 => hxne ((h4 cf x hcf (hds x hx)).1 h0.symm).symm)
      rw [e] at hx
      rcases List.mem_append.1 hx with hx | hx
      · exact le_of_lt (hpre x hx hx0)
      · rcases List.mem_cons.1 hx with rfl | hx
        · exact le_refl _
        · exact hpost x hx hx0

/-- C123: the closest instance with the mixed distance is the first of the nearest rows that differ from the instance; nothing is found
exactly when no row differs. -/
theorem C123_closest {n : Nat} (hn : n ≠ 0) {cont disc : List Nat} (hall : ∀ i < n, i ∈ cont ++ disc) (mad : Nat → Option ℝ)
    (x : List (Cell ℝ)) (hx : NumRow (cont ++ disc) n x) (ds : List (List (Cell ℝ))) (hds : ∀ r ∈ ds, NumRow (cont ++ disc) n r) :
    ((∀ r ∈ ds, r = x) ∧ closestInstance (fun r => distanceNamed Real.sqrt "mixed" x r cont disc mad) ds = .ok none) ∨
      ∃ pre r post, ds = pre ++ r :: post ∧ r ≠ x ∧
        closestInstance (fun r => distanceNamed Real.sqrt "mixed" x r cont disc mad) ds = .ok (some r) ∧
        (∀ y ∈ pre, y ≠ x → mixed n cont disc x r < mixed n cont disc x y) ∧
        ∀ y ∈ post, y ≠ x → mixed n cont disc x r ≤ mixed n cont disc x y := by
  have h4 : ∀ r ∈ ds, (mixed n cont disc x r = 0 ↔ r = x) := by
    intro r hr
    rw [mixed_eq_zero hn]
    exact ⟨fun h => (NumRow.ext hx (hds r hr) hall h).symm, by rintro rfl i _; rfl⟩
  have hpos : ∀ r ∈ ds, r ≠ x → 0 < mixed n cont disc x r := fun r hr hne =>
    lt_of_le_of_ne (mixed_nonneg _ _ _ _ _) (fun h0 => hne ((h4 r hr).1 h0.symm))
  rcases C66_closest_instance (fun r => distanceNamed Real.sqrt "mixed" x r cont disc mad) (mixed n cont disc x) ds
    (fun r hr => C121_mixed_value hn hx (hds r hr) mad) with ⟨hle, hc⟩ | ⟨pre, r, post, e, hc, hp, hpre, hpost⟩
  · exact .inl ⟨fun r hr => (h4 r hr).1 (le_antisymm (hle r hr) (mixed_nonneg _ _ _ _ _)), hc⟩
  · have hmem : r ∈ ds := by rw [e]; simp
    refine .inr ⟨pre, r, post, e, fun h0 => absurd ((h4 r hmem).2 h0) (ne_of_gt hp), hc, ?_, ?_⟩
    · exact fun y hy hne => hpre y hy (hpos y (by rw [e]; simp [hy]) hne)
    · exact fun y hy hne => hpost y hy (hpos y (by rw [e]; simp [hy]) hne)

/-- C123: instability with the mixed distance never fails on rows of the dataset; it is the distance between the counterfactuals divided by
one plus the distance between the instances. -/
theorem C123_instability {n : Nat} (hn : n ≠ 0) {cont disc : List Nat} (hall : ∀ i < n, i ∈ cont ++ disc) (mad : Nat → Option ℝ)
    {inst cf closest cfClosest : List (Cell ℝ)} (h1 : NumRow (cont ++ disc) n inst) (h2 : NumRow (cont ++ disc) n cf)
    (h3 : NumRow (cont ++ disc) n closest) (h4 : NumRow (cont ++ disc) n cfClosest) :
    ∃ v dcf di, instabilityNamed Real.sqrt "mixed" inst cf closest cfClosest cont disc mad = .ok v ∧
      distanceNamed Real.sqrt "mixed" cf cfClosest cont disc mad = .ok dcf ∧ distanceNamed Real.sqrt "mixed" inst closest cont disc mad = .ok di ∧
      v * (di + 1) = dcf ∧ 0 ≤ v ∧ v ≤ dcf ∧ (v = 0 ↔ cf = cfClosest) ∧ (inst = closest → v = dcf) := by
  obtain ⟨d, hd1, hd2, hd3, -, hd4, -⟩ := C121_mixed_metric hn cont disc mad
  replace hd4 := hd4 hall
  have hp : (0 : ℝ) < d inst closest + 1 := by
    have := hd2 inst closest
    linarith
  refine ⟨d cf cfClosest / (d inst closest + 1), d cf cfClosest, d inst closest, ?_, hd1 _ _ h2 h4, hd1 _ _ h1 h3, ?_, ?_, ?_, ?_, ?_⟩
  · unfold instabilityNamed
    rw [hd1 _ _ h2 h4, hd1 _ _ h1 h3]
    simp only [py_bind_ok]
    unfold pyDiv
    rw [if_neg (ne_of_gt hp)]
  · exact div_mul_cancel₀ _ (ne_of_gt hp)
  · exact div_nonneg (hd2 _ _) (le_of_lt hp)
  · apply div_le_self (hd2 _ _)
    have := hd2 inst closest
    linarith
  · rw [div_eq_zero_iff, or_iff_left (ne_of_gt hp)]
    exact hd4 _ _ h2 h4
  · intro h
    rw [(hd4 _ _ h1 h3).2 h]
    simp

/-- a row of three numbers meets the hypotheses. -/
theorem numRow_three (x y z : ℝ) : NumRow ([0, 1] ++ [2]) 3 [.num x, .num y, .num z] := by
  refine ⟨rfl, ?_⟩
  intro i hi
  simp only [List.cons_append, List.nil_append, List.mem_cons, List.not_mem_nil, or_false] at hi
  rcases hi with rfl | rfl | rfl <;> exact ⟨_, rfl⟩

example : ∀ i < 3, i ∈ [0, 1] ++ [2] := by decide

/-- two continuous features at distance 5 and a discrete one that differs: (2·5 + 1·1)/3. -/
example : distanceNamed Real.sqrt "mixed" [.num 0, .num 0, .num 1] [.num 3, .num 4, .num 2] [0, 1] [2] (fun _ => none) = .ok (11/3) := by
  rw [C121_mixed_value (by decide) (numRow_three _ _ _) (numRow_three _ _ _)]
  congr 1
  unfold mixed euclid jaccard usedCols diffCols
  have h : √ (25 : ℝ) = 5 := by rw [show (25 : ℝ) = 5 ^ 2 by norm_num]; exact Real.sqrt_sq (by norm_num)
  norm_num [numAt, h]

/-- a counterfactual that is the only instance of the dataset. -/
example : implausibilityNamed Real.sqrt "mixed" [.num 0, .num 0, .num 1] [[.num 0, .num 0, .num 1]] [0, 1] [2] (fun _ => none) =
    .error .attributeError :=
  (C123_implausibility_partial (n := 3) (by decide) (by decide) _ _ (numRow_three _ _ _) _ (by simpa using numRow_three 0 0 1)).2 (by simp)

end

end Teacher
