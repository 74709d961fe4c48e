import Verif.Props.Discretize
import Mathlib.Analysis.SpecialFunctions.Log.Base
import Mathlib.Analysis.SpecialFunctions.Log.NegMulLog

/-!
# C15 (fuzzy entropy) and the counterexample to C13
-/

set_option linter.unusedSectionVars false

namespace Teacher
open Spec

section
variable {C K : Type} [Field K] [LinearOrder K] [IsStrictOrderedRing K]

theorem classCard_nonneg [DecidableEq C] {mu : List K} (hmu : ∀ m ∈ mu, 0 ≤ m) (y : List C) (c : C) :
    0 ≤ classCard mu y c := by
  unfold classCard
  apply List.sum_nonneg
  intro x hx
  obtain ⟨p, hp, rfl⟩ := List.mem_map.1 hx
  split
  · exact hmu _ (List.of_mem_zip hp).1
  · exact le_refl _

theorem classCard_sum [LinearOrder C] (mu : List K) (y : List C) (hlen : mu.length = y.length) :
    ((npUnique y).map (classCard mu y)).sum = mu.sum := by
  have h := sum_filter_classes (mu.zip y) (npUnique y) (npUnique_nodup y)
    (fun q hq => (mem_npUnique y q.2).2 (List.of_mem_zip hq).2)
  rw [List.map_fst_zip (by omega)] at h
  rw [← h]
  congr 1
  apply List.map_congr_left
  intro c _
  exact sum_ite_eq_filter mu y c

theorem classCard_le_sum [LinearOrder C] {mu : List K} (hmu : ∀ m ∈ mu, 0 ≤ m) (y : List C) (hlen : mu.length = y.length)
    (c : C) : classCard mu y c ≤ mu.sum := by
  have : mu.sum = ((mu.zip y).map (fun p => p.1)).sum := by
    rw [show (fun p : K × C => p.1) = Prod.fst from rfl, List.map_fst_zip (by omega)]
  rw [this]
  unfold classCard
  apply List.sum_le_sum
  intro p hp
  split
  · exact le_refl _
  · exact hmu _ (List.of_mem_zip hp).1

/-- C15: the arguments of the divisions and logarithms of the fuzzy entropy: for every class that contributes, the divisor is
positive and the ratio is in (0,1]. -/
theorem C15_arguments_of_log [LinearOrder C] {mu : List K} (hmu : ∀ m ∈ mu, 0 ≤ m) (y : List C)
    (hlen : mu.length = y.length) (c : C) (hc : 0 < classCard mu y c) :
    0 < mu.sum ∧ 0 < classCard mu y c / mu.sum ∧ classCard mu y c / mu.sum ≤ 1 := by
  have h1 := classCard_le_sum hmu y hlen c
  have h2 : 0 < mu.sum := lt_of_lt_of_le hc h1
  exact ⟨h2, div_pos hc h2, (div_le_one h2).2 h1⟩

end

section
variable {C : Type} [LinearOrder C]

/-- one term of the entropy. -/
theorem entropy_term {mu : List ℝ} (hmu : ∀ m ∈ mu, 0 ≤ m) (y : List C) (c : C) :
    (if 0 < classCard mu y c then -(classCard mu y c / mu.sum) * Real.logb 2 (classCard mu y c / mu.sum) else 0) =
      Real.negMulLog (classCard mu y c / mu.sum) / Real.log 2 := by
  split
  · unfold Real.negMulLog Real.logb
    ring
  · rename_i h
    have : classCard mu y c = 0 := le_antisymm (not_lt.1 h) (classCard_nonneg hmu y c)
    rw [this]; simp

theorem fuzzyEntropy_eq {mu : List ℝ} (hmu : ∀ m ∈ mu, 0 ≤ m) (y : List C) :
    fuzzyEntropy (Real.logb 2) mu y =
      ((npUnique y).map (fun c => Real.negMulLog (classCard mu y c / mu.sum) / Real.log 2)).sum := by
  unfold fuzzyEntropy
  congr 1
  apply List.map_congr_left
  intro c _
  exact entropy_term hmu y c

theorem ratio_mem_unit {mu : List ℝ} (hmu : ∀ m ∈ mu, 0 ≤ m) (y : List C) (hlen : mu.length = y.length) (c : C) :
    0 ≤ classCard mu y c / mu.sum ∧ classCard mu y c / mu.sum ≤ 1 := by
  have h0 : 0 ≤ mu.sum := List.sum_nonneg hmu
  exact ⟨div_nonneg (classCard_nonneg hmu y c) h0, div_le_one_of_le₀ (classCard_le_sum hmu y hlen c) h0⟩

theorem npUnique_length (y : List C) : (npUnique y).length = y.dedup.length := by
  unfold npUnique
  exact List.length_insertionSort _ _

/-- Gibbs' inequality, one term. -/
theorem negMulLog_le (r m : ℝ) (hr : 0 ≤ r) (hm : 0 < m) : Real.negMulLog r ≤ r * Real.log m + (1 / m - r) := by
  rcases eq_or_lt_of_le hr with h | h
  · rw [← h]; simp; exact hm.le
  · have h1 : Real.log (1 / (m * r)) ≤ 1 / (m * r) - 1 := Real.log_le_sub_one_of_pos (by positivity)
    have h2 : Real.log (1 / (m * r)) = -(Real.log m + Real.log r) := by
      rw [one_div, Real.log_inv, Real.log_mul hm.ne' h.ne']
    rw [h2] at h1
    have h3 := mul_le_mul_of_nonneg_left h1 h.le
    have h4 : r * (1 / (m * r) - 1) = 1 / m - r := by field_simp
    rw [h4] at h3
    unfold Real.negMulLog
    linarith

/-- C15: the fuzzy entropy is between 0 and log2 of the number of classes. -/
theorem C15_bounds {mu : List ℝ} (hmu : ∀ m ∈ mu, 0 ≤ m) (y : List C) (hlen : mu.length = y.length) :
    0 ≤ fuzzyEntropy (Real.logb 2) mu y ∧ fuzzyEntropy (Real.logb 2) mu y ≤ Real.logb 2 (y.dedup.length : ℝ) := by
  have hl2 : (0 : ℝ) < Real.log 2 := Real.log_pos (by norm_num)
  rw [fuzzyEntropy_eq hmu y]
  constructor
  · apply List.sum_nonneg
    intro x hx
    obtain ⟨c, -, rfl⟩ := List.mem_map.1 hx
    obtain ⟨h0, h1⟩ := ratio_mem_unit hmu y hlen c
    exact div_nonneg (Real.negMulLog_nonneg h0 h1) hl2.le
  · by_cases hs : mu.sum = 0
    · have : ((npUnique y).map (fun c => Real.negMulLog (classCard mu y c / mu.sum) / Real.log 2)) =
          (npUnique y).map (fun _ => (0 : ℝ)) := by
        apply List.map_congr_left
        intro c _
        rw [hs]; simp
      rw [this]
      simp only [List.map_const', List.sum_replicate, smul_zero]
      rcases Nat.eq_zero_or_pos y.dedup.length with h | h
      · rw [h]; simp
      · exact Real.logb_nonneg (by norm_num) (by exact_mod_cast h)
    · have hy : y ≠ [] := by
        intro h
        rw [h] at hlen
        have : mu = [] := List.length_eq_zero_iff.1 hlen
        exact hs (by rw [this]; rfl)
      have hm : (0 : ℝ) < ((npUnique y).length : ℝ) := by
        rw [Nat.cast_pos, List.length_pos_iff]
        exact fun e => hy ((npUnique_eq_nil y).1 e)
      rw [← npUnique_length]
      have hdiv : ((npUnique y).map (fun c => Real.negMulLog (classCard mu y c / mu.sum) / Real.log 2)).sum =
          ((npUnique y).map (fun c => Real.negMulLog (classCard mu y c / mu.sum))).sum / Real.log 2 := by
        rw [div_eq_mul_inv, ← List.sum_map_mul_right]
        rfl
      rw [hdiv]
      unfold Real.logb
      apply div_le_div_of_nonneg_right _ hl2.le
      have hle : ((npUnique y).map (fun c => Real.negMulLog (classCard mu y c / mu.sum))).sum ≤
          ((npUnique y).map (fun c => classCard mu y c / mu.sum * Real.log ((npUnique y).length : ℝ) +
            (1 / ((npUnique y).length : ℝ) - classCard mu y c / mu.sum))).sum := by
        apply List.sum_le_sum
        intro c _
        exact negMulLog_le _ _ (ratio_mem_unit hmu y hlen c).1 hm
      refine hle.trans (le_of_eq ?_)
      have hr1 : ((npUnique y).map (fun c => classCard mu y c / mu.sum)).sum = 1 := by
        have : ((npUnique y).map (fun c => classCard mu y c / mu.sum)).sum =
            ((npUnique y).map (classCard mu y)).sum / mu.sum := by
          rw [div_eq_mul_inv, ← List.sum_map_mul_right]
          rfl
        rw [this, classCard_sum mu y hlen, div_self hs]
      have gen : ∀ (l : List C) (f : C → ℝ) (a b : ℝ),
          (l.map (fun c => f c * a + (b - f c))).sum = (l.map f).sum * a + (l.length * b - (l.map f).sum) := by
        intro l f a b
        induction l with
        | nil => simp
        | cons x l ih =>
          simp only [List.map_cons, List.sum_cons, ih, List.length_cons, Nat.cast_add, Nat.cast_one]
          ring
      rw [gen, hr1]
      have : ((npUnique y).length : ℝ) * (1 / ((npUnique y).length : ℝ)) = 1 := by field_simp
      rw [this]
      ring

/-- C15: the fuzzy entropy is 0 exactly when at most one class has a positive total membership. -/
theorem C15_zero_iff {mu : List ℝ} (hmu : ∀ m ∈ mu, 0 ≤ m) (y : List C) (hlen : mu.length = y.length) :
    fuzzyEntropy (Real.logb 2) mu y = 0 ↔
      ∀ c ∈ y, ∀ c' ∈ y, 0 < classCard mu y c → 0 < classCard mu y c' → c = c' := by
  have hl2 : (0 : ℝ) < Real.log 2 := Real.log_pos (by norm_num)
  have hs0 : 0 ≤ mu.sum := List.sum_nonneg hmu
  have hnn : ∀ x ∈ (npUnique y).map (fun c => Real.negMulLog (classCard mu y c / mu.sum) / Real.log 2), (0 : ℝ) ≤ x := by
    intro x hx
    obtain ⟨c, -, rfl⟩ := List.mem_map.1 hx
    obtain ⟨h0, h1⟩ := ratio_mem_unit hmu y hlen c
    exact div_nonneg (Real.negMulLog_nonneg h0 h1) hl2.le
  rw [fuzzyEntropy_eq hmu y]
  constructor
  · intro h c hc c' hc' hpos hpos'
    by_contra hne
    obtain ⟨hs, hr0, hr1⟩ := C15_arguments_of_log hmu y hlen c hpos
    have hmem : Real.negMulLog (classCard mu y c / mu.sum) / Real.log 2 ∈
        (npUnique y).map (fun c => Real.negMulLog (classCard mu y c / mu.sum) / Real.log 2) :=
      List.mem_map.2 ⟨c, (mem_npUnique y c).2 hc, rfl⟩
    have h1 := List.single_le_sum hnn _ hmem
    rw [h] at h1
    have h0 : Real.negMulLog (classCard mu y c / mu.sum) = 0 := by
      have h2 := le_antisymm h1 (hnn _ hmem)
      rcases div_eq_zero_iff.1 h2 with h3 | h3
      · exact h3
      · exact absurd h3 hl2.ne'
    -- the ratio would be 1, but another class has positive membership
    have hlt : classCard mu y c / mu.sum < 1 := by
      rw [div_lt_one hs]
      have hsum := classCard_sum mu y hlen
      have hge : classCard mu y c + classCard mu y c' ≤ ((npUnique y).map (classCard mu y)).sum := by
        have hnn' : ∀ d : C, 0 ≤ classCard mu y d := classCard_nonneg hmu y
        have key : ∀ l : List C, l.Nodup → c ∈ l → c' ∈ l → classCard mu y c + classCard mu y c' ≤ (l.map (classCard mu y)).sum := by
          intro l
          induction l with
          | nil => intro _ h; simp at h
          | cons x l ih =>
            intro hnd h1 h2
            rw [List.nodup_cons] at hnd
            rw [List.map_cons, List.sum_cons]
            have hone : ∀ d ∈ l, classCard mu y d ≤ (l.map (classCard mu y)).sum := by
              intro d hd
              exact List.single_le_sum (by intro z hz; obtain ⟨e, -, rfl⟩ := List.mem_map.1 hz; exact hnn' e) _
                (List.mem_map.2 ⟨d, hd, rfl⟩)
            rcases List.mem_cons.1 h1 with e1 | m1
            · rcases List.mem_cons.1 h2 with e2 | m2
              · exact absurd (e1.trans e2.symm) hne
              · have := hone c' m2; rw [← e1]; linarith
            · rcases List.mem_cons.1 h2 with e2 | m2
              · have := hone c m1; rw [← e2]; linarith
              · have := ih hnd.2 m1 m2
                have := hnn' x
                linarith
        exact key _ (npUnique_nodup y) ((mem_npUnique y c).2 hc) ((mem_npUnique y c').2 hc')
      rw [hsum] at hge
      linarith
    unfold Real.negMulLog at h0
    have hlog : Real.log (classCard mu y c / mu.sum) < 0 := Real.log_neg hr0 hlt
    have : -(classCard mu y c / mu.sum) * Real.log (classCard mu y c / mu.sum) > 0 := by
      have := mul_pos_of_neg_of_neg (neg_lt_zero.2 hr0) hlog
      exact this
    linarith
  · intro h
    apply List.sum_eq_zero
    intro x hx
    obtain ⟨c, hc, rfl⟩ := List.mem_map.1 hx
    have hcy := (mem_npUnique y c).1 hc
    rcases eq_or_lt_of_le (classCard_nonneg hmu y c) with h0 | hpos
    · rw [← h0]; simp
    · have hs : 0 < mu.sum := (C15_arguments_of_log hmu y hlen c hpos).1
      have hall : ((npUnique y).map (classCard mu y)).sum = classCard mu y c := by
        have key : ∀ l : List C, l.Nodup → (∀ d ∈ l, d ∈ y) → c ∈ l → (l.map (classCard mu y)).sum = classCard mu y c := by
          intro l
          induction l with
          | nil => intro _ _ h; simp at h
          | cons d l ih =>
            intro hnd hy hmem
            rw [List.nodup_cons] at hnd
            rw [List.map_cons, List.sum_cons]
            by_cases hdc : d = c
            · subst hdc
              have : (l.map (classCard mu y)).sum = 0 := by
                apply List.sum_eq_zero
                intro z hz
                obtain ⟨e, he, rfl⟩ := List.mem_map.1 hz
                by_contra hne
                have hep : 0 < classCard mu y e := lt_of_le_of_ne (classCard_nonneg hmu y e) (Ne.symm hne)
                have := h e (hy e (by simp [he])) d hcy hep hpos
                rw [this] at he
                exact hnd.1 he
              rw [this, add_zero]
            · have h0 : classCard mu y d = 0 := by
                by_contra hne
                have hep : 0 < classCard mu y d := lt_of_le_of_ne (classCard_nonneg hmu y d) (Ne.symm hne)
                exact hdc (h d (hy d (by simp)) c hcy hep hpos)
              rw [h0, zero_add]
              rcases List.mem_cons.1 hmem with hm | hm
              · exact absurd hm.symm hdc
              · exact ih hnd.2 (fun e he => hy e (by simp [he])) hm
        exact key _ (npUnique_nodup y) (fun d hd => (mem_npUnique y d).1 hd) hc
      rw [classCard_sum mu y hlen] at hall
      rw [← hall, div_self hs.ne']
      simp

/-- C15: the weighted fuzzy entropy of a strong partition (the degrees of every row add up to 1) has the same bounds. -/
theorem C15_weighted_bounds (tri : List (List ℝ)) (y : List C) (hne : y ≠ []) (hlen : ∀ t ∈ tri, t.length = y.length)
    (hnn : ∀ t ∈ tri, ∀ m ∈ t, 0 ≤ m) (hone : ∀ i < y.length, (tri.map (fun t => t.getD i 0)).sum = 1) :
    0 ≤ weightedEntropy (fuzzyEntropy (Real.logb 2)) tri y ∧
      weightedEntropy (fuzzyEntropy (Real.logb 2)) tri y ≤ Real.logb 2 (y.dedup.length : ℝ) := by
  have hy : (0 : ℝ) < (y.length : ℝ) := by
    rw [Nat.cast_pos]; exact List.length_pos_iff.2 hne
  have hsum : ∀ t ∈ tri, t.sum = ((List.range y.length).map (fun i => t.getD i 0)).sum := by
    intro t ht
    congr 1
    apply List.ext_getElem
    · simp [hlen t ht]
    · intro i h1 h2
      simp [List.getElem?_eq_getElem h1]
  have htotal : (tri.map List.sum).sum = (y.length : ℝ) := by
    have e1 : tri.map List.sum = tri.map (fun t => ((List.range y.length).map (fun i => t.getD i 0)).sum) :=
      List.map_congr_left hsum
    have swap : ∀ (l : List (List ℝ)) (r : List Nat),
        (l.map (fun t => (r.map (fun i => t.getD i 0)).sum)).sum = (r.map (fun i => (l.map (fun t => t.getD i 0)).sum)).sum := by
      intro l r
      induction l with
      | nil => simp
      | cons t l ih =>
        simp only [List.map_cons, List.sum_cons, ih]
        rw [← List.sum_map_add]
    rw [e1, swap]
    have e2 : (List.range y.length).map (fun i => (tri.map (fun t => t.getD i 0)).sum) =
        (List.range y.length).map (fun _ => (1 : ℝ)) := by
      apply List.map_congr_left
      intro i hi
      exact hone i (List.mem_range.1 hi)
    rw [e2]
    simp
  unfold weightedEntropy
  constructor
  · apply div_nonneg _ hy.le
    apply List.sum_nonneg
    intro x hx
    obtain ⟨t, ht, rfl⟩ := List.mem_map.1 hx
    exact mul_nonneg (List.sum_nonneg (hnn t ht)) (C15_bounds (hnn t ht) y (hlen t ht)).1
  · rw [div_le_iff₀ hy, ← htotal, mul_comm, ← List.sum_map_mul_right]
    apply List.sum_le_sum
    intro t ht
    exact mul_le_mul_of_nonneg_left (C15_bounds (hnn t ht) y (hlen t ht)).2 (List.sum_nonneg (hnn t ht))

/-! ### C13 is false -/

theorem npUnique_eq_of {α : Type} [LinearOrder α] (l s : List α) (hs : s.Pairwise (· < ·)) (h : ∀ x, x ∈ l ↔ x ∈ s) :
    npUnique l = s := by
  apply List.Perm.eq_of_pairwise (le := (· ≤ ·)) (fun a b _ _ h1 h2 => le_antisymm h1 h2)
  · exact (npUnique_pairwise l).imp le_of_lt
  · exact hs.imp le_of_lt
  · rw [List.perm_ext_iff_of_nodup (npUnique_nodup l) (hs.imp (fun h => h.ne))]
    intro a
    rw [mem_npUnique, h]

theorem splitPoint_two {C K : Type} [Field K] [LinearOrder K] [IsStrictOrderedRing K] [DecidableEq C] (lg : K → K)
    (ent : List K → List C → K) (th : Option K) (maxDepth depth : Nat) (v : List K) (y : List C) (lo hi : K) (hle : lo ≤ hi)
    (hlen : 1 < v.length) (h : ∀ x ∈ v, x = lo ∨ x = hi) : splitPoint lg ent th maxDepth depth v y lo hi = .ok none := by
  obtain ⟨s, hs, hp⟩ := splitPoint_ok lg ent th maxDepth depth v y lo hi
    (by
      intro x hx
      rcases h x hx with rfl | rfl
      · exact ⟨le_refl _, hle⟩
      · exact ⟨hle, le_refl _⟩) hlen
  cases s with
  | none => exact hs
  | some p =>
    obtain ⟨h1, h2, h3, -⟩ := hp p rfl
    rcases h p h1 with e | e
    · exact absurd e h2
    · exact absurd e h3

private def lostV : List ℝ := [1, 1, 1, 1, 2, 2, 2, 2, 3]
private def lostY : List Nat := [0, 0, 0, 0, 1, 1, 1, 1, 1]

private theorem lostY_unique : npUnique lostY = [0, 1] := by decide

private theorem lostV_unique : npUnique lostV = [1, 2, 3] := by
  apply npUnique_eq_of
  · norm_num
  · intro x; simp [lostV]

/-- C13 fails, with the default threshold and the real entropy: on the column 1,1,1,1,2,2,2,2,3 with classes 0,0,0,0,1,1,1,1,1
the points are [1, 2], and the value 3 of the column is outside. (`ent true`, the entropy of the recursive calls, can be
anything.) -/
theorem C13_maximum_lost_false :
    ∃ (v : List ℝ) (y : List Nat), v.length = y.length ∧ 3 ∈ v ∧ (∃ a ∈ v, ∃ b ∈ v, a ≠ b) ∧
      ∀ ent : Bool → List ℝ → List Nat → ℝ, ent false = fuzzyEntropy (Real.logb 2) →
        entropyPoints (Real.logb 2) ent none 0 v y = .ok [1, 2] := by
  refine ⟨lostV, lostY, rfl, by simp [lostV], ⟨1, by simp [lostV], 2, by simp [lostV], by norm_num⟩, ?_⟩
  intro ent hent
  have hmin : npMin lostV = .ok 1 := by
    unfold npMin pyMin lostV
    norm_num
  have hmax : npMax lostV = .ok 3 := by
    unfold npMax lostV
    norm_num
  have htri : triangle3 lostV 1 2 3 = .ok [[1,1,1,1,0,0,0,0,0], [0,0,0,0,1,1,1,1,0], [0,0,0,0,0,0,0,0,1]] := by
    unfold triangle3 trimf lostV
    norm_num [trimfAt, py_bind_ok]
  have hglob : triangle2 lostV 1 3 = .ok [[1,1,1,1,1/2,1/2,1/2,1/2,0], [0,0,0,0,1/2,1/2,1/2,1/2,1]] := by
    unfold triangle2 trimf lostV
    norm_num [trimfAt, py_bind_ok]
  have hpure : ∀ mu : List ℝ, fuzzyEntropy (Real.logb 2) mu lostY =
      (if 0 < classCard mu lostY 0 then
        -(classCard mu lostY 0 / mu.sum) * Real.logb 2 (classCard mu lostY 0 / mu.sum) else 0) +
      (if 0 < classCard mu lostY 1 then
        -(classCard mu lostY 1 / mu.sum) * Real.logb 2 (classCard mu lostY 1 / mu.sum) else 0) := by
    intro mu
    unfold fuzzyEntropy
    rw [lostY_unique]
    simp
  have e1 : fuzzyEntropy (Real.logb 2) [1,1,1,1,0,0,0,0,0] lostY = 0 := by
    rw [hpure]; norm_num [classCard, lostY]
  have e2 : fuzzyEntropy (Real.logb 2) [0,0,0,0,1,1,1,1,0] lostY = 0 := by
    rw [hpure]; norm_num [classCard, lostY]
  have e3 : fuzzyEntropy (Real.logb 2) [0,0,0,0,0,0,0,0,1] lostY = 0 := by
    rw [hpure]; norm_num [classCard, lostY]
  have e5 : fuzzyEntropy (Real.logb 2) [0,0,0,0,1/2,1/2,1/2,1/2,1] lostY = 0 := by
    rw [hpure]; norm_num [classCard, lostY]
  have e4 : fuzzyEntropy (Real.logb 2) [1,1,1,1,1/2,1/2,1/2,1/2,0] lostY =
      -(2/3) * Real.logb 2 (2/3) + -(1/3) * Real.logb 2 (1/3) := by
    rw [hpure]; norm_num [classCard, lostY]
  have hlog23 : Real.logb 2 (2/3) = 1 - Real.logb 2 3 := by
    rw [Real.logb_div (by norm_num) (by norm_num), Real.logb_self_eq_one (by norm_num)]
  have hlog13 : Real.logb 2 (1/3) = - Real.logb 2 3 := by
    rw [one_div, Real.logb_inv]
  have hwbest : weightedEntropy (fuzzyEntropy (Real.logb 2))
      [[1,1,1,1,0,0,0,0,0], [0,0,0,0,1,1,1,1,0], [0,0,0,0,0,0,0,0,1]] lostY = 0 := by
    unfold weightedEntropy
    simp only [List.map_cons, List.map_nil, e1, e2, e3]
    simp
  have hwglob : weightedEntropy (fuzzyEntropy (Real.logb 2))
      [[1,1,1,1,1/2,1/2,1/2,1/2,0], [0,0,0,0,1/2,1/2,1/2,1/2,1]] lostY = (6 * Real.logb 2 3 - 4) / 9 := by
    unfold weightedEntropy
    simp only [List.map_cons, List.map_nil, e4, e5, hlog23, hlog13]
    have : lostY.length = 9 := rfl
    rw [this]
    norm_num
    ring
  have hbest : bestPoint (ent false) lostV lostY 1 3 =
      .ok (some (2, 0, [[1,1,1,1,0,0,0,0,0], [0,0,0,0,1,1,1,1,0], [0,0,0,0,0,0,0,0,1]])) := by
    unfold bestPoint
    rw [lostV_unique, hent]
    simp only [List.foldlM_cons, List.foldlM_nil]
    have s1 : bestPointStep (fuzzyEntropy (Real.logb 2)) lostV lostY 1 3 none 1 = .ok none := by
      unfold bestPointStep; simp
    have s2 : bestPointStep (fuzzyEntropy (Real.logb 2)) lostV lostY 1 3 none 2 =
        .ok (some (2, 0, [[1,1,1,1,0,0,0,0,0], [0,0,0,0,1,1,1,1,0], [0,0,0,0,0,0,0,0,1]])) := by
      unfold bestPointStep
      rw [if_pos (by norm_num), htri]
      simp only [py_bind_ok, hwbest, py_pure]
    have s3 : ∀ s, bestPointStep (fuzzyEntropy (Real.logb 2)) lostV lostY 1 3 s 3 = .ok s := by
      intro s; unfold bestPointStep; simp
    simp only [s1, s2, s3, py_bind_ok, py_pure]
  have hlog3 : (3 : ℝ) / 2 ≤ Real.logb 2 3 := by
    rw [Real.le_logb_iff_rpow_le (by norm_num) (by norm_num)]
    have h : ((2 : ℝ) ^ ((3 : ℝ) / 2)) ^ 2 = 8 := by
      rw [← Real.rpow_natCast, ← Real.rpow_mul (by norm_num)]
      norm_num
    have hpos : (0 : ℝ) ≤ (2 : ℝ) ^ ((3 : ℝ) / 2) := Real.rpow_nonneg (by norm_num) _
    nlinarith
  have hlog7 : Real.logb 2 7 ≤ 3 := by
    rw [Real.logb_le_iff_le_rpow (by norm_num) (by norm_num)]
    norm_num
  have hlog8 : Real.logb 2 8 = 3 := by
    rw [show (8 : ℝ) = 2 ^ (3 : ℝ) by norm_num, Real.logb_rpow (by norm_num) (by norm_num)]
  have hdelta : deltaPoint (Real.logb 2) (ent false) [[1,1,1,1,1/2,1/2,1/2,1/2,0], [0,0,0,0,1/2,1/2,1/2,1/2,1]]
      [[1,1,1,1,0,0,0,0,0], [0,0,0,0,1,1,1,1,0], [0,0,0,0,0,0,0,0,1]] lostY =
      Real.logb 2 7 - 2 * ((6 * Real.logb 2 3 - 4) / 9) := by
    unfold deltaPoint
    have hn : lostY.dedup.length = 2 := by decide
    rw [hent]
    simp only [hn, hwglob, List.map_cons, List.map_nil, e1, e2, e3]
    norm_num
  have hthr : gainThreshold (Real.logb 2) (ent false) none
      [[1,1,1,1,1/2,1/2,1/2,1/2,0], [0,0,0,0,1/2,1/2,1/2,1/2,1]]
      [[1,1,1,1,0,0,0,0,0], [0,0,0,0,1,1,1,1,0], [0,0,0,0,0,0,0,0,1]] lostY 9 =
      .ok ((3 + (Real.logb 2 7 - 2 * ((6 * Real.logb 2 3 - 4) / 9))) / 9) := by
    unfold gainThreshold
    simp only
    rw [if_neg (by norm_num), hdelta]
    have : ((9 : Nat) : ℝ) - 1 = 8 := by norm_num
    rw [this, hlog8]
    norm_num
  have hsplit : splitPoint (Real.logb 2) (ent false) none 0 0 lostV lostY 1 3 = .ok (some 2) := by
    unfold splitPoint
    rw [hbest]
    have hl : lostV.length = 9 := rfl
    simp only [py_bind_ok, hglob, bestTriangle, hl, hthr, py_pure]
    rw [if_pos]
    refine ⟨by simp, ?_⟩
    rw [hent, hwglob, not_lt]
    rw [div_le_iff₀ (by norm_num)]
    linarith
  unfold entropyPoints
  rw [hmin]
  have hl : lostV.length = 9 := rfl
  simp only [py_bind_ok, hl]
  unfold discretize
  rw [hmax]
  simp only [py_bind_ok, bne_self_eq_false, hsplit]
  have hleft : (lostV.zip lostY).filter (fun q => q.1 ≤ 2) =
      [(1, 0), (1, 0), (1, 0), (1, 0), (2, 1), (2, 1), (2, 1), (2, 1)] := by
    unfold lostV lostY
    norm_num [List.filter_cons]
  have hright : (lostV.zip lostY).filter (fun q => 2 < q.1) = [(3, 1)] := by
    unfold lostV lostY
    norm_num [List.filter_cons]
  rw [hleft, hright]
  unfold branchPoints
  simp only [List.length_cons, List.length_nil, List.map_cons, List.map_nil]
  rw [if_pos (by norm_num), if_neg (by norm_num)]
  -- the left branch has no candidate point
  unfold discretize
  have hmax' : npMax ([1, 1, 1, 1, 2, 2, 2, 2] : List ℝ) = .ok 2 := by
    unfold npMax; norm_num
  have hsplit' : splitPoint (Real.logb 2) (ent true) none 0 1 [1, 1, 1, 1, 2, 2, 2, 2] [0, 0, 0, 0, 1, 1, 1, 1] 1 2 =
      .ok none := by
    apply splitPoint_two _ _ _ _ _ _ _ _ _ (by norm_num) (by simp)
    intro x hx
    simpa [or_assoc] using hx
  rw [hmax']
  simp only [py_bind_ok, zero_add]
  rw [show ((1 : Nat) != 0) = true from rfl, hsplit']
  simp only [py_bind_ok, py_pure, List.append_nil]
  congr 1
  apply npUnique_eq_of
  · norm_num
  · intro x; rfl

/-- the degrees of the lost value in the fuzzy sets made from the points are all 0. -/
theorem C13_lost_value_false :
    ∃ sets : List (CSet ℝ), getFuzzyContinuousSets false [("1", 1), ("2", 2)] = .ok sets ∧
      sets.mapM (fun s => s.membership [.num 3]) = .ok [[0], [0]] := by
  refine ⟨_, rfl, ?_⟩
  norm_num [innerTriangles, lastTriangle, CSet.membership, trimfAt, List.mapM_cons, py_bind_ok, py_pure]

end

end Teacher
