import Verif.Model.Utils
import Verif.Lemmas.Basic
import Mathlib.Tactic.Linarith
import Mathlib.Tactic.FieldSimp
import Mathlib.Tactic.Ring
import Mathlib.Tactic.Positivity
import Mathlib.Data.Rat.Defs
import Mathlib.Algebra.Order.Field.Rat

/-!
# C81, C82: the distances of `utils/distance_functions.py`
-/

set_option linter.unusedSectionVars false

namespace Teacher

variable {K : Type} [Field K] [LinearOrder K] [IsStrictOrderedRing K]

/-! ## variance -/

private theorem len_pos {α : Type} {x : List α} (h : x ≠ []) : (0 : K) < (x.length : K) := by
  have : 0 < x.length := List.length_pos_of_ne_nil h
  exact_mod_cast this

theorem sum_sq_nonneg (x : List K) (m : K) : 0 ≤ (x.map (fun a => (a - m) ^ 2)).sum := by
  apply List.sum_nonneg
  intro b hb
  obtain ⟨a, -, rfl⟩ := List.mem_map.1 hb
  positivity

theorem sum_sq_eq_zero (x : List K) (m : K) : (x.map (fun a => (a - m) ^ 2)).sum = 0 ↔ ∀ a ∈ x, a = m := by
  induction x with
  | nil => simp
  | cons a x ih =>
    have h1 := sum_sq_nonneg x m
    have h2 : 0 ≤ (a - m) ^ 2 := by positivity
    simp only [List.map_cons, List.sum_cons, List.mem_cons, forall_eq_or_imp, ← ih]
    constructor
    · intro h
      have h3 : (a - m) ^ 2 = 0 := by linarith
      refine ⟨?_, by linarith⟩
      have := pow_eq_zero_iff (two_ne_zero) |>.1 h3
      linarith
    · rintro ⟨rfl, h⟩
      rw [h]; ring

/-- the mean of the values of a list. -/
def Spec.mean (x : List K) : K := x.sum / (x.length : K)

theorem npVar_ok (x : List K) (h : x ≠ []) :
    ∃ v, npVar x = .ok v ∧ v = (x.map (fun a => (a - Spec.mean x) ^ 2)).sum / (x.length : K) ∧ 0 ≤ v ∧ (v = 0 ↔ ∃ c, ∀ a ∈ x, a = c) := by
  have hp := len_pos (K := K) h
  refine ⟨_, ?_, rfl, ?_, ?_⟩
  · unfold npVar npDiv Spec.mean
    simp only [if_neg hp.ne', py_bind_ok, sq]
  · exact div_nonneg (sum_sq_nonneg _ _) hp.le
  · rw [div_eq_zero_iff, or_iff_left hp.ne', sum_sq_eq_zero]
    constructor
    · exact fun h => ⟨_, h⟩
    · rintro ⟨c, hc⟩ a ha
      have : x = List.replicate x.length c := List.eq_replicate_of_mem hc
      rw [hc a ha]
      unfold Spec.mean
      rw [eq_div_iff hp.ne']
      conv_rhs => rw [this]
      simp [mul_comm]

theorem sum_zipWith_sub (x y : List K) (h : x.length = y.length) : (List.zipWith (· - ·) x y).sum = x.sum - y.sum := by
  induction x generalizing y with
  | nil => cases y with
    | nil => simp
    | cons b y => simp at h
  | cons a x ih => cases y with
    | nil => simp at h
    | cons b y =>
      simp only [List.zipWith_cons_cons, List.sum_cons, ih y (by simpa using h)]
      ring

theorem sum_sq_sub_le (x y : List K) (m n : K) (h : x.length = y.length) :
    ((List.zipWith (· - ·) x y).map (fun a => (a - (m - n)) ^ 2)).sum ≤
      2 * ((x.map (fun a => (a - m) ^ 2)).sum + (y.map (fun a => (a - n) ^ 2)).sum) := by
  induction x generalizing y with
  | nil => cases y with
    | nil => simp
    | cons b y => simp at h
  | cons a x ih => cases y with
    | nil => simp at h
    | cons b y =>
      have := ih y (by simpa using h)
      simp only [List.zipWith_cons_cons, List.map_cons, List.sum_cons]
      nlinarith [sq_nonneg ((a - m) + (b - n))]

theorem mean_zipWith_sub (x y : List K) (h : x.length = y.length) :
    Spec.mean (List.zipWith (· - ·) x y) = Spec.mean x - Spec.mean y := by
  unfold Spec.mean
  rw [sum_zipWith_sub x y h, List.length_zipWith, ← h, min_self, sub_div]

theorem zipWith_ne_nil {x y : List K} (hx : x ≠ []) (h : x.length = y.length) : List.zipWith (· - ·) x y ≠ [] := by
  intro hz
  have := congrArg List.length hz
  simp only [List.length_zipWith, List.length_nil, ← h, min_self] at this
  exact hx (List.length_eq_zero_iff.1 this)

/-! ## C82 -/

/-- C82 for `normalized_euclidean_distance`: on two vectors of the same length that are not both constant it is between 0 and 1,
symmetric, and 0 exactly when one vector is a translation of the other. -/
theorem C82_euclidean (x y : List K) (hlen : x.length = y.length)
    (hvar : (∃ a ∈ x, ∃ b ∈ x, a ≠ b) ∨ (∃ a ∈ y, ∃ b ∈ y, a ≠ b)) :
    ∃ d, normEuclid x y = .ok d ∧ normEuclid y x = .ok d ∧ 0 ≤ d ∧ d ≤ 1 ∧ (d = 0 ↔ ∃ c, x = y.map (· + c)) := by
  have hx : x ≠ [] := by
    rcases hvar with ⟨a, ha, -⟩ | ⟨a, ha, -⟩
    · exact List.ne_nil_of_mem ha
    · intro h; rw [h] at hlen
      exact List.ne_nil_of_mem ha (List.length_eq_zero_iff.1 hlen.symm)
  have hy : y ≠ [] := by
    intro h; rw [h] at hlen
    exact hx (List.length_eq_zero_iff.1 hlen)
  obtain ⟨vx, hvx, ex, px, zx⟩ := npVar_ok x hx
  obtain ⟨vy, hvy, ey, py, zy⟩ := npVar_ok y hy
  obtain ⟨v, hv, e, p, z⟩ := npVar_ok (List.zipWith (· - ·) x y) (zipWith_ne_nil hx hlen)
  obtain ⟨w, hw, ew, -, -⟩ := npVar_ok (List.zipWith (· - ·) y x) (zipWith_ne_nil hy hlen.symm)
  have hp := len_pos (K := K) hx
  have hwv : w = v := by
    rw [ew, e, mean_zipWith_sub _ _ hlen, mean_zipWith_sub _ _ hlen.symm]
    simp only [List.length_zipWith, hlen, min_self]
    congr 1
    generalize Spec.mean x = m, Spec.mean y = n
    clear * - hlen
    induction x generalizing y with
    | nil => cases y with
      | nil => rfl
      | cons b y => simp at hlen
    | cons a x ih => cases y with
      | nil => simp at hlen
      | cons b y =>
        simp only [List.zipWith_cons_cons, List.map_cons, List.sum_cons, ih y (by simpa using hlen)]
        ring
  have hpos : 0 < vx + vy := by
    rcases hvar with ⟨a, ha, b, hb, hab⟩ | ⟨a, ha, b, hb, hab⟩
    · have : vx ≠ 0 := fun h => by
        obtain ⟨c, hc⟩ := zx.1 h
        exact hab ((hc a ha).trans (hc b hb).symm)
      have := lt_of_le_of_ne px this.symm
      linarith
    · have : vy ≠ 0 := fun h => by
        obtain ⟨c, hc⟩ := zy.1 h
        exact hab ((hc a ha).trans (hc b hb).symm)
      have := lt_of_le_of_ne py this.symm
      linarith
  have hle : v ≤ 2 * (vx + vy) := by
    rw [e, ex, ey, mean_zipWith_sub _ _ hlen, List.length_zipWith, ← hlen, min_self, ← add_div, ← mul_div_assoc]
    exact div_le_div_of_nonneg_right (sum_sq_sub_le x y _ _ hlen) hp.le
  refine ⟨1 / 2 * v / (vx + vy), ?_, ?_, ?_, ?_, ?_⟩
  · unfold normEuclid npSub
    rw [if_pos hlen]
    simp only [py_bind_ok, hv, hvx, hvy, npDiv, if_neg hpos.ne']
  · unfold normEuclid npSub
    rw [if_pos hlen.symm]
    simp only [py_bind_ok, hw, hvx, hvy, npDiv, hwv]
    rw [add_comm vy vx, if_neg hpos.ne']
  · positivity
  · rw [div_le_one hpos]; linarith
  · rw [div_eq_zero_iff, or_iff_left hpos.ne']
    have : 1 / 2 * v = 0 ↔ v = 0 := by constructor <;> intro h <;> linarith
    rw [this, z]
    clear * - hlen
    constructor
    · rintro ⟨c, hc⟩
      refine ⟨c, ?_⟩
      induction x generalizing y with
      | nil => cases y with
        | nil => rfl
        | cons b y => simp at hlen
      | cons a x ih => cases y with
        | nil => simp at hlen
        | cons b y =>
          simp only [List.zipWith_cons_cons, List.mem_cons, forall_eq_or_imp] at hc
          rw [List.map_cons, ← ih y (by simpa using hlen) hc.2, ← hc.1]
          congr 1
          ring
    · rintro ⟨c, rfl⟩
      refine ⟨c, ?_⟩
      intro a ha
      clear hlen
      induction y with
      | nil => simp at ha
      | cons b y ih =>
        simp only [List.map_cons, List.zipWith_cons_cons, List.mem_cons] at ha
        rcases ha with rfl | ha
        · ring
        · exact ih ha

/-- C82: on two constant vectors, in particular on vectors with a single component (a dataset with one continuous feature), it is `0/0`. -/
theorem C82_euclidean_nan (x y : List K) (hlen : x.length = y.length) (hne : x ≠ []) (a b : K) (hx : ∀ z ∈ x, z = a) (hy : ∀ z ∈ y, z = b) :
    normEuclid x y = .error .nan := by
  have hy' : y ≠ [] := by
    intro h; rw [h] at hlen
    exact hne (List.length_eq_zero_iff.1 hlen)
  obtain ⟨vx, hvx, -, -, zx⟩ := npVar_ok x hne
  obtain ⟨vy, hvy, -, -, zy⟩ := npVar_ok y hy'
  obtain ⟨v, hv, -⟩ := npVar_ok (List.zipWith (· - ·) x y) (zipWith_ne_nil hne hlen)
  unfold normEuclid npSub
  rw [if_pos hlen]
  simp only [py_bind_ok, hv, hvx, hvy, npDiv]
  rw [zx.2 ⟨a, hx⟩, zy.2 ⟨b, hy⟩]
  simp

/-- the vectors of the hypotheses. -/
example : normEuclid [(1 : ℚ), 2, 4] [2, 2, 0] = .ok (21 / 22) := by decide +kernel
example : normEuclid [(5 : ℚ)] [7] = .error .nan := by decide +kernel

/-- C82 for `simple_match_distance`: on non-empty vectors of the same length it is the share of positions that differ: between 0 and 1,
0 exactly for equal vectors, and symmetric. -/
theorem C82_simple_match {V : Type} [DecidableEq V] (x y : List V) (hlen : x.length = y.length) (hne : x ≠ []) :
    ∃ d : K, simpleMatch x y = .ok d ∧ simpleMatch y x = .ok d ∧
      d * (x.length : K) = (((x.zip y).countP (fun p => p.1 ≠ p.2) : Nat) : K) ∧ 0 ≤ d ∧ d ≤ 1 ∧ (d = 0 ↔ x = y) := by
  have hp := len_pos (K := K) hne
  have hzl : (x.zip y).length = x.length := by simp [hlen]
  have hsplit : (x.zip y).countP (fun p => p.1 = p.2) + (x.zip y).countP (fun p => p.1 ≠ p.2) = x.length := by
    rw [← hzl, List.length_eq_countP_add_countP (fun p => decide (p.1 = p.2))]
    simp
  have hd : (1 - (((x.zip y).countP (fun p => p.1 = p.2) : Nat) : K) / (x.length : K)) * (x.length : K) =
      (((x.zip y).countP (fun p => p.1 ≠ p.2) : Nat) : K) := by
    have : ((x.length : Nat) : K) = (((x.zip y).countP (fun p => p.1 = p.2) : Nat) : K) + (((x.zip y).countP (fun p => p.1 ≠ p.2) : Nat) : K) := by
      exact_mod_cast hsplit.symm
    rw [sub_mul, one_mul, div_mul_cancel₀ _ hp.ne']
    linarith
  have hsym : (y.zip x).countP (fun p => p.1 = p.2) = (x.zip y).countP (fun p => p.1 = p.2) := by
    rw [← List.zip_swap, List.countP_map]
    apply List.countP_congr
    rintro ⟨a, b⟩ -
    simp [eq_comm]
  refine ⟨1 - (((x.zip y).countP (fun p => p.1 = p.2) : Nat) : K) / (x.length : K), ?_, ?_, hd, ?_, ?_, ?_⟩
  · unfold simpleMatch pyDiv
    rw [if_neg hp.ne']; rfl
  · unfold simpleMatch pyDiv
    rw [hsym, ← hlen, if_neg hp.ne']; rfl
  · rw [sub_nonneg, div_le_one hp]
    exact_mod_cast (by omega : (x.zip y).countP (fun p => p.1 = p.2) ≤ x.length)
  · rw [sub_le_self_iff]; positivity
  · have h0 : (1 - (((x.zip y).countP (fun p => p.1 = p.2) : Nat) : K) / (x.length : K)) = 0 ↔
        (x.zip y).countP (fun p => p.1 ≠ p.2) = 0 := by
      constructor
      · intro h
        rw [h, zero_mul] at hd
        exact_mod_cast hd.symm
      · intro h
        rw [h] at hd
        rcases mul_eq_zero.1 (hd.trans (by norm_num)) with h | h
        · exact h
        · exact absurd h hp.ne'
    rw [h0, List.countP_eq_zero]
    constructor
    · intro h
      apply List.ext_getElem hlen
      intro i h1 h2
      have := h (x[i], y[i]) (by rw [List.mem_iff_getElem]; exact ⟨i, by simp [h1, h2], by simp⟩)
      simpa using this
    · rintro rfl ⟨a, b⟩ hab
      obtain ⟨i, hi, he⟩ := List.mem_iff_getElem.1 hab
      simp only [List.getElem_zip, Prod.mk.injEq] at he
      simp [← he.1, ← he.2]

/-- C82: `ZeroDivisionError` on empty vectors. -/
theorem C82_simple_match_empty {V : Type} [DecidableEq V] (y : List V) : simpleMatch (K := K) ([] : List V) y = .error .zeroDivision := by
  unfold simpleMatch pyDiv
  simp

example : simpleMatch (K := ℚ) ["a", "b", "c"] ["a", "x", "c"] = .ok (1 / 3) := by decide +kernel

/-- C82 for `mad_distance`: it exists when both vectors are as long as the list of deviations; for non-negative deviations it is
non-negative, symmetric, and 0 exactly when the vectors agree at every position with a deviation. -/
theorem C82_mad (x y mad : List K) (hx : mad.length ≤ x.length) (hy : mad.length ≤ y.length) (hmad : ∀ m ∈ mad, 0 ≤ m) :
    ∃ d, madDistance x y mad = .ok d ∧ madDistance y x mad = .ok d ∧ 0 ≤ d ∧
      (d = 0 ↔ ∀ (i : Nat) m, mad[i]? = some m → m ≠ 0 → x[i]? = y[i]?) := by
  let f : K × Nat → K := fun p => if p.1 = 0 then 0 else |x.getD p.2 0 - y.getD p.2 0| / p.1
  have hi : ∀ p ∈ mad.zipIdx, p.2 < x.length ∧ p.2 < y.length ∧ 0 ≤ p.1 ∧ mad[p.2]? = some p.1 := by
    intro p hp
    have h1 := List.mem_zipIdx_iff_getElem?.1 hp
    have h2 := (List.getElem?_eq_some_iff.1 h1).1
    exact ⟨by omega, by omega, hmad _ (List.mem_of_getElem? h1), h1⟩
  have hok : mad.zipIdx.mapM (madTerm x y) = .ok (mad.zipIdx.map f) := by
    apply mapM_ok_of_forall
    intro p hp
    obtain ⟨h1, h2, -⟩ := hi p hp
    unfold madTerm
    simp only [f]
    split
    · rfl
    · rw [List.getElem?_eq_getElem h1, List.getElem?_eq_getElem h2]
      simp [List.getD, h1, h2]
  have hok' : mad.zipIdx.mapM (madTerm y x) = .ok (mad.zipIdx.map f) := by
    apply mapM_ok_of_forall
    intro p hp
    obtain ⟨h1, h2, -⟩ := hi p hp
    unfold madTerm
    simp only [f]
    split
    · rfl
    · rw [List.getElem?_eq_getElem h1, List.getElem?_eq_getElem h2]
      simp [List.getD, h1, h2, abs_sub_comm]
  have hf : ∀ p ∈ mad.zipIdx, 0 ≤ f p := by
    intro p hp
    obtain ⟨-, -, h3, -⟩ := hi p hp
    simp only [f]
    split
    · exact le_refl _
    · exact div_nonneg (abs_nonneg _) h3
  have hzero : ∀ l : List (K × Nat), (∀ p ∈ l, 0 ≤ f p) → ((l.map f).sum = 0 ↔ ∀ p ∈ l, f p = 0) := by
    intro l hl
    induction l with
    | nil => simp
    | cons p l ih =>
      have h1 := hl p (by simp)
      have h2 : 0 ≤ (l.map f).sum := List.sum_nonneg (by
        intro b hb
        obtain ⟨q, hq, rfl⟩ := List.mem_map.1 hb
        exact hl q (by simp [hq]))
      have ih' := ih (fun q hq => hl q (by simp [hq]))
      simp only [List.map_cons, List.sum_cons, List.mem_cons, forall_eq_or_imp, ← ih']
      constructor
      · intro h; exact ⟨by linarith, by linarith⟩
      · rintro ⟨h3, h4⟩; rw [h3, h4, add_zero]
  refine ⟨(mad.zipIdx.map f).sum, ?_, ?_, ?_, ?_⟩
  · unfold madDistance; rw [hok]; rfl
  · unfold madDistance; rw [hok']; rfl
  · exact List.sum_nonneg (by
      intro b hb
      obtain ⟨q, hq, rfl⟩ := List.mem_map.1 hb
      exact hf q hq)
  · rw [hzero _ hf]
    constructor
    · intro h i m him hm
      have hp : (m, i) ∈ mad.zipIdx := List.mem_zipIdx_iff_getElem?.2 him
      have := h _ hp
      obtain ⟨h1, h2, -⟩ := hi _ hp
      simp only [f, if_neg hm, div_eq_zero_iff, or_iff_left hm, abs_eq_zero] at this
      simp only [List.getD, List.getElem?_eq_getElem h1, List.getElem?_eq_getElem h2, Option.getD_some] at this
      rw [List.getElem?_eq_getElem h1, List.getElem?_eq_getElem h2]
      congr 1
      linarith
    · rintro h ⟨m, i⟩ hp
      obtain ⟨h1, h2, -, him⟩ := hi _ hp
      simp only [f]
      split
      · rfl
      · rename_i hm
        have := h i m him hm
        simp [List.getD, this]

example : madDistance [(1 : ℚ), 2, 4] [2, 2, 0] [1, 0, 2] = .ok 3 := by decide +kernel

/-! ## C81 -/

/-- the number in a cell. -/
def cellNum : Cell ℚ → Py ℚ
  | .num z => .ok z
  | .str _ => .error .typeError

/-- C81, what holds: when some discrete attribute is not the class, `mixed_distance` is the average of the two distances with the numbers
of discrete and of continuous attributes as weights; the class, when listed as discrete, is counted in the weight. -/
theorem C81_mixed_partial {V : Type} (toNum : V → Py K) (ddist : List V → List V → Py K) (cdist : List K → List K → Py K)
    (x y : Dict String V) (discrete continuous : List String) (className : String) (xd yd : List V) (xc yc : List V) (xn yn : List K) (dd cd : K)
    (h1 : attrs x (noClass className discrete) = .ok xd) (h2 : attrs y (noClass className discrete) = .ok yd)
    (h3 : attrs x continuous = .ok xc) (h4 : attrs y continuous = .ok yc) (h5 : xc.mapM toNum = .ok xn) (h6 : yc.mapM toNum = .ok yn)
    (h7 : ddist xd yd = .ok dd) (h8 : cdist xn yn = .ok cd) (hne : ∃ a ∈ discrete, a ≠ className) :
    ∃ d, mixedDistance toNum ddist cdist x y discrete continuous className = .ok d ∧
      d * ((discrete.length : K) + (continuous.length : K)) = (discrete.length : K) * dd + (continuous.length : K) * cd := by
  obtain ⟨a, ha, hac⟩ := hne
  have hxd : 0 < xd.length := by
    unfold attrs at h1
    rw [mapM_ok_iff] at h1
    rw [← h1.length_eq]
    apply List.length_pos_of_mem (a := a)
    simp [noClass, ha, hac]
  have hpos : (0 : K) < (discrete.length : K) + (continuous.length : K) := by
    have := len_pos (K := K) (List.ne_nil_of_mem ha)
    positivity
  unfold mixedDistance discretePart continuousPart
  rw [h1]
  simp only [py_bind_ok, if_pos hxd, h2, h7, h3, h4, h5, h6, h8, py_pure]
  refine ⟨_, rfl, ?_⟩
  field_simp

/-- C81 is false without discrete attributes (other than the class): whatever the continuous attributes of the two records and the
distance functions, the result is 0. -/
theorem C81_no_discrete_false {V : Type} (toNum : V → Py K) (ddist : List V → List V → Py K) (cdist : List K → List K → Py K)
    (x y : Dict String V) (discrete continuous : List String) (className : String) (hd : ∀ a ∈ discrete, a = className)
    (hc : ∀ a ∈ continuous, ∃ v, Dict.get? x a = some v) :
    mixedDistance toNum ddist cdist x y discrete continuous className = .ok 0 := by
  have h1 : noClass className discrete = [] := by
    unfold noClass
    rw [List.filter_eq_nil_iff]
    intro a ha
    simp [hd a ha]
  obtain ⟨xc, hxc⟩ := forall₂_of_forall_exists (fun a v => Dict.get x a = .ok v) continuous
    (fun a ha => by obtain ⟨v, hv⟩ := hc a ha; exact ⟨v, Dict.get_eq_ok_iff.2 hv⟩)
  have h2 : attrs x continuous = .ok xc := by
    unfold attrs
    exact (mapM_ok_iff _ _ _).2 hxc
  have h3 : attrs x (noClass className discrete) = .ok [] := by rw [h1]; rfl
  unfold mixedDistance discretePart continuousPart
  rw [h3, h2]
  simp

/-- C81 is false also with one discrete attribute: the class is counted among the discrete attributes, so the weights are 2/3 and 1/3
instead of 1/2 and 1/2. -/
theorem C81_class_weight_false : ∃ (x y : Dict String (Cell ℚ)) (discrete continuous : List String) (className : String) (dd cd d : ℚ),
    mixedDistance cellNum (fun _ _ => .ok dd) (fun _ _ => .ok cd) x y discrete continuous className = .ok d ∧
    d ≠ (((discrete.filter (fun a => a ≠ className)).length : ℚ) * dd + (continuous.length : ℚ) * cd) /
      (((discrete.filter (fun a => a ≠ className)).length : ℚ) + (continuous.length : ℚ)) := by
  refine ⟨[("a", .str "u"), ("b", .num 1), ("class", .str "c")], [("a", .str "v"), ("b", .num 1), ("class", .str "c")], ["a", "class"], ["b"],
    "class", 1, 0, 2 / 3, by decide +kernel, ?_⟩
  simp
  norm_num

/-- a concrete pair of records for `C81_mixed_partial`. -/
example : mixedDistance (K := ℚ) cellNum simpleMatch normEuclid
    [("a", .str "u"), ("b", .num 1), ("c", .num 3)] [("a", .str "v"), ("b", .num 4), ("c", .num 2)] ["a"] ["b", "c"] "class" =
    .ok (1 / 3 * 1 + 2 / 3 * 1) := by decide +kernel

end Teacher
