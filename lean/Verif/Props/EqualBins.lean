import Verif.Props.Discretize
import Mathlib.Tactic.FieldSimp
import Mathlib.Tactic.Positivity
import Mathlib.Data.List.GetD

/-!
# C16: equal width and equal frequency
-/

set_option linter.unusedSectionVars false

namespace Teacher
open Spec

section
variable {K : Type} [Field K] [LinearOrder K] [IsStrictOrderedRing K]

/-- what is needed of the rounding of the edges: increasing bins that start at `lo` stay increasing, as many, and all but the
first stay above `lo`. -/
structure Spec.GoodRounding (lo : K) (fmt : List K → List K) : Prop where
  length : ∀ l, (fmt l).length = l.length
  increasing : ∀ l, l.Pairwise (· < ·) → (fmt l).Pairwise (· < ·)
  above : ∀ l, l.head? = some lo → l.Pairwise (· < ·) → ∀ x ∈ (fmt l).tail, lo < x

theorem setFirst_increasing {lo : K} {fmt : List K → List K} (hf : GoodRounding lo fmt) (l : List K) (hl : l ≠ [])
    (hinc : l.Pairwise (· < ·)) (hhead : l.head? = some lo) :
    ∃ r, setFirst lo (fmt l) = .ok r ∧ r.Pairwise (· < ·) ∧ r.head? = some lo ∧ r.length = l.length := by
  have h1 := hf.length l
  have h2 := hf.increasing l hinc
  have h3 := hf.above l hhead hinc
  cases he : fmt l with
  | nil =>
    rw [he] at h1
    exact absurd (List.length_eq_zero_iff.1 h1.symm) hl
  | cons a t =>
    rw [he] at h1 h2 h3
    refine ⟨lo :: t, rfl, ?_, rfl, by simpa using h1⟩
    rw [List.pairwise_cons] at h2 ⊢
    exact ⟨fun x hx => h3 x hx, h2.2⟩

theorem linspaceBins_increasing (lo hi : K) (h : lo < hi) (k : Nat) (hk : 0 < k) :
    (linspaceBins lo hi k).Pairwise (· < ·) ∧ (linspaceBins lo hi k).head? = some lo ∧
      (linspaceBins lo hi k).getLast? = some hi := by
  have hk' : (0 : K) < (k : K) := by exact_mod_cast hk
  refine ⟨?_, ?_, ?_⟩
  · unfold linspaceBins
    rw [List.pairwise_map]
    apply List.Pairwise.imp _ (List.pairwise_lt_range)
    intro i j hij
    have : (i : K) < (j : K) := by exact_mod_cast hij
    have hd : 0 < hi - lo := by linarith
    have := div_lt_div_of_pos_right (mul_lt_mul_of_pos_left this hd) hk'
    linarith
  · unfold linspaceBins
    rw [List.head?_map, List.head?_range]
    simp
  · unfold linspaceBins
    rw [List.getLast?_map, List.getLast?_range]
    simp
    field_simp
    ring

/-- C16 for `equal_width`: on a column with two different values the peaks are as many as the sets, strictly increasing (so
pairwise different) and start at the minimum of the column. -/
theorem C16_equal_width (fmt : List K → List K) (v : List K) (hex : ∃ a ∈ v, ∃ b ∈ v, a ≠ b) (k : Nat) (hk : 0 < k)
    (hf : ∀ lo ∈ v, GoodRounding lo fmt) :
    ∃ pts lo, equalWidth fmt v k = .ok pts ∧ pts.length = k + 1 ∧ pts.Pairwise (· < ·) ∧ pts.head? = some lo ∧ lo ∈ v ∧
      ∀ x ∈ v, lo ≤ x := by
  obtain ⟨a, ha, b, hb, hab⟩ := hex
  obtain ⟨lo, l1, l2, l3⟩ := npMin_ok (List.ne_nil_of_mem ha)
  obtain ⟨hi, m1, m2, m3⟩ := npMax_ok (List.ne_nil_of_mem ha)
  have hlt : lo < hi := by
    rcases lt_or_gt_of_ne hab with h | h
    · exact lt_of_le_of_lt (l3 a ha) (lt_of_lt_of_le h (m3 b hb))
    · exact lt_of_le_of_lt (l3 b hb) (lt_of_lt_of_le h (m3 a ha))
  obtain ⟨i1, i2, -⟩ := linspaceBins_increasing lo hi hlt k hk
  obtain ⟨r, r1, r2, r3, r4⟩ := setFirst_increasing (hf lo l2) (linspaceBins lo hi k)
    (by intro h; rw [h] at i2; simp at i2) i1 i2
  refine ⟨r, lo, ?_, ?_, r2, r3, l2, l3⟩
  · unfold equalWidth
    rw [l1]
    simp only [py_bind_ok, m1]
    exact r1
  · rw [r4]; simp [linspaceBins]

/-- C16 for `equal_width`, in exact arithmetic (the edges are not rounded, only the first one is lowered): the peaks go from the
minimum to the maximum of the column in steps of the same width. -/
theorem C16_equal_width_exact (low : K → K) (v : List K) (hex : ∃ a ∈ v, ∃ b ∈ v, a ≠ b) (k : Nat) :
    ∃ lo hi, lo ∈ v ∧ hi ∈ v ∧ (∀ x ∈ v, lo ≤ x ∧ x ≤ hi) ∧
      equalWidth (fun l => match l with | [] => [] | a :: t => low a :: t) v k =
        .ok ((List.range (k + 1)).map (fun (i : Nat) => lo + (hi - lo) * (i : K) / (k : K))) := by
  obtain ⟨a, ha, b, hb, hab⟩ := hex
  obtain ⟨lo, l1, l2, l3⟩ := npMin_ok (List.ne_nil_of_mem ha)
  obtain ⟨hi, m1, m2, m3⟩ := npMax_ok (List.ne_nil_of_mem ha)
  refine ⟨lo, hi, l2, m2, fun x hx => ⟨l3 x hx, m3 x hx⟩, ?_⟩
  unfold equalWidth
  rw [l1]
  simp only [py_bind_ok, m1]
  unfold linspaceBins
  rw [List.range_succ_eq_map]
  simp [setFirst]

theorem npSort_pairwise (v : List K) : (npSort v).Pairwise (· ≤ ·) := List.pairwise_insertionSort _ _

theorem npSort_length (v : List K) : (npSort v).length = v.length := List.length_insertionSort _ _

theorem mem_npSort (v : List K) (x : K) : x ∈ npSort v ↔ x ∈ v := List.mem_insertionSort _

/-- on the interval between the positions `j` and `j + 1` of the sorted column, the interpolated value. -/
theorem quantile_between (v : List K) (k i : Nat) (hk : 0 < k) (hi : i ≤ k) (hv : v ≠ []) :
    ∃ (h : (v.length - 1) * i / k < (npSort v).length),
      (npSort v)[(v.length - 1) * i / k] ≤ quantile v k i ∧
      ∀ h' : (v.length - 1) * i / k + 1 < (npSort v).length, quantile v k i ≤ (npSort v)[(v.length - 1) * i / k + 1] := by
  have hlen := npSort_length v
  have hpos : 0 < v.length := List.length_pos_iff.2 hv
  have hle : (v.length - 1) * i / k ≤ v.length - 1 := by
    apply Nat.div_le_of_le_mul
    rw [Nat.mul_comm k]
    exact Nat.mul_le_mul_left _ hi
  have hj : (v.length - 1) * i / k < (npSort v).length := by omega
  refine ⟨hj, ?_⟩
  have hk' : (0 : K) < (k : K) := by exact_mod_cast hk
  have hf0 : (0 : K) ≤ (((v.length - 1) * i % k : Nat) : K) / (k : K) := div_nonneg (Nat.cast_nonneg _) hk'.le
  have hf1 : (((v.length - 1) * i % k : Nat) : K) / (k : K) ≤ 1 := by
    rw [div_le_one hk']
    exact_mod_cast (Nat.mod_lt _ hk).le
  unfold quantile
  simp only
  rw [List.getD_eq_getElem _ _ hj]
  by_cases h1 : (v.length - 1) * i / k + 1 < (npSort v).length
  · have hs : (npSort v)[(v.length - 1) * i / k] ≤ (npSort v)[(v.length - 1) * i / k + 1] :=
      List.pairwise_iff_getElem.1 (npSort_pairwise v) _ _ hj h1 (by omega)
    rw [List.getD_eq_getElem _ _ h1]
    constructor
    · have := mul_nonneg hf0 (sub_nonneg.2 hs)
      linarith
    · intro _
      have := mul_le_mul_of_nonneg_right hf1 (sub_nonneg.2 hs)
      linarith
  · have hend : (v.length - 1) * i / k = v.length - 1 := by omega
    have hmod : (v.length - 1) * i % k = 0 := by
      have hdm := Nat.div_add_mod ((v.length - 1) * i) k
      rw [hend] at hdm
      have : (v.length - 1) * i ≤ k * (v.length - 1) := by
        rw [Nat.mul_comm k]
        exact Nat.mul_le_mul_left _ hi
      omega
    rw [hmod]
    constructor
    · simp
    · intro h; exact absurd h h1

theorem npSort_mono (v : List K) (i j : Nat) (hij : i ≤ j) (hj : j < (npSort v).length) :
    (npSort v)[i] ≤ (npSort v)[j] := by
  rcases Nat.lt_or_eq_of_le hij with h | h
  · exact List.pairwise_iff_getElem.1 (npSort_pairwise v) i j (by omega) hj h
  · subst h; exact le_refl _

theorem quantile_mono (v : List K) (k i j : Nat) (hk : 0 < k) (hij : i ≤ j) (hj : j ≤ k) (hv : v ≠ []) :
    quantile v k i ≤ quantile v k j := by
  obtain ⟨hi1, hi2, hi3⟩ := quantile_between v k i hk (hij.trans hj) hv
  obtain ⟨hj1, hj2, hj3⟩ := quantile_between v k j hk hj hv
  have hle : (v.length - 1) * i / k ≤ (v.length - 1) * j / k := Nat.div_le_div_right (Nat.mul_le_mul_left _ hij)
  rcases Nat.lt_or_eq_of_le hle with h | h
  · have h' : (v.length - 1) * i / k + 1 < (npSort v).length := by omega
    exact (hi3 h').trans ((npSort_mono v _ _ (by omega) hj1).trans hj2)
  · -- same interval
    have hk' : (0 : K) < (k : K) := by exact_mod_cast hk
    have hmod : (v.length - 1) * i % k ≤ (v.length - 1) * j % k := by
      have h1 := Nat.div_add_mod ((v.length - 1) * i) k
      have h2 := Nat.div_add_mod ((v.length - 1) * j) k
      have h3 : (v.length - 1) * i ≤ (v.length - 1) * j := Nat.mul_le_mul_left _ hij
      rw [h] at h1
      omega
    unfold quantile
    simp only
    rw [← h, List.getD_eq_getElem _ _ hi1]
    by_cases h1 : (v.length - 1) * i / k + 1 < (npSort v).length
    · rw [List.getD_eq_getElem _ _ h1]
      have hs := npSort_mono v ((v.length - 1) * i / k) _ (Nat.le_succ _) h1
      have hc : (((v.length - 1) * i % k : Nat) : K) ≤ (((v.length - 1) * j % k : Nat) : K) := by exact_mod_cast hmod
      have := mul_le_mul_of_nonneg_right (div_le_div_of_nonneg_right hc hk'.le) (sub_nonneg.2 hs)
      linarith
    · have hlen := npSort_length v
      have hpos : 0 < v.length := List.length_pos_iff.2 hv
      have hend : (v.length - 1) * j / k = v.length - 1 := by
        have : (v.length - 1) * j / k ≤ v.length - 1 := by
          apply Nat.div_le_of_le_mul
          rw [Nat.mul_comm k]
          exact Nat.mul_le_mul_left _ hj
        omega
      have hm : (v.length - 1) * j % k = 0 := by
        have hdm := Nat.div_add_mod ((v.length - 1) * j) k
        rw [hend] at hdm
        have : (v.length - 1) * j ≤ k * (v.length - 1) := by
          rw [Nat.mul_comm k]
          exact Nat.mul_le_mul_left _ hj
        omega
      rw [hm] at hmod ⊢
      rw [Nat.le_zero.1 hmod]

theorem quantile_zero (v : List K) (k : Nat) (lo : K) (hlo : lo ∈ v) (hmin : ∀ x ∈ v, lo ≤ x) : quantile v k 0 = lo := by
  unfold quantile
  simp only [Nat.mul_zero, Nat.zero_div, Nat.zero_mod, Nat.cast_zero, zero_div, zero_mul, add_zero]
  have hv : 0 < (npSort v).length := by rw [npSort_length]; exact List.length_pos_of_mem hlo
  rw [List.getD_eq_getElem _ _ hv]
  apply le_antisymm
  · obtain ⟨i, hi, e⟩ := List.getElem_of_mem ((mem_npSort v lo).2 hlo)
    rw [← e]
    exact npSort_mono v 0 i (Nat.zero_le _) hi
  · exact hmin _ ((mem_npSort v _).1 (List.getElem_mem _))

theorem quantile_last (v : List K) (k : Nat) (hk : 0 < k) (hi : K) (hhi : hi ∈ v) (hmax : ∀ x ∈ v, x ≤ hi) :
    quantile v k k = hi := by
  unfold quantile
  simp only [Nat.mul_div_cancel _ hk, Nat.mul_mod_left, Nat.cast_zero, zero_div, zero_mul, add_zero]
  have hpos : 0 < v.length := List.length_pos_of_mem hhi
  have hlen := npSort_length v
  rw [List.getD_eq_getElem _ _ (by omega : v.length - 1 < (npSort v).length)]
  apply le_antisymm
  · exact hmax _ ((mem_npSort v _).1 (List.getElem_mem _))
  · obtain ⟨i, hi', e⟩ := List.getElem_of_mem ((mem_npSort v hi).2 hhi)
    rw [← e]
    exact npSort_mono v i (v.length - 1) (by omega) (by omega)

/-- C16: the quantiles go from the minimum to the maximum of the column and do not decrease. -/
theorem C16_quantiles (v : List K) (k : Nat) (hk : 0 < k) (hv : v ≠ []) :
    ∃ lo hi, lo ∈ v ∧ hi ∈ v ∧ (∀ x ∈ v, lo ≤ x ∧ x ≤ hi) ∧ (quantiles v k).Pairwise (· ≤ ·) ∧
      (quantiles v k).head? = some lo ∧ (quantiles v k).getLast? = some hi ∧ (quantiles v k).length = k + 1 := by
  obtain ⟨lo, l1, l2, l3⟩ := npMin_ok hv
  obtain ⟨hi, m1, m2, m3⟩ := npMax_ok hv
  refine ⟨lo, hi, l2, m2, fun x hx => ⟨l3 x hx, m3 x hx⟩, ?_, ?_, ?_, by simp [quantiles]⟩
  · unfold quantiles
    rw [List.pairwise_map]
    apply List.Pairwise.imp_of_mem _ (List.pairwise_lt_range)
    intro i j hi hj hij
    have := List.mem_range.1 hj
    exact quantile_mono v k i j hk hij.le (by omega) hv
  · unfold quantiles
    rw [List.head?_map, List.head?_range]
    simp [quantile_zero v k lo l2 l3]
  · unfold quantiles
    rw [List.getLast?_map, List.getLast?_range]
    simp [quantile_last v k hk hi m2 m3]

/-- C16 for `equal_freq`, proved part: when the quantiles are different, the peaks are as many as the sets, strictly increasing
and start at the minimum. Missing: columns with a repeated quantile, for which it is false (`C16_repeated_quantile_false`). -/
theorem C16_equal_freq_partial (fmt : List K → List K) (v : List K) (hv : v ≠ []) (k : Nat) (hk : 0 < k)
    (hnd : (quantiles v k).Nodup) (hf : ∀ lo ∈ v, GoodRounding lo fmt) :
    ∃ pts lo, equalFreq fmt v k = .ok pts ∧ pts.length = k + 1 ∧ pts.Pairwise (· < ·) ∧ pts.head? = some lo ∧ lo ∈ v ∧
      ∀ x ∈ v, lo ≤ x := by
  obtain ⟨lo, hi, h1, h2, h3, h4, h5, h6, h7⟩ := C16_quantiles v k hk hv
  obtain ⟨lo', l1, l2, l3⟩ := npMin_ok hv
  have e : lo' = lo := le_antisymm (l3 lo h1) (h3 lo' l2).1
  subst e
  have hlt : (quantiles v k).Pairwise (· < ·) := (h4.and hnd).imp (fun h => lt_of_le_of_ne h.1 h.2)
  obtain ⟨r, r1, r2, r3, r4⟩ := setFirst_increasing (hf lo' h1) (quantiles v k)
    (by intro h; rw [h] at h5; simp at h5) hlt h5
  refine ⟨r, lo', ?_, by rw [r4, h7], r2, r3, h1, l3⟩
  unfold equalFreq
  rw [l1]
  have hq : qcut fmt v k = .ok (fmt (quantiles v k)) := by
    unfold qcut
    rw [if_neg]
    rw [hnd.dedup]
    omega
  simp only [py_bind_ok, hq]
  exact r1

/-- C16 fails for `equal_freq` whenever a quantile is repeated (with more than one interval): the first two peaks are equal,
whatever the rounding. -/
theorem C16_repeated_quantile_false (fmt : List K → List K) (hfmt : ∀ l, (fmt l).length = l.length) (v : List K) (hv : v ≠ [])
    (k : Nat) (hk : 1 < k) (hrep : ¬ (quantiles v k).Nodup) :
    ∃ lo rest, equalFreq fmt v k = .ok (lo :: lo :: rest) ∧ lo ∈ v ∧ ∀ x ∈ v, lo ≤ x := by
  obtain ⟨lo, l1, l2, l3⟩ := npMin_ok hv
  have hlen : (quantiles v k).length = k + 1 := by simp [quantiles]
  have hq : qcut fmt v k = .error .valueError := by
    unfold qcut
    rw [if_pos]
    refine ⟨?_, by omega⟩
    have hsub := List.dedup_sublist (quantiles v k)
    apply lt_of_le_of_ne hsub.length_le
    intro heq
    apply hrep
    rw [← hsub.eq_of_length heq]
    exact List.nodup_dedup _
  have hne : qcutDrop fmt v k ≠ [] := by
    intro h
    have := hfmt (npUnique (quantiles v k))
    unfold qcutDrop at h
    rw [h] at this
    have h0 : quantiles v k = [] := (npUnique_eq_nil _).1 (List.length_eq_zero_iff.1 this.symm)
    rw [h0] at hlen
    simp at hlen
  obtain ⟨a, t, hat⟩ := List.exists_cons_of_ne_nil hne
  refine ⟨lo, t, ?_, l2, l3⟩
  unfold equalFreq
  rw [l1]
  simp only [py_bind_ok, hq, hat, setFirst, py_pure]

end

section
private def lowFirst : List ℚ → List ℚ
  | [] => []
  | a :: t => (a - 1/1000) :: t

example : equalWidth lowFirst [3, 1, 2, 5] 2 = .ok [1, 3, 5] := by decide +kernel
example : equalFreq lowFirst [3, 1, 2, 5] 2 = .ok [1, 5/2, 5] := by decide +kernel
example : (quantiles ([3, 1, 2, 5] : List ℚ) 2).Nodup := by decide +kernel

/-- the skewed column 1,1,1,2,3 with four sets: the peaks 1, 1, 5/3, 3 are not a strong partition, the degrees of 1 add up to 2. -/
theorem C16_not_strong_false :
    ∃ (v : List ℚ) (sets : List (CSet ℚ)), (1 : ℚ) ∈ v ∧ equalFreq lowFirst v 3 = .ok [1, 1, 5/3, 3] ∧
      getFuzzyContinuousSets false [("1.0", 1), ("1.0", 1), ("1.667", 5/3), ("3.0", 3)] = .ok sets ∧
      sets.mapM (fun s => s.membership [.num 1]) = .ok [[1], [1], [0], [0]] :=
  ⟨[1, 1, 1, 2, 3], _, by decide, by decide +kernel, rfl, by decide +kernel⟩

/-- the rounding of the examples satisfies the hypothesis. -/
example : ∀ lo : ℚ, GoodRounding lo lowFirst := by
  intro lo
  refine ⟨?_, ?_, ?_⟩
  · intro l; cases l <;> rfl
  · intro l hl
    cases l with
    | nil => exact hl
    | cons a t =>
      simp only [lowFirst, List.pairwise_cons] at hl ⊢
      exact ⟨fun x hx => by have := hl.1 x hx; linarith, hl.2⟩
  · intro l hh hl x hx
    cases l with
    | nil => simp [lowFirst] at hx
    | cons a t =>
      simp only [List.head?_cons, Option.some.injEq] at hh
      subst hh
      exact (List.pairwise_cons.1 hl).1 x (by simpa [lowFirst] using hx)
end

end Teacher
