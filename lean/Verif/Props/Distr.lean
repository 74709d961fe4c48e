import Verif.Model.Distr
import Verif.Props.GPFitness
import Mathlib.Algebra.Order.Floor.Ring
import Mathlib.Data.List.Sort
import Mathlib.Tactic.Ring
import Mathlib.Tactic.Linarith

/-! # C125, C126: estimation of distributions for the genetic neighborhood -/

set_option linter.unusedSectionVars false

namespace Teacher

section
variable {K : Type} [Field K] [LinearOrder K] [IsStrictOrderedRing K]

/-! ### percentiles -/

/-- value of the sorted sample at a position (the last one beyond the end). -/
def sortedAt (x : List K) (i : Nat) : K := ((x.insertionSort (· ≤ ·))[min i (x.length - 1)]?).getD 0

theorem sortedAt_get (x : List K) (hx : x ≠ []) (i : Nat) :
    (x.insertionSort (· ≤ ·))[min i (x.length - 1)]? = some (sortedAt x i) := by
  have hl : 0 < x.length := List.length_pos_of_ne_nil hx
  have : min i (x.length - 1) < (x.insertionSort (· ≤ ·)).length := by rw [List.length_insertionSort]; omega
  unfold sortedAt
  rw [List.getElem?_eq_getElem this]; rfl

theorem sortedAt_mono (x : List K) (hx : x ≠ []) {i j : Nat} (h : i ≤ j) : sortedAt x i ≤ sortedAt x j := by
  have h1 := sortedAt_get x hx i
  have h2 := sortedAt_get x hx j
  obtain ⟨a1, a2⟩ := List.getElem?_eq_some_iff.1 h1
  obtain ⟨b1, b2⟩ := List.getElem?_eq_some_iff.1 h2
  rw [← a2, ← b2]
  have hs : (x.insertionSort (· ≤ ·)).Pairwise (· ≤ ·) := List.pairwise_insertionSort (· ≤ ·) x
  rcases lt_or_eq_of_le (show min i (x.length - 1) ≤ min j (x.length - 1) by omega) with hlt | heq
  · exact List.pairwise_iff_getElem.1 hs _ _ _ _ hlt
  · simp only [heq, le_refl]

theorem npPercentile_eq (q : Nat) (hq : q ≤ 100) (x : List K) (hx : x ≠ []) :
    npPercentile q x = sortedAt x (q * (x.length - 1) / 100) + ((q * (x.length - 1) % 100 : Nat) : K) / 100 *
      (sortedAt x (q * (x.length - 1) / 100 + 1) - sortedAt x (q * (x.length - 1) / 100)) := by
  have hl : 0 < x.length := List.length_pos_of_ne_nil hx
  set m := x.length - 1 with hm
  have hk : q * m / 100 ≤ m := by
    calc q * m / 100 ≤ 100 * m / 100 := Nat.div_le_div_right (Nat.mul_le_mul_right _ hq)
      _ = m := by omega
  have h1 : (x.insertionSort (· ≤ ·))[q * m / 100]? = some (sortedAt x (q * m / 100)) := by
    have := sortedAt_get x hx (q * m / 100)
    rwa [min_eq_left (by rw [← hm]; exact hk)] at this
  have h2 : ((x.insertionSort (· ≤ ·))[q * m / 100 + 1]?).getD (sortedAt x (q * m / 100)) = sortedAt x (q * m / 100 + 1) := by
    by_cases hlt : q * m / 100 + 1 ≤ m
    · have := sortedAt_get x hx (q * m / 100 + 1)
      rw [min_eq_left (by rw [← hm]; exact hlt)] at this
      rw [this]; rfl
    · rw [List.getElem?_eq_none (by rw [List.length_insertionSort]; omega)]
      unfold sortedAt
      rw [min_eq_right (by omega), min_eq_right (by omega)]
      rfl
  unfold npPercentile
  simp only [← hm, h1, Option.getD_some, h2]

theorem sampleRange_eq (x : List K) : sampleRange x = sortedAt x (x.length - 1) - sortedAt x 0 := by
  unfold sampleRange sortedAt
  rw [min_self, Nat.zero_min]

theorem percentile_bounds (q : Nat) (hq : q ≤ 100) (x : List K) (hx : x ≠ []) :
    sortedAt x (q * (x.length - 1) / 100) ≤ npPercentile q x ∧ npPercentile q x ≤ sortedAt x ((q * (x.length - 1) + 99) / 100) := by
  rw [npPercentile_eq q hq x hx]
  set pos := q * (x.length - 1)
  have hm := sortedAt_mono x hx (Nat.le_succ (pos / 100))
  have hr0 : (0 : K) ≤ ((pos % 100 : Nat) : K) / 100 := by positivity
  have hr1 : ((pos % 100 : Nat) : K) / 100 ≤ 1 := by
    rw [div_le_one (by norm_num)]
    have : pos % 100 ≤ 100 := (Nat.mod_lt _ (by norm_num)).le
    exact_mod_cast this
  constructor
  · have := mul_nonneg hr0 (sub_nonneg.2 hm)
    linarith
  · by_cases h0 : pos % 100 = 0
    · rw [h0]
      simp only [Nat.cast_zero, zero_div, zero_mul, add_zero]
      exact sortedAt_mono x hx (by omega)
    · have e : (pos + 99) / 100 = pos / 100 + 1 := by omega
      rw [e]
      have := mul_le_mul_of_nonneg_right hr1 (sub_nonneg.2 hm)
      simp only [Nat.succ_eq_add_one] at this ⊢
      linarith

theorem percentile_mono {p q : Nat} (hpq : p ≤ q) (hq : q ≤ 100) (x : List K) (hx : x ≠ []) : npPercentile p x ≤ npPercentile q x := by
  have hle : p * (x.length - 1) ≤ q * (x.length - 1) := Nat.mul_le_mul_right _ hpq
  by_cases h : p * (x.length - 1) / 100 = q * (x.length - 1) / 100
  · rw [npPercentile_eq p (by omega) x hx, npPercentile_eq q hq x hx, h]
    set a := p * (x.length - 1)
    set b := q * (x.length - 1)
    have hm := sortedAt_mono x hx (Nat.le_succ (b / 100))
    have hr : ((a % 100 : Nat) : K) / 100 ≤ ((b % 100 : Nat) : K) / 100 := by
      apply div_le_div_of_nonneg_right _ (by norm_num)
      have : a % 100 ≤ b % 100 := by omega
      exact_mod_cast this
    have := mul_le_mul_of_nonneg_right hr (sub_nonneg.2 hm)
    simp only [Nat.succ_eq_add_one] at this
    linarith
  · refine (percentile_bounds p (by omega) x hx).2.trans (le_trans ?_ (percentile_bounds q hq x hx).1)
    apply sortedAt_mono x hx
    have := Nat.div_le_div_right (c := 100) hle
    omega

/-- positions of a value in the sorted sample. -/
theorem sortedAt_block (x : List K) (v : K) (i : Nat) (h1 : x.countP (· < v) ≤ i) (h2 : i < x.countP (· < v) + x.count v) :
    sortedAt x i = v := by
  set s := x.insertionSort (· ≤ ·) with hs
  have hperm : s.Perm x := List.perm_insertionSort (· ≤ ·) x
  have hsort : s.Pairwise (· ≤ ·) := List.pairwise_insertionSort (· ≤ ·) x
  have hcl : x.countP (· ≤ v) = x.countP (· < v) + x.count v := by
    clear h1 h2 hs hperm hsort
    induction x with
    | nil => rfl
    | cons y x ih =>
      simp only [List.countP_cons, List.count_cons, ih, decide_eq_true_eq, beq_iff_eq]
      rcases lt_trichotomy y v with h | h | h
      · rw [if_pos h.le, if_pos h, if_neg h.ne]; omega
      · rw [if_pos h.le, if_neg (by rw [h]; exact lt_irrefl _), if_pos h]; omega
      · rw [if_neg (not_le.2 h), if_neg (not_lt.2 h.le), if_neg h.ne']; omega
  have hn : i < x.length := by
    have : x.countP (· ≤ v) ≤ x.length := List.countP_le_length
    omega
  have hx : x ≠ [] := by intro h; rw [h] at hn; simp at hn
  have hlen : s.length = x.length := by rw [hs, List.length_insertionSort]
  have hi : s[i]? = some (sortedAt x i) := by
    have := sortedAt_get x hx i
    rwa [min_eq_left (by omega)] at this
  obtain ⟨a1, a2⟩ := List.getElem?_eq_some_iff.1 hi
  rw [← a2]
  rcases lt_trichotomy s[i] v with h | h | h
  · exfalso
    have hall : ∀ y ∈ s.take (i + 1), y < v := by
      intro y hy
      obtain ⟨j, hj, rfl⟩ := List.mem_iff_getElem.1 hy
      rw [List.getElem_take]
      rw [List.length_take] at hj
      rcases lt_or_eq_of_le (show j ≤ i by omega) with hlt | rfl
      · exact lt_of_le_of_lt (List.pairwise_iff_getElem.1 hsort _ _ _ _ hlt) h
      · exact h
    have hc : (s.take (i + 1)).countP (· < v) = i + 1 := by
      rw [List.countP_eq_length.2 (by simpa using hall), List.length_take]; omega
    have : (s.take (i + 1)).countP (· < v) ≤ s.countP (· < v) := (List.take_sublist _ _).countP_le
    rw [hc, hperm.countP_eq] at this
    omega
  · exact h
  · exfalso
    have hz : (s.drop i).countP (· ≤ v) = 0 := by
      rw [List.countP_eq_zero]
      intro y hy
      obtain ⟨j, hj, rfl⟩ := List.mem_iff_getElem.1 hy
      rw [List.getElem_drop]
      rw [List.length_drop] at hj
      simp only [decide_eq_true_eq, not_le]
      rcases Nat.eq_zero_or_pos j with rfl | hj0
      · simpa using h
      · exact lt_of_lt_of_le h (List.pairwise_iff_getElem.1 hsort _ _ _ _ (by omega))
    have h3 : s.countP (· ≤ v) = (s.take i).countP (· ≤ v) + (s.drop i).countP (· ≤ v) := by
      rw [← List.countP_append, List.take_append_drop]
    have h4 : (s.take i).countP (· ≤ v) ≤ i := List.countP_le_length.trans (by rw [List.length_take]; omega)
    rw [hperm.countP_eq] at h3
    omega

/-- when a value is more than three quarters of the sample the interquartile range is 0. -/
theorem iqr_zero (x : List K) (v : K) (h : 3 * x.length < 4 * x.count v) : npPercentile 75 x = npPercentile 25 x := by
  have hx : x ≠ [] := by rintro rfl; simp at h
  have hl : 0 < x.length := List.length_pos_of_ne_nil hx
  have hcl : x.countP (· < v) + x.count v ≤ x.length := by
    clear hx hl h
    induction x with
    | nil => simp
    | cons y x ih =>
      simp only [List.countP_cons, List.count_cons, List.length_cons, decide_eq_true_eq, beq_iff_eq]
      rcases lt_trichotomy y v with h | h | h
      · rw [if_pos h, if_neg h.ne]; omega
      · rw [if_neg (by rw [h]; exact lt_irrefl _), if_pos h]; omega
      · rw [if_neg (not_lt.2 h.le), if_neg h.ne']; omega
  have h25 : sortedAt x (25 * (x.length - 1) / 100) = v := sortedAt_block x v _ (by omega) (by omega)
  have h75 : sortedAt x ((75 * (x.length - 1) + 99) / 100) = v := sortedAt_block x v _ (by omega) (by omega)
  have a := (percentile_bounds 25 (by norm_num) x hx).1
  have b := (percentile_bounds 75 (by norm_num) x hx).2
  rw [h25] at a
  rw [h75] at b
  exact le_antisymm (b.trans a) (percentile_mono (by norm_num) (by norm_num) x hx)

/-! ### C125 -/

variable [FloorRing K]

/-- C125 (what holds): for a sample of one value `estimate_nbr_bins` is 1, for two values 2, and for three or more values with different
quartiles it is the larger of Sturges' and the Freedman–Diaconis number of bins: at least 3, at least `1 + log2 n`, and enough for bins of
width `2·IQR/∛n` to cover the sample, and no larger than one of the two needs. Missing: samples with equal quartiles (`C125_dominated_false`)
and the empty sample. -/
theorem C125_bins_partial (cbrt : Nat → K) (hc : ∀ n, 0 < n → 0 < cbrt n) (x : List K) :
    (x.length = 1 → estimateNbrBins cbrt x = .ok 1) ∧ (x.length = 2 → estimateNbrBins cbrt x = .ok 2) ∧
    (3 ≤ x.length → npPercentile 25 x < npPercentile 75 x → ∃ k : Int, estimateNbrBins cbrt x = .ok k ∧ 3 ≤ k ∧
      (x.length : Int) ≤ 2 ^ (k - 1).toNat ∧
      sampleRange x ≤ (k : K) * (2 * (npPercentile 75 x - npPercentile 25 x) / cbrt x.length) ∧
      (((k : K) - 1) * (2 * (npPercentile 75 x - npPercentile 25 x) / cbrt x.length) < sampleRange x ∨
        2 ^ (k - 2).toNat < (x.length : Int))) := by
  refine ⟨fun h => if_pos h, fun h => ?_, fun hn hq => ?_⟩
  · unfold estimateNbrBins fdOrOne struges
    rw [h]
    rfl
  · have hiqr : 0 < npPercentile 75 x - npPercentile 25 x := sub_pos.2 hq
    have hh : 0 < 2 * (npPercentile 75 x - npPercentile 25 x) / cbrt x.length := div_pos (by linarith) (hc _ (by omega))
    set h := 2 * (npPercentile 75 x - npPercentile 25 x) / cbrt x.length with hhd
    set kf := ⌈sampleRange x / h⌉ with hkf
    set ks := Nat.clog 2 x.length with hks
    have hks2 : 2 ≤ ks := by
      have : Nat.clog 2 3 ≤ ks := Nat.clog_mono_right 2 hn
      have h3 : Nat.clog 2 3 = 2 := by decide +kernel
      omega
    have e : estimateNbrBins cbrt x = .ok (max kf ((ks : Int) + 1)) := by
      unfold estimateNbrBins fdOrOne struges freedmanDiaconis
      simp only [← hhd]
      rw [if_neg (by omega), if_pos (by omega), if_neg hh.ne', if_neg (by omega)]
      rfl
    refine ⟨_, e, le_max_of_le_right (by omega), ?_, ?_, ?_⟩
    · have h1 : x.length ≤ 2 ^ ks := Nat.le_pow_clog (by norm_num) _
      have h2 : ks ≤ (max kf ((ks : Int) + 1) - 1).toNat := by
        have := le_max_right kf ((ks : Int) + 1)
        omega
      have h3 : x.length ≤ 2 ^ (max kf ((ks : Int) + 1) - 1).toNat := h1.trans (Nat.pow_le_pow_right (by norm_num) h2)
      exact_mod_cast h3
    · have h1 : sampleRange x / h ≤ (kf : K) := Int.le_ceil _
      have h2 : (kf : K) ≤ ((max kf ((ks : Int) + 1) : Int) : K) := by exact_mod_cast le_max_left kf ((ks : Int) + 1)
      exact (div_le_iff₀ hh).1 (h1.trans h2)
    · rcases le_total kf ((ks : Int) + 1) with hle | hle
      · right
        rw [max_eq_right hle]
        have : 2 ^ (ks - 1) < x.length := by
          have := Nat.pow_pred_clog_lt_self (b := 2) (by norm_num) (x := x.length) (by omega)
          exact this
        have e2 : ((ks : Int) + 1 - 2).toNat = ks - 1 := by omega
        rw [e2]
        exact_mod_cast this
      · left
        rw [max_eq_left hle]
        have h1 : (kf : K) - 1 < sampleRange x / h := by
          have := Int.ceil_lt_add_one (sampleRange x / h)
          rw [← hkf] at this
          linarith
        exact (lt_div_iff₀ hh).1 h1

/-- C125 is false for samples in which one value is more than three quarters: the code raises `ValueError` if all the values are equal and
`OverflowError` otherwise (the fall-back of lines 315-316 comes too late). -/
theorem C125_dominated_false (cbrt : Nat → K) (x : List K) (v : K) (hn : 3 ≤ x.length) (h : 3 * x.length < 4 * x.count v) :
    ((∀ y ∈ x, y = v) → estimateNbrBins cbrt x = .error .valueError) ∧
      ((∃ y ∈ x, y ≠ v) → estimateNbrBins cbrt x = .error .overflowError) := by
  have hx : x ≠ [] := by rintro rfl; simp at hn
  have e : estimateNbrBins cbrt x = if sampleRange x = 0 then .error .valueError else .error .overflowError := by
    unfold estimateNbrBins fdOrOne freedmanDiaconis
    simp only [iqr_zero x v h, sub_self, mul_zero, zero_div, if_true]
    rw [if_neg (by omega), if_pos (by omega)]
    split_ifs <;> rfl
  have hmem : ∀ i, sortedAt x i ∈ x := by
    intro i
    have := List.mem_of_getElem? (sortedAt_get x hx i)
    exact (List.perm_insertionSort (· ≤ ·) x).mem_iff.1 this
  have hbd : ∀ y ∈ x, sortedAt x 0 ≤ y ∧ y ≤ sortedAt x (x.length - 1) := by
    intro y hy
    have hy' := (List.perm_insertionSort (· ≤ ·) x).mem_iff.2 hy
    obtain ⟨i, hi, rfl⟩ := List.mem_iff_getElem.1 hy'
    rw [List.length_insertionSort] at hi
    have hi2 := sortedAt_get x hx i
    rw [min_eq_left (by omega)] at hi2
    have : (x.insertionSort (· ≤ ·))[i]'(by rw [List.length_insertionSort]; exact hi) = sortedAt x i := by
      obtain ⟨h1, h2⟩ := List.getElem?_eq_some_iff.1 hi2
      exact h2
    rw [this]
    exact ⟨sortedAt_mono x hx (by omega), sortedAt_mono x hx (by omega)⟩
  rw [e, sampleRange_eq]
  constructor
  · intro hall
    rw [if_pos (by rw [hall _ (hmem _), hall _ (hmem 0)]; exact sub_self _)]
  · rintro ⟨y, hy, hne⟩
    rw [if_neg]
    intro h0
    have h1 := sub_eq_zero.1 h0
    have hv : v ∈ x := by
      rw [← List.count_pos_iff]; omega
    have a := hbd y hy
    have b := hbd v hv
    rw [h1] at a b
    exact hne ((le_antisymm a.2 a.1).trans (le_antisymm b.2 b.1).symm)

/-- the empty sample raises `OverflowError`. -/
theorem C125_empty_false (cbrt : Nat → K) : estimateNbrBins cbrt ([] : List K) = .error .overflowError := rfl

/-! ### C126 -/

section
variable {D P : Type}

theorem bestFit_fold (cands : List (D × Option (P × K))) (s : D × P × Option K) :
    (cands.foldl bestFitStep s = s ∧ ∀ c ∈ cands, ∀ p e, c.2 = some (p, e) → 0 < e → ∃ b, s.2.2 = some b ∧ b ≤ e) ∨
      ∃ pre d p e post, cands = pre ++ (d, some (p, e)) :: post ∧ cands.foldl bestFitStep s = (d, p, some e) ∧ 0 < e ∧
        (∀ b ∈ s.2.2, e < b) ∧ (∀ c ∈ pre, ∀ p' e', c.2 = some (p', e') → 0 < e' → e < e') ∧
        ∀ c ∈ post, ∀ p' e', c.2 = some (p', e') → 0 < e' → e ≤ e' := by
  induction cands generalizing s with
  | nil => exact .inl ⟨rfl, by simp⟩
  | cons c cands ih =>
    rw [List.foldl_cons]
    obtain ⟨d, o⟩ := c
    rcases o with _ | ⟨p, e⟩
    · have e1 : bestFitStep s (d, none) = s := rfl
      rw [e1]
      rcases ih s with ⟨h1, h2⟩ | ⟨pre, d', p', e', post, h1, h2, h3, h4, h5, h6⟩
      · refine .inl ⟨h1, ?_⟩
        intro c hc p e he
        rcases List.mem_cons.1 hc with rfl | hc
        · cases he
        · exact h2 c hc p e he
      · refine .inr ⟨(d, none) :: pre, d', p', e', post, by rw [h1]; rfl, h2, h3, h4, ?_, h6⟩
        intro c hc p e he
        rcases List.mem_cons.1 hc with rfl | hc
        · cases he
        · exact h5 c hc p e he
    · by_cases hcond : (∀ b ∈ s.2.2, e < b) ∧ 0 < e
      · have e1 : bestFitStep s (d, some (p, e)) = (d, p, some e) := if_pos hcond
        rw [e1]
        rcases ih (d, p, some e) with ⟨h1, h2⟩ | ⟨pre, d', p', e', post, h1, h2, h3, h4, h5, h6⟩
        · refine .inr ⟨[], d, p, e, cands, rfl, h1, hcond.2, hcond.1, by simp, ?_⟩
          intro c hc p' e' he hpos
          obtain ⟨b, hb, hle⟩ := h2 c hc p' e' he hpos
          cases hb
          exact hle
        · have hlt : e' < e := h4 e rfl
          refine .inr ⟨(d, some (p, e)) :: pre, d', p', e', post, by rw [h1]; rfl, h2, h3, fun b hb => hlt.trans (hcond.1 b hb), ?_, h6⟩
          intro c hc q f hf hpos
          rcases List.mem_cons.1 hc with rfl | hc
          · cases hf; exact hlt
          · exact h5 c hc q f hf hpos
      · have e1 : bestFitStep s (d, some (p, e)) = s := if_neg hcond
        rw [e1]
        have hno : 0 < e → ∃ b, s.2.2 = some b ∧ b ≤ e := by
          intro hpos
          by_contra h0
          push Not at h0
          exact hcond ⟨fun b hb => h0 b hb, hpos⟩
        rcases ih s with ⟨h1, h2⟩ | ⟨pre, d', p', e', post, h1, h2, h3, h4, h5, h6⟩
        · refine .inl ⟨h1, ?_⟩
          intro c hc q f hf hpos
          rcases List.mem_cons.1 hc with rfl | hc
          · cases hf; exact hno hpos
          · exact h2 c hc q f hf hpos
        · refine .inr ⟨(d, some (p, e)) :: pre, d', p', e', post, by rw [h1]; rfl, h2, h3, h4, ?_, h6⟩
          intro c hc q f hf hpos
          rcases List.mem_cons.1 hc with rfl | hc
          · cases hf
            obtain ⟨b, hb, hle⟩ := hno hpos
            exact (h4 b hb).trans_le hle
          · exact h5 c hc q f hf hpos

/-- C126 (what holds): `best_fit_distribution` returns the first distribution with the smallest *positive* error and its parameters, and the
standard normal distribution when no distribution has a positive error. Missing: a distribution with error 0 (`C126_perfect_fit_false`). -/
theorem C126_best_fit_partial (default : D × P) (cands : List (D × Option (P × K))) :
    (bestFit default cands = default ∧ ∀ c ∈ cands, ∀ p e, c.2 = some (p, e) → e ≤ 0) ∨
      ∃ pre d p e post, cands = pre ++ (d, some (p, e)) :: post ∧ bestFit default cands = (d, p) ∧ 0 < e ∧
        (∀ c ∈ pre, ∀ p' e', c.2 = some (p', e') → 0 < e' → e < e') ∧
        ∀ c ∈ post, ∀ p' e', c.2 = some (p', e') → 0 < e' → e ≤ e' := by
  unfold bestFit
  rcases bestFit_fold cands (default.1, default.2, none) with ⟨h1, h2⟩ | ⟨pre, d, p, e, post, h1, h2, h3, -, h5, h6⟩
  · refine .inl ⟨by rw [h1], ?_⟩
    intro c hc p e he
    by_contra h0
    obtain ⟨b, hb, -⟩ := h2 c hc p e he (not_le.1 h0)
    cases hb
  · exact .inr ⟨pre, d, p, e, post, h1, by rw [h2], h3, h5, h6⟩

/-- C126 is false when a distribution fits perfectly: it is passed over for a worse one. -/
theorem C126_perfect_fit_false : ∃ (default : String × Nat) (cands : List (String × Option (Nat × ℚ))),
    ("uniform", some (3, 0)) ∈ cands ∧ bestFit default cands = ("gamma", 7) ∧ ("gamma", some (7, 5)) ∈ cands :=
  ⟨("norm", 0), [("uniform", some (3, 0)), ("gamma", some (7, 5)), ("beta", none)], by decide, by decide +kernel, by decide⟩

/-- C126: `get_distr_values` fails exactly when the number of bins does; otherwise it returns `size` equally spaced values from the 1% to
the 99% quantile of the chosen distribution. -/
theorem C126_distr_values (cbrt : Nat → K) (default : D × P) (fits : List K → Int → List (D × Option (P × K))) (ppf : D → P → K → K)
    (x : List K) (size : Nat) :
    (∀ e, estimateNbrBins cbrt x = .error e → getDistrValues cbrt default fits ppf x size = .error e) ∧
    (∀ k, estimateNbrBins cbrt x = .ok k → ∃ vs, getDistrValues cbrt default fits ppf x size = .ok vs ∧ vs.length = size ∧
      (∀ i v, vs[i]? = some v → v * ((size - 1 : Nat) : K) = ppf (bestFit default (fits x k)).1 (bestFit default (fits x k)).2 (1/100) *
          ((size - 1 - i : Nat) : K) + ppf (bestFit default (fits x k)).1 (bestFit default (fits x k)).2 (99/100) * (i : K)) ∧
      (1 ≤ size → vs[0]? = some (ppf (bestFit default (fits x k)).1 (bestFit default (fits x k)).2 (1/100))) ∧
      (2 ≤ size → vs[size - 1]? = some (ppf (bestFit default (fits x k)).1 (bestFit default (fits x k)).2 (99/100)))) := by
  constructor
  · intro e he
    unfold getDistrValues
    rw [he]; rfl
  · intro k hk
    refine ⟨_, by unfold getDistrValues; rw [hk]; rfl, by simp [npLinspace], ?_, ?_, ?_⟩
    · intro i v hv
      unfold npLinspace at hv
      rw [List.getElem?_map] at hv
      by_cases hi : i < size
      · rw [List.getElem?_range hi] at hv
        simp only [Option.map_some, Option.some.injEq] at hv
        rw [← hv]
        by_cases h1 : size = 1
        · subst h1
          have : i = 0 := by omega
          subst this
          simp
        · have hpos : ((size - 1 : Nat) : K) ≠ 0 := by
            have : size - 1 ≠ 0 := by omega
            exact_mod_cast this
          have hc : ((size - 1 - i : Nat) : K) = ((size - 1 : Nat) : K) - (i : K) := by
            rw [Nat.cast_sub (by omega)]
          rw [hc]
          field_simp
          ring
      · rw [List.getElem?_eq_none (by simp; omega)] at hv
        cases hv
    · intro h1
      unfold npLinspace
      rw [List.getElem?_map, List.getElem?_range (by omega)]
      simp
    · intro h2
      unfold npLinspace
      rw [List.getElem?_map, List.getElem?_range (by omega)]
      have hpos : ((size - 1 : Nat) : K) ≠ 0 := by
        have : size - 1 ≠ 0 := by omega
        exact_mod_cast this
      simp only [Option.map_some, Option.some.injEq]
      rw [mul_div_cancel₀ _ hpos]
      ring

theorem featureLoop_fails {R : Type} (rng : GPRng R K) (std : List K → K) (distr : List K → Nat → Py (List K)) (X : List (List K))
    (discrete continuous : List String) (size : Nat) (useProb : Bool) (p : String × Nat) (hpd : p.1 ∉ discrete) (hpc : p.1 ∈ continuous)
    (values : List K) (hv : column X p.2 = .ok values) (e : PyErr) (he : distr values size = .error e) :
    ∀ (ps : List (String × Nat)) (prev : Option (List K)) (r : R), p ∈ ps →
      ∃ e', featureLoop rng std distr X discrete continuous size useProb true ps prev r = .error e' := by
  intro ps
  induction ps with
  | nil => intro _ _ h; cases h
  | cons q ps ih =>
    intro prev r hmem
    rcases List.mem_cons.1 hmem with rfl | hmem
    · refine ⟨e, ?_⟩
      have hc : featureColumn rng std distr p.1 discrete continuous size useProb true values prev r = .error e := by
        unfold featureColumn
        rw [if_neg hpd, if_pos hpc, if_pos rfl, he]; rfl
      simp only [featureLoop, hv, hc, py_bind_ok]
      rfl
    · cases h1 : column X q.2 with
      | error e1 => exact ⟨e1, by simp only [featureLoop, h1]; rfl⟩
      | ok vals =>
        cases h2 : featureColumn rng std distr q.1 discrete continuous size useProb true vals prev r with
        | error e1 => exact ⟨e1, by simp only [featureLoop, h1, h2, py_bind_ok]; rfl⟩
        | ok vr =>
          obtain ⟨v, r1⟩ := vr
          obtain ⟨e', h3⟩ := ih (some v) r1 hmem
          exact ⟨e', by simp only [featureLoop, h1, h2, h3, py_bind_ok]; rfl⟩

/-- C126 is false of the callers: with the estimation of distributions `calculate_feature_values` raises an exception for every table in
which a continuous column (with three rows or more) has one value in more than three quarters of the rows, whatever the random draws and the
fits. -/
theorem C126_feature_values_false {R : Type} (rng : GPRng R K) (std : List K → K) (cbrt : Nat → K) (default : D × P)
    (fits : List K → Int → List (D × Option (P × K))) (ppf : D → P → K → K) (X : List (List K)) (columns : List String)
    (className : String) (discrete continuous : List String) (size : Nat) (useProb : Bool) (r : R) (c : String) (i : Nat)
    (hi : (columns.erase className)[i]? = some c) (hcd : c ∉ discrete) (hcc : c ∈ continuous) (v : K) (hn : 3 ≤ X.length)
    (hdom : 3 * X.length < 4 * X.countP (fun row => row[i]? = some v)) :
    ∃ e, calculateFeatureValues rng std (getDistrValues cbrt default fits ppf) X columns className discrete continuous size useProb true r =
      .error e := by
  unfold calculateFeatureValues
  cases hrem : pyRemove columns className with
  | error e => exact ⟨e, rfl⟩
  | ok cols =>
    have hcols : cols = columns.erase className := by
      unfold pyRemove at hrem
      split_ifs at hrem
      cases hrem; rfl
    rw [py_bind_ok]
    have hmem : (c, i) ∈ cols.zipIdx := by rw [List.mem_zipIdx_iff_getElem?, hcols]; exact hi
    cases hcol : column X i with
    | error e =>
      have : ∀ (ps : List (String × Nat)) (prev : Option (List K)) (r : R), (c, i) ∈ ps →
          ∃ e', featureLoop rng std (getDistrValues cbrt default fits ppf) X discrete continuous size useProb true ps prev r = .error e' := by
        intro ps
        induction ps with
        | nil => intro _ _ h; cases h
        | cons q ps ih =>
          intro prev r hm
          rcases List.mem_cons.1 hm with h | hm
          · subst h
            exact ⟨e, by simp only [featureLoop, hcol]; rfl⟩
          · cases h1 : column X q.2 with
            | error e1 => exact ⟨e1, by simp only [featureLoop, h1]; rfl⟩
            | ok vals =>
              cases h2 : featureColumn rng std (getDistrValues cbrt default fits ppf) q.1 discrete continuous size useProb true vals prev r with
              | error e1 => exact ⟨e1, by simp only [featureLoop, h1, h2, py_bind_ok]; rfl⟩
              | ok vr =>
                obtain ⟨v, r1⟩ := vr
                obtain ⟨e', h3⟩ := ih (some v) r1 hm
                exact ⟨e', by simp only [featureLoop, h1, h2, h3, py_bind_ok]; rfl⟩
      exact this _ _ _ hmem
    | ok values =>
      have hf := (column_eq_ok_iff X i values).1 hcol
      have hlen : X.length = values.length := hf.length_eq
      have hcount : X.countP (fun row => row[i]? = some v) = values.count v := by
        clear hcol hlen hdom hn
        induction hf with
        | nil => rfl
        | cons hab _ ih =>
          rw [List.countP_cons, List.count_cons, ih, hab]
          simp
      rw [hlen, hcount] at hdom
      rw [hlen] at hn
      have hd := C125_dominated_false cbrt values v hn hdom
      obtain ⟨e, he⟩ : ∃ e, estimateNbrBins cbrt values = .error e := by
        by_cases hall : ∀ y ∈ values, y = v
        · exact ⟨_, hd.1 hall⟩
        · push Not at hall
          exact ⟨_, hd.2 hall⟩
      exact featureLoop_fails rng std _ X discrete continuous size useProb (c, i) hcd hcc values hcol e
        ((C126_distr_values cbrt default fits ppf values size).1 e he) _ _ _ hmem

end

example : estimateNbrBins (fun _ => (2 : ℚ)) [5, 1, 2, 3, 4, 9, 7, 8] = .ok 4 ∧
    npPercentile 25 [5, 1, 2, 3, 4, 9, 7, (8 : ℚ)] < npPercentile 75 [5, 1, 2, 3, 4, 9, 7, (8 : ℚ)] := by decide +kernel
example : estimateNbrBins (fun _ => (2 : ℚ)) [0, 0, 0, 0, 1] = .error .overflowError ∧
    3 * [0, 0, 0, 0, (1 : ℚ)].length < 4 * [0, 0, 0, 0, (1 : ℚ)].count 0 := by decide +kernel
example : getDistrValues (D := String) (P := Nat) (fun _ => (2 : ℚ)) ("norm", 0) (fun _ _ => [("uniform", some (3, 2)), ("beta", none)])
    (fun _ _ q => 100 * q) [5, 1, 2] 3 = .ok [1, 50, 99] := by decide +kernel
example : calculateFeatureValues exRng (fun _ => 1) (getDistrValues (D := String) (P := Nat) (fun _ => (2 : ℚ)) ("norm", 0)
    (fun _ _ => [("uniform", some (3, 2))]) (fun _ _ q => 100 * q)) [[1, 0], [3, 0], [1, 0], [1, 0], [2, 7]] ["cls", "a", "capital-gain"] "cls"
    ["a"] ["capital-gain"] 2 false true 0 = .error .overflowError := by decide +kernel

end

end Teacher
