import Verif.Props.ID3Fit
import Mathlib.Analysis.SpecialFunctions.Log.NegMulLog
import Mathlib.Analysis.SpecialFunctions.Log.Base
import Mathlib.Analysis.Convex.Jensen

/-! # ID3: the gain is the information gain (C105) -/

namespace Teacher
set_option linter.unusedSectionVars false

namespace Spec
variable {V C : Type} [DecidableEq V] [DecidableEq C]

/-- `scipy.stats.entropy(pk, base=2)`: Shannon entropy in bits of the numbers `pk`, scaled to sum 1. -/
noncomputable def scipyEntropy2 (pk : List ℝ) : ℝ := (pk.map (fun p => Real.negMulLog (p / pk.sum))).sum / Real.log 2

/-- Shannon entropy in bits of the distribution of the labels. -/
noncomputable def labelEntropy (y : List C) : ℝ :=
  (y.dedup.map (fun c => - ((y.count c : ℝ) / y.length * Real.logb 2 ((y.count c : ℝ) / y.length)))).sum

/-- the labels of the examples with value `s`. -/
def labelsWith (col : List V) (y : List C) (s : V) : List C := ((col.zip y).filter (fun p => p.1 = s)).map Prod.snd

/-- information gain: entropy of the labels minus the mean, over the values of the attribute, of the entropy of the labels of the
examples with that value. -/
noncomputable def infoGain (col : List V) (y : List C) (values : List V) : ℝ :=
  labelEntropy y - (values.map (fun s => ((labelsWith col y s).length : ℝ) / y.length * labelEntropy (labelsWith col y s))).sum

end Spec

variable {V C : Type} [DecidableEq V] [DecidableEq C]

theorem count_sum_div {y classes : List C} (hn : classes.Nodup) (h : ∀ c ∈ y, c ∈ classes) :
    (classes.map (fun c => (y.count c : ℝ) / (y.length : ℝ))).sum = if y = [] then 0 else 1 := by
  have h1 : (classes.map (fun c => y.count c)).sum = y.length := by
    have : ∀ (z : List C), (∀ c ∈ z, c ∈ classes) → (classes.map (fun c => z.count c)).sum = z.length := by
      intro z
      induction z with
      | nil => simp
      | cons a z ih =>
        intro hz
        have hz' := ih (fun c hc => hz c (by simp [hc]))
        have e : ∀ c, (a :: z).count c = z.count c + if a = c then 1 else 0 := by
          intro c; rw [List.count_cons]; simp [beq_iff_eq]
        simp only [e, List.sum_map_add, hz', List.length_cons]
        congr 1
        have ha := hz a (by simp)
        clear hz hz' ih e h
        induction classes with
        | nil => cases ha
        | cons b l ih =>
          rw [List.nodup_cons] at hn
          rw [List.map_cons, List.sum_cons]
          by_cases hab : a = b
          · subst hab
            have : (l.map (fun c => if a = c then 1 else 0)).sum = 0 := by
              apply List.sum_eq_zero
              intro x hx
              obtain ⟨c, hc, rfl⟩ := List.mem_map.1 hx
              rw [if_neg]
              rintro rfl
              exact hn.1 hc
            simp [this]
          · simp only [hab, if_false, Nat.zero_add]
            exact ih hn.2 (by simpa [hab] using ha)
    exact this y h
  have h2 : (classes.map (fun c => (y.count c : ℝ) / (y.length : ℝ))).sum = ((classes.map (fun c => y.count c)).sum : ℝ) / y.length := by
    clear h1 h hn
    induction classes with
    | nil => simp
    | cons c l ih => simp only [List.map_cons, List.sum_cons, ih, Nat.cast_add, add_div]
  rw [h2, h1]
  by_cases hy : y = []
  · simp [hy]
  · rw [if_neg hy, div_self]
    have := List.length_pos_of_ne_nil hy
    exact_mod_cast this.ne'

/-- entropy as a sum over any list of classes that contains the labels. -/
theorem labelEntropy_eq {y classes : List C} (hn : classes.Nodup) (h : ∀ c ∈ y, c ∈ classes) :
    Spec.labelEntropy y = (classes.map (fun c => Real.negMulLog ((y.count c : ℝ) / y.length))).sum / Real.log 2 := by
  have e1 : Spec.labelEntropy y = ∑ c ∈ y.toFinset, Real.negMulLog ((y.count c : ℝ) / y.length) / Real.log 2 := by
    unfold Spec.labelEntropy
    rw [← List.sum_toFinset _ (List.nodup_dedup y)]
    apply Finset.sum_congr (by ext; simp)
    intro c _
    unfold Real.negMulLog Real.logb
    ring
  rw [e1, ← List.sum_toFinset _ hn, Finset.sum_div]
  apply Finset.sum_subset
  · intro c hc
    rw [List.mem_toFinset] at hc ⊢
    exact h c hc
  · intro c _ hc
    rw [List.mem_toFinset] at hc
    rw [List.count_eq_zero_of_not_mem hc]
    simp

theorem freqEntropy_eq {y classes : List C} (hn : classes.Nodup) (h : ∀ c ∈ y, c ∈ classes) :
    freqEntropy Spec.scipyEntropy2 classes y = Spec.labelEntropy y := by
  unfold freqEntropy Spec.scipyEntropy2
  rw [count_sum_div hn h, labelEntropy_eq hn h, List.map_map]
  by_cases hy : y = []
  · subst hy; simp [Function.comp_def]
  · simp [hy, Function.comp_def]

/-- **C105**: with `scipy.stats.entropy(·, base=2)` the gain that ID3 compares is the information gain of the attribute. -/
theorem C105_gain_is_info_gain (ordC : List C → List C) (hC : Spec.IsSetListing ordC) (col : List V) (y : List C) (splits : List V) :
    id3Gain Spec.scipyEntropy2 ordC col y splits = Spec.infoGain col y splits := by
  have hn : (ordC y).Nodup := (hC _).nodup_iff.2 (List.nodup_dedup y)
  have hm : ∀ c ∈ y, c ∈ ordC y := fun c hc => (hC _).mem_iff.2 (List.mem_dedup.2 hc)
  have hsub : ∀ s, ∀ c ∈ Spec.labelsWith col y s, c ∈ ordC y := by
    intro s c hc
    unfold Spec.labelsWith at hc
    obtain ⟨p, hp, rfl⟩ := List.mem_map.1 hc
    exact hm _ (List.of_mem_zip (List.mem_filter.1 hp).1).2
  unfold id3Gain Spec.infoGain
  simp only
  rw [freqEntropy_eq hn hm]
  congr 1
  have : ∀ (l : List V), ((((l.map (fun s => ((col.zip y).filter (fun p => p.1 = s)).map Prod.snd)).filter (fun q => q ≠ [])).map
      (fun q => (q.length : ℝ) * freqEntropy Spec.scipyEntropy2 (ordC y) q / (y.length : ℝ))).sum) =
      (l.map (fun s => ((Spec.labelsWith col y s).length : ℝ) / y.length * Spec.labelEntropy (Spec.labelsWith col y s))).sum := by
    intro l
    induction l with
    | nil => simp
    | cons s l ih =>
      rw [List.map_cons, List.map_cons, List.sum_cons, ← ih]
      have hs : ((col.zip y).filter (fun p => p.1 = s)).map Prod.snd = Spec.labelsWith col y s := rfl
      rw [hs]
      by_cases hq : Spec.labelsWith col y s = []
      · rw [hq, List.filter_cons]
        simp
      · rw [List.filter_cons, if_pos (by simpa using hq), List.map_cons, List.sum_cons, freqEntropy_eq hn (hsub s)]
        congr 1
        ring
  exact this splits

theorem labelEntropy_nonneg (y : List C) : 0 ≤ Spec.labelEntropy y := by
  rw [labelEntropy_eq (List.nodup_dedup y) (fun c hc => List.mem_dedup.2 hc)]
  apply div_nonneg
  · apply List.sum_nonneg
    intro x hx
    obtain ⟨c, -, rfl⟩ := List.mem_map.1 hx
    apply Real.negMulLog_nonneg (by positivity)
    apply div_le_one_of_le₀ _ (by positivity)
    exact_mod_cast List.count_le_length
  · exact Real.log_nonneg (by norm_num)

theorem sum_countP_labelsWith {col : List V} {y : List C} {splits : List V} (h : ∀ v ∈ col, v ∈ splits)
    (hlen : col.length = y.length) (q : C → Bool) :
    ∑ s ∈ splits.toFinset, (Spec.labelsWith col y s).countP q = y.countP q := by
  induction col generalizing y with
  | nil =>
    have : y = [] := by simpa using hlen.symm
    subst this
    simp [Spec.labelsWith]
  | cons v col ih =>
    match y, hlen with
    | c :: y, hlen =>
      have e : ∀ s, (Spec.labelsWith (v :: col) (c :: y) s).countP q =
          (Spec.labelsWith col y s).countP q + if v = s then (if q c then 1 else 0) else 0 := by
        intro s
        unfold Spec.labelsWith
        rw [List.zip_cons_cons, List.filter_cons]
        by_cases hv : v = s
        · simp [hv, List.countP_cons]
        · simp [hv]
      simp only [e, Finset.sum_add_distrib, ih (fun v' hv' => h v' (by simp [hv'])) (by simpa using hlen)]
      rw [Finset.sum_ite_eq, if_pos (by rw [List.mem_toFinset]; exact h v (by simp)), List.countP_cons]

/-- **C105**: the information gain is between 0 and the entropy of the labels. -/
theorem C105_info_gain_bounds (col : List V) (y : List C) (splits : List V) (hn : splits.Nodup) (h : ∀ v ∈ col, v ∈ splits)
    (hlen : col.length = y.length) (hy : y ≠ []) :
    0 ≤ Spec.infoGain col y splits ∧ Spec.infoGain col y splits ≤ Spec.labelEntropy y := by
  have hpos : (0 : ℝ) < y.length := by exact_mod_cast List.length_pos_of_ne_nil hy
  constructor
  · unfold Spec.infoGain
    rw [sub_nonneg, ← List.sum_toFinset _ hn]
    have hd := List.nodup_dedup y
    have hmem : ∀ c ∈ y, c ∈ y.dedup := fun c hc => List.mem_dedup.2 hc
    have hsub : ∀ s, ∀ c ∈ Spec.labelsWith col y s, c ∈ y.dedup := by
      intro s c hc
      unfold Spec.labelsWith at hc
      obtain ⟨p, hp, rfl⟩ := List.mem_map.1 hc
      exact hmem _ (List.of_mem_zip (List.mem_filter.1 hp).1).2
    rw [labelEntropy_eq hd hmem, ← List.sum_toFinset _ hd]
    have e1 : ∀ s ∈ splits.toFinset, ((Spec.labelsWith col y s).length : ℝ) / y.length * Spec.labelEntropy (Spec.labelsWith col y s) =
        (∑ c ∈ y.dedup.toFinset, ((Spec.labelsWith col y s).length : ℝ) / y.length *
          Real.negMulLog (((Spec.labelsWith col y s).count c : ℝ) / (Spec.labelsWith col y s).length)) / Real.log 2 := by
      intro s _
      rw [labelEntropy_eq hd (hsub s), ← List.sum_toFinset _ hd, ← Finset.mul_sum, mul_div_assoc]
    rw [Finset.sum_congr rfl e1, ← Finset.sum_div, Finset.sum_comm]
    apply div_le_div_of_nonneg_right _ (Real.log_nonneg (by norm_num))
    apply Finset.sum_le_sum
    intro c _
    have hJ := Real.concaveOn_negMulLog.le_map_sum (t := splits.toFinset)
      (w := fun s => ((Spec.labelsWith col y s).length : ℝ) / y.length)
      (p := fun s => ((Spec.labelsWith col y s).count c : ℝ) / (Spec.labelsWith col y s).length)
      (fun s _ => by positivity) (by
        rw [← Finset.sum_div, div_eq_one_iff_eq hpos.ne']
        have := sum_countP_labelsWith h hlen (fun _ => true)
        simp only [List.countP_true] at this
        exact_mod_cast this)
      (fun s _ => by
        show (0 : ℝ) ≤ _
        positivity)
    simp only [smul_eq_mul] at hJ
    refine le_trans hJ (le_of_eq ?_)
    congr 1
    have hc := sum_countP_labelsWith h hlen (fun a => a == c)
    have : ∀ s ∈ splits.toFinset, ((Spec.labelsWith col y s).length : ℝ) / y.length *
        (((Spec.labelsWith col y s).count c : ℝ) / (Spec.labelsWith col y s).length) =
        ((Spec.labelsWith col y s).count c : ℝ) / y.length := by
      intro s _
      by_cases hq : (Spec.labelsWith col y s) = []
      · rw [hq]; simp
      · have : ((Spec.labelsWith col y s).length : ℝ) ≠ 0 := by
          have := List.length_pos_of_ne_nil hq
          exact_mod_cast this.ne'
        field_simp
    rw [Finset.sum_congr rfl this, ← Finset.sum_div]
    congr 1
    exact_mod_cast hc
  · unfold Spec.infoGain
    rw [sub_le_self_iff]
    apply List.sum_nonneg
    intro x hx
    obtain ⟨s, -, rfl⟩ := List.mem_map.1 hx
    exact mul_nonneg (by positivity) (labelEntropy_nonneg _)

/-- **C105**: with the gain of the code, the hypothesis `GainOk` of the theorems about ID3 holds. -/
theorem C105_gain_ok (ordC : List C → List C) (hC : Spec.IsSetListing ordC) :
    Spec.GainOk (id3Gain Spec.scipyEntropy2 ordC : List V → List C → List V → ℝ) := by
  intro col y splits hn h hlen hy
  rw [C105_gain_is_info_gain ordC hC]
  have := (C105_info_gain_bounds col y splits hn h hlen hy).1
  linarith

/-- an attribute that separates two classes has gain 1, one with a single value gain 0. -/
example : Spec.infoGain [0, 0, 1, 1] ["n", "n", "y", "y"] [0, 1] = 1 ∧ Spec.infoGain [0, 0, 0, 0] ["n", "n", "y", "y"] [0] = 0 := by
  have h1 : Real.logb 2 (1 / 2) = -1 := by
    rw [one_div, Real.logb_inv, Real.logb_self_eq_one (by norm_num)]
  have d1 : List.dedup ["n", "n", "y", "y"] = ["n", "y"] := by decide
  have c1 : List.count "n" ["n", "n", "y", "y"] = 2 ∧ List.count "y" ["n", "n", "y", "y"] = 2 := by decide
  have e1 : Spec.labelEntropy ["n", "n", "y", "y"] = 1 := by
    unfold Spec.labelEntropy
    rw [d1]
    norm_num [c1, h1]
  have e2 : ∀ s : String, Spec.labelEntropy [s, s] = 0 := by
    intro s
    unfold Spec.labelEntropy
    have : List.dedup [s, s] = [s] := by simp [List.dedup, List.pwFilter]
    rw [this]
    norm_num [List.count_cons]
  constructor
  · unfold Spec.infoGain
    have l0 : Spec.labelsWith [0, 0, 1, 1] ["n", "n", "y", "y"] 0 = ["n", "n"] := by decide
    have l1 : Spec.labelsWith [0, 0, 1, 1] ["n", "n", "y", "y"] 1 = ["y", "y"] := by decide
    norm_num [l0, l1, e1, e2]
  · unfold Spec.infoGain
    have l0 : Spec.labelsWith [0, 0, 0, 0] ["n", "n", "y", "y"] 0 = ["n", "n", "y", "y"] := by decide
    norm_num [l0, e1]

end Teacher
