import Verif.Lemmas.Metrics
import Verif.Lemmas.Rule
import Mathlib.Data.List.Induction
import Mathlib.Tactic.Linarith
import Mathlib.Tactic.FieldSimp

/-!
# C62–C69: metrics of rules and of counterfactuals
-/

set_option linter.unusedSectionVars false

namespace Teacher
open Spec

section
variable {C K : Type} [Field K] [LinearOrder K] [IsStrictOrderedRing K]

/-! ### C62 -/

theorem ratio_mem {a n : Nat} (h : a ≤ n) : (0 : K) ≤ (a : K) / (n : K) ∧ (a : K) / (n : K) ≤ 1 := by
  refine ⟨div_nonneg (Nat.cast_nonneg _) (Nat.cast_nonneg _), ?_⟩
  exact div_le_one_of_le₀ (by exact_mod_cast h) (Nat.cast_nonneg _)

/-- C62 (the formula): coverage is the fraction of the instances that satisfy every condition of every rule above the
threshold, and it is in [0,1]. -/
theorem C62_coverage_value {ds : FuzzyDS K} {n : Nat} {μ : String → String → Nat → K} (h : Represents ds n μ) (hn : n ≠ 0)
    (rules : List (Rule String C K)) (hne : rules ≠ []) (hk : KnowsRules ds rules) (th : K) :
    coverage rules ds th = .ok (((coveredByAll rules μ th n).length : K) / (n : K)) ∧
      0 ≤ ((coveredByAll rules μ th n).length : K) / (n : K) ∧ ((coveredByAll rules μ th n).length : K) / (n : K) ≤ 1 := by
  have hle : (coveredByAll rules μ th n).length ≤ n := by
    unfold coveredByAll
    exact (List.length_filter_le _ _).trans (by simp)
  refine ⟨?_, ratio_mem hle⟩
  unfold coverage
  rw [fuzzyCoverage_ok h rules hne hk]
  simp only [py_bind_ok, npCount_map]
  unfold npDiv
  rw [if_neg (by exact_mod_cast hn)]
  rfl

/-- C62: the coverage does not grow when the threshold grows. -/
theorem C62_antitone {ds : FuzzyDS K} {n : Nat} {μ : String → String → Nat → K} (h : Represents ds n μ) (hn : n ≠ 0)
    (rules : List (Rule String C K)) (hne : rules ≠ []) (hk : KnowsRules ds rules) (th th' : K) (hth : th ≤ th') (c c' : K)
    (hc : coverage rules ds th = .ok c) (hc' : coverage rules ds th' = .ok c') : c' ≤ c := by
  rw [(C62_coverage_value h hn rules hne hk th).1] at hc
  rw [(C62_coverage_value h hn rules hne hk th').1] at hc'
  cases hc; cases hc'
  apply div_le_div_of_nonneg_right _ (Nat.cast_nonneg _)
  rw [Nat.cast_le]
  unfold coveredByAll
  apply List.Sublist.length_le
  apply List.monotone_filter_right
  intro i hi
  simp only [decide_eq_true_eq] at hi ⊢
  exact ⟨lt_of_le_of_lt hth hi.1, fun r hr p hp => lt_of_le_of_lt hth (hi.2 r hr p hp)⟩

/-- C62: adding a rule to a non-empty list never increases the coverage. -/
theorem C62_more_rules {ds : FuzzyDS K} {n : Nat} {μ : String → String → Nat → K} (h : Represents ds n μ) (hn : n ≠ 0)
    (rules rules' : List (Rule String C K)) (hne : rules ≠ []) (hsub : ∀ r ∈ rules, r ∈ rules') (hk : KnowsRules ds rules')
    (th : K) (c c' : K) (hc : coverage rules ds th = .ok c) (hc' : coverage rules' ds th = .ok c') : c' ≤ c := by
  have hne' : rules' ≠ [] := by
    obtain ⟨r, hr⟩ := List.exists_mem_of_ne_nil _ hne
    exact List.ne_nil_of_mem (hsub r hr)
  rw [(C62_coverage_value h hn rules hne (fun r hr => hk r (hsub r hr)) th).1] at hc
  rw [(C62_coverage_value h hn rules' hne' hk th).1] at hc'
  cases hc; cases hc'
  apply div_le_div_of_nonneg_right _ (Nat.cast_nonneg _)
  rw [Nat.cast_le]
  unfold coveredByAll
  apply List.Sublist.length_le
  apply List.monotone_filter_right
  intro i hi
  simp only [decide_eq_true_eq] at hi ⊢
  exact ⟨hi.1, fun r hr p hp => hi.2 r (hsub r hr) p hp⟩

/-- C62: no rules, `IndexError`. -/
theorem C62_no_rules (ds : FuzzyDS K) (th : K) : coverage ([] : List (Rule String C K)) ds th = .error .indexError := rfl

/-- C62: with one rule whose conditions are not empty, the covered instances are those that `Rule.matching` matches above the
threshold (for a threshold below 1). -/
theorem C62_single_matching (r : Rule String C K) (hne : r.antecedent ≠ []) (μ : String → String → Nat → K) (th : K) (n : Nat)
    (hth : th < 1) (inst : Nat → Inst K) (hinst : ∀ i < n, ∀ p ∈ r.antecedent, HasDegree (inst i) p.1 p.2 (μ p.1 p.2 i)) :
    coveredByAll [r] μ th n = (List.range n).filter (fun i => match r.matching (inst i) with
      | .ok m => decide (th < m)
      | .error _ => false) := by
  unfold coveredByAll
  apply List.filter_congr
  intro i hi
  rw [List.mem_range] at hi
  have hforall : List.Forall₂ (fun p x => HasDegree (inst i) p.1 p.2 x) r.antecedent
      (r.antecedent.map (fun p => μ p.1 p.2 i)) := by
    have hh := hinst i hi
    revert hh
    generalize r.antecedent = l
    intro hh
    induction l with
    | nil => exact List.Forall₂.nil
    | cons a l ih => exact List.Forall₂.cons (hh a (by simp)) (ih (fun p hp => hh p (by simp [hp])))
  rw [matching_of_known r (inst i) _ hforall]
  cases hl : r.antecedent with
  | nil => exact absurd hl hne
  | cons a l =>
    simp only [List.map_cons, pyMin]
    have hmin : ∀ (l : List (String × String)) (x : K),
        th < (l.map (fun p => μ p.1 p.2 i)).foldl min x ↔ th < x ∧ ∀ p ∈ l, th < μ p.1 p.2 i := by
      intro l
      induction l with
      | nil => simp
      | cons b l ih =>
        intro x
        rw [List.map_cons, List.foldl_cons, ih, lt_min_iff]
        simp only [List.mem_cons, forall_eq_or_imp]
        tauto
    rw [decide_eq_decide, hmin l]
    simp only [List.forall_mem_singleton, hth, true_and, hl, List.forall_mem_cons]

end

section C62ex

private def exDS : FuzzyDS ℚ := [("age", [("young", [1, 0, 1/2]), ("old", [0, 1, 1/2])])]
private def exMu : String → String → Nat → ℚ := fun _ v i =>
  if v = "young" then ([1, 0, 1/2] : List ℚ).getD i 0 else ([0, 1, 1/2] : List ℚ).getD i 0
private def rY : Rule String Nat ℚ := { antecedent := [("age", "young")], consequent := 0, weight := 1 }
private def rO : Rule String Nat ℚ := { antecedent := [("age", "old")], consequent := 0, weight := 1 }

private theorem exDS_rep : Represents exDS 3 exMu := by
  refine ⟨by decide, by decide, ?_⟩
  intro f d v col h1 h2
  have hd : d = [("young", [1, 0, 1/2]), ("old", [0, 1, 1/2])] := by
    simp only [exDS, Dict.get?_cons, Dict.get?_nil] at h1
    split at h1
    · exact (Option.some.inj h1).symm
    · exact absurd h1 (by simp)
  subst hd
  simp only [Dict.get?_cons, Dict.get?_nil] at h2
  split at h2
  · rename_i h; subst h; rw [← Option.some.inj h2]; show _ = List.map (exMu "" _) _; decide +kernel
  · split at h2
    · rename_i h; subst h; rw [← Option.some.inj h2]; show _ = List.map (exMu "" _) _; decide +kernel
    · exact absurd h2 (by simp)

private theorem exDS_knows : KnowsRules exDS [rY, rO] := by
  intro r hr p hp
  simp only [List.mem_cons, List.not_mem_nil, or_false] at hr
  rcases hr with rfl | rfl <;> (simp only [rY, rO, List.mem_singleton] at hp; subst hp; exact ⟨_, _, rfl, rfl⟩)

/-- the coverage of the two rules is 1/3: only the third instance is matched by both. -/
example : coverage [rY, rO] exDS (1/1000) = .ok (1/3) := by decide +kernel
example : coveredByAll [rY, rO] exMu (1/1000) 3 = [2] := by decide +kernel
example : Represents exDS 3 exMu ∧ KnowsRules exDS [rY, rO] := ⟨exDS_rep, exDS_knows⟩

/-- C62 fails for the documented meaning ("if a rule matches an instance above a threshold it is considered covered"): every
instance is matched by one of the two rules, and the coverage is 1/3. -/
theorem C62_any_rule_false :
    ∃ (ds : FuzzyDS ℚ) (n : Nat) (μ : String → String → Nat → ℚ) (rules : List (Rule String Nat ℚ)) (th : ℚ),
      Represents ds n μ ∧ n ≠ 0 ∧ rules ≠ [] ∧ KnowsRules ds rules ∧
      coverage rules ds th ≠ .ok (((coveredBySome rules μ th n).length : ℚ) / (n : ℚ)) :=
  ⟨exDS, 3, exMu, [rY, rO], 1/1000, exDS_rep, by decide, by decide, exDS_knows, by decide +kernel⟩

end C62ex

section
variable {C K : Type} [Field K] [LinearOrder K] [IsStrictOrderedRing K]

/-- C62 (the documented meaning), for one rule: then the code computes it. Missing: several rules, where the code counts the
instances covered by all of them (see `C62_any_rule_false`). -/
theorem C62_any_rule_partial {ds : FuzzyDS K} {n : Nat} {μ : String → String → Nat → K} (h : Represents ds n μ) (hn : n ≠ 0)
    (r : Rule String C K) (hk : KnowsRules ds [r]) (th : K) :
    coverage [r] ds th = .ok (((coveredBySome [r] μ th n).length : K) / (n : K)) := by
  rw [(C62_coverage_value h hn [r] (by simp) hk th).1]
  unfold coveredBySome coveredByAll
  congr 5
  funext i
  rw [decide_eq_decide]
  simp only [List.mem_singleton, exists_eq_left, forall_eq]

/-! ### C63 -/

theorem precision_count [DecidableEq C] (y : List C) (c : C) (n : Nat) (hy : y.length = n) :
    y.map (fun v => decide (v = c)) = (List.range n).map (fun i => decide (y[i]? = some c)) := by
  apply List.ext_getElem
  · simp [hy]
  · intro i h1 h2
    simp only [List.getElem_map, List.getElem_range]
    rw [List.getElem?_eq_getElem (by simpa using h1)]
    simp

/-- C63: the precision of rules with consequent `c` that cover something is
(covered instances of class `c`) / (covered instances); it is in [0,1]. -/
theorem C63_precision_value [DecidableEq C] {ds : FuzzyDS K} {n : Nat} {μ : String → String → Nat → K}
    (h : Represents ds n μ) (r : Rule String C K) (rest : List (Rule String C K)) (hk : KnowsRules ds (r :: rest)) (y : List C)
    (hy : y.length = n) (th : K) (hcov : coveredByAll (r :: rest) μ th n ≠ []) :
    precision (r :: rest) ds y th = .ok
      ((((coveredByAll (r :: rest) μ th n).filter (fun i => y[i]? = some r.consequent)).length : K) /
        ((coveredByAll (r :: rest) μ th n).length : K)) ∧
      0 ≤ (((coveredByAll (r :: rest) μ th n).filter (fun i => y[i]? = some r.consequent)).length : K) /
        ((coveredByAll (r :: rest) μ th n).length : K) ∧
      (((coveredByAll (r :: rest) μ th n).filter (fun i => y[i]? = some r.consequent)).length : K) /
        ((coveredByAll (r :: rest) μ th n).length : K) ≤ 1 := by
  refine ⟨?_, ratio_mem (List.length_filter_le _ _)⟩
  unfold precision
  rw [fuzzyCoverage_ok h (r :: rest) (by simp) hk]
  simp only [py_bind_ok, headConsequent, precision_count y r.consequent n hy, npZip_map, npCount_map]
  unfold npDiv
  rw [if_neg]
  · congr 3
    unfold coveredByAll
    rw [List.filter_filter]
    congr 1
    apply List.filter_congr
    intro i _
    rw [Bool.and_comm]
  · rw [Nat.cast_eq_zero, List.length_eq_zero_iff]
    exact hcov

/-- C63: precision times coverage is the fraction of the instances that are covered and have the class of the rules. -/
theorem C63_precision_times_coverage [DecidableEq C] {ds : FuzzyDS K} {n : Nat} {μ : String → String → Nat → K}
    (h : Represents ds n μ) (r : Rule String C K) (rest : List (Rule String C K)) (hk : KnowsRules ds (r :: rest)) (y : List C)
    (hy : y.length = n) (th p c : K) (hp : precision (r :: rest) ds y th = .ok p) (hc : coverage (r :: rest) ds th = .ok c)
    (hcov : coveredByAll (r :: rest) μ th n ≠ []) :
    p * c = (((coveredByAll (r :: rest) μ th n).filter (fun i => y[i]? = some r.consequent)).length : K) / (n : K) := by
  have hn : n ≠ 0 := by
    intro h0
    apply hcov
    unfold coveredByAll
    rw [h0]; rfl
  rw [(C63_precision_value h r rest hk y hy th hcov).1] at hp
  rw [(C62_coverage_value h hn (r :: rest) (by simp) hk th).1] at hc
  cases hp; cases hc
  have h1 : ((coveredByAll (r :: rest) μ th n).length : K) ≠ 0 := by
    rw [Ne, Nat.cast_eq_zero, List.length_eq_zero_iff]; exact hcov
  have h2 : (n : K) ≠ 0 := by exact_mod_cast hn
  field_simp

/-- C63: when nothing is covered the result is not a number. -/
theorem C63_nothing_covered [DecidableEq C] {ds : FuzzyDS K} {n : Nat} {μ : String → String → Nat → K}
    (h : Represents ds n μ) (r : Rule String C K) (rest : List (Rule String C K)) (hk : KnowsRules ds (r :: rest)) (y : List C)
    (hy : y.length = n) (th : K) (hcov : coveredByAll (r :: rest) μ th n = []) :
    precision (r :: rest) ds y th = .error .nan := by
  unfold precision
  rw [fuzzyCoverage_ok h (r :: rest) (by simp) hk]
  simp only [py_bind_ok, headConsequent, precision_count y r.consequent n hy, npZip_map, npCount_map]
  unfold npDiv
  rw [if_pos]
  rw [Nat.cast_eq_zero, List.length_eq_zero_iff]
  exact hcov

/-! ### C64 -/

theorem zip_count [DecidableEq C] (y z : List C) (h : y.length = z.length) :
    List.zipWith (fun a b => decide (a = b)) y z = (List.range y.length).map (fun i => decide (y[i]? = z[i]?)) := by
  apply List.ext_getElem
  · simp [h]
  · intro i h1 h2
    simp only [List.getElem_map, List.getElem_range, List.getElem_zipWith]
    have hi : i < y.length := by simpa using h2
    rw [List.getElem?_eq_getElem hi, List.getElem?_eq_getElem (by omega)]
    simp

/-- C64: fidelity is the fraction of the positions where the two prediction vectors agree. -/
theorem C64_fidelity_value [DecidableEq C] (y z : List C) (h : y.length = z.length) (hne : y ≠ []) :
    fidelity (K := K) y z = .ok
      ((((List.range y.length).filter (fun i => y[i]? = z[i]?)).length : K) / (y.length : K)) := by
  unfold fidelity npZip
  rw [if_pos h, zip_count y z h]
  simp only [py_bind_ok, npCount_map]
  unfold npDiv
  rw [if_neg]
  rw [Nat.cast_eq_zero, List.length_eq_zero_iff]
  exact hne

/-- C64: fidelity is in [0,1], symmetric, and 1 exactly for equal vectors. -/
theorem C64_fidelity_properties [DecidableEq C] (y z : List C) (h : y.length = z.length) (hne : y ≠ []) :
    ∃ f : K, fidelity y z = .ok f ∧ fidelity z y = .ok f ∧ 0 ≤ f ∧ f ≤ 1 ∧ (f = 1 ↔ y = z) := by
  have hz : z ≠ [] := by
    intro h0; rw [h0] at h; exact hne (List.length_eq_zero_iff.1 h)
  refine ⟨_, C64_fidelity_value y z h hne, ?_, ?_, ?_, ?_⟩
  · rw [C64_fidelity_value z y h.symm hz, ← h]
    simp only [eq_comm]
  · exact (ratio_mem ((List.length_filter_le _ _).trans (by simp))).1
  · exact (ratio_mem ((List.length_filter_le _ _).trans (by simp))).2
  · have hpos : (y.length : K) ≠ 0 := by
      rw [Ne, Nat.cast_eq_zero, List.length_eq_zero_iff]; exact hne
    rw [div_eq_one_iff_eq hpos, Nat.cast_inj]
    constructor
    · intro heq
      have hall : ∀ i ∈ List.range y.length, decide (y[i]? = z[i]?) = true := by
        apply List.length_filter_eq_length_iff.1
        rw [heq]; simp
      apply List.ext_getElem? 
      intro i
      by_cases hi : i < y.length
      · simpa using hall i (List.mem_range.2 hi)
      · rw [List.getElem?_eq_none (by omega), List.getElem?_eq_none (by omega)]
    · intro heq
      subst heq
      simp

/-- C64: vectors of different length are rejected. -/
theorem C64_length_mismatch [DecidableEq C] (y z : List C) (h : y.length ≠ z.length) :
    fidelity (K := K) y z = .error .valueError := by
  unfold fidelity npZip
  rw [if_neg h]
  rfl

theorem npMask_map (y : List C) (n : Nat) (hy : y.length = n) (g : Nat → Bool) :
    npMask y ((List.range n).map g) = .ok (((List.range n).filter g).filterMap (fun i => y[i]?)) := by
  unfold npMask
  rw [if_pos (by simp [hy])]
  congr 1
  subst hy
  induction y using List.reverseRecOn with
  | nil => rfl
  | append_singleton y a ih =>
    rw [List.length_append, List.length_singleton, List.range_succ, List.map_append, List.zip_append (by simp),
      List.filter_append, List.map_append, ih, List.filter_append, List.filterMap_append]
    congr 1
    · apply List.filterMap_congr
      intro i hi
      have : i < y.length := by simpa using (List.mem_filter.1 hi).1
      rw [List.getElem?_append_left this]
    · cases hg : g y.length <;> simp [hg]

theorem filterMap_get_len (y : List C) (l : List Nat) (h : ∀ i ∈ l, i < y.length) :
    (l.filterMap (fun i => y[i]?)).length = l.length := by
  induction l with
  | nil => rfl
  | cons a l ih =>
    have := h a (by simp)
    rw [List.filterMap_cons, List.getElem?_eq_getElem this]
    simp [ih (fun i hi => h i (by simp [hi]))]

theorem zip_masked [DecidableEq C] (y z : List C) (l : List Nat) (hy : ∀ i ∈ l, i < y.length) (hz : ∀ i ∈ l, i < z.length) :
    List.zipWith (fun a b => decide (a = b)) (l.filterMap (fun i => y[i]?)) (l.filterMap (fun i => z[i]?)) =
      l.map (fun i => decide (y[i]? = z[i]?)) := by
  induction l with
  | nil => rfl
  | cons a l ih =>
    have h1 := hy a (by simp)
    have h2 := hz a (by simp)
    rw [List.filterMap_cons, List.filterMap_cons, List.getElem?_eq_getElem h1, List.getElem?_eq_getElem h2]
    simp [ih (fun i hi => hy i (by simp [hi])) (fun i hi => hz i (by simp [hi])), List.getElem?_eq_getElem h1,
      List.getElem?_eq_getElem h2]

/-- C64: `rule_fidelity` is the agreement rate on the covered instances, in [0,1]. -/
theorem C64_rule_fidelity_value [DecidableEq C] {ds : FuzzyDS K} {n : Nat} {μ : String → String → Nat → K}
    (h : Represents ds n μ) (rules : List (Rule String C K)) (hne : rules ≠ []) (hk : KnowsRules ds rules) (y z : List C)
    (hy : y.length = n) (hz : z.length = n) (th : K) (hcov : coveredByAll rules μ th n ≠ []) :
    ∃ f : K, ruleFidelity y z ds rules th = .ok f ∧
      f = (((coveredByAll rules μ th n).filter (fun i => y[i]? = z[i]?)).length : K) /
        ((coveredByAll rules μ th n).length : K) ∧ 0 ≤ f ∧ f ≤ 1 := by
  refine ⟨_, ?_, rfl, (ratio_mem (List.length_filter_le _ _)).1, (ratio_mem (List.length_filter_le _ _)).2⟩
  unfold ruleFidelity
  rw [fuzzyCoverage_ok h rules hne hk]
  simp only [py_bind_ok, npMask_map y n hy, npMask_map z n hz]
  have hin : ∀ i ∈ coveredByAll rules μ th n, i < n := fun i hi => by
    simpa using (List.mem_filter.1 hi).1
  unfold npZip
  have e : (List.range n).filter (fun i => decide (th < 1 ∧ ∀ r ∈ rules, ∀ p ∈ r.antecedent, th < μ p.1 p.2 i)) =
      coveredByAll rules μ th n := rfl
  rw [e, if_pos (by rw [filterMap_get_len y _ (by rw [hy]; exact hin), filterMap_get_len z _ (by rw [hz]; exact hin)]),
    zip_masked y z _ (by rw [hy]; exact hin) (by rw [hz]; exact hin)]
  simp only [py_bind_ok, npCount_map, e]
  unfold npDiv
  rw [if_neg]
  rw [Nat.cast_eq_zero, List.length_eq_zero_iff]
  exact hcov

/-- C64: when every instance is covered, `rule_fidelity` is `fidelity`. -/
theorem C64_rule_fidelity_all [DecidableEq C] {ds : FuzzyDS K} {n : Nat} {μ : String → String → Nat → K}
    (h : Represents ds n μ) (rules : List (Rule String C K)) (hne : rules ≠ []) (hk : KnowsRules ds rules) (y z : List C)
    (hy : y.length = n) (hz : z.length = n) (th : K) (hn : n ≠ 0)
    (hall : ∀ i < n, th < 1 ∧ ∀ r ∈ rules, ∀ p ∈ r.antecedent, th < μ p.1 p.2 i) :
    ruleFidelity y z ds rules th = fidelity y z := by
  have hcov : coveredByAll rules μ th n = List.range n := by
    unfold coveredByAll
    apply List.filter_eq_self.2
    intro i hi
    simpa using hall i (List.mem_range.1 hi)
  obtain ⟨f, h1, h2, -⟩ := C64_rule_fidelity_value h rules hne hk y z hy hz th
    (by rw [hcov]; intro h0; exact hn (by simpa using congrArg List.length h0))
  rw [h1, h2, C64_fidelity_value y z (by rw [hy, hz]) (by intro h0; rw [h0] at hy; exact hn hy.symm), hcov, hy]
  simp

example : fidelity (K := ℚ) [1, 2, 2] [1, 2, 3] = .ok (2/3) := by decide +kernel
example : precision [rY] exDS [0, 0, 1] (1/1000 : ℚ) = .ok (1/2) := by decide +kernel
example : ruleFidelity [1, 1, 0] [1, 0, 1] exDS [rY] (1/1000 : ℚ) = .ok (1/2) := by decide +kernel

/-! ### C65 -/

/-- C65: closed form of the `'moth'` distance: mean scaled difference of the continuous columns plus the rate of the other
columns that differ. -/
theorem C65_moth_value {n : Nat} {cont disc : List Nat} {mad : Nat → Option K} {m : Nat → K} (hg : GoodColumns n cont disc mad m)
    {a b : List (Cell K)} (ha : TypedRow cont n a) (hb : TypedRow cont n b) :
    proximity a b cont disc mad = .ok
      ((((List.range n).filter (fun i => i ∈ cont)).map (fun i => |numAt a i - numAt b i| / m i)).sum / (cont.length : K) +
        (((List.range n).filter (fun i => i ∉ cont ∧ a[i]? ≠ b[i]?)).length : K) / (disc.length : K)) :=
  mothDistance_ok hg ha hb

/-- C65: with positive MADs the `'moth'` distance is a metric on the rows of the dataset. -/
theorem C65_moth_metric {n : Nat} {cont disc : List Nat} {mad : Nat → Option K} {m : Nat → K}
    (hg : GoodColumns n cont disc mad m) :
    ∃ d : List (Cell K) → List (Cell K) → K,
      (∀ a b, TypedRow cont n a → TypedRow cont n b → proximity a b cont disc mad = .ok (d a b)) ∧
      (∀ a b, 0 ≤ d a b) ∧ (∀ a b, d a b = d b a) ∧
      (∀ a b, TypedRow cont n a → TypedRow cont n b → (d a b = 0 ↔ a = b)) ∧
      ∀ a b c, d a c ≤ d a b + d b c := by
  have hm : ∀ i ∈ cont, i < n → 0 < m i := fun i hi hn => (hg.1 i hi hn).2
  have hcl : (0 : K) ≤ (cont.length : K) := Nat.cast_nonneg _
  have hdl : (0 : K) ≤ (disc.length : K) := Nat.cast_nonneg _
  refine ⟨fun a b => contSum cont m n a b / (cont.length : K) + (discCount cont n a b : K) / (disc.length : K),
    fun a b ha hb => mothDistance_ok hg ha hb, ?_, ?_, ?_, ?_⟩
  · intro a b
    exact add_nonneg (div_nonneg (contSum_nonneg hm a b) hcl) (div_nonneg (Nat.cast_nonneg _) hdl)
  · intro a b
    have h1 : contSum cont m n a b = contSum cont m n b a := by
      unfold contSum
      simp only [abs_sub_comm]
    have h2 : discCount cont n a b = discCount cont n b a := by
      unfold discCount
      simp only [ne_comm]
    simp only [h1, h2]
  · intro a b ha hb
    constructor
    · intro h0
      have hA := div_nonneg (contSum_nonneg hm a b) hcl
      have hB : (0 : K) ≤ (discCount cont n a b : K) / (disc.length : K) := div_nonneg (Nat.cast_nonneg _) hdl
      have hA0 : contSum cont m n a b / (cont.length : K) = 0 := by linarith
      have hB0 : (discCount cont n a b : K) / (disc.length : K) = 0 := by linarith
      have hcs : contSum cont m n a b = 0 := by
        rcases div_eq_zero_iff.1 hA0 with h | h
        · exact h
        · rw [Nat.cast_eq_zero, List.length_eq_zero_iff] at h
          unfold contSum
          rw [h]; simp
      have hdc : discCount cont n a b = 0 := by
        rcases div_eq_zero_iff.1 hB0 with h | h
        · exact_mod_cast h
        · rw [Nat.cast_eq_zero, List.length_eq_zero_iff] at h
          by_contra hne
          obtain ⟨i, hi⟩ := List.exists_mem_of_ne_nil _ (fun h0 => hne (List.length_eq_zero_iff.2 h0))
          have := List.mem_filter.1 hi
          simp only [List.mem_range, decide_eq_true_eq] at this
          exact hg.2 ⟨i, this.1, this.2.1⟩ h
      apply List.ext_getElem?
      intro i
      by_cases hi : i < n
      · by_cases hc : i ∈ cont
        · obtain ⟨x, hx⟩ := ha.2 i hc hi
          obtain ⟨y, hy⟩ := hb.2 i hc hi
          have hterm : |numAt a i - numAt b i| / m i = 0 := by
            have hnn : ∀ t ∈ (((List.range n).filter (fun i => i ∈ cont)).map (fun i => |numAt a i - numAt b i| / m i)),
                (0 : K) ≤ t := by
              intro t ht
              obtain ⟨j, hj, rfl⟩ := List.mem_map.1 ht
              have := List.mem_filter.1 hj
              simp only [List.mem_range, decide_eq_true_eq] at this
              exact div_nonneg (abs_nonneg _) (le_of_lt (hm j this.2 this.1))
            have hmem : |numAt a i - numAt b i| / m i ∈
                (((List.range n).filter (fun i => i ∈ cont)).map (fun i => |numAt a i - numAt b i| / m i)) :=
              List.mem_map.2 ⟨i, by simp [hi, hc], rfl⟩
            apply le_antisymm _ (hnn _ hmem)
            have := List.single_le_sum hnn _ hmem
            unfold contSum at hcs
            rw [hcs] at this
            exact this
          rcases div_eq_zero_iff.1 hterm with h | h
          · have hxa : numAt a i = x := by unfold numAt; rw [hx]
            have hyb : numAt b i = y := by unfold numAt; rw [hy]
            rw [abs_eq_zero, hxa, hyb, sub_eq_zero] at h
            rw [hx, hy, h]
          · exact absurd h (ne_of_gt (hm i hc hi))
        · by_contra hne
          have hmem : i ∈ (List.range n).filter (fun i => i ∉ cont ∧ a[i]? ≠ b[i]?) := by simp [hi, hc, hne]
          unfold discCount at hdc
          rw [List.length_eq_zero_iff] at hdc
          rw [hdc] at hmem
          simp at hmem
      · rw [List.getElem?_eq_none (by rw [ha.1]; omega), List.getElem?_eq_none (by rw [hb.1]; omega)]
    · intro h
      subst h
      unfold contSum discCount
      simp
  · intro a b c
    have h1 : contSum cont m n a c ≤ contSum cont m n a b + contSum cont m n b c := by
      apply sum_map_le_add
      intro i hi
      have := List.mem_filter.1 hi
      simp only [List.mem_range, decide_eq_true_eq] at this
      rw [← add_div]
      apply div_le_div_of_nonneg_right _ (le_of_lt (hm i this.2 this.1))
      exact abs_sub_le _ _ _
    have h2 : discCount cont n a c ≤ discCount cont n a b + discCount cont n b c := by
      apply filter_length_le_add
      intro i _ hp
      simp only [decide_eq_true_eq] at hp ⊢
      by_cases h : a[i]? = b[i]?
      · right; exact ⟨hp.1, by rw [← h]; exact hp.2⟩
      · left; exact ⟨hp.1, h⟩
    have h1' := div_le_div_of_nonneg_right h1 hcl
    have h2' : (discCount cont n a c : K) / (disc.length : K) ≤
        ((discCount cont n a b : K) + (discCount cont n b c : K)) / (disc.length : K) :=
      div_le_div_of_nonneg_right (by exact_mod_cast h2) hdl
    rw [add_div] at h1' h2'
    linarith

private def exMad : Nat → Option ℚ := fun i => if i = 0 then some 2 else none

example : GoodColumns 2 [0] [1] exMad (fun _ => 2) := by
  refine ⟨?_, fun _ => by simp⟩
  intro i hi _
  simp only [List.mem_singleton] at hi
  subst hi
  exact ⟨rfl, by norm_num⟩
example : TypedRow [0] 2 [Cell.num (3 : ℚ), .str "a"] := by
  refine ⟨rfl, ?_⟩
  intro i hi _
  simp only [List.mem_singleton] at hi
  subst hi
  exact ⟨3, rfl⟩
example : proximity [Cell.num (3 : ℚ), .str "a"] [.num 4, .str "b"] [0] [1] exMad = .ok (3/2) := by decide +kernel

/-! ### C66 -/

theorem closestFold {R : Type} (dist : R → Py K) (d : R → K) (ds : List R) (h : ∀ r ∈ ds, dist r = .ok (d r))
    (s : Option (R × K)) (hs : ∀ p, s = some p → p.2 = d p.1 ∧ 0 < d p.1) :
    ∃ s' : Option (R × K), ds.foldlM (closestStep dist) s = .ok s' ∧
      ((s' = s ∧ (∀ x ∈ ds, 0 < d x → ∃ p, s = some p ∧ d p.1 ≤ d x)) ∨
        ∃ pre r post, ds = pre ++ r :: post ∧ s' = some (r, d r) ∧ 0 < d r ∧ (∀ p, s = some p → d r < d p.1) ∧
          (∀ x ∈ pre, 0 < d x → d r < d x) ∧ ∀ x ∈ post, 0 < d x → d r ≤ d x) := by
  induction ds generalizing s with
  | nil => exact ⟨s, rfl, Or.inl ⟨rfl, by simp⟩⟩
  | cons x ds ih =>
    have hx := h x (by simp)
    have hds : ∀ r ∈ ds, dist r = .ok (d r) := fun r hr => h r (by simp [hr])
    have hkeep : closestStep dist s x = .ok s → (0 < d x → ∃ p, s = some p ∧ d p.1 ≤ d x) →
        ∃ s' : Option (R × K), (x :: ds).foldlM (closestStep dist) s = .ok s' ∧
      ((s' = s ∧ (∀ y ∈ x :: ds, 0 < d y → ∃ p, s = some p ∧ d p.1 ≤ d y)) ∨
        ∃ pre r post, x :: ds = pre ++ r :: post ∧ s' = some (r, d r) ∧ 0 < d r ∧ (∀ p, s = some p → d r < d p.1) ∧
          (∀ y ∈ pre, 0 < d y → d r < d y) ∧ ∀ y ∈ post, 0 < d y → d r ≤ d y) := by
      intro hstep hle
      obtain ⟨s', h1, h2⟩ := ih hds s hs
      refine ⟨s', ?_, ?_⟩
      · rw [List.foldlM_cons, hstep]; exact h1
      · rcases h2 with ⟨e, hall⟩ | ⟨pre, r, post, e, e', hr, hp, hpre, hpost⟩
        · left
          refine ⟨e, ?_⟩
          intro y hy h0
          rcases List.mem_cons.1 hy with rfl | hy
          · exact hle h0
          · exact hall y hy h0
        · right
          refine ⟨x :: pre, r, post, by rw [e]; rfl, e', hr, hp, ?_, hpost⟩
          intro y hy h0
          rcases List.mem_cons.1 hy with rfl | hy
          · obtain ⟨p, hp1, hp2⟩ := hle h0
            exact lt_of_lt_of_le (hp p hp1) hp2
          · exact hpre y hy h0
    have hnew : closestStep dist s x = .ok (some (x, d x)) → 0 < d x → (∀ p, s = some p → d x < d p.1) →
        ∃ s' : Option (R × K), (x :: ds).foldlM (closestStep dist) s = .ok s' ∧
      ((s' = s ∧ (∀ y ∈ x :: ds, 0 < d y → ∃ p, s = some p ∧ d p.1 ≤ d y)) ∨
        ∃ pre r post, x :: ds = pre ++ r :: post ∧ s' = some (r, d r) ∧ 0 < d r ∧ (∀ p, s = some p → d r < d p.1) ∧
          (∀ y ∈ pre, 0 < d y → d r < d y) ∧ ∀ y ∈ post, 0 < d y → d r ≤ d y) := by
      intro hstep h0 hlt
      obtain ⟨s', h1, h2⟩ := ih hds (some (x, d x)) (by intro p hp; cases hp; exact ⟨rfl, h0⟩)
      refine ⟨s', ?_, ?_⟩
      · rw [List.foldlM_cons, hstep]; exact h1
      · right
        rcases h2 with ⟨e, hall⟩ | ⟨pre, r, post, e, e', hr, hp, hpre, hpost⟩
        · refine ⟨[], x, ds, rfl, e, h0, hlt, by simp, ?_⟩
          intro y hy hy0
          obtain ⟨p, hp1, hp2⟩ := hall y hy hy0
          cases hp1
          exact hp2
        · have hrx := hp _ rfl
          refine ⟨x :: pre, r, post, by rw [e]; rfl, e', hr, fun p hp' => lt_trans hrx (hlt p hp'), ?_, hpost⟩
          intro y hy hy0
          rcases List.mem_cons.1 hy with rfl | hy
          · exact hrx
          · exact hpre y hy hy0
    cases s with
    | none =>
      by_cases h0 : 0 < d x
      · apply hnew _ h0 (by simp)
        unfold closestStep
        rw [hx]
        simp [py_bind_ok, h0]
      · apply hkeep _ (fun h => absurd h h0)
        unfold closestStep
        rw [hx]
        simp [py_bind_ok, h0]
    | some p =>
      obtain ⟨r₀, m⟩ := p
      obtain ⟨hm, hpos⟩ := hs _ rfl
      simp only at hm hpos
      by_cases h0 : d x < m ∧ 0 < d x
      · apply hnew _ h0.2 (by intro p hp; cases hp; rw [← hm]; exact h0.1)
        unfold closestStep
        rw [hx]
        simp [py_bind_ok, h0]
      · apply hkeep
        · unfold closestStep
          rw [hx]
          simp only [py_bind_ok, if_neg h0, py_pure]
        · intro hx0
          refine ⟨_, rfl, ?_⟩
          simp only
          rw [← hm]
          by_contra hlt
          exact h0 ⟨not_le.1 hlt, hx0⟩

/-- C66: whatever the distance, `_closest_instance` succeeds; it returns nothing exactly when no instance is at a positive
distance, and otherwise the first of the instances at minimal positive distance. -/
theorem C66_closest_instance {R : Type} (dist : R → Py K) (d : R → K) (ds : List R) (h : ∀ r ∈ ds, dist r = .ok (d r)) :
    ((∀ r ∈ ds, d r ≤ 0) ∧ closestInstance dist ds = .ok none) ∨
      ∃ pre r post, ds = pre ++ r :: post ∧ closestInstance dist ds = .ok (some r) ∧ 0 < d r ∧
        (∀ x ∈ pre, 0 < d x → d r < d x) ∧ ∀ x ∈ post, 0 < d x → d r ≤ d x := by
  obtain ⟨s', h1, h2⟩ := closestFold dist d ds h none (by simp)
  have hc : closestInstance dist ds = .ok (s'.map Prod.fst) := by
    unfold closestInstance
    rw [h1]; rfl
  rcases h2 with ⟨e, hall⟩ | ⟨pre, r, post, e, e', hr, -, hpre, hpost⟩
  · left
    refine ⟨?_, by rw [hc, e]; rfl⟩
    intro r hr
    by_contra h0
    obtain ⟨p, hp, -⟩ := hall r hr (not_le.1 h0)
    cases hp
  · right
    exact ⟨pre, r, post, e, by rw [hc, e']; rfl, hr, hpre, hpost⟩

/-- C66: nothing is returned iff no instance is at a positive distance. -/
theorem C66_none_iff {R : Type} (dist : R → Py K) (d : R → K) (ds : List R) (h : ∀ r ∈ ds, dist r = .ok (d r)) :
    closestInstance dist ds = .ok none ↔ ∀ r ∈ ds, d r ≤ 0 := by
  rcases C66_closest_instance dist d ds h with ⟨h1, h2⟩ | ⟨pre, r, post, e, h1, h2, -, -⟩
  · exact ⟨fun _ => h1, fun _ => h2⟩
  · constructor
    · intro h'; rw [h1] at h'; cases h'
    · intro h'
      exact absurd (h' r (by rw [e]; simp)) (not_le.2 h2)

example : closestInstance (K := ℚ) (fun r : ℚ => .ok |r - 1|) [5, 1, 3, -1] = .ok (some 3) := by decide +kernel

/-! ### C67 -/

theorem mothDistance_nil (a : List (Cell K)) (cont disc : List Nat) (mad : Nat → Option K) :
    mothDistance a [] cont disc mad = .ok 0 := by
  unfold mothDistance
  simp [py_bind_ok]

/-- C67 (what holds): implausibility is the smallest *positive* distance from the counterfactual to an instance of the dataset,
and 0 when every instance of the dataset is equal to the counterfactual. Missing: it is not 0 when the counterfactual is in the
dataset together with other instances (`C67_member_false`). -/
theorem C67_implausibility_partial {n : Nat} {cont disc : List Nat} {mad : Nat → Option K} {m : Nat → K}
    (hg : GoodColumns n cont disc mad m) (cf : List (Cell K)) (hcf : TypedRow cont n cf) (ds : List (List (Cell K)))
    (hds : ∀ r ∈ ds, TypedRow cont n r) :
    ∃ v, implausibility cf ds cont disc mad = .ok v ∧ 0 ≤ v ∧ (v = 0 ↔ ∀ r ∈ ds, r = cf) ∧
      (v ≠ 0 → ∃ r ∈ ds, r ≠ cf ∧ proximity cf r cont disc mad = .ok v) ∧
      ∀ r ∈ ds, r ≠ cf → ∀ w, proximity cf r cont disc mad = .ok w → v ≤ w := by
  obtain ⟨d, h1, h2, h3, h4, h5⟩ := C65_moth_metric hg
  have hdist : ∀ r ∈ ds, mothDistance cf r cont disc mad = .ok (d cf r) := fun r hr => h1 cf r hcf (hds r hr)
  rcases C66_closest_instance (fun r => mothDistance cf r cont disc mad) (d cf) ds hdist with
    ⟨hall, hc⟩ | ⟨pre, r, post, e, hc, hpos, hpre, hpost⟩
  · have heq : ∀ r ∈ ds, r = cf := fun r hr =>
      ((h4 cf r hcf (hds r hr)).1 (le_antisymm (hall r hr) (h2 cf r))).symm
    refine ⟨0, ?_, le_refl _, ⟨fun _ => heq, fun _ => rfl⟩, fun h => absurd rfl h, ?_⟩
    · unfold implausibility
      rw [hc]
      exact mothDistance_nil cf cont disc mad
    · intro r hr hne
      exact absurd (heq r hr) hne
  · have hmem : r ∈ ds := by rw [e]; simp
    have hne : r ≠ cf := by
      intro h0
      rw [h0, (h4 cf cf hcf hcf).2 rfl] at hpos
      exact lt_irrefl _ hpos
    refine ⟨d cf r, ?_, h2 _ _, ?_, ?_, ?_⟩
    · unfold implausibility
      rw [hc]
      exact hdist r hmem
    · constructor
      · intro h0; rw [h0] at hpos; exact absurd hpos (lt_irrefl _)
      · intro h0; exact absurd (h0 r hmem) hne
    · intro _
      exact ⟨r, hmem, hne, h1 cf r hcf (hds r hmem)⟩
    · intro x hx hxne w hw
      rw [h1 cf x hcf (hds x hx)] at hw
      cases hw
      have hx0 : 0 < d cf x := lt_of_le_of_ne (h2 _ _) (fun h0 => hxne ((h4 cf x hcf (hds x hx)).1 h0.symm).symm)
      rw [e] at hx
      rcases List.mem_append.1 hx with hx | hx
      · exact le_of_lt (hpre x hx hx0)
      · rcases List.mem_cons.1 hx with rfl | hx
        · exact le_refl _
        · exact hpost x hx hx0

/-- C67 fails: a counterfactual that *is* an instance of the dataset gets a positive implausibility. -/
theorem C67_member_false :
    ∃ (cf : List (Cell ℚ)) (ds : List (List (Cell ℚ))) (mad : Nat → Option ℚ),
      GoodColumns 2 [0] [1] mad (fun _ => 2) ∧ TypedRow [0] 2 cf ∧ (∀ r ∈ ds, TypedRow [0] 2 r) ∧ cf ∈ ds ∧
      implausibility cf ds [0] [1] mad = .ok (3/2) := by
  refine ⟨[.num 3, .str "a"], [[.num 4, .str "b"], [.num 3, .str "a"]], exMad, ⟨?_, fun _ => by simp⟩, ⟨rfl, ?_⟩, ?_,
    by decide, by decide +kernel⟩
  · intro i hi _
    simp only [List.mem_singleton] at hi
    subst hi
    exact ⟨rfl, by norm_num⟩
  · intro i hi _
    simp only [List.mem_singleton] at hi
    subst hi
    exact ⟨_, rfl⟩
  · intro r hr
    simp only [List.mem_cons, List.not_mem_nil, or_false] at hr
    rcases hr with rfl | rfl <;> refine ⟨rfl, ?_⟩ <;>
    · intro i hi _
      simp only [List.mem_singleton] at hi
      subst hi
      exact ⟨_, rfl⟩

/-! ### C68 -/

theorem sum_mismatch (a b : List (Cell K)) (h : a.length = b.length) :
    ((a.zip b).map (fun p => if p.1 ≠ p.2 then (1 : Nat) else 0)).sum =
      ((List.range a.length).filter (fun i => a[i]? ≠ b[i]?)).length := by
  induction a using List.reverseRecOn generalizing b with
  | nil => simp
  | append_singleton a x ih =>
    obtain ⟨b', y, rfl⟩ : ∃ b' y, b = b' ++ [y] := by
      rcases List.eq_nil_or_concat b with h0 | ⟨b', y, h0⟩
      · rw [h0] at h; simp at h
      · exact ⟨b', y, by simpa using h0⟩
    have hl : a.length = b'.length := by simpa using h
    rw [List.zip_append hl, List.map_append, List.sum_append, ih b' hl, List.length_append, List.length_singleton,
      List.range_succ, List.filter_append, List.length_append]
    congr 1
    · congr 1
      apply List.filter_congr
      intro i hi
      have : i < a.length := List.mem_range.1 hi
      rw [List.getElem?_append_left this, List.getElem?_append_left (by omega)]
    · have e2 : (b' ++ [y])[a.length]? = some y := by rw [hl]; simp
      by_cases hxy : x = y
      · simp [e2, hxy]
      · simp [e2, hxy]

/-- C68: sparsity is the fraction of the positions that differ, for instances of the same non-zero length. -/
theorem C68_sparsity_value (a b : List (Cell K)) (h : a.length = b.length) (hne : a ≠ []) :
    sparsity a b = .ok ((((List.range a.length).filter (fun i => a[i]? ≠ b[i]?)).length : K) / (a.length : K)) := by
  unfold sparsity
  rw [sum_mismatch a b h]
  unfold pyDiv
  rw [if_neg]
  rw [Nat.cast_eq_zero, List.length_eq_zero_iff]
  exact hne

/-- C68: sparsity is in [0,1], symmetric, 0 exactly for equal instances, and satisfies the triangle inequality. -/
theorem C68_sparsity_metric (n : Nat) (hn : n ≠ 0) :
    ∃ d : List (Cell K) → List (Cell K) → K,
      (∀ a b, a.length = n → b.length = n → sparsity a b = .ok (d a b)) ∧
      (∀ a b, 0 ≤ d a b ∧ d a b ≤ 1) ∧ (∀ a b, d a b = d b a) ∧
      (∀ a b, a.length = n → b.length = n → (d a b = 0 ↔ a = b)) ∧ ∀ a b c, d a c ≤ d a b + d b c := by
  refine ⟨fun a b => (((List.range n).filter (fun i => a[i]? ≠ b[i]?)).length : K) / (n : K), ?_, ?_, ?_, ?_, ?_⟩
  · intro a b ha hb
    rw [C68_sparsity_value a b (by rw [ha, hb]) (by intro h0; rw [h0] at ha; exact hn ha.symm), ha]
  · intro a b
    exact ratio_mem ((List.length_filter_le _ _).trans (by simp))
  · intro a b
    simp only [ne_comm]
  · intro a b ha hb
    have hpos : (n : K) ≠ 0 := by exact_mod_cast hn
    rw [div_eq_zero_iff, or_iff_left hpos, Nat.cast_eq_zero, List.length_eq_zero_iff]
    constructor
    · intro h0
      apply List.ext_getElem?
      intro i
      by_cases hi : i < n
      · by_contra hne
        have : i ∈ (List.range n).filter (fun i => a[i]? ≠ b[i]?) := by simp [hi, hne]
        rw [h0] at this
        simp at this
      · rw [List.getElem?_eq_none (by omega), List.getElem?_eq_none (by omega)]
    · intro h; subst h; simp
  · intro a b c
    rw [← add_div]
    apply div_le_div_of_nonneg_right _ (Nat.cast_nonneg _)
    have : ((List.range n).filter (fun i => a[i]? ≠ c[i]?)).length ≤
        ((List.range n).filter (fun i => a[i]? ≠ b[i]?)).length + ((List.range n).filter (fun i => b[i]? ≠ c[i]?)).length := by
      apply filter_length_le_add
      intro i _ hp
      simp only [decide_eq_true_eq] at hp ⊢
      by_cases h : a[i]? = b[i]?
      · right; rw [← h]; exact hp
      · left; exact h
    exact_mod_cast this

/-- C68: an instance without features divides by zero. -/
theorem C68_empty (b : List (Cell K)) : sparsity ([] : List (Cell K)) b = .error .zeroDivision := by
  unfold sparsity pyDiv
  simp

example : sparsity [Cell.num (3 : ℚ), .str "a"] [.num 4, .str "a"] = .ok (1/2) := by decide +kernel

/-! ### C69 -/

/-- C69: instability never fails on rows of the dataset; it is the distance between the counterfactuals divided by one plus the
distance between the instances, so it lies between 0 and the distance between the counterfactuals, is 0 exactly when the two
counterfactuals coincide and equals that distance when the two instances coincide. -/
theorem C69_instability {n : Nat} {cont disc : List Nat} {mad : Nat → Option K} {m : Nat → K} (hg : GoodColumns n cont disc mad m)
    {inst cf closest cfClosest : List (Cell K)} (h1 : TypedRow cont n inst) (h2 : TypedRow cont n cf)
    (h3 : TypedRow cont n closest) (h4 : TypedRow cont n cfClosest) :
    ∃ v dcf di, instability inst cf closest cfClosest cont disc mad = .ok v ∧
      proximity cf cfClosest cont disc mad = .ok dcf ∧ proximity inst closest cont disc mad = .ok di ∧
      v * (di + 1) = dcf ∧ 0 ≤ v ∧ v ≤ dcf ∧ (v = 0 ↔ cf = cfClosest) ∧ (inst = closest → v = dcf) := by
  obtain ⟨d, hd1, hd2, hd3, hd4, -⟩ := C65_moth_metric hg
  have hp : (0 : K) < d inst closest + 1 := by
    have := hd2 inst closest
    linarith
  refine ⟨d cf cfClosest / (d inst closest + 1), d cf cfClosest, d inst closest, ?_, hd1 _ _ h2 h4, hd1 _ _ h1 h3, ?_, ?_, ?_,
    ?_, ?_⟩
  · unfold instability
    have e1 := hd1 _ _ h2 h4
    have e2 := hd1 _ _ h1 h3
    unfold proximity at e1 e2
    rw [e1]
    simp only [py_bind_ok, e2]
    unfold pyDiv
    rw [if_neg (ne_of_gt hp)]
  · exact div_mul_cancel₀ _ (ne_of_gt hp)
  · exact div_nonneg (hd2 _ _) (le_of_lt hp)
  · apply div_le_self (hd2 _ _)
    have := hd2 inst closest
    linarith
  · rw [div_eq_zero_iff, or_iff_left (ne_of_gt hp)]
    exact hd4 _ _ h2 h4
  · intro h
    rw [(hd4 _ _ h1 h3).2 h]
    simp

example : instability [Cell.num (3 : ℚ), .str "a"] [.num 4, .str "b"] [.num 5, .str "a"] [.num 4, .str "c"] [0] [1] exMad =
    .ok (1/2) := by decide +kernel

end

end Teacher
