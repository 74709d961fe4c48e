import Verif.Spec.RoundedRules
import Verif.Props.IEEE
import Verif.Props.RoundedPredict
import Verif.Props.Factual
import Verif.Props.Rule

/-! # Factual explanations in floating point (C175-C178) -/

namespace Teacher
open Spec
set_option linter.unusedSectionVars false

variable {V C K : Type} [Field K] [LinearOrder K] [IsStrictOrderedRing K]

section
variable {A : Arith K} {u η : K} {matching : Rule V C K → Py K} {deg : Rule V C K → K} {rs : List (Rule V C K)}

/-- computed activation. -/
def roundedAct (A : Arith K) (deg : Rule V C K → K) (r : Rule V C K) : K := A.fl (deg r * r.weight)

theorem actF_ok {r : Rule V C K} (h : matching r = .ok (deg r)) : actF A matching r = .ok (roundedAct A deg r) := by
  simp [actF, h, roundedAct]

theorem roundedAct_near (hA : Lawful A u η) (h01 : UnitRules deg rs) {r : Rule V C K} (hr : r ∈ rs) :
    0 ≤ ruleAct deg r ∧ ruleAct deg r ≤ 1 ∧ |roundedAct A deg r - ruleAct deg r| ≤ actError u η := by
  obtain ⟨h1, h2, h3, h4⟩ := h01 r hr
  have h0 : 0 ≤ ruleAct deg r := mul_nonneg h1 h3
  have h5 : ruleAct deg r ≤ 1 := mul_le_one₀ h2 h3 h4
  refine ⟨h0, h5, ?_⟩
  have := hA.err (ruleAct deg r)
  rw [abs_of_nonneg h0] at this
  refine this.trans ?_
  unfold actError
  have := mul_le_mul_of_nonneg_left h5 hA.u_nonneg
  linarith

theorem classFiredF_ok [DecidableEq C] (h : ∀ r ∈ rs, matching r = .ok (deg r)) (c : C) :
    classFiredF A matching rs c = .ok (sortDesc (roundedAct A deg) (firedAbove (A.fl (1 / 1000)) deg rs c)) := by
  unfold classFiredF
  rw [firedRules_ok h]
  simp only [py_bind_ok, classValueRules, List.filter_filter]
  have he : rs.filter (fun a => decide (a.consequent = c) && decide (A.fl (1 / 1000) < deg a)) = firedAbove (A.fl (1 / 1000)) deg rs c := by
    unfold firedAbove
    apply List.filter_congr
    intro r _
    simp [Bool.and_comm]
  rw [he]
  unfold sortByActF
  rw [mapM_ok_of_forall (actF A matching) (roundedAct A deg) (firedAbove (A.fl (1 / 1000)) deg rs c) (fun r hr => actF_ok (h r (List.mem_filter.1 hr).1))]
  simp only [py_bind_ok, py_pure, zip_map_self, insertionSort_map_pair]

/-- the rounded sum of the activations. -/
theorem sumActF_ok (l : List (Rule V C K)) (h : ∀ r ∈ l, matching r = .ok (deg r)) (a : K) :
    l.foldlM (fun x y => do let b ← actF A matching y; pure (A.fl (x + b))) a =
      .ok ((l.map (roundedAct A deg)).foldl (fun s x => A.fl (s + x)) a) := by
  induction l generalizing a with
  | nil => rfl
  | cons r l ih =>
    rw [List.foldlM_cons, actF_ok (h r (by simp))]
    simp only [py_bind_ok, py_pure]
    exact ih (fun r hr => h r (by simp [hr])) _

theorem near_list (hA : Lawful A u η) (h01 : UnitRules deg rs) : ∀ (l : List (Rule V C K)), (∀ r ∈ l, r ∈ rs) →
    List.Forall₂ (fun x x' => 0 ≤ x ∧ x ≤ 1 ∧ |x' - x| ≤ actError u η) (l.map (ruleAct deg)) (l.map (roundedAct A deg)) := by
  intro l h
  induction l with
  | nil => exact .nil
  | cons r l ih => exact .cons (roundedAct_near hA h01 (h r (by simp))) (ih (fun r hr => h r (by simp [hr])))

theorem actError_nonneg (hA : Lawful A u η) : 0 ≤ actError u η := add_nonneg hA.u_nonneg hA.η_nonneg

/-- error of the rounded sum of activations. -/
theorem sum_near (hA : Lawful A u η) (h01 : UnitRules deg rs) (l : List (Rule V C K)) (h : ∀ r ∈ l, r ∈ rs) {n : Nat} (hn : l.length ≤ n) :
    |(l.map (roundedAct A deg)).foldl (fun s x => A.fl (s + x)) 0 - mass deg l| ≤
      l.length * (actError u η + (u * n + η)) * (1 + u) ^ l.length := by
  have := fold_near_agg hA (actError_nonneg hA) n (near_list hA h01 l h) 0 0 0 (by simpa using hn) le_rfl (by simp) (by simp)
  simpa [mass] using this

theorem massError_mono (hA : Lawful A u η) {k n : Nat} (h : k ≤ n) :
    (k : K) * (actError u η + (u * n + η)) * (1 + u) ^ k ≤ massError u η n := by
  have h0 := actError_nonneg hA
  have hu := hA.u_nonneg
  have hη := hA.η_nonneg
  have hk : (k : K) ≤ n := by exact_mod_cast h
  unfold massError
  refine mul_le_mul (mul_le_mul_of_nonneg_right hk (by positivity)) (pow_le_pow_right₀ (by linarith) h) (by positivity) (by positivity)

end

/-! ### C175 -/

section
variable {A : Arith K} {u η : K} {matching : Rule V C K → Py K} {deg : Rule V C K → K} {rs : List (Rule V C K)}

theorem mFactualF_ok [DecidableEq C] (hdeg : ∀ r ∈ rs, matching r = .ok (deg r)) (c : C)
    (hne : firedAbove (A.fl (1 / 1000)) deg rs c ≠ []) :
    ∃ s, sortDesc (roundedAct A deg) (firedAbove (A.fl (1 / 1000)) deg rs c) = s ∧ s.Perm (firedAbove (A.fl (1 / 1000)) deg rs c) ∧
      mFactualF A matching rs c = .ok (s.filter (fun r => A.fl ((s.map (roundedAct A deg)).foldl (fun s x => A.fl (s + x)) 0 / (s.length : K))
        ≤ roundedAct A deg r)) := by
  have hs := sortDesc_spec (roundedAct A deg) (firedAbove (A.fl (1 / 1000)) deg rs c)
  refine ⟨_, rfl, hs.perm, ?_⟩
  have hdeg' : ∀ r ∈ sortDesc (roundedAct A deg) (firedAbove (A.fl (1 / 1000)) deg rs c), matching r = .ok (deg r) := by
    intro r hr
    exact hdeg r (List.mem_filter.1 (hs.perm.mem_iff.1 hr)).1
  unfold mFactualF sumActF
  rw [classFiredF_ok hdeg]
  simp only [py_bind_ok, sumActF_ok _ hdeg']
  have hl : ((sortDesc (roundedAct A deg) (firedAbove (A.fl (1 / 1000)) deg rs c)).length : K) ≠ 0 := by
    rw [hs.perm.length_eq, Nat.cast_ne_zero]; exact fun h => hne (List.length_eq_zero_iff.1 h)
  simp only [pyDivF, if_neg hl, py_bind_ok]
  refine filterPy_ok _ _ _ ?_
  intro r hr
  rw [actF_ok (hdeg' r hr)]; rfl

/-- error of the computed mean. -/
theorem mean_near (hA : Lawful A u η) (h01 : UnitRules deg rs) (s : List (Rule V C K)) (h : ∀ r ∈ s, r ∈ rs) (hne : s ≠ []) :
    |A.fl ((s.map (roundedAct A deg)).foldl (fun s x => A.fl (s + x)) 0 / (s.length : K)) - mass deg s / (s.length : K)| ≤
      (actError u η + (u * s.length + η)) * (1 + u) ^ (s.length + 1) + actError u η := by
  have hsum := sum_near hA h01 s h le_rfl
  have hn : (0 : K) < s.length := by exact_mod_cast List.length_pos_iff.2 hne
  have hm0 : 0 ≤ mass deg s := by
    apply List.sum_nonneg
    intro x hx
    obtain ⟨r, hr, rfl⟩ := List.mem_map.1 hx
    exact (roundedAct_near hA h01 (h r hr)).1
  have hm1 : mass deg s ≤ s.length := by
    have : ((s.map (ruleAct deg))).sum ≤ (s.map (ruleAct deg)).length • (1 : K) := by
      apply List.sum_le_card_nsmul
      intro x hx
      obtain ⟨r, hr, rfl⟩ := List.mem_map.1 hx
      exact (roundedAct_near hA h01 (h r hr)).2.1
    rw [List.length_map, nsmul_eq_mul, mul_one] at this
    exact this
  have hu := hA.u_nonneg
  have hη := hA.η_nonneg
  generalize (s.map (roundedAct A deg)).foldl (fun s x => A.fl (s + x)) 0 = S' at *
  generalize mass deg s = S at *
  generalize (s.length : K) = n at *
  generalize hk : s.length = k at *
  set e := (actError u η + (u * n + η)) * (1 + u) ^ k with he
  have h1 : |S' / n - S / n| ≤ e := by
    rw [← sub_div, abs_div, abs_of_pos hn, div_le_iff₀ hn]
    refine hsum.trans (le_of_eq ?_)
    rw [he]; ring
  have h2 := hA.err (S' / n)
  have h3 : |S / n| ≤ 1 := by
    rw [abs_of_nonneg (div_nonneg hm0 hn.le), div_le_one hn]; exact hm1
  have h4 : |S' / n| ≤ 1 + e := by
    have := abs_add_le (S / n) (S' / n - S / n)
    rw [add_sub_cancel] at this
    linarith
  have h5 := mul_le_mul_of_nonneg_left h4 hu
  have h6 := abs_add_le (A.fl (S' / n) - S' / n) (S' / n - S / n)
  rw [sub_add_sub_cancel] at h6
  have h7 : (actError u η + (u * n + η)) * (1 + u) ^ (k + 1) = e * (1 + u) := by rw [he, pow_succ]; ring
  rw [h7]
  unfold actError
  linarith

/-- **C175** (partial): in floating point `m_factual` returns fired rules of the class, by decreasing computed activation; it contains every fired
rule of the class whose exact activation is above the exact mean by more than the rounding error, and none whose activation is below the mean
by more than that. Missing: rules whose activation is within the error of the mean; for these the property "the explanation is not empty" of the
exact computation (C49) is false (`C175_not_empty_false`). -/
theorem C175_m_factual_partial [DecidableEq C] (hA : Lawful A u η) (hdeg : ∀ r ∈ rs, matching r = .ok (deg r)) (h01 : UnitRules deg rs) (c : C)
    (hne : firedAbove (A.fl (1 / 1000)) deg rs c ≠ []) :
    ∃ out, mFactualF A matching rs c = .ok out ∧ (∀ r ∈ out, r ∈ firedAbove (A.fl (1 / 1000)) deg rs c) ∧
      out.Pairwise (fun r r' => A.fl (ruleAct deg r') ≤ A.fl (ruleAct deg r)) ∧
      ∀ r ∈ firedAbove (A.fl (1 / 1000)) deg rs c,
        (mass deg (firedAbove (A.fl (1 / 1000)) deg rs c) / ((firedAbove (A.fl (1 / 1000)) deg rs c).length : K) +
          meanError u η (firedAbove (A.fl (1 / 1000)) deg rs c).length < ruleAct deg r → r ∈ out) ∧
        (ruleAct deg r + meanError u η (firedAbove (A.fl (1 / 1000)) deg rs c).length <
          mass deg (firedAbove (A.fl (1 / 1000)) deg rs c) / ((firedAbove (A.fl (1 / 1000)) deg rs c).length : K) → r ∉ out) := by
  obtain ⟨s, hs, hp, hout⟩ := mFactualF_ok (A := A) hdeg c hne
  have hd := (sortDesc_spec (roundedAct A deg) (firedAbove (A.fl (1 / 1000)) deg rs c)).desc
  rw [hs] at hd
  have hmem : ∀ r ∈ firedAbove (A.fl (1 / 1000)) deg rs c, r ∈ rs := fun r hr => (List.mem_filter.1 hr).1
  generalize firedAbove (A.fl (1 / 1000)) deg rs c = F at *
  have hms : ∀ r ∈ s, r ∈ rs := fun r hr => hmem r (hp.mem_iff.1 hr)
  have hmean := mean_near hA h01 s hms (by rintro rfl; exact hne (List.nil_perm.1 hp))
  have hmass : mass deg s = mass deg F := (hp.map _).sum_eq
  rw [hmass] at hmean
  refine ⟨_, hout, fun r hr => hp.mem_iff.1 (List.mem_filter.1 hr).1, hd.filter _, ?_⟩
  intro r hr
  have hact := (roundedAct_near hA h01 (hmem r hr)).2.2
  rw [hp.length_eq] at hmean ⊢
  have h1 := abs_le.1 hmean
  have h2 := abs_le.1 hact
  rw [List.mem_filter]
  unfold meanError
  constructor
  · intro hlt
    refine ⟨hp.mem_iff.2 hr, ?_⟩
    rw [decide_eq_true_iff]
    linarith [h1.2, h2.1]
  · rintro hlt ⟨-, hle⟩
    rw [decide_eq_true_iff] at hle
    linarith [h1.1, h2.2]

/-- **C175**: with a single fired rule of the class the explanation is that rule, for every rounding. -/
theorem C175_single [DecidableEq C] (hA : Lawful A u η) (hdeg : ∀ r ∈ rs, matching r = .ok (deg r)) (c : C) (r : Rule V C K)
    (hr : firedAbove (A.fl (1 / 1000)) deg rs c = [r]) : mFactualF A matching rs c = .ok [r] := by
  obtain ⟨s, -, hp, hout⟩ := mFactualF_ok (A := A) hdeg c (by rw [hr]; simp)
  rw [hr, List.perm_singleton] at hp
  subst hp
  rw [hout]
  have h : A.fl (roundedAct A deg r) = roundedAct A deg r := hA.idem _
  simp [h]

end

/-- the double 0.1. -/
def dbl01 : ℚ := 3602879701896397 / 36028797018963968
/-- three features, each with degree 0.1 in a set "low". -/
def exMInst : Inst ℚ := [("a", [("low", dbl01)]), ("b", [("low", dbl01)]), ("c", [("low", dbl01)])]
def exMRules : List (Rule String Nat ℚ) := [⟨[("a", "low")], 1, 1⟩, ⟨[("b", "low")], 1, 1⟩, ⟨[("c", "low")], 1, 1⟩]

/-- **C175**: "the explanation of `m_factual` is not empty" (C49) is false in double precision: three fired rules of the class, all with degree 0.1
and weight 1. The computed mean `(0.1 + 0.1 + 0.1) / 3` is `0.10000000000000002`, above all of them, so no rule is returned; exactly, the mean
is 0.1 and all three are. -/
theorem C175_not_empty_false : binary64.fl (1 / 10) = dbl01 ∧
    (∀ r ∈ exMRules, r.matching exMInst = .ok dbl01 ∧ binary64.fl (1 / 1000) < dbl01) ∧
    mFactual (fun r => r.matching exMInst) exMRules 1 = .ok exMRules ∧
    mFactualF binary64 (fun r => r.matching exMInst) exMRules 1 = .ok [] := by
  decide +kernel

/-- the hypotheses of C175 hold with rules above and below the mean. -/
def exMRules2 : List (Rule String Nat ℚ) := [⟨[("a", "low")], 1, 1⟩, ⟨[("b", "low")], 1, 1 / 2⟩, ⟨[("c", "low")], 0, 1⟩]

example : (∀ r ∈ exMRules2, r.matching exMInst = .ok ((fun _ => dbl01) r)) ∧ UnitRules (fun _ => dbl01) exMRules2 ∧
    firedAbove (binary64.fl (1 / 1000)) (fun _ => dbl01) exMRules2 1 = exMRules2.take 2 ∧
    mFactualF binary64 (fun r => r.matching exMInst) exMRules2 1 = .ok (exMRules2.take 1) ∧
    mass (fun _ => dbl01) (exMRules2.take 2) / 2 + 1 / 100 < ruleAct (fun _ => dbl01) exMRules2[0] ∧
    ruleAct (fun _ => dbl01) exMRules2[1] + 1 / 100 < mass (fun _ => dbl01) (exMRules2.take 2) / 2 := by
  unfold UnitRules
  decide +kernel

/-! ### C176 -/

section
variable {A : Arith K} {u η : K} {matching : Rule V C K → Py K} {deg : Rule V C K → K} {rs : List (Rule V C K)}

/-- the rounded sum of the activations of a list of rules, from `a`. -/
def sumFrom (A : Arith K) (deg : Rule V C K → K) (a : K) (l : List (Rule V C K)) : K :=
  (l.map (roundedAct A deg)).foldl (fun s x => A.fl (s + x)) a

theorem classMassF_ok [DecidableEq C] (h : ∀ r ∈ rs, matching r = .ok (deg r)) (c : C) :
    classMassF A matching rs c = .ok (sumFrom A deg 0 (rs.filter (fun r => r.consequent = c))) := by
  unfold classMassF
  have aux : ∀ (l : List (Rule V C K)) (a : K), (∀ r ∈ l, matching r = .ok (deg r)) →
      l.foldlM (fun th r => if r.consequent = c then do let a ← actF A matching r; pure (A.fl (th + a)) else pure th) a
        = .ok (sumFrom A deg a (l.filter (fun r => r.consequent = c))) := by
    intro l
    induction l with
    | nil => intro a _; rfl
    | cons r l ih =>
      intro a h
      rw [List.foldlM_cons]
      by_cases hc : r.consequent = c
      · simp only [hc, if_true, actF_ok (h r (by simp)), py_bind_ok, py_pure]
        refine (ih _ (fun y hy => h y (by simp [hy]))).trans ?_
        rw [List.filter_cons_of_pos (by simpa using hc)]
        rfl
      · simp only [hc, if_false, py_bind_ok, py_pure]
        refine (ih _ (fun y hy => h y (by simp [hy]))).trans ?_
        rw [List.filter_cons_of_neg (by simpa using hc)]
  exact aux rs 0 h

theorem robustThresholdF_ok [LinearOrder C] (h : ∀ r ∈ rs, matching r = .ok (deg r)) (c : C) (hex : ∃ r ∈ rs, r.consequent ≠ c) :
    ∃ rt, robustThresholdF A matching rs c = .ok rt ∧
      (∃ c', c' ≠ c ∧ (∃ r ∈ rs, r.consequent = c') ∧ rt = sumFrom A deg 0 (rs.filter (fun r => r.consequent = c'))) ∧
      ∀ c', c' ≠ c → (∃ r ∈ rs, r.consequent = c') → sumFrom A deg 0 (rs.filter (fun r => r.consequent = c')) ≤ rt := by
  unfold robustThresholdF
  simp only
  rw [mapM_ok_of_forall _ (fun c' => sumFrom A deg 0 (rs.filter (fun r => r.consequent = c'))) _ (fun c' _ => classMassF_ok h c')]
  simp only [py_bind_ok]
  have hmem : ∀ c', c' ∈ npUnique ((rs.filter (fun r => r.consequent ≠ c)).map Rule.consequent) ↔
      c' ≠ c ∧ ∃ r ∈ rs, r.consequent = c' := by
    intro c'
    rw [mem_npUnique]
    simp only [List.mem_map, List.mem_filter, decide_eq_true_eq]
    constructor
    · rintro ⟨r, ⟨hr, hc⟩, rfl⟩; exact ⟨hc, r, hr, rfl⟩
    · rintro ⟨hc, r, hr, rfl⟩; exact ⟨r, ⟨hr, hc⟩, rfl⟩
  have hne : (npUnique ((rs.filter (fun r => r.consequent ≠ c)).map Rule.consequent)).map
      (fun c' => sumFrom A deg 0 (rs.filter (fun r => r.consequent = c'))) ≠ [] := by
    obtain ⟨r, hr, hc⟩ := hex
    exact List.ne_nil_of_mem (List.mem_map_of_mem ((hmem r.consequent).2 ⟨hc, r, hr, rfl⟩))
  obtain ⟨rt, hrt⟩ := pyMax_ok_of_ne_nil (id : K → K) _ hne
  obtain ⟨h1, h2, -⟩ := pyMax_eq_ok _ _ _ hrt
  refine ⟨rt, hrt, ?_, ?_⟩
  · obtain ⟨c', hc', rfl⟩ := List.mem_map.1 h1
    obtain ⟨h3, h4⟩ := (hmem c').1 hc'
    exact ⟨c', h3, h4, rfl⟩
  · intro c' h3 h4
    exact h2 _ (List.mem_map_of_mem ((hmem c').2 ⟨h3, h4⟩))

theorem mrLoopF_ok (l : List (Rule V C K)) (h : ∀ r ∈ l, matching r = .ok (deg r)) (rt ad : K) :
    ∃ k, k ≤ l.length ∧ mrLoopF A matching rt ad l = .ok (l.take k) ∧
      (∀ j, j < k → sumFrom A deg ad (l.take j) ≤ rt) ∧ (k < l.length → rt < sumFrom A deg ad (l.take k)) := by
  induction l generalizing ad with
  | nil => exact ⟨0, le_refl _, rfl, by simp, by simp⟩
  | cons r l ih =>
    unfold mrLoopF
    by_cases hb : rt < ad
    · rw [if_pos hb]
      exact ⟨0, by simp, rfl, by simp, fun _ => by simpa [sumFrom] using hb⟩
    · rw [if_neg hb]
      obtain ⟨k, hk, h1, h2, h3⟩ := ih (fun y hy => h y (by simp [hy])) (A.fl (ad + roundedAct A deg r))
      rw [actF_ok (h r (by simp))]
      simp only [py_bind_ok, h1, py_pure]
      refine ⟨k + 1, by simpa using hk, by simp, ?_, ?_⟩
      · intro j hj
        cases j with
        | zero => simpa [sumFrom] using not_lt.1 hb
        | succ j => exact h2 j (by omega)
      · intro hlt
        exact h3 (by simpa using hlt)

theorem sumFrom_near (hA : Lawful A u η) (h01 : UnitRules deg rs) (l : List (Rule V C K)) (h : ∀ r ∈ l, r ∈ rs) (hn : l.length ≤ rs.length) :
    |sumFrom A deg 0 l - mass deg l| ≤ massError u η rs.length :=
  (sum_near hA h01 l h hn).trans (massError_mono hA hn)

/-- **C176**: `mr_factual` in floating point returns the first fired rules of the class by decreasing computed activation. Either they are all of
them, or they out-vote every other class up to twice the rounding error of a sum of activations; and without the last of them they do not out-vote
every other class by more than that error. -/
theorem C176_mr_factual [LinearOrder C] (hA : Lawful A u η) (hdeg : ∀ r ∈ rs, matching r = .ok (deg r)) (h01 : UnitRules deg rs) (c : C)
    (hex : ∃ r ∈ rs, r.consequent ≠ c) :
    ∃ out rest, mrFactualF A matching rs c = .ok out ∧
      SortedDesc (fun r => A.fl (ruleAct deg r)) (firedAbove (A.fl (1 / 1000)) deg rs c) (out ++ rest) ∧
      (rest ≠ [] → ∀ c', c' ≠ c → (∃ r ∈ rs, r.consequent = c') → activation deg rs c' < mass deg out + 2 * massError u η rs.length) ∧
      ∀ front r, out = front ++ [r] → ∃ c', c' ≠ c ∧ (∃ r ∈ rs, r.consequent = c') ∧
        mass deg front ≤ activation deg rs c' + 2 * massError u η rs.length := by
  have hs := sortDesc_spec (roundedAct A deg) (firedAbove (A.fl (1 / 1000)) deg rs c)
  have hsub : ∀ r ∈ sortDesc (roundedAct A deg) (firedAbove (A.fl (1 / 1000)) deg rs c), r ∈ rs := fun r hr =>
    (List.mem_filter.1 (hs.perm.mem_iff.1 hr)).1
  have hlen : (sortDesc (roundedAct A deg) (firedAbove (A.fl (1 / 1000)) deg rs c)).length ≤ rs.length := by
    rw [hs.perm.length_eq]; exact List.length_filter_le _ _
  obtain ⟨rt, hrt, ⟨c0, hc0, hr0, he0⟩, hmax⟩ := robustThresholdF_ok (A := A) hdeg c hex
  generalize hl : sortDesc (roundedAct A deg) (firedAbove (A.fl (1 / 1000)) deg rs c) = l at *
  obtain ⟨k, hk, h1, h2, h3⟩ := mrLoopF_ok (A := A) l (fun r hr => hdeg r (hsub r hr)) rt 0
  have hcl : ∀ c', |sumFrom A deg 0 (rs.filter (fun r => r.consequent = c')) - activation deg rs c'| ≤ massError u η rs.length := fun c' =>
    sumFrom_near hA h01 _ (fun r hr => (List.mem_filter.1 hr).1) (List.length_filter_le _ _)
  have htk : ∀ j, |sumFrom A deg 0 (l.take j) - mass deg (l.take j)| ≤ massError u η rs.length := fun j =>
    sumFrom_near hA h01 _ (fun r hr => hsub r (List.mem_of_mem_take hr)) (by rw [List.length_take]; omega)
  refine ⟨l.take k, l.drop k, ?_, ?_, ?_, ?_⟩
  · unfold mrFactualF
    rw [classFiredF_ok hdeg, hl, py_bind_ok, hrt, py_bind_ok, h1]
  · rw [List.take_append_drop]; exact hs
  · intro hne c' hc' hr'
    have hlt : k < l.length := by
      by_contra h
      exact hne (List.drop_eq_nil_of_le (by omega))
    have a1 := h3 hlt
    have a2 := hmax c' hc' hr'
    have a3 := abs_le.1 (hcl c')
    have a4 := abs_le.1 (htk k)
    linarith [a3.1, a4.2]
  · intro front r hout
    have hfl : front.length < k := by
      have := congrArg List.length hout
      simp only [List.length_append, List.length_singleton, List.length_take] at this
      omega
    have hfr : front = l.take front.length := by
      have : front <+: l.take k := ⟨[r], hout.symm⟩
      exact List.prefix_iff_eq_take.1 (this.trans (List.take_prefix k l))
    have a1 := h2 _ hfl
    rw [← hfr] at a1
    have a4 := abs_le.1 (htk front.length)
    rw [← hfr] at a4
    have a3 := abs_le.1 (hcl c0)
    refine ⟨c0, hc0, hr0, ?_⟩
    rw [he0] at a1
    linarith [a3.2, a4.1]

/-! ### C177 -/

theorem cLoopF_ok (l : List (Rule V C K)) (h : ∀ r ∈ l, matching r = .ok (deg r)) (h0 : ∀ r ∈ l, roundedAct A deg r ≠ 0)
    (lam : K) (beta : Option K) (p : Rule V C K) (a : K) :
    ∃ k, k ≤ l.length ∧ cLoopF A matching lam beta (roundedAct A deg p) a l = .ok (l.take k) ∧
      (∀ j, j < k → ¬ ∃ x y, (p :: l)[j]? = some x ∧ l[j]? = some y ∧ A.fl (1 + lam) < A.fl (roundedAct A deg x / roundedAct A deg y) ∧
        ∀ b, beta = some b → b ≤ sumFrom A deg a (l.take j)) ∧
      (k < l.length → ∃ x y, (p :: l)[k]? = some x ∧ l[k]? = some y ∧ A.fl (1 + lam) < A.fl (roundedAct A deg x / roundedAct A deg y) ∧
        ∀ b, beta = some b → b ≤ sumFrom A deg a (l.take k)) := by
  induction l generalizing p a with
  | nil => exact ⟨0, le_refl _, rfl, by simp, by simp⟩
  | cons r l ih =>
    have hbeta : ∀ ad, betaReached beta ad = true ↔ ∀ b, beta = some b → b ≤ ad := by
      intro ad
      unfold betaReached
      cases beta with
      | none => simp
      | some b => simp
    unfold cLoopF
    rw [actF_ok (h r (by simp))]
    simp only [py_bind_ok, pyDivF, if_neg (h0 r (by simp))]
    by_cases hs : A.fl (1 + lam) < A.fl (roundedAct A deg p / roundedAct A deg r) ∧ betaReached beta a = true
    · rw [if_pos hs]
      refine ⟨0, by simp, rfl, by simp, fun _ => ⟨p, r, rfl, rfl, hs.1, ?_⟩⟩
      exact (hbeta _).1 hs.2
    · rw [if_neg hs]
      obtain ⟨k, hk, h1, h2, h3⟩ := ih (fun y hy => h y (by simp [hy])) (fun y hy => h0 y (by simp [hy])) r (A.fl (a + roundedAct A deg r))
      simp only [h1, py_bind_ok, py_pure]
      refine ⟨k + 1, by simpa using hk, by simp, ?_, ?_⟩
      · intro j hj
        cases j with
        | zero =>
          rintro ⟨x, y, hx, hy, hd, hb⟩
          simp only [List.getElem?_cons_zero, Option.some.injEq] at hx hy
          subst hx; subst hy
          exact hs ⟨hd, (hbeta _).2 (by simpa [sumFrom] using hb)⟩
        | succ j => exact h2 j (by omega)
      · intro hlt
        exact h3 (by simpa using hlt)

theorem sumFrom_cons (hA : Lawful A u η) (p : Rule V C K) (l : List (Rule V C K)) :
    sumFrom A deg (roundedAct A deg p) l = sumFrom A deg 0 (p :: l) := by
  unfold sumFrom
  rw [List.map_cons, List.foldl_cons, zero_add]
  rw [show A.fl (roundedAct A deg p) = roundedAct A deg p from hA.idem _]

theorem roundedAct_nonneg (hA : Lawful A u η) (h01 : UnitRules deg rs) {r : Rule V C K} (hr : r ∈ rs) : 0 ≤ roundedAct A deg r := by
  have := hA.mono 0 _ (roundedAct_near hA h01 hr).1
  rwa [hA.zero] at this

/-- what a comparison of the computed quotient tells about the activations. -/
theorem ratio_le (hA : Lawful A u η) (h01 : UnitRules deg rs) {x y : Rule V C K} (hx : x ∈ rs) (hy : y ∈ rs) (h0 : roundedAct A deg y ≠ 0)
    {lam : K} (hl : 0 ≤ lam) (h : A.fl (roundedAct A deg x / roundedAct A deg y) ≤ A.fl (1 + lam)) :
    ruleAct deg x ≤ ratioUp u η lam * (ruleAct deg y + actError u η) + actError u η := by
  have hu := hA.u_nonneg
  have hu1 := hA.u_lt
  have hη := hA.η_nonneg
  have px := roundedAct_nonneg hA h01 hx
  have py : 0 < roundedAct A deg y := lt_of_le_of_ne (roundedAct_nonneg hA h01 hy) (Ne.symm h0)
  have ex := abs_le.1 (roundedAct_near hA h01 hx).2.2
  have ey := abs_le.1 (roundedAct_near hA h01 hy).2.2
  have pq : 0 ≤ roundedAct A deg x / roundedAct A deg y := div_nonneg px py.le
  have e1 := hA.err (roundedAct A deg x / roundedAct A deg y)
  have e2 := hA.err (1 + lam)
  rw [abs_of_nonneg pq, abs_le] at e1
  rw [abs_of_nonneg (by linarith : (0 : K) ≤ 1 + lam), abs_le] at e2
  have hq : roundedAct A deg x / roundedAct A deg y ≤ ratioUp u η lam := by
    unfold ratioUp
    rw [le_div_iff₀ (by linarith)]
    nlinarith [e1.1, e2.2]
  have hr0 : 0 ≤ ratioUp u η lam := pq.trans hq
  rw [div_le_iff₀ py] at hq
  have := mul_le_mul_of_nonneg_left (show roundedAct A deg y ≤ ruleAct deg y + actError u η by linarith [ey.2]) hr0
  linarith [ex.1]

theorem ratio_gt (hA : Lawful A u η) (h01 : UnitRules deg rs) {x y : Rule V C K} (hx : x ∈ rs) (hy : y ∈ rs) (h0 : roundedAct A deg y ≠ 0)
    {lam : K} (hl : 0 ≤ lam) (hsmall : 2 * η ≤ 1 - u) (h : A.fl (1 + lam) < A.fl (roundedAct A deg x / roundedAct A deg y)) :
    ratioDown u η lam * (ruleAct deg y - actError u η) ≤ ruleAct deg x + actError u η := by
  have hu := hA.u_nonneg
  have hu1 := hA.u_lt
  have hη := hA.η_nonneg
  have px := roundedAct_nonneg hA h01 hx
  have py : 0 < roundedAct A deg y := lt_of_le_of_ne (roundedAct_nonneg hA h01 hy) (Ne.symm h0)
  have ex := abs_le.1 (roundedAct_near hA h01 hx).2.2
  have ey := abs_le.1 (roundedAct_near hA h01 hy).2.2
  have pq : 0 ≤ roundedAct A deg x / roundedAct A deg y := div_nonneg px py.le
  have e1 := hA.err (roundedAct A deg x / roundedAct A deg y)
  have e2 := hA.err (1 + lam)
  rw [abs_of_nonneg pq, abs_le] at e1
  rw [abs_of_nonneg (by linarith : (0 : K) ≤ 1 + lam), abs_le] at e2
  have hq : ratioDown u η lam ≤ roundedAct A deg x / roundedAct A deg y := by
    unfold ratioDown
    rw [div_le_iff₀ (by linarith)]
    nlinarith [e1.2, e2.1]
  have hr0 : 0 ≤ ratioDown u η lam := by
    unfold ratioDown
    apply div_nonneg _ (by linarith)
    nlinarith [mul_nonneg hl (by linarith : (0 : K) ≤ 1 - u)]
  rw [le_div_iff₀ py] at hq
  have := mul_le_mul_of_nonneg_left (show ruleAct deg y - actError u η ≤ roundedAct A deg y by linarith [ey.1]) hr0
  linarith [ex.2]

/-- **C177**: `c_factual` in floating point, when no fired rule of the class has a computed activation that underflows to zero, returns a
non-empty prefix of the fired rules of the class by decreasing computed activation. Between two consecutive rules it keeps, the activation drops by
a factor at most `1 + lam`, up to rounding, or the rules before did not reach `beta`, up to rounding; when it stops, the activation of the next rule
is lower by a factor at least `1 + lam`, up to rounding, and the rules kept reach `beta`, up to rounding. -/
theorem C177_c_factual [DecidableEq C] (hA : Lawful A u η) (hsmall : 2 * η ≤ 1 - u) (hdeg : ∀ r ∈ rs, matching r = .ok (deg r))
    (h01 : UnitRules deg rs) (c : C) (lam : K) (hl : 0 ≤ lam) (beta : Option K)
    (h0 : ∀ r ∈ firedAbove (A.fl (1 / 1000)) deg rs c, A.fl (ruleAct deg r) ≠ 0) (hne : firedAbove (A.fl (1 / 1000)) deg rs c ≠ []) :
    ∃ out rest, cFactualF A matching rs c lam beta = .ok out ∧ out ≠ [] ∧
      SortedDesc (fun r => A.fl (ruleAct deg r)) (firedAbove (A.fl (1 / 1000)) deg rs c) (out ++ rest) ∧
      (∀ front x y back, out = front ++ x :: y :: back →
        ruleAct deg x ≤ ratioUp u η lam * (ruleAct deg y + actError u η) + actError u η ∨
        ∃ b, beta = some b ∧ mass deg (front ++ [x]) < b + massError u η rs.length) ∧
      (∀ y back, rest = y :: back → ∃ front x, out = front ++ [x] ∧
        ratioDown u η lam * (ruleAct deg y - actError u η) ≤ ruleAct deg x + actError u η ∧
        ∀ b, beta = some b → b ≤ mass deg out + massError u η rs.length) := by
  have hs := sortDesc_spec (roundedAct A deg) (firedAbove (A.fl (1 / 1000)) deg rs c)
  have hsub : ∀ r ∈ sortDesc (roundedAct A deg) (firedAbove (A.fl (1 / 1000)) deg rs c), r ∈ rs := fun r hr =>
    (List.mem_filter.1 (hs.perm.mem_iff.1 hr)).1
  have h0' : ∀ r ∈ sortDesc (roundedAct A deg) (firedAbove (A.fl (1 / 1000)) deg rs c), roundedAct A deg r ≠ 0 := fun r hr =>
    h0 r (hs.perm.mem_iff.1 hr)
  have hlen : (sortDesc (roundedAct A deg) (firedAbove (A.fl (1 / 1000)) deg rs c)).length ≤ rs.length := by
    rw [hs.perm.length_eq]; exact List.length_filter_le _ _
  have hln : sortDesc (roundedAct A deg) (firedAbove (A.fl (1 / 1000)) deg rs c) ≠ [] := by
    intro h
    rw [h] at hs
    exact hne (List.length_eq_zero_iff.1 hs.perm.length_eq.symm)
  unfold cFactualF
  rw [classFiredF_ok hdeg]
  simp only [py_bind_ok]
  generalize sortDesc (roundedAct A deg) (firedAbove (A.fl (1 / 1000)) deg rs c) = l at *
  cases l with
  | nil => exact absurd rfl hln
  | cons p l =>
    obtain ⟨k, hk, h1, h2, h3⟩ := cLoopF_ok l (fun r hr => hdeg r (hsub r (by simp [hr]))) (fun r hr => h0' r (by simp [hr])) lam beta p
      (roundedAct A deg p)
    have htk : ∀ j, |sumFrom A deg (roundedAct A deg p) (l.take j) - mass deg (p :: l.take j)| ≤ massError u η rs.length := by
      intro j
      rw [sumFrom_cons hA]
      refine sumFrom_near hA h01 _ (fun r hr => hsub r ?_) ?_
      · rcases List.mem_cons.1 hr with rfl | hr
        · simp
        · simp [List.mem_of_mem_take hr]
      · simp only [List.length_cons, List.length_take] at hlen ⊢
        omega
    refine ⟨p :: l.take k, l.drop k, ?_, by simp, ?_, ?_, ?_⟩
    · simp only [actF_ok (hdeg p (hsub p (by simp))), py_bind_ok, h1, py_pure]
    · rw [List.cons_append, List.take_append_drop]; exact hs
    · intro front x y back hout
      have hl' : p :: l = front ++ x :: y :: (back ++ l.drop k) := by
        rw [← List.take_append_drop k l, ← List.cons_append, hout]
        simp
      have hj : front.length < k := by
        have := congrArg List.length hout
        simp only [List.length_append, List.length_cons, List.length_take] at this
        omega
      have hx : (p :: l)[front.length]? = some x := by rw [hl']; simp
      have hy : l[front.length]? = some y := by
        have : (p :: l)[front.length + 1]? = some y := by rw [hl']; simp
        simpa using this
      have hpre : p :: l.take front.length = front ++ [x] := by
        have : (p :: l).take (front.length + 1) = front ++ [x] := by
          rw [hl']
          simp [List.take_append]
        simpa using this
      by_cases hr : A.fl (roundedAct A deg x / roundedAct A deg y) ≤ A.fl (1 + lam)
      · left
        exact ratio_le hA h01 (hsub x (by rw [hl']; simp)) (hsub y (by rw [hl']; simp)) (h0' y (by rw [hl']; simp)) hl hr
      · right
        have hn : ¬ ∀ b, beta = some b → b ≤ sumFrom A deg (roundedAct A deg p) (l.take front.length) := fun hb =>
          h2 _ hj ⟨x, y, hx, hy, not_le.1 hr, hb⟩
        push Not at hn
        obtain ⟨b, hb, hlt⟩ := hn
        refine ⟨b, hb, ?_⟩
        have := abs_le.1 (htk front.length)
        rw [hpre] at this
        linarith [this.1]
    · intro y back hrest
      have hlt : k < l.length := by
        by_contra h
        rw [List.drop_eq_nil_of_le (by omega)] at hrest
        exact absurd hrest (by simp)
      obtain ⟨x, y', hx, hy, hr, hb⟩ := h3 hlt
      have hyy : y' = y := by
        have : (l.drop k)[0]? = some y := by rw [hrest]; rfl
        rw [List.getElem?_drop, Nat.add_zero, hy] at this
        exact Option.some.inj this
      subst hyy
      refine ⟨(p :: l).take k, x, ?_, ?_, ?_⟩
      · have : (p :: l).take (k + 1) = (p :: l).take k ++ [x] := by
          rw [List.take_add_one, hx]; rfl
        simpa using this
      · exact ratio_gt hA h01 (hsub x (List.mem_of_getElem? hx)) (hsub y' (by simp [List.mem_of_getElem? hy]))
          (h0' y' (by simp [List.mem_of_getElem? hy])) hl hsmall hr
      · intro b hbb
        have := abs_le.1 (htk k)
        linarith [hb b hbb, this.2]

/-- with no fired rule of the class the outcomes are those of exact arithmetic: an empty sum divided by zero, an empty list, a missing first rule. -/
theorem C177_none_fired [LinearOrder C] (hdeg : ∀ r ∈ rs, matching r = .ok (deg r)) (c : C) (lam : K) (beta : Option K)
    (he : firedAbove (A.fl (1 / 1000)) deg rs c = []) :
    mFactualF A matching rs c = .error .zeroDivision ∧ ((∃ r ∈ rs, r.consequent ≠ c) → mrFactualF A matching rs c = .ok []) ∧
      cFactualF A matching rs c lam beta = .error .indexError := by
  have hcf := classFiredF_ok (A := A) hdeg c
  rw [he] at hcf
  have hcf' : classFiredF A matching rs c = .ok [] := hcf
  refine ⟨?_, ?_, ?_⟩
  · unfold mFactualF
    rw [hcf']
    simp [sumActF, pyDivF]
  · intro hex
    obtain ⟨rt, hrt, -⟩ := robustThresholdF_ok (A := A) hdeg c hex
    unfold mrFactualF
    rw [hcf', py_bind_ok, hrt, py_bind_ok]
    rfl
  · unfold cFactualF
    rw [hcf']
    rfl

end

/-! ### Examples for C176 and C177 -/

/-- two classes; the first rule of class 1 out-votes class 0. -/
def exMRules3 : List (Rule String Nat ℚ) :=
  [⟨[("a", "low")], 1, 1 / 2⟩, ⟨[("b", "low")], 1, 1⟩, ⟨[("c", "low")], 0, 1 / 4⟩, ⟨[("b", "low")], 0, 1 / 2⟩, ⟨[("c", "low")], 1, 1 / 64⟩]

example : (∀ r ∈ exMRules3, r.matching exMInst = .ok ((fun _ => dbl01) r)) ∧ UnitRules (fun _ => dbl01) exMRules3 ∧
    (∃ r ∈ exMRules3, r.consequent ≠ 1) ∧
    mrFactualF binary64 (fun r => r.matching exMInst) exMRules3 1 = .ok [⟨[("b", "low")], 1, 1⟩] := by
  unfold UnitRules
  decide +kernel

/-- with `lam = 1` the second rule is kept (half the activation of the first, a quotient of 2) and the third is not; with a
`beta` that is not reached all are kept. -/
example : (∀ r ∈ exMRules3, r.matching exMInst = .ok ((fun _ => dbl01) r)) ∧ UnitRules (fun _ => dbl01) exMRules3 ∧
    (∀ r ∈ firedAbove (binary64.fl (1 / 1000)) (fun _ => dbl01) exMRules3 1, binary64.fl (ruleAct (fun _ => dbl01) r) ≠ 0) ∧
    firedAbove (binary64.fl (1 / 1000)) (fun _ => dbl01) exMRules3 1 ≠ [] ∧
    cFactualF binary64 (fun r => r.matching exMInst) exMRules3 1 1 none = .ok [⟨[("b", "low")], 1, 1⟩, ⟨[("a", "low")], 1, 1 / 2⟩] ∧
    cFactualF binary64 (fun r => r.matching exMInst) exMRules3 1 1 (some 1) =
      .ok [⟨[("b", "low")], 1, 1⟩, ⟨[("a", "low")], 1, 1 / 2⟩, ⟨[("c", "low")], 1, 1 / 64⟩] ∧
    cFactualF binary64 (fun r => r.matching exMInst) exMRules3 1 (1 / 2) none = .ok [⟨[("b", "low")], 1, 1⟩] := by
  unfold UnitRules
  decide +kernel

/-- C177 in double precision. -/
theorem C177_binary64 {V C : Type} [DecidableEq C] {matching : Rule V C ℚ → Py ℚ} {deg : Rule V C ℚ → ℚ} {rs : List (Rule V C ℚ)}
    (hdeg : ∀ r ∈ rs, matching r = .ok (deg r)) (h01 : UnitRules deg rs) (c : C) (lam : ℚ) (hl : 0 ≤ lam) (beta : Option ℚ)
    (h0 : ∀ r ∈ firedAbove (binary64.fl (1 / 1000)) deg rs c, binary64.fl (ruleAct deg r) ≠ 0)
    (hne : firedAbove (binary64.fl (1 / 1000)) deg rs c ≠ []) :
    ∃ out rest, cFactualF binary64 matching rs c lam beta = .ok out ∧ out ≠ [] ∧
      SortedDesc (fun r => binary64.fl (ruleAct deg r)) (firedAbove (binary64.fl (1 / 1000)) deg rs c) (out ++ rest) ∧
      (∀ front x y back, out = front ++ x :: y :: back →
        ruleAct deg x ≤ ratioUp (2 ^ (-53 : ℤ)) (2 ^ (-1075 : ℤ)) lam * (ruleAct deg y + actError (2 ^ (-53 : ℤ)) (2 ^ (-1075 : ℤ))) +
          actError (2 ^ (-53 : ℤ)) (2 ^ (-1075 : ℤ)) ∨
        ∃ b, beta = some b ∧ mass deg (front ++ [x]) < b + massError (2 ^ (-53 : ℤ)) (2 ^ (-1075 : ℤ)) rs.length) ∧
      (∀ y back, rest = y :: back → ∃ front x, out = front ++ [x] ∧
        ratioDown (2 ^ (-53 : ℤ)) (2 ^ (-1075 : ℤ)) lam * (ruleAct deg y - actError (2 ^ (-53 : ℤ)) (2 ^ (-1075 : ℤ))) ≤
          ruleAct deg x + actError (2 ^ (-53 : ℤ)) (2 ^ (-1075 : ℤ)) ∧
        ∀ b, beta = some b → b ≤ mass deg out + massError (2 ^ (-53 : ℤ)) (2 ^ (-1075 : ℤ)) rs.length) :=
  C177_c_factual binary64_lawful (by decide +kernel) hdeg h01 c lam hl beta h0 hne

/-! ### C178 -/

section
variable {A : Arith K} {u η : K}

theorem sumValuesF_error (inst : Inst K) (f : String) (vs : List String) (e : PyErr)
    (h : sumValuesF A inst f vs = .error e) : e = .keyError := by
  unfold sumValuesF at h
  generalize (0 : K) = a at h
  induction vs generalizing a with
  | nil => cases h
  | cons v vs ih =>
    rw [List.foldlM_cons, py_bind_eq_error] at h
    rcases h with h | ⟨b, -, h⟩
    · rw [py_bind_eq_error] at h
      rcases h with h | ⟨x, -, h⟩
      · exact (lookup2_error _ _ _ _ h).1
      · cases h
    · exact ih b h

theorem sumValuesF_unknown (inst : Inst K) (f : String) (vs : List String) (h : ∃ v ∈ vs, ¬ Known inst f v) :
    sumValuesF A inst f vs = .error .keyError := by
  cases hs : sumValuesF A inst f vs with
  | error e => rw [sumValuesF_error _ _ _ _ hs]
  | ok x =>
    exfalso
    unfold sumValuesF at hs
    generalize (0 : K) = a at hs
    induction vs generalizing a with
    | nil => simp at h
    | cons v vs ih =>
      rw [List.foldlM_cons, py_bind_eq_ok] at hs
      obtain ⟨b, h1, h2⟩ := hs
      rw [py_bind_eq_ok] at h1
      obtain ⟨y, hy, -⟩ := h1
      rw [lookup2_ok_iff] at hy
      obtain ⟨w, hw, hk⟩ := h
      rcases List.mem_cons.1 hw with rfl | hw
      · exact hk ⟨y, hy⟩
      · exact ih ⟨w, hw, hk⟩ b h2

theorem sumValuesF_ok (inst : Inst K) (f : String) (vs : List String) (deg : String → K)
    (h : ∀ v ∈ vs, HasDegree inst f v (deg v)) : sumValuesF A inst f vs = .ok ((vs.map deg).foldl (fun s x => A.fl (s + x)) 0) := by
  unfold sumValuesF
  generalize (0 : K) = a
  induction vs generalizing a with
  | nil => rfl
  | cons v vs ih =>
    rw [List.foldlM_cons, (lookup2_ok_iff _ _ _ _).2 (h v (by simp))]
    exact ih (fun w hw => h w (by simp [hw])) _

theorem setsError_mono (hA : Lawful A u η) {k n : Nat} (h : k ≤ n) : (k : K) * (u * n + η) * (1 + u) ^ k ≤ setsError u η n := by
  have hu := hA.u_nonneg
  have hη := hA.η_nonneg
  have hk : (k : K) ≤ n := by exact_mod_cast h
  unfold setsError
  refine mul_le_mul (mul_le_mul_of_nonneg_right hk (by positivity)) (pow_le_pow_right₀ (by linarith) h) (by positivity) (by positivity)

theorem sum_degrees_near (hA : Lawful A u η) {xs : List K} (h : ∀ x ∈ xs, 0 ≤ x ∧ x ≤ 1) {n : Nat} (hn : xs.length ≤ n) :
    |xs.foldl (fun s x => A.fl (s + x)) 0 - xs.sum| ≤ setsError u η n := by
  have hf : List.Forall₂ (fun x x' => 0 ≤ x ∧ x ≤ 1 ∧ |x' - x| ≤ (0 : K)) xs xs := by
    rw [List.forall₂_same]
    intro x hx
    exact ⟨(h x hx).1, (h x hx).2, by simp⟩
  have := fold_near_agg hA le_rfl n hf 0 0 0 (by simpa using hn) le_rfl (by simp) (by simp)
  rw [zero_add, zero_add] at this
  refine this.trans ?_
  rw [zero_add]
  exact setsError_mono hA hn

/-- **C178**: matching a rule with several sets per condition in floating point raises `ValueError` for a rule without conditions, is 0 as soon as a
feature or set is missing, and otherwise differs from the exact matching (C17) by at most the rounding error of a sum of as many degrees as the
longest condition has; it is not negative. -/
theorem C178_matching_multi (hA : Lawful A u η) (r : Rule (List String) C K) (inst : Inst K) :
    (r.antecedent = [] → r.matchingMultiF A inst = .error .valueError) ∧
    (r.antecedent ≠ [] → (∃ p ∈ r.antecedent, ∃ v ∈ p.2, ¬ Known inst p.1 v) → r.matchingMultiF A inst = .ok 0) ∧
    (r.antecedent ≠ [] → ∀ deg : String → String → K, ∀ n : Nat,
      (∀ p ∈ r.antecedent, p.2.length ≤ n ∧ ∀ v ∈ p.2, HasDegree inst p.1 v (deg p.1 v) ∧ 0 ≤ deg p.1 v ∧ deg p.1 v ≤ 1) →
      ∃ m m', r.matchingMultiF A inst = .ok m' ∧ 0 ≤ m' ∧ |m' - m| ≤ setsError u η n ∧
        IsLeastOf m (r.antecedent.map (fun p => (p.2.map (deg p.1)).sum))) := by
  refine ⟨?_, ?_, ?_⟩
  · intro h
    unfold Rule.matchingMultiF
    rw [h]; rfl
  · intro _ h
    unfold Rule.matchingMultiF
    rw [mapM_error_eq _ _ .keyError]
    · rfl
    · intro p _ e' he; exact sumValuesF_error _ _ _ _ he
    · obtain ⟨p, hp, hv⟩ := h
      exact ⟨p, hp, sumValuesF_unknown _ _ _ hv⟩
  · intro hne deg n hdeg
    obtain ⟨m, hm, hleast⟩ := (C17_matching_multi r inst).2.2 hne deg (fun p hp v hv => ((hdeg p hp).2 v hv).1)
    unfold Rule.matchingMultiF
    rw [mapM_ok_of_forall (g := fun p => (p.2.map (deg p.1)).foldl (fun s x => A.fl (s + x)) 0) (h := fun p hp =>
      sumValuesF_ok _ _ _ _ (fun v hv => ((hdeg p hp).2 v hv).1))]
    have hnear : ∀ p ∈ r.antecedent, |(p.2.map (deg p.1)).foldl (fun s x => A.fl (s + x)) 0 - (p.2.map (deg p.1)).sum| ≤ setsError u η n := by
      intro p hp
      apply sum_degrees_near hA
      · intro x hx
        obtain ⟨v, hv, rfl⟩ := List.mem_map.1 hx
        exact ((hdeg p hp).2 v hv).2
      · simpa using (hdeg p hp).1
    have hnn : ∀ xs : List K, (∀ x ∈ xs, 0 ≤ x) → ∀ a : K, 0 ≤ a → 0 ≤ xs.foldl (fun s x => A.fl (s + x)) a := by
      intro xs
      induction xs with
      | nil => intro _ a ha; exact ha
      | cons x xs ih =>
        intro h a ha
        refine ih (fun y hy => h y (by simp [hy])) _ ?_
        have := hA.mono 0 (a + x) (add_nonneg ha (h x (by simp)))
        rwa [hA.zero] at this
    simp only [matchDegrees]
    cases hm' : pyMin (r.antecedent.map (fun p => (p.2.map (deg p.1)).foldl (fun s x => A.fl (s + x)) 0)) with
    | error e => exact absurd (List.map_eq_nil_iff.1 ((pyMin_eq_error_iff _ _).1 hm').1) hne
    | ok m' =>
      obtain ⟨h1, h2⟩ := (pyMin_eq_ok_iff _ _).1 hm'
      obtain ⟨g1, g2⟩ := hleast
      obtain ⟨p, hp, hpe⟩ := List.mem_map.1 h1
      obtain ⟨q, hq, hqe⟩ := List.mem_map.1 g1
      refine ⟨m, m', rfl, ?_, ?_, ⟨g1, g2⟩⟩
      · rw [← hpe]
        apply hnn _ _ _ le_rfl
        intro x hx
        obtain ⟨v, hv, rfl⟩ := List.mem_map.1 hx
        exact ((hdeg p hp).2 v hv).2.1
      · have a1 := abs_le.1 (hnear p hp)
        have a2 := abs_le.1 (hnear q hq)
        have b1 := h2 _ (List.mem_map_of_mem hq)
        have b2 := g2 _ (List.mem_map_of_mem hp)
        rw [abs_le]
        constructor <;> linarith [a1.1, a1.2, a2.1, a2.2]

end

/-- the exact sum of the three degrees is rounded. -/
example : (⟨[("a", ["low", "mid", "high"]), ("b", ["low"])], 1, 1⟩ : Rule (List String) Nat ℚ).matchingMultiF binary64
      [("a", [("low", dbl01), ("mid", dbl01), ("high", dbl01)]), ("b", [("low", 1)])] = .ok (binary64.fl (binary64.fl (dbl01 + dbl01) + dbl01)) ∧
    binary64.fl (binary64.fl (dbl01 + dbl01) + dbl01) ≠ 3 * dbl01 := by
  decide +kernel

/-! ### Without roundings -/

section exact
variable [LinearOrder C] (matching : Rule V C K → Py K) (rs : List (Rule V C K)) (c : C)

/-- without roundings, the computation in floating point is the exact one. -/
theorem factualF_exact (lam : K) (beta : Option K) : mFactualF exactArith matching rs c = mFactual matching rs c ∧
    mrFactualF exactArith matching rs c = mrFactual matching rs c ∧
    cFactualF exactArith matching rs c lam beta = cFactual matching rs c lam beta := by
  have hmr : ∀ (rt : K) (l : List (Rule V C K)) (ad : K), mrLoopF exactArith matching rt ad l = mrLoop matching rt ad l := by
    intro rt l
    induction l with
    | nil => intros; rfl
    | cons r l ih => intro ad; unfold mrLoopF mrLoop; simp only [exactArith, id] at ih ⊢; simp only [ih]; rfl
  have hc : ∀ (l : List (Rule V C K)) (p a : K), cLoopF exactArith matching lam beta p a l = cLoop matching lam beta p a l := by
    intro l
    induction l with
    | nil => intros; rfl
    | cons r l ih => intro p a; unfold cLoopF cLoop; simp only [exactArith, id] at ih ⊢; simp only [ih]; rfl
  refine ⟨rfl, ?_, ?_⟩
  · unfold mrFactualF mrFactual
    simp only [hmr]
    rfl
  · unfold cFactualF cFactual
    simp only [hc]
    rfl

end exact

end Teacher
