import Verif.Spec.RoundedCf
import Verif.Props.RoundedRules
import Verif.Lemmas.Rule

/-! # Weighted vote in floating point (C179) -/

namespace Teacher
open Spec
set_option linter.unusedSectionVars false

variable {V C K : Type} [Field K] [LinearOrder K] [IsStrictOrderedRing K] [DecidableEq C]
variable {A : Arith K} {u η : K} {matching : Rule V C K → Py K} {deg : Rule V C K → K} {rs : List (Rule V C K)}

theorem voteStepF_ok {r : Rule V C K} (h : matching r = .ok (deg r)) (d : Dict C K) :
    voteStepF A matching d r = .ok (Dict.set d r.consequent (A.fl ((Dict.get? d r.consequent).getD 0 + roundedAct A deg r))) := by
  unfold voteStepF
  rw [actF_ok h]
  rfl

/-- the computed vote of a class is the sum of its rules' activations, from left to right. -/
theorem votesF_ok (l : List (Rule V C K)) (h : ∀ r ∈ l, matching r = .ok (deg r)) (d : Dict C K) :
    ∃ d', l.foldlM (voteStepF A matching) d = .ok d' ∧
      Dict.keys d' = (l.map Rule.consequent).foldl insKey (Dict.keys d) ∧
      ∀ c, (Dict.get? d' c).getD 0 = sumFrom A deg ((Dict.get? d c).getD 0) (l.filter (fun r => r.consequent = c)) := by
  induction l generalizing d with
  | nil => exact ⟨d, rfl, rfl, fun c => by simp [sumFrom]⟩
  | cons r l ih =>
    obtain ⟨d', h1, h2, h3⟩ := ih (fun r hr => h r (by simp [hr]))
      (Dict.set d r.consequent (A.fl ((Dict.get? d r.consequent).getD 0 + roundedAct A deg r)))
    refine ⟨d', ?_, ?_, ?_⟩
    · rw [List.foldlM_cons, voteStepF_ok (h r (by simp))]; exact h1
    · rw [h2, keys_set_insKey]; rfl
    · intro c
      rw [h3 c, Dict.get?_set]
      by_cases hc : r.consequent = c
      · subst hc
        rw [List.filter_cons_of_pos (by simp)]
        simp only [if_true, Option.getD_some]
        rfl
      · rw [List.filter_cons_of_neg (by simpa using hc)]
        simp [hc]

theorem weightedVoteWithF_ok (h : ∀ r ∈ rs, matching r = .ok (deg r)) (hne : rs ≠ []) :
    ∃ c, weightedVoteWithF A matching rs = .ok c ∧ c ∈ rs.map Rule.consequent ∧
      (∀ c' ∈ rs.map Rule.consequent, sumFrom A deg 0 (rs.filter (fun r => r.consequent = c')) ≤ sumFrom A deg 0 (rs.filter (fun r => r.consequent = c))) := by
  obtain ⟨d, h1, h2, h3⟩ := votesF_ok (A := A) rs h []
  have hval : ∀ c, (Dict.get? d c).getD 0 = sumFrom A deg 0 (rs.filter (fun r => r.consequent = c)) := by
    intro c; rw [h3 c]; simp
  have hkeys : ∀ c, c ∈ Dict.keys d ↔ c ∈ rs.map Rule.consequent := by
    intro c; rw [h2, mem_foldl_insKey]; simp [Dict.keys]
  have hnek : Dict.keys d ≠ [] := by
    intro he
    obtain ⟨r, hr⟩ := List.exists_mem_of_ne_nil rs hne
    have := (hkeys r.consequent).2 (List.mem_map_of_mem hr)
    rw [he] at this; simp at this
  obtain ⟨c, hc⟩ := pyMax_ok_of_ne_nil (fun c => (Dict.get? d c).getD 0) _ hnek
  obtain ⟨m1, m2, -⟩ := pyMax_eq_ok _ _ _ hc
  refine ⟨c, ?_, (hkeys c).1 m1, ?_⟩
  · unfold weightedVoteWithF
    rw [h1]; exact hc
  · intro c' hc'
    have := m2 c' ((hkeys c').2 hc')
    simpa [hval] using this

/-- **C179**: the weighted vote computed in floating point answers a class of the rules whose exact activation is the largest up to twice the
rounding error of a sum of activations; it is the exact winner when that one leads by more than this. -/
theorem C179_weighted_vote (hA : Lawful A u η) (hdeg : ∀ r ∈ rs, matching r = .ok (deg r)) (h01 : UnitRules deg rs) (hne : rs ≠ []) :
    ∃ c, weightedVoteWithF A matching rs = .ok c ∧ c ∈ rs.map Rule.consequent ∧
      (∀ c' ∈ rs.map Rule.consequent, activation deg rs c' ≤ activation deg rs c + 2 * massError u η rs.length) ∧
      ∀ c₀ ∈ rs.map Rule.consequent,
        (∀ c' ∈ rs.map Rule.consequent, c' ≠ c₀ → activation deg rs c' + 2 * massError u η rs.length < activation deg rs c₀) →
        c = c₀ ∧ weightedVoteWith matching rs = .ok c₀ := by
  obtain ⟨c, h1, h2, h3⟩ := weightedVoteWithF_ok (A := A) hdeg hne
  have hcl : ∀ c', |sumFrom A deg 0 (rs.filter (fun r => r.consequent = c')) - activation deg rs c'| ≤ massError u η rs.length := fun c' =>
    sumFrom_near hA h01 _ (fun r hr => (List.mem_filter.1 hr).1) (List.length_filter_le _ _)
  have h4 : ∀ c' ∈ rs.map Rule.consequent, activation deg rs c' ≤ activation deg rs c + 2 * massError u η rs.length := by
    intro c' hc'
    have a1 := abs_le.1 (hcl c')
    have a2 := abs_le.1 (hcl c)
    linarith [h3 c' hc', a1.1, a2.2]
  refine ⟨c, h1, h2, h4, ?_⟩
  intro c₀ hc₀ hlead
  have hpos : 0 ≤ massError u η rs.length := (abs_nonneg _).trans (hcl c)
  refine ⟨?_, ?_⟩
  · by_contra hcc
    have := hlead c h2 hcc
    linarith [h4 c₀ hc₀]
  · refine weightedVoteWith_eq_of_strict matching deg rs hdeg c₀ hc₀ ?_
    intro c' hc' hcc
    linarith [hlead c' hc' hcc]

/-- without rules there is nothing to choose from. -/
theorem weightedVoteWithF_nil : weightedVoteWithF A matching ([] : List (Rule V C K)) = .error .valueError := rfl

/-- an answer means that every rule was matched. -/
theorem weightedVoteWithF_matched {c : C} (h : weightedVoteWithF A matching rs = .ok c) : rs ≠ [] ∧ ∀ r ∈ rs, ∃ x, matching r = .ok x := by
  refine ⟨(by intro he; rw [he] at h; cases h), ?_⟩
  unfold weightedVoteWithF at h
  rw [py_bind_eq_ok] at h
  obtain ⟨d, hd, -⟩ := h
  clear c
  have aux : ∀ (l : List (Rule V C K)) (d₀ d : Dict C K), l.foldlM (voteStepF A matching) d₀ = .ok d → ∀ r ∈ l, ∃ x, matching r = .ok x := by
    intro l
    induction l with
    | nil => intro _ _ _ r hr; simp at hr
    | cons r l ih =>
      intro d₀ d hd
      rw [List.foldlM_cons, py_bind_eq_ok] at hd
      obtain ⟨d₁, h1, h2⟩ := hd
      unfold voteStepF actF at h1
      rw [py_bind_eq_ok] at h1
      obtain ⟨a, ha, -⟩ := h1
      rw [py_bind_eq_ok] at ha
      obtain ⟨x, hx, -⟩ := ha
      intro y hy
      rcases List.mem_cons.1 hy with rfl | hy
      · exact ⟨x, hx⟩
      · exact ih _ _ h2 y hy
  exact aux rs [] d hd

/-- without roundings, the computation in floating point is the exact one. -/
theorem weightedVoteWithF_exact : weightedVoteWithF exactArith matching rs = weightedVoteWith matching rs := by
  have : voteStepF exactArith matching = voteStep (C := C) matching := by
    funext d r
    unfold voteStepF voteStep actF
    cases matching r <;> rfl
  unfold weightedVoteWithF weightedVoteWith
  rw [this]

/-- "the computed vote is the exact vote" is false in double precision: class 0 has one rule of activation 1, class 1 has ten rules of activation
0.1; as the double 0.1 is above 1/10, class 1 wins by 5e-17, but the ten rounded additions give 0.9999999999999999. The hypotheses of C179 hold. -/
theorem C179_exact_winner_false :
    (∀ r ∈ (⟨[], 0, 1⟩ : Rule String Nat ℚ) :: List.replicate 10 ⟨[], 1, dbl01⟩, (fun _ => Except.ok 1 : Rule String Nat ℚ → Py ℚ) r = .ok ((fun _ => 1) r)) ∧
    UnitRules (fun _ => 1) ((⟨[], 0, 1⟩ : Rule String Nat ℚ) :: List.replicate 10 ⟨[], 1, dbl01⟩) ∧
    weightedVoteWith (fun _ => .ok 1) ((⟨[], 0, 1⟩ : Rule String Nat ℚ) :: List.replicate 10 ⟨[], 1, dbl01⟩) = .ok 1 ∧
    weightedVoteWithF binary64 (fun _ => .ok 1) ((⟨[], 0, 1⟩ : Rule String Nat ℚ) :: List.replicate 10 ⟨[], 1, dbl01⟩) = .ok 0 := by
  unfold UnitRules
  decide +kernel

end Teacher
