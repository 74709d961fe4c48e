import Verif.Props.RoundedSets

/-! # C203: `simmilarity` in floating point -/

set_option linter.unusedSectionVars false

namespace Teacher
open Spec

variable {K : Type} [Field K] [LinearOrder K] [IsStrictOrderedRing K] {A : Arith K} {u η : K}

/-- **C203**, proved part: the computed `simmilarity` is symmetric and never above 1; it is not negative for sets whose left sides are not wider than
their right sides; a set compared with itself gives 0 if its left side is at least as wide as the right one, otherwise 1, unless both halves are
rounded to the same number. Missing: the other sets, for which it is false (`C203_simmilarity_false`). -/
theorem C203_simmilarity_partial (hA : Lawful A u η) (s o : CSet K) :
    s.simmilarityF A o = o.simmilarityF A s ∧ s.simmilarityF A o ≤ 1 ∧
    (s.b - s.a ≤ s.c - s.b → o.b - o.a ≤ o.c - o.b → 0 ≤ s.simmilarityF A o) ∧
    (s.c - s.b ≤ s.b - s.a → s.simmilarityF A s = 0) ∧
    (s.b - s.a < s.c - s.b → s.simmilarityF A s = 1 ∨ A.fl (A.fl (s.b - s.a) / 2) = A.fl (A.fl (s.c - s.b) / 2)) := by
  have half : ∀ x y : K, x ≤ y → A.fl (A.fl x / 2) ≤ A.fl (A.fl y / 2) := fun x y h =>
    hA.mono _ _ (div_le_div_of_nonneg_right (hA.mono _ _ h) (by norm_num))
  have pos : ∀ x y : K, A.fl (A.fl x / 2) < A.fl (A.fl y / 2) → 0 < A.fl (A.fl (A.fl y / 2) - A.fl (A.fl x / 2)) := by
    intro x y h
    obtain ⟨d, e, b⟩ := hA.sub_delta (x := A.fl (A.fl y / 2)) (y := A.fl (A.fl x / 2)) (hA.idem _) (hA.idem _)
    rw [abs_le] at b
    rw [e]
    exact mul_pos (sub_pos.2 h) (by linarith [hA.u_lt])
  refine ⟨?_, ?_, ?_, ?_, ?_⟩
  · unfold CSet.simmilarityF
    dsimp only
    by_cases h : A.fl (A.fl (s.b - s.a) / 2) ≥ A.fl (A.fl (o.c - o.b) / 2) ∨ A.fl (A.fl (o.b - o.a) / 2) ≥ A.fl (A.fl (s.c - s.b) / 2)
    · rw [if_pos h, if_pos h.symm]
    · rw [if_neg h, if_neg (fun h' => h h'.symm), min_comm (A.fl (A.fl (s.c - s.b) / 2)), max_comm (A.fl (A.fl (s.b - s.a) / 2)),
        max_comm (A.fl (A.fl (s.c - s.b) / 2)), min_comm (A.fl (A.fl (s.b - s.a) / 2))]
  · unfold CSet.simmilarityF
    dsimp only
    split
    · exact zero_le_one
    · rename_i h
      push Not at h
      generalize A.fl (A.fl (s.b - s.a) / 2) = a at *
      generalize A.fl (A.fl (s.c - s.b) / 2) = b at *
      generalize A.fl (A.fl (o.b - o.a) / 2) = c at *
      generalize A.fl (A.fl (o.c - o.b) / 2) = d at *
      have hle : A.fl (min b d - max a c) ≤ A.fl (max b d - min a c) := hA.mono _ _ (by
        have h1 := min_le_left b d
        have h2 := le_max_left b d
        have h3 := le_max_left a c
        have h4 := min_le_left a c
        linarith)
      refine (hA.mono _ 1 ?_).trans hA.one.le
      have h0 : 0 ≤ A.fl (max b d - min a c) := by
        rw [← hA.zero]
        apply hA.mono
        have h2 := le_max_right b d
        have h4 := min_le_left a c
        linarith [h.1]
      exact div_le_one_of_le₀ hle h0
  · intro hs ho
    have e1 := half _ _ hs
    have e2 := half _ _ ho
    unfold CSet.simmilarityF
    dsimp only
    split
    · exact le_refl _
    · rename_i h
      push Not at h
      generalize A.fl (A.fl (s.b - s.a) / 2) = a at *
      generalize A.fl (A.fl (s.c - s.b) / 2) = b at *
      generalize A.fl (A.fl (o.b - o.a) / 2) = c at *
      generalize A.fl (A.fl (o.c - o.b) / 2) = d at *
      have nn : ∀ x : K, 0 ≤ x → 0 ≤ A.fl x := fun x hx => hA.zero ▸ hA.mono _ _ hx
      refine nn _ (div_nonneg (nn _ ?_) (nn _ ?_))
      · have : max a c ≤ min b d := by
          apply max_le <;> apply le_min <;> linarith [h.1, h.2]
        linarith
      · have h2 := le_max_right b d
        have h4 := min_le_left a c
        linarith [h.1]
  · intro h
    unfold CSet.simmilarityF
    dsimp only
    exact if_pos (.inl (half _ _ h))
  · intro h
    rcases (half _ _ h.le).lt_or_eq with hlt | heq
    · left
      unfold CSet.simmilarityF
      dsimp only
      rw [if_neg (by push Not; exact ⟨hlt, hlt⟩)]
      simp only [min_self, max_self]
      rw [div_self (pos _ _ hlt).ne', hA.one]
    · exact Or.inr heq

/-- **C203**: sets of different kinds raise `ValueError`, and two discrete sets have similarity 1 or 0, as they are equal or not. -/
theorem C203_kinds (A : Arith K) (s : CSet K) (d d' : DSet K) :
    FSet.simmilarityF A (.cont s) (.disc d) = .error .valueError ∧ FSet.simmilarityF A (.disc d) (.cont s) = .error .valueError ∧
    FSet.simmilarityF A (.disc d) (.disc d') = .ok (if d.name = d'.name ∧ d.value = d'.value then 1 else 0) ∧
    FSet.simmilarityF A (.cont s) (.cont s) = .ok (s.simmilarityF A s) := by
  refine ⟨rfl, rfl, ?_, rfl⟩
  simp only [FSet.simmilarityF, Except.ok.injEq]
  cases d; cases d'
  simp

/-- **C203** is false in double precision too: a symmetric set has similarity 0 with itself, there are sets with a negative similarity, and two
sets far apart have similarity 1. -/
theorem C203_simmilarity_false :
    (∃ s : CSet ℚ, FloatSet binary64 s ∧ s.a < s.b ∧ s.b < s.c ∧ s.simmilarityF binary64 s = 0) ∧
    (∃ s o : CSet ℚ, FloatSet binary64 s ∧ FloatSet binary64 o ∧ s.a < s.b ∧ s.b < s.c ∧ o.a ≤ o.b ∧ o.b < o.c ∧ s.simmilarityF binary64 o < 0) ∧
    (∃ s o : CSet ℚ, FloatSet binary64 s ∧ FloatSet binary64 o ∧ s.a ≤ s.b ∧ s.b < s.c ∧ o.a ≤ o.b ∧ o.b < o.c ∧ s.c + 1000 < o.a ∧
      s.simmilarityF binary64 o = 1) := by
  refine ⟨⟨{ name := "s", a := 0, b := 1, c := 2 }, ?_⟩,
    ⟨{ name := "s", a := 0, b := 10, c := 12 }, { name := "o", a := 0, b := 0, c := 40 }, ?_⟩,
    ⟨{ name := "s", a := 0, b := 0, c := 2 }, { name := "o", a := 2000, b := 2000, c := 2002 }, ?_⟩⟩ <;>
  (unfold FloatSet IsFloat; decide +kernel)

/-- a non-trivial case: sets with positive similarity below 1 in double precision. -/
example : (⟨"s", 0, 1, 4, false⟩ : CSet ℚ).simmilarityF binary64 ⟨"o", 0, 2, 10, false⟩ = binary64.fl (1 / 7) := by decide +kernel

end Teacher
