import Verif.Props.RoundedBNear

/-! # The theorems about floating point in double precision -/

set_option linter.unusedSectionVars false

namespace Teacher
open Spec FB

/-- the unit roundoff and the underflow of double precision. -/
local notation "u64" => ((2 : ℚ) ^ (-53 : ℤ))
local notation "η64" => ((2 : ℚ) ^ (-1075 : ℤ))

theorem u64_eq : u64 = 1 / 9007199254740992 := by norm_num

theorem η64_le : η64 ≤ 1 / 2 ^ 100 := by
  rw [show (1 : ℚ) / 2 ^ 100 = 2 ^ (-100 : ℤ) by norm_num]
  exact zpow_le_zpow_right₀ (by norm_num) (by norm_num)

theorem η64_nonneg : 0 ≤ η64 := (two_zpow_pos _).le

theorem degreeError64 : degreeError u64 η64 ≤ 1 / 2 ^ 51 := by
  have := η64_le
  unfold degreeError
  rw [u64_eq]
  refine le_trans (add_le_add_right this _) ?_
  norm_num

theorem growth64 {n : Nat} (hn : n ≤ 1000) : (1 + u64) ^ n ≤ 3 / 2 := by
  rw [u64_eq]
  refine (pow_le_pow_right₀ (by norm_num) hn).trans ?_
  have h : (1 + 1 / 9007199254740992 : ℚ) ≤ 1 + 1 / 1000000 := by norm_num
  refine (pow_le_pow_left₀ (by norm_num) h 1000).trans ?_
  rw [show 1000 = 250 * 4 by norm_num, pow_mul]
  have h1 : (1 + 1 / 1000000 : ℚ) ^ 250 ≤ 11 / 10 := by norm_num
  refine (pow_le_pow_left₀ (by positivity) h1 4).trans ?_
  norm_num

theorem unionError64 {n : Nat} (hn : n ≤ 100) : unionError u64 η64 n ≤ 1 / 10 ^ 11 := by
  have h1 := degreeError64
  have h2 := η64_le
  have h3 := growth64 (show n ≤ 1000 by omega)
  have hn' : (n : ℚ) ≤ 100 := by exact_mod_cast hn
  have h0 : (0 : ℚ) ≤ n := Nat.cast_nonneg n
  have hd := degreeError_nonneg binary64_lawful
  have he := η64_nonneg
  have hu : (0 : ℚ) ≤ u64 := (two_zpow_pos _).le
  unfold unionError
  generalize degreeError u64 η64 = d at *
  generalize η64 = η at *
  have hu' := u64_eq
  generalize u64 = u at *
  have a1 : d + (u * n + η) ≤ 1 / 2 ^ 51 + (u * 100 + 1 / 2 ^ 100) :=
    add_le_add h1 (add_le_add (mul_le_mul_of_nonneg_left hn' hu) h2)
  have a2 : (n : ℚ) * (d + (u * n + η)) ≤ 100 * (1 / 2 ^ 51 + (u * 100 + 1 / 2 ^ 100)) :=
    mul_le_mul hn' a1 (by positivity) (by norm_num)
  refine (mul_le_mul a2 h3 (by positivity) (by positivity)).trans ?_
  rw [hu']
  norm_num

theorem voteError64 (v : Voting) {ε δ : ℚ} (h0 : 0 ≤ ε) (hε : ε ≤ δ) {n : Nat} (hn : n ≤ 1000) :
    voteError v u64 η64 ε n ≤ 1500 * δ + 1 / (4 * 10 ^ 9) := by
  have h2 := η64_le
  have h3 := growth64 hn
  have hn' : (n : ℚ) ≤ 1000 := by exact_mod_cast hn
  have hn0 : (0 : ℚ) ≤ n := Nat.cast_nonneg n
  have he := η64_nonneg
  have hu : (0 : ℚ) ≤ u64 := (two_zpow_pos _).le
  have hδ := h0.trans hε
  have hu' := u64_eq
  generalize η64 = η at *
  generalize u64 = u at *
  cases v with
  | agg =>
    simp only [voteError]
    have a1 : ε + u + η + (u * n + η) ≤ δ + u + 1 / 2 ^ 100 + (u * 1000 + 1 / 2 ^ 100) :=
      add_le_add (add_le_add (add_le_add hε le_rfl) h2) (add_le_add (mul_le_mul_of_nonneg_left hn' hu) h2)
    have a2 : (n : ℚ) * (ε + u + η + (u * n + η)) ≤ 1000 * (δ + u + 1 / 2 ^ 100 + (u * 1000 + 1 / 2 ^ 100)) :=
      mul_le_mul hn' a1 (by positivity) (by norm_num)
    refine (mul_le_mul a2 h3 (by positivity) (by positivity)).trans ?_
    rw [hu']
    have : (1500 : ℚ) * (1 / 9007199254740992 + 1 / 2 ^ 100 + (1 / 9007199254740992 * 1000 + 1 / 2 ^ 100)) ≤ 1 / (4 * 10 ^ 9) := by norm_num
    nlinarith
  | max =>
    simp only [voteError]
    rw [hu']
    have : (1 / 9007199254740992 : ℚ) + 1 / 2 ^ 100 ≤ 1 / (4 * 10 ^ 9) := by norm_num
    linarith

/-- **C168** in double precision: the degree that `FuzzyContinuousSet.membership` computes for a double in a triangle of doubles is a double in
`[0,1]`, exact outside the triangle and in its point, and differs from the exact degree by at most `2⁻⁵¹` (4.5e-16). -/
theorem C168_binary64 (s : CSet ℚ) (hab : s.a ≤ s.b) (hbc : s.b ≤ s.c) (hs : FloatSet binary64 s) (x : ℚ) (hx : IsFloat binary64 x) :
    ∃ m e, s.membershipF binary64 [.num x] = .ok [m] ∧ s.membership [.num x] = .ok [e] ∧ 0 ≤ m ∧ m ≤ 1 ∧ IsFloat binary64 m ∧
      (x = s.b → m = 1) ∧ (x ≠ s.b → x ≤ s.a ∨ s.c ≤ x → m = 0) ∧ |m - e| ≤ 1 / 2 ^ 51 := by
  obtain ⟨m, e, h1, h2, h3, h4, h5, h6, h7, h8⟩ := C168_degree binary64_lawful s hab hbc hs x hx
  exact ⟨m, e, h1, h2, h3, h4, h5, h6, h7, h8.trans degreeError64⟩

variable {C : Type} [LinearOrder C]

/-- **C169** in double precision: a fitted FDT with at most 1000 leaves predicts the class of the exact formula wherever its vote is ahead by
more than `10⁻⁹`. -/
theorem C169_binary64 (ent : List ℚ → List C → ℚ) (ord : List String → List String) (p : FDTParams ℚ)
    (hs : ProperSets p.vars) (hv : ∀ v ∈ p.vars, FloatVar binary64 v) (X : List (List (Cell ℚ))) (hXf : FloatTable binary64 X) (y : List C)
    (t : FNode C ℚ) (h : fdtFitF binary64 ent ord p fdtNew X y = .ok t) (hl : (leafPaths t).length ≤ 1000) (v : Voting)
    (X' : List (List (Cell ℚ))) (hR : Rectangular X') (hX' : FloatTable binary64 X') (cs : List C)
    (hc : List.Forall₂ (fun row c => ∃ L, RowLeaves min row t L ∧ c ∈ y ∧ ∀ c', c' ≠ c → vote v L c' + 1 / 10 ^ 9 < vote v L c) X' cs) :
    fdtPredictF binary64 min v t X' = .ok [cs] ∧ fdtPredict min v t X' = .ok [cs] := by
  refine C169_fitted binary64_lawful ent ord p hs hv X hXf y t h v X' hR hX' cs (hc.imp ?_)
  rintro row c ⟨L, h1, h2, h3⟩
  refine ⟨L, h1, h2, fun c' hc' => lt_of_le_of_lt ?_ (h3 c' hc')⟩
  have := voteError64 v (degreeError_nonneg binary64_lawful) degreeError64 hl
  have h4 : (2 : ℚ) * (1500 * (1 / 2 ^ 51) + 1 / (4 * 10 ^ 9)) ≤ 1 / 10 ^ 9 := by norm_num
  have : votingError v u64 η64 (leafPaths t).length ≤ 1500 * (1 / 2 ^ 51) + 1 / (4 * 10 ^ 9) := this
  linarith

/-- **C172** in double precision: a fitted FBDT with at most 1000 leaves and at most 100 sets per variable predicts the class of the exact
formula wherever its vote is ahead by more than `10⁻⁷`. -/
theorem C172_binary64 [NanSort ℚ] (ent : List ℚ → List C → ℚ) (p : FDTParams ℚ)
    (hn : ∀ v ∈ p.vars, (v.sets.map FSet.name).Nodup) (hv : ∀ v ∈ p.vars, FloatVar binary64 v)
    (hN : ∀ v ∈ p.vars, v.sets.length ≤ 100) (X : List (List (Cell ℚ))) (hXf : FloatTable binary64 X)
    (y : List C) (t : BNode C ℚ) (h : fbdtFitF binary64 ent p fbdtNew X y = .ok t) (hl : (bLeafPaths t).length ≤ 1000) (v : Voting)
    (X' : List (List (Cell ℚ))) (hR : Rectangular X') (hX' : FloatTable binary64 X') (cs : List C)
    (hc : List.Forall₂ (fun row c => ∃ L, BRowLeaves min row t L ∧ c ∈ y ∧ ∀ c', c' ≠ c → vote v L c' + 1 / 10 ^ 7 < vote v L c) X' cs) :
    fbdtPredictF binary64 min v t X' = .ok [cs] ∧ fbdtPredict min v t X' = .ok [cs] := by
  refine C172_fitted binary64_lawful ent p hn hv 100 hN X hXf y t h v X' hR hX' cs (hc.imp ?_)
  rintro row c ⟨L, h1, h2, h3⟩
  refine ⟨L, h1, h2, fun c' hc' => lt_of_le_of_lt ?_ (h3 c' hc')⟩
  have := voteError64 v (unionError_nonneg binary64_lawful 100) (unionError64 (le_refl 100)) hl
  have h4 : (2 : ℚ) * (1500 * (1 / 10 ^ 11) + 1 / (4 * 10 ^ 9)) ≤ 1 / 10 ^ 7 := by norm_num
  linarith

/-- **C174** in double precision (partial, see `C174_memberships_partial`): the memberships of the training examples to a node are within
`10⁻¹¹` of the exact degrees of its tests if no variable is tested twice. -/
theorem C174_binary64_partial [NanSort ℚ] (ent : List ℚ → List C → ℚ) (p : FDTParams ℚ)
    (hn : ∀ v ∈ p.vars, (v.sets.map FSet.name).Nodup) (hv : ∀ v ∈ p.vars, FloatVar binary64 v)
    (hN : ∀ v ∈ p.vars, v.sets.length ≤ 100) (X : List (List (Cell ℚ))) (hXf : FloatTable binary64 X)
    (y : List C) (t : BNode C ℚ) (h : fbdtFitF binary64 ent p fbdtNew X y = .ok t) :
    ∀ q ∈ bNodePaths t, (q.1.map BTest.att).Nodup →
      List.Forall₂ (fun row m => ∀ m0, BLeafDegree min row q.1 m0 → |m - m0| ≤ 1 / 10 ^ 11) X q.2.mu := by
  intro q hq hnd
  refine (C174_memberships_partial binary64_lawful ent p hn hv 100 hN X hXf y t h q hq).imp ?_
  intro row m hm m0 hm0
  exact ((hm m0 hm0).2 hnd).trans (unionError64 (le_refl 100))

/-- the hypotheses hold for the triangle 0, 1.1, 8.6 and the double 7.11, and for the tree of `C174_memberships_false`, which has three leaves
and a node whose path tests no variable twice. -/
example : FloatSet binary64 ⟨"1", 0, dbl11, dbl86, false⟩ ∧ IsFloat binary64 dbl711 ∧ (0 : ℚ) ≤ dbl11 ∧ dbl11 ≤ dbl86 ∧
    (∀ v ∈ exDblParams.vars, (v.sets.map FSet.name).Nodup) ∧ (∀ v ∈ exDblParams.vars, v.sets.length ≤ 100) ∧
    (∀ v ∈ exDblParams.vars, FloatVar binary64 v) ∧ FloatTable binary64 exDblX ∧
    ∃ tF, fbdtFitF binary64 exEnt exDblParams fbdtNew exDblX exNearY = .ok tF ∧
      ∃ q ∈ bNodePaths tF, (q.1.map BTest.att).Nodup ∧ q.1.map BTest.idxs = [[1, 2]] := by
  obtain ⟨h1, h2, -, -, -, t, tF, -, h3, -, h4, -⟩ := C174_memberships_false
  refine ⟨by unfold FloatSet IsFloat; decide +kernel, by unfold IsFloat; decide +kernel, by decide +kernel, by decide +kernel,
    by decide +kernel, by decide +kernel, h1, h2, tF, h3, ?_⟩
  have hm : [(0, [1, 2])] ∈ nearTests tF := by rw [h4]; simp
  obtain ⟨q, hq, he⟩ := List.mem_map.1 hm
  obtain ⟨path, node⟩ := q
  rcases path with _ | ⟨a, _ | _⟩ <;> simp at he
  exact ⟨_, hq, by simp, by simp [he]⟩

end Teacher
