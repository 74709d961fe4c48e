import Verif.Props.RoundedVote
import Verif.Props.Counterfactual

/-! # Counterfactual explanations in floating point (C180-C182) -/

namespace Teacher
open Spec
set_option linter.unusedSectionVars false

variable {C K : Type} [Field K] [LinearOrder K] [IsStrictOrderedRing K]

/-! ### Errors of the distances -/

section
variable {A : Arith K} {u η : K}

theorem fl_nonneg' (hA : Lawful A u η) {x : K} (h : 0 ≤ x) : 0 ≤ A.fl x := by
  have := hA.mono _ _ h
  rwa [hA.zero] at this

theorem fl_le_one' (hA : Lawful A u η) {x : K} (h : x ≤ 1) : A.fl x ≤ 1 := by
  have := hA.mono _ _ h
  rwa [hA.one] at this

/-- rounding a number of absolute value at most `B`. -/
theorem fl_err (hA : Lawful A u η) {x B : K} (h : |x| ≤ B) : |A.fl x - x| ≤ u * B + η :=
  (hA.err x).trans (by linarith [mul_le_mul_of_nonneg_left h hA.u_nonneg])

/-- rounded additions of computed terms. -/
theorem fold_near_gen (hA : Lawful A u η) {ε S : K} (hε : 0 ≤ ε) (hS : 0 ≤ S) {xs xs' : List K}
    (h : List.Forall₂ (fun x x' => 0 ≤ x ∧ |x' - x| ≤ ε) xs xs') : ∀ (a a' e : K), 0 ≤ a → a + xs.sum ≤ S → |a' - a| ≤ e →
      |xs'.foldl (fun s x => A.fl (s + x)) a' - (a + xs.sum)| ≤ (e + xs.length * (ε + (u * S + η))) * (1 + u) ^ xs.length := by
  have hu := hA.u_nonneg
  have hη := hA.η_nonneg
  induction h with
  | nil => intro a a' e _ _ h; simpa using h
  | @cons x x' xs xs' hx hxs ih =>
    intro a a' e h0 hs ha
    have hxsn : 0 ≤ xs.sum := by
      apply List.sum_nonneg
      intro y hy
      obtain ⟨y', -, h1⟩ := forall₂_mem_left hxs y hy
      exact h1.1
    rw [List.sum_cons] at hs
    have he : 0 ≤ e := (abs_nonneg _).trans ha
    have h1 : |(a' + x') - (a + x)| ≤ e + ε := by
      have := abs_add_le (a' - a) (x' - x)
      rw [show (a' - a) + (x' - x) = (a' + x') - (a + x) by ring] at this
      linarith [hx.2]
    have h2 : |a' + x'| ≤ S + (e + ε) := by
      have := abs_le.1 h1
      rw [abs_le]
      constructor <;> linarith [hx.1, this.1, this.2]
    have h3 := fl_err hA h2
    have h4 : |A.fl (a' + x') - (a + x)| ≤ (1 + u) * (e + (ε + (u * S + η))) := by
      have := abs_add_le (A.fl (a' + x') - (a' + x')) ((a' + x') - (a + x))
      rw [show (A.fl (a' + x') - (a' + x')) + ((a' + x') - (a + x)) = A.fl (a' + x') - (a + x) by ring] at this
      have h5 : 0 ≤ u * (u * S + η) := by positivity
      nlinarith [this, h3, h1]
    have h6 := ih (a + x) (A.fl (a' + x')) _ (add_nonneg h0 hx.1) (by linarith) h4
    rw [List.foldl_cons, List.sum_cons, List.length_cons]
    rw [← add_assoc]
    refine h6.trans ?_
    have hp : (0 : K) ≤ (1 + u) ^ xs.length := by positivity
    have hB : 0 ≤ ε + (u * S + η) := by positivity
    rw [pow_succ, mul_comm ((1 + u) ^ xs.length) (1 + u), ← mul_assoc]
    apply mul_le_mul_of_nonneg_right _ hp
    push_cast
    have : 0 ≤ u * (xs.length * (ε + (u * S + η))) := by positivity
    nlinarith

theorem loopError_mono (hA : Lawful A u η) {ε S : K} (hε : 0 ≤ ε) (hS : 0 ≤ S) {k n : Nat} (h : k ≤ n) :
    (0 + (k : K) * (ε + (u * S + η))) * (1 + u) ^ k ≤ loopError u η ε S n := by
  have hu := hA.u_nonneg
  have hη := hA.η_nonneg
  have hk : (k : K) ≤ n := by exact_mod_cast h
  unfold loopError
  rw [zero_add]
  refine mul_le_mul (mul_le_mul_of_nonneg_right hk (by positivity)) (pow_le_pow_right₀ (by linarith) h) (by positivity) (by positivity)

theorem loopError_nonneg (hA : Lawful A u η) {ε S : K} (hε : 0 ≤ ε) (hS : 0 ≤ S) (n : Nat) : 0 ≤ loopError u η ε S n := by
  have hu := hA.u_nonneg
  have hη := hA.η_nonneg
  unfold loopError
  positivity

/-- a loop whose computed terms are near exact ones. -/
theorem sumLoopF_near {α : Type} {ε B : K} (f f' : α → Py K) :
    ∀ (l : List α), (∀ k ∈ l, ∀ x', f' k = .ok x' → ∃ x, f k = .ok x ∧ 0 ≤ x ∧ x ≤ B ∧ |x' - x| ≤ ε) →
    ∀ (s' s r' : K), l.foldlM (fun acc k => do let d ← f' k; pure (A.fl (acc + d))) s' = .ok r' →
    ∃ xs xs', List.Forall₂ (fun x x' => 0 ≤ x ∧ |x' - x| ≤ ε) xs xs' ∧ xs.length = l.length ∧ (∀ x ∈ xs, x ≤ B) ∧
      r' = xs'.foldl (fun s x => A.fl (s + x)) s' ∧ l.foldlM (fun acc k => do let d ← f k; pure (acc + d)) s = .ok (s + xs.sum) := by
  intro l
  induction l with
  | nil =>
    intro _ s' s r' h
    refine ⟨[], [], .nil, rfl, by simp, ?_, by simp⟩
    simpa using (Except.ok.inj h).symm
  | cons k l ih =>
    intro hf s' s r' h
    rw [List.foldlM_cons, py_bind_eq_ok] at h
    obtain ⟨b, h1, h2⟩ := h
    rw [py_bind_eq_ok] at h1
    obtain ⟨x', hx', hb⟩ := h1
    have hb' : A.fl (s' + x') = b := Except.ok.inj hb
    subst hb'
    obtain ⟨x, hx, hx0, hxB, hxe⟩ := hf k (by simp) x' hx'
    obtain ⟨xs, xs', g1, g2, g3, g4, g5⟩ := ih (fun k hk => hf k (by simp [hk])) _ (s + x) _ h2
    refine ⟨x :: xs, x' :: xs', .cons ⟨hx0, hxe⟩ g1, by simp [g2], ?_, by simpa using g4, ?_⟩
    · intro y hy
      rcases List.mem_cons.1 hy with rfl | hy
      · exact hxB
      · exact g3 y hy
    · rw [List.foldlM_cons, hx]
      simp only [py_bind_ok, py_pure]
      refine g5.trans ?_
      rw [List.sum_cons, add_assoc]

theorem sum_le_length_mul {B : K} : ∀ (xs : List K), (∀ x ∈ xs, x ≤ B) → xs.sum ≤ xs.length * B := by
  intro xs h
  induction xs with
  | nil => simp
  | cons x xs ih =>
    rw [List.sum_cons, List.length_cons]
    push_cast
    have := ih (fun y hy => h y (by simp [hy]))
    have := h x (by simp)
    linarith

/-- the loop from an exact count of at most `k`, with terms in `[0,1]`. -/
theorem sumLoopF_count {α : Type} (hA : Lawful A u η) {ε : K} (hε : 0 ≤ ε) (f f' : α → Py K) (l : List α)
    (hf : ∀ k ∈ l, ∀ x', f' k = .ok x' → ∃ x, f k = .ok x ∧ 0 ≤ x ∧ x ≤ 1 ∧ |x' - x| ≤ ε) (k n : Nat) (hn : k + l.length ≤ n) {r' : K}
    (h : sumLoopF A f' (k : K) l = .ok r') :
    ∃ r, sumLoop f (k : K) l = .ok r ∧ 0 ≤ r ∧ r ≤ n ∧ |r' - r| ≤ loopError u η ε n n := by
  obtain ⟨xs, xs', g1, g2, g3, g4, g5⟩ := sumLoopF_near f f' l hf (k : K) (k : K) r' h
  have hsn : 0 ≤ xs.sum := by
    apply List.sum_nonneg
    intro y hy
    obtain ⟨y', -, h1⟩ := forall₂_mem_left g1 y hy
    exact h1.1
  have hle : (k : K) + xs.sum ≤ n := by
    have h1 := sum_le_length_mul xs g3
    rw [g2, mul_one] at h1
    have : ((k : K) + l.length) ≤ n := by exact_mod_cast hn
    linarith
  refine ⟨_, g5, by positivity, hle, ?_⟩
  rw [g4]
  refine (fold_near_gen hA hε (Nat.cast_nonneg n) g1 (k : K) (k : K) 0 (Nat.cast_nonneg k) hle (by simp)).trans ?_
  exact loopError_mono hA hε (Nat.cast_nonneg n) (by omega)

theorem literalDistanceF_near (hA : Lawful A u η) {clause : Dict String K} {v w : String} {x' : K} (h : literalDistanceF A clause v w = .ok x') :
    ∃ x, literalDistance clause v w = .ok x ∧ 0 ≤ x ∧ x ≤ 1 ∧ x' = A.fl x ∧ |x' - x| ≤ u + η := by
  unfold literalDistanceF at h
  rw [py_bind_eq_ok] at h
  obtain ⟨i, hi, h⟩ := h
  rw [py_bind_eq_ok] at h
  obtain ⟨j, hj, h⟩ := h
  have hidx : ∀ (y : String) (m : Nat), pyIndex (Dict.keys clause) y = .ok m → m < clause.length := by
    intro y m hm
    unfold pyIndex at hm
    split at hm
    · rename_i hy
      obtain rfl := Except.ok.inj hm
      have := List.idxOf_lt_length_iff.2 hy
      simpa [Dict.keys] using this
    · cases hm
  have hi' := hidx v i hi
  have hj' := hidx w j hj
  unfold pyDivF at h
  split at h
  · cases h
  · rename_i hd
    obtain rfl := Except.ok.inj h
    have hlen : (1 : K) ≤ clause.length := by exact_mod_cast (by omega : 1 ≤ clause.length)
    have hpos : (0 : K) < (clause.length : K) - 1 := lt_of_le_of_ne (by linarith) (Ne.symm hd)
    have h0 : 0 ≤ |(i : K) - (j : K)| / ((clause.length : K) - 1) := div_nonneg (abs_nonneg _) hpos.le
    have h1 : |(i : K) - (j : K)| / ((clause.length : K) - 1) ≤ 1 := by
      rw [div_le_one hpos, abs_le]
      have a1 : (i : K) + 1 ≤ clause.length := by exact_mod_cast hi'
      have a2 : (j : K) + 1 ≤ clause.length := by exact_mod_cast hj'
      have b1 : (0 : K) ≤ i := Nat.cast_nonneg i
      have b2 : (0 : K) ≤ j := Nat.cast_nonneg j
      constructor <;> linarith
    refine ⟨|(i : K) - (j : K)| / ((clause.length : K) - 1), ?_, h0, h1, rfl, ?_⟩
    · unfold literalDistance
      rw [hi, py_bind_ok, hj, py_bind_ok, pyDiv, if_neg hd]
    · have := fl_err hA (B := 1) (x := |(i : K) - (j : K)| / ((clause.length : K) - 1)) (by rw [abs_of_nonneg h0]; exact h1)
      linarith

theorem weightedLiteralDistanceF_near (hA : Lawful A u η) {clause : Dict String K} (h01 : ∀ q ∈ clause, 0 ≤ q.2 ∧ q.2 ≤ 1) {v w : String} {x' : K}
    (h : weightedLiteralDistanceF A clause v w = .ok x') :
    ∃ x, weightedLiteralDistance clause v w = .ok x ∧ 0 ≤ x ∧ x ≤ 1 ∧ |x' - x| ≤ 3 * (u + η) := by
  unfold weightedLiteralDistanceF at h
  rw [py_bind_eq_ok] at h
  obtain ⟨q', hq', h⟩ := h
  rw [py_bind_eq_ok] at h
  obtain ⟨m, hm, h⟩ := h
  obtain rfl := Except.ok.inj h
  obtain ⟨q, hq, q0, q1, he, hqe⟩ := literalDistanceF_near hA hq'
  have hm01 : 0 ≤ m ∧ m ≤ 1 := by
    have : (w, m) ∈ clause := by
      unfold Dict.get at hm
      cases hg : Dict.get? clause w with
      | none => rw [hg] at hm; cases hm
      | some m' =>
        rw [hg] at hm
        obtain rfl := Except.ok.inj hm
        exact Dict.mem_of_get? hg
    exact h01 _ this
  have hu := hA.u_nonneg
  have hη := hA.η_nonneg
  have q0' : 0 ≤ q' := he ▸ fl_nonneg' hA q0
  have q1' : q' ≤ 1 := he ▸ fl_le_one' hA q1
  have w0 : 0 ≤ A.fl (1 - m) := fl_nonneg' hA (by linarith)
  have w1 : A.fl (1 - m) ≤ 1 := fl_le_one' hA (by linarith)
  have we := fl_err hA (x := 1 - m) (B := 1) (by rw [abs_of_nonneg (by linarith)]; linarith)
  refine ⟨q * (1 - m), ?_, mul_nonneg q0 (by linarith), mul_le_one₀ q1 (by linarith) (by linarith), ?_⟩
  · unfold weightedLiteralDistance
    rw [hq, py_bind_ok, hm, py_bind_ok]
    rfl
  · have e1 := fl_err hA (x := q' * A.fl (1 - m)) (B := 1) (by rw [abs_of_nonneg (mul_nonneg q0' w0)]; exact mul_le_one₀ q1' w0 w1)
    have e2 : |q' * A.fl (1 - m) - q * (1 - m)| ≤ 2 * (u + η) := by
      have : q' * A.fl (1 - m) - q * (1 - m) = q' * (A.fl (1 - m) - (1 - m)) + (q' - q) * (1 - m) := by ring
      rw [this]
      refine (abs_add_le _ _).trans ?_
      rw [abs_mul, abs_mul, abs_of_nonneg q0', abs_of_nonneg (by linarith : 0 ≤ 1 - m)]
      have b1 := mul_le_mul q1' we (abs_nonneg _) zero_le_one
      have b2 := mul_le_mul hqe (by linarith : 1 - m ≤ 1) (by linarith) (by positivity)
      linarith
    have := abs_add_le (A.fl (q' * A.fl (1 - m)) - q' * A.fl (1 - m)) (q' * A.fl (1 - m) - q * (1 - m))
    rw [sub_add_sub_cancel] at this
    linarith

theorem get_mem {α : Type} {d : Dict String α} {k : String} {v : α} (h : Dict.get d k = .ok v) : (k, v) ∈ d := by
  unfold Dict.get at h
  cases hg : Dict.get? d k with
  | none => rw [hg] at h; cases h
  | some m' =>
    rw [hg] at h
    obtain rfl := Except.ok.inj h
    exact Dict.mem_of_get? hg

theorem categorical_le (ident : String → Bool) (e cf : Dict String String) (num : List String) : categoricalDistance ident e cf num ≤ e.length := by
  unfold categoricalDistance
  refine (List.length_filter_le _ _).trans ?_
  simp [Dict.keys]

/-- the computed distance to an instance is near the exact one. -/
theorem cfDistInstanceF_near (hA : Lawful A u η) {inst : Inst K} (h01 : UnitInst inst) {ident : String → Bool} {cf : Rule String C K}
    {num : List String} {d' : K} (h : cfDistInstanceF A ident cf inst num = .ok d') :
    ∃ d, cfDistInstance ident cf inst num = .ok d ∧ |d' - d| ≤ iDistError u η (inst.length + num.length) := by
  unfold cfDistInstanceF at h
  rw [py_bind_eq_ok] at h
  obtain ⟨fz, hfz, h⟩ := h
  simp only at h
  have hlen : fz.length = inst.length := by
    have := hfz
    unfold fuzzified at this
    rw [mapM_ok_iff] at this
    exact this.length_eq.symm
  have hu := hA.u_nonneg
  have hη := hA.η_nonneg
  obtain ⟨r, h1, -, -, h2⟩ := sumLoopF_count hA (ε := 3 * (u + η)) (by positivity) (fun k => do
    let clause ← Dict.get inst k
    let v ← Dict.get fz k
    let w ← Dict.get cf.anteDict k
    weightedLiteralDistance clause v w) _ _ (by
      intro k _ x' hx'
      rw [py_bind_eq_ok] at hx'
      obtain ⟨clause, hc, hx'⟩ := hx'
      rw [py_bind_eq_ok] at hx'
      obtain ⟨v, hv, hx'⟩ := hx'
      rw [py_bind_eq_ok] at hx'
      obtain ⟨w, hw, hx'⟩ := hx'
      obtain ⟨x, g1, g2, g3, g4⟩ := weightedLiteralDistanceF_near hA (fun q hq => h01 _ (get_mem hc) q hq) hx'
      exact ⟨x, by rw [hc, py_bind_ok, hv, py_bind_ok, hw, py_bind_ok, g1], g2, g3, g4⟩) _ (inst.length + num.length) (by
      have a1 := categorical_le ident fz cf.anteDict num
      have a2 := List.length_filter_le (fun x => decide (x ∈ Dict.keys fz ∧ x ∈ Dict.keys cf.anteDict)) num
      omega) h
  refine ⟨r, ?_, h2⟩
  unfold cfDistInstance
  rw [hfz]
  exact h1

theorem anteDict_length (r : Rule String C K) : (r.anteDict).length ≤ r.antecedent.length := by
  unfold Rule.anteDict Dict.ofPairs
  have hset : ∀ (d : Dict String String) k v, (Dict.set d k v).length ≤ d.length + 1 := by
    intro d k v
    induction d with
    | nil => simp [Dict.set]
    | cons p d ih =>
      unfold Dict.set
      split
      · simp
      · simp only [List.length_cons]; omega
  have aux : ∀ (l : List (String × String)) (d : Dict String String), (l.foldl (fun d p => Dict.set d p.1 p.2) d).length ≤ d.length + l.length := by
    intro l
    induction l with
    | nil => simp
    | cons p l ih =>
      intro d
      rw [List.foldl_cons, List.length_cons]
      have := ih (Dict.set d p.1 p.2)
      have := hset d p.1 p.2
      omega
  simpa using aux r.antecedent []

/-- the computed distance between two rules is near the exact one. -/
theorem cfDistRuleF_near (hA : Lawful A u η) {inst : Inst K} {ident : String → Bool} {cf rule : Rule String C K}
    {num : List String} {tau d' : K} (ht : 0 ≤ tau ∧ tau ≤ 1) {n : Nat}
    (hn : cf.antecedent.length + rule.antecedent.length + num.length ≤ n) (h : cfDistRuleF A ident cf rule inst num tau = .ok d') :
    ∃ d, cfDistRule ident cf rule inst num tau = .ok d ∧ 0 ≤ d ∧ d ≤ n ∧ |d' - d| ≤ ruleDistError u η n := by
  have hu := hA.u_nonneg
  have hη := hA.η_nonneg
  have l1 := anteDict_length cf
  have l2 := anteDict_length rule
  unfold cfDistRuleF at h
  simp only at h
  rw [py_bind_eq_ok] at h
  obtain ⟨x', hx', h⟩ := h
  obtain rfl := Except.ok.inj h
  obtain ⟨x, h1, x0, xn, hxe⟩ := sumLoopF_count hA (ε := u + η) (by positivity) (fun k => do
    let clause ← Dict.get inst k
    let v ← Dict.get rule.anteDict k
    let w ← Dict.get cf.anteDict k
    literalDistance clause v w) _ _ (by
      intro k _ x' hx'
      rw [py_bind_eq_ok] at hx'
      obtain ⟨clause, hc, hx'⟩ := hx'
      rw [py_bind_eq_ok] at hx'
      obtain ⟨v, hv, hx'⟩ := hx'
      rw [py_bind_eq_ok] at hx'
      obtain ⟨w, hw, hx'⟩ := hx'
      obtain ⟨x, g1, g2, g3, -, g4⟩ := literalDistanceF_near hA hx'
      exact ⟨x, by rw [hc, py_bind_ok, hv, py_bind_ok, hw, py_bind_ok, g1], g2, g3, g4⟩) _ n (by
      have a1 := categorical_le ident rule.anteDict cf.anteDict num
      have a2 := List.length_filter_le (fun x => decide (x ∈ Dict.keys rule.anteDict ∧ x ∈ Dict.keys cf.anteDict)) num
      omega) hx'
  change |x' - x| ≤ litSumError u η n at hxe
  generalize hsym : (((Dict.keys rule.anteDict).filter (fun x => x ∉ Dict.keys cf.anteDict)).length +
    ((Dict.keys cf.anteDict).filter (fun x => x ∉ Dict.keys rule.anteDict)).length) = sym
  have hsn : (sym : K) ≤ n := by
    have a1 := List.length_filter_le (fun x => decide (x ∉ Dict.keys cf.anteDict)) (Dict.keys rule.anteDict)
    have a2 := List.length_filter_le (fun x => decide (x ∉ Dict.keys rule.anteDict)) (Dict.keys cf.anteDict)
    have a3 : (Dict.keys rule.anteDict).length = rule.anteDict.length := by simp [Dict.keys]
    have a4 : (Dict.keys cf.anteDict).length = cf.anteDict.length := by simp [Dict.keys]
    exact_mod_cast (by omega : sym ≤ n)
  have hs0 : (0 : K) ≤ sym := Nat.cast_nonneg _
  have hd0 : 0 ≤ tau * sym + (1 - tau) * x := add_nonneg (mul_nonneg ht.1 hs0) (mul_nonneg (by linarith [ht.2]) x0)
  have hdn : tau * sym + (1 - tau) * x ≤ n := by nlinarith [ht.1, ht.2]
  refine ⟨tau * sym + (1 - tau) * x, ?_, hd0, hdn, ?_⟩
  · unfold cfDistRule
    simp only
    rw [h1, py_bind_ok, hsym]
    rfl
  · unfold ruleDistError
    generalize litSumError u η n = e at hxe ⊢
    have he : 0 ≤ e := (abs_nonneg _).trans hxe
    have ea : |A.fl (tau * sym) - tau * sym| ≤ u * n + η := fl_err hA (by
      rw [abs_of_nonneg (mul_nonneg ht.1 hs0)]
      nlinarith [ht.1, ht.2])
    have s0 : 0 ≤ A.fl (1 - tau) := fl_nonneg' hA (by linarith [ht.2])
    have s1 : A.fl (1 - tau) ≤ 1 := fl_le_one' hA (by linarith [ht.1])
    have se := fl_err hA (x := 1 - tau) (B := 1) (by rw [abs_of_nonneg (by linarith [ht.2])]; linarith [ht.1])
    have hx'n : |x'| ≤ n + e := by
      have := abs_le.1 hxe
      rw [abs_le]
      constructor <;> linarith [this.1, this.2]
    have ep : |A.fl (1 - tau) * x' - (1 - tau) * x| ≤ e + (u + η) * n := by
      have : A.fl (1 - tau) * x' - (1 - tau) * x = A.fl (1 - tau) * (x' - x) + (A.fl (1 - tau) - (1 - tau)) * x := by ring
      rw [this]
      refine (abs_add_le _ _).trans ?_
      rw [abs_mul, abs_mul, abs_of_nonneg s0, abs_of_nonneg x0]
      have b1 := mul_le_mul s1 hxe (abs_nonneg _) zero_le_one
      have b2 := mul_le_mul (show |A.fl (1 - tau) - (1 - tau)| ≤ u + η by linarith) xn x0 (by positivity)
      linarith
    have eb : |A.fl (A.fl (1 - tau) * x') - A.fl (1 - tau) * x'| ≤ u * (n + e) + η := fl_err hA (by
      rw [abs_mul, abs_of_nonneg s0]
      have := mul_le_mul s1 hx'n (abs_nonneg _) zero_le_one
      linarith)
    have ebp : |A.fl (A.fl (1 - tau) * x') - (1 - tau) * x| ≤ e + (u + η) * n + (u * (n + e) + η) := by
      have := abs_add_le (A.fl (A.fl (1 - tau) * x') - A.fl (1 - tau) * x') (A.fl (1 - tau) * x' - (1 - tau) * x)
      rw [sub_add_sub_cancel] at this
      linarith
    generalize A.fl (tau * sym) = a' at *
    generalize A.fl (A.fl (1 - tau) * x') = b' at *
    generalize hE : (u * n + η) + (e + (u + η) * n + (u * (n + e) + η)) = E
    have e1 : |(a' + b') - (tau * sym + (1 - tau) * x)| ≤ E := by
      have := abs_add_le (a' - tau * sym) (b' - (1 - tau) * x)
      rw [show (a' - tau * sym) + (b' - (1 - tau) * x) = (a' + b') - (tau * sym + (1 - tau) * x) by ring] at this
      linarith
    have e2 : |a' + b'| ≤ n + E := by
      have := abs_le.1 e1
      rw [abs_le]
      constructor <;> linarith [this.1, this.2]
    have e3 := fl_err hA e2
    have := abs_add_le (A.fl (a' + b') - (a' + b')) ((a' + b') - (tau * sym + (1 - tau) * x))
    rw [sub_add_sub_cancel] at this
    linarith

theorem ruleDistError_nonneg (hA : Lawful A u η) (n : Nat) : 0 ≤ ruleDistError u η n := by
  have hu := hA.u_nonneg
  have hη := hA.η_nonneg
  have : 0 ≤ litSumError u η n := loopError_nonneg hA (by positivity) (Nat.cast_nonneg n) n
  unfold ruleDistError
  positivity

theorem unitInst_degree {inst : Inst K} (h01 : UnitInst inst) (f s : String) (x : K) (h : HasDegree inst f s x) : 0 ≤ x ∧ x ≤ 1 := by
  obtain ⟨d, h1, h2⟩ := h
  exact h01 _ (Dict.mem_of_get? h1) _ (Dict.mem_of_get? h2)

/-- the computed distance to a factual explanation is near the exact one. -/
theorem fDistF_near (hA : Lawful A u η) {inst : Inst K} (h01 : UnitInst inst) {ident : Nat → String → Bool} {factual : List (Rule String C K)}
    {cf : Rule String C K} {num : List String} {tau d' : K} (ht : 0 ≤ tau ∧ tau ≤ 1) {n : Nat}
    (hn : ∀ r ∈ factual, cf.antecedent.length + r.antecedent.length + num.length ≤ n) (h : fDistF A ident factual inst num tau cf = .ok d') :
    ∃ d, fDist ident factual inst num tau cf = .ok d ∧ 0 ≤ d ∧ |d' - d| ≤ fDistError u η n factual.length := by
  have hu := hA.u_nonneg
  have hη := hA.η_nonneg
  have hE := ruleDistError_nonneg hA n
  have hε : 0 ≤ ruleDistError u η n * (1 + u) + (u * n + η) := by positivity
  obtain ⟨xs, xs', g1, g2, g3, g4, g5⟩ := sumLoopF_near (A := A) (ε := ruleDistError u η n * (1 + u) + (u * n + η)) (B := n)
    (fun p : Rule String C K × Nat => do
      let md ← p.1.matching inst
      let d ← cfDistRule (ident p.2) cf p.1 inst num tau
      pure (md * d)) _ factual.zipIdx (by
      intro p hp x' hx'
      rw [py_bind_eq_ok] at hx'
      obtain ⟨md, hmd, hx'⟩ := hx'
      rw [py_bind_eq_ok] at hx'
      obtain ⟨D', hD', hx'⟩ := hx'
      obtain rfl := Except.ok.inj hx'
      have hpm : p.1 ∈ factual := by
        obtain ⟨r, i⟩ := p
        exact (List.mem_zipIdx' hp).2 ▸ List.getElem_mem _
      obtain ⟨D, hD, D0, Dn, De⟩ := cfDistRuleF_near hA ht (hn _ hpm) hD'
      obtain ⟨m0, m1⟩ := C17_range p.1 inst md hmd (unitInst_degree h01)
      refine ⟨md * D, by rw [hmd, py_bind_ok, hD, py_bind_ok]; rfl, mul_nonneg m0 D0, ?_, ?_⟩
      · nlinarith
      · have e1 : |md * D' - md * D| ≤ ruleDistError u η n := by
          rw [← mul_sub, abs_mul, abs_of_nonneg m0]
          have := mul_le_mul m1 De (abs_nonneg _) zero_le_one
          linarith
        have e2 : |md * D'| ≤ n + ruleDistError u η n := by
          have h0 : 0 ≤ md * D := mul_nonneg m0 D0
          have hn' : md * D ≤ n := by nlinarith
          have := abs_le.1 e1
          rw [abs_le]
          constructor <;> linarith [this.1, this.2]
        have e3 := fl_err hA e2
        have := abs_add_le (A.fl (md * D') - md * D') (md * D' - md * D)
        rw [sub_add_sub_cancel] at this
        linarith) 0 0 d' h
  rw [zero_add] at g5
  have hl : xs.length = factual.length := by simpa using g2
  have hsn : 0 ≤ xs.sum := by
    apply List.sum_nonneg
    intro y hy
    obtain ⟨y', -, h1⟩ := forall₂_mem_left g1 y hy
    exact h1.1
  have hS : 0 + xs.sum ≤ (factual.length : K) * n := by
    rw [zero_add, ← hl]; exact sum_le_length_mul xs g3
  refine ⟨_, g5, hsn, ?_⟩
  rw [g4]
  have := fold_near_gen hA hε (by positivity : (0 : K) ≤ (factual.length : K) * n) g1 0 0 0 le_rfl hS (by simp)
  rw [zero_add] at this
  refine this.trans ?_
  rw [hl]
  exact loopError_mono hA hε (by positivity) le_rfl

end

/-! ### The search -/

section
variable [DecidableEq C] {A : Arith K} {u η : K} {rules : List (Rule String C K)} {inst : Inst K} {c : C}

/-- the changes of the rule flip the computed class, in terms of the model. -/
def FlipsF (A : Arith K) (inst : Inst K) (c : C) (rules : List (Rule String C K)) (r : Rule String C K) : Prop :=
  ∃ inst' ch c', applyChanges r inst = .ok (inst', ch) ∧ weightedVoteF A rules inst' = .ok c' ∧ c' ≠ c

theorem roundedFlips_iff {r : Rule String C K} (hnd : (Dict.keys inst).Nodup) (hne : ∀ p ∈ inst, p.2 ≠ []) :
    RoundedFlips A rules inst c r ↔ FlipsF A inst c rules r := by
  constructor
  · rintro ⟨ch, hch, inst', c', hm, hv, hne'⟩
    obtain ⟨i₂, ch₂, h1, h2⟩ := (leadsTo_iff (vote := weightedVoteF A rules) hnd hne).1 ⟨ch, inst', hch, hm, hv⟩
    exact ⟨i₂, ch₂, c', h1, h2, hne'⟩
  · rintro ⟨inst', ch, c', h1, h2, h3⟩
    obtain ⟨hch, hm⟩ := applyChanges_spec hnd h1
    exact ⟨ch, hch, inst', c', hm, h2, h3⟩

theorem searchLoopF_some {vote : Inst K → Py C} {L : List (Rule String C K × K)} {ch : List (String × String)}
    (h : searchLoopF vote inst c L = .ok (some ch)) :
    ∃ pre x post, L = pre ++ x :: post ∧
      (∀ y ∈ pre, ¬ ∃ inst' ch c', applyChanges y.1 inst = .ok (inst', ch) ∧ vote inst' = .ok c' ∧ c' ≠ c) ∧
      ∃ inst' c', applyChanges x.1 inst = .ok (inst', ch) ∧ vote inst' = .ok c' ∧ c' ≠ c := by
  induction L with
  | nil => simp [searchLoopF] at h
  | cons cf L ih =>
    unfold searchLoopF at h
    rw [py_bind_eq_ok] at h
    obtain ⟨⟨inst', ch'⟩, ho, h⟩ := h
    simp only at h
    rw [py_bind_eq_ok] at h
    obtain ⟨c', hc', h⟩ := h
    split at h
    · rename_i hne
      simp only [py_pure, Except.ok.injEq, Option.some.injEq] at h
      subst h
      exact ⟨[], cf, L, rfl, by simp, inst', c', ho, hc', hne⟩
    · rename_i hne
      obtain ⟨pre, x, post, h1, h2, h3⟩ := ih h
      refine ⟨cf :: pre, x, post, by rw [h1]; rfl, ?_, h3⟩
      intro y hy
      rcases List.mem_cons.1 hy with rfl | hy
      · rintro ⟨i₂, ch₂, c₂, e1, e2, e3⟩
        rw [ho] at e1
        simp only [Except.ok.injEq, Prod.mk.injEq] at e1
        rw [← e1.1, hc'] at e2
        obtain rfl := Except.ok.inj e2
        exact hne e3
      · exact h2 y hy

theorem searchLoopF_none {vote : Inst K → Py C} {L : List (Rule String C K × K)} (h : searchLoopF vote inst c L = .ok none) :
    ∀ y ∈ L, (¬ ∃ inst' ch c', applyChanges y.1 inst = .ok (inst', ch) ∧ vote inst' = .ok c' ∧ c' ≠ c) ∧
      ∃ inst' ch, applyChanges y.1 inst = .ok (inst', ch) ∧ vote inst' = .ok c := by
  induction L with
  | nil => simp
  | cons cf L ih =>
    unfold searchLoopF at h
    rw [py_bind_eq_ok] at h
    obtain ⟨⟨inst', ch'⟩, ho, h⟩ := h
    simp only at h
    rw [py_bind_eq_ok] at h
    obtain ⟨c', hc', h⟩ := h
    split at h
    · simp at h
    · rename_i hne
      intro y hy
      rcases List.mem_cons.1 hy with rfl | hy
      · refine ⟨?_, inst', ch', ho, by rw [hc', not_not.1 hne]⟩
        rintro ⟨i₂, ch₂, c₂, e1, e2, e3⟩
        rw [ho] at e1
        simp only [Except.ok.injEq, Prod.mk.injEq] at e1
        rw [← e1.1, hc'] at e2
        obtain rfl := Except.ok.inj e2
        exact hne e3
      · exact ih h y hy

/-- what the search over the candidates selected by `q` returns. -/
theorem searchF_closest {D : Nat → Rule String C K → Py K} {others : List (Rule String C K)}
    {cfs : List (Rule String C K × K)} (q : K → Bool) (hnd : (Dict.keys inst).Nodup)
    (h : others.zipIdx.mapM (fun p => do let d ← D p.2 p.1; pure (p.1, d)) = .ok cfs) {ch : List (String × String)}
    (hs : searchCfF A inst c rules (cfs.filter (fun p => q p.2)) = .ok (some ch)) :
    ∃ i r d, others[i]? = some r ∧ D i r = .ok d ∧ q d = true ∧ IsChanges r inst ch ∧ RoundedFlipsBy A rules inst c ch ∧
      ∀ j r', others[j]? = some r' → RoundedFlips A rules inst c r' → ∃ d', D j r' = .ok d' ∧ (q d' = true → d ≤ d') := by
  obtain ⟨hlen, hget⟩ := candidates_forall₂ h
  unfold searchCfF at hs
  rw [sortCf_eq] at hs
  obtain ⟨pre, x, post, h1, h2, inst', c', ho, hv, hc'⟩ := searchLoopF_some hs
  obtain ⟨pre', post', hsplit, hpre, hpost⟩ := first_in_sorted Prod.snd (fun y : Rule String C K × K => FlipsF A inst c rules y.1) _
    pre post x h1 h2 ⟨inst', ch, c', ho, hv, hc'⟩
  obtain ⟨hch, hm⟩ := applyChanges_spec hnd ho
  have hx : x ∈ cfs.filter (fun p => q p.2) := by rw [hsplit]; simp
  obtain ⟨hxc, hqx⟩ := List.mem_filter.1 hx
  obtain ⟨i, hi⟩ := List.mem_iff_getElem?.1 hxc
  obtain ⟨r, d⟩ := x
  obtain ⟨e1, e2⟩ := (hget _ _ _).1 hi
  refine ⟨i, r, d, e1, e2, hqx, hch, ⟨inst', c', hm, hv, hc'⟩, ?_⟩
  intro j r' hj hflip
  have hflip' := (roundedFlips_iff hnd (nonempty_of_apply ho)).1 hflip
  have hjlt : j < cfs.length := by
    rw [hlen]
    by_contra hc
    rw [List.getElem?_eq_none (by omega)] at hj; cases hj
  obtain ⟨y, hy⟩ : ∃ y, cfs[j]? = some y := ⟨_, List.getElem?_eq_getElem hjlt⟩
  obtain ⟨r₂, d'⟩ := y
  obtain ⟨f1, f2⟩ := (hget _ _ _).1 hy
  rw [hj] at f1
  obtain rfl := Option.some.inj f1
  refine ⟨d', f2, fun hq => ?_⟩
  have hmem : (r', d') ∈ cfs.filter (fun p => q p.2) := List.mem_filter.2 ⟨List.mem_of_getElem? hy, hq⟩
  rw [hsplit] at hmem
  rcases List.mem_append.1 hmem with hm | hm
  · exact (hpre _ hm hflip').le
  · rcases List.mem_cons.1 hm with he | hm
    · simp only [Prod.mk.injEq] at he
      exact he.2 ▸ le_rfl
    · exact hpost _ hm hflip'

theorem searchF_none {D : Nat → Rule String C K → Py K} {others : List (Rule String C K)}
    {cfs : List (Rule String C K × K)} (q : K → Bool) (hnd : (Dict.keys inst).Nodup)
    (h : others.zipIdx.mapM (fun p => do let d ← D p.2 p.1; pure (p.1, d)) = .ok cfs)
    (hs : searchCfF A inst c rules (cfs.filter (fun p => q p.2)) = .ok none) :
    ∀ i r, others[i]? = some r → ∃ d, D i r = .ok d ∧ (q d = true → ¬ RoundedFlips A rules inst c r) := by
  obtain ⟨hlen, hget⟩ := candidates_forall₂ h
  intro i r hi
  have hlt : i < cfs.length := by
    rw [hlen]
    by_contra hc
    rw [List.getElem?_eq_none (by omega)] at hi; cases hi
  obtain ⟨y, hy⟩ : ∃ y, cfs[i]? = some y := ⟨_, List.getElem?_eq_getElem hlt⟩
  obtain ⟨r₂, d⟩ := y
  obtain ⟨f1, f2⟩ := (hget _ _ _).1 hy
  rw [hi] at f1
  obtain rfl := Option.some.inj f1
  refine ⟨d, f2, ?_⟩
  intro hq hflip
  unfold searchCfF at hs
  rw [sortCf_eq] at hs
  obtain ⟨h1, inst', ch, ho, -⟩ := searchLoopF_none hs (r, d) ((sortAsc_perm _ _).mem_iff.2 (List.mem_filter.2 ⟨List.mem_of_getElem? hy, hq⟩))
  exact h1 ((roundedFlips_iff hnd (nonempty_of_apply ho)).1 hflip)

theorem moved_unit {ch : List (String × String)} {inst' : Inst K} (h01 : UnitInst inst) (h : Moved inst ch inst') : UnitInst inst' := by
  unfold Moved at h
  intro p' hp'
  obtain ⟨p, hp, -, h1, h2⟩ := forall₂_mem_right h p' hp'
  by_cases hex : ∃ v, (p.1, v) ∈ ch
  · obtain ⟨v, hv⟩ := hex
    rw [h1 v hv]
    intro q hq
    obtain ⟨q₀, -, rfl⟩ := List.mem_map.1 hq
    simp only
    split
    · exact ⟨zero_le_one, le_rfl⟩
    · exact ⟨le_rfl, zero_le_one⟩
  · push Not at hex
    rw [h2 hex]
    exact h01 p hp

/-- the exact activations behind a computed vote. -/
theorem vote_activations (hA : Lawful A u η) (h01 : UnitInst inst) (hw : ∀ r ∈ rules, 0 ≤ r.weight ∧ r.weight ≤ 1) {c' : C}
    (h : weightedVoteF A rules inst = .ok c') :
    ∃ deg : Rule String C K → K, (∀ r ∈ rules, r.matching inst = .ok (deg r)) ∧
      ∀ c'' ∈ rules.map Rule.consequent, activation deg rules c'' ≤ activation deg rules c' + 2 * massError u η rules.length := by
  obtain ⟨hne, hm⟩ := weightedVoteWithF_matched h
  have : ∀ r : Rule String C K, ∃ x : K, r ∈ rules → r.matching inst = .ok x := by
    intro r
    by_cases hr : r ∈ rules
    · obtain ⟨x, hx⟩ := hm r hr
      exact ⟨x, fun _ => hx⟩
    · exact ⟨0, fun h => absurd h hr⟩
  choose deg hdeg using this
  refine ⟨deg, hdeg, ?_⟩
  have hunit : UnitRules deg rules := by
    intro r hr
    obtain ⟨a, b⟩ := C17_range r inst (deg r) (hdeg r hr) (unitInst_degree h01)
    exact ⟨a, b, (hw r hr).1, (hw r hr).2⟩
  obtain ⟨c₁, h1, -, h2, -⟩ := C179_weighted_vote hA hdeg hunit hne
  have : weightedVoteF A rules inst = .ok c₁ := h1
  rw [h] at this
  obtain rfl := Except.ok.inj this
  exact h2

end

/-! ### C180-C182 -/

section
variable [DecidableEq C] {A : Arith K} {u η : K}

/-- **C180**: changes returned by `i_counterfactual` in floating point are those of a rule of another class. After them the computed class is some
`c' ≠ c`, and the exact activation of `c'` is the largest up to twice the rounding error of a sum of activations. The exact distance of the rule
is, up to twice the rounding error of a distance, at most that of every rule of another class whose changes flip the computed class. -/
theorem C180_i_counterfactual (hA : Lawful A u η) (ident : Nat → String → Bool) (inst : Inst K) (rules : List (Rule String C K)) (c : C)
    (num : List String) (hnd : (Dict.keys inst).Nodup) (h01 : UnitInst inst) (hw : ∀ r ∈ rules, 0 ≤ r.weight ∧ r.weight ≤ 1)
    (ch : List (String × String)) (h : iCounterfactualF A ident inst rules c num = .ok (some ch)) :
    (∃ inst' c', ∃ deg : Rule String C K → K, Moved inst ch inst' ∧ weightedVoteF A rules inst' = .ok c' ∧ c' ≠ c ∧
      (∀ r ∈ rules, r.matching inst' = .ok (deg r)) ∧
      ∀ c'' ∈ rules.map Rule.consequent, activation deg rules c'' ≤ activation deg rules c' + 2 * massError u η rules.length) ∧
    ∃ i r d, (rules.filter (fun r => r.consequent ≠ c))[i]? = some r ∧ cfDistInstance (ident i) r inst num = .ok d ∧ IsChanges r inst ch ∧
      ∀ j r', (rules.filter (fun r => r.consequent ≠ c))[j]? = some r' → RoundedFlips A rules inst c r' →
        ∃ d', cfDistInstance (ident j) r' inst num = .ok d' ∧ d ≤ d' + 2 * iDistError u η (inst.length + num.length) := by
  unfold iCounterfactualF iCandidatesF at h
  rw [py_bind_eq_ok] at h
  obtain ⟨cfs, h1, h2⟩ := h
  obtain ⟨i, r, d, e1, e2, -, e3, ⟨inst', c', hm, hv, hc'⟩, e4⟩ := searchF_closest (D := fun i r => cfDistInstanceF A (ident i) r inst num)
    (fun _ => true) hnd h1 (by rw [List.filter_eq_self.2 (by simp)]; exact h2)
  obtain ⟨deg, hdeg, hact⟩ := vote_activations hA (moved_unit h01 hm) hw hv
  refine ⟨⟨inst', c', deg, hm, hv, hc', hdeg, hact⟩, ?_⟩
  obtain ⟨x, hx, hxe⟩ := cfDistInstanceF_near hA h01 e2
  refine ⟨i, r, x, e1, hx, e3, ?_⟩
  intro j r' hj hf
  obtain ⟨d', a, b⟩ := e4 j r' hj hf
  obtain ⟨y, hy, hye⟩ := cfDistInstanceF_near hA h01 a
  refine ⟨y, hy, ?_⟩
  have := abs_le.1 hxe
  have := abs_le.1 hye
  linarith [b rfl, (abs_le.1 hxe).1, (abs_le.1 hye).2]

/-- **C180**: `None` means that no rule of another class flips the computed class. -/
theorem C180_i_none (ident : Nat → String → Bool) (inst : Inst K) (rules : List (Rule String C K)) (c : C)
    (num : List String) (hnd : (Dict.keys inst).Nodup) (h : iCounterfactualF A ident inst rules c num = .ok none) :
    ∀ r ∈ rules, r.consequent ≠ c → ¬ RoundedFlips A rules inst c r := by
  intro r hr hc
  unfold iCounterfactualF iCandidatesF at h
  rw [py_bind_eq_ok] at h
  obtain ⟨cfs, h1, h2⟩ := h
  have hmem : r ∈ otherClass rules c := List.mem_filter.2 ⟨hr, by simpa using hc⟩
  obtain ⟨i, hi⟩ := List.mem_iff_getElem?.1 hmem
  obtain ⟨d, -, h3⟩ := searchF_none (D := fun i r => cfDistInstanceF A (ident i) r inst num) (fun _ => true) hnd h1
    (by rw [List.filter_eq_self.2 (by simp)]; exact h2) i r hi
  exact h3 rfl

/-- **C181**: the same for `f_counterfactual`, with `0 ≤ tau ≤ 1`; a rule whose exact distance to the factual explanation is within the rounding
error of zero may be left out of the comparison, because the rules at computed distance 0 are not tried. -/
theorem C181_f_counterfactual (hA : Lawful A u η) (ident : Nat → Nat → String → Bool) (factual : List (Rule String C K)) (inst : Inst K)
    (rules : List (Rule String C K)) (c : C) (num : List String) (tau : K) (ht : 0 ≤ tau ∧ tau ≤ 1) (hnd : (Dict.keys inst).Nodup)
    (h01 : UnitInst inst) (hw : ∀ r ∈ rules, 0 ≤ r.weight ∧ r.weight ≤ 1) (n : Nat)
    (hn : ∀ cf ∈ rules, ∀ r ∈ factual, cf.antecedent.length + r.antecedent.length + num.length ≤ n)
    (ch : List (String × String)) (h : fCounterfactualF A ident factual inst rules c num tau = .ok (some ch)) :
    (∃ inst' c', ∃ deg : Rule String C K → K, Moved inst ch inst' ∧ weightedVoteF A rules inst' = .ok c' ∧ c' ≠ c ∧
      (∀ r ∈ rules, r.matching inst' = .ok (deg r)) ∧
      ∀ c'' ∈ rules.map Rule.consequent, activation deg rules c'' ≤ activation deg rules c' + 2 * massError u η rules.length) ∧
    ∃ i r d, (rules.filter (fun r => r.consequent ≠ c))[i]? = some r ∧ fDist (ident i) factual inst num tau r = .ok d ∧ IsChanges r inst ch ∧
      ∀ j r', (rules.filter (fun r => r.consequent ≠ c))[j]? = some r' → RoundedFlips A rules inst c r' →
        ∃ d', fDist (ident j) factual inst num tau r' = .ok d' ∧
          (d ≤ d' + 2 * fDistError u η n factual.length ∨ d' ≤ fDistError u η n factual.length) := by
  unfold fCounterfactualF fCandidatesF at h
  rw [py_bind_eq_ok] at h
  obtain ⟨cfs, h1, h2⟩ := h
  rw [py_bind_eq_ok] at h1
  obtain ⟨ds, h3, h4⟩ := h1
  simp only [py_pure, Except.ok.injEq] at h4
  subst h4
  obtain ⟨i, r, d, e1, e2, hq, e3, ⟨inst', c', hm, hv, hc'⟩, e4⟩ := searchF_closest (D := fun i r => fDistF A (ident i) factual inst num tau r)
    (fun d => decide (0 < d)) hnd h3 h2
  obtain ⟨deg, hdeg, hact⟩ := vote_activations hA (moved_unit h01 hm) hw hv
  refine ⟨⟨inst', c', deg, hm, hv, hc', hdeg, hact⟩, ?_⟩
  have hmem : ∀ (j : Nat) r', (otherClass rules c)[j]? = some r' → r' ∈ rules := fun j r' hj =>
    (List.mem_filter.1 (List.mem_of_getElem? hj)).1
  obtain ⟨x, hx, -, hxe⟩ := fDistF_near hA h01 ht (hn r (hmem i r e1)) e2
  refine ⟨i, r, x, e1, hx, e3, ?_⟩
  intro j r' hj hf
  obtain ⟨d', a, b⟩ := e4 j r' hj hf
  obtain ⟨y, hy, -, hye⟩ := fDistF_near hA h01 ht (hn r' (hmem j r' hj)) a
  refine ⟨y, hy, ?_⟩
  by_cases hp : 0 < d'
  · left
    linarith [b (by simpa using hp), (abs_le.1 hxe).1, (abs_le.1 hye).2]
  · right
    linarith [(abs_le.1 hye).1]

/-- **C181**: `None` means that no rule of another class at a computed distance above 0 flips the computed class; in particular none whose exact
distance exceeds the rounding error. -/
theorem C181_f_none (hA : Lawful A u η) (ident : Nat → Nat → String → Bool) (factual : List (Rule String C K)) (inst : Inst K)
    (rules : List (Rule String C K)) (c : C) (num : List String) (tau : K) (ht : 0 ≤ tau ∧ tau ≤ 1) (hnd : (Dict.keys inst).Nodup)
    (h01 : UnitInst inst) (n : Nat)
    (hn : ∀ cf ∈ rules, ∀ r ∈ factual, cf.antecedent.length + r.antecedent.length + num.length ≤ n)
    (h : fCounterfactualF A ident factual inst rules c num tau = .ok none) :
    ∀ i r, (rules.filter (fun r => r.consequent ≠ c))[i]? = some r →
      ∃ d, fDist (ident i) factual inst num tau r = .ok d ∧ (fDistError u η n factual.length < d → ¬ RoundedFlips A rules inst c r) := by
  intro i r hi
  unfold fCounterfactualF fCandidatesF at h
  rw [py_bind_eq_ok] at h
  obtain ⟨cfs, h1, h2⟩ := h
  rw [py_bind_eq_ok] at h1
  obtain ⟨ds, h3, h4⟩ := h1
  simp only [py_pure, Except.ok.injEq] at h4
  subst h4
  obtain ⟨d, hd, hq⟩ := searchF_none (D := fun i r => fDistF A (ident i) factual inst num tau r) (fun d => decide (0 < d)) hnd h3 h2 i r hi
  have hr : r ∈ rules := (List.mem_filter.1 (List.mem_of_getElem? hi)).1
  obtain ⟨x, hx, -, hxe⟩ := fDistF_near hA h01 ht (hn r hr) hd
  refine ⟨x, hx, fun hlt => hq ?_⟩
  have : 0 < d := by linarith [(abs_le.1 hxe).1]
  simpa using this

/-- after changes that move the instance to `inst'`, an exact activation of another class above that of `c` by more than twice the rounding error
of a sum of activations means that the computed class is not `c`. -/
theorem roundedFlips_of_margin (hA : Lawful A u η) {inst inst' : Inst K} {rules : List (Rule String C K)} {c c₁ : C} {r : Rule String C K}
    {ch : List (String × String)} {deg : Rule String C K → K} (h01 : UnitInst inst) (hw : ∀ r ∈ rules, 0 ≤ r.weight ∧ r.weight ≤ 1)
    (hch : IsChanges r inst ch) (hm : Moved inst ch inst') (hdeg : ∀ r ∈ rules, r.matching inst' = .ok (deg r))
    (hc₁ : c₁ ∈ rules.map Rule.consequent) (hlead : activation deg rules c + 2 * massError u η rules.length < activation deg rules c₁) :
    RoundedFlips A rules inst c r := by
  have hunit : UnitRules deg rules := by
    intro r hr
    obtain ⟨a, b⟩ := C17_range r inst' (deg r) (hdeg r hr) (unitInst_degree (moved_unit h01 hm))
    exact ⟨a, b, (hw r hr).1, (hw r hr).2⟩
  have hne : rules ≠ [] := by rintro rfl; simp at hc₁
  obtain ⟨c', h1, -, h2, -⟩ := C179_weighted_vote hA hdeg hunit hne
  refine ⟨ch, hch, inst', c', hm, h1, ?_⟩
  rintro rfl
  linarith [h2 c₁ hc₁]

/-- **C180**: when `i_counterfactual` answers `None`, after the changes of any rule of another class the exact activation of `c` is still the largest
up to twice the rounding error. -/
theorem C180_i_none_exact (hA : Lawful A u η) (ident : Nat → String → Bool) (inst : Inst K) (rules : List (Rule String C K)) (c : C)
    (num : List String) (hnd : (Dict.keys inst).Nodup) (h01 : UnitInst inst) (hw : ∀ r ∈ rules, 0 ≤ r.weight ∧ r.weight ≤ 1)
    (h : iCounterfactualF A ident inst rules c num = .ok none) (r : Rule String C K) (hr : r ∈ rules) (hc : r.consequent ≠ c)
    (ch : List (String × String)) (hch : IsChanges r inst ch) (inst' : Inst K) (hm : Moved inst ch inst') (deg : Rule String C K → K)
    (hdeg : ∀ r ∈ rules, r.matching inst' = .ok (deg r)) :
    ∀ c₁ ∈ rules.map Rule.consequent, activation deg rules c₁ ≤ activation deg rules c + 2 * massError u η rules.length := by
  intro c₁ hc₁
  by_contra hlt
  exact C180_i_none ident inst rules c num hnd h r hr hc (roundedFlips_of_margin hA h01 hw hch hm hdeg hc₁ (not_le.1 hlt))

theorem foldlM_step_ok {α : Type} {f : α → Py K} {g : K → K → K} : ∀ {l : List α} {a r : K},
    l.foldlM (fun acc k => do let d ← f k; pure (g acc d)) a = .ok r → ∀ k ∈ l, ∃ x, f k = .ok x := by
  intro l
  induction l with
  | nil => intro a r _ k hk; simp at hk
  | cons k l ih =>
    intro a r h
    rw [List.foldlM_cons, py_bind_eq_ok] at h
    obtain ⟨b, h1, h2⟩ := h
    rw [py_bind_eq_ok] at h1
    obtain ⟨x, hx, -⟩ := h1
    intro y hy
    rcases List.mem_cons.1 hy with rfl | hy
    · exact ⟨x, hx⟩
    · exact ih h2 y hy

theorem foldlM_ok_of_step {α : Type} {f : α → Py K} {g : K → K → K} : ∀ {l : List α} (a : K), (∀ k ∈ l, ∃ x, f k = .ok x) →
    ∃ r, l.foldlM (fun acc k => do let d ← f k; pure (g acc d)) a = .ok r := by
  intro l
  induction l with
  | nil => intro a _; exact ⟨a, rfl⟩
  | cons k l ih =>
    intro a h
    obtain ⟨x, hx⟩ := h k (by simp)
    obtain ⟨r, hr⟩ := ih (g a x) (fun y hy => h y (by simp [hy]))
    refine ⟨r, ?_⟩
    rw [List.foldlM_cons, hx]
    exact hr

theorem weightedLiteralDistanceF_returns {clause : Dict String K} {v w : String} {x : K} (h : weightedLiteralDistance clause v w = .ok x) :
    ∃ x', weightedLiteralDistanceF A clause v w = .ok x' := by
  unfold weightedLiteralDistance at h
  rw [py_bind_eq_ok] at h
  obtain ⟨q, hq, h⟩ := h
  rw [py_bind_eq_ok] at h
  obtain ⟨m, hm, -⟩ := h
  unfold literalDistance at hq
  rw [py_bind_eq_ok] at hq
  obtain ⟨i, hi, hq⟩ := hq
  rw [py_bind_eq_ok] at hq
  obtain ⟨j, hj, hq⟩ := hq
  unfold pyDiv at hq
  split at hq
  · cases hq
  · rename_i hd
    unfold weightedLiteralDistanceF literalDistanceF
    rw [hi, py_bind_ok, hj, py_bind_ok, pyDivF, if_neg hd, py_bind_ok, hm, py_bind_ok]
    exact ⟨_, rfl⟩

theorem cfDistInstanceF_returns {inst : Inst K} {ident : String → Bool} {cf : Rule String C K} {num : List String} {d : K}
    (h : cfDistInstance ident cf inst num = .ok d) : ∃ d', cfDistInstanceF A ident cf inst num = .ok d' := by
  unfold cfDistInstance at h
  rw [py_bind_eq_ok] at h
  obtain ⟨fz, hfz, h⟩ := h
  unfold cfDistInstanceF
  rw [hfz, py_bind_ok]
  unfold sumLoop at h
  unfold sumLoopF
  refine foldlM_ok_of_step (g := fun a b => A.fl (a + b)) _ ?_
  intro k hk
  obtain ⟨x, hx⟩ := foldlM_step_ok (g := fun a b => a + b) h k hk
  rw [py_bind_eq_ok] at hx
  obtain ⟨clause, hc, hx⟩ := hx
  rw [py_bind_eq_ok] at hx
  obtain ⟨v, hv, hx⟩ := hx
  rw [py_bind_eq_ok] at hx
  obtain ⟨w, hw, hx⟩ := hx
  obtain ⟨x', hx'⟩ := weightedLiteralDistanceF_returns (A := A) hx
  exact ⟨x', by rw [hc, py_bind_ok, hv, py_bind_ok, hw, py_bind_ok, hx']⟩

/-- **C180**: `i_counterfactual` in floating point returns on the inputs of C55. -/
theorem C180_i_total (ident : Nat → String → Bool) (inst : Inst K) (rules : List (Rule String C K)) (c : C)
    (num : List String) (hnd : (Dict.keys inst).Nodup) (hne : ∀ p ∈ inst, p.2 ≠ [])
    (hant : ∀ r ∈ rules, r.antecedent ≠ [])
    (hnum : ∀ r ∈ rules, ∀ p ∈ r.antecedent, p.1 ∈ num → ∀ sets, (p.1, sets) ∈ inst → p.2 ∈ sets.map Prod.fst ∧ 2 ≤ sets.length) :
    ∃ o, iCounterfactualF A ident inst rules c num = .ok o := by
  obtain ⟨o, ho⟩ := C55_i_total ident inst rules c num hnd hne hant hnum
  unfold iCounterfactual iCandidates at ho
  rw [py_bind_eq_ok] at ho
  obtain ⟨cfs, h1, -⟩ := ho
  rw [mapM_ok_iff] at h1
  unfold iCounterfactualF iCandidatesF
  obtain ⟨cfs', hcfs⟩ := forall₂_of_forall_exists
    (fun (p : Rule String C K × Nat) b => (do
      let d ← cfDistInstanceF A (ident p.2) p.1 inst num
      pure (p.1, d) : Py (Rule String C K × K)) = .ok b) (otherClass rules c).zipIdx (by
    intro p hp
    obtain ⟨b, -, hb⟩ := forall₂_mem_left h1 p hp
    rw [py_bind_eq_ok] at hb
    obtain ⟨d, hd, -⟩ := hb
    obtain ⟨d', hd'⟩ := cfDistInstanceF_returns (A := A) hd
    exact ⟨(p.1, d'), by simp only [hd']; rfl⟩)
  rw [(mapM_ok_iff _ _ _).2 hcfs]
  simp only [py_bind_ok]
  by_cases hr : rules = []
  · have : otherClass rules c = [] := by rw [hr]; rfl
    rw [this] at hcfs
    cases hcfs
    exact ⟨_, rfl⟩
  · unfold searchCfF
    generalize sortCf cfs' = L
    have hvote : ∀ inst' : Inst K, ∃ c', weightedVoteF A rules inst' = .ok c' := by
      intro inst'
      obtain ⟨deg, hdeg⟩ := matching_total rules inst' hant
      obtain ⟨c', hc', -⟩ := weightedVoteWithF_ok (A := A) hdeg hr
      exact ⟨c', hc'⟩
    clear hcfs h1
    induction L with
    | nil => exact ⟨_, rfl⟩
    | cons cf L ih =>
      unfold searchLoopF
      obtain ⟨⟨inst', ch⟩, ho⟩ := (applyChanges_ok_iff cf.1 inst).2 hne
      obtain ⟨c', hc'⟩ := hvote inst'
      rw [ho]
      simp only [py_bind_ok, hc']
      split
      · exact ⟨_, rfl⟩
      · exact ih

theorem zipIdx_mapM {α β : Type} (f : α → Py β) (l : List α) : l.zipIdx.mapM (fun p => f p.1) = l.mapM f := by
  have h : (l.zipIdx.map Prod.fst).mapM f = l.zipIdx.mapM (f ∘ Prod.fst) := List.mapM_map
  rw [show (fun p : α × Nat => f p.1) = f ∘ Prod.fst from rfl, ← h]
  simp

/-- **C182**: `d_counterfactual` in floating point, for a distance function as it is computed: after the returned changes, those of a rule of another
class, the computed class is some `c' ≠ c` whose exact activation is the largest up to twice the rounding error; no rule of another class that
flips the computed class has a smaller computed distance; `None` means that none flips it. -/
theorem C182_d_counterfactual (hA : Lawful A u η) (parse : String → Py K) (dist : List (Cell K) → Py K) (cont : List Nat) (inst : Inst K)
    (rules : List (Rule String C K)) (c : C) (hnd : (Dict.keys inst).Nodup) (h01 : UnitInst inst) (hw : ∀ r ∈ rules, 0 ≤ r.weight ∧ r.weight ≤ 1) :
    (∀ ch, dCounterfactualF A parse dist cont inst rules c = .ok (some ch) →
      (∃ inst' c', ∃ deg : Rule String C K → K, Moved inst ch inst' ∧ weightedVoteF A rules inst' = .ok c' ∧ c' ≠ c ∧
        (∀ r ∈ rules, r.matching inst' = .ok (deg r)) ∧
        ∀ c'' ∈ rules.map Rule.consequent, activation deg rules c'' ≤ activation deg rules c' + 2 * massError u η rules.length) ∧
      ∃ r ∈ rules, r.consequent ≠ c ∧ IsChanges r inst ch ∧ ∃ d, dDist parse dist cont inst r = .ok d ∧
        ∀ r' ∈ rules, r'.consequent ≠ c → RoundedFlips A rules inst c r' → ∃ d', dDist parse dist cont inst r' = .ok d' ∧ d ≤ d') ∧
    (dCounterfactualF A parse dist cont inst rules c = .ok none → ∀ r ∈ rules, r.consequent ≠ c → ¬ RoundedFlips A rules inst c r) := by
  have hcand : ∀ o, dCounterfactualF A parse dist cont inst rules c = .ok o →
      ∃ cfs, (otherClass rules c).zipIdx.mapM (fun p => do let d ← (fun _ r => dDist parse dist cont inst r) p.2 p.1; pure (p.1, d)) = .ok cfs ∧
        searchCfF A inst c rules (cfs.filter (fun p => (fun _ => true) p.2)) = .ok o := by
    intro o h
    unfold dCounterfactualF at h
    rw [py_bind_eq_ok] at h
    obtain ⟨cfs, h1, h2⟩ := h
    refine ⟨cfs, ?_, by rw [List.filter_eq_self.2 (by simp)]; exact h2⟩
    rw [← h1]
    exact zipIdx_mapM (fun r => do let d ← dDist parse dist cont inst r; pure (r, d)) (otherClass rules c)
  constructor
  · intro ch h
    obtain ⟨cfs, h1, h2⟩ := hcand _ h
    obtain ⟨i, r, d, e1, e2, -, e3, ⟨inst', c', hm, hv, hc'⟩, e4⟩ := searchF_closest (D := fun _ r => dDist parse dist cont inst r)
      (fun _ => true) hnd h1 h2
    obtain ⟨deg, hdeg, hact⟩ := vote_activations hA (moved_unit h01 hm) hw hv
    have hr := List.mem_filter.1 (List.mem_of_getElem? e1)
    refine ⟨⟨inst', c', deg, hm, hv, hc', hdeg, hact⟩, r, hr.1, by simpa using hr.2, e3, d, e2, ?_⟩
    intro r' hr' hcc hf
    have hmem : r' ∈ otherClass rules c := List.mem_filter.2 ⟨hr', by simpa using hcc⟩
    obtain ⟨j, hj⟩ := List.mem_iff_getElem?.1 hmem
    obtain ⟨d', a, b⟩ := e4 j r' hj hf
    exact ⟨d', a, b rfl⟩
  · intro h r hr hc
    obtain ⟨cfs, h1, h2⟩ := hcand _ h
    have hmem : r ∈ otherClass rules c := List.mem_filter.2 ⟨hr, by simpa using hc⟩
    obtain ⟨i, hi⟩ := List.mem_iff_getElem?.1 hmem
    obtain ⟨d, -, h3⟩ := searchF_none (D := fun _ r => dDist parse dist cont inst r) (fun _ => true) hnd h1 h2 i r hi
    exact h3 rfl

/-- without roundings, the computation in floating point is the exact one. -/
theorem counterfactualF_exact (identI : Nat → String → Bool) (identF : Nat → Nat → String → Bool) (factual : List (Rule String C K))
    (inst : Inst K) (rules : List (Rule String C K)) (c : C) (num : List String) (tau : K) :
    iCounterfactualF exactArith identI inst rules c num = iCounterfactual identI inst rules c num ∧
    fCounterfactualF exactArith identF factual inst rules c num tau = fCounterfactual identF factual inst rules c num tau := by
  have hs : ∀ cfs, searchCfF exactArith inst c rules cfs = searchCf inst c rules cfs := by
    intro cfs
    unfold searchCfF searchCf
    generalize sortCf cfs = L
    have hv : weightedVoteF exactArith rules = weightedVote rules := by
      funext i
      exact weightedVoteWithF_exact
    rw [hv]
    induction L with
    | nil => rfl
    | cons cf L ih => unfold searchLoopF searchLoop; simp only [ih]
  constructor
  · unfold iCounterfactualF iCounterfactual
    simp only [hs]
    rfl
  · unfold fCounterfactualF fCounterfactual
    simp only [hs]
    rfl

end

/-! ### A concrete case -/

def exCfInst : Inst ℚ := [("age", [("low", dbl01), ("mid", 1 - dbl01), ("high", 0)]), ("sex", [("f", 0), ("m", 1)])]
def exCfRules : List (Rule String Nat ℚ) :=
  [⟨[("age", "mid")], 0, 1⟩, ⟨[("age", "low"), ("sex", "f")], 1, 1⟩, ⟨[("age", "high")], 1, 1 / 2⟩, ⟨[("age", "low")], 1, 1⟩]

example : (Dict.keys exCfInst).Nodup ∧ UnitInst exCfInst ∧ (∀ r ∈ exCfRules, 0 ≤ r.weight ∧ r.weight ≤ 1) ∧
    iCounterfactualF binary64 (fun _ _ => false) exCfInst exCfRules 0 ["age"] = .ok (some [("age", "low")]) ∧
    cfDistInstance (fun _ => false) exCfRules[3] exCfInst ["age"] = .ok (1 / 2 * (1 - dbl01)) ∧
    cfDistInstance (fun _ => false) exCfRules[2] exCfInst ["age"] = .ok (1 / 2) ∧
    fCounterfactualF binary64 (fun _ _ _ => false) [exCfRules[0]] exCfInst exCfRules 0 ["age"] (1 / 2) = .ok (some [("age", "high")]) ∧
    iCounterfactualF binary64 (fun _ _ => false) exCfInst (exCfRules.take 1) 0 ["age"] = .ok none ∧
    dCounterfactualF binary64 (fun _ => .ok 0) (fun cells => .ok (if .str "high" ∈ cells then 1 else 2)) [] exCfInst exCfRules 0 = .ok (some [("age", "high")]) := by
  unfold UnitInst
  decide +kernel

end Teacher
