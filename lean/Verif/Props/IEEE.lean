import Verif.Spec.IEEE
import Verif.Props.Rounded
import Mathlib.Tactic.FieldSimp
import Mathlib.Tactic.IntervalCases
import Mathlib.Tactic.Positivity

/-! # IEEE 754 arithmetic satisfies the laws assumed by the theorems about floating point -/

namespace Teacher
open Spec

/-! ### the nearest integer -/

theorem halfEven_le (x : ℚ) : |(halfEven x : ℚ) - x| ≤ 1 / 2 := by
  have h0 := Int.floor_le x
  have h1 := Int.lt_floor_add_one x
  unfold halfEven
  rw [abs_le]
  split_ifs <;> push_cast <;> constructor <;> linarith

theorem halfEven_int (k : ℤ) : halfEven (k : ℚ) = k := by
  unfold halfEven
  simp

theorem halfEven_mono {x y : ℚ} (h : x ≤ y) : halfEven x ≤ halfEven y := by
  have hf : ⌊x⌋ ≤ ⌊y⌋ := Int.floor_le_floor h
  rcases hf.lt_or_eq with hlt | heq
  · have h1 : halfEven x ≤ ⌊x⌋ + 1 := by unfold halfEven; split_ifs <;> omega
    have h2 : ⌊y⌋ ≤ halfEven y := by unfold halfEven; split_ifs <;> omega
    omega
  · unfold halfEven
    rw [heq]
    split_ifs <;> first | omega | (exfalso; linarith)

/-! ### rounding -/

section round
variable {p : Nat} {emin : ℤ}

local notation "ex" => lastBit p emin
local notation "fl" => ieeeRound p emin

theorem two_zpow_pos (e : ℤ) : (0 : ℚ) < 2 ^ e := zpow_pos (by norm_num) e

/-- a multiple of the last bit bounds the rounded number. -/
theorem round_le {x : ℚ} {k : ℤ} (h : x ≤ k * 2 ^ ex x) : fl x ≤ k * 2 ^ ex x := by
  unfold ieeeRound
  have hp := two_zpow_pos (ex x)
  apply mul_le_mul_of_nonneg_right _ hp.le
  have : halfEven (x / 2 ^ ex x) ≤ halfEven (k : ℚ) := halfEven_mono ((div_le_iff₀ hp).2 h)
  rw [halfEven_int] at this
  exact_mod_cast this

theorem le_round {x : ℚ} {k : ℤ} (h : k * 2 ^ ex x ≤ x) : k * 2 ^ ex x ≤ fl x := by
  unfold ieeeRound
  have hp := two_zpow_pos (ex x)
  apply mul_le_mul_of_nonneg_right _ hp.le
  have : halfEven (k : ℚ) ≤ halfEven (x / 2 ^ ex x) := halfEven_mono ((le_div_iff₀ hp).2 h)
  rw [halfEven_int] at this
  exact_mod_cast this

/-- powers of two above the last bit are multiples of it. -/
theorem pow_multiple {e k : ℤ} (h : e ≤ k) : ∃ m : ℤ, (2 : ℚ) ^ k = m * 2 ^ e := by
  obtain ⟨n, rfl⟩ := Int.le.dest h
  refine ⟨2 ^ n, ?_⟩
  rw [zpow_add₀ (by norm_num), mul_comm]
  push_cast
  rw [zpow_natCast]

theorem multiple_of_le {e k : ℤ} (h : e ≤ k) (m : ℤ) : ∃ m' : ℤ, (m : ℚ) * 2 ^ k = m' * 2 ^ e := by
  obtain ⟨m', h'⟩ := pow_multiple h
  exact ⟨m * m', by rw [h']; push_cast; ring⟩

/-- multiples of the last bit are not changed. -/
theorem round_multiple {x : ℚ} {k : ℤ} (h : x = k * 2 ^ ex x) : fl x = x :=
  le_antisymm (by conv_rhs => rw [h]
                  exact round_le h.le) (by conv_lhs => rw [h]
                                           exact le_round h.ge)

theorem round_zero : fl 0 = 0 := round_multiple (k := 0) (by simp)

theorem round_nonneg {x : ℚ} (h : 0 ≤ x) : 0 ≤ fl x := by
  have := le_round (p := p) (emin := emin) (x := x) (k := 0) (by simpa using h)
  simpa using this

theorem round_nonpos {x : ℚ} (h : x ≤ 0) : fl x ≤ 0 := by
  have := round_le (p := p) (emin := emin) (x := x) (k := 0) (by simpa using h)
  simpa using this

theorem log_le {x : ℚ} (h : x ≠ 0) : (2 : ℚ) ^ Int.log 2 |x| ≤ |x| := by
  have := Int.zpow_log_le_self (b := 2) (r := |x|) (by norm_num) (abs_pos.2 h)
  exact_mod_cast this

theorem lt_log (x : ℚ) : |x| < (2 : ℚ) ^ (Int.log 2 |x| + 1) := by
  have := Int.lt_zpow_succ_log_self (b := 2) (by norm_num) |x|
  exact_mod_cast this

theorem ex_mono {x y : ℚ} (hx : x ≠ 0) (h : |x| ≤ |y|) : ex x ≤ ex y := by
  unfold lastBit
  have := Int.log_mono_right (b := 2) (abs_pos.2 hx) h
  exact max_le_max (by omega) le_rfl

/-- bound by a power of two that is a multiple of the last bit. -/
theorem abs_round_le {x : ℚ} {k : ℤ} (hk : ex x ≤ k) (h : |x| ≤ 2 ^ k) : |fl x| ≤ 2 ^ k := by
  obtain ⟨m, hm⟩ := pow_multiple hk
  rw [abs_le] at h ⊢
  constructor
  · have := le_round (p := p) (emin := emin) (x := x) (k := -m) (by push_cast; linarith [h.1])
    push_cast at this
    linarith
  · rw [hm]
    exact round_le (by rw [← hm]; exact h.2)

theorem ex_cases (x : ℚ) : (ex x = Int.log 2 |x| - ((p : ℤ) - 1) ∧ emin ≤ ex x) ∨ (ex x = emin ∧ Int.log 2 |x| - ((p : ℤ) - 1) ≤ emin) := by
  unfold lastBit
  rcases le_total emin (Int.log 2 |x| - ((p : ℤ) - 1)) with h | h
  · exact .inl ⟨max_eq_left h, le_max_right _ _⟩
  · exact .inr ⟨max_eq_right h, h⟩

theorem emin_le_ex (x : ℚ) : emin ≤ ex x := le_max_right _ _

theorem round_mono (hp : 1 ≤ p) {x y : ℚ} (h : x ≤ y) : fl x ≤ fl y := by
  by_cases he : ex x = ex y
  · unfold ieeeRound
    rw [he]
    apply mul_le_mul_of_nonneg_right _ (two_zpow_pos _).le
    exact_mod_cast halfEven_mono (div_le_div_of_nonneg_right h (two_zpow_pos _).le)
  rcases le_or_gt x 0 with hx | hx
  · rcases le_or_gt 0 y with hy | hy
    · exact (round_nonpos hx).trans (round_nonneg hy)
    · -- both negative
      have hax : |y| ≤ |x| := by rw [abs_of_neg hy, abs_of_nonpos hx]; linarith
      have hy0 : y ≠ 0 := hy.ne
      have hx0 : x ≠ 0 := by rintro rfl; linarith
      have hlt : ex y < ex x := lt_of_le_of_ne (ex_mono hy0 hax) (Ne.symm he)
      have hcx : ex x = Int.log 2 |x| - ((p : ℤ) - 1) := by
        rcases ex_cases (p := p) (emin := emin) x with h | h
        · exact h.1
        · have := emin_le_ex (p := p) (emin := emin) y; omega
      have hlog : Int.log 2 |y| < Int.log 2 |x| := by
        have : Int.log 2 |y| - ((p : ℤ) - 1) ≤ ex y := le_max_left _ _
        omega
      have h1 : fl x ≤ -2 ^ Int.log 2 |x| := by
        obtain ⟨m, hm⟩ := pow_multiple (show ex x ≤ Int.log 2 |x| by omega)
        have := round_le (p := p) (emin := emin) (x := x) (k := -m) (by
          have := log_le hx0; rw [abs_of_nonpos hx] at this; push_cast
          rw [abs_of_nonpos hx] at hm; linarith)
        push_cast at this
        linarith
      have h2 : |fl y| ≤ 2 ^ Int.log 2 |x| := by
        apply abs_round_le (by omega)
        exact (lt_log y).le.trans (zpow_le_zpow_right₀ (by norm_num) (by omega))
      have := (abs_le.1 h2).1
      linarith
  · have hy : 0 < y := lt_of_lt_of_le hx h
    have hax : |x| ≤ |y| := by rw [abs_of_pos hx, abs_of_pos hy]; exact h
    have hlt : ex x < ex y := lt_of_le_of_ne (ex_mono hx.ne' hax) he
    have hcy : ex y = Int.log 2 |y| - ((p : ℤ) - 1) := by
      rcases ex_cases (p := p) (emin := emin) y with h | h
      · exact h.1
      · have := emin_le_ex (p := p) (emin := emin) x; omega
    have hlog : Int.log 2 |x| < Int.log 2 |y| := by
      have : Int.log 2 |x| - ((p : ℤ) - 1) ≤ ex x := le_max_left _ _
      omega
    have h1 : 2 ^ Int.log 2 |y| ≤ fl y := by
      obtain ⟨m, hm⟩ := pow_multiple (show ex y ≤ Int.log 2 |y| by omega)
      have := le_round (p := p) (emin := emin) (x := y) (k := m) (by
        have := log_le hy.ne'; rw [hm, abs_of_pos hy] at this; exact this)
      linarith
    have h2 : |fl x| ≤ 2 ^ Int.log 2 |y| := by
      apply abs_round_le (by omega)
      exact (lt_log x).le.trans (zpow_le_zpow_right₀ (by norm_num) (by omega))
    have := (abs_le.1 h2).2
    linarith

theorem round_idem (hp : 1 ≤ p) (x : ℚ) : fl (fl x) = fl x := by
  by_cases hF : fl x = 0
  · rw [hF, round_zero]
  set K := max (Int.log 2 |x| + 1) (ex x) with hK
  have hb : |fl x| ≤ 2 ^ K := abs_round_le (le_max_right _ _) ((lt_log x).le.trans (zpow_le_zpow_right₀ (by norm_num) (le_max_left _ _)))
  rcases hb.lt_or_eq with hlt | heq
  · have hlog : Int.log 2 |fl x| < K := by
      have := (log_le hF).trans_lt hlt
      exact (zpow_lt_zpow_iff_right₀ (by norm_num)).1 this
    have hex : ex (fl x) ≤ ex x := by
      unfold lastBit
      apply max_le _ (le_max_right _ _)
      rcases ex_cases (p := p) (emin := emin) x with h | h
      · have : K = Int.log 2 |x| + 1 := by rw [hK]; apply max_eq_left; omega
        exact le_max_of_le_left (by omega)
      · apply le_max_of_le_right
        rcases max_choice (Int.log 2 |x| + 1) (ex x) with e | e <;> omega
    obtain ⟨m, hm⟩ := multiple_of_le hex (halfEven (x / 2 ^ ex x))
    exact round_multiple (k := m) (by rw [← hm]; rfl)
  · have hlog : Int.log 2 |fl x| = K := by
      rw [heq]
      exact_mod_cast Int.log_zpow (R := ℚ) (b := 2) (by norm_num) K
    have hex : ex (fl x) ≤ K := by
      unfold lastBit
      rw [hlog]
      refine max_le (by omega) ?_
      exact (emin_le_ex (p := p) (emin := emin) x).trans (le_max_right _ _)
    obtain ⟨m, hm⟩ := pow_multiple hex
    rcases abs_choice (fl x) with e | e
    · exact round_multiple (k := m) (by rw [← hm, ← heq, e])
    · exact round_multiple (k := -m) (by push_cast; rw [neg_mul, ← hm, ← heq, e, neg_neg])

theorem round_err_bit (x : ℚ) : |fl x - x| ≤ 2 ^ (ex x - 1) := by
  have hp := two_zpow_pos (ex x)
  have h := halfEven_le (x / 2 ^ ex x)
  have e : fl x - x = (halfEven (x / 2 ^ ex x) - x / 2 ^ ex x) * 2 ^ ex x := by
    unfold ieeeRound
    field_simp
  rw [e, abs_mul, abs_of_pos hp, zpow_sub₀ (by norm_num), zpow_one]
  calc _ ≤ 1 / 2 * 2 ^ ex x := mul_le_mul_of_nonneg_right h hp.le
    _ = _ := by ring

theorem round_err_normal {x : ℚ} (h : ex x = Int.log 2 |x| - ((p : ℤ) - 1)) (hx : x ≠ 0) : |fl x - x| ≤ 2 ^ (-(p : ℤ)) * |x| := by
  refine (round_err_bit x).trans ?_
  rw [h, show Int.log 2 |x| - ((p : ℤ) - 1) - 1 = -(p : ℤ) + Int.log 2 |x| by ring, zpow_add₀ (by norm_num)]
  exact mul_le_mul_of_nonneg_left (log_le hx) (two_zpow_pos _).le

theorem round_err (x : ℚ) : |fl x - x| ≤ 2 ^ (-(p : ℤ)) * |x| + 2 ^ (emin - 1) := by
  by_cases hx : x = 0
  · subst hx; rw [round_zero]; simp; exact (two_zpow_pos _).le
  rcases ex_cases (p := p) (emin := emin) x with h | h
  · have := round_err_normal h.1 hx
    have := two_zpow_pos (emin - 1)
    linarith
  · have := round_err_bit (p := p) (emin := emin) x
    rw [h.1] at this
    have : 0 ≤ (2 : ℚ) ^ (-(p : ℤ)) * |x| := mul_nonneg (two_zpow_pos _).le (abs_nonneg _)
    linarith

/-- numbers are multiples of the smallest positive number. -/
theorem float_multiple {x : ℚ} (h : fl x = x) : ∃ m : ℤ, x = m * 2 ^ emin := by
  obtain ⟨m, hm⟩ := multiple_of_le (emin_le_ex (p := p) (emin := emin) x) (halfEven (x / 2 ^ ex x))
  exact ⟨m, h.symm.trans hm⟩

/-- a difference of two numbers has no underflow. -/
theorem round_sub_err {x y : ℚ} (hx : fl x = x) (hy : fl y = y) : |fl (x - y) - (x - y)| ≤ 2 ^ (-(p : ℤ)) * |x - y| := by
  by_cases h0 : x - y = 0
  · rw [h0, round_zero]; simp
  rcases ex_cases (p := p) (emin := emin) (x - y) with h | h
  · exact round_err_normal h.1 h0
  · obtain ⟨m, hm⟩ := float_multiple hx
    obtain ⟨k, hk⟩ := float_multiple hy
    have : fl (x - y) = x - y := round_multiple (k := m - k) (by rw [h.1]; push_cast; rw [sub_mul, ← hm, ← hk])
    rw [this, sub_self, abs_zero]
    exact mul_nonneg (two_zpow_pos _).le (abs_nonneg _)

end round

/-! ### sums -/

section sums
variable {fl : ℚ → ℚ}

theorem SumTree.eval_mono (hm : ∀ x y, x ≤ y → fl x ≤ fl y) {xs ys : List ℚ} (h : List.Forall₂ (· ≤ ·) xs ys) (t : SumTree) :
    t.eval fl xs ≤ t.eval fl ys := by
  induction t with
  | leaf i =>
    simp only [SumTree.eval]
    induction h generalizing i with
    | nil => simp
    | cons h _ ih => cases i with
      | zero => simpa using h
      | succ i => simpa using ih i
  | node l r il ir => exact hm _ _ (add_le_add il ir)

theorem SumTree.eval_zero (h0 : fl 0 = 0) {xs : List ℚ} (h : ∀ x ∈ xs, x = 0) (t : SumTree) : t.eval fl xs = 0 := by
  induction t with
  | leaf i =>
    simp only [SumTree.eval]
    cases e : xs[i]? with
    | none => rfl
    | some x => exact h x (List.mem_of_getElem? e)
  | node l r il ir => simp only [SumTree.eval, il, ir, add_zero, h0]

theorem SumTree.eval_float (h0 : fl 0 = 0) (hi : ∀ x, fl (fl x) = fl x) {xs : List ℚ} (h : ∀ x ∈ xs, fl x = x) (t : SumTree) :
    fl (t.eval fl xs) = t.eval fl xs := by
  cases t with
  | leaf i =>
    simp only [SumTree.eval]
    cases e : xs[i]? with
    | none => exact h0
    | some x => exact h x (List.mem_of_getElem? e)
  | node l r => exact hi _

theorem SumTree.eval_ge (h0 : fl 0 = 0) (hm : ∀ x y, x ≤ y → fl x ≤ fl y) (hi : ∀ x, fl (fl x) = fl x) {xs : List ℚ}
    (h : ∀ x ∈ xs, fl x = x ∧ 0 ≤ x) (t : SumTree) : 0 ≤ t.eval fl xs ∧ ∀ i ∈ t.leaves, ∀ x, xs[i]? = some x → x ≤ t.eval fl xs := by
  induction t with
  | leaf i =>
    simp only [SumTree.eval, SumTree.leaves]
    constructor
    · cases e : xs[i]? with
      | none => exact le_rfl
      | some x => exact (h x (List.mem_of_getElem? e)).2
    · intro j hj x hx
      rw [List.mem_singleton] at hj
      subst hj
      rw [hx]; exact le_rfl
  | node l r il ir =>
    have hfl := SumTree.eval_float h0 hi (fun x hx => (h x hx).1) l
    have hfr := SumTree.eval_float h0 hi (fun x hx => (h x hx).1) r
    have h1 : l.eval fl xs ≤ (SumTree.node l r).eval fl xs := by
      have := hm _ _ (show l.eval fl xs ≤ l.eval fl xs + r.eval fl xs by linarith [ir.1])
      rwa [hfl] at this
    have h2 : r.eval fl xs ≤ (SumTree.node l r).eval fl xs := by
      have := hm _ _ (show r.eval fl xs ≤ l.eval fl xs + r.eval fl xs by linarith [il.1])
      rwa [hfr] at this
    refine ⟨il.1.trans h1, ?_⟩
    intro i hi x hx
    rcases List.mem_append.1 hi with h | h
    · exact (il.2 i h x hx).trans h1
    · exact (ir.2 i h x hx).trans h2

end sums

/-- **IEEE arithmetic is lawful**: rounding to nearest, ties to even, with `p ≥ 1` bits and gradual underflow at `2^emin ≤ 1`, and sums in any
fixed order in which every summand occurs. -/
theorem ieee_lawful (p : Nat) (hp : 1 ≤ p) (emin : ℤ) (he : emin ≤ 0) (order : Nat → SumTree)
    (ho : ∀ n, ∀ i < n, i ∈ (order n).leaves) : Lawful (ieee p emin order) (2 ^ (-(p : ℤ))) (2 ^ (emin - 1)) where
  zero := round_zero
  one := by
    have hex : lastBit p emin 1 ≤ 0 := by
      unfold lastBit
      rw [abs_one, Int.log_one_right]
      exact max_le (by omega) he
    obtain ⟨m, hm⟩ := pow_multiple hex
    exact round_multiple (k := m) (by rw [← hm, zpow_zero])
  idem := round_idem hp
  mono := fun _ _ h => round_mono hp h
  u_nonneg := (two_zpow_pos _).le
  u_lt := by
    rw [zpow_neg, zpow_natCast]
    exact inv_lt_one_of_one_lt₀ (one_lt_pow₀ (by norm_num) (by omega))
  η_nonneg := (two_zpow_pos _).le
  err := round_err
  sub_err := fun _ _ hx hy => round_sub_err hx hy
  sum_mono := by
    intro xs ys h
    have hl := h.length_eq
    simp only [ieee]
    by_cases e : xs = []
    · have : ys = [] := by subst e; cases h; rfl
      rw [if_pos e, if_pos this]
    · have : ys ≠ [] := by rintro rfl; cases h; exact e rfl
      rw [if_neg e, if_neg this, hl]
      exact SumTree.eval_mono (fun _ _ h => round_mono hp h) h _
  sum_zero := by
    intro xs h
    simp only [ieee]
    split
    · rfl
    · exact SumTree.eval_zero round_zero h _
  sum_float := by
    intro xs h
    simp only [ieee, IsFloat]
    split
    · exact round_zero
    · exact SumTree.eval_float round_zero (round_idem hp) h _
  sum_ge := by
    intro xs h x hx
    have : xs ≠ [] := by rintro rfl; simp at hx
    simp only [ieee, if_neg this]
    obtain ⟨i, hi, rfl⟩ := List.getElem_of_mem hx
    exact (SumTree.eval_ge round_zero (fun _ _ h => round_mono hp h) (round_idem hp) h _).2 i (ho _ i hi) _ (List.getElem?_eq_getElem hi)

theorem loopOrder_leaves (i step : Nat) : ∀ m, ∀ j ≤ m, i + step * j ∈ (loopOrder i step m).leaves
  | 0 => fun j h => by
    obtain rfl : j = 0 := by omega
    simp [loopOrder, SumTree.leaves]
  | m + 1 => fun j h => by
    simp only [loopOrder, SumTree.leaves, List.mem_append, List.mem_singleton]
    by_cases e : j = m + 1
    · subst e; exact .inr rfl
    · exact .inl (loopOrder_leaves i step m j (by omega))

theorem foldl_node_leaves (g : Nat → Nat) : ∀ (l : List Nat) (t : SumTree) (i : Nat), (i ∈ t.leaves ∨ ∃ j ∈ l, i = g j) →
    i ∈ (l.foldl (fun t j => SumTree.node t (.leaf (g j))) t).leaves := by
  intro l
  induction l with
  | nil => intro t i h; simpa using h
  | cons a l ih =>
    intro t i h
    rw [List.foldl_cons]
    apply ih
    rcases h with h | ⟨j, hj, rfl⟩
    · exact .inl (by simp [SumTree.leaves, h])
    · rcases List.mem_cons.1 hj with rfl | hj
      · exact .inl (by simp [SumTree.leaves])
      · exact .inr ⟨j, hj, rfl⟩

theorem blockOrder_leaves {off n : Nat} (hn : 8 ≤ n) : ∀ i < n, off + i ∈ (blockOrder off n).leaves := by
  intro i hi
  unfold blockOrder
  apply foldl_node_leaves (fun j => off + (8 * (n / 8) + j))
  by_cases h : i < 8 * (n / 8)
  · left
    have hr : off + i ∈ (loopOrder (off + i % 8) 8 (n / 8 - 1)).leaves := by
      have := loopOrder_leaves (off + i % 8) 8 (n / 8 - 1) (i / 8) (by omega)
      rwa [show off + i % 8 + 8 * (i / 8) = off + i by omega] at this
    have h8 : i % 8 < 8 := Nat.mod_lt _ (by norm_num)
    simp only [SumTree.leaves, List.mem_append]
    generalize i % 8 = k at hr h8
    interval_cases k <;> simp only [hr, true_or, or_true]
  · right
    exact ⟨i - 8 * (n / 8), List.mem_range.2 (by omega), by omega⟩

theorem pairwiseOrder_leaves : ∀ (fuel off n : Nat), n ≤ fuel → ∀ i < n, off + i ∈ (pairwiseOrder fuel off n).leaves := by
  intro fuel
  have small : ∀ off n i, i < n → off + i ∈ (loopOrder off 1 (n - 1)).leaves := by
    intro off n i hi
    have := loopOrder_leaves off 1 (n - 1) i (by omega)
    rwa [one_mul] at this
  induction fuel with
  | zero => intro off n _ i hi; exact small off n i hi
  | succ fuel ih =>
    intro off n hn i hi
    rw [pairwiseOrder]
    split
    · exact small off n i hi
    · rename_i h8
      split
      · exact blockOrder_leaves (by omega) i hi
      · simp only [SumTree.leaves, List.mem_append]
        by_cases h : i < n / 2 - n / 2 % 8
        · exact .inl (ih off _ (by omega) i h)
        · right
          have := ih (off + (n / 2 - n / 2 % 8)) (n - (n / 2 - n / 2 % 8)) (by omega) (i - (n / 2 - n / 2 % 8)) (by omega)
          rwa [show off + (n / 2 - n / 2 % 8) + (i - (n / 2 - n / 2 % 8)) = off + i by omega] at this

/-- the arithmetic of Python and numpy without overflow is lawful, with relative error `2⁻⁵³` and underflow `2⁻¹⁰⁷⁵`. -/
theorem binary64_lawful : Lawful binary64 (2 ^ (-53 : ℤ)) (2 ^ (-1075 : ℤ)) := by
  have := ieee_lawful 53 (by norm_num) (-1074) (by norm_num) numpyOrder (fun n i h => by
    have := pairwiseOrder_leaves n 0 n le_rfl i h
    rwa [zero_add] at this)
  norm_num at this ⊢
  exact this

/-- the double precision numbers 0.1, 1/3 and 2⁻¹⁰⁷⁴, and a sum of ten numbers in numpy's order: `np.sum([0.1]*10)` is 1.0, while a loop gives
0.9999999999999999. -/
example : binary64.fl (1 / 10) = 3602879701896397 / 36028797018963968 ∧ binary64.fl (1 / 3) = 6004799503160661 / 18014398509481984 ∧
    binary64.fl (3 / 2 ^ 1075) = 2 / 2 ^ 1074 ∧ binary64.fl (1 / 2 ^ 1075) = 0 ∧
    binary64.sum (List.replicate 10 (3602879701896397 / 36028797018963968)) = 1 ∧
    leftSum binary64.fl (List.replicate 10 (3602879701896397 / 36028797018963968)) = 9007199254740991 / 9007199254740992 := by
  decide +kernel

end Teacher
