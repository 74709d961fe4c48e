import Verif.Spec.Rounded
import Verif.Props.Stability
import Mathlib.Algebra.Order.Round
import Mathlib.Data.Rat.Floor

/-! # C168: membership degrees in floating point -/

set_option linter.unusedSectionVars false

namespace Teacher
open Spec FB

variable {C K : Type} [Field K] [LinearOrder K] [IsStrictOrderedRing K]

/-! ### arithmetics -/

/-- exact arithmetic is an instance, with no error. -/
theorem exactArith_lawful : Lawful (exactArith : Arith K) 0 0 where
  zero := rfl
  one := rfl
  idem := fun _ => rfl
  mono := fun _ _ h => h
  u_nonneg := le_refl _
  u_lt := zero_lt_one
  η_nonneg := le_refl _
  err := fun x => by simp [exactArith]
  sub_err := fun x y _ _ => by simp [exactArith]
  sum_mono := by
    intro xs ys h
    induction h with
    | nil => exact le_refl _
    | cons h _ ih => simp only [exactArith, List.sum_cons] at ih ⊢; exact add_le_add h ih
  sum_zero := by
    intro xs h
    exact List.sum_eq_zero h
  sum_float := fun _ _ => rfl
  sum_ge := fun xs h x hx => List.single_le_sum (fun y hy => (h y hy).2) x hx

theorem leftSum_mono {fl : K → K} (hm : ∀ x y, x ≤ y → fl x ≤ fl y) {xs ys : List K} (h : List.Forall₂ (· ≤ ·) xs ys) :
    leftSum fl xs ≤ leftSum fl ys := by
  unfold leftSum
  have : ∀ a b : K, a ≤ b → xs.foldl (fun s x => fl (s + x)) a ≤ ys.foldl (fun s x => fl (s + x)) b := by
    induction h with
    | nil => intro a b h; exact h
    | cons h _ ih =>
      intro a b hab
      rw [List.foldl_cons, List.foldl_cons]
      exact ih _ _ (hm _ _ (add_le_add hab h))
  exact this 0 0 (le_refl _)

theorem leftSum_zero {fl : K → K} (h0 : fl 0 = 0) {xs : List K} (h : ∀ x ∈ xs, x = 0) : leftSum fl xs = 0 := by
  unfold leftSum
  induction xs with
  | nil => rfl
  | cons x xs ih =>
    rw [List.foldl_cons, h x (by simp), add_zero, h0]
    exact ih (fun x hx => h x (by simp [hx]))

theorem leftSum_float {fl : K → K} (h0 : fl 0 = 0) (hi : ∀ x, fl (fl x) = fl x) (xs : List K) : fl (leftSum fl xs) = leftSum fl xs := by
  unfold leftSum
  have : ∀ a, fl a = a → fl (xs.foldl (fun s x => fl (s + x)) a) = xs.foldl (fun s x => fl (s + x)) a := by
    induction xs with
    | nil => intro a h; exact h
    | cons x xs ih => intro a _; exact ih _ (hi _)
  exact this 0 h0

theorem leftSum_ge {fl : K → K} (h0 : fl 0 = 0) (hm : ∀ x y, x ≤ y → fl x ≤ fl y) (hi : ∀ x, fl (fl x) = fl x) (xs : List K)
    (h : ∀ x ∈ xs, fl x = x ∧ 0 ≤ x) : ∀ x ∈ xs, x ≤ leftSum fl xs := by
  unfold leftSum
  have key : ∀ a, fl a = a → 0 ≤ a → a ≤ xs.foldl (fun s x => fl (s + x)) a ∧ ∀ x ∈ xs, x ≤ xs.foldl (fun s x => fl (s + x)) a := by
    induction xs with
    | nil => intro a _ _; simp
    | cons z xs ih =>
      intro a ha ha0
      obtain ⟨hz, hz0⟩ := h z (by simp)
      have h1 : a ≤ fl (a + z) := by have := hm a (a + z) (by linarith); rwa [ha] at this
      have h2 : z ≤ fl (a + z) := by have := hm z (a + z) (by linarith); rwa [hz] at this
      obtain ⟨i1, i2⟩ := ih (fun x hx => h x (by simp [hx])) (fl (a + z)) (hi _) (ha0.trans h1)
      rw [List.foldl_cons]
      refine ⟨h1.trans i1, ?_⟩
      intro x hx
      rcases List.mem_cons.1 hx with rfl | hx
      · exact h2.trans i1
      · exact i2 x hx
  exact (key 0 h0 (le_refl _)).2

/-- rounding to multiples of `1/n` is an instance. -/
def gridArith (n : Nat) : Arith ℚ where
  fl := fun x => (round (x * n) : ℚ) / n
  sum := leftSum (fun x => (round (x * n) : ℚ) / n)

theorem gridArith_lawful (n : Nat) (hn : 0 < n) : Lawful (gridArith n) 0 (1 / (2 * n)) := by
  have hn' : (0 : ℚ) < n := by exact_mod_cast hn
  have hint : ∀ k : ℤ, (gridArith n).fl ((k : ℚ) / n) = (k : ℚ) / n := by
    intro k
    simp only [gridArith]
    rw [div_mul_cancel₀ _ hn'.ne', round_intCast]
  have hmono : ∀ x y : ℚ, x ≤ y → (gridArith n).fl x ≤ (gridArith n).fl y := by
    intro x y h
    simp only [gridArith]
    apply div_le_div_of_nonneg_right _ hn'.le
    have : x * n ≤ y * n := mul_le_mul_of_nonneg_right h hn'.le
    rw [round_eq, round_eq]
    exact_mod_cast Int.floor_le_floor (by linarith)
  have hidem : ∀ x, (gridArith n).fl ((gridArith n).fl x) = (gridArith n).fl x := fun x => hint (round (x * n))
  have hzero : (gridArith n).fl 0 = 0 := by have := hint 0; simpa using this
  exact {
    zero := hzero
    one := by have := hint n; rw [show (((n : ℤ) : ℚ)) / n = 1 by push_cast; exact div_self hn'.ne'] at this; exact this
    idem := hidem
    mono := hmono
    u_nonneg := le_refl _
    u_lt := zero_lt_one
    η_nonneg := by positivity
    err := by
      intro x
      simp only [gridArith, zero_mul, zero_add]
      have h := abs_sub_round (x * n)
      have e : (round (x * n) : ℚ) / n - x = -((x * n - round (x * n)) / n) := by field_simp; ring
      rw [e, abs_neg, abs_div, abs_of_pos hn', div_le_iff₀ hn']
      refine h.trans (le_of_eq ?_)
      field_simp
    sub_err := by
      intro x y hx hy
      have hx' : x = (round (x * n) : ℚ) / n := hx.symm
      have hy' : y = (round (y * n) : ℚ) / n := hy.symm
      have : x - y = ((round (x * n) - round (y * n) : ℤ) : ℚ) / n := by
        rw [Int.cast_sub, sub_div, ← hx', ← hy']
      rw [this, hint]
      simp
    sum_mono := fun xs ys h => leftSum_mono hmono h
    sum_zero := fun xs h => leftSum_zero hzero h
    sum_float := fun xs _ => leftSum_float hzero hidem xs
    sum_ge := fun xs h x hx => leftSum_ge hzero hmono hidem xs h x hx }

/-! ### degrees -/

section degree
variable {A : Arith K} {u η : K}

/-- a rounded difference of different numbers is not 0 and has the sign of the difference. -/
theorem fl_sub_pos (hA : Lawful A u η) {x y : K} (hx : IsFloat A x) (hy : IsFloat A y) (h : y < x) :
    0 < A.fl (x - y) ∧ (1 - u) * (x - y) ≤ A.fl (x - y) ∧ A.fl (x - y) ≤ (1 + u) * (x - y) := by
  have hd : 0 < x - y := sub_pos.2 h
  have h1 := abs_le.1 (hA.sub_err x y hx hy)
  rw [abs_of_pos hd] at h1
  have h2 : 0 < (1 - u) * (x - y) := mul_pos (by linarith [hA.u_lt]) hd
  refine ⟨by nlinarith [h1.1], by nlinarith [h1.1], by nlinarith [h1.2]⟩

/-- a rounded quotient of rounded differences `p ≤ q`: in `[0,1]`, and close to the exact one. -/
theorem fl_ratio (hA : Lawful A u η) {p q p' q' : K} (hp : 0 < p) (hpq : p ≤ q) (hp' : 0 < p') (hpq' : p' ≤ q')
    (h1 : (1 - u) * p ≤ p' ∧ p' ≤ (1 + u) * p) (h2 : (1 - u) * q ≤ q' ∧ q' ≤ (1 + u) * q) :
    0 ≤ A.fl (p' / q') ∧ A.fl (p' / q') ≤ 1 ∧ |A.fl (p' / q') - p / q| ≤ degreeError u η := by
  have hu := hA.u_nonneg
  have hu1 := hA.u_lt
  have hq : 0 < q := hp.trans_le hpq
  have hq' : 0 < q' := hp'.trans_le hpq'
  have r0 : 0 ≤ p' / q' := (div_pos hp' hq').le
  have r1 : p' / q' ≤ 1 := (div_le_one hq').2 hpq'
  refine ⟨?_, ?_, ?_⟩
  · have := hA.mono _ _ r0; rwa [hA.zero] at this
  · have := hA.mono _ _ r1; rwa [hA.one] at this
  · have e1 : |A.fl (p' / q') - p' / q'| ≤ u + η := by
      refine (hA.err _).trans ?_
      rw [abs_of_nonneg r0]
      have : u * (p' / q') ≤ u := mul_le_of_le_one_right hu r1
      linarith
    have hw : 0 < 1 - u := by linarith
    have s1 : p / q ≤ 1 := (div_le_one hq).2 hpq
    have s0 : 0 < p / q := div_pos hp hq
    have e2 : |p' / q' - p / q| ≤ 2 * u / (1 - u) := by
      rw [abs_le]
      constructor
      · -- p/q - p'/q' ≤ 2u/(1-u)
        have : p / q * ((1 - u) / (1 + u)) ≤ p' / q' := by
          rw [div_mul_div_comm, div_le_div_iff₀ (by positivity) hq']
          have a1 : p * (1 - u) * q' ≤ p' * q' := by nlinarith [h1.1]
          have a2 : p' * q' ≤ p' * (q * (1 + u)) := by nlinarith [h2.2]
          linarith
        have k : (1 - u) / (1 + u) = 1 - 2 * u / (1 + u) := by field_simp; ring
        rw [k] at this
        have k2 : 2 * u / (1 + u) ≤ 2 * u / (1 - u) := div_le_div_of_nonneg_left (by linarith) hw (by linarith)
        have k3 : p / q * (2 * u / (1 + u)) ≤ 2 * u / (1 + u) := mul_le_of_le_one_left (by positivity) s1
        nlinarith
      · have : p' / q' ≤ p / q * ((1 + u) / (1 - u)) := by
          rw [div_mul_div_comm, div_le_div_iff₀ hq' (by positivity)]
          have a1 : p' * (q * (1 - u)) ≤ p' * q' := by nlinarith [h2.1]
          have a2 : p' * q' ≤ p * (1 + u) * q' := by nlinarith [h1.2]
          linarith
        have k : (1 + u) / (1 - u) = 1 + 2 * u / (1 - u) := by field_simp; ring
        rw [k] at this
        have k3 : p / q * (2 * u / (1 - u)) ≤ 2 * u / (1 - u) := mul_le_of_le_one_left (by positivity) s1
        nlinarith
    unfold degreeError
    calc |A.fl (p' / q') - p / q| = |(A.fl (p' / q') - p' / q') + (p' / q' - p / q)| := by congr 1; ring
      _ ≤ _ := (abs_add_le _ _).trans (by linarith)

theorem degreeError_nonneg (hA : Lawful A u η) : 0 ≤ degreeError u η := by
  have := hA.u_nonneg
  have := hA.u_lt
  have := hA.η_nonneg
  unfold degreeError
  have : 0 ≤ 2 * u / (1 - u) := div_nonneg (by linarith) (by linarith)
  linarith

/-- the rounded triangular function. -/
theorem trimfAtF_spec (hA : Lawful A u η) {a b c x : K} (ha : IsFloat A a) (hb : IsFloat A b) (hc : IsFloat A c) (hx : IsFloat A x) :
    0 ≤ trimfAtF A a b c x ∧ trimfAtF A a b c x ≤ 1 ∧ |trimfAtF A a b c x - trimfAt a b c x| ≤ degreeError u η ∧
      IsFloat A (trimfAtF A a b c x) := by
  have hE := degreeError_nonneg hA
  unfold trimfAtF trimfAt
  split
  · exact ⟨zero_le_one, le_refl _, by simpa using hE, hA.one⟩
  · split
    · rename_i h1 h2
      obtain ⟨-, h3, h4⟩ := h2
      have k1 := fl_sub_pos hA hc hx h4
      have k2 := fl_sub_pos hA hc hb (h3.trans h4)
      have := fl_ratio hA (sub_pos.2 h4) (by linarith) k1.1 (hA.mono _ _ (by linarith)) k1.2 k2.2
      exact ⟨this.1, this.2.1, this.2.2, hA.idem _⟩
    · split
      · rename_i h1 h2 h5
        obtain ⟨-, h3, h4⟩ := h5
        have k1 := fl_sub_pos hA hx ha h3
        have k2 := fl_sub_pos hA hb ha (h3.trans h4)
        have := fl_ratio hA (sub_pos.2 h3) (by linarith) k1.1 (hA.mono _ _ (by linarith)) k1.2 k2.2
        exact ⟨this.1, this.2.1, this.2.2, hA.idem _⟩
      · exact ⟨le_refl _, zero_le_one, by simpa using hE, hA.zero⟩

/-- the rounded triangle vanishes where the exact one does. -/
theorem trimfAtF_zero {a b c x : K} (h : trimfAt a b c x = 0) : trimfAtF A a b c x = 0 := by
  unfold trimfAt at h
  unfold trimfAtF
  split at h
  · exact absurd h one_ne_zero
  · rename_i h1
    rw [if_neg h1]
    split at h
    · rename_i h2
      have h3 := div_pos (sub_pos.2 h2.2.2) (sub_pos.2 (h2.2.1.trans h2.2.2))
      exact absurd h h3.ne'
    · rename_i h2
      rw [if_neg h2]
      split at h
      · rename_i h3
        have h4 := div_pos (sub_pos.2 h3.2.1) (sub_pos.2 (h3.2.1.trans h3.2.2))
        exact absurd h h4.ne'
      · rename_i h3
        rw [if_neg h3]

theorem CSet.membershipF_num {s : CSet K} (h : s.a ≤ s.b ∧ s.b ≤ s.c) (x : K) :
    s.membershipF A [.num x] = .ok [trimfAtF A s.a s.b s.c x] := by
  unfold CSet.membershipF
  rw [if_pos h]
  rfl

/-- **C168**: in floating point, the degree of a number in a triangular set is a floating point number in `[0,1]`; it is 1 at the peak, 0
outside the triangle, and differs from the exact degree by at most `2u/(1-u) + u + η`. -/
theorem C168_degree (hA : Lawful A u η) (s : CSet K) (hab : s.a ≤ s.b) (hbc : s.b ≤ s.c) (hs : FloatSet A s) (x : K) (hx : IsFloat A x) :
    ∃ m e, s.membershipF A [.num x] = .ok [m] ∧ s.membership [.num x] = .ok [e] ∧ 0 ≤ m ∧ m ≤ 1 ∧ IsFloat A m ∧ (x = s.b → m = 1) ∧
      (x ≠ s.b → x ≤ s.a ∨ s.c ≤ x → m = 0) ∧ |m - e| ≤ 2 * u / (1 - u) + u + η := by
  obtain ⟨h1, h2, h3, h4⟩ := trimfAtF_spec hA hs.1 hs.2.1 hs.2.2 hx
  refine ⟨_, _, CSet.membershipF_num ⟨hab, hbc⟩ x, CSet.membership_nums ⟨hab, hbc⟩ [x], h1, h2, h4, ?_, ?_, h3⟩
  · intro e; unfold trimfAtF; rw [if_pos e]
  · intro hne h
    apply trimfAtF_zero
    have T := trimfAt_isTriangle hab hbc
    rcases h with h | h
    · exact T.left x h hne
    · exact T.right x h hne

/-- **C168**: the degree in floating point still rises up to the peak and falls after it. -/
theorem C168_unimodal (hA : Lawful A u η) (s : CSet K) (hab : s.a ≤ s.b) (hbc : s.b ≤ s.c) (hs : FloatSet A s) (x x' : K)
    (hx : IsFloat A x) (hx' : IsFloat A x') (hxx : x ≤ x') :
    ∃ m m', s.membershipF A [.num x] = .ok [m] ∧ s.membershipF A [.num x'] = .ok [m'] ∧ (x' ≤ s.b → m ≤ m') ∧ (s.b ≤ x → m' ≤ m) := by
  obtain ⟨h1, h2, -, -⟩ := trimfAtF_spec hA hs.1 hs.2.1 hs.2.2 hx
  obtain ⟨h1', h2', -, -⟩ := trimfAtF_spec hA hs.1 hs.2.1 hs.2.2 hx'
  refine ⟨_, _, CSet.membershipF_num ⟨hab, hbc⟩ x, CSet.membershipF_num ⟨hab, hbc⟩ x', ?_, ?_⟩
  · intro hb
    rcases hxx.eq_or_lt with rfl | hlt
    · exact le_refl _
    rcases hb.eq_or_lt with e | hb
    · have : trimfAtF A s.a s.b s.c x' = 1 := by unfold trimfAtF; rw [if_pos e]
      rw [this]; exact h2
    · by_cases ha : s.a < x
      · have hxb : x < s.b := hlt.trans hb
        have e1 : ∀ z, s.a < z → z < s.b → trimfAtF A s.a s.b s.c z = A.fl (A.fl (z - s.a) / A.fl (s.b - s.a)) := by
          intro z hz hz'
          unfold trimfAtF
          rw [if_neg hz'.ne, if_neg (fun h => absurd h.2.1 (not_lt.2 hz'.le)), if_pos ⟨(hz.trans hz').ne, hz, hz'⟩]
        rw [e1 x ha hxb, e1 x' (ha.trans hlt) hb]
        have hq := fl_sub_pos hA hs.2.1 hs.1 (ha.trans hxb)
        exact hA.mono _ _ (div_le_div_of_nonneg_right (hA.mono _ _ (by linarith)) hq.1.le)
      · have : trimfAtF A s.a s.b s.c x = 0 :=
          trimfAtF_zero ((trimfAt_isTriangle hab hbc).left x (not_lt.1 ha) (hlt.trans hb).ne)
        rw [this]; exact h1'
  · intro hb
    rcases hxx.eq_or_lt with rfl | hlt
    · exact le_refl _
    rcases hb.eq_or_lt with e | hb
    · have : trimfAtF A s.a s.b s.c x = 1 := by unfold trimfAtF; rw [if_pos e.symm]
      rw [this]; exact h2'
    · by_cases hc : x' < s.c
      · have e1 : ∀ z, s.b < z → z < s.c → trimfAtF A s.a s.b s.c z = A.fl (A.fl (s.c - z) / A.fl (s.c - s.b)) := by
          intro z hz hz'
          unfold trimfAtF
          rw [if_neg hz.ne', if_pos ⟨(hz.trans hz').ne, hz, hz'⟩]
        rw [e1 x hb (hlt.trans hc), e1 x' (hb.trans hlt) hc]
        have hq := fl_sub_pos hA hs.2.2 hs.2.1 ((hb.trans hlt).trans hc)
        exact hA.mono _ _ (div_le_div_of_nonneg_right (hA.mono _ _ (by linarith)) hq.1.le)
      · have : trimfAtF A s.a s.b s.c x' = 0 :=
          trimfAtF_zero ((trimfAt_isTriangle hab hbc).right x' (not_lt.1 hc) (hb.trans hlt).ne')
        rw [this]; exact h1

/-- at most two entries, next to each other, are not 0. -/
theorem sum_two_le {E : K} (hE : 0 ≤ E) (es : List K) (h1 : ∀ e ∈ es, e ≤ E)
    (h2 : ∀ (i j : Nat) (a b : K), i < j → es[i]? = some a → es[j]? = some b → a ≠ 0 → b ≠ 0 → j = i + 1) : es.sum ≤ 2 * E := by
  induction es with
  | nil => simpa using hE
  | cons e es ih =>
    have ih' := ih (fun e he => h1 e (by simp [he])) (by
      intro i j a b hij ha hb na nb
      have := h2 (i + 1) (j + 1) a b (by omega) (by simpa using ha) (by simpa using hb) na nb
      omega)
    rw [List.sum_cons]
    by_cases he : e = 0
    · rw [he, zero_add]; exact ih'
    · cases es with
      | nil =>
        have := h1 e (by simp)
        simp only [List.sum_nil]; linarith
      | cons e' es =>
        have hz : ∀ z ∈ es, z = 0 := by
          intro z hz
          by_contra hne
          obtain ⟨k, hk⟩ := List.mem_iff_getElem?.1 hz
          have := h2 0 (k + 2) e z (by omega) rfl (by simpa using hk) he hne
          omega
        rw [List.sum_cons, List.sum_eq_zero hz]
        have a1 := h1 e (by simp)
        have a2 := h1 e' (by simp)
        linarith

theorem floatSet_of_points {ok : Bool} {ps : List (String × K)} {sets : List (CSet K)} (h : getFuzzyContinuousSets ok ps = .ok sets)
    (hinc : (ps.map Prod.snd).Pairwise (· < ·)) (hps : ∀ q ∈ ps, IsFloat A q.2) :
    ∀ s ∈ sets, FloatSet A s ∧ s.a ≤ s.b ∧ s.b ≤ s.c := by
  match ps, hinc, h, hps with
  | [], _, h, _ => simp [getFuzzyContinuousSets] at h
  | [q], _, h, hps =>
    cases ok with
    | false => cases h
    | true =>
      cases h
      intro s hs
      rw [List.mem_singleton] at hs
      subst hs
      have := hps q (by simp)
      exact ⟨⟨this, this, this⟩, le_refl _, le_refl _⟩
  | q₀ :: q₁ :: qs, hinc, h, hps =>
    cases h
    have mono : ∀ (i j : Nat) (u v : String × K), (q₀ :: q₁ :: qs)[i]? = some u → (q₀ :: q₁ :: qs)[j]? = some v → i < j → u.2 < v.2 := by
      intro i j u v hu hv hij
      rw [List.pairwise_iff_getElem] at hinc
      obtain ⟨hi, rfl⟩ := List.getElem?_eq_some_iff.1 hu
      obtain ⟨hj, rfl⟩ := List.getElem?_eq_some_iff.1 hv
      have := hinc i j (by simpa using hi) (by simpa using hj) hij
      simp only [List.getElem_map] at this; exact this
    intro s hs
    rcases List.mem_cons.1 hs with rfl | hs
    · exact ⟨⟨hps q₀ (by simp), hps q₀ (by simp), hps q₁ (by simp)⟩, le_refl _, (mono 0 1 _ _ rfl rfl (by omega)).le⟩
    · obtain ⟨i, hi⟩ := List.mem_iff_getElem?.1 hs
      obtain ⟨p, q, h1, h2, -, h4, h5, -, h7⟩ := tailTriangles_getElem? _ _ _ hi
      have m1 := hps p (List.mem_of_getElem? h1)
      have m2 := hps q (List.mem_of_getElem? h2)
      unfold FloatSet
      rw [h4, h5, h7]
      refine ⟨⟨m1, m2, ?_⟩, (mono _ _ _ _ h1 h2 (by omega)).le, ?_⟩
      · cases h8 : (q₀ :: q₁ :: qs)[i + 2]? with
        | none => simpa using m2
        | some r => simpa using hps r (List.mem_of_getElem? h8)
      · cases h8 : (q₀ :: q₁ :: qs)[i + 2]? with
        | none => simp
        | some r => simpa using (mono _ _ _ _ h2 h8 (by omega)).le

/-- **C168**: in floating point a strong partition is one up to rounding: the degrees of a number between the first and the last peak add up
(exactly added) to 1 within twice the error of one degree, whatever the number of sets; outside all the degrees are exactly 0. -/
theorem C168_partition (hA : Lawful A u η) (ok : Bool) (p₀ p₁ : String × K) (ps : List (String × K)) (l : String × K)
    (hl : (p₀ :: p₁ :: ps).getLast? = some l) (hinc : ((p₀ :: p₁ :: ps).map Prod.snd).Pairwise (· < ·))
    (hps : ∀ q ∈ p₀ :: p₁ :: ps, IsFloat A q.2) :
    ∃ sets, getFuzzyContinuousSets ok (p₀ :: p₁ :: ps) = .ok sets ∧ sets.length = ps.length + 2 ∧
      ∀ x : K, IsFloat A x → ∃ ms : List K, sets.mapM (fun s => s.membershipF A [.num x]) = .ok (ms.map (fun m => [m])) ∧
        (p₀.2 ≤ x → x ≤ l.2 → |ms.sum - 1| ≤ 2 * (2 * u / (1 - u) + u + η)) ∧ (x < p₀.2 ∨ l.2 < x → ∀ m ∈ ms, m = 0) := by
  obtain ⟨sets, h1, h2, h3⟩ := C02_strong_partition ok p₀ p₁ ps l hl hinc
  have hfs := floatSet_of_points h1 hinc hps
  refine ⟨sets, h1, h2, ?_⟩
  intro x hx
  obtain ⟨ms, g1, g2, g3⟩ := h3 x
  have he : ms = sets.map (fun s => trimfAt s.a s.b s.c x) := by
    have : sets.mapM (fun s => s.membership [.num x]) = .ok ((sets.map (fun s => trimfAt s.a s.b s.c x)).map (fun m => [m])) := by
      rw [mapM_ok_iff, List.map_map]
      rw [List.forall₂_map_right_iff, List.forall₂_same]
      intro s hs
      exact CSet.membership_nums (hfs s hs).2 [x]
    rw [g1] at this
    have := Except.ok.inj this
    exact List.map_injective_iff.2 (fun a b h => by simpa using h) this
  refine ⟨sets.map (fun s => trimfAtF A s.a s.b s.c x), ?_, ?_, ?_⟩
  · rw [mapM_ok_iff, List.map_map, List.forall₂_map_right_iff, List.forall₂_same]
    intro s hs
    exact CSet.membershipF_num (hfs s hs).2 x
  · intro hx1 hx2
    have hone := g2 hx1 hx2
    rw [he] at hone
    have key : |(sets.map (fun s => trimfAtF A s.a s.b s.c x)).sum - (sets.map (fun s => trimfAt s.a s.b s.c x)).sum| ≤
        (sets.map (fun s => |trimfAtF A s.a s.b s.c x - trimfAt s.a s.b s.c x|)).sum := by
      clear * -
      induction sets with
      | nil => simp
      | cons s sets ih =>
        simp only [List.map_cons, List.sum_cons]
        rw [add_sub_add_comm]
        exact (abs_add_le _ _).trans (by linarith)
    rw [hone] at key
    refine key.trans (sum_two_le (degreeError_nonneg hA) _ ?_ ?_)
    · intro e he
      obtain ⟨s, hs, rfl⟩ := List.mem_map.1 he
      obtain ⟨⟨f1, f2, f3⟩, -⟩ := hfs s hs
      exact (trimfAtF_spec hA f1 f2 f3 hx).2.2.1
    · intro i j a b hij ha hb na nb
      rw [List.getElem?_map] at ha hb
      obtain ⟨si, hsi, rfl⟩ := Option.map_eq_some_iff.1 ha
      obtain ⟨sj, hsj, rfl⟩ := Option.map_eq_some_iff.1 hb
      have pos : ∀ s ∈ sets, |trimfAtF A s.a s.b s.c x - trimfAt s.a s.b s.c x| ≠ 0 → 0 < trimfAt s.a s.b s.c x := by
        intro s hs hne
        refine lt_of_le_of_ne ((trimfAt_isTriangle (hfs s hs).2.1 (hfs s hs).2.2).nonneg x) ?_
        intro e0
        apply hne
        rw [trimfAtF_zero e0.symm, ← e0]
        simp
      have mi := List.mem_of_getElem? hsi
      have mj := List.mem_of_getElem? hsj
      exact C03_two_neighbours ok _ sets hinc h1 x i j si sj _ _ hij hsi hsj (CSet.membership_nums (hfs si mi).2 [x])
        (CSet.membership_nums (hfs sj mj).2 [x]) (pos si mi na) (pos sj mj nb)
  · intro hout m hm
    obtain ⟨s, hs, rfl⟩ := List.mem_map.1 hm
    exact trimfAtF_zero (g3 hout _ (by rw [he]; exact List.mem_map_of_mem hs))

end degree

/-- numbers with one decimal: the degrees of 1 in the sets with peaks 0 and 4 are rounded to 3/10 and 8/10. -/
example : (∀ q ∈ [("low", (0 : ℚ)), ("high", 4)], IsFloat (gridArith 10) q.2) ∧ IsFloat (gridArith 10) 1 ∧
    (∃ sets, getFuzzyContinuousSets false [("low", (0 : ℚ)), ("high", 4)] = .ok sets ∧
      sets.mapM (fun s => s.membershipF (gridArith 10) [.num 1]) = .ok [[8 / 10], [3 / 10]]) ∧
    (2 : ℚ) * (2 * 0 / (1 - 0) + 0 + 1 / (2 * 10)) = 1 / 10 := by
  refine ⟨?_, ?_, ⟨_, rfl, ?_⟩, by norm_num⟩
  · unfold IsFloat; decide +kernel
  · unfold IsFloat; decide +kernel
  · decide +kernel

end Teacher
