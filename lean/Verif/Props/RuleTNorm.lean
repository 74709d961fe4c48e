import Verif.Model.RuleTNorm
import Verif.Props.Rule

/-! # C155: `Rule.matching` with any t-norm -/

namespace Teacher
set_option linter.unusedSectionVars false
open Spec

variable {C K : Type} [Field K] [LinearOrder K] [IsStrictOrderedRing K]

/-- a t-norm on the degrees from 0 to 1. -/
structure Spec.IsTNorm (t : K → K → K) : Prop where
  range : ∀ x y, 0 ≤ x → x ≤ 1 → 0 ≤ y → y ≤ 1 → 0 ≤ t x y ∧ t x y ≤ 1
  comm : ∀ x y, t x y = t y x
  assoc : ∀ x y z, 0 ≤ x → x ≤ 1 → 0 ≤ y → y ≤ 1 → 0 ≤ z → z ≤ 1 → t (t x y) z = t x (t y z)
  mono : ∀ x y y', 0 ≤ x → x ≤ 1 → 0 ≤ y → y ≤ y' → y' ≤ 1 → t x y ≤ t x y'
  one : ∀ x, 0 ≤ x → x ≤ 1 → t x 1 = x

/-- the function of a list of degrees that applies the t-norm one after the other, from 1 (`functools.reduce(t, ms, 1)`). -/
def Spec.reduced (t : K → K → K) (ms : List K) : Py K := .ok (ms.foldl t 1)

/-- the memberships are degrees. -/
def Spec.Degrees (inst : Inst K) : Prop := ∀ f s x, HasDegree inst f s x → 0 ≤ x ∧ x ≤ 1

/-! ### facts about t-norms -/

/-- all are degrees. -/
def unitList (l : List K) : Prop := ∀ x ∈ l, 0 ≤ x ∧ x ≤ 1

theorem fold_range {t : K → K → K} (ht : Spec.IsTNorm t) (l : List K) (hl : unitList l) (a : K) (h0 : 0 ≤ a) (h1 : a ≤ 1) :
    0 ≤ l.foldl t a ∧ l.foldl t a ≤ 1 := by
  induction l generalizing a with
  | nil => exact ⟨h0, h1⟩
  | cons x l ih =>
    have hx := hl x (by simp)
    have := ht.range a x h0 h1 hx.1 hx.2
    exact ih (fun y hy => hl y (by simp [hy])) _ this.1 this.2

theorem fold_from {t : K → K → K} (ht : Spec.IsTNorm t) (l : List K) (hl : unitList l) (a : K) (h0 : 0 ≤ a) (h1 : a ≤ 1) :
    l.foldl t a = t a (l.foldl t 1) := by
  induction l generalizing a with
  | nil => exact (ht.one a h0 h1).symm
  | cons x l ih =>
    have hx := hl x (by simp)
    have hl' : unitList l := fun y hy => hl y (by simp [hy])
    have hax := ht.range a x h0 h1 hx.1 hx.2
    have hf := fold_range ht l hl' 1 zero_le_one le_rfl
    rw [List.foldl_cons, List.foldl_cons, ih hl' _ hax.1 hax.2, ht.comm 1 x, ht.one x hx.1 hx.2, ih hl' x hx.1 hx.2]
    exact ht.assoc _ _ _ h0 h1 hx.1 hx.2 hf.1 hf.2

theorem tnorm_le_left {t : K → K → K} (ht : Spec.IsTNorm t) (x y : K) (hx0 : 0 ≤ x) (hx1 : x ≤ 1) (hy0 : 0 ≤ y) (hy1 : y ≤ 1) :
    t x y ≤ x := by
  have := ht.mono x y 1 hx0 hx1 hy0 hy1 le_rfl
  rwa [ht.one x hx0 hx1] at this

theorem fold_cons {t : K → K → K} (ht : Spec.IsTNorm t) (x : K) (l : List K) (hl : unitList (x :: l)) :
    (x :: l).foldl t 1 = t x (l.foldl t 1) := by
  have hx := hl x (by simp)
  rw [List.foldl_cons, ht.comm 1 x, ht.one x hx.1 hx.2, fold_from ht l (fun y hy => hl y (by simp [hy])) x hx.1 hx.2]

theorem fold_le_mem {t : K → K → K} (ht : Spec.IsTNorm t) (l : List K) (hl : unitList l) : ∀ x ∈ l, l.foldl t 1 ≤ x := by
  induction l with
  | nil => simp
  | cons a l ih =>
    have ha := hl a (by simp)
    have hl' : unitList l := fun y hy => hl y (by simp [hy])
    have hf := fold_range ht l hl' 1 zero_le_one le_rfl
    intro x hx
    rw [fold_cons ht a l hl]
    rcases List.mem_cons.1 hx with rfl | hx
    · exact tnorm_le_left ht _ _ ha.1 ha.2 hf.1 hf.2
    · refine le_trans ?_ (ih hl' x hx)
      rw [ht.comm]
      exact tnorm_le_left ht _ _ hf.1 hf.2 ha.1 ha.2

theorem fold_append_le {t : K → K → K} (ht : Spec.IsTNorm t) (l m : List K) (hl : unitList l) (hm : unitList m) :
    (l ++ m).foldl t 1 ≤ l.foldl t 1 := by
  have h1 := fold_range ht l hl 1 zero_le_one le_rfl
  have h2 := fold_range ht m hm 1 zero_le_one le_rfl
  rw [List.foldl_append, fold_from ht m hm _ h1.1 h1.2]
  exact tnorm_le_left ht _ _ h1.1 h1.2 h2.1 h2.2

theorem fold_perm {t : K → K → K} (ht : Spec.IsTNorm t) {l m : List K} (h : l.Perm m) (hl : unitList l) : l.foldl t 1 = m.foldl t 1 := by
  induction h with
  | nil => rfl
  | cons x hp ih =>
    have hl' : unitList _ := fun y hy => hl y (List.mem_cons_of_mem _ hy)
    rw [fold_cons ht _ _ hl, fold_cons ht, ih hl']
    intro y hy
    exact hl y ((hp.cons x).mem_iff.2 hy)
  | swap x y l =>
    have hl' : unitList l := fun z hz => hl z (by simp [hz])
    have hf := fold_range ht l hl' 1 zero_le_one le_rfl
    have hx := hl x (by simp)
    have hy := hl y (by simp)
    rw [fold_cons ht _ _ hl, fold_cons ht x l (fun z hz => hl z (List.mem_cons_of_mem _ hz)), fold_cons ht x (y :: l) (fun z hz => hl z (by
      simp only [List.mem_cons] at hz ⊢; tauto)), fold_cons ht y l (fun z hz => hl z (by simp only [List.mem_cons] at hz ⊢; tauto)),
      ← ht.assoc y x _ hy.1 hy.2 hx.1 hx.2 hf.1 hf.2, ht.comm y x, ht.assoc x y _ hx.1 hx.2 hy.1 hy.2 hf.1 hf.2]
  | trans h1 _ ih1 ih2 =>
    exact (ih1 hl).trans (ih2 (fun y hy => hl y (h1.mem_iff.2 hy)))

theorem fold_mono {t : K → K → K} (ht : Spec.IsTNorm t) {l m : List K} (h : List.Forall₂ (· ≤ ·) l m) (hl : unitList l) (hm : unitList m) :
    l.foldl t 1 ≤ m.foldl t 1 := by
  induction h with
  | nil => exact le_rfl
  | @cons x y l m hxy _ ih =>
    have hl' : unitList l := fun z hz => hl z (by simp [hz])
    have hm' : unitList m := fun z hz => hm z (by simp [hz])
    have h1 := fold_range ht l hl' 1 zero_le_one le_rfl
    have h2 := fold_range ht m hm' 1 zero_le_one le_rfl
    have hx := hl x (by simp)
    have hy := hm y (by simp)
    rw [fold_cons ht x l hl, fold_cons ht y m hm]
    refine (ht.mono x _ _ hx.1 hx.2 h1.1 (ih hl' hm') h2.2).trans ?_
    rw [ht.comm x, ht.comm y]
    exact ht.mono _ x y h2.1 h2.2 hx.1 hxy hy.2

/-! ### the theorems -/

/-- **C155**: `matching` with a function `T`: 0 when some condition is not known to the instance; otherwise `T` of the degrees in the order
of the conditions (and 0 if `T` itself raises `KeyError`). -/
theorem C155_matching (T : List K → Py K) (r : Rule String C K) (inst : Inst K) :
    ((∃ p ∈ r.antecedent, ¬ Known inst p.1 p.2) → r.matchingWith T inst = .ok 0) ∧
    ∀ ms, List.Forall₂ (fun p x => HasDegree inst p.1 p.2 x) r.antecedent ms →
      (T ms ≠ .error .keyError → r.matchingWith T inst = T ms) ∧ (T ms = .error .keyError → r.matchingWith T inst = .ok 0) := by
  constructor
  · rintro ⟨p, hp, hk⟩
    unfold Rule.matchingWith
    rw [mapM_error_eq _ _ .keyError (fun p _ e' he => (lookup2_error _ _ _ _ he).1) ⟨p, hp, lookup2_of_not_known _ _ _ hk⟩]
    rfl
  · intro ms h
    unfold Rule.matchingWith
    rw [(mapM_ok_iff _ _ ms).2 (h.imp (fun _ _ hx => (lookup2_ok_iff _ _ _ _).2 hx))]
    unfold matchDegreesWith
    simp only [Except.bind]
    constructor
    · intro hne
      split
      · rename_i he; exact absurd he hne
      · rfl
    · intro he
      rw [he]

/-- **C155**: the default, `min`, gives the matching of C17, for both kinds of rules. -/
theorem C155_default (r : Rule String C K) (r' : Rule (List String) C K) (inst : Inst K) :
    r.matchingWith pyMin inst = r.matching inst ∧ r'.matchingMultiWith pyMin inst = r'.matchingMulti inst := by
  have key : ∀ ms : Py (List K), matchDegreesWith pyMin ms = matchDegrees ms := by
    intro ms
    cases ms with
    | error e => cases e <;> rfl
    | ok l =>
      show (match pyMin l with | .error .keyError => .ok 0 | r => r) = pyMin l
      cases hl : pyMin l with
      | ok _ => rfl
      | error e => rw [((pyMin_eq_error_iff _ _).1 hl).2]
  exact ⟨key _, key _⟩

/-- **C155**: for a rule with several values per condition the degrees are the sums of those of the values. -/
theorem C155_matching_multi (T : List K → Py K) (r : Rule (List String) C K) (inst : Inst K) :
    ((∃ p ∈ r.antecedent, ∃ v ∈ p.2, ¬ Known inst p.1 v) → r.matchingMultiWith T inst = .ok 0) ∧
    ∀ deg : String → String → K, (∀ p ∈ r.antecedent, ∀ v ∈ p.2, HasDegree inst p.1 v (deg p.1 v)) →
      T (r.antecedent.map (fun p => (p.2.map (deg p.1)).sum)) ≠ .error .keyError →
      r.matchingMultiWith T inst = T (r.antecedent.map (fun p => (p.2.map (deg p.1)).sum)) := by
  constructor
  · rintro ⟨p, hp, hk⟩
    unfold Rule.matchingMultiWith
    rw [mapM_error_eq _ _ .keyError (fun p _ e' he => sumValues_error _ _ _ _ he) ⟨p, hp, sumValues_unknown _ _ _ hk⟩]
    rfl
  · intro deg h hne
    unfold Rule.matchingMultiWith
    rw [mapM_ok_of_forall _ (fun p => (p.2.map (deg p.1)).sum) _ (fun p hp => sumValues_ok inst p.1 p.2 (deg p.1) (h p hp))]
    unfold matchDegreesWith
    simp only [Except.bind]

/-- degrees of known conditions. -/
theorem degrees_unit {inst : Inst K} (hd : Spec.Degrees inst) {l : List (String × String)} {ms : List K}
    (h : List.Forall₂ (fun p x => HasDegree inst p.1 p.2 x) l ms) : unitList ms := by
  intro x hx
  obtain ⟨p, -, hp⟩ := (degrees_mem h x).1 hx
  exact hd _ _ _ hp

theorem matchingWith_cases (t : K → K → K) (r : Rule String C K) (inst : Inst K) :
    ((∃ p ∈ r.antecedent, ¬ Known inst p.1 p.2) ∧ r.matchingWith (Spec.reduced t) inst = .ok 0) ∨
    ∃ ms, List.Forall₂ (fun p x => HasDegree inst p.1 p.2 x) r.antecedent ms ∧
      r.matchingWith (Spec.reduced t) inst = .ok (ms.foldl t 1) := by
  by_cases hk : ∀ p ∈ r.antecedent, Known inst p.1 p.2
  · obtain ⟨ms, hms⟩ := degrees_exist _ _ hk
    exact .inr ⟨ms, hms, ((C155_matching (Spec.reduced t) r inst).2 ms hms).1 (by simp [Spec.reduced])⟩
  · push Not at hk
    exact .inl ⟨hk, (C155_matching (Spec.reduced t) r inst).1 hk⟩

/-- **C155**: with a t-norm and memberships in [0,1], matching always succeeds, is a degree, is at most the degree of each condition, and so
at most the matching with `min`. -/
theorem C155_tnorm_le_min {t : K → K → K} (ht : Spec.IsTNorm t) (r : Rule String C K) (inst : Inst K) (hd : Spec.Degrees inst) :
    ∃ m, r.matchingWith (Spec.reduced t) inst = .ok m ∧ 0 ≤ m ∧ m ≤ 1 ∧
      (∀ p ∈ r.antecedent, ∀ x, HasDegree inst p.1 p.2 x → m ≤ x) ∧ ∀ m', r.matching inst = .ok m' → m ≤ m' := by
  rcases matchingWith_cases t r inst with ⟨hk, hm⟩ | ⟨ms, hms, hm⟩
  · refine ⟨0, hm, le_rfl, zero_le_one, fun p _ x hx => (hd _ _ _ hx).1, ?_⟩
    intro m' hm'
    rw [matching_of_unknown r inst hk] at hm'
    cases hm'
    exact le_rfl
  · have hu := degrees_unit hd hms
    have hr := fold_range ht ms hu 1 zero_le_one le_rfl
    refine ⟨_, hm, hr.1, hr.2, fun p hp x hx => fold_le_mem ht ms hu x ((degrees_mem hms x).2 ⟨p, hp, hx⟩), ?_⟩
    intro m' hm'
    rw [matching_of_known r inst ms hms] at hm'
    exact fold_le_mem ht ms hu m' ((pyMin_eq_ok_iff _ _).1 hm').1

/-- **C155**: the order of the conditions does not matter. -/
theorem C155_tnorm_order {t : K → K → K} (ht : Spec.IsTNorm t) (r r' : Rule String C K) (hp : r.antecedent.Perm r'.antecedent) (inst : Inst K)
    (hd : Spec.Degrees inst) : r.matchingWith (Spec.reduced t) inst = r'.matchingWith (Spec.reduced t) inst := by
  rcases matchingWith_cases t r inst with ⟨⟨p, h1, h2⟩, hm⟩ | ⟨ms, hms, hm⟩
  · rw [hm, (C155_matching (Spec.reduced t) r' inst).1 ⟨p, hp.mem_iff.1 h1, h2⟩]
  · obtain ⟨ms', hms', hpm⟩ : ∃ ms', List.Forall₂ (fun p x => HasDegree inst p.1 p.2 x) r'.antecedent ms' ∧ ms.Perm ms' := by
      obtain ⟨ms', h1, h2⟩ := List.perm_comp_forall₂ hp.symm hms
      exact ⟨ms', h1, h2.symm⟩
    rw [hm, ((C155_matching (Spec.reduced t) r' inst).2 ms' hms').1 (by simp [Spec.reduced]), Spec.reduced,
      fold_perm ht hpm (degrees_unit hd hms)]

/-- **C155**: a rule with more conditions matches at most as well. -/
theorem C155_tnorm_more {t : K → K → K} (ht : Spec.IsTNorm t) (r r' : Rule String C K) (more : List (String × String))
    (hr : r'.antecedent = r.antecedent ++ more) (inst : Inst K) (hd : Spec.Degrees inst) (m m' : K)
    (hm : r.matchingWith (Spec.reduced t) inst = .ok m) (hm' : r'.matchingWith (Spec.reduced t) inst = .ok m') : m' ≤ m := by
  rcases matchingWith_cases t r' inst with ⟨-, h⟩ | ⟨ms, hms, h⟩
  · rw [hm'] at h
    cases h
    obtain ⟨m0, h0, h1, -⟩ := C155_tnorm_le_min ht r inst hd
    rw [hm] at h0
    cases h0
    exact h1
  · rw [hm'] at h
    cases h
    have hu := degrees_unit hd hms
    rw [hr] at hms
    obtain ⟨a, b, ha, rfl⟩ : ∃ a b, List.Forall₂ (fun p x => HasDegree inst p.1 p.2 x) r.antecedent a ∧ ms = a ++ b := by
      have h1 := List.forall₂_take r.antecedent.length hms
      rw [List.take_left] at h1
      exact ⟨_, ms.drop r.antecedent.length, h1, (List.take_append_drop _ _).symm⟩
    rw [((C155_matching (Spec.reduced t) r inst).2 a ha).1 (by simp [Spec.reduced]), Spec.reduced] at hm
    cases hm
    exact fold_append_le ht a b (fun x hx => hu x (by simp [hx])) (fun x hx => hu x (by simp [hx]))

/-- **C155**: with larger memberships the rule matches at least as well. -/
theorem C155_tnorm_mono {t : K → K → K} (ht : Spec.IsTNorm t) (r : Rule String C K) (inst inst' : Inst K) (hd : Spec.Degrees inst)
    (hd' : Spec.Degrees inst') (hle : ∀ p ∈ r.antecedent, ∀ x, HasDegree inst p.1 p.2 x → ∃ x', HasDegree inst' p.1 p.2 x' ∧ x ≤ x')
    (m m' : K) (hm : r.matchingWith (Spec.reduced t) inst = .ok m) (hm' : r.matchingWith (Spec.reduced t) inst' = .ok m') : m ≤ m' := by
  rcases matchingWith_cases t r inst with ⟨-, h⟩ | ⟨ms, hms, h⟩
  · rw [hm] at h
    cases h
    obtain ⟨m0, h0, h1, -⟩ := C155_tnorm_le_min ht r inst' hd'
    rw [hm'] at h0
    cases h0
    exact h1
  · rw [hm] at h
    cases h
    obtain ⟨ms', hms', hl⟩ : ∃ ms', List.Forall₂ (fun p x => HasDegree inst' p.1 p.2 x) r.antecedent ms' ∧ List.Forall₂ (· ≤ ·) ms ms' := by
      clear hm hm'
      revert hle
      generalize r.antecedent = l at hms
      intro hle
      induction hms with
      | nil => exact ⟨[], .nil, .nil⟩
      | @cons p x l ms hx _ ih =>
        obtain ⟨x', h1, h2⟩ := hle p (by simp) x hx
        obtain ⟨ms', h3, h4⟩ := ih (fun q hq => hle q (by simp [hq]))
        exact ⟨x' :: ms', .cons h1 h3, .cons h2 h4⟩
    rw [((C155_matching (Spec.reduced t) r inst').2 ms' hms').1 (by simp [Spec.reduced]), Spec.reduced] at hm'
    cases hm'
    exact fold_mono ht hl (degrees_unit hd hms) (degrees_unit hd' hms')

/-! ### cases -/

/-- the product and the t-norm of Łukasiewicz are t-norms. -/
theorem product_tnorm : Spec.IsTNorm (fun x y : K => x * y) where
  range _ _ h1 h2 h3 h4 := ⟨mul_nonneg h1 h3, mul_le_one₀ h2 h3 h4⟩
  comm := mul_comm
  assoc x y z _ _ _ _ _ _ := mul_assoc x y z
  mono _ _ _ h1 _ _ h _ := mul_le_mul_of_nonneg_left h h1
  one x _ _ := mul_one x

theorem lukasiewicz_tnorm : Spec.IsTNorm (fun x y : K => max 0 (x + y - 1)) where
  range x y h1 h2 h3 h4 := ⟨le_max_left _ _, max_le zero_le_one (by linarith)⟩
  comm x y := by rw [add_comm x y]
  assoc x y z h1 h2 h3 h4 h5 h6 := by
    show max 0 (max 0 (x + y - 1) + z - 1) = max 0 (x + max 0 (y + z - 1) - 1)
    rcases le_total 0 (x + y - 1) with h | h <;> rcases le_total 0 (y + z - 1) with g | g
    · rw [max_eq_right h, max_eq_right g]; congr 1; ring
    · rw [max_eq_right h, max_eq_left g, max_eq_left, max_eq_left] <;> linarith
    · rw [max_eq_left h, max_eq_right g, max_eq_left, max_eq_left] <;> linarith
    · rw [max_eq_left h, max_eq_left g, max_eq_left, max_eq_left] <;> linarith
  mono x y y' _ _ _ h _ := max_le_max le_rfl (by linarith)
  one x h _ := by
    show max 0 (x + 1 - 1) = x
    rw [add_sub_cancel_right, max_eq_right h]

theorem exInst_degrees : Spec.Degrees exInst := by
  rintro f s x ⟨d, h1, h2⟩
  have h3 := Dict.mem_of_get? h1
  have h4 := Dict.mem_of_get? h2
  simp only [exInst, List.mem_cons, Prod.mk.injEq, List.not_mem_nil, or_false] at h3
  rcases h3 with ⟨-, rfl⟩ | ⟨-, rfl⟩ <;> simp only [List.mem_cons, Prod.mk.injEq, List.not_mem_nil, or_false] at h4 <;>
    rcases h4 with ⟨-, rfl⟩ | ⟨-, rfl⟩ <;> norm_num

/-- a rule, the product and the default. -/
example : (⟨[("age", "high"), ("sex", "m"), ("age", "low")], "yes", 1⟩ : Rule String String ℚ).matchingWith (Spec.reduced (· * ·)) exInst = .ok (3/16) ∧
    (⟨[("age", "high"), ("sex", "m"), ("age", "low")], "yes", 1⟩ : Rule String String ℚ).matchingWith pyMin exInst = .ok (1/4) ∧
    (⟨[("age", "high"), ("job", "m")], "yes", 1⟩ : Rule String String ℚ).matchingWith (Spec.reduced (· * ·)) exInst = .ok 0 ∧
    (⟨[], "yes", 1⟩ : Rule String String ℚ).matchingWith (Spec.reduced (· * ·)) exInst = .ok 1 ∧
    (⟨[("age", ["low", "high"]), ("sex", ["m"])], "yes", 1⟩ : Rule (List String) String ℚ).matchingMultiWith (Spec.reduced (· * ·)) exInst = .ok 1 := by
  decide +kernel

example : ∃ m, (⟨[("age", "high"), ("age", "low")], "yes", 1⟩ : Rule String String ℚ).matchingWith (Spec.reduced (fun x y => max 0 (x + y - 1))) exInst = .ok m ∧ m ≤ 1/4 := by
  obtain ⟨m, h1, -, -, h2, -⟩ := C155_tnorm_le_min lukasiewicz_tnorm (⟨[("age", "high"), ("age", "low")], "yes", 1⟩ : Rule String String ℚ) exInst exInst_degrees
  exact ⟨m, h1, h2 ("age", "low") (by simp) _ ⟨_, rfl, rfl⟩⟩

end Teacher
