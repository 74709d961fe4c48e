import Verif.Lemmas.Rule
import Verif.Props.FuzzyVars
import Mathlib.Data.List.Dedup
import Mathlib.Data.List.Induction

/-! Properties C17-C25 of `Rule`. -/

set_option linter.unusedSectionVars false

namespace Teacher
open Spec

variable {V C K : Type} [Field K] [LinearOrder K] [IsStrictOrderedRing K]

/-- a two-feature instance used in the examples -/
def exInst : Inst ℚ := [("age", [("low", 1/4), ("high", 3/4)]), ("sex", [("m", 1), ("f", 0)])]

/-! ### C17 -/

/-- C17: for a non-empty antecedent, matching is the smallest degree of its conditions if all of them are known to the
instance and 0 if some feature or set is missing; an empty antecedent is a `ValueError`. -/
theorem C17_matching (r : Rule String C K) (inst : Inst K) :
    (r.antecedent = [] → r.matching inst = .error .valueError) ∧
    (r.antecedent ≠ [] → ∃ m, r.matching inst = .ok m ∧
      ((∀ p ∈ r.antecedent, Known inst p.1 p.2) →
        (∃ p ∈ r.antecedent, HasDegree inst p.1 p.2 m) ∧ ∀ p ∈ r.antecedent, ∀ x, HasDegree inst p.1 p.2 x → m ≤ x) ∧
      ((∃ p ∈ r.antecedent, ¬ Known inst p.1 p.2) → m = 0)) := by
  refine ⟨?_, matching_spec r inst⟩
  intro h
  unfold Rule.matching
  rw [h]; rfl

/-- C17: matching is a degree when the memberships are. -/
theorem C17_range (r : Rule String C K) (inst : Inst K) (m : K) (h : r.matching inst = .ok m)
    (hdeg : ∀ f s x, HasDegree inst f s x → 0 ≤ x ∧ x ≤ 1) : 0 ≤ m ∧ m ≤ 1 := by
  have hne : r.antecedent ≠ [] := by
    intro he
    rw [(C17_matching r inst).1 he] at h
    cases h
  obtain ⟨m', h', hk, hu⟩ := matching_spec r inst hne
  rw [h] at h'
  cases h'
  by_cases hall : ∀ p ∈ r.antecedent, Known inst p.1 p.2
  · obtain ⟨p, -, hp⟩ := (hk hall).1
    exact hdeg _ _ _ hp
  · push Not at hall
    rw [hu hall]
    exact ⟨le_refl _, zero_le_one⟩

theorem sumValues_ok (inst : Inst K) (f : String) (vs : List String) (deg : String → K)
    (h : ∀ v ∈ vs, HasDegree inst f v (deg v)) : sumValues inst f vs = .ok (vs.map deg).sum := by
  unfold sumValues
  have aux : ∀ (vs : List String) (a : K), (∀ v ∈ vs, HasDegree inst f v (deg v)) →
      vs.foldlM (fun m v => do let x ← lookup2 inst f v; pure (m + x)) a = (.ok (a + (vs.map deg).sum) : Py K) := by
    intro vs
    induction vs with
    | nil => intro a _; simp
    | cons v vs ih =>
      intro a h
      rw [List.foldlM_cons, (lookup2_ok_iff _ _ _ _).2 (h v (by simp))]
      refine (ih (a + deg v) (fun w hw => h w (by simp [hw]))).trans ?_
      rw [List.map_cons, List.sum_cons, add_assoc]
  rw [aux vs 0 h, zero_add]

theorem sumValues_error (inst : Inst K) (f : String) (vs : List String) (e : PyErr)
    (h : sumValues inst f vs = .error e) : e = .keyError := by
  unfold sumValues at h
  generalize (0 : K) = a at h
  induction vs generalizing a with
  | nil => cases h
  | cons v vs ih =>
    rw [List.foldlM_cons, py_bind_eq_error] at h
    rcases h with h | ⟨b, -, h⟩
    · rw [py_bind_eq_error] at h
      rcases h with h | ⟨x, -, h⟩
      · exact (lookup2_error _ _ _ _ h).1
      · cases h
    · exact ih b h

theorem sumValues_unknown (inst : Inst K) (f : String) (vs : List String) (h : ∃ v ∈ vs, ¬ Known inst f v) :
    sumValues inst f vs = .error .keyError := by
  cases hs : sumValues inst f vs with
  | error e => rw [sumValues_error _ _ _ _ hs]
  | ok x =>
    exfalso
    unfold sumValues at hs
    generalize (0 : K) = a at hs
    induction vs generalizing a with
    | nil => simp at h
    | cons v vs ih =>
      rw [List.foldlM_cons, py_bind_eq_ok] at hs
      obtain ⟨b, h1, h2⟩ := hs
      rw [py_bind_eq_ok] at h1
      obtain ⟨y, hy, -⟩ := h1
      rw [lookup2_ok_iff] at hy
      obtain ⟨w, hw, hk⟩ := h
      rcases List.mem_cons.1 hw with rfl | hw
      · exact hk ⟨y, hy⟩
      · exact ih ⟨w, hw, hk⟩ b h2

/-- C17: with several sets per condition, matching is the smallest over the conditions of the sum of the degrees of its
sets; it is 0 as soon as some feature or set is missing. -/
theorem C17_matching_multi (r : Rule (List String) C K) (inst : Inst K) :
    (r.antecedent = [] → r.matchingMulti inst = .error .valueError) ∧
    (r.antecedent ≠ [] → (∃ p ∈ r.antecedent, ∃ v ∈ p.2, ¬ Known inst p.1 v) → r.matchingMulti inst = .ok 0) ∧
    (r.antecedent ≠ [] → ∀ deg : String → String → K,
      (∀ p ∈ r.antecedent, ∀ v ∈ p.2, HasDegree inst p.1 v (deg p.1 v)) →
      ∃ m, r.matchingMulti inst = .ok m ∧
        IsLeastOf m (r.antecedent.map (fun p => (p.2.map (deg p.1)).sum))) := by
  refine ⟨?_, ?_, ?_⟩
  · intro h
    unfold Rule.matchingMulti
    rw [h]; rfl
  · intro _ h
    unfold Rule.matchingMulti
    rw [mapM_error_eq _ _ .keyError]
    · rfl
    · intro p _ e' he; exact sumValues_error _ _ _ _ he
    · obtain ⟨p, hp, hv⟩ := h
      exact ⟨p, hp, sumValues_unknown _ _ _ hv⟩
  · intro hne deg hdeg
    unfold Rule.matchingMulti
    rw [mapM_ok_of_forall (g := fun p => (p.2.map (deg p.1)).sum)]
    · simp only [matchDegrees]
      cases hm : pyMin (r.antecedent.map (fun p => (p.2.map (deg p.1)).sum)) with
      | error e =>
        have := ((pyMin_eq_error_iff _ _).1 hm).1
        exact absurd (List.map_eq_nil_iff.1 this) hne
      | ok m => exact ⟨m, rfl, (pyMin_eq_ok_iff _ _).1 hm⟩
    · intro p hp
      exact sumValues_ok _ _ _ _ (hdeg p hp)

example : (⟨[("age", "high"), ("sex", "m")], "yes", 1⟩ : Rule String String ℚ).matching exInst = .ok (3/4) ∧
    (⟨[("age", "high"), ("city", "m")], "yes", 1⟩ : Rule String String ℚ).matching exInst = .ok 0 ∧
    (⟨[("age", ["low", "high"]), ("sex", ["f"])], "yes", 1⟩ : Rule (List String) String ℚ).matchingMulti exInst = .ok 0 ∧
    (⟨[("age", ["low", "high"]), ("sex", ["m"])], "yes", 1⟩ : Rule (List String) String ℚ).matchingMulti exInst = .ok 1 := by
  decide +kernel

/-! ### C18 -/

/-- C18: permuting the antecedent does not change matching (nor the error of an empty antecedent). -/
theorem C18_order_independent (r r' : Rule String C K) (inst : Inst K) (h : r.antecedent.Perm r'.antecedent) :
    r.matching inst = r'.matching inst := by
  by_cases hne : r.antecedent = []
  · have hne' : r'.antecedent = [] := by rw [hne] at h; exact h.symm.eq_nil
    rw [(C17_matching r inst).1 hne, (C17_matching r' inst).1 hne']
  · have hne' : r'.antecedent ≠ [] := by rintro he; rw [he] at h; exact hne h.eq_nil
    obtain ⟨m, h1, h2, h3⟩ := matching_spec r inst hne
    obtain ⟨m', h1', h2', h3'⟩ := matching_spec r' inst hne'
    rw [h1, h1']
    congr 1
    by_cases hall : ∀ p ∈ r.antecedent, Known inst p.1 p.2
    · have hall' : ∀ p ∈ r'.antecedent, Known inst p.1 p.2 := fun p hp => hall p (h.mem_iff.2 hp)
      obtain ⟨⟨p, hp, hpm⟩, hle⟩ := h2 hall
      obtain ⟨⟨p', hp', hpm'⟩, hle'⟩ := h2' hall'
      exact le_antisymm (hle p' (h.mem_iff.2 hp') _ hpm') (hle' p (h.mem_iff.1 hp) _ hpm)
    · push Not at hall
      have hall' : ∃ p ∈ r'.antecedent, ¬ Known inst p.1 p.2 := by
        obtain ⟨p, hp, hk⟩ := hall; exact ⟨p, h.mem_iff.1 hp, hk⟩
      rw [h3 hall, h3' hall']

/-- C18: a rule with more conditions never matches better (non-negative memberships). -/
theorem C18_more_conditions (r r' : Rule String C K) (inst : Inst K) (hne : r.antecedent ≠ [])
    (hsub : ∀ p ∈ r.antecedent, p ∈ r'.antecedent) (hpos : ∀ f s x, HasDegree inst f s x → 0 ≤ x) :
    ∃ m m', r.matching inst = .ok m ∧ r'.matching inst = .ok m' ∧ m' ≤ m := by
  have hne' : r'.antecedent ≠ [] := by
    obtain ⟨p, hp⟩ := List.exists_mem_of_ne_nil _ hne
    exact List.ne_nil_of_mem (hsub p hp)
  obtain ⟨m, h1, h2, h3⟩ := matching_spec r inst hne
  obtain ⟨m', h1', h2', h3'⟩ := matching_spec r' inst hne'
  refine ⟨m, m', h1, h1', ?_⟩
  by_cases hall' : ∀ p ∈ r'.antecedent, Known inst p.1 p.2
  · obtain ⟨⟨p, hp, hpm⟩, -⟩ := h2 (fun p hp => hall' p (hsub p hp))
    exact (h2' hall').2 p (hsub p hp) _ hpm
  · push Not at hall'
    rw [h3' hall']
    by_cases hall : ∀ p ∈ r.antecedent, Known inst p.1 p.2
    · obtain ⟨⟨p, hp, hpm⟩, -⟩ := h2 hall
      exact hpos _ _ _ hpm
    · push Not at hall
      rw [h3 hall]

example : ∃ m m', (⟨[("age", "high")], "yes", 1⟩ : Rule String String ℚ).matching exInst = .ok m ∧
    (⟨[("sex", "f"), ("age", "high")], "yes", 1⟩ : Rule String String ℚ).matching exInst = .ok m' ∧ m' < m := by
  refine ⟨3/4, 0, ?_, ?_, by norm_num⟩ <;> decide +kernel

/-! ### C19 -/

theorem foldl_insKey_eq_dedup (l : List String) : l.foldl insKey [] = l.reverse.dedup.reverse := by
  induction l using List.reverseRecOn with
  | nil => rfl
  | append_singleton l a ih =>
    rw [List.foldl_append, ih]
    simp only [List.foldl_cons, List.foldl_nil, List.reverse_append, List.reverse_cons, List.reverse_nil,
      List.nil_append, List.singleton_append]
    unfold insKey
    by_cases h : a ∈ l
    · rw [if_pos (by simpa using h), List.dedup_cons_of_mem (by simpa using h)]
    · rw [if_neg (by simpa using h), List.dedup_cons_of_notMem (by simpa using h)]
      simp

/-- the value kept so far for a feature and a new one -/
def pickShort (len : V → Nat) (cur : Option V) (v : V) : Option V :=
  match cur with
  | none => some v
  | some u => if len u > len v then some v else some u

/-- values given to feature `f` along an antecedent -/
def valuesOf (f : String) (l : List (String × V)) : List V := (l.filter (fun p => p.1 = f)).map Prod.snd

theorem valuesOf_cons (f : String) (p : String × V) (l : List (String × V)) :
    valuesOf f (p :: l) = if p.1 = f then p.2 :: valuesOf f l else valuesOf f l := by
  unfold valuesOf; by_cases h : p.1 = f <;> simp [h]

theorem mem_valuesOf (f : String) (v : V) (l : List (String × V)) : v ∈ valuesOf f l ↔ (f, v) ∈ l := by
  unfold valuesOf
  simp only [List.mem_map, List.mem_filter, decide_eq_true_eq]
  constructor
  · rintro ⟨p, ⟨hp, rfl⟩, rfl⟩; exact hp
  · intro h; exact ⟨_, ⟨h, rfl⟩, rfl⟩

theorem simplifyStep_get? (len : V → Nat) (d : Dict String V) (p : String × V) (f : String) :
    Dict.get? (simplifyStep len d p) f = if p.1 = f then pickShort len (Dict.get? d f) p.2 else Dict.get? d f := by
  unfold simplifyStep
  by_cases h : p.1 = f
  · subst h
    simp only [if_true]
    cases hg : Dict.get? d p.1 with
    | none => simp [pickShort, Dict.get?_set]
    | some v =>
      simp only [pickShort]
      split
      · simp [Dict.get?_set]
      · exact hg
  · simp only [h, if_false]
    cases hg : Dict.get? d p.1 with
    | none => simp [Dict.get?_set, h]
    | some v => simp only; split <;> simp [Dict.get?_set, h]

theorem simplifyStep_keys (len : V → Nat) (d : Dict String V) (p : String × V) :
    Dict.keys (simplifyStep len d p) = insKey (Dict.keys d) p.1 := by
  unfold simplifyStep
  cases hg : Dict.get? d p.1 with
  | none => simp only [Dict.keys_set]; rfl
  | some v =>
    have hm : p.1 ∈ Dict.keys d := (Dict.get?_isSome_iff _ _).1 ⟨v, hg⟩
    simp only
    split
    · rw [Dict.keys_set]; rfl
    · unfold insKey; rw [if_pos hm]

theorem simplify_fold (len : V → Nat) (l : List (String × V)) (d : Dict String V) :
    Dict.keys (l.foldl (simplifyStep len) d) = (l.map Prod.fst).foldl insKey (Dict.keys d) ∧
    ∀ f, Dict.get? (l.foldl (simplifyStep len) d) f = (valuesOf f l).foldl (pickShort len) (Dict.get? d f) := by
  induction l generalizing d with
  | nil => exact ⟨rfl, fun f => rfl⟩
  | cons p l ih =>
    obtain ⟨h1, h2⟩ := ih (simplifyStep len d p)
    refine ⟨by simp only [List.foldl_cons, h1, simplifyStep_keys, List.map_cons], ?_⟩
    intro f
    simp only [List.foldl_cons, h2, simplifyStep_get?, valuesOf_cons]
    by_cases h : p.1 = f
    · simp [h]
    · simp [h]

theorem foldl_pickShort (len : V → Nat) (l : List V) (u : V) :
    ∃ v, l.foldl (pickShort len) (some u) = some v ∧
      ∃ pre post, u :: l = pre ++ v :: post ∧ (∀ x ∈ pre, len v < len x) ∧ ∀ x ∈ post, len v ≤ len x := by
  induction l generalizing u with
  | nil => exact ⟨u, rfl, [], [], rfl, by simp, by simp⟩
  | cons w l ih =>
    simp only [List.foldl_cons, pickShort]
    by_cases h : len u > len w
    · rw [if_pos h]
      obtain ⟨v, h1, pre, post, h2, h3, h4⟩ := ih w
      refine ⟨v, h1, u :: pre, post, by rw [h2]; rfl, ?_, h4⟩
      intro x hx
      rcases List.mem_cons.1 hx with rfl | hx
      · cases pre with
        | nil =>
          simp only [List.nil_append, List.cons.injEq] at h2
          rw [← h2.1]; exact h
        | cons p pre =>
          simp only [List.cons_append, List.cons.injEq] at h2
          have := h3 p (by simp)
          rw [← h2.1] at this
          omega
      · exact h3 x hx
    · rw [if_neg h]
      obtain ⟨v, h1, pre, post, h2, h3, h4⟩ := ih u
      refine ⟨v, h1, ?_⟩
      cases pre with
      | nil =>
        simp only [List.nil_append, List.cons.injEq] at h2
        obtain ⟨rfl, rfl⟩ := h2
        exact ⟨[], w :: l, rfl, by simp, by
          intro x hx
          rcases List.mem_cons.1 hx with rfl | hx
          · omega
          · exact h4 x hx⟩
      | cons p pre =>
        simp only [List.cons_append, List.cons.injEq] at h2
        obtain ⟨rfl, rfl⟩ := h2
        refine ⟨u :: w :: pre, post, rfl, ?_, h4⟩
        intro x hx
        have hu := h3 u (by simp)
        simp only [List.mem_cons] at hx
        rcases hx with rfl | rfl | hx
        · exact hu
        · omega
        · exact h3 x (by simp [hx])

/-- C19: after simplification the features are those of the antecedent without repetition in order of first occurrence
(`dedup` keeps last occurrences, hence the two `reverse`), each with the shortest of its values, the first of that
length; consequent and weight are kept. -/
theorem C19_simplify (len : V → Nat) (r : Rule V C K) :
    (r.simplify len).consequent = r.consequent ∧ (r.simplify len).weight = r.weight ∧
    (r.simplify len).antecedent.map Prod.fst = (r.antecedent.map Prod.fst).reverse.dedup.reverse ∧
    ∀ f v, (f, v) ∈ (r.simplify len).antecedent →
      ∃ pre post, (r.antecedent.filter (fun p => p.1 = f)).map Prod.snd = pre ++ v :: post ∧
        (∀ u ∈ pre, len v < len u) ∧ ∀ u ∈ post, len v ≤ len u := by
  obtain ⟨h1, h2⟩ := simplify_fold len r.antecedent []
  have hk : (r.simplify len).antecedent.map Prod.fst = (r.antecedent.map Prod.fst).reverse.dedup.reverse := by
    rw [← foldl_insKey_eq_dedup]; exact h1
  refine ⟨rfl, rfl, hk, ?_⟩
  intro f v hfv
  have hnd : (Dict.keys (r.simplify len).antecedent).Nodup := by
    show ((r.simplify len).antecedent.map Prod.fst).Nodup
    rw [hk]; exact List.nodup_reverse.2 (List.nodup_dedup _)
  have hg := Dict.get?_of_mem_nodup hnd hfv
  have hg' : (valuesOf f r.antecedent).foldl (pickShort len) none = some v := by
    rw [← hg]; exact (h2 f).symm
  change ∃ pre post, valuesOf f r.antecedent = _ ∧ _
  cases hv : valuesOf f r.antecedent with
  | nil => rw [hv] at hg'; cases hg'
  | cons u l =>
    rw [hv, List.foldl_cons] at hg'
    obtain ⟨v', e1, e2⟩ := foldl_pickShort len l u
    have : v' = v := by
      have hp : pickShort len none u = some u := rfl
      rw [hp, e1] at hg'
      exact Option.some.inj hg'
    subst this
    exact e2

theorem simplify_nodup_fst (len : V → Nat) (r : Rule V C K) : ((r.simplify len).antecedent.map Prod.fst).Nodup := by
  rw [(C19_simplify len r).2.2.1]; exact List.nodup_reverse.2 (List.nodup_dedup _)

/-- C19: a rule without repeated features is unchanged; hence simplifying twice is simplifying once. -/
theorem C19_idempotent (len : V → Nat) (r : Rule V C K) :
    ((r.antecedent.map Prod.fst).Nodup → r.simplify len = r) ∧
    (r.simplify len).simplify len = r.simplify len := by
  have key : ∀ r : Rule V C K, (r.antecedent.map Prod.fst).Nodup → r.simplify len = r := by
    intro r hnd
    have aux : ∀ (l : List (String × V)) (d : Dict String V), (Dict.keys d ++ l.map Prod.fst).Nodup →
        l.foldl (simplifyStep len) d = d ++ l := by
      intro l
      induction l with
      | nil => intro d _; simp
      | cons p l ih =>
        intro d h
        have hp : p.1 ∉ Dict.keys d := by
          rw [List.nodup_append] at h
          intro hm; exact h.2.2 _ hm _ (by simp) rfl
        have hstep : simplifyStep len d p = d ++ [p] := by
          unfold simplifyStep
          rw [(Dict.get?_eq_none_iff _ _).2 hp]
          exact Dict.set_of_not_mem _ _ _ hp
        rw [List.foldl_cons, hstep, ih]
        · simp
        · simpa [Dict.keys] using h
    have := aux r.antecedent [] (by simpa [Dict.keys] using hnd)
    cases r
    simp only [Rule.simplify] at this ⊢
    simpa using this
  exact ⟨key r, key _ (simplify_nodup_fst len r)⟩

theorem simplify_subset (len : V → Nat) (r : Rule V C K) : ∀ p ∈ (r.simplify len).antecedent, p ∈ r.antecedent := by
  rintro ⟨f, v⟩ h
  obtain ⟨pre, post, he, -⟩ := (C19_simplify len r).2.2.2 f v h
  have : v ∈ valuesOf f r.antecedent := by
    show v ∈ (r.antecedent.filter (fun p => p.1 = f)).map Prod.snd
    rw [he]; simp
  exact (mem_valuesOf f v _).1 this

theorem simplify_ne_nil (len : V → Nat) (r : Rule V C K) (h : r.antecedent ≠ []) : (r.simplify len).antecedent ≠ [] := by
  intro he
  have h1 := (C19_simplify len r).2.2.1
  rw [he] at h1
  obtain ⟨p, hp⟩ := List.exists_mem_of_ne_nil _ h
  have : p.1 ∈ (r.antecedent.map Prod.fst).reverse.dedup.reverse := by
    simp only [List.mem_reverse, List.mem_dedup]
    exact List.mem_map_of_mem hp
  rw [← h1] at this
  simp at this

/-- C19: if along the antecedent later value lists of a feature are contained in the earlier ones (as on every path of a
binary tree), the simplified rule has the same matching on every instance with non-negative degrees that knows the
sets. -/
theorem C19_same_matching (r : Rule (List String) C K) (inst : Inst K) (deg : String → String → K)
    (hne : r.antecedent ≠ [])
    (hdeg : ∀ p ∈ r.antecedent, ∀ v ∈ p.2, HasDegree inst p.1 v (deg p.1 v) ∧ 0 ≤ deg p.1 v)
    (hchain : r.antecedent.Pairwise (fun p q => p.1 = q.1 → q.2.Subperm p.2)) :
    (r.simplify List.length).matchingMulti inst = r.matchingMulti inst := by
  obtain ⟨m, hm, hleast⟩ := (C17_matching_multi r inst).2.2 hne deg (fun p hp v hv => (hdeg p hp v hv).1)
  obtain ⟨m', hm', hleast'⟩ := (C17_matching_multi (r.simplify List.length) inst).2.2 (simplify_ne_nil _ r hne) deg
    (fun p hp v hv => (hdeg p (simplify_subset _ r p hp) v hv).1)
  rw [hm, hm']
  congr 1
  have hsub := simplify_subset List.length r
  apply le_antisymm
  · -- m' ≤ m : every original condition has a kept one with a smaller sum
    obtain ⟨p, hp, hpm⟩ := List.mem_map.1 hleast.1
    have hf : p.1 ∈ (r.simplify List.length).antecedent.map Prod.fst := by
      rw [(C19_simplify _ r).2.2.1]
      simp only [List.mem_reverse, List.mem_dedup]
      exact List.mem_map_of_mem hp
    obtain ⟨⟨f, v⟩, hq, hqf⟩ := List.mem_map.1 hf
    simp only at hqf
    subst hqf
    refine le_trans (hleast'.2 _ (List.mem_map_of_mem hq)) ?_
    rw [← hpm]
    obtain ⟨pre, post, he, hpre, hpost⟩ := (C19_simplify List.length r).2.2.2 _ _ hq
    have hpv : p.2 ∈ pre ++ v :: post := by rw [← he]; exact (mem_valuesOf p.1 p.2 _).2 hp
    have hpw : (pre ++ v :: post).Pairwise (fun u w => w.Subperm u) := by
      rw [← he, List.pairwise_map]
      have h1 := hchain.filter (fun q => q.1 = p.1)
      have h2 : ∀ q ∈ r.antecedent.filter (fun q => q.1 = p.1), q.1 = p.1 := by
        intro q hq; simpa using (List.mem_filter.1 hq).2
      exact h1.imp_of_mem (fun {a b} ha hb hab => hab ((h2 a ha).trans (h2 b hb).symm))
    have sum_le : ∀ u w : List String, w.Subperm u → (∀ x ∈ u, 0 ≤ deg p.1 x) →
        (w.map (deg p.1)).sum ≤ (u.map (deg p.1)).sum := by
      intro u w hwu hpos
      obtain ⟨w', hw', hs⟩ := hwu
      rw [← (hw'.map (deg p.1)).sum_eq]
      apply List.Sublist.sum_le_sum (hs.map _)
      intro y hy
      obtain ⟨x, hx, rfl⟩ := List.mem_map.1 hy
      exact hpos x hx
    rw [List.pairwise_append] at hpw
    rcases List.mem_append.1 hpv with h | h
    · exact sum_le _ _ (hpw.2.2 p.2 h v (by simp)) (fun x hx => (hdeg p hp x hx).2)
    · rcases List.mem_cons.1 h with h | h
      · rw [h]
      · have hs : p.2.Subperm v := (List.pairwise_cons.1 hpw.2.1).1 _ h
        have hperm : p.2.Perm v := hs.perm_of_length_le (hpost _ h)
        exact (hperm.map (deg p.1)).sum_eq.ge
  · obtain ⟨p, hp, hpm⟩ := List.mem_map.1 hleast'.1
    rw [← hpm]
    exact hleast.2 _ (List.mem_map_of_mem (hsub p hp))

example : ((⟨[("x", ["a", "b", "c"]), ("y", ["u"]), ("x", ["b", "c"]), ("x", ["c"])], 0, 1⟩ :
    Rule (List String) Nat ℚ).simplify List.length).antecedent = [("x", ["c"]), ("y", ["u"])] ∧
    [("x", ["a", "b", "c"]), ("y", ["u"]), ("x", ["b", "c"]), ("x", ["c"])].Pairwise
      (fun p q : String × List String => p.1 = q.1 → q.2.Subperm p.2) := by
  constructor <;> decide +kernel

/-! ### C20, C21 -/

/-- every rule with a non-empty antecedent has a degree -/
theorem matching_total [DecidableEq C] (rs : List (Rule String C K)) (inst : Inst K) (h : ∀ r ∈ rs, r.antecedent ≠ []) :
    ∃ deg : Rule String C K → K, ∀ r ∈ rs, r.matching inst = .ok (deg r) := by
  refine ⟨fun r => match r.matching inst with | .ok m => m | .error _ => 0, ?_⟩
  intro r hr
  obtain ⟨m, hm, -⟩ := matching_spec r inst (h r hr)
  simp only [hm]

/-- C20: the weighted vote is a consequent of largest total activation, the one appearing first among those. -/
theorem C20_weighted_vote [DecidableEq C] (rs : List (Rule String C K)) (inst : Inst K) (hne : rs ≠ [])
    (hant : ∀ r ∈ rs, r.antecedent ≠ []) :
    ∃ deg : Rule String C K → K, (∀ r ∈ rs, r.matching inst = .ok (deg r)) ∧
      ∃ c, weightedVote rs inst = .ok c ∧ c ∈ rs.map Rule.consequent ∧
        (∀ c' ∈ rs.map Rule.consequent, activation deg rs c' ≤ activation deg rs c) ∧
        ∃ pre r post, rs = pre ++ r :: post ∧ r.consequent = c ∧
          ∀ r' ∈ pre, activation deg rs r'.consequent < activation deg rs c := by
  obtain ⟨deg, hdeg⟩ := matching_total rs inst hant
  exact ⟨deg, hdeg, weightedVoteWith_spec _ deg rs hdeg hne⟩

/-- C20: an empty list of rules raises `ValueError`, and so does a rule with an empty antecedent. -/
theorem C20_errors [DecidableEq C] (rs : List (Rule String C K)) (inst : Inst K) :
    (rs = [] → weightedVote rs inst = .error .valueError) ∧
    ((∃ r ∈ rs, r.antecedent = []) → weightedVote rs inst = .error .valueError) := by
  constructor
  · rintro rfl; rfl
  · rintro ⟨r, hr, he⟩
    unfold weightedVote weightedVoteWith
    rw [votes_error _ rs [] .valueError]
    · rfl
    · intro r' _ e' he'
      by_cases hn : r'.antecedent = []
      · rw [(C17_matching r' inst).1 hn] at he'
        cases he'; rfl
      · obtain ⟨m, hm, -⟩ := matching_spec r' inst hn
        rw [hm] at he'; cases he'
    · exact ⟨r, hr, (C17_matching r inst).1 he⟩

/-- C21: if one class is strictly best, every permutation of the rules gives the same class. -/
theorem C21_order_independent [DecidableEq C] (rs rs' : List (Rule String C K)) (inst : Inst K)
    (deg : Rule String C K → K) (hdeg : ∀ r ∈ rs, r.matching inst = .ok (deg r)) (hp : rs.Perm rs') (c : C)
    (hc : c ∈ rs.map Rule.consequent)
    (hbest : ∀ c' ∈ rs.map Rule.consequent, c' ≠ c → activation deg rs c' < activation deg rs c) :
    weightedVote rs inst = .ok c ∧ weightedVote rs' inst = .ok c := by
  refine ⟨weightedVoteWith_eq_of_strict _ deg rs hdeg c hc hbest, ?_⟩
  apply weightedVoteWith_eq_of_strict _ deg rs' (fun r hr => hdeg r (hp.mem_iff.2 hr)) c
  · exact (hp.map _).mem_iff.1 hc
  · intro c' hc' hne
    rw [← activation_perm deg hp c', ← activation_perm deg hp c]
    exact hbest c' ((hp.map _).mem_iff.2 hc') hne

/-- multiply the weight of a rule -/
def Rule.scale (k : K) (r : Rule V C K) : Rule V C K := { r with weight := k * r.weight }

/-- C21: multiplying all the weights by one positive constant never changes the result (value or error). -/
theorem C21_scale_invariant [DecidableEq C] (rs : List (Rule String C K)) (inst : Inst K) (k : K) (hk : 0 < k) :
    weightedVote (rs.map (Rule.scale k)) inst = weightedVote rs inst := by
  by_cases hant : ∀ r ∈ rs, r.antecedent ≠ []
  · by_cases hne : rs = []
    · rw [hne]; rfl
    · obtain ⟨deg, hdeg, c, h1, h2, h3, pre, r, post, h4, h5, h6⟩ := C20_weighted_vote rs inst hne hant
      have hant' : ∀ r ∈ rs.map (Rule.scale k), r.antecedent ≠ [] := by
        intro r hr
        obtain ⟨r', hr', rfl⟩ := List.mem_map.1 hr
        exact hant r' hr'
      obtain ⟨deg', hdeg', c', h1', h2', h3', pre', r', post', h4', h5', h6'⟩ :=
        C20_weighted_vote (rs.map (Rule.scale k)) inst (by simpa using hne) hant'
      have hcons : (rs.map (Rule.scale k)).map Rule.consequent = rs.map Rule.consequent := by
        simp [List.map_map, Function.comp_def, Rule.scale]
      have hact : ∀ c, activation deg' (rs.map (Rule.scale k)) c = k * activation deg rs c := by
        have : ∀ l : List (Rule String C K), (∀ r ∈ l, r ∈ rs) → ∀ c,
            activation deg' (l.map (Rule.scale k)) c = k * activation deg l c := by
          intro l
          induction l with
          | nil => intro _ c; simp
          | cons a l ih =>
            intro hl c
            rw [List.map_cons, activation_cons, activation_cons, ih (fun r hr => hl r (by simp [hr])) c]
            have hd : deg' (a.scale k) = deg a := by
              have e1 := hdeg' (a.scale k) (List.mem_map_of_mem (hl a (by simp)))
              have e2 := hdeg a (hl a (by simp))
              have : (a.scale k).matching inst = a.matching inst := rfl
              rw [this, e2] at e1
              exact (Except.ok.inj e1).symm
            have : (a.scale k).consequent = a.consequent := rfl
            rw [this, hd]
            by_cases hc : a.consequent = c
            · simp only [hc, if_true, Rule.scale]; ring
            · simp only [hc, if_false]; ring
        exact this rs (fun _ h => h)
      rw [h1, h1']
      congr 1
      by_contra hcc
      -- both are maxima; each must come strictly before the other
      rw [hcons] at h2' h3'
      have e1 : activation deg rs c' ≤ activation deg rs c := h3 c' h2'
      have e2 : activation deg rs c ≤ activation deg rs c' := by
        have := h3' c h2
        rw [hact, hact] at this
        exact le_of_mul_le_mul_left this hk
      have heq := le_antisymm e1 e2
      have hfirst : ∀ (pre pre' post post' : List (Rule String C K)) (r r' : Rule String C K),
          pre ++ r :: post = pre' ++ r' :: post' → r.consequent ≠ r'.consequent →
          (∃ x ∈ pre, x.consequent = r'.consequent) ∨ (∃ x ∈ pre', x.consequent = r.consequent) := by
        intro pre
        induction pre with
        | nil =>
          intro pre' post post' r r' he hne
          cases pre' with
          | nil => simp only [List.nil_append, List.cons.injEq] at he; exact absurd (by rw [he.1]) hne
          | cons a pre' =>
            simp only [List.nil_append, List.cons_append, List.cons.injEq] at he
            right; exact ⟨a, by simp, by rw [he.1]⟩
        | cons a pre ih =>
          intro pre' post post' r r' he hne
          cases pre' with
          | nil =>
            simp only [List.nil_append, List.cons_append, List.cons.injEq] at he
            left; exact ⟨a, by simp, by rw [he.1]⟩
          | cons b pre' =>
            simp only [List.cons_append, List.cons.injEq] at he
            rcases ih pre' post post' r r' he.2 hne with ⟨x, hx, h⟩ | ⟨x, hx, h⟩
            · left; exact ⟨x, by simp [hx], h⟩
            · right; exact ⟨x, by simp [hx], h⟩
      have h4m : rs.map (Rule.scale k) = pre.map (Rule.scale k) ++ r.scale k :: post.map (Rule.scale k) := by
        rw [h4]; simp
      rw [h4m] at h4'
      have hrc : (r.scale k).consequent = c := h5
      rcases hfirst _ _ _ _ _ _ h4' (by rw [hrc, h5']; exact Ne.symm hcc) with ⟨x, hx, hxc⟩ | ⟨x, hx, hxc⟩
      · obtain ⟨y, hy, rfl⟩ := List.mem_map.1 hx
        have : y.consequent = c' := by rw [← h5', ← hxc]; rfl
        have := h6 y hy
        rw [‹y.consequent = c'›, heq] at this
        exact lt_irrefl _ this
      · have := h6' x hx
        rw [hxc, hrc, hact, hact, heq] at this
        exact lt_irrefl _ this
  · push Not at hant
    obtain ⟨r, hr, he⟩ := hant
    rw [(C20_errors rs inst).2 ⟨r, hr, he⟩, (C20_errors (rs.map (Rule.scale k)) inst).2
      ⟨r.scale k, List.mem_map_of_mem hr, he⟩]

example : weightedVote [(⟨[("age", "low")], "no", 1⟩ : Rule String String ℚ), ⟨[("age", "high")], "yes", 1/2⟩,
    ⟨[("sex", "m")], "no", 1/8⟩] exInst = .ok "no" ∧
    weightedVote [(⟨[("age", "low")], "a", 3⟩ : Rule String String ℚ), ⟨[("age", "high")], "b", 1⟩] exInst = .ok "a" := by
  decide +kernel

end Teacher
