import Verif.Props.Counterfactual

/-!
# C58–C60: distances between rules; counterexamples for C54, C55, C60
-/

set_option linter.unusedSectionVars false

namespace Teacher
open Spec

/-! ### C58 -/

section
variable {C K : Type}

theorem diffKeys_spec (a b : Dict String String) (ds : List String) (hnd : ds.Nodup) :
    (diffKeys a b ds).Nodup ∧ ∀ k, k ∈ diffKeys a b ds ↔ k ∈ ds ∨ (k ∈ Dict.keys a ∧ Dict.get? a k ≠ Dict.get? b k) := by
  unfold diffKeys
  have hsub : ∀ (l : List String) (ds : List String), ds.Nodup → (∀ k ∈ l, k ∈ Dict.keys a) →
      (l.foldl (fun ds k => if (Dict.get? b k).isSome ∧ Dict.get? a k = Dict.get? b k then ds
        else if k ∈ ds then ds else ds ++ [k]) ds).Nodup ∧
      ∀ k, k ∈ l.foldl (fun ds k => if (Dict.get? b k).isSome ∧ Dict.get? a k = Dict.get? b k then ds
        else if k ∈ ds then ds else ds ++ [k]) ds ↔ k ∈ ds ∨ (k ∈ l ∧ Dict.get? a k ≠ Dict.get? b k) := by
    intro l
    induction l with
    | nil => intro ds h _; exact ⟨h, by simp⟩
    | cons x l ih =>
      intro ds h hl
      have hxa : (Dict.get? a x).isSome := by
        obtain ⟨v, hv⟩ := (Dict.get?_isSome_iff a x).2 (hl x (by simp))
        simp [hv]
      simp only [List.foldl_cons]
      by_cases hc : (Dict.get? b x).isSome ∧ Dict.get? a x = Dict.get? b x
      · rw [if_pos hc]
        obtain ⟨h1, h2⟩ := ih ds h (fun k hk => hl k (by simp [hk]))
        refine ⟨h1, ?_⟩
        intro k
        rw [h2 k]
        constructor
        · rintro (h | ⟨h, h'⟩)
          · exact .inl h
          · exact .inr ⟨by simp [h], h'⟩
        · rintro (h | ⟨h, h'⟩)
          · exact .inl h
          · rcases List.mem_cons.1 h with rfl | h
            · exact absurd hc.2 h'
            · exact .inr ⟨h, h'⟩
      · rw [if_neg hc]
        have hne : Dict.get? a x ≠ Dict.get? b x := by
          intro he
          exact hc ⟨by rw [← he]; exact hxa, he⟩
        have hnd' : (if x ∈ ds then ds else ds ++ [x]).Nodup := by
          split
          · exact h
          · rename_i hx
            rw [List.nodup_append]
            refine ⟨h, by simp, ?_⟩
            intro y hy z hz
            simp only [List.mem_singleton] at hz
            subst hz
            rintro rfl; exact hx hy
        obtain ⟨h1, h2⟩ := ih _ hnd' (fun k hk => hl k (by simp [hk]))
        refine ⟨h1, ?_⟩
        intro k
        rw [h2 k]
        have hm : k ∈ (if x ∈ ds then ds else ds ++ [x]) ↔ k ∈ ds ∨ k = x := by
          split
          · rename_i hx
            constructor
            · exact .inl
            · rintro (h | rfl)
              · exact h
              · exact hx
          · simp
        rw [hm]
        constructor
        · rintro ((h | rfl) | ⟨h, h'⟩)
          · exact .inl h
          · exact .inr ⟨by simp, hne⟩
          · exact .inr ⟨by simp [h], h'⟩
        · rintro (h | ⟨h, h'⟩)
          · exact .inl (.inl h)
          · rcases List.mem_cons.1 h with rfl | h
            · exact .inl (.inr rfl)
            · exact .inr ⟨h, h'⟩
  exact hsub (Dict.keys a) ds hnd (fun k hk => hk)

variable [Field K] [LinearOrder K] [IsStrictOrderedRing K]

theorem mem_antecedent_of_ne {a b : Rule String C K} {f : String} (h : ruleValue a f ≠ ruleValue b f) :
    f ∈ (a.antecedent ++ b.antecedent).map Prod.fst := by
  by_contra hc
  rw [List.map_append, List.mem_append, not_or] at hc
  apply h
  rw [← anteDict_get?, ← anteDict_get?,
    (Dict.get?_eq_none_iff _ _).2 (fun hm => hc.1 ((mem_keys_anteDict a f).1 hm)),
    (Dict.get?_eq_none_iff _ _).2 (fun hm => hc.2 ((mem_keys_anteDict b f).1 hm))]

/-- C58: the distance between two rules is the number of features on which their antecedents, seen as dictionaries, differ. -/
theorem C58_distance (a b : Rule String C K) : compareRulesFID3 a b = differing a b := by
  unfold compareRulesFID3 differing
  obtain ⟨h1, h2⟩ := diffKeys_spec a.anteDict b.anteDict [] (by simp)
  obtain ⟨h3, h4⟩ := diffKeys_spec b.anteDict a.anteDict _ h1
  apply List.Perm.length_eq
  rw [List.perm_ext_iff_of_nodup h3 ((List.nodup_dedup _).filter _)]
  intro k
  rw [h4, h2, List.mem_filter, List.mem_dedup]
  simp only [List.not_mem_nil, false_or, anteDict_get?, mem_keys_anteDict, decide_eq_true_eq, List.map_append,
    List.mem_append]
  constructor
  · rintro (⟨h, h'⟩ | ⟨h, h'⟩)
    · exact ⟨.inl h, h'⟩
    · exact ⟨.inr h, Ne.symm h'⟩
  · rintro ⟨h | h, h'⟩
    · exact .inl ⟨h, h'⟩
    · exact .inr ⟨h, Ne.symm h'⟩

/-- C58: the distance is symmetric, and 0 exactly when the two antecedents are the same dictionary. -/
theorem C58_symmetric_zero (a b : Rule String C K) : compareRulesFID3 a b = compareRulesFID3 b a ∧
    (compareRulesFID3 a b = 0 ↔ ∀ f, ruleValue a f = ruleValue b f) := by
  constructor
  · rw [C58_distance, C58_distance]
    unfold differing
    apply List.Perm.length_eq
    rw [List.perm_ext_iff_of_nodup ((List.nodup_dedup _).filter _) ((List.nodup_dedup _).filter _)]
    intro k
    simp only [List.mem_filter, List.mem_dedup, List.map_append, List.mem_append, decide_eq_true_eq]
    tauto
  · rw [C58_distance]
    unfold differing
    rw [List.length_eq_zero_iff, List.filter_eq_nil_iff]
    constructor
    · intro h f
      by_contra hc
      exact h f (List.mem_dedup.2 (mem_antecedent_of_ne hc)) (by simpa using hc)
    · intro h f _
      simp [h f]

/-- C58: `FID3_counterfactual` returns exactly the rules at minimal distance, in order, and that distance; an empty list and
infinity without rules. -/
theorem C58_nearest (factual : Rule String C K) (counter : List (Rule String C K)) :
    (counter = [] → fid3Counterfactual factual counter = ([], none)) ∧
    (counter ≠ [] → ∃ m, fid3Counterfactual factual counter =
        (counter.filter (fun r => differing factual r = m), some m) ∧
      (∃ r ∈ counter, differing factual r = m) ∧ ∀ r ∈ counter, m ≤ differing factual r) := by
  refine ⟨by rintro rfl; rfl, ?_⟩
  induction counter using List.reverseRecOn with
  | nil => intro h; exact absurd rfl h
  | append_singleton l x ih =>
    intro _
    have hstep : fid3Counterfactual factual (l ++ [x]) = fid3CfStep factual (fid3Counterfactual factual l) x := by
      unfold fid3Counterfactual
      rw [List.foldl_append]; rfl
    rw [hstep]
    by_cases hl : l = []
    · subst hl
      refine ⟨differing factual x, ?_, ⟨x, by simp, rfl⟩, by simp⟩
      show ([x], some (compareRulesFID3 factual x)) = _
      rw [C58_distance]; simp
    · obtain ⟨m, h1, h2, h3⟩ := ih hl
      rw [h1]
      unfold fid3CfStep
      simp only [C58_distance]
      obtain ⟨r₀, hr₀, hm₀⟩ := h2
      rcases Nat.lt_trichotomy (differing factual x) m with hlt | heq | hgt
      · rw [if_pos hlt]
        refine ⟨differing factual x, ?_, ⟨x, by simp, rfl⟩, ?_⟩
        · congr 1
          rw [List.filter_append]
          have : l.filter (fun r => differing factual r = differing factual x) = [] := by
            rw [List.filter_eq_nil_iff]
            intro r hr
            have := h3 r hr
            simp; omega
          rw [this]; simp
        · intro r hr
          rcases List.mem_append.1 hr with hr | hr
          · have := h3 r hr; omega
          · simp only [List.mem_singleton] at hr; subst hr; exact le_refl _
      · rw [if_neg (by omega), if_pos heq]
        refine ⟨m, ?_, ⟨r₀, by simp [hr₀], hm₀⟩, ?_⟩
        · rw [List.filter_append]; simp [heq]
        · intro r hr
          rcases List.mem_append.1 hr with hr | hr
          · exact h3 r hr
          · simp only [List.mem_singleton] at hr; subst hr; omega
      · rw [if_neg (by omega), if_neg (by omega)]
        refine ⟨m, ?_, ⟨r₀, by simp [hr₀], hm₀⟩, ?_⟩
        · rw [List.filter_append]
          have : differing factual x ≠ m := by omega
          simp [this]
        · intro r hr
          rcases List.mem_append.1 hr with hr | hr
          · exact h3 r hr
          · simp only [List.mem_singleton] at hr; subst hr; omega

example : fid3Counterfactual (⟨[("age", "low"), ("sex", "m")], 0, 1⟩ : Rule String Nat ℚ)
    [⟨[("age", "high"), ("sex", "f")], 1, 1⟩, ⟨[("age", "high"), ("sex", "m")], 1, 1⟩, ⟨[("age", "low")], 2, 1⟩] =
    ([⟨[("age", "high"), ("sex", "m")], 1, 1⟩, ⟨[("age", "low")], 2, 1⟩], some 1) := by decide +kernel

/-! ### C59 -/

theorem pyIndex_ok {l : List String} (hnd : l.Nodup) {i : Nat} {x : String} (h : l[i]? = some x) : pyIndex l x = .ok i := by
  unfold pyIndex
  have hm := List.mem_of_getElem? h
  rw [if_pos hm]
  congr 1
  have hlt : i < l.length := by
    by_contra hc
    rw [List.getElem?_eq_none (by omega)] at h; cases h
  rw [List.getElem?_eq_getElem hlt, Option.some.injEq] at h
  rw [← h, hnd.idxOf_getElem]

/-- C59: the distance between the `i`-th and the `j`-th set of a variable with `n ≥ 2` sets is `|i-j| / (n-1)`: in `[0,1]`,
symmetric, 0 exactly for the same set, 1 exactly between the two ends. -/
theorem C59_literal_distance (clause : Dict String K) (hnd : (clause.map Prod.fst).Nodup) (i j : Nat) (a b : String)
    (hi : (clause.map Prod.fst)[i]? = some a) (hj : (clause.map Prod.fst)[j]? = some b) (hn : 2 ≤ clause.length) :
    ∃ d, literalDistance clause a b = .ok d ∧ literalDistance clause b a = .ok d ∧
      d = |(i : K) - (j : K)| / ((clause.length : K) - 1) ∧ 0 ≤ d ∧ d ≤ 1 ∧ (d = 0 ↔ a = b) ∧
      (d = 1 ↔ (i = 0 ∧ j = clause.length - 1) ∨ (j = 0 ∧ i = clause.length - 1)) := by
  have hn' : (2 : K) ≤ (clause.length : K) := by exact_mod_cast hn
  have hpos : (0 : K) < (clause.length : K) - 1 := by linarith
  have hne : ((clause.length : K) - 1) ≠ 0 := ne_of_gt hpos
  have hil : i < clause.length := by
    by_contra hc
    rw [List.getElem?_eq_none (by simpa using hc)] at hi; cases hi
  have hjl : j < clause.length := by
    by_contra hc
    rw [List.getElem?_eq_none (by simpa using hc)] at hj; cases hj
  have h1 : ∀ {i j : Nat} {a b : String}, (clause.map Prod.fst)[i]? = some a → (clause.map Prod.fst)[j]? = some b →
      literalDistance clause a b = .ok (|(i : K) - (j : K)| / ((clause.length : K) - 1)) := by
    intro i j a b hi hj
    unfold literalDistance
    rw [show pyIndex (Dict.keys clause) a = .ok i from pyIndex_ok hnd hi,
      show pyIndex (Dict.keys clause) b = .ok j from pyIndex_ok hnd hj]
    simp only [py_bind_ok, pyDiv, if_neg hne]
  have hile : (i : K) ≤ (clause.length : K) - 1 := by
    have : (i : K) + 1 ≤ (clause.length : K) := by exact_mod_cast hil
    linarith
  have hjle : (j : K) ≤ (clause.length : K) - 1 := by
    have : (j : K) + 1 ≤ (clause.length : K) := by exact_mod_cast hjl
    linarith
  have hi0 : (0 : K) ≤ (i : K) := Nat.cast_nonneg _
  have hj0 : (0 : K) ≤ (j : K) := Nat.cast_nonneg _
  refine ⟨_, h1 hi hj, ?_, rfl, div_nonneg (abs_nonneg _) (le_of_lt hpos), ?_, ?_, ?_⟩
  · rw [h1 hj hi, abs_sub_comm]
  · rw [div_le_one hpos, abs_le]
    constructor <;> linarith
  · rw [div_eq_zero_iff, or_iff_left hne, abs_eq_zero, sub_eq_zero, Nat.cast_inj]
    constructor
    · rintro rfl
      rw [hi] at hj; exact Option.some.inj hj
    · rintro rfl
      by_contra hc
      exact hc ((List.Nodup.getElem_inj_iff hnd (hi := by simpa using hil) (hj := by simpa using hjl)).1 (by
        rw [List.getElem?_eq_getElem (by simpa using hil), Option.some.injEq] at hi
        rw [List.getElem?_eq_getElem (by simpa using hjl), Option.some.injEq] at hj
        rw [hi, hj]))
  · rw [div_eq_one_iff_eq hne]
    have hcast : ((clause.length - 1 : Nat) : K) = (clause.length : K) - 1 := by
      rw [Nat.cast_sub (by omega)]; simp
    constructor
    · intro h
      rcases le_total (i : K) (j : K) with hle | hle
      · left
        rw [abs_of_nonpos (by linarith)] at h
        have e1 : (i : K) = 0 := by linarith
        have e2 : (j : K) = (clause.length : K) - 1 := by linarith
        exact ⟨by exact_mod_cast e1, by rw [← hcast] at e2; exact_mod_cast e2⟩
      · right
        rw [abs_of_nonneg (by linarith)] at h
        have e1 : (j : K) = 0 := by linarith
        have e2 : (i : K) = (clause.length : K) - 1 := by linarith
        exact ⟨by exact_mod_cast e1, by rw [← hcast] at e2; exact_mod_cast e2⟩
    · rintro (⟨rfl, rfl⟩ | ⟨rfl, rfl⟩)
      · rw [hcast, Nat.cast_zero, abs_of_nonpos (by linarith)]; ring
      · rw [hcast, Nat.cast_zero, abs_of_nonneg (by linarith)]; ring

/-- C59: the distance to an instance is the distance between the sets scaled by one minus the degree of the instance in the set
of the rule; it is never larger than the distance between the sets (degrees in `[0,1]`), and 0 when the instance is entirely in
the set. -/
theorem C59_weighted_distance (clause : Dict String K) (hnd : (clause.map Prod.fst).Nodup) (i j : Nat) (a b : String) (m : K)
    (hi : (clause.map Prod.fst)[i]? = some a) (hj : clause[j]? = some (b, m)) (hn : 2 ≤ clause.length)
    (hm : 0 ≤ m ∧ m ≤ 1) :
    ∃ d w, literalDistance clause a b = .ok d ∧ weightedLiteralDistance clause a b = .ok w ∧ w = d * (1 - m) ∧ 0 ≤ w ∧
      w ≤ d := by
  have hj' : (clause.map Prod.fst)[j]? = some b := by rw [List.getElem?_map, hj]; rfl
  obtain ⟨d, h1, -, -, h0, -⟩ := C59_literal_distance clause hnd i j a b hi hj' hn
  refine ⟨d, d * (1 - m), h1, ?_, rfl, mul_nonneg h0 (by linarith), ?_⟩
  · unfold weightedLiteralDistance
    rw [h1]
    have := Dict.get?_of_mem_nodup (d := clause) hnd (List.mem_of_getElem? hj)
    rw [py_bind_ok, Dict.get_eq_ok_iff.2 this]
    rfl
  · nlinarith [h0, hm.1]

/-- C59: a variable with a single set raises `ZeroDivisionError`; an unknown set raises `ValueError`. -/
theorem C59_errors (clause : Dict String K) (a b : String) :
    (clause.length = 1 → a ∈ clause.map Prod.fst → b ∈ clause.map Prod.fst →
      literalDistance clause a b = .error .zeroDivision ∧ weightedLiteralDistance clause a b = .error .zeroDivision) ∧
    (a ∉ clause.map Prod.fst ∨ b ∉ clause.map Prod.fst →
      literalDistance clause a b = .error .valueError ∧ weightedLiteralDistance clause a b = .error .valueError) := by
  constructor
  · intro hl ha hb
    have h : literalDistance clause a b = .error .zeroDivision := by
      unfold literalDistance pyIndex
      rw [if_pos (show a ∈ Dict.keys clause from ha), if_pos (show b ∈ Dict.keys clause from hb)]
      simp [pyDiv, hl]
    exact ⟨h, by unfold weightedLiteralDistance; rw [h]; rfl⟩
  · intro h
    have h : literalDistance clause a b = .error .valueError := by
      unfold literalDistance pyIndex
      by_cases ha : a ∈ Dict.keys clause
      · rw [if_pos ha]
        rcases h with h | h
        · exact absurd ha h
        · rw [if_neg (show b ∉ Dict.keys clause from h)]; rfl
      · rw [if_neg ha]; rfl
    exact ⟨h, by unfold weightedLiteralDistance; rw [h]; rfl⟩

example : literalDistance ([("low", 1/4), ("mid", 3/4), ("high", 0)] : Dict String ℚ) "low" "mid" = .ok (1/2) ∧
    literalDistance ([("low", 1/4), ("mid", 3/4), ("high", 0)] : Dict String ℚ) "high" "low" = .ok 1 ∧
    weightedLiteralDistance ([("low", 1/4), ("mid", 3/4), ("high", 0)] : Dict String ℚ) "mid" "low" = .ok (3/8) ∧
    literalDistance ([("low", 1)] : Dict String ℚ) "low" "low" = .error .zeroDivision := by decide +kernel

/-! ### C60 -/

/-- number of features common to the two dictionaries, not numerical, whose values differ. -/
def Spec.differingValues (a b : Dict String String) (num : List String) : Nat :=
  ((Dict.keys a).filter (fun k => k ∈ Dict.keys b ∧ k ∉ num ∧ Dict.get? a k ≠ Dict.get? b k)).length

/-- C60: whatever the identities of the strings, the categorical distance is at least the number of differing values (the same
object has one value); it is that number when equal values are the same object. -/
theorem C60_categorical_partial (ident : String → Bool) (a b : Dict String String) (num : List String)
    (hid : ∀ k, ident k = true → Dict.get? a k = Dict.get? b k) :
    differingValues a b num ≤ categoricalDistance ident a b num ∧
    ((∀ k, k ∈ Dict.keys a → k ∈ Dict.keys b → Dict.get? a k = Dict.get? b k → ident k = true) →
      categoricalDistance ident a b num = differingValues a b num) := by
  unfold differingValues categoricalDistance
  constructor
  · apply List.Sublist.length_le
    apply List.monotone_filter_right
    intro k
    simp only [decide_eq_true_eq]
    rintro ⟨h1, h2, h3⟩
    refine ⟨h1, h2, ?_⟩
    cases h : ident k with
    | false => rfl
    | true => exact absurd (hid k h) h3
  · intro hint
    congr 1
    apply List.filter_congr
    intro k hk
    simp only [decide_eq_decide]
    constructor
    · rintro ⟨h1, h2, h3⟩
      refine ⟨h1, h2, fun he => ?_⟩
      rw [hint k hk h1 he] at h3; cases h3
    · rintro ⟨h1, h2, h3⟩
      refine ⟨h1, h2, ?_⟩
      cases h : ident k with
      | false => rfl
      | true => exact absurd (hid k h) h3

/-- C60 is false of the code: two equal strings that are not the same object count as a difference. -/
theorem C60_categorical_false : ¬ ∀ (ident : String → Bool) (a b : Dict String String) (num : List String),
    (∀ k, ident k = true → Dict.get? a k = Dict.get? b k) →
    categoricalDistance ident a b num = differingValues a b num := by
  intro h
  have := h (fun _ => false) [("sex", "m")] [("sex", "m")] [] (by simp)
  revert this
  decide

/-- C60: the distance from a rule to an instance is the categorical distance plus the weighted distances of the numerical
columns that the rule uses: closed form of what `C54_i_closest` minimises. -/
theorem C60_distance_instance (ident : String → Bool) (r : Rule String C K) (inst : Inst K) (num : List String)
    (fz : Dict String String) (hfz : List.Forall₂ (fun p q => q.1 = p.1 ∧ IsStrongest p.2 q.2) inst fz)
    (hnd : (inst.map Prod.fst).Nodup) (g : String → K)
    (hg : ∀ k ∈ num, ∀ sets s v, (k, sets) ∈ inst → IsStrongest sets s → ruleValue r k = some v →
      weightedLiteralDistance sets s v = .ok (g k)) :
    cfDistInstance ident r inst num = .ok ((categoricalDistance ident fz r.anteDict num : K) +
      ((num.filter (fun k => k ∈ inst.map Prod.fst ∧ k ∈ r.antecedent.map Prod.fst)).map g).sum) := by
  have hfz' : fuzzified inst = .ok fz := by
    unfold fuzzified
    rw [mapM_ok_iff]
    refine hfz.imp ?_
    rintro p q ⟨h1, h2⟩
    rw [(strongest_ok_iff _ _).2 h2, ← h1]
    rfl
  have hkeys : Dict.keys fz = inst.map Prod.fst := forall₂_map_eq hfz (fun a b h => h.1)
  have hfznd : (Dict.keys fz).Nodup := by rw [hkeys]; exact hnd
  unfold cfDistInstance
  rw [hfz']
  simp only [py_bind_ok]
  have hfilter : num.filter (fun x => x ∈ Dict.keys fz ∧ x ∈ Dict.keys r.anteDict) =
      num.filter (fun k => k ∈ inst.map Prod.fst ∧ k ∈ r.antecedent.map Prod.fst) := by
    apply List.filter_congr
    intro k _
    rw [hkeys]
    simp only [mem_keys_anteDict]
  rw [hfilter]
  apply sumLoop_ok
  intro k hk
  obtain ⟨hk1, hk2⟩ := List.mem_filter.1 hk
  simp only [decide_eq_true_eq] at hk2
  obtain ⟨p, hp, rfl⟩ := List.mem_map.1 hk2.1
  obtain ⟨q, hq, hpq, hs⟩ := forall₂_mem_left hfz p hp
  obtain ⟨w, hw⟩ := (Dict.get?_isSome_iff r.anteDict p.1).2 ((mem_keys_anteDict r p.1).2 hk2.2)
  have e1 : Dict.get? inst p.1 = some p.2 := Dict.get?_of_mem_nodup hnd hp
  have e2 : Dict.get? fz p.1 = some q.2 := by
    rw [← hpq]; exact Dict.get?_of_mem_nodup hfznd hq
  rw [Dict.get_eq_ok_iff.2 e1, Dict.get_eq_ok_iff.2 e2, Dict.get_eq_ok_iff.2 hw]
  exact hg p.1 hk1 p.2 q.2 w hp hs (by rw [← anteDict_get?]; exact hw)

/-- number of features that exactly one of two antecedents mentions. -/
def Spec.unshared (a b : Rule String C K) : Nat :=
  (((a.antecedent ++ b.antecedent).map Prod.fst).dedup.filter
    (fun f => (f ∈ a.antecedent.map Prod.fst) ≠ (f ∈ b.antecedent.map Prod.fst))).length

theorem nodup_keys_anteDict (r : Rule String C K) : (Dict.keys r.anteDict).Nodup := Dict.nodup_keys_ofPairs _

theorem unshared_eq (a b : Rule String C K) :
    ((Dict.keys a.anteDict).filter (fun x => x ∉ Dict.keys b.anteDict)).length +
      ((Dict.keys b.anteDict).filter (fun x => x ∉ Dict.keys a.anteDict)).length = unshared a b := by
  unfold unshared
  rw [← List.length_append]
  apply List.Perm.length_eq
  rw [List.perm_ext_iff_of_nodup]
  · intro f
    have e1 := mem_keys_anteDict a f
    have e2 := mem_keys_anteDict b f
    simp only [List.mem_append, List.mem_filter, decide_eq_true_eq, e1, e2, List.mem_dedup, List.map_append, ne_eq, eq_iff_iff]
    tauto
  · rw [List.nodup_append]
    refine ⟨(nodup_keys_anteDict a).filter _, (nodup_keys_anteDict b).filter _, ?_⟩
    intro x hx y hy e
    subst e
    have h1 := (List.mem_filter.1 hx).1
    have h2 := (List.mem_filter.1 hy).2
    simp only [decide_eq_true_eq] at h2
    exact h2 h1
  · exact (List.nodup_dedup _).filter _

/-- C60: the distance between two rules is `tau` times the number of features that only one of them mentions plus `1 - tau` times the
changes on the common features: the categorical distance and the distances between the sets of the numerical columns. -/
theorem C60_distance_rule (ident : String → Bool) (cf rule : Rule String C K) (inst : Inst K) (num : List String) (tau : K) (g : String → K)
    (hg : ∀ k ∈ num, ∀ v w, ruleValue rule k = some v → ruleValue cf k = some w →
      ∃ sets, Dict.get? inst k = some sets ∧ literalDistance sets v w = .ok (g k)) :
    cfDistRule ident cf rule inst num tau = .ok (tau * (unshared rule cf : K) +
      (1 - tau) * ((categoricalDistance ident rule.anteDict cf.anteDict num : K) +
        ((num.filter (fun k => k ∈ rule.antecedent.map Prod.fst ∧ k ∈ cf.antecedent.map Prod.fst)).map g).sum)) := by
  unfold cfDistRule
  have hfilter : num.filter (fun x => x ∈ Dict.keys rule.anteDict ∧ x ∈ Dict.keys cf.anteDict) =
      num.filter (fun k => k ∈ rule.antecedent.map Prod.fst ∧ k ∈ cf.antecedent.map Prod.fst) := by
    apply List.filter_congr
    intro k _
    simp only [mem_keys_anteDict]
  simp only [hfilter, unshared_eq]
  rw [sumLoop_ok _ g]
  · rfl
  · intro k hk
    obtain ⟨hk1, hk2⟩ := List.mem_filter.1 hk
    simp only [decide_eq_true_eq] at hk2
    obtain ⟨v, hv⟩ := (Dict.get?_isSome_iff rule.anteDict k).2 ((mem_keys_anteDict rule k).2 hk2.1)
    obtain ⟨w, hw⟩ := (Dict.get?_isSome_iff cf.anteDict k).2 ((mem_keys_anteDict cf k).2 hk2.2)
    obtain ⟨sets, h1, h2⟩ := hg k hk1 v w (by rw [← anteDict_get?]; exact hv) (by rw [← anteDict_get?]; exact hw)
    rw [Dict.get_eq_ok_iff.2 h1, Dict.get_eq_ok_iff.2 hv, Dict.get_eq_ok_iff.2 hw]
    exact h2

/-- C60: the distance of a rule to a factual is the sum of its distances to the rules of the factual, each weighted by how much
the instance matches that rule: what `f_counterfactual` minimises (`C54_f_closest_partial`). -/
theorem C60_distance_factual (ident : Nat → String → Bool) (factual : List (Rule String C K)) (inst : Inst K) (num : List String) (tau : K)
    (cf : Rule String C K) (md d : Nat → K)
    (h : ∀ (j : Nat) r, factual[j]? = some r → r.matching inst = .ok (md j) ∧ cfDistRule (ident j) cf r inst num tau = .ok (d j)) :
    fDist ident factual inst num tau cf = .ok ((List.range factual.length).map (fun j => md j * d j)).sum := by
  unfold fDist
  rw [sumLoop_ok _ (fun p => md p.2 * d p.2)]
  · rw [zero_add]
    congr 2
    have : factual.zipIdx.map (fun p => md p.2 * d p.2) = (factual.zipIdx.map Prod.snd).map (fun j => md j * d j) := by
      rw [List.map_map]; rfl
    rw [this, List.zipIdx_map_snd, List.range_eq_range']
  · rintro ⟨r, j⟩ hp
    rw [List.mk_mem_zipIdx_iff_getElem?] at hp
    obtain ⟨h1, h2⟩ := h j r hp
    simp only [h1, h2, py_bind_ok, py_pure]

example : unshared (⟨[("age", "low"), ("sex", "m")], 0, 1⟩ : Rule String Nat ℚ) ⟨[("age", "mid"), ("job", "x")], 1, 1⟩ = 2 ∧
    cfDistRule (fun _ => true) (⟨[("age", "mid"), ("job", "x")], 1, 1⟩ : Rule String Nat ℚ) ⟨[("age", "low"), ("sex", "m")], 0, 1⟩
      [("age", [("low", 3/4), ("mid", 1/4), ("high", 0)])] ["age"] (1/4) = .ok (1/4 * 2 + 3/4 * (1/2)) := by decide +kernel

end

/-! ### Concrete counterfactuals -/

/-- an instance with a numerical and a categorical feature. -/
def cfInst : Inst ℚ := [("age", [("low", 3/4), ("mid", 1/4), ("high", 0)]), ("sex", [("m", 1), ("f", 0)])]

/-- rules of three classes. -/
def cfRules : List (Rule String Nat ℚ) :=
  [⟨[("age", "low")], 0, 1⟩, ⟨[("age", "mid")], 1, 1⟩, ⟨[("age", "high"), ("sex", "m")], 2, 1⟩, ⟨[("sex", "f")], 1, 1⟩]

/-- the identity oracle of interned strings is the equality of the values: here `sex` is `m` in both only for the third rule. -/
def cfIdent : Nat → String → Bool := fun i _ => i = 1

/-- C53–C57, C61 on a concrete case: the nearest rule of another class is `age = mid`. -/
example : (Dict.keys cfInst).Nodup ∧ weightedVote cfRules cfInst = .ok 0 ∧
    iCounterfactual cfIdent cfInst cfRules 0 ["age"] = .ok (some [("age", "mid")]) ∧
    iCounterfactualMulti cfIdent cfInst cfRules 0 ["age"] = .ok [(1, [("age", "mid")]), (2, [("age", "high")])] ∧
    fCounterfactual (fun _ => cfIdent) [⟨[("age", "low")], 0, 1⟩] cfInst cfRules 0 ["age"] (1/2) =
      .ok (some [("age", "mid")]) ∧
    iCounterfactual cfIdent cfInst [⟨[("age", "low")], 0, 1⟩] 0 ["age"] = .ok none ∧
    dCounterfactual (fun _ => .ok 0) (fun cells => .ok (if cells[1]? = some (.str "f") then 0 else 1)) [] cfInst cfRules 0 =
      .ok (some [("sex", "f")]) := by decide +kernel

/-- the hypotheses of `C55_i_total` hold for it. -/
example : (∀ p ∈ cfInst, p.2 ≠ []) ∧ (∀ r ∈ cfRules, r.antecedent ≠ []) ∧
    (∀ r ∈ cfRules, ∀ p ∈ r.antecedent, p.1 ∈ ["age"] → ∀ sets, (p.1, sets) ∈ cfInst →
      p.2 ∈ sets.map Prod.fst ∧ 2 ≤ sets.length) := by
  refine ⟨by decide +kernel, by decide +kernel, ?_⟩
  intro r hr p hp hage sets hs
  simp only [List.mem_singleton] at hage
  have : sets = [("low", 3/4), ("mid", 1/4), ("high", 0)] := by
    simp only [cfInst, List.mem_cons, Prod.mk.injEq, List.not_mem_nil, or_false, hage] at hs
    rcases hs with ⟨-, h⟩ | ⟨h, -⟩
    · exact h
    · exact absurd h (by decide)
  subst this
  refine ⟨?_, by decide⟩
  have key : ∀ r ∈ cfRules, ∀ p ∈ r.antecedent, p.1 = "age" → p.2 = "low" ∨ p.2 = "mid" ∨ p.2 = "high" := by decide +kernel
  rcases key r hr p hp hage with h | h | h <;> simp [h]

/-- two rules with the same antecedent and different classes, as the leaves of an FDT give. -/
def dupRules : List (Rule String Nat ℚ) :=
  [⟨[("age", "low")], 0, 1⟩, ⟨[("age", "mid")], 0, 1/4⟩, ⟨[("age", "mid")], 1, 3/4⟩]

/-- C55 (and C54) is false of `f_counterfactual`: a rule of another class at distance 0 from the factual is never tried, so
`None` is returned although the rule flips the class. The factual of the example is the second rule of class 0, whose
antecedent is that of the rule of class 1. -/
theorem C55_f_none_false : ¬ ∀ (ident : Nat → Nat → String → Bool) (factual : List (Rule String Nat ℚ)) (inst : Inst ℚ)
    (rules : List (Rule String Nat ℚ)) (c : Nat) (num : List String) (tau : ℚ), (Dict.keys inst).Nodup →
    (∀ r ∈ factual, r ∈ rules ∧ r.consequent = c) → factual ≠ [] → weightedVote rules inst = .ok c →
    fCounterfactual ident factual inst rules c num tau = .ok none →
    ∀ r ∈ rules, r.consequent ≠ c → ¬ RuleFlips rules inst c r := by
  intro h
  have h1 := h (fun _ _ _ => true) [⟨[("age", "mid")], 0, 1/4⟩] [("age", [("low", 3/4), ("mid", 1/4)])] dupRules 0 ["age"]
    (1/2) (by decide +kernel) (by decide +kernel) (by simp) (by decide +kernel) (by decide +kernel)
    ⟨[("age", "mid")], 1, 3/4⟩ (by decide +kernel) (by decide)
  apply h1
  rw [ruleFlips_iff (by decide +kernel) (by decide +kernel)]
  exact ⟨[("age", [("low", 0), ("mid", 1)])], [("age", "mid")], 1, by decide +kernel, by decide +kernel, by decide⟩

/-- C54 is false of `f_counterfactual` for the same reason: with a further rule of class 1 at a positive distance that flips
the class, that rule is used although the one at distance 0 is closer. -/
theorem C54_f_closest_false : ¬ ∀ (ident : Nat → Nat → String → Bool) (factual : List (Rule String Nat ℚ)) (inst : Inst ℚ)
    (rules : List (Rule String Nat ℚ)) (c : Nat) (num : List String) (tau : ℚ), (Dict.keys inst).Nodup →
    (∀ r ∈ factual, r ∈ rules ∧ r.consequent = c) → factual ≠ [] → weightedVote rules inst = .ok c →
    ∀ ch, fCounterfactual ident factual inst rules c num tau = .ok (some ch) →
    ∃ i r d, (rules.filter (fun r => r.consequent ≠ c))[i]? = some r ∧ fDist (ident i) factual inst num tau r = .ok d ∧
      IsChanges r inst ch ∧
      ∀ j r', (rules.filter (fun r => r.consequent ≠ c))[j]? = some r' → RuleFlips rules inst c r' →
        ∃ d', fDist (ident j) factual inst num tau r' = .ok d' ∧ d ≤ d' := by
  intro h
  have h1 := h (fun _ _ _ => true) [⟨[("age", "mid")], 0, 1/4⟩] [("age", [("low", 3/4), ("mid", 1/4), ("high", 0)])]
    (dupRules ++ [⟨[("age", "high")], 1, 1⟩]) 0 ["age"] (1/2) (by decide +kernel) (by decide +kernel) (by simp)
    (by decide +kernel) [("age", "high")] (by decide +kernel)
  obtain ⟨i, r, d, h2, h3, h4, h5⟩ := h1
  obtain ⟨d', h6, h7⟩ := h5 0 ⟨[("age", "mid")], 1, 3/4⟩ (by decide +kernel) (by
    rw [ruleFlips_iff (by decide +kernel) (by decide +kernel)]
    exact ⟨[("age", [("low", 0), ("mid", 1), ("high", 0)])], [("age", "mid")], 1, by decide +kernel, by decide +kernel,
      by decide⟩)
  have hd' : d' = 0 := by
    have : fDist (fun _ _ => true) [⟨[("age", "mid")], 0, 1/4⟩] [("age", [("low", 3/4), ("mid", 1/4), ("high", 0)])] ["age"]
      (1/2) (⟨[("age", "mid")], 1, 3/4⟩ : Rule String Nat ℚ) = .ok 0 := by decide +kernel
    rw [this] at h6
    exact (Except.ok.inj h6).symm
  -- the rule used is the one with `age = high`
  have hr : r = ⟨[("age", "high")], 1, 1⟩ := by
    have hm := List.mem_of_getElem? h2
    have hcases : r = ⟨[("age", "mid")], 1, 3/4⟩ ∨ r = ⟨[("age", "high")], 1, 1⟩ := by
      clear h2 h3 h4
      revert r
      decide +kernel
    rcases hcases with rfl | rfl
    · exfalso
      obtain ⟨_, _, _, hv, _⟩ := (h4.2 "age" "high").1 (by simp)
      revert hv
      decide +kernel
    · rfl
  subst hr
  have : fDist (fun _ _ => true) [⟨[("age", "mid")], 0, 1/4⟩] [("age", [("low", 3/4), ("mid", 1/4), ("high", 0)])] ["age"]
      (1/2) (⟨[("age", "high")], 1, 1⟩ : Rule String Nat ℚ) = .ok (1/16) := by decide +kernel
  rw [this] at h3
  have := Except.ok.inj h3
  rw [hd', ← this] at h7
  norm_num at h7

end Teacher
