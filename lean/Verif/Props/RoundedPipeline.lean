import Verif.Props.RoundedAlways

/-! # C209: from a table of doubles to predictions, everything in floating point

The composition of `get_fuzzy_points('entropy', …)`, `get_fuzzy_variables`, `fit` and `predict`. -/

set_option linter.unusedSectionVars false

namespace Teacher
open Spec

variable {C K : Type} [LinearOrder C] [Field K] [LinearOrder K] [IsStrictOrderedRing K] {A : Arith K} {u η : K}

theorem CSet.ordered_of_ok {s : CSet K} {v : List (Cell K)} {ms : List K} (h : s.membership v = .ok ms) : s.a ≤ s.b ∧ s.b ≤ s.c := by
  by_contra hc
  unfold CSet.membership at h
  rw [if_neg hc] at h
  cases h

/-- a variable made by entropy discretisation has a set, and every number has a degree in its sets. -/
theorem entropyVar_nums (hA : Lawful A u η) {lg : K → K} {ent : Bool → List K → List C → Py K} {th : Option K} {depth : Nat} {fmt : K → String}
    (hfmt : ∀ a b, IsFloat A a → IsFloat A b → fmt a = fmt b → a = b) {rows : List (List K)} {y : List C} (hne : rows ≠ [])
    (hlen : rows.length = y.length) (hf : ∀ r ∈ rows, ∀ x ∈ r, IsFloat A x) (htop : TopTwice rows)
    {i : Nat} {v : FVar K} (h : EntropyVar A lg ent th depth fmt rows y i v) :
    v.sets ≠ [] ∧ ∀ x : K, ∀ s ∈ v.sets, ∃ m, s.membership [.num x] = .ok [m] := by
  obtain ⟨-, -, hin⟩ := entropyVar_facts hA hfmt hlen hf htop h
  obtain ⟨r, hr⟩ := List.exists_mem_of_ne_nil _ hne
  obtain ⟨x₀, -, hin⟩ := hin r hr
  constructor
  · obtain ⟨s, hs, -⟩ := hin.strong.2
    exact List.ne_nil_of_mem hs
  · intro x s hs
    obtain ⟨ms, hms, -⟩ := hin.strong.1
    obtain ⟨m, -, hm⟩ := forall₂_mem_left hms s hs
    obtain ⟨_, _, sets, -, -, -, h4⟩ := h
    rw [h4] at hs
    obtain ⟨c, -, rfl⟩ := List.mem_map.1 hs
    exact ⟨_, CSet.membership_nums (CSet.ordered_of_ok hm) [x]⟩

theorem floatTable_nums {rows : List (List K)} (hf : ∀ r ∈ rows, ∀ x ∈ r, IsFloat A x) : FloatTable A (rows.map (fun r => r.map .num)) := by
  intro row hrow x hx
  obtain ⟨r, hr, rfl⟩ := List.mem_map.1 hrow
  obtain ⟨z, hz, e⟩ := List.mem_map.1 hx
  cases e
  exact hf r hr _ hz

theorem rectangular_nums {rows : List (List K)} (hR : Rectangular rows) : Rectangular (rows.map (fun r => r.map (Cell.num (K := K)))) := by
  obtain ⟨n, h1, h2, h3⟩ := hR
  refine ⟨n, h1, by simpa using h2, ?_⟩
  intro row hrow
  obtain ⟨r, hr, rfl⟩ := List.mem_map.1 hrow
  simpa using h3 r hr

/-- **C209**: with the variables made by entropy discretisation of a table of numbers of the arithmetic, `fit` of an FDT succeeds on that table,
and `predict` of the fitted tree succeeds on every table of numbers wide enough, also far outside the range of the training data; every answer is
a class of the training data, and no class has an exact vote larger by more than twice the error of the votes. -/
theorem C209_fdt (hA : Lawful A u η) (lg : K → K) (entD : Bool → List K → List C → Py K) (th : Option K) (depth : Nat) (fmt : K → String)
    (hfmt : ∀ a b, IsFloat A a → IsFloat A b → fmt a = fmt b → a = b) (rows : List (List K)) (y : List C) (hR : Rectangular rows)
    (hlen : rows.length = y.length) (hf : ∀ r ∈ rows, ∀ x ∈ r, IsFloat A x) (htop : TopTwice rows)
    (ent : List K → List C → K) (ord : List String → List String) (hord : ∀ l, (ord l).Perm l) (p : FDTParams K) (hth : 0 < p.fuzzyThreshold)
    (hvars : ∀ (i : Nat) v, p.vars[i]? = some v → EntropyVar A lg entD th depth fmt rows y i v) :
    ∃ t, fdtFitF A ent ord p fdtNew (rows.map (fun r => r.map .num)) y = .ok t ∧
      ∀ (v : Voting) (rows' : List (List K)), Rectangular rows' → (∀ r ∈ rows', p.vars.length ≤ r.length) →
        (∀ r ∈ rows', ∀ x ∈ r, IsFloat A x) →
        ∃ cs, fdtPredictF A min v t (rows'.map (fun r => r.map .num)) = .ok [cs] ∧
          List.Forall₂ (fun r c => c ∈ y ∧ ∃ L, RowLeaves min (r.map .num) t L ∧
            ∀ c' ∈ y, vote v L c' ≤ vote v L c + 2 * votingError v u η (leafPaths t).length) rows' cs := by
  obtain ⟨t, ht, -⟩ := C206_training hA lg entD th depth fmt hfmt rows y hR hlen hf htop ent ord hord p hth hvars
  have hne : rows ≠ [] := by obtain ⟨_, _, h, _⟩ := hR; exact h
  have hidx : ∀ v ∈ p.vars, ∃ i : Nat, p.vars[i]? = some v := fun v hv => List.mem_iff_getElem?.1 hv
  refine ⟨t, ht, ?_⟩
  intro v rows' hR' hw hf'
  obtain ⟨cs, h1, h2⟩ := C208_fdt hA ent ord p
    (fun v hv => by
      obtain ⟨i, hi⟩ := hidx v hv
      exact ⟨(entropyVar_nums hA hfmt hne hlen hf htop (hvars i v hi)).1, (entropyVar_facts hA hfmt hlen hf htop (hvars i v hi)).2.1⟩)
    (fun v hv => by
      obtain ⟨i, hi⟩ := hidx v hv
      exact (entropyVar_facts hA hfmt hlen hf htop (hvars i v hi)).1)
    _ (floatTable_nums hf) y t ht v (rows'.map (fun r => r.map .num)) (rectangular_nums hR') (floatTable_nums hf') (by
      intro row hrow i v hi
      obtain ⟨r, hr, rfl⟩ := List.mem_map.1 hrow
      have hi' : i < r.length := lt_of_lt_of_le (List.getElem?_eq_some_iff.1 hi).1 (hw r hr)
      exact ⟨.num r[i], by simp [hi'], (entropyVar_nums hA hfmt hne hlen hf htop (hvars i v hi)).2 _⟩)
  refine ⟨cs, h1, ?_⟩
  rw [List.forall₂_map_left_iff] at h2
  exact h2

/-- **C209** for the binary tree; `N` bounds the number of sets of a variable. -/
theorem C209_fbdt [NanSort K] (hA : Lawful A u η) (lg : K → K) (entD : Bool → List K → List C → Py K) (th : Option K) (depth : Nat)
    (fmt : K → String) (hfmt : ∀ a b, IsFloat A a → IsFloat A b → fmt a = fmt b → a = b) (rows : List (List K)) (y : List C)
    (hR : Rectangular rows) (hlen : rows.length = y.length) (hf : ∀ r ∈ rows, ∀ x ∈ r, IsFloat A x) (htop : TopTwice rows)
    (ent : List K → List C → K) (p : FDTParams K) (hth : 0 < p.fuzzyThreshold) (hnames : (p.vars.map FVar.name).Nodup)
    (hvars : ∀ (i : Nat) v, p.vars[i]? = some v → EntropyVar A lg entD th depth fmt rows y i v) (N : Nat)
    (hN : ∀ v ∈ p.vars, v.sets.length ≤ N) :
    ∃ t, fbdtFitF A ent p fbdtNew (rows.map (fun r => r.map .num)) y = .ok t ∧
      ∀ (v : Voting) (rows' : List (List K)), Rectangular rows' → (∀ r ∈ rows', p.vars.length ≤ r.length) →
        (∀ r ∈ rows', ∀ x ∈ r, IsFloat A x) →
        ∃ cs, fbdtPredictF A min v t (rows'.map (fun r => r.map .num)) = .ok [cs] ∧
          List.Forall₂ (fun r c => c ∈ y ∧ ∃ L, BRowLeaves min (r.map .num) t L ∧
            ∀ c' ∈ y, vote v L c' ≤ vote v L c + 2 * voteError v u η (unionError u η N) (bLeafPaths t).length) rows' cs := by
  obtain ⟨t, ht, -⟩ := C207_training hA lg entD th depth fmt hfmt rows y hR hlen hf htop ent p hth hnames hvars
  have hne : rows ≠ [] := by obtain ⟨_, _, h, _⟩ := hR; exact h
  have hidx : ∀ v ∈ p.vars, ∃ i : Nat, p.vars[i]? = some v := fun v hv => List.mem_iff_getElem?.1 hv
  refine ⟨t, ht, ?_⟩
  intro v rows' hR' hw hf'
  obtain ⟨cs, h1, h2⟩ := C208_fbdt hA ent p
    (fun v hv => by
      obtain ⟨i, hi⟩ := hidx v hv
      exact (entropyVar_facts hA hfmt hlen hf htop (hvars i v hi)).2.1)
    (fun v hv => by
      obtain ⟨i, hi⟩ := hidx v hv
      exact (entropyVar_facts hA hfmt hlen hf htop (hvars i v hi)).1)
    N hN _ (floatTable_nums hf) y t ht v (rows'.map (fun r => r.map .num)) (rectangular_nums hR') (floatTable_nums hf') (by
      intro row hrow i v hi
      obtain ⟨r, hr, rfl⟩ := List.mem_map.1 hrow
      have hi' : i < r.length := lt_of_lt_of_le (List.getElem?_eq_some_iff.1 hi).1 (hw r hr)
      exact ⟨.num r[i], by simp [hi'], (entropyVar_nums hA hfmt hne hlen hf htop (hvars i v hi)).2 _⟩)
  refine ⟨cs, h1, ?_⟩
  rw [List.forall₂_map_left_iff] at h2
  exact h2

/-- **C209** in double precision, from the table alone: the points of all columns can be computed, a tree can be fitted with the variables made
from them, and it classifies every table of doubles wide enough with classes of the training data. -/
theorem C209_binary64 {C : Type} [LinearOrder C] (lg : ℚ → ℚ) (entD : Bool → List ℚ → List C → Py ℚ)
    (hent : ∀ b, (∀ mu y, entD b mu y = fuzzyEntropyF binary64 lg mu y) ∨ ∀ mu y, entD b mu y = .ok 0) (th : Option ℚ) (depth : Nat)
    (fmt : ℚ → String) (hfmt : ∀ a b, IsFloat binary64 a → IsFloat binary64 b → fmt a = fmt b → a = b) (rows : List (List ℚ)) (y : List C)
    (names : List String) (hne : rows ≠ []) (hnames : names ≠ []) (hw : ∀ r ∈ rows, r.length = names.length) (hlen : rows.length = y.length)
    (hf : ∀ r ∈ rows, ∀ x ∈ r, IsFloat binary64 x) (htop : TopTwice rows) (hrows : rows.length < 2 ^ 53)
    (hr : ∀ (i : Nat) col, List.Forall₂ (fun (r : List ℚ) x => r[i]? = some x) rows col →
      ∀ a ∈ col, ∀ b ∈ col, ∀ c ∈ col, ∀ d ∈ col, a < b → c < d → d - c ≤ 2 ^ 1000 * (b - a))
    (ent : List ℚ → List C → ℚ) (ord : List String → List String) (hord : ∀ l, (ord l).Perm l) (fth : ℚ) (hth : 0 < fth)
    (maxDepth minNum : Nat) :
    ∃ vars, vars.map FVar.name = names ∧ (∀ (i : Nat) v, vars[i]? = some v → EntropyVar binary64 lg entD th depth fmt rows y i v) ∧
      ∃ t, fdtFitF binary64 ent ord ⟨vars, fth, maxDepth, minNum⟩ fdtNew (rows.map (fun r => r.map .num)) y = .ok t ∧
        ∀ (v : Voting) (rows' : List (List ℚ)), rows' ≠ [] → (∀ r ∈ rows', r.length = names.length) →
          (∀ r ∈ rows', ∀ x ∈ r, IsFloat binary64 x) →
          ∃ cs, fdtPredictF binary64 min v t (rows'.map (fun r => r.map .num)) = .ok [cs] ∧ cs.length = rows'.length ∧ ∀ c ∈ cs, c ∈ y := by
  obtain ⟨vars, hn, hget, -⟩ := C206_binary64 lg entD hent th depth fmt hfmt rows y names hne hnames hw hlen hf htop hrows hr ent ord hord fth hth
    maxDepth minNum
  have hl : vars.length = names.length := by rw [← hn]; simp
  obtain ⟨t, h1, h2⟩ := C209_fdt binary64_lawful lg entD th depth fmt hfmt rows y
    ⟨names.length, List.length_pos_iff.2 hnames, hne, hw⟩ hlen hf htop ent ord hord ⟨vars, fth, maxDepth, minNum⟩ hth hget
  refine ⟨vars, hn, hget, t, h1, ?_⟩
  intro v rows' hne' hw' hf'
  obtain ⟨cs, k1, k2⟩ := h2 v rows' ⟨names.length, List.length_pos_iff.2 hnames, hne', hw'⟩
    (fun r hr' => by rw [hw' r hr']; exact hl.le) hf'
  refine ⟨cs, k1, k2.length_eq.symm, ?_⟩
  intro c hc
  obtain ⟨r, -, h, -⟩ := forall₂_mem_right k2 c hc
  exact h

/-! ### examples -/

/-- the hypotheses of C209 are met by a table of doubles with two columns; the new rows are outside the range of the training data. -/
example : ∃ vars, vars.map FVar.name = ["a", "b"] ∧
    (∀ (i : Nat) v, vars[i]? = some v → EntropyVar binary64 exLg (entDbl exLg) none 0 exFmt exFlow [0, 0, 1, 1] i v) ∧
      ∃ t, fdtFitF binary64 (fun _ _ => 1) id ⟨vars, 1 / 1000, 5, 2⟩ fdtNew (exFlow.map (fun r => r.map .num)) [0, 0, 1, 1] = .ok t ∧
        ∃ cs, fdtPredictF binary64 min .agg t [[.num 100, .num (-7)], [.num 2, .num 3]] = .ok [cs] ∧ cs.length = 2 ∧ ∀ c ∈ cs, c ∈ [0, 0, 1, 1] := by
  obtain ⟨vars, h1, h2, t, h3, h4⟩ := C209_binary64 exLg (entDbl exLg) (fun _ => Or.inl fun _ _ => rfl) none 0 exFmt
    (fun a b _ _ => exFmt_inj a b) exFlow [0, 0, 1, 1] ["a", "b"]
    (by simp [exFlow]) (by simp) (by decide +kernel) rfl (by unfold IsFloat; decide +kernel) exFlow_top (by simp [exFlow])
    (by intro i col h
        rcases exFlow_cols i col h with rfl | rfl <;> decide +kernel)
    (fun _ _ => 1) id (fun l => List.Perm.refl l) (1 / 1000) (by norm_num) 5 2
  exact ⟨vars, h1, h2, t, h3, h4 .agg [[100, -7], [2, 3]] (by simp) (by simp) (by unfold IsFloat; decide +kernel)⟩

end Teacher
