import Verif.Lemmas.Counterfactual
import Verif.Props.Rule

/-!
# C53–C57, C61: counterfactual explanations

An instance is a Python dict, hence the hypothesis that its keys are distinct. `weightedVote rules` is the classifier of C20.
`otherClass rules c` are the rules whose consequent is not `c`, in order.
-/

set_option linter.unusedSectionVars false

namespace Teacher
open Spec

section
variable {C K : Type} [Field K] [LinearOrder K] [IsStrictOrderedRing K] [DecidableEq C]

/-- the changes make the classifier answer something else than `c`. -/
def Spec.FlipsBy (rules : List (Rule String C K)) (inst : Inst K) (c : C) (changes : List (String × String)) : Prop :=
  ∃ inst' c', Moved inst changes inst' ∧ weightedVote rules inst' = .ok c' ∧ c' ≠ c

/-- the changes that rule `r` means to the instance flip the class. -/
def Spec.RuleFlips (rules : List (Rule String C K)) (inst : Inst K) (c : C) (r : Rule String C K) : Prop :=
  ∃ ch, IsChanges r inst ch ∧ FlipsBy rules inst c ch

theorem ruleFlips_iff {rules : List (Rule String C K)} {inst : Inst K} {c : C} {r : Rule String C K}
    (hnd : (Dict.keys inst).Nodup) (hne : ∀ p ∈ inst, p.2 ≠ []) : RuleFlips rules inst c r ↔ Flips inst c rules r := by
  constructor
  · rintro ⟨ch, hch, inst', c', hm, hv, hne'⟩
    obtain ⟨i₂, ch₂, h1, h2⟩ := (leadsTo_iff (vote := weightedVote rules) hnd hne).1 ⟨ch, inst', hch, hm, hv⟩
    exact ⟨i₂, ch₂, c', h1, h2, hne'⟩
  · rintro ⟨inst', ch, c', h1, h2, h3⟩
    obtain ⟨hch, hm⟩ := applyChanges_spec hnd h1
    exact ⟨ch, hch, inst', c', hm, h2, h3⟩

/-- candidates with their distances, as computed by a comprehension over the rules of another class. -/
theorem candidates_forall₂ {D : Nat → Rule String C K → Py K} {others : List (Rule String C K)}
    {cfs : List (Rule String C K × K)}
    (h : others.zipIdx.mapM (fun p => do let d ← D p.2 p.1; pure (p.1, d)) = .ok cfs) :
    cfs.length = others.length ∧
      ∀ i r d, cfs[i]? = some (r, d) ↔ others[i]? = some r ∧ D i r = .ok d := by
  rw [mapM_ok_iff] at h
  have hlen := h.length_eq
  rw [List.length_zipIdx] at hlen
  refine ⟨hlen.symm, ?_⟩
  intro i r d
  have hget := (List.forall₂_iff_get.1 h).2
  by_cases hi : i < others.length
  · have h1 := hget i (by simpa using hi) (by omega)
    simp only [List.get_eq_getElem, List.getElem_zipIdx, zero_add] at h1
    rw [py_bind_eq_ok] at h1
    obtain ⟨d₀, hd₀, he⟩ := h1
    simp only [py_pure, Except.ok.injEq] at he
    rw [List.getElem?_eq_getElem (by omega), List.getElem?_eq_getElem hi, ← he]
    simp only [Option.some.injEq, Prod.mk.injEq]
    constructor
    · rintro ⟨rfl, rfl⟩; exact ⟨rfl, hd₀⟩
    · rintro ⟨rfl, hd⟩
      rw [hd₀] at hd
      exact ⟨rfl, Except.ok.inj hd⟩
  · rw [List.getElem?_eq_none (by omega), List.getElem?_eq_none (by omega)]
    simp

theorem nonempty_of_apply {r : Rule String C K} {inst : Inst K} {o} (h : applyChanges r inst = .ok o) :
    ∀ p ∈ inst, p.2 ≠ [] := (applyChanges_ok_iff r inst).1 ⟨o, h⟩

/-- common part of C53, C54: what a search over the positive (`pos`) candidates returns. -/
theorem search_closest {D : Nat → Rule String C K → Py K} {rules others : List (Rule String C K)} {inst : Inst K} {c : C}
    {cfs : List (Rule String C K × K)} (q : K → Bool) (hnd : (Dict.keys inst).Nodup)
    (h : others.zipIdx.mapM (fun p => do let d ← D p.2 p.1; pure (p.1, d)) = .ok cfs) {ch : List (String × String)}
    (hs : searchCf inst c rules (cfs.filter (fun p => q p.2)) = .ok (some ch)) :
    ∃ i r d, others[i]? = some r ∧ D i r = .ok d ∧ q d = true ∧ IsChanges r inst ch ∧ FlipsBy rules inst c ch ∧
      ∀ j r', others[j]? = some r' → RuleFlips rules inst c r' →
        ∃ d', D j r' = .ok d' ∧ (q d' = true → d ≤ d' ∧ (j < i → d < d')) := by
  obtain ⟨hlen, hget⟩ := candidates_forall₂ h
  obtain ⟨pre, x, post, hsplit, hpre, hpost, inst', c', ho, hv, hc'⟩ := searchCf_some hs
  obtain ⟨hch, hm⟩ := applyChanges_spec hnd ho
  rw [List.filter_eq_append_iff] at hsplit
  obtain ⟨l₁, l₂, hl, hf₁, hf₂⟩ := hsplit
  rw [List.filter_eq_cons_iff] at hf₂
  obtain ⟨l₃, l₄, hl₂, hl₃, hqx, hf₄⟩ := hf₂
  have hcfs : cfs = (l₁ ++ l₃) ++ x :: l₄ := by rw [hl, hl₂, List.append_assoc]
  have hi : cfs[(l₁ ++ l₃).length]? = some x := by
    rw [hcfs, List.getElem?_append_right (le_refl _), Nat.sub_self]; rfl
  obtain ⟨r, d⟩ := x
  obtain ⟨e1, e2⟩ := (hget _ _ _).1 hi
  refine ⟨(l₁ ++ l₃).length, r, d, e1, e2, hqx, hch, ⟨inst', c', hm, hv, hc'⟩, ?_⟩
  intro j r' hj hflip
  have hflip' := (ruleFlips_iff hnd (nonempty_of_apply ho)).1 hflip
  have hjlt : j < cfs.length := by
    rw [hlen]
    by_contra hc
    rw [List.getElem?_eq_none (by omega)] at hj; cases hj
  obtain ⟨y, hy⟩ : ∃ y, cfs[j]? = some y := ⟨_, List.getElem?_eq_getElem hjlt⟩
  obtain ⟨r₂, d'⟩ := y
  obtain ⟨f1, f2⟩ := (hget _ _ _).1 hy
  rw [hj] at f1
  obtain rfl := Option.some.inj f1
  refine ⟨d', f2, ?_⟩
  intro hq
  have hmem : (r', d') ∈ cfs := List.mem_of_getElem? hy
  have hcase : j < (l₁ ++ l₃).length → d < d' := by
    intro hlt
    rw [hcfs, List.getElem?_append_left hlt] at hy
    have hy' := List.mem_of_getElem? hy
    rcases List.mem_append.1 hy' with hm | hm
    · exact hpre (r', d') (by rw [← hf₁]; exact List.mem_filter.2 ⟨hm, hq⟩) hflip'
    · exact absurd hq (by simpa using hl₃ _ hm)
  refine ⟨?_, hcase⟩
  rcases Nat.lt_trichotomy j (l₁ ++ l₃).length with hlt | heq | hgt
  · exact le_of_lt (hcase hlt)
  · rw [heq, hi] at hy
    have := Option.some.inj hy
    simp only [Prod.mk.injEq] at this
    exact le_of_eq this.2
  · rw [hcfs, List.getElem?_append_right (le_of_lt hgt)] at hy
    obtain ⟨m, hm⟩ : ∃ m, j - (l₁ ++ l₃).length = m + 1 := ⟨j - (l₁ ++ l₃).length - 1, by omega⟩
    rw [hm, List.getElem?_cons_succ] at hy
    have hy' := List.mem_of_getElem? hy
    exact hpost (r', d') (by rw [← hf₄]; exact List.mem_filter.2 ⟨hy', hq⟩) hflip'

theorem search_none {D : Nat → Rule String C K → Py K} {rules others : List (Rule String C K)} {inst : Inst K} {c : C}
    {cfs : List (Rule String C K × K)} (q : K → Bool) (hnd : (Dict.keys inst).Nodup)
    (h : others.zipIdx.mapM (fun p => do let d ← D p.2 p.1; pure (p.1, d)) = .ok cfs)
    (hs : searchCf inst c rules (cfs.filter (fun p => q p.2)) = .ok none) :
    ∀ i r, others[i]? = some r → ∃ d, D i r = .ok d ∧ (q d = true → ¬ RuleFlips rules inst c r) := by
  obtain ⟨hlen, hget⟩ := candidates_forall₂ h
  intro i r hi
  have hlt : i < cfs.length := by
    rw [hlen]
    by_contra hc
    rw [List.getElem?_eq_none (by omega)] at hi; cases hi
  obtain ⟨y, hy⟩ : ∃ y, cfs[i]? = some y := ⟨_, List.getElem?_eq_getElem hlt⟩
  obtain ⟨r₂, d⟩ := y
  obtain ⟨f1, f2⟩ := (hget _ _ _).1 hy
  rw [hi] at f1
  obtain rfl := Option.some.inj f1
  refine ⟨d, f2, ?_⟩
  intro hq hflip
  obtain ⟨h1, inst', ch, ho, -⟩ := searchCf_none hs (r, d) (List.mem_filter.2 ⟨List.mem_of_getElem? hy, hq⟩)
  exact h1 ((ruleFlips_iff hnd (nonempty_of_apply ho)).1 hflip)

theorem iCandidates_some {ident : Nat → String → Bool} {inst : Inst K} {rules : List (Rule String C K)} {c : C}
    {num : List String} {o : Option (List (String × String))} (h : iCounterfactual ident inst rules c num = .ok o) :
    ∃ cfs, (otherClass rules c).zipIdx.mapM
        (fun p => do let d ← (fun i r => cfDistInstance (ident i) r inst num) p.2 p.1; pure (p.1, d)) = .ok cfs ∧
      searchCf inst c rules (cfs.filter (fun p => (fun _ => true) p.2)) = .ok o := by
  unfold iCounterfactual iCandidates at h
  rw [py_bind_eq_ok] at h
  obtain ⟨cfs, h1, h2⟩ := h
  refine ⟨cfs, h1, ?_⟩
  rw [List.filter_eq_self.2 (by simp)]
  exact h2

theorem fCandidates_some {ident : Nat → Nat → String → Bool} {factual : List (Rule String C K)} {inst : Inst K}
    {rules : List (Rule String C K)} {c : C} {num : List String} {tau : K} {o : Option (List (String × String))}
    (h : fCounterfactual ident factual inst rules c num tau = .ok o) :
    ∃ cfs, (otherClass rules c).zipIdx.mapM
        (fun p => do let d ← (fun i r => fDist (ident i) factual inst num tau r) p.2 p.1; pure (p.1, d)) = .ok cfs ∧
      searchCf inst c rules (cfs.filter (fun p => (fun d => decide (0 < d)) p.2)) = .ok o := by
  unfold fCounterfactual fCandidates at h
  rw [py_bind_eq_ok] at h
  obtain ⟨cfs, h1, h2⟩ := h
  rw [py_bind_eq_ok] at h1
  obtain ⟨ds, h3, h4⟩ := h1
  simp only [py_pure, Except.ok.injEq] at h4
  refine ⟨ds, h3, ?_⟩
  rw [← h4] at h2
  exact h2

theorem dCandidates_some {parse : String → Py K} {dist : List (Cell K) → Py K} {cont : List Nat} {inst : Inst K}
    {rules : List (Rule String C K)} {c : C} {o : Option (List (String × String))}
    (h : dCounterfactual parse dist cont inst rules c = .ok o) :
    ∃ cfs, (otherClass rules c).zipIdx.mapM
        (fun p => do let d ← (fun _ r => dDist parse dist cont inst r) p.2 p.1; pure (p.1, d)) = .ok cfs ∧
      searchCf inst c rules (cfs.filter (fun p => (fun _ => true) p.2)) = .ok o := by
  unfold dCounterfactual at h
  rw [py_bind_eq_ok] at h
  obtain ⟨cfs, h1, h2⟩ := h
  refine ⟨cfs, ?_, by rw [List.filter_eq_self.2 (by simp)]; exact h2⟩
  rw [mapM_ok_iff] at h1 ⊢
  rw [List.forall₂_iff_get] at h1 ⊢
  refine ⟨by simpa using h1.1, ?_⟩
  intro i hi₁ hi₂
  have := h1.2 i (by simpa using hi₁) hi₂
  simpa using this

/-! ### C53 -/

/-- C53 for `i_counterfactual`: the returned changes flip the class. -/
theorem C53_i_changes_class (ident : Nat → String → Bool) (inst : Inst K) (rules : List (Rule String C K)) (c : C)
    (num : List String) (hnd : (Dict.keys inst).Nodup) (ch : List (String × String))
    (h : iCounterfactual ident inst rules c num = .ok (some ch)) :
    ∃ inst' c', Moved inst ch inst' ∧ weightedVote rules inst' = .ok c' ∧ c' ≠ c := by
  obtain ⟨cfs, h1, h2⟩ := iCandidates_some h
  obtain ⟨_, _, _, _, _, _, _, h3, _⟩ := search_closest (D := fun i r => cfDistInstance (ident i) r inst num) (fun _ => true) hnd h1 h2
  exact h3

/-- C53 for `f_counterfactual`. -/
theorem C53_f_changes_class (ident : Nat → Nat → String → Bool) (factual : List (Rule String C K)) (inst : Inst K)
    (rules : List (Rule String C K)) (c : C) (num : List String) (tau : K) (hnd : (Dict.keys inst).Nodup)
    (ch : List (String × String)) (h : fCounterfactual ident factual inst rules c num tau = .ok (some ch)) :
    ∃ inst' c', Moved inst ch inst' ∧ weightedVote rules inst' = .ok c' ∧ c' ≠ c := by
  obtain ⟨cfs, h1, h2⟩ := fCandidates_some h
  obtain ⟨_, _, _, _, _, _, _, h3, _⟩ := search_closest (D := fun i r => fDist (ident i) factual inst num tau r) (fun d => decide (0 < d)) hnd h1 h2
  exact h3

/-! ### C54 -/

/-- C54 for `i_counterfactual`: the changes are those of the rule at position `i` among the rules of another class, at a distance
that is minimal among all those rules whose changes flip the class (strictly smaller than that of an earlier one). -/
theorem C54_i_closest (ident : Nat → String → Bool) (inst : Inst K) (rules : List (Rule String C K)) (c : C)
    (num : List String) (hnd : (Dict.keys inst).Nodup) (ch : List (String × String))
    (h : iCounterfactual ident inst rules c num = .ok (some ch)) :
    ∃ i r d, (rules.filter (fun r => r.consequent ≠ c))[i]? = some r ∧ cfDistInstance (ident i) r inst num = .ok d ∧
      IsChanges r inst ch ∧
      ∀ j r', (rules.filter (fun r => r.consequent ≠ c))[j]? = some r' → RuleFlips rules inst c r' →
        ∃ d', cfDistInstance (ident j) r' inst num = .ok d' ∧ d ≤ d' ∧ (j < i → d < d') := by
  obtain ⟨cfs, h1, h2⟩ := iCandidates_some h
  obtain ⟨i, r, d, e1, e2, -, e3, -, e4⟩ := search_closest (D := fun i r => cfDistInstance (ident i) r inst num) (fun _ => true) hnd h1 h2
  refine ⟨i, r, d, e1, e2, e3, ?_⟩
  intro j r' hj hf
  obtain ⟨d', a, b⟩ := e4 j r' hj hf
  exact ⟨d', a, b rfl⟩

/-- C54 for `f_counterfactual`: minimal among the rules *at a positive distance* whose changes flip the class. -/
theorem C54_f_closest_partial (ident : Nat → Nat → String → Bool) (factual : List (Rule String C K)) (inst : Inst K)
    (rules : List (Rule String C K)) (c : C) (num : List String) (tau : K) (hnd : (Dict.keys inst).Nodup)
    (ch : List (String × String)) (h : fCounterfactual ident factual inst rules c num tau = .ok (some ch)) :
    ∃ i r d, (rules.filter (fun r => r.consequent ≠ c))[i]? = some r ∧ fDist (ident i) factual inst num tau r = .ok d ∧
      0 < d ∧ IsChanges r inst ch ∧
      ∀ j r', (rules.filter (fun r => r.consequent ≠ c))[j]? = some r' → RuleFlips rules inst c r' →
        ∃ d', fDist (ident j) factual inst num tau r' = .ok d' ∧ (0 < d' → d ≤ d' ∧ (j < i → d < d')) := by
  obtain ⟨cfs, h1, h2⟩ := fCandidates_some h
  obtain ⟨i, r, d, e1, e2, hq, e3, -, e4⟩ := search_closest (D := fun i r => fDist (ident i) factual inst num tau r) (fun d => decide (0 < d)) hnd h1 h2
  refine ⟨i, r, d, e1, e2, by simpa using hq, e3, ?_⟩
  intro j r' hj hf
  obtain ⟨d', a, b⟩ := e4 j r' hj hf
  exact ⟨d', a, fun hp => b (by simpa using hp)⟩

/-! ### C55 -/

/-- C55 for `i_counterfactual`: `None` means that no rule of another class flips the class. -/
theorem C55_i_none (ident : Nat → String → Bool) (inst : Inst K) (rules : List (Rule String C K)) (c : C)
    (num : List String) (hnd : (Dict.keys inst).Nodup) (h : iCounterfactual ident inst rules c num = .ok none) :
    ∀ r ∈ rules, r.consequent ≠ c → ¬ RuleFlips rules inst c r := by
  intro r hr hc
  obtain ⟨cfs, h1, h2⟩ := iCandidates_some h
  have hmem : r ∈ otherClass rules c := List.mem_filter.2 ⟨hr, by simpa using hc⟩
  obtain ⟨i, hi⟩ := List.mem_iff_getElem?.1 hmem
  obtain ⟨d, -, h3⟩ := search_none (D := fun i r => cfDistInstance (ident i) r inst num) (fun _ => true) hnd h1 h2 i r hi
  exact h3 rfl

/-- C55 for `f_counterfactual`: `None` means that no rule of another class at a positive distance from the factual flips the
class. (Rules at distance 0 are not tried: `C55_f_none_false`.) -/
theorem C55_f_none_partial (ident : Nat → Nat → String → Bool) (factual : List (Rule String C K)) (inst : Inst K)
    (rules : List (Rule String C K)) (c : C) (num : List String) (tau : K) (hnd : (Dict.keys inst).Nodup)
    (h : fCounterfactual ident factual inst rules c num tau = .ok none) :
    ∀ i r, (rules.filter (fun r => r.consequent ≠ c))[i]? = some r →
      ∃ d, fDist (ident i) factual inst num tau r = .ok d ∧ (0 < d → ¬ RuleFlips rules inst c r) := by
  intro i r hi
  obtain ⟨cfs, h1, h2⟩ := fCandidates_some h
  obtain ⟨d, h3, h4⟩ := search_none (D := fun i r => fDist (ident i) factual inst num tau r) (fun d => decide (0 < d)) hnd h1 h2 i r hi
  exact ⟨d, h3, fun hp => h4 (by simpa using hp)⟩

/-- C55: `i_counterfactual` does return on well formed inputs: every feature of the instance has sets, every rule has
conditions, and a numerical feature used by a rule of another class has at least two sets, the one of the rule among them. -/
theorem C55_i_total (ident : Nat → String → Bool) (inst : Inst K) (rules : List (Rule String C K)) (c : C)
    (num : List String) (hnd : (Dict.keys inst).Nodup) (hne : ∀ p ∈ inst, p.2 ≠ [])
    (hant : ∀ r ∈ rules, r.antecedent ≠ [])
    (hnum : ∀ r ∈ rules, ∀ p ∈ r.antecedent, p.1 ∈ num → ∀ sets, (p.1, sets) ∈ inst → p.2 ∈ sets.map Prod.fst ∧ 2 ≤ sets.length) :
    ∃ o, iCounterfactual ident inst rules c num = .ok o := by
  have hfz : ∃ fz, fuzzified inst = .ok fz ∧ ∀ f s, Dict.get? fz f = some s → ∃ sets, (f, sets) ∈ inst ∧ IsStrongest sets s := by
    unfold fuzzified
    obtain ⟨bs, hbs⟩ := forall₂_of_forall_exists
      (fun (p : String × Dict String K) b => (do let s ← strongest p.2; pure (p.1, s) : Py (String × String)) = .ok b) inst (by
        intro p hp
        obtain ⟨s, hs⟩ := strongest_ok_of_ne p.2 (hne p hp)
        exact ⟨(p.1, s), by rw [hs]; rfl⟩)
    refine ⟨bs, (mapM_ok_iff _ _ _).2 hbs, ?_⟩
    intro f s hg
    obtain ⟨p, hp, hps⟩ := forall₂_mem_right hbs _ (Dict.mem_of_get? hg)
    rw [py_bind_eq_ok] at hps
    obtain ⟨s', hs', he⟩ := hps
    simp only [py_pure, Except.ok.injEq, Prod.mk.injEq] at he
    obtain ⟨rfl, rfl⟩ := he
    exact ⟨p.2, hp, (strongest_ok_iff _ _).1 hs'⟩
  obtain ⟨fz, hfz1, hfz2⟩ := hfz
  have hdist : ∀ i, ∀ r ∈ rules, ∃ d, cfDistInstance (ident i) r inst num = .ok d := by
    intro i r hr
    unfold cfDistInstance
    rw [hfz1]
    simp only [py_bind_ok]
    apply sumLoop_total
    intro k hk
    obtain ⟨hk1, h2⟩ := List.mem_filter.1 hk
    simp only [decide_eq_true_eq] at h2
    obtain ⟨hk2, hk3⟩ := h2
    obtain ⟨v, hv⟩ := (Dict.get?_isSome_iff _ _).2 hk2
    obtain ⟨w, hw⟩ := (Dict.get?_isSome_iff _ _).2 hk3
    obtain ⟨sets, hs1, hs2⟩ := hfz2 k v hv
    have hget := Dict.get?_of_mem_nodup hnd hs1
    have hw' := ruleValue_mem ((anteDict_get? r k).symm.trans hw)
    obtain ⟨hin, hlen⟩ := hnum r hr _ hw' hk1 sets hs1
    have hv' : v ∈ Dict.keys sets := strongest_mem ((strongest_ok_iff _ _).2 hs2)
    have hwl : ∃ d, weightedLiteralDistance sets v w = .ok d := by
      unfold weightedLiteralDistance literalDistance pyIndex
      rw [if_pos hv', if_pos (show w ∈ Dict.keys sets from hin)]
      have : ((sets.length : K) - 1) ≠ 0 := by
        have : (2 : K) ≤ (sets.length : K) := by exact_mod_cast hlen
        intro h0; linarith
      obtain ⟨m, hm⟩ := (Dict.get?_isSome_iff sets w).2 hin
      simp only [py_bind_ok, pyDiv, if_neg this, Dict.get_eq_ok_iff.2 hm, py_pure]
      exact ⟨_, rfl⟩
    obtain ⟨d, hd⟩ := hwl
    rw [Dict.get_eq_ok_iff.2 hget, Dict.get_eq_ok_iff.2 hv, Dict.get_eq_ok_iff.2 hw]
    exact ⟨d, hd⟩
  unfold iCounterfactual iCandidates
  obtain ⟨cfs, hcfs⟩ := forall₂_of_forall_exists
    (fun (p : Rule String C K × Nat) b => (do
      let d ← cfDistInstance (ident p.2) p.1 inst num
      pure (p.1, d) : Py (Rule String C K × K)) = .ok b) (otherClass rules c).zipIdx (by
    rintro ⟨r, i⟩ hp
    have hr : r ∈ rules := (List.mem_filter.1 (List.fst_mem_of_mem_zipIdx hp)).1
    obtain ⟨d, hd⟩ := hdist i r hr
    exact ⟨(r, d), by simp only [hd]; rfl⟩)
  rw [(mapM_ok_iff _ _ _).2 hcfs]
  simp only [py_bind_ok]
  by_cases hr : rules = []
  · have : otherClass rules c = [] := by rw [hr]; rfl
    rw [this] at hcfs
    cases hcfs
    exact ⟨_, rfl⟩
  · apply searchLoop_total hne
    intro inst'
    obtain ⟨_, _, c', hc', _⟩ := C20_weighted_vote rules inst' hr hant
    exact ⟨c', hc'⟩

/-! ### C56 -/

/-- C56: the shape of the returned changes, for `i_counterfactual`, `f_counterfactual` and `d_counterfactual`: each names a
feature of the instance and a set that is not its strongest one; no feature occurs twice; if `c` is the class of the instance
there is at least one change. -/
theorem C56_changes (inst : Inst K) (rules : List (Rule String C K)) (c : C) (hnd : (Dict.keys inst).Nodup)
    (ch : List (String × String))
    (h : (∃ ident num, iCounterfactual ident inst rules c num = .ok (some ch)) ∨
      (∃ ident factual num tau, fCounterfactual ident factual inst rules c num tau = .ok (some ch)) ∨
      ∃ parse dist cont, dCounterfactual parse dist cont inst rules c = .ok (some ch)) :
    (∀ f v, (f, v) ∈ ch → ∃ sets s, (f, sets) ∈ inst ∧ IsStrongest sets s ∧ v ≠ s) ∧ (ch.map Prod.fst).Nodup ∧
    (∃ r ∈ rules, r.consequent ≠ c ∧ ∀ p ∈ ch, p ∈ r.antecedent) ∧
    (weightedVote rules inst = .ok c → ch ≠ []) := by
  have key : ∃ r ∈ rules, r.consequent ≠ c ∧ IsChanges r inst ch ∧ FlipsBy rules inst c ch := by
    have aux : ∀ (i : Nat) r, (otherClass rules c)[i]? = some r → r ∈ rules ∧ r.consequent ≠ c := by
      intro i r hi
      have := List.mem_filter.1 (List.mem_of_getElem? hi)
      simpa using this
    rcases h with ⟨ident, num, h⟩ | ⟨ident, factual, num, tau, h⟩ | ⟨parse, dist, cont, h⟩
    · obtain ⟨cfs, h1, h2⟩ := iCandidates_some h
      obtain ⟨i, r, d, e1, -, -, e3, e4, -⟩ := search_closest (D := fun i r => cfDistInstance (ident i) r inst num) (fun _ => true) hnd h1 h2
      exact ⟨r, (aux i r e1).1, (aux i r e1).2, e3, e4⟩
    · obtain ⟨cfs, h1, h2⟩ := fCandidates_some h
      obtain ⟨i, r, d, e1, -, -, e3, e4, -⟩ := search_closest (D := fun i r => fDist (ident i) factual inst num tau r) (fun d => decide (0 < d)) hnd h1 h2
      exact ⟨r, (aux i r e1).1, (aux i r e1).2, e3, e4⟩
    · obtain ⟨cfs, h1, h2⟩ := dCandidates_some h
      obtain ⟨i, r, d, e1, -, -, e3, e4, -⟩ := search_closest (D := fun _ r => dDist parse dist cont inst r) (fun _ => true) hnd h1 h2
      exact ⟨r, (aux i r e1).1, (aux i r e1).2, e3, e4⟩
  obtain ⟨r, hr, hc, ⟨hch1, hch2⟩, inst', c', hm, hv, hne⟩ := key
  refine ⟨?_, hch1, ⟨r, hr, hc, ?_⟩, ?_⟩
  · intro f v hfv
    obtain ⟨sets, s, h1, -, h2, h3⟩ := (hch2 f v).1 hfv
    exact ⟨sets, s, h1, h2, Ne.symm h3⟩
  · rintro ⟨f, v⟩ hfv
    obtain ⟨sets, s, -, h1, -, -⟩ := (hch2 f v).1 hfv
    exact ruleValue_mem h1
  · rintro hvote rfl
    rw [Moved.nil hm, hvote] at hv
    exact hne (Except.ok.inj hv).symm

/-! ### C57 -/

/-- C57: `d_counterfactual` is sound and closest, for the distance `dDist` (the given distance between the decoded instance and
the strongest sets of the modified one, see `C57_distance`). -/
theorem C57_d_sound_closest (parse : String → Py K) (dist : List (Cell K) → Py K) (cont : List Nat) (inst : Inst K)
    (rules : List (Rule String C K)) (c : C) (hnd : (Dict.keys inst).Nodup) (ch : List (String × String))
    (h : dCounterfactual parse dist cont inst rules c = .ok (some ch)) :
    (∃ inst' c', Moved inst ch inst' ∧ weightedVote rules inst' = .ok c' ∧ c' ≠ c) ∧
    ∃ r ∈ rules, r.consequent ≠ c ∧ IsChanges r inst ch ∧ ∃ d, dDist parse dist cont inst r = .ok d ∧
      ∀ r' ∈ rules, r'.consequent ≠ c → RuleFlips rules inst c r' → ∃ d', dDist parse dist cont inst r' = .ok d' ∧ d ≤ d' := by
  obtain ⟨cfs, h1, h2⟩ := dCandidates_some h
  obtain ⟨i, r, d, e1, e2, -, e3, e4, e5⟩ := search_closest (D := fun _ r => dDist parse dist cont inst r) (fun _ => true) hnd h1 h2
  have hr := List.mem_filter.1 (List.mem_of_getElem? e1)
  refine ⟨e4, r, hr.1, by simpa using hr.2, e3, d, e2, ?_⟩
  intro r' hr' hc' hf
  have hmem : r' ∈ otherClass rules c := List.mem_filter.2 ⟨hr', by simpa using hc'⟩
  obtain ⟨j, hj⟩ := List.mem_iff_getElem?.1 hmem
  obtain ⟨d', a, b⟩ := e5 j r' hj hf
  exact ⟨d', a, (b rfl).1⟩

/-- C57: `None` means that no rule of another class flips the class. -/
theorem C57_d_none (parse : String → Py K) (dist : List (Cell K) → Py K) (cont : List Nat) (inst : Inst K)
    (rules : List (Rule String C K)) (c : C) (hnd : (Dict.keys inst).Nodup)
    (h : dCounterfactual parse dist cont inst rules c = .ok none) :
    ∀ r ∈ rules, r.consequent ≠ c → ¬ RuleFlips rules inst c r := by
  intro r hr hc
  obtain ⟨cfs, h1, h2⟩ := dCandidates_some h
  have hmem : r ∈ otherClass rules c := List.mem_filter.2 ⟨hr, by simpa using hc⟩
  obtain ⟨i, hi⟩ := List.mem_iff_getElem?.1 hmem
  obtain ⟨d, -, h3⟩ := search_none (D := fun _ r => dDist parse dist cont inst r) (fun _ => true) hnd h1 h2 i r hi
  exact h3 rfl

/-- C57: what the distance of a candidate is: the rule is applied, the strongest set of every feature is taken, names of
continuous columns are converted to numbers, and the distance is asked for that row. -/
theorem C57_distance (parse : String → Py K) (dist : List (Cell K) → Py K) (cont : List Nat) (inst : Inst K)
    (r : Rule String C K) (hnd : (Dict.keys inst).Nodup) (d : K) (h : dDist parse dist cont inst r = .ok d) :
    ∃ ch inst' cells, IsChanges r inst ch ∧ Moved inst ch inst' ∧ dist cells = .ok d ∧ cells.length = inst'.length ∧
      ∀ i cell, cells[i]? = some cell → ∃ f sets s, inst'[i]? = some (f, sets) ∧ IsStrongest sets s ∧
        ((i ∈ cont ∧ ∃ x, parse s = .ok x ∧ cell = .num x) ∨ (i ∉ cont ∧ cell = .str s)) := by
  unfold dDist at h
  rw [py_bind_eq_ok] at h
  obtain ⟨⟨inst', ch⟩, ho, h⟩ := h
  simp only at h
  rw [py_bind_eq_ok] at h
  obtain ⟨cells, hcells, hd⟩ := h
  obtain ⟨hch, hm⟩ := applyChanges_spec hnd ho
  unfold decodeInst at hcells
  rw [py_bind_eq_ok] at hcells
  obtain ⟨names, hn, hcells⟩ := hcells
  rw [mapM_ok_iff] at hn hcells
  have hl1 := hn.length_eq
  have hl2 := hcells.length_eq
  rw [List.length_zipIdx] at hl2
  refine ⟨ch, inst', cells, hch, hm, hd, by omega, ?_⟩
  intro i cell hi
  have hlt : i < cells.length := by
    by_contra hc
    rw [List.getElem?_eq_none (by omega)] at hi; cases hi
  rw [List.getElem?_eq_getElem hlt, Option.some.injEq] at hi
  have h1 := (List.forall₂_iff_get.1 hn).2 i (by omega) (by omega)
  have h2 := (List.forall₂_iff_get.1 hcells).2 i (by simpa using by omega) hlt
  simp only [List.get_eq_getElem, List.getElem_zipIdx, zero_add] at h1 h2
  rw [hi] at h2
  refine ⟨inst'[i].1, inst'[i].2, names[i], by rw [List.getElem?_eq_getElem (by omega)], (strongest_ok_iff _ _).1 h1, ?_⟩
  unfold decodeCell at h2
  simp only at h2
  split at h2
  · rename_i hin
    rw [py_bind_eq_ok] at h2
    obtain ⟨x, hx, he⟩ := h2
    simp only [py_pure, Except.ok.injEq] at he
    exact .inl ⟨hin, x, hx, he.symm⟩
  · rename_i hin
    simp only [Except.ok.injEq] at h2
    exact .inr ⟨hin, h2.symm⟩

/-! ### C61 -/

theorem mem_rules_of_vote {rules : List (Rule String C K)} {inst : Inst K} {c : C} (h : weightedVote rules inst = .ok c) :
    ∃ r ∈ rules, r.consequent = c := by
  have hne : rules ≠ [] := by
    rintro rfl
    rw [(C20_errors [] inst).1 rfl] at h; cases h
  have hant : ∀ r ∈ rules, r.antecedent ≠ [] := by
    intro r hr he
    rw [(C20_errors rules inst).2 ⟨r, hr, he⟩] at h; cases h
  obtain ⟨_, _, c', hc', hm, -⟩ := C20_weighted_vote rules inst hne hant
  rw [h] at hc'
  obtain rfl := Except.ok.inj hc'
  obtain ⟨r, hr, he⟩ := List.mem_map.1 hm
  exact ⟨r, hr, he⟩

/-- C61: with `multiclass=True` the keys are distinct and different from the class; every entry is sound, and comes from a rule
at a distance that is minimal among the rules of another class that lead to that class; and every class reached by some rule
of another class is a key. -/
theorem C61_multiclass (ident : Nat → String → Bool) (inst : Inst K) (rules : List (Rule String C K)) (c : C)
    (num : List String) (hnd : (Dict.keys inst).Nodup) (d : Dict C (List (String × String)))
    (h : iCounterfactualMulti ident inst rules c num = .ok d) :
    (d.map Prod.fst).Nodup ∧
    (∀ c' ch, (c', ch) ∈ d → c' ≠ c ∧
      ∃ i r x, (rules.filter (fun r => r.consequent ≠ c))[i]? = some r ∧ cfDistInstance (ident i) r inst num = .ok x ∧
        LeadsTo (weightedVote rules) inst r ch c' ∧
        ∀ j r' ch', (rules.filter (fun r => r.consequent ≠ c))[j]? = some r' → LeadsTo (weightedVote rules) inst r' ch' c' →
          ∃ x', cfDistInstance (ident j) r' inst num = .ok x' ∧ x ≤ x' ∧ (j < i → x < x')) ∧
    ∀ r ∈ rules, r.consequent ≠ c → ∀ ch c', LeadsTo (weightedVote rules) inst r ch c' → c' ≠ c → c' ∈ d.map Prod.fst := by
  unfold iCounterfactualMulti iCandidates at h
  rw [py_bind_eq_ok] at h
  obtain ⟨cfs, h1, h2⟩ := h
  obtain ⟨hlen, hget⟩ := candidates_forall₂ (D := fun i r => cfDistInstance (ident i) r inst num) h1
  unfold searchCfMulti at h2
  rw [sortCf_eq] at h2
  obtain ⟨i1, i2, -, i4, i5⟩ := searchLoopMulti_spec _ _ _ h2 (by simp [Dict.keys]) (by simp [Dict.keys])
  refine ⟨i1, ?_, ?_⟩
  · intro c' ch hmem
    have hg := Dict.get?_of_mem_nodup i1 hmem
    refine ⟨?_, ?_⟩
    · rintro rfl
      exact i2 (List.mem_map_of_mem (f := Prod.fst) hmem)
    obtain ⟨pre, x, post, e1, ⟨inst', e2, e3⟩, e4⟩ := i4 c' ch hg (by simp [Dict.keys])
    have hne := nonempty_of_apply e2
    obtain ⟨hch, hm⟩ := applyChanges_spec hnd e2
    obtain ⟨pre', post', f1, f2, f3⟩ := first_in_sorted Prod.snd
      (fun y : Rule String C K × K => ∃ inst' ch', applyChanges y.1 inst = .ok (inst', ch') ∧ weightedVote rules inst' = .ok c')
      cfs pre post x e1 e4 ⟨inst', ch, e2, e3⟩
    obtain ⟨r, dx⟩ := x
    have hi : cfs[pre'.length]? = some (r, dx) := by
      rw [f1, List.getElem?_append_right (le_refl _), Nat.sub_self]; rfl
    obtain ⟨g1, g2⟩ := (hget _ _ _).1 hi
    refine ⟨pre'.length, r, dx, g1, g2, ⟨inst', hch, hm, e3⟩, ?_⟩
    intro j r' ch' hj hlead
    have hP := (leadsTo_iff (vote := weightedVote rules) hnd hne).1 ⟨ch', hlead⟩
    have hjlt : j < cfs.length := by
      rw [hlen]
      by_contra hc
      rw [List.getElem?_eq_none (by unfold otherClass at hc; omega)] at hj; cases hj
    obtain ⟨y, hy⟩ : ∃ y, cfs[j]? = some y := ⟨_, List.getElem?_eq_getElem hjlt⟩
    obtain ⟨r₂, d'⟩ := y
    obtain ⟨k1, k2⟩ := (hget _ _ _).1 hy
    rw [show (otherClass rules c)[j]? = some r' from hj] at k1
    obtain rfl := Option.some.inj k1
    refine ⟨d', k2, ?_⟩
    rcases Nat.lt_trichotomy j pre'.length with hlt | heq | hgt
    · rw [f1, List.getElem?_append_left hlt] at hy
      have := f2 _ (List.mem_of_getElem? hy) hP
      exact ⟨le_of_lt this, fun _ => this⟩
    · rw [heq, hi] at hy
      have := Option.some.inj hy
      simp only [Prod.mk.injEq] at this
      exact ⟨le_of_eq this.2, fun hlt => absurd hlt (by omega)⟩
    · rw [f1, List.getElem?_append_right (le_of_lt hgt)] at hy
      obtain ⟨m, hm⟩ : ∃ m, j - pre'.length = m + 1 := ⟨j - pre'.length - 1, by omega⟩
      rw [hm, List.getElem?_cons_succ] at hy
      exact ⟨f3 _ (List.mem_of_getElem? hy) hP, fun hlt => absurd hlt (by omega)⟩
  · intro r hr hc ch c' hlead hcc
    have hmem : r ∈ otherClass rules c := List.mem_filter.2 ⟨hr, by simpa using hc⟩
    obtain ⟨i, hi⟩ := List.mem_iff_getElem?.1 hmem
    have hlt : i < cfs.length := by
      rw [hlen]
      by_contra hc
      rw [List.getElem?_eq_none (by omega)] at hi; cases hi
    obtain ⟨y, hy⟩ : ∃ y, cfs[i]? = some y := ⟨_, List.getElem?_eq_getElem hlt⟩
    obtain ⟨r₂, dr⟩ := y
    obtain ⟨k1, k2⟩ := (hget _ _ _).1 hy
    rw [hi] at k1
    obtain rfl := Option.some.inj k1
    have hymem : (r, dr) ∈ cfs := List.mem_of_getElem? hy
    have hysort : (r, dr) ∈ sortAsc Prod.snd cfs := (sortAsc_perm _ _).mem_iff.2 hymem
    rcases i5 with i5 | i5
    · -- as many keys as classes of the candidates: all of them
      have hvoted : ∀ x ∈ Dict.keys d, x ∈ (cfs.map (fun cf => cf.1.consequent)).dedup := by
        intro x hx
        obtain ⟨chx, hgx⟩ := (Dict.get?_isSome_iff _ _).2 hx
        obtain ⟨_, _, _, -, ⟨inst', -, hv⟩, -⟩ := i4 x chx hgx (by simp [Dict.keys])
        obtain ⟨r₀, hr₀, hx₀⟩ := mem_rules_of_vote hv
        have hxc : x ≠ c := by rintro rfl; exact i2 hx
        have hm₀ : r₀ ∈ otherClass rules c := List.mem_filter.2 ⟨hr₀, by simpa [hx₀] using hxc⟩
        obtain ⟨j, hj⟩ := List.mem_iff_getElem?.1 hm₀
        have hjlt : j < cfs.length := by
          rw [hlen]
          by_contra hc
          rw [List.getElem?_eq_none (by omega)] at hj; cases hj
        obtain ⟨⟨r₃, d₃⟩, hy₃⟩ : ∃ y, cfs[j]? = some y := ⟨_, List.getElem?_eq_getElem hjlt⟩
        obtain ⟨m1, -⟩ := (hget _ _ _).1 hy₃
        rw [hj] at m1
        obtain rfl := Option.some.inj m1
        rw [List.mem_dedup]
        exact List.mem_map.2 ⟨_, List.mem_of_getElem? hy₃, hx₀⟩
      have hperm : (Dict.keys d).Perm (cfs.map (fun cf => cf.1.consequent)).dedup := by
        apply List.Subperm.perm_of_length_le
        · exact List.subperm_of_subset i1 hvoted
        · rw [← i5]; simp [Dict.keys]
      obtain ⟨inst', hch', hm', hv'⟩ := hlead
      obtain ⟨r₀, hr₀, hx₀⟩ := mem_rules_of_vote hv'
      have hm₀ : r₀ ∈ otherClass rules c := List.mem_filter.2 ⟨hr₀, by simpa [hx₀] using hcc⟩
      obtain ⟨j, hj⟩ := List.mem_iff_getElem?.1 hm₀
      have hjlt : j < cfs.length := by
        rw [hlen]
        by_contra hc
        rw [List.getElem?_eq_none (by omega)] at hj; cases hj
      obtain ⟨⟨r₃, d₃⟩, hy₃⟩ : ∃ y, cfs[j]? = some y := ⟨_, List.getElem?_eq_getElem hjlt⟩
      obtain ⟨m1, -⟩ := (hget _ _ _).1 hy₃
      rw [hj] at m1
      obtain rfl := Option.some.inj m1
      have : c' ∈ (cfs.map (fun cf => cf.1.consequent)).dedup := by
        rw [List.mem_dedup]
        exact List.mem_map.2 ⟨_, List.mem_of_getElem? hy₃, hx₀⟩
      exact hperm.mem_iff.2 this
    · have hne : ∀ p ∈ inst, p.2 ≠ [] := by
        cases hsort : sortAsc Prod.snd cfs with
        | nil => rw [hsort] at hysort; simp at hysort
        | cons z L =>
          rw [hsort] at h2
          unfold searchLoopMulti at h2
          rw [py_bind_eq_ok] at h2
          obtain ⟨o, ho, -⟩ := h2
          exact nonempty_of_apply ho
      obtain ⟨inst', ch', a1, a2⟩ := (leadsTo_iff (vote := weightedVote rules) hnd hne).1 ⟨ch, hlead⟩
      exact i5 _ hysort inst' ch' c' a1 a2 hcc

end

end Teacher
