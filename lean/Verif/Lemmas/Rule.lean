import Verif.Spec.Rules
import Verif.Lemmas.Basic
import Mathlib.Algebra.BigOperators.Group.List.Basic
import Mathlib.Algebra.Order.BigOperators.Group.List
import Mathlib.Tactic.Ring

set_option linter.unusedSectionVars false

namespace Teacher
open Spec

/-! ## keys in order of first occurrence -/

section
variable {C : Type} [DecidableEq C]

/-- insertion of a key at the end, if new -/
def insKey (ks : List C) (c : C) : List C := if c ∈ ks then ks else ks ++ [c]

theorem insKey_prefix (ks : List C) (c : C) : ks <+: insKey ks c := by
  unfold insKey; split
  · exact List.prefix_refl _
  · exact List.prefix_append _ _

theorem foldl_insKey_prefix (l : List C) (ks : List C) : ks <+: l.foldl insKey ks := by
  induction l generalizing ks with
  | nil => exact List.prefix_refl _
  | cons c l ih => exact (insKey_prefix ks c).trans (ih _)

theorem mem_insKey (ks : List C) (c x : C) : x ∈ insKey ks c ↔ x ∈ ks ∨ x = c := by
  unfold insKey; split
  · constructor
    · exact .inl
    · rintro (h | rfl) <;> assumption
  · simp

theorem mem_foldl_insKey (l : List C) (ks : List C) (x : C) : x ∈ l.foldl insKey ks ↔ x ∈ ks ∨ x ∈ l := by
  induction l generalizing ks with
  | nil => simp
  | cons c l ih => simp only [List.foldl_cons, ih, mem_insKey, List.mem_cons]; tauto

theorem nodup_insKey (ks : List C) (c : C) (h : ks.Nodup) : (insKey ks c).Nodup := by
  unfold insKey; split
  · exact h
  · rename_i hc
    rw [List.nodup_append]
    exact ⟨h, by simp, fun a ha b hb => by simp only [List.mem_singleton] at hb; subst hb; rintro rfl; exact hc ha⟩

theorem nodup_foldl_insKey (l : List C) (ks : List C) (h : ks.Nodup) : (l.foldl insKey ks).Nodup := by
  induction l generalizing ks with
  | nil => exact h
  | cons c l ih => exact ih _ (nodup_insKey ks c h)

/-- a split of the keys at `c` comes from a split of the list at the first occurrence of `c`. -/
theorem foldl_insKey_split (l : List C) (ks pre post : List C) (c : C) (hc : c ∉ ks)
    (h : l.foldl insKey ks = pre ++ c :: post) :
    ∃ pre' post', l = pre' ++ c :: post' ∧ ∀ x ∈ pre', x ∈ pre := by
  induction l generalizing ks with
  | nil => simp only [List.foldl_nil] at h; exact absurd (by rw [h]; simp) hc
  | cons a l ih =>
    by_cases hac : a = c
    · subst hac; exact ⟨[], l, rfl, by simp⟩
    · have hc' : c ∉ insKey ks a := by rw [mem_insKey]; rintro (h | h); exacts [hc h, hac h.symm]
      obtain ⟨pre', post', hl, hp⟩ := ih _ hc' h
      refine ⟨a :: pre', post', by rw [hl]; rfl, ?_⟩
      intro x hx
      rcases List.mem_cons.1 hx with rfl | hx
      · have hpref := foldl_insKey_prefix l (insKey ks x)
        simp only [List.foldl_cons] at h
        rw [h] at hpref
        obtain ⟨t, ht⟩ := hpref
        have hxm : x ∈ insKey ks x := by rw [mem_insKey]; right; rfl
        -- insKey ks x ++ t = pre ++ c :: post and c ∉ insKey ks x
        rw [List.append_eq_append_iff] at ht
        rcases ht with ⟨as, h1, h2⟩ | ⟨bs, h1, h2⟩
        · rw [h1]; exact List.mem_append_left _ hxm
        · cases bs with
          | nil => simp at h1; rwa [h1] at hxm
          | cons b bs =>
            simp only [List.cons_append, List.cons.injEq] at h2
            exfalso; apply hc'; rw [h1, h2.1]; simp
      · exact hp x hx

end

/-! ## vote accumulation -/

section
variable {V C K : Type} [Field K] [LinearOrder K] [IsStrictOrderedRing K] [DecidableEq C]

theorem keys_set_insKey {ν : Type} (d : Dict C ν) (c : C) (v : ν) :
    Dict.keys (Dict.set d c v) = insKey (Dict.keys d) c := by
  rw [Dict.keys_set]; rfl

theorem activation_cons (deg : Rule V C K → K) (r : Rule V C K) (rs : List (Rule V C K)) (c : C) :
    activation deg (r :: rs) c = (if r.consequent = c then deg r * r.weight else 0) + activation deg rs c := by
  unfold activation
  by_cases h : r.consequent = c <;> simp [h]

@[simp] theorem activation_nil (deg : Rule V C K → K) (c : C) : activation deg ([] : List (Rule V C K)) c = 0 := rfl

theorem activation_append (deg : Rule V C K → K) (rs rs' : List (Rule V C K)) (c : C) :
    activation deg (rs ++ rs') c = activation deg rs c + activation deg rs' c := by
  unfold activation; simp

theorem activation_perm (deg : Rule V C K → K) {rs rs' : List (Rule V C K)} (h : rs.Perm rs') (c : C) :
    activation deg rs c = activation deg rs' c := by
  unfold activation
  exact ((h.filter _).map _).sum_eq

theorem activation_congr (deg deg' : Rule V C K → K) (rs : List (Rule V C K)) (c : C)
    (h : ∀ r ∈ rs, deg r = deg' r) : activation deg rs c = activation deg' rs c := by
  unfold activation
  congr 1
  apply List.map_congr_left
  intro r hr
  rw [h r (List.mem_filter.1 hr).1]

theorem activation_eq_zero_of_not_mem (deg : Rule V C K → K) (rs : List (Rule V C K)) (c : C)
    (h : c ∉ rs.map Rule.consequent) : activation deg rs c = 0 := by
  unfold activation
  have : rs.filter (fun r => r.consequent = c) = [] := by
    rw [List.filter_eq_nil_iff]
    intro r hr hc
    simp only [decide_eq_true_eq] at hc
    exact h (List.mem_map.2 ⟨r, hr, hc⟩)
  rw [this]; rfl

theorem votes_ok (matching : Rule V C K → Py K) (deg : Rule V C K → K) (rs : List (Rule V C K)) (d : Dict C K)
    (h : ∀ r ∈ rs, matching r = .ok (deg r)) :
    ∃ d', rs.foldlM (voteStep matching) d = .ok d' ∧
      Dict.keys d' = (rs.map Rule.consequent).foldl insKey (Dict.keys d) ∧
      ∀ c, (Dict.get? d' c).getD 0 = (Dict.get? d c).getD 0 + activation deg rs c := by
  induction rs generalizing d with
  | nil => exact ⟨d, rfl, rfl, by simp⟩
  | cons r rs ih =>
    have hstep : voteStep matching d r =
        .ok (Dict.set d r.consequent ((Dict.get? d r.consequent).getD 0 + deg r * r.weight)) := by
      unfold voteStep
      rw [h r (by simp)]
      rfl
    obtain ⟨d', h1, h2, h3⟩ := ih (Dict.set d r.consequent ((Dict.get? d r.consequent).getD 0 + deg r * r.weight))
      (fun r hr => h r (by simp [hr]))
    refine ⟨d', ?_, ?_, ?_⟩
    · rw [List.foldlM_cons, hstep]; exact h1
    · rw [h2, keys_set_insKey]; rfl
    · intro c
      rw [h3 c, Dict.get?_set, activation_cons]
      by_cases hc : r.consequent = c
      · subst hc; simp only [if_true, Option.getD_some]; ring
      · simp [hc]

theorem votes_error (matching : Rule V C K → Py K) (rs : List (Rule V C K)) (d : Dict C K) (e : PyErr)
    (hall : ∀ r ∈ rs, ∀ e', matching r = .error e' → e' = e) (hex : ∃ r ∈ rs, matching r = .error e) :
    rs.foldlM (voteStep matching) d = .error e := by
  induction rs generalizing d with
  | nil => simp at hex
  | cons r rs ih =>
    rw [List.foldlM_cons]
    cases hm : matching r with
    | error e' =>
      have := hall r (by simp) e' hm
      subst this
      unfold voteStep; rw [hm]; rfl
    | ok x =>
      have : voteStep matching d r = .ok (Dict.set d r.consequent ((Dict.get? d r.consequent).getD 0 + x * r.weight)) := by
        unfold voteStep; rw [hm]; rfl
      rw [this]
      apply ih
      · exact fun r hr => hall r (by simp [hr])
      · obtain ⟨r', hr', he⟩ := hex
        rcases List.mem_cons.1 hr' with rfl | hr'
        · rw [hm] at he; cases he
        · exact ⟨r', hr', he⟩

/-- full description of the weighted vote when every rule has a degree -/
theorem weightedVoteWith_spec (matching : Rule V C K → Py K) (deg : Rule V C K → K) (rs : List (Rule V C K))
    (h : ∀ r ∈ rs, matching r = .ok (deg r)) (hne : rs ≠ []) :
    ∃ c, weightedVoteWith matching rs = .ok c ∧ c ∈ rs.map Rule.consequent ∧
      (∀ c' ∈ rs.map Rule.consequent, activation deg rs c' ≤ activation deg rs c) ∧
      ∃ pre r post, rs = pre ++ r :: post ∧ r.consequent = c ∧
        ∀ r' ∈ pre, activation deg rs r'.consequent < activation deg rs c := by
  obtain ⟨d, h1, h2, h3⟩ := votes_ok matching deg rs [] h
  have hval : ∀ c, (Dict.get? d c).getD 0 = activation deg rs c := by
    intro c; rw [h3 c]; simp
  have hkeys : ∀ c, c ∈ Dict.keys d ↔ c ∈ rs.map Rule.consequent := by
    intro c; rw [h2, mem_foldl_insKey]; simp [Dict.keys]
  have hnek : Dict.keys d ≠ [] := by
    intro he
    obtain ⟨r, hr⟩ := List.exists_mem_of_ne_nil rs hne
    have := (hkeys r.consequent).2 (List.mem_map_of_mem hr)
    rw [he] at this; simp at this
  obtain ⟨c, hc⟩ := pyMax_ok_of_ne_nil (fun c => (Dict.get? d c).getD 0) _ hnek
  obtain ⟨m1, m2, pre, post, m3, m4⟩ := pyMax_eq_ok _ _ _ hc
  refine ⟨c, ?_, (hkeys c).1 m1, ?_, ?_⟩
  · unfold weightedVoteWith
    rw [h1]; exact hc
  · intro c' hc'
    have := m2 c' ((hkeys c').2 hc')
    simpa [hval] using this
  · rw [h2] at m3
    obtain ⟨pre', post', hl, hp⟩ := foldl_insKey_split _ _ pre post c (by simp [Dict.keys]) m3
    obtain ⟨l₁, l₂, e0, e1, e2⟩ := List.map_eq_append_iff.1 hl
    obtain ⟨r, l₃, e3, e4, e5⟩ := List.map_eq_cons_iff.1 e2
    refine ⟨l₁, r, l₃, by rw [e0, e3], e4, ?_⟩
    intro r' hr'
    have := m4 r'.consequent (hp _ (by rw [← e1]; exact List.mem_map_of_mem hr'))
    simpa [hval] using this

/-- a class that strictly beats all the others is the result -/
theorem weightedVoteWith_eq_of_strict (matching : Rule V C K → Py K) (deg : Rule V C K → K) (rs : List (Rule V C K))
    (h : ∀ r ∈ rs, matching r = .ok (deg r)) (c : C) (hc : c ∈ rs.map Rule.consequent)
    (hbest : ∀ c' ∈ rs.map Rule.consequent, c' ≠ c → activation deg rs c' < activation deg rs c) :
    weightedVoteWith matching rs = .ok c := by
  have hne : rs ≠ [] := by rintro rfl; simp at hc
  obtain ⟨c₀, h1, h2, h3, -⟩ := weightedVoteWith_spec matching deg rs h hne
  rw [h1]
  by_contra hcc
  have : c₀ ≠ c := fun e => hcc (by rw [e])
  exact absurd (h3 c hc) (not_le.2 (hbest c₀ h2 this))

end

/-! ## matching -/

section
variable {C K : Type} [Field K] [LinearOrder K] [IsStrictOrderedRing K]

theorem lookup2_ok_iff (inst : Inst K) (f s : String) (x : K) : lookup2 inst f s = .ok x ↔ HasDegree inst f s x := by
  unfold lookup2 HasDegree
  rw [py_bind_eq_ok]
  simp only [Dict.get_eq_ok_iff]

theorem lookup2_error (inst : Inst K) (f s : String) (e : PyErr) (h : lookup2 inst f s = .error e) :
    e = .keyError ∧ ¬ Known inst f s := by
  constructor
  · unfold lookup2 at h
    rw [py_bind_eq_error] at h
    rcases h with h | ⟨d, -, h⟩
    · exact (Dict.get_eq_error_iff.1 h).2
    · exact (Dict.get_eq_error_iff.1 h).2
  · rintro ⟨x, hx⟩
    rw [← lookup2_ok_iff, h] at hx
    cases hx

theorem lookup2_of_not_known (inst : Inst K) (f s : String) (h : ¬ Known inst f s) :
    lookup2 inst f s = .error .keyError := by
  cases hl : lookup2 inst f s with
  | ok x => exact absurd ⟨x, (lookup2_ok_iff _ _ _ _).1 hl⟩ h
  | error e => rw [(lookup2_error _ _ _ _ hl).1]

theorem HasDegree.unique {inst : Inst K} {f s : String} {x y : K} (h : HasDegree inst f s x) (h' : HasDegree inst f s y) :
    x = y := by
  rw [← lookup2_ok_iff] at h h'
  rw [h] at h'
  cases h'; rfl

theorem matching_of_unknown (r : Rule String C K) (inst : Inst K)
    (h : ∃ p ∈ r.antecedent, ¬ Known inst p.1 p.2) : r.matching inst = .ok 0 := by
  unfold Rule.matching
  rw [mapM_error_eq _ _ .keyError]
  · rfl
  · intro p _ e' he
    exact (lookup2_error _ _ _ _ he).1
  · obtain ⟨p, hp, hk⟩ := h
    exact ⟨p, hp, lookup2_of_not_known _ _ _ hk⟩

theorem matching_of_known (r : Rule String C K) (inst : Inst K) (ms : List K)
    (h : List.Forall₂ (fun p x => HasDegree inst p.1 p.2 x) r.antecedent ms) : r.matching inst = pyMin ms := by
  unfold Rule.matching
  rw [(mapM_ok_iff _ _ ms).2]
  · rfl
  · exact h.imp (fun _ _ hx => (lookup2_ok_iff _ _ _ _).2 hx)

theorem degrees_exist (l : List (String × String)) (inst : Inst K) (h : ∀ p ∈ l, Known inst p.1 p.2) :
    ∃ ms, List.Forall₂ (fun p x => HasDegree inst p.1 p.2 x) l ms := by
  induction l with
  | nil => exact ⟨[], .nil⟩
  | cons p l ih =>
    obtain ⟨ms, hms⟩ := ih (fun q hq => h q (by simp [hq]))
    obtain ⟨x, hx⟩ := h p (by simp)
    exact ⟨x :: ms, .cons hx hms⟩

theorem degrees_mem {l : List (String × String)} {inst : Inst K} {ms : List K}
    (h : List.Forall₂ (fun p x => HasDegree inst p.1 p.2 x) l ms) (x : K) :
    x ∈ ms ↔ ∃ p ∈ l, HasDegree inst p.1 p.2 x := by
  induction h with
  | nil => simp
  | cons hx _ ih =>
    simp only [List.mem_cons, ih, exists_eq_or_imp]
    constructor
    · rintro (rfl | h)
      · exact .inl hx
      · exact .inr h
    · rintro (h | h)
      · exact .inl (HasDegree.unique h hx)
      · exact .inr h

/-- complete specification of `matching` for a non-empty antecedent -/
theorem matching_spec (r : Rule String C K) (inst : Inst K) (hne : r.antecedent ≠ []) :
    ∃ m, r.matching inst = .ok m ∧
      ((∀ p ∈ r.antecedent, Known inst p.1 p.2) →
        (∃ p ∈ r.antecedent, HasDegree inst p.1 p.2 m) ∧ ∀ p ∈ r.antecedent, ∀ x, HasDegree inst p.1 p.2 x → m ≤ x) ∧
      ((∃ p ∈ r.antecedent, ¬ Known inst p.1 p.2) → m = 0) := by
  by_cases hk : ∀ p ∈ r.antecedent, Known inst p.1 p.2
  · obtain ⟨ms, hms⟩ := degrees_exist _ _ hk
    have hne' : ms ≠ [] := by
      rintro rfl
      exact hne (List.length_eq_zero_iff.1 (by rw [hms.length_eq]; rfl))
    rw [matching_of_known r inst ms hms]
    cases hm : pyMin ms with
    | error e => exact absurd ((pyMin_eq_error_iff _ _).1 hm).1 hne'
    | ok m =>
      obtain ⟨h1, h2⟩ := (pyMin_eq_ok_iff _ _).1 hm
      refine ⟨m, rfl, fun _ => ⟨(degrees_mem hms m).1 h1, ?_⟩, ?_⟩
      · intro p hp x hx
        exact h2 x ((degrees_mem hms x).2 ⟨p, hp, hx⟩)
      · rintro ⟨p, hp, hn⟩; exact absurd (hk p hp) hn
  · push Not at hk
    exact ⟨0, matching_of_unknown r inst hk, fun h => by obtain ⟨p, hp, hn⟩ := hk; exact absurd (h p hp) hn, fun _ => rfl⟩

end

end Teacher
