import Verif.Model.Counterfactual
import Verif.Spec.Counterfactual
import Verif.Lemmas.Factual

/-! Lemmas about `explanation/_counterfactual.py`. -/

set_option linter.unusedSectionVars false

namespace Teacher
open Spec

/-! ## searching in a sorted list -/

section
variable {α K : Type} [LinearOrder K] (key : α → K)

/-- Python's `sorted(l, key=key)`. -/
def sortAsc (l : List α) : List α := l.insertionSort (fun a b => key a ≤ key b)

theorem filter_orderedInsert_asc (a : α) (l : List α) (k : K) :
    (l.orderedInsert (fun a b => key a ≤ key b) a).filter (fun x => key x = k) = (a :: l).filter (fun x => key x = k) := by
  induction l with
  | nil => rfl
  | cons b l ih =>
    simp only [List.orderedInsert]
    split
    · rfl
    · rename_i h
      have hab : key b < key a := not_le.1 h
      rw [List.filter_cons, ih]
      by_cases ha : key a = k
      · have hb : key b ≠ k := fun e => by rw [ha, e] at hab; exact lt_irrefl _ hab
        simp [ha, hb]
      · by_cases hb : key b = k <;> simp [ha, hb]

theorem sortAsc_perm (l : List α) : (sortAsc key l).Perm l := List.perm_insertionSort _ _

theorem sortAsc_pairwise (l : List α) : (sortAsc key l).Pairwise (fun a b => key a ≤ key b) := by
  have : Std.Total (fun a b : α => key a ≤ key b) := ⟨fun a b => le_total _ _⟩
  have : IsTrans α (fun a b : α => key a ≤ key b) := ⟨fun a b c h1 h2 => le_trans h1 h2⟩
  exact List.pairwise_insertionSort _ _

theorem sortAsc_stable (l : List α) (k : K) :
    (sortAsc key l).filter (fun a => key a = k) = l.filter (fun a => key a = k) := by
  induction l with
  | nil => rfl
  | cons a l ih =>
    show ((sortAsc key l).orderedInsert _ a).filter _ = _
    rw [filter_orderedInsert_asc, List.filter_cons, List.filter_cons, ih]

/-- The first element of the sorted list that satisfies `P` is a first minimum among those that satisfy `P`. -/
theorem first_in_sorted (P : α → Prop) (l pre post : List α) (x : α) (hl : sortAsc key l = pre ++ x :: post)
    (hpre : ∀ y ∈ pre, ¬ P y) (hx : P x) :
    ∃ pre' post', l = pre' ++ x :: post' ∧ (∀ y ∈ pre', P y → key x < key y) ∧ ∀ y ∈ post', P y → key x ≤ key y := by
  classical
  have hmin : ∀ y ∈ l, P y → key x ≤ key y := by
    intro y hy hp
    have hmem : y ∈ pre ++ x :: post := by rw [← hl]; exact (sortAsc_perm key l).mem_iff.2 hy
    have hs := sortAsc_pairwise key l
    rw [hl, List.pairwise_append, List.pairwise_cons] at hs
    rcases List.mem_append.1 hmem with h | h
    · exact absurd hp (hpre y h)
    · rcases List.mem_cons.1 h with rfl | h
      · exact le_refl _
      · exact hs.2.1.1 y h
  have hfind : ((sortAsc key l).filter (fun a => key a = key x)).find? (fun a => P a) = some x := by
    rw [hl, List.filter_append, List.filter_cons_of_pos (by simp), List.find?_append]
    have : (pre.filter (fun a => key a = key x)).find? (fun a => P a) = none := by
      rw [List.find?_eq_none]
      intro y hy
      simpa using hpre y (List.mem_filter.1 hy).1
    rw [this]
    simp [hx]
  rw [sortAsc_stable, List.find?_filter] at hfind
  rw [List.find?_eq_some_iff_append] at hfind
  obtain ⟨-, as, bs, hab, hno⟩ := hfind
  refine ⟨as, bs, hab, ?_, fun y hy hp => hmin y (by rw [hab]; simp [hy]) hp⟩
  intro y hy hp
  refine lt_of_le_of_ne (hmin y (by rw [hab]; simp [hy]) hp) ?_
  intro he
  have := hno y hy
  simp [he, hp] at this

end

section
variable {C K : Type} [Field K] [LinearOrder K] [IsStrictOrderedRing K]

theorem sumLoop_ok {α : Type} (f : α → Py K) (g : α → K) (l : List α) (a : K) (h : ∀ x ∈ l, f x = .ok (g x)) :
    sumLoop f a l = .ok (a + (l.map g).sum) := foldlM_sum_ok f g l a h

theorem sumLoop_total {α : Type} (f : α → Py K) (l : List α) (a : K) (h : ∀ x ∈ l, ∃ d, f x = .ok d) :
    ∃ d, sumLoop f a l = .ok d := by
  classical
  refine ⟨_, sumLoop_ok f (fun x => if hx : x ∈ l then (h x hx).choose else 0) l a ?_⟩
  intro x hx
  simp only [hx, dif_pos]
  exact (h x hx).choose_spec

/-! ## strongest set, changes -/

theorem strongest_ok_iff (sets : Dict String K) (s : String) : strongest sets = .ok s ↔ IsStrongest sets s := by
  unfold strongest
  rw [py_bind_eq_ok]
  constructor
  · rintro ⟨q, hq, he⟩
    simp only [py_pure, Except.ok.injEq] at he
    obtain ⟨h1, h2, pre, post, h3, h4⟩ := pyMax_eq_ok _ _ _ hq
    exact ⟨q, ⟨pre, post, h3, h4, fun x hx => h2 x (by rw [h3]; simp [hx])⟩, he⟩
  · rintro ⟨q, ⟨pre, post, rfl, h4, h5⟩, rfl⟩
    exact ⟨q, pyMax_eq_of_split _ _ _ _ h4 h5, rfl⟩

theorem strongest_nil : strongest ([] : Dict String K) = .error .valueError := rfl

theorem strongest_ok_of_ne (sets : Dict String K) (h : sets ≠ []) : ∃ s, strongest sets = .ok s := by
  obtain ⟨m, hm⟩ := pyMax_ok_of_ne_nil (Prod.snd : String × K → K) sets h
  exact ⟨m.1, by unfold strongest; rw [hm]; rfl⟩

theorem strongest_mem {sets : Dict String K} {s : String} (h : strongest sets = .ok s) : s ∈ Dict.keys sets := by
  obtain ⟨q, ⟨pre, post, rfl, -, -⟩, rfl⟩ := (strongest_ok_iff _ _).1 h
  simp [Dict.keys]

theorem IsStrongest.unique {sets : Dict String K} {s s' : String} (h : IsStrongest sets s) (h' : IsStrongest sets s') :
    s = s' := by
  rw [← strongest_ok_iff] at h h'
  rw [h] at h'
  exact Except.ok.inj h'

theorem anteDict_get? (r : Rule String C K) (f : String) : Dict.get? r.anteDict f = ruleValue r f := by
  unfold Rule.anteDict Dict.ofPairs ruleValue
  rw [Dict.foldl_set_get?]
  cases r.antecedent.reverse.find? (fun p => p.1 = f) with
  | none => rfl
  | some p => rfl

theorem mem_keys_anteDict (r : Rule String C K) (f : String) : f ∈ Dict.keys r.anteDict ↔ f ∈ r.antecedent.map Prod.fst :=
  Dict.mem_keys_ofPairs _ _

theorem ruleValue_mem {r : Rule String C K} {f v : String} (h : ruleValue r f = some v) : (f, v) ∈ r.antecedent := by
  unfold ruleValue at h
  rw [Option.map_eq_some_iff] at h
  obtain ⟨p, hp, rfl⟩ := h
  have h1 := List.mem_of_find?_eq_some hp
  have h2 := List.find?_some hp
  simp only [decide_eq_true_eq] at h2
  rw [List.mem_reverse] at h1
  obtain ⟨a, b⟩ := p
  simp only at h2
  subst h2
  exact h1

/-- one variable of `_apply_changes`. -/
theorem applyOne_ok {changes : Dict String String} {p : String × Dict String K}
    {o : (String × Dict String K) × List (String × String)} (h : applyOne changes p = .ok o) :
    ∃ s, IsStrongest p.2 s ∧
      ((∃ v, Dict.get? changes p.1 = some v ∧ s ≠ v ∧
          o = ((p.1, p.2.map (fun q => (q.1, if q.1 = v then 1 else 0))), [(p.1, v)])) ∨
        ((∀ v, Dict.get? changes p.1 = some v → s = v) ∧ o = (p, []))) := by
  unfold applyOne at h
  rw [py_bind_eq_ok] at h
  obtain ⟨s, hs, h⟩ := h
  refine ⟨s, (strongest_ok_iff _ _).1 hs, ?_⟩
  cases hg : Dict.get? changes p.1 with
  | none =>
    rw [hg] at h
    simp only [py_pure, Except.ok.injEq] at h
    exact .inr ⟨by simp, h.symm⟩
  | some v =>
    rw [hg] at h
    simp only at h
    split at h
    · rename_i hne
      simp only [py_pure, Except.ok.injEq] at h
      exact .inl ⟨v, rfl, hne, h.symm⟩
    · rename_i hne
      simp only [py_pure, Except.ok.injEq] at h
      exact .inr ⟨by simpa using not_not.1 hne, h.symm⟩

theorem applyChanges_ok_iff (r : Rule String C K) (inst : Inst K) :
    (∃ o, applyChanges r inst = .ok o) ↔ ∀ p ∈ inst, p.2 ≠ [] := by
  unfold applyChanges
  constructor
  · rintro ⟨o, h⟩ p hp he
    rw [py_bind_eq_ok] at h
    obtain ⟨l, hl, -⟩ := h
    rw [mapM_ok_iff] at hl
    obtain ⟨b, -, hb⟩ := forall₂_mem_left hl p hp
    unfold applyOne at hb
    rw [he, strongest_nil] at hb
    cases hb
  · intro h
    have : ∃ l, inst.mapM (applyOne r.anteDict) = .ok l := by
      obtain ⟨bs, hbs⟩ := forall₂_of_forall_exists (fun a b => applyOne r.anteDict a = .ok b) inst (by
        intro p hp
        obtain ⟨s, hs⟩ := strongest_ok_of_ne p.2 (h p hp)
        unfold applyOne
        rw [hs]
        simp only [py_bind_ok]
        cases Dict.get? r.anteDict p.1 with
        | none => exact ⟨_, rfl⟩
        | some v => by_cases hsv : s ≠ v <;> simp [hsv])
      exact ⟨bs, (mapM_ok_iff _ _ _).2 hbs⟩
    obtain ⟨l, hl⟩ := this
    rw [hl]
    exact ⟨_, rfl⟩

/-- `_apply_changes` returns the changes of the rule and the instance moved by them. -/
theorem applyChanges_spec {r : Rule String C K} {inst inst' : Inst K} {changes : List (String × String)}
    (hnd : (Dict.keys inst).Nodup) (h : applyChanges r inst = .ok (inst', changes)) :
    IsChanges r inst changes ∧ Moved inst changes inst' := by
  unfold applyChanges at h
  rw [py_bind_eq_ok] at h
  obtain ⟨l, hl, he⟩ := h
  simp only [py_pure, Except.ok.injEq, Prod.mk.injEq] at he
  obtain ⟨rfl, rfl⟩ := he
  rw [mapM_ok_iff] at hl
  -- facts for each variable
  have hmem : ∀ f v, (f, v) ∈ (l.map Prod.snd).flatten ↔ Asks r inst f v := by
    intro f v
    constructor
    · intro h
      rw [List.mem_flatten] at h
      obtain ⟨cs, hcs, hfv⟩ := h
      obtain ⟨o, ho, rfl⟩ := List.mem_map.1 hcs
      obtain ⟨p, hp, hpo⟩ := forall₂_mem_right hl o ho
      obtain ⟨s, hs, ⟨w, hw, hne, rfl⟩ | ⟨-, rfl⟩⟩ := applyOne_ok hpo
      · simp only [List.mem_singleton, Prod.mk.injEq] at hfv
        obtain ⟨rfl, rfl⟩ := hfv
        exact ⟨p.2, s, hp, by rw [← anteDict_get?]; exact hw, hs, hne⟩
      · simp at hfv
    · rintro ⟨sets, s, hp, hv, hs, hne⟩
      obtain ⟨o, ho, hpo⟩ := forall₂_mem_left hl _ hp
      obtain ⟨s', hs', ⟨w, hw, hne', rfl⟩ | ⟨hall, rfl⟩⟩ := applyOne_ok hpo
      · rw [anteDict_get?] at hw
        simp only at hw
        rw [hv] at hw
        obtain rfl := Option.some.inj hw
        rw [List.mem_flatten]
        exact ⟨_, List.mem_map_of_mem ho, by simp⟩
      · exfalso
        have := hall v (by rw [anteDict_get?]; exact hv)
        exact hne ((IsStrongest.unique hs hs').trans this)
  refine ⟨⟨?_, hmem⟩, ?_⟩
  · -- features at most once
    clear hmem
    have : ((l.map Prod.snd).flatten.map Prod.fst).Sublist (Dict.keys inst) := by
      clear hnd
      induction hl with
      | nil => simp [Dict.keys]
      | @cons p o inst l hpo _ ih =>
        obtain ⟨s, hs, ⟨w, hw, hne', rfl⟩ | ⟨hall, rfl⟩⟩ := applyOne_ok hpo
        · simpa [Dict.keys] using ih
        · simp only [List.map_cons, List.flatten_cons, List.nil_append]
          exact ih.trans (by simp [Dict.keys])
    exact this.nodup hnd
  · -- the new instance
    unfold Moved
    have huniq : ∀ p ∈ inst, ∀ q ∈ inst, p.1 = q.1 → p = q := by
      intro p hp q hq he
      exact List.inj_on_of_nodup_map hnd hp hq he
    have aux : ∀ (i : Inst K) (l' : List ((String × Dict String K) × List (String × String))), (∀ p ∈ i, p ∈ inst) →
        List.Forall₂ (fun a b => applyOne r.anteDict a = .ok b) i l' →
        List.Forall₂ (fun p p' => p'.1 = p.1 ∧
          (∀ v, (p.1, v) ∈ (l.map Prod.snd).flatten → p'.2 = p.2.map (fun q => (q.1, if q.1 = v then 1 else 0))) ∧
          ((∀ v, (p.1, v) ∉ (l.map Prod.snd).flatten) → p'.2 = p.2)) i (l'.map Prod.fst) := by
      intro i l' hsub hi
      induction hi with
      | nil => exact .nil
      | @cons p o i l' hpo _ ih =>
        refine .cons ?_ (ih (fun p hp => hsub p (by simp [hp])))
        have hpin := hsub p (by simp)
        obtain ⟨s, hs, ⟨w, hw, hne', rfl⟩ | ⟨hall, rfl⟩⟩ := applyOne_ok hpo
        · refine ⟨rfl, ?_, ?_⟩
          · intro v hv
            obtain ⟨sets, s', hp', hv', -, -⟩ := (hmem _ _).1 hv
            rw [← anteDict_get?, hw] at hv'
            obtain rfl := Option.some.inj hv'
            rfl
          · intro hno
            exact absurd ((hmem p.1 w).2 ⟨p.2, s, hpin, by rw [← anteDict_get?]; exact hw, hs, hne'⟩) (hno w)
        · refine ⟨rfl, ?_, fun _ => rfl⟩
          intro v hv
          exfalso
          obtain ⟨sets, s', hp', hv', hs', hne'⟩ := (hmem _ _).1 hv
          have he := huniq _ hpin _ hp' rfl
          have hsets : p.2 = sets := by rw [he]
          rw [hsets] at hs
          exact hne' ((IsStrongest.unique hs' hs).trans (hall v (by rw [anteDict_get?]; exact hv')))
    exact aux inst l (fun p hp => hp) hl

/-- the changes determine the moved instance. -/
theorem Moved.unique {inst a b : Inst K} {changes : List (String × String)}
    (ha : Moved inst changes a) (hb : Moved inst changes b) : a = b := by
  unfold Moved at ha hb
  induction ha generalizing b with
  | nil => cases hb; rfl
  | @cons p p' i i' h _ ih =>
    cases hb with
    | @cons _ q' _ j' h' hb' =>
      rw [ih hb']
      congr 1
      by_cases hex : ∃ v, (p.1, v) ∈ changes
      · obtain ⟨v, hv⟩ := hex
        exact Prod.ext (h.1.trans h'.1.symm) ((h.2.1 v hv).trans (h'.2.1 v hv).symm)
      · push Not at hex
        exact Prod.ext (h.1.trans h'.1.symm) ((h.2.2 hex).trans (h'.2.2 hex).symm)

/-- Without changes the instance stays. -/
theorem Moved.nil {inst inst' : Inst K} (h : Moved inst [] inst') : inst' = inst := by
  unfold Moved at h
  induction h with
  | nil => rfl
  | cons h _ ih => rw [ih]; congr 1; exact Prod.ext h.1 (h.2.2 (by simp))

theorem Moved.perm {inst inst' : Inst K} {ch ch' : List (String × String)} (hp : ∀ x, x ∈ ch ↔ x ∈ ch')
    (h : Moved inst ch inst') : Moved inst ch' inst' := by
  unfold Moved at h ⊢
  refine h.imp ?_
  rintro p p' ⟨h1, h2, h3⟩
  exact ⟨h1, fun v hv => h2 v ((hp _).2 hv), fun hno => h3 (fun v hv => hno v ((hp _).1 hv))⟩

/-- what the loop computes for a rule is what the specification says. -/
theorem leadsTo_iff [DecidableEq C] {vote : Inst K → Py C} {inst : Inst K} {r : Rule String C K} {c' : C}
    (hnd : (Dict.keys inst).Nodup) (hne : ∀ p ∈ inst, p.2 ≠ []) :
    (∃ ch, LeadsTo vote inst r ch c') ↔ ∃ inst' ch, applyChanges r inst = .ok (inst', ch) ∧ vote inst' = .ok c' := by
  constructor
  · rintro ⟨ch, inst', hch, hmv, hvote⟩
    obtain ⟨⟨i₂, ch₂⟩, ho⟩ := (applyChanges_ok_iff r inst).2 hne
    obtain ⟨hch₂, hmv₂⟩ := applyChanges_spec hnd ho
    have hsame : ∀ x, x ∈ ch ↔ x ∈ ch₂ := by
      rintro ⟨f, v⟩; rw [hch.2, hch₂.2]
    have := Moved.unique (Moved.perm hsame hmv) hmv₂
    subst this
    exact ⟨_, _, ho, hvote⟩
  · rintro ⟨inst', ch, ho, hvote⟩
    obtain ⟨hch, hmv⟩ := applyChanges_spec hnd ho
    exact ⟨ch, inst', hch, hmv, hvote⟩

/-! ## the search loop -/

/-- the rule, applied to the instance, gives a class that is not `c`. -/
def Flips [DecidableEq C] (inst : Inst K) (c : C) (rules : List (Rule String C K)) (r : Rule String C K) : Prop :=
  ∃ inst' ch c', applyChanges r inst = .ok (inst', ch) ∧ weightedVote rules inst' = .ok c' ∧ c' ≠ c

theorem searchLoop_some [DecidableEq C] {inst : Inst K} {c : C} {rules : List (Rule String C K)}
    {L : List (Rule String C K × K)} {ch : List (String × String)} (h : searchLoop inst c rules L = .ok (some ch)) :
    ∃ pre x post, L = pre ++ x :: post ∧ (∀ y ∈ pre, ¬ Flips inst c rules y.1) ∧
      ∃ inst' c', applyChanges x.1 inst = .ok (inst', ch) ∧ weightedVote rules inst' = .ok c' ∧ c' ≠ c := by
  induction L with
  | nil => simp [searchLoop] at h
  | cons cf L ih =>
    unfold searchLoop at h
    rw [py_bind_eq_ok] at h
    obtain ⟨⟨inst', ch'⟩, ho, h⟩ := h
    simp only at h
    rw [py_bind_eq_ok] at h
    obtain ⟨c', hc', h⟩ := h
    split at h
    · rename_i hne
      simp only [py_pure, Except.ok.injEq, Option.some.injEq] at h
      subst h
      exact ⟨[], cf, L, rfl, by simp, inst', c', ho, hc', hne⟩
    · rename_i hne
      obtain ⟨pre, x, post, h1, h2, h3⟩ := ih h
      refine ⟨cf :: pre, x, post, by rw [h1]; rfl, ?_, h3⟩
      intro y hy
      rcases List.mem_cons.1 hy with rfl | hy
      · rintro ⟨i₂, ch₂, c₂, e1, e2, e3⟩
        rw [ho] at e1
        simp only [Except.ok.injEq, Prod.mk.injEq] at e1
        rw [← e1.1, hc'] at e2
        obtain rfl := Except.ok.inj e2
        exact hne e3
      · exact h2 y hy

theorem searchLoop_none [DecidableEq C] {inst : Inst K} {c : C} {rules : List (Rule String C K)}
    {L : List (Rule String C K × K)} (h : searchLoop inst c rules L = .ok none) :
    ∀ y ∈ L, ¬ Flips inst c rules y.1 ∧ ∃ inst' ch, applyChanges y.1 inst = .ok (inst', ch) ∧ weightedVote rules inst' = .ok c := by
  induction L with
  | nil => simp
  | cons cf L ih =>
    unfold searchLoop at h
    rw [py_bind_eq_ok] at h
    obtain ⟨⟨inst', ch'⟩, ho, h⟩ := h
    simp only at h
    rw [py_bind_eq_ok] at h
    obtain ⟨c', hc', h⟩ := h
    split at h
    · simp at h
    · rename_i hne
      intro y hy
      rcases List.mem_cons.1 hy with rfl | hy
      · refine ⟨?_, inst', ch', ho, by rw [hc', not_not.1 hne]⟩
        rintro ⟨i₂, ch₂, c₂, e1, e2, e3⟩
        rw [ho] at e1
        simp only [Except.ok.injEq, Prod.mk.injEq] at e1
        rw [← e1.1, hc'] at e2
        obtain rfl := Except.ok.inj e2
        exact hne e3
      · exact ih h y hy

theorem searchLoop_total [DecidableEq C] {inst : Inst K} {c : C} {rules : List (Rule String C K)}
    (hne : ∀ p ∈ inst, p.2 ≠ [])
    (hvote : ∀ inst' : Inst K, ∃ c', weightedVote rules inst' = .ok c') (L : List (Rule String C K × K)) :
    ∃ o, searchLoop inst c rules L = .ok o := by
  induction L with
  | nil => exact ⟨_, rfl⟩
  | cons cf L ih =>
    unfold searchLoop
    obtain ⟨⟨inst', ch⟩, ho⟩ := (applyChanges_ok_iff cf.1 inst).2 hne
    obtain ⟨c', hc'⟩ := hvote inst'
    rw [ho]
    simp only [py_bind_ok, hc']
    split
    · exact ⟨_, rfl⟩
    · exact ih

theorem sortCf_eq [DecidableEq C] (cfs : List (Rule String C K × K)) : sortCf cfs = sortAsc Prod.snd cfs := rfl

/-- result of `_search_counterfactual`: the first of the closest candidates that flip. -/
theorem searchCf_some [DecidableEq C] {inst : Inst K} {c : C} {rules : List (Rule String C K)}
    {cfs : List (Rule String C K × K)} {ch : List (String × String)} (h : searchCf inst c rules cfs = .ok (some ch)) :
    ∃ pre x post, cfs = pre ++ x :: post ∧ (∀ y ∈ pre, Flips inst c rules y.1 → x.2 < y.2) ∧
      (∀ y ∈ post, Flips inst c rules y.1 → x.2 ≤ y.2) ∧
      ∃ inst' c', applyChanges x.1 inst = .ok (inst', ch) ∧ weightedVote rules inst' = .ok c' ∧ c' ≠ c := by
  unfold searchCf at h
  rw [sortCf_eq] at h
  obtain ⟨pre, x, post, h1, h2, h3⟩ := searchLoop_some h
  obtain ⟨inst', c', e1, e2, e3⟩ := h3
  obtain ⟨pre', post', h4, h5, h6⟩ := first_in_sorted Prod.snd (fun y : Rule String C K × K => Flips inst c rules y.1) cfs
    pre post x h1 h2 ⟨inst', ch, c', e1, e2, e3⟩
  exact ⟨pre', x, post', h4, h5, h6, inst', c', e1, e2, e3⟩

theorem searchCf_none [DecidableEq C] {inst : Inst K} {c : C} {rules : List (Rule String C K)}
    {cfs : List (Rule String C K × K)} (h : searchCf inst c rules cfs = .ok none) :
    ∀ y ∈ cfs, ¬ Flips inst c rules y.1 ∧ ∃ inst' ch, applyChanges y.1 inst = .ok (inst', ch) ∧
      weightedVote rules inst' = .ok c := by
  intro y hy
  unfold searchCf at h
  rw [sortCf_eq] at h
  exact searchLoop_none h y ((sortAsc_perm _ _).mem_iff.2 hy)

/-- invariant of the multiclass loop. -/
theorem searchLoopMulti_spec [DecidableEq C] {inst : Inst K} {c : C} {rules : List (Rule String C K)} {n : Nat}
    (L : List (Rule String C K × K)) (d o : Dict C (List (String × String)))
    (h : searchLoopMulti inst c rules n d L = .ok o) (hnd : (Dict.keys d).Nodup) (hc : c ∉ Dict.keys d) :
    (Dict.keys o).Nodup ∧ c ∉ Dict.keys o ∧
    (∀ c', c' ∈ Dict.keys d → Dict.get? o c' = Dict.get? d c') ∧
    (∀ c' ch, Dict.get? o c' = some ch → c' ∉ Dict.keys d → ∃ pre x post, L = pre ++ x :: post ∧
      (∃ inst', applyChanges x.1 inst = .ok (inst', ch) ∧ weightedVote rules inst' = .ok c') ∧
      ∀ y ∈ pre, ¬ ∃ inst' ch', applyChanges y.1 inst = .ok (inst', ch') ∧ weightedVote rules inst' = .ok c') ∧
    (o.length = n ∨ ∀ y ∈ L, ∀ inst' ch' c', applyChanges y.1 inst = .ok (inst', ch') →
      weightedVote rules inst' = .ok c' → c' ≠ c → c' ∈ Dict.keys o) := by
  induction L generalizing d with
  | nil =>
    simp only [searchLoopMulti, Except.ok.injEq] at h
    subst h
    refine ⟨hnd, hc, fun _ _ => rfl, ?_, .inr (by simp)⟩
    intro c' ch hg hn
    exact absurd ((Dict.get?_isSome_iff _ _).1 ⟨ch, hg⟩) hn
  | cons cf L ih =>
    unfold searchLoopMulti at h
    rw [py_bind_eq_ok] at h
    obtain ⟨⟨inst', ch⟩, ho, h⟩ := h
    simp only at h
    rw [py_bind_eq_ok] at h
    obtain ⟨c', hc', h⟩ := h
    have hself : ∀ i₂ ch₂ c₂, applyChanges cf.1 inst = .ok (i₂, ch₂) → weightedVote rules i₂ = .ok c₂ → c₂ = c' := by
      intro i₂ ch₂ c₂ e1 e2
      rw [ho] at e1
      simp only [Except.ok.injEq, Prod.mk.injEq] at e1
      rw [← e1.1, hc'] at e2
      exact (Except.ok.inj e2).symm
    split at h
    · rename_i hcond
      have hk : Dict.keys (Dict.set d c' ch) = Dict.keys d ++ [c'] := by
        rw [Dict.keys_set, if_neg hcond.2]
      have hnd' := Dict.nodup_keys_set d c' ch hnd
      have hcd : c ∉ Dict.keys (Dict.set d c' ch) := by
        rw [hk]; simp [hc, Ne.symm hcond.1]
      have hnew : ∀ ch₂ x, Dict.get? (Dict.set d c' ch) x = some ch₂ → x ∉ Dict.keys d → x = c' ∧ ch₂ = ch := by
        intro ch₂ x hg hx
        rw [Dict.get?_set] at hg
        by_cases hxc : c' = x
        · simp only [hxc, if_true, Option.some.injEq] at hg
          exact ⟨hxc.symm, hg.symm⟩
        · simp only [hxc, if_false] at hg
          exact absurd ((Dict.get?_isSome_iff _ _).1 ⟨ch₂, hg⟩) hx
      split at h
      · rename_i hlen
        simp only [py_pure, Except.ok.injEq] at h
        subst h
        refine ⟨hnd', hcd, ?_, ?_, .inl hlen⟩
        · intro x hx
          rw [Dict.get?_set, if_neg]
          rintro rfl; exact hcond.2 hx
        · intro x ch₂ hg hx
          obtain ⟨rfl, rfl⟩ := hnew ch₂ x hg hx
          exact ⟨[], cf, L, rfl, ⟨inst', ho, hc'⟩, by simp⟩
      · obtain ⟨i1, i2, i3, i4, i5⟩ := ih _ h hnd' hcd
        refine ⟨i1, i2, ?_, ?_, ?_⟩
        · intro x hx
          rw [i3 x (by rw [hk]; simp [hx]), Dict.get?_set, if_neg]
          rintro rfl; exact hcond.2 hx
        · intro x ch₂ hg hx
          by_cases hxc : x = c'
          · subst hxc
            rw [i3 x (by rw [hk]; simp)] at hg
            obtain ⟨-, rfl⟩ := hnew ch₂ x hg hx
            exact ⟨[], cf, L, rfl, ⟨inst', ho, hc'⟩, by simp⟩
          · obtain ⟨pre, y, post, e1, e2, e3⟩ := i4 x ch₂ hg (by rw [hk]; simp [hx, hxc])
            refine ⟨cf :: pre, y, post, by rw [e1]; rfl, e2, ?_⟩
            intro z hz
            rcases List.mem_cons.1 hz with rfl | hz
            · rintro ⟨i₂, ch₂, a1, a2⟩
              exact hxc (hself i₂ ch₂ x a1 a2)
            · exact e3 z hz
        · rcases i5 with i5 | i5
          · exact .inl i5
          · right
            intro y hy i₂ ch₂ c₂ a1 a2 a3
            rcases List.mem_cons.1 hy with rfl | hy
            · have := hself i₂ ch₂ c₂ a1 a2
              subst this
              have : c₂ ∈ Dict.keys (Dict.set d c₂ ch) := by rw [hk]; simp
              rw [← Dict.get?_isSome_iff] at this ⊢
              rw [i3 c₂ (by rw [hk]; simp)]
              exact this
            · exact i5 y hy i₂ ch₂ c₂ a1 a2 a3
    · rename_i hcond
      obtain ⟨i1, i2, i3, i4, i5⟩ := ih _ h hnd hc
      refine ⟨i1, i2, i3, ?_, ?_⟩
      · intro x ch₂ hg hx
        obtain ⟨pre, y, post, e1, e2, e3⟩ := i4 x ch₂ hg hx
        refine ⟨cf :: pre, y, post, by rw [e1]; rfl, e2, ?_⟩
        intro z hz
        rcases List.mem_cons.1 hz with rfl | hz
        · rintro ⟨i₂, ch₂, a1, a2⟩
          have hxc := hself i₂ ch₂ x a1 a2
          subst hxc
          apply hcond
          refine ⟨?_, hx⟩
          rintro rfl
          exact i2 ((Dict.get?_isSome_iff _ _).1 ⟨_, hg⟩)
        · exact e3 z hz
      · rcases i5 with i5 | i5
        · exact .inl i5
        · right
          intro y hy i₂ ch₂ c₂ a1 a2 a3
          rcases List.mem_cons.1 hy with rfl | hy
          · have := hself i₂ ch₂ c₂ a1 a2
            subst this
            have hmem : c₂ ∈ Dict.keys d := by
              by_contra hn; exact hcond ⟨a3, hn⟩
            rw [← Dict.get?_isSome_iff]
            rw [i3 c₂ hmem]
            exact (Dict.get?_isSome_iff _ _).2 hmem
          · exact i5 y hy i₂ ch₂ c₂ a1 a2 a3

end

end Teacher
