import Verif.Model.Factual
import Verif.Spec.Factual
import Verif.Lemmas.Basic
import Verif.Lemmas.FDTFit
import Mathlib.Algebra.BigOperators.Group.List.Basic

/-! Lemmas about `explanation/_factual.py`. -/

set_option linter.unusedSectionVars false

namespace Teacher
open Spec

theorem filterPy_ok {α : Type} (p : α → Py Bool) (q : α → Bool) (l : List α) (h : ∀ a ∈ l, p a = .ok (q a)) :
    filterPy p l = .ok (l.filter q) := by
  induction l with
  | nil => rfl
  | cons a l ih =>
    simp only [filterPy, h a (by simp), ih (fun b hb => h b (by simp [hb])), py_bind_ok, py_pure]
    cases hq : q a <;> simp [hq]

/-- sorting by decreasing key with a stable insertion sort. -/
def sortDesc {α K : Type} [LinearOrder K] (key : α → K) (l : List α) : List α :=
  l.insertionSort (fun a b => key b ≤ key a)

section
variable {α K : Type} [LinearOrder K] (key : α → K)

theorem filter_orderedInsert_desc (a : α) (l : List α) (k : K) :
    (l.orderedInsert (fun a b => key b ≤ key a) a).filter (fun x => key x = k) = (a :: l).filter (fun x => key x = k) := by
  induction l with
  | nil => rfl
  | cons b l ih =>
    simp only [List.orderedInsert]
    split
    · rfl
    · rename_i h
      have hab : key a < key b := not_le.1 h
      rw [List.filter_cons, ih]
      by_cases ha : key a = k
      · have hb : key b ≠ k := fun e => by rw [ha, e] at hab; exact lt_irrefl _ hab
        simp [ha, hb]
      · by_cases hb : key b = k <;> simp [ha, hb]

theorem sortDesc_spec (l : List α) : SortedDesc key l (sortDesc key l) := by
  refine ⟨List.perm_insertionSort _ _, ?_, ?_⟩
  · have : Std.Total (fun a b : α => key b ≤ key a) := ⟨fun a b => le_total _ _⟩
    have : IsTrans α (fun a b : α => key b ≤ key a) := ⟨fun a b c h1 h2 => le_trans h2 h1⟩
    exact List.pairwise_insertionSort _ _
  · intro k
    induction l with
    | nil => rfl
    | cons a l ih =>
      show ((sortDesc key l).orderedInsert _ a).filter _ = _
      rw [filter_orderedInsert_desc, List.filter_cons, List.filter_cons, ih]

theorem zip_map_self {β : Type} (f : α → β) (l : List α) : l.zip (l.map f) = l.map (fun a => (a, f a)) := by
  induction l with
  | nil => rfl
  | cons a l ih => simp [ih]

theorem insertionSort_map_pair (l : List α) :
    ((l.map (fun a => (a, key a))).insertionSort (fun a b => b.2 ≤ a.2)).map Prod.fst = sortDesc key l := by
  have aux : (l.map (fun a => (a, key a))).insertionSort (fun a b => b.2 ≤ a.2)
      = (sortDesc key l).map (fun a => (a, key a)) := by
    induction l with
    | nil => rfl
    | cons a l ih =>
      simp only [List.map_cons, List.insertionSort_cons, ih]
      show _ = ((sortDesc key l).orderedInsert _ a).map _
      generalize sortDesc key l = m
      induction m with
      | nil => rfl
      | cons b m ih2 =>
        simp only [List.map_cons, List.orderedInsert]
        split
        · rfl
        · simp [ih2]
  rw [aux]
  simp [Function.comp_def]

end

section
variable {V C K : Type} [Field K] [LinearOrder K] [IsStrictOrderedRing K]
variable {matching : Rule V C K → Py K} {deg : Rule V C K → K} {rs : List (Rule V C K)}

theorem act_ok {r : Rule V C K} (h : matching r = .ok (deg r)) : act matching r = .ok (ruleAct deg r) := by
  simp [act, h, ruleAct]

theorem firedRules_ok (h : ∀ r ∈ rs, matching r = .ok (deg r)) (th : K) :
    firedRules matching rs th = .ok (rs.filter (fun r => th < deg r)) := by
  refine filterPy_ok _ _ _ ?_
  intro a ha
  simp [h a ha]

theorem sortByAct_ok (h : ∀ r ∈ rs, matching r = .ok (deg r)) :
    sortByAct matching rs = .ok (sortDesc (ruleAct deg) rs) := by
  unfold sortByAct
  rw [mapM_ok_of_forall _ (ruleAct deg) _ (fun r hr => act_ok (h r hr))]
  simp only [py_bind_ok, py_pure, zip_map_self, insertionSort_map_pair]

theorem foldlM_sum_ok {α : Type} (f : α → Py K) (g : α → K) (l : List α) (a : K) (h : ∀ x ∈ l, f x = .ok (g x)) :
    l.foldlM (fun x y => do let b ← f y; pure (x + b)) a = .ok (a + (l.map g).sum) := by
  induction l generalizing a with
  | nil => simp
  | cons x l ih =>
    rw [List.foldlM_cons, h x (by simp)]
    simp only [py_bind_ok, py_pure]
    refine (ih _ (fun y hy => h y (by simp [hy]))).trans ?_
    rw [List.map_cons, List.sum_cons, add_assoc]

theorem sumAct_ok (h : ∀ r ∈ rs, matching r = .ok (deg r)) : sumAct matching rs = .ok (mass deg rs) := by
  unfold sumAct
  rw [foldlM_sum_ok _ (ruleAct deg) _ _ (fun r hr => act_ok (h r hr)), zero_add]
  rfl

theorem classFired_ok [DecidableEq C] (h : ∀ r ∈ rs, matching r = .ok (deg r)) (c : C) :
    classFired matching rs c = .ok (sortDesc (ruleAct deg) (firedOf deg rs c)) := by
  unfold classFired
  rw [firedRules_ok h]
  simp only [py_bind_ok, classValueRules, List.filter_filter]
  rw [sortByAct_ok (deg := deg)]
  · congr 2
    unfold firedOf
    apply List.filter_congr
    intro r _
    by_cases h1 : (1:K)/1000 < deg r <;> by_cases h2 : r.consequent = c <;> simp_all
  · intro r hr
    exact h r (List.mem_filter.1 hr).1

theorem classMass_ok [DecidableEq C] (h : ∀ r ∈ rs, matching r = .ok (deg r)) (c : C) :
    classMass matching rs c = .ok (activation deg rs c) := by
  unfold classMass activation
  have aux : ∀ (l : List (Rule V C K)) (a : K), (∀ r ∈ l, matching r = .ok (deg r)) →
      l.foldlM (fun th r => if r.consequent = c then do let a ← act matching r; pure (th + a) else pure th) a
        = .ok (a + ((l.filter (fun r => r.consequent = c)).map (fun r => deg r * r.weight)).sum) := by
    intro l
    induction l with
    | nil => intro a _; simp
    | cons r l ih =>
      intro a h
      rw [List.foldlM_cons]
      by_cases hc : r.consequent = c
      · simp only [hc, if_true, act_ok (h r (by simp)), py_bind_ok, py_pure]
        refine (ih _ (fun y hy => h y (by simp [hy]))).trans ?_
        rw [List.filter_cons_of_pos (by simpa using hc), List.map_cons, List.sum_cons, add_assoc]
        rfl
      · simp only [hc, if_false, py_bind_ok, py_pure]
        refine (ih _ (fun y hy => h y (by simp [hy]))).trans ?_
        rw [List.filter_cons_of_neg (by simpa using hc)]
  rw [aux rs 0 h, zero_add]

/-- `_robust_threshold` is the largest activation of another class. -/
theorem robustThreshold_ok [LinearOrder C] (h : ∀ r ∈ rs, matching r = .ok (deg r)) (c : C)
    (hex : ∃ r ∈ rs, r.consequent ≠ c) :
    ∃ rt, robustThreshold matching rs c = .ok rt ∧
      (∃ c', c' ≠ c ∧ (∃ r ∈ rs, r.consequent = c') ∧ rt = activation deg rs c') ∧
      ∀ c', c' ≠ c → (∃ r ∈ rs, r.consequent = c') → activation deg rs c' ≤ rt := by
  unfold robustThreshold
  simp only
  rw [mapM_ok_of_forall _ (activation deg rs) _ (fun c' _ => classMass_ok h c')]
  simp only [py_bind_ok]
  have hmem : ∀ c', c' ∈ npUnique ((rs.filter (fun r => r.consequent ≠ c)).map Rule.consequent) ↔
      c' ≠ c ∧ ∃ r ∈ rs, r.consequent = c' := by
    intro c'
    rw [mem_npUnique]
    simp only [List.mem_map, List.mem_filter, decide_eq_true_eq]
    constructor
    · rintro ⟨r, ⟨hr, hc⟩, rfl⟩; exact ⟨hc, r, hr, rfl⟩
    · rintro ⟨hc, r, hr, rfl⟩; exact ⟨r, ⟨hr, hc⟩, rfl⟩
  have hne : (npUnique ((rs.filter (fun r => r.consequent ≠ c)).map Rule.consequent)).map (activation deg rs) ≠ [] := by
    obtain ⟨r, hr, hc⟩ := hex
    exact List.ne_nil_of_mem (List.mem_map_of_mem ((hmem r.consequent).2 ⟨hc, r, hr, rfl⟩))
  obtain ⟨rt, hrt⟩ := pyMax_ok_of_ne_nil (id : K → K) _ hne
  obtain ⟨h1, h2, -⟩ := pyMax_eq_ok _ _ _ hrt
  refine ⟨rt, hrt, ?_, ?_⟩
  · obtain ⟨c', hc', rfl⟩ := List.mem_map.1 h1
    obtain ⟨h3, h4⟩ := (hmem c').1 hc'
    exact ⟨c', h3, h4, rfl⟩
  · intro c' h3 h4
    exact h2 _ (List.mem_map_of_mem ((hmem c').2 ⟨h3, h4⟩))

theorem robustThreshold_none [LinearOrder C] (c : C) (hall : ∀ r ∈ rs, r.consequent = c) :
    robustThreshold matching rs c = .error .valueError := by
  unfold robustThreshold
  have : rs.filter (fun r => r.consequent ≠ c) = [] := by
    rw [List.filter_eq_nil_iff]; intro r hr; simp [hall r hr]
  simp only [this]
  rfl

theorem take_sum_succ (g : α → K) (l : List α) (r : α) (k : Nat) (a : K) :
    a + (((r :: l).take (k+1)).map g).sum = (a + g r) + ((l.take k).map g).sum := by
  simp [add_assoc]

/-- The loop of `mr_factual` returns the shortest prefix whose mass exceeds the threshold, or everything. -/
theorem mrLoop_ok (l : List (Rule V C K)) (h : ∀ r ∈ l, matching r = .ok (deg r)) (rt ad : K) :
    ∃ k, k ≤ l.length ∧ mrLoop matching rt ad l = .ok (l.take k) ∧
      (∀ j, j < k → ad + mass deg (l.take j) ≤ rt) ∧
      (k < l.length → rt < ad + mass deg (l.take k)) := by
  induction l generalizing ad with
  | nil => exact ⟨0, le_refl _, rfl, by simp, by simp⟩
  | cons r l ih =>
    unfold mrLoop
    by_cases hb : rt < ad
    · rw [if_pos hb]
      exact ⟨0, by simp, rfl, by simp, fun _ => by simpa [mass] using hb⟩
    · rw [if_neg hb]
      obtain ⟨k, hk, h1, h2, h3⟩ := ih (fun y hy => h y (by simp [hy])) (ad + ruleAct deg r)
      rw [act_ok (h r (by simp))]
      simp only [py_bind_ok, h1, py_pure]
      refine ⟨k + 1, by simpa using hk, by simp, ?_, ?_⟩
      · intro j hj
        cases j with
        | zero => simpa [mass] using not_lt.1 hb
        | succ j =>
          have := h2 j (by omega)
          unfold mass at this ⊢
          rw [take_sum_succ]; exact this
      · intro hlt
        have := h3 (by simpa using hlt)
        unfold mass at this ⊢
        rw [take_sum_succ]; exact this

/-- In a decreasing list the first `j` elements have the largest mass among the sub-lists of length `j`. -/
theorem sublist_sum_le_take {α : Type} (key : α → K) : ∀ (l s : List α), s.Sublist l → l.Pairwise (fun a b => key b ≤ key a) →
    (s.map key).sum ≤ ((l.take s.length).map key).sum := by
  intro l s hs
  induction hs with
  | slnil => intro _; simp
  | @cons s l a hs ih =>
    intro hp
    rw [List.pairwise_cons] at hp
    cases s with
    | nil => simp
    | cons b s =>
      have h1 := ih hp.2
      have hlen : s.length + 1 ≤ l.length := by simpa using hs.length_le
      refine le_trans h1 ?_
      simp only [List.length_cons, List.take_succ_cons, List.map_cons, List.sum_cons]
      rw [List.take_add_one, List.map_append, List.sum_append, add_comm]
      have hlt : s.length < l.length := by omega
      rw [List.getElem?_eq_getElem hlt]
      simp only [Option.toList_some, List.map_cons, List.map_nil, List.sum_cons, List.sum_nil, add_zero]
      have := hp.1 _ (List.getElem_mem hlt)
      linarith
  | @cons_cons s l a hs ih =>
    intro hp
    rw [List.pairwise_cons] at hp
    simp only [List.length_cons, List.take_succ_cons, List.map_cons, List.sum_cons]
    have := ih hp.2
    linarith

/-- the loop of `c_factual` stops at the first index where it must stop. -/
theorem cLoop_ok (l : List (Rule V C K)) (h : ∀ r ∈ l, matching r = .ok (deg r)) (h0 : ∀ r ∈ l, ruleAct deg r ≠ 0)
    (lam : K) (beta : Option K) (p : Rule V C K) (a : K) :
    ∃ k, k ≤ l.length ∧ cLoop matching lam beta (ruleAct deg p) (a + ruleAct deg p) l = .ok (l.take k) ∧
      (∀ j, j < k → ¬ ∃ x y, (p :: l)[j]? = some x ∧ l[j]? = some y ∧ 1 + lam < ruleAct deg x / ruleAct deg y ∧
        ∀ b, beta = some b → b ≤ a + mass deg ((p :: l).take (j + 1))) ∧
      (k < l.length → ∃ x y, (p :: l)[k]? = some x ∧ l[k]? = some y ∧ 1 + lam < ruleAct deg x / ruleAct deg y ∧
        ∀ b, beta = some b → b ≤ a + mass deg ((p :: l).take (k + 1))) := by
  induction l generalizing p a with
  | nil => exact ⟨0, le_refl _, rfl, by simp, by simp⟩
  | cons r l ih =>
    have hbeta : ∀ ad, betaReached beta ad = true ↔ ∀ b, beta = some b → b ≤ ad := by
      intro ad
      unfold betaReached
      cases beta with
      | none => simp
      | some b => simp
    unfold cLoop
    rw [act_ok (h r (by simp))]
    simp only [py_bind_ok, pyDiv, if_neg (h0 r (by simp))]
    by_cases hs : 1 + lam < ruleAct deg p / ruleAct deg r ∧ betaReached beta (a + ruleAct deg p) = true
    · rw [if_pos hs]
      refine ⟨0, by simp, rfl, by simp, fun _ => ⟨p, r, rfl, rfl, hs.1, ?_⟩⟩
      have := (hbeta _).1 hs.2
      simpa [mass] using this
    · rw [if_neg hs]
      obtain ⟨k, hk, h1, h2, h3⟩ := ih (fun y hy => h y (by simp [hy])) (fun y hy => h0 y (by simp [hy])) r
        (a + ruleAct deg p)
      simp only [h1, py_bind_ok, py_pure]
      have hsum : ∀ j, a + mass deg ((p :: r :: l).take (j + 1 + 1)) =
          a + ruleAct deg p + mass deg ((r :: l).take (j + 1)) := by
        intro j; simp [mass, add_assoc]
      refine ⟨k + 1, by simpa using hk, by simp, ?_, ?_⟩
      · intro j hj
        cases j with
        | zero =>
          rintro ⟨x, y, hx, hy, hd, hb⟩
          simp only [List.getElem?_cons_zero, Option.some.injEq] at hx hy
          subst hx; subst hy
          exact hs ⟨hd, (hbeta _).2 (by simpa [mass] using hb)⟩
        | succ j =>
          have := h2 j (by omega)
          simp only [List.getElem?_cons_succ, hsum]
          exact this
      · intro hlt
        have := h3 (by simpa using hlt)
        simp only [List.getElem?_cons_succ, hsum]
        exact this

end

end Teacher
