import Verif.Props.CfDistance
import Verif.Props.FactualMeta

/-!
# C187–C189: how the counterfactuals react to a change of the rule base, and that they are not minimal

Scale of the weights, order of the rules; the changes of a counterfactual can be more than needed.
-/

set_option linter.unusedSectionVars false

namespace Teacher
open Spec

section
variable {C K : Type} [Field K] [LinearOrder K] [IsStrictOrderedRing K] [DecidableEq C]

/-! ### C187: the scale of the weights -/

theorem otherClass_scale (k : K) (rules : List (Rule String C K)) (c : C) :
    otherClass (rules.map (Rule.scale k)) c = (otherClass rules c).map (Rule.scale k) := by
  unfold otherClass
  rw [List.filter_map]; rfl

theorem mapM_map_candidates {α β γ : Type} (F : β → Py γ) (G : α → Py γ) (g : α → β) (h : γ → γ) (l : List α)
    (hFG : ∀ a ∈ l, F (g a) = (G a).map h) : (l.map g).mapM F = (l.mapM G).map (List.map h) := by
  induction l with
  | nil => rfl
  | cons a l ih =>
    rw [List.map_cons, List.mapM_cons, List.mapM_cons, hFG a (by simp), ih (fun x hx => hFG x (by simp [hx]))]
    cases G a with
    | error e => rfl
    | ok x =>
      cases l.mapM G with
      | error e => rfl
      | ok xs => rfl

/-- the candidate with its rule scaled. -/
def scaleCand (k : K) (p : Rule String C K × K) : Rule String C K × K := (p.1.scale k, p.2)

theorem sortCf_scale (k : K) (cfs : List (Rule String C K × K)) :
    sortCf (cfs.map (scaleCand k)) = (sortCf cfs).map (scaleCand k) := by
  have aux : ∀ (m : List (Rule String C K × K)) a, (m.map (scaleCand k)).orderedInsert (fun a b => a.2 ≤ b.2) (scaleCand k a) =
      (m.orderedInsert (fun a b => a.2 ≤ b.2) a).map (scaleCand k) := by
    intro m a
    induction m with
    | nil => rfl
    | cons b m ih =>
      simp only [List.map_cons, List.orderedInsert]
      show (if a.2 ≤ b.2 then _ else _) = _
      split
      · rfl
      · rw [ih]; rfl
  induction cfs with
  | nil => rfl
  | cons a l ih =>
    show (sortCf (l.map (scaleCand k))).orderedInsert _ (scaleCand k a) = ((sortCf l).orderedInsert _ a).map _
    rw [ih, aux]

theorem searchLoop_scale (k : K) (hk : 0 < k) (inst : Inst K) (c : C) (rules : List (Rule String C K)) :
    ∀ cfs : List (Rule String C K × K),
      searchLoop inst c (rules.map (Rule.scale k)) (cfs.map (scaleCand k)) = searchLoop inst c rules cfs
  | [] => rfl
  | cf :: rest => by
    simp only [List.map_cons, searchLoop, C21_scale_invariant rules _ k hk, searchLoop_scale k hk inst c rules rest]
    rfl

theorem searchLoopMulti_scale (k : K) (hk : 0 < k) (inst : Inst K) (c : C) (rules : List (Rule String C K)) (n : Nat) :
    ∀ (cfs : List (Rule String C K × K)) (d : Dict C (List (String × String))),
      searchLoopMulti inst c (rules.map (Rule.scale k)) n d (cfs.map (scaleCand k)) = searchLoopMulti inst c rules n d cfs
  | [], _ => rfl
  | cf :: rest, d => by
    simp only [List.map_cons, searchLoopMulti, C21_scale_invariant rules _ k hk, searchLoopMulti_scale k hk inst c rules n rest]
    rfl

theorem searchCf_scale (k : K) (hk : 0 < k) (inst : Inst K) (c : C) (rules : List (Rule String C K))
    (cfs : List (Rule String C K × K)) :
    searchCf inst c (rules.map (Rule.scale k)) (cfs.map (scaleCand k)) = searchCf inst c rules cfs := by
  unfold searchCf
  rw [sortCf_scale, searchLoop_scale k hk]

theorem iCandidates_scale (ident : Nat → String → Bool) (k : K) (inst : Inst K) (rules : List (Rule String C K)) (c : C)
    (num : List String) :
    iCandidates ident inst (rules.map (Rule.scale k)) c num = (iCandidates ident inst rules c num).map (List.map (scaleCand k)) := by
  unfold iCandidates
  rw [otherClass_scale, List.zipIdx_map]
  apply mapM_map_candidates
  intro p _
  show (cfDistInstance (ident p.2) p.1 inst num >>= fun d => pure (p.1.scale k, d)) = _
  cases cfDistInstance (ident p.2) p.1 inst num <;> rfl

theorem fDist_scale (ident : Nat → String → Bool) (k k' : K) (factual : List (Rule String C K)) (inst : Inst K) (num : List String)
    (tau : K) (cf : Rule String C K) :
    fDist ident (factual.map (Rule.scale k')) inst num tau (cf.scale k) = fDist ident factual inst num tau cf := by
  unfold fDist sumLoop
  rw [List.zipIdx_map, List.foldlM_map]
  rfl

/-- C187: multiplying the weights of all the rules by one positive number (the rules of the factual by any number) changes
neither the counterfactuals nor the exceptions of the four searches. -/
theorem C187_scale (k k' : K) (hk : 0 < k) (inst : Inst K) (rules factual : List (Rule String C K)) (c : C) (num : List String) (tau : K)
    (ident : Nat → String → Bool) (identF : Nat → Nat → String → Bool) (parse : String → Py K) (dist : List (Cell K) → Py K)
    (cont : List Nat) :
    iCounterfactual ident inst (rules.map (Rule.scale k)) c num = iCounterfactual ident inst rules c num ∧
    iCounterfactualMulti ident inst (rules.map (Rule.scale k)) c num = iCounterfactualMulti ident inst rules c num ∧
    fCounterfactual identF (factual.map (Rule.scale k')) inst (rules.map (Rule.scale k)) c num tau =
      fCounterfactual identF factual inst rules c num tau ∧
    dCounterfactual parse dist cont inst (rules.map (Rule.scale k)) c = dCounterfactual parse dist cont inst rules c := by
  refine ⟨?_, ?_, ?_, ?_⟩
  · unfold iCounterfactual
    rw [iCandidates_scale]
    cases iCandidates ident inst rules c num with
    | error e => rfl
    | ok cfs => exact searchCf_scale k hk inst c rules cfs
  · unfold iCounterfactualMulti
    rw [iCandidates_scale]
    cases iCandidates ident inst rules c num with
    | error e => rfl
    | ok cfs =>
      show searchCfMulti inst c (rules.map (Rule.scale k)) (cfs.map (scaleCand k)) = searchCfMulti inst c rules cfs
      unfold searchCfMulti
      rw [sortCf_scale, searchLoopMulti_scale k hk, List.map_map]
      rfl
  · unfold fCounterfactual
    have h : fCandidates identF (factual.map (Rule.scale k')) inst (rules.map (Rule.scale k)) c num tau =
        (fCandidates identF factual inst rules c num tau).map (List.map (scaleCand k)) := by
      unfold fCandidates
      rw [otherClass_scale, List.zipIdx_map, mapM_map_candidates (h := scaleCand k)
        (G := fun p => do let d ← fDist (identF p.2) factual inst num tau p.1; pure (p.1, d))]
      · cases (otherClass rules c).zipIdx.mapM (fun p => do let d ← fDist (identF p.2) factual inst num tau p.1; pure (p.1, d)) with
        | error e => rfl
        | ok ds =>
          show Except.ok _ = Except.ok _
          congr 1
          rw [List.filter_map]; rfl
      · intro p _
        show (fDist (identF p.2) (factual.map (Rule.scale k')) inst num tau (p.1.scale k) >>= fun d => pure (p.1.scale k, d)) = _
        rw [fDist_scale]
        cases fDist (identF p.2) factual inst num tau p.1 <;> rfl
    rw [h]
    cases fCandidates identF factual inst rules c num tau with
    | error e => rfl
    | ok cfs => exact searchCf_scale k hk inst c rules cfs
  · unfold dCounterfactual
    rw [otherClass_scale, mapM_map_candidates (h := scaleCand k)
      (G := fun r => do let d ← dDist parse dist cont inst r; pure (r, d))]
    · cases (otherClass rules c).mapM (fun r => do let d ← dDist parse dist cont inst r; pure (r, d)) with
      | error e => rfl
      | ok cfs => exact searchCf_scale k hk inst c rules cfs
    · intro r _
      show (dDist parse dist cont inst r >>= fun d => pure (r.scale k, d)) = _
      cases dDist parse dist cont inst r <;> rfl

/-! ### C188: the order of the rules -/

/-- the two answers are both `None`, or both the changes of rules of another class at the same distance. -/
def SameCf (E : Rule String C K → Py K) (rules : List (Rule String C K)) (inst : Inst K) (c : C) :
    Option (List (String × String)) → Option (List (String × String)) → Prop
  | none, none => True
  | some ch, some ch' => ∃ r ∈ rules, ∃ r' ∈ rules, r.consequent ≠ c ∧ r'.consequent ≠ c ∧ IsChanges r inst ch ∧ IsChanges r' inst ch' ∧
      ∃ d, E r = .ok d ∧ E r' = .ok d
  | _, _ => False

theorem search_order {D D' : Nat → Rule String C K → Py K} {E : Rule String C K → Py K} {rules rules' : List (Rule String C K)}
    {inst : Inst K} {c : C} {cfs cfs' : List (Rule String C K × K)} (q : K → Bool) (hnd : (Dict.keys inst).Nodup)
    (hp : rules.Perm rules') (hv : ∀ ch i, Moved inst ch i → weightedVote rules' i = weightedVote rules i)
    (hD : ∀ i r, (otherClass rules c)[i]? = some r → D i r = E r) (hD' : ∀ i r, (otherClass rules' c)[i]? = some r → D' i r = E r)
    (h : (otherClass rules c).zipIdx.mapM (fun p => do let d ← D p.2 p.1; pure (p.1, d)) = .ok cfs)
    (h' : (otherClass rules' c).zipIdx.mapM (fun p => do let d ← D' p.2 p.1; pure (p.1, d)) = .ok cfs')
    {o o' : Option (List (String × String))}
    (hs : searchCf inst c rules (cfs.filter (fun p => q p.2)) = .ok o)
    (hs' : searchCf inst c rules' (cfs'.filter (fun p => q p.2)) = .ok o') : SameCf E rules inst c o o' := by
  have hpo : (otherClass rules c).Perm (otherClass rules' c) := hp.filter _
  have hfb : ∀ ch, FlipsBy rules' inst c ch ↔ FlipsBy rules inst c ch := by
    intro ch
    constructor
    · rintro ⟨i, c', h1, h2, h3⟩; exact ⟨i, c', h1, by rw [← hv ch i h1]; exact h2, h3⟩
    · rintro ⟨i, c', h1, h2, h3⟩; exact ⟨i, c', h1, by rw [hv ch i h1]; exact h2, h3⟩
  have hrf : ∀ r, RuleFlips rules' inst c r ↔ RuleFlips rules inst c r := by
    intro r; simp only [RuleFlips, hfb]
  have hmem : ∀ r ∈ otherClass rules c, r ∈ rules ∧ r.consequent ≠ c := fun r hr => by
    have := List.mem_filter.1 hr; simpa using this
  cases o with
  | none =>
    cases o' with
    | none => trivial
    | some ch' =>
      exfalso
      obtain ⟨i, r, d, e1, e2, hq, e3, e4, -⟩ := search_closest q hnd h' hs'
      obtain ⟨j, hj⟩ := List.mem_iff_getElem?.1 (hpo.mem_iff.2 (List.mem_of_getElem? e1))
      obtain ⟨d', f1, f2⟩ := search_none q hnd h hs j r hj
      rw [hD j r hj, ← hD' i r e1, e2, Except.ok.injEq] at f1
      subst f1
      exact f2 hq ⟨ch', e3, (hfb ch').1 e4⟩
  | some ch =>
    obtain ⟨i, r, d, e1, e2, hq, e3, e4, e5⟩ := search_closest q hnd h hs
    cases o' with
    | none =>
      exfalso
      obtain ⟨j, hj⟩ := List.mem_iff_getElem?.1 (hpo.mem_iff.1 (List.mem_of_getElem? e1))
      obtain ⟨d', f1, f2⟩ := search_none q hnd h' hs' j r hj
      rw [hD' j r hj, ← hD i r e1, e2, Except.ok.injEq] at f1
      subst f1
      exact f2 hq ⟨ch, e3, (hfb ch).2 e4⟩
    | some ch' =>
      obtain ⟨i', r', d', e1', e2', hq', e3', e4', e5'⟩ := search_closest q hnd h' hs'
      have m := List.mem_of_getElem? e1
      have m' := List.mem_of_getElem? e1'
      have n := hmem r m
      have n' := hmem r' (hpo.mem_iff.2 m')
      obtain ⟨j, hj⟩ := List.mem_iff_getElem?.1 (hpo.mem_iff.1 m)
      obtain ⟨j', hj'⟩ := List.mem_iff_getElem?.1 (hpo.mem_iff.2 m')
      have g : E r = .ok d := by rw [← hD i r e1]; exact e2
      have g' : E r' = .ok d' := by rw [← hD' i' r' e1']; exact e2'
      obtain ⟨t, t1, t2⟩ := e5 j' r' hj' ⟨ch', e3', (hfb ch').1 e4'⟩
      obtain ⟨t', t1', t2'⟩ := e5' j r hj ⟨ch, e3, (hfb ch).2 e4⟩
      rw [hD j' r' hj', g', Except.ok.injEq] at t1
      rw [hD' j r hj, g, Except.ok.injEq] at t1'
      subst t1; subst t1'
      have hdd : d = d' := le_antisymm (t2 hq').1 (t2' hq).1
      exact ⟨r, n.1, r', n'.1, n.2, n'.2, e3, e3', d, g, by rw [g', hdd]⟩

/-- C188 for `i_counterfactual`: if the vote on the modified instances does not depend on the
order of the rules (see `C188_vote`), nor the identity of the strings of
a rule on its position, then two orders of the rule list either both give `None` or both give changes of rules at the same
distance. -/
theorem C188_i_order {rules rules' : List (Rule String C K)} {inst : Inst K} {c : C} (hnd : (Dict.keys inst).Nodup)
    (hp : rules.Perm rules') (hv : ∀ ch i, Moved inst ch i → weightedVote rules' i = weightedVote rules i) (idr : Rule String C K → String → Bool)
    (ident ident' : Nat → String → Bool) (hid : ∀ i r, (rules.filter (fun r => r.consequent ≠ c))[i]? = some r → ident i = idr r)
    (hid' : ∀ i r, (rules'.filter (fun r => r.consequent ≠ c))[i]? = some r → ident' i = idr r) (num : List String)
    {o o' : Option (List (String × String))} (h : iCounterfactual ident inst rules c num = .ok o)
    (h' : iCounterfactual ident' inst rules' c num = .ok o') :
    SameCf (fun r => cfDistInstance (idr r) r inst num) rules inst c o o' := by
  obtain ⟨cfs, h1, h2⟩ := iCandidates_some h
  obtain ⟨cfs', h1', h2'⟩ := iCandidates_some h'
  refine search_order (D := fun i r => cfDistInstance (ident i) r inst num) (D' := fun i r => cfDistInstance (ident' i) r inst num)
    (fun _ => true) hnd hp hv ?_ ?_ h1 h1' h2 h2'
  · intro i r hi; simp only [hid i r hi]
  · intro i r hi; simp only [hid' i r hi]

/-- C188 for `f_counterfactual`. -/
theorem C188_f_order {rules rules' : List (Rule String C K)} {inst : Inst K} {c : C} (hnd : (Dict.keys inst).Nodup)
    (hp : rules.Perm rules') (hv : ∀ ch i, Moved inst ch i → weightedVote rules' i = weightedVote rules i) (idr : Rule String C K → Nat → String → Bool)
    (ident ident' : Nat → Nat → String → Bool) (hid : ∀ i r, (rules.filter (fun r => r.consequent ≠ c))[i]? = some r → ident i = idr r)
    (hid' : ∀ i r, (rules'.filter (fun r => r.consequent ≠ c))[i]? = some r → ident' i = idr r) (factual : List (Rule String C K))
    (num : List String) (tau : K) {o o' : Option (List (String × String))}
    (h : fCounterfactual ident factual inst rules c num tau = .ok o)
    (h' : fCounterfactual ident' factual inst rules' c num tau = .ok o') :
    SameCf (fun r => fDist (idr r) factual inst num tau r) rules inst c o o' := by
  obtain ⟨cfs, h1, h2⟩ := fCandidates_some h
  obtain ⟨cfs', h1', h2'⟩ := fCandidates_some h'
  refine search_order (D := fun i r => fDist (ident i) factual inst num tau r) (D' := fun i r => fDist (ident' i) factual inst num tau r)
    (fun d => decide (0 < d)) hnd hp hv ?_ ?_ h1 h1' h2 h2'
  · intro i r hi; simp only [hid i r hi]
  · intro i r hi; simp only [hid' i r hi]

/-- C188 for `d_counterfactual`. -/
theorem C188_d_order {rules rules' : List (Rule String C K)} {inst : Inst K} {c : C} (hnd : (Dict.keys inst).Nodup)
    (hp : rules.Perm rules') (hv : ∀ ch i, Moved inst ch i → weightedVote rules' i = weightedVote rules i) (parse : String → Py K)
    (dist : List (Cell K) → Py K) (cont : List Nat) {o o' : Option (List (String × String))}
    (h : dCounterfactual parse dist cont inst rules c = .ok o) (h' : dCounterfactual parse dist cont inst rules' c = .ok o') :
    SameCf (fun r => dDist parse dist cont inst r) rules inst c o o' := by
  obtain ⟨cfs, h1, h2⟩ := dCandidates_some h
  obtain ⟨cfs', h1', h2'⟩ := dCandidates_some h'
  exact search_order (D := fun _ r => dDist parse dist cont inst r) (D' := fun _ r => dDist parse dist cont inst r)
    (fun _ => true) hnd hp hv (fun _ _ _ => rfl) (fun _ _ _ => rfl) h1 h1' h2 h2'

/-- C188: the vote does not depend on an order of the rules that keeps the class of every position, whatever the instance. -/
theorem C188_vote {rules rules' : List (Rule String C K)} (hp : rules.Perm rules')
    (hc : rules.map Rule.consequent = rules'.map Rule.consequent) (hant : ∀ r ∈ rules, r.antecedent ≠ []) (inst : Inst K) :
    weightedVote rules' inst = weightedVote rules inst := by
  by_cases hne : rules = []
  · subst hne; rw [List.nil_perm.1 hp]
  obtain ⟨deg, hdeg⟩ := matching_total rules inst hant
  have hdeg' : ∀ r ∈ rules', r.matching inst = .ok (deg r) := fun r hr => hdeg r (hp.mem_iff.2 hr)
  have hne' : rules' ≠ [] := by rintro rfl; exact hne (List.perm_nil.1 hp)
  obtain ⟨a, h1, -, h3, pre, r, post, h4, h5, h6⟩ := weightedVoteWith_spec (fun r => r.matching inst) deg rules hdeg hne
  obtain ⟨b, g1, -, g3, pre', r', post', g4, g5, g6⟩ := weightedVoteWith_spec (fun r => r.matching inst) deg rules' hdeg' hne'
  show weightedVoteWith _ rules' = weightedVoteWith _ rules
  rw [h1, g1]
  have hact := activation_perm deg hp
  have key : ∀ (l l' p q p' q' : List (Rule String C K)) (s s' : Rule String C K), l = p ++ s :: q → l' = p' ++ s' :: q' →
      l.map Rule.consequent = l'.map Rule.consequent → p.length < p'.length → ∃ t ∈ p', t.consequent = s.consequent := by
    rintro l l' p q p' q' s s' rfl rfl he hlt
    have e := congrArg (fun m => m[p.length]?) he
    simp only [List.getElem?_map, List.getElem?_append_right (le_refl _), Nat.sub_self, List.getElem?_cons_zero,
      List.getElem?_append_left hlt, List.getElem?_eq_getElem hlt, Option.map_some, Option.some.injEq] at e
    exact ⟨p'[p.length], List.getElem_mem hlt, e.symm⟩
  have inA : a ∈ rules.map Rule.consequent := by rw [← h5, h4]; simp
  have inB : b ∈ rules'.map Rule.consequent := by rw [← g5, g4]; simp
  congr 1
  rcases Nat.lt_trichotomy pre.length pre'.length with hlt | heq | hgt
  · exfalso
    obtain ⟨t, ht, hte⟩ := key _ _ _ _ _ _ _ _ h4 g4 hc hlt
    have x := g6 t ht
    rw [hte, h5, ← hact, ← hact] at x
    exact absurd (h3 b (hc ▸ inB)) (not_le.2 x)
  · have e := hc
    rw [h4, g4, List.map_append, List.map_append, List.map_cons, List.map_cons] at e
    have e' := (List.append_inj e (by simpa using heq)).2
    rw [← h5, ← g5]
    exact (List.cons.inj e').1.symm
  · exfalso
    obtain ⟨t, ht, hte⟩ := key _ _ _ _ _ _ _ _ g4 h4 hc.symm hgt
    have x := h6 t ht
    rw [hte, g5, hact, hact] at x
    exact absurd (g3 a (hc ▸ inA)) (not_le.2 x)

/-! ### C189: minimality -/

/-- C189, the part that holds: if a proper part of the returned changes flips the class and is what some rule of another class
asks for, that rule is at least as far from the instance. -/
theorem C189_minimal_partial (ident : Nat → String → Bool) (inst : Inst K) (rules : List (Rule String C K)) (c : C)
    (num : List String) (hnd : (Dict.keys inst).Nodup) (ch : List (String × String))
    (h : iCounterfactual ident inst rules c num = .ok (some ch)) :
    ∃ i r d, (rules.filter (fun r => r.consequent ≠ c))[i]? = some r ∧ cfDistInstance (ident i) r inst num = .ok d ∧ IsChanges r inst ch ∧
      ∀ part, part.Sublist ch → FlipsBy rules inst c part →
        ∀ j r', (rules.filter (fun r => r.consequent ≠ c))[j]? = some r' → IsChanges r' inst part →
          ∃ d', cfDistInstance (ident j) r' inst num = .ok d' ∧ d ≤ d' := by
  obtain ⟨i, r, d, e1, e2, e3, e4⟩ := C54_i_closest ident inst rules c num hnd ch h
  refine ⟨i, r, d, e1, e2, e3, ?_⟩
  intro part _ hf j r' hj hch
  obtain ⟨d', g1, g2, -⟩ := e4 j r' hj ⟨part, hch, hf⟩
  exact ⟨d', g1, g2⟩

end

/-- an instance and rules for `C189_minimal_false`. -/
def minInst : Inst ℚ := [("age", [("low", 1), ("high", 0)]), ("sex", [("m", 1), ("f", 0)])]
def minRules : List (Rule String Nat ℚ) :=
  [⟨[("age", "low")], 0, 1⟩, ⟨[("age", "high"), ("sex", "f")], 1, 1⟩, ⟨[("sex", "m")], 1, 1/2⟩]

theorem minInst_vote : weightedVote minRules minInst = .ok 0 ∧
    iCounterfactual (fun _ k => k = "age") minInst minRules 0 ["age"] = .ok (some [("age", "high"), ("sex", "f")]) ∧
    weightedVote minRules [("age", [("low", 0), ("high", 1)]), ("sex", [("m", 1), ("f", 0)])] = .ok 1 := by decide +kernel

/-- C189 is false of the code: the changes can be more than what is needed to flip the class. -/
theorem C189_minimal_false : ¬ ∀ (ident : Nat → String → Bool) (inst : Inst ℚ) (rules : List (Rule String Nat ℚ)) (c : Nat)
    (num : List String) (ch : List (String × String)), (Dict.keys inst).Nodup → weightedVote rules inst = .ok c →
    iCounterfactual ident inst rules c num = .ok (some ch) →
    ∀ part, part.Sublist ch → part.length < ch.length → ¬ FlipsBy rules inst c part := by
  intro h
  refine h _ minInst minRules 0 ["age"] _ (by decide +kernel) minInst_vote.1 minInst_vote.2.1 [("age", "high")]
    (by simp) (by simp) ⟨[("age", [("low", 0), ("high", 1)]), ("sex", [("m", 1), ("f", 0)])], 1, ?_, minInst_vote.2.2, by decide⟩
  unfold Moved minInst
  refine .cons ⟨rfl, ?_, ?_⟩ (.cons ⟨rfl, ?_, ?_⟩ .nil)
  · intro v hv
    simp only [List.mem_singleton, Prod.mk.injEq, true_and] at hv
    subst hv
    decide +kernel
  · intro hv
    exact absurd (by simp) (hv "high")
  · intro v hv
    simp at hv
  · intro _; rfl

/-- the hypotheses of C188 hold for two orders of the rules of `Props/CfDistance`, which exchange the two rules of class 1. -/
example : ∃ o o', dCounterfactual (fun _ => .ok 0) (fun _ => .ok 0) [] cfInst cfRules 0 = .ok o ∧
    dCounterfactual (fun _ => .ok 0) (fun _ => .ok 0) [] cfInst
      [⟨[("age", "low")], 0, 1⟩, ⟨[("sex", "f")], 1, 1⟩, ⟨[("age", "high"), ("sex", "m")], 2, 1⟩, ⟨[("age", "mid")], 1, 1⟩] 0 = .ok o' ∧
    o ≠ o' ∧ SameCf (fun r => dDist (fun _ => .ok 0) (fun _ => .ok 0) [] cfInst r) cfRules cfInst 0 o o' := by
  have h1 : dCounterfactual (fun _ => .ok 0) (fun _ => .ok 0) [] cfInst cfRules 0 = .ok (some [("age", "mid")]) := by decide +kernel
  have h2 : dCounterfactual (fun _ => .ok 0) (fun _ => .ok 0) [] cfInst
      [⟨[("age", "low")], 0, 1⟩, ⟨[("sex", "f")], 1, 1⟩, ⟨[("age", "high"), ("sex", "m")], 2, 1⟩, ⟨[("age", "mid")], 1, 1⟩] 0 =
      .ok (some [("sex", "f")]) := by decide +kernel
  have hp : cfRules.Perm [⟨[("age", "low")], 0, 1⟩, ⟨[("sex", "f")], 1, 1⟩, ⟨[("age", "high"), ("sex", "m")], 2, 1⟩, ⟨[("age", "mid")], 1, 1⟩] := by
    decide +kernel
  exact ⟨_, _, h1, h2, by decide, C188_d_order (by decide +kernel) hp
    (fun _ i _ => C188_vote hp (by decide +kernel) (by decide +kernel) i) _ _ _ h1 h2⟩

end Teacher
