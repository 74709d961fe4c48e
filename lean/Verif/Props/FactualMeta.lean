import Verif.Props.Factual
import Verif.Props.RowOrder

/-!
# C183–C186: how the factual explanations react to a change of the rule base

Order of the rules, rules that do not speak, the scale of the weights, and how the three explanations are nested.
-/

set_option linter.unusedSectionVars false

namespace Teacher
open Spec

section
variable {V C K : Type} [Field K] [LinearOrder K] [IsStrictOrderedRing K]

/-! ### closed forms: every explanation is a prefix of the sorted fired rules, of a length given by their activations -/

/-- how many rules the loop of `mr_factual` keeps, from the activations. -/
def mrCount (rt : K) : K → List K → Nat
  | _, [] => 0
  | ad, a :: as => if rt < ad then 0 else mrCount rt (ad + a) as + 1

/-- how many rules the loop of `c_factual` keeps, from the activations. -/
def cCount (lam : K) (beta : Option K) : K → K → List K → Py Nat
  | _, _, [] => .ok 0
  | prev, ad, m :: ms => do
    let factor ← pyDiv prev m
    if 1 + lam < factor ∧ betaReached beta ad = true then pure 0
    else do
      let n ← cCount lam beta m (ad + m) ms
      pure (n + 1)

/-- `m_factual` from the activations, which are in decreasing order. -/
def mCount (as : List K) : Py Nat := do
  let avg ← pyDiv as.sum (as.length : K)
  pure (as.countP (fun a => avg ≤ a))

def cCountTop (lam : K) (beta : Option K) : List K → Py Nat
  | [] => .error .indexError
  | a :: as => do
    let n ← cCount lam beta a a as
    pure (n + 1)

variable {matching : Rule V C K → Py K} {deg : Rule V C K → K}

theorem mrLoop_count (rt : K) : ∀ (l : List (Rule V C K)) (ad : K), (∀ r ∈ l, matching r = .ok (deg r)) →
    mrLoop matching rt ad l = .ok (l.take (mrCount rt ad (l.map (ruleAct deg))))
  | [], _, _ => rfl
  | r :: l, ad, h => by
    simp only [mrLoop, List.map_cons, mrCount]
    split
    · rfl
    · rw [act_ok (h r (by simp)), py_bind_ok, mrLoop_count rt l _ (fun y hy => h y (by simp [hy]))]
      rfl

theorem cLoop_count (lam : K) (beta : Option K) : ∀ (l : List (Rule V C K)) (prev ad : K), (∀ r ∈ l, matching r = .ok (deg r)) →
    cLoop matching lam beta prev ad l = (cCount lam beta prev ad (l.map (ruleAct deg))).map (fun n => l.take n)
  | [], _, _, _ => rfl
  | r :: l, prev, ad, h => by
    simp only [cLoop, List.map_cons, cCount]
    rw [act_ok (h r (by simp)), py_bind_ok]
    cases pyDiv prev (ruleAct deg r) with
    | error e => rfl
    | ok f =>
      simp only [py_bind_ok]
      split
      · rfl
      · rw [cLoop_count lam beta l _ _ (fun y hy => h y (by simp [hy]))]
        cases cCount lam beta (ruleAct deg r) (ad + ruleAct deg r) (l.map (ruleAct deg)) <;> rfl

theorem filter_desc_take (key : α → K) (t : K) : ∀ l : List α, l.Pairwise (fun a b => key b ≤ key a) →
    l.filter (fun a => t ≤ key a) = l.take ((l.map key).countP (fun a => t ≤ a))
  | [], _ => rfl
  | a :: l, h => by
    rw [List.pairwise_cons] at h
    have ih := filter_desc_take key t l h.2
    by_cases ha : t ≤ key a
    · rw [List.filter_cons_of_pos (by simpa using ha), List.map_cons, List.countP_cons_of_pos (by simpa using ha),
        List.take_succ_cons, ih]
    · have h0 : ∀ b ∈ l, ¬ t ≤ key b := fun b hb hc => ha (le_trans hc (h.1 b hb))
      have e1 : l.filter (fun a => t ≤ key a) = [] := by
        rw [List.filter_eq_nil_iff]; intro b hb; simpa using h0 b hb
      rw [List.filter_cons_of_neg (by simpa using ha), e1, List.map_cons, List.countP_cons_of_neg (by simpa using ha)]
      have e2 : (l.map key).countP (fun a => t ≤ a) = 0 := by
        rw [List.countP_eq_zero]
        intro x hx
        obtain ⟨b, hb, rfl⟩ := List.mem_map.1 hx
        simpa using h0 b hb
      rw [e2]; rfl

variable {rs rs' : List (Rule V C K)}

theorem sorted_deg [DecidableEq C] (hdeg : ∀ r ∈ rs, matching r = .ok (deg r)) (c : C) :
    ∀ r ∈ sortDesc (ruleAct deg) (firedOf deg rs c), matching r = .ok (deg r) := fun r hr =>
  hdeg r (List.mem_filter.1 ((sortDesc_spec _ _).perm.mem_iff.1 hr)).1

theorem mFactual_count [DecidableEq C] (hdeg : ∀ r ∈ rs, matching r = .ok (deg r)) (c : C) :
    mFactual matching rs c = (mCount ((sortDesc (ruleAct deg) (firedOf deg rs c)).map (ruleAct deg))).map
      (fun n => (sortDesc (ruleAct deg) (firedOf deg rs c)).take n) := by
  have hd := sorted_deg hdeg c
  have hs := (sortDesc_spec (ruleAct deg) (firedOf deg rs c)).desc
  unfold mFactual mCount
  rw [classFired_ok hdeg]
  simp only [py_bind_ok, sumAct_ok hd, List.length_map, mass]
  cases pyDiv ((sortDesc (ruleAct deg) (firedOf deg rs c)).map (ruleAct deg)).sum ((sortDesc (ruleAct deg) (firedOf deg rs c)).length : K) with
  | error e => rfl
  | ok avg =>
    simp only [py_bind_ok]
    rw [filterPy_ok _ (fun r => decide (avg ≤ ruleAct deg r)), filter_desc_take _ _ _ hs]
    · rfl
    · intro r hr
      rw [act_ok (hd r hr)]; rfl

theorem mrFactual_count [LinearOrder C] (hdeg : ∀ r ∈ rs, matching r = .ok (deg r)) (c : C) :
    mrFactual matching rs c = (robustThreshold matching rs c).map (fun rt => (sortDesc (ruleAct deg) (firedOf deg rs c)).take
      (mrCount rt 0 ((sortDesc (ruleAct deg) (firedOf deg rs c)).map (ruleAct deg)))) := by
  unfold mrFactual
  rw [classFired_ok hdeg, py_bind_ok]
  cases robustThreshold matching rs c with
  | error e => rfl
  | ok rt => exact mrLoop_count rt _ 0 (sorted_deg hdeg c)

theorem cFactual_count [DecidableEq C] (hdeg : ∀ r ∈ rs, matching r = .ok (deg r)) (c : C) (lam : K) (beta : Option K) :
    cFactual matching rs c lam beta = (cCountTop lam beta ((sortDesc (ruleAct deg) (firedOf deg rs c)).map (ruleAct deg))).map
      (fun n => (sortDesc (ruleAct deg) (firedOf deg rs c)).take n) := by
  have hd := sorted_deg hdeg c
  unfold cFactual
  rw [classFired_ok hdeg, py_bind_ok]
  cases hL : sortDesc (ruleAct deg) (firedOf deg rs c) with
  | nil => rfl
  | cons r l =>
    rw [hL] at hd
    simp only [List.map_cons, cCountTop]
    rw [act_ok (hd r (by simp)), py_bind_ok, cLoop_count lam beta l _ _ (fun y hy => hd y (by simp [hy]))]
    cases cCount lam beta (ruleAct deg r) (ruleAct deg r) (l.map (ruleAct deg)) <;> rfl

/-! ### C183: the order of the rules -/

/-- the same exception, or two lists of rules with the same activations, position by position. -/
def SameActivations (deg : Rule V C K → K) : Py (List (Rule V C K)) → Py (List (Rule V C K)) → Prop
  | .ok a, .ok b => a.map (ruleAct deg) = b.map (ruleAct deg)
  | .error e, .error e' => e = e'
  | _, _ => False

theorem firedOf_perm [DecidableEq C] (deg : Rule V C K → K) (hp : rs.Perm rs') (c : C) :
    (firedOf deg rs c).Perm (firedOf deg rs' c) := hp.filter _

theorem sortDesc_perm_acts {α : Type} (key : α → K) {l l' : List α} (hp : l.Perm l') :
    (sortDesc key l).map key = (sortDesc key l').map key := by
  have h1 := sortDesc_spec key l
  have h2 := sortDesc_spec key l'
  refine List.Perm.eq_of_pairwise (le := fun a b : K => b ≤ a) (fun a b _ _ hab hba => le_antisymm hba hab) ?_ ?_
    ((h1.perm.trans (hp.trans h2.perm.symm)).map key)
  · exact List.pairwise_map.2 h1.desc
  · exact List.pairwise_map.2 h2.desc

theorem robustThreshold_perm [LinearOrder C] (hdeg : ∀ r ∈ rs, matching r = .ok (deg r)) (hp : rs.Perm rs') (c : C) :
    robustThreshold matching rs c = robustThreshold matching rs' c := by
  have hdeg' : ∀ r ∈ rs', matching r = .ok (deg r) := fun r hr => hdeg r (hp.mem_iff.2 hr)
  unfold robustThreshold
  simp only
  rw [npUnique_perm ((hp.filter _).map _), mapM_ok_of_forall _ (activation deg rs) _ (fun c' _ => classMass_ok hdeg c'),
    mapM_ok_of_forall _ (activation deg rs') _ (fun c' _ => classMass_ok hdeg' c')]
  congr 2
  apply List.map_congr_left
  intro c' _
  exact activation_perm deg hp c'

theorem sameActivations_map {β : Type} (x : Py β) (f g : β → List (Rule V C K))
    (h : ∀ b, (f b).map (ruleAct deg) = (g b).map (ruleAct deg)) : SameActivations deg (x.map f) (x.map g) := by
  cases x with
  | error e => rfl
  | ok b => exact h b

/-- C183: the order of the rule list never changes the activations of the rules an explanation consists of, nor whether
and how it fails. -/
theorem C183_order [LinearOrder C] (hdeg : ∀ r ∈ rs, matching r = .ok (deg r)) (hp : rs.Perm rs') (c : C) (lam : K)
    (beta : Option K) :
    SameActivations deg (mFactual matching rs c) (mFactual matching rs' c) ∧
    SameActivations deg (mrFactual matching rs c) (mrFactual matching rs' c) ∧
    SameActivations deg (cFactual matching rs c lam beta) (cFactual matching rs' c lam beta) := by
  have hdeg' : ∀ r ∈ rs', matching r = .ok (deg r) := fun r hr => hdeg r (hp.mem_iff.2 hr)
  have ha := sortDesc_perm_acts (ruleAct deg) (firedOf_perm deg hp c)
  refine ⟨?_, ?_, ?_⟩
  · rw [mFactual_count hdeg, mFactual_count hdeg', ← ha]
    exact sameActivations_map _ _ _ fun n => by rw [List.map_take, List.map_take, ha]
  · rw [mrFactual_count hdeg, mrFactual_count hdeg', ← ha, robustThreshold_perm hdeg hp]
    exact sameActivations_map _ _ _ fun n => by rw [List.map_take, List.map_take, ha]
  · rw [cFactual_count hdeg, cFactual_count hdeg', ← ha]
    exact sameActivations_map _ _ _ fun n => by rw [List.map_take, List.map_take, ha]

/-- C183: `m_factual` is moreover always the same collection of rules. -/
theorem C183_m_same_rules [DecidableEq C] (hdeg : ∀ r ∈ rs, matching r = .ok (deg r)) (hp : rs.Perm rs') (c : C)
    (out : List (Rule V C K)) (h : mFactual matching rs c = .ok out) :
    ∃ out', mFactual matching rs' c = .ok out' ∧ out'.Perm out := by
  have hdeg' : ∀ r ∈ rs', matching r = .ok (deg r) := fun r hr => hdeg r (hp.mem_iff.2 hr)
  have hf := firedOf_perm deg hp c
  by_cases hne : firedOf deg rs c = []
  · rw [(C49_m_factual matching deg rs hdeg c).2 hne] at h; cases h
  · have hne' : firedOf deg rs' c ≠ [] := fun e => hne (List.perm_nil.1 (e ▸ hf))
    obtain ⟨o, h1, h2, -⟩ := (C49_m_factual matching deg rs hdeg c).1 hne
    obtain ⟨o', h1', h2', -⟩ := (C49_m_factual matching deg rs' hdeg' c).1 hne'
    rw [h, Except.ok.injEq] at h1
    subst h1
    refine ⟨o', h1', h2'.perm.trans (List.Perm.trans ?_ h2.perm.symm)⟩
    have hm : mass deg (firedOf deg rs' c) = mass deg (firedOf deg rs c) := ((hf.map _).sum_eq).symm
    rw [hm, ← hf.length_eq]
    exact (hf.filter _).symm

/-- C183: when no two fired rules of the class have the same activation, the three explanations do not depend on the order
of the rule list at all. -/
theorem C183_no_ties [LinearOrder C] (hdeg : ∀ r ∈ rs, matching r = .ok (deg r)) (hp : rs.Perm rs') (c : C) (lam : K)
    (beta : Option K) (hd : (firedOf deg rs c).Pairwise (fun a b => ruleAct deg a ≠ ruleAct deg b)) :
    mFactual matching rs' c = mFactual matching rs c ∧ mrFactual matching rs' c = mrFactual matching rs c ∧
    cFactual matching rs' c lam beta = cFactual matching rs c lam beta := by
  have hdeg' : ∀ r ∈ rs', matching r = .ok (deg r) := fun r hr => hdeg r (hp.mem_iff.2 hr)
  have hf := firedOf_perm deg hp c
  have hs : sortDesc (ruleAct deg) (firedOf deg rs' c) = sortDesc (ruleAct deg) (firedOf deg rs c) := by
    have h1 := sortDesc_spec (ruleAct deg) (firedOf deg rs c)
    have h2 := sortDesc_spec (ruleAct deg) (firedOf deg rs' c)
    have hpp := h2.perm.trans (hf.symm.trans h1.perm.symm)
    have hnd : (sortDesc (ruleAct deg) (firedOf deg rs c)).Pairwise (fun a b => ruleAct deg a ≠ ruleAct deg b) :=
      (h1.perm.pairwise_iff (fun {a b} h => Ne.symm h)).2 hd
    have hinj : ∀ a ∈ sortDesc (ruleAct deg) (firedOf deg rs c), ∀ b ∈ sortDesc (ruleAct deg) (firedOf deg rs c),
        ruleAct deg a = ruleAct deg b → a = b := by
      intro a ha b hb hab
      by_contra hne
      have : Std.Symm (fun a b : Rule V C K => ruleAct deg a ≠ ruleAct deg b) := ⟨fun _ _ h => Ne.symm h⟩
      exact hnd.forall ha hb hne hab
    refine List.Perm.eq_of_pairwise (le := fun a b => ruleAct deg b ≤ ruleAct deg a) ?_ h2.desc h1.desc hpp
    intro a b ha hb hab hba
    exact hinj a (hpp.mem_iff.1 ha) b hb (le_antisymm hba hab)
  refine ⟨?_, ?_, ?_⟩
  · rw [mFactual_count hdeg, mFactual_count hdeg', hs]
  · rw [mrFactual_count hdeg, mrFactual_count hdeg', hs, robustThreshold_perm hdeg hp]
  · rw [cFactual_count hdeg, cFactual_count hdeg', hs]

/-! ### C184: rules that do not speak -/

/-- C184: `m_factual` and `c_factual` depend on the rule list only through the fired rules of the class: rules of other
classes and rules that are not fired can be added, removed or changed at will. -/
theorem C184_irrelevant_rules [DecidableEq C] (hdeg : ∀ r ∈ rs, matching r = .ok (deg r)) (hdeg' : ∀ r ∈ rs', matching r = .ok (deg r))
    (c : C) (lam : K) (beta : Option K) (h : firedOf deg rs c = firedOf deg rs' c) :
    mFactual matching rs c = mFactual matching rs' c ∧ cFactual matching rs c lam beta = cFactual matching rs' c lam beta := by
  rw [mFactual_count hdeg, mFactual_count hdeg', cFactual_count hdeg, cFactual_count hdeg', h]
  exact ⟨rfl, rfl⟩

/-- C184: `mr_factual` depends in addition only on the total activations of the other classes of the rule list (their rules
count whether they are fired or not). -/
theorem C184_mr_irrelevant [LinearOrder C] (hdeg : ∀ r ∈ rs, matching r = .ok (deg r)) (hdeg' : ∀ r ∈ rs', matching r = .ok (deg r))
    (c : C) (h : firedOf deg rs c = firedOf deg rs' c)
    (hact : ∀ c', c' ≠ c → activation deg rs c' = activation deg rs' c')
    (hcls : ∀ c', c' ≠ c → ((∃ r ∈ rs, r.consequent = c') ↔ ∃ r ∈ rs', r.consequent = c')) :
    mrFactual matching rs c = mrFactual matching rs' c := by
  rw [mrFactual_count hdeg, mrFactual_count hdeg', h]
  congr 1
  by_cases hex : ∃ r ∈ rs, r.consequent ≠ c
  · have hex' : ∃ r ∈ rs', r.consequent ≠ c := by
      obtain ⟨r, hr, hc⟩ := hex
      obtain ⟨r', hr', he⟩ := (hcls _ hc).1 ⟨r, hr, rfl⟩
      exact ⟨r', hr', he ▸ hc⟩
    obtain ⟨t, h1, ⟨c₁, hc₁, hi₁, rfl⟩, h3⟩ := robustThreshold_ok hdeg c hex
    obtain ⟨t', h1', ⟨c₂, hc₂, hi₂, rfl⟩, h3'⟩ := robustThreshold_ok hdeg' c hex'
    rw [h1, h1']
    congr 1
    apply le_antisymm
    · rw [hact c₁ hc₁]; exact h3' c₁ hc₁ ((hcls _ hc₁).1 hi₁)
    · rw [← hact c₂ hc₂]; exact h3 c₂ hc₂ ((hcls _ hc₂).2 hi₂)
  · have hall : ∀ r ∈ rs, r.consequent = c := fun r hr => by_contra fun hc => hex ⟨r, hr, hc⟩
    have hall' : ∀ r ∈ rs', r.consequent = c := fun r hr => by_contra fun hc => by
      obtain ⟨r', hr', he⟩ := (hcls _ hc).2 ⟨r, hr, rfl⟩
      exact hc (he ▸ hall r' hr')
    rw [robustThreshold_none c hall, robustThreshold_none c hall']

/-! ### C185: the scale of the weights -/

theorem pyDiv_scale {k : K} (hk : 0 < k) (a b : K) : pyDiv (k * a) (k * b) = pyDiv a b := by
  unfold pyDiv
  rw [mul_div_mul_left _ _ hk.ne']
  by_cases hb : b = 0 <;> simp [hb, hk.ne']

theorem mrCount_scale {k : K} (hk : 0 < k) (rt : K) : ∀ (as : List K) (ad : K),
    mrCount (k * rt) (k * ad) (as.map (k * ·)) = mrCount rt ad as
  | [], _ => rfl
  | a :: as, ad => by
    simp only [mrCount, List.map_cons, ← mul_add, mrCount_scale hk rt as, mul_lt_mul_iff_right₀ hk]

theorem cCount_scale {k : K} (hk : 0 < k) (lam : K) (beta : Option K) : ∀ (as : List K) (prev ad : K),
    cCount lam (beta.map (k * ·)) (k * prev) (k * ad) (as.map (k * ·)) = cCount lam beta prev ad as
  | [], _, _ => rfl
  | a :: as, prev, ad => by
    have hb : betaReached (beta.map (k * ·)) (k * ad) = betaReached beta ad := by
      cases beta with
      | none => rfl
      | some b => simp [betaReached, mul_le_mul_iff_right₀ hk]
    simp only [cCount, List.map_cons, ← mul_add, cCount_scale hk lam beta as, pyDiv_scale hk, hb]

theorem mCount_scale {k : K} (hk : 0 < k) (as : List K) : mCount (as.map (k * ·)) = mCount as := by
  unfold mCount
  have hs : (as.map (k * ·)).sum = k * as.sum := by rw [List.sum_map_mul_left]; simp
  rw [hs, List.length_map]
  unfold pyDiv
  split
  · rfl
  · simp only [py_bind_ok, py_pure, List.countP_map, Function.comp_def, mul_div_assoc, mul_le_mul_iff_right₀ hk]

theorem sortDesc_map {α β : Type} (key : α → K) (key' : β → K) (f : α → β) (l : List α)
    (h : ∀ a ∈ l, ∀ b ∈ l, key' (f b) ≤ key' (f a) ↔ key b ≤ key a) :
    sortDesc key' (l.map f) = (sortDesc key l).map f := by
  have aux : ∀ (m : List α) (a : α), (∀ b ∈ m, key' (f b) ≤ key' (f a) ↔ key b ≤ key a) →
      (m.map f).orderedInsert (fun a b => key' b ≤ key' a) (f a) = (m.orderedInsert (fun a b => key b ≤ key a) a).map f := by
    intro m a
    induction m with
    | nil => intro _; rfl
    | cons b m ih =>
      intro h
      simp only [List.map_cons, List.orderedInsert, h b (by simp)]
      split
      · rfl
      · rw [ih (fun y hy => h y (by simp [hy]))]; rfl
  induction l with
  | nil => rfl
  | cons a l ih =>
    show ((sortDesc key' (l.map f))).orderedInsert _ (f a) = ((sortDesc key l).orderedInsert _ a).map f
    rw [ih (fun x hx y hy => h x (by simp [hx]) y (by simp [hy]))]
    apply aux
    intro b hb
    exact h a (by simp) b (by simp [(sortDesc_spec key l).perm.mem_iff.1 hb])

/-- C185: multiplying all the weights by one positive number (and `beta` with them) multiplies the weights of the rules in
the explanations and changes nothing else. -/
theorem C185_scale [LinearOrder C] (hdeg : ∀ r ∈ rs, matching r = .ok (deg r)) (k : K) (hk : 0 < k)
    (hm : ∀ r ∈ rs, matching (r.scale k) = matching r) (c : C) (lam : K) (beta : Option K) :
    mFactual matching (rs.map (Rule.scale k)) c = (mFactual matching rs c).map (List.map (Rule.scale k)) ∧
    mrFactual matching (rs.map (Rule.scale k)) c = (mrFactual matching rs c).map (List.map (Rule.scale k)) ∧
    cFactual matching (rs.map (Rule.scale k)) c lam (beta.map (k * ·)) =
      (cFactual matching rs c lam beta).map (List.map (Rule.scale k)) := by
  -- the degree of a scaled rule
  let deg' : Rule V C K → K := fun r => match matching r with | .ok m => m | .error _ => 0
  have hde : ∀ r ∈ rs, deg' r = deg r := fun r hr => by simp only [deg', hdeg r hr]
  have hdes : ∀ r ∈ rs, deg' (r.scale k) = deg' r := fun r hr => by simp only [deg', hm r hr]
  have hdeg₁ : ∀ r ∈ rs, matching r = .ok (deg' r) := fun r hr => by rw [hde r hr]; exact hdeg r hr
  have hdeg₂ : ∀ r ∈ rs.map (Rule.scale k), matching r = .ok (deg' r) := by
    intro r hr
    obtain ⟨q, hq, rfl⟩ := List.mem_map.1 hr
    rw [hm q hq, hdes q hq]; exact hdeg₁ q hq
  have hra : ∀ r ∈ rs, ruleAct deg' (r.scale k) = k * ruleAct deg' r := by
    intro r hr
    unfold ruleAct
    rw [hdes r hr]; unfold Rule.scale; ring
  have hfired : firedOf deg' (rs.map (Rule.scale k)) c = (firedOf deg' rs c).map (Rule.scale k) := by
    unfold firedOf
    rw [List.filter_map]
    congr 1
    apply List.filter_congr
    intro r hr
    simp only [Function.comp, hdes r hr]
    rfl
  have hsub : ∀ r ∈ firedOf deg' rs c, r ∈ rs := fun r hr => (List.mem_filter.1 hr).1
  have hsort : sortDesc (ruleAct deg') (firedOf deg' (rs.map (Rule.scale k)) c) =
      (sortDesc (ruleAct deg') (firedOf deg' rs c)).map (Rule.scale k) := by
    rw [hfired]
    apply sortDesc_map
    intro a ha b hb
    rw [hra a (hsub a ha), hra b (hsub b hb), mul_le_mul_iff_right₀ hk]
  have hacts : (sortDesc (ruleAct deg') (firedOf deg' (rs.map (Rule.scale k)) c)).map (ruleAct deg') =
      ((sortDesc (ruleAct deg') (firedOf deg' rs c)).map (ruleAct deg')).map (k * ·) := by
    rw [hsort, List.map_map, List.map_map]
    apply List.map_congr_left
    intro r hr
    exact hra r (hsub r ((sortDesc_spec _ _).perm.mem_iff.1 hr))
  have hthr : robustThreshold matching (rs.map (Rule.scale k)) c = (robustThreshold matching rs c).map (k * ·) := by
    have hact : ∀ c', activation deg' (rs.map (Rule.scale k)) c' = k * activation deg' rs c' := by
      intro c'
      unfold activation
      rw [List.filter_map, List.map_map, ← List.sum_map_mul_left]
      congr 1
      apply List.map_congr_left
      intro r hr
      exact hra r (List.mem_filter.1 hr).1
    by_cases hex : ∃ r ∈ rs, r.consequent ≠ c
    · have hex' : ∃ r ∈ rs.map (Rule.scale k), r.consequent ≠ c := by
        obtain ⟨r, hr, hc⟩ := hex
        exact ⟨r.scale k, List.mem_map_of_mem hr, hc⟩
      have hcls : ∀ c', (∃ r ∈ rs.map (Rule.scale k), r.consequent = c') ↔ ∃ r ∈ rs, r.consequent = c' := by
        intro c'
        constructor
        · rintro ⟨r, hr, he⟩
          obtain ⟨q, hq, rfl⟩ := List.mem_map.1 hr
          exact ⟨q, hq, he⟩
        · rintro ⟨r, hr, he⟩
          exact ⟨r.scale k, List.mem_map_of_mem hr, he⟩
      obtain ⟨t, h1, ⟨c₁, hc₁, hi₁, rfl⟩, h3⟩ := robustThreshold_ok hdeg₁ c hex
      obtain ⟨t', h1', ⟨c₂, hc₂, hi₂, rfl⟩, h3'⟩ := robustThreshold_ok hdeg₂ c hex'
      rw [h1, h1']
      show Except.ok _ = Except.ok _
      congr 1
      apply le_antisymm
      · show _ ≤ k * activation deg' rs c₁
        rw [hact]; exact mul_le_mul_of_nonneg_left (h3 c₂ hc₂ ((hcls _).1 hi₂)) hk.le
      · show k * activation deg' rs c₁ ≤ _
        rw [← hact]; exact h3' c₁ hc₁ ((hcls _).2 hi₁)
    · have hall : ∀ r ∈ rs, r.consequent = c := fun r hr => by_contra fun hc => hex ⟨r, hr, hc⟩
      have hall' : ∀ r ∈ rs.map (Rule.scale k), r.consequent = c := by
        intro r hr
        obtain ⟨q, hq, rfl⟩ := List.mem_map.1 hr
        exact hall q hq
      rw [robustThreshold_none c hall, robustThreshold_none c hall']; rfl
  refine ⟨?_, ?_, ?_⟩
  · rw [mFactual_count hdeg₁, mFactual_count hdeg₂, hacts, hsort, mCount_scale hk]
    cases mCount ((sortDesc (ruleAct deg') (firedOf deg' rs c)).map (ruleAct deg')) with
    | error e => rfl
    | ok n => simp only [Except.map, List.map_take]
  · rw [mrFactual_count hdeg₁, mrFactual_count hdeg₂, hacts, hsort, hthr]
    cases robustThreshold matching rs c with
    | error e => rfl
    | ok rt =>
      have := mrCount_scale hk rt ((sortDesc (ruleAct deg') (firedOf deg' rs c)).map (ruleAct deg')) 0
      rw [mul_zero] at this
      simp only [Except.map, List.map_take, this]
  · rw [cFactual_count hdeg₁, cFactual_count hdeg₂, hacts, hsort]
    cases hL : (sortDesc (ruleAct deg') (firedOf deg' rs c)).map (ruleAct deg') with
    | nil => rfl
    | cons a as =>
      simp only [List.map_cons, cCountTop, cCount_scale hk]
      cases cCount lam beta a a as with
      | error e => rfl
      | ok n => simp only [py_bind_ok, py_pure, Except.map, List.map_take]

/-! ### C186: the three explanations are nested -/

/-- C186: of any two explanations of the same class (by any of the three methods, with any parameters) one is an initial
segment of the other. -/
theorem C186_nested [LinearOrder C] (hdeg : ∀ r ∈ rs, matching r = .ok (deg r)) (c : C) (o o' : List (Rule V C K))
    (ho : mFactual matching rs c = .ok o ∨ mrFactual matching rs c = .ok o ∨ ∃ lam beta, cFactual matching rs c lam beta = .ok o)
    (ho' : mFactual matching rs c = .ok o' ∨ mrFactual matching rs c = .ok o' ∨ ∃ lam beta, cFactual matching rs c lam beta = .ok o') :
    o <+: o' ∨ o' <+: o := by
  have key : ∀ o, (mFactual matching rs c = .ok o ∨ mrFactual matching rs c = .ok o ∨ ∃ lam beta, cFactual matching rs c lam beta = .ok o) →
      o <+: sortDesc (ruleAct deg) (firedOf deg rs c) := by
    have aux : ∀ {β : Type} (x : Py β) (f : β → Nat) (L o : List (Rule V C K)), x.map (fun b => L.take (f b)) = .ok o → o <+: L := by
      intro β x f L o h
      cases x with
      | error e => cases h
      | ok b =>
        simp only [Except.map, Except.ok.injEq] at h
        subst h
        exact List.take_prefix _ _
    intro o ho
    rcases ho with h | h | ⟨lam, beta, h⟩
    · rw [mFactual_count hdeg] at h; exact aux _ (fun n => n) _ _ h
    · rw [mrFactual_count hdeg] at h; exact aux _ _ _ _ h
    · rw [cFactual_count hdeg] at h; exact aux _ (fun n => n) _ _ h
  exact List.prefix_or_prefix_of_prefix (key o ho) (key o' ho')

end

/-! ### the hypotheses hold for the rules of `Props/Factual` -/

example : mrFactual (fun r => r.matching facInst) facRules.reverse 0 = mrFactual (fun r => r.matching facInst) facRules 0 ∧
    cFactual (fun r => r.matching facInst) facRules.reverse 0 (1/10) (some 1) = cFactual (fun r => r.matching facInst) facRules 0 (1/10) (some 1) :=
  (C183_no_ties facDeg_ok (List.reverse_perm _).symm 0 (1/10) (some 1) (by decide +kernel)).2

/-- two rules of class 0 with the same activation: the order decides which one `mr_factual` returns, so the hypothesis of
`C183_no_ties` is needed. -/
example : (mrFactual (fun r => r.matching facInst) [⟨[("sex", "m")], 0, 1⟩, ⟨[("age", "high"), ("sex", "m")], 0, 4/3⟩, ⟨[("sex", "f")], 1, 1⟩] (0 : Nat)).toOption
      = some [⟨[("sex", "m")], 0, 1⟩] ∧
    (mrFactual (fun r => r.matching facInst) [⟨[("age", "high"), ("sex", "m")], 0, 4/3⟩, ⟨[("sex", "m")], 0, 1⟩, ⟨[("sex", "f")], 1, 1⟩] (0 : Nat)).toOption
      = some [⟨[("age", "high"), ("sex", "m")], 0, 4/3⟩] := by decide +kernel

/-- the rules of class 0 alone give the same `m_factual` and `c_factual` (and `mr_factual` fails with them). -/
example : mFactual (fun r => r.matching facInst) facRules 0 = mFactual (fun r => r.matching facInst) (facRules.take 3) 0 ∧
    cFactual (fun r => r.matching facInst) facRules 0 1 none = cFactual (fun r => r.matching facInst) (facRules.take 3) 0 1 none :=
  C184_irrelevant_rules facDeg_ok (fun r hr => facDeg_ok r (List.mem_of_mem_take hr)) 0 1 none (by decide +kernel)

/-- weights three times as large. -/
example : mrFactual (fun r => r.matching facInst) (facRules.map (Rule.scale 3)) 1 =
    (mrFactual (fun r => r.matching facInst) facRules 1).map (List.map (Rule.scale 3)) :=
  (C185_scale facDeg_ok 3 (by norm_num) (fun _ _ => rfl) 1 0 none).2.1

end Teacher
