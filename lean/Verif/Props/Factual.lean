import Verif.Lemmas.Factual
import Verif.Props.Rule

/-!
# C48–C52: factual explanations

`matching` is the matching of the rules with the instance, for either kind of rule; the hypothesis
`∀ r ∈ rs, matching r = .ok (deg r)` says that the rules have a non-empty antecedent (see `C17_matching`,
`C17_matching_multi`) and names their degrees.
-/

set_option linter.unusedSectionVars false

namespace Teacher
open Spec

section
variable {V C K : Type} [Field K] [LinearOrder K] [IsStrictOrderedRing K]
variable (matching : Rule V C K → Py K) (deg : Rule V C K → K) (rs : List (Rule V C K))

/-! ### C48 -/

/-- C48: `FID3_factual` returns the first of the rules with the largest degree among all the rules, if that degree is
above the threshold; otherwise no rule is fired and it raises `ValueError`. -/
theorem C48_fid3_factual (hdeg : ∀ r ∈ rs, matching r = .ok (deg r)) (th : K) :
    ((∃ r ∈ rs, th < deg r) → ∃ m, fid3Factual matching rs th = .ok m ∧ m ∈ rs ∧ th < deg m ∧ IsFirstMax deg rs m) ∧
    ((∀ r ∈ rs, deg r ≤ th) → fid3Factual matching rs th = .error .valueError) := by
  have hk : (rs.filter (fun r => th < deg r)).mapM matching = .ok ((rs.filter (fun r => th < deg r)).map deg) :=
    mapM_ok_of_forall _ _ _ (fun r hr => hdeg r (List.mem_filter.1 hr).1)
  unfold fid3Factual
  rw [firedRules_ok hdeg]
  simp only [py_bind_ok, hk, zip_map_self]
  constructor
  · rintro ⟨r, hr, hlt⟩
    have hne : (rs.filter (fun r => th < deg r)).map (fun a => (a, deg a)) ≠ [] :=
      List.ne_nil_of_mem (List.mem_map_of_mem (List.mem_filter.2 ⟨hr, by simpa using hlt⟩))
    obtain ⟨m, hm⟩ := pyMax_ok_of_ne_nil (Prod.snd : Rule V C K × K → K) _ hne
    obtain ⟨h1, h2, -⟩ := pyMax_eq_ok _ _ _ hm
    obtain ⟨m₀, hm₀, rfl⟩ := List.mem_map.1 h1
    obtain ⟨hm₁, hm₂⟩ := List.mem_filter.1 hm₀
    have hmth : th < deg m₀ := by simpa using hm₂
    have hmax : ∀ x ∈ rs, deg x ≤ deg m₀ := by
      intro x hx
      by_cases hxt : th < deg x
      · exact h2 (x, deg x) (List.mem_map_of_mem (f := fun a => (a, deg a)) (List.mem_filter.2 ⟨hx, by simpa using hxt⟩))
      · exact le_of_lt (lt_of_le_of_lt (not_lt.1 hxt) hmth)
    -- the first maximum of the whole list is also the first among the fired ones
    obtain ⟨m₁, hm₁'⟩ := pyMax_ok_of_ne_nil deg rs (List.ne_nil_of_mem hr)
    obtain ⟨hA, hB, pre, post, hC, hD⟩ := pyMax_eq_ok _ _ _ hm₁'
    have heq : deg m₁ = deg m₀ := le_antisymm (hmax _ hA) (hB _ hm₁)
    have hsplit : (rs.filter (fun r => th < deg r)).map (fun a => (a, deg a)) =
        (pre.filter (fun r => th < deg r)).map (fun a => (a, deg a)) ++
          (m₁, deg m₁) :: (post.filter (fun r => th < deg r)).map (fun a => (a, deg a)) := by
      rw [hC, List.filter_append, List.filter_cons_of_pos (by rw [heq]; simpa using hmth)]
      simp
    have hpost : ∀ x ∈ post, deg x ≤ deg m₁ := fun x hx => hB x (by rw [hC]; simp [hx])
    have := pyMax_eq_of_split (Prod.snd : Rule V C K × K → K) ((pre.filter (fun r => th < deg r)).map (fun a => (a, deg a)))
      ((post.filter (fun r => th < deg r)).map (fun a => (a, deg a))) (m₁, deg m₁)
      (by
        intro x hx
        obtain ⟨y, hy, rfl⟩ := List.mem_map.1 hx
        exact hD y (List.mem_filter.1 hy).1)
      (by
        intro x hx
        obtain ⟨y, hy, rfl⟩ := List.mem_map.1 hx
        exact hpost y (List.mem_filter.1 hy).1)
    rw [hsplit, this]
    refine ⟨m₁, rfl, hA, by rw [heq]; exact hmth, pre, post, hC, hD, hpost⟩
  · intro h
    have : rs.filter (fun r => th < deg r) = [] := by
      rw [List.filter_eq_nil_iff]; intro r hr; simpa using h r hr
    rw [this]
    rfl

/-! ### C49 -/

/-- C49: `m_factual` returns exactly the fired rules of the class whose activation is at least the mean of the activations
of the fired rules of the class, by decreasing activation (ties in the order of the rule list); the result is not empty
and begins with a rule of maximal activation. -/
theorem C49_m_factual [DecidableEq C] (hdeg : ∀ r ∈ rs, matching r = .ok (deg r)) (c : C) :
    (firedOf deg rs c ≠ [] → ∃ out, mFactual matching rs c = .ok out ∧
      SortedDesc (ruleAct deg) ((firedOf deg rs c).filter
        (fun r => mass deg (firedOf deg rs c) / ((firedOf deg rs c).length : K) ≤ ruleAct deg r)) out ∧
      ∃ r rest, out = r :: rest ∧ ∀ r' ∈ firedOf deg rs c, ruleAct deg r' ≤ ruleAct deg r) ∧
    (firedOf deg rs c = [] → mFactual matching rs c = .error .zeroDivision) := by
  have hs := sortDesc_spec (ruleAct deg) (firedOf deg rs c)
  have hdeg' : ∀ r ∈ sortDesc (ruleAct deg) (firedOf deg rs c), matching r = .ok (deg r) := by
    intro r hr
    exact hdeg r (List.mem_filter.1 (hs.perm.mem_iff.1 hr)).1
  unfold mFactual
  rw [classFired_ok hdeg]
  simp only [py_bind_ok, sumAct_ok hdeg']
  have hmass : mass deg (sortDesc (ruleAct deg) (firedOf deg rs c)) = mass deg (firedOf deg rs c) :=
    (hs.perm.map _).sum_eq
  have hlen : (sortDesc (ruleAct deg) (firedOf deg rs c)).length = (firedOf deg rs c).length := hs.perm.length_eq
  rw [hmass, hlen]
  constructor
  · intro hne
    have hl : ((firedOf deg rs c).length : K) ≠ 0 := by
      rw [Nat.cast_ne_zero]; exact fun h => hne (List.length_eq_zero_iff.1 h)
    simp only [pyDiv, if_neg hl, py_bind_ok]
    rw [filterPy_ok _ (fun r => decide (mass deg (firedOf deg rs c) / ((firedOf deg rs c).length : K) ≤ ruleAct deg r))]
    swap
    · intro r hr
      rw [act_ok (hdeg' r hr)]; rfl
    generalize hav : mass deg (firedOf deg rs c) / ((firedOf deg rs c).length : K) = avg
    refine ⟨_, rfl, ⟨hs.perm.filter _, hs.desc.filter _, ?_⟩, ?_⟩
    · intro k
      rw [List.filter_filter, List.filter_filter]
      have := congrArg (List.filter (fun r => decide (avg ≤ ruleAct deg r))) (hs.stable k)
      rw [List.filter_filter, List.filter_filter] at this
      simpa [Bool.and_comm] using this
    · cases hsd : sortDesc (ruleAct deg) (firedOf deg rs c) with
      | nil =>
        exfalso; rw [hsd] at hlen
        exact hne (List.length_eq_zero_iff.1 hlen.symm)
      | cons r rest =>
        have hd := hs.desc
        rw [hsd, List.pairwise_cons] at hd
        have hmax : ∀ r' ∈ firedOf deg rs c, ruleAct deg r' ≤ ruleAct deg r := by
          intro r' hr'
          have hm : r' ∈ r :: rest := by rw [← hsd]; exact hs.perm.mem_iff.2 hr'
          rcases List.mem_cons.1 hm with rfl | hm
          · exact le_refl _
          · exact hd.1 r' hm
        have havg : avg ≤ ruleAct deg r := by
          rw [← hav]
          have hpos : (0 : K) < ((firedOf deg rs c).length : K) :=
            lt_of_le_of_ne (Nat.cast_nonneg _) (Ne.symm hl)
          rw [div_le_iff₀ hpos]
          unfold mass
          have : ((firedOf deg rs c).map (ruleAct deg)).sum ≤
              ((firedOf deg rs c).map (ruleAct deg)).length • ruleAct deg r := by
            apply List.sum_le_card_nsmul
            intro x hx
            obtain ⟨r', hr', rfl⟩ := List.mem_map.1 hx
            exact hmax r' hr'
          rw [List.length_map, nsmul_eq_mul, mul_comm] at this
          exact this
        refine ⟨r, rest.filter (fun r => decide (avg ≤ ruleAct deg r)), ?_, hmax⟩
        rw [List.filter_cons_of_pos (by simpa using havg)]
  · intro he
    rw [he]
    simp [pyDiv]

/-! ### C50 -/

/-- C50: if the fired rules of the class out-vote every other class, the rules returned by `mr_factual` out-vote every other
class, and no sub-collection of the fired rules of the class with fewer rules does. -/
theorem C50_mr_factual_robust [LinearOrder C] (hdeg : ∀ r ∈ rs, matching r = .ok (deg r)) (c : C)
    (hex : ∃ r ∈ rs, r.consequent ≠ c) (hout : OutVotes deg rs c (mass deg (firedOf deg rs c))) :
    ∃ out, mrFactual matching rs c = .ok out ∧ OutVotes deg rs c (mass deg out) ∧ out.Subperm (firedOf deg rs c) ∧
      ∀ s, s.Subperm (firedOf deg rs c) → OutVotes deg rs c (mass deg s) → out.length ≤ s.length := by
  have hs := sortDesc_spec (ruleAct deg) (firedOf deg rs c)
  have hdeg' : ∀ r ∈ sortDesc (ruleAct deg) (firedOf deg rs c), matching r = .ok (deg r) := by
    intro r hr
    exact hdeg r (List.mem_filter.1 (hs.perm.mem_iff.1 hr)).1
  obtain ⟨rt, hrt, ⟨c₁, hc₁, hin, rfl⟩, hmax⟩ := robustThreshold_ok hdeg c hex
  obtain ⟨k, hk, h1, h2, h3⟩ := mrLoop_ok _ hdeg' (activation deg rs c₁) 0
  have hmass : mass deg (sortDesc (ruleAct deg) (firedOf deg rs c)) = mass deg (firedOf deg rs c) :=
    (hs.perm.map _).sum_eq
  unfold mrFactual
  rw [classFired_ok hdeg, hrt]
  simp only [py_bind_ok, h1]
  refine ⟨_, rfl, ?_, (List.take_sublist _ _).subperm.trans hs.perm.subperm, ?_⟩
  · have hlt : activation deg rs c₁ < mass deg ((sortDesc (ruleAct deg) (firedOf deg rs c)).take k) := by
      by_cases hkl : k < (sortDesc (ruleAct deg) (firedOf deg rs c)).length
      · simpa using h3 hkl
      · rw [List.take_of_length_le (by omega), hmass]
        exact hout c₁ hc₁ hin
    intro c' hc' hin'
    exact lt_of_le_of_lt (hmax c' hc' hin') hlt
  · intro s hsub hov
    by_contra hlen
    rw [not_le, List.length_take] at hlen
    obtain ⟨s', hperm, hs'⟩ := hsub.trans hs.perm.symm.subperm
    have hj := h2 s.length (by omega)
    have hle := sublist_sum_le_take (ruleAct deg) _ _ hs' hs.desc
    have hms : mass deg s = (s'.map (ruleAct deg)).sum := ((hperm.map _).sum_eq).symm
    rw [hperm.length_eq, ← hms] at hle
    have hov' := hov c₁ hc₁ hin
    unfold mass at hj hov' hle
    linarith

/-- C50: consequently the vote in which only the returned rules speak for the class still gives the class (for rules with
several sets per condition use `weightedVoteWith` with their matching). -/
theorem C50_mr_factual_vote [LinearOrder C] (hdeg : ∀ r ∈ rs, matching r = .ok (deg r)) (c : C)
    (hex : ∃ r ∈ rs, r.consequent ≠ c) (hout : OutVotes deg rs c (mass deg (firedOf deg rs c)))
    (hpos : ∃ c', c' ≠ c ∧ (∃ r ∈ rs, r.consequent = c') ∧ 0 ≤ activation deg rs c') :
    ∃ out, mrFactual matching rs c = .ok out ∧
      weightedVoteWith matching (out ++ rs.filter (fun r => r.consequent ≠ c)) = .ok c := by
  obtain ⟨out, h1, h2, h3, -⟩ := C50_mr_factual_robust matching deg rs hdeg c hex hout
  refine ⟨out, h1, ?_⟩
  have hmem : ∀ r ∈ out, r ∈ rs ∧ r.consequent = c := by
    intro r hr
    have := List.mem_filter.1 (h3.subset hr)
    simp only [decide_eq_true_eq] at this
    exact ⟨this.1, this.2.2⟩
  have hact : ∀ c', activation deg (out ++ rs.filter (fun r => r.consequent ≠ c)) c' =
      if c' = c then mass deg out else activation deg rs c' := by
    intro c'
    unfold activation
    rw [List.filter_append, List.filter_filter]
    split
    · rename_i he
      subst he
      have e1 : out.filter (fun r => r.consequent = c') = out := by
        rw [List.filter_eq_self]; intro r hr; simpa using (hmem r hr).2
      have e2 : rs.filter (fun r => decide (r.consequent = c') && decide (r.consequent ≠ c')) = [] := by
        rw [List.filter_eq_nil_iff]; intro r _; simp
      rw [e1, e2]; simp only [List.append_nil]; rfl
    · rename_i hne
      have e1 : out.filter (fun r => r.consequent = c') = [] := by
        rw [List.filter_eq_nil_iff]; intro r hr; rw [(hmem r hr).2]; simpa using Ne.symm hne
      rw [e1, List.nil_append]
      congr 2
      apply List.filter_congr
      intro r _
      by_cases hr : r.consequent = c' <;> simp [hr, hne]
  obtain ⟨c', hc', hin', h0⟩ := hpos
  have hne : out ≠ [] := by
    rintro rfl
    have := h2 c' hc' hin'
    simp only [mass, List.map_nil, List.sum_nil] at this
    exact absurd h0 (not_le.2 this)
  obtain ⟨r₀, hr₀⟩ := List.exists_mem_of_ne_nil _ hne
  apply weightedVoteWith_eq_of_strict matching deg
  · intro r hr
    rcases List.mem_append.1 hr with hr | hr
    · exact hdeg r (hmem r hr).1
    · exact hdeg r (List.mem_filter.1 hr).1
  · exact List.mem_map.2 ⟨r₀, List.mem_append.2 (.inl hr₀), (hmem r₀ hr₀).2⟩
  · intro c₂ hc₂ hne₂
    rw [hact, hact, if_neg hne₂, if_pos rfl]
    apply h2 c₂ hne₂
    obtain ⟨r, hr, rfl⟩ := List.mem_map.1 hc₂
    rcases List.mem_append.1 hr with hr | hr
    · exact absurd (hmem r hr).2 hne₂
    · exact ⟨r, (List.mem_filter.1 hr).1, rfl⟩

/-- C50: if the fired rules of the class do not out-vote every other class (non-negative weights), all of them are returned,
by decreasing activation; without rules of another class `mr_factual` raises `ValueError`. -/
theorem C50_mr_factual_otherwise [LinearOrder C] (hdeg : ∀ r ∈ rs, matching r = .ok (deg r)) (c : C) :
    ((∃ r ∈ rs, r.consequent ≠ c) → ¬ OutVotes deg rs c (mass deg (firedOf deg rs c)) → (∀ r ∈ rs, 0 ≤ r.weight) →
      ∃ out, mrFactual matching rs c = .ok out ∧ SortedDesc (ruleAct deg) (firedOf deg rs c) out) ∧
    ((∀ r ∈ rs, r.consequent = c) → mrFactual matching rs c = .error .valueError) := by
  have hs := sortDesc_spec (ruleAct deg) (firedOf deg rs c)
  have hdeg' : ∀ r ∈ sortDesc (ruleAct deg) (firedOf deg rs c), matching r = .ok (deg r) := by
    intro r hr
    exact hdeg r (List.mem_filter.1 (hs.perm.mem_iff.1 hr)).1
  unfold mrFactual
  rw [classFired_ok hdeg]
  simp only [py_bind_ok]
  constructor
  · intro hex hnot hw
    obtain ⟨rt, hrt, ⟨c₁, hc₁, hin, rfl⟩, hmax⟩ := robustThreshold_ok hdeg c hex
    obtain ⟨k, hk, h1, h2, h3⟩ := mrLoop_ok _ hdeg' (activation deg rs c₁) 0
    rw [hrt]
    simp only [py_bind_ok, h1]
    refine ⟨_, rfl, ?_⟩
    have hkl : ¬ k < (sortDesc (ruleAct deg) (firedOf deg rs c)).length := by
      intro hlt
      apply hnot
      have := h3 hlt
      intro c' hc' hin'
      refine lt_of_le_of_lt (hmax c' hc' hin') (lt_of_lt_of_le this ?_)
      have hsplit : mass deg (firedOf deg rs c) = mass deg ((sortDesc (ruleAct deg) (firedOf deg rs c)).take k) +
          mass deg ((sortDesc (ruleAct deg) (firedOf deg rs c)).drop k) := by
        have e1 : mass deg (sortDesc (ruleAct deg) (firedOf deg rs c)) = mass deg (firedOf deg rs c) :=
          (hs.perm.map _).sum_eq
        rw [← e1]
        unfold mass
        rw [← List.sum_append, ← List.map_append, List.take_append_drop]
      rw [hsplit, zero_add]
      have : 0 ≤ mass deg ((sortDesc (ruleAct deg) (firedOf deg rs c)).drop k) := by
        apply List.sum_nonneg
        intro x hx
        obtain ⟨r, hr, rfl⟩ := List.mem_map.1 hx
        have hr' := List.mem_filter.1 (hs.perm.mem_iff.1 (List.mem_of_mem_drop hr))
        simp only [decide_eq_true_eq] at hr'
        have h1 : (0 : K) < 1 / 1000 := by norm_num
        exact mul_nonneg (le_of_lt (lt_trans h1 hr'.2.1)) (hw r hr'.1)
      linarith
    rw [List.take_of_length_le (by omega)]
    exact hs
  · intro hall
    rw [robustThreshold_none c hall]
    rfl

/-! ### C51 -/

/-- `c_factual` must stop before position `i` of the sorted list `L`: the activation drops there by a factor above `1 + lam`
and, when `beta` is given, the mass of the previous rules has reached `beta`. -/
def StopAt (deg : Rule V C K → K) (lam : K) (beta : Option K) (L : List (Rule V C K)) (i : Nat) : Prop :=
  ∃ x y, L[i - 1]? = some x ∧ L[i]? = some y ∧ 1 + lam < ruleAct deg x / ruleAct deg y ∧
    ∀ b, beta = some b → b ≤ mass deg (L.take i)

/-- C51: with positive weights `c_factual` returns the prefix of the fired rules of the class, sorted by decreasing
activation, that ends before the first position (after the first rule) where it must stop; `IndexError` when no rule of the
class is fired. -/
theorem C51_c_factual [DecidableEq C] (hdeg : ∀ r ∈ rs, matching r = .ok (deg r)) (hw : ∀ r ∈ rs, 0 < r.weight) (c : C)
    (lam : K) (beta : Option K) :
    (firedOf deg rs c ≠ [] → ∃ L k, SortedDesc (ruleAct deg) (firedOf deg rs c) L ∧
      cFactual matching rs c lam beta = .ok (L.take k) ∧ 1 ≤ k ∧ k ≤ L.length ∧
      (∀ i, 1 ≤ i → i < k → ¬ StopAt deg lam beta L i) ∧ (k < L.length → StopAt deg lam beta L k)) ∧
    (firedOf deg rs c = [] → cFactual matching rs c lam beta = .error .indexError) := by
  have hs := sortDesc_spec (ruleAct deg) (firedOf deg rs c)
  have hdeg' : ∀ r ∈ sortDesc (ruleAct deg) (firedOf deg rs c), matching r = .ok (deg r) := by
    intro r hr
    exact hdeg r (List.mem_filter.1 (hs.perm.mem_iff.1 hr)).1
  have h0 : ∀ r ∈ sortDesc (ruleAct deg) (firedOf deg rs c), ruleAct deg r ≠ 0 := by
    intro r hr
    have hr' := List.mem_filter.1 (hs.perm.mem_iff.1 hr)
    simp only [decide_eq_true_eq] at hr'
    have h1 : (0 : K) < 1 / 1000 := by norm_num
    exact ne_of_gt (mul_pos (lt_trans h1 hr'.2.1) (hw r hr'.1))
  unfold cFactual
  rw [classFired_ok hdeg]
  simp only [py_bind_ok]
  constructor
  · intro hne
    refine ⟨sortDesc (ruleAct deg) (firedOf deg rs c), ?_⟩
    cases hsd : sortDesc (ruleAct deg) (firedOf deg rs c) with
    | nil =>
      exfalso
      have := hs.perm.length_eq
      rw [hsd] at this
      exact hne (List.length_eq_zero_iff.1 this.symm)
    | cons r rest =>
      rw [hsd] at hs hdeg' h0
      obtain ⟨k, hk, h1, h2, h3⟩ := cLoop_ok rest (fun y hy => hdeg' y (by simp [hy])) (fun y hy => h0 y (by simp [hy]))
        lam beta r 0
      rw [zero_add] at h1
      simp only [act_ok (hdeg' r (by simp)), py_bind_ok, h1, py_pure]
      refine ⟨k + 1, hs, by simp, by omega, by simpa using hk, ?_, ?_⟩
      · intro i hi hik
        obtain ⟨j, rfl⟩ : ∃ j, i = j + 1 := ⟨i - 1, by omega⟩
        have := h2 j (by omega)
        simpa only [StopAt, Nat.add_sub_cancel, List.getElem?_cons_succ, zero_add] using this
      · intro hlt
        have := h3 (by simpa using hlt)
        simpa only [StopAt, Nat.add_sub_cancel, List.getElem?_cons_succ, zero_add] using this
  · intro he
    rw [he]
    rfl

/-- the sorted list is determined by the list. -/
theorem Spec.SortedDesc.unique {α : Type} {key : α → K} {l : List α} : ∀ {o o' : List α}, SortedDesc key l o →
    SortedDesc key l o' → o = o' := by
  have aux : ∀ (o o' : List α), o.Pairwise (fun a b => key b ≤ key a) → o'.Pairwise (fun a b => key b ≤ key a) →
      (∀ k, o.filter (fun a => key a = k) = o'.filter (fun a => key a = k)) → o = o' := by
    intro o
    induction o with
    | nil =>
      intro o' _ _ hf
      cases o' with
      | nil => rfl
      | cons b o' => have := hf (key b); simp at this
    | cons a o ih =>
      intro o' hp hp' hf
      cases o' with
      | nil => have := hf (key a); simp at this
      | cons b o' =>
        rw [List.pairwise_cons] at hp hp'
        have ha : a ∈ (b :: o').filter (fun x => key x = key a) := by rw [← hf]; simp
        have hb : b ∈ (a :: o).filter (fun x => key x = key b) := by rw [hf]; simp
        have h1 : key a ≤ key b := by
          rcases List.mem_cons.1 (List.mem_filter.1 ha).1 with rfl | h
          · exact le_refl _
          · exact hp'.1 a h
        have h2 : key b ≤ key a := by
          rcases List.mem_cons.1 (List.mem_filter.1 hb).1 with rfl | h
          · exact le_refl _
          · exact hp.1 b h
        have hk : key a = key b := le_antisymm h1 h2
        have h3 := hf (key a)
        rw [List.filter_cons_of_pos (by simp), List.filter_cons_of_pos (by simp [hk]), List.cons.injEq] at h3
        obtain ⟨rfl, -⟩ := h3
        congr 1
        apply ih o' hp.2 hp'.2
        intro k
        have h4 := hf k
        by_cases hka : key a = k
        · rw [List.filter_cons_of_pos (by simpa using hka), List.filter_cons_of_pos (by simpa using hka),
            List.cons.injEq] at h4
          exact h4.2
        · rw [List.filter_cons_of_neg (by simpa using hka), List.filter_cons_of_neg (by simpa using hka)] at h4
          exact h4
  intro o o' h h'
  exact aux o o' h.desc h'.desc (fun k => (h.stable k).trans (h'.stable k).symm)

/-- C51: the explanation without `beta` never drops by a factor above `1 + lam` between consecutive rules. -/
theorem C51_no_large_drop [DecidableEq C] (hdeg : ∀ r ∈ rs, matching r = .ok (deg r)) (hw : ∀ r ∈ rs, 0 < r.weight) (c : C)
    (lam : K) (out : List (Rule V C K)) (h : cFactual matching rs c lam none = .ok out) (i : Nat) (x y : Rule V C K)
    (hx : out[i]? = some x) (hy : out[i + 1]? = some y) : ruleAct deg x ≤ (1 + lam) * ruleAct deg y := by
  obtain ⟨h1, h2⟩ := C51_c_factual matching deg rs hdeg hw c lam none
  have hne : firedOf deg rs c ≠ [] := by
    intro he; rw [h2 he] at h; cases h
  obtain ⟨L, k, hL, hk, hk1, hkl, hstop, -⟩ := h1 hne
  rw [hk, Except.ok.injEq] at h
  subst h
  have hik : i + 1 < k := by
    by_contra hc
    rw [List.getElem?_take, if_neg hc] at hy
    cases hy
  rw [List.getElem?_take_of_lt (by omega)] at hx hy
  have hn := hstop (i + 1) (by omega) hik
  have hfac : ruleAct deg x / ruleAct deg y ≤ 1 + lam := by
    by_contra hlt
    exact hn ⟨x, y, by simpa using hx, hy, not_le.1 hlt, by simp⟩
  have hym : y ∈ L := List.mem_of_getElem? hy
  have hr' := List.mem_filter.1 (hL.perm.mem_iff.1 hym)
  simp only [decide_eq_true_eq] at hr'
  have h1 : (0 : K) < 1 / 1000 := by norm_num
  have hpos : 0 < ruleAct deg y := mul_pos (lt_trans h1 hr'.2.1) (hw y hr'.1)
  exact (div_le_iff₀ hpos).1 hfac

/-- C51: the explanation grows with `lam` and with `beta`, no `beta` giving the smallest one. -/
theorem C51_monotone [DecidableEq C] (hdeg : ∀ r ∈ rs, matching r = .ok (deg r)) (hw : ∀ r ∈ rs, 0 < r.weight) (c : C)
    (lam lam' : K) (beta beta' : Option K) (hlam : lam ≤ lam')
    (hbeta : ∀ b, beta = some b → ∃ b', beta' = some b' ∧ b ≤ b')
    (out : List (Rule V C K)) (h : cFactual matching rs c lam beta = .ok out) :
    ∃ out', cFactual matching rs c lam' beta' = .ok out' ∧ out <+: out' := by
  obtain ⟨h1, h2⟩ := C51_c_factual matching deg rs hdeg hw c lam beta
  have hne : firedOf deg rs c ≠ [] := by
    intro he; rw [h2 he] at h; cases h
  obtain ⟨L, k, hL, hk, hk1, hkl, hstop, -⟩ := h1 hne
  obtain ⟨L', k', hL', hk', hk1', hkl', hstop', hs'⟩ := (C51_c_factual matching deg rs hdeg hw c lam' beta').1 hne
  obtain rfl := hL.unique hL'
  rw [hk, Except.ok.injEq] at h
  subst h
  refine ⟨_, hk', ?_⟩
  have hle : k ≤ k' := by
    by_contra hlt
    apply hstop k' hk1' (by omega)
    obtain ⟨x, y, hx, hy, hd, hb⟩ := hs' (by omega)
    refine ⟨x, y, hx, hy, lt_of_le_of_lt (by linarith) hd, ?_⟩
    intro b hbe
    obtain ⟨b', hb', hle⟩ := hbeta b hbe
    exact le_trans hle (hb b' hb')
  exact List.take_prefix_take_left hle

/-- C51: with `beta` the explanation is all the fired rules of the class or has mass at least `beta`. -/
theorem C51_beta_mass [DecidableEq C] (hdeg : ∀ r ∈ rs, matching r = .ok (deg r)) (hw : ∀ r ∈ rs, 0 < r.weight) (c : C)
    (lam b : K) (out : List (Rule V C K)) (h : cFactual matching rs c lam (some b) = .ok out) :
    out.Perm (firedOf deg rs c) ∨ b ≤ mass deg out := by
  obtain ⟨h1, h2⟩ := C51_c_factual matching deg rs hdeg hw c lam (some b)
  have hne : firedOf deg rs c ≠ [] := by
    intro he; rw [h2 he] at h; cases h
  obtain ⟨L, k, hL, hk, hk1, hkl, -, hs⟩ := h1 hne
  rw [hk, Except.ok.injEq] at h
  subst h
  by_cases hkl' : k < L.length
  · right
    obtain ⟨x, y, -, -, -, hb⟩ := hs hkl'
    exact hb b rfl
  · left
    rw [List.take_of_length_le (by omega)]
    exact hL.perm

/-! ### C52 -/

/-- C52: every rule of the three explanations is a rule of the list, of the class, fired by the instance, and the rules are
listed by decreasing activation. No hypothesis on the weights. -/
theorem C52_only_fired_rules [LinearOrder C] (hdeg : ∀ r ∈ rs, matching r = .ok (deg r)) (c : C) (out : List (Rule V C K))
    (h : mFactual matching rs c = .ok out ∨ mrFactual matching rs c = .ok out ∨
      ∃ lam beta, cFactual matching rs c lam beta = .ok out) :
    (∀ r ∈ out, r ∈ rs ∧ r.consequent = c ∧ 1 / 1000 < deg r) ∧ out.Pairwise (fun a b => ruleAct deg b ≤ ruleAct deg a) := by
  have hs := sortDesc_spec (ruleAct deg) (firedOf deg rs c)
  have key : out.Sublist (sortDesc (ruleAct deg) (firedOf deg rs c)) := by
    have hdeg' : ∀ r ∈ sortDesc (ruleAct deg) (firedOf deg rs c), matching r = .ok (deg r) := by
      intro r hr
      exact hdeg r (List.mem_filter.1 (hs.perm.mem_iff.1 hr)).1
    rcases h with h | h | ⟨lam, beta, h⟩
    · unfold mFactual at h
      rw [classFired_ok hdeg] at h
      simp only [py_bind_ok, sumAct_ok hdeg'] at h
      rw [py_bind_eq_ok] at h
      obtain ⟨avg, -, h⟩ := h
      rw [filterPy_ok _ (fun r => decide (avg ≤ ruleAct deg r)), Except.ok.injEq] at h
      · rw [← h]; exact List.filter_sublist
      · intro r hr
        rw [act_ok (hdeg' r hr)]; rfl
    · unfold mrFactual at h
      rw [classFired_ok hdeg] at h
      simp only [py_bind_ok] at h
      rw [py_bind_eq_ok] at h
      obtain ⟨rt, -, h⟩ := h
      obtain ⟨k, -, h1, -⟩ := mrLoop_ok _ hdeg' rt 0
      rw [h1, Except.ok.injEq] at h
      rw [← h]; exact List.take_sublist _ _
    · unfold cFactual at h
      rw [classFired_ok hdeg] at h
      simp only [py_bind_ok] at h
      cases hsd : sortDesc (ruleAct deg) (firedOf deg rs c) with
      | nil => rw [hsd] at h; cases h
      | cons r rest =>
        rw [hsd] at h
        simp only [py_bind_eq_ok] at h
        obtain ⟨prev, -, more, hm, he⟩ := h
        simp only [py_pure, Except.ok.injEq] at he
        rw [← he]
        apply List.Sublist.cons_cons
        have aux : ∀ (l : List (Rule V C K)) (p a : K) (o : List (Rule V C K)),
            cLoop matching lam beta p a l = .ok o → o.Sublist l := by
          intro l
          induction l with
          | nil => intro p a o h; simp only [cLoop, Except.ok.injEq] at h; rw [← h]
          | cons r l ih =>
            intro p a o h
            unfold cLoop at h
            simp only [py_bind_eq_ok] at h
            obtain ⟨m, -, f, -, h⟩ := h
            split at h
            · simp only [py_pure, Except.ok.injEq] at h
              rw [← h]; exact List.nil_sublist _
            · rw [py_bind_eq_ok] at h
              obtain ⟨o', ho', h⟩ := h
              simp only [py_pure, Except.ok.injEq] at h
              rw [← h]; exact (ih _ _ _ ho').cons_cons _
        exact aux _ _ _ _ hm
  refine ⟨?_, hs.desc.sublist key⟩
  intro r hr
  have := List.mem_filter.1 (hs.perm.mem_iff.1 (key.subset hr))
  simp only [decide_eq_true_eq] at this
  exact ⟨this.1, this.2.2, this.2.1⟩

end

/-! ### A concrete rule base -/

/-- four rules of class 0, two of class 1, one of class 2. -/
def facRules : List (Rule String Nat ℚ) :=
  [⟨[("age", "low")], 0, 1⟩, ⟨[("age", "high")], 0, 1/2⟩, ⟨[("age", "high"), ("sex", "m")], 0, 1⟩,
   ⟨[("sex", "f")], 0, 1⟩, ⟨[("age", "low"), ("sex", "m")], 1, 1⟩, ⟨[("sex", "m")], 1, 1/10⟩, ⟨[("sex", "f")], 2, 1⟩]

/-- `age` is 1/4 low and 3/4 high, `sex` is m. -/
def facInst : Inst ℚ := [("age", [("low", 1/4), ("high", 3/4)]), ("sex", [("m", 1), ("f", 0)])]

/-- the degrees of the rules in the instance. -/
def facDeg (r : Rule String Nat ℚ) : ℚ := (r.matching facInst).toOption.getD 0

theorem facDeg_ok : ∀ r ∈ facRules, r.matching facInst = .ok (facDeg r) := by decide +kernel

example : (fid3Factual (fun r => r.matching facInst) facRules (1/100)).toOption = facRules[5]? ∧
    fid3Factual (fun r => r.matching facInst) facRules 1 = .error .valueError ∧
    (mFactual (fun r => r.matching facInst) facRules 0).toOption = some [facRules[2]] ∧
    mFactual (fun r => r.matching facInst) facRules 2 = .error .zeroDivision ∧
    (mrFactual (fun r => r.matching facInst) facRules 0).toOption = some [facRules[2]] ∧
    (mrFactual (fun r => r.matching facInst) facRules 1).toOption = some [facRules[4], facRules[5]] ∧
    (cFactual (fun r => r.matching facInst) facRules 0 (1/10) none).toOption = some [facRules[2]] ∧
    (cFactual (fun r => r.matching facInst) facRules 0 1 none).toOption = some [facRules[2], facRules[1], facRules[0]] ∧
    (cFactual (fun r => r.matching facInst) facRules 0 (1/10) (some 1)).toOption = some [facRules[2], facRules[1]] ∧
    cFactual (fun r => r.matching facInst) facRules 2 1 none = .error .indexError := by decide +kernel

/-- the hypotheses of C48–C52 hold for it. -/
example : (∃ r ∈ facRules, 1/100 < facDeg r) ∧ firedOf facDeg facRules 0 ≠ [] ∧ firedOf facDeg facRules 2 = [] ∧
    (∃ r ∈ facRules, r.consequent ≠ 0) ∧ (∀ r ∈ facRules, 0 < r.weight) ∧ 0 ≤ activation facDeg facRules 1 := by
  decide +kernel

example : OutVotes facDeg facRules 0 (mass facDeg (firedOf facDeg facRules 0)) ∧
    ¬ OutVotes facDeg facRules 1 (mass facDeg (firedOf facDeg facRules 1)) := by
  constructor
  · rintro c' hc ⟨r, hr, rfl⟩
    revert r
    decide +kernel
  · intro h
    have := h 0 (by decide) (by decide +kernel)
    revert this
    decide +kernel

end Teacher
