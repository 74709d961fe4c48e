import Verif.Props.ID3Predict
import Verif.Props.Factual
import Mathlib.Data.String.Basic

/-! # C154: the factual of FID3, put together by hand from an ID3 tree over labels and the memberships of an instance -/

namespace Teacher
set_option linter.unusedSectionVars false

section
variable {V C K : Type}

mutual
/-- the rules below a node: the conditions on the way, more conditions on known features, at least one if the node is not a leaf. -/
theorem getRules_mem {features : List String} : ∀ (t : INode V C K) (conditions : List (String × V))
    (L : List (List (String × V) × Option C)), t.getRules features conditions = .ok L →
    ∀ q ∈ L, ∃ more : List (String × V), q.1 = conditions ++ more ∧ (∀ a ∈ more, a.1 ∈ features) ∧ (t.isLeaf = false → more ≠ [])
  | .mk isLeaf var branches cv a b c d, conditions, L, h, q, hq => by
    rw [INode.getRules] at h
    by_cases hl : isLeaf = true
    · rw [if_pos hl] at h
      cases h
      rw [List.mem_singleton] at hq
      subst hq
      exact ⟨[], by simp, by simp, by simp [INode.isLeaf, hl]⟩
    · rw [if_neg hl] at h
      obtain ⟨more, h1, h2, h3⟩ := getRulesBranches_mem branches conditions var L h q hq
      exact ⟨more, h1, h2, fun _ => h3⟩
theorem getRulesBranches_mem {features : List String} : ∀ (bs : List (V × INode V C K)) (conditions : List (String × V)) (var : Option Nat)
    (L : List (List (String × V) × Option C)), getRulesBranches features conditions var bs = .ok L →
    ∀ q ∈ L, ∃ more : List (String × V), q.1 = conditions ++ more ∧ (∀ a ∈ more, a.1 ∈ features) ∧ more ≠ []
  | [], conditions, var, L, h, q, hq => by
    rw [getRulesBranches] at h
    cases h
    cases hq
  | (s, t) :: rest, conditions, var, L, h, q, hq => by
    rw [getRulesBranches] at h
    cases hv : var.bind (fun i => features[i]?) with
    | none => rw [hv] at h; cases h
    | some f =>
      rw [hv] at h
      simp only at h
      obtain ⟨r, hr, h⟩ := py_bind_eq_ok.1 h
      obtain ⟨rs, hrs, h⟩ := py_bind_eq_ok.1 h
      cases h
      rcases List.mem_append.1 hq with hq | hq
      · obtain ⟨more, h1, h2, -⟩ := getRules_mem t _ r hr q hq
        refine ⟨(f, s) :: more, by rw [h1]; simp, ?_, by simp⟩
        intro a ha
        rcases List.mem_cons.1 ha with rfl | ha
        · obtain ⟨i, -, hi⟩ := Option.bind_eq_some_iff.1 hv
          exact List.mem_of_getElem? hi
        · exact h2 a ha
      · exact getRulesBranches_mem rest conditions var rs hrs q hq
end

end

section
variable {C K : Type} [Field K] [LinearOrder K] [IsStrictOrderedRing K] [LinearOrder C]

/-- `x` has for every feature the label of the instance that is clearly the strongest: its degree is above one half, and the degrees of
the other labels of the feature are below one half. -/
def Spec.ClearLabels (features : List String) (inst : Inst K) (x : List String) : Prop :=
  x.length = features.length ∧ ∀ f ∈ features, ∃ v, x[features.idxOf f]? = some v ∧ (∃ d, Spec.HasDegree inst f v d ∧ 1 / 2 < d) ∧
    ∀ w d, w ≠ v → Spec.HasDegree inst f w d → d < 1 / 2

/-- **C154**: an ID3 tree is fitted to rows of labels, its rules are taken, and the factual of FID3 is asked for with the memberships of an
instance. If `x` has the clearly strongest label of the instance in every feature, the tree predicts a class for `x`, the tree has at least
one split and the threshold is below one half, then the factual is the rule of the tree that `x` satisfies, and its class is the
prediction. -/
theorem C154_fid3_partial (gain : List String → List C → List String → K) (ordC : List C → List C) (hC : Spec.IsSetListing ordC)
    (ordF : List String → List String) (hF : Spec.IsArrangement ordF) (p : ID3Params K) (hnd : p.features.Nodup)
    (t t' : INode String C K) (rows : IRows String C) (h : id3FitWith gain ordC ordF p t rows = .ok t') (hsplit : t'.isLeaf = false)
    (inst : Inst K) (x : List String) (hx : Spec.ClearLabels p.features inst x) (c : C) (hc : t'.predict x = .ok (.cls c))
    (th : K) (hth : th < 1 / 2) :
    ∃ rules m, t'.toRules p.features = .ok rules ∧ fid3Factual (fun r => r.matching inst) rules th = .ok m ∧ m ∈ rules ∧
      Spec.satisfies p.features x m.antecedent = true ∧ m.consequent = some c := by
  obtain ⟨rules, hr, -, hrow⟩ := C43_rules gain ordC hC ordF hF p hnd t t' rows h
  refine ⟨rules, ?_⟩
  have hante : ∀ r ∈ rules, r.antecedent ≠ [] ∧ ∀ a ∈ r.antecedent, a.1 ∈ p.features := by
    intro r hr'
    unfold INode.toRules at hr
    obtain ⟨L, hL, h2⟩ := py_bind_eq_ok.1 hr
    cases h2
    obtain ⟨q, hq, rfl⟩ := List.mem_map.1 hr'
    obtain ⟨more, h1, h2, h3⟩ := getRules_mem t' [] L hL q hq
    rw [List.nil_append] at h1
    simp only [h1]
    exact ⟨h3 hsplit, h2⟩
  choose! deg hdeg hdk hdu using fun r (hr' : r ∈ rules) => matching_spec r inst (hante r hr').1
  -- a rule that is not satisfied has a small degree
  have hsmall : ∀ r ∈ rules, Spec.satisfies p.features x r.antecedent = false → deg r < 1 / 2 := by
    intro r hr' hs
    by_cases hk : ∀ a ∈ r.antecedent, Spec.Known inst a.1 a.2
    · rw [Spec.satisfies, List.all_eq_false] at hs
      obtain ⟨a, ha, hne⟩ := hs
      obtain ⟨v, hv, -, hother⟩ := hx.2 a.1 ((hante r hr').2 a ha)
      obtain ⟨d, hd⟩ := hk a ha
      refine lt_of_le_of_lt ((hdk r hr' hk).2 a ha d hd) (hother a.2 d ?_ hd)
      rintro rfl
      exact hne (by simpa using hv)
    · push Not at hk
      rw [hdu r hr' hk]
      norm_num
  have hlarge : ∀ r ∈ rules, Spec.satisfies p.features x r.antecedent = true → 1 / 2 < deg r := by
    intro r hr' hs
    rw [Spec.satisfies, List.all_eq_true] at hs
    have hval : ∀ a ∈ r.antecedent, ∃ d, Spec.HasDegree inst a.1 a.2 d ∧ 1 / 2 < d := by
      intro a ha
      obtain ⟨v, hv, hd, -⟩ := hx.2 a.1 ((hante r hr').2 a ha)
      have := hs a ha
      rw [decide_eq_true_eq, hv] at this
      cases this
      exact hd
    have hk : ∀ a ∈ r.antecedent, Spec.Known inst a.1 a.2 := fun a ha => by
      obtain ⟨d, hd, -⟩ := hval a ha
      exact ⟨d, hd⟩
    obtain ⟨a, ha, hm⟩ := (hdk r hr' hk).1
    obtain ⟨d, hd, hlt⟩ := hval a ha
    obtain ⟨d1, e1, e2⟩ := hm
    obtain ⟨d2, e3, e4⟩ := hd
    rw [e1] at e3
    cases e3
    rw [e2] at e4
    cases e4
    exact hlt
  rcases hrow x hx.1.ge with ⟨c', hc', hone⟩ | ⟨hn, -⟩
  · rw [hc] at hc'
    cases hc'
    obtain ⟨r0, hf, hcons⟩ : ∃ r0, rules.filter (fun r => Spec.satisfies p.features x r.antecedent) = [r0] ∧ r0.consequent = some c := by
      obtain ⟨r0, l, e1, e2, e3⟩ := List.map_eq_cons_iff.1 hone
      rw [List.map_eq_nil_iff] at e3
      subst e3
      exact ⟨r0, e1, e2⟩
    have hmem : r0 ∈ rules ∧ Spec.satisfies p.features x r0.antecedent = true := by
      have : r0 ∈ rules.filter (fun r => Spec.satisfies p.features x r.antecedent) := by rw [hf]; simp
      simpa using this
    have hbig := hlarge r0 hmem.1 hmem.2
    obtain ⟨m, hm, hmr, -, hfm⟩ := (C48_fid3_factual (fun r => r.matching inst) deg rules hdeg th).1 ⟨r0, hmem.1, hth.trans hbig⟩
    refine ⟨m, hr, hm, hmr, ?_⟩
    have hge : deg r0 ≤ deg m := by
      obtain ⟨pre, post, e, h1, h2⟩ := hfm
      rw [e, List.mem_append, List.mem_cons] at hmem
      rcases hmem.1 with h' | rfl | h'
      · exact (h1 _ h').le
      · exact le_rfl
      · exact h2 _ h'
    have hsm : Spec.satisfies p.features x m.antecedent = true := by
      by_contra hne
      exact absurd (hsmall m hmr (by simpa using hne)) (not_lt.2 (hbig.le.trans hge))
    have : m ∈ rules.filter (fun r => Spec.satisfies p.features x r.antecedent) := by simpa using ⟨hmr, hsm⟩
    rw [hf, List.mem_singleton] at this
    subst this
    exact ⟨hsm, hcons⟩
  · rw [hc] at hn
    cases hn


/-- **C154**: if the tree has no split, asking for the factual raises `ValueError`, whatever the instance and the threshold: the only rule
has no condition, and the smallest degree of no conditions does not exist. -/
theorem C154_one_leaf (features : List String) (t : INode String C K) (hleaf : t.isLeaf = true) (inst : Inst K) (th : K) :
    ∃ rules, t.toRules features = .ok rules ∧ fid3Factual (fun r => r.matching inst) rules th = .error .valueError := by
  obtain ⟨l, var, branches, cv, a, b, c, d⟩ := t
  have hl : l = true := hleaf
  subst hl
  exact ⟨[⟨[], cv, 1⟩], rfl, rfl⟩

example : ∃ rules, (INode.fresh : INode String C K).toRules ["a"] = .ok rules ∧ fid3Factual (fun r => r.matching [("a", [("lo", 1)])]) rules (1 / 100) = .error .valueError :=
  C154_one_leaf _ _ rfl _ _

/-- memberships that form a partition: the degrees of each feature are not negative and their sum is at most 1 (`C02` shows this for
the variables of the library). Then a label above one half in every feature is enough. -/
theorem Spec.ClearLabels.of_partition (features : List String) (inst : Inst K) (x : List String) (hlen : x.length = features.length)
    (hpart : ∀ f d, Dict.get? inst f = some d → (d.map Prod.fst).Nodup ∧ (∀ q ∈ d, 0 ≤ q.2) ∧ (d.map Prod.snd).sum ≤ 1)
    (hx : ∀ f ∈ features, ∃ v, x[features.idxOf f]? = some v ∧ ∃ d, Spec.HasDegree inst f v d ∧ 1 / 2 < d) :
    Spec.ClearLabels features inst x := by
  refine ⟨hlen, fun f hf => ?_⟩
  obtain ⟨v, hv, d, hd, hlt⟩ := hx f hf
  refine ⟨v, hv, ⟨d, hd, hlt⟩, ?_⟩
  rintro w e hne ⟨dct, h1, h2⟩
  obtain ⟨dct', h3, h4⟩ := hd
  rw [h1] at h3
  cases h3
  obtain ⟨-, hnn, hsum⟩ := hpart f dct h1
  have hm1 := Dict.mem_of_get? h2
  have hm2 := Dict.mem_of_get? h4
  have hsub : ([(w, e), (v, d)] : List (String × K)).Subperm dct := by
    apply List.subperm_of_subset
    · simp [hne]
    · intro a ha
      simp only [List.mem_cons, List.not_mem_nil, or_false] at ha
      rcases ha with rfl | rfl <;> assumption
  have hle : (([(w, e), (v, d)] : List (String × K)).map Prod.snd).sum ≤ (dct.map Prod.snd).sum := by
    obtain ⟨l, hp, hs⟩ := hsub
    rw [← (hp.map Prod.snd).sum_eq]
    refine List.Sublist.sum_le_sum (hs.map Prod.snd) ?_
    intro a ha
    obtain ⟨q, hq, rfl⟩ := List.mem_map.1 ha
    exact hnn q hq
  simp only [List.map_cons, List.map_nil, List.sum_cons, List.sum_nil, add_zero] at hle
  have h5 : e + d ≤ 1 := hle.trans hsum
  have h6 : e + 1 / 2 < e + d := by linarith
  linarith

end

namespace FID3Ex

/-- the gain of `ID3Ex`, for labels. -/
def gain (col : List String) (y : List Nat) (s : List String) : ℚ := max 0 (id3Gain ID3Ex.gini List.dedup col y s)

/-- five rows of labels. -/
def rows : IRows String Nat := [(["lo", "lo"], 0), (["lo", "mid"], 0), (["hi", "lo"], 1), (["hi", "mid"], 0), (["hi", "hi"], 0)]

/-- memberships of an instance that is mostly `hi` in `a` and mostly `lo` in `b`. -/
def inst : Inst ℚ := [("a", [("lo", 1/5), ("hi", 4/5)]), ("b", [("lo", 3/5), ("mid", 2/5), ("hi", 0)])]

/-- memberships of an instance that is half way between `lo` and `mid` in `b`. -/
def tie : Inst ℚ := [("a", [("lo", 0), ("hi", 1)]), ("b", [("lo", 1/2), ("mid", 1/2), ("hi", 0)])]

set_option synthInstance.maxSize 1000 in
set_option synthInstance.maxHeartbeats 200000 in
theorem fit_ok : ∃ t, id3FitWith gain List.dedup id ID3Ex.p .fresh rows = .ok t ∧
    (t.isLeaf, t.predict ["hi", "lo"], t.predict ["hi", "mid"], t.toRules ["a", "b"]) =
      (false, .ok (.cls 1), .ok (.cls 0), .ok [⟨[("b", "hi")], some 0, 1⟩, ⟨[("b", "lo"), ("a", "hi")], some 1, 1⟩,
        ⟨[("b", "lo"), ("a", "lo")], some 0, 1⟩, ⟨[("b", "mid")], some 0, 1⟩]) := by
  apply ID3Ex.exists_of_map
  decide +kernel

theorem clear : Spec.ClearLabels ID3Ex.p.features inst ["hi", "lo"] := by
  refine Spec.ClearLabels.of_partition _ _ _ rfl ?_ ?_
  · intro f d h
    have : d = [("lo", 1/5), ("hi", 4/5)] ∨ d = [("lo", 3/5), ("mid", 2/5), ("hi", 0)] := by
      have := Dict.mem_of_get? h
      simp only [inst, List.mem_cons, Prod.mk.injEq, List.not_mem_nil, or_false] at this
      tauto
    rcases this with rfl | rfl <;> exact ⟨by decide, by norm_num, by norm_num⟩
  · intro f hf
    have : f = "a" ∨ f = "b" := by simpa [ID3Ex.p] using hf
    rcases this with rfl | rfl
    · exact ⟨"hi", rfl, 4/5, ⟨_, rfl, rfl⟩, by norm_num⟩
    · exact ⟨"lo", rfl, 3/5, ⟨_, rfl, rfl⟩, by norm_num⟩

/-- the hypotheses of `C154_fid3_partial` hold for the example. -/
example : ∃ t rules m, id3FitWith gain List.dedup id ID3Ex.p .fresh rows = .ok t ∧ t.toRules ID3Ex.p.features = .ok rules ∧
    fid3Factual (fun r => r.matching inst) rules (1 / 100) = .ok m ∧ m.consequent = some 1 := by
  obtain ⟨t, h, hv⟩ := fit_ok
  simp only [Prod.mk.injEq] at hv
  obtain ⟨rules, m, h1, h2, -, -, h3⟩ := C154_fid3_partial gain List.dedup ID3Ex.arr_dedup id ID3Ex.arr_id ID3Ex.p (by decide) _ t rows h hv.1 inst _ clear
    1 hv.2.1 (1 / 100) (by norm_num)
  exact ⟨t, rules, m, h, h1, h2, h3⟩

set_option synthInstance.maxSize 1000 in
set_option synthInstance.maxHeartbeats 200000 in
/-- **C154**, partial: without "clearly": when the instance is half way between two sets, `x` may have a strongest label in every feature and
the factual nevertheless be a rule for another class than the tree predicts for `x`. Missing: the full statement, for every `x` with
strongest labels, is false. -/
theorem _root_.Teacher.C154_tie_false : ∃ (t : INode String Nat ℚ) (rules : List (Rule String (Option Nat) ℚ)) (m : Rule String (Option Nat) ℚ),
    id3FitWith gain List.dedup id ID3Ex.p .fresh rows = .ok t ∧
    (∀ f ∈ ID3Ex.p.features, ∃ v d, ["hi", "mid"][ID3Ex.p.features.idxOf f]? = some v ∧ Spec.HasDegree tie f v d ∧
      ∀ w e, Spec.HasDegree tie f w e → e ≤ d) ∧
    t.predict ["hi", "mid"] = .ok (.cls 0) ∧ t.toRules ID3Ex.p.features = .ok rules ∧
    fid3Factual (fun r => r.matching tie) rules (1 / 100) = .ok m ∧ m.consequent = some 1 := by
  obtain ⟨t, h, hv⟩ := fit_ok
  simp only [Prod.mk.injEq] at hv
  refine ⟨t, _, ⟨[("b", "lo"), ("a", "hi")], some 1, 1⟩, h, ?_, hv.2.2.1, hv.2.2.2, by decide +kernel, rfl⟩
  intro f hf
  have : f = "a" ∨ f = "b" := by simpa [ID3Ex.p] using hf
  rcases this with rfl | rfl
  · refine ⟨"hi", 1, rfl, ⟨_, rfl, rfl⟩, ?_⟩
    rintro w e ⟨d, h1, h2⟩
    cases h1
    have := Dict.mem_of_get? h2
    simp only [List.mem_cons, Prod.mk.injEq, List.not_mem_nil, or_false] at this
    rcases this with ⟨-, rfl⟩ | ⟨-, rfl⟩ <;> norm_num
  · refine ⟨"mid", 1/2, rfl, ⟨_, rfl, rfl⟩, ?_⟩
    rintro w e ⟨d, h1, h2⟩
    cases h1
    have := Dict.mem_of_get? h2
    simp only [List.mem_cons, Prod.mk.injEq, List.not_mem_nil, or_false] at this
    rcases this with ⟨-, rfl⟩ | ⟨-, rfl⟩ | ⟨-, rfl⟩ <;> norm_num

end FID3Ex
end Teacher
