import Verif.Model.RuleJson
import Verif.Props.RuleMap
import Verif.Props.FDTFitted
import Verif.Props.FBDTPredict

/-! # C124: `Rule.to_json` -/

set_option linter.unusedSectionVars false

namespace Teacher
open Spec

variable {V C K : Type} [Field K] [LinearOrder K] [IsStrictOrderedRing K]

/-- the description of a set: its points if it is continuous. -/
def Spec.Describes (vars : List (FVar K)) (f n : String) (j : JsonSet K) : Prop :=
  (∃ s, RefersTo vars f n (.cont s) ∧ j = (f, n, some (s.a, s.b, s.c))) ∨ ∃ d, RefersTo vars f n (.disc d) ∧ j = (f, n, none)

theorem jsonEntry_describes {vars : List (FVar K)} {f n : String} {s : FSet K} (h : RefersTo vars f n s) :
    Describes vars f n (jsonEntry f s) := by
  have hn : s.name = n := h.choose_spec.2.2.2
  cases s with
  | cont s => exact .inl ⟨s, h, by rw [← hn]; rfl⟩
  | disc d => exact .inr ⟨d, h, by rw [← hn]; rfl⟩

theorem jsonLookup_error {f v : String} {sets : List (FSet K)} {e : PyErr} (h : jsonLookup f sets v = .error e) : e = .keyError := by
  unfold jsonLookup at h
  rw [py_bind_eq_error] at h
  rcases h with h | ⟨s, -, h⟩
  · exact (Dict.get_eq_error_iff.1 h).2
  · cases h

theorem lookup_refers {vars : List (FVar K)} (hw : WellNamed vars) {f n : String} {sets : List (FSet K)} {s : FSet K}
    (h1 : Dict.get (varDict vars) f = .ok sets) (h2 : Dict.get (setDict sets) n = .ok s) : RefersTo vars f n s := by
  rw [Dict.get_eq_ok_iff] at h1 h2
  obtain ⟨v, hv, hvn⟩ := (mem_keys_varDict vars f).1 ((Dict.get?_isSome_iff _ _).1 ⟨_, h1⟩)
  have : v.sets = sets := by
    have := varDict_get? hw.1 hv
    rw [hvn, h1] at this
    exact (Option.some.inj this).symm
  subst this
  obtain ⟨s', hs', hsn⟩ := (mem_keys_setDict v.sets n).1 ((Dict.get?_isSome_iff _ _).1 ⟨_, h2⟩)
  have := setDict_get? (hw.2 v hv) hs'
  rw [hsn, h2] at this
  cases this
  exact ⟨v, hv, hvn, hs', hsn⟩

theorem jsonClause_cases {vars : List (FVar K)} (hw : WellNamed vars) (p : String × String) :
    (∃ j, jsonClause vars p = .ok j ∧ Describes vars p.1 p.2 j) ∨
      (jsonClause vars p = .error .keyError ∧ ∀ s, ¬ RefersTo vars p.1 p.2 s) := by
  by_cases h : ∃ s, RefersTo vars p.1 p.2 s
  · obtain ⟨s, hs⟩ := h
    obtain ⟨sets, h1, h2⟩ := RefersTo.lookup hw hs
    refine .inl ⟨jsonEntry p.1 s, ?_, jsonEntry_describes hs⟩
    unfold jsonClause jsonLookup
    rw [h1, py_bind_ok, h2, py_bind_ok]; rfl
  · push Not at h
    refine .inr ⟨?_, h⟩
    unfold jsonClause jsonLookup
    cases h1 : Dict.get (varDict vars) p.1 with
    | error e => rw [(Dict.get_eq_error_iff.1 h1).2]; rfl
    | ok sets =>
      rw [py_bind_ok]
      cases h2 : Dict.get (setDict sets) p.2 with
      | error e => rw [(Dict.get_eq_error_iff.1 h2).2]; rfl
      | ok s => exact absurd (lookup_refers hw h1 h2) (h s)

/-- C124 for rules with one set per condition: over variables with distinct names, `to_json` succeeds exactly when every condition refers to
a set of the variables, and raises `KeyError` otherwise; the result keeps consequent and weight, describes the sets of the conditions in
order, and its first entry maps every feature to the set of its last condition. -/
theorem C124_json (r : Rule String C K) (vars : List (FVar K)) (hw : WellNamed vars) :
    ((∀ p ∈ r.antecedent, ∃ s, RefersTo vars p.1 p.2 s) ∧ ∃ j, r.toJson vars = .ok j ∧ j.consequent = r.consequent ∧ j.weight = r.weight ∧
      List.Forall₂ (fun p e => Describes vars p.1 p.2 e) r.antecedent j.sets ∧
      (∀ f v, Dict.get? j.antecedents f = some v → (f, v) ∈ r.antecedent) ∧
      (∀ f, (∃ v, Dict.get? j.antecedents f = some v) ↔ ∃ v, (f, v) ∈ r.antecedent)) ∨
    ((∃ p ∈ r.antecedent, ∀ s, ¬ RefersTo vars p.1 p.2 s) ∧ r.toJson vars = .error .keyError) := by
  by_cases hall : ∀ p ∈ r.antecedent, ∃ s, RefersTo vars p.1 p.2 s
  · left
    refine ⟨hall, ?_⟩
    have hm : ∃ sets, r.antecedent.mapM (jsonClause vars) = .ok sets ∧
        List.Forall₂ (fun p e => Describes vars p.1 p.2 e) r.antecedent sets := by
      obtain ⟨sets, hs⟩ := forall₂_of_forall_exists (R := fun p j => jsonClause vars p = .ok j ∧ Describes vars p.1 p.2 j) r.antecedent (by
        intro p hp
        rcases jsonClause_cases hw p with h | ⟨-, h⟩
        · exact h
        · obtain ⟨s, hs⟩ := hall p hp
          exact absurd hs (h s))
      exact ⟨sets, (mapM_ok_iff _ _ _).2 (hs.imp (fun _ _ h => h.1)), hs.imp (fun _ _ h => h.2)⟩
    obtain ⟨sets, h1, h2⟩ := hm
    refine ⟨⟨Dict.ofPairs r.antecedent, r.consequent, r.weight, sets⟩, ?_, rfl, rfl, h2, ?_, ?_⟩
    · unfold Rule.toJson; rw [h1]; rfl
    · exact fun f v h => FB.mem_of_ofPairs_get? _ _ _ h
    · intro f
      rw [Dict.get?_isSome_iff, Dict.mem_keys_ofPairs]
      simp
  · right
    push Not at hall
    refine ⟨hall, ?_⟩
    obtain ⟨p, hp, h⟩ := hall
    unfold Rule.toJson
    rw [mapM_error_eq _ _ .keyError]
    · rfl
    · intro q _ e he
      rcases jsonClause_cases hw q with ⟨j, hj, -⟩ | ⟨hj, -⟩
      · rw [hj] at he; cases he
      · rw [hj] at he; cases he; rfl
    · refine ⟨p, hp, ?_⟩
      rcases jsonClause_cases hw p with ⟨j, hj, hd⟩ | ⟨hj, -⟩
      · rcases hd with ⟨s, hs, -⟩ | ⟨s, hs, -⟩ <;> exact absurd hs (h _)
      · exact hj

/-- C124: for rules with distinct features the first entry is the antecedent itself, so two such rules with the same json are equal. -/
theorem C124_json_faithful (r r' : Rule String C K) (vars : List (FVar K)) (hr : (r.antecedent.map Prod.fst).Nodup)
    (hr' : (r'.antecedent.map Prod.fst).Nodup) (j : RuleJson String C K) (h : r.toJson vars = .ok j) (h' : r'.toJson vars = .ok j) :
    j.antecedents = r.antecedent ∧ r = r' := by
  have key : ∀ r : Rule String C K, (r.antecedent.map Prod.fst).Nodup → r.toJson vars = .ok j →
      j.antecedents = r.antecedent ∧ j.consequent = r.consequent ∧ j.weight = r.weight := by
    intro r hr h
    unfold Rule.toJson at h
    rw [py_bind_eq_ok] at h
    obtain ⟨sets, -, h⟩ := h
    cases h
    exact ⟨Dict.ofPairs_eq_self _ hr, rfl, rfl⟩
  obtain ⟨h1, h2, h3⟩ := key r hr h
  obtain ⟨h1', h2', h3'⟩ := key r' hr' h'
  refine ⟨h1, ?_⟩
  obtain ⟨a, c, w⟩ := r
  obtain ⟨a', c', w'⟩ := r'
  simp only at h1 h2 h3 h1' h2' h3'
  rw [← h1, ← h2, ← h3, ← h1', ← h2', ← h3']

theorem jsonClauseMulti_cases {vars : List (FVar K)} (hw : WellNamed vars) (p : String × List String) :
    ((∀ n ∈ p.2, ∃ s, RefersTo vars p.1 n s) → (∃ v ∈ vars, v.name = p.1) →
      ∃ js, jsonClauseMulti vars p = .ok js ∧ List.Forall₂ (fun n e => Describes vars p.1 n e) p.2 js) ∧
    (((∃ n ∈ p.2, ∀ s, ¬ RefersTo vars p.1 n s) ∨ ¬ ∃ v ∈ vars, v.name = p.1) → jsonClauseMulti vars p = .error .keyError) := by
  constructor
  · rintro hall ⟨v, hv, hvn⟩
    have h1 : Dict.get (varDict vars) p.1 = .ok v.sets := by
      rw [Dict.get_eq_ok_iff, ← hvn]; exact varDict_get? hw.1 hv
    obtain ⟨js, hs⟩ := forall₂_of_forall_exists (R := fun n j => jsonLookup p.1 v.sets n = .ok j ∧ Describes vars p.1 n j) p.2 (by
      intro n hn
      obtain ⟨s, hs⟩ := hall n hn
      obtain ⟨sets, h1', h2⟩ := RefersTo.lookup hw hs
      rw [h1] at h1'; cases h1'
      exact ⟨jsonEntry p.1 s, by unfold jsonLookup; rw [h2, py_bind_ok]; rfl, jsonEntry_describes hs⟩)
    refine ⟨js, ?_, hs.imp (fun _ _ h => h.2)⟩
    unfold jsonClauseMulti
    rw [h1, py_bind_ok]
    exact (mapM_ok_iff _ _ _).2 (hs.imp (fun _ _ h => h.1))
  · intro h
    unfold jsonClauseMulti
    cases h1 : Dict.get (varDict vars) p.1 with
    | error e => rw [(Dict.get_eq_error_iff.1 h1).2]; rfl
    | ok sets =>
      rw [py_bind_ok]
      rcases h with ⟨n, hn, h⟩ | h
      · apply mapM_error_eq
        · exact fun _ _ _ he => jsonLookup_error he
        · refine ⟨n, hn, ?_⟩
          unfold jsonLookup
          cases h2 : Dict.get (setDict sets) n with
          | error e => rw [(Dict.get_eq_error_iff.1 h2).2]; rfl
          | ok s => exact absurd (lookup_refers hw h1 h2) (h s)
      · exact absurd ((mem_keys_varDict vars p.1).1 ((Dict.get?_isSome_iff _ _).1 ⟨_, Dict.get_eq_ok_iff.1 h1⟩)) h

/-- C124 for rules with several sets per condition. -/
theorem C124_json_multi (r : Rule (List String) C K) (vars : List (FVar K)) (hw : WellNamed vars) :
    ((∀ p ∈ r.antecedent, (∃ v ∈ vars, v.name = p.1) ∧ ∀ n ∈ p.2, ∃ s, RefersTo vars p.1 n s) ∧
      ∃ j, r.toJsonMulti vars = .ok j ∧ j.consequent = r.consequent ∧ j.weight = r.weight ∧
      (∃ groups, j.sets = groups.flatten ∧
        List.Forall₂ (fun p g => List.Forall₂ (fun n e => Describes vars p.1 n e) p.2 g) r.antecedent groups) ∧
      (∀ f v, Dict.get? j.antecedents f = some v → (f, v) ∈ r.antecedent) ∧
      (∀ f, (∃ v, Dict.get? j.antecedents f = some v) ↔ ∃ v, (f, v) ∈ r.antecedent)) ∨
    ((∃ p ∈ r.antecedent, (¬ ∃ v ∈ vars, v.name = p.1) ∨ ∃ n ∈ p.2, ∀ s, ¬ RefersTo vars p.1 n s) ∧ r.toJsonMulti vars = .error .keyError) := by
  by_cases hall : ∀ p ∈ r.antecedent, (∃ v ∈ vars, v.name = p.1) ∧ ∀ n ∈ p.2, ∃ s, RefersTo vars p.1 n s
  · left
    refine ⟨hall, ?_⟩
    obtain ⟨groups, hg⟩ := forall₂_of_forall_exists (R := fun p js => jsonClauseMulti vars p = .ok js ∧
      List.Forall₂ (fun n e => Describes vars p.1 n e) p.2 js) r.antecedent
      (fun p hp => (jsonClauseMulti_cases hw p).1 (hall p hp).2 (hall p hp).1)
    refine ⟨⟨Dict.ofPairs r.antecedent, r.consequent, r.weight, groups.flatten⟩, ?_, rfl, rfl, ⟨groups, rfl, hg.imp (fun _ _ h => h.2)⟩, ?_, ?_⟩
    · unfold Rule.toJsonMulti
      rw [(mapM_ok_iff _ _ _).2 (hg.imp (fun _ _ h => h.1))]; rfl
    · exact fun f v h => FB.mem_of_ofPairs_get? _ _ _ h
    · intro f
      rw [Dict.get?_isSome_iff, Dict.mem_keys_ofPairs]
      simp
  · right
    have hex : ∃ p ∈ r.antecedent, (¬ ∃ v ∈ vars, v.name = p.1) ∨ ∃ n ∈ p.2, ∀ s, ¬ RefersTo vars p.1 n s := by
      by_contra h0
      push Not at h0
      exact hall (fun p hp => ⟨(h0 p hp).1, (h0 p hp).2⟩)
    refine ⟨hex, ?_⟩
    obtain ⟨p, hp, h⟩ := hex
    unfold Rule.toJsonMulti
    rw [mapM_error_eq _ _ .keyError]
    · rfl
    · intro q _ e he
      by_cases hq : (∃ v ∈ vars, v.name = q.1) ∧ ∀ n ∈ q.2, ∃ s, RefersTo vars q.1 n s
      · obtain ⟨js, hj, -⟩ := (jsonClauseMulti_cases hw q).1 hq.2 hq.1
        rw [hj] at he; cases he
      · have := (jsonClauseMulti_cases hw q).2 (by
          by_contra h0
          push Not at h0
          exact hq ⟨h0.2, h0.1⟩)
        rw [this] at he; cases he; rfl
    · exact ⟨p, hp, (jsonClauseMulti_cases hw p).2 h.symm⟩

/-- C124: every rule of a fitted FDT has a json over the variables of the tree, whose first entry is its antecedent. -/
theorem C124_fdt_rules [LinearOrder C] (ent : List K → List C → K) (ord : List String → List String) (p : FDTParams K)
    (hs : ProperSets p.vars) (hv : (p.vars.map FVar.name).Nodup) (X : List (List (Cell K))) (y : List C) (t : FNode C K)
    (h : fdtFit ent ord p fdtNew X y = .ok t) (simplify : Bool) (rs : List (Rule String C K)) (hr : fdtToRules t false simplify = .ok rs)
    (r : Rule String C K) (hmem : r ∈ rs) : ∃ j, r.toJson p.vars = .ok j ∧ j.antecedents = r.antecedent := by
  have hw : WellNamed p.vars := ⟨hv, fun v hv => (hs v hv).2⟩
  obtain ⟨rs', h1, h2⟩ := C47_fdt_rules ent ord p hs X y t h simplify
  rw [hr] at h1; cases h1
  obtain ⟨path, cv, hq, -, -, ha⟩ := (h2 r).1 hmem
  rcases C124_json r p.vars hw with ⟨-, j, hj, -⟩ | ⟨⟨cl, hcl, hno⟩, -⟩
  · refine ⟨j, hj, ?_⟩
    have hnd : (r.antecedent.map Prod.fst).Nodup := by
      have e : r.antecedent.map Prod.fst = path.map (fun t => t.var.name) := by
        clear hq hj h2 hmem
        generalize r.antecedent = ante at ha
        induction ha with
        | nil => rfl
        | cons h _ ih => rw [List.map_cons, List.map_cons, ih, h.1]
      obtain ⟨n, hn', -, -⟩ := (leafPaths_iff t _).1 hq
      have h31 := C31_depth_and_features ent ord p X y t h _ hn'
      rw [e, List.nodup_map_iff_inj_on (List.Nodup.of_map _ h31.2.2.1)]
      intro a ha b hb hab
      have h3 := h31.2.2.2 a ha
      have h4 := h31.2.2.2 b hb
      apply List.inj_on_of_nodup_map h31.2.2.1 ha hb
      obtain ⟨i1, i2⟩ := List.getElem?_eq_some_iff.1 h3
      obtain ⟨j1, j2⟩ := List.getElem?_eq_some_iff.1 h4
      have := (List.nodup_iff_injective_getElem.1 hv) (a₁ := ⟨a.att, by simpa using i1⟩) (a₂ := ⟨b.att, by simpa using j1⟩)
        (by simp [i2, j2, hab])
      simpa using this
    unfold Rule.toJson at hj
    rw [py_bind_eq_ok] at hj
    obtain ⟨sets, -, hj⟩ := hj
    cases hj
    exact Dict.ofPairs_eq_self _ hnd
  · obtain ⟨test, ht, h3, s, h4, h5⟩ := forall₂_mem_right ha cl hcl
    have h6 := (fitted_tests (fun v hv => (hs v hv).2) h _ hq test ht).2
    exact absurd ⟨test.var, List.mem_of_getElem? h6, h3.symm, List.mem_of_getElem? h4, h5.symm⟩ (hno s)

/-- C124: every rule of a fitted FBDT, simplified or not, has a json over the variables of the tree. -/
theorem C124_fbdt_rules [NanSort K] [LinearOrder C] (ent : List K → List C → K) (p : FDTParams K) (hw : WellNamed p.vars) (X : List (List (Cell K))) (y : List C)
    (t : BNode C K) (h : fbdtFit ent p fbdtNew X y = .ok t) (simplify : Bool) (rs : List (Rule (List String) C K))
    (hr : fbdtToRules t false simplify = .ok rs) (r : Rule (List String) C K) (hmem : r ∈ rs) :
    ∃ j, r.toJsonMulti p.vars = .ok j ∧ (simplify = true → j.antecedents = r.antecedent) := by
  obtain ⟨rs0, h1, h2⟩ := C47_fbdt_rules ent p X y t h
  have hb : ∀ b, fbdtToRules t false b = .ok (if b then ((bLeafPaths t).flatMap (bLeafRules (0 : K) [])).map (Rule.simplify List.length)
      else (bLeafPaths t).flatMap (bLeafRules (0 : K) [])) := fun b => bToRules_ok t 0 b (bfitted_branching h) (bfitted_valid h)
  have hrs0 : rs0 = (bLeafPaths t).flatMap (bLeafRules (0 : K) []) := by
    have := hb false
    rw [h1] at this
    simpa using this
  have hcond : ∀ r0 ∈ rs0, ∀ cl ∈ r0.antecedent, (∃ v ∈ p.vars, v.name = cl.1) ∧ ∀ n ∈ cl.2, ∃ s, RefersTo p.vars cl.1 n s := by
    intro r0 hr0 cl hcl
    obtain ⟨path, cv, hq, -, -, ha⟩ := (h2 r0).1 hr0
    obtain ⟨test, ht, h3, h4⟩ := forall₂_mem_right ha cl hcl
    have h6 := List.mem_of_getElem? (bfitted_tests h _ hq test ht).1
    refine ⟨⟨test.var, h6, h3.symm⟩, fun n hn => ?_⟩
    obtain ⟨i, -, fs, h7, h8⟩ := forall₂_mem_right h4 n hn
    exact ⟨fs, test.var, h6, h3.symm, List.mem_of_getElem? h7, h8.symm⟩
  have hrule : (∀ cl ∈ r.antecedent, (∃ v ∈ p.vars, v.name = cl.1) ∧ ∀ n ∈ cl.2, ∃ s, RefersTo p.vars cl.1 n s) ∧
      (simplify = true → (r.antecedent.map Prod.fst).Nodup) := by
    rw [hb simplify] at hr
    cases simplify with
    | false =>
      simp only [Bool.false_eq_true, if_false, Except.ok.injEq] at hr
      rw [← hr, ← hrs0] at hmem
      exact ⟨hcond r hmem, fun h => by cases h⟩
    | true =>
      simp only [if_true, Except.ok.injEq] at hr
      rw [← hr, ← hrs0, List.mem_map] at hmem
      obtain ⟨r0, hr0, rfl⟩ := hmem
      obtain ⟨-, -, h3, h4⟩ := C19_simplify List.length r0
      refine ⟨fun cl hcl => ?_, fun _ => ?_⟩
      · obtain ⟨pre, post, h5, -⟩ := h4 cl.1 cl.2 hcl
        have : cl.2 ∈ (r0.antecedent.filter (fun p => p.1 = cl.1)).map Prod.snd := by rw [h5]; simp
        obtain ⟨cl', hcl', h6⟩ := List.mem_map.1 this
        rw [List.mem_filter, decide_eq_true_eq] at hcl'
        have : cl' = cl := Prod.ext hcl'.2 h6
        rw [← this]
        exact hcond r0 hr0 cl' hcl'.1
      · rw [h3]
        exact List.nodup_reverse.2 (List.nodup_dedup _)
  rcases C124_json_multi r p.vars hw with ⟨-, j, hj, -⟩ | ⟨⟨cl, hcl, hno⟩, -⟩
  · refine ⟨j, hj, fun hs => ?_⟩
    unfold Rule.toJsonMulti at hj
    rw [py_bind_eq_ok] at hj
    obtain ⟨sets, -, hj⟩ := hj
    cases hj
    exact Dict.ofPairs_eq_self _ (hrule.2 hs)
  · obtain ⟨h3, h4⟩ := hrule.1 cl hcl
    rcases hno with hno | ⟨n, hn, hno⟩
    · exact absurd h3 hno
    · obtain ⟨s, hs⟩ := h4 n hn
      exact absurd hs (hno s)

/-- C124 is false for rules of an FBDT that are not simplified: a fitted tree has a rule with three conditions whose json lists two. -/
theorem C124_fbdt_unsimplified_false : ∃ (t : BNode Nat ℚ) (rs : List (Rule (List String) Nat ℚ)) (r : Rule (List String) Nat ℚ)
    (j : RuleJson (List String) Nat ℚ), fbdtFit exEnt exBParams fbdtNew exBX exBY = .ok t ∧ fbdtToRules t false false = .ok rs ∧ r ∈ rs ∧
      r.toJsonMulti exBParams.vars = .ok j ∧ ("age", ["2", "4", "6"]) ∈ r.antecedent ∧ ("age", ["2", "4", "6"]) ∉ j.antecedents := by
  have h : ((fbdtFit exEnt exBParams fbdtNew exBX exBY).toOption.bind fun t => (fbdtToRules t false false).toOption.map fun rs =>
      decide (∃ r ∈ rs, ("age", ["2", "4", "6"]) ∈ r.antecedent ∧ (r.toJsonMulti exBParams.vars).toOption.map
        (fun j => decide (("age", ["2", "4", "6"]) ∉ j.antecedents)) = some true)) = some true := by decide +kernel
  cases h1 : fbdtFit exEnt exBParams fbdtNew exBX exBY with
  | error e => rw [h1] at h; cases h
  | ok t =>
    rw [h1] at h
    simp only [Except.toOption, Option.bind_some] at h
    cases h2 : fbdtToRules t false false with
    | error e => rw [h2] at h; cases h
    | ok rs =>
      rw [h2] at h
      simp only [Option.map_some, Option.some.injEq] at h
      obtain ⟨r, hr, h3, h4⟩ := of_decide_eq_true h
      cases h5 : r.toJsonMulti exBParams.vars with
      | error e => rw [h5] at h4; cases h4
      | ok j =>
        rw [h5] at h4
        simp only [Option.map_some, Option.some.injEq, decide_eq_true_eq] at h4
        exact ⟨t, rs, r, j, rfl, h2, hr, h5, h3, h4⟩

example : (⟨[("age", "1"), ("sex", "m")], "y", 1⟩ : Rule String String ℚ).toJson exVars =
    .ok ⟨[("age", "1"), ("sex", "m")], "y", 1, [("age", "1", some (0, 1, 3)), ("sex", "m", none)]⟩ := by decide +kernel
example : (⟨[("age", ["0", "1"]), ("sex", ["m"])], "y", 1⟩ : Rule (List String) String ℚ).toJsonMulti exVars =
    .ok ⟨[("age", ["0", "1"]), ("sex", ["m"])], "y", 1, [("age", "0", some (0, 0, 1)), ("age", "1", some (0, 1, 3)), ("sex", "m", none)]⟩ := by
  decide +kernel
example : (⟨[("age", "7")], "y", 1⟩ : Rule String String ℚ).toJson exVars = .error .keyError := by decide +kernel
example : WellNamed exBParams.vars := ⟨by decide +kernel, by decide +kernel⟩

end Teacher
