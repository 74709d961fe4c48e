import Verif.Props.Rule

/-! Properties C22-C25 of `Rule`. -/

set_option linter.unusedSectionVars false

namespace Teacher
open Spec

variable {V C K : Type} [Field K] [LinearOrder K] [IsStrictOrderedRing K]

/-! ### look-ups -/

theorem varDict_get? {vars : List (FVar K)} (h : (vars.map FVar.name).Nodup) {v : FVar K} (hv : v ∈ vars) :
    Dict.get? (varDict vars) v.name = some v.sets := by
  unfold varDict
  have hfst : (vars.map (fun v : FVar K => (v.name, v.sets))).map Prod.fst = vars.map FVar.name := by
    simp [List.map_map, Function.comp_def]
  rw [Dict.ofPairs_eq_self _ (by rw [hfst]; exact h)]
  apply Dict.get?_of_mem_nodup
  · unfold Dict.keys; rw [hfst]; exact h
  · exact List.mem_map_of_mem (f := fun v : FVar K => (v.name, v.sets)) hv

theorem mem_keys_varDict (vars : List (FVar K)) (f : String) :
    f ∈ Dict.keys (varDict vars) ↔ ∃ v ∈ vars, v.name = f := by
  unfold varDict
  rw [Dict.mem_keys_ofPairs]
  simp [List.map_map, Function.comp_def]

theorem setDict_get? {sets : List (FSet K)} (h : (sets.map FSet.name).Nodup) {s : FSet K} (hs : s ∈ sets) :
    Dict.get? (setDict sets) s.name = some s := by
  unfold setDict
  have hfst : (sets.map (fun v : FSet K => (v.name, v))).map Prod.fst = sets.map FSet.name := by
    simp [List.map_map, Function.comp_def]
  rw [Dict.ofPairs_eq_self _ (by rw [hfst]; exact h)]
  apply Dict.get?_of_mem_nodup
  · unfold Dict.keys; rw [hfst]; exact h
  · exact List.mem_map_of_mem (f := fun v : FSet K => (v.name, v)) hs

theorem mem_keys_setDict (sets : List (FSet K)) (n : String) :
    n ∈ Dict.keys (setDict sets) ↔ ∃ s ∈ sets, s.name = n := by
  unfold setDict
  rw [Dict.mem_keys_ofPairs]
  simp [List.map_map, Function.comp_def]

theorem RefersTo.lookup {vars : List (FVar K)} (hw : WellNamed vars) {f n : String} {s : FSet K}
    (h : RefersTo vars f n s) :
    ∃ sets, Dict.get (varDict vars) f = .ok sets ∧ Dict.get (setDict sets) n = .ok s := by
  obtain ⟨v, hv, rfl, hs, rfl⟩ := h
  exact ⟨v.sets, Dict.get_eq_ok_iff.2 (varDict_get? hw.1 hv), Dict.get_eq_ok_iff.2 (setDict_get? (hw.2 v hv) hs)⟩

theorem RefersTo.unique {vars : List (FVar K)} (hw : WellNamed vars) {f n : String} {s s' : FSet K}
    (h : RefersTo vars f n s) (h' : RefersTo vars f n s') : s = s' := by
  obtain ⟨sets, h1, h2⟩ := RefersTo.lookup hw h
  obtain ⟨sets', h1', h2'⟩ := RefersTo.lookup hw h'
  rw [h1] at h1'; cases h1'
  rw [h2] at h2'; cases h2'; rfl

/-! ### C22 -/

/-- degree of a cell in a set, as in `membership` of one row -/
theorem cont_cut_iff (s : CSet K) (hs : s.a ≤ s.b ∧ s.b ≤ s.c) (α : K) (h0 : 0 < α) (h1 : α ≤ 1) (x : Cell K) (m : K)
    (hm : FSet.membership (.cont s) [x] = .ok [m]) :
    ∃ l r, s.alphaCut α = .ok (l, r) ∧ ((∃ t, x = .num t ∧ l ≤ t ∧ t ≤ r) ↔ α ≤ m) := by
  obtain ⟨l, r, hc, hiff⟩ := C04_alpha_cut_level s hs.1 hs.2 α h0 h1
  refine ⟨l, r, hc, ?_⟩
  cases x with
  | str t =>
    have hm0 : m = 0 := by
      simp only [FSet.membership, CSet.membership, if_pos hs, List.mapM_cons, List.mapM_nil, py_pure] at hm
      by_cases he : s.a = s.b ∧ s.b = s.c
      · rw [if_pos he] at hm
        simp only [py_bind_ok, Except.ok.injEq, List.cons.injEq, and_true] at hm
        exact hm.symm
      · rw [if_neg he] at hm
        cases hm
    subst hm0
    simp [h0]
  | num t =>
    rw [← hiff t m hm]
    constructor
    · rintro ⟨t', ht, h⟩; cases ht; exact h
    · intro h; exact ⟨t, rfl, h⟩

theorem crispClause_spec (vars : List (FVar K)) (hw : WellNamed vars)
    (x : String → Cell K) (inst : Inst K)
    (hinst : ∀ f n s, RefersTo vars f n s → ∃ m, s.membership [x f] = .ok [m] ∧ HasDegree inst f n m)
    (α : K) (h0 : 0 < α) (h1 : α ≤ 1) (p : String × String) (s : FSet K) (hp : RefersTo vars p.1 p.2 s) :
    ∃ q, crispClause α vars p = .ok q ∧ q.1 = p.1 ∧
      (CrispSat vars x q ↔ ∀ m, HasDegree inst p.1 p.2 m → α ≤ m) := by
  obtain ⟨sets, e1, e2⟩ := RefersTo.lookup hw hp
  obtain ⟨m, hm, hd⟩ := hinst _ _ _ hp
  have hall : (∀ m, HasDegree inst p.1 p.2 m → α ≤ m) ↔ α ≤ m :=
    ⟨fun h => h m hd, fun h m' hm' => by rw [HasDegree.unique hm' hd]; exact h⟩
  unfold crispClause
  rw [e1, py_bind_ok, e2, py_bind_ok]
  cases s with
  | cont s =>
    have hs : s.a ≤ s.b ∧ s.b ≤ s.c := ((FSet.membership_ok_iff _ _ _).1 hm).1
    obtain ⟨l, r, hc, hiff⟩ := cont_cut_iff s hs α h0 h1 _ _ hm
    simp only [hc]
    refine ⟨_, rfl, rfl, ?_⟩
    rw [hall, ← hiff]
    rfl
  | disc d =>
    refine ⟨_, rfl, rfl, ?_⟩
    rw [hall]
    simp only [FSet.membership, DSet.membership, List.map_cons, List.map_nil, Except.ok.injEq, List.cons.injEq,
      and_true] at hm
    simp only [CrispSat]
    constructor
    · rintro ⟨d', hd', hv⟩
      have := RefersTo.unique hw hd' hp
      cases this
      rw [← hm, if_pos hv]; exact h1
    · intro hle
      refine ⟨d, hp, ?_⟩
      by_contra hne
      rw [if_neg hne] at hm
      rw [← hm] at hle
      exact absurd h0 (not_lt.2 hle)

/-- C22: the crisp rule keeps features, consequent and weight, and a row satisfies all its conditions exactly when
the fuzzy rule matches the row with degree at least `α`. `inst` is the membership of row `x` in the variables. -/
theorem C22_to_crisp (r : Rule String C K) (vars : List (FVar K)) (hw : WellNamed vars)
    (hknown : ∀ p ∈ r.antecedent, ∃ s, RefersTo vars p.1 p.2 s)
    (x : String → Cell K) (inst : Inst K)
    (hinst : ∀ f n s, RefersTo vars f n s → ∃ m, s.membership [x f] = .ok [m] ∧ HasDegree inst f n m)
    (α : K) (h0 : 0 < α) (h1 : α ≤ 1) (hne : r.antecedent ≠ []) :
    ∃ r', r.toCrisp α vars = .ok r' ∧ r'.consequent = r.consequent ∧ r'.weight = r.weight ∧
      r'.antecedent.map Prod.fst = r.antecedent.map Prod.fst ∧
      ((∀ q ∈ r'.antecedent, CrispSat vars x q) ↔ ∃ m, r.matching inst = .ok m ∧ α ≤ m) := by
  have hcl : ∀ p ∈ r.antecedent, ∃ q, crispClause α vars p = .ok q ∧ q.1 = p.1 ∧
      (CrispSat vars x q ↔ ∀ m, HasDegree inst p.1 p.2 m → α ≤ m) := by
    intro p hp
    obtain ⟨s, hs⟩ := hknown p hp
    exact crispClause_spec vars hw x inst hinst α h0 h1 p s hs
  obtain ⟨qs, hqs⟩ := forall₂_of_forall_exists _ _ hcl
  have hmap : r.antecedent.mapM (crispClause α vars) = .ok qs :=
    (mapM_ok_iff _ _ _).2 (hqs.imp fun _ _ h => h.1)
  refine ⟨⟨qs, r.consequent, r.weight⟩, ?_, rfl, rfl, forall₂_map_eq hqs (fun _ _ h => h.2.1), ?_⟩
  · unfold Rule.toCrisp
    rw [hmap]; rfl
  · have hk : ∀ p ∈ r.antecedent, Known inst p.1 p.2 := by
      intro p hp
      obtain ⟨s, hs⟩ := hknown p hp
      obtain ⟨m, -, hm⟩ := hinst _ _ _ hs
      exact ⟨m, hm⟩
    obtain ⟨m, hm, hspec, -⟩ := matching_spec r inst hne
    obtain ⟨⟨p, hp, hpm⟩, hle⟩ := hspec hk
    constructor
    · intro h
      refine ⟨m, hm, ?_⟩
      obtain ⟨q, hq, hpq⟩ := forall₂_mem_left hqs p hp
      exact hpq.2.2.1 (h q hq) m hpm
    · rintro ⟨m', hm', hα⟩ q hq
      rw [hm] at hm'; cases hm'
      obtain ⟨p', hp', hpq⟩ := forall₂_mem_right hqs q hq
      exact hpq.2.2.2 (fun x hx => hα.trans (hle p' hp' x hx))

/-- C22: a condition on an unknown feature or set raises `KeyError` (for a legal `α`); an illegal `α` raises
`ValueError` as soon as a condition is continuous, and is not looked at when all conditions are discrete. -/
theorem C22_errors (r : Rule String C K) (vars : List (FVar K)) (hw : WellNamed vars) (α : K) :
    (0 ≤ α → α ≤ 1 → (∃ p ∈ r.antecedent, ∀ s, ¬ RefersTo vars p.1 p.2 s) → r.toCrisp α vars = .error .keyError) ∧
    ((∀ p ∈ r.antecedent, ∃ s, RefersTo vars p.1 p.2 s) →
      (∃ p ∈ r.antecedent, ∃ s, RefersTo vars p.1 p.2 (.cont s)) → (α < 0 ∨ 1 < α) →
        r.toCrisp α vars = .error .valueError) ∧
    ((∀ p ∈ r.antecedent, ∃ d, RefersTo vars p.1 p.2 (.disc d)) →
      r.toCrisp α vars = .ok ⟨r.antecedent.map (fun p => (p.1, .label p.2)), r.consequent, r.weight⟩) := by
  refine ⟨?_, ?_, ?_⟩
  · rintro h0 h1 ⟨p, hp, hnone⟩
    unfold Rule.toCrisp
    rw [mapM_error_eq _ _ .keyError]
    · rfl
    · intro q _ e he
      unfold crispClause at he
      rw [py_bind_eq_error] at he
      rcases he with he | ⟨sets, -, he⟩
      · exact (Dict.get_eq_error_iff.1 he).2
      rw [py_bind_eq_error] at he
      rcases he with he | ⟨s, -, he⟩
      · exact (Dict.get_eq_error_iff.1 he).2
      cases s with
      | disc d => cases he
      | cont s =>
        simp only [CSet.alphaCut, not_lt.2 h0, gt_iff_lt, not_lt.2 h1, or_self, if_false] at he
        cases he
    · refine ⟨p, hp, ?_⟩
      unfold crispClause
      cases hg : Dict.get (varDict vars) p.1 with
      | error e => rw [(Dict.get_eq_error_iff.1 hg).2]; rfl
      | ok sets =>
        rw [py_bind_ok]
        cases hg2 : Dict.get (setDict sets) p.2 with
        | error e => rw [(Dict.get_eq_error_iff.1 hg2).2]; rfl
        | ok s =>
          exfalso
          have h1 := Dict.get_eq_ok_iff.1 hg
          have h2 := Dict.get_eq_ok_iff.1 hg2
          obtain ⟨v, hv, hvn⟩ := (mem_keys_varDict vars p.1).1 ((Dict.get?_isSome_iff _ _).1 ⟨_, h1⟩)
          have : v.sets = sets := by
            have := varDict_get? hw.1 hv
            rw [hvn, h1] at this
            exact (Option.some.inj this).symm
          subst this
          obtain ⟨s', hs', hsn⟩ := (mem_keys_setDict v.sets p.2).1 ((Dict.get?_isSome_iff _ _).1 ⟨_, h2⟩)
          exact hnone s' ⟨v, hv, hvn, hs', hsn⟩
  · rintro hall ⟨p, hp, s, hs⟩ hα
    unfold Rule.toCrisp
    have hcut : ∀ s : CSet K, s.alphaCut α = .error .valueError := fun s => (C04_alpha_cut_error s α _).2 ⟨hα, rfl⟩
    rw [mapM_error_eq _ _ .valueError]
    · rfl
    · intro q hq e he
      obtain ⟨t, ht⟩ := hall q hq
      obtain ⟨sets, e1, e2⟩ := RefersTo.lookup hw ht
      unfold crispClause at he
      rw [e1, py_bind_ok, e2, py_bind_ok] at he
      cases t with
      | disc d => cases he
      | cont s => simp only [hcut] at he; cases he; rfl
    · refine ⟨p, hp, ?_⟩
      obtain ⟨sets, e1, e2⟩ := RefersTo.lookup hw hs
      unfold crispClause
      rw [e1, py_bind_ok, e2, py_bind_ok]
      simp only [hcut]; rfl
  · intro hall
    unfold Rule.toCrisp
    rw [mapM_ok_of_forall (g := fun p => (p.1, .label p.2))]
    · rfl
    · intro p hp
      obtain ⟨d, hd⟩ := hall p hp
      obtain ⟨sets, e1, e2⟩ := RefersTo.lookup hw hd
      unfold crispClause
      rw [e1, py_bind_ok, e2, py_bind_ok]
      rfl

/-- variables used in the examples: a continuous one with peaks 0, 1, 3 and a discrete one. -/
def exVars : List (FVar ℚ) :=
  [⟨"age", [.cont ⟨"0", 0, 0, 1, false⟩, .cont ⟨"1", 0, 1, 3, false⟩, .cont ⟨"3", 1, 3, 3, false⟩]⟩,
   ⟨"sex", [.disc ⟨"m", .str "m"⟩, .disc ⟨"f", .str "f"⟩]⟩]

example : WellNamed exVars ∧
    (⟨[("age", "1"), ("sex", "m")], "y", 1⟩ : Rule String String ℚ).toCrisp (1/2) exVars =
      .ok ⟨[("age", .interval (1/2) 2), ("sex", .label "m")], "y", 1⟩ := by
  refine ⟨⟨by decide +kernel, ?_⟩, by decide +kernel⟩
  intro v hv
  simp only [exVars, List.mem_cons, List.not_mem_nil, or_false] at hv
  rcases hv with rfl | rfl <;> decide +kernel

/-! ### C23 -/

theorem mapClause_spec (f : MapFun) (origin dest : List (FVar K)) (ho : WellNamed origin) (hd : WellNamed dest)
    (p : String × String) (s : FSet K) (hs : RefersTo origin p.1 p.2 s) (vd : FVar K) (hvd : vd ∈ dest)
    (hn : vd.name = p.1) :
    (∀ q, mapClause f (varDict origin) (varDict dest) p = .ok q →
      q.1 = p.1 ∧ ∃ key : FSet K → K, (∀ t ∈ vd.sets, f.key t s = .ok (key t)) ∧
        ∃ t, IsFirstMax key vd.sets t ∧ q.2 = t.name) ∧
    (vd.sets ≠ [] → (∀ t ∈ vd.sets, ∃ k, f.key t s = .ok k) →
      ∃ q, mapClause f (varDict origin) (varDict dest) p = .ok q) := by
  obtain ⟨sets, e1, e2⟩ := RefersTo.lookup ho hs
  have e3 : Dict.get (varDict dest) p.1 = .ok vd.sets := by
    rw [← hn]; exact Dict.get_eq_ok_iff.2 (varDict_get? hd.1 hvd)
  unfold mapClause
  rw [e1, py_bind_ok, e3, py_bind_ok, e2, py_bind_ok]
  constructor
  · intro q hq
    rw [py_bind_eq_ok] at hq
    obtain ⟨ks, hks, hq⟩ := hq
    rw [py_bind_eq_ok] at hq
    obtain ⟨b, hb, hq⟩ := hq
    cases hq
    refine ⟨rfl, ?_⟩
    have hf := (mapM_ok_iff _ _ _).1 hks
    have hks' : ks = vd.sets.map (fun t => match f.key t s with | .ok k => k | .error _ => 0) := by
      clear hb hks
      have : ks.map id = vd.sets.map (fun t => match f.key t s with | .ok k => k | .error _ => 0) :=
        forall₂_map_eq hf (fun a b h => by simp only [h, id])
      simpa using this
    refine ⟨fun t => match f.key t s with | .ok k => k | .error _ => 0, ?_, b.1, ?_, rfl⟩
    · intro t ht
      obtain ⟨k, -, hk⟩ := forall₂_mem_left hf t ht
      simp only [hk]
    · obtain ⟨-, hmax, pre, post, hsplit, hpre⟩ := pyMax_eq_ok _ _ _ hb
      rw [hks'] at hsplit hmax
      have hz : ∀ (l : List (FSet K)) (g : FSet K → K), l.zip (l.map g) = l.map (fun t => (t, g t)) := by
        intro l g
        induction l with
        | nil => rfl
        | cons a l ih => simp [ih]
      rw [hz] at hsplit hmax
      have hsnd : ∀ x ∈ pre ++ b :: post, x.2 = (match f.key x.1 s with | .ok k => k | .error _ => 0) := by
        intro x hx
        rw [← hsplit] at hx
        obtain ⟨t, -, rfl⟩ := List.mem_map.1 hx
        rfl
      refine ⟨pre.map Prod.fst, post.map Prod.fst, ?_, ?_, ?_⟩
      · have := congrArg (List.map Prod.fst) hsplit
        simpa [List.map_map, Function.comp_def] using this
      · intro t ht
        obtain ⟨x, hx, rfl⟩ := List.mem_map.1 ht
        show (match f.key x.1 s with | .ok k => k | .error _ => 0) < (match f.key b.1 s with | .ok k => k | .error _ => 0)
        rw [← hsnd x (by simp [hx]), ← hsnd b (by simp)]
        exact hpre x hx
      · intro t ht
        obtain ⟨x, hx, rfl⟩ := List.mem_map.1 ht
        show (match f.key x.1 s with | .ok k => k | .error _ => 0) ≤ (match f.key b.1 s with | .ok k => k | .error _ => 0)
        rw [← hsnd x (by simp [hx]), ← hsnd b (by simp)]
        rw [hsplit] at hmax
        exact hmax x (by simp [hx])
  · intro hne hall
    obtain ⟨ks, hks⟩ := forall₂_of_forall_exists _ _ hall
    rw [(mapM_ok_iff _ _ _).2 hks, py_bind_ok]
    obtain ⟨m, hm⟩ := pyMax_ok_of_ne_nil (Prod.snd : FSet K × K → K) (vd.sets.zip ks) (by
      intro h
      have hl := hks.length_eq
      rw [List.zip_eq_nil_iff] at h
      rcases h with h | h
      · exact hne h
      · rw [h] at hl; exact hne (List.length_eq_zero_iff.1 hl))
    rw [hm]
    exact ⟨_, rfl⟩

/-- C23: the mapped rule keeps features, order, consequent and weight, and every value becomes the name of the first
set of the destination variable with the largest `map_function` against the original set. -/
theorem C23_map_variables (f : MapFun) (r r' : Rule String C K) (origin dest : List (FVar K))
    (ho : WellNamed origin) (hd : WellNamed dest)
    (hknown : ∀ p ∈ r.antecedent, ∃ s, RefersTo origin p.1 p.2 s)
    (h : r.mapVariables origin dest f = .ok r') :
    r'.consequent = r.consequent ∧ r'.weight = r.weight ∧
    List.Forall₂ (fun p q => q.1 = p.1 ∧ ∃ s vd, RefersTo origin p.1 p.2 s ∧ vd ∈ dest ∧ vd.name = p.1 ∧
      ∃ key : FSet K → K, (∀ t ∈ vd.sets, f.key t s = .ok (key t)) ∧ ∃ t, IsFirstMax key vd.sets t ∧ q.2 = t.name)
      r.antecedent r'.antecedent := by
  unfold Rule.mapVariables at h
  simp only at h
  split at h
  · rename_i hu
    rw [py_bind_eq_ok] at h
    obtain ⟨a, ha, h⟩ := h
    cases h
    refine ⟨rfl, rfl, ?_⟩
    have hf := (mapM_ok_iff _ _ _).1 ha
    have key : ∀ (l : List (String × String)) (a : List (String × String)),
        (∀ p ∈ l, ∃ s, RefersTo origin p.1 p.2 s) →
        List.Forall₂ (fun p q => mapClause f (varDict origin) (varDict dest) p = .ok q) l a →
        List.Forall₂ (fun p q => q.1 = p.1 ∧ ∃ s vd, RefersTo origin p.1 p.2 s ∧ vd ∈ dest ∧ vd.name = p.1 ∧
          ∃ key : FSet K → K, (∀ t ∈ vd.sets, f.key t s = .ok (key t)) ∧ ∃ t, IsFirstMax key vd.sets t ∧ q.2 = t.name)
          l a := by
      intro l a hk hf
      induction hf with
      | nil => exact .nil
      | @cons p q l a hpq _ ih =>
        refine .cons ?_ (ih (fun p hp => hk p (by simp [hp])))
        obtain ⟨s, hs⟩ := hk p (by simp)
        have hmem : p.1 ∈ Dict.keys (varDict dest) := by
          apply hu.1
          obtain ⟨v, hv, hn, -⟩ := hs
          exact (mem_keys_varDict _ _).2 ⟨v, hv, hn⟩
        obtain ⟨vd, hvd, hn⟩ := (mem_keys_varDict _ _).1 hmem
        obtain ⟨h1, h2⟩ := (mapClause_spec f origin dest ho hd p s hs vd hvd hn).1 q hpq
        exact ⟨h1, s, vd, hs, hvd, hn, h2⟩
    exact key _ _ hknown hf
  · cases h

/-- C23: it succeeds when the universes agree, the conditions are known and comparable with the destination sets. -/
theorem C23_succeeds (f : MapFun) (r : Rule String C K) (origin dest : List (FVar K))
    (ho : WellNamed origin) (hd : WellNamed dest)
    (huniv : ∀ n, (∃ v ∈ origin, v.name = n) ↔ (∃ v ∈ dest, v.name = n))
    (hknown : ∀ p ∈ r.antecedent, ∃ s, RefersTo origin p.1 p.2 s ∧
      ∀ vd ∈ dest, vd.name = p.1 → vd.sets ≠ [] ∧ ∀ t ∈ vd.sets, ∃ k, f.key t s = .ok k) :
    ∃ r', r.mapVariables origin dest f = .ok r' := by
  unfold Rule.mapVariables
  simp only
  rw [if_pos ⟨fun k hk => by
      rw [mem_keys_varDict] at hk ⊢; exact (huniv k).1 hk, fun k hk => by
      rw [mem_keys_varDict] at hk ⊢; exact (huniv k).2 hk⟩]
  have : ∀ p ∈ r.antecedent, ∃ q, mapClause f (varDict origin) (varDict dest) p = .ok q := by
    intro p hp
    obtain ⟨s, hs, hrest⟩ := hknown p hp
    obtain ⟨v, hv, hn, hh⟩ := hs
    obtain ⟨vd, hvd, hdn⟩ := (huniv p.1).1 ⟨v, hv, hn⟩
    obtain ⟨h1, h2⟩ := hrest vd hvd hdn
    exact (mapClause_spec f origin dest ho hd p s ⟨v, hv, hn, hh⟩ vd hvd hdn).2 h1 h2
  obtain ⟨qs, hqs⟩ := forall₂_of_forall_exists _ _ this
  rw [(mapM_ok_iff _ _ _).2 hqs]
  exact ⟨_, rfl⟩

/-- C23: variable lists over different names raise `ValueError`, whatever the rule; an unknown `map_function` raises
`ValueError` on any rule with at least one (known) condition. -/
theorem C23_errors (r : Rule String C K) (origin dest : List (FVar K)) :
    (∀ f, ¬ (∀ n, (∃ v ∈ origin, v.name = n) ↔ (∃ v ∈ dest, v.name = n)) →
      r.mapVariables origin dest f = .error .valueError) ∧
    (WellNamed origin → (∀ n, (∃ v ∈ origin, v.name = n) ↔ (∃ v ∈ dest, v.name = n)) → r.antecedent ≠ [] →
      (∀ p ∈ r.antecedent, ∃ s, RefersTo origin p.1 p.2 s) →
      r.mapVariables origin dest .other = .error .valueError) := by
  constructor
  · intro f hne
    unfold Rule.mapVariables
    simp only
    rw [if_neg]
    rintro ⟨h1, h2⟩
    apply hne
    intro n
    rw [← mem_keys_varDict, ← mem_keys_varDict]
    exact ⟨h1 n, h2 n⟩
  · intro ho huniv hne hknown
    unfold Rule.mapVariables
    simp only
    rw [if_pos ⟨fun k hk => by
      rw [mem_keys_varDict] at hk ⊢; exact (huniv k).1 hk, fun k hk => by
      rw [mem_keys_varDict] at hk ⊢; exact (huniv k).2 hk⟩]
    have hcl : ∀ p ∈ r.antecedent, mapClause (K := K) .other (varDict origin) (varDict dest) p = .error .valueError := by
      intro p hp
      obtain ⟨s, hs⟩ := hknown p hp
      obtain ⟨sets, e1, e2⟩ := RefersTo.lookup ho hs
      obtain ⟨v, hv, hn, -⟩ := hs
      have hm : p.1 ∈ Dict.keys (varDict dest) := (mem_keys_varDict _ _).2 ((huniv p.1).1 ⟨v, hv, hn⟩)
      obtain ⟨ds, hds⟩ := (Dict.get?_isSome_iff _ _).2 hm
      unfold mapClause
      rw [e1, py_bind_ok, Dict.get_eq_ok_iff.2 hds, py_bind_ok, e2, py_bind_ok]
      cases ds with
      | nil => rfl
      | cons d ds => rfl
    obtain ⟨p, hp⟩ := List.exists_mem_of_ne_nil _ hne
    rw [mapM_error_eq _ _ .valueError]
    · rfl
    · intro q hq e he
      rw [hcl q hq] at he; cases he; rfl
    · exact ⟨p, hp, hcl p hp⟩

/-- a second family of variables over the same universe, for the example -/
def exVars' : List (FVar ℚ) :=
  [⟨"sex", [.disc ⟨"f", .str "f"⟩, .disc ⟨"m", .str "m"⟩]⟩,
   ⟨"age", [.cont ⟨"young", 0, 0, 2, false⟩, .cont ⟨"old", 0, 2, 2, false⟩]⟩]

example : (⟨[("age", "3"), ("sex", "m")], "y", 1⟩ : Rule String String ℚ).mapVariables exVars exVars' .intersection =
    .ok ⟨[("age", "old"), ("sex", "m")], "y", 1⟩ := by decide +kernel

/-! ### C24 -/

/-- sets of one variable that can be told apart: valid triangles with different peaks, or discrete sets -/
def Separated (sets : List (FSet K)) : Prop :=
  (∃ cs : List (CSet K), sets = cs.map .cont ∧ (∀ s ∈ cs, s.a ≤ s.b ∧ s.b ≤ s.c) ∧ (cs.map CSet.b).Nodup) ∨
  (∃ ds : List (DSet K), sets = ds.map .disc)

theorem intersection_lt_one_of_ne {sets : List (FSet K)} (hsep : Separated sets) {s t : FSet K} (hs : s ∈ sets)
    (ht : t ∈ sets) : ∃ k, t.intersection s = .ok k ∧ (t = s → k = 1) ∧ (t ≠ s → k < 1) := by
  rcases hsep with ⟨cs, rfl, hcs, hnd⟩ | ⟨ds, rfl⟩
  · obtain ⟨s, hs', rfl⟩ := List.mem_map.1 hs
    obtain ⟨t, ht', rfl⟩ := List.mem_map.1 ht
    clear hs ht
    have hs := hs'
    have ht := ht'
    obtain ⟨h, e, -, -, hle, hiff⟩ := C05_intersection_range t s (hcs t ht).1 (hcs t ht).2 (hcs s hs).1 (hcs s hs).2
    refine ⟨h, e, ?_, ?_⟩
    · intro he; cases he; exact hiff.2 rfl
    · intro hne
      refine lt_of_le_of_ne hle (fun h1 => hne ?_)
      rw [List.inj_on_of_nodup_map hnd ht hs (hiff.1 h1)]
  · obtain ⟨s, hs, rfl⟩ := List.mem_map.1 hs
    obtain ⟨t, ht, rfl⟩ := List.mem_map.1 ht
    refine ⟨_, rfl, ?_, ?_⟩
    · intro he; cases he; simp
    · intro hne
      rw [if_neg (fun h => hne (by rw [h]))]
      exact zero_lt_one

/-- C24 (intersection): mapping a rule onto its own variables gives the rule itself. The full property also claims
this for `simmilarity`, which is false: see `C24_simmilarity_false`. -/
theorem C24_identity_partial (r : Rule String C K) (vars : List (FVar K)) (hw : WellNamed vars)
    (hsep : ∀ v ∈ vars, Separated v.sets) (hknown : ∀ p ∈ r.antecedent, ∃ s, RefersTo vars p.1 p.2 s) :
    r.mapVariables vars vars .intersection = .ok r := by
  obtain ⟨r', hr'⟩ := C23_succeeds .intersection r vars vars hw hw (fun n => Iff.rfl) (by
    intro p hp
    obtain ⟨s, hs⟩ := hknown p hp
    refine ⟨s, hs, ?_⟩
    intro vd hvd hn
    obtain ⟨v, hv, hvn, hsv, hsn⟩ := hs
    have : v = vd := List.inj_on_of_nodup_map hw.1 hv hvd (hvn.trans hn.symm)
    subst this
    refine ⟨List.ne_nil_of_mem hsv, fun t ht => ?_⟩
    obtain ⟨k, hk, -⟩ := intersection_lt_one_of_ne (hsep v hv) hsv ht
    exact ⟨k, hk⟩)
  rw [hr']
  obtain ⟨h1, h2, h3⟩ := C23_map_variables .intersection r r' vars vars hw hw hknown hr'
  have hante : r'.antecedent = r.antecedent := by
    have : r'.antecedent.map id = r.antecedent.map id := by
      refine forall₂_map_eq h3 ?_
      rintro p q ⟨e1, s, vd, hs, hvd, hn, key, hkey, t, ⟨pre, post, hsplit, hpre, hpost⟩, e2⟩
      obtain ⟨v, hv, hvn, hsv, hsn⟩ := hs
      have : v = vd := List.inj_on_of_nodup_map hw.1 hv hvd (hvn.trans hn.symm)
      subst this
      have htm : t ∈ v.sets := by rw [hsplit]; simp
      have hts : t = s := by
        by_contra hne
        obtain ⟨k, hk, -, hlt⟩ := intersection_lt_one_of_ne (hsep v hv) hsv htm
        obtain ⟨k', hk', h1', -⟩ := intersection_lt_one_of_ne (hsep v hv) hsv hsv
        have e3 := hkey t htm
        have e4 := hkey s hsv
        simp only [MapFun.key] at e3 e4
        rw [hk] at e3
        rw [hk'] at e4
        cases e3; cases e4
        have : key s ≤ key t := by
          rw [hsplit] at hsv
          rcases List.mem_append.1 hsv with h | h
          · exact (hpre s h).le
          · rcases List.mem_cons.1 h with h | h
            · rw [h]
            · exact hpost s h
        rw [h1' rfl] at this
        exact absurd (hlt hne) (not_lt.2 this)
      show q = p
      exact Prod.ext e1 (by rw [e2, hts, hsn])
    simpa using this
  cases r; cases r'
  simp only at h1 h2 hante
  rw [h1, h2, hante]

/-- C24: the sets generated from strictly increasing points are separated, so the hypotheses are met by the
variables built by the library. -/
theorem C24_generated_separated (ok : Bool) (ps : List (String × K)) (sets : List (CSet K))
    (hinc : (ps.map Prod.snd).Pairwise (· < ·)) (h : getFuzzyContinuousSets ok ps = .ok sets) :
    Separated (sets.map FSet.cont) ∧ sets.map CSet.name = ps.map Prod.fst := by
  have aux : (∀ s ∈ sets, s.a ≤ s.b ∧ s.b ≤ s.c) ∧ sets.map CSet.b = ps.map Prod.snd ∧
      sets.map CSet.name = ps.map Prod.fst := by
    match ps, hinc, h with
    | [], _, h => cases h
    | [p], _, h =>
      cases ok with
      | false => cases h
      | true => cases h; simp
    | d₀ :: d₁ :: ds, hinc, h =>
      rw [getFuzzyContinuousSets_two] at h
      cases h
      have tail : ∀ (ds : List (String × K)) (d₀ d₁ : String × K),
          ((d₀ :: d₁ :: ds).map Prod.snd).Pairwise (· < ·) →
          (∀ s ∈ tailTriangles (d₀ :: d₁ :: ds), s.a ≤ s.b ∧ s.b ≤ s.c) ∧
          (tailTriangles (d₀ :: d₁ :: ds)).map CSet.b = (d₁ :: ds).map Prod.snd ∧
          (tailTriangles (d₀ :: d₁ :: ds)).map CSet.name = (d₁ :: ds).map Prod.fst := by
        intro ds
        induction ds with
        | nil =>
          intro d₀ d₁ h
          rw [tailTriangles_two]
          simp only [List.map_cons, List.map_nil, List.pairwise_cons, List.mem_cons, List.not_mem_nil, or_false,
            forall_eq] at h ⊢
          exact ⟨⟨h.1.le, le_refl _⟩, trivial, trivial⟩
        | cons d₂ ds ih =>
          intro d₀ d₁ h
          rw [tailTriangles_cons]
          have h' := h
          simp only [List.map_cons, List.pairwise_cons] at h'
          obtain ⟨i1, i2, i3⟩ := ih d₁ d₂ (by
            simp only [List.map_cons] at h ⊢
            exact (List.pairwise_cons.1 h).2)
          refine ⟨?_, by simp [i2], by simp [i3]⟩
          intro s hs
          rcases List.mem_cons.1 hs with rfl | hs
          · exact ⟨(h'.1 _ (by simp)).le, (h'.2.1 _ (by simp)).le⟩
          · exact i1 s hs
      obtain ⟨i1, i2, i3⟩ := tail ds d₀ d₁ hinc
      refine ⟨?_, by simp [i2], by simp [i3]⟩
      intro s hs
      rcases List.mem_cons.1 hs with rfl | hs
      · simp only [List.map_cons, List.pairwise_cons] at hinc
        exact ⟨le_refl _, (hinc.1 _ (by simp)).le⟩
      · exact i1 s hs
  refine ⟨.inl ⟨sets, rfl, aux.1, ?_⟩, aux.2.2⟩
  rw [aux.2.1]
  exact hinc.imp (fun h => ne_of_lt h)

/-- C24 is false for `simmilarity`: on the partition with peaks 0, 1, 2 the middle set has simmilarity 0 with itself,
so the rule `x is 1` becomes `x is 0`. -/
theorem C24_simmilarity_false : ∃ (vars : List (FVar ℚ)) (sets : List (CSet ℚ)) (r : Rule String String ℚ),
    getFuzzyContinuousSets true [("0", (0:ℚ)), ("1", 1), ("2", 2)] = .ok sets ∧ vars = [⟨"x", sets.map .cont⟩] ∧
    WellNamed vars ∧ (∀ p ∈ r.antecedent, ∃ s, RefersTo vars p.1 p.2 s) ∧
    ∃ r', r.mapVariables vars vars .simmilarity = .ok r' ∧ r'.antecedent ≠ r.antecedent := by
  refine ⟨_, _, ⟨[("x", "1")], "c", 1⟩, rfl, rfl, ⟨by decide +kernel, ?_⟩, ?_, _, rfl, by decide +kernel⟩
  · intro v hv
    simp only [List.mem_cons, List.not_mem_nil, or_false] at hv
    subst hv; decide +kernel
  · intro p hp
    simp only [List.mem_cons, List.not_mem_nil, or_false] at hp
    subst hp
    exact ⟨.cont ⟨"1", 0, 1, 2, false⟩, _, List.mem_cons_self, rfl, by decide +kernel, rfl⟩

example : ∀ v ∈ exVars, Separated v.sets := by
  intro v hv
  simp only [exVars, List.mem_cons, List.not_mem_nil, or_false] at hv
  rcases hv with rfl | rfl
  · exact .inl ⟨[⟨"0", 0, 0, 1, false⟩, ⟨"1", 0, 1, 3, false⟩, ⟨"3", 1, 3, 3, false⟩], rfl, by decide +kernel,
      by decide +kernel⟩
  · exact .inr ⟨[⟨"m", .str "m"⟩, ⟨"f", .str "f"⟩], rfl⟩

/-! ### C25 -/

/-- **C25**, partial: `==` on rules is an equivalence, it holds exactly when antecedent, consequent and weight agree, equal rules
have the same hash (or both none) for every hash function of the components, no rule equals an object that is not a rule, and a rule with
one set per condition always has a hash. Missing: a rule with several sets per condition has none (C25_hash_false). -/
theorem C25_equality_partial [DecidableEq V] [DecidableEq C] (r s t : Rule V C K) :
    r.pyEq (some r) = true ∧
    (r.pyEq (some s) = true → s.pyEq (some r) = true) ∧
    (r.pyEq (some s) = true → s.pyEq (some t) = true → r.pyEq (some t) = true) ∧
    (r.pyEq (some s) = true ↔ r.antecedent = s.antecedent ∧ r.consequent = s.consequent ∧ r.weight = s.weight) ∧
    (∀ (H : Type) (hv : V → Py H) (hs : String → H) (hc : C → H) (hk : K → H) (comb : List H → H),
      (r.pyEq (some s) = true → r.pyHash hv hs hc hk comb = s.pyHash hv hs hc hk comb) ∧
      ((∀ v, ∃ h, hv v = .ok h) → ∃ h, r.pyHash hv hs hc hk comb = .ok h)) ∧
    r.pyEq none = false := by
  have hiff : ∀ r s : Rule V C K, r.pyEq (some s) = true ↔
      r.antecedent = s.antecedent ∧ r.consequent = s.consequent ∧ r.weight = s.weight := by
    intro r s
    simp [Rule.pyEq, and_assoc]
  rw [hiff, hiff, hiff, hiff, hiff]
  refine ⟨⟨rfl, rfl, rfl⟩, ?_, ?_, Iff.rfl, ?_, rfl⟩
  · rintro ⟨h1, h2, h3⟩; exact ⟨h1.symm, h2.symm, h3.symm⟩
  · rintro ⟨h1, h2, h3⟩ ⟨g1, g2, g3⟩; exact ⟨h1.trans g1, h2.trans g2, h3.trans g3⟩
  · intro H hv hs hc hk comb
    constructor
    · rintro ⟨h1, h2, h3⟩
      simp only [Rule.pyHash, h1, h2, h3]
    · intro hall
      choose g hg using hall
      have hl := mapM_ok_of_forall (fun p : String × V => (do let h ← hv p.2; pure (comb [hs p.1, h]) : Py H))
        (fun p => comb [hs p.1, g p.2]) r.antecedent (fun p _ => by rw [hg]; rfl)
      exact ⟨_, by unfold Rule.pyHash; rw [hl]; rfl⟩

/-- **C25** is false for rules with several sets per condition: their values are lists, so taking the hash of any such rule with a condition
raises `TypeError`, whatever the hash functions are. -/
theorem C25_hash_false {H : Type} (hs : String → H) (hc : C → H) (hk : K → H) (comb : List H → H) (r : Rule (List String) C K)
    (h : r.antecedent ≠ []) : r.pyHash listHash hs hc hk comb = .error .typeError := by
  obtain ⟨ant, c, w⟩ := r
  cases ant with
  | nil => exact absurd rfl h
  | cons p ps => rfl

example : (⟨[("x", "a")], "c", 1⟩ : Rule String String ℚ).pyEq (some ⟨[("x", "a")], "c", 2⟩) = false := by decide +kernel

example : (⟨[("x", ["a", "b"])], "c", 1⟩ : Rule (List String) String ℚ).antecedent ≠ [] := by decide

/-- a rule with one set per condition and its hash, for a hash that adds. -/
example : (⟨[("x", "a")], 1, 2⟩ : Rule String Nat ℚ).pyHash (fun v : String => .ok (v.length : ℚ)) (fun s => (s.length : ℚ)) (fun c : Nat => (c : ℚ)) id List.sum
    = .ok 5 := by decide +kernel

end Teacher
