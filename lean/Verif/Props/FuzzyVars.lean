import Verif.Props.Fuzzy

/-! Properties C10, C11: building the variables and the membership of a dataset. -/

set_option linter.unusedSectionVars false

namespace Teacher
open Spec

variable {K : Type} [Field K] [LinearOrder K] [IsStrictOrderedRing K]

/-! ### Lemmas -/

theorem FVar.membership_ok {v : FVar K} {col : List (Cell K)} {d : Dict String (List K)}
    (hn : (v.sets.map FSet.name).Nodup) (h : v.membership col = .ok d) :
    Dict.keys d = v.sets.map FSet.name ∧
      ∀ s ∈ v.sets, ∃ ms, s.membership col = .ok ms ∧ Dict.get? d s.name = some ms := by
  unfold FVar.membership at h
  rw [py_bind_eq_ok] at h
  obtain ⟨ps, hps, h⟩ := h
  simp only [py_pure, Except.ok.injEq] at h
  rw [mapM_ok_iff] at hps
  have hps' : List.Forall₂ (fun (s : FSet K) (p : String × List K) => p.1 = s.name ∧ s.membership col = .ok p.2)
      v.sets ps := by
    refine hps.imp ?_
    intro s p hp
    rw [py_bind_eq_ok] at hp
    obtain ⟨m, hm, hp⟩ := hp
    simp only [py_pure, Except.ok.injEq] at hp
    subst hp
    exact ⟨rfl, hm⟩
  have hkeys : ps.map Prod.fst = v.sets.map FSet.name := by
    clear h hps hn
    generalize v.sets = l at hps'
    induction hps' with
    | nil => rfl
    | cons h _ ih => simp [h.1, ih]
  have hd : d = ps := by
    rw [← h]
    exact Dict.ofPairs_eq_self _ (by rw [hkeys]; exact hn)
  subst hd
  refine ⟨hkeys, ?_⟩
  intro s hs
  have : ∃ p ∈ d, p.1 = s.name ∧ s.membership col = .ok p.2 := by
    clear h hps hn hkeys
    generalize v.sets = l at hps' hs
    induction hps' with
    | nil => simp at hs
    | cons h _ ih =>
      rcases List.mem_cons.1 hs with rfl | hs
      · exact ⟨_, by simp, h⟩
      · obtain ⟨p, hp, h'⟩ := ih hs
        exact ⟨p, by simp [hp], h'⟩
  obtain ⟨p, hp, h1, h2⟩ := this
  refine ⟨p.2, h2, ?_⟩
  rw [← h1]
  exact Dict.get?_of_mem_nodup (by unfold Dict.keys; rw [hkeys]; exact hn) hp

theorem FVar.membership_exists {v : FVar K} {col : List (Cell K)}
    (h : ∀ s ∈ v.sets, ∃ ms, s.membership col = .ok ms) : ∃ d, v.membership col = .ok d := by
  unfold FVar.membership
  have : ∃ ps, v.sets.mapM (fun fs => do let m ← fs.membership col; pure (fs.name, m)) = (.ok ps : Py _) := by
    generalize v.sets = l at h
    induction l with
    | nil => exact ⟨[], rfl⟩
    | cons s l ih =>
      obtain ⟨ps, hps⟩ := ih (fun s hs => h s (by simp [hs]))
      obtain ⟨ms, hms⟩ := h s (by simp)
      refine ⟨(s.name, ms) :: ps, ?_⟩
      rw [List.mapM_cons, hps, hms]
      rfl
  obtain ⟨ps, hps⟩ := this
  rw [hps]
  exact ⟨_, rfl⟩

theorem datasetMembershipFrom_ok (X : List (List (Cell K))) (vs : List (FVar K)) (i : Nat)
    (acc D : Dict String (Dict String (List K)))
    (hn : (Dict.keys acc ++ vs.map FVar.name).Nodup)
    (h : datasetMembershipFrom X i acc vs = .ok D) :
    Dict.keys D = Dict.keys acc ++ vs.map FVar.name ∧
    (∀ k, k ∉ vs.map FVar.name → Dict.get? D k = Dict.get? acc k) ∧
    ∀ k v, vs[k]? = some v → ∃ col d, column X (i + k) = .ok col ∧ v.membership col = .ok d ∧
      Dict.get? D v.name = some d := by
  induction vs generalizing i acc with
  | nil =>
    simp only [datasetMembershipFrom, Except.ok.injEq] at h
    subst h
    simp
  | cons v vs ih =>
    simp only [datasetMembershipFrom] at h
    rw [py_bind_eq_ok] at h
    obtain ⟨col, hcol, h⟩ := h
    rw [py_bind_eq_ok] at h
    obtain ⟨d, hd, h⟩ := h
    have hv : v.name ∉ Dict.keys acc := by
      intro hm
      rw [List.nodup_append] at hn
      exact hn.2.2 _ hm _ (by simp) rfl
    have hk : Dict.keys (Dict.set acc v.name d) = Dict.keys acc ++ [v.name] := by
      rw [Dict.keys_set, if_neg hv]
    have hn' : (Dict.keys (Dict.set acc v.name d) ++ vs.map FVar.name).Nodup := by
      rw [hk]; simpa using hn
    obtain ⟨i1, i2, i3⟩ := ih (i + 1) _ hn' h
    refine ⟨by rw [i1, hk]; simp, ?_, ?_⟩
    · intro k hkn
      simp only [List.map_cons, List.mem_cons, not_or] at hkn
      rw [i2 k hkn.2, Dict.get?_set, if_neg (Ne.symm hkn.1)]
    · intro k w hw
      cases k with
      | zero =>
        simp only [List.getElem?_cons_zero, Option.some.injEq] at hw
        subst hw
        refine ⟨col, d, by simpa using hcol, hd, ?_⟩
        rw [i2, Dict.get?_set, if_pos rfl]
        intro hm
        rw [List.nodup_append] at hn
        have := hn.2.1
        simp only [List.map_cons, List.nodup_cons] at this
        exact this.1 hm
      | succ k =>
        rw [List.getElem?_cons_succ] at hw
        obtain ⟨col', d', h1, h2, h3⟩ := i3 k w hw
        exact ⟨col', d', by rw [← h1]; congr 1; omega, h2, h3⟩

theorem datasetMembershipFrom_exists (X : List (List (Cell K))) (vs : List (FVar K)) (i : Nat)
    (acc : Dict String (Dict String (List K)))
    (h : ∀ k v, vs[k]? = some v → ∃ col d, column X (i + k) = .ok col ∧ v.membership col = .ok d) :
    ∃ D, datasetMembershipFrom X i acc vs = .ok D := by
  induction vs generalizing i acc with
  | nil => exact ⟨acc, rfl⟩
  | cons v vs ih =>
    obtain ⟨col, d, h1, h2⟩ := h 0 v (by simp)
    obtain ⟨D, hD⟩ := ih (i + 1) (Dict.set acc v.name d) (fun k w hw => by
      obtain ⟨col', d', h1, h2⟩ := h (k + 1) w (by simpa using hw)
      exact ⟨col', d', by rw [← h1]; congr 1; omega, h2⟩)
    refine ⟨D, ?_⟩
    simp only [datasetMembershipFrom]
    rw [show column X i = .ok col from by simpa using h1]
    simp only [py_bind_ok, h2, hD]

/-! ### C11 -/

/-- A table accepted by `check_array`: at least one row, at least one column, rows of the same length. -/
def Rectangular {α : Type} (X : List (List α)) : Prop :=
  ∃ n, 0 < n ∧ X ≠ [] ∧ ∀ r ∈ X, r.length = n

theorem datasetMembership_eq (X : List (List (Cell K))) (vars : List (FVar K)) :
    (Rectangular X → datasetMembership X vars = datasetMembershipFrom X 0 [] vars) ∧
    (¬ Rectangular X → datasetMembership X vars = .error .valueError) := by
  unfold datasetMembership
  cases X with
  | nil => simp [Rectangular]
  | cons r rs =>
    constructor
    · rintro ⟨n, hn, -, hr⟩
      dsimp only
      rw [if_neg]
      rintro (h | ⟨r', hr', h⟩)
      · have := hr r (by simp); omega
      · exact h ((hr r' (by simp [hr'])).trans (hr r (by simp)).symm)
    · intro h
      dsimp only
      rw [if_pos]
      by_contra hc
      push Not at hc
      exact h ⟨r.length, by omega, by simp, by
        intro r' hr'
        rcases List.mem_cons.1 hr' with rfl | hr'
        · rfl
        · exact hc.2 r' hr'⟩

/-- C11: with uniquely named variables and sets, `dataset_membership` maps variable `i` and its set `s` to the vector whose
`j`-th entry is the membership in `s` of the cell at row `j`, column `i`. -/
theorem C11_cellwise (X : List (List (Cell K))) (vars : List (FVar K)) (D : Dict String (Dict String (List K)))
    (hn : (vars.map FVar.name).Nodup) (hsn : ∀ v ∈ vars, (v.sets.map FSet.name).Nodup)
    (h : datasetMembership X vars = .ok D) :
    Dict.keys D = vars.map FVar.name ∧
    ∀ (i : Nat) v, vars[i]? = some v → ∃ d, Dict.get? D v.name = some d ∧ Dict.keys d = v.sets.map FSet.name ∧
      ∀ s ∈ v.sets, ∃ ms : List K, Dict.get? d s.name = some ms ∧ ms.length = X.length ∧
        ∀ (j : Nat) row, X[j]? = some row → ∃ x m, row[i]? = some x ∧ ms[j]? = some m ∧ s.membership [x] = .ok [m] := by
  have hR : Rectangular X := by
    by_contra hR
    rw [(datasetMembership_eq X vars).2 hR] at h
    cases h
  rw [(datasetMembership_eq X vars).1 hR] at h
  obtain ⟨h1, -, h3⟩ := datasetMembershipFrom_ok X vars 0 [] D (by simpa [Dict.keys] using hn) h
  refine ⟨by simpa [Dict.keys] using h1, ?_⟩
  intro i v hv
  obtain ⟨col, d, hcol, hd, hget⟩ := h3 i v hv
  rw [Nat.zero_add, column_eq_ok_iff] at hcol
  obtain ⟨k1, k2⟩ := FVar.membership_ok (hsn v (List.mem_of_getElem? hv)) hd
  refine ⟨d, hget, k1, ?_⟩
  intro s hs
  obtain ⟨ms, hms, hgs⟩ := k2 s hs
  have hf := ((FSet.membership_ok_iff s col ms).1 hms).2
  refine ⟨ms, hgs, ?_, ?_⟩
  · rw [← hf.length_eq, hcol.length_eq]
  · intro j row hrow
    obtain ⟨hj, rfl⟩ := List.getElem?_eq_some_iff.1 hrow
    have hjc : j < col.length := by rw [← hcol.length_eq]; exact hj
    have hjm : j < ms.length := by rw [← hf.length_eq]; exact hjc
    refine ⟨col[j], ms[j], ?_, by simp [hjm], ?_⟩
    · exact (List.forall₂_iff_get.1 hcol).2 j hj hjc
    · exact (List.forall₂_iff_get.1 hf).2 j hjc hjm

/-- C11: the call succeeds exactly when the table is rectangular and non-empty and every set of variable `i` can be
evaluated on every cell of column `i` (in particular the column exists when the variable has a set). -/
theorem C11_succeeds (X : List (List (Cell K))) (vars : List (FVar K)) (hR : Rectangular X)
    (h : ∀ (i : Nat) v, vars[i]? = some v → ∀ row ∈ X, ∃ x, row[i]? = some x ∧
      ∀ s ∈ v.sets, ∃ m, s.membership [x] = .ok [m]) :
    ∃ D, datasetMembership X vars = .ok D := by
  rw [(datasetMembership_eq X vars).1 hR]
  apply datasetMembershipFrom_exists
  intro k v hv
  rw [Nat.zero_add]
  have hcol : ∃ col, column X k = .ok col ∧ ∀ x ∈ col, ∀ s ∈ v.sets, ∃ m, s.membership [x] = .ok [m] := by
    have h' := h k v hv
    clear hR h hv
    induction X with
    | nil => exact ⟨[], rfl, by simp⟩
    | cons r X ih =>
      obtain ⟨col, hc, hm⟩ := ih (fun row hrow => h' row (by simp [hrow]))
      obtain ⟨x, hx, hxs⟩ := h' r (by simp)
      refine ⟨x :: col, ?_, ?_⟩
      · rw [column_eq_ok_iff] at hc ⊢
        exact .cons hx hc
      · intro y hy
        rcases List.mem_cons.1 hy with rfl | hy
        · exact hxs
        · exact hm y hy
  obtain ⟨col, hc, hm⟩ := hcol
  have hne : col ≠ [] := by
    obtain ⟨n, -, hX, -⟩ := hR
    rw [column_eq_ok_iff] at hc
    rintro rfl
    exact hX (List.length_eq_zero_iff.1 (by rw [hc.length_eq]; rfl))
  have : ∃ d, v.membership col = .ok d := by
    apply FVar.membership_exists
    intro s hs
    have hm' : ∀ x ∈ col, ∃ m, s.membership [x] = .ok [m] := fun x hx => hm x hx s hs
    have hev : s.Evaluable := by
      obtain ⟨x, hx⟩ := List.exists_mem_of_ne_nil col hne
      obtain ⟨m, hxm⟩ := hm' x hx
      exact ((FSet.membership_ok_iff s _ _).1 hxm).1
    have : ∃ ms, List.Forall₂ (fun x m => s.membership [x] = .ok [m]) col ms := by
      clear hne hc hm hev
      induction col with
      | nil => exact ⟨[], .nil⟩
      | cons x col ih =>
        obtain ⟨ms, hms⟩ := ih (fun y hy => hm' y (by simp [hy]))
        obtain ⟨m, hxm⟩ := hm' x (by simp)
        exact ⟨m :: ms, .cons hxm hms⟩
    obtain ⟨ms, hms⟩ := this
    exact ⟨ms, (FSet.membership_ok_iff s _ _).2 ⟨hev, hms⟩⟩
  obtain ⟨d, hd⟩ := this
  exact ⟨col, d, hc, hd⟩

/-- C11: the membership of one instance alone is the corresponding row of the membership of the dataset. -/
theorem C11_row (X : List (List (Cell K))) (vars : List (FVar K)) (D : Dict String (Dict String (List K)))
    (hn : (vars.map FVar.name).Nodup) (hsn : ∀ v ∈ vars, (v.sets.map FSet.name).Nodup)
    (h : datasetMembership X vars = .ok D) (j : Nat) (row : List (Cell K)) (hj : X[j]? = some row) :
    ∃ Dj, datasetMembership [row] vars = .ok Dj ∧
      ∀ v ∈ vars, ∀ s ∈ v.sets, ∃ d ms dj m, Dict.get? D v.name = some d ∧ Dict.get? d s.name = some ms ∧
        Dict.get? Dj v.name = some dj ∧ Dict.get? dj s.name = some [m] ∧ ms[j]? = some m := by
  have hR : Rectangular X := by
    by_contra hR
    rw [(datasetMembership_eq X vars).2 hR] at h
    cases h
  have hrow : row ∈ X := List.mem_of_getElem? hj
  have hR' : Rectangular [row] := by
    obtain ⟨n, hn, _, hr⟩ := hR
    exact ⟨n, hn, by simp, by intro r hr'; simp only [List.mem_singleton] at hr'; rw [hr']; exact hr row hrow⟩
  have hcell := C11_cellwise X vars D hn hsn h
  have hex : ∃ Dj, datasetMembership [row] vars = .ok Dj := by
    rw [(datasetMembership_eq _ vars).1 hR']
    rw [(datasetMembership_eq _ vars).1 hR] at h
    obtain ⟨-, -, h3⟩ := datasetMembershipFrom_ok X vars 0 [] D (by simpa [Dict.keys] using hn) h
    apply datasetMembershipFrom_exists
    intro k v hv
    obtain ⟨col, d, hcol, hd, -⟩ := h3 k v hv
    rw [column_eq_ok_iff, List.forall₂_iff_get] at hcol
    obtain ⟨hj', rfl⟩ := List.getElem?_eq_some_iff.1 hj
    have hjc : j < col.length := by rw [← hcol.1]; exact hj'
    have hx := hcol.2 j hj' hjc
    have hcol' : column [X[j]] (0 + k) = .ok [col[j]] := by
      rw [column_eq_ok_iff]; exact .cons hx .nil
    have : ∃ d', v.membership [col[j]] = .ok d' := by
      apply FVar.membership_exists
      intro s hs
      obtain ⟨ms, hms, -⟩ := (FVar.membership_ok (hsn v (List.mem_of_getElem? hv)) hd).2 s hs
      have hf := ((FSet.membership_ok_iff s col ms).1 hms).2
      have hjm : j < ms.length := by rw [← hf.length_eq]; exact hjc
      exact ⟨[ms[j]], (List.forall₂_iff_get.1 hf).2 j hjc hjm⟩
    obtain ⟨d', hd'⟩ := this
    exact ⟨_, d', hcol', hd'⟩
  obtain ⟨Dj, hDj⟩ := hex
  refine ⟨Dj, hDj, ?_⟩
  intro v hv s hs
  have hcellj := C11_cellwise [row] vars Dj hn hsn hDj
  obtain ⟨i, hi⟩ := List.mem_iff_getElem?.1 hv
  obtain ⟨d, hd, -, hds⟩ := hcell.2 i v hi
  obtain ⟨dj, hdj, -, hdjs⟩ := hcellj.2 i v hi
  obtain ⟨ms, hms, -, hmsj⟩ := hds s hs
  obtain ⟨ms', hms', hlen, hmsj'⟩ := hdjs s hs
  obtain ⟨x, m, hx, hm, hxm⟩ := hmsj j row hj
  obtain ⟨x', m', hx', hm', hxm'⟩ := hmsj' 0 row (by simp)
  rw [hx] at hx'
  cases hx'
  rw [hxm] at hxm'
  simp only [Except.ok.injEq, List.cons.injEq, and_true] at hxm'
  refine ⟨d, ms, dj, m, hd, hms, hdj, ?_, hm⟩
  have : ms' = [m] := by
    match ms', hlen, hm' with
    | [y], _, hm' =>
      simp only [List.getElem?_cons_zero, Option.some.injEq] at hm'
      rw [hm', hxm']
  rw [← this]; exact hms'

/-- C11: memberships of a dataset are degrees. -/
theorem C11_degrees (X : List (List (Cell K))) (vars : List (FVar K)) (D : Dict String (Dict String (List K)))
    (hn : (vars.map FVar.name).Nodup) (hsn : ∀ v ∈ vars, (v.sets.map FSet.name).Nodup)
    (h : datasetMembership X vars = .ok D) (v : FVar K) (hv : v ∈ vars) (s : FSet K) (hs : s ∈ v.sets) :
    ∃ d ms, Dict.get? D v.name = some d ∧ Dict.get? d s.name = some ms ∧ ∀ m ∈ ms, 0 ≤ m ∧ m ≤ 1 := by
  obtain ⟨i, hi⟩ := List.mem_iff_getElem?.1 hv
  obtain ⟨d, hd, -, hds⟩ := (C11_cellwise X vars D hn hsn h).2 i v hi
  obtain ⟨ms, hms, hlen, hmsj⟩ := hds s hs
  refine ⟨d, ms, hd, hms, ?_⟩
  intro m hm
  obtain ⟨j, hj, rfl⟩ := List.getElem_of_mem hm
  obtain ⟨x, m', -, hm', hxm⟩ := hmsj j X[j] (by simp [← hlen, hj])
  have : m' = ms[j] := by
    rw [List.getElem?_eq_getElem hj] at hm'
    exact (Option.some.inj hm').symm
  rw [← this]
  exact FSet.membership_singleton_range hxm

/-- a concrete table, variables and result meeting the hypotheses of C11 -/
example : ∃ (X : List (List (Cell ℚ))) (vars : List (FVar ℚ)) (D : _), Rectangular X ∧
    (vars.map FVar.name).Nodup ∧ (∀ v ∈ vars, (v.sets.map FSet.name).Nodup) ∧ datasetMembership X vars = .ok D ∧
    D = [("age", [("low", [1, 1/2]), ("high", [0, 1/2])]), ("sex", [("m", [0, 1]), ("f", [1, 0])])] := by
  refine ⟨[[.num 0, .str "f"], [.num 5, .str "m"]],
    [⟨"age", [.cont { name := "low", a := 0, b := 0, c := 10 }, .cont { name := "high", a := 0, b := 10, c := 10 }]⟩,
     ⟨"sex", [.disc ⟨"m", .str "m"⟩, .disc ⟨"f", .str "f"⟩]⟩], _, ⟨2, by simp, by simp, by simp⟩, by decide, by decide,
    ?_, rfl⟩
  decide +kernel

/-! ### C10 -/

/-- the loops of `get_fuzzy_variables` after building the variables -/
theorem placeDiscrete_eq (fmt : Cell K → String) (labels) (order : Dict String Nat) (acc)
    (ps : List (String × List (Cell K))) :
    placeDiscrete fmt labels order acc ps = (ps.map (discreteVar fmt labels)).foldlM (placeVar order) acc := by
  induction ps generalizing acc with
  | nil => rfl
  | cons p ps ih =>
    simp only [placeDiscrete, List.map_cons, List.foldlM_cons, ih]

theorem placeContinuous_eq (fmt : K → String) (labels) (ok : Bool) (order : Dict String Nat) (acc)
    (ps : List (String × List K)) (g : String × List K → FVar K)
    (hg : ∀ p ∈ ps, continuousVar fmt labels ok p = .ok (g p)) :
    placeContinuous fmt labels ok order acc ps = (ps.map g).foldlM (placeVar order) acc := by
  induction ps generalizing acc with
  | nil => rfl
  | cons p ps ih =>
    simp only [placeContinuous, List.map_cons, List.foldlM_cons]
    rw [hg p (by simp)]
    simp only [py_bind_ok]
    congr 1
    funext acc'
    exact ih acc' (fun p hp => hg p (by simp [hp]))

theorem placeAll_ok (order : Dict String Nat) (vs : List (FVar K)) (acc : List (Option (FVar K)))
    (hpos : ∀ v ∈ vs, ∃ p, Dict.get? order v.name = some p ∧ p < acc.length)
    (hinj : ∀ n m p, Dict.get? order n = some p → Dict.get? order m = some p → n = m)
    (hnd : (vs.map FVar.name).Nodup) :
    ∃ r, vs.foldlM (placeVar order) acc = .ok r ∧ r.length = acc.length ∧
      (∀ v ∈ vs, ∃ p, Dict.get? order v.name = some p ∧ r[p]? = some (some v)) ∧
      (∀ q, (∀ v ∈ vs, Dict.get? order v.name ≠ some q) → r[q]? = acc[q]?) := by
  induction vs generalizing acc with
  | nil => exact ⟨acc, rfl, rfl, by simp, by simp⟩
  | cons v vs ih =>
    simp only [List.map_cons, List.nodup_cons] at hnd
    obtain ⟨p, hp, hlt⟩ := hpos v (by simp)
    have hplace : placeVar order acc v = .ok (acc.set p (some v)) := by
      unfold placeVar
      rw [Dict.get_eq_ok_iff.2 hp]
      simp [hlt]
    obtain ⟨r, hr, hlen, h1, h2⟩ := ih (acc.set p (some v))
      (fun w hw => by simpa using hpos w (by simp [hw])) hnd.2
    refine ⟨r, by rw [List.foldlM_cons, hplace]; simpa using hr, by simpa using hlen, ?_, ?_⟩
    · intro w hw
      rcases List.mem_cons.1 hw with rfl | hw
      · refine ⟨p, hp, ?_⟩
        rw [h2, List.getElem?_set_self hlt]
        intro w' hw' he
        apply hnd.1
        rw [hinj _ _ _ hp he]
        exact List.mem_map_of_mem hw'
      · exact h1 w hw
    · intro q hq
      rw [h2 q (fun w hw => hq w (by simp [hw])), List.getElem?_set_ne]
      intro he
      exact hq v (by simp) (he ▸ hp)

theorem placeAll_missing (order : Dict String Nat) (vs : List (FVar K)) (acc : List (Option (FVar K)))
    (hpos : ∀ n p, Dict.get? order n = some p → p < acc.length)
    (hmiss : ∃ v ∈ vs, v.name ∉ Dict.keys order) :
    vs.foldlM (placeVar order) acc = .error .keyError := by
  induction vs generalizing acc with
  | nil => simp at hmiss
  | cons v vs ih =>
    rw [List.foldlM_cons]
    unfold placeVar
    cases hp : Dict.get? order v.name with
    | none =>
      have : Dict.get order v.name = .error .keyError := by unfold Dict.get; rw [hp]
      rw [this]; rfl
    | some p =>
      have hlt := hpos _ _ hp
      rw [Dict.get_eq_ok_iff.2 hp]
      simp only [py_bind_ok, hlt, if_true, py_pure]
      apply ih
      · intro n p' hn; simpa using hpos n p' hn
      · obtain ⟨w, hw, hwn⟩ := hmiss
        rcases List.mem_cons.1 hw with rfl | hw
        · exfalso
          apply hwn
          rw [← Dict.get?_isSome_iff]
          exact ⟨p, hp⟩
        · exact ⟨w, hw, hwn⟩

theorem placeAll_bad (order : Dict String Nat) (vs : List (FVar K)) (acc : List (Option (FVar K)))
    (hin : ∀ v ∈ vs, v.name ∈ Dict.keys order)
    (hbad : ∃ v ∈ vs, ∃ p, Dict.get? order v.name = some p ∧ acc.length ≤ p) :
    vs.foldlM (placeVar order) acc = .error .indexError := by
  induction vs generalizing acc with
  | nil => simp at hbad
  | cons v vs ih =>
    rw [List.foldlM_cons]
    unfold placeVar
    obtain ⟨p, hp⟩ := (Dict.get?_isSome_iff order v.name).2 (hin v (by simp))
    rw [Dict.get_eq_ok_iff.2 hp]
    simp only [py_bind_ok]
    by_cases hlt : p < acc.length
    · simp only [hlt, if_true, py_pure, py_bind_ok]
      apply ih
      · intro w hw; exact hin w (by simp [hw])
      · obtain ⟨w, hw, p', hp', hle⟩ := hbad
        rcases List.mem_cons.1 hw with rfl | hw
        · rw [hp] at hp'; cases hp'; omega
        · exact ⟨w, hw, p', hp', by simpa using hle⟩
    · simp only [hlt, if_false]
      rfl

/-- The label of the `i`-th set of a column: the given one, or the rendering of the value. -/
def IsLabel {α : Type} (fmt : α → String) (labels : Option (Dict String (List String))) (name : String)
    (i : Nat) (x : α) (label : String) : Prop :=
  match labels.bind (fun l => Dict.get? l name) with
  | some ls => ls[i]? = some label
  | none => label = fmt x

/-- all given label lists are long enough -/
def LabelsFit {α : Type} (labels : Option (Dict String (List String))) (cols : Dict String (List α)) : Prop :=
  ∀ p ∈ cols, ∀ ls, labels.bind (fun l => Dict.get? l p.1) = some ls → ls.length = p.2.length

theorem colLabels_spec {α : Type} (fmt : α → String) (labels : Option (Dict String (List String)))
    (name : String) (vals : List α)
    (hfit : ∀ ls, labels.bind (fun l => Dict.get? l name) = some ls → ls.length = vals.length) :
    (colLabels fmt labels name vals).length = vals.length ∧
      ∀ (i : Nat) x, vals[i]? = some x → ∃ l, (colLabels fmt labels name vals)[i]? = some l ∧
        IsLabel fmt labels name i x l := by
  unfold colLabels IsLabel
  cases labels with
  | none => 
    refine ⟨by simp, ?_⟩
    intro i x hx
    exact ⟨fmt x, by simp [hx], rfl⟩
  | some ld =>
    simp only [Option.bind_some] at hfit ⊢
    cases hg : Dict.get? ld name with
    | none =>
      refine ⟨by simp, ?_⟩
      intro i x hx
      exact ⟨fmt x, by simp [hx], rfl⟩
    | some ls =>
      have hlen := hfit ls hg
      refine ⟨hlen, ?_⟩
      intro i x hx
      have : i < ls.length := by rw [hlen]; exact (List.getElem?_eq_some_iff.1 hx).1
      exact ⟨ls[i], by simp [this], by simp [this]⟩

/-- the sets of a continuous variable: one per peak, in order, with the neighbouring peaks as end points. -/
theorem continuousVar_spec (fmt : K → String) (labels : Option (Dict String (List String)))
    (p : String × List K) (hne : p.2 ≠ [])
    (hfit : ∀ ls, labels.bind (fun l => Dict.get? l p.1) = some ls → ls.length = p.2.length) :
    ∃ v, continuousVar fmt labels true p = .ok v ∧ v.name = p.1 ∧ v.sets.length = p.2.length ∧
      ∀ (i : Nat) x, p.2[i]? = some x → ∃ s, v.sets[i]? = some (.cont s) ∧ IsLabel fmt labels p.1 i x s.name ∧
        s.b = x ∧ s.a = (if i = 0 then x else (p.2[i-1]?).getD x) ∧ s.c = (p.2[i+1]?).getD x ∧
        s.pointSet = decide (p.2.length = 1) := by
  obtain ⟨hlen, hlab⟩ := colLabels_spec fmt labels p.1 p.2 hfit
  unfold continuousVar
  generalize colLabels fmt labels p.1 p.2 = ls at hlen hlab
  have hz : ∀ (i : Nat) x, p.2[i]? = some x → ∃ l, (ls.zip p.2)[i]? = some (l, x) ∧ IsLabel fmt labels p.1 i x l := by
    intro i x hx
    obtain ⟨l, hl, hil⟩ := hlab i x hx
    exact ⟨l, by rw [List.getElem?_zip_eq_some]; exact ⟨hl, hx⟩, hil⟩
  have hzl : (ls.zip p.2).length = p.2.length := by simp [hlen]
  have hzs : ∀ i : Nat, ((ls.zip p.2)[i]?).map Prod.snd = p.2[i]? := by
    intro i
    cases hx : p.2[i]? with
    | none =>
      rw [List.getElem?_eq_none_iff] at hx
      rw [List.getElem?_eq_none (by omega)]; rfl
    | some x =>
      obtain ⟨l, hl, -⟩ := hz i x hx
      simp [hl]
  generalize hzip : ls.zip p.2 = z at hz hzl hzs
  match z, hz, hzl, hzs with
  | [], _, hzl, _ => exact absurd (List.length_eq_zero_iff.1 hzl.symm) hne
  | [d], hz, hzl, hzs =>
    simp only [getFuzzyContinuousSets, if_true, py_bind_ok]
    refine ⟨_, rfl, rfl, by simpa using hzl, ?_⟩
    intro i x hx
    obtain ⟨l, hl, hil⟩ := hz i x hx
    have hi : i = 0 := by
      have := (List.getElem?_eq_some_iff.1 hl).1
      simp at this; omega
    subst hi
    simp only [List.getElem?_cons_zero, Option.some.injEq] at hl
    subst hl
    refine ⟨_, by simp; rfl, hil, rfl, by simp, ?_, ?_⟩
    · rw [← hzs 1]; simp
    · simpa using hzl.symm
  | d₀ :: d₁ :: ds, hz, hzl, hzs =>
    rw [getFuzzyContinuousSets_two]
    simp only [py_bind_ok, py_pure]
    refine ⟨_, rfl, rfl, by simp [tailTriangles_length, ← hzl], ?_⟩
    intro i x hx
    obtain ⟨l, hl, hil⟩ := hz i x hx
    have hl1 : decide (p.2.length = 1) = false := by rw [← hzl]; simp
    cases i with
    | zero =>
      simp only [List.getElem?_cons_zero, Option.some.injEq] at hl
      subst hl
      refine ⟨_, by simp; rfl, hil, rfl, by simp, ?_, hl1.symm⟩
      rw [← hzs 1]; simp
    | succ i =>
      have hlt : i < (tailTriangles (d₀ :: d₁ :: ds)).length := by
        have := (List.getElem?_eq_some_iff.1 hl).1
        rw [tailTriangles_length]
        simp at this; omega
      obtain ⟨u, q, g1, g2, g3, g4, g5, g6, g7⟩ :=
        tailTriangles_getElem? (d₀ :: d₁ :: ds) i _ (List.getElem?_eq_getElem hlt)
      rw [hl] at g2
      cases g2
      refine ⟨_, by simp only [List.map_cons, List.getElem?_cons_succ, List.getElem?_map, List.getElem?_eq_getElem hlt, Option.map_some], ?_, g5, ?_, ?_, ?_⟩
      · rw [g3]; exact hil
      · rw [g4]
        simp only [Nat.add_eq_zero_iff, one_ne_zero, and_false, if_false, Nat.add_sub_cancel]
        rw [← hzs i, g1]; rfl
      · rw [g7, ← hzs (i+1+1)]
        cases (d₀ :: d₁ :: ds)[i+1+1]? <;> simp
      · rw [g6, hl1]

/-- C10: every variable is at the position given by `order`, with one set per peak/value in the given order, and no
position is `None`. -/
theorem C10_positions (fmtK : K → String) (fmtC : Cell K → String)
    (cont : Dict String (List K)) (disc : Dict String (List (Cell K))) (order : Dict String Nat)
    (cl dl : Option (Dict String (List String)))
    (hnames : (Dict.keys cont ++ Dict.keys disc).Nodup)
    (hkeys : (Dict.keys order).Perm (Dict.keys cont ++ Dict.keys disc))
    (hvals : (order.map Prod.snd).Perm (List.range order.length))
    (hpts : ∀ p ∈ cont, p.2 ≠ []) (hcl : LabelsFit cl cont) (hdl : LabelsFit dl disc) :
    ∃ r, getFuzzyVariables fmtK fmtC cont disc order cl dl true = .ok r ∧ r.length = order.length ∧
      (∀ v ∈ r, v ≠ none) ∧
      (∀ p ∈ cont, ∃ pos v, Dict.get? order p.1 = some pos ∧ r[pos]? = some (some v) ∧ v.name = p.1 ∧
        v.sets.length = p.2.length ∧
        ∀ (i : Nat) x, p.2[i]? = some x → ∃ s, v.sets[i]? = some (.cont s) ∧ IsLabel fmtK cl p.1 i x s.name ∧
          s.b = x ∧ s.a = (if i = 0 then x else (p.2[i-1]?).getD x) ∧ s.c = (p.2[i+1]?).getD x ∧
          s.pointSet = decide (p.2.length = 1)) ∧
      (∀ p ∈ disc, ∃ pos v, Dict.get? order p.1 = some pos ∧ r[pos]? = some (some v) ∧ v.name = p.1 ∧
        v.sets.length = p.2.length ∧
        ∀ (i : Nat) x, p.2[i]? = some x → ∃ s : DSet K, v.sets[i]? = some (.disc s) ∧
          IsLabel fmtC dl p.1 i x s.name ∧ s.value = x) := by
  have honames : (Dict.keys order).Nodup := hkeys.nodup_iff.2 hnames
  have hovals : (order.map Prod.snd).Nodup := hvals.nodup_iff.2 List.nodup_range
  have hinj : ∀ n m p, Dict.get? order n = some p → Dict.get? order m = some p → n = m := by
    intro n m p h1 h2
    have m1 := Dict.mem_of_get? h1
    have m2 := Dict.mem_of_get? h2
    have := List.inj_on_of_nodup_map hovals m1 m2 rfl
    exact congrArg Prod.fst this
  have hrange : ∀ n p, Dict.get? order n = some p → p < order.length := by
    intro n p h1
    have m1 := List.mem_map_of_mem (f := Prod.snd) (Dict.mem_of_get? h1)
    exact List.mem_range.1 (hvals.mem_iff.1 m1)
  -- variables
  have hspec : ∀ p ∈ cont, ∃ v, continuousVar fmtK cl true p = .ok v ∧ v.name = p.1 ∧ v.sets.length = p.2.length ∧
      ∀ (i : Nat) x, p.2[i]? = some x → ∃ s, v.sets[i]? = some (.cont s) ∧ IsLabel fmtK cl p.1 i x s.name ∧
        s.b = x ∧ s.a = (if i = 0 then x else (p.2[i-1]?).getD x) ∧ s.c = (p.2[i+1]?).getD x ∧
        s.pointSet = decide (p.2.length = 1) := fun p hp => continuousVar_spec fmtK cl p (hpts p hp) (hcl p hp)
  classical
  let g : String × List K → FVar K := fun p => match continuousVar fmtK cl true p with
    | .ok v => v
    | .error _ => ⟨"", []⟩
  have hg : ∀ p ∈ cont, continuousVar fmtK cl true p = .ok (g p) := by
    intro p hp
    obtain ⟨v, hv, -⟩ := hspec p hp
    simp only [g, hv]
  have hgn : ∀ p ∈ cont, (g p).name = p.1 := by
    intro p hp
    obtain ⟨v, hv, hn, -⟩ := hspec p hp
    simp only [g, hv, hn]
  have hvnames : ((cont.map g ++ disc.map (discreteVar fmtC dl)).map FVar.name) = Dict.keys cont ++ Dict.keys disc := by
    simp only [List.map_append, List.map_map, Dict.keys]
    congr 1
    exact List.map_congr_left (fun p hp => hgn p hp)
  have hall : ∀ v ∈ cont.map g ++ disc.map (discreteVar fmtC dl), v.name ∈ Dict.keys order := by
    intro v hv
    rw [hkeys.mem_iff, ← hvnames]
    exact List.mem_map_of_mem hv
  obtain ⟨r, hr, hlen, h1, -⟩ := placeAll_ok order (cont.map g ++ disc.map (discreteVar fmtC dl))
    (List.replicate order.length none)
    (fun v hv => by
      obtain ⟨p, hp⟩ := (Dict.get?_isSome_iff order v.name).2 (hall v hv)
      exact ⟨p, hp, by simpa using hrange _ _ hp⟩) hinj (by rw [hvnames]; exact hnames)
  refine ⟨r, ?_, by simpa using hlen, ?_, ?_, ?_⟩
  · unfold getFuzzyVariables
    simp only
    rw [placeContinuous_eq fmtK cl true order _ cont g hg]
    simp only [placeDiscrete_eq]
    rw [List.foldlM_append] at hr
    exact hr
  · intro v hv hnone
    obtain ⟨q, hq⟩ := List.mem_iff_getElem?.1 hv
    have hqlt : q < order.length := by
      have := (List.getElem?_eq_some_iff.1 hq).1
      rw [hlen] at this; simpa using this
    have hqm : q ∈ order.map Prod.snd := hvals.mem_iff.2 (List.mem_range.2 hqlt)
    obtain ⟨⟨n, q'⟩, hnq, rfl⟩ := List.mem_map.1 hqm
    have hgetn := Dict.get?_of_mem_nodup honames hnq
    have hnk : n ∈ Dict.keys cont ++ Dict.keys disc := hkeys.mem_iff.1 (List.mem_map_of_mem (f := Prod.fst) hnq)
    rw [← hvnames] at hnk
    obtain ⟨w, hw, rfl⟩ := List.mem_map.1 hnk
    obtain ⟨p, hp, hrp⟩ := h1 w hw
    rw [hgetn] at hp
    cases hp
    rw [hq, hnone] at hrp
    cases hrp
  · intro p hp
    obtain ⟨v, hv, hn, hl, hs⟩ := hspec p hp
    have hgv : g p = v := by simp only [g, hv]
    obtain ⟨pos, hpos, hrp⟩ := h1 (g p) (List.mem_append_left _ (List.mem_map_of_mem hp))
    rw [hgv, hn] at hpos
    rw [hgv] at hrp
    exact ⟨pos, v, hpos, hrp, hn, hl, hs⟩
  · intro p hp
    obtain ⟨pos, hpos, hrp⟩ := h1 (discreteVar fmtC dl p) (List.mem_append_right _ (List.mem_map_of_mem hp))
    obtain ⟨hlen', hlab⟩ := colLabels_spec fmtC dl p.1 p.2 (hdl p hp)
    refine ⟨pos, _, hpos, hrp, rfl, ?_, ?_⟩
    · simp [discreteVar, getFuzzyDiscreteSets, hlen']
    · intro i x hx
      obtain ⟨l, hl, hil⟩ := hlab i x hx
      refine ⟨⟨l, x⟩, ?_, hil, rfl⟩
      have : ((colLabels fmtC dl p.1 p.2).zip p.2)[i]? = some (l, x) := by
        rw [List.getElem?_zip_eq_some]; exact ⟨hl, hx⟩
      simp [discreteVar, getFuzzyDiscreteSets, this]

/-- C10: a variable whose name is not in `order` raises `KeyError` (positions in range, well-formed columns). -/
theorem C10_missing_name (fmtK : K → String) (fmtC : Cell K → String)
    (cont : Dict String (List K)) (disc : Dict String (List (Cell K))) (order : Dict String Nat)
    (cl dl : Option (Dict String (List String)))
    (hvals : ∀ n p, Dict.get? order n = some p → p < order.length)
    (hpts : ∀ p ∈ cont, p.2 ≠ []) (hcl : LabelsFit cl cont)
    (hmiss : ∃ n ∈ Dict.keys cont ++ Dict.keys disc, n ∉ Dict.keys order) :
    getFuzzyVariables fmtK fmtC cont disc order cl dl true = .error .keyError := by
  have hspec := fun p hp => continuousVar_spec fmtK cl p (hpts p hp) (hcl p hp)
  let g : String × List K → FVar K := fun p => match continuousVar fmtK cl true p with
    | .ok v => v
    | .error _ => ⟨"", []⟩
  have hg : ∀ p ∈ cont, continuousVar fmtK cl true p = .ok (g p) := by
    intro p hp
    obtain ⟨v, hv, -⟩ := hspec p hp
    simp only [g, hv]
  have hgn : ∀ p ∈ cont, (g p).name = p.1 := by
    intro p hp
    obtain ⟨v, hv, hn, -⟩ := hspec p hp
    simp only [g, hv, hn]
  have := placeAll_missing order (cont.map g ++ disc.map (discreteVar fmtC dl))
    (List.replicate order.length none) (by simpa using hvals) (by
      obtain ⟨n, hn, hno⟩ := hmiss
      rcases List.mem_append.1 hn with hn | hn
      · obtain ⟨p, hp, rfl⟩ := List.mem_map.1 hn
        exact ⟨g p, List.mem_append_left _ (List.mem_map_of_mem hp), by rw [hgn p hp]; exact hno⟩
      · obtain ⟨p, hp, rfl⟩ := List.mem_map.1 hn
        exact ⟨discreteVar fmtC dl p, List.mem_append_right _ (List.mem_map_of_mem hp), hno⟩)
  unfold getFuzzyVariables
  simp only
  rw [placeContinuous_eq fmtK cl true order _ cont g hg]
  simp only [placeDiscrete_eq]
  rw [List.foldlM_append] at this
  exact this

/-- C10: when all the names are in `order`, a position that is not below the number of variables raises `IndexError`. -/
theorem C10_bad_position (fmtK : K → String) (fmtC : Cell K → String)
    (cont : Dict String (List K)) (disc : Dict String (List (Cell K))) (order : Dict String Nat)
    (cl dl : Option (Dict String (List String)))
    (hin : ∀ n ∈ Dict.keys cont ++ Dict.keys disc, n ∈ Dict.keys order)
    (hpts : ∀ p ∈ cont, p.2 ≠ []) (hcl : LabelsFit cl cont)
    (hbad : ∃ n ∈ Dict.keys cont ++ Dict.keys disc, ∃ p, Dict.get? order n = some p ∧ order.length ≤ p) :
    getFuzzyVariables fmtK fmtC cont disc order cl dl true = .error .indexError := by
  have hspec := fun p hp => continuousVar_spec fmtK cl p (hpts p hp) (hcl p hp)
  let g : String × List K → FVar K := fun p => match continuousVar fmtK cl true p with
    | .ok v => v
    | .error _ => ⟨"", []⟩
  have hg : ∀ p ∈ cont, continuousVar fmtK cl true p = .ok (g p) := by
    intro p hp
    obtain ⟨v, hv, -⟩ := hspec p hp
    simp only [g, hv]
  have hgn : ∀ p ∈ cont, (g p).name = p.1 := by
    intro p hp
    obtain ⟨v, hv, hn, -⟩ := hspec p hp
    simp only [g, hv, hn]
  have := placeAll_bad order (cont.map g ++ disc.map (discreteVar fmtC dl))
    (List.replicate order.length none) (by
      intro v hv
      rcases List.mem_append.1 hv with hv | hv
      · obtain ⟨p, hp, rfl⟩ := List.mem_map.1 hv
        rw [hgn p hp]
        exact hin _ (List.mem_append_left _ (List.mem_map_of_mem hp))
      · obtain ⟨p, hp, rfl⟩ := List.mem_map.1 hv
        exact hin _ (List.mem_append_right _ (List.mem_map_of_mem hp))) (by
      obtain ⟨n, hn, pos, hpos, hle⟩ := hbad
      rcases List.mem_append.1 hn with hn | hn
      · obtain ⟨p, hp, rfl⟩ := List.mem_map.1 hn
        exact ⟨g p, List.mem_append_left _ (List.mem_map_of_mem hp), pos, by rw [hgn p hp]; exact hpos, by simpa using hle⟩
      · obtain ⟨p, hp, rfl⟩ := List.mem_map.1 hn
        exact ⟨discreteVar fmtC dl p, List.mem_append_right _ (List.mem_map_of_mem hp), pos, hpos, by simpa using hle⟩)
  unfold getFuzzyVariables
  simp only
  rw [placeContinuous_eq fmtK cl true order _ cont g hg]
  simp only [placeDiscrete_eq]
  rw [List.foldlM_append] at this
  exact this

/-- concrete instance of the hypotheses of C10, with the columns in another order than the dictionaries -/
example : ∃ (cont : Dict String (List ℚ)) (disc : Dict String (List (Cell ℚ))) (order : Dict String Nat),
    (Dict.keys cont ++ Dict.keys disc).Nodup ∧ (Dict.keys order).Perm (Dict.keys cont ++ Dict.keys disc) ∧
    (order.map Prod.snd).Perm (List.range order.length) ∧ (∀ p ∈ cont, p.2 ≠ []) ∧
    getFuzzyVariables (fun _ => "x") (fun _ => "y") cont disc order
      (some [("age", ["lo", "hi"])]) none true =
      .ok [some ⟨"sex", [.disc ⟨"y", .str "m"⟩]⟩,
           some ⟨"age", [.cont { name := "lo", a := 0, b := 0, c := 9 }, .cont { name := "hi", a := 0, b := 9, c := 9 }]⟩] := by
  refine ⟨[("age", [0, 9])], [("sex", [.str "m"])], [("age", 1), ("sex", 0)], by decide, by decide, by decide, by decide, ?_⟩
  decide +kernel

/-- concrete instance of `C10_bad_position`: two variables numbered 0 and 2. -/
example : getFuzzyVariables (fun (_ : ℚ) => "x") (fun _ => "y") [("age", [0, 9])] [("sex", [.str "m"])] [("age", 0), ("sex", 2)]
    none none true = .error .indexError := by decide +kernel

end Teacher
