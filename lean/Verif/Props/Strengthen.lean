import Verif.Props.GPFitness
import Verif.Props.RandomNb
import Verif.Props.Neighborhood

/-! # Complements to C06, C77, C83, C98 and C99 -/

namespace Teacher
set_option linter.unusedSectionVars false

section
variable {K : Type} [Field K] [LinearOrder K] [IsStrictOrderedRing K]

/-- **C06**, discrete sets: the simmilarity of two discrete sets is 1 when they have the same name and value, and 0 otherwise. So it is 1 for
a set against itself, symmetric, and in [0, 1]. -/
theorem C06_simmilarity_discrete (d d' : DSet K) :
    FSet.simmilarity (.disc d) (.disc d') = .ok (if d.name = d'.name ∧ d.value = d'.value then 1 else 0) ∧
    FSet.simmilarity (.disc d) (.disc d) = .ok (1 : K) ∧
    FSet.simmilarity (.disc d) (.disc d') = FSet.simmilarity (.disc d') (.disc d) := by
  cases d; cases d'
  simp [FSet.simmilarity, @eq_comm String, @eq_comm (Cell K)]

example : FSet.simmilarity (K := ℚ) (.disc ⟨"a", .num 1⟩) (.disc ⟨"a", .num 2⟩) = .ok 0 := by decide +kernel

end

section
variable {K V : Type} [Field K] [LinearOrder K] [IsStrictOrderedRing K]

/-- **C83**, negative `k`: `get_closest` with `k = -m` returns all but the `m` farthest records (none if there are at most `m`). -/
theorem C83_negative (argsort : List K → List Nat) (ha : Spec.IsArgsort argsort) (dist : Dict String V → Py K) (df : DF V) (m : Nat)
    (hm : 0 < m) (r : List Nat) (h : getClosest argsort dist df (-(m : Int)) = .ok r) :
    ∃ ds, List.Forall₂ (fun z d => dist z = .ok d) (DF.records df) ds ∧ Spec.IsKNearest ds (ds.length - m) r := by
  obtain ⟨n, rfl⟩ : ∃ n, m = n + 1 := ⟨m - 1, by omega⟩
  simp only [getClosest] at h
  obtain ⟨ds, h1, h2⟩ := py_bind_eq_ok.1 h
  have e : pyTake (-((n + 1 : Nat) : Int)) (argsort ds) = (argsort ds).take (ds.length - (n + 1)) := by
    have : -((n + 1 : Nat) : Int) = Int.negSucc n := by simp [Int.negSucc_eq]
    rw [this]
    simp only [pyTake]
    rw [(ha ds).1.length_eq, List.length_range]
  cases h2
  rw [e]
  exact ⟨ds, (mapM_ok_iff _ _ _).1 h1, ha.take ds _⟩

example : getClosest (V := ℚ) argsortIns (fun z => Dict.get z "a") [("a", [30, 10, 20, 40])] (-1) = .ok [1, 2, 0] := by decide +kernel

end

section
variable {R K V : Type} [Field K] [LinearOrder K] [IsStrictOrderedRing K] [LinearOrder V]

/-- **C98**, the exception: when all the generated records have the same predicted class and the description of the record, the search of the
nearest records and the encoding of the data succeed, `genetic_neighborhood` raises `AttributeError`. -/
theorem C98_attribute_error_false (ops : CellOps K V) (argsort : List K → List Nat) (dist : Dict String V → Dict String V → Py K)
    (bb : List K → K) (bbV : List V → Bool) (gen : R → Py (List (List K) × R)) (dfZ : DF V) (x : List K) (ds : Dataset V) (r r1 : R)
    (Z : List (List K)) (hd : ds.className ∈ ds.discrete) (hg : gen r = .ok (Z, r1)) (hZ : Z ≠ []) (c : K) (hc : ∀ z ∈ Z, bb z = c)
    (dfx : DF V) (hx : buildDf2explain ops bb [x] ds = .ok dfx)
    (hidx : ∃ i, getClosestDiff ops argsort (dist (DF.record dfx 0)) bbV dfZ ds.discrete ds.className ds.encoders 100 (1 / 10) = .ok i) :
    geneticNeighborhood ops argsort dist bb bbV gen dfZ x ds r = .error .attributeError := by
  have hu : (npUnique (Z.map bb)).length = 1 := by
    have hmap : ∀ y, y ∈ npUnique (Z.map bb) ↔ y = c := by
      intro y
      rw [mem_npUnique, List.mem_map]
      constructor
      · rintro ⟨z, hz, rfl⟩; exact hc z hz
      · rintro rfl
        obtain ⟨z, hz⟩ := List.exists_mem_of_ne_nil Z hZ
        exact ⟨z, hz, hc z hz⟩
    have hp : (npUnique (Z.map bb)).Perm [c] := by
      rw [List.perm_ext_iff_of_nodup (npUnique_nodup _) (by simp)]
      intro a; rw [hmap]; simp
    simpa using hp.length_eq
  obtain ⟨i, hi⟩ := hidx
  have henc : ∃ Z', encodeWith ops ds.encoders ds.discrete dfZ = .ok Z' := by
    simp only [getClosestDiff] at hi
    obtain ⟨Z', h1, -⟩ := py_bind_eq_ok.1 hi
    exact ⟨Z', h1⟩
  obtain ⟨Z', hZ'⟩ := henc
  simp only [geneticNeighborhood, pyRemove, if_pos hd, py_bind_ok, hg, hu, if_true, hx, hi, labelEncode, hZ']
  rfl

/-- the hypotheses hold for the data of Props/Datasets. -/
example : (buildDf2explain ratOps (fun _ => 1) [[30, 1]] { bdFirst with encoders := [("job", [5, 7]), ("cls", [3, 8])] }).isOk = true ∧
    (getClosestDiff ratOps argsortIns (fun _ => .ok (0 : ℚ)) (fun _ => true) gdDf bdFirst.discrete bdFirst.className
      [("job", [5, 7]), ("cls", [3, 8])] 100 (1 / 10)).isOk = true ∧ bdFirst.className ∈ bdFirst.discrete := by decide +kernel

/-- Specification: the weights are the frequencies of the different values, in increasing order, of a column. -/
structure Spec.IsFrequencies (values u w : List K) : Prop where
  sorted : u.Pairwise (· < ·)
  mem : ∀ x, x ∈ u ↔ x ∈ values
  weight : List.Forall₂ (fun v p => p * (values.length : K) = ((values.count v : Nat) : K)) u w
  total : w.sum = 1

omit [LinearOrder V] in
theorem sum_counts (values : List K) (u : List K) (hn : u.Nodup) (hm : ∀ x ∈ values, x ∈ u) :
    (u.map (fun v => values.count v)).sum = values.length := by
  induction u generalizing values with
  | nil =>
    cases values with
    | nil => rfl
    | cons a l => exact absurd (hm a (by simp)) (by simp)
  | cons a u ih =>
    have hn' := List.nodup_cons.1 hn
    have h1 := ih (values.filter (fun x => x ≠ a)) hn'.2 (by
      intro x hx
      obtain ⟨h1, h2⟩ := List.mem_filter.1 hx
      rcases List.mem_cons.1 (hm x h1) with h | h
      · simp [h] at h2
      · exact h)
    have h2 : (u.map (fun v => (values.filter (fun x => x ≠ a)).count v)) = u.map (fun v => values.count v) := by
      apply List.map_congr_left
      intro v hv
      rw [List.count_filter]
      simp only [ne_eq, decide_not, Bool.not_eq_eq_eq_not, Bool.not_true, decide_eq_false_iff_not]
      rintro rfl
      exact hn'.1 hv
    rw [List.map_cons, List.sum_cons, ← h2, h1]
    have h3 := List.length_eq_countP_add_countP (fun x => x == a) (l := values)
    have h4 : (values.filter (fun x => x ≠ a)).length = values.countP (fun x => ¬ (x == a) = true) := by
      rw [List.countP_eq_length_filter]
      congr 1
      apply List.filter_congr
      intro x _
      simp
    rw [h4, List.count]
    omega

theorem frequencies_npUnique (values : List K) (hne : values ≠ []) :
    Spec.IsFrequencies values (npUnique values) ((npUnique values).map (fun v => (values.count v : K) / (values.length : K))) := by
  have hlen : (values.length : K) ≠ 0 := by
    have := List.length_pos_of_ne_nil hne
    exact_mod_cast this.ne'
  refine ⟨npUnique_pairwise _, mem_npUnique values, ?_, ?_⟩
  · rw [List.forall₂_map_right_iff]
    apply List.forall₂_same.2
    intro v _
    field_simp
  · have := sum_counts values (npUnique values) (npUnique_nodup _) (fun x hx => (mem_npUnique _ _).2 hx)
    have h2 : ((npUnique values).map (fun v => (values.count v : K) / (values.length : K))).sum
        = (((npUnique values).map (fun v => values.count v)).sum : Nat) / (values.length : K) := by
      generalize npUnique values = u
      induction u with
      | nil => simp
      | cons a u ih => simp only [List.map_cons, List.sum_cons, ih]; push_cast; ring
    rw [h2, this]
    exact div_self hlen

theorem featureLoop_draws (rng : GPRng R K) (std : List K → K) (distr : List K → Nat → Py (List K)) (X : List (List K)) (hX : X ≠ [])
    (discrete continuous : List String) (size : Nat) (useProb estim : Bool) :
    ∀ (ps : List (String × Nat)) (prev : Option (List K)) (r r' : R) (fv : Dict Nat (List K)),
      featureLoop rng std distr X discrete continuous size useProb estim ps prev r = .ok (fv, r') →
      ∀ p ∈ ps, ∃ values v r0, column X p.2 = .ok values ∧ (p.2, v) ∈ fv ∧
        (p.1 ∈ discrete → useProb = true → ∃ u w, Spec.IsFrequencies values u w ∧ v = values ++ (rng.choicesP u w size r0).1) ∧
        (p.1 ∉ discrete → p.1 ∈ continuous → estim = false →
          ∃ m, m * (values.length : K) = values.sum ∧ v = values ++ (rng.normals m (std values) size r0).1) ∧
        (p.1 ∉ discrete → p.1 ∈ continuous → estim = true → ∃ d, distr values size = .ok d ∧ v = values ++ d) := by
  intro ps
  induction ps with
  | nil => intro prev r r' fv h p hp; simp at hp
  | cons p ps ih =>
    intro prev r r' fv h
    simp only [featureLoop] at h
    obtain ⟨values, hv, h⟩ := py_bind_eq_ok.1 h
    obtain ⟨⟨v, r1⟩, hc, h⟩ := py_bind_eq_ok.1 h
    obtain ⟨⟨l, r2⟩, hl, h⟩ := py_bind_eq_ok.1 h
    cases h
    have hlen : values.length = X.length := ((column_eq_ok_iff _ _ _).1 hv).length_eq.symm
    have hne : values ≠ [] := by
      intro e
      rw [e] at hlen
      exact hX (List.length_eq_zero_iff.1 hlen.symm)
    intro q hq
    rcases List.mem_cons.1 hq with rfl | hq
    · refine ⟨values, v, r, hv, by simp, ?_, ?_, ?_⟩
      · intro hd hu
        simp only [featureColumn, if_pos hd, hu, if_true] at hc
        cases hc
        exact ⟨_, _, frequencies_npUnique values hne, rfl⟩
      · intro hd hcon he
        simp only [featureColumn, if_neg hd, if_pos hcon, he, Bool.false_eq_true, if_false] at hc
        cases hc
        refine ⟨_, ?_, rfl⟩
        have : (values.length : K) ≠ 0 := by
          have := List.length_pos_of_ne_nil hne
          exact_mod_cast this.ne'
        field_simp
      · intro hd hcon he
        simp only [featureColumn, if_neg hd, if_pos hcon, he, if_true] at hc
        obtain ⟨d, hd', hc⟩ := py_bind_eq_ok.1 hc
        cases hc
        exact ⟨d, hd', rfl⟩
    · obtain ⟨values', v', r0, k1, k2, k3⟩ := ih _ _ _ _ hl q hq
      exact ⟨values', v', r0, k1, by simp [k2], k3⟩

/-- **C99**, the drawn values: with `discrete_use_probabilities` the values of a discrete feature are the observed ones followed by `size`
draws among the different observed values with their frequencies as probabilities (they add up to 1); the values of a continuous feature are
the observed ones followed by `size` draws of a normal distribution with the mean and the standard deviation of the observed ones, or by the
estimated distribution values. -/
theorem C99_draws_partial (rng : GPRng R K) (std : List K → K) (distr : List K → Nat → Py (List K)) (X : List (List K)) (hX : X ≠ [])
    (columns : List String) (hcn : columns.Nodup) (className : String) (discrete continuous : List String) (size : Nat)
    (useProb estim : Bool) (r r' : R) (fv : Dict Nat (List K))
    (h : calculateFeatureValues rng std distr X columns className discrete continuous size useProb estim r = .ok (fv, r'))
    (j : Nat) (c : String) (hj : (columns.filter (fun c => c ≠ className))[j]? = some c) :
    ∃ values v r0, column X j = .ok values ∧ Dict.get? fv j = some v ∧
      (c ∈ discrete → useProb = true → ∃ u w, Spec.IsFrequencies values u w ∧ v = values ++ (rng.choicesP u w size r0).1) ∧
      (c ∉ discrete → c ∈ continuous → estim = false →
        ∃ m, m * (values.length : K) = values.sum ∧ v = values ++ (rng.normals m (std values) size r0).1) ∧
      (c ∉ discrete → c ∈ continuous → estim = true → ∃ d, distr values size = .ok d ∧ v = values ++ d) := by
  have hk := (C99_feature_values_partial rng std distr X columns hcn className discrete continuous size useProb estim r r' fv h).1
  simp only [calculateFeatureValues] at h
  obtain ⟨cols, hcols, h⟩ := py_bind_eq_ok.1 h
  simp only [pyRemove] at hcols
  split at hcols
  · rename_i hmem
    cases hcols
    have her : columns.erase className = columns.filter (fun c => c ≠ className) := by
      rw [hcn.erase_eq_filter]
      apply List.filter_congr
      intro a _
      simp [bne, beq_eq_decide]
    have hp : (c, j) ∈ (columns.erase className).zipIdx := by
      rw [her]
      exact List.mk_mem_zipIdx_iff_getElem?.2 hj
    obtain ⟨values, v, r0, k1, k2, k3⟩ := featureLoop_draws rng std distr X hX discrete continuous size useProb estim _ _ _ _ _ h _ hp
    refine ⟨values, v, r0, k1, ?_, k3⟩
    exact Dict.get?_of_mem_nodup (by rw [hk]; exact List.nodup_range) k2
  · cases hcols

example : (calculateFeatureValues exRng (fun _ => 1) (fun _ _ => .ok []) [[1, 10], [3, 10], [1, 40]] ["cls", "a", "b"] "cls" ["a"] ["b"] 2
    true false 0).map Prod.fst = .ok [(0, [1, 3, 1, 1, 1]), (1, [10, 10, 40, 20, 20])] := by decide +kernel

end

section
variable {K : Type} [Field K] [LinearOrder K] [IsStrictOrderedRing K]

theorem fuzzify_yDecoded (cx : FuzzCtx K) (inst : List (Cell K)) (a : FuzzArgs K) (s : NState K) :
    (fuzzify cx inst a s).2.yDecoded = s.yDecoded := by
  unfold fuzzify
  split
  · split
    · rfl
    · simp only
      split
      · rfl
      · split
        · split
          · rfl
          · split <;> rfl
        · rfl
  · rfl

theorem samplingFuzzify_yDecoded (cx : FuzzCtx K) (inst : List (Cell K)) (a : FuzzArgs K) (s : NState K) :
    (samplingFuzzify cx inst a s).2.yDecoded = s.yDecoded := by
  unfold samplingFuzzify
  split
  · rfl
  · have hk := fuzzify_yDecoded cx inst { a with instanceMembership := some false } s
    split
    · rename_i e s' h; rw [h] at hk; exact hk
    · rename_i s' h
      rw [h] at hk
      split
      · split
        · exact hk
        · exact hk
      · exact hk

/-- **C77**, the decoded classes: for every history of calls, `get_y_decoded` raises `AttributeError` exactly until a `fit` has succeeded, and
changes nothing. -/
theorem C77_y_decoded (o : NObj K) (h : List (NCall K)) :
    ((getYDecoded (o.run h)).1 = .error .attributeError ↔ ¬ ∃ i c, NCall.IsFit c ∧ o.Succeeds h i c) ∧
    ((∃ i c, NCall.IsFit c ∧ o.Succeeds h i c) → ∃ y, (getYDecoded (o.run h)).1 = .ok y) ∧
    (getYDecoded (o.run h)).2 = o.run h := by
  have key : ((∃ i c, NCall.IsFit c ∧ o.Succeeds h i c) ∧ (o.run h).yDecoded.isSome) ∨
      ((¬ ∃ i c, NCall.IsFit c ∧ o.Succeeds h i c) ∧ (o.run h).yDecoded = none) := by
    refine o.run_induction (fun h s => ((∃ i c, NCall.IsFit c ∧ o.Succeeds h i c) ∧ s.yDecoded.isSome) ∨
      ((¬ ∃ i c, NCall.IsFit c ∧ o.Succeeds h i c) ∧ s.yDecoded = none)) ?_ ?_ h
    · right
      refine ⟨?_, rfl⟩
      rintro ⟨i, c, -, h, -⟩
      simp at h
    · intro h c ih
      rw [o.succeeds_append]
      cases c with
      | fuzzify a =>
        have h1 : (samplingFuzzify o.fz (o.inst.map .num) a (o.run h)).2.yDecoded = (o.run h).yDecoded := by
          exact samplingFuzzify_yDecoded _ _ _ _
        simp only [NObj.call, h1, NCall.IsFit, false_and, or_false]
        exact ih
      | fit gen =>
        simp only [NObj.call]
        have : ((samplingFit o.ds o.bb gen o.inst (o.run h)).1 = .ok () ∧ (samplingFit o.ds o.bb gen o.inst (o.run h)).2.yDecoded.isSome) ∨
          ((∃ e, (samplingFit o.ds o.bb gen o.inst (o.run h)).1 = .error e) ∧
            (samplingFit o.ds o.bb gen o.inst (o.run h)).2.yDecoded = (o.run h).yDecoded) := by
          unfold samplingFit
          split
          · exact .inr ⟨⟨_, rfl⟩, rfl⟩
          · simp only
            split
            · exact .inr ⟨⟨_, rfl⟩, rfl⟩
            · split
              · exact .inr ⟨⟨_, rfl⟩, rfl⟩
              · split
                · exact .inr ⟨⟨_, rfl⟩, rfl⟩
                · exact .inl ⟨rfl, rfl⟩
        rcases this with ⟨h1, h2⟩ | ⟨⟨e, h1⟩, h2⟩
        · exact .inl ⟨.inr ⟨trivial, h1⟩, h2⟩
        · simp only [h1, h2]
          simpa using ih
  unfold getYDecoded
  rw [getter_error]
  refine ⟨?_, ?_, getter_state _ _ _⟩
  all_goals rcases key with ⟨h1, h2⟩ | ⟨h1, h2⟩
  · simp [h1, Option.isSome_iff_ne_none.1 h2]
  · simp [h1, h2]
  · intro _
    obtain ⟨X, hX⟩ := Option.isSome_iff_exists.1 h2
    exact ⟨X, (getter_ok _ _ _ _).2 hX⟩
  · intro h'; exact absurd h' h1

example : (getYDecoded (nbObj.run [nbFit1])).1.isOk = true ∧ (getYDecoded (nbObj.run [.fuzzify nbArgs])).1 = .error .attributeError := by
  decide +kernel

end

end Teacher
