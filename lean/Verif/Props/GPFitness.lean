import Verif.Props.GP

/-!
# C97, C98, C99, C102, C103: fitness, candidate values, random data and the neighbourhoods of `neighbor_generator.py`
-/

set_option linter.unusedSectionVars false

namespace Teacher

variable {R K : Type} [Field K] [LinearOrder K] [IsStrictOrderedRing K]
variable {C : Type} [DecidableEq C]

/-! ## C97: fitness -/

theorem asRecord_ok (idx : Dict Nat String) (x : List K) (h : ∀ i < x.length, i ∈ Dict.keys idx) : ∃ d, asRecord idx x = .ok d := by
  have : ∀ p ∈ x.zipIdx, ∃ q, (do let name ← Dict.get idx p.2; pure (name, p.1) : Py (String × K)) = .ok q := by
    rintro ⟨v, i⟩ hp
    rw [List.mem_zipIdx_iff_getElem?] at hp
    obtain ⟨name, hn⟩ := (Dict.get?_isSome_iff idx i).2 (h i (List.getElem?_eq_some_iff.1 hp).1)
    exact ⟨(name, v), by simp only [Dict.get_eq_ok_iff.2 hn, py_bind_ok]; rfl⟩
  obtain ⟨l, hl⟩ := forall₂_of_forall_exists _ _ this
  exact ⟨_, by simp only [asRecord, (mapM_ok_iff _ _ _).2 hl, py_bind_ok]; rfl⟩

/-- Specification: the distance between the two records is `d`. -/
def Spec.DistanceIs (dist : Dict String K → Dict String K → Py K) (idx : Dict Nat String) (x0 x1 : List K) (d : K) : Prop :=
  ∃ r0 r1, asRecord idx x0 = .ok r0 ∧ asRecord idx x1 = .ok r1 ∧ dist r0 r1 = .ok d

theorem simRatio_eq (dist : Dict String K → Dict String K → Py K) (idx : Dict Nat String) (x0 x1 : List K) (d : K)
    (h : Spec.DistanceIs dist idx x0 x1 d) : simRatio dist idx x0 x1 = .ok (1 - d) := by
  obtain ⟨r0, r1, h0, h1, h2⟩ := h
  simp only [simRatio, h0, h1, h2, py_bind_ok]; rfl

/-- Specification of a fitness: with value `f` for a record of distance `d`, wanted or not, the weights being `a1` and `a2`. It is not
negative and at most the sum of the weights; the wanted records have at least `a2`, the others less. -/
structure Spec.FitnessRange (a1 a2 : K) (wanted : Prop) (f : K) : Prop where
  nonneg : 0 ≤ f
  le : f ≤ a1 + a2
  wanted_iff : a2 ≤ f ↔ wanted

/-- **C97**, similar records: for weights `0 < a1 ≤ a2` (1/2 and 1/2 by default), a limit `eta ≤ 1` of similarity (1 by default) and a
distance at most 1, the fitness is in the range, at least `a2` exactly for the records with the wanted outcome (the same or a different
one); a record that is as similar as the limit gets nothing for its similarity, and among the others of the same outcome the nearer one
has the larger fitness. -/
theorem C97_similar (bb : List K → C) (a1 a2 eta : K) (h1 : 0 < a1) (h2 : a1 ≤ a2) (he : eta ≤ 1)
    (dist : Dict String K → Dict String K → Py K) (idx : Dict Nat String) (x0 x1 : List K) (d : K)
    (hd : Spec.DistanceIs dist idx x0 x1 d) (hd1 : d ≤ 1) :
    ∃ fs fd, fitnessSSO bb a1 a2 eta dist idx x0 x1 = .ok fs ∧ fitnessSDO bb a1 a2 eta dist idx x0 x1 = .ok fd ∧
      Spec.FitnessRange a1 a2 (bb x0 = bb x1) fs ∧ Spec.FitnessRange a1 a2 (bb x0 ≠ bb x1) fd ∧
      (eta ≤ 1 - d → (fs = 0 ∨ fs = a2) ∧ (fd = 0 ∨ fd = a2)) ∧
      (∀ x2 d2, Spec.DistanceIs dist idx x0 x2 d2 → bb x2 = bb x1 → d < d2 → 1 - d < eta → d2 ≤ 1 →
        ∃ fs2 fd2, fitnessSSO bb a1 a2 eta dist idx x0 x2 = .ok fs2 ∧ fitnessSDO bb a1 a2 eta dist idx x0 x2 = .ok fd2 ∧
          fs2 < fs ∧ fd2 < fd) := by
  have hs := simRatio_eq dist idx x0 x1 d hd
  have hrs : 0 ≤ (if eta ≤ 1 - d then (0 : K) else 1 - d) ∧ (if eta ≤ 1 - d then (0 : K) else 1 - d) < 1 := by
    split
    · exact ⟨le_rfl, one_pos⟩
    · rename_i h
      exact ⟨by linarith, by linarith [not_le.1 h]⟩
  have hmul : 0 ≤ a1 * (if eta ≤ 1 - d then (0 : K) else 1 - d) ∧ a1 * (if eta ≤ 1 - d then (0 : K) else 1 - d) < a1 :=
    ⟨mul_nonneg h1.le hrs.1, by nlinarith [hrs.2]⟩
  refine ⟨_, _, by simp only [fitnessSSO, hs, py_bind_ok]; rfl, by simp only [fitnessSDO, hs, py_bind_ok]; rfl, ?_, ?_, ?_, ?_⟩
  · by_cases hb : bb x0 = bb x1
    · simp only [hb, if_true, mul_one]
      exact ⟨by linarith [hmul.1], by linarith [hmul.2], iff_of_true (by linarith [hmul.1]) trivial⟩
    · simp only [hb, if_false, mul_zero, add_zero]
      exact ⟨hmul.1, by linarith [hmul.2], iff_of_false (by linarith [hmul.2]) id⟩
  · by_cases hb : bb x0 = bb x1
    · simp only [hb, ne_eq, not_true, if_false, mul_zero, add_zero]
      exact ⟨hmul.1, by linarith [hmul.2], iff_of_false (by linarith [hmul.2]) id⟩
    · simp only [hb, ne_eq, not_false_eq_true, if_true, mul_one]
      exact ⟨by linarith [hmul.1], by linarith [hmul.2], iff_of_true (by linarith [hmul.1]) trivial⟩
  · intro hle
    simp only [if_pos hle, mul_zero, zero_add]
    by_cases hb : bb x0 = bb x1 <;> simp [hb]
  · intro x2 d2 hd2 hbb hlt heta hd21
    have hs2 := simRatio_eq dist idx x0 x2 d2 hd2
    have e1 : ¬ eta ≤ 1 - d := not_le.2 heta
    have e2 : ¬ eta ≤ 1 - d2 := not_le.2 (by linarith)
    refine ⟨_, _, by simp only [fitnessSSO, hs2, py_bind_ok]; rfl, by simp only [fitnessSDO, hs2, py_bind_ok]; rfl, ?_, ?_⟩
    · simp only [if_neg e1, if_neg e2, hbb]
      have : a1 * (1 - d2) < a1 * (1 - d) := mul_lt_mul_of_pos_left (by linarith) h1
      linarith
    · simp only [if_neg e1, if_neg e2, hbb]
      have : a1 * (1 - d2) < a1 * (1 - d) := mul_lt_mul_of_pos_left (by linarith) h1
      linarith

/-- **C97**, dissimilar records: the same with the distance in place of the similarity: a record that is not more similar than the limit
`eta ≥ 0` (0 by default) gets nothing for its distance, and among the others of the same outcome the farther one has the larger
fitness. -/
theorem C97_dissimilar (bb : List K → C) (a1 a2 eta : K) (h1 : 0 < a1) (h2 : a1 ≤ a2) (he : 0 ≤ eta)
    (dist : Dict String K → Dict String K → Py K) (idx : Dict Nat String) (x0 x1 : List K) (d : K)
    (hd : Spec.DistanceIs dist idx x0 x1 d) (hd0 : 0 ≤ d) :
    ∃ fs fd, fitnessDSO bb a1 a2 eta dist idx x0 x1 = .ok fs ∧ fitnessDDO bb a1 a2 eta dist idx x0 x1 = .ok fd ∧
      Spec.FitnessRange a1 a2 (bb x0 = bb x1) fs ∧ Spec.FitnessRange a1 a2 (bb x0 ≠ bb x1) fd ∧
      (1 - d ≤ eta → (fs = 0 ∨ fs = a2) ∧ (fd = 0 ∨ fd = a2)) ∧
      (∀ x2 d2, Spec.DistanceIs dist idx x0 x2 d2 → bb x2 = bb x1 → d2 < d → eta < 1 - d → 0 ≤ d2 →
        ∃ fs2 fd2, fitnessDSO bb a1 a2 eta dist idx x0 x2 = .ok fs2 ∧ fitnessDDO bb a1 a2 eta dist idx x0 x2 = .ok fd2 ∧
          fs2 < fs ∧ fd2 < fd) := by
  have hs := simRatio_eq dist idx x0 x1 d hd
  have hrs : 0 ≤ (if 1 - d ≤ eta then (0 : K) else 1 - (1 - d)) ∧ (if 1 - d ≤ eta then (0 : K) else 1 - (1 - d)) < 1 := by
    split
    · exact ⟨le_rfl, one_pos⟩
    · rename_i h
      exact ⟨by linarith, by linarith [not_le.1 h]⟩
  have hmul : 0 ≤ a1 * (if 1 - d ≤ eta then (0 : K) else 1 - (1 - d)) ∧ a1 * (if 1 - d ≤ eta then (0 : K) else 1 - (1 - d)) < a1 :=
    ⟨mul_nonneg h1.le hrs.1, by nlinarith [hrs.2]⟩
  refine ⟨_, _, by simp only [fitnessDSO, hs, py_bind_ok]; rfl, by simp only [fitnessDDO, hs, py_bind_ok]; rfl, ?_, ?_, ?_, ?_⟩
  · by_cases hb : bb x0 = bb x1
    · simp only [hb, if_true, mul_one]
      exact ⟨by linarith [hmul.1], by linarith [hmul.2], iff_of_true (by linarith [hmul.1]) trivial⟩
    · simp only [hb, if_false, mul_zero, add_zero]
      exact ⟨hmul.1, by linarith [hmul.2], iff_of_false (by linarith [hmul.2]) id⟩
  · by_cases hb : bb x0 = bb x1
    · simp only [hb, ne_eq, not_true, if_false, mul_zero, add_zero]
      exact ⟨hmul.1, by linarith [hmul.2], iff_of_false (by linarith [hmul.2]) id⟩
    · simp only [hb, ne_eq, not_false_eq_true, if_true, mul_one]
      exact ⟨by linarith [hmul.1], by linarith [hmul.2], iff_of_true (by linarith [hmul.1]) trivial⟩
  · intro hle
    simp only [if_pos hle, mul_zero, zero_add]
    by_cases hb : bb x0 = bb x1 <;> simp [hb]
  · intro x2 d2 hd2 hbb hlt heta hd20
    have hs2 := simRatio_eq dist idx x0 x2 d2 hd2
    have e1 : ¬ 1 - d ≤ eta := not_le.2 heta
    have e2 : ¬ 1 - d2 ≤ eta := not_le.2 (by linarith)
    refine ⟨_, _, by simp only [fitnessDSO, hs2, py_bind_ok]; rfl, by simp only [fitnessDDO, hs2, py_bind_ok]; rfl, ?_, ?_⟩
    · simp only [if_neg e1, if_neg e2, hbb]
      have : a1 * (1 - (1 - d2)) < a1 * (1 - (1 - d)) := mul_lt_mul_of_pos_left (by linarith) h1
      linarith
    · simp only [if_neg e1, if_neg e2, hbb]
      have : a1 * (1 - (1 - d2)) < a1 * (1 - (1 - d)) := mul_lt_mul_of_pos_left (by linarith) h1
      linarith

/-- with the defaults (limit 1), the record itself, at distance 0, has no more fitness than a record of its outcome at distance 1. -/
theorem C97_identical (bb : List K → C) (dist : Dict String K → Dict String K → Py K) (idx : Dict Nat String) (x0 x1 : List K)
    (h0 : Spec.DistanceIs dist idx x0 x0 0) (h1 : Spec.DistanceIs dist idx x0 x1 1) (hb : bb x0 = bb x1) :
    fitnessSSO bb (1 / 2) (1 / 2) 1 dist idx x0 x0 = fitnessSSO bb (1 / 2) (1 / 2) 1 dist idx x0 x1 := by
  simp only [fitnessSSO, simRatio_eq dist idx x0 x0 0 h0, simRatio_eq dist idx x0 x1 1 h1, py_bind_ok, hb]
  simp

def fitDist (x y : Dict String ℚ) : Py ℚ := do
  let a ← Dict.get x "a"
  let b ← Dict.get y "a"
  pure |a - b|

example : Spec.DistanceIs fitDist [(0, "a")] [1 / 2] [1 / 4] (1 / 4) := ⟨[("a", 1 / 2)], [("a", 1 / 4)], by decide +kernel, by decide +kernel, by decide +kernel⟩

example : fitnessSSO (fun r => r.length) (1 / 2) (1 / 2) 1 fitDist [(0, "a")] [1 / 2] [1 / 4] = .ok (7 / 8) := by decide +kernel

/-! ## C99: candidate values -/

theorem featureColumn_mem (rng : GPRng R K) (std : List K → K) (distr : List K → Nat → Py (List K)) (col : String)
    (discrete continuous : List String) (size : Nat) (useProb estim : Bool) (values : List K) (prev : Option (List K)) (r r' : R)
    (v : List K) (h : featureColumn rng std distr col discrete continuous size useProb estim values prev r = .ok (v, r'))
    (hcol : col ∈ discrete ∨ col ∈ continuous) :
    (∀ x ∈ values, x ∈ v) ∧ (col ∈ discrete → useProb = false → v.Nodup ∧ ∀ x, x ∈ v ↔ x ∈ values) := by
  simp only [featureColumn] at h
  by_cases hd : col ∈ discrete
  · rw [if_pos hd] at h
    cases useProb with
    | true =>
      simp only [if_true] at h
      cases h
      exact ⟨fun x hx => List.mem_append.2 (.inl hx), by simp⟩
    | false =>
      simp only [Bool.false_eq_true, if_false] at h
      cases h
      exact ⟨fun x hx => (mem_npUnique _ _).2 hx, fun _ _ => ⟨npUnique_nodup values, mem_npUnique values⟩⟩
  · have hc : col ∈ continuous := hcol.resolve_left hd
    rw [if_neg hd, if_pos hc] at h
    refine ⟨?_, fun h' => absurd h' hd⟩
    cases estim with
    | true =>
      simp only [if_true] at h
      obtain ⟨d, -, h⟩ := py_bind_eq_ok.1 h
      cases h
      exact fun x hx => List.mem_append.2 (.inl hx)
    | false =>
      simp only [Bool.false_eq_true, if_false] at h
      cases h
      exact fun x hx => List.mem_append.2 (.inl hx)

theorem featureLoop_spec (rng : GPRng R K) (std : List K → K) (distr : List K → Nat → Py (List K)) (X : List (List K))
    (discrete continuous : List String) (size : Nat) (useProb estim : Bool) :
    ∀ (ps : List (String × Nat)) (prev : Option (List K)) (r r' : R) (fv : Dict Nat (List K)),
      featureLoop rng std distr X discrete continuous size useProb estim ps prev r = .ok (fv, r') →
      Dict.keys fv = ps.map Prod.snd ∧
      ∀ p ∈ ps, (p.1 ∈ discrete ∨ p.1 ∈ continuous) → ∃ values v, column X p.2 = .ok values ∧ (p.2, v) ∈ fv ∧
        (∀ x ∈ values, x ∈ v) ∧ (p.1 ∈ discrete → useProb = false → v.Nodup ∧ ∀ x, x ∈ v ↔ x ∈ values) := by
  intro ps
  induction ps with
  | nil => intro prev r r' fv h; cases h; simp [Dict.keys]
  | cons p ps ih =>
    intro prev r r' fv h
    simp only [featureLoop] at h
    obtain ⟨values, hv, h⟩ := py_bind_eq_ok.1 h
    obtain ⟨⟨v, r1⟩, hc, h⟩ := py_bind_eq_ok.1 h
    obtain ⟨⟨l, r2⟩, hl, h⟩ := py_bind_eq_ok.1 h
    cases h
    obtain ⟨h1, h2⟩ := ih _ _ _ _ hl
    refine ⟨by simpa [Dict.keys] using h1, ?_⟩
    intro q hq hqc
    rcases List.mem_cons.1 hq with rfl | hq
    · obtain ⟨g1, g2⟩ := featureColumn_mem rng std distr q.1 discrete continuous size useProb estim values prev r r1 v hc hqc
      exact ⟨values, v, hv, by simp, g1, g2⟩
    · obtain ⟨values', v', k1, k2, k3⟩ := h2 q hq hqc
      exact ⟨values', v', k1, by simp [k2], k3⟩

/-- **C99**: when `calculate_feature_values` succeeds, the features are numbered by their position in `columns` without the class, and a
feature that is discrete or continuous has a list of values that contains every value observed in its column; for a discrete one (without
`discrete_use_probabilities`) they are exactly the different observed values. -/
theorem C99_feature_values_partial (rng : GPRng R K) (std : List K → K) (distr : List K → Nat → Py (List K)) (X : List (List K))
    (columns : List String) (hcn : columns.Nodup) (className : String) (discrete continuous : List String) (size : Nat)
    (useProb estim : Bool) (r r' : R) (fv : Dict Nat (List K))
    (h : calculateFeatureValues rng std distr X columns className discrete continuous size useProb estim r = .ok (fv, r')) :
    Dict.keys fv = List.range (columns.length - 1) ∧
    ∀ (j : Nat) (c : String), (columns.filter (fun c => c ≠ className))[j]? = some c → (c ∈ discrete ∨ c ∈ continuous) →
      ∃ values v, column X j = .ok values ∧ Dict.get? fv j = some v ∧ (∀ x ∈ values, x ∈ v) ∧
        (c ∈ discrete → useProb = false → v.Nodup ∧ ∀ x, x ∈ v ↔ x ∈ values) := by
  simp only [calculateFeatureValues] at h
  obtain ⟨cols, hcols, h⟩ := py_bind_eq_ok.1 h
  simp only [pyRemove] at hcols
  split at hcols
  · rename_i hmem
    cases hcols
    have her : columns.erase className = columns.filter (fun c => c ≠ className) := by
      rw [hcn.erase_eq_filter]
      apply List.filter_congr
      intro a _
      simp [bne, beq_eq_decide]
    obtain ⟨h1, h2⟩ := featureLoop_spec rng std distr X discrete continuous size useProb estim _ _ _ _ _ h
    have hk : Dict.keys fv = List.range (columns.length - 1) := by
      rw [h1, ← List.length_erase_of_mem hmem]
      simp [List.zipIdx_map_snd, List.range_eq_range']
    refine ⟨hk, ?_⟩
    intro j c hj hc
    rw [← her] at hj
    obtain ⟨values, v, k1, k2, k3⟩ := h2 (c, j) (by rw [List.mem_zipIdx_iff_getElem?]; exact hj) hc
    exact ⟨values, v, k1, Dict.get?_of_mem_nodup (by rw [hk]; exact List.nodup_range) k2, k3⟩
  · cases hcols

theorem featureLoop_total (rng : GPRng R K) (std : List K → K) (distr : List K → Nat → Py (List K)) (X : List (List K))
    (discrete continuous : List String) (size : Nat) (useProb : Bool) :
    ∀ (ps : List (String × Nat)) (prev : Option (List K)) (r : R),
      (∀ p ∈ ps, (p.1 ∈ discrete ∨ p.1 ∈ continuous) ∧ ∀ row ∈ X, p.2 < row.length) →
      ∃ fv r', featureLoop rng std distr X discrete continuous size useProb false ps prev r = .ok (fv, r') := by
  intro ps
  induction ps with
  | nil => intro prev r _; exact ⟨_, _, rfl⟩
  | cons p ps ih =>
    intro prev r hp
    obtain ⟨hpc, hpl⟩ := hp p (by simp)
    obtain ⟨values, hv⟩ := forall₂_of_forall_exists (fun (row : List K) v => row[p.2]? = some v) X
      (fun row hr => ⟨_, List.getElem?_eq_getElem (hpl row hr)⟩)
    have hcol := (column_eq_ok_iff X p.2 values).2 hv
    obtain ⟨v, r1, hc⟩ : ∃ v r1, featureColumn rng std distr p.1 discrete continuous size useProb false values prev r = .ok (v, r1) := by
      simp only [featureColumn]
      by_cases hd : p.1 ∈ discrete
      · rw [if_pos hd]
        cases useProb <;> exact ⟨_, _, rfl⟩
      · rw [if_neg hd, if_pos (hpc.resolve_left hd)]
        exact ⟨_, _, rfl⟩
    obtain ⟨fv, r', hl⟩ := ih (some v) r1 (fun q hq => hp q (by simp [hq]))
    exact ⟨_, _, by simp only [featureLoop, hcol, hc, hl, py_bind_ok]; rfl⟩

/-- **C99**: it succeeds (without the estimation of distributions) when every column but the class is in one of the lists and the rows have
all the columns. -/
theorem C99_total (rng : GPRng R K) (std : List K → K) (distr : List K → Nat → Py (List K)) (X : List (List K))
    (columns : List String) (className : String) (hclass : className ∈ columns) (discrete continuous : List String) (size : Nat)
    (useProb : Bool) (hin : ∀ c ∈ columns.erase className, c ∈ discrete ∨ c ∈ continuous)
    (hX : ∀ row ∈ X, columns.length - 1 ≤ row.length) (r : R) :
    ∃ fv r', calculateFeatureValues rng std distr X columns className discrete continuous size useProb false r = .ok (fv, r') := by
  simp only [calculateFeatureValues, pyRemove, if_pos hclass, py_bind_ok]
  apply featureLoop_total
  rintro ⟨c, j⟩ hp
  rw [List.mem_zipIdx_iff_getElem?] at hp
  refine ⟨hin c (List.mem_of_getElem? hp), fun row hr => ?_⟩
  have := (List.getElem?_eq_some_iff.1 hp).1
  rw [List.length_erase_of_mem hclass] at this
  exact lt_of_lt_of_le this (hX row hr)

/-- a generator for the examples. -/
def exRng : GPRng Nat ℚ where
  random := fun r => (1 / 2, r + 1)
  pick := fun _ r => (0, r + 1)
  normals := fun mu _ n r => (List.replicate n mu, r + 1)
  choices := fun vs n r => (List.replicate n (vs.headD 0), r + 1)
  choicesP := fun vs _ n r => (List.replicate n (vs.headD 0), r + 1)

example : calculateFeatureValues exRng (fun _ => 1) (fun _ _ => .ok []) [[1, 10], [3, 10], [1, 40]] ["cls", "a", "b"] "cls" ["a"] ["b"] 2
    false false 0 = .ok ([(0, [1, 3]), (1, [10, 10, 40, 20, 20])], 1) := by decide +kernel

/-- **C99** is false for a feature in neither list (a column of dates, or of booleans): it gets the values of the feature before it, here
none of its own values. -/
theorem C99_stale_values_false :
    calculateFeatureValues exRng (fun _ => 1) (fun _ _ => .ok []) [[1, 10], [3, 10], [1, 40]] ["cls", "a", "b"] "cls" ["a"] [] 2
      false false 0 = .ok ([(0, [1, 3]), (1, [1, 3])], 0) := by decide +kernel

/-- and if it is the first one, the call raises `UnboundLocalError`. -/
theorem C99_unbound_false :
    calculateFeatureValues exRng (fun _ => 1) (fun _ _ => .ok []) [[1, 10], [3, 10], [1, 40]] ["cls", "a", "b"] "cls" ["b"] [] 2
      false false 0 = .error .unboundLocal := by decide +kernel

/-! ## C102: random data -/

/-- Specification of the draws: `size` values, chosen among the given ones if there is any. -/
structure Spec.FairDraws (rng : GPRng R K) : Prop where
  choices : ∀ vs n r, (rng.choices vs n r).1.length = n ∧ (vs ≠ [] → ∀ x ∈ (rng.choices vs n r).1, x ∈ vs)
  normals : ∀ m s n r, (rng.normals m s n r).1.length = n

theorem randomColumn_spec (rng : GPRng R K) (hf : Spec.FairDraws rng) (std : List K → K) (toInt : K → Int) (types : Dict String DType)
    (col : String) (discrete continuous : List String) (size : Nat) (values : List K) (hne : values ≠ []) (prev : Option (List K))
    (r r' : R) (v : List K) (hcol : col ∈ discrete ∨ col ∈ continuous)
    (h : randomColumn rng std toInt types col discrete continuous size values prev r = .ok (v, r')) :
    v.length = size ∧ ∃ t, Dict.get? types col = some t ∧
      (col ∈ discrete → ∀ x ∈ v, ∃ w ∈ values, x = if t = .integer then ((toInt w : Int) : K) else w) ∧
      (col ∉ discrete → std values ≤ 0 → ∀ x ∈ v, ∃ w ∈ values, x = if t = .integer then ((toInt w : Int) : K) else w) := by
  simp only [randomColumn] at h
  obtain ⟨⟨v0, r1⟩, hv, h⟩ := py_bind_eq_ok.1 h
  obtain ⟨t, ht, h⟩ := py_bind_eq_ok.1 h
  cases h
  have key : v0.length = size ∧ (col ∈ discrete → ∀ x ∈ v0, x ∈ values) ∧ (col ∉ discrete → std values ≤ 0 → ∀ x ∈ v0, x ∈ values) := by
    simp only [randomValues] at hv
    by_cases hd : col ∈ discrete
    · rw [if_pos hd] at hv
      obtain ⟨g1, g2⟩ := hf.choices (npUnique values) size r
      have hune : npUnique values ≠ [] := by
        obtain ⟨a, ha⟩ := List.exists_mem_of_ne_nil _ hne
        exact List.ne_nil_of_mem ((mem_npUnique _ _).2 ha)
      have e : rng.choices (npUnique values) size r = (v0, r1) := Except.ok.inj hv
      rw [e] at g1 g2
      exact ⟨g1, fun _ x hx => (mem_npUnique _ _).1 (g2 hune x hx), fun h => absurd hd h⟩
    · rw [if_neg hd, if_pos (hcol.resolve_left hd)] at hv
      split at hv
      · split at hv
        · cases hv
        · cases hv
          exact ⟨by simp, fun h => absurd h hd, fun _ _ x hx => by rw [List.eq_of_mem_replicate hx]; simp⟩
      · rename_i hs
        have e := Except.ok.inj hv
        have g1 := hf.normals (values.sum / (values.length : K)) (std values) size r
        rw [e] at g1
        exact ⟨g1, fun h => absurd h hd, fun _ h => absurd h hs⟩
  refine ⟨by split <;> simp [key.1], t, Dict.get_eq_ok_iff.1 ht, ?_, ?_⟩
  · intro hd x hx
    by_cases hti : t = .integer
    · simp only [hti, if_true] at hx ⊢
      obtain ⟨w, hw, rfl⟩ := List.mem_map.1 hx
      exact ⟨w, key.2.1 hd w hw, rfl⟩
    · simp only [hti, if_false] at hx ⊢
      exact ⟨x, key.2.1 hd x hx, rfl⟩
  · intro hd hs x hx
    by_cases hti : t = .integer
    · simp only [hti, if_true] at hx ⊢
      obtain ⟨w, hw, rfl⟩ := List.mem_map.1 hx
      exact ⟨w, key.2.2 hd hs w hw, rfl⟩
    · simp only [hti, if_false] at hx ⊢
      exact ⟨x, key.2.2 hd hs x hx, rfl⟩

/-- what the theorem says of the new values `v` of the column `c` of `X` number `j`. -/
def Spec.RandomColumn (std : List K → K) (toInt : K → Int) (types : Dict String DType) (X : List (List K)) (discrete : List String)
    (c : String) (j : Nat) (x : K) : Prop :=
  ∃ values t, column X j = .ok values ∧ Dict.get? types c = some t ∧
    ((c ∈ discrete ∨ std values ≤ 0) → ∃ w ∈ values, x = if t = .integer then ((toInt w : Int) : K) else w)

theorem randomLoop_spec (rng : GPRng R K) (hf : Spec.FairDraws rng) (std : List K → K) (toInt : K → Int) (types : Dict String DType)
    (X : List (List K)) (hX : X ≠ []) (discrete continuous : List String) (size : Nat) :
    ∀ (ps : List (String × Nat)) (prev : Option (List K)) (r r' : R) (cols : List (List K)),
      (∀ p ∈ ps, p.1 ∈ discrete ∨ p.1 ∈ continuous) →
      randomLoop rng std toInt types X discrete continuous size ps prev r = .ok (cols, r') →
      List.Forall₂ (fun p col => col.length = size ∧ ∀ x ∈ col, Spec.RandomColumn std toInt types X discrete p.1 p.2 x) ps cols := by
  intro ps
  induction ps with
  | nil => intro prev r r' cols _ h; cases h; exact .nil
  | cons p ps ih =>
    intro prev r r' cols hin h
    simp only [randomLoop] at h
    obtain ⟨values, hv, h⟩ := py_bind_eq_ok.1 h
    obtain ⟨⟨v, r1⟩, hc, h⟩ := py_bind_eq_ok.1 h
    obtain ⟨⟨l, r2⟩, hl, h⟩ := py_bind_eq_ok.1 h
    cases h
    have hne : values ≠ [] := by
      have := ((column_eq_ok_iff X p.2 values).1 hv).length_eq
      intro e
      rw [e] at this
      exact hX (List.length_eq_zero_iff.1 (by simpa using this))
    obtain ⟨g1, t, g2, g3, g4⟩ := randomColumn_spec rng hf std toInt types p.1 discrete continuous size values hne prev r r1 v
      (hin p (by simp)) hc
    refine .cons ⟨g1, fun x hx => ⟨values, t, hv, g2, ?_⟩⟩ (ih _ _ _ _ (fun q hq => hin q (by simp [hq])) hl)
    intro hor
    by_cases hd : p.1 ∈ discrete
    · exact g3 hd x hx
    · exact g4 hd (hor.resolve_left hd) x hx

theorem columnStack_get (size : Nat) (cols : List (List K)) (hl : ∀ c ∈ cols, c.length = size) (i : Nat) (hi : i < size) :
    ∃ row, (columnStack size cols)[i]? = some row ∧ row.length = cols.length ∧
      ∀ (j : Nat) (col : List K), cols[j]? = some col → row[j]? = col[i]? := by
  refine ⟨cols.filterMap (fun c => c[i]?), by simp [columnStack, hi], ?_⟩
  induction cols with
  | nil => simp
  | cons c cols ih =>
    have hc : c[i]? = some (c[i]'(by rw [hl c (by simp)]; exact hi)) := List.getElem?_eq_getElem _
    obtain ⟨h1, h2⟩ := ih (fun c hc => hl c (by simp [hc]))
    rw [List.filterMap_cons, hc]
    refine ⟨by simp [h1], ?_⟩
    intro j col hj
    cases j with
    | zero => simp only [List.getElem?_cons_zero, Option.some.injEq] at hj ⊢; rw [← hj, hc]
    | succ j => simp only [List.getElem?_cons_succ] at hj ⊢; exact h2 j col hj

/-- **C102**: when every column but the class is discrete or continuous, `generate_random_data` returns the rows of `X`, unchanged and in
their order, followed by `size` new rows with a value for each column; the values of a discrete column, and of a continuous column
without variation, are values observed in it (without decimals if its type is integer). -/
theorem C102_random_data (rng : GPRng R K) (hf : Spec.FairDraws rng) (std : List K → K) (toInt : K → Int) (types : Dict String DType)
    (X : List (List K)) (hX : X ≠ []) (className : String) (columns discrete continuous : List String)
    (hin : ∀ c ∈ columns.erase className, c ∈ discrete ∨ c ∈ continuous) (size : Nat) (r r' : R) (Z : List (List K))
    (h : generateRandomData rng std toInt types X className columns discrete continuous size r = .ok (Z, r')) :
    ∃ new, Z = X ++ new ∧ new.length = size ∧ ∀ row ∈ new, row.length = (columns.erase className).length ∧
      ∀ (j : Nat) (c : String), (columns.erase className)[j]? = some c →
        ∃ x, row[j]? = some x ∧ Spec.RandomColumn std toInt types X discrete c j x := by
  simp only [generateRandomData] at h
  obtain ⟨cs, hcs, h⟩ := py_bind_eq_ok.1 h
  obtain ⟨⟨cols, r1⟩, hl, hfin⟩ := py_bind_eq_ok.1 h
  simp only [pyRemove] at hcs
  split at hcs
  · obtain rfl := Except.ok.inj hcs
    split at hfin
    · cases hfin
    · cases hfin
      have hspec := randomLoop_spec rng hf std toInt types X hX discrete continuous size _ _ _ _ _ (by
        rintro ⟨c, j⟩ hp
        rw [List.mem_zipIdx_iff_getElem?] at hp
        exact hin c (List.mem_of_getElem? hp)) hl
      have hlen : cols.length = (columns.erase className).length := by simpa using hspec.length_eq.symm
      have hcl : ∀ c ∈ cols, c.length = size := by
        intro c hc
        obtain ⟨p, -, hp⟩ := forall₂_mem_right hspec c hc
        exact hp.1
      refine ⟨_, rfl, by simp [columnStack], ?_⟩
      intro row hrow
      obtain ⟨i, hi⟩ := List.getElem?_of_mem hrow
      have hilt : i < size := by simpa [columnStack] using (List.getElem?_eq_some_iff.1 hi).1
      obtain ⟨row', k1, k2, k3⟩ := columnStack_get size cols hcl i hilt
      rw [hi] at k1
      cases k1
      refine ⟨k2.trans hlen, ?_⟩
      intro j c hj
      have hjl : j < cols.length := by rw [hlen]; exact (List.getElem?_eq_some_iff.1 hj).1
      have hcj : cols[j]? = some cols[j] := List.getElem?_eq_getElem hjl
      obtain ⟨g1, g2⟩ : cols[j].length = size ∧ ∀ x ∈ cols[j], Spec.RandomColumn std toInt types X discrete c j x := by
        have hz : (columns.erase className).zipIdx[j]? = some (c, j) := by simp [List.getElem?_zipIdx, hj]
        have := List.Forall₂.get hspec (by simpa using (List.getElem?_eq_some_iff.1 hj).1) hjl
        have hz' := (List.getElem?_eq_some_iff.1 hz)
        obtain ⟨hz1, hz2⟩ := hz'
        simp only [List.get_eq_getElem, hz2] at this
        exact this
      have hx : cols[j][i]? = some (cols[j][i]'(by rw [g1]; exact hilt)) := List.getElem?_eq_getElem _
      exact ⟨_, by rw [k3 j _ hcj, hx], g2 _ (List.getElem_mem _)⟩
  · cases hcs

example : Spec.FairDraws exRng :=
  ⟨fun vs n r => ⟨by simp [exRng], fun hne x hx => by
    have hx' := List.eq_of_mem_replicate hx
    cases vs with
    | nil => exact absurd rfl hne
    | cons a l => simp [hx']⟩, fun m s n r => by simp [exRng]⟩

example : generateRandomData exRng (fun vs => if vs = [10, 10] then 0 else 1) Int.floor [("a", .string), ("b", .integer)] [[1, 10], [3, 10]]
    "cls" ["cls", "a", "b"] ["a"] ["b"] 2 0 = .ok ([[1, 10], [3, 10], [1, 10], [1, 10]], 1) := by decide +kernel

/-! ## C98: `genetic_neighborhood` -/

variable {V : Type} [LinearOrder V]

/-- **C98** is false: when all the generated records have the same predicted class, `genetic_neighborhood` never returns. (If the steps
before succeed the exception is `AttributeError`.) -/
theorem C98_single_class_false (ops : CellOps K V) (argsort : List K → List Nat) (dist : Dict String V → Dict String V → Py K)
    (bb : List K → K) (bbV : List V → Bool) (gen : R → Py (List (List K) × R)) (dfZ : DF V) (x : List K) (ds : Dataset V) (r r1 : R)
    (Z : List (List K)) (hg : gen r = .ok (Z, r1)) (hZ : Z ≠ []) (c : K) (hc : ∀ z ∈ Z, bb z = c) :
    ∃ e, geneticNeighborhood ops argsort dist bb bbV gen dfZ x ds r = .error e := by
  cases h : geneticNeighborhood ops argsort dist bb bbV gen dfZ x ds r with
  | error e => exact ⟨e, rfl⟩
  | ok res =>
    exfalso
    have hu : (npUnique (Z.map bb)).length = 1 := by
      have hmap : ∀ y, y ∈ npUnique (Z.map bb) ↔ y = c := by
        intro y
        rw [mem_npUnique, List.mem_map]
        constructor
        · rintro ⟨z, hz, rfl⟩; exact hc z hz
        · rintro rfl
          obtain ⟨z, hz⟩ := List.exists_mem_of_ne_nil Z hZ
          exact ⟨z, hz, hc z hz⟩
      have hp : (npUnique (Z.map bb)).Perm [c] := by
        rw [List.perm_ext_iff_of_nodup (npUnique_nodup _) (by simp)]
        intro a; rw [hmap]; simp
      simpa using hp.length_eq
    simp only [geneticNeighborhood] at h
    obtain ⟨_, -, h⟩ := py_bind_eq_ok.1 h
    rw [hg] at h
    simp only [py_bind_ok, hu, if_true] at h
    obtain ⟨_, -, h⟩ := py_bind_eq_ok.1 h
    obtain ⟨_, -, h⟩ := py_bind_eq_ok.1 h
    obtain ⟨_, -, h⟩ := py_bind_eq_ok.1 h
    cases h

/-- **C98**, partial: when it returns, the array is the generated one, with records of at least two predicted classes, and the DataFrame is
its description by `build_df2explain`. -/
theorem C98_returns_partial (ops : CellOps K V) (argsort : List K → List Nat) (dist : Dict String V → Dict String V → Py K)
    (bb : List K → K) (bbV : List V → Bool) (gen : R → Py (List (List K) × R)) (dfZ : DF V) (x : List K) (ds : Dataset V) (r r' : R)
    (df : DF V) (Z : List (List K)) (h : geneticNeighborhood ops argsort dist bb bbV gen dfZ x ds r = .ok ((df, Z), r')) :
    gen r = .ok (Z, r') ∧ buildDf2explain ops bb Z ds = .ok df ∧ (Z ≠ [] → ∃ z ∈ Z, ∃ z' ∈ Z, bb z ≠ bb z') := by
  have hno := h
  simp only [geneticNeighborhood] at h
  obtain ⟨_, -, h⟩ := py_bind_eq_ok.1 h
  obtain ⟨⟨Z', r1⟩, hg, h⟩ := py_bind_eq_ok.1 h
  simp only at h
  split at h
  · obtain ⟨_, -, h⟩ := py_bind_eq_ok.1 h
    obtain ⟨_, -, h⟩ := py_bind_eq_ok.1 h
    obtain ⟨_, -, h⟩ := py_bind_eq_ok.1 h
    cases h
  · obtain ⟨df', hdf, h⟩ := py_bind_eq_ok.1 h
    cases h
    refine ⟨hg, hdf, ?_⟩
    intro hne
    by_contra hcon
    push Not at hcon
    obtain ⟨z, hz⟩ := List.exists_mem_of_ne_nil _ hne
    obtain ⟨e, he⟩ := C98_single_class_false ops argsort dist bb bbV gen dfZ x ds r _ Z hg hne (bb z) (fun z' hz' => hcon z' hz' z hz)
    rw [he] at hno
    cases hno

/-- **C98**: when the class is among the discrete columns, the generated records have two different predicted classes and can be described by
`build_df2explain`, `genetic_neighborhood` returns them. -/
theorem C98_two_classes (ops : CellOps K V) (argsort : List K → List Nat) (dist : Dict String V → Dict String V → Py K)
    (bb : List K → K) (bbV : List V → Bool) (gen : R → Py (List (List K) × R)) (dfZ : DF V) (x : List K) (ds : Dataset V) (r r' : R)
    (df : DF V) (Z : List (List K)) (hd : ds.className ∈ ds.discrete) (hg : gen r = .ok (Z, r')) (z z' : List K) (hz : z ∈ Z)
    (hz' : z' ∈ Z) (hzz : bb z ≠ bb z') (hdf : buildDf2explain ops bb Z ds = .ok df) :
    geneticNeighborhood ops argsort dist bb bbV gen dfZ x ds r = .ok ((df, Z), r') := by
  have hne : (npUnique (Z.map bb)).length ≠ 1 := by
    intro h1
    obtain ⟨a, ha⟩ := List.length_eq_one_iff.1 h1
    have m1 := (mem_npUnique (Z.map bb) (bb z)).2 (List.mem_map_of_mem hz)
    have m2 := (mem_npUnique (Z.map bb) (bb z')).2 (List.mem_map_of_mem hz')
    rw [ha, List.mem_singleton] at m1 m2
    exact hzz (m1.trans m2.symm)
  have hrem : ∃ l, pyRemove ds.discrete ds.className = .ok l := by
    unfold pyRemove
    rw [if_pos hd]
    exact ⟨_, rfl⟩
  obtain ⟨l, hl⟩ := hrem
  simp only [geneticNeighborhood, hl, py_bind_ok, hg, hne, if_false, hdf]
  rfl

/-- a black box that predicts always the same class. -/
example : geneticNeighborhood ratOps argsortIns (fun _ _ => .ok 0) (fun _ => 1) (fun _ => true) (fun r => .ok ([[30, 1], [50, 0]], r))
    gdDf [30, 1] { bdFirst with encoders := [("job", [5, 7]), ("cls", [3, 8])] } (0 : Nat) = .error .attributeError := by decide +kernel

example : geneticNeighborhood ratOps argsortIns (fun _ _ => .ok 0) (fun row => row.getD 1 0) (fun _ => true)
    (fun r => .ok ([[30, 1], [50, 0]], r)) gdDf [30, 1] bdFirst (0 : Nat)
    = .ok (([("cls", [8, 3]), ("age", [30, 50]), ("job", [7, 5])], [[30, 1], [50, 0]]), 0) := by decide +kernel

/-! ## C103: `real_data` -/

theorem leTransform_known (ops : CellOps K V) (classes col : List V) (h : ∀ v ∈ col, v ∈ classes) :
    leTransform ops classes col = .ok (col.map (fun v => ops.num ((classes.idxOf v : Nat) : K))) := by
  apply mapM_ok_of_forall
  intro v hv
  simp [leTransform1, h v hv]

/-- **C103**: for a dataset with the class first, `real_data` on a DataFrame with the features in the order of the dataset, whose values are
known to the encoders (numbers for the others), returns an array with a row for each record, and the same DataFrame with the class column
replaced by the labels that the black box gives to the rows. -/
theorem C103_real_data (ops : CellOps K V) (hops : Spec.CellLaws ops) (bb : List K → K) (dfZ : DF V) (ds : Dataset V)
    (feats : List String) (hcols : ds.columns = ds.className :: feats) (hn : (ds.className :: feats).Nodup)
    (hkn : (Dict.keys dfZ).Nodup) (hkeys : (Dict.keys dfZ).filter (fun c => c ≠ ds.className) = feats)
    (hck : ds.className ∈ Dict.keys dfZ) (n : Nat) (hrect : Spec.Rect dfZ n)
    (hdn : ds.discrete.Nodup) (hdc : ∀ c ∈ ds.discrete, c ∈ ds.className :: feats) (hcd : ds.className ∈ ds.discrete)
    (htypes : ∀ c ∈ ds.className :: feats, c ∈ Dict.keys ds.types)
    (hle : ∀ c ∈ ds.discrete, ∃ classes, Dict.get? ds.encoders c = some classes ∧
      ∀ col, Dict.get? dfZ c = some col → ∀ v ∈ col, v ∈ classes)
    (hnum : ∀ c ∈ feats, c ∉ ds.discrete → ∀ col, Dict.get? dfZ c = some col → ∀ v ∈ col, ∃ x, ops.toNum v = some x ∧ ops.num x = v ∧
      (Dict.get? ds.types c = some .integer → ((ops.toInt x : Int) : K) = x))
    (hbb : ∀ classes, Dict.get? ds.encoders ds.className = some classes → ∀ row, ∃ v, Spec.Decodes classes (bb row) v) :
    ∃ out Z, realData ops bb dfZ ds = .ok (out, Z) ∧ Z.length = n ∧ Dict.keys out = ds.className :: feats ∧
      (∀ c ∈ feats, Dict.get? out c = Dict.get? dfZ c) ∧
      ∃ classes col, Dict.get? ds.encoders ds.className = some classes ∧ Dict.get? out ds.className = some col ∧
        List.Forall₂ (fun row v => Spec.Decodes classes (bb row) v) Z col := by
  have hfk : ∀ c ∈ ds.className :: feats, c ∈ Dict.keys dfZ := by
    intro c hc
    rcases List.mem_cons.1 hc with rfl | hc
    · exact hck
    · rw [← hkeys] at hc; exact List.mem_of_mem_filter hc
  choose! fcl hfcl using hle
  -- the encoded DataFrame
  obtain ⟨enc, e1, e2, e3, e4⟩ := encodeWith_spec ops ds.encoders ds.discrete hdn dfZ
    (fun c => ((Dict.get? dfZ c).getD []).map (fun v => ops.num (((fcl c).idxOf v : Nat) : K))) (fun c hc => by
      obtain ⟨col, hcol⟩ := (Dict.get?_isSome_iff dfZ c).2 (hfk c (hdc c hc))
      refine ⟨fcl c, col, (hfcl c hc).1, hcol, ?_⟩
      rw [hcol]
      exact leTransform_known ops _ _ ((hfcl c hc).2 col hcol))
  have hrectE : Spec.Rect enc n := by
    intro c col h
    by_cases hc : c ∈ ds.discrete
    · obtain ⟨col0, hcol0⟩ := (Dict.get?_isSome_iff dfZ c).2 (hfk c (hdc c hc))
      rw [e4 c hc, hcol0] at h
      cases h
      simpa using hrect c col0 hcol0
    · rw [e3 c hc] at h; exact hrect c col h
  have hnrows : DF.nrows enc = n := nrows_of_rect enc n hrectE ds.className (by rw [e2]; exact hck)
  -- the number in row `i` of the feature `j`
  have hcell : ∀ i < n, ∃ z, rowNums ops ((enc.filter (fun p => p.1 ≠ ds.className)).filterMap (fun p => p.2[i]?)) = .ok z ∧
      z.length = feats.length ∧ ∀ (j : Nat) (c : String), feats[j]? = some c → ∃ col v x, Dict.get? dfZ c = some col ∧ col[i]? = some v ∧
        z[j]? = some x ∧ (c ∈ ds.discrete → v ∈ fcl c ∧ x = (((fcl c).idxOf v : Nat) : K)) ∧
        (c ∉ ds.discrete → ops.num x = v ∧ (Dict.get? ds.types c = some .integer → ((ops.toInt x : Int) : K) = x)) := by
    intro i hi
    obtain ⟨row, r1, r2, r3⟩ := rowsWithout_get enc (by rw [e2]; exact hkn) n hrectE ds.className i hi
    rw [e2, hkeys] at r2 r3
    have hx : ∀ (j : Nat) (c : String), feats[j]? = some c → ∃ col v x w, Dict.get? dfZ c = some col ∧ col[i]? = some v ∧
        row[j]? = some w ∧ ops.toNum w = some x ∧ (c ∈ ds.discrete → v ∈ fcl c ∧ x = (((fcl c).idxOf v : Nat) : K)) ∧
        (c ∉ ds.discrete → ops.num x = v ∧ (Dict.get? ds.types c = some .integer → ((ops.toInt x : Int) : K) = x)) := by
      intro j c hj
      obtain ⟨ecol, w, g1, g2, g3⟩ := r3 j c hj
      have hcf : c ∈ feats := List.mem_of_getElem? hj
      obtain ⟨col, hcol⟩ := (Dict.get?_isSome_iff dfZ c).2 (hfk c (by simp [hcf]))
      by_cases hc : c ∈ ds.discrete
      · rw [e4 c hc, hcol] at g1
        cases g1
        simp only [Option.getD_some, List.getElem?_map] at g2
        obtain ⟨v, hv, rfl⟩ := Option.map_eq_some_iff.1 g2
        exact ⟨col, v, _, _, hcol, hv, g3, hops.toNum_num _,
          fun _ => ⟨(hfcl c hc).2 col hcol v (List.mem_of_getElem? hv), rfl⟩, fun h => absurd hc h⟩
      · rw [e3 c hc, hcol] at g1
        obtain rfl := Option.some.inj g1
        obtain ⟨x, h1, h2, h3⟩ := hnum c hcf hc _ hcol w (List.mem_of_getElem? g2)
        exact ⟨_, w, x, w, hcol, g2, g3, h1, fun h => absurd h hc, fun _ => ⟨h2, h3⟩⟩
    have hall : ∀ w ∈ row, ∃ x, ops.toNum w = some x := by
      intro w hw
      obtain ⟨j, hj⟩ := List.getElem?_of_mem hw
      have hjl : j < feats.length := by rw [← r2]; exact (List.getElem?_eq_some_iff.1 hj).1
      obtain ⟨col, v, x, w', -, -, h3, h4, -⟩ := hx j feats[j] (List.getElem?_eq_getElem hjl)
      rw [hj] at h3; cases h3
      exact ⟨x, h4⟩
    obtain ⟨z, hz⟩ := forall₂_of_forall_exists (fun w x => ops.toNum w = some x) row hall
    have hzl := hz.length_eq
    refine ⟨z, ?_, by omega, ?_⟩
    · rw [r1]
      unfold rowNums
      rw [mapM_ok_iff]
      exact hz.imp fun w x h => by simp [h]
    · intro j c hj
      obtain ⟨col, v, x, w, g1, g2, g3, g4, g5, g6⟩ := hx j c hj
      have hjl : j < z.length := by rw [← hzl]; exact (List.getElem?_eq_some_iff.1 g3).1
      have hjr : j < row.length := by omega
      have := List.Forall₂.get hz hjr hjl
      simp only [List.get_eq_getElem] at this
      have hw : row[j] = w := by rw [List.getElem?_eq_getElem hjr] at g3; exact Option.some.inj g3
      rw [hw, g4] at this
      have hzx : z[j]? = some x := by rw [List.getElem?_eq_getElem hjl, Option.some.inj this]
      exact ⟨col, v, x, g1, g2, hzx, g5, g6⟩
  choose! fz hfz using hcell
  have hZ : (DF.rowsWithout enc ds.className).mapM (rowNums ops) = .ok ((List.range n).map fz) := by
    rw [mapM_ok_iff, DF.rowsWithout, hnrows, List.forall₂_map_left_iff, List.forall₂_map_right_iff, List.forall₂_same]
    intro i hi
    exact (hfz i (List.mem_range.1 hi)).1
  set Z := (List.range n).map fz with hZd
  have hZmem : ∀ z ∈ Z, ∃ i < n, z = fz i := by
    intro z hz
    obtain ⟨i, hi, rfl⟩ := List.mem_map.1 hz
    exact ⟨i, List.mem_range.1 hi, rfl⟩
  obtain ⟨out, o1, o2, o3, o4, o5⟩ := C95_build_df2explain_partial ops hops bb Z ds ds.className feats hcols hn
    (fun z hz => by obtain ⟨i, hi, rfl⟩ := hZmem z hz; exact (hfz i hi).2.1) hdn hdc hcd htypes
    (fun c hc => (Dict.get?_isSome_iff ds.encoders c).1 ⟨_, (hfcl c hc).1⟩)
    (fun classes hcl z _ => hbb classes hcl z)
    (fun j c hj hc classes hcl z hz x hx => by
      obtain ⟨i, hi, rfl⟩ := hZmem z hz
      obtain ⟨col, v, x', g1, g2, g3, g4, -⟩ := (hfz i hi).2.2 j c hj
      rw [hx] at g3; cases g3
      rw [(hfcl c hc).1] at hcl; cases hcl
      obtain ⟨hm, hxe⟩ := g4 hc
      refine ⟨v, _, hxe, ?_⟩
      have := List.idxOf_lt_length_of_mem hm
      rw [List.getElem?_eq_getElem this, List.getElem_idxOf this])
  refine ⟨out, Z, by simp only [realData, e1, hZ, o1, py_bind_ok]; rfl, by simp [hZd], o2, ?_, o3⟩
  intro c hcf
  obtain ⟨j, hj⟩ := List.getElem?_of_mem hcf
  obtain ⟨col, hcol⟩ := (Dict.get?_isSome_iff dfZ c).2 (hfk c (by simp [hcf]))
  have hcoll := hrect c col hcol
  rw [hcol]
  -- equal values at every position
  have fin : ∀ col', col'.length = n → (∀ i (hi : i < n) v', col'[i]? = some v' → col[i]? = some v') → col' = col := by
    intro col' hl hv
    apply List.ext_getElem? 
    intro i
    by_cases hi : i < n
    · rw [hv i hi (col'[i]'(by omega)) (List.getElem?_eq_getElem _), List.getElem?_eq_getElem]
    · rw [List.getElem?_eq_none (by omega), List.getElem?_eq_none (by omega)]
  have atIdx : ∀ {P : List K → V → Prop} {col' : List V}, List.Forall₂ P Z col' → col'.length = n ∧
      ∀ i (_ : i < n) v', col'[i]? = some v' → P (fz i) v' := by
    intro P col' hP
    have hl : col'.length = n := by rw [← hP.length_eq]; simp [hZd]
    refine ⟨hl, fun i hi v' hv' => ?_⟩
    have hi' : i < Z.length := by simpa [hZd] using hi
    have := List.Forall₂.get hP hi' (by omega)
    simp only [List.get_eq_getElem] at this
    rw [List.getElem?_eq_getElem (by omega)] at hv'
    rw [Option.some.inj hv'] at this
    have hzi : Z[i] = fz i := by simp [hZd]
    rwa [hzi] at this
  by_cases hc : c ∈ ds.discrete
  · obtain ⟨classes, col', h1, h2, h3⟩ := o4 j c hj hc
    rw [h2]
    congr 1
    obtain ⟨hl, hat⟩ := atIdx h3
    apply fin col' hl
    intro i hi v' hv'
    obtain ⟨x, hx, m, hxm, hm⟩ := hat i hi v' hv'
    obtain ⟨col0, v, x', g1, g2, g3, g4, -⟩ := (hfz i hi).2.2 j c hj
    rw [hcol] at g1; cases g1
    rw [hx] at g3; cases g3
    rw [(hfcl c hc).1] at h1; cases h1
    obtain ⟨hvm, hxe⟩ := g4 hc
    rw [hxm] at hxe
    have : m = (fcl c).idxOf v := Nat.cast_injective hxe
    rw [this] at hm
    have hlt := List.idxOf_lt_length_of_mem hvm
    rw [List.getElem?_eq_getElem hlt, List.getElem_idxOf hlt] at hm
    rw [g2, hm]
  · obtain ⟨t, col', h1, h2, h3⟩ := o5 j c hj hc
    rw [h2]
    congr 1
    obtain ⟨hl, hat⟩ := atIdx h3
    apply fin col' hl
    intro i hi v' hv'
    obtain ⟨x, hx, hxe⟩ := hat i hi v' hv'
    obtain ⟨col0, v, x', g1, g2, g3, -, g5⟩ := (hfz i hi).2.2 j c hj
    rw [hcol] at g1; cases g1
    rw [hx] at g3; cases g3
    obtain ⟨hnv, hint⟩ := g5 hc
    rw [g2, hxe]
    by_cases ht : t = .integer
    · subst ht
      rw [if_pos rfl, hint h1, hnv]
    · rw [if_neg ht, hnv]

example : realData ratOps (fun row => row.getD 1 0) gdDf bdFirst
    = .ok ([("cls", [8, 3, 8]), ("age", [30, 50, 40]), ("job", [7, 5, 7])], [[30, 1], [50, 0], [40, 1]]) := by decide +kernel

end Teacher
