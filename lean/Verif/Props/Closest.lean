import Verif.Props.Features

/-! # C84, exactly: which records `get_closest_diffoutcome` selects -/

set_option linter.unusedSectionVars false

namespace Teacher

section
variable {K V : Type} [Field K] [LinearOrder K] [IsStrictOrderedRing K] [LinearOrder V]

/-- Specification: `e` are the `k` nearest positions of `ds` among those with outcome `o` (or all of them if there are less), each once, in
order of non-decreasing distance. -/
structure Spec.NearestOf (ds : List K) (outs : List Bool) (o : Bool) (k : Nat) (e : List Nat) : Prop where
  length : e.length = min k (outs.count o)
  nodup : e.Nodup
  valid : ∀ i ∈ e, i < ds.length ∧ outs[i]? = some o
  sorted : e.Pairwise (fun i j => ∀ a b, ds[i]? = some a → ds[j]? = some b → a ≤ b)
  nearest : ∀ i ∈ e, ∀ j, j ∉ e → outs[j]? = some o → ∀ a b, ds[i]? = some a → ds[j]? = some b → a ≤ b

theorem closestIdx_nearest (argsort : List K → List Nat) (ha : Spec.IsArgsort argsort) (ds : List K) (outs : List Bool)
    (hl : outs.length = ds.length) (o : Bool) (k : Nat) :
    Spec.NearestOf ds outs o k (closestIdx argsort k (withOutcome o (ds.zip outs).zipIdx)) := by
  obtain ⟨l, hldef⟩ : ∃ l, l = withOutcome o (ds.zip outs).zipIdx := ⟨_, rfl⟩
  have hspec := closestIdx_spec argsort ha k l
  have hlen : l.length = outs.count o := by
    rw [hldef, withOutcome_length, List.map_snd_zip]; omega
  have hmem : ∀ d i, (d, i) ∈ l ↔ ds[i]? = some d ∧ outs[i]? = some o := by
    intro d i
    rw [hldef]
    simp only [withOutcome, List.mem_map, List.mem_filter, decide_eq_true_eq, Prod.mk.injEq]
    constructor
    · rintro ⟨⟨⟨d', o'⟩, j⟩, ⟨h1, h2⟩, h3, h4⟩
      rw [List.mem_zipIdx_iff_getElem?] at h1
      simp only at h1 h2 h3 h4
      subst h2; subst h3; subst h4
      exact List.getElem?_zip_eq_some.1 h1
    · intro h
      exact ⟨((d, o), i), ⟨by rw [List.mem_zipIdx_iff_getElem?]; exact List.getElem?_zip_eq_some.2 h, rfl⟩, rfl, rfl⟩
  have hnd : (l.map Prod.snd).Nodup := by
    have : (l.map Prod.snd).Sublist ((ds.zip outs).zipIdx.map Prod.snd) := by
      rw [hldef, withOutcome, List.map_map]
      exact (List.filter_sublist.map Prod.snd)
    refine List.Nodup.sublist this ?_
    have : (ds.zip outs).zipIdx.map Prod.snd = List.range (ds.zip outs).length := by
      simp [List.zipIdx_eq_zip_range', List.map_snd_zip, List.range_eq_range']
    rw [this]
    exact List.nodup_range
  have hsub : ∀ (j : Nat) (p : K × Nat), l[j]? = some p → ds[p.2]? = some p.1 := fun j p h => ((hmem p.1 p.2).1 (List.mem_of_getElem? h)).1
  have hinj : ∀ (j j' : Nat) (p p' : K × Nat), l[j]? = some p → l[j']? = some p' → p.2 = p'.2 → j = j' := by
    intro j j' p p' h h' e
    obtain ⟨q, q'⟩ := List.getElem?_eq_some_iff.1 h
    obtain ⟨w, w'⟩ := List.getElem?_eq_some_iff.1 h'
    refine (List.Nodup.getElem_inj_iff hnd (hi := by simpa using q) (hj := by simpa using w)).1 ?_
    rw [List.getElem_map, List.getElem_map, q', w', e]
  rw [← hldef]
  have hval : ∀ i ∈ closestIdx argsort k l, i < ds.length ∧ outs[i]? = some o := by
    intro i hi
    obtain ⟨⟨d, i'⟩, hm, rfl⟩ := List.mem_map.1 (hspec.2 i hi)
    obtain ⟨q1, q2⟩ := (hmem d i').1 hm
    exact ⟨(List.getElem?_eq_some_iff.1 q1).1, q2⟩
  obtain ⟨h1, h2, h3, h4, h5⟩ := ha.take (l.map Prod.fst) k
  have hcl : closestIdx argsort k l = ((argsort (l.map Prod.fst)).take k).filterMap (fun j => (l[j]?).map Prod.snd) := by
    simp only [closestIdx, pyTake_nat]
  refine ⟨by rw [hspec.1, hlen], ?_, hval, ?_, ?_⟩
  · rw [hcl]
    refine List.Nodup.filterMap ?_ h2
    intro j j' i hj hj'
    simp only [Option.mem_def, Option.map_eq_some_iff] at hj hj'
    obtain ⟨p, e1, e2⟩ := hj
    obtain ⟨p', e1', e2'⟩ := hj'
    exact hinj j j' p p' e1 e1' (e2.trans e2'.symm)
  · rw [hcl, List.pairwise_filterMap]
    refine h4.imp ?_
    intro j j' hjj i hi i' hi' a b hda hdb
    simp only [Option.map_eq_some_iff] at hi hi'
    obtain ⟨p, e1, rfl⟩ := hi
    obtain ⟨p', e1', rfl⟩ := hi'
    rw [hsub j p e1] at hda
    rw [hsub j' p' e1'] at hdb
    cases hda
    cases hdb
    exact hjj p.1 p'.1 (by rw [List.getElem?_map, e1]; rfl) (by rw [List.getElem?_map, e1']; rfl)
  · intro i hi i' hi' ho a b hda hdb
    rw [hcl] at hi hi'
    obtain ⟨j, hj, hji⟩ := List.mem_filterMap.1 hi
    obtain ⟨p, e1, rfl⟩ := Option.map_eq_some_iff.1 hji
    obtain ⟨j', hj'⟩ := List.mem_iff_getElem?.1 ((hmem b i').2 ⟨hdb, ho⟩)
    rw [hsub j p e1] at hda
    cases hda
    refine h5 j hj j' (fun hc => hi' ?_) p.1 b (by rw [List.getElem?_map, e1]; rfl) (by rw [List.getElem?_map, hj']; rfl)
    exact List.mem_filterMap.2 ⟨j', hc, by rw [hj']; rfl⟩

/-- with different distances, a record among the `k` nearest that has the outcome is among the `k` nearest with that outcome. -/
theorem near_with_outcome (ds : List K) (hdist : ds.Nodup) (outs : List Bool) (o : Bool) (k : Nat) (near e : List Nat)
    (hl : outs.length = ds.length) (hn : Spec.IsKNearest ds k near) (he : Spec.NearestOf ds outs o k e) (i : Nat) (hi : i ∈ near)
    (ho : outs[i]? = some o) : i ∈ e := by
  by_contra hie
  have hil := hn.valid i hi
  have hlt : ∀ j ∈ e, j ∈ near := by
    intro j hj
    by_contra hjn
    have hjl := (he.valid j hj).1
    have q1 := he.nearest j hj i hie ho _ _ (List.getElem?_eq_getElem hjl) (List.getElem?_eq_getElem hil)
    have q2 := hn.nearest i hi j hjn _ _ (List.getElem?_eq_getElem hil) (List.getElem?_eq_getElem hjl)
    have := (List.Nodup.getElem_inj_iff hdist).1 (le_antisymm q1 q2)
    subst this
    exact hie hj
  have hsp : (i :: e).length ≤ near.length := by
    apply List.Subperm.length_le
    apply List.subperm_of_subset
    · exact List.nodup_cons.2 ⟨hie, he.nodup⟩
    · intro j hj
      rcases List.mem_cons.1 hj with rfl | hj
      · exact hi
      · exact hlt j hj
  have hcnt : (i :: e).length ≤ outs.count o := by
    have h1 : (i :: e).length ≤ ((List.range outs.length).filter (fun j => outs[j]? = some o)).length := by
      apply List.Subperm.length_le
      apply List.subperm_of_subset
      · exact List.nodup_cons.2 ⟨hie, he.nodup⟩
      · intro j hj
        rw [List.mem_filter]
        rcases List.mem_cons.1 hj with rfl | hj
        · exact ⟨by rw [List.mem_range, hl]; exact hil, by simpa using ho⟩
        · obtain ⟨q1, q2⟩ := he.valid j hj
          exact ⟨by rw [List.mem_range, hl]; exact q1, by simpa using q2⟩
    refine h1.trans (le_of_eq ?_)
    rw [← List.countP_eq_length_filter, List.count]
    have e2 : outs = (List.range outs.length).map (fun j => outs.getD j false) := by
      apply List.ext_getElem
      · simp
      · intro n h1 h2; simp [List.getD_eq_getElem?_getD, h1]
    conv_rhs => rw [e2, List.countP_map]
    apply List.countP_congr
    intro j hj
    have hj' : j < outs.length := List.mem_range.1 hj
    simp [List.getD_eq_getElem?_getD, hj']
  have hnl := hn.length
  have hel := he.length
  simp only [List.length_cons] at hsp hcnt
  omega

/-- **C84**, exactly, when no two records are at the same distance: the result is the list of the `k` nearest records, except that
when less than a part `ratio` of them has outcome 0 its last `int(k·ratio)` places are given to the nearest records with outcome 0, and otherwise,
when *none* of them has outcome 1, to the nearest records with outcome 1. -/
theorem C84_exact_partial (ops : CellOps K V) (ht : Spec.IsTrunc ops.toInt) (argsort : List K → List Nat) (ha : Spec.IsArgsort argsort)
    (dist : Dict String V → Py K) (bb0 : List V → Bool) (df : DF V) (discrete : List String) (className : String)
    (les : Dict String (List V)) (k : Nat) (ratio : K) (h0 : 0 < ratio) (h1 : ratio ≤ 1) (Z : DF V) (ds : List K)
    (hZ : encodeWith ops les discrete df = .ok Z) (hds : List.Forall₂ (fun z d => dist z = .ok d) (DF.records df) ds)
    (hne : ds ≠ []) (hk : 0 < k) (hdist : ds.Nodup) :
    ∃ near near0 near1 r, getClosestDiff ops argsort dist bb0 df discrete className les k ratio = .ok r ∧
      Spec.IsKNearest ds k near ∧ Spec.NearestOf ds ((DF.rowsWithout Z className).map bb0) true k near0 ∧
      Spec.NearestOf ds ((DF.rowsWithout Z className).map bb0) false k near1 ∧
      let out := fun i : Nat => ((DF.rowsWithout Z className)[i]?).map bb0
      let m := (ops.toInt ((k : K) * ratio)).toNat
      ((((near.filter (fun i => out i = some true)).length : Nat) : K) < ratio * (near.length : K) → r = near.take (k - m) ++ near0.take m) ∧
      (ratio * (near.length : K) ≤ (((near.filter (fun i => out i = some true)).length : Nat) : K) → (∀ i ∈ near, out i ≠ some false) →
        r = near.take (k - m) ++ near1.take m) ∧
      (ratio * (near.length : K) ≤ (((near.filter (fun i => out i = some true)).length : Nat) : K) → (∃ i ∈ near, out i = some false) →
        r = near) := by
  have hlen : (DF.records df).length = ds.length := hds.length_eq
  have hnear := ha.take ds k
  have hol : ((DF.rowsWithout Z className).map bb0).length = ds.length := by
    rw [← hlen]; simp [DF.rowsWithout, DF.records, encodeWith_nrows ops les discrete df Z hZ]
  obtain ⟨outs, houts⟩ : ∃ outs, outs = (DF.rowsWithout Z className).map bb0 := ⟨_, rfl⟩
  have hout : ∀ i : Nat, ((DF.rowsWithout Z className)[i]?).map bb0 = outs[i]? := by
    intro i; rw [houts, List.getElem?_map]
  rw [← houts] at hol
  have hn0 := closestIdx_nearest argsort ha ds outs hol true k
  have hn1 := closestIdx_nearest argsort ha ds outs hol false k
  obtain ⟨m, hm, hmk⟩ := toInt_bound ops.toInt ht k ratio h0.le h1
  have hm' : (ops.toInt ((k : K) * ratio)).toNat = m := by
    rw [← Int.cast_natCast (R := K) k, hm]; rfl
  have hsub : ((k : Int) - (m : Int)) = ((k - m : Nat) : Int) := by omega
  obtain ⟨near, hnd⟩ : ∃ near, near = (argsort ds).take k := ⟨_, rfl⟩
  rw [← hnd] at hnear
  have hcount : ∀ o e, Spec.NearestOf ds outs o k e →
      (near.dedup.filter (fun i => i ∈ e)).length = (near.filter (fun i => outs[i]? = some o)).length := by
    intro o e he
    rw [hnear.nodup.dedup]
    congr 1
    apply List.filter_congr
    intro i hi
    have : i ∈ e ↔ outs[i]? = some o := ⟨fun h => (he.valid i h).2, near_with_outcome ds hdist outs o k near e hol hnear he i hi⟩
    simp [this]
  have hpos : (0 : K) < (near.length : K) := by
    have : 0 < near.length := by
      rw [hnear.length]
      have := List.length_pos_of_ne_nil hne
      omega
    exact_mod_cast this
  have hval : getClosestDiff ops argsort dist bb0 df discrete className les k ratio =
      if (((near.filter (fun i => outs[i]? = some true)).length : Nat) : K) < ratio * (near.length : K) then
        .ok (near.take (k - m) ++ (closestIdx argsort k (withOutcome true (ds.zip outs).zipIdx)).take m)
      else if (((near.filter (fun i => outs[i]? = some false)).length : Nat) : K) < ratio then
        .ok (near.take (k - m) ++ (closestIdx argsort k (withOutcome false (ds.zip outs).zipIdx)).take m)
      else .ok near := by
    simp only [getClosestDiff, hZ, (mapM_ok_iff _ _ _).2 hds, py_bind_ok, pyTake_nat, ← houts, ← hnd, chooseIdx, pyDiv, if_neg hpos.ne',
      hcount true _ hn0, hcount false _ hn1, div_lt_iff₀ hpos, hm, hsub, py_pure]
  obtain ⟨r, hr⟩ : ∃ r, getClosestDiff ops argsort dist bb0 df discrete className les k ratio = .ok r := by
    rw [hval]
    split_ifs <;> exact ⟨_, rfl⟩
  refine ⟨near, _, _, r, hr, hnear, by rw [← houts]; exact hn0, by rw [← houts]; exact hn1, ?_⟩
  simp only [hout, hm']
  rw [hval] at hr
  have hz : (((near.filter (fun i => outs[i]? = some false)).length : Nat) : K) < ratio ↔ ∀ i ∈ near, outs[i]? ≠ some false := by
    constructor
    · intro h i hi hc
      have : 1 ≤ (near.filter (fun i => outs[i]? = some false)).length := List.length_pos_of_mem (List.mem_filter.2 ⟨hi, by simpa using hc⟩)
      have : (1 : K) ≤ (((near.filter (fun i => outs[i]? = some false)).length : Nat) : K) := by exact_mod_cast this
      exact absurd (lt_of_lt_of_le h h1) (not_lt.2 this)
    · intro h
      have : near.filter (fun i => outs[i]? = some false) = [] := by
        rw [List.filter_eq_nil_iff]
        intro i hi
        simpa using h i hi
      rw [this]
      simpa using h0
  refine ⟨fun h => ?_, fun h hx => ?_, fun h ⟨i, hi, hx⟩ => ?_⟩
  · rw [if_pos h] at hr
    exact (Except.ok.inj hr).symm
  · rw [if_neg (not_lt.2 h), if_pos (hz.2 hx)] at hr
    exact (Except.ok.inj hr).symm
  · rw [if_neg (not_lt.2 h), if_neg (fun hc => hz.1 hc i hi hx)] at hr
    exact (Except.ok.inj hr).symm

end

example : ([1, 2, 3, 4] : List ℚ).Nodup ∧ getClosestDiff ratOps argsortIns clDist (fun row => decide (row.headD 0 ≤ 3))
    [("b", [1, 2, 3, 4]), ("cls", [0, 0, 0, 0])] [] "cls" [] ((3 : Nat) : Int) (1 / 2) = .ok [0, 1, 3] := by decide +kernel

end Teacher
