import Verif.Spec.ID3
import Verif.Lemmas.Basic
import Verif.Lemmas.FDTFit

/-! Lemmas about the ID3 model: the shape of a fitted tree (`IFitted`). -/

namespace Teacher
set_option linter.unusedSectionVars false

variable {V C K : Type} [Field K] [LinearOrder K] [IsStrictOrderedRing K] [DecidableEq V] [DecidableEq C]

theorem Dict.mem_of_get?_ofPairs {κ ν : Type} [DecidableEq κ] {l : List (κ × ν)} {k : κ} {v : ν}
    (h : Dict.get? (Dict.ofPairs l) k = some v) : (k, v) ∈ l := by
  unfold Dict.ofPairs at h
  rw [Dict.foldl_set_get?] at h
  cases hf : l.reverse.find? (fun p => p.1 = k) with
  | none => rw [hf] at h; simp [Dict.get?] at h
  | some p =>
    rw [hf] at h
    have h1 := List.mem_of_find?_eq_some hf
    have h2 := List.find?_some hf
    simp only [Option.some.injEq] at h
    simp only [decide_eq_true_eq] at h2
    rw [← h, ← h2]
    simpa using h1

theorem featuresDic_get {features : List String} {f : String} {i : Nat} (h : Dict.get? (featuresDic features) f = some i) :
    features[i]? = some f := by
  have := Dict.mem_of_get?_ofPairs h
  rwa [List.mem_zipIdx_iff_getElem?] at this

theorem featuresDic_isSome {features : List String} {f : String} (h : f ∈ features) : ∃ i, Dict.get? (featuresDic features) f = some i := by
  rw [Dict.get?_isSome_iff]
  unfold featuresDic
  rw [Dict.mem_keys_ofPairs]
  simpa using h

/-! ## the majority class -/

theorem mode_of_pyMax {ordC : List C → List C} (hord : Spec.IsSetListing ordC) {rows : IRows V C} {cv : C} {cnt : Nat}
    (h : pyMax (fun q : C × Nat => q.2) (classCounts ordC rows) = .ok (cv, cnt)) :
    Spec.IsMode (rows.map Prod.snd) cv ∧ cnt = (rows.map Prod.snd).count cv := by
  obtain ⟨h1, h2, -⟩ := pyMax_eq_ok _ _ _ h
  simp only [classCounts, List.mem_map, Prod.mk.injEq, (hord _).mem_iff, List.mem_dedup] at h1
  obtain ⟨c, ⟨r, hr, rfl⟩, rfl, rfl⟩ := h1
  refine ⟨⟨List.mem_map_of_mem hr, fun c' => ?_⟩, rfl⟩
  by_cases hc : c' ∈ rows.map Prod.snd
  · refine h2 (c', (rows.map Prod.snd).count c') ?_
    simp only [classCounts, List.mem_map, Prod.mk.injEq]
    exact ⟨c', by rw [(hord _).mem_iff, List.mem_dedup]; exact hc, rfl, rfl⟩
  · rw [List.count_eq_zero_of_not_mem hc]; exact Nat.zero_le _

theorem pyMax_classCounts {ordC : List C → List C} (hord : Spec.IsSetListing ordC) {rows : IRows V C} (hne : rows ≠ []) :
    ∃ q, pyMax (fun q : C × Nat => q.2) (classCounts ordC rows) = .ok q := by
  apply pyMax_ok_of_ne_nil
  obtain ⟨r, rs, rfl⟩ := List.exists_cons_of_ne_nil hne
  intro h
  have : r.2 ∈ ordC ((r :: rs).map Prod.snd) := by rw [(hord _).mem_iff, List.mem_dedup]; simp
  simp only [classCounts, List.map_eq_nil_iff] at h
  rw [h] at this
  cases this

/-! ## the best feature -/

/-- feature `ft`, number `i`, has data `col`, splits `s` and gain `g`. -/
def FeatGain (gain : List V → List C → List V → K) (features : List String) (fs : List (List V)) (rows : IRows V C)
    (ft : String) (i : Nat) (col s : List V) (g : K) : Prop :=
  Dict.get? (featuresDic features) ft = some i ∧ column (rows.map Prod.fst) i = .ok col ∧ fs[i]? = some s ∧
    g = gain col (rows.map Prod.snd) s

theorem id3Best_spec (gain : List V → List C → List V → K) (features : List String) (fs : List (List V)) (rows : IRows V C)
    (fts : List String) (best r : Option Nat × List V × K) (h : id3Best gain features fs rows best fts = .ok r) :
    best.2.2 ≤ r.2.2 ∧ (∀ ft ∈ fts, ∃ i col s g, FeatGain gain features fs rows ft i col s g ∧ g ≤ r.2.2) ∧
    (r = best ∨ ∃ ft ∈ fts, ∃ i col s g, FeatGain gain features fs rows ft i col s g ∧ r = (some i, s, g) ∧ best.2.2 < g) := by
  induction fts generalizing best with
  | nil =>
    simp only [id3Best, Except.ok.injEq] at h
    subst h
    exact ⟨le_refl _, by simp, .inl rfl⟩
  | cons ft fts ih =>
    simp only [id3Best] at h
    obtain ⟨i, hi, h⟩ := py_bind_eq_ok.1 h
    obtain ⟨col, hcol, h⟩ := py_bind_eq_ok.1 h
    obtain ⟨s, hs, h⟩ := py_bind_eq_ok.1 h
    rw [Dict.get_eq_ok_iff] at hi
    have hs' : fs[i]? = some s := by
      split at hs
      · rename_i s' he; rw [he]; exact congrArg some (Except.ok.inj hs)
      · cases hs
    have hF : FeatGain gain features fs rows ft i col s (gain col (rows.map Prod.snd) s) := ⟨hi, hcol, hs', rfl⟩
    obtain ⟨h1, h2, h3⟩ := ih _ h
    by_cases hlt : best.2.2 < gain col (rows.map Prod.snd) s
    · simp only [hlt, if_true] at h1 h3
      refine ⟨le_of_lt (lt_of_lt_of_le hlt h1), ?_, ?_⟩
      · intro ft' hft'
        rcases List.mem_cons.1 hft' with rfl | hft'
        · exact ⟨i, col, s, _, hF, h1⟩
        · exact h2 ft' hft'
      · right
        rcases h3 with rfl | ⟨ft', hft', i', col', s', g', hF', hr, hlt'⟩
        · exact ⟨ft, by simp, i, col, s, _, hF, rfl, hlt⟩
        · exact ⟨ft', by simp [hft'], i', col', s', g', hF', hr, lt_trans hlt hlt'⟩
    · simp only [hlt, if_false] at h1 h3
      refine ⟨h1, ?_, ?_⟩
      · intro ft' hft'
        rcases List.mem_cons.1 hft' with rfl | hft'
        · exact ⟨i, col, s, _, hF, le_trans (not_lt.1 hlt) h1⟩
        · exact h2 ft' hft'
      · rcases h3 with rfl | ⟨ft', hft', i', col', s', g', hF', hr, hlt'⟩
        · exact .inl rfl
        · exact .inr ⟨ft', by simp [hft'], i', col', s', g', hF', hr, hlt'⟩

/-- `id3Best` succeeds when every feature has an index, data and splits. -/
theorem id3Best_total (gain : List V → List C → List V → K) (features : List String) (fs : List (List V)) (rows : IRows V C)
    (hfs : features.length ≤ fs.length) (hw : Spec.Wide rows features.length)
    (fts : List String) (hft : ∀ f ∈ fts, f ∈ features) (best : Option Nat × List V × K) :
    ∃ r, id3Best gain features fs rows best fts = .ok r := by
  induction fts generalizing best with
  | nil => exact ⟨_, rfl⟩
  | cons ft fts ih =>
    obtain ⟨i, hi⟩ := featuresDic_isSome (hft ft (by simp))
    have hil : i < features.length := (List.getElem?_eq_some_iff.1 (featuresDic_get hi)).1
    have hcol : ∃ col, column (rows.map Prod.fst) i = .ok col := by
      obtain ⟨bs, hbs⟩ := forall₂_of_forall_exists (fun (r : List V) (v : V) => r[i]? = some v) (rows.map Prod.fst) (by
        intro r hr
        obtain ⟨q, hq, rfl⟩ := List.mem_map.1 hr
        exact ⟨_, List.getElem?_eq_getElem (lt_of_lt_of_le hil (hw q hq))⟩)
      exact ⟨bs, (column_eq_ok_iff _ _ _).2 hbs⟩
    obtain ⟨col, hcol⟩ := hcol
    have hs : fs[i]? = some fs[i] := List.getElem?_eq_getElem (by omega)
    simp only [id3Best, Dict.get_eq_ok_iff.2 hi, py_bind_ok, hcol, hs]
    exact ih (fun f hf => hft f (by simp [hf])) _

/-! ## the shape of a fitted tree -/

/-- the leaf made for a value that no row of the node has (tree/id3_tree.py:209-216). -/
def emptyLeaf (cv : C) (depth : Nat) : INode V C K := .mk true none [] (some cv) (0, 0) (depth + 1) 0 1

/-- `IFitted depth erased rows t`: `t` is a result of `_partial_fit` at that depth, after erasing those features, on those rows;
`nl0` is the attribute `num_leaf` of the root before fitting. -/
inductive IFitted (gain : List V → List C → List V → K) (p : ID3Params K) (fs : List (List V)) (nl0 : Nat) :
    Nat → List String → IRows V C → INode V C K → Prop where
  | leaf (depth erased rows t cv) (hm : Spec.IsMode (rows.map Prod.snd) cv) :
      IFitted gain p fs nl0 depth erased rows (id3Leaf t cv ((rows.map Prod.snd).count cv) rows.length depth)
  | dead (depth erased rows cv nl) (hm : Spec.IsMode (rows.map Prod.snd) cv) (hd : depth < p.maxDepth)
      (hg : ∀ f ∈ p.features, f ∉ erased → ∃ i col s g, FeatGain gain p.features fs rows f i col s g ∧ g ≤ -1)
      (hnp : p.prunning = false ∨ p.th ≤ 0 ∨ depth = 0) (hne : p.features ≠ []) :
      IFitted gain p fs nl0 depth erased rows
        (.mk false none [] (some cv) (rows.length, (rows.map Prod.snd).count cv) depth 0 nl)
  | split (depth erased rows cv) (nl : Nat) (i name col splits g) (branches : List (V × INode V C K))
      (hm : Spec.IsMode (rows.map Prod.snd) cv) (hd : depth < p.maxDepth) (hn : p.minNumExamples ≤ rows.length)
      (hname : name ∈ p.features) (her : name ∉ erased) (hg : FeatGain gain p.features fs rows name i col splits g)
      (hmax : ∀ f ∈ p.features, f ∉ erased → ∃ i' col' s' g', FeatGain gain p.features fs rows f i' col' s' g' ∧ g' ≤ g)
      (hprune : p.prunning = true → p.th ≤ ((1 - ((rows.map Prod.snd).count cv : K) / (rows.length : K))
        - (branches.map (fun b => if rowsWhere rows i b.1 = [] then 0
            else b.2.error * (((rowsWhere rows i b.1).length : K) / (rows.length : K)))).sum) / ((nl : K) - 1))
      (hnl : nl = (if depth = 0 then nl0 else 0) + branches.length)
      (hnz : p.prunning = true → nl ≠ 1)
      (hkeys : branches.map Prod.fst = splits)
      (hempty : ∀ s t, (s, t) ∈ branches → rowsWhere rows i s = [] → t = emptyLeaf cv depth)
      (hrec : ∀ s t, (s, t) ∈ branches → rowsWhere rows i s ≠ [] → IFitted gain p fs nl0 (depth + 1) (erased ++ [name])
        (rowsWhere rows i s) t) :
      IFitted gain p fs nl0 depth erased rows
        (.mk false (some i) branches (some cv) (rows.length, (rows.map Prod.snd).count cv) depth
          (branches.map (fun b => if rowsWhere rows i b.1 = [] then 0
            else b.2.error * (((rowsWhere rows i b.1).length : K) / (rows.length : K)))).sum nl)

theorem id3Child_eq_ok {rec : IRows V C → INode V C K → Py (INode V C K)} {rows : IRows V C} {var : Nat} {cv : C} {depth : Nat}
    {s : V} {r : (V × INode V C K) × K} (h : id3Child rec rows var cv depth s = .ok r) :
    r.1.1 = s ∧ (rowsWhere rows var s = [] → r.1.2 = emptyLeaf cv depth ∧ r.2 = 0) ∧
    (rowsWhere rows var s ≠ [] → rec (rowsWhere rows var s) .fresh = .ok r.1.2 ∧
      r.2 = r.1.2.error * (((rowsWhere rows var s).length : K) / (rows.length : K))) := by
  unfold id3Child at h
  simp only at h
  split at h
  · rename_i hne
    obtain ⟨c, hc, h⟩ := py_bind_eq_ok.1 h
    cases h
    exact ⟨rfl, fun h => absurd h hne, fun _ => ⟨hc, rfl⟩⟩
  · rename_i he
    cases h
    exact ⟨rfl, fun _ => ⟨rfl, rfl⟩, fun h => absurd h he⟩

theorem id3Prune_eq_ok {p : ID3Params K} {en : K} {t t' : INode V C K} {cv : C} {cnt n depth : Nat}
    (h : id3Prune p en t cv cnt n depth = .ok t') :
    t' = id3Leaf t cv cnt n depth ∨ (t' = t ∧ (p.prunning = true → p.th ≤ (en - t.error) / ((t.numLeaf : K) - 1)) ∧
      (p.prunning = true → t.numLeaf ≠ 1)) := by
  unfold id3Prune at h
  by_cases hp : p.prunning = true
  · rw [if_pos hp] at h
    by_cases h1 : (t.numLeaf : K) - 1 = 0
    · rw [if_pos h1] at h; cases h
    rw [if_neg h1] at h
    by_cases h2 : (en - t.error) / ((t.numLeaf : K) - 1) < p.th
    · rw [if_pos h2] at h; cases h; exact .inl rfl
    · rw [if_neg h2] at h; cases h; exact .inr ⟨rfl, fun _ => not_lt.1 h2, fun _ h => h1 (by rw [h]; simp)⟩
  · rw [if_neg hp] at h
    cases h
    exact .inr ⟨rfl, fun h => absurd h hp, fun h => absurd h hp⟩

theorem id3PartialFit_spec {gain : List V → List C → List V → K} {ordC : List C → List C} {ordF : List String → List String}
    (hC : Spec.IsSetListing ordC) (hF : Spec.IsArrangement ordF) {p : ID3Params K} {fs : List (List V)} {yClasses : List C}
    (fuel : Nat) (rows : IRows V C) (t t' : INode V C K) (depth : Nat) (erased : List String) (hne : rows ≠ [])
    (nl0 : Nat) (hnl : t.numLeaf = if depth = 0 then nl0 else 0)
    (h : id3PartialFit gain ordC ordF p fs yClasses fuel rows t depth erased = .ok t') :
    IFitted gain p fs nl0 depth erased rows t' := by
  induction fuel generalizing rows t t' depth erased with
  | zero => simp [id3PartialFit] at h
  | succ fuel ih =>
    simp only [id3PartialFit] at h
    obtain ⟨⟨cv, cnt⟩, hq⟩ := pyMax_classCounts hC hne
    rw [hq] at h
    simp only at h
    obtain ⟨hm, rfl⟩ := mode_of_pyMax hC hq
    by_cases hd : p.maxDepth ≤ depth
    · rw [if_pos hd] at h
      cases h
      exact .leaf _ _ _ _ _ hm
    rw [if_neg hd] at h
    by_cases hmin : rows.length < p.minNumExamples
    · rw [if_pos hmin] at h
      cases h
      exact .leaf _ _ _ _ _ hm
    rw [if_neg hmin] at h
    generalize t.numLeaf = nl1 at h hnl
    obtain ⟨best, hb, hA⟩ := py_bind_eq_ok.1 h
    clear h
    obtain ⟨name, hname, hB⟩ := py_bind_eq_ok.1 hA
    clear hA
    obtain ⟨cs, hcs, h⟩ := py_bind_eq_ok.1 hB
    clear hB
    have hmem : ∀ f, f ∈ ordF ((p.features.filter (fun f => f ∉ erased)).dedup) ↔ f ∈ p.features ∧ f ∉ erased := by
      intro f; rw [(hF _).mem_iff, List.mem_dedup, List.mem_filter]; simp
    obtain ⟨-, hall, hbest⟩ := id3Best_spec _ _ _ _ _ _ _ hb
    rcases hbest with rfl | ⟨ft, hft, i, col, s, g, hFG, rfl, -⟩
    · -- no feature left
      simp only [List.mapM_nil, py_pure, Except.ok.injEq] at hcs
      subst hcs
      have hcv1 : ((rows.map Prod.snd).count cv : K) / (rows.length : K) ≤ 1 := by
        apply div_le_one_of_le₀
        · have := List.count_le_length (a := cv) (l := rows.map Prod.snd)
          rw [List.length_map] at this
          exact_mod_cast this
        · exact Nat.cast_nonneg _
      have hdead : ∀ (hnp : p.prunning = false ∨ p.th ≤ 0 ∨ depth = 0),
          IFitted gain p fs nl0 depth erased rows
            (.mk false none [] (some cv) (rows.length, (rows.map Prod.snd).count cv) depth 0 nl1) := by
        intro hnp
        refine .dead _ _ _ _ _ hm (by omega) ?_ hnp ?_
        · intro f hf he
          exact hall f ((hmem f).2 ⟨hf, he⟩)
        · intro hnil
          simp [erasedName, hnil] at hname
      rcases id3Prune_eq_ok h with rfl | ⟨rfl, h2, hnz⟩
      · exact .leaf _ _ _ _ _ hm
      · apply hdead
        by_cases hp : p.prunning = true
        · by_cases h0 : depth = 0
          · exact .inr (.inr h0)
          · right; left
            rw [if_neg h0] at hnl
            have h2 := h2 hp
            simp only [INode.numLeaf, INode.error, List.map_nil, List.sum_nil, List.length_nil, Nat.add_zero, sub_zero, hnl,
              Nat.cast_zero, zero_sub, div_neg, div_one] at h2
            linarith
        · exact .inl (by simpa using hp)
    · -- a split
      obtain ⟨hft1, hft2⟩ := (hmem ft).1 hft
      have hnm : name = ft := by
        have := featuresDic_get hFG.1
        simp only [erasedName, this, Except.ok.injEq] at hname
        exact hname.symm
      subst hnm
      simp only [Option.getD_some] at hcs
      rw [mapM_ok_iff] at hcs
      have hkeys : (cs.map Prod.fst).map Prod.fst = s := by
        rw [List.map_map]
        have := forall₂_map_eq (f := id) (g := fun r : (V × INode V C K) × K => r.1.1) hcs (fun a b h => (id3Child_eq_ok h).1)
        rw [List.map_id] at this
        exact this
      have hsnd : cs.map Prod.snd = (cs.map Prod.fst).map (fun b => if rowsWhere rows i b.1 = [] then 0
            else b.2.error * (((rowsWhere rows i b.1).length : K) / (rows.length : K))) := by
        rw [List.map_map]
        apply List.map_congr_left
        intro r hr
        obtain ⟨a, -, ha⟩ := forall₂_mem_right hcs r hr
        obtain ⟨e1, e2, e3⟩ := id3Child_eq_ok ha
        simp only [Function.comp_apply, e1]
        split
        · rename_i he; exact (e2 he).2
        · rename_i he; exact (e3 he).2
      have hsplit : ∀ (_ : p.prunning = true → nl1 + cs.length ≠ 1) (hprune : p.prunning = true → p.th ≤ ((1 - ((rows.map Prod.snd).count cv : K) / (rows.length : K))
            - (cs.map Prod.snd).sum) / (((nl1 + cs.length : Nat) : K) - 1)),
          IFitted gain p fs nl0 depth erased rows
          (.mk false (some i) (cs.map Prod.fst) (some cv) (rows.length, (rows.map Prod.snd).count cv) depth (cs.map Prod.snd).sum
            (nl1 + cs.length)) := by
        intro hnz hprune
        rw [hsnd] at hprune ⊢
        refine .split depth erased rows cv _ i name col s g _ hm (by omega) (by omega) hft1 hft2 hFG ?_ hprune (by rw [hnl, List.length_map]) hnz hkeys ?_ ?_
        · intro f hf he
          exact hall f ((hmem f).2 ⟨hf, he⟩)
        · intro s' t'' hst he
          obtain ⟨r, hr, hre⟩ := List.mem_map.1 hst
          obtain ⟨a, -, ha⟩ := forall₂_mem_right hcs r hr
          obtain ⟨e1, e2, e3⟩ := id3Child_eq_ok ha
          rw [hre] at e1 e2
          simp only at e1 e2
          subst e1
          exact (e2 he).1
        · intro s' t'' hst he
          obtain ⟨r, hr, hre⟩ := List.mem_map.1 hst
          obtain ⟨a, -, ha⟩ := forall₂_mem_right hcs r hr
          obtain ⟨e1, e2, e3⟩ := id3Child_eq_ok ha
          rw [hre] at e1 e3
          simp only at e1 e3
          subst e1
          exact ih _ _ _ _ _ he (by simp [INode.fresh, INode.numLeaf]) (e3 he).1
      rcases id3Prune_eq_ok h with rfl | ⟨rfl, h2, hnz⟩
      · exact .leaf _ _ _ _ _ hm
      · exact hsplit hnz h2

end Teacher

namespace Teacher
set_option linter.unusedSectionVars false

variable {V C K : Type} [Field K] [LinearOrder K] [IsStrictOrderedRing K] [DecidableEq V] [DecidableEq C]

/-! ## prediction in a list of branches -/

theorem predictBranches_mem {x : List V} {i : Nat} {v : V} (hv : x[i]? = some v) :
    ∀ (bs : List (V × INode V C K)) (t : INode V C K), (bs.map Prod.fst).Nodup → (v, t) ∈ bs →
      predictBranches x (some i) bs = t.predict x
  | [], _, _, h => by cases h
  | (s, t') :: rest, t, hn, h => by
    simp only [List.map_cons, List.nodup_cons] at hn
    simp only [predictBranches, Option.bind_some, hv]
    rcases List.mem_cons.1 h with h | h
    · cases h; simp
    · have : v ≠ s := by
        intro hvs
        exact hn.1 (hvs ▸ List.mem_map_of_mem (f := Prod.fst) (by assumption))
      rw [if_neg this]
      exact predictBranches_mem hv rest t hn.2 h

theorem predictBranches_not_mem {x : List V} {i : Nat} {v : V} (hv : x[i]? = some v) :
    ∀ (bs : List (V × INode V C K)), v ∉ bs.map Prod.fst → predictBranches x (some i) bs = .ok .noneVal
  | [], _ => rfl
  | (s, t') :: rest, hn => by
    simp only [List.map_cons, List.mem_cons, not_or] at hn
    simp only [predictBranches, Option.bind_some, hv, if_neg hn.1]
    exact predictBranches_not_mem hv rest hn.2

/-! ## rows of a split -/

theorem mem_rowsWhere {rows : IRows V C} {i : Nat} {s : V} {r : List V × C} :
    r ∈ rowsWhere rows i s ↔ r ∈ rows ∧ r.1[i]? = some s := by
  simp [rowsWhere]

theorem countP_rowsWhere (q : List V × C → Bool) (i : Nat) (splits : List V) (hn : splits.Nodup) (rows : IRows V C)
    (h : ∀ r ∈ rows, ∃ v ∈ splits, r.1[i]? = some v) :
    rows.countP q = (splits.map (fun s => (rowsWhere rows i s).countP q)).sum := by
  induction rows with
  | nil =>
    have : ∀ s, (rowsWhere ([] : IRows V C) i s).countP q = 0 := fun s => rfl
    simp [this]
  | cons r rows ih =>
    obtain ⟨v, hv, hr⟩ := h r (by simp)
    have ih := ih (fun r' hr' => h r' (by simp [hr']))
    have hstep : ∀ s, (rowsWhere (r :: rows) i s).countP q = (rowsWhere rows i s).countP q + (if s = v then (if q r then 1 else 0) else 0) := by
      intro s
      by_cases hs : s = v
      · subst hs
        simp [rowsWhere, hr, List.countP_cons]
      · have : ¬ (some v = some s) := fun h => hs (Option.some.inj h).symm
        simp only [rowsWhere, List.filter_cons, hr, this, decide_false]
        simp [hs]
    have hsum : ∀ (l : List V), l.Nodup → (l.map (fun s => if s = v then (if q r then 1 else 0) else 0)).sum
        = if v ∈ l then (if q r then 1 else 0) else 0 := by
      intro l
      induction l with
      | nil => simp
      | cons a l ihl =>
        intro hl
        rw [List.nodup_cons] at hl
        rw [List.map_cons, List.sum_cons, ihl hl.2]
        by_cases ha : a = v
        · subst ha; simp [hl.1]
        · have : v ≠ a := fun h => ha h.symm
          simp [ha, this]
    rw [List.countP_cons, ih]
    simp only [hstep]
    rw [List.sum_map_add, hsum splits hn, if_pos hv]

/-! ## what `fit` passes to `_partial_fit` -/

/-- `fs` are the values of the columns of the training rows `rows0`. -/
structure ISetup (p : ID3Params K) (fs : List (List V)) (rows0 : IRows V C) : Prop where
  len : fs.length = p.features.length
  wide : Spec.Wide rows0 p.features.length
  nodup : ∀ (i : Nat) (s : List V), fs[i]? = some s → s.Nodup
  mem : ∀ (i : Nat) (s : List V), fs[i]? = some s → ∀ v, v ∈ s ↔ ∃ r ∈ rows0, r.1[i]? = some v

/-! ## trees without dead ends -/

/-- as `IFitted`, without dead ends and without what the choice of the feature says. -/
inductive ITree (p : ID3Params K) (fs : List (List V)) : Nat → IRows V C → INode V C K → Prop where
  | leaf (depth rows t cv) (hm : Spec.IsMode (rows.map Prod.snd) cv) :
      ITree p fs depth rows (id3Leaf t cv ((rows.map Prod.snd).count cv) rows.length depth)
  | split (depth rows cv) (nl : Nat) (i splits) (branches : List (V × INode V C K))
      (hm : Spec.IsMode (rows.map Prod.snd) cv) (hi : i < p.features.length) (hfs : fs[i]? = some splits)
      (hkeys : branches.map Prod.fst = splits)
      (hempty : ∀ s t, (s, t) ∈ branches → rowsWhere rows i s = [] → t = emptyLeaf cv depth)
      (hrec : ∀ s t, (s, t) ∈ branches → rowsWhere rows i s ≠ [] → ITree p fs (depth + 1) (rowsWhere rows i s) t) :
      ITree p fs depth rows
        (.mk false (some i) branches (some cv) (rows.length, (rows.map Prod.snd).count cv) depth
          (branches.map (fun b => if rowsWhere rows i b.1 = [] then 0
            else b.2.error * (((rowsWhere rows i b.1).length : K) / (rows.length : K)))).sum nl)

/-- the conditions under which no node is left without children. -/
def NoDeadEnds (p : ID3Params K) : Prop := (p.prunning = true ∧ 0 < p.th) ∨ p.maxDepth ≤ p.features.dedup.length

theorem FeatGain.idx {gain : List V → List C → List V → K} {features : List String} {fs : List (List V)} {rows : IRows V C}
    {ft i col s g} (h : FeatGain gain features fs rows ft i col s g) : i < features.length :=
  (List.getElem?_eq_some_iff.1 (featuresDic_get h.1)).1

theorem FeatGain.col_mem {gain : List V → List C → List V → K} {p : ID3Params K} {fs : List (List V)}
    {rows rows0 : IRows V C} (hs : ISetup p fs rows0) (hsub : ∀ r ∈ rows, r ∈ rows0)
    {ft i col s g} (h : FeatGain gain p.features fs rows ft i col s g) :
    s.Nodup ∧ (∀ v ∈ col, v ∈ s) ∧ col.length = (rows.map Prod.snd).length := by
  have hc := (column_eq_ok_iff _ _ _).1 h.2.1
  refine ⟨hs.nodup _ _ h.2.2.1, ?_, by simpa using hc.length_eq.symm⟩
  intro v hv
  obtain ⟨r, hr, hrv⟩ := forall₂_mem_right hc v hv
  obtain ⟨q, hq, rfl⟩ := List.mem_map.1 hr
  exact (hs.mem i s h.2.2.1 v).2 ⟨q, hsub q hq, hrv⟩

theorem IFitted.toTree {nl0 : Nat} {gain : List V → List C → List V → K} (hgain : Spec.GainOk gain) {p : ID3Params K}
    {fs : List (List V)} {rows0 : IRows V C} (hs : ISetup p fs rows0)
    (hp : (p.prunning = true ∧ 0 < p.th) ∨ p.maxDepth ≤ p.features.dedup.length)
    {depth : Nat} {erased : List String} {rows : IRows V C} {t : INode V C K} (h : IFitted gain p fs nl0 depth erased rows t)
    (hsub : ∀ r ∈ rows, r ∈ rows0) (hnd : erased.Nodup) (hlen : erased.length = depth) : ITree p fs depth rows t := by
  induction h with
  | leaf depth erased rows t cv hm => exact .leaf _ _ _ _ hm
  | dead depth erased rows cv nl hm hd hg hnp hne =>
    exfalso
    have hall : ∀ f ∈ p.features, f ∈ erased := by
      intro f hf
      by_contra hfe
      obtain ⟨i, col, s, g, hF, hle⟩ := hg f hf hfe
      obtain ⟨h1, h2, h3⟩ := hF.col_mem hs hsub
      have := hgain col (rows.map Prod.snd) s h1 h2 h3 (List.ne_nil_of_mem hm.1)
      rw [← hF.2.2.2] at this
      exact absurd hle (not_le.2 this)
    have hd0 : depth ≠ 0 := by
      rintro rfl
      rw [List.length_eq_zero_iff] at hlen
      subst hlen
      obtain ⟨f, l, hf⟩ := List.exists_cons_of_ne_nil hne
      have := hall f (by simp [hf])
      cases this
    rcases hp with ⟨h1, h2⟩ | h1
    · rcases hnp with h3 | h3 | h3
      · rw [h1] at h3; cases h3
      · exact absurd h2 (not_lt.2 h3)
      · exact hd0 h3
    · have : p.features.dedup.length ≤ erased.length :=
        (List.subperm_of_subset (List.nodup_dedup _) (fun f hf => hall f (List.mem_dedup.1 hf))).length_le
      omega
  | split depth erased rows cv nl i name col splits g branches hm hd hn hname her hg hmax hprune hnl hnz hkeys hempty hrec ih =>
    refine .split _ _ _ _ _ _ _ hm hg.idx hg.2.2.1 hkeys hempty ?_
    intro s t hst he
    refine ih s t hst he ?_ ?_ ?_
    · intro r hr
      exact hsub r (mem_rowsWhere.1 hr).1
    · rw [List.nodup_append]
      refine ⟨hnd, by simp, ?_⟩
      intro a ha b hb
      rw [List.mem_singleton] at hb
      subst hb
      rintro rfl
      exact her ha
    · simp [hlen]

end Teacher

namespace Teacher
set_option linter.unusedSectionVars false
variable {V C K : Type} [Field K] [LinearOrder K] [IsStrictOrderedRing K] [LinearOrder V] [LinearOrder C]

theorem id3FitWith_eq_ok {gain : List V → List C → List V → K} {ordC : List C → List C}
    {ordF : List String → List String} {p : ID3Params K} {t t' : INode V C K} {rows : IRows V C}
    (hC : Spec.IsSetListing ordC) (hF : Spec.IsArrangement ordF)
    (h : id3FitWith gain ordC ordF p t rows = .ok t') :
    ∃ fs, rows ≠ [] ∧ ISetup p fs rows ∧ (∀ (i : Nat) (s : List V), fs[i]? = some s → s = npUnique (Spec.colOf rows i)) ∧
      IFitted gain p fs t.numLeaf 0 [] rows t' := by
  unfold id3FitWith at h
  obtain ⟨cols, hcols, h⟩ := py_bind_eq_ok.1 h
  rw [mapM_ok_iff] at hcols
  have hne : rows ≠ [] := by
    rintro rfl
    have hcc : pyMax (fun q : C × Nat => q.2) (classCounts ordC ([] : IRows V C)) = .error .valueError := by
      have : ordC [] = [] := (hC []).eq_nil
      simp [classCounts, this, pyMax]
    simp [id3PartialFit, hcc, npUnique] at h
  have hlen : cols.length = p.features.length := by simpa using hcols.length_eq.symm
  have hcol : ∀ i c, cols[i]? = some c → column (rows.map Prod.fst) i = .ok c := by
    intro i c hi
    obtain ⟨hl, hc⟩ := List.getElem?_eq_some_iff.1 hi
    have := List.Forall₂.get hcols (i := i) (by simpa [hlen] using hl) hl
    simp only [List.get_eq_getElem, List.getElem_range] at this
    rw [this, hc]
  refine ⟨_, hne, ⟨by simpa using hlen, ?_, ?_, ?_⟩, ?_, id3PartialFit_spec hC hF _ _ _ _ _ _ hne _ rfl h⟩
  · intro r hr
    by_contra hlt
    have hk : r.1.length < p.features.length := by omega
    obtain ⟨c, hc⟩ : ∃ c, cols[r.1.length]? = some c := ⟨_, List.getElem?_eq_getElem (by omega)⟩
    have := (column_eq_ok_iff _ _ _).1 (hcol _ _ hc)
    obtain ⟨v, -, hv⟩ := forall₂_mem_left this r.1 (List.mem_map_of_mem hr)
    simp at hv
  · intro i s hi
    rw [List.getElem?_map] at hi
    obtain ⟨c, -, rfl⟩ := Option.map_eq_some_iff.1 hi
    exact npUnique_nodup c
  · intro i s hi v
    rw [List.getElem?_map] at hi
    obtain ⟨c, hc, rfl⟩ := Option.map_eq_some_iff.1 hi
    have hF := (column_eq_ok_iff _ _ _).1 (hcol _ _ hc)
    rw [mem_npUnique]
    constructor
    · intro hv
      obtain ⟨r, hr, hrv⟩ := forall₂_mem_right hF v hv
      obtain ⟨q, hq, rfl⟩ := List.mem_map.1 hr
      exact ⟨q, hq, hrv⟩
    · rintro ⟨r, hr, hrv⟩
      obtain ⟨w, hw, hrw⟩ := forall₂_mem_left hF r.1 (List.mem_map_of_mem hr)
      rw [hrv] at hrw
      cases hrw
      exact hw
  · intro i s hi
    rw [List.getElem?_map] at hi
    obtain ⟨c, hc, rfl⟩ := Option.map_eq_some_iff.1 hi
    have hF := (column_eq_ok_iff _ _ _).1 (hcol _ _ hc)
    congr 1
    rw [List.forall₂_map_left_iff] at hF
    have key : ∀ (rs : IRows V C) (c : List V), List.Forall₂ (fun r v => r.1[i]? = some v) rs c →
        c = rs.filterMap (fun r => r.1[i]?) := by
      intro rs c h
      induction h with
      | nil => rfl
      | cons h1 _ ih => rw [List.filterMap_cons, h1]; exact congrArg _ ih
    exact key _ _ hF

end Teacher
