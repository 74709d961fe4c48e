import Verif.Props.Features
import Mathlib.Data.List.Induction

/-!
# C94, C95: `generate_dataset` and `build_df2explain`
-/

set_option linter.unusedSectionVars false

namespace Teacher

variable {K V : Type} [Field K] [LinearOrder K] [IsStrictOrderedRing K] [LinearOrder V]

theorem scaleColumns_spec (scale : List V → List V) (columns : List String) (hn : columns.Nodup) (df : DF V)
    (hc : ∀ c ∈ columns, c ∈ Dict.keys df) :
    ∃ df', scaleColumns scale columns df = .ok df' ∧ Dict.keys df' = Dict.keys df ∧
      (∀ c, c ∉ columns → Dict.get? df' c = Dict.get? df c) ∧ (∀ c ∈ columns, Dict.get? df' c = (Dict.get? df c).map scale) := by
  induction columns generalizing df with
  | nil => exact ⟨df, rfl, rfl, by simp, by simp⟩
  | cons c cs ih =>
    obtain ⟨hnc, hn⟩ := List.nodup_cons.1 hn
    obtain ⟨col, hcol⟩ := (Dict.get?_isSome_iff df c).2 (hc c (by simp))
    have hk := Dict.keys_set_mem df c (scale col) (hc c (by simp))
    obtain ⟨df', h1, h2, h3, h4⟩ := ih hn (Dict.set df c (scale col)) (fun c' hc' => by rw [hk]; exact hc c' (by simp [hc']))
    refine ⟨df', ?_, h2.trans hk, ?_, ?_⟩
    · simp only [scaleColumns, Dict.get_eq_ok_iff.2 hcol, py_bind_ok]; exact h1
    · intro c' hc'
      simp only [List.mem_cons, not_or] at hc'
      rw [h3 c' hc'.2, Dict.get?_set, if_neg (fun h => hc'.1 h.symm)]
    · intro c' hc'
      rcases List.mem_cons.1 hc' with rfl | hc'
      · rw [h3 c' hnc, Dict.get?_set, if_pos rfl, hcol]; rfl
      · rw [h4 c' hc', Dict.get?_set, if_neg (fun (h : c = c') => hnc (h ▸ hc'))]

namespace Spec

/-- Specification: all the columns have `n` rows. -/
def Rect (df : DF V) (n : Nat) : Prop := ∀ c col, Dict.get? df c = some col → col.length = n

/-- Specification: the code of a value of a column: the number of different smaller values of the column. -/
def code (K : Type) [Field K] (col : List V) (v : V) : K := (((col.filter (fun w => w < v)).dedup.length : Nat) : K)

end Spec

theorem nrows_of_rect (df : DF V) (n : Nat) (h : Spec.Rect df n) (c : String) (hc : c ∈ Dict.keys df) : DF.nrows df = n := by
  cases df with
  | nil => simp [Dict.keys] at hc
  | cons p t => exact h p.1 p.2 (by simp [Dict.get?])

/-- the row `i` without the class. -/
theorem rowsWithout_get (df : DF V) (hn : (Dict.keys df).Nodup) (n : Nat) (h : Spec.Rect df n) (className : String)
    (i : Nat) (hi : i < n) :
    ∃ row, ((df.filter (fun p => p.1 ≠ className)).filterMap (fun p => p.2[i]?)) = row ∧
      row.length = ((Dict.keys df).filter (fun c => c ≠ className)).length ∧
      ∀ (j : Nat) (c : String), ((Dict.keys df).filter (fun c => c ≠ className))[j]? = some c →
        ∃ col v, Dict.get? df c = some col ∧ col[i]? = some v ∧ row[j]? = some v := by
  refine ⟨_, rfl, ?_⟩
  have hall : ∀ p ∈ df, ∃ v, p.2[i]? = some v ∧ Dict.get? df p.1 = some p.2 := by
    intro p hp
    have hg := Dict.get?_of_mem_nodup (d := df) hn (k := p.1) (v := p.2) hp
    have := h _ _ hg
    exact ⟨p.2[i], List.getElem?_eq_getElem (by omega), hg⟩
  have key : ∀ l : List (String × List V), (∀ p ∈ l, p ∈ df) →
      (l.filterMap (fun p => p.2[i]?)).length = l.length ∧
      ∀ (j : Nat) (p : String × List V), l[j]? = some p → (l.filterMap (fun p => p.2[i]?))[j]? = p.2[i]? := by
    intro l hl
    induction l with
    | nil => simp
    | cons a l ih =>
      obtain ⟨h1, h2⟩ := ih (fun p hp => hl p (by simp [hp]))
      obtain ⟨v, hv, -⟩ := hall a (hl a (by simp))
      rw [List.filterMap_cons, hv]
      refine ⟨by simp [h1], ?_⟩
      intro j p hj
      cases j with
      | zero => simp only [List.getElem?_cons_zero, Option.some.injEq] at hj ⊢; rw [← hj]; exact hv.symm
      | succ j => simp only [List.getElem?_cons_succ] at hj ⊢; exact h2 j p hj
  obtain ⟨h1, h2⟩ := key (df.filter (fun p => p.1 ≠ className)) (fun p hp => List.mem_of_mem_filter hp)
  have hkeys : (Dict.keys df).filter (fun c => c ≠ className) = (df.filter (fun p => p.1 ≠ className)).map Prod.fst := by
    simp only [Dict.keys, List.filter_map]; rfl
  refine ⟨by rw [h1, hkeys, List.length_map], ?_⟩
  intro j c hj
  rw [hkeys, List.getElem?_map] at hj
  obtain ⟨p, hp, rfl⟩ := Option.map_eq_some_iff.1 hj
  obtain ⟨v, hv, hg⟩ := hall p (List.mem_of_mem_filter (List.mem_of_getElem? hp))
  exact ⟨p.2, v, hg, hv, by rw [h2 j p hp, hv]⟩

theorem appearance_snoc {α : Type} [DecidableEq α] (l : List α) (a : α) :
    appearance (l ++ [a]) = if a ∈ l then appearance l else appearance l ++ [a] := by
  unfold appearance
  rw [List.reverse_append, List.reverse_singleton, List.singleton_append]
  split
  · rw [List.dedup_cons_of_mem (by simpa)]
  · rw [List.dedup_cons_of_notMem (by simpa), List.reverse_cons]

/-- the values come in the order of their first appearance -/
theorem appearance_order {α : Type} [DecidableEq α] (l : List α) : (appearance l).Pairwise (fun a b => l.idxOf a < l.idxOf b) := by
  induction l using List.reverseRecOn with
  | nil => exact .nil
  | append_singleton l a ih =>
    have hm : ∀ x ∈ appearance l, x ∈ l := fun x hx => by simpa [appearance] using hx
    have h1 : (appearance l).Pairwise (fun x y => (l ++ [a]).idxOf x < (l ++ [a]).idxOf y) := by
      refine ih.imp_of_mem (fun {x y} hx hy h => ?_)
      rw [List.idxOf_append_of_mem (hm x hx), List.idxOf_append_of_mem (hm y hy)]
      exact h
    rw [appearance_snoc]
    split
    · exact h1
    · rename_i ha
      rw [List.pairwise_append]
      refine ⟨h1, List.pairwise_singleton _ _, fun x hx y hy => ?_⟩
      rw [List.mem_singleton] at hy
      subst hy
      rw [List.idxOf_append_of_mem (hm x hx), List.idxOf_append_of_notMem ha]
      have := List.idxOf_lt_length_iff.2 (hm x hx)
      omega

theorem mem_appearance {α : Type} [DecidableEq α] (l : List α) (x : α) : x ∈ appearance l ↔ x ∈ l := by simp [appearance]

/-- `features_type` gives the type of the columns of the three known types. -/
theorem featuresType_get (dtype : String → DType) (cols : List String) (hn : cols.Nodup) (c : String) (t : DType) :
    Dict.get? (featuresType (cols.map (fun c => (c, dtype c)))) c = some t ↔ c ∈ cols ∧ dtype c = t ∧ t ≠ .other := by
  have hmem : ∀ c t, c ∈ columnsOf t (cols.map (fun c => (c, dtype c))) ↔ c ∈ cols ∧ dtype c = t := by
    intro c t
    rw [mem_columnsOf]
    simp only [List.mem_map, Prod.mk.injEq]
    constructor
    · rintro ⟨a, ha, rfl, rfl⟩; exact ⟨ha, rfl⟩
    · rintro ⟨h1, rfl⟩; exact ⟨c, h1, rfl, rfl⟩
  have hnd : ∀ t, (columnsOf t (cols.map (fun c => (c, dtype c)))).Nodup := by
    intro t
    unfold columnsOf
    rw [List.filter_map, List.map_map]
    have : (cols.filter ((fun p : String × DType => decide (p.2 = t)) ∘ fun c => (c, dtype c))).Nodup := hn.filter _
    simpa [Function.comp_def] using this
  unfold featuresType typeFeatures
  simp only
  have hkeys : ((columnsOf DType.integer (cols.map (fun c => (c, dtype c)))).map (fun c => (c, DType.integer)) ++
      (columnsOf DType.double (cols.map (fun c => (c, dtype c)))).map (fun c => (c, DType.double)) ++
      (columnsOf DType.string (cols.map (fun c => (c, dtype c)))).map (fun c => (c, DType.string))).map Prod.fst |>.Nodup := by
    simp only [List.map_append, List.map_map, Function.comp_def, List.map_id']
    rw [List.nodup_append, List.nodup_append]
    refine ⟨⟨hnd _, hnd _, ?_⟩, hnd _, ?_⟩
    · rintro a ha b hb rfl
      have h1 := ((hmem _ _).1 ha).2
      have h2 := ((hmem _ _).1 hb).2
      rw [h1] at h2; cases h2
    · rintro a ha b hb rfl
      have h2 := ((hmem _ _).1 hb).2
      rcases List.mem_append.1 ha with ha | ha
      · have h1 := ((hmem _ _).1 ha).2
        rw [h1] at h2; cases h2
      · have h1 := ((hmem _ _).1 ha).2
        rw [h1] at h2; cases h2
  rw [Dict.ofPairs_eq_self _ hkeys]
  constructor
  · intro h
    have := Dict.mem_of_get? h
    simp only [List.mem_append, List.mem_map, Prod.mk.injEq, hmem] at this
    rcases this with (⟨a, ⟨h1, h2⟩, rfl, rfl⟩ | ⟨a, ⟨h1, h2⟩, rfl, rfl⟩) | ⟨a, ⟨h1, h2⟩, rfl, rfl⟩
    · exact ⟨h1, h2, by decide⟩
    · exact ⟨h1, h2, by decide⟩
    · exact ⟨h1, h2, by decide⟩
  · rintro ⟨h1, h2, h3⟩
    apply Dict.get?_of_mem_nodup hkeys
    simp only [List.mem_append, List.mem_map, Prod.mk.injEq, hmem]
    cases t with
    | integer => exact .inl (.inl ⟨c, ⟨h1, h2⟩, rfl, rfl⟩)
    | double => exact .inl (.inr ⟨c, ⟨h1, h2⟩, rfl, rfl⟩)
    | string => exact .inr ⟨c, ⟨h1, h2⟩, rfl, rfl⟩
    | other => exact absurd rfl h3

/-- **C94**: `generate_dataset` succeeds on every DataFrame with columns of the same length, when the columns and the discrete features
are columns of the DataFrame and the class is one of the columns (and, to normalise, there is a continuous feature and a row). Then:

* without normalisation the DataFrame is not changed; with it the continuous columns are scaled and the others not;
* the possible outcomes are the different values of the class;
* the discrete features are the given ones and the ones with strings, plus the class; the continuous ones are the others with numbers;
* `X` has a row for each row of the DataFrame and a column for each of its columns except the class, in their order, with the values of
  the DataFrame, replaced by their codes for the discrete features;
* `y` are the codes of the class;
* `idx_features` are the positions of the features in `columns` without the class. -/
theorem C94_generate_dataset (ops : CellOps K V) (ord : List String → List String) (hord : Spec.IsSetOrder ord)
    (scale : List V → List V) (hscale : ∀ l, (scale l).length = l.length) (dtype : String → DType) (df : DF V)
    (hdf : (Dict.keys df).Nodup) (n : Nat) (hrect : Spec.Rect df n)
    (columns : List String) (hcn : columns.Nodup) (hcols : ∀ c ∈ columns, c ∈ Dict.keys df) (className : String)
    (hclass : className ∈ columns) (discrete : List String) (hdisc : ∀ c ∈ discrete, c ∈ Dict.keys df) (normalize : Bool)
    (hnorm : normalize = true → 0 < n ∧ ∃ c ∈ columns, c ≠ className ∧ c ∉ discrete ∧ (dtype c = .integer ∨ dtype c = .double)) :
    ∃ ds clsCol, generateDataset ops ord scale dtype df columns className discrete normalize = .ok ds ∧
      Dict.get? df className = some clsCol ∧
      (normalize = false → ds.df = df) ∧
      (Dict.keys ds.df = Dict.keys df ∧
        ∀ c, Dict.get? ds.df c = if normalize = true ∧ c ∈ ds.continuous then (Dict.get? df c).map scale else Dict.get? df c) ∧
      ds.columns = columns ∧ ds.className = className ∧
      (ds.possibleOutcomes.Nodup ∧ (∀ v, v ∈ ds.possibleOutcomes ↔ v ∈ clsCol) ∧
        ds.possibleOutcomes.Pairwise (fun a b => clsCol.idxOf a < clsCol.idxOf b)) ∧
      (∀ c, c ∈ ds.discrete ↔ c = className ∨ c ∈ discrete ∨ (c ∈ Dict.keys df ∧ dtype c = .string)) ∧
      (∀ c, c ∈ ds.continuous ↔ c ≠ className ∧ c ∈ columns ∧ c ∉ discrete ∧ (dtype c = .integer ∨ dtype c = .double)) ∧
      (∀ j, Dict.get? ds.idxFeatures j = (columns.filter (fun c => c ≠ className))[j]?) ∧
      ds.X.length = n ∧
      (∀ i < n, ∃ row, ds.X[i]? = some row ∧ row.length = ((Dict.keys df).filter (fun c => c ≠ className)).length ∧
        ∀ (j : Nat) (c : String), ((Dict.keys df).filter (fun c => c ≠ className))[j]? = some c →
          ∃ col v, Dict.get? ds.df c = some col ∧ col[i]? = some v ∧
            row[j]? = some (if c ∈ ds.discrete then ops.num (Spec.code K col v) else v)) ∧
      Spec.IsCoded ops clsCol ds.y ∧
      (ds.discrete.Nodup ∧ ∀ c ∈ ds.discrete, ∃ classes col, Dict.get? ds.encoders c = some classes ∧ Dict.get? ds.df c = some col ∧
        classes.Pairwise (· < ·) ∧ ∀ v, v ∈ classes ↔ v ∈ col) ∧
      ∀ c t, Dict.get? ds.types c = some t ↔ c ∈ Dict.keys df ∧ dtype c = t ∧ t ≠ .other := by
  have hck := hcols className hclass
  obtain ⟨clsCol, hcls⟩ := (Dict.get?_isSome_iff df className).2 hck
  set dtypes := (Dict.keys df).map (fun c => (c, dtype c)) with hdt
  have hdtn : (dtypes.map Prod.fst).Nodup := by rw [hdt, List.map_map]; simpa [Function.comp_def] using hdf
  have hmem : ∀ c t, c ∈ columnsOf t dtypes ↔ c ∈ Dict.keys df ∧ dtype c = t := by
    intro c t
    rw [mem_columnsOf, hdt]
    simp only [List.mem_map, Prod.mk.injEq]
    constructor
    · rintro ⟨a, ha, rfl, rfl⟩; exact ⟨ha, rfl⟩
    · rintro ⟨h1, rfl⟩; exact ⟨c, h1, rfl, rfl⟩
  obtain ⟨dd, cc, hdc⟩ : ∃ dd cc, setDiscreteContinuous ord columns (typeFeatures dtypes) className (some discrete) none = (dd, cc) :=
    ⟨_, _, rfl⟩
  have hdd : ∀ c, c ∈ dd ↔ c = className ∨ c ∈ discrete ∨ (c ∈ Dict.keys df ∧ dtype c = .string) := by
    intro c
    obtain ⟨rfl, -⟩ := Prod.mk.inj hdc
    simp only [typeFeatures, List.mem_append, List.mem_filter, (hord _).2, hmem, List.mem_singleton, ne_eq, decide_not,
      Bool.not_eq_true', decide_eq_false_iff_not]
    by_cases h : c = className <;> simp [h]
  have hddn : dd.Nodup := by
    obtain ⟨rfl, -⟩ := Prod.mk.inj hdc
    rw [List.nodup_append]
    refine ⟨(hord _).1.filter _, by simp, ?_⟩
    intro a ha b hb
    simp only [List.mem_filter, decide_eq_true_eq] at ha
    simp only [List.mem_singleton] at hb
    rw [hb]; exact ha.2
  have hcc : ∀ c, c ∈ cc ↔ c ≠ className ∧ c ∈ columns ∧ c ∉ discrete ∧ (dtype c = .integer ∨ dtype c = .double) := by
    intro c
    obtain ⟨-, rfl⟩ := Prod.mk.inj hdc
    simp only [typeFeatures, List.mem_filter, decide_eq_true_eq, hmem]
    have := hcols c
    tauto
  have hccn : cc.Nodup := by
    obtain ⟨-, rfl⟩ := Prod.mk.inj hdc
    exact (hcn.filter _).filter _
  obtain ⟨df', hs1, hs2, hs3, hs4⟩ : ∃ df', scaleStep scale normalize cc df = .ok df' ∧ (normalize = false → df' = df) ∧
      Dict.keys df' = Dict.keys df ∧
      ∀ c, Dict.get? df' c = if normalize = true ∧ c ∈ cc then (Dict.get? df c).map scale else Dict.get? df c := by
    cases normalize with
    | false => exact ⟨df, rfl, fun _ => rfl, rfl, by simp⟩
    | true =>
      obtain ⟨hn0, c0, hc0⟩ := hnorm rfl
      obtain ⟨df', h1, h2, h3, h4⟩ := scaleColumns_spec scale cc hccn df (fun c hc => hcols c ((hcc c).1 hc).2.1)
      refine ⟨df', ?_, by simp, h2, ?_⟩
      · have hne : ¬ (cc = [] ∨ DF.nrows df = 0) := by
          rw [nrows_of_rect df n hrect className hck]
          rintro (h | h)
          · have : c0 ∈ cc := (hcc c0).2 ⟨hc0.2.1, hc0.1, hc0.2.2.1, hc0.2.2.2⟩
            rw [h] at this; simp at this
          · omega
        simp only [scaleStep, if_true, if_neg hne]; exact h1
      · intro c
        by_cases h : c ∈ cc
        · simp [h, h4 c h]
        · simp [h, h3 c h]
  have hrect' : Spec.Rect df' n := by
    intro c col h
    rw [hs4] at h
    split at h
    · obtain ⟨col0, h0, rfl⟩ := Option.map_eq_some_iff.1 h
      rw [hscale]; exact hrect c col0 h0
    · exact hrect c col h
  have hddk : ∀ c ∈ dd, c ∈ Dict.keys df' := by
    intro c hc
    rw [hs3]
    rcases (hdd c).1 hc with rfl | h | h
    · exact hck
    · exact hdisc c h
    · exact h.1
  obtain ⟨enc, les, e1, e2, e3, e4, e5⟩ := encodeNew_spec ops dd hddn df' hddk []
  have hnc : className ∉ cc := fun h => ((hcc _).1 h).1 rfl
  have hcls' : Dict.get? df' className = some clsCol := by rw [hs4]; simp [hnc, hcls]
  obtain ⟨clsCol', q1, q2, q3⟩ := e4 className ((hdd _).2 (.inl rfl))
  rw [hcls'] at q1; cases q1
  have hrectE : Spec.Rect enc n := by
    intro c col h
    by_cases hc : c ∈ dd
    · obtain ⟨col0, h0, -, h2⟩ := e4 c hc
      rw [h] at h2; cases h2
      rw [List.length_map]; exact hrect' c col0 h0
    · rw [(e3 c hc).1] at h; exact hrect' c col h
  have hkE : Dict.keys enc = Dict.keys df := e2.trans hs3
  have hnrows : DF.nrows enc = n := nrows_of_rect enc n hrectE className (by rw [hkE]; exact hck)
  refine ⟨{ df := df', columns := columns, className := className, possibleOutcomes := appearance clsCol,
            types := featuresType dtypes, discrete := dd, continuous := cc,
            idxFeatures := (columns.erase className).zipIdx.map (fun p => (p.2, p.1)), encoders := les,
            X := DF.rowsWithout enc className, y := clsCol.map (fun v => ops.num (((npUnique clsCol).idxOf v : Nat) : K)) }, clsCol,
    ?_, hcls, hs2, ⟨hs3, hs4⟩, rfl, rfl, ⟨?_, mem_appearance clsCol, appearance_order clsCol⟩, hdd, hcc, ?_, ?_, ?_, ?_, ⟨hddn, ?_⟩, ?_⟩
  · simp only [generateDataset, Dict.get_eq_ok_iff.2 hcls, py_bind_ok, ← hdt, hdc, pyRemove, if_pos hclass, hs1, labelEncode, e1,
      Dict.get_eq_ok_iff.2 q3]
    rfl
  · simp [appearance, List.nodup_dedup]
  · intro j
    have her : columns.erase className = columns.filter (fun c => c ≠ className) := by
      rw [hcn.erase_eq_filter]
      apply List.filter_congr
      intro a _
      simp [bne, beq_eq_decide]
    rw [← her]
    show Dict.get? ((columns.erase className).zipIdx.map (fun p => (p.2, p.1))) j = _
    have hkeys : (Dict.keys ((columns.erase className).zipIdx.map (fun p : String × Nat => (p.2, p.1)))).Nodup := by
      simp only [Dict.keys, List.map_map, Function.comp_def]
      have : (columns.erase className).zipIdx.map (fun x => x.2) = List.range (columns.erase className).length := by
        simp [List.zipIdx_map_snd, List.range_eq_range']
      rw [this]; exact List.nodup_range
    cases hj : (columns.erase className)[j]? with
    | none =>
      rw [Dict.get?_eq_none_iff]
      simp only [Dict.keys, List.map_map, List.mem_map, Function.comp_apply, not_exists, not_and]
      rintro ⟨c, j'⟩ hm rfl
      rw [List.mem_zipIdx_iff_getElem?] at hm
      simp [hj] at hm
    | some c =>
      apply Dict.get?_of_mem_nodup hkeys
      exact List.mem_map.2 ⟨(c, j), by rw [List.mem_zipIdx_iff_getElem?]; exact hj, rfl⟩
  · simp [DF.rowsWithout, hnrows]
  · intro i hi
    obtain ⟨row, r1, r2, r3⟩ := rowsWithout_get enc (by rw [hkE]; exact hdf) n hrectE className i hi
    refine ⟨row, ?_, ?_, ?_⟩
    · simp only [DF.rowsWithout, hnrows, List.getElem?_map, List.getElem?_range hi, Option.map_some, r1]
    · rw [r2, hkE]
    · intro j c hj
      rw [hkE] at r3
      obtain ⟨col, v, g1, g2, g3⟩ := r3 j c hj
      by_cases hc : c ∈ dd
      · obtain ⟨col0, h0, -, h2⟩ := e4 c hc
        rw [g1] at h2; cases h2
        rw [List.getElem?_map] at g2
        obtain ⟨v0, hv0, rfl⟩ := Option.map_eq_some_iff.1 g2
        refine ⟨col0, v0, h0, hv0, ?_⟩
        simp only [if_pos hc, Spec.code]
        rw [g3, idxOf_npUnique col0 v0 (List.mem_of_getElem? hv0)]
      · refine ⟨col, v, by rw [← g1, (e3 c hc).1], g2, ?_⟩
        simp only [if_neg hc]; exact g3
  · unfold Spec.IsCoded
    rw [List.forall₂_map_right_iff, List.forall₂_same]
    intro v hv
    rw [idxOf_npUnique clsCol v hv]
  · intro c hc
    obtain ⟨col, h1, h2, -⟩ := e4 c hc
    exact ⟨leFit col, col, h2, h1, npUnique_pairwise col, fun v => mem_npUnique col v⟩
  · exact featuresType_get dtype (Dict.keys df) hdf

/-- **C94**: a class that is not a column of the DataFrame raises `KeyError`; one that is not in `columns` raises `ValueError`. -/
theorem C94_missing_class (ops : CellOps K V) (ord : List String → List String) (scale : List V → List V) (dtype : String → DType)
    (df : DF V) (columns : List String) (className : String) (discrete : List String) (normalize : Bool) :
    (className ∉ Dict.keys df →
      ∃ e, generateDataset ops ord scale dtype df columns className discrete normalize = .error e ∧ e = .keyError) ∧
    (className ∈ Dict.keys df → className ∉ columns →
      ∃ e, generateDataset ops ord scale dtype df columns className discrete normalize = .error e ∧ e = .valueError) := by
  constructor
  · intro h
    refine ⟨_, ?_, rfl⟩
    have : Dict.get df className = .error .keyError := by simp [Dict.get, (Dict.get?_eq_none_iff df className).2 h]
    simp only [generateDataset, this]; rfl
  · intro h h'
    obtain ⟨clsCol, hcls⟩ := (Dict.get?_isSome_iff df className).2 h
    refine ⟨_, ?_, rfl⟩
    simp only [generateDataset, Dict.get_eq_ok_iff.2 hcls, py_bind_ok, pyRemove, if_neg h']; rfl

/-- the DataFrame of the examples: a number, a code and the class (codes in place of strings). -/
def gdDf : DF ℚ := [("cls", [8, 3, 8]), ("age", [30, 50, 40]), ("job", [7, 5, 7])]

def gdType : String → DType := fun c => if c = "age" then .integer else .string

def gdCols : List String := ["cls", "age", "job"]

example : (Dict.keys gdDf).Nodup ∧ gdCols.Nodup ∧ (∀ c ∈ gdCols, c ∈ Dict.keys gdDf) ∧ "cls" ∈ gdCols := by decide +kernel

example : Spec.Rect gdDf 3 := by
  intro c col h
  have := Dict.mem_of_get? h
  simp only [gdDf, List.mem_cons, Prod.mk.injEq, List.not_mem_nil, or_false] at this
  rcases this with ⟨-, rfl⟩ | ⟨-, rfl⟩ | ⟨-, rfl⟩ <;> rfl

example : (generateDataset ratOps List.dedup id gdType gdDf gdCols "cls" [] false).map (fun d => (d.X, d.y))
    = .ok ([[30, 1], [50, 0], [40, 1]], [1, 0, 1]) := by decide +kernel

example : (generateDataset ratOps List.dedup id gdType gdDf gdCols "cls" [] false).map (fun d => (d.discrete, d.continuous, d.idxFeatures))
    = .ok (["job", "cls"], ["age"], [(0, "age"), (1, "job")]) := by decide +kernel

/-- `possible_outcomes` is not indexed by the codes of `y`: it has the order of appearance, the codes the increasing order. Here the
first row has code 1 and outcome 8, but `possible_outcomes[1]` is 3. -/
theorem C94_outcome_order_false :
    (generateDataset ratOps List.dedup id gdType gdDf gdCols "cls" [] false).map (fun d => (d.possibleOutcomes, d.y))
      = .ok ([8, 3], [1, 0, 1]) := by decide +kernel

/-- `idx_features` describes the columns of `X` only if `columns` has the order of the DataFrame: here `columns` has "job" before "age"
and the first column of `X`, which is "age", is called "job". -/
theorem C94_idx_order_false :
    (generateDataset ratOps List.dedup id gdType gdDf ["cls", "job", "age"] "cls" [] false).map (fun d => (d.idxFeatures, d.X))
      = .ok ([(0, "job"), (1, "age")], [[30, 1], [50, 0], [40, 1]]) := by decide +kernel

/-! ## the DataFrame to explain -/

theorem mem_zipIdx_cons_split {α : Type} (a : α) (l : List α) : (a :: l).zipIdx = (a, 0) :: l.zipIdx.map (fun p => (p.1, p.2 + 1)) := by
  rw [List.zipIdx_cons, List.zipIdx_succ]

namespace Spec

/-- Specification: `v` is the label number `x` of `classes`. -/
def Decodes (classes : List V) (x : K) (v : V) : Prop := ∃ n : Nat, x = (n : K) ∧ classes[n]? = some v

end Spec

theorem leInverse1_decodes (ops : CellOps K V) (hops : Spec.CellLaws ops) (classes : List V) (x : K) (n : Nat) (v : V)
    (hx : x = (n : K)) (hv : classes[n]? = some v) : leInverse1 ops classes (ops.num ((ops.toInt x : Int) : K)) = .ok v := by
  subst hx
  simp only [leInverse1, hops.toNum_num, hops.toInt_nat, Int.cast_natCast, if_true]
  show leClass classes (Int.ofNat n) = _
  simp [leClass, hv]

/-- **C95**: when the class is the first of `columns`, `build_df2explain` returns a DataFrame with those columns, where the class column
has the labels of the predictions, a discrete column the labels of the codes in `X`, and any other column the numbers in `X` (without
decimals if its type is integer). Hypotheses: the rows of `X` have a number for each feature, the types of the columns are known, the
discrete columns have an encoder, the predictions and the numbers of the discrete columns are codes of labels. -/
theorem C95_build_df2explain_partial (ops : CellOps K V) (hops : Spec.CellLaws ops) (bb : List K → K) (X : List (List K)) (ds : Dataset V)
    (className : String) (feats : List String) (hcols : ds.columns = className :: feats) (hn : (className :: feats).Nodup)
    (hX : ∀ r ∈ X, r.length = feats.length) (hdn : ds.discrete.Nodup) (hdc : ∀ c ∈ ds.discrete, c ∈ className :: feats)
    (hcd : className ∈ ds.discrete) (htypes : ∀ c ∈ className :: feats, c ∈ Dict.keys ds.types)
    (hle : ∀ c ∈ ds.discrete, c ∈ Dict.keys ds.encoders)
    (hcls : ∀ classes, Dict.get? ds.encoders className = some classes → ∀ r ∈ X, ∃ v, Spec.Decodes classes (bb r) v)
    (hfeat : ∀ (j : Nat) (c : String), feats[j]? = some c → c ∈ ds.discrete → ∀ classes, Dict.get? ds.encoders c = some classes →
      ∀ r ∈ X, ∀ x, r[j]? = some x → ∃ v, Spec.Decodes classes x v) :
    ∃ out, buildDf2explain ops bb X ds = .ok out ∧ Dict.keys out = className :: feats ∧
      (∃ classes col, Dict.get? ds.encoders className = some classes ∧ Dict.get? out className = some col ∧
        List.Forall₂ (fun r v => Spec.Decodes classes (bb r) v) X col) ∧
      (∀ (j : Nat) (c : String), feats[j]? = some c → c ∈ ds.discrete →
        ∃ classes col, Dict.get? ds.encoders c = some classes ∧ Dict.get? out c = some col ∧
          List.Forall₂ (fun r v => ∃ x, r[j]? = some x ∧ Spec.Decodes classes x v) X col) ∧
      (∀ (j : Nat) (c : String), feats[j]? = some c → c ∉ ds.discrete →
        ∃ t col, Dict.get? ds.types c = some t ∧ Dict.get? out c = some col ∧
          List.Forall₂ (fun r v => ∃ x, r[j]? = some x ∧
            v = ops.num (if t = .integer then ((ops.toInt x : Int) : K) else x)) X col) := by
  set yX := X.map (fun r => bb r :: r) with hyX
  -- the numbers of a column
  have hcolumn : ∀ j, j < feats.length + 1 → ∃ col, column yX j = .ok col ∧ List.Forall₂ (fun r x => (bb r :: r)[j]? = some x) X col := by
    intro j hj
    obtain ⟨col, hcol⟩ := forall₂_of_forall_exists (fun r x => (bb r :: r)[j]? = some x) X (fun r hr =>
      ⟨_, List.getElem?_eq_getElem (by simp [hX r hr]; omega)⟩)
    refine ⟨col, ?_, hcol⟩
    rw [column_eq_ok_iff, hyX, List.forall₂_map_left_iff]
    exact hcol
  -- every column is built
  have hbuilt : ∀ p ∈ ds.columns.zipIdx, ∃ q, explainColumn ops ds yX p = .ok q ∧ q.1 = p.1 ∧
      ∃ t xs, Dict.get? ds.types p.1 = some t ∧ List.Forall₂ (fun r x => (bb r :: r)[p.2]? = some x) X xs ∧
        q.2 = xs.map (fun x => ops.num (if p.1 ∈ ds.discrete ∨ t = .integer then ((ops.toInt x : Int) : K) else x)) := by
    rintro ⟨c, j⟩ hp
    rw [List.mem_zipIdx_iff_getElem?, hcols] at hp
    have hj : j < feats.length + 1 := by simpa using (List.getElem?_eq_some_iff.1 hp).1
    obtain ⟨xs, hxs, hf⟩ := hcolumn j hj
    obtain ⟨t, ht⟩ := (Dict.get?_isSome_iff ds.types c).2 (htypes c (List.mem_of_getElem? hp))
    refine ⟨_, by simp only [explainColumn, hxs, Dict.get_eq_ok_iff.2 ht, py_bind_ok]; rfl, rfl, t, xs, ht, hf, ?_⟩
    by_cases h : c ∈ ds.discrete ∨ t = .integer <;> simp [h]
  obtain ⟨cols, hcolsF⟩ := forall₂_of_forall_exists (fun p q => explainColumn ops ds yX p = .ok q ∧ q.1 = p.1 ∧
      ∃ t xs, Dict.get? ds.types p.1 = some t ∧ List.Forall₂ (fun r x => (bb r :: r)[p.2]? = some x) X xs ∧
        q.2 = xs.map (fun x => ops.num (if p.1 ∈ ds.discrete ∨ t = .integer then ((ops.toInt x : Int) : K) else x))) _ hbuilt
  have hmap : ds.columns.zipIdx.mapM (explainColumn ops ds yX) = .ok cols := (mapM_ok_iff _ _ _).2 (hcolsF.imp fun _ _ h => h.1)
  have hkeys : Dict.keys cols = className :: feats := by
    have := forall₂_map_eq (f := Prod.fst) (g := Prod.fst) (hcolsF.imp fun _ _ h => h.2.1.symm)
    rw [Dict.keys, this (fun _ _ h => h.symm), ← hcols]; simp
  have hget : ∀ (j : Nat) (c : String), (className :: feats)[j]? = some c → ∃ t xs, Dict.get? ds.types c = some t ∧
      List.Forall₂ (fun r x => (bb r :: r)[j]? = some x) X xs ∧
      Dict.get? cols c = some (xs.map (fun x => ops.num (if c ∈ ds.discrete ∨ t = .integer then ((ops.toInt x : Int) : K) else x))) := by
    intro j c hj
    obtain ⟨q, hq, -, h2, t, xs, h3, h4, h5⟩ := forall₂_mem_left hcolsF (c, j) (by
      rw [List.mem_zipIdx_iff_getElem?, hcols]; exact hj)
    refine ⟨t, xs, h3, h4, ?_⟩
    simp only at h2 h5
    rw [← h5, ← h2]
    exact Dict.get?_of_mem_nodup (by rw [hkeys]; exact hn) hq
  -- the labels of a discrete column
  have hdec : ∀ c ∈ ds.discrete, ∃ (classes : List V) (col dec : List V) (j : Nat), Dict.get? ds.encoders c = some classes ∧
      (className :: feats)[j]? = some c ∧ Dict.get? cols c = some col ∧ leInverse ops classes col = .ok dec ∧
      List.Forall₂ (fun r v => ∃ x, (bb r :: r)[j]? = some x ∧ Spec.Decodes classes x v) X dec := by
    intro c hc
    obtain ⟨classes, hcl⟩ := (Dict.get?_isSome_iff ds.encoders c).2 (hle c hc)
    obtain ⟨j, hj⟩ := List.getElem?_of_mem (hdc c hc)
    obtain ⟨t, xs, h3, h4, h5⟩ := hget j c hj
    have hex : ∀ r ∈ X, ∃ v, ∃ x, (bb r :: r)[j]? = some x ∧ Spec.Decodes classes x v := by
      intro r hr
      cases j with
      | zero =>
        simp only [List.getElem?_cons_zero, Option.some.injEq] at hj
        subst hj
        obtain ⟨v, hv⟩ := hcls classes hcl r hr
        exact ⟨v, bb r, rfl, hv⟩
      | succ j =>
        simp only [List.getElem?_cons_succ] at hj ⊢
        have hl : j < r.length := by rw [hX r hr]; exact (List.getElem?_eq_some_iff.1 hj).1
        obtain ⟨v, hv⟩ := hfeat j c hj hc classes hcl r hr r[j] (List.getElem?_eq_getElem hl)
        exact ⟨v, r[j], List.getElem?_eq_getElem hl, hv⟩
    obtain ⟨dec, hd⟩ := forall₂_of_forall_exists (fun r v => ∃ x, (bb r :: r)[j]? = some x ∧ Spec.Decodes classes x v) X hex
    refine ⟨classes, _, dec, j, hcl, hj, h5, ?_, hd⟩
    unfold leInverse
    rw [mapM_ok_iff, List.forall₂_map_left_iff]
    clear h5 hex hX hfeat hcls hyX hcolumn hbuilt hcolsF hmap hget
    induction h4 generalizing dec with
    | nil => cases hd; exact .nil
    | cons a _ ih =>
      cases hd with
      | cons b hd' =>
        refine .cons ?_ (ih _ hd')
        obtain ⟨x, hx, m, rfl, hv⟩ := b
        rw [a] at hx; cases hx
        simp only [hc, true_or, if_true]
        exact leInverse1_decodes ops hops classes _ m _ rfl hv
  choose! fcl fcol fdec fj hf using hdec
  obtain ⟨out, o1, o2, o3, o4⟩ := labelDecode_spec ops ds.encoders ds.discrete hdn cols fdec
    (fun c hc => ⟨fcl c, fcol c, (hf c hc).1, (hf c hc).2.2.1, (hf c hc).2.2.2.1⟩)
  have hpos : ∀ (j : Nat) (c : String), (className :: feats)[j]? = some c → c ∈ ds.discrete → fj c = j := by
    intro j c hj hc
    have h1 := (List.getElem?_eq_some_iff.1 hj)
    have h2 := (List.getElem?_eq_some_iff.1 (hf c hc).2.1)
    obtain ⟨h1, e1⟩ := h1
    obtain ⟨h2, e2⟩ := h2
    exact (List.Nodup.getElem_inj_iff hn).1 (e2.trans e1.symm)
  refine ⟨out, ?_, o2.trans hkeys, ?_, ?_, ?_⟩
  · simp only [buildDf2explain, ← hyX, hmap, py_bind_ok]; exact o1
  · have hj : (className :: feats)[0]? = some className := rfl
    refine ⟨fcl className, fdec className, (hf _ hcd).1, o4 _ hcd, ?_⟩
    have := (hf _ hcd).2.2.2.2
    rw [hpos 0 className hj hcd] at this
    apply this.imp
    rintro r v ⟨x, hx, hv⟩
    simp only [List.getElem?_cons_zero, Option.some.injEq] at hx
    rw [hx]; exact hv
  · intro j c hj hc
    refine ⟨fcl c, fdec c, (hf _ hc).1, o4 _ hc, ?_⟩
    have := (hf _ hc).2.2.2.2
    rw [hpos (j + 1) c (by simpa using hj) hc] at this
    simpa using this
  · intro j c hj hc
    obtain ⟨t, xs, h3, h4, h5⟩ := hget (j + 1) c (by simpa using hj)
    refine ⟨t, _, h3, by rw [o3 c hc]; exact h5, ?_⟩
    rw [List.forall₂_map_right_iff]
    apply h4.imp
    intro r x hx
    refine ⟨x, by simpa using hx, ?_⟩
    simp [hc]

/-- a dataset with the class first, as `load_adult` or `load_pima` make it, and the same with the class last, as `load_basket` makes
it (datasets/_base.py:419-427). -/
def bdFirst : Dataset ℚ :=
  { df := [], columns := ["cls", "age", "job"], className := "cls", possibleOutcomes := [8, 3],
    types := [("cls", .string), ("age", .integer), ("job", .string)], discrete := ["job", "cls"], continuous := ["age"],
    idxFeatures := [(0, "age"), (1, "job")], encoders := [("job", [5, 7]), ("cls", [3, 8])], X := [], y := [] }

def bdLast : Dataset ℚ := { bdFirst with columns := ["age", "job", "cls"] }

example : buildDf2explain ratOps (fun _ => 1) [[30, 1], [50, 0]] bdFirst
    = .ok [("cls", [8, 8]), ("age", [30, 50]), ("job", [7, 5])] := by decide +kernel

/-- **C95** is false when the class is not the first of `columns`: the prediction is taken for the first feature, and every column for the
next one. The records (age 0, job 1) and (age 1, job 0), predicted as class 8, are shown with age 1, jobs 5 and 7 and classes 8 and 3. -/
theorem C95_class_last_false : buildDf2explain ratOps (fun _ => 1) [[0, 1], [1, 0]] bdLast
    = .ok [("age", [1, 1]), ("job", [5, 7]), ("cls", [8, 3])] := by decide +kernel

/-- and in general the call fails: an age is not the code of a job. -/
theorem C95_class_last_error_false : buildDf2explain ratOps (fun _ => 1) [[30, 1], [50, 0]] bdLast = .error .valueError := by
  decide +kernel

end Teacher
