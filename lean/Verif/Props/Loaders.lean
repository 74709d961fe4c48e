import Verif.Model.Loaders
import Verif.Props.RandomNb
import Mathlib.Data.List.MinMax

/-! # C130, C131: the datasets of the library -/

set_option linter.unusedSectionVars false

namespace Teacher

variable {R K V : Type} [Field K] [LinearOrder K] [IsStrictOrderedRing K] [LinearOrder V]

namespace Spec

/-- the features with numbers: not given as discrete, and of type integer or double. -/
def NumericCol (dtype : String → DType) (given : List String) (c : String) : Prop :=
  c ∉ given ∧ (dtype c = .integer ∨ dtype c = .double)

/-- Specification: the dataset `ds` has the class `cls` first and then the features `feats`, in `columns` and in its table; the cells of
every column are those of `cell`, the features with numbers scaled if `normalize`; the discrete features are the class, the ones in `given`
and those with strings; the continuous ones are the others with numbers; every discrete column has an encoder with its values sorted. -/
structure LoadedAs (dtype : String → DType) (scale : List V → List V) (normalize : Bool) (given : List String) (ds : Dataset V)
    (cls : String) (feats : List String) (cell : String → Option (List V)) : Prop where
  className : ds.className = cls
  columns : ds.columns = cls :: feats
  dfKeys : Dict.keys ds.df = cls :: feats
  cells : ∀ c ∈ cls :: feats, Dict.get? ds.df c = cell c ∧ (normalize = false ∨ c = cls ∨ ¬ NumericCol dtype given c) ∨
    (normalize = true ∧ c ≠ cls ∧ NumericCol dtype given c ∧ Dict.get? ds.df c = (cell c).map scale)
  discrete : ∀ c, c ∈ ds.discrete ↔ c = cls ∨ (c ∈ feats ∧ (c ∈ given ∨ dtype c = .string))
  continuous : ∀ c, c ∈ ds.continuous ↔ c ∈ feats ∧ NumericCol dtype given c
  encoders : ∀ c ∈ ds.discrete, ∃ classes col, Dict.get? ds.encoders c = some classes ∧ Dict.get? ds.df c = some col ∧
    classes.Pairwise (· < ·) ∧ ∀ v, v ∈ classes ↔ v ∈ col

/-- Specification: the types of the columns are known, and the columns of numbers of the table `df` have numbers (whole ones if the type is
integer). -/
def Typed (ops : CellOps K V) (dtype : String → DType) (given : List String) (cls : String) (feats : List String) (df : DF V) : Prop :=
  (∀ c ∈ cls :: feats, dtype c ≠ .other) ∧
  ∀ c ∈ feats, NumericCol dtype given c → ∀ col, Dict.get? df c = some col → ∀ v ∈ col, ∃ x, ops.toNum v = some x ∧ ops.num x = v ∧
    (dtype c = .integer → ((ops.toInt x : Int) : K) = x)

end Spec

/-- `generate_dataset` on a table with the class first. -/
theorem generate_loaded (ops : CellOps K V) (ord : List String → List String) (hord : Spec.IsSetOrder ord) (scale : List V → List V)
    (hscale : ∀ l, (scale l).length = l.length) (dtype : String → DType) (df : DF V) (cls : String) (feats given : List String)
    (hkeys : Dict.keys df = cls :: feats) (hnd : (cls :: feats).Nodup) (n : Nat) (hrect : Spec.Rect df n)
    (hgiven : ∀ c ∈ given, c ∈ feats) (normalize : Bool)
    (hnorm : normalize = true → 0 < n ∧ ∃ c ∈ feats, Spec.NumericCol dtype given c) :
    ∃ ds, generateDataset ops ord scale dtype df (Dict.keys df) cls given normalize = .ok ds ∧
      Spec.LoadedAs dtype scale normalize given ds cls feats (fun c => Dict.get? df c) ∧
      (Spec.Typed ops dtype given cls feats ds.df → Spec.DataFor ops ds feats ds.df n ∧
        ∀ c ∈ feats, c ∈ ds.discrete ∨ c ∈ ds.continuous) := by
  have hcf : cls ∉ feats := (List.nodup_cons.1 hnd).1
  obtain ⟨ds, clsCol, h1, h2, -, ⟨h4k, h4⟩, h5, h6, -, h8, h9, -, -, -, -, ⟨h14, h15⟩, h16⟩ := C94_generate_dataset ops ord hord scale hscale
    dtype df (hkeys ▸ hnd) n hrect (Dict.keys df) (hkeys ▸ hnd) (fun c h => h) cls (by simp [hkeys]) given
    (fun c hc => by rw [hkeys]; exact List.mem_cons_of_mem _ (hgiven c hc)) normalize (fun h => by
      obtain ⟨g1, c, g2, g3, g4⟩ := hnorm h
      exact ⟨g1, c, by simp [hkeys, g2], fun e => hcf (e ▸ g2), g3, g4⟩)
  have hdisc : ∀ c, c ∈ ds.discrete ↔ c = cls ∨ (c ∈ feats ∧ (c ∈ given ∨ dtype c = .string)) := by
    intro c
    rw [h8, hkeys, List.mem_cons]
    constructor
    · rintro (h | h | ⟨h | h, h'⟩)
      · exact .inl h
      · exact .inr ⟨hgiven c h, .inl h⟩
      · exact .inl h
      · exact .inr ⟨h, .inr h'⟩
    · rintro (h | ⟨h, h' | h'⟩)
      · exact .inl h
      · exact .inr (.inl h')
      · exact .inr (.inr ⟨.inr h, h'⟩)
  have hcont : ∀ c, c ∈ ds.continuous ↔ c ∈ feats ∧ Spec.NumericCol dtype given c := by
    intro c
    rw [h9, hkeys, List.mem_cons, Spec.NumericCol]
    constructor
    · rintro ⟨g1, g2 | g2, g3⟩
      · exact absurd g2 g1
      · exact ⟨g2, g3⟩
    · rintro ⟨g1, g2⟩
      exact ⟨fun e => hcf (e ▸ g1), .inr g1, g2⟩
  refine ⟨ds, h1, ⟨h6, by rw [h5, hkeys], by rw [h4k, hkeys], ?_, hdisc, hcont, h15⟩, ?_⟩
  · intro c hc
    rw [h4 c]
    by_cases hb : normalize = true ∧ c ∈ ds.continuous
    · obtain ⟨hb1, hb2⟩ := hb
      rw [if_pos ⟨hb1, hb2⟩]
      have := (hcont c).1 hb2
      exact .inr ⟨hb1, fun e => hcf (e ▸ this.1), this.2, rfl⟩
    · rw [if_neg hb]
      refine .inl ⟨rfl, ?_⟩
      by_cases e : normalize = true
      · by_cases e2 : c = cls
        · exact .inr (.inl e2)
        · refine .inr (.inr fun e3 => hb ⟨e, (hcont c).2 ⟨?_, e3⟩⟩)
          rcases List.mem_cons.1 hc with h | h
          · exact absurd h e2
          · exact h
      · exact .inl (by simpa using e)
  · intro ht
    have hin : ∀ c ∈ feats, c ∈ ds.discrete ∨ c ∈ ds.continuous := by
      intro c hc
      rw [hdisc, hcont, Spec.NumericCol]
      have := ht.1 c (List.mem_cons_of_mem _ hc)
      by_cases hg : c ∈ given
      · exact .inl (.inr ⟨hc, .inl hg⟩)
      · cases hd : dtype c with
        | string => exact .inl (.inr ⟨hc, .inr rfl⟩)
        | integer => exact .inr ⟨hc, hg, .inl rfl⟩
        | double => exact .inr ⟨hc, hg, .inr rfl⟩
        | other => exact absurd hd this
    refine ⟨⟨by rw [h5, hkeys, h6], by rw [h6]; exact hnd, by rw [h4k, hkeys]; exact hnd, ?_, ?_, ?_, h14, ?_, ?_, ?_, ?_, ?_⟩, hin⟩
    · rw [h4k, hkeys, h6, List.filter_cons_of_neg (by simp), List.filter_eq_self]
      intro c hc
      simpa using fun e : c = cls => hcf (e ▸ hc)
    · rw [h4k, hkeys, h6]; simp
    · intro c col h
      rw [h4 c] at h
      split_ifs at h with hb
      · obtain ⟨col0, g1, g2⟩ := Option.map_eq_some_iff.1 h
        rw [← g2, hscale]; exact hrect c col0 g1
      · exact hrect c col h
    · intro c hc
      rw [h6]
      rcases (hdisc c).1 hc with h | h
      · simp [h]
      · simp [h.1]
    · rw [h6, hdisc]; exact .inl rfl
    · intro c hc
      rw [h6] at hc
      exact (Dict.get?_isSome_iff ds.types c).1 ⟨dtype c, (h16 c _).2 ⟨by rw [hkeys]; exact hc, rfl, ht.1 c hc⟩⟩
    · intro c hc
      obtain ⟨classes, col, g1, g2, -, g4⟩ := h15 c hc
      refine ⟨classes, g1, fun col' hc' v hv => ?_⟩
      rw [g2] at hc'; cases hc'
      exact (g4 v).2 hv
    · intro c hc hnd' col hcol v hv
      have hnum := (hcont c).1 ((hin c hc).resolve_left hnd')
      obtain ⟨x, x1, x2, x3⟩ := ht.2 c hc hnum.2 col hcol v hv
      exact ⟨x, x1, x2, fun h => x3 ((h16 c _).1 h).2.1⟩

theorem selectCols_ok (df : DF V) (cols : List String) (hn : cols.Nodup) (hc : ∀ c ∈ cols, c ∈ Dict.keys df) :
    ∃ df', selectCols df cols = .ok df' ∧ Dict.keys df' = cols ∧ ∀ c ∈ cols, Dict.get? df' c = Dict.get? df c := by
  have hex : ∀ c ∈ cols, ∃ p : String × List V, p.1 = c ∧ Dict.get? df c = some p.2 := by
    intro c h
    obtain ⟨col, hcol⟩ := (Dict.get?_isSome_iff df c).2 (hc c h)
    exact ⟨(c, col), rfl, hcol⟩
  obtain ⟨df', hf⟩ := forall₂_of_forall_exists (fun c (p : String × List V) => p.1 = c ∧ Dict.get? df c = some p.2) cols hex
  have hk : Dict.keys df' = cols := by
    clear hex hc hn
    induction hf with
    | nil => rfl
    | cons h _ ih => exact congrArg₂ List.cons h.1 ih
  refine ⟨df', ?_, hk, ?_⟩
  · unfold selectCols
    rw [mapM_ok_iff]
    exact hf.imp fun c p h => by
      rw [Dict.get_eq_ok_iff.2 h.2]
      obtain ⟨a, b⟩ := p
      cases h.1
      rfl
  · intro c h
    obtain ⟨p, hp, h1, h2⟩ := forall₂_mem_left hf _ h
    rw [h2, ← h1]
    exact Dict.get?_of_mem_nodup (by rw [hk]; exact hn) hp

theorem dict_get?_filter (df : DF V) (p : String → Bool) (c : String) :
    Dict.get? (df.filter (fun q => p q.1)) c = if p c then Dict.get? df c else none := by
  induction df with
  | nil => simp [Dict.get?]
  | cons q df ih =>
    obtain ⟨a, col⟩ := q
    by_cases hac : a = c
    · subst hac
      by_cases hp : p a
      · simp [Dict.get?, hp]
      · rw [List.filter_cons_of_neg (by simpa using hp), ih]
        simp [hp]
    · by_cases hp : p a
      · rw [List.filter_cons_of_pos (by simpa using hp)]
        simp only [Dict.get?, hac] at ih ⊢
        exact ih
      · rw [List.filter_cons_of_neg (by simpa using hp), ih]
        simp [Dict.get?, hac]

theorem dict_keys_filter (df : DF V) (p : String → Bool) :
    Dict.keys (df.filter (fun q => p q.1)) = (Dict.keys df).filter p := by
  simp [Dict.keys, List.filter_map, Function.comp_def]

theorem delCols_ok (del : List String) (hdn : del.Nodup) (df : DF V) (hd : ∀ c ∈ del, c ∈ Dict.keys df) :
    ∃ df', delCols del df = .ok df' ∧ Dict.keys df' = (Dict.keys df).filter (fun c => c ∉ del) ∧
      ∀ c, c ∉ del → Dict.get? df' c = Dict.get? df c := by
  induction del generalizing df with
  | nil => exact ⟨df, rfl, by simp, fun _ _ => rfl⟩
  | cons a del ih =>
    have hk : Dict.keys (df.filter (fun p => p.1 ≠ a)) = (Dict.keys df).filter (fun c => c ≠ a) := dict_keys_filter df (fun c => c ≠ a)
    obtain ⟨df', h1, h2, h3⟩ := ih (List.nodup_cons.1 hdn).2 (df.filter (fun p => p.1 ≠ a)) (fun c hc => by
      rw [hk, List.mem_filter]
      exact ⟨hd c (List.mem_cons_of_mem _ hc), by simpa using fun e : c = a => (List.nodup_cons.1 hdn).1 (e ▸ hc)⟩)
    refine ⟨df', ?_, ?_, ?_⟩
    · rw [delCols, if_pos (hd a (by simp)), h1]
    · rw [h2, hk, List.filter_filter]
      congr 1
      funext c
      by_cases h : c = a <;> simp [h]
    · intro c hc
      rw [List.mem_cons, not_or] at hc
      rw [h3 c hc.2, dict_get?_filter df (fun c => c ≠ a)]
      simp [hc.1]

theorem pyRemove_ok (l : List String) (c : String) (h : c ∈ l) : pyRemove l c = .ok (l.erase c) := by
  unfold pyRemove
  rw [if_pos h]

theorem rect_congr (df df' : DF V) (n : Nat) (hrect : Spec.Rect df n) (hk : ∀ c ∈ Dict.keys df', Dict.get? df' c = Dict.get? df c) :
    Spec.Rect df' n := by
  intro c col h
  rw [hk c ((Dict.get?_isSome_iff df' c).1 ⟨col, h⟩)] at h
  exact hrect c col h

theorem Spec.LoadedAs.congr {dtype : String → DType} {scale : List V → List V} {normalize : Bool} {given : List String} {ds : Dataset V}
    {cls : String} {feats : List String} {cell cell' : String → Option (List V)}
    (h : Spec.LoadedAs dtype scale normalize given ds cls feats cell) (hc : ∀ c ∈ cls :: feats, cell c = cell' c) :
    Spec.LoadedAs dtype scale normalize given ds cls feats cell' :=
  ⟨h.className, h.columns, h.dfKeys, fun c hm => by rw [← hc c hm]; exact h.cells c hm, h.discrete, h.continuous, h.encoders⟩

/-- **C130**: `load_beer`, `load_pima`, `load_flavia`, `load_phishing`: from a table with distinct columns of the same length that has the
class and the columns to delete, the dataset has the class first and then the other columns in their order, without the deleted ones; every
cell is the one of the table (of the scaled column for the continuous features, if normalised). And when the types of the columns are
known and the columns of numbers of the dataset have numbers of their type, the dataset is ready for the neighbourhood functions: C103, C127 and C128
apply to its table. -/
theorem C130_class_first (ops : CellOps K V) (ord : List String → List String) (hord : Spec.IsSetOrder ord) (scale : List V → List V)
    (hscale : ∀ l, (scale l).length = l.length) (dtype : String → DType) (raw : DF V) (hraw : (Dict.keys raw).Nodup) (n : Nat)
    (hrect : Spec.Rect raw n) (del : List String) (hdn : del.Nodup) (hdel : ∀ c ∈ del, c ∈ Dict.keys raw) (cls : String)
    (hcls : cls ∈ Dict.keys raw) (hcd : cls ∉ del) (normalize : Bool)
    (hnorm : normalize = true → 0 < n ∧ ∃ c ∈ Dict.keys raw, c ≠ cls ∧ c ∉ del ∧ (dtype c = .integer ∨ dtype c = .double)) :
    ∃ ds, loadClassFirst ops ord scale dtype raw del cls normalize = .ok ds ∧
      Spec.LoadedAs dtype scale normalize [] ds cls ((Dict.keys raw).filter (fun c => c ≠ cls ∧ c ∉ del)) (fun c => Dict.get? raw c) ∧
      (Spec.Typed ops dtype [] cls ((Dict.keys raw).filter (fun c => c ≠ cls ∧ c ∉ del)) ds.df →
        Spec.DataFor ops ds ((Dict.keys raw).filter (fun c => c ≠ cls ∧ c ∉ del)) ds.df n ∧
        ∀ c ∈ (Dict.keys raw).filter (fun c => c ≠ cls ∧ c ∉ del), c ∈ ds.discrete ∨ c ∈ ds.continuous) := by
  set feats := (Dict.keys raw).filter (fun c => c ≠ cls ∧ c ∉ del) with hfe
  have hmem : ∀ c, c ∈ feats ↔ c ∈ Dict.keys raw ∧ c ≠ cls ∧ c ∉ del := fun c => by rw [hfe, List.mem_filter]; simp
  have hnd : (cls :: feats).Nodup := List.nodup_cons.2 ⟨fun h => ((hmem _).1 h).2.1 rfl, hraw.filter _⟩
  obtain ⟨df1, a1, a2, a3⟩ := delCols_ok del hdn raw hdel
  have hk1 : ∀ c, c ∈ Dict.keys df1 ↔ c ∈ Dict.keys raw ∧ c ∉ del := fun c => by rw [a2, List.mem_filter]; simp
  have her : (Dict.keys df1).erase cls = feats := by
    rw [List.Nodup.erase_eq_filter (by rw [a2]; exact hraw.filter _), a2, List.filter_filter, hfe]
    congr 1
    funext c
    by_cases h : c = cls <;> simp [h]
  have b1 : classFirst df1 cls = .ok (cls :: feats) := by
    rw [classFirst, pyRemove_ok _ _ ((hk1 cls).2 ⟨hcls, hcd⟩), her]
    rfl
  obtain ⟨df2, c1, c2, c3⟩ := selectCols_ok df1 (cls :: feats) hnd (fun c hc => by
    rcases List.mem_cons.1 hc with rfl | hc
    · exact (hk1 c).2 ⟨hcls, hcd⟩
    · exact (hk1 c).2 ⟨((hmem c).1 hc).1, ((hmem c).1 hc).2.2⟩)
  have hcell : ∀ c ∈ cls :: feats, Dict.get? df2 c = Dict.get? raw c := by
    intro c hc
    rw [c3 c hc]
    refine a3 c ?_
    rcases List.mem_cons.1 hc with rfl | hc
    · exact hcd
    · exact ((hmem c).1 hc).2.2
  obtain ⟨ds, d1, d2, d3⟩ := generate_loaded ops ord hord scale hscale dtype df2 cls feats [] c2 hnd n
    (rect_congr raw df2 n hrect (by rw [c2]; exact hcell)) (by simp) normalize (fun h => by
      obtain ⟨g1, c, g2, g3, g4, g5⟩ := hnorm h
      exact ⟨g1, c, (hmem c).2 ⟨g2, g3, g4⟩, by simp, g5⟩)
  refine ⟨ds, ?_, d2.congr hcell, d3⟩
  simp only [loadClassFirst, a1, b1, c1, py_bind_ok]
  exact d1

/-- **C130**: `load_iris` and `load_wine`: the class is the last column of the table, and it is put first. -/
theorem C130_last_class (ops : CellOps K V) (ord : List String → List String) (hord : Spec.IsSetOrder ord) (scale : List V → List V)
    (hscale : ∀ l, (scale l).length = l.length) (dtype : String → DType) (raw : DF V) (feats : List String) (cls : String)
    (hkeys : Dict.keys raw = feats ++ [cls]) (hraw : (Dict.keys raw).Nodup) (n : Nat) (hrect : Spec.Rect raw n) (normalize : Bool)
    (hnorm : normalize = true → 0 < n ∧ ∃ c ∈ feats, dtype c = .integer ∨ dtype c = .double) :
    ∃ ds, loadLastClass ops ord scale dtype raw normalize = .ok ds ∧
      Spec.LoadedAs dtype scale normalize [] ds cls feats (fun c => Dict.get? raw c) ∧
      (Spec.Typed ops dtype [] cls feats ds.df → Spec.DataFor ops ds feats ds.df n ∧ ∀ c ∈ feats, c ∈ ds.discrete ∨ c ∈ ds.continuous) := by
  have hcf : cls ∉ feats := by
    rw [hkeys, List.nodup_append] at hraw
    intro h
    exact hraw.2.2 cls h cls (by simp) rfl
  have hfe : (Dict.keys raw).filter (fun c => c ≠ cls ∧ c ∉ ([] : List String)) = feats := by
    rw [hkeys, List.filter_append, List.filter_cons_of_neg (by simp), List.filter_nil, List.append_nil, List.filter_eq_self]
    intro c hc
    simpa using fun e : c = cls => hcf (e ▸ hc)
  have := C130_class_first ops ord hord scale hscale dtype raw hraw n hrect [] (by simp) (by simp) cls (by simp [hkeys]) (by simp) normalize
    (fun h => by
      obtain ⟨g1, c, g2, g3⟩ := hnorm h
      exact ⟨g1, c, by simp [hkeys, g2], fun e => hcf (e ▸ g2), by simp, g3⟩)
  rw [hfe] at this
  rw [loadLastClass, hkeys, List.getLast?_concat]
  exact this

/-- **C130**: `load_german`, `load_heloc` and `load_breast`, when the class is the first column of the file after the deleted ones are left
out (it is in the three files): the dataset has the columns of the file in their order. -/
theorem C130_as_is (ops : CellOps K V) (ord : List String → List String) (hord : Spec.IsSetOrder ord) (scale : List V → List V)
    (hscale : ∀ l, (scale l).length = l.length) (dtype : String → DType) (raw : DF V) (hraw : (Dict.keys raw).Nodup) (n : Nat)
    (hrect : Spec.Rect raw n) (del : List String) (hdn : del.Nodup) (hdel : ∀ c ∈ del, c ∈ Dict.keys raw) (cls : String)
    (feats : List String) (hfirst : (Dict.keys raw).filter (fun c => c ∉ del) = cls :: feats) (given : List String)
    (hgiven : ∀ c ∈ given, c ∈ feats) (normalize : Bool)
    (hnorm : normalize = true → 0 < n ∧ ∃ c ∈ feats, Spec.NumericCol dtype given c) :
    ∃ ds, loadAsIs ops ord scale dtype raw del cls given normalize = .ok ds ∧
      Spec.LoadedAs dtype scale normalize given ds cls feats (fun c => Dict.get? raw c) ∧
      (Spec.Typed ops dtype given cls feats ds.df → Spec.DataFor ops ds feats ds.df n ∧ ∀ c ∈ feats, c ∈ ds.discrete ∨ c ∈ ds.continuous) := by
  obtain ⟨df1, a1, a2, a3⟩ := delCols_ok del hdn raw hdel
  have hnd : (cls :: feats).Nodup := by rw [← hfirst]; exact hraw.filter _
  have hcell : ∀ c ∈ cls :: feats, Dict.get? df1 c = Dict.get? raw c := by
    intro c hc
    rw [← hfirst, List.mem_filter] at hc
    exact a3 c (by simpa using hc.2)
  obtain ⟨ds, d1, d2, d3⟩ := generate_loaded ops ord hord scale hscale dtype df1 cls feats given (a2.trans hfirst) hnd n
    (rect_congr raw df1 n hrect (by rw [a2, hfirst]; exact hcell)) hgiven normalize hnorm
  refine ⟨ds, ?_, d2.congr hcell, d3⟩
  simp only [loadAsIs, a1, py_bind_ok]
  exact d1

namespace Spec

/-- Specification: `m` is a most frequent value of `l`. -/
def MostFrequent (l : List V) (m : V) : Prop := m ∈ l ∧ ∀ w, l.count w ≤ l.count m

/-- Specification of `value_counts().index[0]`. -/
def IsValueMode (mode : List V → Py V) : Prop :=
  (∀ l, l ≠ [] → ∃ m, mode l = .ok m ∧ MostFrequent l m) ∧ mode [] = .error .indexError

end Spec

theorem replaceMissing_ok (q : V) (mode : List V → Py V) (hmode : Spec.IsValueMode mode) (df : DF V) (hn : (Dict.keys df).Nodup) (n : Nat)
    (hpos : 0 < n) (hrect : Spec.Rect df n) :
    ∃ df', replaceMissing q mode df = .ok df' ∧ Dict.keys df' = Dict.keys df ∧ ∀ c ∈ Dict.keys df, ∃ col m, Dict.get? df c = some col ∧
      Spec.MostFrequent col m ∧ Dict.get? df' c = some (col.map (fun v => if v = q then m else v)) := by
  have hex : ∀ p ∈ df, ∃ p' : String × List V, p'.1 = p.1 ∧ ∃ m, mode p.2 = .ok m ∧ Spec.MostFrequent p.2 m ∧
      p'.2 = p.2.map (fun v => if v = q then m else v) := by
    intro p hp
    have hl : p.2.length = n := hrect p.1 p.2 (Dict.get?_of_mem_nodup hn hp)
    obtain ⟨m, h1, h2⟩ := hmode.1 p.2 (by intro h; rw [h] at hl; simp at hl; omega)
    exact ⟨(p.1, p.2.map (fun v => if v = q then m else v)), rfl, m, h1, h2, rfl⟩
  obtain ⟨df', hf⟩ := forall₂_of_forall_exists _ df hex
  have hk : Dict.keys df' = Dict.keys df := by
    clear hex hn hrect
    induction hf with
    | nil => rfl
    | cons h _ ih => exact congrArg₂ List.cons h.1 ih
  refine ⟨df', ?_, hk, ?_⟩
  · unfold replaceMissing
    rw [mapM_ok_iff]
    exact hf.imp fun p p' h => by
      obtain ⟨h0, m, h1, -, h3⟩ := h
      rw [h1]
      change Except.ok (p.1, p.2.map (fun v => if v = q then m else v)) = _
      rw [← h3, ← h0]
  · intro c hc
    obtain ⟨col, hcol⟩ := (Dict.get?_isSome_iff df c).2 hc
    obtain ⟨p', hp', h0, m, -, h2, h3⟩ := forall₂_mem_left hf _ (Dict.mem_of_get? hcol)
    refine ⟨col, m, hcol, h2, ?_⟩
    have := Dict.get?_of_mem_nodup (by rw [hk]; exact hn) hp'
    rw [h0, h3] at this
    exact this

theorem lastToFront_concat (l : List String) (c : String) : lastToFront (l ++ [c]) = c :: l := by
  simp [lastToFront]

/-- **C131**: `load_adult`, on a table with a row or more whose last column is `class`: the class goes first, `fnlwgt` and `education-num` are
left out, and in every column each `'?'` is replaced by one and the same most frequent value of the column; every other cell is kept. -/
theorem C131_adult (ops : CellOps K V) (ord : List String → List String) (hord : Spec.IsSetOrder ord) (scale : List V → List V)
    (hscale : ∀ l, (scale l).length = l.length) (dtype : String → DType) (q : V) (mode : List V → Py V) (hmode : Spec.IsValueMode mode)
    (raw : DF V) (feats : List String) (hraw : (Dict.keys raw).Nodup) (hkeys : Dict.keys raw = feats ++ ["class"])
    (hw : "fnlwgt" ∈ feats) (he : "education-num" ∈ feats) (n : Nat) (hpos : 0 < n) (hrect : Spec.Rect raw n) (normalize : Bool)
    (hnorm : normalize = true → ∃ c ∈ feats, c ≠ "fnlwgt" ∧ c ≠ "education-num" ∧ (dtype c = .integer ∨ dtype c = .double)) :
    ∃ ds cell, loadAdult ops ord scale dtype q mode raw normalize = .ok ds ∧
      Spec.LoadedAs dtype scale normalize [] ds "class" (feats.filter (fun c => c ≠ "fnlwgt" ∧ c ≠ "education-num")) cell ∧
      (∀ c ∈ ds.columns, ∃ col m, Dict.get? raw c = some col ∧ Spec.MostFrequent col m ∧
        cell c = some (col.map (fun v => if v = q then m else v))) ∧
      (Spec.Typed ops dtype [] "class" (feats.filter (fun c => c ≠ "fnlwgt" ∧ c ≠ "education-num")) ds.df →
        Spec.DataFor ops ds (feats.filter (fun c => c ≠ "fnlwgt" ∧ c ≠ "education-num")) ds.df n ∧
        ∀ c ∈ feats.filter (fun c => c ≠ "fnlwgt" ∧ c ≠ "education-num"), c ∈ ds.discrete ∨ c ∈ ds.continuous) := by
  set fs := feats.filter (fun c => c ≠ "fnlwgt" ∧ c ≠ "education-num") with hfs
  have hmem : ∀ c, c ∈ fs ↔ c ∈ feats ∧ c ≠ "fnlwgt" ∧ c ≠ "education-num" := fun c => by rw [hfs, List.mem_filter]; simp
  have hsub : ∀ c ∈ ["fnlwgt", "education-num"], c ∈ Dict.keys raw := by
    intro c hc
    rw [hkeys, List.mem_append]
    simp only [List.mem_cons, List.not_mem_nil, or_false] at hc
    rcases hc with rfl | rfl
    · exact .inl hw
    · exact .inl he
  obtain ⟨df1, a1, a2, a3⟩ := delCols_ok ["fnlwgt", "education-num"] (by decide) raw hsub
  have ha2 : Dict.keys df1 = fs ++ ["class"] := by
    rw [a2, hkeys, List.filter_append, hfs]
    congr 1
    congr 1
    funext c
    simp
  have hn1 : (Dict.keys df1).Nodup := by rw [a2]; exact hraw.filter _
  have hcd : ∀ c ∈ fs ++ ["class"], c ∉ ["fnlwgt", "education-num"] := by
    intro c hc
    rcases List.mem_append.1 hc with h | h
    · have := (hmem c).1 h
      simp [this.2.1, this.2.2]
    · rw [List.mem_singleton.1 h]; decide
  have hr1 : Spec.Rect df1 n := rect_congr raw df1 n hrect (by rw [ha2]; exact fun c hc => a3 c (hcd c hc))
  obtain ⟨df2, b1, b2, b3⟩ := replaceMissing_ok q mode hmode df1 hn1 n hpos hr1
  have hr2 : Spec.Rect df2 n := by
    intro c col h
    have hc : c ∈ Dict.keys df1 := by rw [← b2]; exact (Dict.get?_isSome_iff df2 c).1 ⟨col, h⟩
    obtain ⟨col0, m, g1, -, g3⟩ := b3 c hc
    rw [h] at g3
    obtain rfl := Option.some.inj g3
    rw [List.length_map]
    exact hr1 c col0 g1
  have hnd : ("class" :: fs).Nodup := by
    rw [ha2] at hn1
    exact (List.perm_append_singleton "class" fs).nodup_iff.1 hn1
  have hsame : ∀ c, c ∈ "class" :: fs ↔ c ∈ fs ++ ["class"] := fun c => by simp [or_comm]
  obtain ⟨df3, c1, c2, c3⟩ := selectCols_ok df2 ("class" :: fs) hnd (fun c hc => by rw [b2, ha2]; exact (hsame c).1 hc)
  obtain ⟨ds, d1, d2, d3⟩ := generate_loaded ops ord hord scale hscale dtype df3 "class" fs [] c2 hnd n
    (rect_congr df2 df3 n hr2 (by rw [c2]; exact c3)) (by simp) normalize (fun h => by
      obtain ⟨c, g2, g3, g4, g5⟩ := hnorm h
      exact ⟨hpos, c, (hmem c).2 ⟨g2, g3, g4⟩, by simp, g5⟩)
  refine ⟨ds, _, ?_, d2, ?_, d3⟩
  · rw [loadAdult, a1, py_bind_ok, b1, py_bind_ok, b2, ha2, lastToFront_concat, c1, py_bind_ok]
    exact d1
  · intro c hc
    rw [d2.columns] at hc
    have hc' := (hsame c).1 hc
    obtain ⟨col, m, g1, g2, g3⟩ := b3 c (by rw [ha2]; exact hc')
    exact ⟨col, m, by rw [← a3 c (hcd c hc')]; exact g1, g2, by rw [c3 c hc]; exact g3⟩

/-- **C131**: after `load_adult` a `'?'` is left in a column only if `'?'` is a most frequent value of that column of the table. -/
theorem C131_adult_missing (ops : CellOps K V) (ord : List String → List String) (hord : Spec.IsSetOrder ord) (scale : List V → List V)
    (hscale : ∀ l, (scale l).length = l.length) (dtype : String → DType) (q : V) (mode : List V → Py V) (hmode : Spec.IsValueMode mode)
    (raw : DF V) (feats : List String) (hraw : (Dict.keys raw).Nodup) (hkeys : Dict.keys raw = feats ++ ["class"])
    (hw : "fnlwgt" ∈ feats) (he : "education-num" ∈ feats) (n : Nat) (hpos : 0 < n) (hrect : Spec.Rect raw n) (ds : Dataset V)
    (h : loadAdult ops ord scale dtype q mode raw false = .ok ds) (c : String) (col : List V) (hcol : Dict.get? ds.df c = some col)
    (hq : q ∈ col) : ∃ col0, Dict.get? raw c = some col0 ∧ Spec.MostFrequent col0 q := by
  obtain ⟨ds', cell, h1, h2, h3, -⟩ := C131_adult ops ord hord scale hscale dtype q mode hmode raw feats hraw hkeys hw he n hpos hrect false
    (by simp)
  rw [h] at h1
  obtain rfl := Except.ok.inj h1
  have hc : c ∈ ds.columns := by rw [h2.columns, ← h2.dfKeys]; exact (Dict.get?_isSome_iff ds.df c).1 ⟨col, hcol⟩
  obtain ⟨col0, m, g1, g2, g3⟩ := h3 c hc
  rw [h2.columns] at hc
  rcases h2.cells c hc with ⟨e, -⟩ | ⟨e, -⟩
  · rw [hcol, g3] at e
    rw [Option.some.inj e, List.mem_map] at hq
    obtain ⟨v, -, hv⟩ := hq
    have : m = q := by
      by_cases hvq : v = q
      · rwa [if_pos hvq] at hv
      · rw [if_neg hvq] at hv; exact absurd hv hvq
    exact ⟨col0, g1, this ▸ g2⟩
  · simp at e

theorem fillMissing_ok (mode : List V → Py V) (hmode : Spec.IsValueMode mode) (l : List (Option V)) (h : ∃ v, some v ∈ l) :
    ∃ m, fillMissing mode l = .ok (l.map (fun v => v.getD m)) ∧ Spec.MostFrequent (l.filterMap id) m := by
  obtain ⟨m, h1, h2⟩ := hmode.1 (l.filterMap id) (by
    obtain ⟨v, hv⟩ := h
    exact List.ne_nil_of_mem (List.mem_filterMap.2 ⟨some v, hv, rfl⟩))
  exact ⟨m, by rw [fillMissing, h1]; rfl, h2⟩

/-- the features of the COMPAS dataset. -/
def compasFeats : List String :=
  ["age", "age_cat", "sex", "race", "priors_count", "days_b_screening_arrest", "c_charge_degree", "is_recid", "is_violent_recid",
    "two_year_recid", "length_of_stay"]

theorem compas_frame (cx : CompasOps V) (mode : List V → Py V) (hmode : Spec.IsValueMode mode) (raw : DF V)
    (hcols : ∀ c ∈ compasCols, c ∈ Dict.keys raw) (n : Nat) (hrect : Spec.Rect raw n) (days jin jout dec : List V)
    (hd : Dict.get? raw "days_b_screening_arrest" = some days) (hi : Dict.get? raw "c_jail_in" = some jin)
    (ho : Dict.get? raw "c_jail_out" = some jout) (hs : Dict.get? raw "decile_score" = some dec)
    (hdays : ∃ v ∈ days, (cx.absDays v).isSome) (hstay : ∃ v, some v ∈ List.zipWith cx.stay jout jin) :
    ∃ df md ms, compasFrame cx mode raw = .ok df ∧ Dict.keys df = "class" :: compasFeats ∧ Spec.Rect df n ∧
      Spec.MostFrequent (days.filterMap cx.absDays) md ∧ Spec.MostFrequent ((List.zipWith cx.stay jout jin).filterMap id) ms ∧
      Dict.get? df "class" = some (dec.map (fun v => if cx.lt7 v then cx.low else cx.high)) ∧
      Dict.get? df "days_b_screening_arrest" = some (days.map (fun v => cx.toInt ((cx.absDays v).getD md))) ∧
      Dict.get? df "length_of_stay" = some ((List.zipWith cx.stay jout jin).map (fun v => cx.toInt (v.getD ms))) ∧
      ∀ c ∈ compasFeats, c ≠ "days_b_screening_arrest" → c ≠ "length_of_stay" → Dict.get? df c = Dict.get? raw c := by
  obtain ⟨df1, a1, a2, a3⟩ := selectCols_ok raw compasCols (by decide) hcols
  obtain ⟨ms, s1, s2⟩ := fillMissing_ok mode hmode _ hstay
  obtain ⟨md, m1, m2⟩ := fillMissing_ok mode hmode (days.map cx.absDays) (by
    obtain ⟨v, h1, h2⟩ := hdays
    obtain ⟨w, hw⟩ := Option.isSome_iff_exists.1 h2
    exact ⟨w, List.mem_map.2 ⟨v, h1, hw⟩⟩)
  set df2 := Dict.set df1 "length_of_stay" (((List.zipWith cx.stay jout jin).map (fun v => v.getD ms)).map cx.toInt) with e2
  set df3 := Dict.set df2 "days_b_screening_arrest" (((days.map cx.absDays).map (fun v => v.getD md)).map cx.toInt) with e3
  set df4 := Dict.set df3 "class" (dec.map (fun v => if cx.lt7 v then cx.low else cx.high)) with e4
  have k2 : Dict.keys df2 = compasCols ++ ["length_of_stay"] := by
    rw [e2, Dict.keys_set, a2, if_neg (by decide)]
  have k3 : Dict.keys df3 = compasCols ++ ["length_of_stay"] := by
    rw [e3, Dict.keys_set, k2, if_pos (by decide)]
  have k4 : Dict.keys df4 = compasCols ++ ["length_of_stay"] ++ ["class"] := by
    rw [e4, Dict.keys_set, k3, if_neg (by decide)]
  have g4 : ∀ c, Dict.get? df4 c = if c = "class" then some (dec.map (fun v => if cx.lt7 v then cx.low else cx.high)) else
      if c = "days_b_screening_arrest" then some (((days.map cx.absDays).map (fun v => v.getD md)).map cx.toInt) else
      if c = "length_of_stay" then some (((List.zipWith cx.stay jout jin).map (fun v => v.getD ms)).map cx.toInt) else Dict.get? df1 c := by
    intro c
    rw [e4, Dict.get?_set, e3, Dict.get?_set, e2, Dict.get?_set]
    simp only [@eq_comm _ c]
  obtain ⟨df5, b1, b2, b3⟩ := delCols_ok ["c_jail_in", "c_jail_out", "decile_score", "score_text"] (by decide) df4 (by rw [k4]; decide)
  have k5 : Dict.keys df5 = compasFeats ++ ["class"] := by rw [b2, k4]; decide
  obtain ⟨df6, c1, c2, c3⟩ := selectCols_ok df5 ("class" :: compasFeats) (by decide) (by rw [k5]; decide)
  have hget : ∀ c ∈ "class" :: compasFeats, Dict.get? df6 c = Dict.get? df4 c := fun c hc => by
    rw [c3 c hc]
    exact b3 c ((by decide : ∀ c ∈ "class" :: compasFeats, c ∉ ["c_jail_in", "c_jail_out", "decile_score", "score_text"]) c hc)
  have hraw : ∀ c ∈ compasFeats, c ≠ "days_b_screening_arrest" → c ≠ "length_of_stay" → Dict.get? df6 c = Dict.get? raw c := by
    intro c hc h1 h2
    have h3 : c ≠ "class" := fun e => by rw [e] at hc; exact absurd hc (by decide)
    rw [hget c (List.mem_cons_of_mem _ hc), g4, if_neg h3, if_neg h1, if_neg h2]
    exact a3 c ((by decide : ∀ c ∈ compasFeats, c ≠ "length_of_stay" → c ∈ compasCols) c hc h2)
  have q1 : Dict.get? df6 "class" = some (dec.map (fun v => if cx.lt7 v then cx.low else cx.high)) := by
    rw [hget _ (by decide), g4, if_pos rfl]
  have q2 : Dict.get? df6 "days_b_screening_arrest" = some (days.map (fun v => cx.toInt ((cx.absDays v).getD md))) := by
    rw [hget _ (by decide), g4, if_neg (by decide), if_pos rfl, List.map_map, List.map_map]
    rfl
  have q3 : Dict.get? df6 "length_of_stay" = some ((List.zipWith cx.stay jout jin).map (fun v => cx.toInt (v.getD ms))) := by
    rw [hget _ (by decide), g4, if_neg (by decide), if_neg (by decide), if_pos rfl, List.map_map]
    rfl
  refine ⟨df6, md, ms, ?_, c2, ?_, by rw [List.filterMap_map] at m2; exact m2, s2, q1, q2, q3, hraw⟩
  · have z1 : Dict.get df1 "days_b_screening_arrest" = .ok days := Dict.get_eq_ok_iff.2 ((a3 _ (by decide)).trans hd)
    have z2 : Dict.get df1 "c_jail_out" = .ok jout := Dict.get_eq_ok_iff.2 ((a3 _ (by decide)).trans ho)
    have z3 : Dict.get df1 "c_jail_in" = .ok jin := Dict.get_eq_ok_iff.2 ((a3 _ (by decide)).trans hi)
    have z4 : Dict.get df3 "decile_score" = .ok dec := Dict.get_eq_ok_iff.2 (by
      rw [e3, Dict.get?_set, if_neg (by decide), e2, Dict.get?_set, if_neg (by decide)]
      exact (a3 _ (by decide)).trans hs)
    simp only [compasFrame, a1, z1, z2, z3, s1, m1, py_bind_ok]
    rw [← e2, ← e3, z4, py_bind_ok, ← e4, b1, py_bind_ok, k5, lastToFront_concat]
    exact c1
  · intro c col h
    have hc : c ∈ "class" :: compasFeats := by rw [← c2]; exact (Dict.get?_isSome_iff df6 c).1 ⟨col, h⟩
    rcases List.mem_cons.1 hc with rfl | hc
    · rw [q1] at h
      rw [← Option.some.inj h, List.length_map]
      exact hrect _ _ hs
    · by_cases h1 : c = "days_b_screening_arrest"
      · rw [h1, q2] at h
        rw [← Option.some.inj h, List.length_map]
        exact hrect _ _ hd
      · by_cases h2 : c = "length_of_stay"
        · rw [h2, q3] at h
          rw [← Option.some.inj h, List.length_map, List.length_zipWith, hrect _ _ ho, hrect _ _ hi, Nat.min_self]
        · rw [hraw c hc h1 h2] at h
          exact hrect c col h

/-- **C131**: `load_compas`, on a table that has its columns, with a date difference and a number of days that are not missing: the class goes
first and is the label of `decile_score` (the second one from 7 on); the days before the arrest are the absolute ones, and the length of
stay the days between the dates, each missing one replaced by one and the same most frequent value, as whole numbers; the other features are those of
the table; `c_jail_in`, `c_jail_out`, `decile_score` and `score_text` are not features. -/
theorem C131_compas (ops : CellOps K V) (ord : List String → List String) (hord : Spec.IsSetOrder ord) (scale : List V → List V)
    (hscale : ∀ l, (scale l).length = l.length) (dtype : String → DType) (cx : CompasOps V) (mode : List V → Py V)
    (hmode : Spec.IsValueMode mode) (raw : DF V) (hcols : ∀ c ∈ compasCols, c ∈ Dict.keys raw) (n : Nat) (hrect : Spec.Rect raw n)
    (days jin jout dec : List V) (hd : Dict.get? raw "days_b_screening_arrest" = some days)
    (hi : Dict.get? raw "c_jail_in" = some jin) (ho : Dict.get? raw "c_jail_out" = some jout)
    (hs : Dict.get? raw "decile_score" = some dec) (hdays : ∃ v ∈ days, (cx.absDays v).isSome)
    (hstay : ∃ v, some v ∈ List.zipWith cx.stay jout jin) (normalize : Bool)
    (hnorm : normalize = true → ∃ c ∈ compasFeats, Spec.NumericCol dtype ["is_recid", "is_violent_recid", "two_year_recid"] c) :
    ∃ ds cell md ms, loadCompas ops ord scale dtype cx mode raw normalize = .ok ds ∧
      Spec.LoadedAs dtype scale normalize ["is_recid", "is_violent_recid", "two_year_recid"] ds "class" compasFeats cell ∧
      Spec.MostFrequent (days.filterMap cx.absDays) md ∧ Spec.MostFrequent ((List.zipWith cx.stay jout jin).filterMap id) ms ∧
      cell "class" = some (dec.map (fun v => if cx.lt7 v then cx.low else cx.high)) ∧
      cell "days_b_screening_arrest" = some (days.map (fun v => cx.toInt ((cx.absDays v).getD md))) ∧
      cell "length_of_stay" = some ((List.zipWith cx.stay jout jin).map (fun v => cx.toInt (v.getD ms))) ∧
      (∀ c ∈ compasFeats, c ≠ "days_b_screening_arrest" → c ≠ "length_of_stay" → cell c = Dict.get? raw c) ∧
      (Spec.Typed ops dtype ["is_recid", "is_violent_recid", "two_year_recid"] "class" compasFeats ds.df →
        Spec.DataFor ops ds compasFeats ds.df n ∧ ∀ c ∈ compasFeats, c ∈ ds.discrete ∨ c ∈ ds.continuous) := by
  obtain ⟨df, md, ms, h1, h2, h3, h4, h5, h6, h7, h8, h9⟩ := compas_frame cx mode hmode raw hcols n hrect days jin jout dec hd hi ho hs
    hdays hstay
  have hpos : 0 < n := by
    rw [← hrect _ _ hd]
    obtain ⟨v, hv, -⟩ := hdays
    exact List.length_pos_of_mem hv
  obtain ⟨ds, d1, d2, d3⟩ := generate_loaded ops ord hord scale hscale dtype df "class" compasFeats
    ["is_recid", "is_violent_recid", "two_year_recid"] h2 (by decide) n h3 (by decide) normalize (fun h => ⟨hpos, hnorm h⟩)
  refine ⟨ds, _, md, ms, ?_, d2, h4, h5, h6, h7, h8, h9, d3⟩
  rw [loadCompas, h1, py_bind_ok]
  exact d1

/-- **C130**: from the file to the explained table: on the table of a dataset with the class first whose columns of numbers have numbers of
their type, `real_data` succeeds and returns the same records, with the class column replaced by the labels of the black box. -/
theorem C130_real_data (ops : CellOps K V) (hops : Spec.CellLaws ops) (ord : List String → List String) (hord : Spec.IsSetOrder ord)
    (scale : List V → List V) (hscale : ∀ l, (scale l).length = l.length) (dtype : String → DType) (raw : DF V)
    (hraw : (Dict.keys raw).Nodup) (n : Nat) (hrect : Spec.Rect raw n) (del : List String) (hdn : del.Nodup)
    (hdel : ∀ c ∈ del, c ∈ Dict.keys raw) (cls : String) (hcls : cls ∈ Dict.keys raw) (hcd : cls ∉ del) (feats : List String)
    (hfe : (Dict.keys raw).filter (fun c => c ≠ cls ∧ c ∉ del) = feats) (ht : Spec.Typed ops dtype [] cls feats raw)
    (bb : List K → K) (clsCol : List V) (hcc : Dict.get? raw cls = some clsCol)
    (hbb : ∀ classes, (∀ v, v ∈ classes ↔ v ∈ clsCol) → ∀ row, ∃ v, Spec.Decodes classes (bb row) v) :
    ∃ ds out Z classes col, loadClassFirst ops ord scale dtype raw del cls false = .ok ds ∧ realData ops bb ds.df ds = .ok (out, Z) ∧
      Dict.keys out = cls :: feats ∧ (∀ c ∈ feats, Dict.get? out c = Dict.get? raw c) ∧ Z.length = n ∧
      (∀ v, v ∈ classes ↔ v ∈ clsCol) ∧ Dict.get? out cls = some col ∧
      List.Forall₂ (fun row v => Spec.Decodes classes (bb row) v) Z col := by
  obtain ⟨ds, h1, h2, h3⟩ := C130_class_first ops ord hord scale hscale dtype raw hraw n hrect del hdn hdel cls hcls hcd false (by simp)
  rw [hfe] at h2 h3
  have hcell : ∀ c ∈ cls :: feats, Dict.get? ds.df c = Dict.get? raw c := by
    intro c hc
    rcases h2.cells c hc with ⟨e, -⟩ | ⟨e, -⟩
    · exact e
    · simp at e
  have hd := (h3 ⟨ht.1, fun c hc hn col hcol => ht.2 c hc hn col (by rw [← hcell c (List.mem_cons_of_mem _ hc)]; exact hcol)⟩).1
  have hcn := h2.className
  obtain ⟨classes, col, e1, e2, -, e4⟩ := h2.encoders cls ((h2.discrete cls).2 (.inl rfl))
  rw [hcell cls (by simp), hcc] at e2
  obtain rfl := Option.some.inj e2
  obtain ⟨out, Z, r1, r2, r3, r4, classes', col, r5, r6, r7⟩ := C103_real_data ops hops bb ds.df ds feats hd.columns hd.nodup hd.dfNodup
    hd.dfKeys hd.dfClass n hd.rect hd.discreteNodup hd.discreteIn hd.classDiscrete hd.types hd.known hd.numbers (by
      intro cl hcl
      rw [hcn, e1] at hcl
      obtain rfl := Option.some.inj hcl
      exact hbb classes e4)
  rw [hcn, e1] at r5
  obtain rfl := Option.some.inj r5
  rw [hcn] at r3 r6
  exact ⟨ds, out, Z, classes, col, h1, r1, r3, fun c hc => by rw [r4 c hc, hcell c (List.mem_cons_of_mem _ hc)], r2, e4, r6, r7⟩

/-! ## what does not hold -/

/-- C130 is false of `load_basket`: `columns` keeps the order of the file while the table of the dataset has the class first, so that whenever
the class is not the first column of the file the two disagree. -/
theorem C130_basket_columns_false (ops : CellOps K V) (ord : List String → List String) (hord : Spec.IsSetOrder ord)
    (scale : List V → List V) (hscale : ∀ l, (scale l).length = l.length) (dtype : String → DType) (raw : DF V)
    (hraw : (Dict.keys raw).Nodup) (n : Nat) (hrect : Spec.Rect raw n) (cls first : String) (rest : List String)
    (hkeys : Dict.keys raw = first :: rest) (hcls : cls ∈ rest) :
    ∃ ds, loadBasket ops ord scale dtype raw cls false = .ok ds ∧ ds.columns = first :: rest ∧
      Dict.keys ds.df = cls :: first :: rest.erase cls ∧ ds.columns ≠ Dict.keys ds.df := by
  have hne : first ≠ cls := by
    rw [hkeys, List.nodup_cons] at hraw
    rintro rfl
    exact hraw.1 hcls
  have hin : cls ∈ Dict.keys raw := by rw [hkeys]; exact List.mem_cons_of_mem _ hcls
  have her : (Dict.keys raw).erase cls = first :: rest.erase cls := by rw [hkeys, List.erase_cons_tail (by simpa using hne)]
  have hnd : (cls :: first :: rest.erase cls).Nodup := by
    rw [← her]
    exact List.nodup_cons.2 ⟨hraw.not_mem_erase, hraw.erase _⟩
  have hsub : ∀ c ∈ cls :: first :: rest.erase cls, c ∈ Dict.keys raw := by
    intro c hc
    rcases List.mem_cons.1 hc with rfl | hc
    · exact hin
    · rw [← her] at hc; exact List.mem_of_mem_erase hc
  have hback : ∀ c ∈ Dict.keys raw, c ∈ cls :: first :: rest.erase cls := by
    intro c hc
    by_cases h : c = cls
    · simp [h]
    · rw [← her]; exact List.mem_cons_of_mem _ ((List.mem_erase_of_ne h).2 hc)
  obtain ⟨df1, c1, c2, c3⟩ := selectCols_ok raw _ hnd hsub
  obtain ⟨ds, clsCol, h1, -, h3, -, h5, -⟩ := C94_generate_dataset ops ord hord scale hscale dtype df1 (c2 ▸ hnd) n
    (rect_congr raw df1 n hrect (by rw [c2]; exact c3)) (Dict.keys raw) hraw (fun c hc => by rw [c2]; exact hback c hc) cls hin []
    (by simp) false (by simp)
  have hk : Dict.keys ds.df = cls :: first :: rest.erase cls := by rw [h3 rfl, c2]
  refine ⟨ds, ?_, h5.trans hkeys, hk, ?_⟩
  · simp only [loadBasket, classFirst, pyRemove_ok _ _ hin, her, py_bind_ok]
    change (selectCols raw (cls :: first :: rest.erase cls) >>= _) = _
    rw [c1, py_bind_ok]
    exact h1
  · rw [h5, hkeys, hk]
    intro e
    exact hne (List.cons.inj e).1

/-- a table for the examples. -/
def ldRaw : DF ℚ := [("id", [1, 2, 3]), ("age", [30, 50, 40]), ("job", [7, 5, 7]), ("cls", [8, 3, 8])]

/-- the class of `load_basket` is the last column of its file: with such a file `real_data` on the dataset fails. -/
theorem C130_basket_false : ((loadBasket ratOps List.dedup id gdType
    [("age", [30, 50, 40]), ("job", [7, 5, 7]), ("Position", [8, 3, 8])] "Position" false).bind
      fun d => realData ratOps (fun _ => 1) d.df d) = .error .valueError := by decide +kernel

/-- C130 is false with `normalize=True` and a column of whole numbers: its type in the dataset stays `integer`, and `real_data` returns
the scaled values truncated. -/
theorem C130_normalize_false : ((loadClassFirst ratOps List.dedup (List.map (· / 100)) gdType ldRaw ["id"] "cls" true).bind
      fun d => (realData ratOps (fun _ => 1) d.df d).map fun o => (Dict.get? d.df "age", Dict.get? o.1 "age"))
    = .ok (some [3 / 10, 1 / 2, 2 / 5], some [0, 0, 0]) := by decide +kernel

/-- the same table without normalisation. -/
example : ((loadClassFirst ratOps List.dedup id gdType ldRaw ["id"] "cls" false).bind fun d => (realData ratOps (fun _ => 1) d.df d).map
      fun o => (d.df, o.1))
    = .ok ([("cls", [8, 3, 8]), ("age", [30, 50, 40]), ("job", [7, 5, 7])],
        [("cls", [8, 8, 8]), ("age", [30, 50, 40]), ("job", [7, 5, 7])]) := by decide +kernel

example : (Dict.keys ldRaw).Nodup ∧ Spec.Rect ldRaw 3 ∧ "cls" ∈ Dict.keys ldRaw ∧ "id" ∈ Dict.keys ldRaw ∧
    (Dict.keys ldRaw).filter (fun c => c ≠ "cls" ∧ c ∉ ["id"]) = ["age", "job"] ∧ Dict.get? ldRaw "cls" = some [8, 3, 8] ∧
    Spec.Typed ratOps gdType [] "cls" ["age", "job"] ldRaw := by
  refine ⟨by decide +kernel, ?_, by decide +kernel, by decide +kernel, by decide +kernel, by decide +kernel, by decide +kernel, ?_⟩
  · intro c col h
    have := Dict.mem_of_get? h
    simp only [ldRaw, List.mem_cons, Prod.mk.injEq, List.not_mem_nil, or_false] at this
    rcases this with ⟨-, rfl⟩ | ⟨-, rfl⟩ | ⟨-, rfl⟩ | ⟨-, rfl⟩ <;> rfl
  · intro c _ hn col h v hv
    have := Dict.mem_of_get? h
    simp only [ldRaw, List.mem_cons, Prod.mk.injEq, List.not_mem_nil, or_false] at this
    rcases this with ⟨rfl, rfl⟩ | ⟨rfl, rfl⟩ | ⟨rfl, rfl⟩ | ⟨rfl, rfl⟩
    · exact absurd hn.2 (by decide)
    · refine ⟨v, rfl, rfl, fun _ => ?_⟩
      simp only [List.mem_cons, List.not_mem_nil, or_false] at hv
      rcases hv with rfl | rfl | rfl <;> decide +kernel
    · exact absurd hn.2 (by decide)
    · exact absurd hn.2 (by decide)

/-- a most frequent value. -/
def exMode (l : List ℚ) : Py ℚ :=
  match l.argmax (fun v => l.count v) with
  | some m => .ok m
  | none => .error .indexError

theorem exMode_mode : Spec.IsValueMode exMode := by
  refine ⟨fun l hl => ?_, rfl⟩
  cases h : l.argmax (fun v => l.count v) with
  | none => exact absurd (List.argmax_eq_none.1 h) hl
  | some m =>
    refine ⟨m, by rw [exMode, h], List.argmax_mem h, fun w => ?_⟩
    by_cases hw : w ∈ l
    · exact List.le_of_mem_argmax hw h
    · rw [List.count_eq_zero_of_not_mem hw]; exact Nat.zero_le _

/-- an adult table (`?` is 0): the missing job becomes the most frequent one. -/
example : (loadAdult ratOps List.dedup id gdType 0 exMode [("age", [30, 50, 40]), ("fnlwgt", [1, 1, 1]), ("job", [7, 0, 7]),
    ("education-num", [2, 2, 2]), ("class", [8, 3, 8])] false).map (fun d => (d.df, d.columns))
    = .ok ([("class", [8, 3, 8]), ("age", [30, 50, 40]), ("job", [7, 7, 7])], ["class", "age", "job"]) := by decide +kernel

/-- a compas table: days 0 stand for missing ones, the stay is the difference of the dates. -/
def cpRaw : DF ℚ := compasCols.map (fun c => (c, if c = "decile_score" then [6, 7] else if c = "days_b_screening_arrest" then [0, -2]
  else if c = "c_jail_out" then [9, 5] else [3, 4]))

def cpOps : CompasOps ℚ := ⟨fun v => if v = 0 then none else some |v|, fun a b => some |a - b|, id, fun v => decide (v < 7), 1, 2⟩

set_option synthInstance.maxSize 1000 in
set_option synthInstance.maxHeartbeats 200000 in
example : (loadCompas ratOps List.dedup id (fun _ => .integer) cpOps exMode cpRaw false).map (fun d => (d.columns, Dict.get? d.df "class",
    Dict.get? d.df "days_b_screening_arrest", Dict.get? d.df "length_of_stay", d.discrete))
    = .ok ("class" :: compasFeats, some [1, 2], some [2, 2], some [6, 1], ["is_recid", "is_violent_recid", "two_year_recid", "class"]) := by
  decide +kernel

end Teacher
