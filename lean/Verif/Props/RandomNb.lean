import Verif.Model.RandomNb
import Verif.Props.GPFitness

/-! # C127, C128: neighbourhoods of real and of random records -/

set_option linter.unusedSectionVars false

namespace Teacher

variable {R K V : Type} [Field K] [LinearOrder K] [IsStrictOrderedRing K] [LinearOrder V]

theorem filterMap_range_get {α : Type} (l : List α) : (List.range l.length).filterMap (fun i => l[i]?) = l := by
  induction l with
  | nil => rfl
  | cons a l ih =>
    rw [List.length_cons, List.range_succ_eq_map, List.filterMap_cons, List.getElem?_cons_zero]
    simp only [List.filterMap_map, Function.comp_def, List.getElem?_cons_succ, ih]

namespace Spec

/-- Specification: `df` is a table of `n` records of the dataset `ds`, which has the class first and then the features `feats`: the same
columns in the same order, categories known to the encoders and numbers in the other columns (whole numbers if the type is integer). -/
structure DataFor (ops : CellOps K V) (ds : Dataset V) (feats : List String) (df : DF V) (n : Nat) : Prop where
  columns : ds.columns = ds.className :: feats
  nodup : (ds.className :: feats).Nodup
  dfNodup : (Dict.keys df).Nodup
  dfKeys : (Dict.keys df).filter (fun c => c ≠ ds.className) = feats
  dfClass : ds.className ∈ Dict.keys df
  rect : Rect df n
  discreteNodup : ds.discrete.Nodup
  discreteIn : ∀ c ∈ ds.discrete, c ∈ ds.className :: feats
  classDiscrete : ds.className ∈ ds.discrete
  types : ∀ c ∈ ds.className :: feats, c ∈ Dict.keys ds.types
  known : ∀ c ∈ ds.discrete, ∃ classes, Dict.get? ds.encoders c = some classes ∧
    ∀ col, Dict.get? df c = some col → ∀ v ∈ col, v ∈ classes
  numbers : ∀ c ∈ feats, c ∉ ds.discrete → ∀ col, Dict.get? df c = some col → ∀ v ∈ col, ∃ x, ops.toNum v = some x ∧ ops.num x = v ∧
    (Dict.get? ds.types c = some .integer → ((ops.toInt x : Int) : K) = x)

/-- Specification: `z` is the encoded record number `i` of `df`: for every feature the position of its category among the categories of the
encoder, or its number. -/
def CodedRow (ops : CellOps K V) (ds : Dataset V) (feats : List String) (df : DF V) (i : Nat) (z : List K) : Prop :=
  z.length = feats.length ∧ ∀ (j : Nat) (c : String), feats[j]? = some c → ∃ col v x, Dict.get? df c = some col ∧ col[i]? = some v ∧
    z[j]? = some x ∧
    (c ∈ ds.discrete → ∃ classes, Dict.get? ds.encoders c = some classes ∧ v ∈ classes ∧ x = ((classes.idxOf v : Nat) : K)) ∧
    (c ∉ ds.discrete → ops.num x = v ∧ (Dict.get? ds.types c = some .integer → ((ops.toInt x : Int) : K) = x))

/-- Specification: `x` is an encoded record (the one to explain), not necessarily of the table. -/
def EncodedRecord (ds : Dataset V) (feats : List String) (x : List K) : Prop :=
  x.length = feats.length ∧ ∀ (j : Nat) (c : String), feats[j]? = some c → c ∈ ds.discrete → ∀ classes,
    Dict.get? ds.encoders c = some classes → ∀ w, x[j]? = some w → ∃ v, Decodes classes w v

end Spec

theorem encoded_rows (ops : CellOps K V) (hops : Spec.CellLaws ops) (ds : Dataset V) (feats : List String) (df : DF V) (n : Nat)
    (hd : Spec.DataFor ops ds feats df n) :
    ∃ (enc : DF V) (fz : Nat → List K), encodeWith ops ds.encoders ds.discrete df = .ok enc ∧ DF.nrows enc = n ∧
      ∀ i < n, ∃ row, (DF.rowsWithout enc ds.className)[i]? = some row ∧ rowNums ops row = .ok (fz i) ∧
        Spec.CodedRow ops ds feats df i (fz i) := by
  obtain ⟨hcols, hn, hkn, hkeys, hck, hrect, hdn, hdc, hcd, htypes, hle, hnum⟩ := hd
  have hfk : ∀ c ∈ ds.className :: feats, c ∈ Dict.keys df := by
    intro c hc
    rcases List.mem_cons.1 hc with rfl | hc
    · exact hck
    · rw [← hkeys] at hc; exact List.mem_of_mem_filter hc
  choose! fcl hfcl using hle
  obtain ⟨enc, e1, e2, e3, e4⟩ := encodeWith_spec ops ds.encoders ds.discrete hdn df
    (fun c => ((Dict.get? df c).getD []).map (fun v => ops.num (((fcl c).idxOf v : Nat) : K))) (fun c hc => by
      obtain ⟨col, hcol⟩ := (Dict.get?_isSome_iff df c).2 (hfk c (hdc c hc))
      refine ⟨fcl c, col, (hfcl c hc).1, hcol, ?_⟩
      rw [hcol]
      exact leTransform_known ops _ _ ((hfcl c hc).2 col hcol))
  have hrectE : Spec.Rect enc n := by
    intro c col h
    by_cases hc : c ∈ ds.discrete
    · obtain ⟨col0, hcol0⟩ := (Dict.get?_isSome_iff df c).2 (hfk c (hdc c hc))
      rw [e4 c hc, hcol0] at h
      cases h
      simpa using hrect c col0 hcol0
    · rw [e3 c hc] at h; exact hrect c col h
  have hnrows : DF.nrows enc = n := nrows_of_rect enc n hrectE ds.className (by rw [e2]; exact hck)
  have hcell : ∀ i < n, ∃ z, rowNums ops ((enc.filter (fun p => p.1 ≠ ds.className)).filterMap (fun p => p.2[i]?)) = .ok z ∧
      Spec.CodedRow ops ds feats df i z := by
    intro i hi
    obtain ⟨row, r1, r2, r3⟩ := rowsWithout_get enc (by rw [e2]; exact hkn) n hrectE ds.className i hi
    rw [e2, hkeys] at r2 r3
    have hx : ∀ (j : Nat) (c : String), feats[j]? = some c → ∃ col v x w, Dict.get? df c = some col ∧ col[i]? = some v ∧
        row[j]? = some w ∧ ops.toNum w = some x ∧
        (c ∈ ds.discrete → ∃ classes, Dict.get? ds.encoders c = some classes ∧ v ∈ classes ∧ x = ((classes.idxOf v : Nat) : K)) ∧
        (c ∉ ds.discrete → ops.num x = v ∧ (Dict.get? ds.types c = some .integer → ((ops.toInt x : Int) : K) = x)) := by
      intro j c hj
      obtain ⟨ecol, w, g1, g2, g3⟩ := r3 j c hj
      have hcf : c ∈ feats := List.mem_of_getElem? hj
      obtain ⟨col, hcol⟩ := (Dict.get?_isSome_iff df c).2 (hfk c (by simp [hcf]))
      by_cases hc : c ∈ ds.discrete
      · rw [e4 c hc, hcol] at g1
        cases g1
        simp only [Option.getD_some, List.getElem?_map] at g2
        obtain ⟨v, hv, rfl⟩ := Option.map_eq_some_iff.1 g2
        exact ⟨col, v, _, _, hcol, hv, g3, hops.toNum_num _,
          fun _ => ⟨_, (hfcl c hc).1, (hfcl c hc).2 col hcol v (List.mem_of_getElem? hv), rfl⟩, fun h => absurd hc h⟩
      · rw [e3 c hc, hcol] at g1
        obtain rfl := Option.some.inj g1
        obtain ⟨x, h1, h2, h3⟩ := hnum c hcf hc _ hcol w (List.mem_of_getElem? g2)
        exact ⟨_, w, x, w, hcol, g2, g3, h1, fun h => absurd h hc, fun _ => ⟨h2, h3⟩⟩
    have hall : ∀ w ∈ row, ∃ x, ops.toNum w = some x := by
      intro w hw
      obtain ⟨j, hj⟩ := List.getElem?_of_mem hw
      have hjl : j < feats.length := by rw [← r2]; exact (List.getElem?_eq_some_iff.1 hj).1
      obtain ⟨col, v, x, w', -, -, h3, h4, -⟩ := hx j feats[j] (List.getElem?_eq_getElem hjl)
      rw [hj] at h3; cases h3
      exact ⟨x, h4⟩
    obtain ⟨z, hz⟩ := forall₂_of_forall_exists (fun w x => ops.toNum w = some x) row hall
    have hzl := hz.length_eq
    refine ⟨z, ?_, by omega, ?_⟩
    · rw [r1]
      unfold rowNums
      rw [mapM_ok_iff]
      exact hz.imp fun w x h => by simp [h]
    · intro j c hj
      obtain ⟨col, v, x, w, g1, g2, g3, g4, g5, g6⟩ := hx j c hj
      have hjl : j < z.length := by rw [← hzl]; exact (List.getElem?_eq_some_iff.1 g3).1
      have hjr : j < row.length := by omega
      have := List.Forall₂.get hz hjr hjl
      simp only [List.get_eq_getElem] at this
      have hw : row[j] = w := by rw [List.getElem?_eq_getElem hjr] at g3; exact Option.some.inj g3
      rw [hw, g4] at this
      have hzx : z[j]? = some x := by rw [List.getElem?_eq_getElem hjl, Option.some.inj this]
      exact ⟨col, v, x, g1, g2, hzx, g5, g6⟩
  choose! fz hfz using hcell
  refine ⟨enc, fz, e1, hnrows, fun i hi => ⟨_, ?_, (hfz i hi).1, (hfz i hi).2⟩⟩
  unfold DF.rowsWithout
  rw [hnrows, List.getElem?_map, List.getElem?_range hi]
  rfl

/-- the encoded rows of a list of positions. -/
theorem coded_positions (ops : CellOps K V) (ds : Dataset V) (feats : List String) (df enc : DF V) (n : Nat) (fz : Nat → List K)
    (h : ∀ i < n, ∃ row, (DF.rowsWithout enc ds.className)[i]? = some row ∧ rowNums ops row = .ok (fz i) ∧
        Spec.CodedRow ops ds feats df i (fz i)) (idx : List Nat) (hidx : ∀ i ∈ idx, i < n) :
    (idx.filterMap (fun i => (DF.rowsWithout enc ds.className)[i]?)).mapM (rowNums ops) = .ok (idx.map fz) ∧
      List.Forall₂ (fun i z => Spec.CodedRow ops ds feats df i z) idx (idx.map fz) := by
  constructor
  · rw [mapM_ok_iff]
    induction idx with
    | nil => exact .nil
    | cons i idx ih =>
      obtain ⟨row, h1, h2, -⟩ := h i (hidx i (by simp))
      rw [List.filterMap_cons, h1]
      exact .cons h2 (ih (fun k hk => hidx k (by simp [hk])))
  · rw [List.forall₂_map_right_iff, List.forall₂_same]
    intro i hi
    obtain ⟨-, -, -, h3⟩ := h i (hidx i hi)
    exact h3

/-- the DataFrame of coded rows followed by other rows whose categories are among those of the coded rows. -/
theorem build_coded (ops : CellOps K V) (hops : Spec.CellLaws ops) (bb : List K → K) (ds : Dataset V) (feats : List String) (df : DF V)
    (n : Nat) (hd : Spec.DataFor ops ds feats df n)
    (hbb : ∀ classes, Dict.get? ds.encoders ds.className = some classes → ∀ row, ∃ v, Spec.Decodes classes (bb row) v)
    (idx : List Nat) (Zb new : List (List K)) (hb : List.Forall₂ (fun i z => Spec.CodedRow ops ds feats df i z) idx Zb)
    (hnew : ∀ row ∈ new, row.length = feats.length ∧ ∀ (j : Nat) (c : String), feats[j]? = some c → c ∈ ds.discrete →
      ∃ z ∈ Zb, row[j]? = z[j]?) :
    ∃ out, buildDf2explain ops bb (Zb ++ new) ds = .ok out ∧ Dict.keys out = ds.className :: feats ∧
      (∃ classes col, Dict.get? ds.encoders ds.className = some classes ∧ Dict.get? out ds.className = some col ∧
        List.Forall₂ (fun row v => Spec.Decodes classes (bb row) v) (Zb ++ new) col) ∧
      ∀ c ∈ feats, ∃ col colb coln, Dict.get? df c = some col ∧ Dict.get? out c = some (colb ++ coln) ∧
        List.Forall₂ (fun (i : Nat) (v : V) => col[i]? = some v) idx colb ∧ coln.length = new.length ∧
        (c ∈ ds.discrete → ∀ v ∈ coln, v ∈ colb) := by
  have hzmem : ∀ z ∈ Zb, ∃ i ∈ idx, Spec.CodedRow ops ds feats df i z := fun z hz => forall₂_mem_right hb z hz
  have hdecz : ∀ z ∈ Zb, ∀ (j : Nat) (c : String), feats[j]? = some c → c ∈ ds.discrete → ∀ classes,
      Dict.get? ds.encoders c = some classes → ∀ x, z[j]? = some x → ∃ v, Spec.Decodes classes x v := by
    intro z hz j c hj hc classes hcl x hx
    obtain ⟨i, -, hi⟩ := hzmem z hz
    obtain ⟨col, v, x', g1, g2, g3, g4, -⟩ := hi.2 j c hj
    rw [hx] at g3; cases g3
    obtain ⟨classes', k1, k2, k3⟩ := g4 hc
    rw [hcl] at k1; cases k1
    have := List.idxOf_lt_length_of_mem k2
    exact ⟨v, _, k3, by rw [List.getElem?_eq_getElem this, List.getElem_idxOf this]⟩
  obtain ⟨out, o1, o2, o3, o4, o5⟩ := C95_build_df2explain_partial ops hops bb (Zb ++ new) ds ds.className feats hd.columns hd.nodup
    (fun z hz => by
      rcases List.mem_append.1 hz with hz | hz
      · obtain ⟨i, -, hi⟩ := hzmem z hz; exact hi.1
      · exact (hnew z hz).1) hd.discreteNodup hd.discreteIn hd.classDiscrete hd.types
    (fun c hc => by obtain ⟨cl, h1, -⟩ := hd.known c hc; exact (Dict.get?_isSome_iff ds.encoders c).1 ⟨_, h1⟩)
    (fun classes hcl z _ => hbb classes hcl z)
    (fun j c hj hc classes hcl z hz x hx => by
      rcases List.mem_append.1 hz with hz | hz
      · exact hdecz z hz j c hj hc classes hcl x hx
      · obtain ⟨z', hz', he⟩ := (hnew z hz).2 j c hj hc
        rw [he] at hx
        exact hdecz z' hz' j c hj hc classes hcl x hx)
  refine ⟨out, o1, o2, o3, ?_⟩
  intro c hcf
  obtain ⟨j, hj⟩ := List.getElem?_of_mem hcf
  have hck : c ∈ Dict.keys df := by
    have := hd.dfKeys
    rw [← this] at hcf; exact List.mem_of_mem_filter hcf
  obtain ⟨col, hcol⟩ := (Dict.get?_isSome_iff df c).2 hck
  -- split a column of the result
  have hsplit : ∀ {P : List K → V → Prop} {col' : List V}, List.Forall₂ P (Zb ++ new) col' →
      ∃ colb coln, col' = colb ++ coln ∧ List.Forall₂ P Zb colb ∧ List.Forall₂ P new coln := by
    intro P col' hP
    refine ⟨col'.take Zb.length, col'.drop Zb.length, (List.take_append_drop _ _).symm, ?_, ?_⟩
    · have := List.forall₂_take Zb.length hP
      simpa using this
    · have := List.forall₂_drop Zb.length hP
      simpa using this
  by_cases hc : c ∈ ds.discrete
  · obtain ⟨classes, col', h1, h2, h3⟩ := o4 j c hj hc
    obtain ⟨colb, coln, rfl, hPb, hPn⟩ := hsplit h3
    refine ⟨col, colb, coln, hcol, h2, ?_, hPn.length_eq.symm, ?_⟩
    · refine forall₂_comp hb hPb ?_
      rintro i z v hi ⟨x, hx, m, hxm, hm⟩
      obtain ⟨col0, v0, x', g1, g2, g3, g4, -⟩ := hi.2 j c hj
      rw [hcol] at g1; cases g1
      rw [hx] at g3; cases g3
      obtain ⟨classes', k1, k2, k3⟩ := g4 hc
      rw [h1] at k1; cases k1
      rw [hxm] at k3
      have : m = classes.idxOf v0 := Nat.cast_injective k3
      rw [this] at hm
      have hlt := List.idxOf_lt_length_of_mem k2
      rw [List.getElem?_eq_getElem hlt, List.getElem_idxOf hlt] at hm
      rw [g2, hm]
    · intro _ v hv
      obtain ⟨row, hrow, x, hx, m, hxm, hm⟩ := forall₂_mem_right hPn v hv
      obtain ⟨z, hz, he⟩ := (hnew row hrow).2 j c hj hc
      obtain ⟨v', hv', x', hx', m', hxm', hm'⟩ := forall₂_mem_left hPb z hz
      rw [he, hx'] at hx
      cases hx
      rw [hxm] at hxm'
      have : m = m' := Nat.cast_injective hxm'
      rw [this, hm'] at hm
      cases hm
      exact hv'
  · obtain ⟨t, col', h1, h2, h3⟩ := o5 j c hj hc
    obtain ⟨colb, coln, rfl, hPb, hPn⟩ := hsplit h3
    refine ⟨col, colb, coln, hcol, h2, ?_, hPn.length_eq.symm, fun h => absurd h hc⟩
    refine forall₂_comp hb hPb ?_
    rintro i z v hi ⟨x, hx, hxe⟩
    obtain ⟨col0, v0, x', g1, g2, g3, -, g5⟩ := hi.2 j c hj
    rw [hcol] at g1; cases g1
    rw [hx] at g3; cases g3
    obtain ⟨hnv, hint⟩ := g5 hc
    rw [g2, hxe]
    by_cases ht : t = .integer
    · subst ht
      rw [if_pos rfl, hint h1, hnv]
    · rw [if_neg ht, hnv]

/-! ### the selection of the nearest records -/

/-- Specification: `idx` is the selection of at most 100 records of the table: it starts with the 90 nearest ones to the record `x0`. -/
def Spec.Selection (dist : Dict String V → Py K) (df : DF V) (n : Nat) (idx : List Nat) : Prop :=
  idx ≠ [] ∧ idx.length ≤ 100 ∧ (∀ i ∈ idx, i < n) ∧
    ∃ dists near, List.Forall₂ (fun z d => dist z = .ok d) (DF.records df) dists ∧ Spec.IsKNearest dists 100 near ∧ near.take 90 <+: idx

theorem selection_ok (ops : CellOps K V) (ht : Spec.IsTrunc ops.toInt) (argsort : List K → List Nat) (ha : Spec.IsArgsort argsort)
    (dist : Dict String V → Py K) (bb0 : List V → Bool) (df enc : DF V) (discrete : List String) (className : String)
    (les : Dict String (List V)) (n : Nat) (hn : 0 < n) (hnr : DF.nrows df = n) (he : encodeWith ops les discrete df = .ok enc)
    (hdist : ∀ z ∈ DF.records df, ∃ d, dist z = .ok d) :
    ∃ idx, getClosestDiff ops argsort dist bb0 df discrete className les 100 (1 / 10) = .ok idx ∧ Spec.Selection dist df n idx := by
  have hrl : (DF.records df).length = n := by simp [DF.records, hnr]
  obtain ⟨dists, hds⟩ := forall₂_of_forall_exists (fun z d => dist z = .ok d) _ hdist
  have hk := ha.take dists 100
  have hlen : ((argsort dists).take 100).length = min 100 n := by rw [hk.length, ← hds.length_eq, hrl]
  obtain ⟨idx, hidx⟩ : ∃ idx, getClosestDiff ops argsort dist bb0 df discrete className les 100 (1 / 10) = .ok idx := by
    unfold getClosestDiff
    rw [he, py_bind_ok, (mapM_ok_iff _ _ _).2 hds, py_bind_ok]
    unfold chooseIdx
    have hne : ((((pyTake 100 (argsort dists)).length : Nat)) : K) ≠ 0 := by
      have : pyTake 100 (argsort dists) = (argsort dists).take 100 := rfl
      rw [this, hlen]
      have : min 100 n ≠ 0 := by omega
      exact_mod_cast this
    simp only [pyDiv, if_neg hne, py_bind_ok]
    split_ifs <;> exact ⟨_, rfl⟩
  refine ⟨idx, hidx, ?_⟩
  obtain ⟨h1, h2, Z, ds', near, h3, h4, h5, h6, -⟩ := C84_valid_partial ops ht argsort ha dist bb0 df discrete className les 100 (1 / 10)
    (by norm_num) (by norm_num) idx hidx
  have h10 := ht (((100 : Nat) : K) * (1 / 10)) (by positivity)
  have h10' : ops.toInt (((100 : Nat) : K) * (1 / 10)) ≤ 10 := by
    have h : ((ops.toInt (((100 : Nat) : K) * (1 / 10)) : Int) : K) ≤ ((10 : Int) : K) := h10.2.trans (by norm_num)
    exact_mod_cast h
  have hpre : near.take 90 <+: idx := by
    refine List.IsPrefix.trans ?_ h6
    have e : near.take 90 = (near.take (100 - (ops.toInt (((100 : Nat) : K) * (1 / 10))).toNat)).take 90 := by
      rw [List.take_take]; congr 1; omega
    rw [e]
    exact List.take_prefix _ _
  have hnl : near.length = min 100 n := by rw [h5.length, ← h4.length_eq, hrl]
  refine ⟨?_, h1, fun i hi => by rw [← hrl]; exact h2 i hi, ds', near, h4, h5, hpre⟩
  rintro rfl
  have := hpre.length_le
  rw [List.length_take] at this
  simp only [List.length_nil] at this
  omega

theorem df_nrows (ops : CellOps K V) (ds : Dataset V) (feats : List String) (df : DF V) (n : Nat) (hd : Spec.DataFor ops ds feats df n) :
    DF.nrows df = n := nrows_of_rect df n hd.rect ds.className hd.dfClass

theorem build_record (ops : CellOps K V) (hops : Spec.CellLaws ops) (bb : List K → K) (ds : Dataset V) (feats : List String) (df : DF V)
    (n : Nat) (hd : Spec.DataFor ops ds feats df n)
    (hbb : ∀ classes, Dict.get? ds.encoders ds.className = some classes → ∀ row, ∃ v, Spec.Decodes classes (bb row) v)
    (x : List K) (hx : Spec.EncodedRecord ds feats x) : ∃ dfx, buildDf2explain ops bb [x] ds = .ok dfx := by
  obtain ⟨out, h, -⟩ := C95_build_df2explain_partial ops hops bb [x] ds ds.className feats hd.columns hd.nodup
    (fun z hz => by rw [List.mem_singleton.1 hz]; exact hx.1) hd.discreteNodup hd.discreteIn hd.classDiscrete hd.types
    (fun c hc => by obtain ⟨cl, h1, -⟩ := hd.known c hc; exact (Dict.get?_isSome_iff ds.encoders c).1 ⟨_, h1⟩)
    (fun classes hcl z _ => hbb classes hcl z)
    (fun j c hj hc classes hcl z hz w hw => by
      rw [List.mem_singleton.1 hz] at hw
      exact hx.2 j c hj hc classes hcl w hw)
  exact ⟨out, h⟩

/-- **C127**: for a table with a record or more, `closed_real_data` selects at most 100 records, starting with the 90 nearest to the record
to explain, and returns their encoded rows, and a DataFrame with those records in that order, unchanged but for the class, which is
the label that the black box gives to the row. -/
theorem C127_closed_real_data (ops : CellOps K V) (hops : Spec.CellLaws ops) (ht : Spec.IsTrunc ops.toInt) (argsort : List K → List Nat)
    (ha : Spec.IsArgsort argsort) (dist : Dict String V → Dict String V → Py K) (bb : List K → K) (bbV : List V → Bool) (df : DF V)
    (ds : Dataset V) (feats : List String) (n : Nat) (hn : 0 < n) (hd : Spec.DataFor ops ds feats df n)
    (hbb : ∀ classes, Dict.get? ds.encoders ds.className = some classes → ∀ row, ∃ v, Spec.Decodes classes (bb row) v)
    (x : List K) (hx : Spec.EncodedRecord ds feats x) (hdist : ∀ x0, ∀ z ∈ DF.records df, ∃ d, dist x0 z = .ok d) :
    ∃ dfx idx out Z, buildDf2explain ops bb [x] ds = .ok dfx ∧ Spec.Selection (dist (DF.record dfx 0)) df n idx ∧
      closedRealData ops argsort dist bb bbV df x ds = .ok (out, Z) ∧
      List.Forall₂ (fun i z => Spec.CodedRow ops ds feats df i z) idx Z ∧
      Dict.keys out = ds.className :: feats ∧
      (∃ classes col, Dict.get? ds.encoders ds.className = some classes ∧ Dict.get? out ds.className = some col ∧
        List.Forall₂ (fun row v => Spec.Decodes classes (bb row) v) Z col) ∧
      ∀ c ∈ feats, ∃ col col', Dict.get? df c = some col ∧ Dict.get? out c = some col' ∧
        List.Forall₂ (fun (i : Nat) (v : V) => col[i]? = some v) idx col' := by
  obtain ⟨dfx, hdfx⟩ := build_record ops hops bb ds feats df n hd hbb x hx
  obtain ⟨enc, fz, e1, e2, e3⟩ := encoded_rows ops hops ds feats df n hd
  obtain ⟨idx, i1, i2⟩ := selection_ok ops ht argsort ha (dist (DF.record dfx 0)) bbV df enc ds.discrete ds.className ds.encoders n hn
    (df_nrows ops ds feats df n hd) e1 (hdist _)
  obtain ⟨z1, z2⟩ := coded_positions ops ds feats df enc n fz e3 idx i2.2.2.1
  obtain ⟨out, o1, o2, o3, o4⟩ := build_coded ops hops bb ds feats df n hd hbb idx _ [] z2 (by simp)
  rw [List.append_nil] at o1 o3
  refine ⟨dfx, idx, out, idx.map fz, hdfx, i2, ?_, z2, o2, o3, ?_⟩
  · simp only [closedRealData, hdfx, i1, e1, z1, o1, py_bind_ok]
    rfl
  · intro c hc
    obtain ⟨col, colb, coln, h1, h2, h3, h4, -⟩ := o4 c hc
    rw [List.length_eq_zero_iff.1 h4, List.append_nil] at h2
    exact ⟨col, colb, h1, h2, h3⟩

/-! ### random records -/

theorem randomLoop_total (rng : GPRng R K) (std : List K → K) (toInt : K → Int) (types : Dict String DType)
    (X : List (List K)) (hX : X ≠ []) (discrete continuous : List String) (size : Nat) :
    ∀ (ps : List (String × Nat)) (prev : Option (List K)) (r : R),
      (∀ p ∈ ps, (p.1 ∈ discrete ∨ p.1 ∈ continuous) ∧ p.1 ∈ Dict.keys types ∧ ∀ row ∈ X, p.2 < row.length) →
      ∃ cols r', randomLoop rng std toInt types X discrete continuous size ps prev r = .ok (cols, r') ∧ cols.length = ps.length := by
  intro ps
  induction ps with
  | nil => intro prev r _; exact ⟨_, _, rfl, rfl⟩
  | cons p ps ih =>
    intro prev r hp
    obtain ⟨hpc, hpt, hpl⟩ := hp p (by simp)
    obtain ⟨values, hv⟩ := forall₂_of_forall_exists (fun (row : List K) v => row[p.2]? = some v) X
      (fun row hr => ⟨_, List.getElem?_eq_getElem (hpl row hr)⟩)
    have hcol := (column_eq_ok_iff X p.2 values).2 hv
    obtain ⟨t, hty⟩ := (Dict.get?_isSome_iff types p.1).2 hpt
    obtain ⟨v, r1, hc⟩ : ∃ v r1, randomColumn rng std toInt types p.1 discrete continuous size values prev r = .ok (v, r1) := by
      obtain ⟨v0, r0, h0⟩ : ∃ v r1, randomValues rng std p.1 discrete continuous size values prev r = .ok (v, r1) := by
        unfold randomValues
        by_cases hd : p.1 ∈ discrete
        · rw [if_pos hd]; exact ⟨_, _, rfl⟩
        · rw [if_neg hd, if_pos (hpc.resolve_left hd)]
          split_ifs
          · cases values with
            | nil => cases hv; exact absurd rfl hX
            | cons a l => exact ⟨_, _, rfl⟩
          · exact ⟨_, _, rfl⟩
      refine ⟨if t = .integer then v0.map (fun x => ((toInt x : Int) : K)) else v0, r0, ?_⟩
      · simp only [randomColumn, h0, Dict.get_eq_ok_iff.2 hty, py_bind_ok]
        rfl
    obtain ⟨cols, r', hl, hlen⟩ := ih (some v) r1 (fun q hq => hp q (by simp [hq]))
    exact ⟨v :: cols, r', by simp only [randomLoop, hcol, hc, hl, py_bind_ok]; rfl, by simp [hlen]⟩

/-- **C102**: `generate_random_data` succeeds for a table with a row and a feature or more whose columns are discrete or continuous and have a
type. -/
theorem C102_total (rng : GPRng R K) (std : List K → K) (toInt : K → Int) (types : Dict String DType) (X : List (List K)) (hX : X ≠ [])
    (className : String) (columns discrete continuous : List String) (hclass : className ∈ columns) (hlen : 2 ≤ columns.length)
    (hin : ∀ c ∈ columns.erase className, c ∈ discrete ∨ c ∈ continuous) (htypes : ∀ c ∈ columns.erase className, c ∈ Dict.keys types)
    (hrow : ∀ row ∈ X, columns.length - 1 ≤ row.length) (size : Nat) (r : R) :
    ∃ Z r', generateRandomData rng std toInt types X className columns discrete continuous size r = .ok (Z, r') := by
  obtain ⟨cols, r', h1, h2⟩ := randomLoop_total rng std toInt types X hX discrete continuous size (columns.erase className).zipIdx none r (by
    rintro ⟨c, j⟩ hp
    rw [List.mem_zipIdx_iff_getElem?] at hp
    refine ⟨hin c (List.mem_of_getElem? hp), htypes c (List.mem_of_getElem? hp), fun row hr => ?_⟩
    have := (List.getElem?_eq_some_iff.1 hp).1
    rw [List.length_erase_of_mem hclass] at this
    exact lt_of_lt_of_le this (hrow row hr))
  have hne : cols ≠ [] := by
    rintro rfl
    rw [List.length_zipIdx, List.length_erase_of_mem hclass] at h2
    simp at h2
    omega
  refine ⟨X ++ columnStack size cols, r', ?_⟩
  · simp only [generateRandomData, pyRemove, if_pos hclass, py_bind_ok, h1, if_neg hne]
    rfl

/-- the base rows of `random_neighborhood`. -/
theorem randomBase_ok (ops : CellOps K V) (hops : Spec.CellLaws ops) (ht : Spec.IsTrunc ops.toInt) (argsort : List K → List Nat)
    (ha : Spec.IsArgsort argsort) (dist : Dict String V → Dict String V → Py K) (bb : List K → K) (bbV : List V → Bool) (df : DF V)
    (ds : Dataset V) (feats : List String) (n : Nat) (hn : 0 < n) (hd : Spec.DataFor ops ds feats df n)
    (hbb : ∀ classes, Dict.get? ds.encoders ds.className = some classes → ∀ row, ∃ v, Spec.Decodes classes (bb row) v)
    (x : List K) (hx : Spec.EncodedRecord ds feats x) (hdist : ∀ x0, ∀ z ∈ DF.records df, ∃ d, dist x0 z = .ok d) (stratified : Bool) :
    ∃ idx Z, randomBase ops argsort dist bb bbV df x ds stratified = .ok Z ∧ idx ≠ [] ∧
      (stratified = false → idx = List.range n) ∧
      (stratified = true → ∃ dfx, buildDf2explain ops bb [x] ds = .ok dfx ∧ Spec.Selection (dist (DF.record dfx 0)) df n idx) ∧
      List.Forall₂ (fun i z => Spec.CodedRow ops ds feats df i z) idx Z := by
  obtain ⟨dfx, hdfx⟩ := build_record ops hops bb ds feats df n hd hbb x hx
  obtain ⟨enc, fz, e1, e2, e3⟩ := encoded_rows ops hops ds feats df n hd
  cases stratified with
  | true =>
    obtain ⟨idx, i1, i2⟩ := selection_ok ops ht argsort ha (dist (DF.record dfx 0)) bbV df enc ds.discrete ds.className ds.encoders n hn
      (df_nrows ops ds feats df n hd) e1 (hdist _)
    obtain ⟨z1, z2⟩ := coded_positions ops ds feats df enc n fz e3 idx i2.2.2.1
    refine ⟨idx, _, ?_, i2.1, by simp, fun _ => ⟨dfx, hdfx, i2⟩, z2⟩
    simp only [randomBase, if_true, hdfx, i1, e1, z1, py_bind_ok]
  | false =>
    obtain ⟨z1, z2⟩ := coded_positions ops ds feats df enc n fz e3 (List.range n) (fun i hi => List.mem_range.1 hi)
    have hrows : (List.range n).filterMap (fun i => (DF.rowsWithout enc ds.className)[i]?) = DF.rowsWithout enc ds.className := by
      have hl : (DF.rowsWithout enc ds.className).length = n := by simp [DF.rowsWithout, e2]
      generalize DF.rowsWithout enc ds.className = l at hl
      subst hl
      exact filterMap_range_get l
    rw [hrows] at z1
    refine ⟨List.range n, _, ?_, ?_, fun _ => rfl, by simp, z2⟩
    · simp only [randomBase, Bool.false_eq_true, if_false, e1, z1, py_bind_ok]
    · intro h
      have := congrArg List.length h
      simp at this
      omega

/-- **C128**: for a table with a record or more and a dataset with a feature or more, `random_neighborhood` returns the encoded rows of the
selected records (of all of them if not stratified) followed by 1000 random rows, and a DataFrame with a record for each of these rows: the
class is the label that the black box gives to the row; the first records are those of the table, unchanged but for the class; in the
random records every category is one of the same column in the first records, and so is its code in the random rows. -/
theorem C128_random_neighborhood (rng : GPRng R K) (hf : Spec.FairDraws rng) (std : List K → K) (ops : CellOps K V)
    (hops : Spec.CellLaws ops) (ht : Spec.IsTrunc ops.toInt) (argsort : List K → List Nat)
    (ha : Spec.IsArgsort argsort) (dist : Dict String V → Dict String V → Py K) (bb : List K → K) (bbV : List V → Bool) (df : DF V)
    (ds : Dataset V) (feats : List String) (hfe : feats ≠ []) (hin : ∀ c ∈ feats, c ∈ ds.discrete ∨ c ∈ ds.continuous)
    (n : Nat) (hn : 0 < n) (hd : Spec.DataFor ops ds feats df n)
    (hbb : ∀ classes, Dict.get? ds.encoders ds.className = some classes → ∀ row, ∃ v, Spec.Decodes classes (bb row) v)
    (x : List K) (hx : Spec.EncodedRecord ds feats x) (hdist : ∀ x0, ∀ z ∈ DF.records df, ∃ d, dist x0 z = .ok d) (stratified : Bool)
    (r : R) :
    ∃ idx base new out r', randomNeighborhood rng std ops argsort dist bb bbV df x ds stratified r = .ok ((out, base ++ new), r') ∧
      idx ≠ [] ∧ (stratified = false → idx = List.range n) ∧
      (stratified = true → ∃ dfx, buildDf2explain ops bb [x] ds = .ok dfx ∧ Spec.Selection (dist (DF.record dfx 0)) df n idx) ∧
      List.Forall₂ (fun i z => Spec.CodedRow ops ds feats df i z) idx base ∧
      new.length = 1000 ∧ (∀ row ∈ new, row.length = feats.length ∧ ∀ (j : Nat) (c : String), feats[j]? = some c → c ∈ ds.discrete →
        ∃ z ∈ base, row[j]? = z[j]?) ∧
      Dict.keys out = ds.className :: feats ∧
      (∃ classes col, Dict.get? ds.encoders ds.className = some classes ∧ Dict.get? out ds.className = some col ∧
        List.Forall₂ (fun row v => Spec.Decodes classes (bb row) v) (base ++ new) col) ∧
      ∀ c ∈ feats, ∃ col colb coln, Dict.get? df c = some col ∧ Dict.get? out c = some (colb ++ coln) ∧
        List.Forall₂ (fun (i : Nat) (v : V) => col[i]? = some v) idx colb ∧ coln.length = 1000 ∧
        (c ∈ ds.discrete → ∀ v ∈ coln, v ∈ colb) := by
  obtain ⟨idx, base, b1, b2, b3, b4, b5⟩ := randomBase_ok ops hops ht argsort ha dist bb bbV df ds feats n hn hd hbb x hx hdist stratified
  have her : ds.columns.erase ds.className = feats := by rw [hd.columns]; simp
  have hbase : base ≠ [] := by rintro rfl; cases b5; exact b2 rfl
  have hbl : ∀ z ∈ base, z.length = feats.length := by
    intro z hz
    obtain ⟨i, -, hi⟩ := forall₂_mem_right b5 z hz
    exact hi.1
  obtain ⟨Z, r', g⟩ := C102_total rng std ops.toInt ds.types base hbase ds.className ds.columns ds.discrete ds.continuous
    (by rw [hd.columns]; simp) (by
      rw [hd.columns]
      have := List.length_pos_of_ne_nil hfe
      simp; omega) (by rw [her]; exact hin) (by rw [her]; exact fun c hc => hd.types c (by simp [hc]))
    (fun row hrow => by rw [hd.columns, hbl row hrow]; simp) 1000 r
  obtain ⟨new, n1, n2, n3⟩ := C102_random_data rng hf std ops.toInt ds.types base hbase ds.className ds.columns ds.discrete ds.continuous
    (by rw [her]; exact hin) 1000 r r' Z g
  rw [her] at n3
  subst n1
  have hnew : ∀ row ∈ new, row.length = feats.length ∧ ∀ (j : Nat) (c : String), feats[j]? = some c → c ∈ ds.discrete →
      ∃ z ∈ base, row[j]? = z[j]? := by
    intro row hrow
    refine ⟨(n3 row hrow).1, fun j c hj hc => ?_⟩
    obtain ⟨w, hw, values, t, hv, htt, hobs⟩ := (n3 row hrow).2 j c hj
    obtain ⟨u, hu, he⟩ := hobs (.inl hc)
    obtain ⟨z, hz, hzj⟩ := forall₂_mem_right ((column_eq_ok_iff base j values).1 hv) u hu
    refine ⟨z, hz, ?_⟩
    rw [hw, hzj, he]
    obtain ⟨i, -, hi⟩ := forall₂_mem_right b5 z hz
    obtain ⟨col, v, x', -, -, g3, g4, -⟩ := hi.2 j c hj
    rw [hzj] at g3; cases g3
    obtain ⟨classes, -, -, k3⟩ := g4 hc
    split_ifs
    · rw [k3, hops.toInt_nat]; simp
    · rfl
  obtain ⟨out, o1, o2, o3, o4⟩ := build_coded ops hops bb ds feats df n hd hbb idx base new b5 hnew
  refine ⟨idx, base, new, out, r', ?_, b2, b3, b4, b5, n2, hnew, o2, o3, ?_⟩
  · simp only [randomNeighborhood, b1, g, o1, py_bind_ok]
    rfl
  · intro c hc
    obtain ⟨col, colb, coln, h1, h2, h3, h4, h5⟩ := o4 c hc
    exact ⟨col, colb, coln, h1, h2, h3, h4.trans n2, h5⟩

/-! ### examples -/

theorem gd_data : Spec.DataFor ratOps bdFirst ["age", "job"] gdDf 3 where
  columns := rfl
  nodup := by decide
  dfNodup := by decide +kernel
  dfKeys := by decide +kernel
  dfClass := by decide +kernel
  rect := by
    intro c col h
    have := Dict.mem_of_get? h
    simp only [gdDf, List.mem_cons, Prod.mk.injEq, List.not_mem_nil, or_false] at this
    rcases this with ⟨-, rfl⟩ | ⟨-, rfl⟩ | ⟨-, rfl⟩ <;> rfl
  discreteNodup := by decide +kernel
  discreteIn := by decide +kernel
  classDiscrete := by decide +kernel
  types := by decide +kernel
  known := by
    intro c hc
    simp only [bdFirst, List.mem_cons, List.not_mem_nil, or_false] at hc
    rcases hc with rfl | rfl
    · exact ⟨[5, 7], by decide +kernel, fun col h v hv => by
        have e : Dict.get? gdDf "job" = some [7, 5, 7] := by decide +kernel
        rw [e] at h; cases h; revert v; decide +kernel⟩
    · exact ⟨[3, 8], by decide +kernel, fun col h v hv => by
        have e : Dict.get? gdDf "cls" = some [8, 3, 8] := by decide +kernel
        rw [e] at h; cases h; revert v; decide +kernel⟩
  numbers := by
    intro c hc hcd col h v hv
    simp only [List.mem_cons, List.not_mem_nil, or_false] at hc
    rcases hc with rfl | rfl
    · have e : Dict.get? gdDf "age" = some [30, 50, 40] := by decide +kernel
      rw [e] at h; cases h
      refine ⟨v, rfl, rfl, fun _ => ?_⟩
      revert v; decide +kernel
    · exact absurd (by decide +kernel) hcd

example : closedRealData ratOps argsortIns (fun x z => .ok |(Dict.get? x "age").getD 0 - (Dict.get? z "age").getD 0|)
    (fun _ => 1) (fun _ => true) gdDf [41, 1] bdFirst
    = .ok ([("cls", [8, 8, 8]), ("age", [40, 50, 30]), ("job", [7, 5, 7])], [[40, 1], [50, 0], [30, 1]]) := by decide +kernel

theorem exRng_fair : Spec.FairDraws exRng :=
  ⟨fun vs n r => ⟨by simp [exRng], fun hne x hx => by
    have hx' := List.eq_of_mem_replicate hx
    cases vs with
    | nil => exact absurd rfl hne
    | cons a l => simp [hx']⟩, fun m s n r => by simp [exRng]⟩

theorem ratOps_trunc : Spec.IsTrunc ratOps.toInt := fun x hx => ⟨Int.floor_nonneg.2 hx, Int.floor_le x⟩

/-- the hypotheses of C127 and C128 hold of a table with three records. -/
example : ∃ idx base new out r', randomNeighborhood exRng (fun _ => 1) ratOps argsortIns
    (fun x z => .ok |(Dict.get? x "age").getD 0 - (Dict.get? z "age").getD 0|) (fun _ => 1) (fun _ => true) gdDf [41, 1] bdFirst true 0
      = .ok ((out, base ++ new), r') ∧ idx ≠ [] ∧ List.Forall₂ (fun i z => Spec.CodedRow ratOps bdFirst ["age", "job"] gdDf i z) idx base ∧
      new.length = 1000 := by
  obtain ⟨idx, base, new, out, r', h1, h2, -, -, h3, h4, -⟩ := C128_random_neighborhood exRng exRng_fair (fun _ => 1) ratOps ratOps_laws
    ratOps_trunc argsortIns argsortIns_spec (fun x z => .ok |(Dict.get? x "age").getD 0 - (Dict.get? z "age").getD 0|) (fun _ => 1)
    (fun _ => true) gdDf bdFirst ["age", "job"] (by decide) (by decide +kernel) 3 (by decide) gd_data
    (fun classes h row => by
      have e : Dict.get? bdFirst.encoders bdFirst.className = some [3, 8] := by decide +kernel
      rw [e] at h; cases h
      exact ⟨8, 1, by norm_num, rfl⟩) [41, 1]
    ⟨rfl, fun j c hj hc classes hcl w hw => by
      match j, hj with
      | 0, hj => cases hj; exact absurd hc (by decide +kernel)
      | 1, hj =>
        cases hj
        cases hw
        have e : Dict.get? bdFirst.encoders "job" = some [5, 7] := by decide +kernel
        rw [e] at hcl; cases hcl
        exact ⟨7, 1, by norm_num, rfl⟩⟩ (fun _ _ _ => ⟨_, rfl⟩) true 0
  exact ⟨idx, base, new, out, r', h1, h2, h3, h4⟩

end Teacher
