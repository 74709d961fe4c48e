import Verif.Model.Utils
import Verif.Lemmas.Basic
import Verif.Lemmas.FDTFit
import Mathlib.Data.Rat.Defs
import Mathlib.Algebra.Order.Field.Rat
import Mathlib.Data.Rat.Floor

/-!
# C79: `label_encode` and `label_decode`
-/

set_option linter.unusedSectionVars false

namespace Teacher

variable {K V : Type} [Field K] [LinearOrder K] [IsStrictOrderedRing K] [LinearOrder V]

namespace Spec

/-- Specification: the numbers among the cells can be read back, and `int(·)` is right on natural numbers. -/
structure CellLaws (ops : CellOps K V) : Prop where
  toNum_num : ∀ x, ops.toNum (ops.num x) = some x
  toInt_nat : ∀ n : Nat, ops.toInt ((n : Nat) : K) = (n : Int)

/-- Specification: `enc` is `col` with every value replaced by its position among the different values of `col` in increasing order: the
number of different values of `col` below it. -/
def IsCoded (ops : CellOps K V) (col enc : List V) : Prop :=
  List.Forall₂ (fun v e => e = ops.num ((((col.filter (fun w => w < v)).dedup.length : Nat) : K))) col enc

end Spec

theorem idxOf_sorted (l : List V) (h : l.Pairwise (· < ·)) (v : V) (hv : v ∈ l) :
    l.idxOf v = (l.filter (fun w => w < v)).length := by
  induction l with
  | nil => simp at hv
  | cons a l ih =>
    have h' := List.pairwise_cons.1 h
    rcases List.mem_cons.1 hv with rfl | hv
    · have : l.filter (fun w => w < v) = [] := by
        rw [List.filter_eq_nil_iff]; intro w hw; simpa using (h'.1 w hw).le
      simp [this]
    · have hlt := h'.1 v hv
      rw [List.idxOf_cons_ne _ hlt.ne, ih h'.2 hv]
      simp [hlt]

theorem idxOf_npUnique (col : List V) (v : V) (hv : v ∈ col) :
    (npUnique col).idxOf v = (col.filter (fun w => w < v)).dedup.length := by
  rw [idxOf_sorted _ (npUnique_pairwise col) v ((mem_npUnique _ _).2 hv)]
  apply List.Perm.length_eq
  rw [List.perm_ext_iff_of_nodup ((npUnique_nodup col).filter _) (List.nodup_dedup _)]
  intro a
  simp [List.mem_filter, mem_npUnique]

theorem leTransform_fit (ops : CellOps K V) (col : List V) :
    leTransform ops (leFit col) col = .ok (col.map (fun v => ops.num (((npUnique col).idxOf v : Nat) : K))) := by
  apply mapM_ok_of_forall
  intro v hv
  simp [leTransform1, leFit, (mem_npUnique _ _).2 hv]

theorem leInverse_fit (ops : CellOps K V) (hops : Spec.CellLaws ops) (col : List V) :
    leInverse ops (leFit col) (col.map (fun v => ops.num (((npUnique col).idxOf v : Nat) : K))) = .ok col := by
  unfold leInverse
  rw [mapM_ok_iff, List.forall₂_map_left_iff, List.forall₂_same]
  intro v hv
  have hm : (npUnique col).idxOf v < (npUnique col).length := List.idxOf_lt_length_of_mem ((mem_npUnique _ _).2 hv)
  simp only [leInverse1, hops.toNum_num, hops.toInt_nat, leFit, Int.cast_natCast, if_true]
  show leClass (npUnique col) (Int.ofNat _) = _
  simp only [leClass]
  rw [List.getElem?_eq_getElem hm, List.getElem_idxOf hm]

theorem Dict.ext_nodup {κ ν : Type} [DecidableEq κ] : ∀ {d e : Dict κ ν}, Dict.keys d = Dict.keys e → (Dict.keys d).Nodup →
    (∀ k, Dict.get? d k = Dict.get? e k) → d = e
  | [], [], _, _, _ => rfl
  | [], p :: e, h, _, _ => by simp [Dict.keys] at h
  | p :: d, [], h, _, _ => by simp [Dict.keys] at h
  | (k, v) :: d, (k', v') :: e, h, hn, hg => by
    simp only [Dict.keys, List.map_cons, List.cons.injEq] at h
    obtain ⟨rfl, h⟩ := h
    have hv : v = v' := by have := hg k; simpa [Dict.get?] using this
    subst hv
    simp only [Dict.keys, List.map_cons, List.nodup_cons] at hn
    rw [Dict.ext_nodup (d := d) (e := e) h hn.2]
    intro a
    have := hg a
    simp only [Dict.get?] at this
    by_cases hka : k = a
    · subst hka
      rw [(Dict.get?_eq_none_iff d k).2 hn.1, (Dict.get?_eq_none_iff e k).2]
      show k ∉ e.map Prod.fst
      rw [← h]; exact hn.1
    · simpa [hka] using this

theorem Dict.keys_set_mem {κ ν : Type} [DecidableEq κ] (d : Dict κ ν) (k : κ) (v : ν) (h : k ∈ Dict.keys d) :
    Dict.keys (Dict.set d k v) = Dict.keys d := by
  rw [Dict.keys_set, if_pos h]

theorem encodeNew_spec (ops : CellOps K V) (columns : List String) (hn : columns.Nodup) (df : DF V)
    (hc : ∀ c ∈ columns, c ∈ Dict.keys df) (les : Dict String (List V)) :
    ∃ enc les', encodeNew ops columns df les = .ok (enc, les') ∧ Dict.keys enc = Dict.keys df ∧
      (∀ c, c ∉ columns → Dict.get? enc c = Dict.get? df c ∧ Dict.get? les' c = Dict.get? les c) ∧
      (∀ c ∈ columns, ∃ col, Dict.get? df c = some col ∧ Dict.get? les' c = some (leFit col) ∧
        Dict.get? enc c = some (col.map (fun v => ops.num (((npUnique col).idxOf v : Nat) : K)))) ∧
      (∀ c ∈ Dict.keys les', c ∈ columns ∨ c ∈ Dict.keys les) := by
  induction columns generalizing df les with
  | nil => exact ⟨df, les, rfl, rfl, by simp, by simp, by simp⟩
  | cons c cs ih =>
    obtain ⟨hnc, hn⟩ := List.nodup_cons.1 hn
    obtain ⟨col, hcol⟩ := (Dict.get?_isSome_iff df c).2 (hc c (by simp))
    have hk := Dict.keys_set_mem df c (col.map (fun v => ops.num (((npUnique col).idxOf v : Nat) : K))) (hc c (by simp))
    obtain ⟨enc, les', h1, h2, h3, h4, h5⟩ := ih hn (Dict.set df c (col.map (fun v => ops.num (((npUnique col).idxOf v : Nat) : K))))
      (fun c' hc' => by rw [hk]; exact hc c' (by simp [hc'])) (Dict.set les c (leFit col))
    refine ⟨enc, les', ?_, h2.trans hk, ?_, ?_, ?_⟩
    · simp only [encodeNew, Dict.get_eq_ok_iff.2 hcol, leTransform_fit, py_bind_ok]
      exact h1
    · intro c' hc'
      simp only [List.mem_cons, not_or] at hc'
      have := h3 c' hc'.2
      rw [Dict.get?_set, Dict.get?_set, if_neg (fun h => hc'.1 h.symm), if_neg (fun h => hc'.1 h.symm)] at this
      exact this
    · intro c' hc'
      rcases List.mem_cons.1 hc' with rfl | hc'
      · have := h3 c' hnc
        rw [Dict.get?_set, Dict.get?_set, if_pos rfl, if_pos rfl] at this
        exact ⟨col, hcol, this.2, this.1⟩
      · obtain ⟨col', q1, q2, q3⟩ := h4 c' hc'
        rw [Dict.get?_set, if_neg (fun (h : c = c') => hnc (h ▸ hc'))] at q1
        exact ⟨col', q1, q2, q3⟩
    · intro c' hc'
      rcases h5 c' hc' with h | h
      · exact .inl (by simp [h])
      · rw [Dict.keys_set] at h
        split at h
        · exact .inr h
        · simp only [List.mem_append, List.mem_singleton] at h
          rcases h with h | rfl
          · exact .inr h
          · exact .inl (by simp)

theorem labelDecode_spec (ops : CellOps K V) (les : Dict String (List V)) (columns : List String) (hn : columns.Nodup) (df : DF V)
    (f : String → List V) (hc : ∀ c ∈ columns, ∃ le col, Dict.get? les c = some le ∧ Dict.get? df c = some col ∧
      leInverse ops le col = .ok (f c)) :
    ∃ dec, labelDecode ops les columns df = .ok dec ∧ Dict.keys dec = Dict.keys df ∧
      (∀ c, c ∉ columns → Dict.get? dec c = Dict.get? df c) ∧ (∀ c ∈ columns, Dict.get? dec c = some (f c)) := by
  induction columns generalizing df with
  | nil => exact ⟨df, rfl, rfl, by simp, by simp⟩
  | cons c cs ih =>
    obtain ⟨hnc, hn⟩ := List.nodup_cons.1 hn
    obtain ⟨le, col, q1, q2, q3⟩ := hc c (by simp)
    obtain ⟨dec, h1, h2, h3, h4⟩ := ih hn (Dict.set df c (f c)) (fun c' hc' => by
      obtain ⟨le, col, q1, q2, q3⟩ := hc c' (by simp [hc'])
      refine ⟨le, col, q1, ?_, q3⟩
      rw [Dict.get?_set, if_neg (fun (h : c = c') => hnc (h ▸ hc'))]; exact q2)
    refine ⟨dec, ?_, ?_, ?_, ?_⟩
    · simp only [labelDecode, Dict.get_eq_ok_iff.2 q1, Dict.get_eq_ok_iff.2 q2, q3, py_bind_ok]
      exact h1
    · rw [h2, Dict.keys_set_mem]
      exact (Dict.get?_isSome_iff df c).1 ⟨_, q2⟩
    · intro c' hc'
      simp only [List.mem_cons, not_or] at hc'
      rw [h3 c' hc'.2, Dict.get?_set, if_neg (fun h => hc'.1 h.symm)]
    · intro c' hc'
      rcases List.mem_cons.1 hc' with rfl | hc'
      · rw [h3 c' hnc, Dict.get?_set, if_pos rfl]
      · exact h4 c' hc'

/-- **C79**: for every DataFrame and every list of different columns of it, `label_encode` succeeds, keeps the columns and their order,
does not change the other columns, replaces every value of an encoded column by its position among the different values of the column
in increasing order, its encoders are exactly for these columns, and `label_decode` with them restores the DataFrame. -/
theorem C79_roundtrip (ops : CellOps K V) (hops : Spec.CellLaws ops) (df : DF V) (hdf : (Dict.keys df).Nodup) (columns : List String)
    (hn : columns.Nodup) (hc : ∀ c ∈ columns, c ∈ Dict.keys df) :
    ∃ enc les, labelEncode ops df columns none = .ok (enc, les) ∧
      Dict.keys enc = Dict.keys df ∧
      (∀ c, c ∉ columns → Dict.get? enc c = Dict.get? df c) ∧
      (∀ c ∈ columns, ∃ col col', Dict.get? df c = some col ∧ Dict.get? enc c = some col' ∧ Spec.IsCoded ops col col') ∧
      (∀ c, c ∈ Dict.keys les ↔ c ∈ columns) ∧
      labelDecode ops les columns enc = .ok df := by
  obtain ⟨enc, les, h1, h2, h3, h4, h5⟩ := encodeNew_spec ops columns hn df hc []
  refine ⟨enc, les, h1, h2, fun c hc => (h3 c hc).1, ?_, ?_, ?_⟩
  · intro c hc
    obtain ⟨col, q1, q2, q3⟩ := h4 c hc
    refine ⟨col, _, q1, q3, ?_⟩
    unfold Spec.IsCoded
    rw [List.forall₂_map_right_iff, List.forall₂_same]
    intro v hv
    rw [idxOf_npUnique col v hv]
  · intro c
    constructor
    · intro h
      rcases h5 c h with h | h
      · exact h
      · simp [Dict.keys] at h
    · intro h
      obtain ⟨col, q1, q2, q3⟩ := h4 c h
      exact (Dict.get?_isSome_iff les c).1 ⟨_, q2⟩
  · obtain ⟨dec, d1, d2, d3, d4⟩ := labelDecode_spec ops les columns hn enc (fun c => (Dict.get? df c).getD []) (fun c hc => by
      obtain ⟨col, q1, q2, q3⟩ := h4 c hc
      exact ⟨_, _, q2, q3, by rw [q1]; exact leInverse_fit ops hops col⟩)
    rw [d1]
    congr 1
    apply Dict.ext_nodup (d2.trans h2) (by rw [d2, h2]; exact hdf)
    intro c
    by_cases h : c ∈ columns
    · obtain ⟨col, q1, q2, q3⟩ := h4 c h
      rw [d4 c h, q1]; rfl
    · rw [d3 c h, (h3 c h).1]

theorem leTransform_unseen (ops : CellOps K V) (classes col : List V) (v : V) (hv : v ∈ col) (hun : v ∉ classes) :
    leTransform ops classes col = .error .valueError := by
  apply mapM_error_eq
  · intro a _ e' h
    simp only [leTransform1] at h
    split at h <;> simp_all
  · exact ⟨v, hv, by simp [leTransform1, hun]⟩

theorem leTransform_cases (ops : CellOps K V) (classes col : List V) :
    (∃ r, leTransform ops classes col = .ok r) ∨ leTransform ops classes col = .error .valueError := by
  by_cases h : ∀ v ∈ col, v ∈ classes
  · left
    exact ⟨_, mapM_ok_of_forall _ (fun v => ops.num (classes.idxOf v : K)) _ (fun v hv => by simp [leTransform1, h v hv])⟩
  · right
    push Not at h
    obtain ⟨v, hv, hun⟩ := h
    exact leTransform_unseen ops classes col v hv hun

/-- **C79**: encoding with given encoders raises `ValueError` exactly when some column has a value that its encoder has not seen. -/
theorem C79_unseen (ops : CellOps K V) (les : Dict String (List V)) (df : DF V) (columns : List String) (hn : columns.Nodup)
    (hc : ∀ c ∈ columns, c ∈ Dict.keys df ∧ c ∈ Dict.keys les) :
    labelEncode ops df columns (some les) = .error .valueError ↔
      ∃ c ∈ columns, ∃ col classes, Dict.get? df c = some col ∧ Dict.get? les c = some classes ∧ ∃ v ∈ col, v ∉ classes := by
  have key : ∀ df : DF V, (∀ c ∈ columns, c ∈ Dict.keys df ∧ c ∈ Dict.keys les) →
      (encodeWith ops les columns df = .error .valueError ↔
        ∃ c ∈ columns, ∃ col classes, Dict.get? df c = some col ∧ Dict.get? les c = some classes ∧ ∃ v ∈ col, v ∉ classes) := by
    clear hc
    induction columns with
    | nil => intro df _; simp [encodeWith]
    | cons c cs ih =>
      intro df hc
      obtain ⟨hnc, hn⟩ := List.nodup_cons.1 hn
      obtain ⟨col, hcol⟩ := (Dict.get?_isSome_iff df c).2 (hc c (by simp)).1
      obtain ⟨le, hle⟩ := (Dict.get?_isSome_iff les c).2 (hc c (by simp)).2
      simp only [encodeWith, Dict.get_eq_ok_iff.2 hcol, Dict.get_eq_ok_iff.2 hle, py_bind_ok]
      rcases leTransform_cases ops le col with ⟨r, hr⟩ | hr
      · rw [hr, py_bind_ok, ih hn (Dict.set df c r) (fun c' hc' => by
          rw [Dict.keys_set_mem _ _ _ (hc c (by simp)).1]; exact hc c' (by simp [hc']))]
        constructor
        · rintro ⟨c', hc', col', cl, q1, q2, q3⟩
          rw [Dict.get?_set, if_neg (fun (h : c = c') => hnc (h ▸ hc'))] at q1
          exact ⟨c', by simp [hc'], col', cl, q1, q2, q3⟩
        · rintro ⟨c', hc', col', cl, q1, q2, q3⟩
          rcases List.mem_cons.1 hc' with rfl | hc'
          · rw [hcol] at q1; rw [hle] at q2
            cases q1; cases q2
            obtain ⟨v, hv, hun⟩ := q3
            rw [leTransform_unseen ops le col v hv hun] at hr
            cases hr
          · refine ⟨c', hc', col', cl, ?_, q2, q3⟩
            rw [Dict.get?_set, if_neg (fun (h : c = c') => hnc (h ▸ hc'))]; exact q1
      · rw [hr]
        refine iff_of_true rfl ⟨c, by simp, col, le, hcol, hle, ?_⟩
        by_contra hcon
        push Not at hcon
        have := mapM_ok_of_forall (leTransform1 ops le) (fun v => ops.num (le.idxOf v : K)) col
          (fun v hv => by simp [leTransform1, hcon v hv])
        unfold leTransform at hr
        rw [this] at hr
        cases hr
  rw [← key df hc]
  simp only [labelEncode]
  cases h : encodeWith ops les columns df with
  | error e => simp [bind, Except.bind]
  | ok r => simp

/-- **C79**: a column without encoder raises `KeyError`. -/
theorem C79_no_encoder (ops : CellOps K V) (les : Dict String (List V)) (df : DF V) (c : String) (cs : List String)
    (hle : c ∉ Dict.keys les) : labelEncode ops df (c :: cs) (some les) = .error .keyError := by
  have : Dict.get les c = .error .keyError := by simp [Dict.get, (Dict.get?_eq_none_iff les c).2 hle]
  simp only [labelEncode, encodeWith, this]
  rfl

theorem encodeWith_spec (ops : CellOps K V) (les : Dict String (List V)) (columns : List String) (hn : columns.Nodup) (df : DF V)
    (f : String → List V) (hc : ∀ c ∈ columns, ∃ le col, Dict.get? les c = some le ∧ Dict.get? df c = some col ∧
      leTransform ops le col = .ok (f c)) :
    ∃ enc, encodeWith ops les columns df = .ok enc ∧ Dict.keys enc = Dict.keys df ∧
      (∀ c, c ∉ columns → Dict.get? enc c = Dict.get? df c) ∧ (∀ c ∈ columns, Dict.get? enc c = some (f c)) := by
  induction columns generalizing df with
  | nil => exact ⟨df, rfl, rfl, by simp, by simp⟩
  | cons c cs ih =>
    obtain ⟨hnc, hn⟩ := List.nodup_cons.1 hn
    obtain ⟨le, col, q1, q2, q3⟩ := hc c (by simp)
    obtain ⟨dec, h1, h2, h3, h4⟩ := ih hn (Dict.set df c (f c)) (fun c' hc' => by
      obtain ⟨le, col, q1, q2, q3⟩ := hc c' (by simp [hc'])
      refine ⟨le, col, q1, ?_, q3⟩
      rw [Dict.get?_set, if_neg (fun (h : c = c') => hnc (h ▸ hc'))]; exact q2)
    refine ⟨dec, ?_, ?_, ?_, ?_⟩
    · simp only [encodeWith, Dict.get_eq_ok_iff.2 q1, Dict.get_eq_ok_iff.2 q2, q3, py_bind_ok]
      exact h1
    · rw [h2, Dict.keys_set_mem]
      exact (Dict.get?_isSome_iff df c).1 ⟨_, q2⟩
    · intro c' hc'
      simp only [List.mem_cons, not_or] at hc'
      rw [h3 c' hc'.2, Dict.get?_set, if_neg (fun h => hc'.1 h.symm)]
    · intro c' hc'
      rcases List.mem_cons.1 hc' with rfl | hc'
      · rw [h3 c' hnc, Dict.get?_set, if_pos rfl]
      · exact h4 c' hc'

/-- **C79**: encoding again with the encoders of a previous encoding gives the same result (the encoding of one DataFrame can be
reproduced). -/
theorem C79_same_encoders (ops : CellOps K V) (df : DF V) (hdf : (Dict.keys df).Nodup) (columns : List String) (hn : columns.Nodup)
    (hc : ∀ c ∈ columns, c ∈ Dict.keys df) (enc : DF V) (les : Dict String (List V))
    (h : labelEncode ops df columns none = .ok (enc, les)) : labelEncode ops df columns (some les) = .ok (enc, les) := by
  obtain ⟨enc', les', h1, h2, h3, h4, h5⟩ := encodeNew_spec ops columns hn df hc []
  have hh : enc' = enc ∧ les' = les := by
    simp only [labelEncode] at h
    rw [h1] at h
    simpa using h
  obtain ⟨rfl, rfl⟩ := hh
  obtain ⟨e, e1, e2, e3, e4⟩ := encodeWith_spec ops les' columns hn df (fun c => (Dict.get? enc' c).getD []) (fun c hc => by
    obtain ⟨col, q1, q2, q3⟩ := h4 c hc
    exact ⟨_, _, q2, q1, by rw [q3]; exact leTransform_fit ops col⟩)
  have : e = enc' := by
    apply Dict.ext_nodup (e2.trans h2.symm) (by rw [e2]; exact hdf)
    intro c
    by_cases hcc : c ∈ columns
    · obtain ⟨col, q1, q2, q3⟩ := h4 c hcc
      rw [e4 c hcc, q3]; rfl
    · rw [e3 c hcc, (h3 c hcc).1]
  subst this
  simp only [labelEncode, e1, py_bind_ok]
  rfl

/-! ## a concrete DataFrame -/

/-- cells of the examples: rational numbers. -/
def ratOps : CellOps ℚ ℚ := ⟨id, some, Int.floor⟩

theorem ratOps_laws : Spec.CellLaws ratOps := ⟨fun _ => rfl, fun n => by simp [ratOps]⟩

def encDf : DF ℚ := [("a", [7, 5, 7, 9]), ("b", [1, 2, 3, 4]), ("c", [3, 3, 8, 8])]

example : (Dict.keys encDf).Nodup ∧ (["c", "a"] : List String).Nodup ∧ ∀ c ∈ ["c", "a"], c ∈ Dict.keys encDf := by decide +kernel

example : labelEncode ratOps encDf ["c", "a"] none
    = .ok ([("a", [1, 0, 1, 2]), ("b", [1, 2, 3, 4]), ("c", [0, 0, 1, 1])], [("c", [3, 8]), ("a", [5, 7, 9])]) := by decide +kernel

example : labelEncode ratOps encDf ["a"] (some [("a", [5, 7])]) = .error .valueError :=
  (C79_unseen ratOps _ _ ["a"] (by decide +kernel) (by decide +kernel)).2
    ⟨"a", by simp, [7, 5, 7, 9], [5, 7], rfl, rfl, 9, by decide +kernel, by decide +kernel⟩

example : labelEncode ratOps encDf ["a"] (some [("b", [5, 7])]) = .error .keyError :=
  C79_no_encoder ratOps _ _ "a" [] (by decide +kernel)

/-- The hypothesis that the columns are different is needed: a column given twice is encoded twice, but its encoder is the one of the
second time, and decoding does not restore the values. -/
theorem C79_repeated_false : ∃ enc les, labelEncode ratOps encDf ["a", "a"] none = .ok (enc, les) ∧
    labelDecode ratOps les ["a", "a"] enc ≠ .ok encDf := by
  refine ⟨[("a", [1, 0, 1, 2]), ("b", [1, 2, 3, 4]), ("c", [3, 3, 8, 8])], [("a", [0, 1, 2])], ?_, ?_⟩
  · decide +kernel
  · decide +kernel

end Teacher
