import Verif.Model.LoreGen
import Verif.Props.RandomNb
import Verif.Props.GP
import Verif.Props.Lore
import Mathlib.Data.String.Basic
import Mathlib.Data.Sum.Order

/-! # C137-C139: the record to explain, the generation step of LORE, the resampled neighbourhoods -/

set_option linter.unusedSectionVars false

namespace Teacher

variable {R K V : Type} [Field K] [LinearOrder K] [IsStrictOrderedRing K] [LinearOrder V]

/-! ## C137: `dataframe2explain` -/

namespace Spec

/-- Specification: `a` is the element number `i` of the list, counted from the end if `i` is negative. -/
def ItemAt {α : Type} (l : List α) (i : Int) (a : α) : Prop :=
  ∃ n : Nat, l[n]? = some a ∧ (i = (n : Int) ∨ i = (n : Int) - (l.length : Int))

/-- Specification: the rows of `X` are encoded records of the dataset `ds`, which has the class first and then the features `feats`: as many
values as features, and codes of the encoders for the discrete ones. -/
structure CodedFor (ds : Dataset V) (feats : List String) (X : List (List K)) : Prop where
  columns : ds.columns = ds.className :: feats
  nodup : (ds.className :: feats).Nodup
  discreteNodup : ds.discrete.Nodup
  discreteIn : ∀ c ∈ ds.discrete, c ∈ ds.className :: feats
  classDiscrete : ds.className ∈ ds.discrete
  types : ∀ c ∈ ds.className :: feats, c ∈ Dict.keys ds.types
  encoders : ∀ c ∈ ds.discrete, c ∈ Dict.keys ds.encoders
  rows : ∀ x ∈ X, EncodedRecord ds feats x

/-- Specification: `df` is the table of the encoded records `X`: the class is the label of the answer of the black box; a discrete feature
has the label of its code and another one its number (truncated if its type is integer). -/
structure Described (ops : CellOps K V) (bb : List K → K) (ds : Dataset V) (feats : List String) (X : List (List K)) (df : DF V) : Prop where
  keys : Dict.keys df = ds.className :: feats
  cls : ∃ classes col, Dict.get? ds.encoders ds.className = some classes ∧ Dict.get? df ds.className = some col ∧
    List.Forall₂ (fun r v => Decodes classes (bb r) v) X col
  discrete : ∀ (j : Nat) (c : String), feats[j]? = some c → c ∈ ds.discrete →
    ∃ classes col, Dict.get? ds.encoders c = some classes ∧ Dict.get? df c = some col ∧
      List.Forall₂ (fun r v => ∃ x, r[j]? = some x ∧ Decodes classes x v) X col
  others : ∀ (j : Nat) (c : String), feats[j]? = some c → c ∉ ds.discrete →
    ∃ t col, Dict.get? ds.types c = some t ∧ Dict.get? df c = some col ∧
      List.Forall₂ (fun r v => ∃ x, r[j]? = some x ∧ v = ops.num (if t = .integer then ((ops.toInt x : Int) : K) else x)) X col

end Spec

/-- `buildDf2explain` with the packed hypotheses. -/
theorem build_described (ops : CellOps K V) (hops : Spec.CellLaws ops) (bb : List K → K) (ds : Dataset V) (feats : List String)
    (X : List (List K)) (hX : Spec.CodedFor ds feats X)
    (hbb : ∀ classes, Dict.get? ds.encoders ds.className = some classes → ∀ x ∈ X, ∃ v, Spec.Decodes classes (bb x) v) :
    ∃ df, buildDf2explain ops bb X ds = .ok df ∧ Spec.Described ops bb ds feats X df := by
  obtain ⟨out, h1, h2, h3, h4, h5⟩ := C95_build_df2explain_partial ops hops bb X ds ds.className feats hX.columns hX.nodup
    (fun r hr => (hX.rows r hr).1) hX.discreteNodup hX.discreteIn hX.classDiscrete hX.types hX.encoders hbb
    (fun j c hj hc classes hcl r hr x hx => (hX.rows r hr).2 j c hj hc classes hcl x hx)
  exact ⟨out, h1, ⟨h2, h3, h4, h5⟩⟩

theorem pyItem_ok_iff {α : Type} (l : List α) (i : Int) (a : α) : pyItem l i = .ok a ↔ Spec.ItemAt l i a := by
  unfold pyItem Spec.ItemAt
  generalize hk : (if i < 0 then i + (l.length : Int) else i) = k
  constructor
  · intro h
    split at h
    · rename_i n
      split at h
      · rename_i b hb
        cases h
        refine ⟨n, hb, ?_⟩
        split_ifs at hk <;> simp only [Int.ofNat_eq_natCast] at hk <;> omega
      · cases h
    · cases h
  · rintro ⟨n, hn, hi⟩
    have hlt : n < l.length := (List.getElem?_eq_some_iff.1 hn).1
    have : k = Int.ofNat n := by
      simp only [Int.ofNat_eq_natCast]
      split_ifs at hk <;> omega
    rw [this]
    simp only [hn]

theorem pyItem_error {α : Type} (l : List α) (i : Int) (h : i < -(l.length : Int) ∨ (l.length : Int) ≤ i) :
    pyItem l i = .error .indexError := by
  unfold pyItem
  generalize hk : (if i < 0 then i + (l.length : Int) else i) = k
  split
  · rename_i n
    have : l[n]? = none := by
      rw [List.getElem?_eq_none_iff]
      simp only [Int.ofNat_eq_natCast] at hk
      split_ifs at hk <;> omega
    simp only [this]
  · rfl

/-- **C137**: `dataframe2explain` returns the record with the given number (counted from the end if it is negative) and the table of all the
records; a number out of range raises `IndexError`. -/
theorem C137_dataframe2explain (ops : CellOps K V) (hops : Spec.CellLaws ops) (bb : List K → K) (ds : Dataset V) (feats : List String)
    (X : List (List K)) (hX : Spec.CodedFor ds feats X)
    (hbb : ∀ classes, Dict.get? ds.encoders ds.className = some classes → ∀ x ∈ X, ∃ v, Spec.Decodes classes (bb x) v) (idx : Int) :
    (-(X.length : Int) ≤ idx ∧ idx < X.length → ∃ df x, dataframe2explain ops bb X ds idx = .ok (df, x) ∧ Spec.ItemAt X idx x ∧
      Spec.Described ops bb ds feats X df) ∧
    (idx < -(X.length : Int) ∨ (X.length : Int) ≤ idx → dataframe2explain ops bb X ds idx = .error .indexError) := by
  constructor
  · rintro ⟨h1, h2⟩
    obtain ⟨df, hdf, hd⟩ := build_described ops hops bb ds feats X hX hbb
    obtain ⟨n, hn, hi⟩ : ∃ n : Nat, n < X.length ∧ (idx = (n : Int) ∨ idx = (n : Int) - (X.length : Int)) := by
      by_cases hneg : idx < 0
      · exact ⟨(idx + X.length).toNat, by omega, by omega⟩
      · exact ⟨idx.toNat, by omega, by omega⟩
    have hit : Spec.ItemAt X idx X[n] := ⟨n, List.getElem?_eq_getElem hn, hi⟩
    refine ⟨df, X[n], ?_, hit, hd⟩
    simp only [dataframe2explain, (pyItem_ok_iff X idx _).2 hit, hdf, py_bind_ok]
    rfl
  · intro h
    simp only [dataframe2explain, pyItem_error X idx h]
    rfl

/-! ## C138: the generation step of LORE -/

theorem Spec.ItemAt.mem {α : Type} {l : List α} {i : Int} {a : α} (h : Spec.ItemAt l i a) : a ∈ l := by
  obtain ⟨n, hn, -⟩ := h
  exact List.mem_of_getElem? hn

/-- the records generated from observed values and an observed record are encoded records, and every code of a discrete feature is observed. -/
theorem generated_coded (rng : GPRng R K) (std : List K → K) (distr : List K → Nat → Py (List K)) (ds : Dataset V) (feats : List String)
    (X : List (List K)) (hX : Spec.CodedFor ds feats X) (size : Nat) (r r1 : R)
    (fv : Dict Nat (List K))
    (hfv : calculateFeatureValues rng std distr X ds.columns ds.className ds.discrete ds.continuous size false false r = .ok (fv, r1))
    (x : List K) (hx : x ∈ X) (z : List K) (hz : Spec.FromData fv x z) :
    z.length = feats.length ∧ ∀ (j : Nat) (c : String), feats[j]? = some c → c ∈ ds.discrete → ∃ x' ∈ X, z[j]? = x'[j]? := by
  have hxl := (hX.rows x hx).1
  refine ⟨hz.1.trans hxl, fun j c hj hc => ?_⟩
  have hjl : j < z.length := by rw [hz.1, hxl]; exact (List.getElem?_eq_some_iff.1 hj).1
  rcases hz.2 j z[j] (List.getElem?_eq_getElem hjl) with h | ⟨values, h1, h2⟩
  · exact ⟨x, hx, by rw [h, List.getElem?_eq_getElem hjl]⟩
  · have hfe : ds.columns.filter (fun c => c ≠ ds.className) = feats := by
      rw [hX.columns]
      have hn := (List.nodup_cons.1 hX.nodup).1
      rw [List.filter_cons_of_neg (by simp), List.filter_eq_self]
      intro a ha
      simp only [decide_eq_true_eq]
      rintro rfl
      exact hn ha
    obtain ⟨-, k⟩ := C99_feature_values_partial rng std distr X ds.columns (by rw [hX.columns]; exact hX.nodup) ds.className ds.discrete
      ds.continuous size false false r r1 fv hfv
    obtain ⟨obs, v, k1, k2, -, k4⟩ := k j c (by rw [hfe]; exact hj) (.inl hc)
    rw [h1] at k2
    cases k2
    obtain ⟨x', hx', he⟩ := forall₂_mem_right ((column_eq_ok_iff X j obs).1 k1) z[j] (((k4 hc rfl).2 _).1 h2)
    exact ⟨x', hx', by rw [he, List.getElem?_eq_getElem hjl]⟩

/-- **C138**, partial: for encoded training records, a valid record number and a dataset whose features are discrete or continuous, if the
evolutionary algorithm returns records of two predicted classes, the generation step of LORE returns them, described by a table: no
category is invented (each one is that of some training record in the same column), and the class column has the answer of the black box.
Missing: the call fails if all the records get the same class. -/
theorem C138_generation_partial (rng : GPRng R K) (std : List K → K) (distr : List K → Nat → Py (List K)) (indpb : K)
    (ea : Dict Nat (List K) → List K → NeigKind → Nat → R → Py ((List (List K × K) × List (List K × K)) × R))
    (hea : ∀ fv x, Spec.DeapRun rng fv indpb x (ea fv x)) (rnd : K → Int)
    (ops : CellOps K V) (hops : Spec.CellLaws ops) (argsort : List K → List Nat) (dist : Dict String V → Dict String V → Py K)
    (bb : List K → K) (bbV : List V → Bool) (ds : Dataset V) (feats : List String) (X : List (List K)) (hX : Spec.CodedFor ds feats X)
    (hin : ∀ c ∈ feats, c ∈ ds.discrete ∨ c ∈ ds.continuous)
    (hbb : ∀ classes, Dict.get? ds.encoders ds.className = some classes → ∀ x, ∃ v, Spec.Decodes classes (bb x) v)
    (size : Nat) (idx : Int) (hidx : -(X.length : Int) ≤ idx ∧ idx < X.length) (r : R) :
    ∃ fv x r1, calculateFeatureValues rng std distr X ds.columns ds.className ds.discrete ds.continuous size false false r = .ok (fv, r1) ∧
      Spec.ItemAt X idx x ∧
      ∀ Z r2, generateData (ea fv x) rnd [(.ss, 1 / 2), (.sd, 1 / 2)] (size : K) r1 = .ok (Z, r2) → (∃ z ∈ Z, ∃ z' ∈ Z, bb z ≠ bb z') →
        ∃ df, loreGenerate rng std distr ea rnd ops argsort dist bb bbV X ds ds.className size idx r = .ok ((df, Z), r2) ∧
          Spec.Described ops bb ds feats Z df ∧
          ∀ z ∈ Z, z.length = feats.length ∧ ∀ (j : Nat) (c : String), feats[j]? = some c → c ∈ ds.discrete → ∃ x' ∈ X, z[j]? = x'[j]? := by
  have her : ds.columns.erase ds.className = feats := by rw [hX.columns]; simp
  obtain ⟨fv, r1, hfv⟩ := C99_total rng std distr X ds.columns ds.className (by rw [hX.columns]; simp) ds.discrete ds.continuous size false
    (by rw [her]; exact hin) (fun row hrow => by rw [hX.columns, (hX.rows row hrow).1]; simp) r
  obtain ⟨dfZ, x, hd, hit, -⟩ := (C137_dataframe2explain ops hops bb ds feats X hX (fun cl hcl x _ => hbb cl hcl x) idx).1 hidx
  refine ⟨fv, x, r1, hfv, hit, ?_⟩
  rintro Z r2 hg ⟨z, hz, z', hz', hzz⟩
  obtain ⟨-, hfrom⟩ := C89_generated rng fv indpb x (ea fv x) (hea fv x) rnd _ _ r1 r2 Z hg
  have hco := fun z hz => generated_coded rng std distr ds feats X hX size r r1 fv hfv x hit.mem z (hfrom z hz)
  have hZ : Spec.CodedFor ds feats Z :=
    ⟨hX.columns, hX.nodup, hX.discreteNodup, hX.discreteIn, hX.classDiscrete, hX.types, hX.encoders, fun z hz =>
      ⟨(hco z hz).1, fun j c hj hc classes hcl w hw => by
        obtain ⟨x', hx', he⟩ := (hco z hz).2 j c hj hc
        exact (hX.rows x' hx').2 j c hj hc classes hcl w (by rw [← he]; exact hw)⟩⟩
  obtain ⟨df, hdf, hdes⟩ := build_described ops hops bb ds feats Z hZ (fun cl hcl x _ => hbb cl hcl x)
  refine ⟨df, ?_, hdes, hco⟩
  simp only [loreGenerate, hfv, hd, py_bind_ok]
  exact C98_two_classes ops argsort dist bb bbV _ dfZ x ds r1 r2 df Z hX.classDiscrete hg z z' hz hz' hzz hdf

/-- **C138**, partial: conversely whatever the generation step returns was made by the evolutionary algorithm from the candidate values and
the record to explain; so it has the properties above. -/
theorem C138_returned_partial (rng : GPRng R K) (std : List K → K) (distr : List K → Nat → Py (List K)) (indpb : K)
    (ea : Dict Nat (List K) → List K → NeigKind → Nat → R → Py ((List (List K × K) × List (List K × K)) × R))
    (hea : ∀ fv x, Spec.DeapRun rng fv indpb x (ea fv x)) (rnd : K → Int)
    (ops : CellOps K V) (hops : Spec.CellLaws ops) (argsort : List K → List Nat) (dist : Dict String V → Dict String V → Py K)
    (bb : List K → K) (bbV : List V → Bool) (ds : Dataset V) (feats : List String) (X : List (List K)) (hX : Spec.CodedFor ds feats X)
    (hin : ∀ c ∈ feats, c ∈ ds.discrete ∨ c ∈ ds.continuous)
    (hbb : ∀ classes, Dict.get? ds.encoders ds.className = some classes → ∀ x, ∃ v, Spec.Decodes classes (bb x) v)
    (size : Nat) (idx : Int) (r r2 : R) (df : DF V) (Z : List (List K))
    (h : loreGenerate rng std distr ea rnd ops argsort dist bb bbV X ds ds.className size idx r = .ok ((df, Z), r2)) :
    (-(X.length : Int) ≤ idx ∧ idx < X.length) ∧ (∃ z ∈ Z, ∃ z' ∈ Z, bb z ≠ bb z') ∧ Spec.Described ops bb ds feats Z df ∧
      ∀ z ∈ Z, z.length = feats.length ∧ ∀ (j : Nat) (c : String), feats[j]? = some c → c ∈ ds.discrete → ∃ x' ∈ X, z[j]? = x'[j]? := by
  have h0 := h
  have hidx : -(X.length : Int) ≤ idx ∧ idx < X.length := by
    by_contra hcon
    have := (C137_dataframe2explain ops hops bb ds feats X hX (fun cl hcl x _ => hbb cl hcl x) idx).2 (by omega)
    simp only [loreGenerate] at h
    obtain ⟨⟨fv, r1⟩, -, h⟩ := py_bind_eq_ok.1 h
    rw [this] at h
    cases h
  obtain ⟨fv, x, r1, hfv, hit, hall⟩ := C138_generation_partial rng std distr indpb ea hea rnd ops hops argsort dist bb bbV ds feats X hX hin hbb
    size idx hidx r
  obtain ⟨dfZ, x', hd, hit', -⟩ := (C137_dataframe2explain ops hops bb ds feats X hX (fun cl hcl x _ => hbb cl hcl x) idx).1 hidx
  have hxx : x' = x := by
    have h1 := (pyItem_ok_iff X idx x).2 hit
    rw [(pyItem_ok_iff X idx x').2 hit'] at h1
    cases h1
    rfl
  subst hxx
  simp only [loreGenerate, hfv, hd, py_bind_ok] at h
  obtain ⟨hg, -, htwo⟩ := C98_returns_partial ops argsort dist bb bbV _ dfZ x' ds r1 r2 df Z h
  have hne := (C89_generated rng fv indpb x' (ea fv x') (hea fv x') rnd _ _ r1 r2 Z hg).1
  obtain ⟨df', k1, k2, k3⟩ := hall Z r2 hg (htwo hne)
  rw [h0] at k1
  cases k1
  exact ⟨hidx, htwo hne, k2, k3⟩

/-- `genetic_neighborhood_old` raises `KeyError` for a dataset without the entry `'feature_values'`, which `generate_dataset` does not
make; with it, it returns the generated records and their table, even if they are all of the same class. -/
theorem C138_old (ops : CellOps K V) (hops : Spec.CellLaws ops) (bb : List K → K) (ds : Dataset V) (feats : List String)
    (gen : Dict Nat (List K) → R → Py (List (List K) × R)) (fv : Dict Nat (List K)) (r r' : R) (Z : List (List K))
    (hg : gen fv r = .ok (Z, r')) (hZ : Spec.CodedFor ds feats Z)
    (hbb : ∀ classes, Dict.get? ds.encoders ds.className = some classes → ∀ x ∈ Z, ∃ v, Spec.Decodes classes (bb x) v) :
    (∃ df, geneticNeighborhoodOld ops bb gen (some fv) ds r = .ok ((df, Z), r') ∧ Spec.Described ops bb ds feats Z df) ∧
      geneticNeighborhoodOld ops bb gen none ds r = .error .keyError := by
  obtain ⟨df, h1, h2⟩ := build_described ops hops bb ds feats Z hZ hbb
  refine ⟨⟨df, ?_, h2⟩, rfl⟩
  simp only [geneticNeighborhoodOld, pyRemove, if_pos hZ.classDiscrete, hg, h1, py_bind_ok]
  rfl

/-! ## C140: `LoreNeighborhood.fit` with its generation step -/

section
variable [LinearOrder (Cell K)]

/-- **C140**, partial: when `fit` of a LORE neighborhood succeeds for a dataset whose features `feats` are all continuous (only the class has
an encoder), the record number is valid; the table of features has those columns, its last row is the instance, in every other row each
value is a number between the least and the greatest of the same column of the training records; and the label of every row is the
answer of the black box to it. Missing: with a categorical feature `fit` fails (C118). -/
theorem C140_lore_fit_partial (rng : GPRng R K) (std : List K → K) (distr : List K → Nat → Py (List K)) (indpb : K)
    (ea : Dict Nat (List K) → List K → NeigKind → Nat → R → Py ((List (List K × K) × List (List K × K)) × R))
    (hea : ∀ fv x, Spec.DeapRun rng fv indpb x (ea fv x)) (rnd : K → Int)
    (ops : CellOps K (Cell K)) (hops : Spec.CellLaws ops) (argsort : List K → List Nat)
    (dist : Dict String (Cell K) → Dict String (Cell K) → Py K) (bb : List K → Nat) (bbV : List (Cell K) → Bool) (ds : Dataset (Cell K))
    (feats : List String) (X : List (List K)) (hX : Spec.CodedFor ds feats X) (hcont : ds.continuous = feats)
    (hidx : ds.idxFeatures = feats.zipIdx.map Prod.swap) (henc : ∀ p ∈ ds.encoders, p.1 = ds.className)
    (hbb : ∀ classes, Dict.get? ds.encoders ds.className = some classes → ∀ x, ∃ v, Spec.Decodes classes (bb x : K) v)
    (size : Nat) (idx : Int) (inst : List K) (fuel : Nat) (r : R) (s s' : LState K)
    (h : loreFitFull rng std distr ea rnd ops argsort dist bb bbV X ds ds.className size idx inst fuel r s = (.ok (), s')) :
    (-(X.length : Int) ≤ idx ∧ idx < X.length) ∧
    ∃ x y, s'.base.X = some x ∧ s'.base.y = some y ∧ x.cols = feats ∧ x.rows.getLast? = some (inst.map Cell.num) ∧
      List.Forall₂ (fun r n => ∃ xs : List K, r = xs.map Cell.num ∧ n = bb xs) x.rows y ∧
      ∀ row ∈ x.rows.dropLast, ∀ j < feats.length, ∃ v lo hi, Spec.IsRange X j lo hi ∧ row[j]? = some (Cell.num v) ∧ lo ≤ v ∧ v ≤ hi := by
  unfold loreFitFull at h
  have hncls : ds.className ∉ feats := (List.nodup_cons.1 hX.nodup).1
  obtain ⟨df, xy, Z, x, y, yd, dec, t, hg, -, -, h1, h2, h3, h4, e1, e2, e3, -⟩ := loreFit_ok h
  cases hl : loreGenerate rng std distr ea rnd ops argsort dist (fun row => (bb row : K)) bbV X ds ds.className size idx r with
  | error e => rw [hl] at hg; cases hg
  | ok p =>
    obtain ⟨⟨out, Zg⟩, r2⟩ := p
    obtain ⟨hi, -, hdes, -⟩ := C138_returned_partial rng std distr indpb ea hea rnd ops hops argsort dist (fun row => (bb row : K)) bbV ds feats X hX
      (fun c hc => .inr (by rw [hcont]; exact hc)) hbb size idx r r2 out Zg hl
    rw [hl] at hg
    have hdf : df.cols = ds.className :: feats := by cases hg; exact hdes.keys
    have hcn : df.cols.Nodup := by rw [hdf]; exact hX.nodup
    have hnd : (loreCtx ds ds.className X ops.toInt).continuous.Nodup := by
      change ds.continuous.Nodup
      rw [hcont]; exact (List.nodup_cons.1 hX.nodup).2
    obtain ⟨xy', x', y', f1, f2, f3, f4, f5, f6, -, f8⟩ := C118_fit_partial (loreCtx ds ds.className X ops.toInt) bb _ inst fuel s s' henc
      (fun df' hdf' => by
        rw [hl] at hdf'
        have : df' = df := by cases hg; cases hdf'; rfl
        subst this
        exact ⟨hcn, by rw [hdf]; rfl⟩) hnd h
    have k1 : xy' = xy := by rw [e1] at f1; cases f1; rfl
    subst k1
    obtain ⟨-, hrange⟩ := C90_in_range (loreCtx ds ds.className X ops.toInt) bb inst fuel df _ hcn (hnd.filter _) xy' Z h1
    obtain ⟨clipped, kept, -, -, hcols, -⟩ := C90_smooth (loreCtx ds ds.className X ops.toInt) bb inst fuel df _ hcn (hnd.filter _) xy' Z h1
    refine ⟨hi, x', y', f2, f3, by rw [f4, hcols, hdf]; rfl, f6, f8, ?_⟩
    intro row hrow j hj
    rw [f5, ← List.map_dropLast] at hrow
    obtain ⟨row0, hrow0, rfl⟩ := List.mem_map.1 hrow
    obtain ⟨j', v, lo, hi', g1, g2, g3, g4, g5⟩ := hrange row0 hrow0 (j + 1) feats[j] (by rw [hdf]; simp [hj]) (by
      refine List.mem_filter.2 ⟨by change _ ∈ ds.continuous; rw [hcont]; exact List.getElem_mem hj, ?_⟩
      simp only [decide_eq_true_eq]
      intro he
      exact hncls (by change feats[j] = ds.className at he; rw [← he]; exact List.getElem_mem hj))
    have hjj : j' = j := by
      change (j', feats[j]) ∈ ds.idxFeatures at g1
      rw [hidx] at g1
      obtain ⟨q, hq, hqe⟩ := List.mem_map.1 g1
      obtain ⟨c, i⟩ := q
      cases hqe
      rw [List.mem_zipIdx_iff_getElem?] at hq
      exact ((List.getElem?_inj hj (List.nodup_cons.1 hX.nodup).2).1 (by rw [List.getElem?_eq_getElem hj]; exact hq.symm)).symm
    subst hjj
    refine ⟨v, lo, hi', g2, ?_, g4, g5⟩
    rw [← g3]
    cases row0 <;> simp

theorem filterMap_column {V : Type} (df : DF V) (i : Nat) (h : ∀ q ∈ df, i < q.2.length) :
    (df.filterMap (fun p => p.2[i]?)).length = df.length ∧ ∀ j : Nat, (df.filterMap (fun p => p.2[i]?))[j]? = (df[j]?).bind (fun p => p.2[i]?) := by
  induction df with
  | nil => exact ⟨rfl, fun j => rfl⟩
  | cons q df ih =>
    obtain ⟨h1, h2⟩ := ih (fun q hq => h q (List.mem_cons_of_mem _ hq))
    have hq := List.getElem?_eq_getElem (h q List.mem_cons_self)
    rw [List.filterMap_cons, hq]
    refine ⟨by simp [h1], ?_⟩
    intro j
    cases j with
    | zero => simp [hq]
    | succ j => simp [h2]

/-- the rows of a described table. -/
theorem toFrame_described (ops : CellOps K (Cell K)) (bb : List K → K) (ds : Dataset (Cell K)) (feats : List String) (hnd : (ds.className :: feats).Nodup)
    (hdisc : ∀ c ∈ feats, c ∉ ds.discrete) (Z : List (List K)) (df : DF (Cell K)) (h : Spec.Described ops bb ds feats Z df) :
    (DF.toFrame df).rows.length = Z.length ∧ ∀ (i : Nat) (z : List K), Z[i]? = some z → ∃ row, (DF.toFrame df).rows[i]? = some row ∧
      row.length = feats.length + 1 ∧ (∃ classes v, Dict.get? ds.encoders ds.className = some classes ∧ row[0]? = some v ∧ Spec.Decodes classes (bb z) v) ∧
      ∀ (j : Nat) (c : String), feats[j]? = some c → ∃ t x, Dict.get? ds.types c = some t ∧ z[j]? = some x ∧
        row[j + 1]? = some (ops.num (if t = .integer then ((ops.toInt x : Int) : K) else x)) := by
  have hkeys := h.keys
  have hkn : (Dict.keys df).Nodup := by rw [hkeys]; exact hnd
  obtain ⟨classes, ccol, c1, c2, c3⟩ := h.cls
  have hlen : ∀ q ∈ df, q.2.length = Z.length := by
    intro q hq
    have hg := Dict.get?_of_mem_nodup hkn (k := q.1) (v := q.2) hq
    have hmem : q.1 ∈ ds.className :: feats := by rw [← hkeys]; exact List.mem_map_of_mem hq
    rcases List.mem_cons.1 hmem with he | he
    · rw [he, c2] at hg
      cases hg
      exact c3.length_eq.symm
    · obtain ⟨j, hj⟩ := List.mem_iff_getElem?.1 he
      obtain ⟨t, col, -, k2, k3⟩ := h.others j q.1 hj (hdisc _ he)
      rw [k2] at hg
      cases hg
      exact k3.length_eq.symm
  have hn : DF.nrows df = Z.length := by
    cases df with
    | nil => simp [Dict.keys] at hkeys
    | cons q df => exact hlen q List.mem_cons_self
  have hat : ∀ (j : Nat) (c : String) col, (ds.className :: feats)[j]? = some c → Dict.get? df c = some col → df[j]? = some (c, col) := by
    intro j c col hj hc
    have hd := Dict.mem_of_get? hc
    rw [← hkeys] at hj
    unfold Dict.keys at hj
    rw [List.getElem?_map] at hj
    cases hq : df[j]? with
    | none => rw [hq] at hj; cases hj
    | some q =>
      rw [hq] at hj
      simp only [Option.map_some, Option.some.injEq] at hj
      have := Dict.get?_of_mem_nodup hkn (k := q.1) (v := q.2) (List.mem_of_getElem? hq)
      rw [hj, hc] at this
      cases this
      rw [← hj]
  unfold DF.toFrame
  simp only
  refine ⟨by rw [List.length_map, List.length_range, hn], ?_⟩
  intro i z hz
  have hi := (List.getElem?_eq_some_iff.1 hz).1
  obtain ⟨f1, f2⟩ := filterMap_column df i (fun q hq => by rw [hlen q hq]; exact hi)
  have hdl : df.length = feats.length + 1 := by
    have := congrArg List.length hkeys
    simpa [Dict.keys] using this
  refine ⟨df.filterMap (fun p => p.2[i]?), by rw [List.getElem?_map, List.getElem?_range (by omega)]; rfl, by rw [f1, hdl], ?_, ?_⟩
  · have hci : i < ccol.length := by rw [← c3.length_eq]; exact hi
    refine ⟨classes, ccol[i], c1, ?_, ?_⟩
    · rw [f2, hat 0 ds.className ccol rfl c2]
      simp [hci]
    · have := (List.forall₂_iff_get.1 c3).2 i hi hci
      simp only [List.get_eq_getElem] at this
      rw [(List.getElem?_eq_some_iff.1 hz).2] at this
      exact this
  · intro j c hj
    obtain ⟨t, col, k1, k2, k3⟩ := h.others j c hj (hdisc c (List.mem_of_getElem? hj))
    have hci : i < col.length := by rw [← k3.length_eq]; exact hi
    have := (List.forall₂_iff_get.1 k3).2 i hi hci
    simp only [List.get_eq_getElem] at this
    rw [(List.getElem?_eq_some_iff.1 hz).2] at this
    obtain ⟨x, x1, x2⟩ := this
    refine ⟨t, x, k1, x1, ?_⟩
    rw [f2, hat (j + 1) c col (by simpa using hj) k2]
    simp [hci, x2]

/-- **C140**, partial, the rows: for a dataset with continuous features only, after a successful `fit` the rows of the table of features are
obtained as follows. The generation returns the records `Z`; each of them becomes a row (the class label of the answer of the black box, then
the features, truncated when their type is integer); the features are clipped to the ranges of the training records; the rows within three standard
deviations of the mean in all features are kept in their order, without their class; the instance comes last. Missing: see `C140_lore_fit_partial`. -/
theorem C140_rows_partial (rng : GPRng R K) (std : List K → K) (distr : List K → Nat → Py (List K)) (indpb : K)
    (ea : Dict Nat (List K) → List K → NeigKind → Nat → R → Py ((List (List K × K) × List (List K × K)) × R))
    (hea : ∀ fv x, Spec.DeapRun rng fv indpb x (ea fv x)) (rnd : K → Int)
    (ops : CellOps K (Cell K)) (hops : Spec.CellLaws ops) (argsort : List K → List Nat)
    (dist : Dict String (Cell K) → Dict String (Cell K) → Py K) (bb : List K → Nat) (bbV : List (Cell K) → Bool) (ds : Dataset (Cell K))
    (feats : List String) (X : List (List K)) (hX : Spec.CodedFor ds feats X) (hcont : ds.continuous = feats)
    (henc : ∀ p ∈ ds.encoders, p.1 = ds.className)
    (hbb : ∀ classes, Dict.get? ds.encoders ds.className = some classes → ∀ x, ∃ v, Spec.Decodes classes (bb x : K) v)
    (size : Nat) (idx : Int) (inst : List K) (fuel : Nat) (r : R) (s s' : LState K)
    (h : loreFitFull rng std distr ea rnd ops argsort dist bb bbV X ds ds.className size idx inst fuel r s = (.ok (), s')) :
    ∃ out Z r2 table clipped kept x,
      loreGenerate rng std distr ea rnd ops argsort dist (fun row => (bb row : K)) bbV X ds ds.className size idx r = .ok ((out, Z), r2) ∧
      table.length = Z.length ∧ (∀ (i : Nat) (z : List K), Z[i]? = some z → ∃ row : List (Cell K), table[i]? = some row ∧ row.length = feats.length + 1 ∧
        (∃ classes v, Dict.get? ds.encoders ds.className = some classes ∧ row[0]? = some v ∧ Spec.Decodes classes (bb z : K) v) ∧
        ∀ (j : Nat) (c : String), feats[j]? = some c → ∃ t x, Dict.get? ds.types c = some t ∧ z[j]? = some x ∧
          row[j + 1]? = some (ops.num (if t = .integer then ((ops.toInt x : Int) : K) else x))) ∧
      List.Forall₂ (Spec.Clipped X ds.idxFeatures (ds.className :: feats) feats) table clipped ∧
      Spec.NearRows (ds.className :: feats) feats clipped kept ∧
      s'.base.X = some x ∧ x.rows = kept.map List.tail ++ [inst.map Cell.num] := by
  unfold loreFitFull at h
  have hncls : ds.className ∉ feats := (List.nodup_cons.1 hX.nodup).1
  obtain ⟨df, xy, Z', x, y, yd, dec, t, hg, -, -, h1, h2, h3, h4, e1, e2, e3, -⟩ := loreFit_ok h
  cases hl : loreGenerate rng std distr ea rnd ops argsort dist (fun row => (bb row : K)) bbV X ds ds.className size idx r with
  | error e => rw [hl] at hg; cases hg
  | ok p =>
    obtain ⟨⟨out, Zg⟩, r2⟩ := p
    obtain ⟨hi, -, hdes, -⟩ := C138_returned_partial rng std distr indpb ea hea rnd ops hops argsort dist (fun row => (bb row : K)) bbV ds feats X hX
      (fun c hc => .inr (by rw [hcont]; exact hc)) hbb size idx r r2 out Zg hl
    rw [hl] at hg
    have hdfe : df = DF.toFrame out := by cases hg; rfl
    have hdf : df.cols = ds.className :: feats := by rw [hdfe]; exact hdes.keys
    have hcn : df.cols.Nodup := by rw [hdf]; exact hX.nodup
    have hcf : (loreCtx ds ds.className X ops.toInt).continuous.filter (fun c => c ≠ (loreCtx ds ds.className X ops.toInt).className) = feats := by
      change ds.continuous.filter (fun c => c ≠ ds.className) = feats
      rw [hcont, List.filter_eq_self]
      intro c hc
      simp only [decide_eq_true_eq]
      rintro rfl
      exact hncls hc
    rw [hcf] at h1
    have hdisc : ∀ c ∈ feats, c ∉ ds.discrete := by
      intro c hc hd
      obtain ⟨q, hq, hqc⟩ := List.mem_map.1 (hX.encoders c hd)
      have := henc q hq
      rw [hqc] at this
      exact hncls (this ▸ hc)
    obtain ⟨g1, g2⟩ := toFrame_described ops _ ds feats hX.nodup hdisc Zg out hdes
    obtain ⟨clipped, kept, k1, k2, k3, k4⟩ := C90_smooth (loreCtx ds ds.className X ops.toInt) bb inst fuel df feats hcn
      (List.nodup_cons.1 hX.nodup).2 xy Z' h1
    rw [hdf] at k1 k2 k3
    refine ⟨out, Zg, r2, df.rows, clipped, kept, x, rfl, by rw [hdfe]; exact g1, by rw [hdfe]; exact g2, k1, k2, e2, ?_⟩
    obtain ⟨-, rfl⟩ := drop_ok h2
    have hidx : xy.cols.idxOf (loreCtx ds ds.className X ops.toInt).className = 0 := by
      rw [k3]
      change (ds.className :: feats).idxOf ds.className = 0
      simp
    simp only [hidx]
    rw [k4]
    simp

end

/-! ## C139: resampled neighbourhoods -/

namespace Spec

/-- Specification of a random oversampler: the rows it got, followed by copies of some of them, so that every class that occurs has as many
rows as any other. -/
def Oversamples (f : List (List K) → List K → R → Py (List (List K) × R)) (bb : List K → K) : Prop :=
  ∀ Z r, Z ≠ [] → ∃ extra r', f Z (Z.map bb) r = .ok (Z ++ extra, r') ∧ (∀ z ∈ extra, z ∈ Z) ∧
    ∀ z ∈ Z, ∀ z' ∈ Z, ((Z ++ extra).map bb).count (bb z) = ((Z ++ extra).map bb).count (bb z')

/-- Specification of an instance selector: some of the rows it got, with at least one of each class. -/
def Selects (f : List (List K) → List K → R → Py (List (List K) × R)) (bb : List K → K) : Prop :=
  ∀ Z r, Z ≠ [] → ∃ Z' r', f Z (Z.map bb) r = .ok (Z', r') ∧ (∀ z ∈ Z', z ∈ Z) ∧ ∀ z ∈ Z, ∃ z' ∈ Z', bb z' = bb z

end Spec

/-- the rows of `random_neighborhood` are encoded records. -/
theorem random_coded (rng : GPRng R K) (hf : Spec.FairDraws rng) (std : List K → K) (ops : CellOps K V)
    (hops : Spec.CellLaws ops) (ht : Spec.IsTrunc ops.toInt) (argsort : List K → List Nat)
    (ha : Spec.IsArgsort argsort) (dist : Dict String V → Dict String V → Py K) (bb : List K → K) (bbV : List V → Bool) (df : DF V)
    (ds : Dataset V) (feats : List String) (hfe : feats ≠ []) (hin : ∀ c ∈ feats, c ∈ ds.discrete ∨ c ∈ ds.continuous)
    (n : Nat) (hn : 0 < n) (hd : Spec.DataFor ops ds feats df n)
    (hbb : ∀ classes, Dict.get? ds.encoders ds.className = some classes → ∀ row, ∃ v, Spec.Decodes classes (bb row) v)
    (x : List K) (hx : Spec.EncodedRecord ds feats x) (hdist : ∀ x0, ∀ z ∈ DF.records df, ∃ d, dist x0 z = .ok d) (r : R) :
    ∃ out Z r', randomNeighborhood rng std ops argsort dist bb bbV df x ds true r = .ok ((out, Z), r') ∧ Z ≠ [] ∧
      Spec.CodedFor ds feats Z := by
  obtain ⟨idx, base, new, out, r', h1, h2, -, -, h5, h6, h7, h8, -, h10⟩ := C128_random_neighborhood rng hf std ops hops ht argsort ha dist
    bb bbV df ds feats hfe hin n hn hd hbb x hx hdist true r
  have hbl : ∀ z ∈ base, Spec.EncodedRecord ds feats z := by
    intro z hz
    obtain ⟨i, -, hi⟩ := forall₂_mem_right h5 z hz
    refine ⟨hi.1, fun j c hj hc classes hcl w hw => ?_⟩
    obtain ⟨col, v, x', -, -, g3, g4, -⟩ := hi.2 j c hj
    rw [hw] at g3; cases g3
    obtain ⟨classes', k1, k2, k3⟩ := g4 hc
    rw [hcl] at k1; cases k1
    have := List.idxOf_lt_length_of_mem k2
    exact ⟨v, _, k3, by rw [List.getElem?_eq_getElem this, List.getElem_idxOf this]⟩
  refine ⟨out, base ++ new, r', h1, ?_, hd.columns, hd.nodup, hd.discreteNodup, hd.discreteIn, hd.classDiscrete, hd.types, ?_, ?_⟩
  · intro h
    have := congrArg List.length h
    simp only [List.length_append, List.length_nil] at this
    omega
  · intro c hc
    obtain ⟨cl, h1, -⟩ := hd.known c hc
    exact (Dict.get?_isSome_iff ds.encoders c).1 ⟨_, h1⟩
  · intro z hz
    rcases List.mem_append.1 hz with hz | hz
    · exact hbl z hz
    · refine ⟨(h7 z hz).1, fun j c hj hc classes hcl w hw => ?_⟩
      obtain ⟨z', hz', he⟩ := (h7 z hz).2 j c hj hc
      exact (hbl z' hz').2 j c hj hc classes hcl w (by rw [← he]; exact hw)

theorem Spec.CodedFor.sub {ds : Dataset V} {feats : List String} {X Y : List (List K)} (h : Spec.CodedFor ds feats X)
    (hY : ∀ y ∈ Y, y ∈ X) : Spec.CodedFor ds feats Y :=
  ⟨h.columns, h.nodup, h.discreteNodup, h.discreteIn, h.classDiscrete, h.types, h.encoders, fun y hy => h.rows y (hY y hy)⟩

theorem count_decoded (classes : List V) (hcl : classes.Nodup) (bb : List K → K) (x : K) (v : V) (hx : Spec.Decodes classes x v)
    {L : List (List K)} {col : List V} (h : List.Forall₂ (fun r v => Spec.Decodes classes (bb r) v) L col) :
    col.count v = (L.map bb).count x := by
  induction h with
  | nil => rfl
  | @cons z w L col hd _ ih =>
    obtain ⟨n, rfl, hn⟩ := hx
    obtain ⟨m, hm, hm'⟩ := hd
    rw [List.count_cons, List.map_cons, List.count_cons, ih, hm]
    congr 1
    have hnl := (List.getElem?_eq_some_iff.1 hn).1
    have hml := (List.getElem?_eq_some_iff.1 hm').1
    have : w = v ↔ m = n := by
      constructor
      · rintro rfl
        exact (List.getElem?_inj hml hcl).1 (hm'.trans hn.symm)
      · rintro rfl
        rw [hn] at hm'
        exact (Option.some.inj hm').symm
    by_cases e : m = n
    · simp [e, this.2 e]
    · have e' : ¬ w = v := fun k => e (this.1 k)
      simp [e, e']

/-- **C139**: with a random oversampler, `random_oversampling` returns the rows of `random_neighborhood` followed by copies of some of them, and
the table of these rows, and every class in its class column occurs the same number of times. Missing: with a version of imblearn without
`fit_sample` the call fails. -/
theorem C139_oversampling_partial (f : List (List K) → List K → R → Py (List (List K) × R)) (rng : GPRng R K) (hf : Spec.FairDraws rng)
    (std : List K → K) (ops : CellOps K V) (hops : Spec.CellLaws ops) (ht : Spec.IsTrunc ops.toInt) (argsort : List K → List Nat)
    (ha : Spec.IsArgsort argsort) (dist : Dict String V → Dict String V → Py K) (bb : List K → K) (bbV : List V → Bool) (df : DF V)
    (hs : Spec.Oversamples f bb)
    (ds : Dataset V) (feats : List String) (hfe : feats ≠ []) (hin : ∀ c ∈ feats, c ∈ ds.discrete ∨ c ∈ ds.continuous)
    (n : Nat) (hn : 0 < n) (hd : Spec.DataFor ops ds feats df n)
    (hbb : ∀ classes, Dict.get? ds.encoders ds.className = some classes → ∀ row, ∃ v, Spec.Decodes classes (bb row) v)
    (hcn : ∀ classes, Dict.get? ds.encoders ds.className = some classes → classes.Nodup)
    (x : List K) (hx : Spec.EncodedRecord ds feats x) (hdist : ∀ x0, ∀ z ∈ DF.records df, ∃ d, dist x0 z = .ok d) (r : R) :
    ∃ Z extra out0 out r1 r', randomNeighborhood rng std ops argsort dist bb bbV df x ds true r = .ok ((out0, Z), r1) ∧
      randomOversampling (some f) rng std ops argsort dist bb bbV df x ds r = .ok ((out, Z ++ extra), r') ∧
      (∀ z ∈ extra, z ∈ Z) ∧ Spec.Described ops bb ds feats (Z ++ extra) out ∧
      ∃ col, Dict.get? out ds.className = some col ∧ ∀ v ∈ col, ∀ w ∈ col, col.count v = col.count w := by
  obtain ⟨out0, Z, r1, h1, h2, h3⟩ := random_coded rng hf std ops hops ht argsort ha dist bb bbV df ds feats hfe hin n hn hd hbb x hx hdist r
  obtain ⟨extra, r', e1, e2, e3⟩ := hs Z r1 h2
  obtain ⟨out, o1, o2⟩ := build_described ops hops bb ds feats (Z ++ extra) (h3.sub (fun y hy => by
    rcases List.mem_append.1 hy with hy | hy
    · exact hy
    · exact e2 y hy)) (fun cl hcl x _ => hbb cl hcl x)
  refine ⟨Z, extra, out0, out, r1, r', h1, ?_, e2, o2, ?_⟩
  · simp only [randomOversampling, h1, e1, o1, py_bind_ok]
    rfl
  · obtain ⟨classes, col, c1, c2, c3⟩ := o2.cls
    refine ⟨col, c2, fun v hv w hw => ?_⟩
    obtain ⟨z, hz, hdz⟩ := forall₂_mem_right c3 v hv
    obtain ⟨z', hz', hdz'⟩ := forall₂_mem_right c3 w hw
    have hmem : ∀ y ∈ Z ++ extra, y ∈ Z := fun y hy => (List.mem_append.1 hy).elim id (e2 y)
    rw [count_decoded classes (hcn _ c1) bb _ v hdz c3, count_decoded classes (hcn _ c1) bb _ w hdz' c3]
    exact e3 z (hmem z hz) z' (hmem z' hz')

/-- **C139**: with an instance selector, `random_instance_selection` returns some of the rows of `random_neighborhood`, at least one of each
class predicted by the black box, and their table. Missing: with a version of imblearn without `return_indices` the call fails. -/
theorem C139_selection_partial (f : List (List K) → List K → R → Py (List (List K) × R)) (rng : GPRng R K) (hf : Spec.FairDraws rng)
    (std : List K → K) (ops : CellOps K V) (hops : Spec.CellLaws ops) (ht : Spec.IsTrunc ops.toInt) (argsort : List K → List Nat)
    (ha : Spec.IsArgsort argsort) (dist : Dict String V → Dict String V → Py K) (bb : List K → K) (bbV : List V → Bool) (df : DF V)
    (hs : Spec.Selects f bb)
    (ds : Dataset V) (feats : List String) (hfe : feats ≠ []) (hin : ∀ c ∈ feats, c ∈ ds.discrete ∨ c ∈ ds.continuous)
    (n : Nat) (hn : 0 < n) (hd : Spec.DataFor ops ds feats df n)
    (hbb : ∀ classes, Dict.get? ds.encoders ds.className = some classes → ∀ row, ∃ v, Spec.Decodes classes (bb row) v)
    (x : List K) (hx : Spec.EncodedRecord ds feats x) (hdist : ∀ x0, ∀ z ∈ DF.records df, ∃ d, dist x0 z = .ok d) (r : R) :
    ∃ Z Z' out0 out r1 r', randomNeighborhood rng std ops argsort dist bb bbV df x ds true r = .ok ((out0, Z), r1) ∧
      randomInstanceSelection (some f) rng std ops argsort dist bb bbV df x ds r = .ok ((out, Z'), r') ∧
      (∀ z ∈ Z', z ∈ Z) ∧ (∀ z ∈ Z, ∃ z' ∈ Z', bb z' = bb z) ∧ Spec.Described ops bb ds feats Z' out := by
  obtain ⟨out0, Z, r1, h1, h2, h3⟩ := random_coded rng hf std ops hops ht argsort ha dist bb bbV df ds feats hfe hin n hn hd hbb x hx hdist r
  obtain ⟨Z', r', e1, e2, e3⟩ := hs Z r1 h2
  obtain ⟨out, o1, o2⟩ := build_described ops hops bb ds feats Z' (h3.sub e2) (fun cl hcl x _ => hbb cl hcl x)
  refine ⟨Z, Z', out0, out, r1, r', h1, ?_, e2, e3, o2⟩
  simp only [randomInstanceSelection, h1, e1, o1, py_bind_ok]
  rfl

/-- **C139** is false with the versions of imblearn of today: whatever the arguments, no call returns; if the random neighbourhood is made
the exceptions are `AttributeError` and `TypeError`. -/
theorem C139_imblearn_false (rng : GPRng R K)
    (std : List K → K) (ops : CellOps K V) (argsort : List K → List Nat)
    (dist : Dict String V → Dict String V → Py K) (bb : List K → K) (bbV : List V → Bool) (df : DF V) (ds : Dataset V) (x : List K) (r : R) :
    (∃ e, randomOversampling none rng std ops argsort dist bb bbV df x ds r = .error e) ∧
    (∃ e, randomInstanceSelection none rng std ops argsort dist bb bbV df x ds r = .error e) ∧
    ((∃ p, randomNeighborhood rng std ops argsort dist bb bbV df x ds true r = .ok p) →
      randomOversampling none rng std ops argsort dist bb bbV df x ds r = .error .attributeError ∧
      randomInstanceSelection none rng std ops argsort dist bb bbV df x ds r = .error .typeError) := by
  unfold randomOversampling randomInstanceSelection
  cases h : randomNeighborhood rng std ops argsort dist bb bbV df x ds true r with
  | error e => exact ⟨⟨e, rfl⟩, ⟨e, rfl⟩, fun ⟨_, hp⟩ => by cases hp⟩
  | ok p => exact ⟨⟨_, rfl⟩, ⟨_, rfl⟩, fun _ => ⟨rfl, rfl⟩⟩

/-! ### examples -/

/-- a run of the evolutionary algorithm: the record and a mutation of it. -/
def lgEa (fv : Dict Nat (List ℚ)) (x : List ℚ) (_ : NeigKind) (_ : Nat) (r : Nat) :
    Py ((List (List ℚ × ℚ) × List (List ℚ × ℚ)) × Nat) := do
  let (y, r) ← gpMutate exRng fv (1 / 2) x r
  pure (([(x, 1 / 10), (y, 8 / 10), (x, 9 / 10)], []), r)

theorem lgEa_run (fv : Dict Nat (List ℚ)) (x : List ℚ) : Spec.DeapRun exRng fv (1 / 2) x (lgEa fv x) := by
  intro kind size r pop hof r' h p hp
  unfold lgEa at h
  obtain ⟨⟨y, r1⟩, h1, h⟩ := py_bind_eq_ok.1 h
  cases h
  simp only [List.append_nil, List.mem_cons, List.not_mem_nil, or_false] at hp
  rcases hp with rfl | rfl | rfl
  · exact .init
  · exact .mutation x y r _ .init h1
  · exact .init

def lgX : List (List ℚ) := [[30, 1], [50, 0], [40, 1]]

def lgBB (row : List ℚ) : ℚ := if row[0]? = some 30 then 1 else 0

theorem lg_coded : Spec.CodedFor bdFirst ["age", "job"] lgX where
  columns := rfl
  nodup := by decide
  discreteNodup := by decide +kernel
  discreteIn := by decide +kernel
  classDiscrete := by decide +kernel
  types := by decide +kernel
  encoders := by decide +kernel
  rows := by
    intro x hx
    have hl : x.length = 2 := by
      simp only [lgX, List.mem_cons, List.not_mem_nil, or_false] at hx
      rcases hx with rfl | rfl | rfl <;> rfl
    refine ⟨hl, fun j c hj hc classes hcl w hw => ?_⟩
    match j, hj with
    | 0, hj => cases hj; exact absurd hc (by decide +kernel)
    | 1, hj =>
      cases hj
      have e : Dict.get? bdFirst.encoders "job" = some [5, 7] := by decide +kernel
      rw [e] at hcl; cases hcl
      simp only [lgX, List.mem_cons, List.not_mem_nil, or_false] at hx
      rcases hx with rfl | rfl | rfl <;> cases hw
      · exact ⟨7, 1, by norm_num, rfl⟩
      · exact ⟨5, 0, by norm_num, rfl⟩
      · exact ⟨7, 1, by norm_num, rfl⟩

theorem lg_bb (classes : List ℚ) (h : Dict.get? bdFirst.encoders bdFirst.className = some classes) (x : List ℚ) :
    ∃ v, Spec.Decodes classes (lgBB x) v := by
  have e : Dict.get? bdFirst.encoders bdFirst.className = some [3, 8] := by decide +kernel
  rw [e] at h; cases h
  unfold lgBB
  split_ifs
  · exact ⟨8, 1, by norm_num, rfl⟩
  · exact ⟨3, 0, by norm_num, rfl⟩

example : dataframe2explain ratOps lgBB lgX bdFirst (-2)
    = .ok ([("cls", [8, 3, 3]), ("age", [30, 50, 40]), ("job", [7, 5, 7])], [50, 0]) := by decide +kernel

example : dataframe2explain ratOps lgBB lgX bdFirst 3 = .error .indexError := by decide +kernel

/-- the hypotheses of C138 hold of three training records. -/
example := C138_returned_partial exRng (fun _ => 1) (fun _ _ => .ok []) (1 / 2) lgEa lgEa_run Int.floor ratOps ratOps_laws argsortIns
  (fun _ _ => .ok 0) lgBB (fun _ => true) bdFirst ["age", "job"] lgX lg_coded (by decide +kernel) lg_bb 4 1 0 9
  [("cls", [8, 3, 8, 3]), ("age", [30, 50, 30, 50]), ("job", [5, 5, 5, 5])] [[30, 0], [50, 0], [30, 0], [50, 0]] (by decide +kernel)

example : (geneticNeighborhoodOld ratOps lgBB (fun _ r => .ok ([[30, 1], [50, 0]], r)) (some []) bdFirst 0).map (fun p => p.1.2)
    = .ok [[30, 1], [50, 0]] := by decide +kernel

/-- an oversampler for the examples: it adds copies of a row of each class until it has as many rows as there were in all. -/
def lgOver (Z : List (List ℚ)) (y : List ℚ) (r : Nat) : Py (List (List ℚ) × Nat) :=
  .ok (Z ++ (npUnique y).flatMap (fun c => List.replicate (y.length - y.count c) ((Z.find? (fun z => lgBB z = c)).getD [])), r + 1)

theorem count_flatMap_replicate {α : Type} [DecidableEq α] (g : α → Nat) (l : List α) (hl : l.Nodup) (a : α) (ha : a ∈ l) :
    (l.flatMap (fun c => List.replicate (g c) c)).count a = g a := by
  induction l with
  | nil => cases ha
  | cons b l ih =>
    rw [List.flatMap_cons, List.count_append, List.count_replicate]
    have hb := List.nodup_cons.1 hl
    rcases List.mem_cons.1 ha with rfl | h
    · have : (l.flatMap (fun c => List.replicate (g c) c)).count a = 0 := by
        rw [List.count_eq_zero]
        intro hm
        obtain ⟨c, hc, hm⟩ := List.mem_flatMap.1 hm
        rw [List.eq_of_mem_replicate hm] at hb
        exact hb.1 hc
      simp [this]
    · have : b ≠ a := by rintro rfl; exact hb.1 h
      simp [this, ih hb.2 h]

theorem lgOver_spec : Spec.Oversamples lgOver lgBB := by
  intro Z r _
  have hrow : ∀ c ∈ npUnique (Z.map lgBB), (Z.find? (fun z => lgBB z = c)).getD [] ∈ Z ∧ lgBB ((Z.find? (fun z => lgBB z = c)).getD []) = c := by
    intro c hc
    obtain ⟨z, hz, rfl⟩ := List.mem_map.1 ((mem_npUnique _ _).1 hc)
    have hs : (Z.find? (fun z' => lgBB z' = lgBB z)).isSome := by rw [List.find?_isSome]; exact ⟨z, hz, by simp⟩
    obtain ⟨w, hw⟩ := Option.isSome_iff_exists.1 hs
    rw [hw]
    exact ⟨List.mem_of_find?_eq_some hw, by simpa using List.find?_some hw⟩
  refine ⟨_, r + 1, rfl, ?_, ?_⟩
  · intro z hz
    obtain ⟨c, hc, hz⟩ := List.mem_flatMap.1 hz
    rw [List.eq_of_mem_replicate hz]
    exact (hrow c hc).1
  · have key : ∀ z ∈ Z, ((Z ++ (npUnique (Z.map lgBB)).flatMap (fun c => List.replicate ((Z.map lgBB).length - (Z.map lgBB).count c)
        ((Z.find? (fun z => lgBB z = c)).getD []))).map lgBB).count (lgBB z) = (Z.map lgBB).length := by
      intro z hz
      have hm : lgBB z ∈ npUnique (Z.map lgBB) := (mem_npUnique _ _).2 (List.mem_map_of_mem hz)
      have he : ((npUnique (Z.map lgBB)).flatMap (fun c => List.replicate ((Z.map lgBB).length - (Z.map lgBB).count c)
          ((Z.find? (fun z => lgBB z = c)).getD []))).map lgBB
          = (npUnique (Z.map lgBB)).flatMap (fun c => List.replicate ((Z.map lgBB).length - (Z.map lgBB).count c) c) := by
        rw [List.map_flatMap]
        apply List.flatMap_congr
        intro c hc
        rw [List.map_replicate, (hrow c hc).2]
      rw [List.map_append, List.count_append, he, count_flatMap_replicate _ _ (npUnique_nodup _) _ hm]
      have := List.count_le_length (a := lgBB z) (l := Z.map lgBB)
      omega
    intro z hz z' hz'
    rw [key z hz, key z' hz']

theorem lg_record : Spec.EncodedRecord bdFirst ["age", "job"] ([50, 0] : List ℚ) := lg_coded.rows _ (by decide)

/-- the hypotheses of C139 hold of a table with three records. -/
example := C139_oversampling_partial lgOver exRng exRng_fair (fun _ => 1) ratOps ratOps_laws ratOps_trunc argsortIns argsortIns_spec
  (fun x z => .ok |(Dict.get? x "age").getD 0 - (Dict.get? z "age").getD 0|) lgBB (fun _ => true) gdDf lgOver_spec bdFirst ["age", "job"]
  (by decide) (by decide +kernel) 3 (by decide) gd_data lg_bb (fun classes h => by
    have e : Dict.get? bdFirst.encoders bdFirst.className = some [3, 8] := by decide +kernel
    rw [e] at h; cases h; decide +kernel) [50, 0] lg_record (fun _ _ _ => ⟨_, rfl⟩) 0

example := C139_selection_partial (fun Z _ r => .ok (Z, r)) exRng exRng_fair (fun _ => 1) ratOps ratOps_laws ratOps_trunc argsortIns
  argsortIns_spec (fun x z => .ok |(Dict.get? x "age").getD 0 - (Dict.get? z "age").getD 0|) lgBB (fun _ => true) gdDf
  (fun Z r _ => ⟨Z, r, rfl, fun _ h => h, fun z hz => ⟨z, hz, rfl⟩⟩) bdFirst ["age", "job"]
  (by decide) (by decide +kernel) 3 (by decide) gd_data lg_bb [50, 0] lg_record (fun _ _ _ => ⟨_, rfl⟩) 0

/-- an order of cells: numbers first. -/
@[reducible] def lgOrder : LinearOrder (Cell ℚ) :=
  LinearOrder.lift' (fun c => match c with
    | .num x => (Sum.inlₗ x : ℚ ⊕ₗ String)
    | .str s => Sum.inrₗ s) (by
    intro a b h
    cases a <;> cases b <;> simp at h <;> simp [h])

def lgOps : CellOps ℚ (Cell ℚ) := ⟨.num, fun c => match c with | .num x => some x | .str _ => none, Int.floor⟩

theorem lgOps_laws : Spec.CellLaws lgOps := ⟨fun _ => rfl, fun n => by simp [lgOps]⟩

def lgDs : Dataset (Cell ℚ) where
  df := []
  columns := ["class", "a", "b"]
  className := "class"
  possibleOutcomes := [.str "no", .str "yes"]
  types := [("class", .string), ("a", .double), ("b", .integer)]
  discrete := ["class"]
  continuous := ["a", "b"]
  idxFeatures := [(0, "a"), (1, "b")]
  encoders := [("class", [.str "no", .str "yes"])]
  X := []
  y := []

def lgBB2 (row : List ℚ) : Nat := if row.headD 0 < 1 then 0 else 1

def lgX2 : List (List ℚ) := [[0, 10], [2, 20], [5, 10]]

theorem lg_coded2 : letI := lgOrder; Spec.CodedFor lgDs ["a", "b"] lgX2 :=
  letI := lgOrder
  { columns := rfl
    nodup := by decide
    discreteNodup := by decide +kernel
    discreteIn := by decide +kernel
    classDiscrete := by decide +kernel
    types := by decide +kernel
    encoders := by decide +kernel
    rows := by
      intro x hx
      have hl : x.length = 2 := by
        simp only [lgX2, List.mem_cons, List.not_mem_nil, or_false] at hx
        rcases hx with rfl | rfl | rfl <;> rfl
      refine ⟨hl, fun j c hj hc => ?_⟩
      have h1 : c = "class" := by simpa [lgDs] using hc
      have h2 := List.mem_of_getElem? hj
      rw [h1] at h2
      simp at h2 }

/-- the state after `fit`: four generated records and the instance. -/
example : letI := lgOrder
    (loreFitFull exRng (fun _ => 1) (fun _ _ => .ok []) lgEa Int.floor lgOps argsortIns (fun _ _ => .ok 0) lgBB2 (fun _ => true) lgX2 lgDs
      "class" 4 1 [4, 11] 1 0 {}).2.base.X.map (fun f => f.rows)
      = some [[.num 0, .num 10], [.num 2, .num 20], [.num 0, .num 10], [.num 2, .num 20], [.num 4, .num 11]] := by
  decide +kernel

/-- the hypotheses of C140 hold of three training records with two continuous features. -/
example : letI := lgOrder
    (∀ c ∈ lgDs.encoders, c.1 = lgDs.className) ∧ lgDs.idxFeatures = ["a", "b"].zipIdx.map Prod.swap ∧
    (∀ classes, Dict.get? lgDs.encoders lgDs.className = some classes → ∀ x, ∃ v, Spec.Decodes classes (lgBB2 x : ℚ) v) ∧
    (loreFitFull exRng (fun _ => 1) (fun _ _ => .ok []) lgEa Int.floor lgOps argsortIns (fun _ _ => .ok 0) lgBB2 (fun _ => true) lgX2 lgDs
      "class" 4 1 [4, 11] 1 0 {}).1.isOk = true := by
  refine ⟨by decide +kernel, by decide +kernel, ?_, by decide +kernel⟩
  intro classes h x
  have e : Dict.get? lgDs.encoders lgDs.className = some [.str "no", .str "yes"] := by decide +kernel
  rw [e] at h; cases h
  unfold lgBB2
  split_ifs
  · exact ⟨.str "no", 0, by norm_num, rfl⟩
  · exact ⟨.str "yes", 1, by norm_num, rfl⟩

end Teacher
