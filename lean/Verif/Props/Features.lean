import Verif.Props.Encoding
import Mathlib.Tactic.Linarith
import Mathlib.Algebra.Order.Floor.Ring

/-!
# C80, C83, C84, C85: `set_discrete_continuous`, `get_closest`, `get_closest_diffoutcome`, `get_diff_outcome`
-/

set_option linter.unusedSectionVars false

namespace Teacher

namespace Spec

/-- Specification: `ord` lists the elements of a `set`, each once, in an unspecified order. -/
def IsSetOrder {α : Type} (ord : List α → List α) : Prop := ∀ l, (ord l).Nodup ∧ ∀ x, x ∈ ord l ↔ x ∈ l

end Spec

theorem mem_columnsOf (t : DType) (dtypes : List (String × DType)) (f : String) : f ∈ columnsOf t dtypes ↔ (f, t) ∈ dtypes := by
  simp [columnsOf]

/-- **C80**: whatever the arguments, the class is the last discrete feature, only once, and is not continuous. -/
theorem C80_class (ord : List String → List String) (features : List String) (t : TypeFeatures) (className : String)
    (discrete continuous : Option (List String)) (d c : List String)
    (h : setDiscreteContinuous ord features t className discrete continuous = (d, c)) :
    (∃ rest, d = rest ++ [className] ∧ className ∉ rest) ∧ className ∉ c := by
  obtain ⟨rfl, rfl⟩ := Prod.mk.inj h
  exact ⟨⟨_, rfl, by simp⟩, by simp⟩

/-- **C80**: without user lists, every column other than the class whose dtype is integer, float or object is in exactly one list. -/
theorem C80_no_lists (ord : List String → List String) (features : List String) (dtypes : List (String × DType))
    (hn : (dtypes.map Prod.fst).Nodup) (className : String) (d c : List String)
    (h : setDiscreteContinuous ord features (typeFeatures dtypes) className none none = (d, c))
    (f : String) (hf : f ≠ className) (ty : DType) (hty : (f, ty) ∈ dtypes) :
    (f ∈ d ↔ ty = .string) ∧ (f ∈ c ↔ ty = .integer ∨ ty = .double) := by
  obtain ⟨rfl, rfl⟩ := Prod.mk.inj h
  have hu : ∀ ty', (f, ty') ∈ dtypes ↔ ty = ty' := fun ty' =>
    ⟨fun h' => by
      have h1 := Dict.get?_of_mem_nodup (d := dtypes) hn hty
      have h2 := Dict.get?_of_mem_nodup (d := dtypes) hn h'
      rw [h1] at h2
      exact Option.some.inj h2, fun e => e ▸ hty⟩
  simp [typeFeatures, mem_columnsOf, hf, hu]

/-- **C80**: with a list of discrete features, every feature other than the class with one of the three dtypes is in exactly one list:
the discrete ones are the given ones and the ones with strings. -/
theorem C80_discrete_given (ord : List String → List String) (hord : Spec.IsSetOrder ord) (features : List String)
    (dtypes : List (String × DType)) (hn : (dtypes.map Prod.fst).Nodup) (className : String) (ds d c : List String)
    (h : setDiscreteContinuous ord features (typeFeatures dtypes) className (some ds) none = (d, c))
    (f : String) (hf : f ≠ className) (hff : f ∈ features) (ty : DType) (hty : (f, ty) ∈ dtypes) :
    (f ∈ d ↔ f ∈ ds ∨ ty = .string) ∧ (f ∈ c ↔ f ∉ ds ∧ (ty = .integer ∨ ty = .double)) := by
  obtain ⟨rfl, rfl⟩ := Prod.mk.inj h
  have hu : ∀ ty', (f, ty') ∈ dtypes ↔ ty = ty' := fun ty' =>
    ⟨fun h' => by
      have h1 := Dict.get?_of_mem_nodup (d := dtypes) hn hty
      have h2 := Dict.get?_of_mem_nodup (d := dtypes) hn h'
      rw [h1] at h2
      exact Option.some.inj h2, fun e => e ▸ hty⟩
  simp [typeFeatures, mem_columnsOf, hf, hu, (hord _).2, hff]

/-- **C80**, exactly one list: consequence of the two theorems above for the typed features. -/
theorem C80_exactly_one_partial (ord : List String → List String) (hord : Spec.IsSetOrder ord) (features : List String)
    (dtypes : List (String × DType)) (hn : (dtypes.map Prod.fst).Nodup) (className : String) (ds : Option (List String))
    (d c : List String) (h : setDiscreteContinuous ord features (typeFeatures dtypes) className ds none = (d, c))
    (f : String) (hf : f ≠ className) (hff : f ∈ features) (ty : DType) (hty : (f, ty) ∈ dtypes) (hne : ty ≠ .other) :
    (f ∈ d ∧ f ∉ c) ∨ (f ∉ d ∧ f ∈ c) := by
  cases ds with
  | none =>
    obtain ⟨h1, h2⟩ := C80_no_lists ord features dtypes hn className d c h f hf ty hty
    rw [h1, h2]; cases ty <;> simp_all
  | some ds =>
    obtain ⟨h1, h2⟩ := C80_discrete_given ord hord features dtypes hn className ds d c h f hf hff ty hty
    rw [h1, h2]; by_cases hd : f ∈ ds <;> cases ty <;> simp_all

/-- **C80**, the full statement is false: with a list of continuous features only, a numeric feature that is not in the list is both
discrete and continuous. This is exactly when it happens. -/
theorem C80_continuous_given (ord : List String → List String) (hord : Spec.IsSetOrder ord) (features : List String)
    (dtypes : List (String × DType)) (hn : (dtypes.map Prod.fst).Nodup) (className : String) (cs d c : List String)
    (h : setDiscreteContinuous ord features (typeFeatures dtypes) className none (some cs) = (d, c))
    (f : String) (hf : f ≠ className) (hff : f ∈ features) (ty : DType) (hty : (f, ty) ∈ dtypes) :
    (f ∈ d ∨ f ∈ c) ∧ ((f ∈ d ∧ f ∈ c) ↔ f ∉ cs ∧ (ty = .integer ∨ ty = .double)) := by
  obtain ⟨rfl, rfl⟩ := Prod.mk.inj h
  have hu : ∀ ty', (f, ty') ∈ dtypes ↔ ty = ty' := fun ty' =>
    ⟨fun h' => by
      have h1 := Dict.get?_of_mem_nodup (d := dtypes) hn hty
      have h2 := Dict.get?_of_mem_nodup (d := dtypes) hn h'
      rw [h1] at h2
      exact Option.some.inj h2, fun e => e ▸ hty⟩
  simp only [typeFeatures, ne_eq, List.mem_append, List.mem_filter, hff, decide_not, Bool.not_eq_eq_eq_not, Bool.not_true,
    decide_eq_false_iff_not, true_and, hf, not_false_eq_true, and_true, List.mem_cons, List.not_mem_nil, or_false, (hord _).2,
    mem_columnsOf, hu]
  by_cases hc : f ∈ cs <;> simp [hc]

def ftTypes : List (String × DType) := [("age", .integer), ("job", .string), ("pay", .double), ("cls", .string)]

theorem C80_both_lists_false :
    ∃ d c, setDiscreteContinuous List.dedup ["age", "job", "pay", "cls"] (typeFeatures ftTypes) "cls" none (some ["pay"]) = (d, c) ∧
      "age" ∈ d ∧ "age" ∈ c :=
  ⟨["age", "job", "cls"], ["age", "pay"], by decide +kernel, by simp, by simp⟩

example : Spec.IsSetOrder (List.dedup (α := String)) := fun l => ⟨List.nodup_dedup l, fun _ => List.mem_dedup⟩

example : (ftTypes.map Prod.fst).Nodup := by decide +kernel

example : setDiscreteContinuous List.dedup ["age", "job", "pay", "cls"] (typeFeatures ftTypes) "cls" (some ["age"]) none
    = (["age", "job", "cls"], ["pay"]) := by decide +kernel

/-! ## the nearest records -/

variable {K V : Type} [Field K] [LinearOrder K] [IsStrictOrderedRing K] [LinearOrder V]

namespace Spec

/-- Specification of `np.argsort`: the positions in an order of non-decreasing value; equal values in any order. -/
def IsArgsort (argsort : List K → List Nat) : Prop :=
  ∀ ds, (argsort ds).Perm (List.range ds.length) ∧
    (argsort ds).Pairwise (fun i j => ∀ a b, ds[i]? = some a → ds[j]? = some b → a ≤ b)

/-- Specification: `r` are `k` (or all of them if there are less) different positions of `ds`, in order of non-decreasing value, and no
other position has a smaller value. -/
structure IsKNearest (ds : List K) (k : Nat) (r : List Nat) : Prop where
  length : r.length = min k ds.length
  nodup : r.Nodup
  valid : ∀ i ∈ r, i < ds.length
  sorted : r.Pairwise (fun i j => ∀ a b, ds[i]? = some a → ds[j]? = some b → a ≤ b)
  nearest : ∀ i ∈ r, ∀ j, j ∉ r → ∀ a b, ds[i]? = some a → ds[j]? = some b → a ≤ b

end Spec

theorem pyTake_nat {α : Type} (k : Nat) (l : List α) : pyTake (k : Int) l = l.take k := rfl

theorem Spec.IsArgsort.take {argsort : List K → List Nat} (h : Spec.IsArgsort argsort) (ds : List K) (k : Nat) :
    Spec.IsKNearest ds k ((argsort ds).take k) := by
  obtain ⟨hp, hs⟩ := h ds
  have hnd : (argsort ds).Nodup := hp.nodup_iff.2 List.nodup_range
  refine ⟨by rw [List.length_take, hp.length_eq, List.length_range], hnd.sublist (List.take_sublist _ _), ?_,
    hs.sublist (List.take_sublist _ _), ?_⟩
  · intro i hi
    simpa using hp.mem_iff.1 (List.mem_of_mem_take hi)
  · intro i hi j hj a b ha hb
    have hjm : j ∈ argsort ds := by
      rw [hp.mem_iff, List.mem_range]
      exact (List.getElem?_eq_some_iff.1 hb).1
    rw [← List.take_append_drop k (argsort ds)] at hjm hs
    rcases List.mem_append.1 hjm with hjm | hjm
    · exact absurd hjm hj
    · exact (List.pairwise_append.1 hs).2.2 i hi j hjm a b ha hb

/-- **C83**: `get_closest` with a natural number `k` returns the `k` nearest records (all of them if there are less): different valid
indices in order of non-decreasing distance, no other record being nearer than a returned one. -/
theorem C83_get_closest (argsort : List K → List Nat) (ha : Spec.IsArgsort argsort) (dist : Dict String V → Py K) (df : DF V) (k : Nat)
    (r : List Nat) (h : getClosest argsort dist df k = .ok r) :
    ∃ ds, List.Forall₂ (fun z d => dist z = .ok d) (DF.records df) ds ∧ Spec.IsKNearest ds k r := by
  simp only [getClosest] at h
  obtain ⟨ds, h1, h2⟩ := py_bind_eq_ok.1 h
  cases h2
  exact ⟨ds, (mapM_ok_iff _ _ _).1 h1, ha.take ds k⟩

/-- **C83**: `get_closest` fails only if the distance function fails. -/
theorem C83_success (argsort : List K → List Nat) (dist : Dict String V → Py K) (df : DF V) (k : Int)
    (h : ∀ z ∈ DF.records df, ∃ d, dist z = .ok d) : ∃ r, getClosest argsort dist df k = .ok r := by
  obtain ⟨ds, hds⟩ := forall₂_of_forall_exists (fun z d => dist z = .ok d) _ h
  exact ⟨_, by simp only [getClosest, (mapM_ok_iff _ _ _).2 hds, py_bind_ok]; rfl⟩

/-- an argsort: insertion sort of the positions. -/
def argsortIns (ds : List K) : List Nat := (List.range ds.length).insertionSort (fun i j => ds.getD i 0 ≤ ds.getD j 0)

theorem argsortIns_spec : Spec.IsArgsort (argsortIns (K := K)) := by
  intro ds
  refine ⟨List.perm_insertionSort _ _, ?_⟩
  let _ : Std.Total (fun i j : Nat => ds.getD i 0 ≤ ds.getD j 0) := ⟨fun i j => le_total _ _⟩
  let _ : IsTrans Nat (fun i j : Nat => ds.getD i 0 ≤ ds.getD j 0) := ⟨fun i j k => le_trans⟩
  have := List.pairwise_insertionSort (fun i j : Nat => ds.getD i 0 ≤ ds.getD j 0) (List.range ds.length)
  apply this.imp
  intro i j hij a b ha hb
  simpa [List.getD_eq_getElem?_getD, ha, hb] using hij

def clDist (z : Dict String ℚ) : Py ℚ := Dict.get z "b"

def clDf : DF ℚ := [("b", [4, 1, 3, 2, 1]), ("cls", [0, 1, 0, 1, 1])]

example : getClosest argsortIns clDist clDf ((3 : Nat) : Int) = .ok [1, 4, 3] := by decide +kernel

/-! ## the nearest records of both outcomes -/

theorem closestIdx_spec (argsort : List K → List Nat) (ha : Spec.IsArgsort argsort) (k : Nat) (l : List (K × Nat)) :
    (closestIdx argsort k l).length = min k l.length ∧ ∀ i ∈ closestIdx argsort k l, i ∈ l.map Prod.snd := by
  obtain ⟨h1, -, h3, -, -⟩ := ha.take (l.map Prod.fst) k
  simp only [closestIdx, pyTake_nat]
  constructor
  · rw [List.length_map] at h1 h3
    rw [← h1]
    generalize (argsort (l.map Prod.fst)).take k = r at h3
    clear h1
    induction r with
    | nil => rfl
    | cons a r ih =>
      have : a < l.length := h3 a (by simp)
      rw [List.filterMap_cons, List.getElem?_eq_getElem this]
      simp only [Option.map_some, List.length_cons]
      rw [ih (fun i hi => h3 i (by simp [hi]))]
  · intro i hi
    obtain ⟨j, -, hj⟩ := List.mem_filterMap.1 hi
    cases hl : l[j]? with
    | none => simp [hl] at hj
    | some p =>
      simp only [hl, Option.map_some, Option.some.injEq] at hj
      exact List.mem_map.2 ⟨p, List.mem_of_getElem? hl, hj⟩

theorem withOutcome_mem (o : Bool) (l : List (K × Bool)) (i : Nat) :
    i ∈ (withOutcome o l.zipIdx).map Prod.snd ↔ ∃ d, l[i]? = some (d, o) := by
  simp only [withOutcome, List.map_map, List.mem_map, List.mem_filter, decide_eq_true_eq, Function.comp]
  constructor
  · rintro ⟨⟨⟨d, o'⟩, j⟩, ⟨h1, h2⟩, h3⟩
    rw [List.mem_zipIdx_iff_getElem?] at h1
    simp only at h1 h2 h3
    subst h2; subst h3
    exact ⟨d, h1⟩
  · rintro ⟨d, h⟩
    exact ⟨⟨⟨d, o⟩, i⟩, ⟨by rw [List.mem_zipIdx_iff_getElem?]; exact h, rfl⟩, rfl⟩

theorem withOutcome_length (o : Bool) (l : List (K × Bool)) :
    (withOutcome o l.zipIdx).length = (l.map Prod.snd).count o := by
  simp only [withOutcome, List.length_map]
  have : l = l.zipIdx.map Prod.fst := by simp
  conv_rhs => rw [this, List.map_map]
  rw [List.count, List.countP_map, ← List.countP_eq_length_filter]
  congr 1

/-- `int(·)` of a non-negative number rounds down. -/
def Spec.IsTrunc (toInt : K → Int) : Prop := ∀ x, 0 ≤ x → 0 ≤ toInt x ∧ ((toInt x : Int) : K) ≤ x

theorem toInt_bound (toInt : K → Int) (ht : Spec.IsTrunc toInt) (k : Nat) (ratio : K) (h0 : 0 ≤ ratio) (h1 : ratio ≤ 1) :
    ∃ m : Nat, toInt (((k : Int) : K) * ratio) = m ∧ m ≤ k := by
  have hk : (0 : K) ≤ (k : K) := Nat.cast_nonneg k
  obtain ⟨q1, q2⟩ := ht (((k : Int) : K) * ratio) (by rw [Int.cast_natCast]; exact mul_nonneg hk h0)
  obtain ⟨m, hm⟩ := Int.eq_ofNat_of_zero_le q1
  refine ⟨m, hm, ?_⟩
  rw [hm, Int.cast_natCast, Int.cast_natCast] at q2
  have : (m : K) ≤ (k : K) := q2.trans (mul_le_of_le_one_right hk h1)
  exact_mod_cast this

theorem nrows_set (df : DF V) (c : String) (col col' : List V) (h : Dict.get? df c = some col) (hl : col'.length = col.length) :
    DF.nrows (Dict.set df c col') = DF.nrows df := by
  cases df with
  | nil => simp [Dict.get?] at h
  | cons p t =>
    obtain ⟨k, v⟩ := p
    simp only [Dict.set]
    split
    · rename_i hk
      simp only [Dict.get?, hk, if_true, Option.some.injEq] at h
      simp [DF.nrows, h, hl]
    · rfl

theorem encodeWith_nrows (ops : CellOps K V) (les : Dict String (List V)) (columns : List String) (df Z : DF V)
    (h : encodeWith ops les columns df = .ok Z) : DF.nrows Z = DF.nrows df := by
  induction columns generalizing df with
  | nil => cases h; rfl
  | cons c cs ih =>
    simp only [encodeWith] at h
    obtain ⟨le, -, h⟩ := py_bind_eq_ok.1 h
    obtain ⟨col, hcol, h⟩ := py_bind_eq_ok.1 h
    obtain ⟨enc, henc, h⟩ := py_bind_eq_ok.1 h
    rw [ih _ h]
    exact nrows_set df c col enc (Dict.get_eq_ok_iff.1 hcol) ((mapM_ok_iff _ _ _).1 henc).length_eq.symm

/-- **C84**: for a natural number `k > 0`, a ratio in [0,1] and a DataFrame with rows, `get_closest_diffoutcome` returns at most `k`
valid indices, the first ones being the `k - int(k·ratio)` nearest records; and when less than a part `ratio` of the `k` nearest records have outcome 0, the result has at least `int(k·ratio)`
indices of records with outcome 0, or as many as there are records with that outcome. The outcomes are those of the black box on the
encoded records. The same for the other outcome does not hold: `C84_outcome1_false`. -/
theorem C84_valid_partial (ops : CellOps K V) (ht : Spec.IsTrunc ops.toInt) (argsort : List K → List Nat) (ha : Spec.IsArgsort argsort)
    (dist : Dict String V → Py K) (bb0 : List V → Bool) (df : DF V) (discrete : List String) (className : String)
    (les : Dict String (List V)) (k : Nat) (ratio : K) (h0 : 0 ≤ ratio) (h1 : ratio ≤ 1) (r : List Nat)
    (h : getClosestDiff ops argsort dist bb0 df discrete className les k ratio = .ok r) :
    r.length ≤ k ∧ (∀ i ∈ r, i < (DF.records df).length) ∧
    ∃ Z ds near, encodeWith ops les discrete df = .ok Z ∧ List.Forall₂ (fun z d => dist z = .ok d) (DF.records df) ds ∧
      Spec.IsKNearest ds k near ∧
      near.take (k - (ops.toInt ((k : K) * ratio)).toNat) <+: r ∧
      ((((near.filter (fun i => ((DF.rowsWithout Z className)[i]?.map bb0) = some true)).length : Nat) : K)
          < ratio * (near.length : K) →
        min (ops.toInt ((k : K) * ratio)).toNat (((DF.rowsWithout Z className).map bb0).count true)
          ≤ (r.filter (fun i => ((DF.rowsWithout Z className)[i]?.map bb0) = some true)).length) := by
  simp only [getClosestDiff] at h
  obtain ⟨Z, hZ, h⟩ := py_bind_eq_ok.1 h
  obtain ⟨ds, hds, h⟩ := py_bind_eq_ok.1 h
  have hlen : (DF.records df).length = ds.length := ((mapM_ok_iff _ _ _).1 hds).length_eq
  have hnear := ha.take ds k
  rw [pyTake_nat] at h
  generalize (argsort ds).take k = near at h hnear
  generalize houts : (DF.rowsWithout Z className).map bb0 = outs at h
  obtain ⟨m, hm, hmk⟩ := toInt_bound ops.toInt ht k ratio h0 h1
  have hc0 := closestIdx_spec argsort ha k (withOutcome true (ds.zip outs).zipIdx)
  have hc1 := closestIdx_spec argsort ha k (withOutcome false (ds.zip outs).zipIdx)
  have hl0 := withOutcome_length true (ds.zip outs)
  have hval : ∀ o, ∀ i ∈ closestIdx argsort k (withOutcome o (ds.zip outs).zipIdx), outs[i]? = some o ∧ i < ds.length := by
    intro o i hi
    obtain ⟨d, hd⟩ := (withOutcome_mem o _ i).1 ((closestIdx_spec argsort ha k _).2 i hi)
    rw [List.getElem?_zip_eq_some] at hd
    exact ⟨hd.2, (List.getElem?_eq_some_iff.1 hd.1).1⟩
  simp only [chooseIdx] at h
  obtain ⟨q, hq, h⟩ := py_bind_eq_ok.1 h
  have hsub : ((k : Int) - ops.toInt (((k : Int) : K) * ratio)) = ((k - m : Nat) : Int) := by rw [hm]; omega
  rw [hsub, hm, pyTake_nat, pyTake_nat, pyTake_nat] at h
  have hlk : near.length ≤ k := by rw [hnear.length]; omega
  have hm' : (ops.toInt ((k : K) * ratio)).toNat = m := by
    rw [← Int.cast_natCast (R := K) k, hm]; rfl
  refine ⟨?_, ?_, Z, ds, near, hZ, (mapM_ok_iff _ _ _).1 hds, hnear, ?_, ?_⟩
  · split at h
    · cases h; simp only [List.length_append, List.length_take]; omega
    · split at h
      · cases h; simp only [List.length_append, List.length_take]; omega
      · cases h; exact hlk
  · rw [hlen]
    intro i hi
    split at h
    · cases h
      rcases List.mem_append.1 hi with hi | hi
      · exact hnear.valid i (List.mem_of_mem_take hi)
      · exact (hval true i (List.mem_of_mem_take hi)).2
    · split at h
      · cases h
        rcases List.mem_append.1 hi with hi | hi
        · exact hnear.valid i (List.mem_of_mem_take hi)
        · exact (hval false i (List.mem_of_mem_take hi)).2
      · cases h; exact hnear.valid i hi
  · rw [hm']
    split at h
    · cases h; exact List.prefix_append _ _
    · split at h
      · cases h; exact List.prefix_append _ _
      · cases h; exact List.take_prefix _ _
  · intro hlt
    have hrows : (DF.rowsWithout Z className).length = ds.length := by
      rw [← hlen]; simp [DF.rowsWithout, DF.records, encodeWith_nrows ops les discrete df Z hZ]
    have hol : outs.length = ds.length := by rw [← houts, List.length_map, hrows]
    have hget : ∀ i : Nat, ((DF.rowsWithout Z className)[i]?.map bb0) = outs[i]? := by
      intro i; rw [← houts, List.getElem?_map]
    simp only [hget] at hlt ⊢
    have hqlt : q < ratio := by
      simp only [pyDiv] at hq
      split at hq
      · cases hq
      · rename_i hne
        simp only [Except.ok.injEq] at hq
        rw [← hq]
        have hpos : (0 : K) < (near.length : K) := lt_of_le_of_ne (Nat.cast_nonneg _) (Ne.symm hne)
        rw [div_lt_iff₀ hpos]
        refine lt_of_le_of_lt ?_ hlt
        rw [List.Nodup.dedup hnear.nodup]
        have : (near.filter (fun i => i ∈ closestIdx argsort k (withOutcome true (ds.zip outs).zipIdx))).length
            ≤ (near.filter (fun i => outs[i]? = some true)).length := by
          apply List.Sublist.length_le
          apply List.monotone_filter_right
          intro i hi
          simp only [decide_eq_true_eq] at hi ⊢
          exact (hval true i hi).1
        exact_mod_cast this
    rw [if_pos hqlt] at h
    cases h
    rw [List.filter_append, List.length_append]
    rw [hm']
    have hall : ((closestIdx argsort (k : Int) (withOutcome true (ds.zip outs).zipIdx)).take m).filter (fun i => outs[i]? = some true)
        = (closestIdx argsort (k : Int) (withOutcome true (ds.zip outs).zipIdx)).take m := by
      rw [List.filter_eq_self]
      intro i hi
      simpa using (hval true i (List.mem_of_mem_take hi)).1
    rw [hall, List.length_take, hc0.1, hl0]
    have : (ds.zip outs).map Prod.snd = outs := by
      rw [List.map_snd_zip]; omega
    rw [this, houts]
    omega

/-- **C84**: without rows, or with `k = 0`, the call raises `ZeroDivisionError`. -/
theorem C84_empty (ops : CellOps K V) (argsort : List K → List Nat) (ha : Spec.IsArgsort argsort)
    (dist : Dict String V → Py K) (bb0 : List V → Bool) (df : DF V) (discrete : List String) (className : String)
    (les : Dict String (List V)) (k : Nat) (ratio : K) (Z : DF V) (hZ : encodeWith ops les discrete df = .ok Z)
    (hd : ∀ z ∈ DF.records df, ∃ d, dist z = .ok d) (he : k = 0 ∨ DF.records df = []) :
    getClosestDiff ops argsort dist bb0 df discrete className les k ratio = .error .zeroDivision := by
  obtain ⟨ds, hds⟩ := forall₂_of_forall_exists (fun z d => dist z = .ok d) _ hd
  have hn : (argsort ds).take k = [] := by
    have := (ha.take ds k).length
    rw [← List.length_eq_zero_iff, this]
    rcases he with rfl | he
    · simp
    · rw [he] at hds; cases hds; simp
  simp only [getClosestDiff, hZ, (mapM_ok_iff _ _ _).2 hds, py_bind_ok, pyTake_nat, hn]
  simp [chooseIdx, pyDiv, bind, Except.bind]

/-- the outcome of the black box of the examples: the only column of the encoded row is at least 2. -/
def clBb (row : List ℚ) : Bool := decide (2 ≤ row.headD 0)

example : Spec.IsTrunc ratOps.toInt := fun x hx => ⟨Int.floor_nonneg.2 hx, Int.floor_le x⟩

example : getClosestDiff ratOps argsortIns clDist clBb clDf [] "cls" [] ((2 : Nat) : Int) (1 / 2) = .ok [1, 3] := by decide +kernel

/-- **C84** is false for outcome 1: the condition compares the number of records with that outcome, not its ratio, with `ratio`. Here
one of the five nearest records has outcome 1, below the ratio 1/2, and `int(5·1/2) = 2` records with it exist, but the result has only
one of them. -/
theorem C84_outcome1_false :
    ∃ (df : DF ℚ) (bb0 : List ℚ → Bool) (r : List Nat),
      getClosestDiff ratOps argsortIns clDist bb0 df [] "cls" [] ((5 : Nat) : Int) (1 / 2) = .ok r ∧
      ((DF.rowsWithout df "cls").map bb0).count false = 2 ∧
      (r.filter (fun i => ((DF.rowsWithout df "cls")[i]?.map bb0) = some false)).length = 1 :=
  ⟨[("b", [1, 2, 3, 4, 5, 6]), ("cls", [0, 0, 0, 0, 0, 0])], fun row => decide (row.headD 0 ≠ 5 ∧ row.headD 0 ≠ 6), [0, 1, 2, 3, 4],
    by decide +kernel, by decide +kernel, by decide +kernel⟩

/-- the result can have an index twice: the nearest record of outcome 0 is added although it is already there. -/
theorem C84_duplicates_false :
    ∃ (df : DF ℚ) (bb0 : List ℚ → Bool) (r : List Nat),
      getClosestDiff ratOps argsortIns clDist bb0 df [] "cls" [] ((3 : Nat) : Int) (1 / 2) = .ok r ∧ ¬ r.Nodup :=
  ⟨[("b", [1, 2, 3, 4]), ("cls", [0, 0, 0, 0])], fun row => decide (row.headD 0 = 1), [0, 1, 0], by decide +kernel, by decide +kernel⟩

/-! ## the other outcome -/

/-- **C85**: for two different possible outcomes the result is the other one (and one of them if the given one is neither). -/
theorem C85_diff_outcome {α : Type} [DecidableEq α] (o a b : α) (rest : List α) (hab : a ≠ b) :
    ∃ r, getDiffOutcome o (a :: b :: rest) = .ok r ∧ r ≠ o ∧ (r = a ∨ r = b) ∧ (o = a → r = b) ∧ (o = b → r = a) := by
  by_cases h : o = a
  · subst h
    exact ⟨b, by simp [getDiffOutcome], hab.symm, .inr rfl, fun _ => rfl, fun h => absurd h hab⟩
  · exact ⟨a, by simp [getDiffOutcome, h], fun e => h e.symm, .inl rfl, fun e => absurd e h, fun _ => rfl⟩

/-- with one possible outcome, asking for the other one raises `IndexError`. -/
theorem C85_single {α : Type} [DecidableEq α] (a : α) : getDiffOutcome a [a] = .error .indexError := by
  simp [getDiffOutcome]

example : getDiffOutcome 3 [3, 4] = .ok 4 := by decide +kernel

end Teacher
