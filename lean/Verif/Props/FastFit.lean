import Verif.Model.FastFit
import Verif.Props.EndToEnd
import Verif.Props.Sampling
import Verif.Props.Mixed

/-! # C148: `SamplingNeighborhood.fit` from the training table -/

set_option linter.unusedSectionVars false

namespace Teacher

open Spec

section
variable {K : Type} [Field K] [LinearOrder K] [IsStrictOrderedRing K]

/-! ## the distance -/

theorem pickCols_total (a : List (Cell K)) (idx : List Nat) (h : ∀ i ∈ idx, i < a.length) :
    pickCols a idx = .ok (idx.map (fun i => a.getD i (.num 0))) := by
  unfold pickCols
  refine mapM_ok_of_forall _ _ _ (fun i hi => ?_)
  have := h i hi
  simp [this]

theorem toFloats_nums (l : List K) : toFloats (l.map Cell.num) = .ok l := by
  unfold toFloats
  rw [mapM_ok_iff]
  induction l with
  | nil => exact .nil
  | cons x l ih => exact .cons rfl ih

theorem colsDistance_nums (f : List K → List K → K) (a b : List K) (idx : List Nat) (ha : ∀ i ∈ idx, i < a.length)
    (hb : ∀ i ∈ idx, i < b.length) :
    colsDistance f (a.map .num) (b.map .num) idx = .ok (f (idx.map (fun i => a.getD i 0)) (idx.map (fun i => b.getD i 0))) := by
  have key : ∀ (c : List K), (∀ i ∈ idx, i < c.length) →
      idx.map (fun i => (c.map Cell.num).getD i (.num 0)) = (idx.map (fun i => c.getD i 0)).map Cell.num := by
    intro c hc
    rw [List.map_map]
    refine List.map_congr_left (fun i hi => ?_)
    have := hc i hi
    simp [this]
  unfold colsDistance
  rw [pickCols_total _ _ (by simpa using ha), pickCols_total _ _ (by simpa using hb)]
  simp only [py_bind_ok]
  rw [key a ha, key b hb, toFloats_nums, toFloats_nums]
  rfl

theorem jaccardRow_nonneg (u v : List K) : (0 : K) ≤ jaccardRow u v := by
  unfold jaccardRow
  simp only
  split
  · exact le_refl _
  · exact div_nonneg (Nat.cast_nonneg _) (Nat.cast_nonneg _)

theorem jaccardRow_pos {u v : List K} {x y : K} (h : (x, y) ∈ u.zip v) (hne : x ≠ y) : (0 : K) < jaccardRow u v := by
  have h0 : (x, y) ∈ (u.zip v).filter (fun p => p.1 ≠ 0 ∨ p.2 ≠ 0) := by
    refine List.mem_filter.2 ⟨h, ?_⟩
    simp only [ne_eq, decide_eq_true_eq]
    by_contra hc
    push Not at hc
    exact hne (hc.1.trans hc.2.symm)
  have h1 : (x, y) ∈ ((u.zip v).filter (fun p => p.1 ≠ 0 ∨ p.2 ≠ 0)).filter (fun p => p.1 ≠ p.2) :=
    List.mem_filter.2 ⟨h0, by simpa using hne⟩
  have l0 := List.length_pos_of_mem h0
  have l1 := List.length_pos_of_mem h1
  unfold jaccardRow
  simp only
  rw [if_neg (by omega)]
  exact div_pos (by exact_mod_cast l1) (by exact_mod_cast l0)

theorem euclidRow_nonneg {sqrt : K → K} (h0 : ∀ x, 0 ≤ sqrt x) (u v : List K) : 0 ≤ euclidRow sqrt u v := h0 _

theorem euclidRow_pos {sqrt : K → K} (h1 : ∀ x, 0 < x → 0 < sqrt x) {u v : List K} {x y : K} (h : (x, y) ∈ u.zip v) (hne : x ≠ y) :
    0 < euclidRow sqrt u v := by
  refine h1 _ ?_
  have hz : (List.zipWith (fun x y => (x - y) * (x - y)) u v) = (u.zip v).map (fun p => (p.1 - p.2) * (p.1 - p.2)) := by
    rw [List.zip_eq_zipWith, List.map_zipWith]
  rw [hz]
  have hm : (x - y) * (x - y) ∈ (u.zip v).map (fun p => (p.1 - p.2) * (p.1 - p.2)) := List.mem_map.2 ⟨(x, y), h, rfl⟩
  have hle := List.single_le_sum (l := (u.zip v).map (fun p => (p.1 - p.2) * (p.1 - p.2))) (by
    intro z hz
    obtain ⟨p, -, rfl⟩ := List.mem_map.1 hz
    exact mul_self_nonneg _) _ hm
  have : 0 < (x - y) * (x - y) := mul_self_pos.2 (sub_ne_zero.2 hne)
  linarith

/-- the `'mixed'` distance of two rows of numbers always exists, and it is positive when they differ in a listed column. -/
theorem mixed_nums {sqrt : K → K} (h0 : ∀ x, 0 ≤ sqrt x) (h1 : ∀ x, 0 < x → 0 < sqrt x) {n : Nat} (hn : n ≠ 0) (a b : List K)
    (ha : a.length = n) (hb : b.length = n) (cont disc : List Nat) (hc : ∀ i ∈ cont, i < n) (hd : ∀ i ∈ disc, i < n)
    (mad : Nat → Option K) :
    ∃ v, distanceNamed sqrt "mixed" (a.map .num) (b.map .num) cont disc mad = .ok v ∧ 0 ≤ v ∧
      ((∃ i, i ∈ cont ++ disc ∧ a[i]? ≠ b[i]?) → 0 < v) := by
  have hn' : (n : K) ≠ 0 := Nat.cast_ne_zero.2 hn
  refine ⟨(cont.length : K) / n * euclidRow sqrt (cont.map (fun i => a.getD i 0)) (cont.map (fun i => b.getD i 0)) +
    (disc.length : K) / n * jaccardRow (disc.map (fun i => a.getD i 0)) (disc.map (fun i => b.getD i 0)), ?_, ?_, ?_⟩
  · unfold distanceNamed cfMixedDistance
    rw [if_pos rfl, colsDistance_nums _ _ _ _ (by rw [ha]; exact hc) (by rw [hb]; exact hc),
      colsDistance_nums _ _ _ _ (by rw [ha]; exact hd) (by rw [hb]; exact hd)]
    simp only [py_bind_ok, pyDiv, List.length_map, hb, if_neg hn', py_pure]
  · have := euclidRow_nonneg h0 (cont.map (fun i => a.getD i 0)) (cont.map (fun i => b.getD i 0))
    have := jaccardRow_nonneg (disc.map (fun i => a.getD i 0)) (disc.map (fun i => b.getD i 0))
    positivity
  · rintro ⟨i, hi, hne⟩
    have e1 := euclidRow_nonneg h0 (cont.map (fun i => a.getD i 0)) (cont.map (fun i => b.getD i 0))
    have e2 := jaccardRow_nonneg (disc.map (fun i => a.getD i 0)) (disc.map (fun i => b.getD i 0))
    have hp : (0 : K) < n := by positivity
    have hmem : ∀ idx : List Nat, i ∈ idx → (a.getD i 0, b.getD i 0) ∈ (idx.map (fun i => a.getD i 0)).zip (idx.map (fun i => b.getD i 0)) := by
      intro idx hi
      rw [List.zip_map']; exact List.mem_map.2 ⟨i, hi, rfl⟩
    have hin : i < n := by
      rcases List.mem_append.1 hi with h | h
      exacts [hc i h, hd i h]
    have hne' : a.getD i 0 ≠ b.getD i 0 := by
      simpa [ha, hb, hin] using hne
    rcases List.mem_append.1 hi with h | h
    · have l : (0 : K) < (cont.length : K) := by exact_mod_cast List.length_pos_of_mem h
      have := euclidRow_pos h1 (hmem cont h) hne'
      have := mul_pos (div_pos l hp) this
      have : 0 ≤ (disc.length : K) / n * jaccardRow (disc.map (fun i => a.getD i 0)) (disc.map (fun i => b.getD i 0)) := by positivity
      linarith
    · have l : (0 : K) < (disc.length : K) := by exact_mod_cast List.length_pos_of_mem h
      have := jaccardRow_pos (hmem disc h) hne'
      have := mul_pos (div_pos l hp) this
      have : 0 ≤ (cont.length : K) / n * euclidRow sqrt (cont.map (fun i => a.getD i 0)) (cont.map (fun i => b.getD i 0)) := by positivity
      linarith

/-! ## the table -/

/-- `col` is column number `j` of the training table. -/
def Spec.ColumnIs (X : List (List K)) (j : Nat) (col : List K) : Prop := X.map (fun r => r[j]?) = col.map some

theorem tableCols_spec {X : List (List K)} {n : Nat} (hX : X ≠ []) (hr : ∀ r ∈ X, r.length = n) :
    (tableCols X).length = n ∧ ∀ (j : Nat) col, (tableCols X)[j]? = some col ↔ j < n ∧ ColumnIs X j col := by
  have hw : (X.headD []).length = n := by
    cases X with
    | nil => exact absurd rfl hX
    | cons r X => exact hr r (by simp)
  have hc : ∀ j < n, ColumnIs X j (X.filterMap (fun r => r[j]?)) := by
    intro j hj
    unfold ColumnIs
    clear hX hw
    induction X with
    | nil => rfl
    | cons r X ih =>
      have : j < r.length := by rw [hr r (by simp)]; exact hj
      simp only [List.map_cons, List.getElem?_eq_getElem this, List.filterMap_cons]
      rw [ih (fun r hr' => hr r (by simp [hr']))]
  refine ⟨by simpa [tableCols] using hw, fun j col => ?_⟩
  unfold tableCols
  rw [hw, List.getElem?_map]
  by_cases hj : j < n
  · rw [List.getElem?_range hj]
    simp only [Option.map_some, Option.some.injEq, hj, true_and]
    constructor
    · rintro rfl
      exact hc j hj
    · intro h
      have := (hc j hj).symm.trans h
      exact (List.map_injective_iff.2 (Option.some_injective K)) this
  · rw [List.getElem?_eq_none (by simpa using hj)]
    simp [hj]

theorem Spec.ColumnIs.mem {X : List (List K)} {j : Nat} {col : List K} (h : ColumnIs X j col) (x : K) :
    x ∈ col ↔ ∃ r ∈ X, r[j]? = some x := by
  have : some x ∈ X.map (fun r => r[j]?) ↔ some x ∈ col.map some := by rw [show _ = _ from h]
  simp only [List.mem_map, Option.some.injEq, exists_eq_right] at this
  exact this.symm

theorem mem_idx {features kind : List String} {i : Nat} :
    i ∈ (((features.zipIdx.map (fun p => (p.2, p.1)) : Dict Nat String)).filter (fun p => p.2 ∈ kind)).map Prod.fst ↔
      ∃ c, features[i]? = some c ∧ c ∈ kind := by
  simp only [List.mem_map, List.mem_filter, decide_eq_true_eq, Prod.exists]
  constructor
  · rintro ⟨j, c, ⟨⟨a, b, h, e⟩, hk⟩, rfl⟩
    cases e
    exact ⟨_, List.mk_mem_zipIdx_iff_getElem?.1 h, hk⟩
  · rintro ⟨c, h, hk⟩
    exact ⟨i, c, ⟨⟨c, i, List.mk_mem_zipIdx_iff_getElem?.2 h, rfl⟩, hk⟩, rfl⟩

/-! ## C148 -/

/-- a dataset, a training table and an instance that belong together: the features are numbered in the order of the columns, each one is
continuous or discrete, the rows and the instance have one number per feature with valid codes, the black box answers only the outcomes of
the dataset and gives another class than the instance's to some training row, the range of the neighborhood is valid, and in every
continuous column the interval around the instance's value has positive width and holds an observed value. -/
structure Spec.GoodTable (o : SampObj K) (cls : List String) : Prop where
  fast : o.generation = "fast"
  idx : o.idxFeatures = o.ds.features.zipIdx.map (fun p => (p.2, p.1))
  feats : o.ds.features ≠ []
  kinds : ∀ c ∈ o.ds.features, c ∈ o.continuous ∨ c ∈ o.discrete
  rows : ∀ r ∈ o.X2E, r.length = o.ds.features.length ∧ ValidCodes o.ds r
  inst : o.inst.length = o.ds.features.length ∧ ValidCodes o.ds o.inst
  classes : Dict.get? o.ds.encoders o.ds.className = some cls
  outcomes : o.outcomes = cls.length
  known : ∀ r, o.bb r < cls.length
  other : ∃ r ∈ o.X2E, o.bb r ≠ o.bb o.inst
  range : o.nr = .std ∨ ∃ f, o.nr = .float f ∧ 0 < f ∧ f < 1
  spread : ∀ (i : Nat) c col w x, o.ds.features[i]? = some c → c ∈ o.continuous → ColumnIs o.X2E i col → RangeOf o.std o.nr col w →
    o.inst[i]? = some x → 0 < w ∧ ∃ v ∈ col, x - w < v ∧ v < x + w

/-- `row` is made of values of the training table, column by column, and in every continuous column the value is strictly inside the
interval around the value of `centre`. -/
def Spec.NearRow (o : SampObj K) (centre row : List K) : Prop :=
  row.length = o.ds.features.length ∧
  ∀ (i : Nat) c, o.ds.features[i]? = some c → ∃ x, row[i]? = some x ∧ (∃ r ∈ o.X2E, r[i]? = some x) ∧
    (c ∈ o.continuous → ∃ col m w, ColumnIs o.X2E i col ∧ centre[i]? = some m ∧ RangeOf o.std o.nr col w ∧ m - w < x ∧ x < m + w)

variable {R : Type}

theorem drawn_near (o : SampObj K) (hX : o.X2E ≠ []) (hrows : ∀ r ∈ o.X2E, r.length = o.ds.features.length)
    (hidx : o.idxFeatures = o.ds.features.zipIdx.map (fun p => (p.2, p.1))) (centre : List K) (pd : List (List K × List K))
    (hpd : probDist o.std o.nr (tableCols o.X2E) centre o.contIdx = .ok pd) (row : List K) (h : Drawn pd row) : NearRow o centre row := by
  obtain ⟨hl, hcol⟩ := tableCols_spec hX hrows
  obtain ⟨hlen, hall⟩ := C76_distribution _ _ _ _ _ _ hpd
  have hrl : row.length = o.ds.features.length := by rw [← h.length_eq, hlen, hl]
  refine ⟨hrl, fun i c hc => ?_⟩
  have hi : i < o.ds.features.length := (List.getElem?_eq_some_iff.1 hc).1
  have hir : i < row.length := by omega
  have hip : i < pd.length := by omega
  have hic : i < (tableCols o.X2E).length := by omega
  obtain ⟨-, hC⟩ := (hcol i (tableCols o.X2E)[i]).1 (by simp [hic])
  obtain ⟨h1, h2⟩ := hall i (tableCols o.X2E)[i] pd[i] (by simp [hic]) (by simp [hip])
  have hm : row[i] ∈ pd[i].1 := by
    have := (List.forall₂_iff_get.1 h).2 i hip hir
    simpa using this
  have hne : (tableCols o.X2E)[i] ≠ [] := by
    obtain ⟨r, hr⟩ := List.exists_mem_of_ne_nil _ hX
    have hri : i < r.length := by rw [hrows r hr]; exact hi
    exact List.ne_nil_of_mem ((hC.mem r[i]).2 ⟨r, hr, by simp [hri]⟩)
  have hmem : i ∈ o.contIdx ↔ c ∈ o.continuous := by
    unfold SampObj.contIdx
    rw [hidx, mem_idx]
    constructor
    · rintro ⟨c', h, hk⟩
      rw [hc] at h
      cases h
      exact hk
    · exact fun hk => ⟨c, hc, hk⟩
  refine ⟨row[i], by simp [hir], ?_, ?_⟩
  · rw [← hC.mem]
    by_cases hk : i ∈ o.contIdx
    · obtain ⟨x, w, -, -, hd⟩ := h2 hk hne
      exact ((hd.values _).1 hm).1
    · exact (((h1 hk).values _).1 hm).1
  · intro hk
    obtain ⟨x, w, hx, hw, hd⟩ := h2 (hmem.2 hk) hne
    exact ⟨_, x, w, hC, hx, hw, ((hd.values _).1 hm).2⟩

theorem Spec.NearRow.valid {o : SampObj K} (hrows : ∀ r ∈ o.X2E, ValidCodes o.ds r) {centre row : List K} (h : NearRow o centre row) :
    ValidCodes o.ds row := by
  intro i c x cls hc hx he
  obtain ⟨x', hx', ⟨r, hr, hrx⟩, -⟩ := h.2 i c hc
  rw [hx] at hx'
  cases hx'
  exact hrows r hr i c x cls hc hrx he

/-- **C148**. On a good table, `fit` with the fast generation never fails, whatever the random draws: there is a training row `near` of another
class than the instance, none of another class being closer in the `'mixed'` distance, such that the neighborhood holds at most `size + 1`
sampled rows and then the instance; every sampled row is made of observed values around the instance or around `near`; no class has more
than its share of the sample; the data is the sample decoded, the labels are the black box' answers; and the sample has `size` rows unless
the limit of tries was passed. -/
theorem C148_fit (draw : List K → R → Nat × R) (hf : FairDraw draw) (sqrt : K → K) (h0 : ∀ x, 0 ≤ sqrt x) (h1 : ∀ x, 0 < x → 0 < sqrt x)
    (o : SampObj K) (hd : GoodDs o.ds) (cls : List String) (hg : GoodTable o cls) (fuel : Nat) (hfuel : o.size * 100 + 1 ≤ fuel) (r : R)
    (s : NState K) :
    ∃ (near : List K) (sample : List (List K)) (t : Nat) (r' : R) (shown : List (List (Cell K))) (dec : List (Cell K)) (s' : NState K),
      near ∈ o.X2E ∧ o.bb near ≠ o.bb o.inst ∧
      (∀ z ∈ o.X2E, o.bb z ≠ o.bb o.inst → ∀ v w, (o.ctx sqrt).dist near = .ok v → (o.ctx sqrt).dist z = .ok w → v ≤ w) ∧
      generateFast draw (o.ctx sqrt) fuel r = .ok (sample ++ [o.inst], t, r') ∧ (o.size ≤ sample.length ∨ t = o.size * 100 + 1) ∧
      sample.length ≤ o.size + 1 ∧ (∀ c, classCount o.bb sample c ≤ quota o.size o.outcomes) ∧
      (∀ row ∈ sample, NearRow o o.inst row ∨ NearRow o near row) ∧
      o.fit draw sqrt fuel r s = (.ok (), s') ∧ ShowsRow o.ds o.ds.features o.inst dec ∧
      List.Forall₂ (ShowsRow o.ds o.ds.features) (sample ++ [o.inst]) shown ∧
      s'.X = some ⟨o.ds.features, shown⟩ ∧ s'.y = some ((sample ++ [o.inst]).map o.bb) ∧ s'.decodedInst = some dec := by
  obtain ⟨z0, hz0, hz0'⟩ := hg.other
  have hX : o.X2E ≠ [] := List.ne_nil_of_mem hz0
  have hrl : ∀ r ∈ o.X2E, r.length = o.ds.features.length := fun r hr => (hg.rows r hr).1
  obtain ⟨hl, hcol⟩ := tableCols_spec hX hrl
  have hnf : o.ds.features.length ≠ 0 := by simpa using hg.feats
  have hcidx : ∀ i, i ∈ o.contIdx ↔ ∃ c, o.ds.features[i]? = some c ∧ c ∈ o.continuous := by
    intro i
    unfold SampObj.contIdx
    rw [hg.idx, mem_idx]
  have hdidx : ∀ i, i ∈ o.discIdx ↔ ∃ c, o.ds.features[i]? = some c ∧ c ∈ o.discrete := by
    intro i
    unfold SampObj.discIdx
    rw [hg.idx, mem_idx]
  have hcolne : ∀ col ∈ tableCols o.X2E, col ≠ [] := by
    intro col hc
    obtain ⟨j, hj, rfl⟩ := List.mem_iff_getElem.1 hc
    obtain ⟨hjn, hC⟩ := (hcol j (tableCols o.X2E)[j]).1 (by simp [hj])
    have : j < z0.length := by rw [hrl z0 hz0]; exact hjn
    exact List.ne_nil_of_mem ((hC.mem z0[j]).2 ⟨z0, hz0, by simp [this]⟩)
  -- the distance
  have hdist : ∀ z ∈ o.X2E, ∃ v, (o.ctx sqrt).dist z = .ok v ∧ 0 ≤ v ∧ (z ≠ o.inst → 0 < v) := by
    intro z hz
    obtain ⟨v, hv, hv0, hv1⟩ := mixed_nums h0 h1 hnf o.inst z hg.inst.1 (hrl z hz) o.contIdx o.discIdx
      (fun i hi => by
        obtain ⟨c, hc, -⟩ := (hcidx i).1 hi
        exact (List.getElem?_eq_some_iff.1 hc).1)
      (fun i hi => by
        obtain ⟨c, hc, -⟩ := (hdidx i).1 hi
        exact (List.getElem?_eq_some_iff.1 hc).1) (fun _ => none)
    refine ⟨v, hv, hv0, fun hne => hv1 ?_⟩
    by_contra hcon
    push Not at hcon
    refine hne (List.ext_getElem? (fun i => ?_))
    by_cases hi : i < o.ds.features.length
    · refine (hcon i ?_).symm
      have hci : o.ds.features[i]? = some o.ds.features[i] := by simp [hi]
      rw [List.mem_append, hcidx, hdidx]
      rcases hg.kinds _ (List.getElem_mem hi) with h | h
      · exact .inl ⟨_, hci, h⟩
      · exact .inr ⟨_, hci, h⟩
    · rw [List.getElem?_eq_none (by rw [hrl z hz]; omega), List.getElem?_eq_none (by rw [hg.inst.1]; omega)]
  choose! d hd1 hd2 hd3 using hdist
  set others := o.X2E.filter (fun x => o.bb x ≠ o.bb o.inst) with hothers
  have hmo : ∀ z, z ∈ others ↔ z ∈ o.X2E ∧ o.bb z ≠ o.bb o.inst := by
    intro z
    simp [hothers]
  have hpos : ∀ z ∈ others, 0 < d z := by
    intro z hz
    obtain ⟨hz, hb⟩ := (hmo z).1 hz
    exact hd3 z hz (by rintro rfl; exact hb rfl)
  obtain ⟨near, hnear, hmin, hclosest⟩ : ∃ near ∈ others, (∀ z ∈ others, d near ≤ d z) ∧
      closestInstance (o.ctx sqrt).dist others = .ok (some near) := by
    rcases C66_closest_instance (o.ctx sqrt).dist d others (fun z hz => hd1 z ((hmo z).1 hz).1) with ⟨hle, -⟩ | ⟨pre, z, post, e, hc, -, hpre, hpost⟩
    · exact absurd (hpos z0 ((hmo z0).2 ⟨hz0, hz0'⟩)) (not_lt.2 (hle z0 ((hmo z0).2 ⟨hz0, hz0'⟩)))
    · refine ⟨z, by rw [e]; simp, fun y hy => ?_, hc⟩
      rw [e, List.mem_append, List.mem_cons] at hy
      rcases hy with hy | rfl | hy
      · exact (hpre y hy (hpos y (by rw [e]; simp [hy]))).le
      · exact le_refl _
      · exact hpost y hy (hpos y (by rw [e]; simp [hy]))
  obtain ⟨hnX, hnb⟩ := (hmo near).1 hnear
  -- the distributions
  obtain ⟨pd, hpd⟩ := C76_succeeds o.std o.nr hg.range (tableCols o.X2E) hcolne o.inst (by rw [hl, hg.inst.1]) o.contIdx
  obtain ⟨cpd, hcpd⟩ := C76_succeeds o.std o.nr hg.range (tableCols o.X2E) hcolne near (by rw [hl, hrl near hnX]) o.contIdx
  have hpdne : ∀ p ∈ pd, p.1 ≠ [] := by
    intro p hp
    obtain ⟨hlen, hall⟩ := C76_distribution _ _ _ _ _ _ hpd
    obtain ⟨i, hi, rfl⟩ := List.mem_iff_getElem.1 hp
    have hi' : i < (tableCols o.X2E).length := by omega
    obtain ⟨k1, k2⟩ := hall i (tableCols o.X2E)[i] pd[i] (by simp [hi']) (by simp [hi])
    have hne := hcolne _ (List.getElem_mem hi')
    obtain ⟨-, hC⟩ := (hcol i (tableCols o.X2E)[i]).1 (by simp [hi'])
    by_cases hm : i ∈ o.contIdx
    · obtain ⟨c, hc, hk⟩ := (hcidx i).1 hm
      obtain ⟨x, w, hx, hw, hdd⟩ := k2 hm hne
      obtain ⟨-, v, hv, hv'⟩ := hg.spread i c _ w x hc hk hC hw hx
      exact List.ne_nil_of_mem ((hdd.values v).2 ⟨hv, hv'⟩)
    · obtain ⟨x, hx⟩ := List.exists_mem_of_ne_nil _ hne
      exact List.ne_nil_of_mem (((k1 hm).values x).2 ⟨hx, trivial⟩)
  have hcpdne : ∀ p ∈ cpd, p.1 ≠ [] := by
    refine C92_nonempty o.std o.nr (tableCols o.X2E) near o.contIdx cpd hcpd (fun i col hc => ?_)
    obtain ⟨hin, hC⟩ := (hcol i col).1 hc
    refine ⟨hcolne _ (List.mem_of_getElem? hc), fun hm => ?_⟩
    obtain ⟨c, hcf, hk⟩ := (hcidx i).1 hm
    have hni : i < near.length := by rw [hrl near hnX]; exact hin
    have hii : i < o.inst.length := by rw [hg.inst.1]; exact hin
    refine ⟨near[i], by simp [hni], (hC.mem _).2 ⟨near, hnX, by simp [hni]⟩, fun w hw => ?_⟩
    exact (hg.spread i c col w o.inst[i] hcf hk hC hw (by simp [hii])).1
  -- the sample
  obtain ⟨rows, t, r', hgen⟩ := C92_fast_succeeds_partial draw hf (o.ctx sqrt) (by intro row; show o.bb row < o.outcomes; rw [hg.outcomes]; exact hg.known row)
    hcolne near pd cpd hpd hclosest hcpd hpdne hcpdne r fuel hfuel
  obtain ⟨sample, pd', near', cpd', rfl, q1, q2, q3, q4, q5, q6, q7, -⟩ := C74_balanced draw (o.ctx sqrt) r r' fuel rows t hgen
  have e1 : pd' = pd := by
    have := q1.symm.trans hpd
    cases this
    rfl
  have e2 : near' = some near := by
    have := q2.symm.trans hclosest
    cases this
    rfl
  subst e1 e2
  have e3 : cpd' = cpd := by
    have := q3.symm.trans hcpd
    cases this
    rfl
  subst e3
  have hnr : ∀ row ∈ sample, NearRow o o.inst row ∨ NearRow o near row := by
    intro row hrow
    rcases (q6 row hrow).2 with hdr | hdr
    · exact .inl (drawn_near o hX hrl hg.idx o.inst _ hpd row hdr)
    · exact .inr (drawn_near o hX hrl hg.idx near _ hcpd row hdr)
  have hvalid : ∀ row ∈ sample ++ [o.inst], row.length = o.ds.features.length ∧ ValidCodes o.ds row := by
    intro row hrow
    rcases List.mem_append.1 hrow with h | h
    · rcases hnr row h with h | h
      · exact ⟨h.1, h.valid (fun r hr => (hg.rows r hr).2)⟩
      · exact ⟨h.1, h.valid (fun r hr => (hg.rows r hr).2)⟩
    · simp only [List.mem_singleton] at h
      subst h
      exact hg.inst
  have hgeneq : o.gen draw sqrt fuel r = some (.ok (sample ++ [o.inst])) := by
    unfold SampObj.gen
    rw [hg.fast, if_neg (by decide), if_pos rfl, hgen]
    rfl
  have hfit := C144_succeeds o.ds hd o.bb (sample ++ [o.inst]) o.inst s cls hg.classes (fun r _ => hg.known r) hvalid ⟨hg.inst.1.ge, hg.inst.2⟩
  obtain ⟨s', hs'⟩ : ∃ s', samplingFit o.ds o.bb (some (.ok (sample ++ [o.inst]))) o.inst s = (.ok (), s') := ⟨_, Prod.ext hfit rfl⟩
  obtain ⟨dec, tx, shown, yd, -, g2, -, g4, -, g6⟩ := (C144_fit o.ds hd o.bb (sample ++ [o.inst]) o.inst s s').1 hs'
  refine ⟨near, sample, t, r', shown, dec, s', hnX, hnb, ?_, hgen, q7, q4, q5, hnr, ?_, g2, g4, ?_, ?_, ?_⟩
  · intro z hz hzb v w hv hw
    rw [hd1 near hnX] at hv
    rw [hd1 z hz] at hw
    cases hv
    cases hw
    exact hmin z ((hmo z).2 ⟨hz, hzb⟩)
  · unfold SampObj.fit
    rw [hgeneq]
    exact hs'
  all_goals rw [g6]

/-- C148, for the rest of the pipeline: `fit` is the `fit` of C145 with a good sample. -/
theorem C148_good_sample (draw : List K → R → Nat × R) (hf : FairDraw draw) (sqrt : K → K) (h0 : ∀ x, 0 ≤ sqrt x) (h1 : ∀ x, 0 < x → 0 < sqrt x)
    (o : SampObj K) (hd : GoodDs o.ds) (cls : List String) (hg : GoodTable o cls) (fuel : Nat) (hfuel : o.size * 100 + 1 ≤ fuel) (r : R)
    (fz : FuzzCtx K) :
    ∃ (rows : List (List K)) (t : Nat) (r' : R), generateFast draw (o.ctx sqrt) fuel r = .ok (rows, t, r') ∧
      GoodSample ⟨o.ds, o.bb, o.inst, fz⟩ rows cls ∧
      ∀ s, o.fit draw sqrt fuel r s = samplingFit o.ds o.bb (some (.ok rows)) o.inst s := by
  obtain ⟨near, sample, t, r', shown, dec, s', hnX, -, -, hgen, -, -, -, hnr, -⟩ := C148_fit draw hf sqrt h0 h1 o hd cls hg fuel hfuel r {}
  refine ⟨sample ++ [o.inst], t, r', hgen, ⟨by simp, hg.classes, fun r _ => hg.known r, ?_, ⟨hg.inst.1.ge, hg.inst.2⟩⟩, fun s => ?_⟩
  · intro row hrow
    rcases List.mem_append.1 hrow with h | h
    · rcases hnr row h with h | h
      · exact ⟨h.1, h.valid (fun r hr => (hg.rows r hr).2)⟩
      · exact ⟨h.1, h.valid (fun r hr => (hg.rows r hr).2)⟩
    · simp only [List.mem_singleton] at h
      subst h
      exact hg.inst
  · unfold SampObj.fit SampObj.gen
    rw [hg.fast, if_neg (by decide), if_pos rfl, hgen]
    rfl

/-- **C148**, up to the explanation of a two-class black box: `fit` on a good table, `fuzzify` with arguments that suit every sample, and
`FDTExplainer.fit` on the decoded instance. The last one succeeds exactly when the tree has a split and the factual method has an answer, and its
`exp_value` is then the class the tree gives to the instance, which is the black box' class of the instance or of a sampled row. -/
theorem C148_fdt_explains (draw : List K → R → Nat × R) (hf : FairDraw draw) (sqrt : K → K) (h0 : ∀ x, 0 ≤ sqrt x) (h1 : ∀ x, 0 < x → 0 < sqrt x)
    (o : SampObj K) (hd : GoodDs o.ds) (no yes : String) (hg : GoodTable o [no, yes]) (fuel : Nat) (hfuel : o.size * 100 + 1 ≤ fuel) (r : R)
    (fz : FuzzCtx K) (fa : FuzzArgs K) (nums cats : List String)
    (hfz : ∀ rows t r', generateFast draw (o.ctx sqrt) fuel r = .ok (rows, t, r') → GoodFuzz ⟨o.ds, o.bb, o.inst, fz⟩ fa nums cats rows)
    (cx : ExpCtx K) (hord : ∀ l, (cx.ord l).Perm l) (a : ExpArgs K)
    (hnb : a.nb = (samplingFuzzify fz (o.inst.map .num) fa (o.fit draw sqrt fuel r {}).2).2)
    (hdec : ShowsRow o.ds o.ds.features o.inst a.inst.flatten)
    (hga : ∀ vs, a.nb.vars = some (vs.map some) → GoodArgs cx a vs a.inst.flatten)
    (s : EState K (List (Rule String Nat K)) Changes) :
    (o.fit draw sqrt fuel r {}).1 = .ok () ∧ (samplingFuzzify fz (o.inst.map .num) fa (o.fit draw sqrt fuel r {}).2).1 = .ok () ∧
    ∃ (rows : List (List K)) (p : FDTParams K) (X : Frame K) (t : FNode Nat K) (rs : List (Rule String Nat K)) (c : Nat) (inst : Inst K),
      List.Forall₂ (ShowsRow o.ds o.ds.features) rows X.rows ∧ a.nb.X = some X ∧ a.nb.y = some (rows.map o.bb) ∧ TreeParams a p ∧
      fdtFit cx.ent cx.ord p fdtNew X.rows (rows.map o.bb) = .ok t ∧ fdtToRules t false false = .ok rs ∧
      fdtPredict min .agg t [a.inst.flatten] = .ok [[c]] ∧ (∃ r ∈ rows, c = o.bb r) ∧ (∃ im, a.nb.instMem = some im ∧ OneInstance im inst) ∧
      ((fdtExplainerFit cx a s).1 = .ok () ↔ t.isLeaf = false ∧ FactualAnswers a.factual (fun r => r.matching inst) rs c) ∧
      ((fdtExplainerFit cx a s).1 = .ok () → (fdtExplainerFit cx a s).2.expValue = some c) := by
  obtain ⟨rows, t', r', hgen, hs, hfit⟩ := C148_good_sample draw hf sqrt h0 h1 o hd [no, yes] hg fuel hfuel r fz
  have ha := hfz rows t' r' hgen
  have hrun : a.nb = NObj.run ⟨o.ds, o.bb, o.inst, fz⟩ ([] ++ [.fit (some (.ok rows)), .fuzzify fa]) := by
    rw [hnb, hfit]
    rfl
  obtain ⟨k1, k2, vs, shown, dec, im, k3, k4, k5, k6, -⟩ := C145_pipeline ⟨o.ds, o.bb, o.inst, fz⟩ hd rows [no, yes] hs fa nums cats ha []
  obtain ⟨p, X, t, rs, c, inst, q1, q2, q3, q4, q5, q6, q7, q8, q9⟩ := C145_fdt_explains ⟨o.ds, o.bb, o.inst, fz⟩ hd rows [no, yes] hs fa nums cats ha []
    cx hord a hrun hdec hga (by
      by_cases hex : ∃ r ∈ rows, o.bb r = 1
      · exact .inl hex
      · refine .inr (.inr (fun r hr r' hr' => ?_))
        push Not at hex
        have g1 := hg.known r
        have g2 := hg.known r'
        have g3 := hex r hr
        have g4 := hex r' hr'
        simp only [List.length_cons, List.length_nil] at g1 g2
        show o.bb r = o.bb r'
        omega) s
  rw [← hrun] at k6
  have hX : X = ⟨o.ds.features, shown⟩ := by
    have := q2.symm.trans k6.hX
    cases this
    rfl
  refine ⟨?_, ?_, rows, p, X, t, rs, c, inst, ?_, q2, k6.hy, q1, q3, q4, q5, q6, q7, q8, q9⟩
  · rw [hfit]
    exact k1
  · rw [hfit]
    exact k2
  · rw [hX]
    exact k4

end

/-! ## The hypotheses hold on an example -/

section
/-- a training table of five people: a continuous and an encoded column, and a black box that answers 1 above the age of 3. -/
def fastObj : SampObj ℚ where
  ds := nbObj.ds
  bb := nbObj.bb
  inst := nbObj.inst
  idxFeatures := [(0, "age"), (1, "sex")]
  continuous := ["age"]
  discrete := ["sex", "class"]
  outcomes := 2
  X2E := [[1, 0], [2, 1], [4, 1], [5, 0], [2, 0]]
  size := 3
  generation := "fast"
  nr := .float (1/2)
  std := fun _ => 1

def fastDraw (p : List ℚ) (r : Nat) : Nat × Nat := (r % p.length, r + 1)

example : FairDraw fastDraw := fun _ _ hp => Nat.mod_lt _ (List.length_pos_iff.2 hp)

theorem fastObj_good : GoodTable fastObj ["no", "yes"] := by
  have hb : ∀ r, fastObj.bb r < (["no", "yes"] : List String).length := by
    intro r
    simp only [fastObj, nbObj]
    split <;> simp
  have hv : ∀ r ∈ fastObj.X2E, ValidCodes fastObj.ds r := by
    intro r hr i c x cls hi hx hc
    have hf : fastObj.ds.features = ["age", "sex"] := by decide
    rw [hf] at hi
    match i, hi with
    | 0, hi =>
      simp at hi; subst hi
      have h2 : Dict.get? fastObj.ds.encoders "age" = none := by decide
      rw [h2] at hc; cases hc
    | 1, hi =>
      simp at hi
      subst hi
      have h2 : Dict.get? fastObj.ds.encoders "sex" = some ["f", "m"] := by decide
      rw [h2] at hc
      cases hc
      simp only [fastObj, List.mem_cons, List.not_mem_nil, or_false] at hr
      rcases hr with rfl | rfl | rfl | rfl | rfl
      · simp at hx; subst hx; exact ⟨0, by decide, by decide⟩
      · simp at hx; subst hx; exact ⟨1, by decide, by decide⟩
      · simp at hx; subst hx; exact ⟨1, by decide, by decide⟩
      · simp at hx; subst hx; exact ⟨0, by decide, by decide⟩
      · simp at hx; subst hx; exact ⟨0, by decide, by decide⟩
    | i + 2, hi => simp at hi
  exact {
    fast := rfl
    idx := by decide
    feats := by decide
    kinds := by decide
    rows := fun r hr => ⟨(by
      have : ∀ r ∈ fastObj.X2E, r.length = fastObj.ds.features.length := by decide
      exact this r hr), hv r hr⟩
    inst := ⟨by decide, hv [2, 0] (by decide)⟩
    classes := by decide
    outcomes := rfl
    known := hb
    other := ⟨[5, 0], by decide, by decide +kernel⟩
    range := .inr ⟨1/2, rfl, by norm_num, by norm_num⟩
    spread := by
      intro i c col w x hc hk hcol hw hx
      have hf : fastObj.ds.features = ["age", "sex"] := by decide
      rw [hf] at hc
      match i, hc with
      | 1, hc =>
        simp at hc; subst hc
        exact absurd hk (by decide)
      | i + 2, hc => simp at hc
      | 0, hc =>
        have h2 : fastObj.X2E.map (fun r => r[0]?) = ([1, 2, 4, 5, 2] : List ℚ).map some := by decide +kernel
        have e : col = [1, 2, 4, 5, 2] := (List.map_injective_iff.2 (Option.some_injective ℚ) (h2.symm.trans hcol)).symm
        have ex : x = 2 := by
          have : fastObj.inst[0]? = some 2 := by decide
          rw [this] at hx
          cases hx
          rfl
        subst e ex
        rcases hw with ⟨h, -⟩ | ⟨f, lo, hi, h, -, -, hlo, hlo', hhi, hhi', rfl⟩
        · cases h
        · cases h
          have a1 := hlo' 1 (by simp)
          have a2 := hhi' 5 (by simp)
          refine ⟨by linarith, 2, by simp, by linarith, by linarith⟩ }

/-- the sample that `fit` makes, with the absolute value in the place of the square root. -/
theorem fastObj_sample : (generateFast fastDraw (fastObj.ctx abs) 301 0).toOption =
    some ([[1, 1], [4, 1], [1, 1], [4, 1], [2, 0]], 2, 8) := by decide +kernel

example : (fastObj.fit fastDraw abs 301 0 {}).2.X = some ⟨["age", "sex"], [[.num 1, .str "m"], [.num 4, .str "m"], [.num 1, .str "m"],
      [.num 4, .str "m"], [.num 2, .str "f"]]⟩ ∧
    (fastObj.fit fastDraw abs 301 0 {}).2.y = some [0, 1, 0, 1, 0] := by decide +kernel

def fastFz : FuzzCtx ℚ := { nbObj.fz with fmtK := fun x => if x ≤ 2 then "low" else if x < 4 then "mid" else "high" }

example : ∀ rows t r', generateFast fastDraw (fastObj.ctx abs) 301 0 = .ok (rows, t, r') →
    GoodFuzz ⟨fastObj.ds, fastObj.bb, fastObj.inst, fastFz⟩ nbArgs ["age"] ["sex"] rows := by
  intro rows t r' hgen
  obtain rfl : rows = [[1, 1], [4, 1], [1, 1], [4, 1], [2, 0]] := by
    have := fastObj_sample
    rw [hgen] at this
    cases this
    rfl
  have hcol : ∀ c ∈ ["age"], ∀ v, SampleCol ⟨fastObj.ds, fastObj.bb, fastObj.inst, fastFz⟩ [[1, 1], [4, 1], [1, 1], [4, 1], [2, 0]] c v →
      v = [1, 4, 1, 4, 2] := by
    intro c hc v hv
    simp at hc
    subst hc
    have h2 : ([[1, 1], [4, 1], [1, 1], [4, 1], [2, 0]] : List (List ℚ)).map (fun r => r[fastObj.ds.features.idxOf "age"]?) =
      [1, 4, 1, 4, 2].map some := by decide +kernel
    unfold SampleCol at hv
    rw [h2] at hv
    exact (List.map_injective_iff.2 (Option.some_injective ℚ) hv).symm
  exact {
    numCols := rfl
    catCols := rfl
    ne := by decide
    split := by
      have : fastObj.ds.features = ["age", "sex"] := by decide
      show List.Perm _ fastObj.ds.features
      rw [this]
      exact List.Perm.refl _
    plain := by decide
    coded := by decide
    quiet := rfl
    imem := rfl
    sets := fun _ => by decide
    disc := ⟨fun sets _ v _ => equalWidth id v (sets - 1), by rfl, by
      intro c hc v hv _
      rw [hcol c hc v hv]
      exact ⟨[1, 5/2, 4], by decide +kernel, by decide, by decide +kernel, by decide +kernel⟩⟩
    constant := by
      intro c hc v hv hstd
      rw [hcol c hc v hv] at hstd
      exact absurd hstd (by decide +kernel)
    texts := by
      intro s t h
      exact h }

def fastArgs : ExpArgs ℚ := ⟨[[.num 2, .str "f"]], 0, (samplingFuzzify fastFz (fastObj.inst.map .num) nbArgs (fastObj.fit fastDraw abs 301 0 {}).2).2,
  ["age"], "mr_factual", "i_counterfactual", {}⟩

example : fdtExplainerFit expCtx fastArgs {} = (.ok (), ⟨some 0, some 0, some 1, some ([⟨[("age", "mid")], 0, 1⟩],
    some [("age", "high")])⟩) := by decide +kernel

end

end Teacher
