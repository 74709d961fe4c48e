import Verif.Props.FID3Hand
import Verif.Props.Explainer

/-! # C156: the table of labels that FID3 trains its tree on, and the factual of one of its rows -/

namespace Teacher
set_option linter.unusedSectionVars false

variable {C K : Type} [Field K] [LinearOrder K] [IsStrictOrderedRing K] [LinearOrder C]

/-- the cell of column `c` in row `i`. -/
def Spec.cellAt (X : Frame K) (i : Nat) (c : String) : Option (Cell K) := X.rows[i]?.bind (fun r => r[X.cols.idxOf c]?)

/-- `lab` is the first of the sets of the variable with the largest degree in row `i`. -/
def Spec.StrongestLabel (var : Dict String (List K)) (i : Nat) (lab : String) : Prop :=
  ∃ pre col post x, var = pre ++ (lab, col) :: post ∧ col[i]? = some x ∧
    (∀ q ∈ pre, ∃ y, q.2[i]? = some y ∧ y < x) ∧ ∀ q ∈ post, ∃ y, q.2[i]? = some y ∧ y ≤ x

theorem argmaxLabel_spec {var : Dict String (List K)} {i n : Nat} (hi : i < n) (hne : var ≠ []) (hlen : ∀ q ∈ var, q.2.length = n) :
    ∃ lab, argmaxLabel var i = .ok lab ∧ Spec.StrongestLabel var i lab := by
  obtain ⟨m, hm⟩ := pyMax_ok_of_ne_nil (fun (p : String × List K) => p.2.getD i 0) var hne
  obtain ⟨h1, h2, pre, post, e, h3⟩ := pyMax_eq_ok _ _ _ hm
  have hget : ∀ q ∈ var, q.2[i]? = some (q.2.getD i 0) := by
    intro q hq
    have : i < q.2.length := by rw [hlen q hq]; exact hi
    simp [List.getD, List.getElem?_eq_getElem this]
  refine ⟨m.1, by unfold argmaxLabel; rw [hm]; rfl, pre, m.2, post, m.2.getD i 0, e, hget m h1, ?_, ?_⟩
  · intro q hq
    exact ⟨_, hget q (by rw [e]; simp [hq]), h3 q hq⟩
  · intro q hq
    have hq' : q ∈ var := by rw [e]; simp [hq]
    exact ⟨_, hget q hq', h2 q hq'⟩

theorem categoricalFuzzy_spec {var : Dict String (List K)} {n : Nat} (hne : var ≠ []) (hlen : ∀ q ∈ var, q.2.length = n) :
    ∃ col, categoricalFuzzy n var = .ok col ∧ col.length = n ∧
      ∀ i < n, ∃ lab, col[i]? = some lab ∧ Spec.StrongestLabel var i lab := by
  have key : ∀ i, ∃ lab, i < n → argmaxLabel var i = .ok lab ∧ Spec.StrongestLabel var i lab := by
    intro i
    by_cases hi : i < n
    · obtain ⟨lab, h⟩ := argmaxLabel_spec hi hne hlen
      exact ⟨lab, fun _ => h⟩
    · exact ⟨"", fun h => absurd h hi⟩
  choose g hg using key
  refine ⟨(List.range n).map g, ?_, by simp, ?_⟩
  · exact mapM_ok_of_forall _ g _ (fun i hi => (hg i (List.mem_range.1 hi)).1)
  · intro i hi
    exact ⟨g i, by simp [hi], (hg i hi).2⟩

/-- every row has a cell for every column. -/
def rectFrame (X : Frame K) : Prop := ∀ r ∈ X.rows, r.length = X.cols.length

theorem replaceColumn_spec {X : Frame K} (hX : rectFrame X) {name : String} {col : List String} (hl : col.length = X.rows.length) :
    (replaceColumn X name col).cols = (if name ∈ X.cols then X.cols else X.cols ++ [name]) ∧ rectFrame (replaceColumn X name col) ∧
    (replaceColumn X name col).rows.length = X.rows.length ∧
    (∀ i lab, col[i]? = some lab → Spec.cellAt (replaceColumn X name col) i name = some (.str lab)) ∧
    ∀ i c, c ∈ X.cols → c ≠ name → Spec.cellAt (replaceColumn X name col) i c = Spec.cellAt X i c := by
  unfold replaceColumn
  by_cases hn : name ∈ X.cols
  · simp only [if_pos hn]
    refine ⟨trivial, ?_, by simp [hl], ?_, ?_⟩
    · intro r hr
      obtain ⟨i, hi, e⟩ := List.mem_iff_getElem.1 hr
      simp only [List.getElem_zipWith] at e
      rw [← e, List.length_set]
      exact hX _ (List.getElem_mem _)
    · intro i lab h
      obtain ⟨hi, e⟩ := List.getElem?_eq_some_iff.1 h
      have hi' : i < X.rows.length := hl ▸ hi
      simp only [Spec.cellAt, List.getElem?_zipWith, h, List.getElem?_eq_getElem hi', Option.bind_some]
      have := hX _ (List.getElem_mem hi')
      rw [List.getElem?_set_self]
      rw [this]
      exact List.idxOf_lt_length_iff.2 hn
    · intro i c hc hne
      simp only [Spec.cellAt, List.getElem?_zipWith]
      by_cases hi : i < X.rows.length
      · simp only [List.getElem?_eq_getElem hi, List.getElem?_eq_getElem (hl ▸ hi : i < col.length), Option.bind_some]
        rw [List.getElem?_set_ne]
        intro he
        apply hne
        have h1 := List.idxOf_lt_length_iff.2 hn
        have h2 := List.idxOf_lt_length_iff.2 hc
        have h3 := List.getElem_idxOf h1
        have h4 := List.getElem_idxOf h2
        rw [← h3, ← h4]
        congr 1
        exact he.symm
      · rw [List.getElem?_eq_none (by omega)]
  · simp only [if_neg hn]
    have hidx : (X.cols ++ [name]).idxOf name = X.cols.length := by
      rw [List.idxOf_append_of_notMem hn]; simp
    refine ⟨trivial, ?_, by simp [hl], ?_, ?_⟩
    · intro r hr
      obtain ⟨i, hi, e⟩ := List.mem_iff_getElem.1 hr
      simp only [List.getElem_zipWith] at e
      rw [← e, List.length_append, List.length_append, hX _ (List.getElem_mem _)]
      rfl
    · intro i lab h
      obtain ⟨hi, e⟩ := List.getElem?_eq_some_iff.1 h
      have hi' : i < X.rows.length := hl ▸ hi
      simp only [Spec.cellAt, List.getElem?_zipWith, h, List.getElem?_eq_getElem hi', Option.bind_some, hidx]
      rw [← hX _ (List.getElem_mem hi')]
      simp
    · intro i c hc hne
      simp only [Spec.cellAt, List.getElem?_zipWith]
      by_cases hi : i < X.rows.length
      · simp only [List.getElem?_eq_getElem hi, List.getElem?_eq_getElem (hl ▸ hi : i < col.length), Option.bind_some]
        rw [List.idxOf_append_of_mem hc, List.getElem?_append_left]
        rw [hX _ (List.getElem_mem hi)]
        exact List.idxOf_lt_length_iff.2 hc
      · rw [List.getElem?_eq_none (by omega)]
        rfl

/-- **C156**: `_fuzzify_dataset` of a table and the memberships of its rows (every variable has a set, every set a degree for every row):
the columns are those of the table followed by the new variables; a column with the name of a variable holds in every row the set with the
largest degree (the first of several), and the other columns are unchanged. -/
theorem C156_fuzzify (X : Frame K) (m : Memb K) (hX : ∀ r ∈ X.rows, r.length = X.cols.length) (hkeys : (m.map Prod.fst).Nodup)
    (hm : ∀ p ∈ m, p.2 ≠ [] ∧ ∀ q ∈ p.2, q.2.length = X.rows.length) :
    ∃ df, fuzzifyDataset X m = .ok df ∧ df.cols = X.cols ++ (m.map Prod.fst).filter (fun c => c ∉ X.cols) ∧
      (∀ r ∈ df.rows, r.length = df.cols.length) ∧ df.rows.length = X.rows.length ∧
      (∀ i < X.rows.length, ∀ p ∈ m, ∃ lab, Spec.cellAt df i p.1 = some (.str lab) ∧ Spec.StrongestLabel p.2 i lab) ∧
      ∀ i, ∀ c ∈ X.cols, c ∉ m.map Prod.fst → Spec.cellAt df i c = Spec.cellAt X i c := by
  unfold fuzzifyDataset
  induction m generalizing X with
  | nil => exact ⟨X, rfl, by simp, hX, rfl, by simp, fun i c _ _ => rfl⟩
  | cons p m ih =>
    obtain ⟨hnot, hkeys'⟩ := List.nodup_cons.1 hkeys
    obtain ⟨hne, hlen⟩ := hm p (by simp)
    obtain ⟨col, h1, h2, h3⟩ := categoricalFuzzy_spec hne hlen
    obtain ⟨g1, g2, g3, g4, g5⟩ := replaceColumn_spec (name := p.1) hX h2
    obtain ⟨df, f1, f2, f3, f4, f5, f6⟩ := ih (replaceColumn X p.1 col) g2 hkeys' (by
      intro q hq
      rw [g3]
      exact hm q (by simp [hq]))
    have hmem : p.1 ∈ (replaceColumn X p.1 col).cols := by
      rw [g1]; split
      · assumption
      · simp
    have hold : ∀ c ∈ X.cols, c ∈ (replaceColumn X p.1 col).cols := by
      intro c hc
      rw [g1]; split
      · exact hc
      · simp [hc]
    refine ⟨df, ?_, ?_, f3, f4.trans g3, ?_, ?_⟩
    · rw [List.foldlM_cons, h1]
      exact f1
    · rw [f2, g1, List.map_cons]
      by_cases hp : p.1 ∈ X.cols
      · simp only [if_pos hp]
        rw [List.filter_cons_of_neg (by simpa using hp)]
      · simp only [if_neg hp]
        rw [List.filter_cons_of_pos (by simpa using hp), List.append_assoc]
        congr 1
        rw [List.singleton_append]
        congr 1
        apply List.filter_congr
        intro c hc
        have : c ≠ p.1 := fun e => hnot (e ▸ hc)
        simp [this]
    · intro i hi q hq
      rcases List.mem_cons.1 hq with rfl | hq
      · obtain ⟨lab, e1, e2⟩ := h3 i hi
        exact ⟨lab, by rw [f6 i _ hmem hnot]; exact g4 i lab e1, e2⟩
      · exact f5 i (by rw [g3]; exact hi) q hq
    · intro i c hc hnc
      rw [List.map_cons, List.mem_cons, not_or] at hnc
      rw [f6 i c (hold c hc) hnc.2]
      exact g5 i c hc hnc.1

/-- **C156**: a variable without sets makes it fail, if there is a row. -/
theorem C156_no_sets (X : Frame K) (m : Memb K) (name : String) (hX : X.rows ≠ []) :
    fuzzifyDataset X ((name, []) :: m) = .error .valueError := by
  obtain ⟨r, rs, h⟩ := List.exists_cons_of_ne_nil hX
  have : categoricalFuzzy X.rows.length ([] : Dict String (List K)) = .error .valueError := by
    rw [h, List.length_cons, categoricalFuzzy, List.range_succ_eq_map]
    rfl
  unfold fuzzifyDataset
  rw [List.foldlM_cons, this]
  rfl

example : fuzzifyDataset (⟨["a"], [[.num 3]]⟩ : Frame ℚ) [("b", []), ("a", [("lo", [1])])] = .error .valueError :=
  C156_no_sets _ _ _ (by simp)

/-- `inst` holds the degrees of row `i`. -/
def Spec.DegreesOfRow (m : Memb K) (i : Nat) (inst : Inst K) : Prop :=
  ∀ f s x, Spec.HasDegree inst f s x ↔ ∃ var col, Dict.get? m f = some var ∧ Dict.get? var s = some col ∧ col[i]? = some x

/-- in row `i` every variable has one set above one half, and its other sets are below. -/
def Spec.NoTie (m : Memb K) (i : Nat) : Prop :=
  ∀ p ∈ m, ∃ s col d, (s, col) ∈ p.2 ∧ col[i]? = some d ∧ 1 / 2 < d ∧ ∀ q ∈ p.2, q.1 ≠ s → ∃ e, q.2[i]? = some e ∧ e < 1 / 2

/-- the row of labels has the clearly strongest labels. -/
theorem clear_of_noTie {m : Memb K} {i : Nat} (hkeys : (m.map Prod.fst).Nodup) (hset : ∀ p ∈ m, (p.2.map Prod.fst).Nodup)
    (htie : Spec.NoTie m i) {inst : Inst K} (hinst : Spec.DegreesOfRow m i inst) {features : List String}
    (hf : ∀ f ∈ features, f ∈ m.map Prod.fst) {x : List String} (hlen : x.length = features.length)
    (hx : ∀ p ∈ m, p.1 ∈ features → ∃ lab, x[features.idxOf p.1]? = some lab ∧ Spec.StrongestLabel p.2 i lab) :
    Spec.ClearLabels features inst x := by
  refine ⟨hlen, ?_⟩
  intro f hff
  obtain ⟨p, hp, rfl⟩ := List.mem_map.1 (hf f hff)
  have hgm : Dict.get? m p.1 = some p.2 := Dict.get?_of_mem_nodup hkeys hp
  obtain ⟨lab, h1, pre, col, post, d, e, hd, hpre, hpost⟩ := hx p hp hff
  obtain ⟨s, cs, ds, hs, hds, hhalf, hother⟩ := htie p hp
  have hmem : (lab, col) ∈ p.2 := by rw [e]; simp
  have hle : ds ≤ d := by
    rw [e, List.mem_append, List.mem_cons] at hs
    rcases hs with hs | hs | hs
    · obtain ⟨y, hy, hlt⟩ := hpre _ hs
      rw [hds] at hy
      cases hy
      exact hlt.le
    · cases hs
      rw [hd] at hds
      cases hds
      exact le_rfl
    · obtain ⟨y, hy, hlt⟩ := hpost _ hs
      rw [hds] at hy
      cases hy
      exact hlt
  have hlab : lab = s := by
    by_contra hne
    obtain ⟨e', he', hlt⟩ := hother _ hmem hne
    rw [hd] at he'
    cases he'
    exact absurd (hhalf.trans_le hle) (not_lt.2 hlt.le)
  subst hlab
  refine ⟨lab, h1, ⟨d, (hinst _ _ _).2 ⟨p.2, col, hgm, Dict.get?_of_mem_nodup (hset p hp) hmem, hd⟩, hhalf.trans_le hle⟩, ?_⟩
  intro w e' hne hw
  obtain ⟨var, cw, g1, g2, g3⟩ := (hinst _ _ _).1 hw
  rw [hgm] at g1
  cases g1
  obtain ⟨e'', h2, h3⟩ := hother (w, cw) (Dict.mem_of_get? g2) hne
  rw [g3] at h2
  cases h2
  exact h3

/-- **C156**: the table is turned into labels, an ID3 tree is fitted to the labels with the classes `y` (as `FID3Explainer.fit` does), and
the factual is asked for with the degrees of one of the rows, in which no variable has a tie: it is the rule of the tree that the labels of
the row satisfy, and its class is the class that the tree predicts for the row. -/
theorem C156_row_factual (X : Frame K) (m : Memb K) (hX : ∀ r ∈ X.rows, r.length = X.cols.length) (hnd : X.cols.Nodup)
    (hkeys : (m.map Prod.fst).Nodup) (hm : ∀ p ∈ m, p.2 ≠ [] ∧ ∀ q ∈ p.2, q.2.length = X.rows.length)
    (hset : ∀ p ∈ m, (p.2.map Prod.fst).Nodup) (hall : ∀ c ∈ X.cols, c ∈ m.map Prod.fst) (df : Frame K)
    (hdf : fuzzifyDataset X m = .ok df) (fmt : K → String) (y : List C)
    (gain : List String → List C → List String → K) (ordC : List C → List C) (hC : Spec.IsSetListing ordC)
    (ordF : List String → List String) (hF : Spec.IsArrangement ordF) (p : ID3Params K) (hp : p.features = df.cols)
    (t : INode String C K) (hfit : id3FitWith gain ordC ordF p .fresh ((df.rows.map (fun r => r.map (cellText fmt))).zip y) = .ok t)
    (hsplit : t.isLeaf = false) (i : Nat) (row : List (Cell K)) (hrow : df.rows[i]? = some row) (htie : Spec.NoTie m i)
    (inst : Inst K) (hinst : Spec.DegreesOfRow m i inst) (c : C) (hc : t.predict (row.map (cellText fmt)) = .ok (.cls c))
    (th : K) (hth : th < 1 / 2) :
    ∃ rules r, t.toRules df.cols = .ok rules ∧ fid3Factual (fun r => r.matching inst) rules th = .ok r ∧ r ∈ rules ∧
      Spec.satisfies df.cols (row.map (cellText fmt)) r.antecedent = true ∧ r.consequent = some c := by
  obtain ⟨df', e1, e2, e3, e4, e5, -⟩ := C156_fuzzify X m hX hkeys hm
  rw [hdf] at e1
  cases e1
  obtain ⟨hi, -⟩ := List.getElem?_eq_some_iff.1 hrow
  have hi' : i < X.rows.length := e4 ▸ hi
  have hrl : row.length = df.cols.length := e3 _ (List.mem_of_getElem? hrow)
  have hndd : df.cols.Nodup := by
    rw [e2, List.nodup_append]
    refine ⟨hnd, hkeys.filter _, ?_⟩
    intro a ha b hb
    rintro rfl
    simpa [ha] using (List.mem_filter.1 hb).2
  have hcl : Spec.ClearLabels df.cols inst (row.map (cellText fmt)) := by
    refine clear_of_noTie hkeys hset htie hinst ?_ (by rw [List.length_map, hrl]) ?_
    · intro f hf
      rw [e2, List.mem_append] at hf
      rcases hf with hf | hf
      · exact hall f hf
      · exact (List.mem_filter.1 hf).1
    · intro q hq hqf
      obtain ⟨lab, h1, h2⟩ := e5 i hi' q hq
      refine ⟨lab, ?_, h2⟩
      rw [Spec.cellAt, hrow, Option.bind_some] at h1
      rw [List.getElem?_map, h1]
      rfl
  rw [← hp] at hcl hndd ⊢
  exact C154_fid3_partial gain ordC hC ordF hF p hndd _ t _ hfit hsplit inst _ hcl c hc th hth

/-! ### a case -/

namespace FID3Ex

/-- five rows of numbers. -/
def X : Frame ℚ := ⟨["a", "b"], [[.num 0, .num 0], [.num 1, .num 5], [.num 10, .num 1], [.num 9, .num 4], [.num 8, .num 10]]⟩

/-- their degrees. -/
def m : Memb ℚ := [("a", [("lo", [1, 9/10, 0, 1/10, 1/5]), ("hi", [0, 1/10, 1, 9/10, 4/5])]),
  ("b", [("lo", [1, 0, 4/5, 1/5, 0]), ("mid", [0, 1, 1/5, 4/5, 0]), ("hi", [0, 0, 0, 0, 1])])]

/-- the table of labels. -/
def df : Frame ℚ := ⟨["a", "b"], rows.map (fun r => r.1.map Cell.str)⟩

theorem df_ok : fuzzifyDataset X m = .ok df := by decide +kernel

/-- degrees of the third row. -/
def inst3 : Inst ℚ := [("a", [("lo", 0), ("hi", 1)]), ("b", [("lo", 4/5), ("mid", 1/5), ("hi", 0)])]

theorem inst3_row : Spec.DegreesOfRow m 2 inst3 := by
  intro f s x
  constructor
  · rintro ⟨d, h1, h2⟩
    have h3 := Dict.mem_of_get? h1
    have h4 := Dict.mem_of_get? h2
    simp only [inst3, List.mem_cons, Prod.mk.injEq, List.not_mem_nil, or_false] at h3
    rcases h3 with ⟨rfl, rfl⟩ | ⟨rfl, rfl⟩ <;> simp only [List.mem_cons, Prod.mk.injEq, List.not_mem_nil, or_false] at h4
    · rcases h4 with ⟨rfl, rfl⟩ | ⟨rfl, rfl⟩ <;> exact ⟨_, _, rfl, rfl, rfl⟩
    · rcases h4 with ⟨rfl, rfl⟩ | ⟨rfl, rfl⟩ | ⟨rfl, rfl⟩ <;> exact ⟨_, _, rfl, rfl, rfl⟩
  · rintro ⟨var, col, h1, h2, h3⟩
    have h4 := Dict.mem_of_get? h1
    have h5 := Dict.mem_of_get? h2
    simp only [m, List.mem_cons, Prod.mk.injEq, List.not_mem_nil, or_false] at h4
    rcases h4 with ⟨rfl, rfl⟩ | ⟨rfl, rfl⟩ <;> simp only [List.mem_cons, Prod.mk.injEq, List.not_mem_nil, or_false] at h5
    · rcases h5 with ⟨rfl, rfl⟩ | ⟨rfl, rfl⟩ <;> cases h3 <;> exact ⟨_, rfl, rfl⟩
    · rcases h5 with ⟨rfl, rfl⟩ | ⟨rfl, rfl⟩ | ⟨rfl, rfl⟩ <;> cases h3 <;> exact ⟨_, rfl, rfl⟩

example : ∃ t rules r, id3FitWith gain List.dedup id ID3Ex.p .fresh ((df.rows.map (fun r => r.map (cellText (fun _ => "")))).zip [0, 0, 1, 0, 0]) = .ok t ∧
    t.toRules df.cols = .ok rules ∧ fid3Factual (fun r => r.matching inst3) rules (1 / 100) = .ok r ∧ r.consequent = some 1 := by
  obtain ⟨t, h, hv⟩ := fit_ok
  simp only [Prod.mk.injEq] at hv
  have hrows : (df.rows.map (fun r => r.map (cellText (fun _ : ℚ => "")))).zip [0, 0, 1, 0, 0] = rows := by decide +kernel
  obtain ⟨rules, r, h1, h2, -, -, h3⟩ := C156_row_factual X m (by decide) (by decide) (by decide) (by decide) (by decide) (by decide) df df_ok
    (fun _ => "") [0, 0, 1, 0, 0] gain List.dedup ID3Ex.arr_dedup id ID3Ex.arr_id ID3Ex.p rfl t (by rw [hrows]; exact h) hv.1 2 _ rfl
    (by
      intro p hp
      simp only [m, List.mem_cons, List.not_mem_nil, or_false] at hp
      rcases hp with rfl | rfl
      · refine ⟨"hi", _, 1, List.mem_cons_of_mem _ (List.mem_cons_self ..), rfl, by norm_num, ?_⟩
        intro q hq hne
        simp only [List.mem_cons, List.not_mem_nil, or_false] at hq
        rcases hq with rfl | rfl
        · exact ⟨0, rfl, by norm_num⟩
        · exact absurd rfl hne
      · refine ⟨"lo", _, 4/5, List.mem_cons_self .., rfl, by norm_num, ?_⟩
        intro q hq hne
        simp only [List.mem_cons, List.not_mem_nil, or_false] at hq
        rcases hq with rfl | rfl | rfl
        · exact absurd rfl hne
        · exact ⟨1/5, rfl, by norm_num⟩
        · exact ⟨0, rfl, by norm_num⟩)
    inst3 inst3_row 1 hv.2.1 (1 / 100) (by norm_num)
  exact ⟨t, rules, r, by rw [hrows]; exact h, h1, h2, h3⟩

/-- a new column is added at the end, a column without memberships stays. -/
example : fuzzifyDataset (⟨["z", "a"], [[.num 3, .num 0], [.num 4, .num 7]]⟩ : Frame ℚ) [("a", [("lo", [1, 0]), ("hi", [0, 1])]), ("n", [("u", [1/2, 0]), ("v", [1/2, 1])])] =
    .ok ⟨["z", "a", "n"], [[.num 3, .str "lo", .str "u"], [.num 4, .str "hi", .str "v"]]⟩ := by decide +kernel

end FID3Ex

end Teacher
