import Verif.Props.Neighborhood
import Verif.Props.Failures

/-! # C144: `SamplingNeighborhood.fit` decodes the sample and labels it with the black box -/

set_option linter.unusedSectionVars false

namespace Teacher

open Spec

section
variable {K : Type} [Field K] [LinearOrder K] [IsStrictOrderedRing K]

/-- the cell that column `c` shows for the number `x`: the number itself in a column without label encoder, the text whose code is `x`
otherwise. -/
def Spec.Shows (d : DsCtx K) (c : String) (x : K) (cell : Cell K) : Prop :=
  (Dict.get? d.encoders c = none ∧ cell = .num x) ∨
  ∃ cls n s, Dict.get? d.encoders c = some cls ∧ d.toInt x = Int.ofNat n ∧ cls[n]? = some s ∧ cell = .str s

/-- `cells` shows the numbers of `row`, position by position along the columns `cols`. -/
def Spec.ShowsRow (d : DsCtx K) (cols : List String) (row : List K) (cells : List (Cell K)) : Prop :=
  cells.length = cols.length ∧
    ∀ (i : Nat) c, cols[i]? = some c → ∃ x cell, row[i]? = some x ∧ cells[i]? = some cell ∧ Shows d c x cell

theorem inverseTransform_ok_iff (cls : List String) (i : Int) (s : String) :
    inverseTransform cls i = .ok s ↔ ∃ n : Nat, i = Int.ofNat n ∧ cls[n]? = some s := by
  cases i with
  | ofNat n =>
    constructor
    · intro h
      refine ⟨n, rfl, ?_⟩
      simp only [inverseTransform] at h
      split at h
      · rename_i t ht; cases h; exact ht
      · cases h
    · rintro ⟨m, hm, h⟩
      cases hm
      simp only [inverseTransform, h]
  | negSucc n => simp [inverseTransform]

/-- one column of the loop: either untouched or decoded. -/
def Spec.CellStep (d : DsCtx K) (encs : Dict String (List String)) (c : String) (x y : Cell K) : Prop :=
  ((c = d.className ∨ Dict.get? encs c = none) ∧ y = x) ∨
  (c ≠ d.className ∧ ∃ cls v n s, Dict.get? encs c = some cls ∧ x = .num v ∧ d.toInt v = Int.ofNat n ∧ cls[n]? = some s ∧ y = .str s)

/-- a row before and after the loop. -/
def Spec.RowStep (d : DsCtx K) (encs : Dict String (List String)) (cols : List String) (r r' : List (Cell K)) : Prop :=
  r'.length = r.length ∧ ∀ (i : Nat) c x, cols[i]? = some c → r[i]? = some x → ∃ y, r'[i]? = some y ∧ CellStep d encs c x y

theorem decodeCellOf_ok_iff (d : DsCtx K) (cls : List String) (x y : Cell K) :
    decodeCellOf d cls x = .ok y ↔ ∃ v n s, x = .num v ∧ d.toInt v = Int.ofNat n ∧ cls[n]? = some s ∧ y = .str s := by
  cases x with
  | str s => simp [decodeCellOf]
  | num v =>
    simp only [decodeCellOf, py_bind_eq_ok, inverseTransform_ok_iff, py_pure, Except.ok.injEq]
    constructor
    · rintro ⟨s, ⟨n, h1, h2⟩, rfl⟩; exact ⟨v, n, s, rfl, h1, h2, rfl⟩
    · rintro ⟨v', n, s, h0, h1, h2, rfl⟩
      cases h0
      exact ⟨s, ⟨n, h1, h2⟩, rfl⟩

/-- the loop over the label encoders, on a rectangular table. -/
theorem decodeColumns_iff (d : DsCtx K) (encs : Dict String (List String)) (hnd : (Dict.keys encs).Nodup) :
    ∀ (df df' : Frame K), df.cols.Nodup → (∀ c ∈ Dict.keys encs, c ≠ d.className → c ∈ df.cols) →
      (∀ r ∈ df.rows, r.length = df.cols.length) →
      (decodeColumns d encs df = .ok df' ↔ df'.cols = df.cols ∧ List.Forall₂ (RowStep d encs df.cols) df.rows df'.rows) := by
  induction encs with
  | nil =>
    intro df df' hc1 hc2 hl
    clear hc1 hc2
    have hrow : ∀ r r' : List (Cell K), RowStep d [] df.cols r r' → r.length = df.cols.length → r' = r := by
      rintro r r' ⟨h1, h2⟩ hl
      apply List.ext_getElem?
      intro i
      by_cases hi : i < r.length
      · obtain ⟨y, hy, hs⟩ := h2 i _ _ (List.getElem?_eq_getElem (by omega)) (List.getElem?_eq_getElem hi)
        rcases hs with ⟨-, rfl⟩ | ⟨-, cls, _, _, _, h, -⟩
        · rw [hy, List.getElem?_eq_getElem hi]
        · cases h
      · rw [List.getElem?_eq_none (by omega), List.getElem?_eq_none (by omega)]
    simp only [decodeColumns, Except.ok.injEq]
    constructor
    · rintro rfl
      refine ⟨rfl, List.forall₂_same.2 (fun r _ => ⟨rfl, fun i c x _ hx => ⟨x, hx, .inl ⟨.inr rfl, rfl⟩⟩⟩)⟩
    · rintro ⟨h1, h2⟩
      obtain ⟨cols, rows⟩ := df
      obtain ⟨cols', rows'⟩ := df'
      simp only at h1 h2 hrow ⊢
      subst h1
      congr 1
      simp only at hl
      induction h2 with
      | nil => rfl
      | @cons a b l l' hab _ ih =>
        rw [hrow a b hab (hl a (by simp)), ← ih (fun r hr => hl r (by simp [hr]))]
  | cons e encs ih =>
    obtain ⟨le, cls⟩ := e
    intro df df' hcols hsub hl
    have hndk : le ∉ Dict.keys encs ∧ (Dict.keys encs).Nodup := by simpa [Dict.keys] using hnd
    have hgle : Dict.get? encs le = none := by rw [Dict.get?_eq_none_iff]; exact hndk.1
    have hcons : ∀ c, c ≠ le → Dict.get? ((le, cls) :: encs) c = Dict.get? encs c := by
      intro c hc
      simp only [Dict.get?]
      rw [if_neg (fun h => hc h.symm)]
    have hself : Dict.get? ((le, cls) :: encs) le = some cls := by simp [Dict.get?]
    simp only [decodeColumns]
    by_cases hcl : le = d.className
    · rw [if_pos hcl, ih hndk.2 df df' hcols (fun c hc => hsub c (by simp [Dict.keys] at hc ⊢; exact .inr hc)) hl]
      have : ∀ r r', RowStep d encs df.cols r r' ↔ RowStep d ((le, cls) :: encs) df.cols r r' := by
        intro r r'
        have hcell : ∀ c x y, CellStep d encs c x y ↔ CellStep d ((le, cls) :: encs) c x y := by
          intro c x y
          unfold CellStep
          by_cases hc : c = le
          · subst hc; simp [hcl]
          · rw [hcons c hc]
        simp only [RowStep, hcell]
      rw [show RowStep d encs df.cols = RowStep d ((le, cls) :: encs) df.cols from funext fun r => funext fun r' => propext (this r r')]
    · rw [if_neg hcl]
      have hlc : le ∈ df.cols := hsub le (by simp [Dict.keys]) hcl
      obtain ⟨j, hj⟩ : ∃ j, j = df.cols.idxOf le := ⟨_, rfl⟩
      have hjl : j < df.cols.length := by rw [hj]; exact List.idxOf_lt_length_iff.2 hlc
      have hjc : df.cols[j]? = some le := by
        rw [List.getElem?_eq_getElem hjl]; subst hj; simp
      have hidx : df.colIdx le = .ok j := by unfold Frame.colIdx; rw [if_pos hlc, hj]
      have huniq : ∀ (i : Nat) c, df.cols[i]? = some c → (i = j ↔ c = le) := by
        intro i c hi
        constructor
        · rintro rfl; rw [hjc] at hi; exact (Option.some.inj hi).symm
        · rintro rfl
          obtain ⟨h1, h2⟩ := List.getElem?_eq_some_iff.1 hi
          obtain ⟨h3, h4⟩ := List.getElem?_eq_some_iff.1 hjc
          exact (List.Nodup.getElem_inj_iff hcols).1 (h2.trans h4.symm)
      simp only [hidx, py_bind_ok]
      -- the two halves of a row
      have hcomp : ∀ r r', r.length = df.cols.length →
          (RowStep d ((le, cls) :: encs) df.cols r r' ↔ ∃ r1, updCell j (decodeCellOf d cls) r = .ok r1 ∧ RowStep d encs df.cols r1 r') := by
        intro r r' hr
        constructor
        · rintro ⟨h1, h2⟩
          obtain ⟨y, hy, hs⟩ := h2 j le _ hjc (List.getElem?_eq_getElem (by omega))
          rcases hs with ⟨hn, -⟩ | ⟨-, cls', v, n, s, g1, g2, g3, g4, rfl⟩
          · rw [hself] at hn
            rcases hn with hn | hn
            · exact absurd hn hcl
            · cases hn
          rw [hself] at g1
          cases g1
          refine ⟨r.set j (.str s), (updCell_ok_iff _ _ _ _).2 ⟨_, _, List.getElem?_eq_getElem (by omega),
            (decodeCellOf_ok_iff _ _ _ _).2 ⟨v, n, s, g2, g3, g4, rfl⟩, rfl⟩, by rw [List.length_set]; exact h1, ?_⟩
          intro i c x hi hx
          by_cases hij : i = j
          · have := (huniq i c hi).1 hij
            subst hij this
            rw [List.getElem?_set_self (by omega), Option.some.injEq] at hx
            exact ⟨x, by rw [← hx]; exact hy, .inl ⟨.inr hgle, rfl⟩⟩
          · rw [List.getElem?_set_ne (fun h => hij h.symm)] at hx
            obtain ⟨y', hy', hs'⟩ := h2 i c x hi hx
            refine ⟨y', hy', ?_⟩
            unfold CellStep at hs' ⊢
            rwa [hcons c (fun h => hij ((huniq i c hi).2 h))] at hs'
        · rintro ⟨r1, hu, h1, h2⟩
          obtain ⟨x0, y0, e1, e2, rfl⟩ := (updCell_ok_iff _ _ _ _).1 hu
          rw [List.length_set] at h1
          refine ⟨h1, ?_⟩
          intro i c x hi hx
          by_cases hij : i = j
          · have := (huniq i c hi).1 hij
            subst hij this
            obtain ⟨y, hy, hs⟩ := h2 i c y0 hi (by rw [List.getElem?_set_self (by omega)])
            rw [e1] at hx
            cases hx
            obtain ⟨v, n, s, k1, k2, k3, rfl⟩ := (decodeCellOf_ok_iff _ _ _ _).1 e2
            rcases hs with ⟨-, rfl⟩ | ⟨-, cls', _, _, _, g1, -⟩
            · exact ⟨_, hy, .inr ⟨hcl, cls, v, n, s, hself, k1, k2, k3, rfl⟩⟩
            · rw [hgle] at g1; cases g1
          · obtain ⟨y, hy, hs⟩ := h2 i c x hi (by rw [List.getElem?_set_ne (fun h => hij h.symm)]; exact hx)
            refine ⟨y, hy, ?_⟩
            unfold CellStep at hs ⊢
            rwa [hcons c (fun h => hij ((huniq i c hi).2 h))]
      have hlen1 : ∀ rows, List.Forall₂ (fun r r1 => updCell j (decodeCellOf d cls) r = .ok r1) df.rows rows →
          ∀ r1 ∈ rows, r1.length = df.cols.length := by
        intro rows h r1 hr1
        obtain ⟨r, hr, hu⟩ := forall₂_mem_right h r1 hr1
        obtain ⟨_, _, -, -, rfl⟩ := (updCell_ok_iff _ _ _ _).1 hu
        rw [List.length_set]; exact hl r hr
      have hsub' : ∀ c ∈ Dict.keys encs, c ≠ d.className → c ∈ df.cols :=
        fun c hc => hsub c (by simp [Dict.keys] at hc ⊢; exact .inr hc)
      rw [py_bind_eq_ok]
      constructor
      · rintro ⟨rows, h1, h2⟩
        rw [mapM_ok_iff] at h1
        obtain ⟨k1, k2⟩ := (ih hndk.2 { df with rows := rows } df' hcols hsub' (hlen1 rows h1)).1 h2
        refine ⟨k1, ?_⟩
        simp only at k2
        have hl' := hl
        clear h2 k1 hl
        generalize df.rows = R at h1 hl'
        generalize df'.rows = R' at k2
        induction h1 generalizing R' with
        | nil => cases k2; exact .nil
        | @cons r r1 l l1 hr _ ihl =>
          cases k2 with
          | cons hr' hrest => exact .cons ((hcomp r _ (hl' r (by simp))).2 ⟨r1, hr, hr'⟩) (ihl (fun r hr => hl' r (by simp [hr])) _ hrest)
      · rintro ⟨k1, k2⟩
        have : ∃ rows, List.Forall₂ (fun r r1 => updCell j (decodeCellOf d cls) r = .ok r1) df.rows rows ∧
            List.Forall₂ (RowStep d encs df.cols) rows df'.rows := by
          have hl' := hl
          generalize df.rows = R at k2 hl'
          generalize df'.rows = R' at k2
          induction k2 with
          | nil => exact ⟨[], .nil, .nil⟩
          | @cons r r' l l' hr _ ihl =>
            obtain ⟨rows, q1, q2⟩ := ihl (fun r hr => hl' r (by simp [hr]))
            obtain ⟨r1, q3, q4⟩ := (hcomp r _ (hl' r (by simp))).1 hr
            exact ⟨r1 :: rows, .cons q3 q1, .cons q4 q2⟩
        obtain ⟨rows, h1, h2⟩ := this
        exact ⟨rows, (mapM_ok_iff _ _ _).2 h1, (ih hndk.2 { df with rows := rows } df' hcols hsub' (hlen1 rows h1)).2 ⟨k1, h2⟩⟩

/-- the text of class number `c`. -/
def Spec.ClassText (d : DsCtx K) (c : Nat) (t : String) : Prop :=
  ∃ cls, Dict.get? d.encoders d.className = some cls ∧ cls[c]? = some t

theorem decodeFeature_ok_iff (d : DsCtx K) (inst : List K) (c : String) (i : Nat) (y : Cell K) :
    decodeFeature d inst (c, i) = .ok y ↔ ∃ x, inst[i]? = some x ∧ Shows d c x y := by
  unfold decodeFeature Shows
  cases h1 : inst[i]? with
  | none => simp
  | some x =>
    cases h2 : Dict.get? d.encoders c with
    | none =>
      simp only [Except.ok.injEq, Option.some.injEq, exists_eq_left']
      constructor
      · rintro rfl; exact .inl ⟨trivial, rfl⟩
      · rintro (⟨-, rfl⟩ | ⟨_, _, _, h, -⟩)
        · rfl
        · cases h
    | some cls =>
      simp only [py_bind_eq_ok, inverseTransform_ok_iff, py_pure, Except.ok.injEq, Option.some.injEq, exists_eq_left']
      constructor
      · rintro ⟨t, ⟨n, h, h'⟩, rfl⟩; exact .inr ⟨cls, n, t, rfl, h, h', rfl⟩
      · rintro (⟨h, -⟩ | ⟨_, n, t, rfl, h, h', rfl⟩)
        · cases h
        · exact ⟨t, ⟨n, h, h'⟩, rfl⟩

theorem forall₂_zipIdx {α β : Type} (R : α × Nat → β → Prop) : ∀ (l : List α) (l' : List β) (k : Nat),
    List.Forall₂ R (l.zipIdx k) l' ↔ l'.length = l.length ∧ ∀ (i : Nat) a, l[i]? = some a → ∃ b, l'[i]? = some b ∧ R (a, k + i) b := by
  intro l
  induction l with
  | nil => intro l' k; simp [List.forall₂_nil_left_iff]
  | cons x l ih =>
    intro l' k
    cases l' with
    | nil => simp
    | cons y l' =>
      simp only [List.zipIdx_cons, List.forall₂_cons, ih, List.length_cons, Nat.add_right_cancel_iff]
      constructor
      · rintro ⟨h1, h2, h3⟩
        refine ⟨h2, fun i a hi => ?_⟩
        cases i with
        | zero => simp at hi; subst hi; exact ⟨y, by simp, h1⟩
        | succ i =>
          obtain ⟨b, hb, hr⟩ := h3 i a (by simpa using hi)
          exact ⟨b, by simpa using hb, by rwa [show k + (i + 1) = k + 1 + i by omega]⟩
      · rintro ⟨h2, h3⟩
        refine ⟨?_, h2, fun i a hi => ?_⟩
        · obtain ⟨b, hb, hr⟩ := h3 0 x (by simp)
          simp at hb; subst hb; exact hr
        · obtain ⟨b, hb, hr⟩ := h3 (i + 1) a (by simpa using hi)
          exact ⟨b, by simpa using hb, by rwa [show k + 1 + i = k + (i + 1) by omega]⟩

theorem decodeInstance_ok_iff (d : DsCtx K) (inst : List K) (dec : List (Cell K)) :
    d.features.zipIdx.mapM (decodeFeature d inst) = .ok dec ↔ ShowsRow d d.features inst dec := by
  rw [mapM_ok_iff, forall₂_zipIdx]
  unfold ShowsRow
  refine and_congr Iff.rfl (forall_congr' fun i => forall_congr' fun c => imp_congr Iff.rfl ?_)
  simp only [Nat.zero_add, decodeFeature_ok_iff]
  constructor
  · rintro ⟨b, hb, x, hx, hs⟩; exact ⟨x, b, hx, hb, hs⟩
  · rintro ⟨x, b, hx, hb, hs⟩; exact ⟨b, hb, x, hx, hs⟩

theorem mkFrame_ok_iff (features : List String) (rows : List (List K)) (Z : Frame K) :
    mkFrame features rows = .ok Z ↔ (∀ r ∈ rows, r.length = features.length) ∧ Z = ⟨features, rows.map (fun r => r.map .num)⟩ := by
  unfold mkFrame
  split
  · rename_i h
    simp only [List.any_eq_true, decide_eq_true_eq] at h
    obtain ⟨r, hr, hn⟩ := h
    simp only [reduceCtorEq, false_iff, not_and]
    exact fun h => absurd (h r hr) hn
  · rename_i h
    simp only [List.any_eq_true, decide_eq_true_eq, not_exists, not_and, not_not] at h
    simp only [Except.ok.injEq]
    exact ⟨fun e => ⟨h, e.symm⟩, fun e => e.2.symm⟩

theorem mem_features (d : DsCtx K) (c : String) : c ∈ d.features ↔ c ∈ d.columns ∧ c ≠ d.className := by
  simp [DsCtx.features]

/-- on a row of numbers along the features the loop gives what the row shows. -/
theorem rowStep_shows (d : DsCtx K) (r : List K) (cells : List (Cell K)) (hr : r.length = d.features.length) :
    RowStep d d.encoders d.features (r.map .num) cells ↔ ShowsRow d d.features r cells := by
  unfold RowStep ShowsRow
  rw [List.length_map, hr]
  refine and_congr Iff.rfl (forall_congr' fun i => forall_congr' fun c => ?_)
  constructor
  · intro h hi
    have hil : i < r.length := by rw [hr]; exact (List.getElem?_eq_some_iff.1 hi).1
    obtain ⟨y, hy, hs⟩ := h (.num r[i]) hi (by simp [hil])
    have hcn : c ≠ d.className := ((mem_features d c).1 (List.mem_of_getElem? hi)).2
    refine ⟨r[i], y, by simp [hil], hy, ?_⟩
    rcases hs with ⟨h1 | h1, rfl⟩ | ⟨-, cls, v, n, s, h1, h2, h3, h4, rfl⟩
    · exact absurd h1 hcn
    · exact .inl ⟨h1, rfl⟩
    · cases h2; exact .inr ⟨cls, n, s, h1, h3, h4, rfl⟩
  · intro h x hi hx
    obtain ⟨v, cell, h1, h2, h3⟩ := h hi
    rw [List.getElem?_map, h1] at hx
    cases hx
    have hcn : c ≠ d.className := ((mem_features d c).1 (List.mem_of_getElem? hi)).2
    refine ⟨cell, h2, ?_⟩
    rcases h3 with ⟨k1, rfl⟩ | ⟨cls, n, s, k1, k2, k3, rfl⟩
    · exact .inl ⟨.inr k1, rfl⟩
    · exact .inr ⟨hcn, cls, v, n, s, k1, rfl, k2, k3, rfl⟩

theorem forall₂_congr_mem {α β : Type} {R S : α → β → Prop} : ∀ {l : List α} {l' : List β}, (∀ a ∈ l, ∀ b, R a b ↔ S a b) →
    (List.Forall₂ R l l' ↔ List.Forall₂ S l l') := by
  intro l
  induction l with
  | nil => intro l' _; simp [List.forall₂_nil_left_iff]
  | cons x l ih =>
    intro l' h
    cases l' with
    | nil => simp
    | cons y l' => rw [List.forall₂_cons, List.forall₂_cons, h x (by simp) y, ih (fun a ha b => h a (by simp [ha]) b)]

/-- the dataset's description is consistent: no column or encoder is named twice and every encoder belongs to a column. -/
structure Spec.GoodDs (d : DsCtx K) : Prop where
  cols_nodup : d.columns.Nodup
  encs_nodup : (Dict.keys d.encoders).Nodup
  encs_cols : ∀ c ∈ Dict.keys d.encoders, c ∈ d.columns

/-- **C144**. For a consistent dataset, `fit` with a sample succeeds exactly when the rows have one number per feature, all codes of
the sample and of the instance belong to the label encoders and the black box answers known classes; the neighborhood then holds the
sample with every encoded column shown as text (and the others as the sampled numbers), the black box' class of every sampled row, the
texts of those classes, the decoded instance and the text of the instance's class, row by row in the order of the sample, and nothing
else is changed. -/
theorem C144_fit (d : DsCtx K) (hd : GoodDs d) (bb : List K → Nat) (rows : List (List K)) (inst : List K) (s s' : NState K) :
    samplingFit d bb (some (.ok rows)) inst s = (.ok (), s') ↔
      ∃ (dec : List (Cell K)) (t : String) (shown : List (List (Cell K))) (yd : List String),
        (∀ r ∈ rows, r.length = d.features.length) ∧
        ShowsRow d d.features inst dec ∧ ClassText d (bb inst) t ∧
        List.Forall₂ (ShowsRow d d.features) rows shown ∧
        List.Forall₂ (fun r yt => ClassText d (bb r) yt) rows yd ∧
        s' = { s with
          decodedInst := some dec, decodedTarget := some t,
          X := some ⟨d.features, shown⟩, y := some (rows.map bb),
          Xy := some ⟨d.className :: d.features, rows.map (fun r => .num (bb r : K) :: r.map .num)⟩,
          yDecoded := some yd } := by
  have hfn : d.features.Nodup := hd.cols_nodup.filter _
  have hfv : ∀ dec rows' Z, fitValues d (some (.ok rows)) inst = .ok (dec, rows', Z) ↔
      rows' = rows ∧ ShowsRow d d.features inst dec ∧ (∀ r ∈ rows, r.length = d.features.length) ∧
        Z = ⟨d.features, rows.map (fun r => r.map .num)⟩ := by
    intro dec rows' Z
    simp only [fitValues, py_bind_eq_ok, decodeInstance_ok_iff, mkFrame_ok_iff, py_pure, Except.ok.injEq, Prod.mk.injEq]
    constructor
    · rintro ⟨_, h1, _, rfl, _, ⟨h2, rfl⟩, rfl, rfl, rfl⟩; exact ⟨rfl, h1, h2, rfl⟩
    · rintro ⟨rfl, h1, h2, rfl⟩; exact ⟨_, h1, _, rfl, _, ⟨h2, rfl⟩, rfl, rfl, rfl⟩
  have hdt : ∀ c cls t, decodeTarget d c = .ok (cls, t) ↔ Dict.get? d.encoders d.className = some cls ∧ cls[c]? = some t := by
    intro c cls t
    simp only [decodeTarget, classEncoder, py_bind_eq_ok, Dict.get_eq_ok_iff, inverseTransform_ok_iff, py_pure, Except.ok.injEq,
      Prod.mk.injEq]
    constructor
    · rintro ⟨cls', h1, t', ⟨n, hn, h2⟩, rfl, rfl⟩
      cases hn
      exact ⟨h1, h2⟩
    · rintro ⟨h1, h2⟩; exact ⟨cls, h1, t, ⟨c, rfl, h2⟩, rfl, rfl⟩
  have hdc : ∀ Z df, (∀ r ∈ rows, r.length = d.features.length) → Z = ⟨d.features, rows.map (fun r => r.map .num)⟩ →
      (decodeColumns d d.encoders Z = .ok df ↔ df.cols = d.features ∧ List.Forall₂ (ShowsRow d d.features) rows df.rows) := by
    rintro Z df hl rfl
    rw [decodeColumns_iff d d.encoders hd.encs_nodup _ df hfn (fun c hc hn => (mem_features d c).2 ⟨hd.encs_cols c hc, hn⟩)
      (by simp only [List.mem_map]; rintro _ ⟨r, hr, rfl⟩; rw [List.length_map]; exact hl r hr)]
    refine and_congr Iff.rfl ?_
    rw [List.forall₂_map_left_iff]
    exact forall₂_congr_mem (fun r hr cells => rowStep_shows d r cells (hl r hr))
  have hic : ∀ cls yd, inverseClasses cls (rows.map bb) = .ok yd ↔ List.Forall₂ (fun r yt => cls[bb r]? = some yt) rows yd := by
    intro cls yd
    rw [inverseClasses, mapM_ok_iff, List.forall₂_map_left_iff]
    refine forall₂_congr_mem (fun r _ yt => ?_)
    rw [inverseTransform_ok_iff]
    constructor
    · rintro ⟨n, hn, h⟩; cases hn; exact h
    · intro h; exact ⟨_, rfl, h⟩
  have hxy : xyFrame d.className (rows.map bb) ⟨d.features, rows.map (fun r => r.map .num)⟩ =
      ⟨d.className :: d.features, rows.map (fun r => .num (bb r : K) :: r.map .num)⟩ := by
    simp [xyFrame, List.zip_map', Function.comp_def]
  constructor
  · intro h
    unfold samplingFit at h
    cases h1 : fitValues d (some (.ok rows)) inst with
    | error e => simp [h1] at h
    | ok p =>
      obtain ⟨dec, rows', Z⟩ := p
      obtain ⟨rfl, g1, g2, rfl⟩ := (hfv dec rows' Z).1 h1
      simp only [h1] at h
      cases h2 : decodeTarget d (bb inst) with
      | error e => simp [h2] at h
      | ok p =>
        obtain ⟨cls, t⟩ := p
        simp only [h2] at h
        obtain ⟨k1, k2⟩ := (hdt _ _ _).1 h2
        cases h3 : decodeColumns d d.encoders ⟨d.features, rows'.map (fun r => r.map .num)⟩ with
        | error e => simp [h3] at h
        | ok df =>
          simp only [h3] at h
          obtain ⟨l1, l2⟩ := (hdc _ df g2 rfl).1 h3
          cases h4 : inverseClasses cls (rows'.map bb) with
          | error e => simp [h4] at h
          | ok yd =>
            simp only [h4, Prod.mk.injEq, true_and] at h
            refine ⟨dec, t, df.rows, yd, g2, g1, ⟨cls, k1, k2⟩, l2, ?_, ?_⟩
            · exact ((hic cls yd).1 h4).imp (fun r yt hy => ⟨cls, k1, hy⟩)
            · rw [← h, hxy, ← l1]
  · rintro ⟨dec, t, shown, yd, g2, g1, ⟨cls, k1, k2⟩, l2, hy, rfl⟩
    have e1 := (hfv dec rows _).2 ⟨rfl, g1, g2, rfl⟩
    have e2 := (hdt (bb inst) cls t).2 ⟨k1, k2⟩
    have e3 := (hdc _ ⟨d.features, shown⟩ g2 rfl).2 ⟨rfl, l2⟩
    have e4 := (hic cls yd).2 (hy.imp (fun r yt ⟨cls', q1, q2⟩ => by rw [k1] at q1; cases q1; exact q2))
    simp only [samplingFit, e1, e2, e3, e4, hxy]

/-- what a row shows is determined by the row. -/
theorem Spec.ShowsRow.unique {d : DsCtx K} {cols : List String} {row : List K} {a b : List (Cell K)}
    (ha : ShowsRow d cols row a) (hb : ShowsRow d cols row b) : a = b := by
  apply List.ext_getElem?
  intro i
  by_cases hi : i < cols.length
  · obtain ⟨x, c1, h1, h2, h3⟩ := ha.2 i _ (List.getElem?_eq_getElem hi)
    obtain ⟨x', c2, h1', h2', h3'⟩ := hb.2 i _ (List.getElem?_eq_getElem hi)
    rw [h1] at h1'
    cases h1'
    rw [h2, h2']
    rcases h3 with ⟨k, rfl⟩ | ⟨cls, n, t, k1, k2, k3, rfl⟩ <;> rcases h3' with ⟨k', rfl⟩ | ⟨cls', n', t', k1', k2', k3', rfl⟩
    · rfl
    · rw [k] at k1'; cases k1'
    · rw [k1] at k'; cases k'
    · rw [k1] at k1'; cases k1'
      rw [k2] at k2'; cases k2'
      rw [k3] at k3'; cases k3'
      rfl
  · rw [List.getElem?_eq_none (by rw [ha.1]; omega), List.getElem?_eq_none (by rw [hb.1]; omega)]

/-- every number of the row in an encoded column is a code of its encoder. -/
def Spec.ValidCodes (d : DsCtx K) (row : List K) : Prop :=
  ∀ (i : Nat) c x cls, d.features[i]? = some c → row[i]? = some x → Dict.get? d.encoders c = some cls →
    ∃ n : Nat, d.toInt x = n ∧ n < cls.length

theorem Spec.ValidCodes.shows {d : DsCtx K} {row : List K} (h : ValidCodes d row) (hl : d.features.length ≤ row.length) :
    ∃ cells, ShowsRow d d.features row cells := by
  have : ∀ p ∈ d.features.zipIdx, ∃ y, decodeFeature d row p = .ok y := by
    rintro ⟨c, i⟩ hp
    have hi : d.features[i]? = some c := List.mk_mem_zipIdx_iff_getElem?.1 hp
    have hil : i < row.length := lt_of_lt_of_le (List.getElem?_eq_some_iff.1 hi).1 hl
    cases he : Dict.get? d.encoders c with
    | none => exact ⟨.num row[i], (decodeFeature_ok_iff _ _ _ _ _).2 ⟨row[i], by simp [hil], .inl ⟨he, rfl⟩⟩⟩
    | some cls =>
      obtain ⟨n, h1, h2⟩ := h i c row[i] cls hi (by simp [hil]) he
      exact ⟨.str cls[n], (decodeFeature_ok_iff _ _ _ _ _).2 ⟨row[i], by simp [hil], .inr ⟨cls, n, cls[n], he, h1, by simp [h2], rfl⟩⟩⟩
  obtain ⟨cells, hc⟩ := forall₂_of_forall_exists _ _ this
  exact ⟨cells, (decodeInstance_ok_iff d row cells).1 ((mapM_ok_iff _ _ _).2 hc)⟩

/-- **C144**, when it succeeds: a sample with one number per feature and valid codes, an instance with valid codes and a black box
answering known classes are always accepted. -/
theorem C144_succeeds (d : DsCtx K) (hd : GoodDs d) (bb : List K → Nat) (rows : List (List K)) (inst : List K) (s : NState K)
    (cls : List String) (hcls : Dict.get? d.encoders d.className = some cls) (hbb : ∀ r, r = inst ∨ r ∈ rows → bb r < cls.length)
    (hrows : ∀ r ∈ rows, r.length = d.features.length ∧ ValidCodes d r)
    (hinst : d.features.length ≤ inst.length ∧ ValidCodes d inst) :
    (samplingFit d bb (some (.ok rows)) inst s).1 = .ok () := by
  obtain ⟨dec, hdec⟩ := hinst.2.shows hinst.1
  obtain ⟨shown, hshown⟩ := forall₂_of_forall_exists (ShowsRow d d.features) rows (fun r hr => (hrows r hr).2.shows (hrows r hr).1.ge)
  obtain ⟨yd, hyd⟩ := forall₂_of_forall_exists (fun r yt => ClassText d (bb r) yt) rows
    (fun r hr => ⟨cls[bb r]'(hbb r (.inr hr)), cls, hcls, by simp [hbb r (.inr hr)]⟩)
  have := (C144_fit d hd bb rows inst s _).2 ⟨dec, cls[bb inst]'(hbb inst (.inl rfl)), shown, yd, fun r hr => (hrows r hr).1, hdec,
    ⟨cls, hcls, by simp [hbb inst (.inl rfl)]⟩, hshown, hyd, rfl⟩
  rw [this]

theorem inverseTransform_error {cls : List String} {i : Int} {e : PyErr} (h : inverseTransform cls i = .error e) : e = .valueError := by
  unfold inverseTransform at h
  split at h
  · split at h
    · cases h
    · cases h; rfl
  · cases h; rfl

theorem decodeColumns_error (d : DsCtx K) (encs : Dict String (List String)) : ∀ (df : Frame K) (e : PyErr),
    (∀ c ∈ Dict.keys encs, c ≠ d.className → c ∈ df.cols) → (∀ r ∈ df.rows, r.length = df.cols.length) →
      decodeColumns d encs df = .error e → e = .valueError := by
  induction encs with
  | nil => intro df e _ _ h; cases h
  | cons p encs ih =>
    obtain ⟨le, cls⟩ := p
    intro df e hsub hl h
    have hsub' : ∀ c ∈ Dict.keys encs, c ≠ d.className → c ∈ df.cols :=
      fun c hc => hsub c (by simp [Dict.keys] at hc ⊢; exact .inr hc)
    simp only [decodeColumns] at h
    by_cases hcl : le = d.className
    · rw [if_pos hcl] at h
      exact ih df e hsub' hl h
    · rw [if_neg hcl] at h
      have hlc : le ∈ df.cols := hsub le (by simp [Dict.keys]) hcl
      simp only [Frame.colIdx, if_pos hlc, py_bind_ok] at h
      have hjl : df.cols.idxOf le < df.cols.length := List.idxOf_lt_length_iff.2 hlc
      rw [py_bind_eq_error] at h
      rcases h with h | ⟨rows, h1, h2⟩
      · obtain ⟨r, hr, hu⟩ := mapM_error_mem _ _ _ h
        unfold updCell at hu
        rw [List.getElem?_eq_getElem (by rw [hl r hr]; exact hjl)] at hu
        simp only [py_bind_eq_error] at hu
        rcases hu with hu | ⟨_, _, hu⟩
        · unfold decodeCellOf at hu
          split at hu
          · rw [py_bind_eq_error] at hu
            rcases hu with hu | ⟨_, _, hu⟩
            · exact inverseTransform_error hu
            · cases hu
          · cases hu; rfl
        · cases hu
      · refine ih { df with rows := rows } e hsub' ?_ h2
        intro r1 hr1
        obtain ⟨r, hr, hu⟩ := forall₂_mem_right ((mapM_ok_iff _ _ _).1 h1) r1 hr1
        obtain ⟨_, _, -, -, rfl⟩ := (updCell_ok_iff _ _ _ _).1 hu
        rw [List.length_set]; exact hl r hr

/-- **C144**, errors: an instance with less numbers than features raises `IndexError` (when its codes are valid) and changes nothing. -/
theorem C144_short_instance (d : DsCtx K) (bb : List K → Nat) (gen : Option (Py (List (List K)))) (inst : List K) (s : NState K)
    (hv : ValidCodes d inst) (hs : inst.length < d.features.length) : samplingFit d bb gen inst s = (.error .indexError, s) := by
  have : d.features.zipIdx.mapM (decodeFeature d inst) = .error .indexError := by
    apply mapM_error_eq
    · rintro ⟨c, i⟩ hp e he
      have hi : d.features[i]? = some c := List.mk_mem_zipIdx_iff_getElem?.1 hp
      unfold decodeFeature at he
      simp only at he
      cases hx : inst[i]? with
      | none => simp [hx] at he; exact he.symm
      | some x =>
        cases hc : Dict.get? d.encoders c with
        | none => simp [hx, hc] at he
        | some cls =>
          obtain ⟨n, h1, h2⟩ := hv i c x cls hi hx hc
          have : inverseTransform cls (d.toInt x) = .ok cls[n] := (inverseTransform_ok_iff _ _ _).2 ⟨n, h1, by simp [h2]⟩
          simp only [hx, hc, this, py_bind_ok, py_pure] at he
          cases he
    · refine ⟨(d.features[inst.length], inst.length), List.mk_mem_zipIdx_iff_getElem?.2 (by simp [hs]), ?_⟩
      unfold decodeFeature
      simp
  simp only [samplingFit, fitValues, this]
  rfl

/-- **C144**, errors: when the instance has a number for each feature and the sample one number per feature, `fit` succeeds exactly when
all codes are valid and all classes known, and raises `ValueError` otherwise. -/
theorem C144_error (d : DsCtx K) (hd : GoodDs d) (bb : List K → Nat) (rows : List (List K)) (inst : List K) (s : NState K)
    (cls : List String) (hcls : Dict.get? d.encoders d.className = some cls) (hrows : ∀ r ∈ rows, r.length = d.features.length)
    (hinst : d.features.length ≤ inst.length) :
    ((samplingFit d bb (some (.ok rows)) inst s).1 = .ok () ↔
      (∀ r, r = inst ∨ r ∈ rows → bb r < cls.length) ∧ (∀ r, r = inst ∨ r ∈ rows → ValidCodes d r)) ∧
    ((samplingFit d bb (some (.ok rows)) inst s).1 = .ok () ∨ (samplingFit d bb (some (.ok rows)) inst s).1 = .error .valueError) := by
  have hshv : ∀ r cells, ShowsRow d d.features r cells → ValidCodes d r := by
    intro r cells h i c x cl hi hx hc
    obtain ⟨x', cell, q1, q2, q3⟩ := h.2 i c hi
    rw [hx] at q1
    cases q1
    rcases q3 with ⟨q, -⟩ | ⟨cl', n, t, q4, q5, q6, -⟩
    · rw [hc] at q; cases q
    · rw [hc] at q4
      cases q4
      exact ⟨n, q5, (List.getElem?_eq_some_iff.1 q6).1⟩
  have hct : ∀ c t, ClassText d c t → c < cls.length := by
    rintro c t ⟨cl, h1, h2⟩
    rw [hcls] at h1
    cases h1
    exact (List.getElem?_eq_some_iff.1 h2).1
  constructor
  · constructor
    · intro hok
      obtain ⟨dec, t, shown, yd, g1, g2, g3, g4, g5, -⟩ := (C144_fit d hd bb rows inst s _).1 (Prod.ext hok rfl)
      constructor
      · rintro r (rfl | hr)
        · exact hct _ _ g3
        · obtain ⟨yt, -, q⟩ := forall₂_mem_left g5 r hr
          exact hct _ _ q
      · rintro r (rfl | hr)
        · exact hshv _ _ g2
        · obtain ⟨cells, -, q⟩ := forall₂_mem_left g4 r hr
          exact hshv _ _ q
    · rintro ⟨h1, h2⟩
      exact C144_succeeds d hd bb rows inst s cls hcls h1 (fun r hr => ⟨hrows r hr, h2 r (.inr hr)⟩) ⟨hinst, h2 inst (.inl rfl)⟩
  · cases hres : (samplingFit d bb (some (.ok rows)) inst s).1 with
    | ok u => exact .inl rfl
    | error e =>
      right
      have hmk : mkFrame d.features rows = .ok ⟨d.features, rows.map (fun r => r.map .num)⟩ := (mkFrame_ok_iff _ _ _).2 ⟨hrows, rfl⟩
      unfold samplingFit at hres
      cases h1 : fitValues d (some (.ok rows)) inst with
      | error e1 =>
        simp only [h1] at hres
        cases hres
        simp only [fitValues, py_bind_eq_error] at h1
        rcases h1 with h1 | ⟨_, _, h1⟩
        · obtain ⟨⟨c, i⟩, hp, he⟩ := mapM_error_mem _ _ _ h1
          have hi : d.features[i]? = some c := List.mk_mem_zipIdx_iff_getElem?.1 hp
          have hil : i < inst.length := lt_of_lt_of_le (List.getElem?_eq_some_iff.1 hi).1 hinst
          unfold decodeFeature at he
          simp only [List.getElem?_eq_getElem hil] at he
          cases hc : Dict.get? d.encoders c with
          | none => simp [hc] at he
          | some cl =>
            simp only [hc, py_bind_eq_error] at he
            rcases he with he | ⟨_, _, he⟩
            · rw [inverseTransform_error he]
            · cases he
        · simp only [py_pure] at h1
          rcases h1 with h1 | ⟨_, _, h1⟩
          · cases h1
          · rename_i hw
            cases hw
            rw [hmk] at h1
            rcases h1 with h1 | ⟨_, _, h1⟩ <;> cases h1
      | ok p =>
        obtain ⟨dec, rows', Z⟩ := p
        have hZ : rows' = rows ∧ Z = ⟨d.features, rows.map (fun r => r.map .num)⟩ := by
          simp only [fitValues, py_bind_eq_ok, py_pure, Except.ok.injEq, Prod.mk.injEq] at h1
          obtain ⟨_, -, _, rfl, _, q, -, rfl, rfl⟩ := h1
          rw [hmk] at q
          cases q
          exact ⟨rfl, rfl⟩
        obtain ⟨rfl, rfl⟩ := hZ
        simp only [h1] at hres
        cases h2 : decodeTarget d (bb inst) with
        | error e2 =>
          simp only [h2] at hres
          cases hres
          simp only [decodeTarget, classEncoder, Dict.get_eq_ok_iff.2 hcls, py_bind_ok, py_bind_eq_error] at h2
          rcases h2 with h2 | ⟨_, _, h2⟩
          · rw [inverseTransform_error h2]
          · cases h2
        | ok p =>
          obtain ⟨cl, t⟩ := p
          simp only [h2] at hres
          cases h3 : decodeColumns d d.encoders ⟨d.features, rows'.map (fun r => r.map .num)⟩ with
          | error e3 =>
            simp only [h3] at hres
            have := decodeColumns_error d d.encoders _ e3 (fun c hc hn => (mem_features d c).2 ⟨hd.encs_cols c hc, hn⟩)
              (by
                intro r' hr'
                obtain ⟨r, hr, rfl⟩ := List.mem_map.1 hr'
                rw [List.length_map]; exact hrows r hr) h3
            rw [← this]
            exact hres.symm
          | ok df =>
            simp only [h3] at hres
            cases h4 : inverseClasses cl (rows'.map bb) with
            | error e4 =>
              simp only [h4] at hres
              cases hres
              obtain ⟨c, -, hc⟩ := mapM_error_mem _ _ _ h4
              rw [inverseTransform_error hc]
            | ok yd => simp only [h4] at hres; cases hres

end

section
example : GoodDs nbObj.ds := ⟨by decide, by decide, by decide⟩

set_option synthInstance.maxSize 1000 in
example : (nbObj.run [nbFit1]).X = some ⟨["age", "sex"], [[.num 1, .str "f"], [.num 5, .str "m"], [.num 2, .str "f"]]⟩ ∧
    (nbObj.run [nbFit1]).y = some [0, 1, 0] ∧ (nbObj.run [nbFit1]).yDecoded = some ["no", "yes", "no"] ∧
    (nbObj.run [nbFit1]).decodedInst = some [.num 2, .str "f"] ∧ (nbObj.run [nbFit1]).decodedTarget = some "no" := by decide +kernel

example : (samplingFit nbObj.ds nbObj.bb (some (.ok [[1, 0], [5, 2]])) [2, 0] {}).1 = .error .valueError ∧
    (samplingFit nbObj.ds nbObj.bb (some (.ok [[1, 0], [5, 1]])) [2] {}).1 = .error .indexError := by decide +kernel

example : ValidCodes nbObj.ds [5, 1] := by
  intro i c x cls hi hx hc
  have hf : nbObj.ds.features = ["age", "sex"] := by decide
  rw [hf] at hi
  match i, hi, hx with
  | 0, hi, hx =>
    simp at hi; subst hi
    have h2 : Dict.get? nbObj.ds.encoders "age" = none := by decide
    rw [h2] at hc; cases hc
  | 1, hi, hx =>
    simp at hi hx
    subst hi hx
    have : cls = ["f", "m"] := by
      have h2 : Dict.get? nbObj.ds.encoders "sex" = some ["f", "m"] := by decide
      rw [h2] at hc; exact (Option.some.inj hc).symm
    subst this
    exact ⟨1, by decide, by decide⟩
  | i + 2, hi, _ => simp at hi

end

end Teacher
