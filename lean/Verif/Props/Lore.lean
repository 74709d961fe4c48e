import Verif.Spec.Lore
import Verif.Props.FBDTFit
import Verif.Props.Fuzzify
import Mathlib.Algebra.Order.BigOperators.Group.List

/-! # C90, C117-C119: `LoreNeighborhood` -/

set_option linter.unusedSectionVars false

namespace Teacher
open Spec

variable {K : Type} [Field K] [LinearOrder K] [IsStrictOrderedRing K]

/-! ### cells and columns -/

theorem updCell_ok_iff (i : Nat) (f : Cell K → Py (Cell K)) (row row' : List (Cell K)) :
    updCell i f row = .ok row' ↔ ∃ c c', row[i]? = some c ∧ f c = .ok c' ∧ row' = row.set i c' := by
  unfold updCell
  cases h : row[i]? with
  | none => simp
  | some c =>
    simp only [py_bind_eq_ok, py_pure, Except.ok.injEq, Option.some.injEq]
    constructor
    · rintro ⟨c', h1, rfl⟩; exact ⟨c, c', rfl, h1, rfl⟩
    · rintro ⟨_, c', rfl, h1, rfl⟩; exact ⟨c', h1, rfl⟩

theorem clipVal_eq (lo hi x : K) : clipVal lo hi x = max lo (min hi x) := by
  unfold clipVal
  simp only
  by_cases h : hi < x
  · rw [if_pos h, min_eq_left h.le]
    by_cases h' : hi < lo
    · rw [if_pos h', max_eq_left h'.le]
    · rw [if_neg h', max_eq_right (not_lt.1 h')]
  · rw [if_neg h, min_eq_right (not_lt.1 h)]
    by_cases h' : x < lo
    · rw [if_pos h', max_eq_left h'.le]
    · rw [if_neg h', max_eq_right (not_lt.1 h')]

theorem clipCell_ok_iff (lo hi : K) (c c' : Cell K) :
    clipCell lo hi c = .ok c' ↔ ∃ x, c = .num x ∧ c' = .num (max lo (min hi x)) := by
  cases c with
  | num x =>
    simp only [clipCell, Except.ok.injEq, clipVal_eq]
    constructor
    · rintro rfl; exact ⟨x, rfl, rfl⟩
    · rintro ⟨y, h, rfl⟩; cases h; rfl
  | str s => simp [clipCell]

theorem trainRange_ok {cx : LoreCtx K} {fi : Dict String Nat} {c : String} {b : K × K} (h : trainRange cx fi c = .ok b) :
    ∃ j, Dict.get? fi c = some j ∧ IsRange cx.X2E j b.1 b.2 := by
  unfold trainRange at h
  obtain ⟨j, hj, h1⟩ := py_bind_eq_ok.1 h
  obtain ⟨v, hv, h2⟩ := py_bind_eq_ok.1 h1
  obtain ⟨lo, hlo, h3⟩ := py_bind_eq_ok.1 h2
  obtain ⟨hi, hhi, h4⟩ := py_bind_eq_ok.1 h3
  cases h4
  refine ⟨j, Dict.get_eq_ok_iff.1 hj, ?_⟩
  unfold numColumn at hv
  rw [mapM_ok_iff] at hv
  have key : ∀ (r : List K) (x : K), (match r[j]? with | some x => .ok x | none => .error .indexError : Py K) = .ok x → r[j]? = some x := by
    intro r x hr
    cases e : r[j]? with
    | none => rw [e] at hr; cases hr
    | some y => rw [e] at hr; cases hr; rfl
  have hlo' := (pyMin_eq_ok_iff v lo).1 hlo
  have hhi' := pyMax_eq_ok id v hi hhi
  refine ⟨?_, ?_, ?_⟩
  · obtain ⟨r, hr, hx⟩ := forall₂_mem_right hv lo hlo'.1
    exact ⟨r, hr, key r lo hx⟩
  · obtain ⟨r, hr, hx⟩ := forall₂_mem_right hv hi hhi'.1
    exact ⟨r, hr, key r hi hx⟩
  · intro r hr
    obtain ⟨x, hx, hx'⟩ := forall₂_mem_left hv r hr
    exact ⟨x, key r x hx', hlo'.2 x hx, hhi'.2.1 x hx⟩

theorem colIdx_ok_iff (df : Frame K) (c : String) (i : Nat) : df.colIdx c = .ok i ↔ c ∈ df.cols ∧ i = df.cols.idxOf c := by
  unfold Frame.colIdx
  split
  · rename_i h; simp [h, eq_comm]
  · rename_i h; simp [h]

theorem clipColumns_ok {cx : LoreCtx K} {fi : Dict String Nat} {idx : Dict Nat String}
    (hfi : ∀ c j, Dict.get? fi c = some j → (j, c) ∈ idx) (cs : List String) (hnd : cs.Nodup) :
    ∀ (df out : Frame K), df.cols.Nodup → clipColumns cx fi cs df = .ok out →
    out.cols = df.cols ∧ (∀ c ∈ cs, c ∈ df.cols) ∧ List.Forall₂ (Clipped cx.X2E idx df.cols cs) df.rows out.rows := by
  induction cs with
  | nil =>
    intro df out _ h
    simp only [clipColumns, Except.ok.injEq] at h
    subst h
    refine ⟨rfl, by simp, List.forall₂_same.2 ?_⟩
    intro r _
    exact ⟨rfl, fun i c _ => ⟨fun h => by simp at h, fun _ => rfl⟩⟩
  | cons c cs ih =>
    intro df out hcols h
    simp only [clipColumns] at h
    obtain ⟨b, hb, h1⟩ := py_bind_eq_ok.1 h
    obtain ⟨i, hi, h2⟩ := py_bind_eq_ok.1 h1
    obtain ⟨rows, hrows, h3⟩ := py_bind_eq_ok.1 h2
    obtain ⟨j, hj, hrange⟩ := trainRange_ok hb
    obtain ⟨hc, rfl⟩ := (colIdx_ok_iff df c i).1 hi
    obtain ⟨e1, e2, e3⟩ := ih (List.nodup_cons.1 hnd).2 ⟨df.cols, rows⟩ _ hcols h3
    simp only at e1 e2 e3
    refine ⟨e1, ?_, ?_⟩
    · intro c' hc'
      rcases List.mem_cons.1 hc' with rfl | hc'
      · exact hc
      · exact e2 c' hc'
    · rw [mapM_ok_iff] at hrows
      have hcomp : ∀ r r1 r2, updCell (df.cols.idxOf c) (clipCell b.1 b.2) r = .ok r1 → Clipped cx.X2E idx df.cols cs r1 r2 →
          Clipped cx.X2E idx df.cols (c :: cs) r r2 := by
        rintro r r1 r2 hu ⟨hl, hcl⟩
        obtain ⟨v, v', hv, hv', rfl⟩ := (updCell_ok_iff _ _ _ _).1 hu
        obtain ⟨x, rfl, rfl⟩ := (clipCell_ok_iff _ _ _ _).1 hv'
        refine ⟨by rw [hl, List.length_set], ?_⟩
        intro i c' hi'
        obtain ⟨h4, h5⟩ := hcl i c' hi'
        have hlt : df.cols.idxOf c < r.length := (List.getElem?_eq_some_iff.1 hv).1
        have hpos : i = df.cols.idxOf c' := by
          obtain ⟨h6, h7⟩ := List.getElem?_eq_some_iff.1 hi'
          rw [← h7, hcols.idxOf_getElem]
        by_cases hcc : c' = c
        · subst hcc
          have hnot : c' ∉ cs := (List.nodup_cons.1 hnd).1
          refine ⟨fun _ => ⟨j, x, b.1, b.2, hfi _ _ hj, hrange, by rw [hpos]; exact hv, ?_⟩, fun hn => absurd (by simp) hn⟩
          rw [h5 hnot, hpos, List.getElem?_set_self hlt]
        · have hne : df.cols.idxOf c ≠ i := by
            intro e
            apply hcc
            have h6 := List.getElem?_eq_some_iff.1 hi'
            obtain ⟨h7, h8⟩ := h6
            rw [← h8]
            have : df.cols[df.cols.idxOf c]'(List.idxOf_lt_length_iff.2 hc) = c := List.getElem_idxOf _
            simp only [e] at this
            exact this
          rw [List.getElem?_set_ne hne] at h4 h5
          refine ⟨fun hm => h4 ?_, fun hm => h5 ?_⟩
          · rcases List.mem_cons.1 hm with h | h
            · exact absurd h hcc
            · exact h
          · intro h; exact hm (List.mem_cons_of_mem _ h)
      clear h3 h2 h1 h hb hi
      generalize out.rows = outr at e3
      generalize df.rows = dr at hrows
      induction hrows generalizing outr with
      | nil => cases e3; exact .nil
      | cons hu _ ih' =>
        cases e3 with
        | cons hcl e3 => exact .cons (hcomp _ _ _ hu hcl) (ih' _ e3)

/-! ### the filter -/

theorem numCells_ok_iff (l : List (Cell K)) (v : List K) : numCells l = .ok v ↔ l = v.map Cell.num := by
  unfold numCells
  rw [mapM_ok_iff]
  constructor
  · intro h
    induction h with
    | nil => rfl
    | @cons c x l v hc _ ih =>
      cases c with
      | num y => simp only [Except.ok.injEq] at hc; subst hc; rw [List.map_cons, ih]
      | str s => cases hc
  · rintro rfl
    induction v with
    | nil => exact .nil
    | cons x v ih => exact .cons rfl ih

theorem numCol_spec {df : Frame K} {c : String} {v : List K} (h : df.numCol c = .ok v) :
    c ∈ df.cols ∧ List.Forall₂ (fun r x => r[df.cols.idxOf c]? = some (Cell.num x)) df.rows v := by
  unfold Frame.numCol Frame.col at h
  obtain ⟨l, hl, h1⟩ := py_bind_eq_ok.1 h
  obtain ⟨i, hi, h2⟩ := py_bind_eq_ok.1 hl
  obtain ⟨hc, rfl⟩ := (colIdx_ok_iff df c i).1 hi
  rw [numCells_ok_iff] at h1
  subst h1
  refine ⟨hc, ?_⟩
  unfold column at h2
  rw [mapM_ok_iff, List.forall₂_map_right_iff] at h2
  refine h2.imp ?_
  intro r x hr
  cases e : r[df.cols.idxOf c]? with
  | none => rw [e] at hr; cases hr
  | some y => rw [e] at hr; cases hr; rfl

theorem numsAt_of_forall₂ {rows : List (List (Cell K))} {i : Nat} {v : List K}
    (h : List.Forall₂ (fun r x => r[i]? = some (Cell.num x)) rows v) : numsAt rows i = v := by
  unfold numsAt
  induction h with
  | nil => rfl
  | cons hr _ ih => rw [List.filterMap_cons, hr]; simp only; rw [ih]

theorem colMean_eq (v : List K) : colMean v = avg v := rfl

theorem colVar_eq (v : List K) : colVar v = variance v := by
  unfold colVar variance
  simp only [colMean_eq, pow_two]

theorem zFilter_ok {cont : List String} {df out : Frame K} (hcols : df.cols.Nodup) (h : zFilter cont df = .ok out) :
    out.cols = df.cols ∧ (∀ c ∈ cont, ∀ r ∈ df.rows, ∃ x, r[df.cols.idxOf c]? = some (Cell.num x)) ∧ NearRows df.cols cont df.rows out.rows := by
  classical
  unfold zFilter at h
  obtain ⟨cols, hc, h1⟩ := py_bind_eq_ok.1 h
  cases h1
  rw [mapM_ok_iff] at hc
  have hnum : ∀ c ∈ cont, ∀ r ∈ df.rows, ∃ x, r[df.cols.idxOf c]? = some (Cell.num x) := by
    intro c hcm r hr
    obtain ⟨v, -, hv⟩ := forall₂_mem_left hc c hcm
    obtain ⟨x, -, hx⟩ := forall₂_mem_left (numCol_spec hv).2 r hr
    exact ⟨x, hx⟩
  refine ⟨rfl, hnum, fun r => decide (∀ (i : Nat) c, df.cols[i]? = some c → c ∈ cont → Near df.rows i r), ?_, fun r _ => by simp⟩
  simp only
  have hcongr : df.rows.zipIdx.filter (fun p => keepRow cols p.2) =
      df.rows.zipIdx.filter ((fun r => decide (∀ (i : Nat) c, df.cols[i]? = some c → c ∈ cont → Near df.rows i r)) ∘ Prod.fst) := by
    refine List.filter_congr ?_
    rintro ⟨r, k⟩ hp
    rw [List.mem_zipIdx_iff_getElem?] at hp
    simp only at hp
    rw [Function.comp_apply, Bool.eq_iff_iff, decide_eq_true_iff]
    simp only [keepRow, List.all_eq_true]
    -- the value of a column in row number k
    have hval : ∀ c v, df.numCol c = .ok v → ∃ x, v[k]? = some x ∧ r[df.cols.idxOf c]? = some (Cell.num x) ∧
        numsAt df.rows (df.cols.idxOf c) = v := by
      intro c v hv
      have hf := (numCol_spec hv).2
      obtain ⟨hlen, hget⟩ := List.forall₂_iff_get.1 hf
      obtain ⟨hk, hk'⟩ := List.getElem?_eq_some_iff.1 hp
      have := hget k hk (hlen ▸ hk)
      simp only [List.get_eq_getElem, hk'] at this
      exact ⟨v[k]'(hlen ▸ hk), List.getElem?_eq_getElem _, this, numsAt_of_forall₂ hf⟩
    constructor
    · intro hall i c hi hcm
      obtain ⟨v, hvm, hv⟩ := forall₂_mem_left hc c hcm
      obtain ⟨x, hx, hrx, hn⟩ := hval c v hv
      have hz := hall v hvm
      rw [hx] at hz
      have hpos : i = df.cols.idxOf c := by
        obtain ⟨h6, h7⟩ := List.getElem?_eq_some_iff.1 hi
        rw [← h7, hcols.idxOf_getElem]
      subst hpos
      refine ⟨x, hrx, ?_⟩
      rw [hn, pow_two]
      simpa [zKeep, colMean_eq, colVar_eq] using hz
    · intro hall v hvm
      obtain ⟨c, hcm, hv⟩ := forall₂_mem_right hc v hvm
      obtain ⟨x, hx, hrx, hn⟩ := hval c v hv
      have hin := (numCol_spec hv).1
      obtain ⟨x', hx', hnear⟩ := hall (df.cols.idxOf c) c (by
        rw [List.getElem?_eq_getElem (List.idxOf_lt_length_iff.2 hin), List.getElem_idxOf]) hcm
      rw [hrx] at hx'
      cases hx'
      rw [hx]
      rw [hn, pow_two] at hnear
      simpa [zKeep, colMean_eq, colVar_eq] using hnear
  rw [hcongr, ← List.filter_map, List.zipIdx_map_fst]

theorem zFilter_length {cont : List String} {df out : Frame K} (h : zFilter cont df = .ok out) : out.rows.length ≤ df.rows.length := by
  unfold zFilter at h
  obtain ⟨cols, hc, h1⟩ := py_bind_eq_ok.1 h
  cases h1
  simp only [List.length_map]
  exact (List.length_filter_le _ _).trans (by simp)

/-! ### C90 -/

/-- the map from features to the columns of the training rows. -/
theorem featIdx_mem (idx : Dict Nat String) (c : String) (j : Nat)
    (h : Dict.get? (Dict.ofPairs (idx.map (fun p => (p.2, p.1)))) c = some j) : (j, c) ∈ idx := by
  have := FB.mem_of_ofPairs_get? _ _ _ h
  obtain ⟨⟨a, b⟩, hp, he⟩ := List.mem_map.1 this
  cases he
  exact hp

theorem smoothLoop_eq {cont : List String} {df : Frame K} {o n : Nat} (h : n ≤ o) (fuel : Nat) :
    smoothLoop cont (o : Int) (n : Int) (fuel + 1) df = .ok df := by
  unfold smoothLoop
  rw [if_neg (by omega)]

theorem smoothRows_ok {cx : LoreCtx K} {fuel : Nat} {df out : Frame K} {cont : List String} (hcols : df.cols.Nodup) (hnd : cont.Nodup)
    (h : smoothRows cx fuel df cont (Dict.ofPairs (cx.idxFeatures.map (fun p => (p.2, p.1)))) = .ok out) :
    ∃ clipped, List.Forall₂ (Clipped cx.X2E cx.idxFeatures df.cols cont) df.rows clipped ∧ NearRows df.cols cont clipped out.rows ∧
      out.cols = df.cols ∧ (∀ c ∈ cont, c ∈ df.cols) ∧
      ∀ c ∈ cont, ∀ r ∈ clipped, ∃ x, r[df.cols.idxOf c]? = some (Cell.num x) := by
  unfold smoothRows at h
  obtain ⟨ndf, h1, h2⟩ := py_bind_eq_ok.1 h
  obtain ⟨ndf', h3, h4⟩ := py_bind_eq_ok.1 h2
  obtain ⟨e1, e2, e3⟩ := clipColumns_ok (featIdx_mem cx.idxFeatures) cont hnd df ndf hcols h1
  obtain ⟨e4, e5, e6⟩ := zFilter_ok (e1 ▸ hcols) h3
  have hout : out = ndf' := by
    cases fuel with
    | zero => cases h4
    | succ fuel => rw [smoothLoop_eq (zFilter_length h3)] at h4; cases h4; rfl
  subst hout
  rw [e1] at e5 e6
  exact ⟨ndf.rows, e3, e6, e4.trans e1, e2, e5⟩

/-- C90: smoothing moves the continuous columns of the rows into the range of the training rows, keeps the rows that are then within three
standard deviations of the mean in all continuous columns, in their order, and puts the instance, with its predicted class, last. -/
theorem C90_smooth (cx : LoreCtx K) (bb : List K → Nat) (inst : List K) (fuel : Nat) (df : Frame K) (cont : List String)
    (hcols : df.cols.Nodup) (hnd : cont.Nodup) (out : Frame K) (Z : List (List (Cell K)))
    (h : smoothNeighborhood cx bb inst fuel df cont (Dict.ofPairs (cx.idxFeatures.map (fun p => (p.2, p.1)))) = .ok (out, Z)) :
    ∃ clipped kept, List.Forall₂ (Clipped cx.X2E cx.idxFeatures df.cols cont) df.rows clipped ∧ NearRows df.cols cont clipped kept ∧
      out.cols = df.cols ∧ out.rows = kept ++ [((bb inst : K) :: inst).map Cell.num] := by
  unfold smoothNeighborhood at h
  obtain ⟨ndf, h1, h2⟩ := py_bind_eq_ok.1 h
  obtain ⟨row, h3, h4⟩ := py_bind_eq_ok.1 h2
  obtain ⟨x, h5, h6⟩ := py_bind_eq_ok.1 h4
  obtain ⟨edf, h7, h8⟩ := py_bind_eq_ok.1 h6
  cases h8
  obtain ⟨clipped, c1, c2, c3, -⟩ := smoothRows_ok hcols hnd h1
  refine ⟨clipped, ndf.rows, c1, c2, c3, ?_⟩
  unfold loreRow at h3
  simp only at h3
  split at h3
  · cases h3; rfl
  · cases h3

theorem Spec.IsRange.le {X : List (List K)} {j : Nat} {lo hi : K} (h : IsRange X j lo hi) : lo ≤ hi := by
  obtain ⟨⟨r, hr, hlo⟩, -, h3⟩ := h
  obtain ⟨x, hx, h4, h5⟩ := h3 r hr
  exact h4.trans h5

/-- C90: so all the rows but the last (the instance) have their continuous columns inside the range of the training rows. -/
theorem C90_in_range (cx : LoreCtx K) (bb : List K → Nat) (inst : List K) (fuel : Nat) (df : Frame K) (cont : List String)
    (hcols : df.cols.Nodup) (hnd : cont.Nodup) (out : Frame K) (Z : List (List (Cell K)))
    (h : smoothNeighborhood cx bb inst fuel df cont (Dict.ofPairs (cx.idxFeatures.map (fun p => (p.2, p.1)))) = .ok (out, Z)) :
    out.rows.length ≤ df.rows.length + 1 ∧
    ∀ r ∈ out.rows.dropLast, ∀ (i : Nat) c, df.cols[i]? = some c → c ∈ cont → ∃ j x lo hi, (j, c) ∈ cx.idxFeatures ∧
      IsRange cx.X2E j lo hi ∧ r[i]? = some (Cell.num x) ∧ lo ≤ x ∧ x ≤ hi := by
  obtain ⟨clipped, kept, h1, ⟨f, h2, -⟩, -, h4⟩ := C90_smooth cx bb inst fuel df cont hcols hnd out Z h
  constructor
  · rw [h4, List.length_append, h2, h1.length_eq]
    simp [List.length_filter_le]
  · intro r hr i c hi hc
    rw [h4, List.dropLast_concat, h2] at hr
    obtain ⟨r0, -, hcl⟩ := forall₂_mem_right h1 r (List.mem_filter.1 hr).1
    obtain ⟨j, x, lo, hi', hj, hrg, -, hx⟩ := (hcl.2 i c hi).1 hc
    exact ⟨j, _, lo, hi', hj, hrg, hx, le_max_left _ _, max_le hrg.le (min_le_left _ _)⟩

theorem noFuel_updCell (i : Nat) (f : Cell K → Py (Cell K)) (hf : ∀ c, f c ≠ .error .fuel) (row : List (Cell K)) :
    updCell i f row ≠ .error .fuel := by
  unfold updCell
  split
  · simp
  · exact noFuel_bind (hf _) (fun _ => by simp)

theorem noFuel_colIdx (df : Frame K) (c : String) : df.colIdx c ≠ .error .fuel := by
  unfold Frame.colIdx; split <;> simp

theorem noFuel_clipColumns (cx : LoreCtx K) (fi : Dict String Nat) (cs : List String) (df : Frame K) :
    clipColumns cx fi cs df ≠ .error .fuel := by
  induction cs generalizing df with
  | nil => simp [clipColumns]
  | cons c cs ih =>
    unfold clipColumns
    refine noFuel_bind ?_ (fun b => noFuel_bind (noFuel_colIdx _ _) (fun i => noFuel_bind (noFuel_mapM _ ?_) (fun _ => ih _)))
    · unfold trainRange
      refine noFuel_bind (noFuel_get _ _) (fun j => noFuel_bind (noFuel_mapM _ ?_) (fun v => noFuel_bind ?_ (fun lo => noFuel_bind ?_ (fun hi => by simp))))
      · intro r; split <;> simp
      · cases v <;> simp [pyMin]
      · cases v <;> simp [pyMax]
    · refine noFuel_updCell _ _ ?_
      intro c; cases c <;> simp [clipCell]

theorem noFuel_zFilter (cont : List String) (df : Frame K) : zFilter cont df ≠ .error .fuel := by
  unfold zFilter
  refine noFuel_bind (noFuel_mapM _ ?_) (fun _ => by simp)
  intro c
  unfold Frame.numCol Frame.col
  refine noFuel_bind (noFuel_bind (noFuel_colIdx _ _) (fun i => ?_)) (fun l => noFuel_mapM _ ?_)
  · unfold column
    refine noFuel_mapM _ ?_
    intro r; split <;> simp
  · intro c; cases c <;> simp

theorem noFuel_encodeColumns (cl : String) (l : List (String × List (Cell K))) (df : Frame K) :
    encodeColumns cl l df ≠ .error .fuel := by
  induction l generalizing df with
  | nil => simp [encodeColumns]
  | cons p l ih =>
    obtain ⟨le, cls⟩ := p
    unfold encodeColumns
    split
    · exact ih _
    · refine noFuel_bind (noFuel_colIdx _ _) (fun i => noFuel_bind (noFuel_mapM _ (noFuel_updCell _ _ ?_)) (fun _ => ih _))
      intro c
      unfold encodeCell
      split <;> simp

/-- C90: the loop of the smoothing ends, on every frame: its body is never run, whatever number of iterations is allowed. -/
theorem C90_terminates (cx : LoreCtx K) (bb : List K → Nat) (inst : List K) (df : Frame K) (cont : List String) (fi : Dict String Nat) :
    smoothNeighborhood cx bb inst 1 df cont fi ≠ .error .fuel ∧
    ∀ fuel, smoothNeighborhood cx bb inst (fuel + 1) df cont fi = smoothNeighborhood cx bb inst 1 df cont fi := by
  have hrows : smoothRows cx 1 df cont fi ≠ .error .fuel ∧ ∀ fuel, smoothRows cx (fuel + 1) df cont fi = smoothRows cx 1 df cont fi := by
    unfold smoothRows
    cases h1 : clipColumns cx fi cont df with
    | error e =>
      refine ⟨?_, fun _ => rfl⟩
      have := noFuel_clipColumns cx fi cont df
      rwa [h1] at this
    | ok ndf =>
      simp only [py_bind_ok]
      cases h2 : zFilter cont ndf with
      | error e =>
        refine ⟨?_, fun _ => rfl⟩
        have := noFuel_zFilter cont ndf
        rwa [h2] at this
      | ok ndf' =>
        simp only [py_bind_ok]
        refine ⟨?_, fun fuel => ?_⟩
        · rw [smoothLoop_eq (zFilter_length h2) 0]; simp
        · rw [smoothLoop_eq (zFilter_length h2) fuel, smoothLoop_eq (zFilter_length h2) 0]
  constructor
  · unfold smoothNeighborhood
    refine noFuel_bind hrows.1 (fun ndf => noFuel_bind ?_ (fun row => noFuel_bind ?_ (fun x => noFuel_bind (noFuel_encodeColumns _ _ _) (fun _ => by simp))))
    · unfold loreRow
      simp only
      split <;> simp
    · unfold Frame.drop
      exact noFuel_bind (noFuel_colIdx _ _) (fun _ => by simp)
  · intro fuel
    unfold smoothNeighborhood
    rw [hrows.2 fuel]

/-! ### C117: what the filter removes -/

theorem sum_sq_ge (v : List K) (m b : K) (P : K → Bool) (hP : ∀ x ∈ v, P x = true → b ≤ (x - m) ^ 2) :
    (v.countP P : K) * b ≤ (v.map (fun x => (x - m) ^ 2)).sum := by
  induction v with
  | nil => simp
  | cons x v ih =>
    have h1 := ih (fun y hy => hP y (by simp [hy]))
    rw [List.map_cons, List.sum_cons, List.countP_cons]
    by_cases hx : P x = true
    · have := hP x (by simp) hx
      simp only [hx, if_true]
      push_cast
      nlinarith
    · simp only [hx]
      have := sq_nonneg (x - m)
      push_cast
      simp only [add_zero]
      linarith

/-- Chebyshev: at most one ninth of the values of a column that is not constant are three standard deviations or more from the mean. -/
theorem chebyshev (v : List K) (P : K → Bool) (hP : ∀ x ∈ v, P x = true → 9 * variance v ≤ (x - avg v) ^ 2) {a b : K} (ha : a ∈ v)
    (hb : b ∈ v) (hab : a ≠ b) : 9 * v.countP P ≤ v.length := by
  have hne : v ≠ [] := by rintro rfl; cases ha
  have hlen : (0 : K) < v.length := by exact_mod_cast List.length_pos_iff.2 hne
  have hS : (v.length : K) * variance v = (v.map (fun x => (x - avg v) ^ 2)).sum := by
    unfold variance
    rw [avg, List.length_map, mul_div_cancel₀ _ hlen.ne']
  have hpos : 0 < (v.map (fun x => (x - avg v) ^ 2)).sum := by
    have hnn : ∀ z ∈ v.map (fun x => (x - avg v) ^ 2), 0 ≤ z := by
      intro z hz; obtain ⟨x, -, rfl⟩ := List.mem_map.1 hz; exact sq_nonneg _
    have hge : ∀ x ∈ v, (x - avg v) ^ 2 ≤ (v.map (fun x => (x - avg v) ^ 2)).sum := fun x hx =>
      List.single_le_sum hnn _ (List.mem_map.2 ⟨x, hx, rfl⟩)
    by_contra hc
    have hz : ∀ x ∈ v, x = avg v := by
      intro x hx
      have h1 := hge x hx
      have h2 : (x - avg v) ^ 2 = 0 := le_antisymm (h1.trans (not_lt.1 hc)) (sq_nonneg _)
      exact sub_eq_zero.1 (pow_eq_zero_iff (two_ne_zero) |>.1 h2)
    exact hab ((hz a ha).trans (hz b hb).symm)
  have hvar : 0 < variance v := by
    rw [← hS] at hpos
    exact (mul_pos_iff_of_pos_left hlen).1 hpos
  have := sum_sq_ge v (avg v) (9 * variance v) P hP
  rw [← hS] at this
  have h3 : (9 * (v.countP P : K)) * variance v ≤ (v.length : K) * variance v := by linarith
  have h4 := le_of_mul_le_mul_right h3 hvar
  exact_mod_cast h4


theorem countP_numsAt {rows : List (List (Cell K))} {i : Nat} (Q : K → Bool) (h : ∀ r ∈ rows, ∃ x, r[i]? = some (Cell.num x))
    (P : List (Cell K) → Bool) (hPQ : ∀ r ∈ rows, ∀ x, r[i]? = some (Cell.num x) → P r = Q x) :
    rows.countP P = (numsAt rows i).countP Q ∧ (numsAt rows i).length = rows.length := by
  induction rows with
  | nil => simp [numsAt]
  | cons r rows ih =>
    obtain ⟨x, hx⟩ := h r (by simp)
    obtain ⟨h1, h2⟩ := ih (fun r' hr' => h r' (by simp [hr'])) (fun r' hr' => hPQ r' (by simp [hr']))
    have hcons : numsAt (r :: rows) i = x :: numsAt rows i := by
      unfold numsAt
      rw [List.filterMap_cons, hx]
    rw [hcons, List.countP_cons, List.countP_cons, hPQ r (by simp) x hx, h1]
    simp [h2]

/-- at most one ninth of the rows are far in one column. -/
theorem far_column {rows : List (List (Cell K))} {i : Nat} (h : ∀ r ∈ rows, ∃ x, r[i]? = some (Cell.num x))
    (hne : ∃ r ∈ rows, ∃ r' ∈ rows, r[i]? ≠ r'[i]?) (P : List (Cell K) → Bool) (hP : ∀ r ∈ rows, P r = true → ¬ Near rows i r) :
    9 * rows.countP P ≤ rows.length := by
  classical
  have hle : rows.countP P ≤ rows.countP (fun r => decide (¬ Near rows i r)) :=
    List.countP_mono_left (fun r hr hp => decide_eq_true (hP r hr hp))
  obtain ⟨h1, h2⟩ := countP_numsAt (rows := rows) (i := i) (fun x => decide (9 * variance (numsAt rows i) ≤ (x - avg (numsAt rows i)) ^ 2)) h
    (fun r => decide (¬ Near rows i r)) (by
      intro r hr x hx
      simp only [decide_eq_decide]
      constructor
      · intro hn; exact not_lt.1 (fun hlt => hn ⟨x, hx, hlt⟩)
      · rintro hle ⟨y, hy, hlt⟩
        rw [hx] at hy
        cases hy
        exact absurd hlt (not_lt.2 hle))
  obtain ⟨r, hr, r', hr', hd⟩ := hne
  obtain ⟨x, hx⟩ := h r hr
  obtain ⟨x', hx'⟩ := h r' hr'
  have hmem : ∀ r ∈ rows, ∀ x, r[i]? = some (Cell.num x) → x ∈ numsAt rows i := by
    intro r hr x hx
    unfold numsAt
    rw [List.mem_filterMap]
    exact ⟨r, hr, by rw [hx]⟩
  have := chebyshev (numsAt rows i) (fun x => decide (9 * variance (numsAt rows i) ≤ (x - avg (numsAt rows i)) ^ 2))
    (fun x _ hx => of_decide_eq_true hx) (hmem r hr x hx) (hmem r' hr' x' hx') (by
      rintro rfl; rw [hx, hx'] at hd; exact hd rfl)
  rw [h2, ← h1] at this
  omega

theorem far_columns (rows : List (List (Cell K))) (cols : List String) (cs : List String)
    (h : ∀ c ∈ cs, ∀ r ∈ rows, ∃ x, r[cols.idxOf c]? = some (Cell.num x))
    (hne : ∀ c ∈ cs, ∃ r ∈ rows, ∃ r' ∈ rows, r[cols.idxOf c]? ≠ r'[cols.idxOf c]?) (P : List (Cell K) → Bool)
    (hP : ∀ r ∈ rows, P r = true → ∃ c ∈ cs, ¬ Near rows (cols.idxOf c) r) : 9 * rows.countP P ≤ cs.length * rows.length := by
  classical
  induction cs generalizing P with
  | nil =>
    have : rows.countP P = 0 := by
      rw [List.countP_eq_zero]
      intro r hr hp
      obtain ⟨c, hc, -⟩ := hP r hr hp
      cases hc
    omega
  | cons c cs ih =>
    have h1 := far_column (h c (by simp)) (hne c (by simp)) (fun r => decide (¬ Near rows (cols.idxOf c) r)) (fun r _ hr => of_decide_eq_true hr)
    have h2 := ih (fun c' hc' => h c' (by simp [hc'])) (fun c' hc' => hne c' (by simp [hc']))
      (fun r => P r && decide (Near rows (cols.idxOf c) r)) (by
        intro r hr hp
        rw [Bool.and_eq_true, decide_eq_true_iff] at hp
        obtain ⟨c', hc', hn⟩ := hP r hr hp.1
        rcases List.mem_cons.1 hc' with rfl | hc'
        · exact absurd hp.2 hn
        · exact ⟨c', hc', hn⟩)
    have h3 : rows.countP P ≤ rows.countP (fun r => decide (¬ Near rows (cols.idxOf c) r)) +
        rows.countP (fun r => P r && decide (Near rows (cols.idxOf c) r)) := by
      clear h h1 h2 hP ih hne
      generalize hN : (fun r => decide (Near rows (cols.idxOf c) r)) = N
      have e1 : (fun r => decide (¬ Near rows (cols.idxOf c) r)) = fun r => !N r := by
        subst hN; funext r; simp
      have e2 : (fun r => P r && decide (Near rows (cols.idxOf c) r)) = fun r => P r && N r := by
        subst hN; rfl
      rw [e1, e2]
      clear e1 e2 hN
      induction rows with
      | nil => simp
      | cons r rows ih =>
        simp only [List.countP_cons]
        cases P r <;> cases N r <;> simp <;> omega
    rw [List.length_cons, Nat.add_mul, Nat.one_mul]
    omega

theorem idxOf_of_getElem? {cols : List String} (hcols : cols.Nodup) {i : Nat} {c : String} (h : cols[i]? = some c) : i = cols.idxOf c := by
  obtain ⟨h6, h7⟩ := List.getElem?_eq_some_iff.1 h
  rw [← h7, hcols.idxOf_getElem]

theorem getElem?_idxOf_of_mem {cols : List String} {c : String} (h : c ∈ cols) : cols[cols.idxOf c]? = some c := by
  rw [List.getElem?_eq_getElem (List.idxOf_lt_length_iff.2 h), List.getElem_idxOf]

theorem smoothNeighborhood_rows {cx : LoreCtx K} {bb : List K → Nat} {inst : List K} {fuel : Nat} {df : Frame K} {cont : List String}
    {fi : Dict String Nat} {out : Frame K} {Z : List (List (Cell K))} (h : smoothNeighborhood cx bb inst fuel df cont fi = .ok (out, Z)) :
    ∃ ndf, smoothRows cx fuel df cont fi = .ok ndf ∧ out = ⟨ndf.cols, ndf.rows ++ [((bb inst : K) :: inst).map Cell.num]⟩ ∧
      inst.length + 1 = ndf.cols.length ∧ ∃ x edf, out.drop cx.className = .ok x ∧ encodeColumns cx.className cx.encoders x = .ok edf ∧ Z = edf.rows := by
  unfold smoothNeighborhood at h
  obtain ⟨ndf, h1, h2⟩ := py_bind_eq_ok.1 h
  obtain ⟨row, h3, h4⟩ := py_bind_eq_ok.1 h2
  obtain ⟨x, h5, h6⟩ := py_bind_eq_ok.1 h4
  obtain ⟨edf, h7, h8⟩ := py_bind_eq_ok.1 h6
  cases h8
  unfold loreRow at h3
  simp only at h3
  split at h3
  · rename_i hl
    cases h3
    exact ⟨ndf, h1, rfl, by simpa using hl, x, edf, h5, h7, rfl⟩
  · cases h3

/-- C117: when no continuous column is constant once moved into the training range, the filter removes at most one ninth of the rows for
every continuous column (in particular the neighborhood is not emptied when there are fewer than nine of them). -/
theorem C117_removed_partial (cx : LoreCtx K) (bb : List K → Nat) (inst : List K) (fuel : Nat) (df : Frame K) (cont : List String)
    (hcols : df.cols.Nodup) (hnd : cont.Nodup) (out : Frame K) (Z : List (List (Cell K)))
    (h : smoothNeighborhood cx bb inst fuel df cont (Dict.ofPairs (cx.idxFeatures.map (fun p => (p.2, p.1)))) = .ok (out, Z)) :
    ∃ clipped, List.Forall₂ (Clipped cx.X2E cx.idxFeatures df.cols cont) df.rows clipped ∧
      ((∀ c ∈ cont, ∃ r ∈ clipped, ∃ r' ∈ clipped, r[df.cols.idxOf c]? ≠ r'[df.cols.idxOf c]?) →
        9 * (df.rows.length + 1 - out.rows.length) ≤ cont.length * df.rows.length) := by
  obtain ⟨ndf, h1, rfl, -⟩ := smoothNeighborhood_rows h
  obtain ⟨clipped, c1, ⟨f, c2, c3⟩, c4, c5, c6⟩ := smoothRows_ok hcols hnd h1
  refine ⟨clipped, c1, fun hne => ?_⟩
  have := far_columns clipped df.cols cont c6 hne (fun r => !f r) (by
    intro r hr hf
    by_contra hno
    push Not at hno
    have : f r = true := (c3 r hr).2 (fun i c hi hc => by rw [idxOf_of_getElem? hcols hi]; exact hno c hc)
    rw [this] at hf
    cases hf)
  have hlen := List.length_eq_countP_add_countP f (l := clipped)
  have hn : clipped.countP (fun a => decide ¬f a = true) = clipped.countP (fun r => !f r) := by
    congr 1; funext r; cases f r <;> rfl
  rw [hn] at hlen
  simp only [List.length_append, List.length_singleton, c2, ← List.countP_eq_length_filter]
  rw [c1.length_eq]
  have : 9 * (clipped.length + 1 - (clipped.countP f + 1)) = 9 * clipped.countP (fun r => !f r) := by omega
  omega

theorem Spec.IsRange.unique {X : List (List K)} {j : Nat} {lo hi lo' hi' : K} (h : IsRange X j lo hi) (h' : IsRange X j lo' hi') :
    lo = lo' ∧ hi = hi' := by
  have key : ∀ {a b a' b' : K}, IsRange X j a b → IsRange X j a' b' → a ≤ a' ∧ b' ≤ b := by
    rintro a b a' b' ⟨-, -, h3⟩ ⟨⟨r, hr, hx⟩, ⟨r', hr', hx'⟩, -⟩
    obtain ⟨y, hy, h4, h5⟩ := h3 r hr
    obtain ⟨z, hz, h6, h7⟩ := h3 r' hr'
    rw [hx] at hy; cases hy
    rw [hx'] at hz; cases hz
    exact ⟨h4, h7⟩
  exact ⟨le_antisymm (key h h').1 (key h' h).1, le_antisymm (key h' h).2 (key h h').2⟩

theorem variance_const (v : List K) (x : K) (h : ∀ y ∈ v, y = x) : variance v = 0 ∧ ∀ y ∈ v, y = avg v := by
  cases v with
  | nil => simp [variance, avg]
  | cons a v =>
    have hall : ∀ y ∈ a :: v, y = avg (a :: v) := by
      intro y hy
      have hs : (a :: v).sum = ((a :: v).length : K) * x := by
        have : a :: v = List.replicate (a :: v).length x := List.eq_replicate_iff.2 ⟨rfl, h⟩
        rw [this, List.sum_replicate, nsmul_eq_mul, List.length_replicate]
      rw [h y hy, avg, hs, mul_div_cancel_left₀]
      exact_mod_cast (by simp : (a :: v).length ≠ 0)
    refine ⟨?_, hall⟩
    unfold variance
    have : (a :: v).map (fun x => (x - avg (a :: v)) ^ 2) = List.replicate (a :: v).length 0 := by
      rw [List.eq_replicate_iff]
      refine ⟨by simp, ?_⟩
      intro z hz
      obtain ⟨y, hy, rfl⟩ := List.mem_map.1 hz
      rw [sub_eq_zero.2 (hall y hy), pow_two, zero_mul]
    rw [this]
    simp [avg]

/-- C117 is false in general: a continuous column that is the same in all the rows (its scores are nan) makes the smoothing remove every
row, and the neighborhood is the instance alone. -/
theorem C117_constant_false (cx : LoreCtx K) (bb : List K → Nat) (inst : List K) (fuel : Nat) (df : Frame K) (cont : List String)
    (hcols : df.cols.Nodup) (hnd : cont.Nodup) (hidx : (cx.idxFeatures.map Prod.snd).Nodup) (out : Frame K) (Z : List (List (Cell K)))
    (c : String) (hc : c ∈ cont) (v : Cell K) (hv : ∀ r ∈ df.rows, r[df.cols.idxOf c]? = some v)
    (h : smoothNeighborhood cx bb inst fuel df cont (Dict.ofPairs (cx.idxFeatures.map (fun p => (p.2, p.1)))) = .ok (out, Z)) :
    out.rows = [((bb inst : K) :: inst).map Cell.num] := by
  obtain ⟨ndf, h1, rfl, -⟩ := smoothNeighborhood_rows h
  obtain ⟨clipped, c1, ⟨f, c2, c3⟩, c4, c5, c6⟩ := smoothRows_ok hcols hnd h1
  have hci := getElem?_idxOf_of_mem (c5 c hc)
  have hsame : ∀ r ∈ clipped, ∀ r' ∈ clipped, ∀ x x', r[df.cols.idxOf c]? = some (Cell.num x) → r'[df.cols.idxOf c]? = some (Cell.num x') → x = x' := by
    intro r hr r' hr' x x' hx hx'
    obtain ⟨r0, hr0, -, hcl⟩ := forall₂_mem_right c1 r hr
    obtain ⟨r0', hr0', -, hcl'⟩ := forall₂_mem_right c1 r' hr'
    obtain ⟨j, y, lo, hi, d1, d2, d3, d4⟩ := (hcl _ _ hci).1 hc
    obtain ⟨j', y', lo', hi', e1, e2, e3, e4⟩ := (hcl' _ _ hci).1 hc
    have hj : j = j' := by
      have := List.inj_on_of_nodup_map hidx d1 e1 rfl
      cases this; rfl
    subst hj
    obtain ⟨rfl, rfl⟩ := d2.unique e2
    rw [hv r0 hr0] at d3
    rw [hv r0' hr0'] at e3
    cases d3
    cases e3
    rw [hx] at d4
    rw [hx'] at e4
    cases d4
    cases e4
    rfl
  have hnone : ∀ r ∈ clipped, f r = false := by
    intro r hr
    by_contra hf
    rw [Bool.not_eq_false] at hf
    obtain ⟨x, hx, hn⟩ := (c3 r hr).1 hf _ c hci hc
    have hmem : ∀ y ∈ numsAt clipped (df.cols.idxOf c), y = x := by
      intro y hy
      unfold numsAt at hy
      obtain ⟨r', hr', hy'⟩ := List.mem_filterMap.1 hy
      obtain ⟨z, hz⟩ := c6 c hc r' hr'
      rw [hz] at hy'
      cases hy'
      exact hsame r' hr' r hr _ _ hz hx
    have hxm : x ∈ numsAt clipped (df.cols.idxOf c) := by
      unfold numsAt
      exact List.mem_filterMap.2 ⟨r, hr, by rw [hx]⟩
    obtain ⟨v1, v2⟩ := variance_const _ x hmem
    rw [v1, sub_eq_zero.2 (v2 x hxm)] at hn
    simp at hn
  simp only [c2]
  rw [List.filter_eq_nil_iff.2 (fun r hr => by rw [hnone r hr]; simp), List.nil_append]

/-! ### C118: `fit` -/

theorem forall₂_concat_left {α β : Type} {R : α → β → Prop} {l : List α} {a : α} {y : List β} (h : List.Forall₂ R (l ++ [a]) y) :
    ∃ y1 b, y = y1 ++ [b] ∧ List.Forall₂ R l y1 ∧ R a b := by
  induction l generalizing y with
  | nil =>
    cases h with
    | cons h1 h2 => cases h2; exact ⟨[], _, rfl, .nil, h1⟩
  | cons c l ih =>
    cases h with
    | cons h1 h2 =>
      obtain ⟨y1, b, rfl, h3, h4⟩ := ih h2
      exact ⟨_ :: y1, b, rfl, .cons h1 h3, h4⟩

theorem encodeColumns_skip (cl : String) (l : List (String × List (Cell K))) (h : ∀ p ∈ l, p.1 = cl) (df : Frame K) :
    encodeColumns cl l df = .ok df := by
  induction l with
  | nil => rfl
  | cons p l ih =>
    obtain ⟨le, cls⟩ := p
    unfold encodeColumns
    rw [if_pos (h (le, cls) (by simp))]
    exact ih (fun p hp => h p (by simp [hp]))

/-- encoding changes no number of rows. -/
theorem encodeColumns_length (cl : String) (l : List (String × List (Cell K))) (df out : Frame K) (h : encodeColumns cl l df = .ok out) :
    out.rows.length = df.rows.length := by
  induction l generalizing df with
  | nil => cases h; rfl
  | cons p l ih =>
    obtain ⟨le, cls⟩ := p
    unfold encodeColumns at h
    split at h
    · exact ih _ h
    · obtain ⟨i, -, h1⟩ := py_bind_eq_ok.1 h
      obtain ⟨rows, h2, h3⟩ := py_bind_eq_ok.1 h1
      rw [mapM_ok_iff] at h2
      rw [ih _ h3, h2.length_eq]

/-- with a row of numbers, an encoder of strings fails. -/
theorem encodeColumns_strings (cl : String) (l : List (String × List (Cell K))) (df : Frame K) (r : List (Cell K)) (hr : r ∈ df.rows)
    (hnum : ∀ c ∈ r, ∃ x, c = Cell.num x) (le : String) (cls : List (Cell K)) (hle : (le, cls) ∈ l) (hne : le ≠ cl)
    (hstr : ∀ c ∈ cls, ∃ s, c = Cell.str s) (out : Frame K) : encodeColumns cl l df ≠ .ok out := by
  induction l generalizing df r with
  | nil => cases hle
  | cons p l ih =>
    obtain ⟨le', cls'⟩ := p
    intro h
    unfold encodeColumns at h
    split at h
    · rename_i he
      rcases List.mem_cons.1 hle with h' | h'
      · cases h'; exact hne he
      · exact ih df r hr hnum h' h
    · obtain ⟨i, -, h1⟩ := py_bind_eq_ok.1 h
      obtain ⟨rows, h2, h3⟩ := py_bind_eq_ok.1 h1
      rw [mapM_ok_iff] at h2
      obtain ⟨r', hr', hu⟩ := forall₂_mem_left h2 r hr
      obtain ⟨c, c', hc, hcc, rfl⟩ := (updCell_ok_iff _ _ _ _).1 hu
      unfold encodeCell at hcc
      split at hcc
      · rename_i hmem
        cases hcc
        rcases List.mem_cons.1 hle with h' | h'
        · cases h'
          obtain ⟨s, rfl⟩ := hstr c hmem
          obtain ⟨x, hx⟩ := hnum _ (List.mem_of_getElem? hc)
          cases hx
        · refine ih ⟨df.cols, rows⟩ _ hr' ?_ h' h3
          intro a ha
          rcases List.mem_or_eq_of_mem_set ha with ha | rfl
          · exact hnum a ha
          · exact ⟨_, rfl⟩
      · cases hcc

theorem drop_ok {df out : Frame K} {c : String} (h : df.drop c = .ok out) :
    c ∈ df.cols ∧ out = ⟨df.cols.eraseIdx (df.cols.idxOf c), df.rows.map (fun r => r.eraseIdx (df.cols.idxOf c))⟩ := by
  unfold Frame.drop at h
  obtain ⟨i, hi, h1⟩ := py_bind_eq_ok.1 h
  obtain ⟨hc, rfl⟩ := (colIdx_ok_iff df c i).1 hi
  cases h1
  exact ⟨hc, rfl⟩

theorem col_spec {df : Frame K} {c : String} {l : List (Cell K)} (h : df.col c = .ok l) :
    c ∈ df.cols ∧ List.Forall₂ (fun r x => r[df.cols.idxOf c]? = some x) df.rows l := by
  unfold Frame.col at h
  obtain ⟨i, hi, h2⟩ := py_bind_eq_ok.1 h
  obtain ⟨hc, rfl⟩ := (colIdx_ok_iff df c i).1 hi
  refine ⟨hc, ?_⟩
  unfold column at h2
  rw [mapM_ok_iff] at h2
  refine h2.imp ?_
  intro r x hr
  cases e : r[df.cols.idxOf c]? with
  | none => rw [e] at hr; cases hr
  | some y => rw [e] at hr; cases hr; rfl

theorem predictCells_ok {bb : List K → Nat} {row : List (Cell K)} {n : Nat} (h : predictCells bb row = .ok n) :
    ∃ xs : List K, row = xs.map Cell.num ∧ n = bb xs := by
  unfold predictCells at h
  obtain ⟨r, h1, h2⟩ := py_bind_eq_ok.1 h
  cases h2
  refine ⟨r, ?_, rfl⟩
  clear h
  rw [mapM_ok_iff] at h1
  induction h1 with
  | nil => rfl
  | @cons c x l v hc _ ih =>
    cases c with
    | num y => simp only [Except.ok.injEq] at hc; subst hc; rw [List.map_cons, ih]
    | str s => cases hc

/-- a successful `fit` in its steps. -/
theorem loreFit_ok {cx : LoreCtx K} {bb : List K → Nat} {gen : Py (Frame K)} {inst : List K} {fuel : Nat} {s s' : LState K}
    (h : loreFit cx bb gen inst fuel s = (.ok (), s')) :
    ∃ df xy Z x y yd dec t, gen = .ok df ∧ cx.features.zipIdx.mapM (loreDecode cx inst) = .ok dec ∧ loreTarget cx (bb inst : K) = .ok t ∧
      smoothNeighborhood cx bb inst fuel df (cx.continuous.filter (fun c => c ≠ cx.className))
        (Dict.ofPairs (cx.idxFeatures.map (fun p => (p.2, p.1)))) = .ok (xy, Z) ∧
      xy.drop cx.className = .ok x ∧ Z.mapM (predictCells bb) = .ok y ∧ xy.col cx.className = .ok yd ∧
      s'.base.Xy = some xy ∧ s'.base.X = some x ∧ s'.base.y = some y ∧ s'.yDecoded = some yd ∧ s'.base.decodedInst = some dec ∧ s'.target = some t := by
  unfold loreFit at h
  cases h1 : cx.features.zipIdx.mapM (loreDecode cx inst) with
  | error e => rw [h1] at h; cases h
  | ok dec =>
    rw [h1] at h
    simp only at h
    cases h2 : loreTarget cx (bb inst : K) with
    | error e => rw [h2] at h; cases h
    | ok t =>
      rw [h2] at h
      simp only at h
      cases h3 : gen.bind (loreFrames cx bb inst fuel) with
      | error e => rw [h3] at h; cases h
      | ok q =>
        obtain ⟨xy, x, y, yd⟩ := q
        rw [h3] at h
        simp only [Prod.mk.injEq, true_and] at h
        subst h
        cases hg : gen with
        | error e => rw [hg] at h3; cases h3
        | ok df =>
          rw [hg] at h3
          change loreFrames cx bb inst fuel df = .ok (xy, x, y, yd) at h3
          unfold loreFrames at h3
          obtain ⟨⟨xy', Z⟩, h4, h5⟩ := py_bind_eq_ok.1 h3
          obtain ⟨x', h6, h7⟩ := py_bind_eq_ok.1 h5
          obtain ⟨y', h8, h9⟩ := py_bind_eq_ok.1 h7
          obtain ⟨yd', h10, h11⟩ := py_bind_eq_ok.1 h9
          cases h11
          exact ⟨df, xy, Z, x, y, yd, dec, t, rfl, rfl, rfl, h4, h6, h8, h10, rfl, rfl, rfl, rfl, rfl, rfl⟩

/-- C118: after a successful `fit` of a dataset whose only encoder is the one of the class and whose table has the class first, the table
of features is the table without the class, its last row is the instance, and the label of every row is the answer of the black box. -/
theorem C118_fit_partial (cx : LoreCtx K) (bb : List K → Nat) (gen : Py (Frame K)) (inst : List K) (fuel : Nat) (s s' : LState K)
    (henc : ∀ p ∈ cx.encoders, p.1 = cx.className) (hcls : ∀ df, gen = .ok df → df.cols.Nodup ∧ df.cols[0]? = some cx.className)
    (hnd : cx.continuous.Nodup) (h : loreFit cx bb gen inst fuel s = (.ok (), s')) :
    ∃ xy x y, s'.base.Xy = some xy ∧ s'.base.X = some x ∧ s'.base.y = some y ∧ x.cols = xy.cols.tail ∧ x.rows = xy.rows.map List.tail ∧
      x.rows.getLast? = some (inst.map Cell.num) ∧ y.getLast? = some (bb inst) ∧
      List.Forall₂ (fun r n => ∃ xs : List K, r = xs.map Cell.num ∧ n = bb xs) x.rows y := by
  obtain ⟨df, xy, Z, x, y, yd, dec, t, hg, -, -, h1, h2, h3, h4, e1, e2, e3, -⟩ := loreFit_ok h
  obtain ⟨hcn, hc0⟩ := hcls df hg
  obtain ⟨ndf, k1, rfl, k2, x', edf, k3, k4, k5⟩ := smoothNeighborhood_rows h1
  obtain ⟨clipped, c1, -, c3, c4, -⟩ := smoothRows_ok hcn (hnd.filter _) k1
  have hx : x' = x := by rw [h2] at k3; cases k3; rfl
  subst hx
  rw [encodeColumns_skip _ _ henc] at k4
  cases k4
  subst k5
  obtain ⟨hm, rfl⟩ := drop_ok h2
  have hidx : (Frame.mk ndf.cols (ndf.rows ++ [((bb inst : K) :: inst).map Cell.num]) : Frame K).cols.idxOf cx.className = 0 := by
    simp only
    rw [c3]
    exact (idxOf_of_getElem? hcn hc0).symm
  have herase : ∀ r : List (Cell K), r.eraseIdx 0 = r.tail := fun r => by simp
  rw [hidx] at h3 e2
  simp only [herase, List.eraseIdx_zero] at h3 e2
  rw [mapM_ok_iff] at h3
  have hf2 : List.Forall₂ (fun r n => ∃ xs : List K, r = xs.map Cell.num ∧ n = bb xs)
      ((ndf.rows ++ [((bb inst : K) :: inst).map Cell.num]).map List.tail) y := h3.imp (fun r n hn => predictCells_ok hn)
  refine ⟨_, _, y, e1, e2, e3, rfl, rfl, by simp, ?_, hf2⟩
  rw [List.map_append, List.map_singleton] at hf2
  obtain ⟨y1, n, rfl, -, xs, hxs, rfl⟩ := forall₂_concat_left hf2
  simp only [List.map_cons, List.tail_cons] at hxs
  have : xs = inst := (List.map_injective_iff.2 (fun a b hab => by cases hab; rfl) hxs).symm
  subst this
  simp

/-- C118 is false with a categorical feature: when some feature has an encoder of strings, `fit` never succeeds, because the row of the
instance is added encoded to a table of decoded values. -/
theorem C118_categorical_false (cx : LoreCtx K) (bb : List K → Nat) (gen : Py (Frame K)) (inst : List K) (fuel : Nat) (s : LState K)
    (le : String) (cls : List (Cell K)) (hle : (le, cls) ∈ cx.encoders) (hne : le ≠ cx.className) (hstr : ∀ c ∈ cls, ∃ s, c = Cell.str s) :
    ∃ e, (loreFit cx bb gen inst fuel s).1 = .error e := by
  cases h : loreFit cx bb gen inst fuel s with
  | mk r s' =>
    cases r with
    | error e => exact ⟨e, rfl⟩
    | ok u =>
      obtain ⟨df, xy, Z, x, y, yd, dec, t, hg, -, -, h1, h2, h3, h4, -⟩ := loreFit_ok h
      obtain ⟨ndf, k1, rfl, k2, x', edf, k3, k4, k5⟩ := smoothNeighborhood_rows h1
      obtain ⟨hm, rfl⟩ := drop_ok k3
      exact absurd k4 (encodeColumns_strings cx.className cx.encoders _ (((((bb inst : K) :: inst).map Cell.num)).eraseIdx
        ((Frame.mk ndf.cols (ndf.rows ++ [((bb inst : K) :: inst).map Cell.num]) : Frame K).cols.idxOf cx.className))
        (List.mem_map.2 ⟨_, by simp, rfl⟩) (by
          intro c hc
          obtain ⟨x, -, rfl⟩ := List.mem_map.1 (List.mem_of_mem_eraseIdx hc)
          exact ⟨x, rfl⟩) le cls hle hne hstr edf)

/-- C118 is false of the decoded labels: the last one is the code of the class of the instance and not the decoded class. -/
theorem C118_y_decoded_false (cx : LoreCtx K) (bb : List K → Nat) (gen : Py (Frame K)) (inst : List K) (fuel : Nat) (s s' : LState K)
    (hcls : ∀ df, gen = .ok df → df.cols.Nodup ∧ df.cols[0]? = some cx.className) (hnd : cx.continuous.Nodup)
    (hstr : ∀ cls, Dict.get? cx.encoders cx.className = some cls → ∀ c ∈ cls, ∃ s, c = Cell.str s)
    (h : loreFit cx bb gen inst fuel s = (.ok (), s')) :
    ∃ yd name, s'.yDecoded = some yd ∧ yd.getLast? = some (Cell.num (bb inst : K)) ∧ s'.target = some (Cell.str name) := by
  obtain ⟨df, xy, Z, x, y, yd, dec, t, hg, -, ht, h1, h2, h3, h4, -, -, -, e4, -, e6⟩ := loreFit_ok h
  obtain ⟨hcn, hc0⟩ := hcls df hg
  obtain ⟨ndf, k1, rfl, -⟩ := smoothNeighborhood_rows h1
  obtain ⟨clipped, c1, -, c3, c4, -⟩ := smoothRows_ok hcn (hnd.filter _) k1
  obtain ⟨-, hf⟩ := col_spec h4
  simp only at hf
  rw [c3, ← idxOf_of_getElem? hcn hc0] at hf
  have hlast : yd.getLast? = some (Cell.num (bb inst : K)) := by
    obtain ⟨y1, n, rfl, -, hx⟩ := forall₂_concat_left hf
    simp only [List.map_cons, List.getElem?_cons_zero, Option.some.injEq] at hx
    simp [hx]
  unfold loreTarget at ht
  obtain ⟨cls, hcl, ht⟩ := py_bind_eq_ok.1 ht
  unfold inverseCell at ht
  split at ht
  · split at ht
    · split at ht
      · rename_i n hn c hcn'
        cases ht
        obtain ⟨name, rfl⟩ := hstr cls (Dict.get_eq_ok_iff.1 hcl) _ (List.mem_of_getElem? hcn')
        exact ⟨yd, name, e4, hlast, e6⟩
      · cases ht
    · cases ht
  · cases ht

/-! ### C119: `fuzzify` -/

/-- C119: when `fuzzify` of a LORE neighborhood succeeds, with `instance_membership` or without it, its attributes are those that `fuzzify`
of a sampling neighborhood sets: the membership of the instance is the one of the decoded instance. -/
theorem C119_fuzzify (cx : FuzzCtx K) (inst : List (Cell K)) (a : FuzzArgs K) (s s' : NState K)
    (h : loreFuzzify cx inst a s = (.ok (), s')) : samplingFuzzify cx inst { a with instanceMembership := none } s = (.ok (), s') := by
  have hv : ∀ o : Option Bool, fuzzyVarsOf cx { a with instanceMembership := o } = fuzzyVarsOf cx a := fun _ => rfl
  unfold loreFuzzify at h
  unfold samplingFuzzify
  rw [if_neg (by simp)]
  unfold fuzzify at h ⊢
  simp only [hv, Option.getD_some, Bool.false_eq_true, if_false]
  cases hX : s.X with
  | none => rw [hX] at h; cases h
  | some X =>
  cases hy : s.y with
  | none => rw [hX, hy] at h; cases h
  | some y =>
  cases hXy : s.Xy with
  | none => rw [hX, hy, hXy] at h; cases h
  | some Xy =>
  rw [hX, hy, hXy] at h
  simp only at h ⊢
  cases h1 : fuzzyVarsOf cx a X y with
  | error e => rw [h1] at h; cases h
  | ok vars =>
  rw [h1] at h
  simp only at h ⊢
  cases h2 : membershipOpt X.rows vars with
  | error e => rw [h2] at h; cases h
  | ok m =>
  rw [h2] at h
  simp only at h ⊢
  by_cases hb : a.instanceMembership.getD true = true
  · rw [if_pos hb] at h
    cases h3 : instanceRow X inst with
    | error e => rw [h3] at h; cases h
    | ok rows =>
    rw [h3] at h
    simp only at h
    cases h4 : membershipOpt rows vars with
    | error e => rw [h4] at h; cases h
    | ok im =>
    rw [h4] at h
    simp only at h
    cases h5 : s.decodedInst with
    | none => rw [h5] at h; cases h
    | some d =>
    rw [h5] at h
    simp only at h ⊢
    cases h6 : membershipOpt [d] vars with
    | error e => rw [h6] at h; cases h
    | ok im' => rw [h6] at h; exact h
  · rw [if_neg hb] at h
    simp only at h
    cases h5 : s.decodedInst with
    | none => rw [h5] at h; cases h
    | some d =>
    rw [h5] at h
    simp only at h ⊢
    cases h6 : membershipOpt [d] vars with
    | error e => rw [h6] at h; cases h
    | ok im' => rw [h6] at h; exact h

/-! ### the hypotheses are met -/

/-- a dataset of two continuous features. -/
def lxCtx : LoreCtx ℚ where
  columns := ["class", "a", "b"]
  className := "class"
  encoders := [("class", [.str "no", .str "yes"])]
  continuous := ["a", "b"]
  idxFeatures := [(0, "a"), (1, "b")]
  X2E := [[0, 10], [2, 20], [5, 10]]
  toInt := fun q => q.floor

/-- a black box. -/
def lxBB (r : List ℚ) : Nat := if r.headD 0 < 3 then 0 else 1

/-- a generated table: both columns leave the training range. -/
def lxFrame : Frame ℚ := ⟨["class", "a", "b"], [[.str "no", .num (-1), .num 12], [.str "yes", .num 7, .num 15], [.str "no", .num 3, .num 40]]⟩

/-- a generated table with a constant column. -/
def lxFlat : Frame ℚ := ⟨["class", "a", "b"], [[.str "no", .num (-1), .num 12], [.str "yes", .num 7, .num 12], [.str "no", .num 3, .num 12]]⟩

/-- a generated table with an outlier in column "a". -/
def lxOut : Frame ℚ := ⟨["class", "a", "b"], [.str "no", .num 4, .num 12] :: List.replicate 9 [.str "yes", .num 1, .num 14]⟩

/-- `feat_idx`. -/
def lxIdx : Dict String Nat := Dict.ofPairs (lxCtx.idxFeatures.map (fun p => (p.2, p.1)))

/-- C90: values are moved to the ends of the range and the instance is the last row. -/
example : (smoothNeighborhood lxCtx lxBB [4, 11] 1 lxFrame ["a", "b"] lxIdx).toOption.map (fun p => (p.1.cols, p.1.rows)) =
    some (["class", "a", "b"], [[.str "no", .num 0, .num 12], [.str "yes", .num 5, .num 15], [.str "no", .num 3, .num 20],
      [.num 1, .num 4, .num 11]]) := by
  decide +kernel

/-- C117: an outlier is removed; both columns vary. -/
example : (smoothNeighborhood lxCtx lxBB [4, 11] 1 lxOut ["a", "b"] lxIdx).toOption.map (fun p => p.1.rows) =
    some (List.replicate 9 [.str "yes", .num 1, .num 14] ++ [[.num 1, .num 4, .num 11]]) := by
  decide +kernel

/-- C117: a constant column removes all the rows. -/
example : (smoothNeighborhood lxCtx lxBB [4, 11] 1 lxFlat ["a", "b"] lxIdx).toOption.map (fun p => p.1.rows) =
    some [[.num 1, .num 4, .num 11]] ∧ (∀ r ∈ lxFlat.rows, r[lxFlat.cols.idxOf "b"]? = some (.num 12)) ∧
    (lxCtx.idxFeatures.map Prod.snd).Nodup := by
  decide +kernel

/-- C118: a `fit` that succeeds; the decoded labels end with a code. -/
example : (loreFit lxCtx lxBB (.ok lxFrame) [4, 11] 1 {}).1.isOk = true ∧
    (loreFit lxCtx lxBB (.ok lxFrame) [4, 11] 1 {}).2.base.y = some [0, 1, 1, 1] ∧
    (loreFit lxCtx lxBB (.ok lxFrame) [4, 11] 1 {}).2.yDecoded = some [.str "no", .str "yes", .str "no", .num 1] ∧
    (loreFit lxCtx lxBB (.ok lxFrame) [4, 11] 1 {}).2.target = some (.str "yes") ∧
    (∀ p ∈ lxCtx.encoders, p.1 = lxCtx.className) ∧ lxFrame.cols.Nodup ∧ lxFrame.cols[0]? = some lxCtx.className ∧ lxCtx.continuous.Nodup := by
  decide +kernel

/-- C119: `fuzzify` succeeds after the `fit` of `nbObj`. -/
example : (loreFuzzify nbObj.fz (nbObj.inst.map .num) nbArgs (nbObj.run [nbFit1])).1.isOk = true := by
  decide +kernel

end Teacher
