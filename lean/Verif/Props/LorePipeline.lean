import Verif.Props.FBDTPipeline
import Verif.Props.ErrorKinds

/-! # C147: a LORE neighborhood of a continuous dataset: `fit`, `fuzzify`, explain -/

set_option linter.unusedSectionVars false

namespace Teacher

open Spec

section
variable {K : Type} [Field K] [LinearOrder K] [IsStrictOrderedRing K]

/-- a dataset of continuous features (the class is the only column with an encoder), training rows of their length, a black box whose answer for the instance
is the number of a class, and an instance with one number per feature. -/
structure Spec.GoodLore (cx : LoreCtx K) (bb : List K → Nat) (inst : List K) : Prop where
  enc : ∀ p ∈ cx.encoders, p.1 = cx.className
  known : ∃ cls, Dict.get? cx.encoders cx.className = some cls ∧ bb inst < cls.length
  toInt : ∀ n : Nat, cx.toInt (n : K) = n
  nodup : (Spec.loreFeatures cx).Nodup
  ne : (Spec.loreFeatures cx) ≠ []
  contNd : cx.continuous.Nodup
  cont : ∀ c, c ∈ (Spec.loreFeatures cx) ↔ c ∈ cx.continuous ∧ c ≠ cx.className
  idx : cx.idxFeatures = (Spec.loreFeatures cx).zipIdx.map Prod.swap
  X2E : cx.X2E ≠ []
  rows : ∀ r ∈ cx.X2E, r.length = (Spec.loreFeatures cx).length
  inst : inst.length = (Spec.loreFeatures cx).length

/-- a table with the class in front and a number for every feature. -/
def Spec.NumTable (cx : LoreCtx K) (df : Frame K) : Prop :=
  df.cols = cx.className :: (Spec.loreFeatures cx) ∧ ∀ r ∈ df.rows, ∃ (c : Cell K) (xs : List K), r = c :: xs.map Cell.num ∧ xs.length = (Spec.loreFeatures cx).length

theorem Spec.GoodLore.cols_nodup {cx : LoreCtx K} {bb : List K → Nat} {inst : List K} (hg : GoodLore cx bb inst) :
    (cx.className :: (Spec.loreFeatures cx)).Nodup := List.nodup_cons.2 ⟨fun h => ((hg.cont _).1 h).2 rfl, hg.nodup⟩

theorem numTable_at {cx : LoreCtx K} {bb : List K → Nat} {inst : List K} (hg : GoodLore cx bb inst) {df : Frame K} (h : NumTable cx df) {c : String}
    (hc : c ∈ (Spec.loreFeatures cx)) : ∃ j, df.cols.idxOf c = j + 1 ∧ j < (Spec.loreFeatures cx).length := by
  have hne : cx.className ≠ c := fun h => ((hg.cont c).1 hc).2 h.symm
  refine ⟨(Spec.loreFeatures cx).idxOf c, ?_, List.idxOf_lt_length_iff.2 hc⟩
  rw [h.1, List.idxOf_cons_ne _ hne]

theorem featIdx_get {cx : LoreCtx K} {bb : List K → Nat} {inst : List K} (hg : GoodLore cx bb inst) {c : String} (hc : c ∈ (Spec.loreFeatures cx)) :
    Dict.get? (Dict.ofPairs (cx.idxFeatures.map (fun p => (p.2, p.1)))) c = some ((Spec.loreFeatures cx).idxOf c) := by
  have h1 : cx.idxFeatures.map (fun p => (p.2, p.1)) = (Spec.loreFeatures cx).zipIdx := by
    rw [hg.idx, List.map_map]
    exact List.map_id _
  have hk : (Spec.loreFeatures cx).zipIdx.map Prod.fst = (Spec.loreFeatures cx) := List.zipIdx_map_fst _ _
  rw [h1, Dict.ofPairs_eq_self _ (by rw [hk]; exact hg.nodup)]
  refine Dict.get?_of_mem_nodup (by rw [Dict.keys, hk]; exact hg.nodup) ?_
  rw [List.mem_zipIdx_iff_getElem?]
  simp [List.getElem?_eq_getElem (List.idxOf_lt_length_iff.2 hc)]

/-- clipping succeeds and keeps the form of the table. -/
theorem clipColumns_total {cx : LoreCtx K} {bb : List K → Nat} {inst : List K} (hg : GoodLore cx bb inst) (cs : List String)
    (hcs : ∀ c ∈ cs, c ∈ (Spec.loreFeatures cx)) : ∀ df : Frame K, NumTable cx df →
    ∃ out, clipColumns cx (Dict.ofPairs (cx.idxFeatures.map (fun p => (p.2, p.1)))) cs df = .ok out ∧ NumTable cx out := by
  induction cs with
  | nil => intro df h; exact ⟨df, rfl, h⟩
  | cons c cs ih =>
    intro df h
    have hc := hcs c (by simp)
    have hci := List.idxOf_lt_length_iff.2 hc
    obtain ⟨b, hb⟩ := trainRange_of_rows cx _ c _ (featIdx_get hg hc) (fun r hr => by rw [hg.rows r hr]; exact hci) hg.X2E
    obtain ⟨j, hj, hjl⟩ := numTable_at hg h hc
    have hcol : df.colIdx c = .ok (j + 1) := (colIdx_ok_iff df c _).2 ⟨by rw [h.1]; simp [hc], hj.symm⟩
    obtain ⟨rows, hrows⟩ := forall₂_of_forall_exists (fun r r' => updCell (j + 1) (clipCell b.1 b.2) r = .ok r' ∧
        ∃ (c : Cell K) (xs : List K), r' = c :: xs.map Cell.num ∧ xs.length = (Spec.loreFeatures cx).length) df.rows (by
      intro r hr
      obtain ⟨cl, xs, rfl, hxs⟩ := h.2 r hr
      have hjx : j < xs.length := by omega
      refine ⟨cl :: (xs.set j (clipVal b.1 b.2 xs[j])).map Cell.num, ?_, cl, _, rfl, by simpa using hxs⟩
      rw [updCell_ok_iff]
      refine ⟨.num xs[j], .num (clipVal b.1 b.2 xs[j]), by simp [hjx], rfl, ?_⟩
      rw [List.map_set]
      rfl)
    obtain ⟨out, ho, ho2⟩ := ih (fun c' hc' => hcs c' (by simp [hc'])) { df with rows := rows }
      ⟨h.1, fun r' hr' => (forall₂_mem_right hrows r' hr').elim (fun _ q => q.2.2)⟩
    refine ⟨out, ?_, ho2⟩
    unfold clipColumns
    rw [hb]
    simp only [py_bind_ok, hcol, (mapM_ok_iff _ _ _).2 (hrows.imp (fun _ _ h => h.1))]
    exact ho

/-- the z-score filter succeeds and keeps rows of the table. -/
theorem zFilter_total {cx : LoreCtx K} {bb : List K → Nat} {inst : List K} (hg : GoodLore cx bb inst) (cs : List String)
    (hcs : ∀ c ∈ cs, c ∈ (Spec.loreFeatures cx)) (df : Frame K) (h : NumTable cx df) : ∃ out, zFilter cs df = .ok out ∧ NumTable cx out := by
  have hcol : ∀ c ∈ cs, ∃ v, df.numCol c = .ok v := by
    intro c hc
    obtain ⟨j, hj, hjl⟩ := numTable_at hg h (hcs c hc)
    obtain ⟨v, hv, -⟩ := Frame.numCol_ok df c (by rw [h.1]; simp [hcs c hc]) (by
      intro r hr
      obtain ⟨cl, xs, rfl, hxs⟩ := h.2 r hr
      rw [h.1]; simp [hxs]) (by
      intro r hr
      obtain ⟨cl, xs, rfl, hxs⟩ := h.2 r hr
      rw [hj]
      exact ⟨xs[j]'(by omega), by simp [show j < xs.length by omega]⟩)
    exact ⟨v, hv⟩
  obtain ⟨cols, hcols⟩ := forall₂_of_forall_exists _ cs hcol
  refine ⟨{ df with rows := (df.rows.zipIdx.filter (fun p => keepRow cols p.2)).map Prod.fst }, ?_, h.1, ?_⟩
  · unfold zFilter
    rw [(mapM_ok_iff _ _ _).2 hcols]
    rfl
  · intro r hr
    simp only at hr
    obtain ⟨p, hp, rfl⟩ := List.mem_map.1 hr
    have := (List.mem_filter.1 hp).1
    rw [List.mem_zipIdx_iff_getElem?] at this
    exact h.2 _ (List.mem_of_getElem? this)

/-- **C147**, `fit`: on a dataset of continuous features `fit` of a LORE neighborhood succeeds for every generated table with a number for each feature. Its data are then rows
inside the range of the training rows (as many as the z-scores leave) and last the instance, with the answers of the black box as labels; the decoded instance is the instance. -/
theorem C147_fit (cx : LoreCtx K) (bb : List K → Nat) (inst : List K) (hg : GoodLore cx bb inst) (df : Frame K) (hdf : NumTable cx df) (fuel : Nat) (s : LState K) :
    ∃ (s' : LState K) (kept : List (List K)), loreFit cx bb (.ok df) inst (fuel + 1) s = (.ok (), s') ∧
      s'.base.X = some ⟨(Spec.loreFeatures cx), (kept ++ [inst]).map (List.map Cell.num)⟩ ∧ s'.base.y = some ((kept ++ [inst]).map bb) ∧
      s'.base.decodedInst = some (inst.map Cell.num) ∧ (∃ xy, s'.base.Xy = some xy) ∧ kept.length ≤ df.rows.length ∧
      (∀ r ∈ kept, r.length = (Spec.loreFeatures cx).length ∧ ∀ (j : Nat) x, r[j]? = some x → ∃ lo hi, IsRange cx.X2E j lo hi ∧ lo ≤ x ∧ x ≤ hi) := by
  obtain ⟨featIdx, hfi⟩ : ∃ f, f = Dict.ofPairs (cx.idxFeatures.map (fun p => (p.2, p.1))) := ⟨_, rfl⟩
  obtain ⟨cont, hcont⟩ : ∃ l, l = cx.continuous.filter (fun c => c ≠ cx.className) := ⟨_, rfl⟩
  have hcf : ∀ c ∈ cont, c ∈ (Spec.loreFeatures cx) := by
    intro c hc
    rw [hcont] at hc
    obtain ⟨h1, h2⟩ := List.mem_filter.1 hc
    exact (hg.cont c).2 ⟨h1, by simpa using h2⟩
  have hfc : ∀ c ∈ (Spec.loreFeatures cx), c ∈ cont := by
    intro c hc
    obtain ⟨h1, h2⟩ := (hg.cont c).1 hc
    rw [hcont]
    exact List.mem_filter.2 ⟨h1, by simpa using h2⟩
  have hcn : df.cols.Nodup := by rw [hdf.1]; exact hg.cols_nodup
  have hget : ∀ c ∈ (Spec.loreFeatures cx), Dict.get? cx.encoders c = none := by
    intro c hc
    rw [Dict.get?_eq_none_iff]
    intro hk
    obtain ⟨p, hp, rfl⟩ := List.mem_map.1 hk
    exact ((hg.cont _).1 hc).2 (hg.enc p hp)
  -- the decoded instance
  have hdec : (Spec.loreFeatures cx).zipIdx.mapM (loreDecode cx inst) = .ok (inst.map Cell.num) := by
    rw [mapM_ok_iff, List.forall₂_iff_get]
    refine ⟨by simp [hg.inst], ?_⟩
    intro i h1 h2
    simp only [List.get_eq_getElem, List.getElem_zipIdx, List.getElem_map, zero_add]
    have hi : i < (Spec.loreFeatures cx).length := by simpa using h1
    unfold loreDecode
    simp only [hget _ (List.getElem_mem hi), List.getElem?_eq_getElem (show i < inst.length by rw [hg.inst]; exact hi)]
  have htar : ∃ t, loreTarget cx (bb inst : K) = .ok t := by
    obtain ⟨cls, h1, h2⟩ := hg.known
    refine ⟨cls[bb inst], ?_⟩
    unfold loreTarget
    rw [Dict.get_eq_ok_iff.2 h1]
    simp only [py_bind_ok, inverseCell, hg.toInt, Int.cast_natCast, if_true]
    show (match cls[bb inst]? with | some c => Except.ok c | none => Except.error PyErr.valueError) = _
    rw [List.getElem?_eq_getElem h2]
  obtain ⟨t, ht⟩ := htar
  -- smoothing
  obtain ⟨clipped, hcl, hclT⟩ := clipColumns_total hg cont hcf df hdf
  obtain ⟨z, hz, hzT⟩ := zFilter_total hg cont hcf clipped hclT
  have hsm : smoothRows cx (fuel + 1) df cont featIdx = .ok z := by
    unfold smoothRows
    rw [hfi, hcl]
    simp only [py_bind_ok, hz]
    exact smoothLoop_eq (zFilter_length hz) fuel
  obtain ⟨kept, hkept⟩ := forall₂_of_forall_exists (fun (r : List (Cell K)) (xs : List K) => r.tail = xs.map Cell.num ∧ xs.length = (Spec.loreFeatures cx).length ∧ r ≠ []) z.rows (by
    intro r hr
    obtain ⟨c, xs, rfl, h2⟩ := hzT.2 r hr
    exact ⟨xs, rfl, h2, by simp⟩)
  have hrow : loreRow bb inst z.cols = .ok (((bb inst : K) :: inst).map Cell.num) := by
    unfold loreRow
    rw [if_pos (by rw [hzT.1]; simp [hg.inst])]
  set xy : Frame K := { z with rows := z.rows ++ [((bb inst : K) :: inst).map Cell.num] } with hxy
  have hcols0 : xy.cols.idxOf cx.className = 0 := by
    show z.cols.idxOf cx.className = 0
    rw [hzT.1]; simp
  have hmem : cx.className ∈ xy.cols := by
    show _ ∈ z.cols
    rw [hzT.1]; simp
  have htails : xy.rows.map List.tail = (kept ++ [inst]).map (List.map Cell.num) := by
    show (z.rows ++ [_]).map List.tail = _
    rw [List.map_append, List.map_append]
    congr 1
    exact (forall₂_map_eq hkept (fun r xs h => h.1.symm)).symm
  have hdrop : xy.drop cx.className = .ok ⟨(Spec.loreFeatures cx), (kept ++ [inst]).map (List.map Cell.num)⟩ := by
    unfold Frame.drop
    rw [(colIdx_ok_iff xy cx.className 0).2 ⟨hmem, hcols0.symm⟩]
    simp only [py_bind_ok, List.eraseIdx_zero, htails]
    rw [show xy.cols.tail = (Spec.loreFeatures cx) by show z.cols.tail = _; rw [hzT.1]; rfl]
    rfl
  have hnb : smoothNeighborhood cx bb inst (fuel + 1) df cont featIdx = .ok (xy, (kept ++ [inst]).map (List.map Cell.num)) := by
    unfold smoothNeighborhood
    rw [hsm]
    simp only [py_bind_ok, hrow]
    rw [← hxy, hdrop]
    simp only [py_bind_ok, encodeColumns_skip _ _ hg.enc]
    rfl
  have hpred : ((kept ++ [inst]).map (List.map Cell.num)).mapM (predictCells bb) = .ok ((kept ++ [inst]).map bb) := by
    rw [mapM_ok_iff, List.forall₂_map_left_iff, List.forall₂_map_right_iff, List.forall₂_same]
    intro xs _
    unfold predictCells
    refine py_bind_eq_ok.2 ⟨xs, ?_, rfl⟩
    rw [mapM_ok_iff, List.forall₂_map_left_iff, List.forall₂_same]
    intro x _; rfl
  have hyd : ∃ yd, xy.col cx.className = .ok yd := by
    obtain ⟨yd, h1, -⟩ := Frame.col_ok xy cx.className hmem (by
      intro r hr
      show r.length = z.cols.length
      rw [hzT.1]
      rcases List.mem_append.1 hr with hr | hr
      · obtain ⟨c, xs, rfl, h2⟩ := hzT.2 r hr
        simp [h2]
      · rw [List.mem_singleton.1 hr]; simp [hg.inst])
    exact ⟨yd, h1⟩
  obtain ⟨yd, hyd⟩ := hyd
  have hframes : loreFrames cx bb inst (fuel + 1) df = .ok (xy, ⟨(Spec.loreFeatures cx), (kept ++ [inst]).map (List.map Cell.num)⟩, (kept ++ [inst]).map bb, yd) := by
    unfold loreFrames
    simp only [← hfi, ← hcont, hnb, py_bind_ok, hdrop, hpred, hyd]
    rfl
  refine ⟨{ s with base := { s.base with decodedInst := some (inst.map Cell.num), Xy := some xy, X := some ⟨(Spec.loreFeatures cx), (kept ++ [inst]).map (List.map Cell.num)⟩, y := some ((kept ++ [inst]).map bb) }, target := some t, yDecoded := some yd }, kept, ?_, rfl, rfl, rfl, ⟨xy, rfl⟩, ?_, ?_⟩
  · unfold loreFit
    rw [show cx.features = Spec.loreFeatures cx from rfl, hdec]
    simp only [ht]
    rw [show (Except.ok df : Py (Frame K)).bind (loreFrames cx bb inst (fuel + 1)) = loreFrames cx bb inst (fuel + 1) df from rfl, hframes]
  · rw [← hkept.length_eq]
    have h1 := zFilter_length hz
    have h2 := (clipColumns_ok (featIdx_mem cx.idxFeatures) cont (hcont ▸ hg.contNd.filter _) df clipped hcn hcl).2.2.length_eq
    omega
  · intro r hr
    obtain ⟨r0, hr0, hr1, hr2, hr3⟩ := forall₂_mem_right hkept r hr
    refine ⟨hr2, ?_⟩
    intro j x hj
    have hjl : j < (Spec.loreFeatures cx).length := hr2 ▸ (List.getElem?_eq_some_iff.1 hj).1
    obtain ⟨-, hrange⟩ := C90_in_range cx bb inst (fuel + 1) df cont hcn (hcont ▸ hg.contNd.filter _) xy _ (hfi ▸ hnb)
    obtain ⟨j', x', lo, hi, hmem', hR, hx', hlo, hhi⟩ := hrange r0 (by
      show r0 ∈ (z.rows ++ [_]).dropLast
      rw [List.dropLast_concat]; exact hr0) (j + 1) (Spec.loreFeatures cx)[j] (by rw [hdf.1]; simp [hjl]) (hfc _ (List.getElem_mem _))
    have hjj : j' = j := by
      rw [hg.idx] at hmem'
      obtain ⟨⟨c, k⟩, hk, hk'⟩ := List.mem_map.1 hmem'
      cases hk'
      rw [List.mem_zipIdx_iff_getElem?] at hk
      obtain ⟨hk1, hk2⟩ := List.getElem?_eq_some_iff.1 hk
      exact (hg.nodup.getElem_inj_iff).1 hk2
    have hxx : x' = x := by
      have : r0[j + 1]? = r0.tail[j]? := by simp
      rw [this, hr1, List.getElem?_map, hj] at hx'
      simpa using hx'.symm
    subst hjj hxx
    exact ⟨lo, hi, hR, hlo, hhi⟩

/-- when the instance row is as long as the table, `fuzzify` of a LORE neighborhood of an undecoded instance does what that of a sampling neighborhood does. -/
theorem loreFuzzify_of_sampling (cx : FuzzCtx K) (dec : List (Cell K)) (a : FuzzArgs K) (s s' : NState K) (X : Frame K) (hX : s.X = some X)
    (hdec : s.decodedInst = some dec) (hl : dec.length ≤ X.cols.length) (him : a.instanceMembership = none)
    (h : samplingFuzzify cx dec a s = (.ok (), s')) : loreFuzzify cx dec a s = (.ok (), s') := by
  have hv : ∀ o : Option Bool, fuzzyVarsOf cx { a with instanceMembership := o } = fuzzyVarsOf cx a := fun _ => rfl
  unfold samplingFuzzify at h
  rw [if_neg (by simp [him])] at h
  unfold loreFuzzify
  unfold fuzzify at h ⊢
  simp only [hv, Option.getD_some, Bool.false_eq_true, if_false, hX] at h
  simp only [hX, him, Option.getD_none, if_true]
  cases hy : s.y with
  | none => rw [hy] at h; cases h
  | some y =>
  cases hXy : s.Xy with
  | none => rw [hy, hXy] at h; cases h
  | some Xy =>
  rw [hy, hXy] at h
  simp only at h ⊢
  cases h1 : fuzzyVarsOf cx a X y with
  | error e => rw [h1] at h; cases h
  | ok vars =>
  rw [h1] at h
  simp only at h ⊢
  cases h2 : membershipOpt X.rows vars with
  | error e => rw [h2] at h; cases h
  | ok m =>
  rw [h2] at h
  simp only [hdec] at h ⊢
  rw [show instanceRow X dec = .ok [dec] by unfold instanceRow; rw [if_neg (by omega)]]
  simp only
  cases h3 : membershipOpt [dec] vars with
  | error e => rw [h3] at h; cases h
  | ok im =>
  rw [h3] at h
  simp only at h ⊢
  rw [h3]
  exact h

/-- arguments of `fuzzify` for a table with the features `feats`, the rows `rows` of numbers and the labels `y`: all the features are numeric, the discretizer gives increasing peaks with different names on each column that is not constant,
and the values of a nearly constant column have different names. -/
structure Spec.GoodNum (fz : FuzzCtx K) (a : FuzzArgs K) (nums feats : List String) (rows : List (List K)) (y : List Nat) : Prop where
  numCols : a.numCols = some nums
  catCols : a.catCols = some []
  perm : nums.Perm feats
  quiet : a.verbose = false
  imem : a.instanceMembership = none
  sets : (a.division = "equal_width" ∨ a.division = "equal_freq") → a.sets ≠ none
  disc : ∃ d, fz.disc a.division = some d ∧ ∀ (j : Nat) (v : List K), j < feats.length → rows.map (fun r => r[j]?) = v.map some → ¬ fz.std v < 1 / 100000 →
    ∃ pts, d (a.sets.getD 0) a.th v y = .ok pts ∧ pts ≠ [] ∧ pts.Pairwise (· < ·) ∧ (pts.map fz.fmtK).Nodup
  constant : ∀ (j : Nat) (v : List K), j < feats.length → rows.map (fun r => r[j]?) = v.map some → fz.std v < 1 / 100000 →
    ∀ x ∈ v, ∀ x' ∈ v, fz.fmtK x = fz.fmtK x' → x = x'

/-- **C147**, `fuzzify`: on a table of numbers `fuzzify` of a LORE neighborhood succeeds and leaves the neighborhood ready for the explainers. -/
theorem C147_fuzzify (fz : FuzzCtx K) (a : FuzzArgs K) (nums feats : List String) (rows : List (List K)) (y : List Nat) (inst : List K)
    (ha : GoodNum fz a nums feats rows y) (s : NState K) (hX : s.X = some ⟨feats, rows.map (List.map Cell.num)⟩) (hy : s.y = some y)
    (hXy : ∃ xy, s.Xy = some xy) (hdec : s.decodedInst = some (inst.map Cell.num)) (hfn : feats.Nodup) (hfe : feats ≠ []) (hrne : rows ≠ [])
    (hlen : ∀ r ∈ inst :: rows, r.length = feats.length) (hyl : y.length = rows.length) :
    ∃ (nb : NState K) (vs : List (FVar K)) (im : Memb K), loreFuzzify fz (inst.map Cell.num) a s = (.ok (), nb) ∧
      Ready nb vs ⟨feats, rows.map (List.map Cell.num)⟩ y (inst.map Cell.num) im ∧ vs.map FVar.name = feats ∧
      SubPartition vs (inst.map Cell.num) ∧ Covered vs (rows.map (List.map Cell.num)) := by
  obtain ⟨xy, hXy⟩ := hXy
  obtain ⟨d, hd, hdok⟩ := ha.disc
  have hat : ∀ c ∈ nums, ∀ row ∈ (inst :: rows).map (List.map Cell.num), ∃ x, row[feats.idxOf c]? = some (Cell.num x) := by
    intro c hc row hrow
    obtain ⟨r, hr, rfl⟩ := List.mem_map.1 hrow
    have hi := List.idxOf_lt_length_iff.2 (ha.perm.mem_iff.1 hc)
    rw [← hlen r hr] at hi
    exact ⟨r[feats.idxOf c], by simp [hi]⟩
  have hcol : ∀ c ∈ nums, ∀ v : List K, (rows.map (List.map Cell.num)).map (fun r => r[feats.idxOf c]?) = v.map (fun x => some (Cell.num x)) →
      rows.map (fun r => r[feats.idxOf c]?) = v.map some := by
    intro c _ v hv
    have hinj : Function.Injective (Option.map (Cell.num : K → Cell K)) := Option.map_injective (fun _ _ h => Cell.num.inj h)
    apply List.map_injective_iff.2 hinj
    simpa [List.map_map, Function.comp_def] using hv
  obtain ⟨vs, im, k1, k2, k3, -, k4, k5⟩ := C143_ready fz (inst.map .num) a s ⟨feats, rows.map (List.map Cell.num)⟩ xy y (inst.map Cell.num) nums [] d
    hX hy hXy hdec hfn (by simpa using hrne)
    (by
      intro r hr
      rw [show inst.map Cell.num :: (⟨feats, rows.map (List.map Cell.num)⟩ : Frame K).rows = (inst :: rows).map (List.map Cell.num) from rfl] at hr
      obtain ⟨r0, h0, rfl⟩ := List.mem_map.1 hr
      simpa using hlen r0 h0)
    ha.numCols ha.catCols (by rintro rfl; exact hfe (List.nil_perm.1 ha.perm)) (by simpa using ha.perm) ha.quiet ha.imem ha.sets (by simpa using hyl) hd hat
    (by
      intro c hc v hv hstd
      obtain ⟨pts, p1, p2, p3, -⟩ := hdok _ v (List.idxOf_lt_length_iff.2 (ha.perm.mem_iff.1 hc)) (hcol c hc v hv) hstd
      exact ⟨pts, p1, p2, p3.imp le_of_lt⟩)
    (by
      intro c hc col pts hcl hp
      have hcf := ha.perm.mem_iff.1 hc
      have hj := List.idxOf_lt_length_iff.2 hcf
      have hcl' : rows.map (fun r => r[feats.idxOf c]?) = col.map some := by
        obtain ⟨col', e1, e2⟩ := Frame.numCol_ok (⟨feats, rows.map (List.map Cell.num)⟩ : Frame K) c hcf
          (fun r hr => by
            obtain ⟨r0, h0, rfl⟩ := List.mem_map.1 hr
            simpa using hlen r0 (by simp [h0])) (fun r hr => hat c hc r (by
              rw [List.map_cons]
              exact List.mem_cons_of_mem _ hr))
        rw [hcl] at e1
        cases e1
        exact hcol c hc col (forall₂_map_eq e2 (fun r x hx => hx.symm)).symm
      rcases hp with ⟨q0, q1, q2⟩ | ⟨q1, q2⟩
      · refine List.Nodup.map_on ?_ (q1.imp ne_of_lt)
        exact fun x hx x' hx' => ha.constant _ col hj hcl' q0 x ((q2 x).1 hx) x' ((q2 x').1 hx')
      · obtain ⟨pts', p1, p2, p3, p4⟩ := hdok _ col hj hcl' q1
        rw [q2] at p1
        cases p1
        exact p4)
    (by intro c hc; cases hc)
  refine ⟨_, vs, im, loreFuzzify_of_sampling fz _ a s _ _ hX hdec (by simpa using (hlen inst (by simp)).le) ha.imem (Prod.ext k1 rfl), k2, k3,
    k4 _ (by simp), k5⟩

/-- **C147**: after `fit` on a good dataset and a generated table of numbers, `fuzzify` with good arguments succeeds too, and the neighborhood is ready for the explainers. -/
theorem C147_pipeline (cx : LoreCtx K) (bb : List K → Nat) (inst : List K) (hg : GoodLore cx bb inst) (df : Frame K) (hdf : NumTable cx df) (fuel : Nat) (s : LState K)
    (fz : FuzzCtx K) (fa : FuzzArgs K) (nums : List String) :
    ∃ (s' : LState K) (kept : List (List K)), loreFit cx bb (.ok df) inst (fuel + 1) s = (.ok (), s') ∧
      (∀ r ∈ kept, r.length = (Spec.loreFeatures cx).length ∧ ∀ (j : Nat) x, r[j]? = some x → ∃ lo hi, IsRange cx.X2E j lo hi ∧ lo ≤ x ∧ x ≤ hi) ∧
      (GoodNum fz fa nums (Spec.loreFeatures cx) (kept ++ [inst]) ((kept ++ [inst]).map bb) →
        ∃ (nb : NState K) (vs : List (FVar K)) (im : Memb K), loreFuzzify fz (inst.map Cell.num) fa s'.base = (.ok (), nb) ∧
          Ready nb vs ⟨(Spec.loreFeatures cx), (kept ++ [inst]).map (List.map Cell.num)⟩ ((kept ++ [inst]).map bb) (inst.map Cell.num) im ∧
          vs.map FVar.name = (Spec.loreFeatures cx) ∧ SubPartition vs (inst.map Cell.num) ∧ Covered vs ((kept ++ [inst]).map (List.map Cell.num))) := by
  obtain ⟨s', kept, h1, h2, h3, h4, h5, h6, h7⟩ := C147_fit cx bb inst hg df hdf fuel s
  refine ⟨s', kept, h1, h7, fun ha => C147_fuzzify fz fa nums _ _ _ inst ha s'.base h2 h3 h5 h4 hg.nodup hg.ne (by simp) ?_ (by simp)⟩
  intro r hr
  simp only [List.mem_cons, List.mem_append, List.not_mem_nil, or_false] at hr
  rcases hr with rfl | hr | rfl
  · exact hg.inst
  · exact (h7 r hr).1
  · exact hg.inst

theorem lore_ready (lx : LoreCtx K) (bb : List K → Nat) (inst : List K) (hg : GoodLore lx bb inst) (df : Frame K) (hdf : NumTable lx df) (fuel : Nat) (s0 s1 : LState K)
    (nb : NState K) (hfit : loreFit lx bb (.ok df) inst (fuel + 1) s0 = (.ok (), s1)) (fz : FuzzCtx K) (fa : FuzzArgs K) (nums : List String) (rows : List (List K))
    (hrows : s1.base.X = some ⟨(Spec.loreFeatures lx), rows.map (List.map Cell.num)⟩) (ha : GoodNum fz fa nums (Spec.loreFeatures lx) rows (rows.map bb))
    (hfz : loreFuzzify fz (inst.map Cell.num) fa s1.base = (.ok (), nb)) :
    inst ∈ rows ∧ ∃ (vs : List (FVar K)) (im : Memb K), Ready nb vs ⟨(Spec.loreFeatures lx), rows.map (List.map Cell.num)⟩ (rows.map bb) (inst.map Cell.num) im ∧
      SubPartition vs (inst.map Cell.num) ∧ Covered vs (rows.map (List.map Cell.num)) := by
  obtain ⟨s', kept, h1, h2, h3, h4, h5, h6, h7⟩ := C147_fit lx bb inst hg df hdf fuel s0
  rw [hfit] at h1
  cases h1
  have hke : rows = kept ++ [inst] := by
    rw [hrows] at h2
    have hinj : Function.Injective (List.map (Cell.num : K → Cell K)) := List.map_injective_iff.2 (fun _ _ h => Cell.num.inj h)
    exact List.map_injective_iff.2 hinj (Frame.mk.inj (Option.some.inj h2)).2
  subst hke
  refine ⟨by simp, ?_⟩
  obtain ⟨nb', vs, im, k1, k2, -, k3, k4⟩ := C147_fuzzify fz fa nums _ _ _ inst ha s1.base h2 h3 h5 h4 hg.nodup hg.ne (by simp) (by
    intro r hr
    simp only [List.mem_cons, List.mem_append, List.not_mem_nil, or_false] at hr
    rcases hr with rfl | hr | rfl
    · exact hg.inst
    · exact (h7 r hr).1
    · exact hg.inst) (by simp)
  rw [hfz] at k1
  cases k1
  exact ⟨vs, im, k2, k3, k4⟩

/-- **C147**, explanation: with the neighborhood so obtained and the instance as it is given, `FDTExplainer.fit` succeeds exactly when the tree has a split and the factual method an answer; `exp_value` is then what the tree predicts for
the instance, a class that the black box gave to a row of the neighborhood, and no class has a larger activation in the rules. -/
theorem C147_fdt_explains (lx : LoreCtx K) (bb : List K → Nat) (inst : List K) (hg : GoodLore lx bb inst) (df : Frame K) (hdf : NumTable lx df) (fuel : Nat) (s0 s1 : LState K)
    (nb : NState K) (hfit : loreFit lx bb (.ok df) inst (fuel + 1) s0 = (.ok (), s1)) (fz : FuzzCtx K) (fa : FuzzArgs K) (nums : List String) (rows : List (List K))
    (hrows : s1.base.X = some ⟨(Spec.loreFeatures lx), rows.map (List.map Cell.num)⟩) (ha : GoodNum fz fa nums (Spec.loreFeatures lx) rows (rows.map bb))
    (hfz : loreFuzzify fz (inst.map Cell.num) fa s1.base = (.ok (), nb))
    (cx : ExpCtx K) (hord : ∀ l, (cx.ord l).Perm l) (a : ExpArgs K) (hnb : a.nb = nb) (hinst : a.inst = [inst.map Cell.num])
    (hga : ∀ vs, nb.vars = some (vs.map some) → GoodArgs cx a vs (inst.map Cell.num))
    (hy : (∃ r ∈ rows, bb r = 1) ∨ 2 < (rows.map bb).dedup.length ∨ ∀ r ∈ rows, bb r = bb inst)
    (s : EState K (List (Rule String Nat K)) Changes) :
    ∃ (p : FDTParams K) (t : FNode Nat K) (rs : List (Rule String Nat K)) (c : Nat) (dg : Inst K),
      TreeParams a p ∧ fdtFit cx.ent cx.ord p fdtNew (rows.map (List.map Cell.num)) (rows.map bb) = .ok t ∧ fdtToRules t false false = .ok rs ∧ fdtPredict min .agg t [inst.map Cell.num] = .ok [[c]] ∧ (∃ r ∈ rows, c = bb r) ∧
      (∃ im, nb.instMem = some im ∧ OneInstance im dg) ∧
      (t.isLeaf = false → ∃ deg : Rule String Nat K → K, (∀ r ∈ rs, r.matching dg = .ok (deg r)) ∧
        ∀ r ∈ rows, activation deg rs (bb r) ≤ activation deg rs c) ∧
      ((fdtExplainerFit cx a s).1 = .ok () ↔ t.isLeaf = false ∧ FactualAnswers a.factual (fun r => r.matching dg) rs c) ∧
      ((fdtExplainerFit cx a s).1 = .ok () → (fdtExplainerFit cx a s).2.expValue = some c) := by
  obtain ⟨hir, vs, im, g4, g5, g6⟩ := lore_ready lx bb inst hg df hdf fuel s0 s1 nb hfit fz fa nums rows hrows ha hfz
  subst hnb
  obtain ⟨p, t, rs, c, dg, h1, h2, h3, h4, h5, h6, h7, h8, h9, h10⟩ := C143_fdt_explains_partial cx hord a vs _ _ _ im g4
    (hga vs g4.hvars) (by rw [hinst]; simp) (by
      rcases hy with ⟨r, hr, e⟩ | hy | hy
      · exact .inr (.inl (by rw [← e]; exact List.mem_map_of_mem hr))
      · exact .inl hy
      · refine .inr (.inr ?_)
        simp only [List.mem_map]
        rintro _ ⟨r, hr, rfl⟩ _ ⟨r', hr', rfl⟩
        rw [hy r hr, hy r' hr']) s
  obtain ⟨r, hr, e⟩ := List.mem_map.1 h5
  have hiff : (fdtExplainerFit cx a s).1 = .ok () → t.isLeaf = false ∧ FactualAnswers a.factual (fun r => r.matching dg) rs c := by
    intro hok
    have hl : t.isLeaf = false := by
      by_contra hl
      rw [h10 (by simpa using hl)] at hok
      cases hok
    refine ⟨hl, ?_⟩
    by_contra hn
    rw [h9 hl hn] at hok
    cases hok
  refine ⟨p, t, rs, c, dg, h1, h2, h3, h4, ⟨r, hr, e.symm⟩, ⟨im, g4.him, h6⟩, ?_, ⟨hiff, fun hh => ?_⟩, fun hok => ?_⟩
  · intro hl
    obtain ⟨deg, d1, d2⟩ := h7 hl
    exact ⟨deg, d1, fun r hr => d2 _ (List.mem_map_of_mem hr)⟩
  · obtain ⟨f, fact, cf, q⟩ := h8 hh.1 hh.2
    rw [q]
  · obtain ⟨l1, l2⟩ := hiff hok
    obtain ⟨f, fact, cf, q⟩ := h8 l1 l2
    rw [q]

/-- **C147**, explanation: with the neighborhood so obtained and the instance as it is given, `FBDTExplainer.fit` succeeds exactly when the tree has a split and the factual method an answer; `exp_value` is then what the tree predicts for
the instance, a class that the black box gave to a row of the neighborhood, and no class has a larger activation in the rules. -/
theorem C147_fbdt_explains [NanSort K] (lx : LoreCtx K) (bb : List K → Nat) (inst : List K) (hg : GoodLore lx bb inst) (df : Frame K) (hdf : NumTable lx df) (fuel : Nat) (s0 s1 : LState K)
    (nb : NState K) (hfit : loreFit lx bb (.ok df) inst (fuel + 1) s0 = (.ok (), s1)) (fz : FuzzCtx K) (fa : FuzzArgs K) (nums : List String) (rows : List (List K))
    (hrows : s1.base.X = some ⟨(Spec.loreFeatures lx), rows.map (List.map Cell.num)⟩) (ha : GoodNum fz fa nums (Spec.loreFeatures lx) rows (rows.map bb))
    (hfz : loreFuzzify fz (inst.map Cell.num) fa s1.base = (.ok (), nb))
    (cx : ExpCtx K) (a : ExpArgs K) (hnb : a.nb = nb) (hinst : a.inst = [inst.map Cell.num])
    (hga : GoodBArgs a) (hother : a.kw.other = false) (hdg : a.kw.dGiven = false) (hy2 : (rows.map bb).dedup.length ≤ 2)
    (hy : (∃ r ∈ rows, bb r = 1) ∨ ∀ r ∈ rows, bb r = bb inst)
    (s : EState K (List (Rule (List String) Nat K)) String) :
    ∃ (p : FDTParams K) (t : BNode Nat K) (rs : List (Rule (List String) Nat K)) (c : Nat) (dg : Inst K),
      TreeParams a p ∧ fbdtFit cx.ent p fbdtNew (rows.map (List.map Cell.num)) (rows.map bb) = .ok t ∧ fbdtToRules t false false = .ok rs ∧ fbdtPredict min .agg t [inst.map Cell.num] = .ok [[c]] ∧ (∃ r ∈ rows, c = bb r) ∧
      (∃ im, nb.instMem = some im ∧ OneInstance im dg) ∧
      (t.isLeaf = false → ∃ deg : Rule (List String) Nat K → K, (∀ r ∈ rs, r.matchingMulti dg = .ok (deg r)) ∧
        ∀ r ∈ rows, activation deg rs (bb r) ≤ activation deg rs c) ∧
      ((fbdtExplainerFit cx a s).1 = .ok () ↔ t.isLeaf = false ∧ FactualAnswers a.factual (fun r => r.matchingMulti dg) rs c) ∧
      ((fbdtExplainerFit cx a s).1 = .ok () → (fbdtExplainerFit cx a s).2.expValue = some c) := by
  obtain ⟨hir, vs, im, g4, g5, g6⟩ := lore_ready lx bb inst hg df hdf fuel s0 s1 nb hfit fz fa nums rows hrows ha hfz
  subst hnb
  obtain ⟨p, t, rs, c, dg, h1, h2, h3, h4, h5, h6, h7, h8, h9, h10, -⟩ := C146_fbdt_explains_partial cx a vs _ _ _ im g4 hga (by rw [hinst]; simp) hy2 (by
      rcases hy with ⟨r, hr, e⟩ | hy
      · exact .inl (by rw [← e]; exact List.mem_map_of_mem hr)
      · refine .inr ?_
        simp only [List.mem_map]
        rintro _ ⟨r, hr, rfl⟩ _ ⟨r', hr', rfl⟩
        rw [hy r hr, hy r' hr']) s
  obtain ⟨r, hr, e⟩ := List.mem_map.1 h5
  have hiff : (fbdtExplainerFit cx a s).1 = .ok () → t.isLeaf = false ∧ FactualAnswers a.factual (fun r => r.matchingMulti dg) rs c := by
    intro hok
    have hl : t.isLeaf = false := by
      by_contra hl
      rw [h10 hother hdg (by simpa using hl)] at hok
      cases hok
    refine ⟨hl, ?_⟩
    by_contra hn
    rw [h9 hother hdg hl hn] at hok
    cases hok
  refine ⟨p, t, rs, c, dg, h1, h2, h3, h4, ⟨r, hr, e.symm⟩, ⟨im, g4.him, h6⟩, ?_, ⟨hiff, fun hh => ?_⟩, fun hok => ?_⟩
  · intro hl
    obtain ⟨deg, d1, d2⟩ := h7 hl g5
    exact ⟨deg, d1, fun r hr => d2 _ (List.mem_map_of_mem hr)⟩
  · obtain ⟨f, fact, q⟩ := h8 hother hdg hh.1 hh.2
    rw [q]
  · obtain ⟨l1, l2⟩ := hiff hok
    obtain ⟨f, fact, q⟩ := h8 hother hdg l1 l2
    rw [q]

end

/-! ## The hypotheses hold on the example -/

section

example : GoodLore lxCtx lxBB [4, 11] where
  enc := by decide
  known := ⟨[.str "no", .str "yes"], by rfl, by decide +kernel⟩
  toInt := fun n => by
    show ((n : ℚ)).floor = n
    rw [← Int.cast_natCast, Rat.floor_intCast]
  nodup := by decide
  ne := by decide
  contNd := by decide
  cont := by
    have h : (Spec.loreFeatures lxCtx) = ["a", "b"] := by decide
    have h2 : lxCtx.continuous = ["a", "b"] := rfl
    have h3 : lxCtx.className = "class" := rfl
    intro c
    rw [h, h2, h3]
    simp only [List.mem_cons, List.not_mem_nil, or_false]
    constructor
    · rintro (rfl | rfl) <;> decide
    · exact fun h => h.1
  idx := by decide
  X2E := by decide
  rows := by decide
  inst := by decide

example : NumTable lxCtx lxFrame := by
  refine ⟨by decide, ?_⟩
  intro r hr
  simp only [lxFrame, List.mem_cons, List.not_mem_nil, or_false] at hr
  rcases hr with rfl | rfl | rfl
  · exact ⟨.str "no", [-1, 12], by rfl, by decide⟩
  · exact ⟨.str "yes", [7, 15], by rfl, by decide⟩
  · exact ⟨.str "no", [3, 40], by rfl, by decide⟩

/-- how the example writes numbers. -/
def lxFz : FuzzCtx ℚ := { nbObj.fz with fmtK := fun q => if q < 1 then "0" else if q < 4 then "5/2" else if q < 6 then "5" else if q < 14 then "11" else if q < 18 then "31/2" else "20" }

/-- three sets for each feature. -/
def lxArgs : FuzzArgs ℚ := { division := "equal_width", numCols := some ["a", "b"], catCols := some [], sets := some 3, th := none }

/-- the rows after the smoothing of the example, the instance last. -/
def lxRows : List (List ℚ) := [[0, 12], [5, 15], [3, 20], [4, 11]]

theorem lx_good : GoodNum lxFz lxArgs ["a", "b"] (Spec.loreFeatures lxCtx) lxRows (lxRows.map lxBB) := by
  have hcol : ∀ (j : Nat) (v : List ℚ), j < (Spec.loreFeatures lxCtx).length → lxRows.map (fun r => r[j]?) = v.map some →
      v = [0, 5, 3, 4] ∨ v = [12, 15, 20, 11] := by
    intro j v hj hv
    have hl : (Spec.loreFeatures lxCtx).length = 2 := by decide
    rw [hl] at hj
    match j, hj with
    | 0, _ =>
      refine .inl (List.map_injective_iff.2 (Option.some_injective ℚ) (hv.symm.trans ?_))
      decide
    | 1, _ =>
      refine .inr (List.map_injective_iff.2 (Option.some_injective ℚ) (hv.symm.trans ?_))
      decide
    | j + 2, hj => omega
  exact {
    numCols := rfl
    catCols := rfl
    perm := by
      have : (Spec.loreFeatures lxCtx) = ["a", "b"] := by decide
      rw [this]
    quiet := rfl
    imem := rfl
    sets := fun _ => by decide
    disc := ⟨fun sets _ v _ => equalWidth id v (sets - 1), by rfl, by
      intro j v hj hv _
      rcases hcol j v hj hv with rfl | rfl
      · exact ⟨[0, 5/2, 5], by decide +kernel, by decide, by decide +kernel, by decide +kernel⟩
      · exact ⟨[11, 31/2, 20], by decide +kernel, by decide, by decide +kernel, by decide +kernel⟩⟩
    constant := by
      intro j v hj hv hstd
      rcases hcol j v hj hv with rfl | rfl
      · exact absurd hstd (by decide +kernel)
      · exact absurd hstd (by decide +kernel) }

/-- the neighborhood of the example. -/
def lxNb : NState ℚ := (loreFuzzify lxFz ([4, 11].map .num) lxArgs (loreFit lxCtx lxBB (.ok lxFrame) [4, 11] 1 {}).2.base).2

example : (loreFit lxCtx lxBB (.ok lxFrame) [4, 11] 1 {}).2.base.X.map (fun X => (X.cols, X.rows)) = some ((Spec.loreFeatures lxCtx), lxRows.map (List.map Cell.num)) ∧
    (loreFuzzify lxFz ([4, 11].map .num) lxArgs (loreFit lxCtx lxBB (.ok lxFrame) [4, 11] 1 {}).2.base).1.isOk = true := by
  decide +kernel

/-- the arguments of the explainer: it is asked about the instance. -/
def lxExp : ExpArgs ℚ := ⟨[[.num 4, .num 11]], 1, lxNb, ["a", "b"], "mr_factual", "i_counterfactual", {}⟩

example : GoodBArgs lxExp where
  rect := ⟨2, by decide, by decide, by decide⟩
  fname := by decide
  cname := by decide
  lam := by decide
  noLam := fun _ => ⟨rfl, rfl⟩
  th := by
    intro th h
    cases h

example : ∀ vs, lxNb.vars = some (vs.map some) → GoodArgs expCtx lxExp vs ([4, 11].map Cell.num) := by
  intro vs hvs
  exact {
    rect := ⟨2, by decide, by decide, by decide⟩
    fname := by decide
    cname := by decide
    lam := by decide
    noLam := fun _ => ⟨rfl, rfl⟩
    other := rfl
    noD := fun _ => rfl
    isD := by
      intro h
      exact absurd h (by decide)
    th := by
      intro th h
      cases h
    num := by
      intro v hv _
      have h1 : (lxNb.vars.map (fun l => l.all (fun o => match o with | some v => decide (2 ≤ v.sets.length) | none => true))) = some true := by
        decide +kernel
      rw [hvs] at h1
      simp only [Option.map_some, Option.some.injEq, List.all_eq_true, List.mem_map] at h1
      have := h1 (some v) ⟨v, hv, rfl⟩
      simpa using this }

/-- both explainers succeed. -/
example : (fdtExplainerFit expCtx lxExp {}).1.isOk = true ∧ (fdtExplainerFit expCtx lxExp {}).2.expValue = some 1 ∧
    (fbdtExplainerFit expCtx lxExp {}).1.isOk = true ∧ (fbdtExplainerFit expCtx lxExp {}).2.expValue = some 1 := by
  decide +kernel

example : (∃ r ∈ lxRows, lxBB r = 1) ∧ (lxRows.map lxBB).dedup.length ≤ 2 := by decide +kernel

end

end Teacher
