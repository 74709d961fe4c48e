import Verif.Props.Neighborhood
import Verif.Props.EqualBins
import Verif.Lemmas.FDTFit

/-!
# C93: a well formed `fuzzify` succeeds and describes every column
-/

set_option linter.unusedSectionVars false

namespace Teacher

variable {K : Type} [Field K] [LinearOrder K] [IsStrictOrderedRing K]

theorem mem_pdUnique {α : Type} [DecidableEq α] (l : List α) (x : α) : x ∈ pdUnique l ↔ x ∈ l := by
  simp [pdUnique]

theorem pdUnique_snoc {α : Type} [DecidableEq α] (l : List α) (a : α) :
    pdUnique (l ++ [a]) = if a ∈ l then pdUnique l else pdUnique l ++ [a] := by
  unfold pdUnique
  rw [List.reverse_append, List.reverse_singleton, List.singleton_append]
  by_cases h : a ∈ l
  · rw [if_pos h, List.dedup_cons_of_mem (by simpa using h)]
  · rw [if_neg h, List.dedup_cons_of_notMem (by simpa using h), List.reverse_cons]

theorem pdUnique_nodup {α : Type} [DecidableEq α] (l : List α) : (pdUnique l).Nodup := by
  unfold pdUnique
  rw [List.nodup_reverse]
  exact List.nodup_dedup _

/-- the values come in the order of their first appearance -/
theorem pdUnique_order {α : Type} [DecidableEq α] (l : List α) : (pdUnique l).Pairwise (fun a b => l.idxOf a < l.idxOf b) := by
  induction l using List.reverseRecOn with
  | nil => exact .nil
  | append_singleton l a ih =>
    have hm : ∀ x ∈ pdUnique l, x ∈ l := fun x hx => by simpa [pdUnique] using hx
    have h1 : (pdUnique l).Pairwise (fun x y => (l ++ [a]).idxOf x < (l ++ [a]).idxOf y) := by
      refine ih.imp_of_mem (fun {x y} hx hy h => ?_)
      rw [List.idxOf_append_of_mem (hm x hx), List.idxOf_append_of_mem (hm y hy)]
      exact h
    rw [pdUnique_snoc]
    split
    · exact h1
    · rename_i ha
      rw [List.pairwise_append]
      refine ⟨h1, List.pairwise_singleton _ _, fun x hx y hy => ?_⟩
      rw [List.mem_singleton] at hy
      subst hy
      rw [List.idxOf_append_of_mem (hm x hx), List.idxOf_append_of_notMem ha]
      have := List.idxOf_lt_length_iff.2 (hm x hx)
      omega

theorem pdUnique_byAppearance {α : Type} [DecidableEq α] (l : List α) : Spec.ByAppearance l (pdUnique l) :=
  ⟨pdUnique_nodup l, mem_pdUnique l, pdUnique_order l⟩

/-- `membership` of a list of variables without gaps. -/
theorem membershipOpt_some (rows : List (List (Cell K))) (vs : List (FVar K)) (hR : Rectangular rows) :
    membershipOpt rows (vs.map some) = datasetMembership rows vs := by
  unfold membershipOpt
  have h1 : checkArray rows = .ok () := by
    obtain ⟨n, hn, hne, hr⟩ := hR
    cases rows with
    | nil => exact absurd rfl hne
    | cons r rs =>
      unfold checkArray
      simp only
      rw [if_neg]
      rintro (h | ⟨r', hr', h⟩)
      · have := hr r (by simp); omega
      · exact h (by rw [hr r' (by simp [hr']), hr r (by simp)])
  have h2 : (vs.map some).idxOf? none = none := by
    rw [List.idxOf?_eq_none_iff]
    simp
  rw [h1, h2]
  simp [List.filterMap_map]

/-- a column that exists in every row. -/
theorem Frame.col_ok (X : Frame K) (c : String) (hc : c ∈ X.cols) (hrows : ∀ r ∈ X.rows, r.length = X.cols.length) :
    ∃ v, X.col c = .ok v ∧ List.Forall₂ (fun r x => r[X.cols.idxOf c]? = some x) X.rows v := by
  have hlt := List.idxOf_lt_length_iff.2 hc
  obtain ⟨v, hv⟩ := forall₂_of_forall_exists (fun (r : List (Cell K)) x => r[X.cols.idxOf c]? = some x) X.rows
    (fun r hr => ⟨_, List.getElem?_eq_getElem (by rw [hrows r hr]; exact hlt)⟩)
  refine ⟨v, ?_, hv⟩
  unfold Frame.col Frame.colIdx
  rw [if_pos hc]
  exact (column_eq_ok_iff _ _ _).2 hv

theorem numCells_map (l : List K) : numCells (l.map Cell.num) = .ok l := by
  unfold numCells
  rw [mapM_ok_of_forall (g := fun c => match c with | .num x => x | .str _ => 0)]
  · simp [Function.comp_def]
  · intro a ha
    obtain ⟨x, -, rfl⟩ := List.mem_map.1 ha
    rfl

/-- a column of numbers. -/
theorem Frame.numCol_ok (X : Frame K) (c : String) (hc : c ∈ X.cols) (hrows : ∀ r ∈ X.rows, r.length = X.cols.length)
    (hnum : ∀ row ∈ X.rows, ∃ x, row[X.cols.idxOf c]? = some (.num x)) :
    ∃ v, X.numCol c = .ok v ∧ List.Forall₂ (fun r x => r[X.cols.idxOf c]? = some (Cell.num x)) X.rows v := by
  obtain ⟨v, hv⟩ := forall₂_of_forall_exists (fun (r : List (Cell K)) x => r[X.cols.idxOf c]? = some (Cell.num x)) X.rows hnum
  refine ⟨v, ?_, hv⟩
  obtain ⟨w, hw, hf⟩ := X.col_ok c hc hrows
  have : w = v.map .num := by
    clear hw
    generalize X.rows = rows at hf hv
    induction hf generalizing v with
    | nil => cases hv; rfl
    | cons h _ ih =>
      cases hv with
      | cons h' hv =>
        rw [h, Option.some.injEq] at h'
        rw [List.map_cons, ih _ hv, h']
  unfold Frame.numCol
  rw [hw, this]
  exact numCells_map v

/-- the peaks that the arguments give to a numeric column: the different values when the column is (nearly) constant, and the
answer of the discretizer otherwise. -/
def Spec.PeaksOf (cx : FuzzCtx K) (d : Nat → Option K → List K → List Nat → Py (List K)) (a : FuzzArgs K) (y : List Nat)
    (v pts : List K) : Prop :=
  (cx.std v < 1 / 100000 ∧ pts.Pairwise (· < ·) ∧ ∀ x, x ∈ pts ↔ x ∈ v) ∨
  (¬ cx.std v < 1 / 100000 ∧ d (a.sets.getD 0) a.th v y = .ok pts)

/-- the sets are triangles with the peaks `pts`, each from the previous peak to the next one; a single peak is a point set. -/
def Spec.Triangles (sets : List (FSet K)) (pts : List K) : Prop :=
  sets.length = pts.length ∧ ∀ (i : Nat) x, pts[i]? = some x → ∃ s : CSet K, sets[i]? = some (.cont s) ∧ s.b = x ∧
    s.a = (if i = 0 then x else (pts[i-1]?).getD x) ∧ s.c = (pts[i+1]?).getD x ∧ s.pointSet = decide (pts.length = 1)

/-- C93: the sets that `fuzzify` gives to a numeric column are a partition: triangles over increasing peaks: for every number the degrees add up to 1 between the first and the last peak, and are all 0
outside. -/
theorem C93_partition {sets : List (FSet K)} {pts : List K} (h : Spec.Triangles sets pts) (hinc : pts.Pairwise (· < ·))
    (lo hi : K) (hlo : pts.head? = some lo) (hhi : pts.getLast? = some hi) (x : K) :
    ∃ ms, List.Forall₂ (fun (s : FSet K) m => s.membership [.num x] = .ok [m]) sets ms ∧ (lo ≤ x → x ≤ hi → ms.sum = 1) ∧
      (x < lo ∨ hi < x → ∀ m ∈ ms, m = 0) := by
  have hne : pts ≠ [] := by rintro rfl; cases hlo
  obtain ⟨v, hv, -, hl, hsh⟩ := continuousVar_spec (K := K) (fun _ => "") none ("", pts) hne (by intro ls h; simp at h)
  simp only at hl hsh
  -- the same degrees for every number
  have hsame : List.Forall₂ (fun s s' : FSet K => s.membership [.num x] = s'.membership [.num x]) sets v.sets := by
    rw [List.forall₂_iff_get]
    refine ⟨h.1.trans hl.symm, ?_⟩
    intro i h1 h2
    simp only [List.get_eq_getElem]
    have hi : i < pts.length := by rw [← h.1]; exact h1
    obtain ⟨s, s1, s2, s3, s4, s5⟩ := h.2 i _ (List.getElem?_eq_getElem hi)
    obtain ⟨s', t1, -, t2, t3, t4, t5⟩ := hsh i _ (List.getElem?_eq_getElem hi)
    rw [List.getElem?_eq_getElem h1, Option.some.injEq] at s1
    rw [List.getElem?_eq_getElem h2, Option.some.injEq] at t1
    rw [s1, t1]
    obtain ⟨n, a, b, c, q⟩ := s
    obtain ⟨n', a', b', c', q'⟩ := s'
    simp only at s2 s3 s4 s5 t2 t3 t4 t5
    subst s2 s3 s4 s5 t2 t3 t4 t5
    rfl
  suffices hmain : ∃ ms, List.Forall₂ (fun (s : FSet K) m => s.membership [.num x] = .ok [m]) v.sets ms ∧ (lo ≤ x → x ≤ hi → ms.sum = 1) ∧
      (x < lo ∨ hi < x → ∀ m ∈ ms, m = 0) by
    obtain ⟨ms, h1, h2⟩ := hmain
    exact ⟨ms, forall₂_comp hsame h1 (fun _ _ _ h1 h2 => h1.trans h2), h2⟩
  unfold continuousVar at hv
  simp only at hv
  rw [py_bind_eq_ok] at hv
  obtain ⟨S, hS, hv⟩ := hv
  cases hv
  simp only
  rw [show colLabels (fun _ : K => "") none "" pts = pts.map (fun _ => "") by simp [colLabels]] at hS
  match pts, hne, hS, hinc, hlo, hhi with
  | [a], _, hS, _, hlo, hhi =>
    obtain ⟨s, k1, -, k2⟩ := (C02_single_peak ("", a)).1
    simp only [List.map_cons, List.map_nil, List.zip_cons_cons, List.zip_nil_left] at hS
    rw [k1] at hS
    cases hS
    simp only [List.head?_cons, Option.some.injEq, List.getLast?_singleton] at hlo hhi
    subst hlo hhi
    refine ⟨[if x = a then 1 else 0], .cons (k2 x) .nil, ?_, ?_⟩
    · intro h1 h2
      simp [le_antisymm h2 h1]
    · intro h1 m hm
      have : x ≠ a := by rcases h1 with h1 | h1 <;> [exact h1.ne; exact h1.ne']
      simpa [this] using hm
  | a :: b :: rest, _, hS, hinc, hlo, hhi =>
    have hz : ((a :: b :: rest).map (fun _ => "")).zip (a :: b :: rest) = ("", a) :: ("", b) :: rest.map (fun r => ("", r)) := by
      have hz' : ∀ l : List K, (l.map (fun _ => "")).zip l = l.map (fun r => ("", r)) := by
        intro l
        induction l with
        | nil => rfl
        | cons r l ih => simp only [List.map_cons, List.zip_cons_cons, ih]
      exact hz' (a :: b :: rest)
    rw [hz] at hS
    have hm2 : (("", a) :: ("", b) :: rest.map (fun r => ("", r))).map Prod.snd = a :: b :: rest := by
      simp [Function.comp_def]
    simp only [List.head?_cons, Option.some.injEq] at hlo
    subst hlo
    obtain ⟨sets', k1, -, k2⟩ := C02_strong_partition true ("", a) ("", b) (rest.map (fun r => ("", r))) ("", hi) (by
      have : (("", a) :: ("", b) :: rest.map (fun r : K => ("", r))) = (a :: b :: rest).map (fun r => ("", r)) := by simp
      rw [this, List.getLast?_map, hhi]; rfl) (by rw [hm2]; exact hinc)
    rw [k1] at hS
    cases hS
    obtain ⟨ms, h3, h4, h5⟩ := k2 x
    rw [mapM_ok_iff, List.forall₂_map_right_iff] at h3
    exact ⟨ms, by rw [List.forall₂_map_left_iff]; exact h3, h4, h5⟩

/-- the variables that `fuzzify` computes for a table. -/
theorem fuzzyVarsOf_ok (cx : FuzzCtx K) (a : FuzzArgs K) (X : Frame K) (y : List Nat) (nums cats : List String)
    (d : Nat → Option K → List K → List Nat → Py (List K))
    (hcols : X.cols.Nodup) (hrne : X.rows ≠ []) (hrows : ∀ r ∈ X.rows, r.length = X.cols.length)
    (hn : a.numCols = some nums) (hc : a.catCols = some cats) (hne : nums ≠ []) (hperm : (nums ++ cats).Perm X.cols)
    (hverb : a.verbose = false) (hsets : (a.division = "equal_width" ∨ a.division = "equal_freq") → a.sets ≠ none)
    (hy : y.length = X.rows.length) (hdisc : cx.disc a.division = some d)
    (hnum : ∀ c ∈ nums, ∀ row ∈ X.rows, ∃ x, row[X.cols.idxOf c]? = some (.num x))
    (hd : ∀ c ∈ nums, ∀ v : List K, X.rows.map (fun r => r[X.cols.idxOf c]?) = v.map (fun x => some (Cell.num x)) → ¬ cx.std v < 1 / 100000 →
      ∃ pts, d (a.sets.getD 0) a.th v y = .ok pts ∧ pts ≠ [] ∧ pts.Pairwise (· ≤ ·)) :
    ∃ vs : List (FVar K), fuzzyVarsOf cx a X y = .ok (vs.map some) ∧ vs.map FVar.name = X.cols ∧
      (∀ c ∈ nums, ∃ v ∈ vs, ∃ col pts, v.name = c ∧ X.numCol c = .ok col ∧ Spec.PeaksOf cx d a y col pts ∧
        v.sets.map (fun s => match s with | .cont s => some s.b | .disc _ => none) = pts.map some ∧ v.sets.map FSet.name = pts.map cx.fmtK ∧
        (∀ s ∈ v.sets, s.Evaluable) ∧ Spec.Triangles v.sets pts) ∧
      (∀ c ∈ cats, ∃ v ∈ vs, ∃ col, v.name = c ∧ X.col c = .ok col ∧
        v.sets.map (fun s => match s with | .disc s => some s.value | .cont _ => none) = (pdUnique col).map some ∧
        v.sets.map FSet.name = (pdUnique col).map cx.fmtC) := by
  have hmem : ∀ c, c ∈ nums ∨ c ∈ cats ↔ c ∈ X.cols := by
    intro c; rw [← hperm.mem_iff, List.mem_append]
  -- the numeric columns
  have hnumcol : ∀ c ∈ nums, ∃ p : String × List K, p.1 = c ∧ X.numCol c = .ok p.2 ∧
      List.Forall₂ (fun r x => r[X.cols.idxOf c]? = some (Cell.num x)) X.rows p.2 := by
    intro c hc'
    obtain ⟨v, h1, h2⟩ := X.numCol_ok c ((hmem c).1 (.inl hc')) hrows (hnum c hc')
    exact ⟨(c, v), rfl, h1, h2⟩
  obtain ⟨num, hnumf⟩ := forall₂_of_forall_exists _ nums hnumcol
  have hnum1 : nums.mapM (fun c => do let v ← X.numCol c; pure (c, v)) = .ok num := by
    rw [mapM_ok_iff]
    refine hnumf.imp ?_
    rintro c ⟨c', v⟩ ⟨rfl, h, -⟩
    simp only
    rw [h]; rfl
  have hnumfst : num.map Prod.fst = nums := by
    rw [forall₂_map_eq (f := id) (g := Prod.fst) hnumf (fun c p h => h.1), List.map_id]
  -- the peaks
  have hpts : ∀ p ∈ num, ∃ q : String × List K, fuzzyPointsOf cx d a y p = .ok q ∧ q.1 = p.1 ∧ q.2 ≠ [] ∧ q.2.Pairwise (· ≤ ·) ∧
      Spec.PeaksOf cx d a y p.2 q.2 := by
    intro p hp
    obtain ⟨c, hcn, h1, h2, h3⟩ := forall₂_mem_right hnumf p hp
    have hlen := h3.length_eq
    by_cases hs : cx.std p.2 < 1 / 100000
    · refine ⟨(p.1, npUnique p.2), by unfold fuzzyPointsOf; rw [if_pos hs], rfl, ?_, ?_, .inl ⟨hs, npUnique_pairwise _, fun x => mem_npUnique _ _⟩⟩
      · rw [ne_eq, npUnique_eq_nil]
        intro h
        rw [h, List.length_nil, List.length_eq_zero_iff] at hlen
        exact hrne hlen
      · exact (npUnique_pairwise p.2).imp le_of_lt
    · obtain ⟨pts, k1, k2, k3⟩ := hd c hcn p.2 (forall₂_map_eq (f := fun r => r[X.cols.idxOf c]?) (g := fun x => some (Cell.num x)) h3
        (fun r x h => h.symm)).symm hs
      refine ⟨(p.1, pts), ?_, rfl, k2, k3, .inr ⟨hs, k1⟩⟩
      unfold fuzzyPointsOf
      rw [if_neg hs, k1]; rfl
  obtain ⟨ps, hpsf⟩ := forall₂_of_forall_exists _ num hpts
  have hps1 : num.mapM (fuzzyPointsOf cx d a y) = .ok ps := (mapM_ok_iff _ _ _).2 (hpsf.imp (fun _ _ h => h.1))
  have hpsfst : ps.map Prod.fst = nums := by
    rw [← hnumfst]
    exact forall₂_map_eq (f := Prod.fst) (g := Prod.fst) hpsf (fun _ _ h => h.2.1)
  -- the categorical columns
  have hcat : ∀ c ∈ cats, ∃ p : String × List (Cell K), p.1 = c ∧ ∃ col, X.col c = .ok col ∧ p.2 = pdUnique col := by
    intro c hc'
    obtain ⟨v, h1, -⟩ := X.col_ok c ((hmem c).1 (.inr hc')) hrows
    exact ⟨(c, pdUnique v), rfl, v, h1, rfl⟩
  obtain ⟨vals, hvalsf⟩ := forall₂_of_forall_exists _ cats hcat
  have hvals1 : cats.mapM (fun c => do let v ← X.col c; pure (c, pdUnique v)) = .ok vals := by
    rw [mapM_ok_iff]
    refine hvalsf.imp ?_
    rintro c ⟨c', v⟩ ⟨rfl, col, h, rfl⟩
    simp only
    rw [h]; rfl
  have hvalsfst : vals.map Prod.fst = cats := by
    rw [forall₂_map_eq (f := id) (g := Prod.fst) hvalsf (fun c p h => h.1), List.map_id]
  have hnd : (nums ++ cats).Nodup := hperm.nodup_iff.2 hcols
  have hpsd : Dict.ofPairs ps = ps := Dict.ofPairs_eq_self ps (by rw [hpsfst]; exact (List.nodup_append.1 hnd).1)
  have hvalsd : Dict.ofPairs vals = vals := Dict.ofPairs_eq_self vals (by rw [hvalsfst]; exact (List.nodup_append.1 hnd).2.1)
  have hkeys : Dict.keys X.cols.zipIdx = X.cols := by simp [Dict.keys, List.zipIdx_map_fst]
  have hsnd : X.cols.zipIdx.map Prod.snd = List.range X.cols.zipIdx.length := by
    rw [List.zipIdx_map_snd, List.range'_eq_map_range]; simp
  obtain ⟨r, hr, hrlen, hrnone, hrc, hrd⟩ := C10_positions cx.fmtK cx.fmtC ps vals X.cols.zipIdx none none
    (by simpa [Dict.keys, hpsfst, hvalsfst] using hnd) (by rw [hkeys]; simpa [Dict.keys, hpsfst, hvalsfst] using hperm.symm)
    (by rw [hsnd]) (by
      intro p hp
      obtain ⟨q, -, h⟩ := forall₂_mem_right hpsf p hp
      exact h.2.2.1) (by intro p _ ls h; simp at h) (by intro p _ ls h; simp at h)
  have hrr : r = (r.filterMap id).map some := by
    clear hr hrlen hrc hrd
    induction r with
    | nil => rfl
    | cons v r ih =>
      cases v with
      | none => exact absurd rfl (hrnone none (by simp))
      | some v =>
        have := ih (fun w hw => hrnone w (by simp [hw]))
        exact congrArg (some v :: ·) this
  generalize hvs : r.filterMap id = vs at hrr
  have hord : ∀ c ∈ X.cols, ∀ p, Dict.get? X.cols.zipIdx c = some p → X.cols[p]? = some c := by
    intro c _ p hp
    have := Dict.mem_of_get? hp
    rw [List.mem_zipIdx_iff_getElem?] at this
    exact this
  have hall : ∀ c ∈ X.cols, ∃ (p : Nat) (v : FVar K), X.cols[p]? = some c ∧ vs[p]? = some v ∧ v.name = c := by
    intro c hcX
    rcases (hmem c).2 hcX with h | h
    · rw [← hpsfst] at h
      obtain ⟨p, hp, rfl⟩ := List.mem_map.1 h
      obtain ⟨pos, v, h1, h2, h3, -⟩ := hrc p hp
      refine ⟨pos, v, hord _ hcX _ h1, ?_, h3⟩
      rw [hrr, List.getElem?_map] at h2
      simpa using h2
    · rw [← hvalsfst] at h
      obtain ⟨p, hp, rfl⟩ := List.mem_map.1 h
      obtain ⟨pos, v, h1, h2, h3, -⟩ := hrd p hp
      refine ⟨pos, v, hord _ hcX _ h1, ?_, h3⟩
      rw [hrr, List.getElem?_map] at h2
      simpa using h2
  have hvslen : vs.length = X.cols.length := by
    have := hrlen
    rw [hrr] at this
    simpa using this
  refine ⟨vs, ?_, ?_, ?_, ?_⟩
  · unfold fuzzyVarsOf
    rw [if_neg (by rintro ⟨h1, h2⟩; exact hsets h1 h2), hn, hc]
    simp only [hnum1, py_bind_ok]
    have hg : getFuzzyPoints cx a num X.rows.length y = .ok ps := by
      unfold getFuzzyPoints
      rw [hverb, if_neg (by simp), if_neg]
      · rw [hdisc]
        simp only [hps1, py_bind_ok, hpsd]
        rfl
      · rintro (h | h | h)
        · rw [h] at hnumfst; exact hne hnumfst.symm
        · rw [List.length_eq_zero_iff] at h; exact hrne h
        · exact h hy
    rw [hg, hvals1]
    simp only [py_bind_ok, hvalsd]
    rw [hr, ← hrr]
  · apply List.ext_getElem?
    intro i
    by_cases hi : i < X.cols.length
    · have hci := List.getElem?_eq_getElem hi
      obtain ⟨p, v, h1, h2, h3⟩ := hall _ (List.getElem_mem hi)
      have : p = i := by
        obtain ⟨hp, h1⟩ := List.getElem?_eq_some_iff.1 h1
        exact (List.Nodup.getElem_inj_iff hcols).1 h1
      subst this
      rw [List.getElem?_map, h2, hci, Option.map_some, h3]
    · rw [List.getElem?_eq_none (by rw [List.length_map, hvslen]; omega), List.getElem?_eq_none (by omega)]
  · intro c hcn
    have h := hcn
    rw [← hpsfst] at h
    obtain ⟨q, hq, rfl⟩ := List.mem_map.1 h
    obtain ⟨p, hp, -, hq1, hq2, hq3, hpk⟩ := forall₂_mem_right hpsf q hq
    obtain ⟨c', -, hc1, hc2, -⟩ := forall₂_mem_right hnumf p hp
    obtain ⟨pos, v, h1, h2, h3, h4, h5⟩ := hrc q hq
    rw [hrr, List.getElem?_map] at h2
    have hv : v ∈ vs := List.mem_of_getElem? (by simpa using h2)
    refine ⟨v, hv, p.2, q.2, h3, by rw [hq1, hc1]; exact hc2, hpk, ?_, ?_, ?_, ?_⟩
    · apply List.ext_getElem?
      intro i
      by_cases hi : i < q.2.length
      · obtain ⟨s, s1, -, s2, -⟩ := h5 i q.2[i] (List.getElem?_eq_getElem hi)
        rw [List.getElem?_map, s1, List.getElem?_map, List.getElem?_eq_getElem hi]
        simp [s2]
      · rw [List.getElem?_eq_none (by rw [List.length_map, h4]; omega), List.getElem?_eq_none (by rw [List.length_map]; omega)]
    · apply List.ext_getElem?
      intro i
      by_cases hi : i < q.2.length
      · obtain ⟨s, s1, s2, -⟩ := h5 i q.2[i] (List.getElem?_eq_getElem hi)
        rw [List.getElem?_map, s1, List.getElem?_map, List.getElem?_eq_getElem hi]
        exact congrArg some s2
      · rw [List.getElem?_eq_none (by rw [List.length_map, h4]; omega), List.getElem?_eq_none (by rw [List.length_map]; omega)]
    · intro s hs
      obtain ⟨i, hi⟩ := List.mem_iff_getElem?.1 hs
      have hlt : i < q.2.length := by rw [← h4]; exact (List.getElem?_eq_some_iff.1 hi).1
      obtain ⟨s', s1, -, s2, s3, s4, -⟩ := h5 i q.2[i] (List.getElem?_eq_getElem hlt)
      rw [hi, Option.some.injEq] at s1
      subst s1
      show s'.a ≤ s'.b ∧ s'.b ≤ s'.c
      rw [s2, s3, s4]
      have hmono := List.pairwise_iff_getElem.1 hq3
      constructor
      · split
        · exact le_refl _
        · rename_i h0
          rw [List.getElem?_eq_getElem (show i - 1 < q.2.length by omega), Option.getD_some]
          exact hmono _ _ _ _ (by omega)
      · by_cases hi' : i + 1 < q.2.length
        · rw [List.getElem?_eq_getElem hi', Option.getD_some]
          exact hmono _ _ _ _ (by omega)
        · rw [List.getElem?_eq_none (by omega), Option.getD_none]
    · refine ⟨h4, fun i x hx => ?_⟩
      obtain ⟨s, s1, -, s2⟩ := h5 i x hx
      exact ⟨s, s1, s2⟩
  · intro c hcn
    have h := hcn
    rw [← hvalsfst] at h
    obtain ⟨q, hq, rfl⟩ := List.mem_map.1 h
    obtain ⟨c', -, hc1, col, hc2, hc3⟩ := forall₂_mem_right hvalsf q hq
    obtain ⟨pos, v, h1, h2, h3, h4, h5⟩ := hrd q hq
    rw [hrr, List.getElem?_map] at h2
    have hv : v ∈ vs := List.mem_of_getElem? (by simpa using h2)
    refine ⟨v, hv, col, h3, by rw [hc1]; exact hc2, ?_, ?_⟩
    · rw [← hc3]
      apply List.ext_getElem?
      intro i
      by_cases hi : i < q.2.length
      · obtain ⟨s, s1, -, s2⟩ := h5 i q.2[i] (List.getElem?_eq_getElem hi)
        rw [List.getElem?_map, s1, List.getElem?_map, List.getElem?_eq_getElem hi]
        simp [s2]
      · rw [List.getElem?_eq_none (by rw [List.length_map, h4]; omega), List.getElem?_eq_none (by rw [List.length_map]; omega)]
    · rw [← hc3]
      apply List.ext_getElem?
      intro i
      by_cases hi : i < q.2.length
      · obtain ⟨s, s1, s2, -⟩ := h5 i q.2[i] (List.getElem?_eq_getElem hi)
        rw [List.getElem?_map, s1, List.getElem?_map, List.getElem?_eq_getElem hi]
        exact congrArg some s2
      · rw [List.getElem?_eq_none (by rw [List.length_map, h4]; omega), List.getElem?_eq_none (by rw [List.length_map]; omega)]

/-- a set that can be evaluated has a degree on every number. -/
theorem FSet.membership_num (s : FSet K) (h : s.Evaluable) (x : K) : ∃ m, s.membership [.num x] = .ok [m] := by
  cases s with
  | cont s => exact ⟨_, CSet.membership_nums h [x]⟩
  | disc s => exact ⟨_, rfl⟩

/-- the form of `C93_fuzzify` that the proofs use: with `pdUnique` for the values of a column. -/
theorem fuzzify_ok (cx : FuzzCtx K) (inst : List (Cell K)) (a : FuzzArgs K) (s : NState K) (X Xy : Frame K) (y : List Nat)
    (dec : List (Cell K)) (nums cats : List String) (d : Nat → Option K → List K → List Nat → Py (List K))
    (hX : s.X = some X) (hsy : s.y = some y) (hXy : s.Xy = some Xy) (hdec : s.decodedInst = some dec)
    (hcols : X.cols.Nodup) (hrne : X.rows ≠ []) (hrows : ∀ r ∈ dec :: X.rows, r.length = X.cols.length)
    (hn : a.numCols = some nums) (hc : a.catCols = some cats) (hne : nums ≠ []) (hperm : (nums ++ cats).Perm X.cols)
    (hverb : a.verbose = false) (himem : a.instanceMembership = none)
    (hsets : (a.division = "equal_width" ∨ a.division = "equal_freq") → a.sets ≠ none)
    (hy : y.length = X.rows.length) (hdisc : cx.disc a.division = some d)
    (hnum : ∀ c ∈ nums, ∀ row ∈ dec :: X.rows, ∃ x, row[X.cols.idxOf c]? = some (.num x))
    (hd : ∀ c ∈ nums, ∀ v : List K, X.rows.map (fun r => r[X.cols.idxOf c]?) = v.map (fun x => some (Cell.num x)) → ¬ cx.std v < 1 / 100000 →
      ∃ pts, d (a.sets.getD 0) a.th v y = .ok pts ∧ pts ≠ [] ∧ pts.Pairwise (· ≤ ·)) :
    ∃ (vs : List (FVar K)) (m im : Memb K), samplingFuzzify cx inst a s = (.ok (), { s with vars := some (vs.map some), Xmem := some m, instMem := some im }) ∧
      vs.map FVar.name = X.cols ∧ Dict.keys m = X.cols ∧ Dict.keys im = X.cols ∧
      (∀ c ∈ nums, ∃ v ∈ vs, ∃ col pts, v.name = c ∧ X.numCol c = .ok col ∧ Spec.PeaksOf cx d a y col pts ∧
        v.sets.map (fun s => match s with | .cont s => some s.b | .disc _ => none) = pts.map some ∧ v.sets.map FSet.name = pts.map cx.fmtK ∧
        (∀ s ∈ v.sets, s.Evaluable) ∧ Spec.Triangles v.sets pts) ∧
      (∀ c ∈ cats, ∃ v ∈ vs, ∃ col, v.name = c ∧ X.col c = .ok col ∧
        v.sets.map (fun s => match s with | .disc s => some s.value | .cont _ => none) = (pdUnique col).map some ∧
        v.sets.map FSet.name = (pdUnique col).map cx.fmtC) ∧
      datasetMembership X.rows vs = .ok m ∧ datasetMembership [dec] vs = .ok im ∧
      (∀ row ∈ dec :: X.rows, ∀ (i : Nat) v, vs[i]? = some v → ∃ x, row[i]? = some x ∧ ∀ st ∈ v.sets, ∃ m, st.membership [x] = .ok [m]) := by
  obtain ⟨vs, h1, h2, h3, h4⟩ := fuzzyVarsOf_ok cx { a with instanceMembership := some false } X y nums cats d hcols hrne
    (fun r hr => hrows r (by simp [hr])) hn hc hne hperm hverb hsets hy hdisc (fun c hc' row hr => hnum c hc' row (by simp [hr])) hd
  have hpos : 0 < X.cols.length := by
    cases nums with
    | nil => exact absurd rfl hne
    | cons c nums => exact List.length_pos_of_mem (hperm.mem_iff.1 (List.mem_append_left _ (List.mem_cons_self)))
  have hwt : ∀ row ∈ dec :: X.rows, ∀ (i : Nat) v, vs[i]? = some v → ∃ x, row[i]? = some x ∧ ∀ st ∈ v.sets, ∃ m, st.membership [x] = .ok [m] := by
    intro row hrow i v hv
    have hi : i < X.cols.length := by
      rw [← h2, List.length_map]; exact (List.getElem?_eq_some_iff.1 hv).1
    have hname : X.cols[i]? = some v.name := by rw [← h2, List.getElem?_map, hv]; rfl
    have hidx : X.cols.idxOf v.name = i := by
      obtain ⟨h, h'⟩ := List.getElem?_eq_some_iff.1 hname
      rw [← h']; exact List.Nodup.idxOf_getElem hcols i h
    have hvn : ∀ w ∈ vs, w.name = v.name → w = v := by
      intro w hw hwn
      exact List.inj_on_of_nodup_map (by rw [h2]; exact hcols) hw (List.mem_of_getElem? hv) hwn
    have hlt : i < row.length := by rw [hrows row (hrow)]; exact hi
    rcases List.mem_append.1 (hperm.mem_iff.2 (List.mem_of_getElem? hname)) with hk | hk
    · obtain ⟨w, hw, col, pts, w1, -, -, -, -, w2, -⟩ := h3 _ hk
      rw [hvn w hw w1] at w2
      obtain ⟨x, hx⟩ := hnum _ hk row (hrow)
      rw [hidx] at hx
      exact ⟨_, hx, fun st hst => FSet.membership_num st (w2 st hst) x⟩
    · obtain ⟨w, hw, col, w1, -, w2, -⟩ := h4 _ hk
      rw [hvn w hw w1] at w2
      refine ⟨_, List.getElem?_eq_getElem hlt, fun st hst => ?_⟩
      cases st with
      | disc st => exact ⟨_, rfl⟩
      | cont st =>
        have : (none : Option (Cell K)) ∈ v.sets.map (fun s => match s with | .disc s => some s.value | .cont _ => none) :=
          List.mem_map.2 ⟨_, hst, rfl⟩
        rw [w2] at this
        simp at this
  have hmem : ∀ rows : List (List (Cell K)), rows ≠ [] → (∀ r ∈ rows, r ∈ dec :: X.rows) → ∃ m, membershipOpt rows (vs.map some) = .ok m ∧
      Dict.keys m = X.cols ∧ datasetMembership rows vs = .ok m := by
    intro rows hrn hsub
    have hR : Rectangular rows := ⟨_, hpos, hrn, fun r hr => hrows r (hsub r hr)⟩
    have hex : ∃ m, datasetMembership rows vs = .ok m := C11_succeeds rows vs hR (fun i v hv row hrow => hwt row (hsub row hrow) i v hv)
    obtain ⟨m, hm⟩ := hex
    refine ⟨m, by rw [membershipOpt_some _ _ hR, hm], ?_, hm⟩
    rw [(datasetMembership_eq rows vs).1 hR] at hm
    have := (datasetMembershipFrom_ok rows vs 0 [] m (by rw [h2]; simpa [Dict.keys] using hcols) hm).1
    rw [this, h2]; simp [Dict.keys]
  obtain ⟨m, hm, hmk, hm'⟩ := hmem X.rows hrne (fun r hr => by simp [hr])
  obtain ⟨im, him, himk, him'⟩ := hmem [dec] (by simp) (fun r hr => by simp only [List.mem_singleton] at hr; simp [hr])
  refine ⟨vs, m, im, ?_, h2, hmk, himk, h3, h4, hm', him', hwt⟩
  unfold samplingFuzzify fuzzify
  rw [if_neg (by rw [himem]; simp)]
  simp only [hX, hsy, hXy, h1, hm, Option.getD_some, Bool.false_eq_true, if_false, hdec, him]

/-- C93: `fuzzify` of a fitted sampling neighborhood succeeds whenever the numeric and the categorical columns named are exactly the
columns of the data, at least one is numeric, the numeric columns (and the decoded instance there) are numbers and the discretizer
answers on them with a non-empty non-decreasing list. Then there is one fuzzy variable per column, in the order of the columns: the
numeric ones with one triangular set per peak (named after it, from the previous to the next peak), the categorical ones with one set per different value of the column, in the order of their first appearance (named after it);
both memberships are those of the data and of the decoded instance and have
exactly the columns as keys. -/
theorem C93_fuzzify (cx : FuzzCtx K) (inst : List (Cell K)) (a : FuzzArgs K) (s : NState K) (X Xy : Frame K) (y : List Nat)
    (dec : List (Cell K)) (nums cats : List String) (d : Nat → Option K → List K → List Nat → Py (List K))
    (hX : s.X = some X) (hsy : s.y = some y) (hXy : s.Xy = some Xy) (hdec : s.decodedInst = some dec)
    (hcols : X.cols.Nodup) (hrne : X.rows ≠ []) (hrows : ∀ r ∈ dec :: X.rows, r.length = X.cols.length)
    (hn : a.numCols = some nums) (hc : a.catCols = some cats) (hne : nums ≠ []) (hperm : (nums ++ cats).Perm X.cols)
    (hverb : a.verbose = false) (himem : a.instanceMembership = none)
    (hsets : (a.division = "equal_width" ∨ a.division = "equal_freq") → a.sets ≠ none)
    (hy : y.length = X.rows.length) (hdisc : cx.disc a.division = some d)
    (hnum : ∀ c ∈ nums, ∀ row ∈ dec :: X.rows, ∃ x, row[X.cols.idxOf c]? = some (.num x))
    (hd : ∀ c ∈ nums, ∀ v : List K, X.rows.map (fun r => r[X.cols.idxOf c]?) = v.map (fun x => some (Cell.num x)) → ¬ cx.std v < 1 / 100000 →
      ∃ pts, d (a.sets.getD 0) a.th v y = .ok pts ∧ pts ≠ [] ∧ pts.Pairwise (· ≤ ·)) :
    ∃ (vs : List (FVar K)) (m im : Memb K), samplingFuzzify cx inst a s = (.ok (), { s with vars := some (vs.map some), Xmem := some m, instMem := some im }) ∧
      vs.map FVar.name = X.cols ∧ Dict.keys m = X.cols ∧ Dict.keys im = X.cols ∧
      (∀ c ∈ nums, ∃ v ∈ vs, ∃ col pts, v.name = c ∧ X.numCol c = .ok col ∧ Spec.PeaksOf cx d a y col pts ∧
        v.sets.map (fun s => match s with | .cont s => some s.b | .disc _ => none) = pts.map some ∧ v.sets.map FSet.name = pts.map cx.fmtK ∧
        (∀ s ∈ v.sets, s.Evaluable) ∧ Spec.Triangles v.sets pts) ∧
      (∀ c ∈ cats, ∃ v ∈ vs, ∃ col, v.name = c ∧ X.col c = .ok col ∧ ∃ values, Spec.ByAppearance col values ∧
        v.sets.map (fun s => match s with | .disc s => some s.value | .cont _ => none) = values.map some ∧ v.sets.map FSet.name = values.map cx.fmtC) ∧
      datasetMembership X.rows vs = .ok m ∧ datasetMembership [dec] vs = .ok im ∧
      (∀ row ∈ dec :: X.rows, ∀ (i : Nat) v, vs[i]? = some v → ∃ x, row[i]? = some x ∧ ∀ st ∈ v.sets, ∃ m, st.membership [x] = .ok [m]) := by
  obtain ⟨vs, m, im, h1, h2, h3, h4, h5, h6, h7⟩ := fuzzify_ok cx inst a s X Xy y dec nums cats d hX hsy hXy hdec hcols hrne hrows hn hc hne hperm hverb himem hsets hy hdisc hnum hd
  refine ⟨vs, m, im, h1, h2, h3, h4, h5, ?_, h7⟩
  intro c hc'
  obtain ⟨v, hv, col, w1, w2, w3, w4⟩ := h6 c hc'
  exact ⟨v, hv, col, w1, w2, pdUnique col, pdUnique_byAppearance col, w3, w4⟩

/-- the hypotheses of `C93_fuzzify` about the discretizer hold for `equal_width` with at least two sets, when the standard deviation of a
constant column is zero: whatever the data. -/
theorem C93_equal_width (std : List K → K) (hstd : ∀ v : List K, (∀ a ∈ v, ∀ b ∈ v, a = b) → std v = 0) (fmt : List K → List K)
    (v : List K) (hf : ∀ lo ∈ v, Spec.GoodRounding lo fmt) (sets : Nat) (hs : 2 ≤ sets) (h : ¬ std v < 1 / 100000) :
    ∃ pts, equalWidth fmt v (sets - 1) = .ok pts ∧ pts ≠ [] ∧ pts.Pairwise (· ≤ ·) := by
  have hex : ∃ a ∈ v, ∃ b ∈ v, a ≠ b := by
    by_contra hno
    push Not at hno
    rw [hstd v hno] at h
    exact h (by positivity)
  obtain ⟨pts, lo, h1, h2, h3, -⟩ := C16_equal_width fmt v hex (sets - 1) (by omega) hf
  refine ⟨pts, h1, ?_, h3.imp le_of_lt⟩
  intro hp
  rw [hp] at h2
  simp at h2

/-- the state after `fit` meets the hypotheses: the table of `nbObj`. -/
example : ∃ X y Xy dec, (nbObj.run [nbFit1]).X = some X ∧ (nbObj.run [nbFit1]).y = some y ∧ (nbObj.run [nbFit1]).Xy = some Xy ∧
    (nbObj.run [nbFit1]).decodedInst = some dec ∧ X.cols = ["age", "sex"] ∧ (∀ r ∈ dec :: X.rows, r.length = 2) ∧
    y.length = X.rows.length ∧ (dec :: X.rows).map (fun r => r[0]?) = [some (.num 2), some (.num 1), some (.num 5), some (.num 2)] := by
  refine ⟨_, _, _, _, rfl, rfl, rfl, rfl, ?_⟩
  decide +kernel

end Teacher
