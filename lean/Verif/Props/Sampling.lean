import Verif.Model.Sampling
import Verif.Spec.Sampling
import Verif.Lemmas.Basic
import Verif.Lemmas.FDTFit
import Verif.Lemmas.Discretize
import Verif.Props.Metrics
import Mathlib.Algebra.BigOperators.Group.List.Lemmas
import Mathlib.Tactic.Linarith
import Mathlib.Tactic.FieldSimp
import Mathlib.Algebra.Order.Field.Rat

/-!
# C74, C75, C76, C92: the sampling neighborhood
-/

set_option linter.unusedSectionVars false

namespace Teacher

variable {K R : Type} [Field K] [LinearOrder K] [IsStrictOrderedRing K]

/-! ## C76: the distributions -/

theorem sum_count_filter (p : K → Bool) (col : List K) :
    (((npUnique col).filter p).map (fun x => col.count x)).sum = col.countP p := by
  have : (npUnique col).Perm col.dedup := List.perm_insertionSort _ _
  rw [((this.filter p).map _).sum_eq]
  exact List.sum_map_count_dedup_filter_eq_countP p col

theorem freqs_filter (p : K → Bool) (col : List K) :
    freqs col ((npUnique col).filter p) =
      ((npUnique col).filter p).map (fun x => (col.count x : K) / (col.countP p : K)) := by
  unfold freqs
  simp only [List.map_map]
  rw [sum_count_filter]
  rfl

theorem isDistOf_filter (ok : K → Prop) [DecidablePred ok] (col : List K) :
    IsDistOf ok col ((npUnique col).filter (fun v => ok v), freqs col ((npUnique col).filter (fun v => ok v))) := by
  refine ⟨?_, (npUnique_pairwise col).filter _, freqs_filter _ col⟩
  intro x
  simp [List.mem_filter, mem_npUnique]

theorem valsInRange_ok {inst : List K} {i : Nat} {w : K} {col vals : List K} (h : valsInRange inst i w col = .ok vals) (hne : col ≠ []) :
    ∃ x, inst[i]? = some x ∧ vals = (npUnique col).filter (fun v => x - w < v ∧ v < x + w) := by
  unfold valsInRange at h
  split at h
  · rename_i e; exact absurd ((npUnique_eq_nil col).1 e) hne
  · cases h
  · rename_i x e _
    refine ⟨x, e, ?_⟩
    rw [Except.ok.injEq] at h
    rw [← h]
    apply List.filter_congr
    intro v _
    simp only [gt_iff_lt, decide_eq_decide]
    exact and_comm

theorem colDist_ok {std : List K → K} {nr : NRange K} {inst : List K} {cont : List Nat} {col : List K} {i : Nat} {d : List K × List K}
    (h : colDist std nr inst cont (col, i) = .ok d) :
    (i ∉ cont → IsDistOf (fun _ => True) col d) ∧
    (i ∈ cont → col ≠ [] → ∃ x w, inst[i]? = some x ∧ colRange std nr col = .ok w ∧
      IsDistOf (fun v => x - w < v ∧ v < x + w) col d) := by
  unfold colDist at h
  by_cases hi : i ∈ cont
  · refine ⟨fun h' => absurd hi h', fun _ hne => ?_⟩
    simp only [hi, if_true] at h
    obtain ⟨w, hw, h⟩ := py_bind_eq_ok.1 h
    obtain ⟨vals, hv, h⟩ := py_bind_eq_ok.1 h
    simp only [py_pure, Except.ok.injEq] at h
    obtain ⟨x, hx, rfl⟩ := valsInRange_ok hv hne
    subst h
    exact ⟨x, w, hx, hw, isDistOf_filter _ col⟩
  · refine ⟨fun _ => ?_, fun h' => absurd h' hi⟩
    simp only [hi, if_false, py_pure, Except.ok.injEq] at h
    subst h
    have := isDistOf_filter (fun _ : K => True) col
    simpa using this

/-- the half-width of the interval of a column: its standard deviation, or a share `0 < f < 1` of its range. -/
def RangeOf (std : List K → K) (nr : NRange K) (col : List K) (w : K) : Prop :=
  (nr = .std ∧ w = std col) ∨
  ∃ f lo hi, nr = .float f ∧ 0 < f ∧ f < 1 ∧ lo ∈ col ∧ (∀ x ∈ col, lo ≤ x) ∧ hi ∈ col ∧ (∀ x ∈ col, x ≤ hi) ∧ w = (hi - lo) * f

theorem colRange_ok {std : List K → K} {nr : NRange K} {col : List K} {w : K} (h : colRange std nr col = .ok w) (hne : col ≠ []) :
    RangeOf std nr col w := by
  unfold colRange at h
  cases nr with
  | std => left; exact ⟨rfl, by simpa using h.symm⟩
  | other => cases h
  | float f =>
    right
    obtain ⟨hi, h1, h2, h3⟩ := npMax_ok hne
    obtain ⟨lo, h4, h5, h6⟩ := npMin_ok hne
    simp only [h1, h4, py_bind_ok, py_pure] at h
    split at h
    · rename_i hf
      exact ⟨f, lo, hi, rfl, hf.1, hf.2, h5, h6, h2, h3, by simpa using h.symm⟩
    · cases h

theorem colRange_ok_of {std : List K → K} {nr : NRange K} {col : List K} (hne : col ≠ [])
    (hnr : nr = .std ∨ ∃ f, nr = .float f ∧ 0 < f ∧ f < 1) : ∃ w, colRange std nr col = .ok w := by
  rcases hnr with rfl | ⟨f, rfl, h1, h2⟩
  · exact ⟨_, rfl⟩
  · obtain ⟨hi, h3, -, -⟩ := npMax_ok hne
    obtain ⟨lo, h4, -, -⟩ := npMin_ok hne
    exact ⟨(hi - lo) * f, by simp [colRange, h1, h2, h3, h4]⟩

/-- C76: every distribution is the distribution of the observed values of its column: all of them for a discrete column, those
strictly inside the interval around the instance for a continuous one. -/
theorem C76_distribution (std : List K → K) (nr : NRange K) (cols : List (List K)) (inst : List K) (cont : List Nat)
    (ds : List (List K × List K)) (h : probDist std nr cols inst cont = .ok ds) :
    ds.length = cols.length ∧ ∀ (i : Nat) col d, cols[i]? = some col → ds[i]? = some d →
      (i ∉ cont → IsDistOf (fun _ => True) col d) ∧
      (i ∈ cont → col ≠ [] → ∃ x w, inst[i]? = some x ∧ RangeOf std nr col w ∧ IsDistOf (fun v => x - w < v ∧ v < x + w) col d) := by
  unfold probDist at h
  rw [mapM_ok_iff] at h
  refine ⟨by simpa using h.length_eq.symm, ?_⟩
  intro i col d hc hd
  rw [List.forall₂_iff_get] at h
  obtain ⟨hlen, h⟩ := h
  obtain ⟨hi, hc⟩ := List.getElem?_eq_some_iff.1 hc
  obtain ⟨hi', hd⟩ := List.getElem?_eq_some_iff.1 hd
  have := h i (by simpa using hi) hi'
  simp only [List.get_eq_getElem, List.getElem_zipIdx, Nat.zero_add] at this
  rw [hc, hd] at this
  obtain ⟨h1, h2⟩ := colDist_ok this
  refine ⟨h1, fun hm hne => ?_⟩
  obtain ⟨x, w, hx, hw, hd⟩ := h2 hm hne
  exact ⟨x, w, hx, colRange_ok hw hne, hd⟩

theorem isDistOf_probabilities (ok : K → Prop) [DecidablePred ok] (col : List K) (d : List K × List K) (h : IsDistOf ok col d) :
    d.2.length = d.1.length ∧ (d.1 ≠ [] → d.2.sum = 1) ∧ ∀ p ∈ d.2, 0 < p ∧ p ≤ 1 := by
  obtain ⟨hv, hs, hp⟩ := h
  have hval : d.1 = (npUnique col).filter (fun v => ok v) := by
    apply List.Perm.eq_of_pairwise (le := (· < ·)) (fun a b _ _ h1 h2 => absurd h2 (lt_asymm h1)) hs ((npUnique_pairwise col).filter _)
    rw [List.perm_ext_iff_of_nodup (hs.imp (fun h => h.ne)) ((npUnique_nodup col).filter _)]
    intro a
    rw [hv]; simp [List.mem_filter, mem_npUnique]
  have hcnt : ∀ x ∈ d.1, 0 < col.count x ∧ col.count x ≤ col.countP (fun v => ok v) := by
    intro x hx
    obtain ⟨h1, h2⟩ := (hv x).1 hx
    refine ⟨List.count_pos_iff.2 h1, ?_⟩
    rw [List.count]
    apply List.countP_mono_left
    intro y _ hy
    have : y = x := by simpa using hy
    subst this; simpa using h2
  refine ⟨by rw [hp]; simp, ?_, ?_⟩
  · intro hne
    rw [hp, hval]
    have hsum := sum_count_filter (fun v => decide (ok v)) col
    obtain ⟨x, hx⟩ := List.exists_mem_of_ne_nil _ hne
    have hpos : (0 : K) < (col.countP (fun v => ok v) : K) := by
      have := hcnt x hx; exact_mod_cast lt_of_lt_of_le this.1 this.2
    have e : ∀ l : List K, (l.map (fun x => (col.count x : K) / (col.countP (fun v => ok v) : K))).sum =
        (((l.map (fun x => col.count x)).sum : Nat) : K) / (col.countP (fun v => ok v) : K) := by
      intro l
      induction l with
      | nil => simp
      | cons a l ih => simp only [List.map_cons, List.sum_cons, ih, Nat.cast_add, add_div]
    rw [e, hsum]
    exact div_self hpos.ne'
  · intro p hp'
    rw [hp] at hp'
    obtain ⟨x, hx, rfl⟩ := List.mem_map.1 hp'
    obtain ⟨h1, h2⟩ := hcnt x hx
    have hpos : (0 : K) < (col.countP (fun v => ok v) : K) := by exact_mod_cast lt_of_lt_of_le h1 h2
    refine ⟨div_pos (by exact_mod_cast h1) hpos, ?_⟩
    rw [div_le_one hpos]
    exact_mod_cast h2

/-- C76: there is one probability per value, they are positive and they add up to one unless there is no value. -/
theorem C76_probabilities (std : List K → K) (nr : NRange K) (cols : List (List K)) (hne : ∀ col ∈ cols, col ≠ []) (inst : List K)
    (cont : List Nat) (ds : List (List K × List K)) (h : probDist std nr cols inst cont = .ok ds) :
    ∀ d ∈ ds, d.2.length = d.1.length ∧ (d.1 ≠ [] → d.2.sum = 1) ∧ ∀ p ∈ d.2, 0 < p ∧ p ≤ 1 := by
  intro d hd
  obtain ⟨hlen, hall⟩ := C76_distribution std nr cols inst cont ds h
  obtain ⟨i, hi, rfl⟩ := List.mem_iff_getElem.1 hd
  have hi' : i < cols.length := by omega
  obtain ⟨h1, h2⟩ := hall i cols[i] ds[i] (by simp [hi']) (by simp [hi])
  by_cases hm : i ∈ cont
  · obtain ⟨x, w, -, -, h3⟩ := h2 hm (hne _ (List.getElem_mem _))
    exact isDistOf_probabilities _ _ _ h3
  · exact isDistOf_probabilities _ _ _ (h1 hm)

/-- C76: with a valid range and an instance with a value for every column, the distributions exist. -/
theorem C76_succeeds (std : List K → K) (nr : NRange K) (hnr : nr = .std ∨ ∃ f, nr = .float f ∧ 0 < f ∧ f < 1) (cols : List (List K))
    (hne : ∀ col ∈ cols, col ≠ []) (inst : List K) (hi : cols.length ≤ inst.length) (cont : List Nat) :
    ∃ ds, probDist std nr cols inst cont = .ok ds := by
  have : ∀ p ∈ cols.zipIdx, ∃ d, colDist std nr inst cont p = .ok d := by
    rintro ⟨col, i⟩ hp
    rw [List.mk_mem_zipIdx_iff_getElem?] at hp
    have hlt := (List.getElem?_eq_some_iff.1 hp).1
    have hcol : col ≠ [] := hne _ (List.mem_of_getElem? hp)
    unfold colDist
    by_cases hm : i ∈ cont
    · obtain ⟨w, hw⟩ := colRange_ok_of (std := std) hcol hnr
      simp only [hm, if_true, hw, py_bind_ok]
      unfold valsInRange
      have : inst[i]? = some inst[i] := by simp [lt_of_lt_of_le hlt hi]
      rw [this]
      split
      · exact ⟨_, rfl⟩
      · rename_i h _; cases h
      · exact ⟨_, rfl⟩
    · simp only [hm, if_false]; exact ⟨_, rfl⟩
  obtain ⟨ds, h⟩ := forall₂_of_forall_exists _ _ this
  exact ⟨ds, (mapM_ok_iff _ _ _).2 h⟩

/-- C76: any other range is a `ValueError` as soon as there is a continuous column. -/
theorem C76_bad_range (std : List K → K) (nr : NRange K) (hnr : nr = .other ∨ ∃ f, nr = .float f ∧ (f ≤ 0 ∨ 1 ≤ f)) (cols : List (List K))
    (inst : List K) (cont : List Nat) (hex : ∃ i ∈ cont, i < cols.length) :
    probDist std nr cols inst cont = .error .valueError := by
  have hw : ∀ col, colRange std nr col = .error .valueError := by
    intro col
    rcases hnr with rfl | ⟨f, rfl, hf⟩
    · rfl
    · have : ¬ (0 < f ∧ f < 1) := by
        rintro ⟨h1, h2⟩
        rcases hf with h | h
        · exact absurd h1 (not_lt.2 h)
        · exact absurd h2 (not_lt.2 h)
      simp [colRange, this]
  apply mapM_error_eq
  · rintro ⟨col, i⟩ _ e' he
    unfold colDist at he
    simp only [hw] at he
    split at he
    · simp only [py_bind_error, Except.error.injEq] at he; exact he.symm
    · cases he
  · obtain ⟨i, hi, hlt⟩ := hex
    refine ⟨(cols[i], i), ?_, ?_⟩
    · rw [List.mk_mem_zipIdx_iff_getElem?]; simp [hlt]
    · simp [colDist, hi, hw]

/-! ## C74: the loop -/

/-- the row has one of the values of each distribution. -/
abbrev Drawn (ds : List (List K × List K)) (row : List K) : Prop := List.Forall₂ (fun d x => x ∈ d.1) ds row

theorem drawVal_ok {draw : List K → R → Nat × R} {d : List K × List K} {r r' : R} {x : K} (h : drawVal draw d r = .ok (x, r')) :
    x ∈ d.1 := by
  unfold drawVal at h
  split at h
  · cases h
  · split at h
    · rename_i y hy
      simp only [Except.ok.injEq, Prod.mk.injEq] at h
      rw [← h.1]; exact List.mem_of_getElem? hy
    · cases h

theorem sampleRow_ok {draw : List K → R → Nat × R} {ds : List (List K × List K)} {r r' : R} {row : List K}
    (h : sampleRow draw ds r = .ok (row, r')) : Drawn ds row := by
  induction ds generalizing r r' row with
  | nil => simp only [sampleRow, Except.ok.injEq, Prod.mk.injEq] at h; rw [← h.1]; exact .nil
  | cons d ds ih =>
    rw [sampleRow] at h
    obtain ⟨⟨x, r1⟩, h1, h⟩ := py_bind_eq_ok.1 h
    obtain ⟨⟨xs, r2⟩, h2, h⟩ := py_bind_eq_ok.1 h
    simp only [py_pure, Except.ok.injEq, Prod.mk.injEq] at h
    rw [← h.1]
    exact .cons (drawVal_ok h1) (ih (r' := r2) h2)

theorem sampleRow_succeeds {draw : List K → R → Nat × R} (hf : FairDraw draw) (ds : List (List K × List K))
    (hds : ∀ d ∈ ds, d.1 ≠ [] ∧ d.2.length = d.1.length) (r : R) : ∃ p, sampleRow draw ds r = .ok p := by
  induction ds generalizing r with
  | nil => exact ⟨_, rfl⟩
  | cons d ds ih =>
    obtain ⟨h1, h2⟩ := hds d (by simp)
    have hd2 : d.2 ≠ [] := by
      intro e; rw [e] at h2; exact h1 (List.length_eq_zero_iff.1 (by simpa using h2.symm))
    have hlt := hf d.2 r hd2
    rw [h2] at hlt
    have hv : drawVal draw d r = .ok (d.1[(draw d.2 r).1], (draw d.2 r).2) := by
      simp [drawVal, h1, hlt]
    obtain ⟨⟨xs, r2⟩, h3⟩ := ih (fun d hd => hds d (by simp [hd])) (draw d.2 r).2
    exact ⟨_, by rw [sampleRow, hv, py_bind_ok]; simp only; rw [h3]; rfl⟩

/-- the state of the loop. -/
structure LoopInv (bb : List K → Nat) (size n : Nat) (P : List K → Prop) (s : Dict Nat Nat × List (List K)) : Prop where
  keys : Dict.keys s.1 = List.range n
  counts : ∀ c < n, Dict.get? s.1 c = some (classCount bb s.2 c)
  bounded : ∀ c, classCount bb s.2 c ≤ quota size n
  rows : ∀ row ∈ s.2, bb row < n ∧ P row

theorem classCount_append (bb : List K → Nat) (rows : List (List K)) (row : List K) (c : Nat) :
    classCount bb (rows ++ [row]) c = classCount bb rows c + if bb row = c then 1 else 0 := by
  unfold classCount
  rw [List.countP_append]
  simp [List.countP_cons]

theorem lt_quota {size n c : Nat} (hn : 0 < n) : (c : K) < (size : K) / (n : K) ↔ c + 1 ≤ quota size n := by
  have hn' : (0 : K) < (n : K) := by exact_mod_cast hn
  rw [lt_div_iff₀ hn', quota, Nat.le_div_iff_mul_le hn, add_mul, one_mul]
  have : (c : K) * (n : K) < (size : K) ↔ c * n < size := by exact_mod_cast Iff.rfl
  rw [this]
  omega

theorem tryAdd_ok {bb : List K → Nat} {size n : Nat} {P : List K → Prop} {row : List K} {s s' : Dict Nat Nat × List (List K)}
    (hs : LoopInv bb size n P s) (hP : P row) (h : tryAdd bb size row s = .ok s') :
    LoopInv bb size n P s' ∧ s'.2.length ≤ s.2.length + 1 ∧ s.2.length ≤ s'.2.length := by
  unfold tryAdd at h
  obtain ⟨c, hc, h⟩ := py_bind_eq_ok.1 h
  rw [Dict.get_eq_ok_iff] at hc
  have hmem : bb row ∈ Dict.keys s.1 := (Dict.get?_isSome_iff _ _).1 ⟨c, hc⟩
  have hlt : bb row < n := by rw [hs.keys] at hmem; simpa using hmem
  have hlen : s.1.length = n := by
    have := congrArg List.length hs.keys
    simpa [Dict.keys] using this
  have hcc : c = classCount bb s.2 (bb row) := by
    rw [hs.counts _ hlt] at hc; simpa using hc.symm
  split at h
  · rename_i hq
    simp only [py_pure, Except.ok.injEq] at h
    subst h
    rw [hlen, lt_quota (by omega)] at hq
    refine ⟨⟨?_, ?_, ?_, ?_⟩, by simp, by simp⟩
    · rw [Dict.keys_set, if_pos hmem, hs.keys]
    · intro c' hc'
      rw [Dict.get?_set, classCount_append]
      by_cases e : bb row = c'
      · subst e; simp [hcc]
      · simp only [e, if_false, add_zero]
        rw [hs.counts c' hc']
    · intro c'
      rw [classCount_append]
      by_cases e : bb row = c'
      · subst e; simp only [if_true]; rw [hcc] at hq; exact hq
      · simp only [e, if_false, add_zero]; exact hs.bounded c'
    · intro row' hr
      rcases List.mem_append.1 hr with hr | hr
      · exact hs.rows row' hr
      · simp only [List.mem_singleton] at hr; subst hr; exact ⟨hlt, hP⟩
  · simp only [py_pure, Except.ok.injEq] at h
    subst h
    exact ⟨hs, by omega, le_rfl⟩

theorem tryAdd_succeeds {bb : List K → Nat} {size n : Nat} {P : List K → Prop} {row : List K} {s : Dict Nat Nat × List (List K)}
    (hs : LoopInv bb size n P s) (hlt : bb row < n) : ∃ s', tryAdd bb size row s = .ok s' := by
  unfold tryAdd
  have hg : Dict.get s.1 (bb row) = .ok (classCount bb s.2 (bb row)) := Dict.get_eq_ok_iff.2 (hs.counts _ hlt)
  rw [hg, py_bind_ok]
  split <;> exact ⟨_, rfl⟩

theorem fastStep_ok {draw : List K → R → Nat × R} {bb : List K → Nat} {size n : Nat} {pd cpd : List (List K × List K)}
    {s s' : Dict Nat Nat × List (List K)} {r r' : R}
    (hs : LoopInv bb size n (fun row => Drawn pd row ∨ Drawn cpd row) s)
    (h : fastStep draw bb size pd cpd s r = .ok (s', r')) :
    LoopInv bb size n (fun row => Drawn pd row ∨ Drawn cpd row) s' ∧ s'.2.length ≤ s.2.length + 2 := by
  unfold fastStep at h
  obtain ⟨⟨a, r1⟩, h1, h⟩ := py_bind_eq_ok.1 h
  obtain ⟨⟨b, r2⟩, h2, h⟩ := py_bind_eq_ok.1 h
  obtain ⟨s1, h3, h⟩ := py_bind_eq_ok.1 h
  obtain ⟨s2, h4, h⟩ := py_bind_eq_ok.1 h
  simp only [py_pure, Except.ok.injEq, Prod.mk.injEq] at h
  obtain ⟨rfl, -⟩ := h
  obtain ⟨hi1, hl1, -⟩ := tryAdd_ok hs (.inl (sampleRow_ok h1)) h3
  obtain ⟨hi2, hl2, -⟩ := tryAdd_ok hi1 (.inr (sampleRow_ok h2)) h4
  exact ⟨hi2, by omega⟩

theorem fastStep_succeeds {draw : List K → R → Nat × R} (hf : FairDraw draw) {bb : List K → Nat} {size n : Nat}
    (hbb : ∀ row, bb row < n) {pd cpd : List (List K × List K)}
    (hpd : ∀ d ∈ pd, d.1 ≠ [] ∧ d.2.length = d.1.length) (hcpd : ∀ d ∈ cpd, d.1 ≠ [] ∧ d.2.length = d.1.length)
    {s : Dict Nat Nat × List (List K)} (r : R)
    (hs : LoopInv bb size n (fun row => Drawn pd row ∨ Drawn cpd row) s) :
    ∃ p, fastStep draw bb size pd cpd s r = .ok p := by
  obtain ⟨⟨a, r1⟩, h1⟩ := sampleRow_succeeds hf pd hpd r
  obtain ⟨⟨b, r2⟩, h2⟩ := sampleRow_succeeds hf cpd hcpd r1
  obtain ⟨s1, h3⟩ := tryAdd_succeeds (size := size) hs (hbb a)
  obtain ⟨hi1, -, -⟩ := tryAdd_ok hs (.inl (sampleRow_ok h1)) h3
  obtain ⟨s2, h4⟩ := tryAdd_succeeds (size := size) hi1 (hbb b)
  exact ⟨(s2, r2), by simp [fastStep, h1, h2, h3, h4]⟩

theorem fastLoop_ok {draw : List K → R → Nat × R} {bb : List K → Nat} {size n : Nat} {pd cpd : List (List K × List K)} (fuel : Nat)
    {tries : Nat} (ht : tries ≤ size * 100) {s : Dict Nat Nat × List (List K)} {r r' : R} {rows : List (List K)} {t : Nat}
    (hs : LoopInv bb size n (fun row => Drawn pd row ∨ Drawn cpd row) s) (hlen : s.2.length ≤ size + 1)
    (h : fastLoop draw bb size pd cpd fuel tries s r = .ok (rows, t, r')) :
    (∃ cv, LoopInv bb size n (fun row => Drawn pd row ∨ Drawn cpd row) (cv, rows)) ∧ rows.length ≤ size + 1 ∧
      (size ≤ rows.length ∨ t = size * 100 + 1) ∧ t ≤ size * 100 + 1 := by
  induction fuel generalizing tries s r with
  | zero => cases h
  | succ fuel ih =>
    rw [fastLoop] at h
    split at h
    · rename_i hlt
      obtain ⟨⟨s1, r1⟩, h1, h⟩ := py_bind_eq_ok.1 h
      obtain ⟨hi, hl⟩ := fastStep_ok hs h1
      simp only at h
      split at h
      · rename_i hgt
        simp only [py_pure, Except.ok.injEq, Prod.mk.injEq] at h
        obtain ⟨rfl, rfl, -⟩ := h
        exact ⟨⟨s1.1, hi⟩, by omega, .inr (by omega), by omega⟩
      · rename_i hgt
        exact ih (by omega) hi (by omega) h
    · rename_i hlt
      simp only [Except.ok.injEq, Prod.mk.injEq] at h
      obtain ⟨rfl, rfl, -⟩ := h
      exact ⟨⟨s.1, hs⟩, hlen, .inl (by omega), by omega⟩

theorem fastLoop_succeeds {draw : List K → R → Nat × R} (hf : FairDraw draw) {bb : List K → Nat} {size n : Nat}
    (hbb : ∀ row, bb row < n) {pd cpd : List (List K × List K)}
    (hpd : ∀ d ∈ pd, d.1 ≠ [] ∧ d.2.length = d.1.length) (hcpd : ∀ d ∈ cpd, d.1 ≠ [] ∧ d.2.length = d.1.length)
    (fuel : Nat) {tries : Nat} (ht : tries ≤ size * 100) (hfuel : size * 100 + 1 ≤ fuel + tries)
    {s : Dict Nat Nat × List (List K)} (r : R)
    (hs : LoopInv bb size n (fun row => Drawn pd row ∨ Drawn cpd row) s) :
    ∃ p, fastLoop draw bb size pd cpd fuel tries s r = .ok p := by
  induction fuel generalizing tries s r with
  | zero => omega
  | succ fuel ih =>
    rw [fastLoop]
    split
    · obtain ⟨⟨s1, r1⟩, h1⟩ := fastStep_succeeds hf (size := size) hbb hpd hcpd r hs
      obtain ⟨hi, -⟩ := fastStep_ok hs h1
      rw [h1, py_bind_ok]
      simp only
      split
      · exact ⟨_, rfl⟩
      · exact ih (by omega) (by omega) r1 hi
    · exact ⟨_, rfl⟩

theorem sampleRow_no_fuel {draw : List K → R → Nat × R} (ds : List (List K × List K)) (r : R) :
    sampleRow draw ds r ≠ .error .fuel := by
  induction ds generalizing r with
  | nil => simp [sampleRow]
  | cons d ds ih =>
    intro h
    rw [sampleRow] at h
    rcases py_bind_eq_error.1 h with h | ⟨⟨x, r1⟩, -, h⟩
    · unfold drawVal at h
      split at h
      · cases h
      · split at h <;> cases h
    · rcases py_bind_eq_error.1 h with h | ⟨⟨x, r1⟩, -, h⟩
      · exact ih _ h
      · cases h

theorem tryAdd_no_fuel (bb : List K → Nat) (size : Nat) (row : List K) (s : Dict Nat Nat × List (List K)) :
    tryAdd bb size row s ≠ .error .fuel := by
  intro h
  unfold tryAdd at h
  rcases py_bind_eq_error.1 h with h | ⟨c, -, h⟩
  · rw [Dict.get_eq_error_iff] at h; exact absurd h.2 (by simp)
  · split at h <;> cases h

theorem fastLoop_no_fuel {draw : List K → R → Nat × R} {bb : List K → Nat} {size : Nat} {pd cpd : List (List K × List K)} (fuel : Nat)
    {tries : Nat} (ht : tries ≤ size * 100) (hfuel : size * 100 + 1 ≤ fuel + tries) {s : Dict Nat Nat × List (List K)} {r : R} :
    fastLoop draw bb size pd cpd fuel tries s r ≠ .error .fuel := by
  induction fuel generalizing tries s r with
  | zero => omega
  | succ fuel ih =>
    rw [fastLoop]
    split
    · intro h
      rcases py_bind_eq_error.1 h with h | ⟨⟨s1, r1⟩, -, h⟩
      · unfold fastStep at h
        rcases py_bind_eq_error.1 h with h | ⟨⟨a, r1⟩, -, h⟩
        · exact sampleRow_no_fuel _ _ h
        rcases py_bind_eq_error.1 h with h | ⟨⟨b, r2⟩, -, h⟩
        · exact sampleRow_no_fuel _ _ h
        rcases py_bind_eq_error.1 h with h | ⟨s1, -, h⟩
        · exact tryAdd_no_fuel _ _ _ _ h
        rcases py_bind_eq_error.1 h with h | ⟨s2, -, h⟩
        · exact tryAdd_no_fuel _ _ _ _ h
        · cases h
      · simp only at h
        split at h
        · cases h
        · exact ih (by omega) (by omega) h
    · simp

theorem loopInv_init (bb : List K → Nat) (size n : Nat) (P : List K → Prop) : LoopInv bb size n P (zeroCounts n, []) := by
  refine ⟨by simp [zeroCounts, Dict.keys, Function.comp_def], ?_, by simp [classCount], by simp⟩
  intro c hc
  have hnd : (Dict.keys (zeroCounts n)).Nodup := by
    have : Dict.keys (zeroCounts n) = List.range n := by simp [zeroCounts, Dict.keys, Function.comp_def]
    rw [this]; exact List.nodup_range
  have := Dict.get?_of_mem_nodup hnd (k := c) (v := 0) (by simp [zeroCounts, hc])
  simpa [classCount] using this


/-- C74: the loop always ends: `100 * size + 1` iterations are enough, whatever the black box, the data and the draws. -/
theorem C74_terminates (draw : List K → R → Nat × R) (cx : SampleCtx K) (hd : ∀ x, cx.dist x ≠ .error .fuel) (r : R) (fuel : Nat)
    (hfuel : cx.size * 100 + 1 ≤ fuel) : generateFast draw cx fuel r ≠ .error .fuel := by
  intro h
  unfold generateFast at h
  have hpd : ∀ inst, probDist cx.std cx.nr cx.cols inst cx.cont ≠ .error .fuel := by
    intro inst h
    have : ∀ (l : List (List K × Nat)), l.mapM (colDist cx.std cx.nr inst cx.cont) ≠ .error .fuel := by
      intro l
      induction l with
      | nil => simp
      | cons p l ih =>
        rw [List.mapM_cons]
        intro h
        rcases py_bind_eq_error.1 h with h | ⟨d, -, h⟩
        · unfold colDist at h
          split at h
          · rcases py_bind_eq_error.1 h with h | ⟨w, -, h⟩
            · unfold colRange at h
              split at h
              · cases h
              · split at h
                · rcases py_bind_eq_error.1 h with h | ⟨hi, -, h⟩
                  · unfold npMax at h
                    split at h <;> cases h
                  · rcases py_bind_eq_error.1 h with h | ⟨lo, -, h⟩
                    · unfold npMin at h
                      rw [pyMin_eq_error_iff] at h
                      exact absurd h.2 (by simp)
                    · cases h
                · cases h
              · cases h
            · rcases py_bind_eq_error.1 h with h | ⟨vals, -, h⟩
              · unfold valsInRange at h
                split at h <;> cases h
              · cases h
          · cases h
        · rcases py_bind_eq_error.1 h with h | ⟨ds, -, h⟩
          · exact ih h
          · cases h
    exact this _ h
  have hcl : ∀ l, closestInstance cx.dist l ≠ .error .fuel := by
    intro l h
    unfold closestInstance at h
    have : ∀ (l : List (List K)) (s : Option (List K × K)), l.foldlM (closestStep cx.dist) s ≠ .error .fuel := by
      intro l
      induction l with
      | nil => intro s; simp
      | cons x l ih =>
        intro s h
        rw [List.foldlM_cons] at h
        rcases py_bind_eq_error.1 h with h | ⟨s', -, h⟩
        · unfold closestStep at h
          rcases py_bind_eq_error.1 h with h | ⟨d, -, h⟩
          · exact hd x h
          · split at h <;> cases h
        · exact ih _ h
    rcases py_bind_eq_error.1 h with h | ⟨s', -, h⟩
    · exact this _ _ h
    · cases h
  rcases py_bind_eq_error.1 h with h | ⟨pd, -, h⟩
  · exact hpd _ h
  rcases py_bind_eq_error.1 h with h | ⟨cl, -, h⟩
  · exact hcl _ h
  rcases py_bind_eq_error.1 h with h | ⟨cpd, -, h⟩
  · exact hpd _ h
  rcases py_bind_eq_error.1 h with h | ⟨p, -, h⟩
  · exact fastLoop_no_fuel fuel (by omega) (by omega) h
  · cases h

/-- C74: when the method returns, the last row is the instance; the rows before it are at most `size + 1`, at most `⌈size/n⌉` of
each class, all of one of the `n` classes; each is drawn cell by cell from the values near the instance or near its closest
row of another class; and there are at least `size` of them unless the limit of `100 * size` tries was passed. -/
theorem C74_balanced (draw : List K → R → Nat × R) (cx : SampleCtx K) (r r' : R) (fuel : Nat) (rows : List (List K)) (t : Nat)
    (h : generateFast draw cx fuel r = .ok (rows, t, r')) :
    ∃ sample pd near cpd, rows = sample ++ [cx.inst] ∧
      probDist cx.std cx.nr cx.cols cx.inst cx.cont = .ok pd ∧
      closestInstance cx.dist (cx.rows.filter (fun x => cx.bb x ≠ cx.bb cx.inst)) = .ok near ∧
      probDist cx.std cx.nr cx.cols (near.getD []) cx.cont = .ok cpd ∧
      sample.length ≤ cx.size + 1 ∧
      (∀ c, classCount cx.bb sample c ≤ quota cx.size cx.n) ∧
      (∀ row ∈ sample, cx.bb row < cx.n ∧ (Drawn pd row ∨ Drawn cpd row)) ∧
      (cx.size ≤ sample.length ∨ t = cx.size * 100 + 1) ∧ t ≤ cx.size * 100 + 1 := by
  unfold generateFast at h
  obtain ⟨pd, hpd, h⟩ := py_bind_eq_ok.1 h
  obtain ⟨near, hnear, h⟩ := py_bind_eq_ok.1 h
  obtain ⟨cpd, hcpd, h⟩ := py_bind_eq_ok.1 h
  obtain ⟨⟨sample, t', r''⟩, hl, h⟩ := py_bind_eq_ok.1 h
  simp only [py_pure, Except.ok.injEq, Prod.mk.injEq] at h
  obtain ⟨rfl, rfl, -⟩ := h
  obtain ⟨⟨cv, hi⟩, h1, h2, h3⟩ := fastLoop_ok (n := cx.n) fuel (Nat.zero_le _) (loopInv_init _ _ _ _) (by simp) hl
  exact ⟨sample, pd, near, cpd, rfl, hpd, hnear, hcpd, h1, hi.bounded, hi.rows, h2, h3⟩

/-- C74: every generated row has in each column a value observed in that column. -/
theorem C74_observed (draw : List K → R → Nat × R) (cx : SampleCtx K) (hne : ∀ col ∈ cx.cols, col ≠ []) (r r' : R) (fuel : Nat)
    (rows : List (List K)) (t : Nat) (h : generateFast draw cx fuel r = .ok (rows, t, r')) :
    ∃ sample, rows = sample ++ [cx.inst] ∧ ∀ row ∈ sample, List.Forall₂ (fun col x => x ∈ col) cx.cols row := by
  obtain ⟨sample, pd, near, cpd, h1, hpd, -, hcpd, -, -, h2, -, -⟩ := C74_balanced draw cx r r' fuel rows t h
  refine ⟨sample, h1, ?_⟩
  have key : ∀ inst ds, probDist cx.std cx.nr cx.cols inst cx.cont = .ok ds → ∀ row, Drawn ds row →
      List.Forall₂ (fun col x => x ∈ col) cx.cols row := by
    intro inst ds hds row hrow
    obtain ⟨hlen, hall⟩ := C76_distribution _ _ _ _ _ _ hds
    rw [Drawn, List.forall₂_iff_get] at hrow
    rw [List.forall₂_iff_get]
    refine ⟨by rw [← hlen]; exact hrow.1, fun i h1 h2 => ?_⟩
    have hi : i < ds.length := by omega
    have hm := hrow.2 i hi h2
    obtain ⟨h3, h4⟩ := hall i cx.cols[i] ds[i] (by simp [h1]) (by simp [hi])
    simp only [List.get_eq_getElem] at hm ⊢
    by_cases hc : i ∈ cx.cont
    · obtain ⟨x, w, -, -, h5⟩ := h4 hc (hne _ (List.getElem_mem _))
      exact ((h5.values _).1 hm).1
    · exact (((h3 hc).values _).1 hm).1
  intro row hrow
  rcases (h2 row hrow).2 with h3 | h3
  · exact key _ _ hpd row h3
  · exact key _ _ hcpd row h3

/-! ## C92: when it succeeds -/

/-- C92, the part that holds: the method succeeds if the black box answers classes in the range, some training row of
another class is at positive distance, and every distribution has a value. -/
theorem C92_fast_succeeds_partial (draw : List K → R → Nat × R) (hf : FairDraw draw) (cx : SampleCtx K) (hbb : ∀ row, cx.bb row < cx.n)
    (hne : ∀ col ∈ cx.cols, col ≠ []) (near : List K) (pd cpd : List (List K × List K))
    (hpd : probDist cx.std cx.nr cx.cols cx.inst cx.cont = .ok pd)
    (hnear : closestInstance cx.dist (cx.rows.filter (fun x => cx.bb x ≠ cx.bb cx.inst)) = .ok (some near))
    (hcpd : probDist cx.std cx.nr cx.cols near cx.cont = .ok cpd)
    (h1 : ∀ d ∈ pd, d.1 ≠ []) (h2 : ∀ d ∈ cpd, d.1 ≠ []) (r : R) (fuel : Nat) (hfuel : cx.size * 100 + 1 ≤ fuel) :
    ∃ rows t r', generateFast draw cx fuel r = .ok (rows, t, r') := by
  obtain ⟨⟨rows, t, r'⟩, hl⟩ := fastLoop_succeeds (draw := draw) hf (size := cx.size) (n := cx.n) hbb (pd := pd) (cpd := cpd)
    (fun d hd => ⟨h1 d hd, (C76_probabilities _ _ _ hne _ _ _ hpd d hd).1⟩)
    (fun d hd => ⟨h2 d hd, (C76_probabilities _ _ _ hne _ _ _ hcpd d hd).1⟩)
    fuel (tries := 0) (Nat.zero_le _) (by omega) r (loopInv_init _ _ _ _)
  exact ⟨rows ++ [cx.inst], t, r', by
    simp only [generateFast, hpd, hnear, py_bind_ok, Option.getD_some, hcpd, hl, py_pure]⟩

/-- the instance's own value is in range: with a positive half-width, a continuous cell of the instance that was observed in its
column makes the distribution non-empty. -/
theorem C92_nonempty (std : List K → K) (nr : NRange K) (cols : List (List K)) (inst : List K) (cont : List Nat)
    (pd : List (List K × List K)) (hpd : probDist std nr cols inst cont = .ok pd)
    (h : ∀ (i : Nat) col, cols[i]? = some col → col ≠ [] ∧
      (i ∈ cont → ∃ x, inst[i]? = some x ∧ x ∈ col ∧ ∀ w, RangeOf std nr col w → 0 < w)) : ∀ d ∈ pd, d.1 ≠ [] := by
  intro d hd
  obtain ⟨hlen, hall⟩ := C76_distribution _ _ _ _ _ _ hpd
  obtain ⟨i, hi, rfl⟩ := List.mem_iff_getElem.1 hd
  have hi' : i < cols.length := by omega
  obtain ⟨h1, h2⟩ := hall i cols[i] pd[i] (by simp [hi']) (by simp [hi])
  obtain ⟨hne, h3⟩ := h i cols[i] (by simp [hi'])
  by_cases hm : i ∈ cont
  · obtain ⟨x, w, hx, hw, hd⟩ := h2 hm hne
    obtain ⟨x', hx', hmem, hpos⟩ := h3 hm
    rw [hx] at hx'
    obtain rfl : x = x' := by simpa using hx'
    have := hpos w hw
    have hx : x ∈ pd[i].1 := (hd.values x).2 ⟨hmem, by linarith, by linarith⟩
    exact List.ne_nil_of_mem hx
  · obtain ⟨x, hx⟩ := List.exists_mem_of_ne_nil _ hne
    exact List.ne_nil_of_mem (((h1 hm).values x).2 ⟨hx, trivial⟩)

theorem sampleRow_empty {draw : List K → R → Nat × R} (hf : FairDraw draw) (ds : List (List K × List K))
    (hds : ∀ d ∈ ds, d.2.length = d.1.length) (hex : ∃ d ∈ ds, d.1 = []) (r : R) : sampleRow draw ds r = .error .valueError := by
  induction ds generalizing r with
  | nil => simp at hex
  | cons d ds ih =>
    rw [sampleRow]
    by_cases hd : d.1 = []
    · simp [drawVal, hd]
    · have h2 := hds d (by simp)
      have hd2 : d.2 ≠ [] := by
        intro e; rw [e] at h2; exact hd (List.length_eq_zero_iff.1 (by simpa using h2.symm))
      have hlt := hf d.2 r hd2
      rw [h2] at hlt
      have hv : drawVal draw d r = .ok (d.1[(draw d.2 r).1], (draw d.2 r).2) := by
        simp [drawVal, hd, hlt]
      rw [hv, py_bind_ok]
      simp only
      rw [ih (fun d hd => hds d (by simp [hd]))]
      · rfl
      · obtain ⟨d', h1, h3⟩ := hex
        rcases List.mem_cons.1 h1 with rfl | h1
        · exact absurd h3 hd
        · exact ⟨d', h1, h3⟩

/-- C92 is false: a continuous column with a single value (its standard deviation and its range are 0) makes the open interval
empty, and the method fails with `ValueError` for every black box and every draw. -/
theorem C92_constant_column_false (draw : List K → R → Nat × R) (hf : FairDraw draw) (cx : SampleCtx K)
    (hne : ∀ col ∈ cx.cols, col ≠ []) (hsize : 0 < cx.size) (near : Option (List K)) (pd cpd : List (List K × List K))
    (hpd : probDist cx.std cx.nr cx.cols cx.inst cx.cont = .ok pd)
    (hnear : closestInstance cx.dist (cx.rows.filter (fun x => cx.bb x ≠ cx.bb cx.inst)) = .ok near)
    (hcpd : probDist cx.std cx.nr cx.cols (near.getD []) cx.cont = .ok cpd)
    (i : Nat) (hi : i ∈ cx.cont) (a : K) (m : Nat) (hcol : cx.cols[i]? = some (List.replicate m a))
    (hstd : cx.std (List.replicate m a) = 0) (r : R) (fuel : Nat) (hfuel : cx.size * 100 + 1 ≤ fuel) :
    generateFast draw cx fuel r = .error .valueError := by
  obtain ⟨hlen, hall⟩ := C76_distribution _ _ _ _ _ _ hpd
  have hlt := (List.getElem?_eq_some_iff.1 hcol).1
  have hlt' : i < pd.length := by omega
  have hc := hne _ (List.mem_of_getElem? hcol)
  obtain ⟨-, h2⟩ := hall i _ pd[i] hcol (by simp [hlt'])
  obtain ⟨x, w, -, hw, hd⟩ := h2 hi hc
  have hw0 : w = 0 := by
    rcases hw with ⟨-, rfl⟩ | ⟨f, lo, hi, -, -, -, h3, -, h4, -, rfl⟩
    · exact hstd
    · rw [List.eq_of_mem_replicate h3, List.eq_of_mem_replicate h4]; ring
  have hemp : pd[i].1 = [] := by
    rw [List.eq_nil_iff_forall_not_mem]
    intro v hv
    obtain ⟨-, h5, h6⟩ := (hd.values v).1 hv
    rw [hw0] at h5 h6
    linarith
  have hs := sampleRow_empty hf pd (fun d hd => (C76_probabilities _ _ _ hne _ _ _ hpd d hd).1) ⟨pd[i], List.getElem_mem _, hemp⟩ r
  obtain ⟨fuel, rfl⟩ : ∃ k, fuel = k + 1 := ⟨fuel - 1, by omega⟩
  unfold generateFast
  rw [hpd, py_bind_ok, hnear, py_bind_ok, hcpd]
  simp [fastLoop, hsize, fastStep, hs]

/-- C92 is false: when the black box gives the class of the instance to every training row (or the others are at distance 0),
the method fails with `IndexError` as soon as there is a continuous column. -/
theorem C92_one_class_false (draw : List K → R → Nat × R) (cx : SampleCtx K) (hne : ∀ col ∈ cx.cols, col ≠ [])
    (hnr : cx.nr = .std ∨ ∃ f, cx.nr = .float f ∧ 0 < f ∧ f < 1) (hinst : cx.cols.length ≤ cx.inst.length)
    (hone : ∀ row ∈ cx.rows, cx.bb row = cx.bb cx.inst) (i : Nat) (hi : i ∈ cx.cont) (hlt : i < cx.cols.length) (r : R) (fuel : Nat) :
    generateFast draw cx fuel r = .error .indexError := by
  obtain ⟨pd, hpd⟩ := C76_succeeds cx.std cx.nr hnr cx.cols hne cx.inst hinst cx.cont
  have hfil : cx.rows.filter (fun x => decide (cx.bb x ≠ cx.bb cx.inst)) = [] := by
    rw [List.filter_eq_nil_iff]
    intro x hx
    simp [hone x hx]
  have hnear : closestInstance cx.dist (cx.rows.filter (fun x => decide (cx.bb x ≠ cx.bb cx.inst))) = .ok none := by
    rw [hfil]; rfl
  have hcpd : probDist cx.std cx.nr cx.cols [] cx.cont = .error .indexError := by
    have hv : ∀ col ∈ cx.cols, ∀ (j : Nat) w, valsInRange [] j w col = .error .indexError := by
      intro col hcol j w
      unfold valsInRange
      split
      · rename_i e; exact absurd ((npUnique_eq_nil col).1 e) (hne _ hcol)
      · rfl
      · rename_i e _; simp at e
    apply mapM_error_eq
    · rintro ⟨col, j⟩ hp e' he
      rw [List.mk_mem_zipIdx_iff_getElem?] at hp
      have hcol := List.mem_of_getElem? hp
      unfold colDist at he
      split at he
      · obtain ⟨w, hw⟩ := colRange_ok_of (std := cx.std) (hne _ hcol) hnr
        simp only [hw, py_bind_ok, hv col hcol, py_bind_error, Except.error.injEq] at he
        exact he.symm
      · cases he
    · refine ⟨(cx.cols[i], i), by rw [List.mk_mem_zipIdx_iff_getElem?]; simp [hlt], ?_⟩
      obtain ⟨w, hw⟩ := colRange_ok_of (std := cx.std) (hne _ (List.getElem_mem hlt)) hnr
      simp [colDist, hi, hw, hv _ (List.getElem_mem hlt)]
  unfold generateFast
  rw [hpd, py_bind_ok, hnear, py_bind_ok, Option.getD_none, hcpd]
  rfl

/-! ### example -/

section
/-- a congruential generator choosing any index with equal probability. -/
private def exDraw (p : List ℚ) (r : Nat) : Nat × Nat := (r % p.length, (5 * r + 3) % 64)

example : FairDraw exDraw := fun _ _ hp => Nat.mod_lt _ (List.length_pos_iff.2 hp)

/-- two columns (the first continuous), two classes: the class is 1 above 3. -/
private def exCtx : SampleCtx ℚ where
  cols := [[1, 2, 4, 5, 2], [0, 1, 1, 0, 0]]
  rows := [[1, 0], [2, 1], [4, 1], [5, 0], [2, 0]]
  bb row := if row.getD 0 0 > 3 then 1 else 0
  n := 2
  cont := [0]
  std _ := 3/2
  nr := .float (1/2)
  size := 3
  inst := [2, 0]
  dist row := .ok |row.getD 0 0 - 2|

example : probDist exCtx.std exCtx.nr exCtx.cols exCtx.inst exCtx.cont = .ok [([1, 2], [1/3, 2/3]), ([0, 1], [3/5, 2/5])] := by
  decide +kernel
example : ((generateFast exDraw exCtx 301 7).toOption).map (fun t => (t.1, t.2.1)) =
    some ([[2, 0], [5, 0], [2, 0], [5, 0], [2, 0]], 2) := by decide +kernel
end

end Teacher
