import Verif.Lemmas.Fuzzy
import Mathlib.Order.Bounds.Basic

/-! Properties C01-C09 of fuzzy sets and variables. -/

set_option linter.unusedSectionVars false

namespace Teacher
open Spec

variable {K : Type} [Field K] [LinearOrder K] [IsStrictOrderedRing K]

/-! ### C01 -/

/-- C01: membership of any vector of numbers is the element-wise triangle with the three points of the set, which is
a degree in [0,1], 1 exactly at the peak, positive exactly inside the support, monotone on both sides. -/
theorem C01_membership (s : CSet K) (hab : s.a ≤ s.b) (hbc : s.b ≤ s.c) :
    ∃ μ : K → K, IsTriangle s.a s.b s.c μ ∧ IsDegree s.a s.b s.c μ ∧
      ∀ xs : List K, s.membership (xs.map .num) = .ok (xs.map μ) :=
  ⟨trimfAt s.a s.b s.c, trimfAt_isTriangle hab hbc, (trimfAt_isTriangle hab hbc).isDegree hab hbc,
    fun xs => CSet.membership_nums ⟨hab, hbc⟩ xs⟩

/-- C01: unsorted points make `membership` fail with `AssertionError` for every argument. -/
theorem C01_unsorted_fails (s : CSet K) (h : ¬ (s.a ≤ s.b ∧ s.b ≤ s.c)) (v : List (Cell K)) :
    s.membership v = .error .assertionError := by
  unfold CSet.membership; rw [if_neg h]

/-- C01: a string in the column of a continuous variable is a `TypeError`, never a degree, for a set of more than one point. -/
theorem C01_string_fails (s : CSet K) (h : s.a ≤ s.b ∧ s.b ≤ s.c) (hne : s.a ≠ s.c) (v : List (Cell K)) (t : String)
    (ht : Cell.str t ∈ v) : s.membership v = .error .typeError := by
  have he : ¬ (s.a = s.b ∧ s.b = s.c) := fun h => hne (h.1.trans h.2)
  unfold CSet.membership
  rw [if_pos h]
  apply mapM_error_eq
  · intro a _ e' he'
    cases a with
    | num x => simp at he'
    | str t =>
      simp only [if_neg he, Except.error.injEq] at he'
      exact he'.symm
  · exact ⟨_, ht, by simp only [if_neg he]⟩

/-- C01: for a set with three equal points every cell has a degree: 1 for the point itself, 0 for all other numbers and all strings. -/
theorem C01_point_set (s : CSet K) (h : s.a = s.b ∧ s.b = s.c) (v : List (Cell K)) :
    s.membership v = .ok (v.map (fun x => if x = .num s.b then 1 else 0)) := by
  unfold CSet.membership
  rw [if_pos ⟨h.1.le, h.2.le⟩]
  refine mapM_ok_of_forall _ _ _ ?_
  intro x _
  cases x with
  | str t => simp only [if_pos h]; rfl
  | num x =>
    simp only [trimfAt, h.1, h.2, ne_eq, not_true_eq_false, false_and, if_false, Cell.num.injEq]

example : ({ name := "p", a := 2, b := 2, c := 2 } : CSet ℚ).membership [.num 2, .str "x", .num 3] = .ok [1, 0, 0] := by decide +kernel

example : ∃ s : CSet ℚ, s.a ≤ s.b ∧ s.b ≤ s.c ∧
    s.membership [.num 0, .num 1, .num (3/2), .num 2, .num 3, .num 4, .num 9] =
      .ok [0, 1/2, 3/4, 1, 1/2, 0, 0] :=
  ⟨{ name := "m", a := 0, b := 2, c := 4 }, by norm_num, by norm_num, by decide +kernel⟩

/-! ### C02, C03 -/

/-- C02: strong partition. For any strictly increasing peaks `p₀ < p₁ < …` (at least two) and any names, every number has
a membership in every set; they add up to 1 between the first and the last peak, and are all 0 outside. -/
theorem C02_strong_partition (ok : Bool) (p₀ p₁ : String × K) (ps : List (String × K)) (l : String × K)
    (hl : (p₀ :: p₁ :: ps).getLast? = some l)
    (hinc : ((p₀ :: p₁ :: ps).map Prod.snd).Pairwise (· < ·)) :
    ∃ sets, getFuzzyContinuousSets ok (p₀ :: p₁ :: ps) = .ok sets ∧ sets.length = ps.length + 2 ∧
      ∀ x : K, ∃ ms : List K,
        sets.mapM (fun s => s.membership [.num x]) = .ok (ms.map (fun m => [m])) ∧
        (p₀.2 ≤ x → x ≤ l.2 → ms.sum = 1) ∧
        (x < p₀.2 ∨ l.2 < x → ∀ m ∈ ms, m = 0) := by
  have h01 : p₀.2 < p₁.2 := by
    simp only [List.map_cons, List.pairwise_cons] at hinc
    exact hinc.1 _ (by simp)
  refine ⟨_, getFuzzyContinuousSets_two ok p₀ p₁ ps, by simp [tailTriangles_length], ?_⟩
  intro x
  set sets : List (CSet K) :=
    { name := p₀.1, a := p₀.2, b := p₀.2, c := p₁.2 } :: tailTriangles (p₀ :: p₁ :: ps) with hsets
  have hsorted : ∀ s ∈ sets, s.a ≤ s.b ∧ s.b ≤ s.c := by
    intro s hs
    rcases List.mem_cons.1 hs with rfl | hs
    · exact ⟨le_refl _, h01.le⟩
    · obtain ⟨i, hi⟩ := List.mem_iff_getElem?.1 hs
      obtain ⟨p, q, h1, h2, -, h4, h5, -, h7⟩ := tailTriangles_getElem? _ _ _ hi
      have mono : ∀ (i j : Nat) (u v : String × K), (p₀ :: p₁ :: ps)[i]? = some u → (p₀ :: p₁ :: ps)[j]? = some v →
          i < j → u.2 < v.2 := by
        intro i j u v hu hv hij
        rw [List.pairwise_iff_getElem] at hinc
        obtain ⟨hi, rfl⟩ := List.getElem?_eq_some_iff.1 hu
        obtain ⟨hj, rfl⟩ := List.getElem?_eq_some_iff.1 hv
        have := hinc i j (by simpa using hi) (by simpa using hj) hij
        simp only [List.getElem_map] at this; exact this
      rw [h4, h5, h7]
      refine ⟨(mono _ _ _ _ h1 h2 (by omega)).le, ?_⟩
      cases h8 : (p₀ :: p₁ :: ps)[i + 2]? with
      | none => simp
      | some r => simpa using (mono _ _ _ _ h2 h8 (by omega)).le
  refine ⟨sets.map (fun s => s.deg x), ?_, ?_, ?_⟩
  · rw [mapM_ok_of_forall (g := fun s => [s.deg x])]
    · simp [List.map_map, Function.comp_def]
    · intro s hs
      exact CSet.membership_nums (hsorted s hs) [x]
  · intro h1 h2
    obtain ⟨t1, t2, t3, t4⟩ := tail_sum p₀ p₁ ps hinc x
    have T := trimfAt_isTriangle (K := K) (le_refl p₀.2) h01.le
    rw [hsets, List.map_cons, List.sum_cons]
    have hdeg : (CSet.deg { name := p₀.1, a := p₀.2, b := p₀.2, c := p₁.2 } x : K) = trimfAt p₀.2 p₀.2 p₁.2 x := rfl
    rw [hdeg]
    rcases le_or_gt x p₁.2 with h3 | h3
    · rw [t2 h1 h3]
      rcases eq_or_lt_of_le h1 with rfl | h1
      · rw [T.peak]; simp
      · rcases eq_or_lt_of_le h3 with rfl | h3
        · rw [T.right _ (le_refl _) h1.ne', zero_add, div_self]; linarith
        · rw [T.fall x h1 h3]
          have : p₁.2 - p₀.2 ≠ 0 := by linarith
          field_simp
          ring
    · rw [t3 l hl h3.le h2, T.right x h3.le (h01.trans h3).ne', zero_add]
  · intro hx m hm
    obtain ⟨s, hs, rfl⟩ := List.mem_map.1 hm
    have hso := hsorted s hs
    have T := trimfAt_isTriangle (K := K) hso.1 hso.2
    have hrange : p₀.2 ≤ s.a ∧ s.c ≤ l.2 := by
      have hmem : ∀ q ∈ (p₀ :: p₁ :: ps), p₀.2 ≤ q.2 ∧ q.2 ≤ l.2 := by
        intro q hq
        constructor
        · rcases List.mem_cons.1 hq with rfl | hq
          · exact le_refl _
          · have hinc' := hinc
            rw [List.map_cons, List.pairwise_cons] at hinc'
            exact (hinc'.1 q.2 (List.mem_map_of_mem (f := Prod.snd) hq)).le
        · have hsp := List.dropLast_append_getLast? l hl
          rw [← hsp] at hq hinc
          rcases List.mem_append.1 hq with hq | hq
          · rw [List.map_append, List.pairwise_append] at hinc
            exact (hinc.2.2 q.2 (List.mem_map_of_mem (f := Prod.snd) hq) l.2 (by simp)).le
          · simp only [List.mem_singleton] at hq; rw [hq]
      rcases List.mem_cons.1 hs with rfl | hs
      · exact ⟨le_refl _, (hmem p₁ (by simp)).2⟩
      · obtain ⟨i, hi⟩ := List.mem_iff_getElem?.1 hs
        obtain ⟨p, q, h1, h2, -, h4, h5, -, h7⟩ := tailTriangles_getElem? _ _ _ hi
        rw [h4, h7]
        refine ⟨(hmem p (List.mem_of_getElem? h1)).1, ?_⟩
        cases h8 : (p₀ :: p₁ :: ps)[i + 2]? with
        | none => simpa using (hmem q (List.mem_of_getElem? h2)).2
        | some r => simpa using (hmem r (List.mem_of_getElem? h8)).2
    rcases hx with hx | hx
    · have h1 := lt_of_lt_of_le hx hrange.1
      exact T.left x h1.le (lt_of_lt_of_le h1 hso.1).ne
    · have h1 := lt_of_le_of_lt hrange.2 hx
      exact T.right x h1.le (lt_of_le_of_lt hso.2 h1).ne'

/-- C02: a single peak gives a point set: membership 1 at the peak and 0 elsewhere. An empty list is an `IndexError`. -/
theorem C02_single_peak (p : String × K) :
    (∃ s : CSet K, getFuzzyContinuousSets true [p] = .ok [s] ∧ s.name = p.1 ∧
      ∀ x : K, s.membership [.num x] = .ok [if x = p.2 then 1 else 0]) ∧
    getFuzzyContinuousSets false [p] = .error .valueError ∧
    (∀ ok, getFuzzyContinuousSets (K := K) ok [] = .error .indexError) := by
  refine ⟨⟨_, rfl, rfl, ?_⟩, rfl, fun _ => rfl⟩
  intro x
  have := CSet.membership_nums (s := { name := p.1, a := p.2, b := p.2, c := p.2, pointSet := true })
    ⟨le_refl _, le_refl _⟩ [x]
  simp only [List.map_cons, List.map_nil] at this
  rw [this]
  simp [trimfAt]

example : ∃ sets, getFuzzyContinuousSets true [("a", (0:ℚ)), ("b", 2), ("c", 6)] = .ok sets ∧
    sets.mapM (fun s => s.membership [.num 3]) = .ok [[0], [3/4], [1/4]] :=
  ⟨_, rfl, by decide +kernel⟩

/-- C03: if `x` has positive membership in the sets at positions `i < j` of a strong partition, then `j = i + 1`;
so at most two sets are active and they are consecutive. -/
theorem C03_two_neighbours (ok : Bool) (ps : List (String × K)) (sets : List (CSet K))
    (hinc : (ps.map Prod.snd).Pairwise (· < ·)) (h : getFuzzyContinuousSets ok ps = .ok sets)
    (x : K) (i j : Nat) (si sj : CSet K) (mi mj : K) (hij : i < j)
    (hi : sets[i]? = some si) (hj : sets[j]? = some sj)
    (hmi : si.membership [.num x] = .ok [mi]) (hmj : sj.membership [.num x] = .ok [mj])
    (hpi : 0 < mi) (hpj : 0 < mj) : j = i + 1 := by
  match ps, hinc, h with
  | [], _, h => simp [getFuzzyContinuousSets] at h
  | [p], _, h =>
    simp only [getFuzzyContinuousSets] at h
    split at h
    · simp only [Except.ok.injEq] at h
      subst h
      have := (List.getElem?_eq_some_iff.1 hj).1
      simp at this
      omega
    · cases h
  | p₀ :: p₁ :: ps, hinc, h =>
    rw [getFuzzyContinuousSets_two] at h
    simp only [Except.ok.injEq] at h
    have mono : ∀ (i j : Nat) (u v : String × K), (p₀ :: p₁ :: ps)[i]? = some u → (p₀ :: p₁ :: ps)[j]? = some v →
        i ≤ j → u.2 ≤ v.2 := by
      intro i j u v hu hv hij
      rcases Nat.eq_or_lt_of_le hij with rfl | hij
      · rw [hu] at hv; cases hv; exact le_refl _
      · rw [List.pairwise_iff_getElem] at hinc
        obtain ⟨hi, rfl⟩ := List.getElem?_eq_some_iff.1 hu
        obtain ⟨hj, rfl⟩ := List.getElem?_eq_some_iff.1 hv
        have := hinc i j (by simpa using hi) (by simpa using hj) hij
        simp only [List.getElem_map] at this; exact this.le
    -- degrees
    have deg : ∀ (s : CSet K) (m : K), s.membership [.num x] = .ok [m] →
        s.a ≤ s.b ∧ s.b ≤ s.c ∧ m = trimfAt s.a s.b s.c x := by
      intro s m hm
      have hs : s.a ≤ s.b ∧ s.b ≤ s.c := by
        by_contra hc
        rw [C01_unsorted_fails s hc] at hm
        cases hm
      have := CSet.membership_nums hs [x]
      simp only [List.map_cons, List.map_nil] at this
      rw [this] at hm
      simp only [Except.ok.injEq, List.cons.injEq, and_true] at hm
      exact ⟨hs.1, hs.2, hm.symm⟩
    obtain ⟨i1, i2, i3⟩ := deg si mi hmi
    obtain ⟨j1, j2, j3⟩ := deg sj mj hmj
    rw [i3, (trimfAt_isTriangle i1 i2).pos_iff i1 i2] at hpi
    rw [j3, (trimfAt_isTriangle j1 j2).pos_iff j1 j2] at hpj
    -- the j-th set
    obtain ⟨j, rfl⟩ : ∃ j', j = j' + 1 := ⟨j - 1, by omega⟩
    rw [← h, List.getElem?_cons_succ] at hj
    obtain ⟨p, q, g1, g2, -, g4, g5, -, -⟩ := tailTriangles_getElem? _ _ _ hj
    by_contra hne
    have hlt : i + 1 ≤ j := by omega
    -- upper bound for x from the i-th set
    have hpq : p.2 < q.2 := by
      rw [List.pairwise_iff_getElem] at hinc
      obtain ⟨hi, e1⟩ := List.getElem?_eq_some_iff.1 g1
      obtain ⟨hj, e2⟩ := List.getElem?_eq_some_iff.1 g2
      have := hinc j (j+1) (by simpa using hi) (by simpa using hj) (by omega)
      simp only [List.getElem_map] at this
      rwa [e1, e2] at this
    have hxp : p.2 < x := by
      rcases hpj with h | h
      · rw [← g4]; exact h.1
      · rw [h, g5]; exact hpq
    have hxi : x ≤ p.2 := by
      rw [← h] at hi
      cases i with
      | zero =>
        simp only [List.getElem?_cons_zero, Option.some.injEq] at hi
        subst hi
        have h1p : p₁.2 ≤ p.2 := mono 1 j _ _ (by simp) g1 hlt
        have h0p : p₀.2 ≤ p.2 := mono 0 j _ _ (by simp) g1 (by omega)
        rcases hpi with h | h
        · exact h.2.le.trans h1p
        · rw [h]; exact h0p
      | succ i =>
        rw [List.getElem?_cons_succ] at hi
        obtain ⟨p', q', e1, e2, -, e4, e5, -, e7⟩ := tailTriangles_getElem? _ _ _ hi
        have hqp : q'.2 ≤ p.2 := mono _ _ _ _ e2 g1 (by omega)
        have hcp : si.c ≤ p.2 := by
          rw [e7]
          cases h8 : (p₀ :: p₁ :: ps)[i + 2]? with
          | none => simpa using hqp
          | some r => simpa using mono _ _ _ _ h8 g1 (by omega)
        rcases hpi with h | h
        · exact h.2.le.trans hcp
        · rw [h, e5]; exact hqp
    exact absurd hxp (not_lt.2 hxi)

example : ∃ sets, getFuzzyContinuousSets true [("a", (0:ℚ)), ("b", 2), ("c", 6)] = .ok sets ∧
    ∃ s1 s2, sets[1]? = some s1 ∧ sets[2]? = some s2 ∧ s1.membership [.num 3] = .ok [3/4] ∧
      s2.membership [.num 3] = .ok [1/4] :=
  ⟨_, rfl, _, _, rfl, rfl, by decide +kernel, by decide +kernel⟩

/-! ### C04 -/

/-- C04: `alpha_cut` is exactly the level set. -/
theorem C04_alpha_cut_level (s : CSet K) (hab : s.a ≤ s.b) (hbc : s.b ≤ s.c) (cut : K) (h0 : 0 < cut) (h1 : cut ≤ 1) :
    ∃ l r, s.alphaCut cut = .ok (l, r) ∧
      ∀ x m, s.membership [.num x] = .ok [m] → ((l ≤ x ∧ x ≤ r) ↔ cut ≤ m) := by
  refine ⟨s.a + (s.b - s.a) * cut, s.c - (s.c - s.b) * cut, ?_, ?_⟩
  · unfold CSet.alphaCut
    rw [if_neg (by push Not; exact ⟨h0.le, h1⟩)]
  · intro x m hm
    have := CSet.membership_nums (s := s) ⟨hab, hbc⟩ [x]
    simp only [List.map_cons, List.map_nil] at this
    rw [this] at hm
    simp only [Except.ok.injEq, List.cons.injEq, and_true] at hm
    rw [← hm]
    exact ((trimfAt_isTriangle hab hbc).level hab hbc h0 h1 x).symm

/-- C04: the cut at 0 is the closed support. -/
theorem C04_alpha_cut_zero (s : CSet K) : s.alphaCut 0 = .ok (s.a, s.c) := by
  simp [CSet.alphaCut]

/-- C04: cuts are intervals around the peak, and a larger cut is contained in a smaller one. -/
theorem C04_alpha_cut_nested (s : CSet K) (hab : s.a ≤ s.b) (hbc : s.b ≤ s.c) (u v : K) (l r l' r' : K)
    (huv : u ≤ v) (hu : s.alphaCut u = .ok (l, r)) (hv : s.alphaCut v = .ok (l', r')) :
    l ≤ l' ∧ l' ≤ s.b ∧ s.b ≤ r' ∧ r' ≤ r := by
  unfold CSet.alphaCut at hu hv
  split at hu
  · cases hu
  · split at hv
    · cases hv
    · rename_i h1 h2
      push Not at h1 h2
      simp only [Except.ok.injEq, Prod.mk.injEq] at hu hv
      obtain ⟨rfl, rfl⟩ := hu
      obtain ⟨rfl, rfl⟩ := hv
      refine ⟨?_, ?_, ?_, ?_⟩ <;> nlinarith

/-- C04: cuts outside [0,1] raise `ValueError`, and only those. -/
theorem C04_alpha_cut_error (s : CSet K) (cut : K) (e : PyErr) :
    s.alphaCut cut = .error e ↔ (cut < 0 ∨ 1 < cut) ∧ e = .valueError := by
  unfold CSet.alphaCut
  split <;> rename_i h
  · simp only [Except.error.injEq]
    exact ⟨fun h' => ⟨h, h'.symm⟩, fun h' => h'.2.symm⟩
  · simp only [reduceCtorEq, false_iff]
    exact fun h' => h h'.1

example : ({ name := "m", a := 0, b := 2, c := 6 } : CSet ℚ).alphaCut (1/2) = .ok (1, 4) := by decide +kernel

/-! ### C05 -/

/-- C05: `intersection` is the maximum over all `x` of the minimum of the two memberships. -/
theorem C05_intersection_sup_min (s o : CSet K)
    (hs1 : s.a ≤ s.b) (hs2 : s.b ≤ s.c) (ho1 : o.a ≤ o.b) (ho2 : o.b ≤ o.c) (μ ν : K → K)
    (hμ : IsTriangle s.a s.b s.c μ) (hν : IsTriangle o.a o.b o.c ν) :
    ∃ h, FSet.intersection (.cont s) (.cont o) = .ok h ∧
      IsGreatest (Set.range (fun x => min (μ x) (ν x))) h := by
  refine ⟨_, rfl, ?_, ?_⟩
  · obtain ⟨x, hx⟩ := CSet.intersection_attained s o hs1 hs2 ho1 ho2 hμ hν
    exact ⟨x, le_antisymm (CSet.intersection_upper s o hs1 hs2 ho1 ho2 hμ hν x) hx⟩
  · rintro _ ⟨x, rfl⟩
    exact CSet.intersection_upper s o hs1 hs2 ho1 ho2 hμ hν x

/-- C05: it is in [0,1], symmetric, and 1 exactly when the peaks coincide. -/
theorem C05_intersection_range (s o : CSet K)
    (hs1 : s.a ≤ s.b) (hs2 : s.b ≤ s.c) (ho1 : o.a ≤ o.b) (ho2 : o.b ≤ o.c) :
    ∃ h, FSet.intersection (.cont s) (.cont o) = .ok h ∧ FSet.intersection (.cont o) (.cont s) = .ok h ∧
      0 ≤ h ∧ h ≤ 1 ∧ (h = 1 ↔ s.b = o.b) := by
  refine ⟨_, rfl, ?_, CSet.intersection_nonneg s o, CSet.intersection_le_one s o, ?_, ?_⟩
  · simp only [FSet.intersection, Except.ok.injEq]; exact CSet.intersection_comm o s
  · intro h
    have T1 := trimfAt_isTriangle hs1 hs2
    have T2 := trimfAt_isTriangle ho1 ho2
    obtain ⟨x, hx⟩ := CSet.intersection_attained s o hs1 hs2 ho1 ho2 T1 T2
    rw [h] at hx
    have h1 : x = s.b := ((T1.isDegree hs1 hs2).eq_one_iff x).1
      (le_antisymm (T1.le_one x) (hx.trans (min_le_left _ _)))
    have h2 : x = o.b := ((T2.isDegree ho1 ho2).eq_one_iff x).1
      (le_antisymm (T2.le_one x) (hx.trans (min_le_right _ _)))
    rw [← h1, h2]
  · exact CSet.intersection_same_peak s o

/-- C05: mixing types raises `ValueError`; two discrete sets have intersection 1 when they are equal (name and
value) and 0 otherwise. -/
theorem C05_intersection_types (s : CSet K) (d d' : DSet K) :
    FSet.intersection (.cont s) (.disc d) = .error .valueError ∧
    FSet.intersection (.disc d) (.cont s) = .error .valueError ∧
    FSet.simmilarity (.cont s) (.disc d) = .error .valueError ∧
    FSet.simmilarity (.disc d) (.cont s) = .error .valueError ∧
    FSet.intersection (.disc d) (.disc d') = .ok (if d.name = d'.name ∧ d.value = d'.value then 1 else 0) := by
  refine ⟨rfl, rfl, rfl, rfl, ?_⟩
  simp only [FSet.intersection, Except.ok.injEq]
  cases d; cases d'
  simp

example : FSet.intersection (K := ℚ) (.cont { name := "l", a := 0, b := 0, c := 2 })
    (.cont { name := "m", a := 0, b := 2, c := 6 }) = .ok (1/2) := by decide +kernel

/-! ### C06 -/

/-- C06 (partial): `simmilarity` is symmetric and never above 1; it is in [0,1] and 1 for a set against itself when the
left half-widths are smaller than the right ones. Missing: see the two counterexamples below. -/
theorem C06_simmilarity_partial (s o : CSet K) :
    s.simmilarity o = o.simmilarity s ∧ s.simmilarity o ≤ 1 ∧
    (s.b - s.a ≤ s.c - s.b → o.b - o.a ≤ o.c - o.b → 0 ≤ s.simmilarity o) ∧
    (s.b - s.a < s.c - s.b → s.simmilarity s = 1) ∧
    (s.c - s.b ≤ s.b - s.a → s.simmilarity s = 0) := by
  refine ⟨?_, ?_, ?_, ?_, ?_⟩
  · unfold CSet.simmilarity
    dsimp only
    by_cases h : (s.b - s.a) / 2 ≥ (o.c - o.b) / 2 ∨ (o.b - o.a) / 2 ≥ (s.c - s.b) / 2
    · rw [if_pos h, if_pos h.symm]
    · rw [if_neg h, if_neg (fun h' => h h'.symm), min_comm ((s.c - s.b) / 2), max_comm ((s.b - s.a) / 2),
        max_comm ((s.c - s.b) / 2), min_comm ((s.b - s.a) / 2)]
  · unfold CSet.simmilarity
    dsimp only
    split
    · exact zero_le_one
    · rename_i h
      push Not at h
      rw [div_le_one]
      · have h1 := min_le_left ((s.c - s.b) / 2) ((o.c - o.b) / 2)
        have h2 := le_max_left ((s.c - s.b) / 2) ((o.c - o.b) / 2)
        have h3 := le_max_left ((s.b - s.a) / 2) ((o.b - o.a) / 2)
        have h4 := min_le_left ((s.b - s.a) / 2) ((o.b - o.a) / 2)
        linarith
      · have h2 := le_max_right ((s.c - s.b) / 2) ((o.c - o.b) / 2)
        have h4 := min_le_left ((s.b - s.a) / 2) ((o.b - o.a) / 2)
        linarith [h.1]
  · intro hs ho
    unfold CSet.simmilarity
    dsimp only
    split
    · exact le_refl _
    · rename_i h
      push Not at h
      apply div_nonneg
      · have : max ((s.b - s.a) / 2) ((o.b - o.a) / 2) ≤ min ((s.c - s.b) / 2) ((o.c - o.b) / 2) := by
          apply max_le <;> apply le_min <;> linarith [h.1, h.2]
        linarith
      · have h2 := le_max_right ((s.c - s.b) / 2) ((o.c - o.b) / 2)
        have h4 := min_le_left ((s.b - s.a) / 2) ((o.b - o.a) / 2)
        linarith [h.1]
  · intro h
    unfold CSet.simmilarity
    dsimp only
    rw [if_neg (by push Not; constructor <;> linarith)]
    simp only [min_self, max_self]
    apply div_self
    linarith
  · intro h
    unfold CSet.simmilarity
    dsimp only
    rw [if_pos (.inl (by linarith))]

/-- C06: `simmilarity` ignores where the sets lie: translating one of them changes nothing. -/
theorem C06_simmilarity_ignores_position (s o : CSet K) (t : K) :
    s.simmilarity { o with a := o.a + t, b := o.b + t, c := o.c + t } = s.simmilarity o := by
  unfold CSet.simmilarity
  simp only [add_sub_add_right_eq_sub]

/-- C06 is false of the code: a symmetric triangle has simmilarity 0 with itself, there are sets with negative
simmilarity, and two sets a thousand units apart have simmilarity 1. -/
theorem C06_simmilarity_false :
    (∃ s : CSet ℚ, s.a < s.b ∧ s.b < s.c ∧ s.simmilarity s = 0) ∧
    (∃ s o : CSet ℚ, s.a < s.b ∧ s.b < s.c ∧ o.a ≤ o.b ∧ o.b < o.c ∧ s.simmilarity o < 0) ∧
    (∃ s o : CSet ℚ, s.a ≤ s.b ∧ s.b < s.c ∧ o.a ≤ o.b ∧ o.b < o.c ∧ s.c + 1000 < o.a ∧ s.simmilarity o = 1) := by
  refine ⟨⟨{ name := "s", a := 0, b := 1, c := 2 }, ?_⟩,
    ⟨{ name := "s", a := 0, b := 10, c := 12 }, { name := "o", a := 0, b := 0, c := 40 }, ?_⟩,
    ⟨{ name := "s", a := 0, b := 0, c := 2 }, { name := "o", a := 2000, b := 2000, c := 2002 }, ?_⟩⟩ <;>
  decide +kernel

/-! ### C07 -/

/-- C07: range, symmetry, zero without common support, 1 against itself. -/
theorem C07_jaccard (s o : CSet K)
    (hs1 : s.a ≤ s.b) (hs2 : s.b ≤ s.c) (ho1 : o.a ≤ o.b) (ho2 : o.b ≤ o.c) :
    0 ≤ s.jaccard o ∧ s.jaccard o ≤ 1 ∧ s.jaccard o = o.jaccard s ∧
    ((s.c ≤ o.a ∨ o.c ≤ s.a) → s.jaccard o = 0) ∧
    (s.a < s.c → s.jaccard s = 1) ∧
    (s.jaccard o = 1 → s.a = o.a ∧ s.b = o.b ∧ s.c = o.c) := by
  have hi0 := CSet.intersection_nonneg s o
  have hi1 := CSet.intersection_le_one s o
  have inters_le : min s.c o.c - max s.a o.a ≤ max s.c o.c - min s.a o.a := by
    have h1 := min_le_left s.c o.c
    have h2 := le_max_left s.c o.c
    have h3 := le_max_left s.a o.a
    have h4 := min_le_left s.a o.a
    linarith
  refine ⟨?_, ?_, ?_, ?_, ?_, ?_⟩
  · unfold CSet.jaccard
    dsimp only
    split
    · exact le_refl _
    · rename_i h
      push Not at h
      apply mul_nonneg _ hi0
      apply div_nonneg <;> linarith
  · unfold CSet.jaccard
    dsimp only
    split
    · exact zero_le_one
    · rename_i h
      push Not at h
      have : (min s.c o.c - max s.a o.a) / (max s.c o.c - min s.a o.a) ≤ 1 := by
        rw [div_le_one (by linarith)]; exact inters_le
      exact mul_le_one₀ this hi0 hi1
  · unfold CSet.jaccard
    rw [max_comm o.a, min_comm o.c, max_comm o.c, min_comm o.a, CSet.intersection_comm o s]
  · intro h
    unfold CSet.jaccard
    dsimp only
    rw [if_pos]
    rcases h with h | h
    · exact (min_le_left _ _).trans (h.trans (le_max_right _ _))
    · exact (min_le_right _ _).trans (h.trans (le_max_left _ _))
  · intro h
    unfold CSet.jaccard
    simp only [max_self, min_self]
    rw [if_neg (not_le.2 h), div_self (by linarith), CSet.intersection_same_peak s s rfl, one_mul]
  · intro h
    unfold CSet.jaccard at h
    dsimp only at h
    split at h
    · simp at h
    · rename_i hlt
      push Not at hlt
      have hU : 0 < max s.c o.c - min s.a o.a := by linarith
      set q := (min s.c o.c - max s.a o.a) / (max s.c o.c - min s.a o.a) with hq
      have hq1 : q ≤ 1 := by rw [hq, div_le_one hU]; exact inters_le
      have hq0 : 0 ≤ q := by rw [hq]; apply div_nonneg <;> linarith
      have hqe : q = 1 := by
        apply le_antisymm hq1
        rw [← h]
        exact mul_le_of_le_one_right hq0 hi1
      have hie : s.intersection o = 1 := by rw [hqe, one_mul] at h; exact h
      have hb : s.b = o.b := by
        obtain ⟨h', e1, -, -, -, e2⟩ := C05_intersection_range s o hs1 hs2 ho1 ho2
        simp only [FSet.intersection, Except.ok.injEq] at e1
        exact e2.1 (e1 ▸ hie)
      rw [hq, div_eq_one_iff_eq hU.ne'] at hqe
      have h1 := min_le_left s.c o.c
      have h1' := min_le_right s.c o.c
      have h2 := le_max_left s.c o.c
      have h2' := le_max_right s.c o.c
      have h3 := le_max_left s.a o.a
      have h3' := le_max_right s.a o.a
      have h4 := min_le_left s.a o.a
      have h4' := min_le_right s.a o.a
      refine ⟨?_, hb, ?_⟩ <;> linarith

example : ({ name := "a", a := 0, b := 1, c := 3 } : CSet ℚ).jaccard { name := "b", a := 1, b := 2, c := 4 } = 1/3 := by
  decide +kernel

/-! ### C08 -/

/-- C08: merging two well-formed sets with numeric names gives a well-formed set that covers both supports, with the
mid-point of the two peaks as peak, the same for both argument orders. -/
theorem C08_merge (readNum : String → Option K) (fmt : K → String) (s o : CSet K)
    (hs1 : s.a ≤ s.b) (hs2 : s.b ≤ s.c) (ho1 : o.a ≤ o.b) (ho2 : o.b ≤ o.c)
    (n₁ n₂ : K) (hn₁ : readNum s.name = some n₁) (hn₂ : readNum o.name = some n₂) :
    ∃ m, s.merge readNum fmt o = .ok m ∧ o.merge readNum fmt s = .ok m ∧
      m.name = fmt ((n₁ + n₂) / 2) ∧ m.a ≤ m.b ∧ m.b ≤ m.c ∧
      m.a ≤ s.a ∧ m.a ≤ o.a ∧ s.c ≤ m.c ∧ o.c ≤ m.c ∧ (m.a = s.a ∨ m.a = o.a) ∧ (m.c = s.c ∨ m.c = o.c) ∧
      m.b - s.b = o.b - m.b ∧ min s.b o.b ≤ m.b ∧ m.b ≤ max s.b o.b := by
  have h1 := min_le_left s.a o.a
  have h1' := min_le_right s.a o.a
  have h2 := le_max_left s.c o.c
  have h2' := le_max_right s.c o.c
  have h3 := min_le_left s.b o.b
  have h3' := min_le_right s.b o.b
  have h4 := le_max_left s.b o.b
  have h4' := le_max_right s.b o.b
  refine ⟨_, by simp only [CSet.merge, hn₁, hn₂]; rfl, ?_, rfl, ?_, ?_, h1, h1', h2, h2', min_choice _ _, max_choice _ _,
    ?_, ?_, ?_⟩
  · simp only [CSet.merge, hn₁, hn₂]
    rw [add_comm n₂, min_comm, add_comm o.b, max_comm]
  all_goals (dsimp only; try linarith)

/-- C08: merging a set with itself keeps its points; a name that is not a number raises `ValueError`. -/
theorem C08_merge_self (readNum : String → Option K) (fmt : K → String) (s o : CSet K) :
    (∀ n, readNum s.name = some n → ∃ m, s.merge readNum fmt s = .ok m ∧ m.a = s.a ∧ m.b = s.b ∧ m.c = s.c) ∧
    ((readNum s.name = none ∨ readNum o.name = none) → s.merge readNum fmt o = .error .valueError) := by
  constructor
  · intro n hn
    refine ⟨_, by simp only [CSet.merge, hn]; rfl, by simp, ?_, by simp⟩
    simp only; ring
  · intro h
    unfold CSet.merge
    rcases h with h | h
    · rw [h]
    · rw [h]; cases readNum s.name <;> rfl

example : ({ name := "1", a := 0, b := 1, c := 3 } : CSet ℚ).merge (fun s => if s = "1" then some 1 else if s = "3" then some 3 else none)
    (fun q => if q = 2 then "2" else "?") { name := "3", a := 2, b := 3, c := 5 } =
    .ok { name := "2", a := 0, b := 2, c := 5 } := by
  decide +kernel

/-! ### C09 -/

/-- C09: for pairwise different values, a cell equal to the value of one set has membership 1 in it and 0 in every other
set (so they add up to 1), and any other cell has membership 0 everywhere. -/
theorem C09_crisp_partition (ds : List (String × Cell K)) (hnd : (ds.map Prod.snd).Nodup) (x : Cell K) :
    ∃ ms : List K, (getFuzzyDiscreteSets ds).map (fun s => s.membership [x]) = ms.map (fun m => [m]) ∧
      ms.length = ds.length ∧
      (∀ i : Nat, ds[i]?.map Prod.snd = some x → ms[i]? = some 1 ∧ ∀ (j : Nat) (m : K), ms[j]? = some m → j ≠ i → m = 0) ∧
      ms.sum = (if x ∈ ds.map Prod.snd then 1 else 0) ∧
      (x ∉ ds.map Prod.snd → ∀ m ∈ ms, m = 0) := by
  refine ⟨ds.map (fun d => if x = d.2 then 1 else 0), ?_, by simp, ?_, ?_, ?_⟩
  · simp [getFuzzyDiscreteSets, DSet.membership, Function.comp_def]
  · intro i hi
    obtain ⟨d, hd, rfl⟩ : ∃ d, ds[i]? = some d ∧ d.2 = x := by
      cases h : ds[i]? with
      | none => rw [h] at hi; simp at hi
      | some d => rw [h] at hi; exact ⟨d, rfl, by simpa using hi⟩
    constructor
    · simp [hd]
    · intro j m hm hji
      rw [List.getElem?_map] at hm
      cases hdj : ds[j]? with
      | none => rw [hdj] at hm; simp at hm
      | some d' =>
        rw [hdj] at hm
        simp only [Option.map_some, Option.some.injEq] at hm
        rw [← hm, if_neg]
        intro he
        obtain ⟨h1, e1⟩ := List.getElem?_eq_some_iff.1 hd
        obtain ⟨h2, e2⟩ := List.getElem?_eq_some_iff.1 hdj
        apply hji
        apply (hnd.getElem_inj_iff (i := j) (j := i) (hi := by simpa using h2) (hj := by simpa using h1)).1
        simp [e1, e2, he]
  · induction ds with
    | nil => simp
    | cons d ds ih =>
      simp only [List.map_cons, List.nodup_cons] at hnd
      simp only [List.map_cons, List.sum_cons, ih hnd.2, List.mem_cons]
      by_cases h : x = d.2
      · subst h; simp [hnd.1]
      · rw [if_neg h, zero_add]
        by_cases hx : x ∈ ds.map Prod.snd
        · rw [if_pos hx, if_pos (.inr hx)]
        · rw [if_neg hx, if_neg (by rintro (h' | h') <;> contradiction)]
  · intro h m hm
    obtain ⟨d, hd, rfl⟩ := List.mem_map.1 hm
    rw [if_neg]
    rintro rfl
    exact h (List.mem_map_of_mem (f := Prod.snd) hd)

example : (getFuzzyDiscreteSets (K := ℚ) [("r", .str "r"), ("g", .str "g"), ("1", .num 1)]).map
    (fun s => s.membership [.str "g"]) = [[0], [1], [0]] := by decide +kernel

end Teacher
