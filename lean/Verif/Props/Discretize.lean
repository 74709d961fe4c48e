import Verif.Lemmas.Discretize
import Verif.Props.Fuzzy
import Mathlib.Tactic.Linarith
import Mathlib.Tactic.NormNum

/-!
# C12–C14, C16: the peaks of the continuous variables
-/

set_option linter.unusedSectionVars false

namespace Teacher
open Spec

section
variable {C K : Type} [Field K] [LinearOrder K] [IsStrictOrderedRing K]

theorem entropyPoints_of_induct [DecidableEq C] (lg : K → K) (ent : Bool → List K → List C → K) (th : Option K) (maxDepth : Nat)
    (P : List K → K → Nat → List K → Prop)
    (hleaf : ∀ v lo hi depth, hi ∈ v → (∀ x ∈ v, lo ≤ x ∧ x ≤ hi) → (∃ x ∈ v, lo < x) → P v lo depth [lo, hi])
    (hsplit : ∀ v lo hi depth p l r, hi ∈ v → (∀ x ∈ v, lo ≤ x ∧ x ≤ hi) → p ∈ v → lo < p → p < hi →
      (depth < maxDepth ∨ maxDepth = 0) →
      (if 1 < (v.filter (· ≤ p)).length then P (v.filter (· ≤ p)) lo (depth + 1) l else l = []) →
      (if 1 < (v.filter (p < ·)).length then P (v.filter (p < ·)) p (depth + 1) r else r = []) →
      P v lo depth (npUnique (l ++ r)))
    (v : List K) (y : List C) (hlen : v.length = y.length) (hex : ∃ a ∈ v, ∃ b ∈ v, a ≠ b) :
    ∃ lo pts, entropyPoints lg ent th maxDepth v y = .ok pts ∧ lo ∈ v ∧ (∀ x ∈ v, lo ≤ x) ∧ P v lo 0 pts := by
  obtain ⟨a, ha, b, hb, hab⟩ := hex
  obtain ⟨lo, h1, h2, h3⟩ := npMin_ok (List.ne_nil_of_mem ha)
  have hlt : ∃ x ∈ v, lo < x := by
    rcases lt_or_gt_of_ne hab with h | h
    · exact ⟨b, hb, lt_of_le_of_lt (h3 a ha) h⟩
    · exact ⟨a, ha, lt_of_le_of_lt (h3 b hb) h⟩
  have hl : 1 < v.length := by
    by_contra h
    have : v.length = 1 := by
      have := List.length_pos_of_mem ha
      omega
    obtain ⟨z, hz⟩ := List.length_eq_one_iff.1 this
    rw [hz] at ha hb
    simp only [List.mem_singleton] at ha hb
    exact hab (ha.trans hb.symm)
  obtain ⟨pts, h4, h5⟩ := discretize_induct lg ent th maxDepth P hleaf hsplit v.length v y lo 0 hlen (by omega) hl h3 hlt
  refine ⟨lo, pts, ?_, h2, h3, h5⟩
  unfold entropyPoints
  rw [h1]
  exact h4

theorem length_filter_pos_of (v : List K) (p lo : K) (hp : p ∈ v) (hlo : lo ∈ v) (h : lo < p) :
    1 < (v.filter (· ≤ p)).length := by
  have h1 : p ∈ v.filter (· ≤ p) := by simp [hp]
  have h2 : lo ∈ v.filter (· ≤ p) := by simp [hlo, le_of_lt h]
  by_contra hc
  have : (v.filter (· ≤ p)).length = 1 := by
    have := List.length_pos_of_mem h1
    omega
  obtain ⟨z, hz⟩ := List.length_eq_one_iff.1 this
  rw [hz] at h1 h2
  simp only [List.mem_singleton] at h1 h2
  rw [h1, h2] at h
  exact lt_irrefl _ h

/-! ### C12 -/

/-- C12: for every column with two different values, every classes, every threshold (or none), every `max_depth` and whatever
the entropies are, the entropy discretisation terminates and returns a strictly increasing list of values of the column that
starts at the minimum of the column. -/
theorem C12_entropy_points [DecidableEq C] (lg : K → K) (ent : Bool → List K → List C → K) (th : Option K) (maxDepth : Nat)
    (v : List K) (y : List C) (hlen : v.length = y.length) (hex : ∃ a ∈ v, ∃ b ∈ v, a ≠ b) :
    ∃ lo pts, entropyPoints lg ent th maxDepth v y = .ok pts ∧ pts.Pairwise (· < ·) ∧ (∀ x ∈ pts, x ∈ v) ∧
      pts.head? = some lo ∧ ∀ x ∈ v, lo ≤ x := by
  obtain ⟨lo, pts, h1, h2, h3, h4, h5, h6, h7⟩ := entropyPoints_of_induct lg ent th maxDepth
    (fun v lo _ pts => pts.Pairwise (· < ·) ∧ (∀ x ∈ pts, x = lo ∨ x ∈ v) ∧ (∀ x ∈ pts, lo ≤ x) ∧ (lo ∈ v → lo ∈ pts))
    (by
      intro v lo hi depth hhi hb ⟨x, hx, hlt⟩
      have : lo < hi := lt_of_lt_of_le hlt (hb x hx).2
      refine ⟨by simp [this], ?_, ?_, by simp⟩
      · intro z hz
        simp only [List.mem_cons, List.not_mem_nil, or_false] at hz
        rcases hz with rfl | rfl
        · exact Or.inl rfl
        · exact Or.inr hhi
      · intro z hz
        simp only [List.mem_cons, List.not_mem_nil, or_false] at hz
        rcases hz with rfl | rfl
        · exact le_refl _
        · exact le_of_lt this)
    (by
      intro v lo hi depth p l r hhi hb hpv hlo hphi hd hl hr
      refine ⟨npUnique_pairwise _, ?_, ?_, ?_⟩
      · intro x hx
        rw [mem_npUnique, List.mem_append] at hx
        rcases hx with hx | hx
        · split at hl
          · rcases hl.2.1 x hx with h | h
            · exact Or.inl h
            · exact Or.inr (List.mem_filter.1 h).1
          · rw [hl] at hx; simp at hx
        · split at hr
          · rcases hr.2.1 x hx with h | h
            · exact Or.inr (h ▸ hpv)
            · exact Or.inr (List.mem_filter.1 h).1
          · rw [hr] at hx; simp at hx
      · intro x hx
        rw [mem_npUnique, List.mem_append] at hx
        rcases hx with hx | hx
        · split at hl
          · exact hl.2.2.1 x hx
          · rw [hl] at hx; simp at hx
        · split at hr
          · exact (le_of_lt hlo).trans (hr.2.2.1 x hx)
          · rw [hr] at hx; simp at hx
      · intro hlov
        rw [if_pos (length_filter_pos_of v p lo hpv hlov hlo)] at hl
        rw [mem_npUnique, List.mem_append]
        exact Or.inl (hl.2.2.2 (by simp [hlov, le_of_lt hlo])))
    v y hlen hex
  refine ⟨lo, pts, h1, h4, ?_, ?_, h3⟩
  · intro x hx
    rcases h5 x hx with rfl | h
    · exact h2
    · exact h
  · have hin := h7 h2
    cases pts with
    | nil => simp at hin
    | cons z zs =>
      simp only [List.head?_cons, Option.some.injEq]
      rcases List.mem_cons.1 hin with h | h
      · exact h.symm
      · have := (List.pairwise_cons.1 h4).1 lo h
        exact absurd (h6 z (by simp)) (not_le.2 this)

/-- C12: a column with one row fails with `ValueError` when no threshold is given (`log2(0)`), and an empty column always. -/
theorem C12_too_short [DecidableEq C] (lg : K → K) (ent : Bool → List K → List C → K) (maxDepth : Nat) (x : K) (c : C) :
    entropyPoints lg ent none maxDepth [x] [c] = .error .valueError ∧
      ∀ th, entropyPoints lg ent th maxDepth ([] : List K) ([] : List C) = .error .valueError := by
  refine ⟨?_, fun _ => rfl⟩
  have h1 : bestPoint (ent false) [x] [c] x x = .ok none := by
    unfold bestPoint npUnique
    simp [bestPointStep]
  have h2 : triangle2 [x] x x = .ok [[trimfAt x x x x], [trimfAt x x x x]] := by
    unfold triangle2 trimf
    simp [py_bind_ok]
  unfold entropyPoints npMin pyMin
  simp only [List.foldl_nil, py_bind_ok, List.length_singleton]
  unfold discretize
  simp only [npMax, List.foldl_nil, py_bind_ok, bne_self_eq_false]
  unfold splitPoint
  rw [h1]
  simp only [py_bind_ok, h2]
  rfl

/-! ### C13 -/

theorem count_filter_gt (v : List K) (p hi : K) (h : p < hi) : (v.filter (p < ·)).count hi = v.count hi := by
  rw [List.count_filter (by simpa using h)]

/-- C13, proved part: when the largest value of the column occurs at least twice, the last point is that largest value, so every
value of the column is between the first and the last point, and its degrees in the fuzzy sets made from the points add up to 1.
Missing: columns whose maximum occurs once, for which it is false (`C13_maximum_lost_false`). -/
theorem C13_covers_partial [DecidableEq C] (lg : K → K) (ent : Bool → List K → List C → K) (th : Option K) (maxDepth : Nat)
    (v : List K) (y : List C) (hlen : v.length = y.length) (hex : ∃ a ∈ v, ∃ b ∈ v, a ≠ b)
    (top : K) (htop : ∀ x ∈ v, x ≤ top) (htwice : 2 ≤ v.count top) :
    ∃ lo pts, entropyPoints lg ent th maxDepth v y = .ok pts ∧ pts.Pairwise (· < ·) ∧ pts.head? = some lo ∧
      (∀ x ∈ v, lo ≤ x) ∧ pts.getLast? = some top := by
  obtain ⟨lo, pts, h1, h2, h3, h4, h5⟩ := C12_entropy_points lg ent th maxDepth v y hlen hex
  obtain ⟨lo', pts', g1, g2, g3, g4⟩ := entropyPoints_of_induct lg ent th maxDepth
    (fun v _ _ pts => ∀ top, (∀ x ∈ v, x ≤ top) → 2 ≤ v.count top → top ∈ pts)
    (by
      intro v lo hi depth hhi hb _ top htop h2
      have : hi = top := le_antisymm (htop hi hhi) ((hb top (List.count_pos_iff.1 (by omega))).2)
      simp [this])
    (by
      intro v lo hi depth p l r hhi hb hpv hlo hphi hd hl hr top htop h2
      have e : hi = top := le_antisymm (htop hi hhi) ((hb top (List.count_pos_iff.1 (by omega))).2)
      rw [e] at hphi
      have hc := count_filter_gt v p top hphi
      have hlen : 1 < (v.filter (p < ·)).length := lt_of_lt_of_le (by omega) (List.count_le_length (a := top))
      rw [if_pos hlen] at hr
      rw [mem_npUnique, List.mem_append]
      exact Or.inr (hr top (fun x hx => htop x (List.mem_filter.1 hx).1) (by omega)))
    v y hlen hex
  rw [h1] at g1
  cases g1
  have hin := g4 top htop htwice
  refine ⟨lo, pts, h1, h2, h4, h5, ?_⟩
  have hne : pts ≠ [] := List.ne_nil_of_mem hin
  rw [List.getLast?_eq_some_getLast hne]
  congr 1
  apply le_antisymm
  · exact htop _ (h3 _ (List.getLast_mem hne))
  · obtain ⟨pre, z, rfl⟩ : ∃ pre z, pts = pre ++ [z] := ⟨pts.dropLast, pts.getLast hne, (List.dropLast_append_getLast hne).symm⟩
    simp only [List.getLast_append_singleton]
    rcases List.mem_append.1 hin with h | h
    · exact le_of_lt ((List.pairwise_append.1 h2).2.2 top h z (by simp))
    · simp only [List.mem_singleton] at h
      exact le_of_eq h

/-- C13, the consequence for memberships (same hypothesis). -/
theorem C13_sums_to_one_partial [DecidableEq C] (lg : K → K) (ent : Bool → List K → List C → K) (th : Option K) (maxDepth : Nat)
    (v : List K) (y : List C) (hlen : v.length = y.length) (hex : ∃ a ∈ v, ∃ b ∈ v, a ≠ b)
    (top : K) (htop : ∀ x ∈ v, x ≤ top) (htwice : 2 ≤ v.count top) (fmt : K → String) :
    ∃ pts sets, entropyPoints lg ent th maxDepth v y = .ok pts ∧
      getFuzzyContinuousSets false (pts.map (fun p => (fmt p, p))) = .ok sets ∧
      ∀ x ∈ v, ∃ ms : List K, sets.mapM (fun s => s.membership [.num x]) = .ok (ms.map (fun m => [m])) ∧ ms.sum = 1 := by
  obtain ⟨lo, pts, h1, h2, h3, h4, h5⟩ := C13_covers_partial lg ent th maxDepth v y hlen hex top htop htwice
  cases pts with
  | nil => simp at h3
  | cons p0 rest =>
    simp only [List.head?_cons, Option.some.injEq] at h3
    cases rest with
    | nil =>
      simp only [List.getLast?_singleton, Option.some.injEq] at h5
      obtain ⟨a, ha, b, hb, hab⟩ := hex
      exfalso
      have e : lo = top := by rw [← h3, h5]
      exact hab ((le_antisymm (htop a ha) (e ▸ h4 a ha)).trans (le_antisymm (htop b hb) (e ▸ h4 b hb)).symm)
    | cons p1 rest =>
      obtain ⟨sets, hs, -, hm⟩ := C02_strong_partition false (fmt p0, p0) (fmt p1, p1) (rest.map (fun p => (fmt p, p)))
        (fmt top, top)
        (by
          have : (fmt p0, p0) :: (fmt p1, p1) :: rest.map (fun p => (fmt p, p)) =
            (p0 :: p1 :: rest).map (fun p => (fmt p, p)) := rfl
          rw [this, List.getLast?_map, h5]; rfl)
        (by
          have : ((fmt p0, p0) :: (fmt p1, p1) :: rest.map (fun p => (fmt p, p))).map Prod.snd = p0 :: p1 :: rest := by
            simp [Function.comp_def]
          rw [this]; exact h2)
      refine ⟨_, sets, h1, hs, ?_⟩
      intro x hx
      obtain ⟨ms, hms, hsum, -⟩ := hm x
      refine ⟨ms, hms, hsum ?_ (htop x hx)⟩
      show p0 ≤ x
      rw [h3]
      exact h4 x hx

/-! ### C14 -/

/-- C14: `max_depth = d > 0` gives at most `2^d + 1` points. -/
theorem C14_max_depth [DecidableEq C] (lg : K → K) (ent : Bool → List K → List C → K) (th : Option K) (maxDepth : Nat)
    (v : List K) (y : List C) (hlen : v.length = y.length) (hex : ∃ a ∈ v, ∃ b ∈ v, a ≠ b) (hd : 0 < maxDepth) :
    ∃ pts, entropyPoints lg ent th maxDepth v y = .ok pts ∧ pts.length ≤ 2 ^ maxDepth + 1 := by
  obtain ⟨lo, pts, h1, h2, h3, h4, h5⟩ := entropyPoints_of_induct lg ent th maxDepth
    (fun v lo depth pts => pts.Nodup ∧ (depth ≤ maxDepth → ∀ hi ∈ v, (∀ x ∈ v, x ≤ hi) →
      ((insert hi pts.toFinset).erase lo).card ≤ 2 ^ (maxDepth - depth)))
    (by
      intro v lo hi depth hhi hb ⟨x, hx, hlt⟩
      have hl : lo < hi := lt_of_lt_of_le hlt (hb x hx).2
      refine ⟨by simp [hl.ne], ?_⟩
      intro _ hi' hhi' htop
      have e : hi' = hi := le_antisymm ((hb hi' hhi').2) (htop hi hhi)
      subst e
      have : ((insert hi' [lo, hi'].toFinset).erase lo) ⊆ {hi'} := by
        intro z hz
        simp only [List.toFinset_cons, List.toFinset_nil, Finset.mem_erase, Finset.mem_insert, Finset.notMem_empty,
          or_false, Finset.mem_singleton] at hz ⊢
        tauto
      calc _ ≤ ({hi'} : Finset K).card := Finset.card_le_card this
        _ = 1 := Finset.card_singleton _
        _ ≤ _ := Nat.one_le_two_pow)
    (by
      intro v lo hi depth p l r hhi hb hpv hlo hphi hdep hl hr
      refine ⟨npUnique_nodup _, ?_⟩
      intro _ hi' hhi' htop
      have e : hi' = hi := le_antisymm ((hb hi' hhi').2) (htop hi hhi)
      subst e
      have hdlt : depth < maxDepth := by rcases hdep with h | h <;> omega
      have hpow : 2 ^ (maxDepth - depth) = 2 ^ (maxDepth - (depth + 1)) + 2 ^ (maxDepth - (depth + 1)) := by
        rw [← two_mul, ← Nat.pow_succ']
        congr 1
        omega
      have hL : ((insert p l.toFinset).erase lo).card ≤ 2 ^ (maxDepth - (depth + 1)) := by
        split at hl
        · apply hl.2 hdlt p (by simp [hpv])
          intro x hx
          simpa using (List.mem_filter.1 hx).2
        · rw [hl]
          calc _ ≤ (insert p ([] : List K).toFinset).card := Finset.card_erase_le
            _ = 1 := by simp
            _ ≤ _ := Nat.one_le_two_pow
      have hR : ((insert hi' r.toFinset).erase p).card ≤ 2 ^ (maxDepth - (depth + 1)) := by
        split at hr
        · apply hr.2 hdlt hi' (by simp [hhi', hphi])
          intro x hx
          exact htop x (List.mem_filter.1 hx).1
        · rw [hr]
          calc _ ≤ (insert hi' ([] : List K).toFinset).card := Finset.card_erase_le
            _ = 1 := by simp
            _ ≤ _ := Nat.one_le_two_pow
      have hsub : ((insert hi' (npUnique (l ++ r)).toFinset).erase lo) ⊆
          ((insert p l.toFinset).erase lo) ∪ ((insert hi' r.toFinset).erase p) := by
        intro z hz
        simp only [Finset.mem_erase, Finset.mem_insert, List.mem_toFinset, mem_npUnique, List.mem_append,
          Finset.mem_union] at hz ⊢
        obtain ⟨hz1, hz2⟩ := hz
        by_cases hzp : z = p
        · left; exact ⟨hz1, Or.inl hzp⟩
        · rcases hz2 with h | h | h
          · right; exact ⟨hzp, Or.inl h⟩
          · left; exact ⟨hz1, Or.inr h⟩
          · right; exact ⟨hzp, Or.inr h⟩
      calc _ ≤ _ := Finset.card_le_card hsub
        _ ≤ _ := Finset.card_union_le _ _
        _ ≤ _ := Nat.add_le_add hL hR
        _ = _ := hpow.symm)
    v y hlen hex
  refine ⟨pts, h1, ?_⟩
  obtain ⟨hi, -, hhi, hmax⟩ := npMax_ok (List.ne_nil_of_mem h2)
  have := h5 (Nat.zero_le _) hi hhi hmax
  rw [Nat.sub_zero] at this
  have hsub : pts.toFinset ⊆ insert lo ((insert hi pts.toFinset).erase lo) := by
    intro z hz
    simp only [Finset.mem_insert, Finset.mem_erase]
    by_cases h : z = lo
    · exact Or.inl h
    · exact Or.inr ⟨h, Or.inr hz⟩
  have hc := (Finset.card_le_card hsub).trans (Finset.card_insert_le _ _)
  rw [List.toFinset_card_of_nodup h4] at hc
  omega

end

section
/-- an entropy for the examples: the fraction of the degrees outside the majority class, 0 for pure sets. -/
private def exEnt : Bool → List ℚ → List Nat → ℚ := fun _ mu y =>
  let a := classCard mu y 0
  let b := classCard mu y 1
  min a b / (a + b)

example : entropyPoints (fun x => x) exEnt (some 0) 0 [1, 2, 3, 3] [0, 1, 1, 1] = .ok [1, 2, 3] := by decide +kernel
example : entropyPoints (fun x => x) exEnt (some (-10)) 1 [1, 2, 3, 4, 5, 5] [0, 1, 0, 1, 0, 1] = .ok [1, 2, 5] := by
  decide +kernel
example : entropyPoints (fun x => x) exEnt (some 0) 0 [1, 2, 3] [0, 1, 1] = .ok [1, 2] := by decide +kernel
end

end Teacher
