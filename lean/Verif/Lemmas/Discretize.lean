import Verif.Model.Discretize
import Verif.Lemmas.FDTFit
import Mathlib.Data.Finset.Card
import Mathlib.Data.Finset.Dedup

/-! Lemmas about the entropy discretisation. -/

set_option linter.unusedSectionVars false

namespace Teacher

section
variable {C K : Type} [Field K] [LinearOrder K] [IsStrictOrderedRing K]

theorem foldl_max_spec (l : List K) (x : K) :
    (l.foldl max x ∈ x :: l) ∧ ∀ z ∈ x :: l, z ≤ l.foldl max x := by
  induction l generalizing x with
  | nil => simp
  | cons a l ih =>
    obtain ⟨h1, h2⟩ := ih (max x a)
    simp only [List.foldl_cons]
    constructor
    · rcases List.mem_cons.1 h1 with h | h
      · rw [h]
        rcases max_choice x a with h | h <;> rw [h] <;> simp
      · simp [h]
    · intro z hz
      have hm := h2 (max x a) (by simp)
      rcases List.mem_cons.1 hz with rfl | hz
      · exact (le_max_left _ _).trans hm
      · rcases List.mem_cons.1 hz with rfl | hz
        · exact (le_max_right _ _).trans hm
        · exact h2 z (by simp [hz])

theorem foldl_min_spec (l : List K) (x : K) :
    (l.foldl min x ∈ x :: l) ∧ ∀ z ∈ x :: l, l.foldl min x ≤ z := by
  induction l generalizing x with
  | nil => simp
  | cons a l ih =>
    obtain ⟨h1, h2⟩ := ih (min x a)
    simp only [List.foldl_cons]
    constructor
    · rcases List.mem_cons.1 h1 with h | h
      · rw [h]
        rcases min_choice x a with h | h <;> rw [h] <;> simp
      · simp [h]
    · intro z hz
      have hm := h2 (min x a) (by simp)
      rcases List.mem_cons.1 hz with rfl | hz
      · exact hm.trans (min_le_left _ _)
      · rcases List.mem_cons.1 hz with rfl | hz
        · exact hm.trans (min_le_right _ _)
        · exact h2 z (by simp [hz])

theorem npMax_ok {v : List K} (h : v ≠ []) : ∃ m, npMax v = .ok m ∧ m ∈ v ∧ ∀ x ∈ v, x ≤ m := by
  cases v with
  | nil => exact absurd rfl h
  | cons x xs => exact ⟨_, rfl, (foldl_max_spec xs x).1, (foldl_max_spec xs x).2⟩

theorem npMin_ok {v : List K} (h : v ≠ []) : ∃ m, npMin v = .ok m ∧ m ∈ v ∧ ∀ x ∈ v, m ≤ x := by
  cases v with
  | nil => exact absurd rfl h
  | cons x xs => exact ⟨_, rfl, (foldl_min_spec xs x).1, (foldl_min_spec xs x).2⟩

theorem triangle3_ok (v : List K) {lo p hi : K} (h1 : lo ≤ p) (h2 : p ≤ hi) : ∃ t, triangle3 v lo p hi = .ok t := by
  unfold triangle3 trimf
  rw [if_pos ⟨le_refl _, h1⟩, if_pos ⟨h1, h2⟩, if_pos ⟨h2, le_refl _⟩]
  exact ⟨_, rfl⟩

theorem triangle2_ok (v : List K) {lo hi : K} (h : lo ≤ hi) : ∃ t, triangle2 v lo hi = .ok t := by
  unfold triangle2 trimf
  rw [if_pos ⟨le_refl _, h⟩, if_pos ⟨h, le_refl _⟩]
  exact ⟨_, rfl⟩

theorem bestPoint_ok (ent : List K → List C → K) (v : List K) (y : List C) (lo hi : K) (h : ∀ x ∈ v, lo ≤ x ∧ x ≤ hi) :
    ∃ s, bestPoint ent v y lo hi = .ok s ∧ ∀ b, s = some b → b.1 ∈ v ∧ b.1 ≠ lo ∧ b.1 ≠ hi := by
  unfold bestPoint
  have key : ∀ (l : List K) (s : Option (K × K × List (List K))), (∀ x ∈ l, x ∈ v) →
      (∀ b, s = some b → b.1 ∈ v ∧ b.1 ≠ lo ∧ b.1 ≠ hi) →
      ∃ s', l.foldlM (bestPointStep ent v y lo hi) s = .ok s' ∧ ∀ b, s' = some b → b.1 ∈ v ∧ b.1 ≠ lo ∧ b.1 ≠ hi := by
    intro l
    induction l with
    | nil => intro s _ hs; exact ⟨s, rfl, hs⟩
    | cons x l ih =>
      intro s hl hs
      have hx := hl x (by simp)
      have hl' : ∀ x ∈ l, x ∈ v := fun z hz => hl z (by simp [hz])
      rw [List.foldlM_cons]
      unfold bestPointStep
      by_cases hc : x ≠ lo ∧ x ≠ hi
      · obtain ⟨t, ht⟩ := triangle3_ok v (h x hx).1 (h x hx).2
        rw [if_pos hc, ht]
        cases s with
        | none =>
          simp only [py_bind_ok, py_pure]
          exact ih _ hl' (by intro b hb; cases hb; exact ⟨hx, hc⟩)
        | some b₀ =>
          simp only [py_bind_ok, py_pure]
          apply ih _ hl'
          intro b hb
          split at hb
          · cases hb; exact ⟨hx, hc⟩
          · cases hb; exact hs _ rfl
      · rw [if_neg hc]
        simp only [py_bind_ok, py_pure]
        exact ih s hl' hs
  exact key (npUnique v) none (fun x hx => (mem_npUnique v x).1 hx) (by simp)

theorem splitPoint_ok [DecidableEq C] (lg : K → K) (ent : List K → List C → K) (th : Option K) (maxDepth depth : Nat)
    (v : List K) (y : List C) (lo hi : K) (h : ∀ x ∈ v, lo ≤ x ∧ x ≤ hi) (hlen : 1 < v.length) :
    ∃ s, splitPoint lg ent th maxDepth depth v y lo hi = .ok s ∧
      ∀ p, s = some p → p ∈ v ∧ p ≠ lo ∧ p ≠ hi ∧ (depth < maxDepth ∨ maxDepth = 0) := by
  obtain ⟨s, h1, h2⟩ := bestPoint_ok ent v y lo hi h
  have hlohi : lo ≤ hi := by
    obtain ⟨x, hx⟩ := List.exists_mem_of_length_pos (show 0 < v.length by omega)
    exact (h x hx).1.trans (h x hx).2
  obtain ⟨g, hg⟩ := triangle2_ok v hlohi
  have hth : ∃ t, gainThreshold lg ent th g (bestTriangle s) y v.length = .ok t := by
    unfold gainThreshold
    cases th with
    | some t => exact ⟨t, rfl⟩
    | none =>
      simp only
      rw [if_neg (by omega)]
      exact ⟨_, rfl⟩
  obtain ⟨t, ht⟩ := hth
  unfold splitPoint
  rw [h1]
  simp only [py_bind_ok, hg, ht, py_pure]
  refine ⟨_, rfl, ?_⟩
  intro p hp
  cases s with
  | none => simp at hp
  | some b =>
    obtain ⟨b1, b2, b3⟩ := h2 b rfl
    obtain ⟨q, w, tri⟩ := b
    simp only at hp
    split at hp
    · rename_i hc
      cases hp
      exact ⟨b1, b2, b3, hc.1⟩
    · cases hp

/-- induction principle for the results of `_fuzzy_discretization`: a property of (column, lower point, remaining splits,
points) that holds for the leaves and is kept by a split holds for every result. -/
theorem discretize_induct [DecidableEq C] (lg : K → K) (ent : Bool → List K → List C → K) (th : Option K) (maxDepth : Nat)
    (P : List K → K → Nat → List K → Prop)
    (hleaf : ∀ v lo hi depth, hi ∈ v → (∀ x ∈ v, lo ≤ x ∧ x ≤ hi) → (∃ x ∈ v, lo < x) → P v lo depth [lo, hi])
    (hsplit : ∀ v lo hi depth p l r, hi ∈ v → (∀ x ∈ v, lo ≤ x ∧ x ≤ hi) → p ∈ v → lo < p → p < hi →
      (depth < maxDepth ∨ maxDepth = 0) →
      (if 1 < (v.filter (· ≤ p)).length then P (v.filter (· ≤ p)) lo (depth + 1) l else l = []) →
      (if 1 < (v.filter (p < ·)).length then P (v.filter (p < ·)) p (depth + 1) r else r = []) →
      P v lo depth (npUnique (l ++ r))) :
    ∀ (fuel : Nat) (v : List K) (y : List C) (lo : K) (depth : Nat), v.length = y.length → v.length < fuel + 1 → 1 < v.length →
      (∀ x ∈ v, lo ≤ x) → (∃ x ∈ v, lo < x) →
      ∃ pts, discretize lg ent th maxDepth (fuel + 1) v y lo depth = .ok pts ∧ P v lo depth pts := by
  intro fuel
  induction fuel with
  | zero => intro v y lo depth _ h1 h2; omega
  | succ fuel ih =>
    intro v y lo depth hlen hfuel h1 hlo hex
    have hne : v ≠ [] := by intro h; rw [h] at h1; simp at h1
    obtain ⟨hi, hhi, hmem, hmax⟩ := npMax_ok hne
    have hb : ∀ x ∈ v, lo ≤ x ∧ x ≤ hi := fun x hx => ⟨hlo x hx, hmax x hx⟩
    obtain ⟨s, hs, hsp⟩ := splitPoint_ok lg (ent (depth != 0)) th maxDepth depth v y lo hi hb h1
    unfold discretize
    rw [hhi]
    simp only [py_bind_ok, hs]
    cases s with
    | none => exact ⟨_, rfl, hleaf v lo hi depth hmem hb hex⟩
    | some p =>
      obtain ⟨hpv, hplo, hphi, hd⟩ := hsp p rfl
      have hlop : lo < p := lt_of_le_of_ne (hlo p hpv) (Ne.symm hplo)
      have hphi' : p < hi := lt_of_le_of_ne (hmax p hpv) hphi
      have hfst : ∀ q : K → Bool, (((v.zip y).filter (fun t => q t.1)).map Prod.fst) = v.filter q := by
        intro q
        have : v = (v.zip y).map Prod.fst := by rw [List.map_fst_zip (by omega)]
        conv_rhs => rw [this]
        rw [List.filter_map]
        rfl
      have hl := hfst (fun x => decide (x ≤ p))
      have hr := hfst (fun x => decide (p < x))
      have hllen : (v.filter (· ≤ p)).length + (v.filter (p < ·)).length = v.length := by
        have := List.length_eq_length_filter_add (l := v) (fun x => decide (x ≤ p))
        have e : (fun x : K => !decide (x ≤ p)) = fun x => decide (p < x) := by funext x; simp [← not_le]
        rw [e] at this
        exact this.symm
      have hpl : p ∈ v.filter (· ≤ p) := by simp [hpv]
      have hhr : hi ∈ v.filter (p < ·) := by simp [hmem, hphi']
      have hl0 : 0 < (v.filter (· ≤ p)).length := List.length_pos_of_mem hpl
      have hr0 : 0 < (v.filter (p < ·)).length := List.length_pos_of_mem hhr
      have hL : ∃ l, branchPoints (fun v y => discretize lg ent th maxDepth (fuel + 1) v y lo (depth + 1))
          ((v.zip y).filter (fun q => q.1 ≤ p)) = .ok l ∧
          (if 1 < (v.filter (· ≤ p)).length then P (v.filter (· ≤ p)) lo (depth + 1) l else l = []) := by
        have hlen' : ((v.zip y).filter (fun q => q.1 ≤ p)).length = (v.filter (· ≤ p)).length := by
          rw [← hl, List.length_map]
        unfold branchPoints
        rw [hlen', hl]
        by_cases hc : 1 < (v.filter (· ≤ p)).length
        · simp only [if_pos hc]
          apply ih
          · rw [List.length_map, hlen']
          · omega
          · exact hc
          · intro x hx; exact hlo x (List.mem_filter.1 hx).1
          · exact ⟨p, hpl, hlop⟩
        · simp only [if_neg hc]
          exact ⟨[], rfl, rfl⟩
      have hR : ∃ r, branchPoints (fun v y => discretize lg ent th maxDepth (fuel + 1) v y p (depth + 1))
          ((v.zip y).filter (fun q => p < q.1)) = .ok r ∧
          (if 1 < (v.filter (p < ·)).length then P (v.filter (p < ·)) p (depth + 1) r else r = []) := by
        have hlen' : ((v.zip y).filter (fun q => p < q.1)).length = (v.filter (p < ·)).length := by
          rw [← hr, List.length_map]
        unfold branchPoints
        rw [hlen', hr]
        by_cases hc : 1 < (v.filter (p < ·)).length
        · simp only [if_pos hc]
          apply ih
          · rw [List.length_map, hlen']
          · omega
          · exact hc
          · intro x hx; exact le_of_lt (by simpa using (List.mem_filter.1 hx).2)
          · exact ⟨hi, hhr, hphi'⟩
        · simp only [if_neg hc]
          exact ⟨[], rfl, rfl⟩
      obtain ⟨l, hl1, hl2⟩ := hL
      obtain ⟨r, hr1, hr2⟩ := hR
      simp only [hl1, hr1, py_bind_ok]
      exact ⟨_, rfl, hsplit v lo hi depth p l r hmem hb hpv hlop hphi' hd hl2 hr2⟩

end

end Teacher
