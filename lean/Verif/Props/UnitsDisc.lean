import Verif.Props.Units
import Verif.Props.EqualBins
import Verif.Props.Discretize

/-! # C160: the fuzzy points found in a column do not depend on the unit of the column -/

namespace Teacher
set_option linter.unusedSectionVars false

section
variable {C K : Type} [Field K] [LinearOrder K] [IsStrictOrderedRing K] [LinearOrder C]

theorem npMax_unit (u : Spec.Unit K) (v : List K) : npMax (v.map u.app) = (npMax v).map u.app := by
  cases v with
  | nil => rfl
  | cons x xs =>
    simp only [List.map_cons, npMax, Except.map]
    congr 1
    induction xs generalizing x with
    | nil => rfl
    | cons z xs ih =>
      simp only [List.map_cons, List.foldl_cons]
      rw [← ih]
      congr 1
      rcases le_total x z with h | h
      · rw [max_eq_right h, max_eq_right (u.app_le.mpr h)]
      · rw [max_eq_left h, max_eq_left (u.app_le.mpr h)]

theorem npMin_unit (u : Spec.Unit K) (v : List K) : npMin (v.map u.app) = (npMin v).map u.app := by
  unfold npMin
  cases v with
  | nil => rfl
  | cons x xs =>
    simp only [List.map_cons, pyMin, Except.map]
    congr 1
    induction xs generalizing x with
    | nil => rfl
    | cons z xs ih =>
      simp only [List.map_cons, List.foldl_cons]
      rw [← ih]
      congr 1
      rcases le_total x z with h | h
      · rw [min_eq_left h, min_eq_left (u.app_le.mpr h)]
      · rw [min_eq_right h, min_eq_right (u.app_le.mpr h)]

theorem npUnique_unit (u : Spec.Unit K) (v : List K) : npUnique (v.map u.app) = (npUnique v).map u.app := by
  apply npUnique_eq_of
  · exact List.Pairwise.map _ (fun a b h => u.app_lt.mpr h) (npUnique_pairwise v)
  · intro x
    simp only [List.mem_map, mem_npUnique]

theorem trimf_unit (u : Spec.Unit K) (a b c : K) (v : List K) : trimf (u.app a) (u.app b) (u.app c) (v.map u.app) = trimf a b c v := by
  unfold trimf
  simp only [u.app_le, List.map_map]
  congr 2
  apply List.map_congr_left
  intro x _
  exact trimfAt_unit u a b c x

theorem triangle2_unit (u : Spec.Unit K) (v : List K) (lo hi : K) : triangle2 (v.map u.app) (u.app lo) (u.app hi) = triangle2 v lo hi := by
  unfold triangle2
  simp only [trimf_unit]

theorem triangle3_unit (u : Spec.Unit K) (v : List K) (lo mid hi : K) :
    triangle3 (v.map u.app) (u.app lo) (u.app mid) (u.app hi) = triangle3 v lo mid hi := by
  unfold triangle3
  simp only [trimf_unit]

/-- a candidate cut point in the new unit, with its entropy and triangles. -/
def bestU (u : Spec.Unit K) (s : Option (K × K × List (List K))) : Option (K × K × List (List K)) := s.map (fun q => (u.app q.1, q.2))

theorem bestPointStep_unit (u : Spec.Unit K) (ent : List K → List C → K) (v : List K) (y : List C) (lo hi : K)
    (s : Option (K × K × List (List K))) (p : K) :
    bestPointStep ent (v.map u.app) y (u.app lo) (u.app hi) (bestU u s) (u.app p) = (bestPointStep ent v y lo hi s p).map (bestU u) := by
  unfold bestPointStep
  simp only [ne_eq, u.app_inj, triangle3_unit]
  split
  · cases triangle3 v lo p hi with
    | error e => rfl
    | ok tri =>
      simp only [py_bind_ok]
      cases s with
      | none => rfl
      | some q =>
        obtain ⟨p0, w0, t0⟩ := q
        simp only [bestU, Option.map_some, Except.map, py_pure]
        split <;> rfl
  · rfl

theorem bestPoint_unit (u : Spec.Unit K) (ent : List K → List C → K) (v : List K) (y : List C) (lo hi : K) :
    bestPoint ent (v.map u.app) y (u.app lo) (u.app hi) = (bestPoint ent v y lo hi).map (bestU u) := by
  unfold bestPoint
  rw [npUnique_unit]
  have : ∀ (l : List K) (s : Option (K × K × List (List K))), (l.map u.app).foldlM (bestPointStep ent (v.map u.app) y (u.app lo) (u.app hi)) (bestU u s) =
      (l.foldlM (bestPointStep ent v y lo hi) s).map (bestU u) := by
    intro l
    induction l with
    | nil => intro s; rfl
    | cons p l ih =>
      intro s
      rw [List.map_cons, List.foldlM_cons, List.foldlM_cons, bestPointStep_unit]
      cases bestPointStep ent v y lo hi s p with
      | error e => rfl
      | ok s' => exact ih s'
  exact this _ none

theorem bestTriangle_unit (u : Spec.Unit K) (s : Option (K × K × List (List K))) : bestTriangle (bestU u s) = bestTriangle s := by
  cases s <;> rfl

theorem splitPoint_unit (u : Spec.Unit K) (lg : K → K) (ent : List K → List C → K) (th : Option K) (maxDepth depth : Nat) (v : List K)
    (y : List C) (lo hi : K) :
    splitPoint lg ent th maxDepth depth (v.map u.app) y (u.app lo) (u.app hi) = (splitPoint lg ent th maxDepth depth v y lo hi).map (Option.map u.app) := by
  unfold splitPoint
  rw [bestPoint_unit, triangle2_unit, List.length_map]
  cases bestPoint ent v y lo hi with
  | error e => rfl
  | ok best =>
    simp only [Except.map, py_bind_ok, bestTriangle_unit]
    cases triangle2 v lo hi with
    | error e => rfl
    | ok global =>
      simp only [py_bind_ok]
      cases gainThreshold lg ent th global (bestTriangle best) y v.length with
      | error e => rfl
      | ok threshold =>
        simp only [py_bind_ok, py_pure]
        cases best with
        | none => rfl
        | some q =>
          obtain ⟨p, w, t⟩ := q
          simp only [bestU, Option.map_some]
          split <;> rfl

theorem branch_unit (u : Spec.Unit K) (v : List K) (y : List C) (q : K → Bool) (q' : K → Bool) (hq : ∀ x, q' (u.app x) = q x) :
    ((v.map u.app).zip y).filter (fun a => q' a.1) = ((v.zip y).filter (fun a => q a.1)).map (fun a => (u.app a.1, a.2)) := by
  induction v generalizing y with
  | nil => rfl
  | cons x v ih =>
    cases y with
    | nil => rfl
    | cons c y =>
      simp only [List.map_cons, List.zip_cons_cons, List.filter_cons, hq]
      split
      · rw [List.map_cons, ih]
      · exact ih y

theorem branchPoints_unit (u : Spec.Unit K) {rec rec' : List K → List C → Py (List K)}
    (hrec : ∀ v y, rec' (v.map u.app) y = (rec v y).map (List.map u.app)) (b : List (K × C)) :
    branchPoints rec' (b.map (fun a => (u.app a.1, a.2))) = (branchPoints rec b).map (List.map u.app) := by
  unfold branchPoints
  rw [List.length_map]
  split
  · rw [List.map_map, List.map_map, ← hrec, List.map_map]
    rfl
  · rfl

theorem discretize_unit (u : Spec.Unit K) (lg : K → K) (ent : Bool → List K → List C → K) (th : Option K) (maxDepth : Nat) :
    ∀ (fuel : Nat) (v : List K) (y : List C) (lo : K) (depth : Nat),
      discretize lg ent th maxDepth fuel (v.map u.app) y (u.app lo) depth = (discretize lg ent th maxDepth fuel v y lo depth).map (List.map u.app) := by
  intro fuel
  induction fuel with
  | zero => intro v y lo depth; rfl
  | succ fuel ih =>
    intro v y lo depth
    simp only [discretize]
    rw [npMax_unit]
    cases npMax v with
    | error e => rfl
    | ok hi =>
      simp only [Except.map, py_bind_ok]
      rw [splitPoint_unit]
      cases splitPoint lg (ent (depth != 0)) th maxDepth depth v y lo hi with
      | error e => rfl
      | ok s =>
        simp only [Except.map, py_bind_ok]
        cases s with
        | none => rfl
        | some p =>
          simp only [Option.map_some]
          rw [branch_unit u v y (fun x => decide (x ≤ p)) (fun x => decide (x ≤ u.app p)) (fun x => by simp [u.app_le]),
            branch_unit u v y (fun x => decide (p < x)) (fun x => decide (u.app p < x)) (fun x => by simp [u.app_lt]),
            branchPoints_unit u (rec := fun v y => discretize lg ent th maxDepth fuel v y lo (depth + 1)) (fun v y => ih v y lo (depth + 1)),
            branchPoints_unit u (rec := fun v y => discretize lg ent th maxDepth fuel v y p (depth + 1)) (fun v y => ih v y p (depth + 1))]
          generalize branchPoints (fun v y => discretize lg ent th maxDepth fuel v y lo (depth + 1)) _ = A
          generalize branchPoints (fun v y => discretize lg ent th maxDepth fuel v y p (depth + 1)) _ = B
          cases A with
          | error e => rfl
          | ok a =>
            cases B with
            | error e => rfl
            | ok b => simp only [Except.map, py_bind_ok, py_pure, ← npUnique_unit, List.map_append]

/-- **C160** for the points by entropy: the fuzzy points of a column in another unit are the fuzzy points of the column, in that unit (and the search
fails in one unit exactly when it fails in the other). For every entropy, threshold and depth. -/
theorem C160_entropy (u : Spec.Unit K) (lg : K → K) (ent : Bool → List K → List C → K) (th : Option K) (maxDepth : Nat) (v : List K) (y : List C) :
    entropyPoints lg ent th maxDepth (v.map u.app) y = (entropyPoints lg ent th maxDepth v y).map (List.map u.app) := by
  unfold entropyPoints
  rw [npMin_unit, List.length_map]
  cases npMin v with
  | error e => rfl
  | ok lo => exact discretize_unit u lg ent th maxDepth _ v y lo 0

/-! ### equal width and equal frequency -/

/-- a rounding of the edges that commutes with the change of unit (for example no rounding at all). -/
def Spec.RoundsIn (u : Spec.Unit K) (fmt : List K → List K) : Prop := ∀ l, fmt (l.map u.app) = (fmt l).map u.app

theorem linspaceBins_unit (u : Spec.Unit K) (lo hi : K) (k : Nat) : linspaceBins (u.app lo) (u.app hi) k = (linspaceBins lo hi k).map u.app := by
  unfold linspaceBins
  rw [List.map_map]
  apply List.map_congr_left
  intro i _
  simp only [Function.comp, u.app_sub]
  unfold Spec.Unit.app
  ring

theorem setFirst_unit (u : Spec.Unit K) (m : K) (e : List K) : setFirst (u.app m) (e.map u.app) = (setFirst m e).map (List.map u.app) := by
  cases e <;> rfl

theorem npSort_unit (u : Spec.Unit K) (v : List K) : npSort (v.map u.app) = (npSort v).map u.app := by
  unfold npSort
  apply List.Perm.eq_of_pairwise (le := (· ≤ ·)) (fun a b _ _ h1 h2 => le_antisymm h1 h2)
  · exact List.pairwise_insertionSort _ _
  · exact List.Pairwise.map _ (fun a b h => u.app_le.mpr h) (List.pairwise_insertionSort _ v)
  · exact (List.perm_insertionSort _ _).trans ((List.perm_insertionSort _ v).symm.map _)

theorem quantile_unit (u : Spec.Unit K) {v : List K} (hv : v ≠ []) {k i : Nat} (hk : 0 < k) (hi : i ≤ k) :
    quantile (v.map u.app) k i = u.app (quantile v k i) := by
  have hlen : (npSort v).length = v.length := npSort_length v
  have hpos : 0 < v.length := List.length_pos_iff.mpr hv
  have hle : (v.length - 1) * i ≤ (v.length - 1) * k := Nat.mul_le_mul_left _ hi
  have hp : (v.length - 1) * i / k < (npSort v).length := by
    rw [hlen]
    have : (v.length - 1) * i / k ≤ v.length - 1 := by
      rw [Nat.div_le_iff_le_mul_add_pred hk]
      calc (v.length - 1) * i ≤ (v.length - 1) * k := hle
        _ = k * (v.length - 1) := Nat.mul_comm _ _
        _ ≤ _ := Nat.le_add_right _ _
    omega
  unfold quantile
  simp only [npSort_unit, List.length_map, List.getD_eq_getElem?_getD, List.getElem?_map]
  rw [List.getElem?_eq_getElem hp]
  simp only [Option.map_some, Option.getD_some]
  by_cases hm : (v.length - 1) * i % k = 0
  · rw [hm]
    simp
  · have hp1 : (v.length - 1) * i / k + 1 < (npSort v).length := by
      rw [hlen]
      by_contra hc
      have h1 : v.length - 1 ≤ (v.length - 1) * i / k := by omega
      have h2 : (v.length - 1) * k ≤ (v.length - 1) * i := by
        calc (v.length - 1) * k ≤ ((v.length - 1) * i / k) * k := Nat.mul_le_mul_right _ h1
          _ ≤ _ := Nat.div_mul_le_self _ _
      have h3 : (v.length - 1) * i = (v.length - 1) * k := le_antisymm hle h2
      rw [h3, Nat.mul_mod_left] at hm
      exact hm rfl
    rw [List.getElem?_eq_getElem hp1]
    simp only [Option.map_some, Option.getD_some, u.app_sub]
    unfold Spec.Unit.app
    ring

theorem quantiles_unit (u : Spec.Unit K) {v : List K} (hv : v ≠ []) {k : Nat} (hk : 0 < k) : quantiles (v.map u.app) k = (quantiles v k).map u.app := by
  unfold quantiles
  rw [List.map_map]
  apply List.map_congr_left
  intro i hi
  exact quantile_unit u hv hk (by have := List.mem_range.mp hi; omega)

theorem dedup_unit_length (u : Spec.Unit K) (l : List K) : (l.map u.app).dedup.length = l.dedup.length := by
  rw [List.dedup_map_of_injective (fun a b h => u.app_inj.mp h), List.length_map]

/-- **C160**, partial, for the points of equal width: the points of the column in the other unit, if the rounding of the labels of `pd.cut` commutes
with the change of unit (`C160_rounding_false`: the rounding to three digits does not). -/
theorem C160_equal_width_partial (u : Spec.Unit K) {fmt : List K → List K} (hf : Spec.RoundsIn u fmt) (v : List K) (k : Nat) :
    equalWidth fmt (v.map u.app) k = (equalWidth fmt v k).map (List.map u.app) := by
  unfold equalWidth
  rw [npMin_unit, npMax_unit]
  cases npMin v with
  | error e => rfl
  | ok lo =>
    cases npMax v with
    | error e => rfl
    | ok hi =>
      simp only [Except.map, py_bind_ok]
      rw [linspaceBins_unit, hf, setFirst_unit]
      rfl

/-- **C160**, partial, for the points of equal frequency, under the same condition on the rounding. -/
theorem C160_equal_freq_partial (u : Spec.Unit K) {fmt : List K → List K} (hf : Spec.RoundsIn u fmt) (v : List K) {k : Nat} (hk : 0 < k) :
    equalFreq fmt (v.map u.app) k = (equalFreq fmt v k).map (List.map u.app) := by
  by_cases hv : v = []
  · subst hv; rfl
  unfold equalFreq
  rw [npMin_unit]
  cases npMin v with
  | error e => rfl
  | ok lo =>
    simp only [Except.map, py_bind_ok]
    have hq : qcut fmt (v.map u.app) k = (qcut fmt v k).map (List.map u.app) := by
      unfold qcut
      rw [quantiles_unit u hv hk, dedup_unit_length, List.length_map, hf]
      split <;> rfl
    rw [hq]
    cases qcut fmt v k with
    | ok e =>
      simp only [Except.map]
      rw [setFirst_unit]
      rfl
    | error e =>
      simp only [Except.map]
      unfold qcutDrop
      rw [quantiles_unit u hv hk, npUnique_unit, hf, setFirst_unit]
      cases setFirst lo (fmt (npUnique (quantiles v k))) <;> rfl

end

/-- months and years, by entropy. -/
example : entropyPoints (fun x : ℚ => x) (fun _ mu y => min (classCard mu y 0) (classCard mu y 1) / (classCard mu y 0 + classCard mu y 1)) (some 0) 0
    ([1, 2, 3, 3].map (Spec.Unit.app ⟨12, 0, by norm_num⟩)) [0, 1, 1, 1] = .ok [12, 24, 36] := by
  rw [C160_entropy]
  decide +kernel

/-- without rounding both ways of binning follow the unit. -/
example : equalWidth id ([0, 3, 6].map (Spec.Unit.app ⟨12, 5, by norm_num⟩)) 3 = .ok ([0, 2, 4, 6].map (Spec.Unit.app (K := ℚ) ⟨12, 5, by norm_num⟩)) ∧
    equalFreq id ([0, 3, 6].map (Spec.Unit.app ⟨12, 5, by norm_num⟩)) 2 = .ok ([0, 3, 6].map (Spec.Unit.app (K := ℚ) ⟨12, 5, by norm_num⟩)) := by
  constructor
  · rw [C160_equal_width_partial (fmt := id) _ (fun l => rfl)]; decide +kernel
  · rw [C160_equal_freq_partial (fmt := id) _ (fun l => rfl) _ (k := 2) (by decide)]; decide +kernel

/-- rounding to three digits after the point. -/
def exRound3 (l : List ℚ) : List ℚ := l.map (fun x => (⌊1000 * x + 1 / 2⌋ : ℚ) / 1000)

/-- **C160** is false for `pd.cut` with labels rounded to three digits: the second point of `[0, 1]` with three intervals is 0.333 years, but 4
months. -/
theorem C160_rounding_false : ∃ (u : Spec.Unit ℚ) (v : List ℚ) (k : Nat), equalWidth exRound3 (v.map u.app) k ≠ (equalWidth exRound3 v k).map (List.map u.app) := by
  refine ⟨⟨12, 0, by norm_num⟩, [0, 1], 3, ?_⟩
  decide +kernel

end Teacher
