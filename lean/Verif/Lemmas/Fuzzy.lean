import Verif.Model.FuzzySet
import Verif.Spec.Fuzzy
import Verif.Lemmas.Basic
import Mathlib.Tactic.FieldSimp
import Mathlib.Tactic.Ring
import Mathlib.Tactic.Linarith

/-! Lemmas about triangles. -/

set_option linter.unusedSectionVars false

namespace Teacher
open Spec

variable {K : Type} [Field K] [LinearOrder K] [IsStrictOrderedRing K]

theorem trimfAt_isTriangle {a b c : K} (hab : a ≤ b) (hbc : b ≤ c) : IsTriangle a b c (trimfAt a b c) where
  peak := by simp [trimfAt]
  rise x h1 h2 := by
    have h3 : x ≠ b := ne_of_lt h2
    have h4 : ¬ (b < x) := not_lt.2 h2.le
    have h5 : a ≠ b := ne_of_lt (h1.trans h2)
    simp [trimfAt, h3, h4, h5, h1, h2]
  fall x h1 h2 := by
    have h3 : x ≠ b := ne_of_gt h1
    have h5 : b ≠ c := ne_of_lt (h1.trans h2)
    simp [trimfAt, h3, h5, h1, h2]
  left x h1 h2 := by
    have h4 : ¬ (b < x) := not_lt.2 (h1.trans hab)
    have h5 : ¬ (a < x) := not_lt.2 h1
    simp [trimfAt, h2, h4, h5]
  right x h1 h2 := by
    have h4 : ¬ (x < c) := not_lt.2 h1
    have h5 : ¬ (x < b) := not_lt.2 (hbc.trans h1)
    simp [trimfAt, h2, h4, h5]

theorem Spec.IsTriangle.unique {a b c : K} {μ ν : K → K} (h : IsTriangle a b c μ) (h' : IsTriangle a b c ν) : μ = ν := by
  funext x
  rcases eq_or_ne x b with rfl | hb
  · rw [h.peak, h'.peak]
  · rcases lt_or_gt_of_ne hb with hlt | hgt
    · rcases le_or_gt x a with h1 | h1
      · rw [h.left x h1 hb, h'.left x h1 hb]
      · rw [h.rise x h1 hlt, h'.rise x h1 hlt]
    · rcases le_or_gt c x with h1 | h1
      · rw [h.right x h1 hb, h'.right x h1 hb]
      · rw [h.fall x hgt h1, h'.fall x hgt h1]

theorem Spec.IsTriangle.nonneg {a b c : K} {μ : K → K} (h : IsTriangle a b c μ) (x : K) : 0 ≤ μ x := by
  rcases lt_trichotomy x b with hlt | rfl | hgt
  · rcases le_or_gt x a with h1 | h1
    · rw [h.left x h1 hlt.ne]
    · rw [h.rise x h1 hlt]
      apply div_nonneg <;> linarith
  · rw [h.peak]; exact zero_le_one
  · rcases le_or_gt c x with h1 | h1
    · rw [h.right x h1 hgt.ne']
    · rw [h.fall x hgt h1]
      apply div_nonneg <;> linarith

theorem Spec.IsTriangle.lt_one {a b c : K} {μ : K → K} (h : IsTriangle a b c μ) (x : K) (hx : x ≠ b) : μ x < 1 := by
  rcases lt_or_gt_of_ne hx with hlt | hgt
  · rcases le_or_gt x a with h1 | h1
    · rw [h.left x h1 hlt.ne]; exact zero_lt_one
    · rw [h.rise x h1 hlt, div_lt_one (by linarith)]; linarith
  · rcases le_or_gt c x with h1 | h1
    · rw [h.right x h1 hgt.ne']; exact zero_lt_one
    · rw [h.fall x hgt h1, div_lt_one (by linarith)]; linarith

theorem Spec.IsTriangle.le_one {a b c : K} {μ : K → K} (h : IsTriangle a b c μ) (x : K) : μ x ≤ 1 := by
  rcases eq_or_ne x b with rfl | hb
  · exact h.peak.le
  · exact (h.lt_one x hb).le

theorem Spec.IsTriangle.pos_iff {a b c : K} {μ : K → K} (hab : a ≤ b) (hbc : b ≤ c) (h : IsTriangle a b c μ) (x : K) :
    0 < μ x ↔ (a < x ∧ x < c) ∨ x = b := by
  rcases lt_trichotomy x b with hlt | rfl | hgt
  · rcases le_or_gt x a with h1 | h1
    · rw [h.left x h1 hlt.ne]; simp [not_lt.2 h1, hlt.ne]
    · rw [h.rise x h1 hlt]
      have : 0 < (x - a) / (b - a) := div_pos (by linarith) (by linarith)
      simp [this, h1, lt_of_lt_of_le hlt hbc]
  · rw [h.peak]; simp
  · rcases le_or_gt c x with h1 | h1
    · rw [h.right x h1 hgt.ne']; simp [not_lt.2 h1, hgt.ne']
    · rw [h.fall x hgt h1]
      have : 0 < (c - x) / (c - b) := div_pos (by linarith) (by linarith)
      simp [this, h1, lt_of_le_of_lt hab hgt]

theorem Spec.IsTriangle.mono {a b c : K} {μ : K → K} (h : IsTriangle a b c μ) (x y : K) (hxy : x ≤ y) (hy : y ≤ b) :
    μ x ≤ μ y := by
  rcases eq_or_lt_of_le hy with rfl | hy
  · rw [h.peak]; exact h.le_one x
  · rcases le_or_gt x a with h1 | h1
    · rw [h.left x h1 (lt_of_le_of_lt hxy hy).ne]; exact h.nonneg y
    · rw [h.rise x h1 (lt_of_le_of_lt hxy hy), h.rise y (h1.trans_le hxy) hy]
      apply div_le_div_of_nonneg_right <;> linarith

theorem Spec.IsTriangle.anti {a b c : K} {μ : K → K} (h : IsTriangle a b c μ) (x y : K) (hx : b ≤ x) (hxy : x ≤ y) :
    μ y ≤ μ x := by
  rcases eq_or_lt_of_le hx with rfl | hx
  · rw [h.peak]; exact h.le_one y
  · rcases le_or_gt c y with h1 | h1
    · rw [h.right y h1 (lt_of_lt_of_le hx hxy).ne']; exact h.nonneg x
    · rw [h.fall y (lt_of_lt_of_le hx hxy) h1, h.fall x hx (hxy.trans_lt h1)]
      apply div_le_div_of_nonneg_right <;> linarith

theorem Spec.IsTriangle.isDegree {a b c : K} {μ : K → K} (hab : a ≤ b) (hbc : b ≤ c) (h : IsTriangle a b c μ) :
    IsDegree a b c μ where
  nonneg := h.nonneg
  le_one := h.le_one
  eq_one_iff x := ⟨fun h1 => by by_contra hx; exact (h.lt_one x hx).ne h1, fun hx => hx ▸ h.peak⟩
  pos_iff := h.pos_iff hab hbc
  mono := h.mono
  anti := h.anti

/-! ## vectors -/

theorem CSet.membership_nums {s : CSet K} (h : s.a ≤ s.b ∧ s.b ≤ s.c) (xs : List K) :
    s.membership (xs.map .num) = .ok (xs.map (trimfAt s.a s.b s.c)) := by
  unfold CSet.membership
  rw [if_pos h, mapM_ok_of_forall (g := fun x => match x with | .num x => trimfAt s.a s.b s.c x | .str _ => 0)]
  · simp [List.map_map, Function.comp_def]
  · intro x hx
    obtain ⟨y, _, rfl⟩ := List.mem_map.1 hx
    rfl

/-- the condition under which a set can be evaluated on a cell. -/
def FSet.Evaluable (s : FSet K) : Prop :=
  match s with
  | .cont s => s.a ≤ s.b ∧ s.b ≤ s.c
  | .disc _ => True

theorem FSet.membership_ok_iff (s : FSet K) (v : List (Cell K)) (ms : List K) :
    s.membership v = .ok ms ↔ s.Evaluable ∧ List.Forall₂ (fun x m => s.membership [x] = .ok [m]) v ms := by
  cases s with
  | cont s =>
    simp only [FSet.membership, FSet.Evaluable, CSet.membership]
    by_cases h : s.a ≤ s.b ∧ s.b ≤ s.c
    · simp only [h, and_self, if_true, true_and, mapM_ok_iff]
      constructor <;> intro hf <;> refine hf.imp ?_ <;> intro x m hx
      · exact .cons hx .nil
      · cases hx; assumption
    · simp [h]
  | disc s =>
    simp only [FSet.membership, FSet.Evaluable, DSet.membership, true_and, Except.ok.injEq, List.map_cons,
      List.map_nil, List.cons.injEq, and_true]
    constructor
    · rintro rfl
      rw [List.forall₂_map_right_iff, List.forall₂_same]
      intros; rfl
    · intro h
      induction h with
      | nil => rfl
      | cons hx _ ih => simp [hx, ih]

theorem FSet.membership_singleton_range {s : FSet K} {x : Cell K} {m : K} (h : s.membership [x] = .ok [m]) :
    0 ≤ m ∧ m ≤ 1 := by
  cases s with
  | cont s =>
    simp only [FSet.membership, CSet.membership] at h
    split at h
    · rename_i hs
      cases x with
      | str _ =>
        simp only [List.mapM_cons, List.mapM_nil, py_pure] at h
        by_cases he : s.a = s.b ∧ s.b = s.c
        · rw [if_pos he] at h
          simp only [py_bind_ok, Except.ok.injEq, List.cons.injEq, and_true] at h
          subst h
          exact ⟨le_refl _, zero_le_one⟩
        · rw [if_neg he] at h
          cases h
      | num x =>
        simp only [List.mapM_cons, List.mapM_nil, py_pure, py_bind_ok, Except.ok.injEq, List.cons.injEq, and_true] at h
        subst h
        have := trimfAt_isTriangle hs.1 hs.2
        exact ⟨this.nonneg x, this.le_one x⟩
    · cases h
  | disc s =>
    simp only [FSet.membership, DSet.membership, List.map_cons, List.map_nil, Except.ok.injEq, List.cons.injEq, and_true] at h
    subst h
    split <;> simp

/-! ## strong partitions -/

/-- all triangles but the first -/
def tailTriangles (ds : List (String × K)) : List (CSet K) := innerTriangles ds ++ lastTriangle ds

@[simp] theorem tailTriangles_two (d₀ d₁ : String × K) :
    tailTriangles [d₀, d₁] = [{ name := d₁.1, a := d₀.2, b := d₁.2, c := d₁.2 }] := rfl

theorem tailTriangles_cons (d₀ d₁ d₂ : String × K) (ds : List (String × K)) :
    tailTriangles (d₀ :: d₁ :: d₂ :: ds) =
      { name := d₁.1, a := d₀.2, b := d₁.2, c := d₂.2 } :: tailTriangles (d₁ :: d₂ :: ds) := rfl

/-- degree of a number in a continuous set -/
def CSet.deg (s : CSet K) (x : K) : K := trimfAt s.a s.b s.c x

/-- the memberships of `x` in all triangles but the first add up to: 0 up to the first peak, the rising line between the
first two, 1 until the last peak and 0 afterwards. -/
theorem tail_sum (d₀ d₁ : String × K) (ds : List (String × K))
    (hs : ((d₀ :: d₁ :: ds).map Prod.snd).Pairwise (· < ·)) (x : K) :
    (x ≤ d₀.2 → ((tailTriangles (d₀ :: d₁ :: ds)).map (fun s => s.deg x)).sum = 0) ∧
    (d₀.2 ≤ x → x ≤ d₁.2 →
      ((tailTriangles (d₀ :: d₁ :: ds)).map (fun s => s.deg x)).sum = (x - d₀.2) / (d₁.2 - d₀.2)) ∧
    (∀ l, (d₀ :: d₁ :: ds).getLast? = some l → d₁.2 ≤ x → x ≤ l.2 →
      ((tailTriangles (d₀ :: d₁ :: ds)).map (fun s => s.deg x)).sum = 1) ∧
    (∀ l, (d₀ :: d₁ :: ds).getLast? = some l → l.2 < x →
      ((tailTriangles (d₀ :: d₁ :: ds)).map (fun s => s.deg x)).sum = 0) := by
  induction ds generalizing d₀ d₁ with
  | nil =>
    have h01 : d₀.2 < d₁.2 := by simpa using hs
    have T := trimfAt_isTriangle (K := K) h01.le (le_refl d₁.2)
    simp only [tailTriangles_two, List.map_cons, List.map_nil, List.sum_cons, List.sum_nil, add_zero, CSet.deg]
    refine ⟨fun h => T.left x h (lt_of_le_of_lt h h01).ne, fun h1 h2 => ?_, fun l hl h1 h2 => ?_, fun l hl h => ?_⟩
    · rcases eq_or_lt_of_le h2 with rfl | h2
      · rw [T.peak, div_self]; linarith
      · rcases eq_or_lt_of_le h1 with rfl | h1
        · rw [T.left _ (le_refl _) h2.ne]; simp
        · exact T.rise x h1 h2
    · have : l = d₁ := by simpa [eq_comm] using hl
      subst this
      rw [le_antisymm h2 h1, T.peak]
    · have : l = d₁ := by simpa [eq_comm] using hl
      subst this
      exact T.right x h.le h.ne'
  | cons d₂ ds ih =>
    have hs' : ((d₁ :: d₂ :: ds).map Prod.snd).Pairwise (· < ·) := by
      simp only [List.map_cons] at hs ⊢
      exact (List.pairwise_cons.1 hs).2
    have h01 : d₀.2 < d₁.2 := by
      simp only [List.map_cons, List.pairwise_cons] at hs
      exact hs.1 _ (by simp)
    have h12 : d₁.2 < d₂.2 := by
      simp only [List.map_cons, List.pairwise_cons] at hs'
      exact hs'.1 _ (by simp)
    have T := trimfAt_isTriangle (K := K) h01.le h12.le
    obtain ⟨i1, i2, i3, i4⟩ := ih d₁ d₂ hs'
    have hlast : ∀ l, (d₀ :: d₁ :: d₂ :: ds).getLast? = some l → (d₁ :: d₂ :: ds).getLast? = some l := by
      intro l hl; simpa using hl
    simp only [tailTriangles_cons, List.map_cons, List.sum_cons]
    have hdeg : (CSet.deg { name := d₁.1, a := d₀.2, b := d₁.2, c := d₂.2 } x : K) = trimfAt d₀.2 d₁.2 d₂.2 x := rfl
    rw [hdeg]
    refine ⟨fun h => ?_, fun h1 h2 => ?_, fun l hl h1 h2 => ?_, fun l hl h => ?_⟩
    · rw [i1 (h.trans h01.le), T.left x h (lt_of_le_of_lt h h01).ne, add_zero]
    · rw [i1 h2, add_zero]
      rcases eq_or_lt_of_le h2 with rfl | h2
      · rw [T.peak, div_self]; linarith
      · rcases eq_or_lt_of_le h1 with rfl | h1
        · rw [T.left _ (le_refl _) h2.ne]; simp
        · exact T.rise x h1 h2
    · rcases le_or_gt x d₂.2 with h3 | h3
      · rw [i2 h1 h3]
        rcases eq_or_lt_of_le h1 with rfl | h1
        · rw [T.peak]; simp
        · rcases eq_or_lt_of_le h3 with rfl | h3
          · rw [T.right _ (le_refl _) h1.ne', zero_add, div_self]; linarith
          · rw [T.fall x h1 h3]
            have : d₂.2 - d₁.2 ≠ 0 := by linarith
            field_simp
            ring
      · rw [i3 l (hlast l hl) h3.le h2, T.right x h3.le (h12.trans h3).ne', zero_add]
    · have hd2 : d₂.2 ≤ l.2 := by
        have hl' := hlast l hl
        have hlm : l ∈ d₂ :: ds := by
          rw [List.getLast?_cons_cons] at hl'
          exact List.mem_of_getLast? hl'
        rcases List.mem_cons.1 hlm with rfl | hlm
        · exact le_refl _
        · simp only [List.map_cons, List.pairwise_cons] at hs'
          exact (hs'.2.1 _ (List.mem_map_of_mem (f := Prod.snd) hlm)).le
      have h3 : d₂.2 < x := lt_of_le_of_lt hd2 h
      rw [i4 l (hlast l hl) h, T.right x h3.le (h12.trans h3).ne', zero_add]

/-- points of the sets of a strong partition, by position. -/
theorem tailTriangles_getElem? (ds : List (String × K)) (i : Nat) (s : CSet K)
    (h : (tailTriangles ds)[i]? = some s) :
    ∃ p q, ds[i]? = some p ∧ ds[i+1]? = some q ∧ s.name = q.1 ∧ s.a = p.2 ∧ s.b = q.2 ∧ s.pointSet = false ∧
      s.c = ((ds[i+2]?).getD q).2 := by
  induction ds generalizing i with
  | nil => simp [tailTriangles, innerTriangles, lastTriangle] at h
  | cons d₀ ds ih =>
    cases ds with
    | nil => simp [tailTriangles, innerTriangles, lastTriangle] at h
    | cons d₁ ds =>
      cases ds with
      | nil =>
        rw [tailTriangles_two] at h
        cases i with
        | zero =>
          simp only [List.getElem?_cons_zero, Option.some.injEq] at h
          subst h
          exact ⟨d₀, d₁, by simp⟩
        | succ i => simp at h
      | cons d₂ ds =>
        rw [tailTriangles_cons] at h
        cases i with
        | zero =>
          simp only [List.getElem?_cons_zero, Option.some.injEq] at h
          subst h
          exact ⟨d₀, d₁, by simp⟩
        | succ i =>
          simp only [List.getElem?_cons_succ] at h
          obtain ⟨p, q, h1, h2, h3, h4, h5, h6, h7⟩ := ih i h
          exact ⟨p, q, by simpa using h1, by simpa using h2, h3, h4, h5, h6, by simpa using h7⟩

theorem tailTriangles_length (d₀ d₁ : String × K) (ds : List (String × K)) :
    (tailTriangles (d₀ :: d₁ :: ds)).length = ds.length + 1 := by
  induction ds generalizing d₀ d₁ with
  | nil => rfl
  | cons d₂ ds ih => rw [tailTriangles_cons, List.length_cons, ih]; rfl

theorem getFuzzyContinuousSets_two (ok : Bool) (d₀ d₁ : String × K) (ds : List (String × K)) :
    getFuzzyContinuousSets ok (d₀ :: d₁ :: ds) =
      .ok ({ name := d₀.1, a := d₀.2, b := d₀.2, c := d₁.2 } :: tailTriangles (d₀ :: d₁ :: ds)) := rfl

end Teacher

namespace Teacher
open Spec

variable {K : Type} [Field K] [LinearOrder K] [IsStrictOrderedRing K]

/-- level sets of a triangle -/
theorem Spec.IsTriangle.level {a b c : K} {μ : K → K} (hab : a ≤ b) (hbc : b ≤ c) (h : IsTriangle a b c μ)
    {m : K} (h0 : 0 < m) (h1 : m ≤ 1) (x : K) :
    m ≤ μ x ↔ a + (b - a) * m ≤ x ∧ x ≤ c - (c - b) * m := by
  have hl : a + (b - a) * m ≤ b := by nlinarith
  have hr : b ≤ c - (c - b) * m := by nlinarith
  rcases lt_trichotomy x b with hlt | rfl | hgt
  · have hx : x ≤ c - (c - b) * m := hlt.le.trans hr
    simp only [hx, and_true]
    rcases le_or_gt x a with h2 | h2
    · rw [h.left x h2 hlt.ne]
      constructor
      · intro h; exact absurd h (not_le.2 h0)
      · intro h3
        exfalso
        have h4 : 0 ≤ (b - a) * m := mul_nonneg (by linarith) h0.le
        have h5 : 0 < (b - a) * m := mul_pos (by linarith) h0
        linarith
    · rw [h.rise x h2 hlt, le_div_iff₀ (by linarith)]
      constructor <;> intro h3 <;> linarith
  · rw [h.peak]; exact ⟨fun _ => ⟨hl, hr⟩, fun _ => h1⟩
  · have hx : a + (b - a) * m ≤ x := hl.trans hgt.le
    simp only [hx, true_and]
    rcases le_or_gt c x with h2 | h2
    · rw [h.right x h2 hgt.ne']
      constructor
      · intro h; exact absurd h (not_le.2 h0)
      · intro h3
        exfalso
        have h4 : 0 ≤ (c - b) * m := mul_nonneg (by linarith) h0.le
        have h5 : 0 < (c - b) * m := mul_pos (by linarith) h0
        linarith
    · rw [h.fall x hgt h2, le_div_iff₀ (by linarith)]
      constructor <;> intro h3 <;> linarith

theorem lineIntersect_comm (A B : Seg K) : lineIntersect A B = lineIntersect B A := by
  obtain ⟨⟨ax1, ay1⟩, ⟨ax2, ay2⟩⟩ := A
  obtain ⟨⟨bx1, by1⟩, ⟨bx2, by2⟩⟩ := B
  unfold lineIntersect
  by_cases h : (((ax1, ay1), (ax2, ay2)) : Seg K) = ((bx1, by1), (bx2, by2))
  · rw [if_pos h, if_pos h.symm]
  · rw [if_neg h, if_neg (Ne.symm h)]
    simp only
    have hd : (bx1 - bx2) * (ay1 - ay2) - (by1 - by2) * (ax1 - ax2) =
        -((ax1 - ax2) * (by1 - by2) - (ay1 - ay2) * (bx1 - bx2)) := by ring
    have hn : (bx1 * by2 - by1 * bx2) * (ay1 - ay2) - (by1 - by2) * (ax1 * ay2 - ay1 * ax2) =
        -((ax1 * ay2 - ay1 * ax2) * (by1 - by2) - (ay1 - ay2) * (bx1 * by2 - by1 * bx2)) := by ring
    simp only [hd, hn, neg_div_neg_eq, neg_eq_zero]

theorem lineIntersect_nonneg (A B : Seg K) : 0 ≤ lineIntersect A B := by
  unfold lineIntersect
  split
  · exact zero_le_one
  · dsimp only
    split
    · exact le_refl _
    · split
      · exact le_refl _
      · rename_i h; push Not at h; exact h.1

theorem lineIntersect_le_one (A B : Seg K) : lineIntersect A B ≤ 1 := by
  unfold lineIntersect
  split
  · exact le_refl _
  · dsimp only
    split
    · exact zero_le_one
    · split
      · exact zero_le_one
      · rename_i h; push Not at h; exact h.2

/-- abscissa of the point at height `y` of a segment between the heights 0 and 1 -/
def riseX (a b y : K) : K := a + (b - a) * y
def fallX (b c y : K) : K := c - (c - b) * y

/-- If the crossing of two sides is not 0, both sides pass through a common point at that height. -/
theorem lineIntersect_point (A B : Seg K) (p q : Bool) (a₁ b₁ a₂ b₂ : K)
    (hA : A = if p then ((a₁, 0), (b₁, 1)) else ((b₁, 1), (a₁, 0)))
    (hB : B = if q then ((a₂, 0), (b₂, 1)) else ((b₂, 1), (a₂, 0))) :
    lineIntersect A B = 0 ∨ riseX a₁ b₁ (lineIntersect A B) = riseX a₂ b₂ (lineIntersect A B) := by
  unfold lineIntersect
  split
  · rename_i h
    right
    subst hA hB
    cases p <;> cases q <;> simp_all [riseX]
  · subst hA hB
    cases p <;> cases q <;> simp only [Bool.false_eq_true, if_true, if_false] <;>
      (split
       · left; rfl
       · rename_i hd
         split
         · left; rfl
         · right
           unfold riseX
           rw [← mul_div_assoc, ← mul_div_assoc, ← sub_eq_zero]
           rw [add_div' _ _ _ hd, add_div' _ _ _ hd, div_sub_div_same, div_eq_zero_iff]
           left; ring)

theorem triangle_rise_ge {a b c : K} {μ : K → K} (hab : a ≤ b) (hbc : b ≤ c) (h : IsTriangle a b c μ) {y : K}
    (h0 : 0 ≤ y) (h1 : y ≤ 1) : y ≤ μ (riseX a b y) := by
  rcases eq_or_lt_of_le h0 with rfl | h0
  · exact h.nonneg _
  · rw [h.level hab hbc h0 h1]
    refine ⟨le_refl _, ?_⟩
    unfold riseX
    nlinarith

theorem triangle_fall_ge {a b c : K} {μ : K → K} (hab : a ≤ b) (hbc : b ≤ c) (h : IsTriangle a b c μ) {y : K}
    (h0 : 0 ≤ y) (h1 : y ≤ 1) : y ≤ μ (riseX c b y) := by
  rcases eq_or_lt_of_le h0 with rfl | h0
  · exact h.nonneg _
  · rw [h.level hab hbc h0 h1]
    unfold riseX
    constructor <;> nlinarith

theorem CSet.intersection_comm (s o : CSet K) : s.intersection o = o.intersection s := by
  unfold CSet.intersection
  dsimp only
  rw [lineIntersect_comm ((s.a, 0), (s.b, 1)) ((o.a, 0), (o.b, 1)),
    lineIntersect_comm ((s.a, 0), (s.b, 1)) ((o.b, 1), (o.c, 0)),
    lineIntersect_comm ((s.b, 1), (s.c, 0)) ((o.a, 0), (o.b, 1)),
    lineIntersect_comm ((s.b, 1), (s.c, 0)) ((o.b, 1), (o.c, 0))]
  congr 1
  rw [max_assoc, max_comm (lineIntersect ((o.b, 1), (o.c, 0)) ((s.a, 0), (s.b, 1))), ← max_assoc]

theorem CSet.intersection_nonneg (s o : CSet K) : 0 ≤ s.intersection o := by
  unfold CSet.intersection
  exact le_max_of_le_right (lineIntersect_nonneg _ _)

theorem CSet.intersection_le_one (s o : CSet K) : s.intersection o ≤ 1 := by
  unfold CSet.intersection
  dsimp only
  simp only [max_le_iff]
  exact ⟨⟨⟨lineIntersect_le_one _ _, lineIntersect_le_one _ _⟩, lineIntersect_le_one _ _⟩, lineIntersect_le_one _ _⟩

theorem lineIntersect_BC_le (s o : CSet K) :
    lineIntersect ((s.b, 1), (s.c, 0)) ((o.a, 0), (o.b, 1)) ≤ s.intersection o := by
  unfold CSet.intersection
  exact le_max_of_le_left (le_max_right _ _)

theorem CSet.intersection_same_peak (s o : CSet K) (h : s.b = o.b) : s.intersection o = 1 := by
  apply le_antisymm (CSet.intersection_le_one s o)
  have : lineIntersect ((s.a, 0), (s.b, 1)) ((o.a, 0), (o.b, 1)) = 1 := by
    unfold lineIntersect
    split
    · rfl
    · rename_i hne
      have hne' : s.a ≠ o.a := by
        intro he; apply hne; rw [he, h]
      dsimp only
      have hd : (s.a - s.b) * (0 - 1) - (0 - 1) * (o.a - o.b) = o.a - s.a := by rw [h]; ring
      have hn : (s.a * 1 - 0 * s.b) * (0 - 1) - (0 - 1) * (o.a * 1 - 0 * o.b) = o.a - s.a := by ring
      rw [hd, hn, div_self (sub_ne_zero.2 hne'.symm), if_neg (sub_ne_zero.2 hne'.symm)]
      simp
  unfold CSet.intersection
  dsimp only
  rw [this]
  exact le_max_of_le_left (le_max_of_le_left (le_max_left _ _))

theorem CSet.intersection_attained (s o : CSet K) {μ ν : K → K}
    (hs1 : s.a ≤ s.b) (hs2 : s.b ≤ s.c) (ho1 : o.a ≤ o.b) (ho2 : o.b ≤ o.c)
    (hμ : IsTriangle s.a s.b s.c μ) (hν : IsTriangle o.a o.b o.c ν) :
    ∃ x, s.intersection o ≤ min (μ x) (ν x) := by
  have key : ∀ y : K, y = lineIntersect ((s.a, 0), (s.b, 1)) ((o.a, 0), (o.b, 1)) ∨
      y = lineIntersect ((s.a, 0), (s.b, 1)) ((o.b, 1), (o.c, 0)) ∨
      y = lineIntersect ((s.b, 1), (s.c, 0)) ((o.a, 0), (o.b, 1)) ∨
      y = lineIntersect ((s.b, 1), (s.c, 0)) ((o.b, 1), (o.c, 0)) → ∃ x, y ≤ min (μ x) (ν x) := by
    intro y hy
    have hz : lineIntersect (K := K) = lineIntersect := rfl
    have zero : y = 0 → ∃ x, y ≤ min (μ x) (ν x) := by
      rintro rfl; exact ⟨0, le_min (hμ.nonneg _) (hν.nonneg _)⟩
    rcases hy with h | h | h | h
    · rcases lineIntersect_point _ _ true true s.a s.b o.a o.b rfl rfl with h' | h'
      · exact zero (h.trans h')
      · have h0 := h ▸ lineIntersect_nonneg _ _
        have h1 := h ▸ lineIntersect_le_one _ _
        rw [if_pos rfl, if_pos rfl, ← h] at h'
        exact ⟨_, le_min (triangle_rise_ge hs1 hs2 hμ h0 h1) (h' ▸ triangle_rise_ge ho1 ho2 hν h0 h1)⟩
    · rcases lineIntersect_point _ _ true false s.a s.b o.c o.b rfl rfl with h' | h'
      · exact zero (h.trans h')
      · have h0 := h ▸ lineIntersect_nonneg _ _
        have h1 := h ▸ lineIntersect_le_one _ _
        rw [if_pos rfl, if_neg (by simp), ← h] at h'
        exact ⟨_, le_min (triangle_rise_ge hs1 hs2 hμ h0 h1) (h' ▸ triangle_fall_ge ho1 ho2 hν h0 h1)⟩
    · rcases lineIntersect_point _ _ false true s.c s.b o.a o.b rfl rfl with h' | h'
      · exact zero (h.trans h')
      · have h0 := h ▸ lineIntersect_nonneg _ _
        have h1 := h ▸ lineIntersect_le_one _ _
        rw [if_neg (by simp), if_pos rfl, ← h] at h'
        exact ⟨_, le_min (triangle_fall_ge hs1 hs2 hμ h0 h1) (h' ▸ triangle_rise_ge ho1 ho2 hν h0 h1)⟩
    · rcases lineIntersect_point _ _ false false s.c s.b o.c o.b rfl rfl with h' | h'
      · exact zero (h.trans h')
      · have h0 := h ▸ lineIntersect_nonneg _ _
        have h1 := h ▸ lineIntersect_le_one _ _
        rw [if_neg (by simp), if_neg (by simp), ← h] at h'
        exact ⟨_, le_min (triangle_fall_ge hs1 hs2 hμ h0 h1) (h' ▸ triangle_fall_ge ho1 ho2 hν h0 h1)⟩
  apply key
  unfold CSet.intersection
  dsimp only
  rcases max_choice (max (max (lineIntersect ((s.a, (0:K)), (s.b, 1)) ((o.a, 0), (o.b, 1)))
      (lineIntersect ((s.a, 0), (s.b, 1)) ((o.b, 1), (o.c, 0))))
      (lineIntersect ((s.b, 1), (s.c, 0)) ((o.a, 0), (o.b, 1))))
      (lineIntersect ((s.b, 1), (s.c, 0)) ((o.b, 1), (o.c, 0))) with h | h
  · rw [h]
    rcases max_choice (max (lineIntersect ((s.a, (0:K)), (s.b, 1)) ((o.a, 0), (o.b, 1)))
      (lineIntersect ((s.a, 0), (s.b, 1)) ((o.b, 1), (o.c, 0))))
      (lineIntersect ((s.b, 1), (s.c, 0)) ((o.a, 0), (o.b, 1))) with h | h
    · rw [h]
      rcases max_choice (lineIntersect ((s.a, (0:K)), (s.b, 1)) ((o.a, 0), (o.b, 1)))
        (lineIntersect ((s.a, 0), (s.b, 1)) ((o.b, 1), (o.c, 0))) with h | h
      · rw [h]; exact .inl rfl
      · rw [h]; exact .inr (.inl rfl)
    · rw [h]; exact .inr (.inr (.inl rfl))
  · rw [h]; exact .inr (.inr (.inr rfl))

theorem CSet.intersection_upper_aux (s o : CSet K) {μ ν : K → K}
    (hs1 : s.a ≤ s.b) (hs2 : s.b ≤ s.c) (ho1 : o.a ≤ o.b) (ho2 : o.b ≤ o.c)
    (hμ : IsTriangle s.a s.b s.c μ) (hν : IsTriangle o.a o.b o.c ν) (hb : s.b < o.b) (x : K) :
    min (μ x) (ν x) ≤ s.intersection o := by
  rcases le_or_gt (min (μ x) (ν x)) 0 with h0 | h0
  · exact h0.trans (CSet.intersection_nonneg s o)
  · set m := min (μ x) (ν x) with hm
    have hm1 : m ≤ 1 := (min_le_left _ _).trans (hμ.le_one x)
    have l1 := (hμ.level hs1 hs2 h0 hm1 x).1 (min_le_left _ _)
    have l2 := (hν.level ho1 ho2 h0 hm1 x).1 (min_le_right _ _)
    have hle : m * ((s.c - s.b) + (o.b - o.a)) ≤ s.c - o.a := by nlinarith [l1.2, l2.1]
    refine le_trans ?_ (lineIntersect_BC_le s o)
    unfold lineIntersect
    rw [if_neg (by simp)]
    dsimp only
    have hd : (s.b - s.c) * (0 - 1) - (1 - 0) * (o.a - o.b) = (s.c - s.b) + (o.b - o.a) := by ring
    have hn : (s.b * 0 - 1 * s.c) * (0 - 1) - (1 - 0) * (o.a * 1 - 0 * o.b) = s.c - o.a := by ring
    rw [hd, hn]
    have hdpos : 0 < (s.c - s.b) + (o.b - o.a) := by
      rcases lt_or_eq_of_le (show 0 ≤ (s.c - s.b) + (o.b - o.a) by linarith) with h | h
      · exact h
      · exfalso
        have h1 : s.c = s.b := by linarith
        have h2 : o.b = o.a := by linarith
        rw [← h, mul_zero] at hle
        linarith
    have hmy : m ≤ (s.c - o.a) / ((s.c - s.b) + (o.b - o.a)) := by rwa [le_div_iff₀ hdpos]
    have hy1 : (s.c - o.a) / ((s.c - s.b) + (o.b - o.a)) ≤ 1 := by
      rw [div_le_one hdpos]; linarith
    rw [if_neg hdpos.ne', if_neg]
    · exact hmy
    · push Not
      exact ⟨h0.le.trans hmy, hy1⟩

theorem CSet.intersection_upper (s o : CSet K) {μ ν : K → K}
    (hs1 : s.a ≤ s.b) (hs2 : s.b ≤ s.c) (ho1 : o.a ≤ o.b) (ho2 : o.b ≤ o.c)
    (hμ : IsTriangle s.a s.b s.c μ) (hν : IsTriangle o.a o.b o.c ν) (x : K) :
    min (μ x) (ν x) ≤ s.intersection o := by
  rcases lt_trichotomy s.b o.b with h | h | h
  · exact CSet.intersection_upper_aux s o hs1 hs2 ho1 ho2 hμ hν h x
  · rw [CSet.intersection_same_peak s o h]; exact (min_le_left _ _).trans (hμ.le_one x)
  · rw [CSet.intersection_comm, min_comm]
    exact CSet.intersection_upper_aux o s ho1 ho2 hs1 hs2 hν hμ h x

end Teacher
