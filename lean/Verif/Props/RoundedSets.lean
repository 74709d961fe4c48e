import Verif.Spec.RoundedSets
import Verif.Props.RoundedMetrics
import Verif.Props.RuleMap
import Mathlib.Tactic.FieldSimp
import Mathlib.Tactic.Positivity

/-! Properties C195-C198: the operations of fuzzy sets in floating point. -/

set_option linter.unusedSectionVars false
set_option linter.unusedSimpArgs false

namespace Teacher
open Spec

variable {V C K : Type} [Field K] [LinearOrder K] [IsStrictOrderedRing K]

/-! ### for the exact arithmetic the model is the exact model -/

theorem setsF_exact (s o : CSet K) (cut : K) (readNum : String → Option K) (fmt : K → String) (r : Rule String C K) (vars dest : List (FVar K))
    (f : MapFun) :
    s.intersectionF exactArith o = s.intersection o ∧ s.simmilarityF exactArith o = s.simmilarity o ∧
      s.alphaCutF exactArith cut = s.alphaCut cut ∧ s.mergeF exactArith readNum fmt o = s.merge readNum fmt o ∧
      s.jaccardF exactArith o = s.jaccard o ∧ r.toCrispF exactArith cut vars = r.toCrisp cut vars ∧
      r.mapVariablesF exactArith vars dest f = r.mapVariables vars dest f := by
  have hi : ∀ s o : CSet K, s.intersectionF exactArith o = s.intersection o := fun s o => rfl
  have hs : ∀ s o : CSet K, s.simmilarityF exactArith o = s.simmilarity o := fun s o => rfl
  have hk : ∀ fs o : FSet K, f.keyF exactArith fs o = f.key fs o := by
    intro fs o
    cases f <;> cases fs <;> cases o <;> rfl
  refine ⟨rfl, rfl, rfl, rfl, rfl, rfl, ?_⟩
  have hm : ∀ (od dd : Dict String (List (FSet K))) p, mapClauseF exactArith f od dd p = mapClause f od dd p := by
    intro od dd p
    unfold mapClauseF mapClause
    simp only [hk]
  unfold Rule.mapVariablesF Rule.mapVariables
  simp only [show mapClauseF (K := K) exactArith f = mapClause f from funext fun od => funext fun dd => funext fun p => hm od dd p]

/-! ### differences -/

section laws
variable {A : Arith K} {u η : K}

theorem Spec.Lawful.sub_delta (hA : Lawful A u η) {x y : K} (hx : IsFloat A x) (hy : IsFloat A y) :
    ∃ δ, A.fl (x - y) = (x - y) * (1 + δ) ∧ |δ| ≤ u := by
  have h := hA.sub_err x y hx hy
  rcases eq_or_ne (x - y) 0 with h0 | h0
  · refine ⟨0, ?_, by simpa using hA.u_nonneg⟩
    rw [h0, hA.zero]; ring
  · refine ⟨(A.fl (x - y) - (x - y)) / (x - y), ?_, ?_⟩
    · field_simp; ring
    · rw [abs_div, div_le_iff₀ (abs_pos.2 h0)]; exact h

theorem isFloat_fl (hA : Lawful A u η) (x : K) : IsFloat A (A.fl x) := hA.idem x

theorem IsFloat.neg (hodd : ∀ x, A.fl (-x) = -A.fl x) {x : K} (hx : IsFloat A x) : IsFloat A (-x) := by
  unfold IsFloat at *; rw [hodd, hx]

/-- the height at which two edges cross, as computed: an edge is given by the point of its base and the point of its peak. -/
def edgeY (A : Arith K) (p0 p1 q0 q1 : K) : K :=
  let D := A.fl (A.fl (p1 - p0) - A.fl (q1 - q0))
  if D = 0 then 0
  else
    let y := A.fl (A.fl (q0 - p0) / D)
    if y < 0 ∨ y > 1 then 0 else y

theorem edge_seg (hA : Lawful A u η) (hodd : ∀ x, A.fl (-x) = -A.fl x) {p0 p1 q0 q1 : K} (hp0 : IsFloat A p0)
    (hq0 : IsFloat A q0) (hp1 : IsFloat A p1) (hq1 : IsFloat A q1) :
    lineIntersectF A ((p0, 0), (p1, 1)) ((q0, 0), (q1, 1)) = (if p0 = q0 ∧ p1 = q1 then 1 else edgeY A p0 p1 q0 q1) ∧
    lineIntersectF A ((p0, 0), (p1, 1)) ((q1, 1), (q0, 0)) = edgeY A p0 p1 q0 q1 ∧
    lineIntersectF A ((p1, 1), (p0, 0)) ((q0, 0), (q1, 1)) = edgeY A p0 p1 q0 q1 ∧
    lineIntersectF A ((p1, 1), (p0, 0)) ((q1, 1), (q0, 0)) = (if p0 = q0 ∧ p1 = q1 then 1 else edgeY A p0 p1 q0 q1) := by
  unfold IsFloat at hp0 hq0 hp1 hq1
  have hsw : ∀ x y : K, A.fl (x - y) = -A.fl (y - x) := by intro x y; rw [← hodd]; congr 1; ring
  have hz : A.fl 0 = 0 := hA.zero
  have e1 : (0 : K) - 1 = -1 := by ring
  have e2 : (1 : K) - 0 = 1 := by ring
  have hn : ∀ x, A.fl (-A.fl x) = -A.fl x := by intro x; rw [hodd, hA.idem]
  have hD : ∀ x y : K, A.fl (-x - -y) = -A.fl (x - y) := by intro x y; rw [← hodd]; congr 1; ring
  have hD2 : ∀ x y : K, A.fl (-x + y) = -A.fl (x - y) := by intro x y; rw [← hodd]; congr 1; ring
  have hD3 : ∀ x y : K, A.fl (x + y) = A.fl (x - -y) := by intro x y; rw [sub_neg_eq_add]
  refine ⟨?_, ?_, ?_, ?_⟩
  · unfold lineIntersectF edgeY
    simp only [Prod.mk.injEq, and_true]
    by_cases h : p0 = q0 ∧ p1 = q1
    · rw [if_pos h, if_pos h]
    · rw [if_neg h, if_neg h]
      simp only [e1, mul_neg, mul_one, zero_mul, neg_mul, one_mul, hz, sub_zero, hp0, hq0, hodd, hA.idem, sub_neg_eq_add, hD2]
      rw [hsw p0 p1, hsw q0 q1, hsw p0 q0]
      simp only [neg_neg, sub_neg_eq_add, hD2]
  · unfold lineIntersectF edgeY
    simp only [Prod.mk.injEq, zero_ne_one, one_ne_zero, and_false, false_and, if_false]
    simp only [e1, e2, mul_neg, mul_one, mul_zero, zero_mul, neg_mul, one_mul, hz, sub_zero, zero_sub, hp0, hq0, hodd, hA.idem, sub_neg_eq_add,
      neg_neg]
    rw [hsw p0 p1, hsw q0 p0, hD2]
    simp only [neg_eq_zero, div_neg, neg_div]
  · unfold lineIntersectF edgeY
    simp only [Prod.mk.injEq, zero_ne_one, one_ne_zero, and_false, if_false]
    simp only [e1, e2, mul_neg, mul_one, mul_zero, zero_mul, neg_mul, one_mul, hz, sub_zero, zero_sub, hp0, hq0, hodd, hA.idem, sub_neg_eq_add,
      neg_neg]
    have hE : ∀ x y : K, A.fl (-x - y) = -A.fl (x + y) := by intro x y; rw [← hodd]; congr 1; ring
    rw [hsw p1 p0, hsw q0 q1]
    simp only [neg_neg, sub_neg_eq_add, hE, neg_eq_zero]
    rw [hsw p0 q0]
    simp only [neg_div, div_neg]
  · unfold lineIntersectF edgeY
    simp only [Prod.mk.injEq, and_true]
    by_cases h : p0 = q0 ∧ p1 = q1
    · rw [if_pos h, if_pos h.symm]
    · rw [if_neg h, if_neg (fun h' => h h'.symm)]
      simp only [e2, mul_neg, mul_one, mul_zero, zero_mul, neg_mul, one_mul, hz, sub_zero, zero_sub, hp0, hq0, hodd, hA.idem, sub_neg_eq_add, hD2]
      rw [hsw p0 q0, neg_neg]

theorem edgeY_range (p0 p1 q0 q1 : K) : 0 ≤ edgeY A p0 p1 q0 q1 ∧ edgeY A p0 p1 q0 q1 ≤ 1 := by
  unfold edgeY
  simp only
  split_ifs with h1 h2
  · exact ⟨le_refl _, zero_le_one⟩
  · exact ⟨le_refl _, zero_le_one⟩
  · push Not at h2; exact h2

theorem crossing_bounds {u y Y d0 d3 d : K} (hu0 : 0 ≤ u) (hu : u ≤ 1/16) (hy0 : 0 < y) (hY0 : 0 < Y) (hy1 : y * (1 + d0) = Y * (1 + d3))
    (b0 : -u ≤ d0 ∧ d0 ≤ u) (b3 : -u ≤ d3 ∧ d3 ≤ u) (hd : -u ≤ d) (hd' : d ≤ u) :
    y * (1 + d) ≤ Y * (1 + 4 * u) ∧ Y * (1 - 4 * u) ≤ y * (1 + d) := by
  have h1u : (0 : K) < 1 - u := by linarith
  have h1p : (0 : K) < 1 + u := by linarith
  have huu : u * u ≤ u * (1/16) := mul_le_mul_of_nonneg_left hu hu0
  constructor
  · have a1 : y * (1 - u) ≤ Y * (1 + u) := by
      calc y * (1 - u) ≤ y * (1 + d0) := by apply mul_le_mul_of_nonneg_left _ hy0.le; linarith
        _ = Y * (1 + d3) := hy1
        _ ≤ Y * (1 + u) := by apply mul_le_mul_of_nonneg_left _ hY0.le; linarith
    have a2 : y * (1 + d) ≤ y * (1 + u) := by apply mul_le_mul_of_nonneg_left _ hy0.le; linarith
    have a3 : y * (1 + u) * (1 - u) ≤ Y * (1 + 4 * u) * (1 - u) := by
      calc y * (1 + u) * (1 - u) = y * (1 - u) * (1 + u) := by ring
        _ ≤ Y * (1 + u) * (1 + u) := mul_le_mul_of_nonneg_right a1 h1p.le
        _ = Y * ((1 + u) * (1 + u)) := by ring
        _ ≤ Y * ((1 + 4 * u) * (1 - u)) := by apply mul_le_mul_of_nonneg_left _ hY0.le; linarith
        _ = _ := by ring
    exact a2.trans (le_of_mul_le_mul_right a3 h1u)
  · have a1 : Y * (1 - u) ≤ y * (1 + u) := by
      calc Y * (1 - u) ≤ Y * (1 + d3) := by apply mul_le_mul_of_nonneg_left _ hY0.le; linarith
        _ = y * (1 + d0) := hy1.symm
        _ ≤ y * (1 + u) := by apply mul_le_mul_of_nonneg_left _ hy0.le; linarith
    have a2 : y * (1 - u) ≤ y * (1 + d) := by apply mul_le_mul_of_nonneg_left _ hy0.le; linarith
    have a3 : Y * (1 - 4 * u) * (1 + u) ≤ y * (1 - u) * (1 + u) := by
      calc Y * (1 - 4 * u) * (1 + u) = Y * ((1 - 4 * u) * (1 + u)) := by ring
        _ ≤ Y * ((1 - u) * (1 - u)) := by apply mul_le_mul_of_nonneg_left _ hY0.le; nlinarith
        _ = Y * (1 - u) * (1 - u) := by ring
        _ ≤ y * (1 + u) * (1 - u) := mul_le_mul_of_nonneg_right a1 h1u.le
        _ = _ := by ring
    exact (le_of_mul_le_mul_right a3 h1p).trans a2

/-- bounds of a quotient `Y` whose rounding `y'` is at most 1. -/
theorem quotient_bounds {u η Y y' : K} (hu0 : 0 ≤ u) (hu : u ≤ 1/16) (hη0 : 0 ≤ η) (hη : η ≤ u) (hY0 : 0 < Y) (hle : y' ≤ 1)
    (herr : -(u * Y + η) ≤ y' - Y ∧ y' - Y ≤ u * Y + η) :
    Y * (1 + 4 * u) ≤ 1 + 8 * u ∧ y' ≤ Y * (1 - 4 * u) + (5 * u + η) ∧ (1 < Y * (1 + 4 * u) → 1 - 8 * u ≤ Y * (1 - 4 * u)) := by
  have h1u : (0 : K) < 1 - u := by linarith
  have huu : u * u ≤ u * (1/16) := mul_le_mul_of_nonneg_left hu hu0
  have huu0 : 0 ≤ u * u := mul_nonneg hu0 hu0
  have hYle : Y * (1 - u) ≤ 1 + η := by linarith [herr.1]
  refine ⟨?_, ?_, ?_⟩
  · have h1 : Y * (1 + 4 * u) * (1 - u) ≤ (1 + 8 * u) * (1 - u) := by
      calc Y * (1 + 4 * u) * (1 - u) = Y * (1 - u) * (1 + 4 * u) := by ring
        _ ≤ (1 + u) * (1 + 4 * u) := by apply mul_le_mul_of_nonneg_right _ (by linarith); linarith
        _ ≤ _ := by linarith
    exact le_of_mul_le_mul_right h1 h1u
  · rcases le_or_gt Y 1 with h | h
    · have : u * Y ≤ u * 1 := mul_le_mul_of_nonneg_left h hu0
      linarith [herr.2]
    · have : 1 * (1 - 4 * u) ≤ Y * (1 - 4 * u) := mul_le_mul_of_nonneg_right h.le (by linarith)
      linarith
  · intro h2
    have h3 : (1 - 8 * u) * (1 + 4 * u) ≤ Y * (1 - 4 * u) * (1 + 4 * u) := by
      calc (1 - 8 * u) * (1 + 4 * u) ≤ 1 * (1 - 4 * u) := by linarith
        _ ≤ Y * (1 + 4 * u) * (1 - 4 * u) := by
          apply mul_le_mul_of_nonneg_right h2.le; linarith
        _ = _ := by ring
    exact le_of_mul_le_mul_right h3 (by linarith)

/-- a positive computed crossing is the crossing of the edges at slightly different heights on the two. -/
theorem edge_crossing (hA : Lawful A u η) (hu : u ≤ 1/16) (hη : η ≤ u) {p0 p1 q0 q1 : K} (hp0 : IsFloat A p0) (hp1 : IsFloat A p1)
    (hq0 : IsFloat A q0) (hq1 : IsFloat A q1) (hpos : 0 < edgeY A p0 p1 q0 q1) :
    ∃ y1 y2, p0 + y1 * (p1 - p0) = q0 + y2 * (q1 - q0) ∧ edgeY A p0 p1 q0 q1 ≤ y1 + (5 * u + η) ∧ edgeY A p0 p1 q0 q1 ≤ y2 + (5 * u + η) ∧
      0 ≤ y1 ∧ 0 ≤ y2 ∧ y1 ≤ 1 + 8 * u ∧ y2 ≤ 1 + 8 * u ∧ (1 < y1 ∨ 1 < y2 → 1 - 8 * u ≤ y1 ∧ 1 - 8 * u ≤ y2) := by
  have hu0 := hA.u_nonneg
  have hη0 := hA.η_nonneg
  obtain ⟨d0, e0, b0⟩ := hA.sub_delta hq0 hp0
  obtain ⟨d1, e1, b1⟩ := hA.sub_delta hp1 hp0
  obtain ⟨d2, e2, b2⟩ := hA.sub_delta hq1 hq0
  obtain ⟨d3, e3, b3⟩ := hA.sub_delta (isFloat_fl hA (p1 - p0)) (isFloat_fl hA (q1 - q0))
  rw [abs_le] at b0 b1 b2 b3
  have hy : edgeY A p0 p1 q0 q1 = A.fl (A.fl (q0 - p0) / A.fl (A.fl (p1 - p0) - A.fl (q1 - q0))) ∧
      A.fl (A.fl (p1 - p0) - A.fl (q1 - q0)) ≠ 0 := by
    unfold edgeY at hpos ⊢
    simp only at hpos ⊢
    split_ifs at hpos ⊢ with h1 h2
    · exact absurd hpos (lt_irrefl _)
    · exact absurd hpos (lt_irrefl _)
    · exact ⟨rfl, h1⟩
  have hle := (edgeY_range (A := A) p0 p1 q0 q1).2
  obtain ⟨hy, hD⟩ := hy
  rw [hy] at hpos hle ⊢
  set N := A.fl (q0 - p0) with hN
  set D := A.fl (A.fl (p1 - p0) - A.fl (q1 - q0)) with hDd
  set Y := N / D with hYd
  have hYD : Y * D = N := by rw [hYd]; field_simp
  have hY0 : 0 < Y := by
    by_contra hneg
    have := hA.mono Y 0 (not_lt.1 hneg)
    rw [hA.zero] at this
    exact absurd hpos (not_lt.2 this)
  have herr := hA.err Y
  rw [abs_of_pos hY0, abs_le] at herr
  set y' := A.fl Y with hy'
  clear_value y' Y
  have h1u : (0 : K) < 1 - u := by linarith
  have hd0 : (0 : K) < 1 + d0 := by linarith
  have hd3 : (0 : K) < 1 + d3 := by linarith
  -- the heights
  have hcross : Y * (1 + d3) * ((p1 - p0) * (1 + d1) - (q1 - q0) * (1 + d2)) = (q0 - p0) * (1 + d0) := by
    rw [← e0, ← hYD, e3, e1, e2]; ring
  set y := Y * (1 + d3) / (1 + d0) with hyd
  have hy1 : y * (1 + d0) = Y * (1 + d3) := by rw [hyd]; field_simp
  have hcr : y * ((p1 - p0) * (1 + d1) - (q1 - q0) * (1 + d2)) = q0 - p0 := by
    rw [hyd, div_mul_eq_mul_div, hcross]; field_simp
  have hy0 : 0 < y := by rw [hyd]; positivity
  clear_value y
  have key : ∀ d, -u ≤ d → d ≤ u → y * (1 + d) ≤ Y * (1 + 4 * u) ∧ Y * (1 - 4 * u) ≤ y * (1 + d) := fun d hd hd' =>
    crossing_bounds hu0 hu hy0 hY0 hy1 b0 b3 hd hd'
  obtain ⟨hup, hlow, hbig⟩ := quotient_bounds hu0 hu hη0 hη hY0 hle herr
  have k1 := key d1 b1.1 b1.2
  have k2 := key d2 b2.1 b2.2
  have hge : ∀ d, -u ≤ d → d ≤ u → 1 < y * (1 + d) → 1 - 8 * u ≤ Y * (1 - 4 * u) := fun d hd hd' h1 =>
    hbig (lt_of_lt_of_le h1 (key d hd hd').1)
  refine ⟨y * (1 + d1), y * (1 + d2), by linarith, by linarith [k1.2], by linarith [k2.2], ?_, ?_, by linarith [k1.1], by linarith [k2.1], ?_⟩
  · exact mul_nonneg hy0.le (by linarith)
  · exact mul_nonneg hy0.le (by linarith)
  · rintro (h | h)
    · have := hge d1 b1.1 b1.2 h
      exact ⟨by linarith [k1.2], by linarith [k2.2]⟩
    · have := hge d2 b2.1 b2.2 h
      exact ⟨by linarith [k1.2], by linarith [k2.2]⟩

/-! ### intersection -/

theorem edge_degree {s : CSet K} (h1 : s.a ≤ s.b) (h2 : s.b ≤ s.c) {μ : K → K} (hμ : IsTriangle s.a s.b s.c μ) {p0 y : K}
    (hp : p0 = s.a ∨ p0 = s.c) (h0 : 0 < y) (hy1 : y ≤ 1) : y ≤ μ (p0 + y * (s.b - p0)) := by
  rw [hμ.level h1 h2 h0 hy1]
  rcases hp with rfl | rfl <;> constructor <;> nlinarith

theorem edge_width {s : CSet K} (h1 : s.a ≤ s.b) (h2 : s.b ≤ s.c) {p0 : K} (hp : p0 = s.a ∨ p0 = s.c) : |s.b - p0| ≤ s.c - s.a := by
  rw [abs_le]
  rcases hp with rfl | rfl <;> constructor <;> linarith

theorem edgeY_upper (hA : Lawful A u η) (hu : u ≤ 1/16) (hη : η ≤ u) {s o : CSet K} (hs1 : s.a ≤ s.b) (hs2 : s.b ≤ s.c) (ho1 : o.a ≤ o.b)
    (ho2 : o.b ≤ o.c) (hfs : FloatSet A s) (hfo : FloatSet A o) (hsep : 8 * u * ((s.c - s.a) + (o.c - o.a)) < |s.b - o.b|) {p0 q0 : K}
    (hp : p0 = s.a ∨ p0 = s.c) (hq : q0 = o.a ∨ q0 = o.c) : edgeY A p0 s.b q0 o.b ≤ s.intersection o + (5 * u + η) := by
  have hu0 := hA.u_nonneg
  have hη0 := hA.η_nonneg
  have hh0 := CSet.intersection_nonneg s o
  rcases le_or_gt (edgeY A p0 s.b q0 o.b) 0 with h | hpos
  · linarith
  have hp0 : IsFloat A p0 := by rcases hp with rfl | rfl; exacts [hfs.1, hfs.2.2]
  have hq0 : IsFloat A q0 := by rcases hq with rfl | rfl; exacts [hfo.1, hfo.2.2]
  obtain ⟨y1, y2, hx, l1, l2, n1, n2, t1, t2, hbig⟩ := edge_crossing hA hu hη hp0 hfs.2.1 hq0 hfo.2.1 hpos
  have hle : y1 ≤ 1 ∧ y2 ≤ 1 := by
    by_contra hcon
    have hor : 1 < y1 ∨ 1 < y2 := by
      by_contra h'; push Not at h'; exact hcon h'
    obtain ⟨g1, g2⟩ := hbig hor
    have w1 := edge_width hs1 hs2 hp
    have w2 := edge_width ho1 ho2 hq
    have hd : s.b - o.b = (1 - y1) * (s.b - p0) - (1 - y2) * (o.b - q0) := by linarith
    have c1 : |(1 - y1) * (s.b - p0)| ≤ 8 * u * (s.c - s.a) := by
      rw [abs_mul]
      exact mul_le_mul (abs_le.2 ⟨by linarith, by linarith⟩) w1 (abs_nonneg _) (by linarith)
    have c2 : |(1 - y2) * (o.b - q0)| ≤ 8 * u * (o.c - o.a) := by
      rw [abs_mul]
      exact mul_le_mul (abs_le.2 ⟨by linarith, by linarith⟩) w2 (abs_nonneg _) (by linarith)
    have := abs_sub ((1 - y1) * (s.b - p0)) ((1 - y2) * (o.b - q0))
    rw [← hd] at this
    linarith
  have T1 := trimfAt_isTriangle hs1 hs2
  have T2 := trimfAt_isTriangle ho1 ho2
  have hm : min y1 y2 ≤ s.intersection o := by
    rcases n1.eq_or_lt with h | h
    · exact (min_le_left _ _).trans (h ▸ hh0)
    rcases n2.eq_or_lt with h' | h'
    · exact (min_le_right _ _).trans (h' ▸ hh0)
    have g1 := edge_degree hs1 hs2 T1 hp h hle.1
    have g2 := edge_degree ho1 ho2 T2 hq h' hle.2
    rw [← hx] at g2
    exact (min_le_min g1 g2).trans (CSet.intersection_upper s o hs1 hs2 ho1 ho2 T1 T2 _)
  rcases min_choice y1 y2 with h | h <;> rw [h] at hm <;> linarith

/-- the computed intersection as the maximum of the four crossings, for sets with different peaks. -/
theorem intersectionF_eq (hA : Lawful A u η) (hodd : ∀ x, A.fl (-x) = -A.fl x) {s o : CSet K} (hfs : FloatSet A s) (hfo : FloatSet A o)
    (hne : s.b ≠ o.b) :
    s.intersectionF A o = max (max (max (edgeY A s.a s.b o.a o.b) (edgeY A s.a s.b o.c o.b)) (edgeY A s.c s.b o.a o.b))
      (edgeY A s.c s.b o.c o.b) := by
  obtain ⟨a1, b1, c1⟩ := hfs
  obtain ⟨a2, b2, c2⟩ := hfo
  unfold CSet.intersectionF
  simp only
  rw [(edge_seg hA hodd a1 a2 b1 b2).1, (edge_seg hA hodd a1 c2 b1 b2).2.1, (edge_seg hA hodd c1 a2 b1 b2).2.2.1,
    (edge_seg hA hodd c1 c2 b1 b2).2.2.2, if_neg (fun h => hne h.2), if_neg (fun h => hne h.2)]

set_option maxHeartbeats 800000 in
theorem edgeY_lower (hA : Lawful A u η) (hodd : ∀ x, A.fl (-x) = -A.fl x) (hu : u ≤ 1/16) {s o : CSet K} (hs1 : s.a ≤ s.b) (hs2 : s.b ≤ s.c)
    (ho1 : o.a ≤ o.b) (ho2 : o.b ≤ o.c) (hfs : FloatSet A s) (hfo : FloatSet A o)
    (hsep : 8 * u * ((s.c - s.a) + (o.c - o.a)) < o.b - s.b) :
    s.intersection o ≤ edgeY A s.c s.b o.a o.b + (5 * u + η) := by
  have hu0 := hA.u_nonneg
  have hη0 := hA.η_nonneg
  have hh0 := CSet.intersection_nonneg s o
  have hh1 := CSet.intersection_le_one s o
  have hyr := edgeY_range (A := A) s.c s.b o.a o.b
  set h := s.intersection o with hh
  rcases hh0.eq_or_lt with h0 | h0
  · rw [← h0]; linarith
  have T1 := trimfAt_isTriangle hs1 hs2
  have T2 := trimfAt_isTriangle ho1 ho2
  obtain ⟨x, hx⟩ := CSet.intersection_attained s o hs1 hs2 ho1 ho2 T1 T2
  rw [← hh] at hx
  have l1 := (T1.level hs1 hs2 h0 hh1 x).1 (hx.trans (min_le_left _ _))
  have l2 := (T2.level ho1 ho2 h0 hh1 x).1 (hx.trans (min_le_right _ _))
  set E := (s.c - s.b) + (o.b - o.a) with hE
  have hlev : h * E ≤ s.c - o.a := by rw [hE]; nlinarith [l1.2, l2.1]
  have hE0 : 0 ≤ E := by rw [hE]; linarith
  have hG : 0 ≤ s.c - o.a := (mul_nonneg hh0 hE0).trans hlev
  have hsep0 : 0 ≤ 8 * u * ((s.c - s.a) + (o.c - o.a)) := mul_nonneg (by linarith) (by linarith)
  have hEG : E = (s.c - o.a) + (o.b - s.b) := by rw [hE]; ring
  have hEpos : 0 < E := by rw [hEG]; linarith
  have hGE : s.c - o.a ≤ E * (1 - 8 * u) := by
    have : 8 * u * E ≤ 8 * u * ((s.c - s.a) + (o.c - o.a)) := by
      apply mul_le_mul_of_nonneg_left _ (by linarith); rw [hE]; linarith
    linarith
  obtain ⟨d0, e0, b0⟩ := hA.sub_delta hfo.1 hfs.2.2
  obtain ⟨d1, e1, b1⟩ := hA.sub_delta hfs.2.1 hfs.2.2
  obtain ⟨d2, e2, b2⟩ := hA.sub_delta hfo.2.1 hfo.1
  obtain ⟨d3, e3, b3⟩ := hA.sub_delta (isFloat_fl hA (s.b - s.c)) (isFloat_fl hA (o.b - o.a))
  rw [abs_le] at b0 b1 b2 b3
  set D := A.fl (A.fl (s.b - s.c) - A.fl (o.b - o.a)) with hD
  set N := A.fl (o.a - s.c) with hN
  -- size of the denominator
  have hin : E * (1 - u) ≤ (s.c - s.b) * (1 + d1) + (o.b - o.a) * (1 + d2) ∧
      (s.c - s.b) * (1 + d1) + (o.b - o.a) * (1 + d2) ≤ E * (1 + u) := by
    constructor
    · have c1 : (s.c - s.b) * (1 - u) ≤ (s.c - s.b) * (1 + d1) := mul_le_mul_of_nonneg_left (by linarith) (by linarith)
      have c2 : (o.b - o.a) * (1 - u) ≤ (o.b - o.a) * (1 + d2) := mul_le_mul_of_nonneg_left (by linarith) (by linarith)
      rw [hE]; linarith
    · have c1 : (s.c - s.b) * (1 + d1) ≤ (s.c - s.b) * (1 + u) := mul_le_mul_of_nonneg_left (by linarith) (by linarith)
      have c2 : (o.b - o.a) * (1 + d2) ≤ (o.b - o.a) * (1 + u) := mul_le_mul_of_nonneg_left (by linarith) (by linarith)
      rw [hE]; linarith
  set I := (s.c - s.b) * (1 + d1) + (o.b - o.a) * (1 + d2) with hI
  have hDI : -D = I * (1 + d3) := by rw [e3, e1, e2, hI]; ring
  have h1u : (0 : K) < 1 - u := by linarith
  have hIpos : 0 < I := lt_of_lt_of_le (mul_pos hEpos h1u) hin.1
  have hDlow : E * (1 - u) * (1 - u) ≤ -D := by
    rw [hDI]; exact mul_le_mul hin.1 (by linarith) h1u.le hIpos.le
  have hDup : -D ≤ E * (1 + u) * (1 + u) := by
    rw [hDI]; exact mul_le_mul hin.2 (by linarith) (by linarith) (by positivity)
  have hDneg : 0 < -D := by rw [hDI]; exact mul_pos hIpos (by linarith)
  have hNG : -N = (s.c - o.a) * (1 + d0) := by rw [e0]; ring
  have huu : u * u ≤ u * (1/16) := mul_le_mul_of_nonneg_left hu hu0
  have huu0 : 0 ≤ u * u := mul_nonneg hu0 hu0
  have hYeq : N / D = -N / -D := by rw [neg_div_neg_eq]
  have hYlow : h * (1 - 4 * u) ≤ N / D := by
    rw [hYeq, le_div_iff₀ hDneg, hNG]
    calc h * (1 - 4 * u) * -D ≤ h * (1 - 4 * u) * (E * (1 + u) * (1 + u)) := by
          apply mul_le_mul_of_nonneg_left hDup; exact mul_nonneg hh0 (by linarith)
      _ = h * E * ((1 - 4 * u) * (1 + u) * (1 + u)) := by ring
      _ ≤ h * E * (1 - u) := by
          apply mul_le_mul_of_nonneg_left _ (mul_nonneg hh0 hE0)
          linarith [mul_nonneg huu0 hu0]
      _ ≤ (s.c - o.a) * (1 - u) := mul_le_mul_of_nonneg_right hlev h1u.le
      _ ≤ _ := mul_le_mul_of_nonneg_left (by linarith) hG
  have hYup : N / D ≤ 1 := by
    rw [hYeq, div_le_one hDneg, hNG]
    calc (s.c - o.a) * (1 + d0) ≤ (s.c - o.a) * (1 + u) := mul_le_mul_of_nonneg_left (by linarith) hG
      _ ≤ E * (1 - 8 * u) * (1 + u) := mul_le_mul_of_nonneg_right hGE (by linarith)
      _ = E * ((1 - 8 * u) * (1 + u)) := by ring
      _ ≤ E * ((1 - u) * (1 - u)) := by apply mul_le_mul_of_nonneg_left _ hE0; linarith
      _ = E * (1 - u) * (1 - u) := by ring
      _ ≤ _ := hDlow
  have hYnn : 0 ≤ N / D := by
    refine le_trans ?_ hYlow; exact mul_nonneg hh0 (by linarith)
  have hf1 : A.fl (N / D) ≤ 1 := by have := hA.mono _ _ hYup; rwa [hA.one] at this
  have hf0 : 0 ≤ A.fl (N / D) := by have := hA.mono _ _ hYnn; rwa [hA.zero] at this
  have hedge : edgeY A s.c s.b o.a o.b = A.fl (N / D) := by
    unfold edgeY
    simp only
    rw [if_neg (fun h => by rw [← hD] at h; rw [h] at hDneg; simp at hDneg), if_neg]
    push Not
    exact ⟨hf0, hf1⟩
  rw [hedge]
  have herr := hA.err (N / D)
  rw [abs_of_nonneg hYnn, abs_le] at herr
  have hq : u * (N / D) ≤ u * 1 := mul_le_mul_of_nonneg_left hYup hu0
  have hq2 : 4 * u * h ≤ 4 * u * 1 := mul_le_mul_of_nonneg_left hh1 (by linarith)
  linarith [herr.1]

theorem lineIntersectF_comm (hA : Lawful A u η) (hodd : ∀ x, A.fl (-x) = -A.fl x) (P Q : Seg K) : lineIntersectF A P Q = lineIntersectF A Q P := by
  obtain ⟨⟨ax1, ay1⟩, ⟨ax2, ay2⟩⟩ := P
  obtain ⟨⟨bx1, by1⟩, ⟨bx2, by2⟩⟩ := Q
  unfold lineIntersectF
  by_cases h : (((ax1, ay1), (ax2, ay2)) : Seg K) = ((bx1, by1), (bx2, by2))
  · rw [if_pos h, if_pos h.symm]
  · rw [if_neg h, if_neg (Ne.symm h)]
    simp only
    have hs : ∀ x y x' y' : K, x = y' → y = x' → A.fl (x - y) = -A.fl (x' - y') := by
      rintro x y x' y' rfl rfl; rw [← hodd]; congr 1; ring
    have hd := hs (A.fl (A.fl (bx1 - bx2) * (ay1 - ay2))) (A.fl ((by1 - by2) * A.fl (ax1 - ax2))) (A.fl (A.fl (ax1 - ax2) * (by1 - by2)))
      (A.fl ((ay1 - ay2) * A.fl (bx1 - bx2))) (by rw [mul_comm]) (by rw [mul_comm])
    have hn := hs (A.fl (A.fl (A.fl (bx1 * by2) - A.fl (by1 * bx2)) * (ay1 - ay2)))
      (A.fl ((by1 - by2) * A.fl (A.fl (ax1 * ay2) - A.fl (ay1 * ax2))))
      (A.fl (A.fl (A.fl (ax1 * ay2) - A.fl (ay1 * ax2)) * (by1 - by2)))
      (A.fl ((ay1 - ay2) * A.fl (A.fl (bx1 * by2) - A.fl (by1 * bx2)))) (by rw [mul_comm]) (by rw [mul_comm])
    simp only [hd, hn, neg_div_neg_eq, neg_eq_zero]

theorem lineIntersectF_range (P Q : Seg K) : 0 ≤ lineIntersectF A P Q ∧ lineIntersectF A P Q ≤ 1 := by
  obtain ⟨⟨ax1, ay1⟩, ⟨ax2, ay2⟩⟩ := P
  obtain ⟨⟨bx1, by1⟩, ⟨bx2, by2⟩⟩ := Q
  unfold lineIntersectF
  simp only
  split_ifs with h1 h2 h3
  · exact ⟨zero_le_one, le_refl _⟩
  · exact ⟨le_refl _, zero_le_one⟩
  · exact ⟨le_refl _, zero_le_one⟩
  · push Not at h3; exact h3

theorem CSet.intersectionF_comm (hA : Lawful A u η) (hodd : ∀ x, A.fl (-x) = -A.fl x) (s o : CSet K) : s.intersectionF A o = o.intersectionF A s := by
  unfold CSet.intersectionF
  dsimp only
  rw [lineIntersectF_comm hA hodd ((s.a, 0), (s.b, 1)) ((o.a, 0), (o.b, 1)),
    lineIntersectF_comm hA hodd ((s.a, 0), (s.b, 1)) ((o.b, 1), (o.c, 0)),
    lineIntersectF_comm hA hodd ((s.b, 1), (s.c, 0)) ((o.a, 0), (o.b, 1)),
    lineIntersectF_comm hA hodd ((s.b, 1), (s.c, 0)) ((o.b, 1), (o.c, 0))]
  congr 1
  rw [max_assoc, max_comm (lineIntersectF A ((o.b, 1), (o.c, 0)) ((s.a, 0), (s.b, 1))), ← max_assoc]

theorem CSet.intersectionF_range (s o : CSet K) : 0 ≤ s.intersectionF A o ∧ s.intersectionF A o ≤ 1 := by
  unfold CSet.intersectionF
  exact ⟨le_max_of_le_right (lineIntersectF_range _ _).1, max_le (max_le (max_le (lineIntersectF_range _ _).2 (lineIntersectF_range _ _).2)
    (lineIntersectF_range _ _).2) (lineIntersectF_range _ _).2⟩

theorem CSet.intersectionF_edge (s o : CSet K) (h : s.a = o.a ∧ s.b = o.b ∨ s.b = o.b ∧ s.c = o.c) : s.intersectionF A o = 1 := by
  refine le_antisymm (CSet.intersectionF_range s o).2 ?_
  unfold CSet.intersectionF
  dsimp only
  rcases h with ⟨h1, h2⟩ | ⟨h1, h2⟩
  · refine le_max_of_le_left (le_max_of_le_left (le_max_of_le_left ?_))
    rw [h1, h2]; unfold lineIntersectF; rw [if_pos rfl]
  · refine le_max_of_le_right ?_
    rw [h1, h2]; unfold lineIntersectF; rw [if_pos rfl]

theorem CSet.intersectionF_close (hA : Lawful A u η) (hodd : ∀ x, A.fl (-x) = -A.fl x) (hu : u ≤ 1/16) (hη : η ≤ u) {s o : CSet K}
    (hs1 : s.a ≤ s.b) (hs2 : s.b ≤ s.c) (ho1 : o.a ≤ o.b) (ho2 : o.b ≤ o.c) (hfs : FloatSet A s) (hfo : FloatSet A o)
    (hsep : 8 * u * ((s.c - s.a) + (o.c - o.a)) < |s.b - o.b|) : |s.intersectionF A o - s.intersection o| ≤ 5 * u + η := by
  have hu0 := hA.u_nonneg
  have hsep0 : 0 ≤ 8 * u * ((s.c - s.a) + (o.c - o.a)) := mul_nonneg (by linarith) (by linarith)
  have hne : s.b ≠ o.b := by
    intro h; rw [h, sub_self, abs_zero] at hsep; linarith
  have hmax := intersectionF_eq hA hodd hfs hfo hne
  have up : ∀ p0 q0, (p0 = s.a ∨ p0 = s.c) → (q0 = o.a ∨ q0 = o.c) → edgeY A p0 s.b q0 o.b ≤ s.intersection o + (5 * u + η) :=
    fun p0 q0 hp hq => edgeY_upper hA hu hη hs1 hs2 ho1 ho2 hfs hfo hsep hp hq
  have hup : s.intersectionF A o ≤ s.intersection o + (5 * u + η) := by
    rw [hmax]
    exact max_le (max_le (max_le (up _ _ (.inl rfl) (.inl rfl)) (up _ _ (.inl rfl) (.inr rfl))) (up _ _ (.inr rfl) (.inl rfl)))
      (up _ _ (.inr rfl) (.inr rfl))
  have hlow : s.intersection o ≤ s.intersectionF A o + (5 * u + η) := by
    rcases lt_or_gt_of_ne hne with h | h
    · have h2 : 8 * u * ((s.c - s.a) + (o.c - o.a)) < o.b - s.b := by rwa [abs_sub_comm, abs_of_pos (by linarith)] at hsep
      have h3 := edgeY_lower hA hodd hu hs1 hs2 ho1 ho2 hfs hfo h2
      have h4 : edgeY A s.c s.b o.a o.b ≤ s.intersectionF A o := by rw [hmax]; exact le_max_of_le_left (le_max_right _ _)
      linarith
    · have h2 : 8 * u * ((o.c - o.a) + (s.c - s.a)) < s.b - o.b := by rw [add_comm (o.c - o.a)]; rwa [abs_of_pos (by linarith)] at hsep
      have h3 := edgeY_lower hA hodd hu ho1 ho2 hs1 hs2 hfo hfs h2
      have h4 : edgeY A o.c o.b s.a s.b ≤ o.intersectionF A s := by
        rw [intersectionF_eq hA hodd hfo hfs hne.symm]; exact le_max_of_le_left (le_max_right _ _)
      rw [CSet.intersectionF_comm hA hodd o s, CSet.intersection_comm o s] at *
      linarith
  rw [abs_le]; constructor <;> linarith

/-- the height of the intersection of two triangles with distant peaks. -/
theorem CSet.intersection_lt_of_apart {s o : CSet K} (hu0 : 0 ≤ u) (hs1 : s.a ≤ s.b) (hs2 : s.b ≤ s.c) (ho1 : o.a ≤ o.b) (ho2 : o.b ≤ o.c)
    (hsep : 8 * u * ((s.c - s.a) + (o.c - o.a)) < |s.b - o.b|) (hu : u ≤ 1/16) : s.intersection o < 1 - 8 * u := by
  have aux : ∀ s o : CSet K, s.a ≤ s.b → s.b ≤ s.c → o.a ≤ o.b → o.b ≤ o.c → 8 * u * ((s.c - s.a) + (o.c - o.a)) < o.b - s.b →
      s.intersection o < 1 - 8 * u := by
    intro s o hs1 hs2 ho1 ho2 hsep
    by_contra hcon
    push Not at hcon
    have h0 : 0 < s.intersection o := by linarith
    have h1 := CSet.intersection_le_one s o
    have T1 := trimfAt_isTriangle hs1 hs2
    have T2 := trimfAt_isTriangle ho1 ho2
    obtain ⟨x, hx⟩ := CSet.intersection_attained s o hs1 hs2 ho1 ho2 T1 T2
    have l1 := (T1.level hs1 hs2 h0 h1 x).1 (hx.trans (min_le_left _ _))
    have l2 := (T2.level ho1 ho2 h0 h1 x).1 (hx.trans (min_le_right _ _))
    have hE0 : 0 ≤ (s.c - s.b) + (o.b - o.a) := by linarith
    have hE : (1 - 8 * u) * ((s.c - s.b) + (o.b - o.a)) ≤ s.intersection o * ((s.c - s.b) + (o.b - o.a)) := mul_le_mul_of_nonneg_right hcon hE0
    have hW : 8 * u * ((s.c - s.b) + (o.b - o.a)) ≤ 8 * u * ((s.c - s.a) + (o.c - o.a)) := mul_le_mul_of_nonneg_left (by linarith) (by linarith)
    linarith [l1.2, l2.1]
  have hsep0 : 0 ≤ 8 * u * ((s.c - s.a) + (o.c - o.a)) := mul_nonneg (by linarith) (by linarith)
  rcases lt_trichotomy s.b o.b with h | h | h
  · exact aux s o hs1 hs2 ho1 ho2 (by rwa [abs_sub_comm, abs_of_pos (by linarith)] at hsep)
  · rw [h, sub_self, abs_zero] at hsep; linarith
  · rw [CSet.intersection_comm]
    exact aux o s ho1 ho2 hs1 hs2 (by rw [add_comm (o.c - o.a)]; rwa [abs_of_pos (by linarith)] at hsep)

/-- **C195**, the values of `intersection` in floating point: in [0,1]; 1 for two sets with a common side, in particular for a set and itself; symmetric
if the rounding commutes with negation (as the IEEE roundings to nearest do, `C191_ieee_odd`). -/
theorem C195_range (hA : Lawful A u η) (s o : CSet K) :
    ∃ h, FSet.intersectionF A (.cont s) (.cont o) = .ok h ∧ 0 ≤ h ∧ h ≤ 1 ∧ (s.a = o.a ∧ s.b = o.b ∨ s.b = o.b ∧ s.c = o.c → h = 1) ∧
      ((∀ x, A.fl (-x) = -A.fl x) → FSet.intersectionF A (.cont o) (.cont s) = .ok h) := by
  refine ⟨_, rfl, (CSet.intersectionF_range s o).1, (CSet.intersectionF_range s o).2, CSet.intersectionF_edge s o, ?_⟩
  intro hodd
  simp only [FSet.intersectionF, Except.ok.injEq]
  exact CSet.intersectionF_comm hA hodd o s

/-- **C195**, accuracy: if the peaks are further apart than `8u` times the sum of the widths, the computed intersection differs from the
height of the intersection of the two triangles by at most `5u + η`, and is not 1. Without that condition it is false (`C195_same_peak_false`,
`C195_disjoint_false`). -/
theorem C195_close_partial (hA : Lawful A u η) (hodd : ∀ x, A.fl (-x) = -A.fl x) (hu : u ≤ 1/16) (hη : η ≤ u) {s o : CSet K}
    (hs1 : s.a ≤ s.b) (hs2 : s.b ≤ s.c) (ho1 : o.a ≤ o.b) (ho2 : o.b ≤ o.c) (hfs : FloatSet A s) (hfo : FloatSet A o)
    (hsep : 8 * u * ((s.c - s.a) + (o.c - o.a)) < |s.b - o.b|) (μ ν : K → K) (hμ : IsTriangle s.a s.b s.c μ) (hν : IsTriangle o.a o.b o.c ν) :
    ∃ h hx, FSet.intersectionF A (.cont s) (.cont o) = .ok h ∧ IsGreatest (Set.range (fun x => min (μ x) (ν x))) hx ∧
      |h - hx| ≤ 5 * u + η ∧ h < 1 := by
  obtain ⟨hx, he, hg⟩ := C05_intersection_sup_min s o hs1 hs2 ho1 ho2 μ ν hμ hν
  simp only [FSet.intersection, Except.ok.injEq] at he
  subst he
  have hc := CSet.intersectionF_close hA hodd hu hη hs1 hs2 ho1 ho2 hfs hfo hsep
  refine ⟨_, _, rfl, hg, hc, ?_⟩
  have hl := CSet.intersection_lt_of_apart hA.u_nonneg hs1 hs2 ho1 ho2 hsep hu
  rw [abs_le] at hc
  linarith [hc.2, hA.u_nonneg]

end laws

/-- double precision: adjacent sets of a partition with decimal peaks. -/
example : FloatSet binary64 ⟨"", binary64.fl (1/10), binary64.fl (3/10), binary64.fl (7/10), false⟩ ∧
    FloatSet binary64 ⟨"", binary64.fl (3/10), binary64.fl (7/10), binary64.fl (9/10), false⟩ ∧
    8 * (1/2^53 : ℚ) * ((binary64.fl (7/10) - binary64.fl (1/10)) + (binary64.fl (9/10) - binary64.fl (3/10))) <
      |binary64.fl (3/10) - binary64.fl (7/10)| ∧
    CSet.intersectionF binary64 ⟨"", binary64.fl (1/10), binary64.fl (3/10), binary64.fl (7/10), false⟩
      ⟨"", binary64.fl (3/10), binary64.fl (7/10), binary64.fl (9/10), false⟩ = 1/2 := by
  unfold FloatSet IsFloat
  decide +kernel

/-- **C195** is false in double precision for sets with the same peak: the intersection of `(0.8, 1.7, 3.3)` and `(0.4, 1.7, 3.7)` is computed as 0, its
height is 1 (each of the four crossings is computed slightly above 1 and discarded). -/
theorem C195_same_peak_false : ∃ s o : CSet ℚ, FloatSet binary64 s ∧ FloatSet binary64 o ∧ s.a < s.b ∧ s.b < s.c ∧ o.a < o.b ∧ o.b < o.c ∧ s.b = o.b ∧
    FSet.intersection (.cont s) (.cont o) = .ok 1 ∧ FSet.intersectionF binary64 (.cont s) (.cont o) = .ok 0 := by
  refine ⟨⟨"", binary64.fl (8/10), binary64.fl (17/10), binary64.fl (33/10), false⟩,
    ⟨"", binary64.fl (4/10), binary64.fl (17/10), binary64.fl (37/10), false⟩, ?_⟩
  unfold FloatSet IsFloat
  decide +kernel

/-- **C195** is false in double precision for a very wide and a narrow set: two sets with disjoint supports have a computed intersection of 1. -/
theorem C195_disjoint_false : ∃ s o : CSet ℚ, FloatSet binary64 s ∧ FloatSet binary64 o ∧ s.a < s.b ∧ s.b ≤ s.c ∧ s.c < o.a ∧ o.a < o.b ∧ o.b < o.c ∧
    FSet.intersection (.cont s) (.cont o) = .ok 0 ∧ FSet.intersectionF binary64 (.cont s) (.cont o) = .ok 1 := by
  refine ⟨⟨"", -9007199254740992, 0, 0, false⟩, ⟨"", 1, 3/2, 2, false⟩, ?_⟩
  unfold FloatSet IsFloat
  decide +kernel

/-! ### alpha_cut and to_crisp -/

section cut
variable {A : Arith K} {u η : K}

theorem Spec.Lawful.add_err (hA : Lawful A u η) (hodd : ∀ x, A.fl (-x) = -A.fl x) {x y : K} (hx : IsFloat A x) (hy : IsFloat A y) :
    |A.fl (x + y) - (x + y)| ≤ u * |x + y| := by
  have := hA.sub_err x (-y) hx (IsFloat.neg hodd hy)
  rwa [sub_neg_eq_add] at this

theorem cut_offset (hA : Lawful A u η) (hu : u ≤ 1/16) {x y cut M : K} (hx : IsFloat A x) (hy : IsFloat A y) (hxy : x ≤ y) (h0 : 0 ≤ cut)
    (h1 : cut ≤ 1) (hM : |x| ≤ M) (hM' : |y| ≤ M) : |A.fl (A.fl (y - x) * cut) - (y - x) * cut| ≤ 6 * u * M + η := by
  have hu0 := hA.u_nonneg
  obtain ⟨d, e, b⟩ := hA.sub_delta hy hx
  rw [abs_le] at b hM hM'
  have hw : 0 ≤ y - x := by linarith
  have hc : 0 ≤ (y - x) * cut := mul_nonneg hw h0
  have hc2 : (y - x) * cut ≤ 2 * M := by
    calc (y - x) * cut ≤ (y - x) * 1 := mul_le_mul_of_nonneg_left h1 hw
      _ ≤ 2 * M := by linarith
  have he := hA.err (A.fl (y - x) * cut)
  have heq : A.fl (y - x) * cut = (y - x) * cut * (1 + d) := by rw [e]; ring
  rw [heq] at he ⊢
  have hab : |(y - x) * cut * (1 + d)| ≤ (y - x) * cut * (1 + u) := by
    rw [abs_mul, abs_of_nonneg hc, abs_of_nonneg (by linarith : (0 : K) ≤ 1 + d)]
    exact mul_le_mul_of_nonneg_left (by linarith) hc
  have hd : |(y - x) * cut * (1 + d) - (y - x) * cut| ≤ (y - x) * cut * u := by
    rw [show (y - x) * cut * (1 + d) - (y - x) * cut = (y - x) * cut * d by ring, abs_mul, abs_of_nonneg hc]
    exact mul_le_mul_of_nonneg_left (abs_le.2 b) hc
  have h3 : u * |(y - x) * cut * (1 + d)| ≤ u * ((y - x) * cut * (1 + u)) := mul_le_mul_of_nonneg_left hab hu0
  have h4 : u * ((y - x) * cut * (1 + u)) ≤ u * ((y - x) * cut * 2) :=
    mul_le_mul_of_nonneg_left (mul_le_mul_of_nonneg_left (by linarith) hc) hu0
  have h5 : u * ((y - x) * cut) ≤ u * (2 * M) := mul_le_mul_of_nonneg_left hc2 hu0
  have h6 := abs_sub_le (A.fl ((y - x) * cut * (1 + d))) ((y - x) * cut * (1 + d)) ((y - x) * cut)
  linarith

theorem cut_ends (hA : Lawful A u η) (hodd : ∀ x, A.fl (-x) = -A.fl x) (hu : u ≤ 1/16) {s : CSet K} (h1 : s.a ≤ s.b) (h2 : s.b ≤ s.c)
    (hf : FloatSet A s) {M : K} (hMa : |s.a| ≤ M) (hMc : |s.c| ≤ M) {cut : K} (c0 : 0 ≤ cut) (c1 : cut ≤ 1) :
    |A.fl (s.a + A.fl (A.fl (s.b - s.a) * cut)) - (s.a + (s.b - s.a) * cut)| ≤ cutError u η M ∧
    |A.fl (s.c - A.fl (A.fl (s.c - s.b) * cut)) - (s.c - (s.c - s.b) * cut)| ≤ cutError u η M := by
  have hu0 := hA.u_nonneg
  have hMb : |s.b| ≤ M := by rw [abs_le] at *; constructor <;> linarith
  have o1 := cut_offset hA hu hf.1 hf.2.1 h1 c0 c1 hMa hMb
  have o2 := cut_offset hA hu hf.2.1 hf.2.2 h2 c0 c1 hMb hMc
  have gen : ∀ L T ℓ : K, |T - L| ≤ 6 * u * M + η → |ℓ - T| ≤ u * |T| → |L| ≤ M → |ℓ - L| ≤ cutError u η M := by
    intro L T ℓ hT hl hL
    have t1 := abs_sub_le ℓ T L
    have t2 : |T| ≤ |T - L| + |L| := by
      have := abs_add_le (T - L) L
      rwa [sub_add_cancel] at this
    have t3 : u * |T| ≤ u * ((6 * u * M + η) + M) := mul_le_mul_of_nonneg_left (by linarith) hu0
    unfold cutError
    linarith
  rw [abs_le] at hMa hMb hMc
  constructor
  · refine gen _ (s.a + A.fl (A.fl (s.b - s.a) * cut)) _ ?_ (hA.add_err hodd hf.1 (isFloat_fl hA _)) ?_
    · rw [add_sub_add_left_eq_sub]; exact o1
    · have : 0 ≤ (s.b - s.a) * cut := mul_nonneg (by linarith) c0
      have : (s.b - s.a) * cut ≤ (s.b - s.a) * 1 := mul_le_mul_of_nonneg_left c1 (by linarith)
      rw [abs_le]; constructor <;> linarith
  · refine gen _ (s.c - A.fl (A.fl (s.c - s.b) * cut)) _ ?_ (hA.sub_err _ _ hf.2.2 (isFloat_fl hA _)) ?_
    · rw [sub_sub_sub_cancel_left, abs_sub_comm]; exact o2
    · have : 0 ≤ (s.c - s.b) * cut := mul_nonneg (by linarith) c0
      have : (s.c - s.b) * cut ≤ (s.c - s.b) * 1 := mul_le_mul_of_nonneg_left c1 (by linarith)
      rw [abs_le]; constructor <;> linarith

/-- **C196**: `alpha_cut` in floating point. A cut outside [0,1] raises `ValueError`. Otherwise the interval lies in the support; the cut at 0 is the
support; a higher cut is contained in a lower one; and the interval is the level set up to `cutError`: the numbers with (exact) degree at least
`cut` are in it up to that distance, and the numbers that far inside it have degree at least `cut`. -/
theorem C196_alpha_cut_partial (hA : Lawful A u η) (hodd : ∀ x, A.fl (-x) = -A.fl x) (hu : u ≤ 1/16) {s : CSet K} (h1 : s.a ≤ s.b) (h2 : s.b ≤ s.c)
    (hf : FloatSet A s) {M : K} (hMa : |s.a| ≤ M) (hMc : |s.c| ≤ M) (μ : K → K) (hμ : IsTriangle s.a s.b s.c μ) (cut : K) :
    (cut < 0 ∨ 1 < cut → s.alphaCutF A cut = .error .valueError) ∧
    (0 ≤ cut → cut ≤ 1 → ∃ l r, s.alphaCutF A cut = .ok (l, r) ∧ s.a ≤ l ∧ r ≤ s.c ∧
      (∀ x, 0 < cut → cut ≤ μ x → l - cutError u η M ≤ x ∧ x ≤ r + cutError u η M) ∧
      (∀ x, 0 < cut → l + cutError u η M ≤ x → x ≤ r - cutError u η M → cut ≤ μ x) ∧
      (∀ cut', cut ≤ cut' → cut' ≤ 1 → ∃ l' r', s.alphaCutF A cut' = .ok (l', r') ∧ l ≤ l' ∧ r' ≤ r)) ∧
    s.alphaCutF A 0 = .ok (s.a, s.c) := by
  have hw1 : 0 ≤ A.fl (s.b - s.a) := by have := hA.mono 0 (s.b - s.a) (by linarith); rwa [hA.zero] at this
  have hw2 : 0 ≤ A.fl (s.c - s.b) := by have := hA.mono 0 (s.c - s.b) (by linarith); rwa [hA.zero] at this
  refine ⟨?_, ?_, ?_⟩
  · intro h; unfold CSet.alphaCutF; exact if_pos h
  · intro c0 c1
    obtain ⟨e1, e2⟩ := cut_ends hA hodd hu h1 h2 hf hMa hMc c0 c1
    rw [abs_le] at e1 e2
    have hok : ∀ cut : K, 0 ≤ cut → cut ≤ 1 → s.alphaCutF A cut =
        .ok (A.fl (s.a + A.fl (A.fl (s.b - s.a) * cut)), A.fl (s.c - A.fl (A.fl (s.c - s.b) * cut))) := by
      intro cut c0 c1
      unfold CSet.alphaCutF
      rw [if_neg (by push Not; exact ⟨c0, c1⟩)]
    refine ⟨_, _, hok cut c0 c1, ?_, ?_, ?_, ?_, ?_⟩
    · have hp : 0 ≤ A.fl (A.fl (s.b - s.a) * cut) := by have := hA.mono 0 _ (mul_nonneg hw1 c0); rwa [hA.zero] at this
      have := hA.mono s.a (s.a + A.fl (A.fl (s.b - s.a) * cut)) (by linarith)
      rwa [hf.1] at this
    · have hp : 0 ≤ A.fl (A.fl (s.c - s.b) * cut) := by have := hA.mono 0 _ (mul_nonneg hw2 c0); rwa [hA.zero] at this
      have := hA.mono (s.c - A.fl (A.fl (s.c - s.b) * cut)) s.c (by linarith)
      rwa [hf.2.2] at this
    · intro x hc hx
      have l := (hμ.level h1 h2 hc c1 x).1 hx
      constructor <;> linarith
    · intro x hc hl hr
      exact (hμ.level h1 h2 hc c1 x).2 ⟨by linarith, by linarith⟩
    · intro cut' hcc c1'
      refine ⟨_, _, hok cut' (c0.trans hcc) c1', ?_, ?_⟩
      · apply hA.mono
        have := hA.mono _ _ (mul_le_mul_of_nonneg_left hcc hw1)
        linarith
      · apply hA.mono
        have := hA.mono _ _ (mul_le_mul_of_nonneg_left hcc hw2)
        linarith
  · unfold CSet.alphaCutF
    rw [if_neg (by push Not; exact ⟨le_refl _, zero_le_one⟩)]
    simp only [mul_zero, hA.zero, add_zero, sub_zero]
    rw [show A.fl s.a = s.a from hf.1, show A.fl s.c = s.c from hf.2.2]

/-- **C196**: `to_crisp` in floating point fails when and as the exact one does, keeps consequent and weight, and each of its conditions is within
`cutError` of the exact one, whose rows are those that match with degree at least `α` (C22). -/
theorem C196_to_crisp_partial (hA : Lawful A u η) (hodd : ∀ x, A.fl (-x) = -A.fl x) (hu : u ≤ 1/16) (vars : List (FVar K)) {M : K}
    (hv : ∀ v ∈ vars, ∀ s, FSet.cont s ∈ v.sets → s.a ≤ s.b ∧ s.b ≤ s.c ∧ FloatSet A s ∧ |s.a| ≤ M ∧ |s.c| ≤ M) (hw : WellNamed vars)
    (r : Rule String C K) (α : K) :
    (∀ r', r.toCrispF A α vars = .ok r' → ∃ r'', r.toCrisp α vars = .ok r'' ∧ r'.consequent = r''.consequent ∧ r'.weight = r''.weight ∧
      List.Forall₂ (NearCondition (cutError u η M)) r'.antecedent r''.antecedent) ∧
    (∀ e, r.toCrispF A α vars = .error e ↔ r.toCrisp α vars = .error e) := by
  have hclause : ∀ p : String × String, (∃ e, crispClauseF A α vars p = .error e ∧ crispClause α vars p = .error e) ∨
      ∃ q q', crispClauseF A α vars p = .ok q ∧ crispClause α vars p = .ok q' ∧ NearCondition (cutError u η M) q q' := by
    intro p
    unfold crispClauseF crispClause
    cases h1 : Dict.get (varDict vars) p.1 with
    | error e => exact .inl ⟨e, rfl, rfl⟩
    | ok sets =>
      cases h2 : Dict.get (setDict sets) p.2 with
      | error e => exact .inl ⟨e, by simp [py_bind_ok, h2], by simp [py_bind_ok, h2]⟩
      | ok fs =>
        simp only [py_bind_ok, h2]
        cases fs with
        | disc d => exact .inr ⟨_, _, rfl, rfl, rfl, rfl⟩
        | cont s =>
          have hmem : ∃ v ∈ vars, FSet.cont s ∈ v.sets := by
            have hk : p.1 ∈ Dict.keys (varDict vars) := (Dict.get?_isSome_iff _ _).1 ⟨_, Dict.get_eq_ok_iff.1 h1⟩
            obtain ⟨v, hv, hn⟩ := (mem_keys_varDict _ _).1 hk
            have e3 : Dict.get (varDict vars) p.1 = .ok v.sets := by
              rw [← hn]; exact Dict.get_eq_ok_iff.2 (varDict_get? hw.1 hv)
            rw [h1] at e3; cases e3
            have hk2 : p.2 ∈ Dict.keys (setDict v.sets) := (Dict.get?_isSome_iff _ _).1 ⟨_, Dict.get_eq_ok_iff.1 h2⟩
            obtain ⟨t, ht, htn⟩ := (mem_keys_setDict _ _).1 hk2
            have e4 : Dict.get (setDict v.sets) p.2 = .ok t := by
              rw [← htn]; exact Dict.get_eq_ok_iff.2 (setDict_get? (hw.2 v hv) ht)
            rw [h2] at e4; cases e4
            exact ⟨v, hv, ht⟩
          obtain ⟨v, hvm, hsm⟩ := hmem
          obtain ⟨o1, o2, hf, hMa, hMc⟩ := hv v hvm s hsm
          unfold CSet.alphaCutF CSet.alphaCut
          by_cases hc : α < 0 ∨ α > 1
          · left; refine ⟨.valueError, ?_, ?_⟩
            · simp only [if_pos hc]; rfl
            · simp only [if_pos hc]; rfl
          · right
            simp only [if_neg hc]
            push Not at hc
            exact ⟨_, _, rfl, rfl, rfl, cut_ends hA hodd hu o1 o2 hf hMa hMc hc.1 hc.2⟩
  have hm : ∀ l : List (String × String), (∃ e, l.mapM (crispClauseF A α vars) = .error e ∧ l.mapM (crispClause α vars) = .error e) ∨
      ∃ q q', l.mapM (crispClauseF A α vars) = .ok q ∧ l.mapM (crispClause α vars) = .ok q' ∧ List.Forall₂ (NearCondition (cutError u η M)) q q' := by
    intro l
    induction l with
    | nil => exact .inr ⟨[], [], rfl, rfl, .nil⟩
    | cons p l ih =>
      rcases hclause p with ⟨e, h1, h2⟩ | ⟨q, q', h1, h2, hn⟩
      · exact .inl ⟨e, by rw [List.mapM_cons, h1]; rfl, by rw [List.mapM_cons, h2]; rfl⟩
      · rcases ih with ⟨e, i1, i2⟩ | ⟨t, t', i1, i2, hn'⟩
        · exact .inl ⟨e, by rw [List.mapM_cons, h1, i1]; rfl, by rw [List.mapM_cons, h2, i2]; rfl⟩
        · exact .inr ⟨q :: t, q' :: t', by rw [List.mapM_cons, h1, i1]; rfl, by rw [List.mapM_cons, h2, i2]; rfl, .cons hn hn'⟩
  unfold Rule.toCrispF Rule.toCrisp
  rcases hm r.antecedent with ⟨e, h1, h2⟩ | ⟨q, q', h1, h2, hn⟩
  · rw [h1, h2]
    exact ⟨fun r' h => (by cases h), fun e => Iff.rfl⟩
  · rw [h1, h2]
    refine ⟨?_, fun e => ⟨fun h => (by cases h), fun h => (by cases h)⟩⟩
    intro r' h; cases h
    exact ⟨_, rfl, rfl, rfl, hn⟩

end cut

/-- a variable with decimal points: low `(0, 0, 0.1)`, middle `(0, 0.1, 0.4)`. -/
def cutVars : List (FVar ℚ) :=
  [⟨"x", [.cont ⟨"low", 0, 0, binary64.fl (1/10), false⟩, .cont ⟨"mid", 0, binary64.fl (1/10), binary64.fl (4/10), false⟩]⟩]

example : WellNamed cutVars ∧ (∀ v ∈ cutVars, ∀ s, FSet.cont s ∈ v.sets → s.a ≤ s.b ∧ s.b ≤ s.c ∧ FloatSet binary64 s ∧ |s.a| ≤ 1 ∧ |s.c| ≤ 1) ∧
    (∀ x, binary64.fl (-x) = -binary64.fl x) ∧
    (⟨[("x", "mid")], 0, 1⟩ : Rule String Nat ℚ).toCrispF binary64 (1/2) cutVars =
      .ok ⟨[("x", .interval (3602879701896397/72057594037927936) (1/4))], 0, 1⟩ := by
  refine ⟨⟨by decide +kernel, ?_⟩, ?_, C191_ieee_odd _ _ _, by decide +kernel⟩
  · intro v hv
    simp only [cutVars, List.mem_cons, List.not_mem_nil, or_false] at hv
    subst hv; decide +kernel
  · intro v hv s hs
    simp only [cutVars, List.mem_cons, List.not_mem_nil, or_false] at hv
    subst hv
    simp only [List.mem_cons, List.not_mem_nil, or_false, FSet.cont.injEq] at hs
    rcases hs with rfl | rfl <;> (unfold FloatSet IsFloat; decide +kernel)

/-- **C196** is false in double precision: the alpha cut at 1 of `(0, 0.1, 0.4)` is `(0.1, 0.09999999999999998)`, which contains no number, so that the
row 0.1, which has degree 1 and matches the rule with degree 1, does not satisfy the crisp rule. -/
theorem C196_peak_false : ∃ (s : CSet ℚ) (l r : ℚ) (rule : Rule String Nat ℚ) (rule' : Rule (CrispVal ℚ) Nat ℚ), FloatSet binary64 s ∧ s.a < s.b ∧
    s.b < s.c ∧ s.alphaCutF binary64 1 = .ok (l, r) ∧ r < l ∧ FSet.membershipF binary64 (.cont s) [.num s.b] = .ok [1] ∧
    RefersTo cutVars "x" "mid" (.cont s) ∧ rule.antecedent = [("x", "mid")] ∧ rule.toCrispF binary64 1 cutVars = .ok rule' ∧
    (∃ inst, datasetMembershipF binary64 [[.num s.b]] cutVars = .ok inst ∧ Dict.get inst "x" = .ok [("low", [0]), ("mid", [1])]) ∧
    ¬ ∀ q ∈ rule'.antecedent, CrispSat cutVars (fun _ => .num s.b) q := by
  refine ⟨⟨"mid", 0, binary64.fl (1/10), binary64.fl (4/10), false⟩, 3602879701896397/36028797018963968, 900719925474099/9007199254740992,
    ⟨[("x", "mid")], 0, 1⟩, ⟨[("x", .interval (3602879701896397/36028797018963968) (900719925474099/9007199254740992))], 0, 1⟩, ?_, by decide +kernel,
    by decide +kernel, by decide +kernel, by decide +kernel, by decide +kernel, ⟨_, List.mem_cons_self .., rfl, by simp, rfl⟩, rfl, by decide +kernel,
    ⟨[("x", [("low", [0]), ("mid", [1])])], by decide +kernel, by decide +kernel⟩, ?_⟩
  · unfold FloatSet IsFloat; decide +kernel
  · intro h
    obtain ⟨t, ht, hl, hr⟩ := h _ (List.mem_cons_self ..)
    have := hl.trans hr
    norm_num at this


/-! ### map_rule_variables -/

theorem mapClauseF_spec (A : Arith K) (f : MapFun) (origin dest : List (FVar K)) (ho : WellNamed origin) (hd : WellNamed dest)
    (p : String × String) (s : FSet K) (hs : RefersTo origin p.1 p.2 s) (vd : FVar K) (hvd : vd ∈ dest)
    (hn : vd.name = p.1) :
    (∀ q, mapClauseF A f (varDict origin) (varDict dest) p = .ok q →
      q.1 = p.1 ∧ ∃ key : FSet K → K, (∀ t ∈ vd.sets, f.keyF A t s = .ok (key t)) ∧
        ∃ t, IsFirstMax key vd.sets t ∧ q.2 = t.name) ∧
    (vd.sets ≠ [] → (∀ t ∈ vd.sets, ∃ k, f.keyF A t s = .ok k) →
      ∃ q, mapClauseF A f (varDict origin) (varDict dest) p = .ok q) := by
  obtain ⟨sets, e1, e2⟩ := RefersTo.lookup ho hs
  have e3 : Dict.get (varDict dest) p.1 = .ok vd.sets := by
    rw [← hn]; exact Dict.get_eq_ok_iff.2 (varDict_get? hd.1 hvd)
  unfold mapClauseF
  rw [e1, py_bind_ok, e3, py_bind_ok, e2, py_bind_ok]
  constructor
  · intro q hq
    rw [py_bind_eq_ok] at hq
    obtain ⟨ks, hks, hq⟩ := hq
    rw [py_bind_eq_ok] at hq
    obtain ⟨b, hb, hq⟩ := hq
    cases hq
    refine ⟨rfl, ?_⟩
    have hf := (mapM_ok_iff _ _ _).1 hks
    have hks' : ks = vd.sets.map (fun t => match f.keyF A t s with | .ok k => k | .error _ => 0) := by
      clear hb hks
      have : ks.map id = vd.sets.map (fun t => match f.keyF A t s with | .ok k => k | .error _ => 0) :=
        forall₂_map_eq hf (fun a b h => by simp only [h, id])
      simpa using this
    refine ⟨fun t => match f.keyF A t s with | .ok k => k | .error _ => 0, ?_, b.1, ?_, rfl⟩
    · intro t ht
      obtain ⟨k, -, hk⟩ := forall₂_mem_left hf t ht
      simp only [hk]
    · obtain ⟨-, hmax, pre, post, hsplit, hpre⟩ := pyMax_eq_ok _ _ _ hb
      rw [hks'] at hsplit hmax
      have hz : ∀ (l : List (FSet K)) (g : FSet K → K), l.zip (l.map g) = l.map (fun t => (t, g t)) := by
        intro l g
        induction l with
        | nil => rfl
        | cons a l ih => simp [ih]
      rw [hz] at hsplit hmax
      have hsnd : ∀ x ∈ pre ++ b :: post, x.2 = (match f.keyF A x.1 s with | .ok k => k | .error _ => 0) := by
        intro x hx
        rw [← hsplit] at hx
        obtain ⟨t, -, rfl⟩ := List.mem_map.1 hx
        rfl
      refine ⟨pre.map Prod.fst, post.map Prod.fst, ?_, ?_, ?_⟩
      · have := congrArg (List.map Prod.fst) hsplit
        simpa [List.map_map, Function.comp_def] using this
      · intro t ht
        obtain ⟨x, hx, rfl⟩ := List.mem_map.1 ht
        show (match f.keyF A x.1 s with | .ok k => k | .error _ => 0) < (match f.keyF A b.1 s with | .ok k => k | .error _ => 0)
        rw [← hsnd x (by simp [hx]), ← hsnd b (by simp)]
        exact hpre x hx
      · intro t ht
        obtain ⟨x, hx, rfl⟩ := List.mem_map.1 ht
        show (match f.keyF A x.1 s with | .ok k => k | .error _ => 0) ≤ (match f.keyF A b.1 s with | .ok k => k | .error _ => 0)
        rw [← hsnd x (by simp [hx]), ← hsnd b (by simp)]
        rw [hsplit] at hmax
        exact hmax x (by simp [hx])
  · intro hne hall
    obtain ⟨ks, hks⟩ := forall₂_of_forall_exists _ _ hall
    rw [(mapM_ok_iff _ _ _).2 hks, py_bind_ok]
    obtain ⟨m, hm⟩ := pyMax_ok_of_ne_nil (Prod.snd : FSet K × K → K) (vd.sets.zip ks) (by
      intro h
      have hl := hks.length_eq
      rw [List.zip_eq_nil_iff] at h
      rcases h with h | h
      · exact hne h
      · rw [h] at hl; exact hne (List.length_eq_zero_iff.1 hl))
    rw [hm]
    exact ⟨_, rfl⟩

/-- **C198**: in floating point, too, the mapped rule keeps features, order, consequent and weight, and every value becomes the name of the first
set of the destination variable with the largest computed `map_function` against the original set. -/
theorem C198_map (A : Arith K) (f : MapFun) (r r' : Rule String C K) (origin dest : List (FVar K))
    (ho : WellNamed origin) (hd : WellNamed dest)
    (hknown : ∀ p ∈ r.antecedent, ∃ s, RefersTo origin p.1 p.2 s)
    (h : r.mapVariablesF A origin dest f = .ok r') :
    r'.consequent = r.consequent ∧ r'.weight = r.weight ∧
    List.Forall₂ (fun p q => q.1 = p.1 ∧ ∃ s vd, RefersTo origin p.1 p.2 s ∧ vd ∈ dest ∧ vd.name = p.1 ∧
      ∃ key : FSet K → K, (∀ t ∈ vd.sets, f.keyF A t s = .ok (key t)) ∧ ∃ t, IsFirstMax key vd.sets t ∧ q.2 = t.name)
      r.antecedent r'.antecedent := by
  unfold Rule.mapVariablesF at h
  simp only at h
  split at h
  · rename_i hu
    rw [py_bind_eq_ok] at h
    obtain ⟨a, ha, h⟩ := h
    cases h
    refine ⟨rfl, rfl, ?_⟩
    have hf := (mapM_ok_iff _ _ _).1 ha
    have key : ∀ (l : List (String × String)) (a : List (String × String)),
        (∀ p ∈ l, ∃ s, RefersTo origin p.1 p.2 s) →
        List.Forall₂ (fun p q => mapClauseF A f (varDict origin) (varDict dest) p = .ok q) l a →
        List.Forall₂ (fun p q => q.1 = p.1 ∧ ∃ s vd, RefersTo origin p.1 p.2 s ∧ vd ∈ dest ∧ vd.name = p.1 ∧
          ∃ key : FSet K → K, (∀ t ∈ vd.sets, f.keyF A t s = .ok (key t)) ∧ ∃ t, IsFirstMax key vd.sets t ∧ q.2 = t.name)
          l a := by
      intro l a hk hf
      induction hf with
      | nil => exact .nil
      | @cons p q l a hpq _ ih =>
        refine .cons ?_ (ih (fun p hp => hk p (by simp [hp])))
        obtain ⟨s, hs⟩ := hk p (by simp)
        have hmem : p.1 ∈ Dict.keys (varDict dest) := by
          apply hu.1
          obtain ⟨v, hv, hn, -⟩ := hs
          exact (mem_keys_varDict _ _).2 ⟨v, hv, hn⟩
        obtain ⟨vd, hvd, hn⟩ := (mem_keys_varDict _ _).1 hmem
        obtain ⟨h1, h2⟩ := (mapClauseF_spec A f origin dest ho hd p s hs vd hvd hn).1 q hpq
        exact ⟨h1, s, vd, hs, hvd, hn, h2⟩
    exact key _ _ hknown hf
  · cases h

/-- **C198**: mapping succeeds when the universes agree, the conditions are known and comparable with the destination sets. -/
theorem C198_succeeds (A : Arith K) (f : MapFun) (r : Rule String C K) (origin dest : List (FVar K))
    (ho : WellNamed origin) (hd : WellNamed dest)
    (huniv : ∀ n, (∃ v ∈ origin, v.name = n) ↔ (∃ v ∈ dest, v.name = n))
    (hknown : ∀ p ∈ r.antecedent, ∃ s, RefersTo origin p.1 p.2 s ∧
      ∀ vd ∈ dest, vd.name = p.1 → vd.sets ≠ [] ∧ ∀ t ∈ vd.sets, ∃ k, f.keyF A t s = .ok k) :
    ∃ r', r.mapVariablesF A origin dest f = .ok r' := by
  unfold Rule.mapVariablesF
  simp only
  rw [if_pos ⟨fun k hk => by
      rw [mem_keys_varDict] at hk ⊢; exact (huniv k).1 hk, fun k hk => by
      rw [mem_keys_varDict] at hk ⊢; exact (huniv k).2 hk⟩]
  have : ∀ p ∈ r.antecedent, ∃ q, mapClauseF A f (varDict origin) (varDict dest) p = .ok q := by
    intro p hp
    obtain ⟨s, hs, hrest⟩ := hknown p hp
    obtain ⟨v, hv, hn, hh⟩ := hs
    obtain ⟨vd, hvd, hdn⟩ := (huniv p.1).1 ⟨v, hv, hn⟩
    obtain ⟨h1, h2⟩ := hrest vd hvd hdn
    exact (mapClauseF_spec A f origin dest ho hd p s ⟨v, hv, hn, hh⟩ vd hvd hdn).2 h1 h2
  obtain ⟨qs, hqs⟩ := forall₂_of_forall_exists _ _ this
  rw [(mapM_ok_iff _ _ _).2 hqs]
  exact ⟨_, rfl⟩

/-- **C198**: variable lists over different names raise `ValueError`, whatever the rule; an unknown `map_function` raises `ValueError` on any
rule with at least one (known) condition. -/
theorem C198_errors (A : Arith K) (r : Rule String C K) (origin dest : List (FVar K)) :
    (∀ f, ¬ (∀ n, (∃ v ∈ origin, v.name = n) ↔ (∃ v ∈ dest, v.name = n)) →
      r.mapVariablesF A origin dest f = .error .valueError) ∧
    (WellNamed origin → (∀ n, (∃ v ∈ origin, v.name = n) ↔ (∃ v ∈ dest, v.name = n)) → r.antecedent ≠ [] →
      (∀ p ∈ r.antecedent, ∃ s, RefersTo origin p.1 p.2 s) →
      r.mapVariablesF A origin dest .other = .error .valueError) := by
  constructor
  · intro f hne
    unfold Rule.mapVariablesF
    simp only
    rw [if_neg]
    rintro ⟨h1, h2⟩
    apply hne
    intro n
    rw [← mem_keys_varDict, ← mem_keys_varDict]
    exact ⟨h1 n, h2 n⟩
  · intro ho huniv hne hknown
    unfold Rule.mapVariablesF
    simp only
    rw [if_pos ⟨fun k hk => by
      rw [mem_keys_varDict] at hk ⊢; exact (huniv k).1 hk, fun k hk => by
      rw [mem_keys_varDict] at hk ⊢; exact (huniv k).2 hk⟩]
    have hcl : ∀ p ∈ r.antecedent, mapClauseF A .other (varDict origin) (varDict dest) p = .error .valueError := by
      intro p hp
      obtain ⟨s, hs⟩ := hknown p hp
      obtain ⟨sets, e1, e2⟩ := RefersTo.lookup ho hs
      obtain ⟨v, hv, hn, -⟩ := hs
      have hm : p.1 ∈ Dict.keys (varDict dest) := (mem_keys_varDict _ _).2 ((huniv p.1).1 ⟨v, hv, hn⟩)
      obtain ⟨ds, hds⟩ := (Dict.get?_isSome_iff _ _).2 hm
      unfold mapClauseF
      rw [e1, py_bind_ok, Dict.get_eq_ok_iff.2 hds, py_bind_ok, e2, py_bind_ok]
      cases ds with
      | nil => rfl
      | cons d ds => rfl
    obtain ⟨p, hp⟩ := List.exists_mem_of_ne_nil _ hne
    rw [mapM_error_eq _ _ .valueError]
    · rfl
    · intro q hq e he
      rw [hcl q hq] at he; cases he; rfl
    · exact ⟨p, hp, hcl p hp⟩

theorem CSet.intersectionF_lt_one {A : Arith K} {u η : K} (hA : Lawful A u η) (hodd : ∀ x, A.fl (-x) = -A.fl x) (hu : u ≤ 1/16) (hη : η ≤ u)
    {s o : CSet K} (hs1 : s.a ≤ s.b) (hs2 : s.b ≤ s.c) (ho1 : o.a ≤ o.b) (ho2 : o.b ≤ o.c) (hfs : FloatSet A s) (hfo : FloatSet A o)
    (hsep : 8 * u * ((s.c - s.a) + (o.c - o.a)) < |s.b - o.b|) : s.intersectionF A o < 1 := by
  have hc := CSet.intersectionF_close hA hodd hu hη hs1 hs2 ho1 ho2 hfs hfo hsep
  have hl := CSet.intersection_lt_of_apart hA.u_nonneg hs1 hs2 ho1 ho2 hsep hu
  rw [abs_le] at hc
  linarith [hc.2, hA.u_nonneg]

theorem intersectionF_lt_one_of_ne {A : Arith K} {u η : K} (hA : Lawful A u η) (hodd : ∀ x, A.fl (-x) = -A.fl x) (hu : u ≤ 1/16) (hη : η ≤ u)
    {sets : List (FSet K)} (hsep : ApartSets A u sets) {s t : FSet K} (hs : s ∈ sets) (ht : t ∈ sets) :
    ∃ k, t.intersectionF A s = .ok k ∧ (t = s → k = 1) ∧ (t ≠ s → k < 1) := by
  rcases hsep with ⟨cs, rfl, hcs, hnd⟩ | ⟨ds, rfl⟩
  · obtain ⟨s, hs', rfl⟩ := List.mem_map.1 hs
    obtain ⟨t, ht', rfl⟩ := List.mem_map.1 ht
    obtain ⟨s1, s2, sf⟩ := hcs s hs'
    obtain ⟨t1, t2, tf⟩ := hcs t ht'
    refine ⟨_, rfl, ?_, ?_⟩
    · intro he; cases he; exact CSet.intersectionF_edge s s (.inl ⟨rfl, rfl⟩)
    · intro hne
      exact CSet.intersectionF_lt_one hA hodd hu hη t1 t2 s1 s2 tf sf (hnd t ht' s hs' (fun h => hne (by rw [h])))
  · obtain ⟨s, hs, rfl⟩ := List.mem_map.1 hs
    obtain ⟨t, ht, rfl⟩ := List.mem_map.1 ht
    refine ⟨_, rfl, ?_, ?_⟩
    · intro he; cases he; simp
    · intro hne
      rw [if_neg (fun h => hne (by rw [h]))]
      exact zero_lt_one

/-- **C198** (intersection): mapping a rule onto its own variables gives the rule itself also in floating point, if the sets of each variable can be told
apart. Without that condition it is false, see `C198_identity_false`. -/
theorem C198_identity_partial {A : Arith K} {u η : K} (hA : Lawful A u η) (hodd : ∀ x, A.fl (-x) = -A.fl x) (hu : u ≤ 1/16) (hη : η ≤ u) (r : Rule String C K) (vars : List (FVar K)) (hw : WellNamed vars)
    (hsep : ∀ v ∈ vars, ApartSets A u v.sets) (hknown : ∀ p ∈ r.antecedent, ∃ s, RefersTo vars p.1 p.2 s) :
    r.mapVariablesF A vars vars .intersection = .ok r := by
  obtain ⟨r', hr'⟩ := C198_succeeds A .intersection r vars vars hw hw (fun n => Iff.rfl) (by
    intro p hp
    obtain ⟨s, hs⟩ := hknown p hp
    refine ⟨s, hs, ?_⟩
    intro vd hvd hn
    obtain ⟨v, hv, hvn, hsv, hsn⟩ := hs
    have : v = vd := List.inj_on_of_nodup_map hw.1 hv hvd (hvn.trans hn.symm)
    subst this
    refine ⟨List.ne_nil_of_mem hsv, fun t ht => ?_⟩
    obtain ⟨k, hk, -⟩ := intersectionF_lt_one_of_ne hA hodd hu hη (hsep v hv) hsv ht
    exact ⟨k, hk⟩)
  rw [hr']
  obtain ⟨h1, h2, h3⟩ := C198_map A .intersection r r' vars vars hw hw hknown hr'
  have hante : r'.antecedent = r.antecedent := by
    have : r'.antecedent.map id = r.antecedent.map id := by
      refine forall₂_map_eq h3 ?_
      rintro p q ⟨e1, s, vd, hs, hvd, hn, key, hkey, t, ⟨pre, post, hsplit, hpre, hpost⟩, e2⟩
      obtain ⟨v, hv, hvn, hsv, hsn⟩ := hs
      have : v = vd := List.inj_on_of_nodup_map hw.1 hv hvd (hvn.trans hn.symm)
      subst this
      have htm : t ∈ v.sets := by rw [hsplit]; simp
      have hts : t = s := by
        by_contra hne
        obtain ⟨k, hk, -, hlt⟩ := intersectionF_lt_one_of_ne hA hodd hu hη (hsep v hv) hsv htm
        obtain ⟨k', hk', h1', -⟩ := intersectionF_lt_one_of_ne hA hodd hu hη (hsep v hv) hsv hsv
        have e3 := hkey t htm
        have e4 := hkey s hsv
        simp only [MapFun.keyF] at e3 e4
        rw [hk] at e3
        rw [hk'] at e4
        cases e3; cases e4
        have : key s ≤ key t := by
          rw [hsplit] at hsv
          rcases List.mem_append.1 hsv with h | h
          · exact (hpre s h).le
          · rcases List.mem_cons.1 h with h | h
            · rw [h]
            · exact hpost s h
        rw [h1' rfl] at this
        exact absurd (hlt hne) (not_lt.2 this)
      show q = p
      exact Prod.ext e1 (by rw [e2, hts, hsn])
    simpa using this
  cases r; cases r'
  simp only at h1 h2 hante
  rw [h1, h2, hante]

/-- **C198** (intersection): if the original set can be told apart from every set of the destination variable, the set that is chosen overlaps
(exactly) with the original set as much as any other, up to `2 (5u + η)`. Without that condition it is false, see `C198_best_false`. -/
theorem C198_best_partial {A : Arith K} {u η : K} (hA : Lawful A u η) (hodd : ∀ x, A.fl (-x) = -A.fl x) (hu : u ≤ 1/16) (hη : η ≤ u)
    (cs : List (CSet K)) (s : CSet K) (key : FSet K → K) (hkey : ∀ t ∈ cs.map FSet.cont, MapFun.keyF A .intersection t (.cont s) = .ok (key t))
    {t : FSet K} (ht : IsFirstMax key (cs.map FSet.cont) t) (hs : s.a ≤ s.b ∧ s.b ≤ s.c ∧ FloatSet A s)
    (hcs : ∀ o ∈ cs, o.a ≤ o.b ∧ o.b ≤ o.c ∧ FloatSet A o ∧ 8 * u * ((o.c - o.a) + (s.c - s.a)) < |o.b - s.b|) :
    ∃ o ∈ cs, t = .cont o ∧ ∀ o' ∈ cs, ∃ h h', FSet.intersection (.cont o) (.cont s) = .ok h ∧ FSet.intersection (.cont o') (.cont s) = .ok h' ∧
      h' ≤ h + 2 * (5 * u + η) := by
  obtain ⟨pre, post, hsplit, hpre, hpost⟩ := ht
  have htm : t ∈ cs.map FSet.cont := by rw [hsplit]; simp
  have hmax : ∀ x ∈ cs.map FSet.cont, key x ≤ key t := by
    intro x hx
    rw [hsplit] at hx
    rcases List.mem_append.1 hx with h | h
    · exact (hpre x h).le
    · rcases List.mem_cons.1 h with h | h
      · rw [h]
      · exact hpost x h
  obtain ⟨o, ho, rfl⟩ := List.mem_map.1 htm
  refine ⟨o, ho, rfl, ?_⟩
  intro o' ho'
  refine ⟨_, _, rfl, rfl, ?_⟩
  have close : ∀ o ∈ cs, |key (.cont o) - o.intersection s| ≤ 5 * u + η := by
    intro o ho
    have h := hkey _ (List.mem_map_of_mem ho)
    simp only [MapFun.keyF, FSet.intersectionF, Except.ok.injEq] at h
    rw [← h]
    obtain ⟨c1, c2, c3, c4⟩ := hcs o ho
    exact CSet.intersectionF_close hA hodd hu hη c1 c2 hs.1 hs.2.1 c3 hs.2.2 c4
  have e1 := abs_le.1 (close o ho)
  have e2 := abs_le.1 (close o' ho')
  have e3 := hmax _ (List.mem_map_of_mem ho')
  linarith [e1.1, e1.2, e2.1, e2.2]

/-- the variable of `C24` in double precision. -/
example : WellNamed exVars ∧ (∀ v ∈ exVars, ApartSets binary64 (2 ^ (-53 : ℤ)) v.sets) ∧
    (⟨[("age", "1"), ("sex", "m")], "y", 1⟩ : Rule String String ℚ).mapVariablesF binary64 exVars exVars .intersection =
      .ok ⟨[("age", "1"), ("sex", "m")], "y", 1⟩ := by
  refine ⟨⟨by decide +kernel, ?_⟩, ?_, by decide +kernel⟩
  · intro v hv
    simp only [exVars, List.mem_cons, List.not_mem_nil, or_false] at hv
    rcases hv with rfl | rfl <;> decide +kernel
  · intro v hv
    simp only [exVars, List.mem_cons, List.not_mem_nil, or_false] at hv
    rcases hv with rfl | rfl
    · refine .inl ⟨[⟨"0", 0, 0, 1, false⟩, ⟨"1", 0, 1, 3, false⟩, ⟨"3", 1, 3, 3, false⟩], rfl, ?_, ?_⟩
      · unfold FloatSet IsFloat; decide +kernel
      · decide +kernel
    · exact .inr ⟨[⟨"m", .str "m"⟩, ⟨"f", .str "f"⟩], rfl⟩

/-- **C198** is false in double precision when a set is much narrower than its neighbour: the sets generated by the library from the points `-2⁵⁴, 0, 1, 2`
are mapped onto themselves, and the rule "x is 1" becomes "x is 0". -/
theorem C198_identity_false : ∃ (vars : List (FVar ℚ)) (sets : List (CSet ℚ)) (r r' : Rule String String ℚ),
    getFuzzyContinuousSets true [("a", (-18014398509481984 : ℚ)), ("0", 0), ("1", 1), ("2", 2)] = .ok sets ∧ vars = [⟨"x", sets.map .cont⟩] ∧
    WellNamed vars ∧ (∀ s ∈ sets, FloatSet binary64 s) ∧ r.antecedent = [("x", "1")] ∧
    r.mapVariables vars vars .intersection = .ok r ∧ r.mapVariablesF binary64 vars vars .intersection = .ok r' ∧ r'.antecedent = [("x", "0")] := by
  refine ⟨_, _, ⟨[("x", "1")], "c", 1⟩, ⟨[("x", "0")], "c", 1⟩, rfl, rfl, ⟨by decide +kernel, ?_⟩, ?_, rfl, by decide +kernel, by decide +kernel, rfl⟩
  · intro v hv
    simp only [List.mem_cons, List.not_mem_nil, or_false] at hv
    subst hv; decide +kernel
  · unfold FloatSet IsFloat; decide +kernel

/-- **C198** is false in double precision for sets with nearly the same peak: `(0.8, 1.7, 3.3)` is mapped to a set that overlaps with it to a degree
below 1/10, although the destination has a set with the same peak. -/
theorem C198_best_false : ∃ (o d : List (FVar ℚ)) (r : Rule String String ℚ), WellNamed o ∧ WellNamed d ∧
    (∀ v ∈ o ++ d, ∀ s, FSet.cont s ∈ v.sets → s.a < s.b ∧ s.b < s.c ∧ FloatSet binary64 s) ∧
    r.mapVariables o d .intersection = .ok ⟨[("x", "near")], "c", 1⟩ ∧
    r.mapVariablesF binary64 o d .intersection = .ok ⟨[("x", "far")], "c", 1⟩ := by
  refine ⟨[⟨"x", [.cont ⟨"s", binary64.fl (8/10), binary64.fl (17/10), binary64.fl (33/10), false⟩]⟩],
    [⟨"x", [.cont ⟨"near", binary64.fl (4/10), binary64.fl (17/10), binary64.fl (37/10), false⟩, .cont ⟨"far", 3, 6, 7, false⟩]⟩],
    ⟨[("x", "s")], "c", 1⟩, ⟨by decide +kernel, ?_⟩, ⟨by decide +kernel, ?_⟩, ?_, by decide +kernel, by decide +kernel⟩
  · intro v hv
    simp only [List.mem_cons, List.not_mem_nil, or_false] at hv
    subst hv; decide +kernel
  · intro v hv
    simp only [List.mem_cons, List.not_mem_nil, or_false] at hv
    subst hv; decide +kernel
  · intro v hv s hs
    simp only [List.cons_append, List.nil_append, List.mem_cons, List.not_mem_nil, or_false] at hv
    rcases hv with rfl | rfl
    · simp only [List.mem_cons, List.not_mem_nil, or_false, FSet.cont.injEq] at hs
      subst hs; unfold FloatSet IsFloat; decide +kernel
    · simp only [List.mem_cons, List.not_mem_nil, or_false, FSet.cont.injEq] at hs
      rcases hs with rfl | rfl <;> (unfold FloatSet IsFloat; decide +kernel)

/-! ### jaccard_similarity and merge -/

section jaccard
variable {A : Arith K} {u η : K}

theorem jaccard_ratio (hA : Lawful A u η) (hu : u ≤ 1/16) {x y v w : K} (hx : IsFloat A x) (hy : IsFloat A y) (hv : IsFloat A v) (hw : IsFloat A w)
    (h0 : 0 ≤ x - y) (hpos : 0 < v - w) (hle : x - y ≤ v - w) :
    0 ≤ A.fl (A.fl (x - y) / A.fl (v - w)) ∧ A.fl (A.fl (x - y) / A.fl (v - w)) ≤ 1 ∧
      |A.fl (A.fl (x - y) / A.fl (v - w)) - (x - y) / (v - w)| ≤ 4 * u + η := by
  have hu0 := hA.u_nonneg
  have n0 : 0 ≤ A.fl (x - y) := by have := hA.mono 0 _ h0; rwa [hA.zero] at this
  have nle : A.fl (x - y) ≤ A.fl (v - w) := hA.mono _ _ hle
  obtain ⟨d1, e1, b1⟩ := hA.sub_delta hx hy
  obtain ⟨d2, e2, b2⟩ := hA.sub_delta hv hw
  rw [abs_le] at b1 b2
  have dpos : 0 < A.fl (v - w) := by rw [e2]; exact mul_pos hpos (by linarith)
  have q0 : 0 ≤ A.fl (x - y) / A.fl (v - w) := div_nonneg n0 dpos.le
  have q1 : A.fl (x - y) / A.fl (v - w) ≤ 1 := (div_le_one dpos).2 nle
  refine ⟨by have := hA.mono _ _ q0; rwa [hA.zero] at this, by have := hA.mono _ _ q1; rwa [hA.one] at this, ?_⟩
  have he := hA.err (A.fl (x - y) / A.fl (v - w))
  rw [abs_of_nonneg q0] at he
  have hq : (x - y) / (v - w) ≤ 1 := (div_le_one hpos).2 hle
  have hq0 : 0 ≤ (x - y) / (v - w) := div_nonneg h0 hpos.le
  set q := (x - y) / (v - w) with hqd
  set Q := A.fl (x - y) / A.fl (v - w) with hQd
  have hrel : Q * (1 + d2) = q * (1 + d1) := by
    have hd2 : (1 + d2) ≠ 0 := by linarith
    rw [hQd, hqd, e1, e2]
    have := hpos.ne'
    field_simp
  have hd2 : (0 : K) < 1 + d2 := by linarith
  have hQq : |Q - q| ≤ 3 * u := by
    have h1 : (Q - q) * (1 + d2) = q * (d1 - d2) := by linarith
    have h2 : |Q - q| * (1 + d2) = q * |d1 - d2| := by
      rw [← abs_of_pos hd2, ← abs_mul, h1, abs_mul, abs_of_nonneg hq0]
    have h3 : |d1 - d2| ≤ 2 * u := abs_le.2 ⟨by linarith, by linarith⟩
    have h4 : q * |d1 - d2| ≤ 1 * (2 * u) := mul_le_mul hq h3 (abs_nonneg _) zero_le_one
    have h5 : |Q - q| * (15/16) ≤ |Q - q| * (1 + d2) := mul_le_mul_of_nonneg_left (by linarith) (abs_nonneg _)
    linarith
  have h6 : u * Q ≤ u * 1 := mul_le_mul_of_nonneg_left q1 hu0
  have h7 := abs_sub_le (A.fl Q) Q q
  linarith

theorem isFloat_max {x y : K} (hx : IsFloat A x) (hy : IsFloat A y) : IsFloat A (max x y) := by
  rcases max_choice x y with h | h <;> rw [h] <;> assumption

theorem isFloat_min {x y : K} (hx : IsFloat A x) (hy : IsFloat A y) : IsFloat A (min x y) := by
  rcases min_choice x y with h | h <;> rw [h] <;> assumption

theorem jaccard_lengths (s o : CSet K) (h : max s.a o.a < min s.c o.c) :
    0 ≤ min s.c o.c - max s.a o.a ∧ 0 < max s.c o.c - min s.a o.a ∧ min s.c o.c - max s.a o.a ≤ max s.c o.c - min s.a o.a := by
  have h1 := min_le_left s.c o.c
  have h2 := le_max_left s.c o.c
  have h3 := le_max_left s.a o.a
  have h4 := min_le_left s.a o.a
  refine ⟨by linarith, by linarith, by linarith⟩

/-- **C197**: `jaccard_similarity` in floating point is in [0,1], symmetric (if the rounding commutes with negation), 0 for sets with disjoint supports, and
1 for a set of positive width and itself. -/
theorem C197_range (hA : Lawful A u η) (hu : u ≤ 1/16) {s o : CSet K}
    (hfs : FloatSet A s) (hfo : FloatSet A o) :
    0 ≤ s.jaccardF A o ∧ s.jaccardF A o ≤ 1 ∧ ((∀ x, A.fl (-x) = -A.fl x) → s.jaccardF A o = o.jaccardF A s) ∧
      (s.c ≤ o.a ∨ o.c ≤ s.a → s.jaccardF A o = 0) ∧ (s.a < s.c → s.jaccardF A s = 1) := by
  have hr : 0 ≤ s.jaccardF A o ∧ s.jaccardF A o ≤ 1 := by
    unfold CSet.jaccardF
    simp only
    split_ifs with h
    · exact ⟨le_refl _, zero_le_one⟩
    · push Not at h
      obtain ⟨g1, g2, g3⟩ := jaccard_lengths s o h
      obtain ⟨j0, j1, -⟩ := jaccard_ratio hA hu (isFloat_min hfs.2.2 hfo.2.2) (isFloat_max hfs.1 hfo.1) (isFloat_max hfs.2.2 hfo.2.2)
        (isFloat_min hfs.1 hfo.1) g1 g2 g3
      obtain ⟨i0, i1⟩ := CSet.intersectionF_range (A := A) s o
      have m1 := hA.mono _ _ (mul_nonneg j0 i0)
      have m2 := hA.mono _ _ (mul_le_one₀ j1 i0 i1)
      rw [hA.zero] at m1; rw [hA.one] at m2
      exact ⟨m1, m2⟩
  refine ⟨hr.1, hr.2, ?_, ?_, ?_⟩
  · intro hodd
    unfold CSet.jaccardF
    simp only
    rw [max_comm s.a o.a, min_comm s.c o.c, max_comm s.c o.c, min_comm s.a o.a, CSet.intersectionF_comm hA hodd s o]
  · intro h
    unfold CSet.jaccardF
    simp only
    refine if_pos ?_
    rcases h with h | h
    · exact (min_le_left _ _).trans (h.trans (le_max_right _ _))
    · exact (min_le_right _ _).trans (h.trans (le_max_left _ _))
  · intro h
    unfold CSet.jaccardF
    simp only [max_self, min_self]
    rw [if_neg (not_le.2 h), CSet.intersectionF_edge s s (.inl ⟨rfl, rfl⟩), mul_one]
    have : A.fl (s.c - s.a) ≠ 0 := by
      obtain ⟨d, e, b⟩ := hA.sub_delta hfs.2.2 hfs.1
      rw [abs_le] at b
      rw [e]
      exact (mul_pos (by linarith) (by linarith)).ne'
    rw [div_self this, hA.one, hA.one]

/-- **C197**, accuracy: if the peaks are further apart than `8u` times the sum of the widths, the computed similarity is within `10u + 3η` of
the exact one. -/
theorem C197_close_partial (hA : Lawful A u η) (hodd : ∀ x, A.fl (-x) = -A.fl x) (hu : u ≤ 1/16) (hη : η ≤ u) {s o : CSet K} (hs1 : s.a ≤ s.b)
    (hs2 : s.b ≤ s.c) (ho1 : o.a ≤ o.b) (ho2 : o.b ≤ o.c) (hfs : FloatSet A s) (hfo : FloatSet A o)
    (hsep : 8 * u * ((s.c - s.a) + (o.c - o.a)) < |s.b - o.b|) : |s.jaccardF A o - s.jaccard o| ≤ 10 * u + 3 * η := by
  have hu0 := hA.u_nonneg
  have hη0 := hA.η_nonneg
  unfold CSet.jaccardF CSet.jaccard
  simp only
  split_ifs with h
  · rw [sub_zero, abs_zero]; linarith
  · push Not at h
    obtain ⟨g1, g2, g3⟩ := jaccard_lengths s o h
    obtain ⟨j0, j1, j2⟩ := jaccard_ratio hA hu (isFloat_min hfs.2.2 hfo.2.2) (isFloat_max hfs.1 hfo.1) (isFloat_max hfs.2.2 hfo.2.2)
      (isFloat_min hfs.1 hfo.1) g1 g2 g3
    obtain ⟨i0, i1⟩ := CSet.intersectionF_range (A := A) s o
    have hc := CSet.intersectionF_close hA hodd hu hη hs1 hs2 ho1 ho2 hfs hfo hsep
    have k0 := CSet.intersection_nonneg s o
    have k1 := CSet.intersection_le_one s o
    set Q := A.fl (A.fl (min s.c o.c - max s.a o.a) / A.fl (max s.c o.c - min s.a o.a))
    set q := (min s.c o.c - max s.a o.a) / (max s.c o.c - min s.a o.a)
    set H := s.intersectionF A o
    set h' := s.intersection o
    have he := hA.err (Q * H)
    have hQH : |Q * H| ≤ 1 := by rw [abs_of_nonneg (mul_nonneg j0 i0)]; exact mul_le_one₀ j1 i0 i1
    have h1 : u * |Q * H| ≤ u * 1 := mul_le_mul_of_nonneg_left hQH hu0
    have h2 : |Q * H - q * h'| ≤ (5 * u + η) + (4 * u + η) := by
      rw [show Q * H - q * h' = Q * (H - h') + (Q - q) * h' by ring]
      refine (abs_add_le _ _).trans (add_le_add ?_ ?_)
      · rw [abs_mul, abs_of_nonneg j0]
        calc Q * |H - h'| ≤ 1 * |H - h'| := mul_le_mul_of_nonneg_right j1 (abs_nonneg _)
          _ ≤ _ := by rw [one_mul]; exact hc
      · rw [abs_mul, abs_of_nonneg k0]
        calc |Q - q| * h' ≤ |Q - q| * 1 := mul_le_mul_of_nonneg_left k1 (abs_nonneg _)
          _ ≤ _ := by rw [mul_one]; exact j2
    have h3 := abs_sub_le (A.fl (Q * H)) (Q * H) (q * h')
    linarith

/-- **C197**: `merge` in floating point. If the names are numbers it gives a valid triangle with the smallest support that covers both sets, whose peak is
between the two peaks (if doubling is exact, as in IEEE arithmetic without overflow, `C197_ieee_double`) and within `2u |b₁ + b₂| + η` of
their mean; it is symmetric. -/
theorem C197_merge (hA : Lawful A u η) (hodd : ∀ x, A.fl (-x) = -A.fl x) (hdbl : ∀ x, IsFloat A x → IsFloat A (2 * x)) (readNum : String → Option K)
    (fmt : K → String) {s o : CSet K} (hs1 : s.a ≤ s.b) (hs2 : s.b ≤ s.c) (ho1 : o.a ≤ o.b) (ho2 : o.b ≤ o.c) (hfs : FloatSet A s)
    (hfo : FloatSet A o) :
    ((readNum s.name = none ∨ readNum o.name = none) → s.mergeF A readNum fmt o = .error .valueError) ∧
    (∀ n₁ n₂, readNum s.name = some n₁ → readNum o.name = some n₂ → ∃ m, s.mergeF A readNum fmt o = .ok m ∧ o.mergeF A readNum fmt s = .ok m ∧
      m.name = fmt (A.fl (A.fl (n₁ + n₂) / 2)) ∧ m.a = min s.a o.a ∧ m.c = max s.c o.c ∧ min s.b o.b ≤ m.b ∧ m.b ≤ max s.b o.b ∧ m.a ≤ m.b ∧ m.b ≤ m.c ∧ FloatSet A m ∧
      |m.b - (s.b + o.b) / 2| ≤ 2 * u * |s.b + o.b| + η ∧ (s.b = o.b → m.b = s.b)) := by
  have hu0 := hA.u_nonneg
  constructor
  · intro h
    unfold CSet.mergeF
    rcases h with h | h
    · rw [h]
    · rw [h]; cases readNum s.name <;> rfl
  · intro n₁ n₂ e1 e2
    have mid : ∀ x y : K, IsFloat A x → IsFloat A y → x ≤ y → x ≤ A.fl (A.fl (x + y) / 2) ∧ A.fl (A.fl (x + y) / 2) ≤ y := by
      intro x y hx hy hxy
      have d1 := hdbl x hx
      have d2 := hdbl y hy
      have m1 := hA.mono (2 * x) (x + y) (by linarith)
      have m2 := hA.mono (x + y) (2 * y) (by linarith)
      rw [d1] at m1; rw [d2] at m2
      have k1 := hA.mono x (A.fl (x + y) / 2) (by linarith)
      have k2 := hA.mono (A.fl (x + y) / 2) y (by linarith)
      rw [hx] at k1; rw [hy] at k2
      exact ⟨k1, k2⟩
    have hb : min s.b o.b ≤ A.fl (A.fl (s.b + o.b) / 2) ∧ A.fl (A.fl (s.b + o.b) / 2) ≤ max s.b o.b := by
      rcases le_total s.b o.b with h | h
      · rw [min_eq_left h, max_eq_right h]; exact mid _ _ hfs.2.1 hfo.2.1 h
      · rw [min_eq_right h, max_eq_left h, add_comm]; exact mid _ _ hfo.2.1 hfs.2.1 h
    have ha : min s.a o.a ≤ min s.b o.b := min_le_min hs1 ho1
    have hc : max s.b o.b ≤ max s.c o.c := max_le_max hs2 ho2
    refine ⟨⟨fmt (A.fl (A.fl (n₁ + n₂) / 2)), min s.a o.a, A.fl (A.fl (s.b + o.b) / 2), max s.c o.c, false⟩, by simp only [CSet.mergeF, e1, e2], ?_, rfl, rfl, rfl, hb.1, hb.2, ha.trans hb.1, hb.2.trans hc,
      ⟨isFloat_min hfs.1 hfo.1, isFloat_fl hA _, isFloat_max hfs.2.2 hfo.2.2⟩, ?_, ?_⟩
    · simp only [CSet.mergeF, e1, e2]
      rw [add_comm n₂ n₁, add_comm o.b s.b, min_comm, max_comm]
    · have h1 := hA.add_err hodd hfs.2.1 hfo.2.1
      have h2 := hA.err (A.fl (s.b + o.b) / 2)
      rw [abs_div, abs_two] at h2
      set S := s.b + o.b
      set T := A.fl S
      have h3 : |T| ≤ |S| + u * |S| := by
        have := abs_add_le (T - S) S
        rw [sub_add_cancel] at this
        linarith
      have h4 : |T / 2 - S / 2| ≤ u * |S| / 2 := by
        rw [← sub_div, abs_div, abs_two]; linarith
      have h5 : u * (|T| / 2) ≤ u * ((|S| + u * |S|) / 2) := mul_le_mul_of_nonneg_left (by linarith) hu0
      have h6 := abs_sub_le (A.fl (T / 2)) (T / 2) (S / 2)
      have h7 : u * (u * |S|) ≤ 1 * (u * |S|) := mul_le_mul_of_nonneg_right hA.u_lt.le (mul_nonneg hu0 (abs_nonneg _))
      show |A.fl (T / 2) - S / 2| ≤ 2 * u * |S| + η
      linarith [mul_nonneg hu0 (abs_nonneg S)]
    · intro h
      have := mid s.b s.b hfs.2.1 hfs.2.1 le_rfl
      show A.fl (A.fl (s.b + o.b) / 2) = s.b
      rw [← h]
      exact le_antisymm this.2 this.1

end jaccard

/-- doubling is exact in IEEE arithmetic without overflow. -/
theorem C197_ieee_double (p : Nat) (emin : ℤ) (order : Nat → SumTree) (x : ℚ) (hx : IsFloat (ieee p emin order) x) :
    IsFloat (ieee p emin order) (2 * x) := by
  have hx' : ieeeRound p emin x = x := hx
  show ieeeRound p emin (2 * x) = 2 * x
  by_cases h0 : x = 0
  · rw [h0, mul_zero]; exact round_zero
  have hlog : Int.log 2 |2 * x| ≤ Int.log 2 |x| + 1 := by
    have h1 := lt_log x
    have h2 : |2 * x| < (2 : ℚ) ^ (Int.log 2 |x| + 1 + 1) := by
      rw [zpow_add_one₀ (by norm_num), abs_mul, abs_two, mul_comm]
      linarith
    have h3 : |2 * x| ≥ (2 : ℚ) ^ Int.log 2 |2 * x| := log_le (by simpa using h0)
    have h4 := (zpow_lt_zpow_iff_right₀ (by norm_num : (1 : ℚ) < 2)).1 (lt_of_le_of_lt h3 h2)
    omega
  have hle : lastBit p emin (2 * x) ≤ lastBit p emin x + 1 := by
    unfold lastBit
    rcases le_total (Int.log 2 |x| - ((p : ℤ) - 1)) emin with h | h
    · rw [max_eq_right h]; exact max_le (by omega) (by omega)
    · rw [max_eq_left h]; exact max_le (by omega) (by omega)
  obtain ⟨m, hm⟩ := multiple_of_le hle (halfEven (x / 2 ^ lastBit p emin x))
  refine round_multiple (k := m) ?_
  rw [← hm, zpow_add_one₀ (by norm_num)]
  conv_lhs => rw [← hx']
  unfold ieeeRound
  ring

/-- `(0.1, 0.3, 0.7)` and `(0.3, 0.7, 0.9)` in double precision. -/
example : CSet.jaccardF binary64 ⟨"", binary64.fl (1/10), binary64.fl (3/10), binary64.fl (7/10), false⟩
      ⟨"", binary64.fl (3/10), binary64.fl (7/10), binary64.fl (9/10), false⟩ = 9007199254740991/36028797018963968 ∧
    (CSet.mergeF binary64 (fun n => if n = "0.3" then some (binary64.fl (3/10)) else if n = "0.7" then some (binary64.fl (7/10)) else none)
      (fun _ => "0.5") ⟨"0.3", binary64.fl (1/10), binary64.fl (3/10), binary64.fl (7/10), false⟩
      ⟨"0.7", binary64.fl (3/10), binary64.fl (7/10), binary64.fl (9/10), false⟩) =
        .ok ⟨"0.5", binary64.fl (1/10), 1/2, binary64.fl (9/10), false⟩ := by decide +kernel

/-- **C197** is false in double precision without the condition on the peaks: `(0.8, 1.7, 3.3)` and `(0.4, 1.7, 3.7)` have an exact similarity above 3/4, and a
computed one of 0. -/
theorem C197_same_peak_false : ∃ s o : CSet ℚ, FloatSet binary64 s ∧ FloatSet binary64 o ∧ s.a < s.b ∧ s.b < s.c ∧ o.a < o.b ∧ o.b < o.c ∧ s.b = o.b ∧
    3/4 < s.jaccard o ∧ s.jaccardF binary64 o = 0 := by
  refine ⟨⟨"", binary64.fl (8/10), binary64.fl (17/10), binary64.fl (33/10), false⟩,
    ⟨"", binary64.fl (4/10), binary64.fl (17/10), binary64.fl (37/10), false⟩, ?_⟩
  unfold FloatSet IsFloat
  decide +kernel

end Teacher
