import Verif.Props.RoundedBFit
import Verif.Props.IEEE

/-! # C174: memberships of binary trees fitted in floating point and exactly -/

set_option linter.unusedSectionVars false

namespace Teacher
open Spec FB

variable {C K : Type} [Field K] [LinearOrder K] [IsStrictOrderedRing K]

section near
variable {A : Arith K} {u η : K}

theorem testDegreeF_near (hA : Lawful A u η) {row : List (Cell K)} (hr : ∀ x, Cell.num x ∈ row → IsFloat A x) {t : FTest K}
    (ht : FloatVar A t.var) {m m' : K} (h : TestDegree row t m) (h' : TestDegreeF A row t m') : NearDeg (degreeError u η) m m' := by
  obtain ⟨fs, x, h1, h2, h3⟩ := h
  obtain ⟨fs', x', g1, g2, g3⟩ := h'
  rw [h1] at g1; cases g1
  rw [h2] at g2; cases g2
  obtain ⟨ms', k1, k2⟩ := FSet.membershipF_near hA (s := fs)
    (fun c hc => ht c (by rw [← hc]; exact List.mem_of_getElem? h1))
    (v := [x]) (fun z hz => hr z (by rw [List.mem_singleton] at hz; rw [hz]; exact List.mem_of_getElem? h2)) h3
  rw [g3] at k1
  cases k1
  cases k2 with
  | cons k _ => exact k

theorem sums_near (hA : Lawful A u η) {row : List (Cell K)} (hr : ∀ x, Cell.num x ∈ row → IsFloat A x) {v : FVar K} {att : Nat}
    (hv : FloatVar A v) {N : Nat} : ∀ (idxs : List Nat) (k : Nat) (a a' : K) (ms ms' : List K), k + idxs.length ≤ N → NearSum u η N k a a' →
      List.Forall₂ (fun i m => TestDegree row ⟨v, att, i⟩ m) idxs ms → List.Forall₂ (fun i m => TestDegreeF A row ⟨v, att, i⟩ m) idxs ms' →
      NearSum u η N (k + idxs.length) (a + ms.sum) (ms'.foldl (fun s x => A.fl (s + x)) a') := by
  intro idxs
  induction idxs with
  | nil =>
    intro k a a' ms ms' _ h h1 h2
    cases h1; cases h2
    simpa using h
  | cons i idxs ih =>
    intro k a a' ms ms' hk h h1 h2
    rw [List.length_cons] at hk
    cases h1 with
    | cons d1 h1 =>
      cases h2 with
      | cons d2 h2 =>
        have hs := nearSum_step hA h (by omega) (testDegreeF_near hA hr (t := ⟨v, att, i⟩) hv d1 d2)
        have := ih (k + 1) _ _ _ _ (by omega) hs h1 h2
        rw [List.sum_cons, ← add_assoc, List.foldl_cons, List.length_cons, show k + (idxs.length + 1) = k + 1 + idxs.length by omega]
        exact this

theorem bTestDegreeF_near (hA : Lawful A u η) {row : List (Cell K)} (hr : ∀ x, Cell.num x ∈ row → IsFloat A x) {t : BTest K}
    (ht : FloatVar A t.var) {N : Nat} (hN : t.idxs.length ≤ N) {m m' : K} (h : BTestDegree row t m) (h' : BTestDegreeF A row t m') :
    NearSum u η N t.idxs.length m m' := by
  obtain ⟨ms, h1, rfl⟩ := h
  obtain ⟨ms', g1, rfl⟩ := h'
  have := sums_near hA hr ht t.idxs 0 0 0 ms ms' (by simpa using hN) (by simp [NearSum]) h1 g1
  simpa [leftSum] using this

/-- the degree of a row behind a path, in floating point and exactly. -/
theorem bLeafDegreeF_near (hA : Lawful A u η) {row : List (Cell K)} (hr : ∀ x, Cell.num x ∈ row → IsFloat A x) {N : Nat}
    {path : List (BTest K)} (hp : ∀ t ∈ path, FloatVar A t.var ∧ t.idxs.length ≤ N) {m m' : K} (h : BLeafDegree min row path m)
    (h' : BLeafDegreeF A row path m') : |m' - m| ≤ unionError u η N := by
  obtain ⟨ms, h1, rfl⟩ := h
  obtain ⟨ms', g1, rfl⟩ := h'
  have key : ∀ (path : List (BTest K)), (∀ t ∈ path, FloatVar A t.var ∧ t.idxs.length ≤ N) → ∀ (ms ms' : List K) (a a' : K),
      List.Forall₂ (BTestDegree row) path ms → List.Forall₂ (BTestDegreeF A row) path ms' → NearDeg (unionError u η N) a a' →
      NearDeg (unionError u η N) (ms.foldl min a) (ms'.foldl min a') := by
    intro path
    induction path with
    | nil => intro _ ms ms' a a' h1 h2 h; cases h1; cases h2; exact h
    | cons t path ih =>
      intro hp ms ms' a a' h1 h2 h
      cases h1 with
      | cons d1 h1 =>
        cases h2 with
        | cons d2 h2 =>
          obtain ⟨p1, p2⟩ := hp t List.mem_cons_self
          simp only [List.foldl_cons]
          exact ih (fun t ht => hp t (List.mem_cons_of_mem _ ht)) _ _ _ _ h1 h2 (near_min_sum hA p2 h (bTestDegreeF_near hA hr p1 p2 d1 d2))
  have h0 : NearDeg (unionError u η N) (1 : K) 1 := ⟨zero_le_one, le_rfl, zero_le_one, le_rfl, by simpa using unionError_nonneg hA N⟩
  exact (key path hp ms ms' 1 1 h1 g1 h0).2.2.2.2

end near

section fit
variable [LinearOrder C] {A : Arith K} {u η : K}

/-- **C174** (partial): the membership of a training example to a node of the fitted tree is, up to the rounding error of one sum of
degrees, the exact degree of the example in the tests of the node, and it is never smaller than that: if no variable is tested twice
before the node. Missing: nodes behind two tests of one variable, where the statement is false (`C174_memberships_false`). -/
theorem C174_memberships_partial [NanSort K] (hA : Lawful A u η) (ent : List K → List C → K) (p : FDTParams K)
    (hn : ∀ v ∈ p.vars, (v.sets.map FSet.name).Nodup) (hv : ∀ v ∈ p.vars, FloatVar A v) (N : Nat)
    (hN : ∀ v ∈ p.vars, v.sets.length ≤ N) (X : List (List (Cell K))) (hXf : FloatTable A X)
    (y : List C) (t : BNode C K) (h : fbdtFitF A ent p fbdtNew X y = .ok t) :
    ∀ q ∈ bNodePaths t, List.Forall₂ (fun row m => ∀ m0, BLeafDegree min row q.1 m0 →
      m0 ≤ m + unionError u η N ∧ ((q.1.map BTest.att).Nodup → |m - m0| ≤ unionError u η N)) X q.2.mu := by
  intro q hq
  obtain ⟨-, h2, h3⟩ := C173_nodes hA ent p hn hv X hXf y t h q hq
  have hp : ∀ t ∈ q.1, FloatVar A t.var ∧ t.idxs.length ≤ N := by
    intro test ht
    have hmem := List.mem_of_getElem? (h2 test ht).1
    exact ⟨hv _ hmem, (fittedF_idxs_length hA hn h _ hq test ht).trans (hN _ hmem)⟩
  rw [List.forall₂_iff_get] at h3 ⊢
  refine ⟨h3.1, ?_⟩
  intro i hi hi'
  obtain ⟨-, -, -, m0', k1, k2, k3⟩ := h3.2 i hi hi'
  intro m0 hm0
  have := bLeafDegreeF_near hA (fun x hx => hXf _ (List.get_mem _ _) x hx) hp hm0 k1
  refine ⟨?_, ?_⟩
  · have := (abs_le.1 this).1
    linarith
  · intro hnd
    rw [← k3 hnd]
    exact this

end fit

/-! ### a sum of degrees that is rounded below 1 -/

/-- rounding to multiples of `1/n`, halves downwards. -/
def gridDown (n : Nat) : Arith ℚ where
  fl := fun x => -(round (-x * n) : ℚ) / n
  sum := leftSum (fun x => -(round (-x * n) : ℚ) / n)

theorem gridDown_lawful (n : Nat) (hn : 0 < n) : Lawful (gridDown n) 0 (1 / (2 * n)) := by
  have hn' : (0 : ℚ) < n := by exact_mod_cast hn
  have hint : ∀ k : ℤ, (gridDown n).fl ((k : ℚ) / n) = (k : ℚ) / n := by
    intro k
    simp only [gridDown]
    rw [neg_mul, div_mul_cancel₀ _ hn'.ne', show (-(k : ℚ)) = ((-k : ℤ) : ℚ) by push_cast; rfl, round_intCast]
    simp
  have hmono : ∀ x y : ℚ, x ≤ y → (gridDown n).fl x ≤ (gridDown n).fl y := by
    intro x y h
    simp only [gridDown]
    apply div_le_div_of_nonneg_right _ hn'.le
    have : -y * n ≤ -x * n := mul_le_mul_of_nonneg_right (by linarith) hn'.le
    rw [neg_le_neg_iff, round_eq, round_eq]
    exact_mod_cast Int.floor_le_floor (by linarith)
  have hidem : ∀ x, (gridDown n).fl ((gridDown n).fl x) = (gridDown n).fl x := by
    intro x
    have := hint (-round (-x * n))
    rw [Int.cast_neg] at this
    exact this
  have hzero : (gridDown n).fl 0 = 0 := by have := hint 0; simpa using this
  exact {
    zero := hzero
    one := by have := hint n; rw [show (((n : ℤ) : ℚ)) / n = 1 by push_cast; exact div_self hn'.ne'] at this; exact this
    idem := hidem
    mono := hmono
    u_nonneg := le_refl _
    u_lt := zero_lt_one
    η_nonneg := by positivity
    err := by
      intro x
      simp only [gridDown, zero_mul, zero_add]
      have h := abs_sub_round (-x * n)
      have e : -(round (-x * n) : ℚ) / n - x = (-x * n - round (-x * n)) / n := by field_simp; ring
      rw [e, abs_div, abs_of_pos hn', div_le_iff₀ hn']
      refine h.trans (le_of_eq ?_)
      field_simp
    sub_err := by
      intro x y hx hy
      have hx' : x = -(round (-x * n) : ℚ) / n := hx.symm
      have hy' : y = -(round (-y * n) : ℚ) / n := hy.symm
      have : x - y = ((-round (-x * n) - -round (-y * n) : ℤ) : ℚ) / n := by
        rw [Int.cast_sub, sub_div, Int.cast_neg, Int.cast_neg, ← hx', ← hy']
      rw [this, hint]
      simp
    sum_mono := fun xs ys h => leftSum_mono hmono h
    sum_zero := fun xs h => leftSum_zero hzero h
    sum_float := fun xs _ => leftSum_float hzero hidem xs
    sum_ge := fun xs h x hx => leftSum_ge hzero hmono hidem xs h x hx }

def exNearParams : FDTParams ℚ := ⟨[exParams.vars[0]], 1 / 100, 2, 2⟩
/-- the last number is the largest multiple of `10⁻¹⁰` below `7/3`. -/
def exNearX : List (List (Cell ℚ)) :=
  [[.num 0], [.num 0], [.num 0], [.num 0], [.num 1], [.num 1], [.num 3], [.num 3], [.num (23333333333 / 10000000000)]]
def exNearY : List Nat := [0, 0, 0, 0, 1, 1, 2, 2, 2]

theorem exNear_float : ∀ v ∈ exNearParams.vars, FloatVar (gridDown 10000000000) v := by
  intro v hv s hs
  simp only [exNearParams, List.mem_cons, List.not_mem_nil, or_false] at hv
  subst hv
  simp only [exParams, List.getElem_cons_zero, List.mem_cons, List.not_mem_nil, or_false, FSet.cont.injEq] at hs
  unfold FloatSet IsFloat
  rcases hs with rfl | rfl | rfl <;> decide +kernel

theorem exNearX_float : FloatTable (gridDown 10000000000) exNearX := by
  intro row hrow x hx
  simp only [exNearX, List.mem_cons, List.not_mem_nil, or_false] at hrow
  unfold IsFloat
  rcases hrow with rfl | rfl | rfl | rfl | rfl | rfl | rfl | rfl | rfl <;>
    (simp only [List.mem_cons, List.not_mem_nil, or_false, Cell.num.injEq] at hx; subst hx; decide +kernel)

/-! ### double precision -/

/-- 1.1, 8.6 and 7.11 in double precision. -/
def dbl11 : ℚ := 2476979795053773 / 2251799813685248
def dbl86 : ℚ := 4841369599423283 / 562949953421312
def dbl711 : ℚ := 8005148337651057 / 1125899906842624

/-- one variable with the points 0, 1.1 and 8.6. -/
def exDblParams : FDTParams ℚ :=
  ⟨[⟨"age", [.cont ⟨"0", 0, 0, dbl11, false⟩, .cont ⟨"1", 0, dbl11, dbl86, false⟩, .cont ⟨"2", dbl11, dbl86, dbl86, false⟩]⟩], 1 / 100, 2, 2⟩
def exDblX : List (List (Cell ℚ)) :=
  [[.num 0], [.num 0], [.num 0], [.num 0], [.num dbl11], [.num dbl11], [.num dbl86], [.num dbl86], [.num dbl711]]

theorem exDbl_float : ∀ v ∈ exDblParams.vars, FloatVar binary64 v := by
  intro v hv s hs
  simp only [exDblParams, List.mem_cons, List.not_mem_nil, or_false] at hv
  subst hv
  simp only [List.mem_cons, List.not_mem_nil, or_false, FSet.cont.injEq] at hs
  unfold FloatSet IsFloat
  rcases hs with rfl | rfl | rfl <;> decide +kernel

theorem exDblX_float : FloatTable binary64 exDblX := by
  intro row hrow x hx
  simp only [exDblX, List.mem_cons, List.not_mem_nil, or_false] at hrow
  unfold IsFloat
  rcases hrow with rfl | rfl | rfl | rfl | rfl | rfl | rfl | rfl | rfl <;>
    (simp only [List.mem_cons, List.not_mem_nil, or_false, Cell.num.injEq] at hx; subst hx; decide +kernel)

/-- tests of the nodes, and memberships of the last example. -/
def nearTests (t : BNode Nat ℚ) : List (List (Nat × List Nat)) := (bNodePaths t).map (fun q => q.1.map (fun t => (t.att, t.idxs)))
def nearLast (t : BNode Nat ℚ) : List (Option ℚ) := (bNodePaths t).map (fun q => q.2.mu[8]?)

set_option synthInstance.maxSize 1000 in
set_option synthInstance.maxHeartbeats 200000 in
/-- **C174** is false in general, in double precision: nine examples 0, 0, 0, 0, 1.1, 1.1, 8.6, 8.6, 7.11 and one variable with the points
0, 1.1, 8.6. `fit` finds the same tests as in exact arithmetic with the same numbers, but the membership of 7.11 to the node behind
{1,2}, {1} is `1 - 2⁻⁵³` instead of about `0.1987`, and `predict` gives class 2 for `3.0` instead of class 1. The two degrees of 7.11 add up to 1
exactly, but the sum of the rounded degrees is `0.9999999999999999`: "partially covered by the first test", so the second test of the same
variable counts it fully. -/
theorem C174_memberships_false : (∀ v ∈ exDblParams.vars, FloatVar binary64 v) ∧ FloatTable binary64 exDblX ∧
    dbl11 = binary64.fl (11 / 10) ∧ dbl86 = binary64.fl (86 / 10) ∧ dbl711 = binary64.fl (711 / 100) ∧
    ∃ t tF, fbdtFit exEnt exDblParams fbdtNew exDblX exNearY = .ok t ∧
      fbdtFitF binary64 exEnt exDblParams fbdtNew exDblX exNearY = .ok tF ∧
      nearTests t = [[], [(0, [0])], [(0, [1, 2])], [(0, [1, 2]), (0, [1])], [(0, [1, 2]), (0, [2])]] ∧
      nearTests tF = [[], [(0, [0])], [(0, [1, 2])], [(0, [1, 2]), (0, [1])], [(0, [1, 2]), (0, [2])]] ∧
      nearLast t = [some 1, some 0, some 1, some (3355181722391018 / 16888498602639359), some 1] ∧
      nearLast tF = [some 1, some 0, some (1 - 1 / 2 ^ 53), some (1 - 1 / 2 ^ 53), some (1 - 1 / 2 ^ 53)] ∧
      fbdtPredict min .agg t [[.num 3]] = .ok [[1]] ∧
      fbdtPredictF binary64 min .agg tF [[.num 3]] = .ok [[2]] := by
  refine ⟨exDbl_float, exDblX_float, by decide +kernel, by decide +kernel, by decide +kernel, ?_⟩
  have h1 : (fbdtFit exEnt exDblParams fbdtNew exDblX exNearY).toOption.map (fun t =>
      (nearTests t, nearLast t, (fbdtPredict min .agg t [[.num 3]]).toOption)) = some
      ([[], [(0, [0])], [(0, [1, 2])], [(0, [1, 2]), (0, [1])], [(0, [1, 2]), (0, [2])]],
        [some 1, some 0, some 1, some (3355181722391018 / 16888498602639359), some 1], some [[1]]) := by decide +kernel
  have h2 : (fbdtFitF binary64 exEnt exDblParams fbdtNew exDblX exNearY).toOption.map (fun t =>
      (nearTests t, nearLast t, (fbdtPredictF binary64 min .agg t [[.num 3]]).toOption)) = some
      ([[], [(0, [0])], [(0, [1, 2])], [(0, [1, 2]), (0, [1])], [(0, [1, 2]), (0, [2])]],
        [some 1, some 0, some (1 - 1 / 2 ^ 53), some (1 - 1 / 2 ^ 53), some (1 - 1 / 2 ^ 53)], some [[2]]) := by
    decide +kernel
  have hopt : ∀ {α : Type} {r : Py α} {x : α}, r.toOption = some x → r = .ok x := by
    intro α r x h
    cases r with
    | error _ => cases h
    | ok _ => cases h; rfl
  cases e1 : fbdtFit exEnt exDblParams fbdtNew exDblX exNearY with
  | error _ => rw [e1] at h1; cases h1
  | ok t =>
    cases e2 : fbdtFitF binary64 exEnt exDblParams fbdtNew exDblX exNearY with
    | error _ => rw [e2] at h2; cases h2
    | ok tF =>
      rw [e1] at h1
      rw [e2] at h2
      simp only [Except.toOption, Option.map_some, Option.some.injEq, Prod.mk.injEq] at h1 h2
      exact ⟨t, tF, rfl, rfl, h1.1, h2.1, h1.2.1, h2.2.1, hopt h1.2.2, hopt h2.2.2⟩

/-! ### an example -/

def exNearTests : List (List (FVar ℚ)) := [[exParams.vars[0]], [exParams.vars[0], exParams.vars[0]], [exParams.vars[0], exParams.vars[0]]]

/-- lengths and memberships of the paths; tests and weights of the leaves; variables of the tests. -/
def nearSummary' (t : BNode Nat ℚ) : List (Nat × List ℚ) × List (List (Nat × List Nat) × Option (Dict Nat ℚ)) × List (List (FVar ℚ)) :=
  ((bNodePaths t).map (fun q => (q.1.length, q.2.mu)), (bLeafPaths t).map (fun q => (q.1.map (fun t => (t.att, t.idxs)), q.2)),
    (bLeafPaths t).map (fun q => q.1.map BTest.var))

set_option synthInstance.maxSize 1000 in
set_option synthInstance.maxHeartbeats 200000 in
/-- the hypotheses of C172, C173 and C174 hold for a tree of depth 2 that is fitted in floating point, with rounded memberships and weights;
the prediction for `267/100`, where the two classes have different votes, is that of the exact computation. -/
example : (∀ v ∈ exNearParams.vars, (v.sets.map FSet.name).Nodup) ∧ (∀ v ∈ exNearParams.vars, FloatVar (gridDown 10000000000) v) ∧
    (∀ v ∈ exNearParams.vars, v.sets.length ≤ 3) ∧ (∀ v ∈ exNearParams.vars, v.sets ≠ []) ∧ Rectangular exNearX ∧
    FloatTable (gridDown 10000000000) exNearX ∧
    ∃ t, fbdtFitF (gridDown 10000000000) exEnt exNearParams fbdtNew exNearX exNearY = .ok t ∧
      (∃ q ∈ bNodePaths t, q.1.length = 2 ∧ q.2.mu = [0, 0, 0, 0, 1, 1, 0, 0, 9999999999 / 10000000000]) ∧
      fbdtPredictF (gridDown 10000000000) min .agg t [[.num (267 / 100)]] = .ok [[2]] ∧
      fbdtPredict min .agg t [[.num (267 / 100)]] = .ok [[2]] := by
  have hn : ∀ v ∈ exNearParams.vars, (v.sets.map FSet.name).Nodup := by decide +kernel
  have hN : ∀ v ∈ exNearParams.vars, v.sets.length ≤ 3 := by decide +kernel
  refine ⟨hn, exNear_float, hN, by decide +kernel, ⟨1, by decide, by decide, by decide⟩, exNearX_float, ?_⟩
  have h1 : (fbdtFitF (gridDown 10000000000) exEnt exNearParams fbdtNew exNearX exNearY).toOption.map nearSummary' = some
      ([(0, [1, 1, 1, 1, 1, 1, 1, 1, 1]), (1, [1, 1, 1, 1, 0, 0, 0, 0, 0]), (1, [0, 0, 0, 0, 1, 1, 1, 1, 9999999999 / 10000000000]),
        (2, [0, 0, 0, 0, 1, 1, 0, 0, 9999999999 / 10000000000]), (2, [0, 0, 0, 0, 0, 0, 1, 1, 9999999999 / 10000000000])],
        [([(0, [0])], some [(0, 1), (1, 0), (2, 0)]),
        ([(0, [1, 2]), (0, [1])], some [(0, 0), (1, 6666666667 / 10000000000), (2, 3333333333 / 10000000000)]),
        ([(0, [1, 2]), (0, [2])], some [(0, 0), (1, 0), (2, 1)])], exNearTests) := by decide +kernel
  cases e : fbdtFitF (gridDown 10000000000) exEnt exNearParams fbdtNew exNearX exNearY with
  | error _ => rw [e] at h1; cases h1
  | ok t =>
    rw [e] at h1
    simp only [nearSummary', Except.toOption, Option.map_some, Option.some.injEq, Prod.mk.injEq] at h1
    obtain ⟨h1, h2, h3⟩ := h1
    unfold exNearTests at h3
    have hq : (2, [0, 0, 0, 0, 1, 1, 0, 0, (9999999999 / 10000000000 : ℚ)]) ∈ (bNodePaths t).map (fun q => (q.1.length, q.2.mu)) := by
      rw [h1]; simp
    obtain ⟨q, hq, hqe⟩ := List.mem_map.1 hq
    simp only [Prod.mk.injEq] at hqe
    refine ⟨t, rfl, ⟨q, hq, hqe.1, hqe.2⟩, ?_⟩
    have hl : bLeafPaths t = [([⟨exParams.vars[0], 0, [0]⟩], some [(0, 1), (1, 0), (2, 0)]),
        ([⟨exParams.vars[0], 0, [1, 2]⟩, ⟨exParams.vars[0], 0, [1]⟩], some [(0, 0), (1, 6666666667 / 10000000000), (2, 3333333333 / 10000000000)]),
        ([⟨exParams.vars[0], 0, [1, 2]⟩, ⟨exParams.vars[0], 0, [2]⟩], some [(0, 0), (1, 0), (2, 1)])] := by
      generalize bLeafPaths t = l at h2 h3
      rcases l with _ | ⟨⟨p1, c1⟩, _ | ⟨⟨p2, c2⟩, _ | ⟨⟨p3, c3⟩, _ | _⟩⟩⟩ <;> simp at h2 h3
      obtain ⟨⟨a1, rfl⟩, ⟨a2, rfl⟩, a3, rfl⟩ := h2
      obtain ⟨b1, b2, b3⟩ := h3
      rcases p1 with _ | ⟨⟨v1, i1, s1⟩, _ | _⟩ <;> simp at a1 b1
      rcases p2 with _ | ⟨⟨v2, i2, s2⟩, _ | ⟨⟨v3, i3, s3⟩, _ | _⟩⟩ <;> simp at a2 b2
      rcases p3 with _ | ⟨⟨v4, i4, s4⟩, _ | ⟨⟨v5, i5, s5⟩, _ | _⟩⟩ <;> simp at a3 b3
      obtain ⟨rfl, rfl⟩ := a1
      obtain ⟨⟨rfl, rfl⟩, rfl, rfl⟩ := a2
      obtain ⟨⟨rfl, rfl⟩, rfl, rfl⟩ := a3
      obtain ⟨rfl, rfl⟩ := b2
      obtain ⟨rfl, rfl⟩ := b3
      subst b1
      rfl
    have d0 : TestDegree (K := ℚ) [.num (267 / 100)] ⟨exParams.vars[0], 0, 0⟩ 0 := ⟨_, _, rfl, rfl, by decide +kernel⟩
    have d1 : TestDegree (K := ℚ) [.num (267 / 100)] ⟨exParams.vars[0], 0, 1⟩ (33 / 200) := ⟨_, _, rfl, rfl, by decide +kernel⟩
    have d2 : TestDegree (K := ℚ) [.num (267 / 100)] ⟨exParams.vars[0], 0, 2⟩ (167 / 200) := ⟨_, _, rfl, rfl, by decide +kernel⟩
    have b0 : BTestDegree (K := ℚ) [.num (267 / 100)] ⟨exParams.vars[0], 0, [0]⟩ 0 := ⟨_, .cons d0 .nil, by decide +kernel⟩
    have b12 : BTestDegree (K := ℚ) [.num (267 / 100)] ⟨exParams.vars[0], 0, [1, 2]⟩ 1 := ⟨_, .cons d1 (.cons d2 .nil), by decide +kernel⟩
    have b1 : BTestDegree (K := ℚ) [.num (267 / 100)] ⟨exParams.vars[0], 0, [1]⟩ (33 / 200) := ⟨_, .cons d1 .nil, by decide +kernel⟩
    have b2 : BTestDegree (K := ℚ) [.num (267 / 100)] ⟨exParams.vars[0], 0, [2]⟩ (167 / 200) := ⟨_, .cons d2 .nil, by decide +kernel⟩
    have hL : BRowLeaves min [.num (267 / 100)] t [([(0, 1), (1, 0), (2, 0)], 0),
        ([(0, 0), (1, 6666666667 / 10000000000), (2, 3333333333 / 10000000000)], 33 / 200), ([(0, 0), (1, 0), (2, 1)], 167 / 200)] := by
      unfold BRowLeaves
      rw [hl]
      exact .cons ⟨rfl, _, .cons b0 .nil, by decide +kernel⟩ (.cons ⟨rfl, _, .cons b12 (.cons b1 .nil), by decide +kernel⟩
        (.cons ⟨rfl, _, .cons b12 (.cons b2 .nil), by decide +kernel⟩ .nil))
    refine C172_fitted (gridDown_lawful 10000000000 (by norm_num)) exEnt exNearParams hn exNear_float 3 hN exNearX exNearX_float exNearY t e
      .agg _ ⟨1, by decide, by decide, by decide⟩ ?_ [2] (.cons ⟨_, hL, by decide, ?_⟩ .nil)
    · intro row hrow x hx
      simp only [List.mem_cons, List.not_mem_nil, or_false] at hrow
      subst hrow
      simp only [List.mem_cons, List.not_mem_nil, or_false, Cell.num.injEq] at hx
      subst hx
      unfold IsFloat
      decide +kernel
    · intro c' hc'
      rw [hl]
      by_cases e0 : c' = 0
      · subst e0; decide +kernel
      · by_cases e1 : c' = 1
        · subst e1; decide +kernel
        · have : vote .agg [([(0, 1), (1, 0), (2, 0)], (0 : ℚ)),
              ([(0, 0), (1, 6666666667 / 10000000000), (2, 3333333333 / 10000000000)], 33 / 200), ([(0, 0), (1, 0), (2, 1)], 167 / 200)] c' = 0 := by
            simp [vote, contributions, Ne.symm e0, Ne.symm e1, Ne.symm hc']
          rw [this]
          decide +kernel

end Teacher
