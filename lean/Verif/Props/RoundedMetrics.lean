import Verif.Model.RoundedMetrics
import Verif.Props.Metrics
import Verif.Props.IEEEUse

/-!
# C190–C193: the metrics in floating point
-/

set_option linter.unusedSectionVars false

namespace Teacher
open Spec

section
variable {C K : Type} [Field K] [LinearOrder K] [IsStrictOrderedRing K]
variable {A : Arith K} {u η : K}

/-- without rounding the model is that of `Model/Metrics`. -/
theorem metricsF_exact (a b : List (Cell K)) (cont disc : List Nat) (mad : Nat → Option K) (inst cf closest cfClosest : List (Cell K))
    (dataset : List (List (Cell K))) :
    mothDistanceF exactArith a b cont disc mad = mothDistance a b cont disc mad ∧
    implausibilityF exactArith cf dataset cont disc mad = implausibility cf dataset cont disc mad ∧
    instabilityF exactArith inst cf closest cfClosest cont disc mad = instability inst cf closest cfClosest cont disc mad := by
  have h : ∀ a b, mothDistanceF exactArith a b cont disc mad = mothDistance a b cont disc mad := fun a b => rfl
  refine ⟨h a b, ?_, ?_⟩
  · unfold implausibilityF implausibility; simp only [h]
  · unfold instabilityF instability; simp only [h]; rfl

/-! ### C190: the ratios -/

/-- C190: `coverage`, `precision`, `fidelity`, `rule_fidelity` and `sparsity_dissimilarity` compute the rounding of the exact value, and
raise what they raise in exact arithmetic. -/
theorem C190_rounding [DecidableEq C] (A : Arith K) (rules : List (Rule String C K)) (ds : FuzzyDS K) (y z : List C) (a b : List (Cell K)) (th : K) :
    coverageF A rules ds th = (coverage rules ds th).map A.fl ∧
    precisionF A rules ds y th = (precision rules ds y th).map A.fl ∧
    fidelityF A y z = (fidelity y z).map A.fl ∧
    ruleFidelityF A y z ds rules th = (ruleFidelity y z ds rules th).map A.fl ∧
    sparsityF A a b = (sparsity a b).map A.fl := by
  have np : ∀ x y : K, npDivF A x y = (npDiv x y).map A.fl := by
    intro x y; unfold npDivF npDiv; split <;> rfl
  have bindmap : ∀ {α : Type} (x : Py α) (f : α → Py K), (x >>= f).map A.fl = x >>= fun v => (f v).map A.fl := by
    intro α x f; cases x <;> rfl
  refine ⟨?_, ?_, ?_, ?_, ?_⟩
  · unfold coverageF coverage
    simp only [bindmap, np]
  · unfold precisionF precision
    simp only [bindmap, np]
  · unfold fidelityF fidelity
    simp only [bindmap, np]
  · unfold ruleFidelityF ruleFidelity
    simp only [bindmap, np]
  · unfold sparsityF sparsity pyDivF pyDiv
    split <;> rfl

/-- C190: the rounding of a fraction `k/n` is between 0 and 1, within the error of one operation of it, 0 for 0 and 1 for 1; it
preserves order; for fewer than `1/(u+η)` (9·10¹⁵ in double precision) instances it is 0 or 1 in no other case. -/
theorem C190_fraction (hA : Lawful A u η) (k n : Nat) (hkn : k ≤ n) (hn : n ≠ 0) :
    0 ≤ A.fl ((k : K) / n) ∧ A.fl ((k : K) / n) ≤ 1 ∧ |A.fl ((k : K) / n) - (k : K) / n| ≤ u + η ∧
    (∀ k' : Nat, k ≤ k' → A.fl ((k : K) / n) ≤ A.fl ((k' : K) / n)) ∧
    ((n : K) * (u + η) < 1 → (A.fl ((k : K) / n) = 0 ↔ k = 0) ∧ (A.fl ((k : K) / n) = 1 ↔ k = n)) := by
  have hnp : (0 : K) < n := Nat.cast_pos.2 (Nat.pos_of_ne_zero hn)
  obtain ⟨h0, h1⟩ := ratio_mem (K := K) hkn
  have herr := hA.err ((k : K) / n)
  rw [abs_of_nonneg h0] at herr
  have hu := hA.u_nonneg
  have hη := hA.η_nonneg
  refine ⟨?_, ?_, ?_, ?_, ?_⟩
  · rw [← hA.zero]; exact hA.mono _ _ h0
  · rw [← hA.one]; exact hA.mono _ _ h1
  · refine herr.trans ?_
    have := mul_le_mul_of_nonneg_left h1 hu
    linarith
  · intro k' hk
    exact hA.mono _ _ (div_le_div_of_nonneg_right (Nat.cast_le.2 hk) hnp.le)
  · intro hsmall
    rw [abs_le] at herr
    have hx : (k : K) / n * n = k := div_mul_cancel₀ _ hnp.ne'
    constructor
    · constructor
      · intro he
        by_contra hk
        have hk1 : (1 : K) ≤ k := by exact_mod_cast Nat.one_le_iff_ne_zero.2 hk
        rw [he] at herr
        have h2 : (k : K) / n ≤ u * ((k : K) / n) + η := by linarith [herr.1]
        have h3 := mul_le_mul_of_nonneg_right h2 hnp.le
        rw [add_mul, mul_assoc, hx] at h3
        have h5 : u * k ≤ n * u * k := by
          have hn1 : (1 : K) ≤ n := by exact_mod_cast Nat.one_le_iff_ne_zero.2 hn
          have : u * 1 ≤ u * n := mul_le_mul_of_nonneg_left hn1 hu
          have h6 := mul_le_mul_of_nonneg_right this (Nat.cast_nonneg k : (0 : K) ≤ k)
          linarith
        have h7 : η * n ≤ η * n * k := le_mul_of_one_le_right (mul_nonneg hη hnp.le) hk1
        have h8 : (n : K) * (u + η) * k < 1 * k := mul_lt_mul_of_pos_right hsmall (lt_of_lt_of_le one_pos hk1)
        nlinarith
      · rintro rfl; simp [hA.zero]
    · constructor
      · intro he
        by_contra hk
        have hk1 : (k : K) + 1 ≤ n := by exact_mod_cast Nat.lt_of_le_of_ne hkn hk
        rw [he] at herr
        have h2 : 1 ≤ (k : K) / n + u * ((k : K) / n) + η := by linarith [herr.2]
        have h3 := mul_le_mul_of_nonneg_right h2 hnp.le
        rw [add_mul, add_mul, mul_assoc, hx] at h3
        have h4 : u * k ≤ u * n := mul_le_mul_of_nonneg_left (by exact_mod_cast hkn) hu
        nlinarith
      · rintro rfl; rw [div_self hnp.ne', hA.one]

/-- C190: coverage in floating point. -/
theorem C190_coverage (hA : Lawful A u η) {ds : FuzzyDS K} {n : Nat} {μ : String → String → Nat → K} (h : Represents ds n μ) (hn : n ≠ 0)
    (rules : List (Rule String C K)) (hne : rules ≠ []) (hk : KnowsRules ds rules) (th : K) :
    ∃ v, coverageF A rules ds th = .ok v ∧ v = A.fl (((coveredByAll rules μ th n).length : K) / n) ∧ 0 ≤ v ∧ v ≤ 1 ∧
      |v - ((coveredByAll rules μ th n).length : K) / n| ≤ u + η := by
  classical
  obtain ⟨h1, -⟩ := C62_coverage_value h hn rules hne hk th
  have hle : (coveredByAll rules μ th n).length ≤ n := by
    unfold coveredByAll
    exact (List.length_filter_le _ _).trans (by simp)
  obtain ⟨g1, g2, g3, -⟩ := C190_fraction hA _ n hle hn
  refine ⟨_, ?_, rfl, g1, g2, g3⟩
  rw [(C190_rounding A rules ds [] [] [] [] th).1, h1]
  rfl

/-! ### C191: the moth distance -/

/-- the numbers in the continuous columns of a row are numbers of the arithmetic. -/
def Spec.FloatRow (A : Arith K) (cont : List Nat) (a : List (Cell K)) : Prop := ∀ i ∈ cont, ∀ x, a[i]? = some (.num x) → IsFloat A x

theorem fl_nonneg (hA : Lawful A u η) {x : K} (h : 0 ≤ x) : 0 ≤ A.fl x := by
  rw [← hA.zero]; exact hA.mono _ _ h

theorem fl_le (hA : Lawful A u η) {x : K} (h : 0 ≤ x) : A.fl x ≤ (1 + u) * x + η := by
  have := (abs_le.1 (hA.err x)).2
  rw [abs_of_nonneg h] at this
  linarith

theorem le_fl (hA : Lawful A u η) {x : K} (h : 0 ≤ x) : (1 - u) * x - η ≤ A.fl x := by
  have := (abs_le.1 (hA.err x)).1
  rw [abs_of_nonneg h] at this
  linarith

/-- the term of a continuous column. -/
def termF (A : Arith K) (m : Nat → K) (a b : List (Cell K)) (i : Nat) : K := A.fl (|A.fl (numAt a i - numAt b i)| / m i)

theorem numAt_float {cont : List Nat} {a : List (Cell K)} {n : Nat} (ht : TypedRow cont n a) (hf : FloatRow A cont a) {i : Nat}
    (hi : i ∈ cont) (hn : i < n) : IsFloat A (numAt a i) := by
  obtain ⟨x, hx⟩ := ht.2 i hi hn
  unfold numAt
  rw [hx]
  exact hf i hi x hx

theorem termF_bounds (hA : Lawful A u η) {m : Nat → K} {a b : List (Cell K)} {i : Nat} (hm : 0 < m i)
    (ha : IsFloat A (numAt a i)) (hb : IsFloat A (numAt b i)) :
    0 ≤ termF A m a b i ∧ termF A m a b i ≤ (1 + u) ^ 2 * (|numAt a i - numAt b i| / m i) + η ∧
      (1 - u) ^ 2 * (|numAt a i - numAt b i| / m i) - η ≤ termF A m a b i := by
  have hu := hA.u_nonneg
  have hs := hA.sub_err _ _ ha hb
  unfold termF
  generalize numAt a i - numAt b i = x at *
  have hup : |A.fl x| ≤ (1 + u) * |x| := by
    have : |A.fl x| ≤ |A.fl x - x| + |x| := by
      have := abs_add_le (A.fl x - x) x
      simpa using this
    linarith
  have hlo : (1 - u) * |x| ≤ |A.fl x| := by
    have : |x| ≤ |A.fl x - x| + |A.fl x| := by
      have := abs_sub_le x (A.fl x) 0
      rw [abs_sub_comm x (A.fl x)] at this
      simpa using this
    linarith
  have hq : 0 ≤ |A.fl x| / m i := div_nonneg (abs_nonneg _) hm.le
  have h1 : |A.fl x| / m i ≤ (1 + u) * (|x| / m i) := by
    rw [← mul_div_assoc]; exact div_le_div_of_nonneg_right hup hm.le
  have h2 : (1 - u) * (|x| / m i) ≤ |A.fl x| / m i := by
    rw [← mul_div_assoc]; exact div_le_div_of_nonneg_right hlo hm.le
  refine ⟨fl_nonneg hA hq, ?_, ?_⟩
  · refine (fl_le hA hq).trans ?_
    have := mul_le_mul_of_nonneg_left h1 (by linarith : (0 : K) ≤ 1 + u)
    nlinarith
  · refine le_trans ?_ (le_fl hA hq)
    have := mul_le_mul_of_nonneg_left h2 (by linarith [hA.u_lt] : (0 : K) ≤ 1 - u)
    nlinarith

/-- the running sum, with a rounding after each addition. -/
def runSum (A : Arith K) (ts : List K) : K := ts.foldl (fun s t => A.fl (s + t)) 0

theorem mothLoopF_ok (hA : Lawful A u η) {n : Nat} {cont disc : List Nat} {mad : Nat → Option K} {m : Nat → K} (hg : GoodColumns n cont disc mad m)
    {a b : List (Cell K)} (ha : TypedRow cont n a) (hb : TypedRow cont n b) (k : Nat) (hk : k ≤ n) :
    ((a.zip b).take k).zipIdx.foldlM (distStepF A cont mad) (0, 0) =
      .ok (runSum A (((List.range k).filter (fun i => i ∈ cont)).map (termF A m a b)),
        ((List.range k).filter (fun i => i ∉ cont ∧ a[i]? ≠ b[i]?)).length) := by
  induction k with
  | zero => simp [runSum]
  | succ k ih =>
    have hka : k < a.length := by rw [ha.1]; omega
    have hkb : k < b.length := by rw [hb.1]; omega
    have htake : (a.zip b).take (k + 1) = (a.zip b).take k ++ [(a[k], b[k])] := by
      rw [List.take_add_one, List.getElem?_eq_getElem (by simp; omega)]
      simp
    have hlen : ((a.zip b).take k).length = k := by simp; omega
    rw [htake, List.zipIdx_append, List.foldlM_append, ih (by omega)]
    simp only [py_bind_ok, hlen, List.zipIdx_cons, List.zipIdx_nil, List.foldlM_cons, List.foldlM_nil, zero_add]
    rw [List.range_succ, List.filter_append, List.filter_append]
    unfold distStepF
    by_cases hc : k ∈ cont
    · obtain ⟨x, hx⟩ := ha.2 k hc (by omega)
      obtain ⟨y, hy⟩ := hb.2 k hc (by omega)
      obtain ⟨hm1, hm2⟩ := hg.1 k hc (by omega)
      have hax : a[k] = .num x := by rw [List.getElem?_eq_getElem hka] at hx; exact Option.some.inj hx
      have hby : b[k] = .num y := by rw [List.getElem?_eq_getElem hkb] at hy; exact Option.some.inj hy
      have hna : numAt a k = x := by unfold numAt; rw [hx]
      have hnb : numAt b k = y := by unfold numAt; rw [hy]
      have hterm : contTermF A mad k (a[k]) (b[k]) = .ok (termF A m a b k) := by
        rw [hax, hby]
        unfold contTermF cellDiffF termF
        rw [hna, hnb]
        simp only [py_bind_ok]
        split
        · rename_i h0; rw [h0]; simp [hA.zero]
        · rw [hm1]
          simp only [pyDivF, if_neg (ne_of_gt hm2)]
      simp only [hc, if_true, hterm, py_bind_ok, py_pure]
      simp [hc, runSum, List.foldl_append]
    · simp only [hc, if_false, py_pure, py_bind_ok]
      have e1 : a[k]? = some a[k] := List.getElem?_eq_getElem hka
      have e2 : b[k]? = some b[k] := List.getElem?_eq_getElem hkb
      by_cases hne : a[k] = b[k]
      · simp [hc, e1, e2, hne]
      · simp [hc, e1, e2, hne]

/-- the sum of the continuous columns. -/
def contSumF (A : Arith K) (cont : List Nat) (m : Nat → K) (n : Nat) (a b : List (Cell K)) : K :=
  runSum A (((List.range n).filter (fun i => i ∈ cont)).map (termF A m a b))

/-- the distance, in closed form. -/
def mothF (A : Arith K) (cont disc : List Nat) (m : Nat → K) (n : Nat) (a b : List (Cell K)) : K :=
  A.fl (A.fl (contSumF A cont m n a b / (cont.length : K)) + A.fl ((discCount cont n a b : K) / (disc.length : K)))

theorem mothDistanceF_ok (hA : Lawful A u η) {n : Nat} {cont disc : List Nat} {mad : Nat → Option K} {m : Nat → K}
    (hg : GoodColumns n cont disc mad m) {a b : List (Cell K)} (ha : TypedRow cont n a) (hb : TypedRow cont n b) :
    mothDistanceF A a b cont disc mad = .ok (mothF A cont disc m n a b) := by
  unfold mothDistanceF
  have htake : a.zip b = (a.zip b).take n := by
    rw [List.take_of_length_le]; simp [ha.1, hb.1]
  rw [htake, mothLoopF_ok hA hg ha hb n (le_refl _)]
  simp only [py_bind_ok]
  have h1 : (if contSumF A cont m n a b ≠ 0 then pyDivF A (contSumF A cont m n a b) (cont.length : K) else .ok 0) =
      .ok (A.fl (contSumF A cont m n a b / (cont.length : K))) := by
    split
    · rename_i h
      have : (cont.length : K) ≠ 0 := by
        rw [Nat.cast_ne_zero]
        intro h0
        apply h
        rw [List.length_eq_zero_iff] at h0
        unfold contSumF
        rw [h0]; simp [runSum]
      simp [pyDivF, this]
    · rename_i h
      rw [not_not.1 h]; simp [hA.zero]
  have h2 : (if discCount cont n a b ≠ 0 then pyDivF A (discCount cont n a b : K) (disc.length : K) else .ok 0) =
      .ok (A.fl ((discCount cont n a b : K) / (disc.length : K))) := by
    split
    · rename_i h
      have hne : disc ≠ [] := by
        apply hg.2
        obtain ⟨i, hi⟩ := List.exists_mem_of_ne_nil _ (fun h0 => h (List.length_eq_zero_iff.2 h0))
        have := List.mem_filter.1 hi
        simp only [List.mem_range, decide_eq_true_eq] at this
        exact ⟨i, this.1, this.2.1⟩
      have : (disc.length : K) ≠ 0 := by
        rw [Nat.cast_ne_zero]; intro h0; exact hne (List.length_eq_zero_iff.1 h0)
      simp [pyDivF, this]
    · rename_i h
      rw [not_not.1 h]; simp [hA.zero]
  unfold mothF
  unfold contSumF at h1 ⊢
  unfold discCount at h2 ⊢
  rw [h1]
  simp only [py_bind_ok]
  rw [h2]
  rfl

theorem runSum_bounds (hA : Lawful A u η) (ts : List K) (h : ∀ t ∈ ts, 0 ≤ t) :
    0 ≤ runSum A ts ∧ runSum A ts ≤ (1 + u) ^ ts.length * (ts.sum + ts.length * η) ∧
      (1 - u) ^ ts.length * ts.sum - ts.length * η ≤ runSum A ts := by
  have hu := hA.u_nonneg
  have hu1 := hA.u_lt
  have hη := hA.η_nonneg
  induction ts using List.reverseRecOn with
  | nil => simp [runSum]
  | append_singleton ts t ih =>
    obtain ⟨i0, i1, i2⟩ := ih (fun x hx => h x (by simp [hx]))
    have ht : 0 ≤ t := h t (by simp)
    have hS : 0 ≤ ts.sum := List.sum_nonneg (fun x hx => h x (by simp [hx]))
    have e : runSum A (ts ++ [t]) = A.fl (runSum A ts + t) := by simp [runSum, List.foldl_append]
    have h0 : 0 ≤ runSum A ts + t := add_nonneg i0 ht
    rw [e]
    simp only [List.length_append, List.length_cons, List.length_nil, List.sum_append, List.sum_cons, List.sum_nil, add_zero, zero_add]
    push_cast
    refine ⟨fl_nonneg hA h0, ?_, ?_⟩
    · refine (fl_le hA h0).trans ?_
      have hp : 1 ≤ (1 + u) ^ ts.length := one_le_pow₀ (by linarith)
      have hp' : 1 ≤ (1 + u) ^ (ts.length + 1) := one_le_pow₀ (by linarith)
      have a1 := mul_le_mul_of_nonneg_left i1 (by linarith : (0 : K) ≤ 1 + u)
      have a2 : (1 + u) * t ≤ (1 + u) ^ (ts.length + 1) * t := by
        apply mul_le_mul_of_nonneg_right _ ht
        rw [pow_succ']; exact le_mul_of_one_le_right (by linarith) hp
      have a3 : η ≤ (1 + u) ^ (ts.length + 1) * η := le_mul_of_one_le_left hη hp'
      rw [← mul_assoc, ← pow_succ'] at a1
      nlinarith
    · refine le_trans ?_ (le_fl hA h0)
      have hp : (1 - u) ^ ts.length ≤ 1 := pow_le_one₀ (by linarith) (by linarith)
      have a1 := mul_le_mul_of_nonneg_left i2 (by linarith : (0 : K) ≤ 1 - u)
      have a2 : (1 - u) ^ (ts.length + 1) * t ≤ (1 - u) * t := by
        apply mul_le_mul_of_nonneg_right _ ht
        rw [pow_succ']; exact mul_le_of_le_one_right (by linarith) hp
      have a3 : (1 - u) * (ts.length * η) ≤ ts.length * η :=
        mul_le_of_le_one_left (mul_nonneg (Nat.cast_nonneg _) hη) (by linarith)
      rw [mul_sub, ← mul_assoc, ← pow_succ'] at a1
      nlinarith

/-- number of roundings a column goes through at most. -/
theorem contSumF_bounds (hA : Lawful A u η) {n : Nat} {cont disc : List Nat} {mad : Nat → Option K} {m : Nat → K}
    (hg : GoodColumns n cont disc mad m) {a b : List (Cell K)} (ha : TypedRow cont n a) (hb : TypedRow cont n b)
    (hfa : FloatRow A cont a) (hfb : FloatRow A cont b) :
    0 ≤ contSumF A cont m n a b ∧ contSumF A cont m n a b ≤ (1 + u) ^ (n + 2) * (contSum cont m n a b + 2 * n * η) ∧
      (1 - u) ^ (n + 2) * contSum cont m n a b - 2 * n * η ≤ contSumF A cont m n a b := by
  have hu := hA.u_nonneg
  have hu1 := hA.u_lt
  have hη := hA.η_nonneg
  unfold contSumF contSum
  generalize hl : (List.range n).filter (fun i => i ∈ cont) = l
  have hmem : ∀ i ∈ l, i ∈ cont ∧ i < n := by
    intro i hi; rw [← hl] at hi; simpa [and_comm] using List.mem_filter.1 hi
  have hlen : l.length ≤ n := by rw [← hl]; exact (List.length_filter_le _ _).trans (by simp)
  have hb' : ∀ i ∈ l, _ := fun i hi => termF_bounds hA (hg.1 i (hmem i hi).1 (hmem i hi).2).2
    (numAt_float ha hfa (hmem i hi).1 (hmem i hi).2) (numAt_float hb hfb (hmem i hi).1 (hmem i hi).2)
  obtain ⟨r0, r1, r2⟩ := runSum_bounds hA (l.map (termF A m a b)) (by
    intro t ht
    obtain ⟨i, hi, rfl⟩ := List.mem_map.1 ht
    exact (hb' i hi).1)
  rw [List.length_map] at r1 r2
  have hτ : ∀ i ∈ l, 0 ≤ |numAt a i - numAt b i| / m i := fun i hi =>
    div_nonneg (abs_nonneg _) (hg.1 i (hmem i hi).1 (hmem i hi).2).2.le
  have hsum : (l.map (termF A m a b)).sum ≤ (1 + u) ^ 2 * (l.map (fun i => |numAt a i - numAt b i| / m i)).sum + l.length * η ∧
      (1 - u) ^ 2 * (l.map (fun i => |numAt a i - numAt b i| / m i)).sum - l.length * η ≤ (l.map (termF A m a b)).sum ∧
      0 ≤ (l.map (fun i => |numAt a i - numAt b i| / m i)).sum := by
    clear r0 r1 r2 hmem hl hlen
    induction l with
    | nil => simp
    | cons i l ih =>
      obtain ⟨x1, x2, x3⟩ := ih (fun j hj => hb' j (by simp [hj])) (fun j hj => hτ j (by simp [hj]))
      obtain ⟨y0, y1, y2⟩ := hb' i (by simp)
      have y3 := hτ i (by simp)
      simp only [List.map_cons, List.sum_cons, List.length_cons]
      push_cast
      refine ⟨by linarith, by linarith, by linarith⟩
  obtain ⟨s1, s2, s3⟩ := hsum
  generalize (l.map (fun i => |numAt a i - numAt b i| / m i)).sum = S at *
  generalize (l.map (termF A m a b)).sum = T at *
  have hL : (l.length : K) ≤ n := by exact_mod_cast hlen
  have hLη : (l.length : K) * η ≤ n * η := mul_le_mul_of_nonneg_right hL hη
  refine ⟨r0, r1.trans ?_, le_trans ?_ r2⟩
  · have p1 : 1 ≤ (1 + u) ^ 2 := one_le_pow₀ (by linarith)
    have q1 : T + l.length * η ≤ (1 + u) ^ 2 * (S + 2 * n * η) := by
      have : (1 : K) * (2 * n * η) ≤ (1 + u) ^ 2 * (2 * n * η) := mul_le_mul_of_nonneg_right p1 (by positivity)
      linarith
    have q2 : (1 + u) ^ l.length ≤ (1 + u) ^ n := pow_le_pow_right₀ (by linarith) hlen
    have q3 : 0 ≤ (1 + u) ^ 2 * (S + 2 * n * η) := by positivity
    calc (1 + u) ^ l.length * (T + l.length * η) ≤ (1 + u) ^ l.length * ((1 + u) ^ 2 * (S + 2 * n * η)) :=
          mul_le_mul_of_nonneg_left q1 (by positivity)
      _ ≤ (1 + u) ^ n * ((1 + u) ^ 2 * (S + 2 * n * η)) := mul_le_mul_of_nonneg_right q2 q3
      _ = _ := by rw [← mul_assoc, ← pow_add]
  · have hw : 0 ≤ 1 - u := by linarith
    have q2 : (1 - u) ^ n ≤ (1 - u) ^ l.length := pow_le_pow_of_le_one hw (by linarith) hlen
    have q4 : (1 - u) ^ l.length ≤ 1 := pow_le_one₀ hw (by linarith)
    have q5 := mul_le_mul_of_nonneg_left s2 (pow_nonneg hw l.length)
    have q6 : (1 - u) ^ l.length * (l.length * η) ≤ l.length * η := mul_le_of_le_one_left (by positivity) q4
    have q7 : (1 - u) ^ n * ((1 - u) ^ 2 * S) ≤ (1 - u) ^ l.length * ((1 - u) ^ 2 * S) :=
      mul_le_mul_of_nonneg_right q2 (mul_nonneg (pow_nonneg hw 2) s3)
    rw [pow_add, mul_assoc]
    rw [mul_sub] at q5
    linarith


/-- C191: the distance computed in floating point is within `n + 4` roundings of the exact one; the underflow contributes at most `2n + 3`
times `η`. It never fails on typed rows with positive deviations. -/
theorem C191_moth (hA : Lawful A u η) {n : Nat} {cont disc : List Nat} {mad : Nat → Option K} {m : Nat → K}
    (hg : GoodColumns n cont disc mad m) {a b : List (Cell K)} (ha : TypedRow cont n a) (hb : TypedRow cont n b)
    (hfa : FloatRow A cont a) (hfb : FloatRow A cont b) :
    ∃ v d, mothDistanceF A a b cont disc mad = .ok v ∧ proximity a b cont disc mad = .ok d ∧ 0 ≤ v ∧
      v ≤ (1 + u) ^ (n + 4) * (d + (2 * n + 3) * η) ∧ (1 - u) ^ (n + 4) * d - (2 * n + 3) * η ≤ v := by
  have hu := hA.u_nonneg
  have hu1 := hA.u_lt
  have hη := hA.η_nonneg
  refine ⟨_, _, mothDistanceF_ok hA hg ha hb, mothDistance_ok hg ha hb, ?_⟩
  obtain ⟨c0, c1, c2⟩ := contSumF_bounds hA hg ha hb hfa hfb
  have hS : 0 ≤ contSum cont m n a b := contSum_nonneg (fun i hi hn => (hg.1 i hi hn).2) a b
  have hzero : cont = [] → contSumF A cont m n a b = 0 ∧ contSum cont m n a b = 0 := by
    rintro rfl; simp [contSumF, contSum, runSum]
  have hD : (0 : K) ≤ (discCount cont n a b : K) / (disc.length : K) := div_nonneg (Nat.cast_nonneg _) (Nat.cast_nonneg _)
  unfold mothF
  generalize (discCount cont n a b : K) / (disc.length : K) = D at *
  generalize contSumF A cont m n a b = X at *
  generalize contSum cont m n a b = S at *
  -- the mean of the continuous columns
  have hL0 : (0 : K) ≤ (cont.length : K) := Nat.cast_nonneg _
  have hq : 0 ≤ X / (cont.length : K) := div_nonneg c0 hL0
  have hqs : 0 ≤ S / (cont.length : K) := div_nonneg hS hL0
  have hn0 : (0 : K) ≤ 2 * n * η := by positivity
  have hw : 0 ≤ 1 - u := by linarith
  have hquo : X / (cont.length : K) ≤ (1 + u) ^ (n + 2) * (S / (cont.length : K) + 2 * n * η) ∧
      (1 - u) ^ (n + 2) * (S / (cont.length : K)) - 2 * n * η ≤ X / (cont.length : K) := by
    by_cases hc : cont = []
    · obtain ⟨z1, z2⟩ := hzero hc
      rw [z1, z2]
      simp only [zero_div, zero_add, mul_zero, zero_sub]
      exact ⟨by positivity, by linarith⟩
    · have hL1 : (1 : K) ≤ (cont.length : K) := by
        exact_mod_cast List.length_pos_iff.2 hc
      have hLp : (0 : K) < (cont.length : K) := lt_of_lt_of_le one_pos hL1
      have hdiv : 2 * n * η / (cont.length : K) ≤ 2 * n * η := div_le_self hn0 hL1
      constructor
      · have h1 := div_le_div_of_nonneg_right c1 hLp.le
        rw [mul_div_assoc, add_div] at h1
        refine h1.trans (mul_le_mul_of_nonneg_left (by linarith) (by positivity))
      · have h1 := div_le_div_of_nonneg_right c2 hLp.le
        rw [sub_div, mul_div_assoc] at h1
        linarith
  obtain ⟨q1, q2⟩ := hquo
  generalize X / (cont.length : K) = Q at *
  generalize S / (cont.length : K) = R at *
  have f1 := fl_le hA hq
  have f2 := le_fl hA hq
  have f3 := fl_nonneg hA hq
  have g1 := fl_le hA hD
  have g2 := le_fl hA hD
  have g3 := fl_nonneg hA hD
  have h0 := add_nonneg f3 g3
  have k1 := fl_le hA h0
  have k2 := le_fl hA h0
  refine ⟨fl_nonneg hA h0, ?_, ?_⟩
  · have p1 : 1 ≤ (1 + u) ^ (n + 4) := one_le_pow₀ (by linarith)
    have p2 : (1 + u) ^ 2 ≤ (1 + u) ^ (n + 4) := pow_le_pow_right₀ (by linarith) (by omega)
    have p3 : 1 + u ≤ (1 + u) ^ (n + 4) := by
      have := pow_le_pow_right₀ (by linarith : (1 : K) ≤ 1 + u) (by omega : 1 ≤ n + 4)
      simpa using this
    have e : (1 + u) ^ (n + 4) = (1 + u) ^ 2 * (1 + u) ^ (n + 2) := by rw [← pow_add]; congr 1; omega
    have w1 : A.fl Q + A.fl D ≤ (1 + u) * (Q + D) + 2 * η := by linarith
    have w2 : (1 + u) * (A.fl Q + A.fl D) ≤ (1 + u) * ((1 + u) * (Q + D) + 2 * η) :=
      mul_le_mul_of_nonneg_left w1 (by linarith)
    have w3 : (1 + u) ^ 2 * Q ≤ (1 + u) ^ (n + 4) * (R + 2 * n * η) := by
      rw [e, mul_assoc]; exact mul_le_mul_of_nonneg_left q1 (by positivity)
    have w4 : (1 + u) ^ 2 * D ≤ (1 + u) ^ (n + 4) * D := mul_le_mul_of_nonneg_right p2 hD
    have w5 : (1 + u) * (2 * η) ≤ (1 + u) ^ (n + 4) * (2 * η) := mul_le_mul_of_nonneg_right p3 (by linarith)
    have w6 : 1 * η ≤ (1 + u) ^ (n + 4) * η := mul_le_mul_of_nonneg_right p1 hη
    calc A.fl (A.fl Q + A.fl D) ≤ (1 + u) * ((1 + u) * (Q + D) + 2 * η) + η := by linarith
      _ = (1 + u) ^ 2 * Q + (1 + u) ^ 2 * D + (1 + u) * (2 * η) + 1 * η := by ring
      _ ≤ (1 + u) ^ (n + 4) * (R + 2 * n * η) + (1 + u) ^ (n + 4) * D + (1 + u) ^ (n + 4) * (2 * η) + (1 + u) ^ (n + 4) * η := by
          linarith
      _ = (1 + u) ^ (n + 4) * (R + D + (2 * n + 3) * η) := by ring
  · have e : (1 - u) ^ (n + 4) = (1 - u) ^ 2 * (1 - u) ^ (n + 2) := by rw [← pow_add]; congr 1; omega
    have p2 : (1 - u) ^ (n + 4) ≤ (1 - u) ^ 2 := pow_le_pow_of_le_one hw (by linarith) (by omega)
    have p4 : (1 - u) ^ 2 ≤ 1 := pow_le_one₀ hw (by linarith)
    have w1 : (1 - u) * (Q + D) - 2 * η ≤ A.fl Q + A.fl D := by linarith
    have w2 := mul_le_mul_of_nonneg_left w1 hw
    have w3 : (1 - u) ^ (n + 4) * R - (1 - u) ^ 2 * (2 * n * η) ≤ (1 - u) ^ 2 * Q := by
      rw [e, mul_assoc, ← mul_sub]; exact mul_le_mul_of_nonneg_left q2 (pow_nonneg hw 2)
    have w4 : (1 - u) ^ (n + 4) * D ≤ (1 - u) ^ 2 * D := mul_le_mul_of_nonneg_right p2 hD
    have w5 : (1 - u) ^ 2 * (2 * n * η) ≤ 2 * n * η := mul_le_of_le_one_left hn0 p4
    have w6 : (1 - u) * (2 * η) ≤ 2 * η := mul_le_of_le_one_left (by linarith) (by linarith)
    calc (1 - u) ^ (n + 4) * (R + D) - (2 * n + 3) * η
        = (1 - u) ^ (n + 4) * R + (1 - u) ^ (n + 4) * D - 2 * n * η - 2 * η - η := by ring
      _ ≤ (1 - u) ^ 2 * Q + (1 - u) ^ 2 * D - (1 - u) * (2 * η) - η := by linarith
      _ = (1 - u) * ((1 - u) * (Q + D) - 2 * η) - η := by ring
      _ ≤ A.fl (A.fl Q + A.fl D) := by linarith

/-- C191: the distance of a row to itself is exactly 0, and the distance is symmetric when the rounding is (as rounding to nearest is). -/
theorem C191_zero_symmetric (hA : Lawful A u η) {n : Nat} {cont disc : List Nat} {mad : Nat → Option K} {m : Nat → K}
    (hg : GoodColumns n cont disc mad m) {a b : List (Cell K)} (ha : TypedRow cont n a) (hb : TypedRow cont n b) :
    mothDistanceF A a a cont disc mad = .ok 0 ∧
    ((∀ x, A.fl (-x) = -A.fl x) → mothDistanceF A a b cont disc mad = mothDistanceF A b a cont disc mad) := by
  constructor
  · rw [mothDistanceF_ok hA hg ha ha]
    have h1 : contSumF A cont m n a a = 0 := by
      unfold contSumF
      have : ∀ l : List Nat, runSum A (l.map (termF A m a a)) = 0 := by
        intro l
        unfold runSum
        induction l with
        | nil => rfl
        | cons i l ih =>
          have : termF A m a a i = 0 := by unfold termF; simp [hA.zero]
          rw [List.map_cons, List.foldl_cons, this, add_zero, hA.zero]
          exact ih
      exact this _
    have h2 : discCount cont n a a = 0 := by unfold discCount; simp
    unfold mothF
    rw [h1, h2]
    simp [hA.zero]
  · intro hodd
    rw [mothDistanceF_ok hA hg ha hb, mothDistanceF_ok hA hg hb ha]
    have h1 : contSumF A cont m n a b = contSumF A cont m n b a := by
      unfold contSumF
      congr 1
      apply List.map_congr_left
      intro i _
      unfold termF
      rw [← neg_sub, hodd, abs_neg]
    have h2 : discCount cont n a b = discCount cont n b a := by unfold discCount; simp only [ne_comm]
    unfold mothF
    rw [h1, h2]

/-! ### C192: the closest instance -/

/-- C192: in floating point `_closest_instance` returns a row at a positive computed distance, and no row at a positive computed distance is
closer by more than the rounding errors of the two distances. -/
theorem C192_closest (hA : Lawful A u η) {n : Nat} {cont disc : List Nat} {mad : Nat → Option K} {m : Nat → K}
    (hg : GoodColumns n cont disc mad m) {inst : List (Cell K)} (hi : TypedRow cont n inst) (hfi : FloatRow A cont inst)
    (dataset : List (List (Cell K))) (hd : ∀ r ∈ dataset, TypedRow cont n r ∧ FloatRow A cont r) :
    (closestInstance (fun r => mothDistanceF A inst r cont disc mad) dataset = .ok none ∧
      ∀ r ∈ dataset, mothDistanceF A inst r cont disc mad = .ok 0) ∨
    ∃ r ∈ dataset, closestInstance (fun r => mothDistanceF A inst r cont disc mad) dataset = .ok (some r) ∧
      ∃ v d, mothDistanceF A inst r cont disc mad = .ok v ∧ 0 < v ∧ proximity inst r cont disc mad = .ok d ∧
        ∀ r' ∈ dataset, ∃ v' d', mothDistanceF A inst r' cont disc mad = .ok v' ∧ proximity inst r' cont disc mad = .ok d' ∧
          (0 < v' → v ≤ v' ∧
            (1 - u) ^ (n + 4) * d ≤ (1 + u) ^ (n + 4) * (d' + (2 * n + 3) * η) + (2 * n + 3) * η) := by
  have hok : ∀ r ∈ dataset, mothDistanceF A inst r cont disc mad = .ok (mothF A cont disc m n inst r) := fun r hr =>
    mothDistanceF_ok hA hg hi (hd r hr).1
  rcases C66_closest_instance _ (mothF A cont disc m n inst) dataset hok with ⟨h1, h2⟩ | ⟨pre, r, post, h1, h2, h3, h4, h5⟩
  · left
    refine ⟨h2, ?_⟩
    intro r hr
    obtain ⟨v, d, e1, -, e3, -⟩ := C191_moth hA hg hi (hd r hr).1 hfi (hd r hr).2
    have e := e1
    rw [hok r hr, Except.ok.injEq] at e
    rw [e1, le_antisymm (e ▸ h1 r hr) e3]
  · right
    have hr : r ∈ dataset := by rw [h1]; simp
    obtain ⟨v, d, e1, e2, e3, e4, e5⟩ := C191_moth hA hg hi (hd r hr).1 hfi (hd r hr).2
    have e := e1
    rw [hok r hr, Except.ok.injEq] at e
    refine ⟨r, hr, h2, v, d, e1, e ▸ h3, e2, ?_⟩
    intro r' hr'
    obtain ⟨v', d', e1', e2', e3', e4', e5'⟩ := C191_moth hA hg hi (hd r' hr').1 hfi (hd r' hr').2
    have e' := e1'
    rw [hok r' hr', Except.ok.injEq] at e'
    refine ⟨v', d', e1', e2', ?_⟩
    intro hv'
    have hle : v ≤ v' := by
      rw [← e, ← e']
      rw [← e'] at hv'
      rw [h1] at hr'
      rcases List.mem_append.1 hr' with hm | hm
      · exact (h4 r' hm hv').le
      · rcases List.mem_cons.1 hm with rfl | hm
        · exact le_refl _
        · exact h5 r' hm hv'
    exact ⟨hle, by linarith⟩

/-- C192: `implausibility` in floating point is the computed distance to that row, the smallest positive one; as in exact arithmetic, if no
row is at a positive computed distance the distance is taken to the empty list and is 0. -/
theorem C192_implausibility (hA : Lawful A u η) {n : Nat} {cont disc : List Nat} {mad : Nat → Option K} {m : Nat → K}
    (hg : GoodColumns n cont disc mad m) {cf : List (Cell K)} (hi : TypedRow cont n cf) (hfi : FloatRow A cont cf)
    (dataset : List (List (Cell K))) (hd : ∀ r ∈ dataset, TypedRow cont n r ∧ FloatRow A cont r) :
    ∃ v, implausibilityF A cf dataset cont disc mad = .ok v ∧ 0 ≤ v ∧
      (v = 0 ↔ ∀ r ∈ dataset, mothDistanceF A cf r cont disc mad = .ok 0) ∧
      (0 < v → (∃ r ∈ dataset, mothDistanceF A cf r cont disc mad = .ok v) ∧
        ∀ r ∈ dataset, ∃ v', mothDistanceF A cf r cont disc mad = .ok v' ∧ (0 < v' → v ≤ v')) := by
  unfold implausibilityF
  rcases C192_closest hA hg hi hfi dataset hd with ⟨h1, h2⟩ | ⟨r, hr, h1, v, d, e1, e2, e3, e4⟩
  · rw [h1]
    refine ⟨0, ?_, le_refl _, by simpa using h2, fun h => absurd h (lt_irrefl _)⟩
    simp [mothDistanceF, hA.zero]
  · rw [h1]
    refine ⟨v, e1, e2.le, ?_, ?_⟩
    · constructor
      · intro h; exact absurd h e2.ne'
      · intro h
        have := h r hr
        rw [e1, Except.ok.injEq] at this
        exact this
    · intro _
      refine ⟨⟨r, hr, e1⟩, ?_⟩
      intro r' hr'
      obtain ⟨v', d', g1, -, g3⟩ := e4 r' hr'
      exact ⟨v', g1, fun h => (g3 h).1⟩

/-! ### C193: instability -/

/-- C193: instability in floating point never fails on rows of the dataset, lies between 0 and the computed distance of the counterfactuals, is
0 if the counterfactuals coincide and is exactly that distance if the instances coincide. -/
theorem C193_instability (hA : Lawful A u η) {n : Nat} {cont disc : List Nat} {mad : Nat → Option K} {m : Nat → K}
    (hg : GoodColumns n cont disc mad m) {inst cf closest cfClosest : List (Cell K)} (h1 : TypedRow cont n inst) (h2 : TypedRow cont n cf)
    (h3 : TypedRow cont n closest) (h4 : TypedRow cont n cfClosest) (f1 : FloatRow A cont inst) (f2 : FloatRow A cont cf)
    (f3 : FloatRow A cont closest) (f4 : FloatRow A cont cfClosest) :
    ∃ v dcf, instabilityF A inst cf closest cfClosest cont disc mad = .ok v ∧ mothDistanceF A cf cfClosest cont disc mad = .ok dcf ∧
      0 ≤ v ∧ v ≤ dcf ∧ (cf = cfClosest → v = 0) ∧ (inst = closest → v = dcf) := by
  obtain ⟨dcf, -, a1, -, a3, -⟩ := C191_moth hA hg h2 h4 f2 f4
  obtain ⟨di, -, b1, -, b3, -⟩ := C191_moth hA hg h1 h3 f1 f3
  have hfd : A.fl dcf = dcf := by
    have := a1
    rw [mothDistanceF_ok hA hg h2 h4, Except.ok.injEq] at this
    rw [← this]; unfold mothF; rw [hA.idem]
  have hone : 1 ≤ A.fl (di + 1) := by
    have := hA.mono 1 (di + 1) (by linarith)
    rwa [hA.one] at this
  have hpos : 0 < A.fl (di + 1) := lt_of_lt_of_le one_pos hone
  refine ⟨A.fl (dcf / A.fl (di + 1)), dcf, ?_, a1, fl_nonneg hA (div_nonneg a3 hpos.le), ?_, ?_, ?_⟩
  · unfold instabilityF
    rw [a1]
    simp only [py_bind_ok, b1]
    unfold pyDivF
    rw [if_neg hpos.ne']
  · rw [← hfd]
    apply hA.mono
    rw [hfd]
    exact div_le_self a3 hone
  · rintro rfl
    rw [(C191_zero_symmetric hA hg h2 h2).1, Except.ok.injEq] at a1
    rw [← a1, zero_div, hA.zero]
  · rintro rfl
    rw [(C191_zero_symmetric hA hg h1 h1).1, Except.ok.injEq] at b1
    rw [← b1, zero_add, hA.one, div_one, hfd]

end

/-! ### double precision -/

theorem halfEven_neg (x : ℚ) : halfEven (-x) = -halfEven x := by
  by_cases hx : (⌊x⌋ : ℚ) = x
  · rw [← hx, halfEven_int, ← Int.cast_neg, halfEven_int]
  · have h0 := Int.floor_le x
    have h1 := Int.lt_floor_add_one x
    have hlt : (⌊x⌋ : ℚ) < x := lt_of_le_of_ne h0 hx
    have hf : ⌊-x⌋ = -⌊x⌋ - 1 := by
      rw [Int.floor_eq_iff]
      push_cast
      constructor <;> linarith
    unfold halfEven
    rw [hf]
    push_cast
    split_ifs <;> first | omega | (exfalso; linarith)

/-- rounding to nearest even is symmetric. -/
theorem C191_ieee_odd (p : Nat) (emin : ℤ) (order : Nat → SumTree) (x : ℚ) :
    (ieee p emin order).fl (-x) = -(ieee p emin order).fl x := by
  show ieeeRound p emin (-x) = -ieeeRound p emin x
  unfold ieeeRound
  have h : lastBit p emin (-x) = lastBit p emin x := by unfold lastBit; rw [abs_neg]
  rw [h, neg_div, halfEven_neg]
  push_cast
  ring

/-- C191: in double precision the computed distance is symmetric. -/
theorem C191_binary64_symmetric {n : Nat} {cont disc : List Nat} {mad : Nat → Option ℚ} {m : Nat → ℚ}
    (hg : GoodColumns n cont disc mad m) {a b : List (Cell ℚ)} (ha : TypedRow cont n a) (hb : TypedRow cont n b) :
    mothDistanceF binary64 a b cont disc mad = mothDistanceF binary64 b a cont disc mad :=
  (C191_zero_symmetric binary64_lawful hg ha hb).2 (C191_ieee_odd _ _ _)

/-! ### C194: the computed distance is not a metric -/

/-- C194, the part that holds in floating point: values are non-negative, 0 on equal rows and symmetric; rows that differ in a column that is not
continuous are at a positive distance if there are fewer than `1/(u+η)` such columns; the triangle inequality holds up to the rounding errors of
C191. -/
theorem C194_metric_partial {K : Type} [Field K] [LinearOrder K] [IsStrictOrderedRing K] {A : Arith K} {u η : K} (hA : Lawful A u η)
    (hodd : ∀ x, A.fl (-x) = -A.fl x) {n : Nat} {cont disc : List Nat} {mad : Nat → Option K} {m : Nat → K} (hg : GoodColumns n cont disc mad m)
    {a b c : List (Cell K)} (ha : TypedRow cont n a) (hb : TypedRow cont n b) (hc : TypedRow cont n c) (fa : FloatRow A cont a)
    (fb : FloatRow A cont b) (fc : FloatRow A cont c) :
    ∃ ab bc ac, mothDistanceF A a b cont disc mad = .ok ab ∧ mothDistanceF A b c cont disc mad = .ok bc ∧
      mothDistanceF A a c cont disc mad = .ok ac ∧ 0 ≤ ab ∧ mothDistanceF A b a cont disc mad = .ok ab ∧ (a = b → ab = 0) ∧
      ((disc.length : K) * (u + η) < 1 → (∃ i < n, i ∉ cont ∧ a[i]? ≠ b[i]?) → 0 < ab) ∧
      (1 - u) ^ (n + 4) * ac ≤ (1 + u) ^ (n + 4) * (ab + bc + 3 * ((2 * n + 3) * η)) := by
  have hu := hA.u_nonneg
  have hu1 := hA.u_lt
  have hη := hA.η_nonneg
  obtain ⟨d, hd1, hd2, hd3, hd4, hd5⟩ := C65_moth_metric hg
  obtain ⟨ab, x, p1, p2, p3, p4, p5⟩ := C191_moth hA hg ha hb fa fb
  obtain ⟨bc, y, q1, q2, q3, q4, q5⟩ := C191_moth hA hg hb hc fb fc
  obtain ⟨ac, z, r1, r2, r3, r4, r5⟩ := C191_moth hA hg ha hc fa fc
  rw [hd1 a b ha hb, Except.ok.injEq] at p2
  rw [hd1 b c hb hc, Except.ok.injEq] at q2
  rw [hd1 a c ha hc, Except.ok.injEq] at r2
  have htri := hd5 a b c
  rw [p2, q2, r2] at htri
  refine ⟨ab, bc, ac, p1, q1, r1, p3, ?_, ?_, ?_, ?_⟩
  · rw [← (C191_zero_symmetric hA hg ha hb).2 hodd]; exact p1
  · rintro rfl
    rw [(C191_zero_symmetric hA hg ha ha).1, Except.ok.injEq] at p1
    exact p1.symm
  · rintro hsmall ⟨i, hi, hic, hne⟩
    have e := p1
    rw [mothDistanceF_ok hA hg ha hb, Except.ok.injEq] at e
    have hdl : disc ≠ [] := hg.2 ⟨i, hi, hic⟩
    have hdl0 : disc.length ≠ 0 := fun h => hdl (List.length_eq_zero_iff.1 h)
    have hcount : 1 ≤ discCount cont n a b := by
      unfold discCount
      apply List.length_pos_of_mem (a := i)
      simp [hi, hic, hne]
    have hone := C190_fraction hA 1 disc.length (Nat.one_le_iff_ne_zero.2 hdl0) hdl0
    have hpos : 0 < A.fl ((1 : ℕ) / (disc.length : K)) :=
      lt_of_le_of_ne hone.1 (fun h => absurd ((hone.2.2.2.2 hsmall).1.1 h.symm) one_ne_zero)
    have hle : A.fl ((1 : ℕ) / (disc.length : K)) ≤ A.fl ((discCount cont n a b : K) / (disc.length : K)) := hone.2.2.2.1 _ hcount
    obtain ⟨c0, -⟩ := contSumF_bounds hA hg ha hb fa fb
    have h1 : 0 ≤ A.fl (contSumF A cont m n a b / (cont.length : K)) := fl_nonneg hA (div_nonneg c0 (Nat.cast_nonneg _))
    have hmono := hA.mono (A.fl ((1 : ℕ) / (disc.length : K)))
      (A.fl (contSumF A cont m n a b / (cont.length : K)) + A.fl ((discCount cont n a b : K) / (disc.length : K))) (by linarith)
    rw [hA.idem] at hmono
    rw [← e]
    unfold mothF
    linarith
  · have hw : 0 ≤ 1 - u := by linarith
    have w1 : (1 - u) ^ (n + 4) * ac ≤ (1 - u) ^ (n + 4) * ((1 + u) ^ (n + 4) * (z + (2 * n + 3) * η)) :=
      mul_le_mul_of_nonneg_left r4 (pow_nonneg hw _)
    have hP : 0 ≤ (1 + u) ^ (n + 4) := by positivity
    have w2 : (1 - u) ^ (n + 4) * z ≤ ab + bc + 2 * ((2 * n + 3) * η) := by
      have := mul_le_mul_of_nonneg_left htri (pow_nonneg hw (n + 4))
      rw [mul_add] at this
      linarith
    have w3 : (1 - u) ^ (n + 4) * ((2 * n + 3) * η) ≤ (2 * n + 3) * η :=
      mul_le_of_le_one_left (by positivity) (pow_le_one₀ hw (by linarith))
    calc (1 - u) ^ (n + 4) * ac ≤ (1 - u) ^ (n + 4) * ((1 + u) ^ (n + 4) * (z + (2 * n + 3) * η)) := w1
      _ = (1 + u) ^ (n + 4) * ((1 - u) ^ (n + 4) * z + (1 - u) ^ (n + 4) * ((2 * n + 3) * η)) := by ring
      _ ≤ (1 + u) ^ (n + 4) * (ab + bc + 3 * ((2 * n + 3) * η)) := mul_le_mul_of_nonneg_left (by linarith) hP

/-- rows of one continuous column with deviation `d`. -/
def oneColumn (x : ℚ) : List (Cell ℚ) := [.num x]

theorem oneColumn_typed (x : ℚ) : TypedRow [0] 1 (oneColumn x) := by
  refine ⟨rfl, ?_⟩
  intro i hi _
  simp only [List.mem_singleton] at hi
  subst hi
  exact ⟨x, rfl⟩

/-- C194 is false in double precision: different rows can be at distance 0 (the quotient by the deviation underflows), and the triangle inequality
fails, already for the numbers 0, 1, 8 and a deviation of 10. -/
theorem C194_metric_false :
    (¬ ∀ (d x y : ℚ), 0 < d → binary64.fl d = d → binary64.fl x = x → binary64.fl y = y →
      mothDistanceF binary64 (oneColumn x) (oneColumn y) [0] [] (fun _ => some d) = .ok 0 → x = y) ∧
    ¬ ∀ (d x y z a b c : ℚ), 0 < d → binary64.fl d = d → binary64.fl x = x → binary64.fl y = y → binary64.fl z = z →
      mothDistanceF binary64 (oneColumn x) (oneColumn y) [0] [] (fun _ => some d) = .ok a →
      mothDistanceF binary64 (oneColumn y) (oneColumn z) [0] [] (fun _ => some d) = .ok b →
      mothDistanceF binary64 (oneColumn x) (oneColumn z) [0] [] (fun _ => some d) = .ok c → c ≤ a + b := by
  constructor
  · intro h
    have := h 4 0 (1/2^1074) (by norm_num) (by decide +kernel) (by decide +kernel) (by decide +kernel) (by decide +kernel)
    revert this
    decide +kernel
  · intro h
    have := h 10 0 1 8 (3602879701896397/36028797018963968) (3152519739159347/4503599627370496) (3602879701896397/4503599627370496)
      (by norm_num) (by decide +kernel) (by decide +kernel) (by decide +kernel) (by decide +kernel) (by decide +kernel)
      (by decide +kernel) (by decide +kernel)
    norm_num at this

/-! ### the hypotheses hold -/

/-- a row with a number and a string: 1/2 is 1/6 + 1 away from 0 and another string, up to the rounding. -/
example : mothDistanceF binary64 [.num 0, .str "a"] [.num (1/2), .str "b"] [0] [1] (fun _ => some 3) = .ok (5254199565265579/4503599627370496) ∧
    proximity [.num (0 : ℚ), .str "a"] [.num (1/2), .str "b"] [0] [1] (fun _ => some 3) = .ok (7/6) := by decide +kernel

/-- the hypotheses of C191–C194 for rows of one column in double precision. -/
example : GoodColumns 1 [0] [] (fun _ => some (10 : ℚ)) (fun _ => 10) ∧ TypedRow [0] 1 (oneColumn 8) ∧ FloatRow binary64 [0] (oneColumn 8) := by
  refine ⟨⟨fun _ _ _ => ⟨rfl, by norm_num⟩, ?_⟩, oneColumn_typed 8, ?_⟩
  · rintro ⟨i, hi, hc⟩
    exact absurd (by simp; omega) hc
  · intro i hi x hx
    simp only [List.mem_singleton] at hi
    subst hi
    simp only [oneColumn, List.getElem?_cons_zero, Option.some.injEq, Cell.num.injEq] at hx
    subst hx
    show binary64.fl 8 = 8
    decide +kernel

/-- the closest row, implausibility and instability in double precision. -/
example : closestInstance (fun r => mothDistanceF binary64 (oneColumn 0) r [0] [] (fun _ => some 10)) [oneColumn 8, oneColumn 0, oneColumn 1] =
      .ok (some (oneColumn 1)) ∧
    implausibilityF binary64 (oneColumn 0) [oneColumn 8, oneColumn 0, oneColumn 1] [0] [] (fun _ => some 10) = .ok (binary64.fl (1/10)) ∧
    instabilityF binary64 (oneColumn 0) (oneColumn 8) (oneColumn 0) (oneColumn 1) [0] [] (fun _ => some 10) = .ok (binary64.fl (7/10)) ∧
    fidelityF binary64 [1, 2, 2] [1, 2, 3] = .ok (6004799503160661/9007199254740992) ∧
    sparsityF binary64 [.num 3, .str "a"] [.num 4, .str "a"] = .ok (1/2) := by decide +kernel

end Teacher
