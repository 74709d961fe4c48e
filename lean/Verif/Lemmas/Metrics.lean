import Verif.Spec.Metrics
import Verif.Lemmas.Factual

/-! Lemmas about the metrics. -/

set_option linter.unusedSectionVars false

namespace Teacher
open Spec

theorem zipWith_map_map {ι α β γ : Type} (f : α → β → γ) (g : ι → α) (h : ι → β) (l : List ι) :
    List.zipWith f (l.map g) (l.map h) = l.map (fun i => f (g i) (h i)) := by
  induction l with
  | nil => rfl
  | cons a l ih => simp [ih]

theorem npZip_map {ι α β γ : Type} (f : α → β → γ) (g : ι → α) (h : ι → β) (l : List ι) :
    npZip f (l.map g) (l.map h) = .ok (l.map (fun i => f (g i) (h i))) := by
  unfold npZip
  rw [if_pos (by simp), zipWith_map_map]

theorem npCount_map {ι : Type} (p : ι → Bool) (l : List ι) : npCount (l.map p) = (l.filter p).length := by
  unfold npCount
  induction l with
  | nil => rfl
  | cons a l ih =>
    rw [List.map_cons, List.filter_cons]
    cases h : p a <;> simp [ih]

section
variable {C K : Type} [Field K] [LinearOrder K] [IsStrictOrderedRing K]

theorem Spec.Represents.first {ds : FuzzyDS K} {n : Nat} {μ : String → String → Nat → K} (h : Represents ds n μ) :
    ∃ p q rest rest', ds = p :: rest ∧ p.2 = q :: rest' ∧ q.2.length = n := by
  cases hds : ds with
  | nil => exact absurd hds h.nonempty
  | cons p rest =>
    cases hp : p.2 with
    | nil => exact absurd hp (h.sets p (by rw [hds]; simp))
    | cons q rest' =>
      refine ⟨p, q, rest, rest', rfl, hp, ?_⟩
      have := h.degrees p.1 p.2 q.1 q.2 (by rw [hds, Dict.get?_cons]; simp) (by rw [hp, Dict.get?_cons]; simp)
      rw [this]; simp

/-- `_get_covered_instances` on a represented dataset. -/
theorem coveredInstances_ok {ds : FuzzyDS K} {n : Nat} {μ : String → String → Nat → K} (h : Represents ds n μ)
    (r : Rule String C K) (hk : KnowsRules ds [r]) (th : K) :
    coveredInstances r ds th =
      .ok ((List.range n).map (fun i => decide (th < 1 ∧ ∀ p ∈ r.antecedent, th < μ p.1 p.2 i)), n) := by
  obtain ⟨p, q, rest, rest', hds, hp, hq⟩ := h.first
  have hfold : ∀ (l : List (String × String)) (g : Nat → K), (∀ p ∈ l, p ∈ r.antecedent) →
      ∃ g' : Nat → K, l.foldlM (fun mu p => do
        let col ← dsLookup ds p.1 p.2
        npZip min mu col) ((List.range n).map g) = .ok ((List.range n).map g') ∧
        ∀ i, th < g' i ↔ th < g i ∧ ∀ p ∈ l, th < μ p.1 p.2 i := by
    intro l
    induction l with
    | nil => intro g _; exact ⟨g, rfl, by simp⟩
    | cons x l ih =>
      intro g hl
      obtain ⟨d, col, hd, hcol⟩ := hk r (by simp) x (hl x (by simp))
      have hc := h.degrees _ _ _ _ hd hcol
      have hlook : dsLookup ds x.1 x.2 = .ok ((List.range n).map (μ x.1 x.2)) := by
        unfold dsLookup
        rw [Dict.get_eq_ok_iff.2 hd, py_bind_ok, Dict.get_eq_ok_iff.2 hcol, hc]
      obtain ⟨g', h1, h2⟩ := ih (fun i => min (g i) (μ x.1 x.2 i)) (fun p hp => hl p (by simp [hp]))
      refine ⟨g', ?_, ?_⟩
      · rw [List.foldlM_cons, hlook]
        simp only [py_bind_ok, npZip_map]
        exact h1
      · intro i
        rw [h2 i, lt_min_iff]
        simp only [List.mem_cons, forall_eq_or_imp]
        tauto
  obtain ⟨g', h1, h2⟩ := hfold r.antecedent (fun _ => 1) (fun p hp => hp)
  unfold coveredInstances
  have hfirst : firstEntry ds = .ok p := by rw [hds]; rfl
  have hfirst' : firstEntry p.2 = .ok q := by rw [hp]; rfl
  rw [hfirst]
  simp only [py_bind_ok, hfirst', hq]
  have hrep : List.replicate n (1 : K) = (List.range n).map (fun _ => (1 : K)) := by
    simp
  rw [hrep, h1]
  simp only [py_bind_ok, py_pure, List.map_map]
  congr 2
  apply List.map_congr_left
  intro i _
  simp only [Function.comp_apply, decide_eq_decide]
  exact h2 i

/-- `_get_fuzzy_coverage` on a represented dataset. -/
theorem fuzzyCoverage_ok {ds : FuzzyDS K} {n : Nat} {μ : String → String → Nat → K} (h : Represents ds n μ)
    (rules : List (Rule String C K)) (hne : rules ≠ []) (hk : KnowsRules ds rules) (th : K) :
    fuzzyCoverage rules ds th =
      .ok ((List.range n).map (fun i => decide (th < 1 ∧ ∀ r ∈ rules, ∀ p ∈ r.antecedent, th < μ p.1 p.2 i)), n) := by
  have hone : ∀ r ∈ rules, KnowsRules ds [r] := by
    intro r hr r' hr'
    simp only [List.mem_singleton] at hr'
    subst hr'
    exact hk r' hr
  have hfold : ∀ (l : List (Rule String C K)) (g : Nat → Bool), (∀ r ∈ l, r ∈ rules) →
      ∃ g' : Nat → Bool, l.foldlM (fun cov r => do
        let (c, _) ← coveredInstances r ds th
        npZip (fun a b => a && b) cov c) ((List.range n).map g) = .ok ((List.range n).map g') ∧
        ∀ i, g' i = true ↔ g i = true ∧ ∀ r ∈ l, th < 1 ∧ ∀ p ∈ r.antecedent, th < μ p.1 p.2 i := by
    intro l
    induction l with
    | nil => intro g _; exact ⟨g, rfl, by simp⟩
    | cons x l ih =>
      intro g hl
      obtain ⟨g', h1, h2⟩ := ih (fun i => g i && decide (th < 1 ∧ ∀ p ∈ x.antecedent, th < μ p.1 p.2 i))
        (fun p hp => hl p (by simp [hp]))
      refine ⟨g', ?_, ?_⟩
      · rw [List.foldlM_cons, coveredInstances_ok h x (hone x (hl x (by simp)))]
        simp only [py_bind_ok, npZip_map]
        exact h1
      · intro i
        rw [h2 i]
        simp only [Bool.and_eq_true, decide_eq_true_eq, List.mem_cons, forall_eq_or_imp]
        tauto
  cases hr : rules with
  | nil => exact absurd hr hne
  | cons r rest =>
    unfold fuzzyCoverage
    dsimp only
    rw [coveredInstances_ok h r (hone r (by rw [hr]; simp))]
    simp only [py_bind_ok]
    obtain ⟨g', h1, h2⟩ := hfold rules (fun i => decide (th < 1 ∧ ∀ p ∈ r.antecedent, th < μ p.1 p.2 i)) (fun _ h => h)
    rw [hr] at h1
    rw [h1]
    simp only [py_bind_ok, py_pure]
    congr 2
    apply List.map_congr_left
    intro i _
    rw [Bool.eq_iff_iff, h2 i]
    simp only [decide_eq_true_eq, hr, List.mem_cons, forall_eq_or_imp]
    constructor
    · rintro ⟨⟨h1, h2⟩, -, h3⟩
      exact ⟨h1, h2, fun a ha => (h3 a ha).2⟩
    · rintro ⟨h1, h2, h3⟩
      exact ⟨⟨h1, h2⟩, ⟨h1, h2⟩, fun a ha => ⟨h1, h3 a ha⟩⟩

/-! ## the 'moth' distance -/

/-- sum over the continuous columns. -/
def contSum (cont : List Nat) (m : Nat → K) (n : Nat) (a b : List (Cell K)) : K :=
  (((List.range n).filter (fun i => i ∈ cont)).map (fun i => |numAt a i - numAt b i| / m i)).sum

/-- number of differing cells in the other columns. -/
def discCount (cont : List Nat) (n : Nat) (a b : List (Cell K)) : Nat :=
  ((List.range n).filter (fun i => i ∉ cont ∧ a[i]? ≠ b[i]?)).length

theorem mothLoop_ok {n : Nat} {cont disc : List Nat} {mad : Nat → Option K} {m : Nat → K} (hg : GoodColumns n cont disc mad m)
    {a b : List (Cell K)} (ha : TypedRow cont n a) (hb : TypedRow cont n b) (k : Nat) (hk : k ≤ n) :
    ((a.zip b).take k).zipIdx.foldlM (distStep cont mad) (0, 0) =
      .ok ((((List.range k).filter (fun i => i ∈ cont)).map (fun i => |numAt a i - numAt b i| / m i)).sum,
        ((List.range k).filter (fun i => i ∉ cont ∧ a[i]? ≠ b[i]?)).length) := by
  induction k with
  | zero => simp
  | succ k ih =>
    have hka : k < a.length := by rw [ha.1]; omega
    have hkb : k < b.length := by rw [hb.1]; omega
    have htake : (a.zip b).take (k + 1) = (a.zip b).take k ++ [(a[k], b[k])] := by
      rw [List.take_add_one, List.getElem?_eq_getElem (by simp; omega)]
      simp
    have hlen : ((a.zip b).take k).length = k := by simp; omega
    rw [htake, List.zipIdx_append, List.foldlM_append, ih (by omega)]
    simp only [py_bind_ok, hlen, List.zipIdx_cons, List.zipIdx_nil, List.foldlM_cons, List.foldlM_nil, zero_add]
    rw [List.range_succ, List.filter_append, List.filter_append]
    unfold distStep
    by_cases hc : k ∈ cont
    · obtain ⟨x, hx⟩ := ha.2 k hc (by omega)
      obtain ⟨y, hy⟩ := hb.2 k hc (by omega)
      obtain ⟨hm1, hm2⟩ := hg.1 k hc (by omega)
      have hax : a[k] = .num x := by rw [List.getElem?_eq_getElem hka] at hx; exact Option.some.inj hx
      have hby : b[k] = .num y := by rw [List.getElem?_eq_getElem hkb] at hy; exact Option.some.inj hy
      have hna : numAt a k = x := by unfold numAt; rw [hx]
      have hnb : numAt b k = y := by unfold numAt; rw [hy]
      have hterm : contTerm mad k (a[k]) (b[k]) = .ok (|x - y| / m k) := by
        rw [hax, hby]
        unfold contTerm cellDiff
        simp only [py_bind_ok]
        split
        · rename_i h0; rw [h0]; simp
        · rw [hm1]
          simp only [pyDiv, if_neg (ne_of_gt hm2)]
      simp only [hc, if_true, hterm, py_bind_ok, py_pure]
      simp [hc, hna, hnb]
    · simp only [hc, if_false, py_pure, py_bind_ok]
      have e1 : a[k]? = some a[k] := List.getElem?_eq_getElem hka
      have e2 : b[k]? = some b[k] := List.getElem?_eq_getElem hkb
      by_cases hne : a[k] = b[k]
      · simp [hc, e1, e2, hne]
      · simp [hc, e1, e2, hne]

/-- closed form of the distance. -/
theorem mothDistance_ok {n : Nat} {cont disc : List Nat} {mad : Nat → Option K} {m : Nat → K}
    (hg : GoodColumns n cont disc mad m) {a b : List (Cell K)} (ha : TypedRow cont n a) (hb : TypedRow cont n b) :
    mothDistance a b cont disc mad =
      .ok (contSum cont m n a b / (cont.length : K) + (discCount cont n a b : K) / (disc.length : K)) := by
  unfold mothDistance
  have htake : a.zip b = (a.zip b).take n := by
    rw [List.take_of_length_le]; simp [ha.1, hb.1]
  rw [htake, mothLoop_ok hg ha hb n (le_refl _)]
  simp only [py_bind_ok]
  have h1 : (if contSum cont m n a b ≠ 0 then pyDiv (contSum cont m n a b) (cont.length : K) else .ok 0) =
      .ok (contSum cont m n a b / (cont.length : K)) := by
    split
    · rename_i h
      have : (cont.length : K) ≠ 0 := by
        rw [Nat.cast_ne_zero]
        intro h0
        apply h
        rw [List.length_eq_zero_iff] at h0
        unfold contSum
        rw [h0]; simp
      simp [pyDiv, this]
    · rename_i h
      rw [not_not.1 h]; simp
  have h2 : (if discCount cont n a b ≠ 0 then pyDiv (discCount cont n a b : K) (disc.length : K) else .ok 0) =
      .ok ((discCount cont n a b : K) / (disc.length : K)) := by
    split
    · rename_i h
      have hne : disc ≠ [] := by
        apply hg.2
        obtain ⟨i, hi⟩ := List.exists_mem_of_ne_nil _ (fun h0 => h (List.length_eq_zero_iff.2 h0))
        have := List.mem_filter.1 hi
        simp only [List.mem_range, decide_eq_true_eq] at this
        exact ⟨i, this.1, this.2.1⟩
      have : (disc.length : K) ≠ 0 := by
        rw [Nat.cast_ne_zero]; intro h0; exact hne (List.length_eq_zero_iff.1 h0)
      simp [pyDiv, this]
    · rename_i h
      rw [not_not.1 h]; simp
  unfold contSum at h1 ⊢
  unfold discCount at h2 ⊢
  rw [h1]
  simp only [py_bind_ok]
  rw [h2]
  rfl

theorem contSum_nonneg {n : Nat} {cont : List Nat} {m : Nat → K} (hm : ∀ i ∈ cont, i < n → 0 < m i) (a b : List (Cell K)) :
    0 ≤ contSum cont m n a b := by
  apply List.sum_nonneg
  intro x hx
  obtain ⟨i, hi, rfl⟩ := List.mem_map.1 hx
  have := List.mem_filter.1 hi
  simp only [List.mem_range, decide_eq_true_eq] at this
  exact div_nonneg (abs_nonneg _) (le_of_lt (hm i this.2 this.1))

theorem sum_map_le_add {ι : Type} (l : List ι) (f g h : ι → K) (hle : ∀ i ∈ l, f i ≤ g i + h i) :
    (l.map f).sum ≤ (l.map g).sum + (l.map h).sum := by
  induction l with
  | nil => simp
  | cons i l ih =>
    have h1 := hle i (by simp)
    have h2 := ih (fun j hj => hle j (by simp [hj]))
    simp only [List.map_cons, List.sum_cons]
    linarith

theorem filter_length_le_add {ι : Type} (l : List ι) (p q r : ι → Bool) (h : ∀ i ∈ l, p i = true → q i = true ∨ r i = true) :
    (l.filter p).length ≤ (l.filter q).length + (l.filter r).length := by
  induction l with
  | nil => simp
  | cons i l ih =>
    have h1 := h i (by simp)
    have h2 := ih (fun j hj => h j (by simp [hj]))
    rw [List.filter_cons, List.filter_cons, List.filter_cons]
    cases hp : p i <;> cases hq : q i <;> cases hr : r i <;> simp_all <;> omega

end

end Teacher
