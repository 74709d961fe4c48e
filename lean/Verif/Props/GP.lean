import Verif.Model.GP
import Verif.Props.Datasets
import Mathlib.Tactic.Linarith

/-!
# C89, C96, C97, C98, C99: the generators of `gpdatagenerator.py` and `neighbor_generator.py`
-/

set_option linter.unusedSectionVars false

namespace Teacher

variable {R K : Type} [Field K] [LinearOrder K] [IsStrictOrderedRing K]

/-! ## mutation -/

theorem choice1_mem (rng : GPRng R K) (values : List K) (r r' : R) (v : K) (h : choice1 rng values r = .ok (v, r')) : v ∈ values := by
  simp only [choice1] at h
  split at h
  · rename_i w hw
    cases h
    exact List.mem_of_getElem? hw
  · cases h

theorem mutateFrom_spec (rng : GPRng R K) (fv : Dict Nat (List K)) (indpb : K) (ind : List K) :
    ∀ (i : Nat) (r r' : R) (new : List K), mutateFrom rng fv indpb i ind r = .ok (new, r') →
      new.length = ind.length ∧
      ∀ (j : Nat) (g : K), new[j]? = some g → ind[j]? = some g ∨ ∃ values, Dict.get? fv (i + j) = some values ∧ g ∈ values := by
  induction ind with
  | nil => intro i r r' new h; cases h; simp
  | cons a gs ih =>
    intro i r r' new h
    simp only [mutateFrom] at h
    obtain ⟨values, hv, h⟩ := py_bind_eq_ok.1 h
    obtain ⟨⟨g', r1⟩, hg, h⟩ := py_bind_eq_ok.1 h
    obtain ⟨⟨l, r2⟩, hl, h⟩ := py_bind_eq_ok.1 h
    cases h
    obtain ⟨h1, h2⟩ := ih _ _ _ _ hl
    refine ⟨by simp [h1], ?_⟩
    intro j g hj
    cases j with
    | zero =>
      simp only [List.getElem?_cons_zero, Option.some.injEq] at hj ⊢
      subst hj
      simp only [mutateGene] at hg
      split at hg
      · right; exact ⟨values, Dict.get_eq_ok_iff.1 hv, choice1_mem rng values _ _ _ hg⟩
      · left; cases hg; rfl
    | succ j =>
      simp only [List.getElem?_cons_succ] at hj ⊢
      rw [show i + (j + 1) = i + 1 + j by omega]
      exact h2 j g hj

/-- **C89**: `mutate` keeps the number of genes, and each new gene is the old one or one of the values of that feature; the individual
given is not changed (it is a value here; the source clones it). -/
theorem C89_mutate (rng : GPRng R K) (fv : Dict Nat (List K)) (indpb : K) (ind : List K) (r r' : R) (new : List K)
    (h : gpMutate rng fv indpb ind r = .ok (new, r')) :
    new.length = ind.length ∧
    ∀ (j : Nat) (g : K), new[j]? = some g → ind[j]? = some g ∨ ∃ values, Dict.get? fv j = some values ∧ g ∈ values := by
  obtain ⟨h1, h2⟩ := mutateFrom_spec rng fv indpb ind 0 r r' new h
  refine ⟨h1, fun j g hj => ?_⟩
  have := h2 j g hj
  rwa [Nat.zero_add] at this

/-- **C89**: `mutate` succeeds when every gene has candidate values and `choice` draws one of them; with probability 1 of mutation every
gene is drawn again, with probability below 0 none. -/
theorem C89_mutate_total (rng : GPRng R K) (hpick : ∀ n r, 0 < n → (rng.pick n r).1 < n) (fv : Dict Nat (List K)) (indpb : K)
    (ind : List K) (hfv : ∀ j < ind.length, ∃ values, Dict.get? fv j = some values ∧ values ≠ []) (r : R) :
    ∃ new r', gpMutate rng fv indpb ind r = .ok (new, r') ∧
      ((∀ r, 0 ≤ (rng.random r).1) → indpb < 0 → new = ind) ∧
      ((∀ r, (rng.random r).1 ≤ 1) → 1 ≤ indpb → ∀ (j : Nat) (g : K), new[j]? = some g →
        ∃ values, Dict.get? fv j = some values ∧ g ∈ values) := by
  have key : ∀ (i : Nat) (r : R), (∀ j < ind.length, ∃ values, Dict.get? fv (i + j) = some values ∧ values ≠ []) →
      ∃ new r', mutateFrom rng fv indpb i ind r = .ok (new, r') ∧
      ((∀ r, 0 ≤ (rng.random r).1) → indpb < 0 → new = ind) ∧
      ((∀ r, (rng.random r).1 ≤ 1) → 1 ≤ indpb → ∀ (j : Nat) (g : K), new[j]? = some g →
        ∃ values, Dict.get? fv (i + j) = some values ∧ g ∈ values) := by
    clear hfv
    induction ind with
    | nil => intro i r _; exact ⟨[], r, rfl, fun _ _ => rfl, by simp⟩
    | cons a gs ih =>
      intro i r hfv
      obtain ⟨values, hv, hne⟩ := hfv 0 (by simp)
      rw [Nat.add_zero] at hv
      have hg : ∃ g' r1, mutateGene rng indpb values a r = .ok (g', r1) ∧
          ((∀ r, 0 ≤ (rng.random r).1) → indpb < 0 → g' = a) ∧ ((∀ r, (rng.random r).1 ≤ 1) → 1 ≤ indpb → g' ∈ values) := by
        simp only [mutateGene]
        split
        · rename_i hle
          have hlt := hpick values.length (rng.random r).2 (List.length_pos_of_ne_nil hne)
          refine ⟨values[(rng.pick values.length (rng.random r).2).1], (rng.pick values.length (rng.random r).2).2, ?_, ?_, ?_⟩
          · simp only [choice1, List.getElem?_eq_getElem hlt]
          · intro h0 h1; exact absurd (h0 r) (by linarith)
          · intro _ _; exact List.getElem_mem _
        · rename_i hle
          exact ⟨a, _, rfl, fun _ _ => rfl, fun h0 h1 => absurd ((h0 r).trans h1) hle⟩
      obtain ⟨g', r1, hg1, hg2, hg3⟩ := hg
      obtain ⟨new, r', h1, h2, h3⟩ := ih (i + 1) r1 (fun j hj => by
        have := hfv (j + 1) (by simpa using hj)
        rwa [show i + (j + 1) = i + 1 + j by omega] at this)
      refine ⟨g' :: new, r', ?_, ?_, ?_⟩
      · simp only [mutateFrom, Dict.get_eq_ok_iff.2 hv, py_bind_ok, hg1, h1]; rfl
      · intro h h'; rw [hg2 h h', h2 h h']
      · intro h h' j g hj
        cases j with
        | zero =>
          simp only [List.getElem?_cons_zero, Option.some.injEq] at hj
          subst hj
          exact ⟨values, hv, hg3 h h'⟩
        | succ j =>
          simp only [List.getElem?_cons_succ] at hj
          rw [show i + (j + 1) = i + 1 + j by omega]
          exact h3 h h' j g hj
  obtain ⟨new, r', h1, h2, h3⟩ := key 0 r (by simpa using hfv)
  refine ⟨new, r', h1, h2, ?_⟩
  simpa using h3

/-! ## the threshold of the fitness -/

namespace Spec

/-- Specification of the threshold of a list of fitness values: a value of the list such that the next larger value `u` of the list
leaves the largest gap between two consecutive values, the last one of those of this size. -/
def IsThreshold (fitness : List K) (t : K) : Prop :=
  t ∈ fitness ∧ ∃ u ∈ fitness, t ≤ u ∧ (∀ f ∈ fitness, ¬ (t < f ∧ f < u)) ∧
    ∀ a ∈ fitness, ∀ b ∈ fitness, a < b → (∀ f ∈ fitness, ¬ (a < f ∧ f < b)) → b - a ≤ u - t ∧ (b - a = u - t → a ≤ t)

end Spec

theorem gaps_get (s : List K) : ∀ (i : Nat) (g : K),
    (gaps s)[i]? = some g ↔ ∃ a b, s[i]? = some a ∧ s[i + 1]? = some b ∧ g = b - a := by
  induction s with
  | nil => simp [gaps]
  | cons x s ih =>
    cases s with
    | nil => intro i g; simp [gaps]
    | cons y l =>
      intro i g
      cases i with
      | zero => simp [gaps, eq_comm]
      | succ i =>
        rw [gaps, List.getElem?_cons_succ, ih i g]
        simp

theorem gaps_length (s : List K) : (gaps s).length = s.length - 1 := by
  induction s with
  | nil => rfl
  | cons x s ih =>
    cases s with
    | nil => rfl
    | cons y l => simp only [gaps, List.length_cons] at ih ⊢; omega

theorem locate_consecutive (s : List K) (hs : s.Pairwise (· ≤ ·)) (a b : K) (hab : a < b) (ha : a ∈ s) (hb : b ∈ s)
    (hno : ∀ f ∈ s, ¬ (a < f ∧ f < b)) : ∃ i, s[i]? = some a ∧ s[i + 1]? = some b := by
  induction s with
  | nil => simp at ha
  | cons x s ih =>
    obtain ⟨hx, hs⟩ := List.pairwise_cons.1 hs
    have hrec : a ∈ s → ∃ i, (x :: s)[i]? = some a ∧ (x :: s)[i + 1]? = some b := by
      intro has
      have hbs : b ∈ s := by
        rcases List.mem_cons.1 hb with rfl | h
        · exact absurd (hx a has) (not_le.2 hab)
        · exact h
      obtain ⟨i, h1, h2⟩ := ih hs has hbs (fun f hf => hno f (by simp [hf]))
      exact ⟨i + 1, by simpa using h1, by simpa using h2⟩
    by_cases has : a ∈ s
    · exact hrec has
    · rcases List.mem_cons.1 ha with rfl | h
      · have hbs : b ∈ s := by
          rcases List.mem_cons.1 hb with rfl | h
          · exact absurd hab (lt_irrefl _)
          · exact h
        cases s with
        | nil => simp at hbs
        | cons y l =>
          refine ⟨0, rfl, ?_⟩
          have hay : a < y := lt_of_le_of_ne (hx y (by simp)) (fun e => has (by simp [e]))
          have hby : b ≤ y := by
            by_contra hlt
            exact hno y (by simp) ⟨hay, not_le.1 hlt⟩
          have hyb : y ≤ b := by
            rcases List.mem_cons.1 hbs with rfl | h
            · exact le_rfl
            · exact (List.pairwise_cons.1 ‹(y :: l).Pairwise _›).1 b h
          simp [le_antisymm hyb hby]
      · exact absurd h has

theorem gp_foldl_max_spec (l : List K) (a : K) : (l.foldl max a = a ∨ l.foldl max a ∈ l) ∧ a ≤ l.foldl max a ∧ ∀ x ∈ l, x ≤ l.foldl max a := by
  induction l generalizing a with
  | nil => simp
  | cons x l ih =>
    obtain ⟨h1, h2, h3⟩ := ih (max a x)
    simp only [List.foldl_cons, List.mem_cons, forall_eq_or_imp]
    refine ⟨?_, (le_max_left a x).trans h2, (le_max_right a x).trans h2, h3⟩
    rcases h1 with h1 | h1
    · rcases max_choice a x with h | h
      · left; rw [h1, h]
      · right; left; rw [h1, h]
    · right; right; exact h1

theorem foldl_max_nat (l : List Nat) (hl : l ≠ []) : l.foldl max 0 ∈ l ∧ ∀ x ∈ l, x ≤ l.foldl max 0 := by
  have key : ∀ (l : List Nat) (a : Nat), (l.foldl max a = a ∨ l.foldl max a ∈ l) ∧ a ≤ l.foldl max a ∧ ∀ x ∈ l, x ≤ l.foldl max a := by
    intro l
    induction l with
    | nil => simp
    | cons x l ih =>
      intro a
      obtain ⟨h1, h2, h3⟩ := ih (max a x)
      simp only [List.foldl_cons, List.mem_cons, forall_eq_or_imp]
      refine ⟨?_, (le_max_left a x).trans h2, (le_max_right a x).trans h2, h3⟩
      rcases h1 with h1 | h1
      · rcases max_choice a x with h | h
        · left; rw [h1, h]
        · right; left; rw [h1, h]
      · right; right; exact h1
  obtain ⟨h1, -, h3⟩ := key l 0
  refine ⟨?_, h3⟩
  rcases h1 with h1 | h1
  · obtain ⟨x, hx⟩ := List.exists_mem_of_ne_nil l hl
    have := h3 x hx
    rw [h1] at this ⊢
    have : x = 0 := by omega
    exact this ▸ hx
  · exact h1

theorem fitnessThreshold_spec (fitness : List K) (h2 : 2 ≤ fitness.length) :
    ∃ t, fitnessThreshold fitness = .ok t ∧ Spec.IsThreshold fitness t ∧
      ((∃ f ∈ fitness, ∃ g ∈ fitness, f ≠ g) → ∃ f ∈ fitness, t < f) := by
  set s := fitness.insertionSort (· ≤ ·) with hsd
  have hperm : s.Perm fitness := List.perm_insertionSort _ _
  have hsort : s.Pairwise (· ≤ ·) := List.pairwise_insertionSort _ _
  have hlen : s.length = fitness.length := hperm.length_eq
  have hgl := gaps_length s
  cases hd : gaps s with
  | nil => rw [hd] at hgl; simp at hgl; omega
  | cons g0 gl =>
    obtain ⟨hm1, hm2, hm3⟩ := gp_foldl_max_spec gl g0
    set m := gl.foldl max g0 with hm
    have hmem : m ∈ gaps s := by
      rw [hd]; rcases hm1 with h | h
      · simp [h]
      · simp [h]
    have hmax : ∀ g ∈ gaps s, g ≤ m := by
      rw [hd]; intro g hg
      rcases List.mem_cons.1 hg with rfl | h
      · exact hm2
      · exact hm3 g h
    set il := (((gaps s).zipIdx.filter (fun p => p.1 = m)).map Prod.snd) with hil
    have hilm : ∀ i, i ∈ il ↔ (gaps s)[i]? = some m := by
      intro i
      rw [hil]
      simp only [List.mem_map, List.mem_filter, decide_eq_true_eq, Prod.exists, exists_eq_right]
      constructor
      · intro h
        simpa [List.mem_zipIdx_iff_getElem?] using h
      · intro h
        simpa [List.mem_zipIdx_iff_getElem?] using h
    have hine : il ≠ [] := by
      obtain ⟨i, hi⟩ := List.getElem?_of_mem hmem
      exact List.ne_nil_of_mem ((hilm i).2 hi)
    obtain ⟨hidx1, hidx2⟩ := foldl_max_nat il hine
    set index := il.foldl max 0 with hindex
    obtain ⟨t, u, ht, hu, hmu⟩ := (gaps_get s index m).1 ((hilm index).1 hidx1)
    have hok : fitnessThreshold fitness = .ok t := by
      have hd' := hd
      simp only [fitnessThreshold, ← hsd]
      rw [hd]
      simp only [← hm, py_bind_ok]
      rw [← hd', ← hil, ← hindex, ht]
    have htm : t ∈ fitness := hperm.mem_iff.1 (List.mem_of_getElem? ht)
    have hum : u ∈ fitness := hperm.mem_iff.1 (List.mem_of_getElem? hu)
    have hget : ∀ (i j : Nat) (a b : K), i ≤ j → s[i]? = some a → s[j]? = some b → a ≤ b := by
      intro i j a b hij ha hb
      obtain ⟨hi, rfl⟩ := List.getElem?_eq_some_iff.1 ha
      obtain ⟨hj, rfl⟩ := List.getElem?_eq_some_iff.1 hb
      rcases hij.lt_or_eq with h | h
      · exact List.pairwise_iff_getElem.1 hsort i j hi hj h
      · subst h; exact le_rfl
    have htu : t ≤ u := hget _ _ _ _ (Nat.le_succ _) ht hu
    refine ⟨t, hok, ⟨htm, u, hum, htu, ?_, ?_⟩, ?_⟩
    · rintro f hf ⟨h1, h2⟩
      obtain ⟨j, hj⟩ := List.getElem?_of_mem (hperm.mem_iff.2 hf)
      rcases le_or_gt j index with h | h
      · exact absurd (hget j index f t h hj ht) (not_le.2 h1)
      · exact absurd (hget (index + 1) j u f h hu hj) (not_le.2 h2)
    · intro a ha b hb hab hno
      obtain ⟨i, hi1, hi2⟩ := locate_consecutive s hsort a b hab (hperm.mem_iff.2 ha) (hperm.mem_iff.2 hb)
        (fun f hf => hno f (hperm.mem_iff.1 hf))
      have hgi : (gaps s)[i]? = some (b - a) := (gaps_get s i (b - a)).2 ⟨a, b, hi1, hi2, rfl⟩
      refine ⟨by rw [← hmu]; exact hmax _ (List.mem_of_getElem? hgi), ?_⟩
      intro he
      have : i ≤ index := hidx2 i ((hilm i).2 (by rw [hgi, he, hmu]))
      exact hget i index a t this hi1 ht
    · rintro ⟨f, hf, g, hg, hne⟩
      refine ⟨u, hum, ?_⟩
      by_contra hcon
      have hm0 : m ≤ 0 := by rw [hmu]; linarith [not_lt.1 hcon]
      -- all the values are equal
      have hall : ∀ (i : Nat) (a b : K), s[i]? = some a → s[0]? = some b → a = b := by
        intro i
        induction i with
        | zero => intro a b h1 h2; rw [h1] at h2; exact Option.some.inj h2
        | succ i ih =>
          intro a b h1 h2
          have hlt : i < s.length := by have := (List.getElem?_eq_some_iff.1 h1).1; omega
          have hi : s[i]? = some s[i] := List.getElem?_eq_getElem hlt
          have hgi := (gaps_get s i (a - s[i])).2 ⟨s[i], a, hi, h1, rfl⟩
          have h3 := hmax _ (List.mem_of_getElem? hgi)
          have h4 := hget i (i + 1) _ _ (Nat.le_succ _) hi h1
          rw [← ih s[i] b hi h2]
          apply le_antisymm _ h4
          linarith
      have h0 : 0 < s.length := by omega
      obtain ⟨i, hi⟩ := List.getElem?_of_mem (hperm.mem_iff.2 hf)
      obtain ⟨j, hj⟩ := List.getElem?_of_mem (hperm.mem_iff.2 hg)
      have h0' : s[0]? = some s[0] := List.getElem?_eq_getElem h0
      exact hne ((hall i f _ hi h0').trans (hall j g _ hj h0').symm)

theorem fitnessThreshold_small (fitness : List K) (h : fitness.length < 2) : fitnessThreshold fitness = .error .valueError := by
  have hl : (fitness.insertionSort (· ≤ ·)).length < 2 := by rw [List.length_insertionSort]; exact h
  have hg : gaps (fitness.insertionSort (· ≤ ·)) = [] := by
    rw [← List.length_eq_zero_iff, gaps_length]; omega
  simp only [fitnessThreshold, hg]
  rfl

/-- **C89**: `get_oversample` raises `ValueError` for a population of fewer than two individuals. Otherwise it succeeds, and there is a
threshold, the lower end of the largest gap between consecutive values of the fitness of the population, such that the result are
exactly the individuals of the population and of the hall of fame whose fitness is above it. When the fitness of the population is not
constant, the threshold is below the best fitness, so that the best individuals are in the result. -/
theorem C89_oversample (population halloffame : List (List K × K)) :
    (population.length < 2 → getOversample population halloffame = .error .valueError) ∧
    (2 ≤ population.length → ∃ o t, getOversample population halloffame = .ok o ∧ Spec.IsThreshold (population.map Prod.snd) t ∧
      (∀ ind, o.count ind = (population.filter (fun p => t < p.2 ∧ p.1 = ind)).length
        + (halloffame.filter (fun p => t < p.2 ∧ p.1 = ind)).length) ∧
      ((∃ p ∈ population, ∃ q ∈ population, p.2 ≠ q.2) →
        ∀ p ∈ population, (∀ q ∈ population, q.2 ≤ p.2) → t < p.2 ∧ p.1 ∈ o)) := by
  constructor
  · intro h
    have := fitnessThreshold_small (population.map Prod.snd) (by simpa using h)
    simp only [getOversample, this]
    rfl
  · intro h
    obtain ⟨t, h1, h2, h3⟩ := fitnessThreshold_spec (population.map Prod.snd) (by simpa using h)
    refine ⟨_, t, by simp only [getOversample, h1, py_bind_ok]; rfl, h2, ?_, ?_⟩
    · intro ind
      rw [List.count, List.countP_map, List.countP_append, List.countP_filter, List.countP_filter,
        List.countP_eq_length_filter, List.countP_eq_length_filter]
      have : ∀ l : List (List K × K), l.filter (fun a => ((fun x => x == ind) ∘ Prod.fst) a && decide (t < a.2))
          = l.filter (fun p => t < p.2 ∧ p.1 = ind) := by
        intro l
        apply List.filter_congr
        intro p _
        simp [Function.comp, Bool.and_comm, Bool.decide_and, beq_eq_decide]
      rw [this, this]
    · rintro ⟨p, hp, q, hq, hne⟩ b hb hbest
      obtain ⟨f, hf, hlt⟩ := h3 ⟨p.2, List.mem_map.2 ⟨p, hp, rfl⟩, q.2, List.mem_map.2 ⟨q, hq, rfl⟩, hne⟩
      obtain ⟨c, hc, rfl⟩ := List.mem_map.1 hf
      have htb : t < b.2 := hlt.trans_le (hbest c hc)
      refine ⟨htb, List.mem_map.2 ⟨b, List.mem_append.2 (.inl ?_), rfl⟩⟩
      simp [hb, htb]

example : getOversample (K := ℚ) [([1], 1 / 10), ([2], 9 / 10), ([3], 1 / 5), ([4], 4 / 5)] [([5], 1)] = .ok [[2], [4], [5]] := by
  decide +kernel

/-! ## the generated data -/

/-- an individual that the evolutionary algorithm can reach from copies of `x`: by crossover (each gene from one of two parents, in
its place) and mutation. -/
inductive Spec.Derived (rng : GPRng R K) (fv : Dict Nat (List K)) (indpb : K) (x : List K) : List K → Prop
  | init : Spec.Derived rng fv indpb x x
  | cross (a b c : List K) (ha : Spec.Derived rng fv indpb x a) (hb : Spec.Derived rng fv indpb x b) (hl : c.length = a.length)
      (hc : ∀ j : Nat, c[j]? = a[j]? ∨ c[j]? = b[j]?) : Spec.Derived rng fv indpb x c
  | mutation (a b : List K) (r r' : R) (ha : Spec.Derived rng fv indpb x a) (h : gpMutate rng fv indpb a r = .ok (b, r')) :
      Spec.Derived rng fv indpb x b

/-- Specification of the evolutionary algorithm of deap (external): the individuals of the final population and of the hall of fame are
derived from `x`. -/
def Spec.DeapRun (rng : GPRng R K) (fv : Dict Nat (List K)) (indpb : K) (x : List K)
    (ea : NeigKind → Nat → R → Py ((List (List K × K) × List (List K × K)) × R)) : Prop :=
  ∀ kind size r pop hof r', ea kind size r = .ok ((pop, hof), r') → ∀ p ∈ pop ++ hof, Spec.Derived rng fv indpb x p.1

/-- Specification: a record made of values of `x` and of the candidate values of each feature. -/
def Spec.FromData (fv : Dict Nat (List K)) (x z : List K) : Prop :=
  z.length = x.length ∧ ∀ (j : Nat) (g : K), z[j]? = some g → x[j]? = some g ∨ ∃ values, Dict.get? fv j = some values ∧ g ∈ values

theorem derived_fromData (rng : GPRng R K) (fv : Dict Nat (List K)) (indpb : K) (x z : List K) (h : Spec.Derived rng fv indpb x z) :
    Spec.FromData fv x z := by
  induction h with
  | init => exact ⟨rfl, fun j g h => .inl h⟩
  | cross a b c _ _ hl hc iha ihb =>
    refine ⟨hl.trans iha.1, fun j g h => ?_⟩
    rcases hc j with e | e
    · exact iha.2 j g (by rw [← e]; exact h)
    · exact ihb.2 j g (by rw [← e]; exact h)
  | mutation a b r r' _ h iha =>
    obtain ⟨h1, h2⟩ := C89_mutate rng fv indpb a r r' b h
    refine ⟨h1.trans iha.1, fun j g hj => ?_⟩
    rcases h2 j g hj with e | e
    · exact iha.2 j g e
    · exact .inr e

theorem gpBlock_ok (ea : NeigKind → Nat → R → Py ((List (List K × K) × List (List K × K)) × R)) (kind : NeigKind) (size : Int)
    (acc acc' : List (List (List K))) (r r' : R) (h : gpBlock ea kind size acc r = .ok (acc', r')) :
    acc' = acc ∨ ∃ pop hof r1 o, 0 < size ∧ ea kind size.toNat r = .ok ((pop, hof), r1) ∧ getOversample pop hof = .ok o ∧ o ≠ [] ∧
      acc' = acc ++ [o] := by
  simp only [gpBlock] at h
  split at h
  · rename_i hpos
    obtain ⟨⟨⟨pop, hof⟩, r1⟩, he, h⟩ := py_bind_eq_ok.1 h
    obtain ⟨o, ho, h⟩ := py_bind_eq_ok.1 h
    simp only at h ho
    split at h
    · cases h; exact .inl rfl
    · rename_i hne
      cases h
      exact .inr ⟨pop, hof, _, o, hpos, he, ho, hne, rfl⟩
  · cases h; exact .inl rfl

theorem oversample_mem (pop hof : List (List K × K)) (o : List (List K)) (h : getOversample pop hof = .ok o) (z : List K) (hz : z ∈ o) :
    ∃ p ∈ pop ++ hof, p.1 = z := by
  simp only [getOversample] at h
  obtain ⟨t, -, h⟩ := py_bind_eq_ok.1 h
  cases h
  obtain ⟨p, hp, rfl⟩ := List.mem_map.1 hz
  refine ⟨p, ?_, rfl⟩
  rcases List.mem_append.1 hp with hp | hp
  · exact List.mem_append.2 (.inl (List.mem_of_mem_filter hp))
  · exact List.mem_append.2 (.inr (List.mem_of_mem_filter hp))

/-- **C89**: every record of `generate_data` has as many values as the explained record, each of them that of the explained record or
one of the candidate values of the feature; and there is at least one record. -/
theorem C89_generated (rng : GPRng R K) (fv : Dict Nat (List K)) (indpb : K) (x : List K)
    (ea : NeigKind → Nat → R → Py ((List (List K × K) × List (List K × K)) × R)) (hea : Spec.DeapRun rng fv indpb x ea) (rnd : K → Int)
    (neigtype : Dict NeigKind K) (n : K) (r r' : R) (Z : List (List K)) (h : generateData ea rnd neigtype n r = .ok (Z, r')) :
    Z ≠ [] ∧ ∀ z ∈ Z, Spec.FromData fv x z := by
  simp only [generateData] at h
  obtain ⟨⟨a1, r1⟩, h1, h⟩ := py_bind_eq_ok.1 h
  obtain ⟨⟨a2, r2⟩, h2, h⟩ := py_bind_eq_ok.1 h
  obtain ⟨⟨a3, r3⟩, h3, h⟩ := py_bind_eq_ok.1 h
  obtain ⟨⟨a4, r4⟩, h4, h⟩ := py_bind_eq_ok.1 h
  simp only at h1 h2 h3 h4 h
  have step : ∀ kind size (acc acc' : List (List (List K))) r r', gpBlock ea kind size acc r = .ok (acc', r') →
      (∀ o ∈ acc, o ≠ [] ∧ ∀ z ∈ o, Spec.FromData fv x z) → (∀ o ∈ acc', o ≠ [] ∧ ∀ z ∈ o, Spec.FromData fv x z) := by
    intro kind size acc acc' r r' hb hacc
    rcases gpBlock_ok ea kind size acc acc' r r' hb with rfl | ⟨pop, hof, r1, o, -, he, ho, hne, rfl⟩
    · exact hacc
    · intro o' ho'
      rcases List.mem_append.1 ho' with ho' | ho'
      · exact hacc o' ho'
      · simp only [List.mem_singleton] at ho'
        subst ho'
        refine ⟨hne, fun z hz => ?_⟩
        obtain ⟨p, hp, rfl⟩ := oversample_mem pop hof o' ho z hz
        exact derived_fromData rng fv indpb x _ (hea _ _ _ _ _ _ he p hp)
  have hall := step _ _ _ _ _ _ h4 (step _ _ _ _ _ _ h3 (step _ _ _ _ _ _ h2 (step _ _ _ _ _ _ h1 (by simp))))
  split at h
  · cases h
  · rename_i hne
    cases h
    constructor
    · obtain ⟨o, ho⟩ := List.exists_mem_of_ne_nil _ hne
      obtain ⟨z, hz⟩ := List.exists_mem_of_ne_nil _ (hall o ho).1
      exact List.ne_nil_of_mem (List.mem_flatten.2 ⟨o, ho, hz⟩)
    · intro z hz
      obtain ⟨o, ho, hz⟩ := List.mem_flatten.1 hz
      exact (hall o ho).2 z hz

/-! ## C96: populations of constant fitness -/

theorem oversample_constant (pop hof : List (List K × K)) (c : K) (h2 : 2 ≤ pop.length) (hc : ∀ p ∈ pop, p.2 = c)
    (hh : ∀ p ∈ hof, p.2 ≤ c) : getOversample pop hof = .ok [] := by
  obtain ⟨t, h1, ⟨ht, -⟩, -⟩ := fitnessThreshold_spec (pop.map Prod.snd) (by simpa using h2)
  obtain ⟨p, hp, rfl⟩ := List.mem_map.1 ht
  have hpc := hc p hp
  simp only [getOversample, h1, py_bind_ok]
  have e1 : pop.filter (fun q => p.2 < q.2) = [] := by
    rw [List.filter_eq_nil_iff]; intro q hq; simp [hc q hq, hpc]
  have e2 : hof.filter (fun q => p.2 < q.2) = [] := by
    rw [List.filter_eq_nil_iff]; intro q hq; simpa [hpc] using hh q hq
  rw [e1, e2]; rfl

/-- **C96** is false: when the individuals of every final population have the same fitness (and the hall of fame no better one), which is
what happens if no mutation improves the copies of the record, `generate_data` raises `ValueError`. -/
theorem C96_constant_fitness_false (ea : NeigKind → Nat → R → Py ((List (List K × K) × List (List K × K)) × R)) (rnd : K → Int)
    (neigtype : Dict NeigKind K) (n : K)
    (hea : ∀ kind size r, ∃ pop hof r' c, ea kind size r = .ok ((pop, hof), r') ∧ 2 ≤ pop.length ∧ (∀ p ∈ pop, p.2 = c) ∧
      ∀ p ∈ hof, p.2 ≤ c) (r : R) : generateData ea rnd neigtype n r = .error .valueError := by
  have step : ∀ kind size r, ∃ r', gpBlock ea kind size ([] : List (List (List K))) r = .ok ([], r') := by
    intro kind size r
    simp only [gpBlock]
    split
    · obtain ⟨pop, hof, r', c, h1, h2, h3, h4⟩ := hea kind size.toNat r
      exact ⟨r', by simp only [h1, py_bind_ok, oversample_constant pop hof c h2 h3 h4, if_true]; rfl⟩
    · exact ⟨r, rfl⟩
  obtain ⟨r1, h1⟩ := step .ss (rnd (n * (Dict.get? neigtype .ss).getD 0)) r
  obtain ⟨r2, h2⟩ := step .sd (rnd (n * (Dict.get? neigtype .sd).getD 0)) r1
  obtain ⟨r3, h3⟩ := step .ds (rnd (n * (Dict.get? neigtype .ds).getD 0)) r2
  obtain ⟨r4, h4⟩ := step .dd (rnd (n * (Dict.get? neigtype .dd).getD 0)) r3
  simp only [generateData, h1, h2, h3, h4, py_bind_ok, if_true]

/-- **C96** is false for a population of one individual: `ValueError`. -/
theorem C96_single_individual_false (ea : NeigKind → Nat → R → Py ((List (List K × K) × List (List K × K)) × R)) (rnd : K → Int)
    (neigtype : Dict NeigKind K) (n : K) (hs : 0 < rnd (n * (Dict.get? neigtype .ss).getD 0)) (r r' : R)
    (pop hof : List (List K × K)) (he : ea .ss (rnd (n * (Dict.get? neigtype .ss).getD 0)).toNat r = .ok ((pop, hof), r'))
    (hl : pop.length = 1) : generateData ea rnd neigtype n r = .error .valueError := by
  simp only [generateData, gpBlock, hs, if_true, he, py_bind_ok, (C89_oversample pop hof).1 (by omega)]
  rfl

/-- **C96**, partial: `generate_data` succeeds when the populations have at least two individuals and one of the kinds asked for has a
population whose fitness is not constant. Missing: the full statement, without the condition on the fitness, is false. -/
theorem C96_generate_data_partial (ea : NeigKind → Nat → R → Py ((List (List K × K) × List (List K × K)) × R)) (rnd : K → Int)
    (neigtype : Dict NeigKind K) (n : K)
    (hea : ∀ kind size r, ∃ pop hof r', ea kind size r = .ok ((pop, hof), r') ∧ 2 ≤ pop.length)
    (kind : NeigKind) (hk : 0 < rnd (n * (Dict.get? neigtype kind).getD 0))
    (hvar : ∀ r pop hof r', ea kind (rnd (n * (Dict.get? neigtype kind).getD 0)).toNat r = .ok ((pop, hof), r') →
      ∃ p ∈ pop, ∃ q ∈ pop, p.2 ≠ q.2) (r : R) :
    ∃ Z r', generateData ea rnd neigtype n r = .ok (Z, r') ∧ Z ≠ [] := by
  have step : ∀ k (acc : List (List (List K))) r, ∃ acc' r', gpBlock ea k (rnd (n * (Dict.get? neigtype k).getD 0)) acc r = .ok (acc', r') ∧
      (acc' = [] → acc = []) ∧ (k = kind → acc' ≠ []) ∧ ((∀ o ∈ acc, o ≠ []) → ∀ o ∈ acc', o ≠ []) := by
    intro k acc r
    simp only [gpBlock]
    split
    · obtain ⟨pop, hof, r', h1, h2⟩ := hea k (rnd (n * (Dict.get? neigtype k).getD 0)).toNat r
      obtain ⟨o, t, ho, -, -, h4⟩ := (C89_oversample pop hof).2 h2
      simp only [h1, py_bind_ok, ho]
      split
      · rename_i hnil
        refine ⟨acc, r', rfl, id, ?_, id⟩
        rintro rfl
        obtain ⟨p, hp, q, hq, hne⟩ := hvar r pop hof r' h1
        -- a best individual
        obtain ⟨b, hb⟩ := pyMax_ok_of_ne_nil (fun p : List K × K => p.2) pop (List.ne_nil_of_mem hp)
        obtain ⟨hb1, hb2⟩ := pyMax_eq_ok _ _ _ hb
        have := (h4 ⟨p, hp, q, hq, hne⟩ b hb1 hb2.1).2
        rw [hnil] at this; simp at this
      · rename_i hne
        refine ⟨acc ++ [o], r', rfl, by simp, by simp, ?_⟩
        intro hacc o' ho'
        rcases List.mem_append.1 ho' with h | h
        · exact hacc o' h
        · simp only [List.mem_singleton] at h; rw [h]; exact hne
    · rename_i hneg
      exact ⟨acc, r, rfl, id, fun e => by subst e; exact absurd hk hneg, id⟩
  obtain ⟨a1, r1, h1, p1, q1, s1⟩ := step .ss [] r
  obtain ⟨a2, r2, h2, p2, q2, s2⟩ := step .sd a1 r1
  obtain ⟨a3, r3, h3, p3, q3, s3⟩ := step .ds a2 r2
  obtain ⟨a4, r4, h4, p4, q4, s4⟩ := step .dd a3 r3
  have hne : a4 ≠ [] := by
    intro e
    cases kind with
    | ss => exact q1 rfl (p2 (p3 (p4 e)))
    | sd => exact q2 rfl (p3 (p4 e))
    | ds => exact q3 rfl (p4 e)
    | dd => exact q4 rfl e
  have hall := s4 (s3 (s2 (s1 (by simp))))
  refine ⟨a4.flatten, r4, ?_, ?_⟩
  · simp only [generateData, h1, h2, h3, h4, py_bind_ok, if_neg hne]; rfl
  · obtain ⟨o, ho⟩ := List.exists_mem_of_ne_nil _ hne
    obtain ⟨z, hz⟩ := List.exists_mem_of_ne_nil _ (hall o ho)
    exact List.ne_nil_of_mem (List.mem_flatten.2 ⟨o, ho, hz⟩)

/-- a run of the evolutionary algorithm for the examples. -/
def gpEa (_ : NeigKind) (_ : Nat) (r : Nat) : Py ((List (List ℚ × ℚ) × List (List ℚ × ℚ)) × Nat) :=
  .ok (([([1, 5], 1 / 10), ([2, 5], 9 / 10)], [([2, 6], 1)]), r + 1)

example : generateData gpEa (fun x => ⌊x⌋) [(.ss, 1 / 2), (.sd, 1 / 2)] 4 0 = .ok ([[2, 5], [2, 6], [2, 5], [2, 6]], 2) := by
  decide +kernel

end Teacher
