import Verif.Spec.Genetic
import Verif.Lemmas.Basic
import Verif.Lemmas.Factual

/-! Lemmas on the genetic algorithm. -/

set_option linter.unusedSectionVars false

namespace Teacher
open Spec

variable {R K V : Type}

theorem deref_ok {h : Heap V} {a : Nat} {l : List V} (e : h[a]? = some l) : deref h a = .ok l := by
  unfold deref; rw [e]

theorem getElem?_append_heap {h e : Heap V} {a : Nat} {l : List V} (hl : h[a]? = some l) : (h ++ e)[a]? = some l := by
  obtain ⟨h1, -⟩ := List.getElem?_eq_some_iff.1 hl
  rw [List.getElem?_append_left h1, hl]

section
variable [LinearOrder K]

/-- mutation writes only the new object. -/
theorem mutateLoop_ok (rng : Rng R K V) (prob : K) (P : Nat → V → Prop) (hgen : ∀ i r, P i (rng.gen i r).1) (h : Heap V) :
    ∀ (fs : List Nat) (l : List V) (r : R), (∀ f ∈ fs, f < l.length) →
    ∃ l' r', mutateLoop rng prob h.length fs (h ++ [l]) r = .ok (h ++ [l'], r') ∧ l'.length = l.length ∧
      ∀ i x, l'[i]? = some x → l[i]? = some x ∨ (i ∈ fs ∧ P i x) := by
  intro fs
  induction fs with
  | nil => intro l r _; exact ⟨l, r, rfl, rfl, fun i x hx => .inl hx⟩
  | cons f fs ih =>
    intro l r hf
    rcases hr : rng.random r with ⟨u, r1⟩
    by_cases hu : u < prob
    · rcases hg : rng.gen f r1 with ⟨v, r2⟩
      have hd : deref (h ++ [l]) h.length = .ok l := deref_ok (by simp)
      have hset : setItem (h ++ [l]) h.length f v = .ok (h ++ [l.set f v]) := by
        unfold setItem
        rw [hd]
        simp [hf f (by simp)]
      obtain ⟨l', r', h1, h2, h3⟩ := ih (l.set f v) r2 (by intro g hg; simpa using hf g (by simp [hg]))
      refine ⟨l', r', ?_, by simpa using h2, ?_⟩
      · simp only [mutateLoop, hr, hu, if_true, hg, hset, py_bind_ok]
        exact h1
      · intro i x hx
        rcases h3 i x hx with e | ⟨e1, e2⟩
        · rw [List.getElem?_set] at e
          split at e
          · rename_i hfi
            subst hfi
            split at e
            · have hv : v = x := by simpa using e
              right
              refine ⟨by simp, ?_⟩
              rw [← hv]
              have := hgen f r1
              rw [hg] at this
              exact this
            · cases e
          · exact .inl e
        · exact .inr ⟨by simp [e1], e2⟩
    · obtain ⟨l', r', h1, h2, h3⟩ := ih l r1 (fun g hg => hf g (by simp [hg]))
      refine ⟨l', r', ?_, h2, ?_⟩
      · simp only [mutateLoop, hr, hu, if_false]
        exact h1
      · intro i x hx
        rcases h3 i x hx with e | ⟨e1, e2⟩
        · exact .inl e
        · exact .inr ⟨by simp [e1], e2⟩

theorem informedInit_ok (rng : Rng R K V) (prob : K) (P : Nat → V → Prop) (hgen : ∀ i r, P i (rng.gen i r).1) (h : Heap V)
    (fs : List Nat) (a : Nat) (l : List V) (hl : h[a]? = some l) (hf : ∀ f ∈ fs, f < l.length) (r : R) :
    ∃ l' r', informedInit rng fs a prob h r = .ok (h.length, h ++ [l'], r') ∧ l'.length = l.length ∧
      ∀ i x, l'[i]? = some x → l[i]? = some x ∨ (i ∈ fs ∧ P i x) := by
  obtain ⟨l', r', h1, h2, h3⟩ := mutateLoop_ok rng prob P hgen h fs l r hf
  refine ⟨l', r', ?_, h2, h3⟩
  unfold informedInit copyInd
  rw [deref_ok hl]
  simp only [py_bind_ok, py_pure, h1]

/-- position `i` of the children: kept or exchanged. -/
def Exchanged (f s c1 c2 : List V) : Prop :=
  ∀ i : Nat, (c1[i]? = f[i]? ∧ c2[i]? = s[i]?) ∨ (c1[i]? = s[i]? ∧ c2[i]? = f[i]?)

theorem crossLoop_ok (rng : Rng R K V) (prob : K) (h : Heap V) (a b : Nat) (f s : List V) (hf : h[a]? = some f)
    (hs : h[b]? = some s) (hlen : f.length = s.length) :
    ∀ (is : List Nat) (c1 c2 : List V) (r : R), (∀ i ∈ is, i < f.length) → c1.length = f.length → c2.length = f.length →
    Exchanged f s c1 c2 →
    ∃ c1' c2' r', crossLoop rng prob a b h.length (h.length + 1) is (h ++ [c1, c2]) r = .ok (h ++ [c1', c2'], r') ∧
      c1'.length = f.length ∧ c2'.length = f.length ∧ Exchanged f s c1' c2' ∧
      (∀ i : Nat, i ∉ is → c1'[i]? = c1[i]? ∧ c2'[i]? = c2[i]?) ∧
      ((∀ r, prob ≤ (rng.random r).1) → c1' = c1 ∧ c2' = c2) ∧
      ((∀ r, (rng.random r).1 < prob) → ∀ i ∈ is, c1'[i]? = s[i]? ∧ c2'[i]? = f[i]?) := by
  intro is
  induction is with
  | nil =>
    intro c1 c2 r _ h1 h2 hx
    exact ⟨c1, c2, r, rfl, h1, h2, hx, fun i _ => ⟨rfl, rfl⟩, fun _ => ⟨rfl, rfl⟩, fun _ i hi => by simp at hi⟩
  | cons i is ih =>
    intro c1 c2 r hi h1 h2 hx
    rcases hr : rng.random r with ⟨u, r1⟩
    have hilt := hi i (by simp)
    by_cases hu : u < prob
    · have g1 : getItem (h ++ [c1, c2]) b i = .ok s[i] := by
        unfold getItem
        rw [deref_ok (getElem?_append_heap hs)]
        simp only [py_bind_ok]
        rw [List.getElem?_eq_getElem (by omega)]
      have s1 : setItem (h ++ [c1, c2]) h.length i s[i] = .ok (h ++ [c1.set i s[i], c2]) := by
        unfold setItem
        rw [deref_ok (l := c1) (by simp)]
        simp [h1, hilt]
      have g2 : getItem (h ++ [c1.set i s[i], c2]) a i = .ok f[i] := by
        unfold getItem
        rw [deref_ok (getElem?_append_heap hf)]
        simp only [py_bind_ok]
        rw [List.getElem?_eq_getElem hilt]
      have s2 : setItem (h ++ [c1.set i s[i], c2]) (h.length + 1) i f[i] = .ok (h ++ [c1.set i s[i], c2.set i f[i]]) := by
        unfold setItem
        rw [deref_ok (l := c2) (by simp)]
        simp [h2, hilt]
      have hx' : Exchanged f s (c1.set i s[i]) (c2.set i f[i]) := by
        intro j
        by_cases hj : i = j
        · subst hj
          right
          constructor
          · rw [List.getElem?_set_self (by omega), List.getElem?_eq_getElem (by omega)]
          · rw [List.getElem?_set_self (by omega), List.getElem?_eq_getElem (by omega)]
        · rw [List.getElem?_set_ne hj, List.getElem?_set_ne hj]
          exact hx j
      obtain ⟨c1', c2', r', k1, k2, k3, k4, k5, k6, k7⟩ := ih (c1.set i s[i]) (c2.set i f[i]) r1
        (fun j hj => hi j (by simp [hj])) (by simpa using h1) (by simpa using h2) hx'
      refine ⟨c1', c2', r', ?_, k2, k3, k4, ?_, ?_, ?_⟩
      · simp only [crossLoop, hr, hu, if_true, g1, s1, g2, s2, py_bind_ok]
        exact k1
      · intro j hj
        simp only [List.mem_cons, not_or] at hj
        obtain ⟨e1, e2⟩ := k5 j hj.2
        rw [e1, e2, List.getElem?_set_ne (Ne.symm hj.1), List.getElem?_set_ne (Ne.symm hj.1)]
        exact ⟨rfl, rfl⟩
      · intro hall
        exfalso
        have := hall r
        rw [hr] at this
        exact absurd hu (not_lt.2 this)
      · intro hall j hj
        by_cases hjis : j ∈ is
        · exact k7 hall j hjis
        · have hji : j = i := by simpa [hjis] using hj
          subst hji
          obtain ⟨e1, e2⟩ := k5 j hjis
          rw [e1, e2, List.getElem?_set_self (by omega), List.getElem?_set_self (by omega),
            List.getElem?_eq_getElem (by omega), List.getElem?_eq_getElem (by omega)]
          exact ⟨rfl, rfl⟩
    · obtain ⟨c1', c2', r', k1, k2, k3, k4, k5, k6, k7⟩ := ih c1 c2 r1 (fun j hj => hi j (by simp [hj])) h1 h2 hx
      refine ⟨c1', c2', r', ?_, k2, k3, k4, ?_, k6, ?_⟩
      · simp only [crossLoop, hr, hu, if_false]
        exact k1
      · intro j hj
        simp only [List.mem_cons, not_or] at hj
        exact k5 j hj.2
      · intro hall
        exfalso
        have := hall r
        rw [hr] at this
        exact hu this

theorem uniformCrossover_ok (rng : Rng R K V) (prob : K) (h : Heap V) (a b : Nat) (f s : List V) (hf : h[a]? = some f)
    (hs : h[b]? = some s) (hlen : f.length = s.length) (r : R) :
    ∃ c1 c2 r', uniformCrossover rng a b prob h r = .ok ((h.length, h.length + 1), h ++ [c1, c2], r') ∧
      c1.length = f.length ∧ c2.length = f.length ∧ Exchanged f s c1 c2 ∧
      ((∀ r, prob ≤ (rng.random r).1) → c1 = f ∧ c2 = s) ∧
      ((∀ r, (rng.random r).1 < prob) → c1 = s ∧ c2 = f) := by
  obtain ⟨c1, c2, r', k1, k2, k3, k4, k5, k6, k7⟩ := crossLoop_ok rng prob h a b f s hf hs hlen (List.range f.length) f s r
    (fun i hi => List.mem_range.1 hi) rfl hlen.symm (fun i => .inl ⟨rfl, rfl⟩)
  refine ⟨c1, c2, r', ?_, k2, k3, k4, k6, ?_⟩
  · unfold uniformCrossover copyInd
    rw [deref_ok hf]
    simp only [py_bind_ok, py_pure]
    rw [deref_ok (getElem?_append_heap hs)]
    simp only [py_bind_ok, List.append_assoc, List.length_append, List.length_singleton, List.singleton_append]
    rw [deref_ok (getElem?_append_heap hf)]
    simp only [py_bind_ok, k1]
  · intro hall
    have hk := k7 hall
    constructor
    · apply List.ext_getElem?
      intro i
      by_cases hi : i < f.length
      · exact (hk i (List.mem_range.2 hi)).1
      · rw [List.getElem?_eq_none (by omega), List.getElem?_eq_none (by omega)]
    · apply List.ext_getElem?
      intro i
      by_cases hi : i < f.length
      · exact (hk i (List.mem_range.2 hi)).2
      · rw [List.getElem?_eq_none (by omega), List.getElem?_eq_none (by omega)]

/-! ### populations -/

/-- all the individuals of the population have `n` genes and gene `i` satisfies `P i`. -/
def PopOk (n : Nat) (P : Nat → V → Prop) (h : Heap V) (pop : List Nat) : Prop :=
  ∀ a ∈ pop, ∃ l, h[a]? = some l ∧ l.length = n ∧ ∀ i x, l[i]? = some x → P i x

theorem PopOk.append {n : Nat} {P : Nat → V → Prop} {h : Heap V} {pop : List Nat} (hp : PopOk n P h pop) (e : Heap V) :
    PopOk n P (h ++ e) pop := by
  intro a ha
  obtain ⟨l, h1, h2⟩ := hp a ha
  exact ⟨l, getElem?_append_heap h1, h2⟩

theorem PopOk.set {n : Nat} {P : Nat → V → Prop} {h : Heap V} {pop : List Nat} (hp : PopOk n P h pop) (i a : Nat)
    (ha : ∃ l, h[a]? = some l ∧ l.length = n ∧ ∀ i x, l[i]? = some x → P i x) : PopOk n P h (pop.set i a) := by
  intro b hb
  rcases List.mem_or_eq_of_mem_set hb with hb | rfl
  · exact hp b hb
  · exact ha

theorem candidates_ok (fit : List V → K) {h : Heap V} {pop : List Nat} (hp : ∀ a ∈ pop, ∃ l, h[a]? = some l)
    (idx : List Nat) (hidx : ∀ i ∈ idx, i < pop.length) :
    ∃ cs, idx.mapM (candidate fit h pop) = .ok cs ∧
      List.Forall₂ (fun i c => pop[i]? = some c.1 ∧ ∃ l, h[c.1]? = some l ∧ c.2 = fit l) idx cs := by
  have : ∀ i ∈ idx, ∃ c, candidate fit h pop i = .ok c ∧ pop[i]? = some c.1 ∧ ∃ l, h[c.1]? = some l ∧ c.2 = fit l := by
    intro i hi
    have hlt := hidx i hi
    obtain ⟨l, h1⟩ := hp pop[i] (List.getElem_mem _)
    refine ⟨(pop[i], fit l), ?_, by simp [hlt], l, h1, rfl⟩
    unfold candidate
    rw [List.getElem?_eq_getElem hlt]
    simp only [deref_ok h1, py_bind_ok, py_pure]
  obtain ⟨cs, hcs⟩ := forall₂_of_forall_exists _ idx this
  exact ⟨cs, (mapM_ok_iff _ _ _).2 (hcs.imp (fun _ _ h => h.1)), hcs.imp (fun _ _ h => h.2)⟩

/-- address `a` is one of the drawn members, of largest fitness among them. -/
def Winner (fit : List V → K) (h : Heap V) (pop idx : List Nat) (a : Nat) : Prop :=
  ∃ l, h[a]? = some l ∧ (∃ i ∈ idx, pop[i]? = some a) ∧
    ∀ i ∈ idx, ∀ b l', pop[i]? = some b → h[b]? = some l' → fit l' ≤ fit l

theorem tournamentLoop_ok (rng : Rng R K V) (fit : List V → K) {h : Heap V} {pop : List Nat}
    (hp : ∀ a ∈ pop, ∃ l, h[a]? = some l) (k : Nat) (hk : 0 < k)
    (hch : ∀ r, (rng.choice pop.length k r).1.length = k ∧ ∀ i ∈ (rng.choice pop.length k r).1, i < pop.length) :
    ∀ (m : Nat) (r : R), ∃ out r', tournamentLoop rng fit h pop k m r = .ok (out, r') ∧ out.length = m ∧
      List.Forall₂ (Winner fit h pop) (draws rng pop.length k m r) out := by
  intro m
  induction m with
  | zero => intro r; exact ⟨[], r, rfl, rfl, .nil⟩
  | succ m ih =>
    intro r
    obtain ⟨c1, c2⟩ := hch r
    rcases hr : rng.choice pop.length k r with ⟨idx, r1⟩
    rw [hr] at c1 c2
    obtain ⟨cs, hcs, hrel⟩ := candidates_ok fit hp idx c2
    have hne : cs ≠ [] := by
      intro e
      have := hrel.length_eq
      rw [e] at this
      simp only [List.length_nil] at this
      simp only at c1
      omega
    obtain ⟨best, hbest⟩ := pyMax_ok_of_ne_nil Prod.snd cs hne
    obtain ⟨out, r', h1, h2, h3⟩ := ih r1
    refine ⟨best.1 :: out, r', ?_, by simp [h2], ?_⟩
    · simp only [tournamentLoop, hr, hcs, py_bind_ok, hbest, h1, py_pure]
    · simp only [draws, hr]
      refine .cons ?_ h3
      have hm := pyMax_eq_ok Prod.snd cs best hbest
      obtain ⟨hmem, hle⟩ : best ∈ cs ∧ ∀ c ∈ cs, c.2 ≤ best.2 := by
        exact ⟨hm.1, hm.2.1⟩
      obtain ⟨i, hi, e1, l, e2, e3⟩ := forall₂_mem_right hrel best hmem
      refine ⟨l, e2, ⟨i, hi, e1⟩, ?_⟩
      intro j hj b l' hb hl'
      obtain ⟨c, hc, f1, l2, f2, f3⟩ := forall₂_mem_left hrel j hj
      rw [hb] at f1
      cases f1
      rw [hl'] at f2
      cases f2
      rw [← f3, ← e3]
      exact hle c hc

theorem crossPhase_ok (rng : Rng R K V) (cxProb crossProb : K) {n : Nat} {P : Nat → V → Prop} :
    ∀ (m i : Nat) (pop : List Nat) (h : Heap V) (r : R), PopOk n P h pop → i + m + 1 ≤ pop.length ∨ m = 0 →
    ∃ pop' ext r', crossPhase rng cxProb crossProb m i pop h r = .ok (pop', h ++ ext, r') ∧ pop'.length = pop.length ∧
      PopOk n P (h ++ ext) pop' := by
  intro m
  induction m with
  | zero => intro i pop h r hp _; exact ⟨pop, [], r, by simp [crossPhase], rfl, by simpa using hp⟩
  | succ m ih =>
    intro i pop h r hp hi
    have hi' : i + 1 < pop.length := by omega
    rcases hr : rng.random r with ⟨u, r1⟩
    by_cases hu : u < crossProb
    · obtain ⟨f, f1, f2, f3⟩ := hp pop[i] (List.getElem_mem _)
      obtain ⟨s, s1, s2, s3⟩ := hp pop[i+1] (List.getElem_mem _)
      obtain ⟨c1, c2, r', k1, k2, k3, k4, -⟩ := uniformCrossover_ok rng cxProb h _ _ f s f1 s1 (by rw [f2, s2]) r1
      have hp' : PopOk n P (h ++ [c1, c2]) ((pop.set i h.length).set (i + 1) (h.length + 1)) := by
        apply PopOk.set
        · apply PopOk.set (hp.append _)
          refine ⟨c1, by simp, by rw [k2, f2], ?_⟩
          intro j x hx
          rcases k4 j with ⟨e, -⟩ | ⟨e, -⟩
          · exact f3 j x (by rw [← e, hx])
          · exact s3 j x (by rw [← e, hx])
        · refine ⟨c2, by simp, by rw [k3, f2], ?_⟩
          intro j x hx
          rcases k4 j with ⟨-, e⟩ | ⟨-, e⟩
          · exact s3 j x (by rw [← e, hx])
          · exact f3 j x (by rw [← e, hx])
      obtain ⟨pop', ext, r2, j1, j2, j3⟩ := ih (i + 1) _ _ r' hp' (by simp only [List.length_set]; omega)
      refine ⟨pop', [c1, c2] ++ ext, r2, ?_, by simpa using j2, by rw [← List.append_assoc]; exact j3⟩
      simp only [crossPhase, hr, hu, if_true]
      rw [List.getElem?_eq_getElem (by omega), List.getElem?_eq_getElem hi']
      simp only [k1, py_bind_ok, j1, List.append_assoc]
    · obtain ⟨pop', ext, r2, j1, j2, j3⟩ := ih (i + 1) pop h r1 hp (by omega)
      refine ⟨pop', ext, r2, ?_, j2, j3⟩
      simp only [crossPhase, hr, hu, if_false]
      exact j1

theorem mutPhase_ok (rng : Rng R K V) (fs : List Nat) (mutProb mutExtProb : K) {n : Nat} {P : Nat → V → Prop}
    (hgen : ∀ i ∈ fs, ∀ r, P i (rng.gen i r).1) (hfs : ∀ f ∈ fs, f < n) :
    ∀ (m i : Nat) (pop : List Nat) (h : Heap V) (r : R), PopOk n P h pop → i + m ≤ pop.length →
    ∃ pop' ext r', mutPhase rng fs mutProb mutExtProb m i pop h r = .ok (pop', h ++ ext, r') ∧ pop'.length = pop.length ∧
      PopOk n P (h ++ ext) pop' := by
  intro m
  induction m with
  | zero => intro i pop h r hp _; exact ⟨pop, [], r, by simp [mutPhase], rfl, by simpa using hp⟩
  | succ m ih =>
    intro i pop h r hp hi
    rcases hr : rng.random r with ⟨u, r1⟩
    by_cases hu : u < mutExtProb
    · obtain ⟨f, f1, f2, f3⟩ := hp pop[i] (List.getElem_mem _)
      obtain ⟨l', r', k1, k2, k3⟩ := informedInit_ok rng mutProb (fun i x => ∃ r, (rng.gen i r).1 = x) (fun i r => ⟨r, rfl⟩) h fs
        _ f f1 (by rw [f2]; exact hfs) r1
      have hp' : PopOk n P (h ++ [l']) (pop.set i h.length) := by
        apply PopOk.set (hp.append _)
        refine ⟨l', by simp, by rw [k2, f2], ?_⟩
        intro j x hx
        rcases k3 j x hx with e | ⟨e1, r0, e2⟩
        · exact f3 j x e
        · rw [← e2]; exact hgen j e1 r0
      obtain ⟨pop', ext, r2, j1, j2, j3⟩ := ih (i + 1) _ _ r' hp' (by simp only [List.length_set]; omega)
      refine ⟨pop', [l'] ++ ext, r2, ?_, by simpa using j2, by rw [← List.append_assoc]; exact j3⟩
      simp only [mutPhase, hr, hu, if_true]
      rw [List.getElem?_eq_getElem (by omega)]
      simp only [k1, py_bind_ok, j1, List.append_assoc]
    · obtain ⟨pop', ext, r2, j1, j2, j3⟩ := ih (i + 1) pop h r1 hp (by omega)
      refine ⟨pop', ext, r2, ?_, j2, j3⟩
      simp only [mutPhase, hr, hu, if_false]
      exact j1

end
end Teacher
