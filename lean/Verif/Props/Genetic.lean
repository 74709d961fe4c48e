import Verif.Lemmas.Genetic
import Mathlib.Tactic.Positivity
import Mathlib.Tactic.NormNum

/-! Properties C70-C73: the genetic algorithm. -/

set_option linter.unusedSectionVars false

namespace Teacher
open Spec

variable {R K V : Type} [LinearOrder K]

/-! ### C72 -/

/-- C72: for every random state, the two children are new objects (the heap is only extended), at every position they hold the
genes of the two parents, kept or exchanged; with probability at most 0 they are the parents and with probability at least 1
the exchanged parents. -/
theorem C72_crossover [Zero K] [One K] (rng : Rng R K V) (hfair : FairRng rng) (h : Heap V) (a b : Nat) (f s : List V)
    (hf : h[a]? = some f) (hs : h[b]? = some s) (hlen : f.length = s.length) (prob : K) (r : R) :
    ∃ c1 c2 r', uniformCrossover rng a b prob h r = .ok ((h.length, h.length + 1), h ++ [c1, c2], r') ∧
      c1.length = f.length ∧ c2.length = f.length ∧
      (∀ i : Nat, (c1[i]? = f[i]? ∧ c2[i]? = s[i]?) ∨ (c1[i]? = s[i]? ∧ c2[i]? = f[i]?)) ∧
      (prob ≤ 0 → c1 = f ∧ c2 = s) ∧ (1 ≤ prob → c1 = s ∧ c2 = f) := by
  obtain ⟨c1, c2, r', h1, h2, h3, h4, h5, h6⟩ := uniformCrossover_ok rng prob h a b f s hf hs hlen r
  exact ⟨c1, c2, r', h1, h2, h3, h4, fun hp => h5 (fun r => le_trans hp (hfair.random r).1),
    fun hp => h6 (fun r => lt_of_lt_of_le (hfair.random r).2 hp)⟩

/-! ### C73 -/

theorem Spec.Holds.mem {h : Heap V} {pop : List Nat} {inds : List (List V)} (hh : Holds h pop inds) : ∀ a ∈ pop, ∃ l ∈ inds,
    h[a]? = some l := fun a ha => by
    unfold Spec.Holds at hh
    exact forall₂_mem_left hh a ha

theorem Spec.Holds.popOk {h : Heap V} {pop : List Nat} {inds : List (List V)} (hh : Spec.Holds h pop inds) {n : Nat}
    (hn : ∀ l ∈ inds, l.length = n) (P : Nat → V → Prop) (hP : ∀ l ∈ inds, ∀ i x, l[i]? = some x → P i x) : PopOk n P h pop := by
  intro a ha
  obtain ⟨l, h1, h2⟩ := hh.mem a ha
  exact ⟨l, h2, hn l h1, hP l h1⟩

theorem PopOk.holds {n : Nat} {P : Nat → V → Prop} {h : Heap V} {pop : List Nat} (hp : PopOk n P h pop) :
    ∃ inds, Holds h pop inds ∧ (∀ l ∈ inds, l.length = n) ∧ ∀ l ∈ inds, ∀ i x, l[i]? = some x → P i x := by
  obtain ⟨inds, hi⟩ := forall₂_of_forall_exists (fun a (l : List V) => h[a]? = some l ∧ l.length = n ∧ ∀ i x, l[i]? = some x → P i x) pop hp
  refine ⟨inds, hi.imp (fun _ _ h => h.1), ?_, ?_⟩
  · intro l hl
    obtain ⟨a, -, h1⟩ := forall₂_mem_right hi l hl
    exact h1.2.1
  · intro l hl
    obtain ⟨a, -, h1⟩ := forall₂_mem_right hi l hl
    exact h1.2.2

theorem Spec.Holds.get {h : Heap V} {pop : List Nat} {inds : List (List V)} (hh : Holds h pop inds) (i : Nat) (a : Nat)
    (ha : pop[i]? = some a) : ∃ l, inds[i]? = some l ∧ h[a]? = some l := by
  have h2 := List.forall₂_iff_get.1 hh
  obtain ⟨hi, e⟩ := List.getElem?_eq_some_iff.1 ha
  have hi' : i < inds.length := by rw [← h2.1]; exact hi
  refine ⟨inds[i], by simp [hi'], ?_⟩
  have := h2.2 i hi hi'
  simp only [List.get_eq_getElem, e] at this
  exact this

/-- C73: `tournament_selection` returns as many individuals as the population has; the `j`-th of them is, among the members
with the `k ≥ 1` indices of the `j`-th draw, one of largest fitness. The individuals are not touched. -/
theorem C73_tournament [Zero K] [One K] (rng : Rng R K V) (hfair : FairRng rng) (fit : List V → K) (h : Heap V) (pop : List Nat)
    (inds : List (List V)) (hh : Holds h pop inds) (k : Nat) (hk : 0 < k) (r : R) :
    ∃ out outs r', tournamentSelection rng fit h pop k r = .ok (out, r') ∧ Holds h out outs ∧ outs.length = inds.length ∧
      List.Forall₂ (fun idx l => (∃ i ∈ idx, inds[i]? = some l) ∧ ∀ i ∈ idx, ∀ l', inds[i]? = some l' → fit l' ≤ fit l)
        (draws rng inds.length k inds.length r) outs := by
  have hlen : pop.length = inds.length := hh.length_eq
  by_cases h0 : pop = []
  · subst h0
    have : inds = [] := List.length_eq_zero_iff.1 hlen.symm
    subst this
    exact ⟨[], [], r, rfl, .nil, rfl, .nil⟩
  · have hpos : 0 < pop.length := List.length_pos_iff.2 h0
    have hchoice := fun r => hfair.choice pop.length k r hpos
    obtain ⟨out, r', h1, h2, h3⟩ := tournamentLoop_ok rng fit (fun a ha => (hh.mem a ha).imp (fun _ h => h.2)) k hk hchoice pop.length r
    have hout : ∀ a ∈ out, ∃ l, h[a]? = some l := by
      intro a ha
      obtain ⟨idx, -, l, hl, -⟩ := forall₂_mem_right h3 a ha
      exact ⟨l, hl⟩
    obtain ⟨outs, houts⟩ := forall₂_of_forall_exists _ out hout
    refine ⟨out, outs, r', h1, houts, by rw [← houts.length_eq, h2, hlen], ?_⟩
    rw [← hlen]
    have hchain : ∀ (D : List (List Nat)) (out : List Nat) (outs : List (List V)), List.Forall₂ (Winner fit h pop) D out →
        Holds h out outs →
        List.Forall₂ (fun idx l => (∃ i ∈ idx, inds[i]? = some l) ∧ ∀ i ∈ idx, ∀ l', inds[i]? = some l' → fit l' ≤ fit l) D outs := by
      intro D
      induction D with
      | nil => intro out outs w ho; cases w; cases ho; exact .nil
      | cons idx D ih =>
        intro out outs w ho
        cases w with
        | cons w1 w2 =>
          cases ho with
          | cons o1 o2 =>
            refine .cons ?_ (ih _ _ w2 o2)
            obtain ⟨l, g1, ⟨i, hi, g2⟩, g3⟩ := w1
            rw [o1] at g1
            cases g1
            refine ⟨⟨i, hi, ?_⟩, ?_⟩
            · obtain ⟨l2, e1, e2⟩ := hh.get i _ g2
              rw [o1] at e2
              rw [e1, e2]
            · intro j hj l' hl'
              obtain ⟨hj', e⟩ := List.getElem?_eq_some_iff.1 hl'
              have hj2 : j < pop.length := by omega
              obtain ⟨l2, e1, e2⟩ := hh.get j pop[j] (by simp [hj2])
              rw [hl'] at e1
              cases e1
              exact g3 j hj pop[j] l' (by simp [hj2]) e2
    exact hchain _ _ _ h3 houts

theorem replacement_ok (fit : List V → K) (h : Heap V) (old new : List Nat) (io inew : List (List V))
    (ho : Holds h old io) (hn : Holds h new inew) :
    ∃ out outs, replacement fit h old new = .ok out ∧ Holds h out outs ∧ IsBestOf fit io.length (io ++ inew) outs ∧
      ∀ a ∈ out, a ∈ old ++ new := by
  have hb : Holds h (old ++ new) (io ++ inew) := List.rel_append ho hn
  generalize hbig : old ++ new = big at hb
  generalize hinds : io ++ inew = inds at hb
  have hcont : inds = big.map (fun a => (h[a]?).getD []) := by
    clear hbig hinds
    induction hb with
    | nil => rfl
    | cons h1 _ ih => rw [List.map_cons, h1, ← ih]; rfl
  have hkeys : big.mapM (fun a => do let l ← deref h a; pure (fit l)) = .ok (big.map (fun a => fit ((h[a]?).getD []))) := by
    apply mapM_ok_of_forall
    intro a ha
    obtain ⟨l, -, hl⟩ := hb.mem a ha
    rw [deref_ok hl, hl]
    rfl
  have hsort := sortDesc_spec (fun a => fit ((h[a]?).getD [])) big
  refine ⟨(sortDesc (fun a => fit ((h[a]?).getD [])) big).take old.length,
    ((sortDesc (fun a => fit ((h[a]?).getD [])) big).map (fun a => (h[a]?).getD [])).take io.length, ?_, ?_, ?_, ?_⟩
  · unfold replacement
    simp only [hbig]
    rw [hkeys]
    simp only [py_bind_ok, py_pure, zip_map_self]
    rw [insertionSort_map_pair]
  · rw [← ho.length_eq, ← List.map_take]
    unfold Holds
    rw [List.forall₂_map_right_iff, List.forall₂_same]
    intro a ha
    obtain ⟨l, -, hl⟩ := hb.mem a (hsort.perm.mem_iff.1 (List.mem_of_mem_take ha))
    rw [hl]; rfl
  · refine ⟨_, ⟨?_, ?_, ?_⟩, rfl⟩
    · rw [hcont]; exact hsort.perm.map _
    · rw [List.pairwise_map]; exact hsort.desc
    · intro k
      rw [hcont, List.filter_map, List.filter_map]
      have := hsort.stable k
      simp only [Function.comp_def]
      rw [this]
  · intro a ha
    exact hsort.perm.mem_iff.1 (List.mem_of_mem_take ha)

/-- C73: `replacement` returns the best individuals of old and new, as many as there are old ones, by decreasing fitness (among
equals the old ones first), and touches no individual. -/
theorem C73_replacement (fit : List V → K) (h : Heap V) (old new : List Nat) (io inew : List (List V))
    (ho : Holds h old io) (hn : Holds h new inew) :
    ∃ out outs, replacement fit h old new = .ok out ∧ Holds h out outs ∧ outs.length = io.length ∧
      outs.Pairwise (fun a b => fit b ≤ fit a) ∧ (∃ rest, (outs ++ rest).Perm (io ++ inew) ∧
        ∀ x ∈ outs, ∀ z ∈ rest, fit z ≤ fit x) ∧ IsBestOf fit io.length (io ++ inew) outs := by
  obtain ⟨out, outs, h1, h2, ⟨sorted, h3, h4⟩, -⟩ := replacement_ok fit h old new io inew ho hn
  have hlen : io.length ≤ sorted.length := by rw [h3.perm.length_eq]; simp
  refine ⟨out, outs, h1, h2, by rw [h4]; simp [hlen], ?_, ⟨sorted.drop io.length, ?_, ?_⟩, sorted, h3, h4⟩
  · rw [h4]; exact h3.desc.sublist (List.take_sublist _ _)
  · rw [h4, List.take_append_drop]; exact h3.perm
  · rw [h4]
    have hd := h3.desc
    rw [← List.take_append_drop io.length sorted, List.pairwise_append] at hd
    exact hd.2.2

/-! ### C70 -/

theorem atLeast_best (fit : List V → K) (v : K) (old new out : List (List V)) (h : IsBestOf fit old.length (old ++ new) out) :
    atLeast fit v old ≤ atLeast fit v out ∧ out.length = old.length := by
  obtain ⟨sorted, h3, rfl⟩ := h
  have hlen : old.length ≤ sorted.length := by rw [h3.perm.length_eq]; simp
  refine ⟨?_, by simp [hlen]⟩
  have hcount : atLeast fit v old ≤ sorted.countP (fun l => v ≤ fit l) := by
    rw [h3.perm.countP_eq, List.countP_append]
    exact Nat.le_add_right _ _
  have hd := h3.desc
  rw [← List.take_append_drop old.length sorted, List.pairwise_append] at hd
  rw [← List.take_append_drop old.length sorted, List.countP_append] at hcount
  unfold atLeast at hcount ⊢
  by_cases hex : ∃ z ∈ sorted.drop old.length, v ≤ fit z
  · obtain ⟨z, hz, hvz⟩ := hex
    have hall : (sorted.take old.length).countP (fun l => v ≤ fit l) = (sorted.take old.length).length := by
      rw [List.countP_eq_length]
      intro x hx
      simpa using le_trans hvz (hd.2.2 x hx z hz)
    rw [hall, List.length_take, Nat.min_eq_left hlen]
    exact List.countP_le_length
  · have hzero : (sorted.drop old.length).countP (fun l => v ≤ fit l) = 0 := by
      rw [List.countP_eq_zero]
      intro z hz hv
      exact hex ⟨z, hz, by simpa using hv⟩
    omega

theorem kthBest_of_atLeast (fit : List V → K) (l l' : List (List V)) (h : ∀ v, atLeast fit v l ≤ atLeast fit v l') (k : Nat) (x : K)
    (hx : kthBest fit l k = some x) : ∃ z, kthBest fit l' k = some z ∧ x ≤ z := by
  have hsort : ∀ (l : List K), (l.insertionSort (fun a b => b ≤ a)).Pairwise (fun a b => b ≤ a) := by
    intro l
    have : Std.Total (fun a b : K => b ≤ a) := ⟨fun a b => le_total _ _⟩
    have : IsTrans K (fun a b : K => b ≤ a) := ⟨fun a b c h1 h2 => le_trans h2 h1⟩
    exact List.pairwise_insertionSort _ _
  have hcnt : ∀ (v : K) (l : List (List V)), ((l.map fit).insertionSort (fun a b => b ≤ a)).countP (fun z => v ≤ z) = atLeast fit v l := by
    intro v l
    rw [(List.perm_insertionSort _ _).countP_eq, List.countP_map]
    rfl
  have h0 := h x
  rw [← hcnt, ← hcnt] at h0
  unfold kthBest at hx ⊢
  have hs1 := hsort (l.map fit)
  have hs2 := hsort (l'.map fit)
  generalize (l.map fit).insertionSort (fun a b => b ≤ a) = L at h0 hx hs1
  generalize (l'.map fit).insertionSort (fun a b => b ≤ a) = L' at h0 hs2 ⊢
  obtain ⟨hk, e⟩ := List.getElem?_eq_some_iff.1 hx
  have h1 : k + 1 ≤ L.countP (fun z => x ≤ z) := by
    rw [← List.take_append_drop (k + 1) L, List.countP_append]
    have : (L.take (k + 1)).countP (fun z => x ≤ z) = (L.take (k + 1)).length := by
      rw [List.countP_eq_length]
      intro z hz
      obtain ⟨i, hi, e'⟩ := List.getElem_of_mem hz
      rw [List.getElem_take] at e'
      rw [List.length_take] at hi
      have hik : i ≤ k := by omega
      rcases Nat.lt_or_eq_of_le hik with hlt | rfl
      · have := List.pairwise_iff_getElem.1 hs1 i k (by omega) hk hlt
        rw [e', e] at this
        simpa using this
      · rw [← e', e]; simp
    rw [this, List.length_take]
    omega
  have h2 : k < L'.length := by
    have : L'.countP (fun z => x ≤ z) ≤ L'.length := List.countP_le_length
    omega
  refine ⟨L'[k], by simp [h2], ?_⟩
  by_contra hlt
  rw [not_le] at hlt
  have hz : (L'.drop k).countP (fun z => x ≤ z) = 0 := by
    rw [List.countP_eq_zero]
    intro z hz hv
    obtain ⟨i, hi, e'⟩ := List.getElem_of_mem hz
    rw [List.getElem_drop] at e'
    rw [List.length_drop] at hi
    have hle : L'[k + i] ≤ L'[k] := by
      rcases Nat.eq_zero_or_pos i with rfl | hpos
      · simp
      · exact List.pairwise_iff_getElem.1 hs2 k (k + i) h2 (by omega) (by omega)
    rw [e'] at hle
    have : x ≤ z := by simpa using hv
    exact absurd (lt_of_le_of_lt hle hlt) (not_lt.2 this)
  rw [← List.take_append_drop k L', List.countP_append, hz] at h0
  have : (L'.take k).countP (fun z => x ≤ z) ≤ (L'.take k).length := List.countP_le_length
  rw [List.length_take] at this
  omega

/-- one round. -/
theorem gaRound_ok [Zero K] [One K] (rng : Rng R K V) (hfair : FairRng rng) (p : GAParams K V) (hk : 0 < p.tournamentK) {n : Nat}
    (hfs : ∀ f ∈ p.features, f < n) (P : Nat → V → Prop) (hP : ∀ i ∈ p.features, ∀ r, P i (rng.gen i r).1) (pop : List Nat)
    (h : Heap V) (inds : List (List V)) (hh : Holds h pop inds) (hn : ∀ l ∈ inds, l.length = n)
    (hPi : ∀ l ∈ inds, ∀ i x, l[i]? = some x → P i x) (r : R) :
    ∃ pop' ext r' inds', gaRound rng p pop h r = .ok (pop', h ++ ext, r') ∧ Holds (h ++ ext) pop' inds' ∧
      inds'.length = inds.length ∧ (∀ l ∈ inds', l.length = n) ∧ (∀ l ∈ inds', ∀ i x, l[i]? = some x → P i x) ∧
      ∀ v, atLeast p.fitness v inds ≤ atLeast p.fitness v inds' := by
  obtain ⟨out, outs, r1, t1, t2, t3, t4⟩ := C73_tournament rng hfair p.fitness h pop inds hh p.tournamentK hk r
  have hmem : ∀ l ∈ outs, l ∈ inds := by
    intro l hl
    obtain ⟨idx, -, ⟨i, -, hi⟩, -⟩ := forall₂_mem_right t4 l hl
    exact List.mem_of_getElem? hi
  have hp1 : PopOk n P h out := t2.popOk (fun l hl => hn l (hmem l hl)) P (fun l hl => hPi l (hmem l hl))
  obtain ⟨pop2, e2, r2, c1, c2, c3⟩ := crossPhase_ok rng p.cxProb p.crossProb (out.length - 1) 0 out h r1 hp1 (by omega)
  obtain ⟨pop3, e3, r3, m1, m2, m3⟩ := mutPhase_ok rng p.features p.mutProb p.mutExtProb hP hfs pop2.length 0 pop2 _ r2 c3 (by omega)
  obtain ⟨inew, n1, n2, n3⟩ := m3.holds
  have hold : Holds (h ++ e2 ++ e3) pop inds := by
    unfold Spec.Holds at hh ⊢
    exact hh.imp (fun _ _ h => by rw [List.append_assoc]; exact getElem?_append_heap h)
  obtain ⟨pop', outs', s1, s2, s3, -⟩ := replacement_ok p.fitness _ pop pop3 inds inew hold n1
  have hsub : ∀ l ∈ outs', l ∈ inds ++ inew := by
    obtain ⟨sorted, k1, rfl⟩ := s3
    intro l hl
    exact k1.perm.mem_iff.1 (List.mem_of_mem_take hl)
  refine ⟨pop', e2 ++ e3, r3, outs', ?_, by rw [← List.append_assoc]; exact s2, (atLeast_best _ (0 : K) _ _ _ s3).2, ?_, ?_,
    fun v => (atLeast_best _ v _ _ _ s3).1⟩
  · unfold gaRound
    simp only [t1, py_bind_ok, c1, m1, s1, py_pure]
    rw [List.append_assoc]
  · intro l hl
    rcases List.mem_append.1 (hsub l hl) with h | h
    · exact hn l h
    · exact n2 l h
  · intro l hl
    rcases List.mem_append.1 (hsub l hl) with h | h
    · exact hPi l h
    · exact n3 l h

theorem geneticAlgorithm_ok [Zero K] [One K] (rng : Rng R K V) (hfair : FairRng rng) (p : GAParams K V) (hk : 0 < p.tournamentK)
    {n : Nat} (hfs : ∀ f ∈ p.features, f < n) (P : Nat → V → Prop) (hP : ∀ i ∈ p.features, ∀ r, P i (rng.gen i r).1) (rounds : Nat) :
    ∀ (pop : List Nat) (h : Heap V) (inds : List (List V)) (r : R), Holds h pop inds → (∀ l ∈ inds, l.length = n) →
    (∀ l ∈ inds, ∀ i x, l[i]? = some x → P i x) →
    ∃ pop' ext r' inds', geneticAlgorithm rng p rounds pop h r = .ok (pop', h ++ ext, r') ∧ Holds (h ++ ext) pop' inds' ∧
      inds'.length = inds.length ∧ (∀ l ∈ inds', l.length = n) ∧ (∀ l ∈ inds', ∀ i x, l[i]? = some x → P i x) ∧
      ∀ v, atLeast p.fitness v inds ≤ atLeast p.fitness v inds' := by
  induction rounds with
  | zero =>
    intro pop h inds r hh hn hPi
    exact ⟨pop, [], r, inds, by simp [geneticAlgorithm], by simpa using hh, rfl, hn, hPi, fun v => le_refl _⟩
  | succ rounds ih =>
    intro pop h inds r hh hn hPi
    obtain ⟨pop1, e1, r1, inds1, a1, a2, a3, a4, a5, a6⟩ := gaRound_ok rng hfair p hk hfs P hP pop h inds hh hn hPi r
    obtain ⟨pop2, e2, r2, inds2, b1, b2, b3, b4, b5, b6⟩ := ih pop1 (h ++ e1) inds1 r1 a2 a4 a5
    refine ⟨pop2, e1 ++ e2, r2, inds2, ?_, by rw [← List.append_assoc]; exact b2, by rw [b3, a3], b4, b5,
      fun v => le_trans (a6 v) (b6 v)⟩
    simp only [geneticAlgorithm, a1, py_bind_ok, b1, List.append_assoc]

/-- C70: for every source of draws and every number of rounds, the algorithm succeeds, the population keeps its size, for every
fitness value at least as many individuals reach it as at the beginning, the `k`-th best fitness is at least the initial one for
every `k`; in particular the best one. -/
theorem C70_elitist [Zero K] [One K] (rng : Rng R K V) (hfair : FairRng rng) (p : GAParams K V) (hk : 0 < p.tournamentK) (n : Nat)
    (hfs : ∀ f ∈ p.features, f < n) (pop : List Nat) (h : Heap V) (inds : List (List V)) (hh : Holds h pop inds)
    (hn : ∀ l ∈ inds, l.length = n) (rounds : Nat) (r : R) :
    ∃ pop' h' r' inds', geneticAlgorithm rng p rounds pop h r = .ok (pop', h', r') ∧ Holds h' pop' inds' ∧
      inds'.length = inds.length ∧ (∀ v, atLeast p.fitness v inds ≤ atLeast p.fitness v inds') ∧
      (∀ k x, kthBest p.fitness inds k = some x → ∃ z, kthBest p.fitness inds' k = some z ∧ x ≤ z) ∧
      ∀ l ∈ inds, ∃ l' ∈ inds', p.fitness l ≤ p.fitness l' := by
  obtain ⟨pop', ext, r', inds', h1, h2, h3, -, -, h4⟩ := geneticAlgorithm_ok rng hfair p hk hfs (fun _ _ => True) (fun _ _ _ => trivial)
    rounds pop h inds r hh hn (fun _ _ _ _ _ => trivial)
  refine ⟨pop', _, r', inds', h1, h2, h3, h4, fun k x => kthBest_of_atLeast _ _ _ h4 k x, ?_⟩
  intro l hl
  have : 0 < atLeast p.fitness (p.fitness l) inds' := by
    refine lt_of_lt_of_le ?_ (h4 (p.fitness l))
    unfold atLeast
    rw [List.countP_pos_iff]
    exact ⟨l, hl, by simp⟩
  unfold atLeast at this
  rw [List.countP_pos_iff] at this
  obtain ⟨l', h5, h6⟩ := this
  exact ⟨l', h5, by simpa using h6⟩

/-- C71: gene `i` of every final individual is gene `i` of an initial one or a value of the generator of feature `i`; the
individuals keep their number of genes; and no object that existed before the call is modified (in particular not the initial
individuals). -/
theorem C71_no_invention [Zero K] [One K] (rng : Rng R K V) (hfair : FairRng rng) (p : GAParams K V) (hk : 0 < p.tournamentK) (n : Nat)
    (hfs : ∀ f ∈ p.features, f < n) (pop : List Nat) (h : Heap V) (inds : List (List V)) (hh : Holds h pop inds)
    (hn : ∀ l ∈ inds, l.length = n) (rounds : Nat) (r : R) :
    ∃ pop' h' r' inds', geneticAlgorithm rng p rounds pop h r = .ok (pop', h', r') ∧ Holds h' pop' inds' ∧
      (∀ l ∈ inds', l.length = n) ∧
      (∀ l ∈ inds', ∀ i x, l[i]? = some x →
        (∃ l₀ ∈ inds, l₀[i]? = some x) ∨ (i ∈ p.features ∧ ∃ s, (rng.gen i s).1 = x)) ∧
      ∀ (a : Nat) l, h[a]? = some l → h'[a]? = some l := by
  obtain ⟨pop', ext, r', inds', h1, h2, h3, h4, h5, -⟩ := geneticAlgorithm_ok rng hfair p hk hfs
    (fun i x => (∃ l₀ ∈ inds, l₀[i]? = some x) ∨ (i ∈ p.features ∧ ∃ s, (rng.gen i s).1 = x)) (fun i hi s => .inr ⟨hi, s, rfl⟩)
    rounds pop h inds r hh hn (fun l hl i x hx => .inl ⟨l, hl, hx⟩)
  exact ⟨pop', _, r', inds', h1, h2, h4, h5, fun a l ha => getElem?_append_heap ha⟩

/-- C71, `random_init`: the individual is a new object with the value of one call of the generator per feature, in order. -/
theorem C71_random_init (rng : Rng R K V) (features : List Nat) (h : Heap V) (r : R) :
    ∃ l r', randomInit rng features h r = (h.length, h ++ [l], r') ∧ List.Forall₂ (fun i x => ∃ s, (rng.gen i s).1 = x) features l := by
  have : ∀ (fs : List Nat) (r : R), ∃ l r', randomInitLoop rng fs r = (l, r') ∧
      List.Forall₂ (fun i x => ∃ s, (rng.gen i s).1 = x) fs l := by
    intro fs
    induction fs with
    | nil => intro r; exact ⟨[], r, rfl, .nil⟩
    | cons f fs ih =>
      intro r
      rcases hg : rng.gen f r with ⟨v, r1⟩
      obtain ⟨l, r', h1, h2⟩ := ih r1
      refine ⟨v :: l, r', by simp [randomInitLoop, hg, h1], .cons ⟨r, by rw [hg]⟩ h2⟩
  obtain ⟨l, r', h1, h2⟩ := this features r
  exact ⟨l, r', by simp [randomInit, h1], h2⟩

theorem getFeatureValues_get [Field K] (std : List K → K) (ds : List (Column K)) (i : Nat) :
    Dict.get? (getFeatureValues std ds) i = (ds[i]?).map (columnGen std) := by
  unfold getFeatureValues
  have : ∀ (l : List (Gen K)) (j : Nat), Dict.get? ((l.zipIdx j).map (fun p => (p.2, p.1))) i = if j ≤ i then l[i - j]? else none := by
    intro l
    induction l with
    | nil => intro j; simp
    | cons g l ih =>
      intro j
      rw [List.zipIdx_cons, List.map_cons, Dict.get?_cons, ih]
      by_cases e : j = i
      · subst e; simp
      · by_cases hle : j + 1 ≤ i
        · have hd : i - j = (i - (j + 1)) + 1 := by omega
          rw [if_neg e, if_pos hle, if_pos (by omega), hd]
          simp
        · simp [e, hle, show ¬ j ≤ i by omega]
  rw [this]
  simp

/-- **C100**: `get_feature_values` gives column number `i`, and no other number, a generator: for a numeric column the normal
distribution with the mean and the standard deviation of the column, for a categorical one the choice among its different values. -/
theorem C100_feature_values [Field K] [IsStrictOrderedRing K] (std : List K → K) (ds : List (Column K)) (i : Nat) :
    (∀ xs, ds[i]? = some (.numeric xs) → xs ≠ [] →
      ∃ m, Dict.get? (getFeatureValues std ds) i = some (.normal m (std xs)) ∧ m * (xs.length : K) = xs.sum) ∧
    (∀ xs, ds[i]? = some (.object xs) →
      ∃ vs : List String, Dict.get? (getFeatureValues std ds) i = some (.choice vs) ∧ vs.Nodup ∧ ∀ v, v ∈ vs ↔ v ∈ xs) ∧
    (ds.length ≤ i → Dict.get? (getFeatureValues std ds) i = none) := by
  rw [getFeatureValues_get]
  refine ⟨fun xs h hne => ⟨pdMean xs, by rw [h]; rfl, ?_⟩, fun xs h => ⟨xs.dedup, by rw [h]; rfl, List.nodup_dedup xs, fun v => List.mem_dedup⟩,
    fun h => by rw [List.getElem?_eq_none h]; rfl⟩
  have : (xs.length : K) ≠ 0 := by
    have : xs.length ≠ 0 := fun h => hne (List.length_eq_zero_iff.1 h)
    exact_mod_cast this
  rw [pdMean, div_mul_cancel₀ _ this]

example : getFeatureValues (K := ℚ) (fun _ => 2) [.numeric [1, 3, 5], .object ["a", "b", "a"]]
    = [(0, .normal 3 2), (1, .choice ["b", "a"])] := by decide +kernel

/-- C71 with the generators of `get_feature_values`: a categorical gene of a final individual is a gene of an initial individual
or a value observed in that column of the dataset, and a numeric column keeps numbers. -/
theorem C71_observed_values [Field K] (std : List K → K) (ds : List (Column K))
    (random : R → K × R) (choice : Nat → Nat → R → List Nat × R) (normal : K → K → R → K × R) (pick : Nat → R → Nat × R)
    (hpick : ∀ n r, 0 < n → (pick n r).1 < n)
    (hfair : FairRng (tableRng random choice normal pick (getFeatureValues std ds)))
    (p : GAParams K (Cell K)) (hk : 0 < p.tournamentK) (hfeat : p.features = Dict.keys (getFeatureValues std ds))
    (hne : ∀ xs, Column.object xs ∈ ds → xs ≠ [])
    (pop : List Nat) (h : Heap (Cell K)) (inds : List (List (Cell K))) (hh : Holds h pop inds)
    (hn : ∀ l ∈ inds, l.length = ds.length) (rounds : Nat) (r : R) :
    ∃ pop' h' r' inds', geneticAlgorithm (tableRng random choice normal pick (getFeatureValues std ds)) p rounds pop h r = .ok (pop', h', r') ∧
      Holds h' pop' inds' ∧ ∀ l ∈ inds', ∀ (i : Nat) x, l[i]? = some x → (∃ l₀ ∈ inds, l₀[i]? = some x) ∨
        (∃ xs s, ds[i]? = some (Column.object xs) ∧ x = Cell.str s ∧ s ∈ xs) ∨
        (∃ xs z, ds[i]? = some (Column.numeric xs) ∧ x = Cell.num z) := by
  have hkeys : ∀ i ∈ p.features, i < ds.length := by
    intro i hi
    rw [hfeat, ← Dict.get?_isSome_iff] at hi
    obtain ⟨g, hg⟩ := hi
    rw [getFeatureValues_get] at hg
    obtain ⟨c, hc, -⟩ := Option.map_eq_some_iff.1 hg
    exact (List.getElem?_eq_some_iff.1 hc).1
  obtain ⟨pop', h', r', inds', h1, h2, h3, h4, h5⟩ := C71_no_invention _ hfair p hk ds.length hkeys pop h inds hh hn rounds r
  refine ⟨pop', h', r', inds', h1, h2, ?_⟩
  intro l hl i x hx
  rcases h4 l hl i x hx with h | ⟨hi, s, hs⟩
  · exact .inl h
  · right
    have hlt := hkeys i hi
    simp only [tableRng, getFeatureValues_get, List.getElem?_eq_getElem hlt, Option.map_some] at hs
    cases hc : ds[i] with
    | numeric xs =>
      rw [hc] at hs
      simp only [columnGen, runGen] at hs
      exact .inr ⟨xs, _, by simp [hlt, hc], hs.symm⟩
    | object xs =>
      rw [hc] at hs
      simp only [columnGen, runGen] at hs
      have hxs : xs.dedup ≠ [] := by
        intro e
        have := hne xs (by rw [← hc]; exact List.getElem_mem _)
        exact this ((List.dedup_eq_nil _).1 e)
      have hp := hpick xs.dedup.length s (List.length_pos_iff.2 hxs)
      refine .inl ⟨xs, _, by simp [hlt, hc], hs.symm, ?_⟩
      rw [List.getD_eq_getElem?_getD, List.getElem?_eq_getElem hp]
      exact List.mem_dedup.1 (List.getElem_mem _)

/-! ### example -/

section
/-- a linear congruential source of draws. -/
private def exRng : Rng Nat ℚ Nat where
  random r := (((r % 10 : Nat) : ℚ) / 10, (7 * r + 3) % 101)
  choice n k r := ((List.range k).map (fun i => (r + 3 * i) % n), (7 * r + 3) % 101)
  gen i r := (100 * (i + 1) + r % 10, (7 * r + 3) % 101)

private def exGA : GAParams ℚ Nat := ⟨1/2, 7/10, 1/2, 1/2, [0, 2], 2, fun l => (l.sum : ℚ)⟩

example : FairRng exRng := by
  refine ⟨?_, ?_⟩
  · intro r
    constructor
    · simp only [exRng]; positivity
    · simp only [exRng]
      rw [div_lt_one (by norm_num)]
      exact_mod_cast Nat.mod_lt r (by norm_num)
  · intro n k r hn
    refine ⟨by simp [exRng], ?_⟩
    intro i hi
    simp only [exRng, List.mem_map] at hi
    obtain ⟨j, -, rfl⟩ := hi
    exact Nat.mod_lt _ hn

/-- three individuals, two of them the same object, two rounds. -/
example : ((geneticAlgorithm exRng exGA 2 [0, 1, 0] [[1, 2, 3], [4, 5, 6]] 5).toOption).map (fun t => (t.1, t.2.1)) =
    some ([11, 4, 7], [[1, 2, 3], [4, 5, 6], [4, 5, 6], [1, 2, 3], [1, 2, 308], [4, 5, 6], [1, 2, 3], [1, 2, 308], [1, 2, 308],
      [4, 2, 308], [1, 5, 6], [4, 2, 307]]) := by decide +kernel

example : Holds [[1, 2, 3], [4, 5, 6]] [0, 1, 0] [[1, 2, 3], [4, 5, 6], [1, 2, 3]] := .cons rfl (.cons rfl (.cons rfl .nil))
example : 0 < exGA.tournamentK ∧ ∀ f ∈ exGA.features, f < 3 := by decide
end

end Teacher
