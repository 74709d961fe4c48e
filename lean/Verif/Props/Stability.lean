import Verif.Props.TotalVote
import Mathlib.Algebra.Order.Group.MinMax

/-! C165: memberships, votes and predictions change little when the numbers of a row change little. -/

set_option linter.unusedSectionVars false

namespace Teacher.Spec
open Teacher

variable {K : Type} [Field K] [LinearOrder K]

/-- two cells of a variable: the same cell, which has a degree in every set of the variable; or two numbers at most `δ` apart, both
between the first and the last peak of a continuous variable whose peaks are at least `w` apart. -/
inductive CloseCells (w δ : K) : FVar K → Cell K → Cell K → Prop where
  | same (v : FVar K) (x : Cell K) (h : ∀ s ∈ v.sets, ∃ m, s.membership [x] = .ok [m]) : CloseCells w δ v x x
  | nums (name : String) (ok : Bool) (ps : List (String × K)) (sets : List (CSet K)) (first last : String × K) (x x' : K)
      (hgap : (ps.map Prod.snd).Pairwise (fun a b => w ≤ b - a)) (hsets : getFuzzyContinuousSets ok ps = .ok sets)
      (hfirst : ps.head? = some first) (hlast : ps.getLast? = some last) (h1 : first.2 ≤ x) (h2 : x ≤ last.2)
      (h1' : first.2 ≤ x') (h2' : x' ≤ last.2) (hd : |x - x'| ≤ δ) :
      CloseCells w δ ⟨name, sets.map .cont⟩ (.num x) (.num x')

/-- the two rows have close cells in every variable. -/
def CloseRows (w δ : K) (vars : List (FVar K)) (row row' : List (Cell K)) : Prop :=
  ∀ (i : Nat) v, vars[i]? = some v → ∃ x x', row[i]? = some x ∧ row'[i]? = some x' ∧ CloseCells w δ v x x'

end Teacher.Spec

namespace Teacher
open Spec FB

variable {C K : Type} [LinearOrder C] [Field K] [LinearOrder K] [IsStrictOrderedRing K]

/-! ### triangles -/

/-- the rising side of a triangle -/
theorem Spec.IsTriangle.left_side {a b c : K} {μ : K → K} (T : IsTriangle a b c μ) (hab : a < b) {x : K} (hx : x ≤ b) :
    μ x = max 0 ((x - a) / (b - a)) := by
  have hp : 0 < b - a := sub_pos.2 hab
  rcases hx.eq_or_lt with rfl | hx
  · rw [T.peak, div_self hp.ne', max_eq_right zero_le_one]
  · rcases le_or_gt x a with h | h
    · rw [T.left x h hx.ne, max_eq_left]
      exact div_nonpos_of_nonpos_of_nonneg (by linarith) hp.le
    · rw [T.rise x h hx, max_eq_right]
      exact div_nonneg (by linarith) hp.le

/-- the falling side of a triangle -/
theorem Spec.IsTriangle.right_side {a b c : K} {μ : K → K} (T : IsTriangle a b c μ) (hbc : b < c) {x : K} (hx : b ≤ x) :
    μ x = max 0 ((c - x) / (c - b)) := by
  have hp : 0 < c - b := sub_pos.2 hbc
  rcases hx.eq_or_lt with rfl | hx
  · rw [T.peak, div_self hp.ne', max_eq_right zero_le_one]
  · rcases le_or_gt c x with h | h
    · rw [T.right x h hx.ne', max_eq_left]
      exact div_nonpos_of_nonpos_of_nonneg (by linarith) hp.le
    · rw [T.fall x hx h, max_eq_right]
      exact div_nonneg (by linarith) hp.le

theorem abs_max_zero (u v : K) : |max 0 u - max 0 v| ≤ |u - v| := by
  have := abs_max_sub_max_le_max (0 : K) u 0 v
  simpa using this

theorem abs_div_gap {u d w : K} (hw : 0 < w) (h : w ≤ d) : |u / d| ≤ |u| / w := by
  rw [abs_div, abs_of_pos (hw.trans_le h)]
  exact div_le_div_of_nonneg_left (abs_nonneg _) hw h

/-- a triangle with sides of length at least `w` is Lipschitz with constant `1/w` where it has sides -/
theorem Spec.IsTriangle.lipschitz {a b c : K} {μ : K → K} (T : IsTriangle a b c μ) {w : K} (hw : 0 < w) (hab : a = b ∨ w ≤ b - a)
    (hbc : b = c ∨ w ≤ c - b) {x x' : K} (hxx : x ≤ x') (hl : a = b → b ≤ x) (hr : b = c → x' ≤ b) :
    |μ x - μ x'| ≤ |x - x'| / w := by
  have left : ∀ u v, u ≤ b → v ≤ b → b ≠ a → |μ u - μ v| ≤ |u - v| / w := by
    intro u v hu hv hne
    have hg : w ≤ b - a := hab.resolve_left (fun e => hne e.symm)
    have hlt : a < b := by linarith
    rw [T.left_side hlt hu, T.left_side hlt hv]
    refine (abs_max_zero _ _).trans ?_
    rw [← sub_div, sub_sub_sub_cancel_right]
    exact abs_div_gap hw hg
  have right : ∀ u v, b ≤ u → b ≤ v → b ≠ c → |μ u - μ v| ≤ |u - v| / w := by
    intro u v hu hv hne
    have hg : w ≤ c - b := hbc.resolve_left hne
    have hlt : b < c := by linarith
    rw [T.right_side hlt hu, T.right_side hlt hv]
    refine (abs_max_zero _ _).trans ?_
    rw [← sub_div]
    have : c - u - (c - v) = -(u - v) := by ring
    rw [this]
    have := abs_div_gap (u := -(u - v)) hw hg
    rwa [abs_neg] at this
  rcases le_or_gt x' b with h' | h'
  · by_cases e : a = b
    · have : x = x' := le_antisymm hxx (h'.trans (hl e))
      rw [this]; simp
    · exact left x x' (hxx.trans h') h' (fun e' => e e'.symm)
  · have hc : b ≠ c := fun e => absurd (hr e) (not_le.2 h')
    rcases le_or_gt b x with h | h
    · exact right x x' h (h.trans hxx) hc
    · have e : b ≠ a := fun e => absurd (hl e.symm) (not_le.2 h)
      have h1 := left x b h.le le_rfl e
      have h2 := right b x' le_rfl h'.le hc
      have h3 : |x - x'| / w = |x - b| / w + |b - x'| / w := by
        rw [abs_of_neg (by linarith : x - b < 0), abs_of_neg (by linarith : b - x' < 0), abs_of_nonpos (by linarith : x - x' ≤ 0), ← add_div]
        congr 1
        ring
      rw [h3]
      calc |μ x - μ x'| = |(μ x - μ b) + (μ b - μ x')| := by congr 1; ring
        _ ≤ _ := (abs_add_le _ _).trans (add_le_add h1 h2)

/-- the sides of the triangles made from peaks at least `w` apart -/
theorem tail_sides {w : K} (d₀ d₁ last : String × K) (ds : List (String × K))
    (hs : ((d₀ :: d₁ :: ds).map Prod.snd).Pairwise (fun a b => w ≤ b - a)) (hl : (d₀ :: d₁ :: ds).getLast? = some last) :
    ∀ s ∈ tailTriangles (d₀ :: d₁ :: ds), w ≤ s.b - s.a ∧ (s.b = s.c ∧ s.b = last.2 ∨ w ≤ s.c - s.b) := by
  induction ds generalizing d₀ d₁ with
  | nil =>
    intro s h
    simp only [tailTriangles_two, List.mem_singleton] at h
    subst h
    have : d₁ = last := by simpa using hl
    simp only [List.map_cons, List.map_nil, List.pairwise_cons, List.mem_singleton, forall_eq] at hs
    exact ⟨hs.1, .inl ⟨rfl, by rw [this]⟩⟩
  | cons d₂ ds ih =>
    intro s h
    rw [tailTriangles_cons] at h
    have hs' := hs
    simp only [List.map_cons] at hs ih
    rw [List.pairwise_cons] at hs
    obtain ⟨hs1, hs2⟩ := hs
    rcases List.mem_cons.1 h with rfl | h
    · exact ⟨hs1 _ (by simp), .inr ((List.pairwise_cons.1 hs2).1 _ (by simp))⟩
    · exact ih d₁ d₂ hs2 (by simpa using hl) s h

/-- close numbers have close degrees in each set -/
theorem close_degrees {w δ : K} (hw : 0 < w) (hδ : 0 ≤ δ) {v : FVar K} {x x' : Cell K} (h : CloseCells w δ v x x') :
    ∀ s ∈ v.sets, ∃ m m', s.membership [x] = .ok [m] ∧ s.membership [x'] = .ok [m'] ∧ |m - m'| ≤ δ / w := by
  have hε : 0 ≤ δ / w := div_nonneg hδ hw.le
  cases h with
  | same v x h =>
    intro s hs
    obtain ⟨m, hm⟩ := h s hs
    exact ⟨m, m, hm, hm, by simpa using hε⟩
  | nums name ok ps sets first last x x' hgap hsets hfirst hlast h1 h2 h1' h2' hd =>
    intro s hs
    obtain ⟨s, hs', rfl⟩ := List.mem_map.1 hs
    clear hs
    rename' hs' => hs
    have key : (s.a = s.b ∧ s.b = first.2 ∨ w ≤ s.b - s.a) ∧ (s.b = s.c ∧ s.b = last.2 ∨ w ≤ s.c - s.b) := by
      match ps, hgap, hsets, hfirst, hlast with
      | [q], _, hss, hf, hl =>
        cases ok with
        | false => cases hss
        | true =>
          cases hss
          simp only [List.head?_cons, Option.some.injEq] at hf
          simp only [List.getLast?_singleton, Option.some.injEq] at hl
          subst hf hl
          rw [List.mem_singleton] at hs
          subst hs
          exact ⟨.inl ⟨rfl, rfl⟩, .inl ⟨rfl, rfl⟩⟩
      | q₀ :: q₁ :: qs, hgap, hss, hf, hl =>
        cases hss
        simp only [List.head?_cons, Option.some.injEq] at hf
        subst hf
        rcases List.mem_cons.1 hs with rfl | hs
        · refine ⟨.inl ⟨rfl, rfl⟩, .inr ?_⟩
          simp only [List.map_cons] at hgap
          exact (List.pairwise_cons.1 hgap).1 _ (by simp)
        · obtain ⟨e1, e2⟩ := tail_sides _ _ last qs hgap hl s hs
          exact ⟨.inr e1, e2⟩
    obtain ⟨k1, k2⟩ := key
    have hab : s.a ≤ s.b := k1.elim (fun e => e.1.le) (fun e => by linarith)
    have hbc : s.b ≤ s.c := k2.elim (fun e => e.1.le) (fun e => by linarith)
    have T := trimfAt_isTriangle hab hbc
    have hm : ∀ z : K, (FSet.cont s).membership [.num z] = .ok [trimfAt s.a s.b s.c z] := fun z =>
      CSet.membership_nums ⟨hab, hbc⟩ [z]
    have lip : ∀ u u' : K, u ≤ u' → first.2 ≤ u → u' ≤ last.2 →
        |trimfAt s.a s.b s.c u - trimfAt s.a s.b s.c u'| ≤ |u - u'| / w := by
      intro u u' huu hu hu'
      refine T.lipschitz hw (k1.imp_left And.left) (k2.imp_left And.left) huu ?_ ?_
      · intro e
        rcases k1 with k | k
        · rw [k.2]; exact hu
        · rw [e] at k; simp only [sub_self] at k; linarith
      · intro e
        rcases k2 with k | k
        · rw [k.2]; exact hu'
        · rw [e] at k; simp only [sub_self] at k; linarith
    refine ⟨_, _, hm x, hm x', ?_⟩
    refine le_trans ?_ (div_le_div_of_nonneg_right hd hw.le)
    rcases le_total x x' with h | h
    · exact lip x x' h h1 h2'
    · rw [abs_sub_comm, abs_sub_comm x]
      exact lip x' x h h1' h2

/-- C165: a membership changes by at most `δ/w` when the number changes by at most `δ` inside the range of a variable whose peaks are at
least `w` apart. -/
theorem C165_membership (ok : Bool) (ps : List (String × K)) (sets : List (CSet K)) (first last : String × K) (w : K) (hw : 0 < w)
    (hgap : (ps.map Prod.snd).Pairwise (fun a b => w ≤ b - a)) (hsets : getFuzzyContinuousSets ok ps = .ok sets)
    (hfirst : ps.head? = some first) (hlast : ps.getLast? = some last) (x x' : K) (h1 : first.2 ≤ x) (h2 : x ≤ last.2)
    (h1' : first.2 ≤ x') (h2' : x' ≤ last.2) :
    ∀ s ∈ sets, ∃ m m', s.membership [.num x] = .ok [m] ∧ s.membership [.num x'] = .ok [m'] ∧ |m - m'| ≤ |x - x'| / w := by
  intro s hs
  exact close_degrees hw (abs_nonneg (x - x'))
    (CloseCells.nums "" ok ps sets first last x x' hgap hsets hfirst hlast h1 h2 h1' h2' le_rfl) (.cont s) (List.mem_map_of_mem hs)

/-! ### votes -/

/-- the same distributions with degrees at most `ε` apart -/
def CloseLeaves (ε : K) : List (Dict C K × K) → List (Dict C K × K) → Prop :=
  List.Forall₂ (fun q q' => q.1 = q'.1 ∧ |q.2 - q'.2| ≤ ε)

theorem filter_key {d : Dict C K} (h : (d.map Prod.fst).Nodup) (c : C) :
    d.filter (fun kv => kv.1 = c) = [] ∨ ∃ kv ∈ d, d.filter (fun kv => kv.1 = c) = [kv] := by
  induction d with
  | nil => exact .inl rfl
  | cons a d ih =>
    rw [List.map_cons, List.nodup_cons] at h
    by_cases e : a.1 = c
    · right
      refine ⟨a, by simp, ?_⟩
      have : d.filter (fun kv => kv.1 = c) = [] := by
        rw [List.filter_eq_nil_iff]
        intro kv hkv
        simp only [decide_eq_true_eq]
        intro e'
        exact h.1 (by rw [e, ← e']; exact List.mem_map_of_mem hkv)
      simp [e, this]
    · simp only [List.filter_cons, e, decide_false, Bool.false_eq_true, if_false]
      rcases ih h.2 with h1 | ⟨kv, h1, h2⟩
      · exact .inl h1
      · exact .inr ⟨kv, by simp [h1], h2⟩

theorem weighted_diff {w a b ε : K} (hw : 0 ≤ w ∧ w ≤ 1) (h : |a - b| ≤ ε) : |w * a - w * b| ≤ ε := by
  rw [← mul_sub, abs_mul, abs_of_nonneg hw.1]
  exact (mul_le_of_le_one_left (abs_nonneg _) hw.2).trans h

/-- votes of close leaves are close -/
theorem votes_close {ε : K} (hε : 0 ≤ ε) {L L' : List (Dict C K × K)} (h : CloseLeaves ε L L')
    (hw : ∀ q ∈ L, (q.1.map Prod.fst).Nodup ∧ ∀ kv ∈ q.1, 0 ≤ kv.2 ∧ kv.2 ≤ 1) (c : C) :
    |vote .agg L c - vote .agg L' c| ≤ L.length * ε ∧ |vote .max L c - vote .max L' c| ≤ ε := by
  unfold CloseLeaves at h
  induction h with
  | nil => simpa [vote, contributions] using hε
  | @cons q q' L L' hq _ ih =>
    obtain ⟨i1, i2⟩ := ih (fun q hq => hw q (by simp [hq]))
    obtain ⟨n1, n2⟩ := hw q (by simp)
    obtain ⟨e, hd⟩ := hq
    simp only [vote] at i1 i2 ⊢
    have hc : ∀ (q : Dict C K × K) L, contributions (q :: L) c =
        (q.1.filter (fun kv => kv.1 = c)).map (fun kv => kv.2 * q.2) ++ contributions L c := by
      intro q L; rfl
    rw [hc, hc, ← e]
    rw [List.length_cons]
    push_cast
    rcases filter_key n1 c with f | ⟨kv, hkv, f⟩
    · rw [f]
      simp only [List.map_nil, List.nil_append]
      exact ⟨by linarith, i2⟩
    · rw [f]
      simp only [List.map_cons, List.map_nil, List.singleton_append, List.sum_cons, List.foldr_cons]
      have hdd := weighted_diff (n2 kv hkv) hd
      constructor
      · rw [add_sub_add_comm]
        refine (abs_add_le _ _).trans ?_
        linarith
      · exact (abs_max_sub_max_le_max _ _ _ _).trans (max_le hdd i2)

/-- the bound on the change of the votes for `n` leaves -/
def voteBound (v : Voting) (n : Nat) (ε : K) : K :=
  match v with
  | .agg => n * ε
  | .max => ε

theorem winner_stable {ε : K} (hε : 0 ≤ ε) {L L' : List (Dict C K × K)} (h : CloseLeaves ε L L')
    (hw : ∀ q ∈ L, (q.1.map Prod.fst).Nodup ∧ ∀ kv ∈ q.1, 0 ≤ kv.2 ∧ kv.2 ≤ 1) (v : Voting) (c : C) (hc : ∃ q ∈ L, c ∈ q.1.map Prod.fst)
    (hm : ∀ c', c' ≠ c → vote v L c' + 2 * voteBound v L.length ε < vote v L c) : IsWinner v L' c := by
  have hb : ∀ c, |vote v L c - vote v L' c| ≤ voteBound v L.length ε := by
    intro c
    have := votes_close hε h hw c
    cases v
    · exact this.1
    · exact this.2
  have hlt : ∀ c', c' ≠ c → vote v L' c' < vote v L' c := by
    intro c' hne
    have h1 := abs_le.1 (hb c)
    have h2 := abs_le.1 (hb c')
    have h3 := hm c' hne
    linarith [h1.1, h1.2, h2.1, h2.2]
  have hk : L'.flatMap (fun q => q.1.map Prod.fst) = L.flatMap (fun q => q.1.map Prod.fst) := by
    clear hb hlt hm hc hw
    unfold CloseLeaves at h
    induction h with
    | nil => rfl
    | cons hq _ ih => rw [List.flatMap_cons, List.flatMap_cons, ih, hq.1]
  obtain ⟨q, hq, hcq⟩ := hc
  have hmem : c ∈ L'.flatMap (fun q => q.1.map Prod.fst) := by rw [hk]; exact List.mem_flatMap.2 ⟨q, hq, hcq⟩
  obtain ⟨pre, post, he, hnot⟩ := List.eq_append_cons_of_mem hmem
  refine ⟨pre, post, he, fun c' hc' => hlt c' (fun e => hnot (e ▸ hc')), fun c' hc' => ?_⟩
  by_cases e : c' = c
  · rw [e]
  · exact (hlt c' e).le

theorem foldl_min_close {ε : K} {ms ms' : List K} (h : List.Forall₂ (fun m m' => |m - m'| ≤ ε) ms ms') :
    ∀ a a' : K, |a - a'| ≤ ε → |ms.foldl min a - ms'.foldl min a'| ≤ ε := by
  induction h with
  | nil => intro a a' h; exact h
  | cons hm _ ih =>
    intro a a' h
    rw [List.foldl_cons, List.foldl_cons]
    exact ih _ _ ((abs_min_sub_min_le_max _ _ _ _).trans (max_le h hm))

/-- two rows with the same paths, whose degrees in the tests are close, have close leaves -/
theorem forall₂_join {α β γ : Type} {R : α → β → Prop} {S : α → γ → Prop} {Q : β → γ → Prop} {l : List α} {l1 : List β} {l2 : List γ}
    (h1 : List.Forall₂ R l l1) (h2 : List.Forall₂ S l l2) (h : ∀ a ∈ l, ∀ b c, R a b → S a c → Q b c) : List.Forall₂ Q l1 l2 := by
  induction h1 generalizing l2 with
  | nil => cases h2; exact .nil
  | cons ha _ ih =>
    cases h2 with
    | cons hb h2 => exact .cons (h _ (by simp) _ _ ha hb) (ih h2 (fun a ha => h a (by simp [ha])))

theorem Spec.CloseRows.wellTyped {w δ : K} (hw : 0 < w) (hδ : 0 ≤ δ) {vars : List (FVar K)} {row row' : List (Cell K)}
    (h : CloseRows w δ vars row row') : WellTyped vars row ∧ WellTyped vars row' := by
  constructor
  · intro i v hv
    obtain ⟨x, x', hx, -, hc⟩ := h i v hv
    refine ⟨x, hx, fun s hs => ?_⟩
    obtain ⟨m, m', h1, -⟩ := close_degrees hw hδ hc s hs
    exact ⟨m, h1⟩
  · intro i v hv
    obtain ⟨x, x', -, hx', hc⟩ := h i v hv
    refine ⟨x', hx', fun s hs => ?_⟩
    obtain ⟨m, m', -, h1, -⟩ := close_degrees hw hδ hc s hs
    exact ⟨m', h1⟩

theorem testDegree_close {w δ : K} (hw : 0 < w) (hδ : 0 ≤ δ) {vars : List (FVar K)} {row row' : List (Cell K)}
    (h : CloseRows w δ vars row row') {test : FTest K} (ht : vars[test.att]? = some test.var) {m m' : K}
    (hm : TestDegree row test m) (hm' : TestDegree row' test m') : |m - m'| ≤ δ / w := by
  obtain ⟨x, x', hx, hx', hc⟩ := h _ _ ht
  obtain ⟨fs, z, h1, h2, h3⟩ := hm
  obtain ⟨fs', z', h1', h2', h3'⟩ := hm'
  rw [h1] at h1'
  cases h1'
  rw [hx] at h2
  cases h2
  rw [hx'] at h2'
  cases h2'
  obtain ⟨k, k', e1, e2, e3⟩ := close_degrees hw hδ hc fs (List.mem_of_getElem? h1)
  rw [h3] at e1
  cases e1
  rw [h3'] at e2
  cases e2
  exact e3

/-- C165 for FDT: the votes of two close rows are close, and a class that wins by a margin for the first row wins for the second. -/
theorem C165_fdt (ent : List K → List C → K) (ord : List String → List String) (p : FDTParams K)
    (hs : ProperSets p.vars) (X : List (List (Cell K))) (y : List C) (t : FNode C K)
    (h : fdtFit ent ord p fdtNew X y = .ok t) (w δ : K) (hw : 0 < w) (hδ : 0 ≤ δ) (row row' : List (Cell K)) (hne : row' ≠ [])
    (hrow : CloseRows w δ p.vars row row') :
    ∃ L L', RowLeaves min row t L ∧ RowLeaves min row' t L' ∧ L.length = (leafPaths t).length ∧
      (∀ c, |vote .agg L c - vote .agg L' c| ≤ (leafPaths t).length * (δ / w)) ∧
      (∀ c, |vote .max L c - vote .max L' c| ≤ δ / w) ∧
      (∀ c ∈ y, (∀ c', c' ≠ c → vote .agg L c' + 2 * ((leafPaths t).length * (δ / w)) < vote .agg L c) →
        fdtPredict min .agg t [row'] = .ok [[c]]) ∧
      ∀ c ∈ y, (∀ c', c' ≠ c → vote .max L c' + 2 * (δ / w) < vote .max L c) → fdtPredict min .max t [row'] = .ok [[c]] := by
  have hn : ∀ v ∈ p.vars, (v.sets.map FSet.name).Nodup := fun v hv => (hs v hv).2
  have hε : 0 ≤ δ / w := div_nonneg hδ hw.le
  obtain ⟨hwt, hwt'⟩ := hrow.wellTyped hw hδ
  obtain ⟨L, hL⟩ := fitted_rowLeaves hn h min row hwt
  obtain ⟨L', hL'⟩ := fitted_rowLeaves hn h min row' hwt'
  have hclose : CloseLeaves (δ / w) L L' := by
    refine forall₂_join hL hL' ?_
    rintro q hq b c ⟨hb, ms, hms, hbe⟩ ⟨hc, ms', hms', hce⟩
    rw [hb] at hc
    refine ⟨Option.some.inj hc, ?_⟩
    rw [hbe, hce]
    refine foldl_min_close (forall₂_join hms hms' ?_) 1 1 (by simpa using hε)
    intro test ht m m' hm hm'
    exact testDegree_close hw hδ hrow (fitted_tests hn h q hq test ht).2 hm hm'
  have hwts : ∀ q ∈ L, (q.1.map Prod.fst).Nodup ∧ (∀ kv ∈ q.1, 0 ≤ kv.2 ∧ kv.2 ≤ 1) ∧ ∀ c, c ∈ q.1.map Prod.fst ↔ c ∈ y := by
    intro q hq
    obtain ⟨pth, hp, h1, -⟩ := forall₂_mem_right hL q hq
    obtain ⟨cv, h2, h3, h4, h5, h6⟩ := C30_leaf_distributions ent ord p X y t h pth hp
    rw [h1] at h2
    cases h2
    exact ⟨h3.imp (fun h => h.ne), h5, h4⟩
  have hw2 : ∀ q ∈ L, (q.1.map Prod.fst).Nodup ∧ ∀ kv ∈ q.1, (0 : K) ≤ kv.2 ∧ kv.2 ≤ 1 := fun q hq => ⟨(hwts q hq).1, (hwts q hq).2.1⟩
  have hlen : L.length = (leafPaths t).length := hL.length_eq.symm
  have hcl : ∀ c ∈ y, ∃ q ∈ L, c ∈ q.1.map Prod.fst := by
    intro c hc
    obtain ⟨q0, hq0⟩ := Branching.exists_leaf t (fitted_branching hs h)
    obtain ⟨q, hq, -⟩ := forall₂_mem_left hL q0 hq0
    exact ⟨q, hq, ((hwts q hq).2.2 c).2 hc⟩
  refine ⟨L, L', hL, hL', hlen, fun c => ?_, fun c => (votes_close hε hclose hw2 c).2, ?_, ?_⟩
  · rw [← hlen]; exact (votes_close hε hclose hw2 c).1
  · intro c hc hm
    refine (C27_predicts min .agg t row' hne (fitted_branching hs h) L' hL').1 c ?_
    refine winner_stable hε hclose hw2 .agg c (hcl c hc) ?_
    rw [hlen]
    exact hm
  · intro c hc hm
    refine (C27_predicts min .max t row' hne (fitted_branching hs h) L' hL').1 c ?_
    exact winner_stable hε hclose hw2 .max c (hcl c hc) hm

theorem sum_close {ε : K} {ms ms' : List K} (h : List.Forall₂ (fun m m' => |m - m'| ≤ ε) ms ms') : |ms.sum - ms'.sum| ≤ ms.length * ε := by
  induction h with
  | nil => simp
  | cons hm _ ih =>
    rw [List.sum_cons, List.sum_cons, add_sub_add_comm, List.length_cons]
    push_cast
    refine (abs_add_le _ _).trans ?_
    linarith

section
variable {ent : List K → List C → K} {p : FDTParams K} {X : List (List (Cell K))} {y : List C} {t : BNode C K}

/-- a test lists each set of its variable at most once -/
theorem bfitted_idxs [NanSort K] (hn : ∀ v ∈ p.vars, (v.sets.map FSet.name).Nodup) (h : fbdtFit ent p fbdtNew X y = .ok t) :
    ∀ q ∈ bLeafPaths t, ∀ test ∈ q.1, test.idxs.length ≤ test.var.sets.length := by
  intro q hq test ht
  have hnd : test.idxs.Nodup := by
    have := (bfitted_chain hn h q hq).1 test ht
    unfold bClauseOf at this
    exact List.Nodup.of_map _ this
  have := (List.subperm_of_subset hnd (l₂ := List.range test.var.sets.length) (by
    intro i hi
    exact List.mem_range.2 ((bfitted_tests h q hq test ht).2.2 i hi))).length_le
  simpa using this

end

/-- C165 for the binary tree: a test joins several sets, so its degree changes by at most their number times `δ/w`; `k` bounds the number of
sets of a variable. -/
theorem C165_fbdt [NanSort K] (ent : List K → List C → K) (p : FDTParams K) (hn : ∀ v ∈ p.vars, (v.sets.map FSet.name).Nodup)
    (X : List (List (Cell K))) (y : List C) (t : BNode C K)
    (h : fbdtFit ent p fbdtNew X y = .ok t) (k : Nat) (hk : ∀ v ∈ p.vars, v.sets.length ≤ k)
    (w δ : K) (hw : 0 < w) (hδ : 0 ≤ δ) (row row' : List (Cell K)) (hne : row' ≠ [])
    (hrow : CloseRows w δ p.vars row row') :
    ∃ L L', BRowLeaves min row t L ∧ BRowLeaves min row' t L' ∧ L.length = (bLeafPaths t).length ∧
      (∀ c, |vote .agg L c - vote .agg L' c| ≤ (bLeafPaths t).length * (k * (δ / w))) ∧
      (∀ c, |vote .max L c - vote .max L' c| ≤ k * (δ / w)) ∧
      (∀ c ∈ y, (∀ c', c' ≠ c → vote .agg L c' + 2 * ((bLeafPaths t).length * (k * (δ / w))) < vote .agg L c) →
        fbdtPredict min .agg t [row'] = .ok [[c]]) ∧
      ∀ c ∈ y, (∀ c', c' ≠ c → vote .max L c' + 2 * (k * (δ / w)) < vote .max L c) → fbdtPredict min .max t [row'] = .ok [[c]] := by
  have hε : 0 ≤ δ / w := div_nonneg hδ hw.le
  have hkε : 0 ≤ k * (δ / w) := mul_nonneg (Nat.cast_nonneg k) hε
  obtain ⟨hwt, hwt'⟩ := hrow.wellTyped hw hδ
  obtain ⟨L, hL⟩ := bfitted_rowLeaves h min row hwt
  obtain ⟨L', hL'⟩ := bfitted_rowLeaves h min row' hwt'
  have hclose : CloseLeaves (k * (δ / w)) L L' := by
    refine forall₂_join hL hL' ?_
    rintro q hq b c ⟨hb, ms, hms, hbe⟩ ⟨hc, ms', hms', hce⟩
    rw [hb] at hc
    refine ⟨Option.some.inj hc, ?_⟩
    rw [hbe, hce]
    refine foldl_min_close (forall₂_join hms hms' ?_) 1 1 (by simpa using hkε)
    rintro test ht m m' ⟨ds, hds, rfl⟩ ⟨ds', hds', rfl⟩
    obtain ⟨h1, -, -⟩ := bfitted_tests h q hq test ht
    have hd := sum_close (forall₂_join (Q := fun m m' => |m - m'| ≤ δ / w) hds hds' (fun i _ m m' hm hm' =>
      testDegree_close hw hδ hrow (test := ⟨test.var, test.att, i⟩) h1 hm hm'))
    refine hd.trans (mul_le_mul_of_nonneg_right ?_ hε)
    rw [← hds.length_eq]
    exact_mod_cast (bfitted_idxs hn h q hq test ht).trans (hk _ (List.mem_of_getElem? h1))
  have hwts : ∀ q ∈ L, (q.1.map Prod.fst).Nodup ∧ (∀ kv ∈ q.1, 0 ≤ kv.2 ∧ kv.2 ≤ 1) ∧ ∀ c, c ∈ q.1.map Prod.fst ↔ c ∈ y := by
    intro q hq
    obtain ⟨pth, hp, h1, -⟩ := forall₂_mem_right hL q hq
    obtain ⟨cv, h2, h3, h4, h5, h6⟩ := C38_leaf_distributions ent p X y t h pth hp
    rw [h1] at h2
    cases h2
    exact ⟨h3.imp (fun h => h.ne), h5, h4⟩
  have hw2 : ∀ q ∈ L, (q.1.map Prod.fst).Nodup ∧ ∀ kv ∈ q.1, (0 : K) ≤ kv.2 ∧ kv.2 ≤ 1 := fun q hq => ⟨(hwts q hq).1, (hwts q hq).2.1⟩
  have hlen : L.length = (bLeafPaths t).length := hL.length_eq.symm
  have hcl : ∀ c ∈ y, ∃ q ∈ L, c ∈ q.1.map Prod.fst := by
    intro c hc
    obtain ⟨q0, hq0⟩ := BBranching.exists_leaf t (bfitted_branching h)
    obtain ⟨q, hq, -⟩ := forall₂_mem_left hL q0 hq0
    exact ⟨q, hq, ((hwts q hq).2.2 c).2 hc⟩
  refine ⟨L, L', hL, hL', hlen, fun c => ?_, fun c => (votes_close hkε hclose hw2 c).2, ?_, ?_⟩
  · rw [← hlen]; exact (votes_close hkε hclose hw2 c).1
  · intro c hc hm
    refine (C27_fbdt_predicts min .agg t row' hne (bfitted_branching h) L' hL').1 c ?_
    refine winner_stable hkε hclose hw2 .agg c (hcl c hc) ?_
    rw [hlen]
    exact hm
  · intro c hc hm
    refine (C27_fbdt_predicts min .max t row' hne (bfitted_branching h) L' hL').1 c ?_
    exact winner_stable hkε hclose hw2 .max c (hcl c hc) hm

/-! ### rules -/

/-- C165 for rules: if two instances give degrees at most `ε` apart to the conditions of a rule, its matchings are at most `ε` apart. -/
theorem C165_rule (r : Rule String C K) (inst inst' : Inst K) (ε : K)
    (h : ∀ cl ∈ r.antecedent, ∃ x x', HasDegree inst cl.1 cl.2 x ∧ HasDegree inst' cl.1 cl.2 x' ∧ |x - x'| ≤ ε) (hne : r.antecedent ≠ []) :
    ∃ m m', r.matching inst = .ok m ∧ r.matching inst' = .ok m' ∧ |m - m'| ≤ ε := by
  obtain ⟨ms, hms⟩ := forall₂_of_forall_exists (l := r.antecedent)
    (R := fun cl (q : K × K) => HasDegree inst cl.1 cl.2 q.1 ∧ HasDegree inst' cl.1 cl.2 q.2 ∧ |q.1 - q.2| ≤ ε)
    (fun cl hcl => by obtain ⟨x, x', h1⟩ := h cl hcl; exact ⟨(x, x'), h1⟩)
  have h1 : List.Forall₂ (fun p x => HasDegree inst p.1 p.2 x) r.antecedent (ms.map Prod.fst) := by
    rw [List.forall₂_map_right_iff]; exact hms.imp (fun _ _ h => h.1)
  have h2 : List.Forall₂ (fun p x => HasDegree inst' p.1 p.2 x) r.antecedent (ms.map Prod.snd) := by
    rw [List.forall₂_map_right_iff]; exact hms.imp (fun _ _ h => h.2.1)
  have h3 : ∀ q ∈ ms, |q.1 - q.2| ≤ ε := fun q hq => by
    obtain ⟨_, -, hq⟩ := forall₂_mem_right hms q hq
    exact hq.2.2
  rw [matching_of_known r inst _ h1, matching_of_known r inst' _ h2]
  cases ms with
  | nil => exact absurd (List.length_eq_zero_iff.1 hms.length_eq) hne
  | cons q ms =>
    refine ⟨_, _, rfl, rfl, ?_⟩
    refine foldl_min_close ?_ _ _ (h3 q (by simp))
    rw [List.forall₂_map_left_iff, List.forall₂_map_right_iff, List.forall₂_same]
    exact fun q hq => h3 q (by simp [hq])

/-! ### examples -/

/-- inside the range of peaks 0, 1 and 3 the degree of 5/2 and of 51/20 in the middle set differ by 1/40; the bound is 1/20 (`w = 1`). -/
example : getFuzzyContinuousSets true [("0", (0 : ℚ)), ("1", 1), ("3", 3)] = .ok
      [⟨"0", 0, 0, 1, false⟩, ⟨"1", 0, 1, 3, false⟩, ⟨"3", 1, 3, 3, false⟩] ∧
    ([("0", (0 : ℚ)), ("1", 1), ("3", 3)].map Prod.snd).Pairwise (fun a b => 1 ≤ b - a) ∧
    (⟨"1", 0, 1, 3, false⟩ : CSet ℚ).membership [.num (5 / 2)] = .ok [1 / 4] ∧
    (⟨"1", 0, 1, 3, false⟩ : CSet ℚ).membership [.num (51 / 20)] = .ok [9 / 40] := by decide +kernel

/-- The range matters: left of the first peak the degree jumps from 1 to 0 (the first set is a half triangle), so C165 fails for every
bound there. -/
theorem C165_outside_false (ε : ℚ) (hε : 0 < ε) :
    (⟨"0", 0, 0, 1, false⟩ : CSet ℚ).membership [.num 0] = .ok [1] ∧ (⟨"0", 0, 0, 1, false⟩ : CSet ℚ).membership [.num (-ε)] = .ok [0] := by
  have h : (0 : ℚ) ≤ 0 ∧ (0 : ℚ) ≤ 1 := by norm_num
  refine ⟨by decide +kernel, ?_⟩
  have := CSet.membership_nums (s := (⟨"0", 0, 0, 1, false⟩ : CSet ℚ)) h [-ε]
  simp only [List.map_cons, List.map_nil] at this
  rw [this, (trimfAt_isTriangle h.1 h.2).left (-ε) (by linarith) (by linarith)]

theorem exRow_close : CloseRows 1 (1 / 20) exParams.vars [.num (5 / 2), .str "f"] [.num (51 / 20), .str "f"] := by
  intro i v hv
  match i, hv with
  | 0, hv =>
    simp only [exParams, List.getElem?_cons_zero, Option.some.injEq] at hv
    subst hv
    exact ⟨_, _, rfl, rfl, .nums "age" true [("0", 0), ("1", 1), ("3", 3)] _ ("0", 0) ("3", 3) _ _ (by decide +kernel) rfl rfl rfl
      (by norm_num) (by norm_num) (by norm_num) (by norm_num) (by decide +kernel)⟩
  | 1, hv =>
    simp only [exParams, List.getElem?_cons_zero, List.getElem?_cons_succ, Option.some.injEq] at hv
    subst hv
    refine ⟨_, _, rfl, rfl, .same _ _ ?_⟩
    intro s hs
    simp only [List.mem_cons, List.not_mem_nil, or_false] at hs
    rcases hs with rfl | rfl
    · exact ⟨0, by decide +kernel⟩
    · exact ⟨1, by decide +kernel⟩

/-- the fitted example: for `(5/2, "f")` class 1 has the vote 1 and class 0 the vote 0, so C165 shows that it is also predicted for
`(51/20, "f")`: `2 · 4 · (1/20) / 1 < 1`. -/
example : ∃ t, exFit = .ok t ∧ fdtPredict min .agg t [[.num (51 / 20), .str "f"]] = .ok [[1]] := by
  have hp : ProperSets exParams.vars := by unfold ProperSets; decide
  have h2 : exFit.toOption.map leafPaths = some
      [([⟨exParams.vars[0], 0, 0⟩], some [(0, 1), (1, 0)]), ([⟨exParams.vars[0], 0, 1⟩, ⟨exParams.vars[1], 1, 0⟩], some [(0, 1), (1, 0)]),
        ([⟨exParams.vars[0], 0, 1⟩, ⟨exParams.vars[1], 1, 1⟩], some [(0, 0), (1, 1)]),
        ([⟨exParams.vars[0], 0, 2⟩], some [(0, 0), (1, 1)])] := by decide +kernel
  cases e : exFit with
  | error _ => rw [e] at h2; simp [Except.toOption] at h2
  | ok t =>
    rw [e] at h2
    simp only [Except.toOption, Option.map_some, Option.some.injEq] at h2
    refine ⟨t, rfl, ?_⟩
    obtain ⟨L, L', hL, -, hlen, -, -, hagg, -⟩ := C165_fdt exEnt _ exParams hp _ _ t e 1 (1 / 20) (by norm_num) (by norm_num) _ _
      (by simp) exRow_close
    have hL2 : RowLeaves min [.num (5 / 2), .str "f"] t
        [([(0, 1), (1, 0)], 0), ([(0, 1), (1, 0)], 0), ([(0, 0), (1, 1)], 1 / 4), ([(0, 0), (1, 1)], 3 / 4)] := by
      unfold RowLeaves
      rw [h2]
      have d0 : TestDegree (K := ℚ) [.num (5 / 2), .str "f"] ⟨exParams.vars[0], 0, 0⟩ 0 := ⟨_, _, rfl, rfl, by decide +kernel⟩
      have d1 : TestDegree (K := ℚ) [.num (5 / 2), .str "f"] ⟨exParams.vars[0], 0, 1⟩ (1 / 4) := ⟨_, _, rfl, rfl, by decide +kernel⟩
      have d2 : TestDegree (K := ℚ) [.num (5 / 2), .str "f"] ⟨exParams.vars[0], 0, 2⟩ (3 / 4) := ⟨_, _, rfl, rfl, by decide +kernel⟩
      have s0 : TestDegree (K := ℚ) [.num (5 / 2), .str "f"] ⟨exParams.vars[1], 1, 0⟩ 0 := ⟨_, _, rfl, rfl, by decide +kernel⟩
      have s1 : TestDegree (K := ℚ) [.num (5 / 2), .str "f"] ⟨exParams.vars[1], 1, 1⟩ 1 := ⟨_, _, rfl, rfl, by decide +kernel⟩
      exact .cons ⟨rfl, _, .cons d0 .nil, by decide +kernel⟩ (.cons ⟨rfl, _, .cons d1 (.cons s0 .nil), by decide +kernel⟩
        (.cons ⟨rfl, _, .cons d1 (.cons s1 .nil), by decide +kernel⟩ (.cons ⟨rfl, _, .cons d2 .nil, by decide +kernel⟩ .nil)))
    have := hL.unique hL2
    subst this
    refine hagg 1 (by decide +kernel) ?_
    intro c' hc'
    rw [← hlen]
    by_cases e0 : c' = 0
    · subst e0; decide +kernel
    · have : vote .agg [([(0, 1), (1, 0)], (0 : ℚ)), ([(0, 1), (1, 0)], 0), ([(0, 0), (1, 1)], 1 / 4), ([(0, 0), (1, 1)], 3 / 4)] c' = 0 := by
        simp [vote, contributions, Ne.symm e0, Ne.symm hc']
      rw [this]
      decide +kernel

end Teacher
