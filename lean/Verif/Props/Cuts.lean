import Verif.Props.Discretize

/-! # C133: where the entropy discretisation cuts -/

set_option linter.unusedSectionVars false

namespace Teacher
open Spec

variable {C K : Type} [Field K] [LinearOrder K] [IsStrictOrderedRing K] [DecidableEq C]

namespace Spec

/-- Specification: the degrees of the values `v` in the two sets of the interval `[lo, hi]`. -/
def twoSets (lo hi : K) (v : List K) : List (List K) :=
  [v.map (fun x => (hi - x) / (hi - lo)), v.map (fun x => (x - lo) / (hi - lo))]

/-- Specification: the degrees in the three sets with peaks `lo`, `p` and `hi`. -/
def threeSets (lo p hi : K) (v : List K) : List (List K) :=
  [v.map (fun x => if x ≤ p then (p - x) / (p - lo) else 0),
   v.map (fun x => if x ≤ p then (x - lo) / (p - lo) else (hi - x) / (hi - p)),
   v.map (fun x => if x ≤ p then 0 else (x - p) / (hi - p))]

/-- Specification: the entropy of a fuzzy partition, the mean of the entropies of its sets weighted by their cardinalities. -/
def partitionEntropy (ent : List K → List C → K) (sets : List (List K)) (y : List C) : K :=
  (sets.map (fun t => t.sum * ent t y)).sum / (y.length : K)

/-- Specification: the gain of cutting `[lo, hi]` at `p`. -/
def cutGain (ent : List K → List C → K) (lo hi : K) (v : List K) (y : List C) (p : K) : K :=
  partitionEntropy ent (twoSets lo hi v) y - partitionEntropy ent (threeSets lo p hi v) y

/-- Specification: the number of classes of the rows with a degree above 0. -/
def classesIn (t : List K) (y : List C) : Nat := (((t.zip y).filter (fun q => 0 < q.1)).map Prod.snd).toFinset.card

/-- Specification: the least gain a cut at `p` must have: the given threshold, or the one of the minimum description length principle,
`(log(n-1) + log(3^k - 2) - (k·E - Σ k_s·E_s)) / n` with `k` classes, `E` the entropy before the cut, and for each of the three sets `s`
its classes `k_s` and its entropy `E_s`. -/
def cutThreshold (lg : K → K) (ent : List K → List C → K) (th : Option K) (lo hi : K) (v : List K) (y : List C) (p : K) : K :=
  match th with
  | some t => t
  | none => (lg ((v.length : K) - 1) + (lg (3 ^ y.toFinset.card - 2) - ((y.toFinset.card : K) * partitionEntropy ent (twoSets lo hi v) y -
      ((threeSets lo p hi v).map (fun t => (classesIn t y : K) * ent t y)).sum))) / (v.length : K)

/-- Specification: `p` is the best cut of `[lo, hi]`: a value strictly inside whose partition has the least entropy, the first of them. -/
def BestCut (ent : List K → List C → K) (lo hi : K) (v : List K) (y : List C) (p : K) : Prop :=
  (p ∈ v ∧ lo < p ∧ p < hi) ∧ ∀ q ∈ v, lo < q → q < hi →
    partitionEntropy ent (threeSets lo p hi v) y ≤ partitionEntropy ent (threeSets lo q hi v) y ∧
    (partitionEntropy ent (threeSets lo q hi v) y = partitionEntropy ent (threeSets lo p hi v) y → p ≤ q)

/-- Specification: `hi` is the largest of the values. -/
def IsTop (v : List K) (hi : K) : Prop := hi ∈ v ∧ ∀ x ∈ v, x ≤ hi

/-- Specification of the points of the entropy discretisation of the values `v` with classes `y` from the point `lo` on, at a given depth
(`ent false` is the entropy at depth 0, `ent true` the one of the recursive calls):
no points for a part with less than two values; the whole interval, if the depth is the greatest one, or there is no value inside, or the
best cut does not reach the threshold; otherwise the points of the values up to the best cut and those of the values after it. -/
inductive Discretized (lg : K → K) (ent : Bool → List K → List C → K) (th : Option K) (maxDepth : Nat) :
    Nat → List K → List C → K → List K → Prop
  | few (depth : Nat) (v : List K) (y : List C) (lo : K) (hd : 0 < depth) (hv : v.length < 2) :
      Discretized lg ent th maxDepth depth v y lo []
  | whole (depth : Nat) (v : List K) (y : List C) (lo hi : K) (hv : depth = 0 ∨ 2 ≤ v.length) (htop : IsTop v hi)
      (h : (0 < maxDepth ∧ maxDepth ≤ depth) ∨ (∀ p ∈ v, ¬ (lo < p ∧ p < hi)) ∨ ∃ p, BestCut (ent (depth != 0)) lo hi v y p ∧
        cutGain (ent (depth != 0)) lo hi v y p < cutThreshold lg (ent (depth != 0)) th lo hi v y p) :
      Discretized lg ent th maxDepth depth v y lo [lo, hi]
  | cut (depth : Nat) (v : List K) (y : List C) (lo hi p : K) (l r pts : List K) (hv : depth = 0 ∨ 2 ≤ v.length) (htop : IsTop v hi)
      (hd : maxDepth = 0 ∨ depth < maxDepth) (hp : BestCut (ent (depth != 0)) lo hi v y p)
      (hg : cutThreshold lg (ent (depth != 0)) th lo hi v y p ≤ cutGain (ent (depth != 0)) lo hi v y p)
      (hl : Discretized lg ent th maxDepth (depth + 1) (((v.zip y).filter (fun q => q.1 ≤ p)).map Prod.fst)
        (((v.zip y).filter (fun q => q.1 ≤ p)).map Prod.snd) lo l)
      (hr : Discretized lg ent th maxDepth (depth + 1) (((v.zip y).filter (fun q => p < q.1)).map Prod.fst)
        (((v.zip y).filter (fun q => p < q.1)).map Prod.snd) p r)
      (hpts : pts.Pairwise (· < ·) ∧ ∀ x, x ∈ pts ↔ x ∈ l ∨ x ∈ r) :
      Discretized lg ent th maxDepth depth v y lo pts

end Spec

theorem triangle2_spec (v : List K) {lo hi : K} (h : lo < hi) (hv : ∀ x ∈ v, lo ≤ x ∧ x ≤ hi) :
    triangle2 v lo hi = .ok (twoSets lo hi v) := by
  have hne : hi - lo ≠ 0 := sub_ne_zero.2 h.ne'
  have e1 : v.map (trimfAt lo lo hi) = v.map (fun x => (hi - x) / (hi - lo)) := by
    refine List.map_congr_left fun x hx => ?_
    obtain ⟨h1, h2⟩ := hv x hx
    unfold trimfAt
    by_cases hx1 : x = lo
    · rw [if_pos hx1, hx1, div_self hne]
    · rw [if_neg hx1]
      by_cases hx2 : x = hi
      · rw [if_neg (by simp [hx2]), if_neg (by simp), hx2]; simp
      · rw [if_pos ⟨h.ne, lt_of_le_of_ne h1 (Ne.symm hx1), lt_of_le_of_ne h2 hx2⟩]
  have e2 : v.map (trimfAt lo hi hi) = v.map (fun x => (x - lo) / (hi - lo)) := by
    refine List.map_congr_left fun x hx => ?_
    obtain ⟨h1, h2⟩ := hv x hx
    unfold trimfAt
    by_cases hx2 : x = hi
    · rw [if_pos hx2, hx2, div_self hne]
    · rw [if_neg hx2, if_neg (by simp)]
      by_cases hx1 : x = lo
      · rw [if_neg (by simp [hx1]), hx1]; simp
      · rw [if_pos ⟨h.ne, lt_of_le_of_ne h1 (Ne.symm hx1), lt_of_le_of_ne h2 hx2⟩]
  unfold triangle2 trimf
  rw [if_pos ⟨le_refl _, h.le⟩, if_pos ⟨h.le, le_refl _⟩, e1, e2]
  rfl

theorem triangle3_spec (v : List K) {lo p hi : K} (h1 : lo < p) (h2 : p < hi) (hv : ∀ x ∈ v, lo ≤ x ∧ x ≤ hi) :
    triangle3 v lo p hi = .ok (threeSets lo p hi v) := by
  have n1 : p - lo ≠ 0 := sub_ne_zero.2 h1.ne'
  have n2 : hi - p ≠ 0 := sub_ne_zero.2 h2.ne'
  have e1 : v.map (trimfAt lo lo p) = v.map (fun x => if x ≤ p then (p - x) / (p - lo) else 0) := by
    refine List.map_congr_left fun x hx => ?_
    obtain ⟨g1, g2⟩ := hv x hx
    unfold trimfAt
    rcases eq_or_lt_of_le g1 with e | e
    · subst e
      rw [if_pos rfl, if_pos h1.le, div_self n1]
    · rw [if_neg e.ne']
      rcases lt_trichotomy x p with c | c | c
      · rw [if_pos ⟨h1.ne, e, c⟩, if_pos c.le]
      · subst c
        rw [if_neg (by simp), if_neg (by simp), if_pos le_rfl]; simp
      · rw [if_neg (by rintro ⟨-, -, h⟩; exact absurd h c.not_gt), if_neg (by simp), if_neg c.not_ge]
  have e2 : v.map (trimfAt lo p hi) = v.map (fun x => if x ≤ p then (x - lo) / (p - lo) else (hi - x) / (hi - p)) := by
    refine List.map_congr_left fun x hx => ?_
    obtain ⟨g1, g2⟩ := hv x hx
    unfold trimfAt
    rcases lt_trichotomy x p with c | c | c
    · rw [if_neg c.ne, if_neg (by rintro ⟨-, h, -⟩; exact absurd h c.not_gt), if_pos c.le]
      rcases eq_or_lt_of_le g1 with e | e
      · subst e
        rw [if_neg (by simp)]; simp
      · rw [if_pos ⟨h1.ne, e, c⟩]
    · subst c
      rw [if_pos rfl, if_pos le_rfl, div_self n1]
    · rw [if_neg c.ne', if_neg c.not_ge]
      rcases eq_or_lt_of_le g2 with e | e
      · subst e
        rw [if_neg (by simp), if_neg (by rintro ⟨-, -, h⟩; exact absurd h c.not_gt)]; simp
      · rw [if_pos ⟨h2.ne, c, e⟩]
  have e3 : v.map (trimfAt p hi hi) = v.map (fun x => if x ≤ p then 0 else (x - p) / (hi - p)) := by
    refine List.map_congr_left fun x hx => ?_
    obtain ⟨g1, g2⟩ := hv x hx
    unfold trimfAt
    rcases eq_or_lt_of_le g2 with e | e
    · subst e
      rw [if_pos rfl, if_neg h2.not_ge, div_self n2]
    · rw [if_neg e.ne, if_neg (by simp)]
      by_cases c : x ≤ p
      · rw [if_neg (by rintro ⟨-, h, -⟩; exact absurd h c.not_gt), if_pos c]
      · rw [if_pos ⟨h2.ne, not_le.1 c, e⟩, if_neg c]
  unfold triangle3 trimf
  rw [if_pos ⟨le_refl _, h1.le⟩, if_pos ⟨h1.le, h2.le⟩, if_pos ⟨h2.le, le_refl _⟩, e1, e2, e3]
  rfl

/-- the loop over the candidate points finds the best cut. -/
theorem bestPoint_spec (ent : List K → List C → K) (v : List K) (y : List C) (lo hi : K) (h : ∀ x ∈ v, lo ≤ x ∧ x ≤ hi) :
    ∃ s, bestPoint ent v y lo hi = .ok s ∧
      ((s = none ∧ ∀ p ∈ v, ¬ (lo < p ∧ p < hi)) ∨
       ∃ p, s = some (p, partitionEntropy ent (threeSets lo p hi v) y, threeSets lo p hi v) ∧ BestCut ent lo hi v y p) := by
  set f : K → K := fun q => partitionEntropy ent (threeSets lo q hi v) y with hf
  have key : ∀ (l done : List K) (s : Option (K × K × List (List K))), (∀ x ∈ l, x ∈ v) → (done ++ l).Pairwise (· < ·) →
      ((s = none ∧ ∀ p ∈ done, ¬ (lo < p ∧ p < hi)) ∨
        ∃ p, s = some (p, f p, threeSets lo p hi v) ∧ (p ∈ v ∧ lo < p ∧ p < hi) ∧ p ∈ done ∧
          ∀ q ∈ done, lo < q → q < hi → f p ≤ f q ∧ (f q = f p → p ≤ q)) →
      ∃ s', l.foldlM (bestPointStep ent v y lo hi) s = .ok s' ∧
        ((s' = none ∧ ∀ p ∈ done ++ l, ¬ (lo < p ∧ p < hi)) ∨
        ∃ p, s' = some (p, f p, threeSets lo p hi v) ∧ (p ∈ v ∧ lo < p ∧ p < hi) ∧ p ∈ done ++ l ∧
          ∀ q ∈ done ++ l, lo < q → q < hi → f p ≤ f q ∧ (f q = f p → p ≤ q)) := by
    intro l
    induction l with
    | nil => intro done s _ _ hs; exact ⟨s, rfl, by simpa using hs⟩
    | cons x l ih =>
      intro done s hl hpw hs
      have hx := hl x (by simp)
      have hsplit : done ++ x :: l = (done ++ [x]) ++ l := by simp
      have hbefore : ∀ q ∈ done, q < x := fun q hq => (List.pairwise_append.1 hpw).2.2 q hq x (by simp)
      rw [hsplit] at hpw ⊢
      rw [List.foldlM_cons]
      unfold bestPointStep
      by_cases hc : x ≠ lo ∧ x ≠ hi
      · have hlx : lo < x := lt_of_le_of_ne (h x hx).1 (Ne.symm hc.1)
        have hxh : x < hi := lt_of_le_of_ne (h x hx).2 hc.2
        rw [if_pos hc, triangle3_spec v hlx hxh h]
        have hw : weightedEntropy ent (threeSets lo x hi v) y = f x := rfl
        rcases hs with ⟨rfl, hs⟩ | ⟨p, rfl, hp1, hp2, hp3⟩
        · simp only [py_bind_ok, py_pure, hw]
          refine ih (done ++ [x]) _ (fun z hz => hl z (by simp [hz])) hpw (.inr ⟨x, rfl, ⟨hx, hlx, hxh⟩, by simp, ?_⟩)
          intro q hq hq1 hq2
          rcases List.mem_append.1 hq with hq | hq
          · exact absurd ⟨hq1, hq2⟩ (hs q hq)
          · rw [List.mem_singleton.1 hq]; exact ⟨le_rfl, fun _ => le_rfl⟩
        · simp only [py_bind_ok, py_pure, hw]
          refine ih (done ++ [x]) _ (fun z hz => hl z (by simp [hz])) hpw (.inr ?_)
          by_cases hlt : f x < f p
          · refine ⟨x, by rw [if_pos hlt], ⟨hx, hlx, hxh⟩, by simp, ?_⟩
            intro q hq hq1 hq2
            rcases List.mem_append.1 hq with hq | hq
            · have := (hp3 q hq hq1 hq2).1
              exact ⟨hlt.le.trans this, fun e => absurd (e ▸ this) hlt.not_ge⟩
            · rw [List.mem_singleton.1 hq]; exact ⟨le_rfl, fun _ => le_rfl⟩
          · refine ⟨p, by rw [if_neg hlt], hp1, by simp [hp2], ?_⟩
            intro q hq hq1 hq2
            rcases List.mem_append.1 hq with hq | hq
            · exact hp3 q hq hq1 hq2
            · rw [List.mem_singleton.1 hq]; exact ⟨not_lt.1 hlt, fun _ => (hbefore p hp2).le⟩
      · rw [if_neg hc]
        simp only [py_bind_ok, py_pure]
        have hno : ¬ (lo < x ∧ x < hi) := by
          rintro ⟨g1, g2⟩
          exact hc ⟨g1.ne', g2.ne⟩
        refine ih (done ++ [x]) s (fun z hz => hl z (by simp [hz])) hpw ?_
        rcases hs with ⟨rfl, hs⟩ | ⟨p, rfl, hp1, hp2, hp3⟩
        · refine .inl ⟨rfl, fun q hq => ?_⟩
          rcases List.mem_append.1 hq with hq | hq
          · exact hs q hq
          · rw [List.mem_singleton.1 hq]; exact hno
        · refine .inr ⟨p, rfl, hp1, by simp [hp2], fun q hq hq1 hq2 => ?_⟩
          rcases List.mem_append.1 hq with hq | hq
          · exact hp3 q hq hq1 hq2
          · rw [List.mem_singleton.1 hq] at hq1 hq2; exact absurd ⟨hq1, hq2⟩ hno
  obtain ⟨s, h1, h2⟩ := key (npUnique v) [] none (fun x hx => (mem_npUnique v x).1 hx) (by simpa using npUnique_pairwise v) (.inl ⟨rfl, by simp⟩)
  refine ⟨s, h1, ?_⟩
  rcases h2 with ⟨g1, g2⟩ | ⟨p, g1, g2, -, g4⟩
  · exact .inl ⟨g1, fun p hp => g2 p (by simpa using (mem_npUnique v p).2 hp)⟩
  · exact .inr ⟨p, g1, g2, fun q hq => g4 q (by simpa using (mem_npUnique v q).2 hq)⟩

theorem gainThreshold_spec (lg : K → K) (ent : List K → List C → K) (th : Option K) (lo p hi : K) (v : List K) (y : List C)
    (hn : 2 ≤ v.length) :
    gainThreshold lg ent th (twoSets lo hi v) (threeSets lo p hi v) y v.length = .ok (cutThreshold lg ent th lo hi v y p) := by
  unfold gainThreshold cutThreshold
  cases th with
  | some t => rfl
  | none =>
    have hc : ∀ l : List C, l.dedup.length = l.toFinset.card := fun l => (List.card_toFinset l).symm
    simp only
    rw [if_neg (by omega)]
    unfold deltaPoint classesIn
    simp only [hc]
    rfl

theorem discretize_spec (lg : K → K) (ent : Bool → List K → List C → K) (th : Option K) (maxDepth : Nat) :
    ∀ (fuel : Nat) (v : List K) (y : List C) (lo : K) (depth : Nat) (pts : List K), v.length = y.length → 2 ≤ v.length →
      (∀ x ∈ v, lo ≤ x) → (∃ x ∈ v, lo < x) → discretize lg ent th maxDepth fuel v y lo depth = .ok pts →
      Discretized lg ent th maxDepth depth v y lo pts := by
  intro fuel
  induction fuel with
  | zero => intro v y lo depth pts _ _ _ _ h; cases h
  | succ fuel ih =>
    intro v y lo depth pts hlen hn hlo hex h
    obtain ⟨hi, hhi, hmem, hmax⟩ := npMax_ok (v := v) (by intro h; rw [h] at hn; simp at hn)
    have hb : ∀ x ∈ v, lo ≤ x ∧ x ≤ hi := fun x hx => ⟨hlo x hx, hmax x hx⟩
    have hlohi : lo < hi := by
      obtain ⟨x, hx, hx'⟩ := hex
      exact lt_of_lt_of_le hx' (hmax x hx)
    obtain ⟨s, hs, hsp⟩ := bestPoint_spec (ent (depth != 0)) v y lo hi hb
    unfold discretize at h
    rw [hhi, py_bind_ok] at h
    unfold splitPoint at h
    rw [hs, triangle2_spec v hlohi hb] at h
    simp only [py_bind_ok] at h
    rcases hsp with ⟨rfl, hno⟩ | ⟨p, rfl, hp⟩
    · obtain ⟨t, ht⟩ : ∃ t, gainThreshold lg (ent (depth != 0)) th (twoSets lo hi v) (bestTriangle none) y v.length = .ok t := by
        unfold gainThreshold
        cases th with
        | some t => exact ⟨t, rfl⟩
        | none =>
          simp only
          rw [if_neg (by omega)]
          exact ⟨_, rfl⟩
      rw [ht] at h
      simp only [py_bind_ok, py_pure, Except.ok.injEq] at h
      subst h
      exact .whole depth v y lo hi (.inr hn) ⟨hmem, hmax⟩ (.inr (.inl hno))
    · simp only [bestTriangle, gainThreshold_spec lg (ent (depth != 0)) th lo p hi v y hn, py_bind_ok, py_pure] at h
      have hgain : weightedEntropy (ent (depth != 0)) (twoSets lo hi v) y -
          partitionEntropy (ent (depth != 0)) (threeSets lo p hi v) y = cutGain (ent (depth != 0)) lo hi v y p := rfl
      rw [hgain] at h
      by_cases hc : (maxDepth > depth ∨ maxDepth = 0) ∧
          ¬ cutGain (ent (depth != 0)) lo hi v y p < cutThreshold lg (ent (depth != 0)) th lo hi v y p
      · rw [if_pos hc] at h
        simp only at h
        rw [py_bind_eq_ok] at h
        obtain ⟨l, hl, h⟩ := h
        rw [py_bind_eq_ok] at h
        obtain ⟨r, hr, h⟩ := h
        simp only [Except.ok.injEq] at h
        subst h
        have hbr : ∀ (b : List (K × C)) (lo' : K) (q : List K), (∀ x ∈ b, lo' ≤ x.1) → (∃ x ∈ b, lo' < x.1) →
            branchPoints (fun v y => discretize lg ent th maxDepth fuel v y lo' (depth + 1)) b = .ok q →
            Discretized lg ent th maxDepth (depth + 1) (b.map Prod.fst) (b.map Prod.snd) lo' q := by
          intro b lo' q h1 h2 h3
          unfold branchPoints at h3
          split_ifs at h3 with hbl
          · refine ih _ _ _ _ _ (by simp) (by rw [List.length_map]; omega) ?_ ?_ h3
            · intro x hx
              obtain ⟨z, hz, rfl⟩ := List.mem_map.1 hx
              exact h1 z hz
            · obtain ⟨z, hz, hz'⟩ := h2
              exact ⟨z.1, List.mem_map_of_mem hz, hz'⟩
          · cases h3
            exact .few _ _ _ _ (by omega) (by rw [List.length_map]; omega)
        have hin : ∀ x ∈ v, ∃ c, (x, c) ∈ v.zip y := by
          intro x hx
          rw [← List.map_fst_zip (l₁ := v) (l₂ := y) (by omega)] at hx
          obtain ⟨⟨a, c⟩, hz, rfl⟩ := List.mem_map.1 hx
          exact ⟨c, hz⟩
        refine .cut depth v y lo hi p l r _ (.inr hn) ⟨hmem, hmax⟩ hc.1.symm hp (not_lt.1 hc.2) (hbr _ lo l ?_ ?_ hl)
          (hbr _ p r ?_ ?_ hr) ⟨npUnique_pairwise _, fun x => by rw [mem_npUnique, List.mem_append]⟩
        · intro x hx
          exact hlo x.1 (List.of_mem_zip (List.mem_filter.1 hx).1).1
        · obtain ⟨c, hc'⟩ := hin p hp.1.1
          exact ⟨(p, c), List.mem_filter.2 ⟨hc', by simp⟩, hp.1.2.1⟩
        · intro x hx
          exact le_of_lt (by simpa using (List.mem_filter.1 hx).2)
        · obtain ⟨c, hc'⟩ := hin hi hmem
          exact ⟨(hi, c), List.mem_filter.2 ⟨hc', by simpa using hp.1.2.2⟩, hp.1.2.2⟩
      · rw [if_neg hc] at h
        simp only [Except.ok.injEq] at h
        subst h
        refine .whole depth v y lo hi (.inr hn) ⟨hmem, hmax⟩ ?_
        rw [not_and_or, not_not, not_or] at hc
        rcases hc with ⟨c1, c2⟩ | hc
        · exact .inl ⟨by omega, by omega⟩
        · exact .inr (.inr ⟨p, hp, hc⟩)

theorem Spec.IsTop.unique {v : List K} {a b : K} (h1 : IsTop v a) (h2 : IsTop v b) : a = b := le_antisymm (h2.2 a h1.1) (h1.2 b h2.1)

theorem Spec.BestCut.unique {ent : List K → List C → K} {lo hi : K} {v : List K} {y : List C} {a b : K} (h1 : BestCut ent lo hi v y a)
    (h2 : BestCut ent lo hi v y b) : a = b := by
  obtain ⟨⟨a1, a2, a3⟩, a4⟩ := h1
  obtain ⟨⟨b1, b2, b3⟩, b4⟩ := h2
  have e := le_antisymm (a4 b b1 b2 b3).1 (b4 a a1 a2 a3).1
  exact le_antisymm ((a4 b b1 b2 b3).2 e.symm) ((b4 a a1 a2 a3).2 e)

/-- the specification has one result. -/
theorem Spec.Discretized.unique {lg : K → K} {ent : Bool → List K → List C → K} {th : Option K} {maxDepth : Nat} {depth : Nat} {v : List K}
    {y : List C} {lo : K} {pts pts' : List K} (h : Discretized lg ent th maxDepth depth v y lo pts)
    (h' : Discretized lg ent th maxDepth depth v y lo pts') : pts = pts' := by
  induction h generalizing pts' with
  | few depth v y lo hd hv =>
    cases h' with
    | few => rfl
    | whole _ _ _ _ _ hv' => omega
    | cut _ _ _ _ _ _ _ _ _ hv' => omega
  | whole depth v y lo hi hv htop hno =>
    cases h' with
    | few _ _ _ _ hd' hv' => omega
    | whole _ _ _ _ hi' _ htop' => rw [htop.unique htop']
    | cut _ _ _ _ hi' p l r _ _ htop' hd hp hg =>
      rw [← htop.unique htop'] at hp hg
      rcases hno with h | h | ⟨q, hq, hlt⟩
      · omega
      · exact absurd hp.1.2 (h p hp.1.1)
      · rw [hp.unique hq] at hg
        exact absurd hlt hg.not_gt
  | cut depth v y lo hi p l r pts hv htop hd hp hg hl hr hpts ihl ihr =>
    cases h' with
    | few _ _ _ _ hd' hv' => omega
    | whole _ _ _ _ hi' _ htop' hno =>
      rw [← htop.unique htop'] at hno
      rcases hno with h | h | ⟨q, hq, hlt⟩
      · omega
      · exact absurd hp.1.2 (h p hp.1.1)
      · rw [hp.unique hq] at hg
        exact absurd hlt hg.not_gt
    | cut _ _ _ _ hi' p' l' r' _ _ htop' hd' hp' hg' hl' hr' hpts' =>
      rw [← htop.unique htop'] at hp'
      obtain rfl := hp.unique hp'
      obtain rfl := ihl hl'
      obtain rfl := ihr hr'
      refine List.Perm.eq_of_pairwise (le := (· < ·)) (fun a b _ _ h1 h2 => absurd h1 h2.not_gt) hpts.1 hpts'.1 ?_
      refine (List.perm_ext_iff_of_nodup (hpts.1.imp ne_of_lt) (hpts'.1.imp ne_of_lt)).2 fun x => ?_
      rw [hpts.2, hpts'.2]

/-- **C133**: for every column with two different values, `get_fuzzy_points('entropy', …)` succeeds and its points are those of the
specification: an interval is cut exactly where it should — at the first of the values inside with the least entropy of the three sets —,
exactly when the gain reaches the threshold (the given one, or that of the minimum description length) and the depth allows it; and each
part is treated in the same way. -/
theorem C133_cuts (lg : K → K) (ent : Bool → List K → List C → K) (th : Option K) (maxDepth : Nat) (v : List K) (y : List C)
    (hlen : v.length = y.length) (hex : ∃ a ∈ v, ∃ b ∈ v, a ≠ b) :
    ∃ lo pts, (lo ∈ v ∧ ∀ x ∈ v, lo ≤ x) ∧ entropyPoints lg ent th maxDepth v y = .ok pts ∧
      ∀ pts', Discretized lg ent th maxDepth 0 v y lo pts' ↔ pts' = pts := by
  obtain ⟨-, pts, h1, -⟩ := C12_entropy_points lg ent th maxDepth v y hlen hex
  obtain ⟨a, ha, b, hb, hab⟩ := hex
  obtain ⟨lo, h2, h3, h4⟩ := npMin_ok (List.ne_nil_of_mem ha)
  refine ⟨lo, pts, ⟨h3, h4⟩, h1, ?_⟩
  suffices h : Discretized lg ent th maxDepth 0 v y lo pts from fun pts' => ⟨fun h' => h'.unique h, fun e => e ▸ h⟩
  unfold entropyPoints at h1
  rw [h2, py_bind_ok] at h1
  refine discretize_spec lg ent th maxDepth _ v y lo 0 pts hlen ?_ h4 ?_ h1
  · by_contra h
    have : v.length = 1 := by
      have := List.length_pos_of_mem ha
      omega
    obtain ⟨z, hz⟩ := List.length_eq_one_iff.1 this
    rw [hz] at ha hb
    simp only [List.mem_singleton] at ha hb
    exact hab (ha.trans hb.symm)
  · rcases lt_or_gt_of_ne hab with h | h
    · exact ⟨b, hb, lt_of_le_of_lt (h4 a ha) h⟩
    · exact ⟨a, ha, lt_of_le_of_lt (h4 b hb) h⟩

/-- an entropy for the examples: 0 for a single class, 1 otherwise. -/
def cutEnt (mu : List ℚ) (y : List Nat) : ℚ := if (npUnique (maskedY mu y)).length < 2 then 0 else 1

/-- the column is cut, once with `max_depth = 1`, and not at all with a high threshold. -/
example : entropyPoints id (fun _ => cutEnt) (some (1/100 : ℚ)) 0 [1,2,3,4,5,6] [0,0,1,1,0,0] = .ok [1, 2, 4, 6] := by decide +kernel

example : entropyPoints id (fun _ => cutEnt) (some (1/100 : ℚ)) 1 [1,2,3,4,5,6] [0,0,1,1,0,0] = .ok [1, 3, 6] := by decide +kernel

example : entropyPoints id (fun _ => cutEnt) (some (1/2 : ℚ)) 0 [1,2,3,4,5,6] [0,0,1,1,0,0] = .ok [1, 6] := by decide +kernel

example : ∃ lo pts, (lo ∈ ([1,2,3,4,5,6] : List ℚ) ∧ ∀ x ∈ ([1,2,3,4,5,6] : List ℚ), lo ≤ x) ∧
    entropyPoints id (fun _ => cutEnt) (some (1/100 : ℚ)) 0 [1,2,3,4,5,6] [0,0,1,1,0,0] = .ok pts ∧
    ∀ pts', Discretized id (fun _ => cutEnt) (some (1/100 : ℚ)) 0 0 [1,2,3,4,5,6] [0,0,1,1,0,0] lo pts' ↔ pts' = pts :=
  C133_cuts _ _ _ _ _ _ rfl ⟨1, by simp, 2, by simp, by norm_num⟩

end Teacher
