import Verif.Props.Cuts
import Verif.Props.RoundedDisc

/-! # C201-C202: where the entropy discretisation cuts in floating point, and when rounding does not move the cuts -/

set_option linter.unusedSectionVars false

namespace Teacher
open Spec

variable {C K : Type} [Field K] [LinearOrder K] [IsStrictOrderedRing K] [DecidableEq C]

namespace Spec

/-- Specification: the computed degrees of the values `v` in the two sets of the interval `[lo, hi]`. -/
def twoSetsF (A : Arith K) (lo hi : K) (v : List K) : List (List K) := [v.map (trimfAtF A lo lo hi), v.map (trimfAtF A lo hi hi)]

/-- Specification: the computed degrees in the three sets with peaks `lo`, `p` and `hi`. -/
def threeSetsF (A : Arith K) (lo p hi : K) (v : List K) : List (List K) :=
  [v.map (trimfAtF A lo lo p), v.map (trimfAtF A lo p hi), v.map (trimfAtF A p hi hi)]

/-- Specification: the computed entropy of a fuzzy partition: the rounded products of the cardinalities and the entropies of its sets are added
from left to right and divided by the number of rows. -/
def partitionEntropyF (A : Arith K) (ent : List K → List C → K) (sets : List (List K)) (y : List C) : K :=
  A.fl (leftSum A.fl (sets.map (fun t => A.fl (A.sum t * ent t y))) / A.fl (y.length : K))

/-- Specification: the computed gain of cutting `[lo, hi]` at `p`. -/
def cutGainF (A : Arith K) (ent : List K → List C → K) (lo hi : K) (v : List K) (y : List C) (p : K) : K :=
  A.fl (partitionEntropyF A ent (twoSetsF A lo hi v) y - partitionEntropyF A ent (threeSetsF A lo p hi v) y)

/-- Specification: the computed threshold, see `cutThreshold`. -/
def cutThresholdF (A : Arith K) (lg : K → K) (ent : List K → List C → K) (th : Option K) (lo hi : K) (v : List K) (y : List C) (p : K) : K :=
  match th with
  | some t => t
  | none =>
    let old := A.fl (A.fl (y.toFinset.card : K) * partitionEntropyF A ent (twoSetsF A lo hi v) y)
    let new := leftSum A.fl ((threeSetsF A lo p hi v).map (fun t => A.fl (A.fl (classesIn t y : K) * ent t y)))
    let delta := A.fl (lg (A.fl (A.fl (3 ^ y.toFinset.card) - 2)) - A.fl (old - new))
    A.fl (A.fl (lg ((v.length : K) - 1) + delta) / A.fl (v.length : K))

/-- Specification: `p` is the best cut of `[lo, hi]`: a value strictly inside whose partition has the least computed entropy, the first of them. -/
def BestCutF (A : Arith K) (ent : List K → List C → K) (lo hi : K) (v : List K) (y : List C) (p : K) : Prop :=
  (p ∈ v ∧ lo < p ∧ p < hi) ∧ ∀ q ∈ v, lo < q → q < hi →
    partitionEntropyF A ent (threeSetsF A lo p hi v) y ≤ partitionEntropyF A ent (threeSetsF A lo q hi v) y ∧
    (partitionEntropyF A ent (threeSetsF A lo q hi v) y = partitionEntropyF A ent (threeSetsF A lo p hi v) y → p ≤ q)

/-- Specification of the points (computed) of the entropy discretisation of the values `v` with classes `y` from the point `lo` on, at a given depth
(`ent false` is the entropy at depth 0, `ent true` the one of the recursive calls):
no points for a part with less than two values; the whole interval, if the depth is the greatest one, or there is no value inside, or the
best cut does not reach the threshold; otherwise the points of the values up to the best cut and those of the values after it. -/
inductive DiscretizedF (A : Arith K) (lg : K → K) (ent : Bool → List K → List C → K) (th : Option K) (maxDepth : Nat) :
    Nat → List K → List C → K → List K → Prop
  | few (depth : Nat) (v : List K) (y : List C) (lo : K) (hd : 0 < depth) (hv : v.length < 2) :
      DiscretizedF A lg ent th maxDepth depth v y lo []
  | whole (depth : Nat) (v : List K) (y : List C) (lo hi : K) (hv : depth = 0 ∨ 2 ≤ v.length) (htop : IsTop v hi)
      (h : (0 < maxDepth ∧ maxDepth ≤ depth) ∨ (∀ p ∈ v, ¬ (lo < p ∧ p < hi)) ∨ ∃ p, BestCutF A (ent (depth != 0)) lo hi v y p ∧
        cutGainF A (ent (depth != 0)) lo hi v y p < cutThresholdF A lg (ent (depth != 0)) th lo hi v y p) :
      DiscretizedF A lg ent th maxDepth depth v y lo [lo, hi]
  | cut (depth : Nat) (v : List K) (y : List C) (lo hi p : K) (l r pts : List K) (hv : depth = 0 ∨ 2 ≤ v.length) (htop : IsTop v hi)
      (hd : maxDepth = 0 ∨ depth < maxDepth) (hp : BestCutF A (ent (depth != 0)) lo hi v y p)
      (hg : cutThresholdF A lg (ent (depth != 0)) th lo hi v y p ≤ cutGainF A (ent (depth != 0)) lo hi v y p)
      (hl : DiscretizedF A lg ent th maxDepth (depth + 1) (((v.zip y).filter (fun q => q.1 ≤ p)).map Prod.fst)
        (((v.zip y).filter (fun q => q.1 ≤ p)).map Prod.snd) lo l)
      (hr : DiscretizedF A lg ent th maxDepth (depth + 1) (((v.zip y).filter (fun q => p < q.1)).map Prod.fst)
        (((v.zip y).filter (fun q => p < q.1)).map Prod.snd) p r)
      (hpts : pts.Pairwise (· < ·) ∧ ∀ x, x ∈ pts ↔ x ∈ l ∨ x ∈ r) :
      DiscretizedF A lg ent th maxDepth depth v y lo pts

end Spec

/-- an entropy that can always be computed. -/
def pureEnt (ent : Bool → List K → List C → K) : Bool → List K → List C → Py K := fun b mu y => .ok (ent b mu y)

theorem foldlM_add_pure {α : Type} (fl : K → K) (g : α → K) (l : List α) (s : K) :
    l.foldlM (fun (s : K) t => (pure (fl (s + g t)) : Py K)) s = .ok ((l.map g).foldl (fun s x => fl (s + x)) s) := by
  induction l generalizing s with
  | nil => rfl
  | cons a l ih => rw [List.foldlM_cons, py_pure, py_bind_ok, ih]; rfl

theorem weightedEntropyF_pure (A : Arith K) (ent : List K → List C → K) (tri : List (List K)) (y : List C) :
    weightedEntropyF A (fun t y => .ok (ent t y)) tri y = .ok (partitionEntropyF A ent tri y) := by
  unfold weightedEntropyF partitionEntropyF leftSum
  have : weightedEntropyStepF A (fun t y => .ok (ent t y)) y = fun (s : K) (t : List K) => (pure (A.fl (s + A.fl (A.sum t * ent t y))) : Py K) := rfl
  rw [this, foldlM_add_pure A.fl (fun t => A.fl (A.sum t * ent t y))]
  rfl

theorem triangle2F_spec (A : Arith K) (v : List K) {lo hi : K} (h : lo ≤ hi) : triangle2F A v lo hi = .ok (twoSetsF A lo hi v) := by
  unfold triangle2F trimfF
  rw [if_pos ⟨le_refl _, h⟩, if_pos ⟨h, le_refl _⟩]
  rfl

theorem triangle3F_spec (A : Arith K) (v : List K) {lo p hi : K} (h1 : lo < p) (h2 : p < hi) :
    triangle3F A v lo p hi = .ok (threeSetsF A lo p hi v) := by
  unfold triangle3F trimfF
  rw [if_pos ⟨le_refl _, h1.le⟩, if_pos ⟨h1.le, h2.le⟩, if_pos ⟨h2.le, le_refl _⟩]
  rfl

/-- the loop over the candidate points finds the best cut. -/
theorem bestPointF_spec (A : Arith K) (ent : List K → List C → K) (v : List K) (y : List C) (lo hi : K) (h : ∀ x ∈ v, lo ≤ x ∧ x ≤ hi) :
    ∃ s, bestPointF A (fun t y => .ok (ent t y)) v y lo hi = .ok s ∧
      ((s = none ∧ ∀ p ∈ v, ¬ (lo < p ∧ p < hi)) ∨
       ∃ p, s = some (p, partitionEntropyF A ent (threeSetsF A lo p hi v) y, threeSetsF A lo p hi v) ∧ BestCutF A ent lo hi v y p) := by
  set f : K → K := fun q => partitionEntropyF A ent (threeSetsF A lo q hi v) y with hf
  have key : ∀ (l done : List K) (s : Option (K × K × List (List K))), (∀ x ∈ l, x ∈ v) → (done ++ l).Pairwise (· < ·) →
      ((s = none ∧ ∀ p ∈ done, ¬ (lo < p ∧ p < hi)) ∨
        ∃ p, s = some (p, f p, threeSetsF A lo p hi v) ∧ (p ∈ v ∧ lo < p ∧ p < hi) ∧ p ∈ done ∧
          ∀ q ∈ done, lo < q → q < hi → f p ≤ f q ∧ (f q = f p → p ≤ q)) →
      ∃ s', l.foldlM (bestPointStepF A (fun t y => .ok (ent t y)) v y lo hi) s = .ok s' ∧
        ((s' = none ∧ ∀ p ∈ done ++ l, ¬ (lo < p ∧ p < hi)) ∨
        ∃ p, s' = some (p, f p, threeSetsF A lo p hi v) ∧ (p ∈ v ∧ lo < p ∧ p < hi) ∧ p ∈ done ++ l ∧
          ∀ q ∈ done ++ l, lo < q → q < hi → f p ≤ f q ∧ (f q = f p → p ≤ q)) := by
    intro l
    induction l with
    | nil => intro done s _ _ hs; exact ⟨s, rfl, by simpa using hs⟩
    | cons x l ih =>
      intro done s hl hpw hs
      have hx := hl x (by simp)
      have hsplit : done ++ x :: l = (done ++ [x]) ++ l := by simp
      have hbefore : ∀ q ∈ done, q < x := fun q hq => (List.pairwise_append.1 hpw).2.2 q hq x (by simp)
      rw [hsplit] at hpw ⊢
      rw [List.foldlM_cons]
      unfold bestPointStepF
      by_cases hc : x ≠ lo ∧ x ≠ hi
      · have hlx : lo < x := lt_of_le_of_ne (h x hx).1 (Ne.symm hc.1)
        have hxh : x < hi := lt_of_le_of_ne (h x hx).2 hc.2
        rw [if_pos hc, triangle3F_spec A v hlx hxh]
        have hw : weightedEntropyF A (fun t y => .ok (ent t y)) (threeSetsF A lo x hi v) y = .ok (f x) := weightedEntropyF_pure A ent _ y
        rcases hs with ⟨rfl, hs⟩ | ⟨p, rfl, hp1, hp2, hp3⟩
        · simp only [py_bind_ok, hw, py_pure]
          refine ih (done ++ [x]) _ (fun z hz => hl z (by simp [hz])) hpw (.inr ⟨x, rfl, ⟨hx, hlx, hxh⟩, by simp, ?_⟩)
          intro q hq hq1 hq2
          rcases List.mem_append.1 hq with hq | hq
          · exact absurd ⟨hq1, hq2⟩ (hs q hq)
          · rw [List.mem_singleton.1 hq]; exact ⟨le_rfl, fun _ => le_rfl⟩
        · simp only [py_bind_ok, hw, py_pure]
          refine ih (done ++ [x]) _ (fun z hz => hl z (by simp [hz])) hpw (.inr ?_)
          by_cases hlt : f x < f p
          · refine ⟨x, by rw [if_pos hlt], ⟨hx, hlx, hxh⟩, by simp, ?_⟩
            intro q hq hq1 hq2
            rcases List.mem_append.1 hq with hq | hq
            · have := (hp3 q hq hq1 hq2).1
              exact ⟨hlt.le.trans this, fun e => absurd (e ▸ this) hlt.not_ge⟩
            · rw [List.mem_singleton.1 hq]; exact ⟨le_rfl, fun _ => le_rfl⟩
          · refine ⟨p, by rw [if_neg hlt], hp1, by simp [hp2], ?_⟩
            intro q hq hq1 hq2
            rcases List.mem_append.1 hq with hq | hq
            · exact hp3 q hq hq1 hq2
            · rw [List.mem_singleton.1 hq]; exact ⟨not_lt.1 hlt, fun _ => (hbefore p hp2).le⟩
      · rw [if_neg hc]
        simp only [py_bind_ok, py_pure]
        have hno : ¬ (lo < x ∧ x < hi) := by
          rintro ⟨g1, g2⟩
          exact hc ⟨g1.ne', g2.ne⟩
        refine ih (done ++ [x]) s (fun z hz => hl z (by simp [hz])) hpw ?_
        rcases hs with ⟨rfl, hs⟩ | ⟨p, rfl, hp1, hp2, hp3⟩
        · refine .inl ⟨rfl, fun q hq => ?_⟩
          rcases List.mem_append.1 hq with hq | hq
          · exact hs q hq
          · rw [List.mem_singleton.1 hq]; exact hno
        · refine .inr ⟨p, rfl, hp1, by simp [hp2], fun q hq hq1 hq2 => ?_⟩
          rcases List.mem_append.1 hq with hq | hq
          · exact hp3 q hq hq1 hq2
          · rw [List.mem_singleton.1 hq] at hq1 hq2; exact absurd ⟨hq1, hq2⟩ hno
  obtain ⟨s, h1, h2⟩ := key (npUnique v) [] none (fun x hx => (mem_npUnique v x).1 hx) (by simpa using npUnique_pairwise v) (.inl ⟨rfl, by simp⟩)
  refine ⟨s, h1, ?_⟩
  rcases h2 with ⟨g1, g2⟩ | ⟨p, g1, g2, -, g4⟩
  · exact .inl ⟨g1, fun p hp => g2 p (by simpa using (mem_npUnique v p).2 hp)⟩
  · exact .inr ⟨p, g1, g2, fun q hq => g4 q (by simpa using (mem_npUnique v q).2 hq)⟩

theorem deltaPointF_pure (A : Arith K) (lg : K → K) (ent : List K → List C → K) (global best : List (List K)) (y : List C) :
    ∃ d, deltaPointF A lg (fun t y => .ok (ent t y)) global best y = .ok d ∧
      d = A.fl (lg (A.fl (A.fl (3 ^ y.toFinset.card) - 2)) - A.fl (A.fl (A.fl (y.toFinset.card : K) * partitionEntropyF A ent global y) -
        leftSum A.fl (best.map (fun t => A.fl (A.fl (classesIn t y : K) * ent t y))))) := by
  refine ⟨_, ?_, rfl⟩
  have hc : ∀ l : List C, l.dedup.length = l.toFinset.card := fun l => (List.card_toFinset l).symm
  unfold deltaPointF
  rw [weightedEntropyF_pure]
  have : newEntropyStepF A (fun t y => .ok (ent t y)) y =
      fun (s : K) (t : List K) => (pure (A.fl (s + A.fl (A.fl (classesIn t y : K) * ent t y))) : Py K) := by
    funext s t
    unfold newEntropyStepF classesIn
    rw [hc]
    rfl
  rw [this, foldlM_add_pure A.fl (fun t => A.fl (A.fl (classesIn t y : K) * ent t y))]
  simp only [py_bind_ok, hc]
  rfl

theorem gainThresholdF_spec (A : Arith K) (lg : K → K) (ent : List K → List C → K) (th : Option K) (lo p hi : K) (v : List K) (y : List C)
    (hn : 2 ≤ v.length) :
    gainThresholdF A lg (fun t y => .ok (ent t y)) th (twoSetsF A lo hi v) (threeSetsF A lo p hi v) y v.length =
      .ok (cutThresholdF A lg ent th lo hi v y p) := by
  obtain ⟨d, h1, h2⟩ := deltaPointF_pure A lg ent (twoSetsF A lo hi v) (threeSetsF A lo p hi v) y
  unfold gainThresholdF cutThresholdF
  rw [h1]
  cases th with
  | some t => rfl
  | none =>
    simp only [py_bind_ok]
    rw [if_neg (by omega), h2]
    rfl

theorem discretizeF_spec (A : Arith K) (lg : K → K) (ent : Bool → List K → List C → K) (th : Option K) (maxDepth : Nat) :
    ∀ (fuel : Nat) (v : List K) (y : List C) (lo : K) (depth : Nat) (pts : List K), v.length = y.length → 2 ≤ v.length →
      (∀ x ∈ v, lo ≤ x) → (∃ x ∈ v, lo < x) → discretizeF A lg (pureEnt ent) th maxDepth fuel v y lo depth = .ok pts →
      DiscretizedF A lg ent th maxDepth depth v y lo pts := by
  intro fuel
  induction fuel with
  | zero => intro v y lo depth pts _ _ _ _ h; cases h
  | succ fuel ih =>
    intro v y lo depth pts hlen hn hlo hex h
    obtain ⟨hi, hhi, hmem, hmax⟩ := npMax_ok (v := v) (by intro h; rw [h] at hn; simp at hn)
    have hb : ∀ x ∈ v, lo ≤ x ∧ x ≤ hi := fun x hx => ⟨hlo x hx, hmax x hx⟩
    have hlohi : lo < hi := by
      obtain ⟨x, hx, hx'⟩ := hex
      exact lt_of_lt_of_le hx' (hmax x hx)
    obtain ⟨s, hs, hsp⟩ := bestPointF_spec A (ent (depth != 0)) v y lo hi hb
    unfold discretizeF at h
    rw [hhi, py_bind_ok] at h
    unfold splitPointF at h
    have he : pureEnt ent (depth != 0) = fun t y => .ok (ent (depth != 0) t y) := rfl
    rw [he, hs, triangle2F_spec A v hlohi.le] at h
    simp only [py_bind_ok, weightedEntropyF_pure] at h
    rcases hsp with ⟨rfl, hno⟩ | ⟨p, rfl, hp⟩
    · obtain ⟨t, ht⟩ : ∃ t, gainThresholdF A lg (fun t y => .ok (ent (depth != 0) t y)) th (twoSetsF A lo hi v) (bestTriangle none) y v.length = .ok t := by
        obtain ⟨d, h1, -⟩ := deltaPointF_pure A lg (ent (depth != 0)) (twoSetsF A lo hi v) (bestTriangle none) y
        unfold gainThresholdF
        rw [h1]
        cases th with
        | some t => exact ⟨t, rfl⟩
        | none =>
          simp only [py_bind_ok]
          rw [if_neg (by omega)]
          exact ⟨_, rfl⟩
      rw [ht] at h
      simp only [py_bind_ok, py_pure, Except.ok.injEq] at h
      subst h
      exact .whole depth v y lo hi (.inr hn) ⟨hmem, hmax⟩ (.inr (.inl hno))
    · simp only [bestTriangle, gainThresholdF_spec A lg (ent (depth != 0)) th lo p hi v y hn, py_bind_ok, py_pure] at h
      have hgain : A.fl (partitionEntropyF A (ent (depth != 0)) (twoSetsF A lo hi v) y -
          partitionEntropyF A (ent (depth != 0)) (threeSetsF A lo p hi v) y) = cutGainF A (ent (depth != 0)) lo hi v y p := rfl
      rw [hgain] at h
      by_cases hc : (maxDepth > depth ∨ maxDepth = 0) ∧
          ¬ cutGainF A (ent (depth != 0)) lo hi v y p < cutThresholdF A lg (ent (depth != 0)) th lo hi v y p
      · rw [if_pos hc] at h
        simp only at h
        rw [py_bind_eq_ok] at h
        obtain ⟨l, hl, h⟩ := h
        rw [py_bind_eq_ok] at h
        obtain ⟨r, hr, h⟩ := h
        simp only [Except.ok.injEq] at h
        subst h
        have hbr : ∀ (b : List (K × C)) (lo' : K) (q : List K), (∀ x ∈ b, lo' ≤ x.1) → (∃ x ∈ b, lo' < x.1) →
            branchPoints (fun v y => discretizeF A lg (pureEnt ent) th maxDepth fuel v y lo' (depth + 1)) b = .ok q →
            DiscretizedF A lg ent th maxDepth (depth + 1) (b.map Prod.fst) (b.map Prod.snd) lo' q := by
          intro b lo' q h1 h2 h3
          unfold branchPoints at h3
          split_ifs at h3 with hbl
          · refine ih _ _ _ _ _ (by simp) (by rw [List.length_map]; omega) ?_ ?_ h3
            · intro x hx
              obtain ⟨z, hz, rfl⟩ := List.mem_map.1 hx
              exact h1 z hz
            · obtain ⟨z, hz, hz'⟩ := h2
              exact ⟨z.1, List.mem_map_of_mem hz, hz'⟩
          · cases h3
            exact .few _ _ _ _ (by omega) (by rw [List.length_map]; omega)
        have hin : ∀ x ∈ v, ∃ c, (x, c) ∈ v.zip y := by
          intro x hx
          rw [← List.map_fst_zip (l₁ := v) (l₂ := y) (by omega)] at hx
          obtain ⟨⟨a, c⟩, hz, rfl⟩ := List.mem_map.1 hx
          exact ⟨c, hz⟩
        refine .cut depth v y lo hi p l r _ (.inr hn) ⟨hmem, hmax⟩ hc.1.symm hp (not_lt.1 hc.2) (hbr _ lo l ?_ ?_ hl)
          (hbr _ p r ?_ ?_ hr) ⟨npUnique_pairwise _, fun x => by rw [mem_npUnique, List.mem_append]⟩
        · intro x hx
          exact hlo x.1 (List.of_mem_zip (List.mem_filter.1 hx).1).1
        · obtain ⟨c, hc'⟩ := hin p hp.1.1
          exact ⟨(p, c), List.mem_filter.2 ⟨hc', by simp⟩, hp.1.2.1⟩
        · intro x hx
          exact le_of_lt (by simpa using (List.mem_filter.1 hx).2)
        · obtain ⟨c, hc'⟩ := hin hi hmem
          exact ⟨(hi, c), List.mem_filter.2 ⟨hc', by simpa using hp.1.2.2⟩, hp.1.2.2⟩
      · rw [if_neg hc] at h
        simp only [Except.ok.injEq] at h
        subst h
        refine .whole depth v y lo hi (.inr hn) ⟨hmem, hmax⟩ ?_
        rw [not_and_or, not_not, not_or] at hc
        rcases hc with ⟨c1, c2⟩ | hc
        · exact .inl ⟨by omega, by omega⟩
        · exact .inr (.inr ⟨p, hp, hc⟩)

theorem Spec.BestCutF.unique {A : Arith K} {ent : List K → List C → K} {lo hi : K} {v : List K} {y : List C} {a b : K} (h1 : BestCutF A ent lo hi v y a)
    (h2 : BestCutF A ent lo hi v y b) : a = b := by
  obtain ⟨⟨a1, a2, a3⟩, a4⟩ := h1
  obtain ⟨⟨b1, b2, b3⟩, b4⟩ := h2
  have e := le_antisymm (a4 b b1 b2 b3).1 (b4 a a1 a2 a3).1
  exact le_antisymm ((a4 b b1 b2 b3).2 e.symm) ((b4 a a1 a2 a3).2 e)

/-- the specification has one result. -/
theorem Spec.DiscretizedF.unique {A : Arith K} {lg : K → K} {ent : Bool → List K → List C → K} {th : Option K} {maxDepth : Nat} {depth : Nat} {v : List K}
    {y : List C} {lo : K} {pts pts' : List K} (h : DiscretizedF A lg ent th maxDepth depth v y lo pts)
    (h' : DiscretizedF A lg ent th maxDepth depth v y lo pts') : pts = pts' := by
  induction h generalizing pts' with
  | few depth v y lo hd hv =>
    cases h' with
    | few => rfl
    | whole _ _ _ _ _ hv' => omega
    | cut _ _ _ _ _ _ _ _ _ hv' => omega
  | whole depth v y lo hi hv htop hno =>
    cases h' with
    | few _ _ _ _ hd' hv' => omega
    | whole _ _ _ _ hi' _ htop' => rw [htop.unique htop']
    | cut _ _ _ _ hi' p l r _ _ htop' hd hp hg =>
      rw [← htop.unique htop'] at hp hg
      rcases hno with h | h | ⟨q, hq, hlt⟩
      · omega
      · exact absurd hp.1.2 (h p hp.1.1)
      · rw [hp.unique hq] at hg
        exact absurd hlt hg.not_gt
  | cut depth v y lo hi p l r pts hv htop hd hp hg hl hr hpts ihl ihr =>
    cases h' with
    | few _ _ _ _ hd' hv' => omega
    | whole _ _ _ _ hi' _ htop' hno =>
      rw [← htop.unique htop'] at hno
      rcases hno with h | h | ⟨q, hq, hlt⟩
      · omega
      · exact absurd hp.1.2 (h p hp.1.1)
      · rw [hp.unique hq] at hg
        exact absurd hlt hg.not_gt
    | cut _ _ _ _ hi' p' l' r' _ _ htop' hd' hp' hg' hl' hr' hpts' =>
      rw [← htop.unique htop'] at hp'
      obtain rfl := hp.unique hp'
      obtain rfl := ihl hl'
      obtain rfl := ihr hr'
      refine List.Perm.eq_of_pairwise (le := (· < ·)) (fun a b _ _ h1 h2 => absurd h1 h2.not_gt) hpts.1 hpts'.1 ?_
      refine (List.perm_ext_iff_of_nodup (hpts.1.imp ne_of_lt) (hpts'.1.imp ne_of_lt)).2 fun x => ?_
      rw [hpts.2, hpts'.2]

/-- **C201**: in floating point, with entropies that can be computed, the points of a column with two different values are those of the
specification: an interval is cut exactly where it should — at the first of the values inside with the least computed entropy of the three sets
—, exactly when the computed gain is not below the computed threshold and the depth allows it; and each part is treated in the same way. -/
theorem C201_cuts (A : Arith K) (lg : K → K) (ent : Bool → List K → List C → K) (th : Option K) (maxDepth : Nat) (v : List K) (y : List C)
    (hlen : v.length = y.length) (hex : ∃ a ∈ v, ∃ b ∈ v, a ≠ b) :
    ∃ lo pts, (lo ∈ v ∧ ∀ x ∈ v, lo ≤ x) ∧ entropyPointsF A lg (pureEnt ent) th maxDepth v y = .ok pts ∧
      ∀ pts', DiscretizedF A lg ent th maxDepth 0 v y lo pts' ↔ pts' = pts := by
  obtain ⟨pts, h1⟩ : ∃ pts, entropyPointsF A lg (pureEnt ent) th maxDepth v y = .ok pts := by
    rcases C199_points A lg (pureEnt ent) th maxDepth v y hlen hex with ⟨pts, h, -⟩ | ⟨e, -, b, mu, y', -, h⟩
    · exact ⟨pts, h⟩
    · cases h
  obtain ⟨a, ha, b, hb, hab⟩ := hex
  obtain ⟨lo, h2, h3, h4⟩ := npMin_ok (List.ne_nil_of_mem ha)
  refine ⟨lo, pts, ⟨h3, h4⟩, h1, ?_⟩
  suffices h : DiscretizedF A lg ent th maxDepth 0 v y lo pts from fun pts' => ⟨fun h' => h'.unique h, fun e => e ▸ h⟩
  unfold entropyPointsF at h1
  rw [h2, py_bind_ok] at h1
  refine discretizeF_spec A lg ent th maxDepth _ v y lo 0 pts hlen ?_ h4 ?_ h1
  · by_contra h
    have : v.length = 1 := by
      have := List.length_pos_of_mem ha
      omega
    obtain ⟨z, hz⟩ := List.length_eq_one_iff.1 this
    rw [hz] at ha hb
    simp only [List.mem_singleton] at ha hb
    exact hab (ha.trans hb.symm)
  · rcases lt_or_gt_of_ne hab with h | h
    · exact ⟨b, hb, lt_of_le_of_lt (h4 a ha) h⟩
    · exact ⟨a, ha, lt_of_le_of_lt (h4 b hb) h⟩


namespace Spec

/-- Specification: the parts of a column (values, classes, lower point) met when every interval is cut at its best cut. -/
inductive Part (ent : Bool → List K → List C → K) (col : List K) (cls : List C) (low : K) : Nat → List K → List C → K → Prop
  | all : Part ent col cls low 0 col cls low
  | left {depth : Nat} {v : List K} {y : List C} {lo hi p : K} (h : Part ent col cls low depth v y lo) (htop : IsTop v hi)
      (hp : BestCut (ent (depth != 0)) lo hi v y p) :
      Part ent col cls low (depth + 1) (((v.zip y).filter (fun q => q.1 ≤ p)).map Prod.fst) (((v.zip y).filter (fun q => q.1 ≤ p)).map Prod.snd) lo
  | right {depth : Nat} {v : List K} {y : List C} {lo hi p : K} (h : Part ent col cls low depth v y lo) (htop : IsTop v hi)
      (hp : BestCut (ent (depth != 0)) lo hi v y p) :
      Part ent col cls low (depth + 1) (((v.zip y).filter (fun q => p < q.1)).map Prod.fst) (((v.zip y).filter (fun q => p < q.1)).map Prod.snd) p

/-- Specification: on the part `[lo, hi]` the roundings are too small to matter: the computed entropies of the possible cuts are within `ε` of the
exact ones, which differ by more than `2 ε` (or there is a tie which is also a tie of the computed ones), and the errors of the gain and of the
threshold of the best cut are smaller than the distance between gain and threshold. -/
structure ClearPart (A : Arith K) (lg lgF : K → K) (ent entF : List K → List C → K) (th : Option K) (ε : K) (v : List K) (y : List C) (lo hi : K) :
    Prop where
  near : ∀ p ∈ v, lo < p → p < hi →
    |partitionEntropyF A entF (threeSetsF A lo p hi v) y - partitionEntropy ent (threeSets lo p hi v) y| ≤ ε
  apart : ∀ p ∈ v, ∀ q ∈ v, lo < p → p < hi → lo < q → q < hi → p ≠ q →
    2 * ε < |partitionEntropy ent (threeSets lo p hi v) y - partitionEntropy ent (threeSets lo q hi v) y| ∨
    partitionEntropy ent (threeSets lo p hi v) y = partitionEntropy ent (threeSets lo q hi v) y ∧
      partitionEntropyF A entF (threeSetsF A lo p hi v) y = partitionEntropyF A entF (threeSetsF A lo q hi v) y
  gain : ∀ p, BestCut ent lo hi v y p →
    |cutGainF A entF lo hi v y p - cutGain ent lo hi v y p| + |cutThresholdF A lgF entF th lo hi v y p - cutThreshold lg ent th lo hi v y p| <
      |cutGain ent lo hi v y p - cutThreshold lg ent th lo hi v y p|

end Spec

theorem Spec.BestCut.computed {A : Arith K} {lg lgF : K → K} {ent entF : List K → List C → K} {th : Option K} {ε lo hi : K} {v : List K}
    {y : List C} (hc : ClearPart A lg lgF ent entF th ε v y lo hi) {p : K} (h : BestCut ent lo hi v y p) : BestCutF A entF lo hi v y p := by
  obtain ⟨⟨p1, p2, p3⟩, h4⟩ := h
  refine ⟨⟨p1, p2, p3⟩, fun q q1 q2 q3 => ?_⟩
  by_cases e : p = q
  · subst e
    exact ⟨le_refl _, fun _ => le_refl _⟩
  obtain ⟨g1, g2⟩ := h4 q q1 q2 q3
  rcases hc.apart p p1 q q1 p2 p3 q2 q3 e with hd | ⟨e1, e2⟩
  · rw [abs_sub_comm, abs_of_nonneg (sub_nonneg.2 g1)] at hd
    have n1 := abs_le.1 (hc.near p p1 p2 p3)
    have n2 := abs_le.1 (hc.near q q1 q2 q3)
    have : partitionEntropyF A entF (threeSetsF A lo p hi v) y < partitionEntropyF A entF (threeSetsF A lo q hi v) y := by linarith [n1.2, n2.1]
    exact ⟨this.le, fun e => absurd e.symm this.ne⟩
  · exact ⟨e2.le, fun _ => g2 e1.symm⟩

theorem lt_iff_of_margin {a b a' b' : K} (h : |a' - a| + |b' - b| < |a - b|) : a' < b' ↔ a < b := by
  have h1 := abs_le.1 (le_refl |a' - a|)
  have h2 := abs_le.1 (le_refl |b' - b|)
  rcases lt_or_ge a b with hab | hab
  · rw [abs_of_neg (sub_neg.2 hab)] at h
    exact ⟨fun _ => hab, fun _ => by linarith [h1.2, h2.1]⟩
  · rw [abs_of_nonneg (sub_nonneg.2 hab)] at h
    exact ⟨fun h' => by linarith [h1.1, h2.2], fun h' => absurd h' hab.not_gt⟩

/-- **C202**: rounding does not move the fuzzy points of a column when on every part of the column the roundings (of degrees, sums, entropies,
logarithms, gains and thresholds) are too small to change the order of the possible cuts or the comparison of the gain of the best cut with the
threshold: the points computed in floating point are those of the exact computation. -/
theorem C202_same_points (A : Arith K) (lg lgF : K → K) (ent entF : Bool → List K → List C → K) (th : Option K) (maxDepth : Nat) (v : List K)
    (y : List C) (hlen : v.length = y.length) (hex : ∃ a ∈ v, ∃ b ∈ v, a ≠ b) (low : K) (hlow : low ∈ v ∧ ∀ x ∈ v, low ≤ x) (ε : K)
    (hclear : ∀ depth v' y' lo hi, Part ent v y low depth v' y' lo → IsTop v' hi →
      ClearPart A lg lgF (ent (depth != 0)) (entF (depth != 0)) th ε v' y' lo hi) :
    ∃ pts, entropyPoints lg ent th maxDepth v y = .ok pts ∧ entropyPointsF A lgF (pureEnt entF) th maxDepth v y = .ok pts := by
  obtain ⟨lo, pts, ⟨a1, a2⟩, a3, a4⟩ := C133_cuts lg ent th maxDepth v y hlen hex
  obtain ⟨lo', pts', ⟨b1, b2⟩, b3, b4⟩ := C201_cuts A lgF entF th maxDepth v y hlen hex
  obtain rfl : lo = low := le_antisymm (a2 low hlow.1) (hlow.2 lo a1)
  obtain rfl : lo' = lo := le_antisymm (b2 lo a1) (a2 lo' b1)
  have key : ∀ depth v' y' l p, Discretized lg ent th maxDepth depth v' y' l p → Part ent v y lo' depth v' y' l →
      DiscretizedF A lgF entF th maxDepth depth v' y' l p := by
    intro depth v' y' l p h
    induction h with
    | few depth v y lo hd hv => exact fun _ => .few depth v y lo hd hv
    | whole depth v y lo hi hv htop hno =>
      intro hpart
      have hc := hclear _ _ _ _ _ hpart htop
      refine .whole depth v y lo hi hv htop ?_
      rcases hno with h | h | ⟨q, hq, hlt⟩
      · exact Or.inl h
      · exact Or.inr (Or.inl h)
      · exact Or.inr (Or.inr ⟨q, hq.computed hc, (lt_iff_of_margin (hc.gain q hq)).2 hlt⟩)
    | cut depth v y lo hi p l r pts hv htop hd hp hg hl hr hpts ihl ihr =>
      intro hpart
      have hc := hclear _ _ _ _ _ hpart htop
      refine .cut depth v y lo hi p l r pts hv htop hd (hp.computed hc) ?_ (ihl (.left hpart htop hp)) (ihr (.right hpart htop hp)) hpts
      exact not_lt.1 fun h => absurd ((lt_iff_of_margin (hc.gain p hp)).1 h) hg.not_gt
  have := key 0 v y lo' pts ((a4 pts).2 rfl) .all
  exact ⟨pts, a3, (b4 pts).1 this ▸ b3⟩

theorem leftSum_id (l : List K) : leftSum (exactArith : Arith K).fl l = l.sum := by
  unfold leftSum
  rw [List.sum_eq_foldl]
  rfl

theorem weightedEntropyF_exact (ent : List K → List C → K) (tri : List (List K)) (y : List C) :
    weightedEntropyF exactArith (fun t y => .ok (ent t y)) tri y = .ok (weightedEntropy ent tri y) := by
  rw [weightedEntropyF_pure]
  unfold partitionEntropyF weightedEntropy
  rw [leftSum_id]
  rfl

theorem bestPointF_exact (ent : List K → List C → K) (v : List K) (y : List C) (lo hi : K) :
    bestPointF exactArith (fun t y => .ok (ent t y)) v y lo hi = bestPoint ent v y lo hi := by
  unfold bestPointF bestPoint
  congr 1
  funext s p
  unfold bestPointStepF bestPointStep
  simp only [weightedEntropyF_exact, py_bind_ok]
  rfl

theorem gainThresholdF_exact (lg : K → K) (ent : List K → List C → K) (th : Option K) (global best : List (List K)) (y : List C) (n : Nat) :
    gainThresholdF exactArith lg (fun t y => .ok (ent t y)) th global best y n = gainThreshold lg ent th global best y n := by
  obtain ⟨d, h1, h2⟩ := deltaPointF_pure exactArith lg ent global best y
  unfold gainThresholdF gainThreshold
  rw [h1]
  have hd : d = deltaPoint lg ent global best y := by
    rw [h2]
    unfold deltaPoint classesIn partitionEntropyF weightedEntropy
    simp only [leftSum_id, ← List.card_toFinset]
    rfl
  rw [hd]
  cases th <;> rfl

/-- in exact arithmetic the points are those of the exact model. -/
theorem entropyPointsF_exact (lg : K → K) (ent : Bool → List K → List C → K) (th : Option K) (maxDepth : Nat) (v : List K) (y : List C) :
    entropyPointsF exactArith lg (pureEnt ent) th maxDepth v y = entropyPoints lg ent th maxDepth v y := by
  have key : ∀ fuel v y lo depth, discretizeF exactArith lg (pureEnt ent) th maxDepth fuel v y lo depth =
      discretize lg ent th maxDepth fuel v y lo depth := by
    intro fuel
    induction fuel with
    | zero => intros; rfl
    | succ fuel ih =>
      intro v y lo depth
      unfold discretizeF discretize splitPointF splitPoint
      have he : pureEnt ent (depth != 0) = fun t y => .ok (ent (depth != 0) t y) := rfl
      simp only [he, bestPointF_exact, weightedEntropyF_exact, gainThresholdF_exact, ih, py_bind_ok]
      rfl
  unfold entropyPointsF entropyPoints
  simp only [key]

/-- the entropy of the code in exact arithmetic. -/
theorem fuzzyEntropyF_exact {C : Type} [LinearOrder C] (lg : K → K) (mu : List K) (y : List C) (hmu : ∀ x ∈ mu, 0 ≤ x) (hlen : mu.length = y.length) :
    fuzzyEntropyF exactArith lg mu y = .ok (fuzzyEntropy lg mu y) := by
  have hcard : ∀ c, classCardF exactArith mu y c = classCard mu y c := by
    intro c
    unfold classCardF classCard
    show List.sum _ = _
    generalize mu.zip y = z
    induction z with
    | nil => rfl
    | cons a z ih =>
      by_cases h : a.2 = c
      · simp [h, ih]
      · simp [h, ih]
  have hle : ∀ c, classCard mu y c ≤ mu.sum := by
    intro c
    unfold classCard
    have : mu.sum = ((mu.zip y).map Prod.fst).sum := by rw [List.map_fst_zip (by omega)]
    rw [this]
    apply List.sum_le_sum
    intro p hp
    split
    · exact le_refl _
    · exact hmu _ (List.of_mem_zip hp).1
  unfold fuzzyEntropyF fuzzyEntropy
  have : ∀ (l : List C) (s : K), l.foldlM (fuzzyEntropyStepF exactArith lg mu y) s = .ok (s + (l.map (fun c =>
      if 0 < classCard mu y c then -(classCard mu y c / mu.sum) * lg (classCard mu y c / mu.sum) else 0)).sum) := by
    intro l
    induction l with
    | nil => intro s; simp [py_pure]
    | cons c l ih =>
      intro s
      rw [List.foldlM_cons]
      unfold fuzzyEntropyStepF
      rw [hcard]
      by_cases hc : 0 < classCard mu y c
      · rw [if_pos hc]
        have hpos : 0 < classCard mu y c / mu.sum := div_pos hc (hc.trans_le (hle c))
        show ((log2F lg (classCard mu y c / mu.sum) >>= fun l => pure (s + -(classCard mu y c / mu.sum) * l)) >>= fun init =>
          l.foldlM (fuzzyEntropyStepF exactArith lg mu y) init) = _
        unfold log2F
        rw [if_pos hpos]
        simp only [py_bind_ok, py_pure, ih]
        simp [hc, add_assoc]
      · rw [if_neg hc]
        simp only [List.map_cons, List.sum_cons, if_neg hc, zero_add]
        exact ih s
  rw [this, zero_add]

/-! ### examples -/

/-- the entropy of the examples, for arrays and for tuples. -/
def exCutEnt : Bool → List ℚ → List Nat → ℚ := fun _ => cutEnt

example : ∃ lo pts, (lo ∈ ([1, 2, 4, 4] : List ℚ) ∧ ∀ x ∈ ([1, 2, 4, 4] : List ℚ), lo ≤ x) ∧
    entropyPointsF binary64 id (pureEnt exCutEnt) (some (1 / 100)) 0 [1, 2, 4, 4] [0, 1, 1, 1] = .ok pts ∧
    ∀ pts', DiscretizedF binary64 id exCutEnt (some (1 / 100)) 0 0 [1, 2, 4, 4] [0, 1, 1, 1] lo pts' ↔ pts' = pts :=
  C201_cuts _ _ _ _ _ _ _ rfl ⟨1, by simp, 2, by simp, by norm_num⟩

/-- the parts of the column `[1, 2, 4, 4]`. -/
theorem exParts {depth : Nat} {v : List ℚ} {y : List Nat} {lo : ℚ} (h : Part exCutEnt [1, 2, 4, 4] [0, 1, 1, 1] 1 depth v y lo) :
    (depth = 0 ∧ v = [1, 2, 4, 4] ∧ y = [0, 1, 1, 1] ∧ lo = 1) ∨ (v = [1, 2] ∧ lo = 1) ∨ (v = [4, 4] ∧ lo = 2) := by
  induction h with
  | all => exact Or.inl ⟨rfl, rfl, rfl, rfl⟩
  | @left depth v y lo hi p h htop hp ih =>
    obtain ⟨⟨p1, p2, p3⟩, -⟩ := hp
    rcases ih with ⟨-, rfl, rfl, rfl⟩ | ⟨rfl, rfl⟩ | ⟨rfl, rfl⟩
    · have : hi = 4 := le_antisymm (by have := htop.1; revert this; simp; rintro (rfl | rfl | rfl) <;> norm_num) (htop.2 4 (by simp))
      have hp : p = 2 := by revert p1; simp; rintro (rfl | rfl | rfl) <;> first | rfl | (exfalso; linarith)
      subst hp
      exact Or.inr (Or.inl ⟨by decide +kernel, rfl⟩)
    · exfalso
      have h1 := htop.1
      simp at p1 h1
      rcases p1 with rfl | rfl <;> rcases h1 with rfl | rfl <;> linarith
    · exfalso
      have h1 := htop.1
      simp at p1 h1
      subst p1 h1
      linarith
  | @right depth v y lo hi p h htop hp ih =>
    obtain ⟨⟨p1, p2, p3⟩, -⟩ := hp
    rcases ih with ⟨-, rfl, rfl, rfl⟩ | ⟨rfl, rfl⟩ | ⟨rfl, rfl⟩
    · have : hi = 4 := le_antisymm (by have := htop.1; revert this; simp; rintro (rfl | rfl | rfl) <;> norm_num) (htop.2 4 (by simp))
      have hp : p = 2 := by revert p1; simp; rintro (rfl | rfl | rfl) <;> first | rfl | (exfalso; linarith)
      subst hp
      exact Or.inr (Or.inr ⟨by decide +kernel, rfl⟩)
    · exfalso
      have h1 := htop.1
      simp at p1 h1
      rcases p1 with rfl | rfl <;> rcases h1 with rfl | rfl <;> linarith
    · exfalso
      have h1 := htop.1
      simp at p1 h1
      subst p1 h1
      linarith

/-- on this column (whose degrees 2/3 and 1/3 are rounded) double precision gives the exact points. -/
example : ∃ pts, entropyPoints id exCutEnt (some (1 / 100)) 0 [1, 2, 4, 4] [0, 1, 1, 1] = .ok pts ∧
    entropyPointsF binary64 id (pureEnt exCutEnt) (some (1 / 100)) 0 [1, 2, 4, 4] [0, 1, 1, 1] = .ok pts := by
  refine C202_same_points binary64 id id exCutEnt exCutEnt (some (1 / 100)) 0 _ _ rfl ⟨1, by simp, 2, by simp, by norm_num⟩ 1
    ⟨by simp, by decide +kernel⟩ (1 / 1000) ?_
  intro depth v y lo hi hpart htop
  have inside : ∀ p ∈ v, lo < p → p < hi → depth = 0 ∧ v = [1, 2, 4, 4] ∧ y = [0, 1, 1, 1] ∧ lo = 1 ∧ hi = 4 ∧ p = 2 := by
    intro p hp h1 h2
    have ht := htop.1
    rcases exParts hpart with ⟨rfl, rfl, rfl, rfl⟩ | ⟨rfl, rfl⟩ | ⟨rfl, rfl⟩
    · have : hi = 4 := le_antisymm (by revert ht; simp; rintro (rfl | rfl | rfl) <;> norm_num) (htop.2 4 (by simp))
      exact ⟨rfl, rfl, rfl, rfl, this, by revert hp; simp; rintro (rfl | rfl | rfl) <;> first | rfl | (exfalso; linarith)⟩
    · exfalso
      simp at hp ht
      rcases hp with rfl | rfl <;> rcases ht with rfl | rfl <;> linarith
    · exfalso
      simp at hp ht
      subst hp ht
      linarith
  refine ⟨?_, ?_, ?_⟩
  · intro p hp h1 h2
    obtain ⟨rfl, rfl, rfl, rfl, rfl, rfl⟩ := inside p hp h1 h2
    decide +kernel
  · intro p hp q hq h1 h2 h3 h4 hne
    exact absurd ((inside p hp h1 h2).2.2.2.2.2.trans (inside q hq h3 h4).2.2.2.2.2.symm) hne
  · intro p hp
    obtain ⟨rfl, rfl, rfl, rfl, rfl, rfl⟩ := inside p hp.1.1 hp.1.2.1 hp.1.2.2
    unfold exCutEnt
    decide +kernel

end Teacher
