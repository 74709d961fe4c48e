import Verif.Spec.RoundedDisc
import Verif.Spec.IEEE
import Verif.Props.Discretize
import Verif.Props.IEEE
import Verif.Props.RoundedFit

/-!
# C199-C200: the entropy discretisation in floating point
-/

set_option linter.unusedSectionVars false

namespace Teacher
open Spec

section
variable {C K : Type} [Field K] [LinearOrder K] [IsStrictOrderedRing K]

/-! ### results with two outcomes -/

/-- a computation ends with a value satisfying `P`, or with an error satisfying `bad`. -/
def Outcome {α : Type} (r : Py α) (P : α → Prop) (bad : PyErr → Prop) : Prop := (∃ a, r = .ok a ∧ P a) ∨ ∃ e, r = .error e ∧ bad e

theorem Outcome.ret {α : Type} {a : α} {P : α → Prop} {bad : PyErr → Prop} (h : P a) : Outcome (pure a : Py α) P bad := Or.inl ⟨a, rfl, h⟩

theorem Outcome.bind {α β : Type} {r : Py α} {f : α → Py β} {P : α → Prop} {Q : β → Prop} {bad : PyErr → Prop} (h : Outcome r P bad)
    (hf : ∀ a, P a → Outcome (f a) Q bad) : Outcome (r >>= f) Q bad := by
  rcases h with ⟨a, rfl, ha⟩ | ⟨e, rfl, he⟩
  · exact hf a ha
  · exact Or.inr ⟨e, rfl, he⟩

theorem Outcome.foldlM {α β : Type} {f : β → α → Py β} {P : β → Prop} {bad : PyErr → Prop} (l : List α) (b : β) (hb : P b)
    (hf : ∀ b, P b → ∀ a ∈ l, Outcome (f b a) P bad) : Outcome (l.foldlM f b) P bad := by
  induction l generalizing b with
  | nil => exact Outcome.ret hb
  | cons a l ih =>
    rw [List.foldlM_cons]
    exact (hf b hb a (by simp)).bind fun b' hb' => ih b' hb' fun b hb a ha => hf b hb a (by simp [ha])

theorem Outcome.mono {α : Type} {r : Py α} {P Q : α → Prop} {bad worse : PyErr → Prop} (h : Outcome r P bad) (hP : ∀ a, P a → Q a)
    (hb : ∀ e, bad e → worse e) : Outcome r Q worse := by
  rcases h with ⟨a, h1, h2⟩ | ⟨e, h1, h2⟩
  · exact Or.inl ⟨a, h1, hP a h2⟩
  · exact Or.inr ⟨e, h1, hb e h2⟩

/-! ### the recursion -/

/-- all the members of a triangle are degrees of the column. -/
def TriOf (A : Arith K) (col : List K) (tri : List (List K)) : Prop := ∀ t ∈ tri, ColumnDegrees A col t

theorem triangle3F_ok {A : Arith K} {col v : List K} {lo p hi : K} (hv : v.Sublist col) (hlo : lo ∈ col) (hp : p ∈ col) (hhi : hi ∈ col)
    (h1 : lo ≤ p) (h2 : p ≤ hi) {bad : PyErr → Prop} : Outcome (triangle3F A v lo p hi) (TriOf A col) bad := by
  unfold triangle3F trimfF
  rw [if_pos ⟨le_refl _, h1⟩, if_pos ⟨h1, h2⟩, if_pos ⟨h2, le_refl _⟩]
  refine Or.inl ⟨_, rfl, ?_⟩
  intro t ht
  simp only [List.mem_cons, List.not_mem_nil, or_false] at ht
  rcases ht with rfl | rfl | rfl
  · exact ⟨v, lo, lo, p, hv, hlo, hlo, hp, le_refl _, h1, rfl⟩
  · exact ⟨v, lo, p, hi, hv, hlo, hp, hhi, h1, h2, rfl⟩
  · exact ⟨v, p, hi, hi, hv, hp, hhi, hhi, h2, le_refl _, rfl⟩

theorem triangle2F_ok {A : Arith K} {col v : List K} {lo hi : K} (hv : v.Sublist col) (hlo : lo ∈ col) (hhi : hi ∈ col)
    (h : lo ≤ hi) {bad : PyErr → Prop} : Outcome (triangle2F A v lo hi) (TriOf A col) bad := by
  unfold triangle2F trimfF
  rw [if_pos ⟨le_refl _, h⟩, if_pos ⟨h, le_refl _⟩]
  refine Or.inl ⟨_, rfl, ?_⟩
  intro t ht
  simp only [List.mem_cons, List.not_mem_nil, or_false] at ht
  rcases ht with rfl | rfl
  · exact ⟨v, lo, lo, hi, hv, hlo, hlo, hhi, le_refl _, h, rfl⟩
  · exact ⟨v, lo, hi, hi, hv, hlo, hhi, hhi, h, le_refl _, rfl⟩

/-- the error comes from an entropy of degrees of the column. -/
def EntError (A : Arith K) (ent : Bool → List K → List C → Py K) (col : List K) (e : PyErr) : Prop :=
  ∃ b mu y, ColumnDegrees A col mu ∧ ent b mu y = .error e

theorem ent_outcome {A : Arith K} (ent : Bool → List K → List C → Py K) {col : List K} (b : Bool) {t : List K} (ht : ColumnDegrees A col t)
    (y : List C) : Outcome (ent b t y) (fun _ => True) (EntError A ent col) := by
  rcases h : ent b t y with e | x
  · exact Or.inr ⟨e, rfl, b, t, y, ht, h⟩
  · exact Or.inl ⟨x, rfl, trivial⟩

theorem weightedEntropyF_outcome {A : Arith K} (ent : Bool → List K → List C → Py K) {col : List K} (b : Bool) {tri : List (List K)}
    (ht : TriOf A col tri) (y : List C) : Outcome (weightedEntropyF A (ent b) tri y) (fun _ => True) (EntError A ent col) := by
  unfold weightedEntropyF
  refine (Outcome.foldlM (P := fun _ => True) _ _ trivial ?_).bind fun _ _ => Outcome.ret trivial
  intro s _ t htt
  exact (ent_outcome ent b (ht t htt) y).bind fun _ _ => Outcome.ret trivial

theorem gainThresholdF_outcome [DecidableEq C] {A : Arith K} (lg : K → K) (ent : Bool → List K → List C → Py K) (th : Option K) {col : List K}
    (b : Bool) {global best : List (List K)} (hg : TriOf A col global) (hb : TriOf A col best) (y : List C) {n : Nat} (hn : 1 < n) :
    Outcome (gainThresholdF A lg (ent b) th global best y n) (fun _ => True) (EntError A ent col) := by
  unfold gainThresholdF
  refine Outcome.bind (P := fun _ => True) ?_ ?_
  · unfold deltaPointF
    refine (weightedEntropyF_outcome ent b hg y).bind fun _ _ => ?_
    refine (Outcome.foldlM (P := fun _ => True) _ _ trivial ?_).bind fun _ _ => Outcome.ret trivial
    intro s _ t htt
    exact (ent_outcome ent b (hb t htt) y).bind fun _ _ => Outcome.ret trivial
  · intro d _
    cases th with
    | some t => exact Outcome.ret trivial
    | none =>
      simp only
      rw [if_neg (by omega)]
      exact Outcome.ret trivial

theorem bestPointF_outcome {A : Arith K} (ent : Bool → List K → List C → Py K) {col : List K} (b : Bool) (v : List K) (y : List C) (lo hi : K)
    (h : ∀ x ∈ v, lo ≤ x ∧ x ≤ hi) (hv : v.Sublist col) (hlo : lo ∈ col) (hhi : hi ∈ col) :
    Outcome (bestPointF A (ent b) v y lo hi)
      (fun s => ∀ p, s = some p → p.1 ∈ v ∧ p.1 ≠ lo ∧ p.1 ≠ hi ∧ TriOf A col p.2.2) (EntError A ent col) := by
  unfold bestPointF
  refine Outcome.foldlM _ _ (by simp) ?_
  intro s hs x hx
  rw [mem_npUnique] at hx
  unfold bestPointStepF
  by_cases hc : x ≠ lo ∧ x ≠ hi
  · rw [if_pos hc]
    refine (triangle3F_ok hv hlo (hv.subset hx) hhi (h x hx).1 (h x hx).2).bind fun tri htri => ?_
    refine (weightedEntropyF_outcome ent b htri y).bind fun w _ => ?_
    rcases s with _ | ⟨p₀, w₀, tri₀⟩
    · refine Outcome.ret ?_
      intro p hp
      cases hp
      exact ⟨hx, hc.1, hc.2, htri⟩
    · refine Outcome.ret ?_
      intro p hp
      split at hp
      · cases hp; exact ⟨hx, hc.1, hc.2, htri⟩
      · cases hp; exact hs _ rfl
  · rw [if_neg hc]
    exact Outcome.ret hs

theorem splitPointF_outcome [DecidableEq C] {A : Arith K} (lg : K → K) (ent : Bool → List K → List C → Py K) (th : Option K)
    (maxDepth depth : Nat) {col : List K} (b : Bool) (v : List K) (y : List C) (lo hi : K)
    (h : ∀ x ∈ v, lo ≤ x ∧ x ≤ hi) (hlen : 1 < v.length) (hv : v.Sublist col) (hlo : lo ∈ col) (hhi : hi ∈ col) :
    Outcome (splitPointF A lg (ent b) th maxDepth depth v y lo hi)
      (fun s => ∀ p, s = some p → p ∈ v ∧ p ≠ lo ∧ p ≠ hi ∧ (depth < maxDepth ∨ maxDepth = 0)) (EntError A ent col) := by
  have hlohi : lo ≤ hi := by
    obtain ⟨x, hx⟩ := List.exists_mem_of_length_pos (show 0 < v.length by omega)
    exact (h x hx).1.trans (h x hx).2
  unfold splitPointF
  refine (bestPointF_outcome ent b v y lo hi h hv hlo hhi).bind fun s hs => ?_
  refine (triangle2F_ok hv hlo hhi hlohi).bind fun g hg => ?_
  refine (weightedEntropyF_outcome ent b hg y).bind fun gw _ => ?_
  refine (gainThresholdF_outcome lg ent th b hg (best := bestTriangle s) ?_ y hlen).bind fun t _ => Outcome.ret ?_
  · rcases s with _ | p
    · intro t ht; simp [bestTriangle] at ht
    · exact (hs p rfl).2.2.2
  · intro p hp
    rcases s with _ | ⟨q, w, tri⟩
    · simp at hp
    · obtain ⟨b1, b2, b3, -⟩ := hs _ rfl
      simp only at hp
      split at hp
      · rename_i hc
        cases hp
        exact ⟨b1, b2, b3, hc.1⟩
      · cases hp

/-- induction principle for the results in floating point, see `discretize_induct`: a property of (column, lower point, remaining splits,
points) that holds for the leaves and is kept by a split holds for every result. -/
theorem discretizeF_induct [DecidableEq C] (A : Arith K) (lg : K → K) (ent : Bool → List K → List C → Py K) (th : Option K) (maxDepth : Nat)
    (P : List K → K → Nat → List K → Prop)
    (hleaf : ∀ v lo hi depth, hi ∈ v → (∀ x ∈ v, lo ≤ x ∧ x ≤ hi) → (∃ x ∈ v, lo < x) → P v lo depth [lo, hi])
    (hsplit : ∀ v lo hi depth p l r, hi ∈ v → (∀ x ∈ v, lo ≤ x ∧ x ≤ hi) → p ∈ v → lo < p → p < hi →
      (depth < maxDepth ∨ maxDepth = 0) →
      (if 1 < (v.filter (· ≤ p)).length then P (v.filter (· ≤ p)) lo (depth + 1) l else l = []) →
      (if 1 < (v.filter (p < ·)).length then P (v.filter (p < ·)) p (depth + 1) r else r = []) →
      P v lo depth (npUnique (l ++ r))) :
    ∀ (fuel : Nat) (v : List K) (y : List C) (lo : K) (depth : Nat), v.length = y.length → v.length < fuel + 1 → 1 < v.length →
      (∀ x ∈ v, lo ≤ x) → (∃ x ∈ v, lo < x) → ∀ col : List K, v.Sublist col → lo ∈ col →
      Outcome (discretizeF A lg ent th maxDepth (fuel + 1) v y lo depth) (P v lo depth) (EntError A ent col) := by
  intro fuel
  induction fuel with
  | zero => intro v y lo depth _ h1 h2; omega
  | succ fuel ih =>
    intro v y lo depth hlen hfuel h1 hlo hex col hcol hloc
    have hne : v ≠ [] := by intro h; rw [h] at h1; simp at h1
    obtain ⟨hi, hhi, hmem, hmax⟩ := npMax_ok hne
    have hb : ∀ x ∈ v, lo ≤ x ∧ x ≤ hi := fun x hx => ⟨hlo x hx, hmax x hx⟩
    unfold discretizeF
    rw [hhi]
    simp only [py_bind_ok]
    refine (splitPointF_outcome lg ent th maxDepth depth (depth != 0) v y lo hi hb h1 hcol hloc (hcol.subset hmem)).bind fun s hsp => ?_
    cases s with
    | none => exact Outcome.ret (hleaf v lo hi depth hmem hb hex)
    | some p =>
      obtain ⟨hpv, hplo, hphi, hd⟩ := hsp p rfl
      have hlop : lo < p := lt_of_le_of_ne (hlo p hpv) (Ne.symm hplo)
      have hphi' : p < hi := lt_of_le_of_ne (hmax p hpv) hphi
      have hfst : ∀ q : K → Bool, (((v.zip y).filter (fun t => q t.1)).map Prod.fst) = v.filter q := by
        intro q
        have : v = (v.zip y).map Prod.fst := by rw [List.map_fst_zip (by omega)]
        conv_rhs => rw [this]
        rw [List.filter_map]
        rfl
      have hl := hfst (fun x => decide (x ≤ p))
      have hr := hfst (fun x => decide (p < x))
      have hllen : (v.filter (· ≤ p)).length + (v.filter (p < ·)).length = v.length := by
        have := List.length_eq_length_filter_add (l := v) (fun x => decide (x ≤ p))
        have e : (fun x : K => !decide (x ≤ p)) = fun x => decide (p < x) := by funext x; simp [← not_le]
        rw [e] at this
        exact this.symm
      have hpl : p ∈ v.filter (· ≤ p) := by simp [hpv]
      have hhr : hi ∈ v.filter (p < ·) := by simp [hmem, hphi']
      have hl0 : 0 < (v.filter (· ≤ p)).length := List.length_pos_of_mem hpl
      have hr0 : 0 < (v.filter (p < ·)).length := List.length_pos_of_mem hhr
      have hL : Outcome (branchPoints (fun v y => discretizeF A lg ent th maxDepth (fuel + 1) v y lo (depth + 1))
          ((v.zip y).filter (fun q => q.1 ≤ p)))
          (fun l => if 1 < (v.filter (· ≤ p)).length then P (v.filter (· ≤ p)) lo (depth + 1) l else l = []) (EntError A ent col) := by
        have hlen' : ((v.zip y).filter (fun q => q.1 ≤ p)).length = (v.filter (· ≤ p)).length := by
          rw [← hl, List.length_map]
        unfold branchPoints
        rw [hlen', hl]
        by_cases hc : 1 < (v.filter (· ≤ p)).length
        · simp only [if_pos hc]
          apply ih
          · rw [List.length_map, hlen']
          · omega
          · exact hc
          · intro x hx; exact hlo x (List.mem_filter.1 hx).1
          · exact ⟨p, hpl, hlop⟩
          · exact (List.filter_sublist).trans hcol
          · exact hloc
        · simp only [if_neg hc]
          exact Outcome.ret rfl
      have hR : Outcome (branchPoints (fun v y => discretizeF A lg ent th maxDepth (fuel + 1) v y p (depth + 1))
          ((v.zip y).filter (fun q => p < q.1)))
          (fun r => if 1 < (v.filter (p < ·)).length then P (v.filter (p < ·)) p (depth + 1) r else r = []) (EntError A ent col) := by
        have hlen' : ((v.zip y).filter (fun q => p < q.1)).length = (v.filter (p < ·)).length := by
          rw [← hr, List.length_map]
        unfold branchPoints
        rw [hlen', hr]
        by_cases hc : 1 < (v.filter (p < ·)).length
        · simp only [if_pos hc]
          apply ih
          · rw [List.length_map, hlen']
          · omega
          · exact hc
          · intro x hx; exact le_of_lt (by simpa using (List.mem_filter.1 hx).2)
          · exact ⟨hi, hhr, hphi'⟩
          · exact (List.filter_sublist).trans hcol
          · exact hcol.subset hpv
        · simp only [if_neg hc]
          exact Outcome.ret rfl
      exact hL.bind fun l hl2 => hR.bind fun r hr2 => Outcome.ret (hsplit v lo hi depth p l r hmem hb hpv hlop hphi' hd hl2 hr2)
theorem entropyPointsF_of_induct [DecidableEq C] (A : Arith K) (lg : K → K) (ent : Bool → List K → List C → Py K) (th : Option K) (maxDepth : Nat)
    (P : List K → K → Nat → List K → Prop)
    (hleaf : ∀ v lo hi depth, hi ∈ v → (∀ x ∈ v, lo ≤ x ∧ x ≤ hi) → (∃ x ∈ v, lo < x) → P v lo depth [lo, hi])
    (hsplit : ∀ v lo hi depth p l r, hi ∈ v → (∀ x ∈ v, lo ≤ x ∧ x ≤ hi) → p ∈ v → lo < p → p < hi →
      (depth < maxDepth ∨ maxDepth = 0) →
      (if 1 < (v.filter (· ≤ p)).length then P (v.filter (· ≤ p)) lo (depth + 1) l else l = []) →
      (if 1 < (v.filter (p < ·)).length then P (v.filter (p < ·)) p (depth + 1) r else r = []) →
      P v lo depth (npUnique (l ++ r)))
    (v : List K) (y : List C) (hlen : v.length = y.length) (hex : ∃ a ∈ v, ∃ b ∈ v, a ≠ b) :
    ∃ lo, lo ∈ v ∧ (∀ x ∈ v, lo ≤ x) ∧ Outcome (entropyPointsF A lg ent th maxDepth v y) (P v lo 0) (EntError A ent v) := by
  obtain ⟨a, ha, b, hb, hab⟩ := hex
  obtain ⟨lo, h1, h2, h3⟩ := npMin_ok (List.ne_nil_of_mem ha)
  have hlt : ∃ x ∈ v, lo < x := by
    rcases lt_or_gt_of_ne hab with h | h
    · exact ⟨b, hb, lt_of_le_of_lt (h3 a ha) h⟩
    · exact ⟨a, ha, lt_of_le_of_lt (h3 b hb) h⟩
  have hl : 1 < v.length := by
    by_contra h
    have : v.length = 1 := by
      have := List.length_pos_of_mem ha
      omega
    obtain ⟨z, hz⟩ := List.length_eq_one_iff.1 this
    rw [hz] at ha hb
    simp only [List.mem_singleton] at ha hb
    exact hab (ha.trans hb.symm)
  refine ⟨lo, h2, h3, ?_⟩
  unfold entropyPointsF
  rw [h1]
  exact discretizeF_induct A lg ent th maxDepth P hleaf hsplit v.length v y lo 0 hlen (by omega) hl h3 hlt v (List.Sublist.refl _) h2

theorem Outcome.of_ok {α : Type} {r : Py α} {P : α → Prop} {bad : PyErr → Prop} (h : Outcome r P bad) {a : α} (hr : r = .ok a) : P a := by
  rcases h with ⟨b, h1, h2⟩ | ⟨e, h1, -⟩
  · rw [hr] at h1
    cases h1
    exact h2
  · rw [hr] at h1
    cases h1

theorem pointsF_increasing [DecidableEq C] {A : Arith K} {lg : K → K} {ent : Bool → List K → List C → Py K} {th : Option K} {maxDepth : Nat}
    {v : List K} {y : List C} (hlen : v.length = y.length) (hex : ∃ a ∈ v, ∃ b ∈ v, a ≠ b) {pts : List K}
    (h1 : entropyPointsF A lg ent th maxDepth v y = .ok pts) :
    ∃ lo, pts.Pairwise (· < ·) ∧ (∀ x ∈ pts, x ∈ v) ∧ pts.head? = some lo ∧ ∀ x ∈ v, lo ≤ x := by
  obtain ⟨lo, h2, h3, ho⟩ := entropyPointsF_of_induct A lg ent th maxDepth
    (fun v lo _ pts => pts.Pairwise (· < ·) ∧ (∀ x ∈ pts, x = lo ∨ x ∈ v) ∧ (∀ x ∈ pts, lo ≤ x) ∧ (lo ∈ v → lo ∈ pts))
    (by
      intro v lo hi depth hhi hb ⟨x, hx, hlt⟩
      have : lo < hi := lt_of_lt_of_le hlt (hb x hx).2
      refine ⟨by simp [this], ?_, ?_, by simp⟩
      · intro z hz
        simp only [List.mem_cons, List.not_mem_nil, or_false] at hz
        rcases hz with rfl | rfl
        · exact Or.inl rfl
        · exact Or.inr hhi
      · intro z hz
        simp only [List.mem_cons, List.not_mem_nil, or_false] at hz
        rcases hz with rfl | rfl
        · exact le_refl _
        · exact le_of_lt this)
    (by
      intro v lo hi depth p l r hhi hb hpv hlo hphi hd hl hr
      refine ⟨npUnique_pairwise _, ?_, ?_, ?_⟩
      · intro x hx
        rw [mem_npUnique, List.mem_append] at hx
        rcases hx with hx | hx
        · split at hl
          · rcases hl.2.1 x hx with h | h
            · exact Or.inl h
            · exact Or.inr (List.mem_filter.1 h).1
          · rw [hl] at hx; simp at hx
        · split at hr
          · rcases hr.2.1 x hx with h | h
            · exact Or.inr (h ▸ hpv)
            · exact Or.inr (List.mem_filter.1 h).1
          · rw [hr] at hx; simp at hx
      · intro x hx
        rw [mem_npUnique, List.mem_append] at hx
        rcases hx with hx | hx
        · split at hl
          · exact hl.2.2.1 x hx
          · rw [hl] at hx; simp at hx
        · split at hr
          · exact (le_of_lt hlo).trans (hr.2.2.1 x hx)
          · rw [hr] at hx; simp at hx
      · intro hlov
        rw [if_pos (length_filter_pos_of v p lo hpv hlov hlo)] at hl
        rw [mem_npUnique, List.mem_append]
        exact Or.inl (hl.2.2.2 (by simp [hlov, le_of_lt hlo])))
    v y hlen hex
  obtain ⟨h4, h5, h6, h7⟩ := ho.of_ok h1
  refine ⟨lo, h4, ?_, ?_, h3⟩
  · intro x hx
    rcases h5 x hx with rfl | h
    · exact h2
    · exact h
  · have hin := h7 h2
    cases pts with
    | nil => simp at hin
    | cons z zs =>
      simp only [List.head?_cons, Option.some.injEq]
      rcases List.mem_cons.1 hin with h | h
      · exact h.symm
      · have := (List.pairwise_cons.1 h4).1 lo h
        exact absurd (h6 z (by simp)) (not_le.2 this)

theorem pointsF_last [DecidableEq C] {A : Arith K} {lg : K → K} {ent : Bool → List K → List C → Py K} {th : Option K} {maxDepth : Nat}
    {v : List K} {y : List C} (hlen : v.length = y.length) (hex : ∃ a ∈ v, ∃ b ∈ v, a ≠ b) {pts : List K}
    (h1 : entropyPointsF A lg ent th maxDepth v y = .ok pts)
    (top : K) (htop : ∀ x ∈ v, x ≤ top) (htwice : 2 ≤ v.count top) : pts.getLast? = some top := by
  obtain ⟨lo, h2, h3, h4, h5⟩ := pointsF_increasing hlen hex h1
  obtain ⟨lo', g2, g3, ho⟩ := entropyPointsF_of_induct A lg ent th maxDepth
    (fun v _ _ pts => ∀ top, (∀ x ∈ v, x ≤ top) → 2 ≤ v.count top → top ∈ pts)
    (by
      intro v lo hi depth hhi hb _ top htop h2
      have : hi = top := le_antisymm (htop hi hhi) ((hb top (List.count_pos_iff.1 (by omega))).2)
      simp [this])
    (by
      intro v lo hi depth p l r hhi hb hpv hlo hphi hd hl hr top htop h2
      have e : hi = top := le_antisymm (htop hi hhi) ((hb top (List.count_pos_iff.1 (by omega))).2)
      rw [e] at hphi
      have hc := count_filter_gt v p top hphi
      have hlen : 1 < (v.filter (p < ·)).length := lt_of_lt_of_le (by omega) (List.count_le_length (a := top))
      rw [if_pos hlen] at hr
      rw [mem_npUnique, List.mem_append]
      exact Or.inr (hr top (fun x hx => htop x (List.mem_filter.1 hx).1) (by omega)))
    v y hlen hex
  have hin := ho.of_ok h1 top htop htwice
  have hne : pts ≠ [] := List.ne_nil_of_mem hin
  rw [List.getLast?_eq_some_getLast hne]
  congr 1
  apply le_antisymm
  · exact htop _ (h3 _ (List.getLast_mem hne))
  · obtain ⟨pre, z, rfl⟩ : ∃ pre z, pts = pre ++ [z] := ⟨pts.dropLast, pts.getLast hne, (List.dropLast_append_getLast hne).symm⟩
    simp only [List.getLast_append_singleton]
    rcases List.mem_append.1 hin with h | h
    · exact le_of_lt ((List.pairwise_append.1 h2).2.2 top h z (by simp))
    · simp only [List.mem_singleton] at h
      exact le_of_eq h

theorem pointsF_length [DecidableEq C] {A : Arith K} {lg : K → K} {ent : Bool → List K → List C → Py K} {th : Option K} {maxDepth : Nat}
    {v : List K} {y : List C} (hlen : v.length = y.length) (hex : ∃ a ∈ v, ∃ b ∈ v, a ≠ b) {pts : List K}
    (h1 : entropyPointsF A lg ent th maxDepth v y = .ok pts) (hd : 0 < maxDepth) :
    pts.length ≤ 2 ^ maxDepth + 1 := by
  obtain ⟨lo, h2, h3, ho⟩ := entropyPointsF_of_induct A lg ent th maxDepth
    (fun v lo depth pts => pts.Nodup ∧ (depth ≤ maxDepth → ∀ hi ∈ v, (∀ x ∈ v, x ≤ hi) →
      ((insert hi pts.toFinset).erase lo).card ≤ 2 ^ (maxDepth - depth)))
    (by
      intro v lo hi depth hhi hb ⟨x, hx, hlt⟩
      have hl : lo < hi := lt_of_lt_of_le hlt (hb x hx).2
      refine ⟨by simp [hl.ne], ?_⟩
      intro _ hi' hhi' htop
      have e : hi' = hi := le_antisymm ((hb hi' hhi').2) (htop hi hhi)
      subst e
      have : ((insert hi' [lo, hi'].toFinset).erase lo) ⊆ {hi'} := by
        intro z hz
        simp only [List.toFinset_cons, List.toFinset_nil, Finset.mem_erase, Finset.mem_insert, Finset.notMem_empty,
          or_false, Finset.mem_singleton] at hz ⊢
        tauto
      calc _ ≤ ({hi'} : Finset K).card := Finset.card_le_card this
        _ = 1 := Finset.card_singleton _
        _ ≤ _ := Nat.one_le_two_pow)
    (by
      intro v lo hi depth p l r hhi hb hpv hlo hphi hdep hl hr
      refine ⟨npUnique_nodup _, ?_⟩
      intro _ hi' hhi' htop
      have e : hi' = hi := le_antisymm ((hb hi' hhi').2) (htop hi hhi)
      subst e
      have hdlt : depth < maxDepth := by rcases hdep with h | h <;> omega
      have hpow : 2 ^ (maxDepth - depth) = 2 ^ (maxDepth - (depth + 1)) + 2 ^ (maxDepth - (depth + 1)) := by
        rw [← two_mul, ← Nat.pow_succ']
        congr 1
        omega
      have hL : ((insert p l.toFinset).erase lo).card ≤ 2 ^ (maxDepth - (depth + 1)) := by
        split at hl
        · apply hl.2 hdlt p (by simp [hpv])
          intro x hx
          simpa using (List.mem_filter.1 hx).2
        · rw [hl]
          calc _ ≤ (insert p ([] : List K).toFinset).card := Finset.card_erase_le
            _ = 1 := by simp
            _ ≤ _ := Nat.one_le_two_pow
      have hR : ((insert hi' r.toFinset).erase p).card ≤ 2 ^ (maxDepth - (depth + 1)) := by
        split at hr
        · apply hr.2 hdlt hi' (by simp [hhi', hphi])
          intro x hx
          exact htop x (List.mem_filter.1 hx).1
        · rw [hr]
          calc _ ≤ (insert hi' ([] : List K).toFinset).card := Finset.card_erase_le
            _ = 1 := by simp
            _ ≤ _ := Nat.one_le_two_pow
      have hsub : ((insert hi' (npUnique (l ++ r)).toFinset).erase lo) ⊆
          ((insert p l.toFinset).erase lo) ∪ ((insert hi' r.toFinset).erase p) := by
        intro z hz
        simp only [Finset.mem_erase, Finset.mem_insert, List.mem_toFinset, mem_npUnique, List.mem_append,
          Finset.mem_union] at hz ⊢
        obtain ⟨hz1, hz2⟩ := hz
        by_cases hzp : z = p
        · left; exact ⟨hz1, Or.inl hzp⟩
        · rcases hz2 with h | h | h
          · right; exact ⟨hzp, Or.inl h⟩
          · left; exact ⟨hz1, Or.inr h⟩
          · right; exact ⟨hzp, Or.inr h⟩
      calc _ ≤ _ := Finset.card_le_card hsub
        _ ≤ _ := Finset.card_union_le _ _
        _ ≤ _ := Nat.add_le_add hL hR
        _ = _ := hpow.symm)
    v y hlen hex
  obtain ⟨h4, h5⟩ := ho.of_ok h1
  obtain ⟨hi, -, hhi, hmax⟩ := npMax_ok (List.ne_nil_of_mem h2)
  have := h5 (Nat.zero_le _) hi hhi hmax
  rw [Nat.sub_zero] at this
  have hsub : pts.toFinset ⊆ insert lo ((insert hi pts.toFinset).erase lo) := by
    intro z hz
    simp only [Finset.mem_insert, Finset.mem_erase]
    by_cases h : z = lo
    · exact Or.inl h
    · exact Or.inr ⟨h, Or.inr hz⟩
  have hc := (Finset.card_le_card hsub).trans (Finset.card_insert_le _ _)
  rw [List.toFinset_card_of_nodup h4] at hc
  omega

theorem pointsF_good [DecidableEq C] {A : Arith K} {lg : K → K} {ent : Bool → List K → List C → Py K} {th : Option K} {maxDepth : Nat}
    {v : List K} {y : List C} (hlen : v.length = y.length) (hex : ∃ a ∈ v, ∃ b ∈ v, a ≠ b) {pts : List K}
    (h1 : entropyPointsF A lg ent th maxDepth v y = .ok pts) :
    GoodPoints v maxDepth pts := by
  obtain ⟨lo, g1, g2, g3, g4⟩ := pointsF_increasing hlen hex h1
  exact ⟨g1, g2, ⟨lo, g3, g4⟩, fun top ht h2 => pointsF_last hlen hex h1 top ht h2, fun hd => pointsF_length hlen hex h1 hd⟩

/-- **C199**: for every rounding, every order of summation, every computed logarithm and whatever the computed entropies are, the entropy
discretisation of a column with two different values ends; when all the entropies it asks for (of degrees of rows of the column in triangles
made of values of the column) can be computed, it returns increasing values of the column from the smallest one on, the last one is the largest
value if that occurs twice, and `max_depth` bounds their number; otherwise it raises the exception of such an entropy. -/
theorem C199_points [DecidableEq C] (A : Arith K) (lg : K → K) (ent : Bool → List K → List C → Py K) (th : Option K) (maxDepth : Nat)
    (v : List K) (y : List C) (hlen : v.length = y.length) (hex : ∃ a ∈ v, ∃ b ∈ v, a ≠ b) :
    (∃ pts, entropyPointsF A lg ent th maxDepth v y = .ok pts ∧ GoodPoints v maxDepth pts) ∨
      ∃ e, entropyPointsF A lg ent th maxDepth v y = .error e ∧ ∃ b mu y', ColumnDegrees A v mu ∧ ent b mu y' = .error e := by
  obtain ⟨lo, -, -, ho⟩ := entropyPointsF_of_induct A lg ent th maxDepth (fun _ _ _ _ => True) (fun _ _ _ _ _ _ _ => trivial)
    (fun _ _ _ _ _ _ _ _ _ _ _ _ _ _ _ => trivial) v y hlen hex
  rcases ho with ⟨pts, h1, -⟩ | ⟨e, h1, h2⟩
  · exact Or.inl ⟨pts, h1, pointsF_good hlen hex h1⟩
  · exact Or.inr ⟨e, h1, h2⟩

/-- **C199**: a column with one row fails with `ValueError` or with the exception of an entropy when no threshold is given, and an empty column
always fails with `ValueError`. -/
theorem C199_too_short [DecidableEq C] (A : Arith K) (lg : K → K) (ent : Bool → List K → List C → Py K) (maxDepth : Nat) (x : K) (c : C) :
    (∃ e, entropyPointsF A lg ent none maxDepth [x] [c] = .error e ∧ (e = .valueError ∨ ∃ b mu y', ent b mu y' = .error e)) ∧
      ∀ th, entropyPointsF A lg ent th maxDepth ([] : List K) ([] : List C) = .error .valueError := by
  refine ⟨?_, fun _ => rfl⟩
  have h1 : bestPointF A (ent false) [x] [c] x x = .ok none := by
    unfold bestPointF npUnique
    simp [bestPointStepF]
  have h2 : triangle2F A [x] x x = .ok [[trimfAtF A x x x x], [trimfAtF A x x x x]] := by
    unfold triangle2F trimfF
    simp [py_bind_ok]
  have hcol : TriOf A [x] [[trimfAtF A x x x x], [trimfAtF A x x x x]] := by
    intro t ht
    have : t = [x].map (trimfAtF A x x x) := by simpa using ht
    exact ⟨[x], x, x, x, List.Sublist.refl _, by simp, by simp, by simp, le_refl _, le_refl _, this⟩
  have key : Outcome (entropyPointsF A lg ent none maxDepth [x] [c]) (fun _ => False)
      (fun e => e = .valueError ∨ ∃ b mu y', ent b mu y' = .error e) := by
    have hbad : ∀ e, EntError A ent [x] e → (e = .valueError ∨ ∃ b mu y', ent b mu y' = .error e) := by
      rintro e ⟨b, mu, y', -, h⟩
      exact Or.inr ⟨b, mu, y', h⟩
    unfold entropyPointsF npMin pyMin
    simp only [List.foldl_nil, py_bind_ok, List.length_singleton]
    unfold discretizeF
    simp only [npMax, List.foldl_nil, py_bind_ok, bne_self_eq_false]
    refine Outcome.bind (P := fun _ => False) ?_ (fun _ h => h.elim)
    unfold splitPointF
    rw [h1]
    simp only [py_bind_ok, h2]
    refine ((weightedEntropyF_outcome ent false hcol [c]).mono (fun _ h => h) hbad).bind fun gw _ => ?_
    refine Outcome.bind (P := fun _ => False) ?_ (fun _ h => h.elim)
    unfold gainThresholdF
    refine Outcome.bind (P := fun _ => True) ?_ ?_
    · refine Outcome.mono (?_ : Outcome _ (fun _ => True) (EntError A ent [x])) (fun _ h => h) hbad
      unfold deltaPointF
      refine (weightedEntropyF_outcome ent false hcol [c]).bind fun _ _ => ?_
      exact Outcome.ret trivial
    · intro _ _
      exact Or.inr ⟨_, rfl, Or.inl rfl⟩
  rcases key with ⟨_, _, h⟩ | h
  · exact h.elim
  · exact h

/-! ### the entropy -/

section entropy
variable {A : Arith K} {u η : K}

/-- **C200**: the entropy of degrees of one class only is exactly 0. -/
theorem C200_pure [LinearOrder C] (hA : Lawful A u η) {lg : K → K} (h1 : lg 1 = 0) {mu : List K} {y : List C} {c : C}
    (hlen : mu.length = y.length) (hy : ∀ d ∈ y, d = c) : fuzzyEntropyF A lg mu y = .ok 0 := by
  have hcard : ∀ d ∈ y, classCardF A mu y d = A.sum mu := by
    intro d hd
    unfold classCardF
    have e : (mu.zip y).filter (fun p => decide (p.2 = d)) = mu.zip y := by
      rw [List.filter_eq_self]
      intro p hp
      have := (List.of_mem_zip hp).2
      simp [hy _ this, hy d hd]
    rw [e, List.map_fst_zip (by omega)]
  unfold fuzzyEntropyF
  have : ∀ l : List C, (∀ d ∈ l, d ∈ y) → l.foldlM (fuzzyEntropyStepF A lg mu y) 0 = .ok 0 := by
    intro l
    induction l with
    | nil => intro _; rfl
    | cons d l ih =>
      intro hl
      rw [List.foldlM_cons]
      have : fuzzyEntropyStepF A lg mu y 0 d = .ok 0 := by
        unfold fuzzyEntropyStepF
        rw [hcard d (hl d (by simp))]
        split
        · rename_i hp
          simp only [div_self hp.ne', hA.one, log2F, if_pos zero_lt_one, h1, py_bind_ok, mul_zero, hA.zero, add_zero, py_pure]
        · rfl
      rw [this]
      exact ih fun d hd => hl d (by simp [hd])
  exact this _ fun d hd => (mem_npUnique y d).1 hd

/-- **C200**: an entropy can only fail with `ValueError`, exactly when the share of a class with a positive sum of degrees is rounded to 0. -/
theorem C200_error_iff [LinearOrder C] (A : Arith K) (lg : K → K) (mu : List K) (y : List C) :
    (∃ e, fuzzyEntropyF A lg mu y = .ok e) ∧ (∀ c ∈ y, 0 < classCardF A mu y c → 0 < A.fl (classCardF A mu y c / A.sum mu)) ∨
    fuzzyEntropyF A lg mu y = .error .valueError ∧
      ∃ c ∈ y, 0 < classCardF A mu y c ∧ A.fl (classCardF A mu y c / A.sum mu) ≤ 0 := by
  have key : ∀ (l : List C) (s : K),
      (∃ e, l.foldlM (fuzzyEntropyStepF A lg mu y) s = .ok e) ∧
        (∀ c ∈ l, 0 < classCardF A mu y c → 0 < A.fl (classCardF A mu y c / A.sum mu)) ∨
      l.foldlM (fuzzyEntropyStepF A lg mu y) s = .error .valueError ∧
        ∃ c ∈ l, 0 < classCardF A mu y c ∧ A.fl (classCardF A mu y c / A.sum mu) ≤ 0 := by
    intro l
    induction l with
    | nil => intro s; exact Or.inl ⟨⟨s, rfl⟩, by simp⟩
    | cons c l ih =>
      intro s
      rw [List.foldlM_cons]
      by_cases hc : 0 < classCardF A mu y c
      · by_cases hr : 0 < A.fl (classCardF A mu y c / A.sum mu)
        · have e : ∃ s', fuzzyEntropyStepF A lg mu y s c = .ok s' := by
            unfold fuzzyEntropyStepF log2F
            rw [if_pos hc]
            simp only [if_pos hr, py_bind_ok]
            exact ⟨_, rfl⟩
          obtain ⟨s', hs⟩ := e
          rw [hs]
          rcases ih s' with ⟨h1, h2⟩ | ⟨h1, d, hd, h2⟩
          · refine Or.inl ⟨h1, ?_⟩
            intro d hd
            rcases List.mem_cons.1 hd with rfl | hd
            · exact fun _ => hr
            · exact h2 d hd
          · exact Or.inr ⟨h1, d, by simp [hd], h2⟩
        · refine Or.inr ⟨?_, c, by simp, hc, not_lt.1 hr⟩
          unfold fuzzyEntropyStepF log2F
          rw [if_pos hc]
          simp only [if_neg hr]
          rfl
      · have e : fuzzyEntropyStepF A lg mu y s c = .ok s := by
          unfold fuzzyEntropyStepF
          rw [if_neg hc]
          rfl
        rw [e]
        rcases ih s with ⟨h1, h2⟩ | ⟨h1, d, hd, h2⟩
        · refine Or.inl ⟨h1, ?_⟩
          intro d hd
          rcases List.mem_cons.1 hd with rfl | hd
          · exact fun h => absurd h hc
          · exact h2 d hd
        · exact Or.inr ⟨h1, d, by simp [hd], h2⟩
  rcases key (npUnique y) 0 with ⟨h1, h2⟩ | ⟨h1, c, hc, h2⟩
  · exact Or.inl ⟨h1, fun c hc => h2 c ((mem_npUnique y c).2 hc)⟩
  · exact Or.inr ⟨h1, c, (mem_npUnique y c).1 hc, h2⟩

theorem classCardF_sub (mu : List K) (y : List C) (c : C) [DecidableEq C] :
    (((mu.zip y).filter (fun p => p.2 = c)).map Prod.fst).Sublist mu := by
  refine (List.filter_sublist.map Prod.fst).trans ?_
  induction mu generalizing y with
  | nil => simp
  | cons a mu ih =>
    cases y with
    | nil => simp
    | cons d y => simpa using ih y

/-- **C200**, proved part: when sums of more degrees are not smaller (`SumSublist`, true for summation from left to right), a computed entropy is
not negative. Missing: other orders of summation, for which it is false (`C200_nonneg_false`). -/
theorem C200_nonneg_partial [LinearOrder C] (hA : Lawful A u η) (hsub : SumSublist A) {lg : K → K}
    (hlg : ∀ x, 0 < x → x ≤ 1 → lg x ≤ 0) {mu : List K} {y : List C} (hmu : ∀ x ∈ mu, A.fl x = x ∧ 0 ≤ x) {e : K}
    (h : fuzzyEntropyF A lg mu y = .ok e) : 0 ≤ e := by
  have step : ∀ s c, 0 ≤ s → Outcome (fuzzyEntropyStepF A lg mu y s c) (fun s => 0 ≤ s) (fun _ => True) := by
    intro s c hs
    unfold fuzzyEntropyStepF
    split
    · rename_i hc
      set r := A.fl (classCardF A mu y c / A.sum mu) with hr
      have hle : classCardF A mu y c ≤ A.sum mu := hsub _ _ (classCardF_sub mu y c) hmu
      have hr1 : r ≤ 1 := by
        rw [← hA.one, hr]
        exact hA.mono _ _ ((div_le_one (hc.trans_le hle)).2 hle)
      show Outcome (log2F lg r >>= fun l => pure (A.fl (s + A.fl (-r * l)))) _ _
      unfold log2F
      by_cases hr0 : 0 < r
      · rw [if_pos hr0]
        refine Outcome.ret ?_
        have h1 : 0 ≤ -r * lg r := by
          have := mul_nonneg hr0.le (neg_nonneg.2 (hlg r hr0 hr1))
          linarith
        have h2 : 0 ≤ A.fl (-r * lg r) := hA.zero ▸ hA.mono _ _ h1
        exact hA.zero ▸ hA.mono _ _ (add_nonneg hs h2)
      · rw [if_neg hr0]
        exact Or.inr ⟨_, rfl, trivial⟩
    · exact Outcome.ret hs
  have := Outcome.foldlM (P := fun s : K => 0 ≤ s) (bad := fun _ => True) (f := fuzzyEntropyStepF A lg mu y) (npUnique y) 0 (le_refl _)
    (fun s hs c _ => step s c hs)
  exact this.of_ok h

/-- left to right summation satisfies the hypothesis of `C200_nonneg_partial`. -/
theorem C200_left_sum (hA : Lawful A u η) : SumSublist (⟨A.fl, leftSum A.fl⟩ : Arith K) := by
  intro xs ys h hxs
  unfold leftSum
  simp only
  have : ∀ (xs ys : List K), ys.Sublist xs → (∀ x ∈ xs, A.fl x = x ∧ 0 ≤ x) → ∀ s t, s ≤ t → A.fl t = t →
      ys.foldl (fun s x => A.fl (s + x)) s ≤ xs.foldl (fun s x => A.fl (s + x)) t := by
    intro xs ys h
    induction h with
    | slnil => intro _ s t hst _; simpa using hst
    | cons a _ ih =>
      intro hx s t hst ht
      simp only [List.foldl_cons]
      refine ih (fun x hx' => hx x (by simp [hx'])) s _ ?_ (hA.idem _)
      refine hst.trans ?_
      conv_lhs => rw [← ht]
      exact hA.mono _ _ (le_add_of_nonneg_right (hx a (by simp)).2)
    | cons_cons a _ ih =>
      intro hx s t hst ht
      simp only [List.foldl_cons]
      exact ih (fun x hx' => hx x (by simp [hx'])) _ _ (hA.mono _ _ (by linarith)) (hA.idem _)
  exact this xs ys h hxs 0 0 (le_refl _) hA.zero

theorem columnDegrees_spec (hA : Lawful A u η) {col mu : List K} (hcol : ∀ x ∈ col, IsFloat A x) (h : ColumnDegrees A col mu) :
    ∀ x ∈ mu, IsFloat A x ∧ 0 ≤ x ∧ x ≤ 1 := by
  obtain ⟨v, a, b, c, hv, ha, hb, hc, -, -, rfl⟩ := h
  intro x hx
  obtain ⟨z, hz, rfl⟩ := List.mem_map.1 hx
  obtain ⟨h1, h2, -, h4⟩ := trimfAtF_spec hA (hcol a ha) (hcol b hb) (hcol c hc) (hcol z (hv.subset hz))
  exact ⟨h4, h1, h2⟩

/-- differences of floating point numbers are computed up to a factor. -/
theorem fl_diff_bounds (hA : Lawful A u η) {x y : K} (hx : IsFloat A x) (hy : IsFloat A y) (h : x < y) :
    (1 - u) * (y - x) ≤ A.fl (y - x) ∧ A.fl (y - x) ≤ (1 + u) * (y - x) ∧ 0 < A.fl (y - x) := by
  have h1 := hA.sub_err y x hy hx
  rw [abs_of_pos (sub_pos.2 h)] at h1
  have h2 := abs_le.1 h1
  have h3 : 0 < (1 - u) * (y - x) := mul_pos (sub_pos.2 hA.u_lt) (sub_pos.2 h)
  refine ⟨by nlinarith [h2.1], by nlinarith [h2.2], by nlinarith [h2.1]⟩

/-- a positive degree is not smaller than the rounded quotient of the smallest and the largest difference of values of the column. -/
theorem columnDegrees_pos (hA : Lawful A u η) {col mu : List K} {M : K} (hcol : ∀ x ∈ col, IsFloat A x) (hM : 1 ≤ M)
    (hr : ∀ a ∈ col, ∀ b ∈ col, ∀ c ∈ col, ∀ d ∈ col, a < b → c < d → d - c ≤ M * (b - a))
    (h : ColumnDegrees A col mu) : ∀ x ∈ mu, 0 < x → A.fl ((1 - u) / ((1 + u) * M)) ≤ x := by
  have hu0 := hA.u_nonneg
  have hu1 := hA.u_lt
  have hden : 0 < (1 + u) * M := mul_pos (by linarith) (by linarith)
  have quot : ∀ a ∈ col, ∀ b ∈ col, ∀ c ∈ col, ∀ d ∈ col, a < b → c < d →
      A.fl ((1 - u) / ((1 + u) * M)) ≤ A.fl (A.fl (b - a) / A.fl (d - c)) := by
    intro a ha b hb c hc d hd hab hcd
    obtain ⟨p1, -, p3⟩ := fl_diff_bounds hA (hcol a ha) (hcol b hb) hab
    obtain ⟨-, q2, q3⟩ := fl_diff_bounds hA (hcol c hc) (hcol d hd) hcd
    apply hA.mono
    rw [div_le_div_iff₀ hden q3]
    have e1 : (1 - u) * A.fl (d - c) ≤ (1 - u) * ((1 + u) * (M * (b - a))) :=
      mul_le_mul_of_nonneg_left (q2.trans (mul_le_mul_of_nonneg_left (hr a ha b hb c hc d hd hab hcd) (by linarith))) (by linarith)
    have e2 : (1 - u) * (b - a) * ((1 + u) * M) ≤ A.fl (b - a) * ((1 + u) * M) := mul_le_mul_of_nonneg_right p1 hden.le
    calc _ ≤ _ := e1
      _ = (1 - u) * (b - a) * ((1 + u) * M) := by ring
      _ ≤ _ := e2
  obtain ⟨v, a, b, c, hv, ha, hb, hc, -, -, rfl⟩ := h
  intro x hx hpos
  obtain ⟨z, hz, rfl⟩ := List.mem_map.1 hx
  have hzc := hv.subset hz
  unfold trimfAtF at hpos ⊢
  split
  · refine (hA.mono _ 1 ?_).trans hA.one.le
    rw [div_le_one hden]
    nlinarith
  · rename_i h1
    rw [if_neg h1] at hpos
    split
    · rename_i h2
      exact quot z hzc c hc b hb c hc h2.2.2 (h2.2.1.trans h2.2.2)
    · rename_i h2
      rw [if_neg h2] at hpos
      split
      · rename_i h3
        exact quot a ha z hzc a ha b hb h3.2.1 (h3.2.1.trans h3.2.2)
      · rename_i h3
        rw [if_neg h3] at hpos
        exact absurd hpos (lt_irrefl _)

/-- **C200**, proved part: with the entropy of the code (which is 0 when the comparison of the classes selects nothing, see
`Model/Discretize.lean`), the discretisation of a column with two different values succeeds, if the largest difference of two values is at most
`M` times the smallest one and if the smallest possible degree divided by the number of rows is not rounded to 0. Missing: columns with an
underflow, for which it is false (`C200_underflow_false`). -/
theorem C200_succeeds_partial [LinearOrder C] (hA : Lawful A u η) (lg : K → K) (ent : Bool → List K → List C → Py K)
    (hent : ∀ b, (∀ mu y, ent b mu y = fuzzyEntropyF A lg mu y) ∨ ∀ mu y, ent b mu y = .ok 0) (th : Option K) (maxDepth : Nat)
    (v : List K) (y : List C) (hlen : v.length = y.length) (hex : ∃ a ∈ v, ∃ b ∈ v, a ≠ b) (hv : ∀ x ∈ v, IsFloat A x) {M : K} (hM : 1 ≤ M)
    (hr : ∀ a ∈ v, ∀ b ∈ v, ∀ c ∈ v, ∀ d ∈ v, a < b → c < d → d - c ≤ M * (b - a))
    (hpos : ∀ m, 1 ≤ m → m ≤ v.length → 0 < A.fl (A.fl ((1 - u) / ((1 + u) * M)) / A.sum (List.replicate m 1))) :
    ∃ pts, entropyPointsF A lg ent th maxDepth v y = .ok pts ∧ GoodPoints v maxDepth pts := by
  rcases C199_points A lg ent th maxDepth v y hlen hex with h | ⟨e, -, b, mu, y', hmu, he⟩
  · exact h
  exfalso
  rcases hent b with hb | hb
  swap
  · rw [hb] at he; cases he
  rw [hb] at he
  have hspec := columnDegrees_spec hA hv hmu
  have hlow := columnDegrees_pos hA hv hM hr hmu
  have hml : mu.length ≤ v.length := by
    obtain ⟨w, _, _, _, hw, _, _, _, _, _, rfl⟩ := hmu
    rw [List.length_map]
    exact hw.length_le
  rcases C200_error_iff A lg mu y' with ⟨⟨x, hx⟩, -⟩ | ⟨-, c, -, hc, hzero⟩
  · rw [hx] at he; cases he
  set sel := ((mu.zip y').filter (fun p => p.2 = c)).map Prod.fst with hsel
  have hsub : sel.Sublist mu := classCardF_sub mu y' c
  have hself : ∀ x ∈ sel, IsFloat A x ∧ 0 ≤ x := fun x hx => ⟨(hspec x (hsub.subset hx)).1, (hspec x (hsub.subset hx)).2.1⟩
  have hcard : classCardF A mu y' c = A.sum sel := rfl
  rw [hcard] at hc hzero
  obtain ⟨x, hx, hx0⟩ := (sumF_pos_iff hA hself).1 hc
  have h1 : A.fl ((1 - u) / ((1 + u) * M)) ≤ A.sum sel := (hlow x (hsub.subset hx) hx0).trans (hA.sum_ge sel hself x hx)
  have hmuf : ∀ x ∈ mu, IsFloat A x ∧ 0 ≤ x := fun x hx => ⟨(hspec x hx).1, (hspec x hx).2.1⟩
  have hs0 : 0 < A.sum mu := (sumF_pos_iff hA hmuf).2 ⟨x, hsub.subset hx, hx0⟩
  have h2 : A.sum mu ≤ A.sum (List.replicate mu.length 1) := by
    apply hA.sum_mono
    clear * - hspec
    induction mu with
    | nil => exact List.Forall₂.nil
    | cons a mu ih =>
      rw [List.length_cons, List.replicate_succ]
      exact List.Forall₂.cons (hspec a (by simp)).2.2 (ih fun x hx => hspec x (by simp [hx]))
  have hm1 : 1 ≤ mu.length := List.length_pos_of_mem (hsub.subset hx)
  have hp := hpos mu.length hm1 hml
  have hδ : 0 ≤ A.fl ((1 - u) / ((1 + u) * M)) := by
    have hu0 := hA.u_nonneg
    have hu1 := hA.u_lt
    rw [← hA.zero]
    exact hA.mono _ _ (div_nonneg (by linarith) (mul_nonneg (by linarith) (by linarith)))
  have h3 : A.fl ((1 - u) / ((1 + u) * M)) / A.sum (List.replicate mu.length 1) ≤ A.sum sel / A.sum mu :=
    div_le_div₀ (hδ.trans h1) h1 hs0 h2
  exact absurd (hp.trans_le ((hA.mono _ _ h3).trans hzero)) (lt_irrefl _)

end entropy

end

/-! ### double precision -/

/-- the integers below `2 ^ p` are floating point numbers. -/
theorem ieee_natCast {p : Nat} {emin : ℤ} (he : emin ≤ 0) {n : Nat} (h : n < 2 ^ p) : ieeeRound p emin (n : ℚ) = n := by
  rcases Nat.eq_zero_or_pos n with rfl | hn
  · simpa using round_zero
  have hlog : Int.log 2 |(n : ℚ)| < p := by
    rw [abs_of_nonneg (Nat.cast_nonneg n)]
    refine (Int.lt_zpow_iff_log_lt (b := 2) (by norm_num) (by exact_mod_cast hn)).1 ?_
    rw [zpow_natCast]
    exact_mod_cast h
  have hle : lastBit p emin (n : ℚ) ≤ 0 := max_le (by omega) he
  obtain ⟨k, hk⟩ := multiple_of_le hle (n : ℤ)
  refine round_multiple (k := k) ?_
  rw [← hk]
  simp

theorem loopOrder_length (i step m : Nat) : (loopOrder i step m).leaves.length = m + 1 := by
  induction m with
  | zero => rfl
  | succ m ih => simp [loopOrder, SumTree.leaves, ih]

theorem foldl_node_length (g : Nat → Nat) (l : List Nat) (t : SumTree) :
    (l.foldl (fun t j => SumTree.node t (.leaf (g j))) t).leaves.length = t.leaves.length + l.length := by
  induction l generalizing t with
  | nil => rfl
  | cons a l ih =>
    rw [List.foldl_cons, ih]
    simp only [SumTree.leaves, List.length_append, List.length_cons, List.length_nil]
    omega

theorem pairwiseOrder_length : ∀ (fuel off n : Nat), n ≤ fuel → 1 ≤ n → (pairwiseOrder fuel off n).leaves.length = n := by
  intro fuel
  induction fuel with
  | zero => intro off n h1 h2; omega
  | succ fuel ih =>
    intro off n h1 h2
    rw [pairwiseOrder]
    split
    · rw [loopOrder_length]; omega
    · split
      · unfold blockOrder
        rw [foldl_node_length (fun j => off + (8 * (n / 8) + j))]
        simp only [SumTree.leaves, List.length_append, loopOrder_length, List.length_range]
        omega
      · simp only [SumTree.leaves, List.length_append]
        rw [ih _ _ (by omega) (by omega), ih _ _ (by omega) (by omega)]
        omega

theorem SumTree_eval_le {fl : ℚ → ℚ} {N : Nat} (hm : ∀ x y, x ≤ y → fl x ≤ fl y) (hn : ∀ n : Nat, n < N → fl (n : ℚ) = n) {xs : List ℚ}
    (h : ∀ x ∈ xs, x ≤ 1) (t : SumTree) (ht : t.leaves.length < N) : t.eval fl xs ≤ t.leaves.length := by
  induction t with
  | leaf i =>
    simp only [SumTree.eval, SumTree.leaves, List.length_singleton, Nat.cast_one]
    rcases hx : xs[i]? with _ | x
    · norm_num
    · exact h x (List.mem_of_getElem? hx)
  | node l r ihl ihr =>
    simp only [SumTree.leaves, List.length_append] at ht
    simp only [SumTree.eval, SumTree.leaves, List.length_append]
    rw [← hn _ ht]
    apply hm
    push_cast
    exact add_le_add (ihl (by omega)) (ihr (by omega))

/-- numpy's sum of fewer than `2 ^ 53` degrees is at most their number. -/
theorem binary64_sum_le {xs : List ℚ} (h : ∀ x ∈ xs, x ≤ 1) (hlen : xs.length < 2 ^ 53) : binary64.sum xs ≤ xs.length := by
  show (if xs = [] then 0 else (numpyOrder xs.length).eval (ieeeRound 53 (-1074)) xs) ≤ _
  split
  · exact Nat.cast_nonneg _
  · rename_i hne
    have hl : (numpyOrder xs.length).leaves.length = xs.length :=
      pairwiseOrder_length _ _ _ le_rfl (List.length_pos_of_ne_nil hne)
    have := SumTree_eval_le (N := 2 ^ 53) (fun x y h => round_mono (p := 53) (emin := -1074) (by norm_num) h)
      (fun n hn => ieee_natCast (by norm_num) hn) h (numpyOrder xs.length) (by rw [hl]; exact hlen)
    rwa [hl] at this

/-- **C200**, proved part, in double precision: the discretisation succeeds for every column with fewer than `2 ^ 53` rows whose largest difference
of two values is at most `2 ^ 1000` times the smallest one. Missing: see `C200_succeeds_partial`. -/
theorem C200_binary64_partial {C : Type} [LinearOrder C] (lg : ℚ → ℚ) (ent : Bool → List ℚ → List C → Py ℚ)
    (hent : ∀ b, (∀ mu y, ent b mu y = fuzzyEntropyF binary64 lg mu y) ∨ ∀ mu y, ent b mu y = .ok 0) (th : Option ℚ) (maxDepth : Nat)
    (v : List ℚ) (y : List C) (hlen : v.length = y.length) (hex : ∃ a ∈ v, ∃ b ∈ v, a ≠ b) (hv : ∀ x ∈ v, IsFloat binary64 x)
    (hrows : v.length < 2 ^ 53) (hr : ∀ a ∈ v, ∀ b ∈ v, ∀ c ∈ v, ∀ d ∈ v, a < b → c < d → d - c ≤ 2 ^ 1000 * (b - a)) :
    ∃ pts, entropyPointsF binary64 lg ent th maxDepth v y = .ok pts ∧ GoodPoints v maxDepth pts := by
  have hA := binary64_lawful
  refine C200_succeeds_partial hA lg ent hent th maxDepth v y hlen hex hv (M := 2 ^ 1000) (one_le_pow₀ (by norm_num)) hr ?_
  intro m h1 h2
  have hs : binary64.sum (List.replicate m 1) ≤ (m : ℚ) := by
    have := binary64_sum_le (xs := List.replicate m 1) (by intro x hx; rw [List.eq_of_mem_replicate hx]) (by simpa using by omega)
    simpa using this
  have hs0 : 0 < binary64.sum (List.replicate m 1) := by
    have := hA.sum_ge (List.replicate m 1) (by
      intro x hx; rw [List.eq_of_mem_replicate hx]; exact ⟨hA.one, zero_le_one⟩) 1 (List.mem_replicate.2 ⟨by omega, rfl⟩)
    linarith
  have hm : (m : ℚ) ≤ 2 ^ 53 := by exact_mod_cast (show m ≤ 2 ^ 53 by omega)
  have e1 : binary64.fl (1 / 2 ^ 1001) = 1 / 2 ^ 1001 := by decide +kernel
  have e2 : binary64.fl (1 / 2 ^ 1054) = 1 / 2 ^ 1054 := by decide +kernel
  have h3 : (1 : ℚ) / 2 ^ 1001 ≤ binary64.fl ((1 - 2 ^ (-53 : ℤ)) / ((1 + 2 ^ (-53 : ℤ)) * 2 ^ 1000)) := by
    conv_lhs => rw [← e1]
    apply hA.mono
    decide +kernel
  have h4 : (1 : ℚ) / 2 ^ 1054 ≤ binary64.fl ((1 - 2 ^ (-53 : ℤ)) / ((1 + 2 ^ (-53 : ℤ)) * 2 ^ 1000)) / binary64.sum (List.replicate m 1) := by
    have : (1 : ℚ) / 2 ^ 1054 = 1 / 2 ^ 1001 / 2 ^ 53 := by rw [div_div, ← pow_add]
    rw [this]
    exact div_le_div₀ (le_trans (by positivity) h3) h3 hs0 (hs.trans hm)
  have h5 := hA.mono _ _ h4
  rw [e2] at h5
  exact lt_of_lt_of_le (by positivity) h5

/-- the entropy of the code in double precision, for arrays and for tuples. -/
def entDbl (lg : ℚ → ℚ) : Bool → List ℚ → List Nat → Py ℚ := fun _ mu y => fuzzyEntropyF binary64 lg mu y

/-- **C200** is false in double precision when a share underflows: the column `[0, 5e-324, 1, 1]` with the classes `[0, 0, 1, 1]` makes
`get_fuzzy_points('entropy', …)` raise `ValueError` (`math.log2(0.0)`), whatever `log2` computes elsewhere, with every threshold and `max_depth`. -/
theorem C200_underflow_false : ∃ (v : List ℚ) (y : List Nat), v.length = y.length ∧ (∀ x ∈ v, IsFloat binary64 x) ∧ (∃ a ∈ v, ∃ b ∈ v, a ≠ b) ∧
    ∀ lg th maxDepth, entropyPointsF binary64 lg (entDbl lg) th maxDepth v y = .error .valueError := by
  refine ⟨[0, 1 / 2 ^ 1074, 1, 1], [0, 0, 1, 1], rfl, ?_, ?_, ?_⟩
  · unfold IsFloat; decide +kernel
  · decide +kernel
  · intro lg th maxDepth
    have hval : ∀ (mu : List ℚ) (y : List Nat) e, fuzzyEntropyF binary64 lg mu y = .error e → e = .valueError := by
      intro mu y e he
      rcases C200_error_iff binary64 lg mu y with ⟨⟨x, hx⟩, -⟩ | ⟨h, -⟩
      · rw [hx] at he; cases he
      · rw [h] at he; cases he; rfl
    have hbad : ∀ e, EntError binary64 (entDbl lg) [0, 1 / 2 ^ 1074, 1, 1] e → e = .valueError := by
      rintro e ⟨_, mu, y', -, h⟩
      exact hval mu y' e h
    have hfail : fuzzyEntropyF binary64 lg [0, 1 / 2 ^ 1074, 1, 1] [0, 0, 1, 1] = .error .valueError := by
      rcases C200_error_iff binary64 lg [0, 1 / 2 ^ 1074, 1, 1] [0, 0, 1, 1] with ⟨-, h⟩ | ⟨h, -⟩
      · exact absurd (h 0 (by simp) (by decide +kernel)) (by decide +kernel)
      · exact h
    have key : Outcome (entropyPointsF binary64 lg (entDbl lg) th maxDepth [0, 1 / 2 ^ 1074, 1, 1] [0, 0, 1, 1]) (fun _ => False)
        (fun e => e = .valueError) := by
      have e1 : npMin [(0 : ℚ), 1 / 2 ^ 1074, 1, 1] = .ok 0 := by decide +kernel
      have e2 : npMax [(0 : ℚ), 1 / 2 ^ 1074, 1, 1] = .ok 1 := by decide +kernel
      have e3 : triangle2F binary64 [(0 : ℚ), 1 / 2 ^ 1074, 1, 1] 0 1 = .ok [[1, 1, 0, 0], [0, 1 / 2 ^ 1074, 1, 1]] := by decide +kernel
      unfold entropyPointsF
      rw [e1]
      simp only [py_bind_ok]
      unfold discretizeF
      rw [e2]
      simp only [py_bind_ok]
      refine Outcome.bind (P := fun _ => False) ?_ (fun _ h => h.elim)
      unfold splitPointF
      refine Outcome.bind (P := fun _ => True) ?_ (fun best _ => ?_)
      · exact (bestPointF_outcome (A := binary64) (entDbl lg) (col := [0, 1 / 2 ^ 1074, 1, 1]) _ _ _ _ _ (by decide +kernel) (List.Sublist.refl _)
          (by simp) (by simp)).mono (fun _ _ => trivial) hbad
      rw [e3]
      simp only [py_bind_ok]
      refine Outcome.bind (P := fun _ => False) ?_ (fun _ h => h.elim)
      unfold weightedEntropyF
      refine Outcome.bind (P := fun _ => False) ?_ (fun _ h => h.elim)
      rw [List.foldlM_cons]
      refine Outcome.bind (P := fun _ => True) ?_ (fun s _ => ?_)
      · unfold weightedEntropyStepF
        refine Outcome.bind (P := fun _ => True) ?_ (fun _ _ => Outcome.ret trivial)
        rcases h : entDbl lg ((0 : Nat) != 0) [1, 1, 0, 0] [0, 0, 1, 1] with e | x
        · exact Or.inr ⟨e, rfl, hval _ _ _ h⟩
        · exact Or.inl ⟨x, rfl, trivial⟩
      · rw [List.foldlM_cons]
        unfold weightedEntropyStepF entDbl
        rw [hfail]
        exact Or.inr ⟨_, rfl, rfl⟩
    rcases key with ⟨_, _, h⟩ | ⟨e, h, rfl⟩
    · exact h.elim
    · exact h

/-- **C200** is false for numpy's order of summation: the degrees of the column `[5, 1, 1, 5, 5, 5, 1, 0]` in the triangle `[0, 5, 5]`, with the
classes `[0, 0, 0, 0, 0, 0, 0, 1]`, have a negative computed entropy (the exact one is 0, the only row of class 1 has degree 0), if
`log2(1 + 2⁻⁵²)` is computed as at least `2⁻⁵³` (it is about `1.44 · 2⁻⁵²`). -/
theorem C200_nonneg_false : ∃ (v : List ℚ) (y : List Nat), v.length = y.length ∧ (∀ x ∈ v, IsFloat binary64 x) ∧
    ColumnDegrees binary64 v (v.map (trimfAtF binary64 0 5 5)) ∧
    ∀ lg : ℚ → ℚ, 1 / 2 ^ 53 ≤ lg (1 + 1 / 2 ^ 52) → ∃ e, fuzzyEntropyF binary64 lg (v.map (trimfAtF binary64 0 5 5)) y = .ok e ∧ e < 0 := by
  refine ⟨[5, 1, 1, 5, 5, 5, 1, 0], [0, 0, 0, 0, 0, 0, 0, 1], rfl, ?_, ?_, ?_⟩
  · unfold IsFloat; decide +kernel
  · exact ⟨_, 0, 5, 5, List.Sublist.refl _, by simp, by simp, by simp, by norm_num, le_refl _, rfl⟩
  · intro lg hlg
    have hA := binary64_lawful
    set mu := List.map (trimfAtF binary64 0 5 5) [5, 1, 1, 5, 5, 5, 1, 0] with hmu
    have e0 : npUnique [0, 0, 0, 0, 0, 0, 0, 1] = [0, 1] := by decide +kernel
    have e1 : 0 < classCardF binary64 mu [0, 0, 0, 0, 0, 0, 0, 1] 0 := by decide +kernel
    have e2 : binary64.fl (classCardF binary64 mu [0, 0, 0, 0, 0, 0, 0, 1] 0 / binary64.sum mu) = 1 + 1 / 2 ^ 52 := by decide +kernel
    have e3 : ¬ 0 < classCardF binary64 mu [0, 0, 0, 0, 0, 0, 0, 1] 1 := by decide +kernel
    have e4 : binary64.fl (-(1 / 2 ^ 53)) = -(1 / 2 ^ 53) := by decide +kernel
    have hval : fuzzyEntropyF binary64 lg mu [0, 0, 0, 0, 0, 0, 0, 1] =
        .ok (binary64.fl (0 + binary64.fl (-(1 + 1 / 2 ^ 52) * lg (1 + 1 / 2 ^ 52)))) := by
      have s0 : fuzzyEntropyStepF binary64 lg mu [0, 0, 0, 0, 0, 0, 0, 1] 0 0 =
          .ok (binary64.fl (0 + binary64.fl (-(1 + 1 / 2 ^ 52) * lg (1 + 1 / 2 ^ 52)))) := by
        unfold fuzzyEntropyStepF log2F
        rw [if_pos e1]
        simp only [e2]
        rw [if_pos (by norm_num)]
        rfl
      unfold fuzzyEntropyF
      rw [e0, List.foldlM_cons, s0]
      simp only [py_bind_ok]
      rw [List.foldlM_cons]
      unfold fuzzyEntropyStepF
      rw [if_neg e3]
      rfl
    refine ⟨_, hval, ?_⟩
    have h1 : binary64.fl (-(1 + 1 / 2 ^ 52) * lg (1 + 1 / 2 ^ 52)) ≤ -(1 / 2 ^ 53) := by
      rw [← e4]
      apply hA.mono
      nlinarith
    have h2 : binary64.fl (0 + binary64.fl (-(1 + 1 / 2 ^ 52) * lg (1 + 1 / 2 ^ 52))) ≤ -(1 / 2 ^ 53) := by
      conv_rhs => rw [← e4]
      apply hA.mono
      linarith
    exact lt_of_le_of_lt h2 (by norm_num)

/-! ### examples -/

/-- a stand-in for `log2` in the examples (`x - 1` is 0 at 1 and negative below). -/
def exLg (x : ℚ) : ℚ := x - 1

example : entropyPointsF binary64 exLg (entDbl exLg) (some (1 / 100)) 0 [1, 2, 4, 4, 7, 7] [0, 0, 1, 1, 0, 0] = .ok [1, 2, 4, 7] := by
  decide +kernel

example : entropyPointsF binary64 exLg (entDbl exLg) none 1 [1, 2, 4, 4, 7, 7] [0, 0, 1, 1, 0, 0] = .ok [1, 7] := by decide +kernel

example : ∃ pts, entropyPointsF binary64 exLg (entDbl exLg) none 2 [1, 2, 4, 4, 7, 7] [0, 0, 1, 1, 0, 0] = .ok pts ∧
    GoodPoints [1, 2, 4, 4, 7, 7] 2 pts :=
  C200_binary64_partial exLg (entDbl exLg) (fun _ => Or.inl fun _ _ => rfl) none 2 _ _ rfl ⟨1, by simp, 2, by simp, by norm_num⟩
    (by unfold IsFloat; decide +kernel) (by norm_num) (by decide +kernel)

example : fuzzyEntropyF binary64 exLg [1, binary64.fl (1 / 3), 0] [7, 7, 7] = .ok 0 :=
  C200_pure binary64_lawful (c := 7) (by norm_num [exLg]) rfl (by simp)

example : fuzzyEntropyF binary64 exLg [1, 1 / 2, 1 / 2] [0, 1, 1] = .ok (1 / 2) := by decide +kernel

/-- the hypotheses of `C200_nonneg_partial` are met by double precision with summation from left to right. -/
example : SumSublist (⟨binary64.fl, leftSum binary64.fl⟩ : Arith ℚ) ∧ ∀ x : ℚ, 0 < x → x ≤ 1 → exLg x ≤ 0 :=
  ⟨C200_left_sum binary64_lawful, fun x _ h => by unfold exLg; linarith⟩

end Teacher
