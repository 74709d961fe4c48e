import Verif.Props.Explainer

/-! # C112-C114: the fidelity, the classes an `FBDTExplainer` accepts, `FID3Explainer` -/

set_option linter.unusedSectionVars false

namespace Teacher

open Spec

section
variable {K : Type} [Field K] [LinearOrder K] [IsStrictOrderedRing K]

theorem f1Of_range (c : Nat) (y p : List Nat) : 0 ≤ (f1Of c y p : K) ∧ (f1Of c y p : K) ≤ 1 := by
  unfold f1Of
  simp only
  generalize (confusion c y p).1 = a
  generalize (confusion c y p).2.1 = b
  generalize (confusion c y p).2.2 = d
  split_ifs with h
  · exact ⟨le_refl _, zero_le_one⟩
  · have hpos : (0 : K) < 2 * a + b + d := by
      have : 0 < 2 * a + b + d := Nat.pos_of_ne_zero h
      exact_mod_cast this
    constructor
    · apply div_nonneg
      · positivity
      · exact hpos.le
    · rw [div_le_one hpos]
      have hb : (0 : K) ≤ b := by positivity
      have hd : (0 : K) ≤ d := by positivity
      linarith

theorem f1Of_eq_one (c : Nat) (y p : List Nat) : (f1Of c y p : K) = 1 ↔
    0 < (confusion c y p).1 ∧ (confusion c y p).2.1 = 0 ∧ (confusion c y p).2.2 = 0 := by
  unfold f1Of
  simp only
  generalize (confusion c y p).1 = a
  generalize (confusion c y p).2.1 = b
  generalize (confusion c y p).2.2 = d
  split_ifs with h
  · simp only [zero_ne_one, false_iff]; omega
  · have hpos : (0 : K) < 2 * a + b + d := by
      have : 0 < 2 * a + b + d := Nat.pos_of_ne_zero h
      exact_mod_cast this
    rw [div_eq_one_iff_eq hpos.ne']
    constructor
    · intro e
      have : 2 * a = 2 * a + b + d := by exact_mod_cast e
      omega
    · rintro ⟨-, rfl, rfl⟩
      simp

/-- F1 of a class is 1 exactly when the class occurs and the two lists agree on where. -/
theorem f1Of_eq_one_iff (c : Nat) {y p : List Nat} (hl : y.length = p.length) :
    (f1Of c y p : K) = 1 ↔ c ∈ y ∧ ∀ q ∈ y.zip p, (q.1 = c ↔ q.2 = c) := by
  rw [f1Of_eq_one]
  unfold confusion
  simp only [List.countP_pos_iff, List.countP_eq_zero, Bool.and_eq_true, decide_eq_true_eq, not_and, ne_eq, decide_not, Bool.not_eq_true',
    decide_eq_false_iff_not]
  constructor
  · rintro ⟨⟨q, hq, h1, h2⟩, h3, h4⟩
    refine ⟨h1 ▸ (List.of_mem_zip hq).1, fun q hq => ⟨fun h => ?_, fun h => ?_⟩⟩
    · by_contra hn; exact h4 q hq h hn
    · by_contra hn; exact h3 q hq hn h
  · rintro ⟨h1, h2⟩
    refine ⟨?_, fun q hq hn h => hn ((h2 q hq).2 h), fun q hq h hn => hn ((h2 q hq).1 h)⟩
    obtain ⟨i, hi, he⟩ := List.mem_iff_getElem.1 h1
    have hi' : i < (y.zip p).length := by simp [List.length_zip]; omega
    refine ⟨(y.zip p)[i], List.getElem_mem _, ?_⟩
    have : (y.zip p)[i].1 = c := by simp [he]
    exact ⟨this, (h2 _ (List.getElem_mem _)).1 this⟩

theorem sum_count_mul (L y : List Nat) (hn : L.Nodup) (hy : ∀ a ∈ y, a ∈ L) (g : Nat → K) :
    (L.map (fun c => (y.count c : K) * g c)).sum = (y.map g).sum := by
  induction y with
  | nil => simp
  | cons a y ih =>
    have h1 : (L.map (fun c => ((a :: y).count c : K) * g c)).sum =
        (L.map (fun c => (y.count c : K) * g c)).sum + (L.map (fun c => if a = c then g c else 0)).sum := by
      rw [← List.sum_map_add]
      congr 1
      apply List.map_congr_left
      intro c _
      rw [List.count_cons]
      by_cases h : a = c
      · subst h; simp [add_mul]
      · simp [h]
    have h2 : (L.map (fun c => if a = c then g c else 0)).sum = g a := by
      rw [← List.sum_toFinset _ hn, Finset.sum_ite_eq, if_pos]
      simpa using hy a (by simp)
    rw [h1, ih (fun b hb => hy b (by simp [hb])), h2, List.map_cons, List.sum_cons, add_comm]

/-- the weighted F1 is the mean, over the rows, of the F1 of their class. -/
theorem f1Weighted_eq (y p : List Nat) : (f1Weighted y p : K) = (y.map (fun c => f1Of c y p)).sum / (y.length : K) := by
  unfold f1Weighted
  rw [sum_count_mul _ _ (npUnique_nodup _) (fun a ha => (mem_npUnique _ _).2 (List.mem_append_left _ ha))]

theorem sum_le_length {l : List K} (h : ∀ x ∈ l, x ≤ 1) : l.sum ≤ l.length ∧ (l.sum = l.length ↔ ∀ x ∈ l, x = 1) := by
  induction l with
  | nil => simp
  | cons a l ih =>
    obtain ⟨h1, h2⟩ := ih (fun x hx => h x (by simp [hx]))
    have ha := h a (by simp)
    simp only [List.sum_cons, List.length_cons, Nat.cast_add, Nat.cast_one]
    refine ⟨by linarith, ?_⟩
    constructor
    · intro e
      have e1 : a = 1 := by linarith
      have e2 : l.sum = l.length := by linarith
      intro x hx
      rcases List.mem_cons.1 hx with rfl | hx
      · exact e1
      · exact h2.1 e2 x hx
    · intro g
      rw [g a (by simp), h2.2 (fun x hx => g x (by simp [hx]))]
      ring

theorem eq_of_zip {y p : List Nat} (hl : y.length = p.length) (h : ∀ q ∈ y.zip p, q.1 = q.2) : y = p := by
  induction y generalizing p with
  | nil => cases p with
    | nil => rfl
    | cons b p => simp at hl
  | cons a y ih =>
    cases p with
    | nil => simp at hl
    | cons b p =>
      have h1 := h (a, b) (by simp)
      simp only at h1
      rw [h1, ih (by simpa using hl) (fun q hq => h q (by simp [hq]))]

theorem zip_self_mem {y : List Nat} {q : Nat × Nat} (h : q ∈ y.zip y) : q.1 = q.2 := by
  induction y with
  | nil => simp at h
  | cons a y ih =>
    rw [List.zip_cons_cons] at h
    rcases List.mem_cons.1 h with rfl | h
    · rfl
    · exact ih h

/-- C114: the fidelity of an explainer is a number between 0 and 1 … -/
theorem C114_fidelity_range (y p : List Nat) (hne : y ≠ []) (f : K) (h : fdtFidelity y p = .ok f ∨ f1Binary y p = .ok f) : 0 ≤ f ∧ f ≤ 1 := by
  have hb : f1Binary y p = .ok f → 0 ≤ f ∧ f ≤ 1 := by
    intro h
    unfold f1Binary at h
    simp only at h
    split at h
    · cases h
    · cases h; exact f1Of_range 1 y p
  rcases h with h | h
  · unfold fdtFidelity at h
    split at h
    · cases h
      rw [f1Weighted_eq]
      have hpos : (0 : K) < y.length := by exact_mod_cast List.length_pos_iff.2 hne
      obtain ⟨h1, -⟩ := sum_le_length (l := y.map (fun c => (f1Of c y p : K)))
        (by intro x hx; obtain ⟨c, -, rfl⟩ := List.mem_map.1 hx; exact (f1Of_range c y p).2)
      constructor
      · apply div_nonneg _ hpos.le
        apply List.sum_nonneg
        intro x hx
        obtain ⟨c, -, rfl⟩ := List.mem_map.1 hx
        exact (f1Of_range c y p).1
      · rw [div_le_one hpos]
        simpa using h1
    · exact hb h
  · exact hb h

/-- C114: … with more than two classes it exists and is 1 exactly when the tree predicts every row of the neighborhood as the black box, and with at most two classes it is so
when class 1 occurs. Missing: a neighborhood without class 1 (`C114_no_class_one_false`). -/
theorem C114_fidelity_one_partial (y p : List Nat) (hl : y.length = p.length) (hne : y ≠ []) :
    (2 < (npUnique y).length → ∃ f : K, fdtFidelity y p = .ok f ∧ (f = 1 ↔ y = p)) ∧
    ((npUnique (y ++ p)).length ≤ 2 → 1 ∈ y → ∃ f : K, fdtFidelity y p = .ok f ∧ f1Binary y p = .ok f ∧ (f = 1 ↔ y = p)) := by
  constructor
  · intro h2
    refine ⟨f1Weighted y p, by unfold fdtFidelity; rw [if_pos h2], ?_⟩
    rw [f1Weighted_eq]
    have hpos : (0 : K) < y.length := by exact_mod_cast List.length_pos_iff.2 hne
    rw [div_eq_one_iff_eq hpos.ne']
    obtain ⟨-, h1⟩ := sum_le_length (l := y.map (fun c => (f1Of c y p : K)))
      (by intro x hx; obtain ⟨c, -, rfl⟩ := List.mem_map.1 hx; exact (f1Of_range c y p).2)
    rw [List.length_map] at h1
    rw [h1]
    constructor
    · intro g
      apply eq_of_zip hl
      intro q hq
      have := (f1Of_eq_one_iff (K := K) q.1 hl).1 (g _ (List.mem_map.2 ⟨q.1, (List.of_mem_zip hq).1, rfl⟩))
      exact ((this.2 q hq).1 rfl).symm
    · rintro rfl x hx
      obtain ⟨c, hc, rfl⟩ := List.mem_map.1 hx
      rw [f1Of_eq_one_iff c rfl]
      exact ⟨hc, fun q hq => by rw [zip_self_mem hq]⟩
  · intro h2 h1
    have hy2 : ¬ 2 < (npUnique y).length := by
      have hsub : (npUnique y).Subperm (npUnique (y ++ p)) := by
        apply List.subperm_of_subset (npUnique_nodup _)
        intro a ha
        rw [mem_npUnique] at ha ⊢
        exact List.mem_append_left _ ha
      have := hsub.length_le
      omega
    have hb : f1Binary y p = .ok (f1Of 1 y p : K) := by
      unfold f1Binary
      simp only
      rw [if_neg]
      rintro (g | ⟨-, g⟩)
      · omega
      · exact g ((mem_npUnique _ _).2 (List.mem_append_left _ h1))
    refine ⟨f1Of 1 y p, by unfold fdtFidelity; rw [if_neg hy2]; exact hb, hb, ?_⟩
    rw [f1Of_eq_one_iff 1 hl]
    constructor
    · rintro ⟨-, g⟩
      apply eq_of_zip hl
      intro q hq
      by_contra hn
      have ha : q.1 ≠ 1 := fun e => hn (by rw [e, (g q hq).1 e])
      have hb' : q.2 ≠ 1 := fun e => ha ((g q hq).2 e)
      have hsub : [1, q.1, q.2].Subperm (npUnique (y ++ p)) := by
        apply List.subperm_of_subset
        · simp [ha.symm, hb'.symm, hn]
        · intro a ha
          rw [mem_npUnique, List.mem_append]
          simp only [List.mem_cons, List.not_mem_nil, or_false] at ha
          rcases ha with rfl | rfl | rfl
          · exact Or.inl h1
          · exact Or.inl (List.of_mem_zip hq).1
          · exact Or.inr (List.of_mem_zip hq).2
      have := hsub.length_le
      simp at this
      omega
    · rintro rfl
      exact ⟨h1, fun q hq => by rw [zip_self_mem hq]⟩

example : (fdtFidelity [0, 1, 2, 1] [0, 1, 2, 2] : Py ℚ) = .ok (3 / 4) ∧ (fdtFidelity [0, 1, 1] [0, 1, 1] : Py ℚ) = .ok 1 ∧
    (fdtFidelity [0, 1, 1] [0, 1, 0] : Py ℚ) = .ok (2 / 3) := by decide +kernel

/-- C114 is false of the code: with a perfect tree the fidelity is 0 when every row of the neighborhood has class 0 (or 2), and there is none
(`ValueError`) when the classes are 0 and 2. -/
theorem C114_no_class_one_false : (fdtFidelity [0, 0, 0] [0, 0, 0] : Py ℚ) = .ok 0 ∧ (fdtFidelity [2, 2] [2, 2] : Py ℚ) = .ok 0 ∧
    (fdtFidelity [0, 2, 0] [0, 2, 0] : Py ℚ) = .error .valueError := by decide +kernel

/-- C114: the fidelity that `fit` stores compares the classes of the neighborhood with the predictions of the tree on its rows. -/
theorem C114_fit_fidelity (cx : ExpCtx K) (a : ExpArgs K) (s s' : EState K (List (Rule String Nat K)) Changes)
    (h : fdtExplainerFit cx a s = (.ok (), s')) :
    ∃ (p : FDTParams K) (X : Frame K) (y cs : List Nat) (t : FNode Nat K) (f : K), TreeParams a p ∧ a.nb.X = some X ∧ a.nb.y = some y ∧
      fdtFit cx.ent cx.ord p fdtNew X.rows y = .ok t ∧ fdtPredict min .agg t X.rows = .ok [cs] ∧ y.length = cs.length ∧ y ≠ [] ∧
      fdtFidelity y cs = .ok f ∧ s'.fidelity = some f := by
  obtain ⟨⟨⟨d, t⟩, pr⟩, f, ⟨d', rs⟩, c, ⟨fact, cf⟩, -, h2, h3, h4, h5, rfl⟩ := explainerFit_ok h
  unfold fdtTrain at h2
  simp only [py_bind_eq_ok] at h2
  obtain ⟨d1, hd, t1, ht, out, ho, pr1, hp, he⟩ := h2
  cases he
  unfold fdtData at hd
  simp only [py_bind_eq_ok] at hd
  obtain ⟨vars, hv, im, him, dec, hdec, X, hX, y, hy, -, -, p, hpar, he⟩ := hd
  cases he
  obtain ⟨e1, e2, e3, e4⟩ := expParams_ok hpar
  obtain ⟨hrect, hlen, -⟩ := fdtFit_ok ht
  obtain ⟨cs, rfl, hcs⟩ := (C26_row_wise min .agg t X.rows hrect).1 out ho
  simp only [firstRow, Except.ok.injEq] at hp
  subst hp
  refine ⟨p, X, y, cs, t, f, ⟨by rw [← e1]; exact expGetter_ok hv, e2, e3, e4⟩, expGetter_ok hX, expGetter_ok hy, ht, ho, ?_, ?_, h3, rfl⟩
  · rw [hcs, ← hlen]
  · rintro rfl
    obtain ⟨_, _, hne, _⟩ := hrect
    exact hne (List.length_eq_zero_iff.1 hlen)

example : (fdtExplainerFit expCtx (expArgs "m_factual" "i_counterfactual" {} 0) {}).2.fidelity = some 1 := by
  rw [expFit_mi]

/-! ### C112 -/

/-- C112 is false of the code: `FBDTExplainer.fit` does not succeed on any neighborhood with more than two classes; when the tree can be
trained it raises `ValueError` (`f1_score` without `average`), having changed nothing but the target. -/
theorem C112_more_classes_false [NanSort K] (cx : ExpCtx K) (a : ExpArgs K) (y : List Nat) (hy : a.nb.y = some y) (h2 : 2 < y.dedup.length)
    (s : EState K (List (Rule (List String) Nat K)) String) :
    (fbdtExplainerFit cx a s).1 ≠ .ok () ∧
    (checkExpArgs a = .ok () → (∃ t, fbdtTrain cx a = .ok t) → fbdtExplainerFit cx a s = (.error .valueError, { s with target := some a.target })) := by
  have hbin : ∀ p : List Nat, (f1Binary y p : Py K) = .error .valueError := by
    intro p
    unfold f1Binary
    simp only
    rw [if_pos]
    left
    have hsub : y.dedup.Subperm (npUnique (y ++ p)) := by
      apply List.subperm_of_subset (List.nodup_dedup y)
      intro c hc
      rw [mem_npUnique]
      exact List.mem_append_left _ (List.mem_dedup.1 hc)
    have := hsub.length_le
    omega
  have htrain : ∀ t, fbdtTrain cx a = .ok t → t.1.1.y = y := by
    intro t h
    unfold fbdtTrain at h
    simp only [py_bind_eq_ok] at h
    obtain ⟨d1, hd, t1, ht, out, ho, pr1, hp, he⟩ := h
    cases he
    unfold fbdtData at hd
    simp only [py_bind_eq_ok] at hd
    obtain ⟨vars, hv, im, him, X, hX, y', hy', p, hpar, he⟩ := hd
    cases he
    have := expGetter_ok hy'
    rw [this] at hy
    cases hy
    rfl
  constructor
  · intro h
    obtain ⟨t, f, r, c, x, -, h1, h3, -⟩ := explainerFit_ok (Prod.ext (x := fbdtExplainerFit cx a s) (y := (.ok (), (fbdtExplainerFit cx a s).2)) h rfl)
    rw [htrain t h1, hbin] at h3
    cases h3
  · rintro hc ⟨t, ht⟩
    unfold fbdtExplainerFit explainerFit
    rw [hc, ht]
    simp only [htrain t ht, hbin]

end

def expThreeNb : NState ℚ where
  X := some ⟨["age", "sex"], exX⟩
  y := some [0, 1, 0, 2, 1]
  vars := some (exParams.vars.map some)
  instMem := (datasetMembership [expRow] exParams.vars).toOption
  decodedInst := some expRow

def expThreeArgs : ExpArgs ℚ := ⟨[expRow], 0, expThreeNb, ["age"], "m_factual", "i_counterfactual", {}⟩

/-- C112: on three classes the `FDTExplainer` can be fitted; the `FBDTExplainer`, with the same arguments, cannot. -/
theorem C112_fdt_three_classes : (fdtExplainerFit expCtx expThreeArgs {}).1 = .ok () ∧
    (fbdtExplainerFit expCtx expThreeArgs {}).1 = .error .valueError := by decide +kernel

section
variable {K : Type} [Field K] [LinearOrder K] [IsStrictOrderedRing K]

/-! ### C113 -/

/-- C113 is false of the code: `FID3Explainer.fit` succeeds on no neighborhood (`ID3.to_rule_based_system()` raises), so `explain` and `hit`
never answer, whatever the calls. -/
theorem C113_fid3_false {A G : Type} (fmt : K → String) (fit : List String → List (List String × Nat) → Py (INode String Nat K))
    (finish : List (Rule String (Option Nat) K) → INode String Nat K → Py (Nat × (Rule String (Option Nat) K × G)))
    (args : A → Nat × NState K) (items : G → Py (List (String × String))) (cs : List (ExpCall A)) :
    let f : A → Act (EState K (Rule String (Option Nat) K) G) Unit := fun a => fid3ExplainerFit fmt fit finish (args a).1 (args a).2
    (∀ a s, ∃ e, (f a s).1 = .error e) ∧ (explain (afterCalls f items cs)).1 = .error .notFitted ∧
      (hit (afterCalls f items cs)).1 = .error .notFitted := by
  intro f
  have key : ∀ a s, ∃ e, f a s = (.error e, { s with target := some (args a).1 }) := by
    intro a s
    simp only [f, fid3ExplainerFit]
    split
    · exact ⟨_, rfl⟩
    · rename_i h
      simp only [py_bind_eq_ok] at h
      obtain ⟨m, -, X, -, im, -, y, -, df, -, t, -, rs, h, -⟩ := h
      simp [id3ToRules, INode.toRulesCall] at h
  have hst : ∀ (cs : List (ExpCall A)) (s : EState K (Rule String (Option Nat) K) G),
      (cs.foldl (afterCall f items) s).explanation = s.explanation ∧ (cs.foldl (afterCall f items) s).expValue = s.expValue := by
    intro cs
    induction cs with
    | nil => intro s; exact ⟨rfl, rfl⟩
    | cons c cs ih =>
      intro s
      rw [List.foldl_cons]
      obtain ⟨h1, h2, h3⟩ := afterCall_other f items s
      cases c with
      | fit a =>
        obtain ⟨e, he⟩ := key a s
        have : afterCall f items s (.fit a) = { s with target := some (args a).1 } := by
          show (f a s).2 = _
          rw [he]
        rw [this]
        exact ih _
      | explain => rw [h1]; exact ih s
      | hit => rw [h2]; exact ih s
      | write => rw [h3]; exact ih s
  refine ⟨fun a s => ?_, ?_, ?_⟩
  · obtain ⟨e, he⟩ := key a s
    exact ⟨e, by rw [he]⟩
  · have : (afterCalls f items cs).explanation = none := (hst cs {}).1
    simp [explain, this]
  · have : (afterCalls f items cs).expValue = none := (hst cs {}).2
    simp [hit, this]

end

end Teacher
