import Verif.Model.Neighborhood
import Verif.Props.Sampling
import Verif.Props.FuzzyVars

/-!
# C75, C77, C78, C93: the neighborhood objects
-/

set_option linter.unusedSectionVars false

namespace Teacher

variable {K : Type} [Field K] [LinearOrder K] [IsStrictOrderedRing K]

/-! ## C75: the default generation method -/

/-- C75 is false: with the default method `fit` fails for every dataset, black box, instance and state, and leaves the object as it
was; when the instance can be decoded the exception is a `TypeError`. -/
theorem C75_default_fit_false (d : DsCtx K) (bb : List K → Nat) (inst : List K) (s : NState K) :
    (∃ e, samplingFit d bb (some generateSlow) inst s = (.error e, s)) ∧
    ((∃ dec, d.features.zipIdx.mapM (decodeFeature d inst) = .ok dec) →
      samplingFit d bb (some generateSlow) inst s = (.error .typeError, s)) := by
  constructor
  · unfold samplingFit fitValues
    cases h : d.features.zipIdx.mapM (decodeFeature d inst) with
    | error e => exact ⟨e, rfl⟩
    | ok dec => exact ⟨.typeError, rfl⟩
  · rintro ⟨dec, h⟩
    unfold samplingFit fitValues
    rw [h]
    rfl

/-! ## histories -/

/-- the calls that can change a `SamplingNeighborhood`: `fit` (with the sample that the random draws give, or the exception of
the generation) and `fuzzify`. -/
inductive NCall (K : Type) where
  | fit (gen : Option (Py (List (List K))))
  | fuzzify (a : FuzzArgs K)

/-- the fixed parameters of the object. -/
structure NObj (K : Type) where
  ds : DsCtx K
  bb : List K → Nat
  inst : List K
  fz : FuzzCtx K

/-- one call. -/
def NObj.call (o : NObj K) : NCall K → Act (NState K) Unit
  | .fit gen => samplingFit o.ds o.bb gen o.inst
  | .fuzzify a => samplingFuzzify o.fz (o.inst.map .num) a

/-- the state after a history of calls, each one succeeding or not. -/
def NObj.run (o : NObj K) (h : List (NCall K)) : NState K := h.foldl (fun s c => (o.call c s).2) {}

/-- call number `i` of the history is `c` and it succeeds. -/
def NObj.Succeeds (o : NObj K) (h : List (NCall K)) (i : Nat) (c : NCall K) : Prop :=
  h[i]? = some c ∧ (o.call c (o.run (h.take i))).1 = .ok ()

theorem NObj.run_append (o : NObj K) (h : List (NCall K)) (c : NCall K) : o.run (h ++ [c]) = (o.call c (o.run h)).2 := by
  simp [NObj.run]

/-- induction on histories with the call just made. -/
theorem NObj.run_induction (o : NObj K) (P : List (NCall K) → NState K → Prop) (h0 : P [] {})
    (hstep : ∀ h c, P h (o.run h) → P (h ++ [c]) (o.call c (o.run h)).2) (h : List (NCall K)) : P h (o.run h) := by
  induction h using List.reverseRecOn with
  | nil => exact h0
  | append_singleton h c ih => rw [o.run_append]; exact hstep h c ih

theorem NObj.succeeds_append (o : NObj K) (h : List (NCall K)) (c : NCall K) (P : NCall K → Prop) :
    (∃ i c', P c' ∧ o.Succeeds (h ++ [c]) i c') ↔ (∃ i c', P c' ∧ o.Succeeds h i c') ∨ (P c ∧ (o.call c (o.run h)).1 = .ok ()) := by
  constructor
  · rintro ⟨i, c', hP, h1, h2⟩
    rcases lt_or_ge i h.length with hi | hi
    · left
      rw [List.getElem?_append_left hi] at h1
      rw [List.take_append_of_le_length (by omega)] at h2
      exact ⟨i, c', hP, h1, h2⟩
    · right
      have hi' : i = h.length := by
        have := (List.getElem?_eq_some_iff.1 h1).1
        simp at this; omega
      subst hi'
      simp only [List.getElem?_concat_length, Option.some.injEq] at h1
      subst h1
      rw [List.take_left] at h2
      exact ⟨hP, h2⟩
  · rintro (⟨i, c', hP, h1, h2⟩ | ⟨hP, h2⟩)
    · have hi := (List.getElem?_eq_some_iff.1 h1).1
      refine ⟨i, c', hP, ?_, ?_⟩
      · rw [List.getElem?_append_left hi]; exact h1
      · rw [List.take_append_of_le_length (by omega)]; exact h2
    · refine ⟨h.length, c, hP, by simp, ?_⟩
      rw [List.take_left]; exact h2

/-- a call of `fit`. -/
def NCall.IsFit : NCall K → Prop
  | .fit _ => True
  | .fuzzify _ => False

/-- a call of `fuzzify`. -/
def NCall.IsFuzzify : NCall K → Prop
  | .fit _ => False
  | .fuzzify _ => True

/-! ## what each call can change -/

/-- `fit` does not touch the memberships. -/
theorem samplingFit_keeps (d : DsCtx K) (bb : List K → Nat) (gen : Option (Py (List (List K)))) (inst : List K) (s : NState K) :
    (samplingFit d bb gen inst s).2.Xmem = s.Xmem ∧ (samplingFit d bb gen inst s).2.instMem = s.instMem ∧
      (samplingFit d bb gen inst s).2.vars = s.vars := by
  unfold samplingFit
  split
  · exact ⟨rfl, rfl, rfl⟩
  · simp only
    split
    · exact ⟨rfl, rfl, rfl⟩
    · split
      · exact ⟨rfl, rfl, rfl⟩
      · split <;> exact ⟨rfl, rfl, rfl⟩

/-- with a black box whose answers the encoder of the class knows, `fit` assigns the data exactly when it succeeds. -/
theorem samplingFit_all_or_nothing (d : DsCtx K) (bb : List K → Nat) (cls : List String)
    (hcls : Dict.get? d.encoders d.className = some cls) (hbb : ∀ row, bb row < cls.length)
    (gen : Option (Py (List (List K)))) (inst : List K) (s : NState K) :
    ((samplingFit d bb gen inst s).1 = .ok () ∧ (samplingFit d bb gen inst s).2.X.isSome ∧ (samplingFit d bb gen inst s).2.y.isSome ∧
      (samplingFit d bb gen inst s).2.Xy.isSome ∧ (samplingFit d bb gen inst s).2.decodedInst.isSome) ∨
    ((∃ e, (samplingFit d bb gen inst s).1 = .error e) ∧ (samplingFit d bb gen inst s).2.X = s.X ∧
      (samplingFit d bb gen inst s).2.y = s.y ∧ (samplingFit d bb gen inst s).2.Xy = s.Xy) := by
  unfold samplingFit
  split
  · exact .inr ⟨⟨_, rfl⟩, rfl, rfl, rfl⟩
  · rename_i dec rows Z _
    have ht : decodeTarget d (bb inst) = .ok (cls, cls[bb inst]'(hbb inst)) := by
      simp [decodeTarget, classEncoder, Dict.get, hcls, inverseTransform, hbb inst]
    have hy : inverseClasses cls (rows.map bb) = .ok ((rows.map bb).map (fun c => cls.getD c "")) := by
      unfold inverseClasses
      apply mapM_ok_of_forall
      intro c hc
      obtain ⟨row, -, rfl⟩ := List.mem_map.1 hc
      have := hbb row
      simp [inverseTransform, this, List.getD_eq_getElem?_getD]
    simp only [ht]
    split
    · exact .inr ⟨⟨_, rfl⟩, rfl, rfl, rfl⟩
    · simp [hy]

/-- `fuzzify` does not touch the data. -/
theorem fuzzify_keeps (cx : FuzzCtx K) (inst : List (Cell K)) (a : FuzzArgs K) (s : NState K) :
    (fuzzify cx inst a s).2.X = s.X ∧ (fuzzify cx inst a s).2.y = s.y ∧ (fuzzify cx inst a s).2.Xy = s.Xy ∧
      (fuzzify cx inst a s).2.decodedInst = s.decodedInst := by
  unfold fuzzify
  split
  · split
    · exact ⟨rfl, rfl, rfl, rfl⟩
    · simp only
      split
      · exact ⟨rfl, rfl, rfl, rfl⟩
      · split
        · split
          · exact ⟨rfl, rfl, rfl, rfl⟩
          · split <;> exact ⟨rfl, rfl, rfl, rfl⟩
        · exact ⟨rfl, rfl, rfl, rfl⟩
  · exact ⟨rfl, rfl, rfl, rfl⟩

theorem samplingFuzzify_keeps (cx : FuzzCtx K) (inst : List (Cell K)) (a : FuzzArgs K) (s : NState K) :
    (samplingFuzzify cx inst a s).2.X = s.X ∧ (samplingFuzzify cx inst a s).2.y = s.y ∧ (samplingFuzzify cx inst a s).2.Xy = s.Xy ∧
      (samplingFuzzify cx inst a s).2.decodedInst = s.decodedInst := by
  unfold samplingFuzzify
  split
  · exact ⟨rfl, rfl, rfl, rfl⟩
  · have hk := fuzzify_keeps cx inst { a with instanceMembership := some false } s
    split
    · rename_i e s' h; rw [h] at hk; exact hk
    · rename_i s' h
      rw [h] at hk
      split
      · split
        · exact hk
        · exact hk
      · exact hk

/-- `fuzzify` without some of its required arguments. -/
def FuzzArgs.Missing (a : FuzzArgs K) : Prop :=
  a.numCols = none ∨ a.catCols = none ∨ ((a.division = "equal_width" ∨ a.division = "equal_freq") ∧ a.sets = none)

theorem fuzzyVarsOf_missing (cx : FuzzCtx K) (a : FuzzArgs K) (h : a.Missing) (X : Frame K) (y : List Nat) :
    fuzzyVarsOf cx a X y = .error .valueError := by
  unfold fuzzyVarsOf
  split
  · rfl
  · rename_i h'
    rcases h with h | h | h
    · rw [h]
    · rw [h]; split <;> rename_i e1 e2 <;> first | rfl | cases e2
    · exact absurd h h'

/-- a failing `fuzzify` leaves the membership of the instance as it was, a successful one sets everything. -/
theorem samplingFuzzify_result (cx : FuzzCtx K) (inst : List (Cell K)) (a : FuzzArgs K) (s : NState K) :
    ((∃ e, (samplingFuzzify cx inst a s).1 = .error e) ∧ (samplingFuzzify cx inst a s).2.instMem = s.instMem) ∨
    ((samplingFuzzify cx inst a s).1 = .ok () ∧ ∃ X y Xy dec vars m im, s.X = some X ∧ s.y = some y ∧ s.Xy = some Xy ∧
      s.decodedInst = some dec ∧ fuzzyVarsOf cx { a with instanceMembership := some false } X y = .ok vars ∧
      membershipOpt X.rows vars = .ok m ∧ membershipOpt [dec] vars = .ok im ∧
      (samplingFuzzify cx inst a s).2 = { s with vars := some vars, Xmem := some m, instMem := some im }) := by
  unfold samplingFuzzify
  split
  · exact .inl ⟨⟨_, rfl⟩, rfl⟩
  · unfold fuzzify
    cases hX : s.X with
    | none => exact .inl ⟨⟨_, rfl⟩, rfl⟩
    | some X =>
      cases hy : s.y with
      | none => exact .inl ⟨⟨_, rfl⟩, rfl⟩
      | some y =>
        cases hXy : s.Xy with
        | none => exact .inl ⟨⟨_, rfl⟩, rfl⟩
        | some Xy =>
          simp only
          cases hv : fuzzyVarsOf cx { a with instanceMembership := some false } X y with
          | error e => exact .inl ⟨⟨_, rfl⟩, rfl⟩
          | ok vars =>
            simp only
            cases hm : membershipOpt X.rows vars with
            | error e => exact .inl ⟨⟨_, rfl⟩, rfl⟩
            | ok m =>
              simp only [Option.getD_some, Bool.false_eq_true, if_false]
              cases hd : s.decodedInst with
              | none => exact .inl ⟨⟨_, rfl⟩, rfl⟩
              | some dec =>
                simp only
                cases him : membershipOpt [dec] vars with
                | error e => exact .inl ⟨⟨_, rfl⟩, rfl⟩
                | ok im =>
                  exact .inr ⟨rfl, X, y, Xy, dec, vars, m, im, rfl, rfl, rfl, rfl, hv, hm, him, rfl⟩

/-- how far any `fuzzify` can change the memberships: not at all when the data or some argument is missing; otherwise the variables
and the memberships it computes are those of the current data. -/
theorem samplingFuzzify_effect (cx : FuzzCtx K) (inst : List (Cell K)) (a : FuzzArgs K) (s : NState K) :
    ((samplingFuzzify cx inst a s).2.Xmem = s.Xmem ∧ (samplingFuzzify cx inst a s).2.vars = s.vars) ∨
    (∃ X vars, s.X = some X ∧ ¬ a.Missing ∧ (samplingFuzzify cx inst a s).2.vars = some vars ∧
      ((samplingFuzzify cx inst a s).2.Xmem = s.Xmem ∨
        ∃ m, (samplingFuzzify cx inst a s).2.Xmem = some m ∧ membershipOpt X.rows vars = .ok m)) := by
  unfold samplingFuzzify
  split
  · exact .inl ⟨rfl, rfl⟩
  · unfold fuzzify
    cases hX : s.X with
    | none => exact .inl ⟨rfl, rfl⟩
    | some X =>
      cases hy : s.y with
      | none => exact .inl ⟨rfl, rfl⟩
      | some y =>
        cases hXy : s.Xy with
        | none => exact .inl ⟨rfl, rfl⟩
        | some Xy =>
          simp only
          cases hv : fuzzyVarsOf cx { a with instanceMembership := some false } X y with
          | error e => exact .inl ⟨rfl, rfl⟩
          | ok vars =>
            right
            refine ⟨X, vars, rfl, ?_, ?_⟩
            · intro hmiss
              have := fuzzyVarsOf_missing cx { a with instanceMembership := some false } hmiss X y
              rw [this] at hv; cases hv
            · simp only
              cases hm : membershipOpt X.rows vars with
              | error e => exact ⟨rfl, .inl rfl⟩
              | ok m =>
                simp only [Option.getD_some, Bool.false_eq_true, if_false]
                cases hd : s.decodedInst with
                | none => exact ⟨rfl, .inr ⟨m, rfl, rfl⟩⟩
                | some dec =>
                  simp only
                  cases him : membershipOpt [dec] vars with
                  | error e => exact ⟨rfl, .inr ⟨m, rfl, rfl⟩⟩
                  | ok im => exact ⟨rfl, .inr ⟨m, rfl, rfl⟩⟩

/-! ## C77: getters -/

theorem getter_error {α : Type} (f : NState K → Option α) (e : PyErr) (s : NState K) : (getter f e s).1 = .error e ↔ f s = none := by
  unfold getter
  cases f s <;> simp

theorem getter_ok {α : Type} (f : NState K → Option α) (e : PyErr) (s : NState K) (v : α) : (getter f e s).1 = .ok v ↔ f s = some v := by
  unfold getter
  cases f s <;> simp

theorem getter_state {α : Type} (f : NState K → Option α) (e : PyErr) (s : NState K) : (getter f e s).2 = s := by
  unfold getter
  cases f s <;> rfl

theorem run_fitted (o : NObj K) (cls : List String) (hcls : Dict.get? o.ds.encoders o.ds.className = some cls)
    (hbb : ∀ row, o.bb row < cls.length) (h : List (NCall K)) :
    ((∃ i c, NCall.IsFit c ∧ o.Succeeds h i c) ∧ (o.run h).X.isSome ∧ (o.run h).y.isSome ∧ (o.run h).Xy.isSome) ∨
    ((¬ ∃ i c, NCall.IsFit c ∧ o.Succeeds h i c) ∧ (o.run h).X = none ∧ (o.run h).y = none ∧ (o.run h).Xy = none) := by
  refine o.run_induction (fun h s => ((∃ i c, NCall.IsFit c ∧ o.Succeeds h i c) ∧ s.X.isSome ∧ s.y.isSome ∧ s.Xy.isSome) ∨
    ((¬ ∃ i c, NCall.IsFit c ∧ o.Succeeds h i c) ∧ s.X = none ∧ s.y = none ∧ s.Xy = none)) ?_ ?_ h
  · right
    refine ⟨?_, rfl, rfl, rfl⟩
    rintro ⟨i, c, -, h, -⟩
    simp at h
  · intro h c ih
    rw [o.succeeds_append]
    cases c with
    | fuzzify a =>
      obtain ⟨h1, h2, h3, -⟩ := samplingFuzzify_keeps o.fz (o.inst.map .num) a (o.run h)
      simp only [NObj.call, h1, h2, h3, NCall.IsFit, false_and, or_false]
      exact ih
    | fit gen =>
      rcases samplingFit_all_or_nothing o.ds o.bb cls hcls hbb gen o.inst (o.run h) with ⟨h1, h2, h3, h4, -⟩ | ⟨⟨e, h1⟩, h2, h3, h4⟩
      · exact .inl ⟨.inr ⟨trivial, h1⟩, h2, h3, h4⟩
      · simp only [NObj.call, h1, h2, h3, h4]
        simpa using ih

/-- C77: for every history of calls, `get_X` and `get_y` raise `NotFittedError` exactly until a `fit` has succeeded (black box with
classes known to the encoder of the class), and the getters change nothing. -/
theorem C77_fitted (o : NObj K) (cls : List String) (hcls : Dict.get? o.ds.encoders o.ds.className = some cls)
    (hbb : ∀ row, o.bb row < cls.length) (h : List (NCall K)) :
    ((getX (o.run h)).1 = .error .notFitted ↔ ¬ ∃ i c, NCall.IsFit c ∧ o.Succeeds h i c) ∧
    ((getY (o.run h)).1 = .error .notFitted ↔ ¬ ∃ i c, NCall.IsFit c ∧ o.Succeeds h i c) ∧
    ((∃ i c, NCall.IsFit c ∧ o.Succeeds h i c) → (∃ X, (getX (o.run h)).1 = .ok X) ∧ ∃ y, (getY (o.run h)).1 = .ok y) ∧
    (getX (o.run h)).2 = o.run h ∧ (getY (o.run h)).2 = o.run h := by
  unfold getX getY
  rw [getter_error, getter_error]
  refine ⟨?_, ?_, ?_, getter_state _ _ _, getter_state _ _ _⟩
  all_goals rcases run_fitted o cls hcls hbb h with ⟨h1, h2, h3, -⟩ | ⟨h1, h2, h3, -⟩
  · simp [h1, Option.isSome_iff_ne_none.1 h2]
  · simp [h1, h2]
  · simp [h1, Option.isSome_iff_ne_none.1 h3]
  · simp [h1, h3]
  · intro _
    obtain ⟨X, hX⟩ := Option.isSome_iff_exists.1 h2
    obtain ⟨y, hy⟩ := Option.isSome_iff_exists.1 h3
    exact ⟨⟨X, (getter_ok _ _ _ _).2 hX⟩, ⟨y, (getter_ok _ _ _ _).2 hy⟩⟩
  · intro h'; exact absurd h' h1

/-- C77: before a successful `fit`, `fuzzify` raises `NotFittedError` and changes nothing; afterwards, without some of its required
arguments it raises `ValueError` and changes nothing. -/
theorem C77_fuzzify_rejected (o : NObj K) (cls : List String) (hcls : Dict.get? o.ds.encoders o.ds.className = some cls)
    (hbb : ∀ row, o.bb row < cls.length) (h : List (NCall K)) (a : FuzzArgs K) (ha : a.instanceMembership = none) :
    ((¬ ∃ i c, NCall.IsFit c ∧ o.Succeeds h i c) → o.call (.fuzzify a) (o.run h) = (.error .notFitted, o.run h)) ∧
    ((∃ i c, NCall.IsFit c ∧ o.Succeeds h i c) → a.Missing → o.call (.fuzzify a) (o.run h) = (.error .valueError, o.run h)) := by
  rcases run_fitted o cls hcls hbb h with ⟨h1, h2, h3, h4⟩ | ⟨h1, h2, h3, h4⟩
  · refine ⟨fun h' => absurd h1 h', fun _ hm => ?_⟩
    obtain ⟨X, hX⟩ := Option.isSome_iff_exists.1 h2
    obtain ⟨y, hy⟩ := Option.isSome_iff_exists.1 h3
    obtain ⟨Xy, hXy⟩ := Option.isSome_iff_exists.1 h4
    simp only [NObj.call, samplingFuzzify, ha, ne_eq, not_true, if_false, fuzzify, hX, hy, hXy]
    rw [fuzzyVarsOf_missing o.fz { a with instanceMembership := some false } hm X y]
  · refine ⟨fun _ => ?_, fun h' => absurd h' h1⟩
    simp [NObj.call, samplingFuzzify, ha, fuzzify, h2, h3, h4]

/-- C77: for every history, `get_instance_membership` raises `NotFuzzifiedError` exactly until a `fuzzify` has succeeded. -/
theorem C77_instance_membership (o : NObj K) (h : List (NCall K)) :
    ((getInstanceMembership (o.run h)).1 = .error .notFuzzified ↔ ¬ ∃ i c, NCall.IsFuzzify c ∧ o.Succeeds h i c) ∧
    ((∃ i c, NCall.IsFuzzify c ∧ o.Succeeds h i c) → ∃ m, (getInstanceMembership (o.run h)).1 = .ok m) := by
  have key : ((o.run h).instMem = none ↔ ¬ ∃ i c, NCall.IsFuzzify c ∧ o.Succeeds h i c) := by
    refine o.run_induction (fun h s => s.instMem = none ↔ ¬ ∃ i c, NCall.IsFuzzify c ∧ o.Succeeds h i c) ?_ ?_ h
    · constructor
      · rintro - ⟨i, c, -, h, -⟩
        simp at h
      · intro _; rfl
    · intro h c ih
      rw [o.succeeds_append]
      cases c with
      | fit gen =>
        simp only [NObj.call, (samplingFit_keeps o.ds o.bb gen o.inst (o.run h)).2.1, NCall.IsFuzzify, false_and, or_false]
        exact ih
      | fuzzify a =>
        rcases samplingFuzzify_result o.fz (o.inst.map .num) a (o.run h) with ⟨⟨e, h1⟩, h2⟩ | ⟨h1, X, y, Xy, dec, vars, m, im, -, -, -, -, -, -, -, h2⟩
        · simp only [NObj.call, h1, h2]
          simpa using ih
        · simp only [NObj.call, h1, h2, NCall.IsFuzzify, and_self, or_true, not_true, iff_false]
          simp
  unfold getInstanceMembership
  rw [getter_error]
  refine ⟨key, fun hs => ?_⟩
  cases hi : (o.run h).instMem with
  | none => exact absurd hs (key.1 hi)
  | some m => exact ⟨m, (getter_ok _ _ _ _).2 hi⟩

/-- C77, the part that holds of the other two getters: they return once a `fuzzify` has succeeded, and they raise
`NotFuzzifiedError` as long as every `fuzzify` was called on an unfitted neighborhood or without its arguments. Missing from the
property: a `fuzzify` that fails later (see `C77_failed_fuzzify_false`). -/
theorem C77_getters_partial (o : NObj K) (cls : List String) (hcls : Dict.get? o.ds.encoders o.ds.className = some cls)
    (hbb : ∀ row, o.bb row < cls.length) (h : List (NCall K)) :
    ((∃ i c, NCall.IsFuzzify c ∧ o.Succeeds h i c) →
      (∃ m, (getXMembership (o.run h)).1 = .ok m) ∧ ∃ v, (getFuzzyVars (o.run h)).1 = .ok v) ∧
    ((∀ (i : Nat) a, h[i]? = some (.fuzzify a) → a.Missing ∨ ¬ ∃ j c, j < i ∧ NCall.IsFit c ∧ o.Succeeds h j c) →
      (getXMembership (o.run h)).1 = .error .notFuzzified ∧ (getFuzzyVars (o.run h)).1 = .error .notFuzzified) := by
  unfold getXMembership getFuzzyVars
  constructor
  · intro hs
    have key : (o.run h).Xmem.isSome ∧ (o.run h).vars.isSome := by
      revert hs
      refine o.run_induction (fun h s => (∃ i c, NCall.IsFuzzify c ∧ o.Succeeds h i c) → s.Xmem.isSome ∧ s.vars.isSome) ?_ ?_ h
      · rintro ⟨i, c, -, h, -⟩
        simp at h
      · intro h c ih hs
        rw [o.succeeds_append] at hs
        cases c with
        | fit gen =>
          obtain ⟨h1, -, h3⟩ := samplingFit_keeps o.ds o.bb gen o.inst (o.run h)
          simp only [NObj.call, h1, h3]
          rcases hs with hs | ⟨h', -⟩
          · exact ih hs
          · exact absurd h' id
        | fuzzify a =>
          rcases samplingFuzzify_result o.fz (o.inst.map .num) a (o.run h) with
            ⟨⟨e, h1⟩, -⟩ | ⟨h1, X, y, Xy, dec, vars, m, im, -, -, -, -, -, -, -, h2⟩
          · have hs' : ∃ i c, NCall.IsFuzzify c ∧ o.Succeeds h i c := by
              rcases hs with hs | ⟨-, h2⟩
              · exact hs
              · simp only [NObj.call] at h2
                rw [h1] at h2; cases h2
            obtain ⟨k1, k2⟩ := ih hs'
            rcases samplingFuzzify_effect o.fz (o.inst.map .num) a (o.run h) with ⟨h3, h4⟩ | ⟨X, vars, -, -, h4, h3 | ⟨m, h3, -⟩⟩
            · simp only [NObj.call, h3, h4]; exact ⟨k1, k2⟩
            · simp only [NObj.call, h3, h4]; exact ⟨k1, rfl⟩
            · simp only [NObj.call, h3, h4]; exact ⟨rfl, rfl⟩
          · simp only [NObj.call, h2]; exact ⟨rfl, rfl⟩
    obtain ⟨m, hm⟩ := Option.isSome_iff_exists.1 key.1
    obtain ⟨v, hv⟩ := Option.isSome_iff_exists.1 key.2
    exact ⟨⟨m, (getter_ok _ _ _ _).2 hm⟩, ⟨v, (getter_ok _ _ _ _).2 hv⟩⟩
  · intro hall
    rw [getter_error, getter_error]
    revert hall
    refine o.run_induction (fun h s => (∀ (i : Nat) a, h[i]? = some (.fuzzify a) → a.Missing ∨ ¬ ∃ j c, j < i ∧ NCall.IsFit c ∧ o.Succeeds h j c) →
      s.Xmem = none ∧ s.vars = none) ?_ ?_ h
    · intro _; exact ⟨rfl, rfl⟩
    · intro h c ih hall
      have hpre : ∀ (i : Nat) a, h[i]? = some (.fuzzify a) → a.Missing ∨ ¬ ∃ j c, j < i ∧ NCall.IsFit c ∧ o.Succeeds h j c := by
        intro i a hi
        have hlt := (List.getElem?_eq_some_iff.1 hi).1
        rcases hall i a (by rw [List.getElem?_append_left hlt]; exact hi) with h1 | h1
        · exact .inl h1
        · right
          rintro ⟨j, c', hj, hf, h2, h3⟩
          exact h1 ⟨j, c', hj, hf, by rw [List.getElem?_append_left (by omega)]; exact h2,
            by rw [List.take_append_of_le_length (by omega)]; exact h3⟩
      obtain ⟨k1, k2⟩ := ih hpre
      cases c with
      | fit gen =>
        obtain ⟨h1, -, h3⟩ := samplingFit_keeps o.ds o.bb gen o.inst (o.run h)
        simp only [NObj.call, h1, h3]
        exact ⟨k1, k2⟩
      | fuzzify a =>
        rcases samplingFuzzify_effect o.fz (o.inst.map .num) a (o.run h) with ⟨h3, h4⟩ | ⟨X, vars, hX, hmiss, -⟩
        · simp only [NObj.call, h3, h4]; exact ⟨k1, k2⟩
        · exfalso
          rcases hall h.length a (by simp) with h1 | h1
          · exact hmiss h1
          · rcases run_fitted o cls hcls hbb h with ⟨⟨j, c', hf, h2, h3⟩, -⟩ | ⟨-, h2, -⟩
            · have hlt := (List.getElem?_eq_some_iff.1 h2).1
              exact h1 ⟨j, c', hlt, hf, by rw [List.getElem?_append_left hlt]; exact h2,
                by rw [List.take_append_of_le_length (by omega)]; exact h3⟩
            · rw [h2] at hX; cases hX

/-! ## C78: memberships and data -/

/-- C78, the part that holds: in every history where no `fit` is called after a `fuzzify`, the membership returned by
`get_X_membership` is the membership of the data returned by `get_X`, for some list of variables. Missing: a `fit` after a `fuzzify`
(`C78_refit_false`). -/
theorem C78_current_partial (o : NObj K) (h : List (NCall K))
    (horder : ∀ (i j : Nat) a gen, h[i]? = some (.fuzzify a) → h[j]? = some (.fit gen) → j < i) (m : Memb K)
    (hm : (getXMembership (o.run h)).1 = .ok m) :
    ∃ X vars, (getX (o.run h)).1 = .ok X ∧ membershipOpt X.rows vars = .ok m := by
  unfold getXMembership at hm
  rw [getter_ok] at hm
  unfold getX
  simp only [getter_ok]
  revert horder hm
  refine o.run_induction (fun h s => (∀ (i j : Nat) a gen, h[i]? = some (.fuzzify a) → h[j]? = some (.fit gen) → j < i) → s.Xmem = some m →
    ∃ X vars, s.X = some X ∧ membershipOpt X.rows vars = .ok m) ?_ ?_ h
  · intro _ h; cases h
  · intro h c ih horder hm
    have hpre : ∀ (i j : Nat) a gen, h[i]? = some (.fuzzify a) → h[j]? = some (.fit gen) → j < i := by
      intro i j a gen hi hj
      have h1 := (List.getElem?_eq_some_iff.1 hi).1
      have h2 := (List.getElem?_eq_some_iff.1 hj).1
      exact horder i j a gen (by rw [List.getElem?_append_left h1]; exact hi) (by rw [List.getElem?_append_left h2]; exact hj)
    cases c with
    | fit gen =>
      -- no `fuzzify` before: no memberships
      exfalso
      have hnone : (o.run h).Xmem = none := by
        have hno : ∀ c ∈ h, NCall.IsFit c := by
          intro c hc
          cases c with
          | fit g => trivial
          | fuzzify a =>
            obtain ⟨i, hi⟩ := List.mem_iff_getElem?.1 hc
            have hlt := (List.getElem?_eq_some_iff.1 hi).1
            have := horder i h.length a gen (by rw [List.getElem?_append_left hlt]; exact hi) (by simp)
            omega
        clear hm horder hpre ih
        revert hno
        refine o.run_induction (fun h s => (∀ c ∈ h, NCall.IsFit c) → s.Xmem = none) (fun _ => rfl) ?_ h
        intro h c ih hno
        cases c with
        | fuzzify a => exact absurd (hno (.fuzzify a) (by simp)) id
        | fit g =>
          simp only [NObj.call, (samplingFit_keeps o.ds o.bb g o.inst (o.run h)).1]
          exact ih (fun c hc => hno c (by simp [hc]))
      simp only [NObj.call, (samplingFit_keeps o.ds o.bb gen o.inst (o.run h)).1, hnone] at hm
      cases hm
    | fuzzify a =>
      obtain ⟨hX, -, -, -⟩ := samplingFuzzify_keeps o.fz (o.inst.map .num) a (o.run h)
      simp only [NObj.call, hX]
      simp only [NObj.call] at hm
      rcases samplingFuzzify_effect o.fz (o.inst.map .num) a (o.run h) with ⟨h3, -⟩ | ⟨X, vars, h1, -, -, h3 | ⟨m', h3, h4⟩⟩
      · rw [h3] at hm; exact ih hpre hm
      · rw [h3] at hm; exact ih hpre hm
      · rw [h3, Option.some.injEq] at hm
        subst hm
        exact ⟨X, vars, h1, h4⟩

/-- C78: just after a successful `fuzzify`, in every history, the data, the variables and the two memberships that the getters
return belong together. -/
theorem C78_after_fuzzify (o : NObj K) (h : List (NCall K)) (a : FuzzArgs K) (hok : (o.call (.fuzzify a) (o.run h)).1 = .ok ()) :
    ∃ X vars m im dec, (getX (o.run (h ++ [.fuzzify a]))).1 = .ok X ∧ (getFuzzyVars (o.run (h ++ [.fuzzify a]))).1 = .ok vars ∧
      (getXMembership (o.run (h ++ [.fuzzify a]))).1 = .ok m ∧ (getInstanceMembership (o.run (h ++ [.fuzzify a]))).1 = .ok im ∧
      (o.run (h ++ [.fuzzify a])).decodedInst = some dec ∧ membershipOpt X.rows vars = .ok m ∧ membershipOpt [dec] vars = .ok im := by
  rw [o.run_append]
  unfold getX getFuzzyVars getXMembership getInstanceMembership
  simp only [getter_ok, NObj.call] at hok ⊢
  rcases samplingFuzzify_result o.fz (o.inst.map .num) a (o.run h) with
    ⟨⟨e, h1⟩, -⟩ | ⟨h1, X, y, Xy, dec, vars, m, im, hX, hy, hXy, hd, hv, hm, him, h2⟩
  · rw [h1] at hok; cases hok
  · rw [h2]
    exact ⟨X, vars, m, im, dec, hX, rfl, rfl, rfl, hd, hm, him⟩

/-! ## concrete histories -/

section
/-- a dataset with a numeric and a categorical feature. -/
def nbObj : NObj ℚ where
  ds := { columns := ["age", "sex", "class"], className := "class", encoders := [("sex", ["f", "m"]), ("class", ["no", "yes"])], toInt := fun x => x.floor }
  bb row := if row.getD 0 0 > 3 then 1 else 0
  inst := [2, 0]
  fz := { disc := fun name => if name = "equal_width" then some (fun sets _ v _ => equalWidth id v (sets - 1)) else none
          std := fun v => if v.dedup.length ≤ 1 then 0 else 1
          fmtK := fun x => if x = 1 then "low" else if x = 3 then "mid" else "high"
          fmtC := fun c => match c with | .num _ => "num" | .str s => s }

/-- a successful `fuzzify`. -/
def nbArgs : FuzzArgs ℚ := { division := "equal_width", numCols := some ["age"], catCols := some ["sex"], sets := some 3, th := none }

/-- a first and a second sample. -/
def nbFit1 : NCall ℚ := .fit (some (.ok [[1, 0], [5, 1], [2, 0]]))
/-- the second sample. -/
def nbFit2 : NCall ℚ := .fit (some (.ok [[1, 1], [3, 1], [5, 0], [2, 0]]))

example : ((nbObj.call nbFit1 (nbObj.run [])).1.isOk, (nbObj.call (.fuzzify nbArgs) (nbObj.run [nbFit1])).1.isOk) = (true, true) := by
  decide +kernel

example : Dict.get? nbObj.ds.encoders nbObj.ds.className = some ["no", "yes"] ∧ ∀ row, nbObj.bb row < 2 := by
  refine ⟨rfl, fun row => ?_⟩
  simp only [nbObj]
  split <;> simp

set_option synthInstance.maxSize 1000 in
example : (nbObj.run [nbFit1, .fuzzify nbArgs]).Xmem =
    some [("age", [("low", [1, 0, 1/2]), ("mid", [0, 0, 1/2]), ("high", [0, 1, 0])]), ("sex", [("f", [1, 0, 1]), ("m", [0, 1, 0])])] ∧
    (nbObj.run [nbFit1, .fuzzify nbArgs]).instMem =
    some [("age", [("low", [1/2]), ("mid", [1/2]), ("high", [0])]), ("sex", [("f", [1]), ("m", [0])])] := by decide +kernel

/-- C78 is false: after `fit`, `fuzzify`, `fit` the membership has three rows and the data four: it is not the membership of the data
for any variables. -/
theorem C78_refit_false : ∃ (o : NObj ℚ) (h : List (NCall ℚ)) (m : Memb ℚ) (X : Frame ℚ),
    (∀ (i : Nat) c, h[i]? = some c → o.Succeeds h i c) ∧ (getXMembership (o.run h)).1 = .ok m ∧ (getX (o.run h)).1 = .ok X ∧
    ∃ ms : List ℚ, (∃ d s, ("age", d) ∈ m ∧ (s, ms) ∈ d) ∧ ms.length ≠ X.rows.length := by
  refine ⟨nbObj, [nbFit1, .fuzzify nbArgs, nbFit2], [("age", [("low", [1, 0, 1/2]), ("mid", [0, 0, 1/2]), ("high", [0, 1, 0])]),
    ("sex", [("f", [1, 0, 1]), ("m", [0, 1, 0])])],
    ⟨["age", "sex"], [[.num 1, .str "m"], [.num 3, .str "m"], [.num 5, .str "f"], [.num 2, .str "f"]]⟩, ?_, by decide +kernel, by decide +kernel,
    [1, 0, 1/2], ⟨[("low", [1, 0, 1/2]), ("mid", [0, 0, 1/2]), ("high", [0, 1, 0])], "low", by simp, by simp⟩, by decide⟩
  have ok : ∀ (r : Py Unit), r.isOk = true → r = .ok () := by
    intro r h; cases r with
    | error e => cases h
    | ok u => rfl
  intro i c hi
  refine ⟨hi, ok _ ?_⟩
  match i, hi with
  | 0, hi => simp only [List.getElem?_cons_zero, Option.some.injEq] at hi; subst hi; decide +kernel
  | 1, hi => simp only [List.getElem?_cons_succ, List.getElem?_cons_zero, Option.some.injEq] at hi; subst hi; decide +kernel
  | 2, hi => simp only [List.getElem?_cons_succ, List.getElem?_cons_zero, Option.some.injEq] at hi; subst hi; decide +kernel
  | i + 3, hi => simp at hi

/-- C77 is false of a failed `fuzzify`: leaving out one column of the data the call fails with `AttributeError`, yet afterwards
`get_fuzzy_variables` answers, with a `None` among the variables. -/
theorem C77_failed_fuzzify_false : ∃ (o : NObj ℚ) (h : List (NCall ℚ)),
    (¬ ∃ i c, NCall.IsFuzzify c ∧ o.Succeeds h i c) ∧ ∃ vars, (getFuzzyVars (o.run h)).1 = .ok vars ∧ none ∈ vars := by
  refine ⟨nbObj, [nbFit1, .fuzzify { nbArgs with catCols := some [] }], ?_, ?_⟩
  · rintro ⟨i, c, hc, hi, hs⟩
    match i, hi with
    | 0, hi => simp only [List.getElem?_cons_zero, Option.some.injEq] at hi; subst hi; exact hc
    | 1, hi =>
      simp only [List.getElem?_cons_succ, List.getElem?_cons_zero, Option.some.injEq] at hi
      subst hi
      have : (nbObj.call (.fuzzify { nbArgs with catCols := some [] }) (nbObj.run [nbFit1])).1.isOk = false := by decide +kernel
      rw [show List.take 1 [nbFit1, NCall.fuzzify { nbArgs with catCols := some [] }] = [nbFit1] from rfl] at hs
      rw [hs] at this
      cases this
    | i + 2, hi => simp at hi
  · cases hv : (nbObj.run [nbFit1, .fuzzify { nbArgs with catCols := some [] }]).vars with
    | none =>
      have : (nbObj.run [nbFit1, .fuzzify { nbArgs with catCols := some [] }]).vars.isSome = true := by decide +kernel
      rw [hv] at this; cases this
    | some vars =>
      refine ⟨vars, (getter_ok _ _ _ _).2 hv, ?_⟩
      have : (nbObj.run [nbFit1, .fuzzify { nbArgs with catCols := some [] }]).vars.map (fun l => decide (none ∈ l)) = some true := by
        decide +kernel
      rw [hv] at this
      simpa using this

end

/-! ## C101: `SimpleNeighborhood` -/

/-- **C101**: whatever the state, after `SimpleNeighborhood.fit`, `get_X` returns exactly `size` rows, all of them the instance, and
`get_y` the class that the black box gives to each of them. -/
theorem C101_simple_neighborhood (inst : List (Cell K)) (size : Nat) (names : List String) (bb : List (Cell K) → Nat) (s : NState K) :
    (simpleFit inst size names bb s).1 = .ok () ∧
    ∃ (X : Frame K) (y : List Nat), (getX (simpleFit inst size names bb s).2).1 = .ok X ∧
      (getY (simpleFit inst size names bb s).2).1 = .ok y ∧
      X.rows.length = size ∧ y.length = size ∧ (∀ r ∈ X.rows, r = inst) ∧ (∀ c ∈ y, c = bb inst) := by
  refine ⟨rfl, _, _, rfl, rfl, by simp, by simp, ?_, ?_⟩
  · intro r hr; exact List.eq_of_mem_replicate hr
  · intro c hc
    obtain ⟨r, hr, rfl⟩ := List.mem_map.1 hc
    rw [List.eq_of_mem_replicate hr]

example : (getY (simpleFit (K := ℚ) [.num 3, .str "a"] 2 ["0", "1"] (fun r => r.length) {}).2).1 = .ok [2, 2] := by decide +kernel

end Teacher
