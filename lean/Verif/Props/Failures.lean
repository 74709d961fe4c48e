import Verif.Props.Loaders
import Verif.Props.Lore
import Verif.Props.ID3Stats
import Verif.Props.Explainer
import Verif.Props.Genetic
import Verif.Props.Strengthen

/-!
# Which exception an invalid argument raises (C135), and keywords of the explainers (C136)

For each function: the exception, and exactly for which arguments it is raised.
-/

namespace Teacher
set_option linter.unusedSectionVars false

theorem mapM_error_mem {α β : Type} (f : α → Py β) (l : List α) (e : PyErr) (h : l.mapM f = .error e) : ∃ a ∈ l, f a = .error e := by
  induction l with
  | nil => cases h
  | cons a l ih =>
    rw [List.mapM_cons] at h
    cases ha : f a with
    | error e' =>
      rw [ha] at h
      cases h
      exact ⟨a, by simp, ha⟩
    | ok b =>
      rw [ha] at h
      rcases py_bind_eq_error.1 h with h | ⟨b', hb, h⟩
      · cases h
      · rcases py_bind_eq_error.1 h with h | ⟨bs, hb, h⟩
        · obtain ⟨a', h1, h2⟩ := ih h
          exact ⟨a', by simp [h1], h2⟩
        · cases h

theorem Dict.get_of_none {α β : Type} [DecidableEq α] {d : Dict α β} {k : α} (h : Dict.get? d k = none) : Dict.get d k = .error .keyError := by
  unfold Dict.get
  rw [h]

section encoding
variable {K V : Type} [Field K] [LinearOrder K] [IsStrictOrderedRing K] [LinearOrder V]

/-- Specification: the cell is the number of one of the classes. -/
def Spec.IsCode (ops : CellOps K V) (classes : List V) (v : V) : Prop := ∃ n, n < classes.length ∧ ops.toNum v = some ((n : Nat) : K)

theorem leInverse1_cases (ops : CellOps K V) (hops : Spec.CellLaws ops) (classes : List V) (v : V) :
    (Spec.IsCode ops classes v ∧ ∃ w, leInverse1 ops classes v = .ok w) ∨
    (¬ Spec.IsCode ops classes v ∧ leInverse1 ops classes v = .error .valueError) := by
  unfold leInverse1
  cases hn : ops.toNum v with
  | none => right; exact ⟨fun ⟨n, _, h⟩ => (by rw [hn] at h; cases h), rfl⟩
  | some x =>
    simp only
    split_ifs with h
    · cases hi : ops.toInt x with
      | negSucc m =>
        right
        refine ⟨?_, rfl⟩
        rintro ⟨n, -, h2⟩
        rw [hn] at h2
        cases h2
        rw [hops.toInt_nat] at hi
        cases hi
      | ofNat n =>
        have hx : x = ((n : Nat) : K) := by rw [← h, hi]; simp
        unfold leClass
        simp only
        cases hc : classes[n]? with
        | some w => left; exact ⟨⟨n, (List.getElem?_eq_some_iff.1 hc).1, by rw [hn, hx]⟩, w, rfl⟩
        | none =>
          right
          refine ⟨?_, rfl⟩
          rintro ⟨m, h1, h2⟩
          rw [hn, hx] at h2
          have : n = m := by exact_mod_cast (Option.some.inj h2)
          subst this
          rw [List.getElem?_eq_getElem h1] at hc
          cases hc
    · right
      refine ⟨?_, rfl⟩
      rintro ⟨m, h1, h2⟩
      rw [hn] at h2
      cases h2
      rw [hops.toInt_nat] at h
      exact h (by simp)

/-- **C135**, `label_decode` of a column: it succeeds when every cell is the number of a class; otherwise it raises `ValueError`; and it raises
`KeyError` without an encoder or without the column. -/
theorem C135_label_decode (ops : CellOps K V) (hops : Spec.CellLaws ops) (les : Dict String (List V)) (df : DF V) (c : String) :
    (∀ classes col, Dict.get? les c = some classes → Dict.get? df c = some col → (∀ v ∈ col, Spec.IsCode ops classes v) →
      ∃ d, labelDecode ops les [c] df = .ok d) ∧
    (∀ classes col, Dict.get? les c = some classes → Dict.get? df c = some col → (∃ v ∈ col, ¬ Spec.IsCode ops classes v) →
      labelDecode ops les [c] df = .error .valueError) ∧
    (Dict.get? les c = none ∨ Dict.get? df c = none → labelDecode ops les [c] df = .error .keyError) := by
  refine ⟨?_, ?_, ?_⟩
  · intro classes col h1 h2 h3
    obtain ⟨bs, hbs⟩ := forall₂_of_forall_exists (fun v w => leInverse1 ops classes v = .ok w) col (by
      intro v hv
      rcases leInverse1_cases ops hops classes v with ⟨-, h⟩ | ⟨h, -⟩
      · exact h
      · exact absurd (h3 v hv) h)
    refine ⟨Dict.set df c bs, ?_⟩
    simp only [labelDecode, Dict.get_eq_ok_iff.2 h1, Dict.get_eq_ok_iff.2 h2, py_bind_ok, leInverse, (mapM_ok_iff _ _ _).2 hbs]
  · intro classes col h1 h2 ⟨v, hv, h3⟩
    have : leInverse ops classes col = .error .valueError := by
      unfold leInverse
      apply mapM_error_eq
      · intro a _ e' he
        rcases leInverse1_cases ops hops classes a with ⟨-, w, h⟩ | ⟨-, h⟩ <;> rw [he] at h <;> cases h
        rfl
      · refine ⟨v, hv, ?_⟩
        rcases leInverse1_cases ops hops classes v with ⟨h, -⟩ | ⟨-, h⟩
        · exact absurd h h3
        · exact h
    simp only [labelDecode, Dict.get_eq_ok_iff.2 h1, Dict.get_eq_ok_iff.2 h2, py_bind_ok, this]
    rfl
  · rintro (h | h)
    · simp only [labelDecode, Dict.get_of_none h]; rfl
    · cases h1 : Dict.get? les c with
      | none => simp only [labelDecode, Dict.get_of_none h1]; rfl
      | some classes => simp only [labelDecode, Dict.get_eq_ok_iff.2 h1, py_bind_ok, Dict.get_of_none h]; rfl

example : labelDecode ratOps [("a", [5, 7])] ["a"] [("a", [0, 2])] = .error .valueError ∧
    labelDecode ratOps [("a", [5, 7])] ["a"] [("a", [0, 1/2])] = .error .valueError ∧
    labelDecode ratOps [("a", [5, 7])] ["a"] [("a", [0, -1])] = .error .valueError ∧
    labelDecode ratOps [("a", [5, 7])] ["a"] [("a", [0, 1])] = .ok [("a", [5, 7])] := by decide +kernel

/-- **C135**, `generate_dataset(normalize=True)` raises `ValueError` when no column is continuous (or there are no rows). -/
theorem C135_normalize (ops : CellOps K V) (ord : List String → List String) (scale : List V → List V) (dtype : String → DType)
    (df : DF V) (columns : List String) (className : String) (discrete : List String) (hc : className ∈ columns)
    (hdf : (Dict.get? df className).isSome)
    (hno : (∀ c ∈ columns, c ≠ className → c ∉ discrete → c ∈ Dict.keys df → dtype c ≠ .integer ∧ dtype c ≠ .double) ∨ DF.nrows df = 0) :
    generateDataset ops ord scale dtype df columns className discrete true = .error .valueError := by
  obtain ⟨cls, hcls⟩ := Option.isSome_iff_exists.1 hdf
  simp only [generateDataset, Dict.get_eq_ok_iff.2 hcls, py_bind_ok, pyRemove, if_pos hc]
  have : scaleStep scale true (setDiscreteContinuous ord columns (typeFeatures ((Dict.keys df).map (fun c => (c, dtype c)))) className
      (some discrete) none).2 df = .error .valueError := by
    unfold scaleStep
    rw [if_pos rfl, if_pos]
    rcases hno with hno | h0
    · left
      simp only [setDiscreteContinuous]
      rw [List.filter_eq_nil_iff]
      intro f hf
      obtain ⟨h1, h2⟩ := List.mem_filter.1 hf
      simp only [decide_eq_true_eq] at h2
      simp only [ne_eq, decide_not, Bool.not_eq_eq_eq_not, Bool.not_true, decide_eq_false_iff_not, not_not]
      by_contra hne
      have hk : ∀ t : DType, f ∈ ((((Dict.keys df).map (fun c => (c, dtype c))).filter (fun p => p.2 = t)).map Prod.fst) →
          f ∈ Dict.keys df ∧ dtype f = t := by
        intro t ht
        obtain ⟨q, hq, rfl⟩ := List.mem_map.1 ht
        obtain ⟨hq1, hq2⟩ := List.mem_filter.1 hq
        obtain ⟨c, hc1, rfl⟩ := List.mem_map.1 hq1
        exact ⟨hc1, by simpa using hq2⟩
      rcases h2.2 with h | h
      · obtain ⟨a, b⟩ := hk .integer (by simpa [typeFeatures, columnsOf] using h)
        exact (hno f h1 hne h2.1 a).1 b
      · obtain ⟨a, b⟩ := hk .double (by simpa [typeFeatures, columnsOf] using h)
        exact (hno f h1 hne h2.1 a).2 b
    · exact .inr h0
  rw [this]
  rfl

end encoding

section distances
variable {K : Type} [Field K] [LinearOrder K] [IsStrictOrderedRing K]

/-- **C135**, `mad_distance`: it raises `IndexError` exactly when a MAD different from 0 has no component in one of the two points; it raises
nothing else. -/
theorem C135_mad_distance (x y mad : List K) :
    (madDistance x y mad = .error .indexError ↔ ∃ (i : Nat) (m : K), mad[i]? = some m ∧ m ≠ 0 ∧ (x.length ≤ i ∨ y.length ≤ i)) ∧
    ((∃ d, madDistance x y mad = .ok d) ∨ madDistance x y mad = .error .indexError) := by
  have hterm : ∀ p : K × Nat, (madTerm x y p = .error .indexError ∧ p.1 ≠ 0 ∧ (x.length ≤ p.2 ∨ y.length ≤ p.2)) ∨
      ((∃ d, madTerm x y p = .ok d) ∧ ¬ (p.1 ≠ 0 ∧ (x.length ≤ p.2 ∨ y.length ≤ p.2))) := by
    intro p
    unfold madTerm
    by_cases h0 : p.1 = 0
    · rw [if_pos h0]; exact .inr ⟨⟨_, rfl⟩, fun h => h.1 h0⟩
    · rw [if_neg h0]
      by_cases hx : p.2 < x.length
      · by_cases hy : p.2 < y.length
        · rw [List.getElem?_eq_getElem hx, List.getElem?_eq_getElem hy]
          exact .inr ⟨⟨_, rfl⟩, fun h => by omega⟩
        · rw [List.getElem?_eq_none (l := y) (by omega)]
          exact .inl ⟨by cases x[p.2]? <;> rfl, h0, .inr (by omega)⟩
      · rw [List.getElem?_eq_none (l := x) (by omega)]
        exact .inl ⟨rfl, h0, .inl (by omega)⟩
  have hmem : ∀ (m : K) (i : Nat), (m, i) ∈ mad.zipIdx ↔ mad[i]? = some m := fun m i => List.mk_mem_zipIdx_iff_getElem?
  by_cases hex : ∃ (i : Nat) (m : K), mad[i]? = some m ∧ m ≠ 0 ∧ (x.length ≤ i ∨ y.length ≤ i)
  · have he : madDistance x y mad = .error .indexError := by
      unfold madDistance
      rw [mapM_error_eq _ _ .indexError]
      · rfl
      · intro p _ e' he
        rcases hterm p with ⟨h, -⟩ | ⟨⟨d, h⟩, -⟩ <;> rw [he] at h <;> cases h
        rfl
      · obtain ⟨i, m, h1, h2, h3⟩ := hex
        refine ⟨(m, i), (hmem m i).2 h1, ?_⟩
        rcases hterm (m, i) with ⟨h, -⟩ | ⟨-, h⟩
        · exact h
        · exact absurd ⟨h2, h3⟩ h
    exact ⟨⟨fun _ => hex, fun _ => he⟩, .inr he⟩
  · have hok : ∃ d, madDistance x y mad = .ok d := by
      obtain ⟨ts, hts⟩ := forall₂_of_forall_exists (fun p d => madTerm x y p = .ok d) mad.zipIdx (by
        rintro ⟨m, i⟩ hp
        rcases hterm (m, i) with ⟨-, h1, h2⟩ | ⟨h, -⟩
        · exact absurd ⟨i, m, (hmem m i).1 hp, h1, h2⟩ hex
        · exact h)
      refine ⟨ts.sum, ?_⟩
      unfold madDistance
      rw [(mapM_ok_iff _ _ _).2 hts]
      rfl
    obtain ⟨d, hd⟩ := hok
    refine ⟨⟨fun h => ?_, fun h => absurd h hex⟩, .inl ⟨d, hd⟩⟩
    rw [hd] at h
    cases h

example : madDistance [(1 : ℚ), 2] [2, 2] [1, 0, 2] = .error .indexError ∧ madDistance [(1 : ℚ), 2] [2, 2] [1, 1, 0] = .ok 1 := by
  decide +kernel

/-- **C135**, `get_diff_outcome`: it raises `IndexError` exactly when there is no outcome, or the only one is the given one. -/
theorem C135_diff_outcome {α : Type} [DecidableEq α] (o : α) (outcomes : List α) (e : PyErr) :
    getDiffOutcome o outcomes = .error e ↔ e = .indexError ∧ (outcomes = [] ∨ outcomes = [o]) := by
  match outcomes with
  | [] => simp [getDiffOutcome, eq_comm]
  | [a] =>
    by_cases h : o = a
    · simp [getDiffOutcome, h, eq_comm]
    · simp [getDiffOutcome, h, Ne.symm h]
  | a :: b :: rest =>
    by_cases h : o = a <;> simp [getDiffOutcome, h]

example : getDiffOutcome 3 [] = .error .indexError := by decide +kernel

end distances

section sampling
variable {K : Type} [Field K] [LinearOrder K] [IsStrictOrderedRing K]

/-- **C135**, `SamplingNeighborhood.fit`: generated rows that do not have one value for each feature are a `ValueError`, and nothing of the
object changes. -/
theorem C135_sample_width (d : DsCtx K) (bb : List K → Nat) (inst : List K) (rows : List (List K)) (s : NState K)
    (hdec : ∃ dec, d.features.zipIdx.mapM (decodeFeature d inst) = .ok dec) (hrow : ∃ r ∈ rows, r.length ≠ d.features.length) :
    samplingFit d bb (some (.ok rows)) inst s = (.error .valueError, s) := by
  obtain ⟨dec, hdec⟩ := hdec
  obtain ⟨r, hr, hl⟩ := hrow
  have : fitValues d (some (.ok rows)) inst = .error .valueError := by
    unfold fitValues
    rw [hdec]
    simp only [py_bind_ok, mkFrame]
    rw [if_pos (List.any_eq_true.2 ⟨r, hr, by simpa using hl⟩)]
    rfl
  unfold samplingFit
  rw [this]

example : (samplingFit nbObj.ds nbObj.bb (some (.ok [[1]])) nbObj.inst {}).1 = .error .valueError := by decide +kernel

theorem inverseCell_cases (cx : LoreCtx K) (htoInt : ∀ n : Nat, cx.toInt ((n : Nat) : K) = (n : Int)) (classes : List (Cell K)) (x : K) :
    (∃ (n : Nat) (c : Cell K), x = (n : K) ∧ classes[n]? = some c ∧ inverseCell cx classes x = .ok c) ∨
    ((¬ ∃ n : Nat, n < classes.length ∧ x = (n : K)) ∧ inverseCell cx classes x = .error .valueError) := by
  unfold inverseCell
  split_ifs with h
  · cases hi : cx.toInt x with
    | negSucc m =>
      right
      refine ⟨?_, rfl⟩
      rintro ⟨n, -, rfl⟩
      rw [htoInt] at hi
      cases hi
    | ofNat n =>
      have hx : x = ((n : Nat) : K) := by rw [← h, hi]; simp
      simp only
      cases hc : classes[n]? with
      | some w => left; exact ⟨n, w, hx, hc, rfl⟩
      | none =>
        right
        refine ⟨?_, rfl⟩
        rintro ⟨m, h1, h2⟩
        have : n = m := by exact_mod_cast hx.symm.trans h2
        subst this
        rw [List.getElem?_eq_getElem h1] at hc
        cases hc
  · right
    refine ⟨?_, rfl⟩
    rintro ⟨m, h1, rfl⟩
    rw [htoInt] at h
    exact h (by simp)

/-- **C135**, `LoreNeighborhood.fit`: an instance with a value that is not the number of a class of its encoder is a `ValueError`, and nothing of
the object changes; so is a predicted class unknown to the encoder of the class. -/
theorem C135_lore_unknown_code (cx : LoreCtx K) (htoInt : ∀ n : Nat, cx.toInt ((n : Nat) : K) = (n : Int)) (bb : List K → Nat)
    (gen : Py (Frame K)) (inst : List K) (hlen : cx.features.length ≤ inst.length) (fuel : Nat) (s : LState K) :
    ((∃ (j : Nat) (f : String) (cls : List (Cell K)) (x : K), cx.features[j]? = some f ∧ Dict.get? cx.encoders f = some cls ∧ inst[j]? = some x ∧
        ∀ n : Nat, n < cls.length → x ≠ (n : K)) → loreFit cx bb gen inst fuel s = (.error .valueError, s)) ∧
    (∀ cls, Dict.get? cx.encoders cx.className = some cls → cls.length ≤ bb inst → (loreFit cx bb gen inst fuel s).1 = .error .valueError) := by
  have hdec : ∀ p ∈ cx.features.zipIdx, ∀ e', loreDecode cx inst p = .error e' → e' = .valueError := by
    rintro ⟨f, j⟩ hp e' he
    have hj := List.mk_mem_zipIdx_iff_getElem?.1 hp
    have hjl := (List.getElem?_eq_some_iff.1 hj).1
    unfold loreDecode at he
    simp only [List.getElem?_eq_getElem (show j < inst.length by omega)] at he
    cases hc : Dict.get? cx.encoders f with
    | none => rw [hc] at he; cases he
    | some cls =>
      rw [hc] at he
      simp only at he
      rcases inverseCell_cases cx htoInt cls inst[j] with ⟨n, c, -, -, h⟩ | ⟨-, h⟩ <;> rw [he] at h <;> cases h
      rfl
  constructor
  · rintro ⟨j, f, cls, x, h1, h2, h3, h4⟩
    have : cx.features.zipIdx.mapM (loreDecode cx inst) = .error .valueError := by
      apply mapM_error_eq _ _ _ hdec
      refine ⟨(f, j), List.mk_mem_zipIdx_iff_getElem?.2 h1, ?_⟩
      unfold loreDecode
      simp only [h2, h3]
      rcases inverseCell_cases cx htoInt cls x with ⟨n, c, e1, e2, -⟩ | ⟨-, h⟩
      · exact absurd e1 (h4 n (List.getElem?_eq_some_iff.1 e2).1)
      · exact h
    unfold loreFit
    rw [this]
  · intro cls h1 h2
    unfold loreFit
    cases hm : cx.features.zipIdx.mapM (loreDecode cx inst) with
    | error e =>
      obtain ⟨p, hp, he⟩ := mapM_error_mem _ _ _ hm
      rw [hdec p hp e he]
    | ok dec =>
      have : loreTarget cx (bb inst : K) = .error .valueError := by
        unfold loreTarget
        rw [Dict.get_eq_ok_iff.2 h1, py_bind_ok]
        rcases inverseCell_cases cx htoInt cls (bb inst : K) with ⟨n, c, e1, e2, -⟩ | ⟨-, h⟩
        · have : bb inst = n := by exact_mod_cast e1
          have := (List.getElem?_eq_some_iff.1 e2).1
          omega
        · exact h
      simp only [this]

end sampling

section genetic
variable {R K V : Type} [Field K] [LinearOrder K] [IsStrictOrderedRing K]

/-- **C135**, `random_init` (of the genetic data generator): with draws in range it fails exactly when some feature has no values, with
`ValueError`. -/
theorem C135_no_values (rng : GPRng R K) (hpick : ∀ n r, 0 < n → (rng.pick n r).1 < n) (fv : Dict Nat (List K)) (r : R) :
    ((∃ p ∈ fv, p.2 = []) → gpRandomInit rng fv r = .error .valueError) ∧
    ((∀ p ∈ fv, p.2 ≠ []) → ∃ l r', gpRandomInit rng fv r = .ok (l, r') ∧ List.Forall₂ (fun p v => v ∈ p.2) fv l) := by
  induction fv generalizing r with
  | nil => exact ⟨fun ⟨p, hp, _⟩ => by simp at hp, fun _ => ⟨[], r, rfl, .nil⟩⟩
  | cons p fv ih =>
    by_cases he : p.2 = []
    · have : choice1 rng p.2 r = .error .valueError := by simp [choice1, he]
      refine ⟨fun _ => ?_, fun h => absurd he (h p (by simp))⟩
      simp only [gpRandomInit, this]
      rfl
    · have hlt := hpick p.2.length r (List.length_pos_of_ne_nil he)
      have hc : choice1 rng p.2 r = .ok (p.2[(rng.pick p.2.length r).1], (rng.pick p.2.length r).2) := by
        simp only [choice1, List.getElem?_eq_getElem hlt]
      constructor
      · rintro ⟨q, hq, hq'⟩
        have hq : q ∈ fv := by
          rcases List.mem_cons.1 hq with rfl | hq
          · exact absurd hq' he
          · exact hq
        simp only [gpRandomInit, hc, py_bind_ok, (ih _).1 ⟨q, hq, hq'⟩]
        rfl
      · intro h
        obtain ⟨l, r', h1, h2⟩ := (ih (rng.pick p.2.length r).2).2 (fun q hq => h q (by simp [hq]))
        refine ⟨p.2[(rng.pick p.2.length r).1] :: l, r', ?_, .cons (List.getElem_mem _) h2⟩
        simp only [gpRandomInit, hc, py_bind_ok, h1]
        rfl

example : gpRandomInit exRng [(0, [1]), (1, [])] 0 = .error .valueError := by decide +kernel

omit [Field K] [IsStrictOrderedRing K] in
theorem mutateLoop_error (rng : Rng R K V) (prob : K) (h : Heap V) (fs : List Nat) :
    ∀ (l : List V) (r : R),
    (∀ e, mutateLoop rng prob h.length fs (h ++ [l]) r = .error e → e = .indexError ∧ ∃ f ∈ fs, l.length ≤ f) ∧
    ((∀ r, (rng.random r).1 < prob) → (∃ f ∈ fs, l.length ≤ f) → mutateLoop rng prob h.length fs (h ++ [l]) r = .error .indexError) := by
  induction fs with
  | nil => intro l r; exact ⟨fun e he => (by cases he), fun _ ⟨f, hf, _⟩ => (by simp at hf)⟩
  | cons f fs ih =>
    intro l r
    rcases hr : rng.random r with ⟨u, r1⟩
    rcases hg : rng.gen f r1 with ⟨v, r2⟩
    have hd : deref (h ++ [l]) h.length = .ok l := deref_ok (by simp)
    by_cases hu : u < prob
    · by_cases hf : f < l.length
      · have hset : setItem (h ++ [l]) h.length f v = .ok (h ++ [l.set f v]) := by
          unfold setItem
          rw [hd]
          simp [hf]
        have hrec : mutateLoop rng prob h.length (f :: fs) (h ++ [l]) r = mutateLoop rng prob h.length fs (h ++ [l.set f v]) r2 := by
          simp only [mutateLoop, hr, hu, if_true, hg, hset, py_bind_ok]
        rw [hrec]
        obtain ⟨h1, h2⟩ := ih (l.set f v) r2
        rw [List.length_set] at h1 h2
        constructor
        · intro e he
          obtain ⟨a, g, hg, b⟩ := h1 e he
          exact ⟨a, g, by simp [hg], b⟩
        · rintro hall ⟨g, hg, hb⟩
          rcases List.mem_cons.1 hg with rfl | hg
          · omega
          · exact h2 hall ⟨g, hg, hb⟩
      · have hset : setItem (h ++ [l]) h.length f v = .error .indexError := by
          unfold setItem
          rw [hd]
          simp [hf]
        have hrec : mutateLoop rng prob h.length (f :: fs) (h ++ [l]) r = .error .indexError := by
          simp only [mutateLoop, hr, hu, if_true, hg, hset]
          rfl
        rw [hrec]
        refine ⟨fun e he => ?_, fun _ _ => rfl⟩
        cases he
        exact ⟨rfl, f, by simp, by omega⟩
    · have hrec : mutateLoop rng prob h.length (f :: fs) (h ++ [l]) r = mutateLoop rng prob h.length fs (h ++ [l]) r1 := by
        simp only [mutateLoop, hr, hu, if_false]
      rw [hrec]
      obtain ⟨h1, h2⟩ := ih l r1
      constructor
      · intro e he
        obtain ⟨a, g, hg, b⟩ := h1 e he
        exact ⟨a, g, by simp [hg], b⟩
      · intro hall
        exfalso
        have := hall r
        rw [hr] at this
        exact hu this

omit [Field K] [IsStrictOrderedRing K] in
/-- **C135**, `informed_init` (of the genetic algorithm): it fails only with `IndexError`, and only if a feature to change is beyond the
individual; it does fail if such a feature is drawn. -/
theorem C135_informed_init (rng : Rng R K V) (features : List Nat) (prob : K) (h : Heap V) (a : Nat) (l : List V) (hl : h[a]? = some l) (r : R) :
    (∀ e, informedInit rng features a prob h r = .error e → e = .indexError ∧ ∃ f ∈ features, l.length ≤ f) ∧
    ((∀ r, (rng.random r).1 < prob) → (∃ f ∈ features, l.length ≤ f) → informedInit rng features a prob h r = .error .indexError) := by
  obtain ⟨h1, h2⟩ := mutateLoop_error rng prob h features l r
  unfold informedInit copyInd
  rw [deref_ok hl]
  simp only [py_bind_ok, py_pure]
  constructor
  · intro e he
    rcases py_bind_eq_error.1 he with he | ⟨x, -, he⟩
    · exact h1 e he
    · cases he
  · intro hall hex
    rw [h2 hall hex]
    rfl

omit [Field K] [IsStrictOrderedRing K] in
theorem crossLoop_error (rng : Rng R K V) (prob : K) (h : Heap V) (a b : Nat) (f s : List V) (hf : h[a]? = some f) (hs : h[b]? = some s) :
    ∀ (is : List Nat) (c1 c2 : List V) (r : R), (∀ i ∈ is, i < f.length) → c1.length = f.length → c2.length = s.length →
    (∀ e, crossLoop rng prob a b h.length (h.length + 1) is (h ++ [c1, c2]) r = .error e → e = .indexError) ∧
    ((∀ r, (rng.random r).1 < prob) → (∃ i ∈ is, s.length ≤ i) →
      crossLoop rng prob a b h.length (h.length + 1) is (h ++ [c1, c2]) r = .error .indexError) := by
  intro is
  induction is with
  | nil => intro c1 c2 r _ _ _; exact ⟨fun e he => (by cases he), fun _ ⟨i, hi, _⟩ => (by simp at hi)⟩
  | cons i is ih =>
    intro c1 c2 r hi h1 h2
    rcases hr : rng.random r with ⟨u, r1⟩
    have hif := hi i (by simp)
    have ds : deref (h ++ [c1, c2]) b = .ok s := deref_ok (getElem?_append_heap hs)
    have df : deref (h ++ [c1, c2]) a = .ok f := deref_ok (getElem?_append_heap hf)
    by_cases hu : u < prob
    · by_cases his : i < s.length
      · have g1 : getItem (h ++ [c1, c2]) b i = .ok s[i] := by
          unfold getItem
          rw [ds]
          simp only [py_bind_ok]
          rw [List.getElem?_eq_getElem his]
        have s1 : setItem (h ++ [c1, c2]) h.length i s[i] = .ok (h ++ [c1.set i s[i], c2]) := by
          unfold setItem
          rw [deref_ok (l := c1) (by simp)]
          simp [h1, hif]
        have g2 : getItem (h ++ [c1.set i s[i], c2]) a i = .ok f[i] := by
          unfold getItem
          rw [deref_ok (getElem?_append_heap hf)]
          simp only [py_bind_ok]
          rw [List.getElem?_eq_getElem hif]
        have s2 : setItem (h ++ [c1.set i s[i], c2]) (h.length + 1) i f[i] = .ok (h ++ [c1.set i s[i], c2.set i f[i]]) := by
          unfold setItem
          rw [deref_ok (l := c2) (by simp)]
          simp [h2, his, List.set_append_right]
        have hrec : crossLoop rng prob a b h.length (h.length + 1) (i :: is) (h ++ [c1, c2]) r =
            crossLoop rng prob a b h.length (h.length + 1) is (h ++ [c1.set i s[i], c2.set i f[i]]) r1 := by
          simp only [crossLoop, hr, hu, if_true, g1, py_bind_ok, s1, g2, s2]
        rw [hrec]
        obtain ⟨k1, k2⟩ := ih (c1.set i s[i]) (c2.set i f[i]) r1 (fun j hj => hi j (by simp [hj])) (by simpa using h1) (by simpa using h2)
        refine ⟨k1, ?_⟩
        rintro hall ⟨j, hj, hjs⟩
        rcases List.mem_cons.1 hj with rfl | hj
        · omega
        · exact k2 hall ⟨j, hj, hjs⟩
      · have g1 : getItem (h ++ [c1, c2]) b i = .error .indexError := by
          unfold getItem
          rw [ds]
          simp only [py_bind_ok]
          rw [List.getElem?_eq_none (by omega)]
        have hrec : crossLoop rng prob a b h.length (h.length + 1) (i :: is) (h ++ [c1, c2]) r = .error .indexError := by
          simp only [crossLoop, hr, hu, if_true, g1]
          rfl
        rw [hrec]
        refine ⟨fun e he => ?_, fun _ _ => rfl⟩
        cases he
        rfl
    · have hrec : crossLoop rng prob a b h.length (h.length + 1) (i :: is) (h ++ [c1, c2]) r =
          crossLoop rng prob a b h.length (h.length + 1) is (h ++ [c1, c2]) r1 := by
        simp only [crossLoop, hr, hu, if_false]
      rw [hrec]
      obtain ⟨k1, -⟩ := ih c1 c2 r1 (fun j hj => hi j (by simp [hj])) h1 h2
      refine ⟨k1, fun hall => ?_⟩
      exfalso
      have := hall r
      rw [hr] at this
      exact hu this

omit [Field K] [IsStrictOrderedRing K] in
/-- **C135**, `uniform_crossover` of a first individual longer than the second: it fails only with `IndexError`, and does fail when every
position is exchanged. -/
theorem C135_crossover_lengths (rng : Rng R K V) (prob : K) (h : Heap V) (a b : Nat) (f s : List V) (hf : h[a]? = some f) (hs : h[b]? = some s)
    (hlen : s.length < f.length) (r : R) :
    (∀ e, uniformCrossover rng a b prob h r = .error e → e = .indexError) ∧
    ((∀ r, (rng.random r).1 < prob) → uniformCrossover rng a b prob h r = .error .indexError) := by
  obtain ⟨k1, k2⟩ := crossLoop_error rng prob h a b f s hf hs (List.range f.length) f s r (fun i hi => List.mem_range.1 hi) rfl rfl
  unfold uniformCrossover copyInd
  rw [deref_ok hf]
  simp only [py_bind_ok, py_pure]
  rw [deref_ok (getElem?_append_heap hs)]
  simp only [py_bind_ok, List.append_assoc, List.length_append, List.length_singleton, List.singleton_append]
  rw [deref_ok (getElem?_append_heap hf)]
  simp only [py_bind_ok]
  constructor
  · intro e he
    rcases py_bind_eq_error.1 he with he | ⟨x, -, he⟩
    · exact k1 e he
    · cases he
  · intro hall
    rw [k2 hall ⟨s.length, List.mem_range.2 hlen, le_refl _⟩]
    rfl

end genetic

section id3
variable {V C K : Type} [Field K] [LinearOrder K] [IsStrictOrderedRing K] [LinearOrder V] [LinearOrder C]

/-- **C135**, `ID3.fit`: rows with less values than there are features are an `IndexError`; so is an empty table. -/
theorem C135_id3_narrow (gain : List V → List C → List V → K) (ordC : List C → List C) (hC : Spec.IsSetListing ordC)
    (ordF : List String → List String) (p : ID3Params K) (t : INode V C K) (rows : IRows V C)
    (h : (∃ r ∈ rows, r.1.length < p.features.length) ∨ rows = []) : id3FitWith gain ordC ordF p t rows = .error .indexError := by
  have hcolumn : ∀ (X : List (List V)) (i : Nat) (e : PyErr), column X i = .error e → e = .indexError := by
    intro X i e he
    obtain ⟨r, -, h⟩ := mapM_error_mem _ _ _ he
    cases hr : r[i]? with
    | some v => simp only [hr] at h; cases h
    | none => simp only [hr] at h; cases h; rfl
  rcases h with ⟨r, hr, hlt⟩ | rfl
  · have : (List.range p.features.length).mapM (column (rows.map Prod.fst)) = .error .indexError := by
      apply mapM_error_eq _ _ _ (fun i _ e he => hcolumn _ _ _ he)
      refine ⟨r.1.length, List.mem_range.2 hlt, ?_⟩
      obtain ⟨e, he⟩ := mapM_error_of_mem (fun (r' : List V) => match r'[r.1.length]? with
        | some v => (.ok v : Py V)
        | none => .error .indexError) (rows.map Prod.fst) r.1 (List.mem_map_of_mem hr) .indexError (by
          simp)
      have he' : column (rows.map Prod.fst) r.1.length = .error e := he
      rw [hcolumn _ _ _ he'] at he'
      exact he'
    unfold id3FitWith
    rw [this]
    rfl
  · have : (List.range p.features.length).mapM (column (([] : IRows V C).map Prod.fst)) =
        .ok ((List.range p.features.length).map (fun _ => [])) := by
      apply mapM_ok_of_forall
      intro i _
      rfl
    unfold id3FitWith
    rw [this]
    simp only [py_bind_ok, id3PartialFit]
    have hcc : pyMax (fun q : C × Nat => q.2) (classCounts ordC ([] : IRows V C)) = .error .valueError := by
      have : ordC [] = [] := (hC []).eq_nil
      simp [classCounts, this, pyMax]
    rw [hcc]
    rfl

example : id3FitWith ID3Ex.gain List.dedup id ID3Ex.p .fresh [([0, 0], 0), ([1], 1)] = .error .indexError := by
  rw [C135_id3_narrow ID3Ex.gain List.dedup ID3Ex.arr_dedup id ID3Ex.p .fresh _ (.inl ⟨([1], 1), by simp, by decide⟩)]

end id3

section explainers
variable {K : Type} [Field K] [LinearOrder K] [IsStrictOrderedRing K]

theorem runFactual_keywords {V : Type} {name : String} {kw : ExpKw K} {rest : Bool} {matching : Rule V Nat K → Py K}
    {rs out : List (Rule V Nat K)} {c : Nat} (h : runFactual (FMethod.ofName name) kw rest matching rs c = .ok out) :
    rest = false ∧ (name ≠ "c_factual" → kw.lam = none ∧ kw.beta = none) := by
  unfold runFactual at h
  cases rest with
  | true => cases h
  | false =>
    refine ⟨rfl, fun hc => ?_⟩
    simp only [Bool.false_eq_true, if_false] at h
    have hb : (kw.lam.isSome || kw.beta.isSome) = false := by
      by_contra hb
      rw [Bool.not_eq_false] at hb
      cases hm : FMethod.ofName name with
      | none => rw [hm] at h; cases h
      | some fm =>
        rw [hm] at h
        cases fm with
        | c => exact absurd ((fmethod_c _).1 hm) hc
        | m => simp only [hb, if_true] at h; cases h
        | mr => simp only [hb, if_true] at h; cases h
    simpa using hb

/-- **C136**: a call of `FDTExplainer.fit` that succeeds has only the keywords that its methods know: no unknown keyword; none of `cont_idx`,
`disc_idx`, `mad` and `cf_dist` unless the counterfactual is `d_counterfactual`; `lam` and `beta` only for `c_factual`. -/
theorem C136_fdt_keywords (cx : ExpCtx K) (a : ExpArgs K) (s s' : EState K (List (Rule String Nat K)) Changes)
    (h : fdtExplainerFit cx a s = (.ok (), s')) :
    a.kw.other = false ∧
    (a.counterfactual ≠ "d_counterfactual" → a.kw.contIdx = none ∧ a.kw.discIdx = none ∧ a.kw.mad = none ∧ a.kw.cfDist = none) ∧
    (a.factual ≠ "c_factual" → a.kw.lam = none ∧ a.kw.beta = none) := by
  unfold fdtExplainerFit at h
  obtain ⟨t, f, r, c, x, -, -, -, -, h5, -⟩ := explainerFit_ok h
  unfold fdtFinish at h5
  obtain ⟨inst, -, h5⟩ := py_bind_eq_ok.1 h5
  obtain ⟨fact, h6, -⟩ := py_bind_eq_ok.1 h5
  obtain ⟨hrest, hf⟩ := runFactual_keywords h6
  simp only [Bool.or_eq_false_iff, Bool.and_eq_false_iff, decide_eq_false_iff_not, not_not] at hrest
  refine ⟨hrest.1, fun hd => ?_, hf⟩
  have : a.kw.dGiven = false := by
    rcases hrest.2 with h | h
    · exact h
    · exact absurd ((cmethod_d _).1 h) hd
  simp only [ExpKw.dGiven, Bool.or_eq_false_iff, Option.isSome_eq_false_iff, Option.isNone_iff_eq_none] at this
  exact ⟨this.1.1.1, this.1.1.2, this.1.2, this.2⟩

/-- **C136**: a call of `FBDTExplainer.fit` that succeeds has none of the keywords of `d_counterfactual`, whatever the counterfactual is. -/
theorem C136_fbdt_keywords [NanSort K] (cx : ExpCtx K) (a : ExpArgs K) (s s' : EState K (List (Rule (List String) Nat K)) String)
    (h : fbdtExplainerFit cx a s = (.ok (), s')) :
    a.kw.other = false ∧ a.kw.contIdx = none ∧ a.kw.discIdx = none ∧ a.kw.mad = none ∧ a.kw.cfDist = none ∧
    (a.factual ≠ "c_factual" → a.kw.lam = none ∧ a.kw.beta = none) := by
  unfold fbdtExplainerFit at h
  obtain ⟨t, f, r, c, x, -, -, -, -, h5, -⟩ := explainerFit_ok h
  unfold fbdtFinish at h5
  obtain ⟨inst, -, h5⟩ := py_bind_eq_ok.1 h5
  obtain ⟨fact, h6, -⟩ := py_bind_eq_ok.1 h5
  obtain ⟨hrest, hf⟩ := runFactual_keywords h6
  simp only [Bool.or_eq_false_iff] at hrest
  have hg := hrest.2
  simp only [ExpKw.dGiven, Bool.or_eq_false_iff, Option.isSome_eq_false_iff, Option.isNone_iff_eq_none] at hg
  exact ⟨hrest.1, hg.1.1.1, hg.1.1.2, hg.1.2, hg.2, hf⟩

/-- **C136**: a keyword that no method takes makes `fit` raise `TypeError` once the local tree is trained and has concluded; the target, the
fidelity and the explained class of this call are then already assigned. -/
theorem C136_type_error (cx : ExpCtx K) (a : ExpArgs K) (hchk : checkExpArgs a = .ok ()) (t : (ExpData K × FNode Nat K) × List Nat)
    (ht : fdtTrain cx a = .ok t) (fid : K) (hf : fdtFidelity t.1.1.y t.2 = .ok fid) (rs : ExpData K × List (Rule String Nat K)) (c : Nat)
    (hc : fdtConclude a t.1 = .ok (rs, c)) (inst : Inst K) (hi : scalarInst rs.1.im = .ok inst)
    (hkw : a.kw.other = true ∨ (a.counterfactual ≠ "d_counterfactual" ∧
      (a.kw.contIdx ≠ none ∨ a.kw.discIdx ≠ none ∨ a.kw.mad.isSome ∨ a.kw.cfDist ≠ none)))
    (s : EState K (List (Rule String Nat K)) Changes) : (fdtExplainerFit cx a s).1 = .error .typeError := by
  have hrest : (a.kw.other || (a.kw.dGiven && decide (CMethod.ofName a.counterfactual ≠ some .d))) = true := by
    rcases hkw with h | ⟨h1, h2⟩
    · simp [h]
    · have hd : CMethod.ofName a.counterfactual ≠ some .d := fun h => h1 ((cmethod_d _).1 h)
      have hg : a.kw.dGiven = true := by
        unfold ExpKw.dGiven
        rcases h2 with h | h | h | h
        · rw [Option.isSome_iff_ne_none.2 h]; simp
        · rw [Option.isSome_iff_ne_none.2 h]; simp
        · rw [h]; simp
        · rw [Option.isSome_iff_ne_none.2 h]; simp
      simp [hg, hd]
  unfold fdtExplainerFit explainerFit
  simp only [hchk, ht, hf, hc]
  have : fdtFinish cx a rs c = .error .typeError := by
    unfold fdtFinish
    rw [hi, py_bind_ok]
    simp only [runFactual, hrest, if_true]
    rfl
  rw [this]

example : (fdtExplainerFit expCtx (expArgs "m_factual" "i_counterfactual" { discIdx := some [] } 0) {}).1 = .error .typeError ∧
    (fdtExplainerFit expCtx (expArgs "m_factual" "i_counterfactual" { contIdx := some [] } 0) {}).1 = .error .typeError ∧
    (fdtExplainerFit expCtx (expArgs "m_factual" "i_counterfactual" { cfDist := some "moth" } 0) {}).1 = .error .typeError ∧
    (fdtExplainerFit expCtx (expArgs "m_factual" "i_counterfactual" {} 0) {}).1 = .ok () := by decide +kernel

end explainers

end Teacher
