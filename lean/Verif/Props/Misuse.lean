import Verif.Props.ErrorKinds
import Verif.Props.FDTFitted
import Verif.Props.FBDTPredict
import Verif.Props.FastFit

/-!
# Every exception that `predict`, `fit`, `to_rule_based_system` and the metrics can raise, and when (C171)
-/

namespace Teacher.Spec
variable {C K : Type}

section
variable [Field K] [LinearOrder K]

/-- evaluating one fuzzy set on the column number `att` of `X` can raise `e`: the column is missing in some row (`IndexError`), the points
of the triangle are not in order (`AssertionError`), or some row has a text where numbers are expected (`TypeError`). -/
def SetError (X : List (List (Cell K))) (att : Nat) (fs : FSet K) (e : PyErr) : Prop :=
  (e = .indexError ∧ ∃ row ∈ X, row.length ≤ att) ∨
  (e = .assertionError ∧ ∃ s, fs = .cont s ∧ ¬ (s.a ≤ s.b ∧ s.b ≤ s.c)) ∨
  (e = .typeError ∧ ∃ s, fs = .cont s ∧ ∃ row ∈ X, ∃ w, row[att]? = some (.str w))

/-- the test of a node of an FDT can raise `e`: it refers to a set that its variable has not, or evaluating the set raises `e`. -/
def TestError (X : List (List (Cell K))) (t : FTest K) (e : PyErr) : Prop :=
  (e = .indexError ∧ t.var.sets[t.idx]? = none) ∨ ∃ fs, t.var.sets[t.idx]? = some fs ∧ SetError X t.att fs e

/-- computing the memberships of the table `X` in the sets of the variables can raise `e`. -/
def TableError (X : List (List (Cell K))) (vars : List (FVar K)) (e : PyErr) : Prop :=
  ∃ (i : Nat) (v : FVar K), vars[i]? = some v ∧ ((e = .indexError ∧ ∃ row ∈ X, row.length ≤ i) ∨ ∃ fs ∈ v.sets, SetError X i fs e)
end

end Teacher.Spec

namespace Teacher
open Spec
set_option linter.unusedSectionVars false

variable {V C K : Type}

/-! ## prediction -/

section
variable [Field K] [LinearOrder K] [IsStrictOrderedRing K]

/-- the errors of a fuzzy set evaluated on a column. -/
theorem membership_error {X : List (List (Cell K))} {att : Nat} {col : List (Cell K)} (hcol : column X att = .ok col) {fs : FSet K} {e : PyErr}
    (h : fs.membership col = .error e) : SetError X att fs e := by
  cases fs with
  | disc s => simp [FSet.membership] at h
  | cont s =>
    simp only [FSet.membership, CSet.membership] at h
    split at h
    · obtain ⟨x, hx, hxe⟩ := mapM_error_mem _ _ _ h
      cases x with
      | num x => simp at hxe
      | str w =>
        simp only at hxe
        split at hxe
        · cases hxe
        · cases hxe
          refine .inr (.inr ⟨rfl, s, rfl, ?_⟩)
          unfold column at hcol
          obtain ⟨row, hrow, hr⟩ := forall₂_mem_right ((mapM_ok_iff _ _ _).1 hcol) _ hx
          refine ⟨row, hrow, w, ?_⟩
          split at hr
          · next heq => rw [heq]; cases hr; rfl
          · cases hr
    · cases h
      exact .inr (.inl ⟨rfl, s, rfl, by assumption⟩)

/-- the errors of reading a column. -/
theorem column_error {α : Type} {X : List (List α)} {att : Nat} {e : PyErr} (h : column X att = .error e) :
    e = .indexError ∧ ∃ row ∈ X, row.length ≤ att := by
  unfold column at h
  obtain ⟨row, hrow, hr⟩ := mapM_error_mem _ _ _ h
  split at hr
  · cases hr
  · next heq => cases hr; exact ⟨rfl, row, hrow, List.getElem?_eq_none_iff.1 heq⟩

theorem nodeMu_error {T : K → K → K} {X : List (List (Cell K))} {mu : List K} {test : Option (FTest K)} {e : PyErr}
    (h : nodeMu T X mu test = .error e) : ∃ t ∈ test, TestError X t e := by
  cases test with
  | none => simp [nodeMu] at h
  | some t =>
    refine ⟨t, rfl, ?_⟩
    simp only [nodeMu] at h
    split at h
    · next heq => cases h; exact .inl ⟨rfl, heq⟩
    · next fs heq =>
      rcases py_bind_eq_error.1 h with h | ⟨col, hcol, h⟩
      · exact .inr ⟨fs, heq, .inl (column_error h)⟩
      · rcases py_bind_eq_error.1 h with h | ⟨m, -, h⟩
        · exact .inr ⟨fs, heq, membership_error hcol h⟩
        · cases h

theorem partialPredictList_error {T : K → K → K} {X : List (List (Cell K))} {mu : List K} {e : PyErr} :
    ∀ {cs : List (FNode C K)}, partialPredictList T X mu cs = .error e → ∃ c ∈ cs, partialPredict T X mu c = .error e
  | [], h => by simp [partialPredictList] at h
  | c :: cs, h => by
    rw [partialPredictList] at h
    rcases py_bind_eq_error.1 h with h | ⟨r, -, h⟩
    · exact ⟨c, by simp, h⟩
    · rcases py_bind_eq_error.1 h with h | ⟨rs, -, h⟩
      · obtain ⟨c', hc', h'⟩ := partialPredictList_error h
        exact ⟨c', by simp [hc'], h'⟩
      · cases h

/-- the errors of the recursion of `predict`. -/
theorem partialPredict_error (T : K → K → K) (X : List (List (Cell K))) (t : FNode C K) :
    ∀ {mu : List K} {e : PyErr}, partialPredict T X mu t = .error e →
      (e = .valueError ∧ ¬ Branching t) ∨ ∃ p ∈ nodePaths t, ∃ test ∈ p.1, TestError X test e := by
  induction t using FNode.induction with
  | h test level m isLeaf cv children ih =>
    intro mu e h
    rw [partialPredict] at h
    rcases py_bind_eq_error.1 h with h | ⟨newMu, -, h⟩
    · obtain ⟨t, ht, hte⟩ := nodeMu_error h
      refine .inr ⟨(test.toList, _), by rw [nodePaths]; exact List.mem_cons_self, t, ?_, hte⟩
      simpa using ht
    · cases isLeaf with
      | true => cases h
      | false =>
        simp only [Bool.false_eq_true, if_false] at h
        have key : ∀ c ∈ children, partialPredict T X newMu c = .error e →
            (e = .valueError ∧ ¬ Branching (.mk test level m false cv children)) ∨
              ∃ p ∈ nodePaths (.mk test level m false cv children), ∃ test ∈ p.1, TestError X test e := by
          intro c hc hce
          rcases ih c hc hce with ⟨h1, h2⟩ | ⟨p, hp, t, ht, hte⟩
          · refine .inl ⟨h1, fun hb => h2 ?_⟩
            simp only [Branching, forall_const, BranchingList_iff] at hb
            exact hb.2 c hc
          · refine .inr ⟨(test.toList ++ p.1, p.2), ?_, t, by simp [ht], hte⟩
            rw [nodePaths]
            refine List.mem_cons_of_mem _ ?_
            simp only [Bool.false_eq_true, if_false, nodePathsList_eq]
            exact List.mem_map.2 ⟨p, List.mem_flatMap.2 ⟨c, hc, hp⟩, rfl⟩
        cases children with
        | nil =>
          simp only at h
          cases h
          exact .inl ⟨rfl, by simp [Branching]⟩
        | cons c cs =>
          simp only at h
          rcases py_bind_eq_error.1 h with h | ⟨r, -, h⟩
          · exact key c (by simp) h
          · rcases py_bind_eq_error.1 h with h | ⟨rs, -, h⟩
            · obtain ⟨c', hc', h'⟩ := partialPredictList_error h
              exact key c' (by simp [hc']) h'
            · cases h

theorem foldlM_error {α β : Type} {f : β → α → Py β} {e : PyErr} :
    ∀ {l : List α} {b : β}, l.foldlM f b = .error e → ∃ a ∈ l, ∃ b', f b' a = .error e
  | [], b, h => by cases h
  | a :: l, b, h => by
    rw [List.foldlM_cons] at h
    rcases py_bind_eq_error.1 h with h | ⟨b', -, h⟩
    · exact ⟨a, by simp, b, h⟩
    · obtain ⟨a', ha', h'⟩ := foldlM_error h
      exact ⟨a', by simp [ha'], h'⟩

variable [DecidableEq C]

theorem run_error {v : Voting} {L : List (Option (Dict C K) × List K)} {e : PyErr} (h : v.run L = .error e) :
    e = .typeError ∧ ∃ q ∈ L, q.1 = none := by
  unfold Voting.run at h
  obtain ⟨q, hq, d, hd⟩ := foldlM_error h
  split at hd
  · next heq => cases hd; exact ⟨rfl, q, hq, heq⟩
  · cases hd

theorem Dict.set_ne_nil {α β : Type} [DecidableEq α] (d : Dict α β) (k : α) (x : β) : Dict.set d k x ≠ [] := by
  intro h
  have := Dict.get?_set d k k x
  rw [h] at this
  simp [Dict.get?] at this

theorem entry_ne_nil (v : Voting) (mu : List K) (d : Dict C (List K)) (kv : C × K) : v.entry mu d kv ≠ [] := by
  cases v
  · simp only [Voting.entry, aggEntry]; split <;> exact Dict.set_ne_nil _ _ _
  · simp only [Voting.entry, maxEntry]; split <;> exact Dict.set_ne_nil _ _ _

theorem run_nil {v : Voting} {L : List (Option (Dict C K) × List K)} (h : v.run L = .ok []) : ∀ q ∈ L, q.1 = some [] := by
  have hf : ∀ (mu : List K) (cv : Dict C K) (d : Dict C (List K)), cv.foldl (v.entry mu) d = [] → cv = [] ∧ d = [] := by
    intro mu cv
    induction cv with
    | nil => intro d h; exact ⟨rfl, h⟩
    | cons kv cv ih => intro d h; exact absurd (ih _ h).2 (entry_ne_nil v mu d kv)
  have key : ∀ (L : List (Option (Dict C K) × List K)) (d : Dict C (List K)), (L.foldlM (fun d leaf => match leaf.1 with
      | none => (.error .typeError : Py (Dict C (List K)))
      | some cv => .ok (cv.foldl (v.entry leaf.2) d)) d) = .ok [] → d = [] ∧ ∀ q ∈ L, q.1 = some [] := by
    intro L
    induction L with
    | nil => intro d h; cases h; simp
    | cons q L ih =>
      intro d h
      rw [List.foldlM_cons, py_bind_eq_ok] at h
      obtain ⟨d', h1, h2⟩ := h
      obtain ⟨rfl, h4⟩ := ih _ h2
      obtain ⟨cv, mu⟩ := q
      cases cv with
      | none => cases h1
      | some cv =>
        simp only [Except.ok.injEq] at h1
        obtain ⟨rfl, h6⟩ := hf _ _ _ h1
        refine ⟨h6, ?_⟩
        intro q hq
        rcases List.mem_cons.1 hq with rfl | hq
        · rfl
        · exact h4 q hq
  exact (key L [] h).2

/-- with at least one class voted for, choosing the class of each row does not fail. -/
theorem bestClass_total {votes : Dict C (List K)} (h : votes ≠ []) (n : Nat) (e : PyErr) :
    (List.range n).mapM (bestClass votes) ≠ .error e := by
  intro hc
  obtain ⟨j, -, hj⟩ := mapM_error_mem _ _ _ hc
  unfold bestClass at hj
  obtain ⟨b, hb⟩ := pyMax_ok_of_ne_nil (fun p : C × List K => p.2.getD j 0) _ h
  rw [hb] at hj
  cases hj

theorem checkArray_error_iff {α : Type} (X : List (List α)) (e : PyErr) : checkArray X = .error e ↔ e = .valueError ∧ ¬ Rectangular X := by
  have hok := checkArray_ok_iff X
  constructor
  · intro h
    refine ⟨?_, fun hR => ?_⟩
    · cases X with
      | nil => cases h; rfl
      | cons r rs =>
        simp only [checkArray] at h
        split at h
        · cases h; rfl
        · cases h
    · rw [hok.2 hR] at h; cases h
  · rintro ⟨rfl, hR⟩
    cases hc : checkArray X with
    | ok u => exact absurd (hok.1 hc) hR
    | error e =>
      cases X with
      | nil => cases hc; rfl
      | cons r rs =>
        simp only [checkArray] at hc
        split at hc
        · cases hc; rfl
        · cases hc

/-- **C171**: the complete list of the exceptions of `FDT.predict` on any tree and any table: `ValueError` for a table that is empty, has no
columns or rows of different lengths, for a tree with a split without children, or when no leaf votes for any class; `TypeError` when a leaf has
no distribution (tree not fitted); and the exceptions of evaluating the test of a node (`Spec.TestError`: column missing in a row, text in a
numeric column, set not in the variable, triangle out of order). -/
theorem C171_fdt_predict (T : K → K → K) (v : Voting) (t : FNode C K) (X : List (List (Cell K))) (e : PyErr)
    (h : fdtPredict T v t X = .error e) :
    (e = .valueError ∧ (¬ Rectangular X ∨ ¬ Branching t ∨ ∀ p ∈ leafPaths t, p.2 = some [])) ∨
    (e = .typeError ∧ ∃ p ∈ leafPaths t, p.2 = none) ∨
    ∃ p ∈ nodePaths t, ∃ test ∈ p.1, TestError X test e := by
  unfold fdtPredict at h
  rcases py_bind_eq_error.1 h with h | ⟨_, hc, h⟩
  · obtain ⟨h1, h2⟩ := (checkArray_error_iff X e).1 h
    exact .inl ⟨h1, .inl h2⟩
  have hX : X ≠ [] := by
    obtain ⟨_, _, hne, _⟩ := (checkArray_ok_iff X).1 hc
    exact hne
  rcases py_bind_eq_error.1 h with h | ⟨cs, -, h⟩
  swap
  · cases h
  unfold FNode.predict at h
  rcases py_bind_eq_error.1 h with h | ⟨leaves, hl, h⟩
  · rcases partialPredict_error T X t h with ⟨h1, h2⟩ | h
    · exact .inl ⟨h1, .inr (.inl h2)⟩
    · exact .inr (.inr h)
  obtain ⟨-, -, rfl⟩ := (partialPredict_ok_iff T X hX t _ _).1 hl
  rcases py_bind_eq_error.1 h with h | ⟨votes, hv, h⟩
  · obtain ⟨h1, q, hq, h2⟩ := run_error h
    obtain ⟨p, hp, rfl⟩ := List.mem_map.1 hq
    exact .inr (.inl ⟨h1, p, hp, h2⟩)
  · split at h
    · next hn =>
      cases h
      subst hn
      refine .inl ⟨rfl, .inr (.inr fun p hp => ?_)⟩
      exact run_nil hv _ (List.mem_map_of_mem (f := fun p : List (FTest K) × Option (Dict C K) => (p.2, pathCol T X (X.map (fun _ => 1)) p.1)) hp)
    · next hn => exact absurd h (bestClass_total hn _ _)
end

section
variable [Field K] [LinearOrder K] [IsStrictOrderedRing K] [LinearOrder C]

/-- the column `att` holds a text in some row of `X` while its variable has a triangular set. -/
def Spec.TextInNumeric (vars : List (FVar K)) (X : List (List (Cell K))) : Prop :=
  ∃ (i : Nat) (v : FVar K), vars[i]? = some v ∧ (∃ s, FSet.cont s ∈ v.sets) ∧ ∃ row ∈ X, ∃ w, row[i]? = some (.str w)

/-- **C171** for a fitted FDT whose variables have sets with different names: `predict` raises `ValueError` exactly for a table that is empty,
without columns or ragged; a rectangular table can only raise `IndexError`, when it has less columns than there are variables, or `TypeError`,
when a column of a variable with a triangular set holds a text. -/
theorem C171_fdt_predict_fitted (ent : List K → List C → K) (ord : List String → List String) (p : FDTParams K)
    (hs : ProperSets p.vars) (X : List (List (Cell K))) (y : List C) (t : FNode C K)
    (h : fdtFit ent ord p fdtNew X y = .ok t) (T : K → K → K) (v : Voting) (Z : List (List (Cell K))) (e : PyErr) :
    (¬ Rectangular Z → fdtPredict T v t Z = .error .valueError) ∧
    (Rectangular Z → fdtPredict T v t Z = .error e →
      (e = .indexError ∧ ∃ row ∈ Z, row.length < p.vars.length) ∨ (e = .typeError ∧ TextInNumeric p.vars Z)) := by
  constructor
  · intro hR
    unfold fdtPredict
    rw [(checkArray_error_iff Z _).2 ⟨rfl, hR⟩]
    rfl
  intro hR he
  have hcv : ∀ q ∈ leafPaths t, ∃ cv, q.2 = some cv ∧ cv ≠ [] := by
    intro q hq
    obtain ⟨cv, h1, -, h3, -⟩ := C30_leaf_distributions ent ord p X y t h q hq
    refine ⟨cv, h1, ?_⟩
    rintro rfl
    obtain ⟨-, hy, -⟩ := fdtFit_grown h
    obtain ⟨c, hc⟩ := List.exists_mem_of_ne_nil _ hy
    simpa using (h3 c).2 hc
  rcases C171_fdt_predict T v t Z e he with ⟨-, h1 | h1 | h1⟩ | ⟨-, q, hq, h1⟩ | ⟨q, hq, test, ht, hte⟩
  · exact absurd hR h1
  · exact absurd (fitted_branching hs h) h1
  · obtain ⟨q, hq⟩ := Branching.exists_leaf t (fitted_branching hs h)
    obtain ⟨cv, h2, h3⟩ := hcv q hq
    rw [h1 q hq] at h2
    cases h2
    exact absurd rfl h3
  · obtain ⟨cv, h2, -⟩ := hcv q hq
    rw [h1] at h2; cases h2
  · have hvar := (C31_depth_and_features ent ord p X y t h q hq).2.2.2 test ht
    obtain ⟨hX, -, -, -⟩ := fdtFit_grown h
    obtain ⟨row, hr⟩ := List.exists_mem_of_ne_nil _ hX
    obtain ⟨m, -, ms, hms, -⟩ := forall₂_mem_left (C36_trained_sets_partial ent ord p (fun v hv => (hs v hv).2) X y t h q hq) row hr
    obtain ⟨m', -, fs, x, h3, -, h5⟩ := forall₂_mem_left hms test ht
    rcases hte with ⟨-, h6⟩ | ⟨fs', h6, h7⟩
    · rw [h3] at h6; cases h6
    · rw [h3] at h6; cases h6
      rcases h7 with ⟨h7, row', hr', hle⟩ | ⟨-, s, rfl, h8⟩ | ⟨h7, s, rfl, row', hr', w, hw⟩
      · refine .inl ⟨h7, row', hr', lt_of_le_of_lt hle (List.getElem?_eq_some_iff.1 hvar).1⟩
      · exfalso
        simp only [FSet.membership, CSet.membership] at h5
        rw [if_neg h8] at h5
        cases h5
      · exact .inr ⟨h7, test.att, test.var, hvar, ⟨s, List.mem_of_getElem? h3⟩, row', hr', w, hw⟩

/-- **C171**: a rectangular table without texts but with too few columns for the features that a fitted FDT tests raises `IndexError`. -/
theorem C171_fdt_missing_column (ent : List K → List C → K) (ord : List String → List String) (p : FDTParams K)
    (hs : ProperSets p.vars) (X : List (List (Cell K))) (y : List C) (t : FNode C K)
    (h : fdtFit ent ord p fdtNew X y = .ok t) (T : K → K → K) (v : Voting) (Z : List (List (Cell K))) (hR : Rectangular Z)
    (hnum : ∀ row ∈ Z, ∀ c ∈ row, ∃ x, c = .num x) (q : List (FTest K) × Option (Dict C K)) (hq : q ∈ leafPaths t) (test : FTest K)
    (ht : test ∈ q.1) (row : List (Cell K)) (hrow : row ∈ Z) (hlen : row.length ≤ test.att) :
    fdtPredict T v t Z = .error .indexError := by
  cases hp : fdtPredict T v t Z with
  | ok out =>
    exfalso
    obtain ⟨-, cs, -, hcs⟩ := (fdtPredict_ok_iff T v t Z out).1 hp
    obtain ⟨_, _, hne, _⟩ := hR
    obtain ⟨c, -, L, hL, -⟩ := forall₂_mem_left ((predict_ok_iff T v t Z hne cs).1 hcs).2 row hrow
    obtain ⟨r, -, -, ms, hms, -⟩ := forall₂_mem_left hL q hq
    obtain ⟨m, -, fs, x, -, hx, -⟩ := forall₂_mem_left hms test ht
    rw [List.getElem?_eq_none_iff.2 hlen] at hx
    cases hx
  | error e =>
    rcases (C171_fdt_predict_fitted ent ord p hs X y t h T v Z e).2 hR hp with ⟨rfl, -⟩ | ⟨-, i, va, -, -, row', hr', w, hw⟩
    · rfl
    · obtain ⟨x, hx⟩ := hnum row' hr' _ (List.mem_of_getElem? hw)
      cases hx


/-! ## fit -/

theorem FVar.membership_error {X : List (List (Cell K))} {i : Nat} {col : List (Cell K)} (hcol : column X i = .ok col) {v : FVar K} {e : PyErr}
    (h : v.membership col = .error e) : ∃ fs ∈ v.sets, SetError X i fs e := by
  unfold FVar.membership at h
  rcases py_bind_eq_error.1 h with h | ⟨_, -, h⟩
  · obtain ⟨fs, hfs, h⟩ := mapM_error_mem _ _ _ h
    rcases py_bind_eq_error.1 h with h | ⟨_, -, h⟩
    · exact ⟨fs, hfs, Teacher.membership_error hcol h⟩
    · cases h
  · cases h

theorem datasetMembershipFrom_error {X : List (List (Cell K))} {e : PyErr} : ∀ {vs : List (FVar K)} {i : Nat}
    {acc : Dict String (Dict String (List K))}, datasetMembershipFrom X i acc vs = .error e →
    ∃ k v, vs[k]? = some v ∧ ((e = .indexError ∧ ∃ row ∈ X, row.length ≤ i + k) ∨ ∃ fs ∈ v.sets, SetError X (i + k) fs e)
  | [], i, acc, h => by cases h
  | v :: vs, i, acc, h => by
    rw [datasetMembershipFrom] at h
    rcases py_bind_eq_error.1 h with h | ⟨col, hcol, h⟩
    · exact ⟨0, v, rfl, .inl (column_error h)⟩
    · rcases py_bind_eq_error.1 h with h | ⟨_, -, h⟩
      · exact ⟨0, v, rfl, .inr (FVar.membership_error hcol h)⟩
      · obtain ⟨k, w, hw, hk⟩ := datasetMembershipFrom_error h
        refine ⟨k + 1, w, hw, ?_⟩
        rw [show i + 1 + k = i + (k + 1) by omega] at hk
        exact hk

theorem datasetMembershipFrom_columns {X : List (List (Cell K))} {D : Dict String (Dict String (List K))} : ∀ {vs : List (FVar K)} {i : Nat}
    {acc : Dict String (Dict String (List K))}, datasetMembershipFrom X i acc vs = .ok D →
    ∀ k v, vs[k]? = some v → ∃ col d, column X (i + k) = .ok col ∧ v.membership col = .ok d
  | [], i, acc, h => by simp
  | w :: vs, i, acc, h => by
    intro k v hv
    rw [datasetMembershipFrom, py_bind_eq_ok] at h
    obtain ⟨col, hcol, h⟩ := h
    rw [py_bind_eq_ok] at h
    obtain ⟨d, hd, h⟩ := h
    cases k with
    | zero => simp only [List.getElem?_cons_zero, Option.some.injEq] at hv; subst hv; exact ⟨col, d, hcol, hd⟩
    | succ k =>
      obtain ⟨col', d', h1, h2⟩ := datasetMembershipFrom_columns h k v hv
      exact ⟨col', d', by rw [show i + (k + 1) = i + 1 + k by omega]; exact h1, h2⟩

/-- a table whose memberships could be computed has a degree for every cell in every set of its variable. -/
theorem datasetMembership_cells {X : List (List (Cell K))} {vars : List (FVar K)} {D : Dict String (Dict String (List K))}
    (h : datasetMembership X vars = .ok D) : ∀ (i : Nat) v, vars[i]? = some v → ∀ row ∈ X, ∃ x, row[i]? = some x ∧
      ∀ s ∈ v.sets, ∃ m, s.membership [x] = .ok [m] := by
  have hR : Rectangular X := by
    by_contra hc
    rw [(datasetMembership_eq X vars).2 hc] at h
    cases h
  rw [(datasetMembership_eq X vars).1 hR] at h
  intro i v hv row hrow
  obtain ⟨col, d, hcol, hd⟩ := datasetMembershipFrom_columns h i v hv
  rw [Nat.zero_add] at hcol
  unfold column at hcol
  obtain ⟨x, hx, hrx⟩ := forall₂_mem_left ((mapM_ok_iff _ _ _).1 hcol) row hrow
  refine ⟨x, ?_, ?_⟩
  · split at hrx
    · next heq => rw [heq]; cases hrx; rfl
    · cases hrx
  · intro s hs
    unfold FVar.membership at hd
    rw [py_bind_eq_ok] at hd
    obtain ⟨ps, hps, -⟩ := hd
    obtain ⟨q, -, hq⟩ := forall₂_mem_left ((mapM_ok_iff _ _ _).1 hps) s hs
    rw [py_bind_eq_ok] at hq
    obtain ⟨ms, hms, -⟩ := hq
    obtain ⟨m, -, hm⟩ := forall₂_mem_left ((FSet.membership_ok_iff s col ms).1 hms).2 x hx
    exact ⟨m, hm⟩

theorem datasetMembership_error {X : List (List (Cell K))} {vars : List (FVar K)} {e : PyErr} (hR : Rectangular X)
    (h : datasetMembership X vars = .error e) : TableError X vars e := by
  rw [(datasetMembership_eq X vars).1 hR] at h
  obtain ⟨k, v, hv, hk⟩ := datasetMembershipFrom_error h
  rw [Nat.zero_add] at hk
  exact ⟨k, v, hv, hk⟩

/-- **C171**: the complete list of the exceptions of `FDT.fit` (positive `fuzzy_threshold`, any object state): `ValueError` exactly for a table
that is empty, without columns or ragged, or with another number of labels; otherwise only the exceptions of computing the memberships of the
table (`Spec.TableError`: column missing, text in a numeric column, triangle out of order). -/
theorem C171_fdt_fit (ent : List K → List C → K) (ord : List String → List String) (hord : ∀ l, (ord l).Perm l)
    (p : FDTParams K) (hth : 0 < p.fuzzyThreshold) (root : FNode C K) (X : List (List (Cell K))) (y : List C) (e : PyErr) :
    (¬ Rectangular X ∨ X.length ≠ y.length → fdtFit ent ord p root X y = .error .valueError) ∧
    (Rectangular X → X.length = y.length → fdtFit ent ord p root X y = .error e → TableError X p.vars e) := by
  constructor
  · intro h
    unfold fdtFit
    cases hc : checkArray X with
    | error e' => rw [((checkArray_error_iff X e').1 hc).1]; rfl
    | ok _ =>
      rcases h with h | h
      · exact absurd ((checkArray_ok_iff X).1 hc) h
      · rw [py_bind_ok, if_pos h]
  · intro hR hlen h
    cases hD : datasetMembership X p.vars with
    | ok D =>
      obtain ⟨t, ht⟩ := C32_fit_succeeds ent ord hord p hth root X y hR hlen (datasetMembership_cells hD)
      rw [h] at ht; cases ht
    | error e' =>
      unfold fdtFit at h
      rw [(checkArray_ok_iff X).2 hR, py_bind_ok, if_neg (by simpa using hlen), hD] at h
      cases h
      exact datasetMembership_error hR hD

/-- **C171** for `FBDT.fit` with different variable names: `IndexError` when a variable has no sets; `ValueError` for a table that is empty,
without columns or ragged, or with another number of labels; otherwise only the exceptions of computing the memberships. -/
theorem C171_fbdt_fit [NanSort K] (ent : List K → List C → K) (p : FDTParams K) (hth : 0 < p.fuzzyThreshold)
    (hv : (p.vars.map FVar.name).Nodup) (root : BNode C K) (X : List (List (Cell K))) (y : List C) (e : PyErr) :
    ((∃ v ∈ p.vars, v.sets = []) → fbdtFit ent p root X y = .error .indexError) ∧
    ((∀ v ∈ p.vars, v.sets ≠ []) → (¬ Rectangular X ∨ X.length ≠ y.length) → fbdtFit ent p root X y = .error .valueError) ∧
    ((∀ v ∈ p.vars, v.sets ≠ []) → Rectangular X → X.length = y.length → fbdtFit ent p root X y = .error e → TableError X p.vars e) := by
  have hcat : (∀ v ∈ p.vars, v.sets ≠ []) → ∃ cats, categoricalFeatures p.vars = .ok cats := by
    intro hs
    unfold categoricalFeatures
    cases hl : p.vars.mapM (fun v : FVar K => match v.sets[0]? with
      | none => (.error .indexError : Py (String × Bool))
      | some (.cont _) => .ok (v.name, false)
      | some (.disc _) => .ok (v.name, true)) with
    | ok l => exact ⟨_, rfl⟩
    | error e' =>
      exfalso
      obtain ⟨v, hv, h⟩ := mapM_error_mem _ _ _ hl
      split at h
      · next heq => exact hs v hv (by rw [List.getElem?_eq_none_iff] at heq; exact List.length_eq_zero_iff.1 (Nat.le_zero.1 heq))
      · cases h
      · cases h
  refine ⟨?_, ?_, ?_⟩
  · rintro ⟨v, hvm, hs⟩
    unfold fbdtFit
    cases hc : categoricalFeatures p.vars with
    | error e' =>
      unfold categoricalFeatures at hc
      rcases py_bind_eq_error.1 hc with hc | ⟨_, -, hc⟩
      · obtain ⟨w, -, hw⟩ := mapM_error_mem _ _ _ hc
        split at hw
        · cases hw; rfl
        · cases hw
        · cases hw
      · cases hc
    | ok cats =>
      exfalso
      unfold categoricalFeatures at hc
      rw [py_bind_eq_ok] at hc
      obtain ⟨l, hl, -⟩ := hc
      obtain ⟨q, -, hq⟩ := forall₂_mem_left ((mapM_ok_iff _ _ _).1 hl) v hvm
      simp [hs] at hq
  · intro hs h
    obtain ⟨cats, hcats⟩ := hcat hs
    unfold fbdtFit
    rw [hcats, py_bind_ok]
    cases hc : checkArray X with
    | error e' => rw [((checkArray_error_iff X e').1 hc).1]; rfl
    | ok _ =>
      rcases h with h | h
      · exact absurd ((checkArray_ok_iff X).1 hc) h
      · rw [py_bind_ok, if_pos h]
  · intro hs hR hlen h
    obtain ⟨cats, hcats⟩ := hcat hs
    cases hD : datasetMembership X p.vars with
    | ok D =>
      obtain ⟨t, ht⟩ := C38_fit_succeeds ent p hth root X y hR hlen hv hs (datasetMembership_cells hD)
      rw [h] at ht; cases ht
    | error e' =>
      unfold fbdtFit at h
      rw [hcats, py_bind_ok, (checkArray_ok_iff X).2 hR, py_bind_ok, if_neg (by simpa using hlen), hD] at h
      cases h
      exact datasetMembership_error hR hD
end

/-! ## FBDT -/

theorem bNodePathsList_flatMap (cs : List (BNode C K)) : bNodePathsList cs = cs.flatMap bNodePaths := by
  induction cs with
  | nil => rfl
  | cons c cs ih => simp [bNodePathsList, ih]

section
variable [Field K] [LinearOrder K] [IsStrictOrderedRing K]

theorem bnodeMu_error {T : K → K → K} {X : List (List (Cell K))} {mu : List K} {test : Option (BTest K)} {e : PyErr}
    (h : bnodeMu T X mu test = .error e) : ∃ t ∈ test, ∃ i ∈ t.idxs, TestError X ⟨t.var, t.att, i⟩ e := by
  cases test with
  | none => simp [bnodeMu] at h
  | some t =>
    refine ⟨t, rfl, ?_⟩
    simp only [bnodeMu] at h
    rcases py_bind_eq_error.1 h with h | ⟨_, -, h⟩
    swap
    · cases h
    unfold pertDegree at h
    obtain ⟨i, hi, acc, h⟩ := foldlM_error h
    refine ⟨i, hi, ?_⟩
    split at h
    · next heq => cases h; exact .inl ⟨rfl, heq⟩
    · next fs heq =>
      rcases py_bind_eq_error.1 h with h | ⟨col, hcol, h⟩
      · exact .inr ⟨fs, heq, .inl (column_error h)⟩
      · rcases py_bind_eq_error.1 h with h | ⟨m, -, h⟩
        · exact .inr ⟨fs, heq, membership_error hcol h⟩
        · cases h

theorem bPartialPredictList_error {T : K → K → K} {X : List (List (Cell K))} {mu : List K} {e : PyErr} :
    ∀ {cs : List (BNode C K)}, bPartialPredictList T X mu cs = .error e → ∃ c ∈ cs, bPartialPredict T X mu c = .error e
  | [], h => by simp [bPartialPredictList] at h
  | c :: cs, h => by
    rw [bPartialPredictList] at h
    rcases py_bind_eq_error.1 h with h | ⟨r, -, h⟩
    · exact ⟨c, by simp, h⟩
    · rcases py_bind_eq_error.1 h with h | ⟨rs, -, h⟩
      · obtain ⟨c', hc', h'⟩ := bPartialPredictList_error h
        exact ⟨c', by simp [hc'], h'⟩
      · cases h

theorem bPartialPredict_error (T : K → K → K) (X : List (List (Cell K))) (t : BNode C K) :
    ∀ {mu : List K} {e : PyErr}, bPartialPredict T X mu t = .error e →
      (e = .valueError ∧ ¬ BBranching t) ∨ ∃ p ∈ bNodePaths t, ∃ test ∈ p.1, ∃ i ∈ test.idxs, TestError X ⟨test.var, test.att, i⟩ e := by
  induction t using BNode.induction with
  | h test level m isLeaf cv children ih =>
    intro mu e h
    rw [bPartialPredict] at h
    rcases py_bind_eq_error.1 h with h | ⟨newMu, -, h⟩
    · obtain ⟨t, ht, hte⟩ := bnodeMu_error h
      refine .inr ⟨(test.toList, _), by rw [bNodePaths]; exact List.mem_cons_self, t, ?_, hte⟩
      simpa using ht
    · cases isLeaf with
      | true => cases h
      | false =>
        simp only [Bool.false_eq_true, if_false] at h
        have key : ∀ c ∈ children, bPartialPredict T X newMu c = .error e →
            (e = .valueError ∧ ¬ BBranching (.mk test level m false cv children)) ∨
              ∃ p ∈ bNodePaths (.mk test level m false cv children), ∃ test ∈ p.1, ∃ i ∈ test.idxs,
                TestError X ⟨test.var, test.att, i⟩ e := by
          intro c hc hce
          rcases ih c hc hce with ⟨h1, h2⟩ | ⟨p, hp, t, ht, hte⟩
          · refine .inl ⟨h1, fun hb => h2 ?_⟩
            simp only [BBranching, forall_const, FB.BBranchingList_iff] at hb
            exact hb.2 c hc
          · refine .inr ⟨(test.toList ++ p.1, p.2), ?_, t, by simp [ht], hte⟩
            rw [bNodePaths]
            refine List.mem_cons_of_mem _ ?_
            simp only [Bool.false_eq_true, if_false, bNodePathsList_flatMap]
            exact List.mem_map.2 ⟨p, List.mem_flatMap.2 ⟨c, hc, hp⟩, rfl⟩
        cases children with
        | nil =>
          simp only at h
          cases h
          exact .inl ⟨rfl, by simp [BBranching]⟩
        | cons c cs =>
          simp only at h
          rcases py_bind_eq_error.1 h with h | ⟨r, -, h⟩
          · exact key c (by simp) h
          · rcases py_bind_eq_error.1 h with h | ⟨rs, -, h⟩
            · obtain ⟨c', hc', h'⟩ := bPartialPredictList_error h
              exact key c' (by simp [hc']) h'
            · cases h

/-- **C171** for `FBDT.predict`: the complete list of its exceptions on any tree and table, as in `C171_fdt_predict`. -/
theorem C171_fbdt_predict [DecidableEq C] (T : K → K → K) (v : Voting) (t : BNode C K) (X : List (List (Cell K))) (e : PyErr)
    (h : fbdtPredict T v t X = .error e) :
    (e = .valueError ∧ (¬ Rectangular X ∨ ¬ BBranching t ∨ ∀ p ∈ bLeafPaths t, p.2 = some [])) ∨
    (e = .typeError ∧ ∃ p ∈ bLeafPaths t, p.2 = none) ∨
    ∃ p ∈ bNodePaths t, ∃ test ∈ p.1, ∃ i ∈ test.idxs, TestError X ⟨test.var, test.att, i⟩ e := by
  unfold fbdtPredict at h
  rcases py_bind_eq_error.1 h with h | ⟨_, hc, h⟩
  · obtain ⟨h1, h2⟩ := (checkArray_error_iff X e).1 h
    exact .inl ⟨h1, .inl h2⟩
  have hX : X ≠ [] := by
    obtain ⟨_, _, hne, _⟩ := (checkArray_ok_iff X).1 hc
    exact hne
  rcases py_bind_eq_error.1 h with h | ⟨cs, -, h⟩
  swap
  · cases h
  unfold BNode.predict at h
  rcases py_bind_eq_error.1 h with h | ⟨leaves, hl, h⟩
  · rcases bPartialPredict_error T X t h with ⟨h1, h2⟩ | h
    · exact .inl ⟨h1, .inr (.inl h2)⟩
    · exact .inr (.inr h)
  obtain ⟨-, -, rfl⟩ := (FB.bPartialPredict_ok_iff T X hX t _ _).1 hl
  rcases py_bind_eq_error.1 h with h | ⟨votes, hv, h⟩
  · obtain ⟨h1, q, hq, h2⟩ := run_error h
    obtain ⟨p, hp, rfl⟩ := List.mem_map.1 hq
    exact .inr (.inl ⟨h1, p, hp, h2⟩)
  · split at h
    · next hn =>
      cases h
      subst hn
      refine .inl ⟨rfl, .inr (.inr fun p hp => ?_)⟩
      exact run_nil hv _ (List.mem_map_of_mem (f := fun p : List (BTest K) × Option (Dict C K) => (p.2, FB.pathCol T X (X.map (fun _ => 1)) p.1)) hp)
    · next hn => exact absurd h (bestClass_total hn _ _)
end

section
variable [Field K] [LinearOrder K] [IsStrictOrderedRing K] [LinearOrder C]

/-- **C171** for a fitted FBDT: as `C171_fdt_predict_fitted`, and a rectangular table without texts but without a tested column raises
`IndexError`. -/
theorem C171_fbdt_predict_fitted [NanSort K] (ent : List K → List C → K) (p : FDTParams K) (X : List (List (Cell K))) (y : List C)
    (t : BNode C K) (h : fbdtFit ent p fbdtNew X y = .ok t) (T : K → K → K) (v : Voting) (Z : List (List (Cell K))) :
    (¬ Rectangular Z → fbdtPredict T v t Z = .error .valueError) ∧
    (∀ e, Rectangular Z → fbdtPredict T v t Z = .error e →
      (e = .indexError ∧ ∃ row ∈ Z, row.length < p.vars.length) ∨ (e = .typeError ∧ TextInNumeric p.vars Z)) ∧
    (Rectangular Z → (∀ row ∈ Z, ∀ c ∈ row, ∃ x, c = .num x) → (∃ q ∈ bLeafPaths t, ∃ test ∈ q.1, ∃ row ∈ Z, row.length ≤ test.att) →
      fbdtPredict T v t Z = .error .indexError) := by
  have hcv : ∀ q ∈ bLeafPaths t, ∃ cv, q.2 = some cv ∧ cv ≠ [] := by
    intro q hq
    obtain ⟨cv, h1, -, h3, -⟩ := C38_leaf_distributions ent p X y t h q hq
    refine ⟨cv, h1, ?_⟩
    rintro rfl
    obtain ⟨-, hy, -⟩ := fbdtFit_nodes h
    obtain ⟨c, hc⟩ := List.exists_mem_of_ne_nil _ hy
    simpa using (h3 c).2 hc
  have main : ∀ e, Rectangular Z → fbdtPredict T v t Z = .error e →
      (e = .indexError ∧ ∃ row ∈ Z, row.length < p.vars.length) ∨ (e = .typeError ∧ TextInNumeric p.vars Z) := by
    intro e hR he
    rcases C171_fbdt_predict T v t Z e he with ⟨-, h1 | h1 | h1⟩ | ⟨-, q, hq, h1⟩ | ⟨q, hq, test, ht, i, hi, hte⟩
    · exact absurd hR h1
    · exact absurd (bfitted_branching h) h1
    · obtain ⟨q, hq⟩ := BBranching.exists_leaf t (bfitted_branching h)
      obtain ⟨cv, h2, h3⟩ := hcv q hq
      rw [h1 q hq] at h2
      cases h2
      exact absurd rfl h3
    · obtain ⟨cv, h2, -⟩ := hcv q hq
      rw [h1] at h2; cases h2
    · obtain ⟨hvar, -, hidx⟩ := (C38_depth ent p X y t h q hq).2 test ht
      have hlt := hidx i hi
      obtain ⟨hX, -, -, -, Xm, hXm, -⟩ := fbdtFit_nodes h
      rcases hte with ⟨-, h6⟩ | ⟨fs, h6, h7⟩
      · rw [List.getElem?_eq_getElem hlt] at h6; cases h6
      · rcases h7 with ⟨h7, row', hr', hle⟩ | ⟨-, s, rfl, h8⟩ | ⟨h7, s, rfl, row', hr', w, hw⟩
        · exact .inl ⟨h7, row', hr', lt_of_le_of_lt hle (List.getElem?_eq_some_iff.1 hvar).1⟩
        · exfalso
          obtain ⟨row, hr⟩ := List.exists_mem_of_ne_nil _ hX
          obtain ⟨x, -, hx⟩ := datasetMembership_cells hXm _ _ hvar row hr
          obtain ⟨m, h5⟩ := hx _ (List.mem_of_getElem? h6)
          simp only [FSet.membership, CSet.membership] at h5
          rw [if_neg h8] at h5
          cases h5
        · exact .inr ⟨h7, test.att, test.var, hvar, ⟨s, List.mem_of_getElem? h6⟩, row', hr', w, hw⟩
  refine ⟨?_, main, ?_⟩
  · intro hR
    unfold fbdtPredict
    rw [(checkArray_error_iff Z _).2 ⟨rfl, hR⟩]
    rfl
  · rintro hR hnum ⟨q, hq, test, ht, row, hrow, hlen⟩
    cases hp : fbdtPredict T v t Z with
    | ok out =>
      exfalso
      obtain ⟨-, cs, -, hcs⟩ := (fbdtPredict_ok_iff T v t Z out).1 hp
      obtain ⟨_, _, hne, _⟩ := hR
      obtain ⟨c, -, L, hL, -⟩ := forall₂_mem_left ((FB.predict_ok_iff T v t Z hne cs).1 hcs).2 row hrow
      obtain ⟨r, -, -, ms, hms, -⟩ := forall₂_mem_left hL q hq
      obtain ⟨m, -, ms', hms', -⟩ := forall₂_mem_left hms test ht
      obtain ⟨i, hi⟩ := List.exists_mem_of_ne_nil _ (bfitted_tests h q hq test ht).2.1
      obtain ⟨m', -, fs, x, -, hx, -⟩ := forall₂_mem_left hms' i hi
      simp only at hx
      rw [List.getElem?_eq_none_iff.2 hlen] at hx
      cases hx
    | error e =>
      rcases main e hR hp with ⟨rfl, -⟩ | ⟨-, i, va, -, -, row', hr', w, hw⟩
      · rfl
      · obtain ⟨x, hx⟩ := hnum row' hr' _ (List.mem_of_getElem? hw)
        cases hx
end

/-! ## rules and trees that were never fitted -/

section
variable [Field K] [LinearOrder K] [IsStrictOrderedRing K]

theorem getRulesList_error {th : K} {rule : List (String × String)} {e : PyErr} :
    ∀ {cs : List (FNode C K)}, getRulesList th rule cs = .error e → ∃ c ∈ cs, getRules th rule c = .error e
  | [], h => by simp [getRulesList] at h
  | c :: cs, h => by
    rw [getRulesList] at h
    rcases py_bind_eq_error.1 h with h | ⟨r, -, h⟩
    · exact ⟨c, by simp, h⟩
    · rcases py_bind_eq_error.1 h with h | ⟨rs, -, h⟩
      · obtain ⟨c', hc', h'⟩ := getRulesList_error h
        exact ⟨c', by simp [hc'], h'⟩
      · cases h

/-- **C171**: the complete list of the exceptions of the rules of an FDT: `AttributeError` when a leaf has no distribution (tree not fitted)
and `IndexError` when a test refers to a set that its variable has not; in particular a fitted tree always gives its rules. -/
theorem C171_fdt_rules (t : FNode C K) (verbose simplify : Bool) (e : PyErr) (h : fdtToRules t verbose simplify = .error e) :
    (e = .attributeError ∧ ∃ p ∈ leafPaths t, p.2 = none) ∨
    (e = .indexError ∧ ∃ p ∈ nodePaths t, ∃ test ∈ p.1, test.var.sets[test.idx]? = none) := by
  unfold fdtToRules FNode.toRules at h
  generalize (if verbose = true then (1 : K) else 0) = th at h
  generalize ([] : List (String × String)) = rule at h
  induction t using FNode.induction generalizing rule with
  | h test level m isLeaf cv children ih =>
    rw [getRules] at h
    rcases py_bind_eq_error.1 h with h | ⟨newRule, -, h⟩
    · cases test with
      | none => simp [nodeClause] at h
      | some t =>
        simp only [nodeClause] at h
        split at h
        · next heq =>
          cases h
          exact .inr ⟨rfl, _, by rw [nodePaths]; exact List.mem_cons_self, t, by simp, heq⟩
        · cases h
    · cases isLeaf with
      | true =>
        cases cv with
        | none => simp only [if_true] at h; cases h; exact .inl ⟨rfl, (test.toList, none), by simp [leafPaths], rfl⟩
        | some cv => simp only [if_true] at h; cases h
      | false =>
        simp only [Bool.false_eq_true, if_false] at h
        obtain ⟨c, hc, hce⟩ := getRulesList_error h
        rcases ih c hc newRule hce with ⟨h1, p, hp, h2⟩ | ⟨h1, p, hp, t, ht, h2⟩
        · refine .inl ⟨h1, (test.toList ++ p.1, p.2), ?_, h2⟩
          simp only [leafPaths, Bool.false_eq_true, if_false, leafPathsList_eq]
          exact List.mem_map.2 ⟨p, List.mem_flatMap.2 ⟨c, hc, hp⟩, rfl⟩
        · refine .inr ⟨h1, (test.toList ++ p.1, p.2), ?_, t, by simp [ht], h2⟩
          rw [nodePaths]
          refine List.mem_cons_of_mem _ ?_
          simp only [Bool.false_eq_true, if_false, nodePathsList_eq]
          exact List.mem_map.2 ⟨p, List.mem_flatMap.2 ⟨c, hc, hp⟩, rfl⟩

theorem bGetRulesList_error {th : K} {rule : List (String × List String)} {e : PyErr} :
    ∀ {cs : List (BNode C K)}, bGetRulesList th rule cs = .error e → ∃ c ∈ cs, bGetRules th rule c = .error e
  | [], h => by simp [bGetRulesList] at h
  | c :: cs, h => by
    rw [bGetRulesList] at h
    rcases py_bind_eq_error.1 h with h | ⟨r, -, h⟩
    · exact ⟨c, by simp, h⟩
    · rcases py_bind_eq_error.1 h with h | ⟨rs, -, h⟩
      · obtain ⟨c', hc', h'⟩ := bGetRulesList_error h
        exact ⟨c', by simp [hc'], h'⟩
      · cases h

/-- **C171**: the complete list of the exceptions of the rules of an FBDT. -/
theorem C171_fbdt_rules (t : BNode C K) (verbose simplify : Bool) (e : PyErr) (h : fbdtToRules t verbose simplify = .error e) :
    (e = .attributeError ∧ ∃ p ∈ bLeafPaths t, p.2 = none) ∨
    (e = .indexError ∧ ∃ p ∈ bNodePaths t, ∃ test ∈ p.1, ∃ i ∈ test.idxs, test.var.sets[i]? = none) := by
  unfold fbdtToRules BNode.toRules at h
  replace h : bGetRules (if verbose = true then (1 : K) else 0) [] t = .error e := by
    rcases py_bind_eq_error.1 h with h | ⟨_, -, h⟩
    · exact h
    · cases h
  generalize (if verbose = true then (1 : K) else 0) = th at h
  generalize ([] : List (String × List String)) = rule at h
  induction t using BNode.induction generalizing rule with
  | h test level m isLeaf cv children ih =>
    rw [bGetRules] at h
    rcases py_bind_eq_error.1 h with h | ⟨newRule, -, h⟩
    · cases test with
      | none => simp [bnodeClause] at h
      | some t =>
        simp only [bnodeClause] at h
        rcases py_bind_eq_error.1 h with h | ⟨_, -, h⟩
        · obtain ⟨i, hi, h⟩ := mapM_error_mem _ _ _ h
          split at h
          · next heq =>
            cases h
            exact .inr ⟨rfl, _, by rw [bNodePaths]; exact List.mem_cons_self, t, by simp, i, hi, heq⟩
          · cases h
        · cases h
    · cases isLeaf with
      | true =>
        cases cv with
        | none => simp only [if_true] at h; cases h; exact .inl ⟨rfl, (test.toList, none), by simp [bLeafPaths], rfl⟩
        | some cv => simp only [if_true] at h; cases h
      | false =>
        simp only [Bool.false_eq_true, if_false] at h
        obtain ⟨c, hc, hce⟩ := bGetRulesList_error h
        rcases ih c hc newRule hce with ⟨h1, p, hp, h2⟩ | ⟨h1, p, hp, t, ht, h2⟩
        · refine .inl ⟨h1, (test.toList ++ p.1, p.2), ?_, h2⟩
          simp only [bLeafPaths, Bool.false_eq_true, if_false, FB.bLeafPathsList_eq]
          exact List.mem_map.2 ⟨p, List.mem_flatMap.2 ⟨c, hc, hp⟩, rfl⟩
        · refine .inr ⟨h1, (test.toList ++ p.1, p.2), ?_, t, by simp [ht], h2⟩
          rw [bNodePaths]
          refine List.mem_cons_of_mem _ ?_
          simp only [Bool.false_eq_true, if_false, bNodePathsList_flatMap]
          exact List.mem_map.2 ⟨p, List.mem_flatMap.2 ⟨c, hc, hp⟩, rfl⟩

/-- **C171**: on a tree object that was never fitted, `predict` of a rectangular table raises `TypeError` and the rules raise
`AttributeError`, for both kinds of trees. -/
theorem C171_untrained [DecidableEq C] (T : K → K → K) (v : Voting) (X : List (List (Cell K))) (hR : Rectangular X) (verbose simplify : Bool) :
    fdtPredict T v (fdtNew : FNode C K) X = .error .typeError ∧ fbdtPredict T v (fbdtNew : BNode C K) X = .error .typeError ∧
    fdtToRules (fdtNew : FNode C K) verbose simplify = .error .attributeError ∧
    fbdtToRules (fbdtNew : BNode C K) verbose simplify = .error .attributeError := by
  refine ⟨?_, ?_, rfl, rfl⟩
  · unfold fdtPredict; rw [(checkArray_ok_iff X).2 hR]; rfl
  · unfold fbdtPredict; rw [(checkArray_ok_iff X).2 hR]; rfl

end

/-! ## metrics -/

section
variable [Field K] [LinearOrder K] [IsStrictOrderedRing K]

theorem coveredInstances_unknown {ds : FuzzyDS K} {n : Nat} {μ : String → String → Nat → K} (h : Represents ds n μ)
    (r : Rule String C K) (hk : ¬ KnowsRules ds [r]) (th : K) : coveredInstances r ds th = .error .keyError := by
  obtain ⟨p, q, rest, rest', hds, hp, hq⟩ := h.first
  have hlook : ∀ p : String × String, (∃ col, dsLookup ds p.1 p.2 = .ok col ∧ col.length = n ∧
      ∃ d col, Dict.get? ds p.1 = some d ∧ Dict.get? d p.2 = some col) ∨ dsLookup ds p.1 p.2 = .error .keyError := by
    intro p
    unfold dsLookup
    cases hd : Dict.get? ds p.1 with
    | none => right; rw [Dict.get_of_none hd]; rfl
    | some d =>
      have h1 : Dict.get ds p.1 = .ok d := by simp [Dict.get, hd]
      rw [h1, py_bind_ok]
      cases hc : Dict.get? d p.2 with
      | none => right; exact Dict.get_of_none hc
      | some col =>
        left
        refine ⟨col, by simp [Dict.get, hc], ?_, d, col, rfl, hc⟩
        rw [h.degrees _ _ _ _ hd hc]; simp
  have hfold : ∀ (l : List (String × String)) (mu : List K), mu.length = n →
      (∃ p ∈ l, ¬ ∃ d col, Dict.get? ds p.1 = some d ∧ Dict.get? d p.2 = some col) →
      l.foldlM (fun mu p => do
        let col ← dsLookup ds p.1 p.2
        npZip min mu col) mu = .error .keyError := by
    intro l
    induction l with
    | nil => rintro mu - ⟨p, hp, -⟩; simp at hp
    | cons p l ih =>
      rintro mu hmu ⟨p', hp', hn⟩
      rw [List.foldlM_cons]
      rcases hlook p with ⟨col, hcol, hlen, hkn⟩ | he
      · rw [hcol, py_bind_ok]
        unfold npZip
        rw [if_pos (by rw [hmu, hlen]), py_bind_ok]
        refine ih _ (by simp [hmu, hlen]) ⟨p', ?_, hn⟩
        rcases List.mem_cons.1 hp' with rfl | hp'
        · exact absurd hkn hn
        · exact hp'
      · rw [he]; rfl
  have hun : ∃ p ∈ r.antecedent, ¬ ∃ d col, Dict.get? ds p.1 = some d ∧ Dict.get? d p.2 = some col := by
    by_contra hc
    push Not at hc
    apply hk
    intro r' hr' p hp
    simp only [List.mem_singleton] at hr'
    subst hr'
    obtain ⟨d, col, h1, h2⟩ := hc p hp
    exact ⟨d, col, h1, h2⟩
  unfold coveredInstances
  have h1 : firstEntry ds = .ok p := by rw [hds]; rfl
  have h2 : firstEntry p.2 = .ok q := by rw [hp]; rfl
  rw [h1, py_bind_ok, h2, py_bind_ok]
  simp only
  rw [hfold _ _ (by simp [hq]) hun]
  rfl

/-- **C171**: on a well-formed fuzzy dataset the metrics of a rule list raise `IndexError` for no rules and `KeyError` when a condition names
a feature or set that is not in the dataset; `precision` with another number of labels than instances raises `ValueError`. -/
theorem C171_rule_metrics [DecidableEq C] {ds : FuzzyDS K} {n : Nat} {μ : String → String → Nat → K} (h : Represents ds n μ)
    (rules : List (Rule String C K)) (y z : List C) (th : K) :
    (rules = [] → coverage rules ds th = .error .indexError ∧ precision rules ds y th = .error .indexError ∧
      ruleFidelity y z ds rules th = .error .indexError) ∧
    (rules ≠ [] → ¬ KnowsRules ds rules → coverage rules ds th = .error .keyError ∧ precision rules ds y th = .error .keyError ∧
      ruleFidelity y z ds rules th = .error .keyError) ∧
    (rules ≠ [] → KnowsRules ds rules → y.length ≠ n → precision rules ds y th = .error .valueError) := by
  refine ⟨?_, ?_, ?_⟩
  · rintro rfl; exact ⟨rfl, rfl, rfl⟩
  · intro hne hk
    have hcov : fuzzyCoverage rules ds th = .error .keyError := by
      cases rules with
      | nil => exact absurd rfl hne
      | cons r rest =>
        unfold fuzzyCoverage
        simp only
        by_cases hr : KnowsRules ds [r]
        · rw [coveredInstances_ok h r hr th, py_bind_ok]
          simp only
          have hfold : ∀ (l : List (Rule String C K)) (cov : List Bool), cov.length = n → ¬ KnowsRules ds l →
              l.foldlM (fun cov r => do
                let (c, _) ← coveredInstances r ds th
                npZip (fun a b => a && b) cov c) cov = .error .keyError := by
            intro l
            induction l with
            | nil => intro cov _ hl; exact absurd (by intro r hr; simp at hr) hl
            | cons r l ih =>
              intro cov hcov hl
              rw [List.foldlM_cons]
              by_cases hr : KnowsRules ds [r]
              · rw [coveredInstances_ok h r hr th, py_bind_ok]
                simp only
                unfold npZip
                rw [if_pos (by simp [hcov]), py_bind_ok]
                refine ih _ (by simp [hcov]) (fun hl' => hl ?_)
                intro r' hr'
                rcases List.mem_cons.1 hr' with rfl | hr'
                · exact hr r' (by simp)
                · exact hl' r' hr'
              · rw [coveredInstances_unknown h r hr th]; rfl
          have e1 := hfold (r :: rest) ((List.range n).map (fun i => decide (th < 1 ∧ ∀ p ∈ r.antecedent, th < μ p.1 p.2 i))) (by simp) hk
          rw [e1]
          rfl
        · rw [coveredInstances_unknown h r hr th]; rfl
    refine ⟨?_, ?_, ?_⟩
    · unfold coverage; rw [hcov]; rfl
    · unfold precision; rw [hcov]; rfl
    · unfold ruleFidelity; rw [hcov]; rfl
  · intro hne hk hy
    unfold precision
    rw [fuzzyCoverage_ok h rules hne hk, py_bind_ok]
    simp only
    cases rules with
    | nil => exact absurd rfl hne
    | cons r rest =>
      simp only [headConsequent, py_bind_ok]
      unfold npZip
      rw [if_neg (by simpa using fun h => hy h.symm)]
      rfl

/-- why the default (`moth`) distance of two rows can fail with `e`: a continuous position with a text (`TypeError`), with different numbers
and no MAD (`KeyError`) or MAD 0 (`ZeroDivisionError`), or no position declared discrete while a discrete position differs
(`ZeroDivisionError`). -/
def Spec.MothError (a b : List (Cell K)) (cont disc : List Nat) (mad : Nat → Option K) (e : PyErr) : Prop :=
  (∃ (i : Nat) (u w : Cell K), i ∈ cont ∧ a[i]? = some u ∧ b[i]? = some w ∧
    ((e = .typeError ∧ ((∃ s, u = .str s) ∨ ∃ s, w = .str s)) ∨
     (e = .keyError ∧ u ≠ w ∧ mad i = none) ∨ (e = .zeroDivision ∧ u ≠ w ∧ mad i = some 0))) ∨
  (e = .zeroDivision ∧ disc = [] ∧ ∃ (i : Nat) (u w : Cell K), i ∉ cont ∧ a[i]? = some u ∧ b[i]? = some w ∧ u ≠ w)

theorem contTerm_error {mad : Nat → Option K} {i : Nat} {u w : Cell K} {e : PyErr} (h : contTerm mad i u w = .error e) :
    (e = .typeError ∧ ((∃ s, u = .str s) ∨ ∃ s, w = .str s)) ∨
     (e = .keyError ∧ u ≠ w ∧ mad i = none) ∨ (e = .zeroDivision ∧ u ≠ w ∧ mad i = some 0) := by
  unfold contTerm at h
  cases u with
  | str s => simp only [cellDiff] at h; cases h; exact .inl ⟨rfl, .inl ⟨s, rfl⟩⟩
  | num x =>
    cases w with
    | str s => simp only [cellDiff] at h; cases h; exact .inl ⟨rfl, .inr ⟨s, rfl⟩⟩
    | num z =>
      simp only [cellDiff, py_bind_ok] at h
      split at h
      · cases h
      · next hne =>
        have hxz : (Cell.num x : Cell K) ≠ .num z := by
          intro hc; cases hc; simp at hne
        cases hm : mad i with
        | none => rw [hm] at h; cases h; exact .inr (.inl ⟨rfl, hxz, rfl⟩)
        | some m =>
          rw [hm] at h
          simp only [pyDiv] at h
          split at h
          · next h0 => cases h; subst h0; exact .inr (.inr ⟨rfl, hxz, rfl⟩)
          · cases h

theorem contTerm_bad {mad : Nat → Option K} {i : Nat} {u w : Cell K} (h : ((∃ s, u = .str s) ∨ ∃ s, w = .str s) ∨
     (u ≠ w ∧ mad i = none) ∨ (u ≠ w ∧ mad i = some 0)) (x : K) : contTerm mad i u w ≠ .ok x := by
  intro hc
  unfold contTerm at hc
  cases u with
  | str s => cases hc
  | num x' =>
    cases w with
    | str s => cases hc
    | num z =>
      have hne : ∀ {p : Prop}, ((Cell.num x' : Cell K) ≠ .num z ∧ p) → |x' - z| ≠ 0 := by
        intro p hp h0
        exact hp.1 (by rw [sub_eq_zero.1 (abs_eq_zero.1 h0)])
      simp only [cellDiff, py_bind_ok] at hc
      rcases h with (⟨s, h⟩ | ⟨s, h⟩) | h | h
      · cases h
      · cases h
      · rw [if_neg (hne h), h.2] at hc; cases hc
      · rw [if_neg (hne h), h.2] at hc; simp [pyDiv] at hc

theorem mem_zipIdx_zip {α β : Type} {a : List α} {b : List β} {p : (α × β) × Nat} :
    p ∈ (a.zip b).zipIdx ↔ a[p.2]? = some p.1.1 ∧ b[p.2]? = some p.1.2 := by
  obtain ⟨⟨u, w⟩, i⟩ := p
  rw [List.mk_mem_zipIdx_iff_getElem?, List.getElem?_zip_eq_some]

theorem foldlM_all_ok {α β : Type} {f : β → α → Py β} : ∀ {l : List α} {b s : β}, l.foldlM f b = .ok s → ∀ a ∈ l, ∃ b' s', f b' a = .ok s'
  | [], _, _, _ => by simp
  | a :: l, b, s, h => by
    rw [List.foldlM_cons, py_bind_eq_ok] at h
    obtain ⟨s', h1, h2⟩ := h
    intro x hx
    rcases List.mem_cons.1 hx with rfl | hx
    · exact ⟨b, s', h1⟩
    · exact foldlM_all_ok h2 x hx

/-- the counters of the loop of the distance. -/
theorem distFold_counts {cont : List Nat} {mad : Nat → Option K} : ∀ {l : List ((Cell K × Cell K) × Nat)} {s s' : K × Nat},
    l.foldlM (distStep cont mad) s = .ok s' → ((∀ p ∈ l, p.2 ∉ cont) → s'.1 = s.1) ∧
      s'.2 = s.2 + l.countP (fun p => p.2 ∉ cont ∧ p.1.1 ≠ p.1.2)
  | [], s, s', h => by cases h; simp
  | p :: l, s, s', h => by
    rw [List.foldlM_cons, py_bind_eq_ok] at h
    obtain ⟨s1, h1, h2⟩ := h
    obtain ⟨i1, i2⟩ := distFold_counts h2
    unfold distStep at h1
    by_cases hp : p.2 ∈ cont
    · rw [if_pos hp, py_bind_eq_ok] at h1
      obtain ⟨t, -, h1⟩ := h1
      cases h1
      refine ⟨fun hall => absurd hp (hall p (by simp)), ?_⟩
      rw [i2, List.countP_cons_of_neg (by simp [hp])]
    · rw [if_neg hp] at h1
      cases h1
      refine ⟨fun hall => i1 (fun q hq => hall q (by simp [hq])), ?_⟩
      rw [i2]
      by_cases hd : p.1.1 = p.1.2
      · rw [List.countP_cons_of_neg (by simp [hd])]; simp [hd]
      · rw [List.countP_cons_of_pos (by simp [hd, hp])]; simp [hd]; omega

/-- **C171**: the default distance between two rows succeeds exactly when none of the conditions of `Spec.MothError` holds, and its exception is
the one of a condition that holds. -/
theorem C171_moth_distance (a b : List (Cell K)) (cont disc : List Nat) (mad : Nat → Option K) :
    ((∃ d, mothDistance a b cont disc mad = .ok d) ↔ ¬ ∃ e, MothError a b cont disc mad e) ∧
    (∀ e, mothDistance a b cont disc mad = .error e → MothError a b cont disc mad e) := by
  have herr : ∀ e, mothDistance a b cont disc mad = .error e → MothError a b cont disc mad e := by
    intro e h
    unfold mothDistance at h
    rcases py_bind_eq_error.1 h with h | ⟨s, hs, h⟩
    · obtain ⟨p, hp, s', h⟩ := foldlM_error h
      obtain ⟨h1, h2⟩ := mem_zipIdx_zip.1 hp
      unfold distStep at h
      split at h
      · next hc =>
        rcases py_bind_eq_error.1 h with h | ⟨_, -, h⟩
        · exact .inl ⟨p.2, _, _, hc, h1, h2, contTerm_error h⟩
        · cases h
      · cases h
    · obtain ⟨c1, c2⟩ := distFold_counts hs
      rcases py_bind_eq_error.1 h with h | ⟨_, -, h⟩
      · exfalso
        split at h
        · next hs0 =>
          unfold pyDiv at h
          split at h
          · next h0 =>
            have hnil : cont = [] := by
              rw [Nat.cast_eq_zero, List.length_eq_zero_iff] at h0; exact h0
            exact hs0 (c1 (fun p _ => by simp [hnil]))
          · cases h
        · cases h
      · rcases py_bind_eq_error.1 h with h | ⟨_, -, h⟩
        · split at h
          · next hs0 =>
            unfold pyDiv at h
            split at h
            · next h0 =>
              cases h
              have hnil : disc = [] := by
                rw [Nat.cast_eq_zero, List.length_eq_zero_iff] at h0; exact h0
              rw [c2, Nat.zero_add] at hs0
              obtain ⟨p, hp, hpp⟩ := List.countP_pos_iff.1 (Nat.pos_of_ne_zero hs0)
              obtain ⟨h1, h2⟩ := mem_zipIdx_zip.1 hp
              simp only [decide_eq_true_eq] at hpp
              exact .inr ⟨rfl, hnil, p.2, _, _, hpp.1, h1, h2, hpp.2⟩
            · cases h
          · cases h
        · cases h
  refine ⟨⟨?_, ?_⟩, herr⟩
  · rintro ⟨d, hd⟩ ⟨e, he⟩
    unfold mothDistance at hd
    rw [py_bind_eq_ok] at hd
    obtain ⟨s, hs, hd⟩ := hd
    rcases he with ⟨i, u, w, hi, hu, hw, he⟩ | ⟨-, hnil, i, u, w, hi, hu, hw, hne⟩
    · obtain ⟨b', s', hst⟩ := foldlM_all_ok hs ((u, w), i) (mem_zipIdx_zip.2 ⟨hu, hw⟩)
      unfold distStep at hst
      simp only [hi, if_true] at hst
      rw [py_bind_eq_ok] at hst
      obtain ⟨x, hx, -⟩ := hst
      refine contTerm_bad ?_ x hx
      rcases he with ⟨-, h⟩ | ⟨-, h⟩ | ⟨-, h⟩
      · exact .inl h
      · exact .inr (.inl h)
      · exact .inr (.inr h)
    · obtain ⟨-, c2⟩ := distFold_counts hs
      have hpos : s.2 ≠ 0 := by
        rw [c2, Nat.zero_add]
        exact (List.countP_pos_iff.2 ⟨((u, w), i), mem_zipIdx_zip.2 ⟨hu, hw⟩, by simp [hi, hne]⟩).ne'
      rw [py_bind_eq_ok] at hd
      obtain ⟨d1, -, hd⟩ := hd
      rw [if_pos hpos, hnil] at hd
      simp [pyDiv] at hd
  · intro hno
    cases h : mothDistance a b cont disc mad with
    | ok d => exact ⟨d, rfl⟩
    | error e => exact absurd ⟨e, herr e h⟩ hno

end

/-! ## distances, ID3 -/

section
variable [Field K] [LinearOrder K] [IsStrictOrderedRing K]

/-- **C171**: `normalized_euclidean_distance` of arrays of different lengths raises `ValueError`; otherwise its only failure is `nan`. -/
theorem C171_norm_euclid (x y : List K) :
    (x.length ≠ y.length → normEuclid x y = .error .valueError) ∧
    (∀ e, x.length = y.length → normEuclid x y = .error e → e = .nan) := by
  constructor
  · intro h
    unfold normEuclid npSub
    rw [if_neg h]; rfl
  · intro e hl h
    have hdiv : ∀ {a b : K} {e}, npDiv a b = .error e → e = .nan := by
      intro a b e h
      unfold npDiv at h
      split at h
      · cases h; rfl
      · cases h
    have hvar : ∀ {v : List K} {e}, npVar v = .error e → e = .nan := by
      intro v e h
      unfold npVar at h
      rcases py_bind_eq_error.1 h with h | ⟨_, -, h⟩ <;> exact hdiv h
    unfold normEuclid npSub at h
    rw [if_pos hl, py_bind_ok] at h
    rcases py_bind_eq_error.1 h with h | ⟨_, -, h⟩
    · exact hvar h
    · rcases py_bind_eq_error.1 h with h | ⟨_, -, h⟩
      · exact hvar h
      · rcases py_bind_eq_error.1 h with h | ⟨_, -, h⟩
        · exact hvar h
        · exact hdiv h

mutual
/-- the indices of the variables tested in an ID3 tree (at the nodes that are not leaves and have branches). -/
def Spec.idVars : INode V C K → List (Option Nat)
  | .mk isLeaf var branches _ _ _ _ _ => if isLeaf then [] else idVarsList var branches
/-- `idVars` over the branches. -/
def Spec.idVarsList (var : Option Nat) : List (V × INode V C K) → List (Option Nat)
  | [] => []
  | (_, t) :: rest => var :: (idVars t ++ idVarsList var rest)
end

mutual
theorem id3_predict_error [DecidableEq V] (x : List V) (e : PyErr) : ∀ (t : INode V C K), t.predict x = .error e →
    e = .indexError ∧ ∃ o ∈ idVars t, ∀ i, o = some i → x.length ≤ i
  | .mk isLeaf var branches cv a b c d => by
    intro h
    rw [INode.predict.eq_def] at h
    cases isLeaf with
    | true => simp at h
    | false =>
      simp only [Bool.false_eq_true, if_false] at h
      have := id3_predictBranches_error x e var branches h
      rw [idVars]
      simpa using this
theorem id3_predictBranches_error [DecidableEq V] (x : List V) (e : PyErr) (var : Option Nat) : ∀ (l : List (V × INode V C K)),
    predictBranches x var l = .error e → e = .indexError ∧ ∃ o ∈ idVarsList var l, ∀ i, o = some i → x.length ≤ i
  | [] => by intro h; simp [predictBranches] at h
  | (s, t) :: rest => by
    intro h
    rw [predictBranches] at h
    rw [idVarsList]
    cases hv : var.bind (fun i => x[i]?) with
    | none =>
      rw [hv] at h
      cases h
      refine ⟨rfl, var, by simp, ?_⟩
      rintro i rfl
      simpa using hv
    | some v =>
      rw [hv] at h
      simp only at h
      split at h
      · obtain ⟨h1, o, ho, h2⟩ := id3_predict_error x e t h
        exact ⟨h1, o, by simp [ho], h2⟩
      · obtain ⟨h1, o, ho, h2⟩ := id3_predictBranches_error x e var rest h
        exact ⟨h1, o, by simp [ho], h2⟩
end

/-- **C171** for `ID3.predict`: `ValueError` exactly for a table that is empty, without columns or ragged; otherwise only `IndexError`, when a
row is too short for a variable that the tree tests. In particular every prediction on wide enough rows succeeds, known values or not. -/
theorem C171_id3_predict [DecidableEq V] (t : INode V C K) (X : List (List V)) (e : PyErr) :
    (id3Predict t X = .error .valueError ↔ ¬ Rectangular X) ∧
    (Rectangular X → id3Predict t X = .error e → e = .indexError ∧ ∃ x ∈ X, ∃ o ∈ idVars t, ∀ i, o = some i → x.length ≤ i) := by
  have h2 : ∀ e, Rectangular X → id3Predict t X = .error e →
      e = .indexError ∧ ∃ x ∈ X, ∃ o ∈ idVars t, ∀ i, o = some i → x.length ≤ i := by
    intro e hR h
    unfold id3Predict at h
    rw [(checkArray_ok_iff X).2 hR, py_bind_ok] at h
    obtain ⟨x, hx, h⟩ := mapM_error_mem _ _ _ h
    obtain ⟨h1, h2⟩ := id3_predict_error x e t h
    exact ⟨h1, x, hx, h2⟩
  refine ⟨⟨fun h hR => ?_, fun hR => ?_⟩, h2 e⟩
  · have := (h2 _ hR h).1
    cases this
  · unfold id3Predict
    rw [(checkArray_error_iff X _).2 ⟨rfl, hR⟩]
    rfl

end

/-! ## explainers -/

section
variable [Field K] [LinearOrder K] [IsStrictOrderedRing K]

/-- **C171**: invalid arguments of the tree explainers raise `ValueError` without changing the explainer: an instance that is no table, an unknown
factual or counterfactual method, `c_factual` without `lam`. -/
theorem C171_explainer_arguments [NanSort K] (cx : ExpCtx K) (a : ExpArgs K)
    (h : ¬ Rectangular a.inst ∨ a.factual ∉ ["m_factual", "mr_factual", "c_factual"] ∨ (a.factual = "c_factual" ∧ a.kw.lam = none) ∨
      a.counterfactual ∉ ["i_counterfactual", "f_counterfactual", "d_counterfactual"])
    (s : EState K (List (Rule String Nat K)) Changes) (s' : EState K (List (Rule (List String) Nat K)) String) :
    fdtExplainerFit cx a s = (.error .valueError, s) ∧ fbdtExplainerFit cx a s' = (.error .valueError, s') := by
  have hc : checkExpArgs a = .error .valueError := by
    unfold checkExpArgs
    by_cases hR : Rectangular a.inst
    · rw [(checkArray_ok_iff _).2 hR, py_bind_ok]
      rcases h with h | h | h | h
      · exact absurd hR h
      · simp only [List.mem_cons, List.not_mem_nil, or_false, not_or] at h
        have : FMethod.ofName a.factual = none := by simp [FMethod.ofName, h]
        rw [this]
      · have : FMethod.ofName a.factual = some .c := by simp [FMethod.ofName, h]
        rw [this]
        simp [h.2]
      · simp only [List.mem_cons, List.not_mem_nil, or_false, not_or] at h
        have hcm : CMethod.ofName a.counterfactual = none := by simp [CMethod.ofName, h]
        cases FMethod.ofName a.factual with
        | none => rfl
        | some fm =>
          simp only [hcm]
          split <;> rfl
    · rw [(checkArray_error_iff _ _).2 ⟨rfl, hR⟩]; rfl
  constructor
  · unfold fdtExplainerFit explainerFit; rw [hc]
  · unfold fbdtExplainerFit explainerFit; rw [hc]

/-- **C171**: with valid arguments, a neighborhood that was not fuzzified raises `NotFuzzifiedError`, one without `decoded_instance` (as
`SimpleNeighborhood`) `AttributeError` from `FDTExplainer`, one without data `NotFittedError`, and missing keywords of `d_counterfactual`
`ValueError`; only the target has then been stored. -/
theorem C171_explainer_neighborhood (cx : ExpCtx K) (a : ExpArgs K) (hchk : checkExpArgs a = .ok ())
    (s : EState K (List (Rule String Nat K)) Changes) :
    (a.nb.vars = none ∨ a.nb.instMem = none → fdtExplainerFit cx a s = (.error .notFuzzified, { s with target := some a.target })) ∧
    (a.nb.vars ≠ none → a.nb.instMem ≠ none → a.nb.decodedInst = none →
      fdtExplainerFit cx a s = (.error .attributeError, { s with target := some a.target })) ∧
    (a.nb.vars ≠ none → a.nb.instMem ≠ none → a.nb.decodedInst ≠ none → (a.nb.X = none ∨ a.nb.y = none) →
      fdtExplainerFit cx a s = (.error .notFitted, { s with target := some a.target })) ∧
    (a.nb.vars ≠ none → a.nb.instMem ≠ none → a.nb.decodedInst ≠ none → a.nb.X ≠ none → a.nb.y ≠ none →
      a.counterfactual = "d_counterfactual" → (a.kw.contIdx = none ∨ a.kw.discIdx = none ∨ a.kw.mad.isNone) →
      fdtExplainerFit cx a s = (.error .valueError, { s with target := some a.target })) := by
  have key : ∀ e, fdtData a = .error e → fdtExplainerFit cx a s = (.error e, { s with target := some a.target }) := by
    intro e he
    have ht : fdtTrain cx a = .error e := by unfold fdtTrain; rw [he]; rfl
    unfold fdtExplainerFit explainerFit
    simp only [hchk, ht]
  have hgs : ∀ {α : Type} (g : NState K → Option α) (e : PyErr) (x : NState K) (v : α), g x = some v → (getter g e x).1 = .ok v := by
    intro α g e x v h; simp [getter, h]
  have hgn : ∀ {α : Type} (g : NState K → Option α) (e : PyErr) (x : NState K), g x = none → (getter g e x).1 = .error e := by
    intro α g e x h; simp [getter, h]
  refine ⟨?_, ?_, ?_, ?_⟩
  · intro h
    refine key _ ?_
    unfold fdtData getFuzzyVars getInstanceMembership
    cases hv : a.nb.vars with
    | none => rw [hgn _ _ _ hv]; rfl
    | some v =>
      rw [hgs _ _ _ _ hv, py_bind_ok]
      rcases h with h | h
      · rw [hv] at h; cases h
      · rw [hgn _ _ _ h]; rfl
  · intro hv hi hd
    obtain ⟨v, hv⟩ := Option.ne_none_iff_exists'.1 hv
    obtain ⟨i, hi⟩ := Option.ne_none_iff_exists'.1 hi
    refine key _ ?_
    unfold fdtData getFuzzyVars getInstanceMembership
    rw [hgs _ _ _ _ hv, py_bind_ok, hgs _ _ _ _ hi, py_bind_ok, hd]
    rfl
  · intro hv hi hd h
    obtain ⟨v, hv⟩ := Option.ne_none_iff_exists'.1 hv
    obtain ⟨i, hi⟩ := Option.ne_none_iff_exists'.1 hi
    obtain ⟨d, hd⟩ := Option.ne_none_iff_exists'.1 hd
    refine key _ ?_
    unfold fdtData getFuzzyVars getInstanceMembership getX getY
    rw [hgs _ _ _ _ hv, py_bind_ok, hgs _ _ _ _ hi, py_bind_ok, hd]
    simp only [orError, py_bind_ok]
    cases hx : a.nb.X with
    | none => rw [hgn _ _ _ hx]; rfl
    | some x =>
      rw [hgs _ _ _ _ hx, py_bind_ok]
      rcases h with h | h
      · rw [hx] at h; cases h
      · rw [hgn _ _ _ h]; rfl
  · intro hv hi hd hx hy hcf hk
    obtain ⟨v, hv⟩ := Option.ne_none_iff_exists'.1 hv
    obtain ⟨i, hi⟩ := Option.ne_none_iff_exists'.1 hi
    obtain ⟨d, hd⟩ := Option.ne_none_iff_exists'.1 hd
    obtain ⟨x, hx⟩ := Option.ne_none_iff_exists'.1 hx
    obtain ⟨y, hy⟩ := Option.ne_none_iff_exists'.1 hy
    refine key _ ?_
    unfold fdtData getFuzzyVars getInstanceMembership getX getY
    rw [hgs _ _ _ _ hv, py_bind_ok, hgs _ _ _ _ hi, py_bind_ok, hd]
    simp only [orError, py_bind_ok]
    rw [hgs _ _ _ _ hx, py_bind_ok, hgs _ _ _ _ hy, py_bind_ok]
    have : checkD a = .error .valueError := by
      unfold checkD
      rw [if_pos ⟨by rw [hcf]; rfl, hk⟩]
    rw [this]; rfl

/-- **C171**: on an explainer whose `explain` raises `NotFittedError`, `write_explanation` raises `TypeError` (not `NotFittedError`). -/
theorem C171_write_before_fit {F G : Type} (showC : Nat → String) (showF : F → String) (items : G → Py (List (String × String)))
    (s : EState K F G) (h : (explain s).1 = .error .notFitted) : writeExplanation showC showF items s = (.error .typeError, s) := by
  unfold explain at h
  cases he : s.explanation with
  | some e => rw [he] at h; cases h
  | none =>
    unfold writeExplanation
    rw [he]
    cases s.expValue <;> rfl

/-- **C171**: `m_factual` and `mr_factual` take no keyword: `lam` or `beta` given with them makes `fit` raise `TypeError` once the local tree is
trained and has concluded. -/
theorem C171_factual_keywords (cx : ExpCtx K) (a : ExpArgs K) (hchk : checkExpArgs a = .ok ()) (t : (ExpData K × FNode Nat K) × List Nat)
    (ht : fdtTrain cx a = .ok t) (fid : K) (hf : fdtFidelity t.1.1.y t.2 = .ok fid) (rs : ExpData K × List (Rule String Nat K)) (c : Nat)
    (hc : fdtConclude a t.1 = .ok (rs, c)) (inst : Inst K) (hi : scalarInst rs.1.im = .ok inst)
    (hm : a.factual = "m_factual" ∨ a.factual = "mr_factual") (hkw : a.kw.lam ≠ none ∨ a.kw.beta ≠ none)
    (s : EState K (List (Rule String Nat K)) Changes) : (fdtExplainerFit cx a s).1 = .error .typeError := by
  have hk : (a.kw.lam.isSome || a.kw.beta.isSome) = true := by
    rcases hkw with h | h
    · rw [Option.isSome_iff_ne_none.2 h]; simp
    · rw [Option.isSome_iff_ne_none.2 h]; simp
  unfold fdtExplainerFit explainerFit
  simp only [hchk, ht, hf, hc]
  have : fdtFinish cx a rs c = .error .typeError := by
    unfold fdtFinish
    rw [hi, py_bind_ok]
    unfold runFactual
    split
    · rfl
    · rcases hm with h | h
      · have : FMethod.ofName a.factual = some .m := by simp [FMethod.ofName, h]
        simp only [this]
        rfl
      · have : FMethod.ofName a.factual = some .mr := by simp [FMethod.ofName, h]
        simp only [this]
        rfl
  simp only [this]

/-! ## the other distance -/

theorem pickCols_error {a : List (Cell K)} {idx : List Nat} {e : PyErr} (h : pickCols a idx = .error e) :
    e = .indexError ∧ ∃ i ∈ idx, a.length ≤ i := by
  unfold pickCols at h
  obtain ⟨i, hi, h⟩ := mapM_error_mem _ _ _ h
  split at h
  · cases h
  · next heq => cases h; exact ⟨rfl, i, hi, List.getElem?_eq_none_iff.1 heq⟩

theorem toFloats_error {u : List (Cell K)} {e : PyErr} (h : toFloats u = .error e) : e = .valueError ∧ ∃ s, Cell.str s ∈ u := by
  unfold toFloats at h
  obtain ⟨c, hc, h⟩ := mapM_error_mem _ _ _ h
  cases c with
  | num x => cases h
  | str s => cases h; exact ⟨rfl, s, hc⟩

theorem pickCols_mem {a u : List (Cell K)} {idx : List Nat} (h : pickCols a idx = .ok u) :
    (∀ c ∈ u, ∃ i ∈ idx, a[i]? = some c) ∧ ∀ i ∈ idx, ∃ c ∈ u, a[i]? = some c := by
  unfold pickCols at h
  have h := (mapM_ok_iff _ _ _).1 h
  have key : ∀ (i : Nat) (c : Cell K), (match a[i]? with | some c => Except.ok c | none => .error .indexError : Py (Cell K)) = .ok c →
      a[i]? = some c := by
    intro i c hi
    split at hi
    · next heq => cases hi; exact heq
    · cases hi
  constructor
  · intro c hc
    obtain ⟨i, hi, h'⟩ := forall₂_mem_right h c hc
    exact ⟨i, hi, key i c h'⟩
  · intro i hi
    obtain ⟨c, hc, h'⟩ := forall₂_mem_left h i hi
    exact ⟨c, hc, key i c h'⟩

theorem toFloats_mem {u : List (Cell K)} {v : List K} (h : toFloats u = .ok v) : ∀ c ∈ u, ∃ x, c = .num x := by
  unfold toFloats at h
  intro c hc
  obtain ⟨x, -, h'⟩ := forall₂_mem_left ((mapM_ok_iff _ _ _).1 h) c hc
  cases c with
  | num x => exact ⟨x, rfl⟩
  | str s => cases h'

/-- the errors and the success of the distance over some columns. -/
theorem colsDistance_cases (f : List K → List K → K) (a b : List (Cell K)) (idx : List Nat) :
    (∀ e, colsDistance f a b idx = .error e → (e = .indexError ∧ ∃ i ∈ idx, a.length ≤ i ∨ b.length ≤ i) ∨
      (e = .valueError ∧ ∃ i ∈ idx, ∃ s, a[i]? = some (.str s) ∨ b[i]? = some (.str s))) ∧
    (∀ d, colsDistance f a b idx = .ok d → ∀ i ∈ idx, (∃ x, a[i]? = some (.num x)) ∧ ∃ x, b[i]? = some (.num x)) := by
  unfold colsDistance
  constructor
  · intro e h
    rcases py_bind_eq_error.1 h with h | ⟨u, hu, h⟩
    · obtain ⟨h1, i, hi, h2⟩ := pickCols_error h; exact .inl ⟨h1, i, hi, .inl h2⟩
    rcases py_bind_eq_error.1 h with h | ⟨v, hv, h⟩
    · obtain ⟨h1, i, hi, h2⟩ := pickCols_error h; exact .inl ⟨h1, i, hi, .inr h2⟩
    rcases py_bind_eq_error.1 h with h | ⟨u', -, h⟩
    · obtain ⟨h1, s, hs⟩ := toFloats_error h
      obtain ⟨i, hi, h2⟩ := (pickCols_mem hu).1 _ hs
      exact .inr ⟨h1, i, hi, s, .inl h2⟩
    rcases py_bind_eq_error.1 h with h | ⟨v', -, h⟩
    · obtain ⟨h1, s, hs⟩ := toFloats_error h
      obtain ⟨i, hi, h2⟩ := (pickCols_mem hv).1 _ hs
      exact .inr ⟨h1, i, hi, s, .inr h2⟩
    cases h
  · intro d h i hi
    obtain ⟨u, hu, h⟩ := py_bind_eq_ok.1 h
    obtain ⟨v, hv, h⟩ := py_bind_eq_ok.1 h
    obtain ⟨u', hu', h⟩ := py_bind_eq_ok.1 h
    obtain ⟨v', hv', h⟩ := py_bind_eq_ok.1 h
    obtain ⟨c, hc, h1⟩ := (pickCols_mem hu).2 i hi
    obtain ⟨c', hc', h2⟩ := (pickCols_mem hv).2 i hi
    obtain ⟨x, rfl⟩ := toFloats_mem hu' c hc
    obtain ⟨x', rfl⟩ := toFloats_mem hv' c' hc'
    exact ⟨⟨x, h1⟩, x', h2⟩

/-- **C171**: the `mixed` distance of two rows succeeds exactly when every declared position exists and holds a number in both rows and the
second row is not empty; otherwise it raises `IndexError` (position missing), `ValueError` (text) or `ZeroDivisionError` (empty row). -/
theorem C171_mixed_distance (sqrt : K → K) (a b : List (Cell K)) (cont disc : List Nat) :
    ((∃ d, cfMixedDistance sqrt a b cont disc = .ok d) ↔
      b ≠ [] ∧ ∀ i, i ∈ cont ∨ i ∈ disc → (∃ x, a[i]? = some (.num x)) ∧ ∃ x, b[i]? = some (.num x)) ∧
    (∀ e, cfMixedDistance sqrt a b cont disc = .error e →
      (e = .indexError ∧ ∃ i, (i ∈ cont ∨ i ∈ disc) ∧ (a.length ≤ i ∨ b.length ≤ i)) ∨
      (e = .valueError ∧ ∃ i, (i ∈ cont ∨ i ∈ disc) ∧ ∃ s, a[i]? = some (.str s) ∨ b[i]? = some (.str s)) ∨
      (e = .zeroDivision ∧ b = [])) := by
  have hdiv : ∀ {x : K} {e}, pyDiv x (b.length : K) = .error e → e = .zeroDivision ∧ b = [] := by
    intro x e h
    unfold pyDiv at h
    split at h
    · next h0 => cases h; exact ⟨rfl, by simpa using h0⟩
    · cases h
  have herr : ∀ e, cfMixedDistance sqrt a b cont disc = .error e →
      (e = .indexError ∧ ∃ i, (i ∈ cont ∨ i ∈ disc) ∧ (a.length ≤ i ∨ b.length ≤ i)) ∨
      (e = .valueError ∧ ∃ i, (i ∈ cont ∨ i ∈ disc) ∧ ∃ s, a[i]? = some (.str s) ∨ b[i]? = some (.str s)) ∨
      (e = .zeroDivision ∧ b = []) := by
    intro e h
    unfold cfMixedDistance at h
    rcases py_bind_eq_error.1 h with h | ⟨_, -, h⟩
    · rcases (colsDistance_cases _ a b cont).1 e h with ⟨h1, i, hi, h2⟩ | ⟨h1, i, hi, h2⟩
      · exact .inl ⟨h1, i, .inl hi, h2⟩
      · exact .inr (.inl ⟨h1, i, .inl hi, h2⟩)
    rcases py_bind_eq_error.1 h with h | ⟨_, -, h⟩
    · rcases (colsDistance_cases _ a b disc).1 e h with ⟨h1, i, hi, h2⟩ | ⟨h1, i, hi, h2⟩
      · exact .inl ⟨h1, i, .inr hi, h2⟩
      · exact .inr (.inl ⟨h1, i, .inr hi, h2⟩)
    rcases py_bind_eq_error.1 h with h | ⟨_, -, h⟩
    · exact .inr (.inr (hdiv h))
    rcases py_bind_eq_error.1 h with h | ⟨_, -, h⟩
    · exact .inr (.inr (hdiv h))
    cases h
  refine ⟨⟨?_, ?_⟩, herr⟩
  · rintro ⟨d, h⟩
    unfold cfMixedDistance at h
    obtain ⟨_, h1, h⟩ := py_bind_eq_ok.1 h
    obtain ⟨_, h2, h⟩ := py_bind_eq_ok.1 h
    obtain ⟨_, h3, h⟩ := py_bind_eq_ok.1 h
    refine ⟨?_, ?_⟩
    · rintro rfl
      simp [pyDiv] at h3
    · rintro i (hi | hi)
      · exact (colsDistance_cases _ a b cont).2 _ h1 i hi
      · exact (colsDistance_cases _ a b disc).2 _ h2 i hi
  · rintro ⟨hb, hall⟩
    cases h : cfMixedDistance sqrt a b cont disc with
    | ok d => exact ⟨d, rfl⟩
    | error e =>
      exfalso
      rcases herr e h with ⟨-, i, hi, h'⟩ | ⟨-, i, hi, s, h'⟩ | ⟨-, h'⟩
      · obtain ⟨⟨x, hx⟩, x', hx'⟩ := hall i hi
        have h1 := (List.getElem?_eq_some_iff.1 hx).1
        have h2 := (List.getElem?_eq_some_iff.1 hx').1
        omega
      · obtain ⟨⟨x, hx⟩, x', hx'⟩ := hall i hi
        rw [hx, hx'] at h'
        rcases h' with h' | h' <;> cases h'
      · exact hb h'

end

/-! ## the hypotheses on concrete cases -/

section examples

/-- the error of predicting with a fitted example tree. -/
private def predErr (r : Py (FNode Nat ℚ)) (Z : List (List (Cell ℚ))) : Option PyErr :=
  r.toOption.bind fun t => match fdtPredict min .agg t Z with | .error e => some e | .ok _ => none
private def bpredErr (r : Py (BNode Nat ℚ)) (Z : List (List (Cell ℚ))) : Option PyErr :=
  r.toOption.bind fun t => match fbdtPredict min .agg t Z with | .error e => some e | .ok _ => none

/-- `C171_fdt_predict` and `C171_fdt_predict_fitted`: a fitted tree, and tables that raise each of the exceptions. -/
example : ProperSets exParams.vars ∧ exFit.isOk = true ∧ predErr exFit [] = some .valueError ∧
    predErr exFit [[.num 1, .str "m"], [.num 1]] = some .valueError ∧ predErr exFit [[.num 1]] = some .indexError ∧
    predErr exFit [[.str "a", .str "m"]] = some .typeError ∧ predErr exFit [[.num 1, .str "m"]] = none := by
  unfold ProperSets; decide +kernel
/-- `C171_fdt_predict`: a test on a set that the variable has not, a triangle out of order, and no leaf with a class. -/
example : predErr (.ok (.mk none 0 [] false none [.mk (some ⟨⟨"a", []⟩, 0, 0⟩) 1 [] true (some [(0, 1)]) []])) [[.num 1]] = some .indexError ∧
    predErr (.ok (.mk none 0 [] false none [.mk (some ⟨⟨"a", [.cont ⟨"s", 2, 1, 0, false⟩]⟩, 0, 0⟩) 1 [] true (some [(0, 1)]) []])) [[.num 1]] =
      some .assertionError ∧
    predErr (.ok (.mk none 0 [] true (some []) [])) [[.num 1]] = some .valueError ∧
    predErr (.ok (.mk none 0 [] false none [])) [[.num 1]] = some .valueError := by decide +kernel
/-- `C171_fdt_missing_column`: a leaf of the fitted tree behind a test on column 1, and a table with column 0 only. -/
example : (exFit.toOption.map fun t => (leafPaths t).map fun q => q.1.map FTest.att) = some [[0], [0, 1], [0, 1], [0]] ∧
    Rectangular [[(.num 1 : Cell ℚ)]] := by
  constructor
  · decide +kernel
  · exact (checkArray_ok_iff _).1 rfl
/-- `C171_fdt_fit`: each of its exceptions. -/
example : fdtFit exEnt id exParams fdtNew exX [0] = .error .valueError ∧
    fdtFit exEnt id exParams fdtNew [[.num 1], [.num 2]] [0, 1] = .error .indexError ∧
    fdtFit exEnt id exParams fdtNew [[.str "s", .str "m"], [.num 2, .str "m"]] [0, 1] = .error .typeError ∧
    fdtFit exEnt id { exParams with vars := [⟨"a", [.cont ⟨"s", 2, 1, 0, false⟩]⟩] } fdtNew [[.num 1], [.num 2]] [0, 1] =
      .error .assertionError := by
  refine ⟨?_, ?_, ?_, ?_⟩ <;> rfl
/-- `C171_fbdt_fit` and `C171_fbdt_predict_fitted`: their exceptions, on a fit that succeeds and on wrong ones. -/
example : (exBParams.vars.map FVar.name).Nodup ∧ (fbdtFit exEnt exBParams fbdtNew exBX exBY).isOk = true ∧
    bpredErr (fbdtFit exEnt exBParams fbdtNew exBX exBY) [] = some .valueError ∧
    bpredErr (fbdtFit exEnt exBParams fbdtNew exBX exBY) [[.num 1]] = some .indexError ∧
    bpredErr (fbdtFit exEnt exBParams fbdtNew exBX exBY) [[.str "a", .str "m"]] = some .typeError := by decide +kernel
example : fbdtFit exEnt { exBParams with vars := [⟨"a", []⟩] } fbdtNew exBX exBY = .error .indexError ∧
    fbdtFit exEnt exBParams fbdtNew exBX [0] = .error .valueError ∧
    fbdtFit exEnt exBParams fbdtNew [[.num 1], [.num 2]] [0, 1] = .error .indexError := by
  refine ⟨?_, ?_, ?_⟩ <;> rfl
/-- `C171_fdt_rules`, `C171_fbdt_rules`: both exceptions. -/
example : fdtToRules (.mk none 0 [] false none [.mk (some ⟨⟨"a", []⟩, 0, 0⟩) 1 [] true (some [(0, 1)]) []] : FNode Nat ℚ) false false =
      .error .indexError ∧
    fdtToRules (.mk none 0 [] true none [] : FNode Nat ℚ) false false = .error .attributeError := by decide +kernel

private def exDS : FuzzyDS ℚ := [("age", [("young", [1, 0, 1/2])])]
/-- `C171_rule_metrics`: a dataset, an unknown set, an unknown feature, a wrong number of labels. -/
example : Represents exDS 3 (fun _ _ i => ([1, 0, 1/2] : List ℚ).getD i 0) ∧
    coverage [(⟨[("age", "old")], 0, 1⟩ : Rule String Nat ℚ)] exDS (1/2) = .error .keyError ∧
    precision [(⟨[("size", "old")], 0, 1⟩ : Rule String Nat ℚ)] exDS [0, 0, 0] (1/2) = .error .keyError ∧
    precision [(⟨[("age", "young")], 0, 1⟩ : Rule String Nat ℚ)] exDS [0, 0] (1/2) = .error .valueError ∧
    coverage ([] : List (Rule String Nat ℚ)) exDS (1/2) = .error .indexError := by
  refine ⟨⟨by decide, by decide, ?_⟩, by decide +kernel, by decide +kernel, by decide +kernel, by decide +kernel⟩
  intro f d v col h1 h2
  have hd : d = [("young", [1, 0, 1/2])] := by
    simp only [exDS, Dict.get?_cons, Dict.get?_nil] at h1
    split at h1
    · exact (Option.some.inj h1).symm
    · cases h1
  subst hd
  have hc : col = [1, 0, 1/2] := by
    simp only [Dict.get?_cons, Dict.get?_nil] at h2
    split at h2
    · exact (Option.some.inj h2).symm
    · cases h2
  subst hc
  decide +kernel
/-- `C171_moth_distance`: every exception and a success. -/
example : mothDistance [.num 1, .str "a"] [.str "x", .str "b"] [0] [1] (fun _ => some (1 : ℚ)) = .error .typeError ∧
    mothDistance [.num 1, .str "a"] [.num 2, .str "b"] [0] [1] (fun _ => (none : Option ℚ)) = .error .keyError ∧
    mothDistance [.num 1, .str "a"] [.num 2, .str "b"] [0] [1] (fun _ => some (0 : ℚ)) = .error .zeroDivision ∧
    mothDistance [.num 1, .str "a"] [.num 2, .str "b"] [0] [] (fun _ => some (1 : ℚ)) = .error .zeroDivision ∧
    mothDistance [.num 1, .str "a"] [.num 2, .str "b"] [0] [1] (fun _ => some (1 : ℚ)) = .ok 2 := by decide +kernel
/-- `C171_mixed_distance`: every exception and a success. -/
example : cfMixedDistance id [.num 1, .str "a"] [.num 2, .str "b"] [0] [2] = .error (α := ℚ) .indexError ∧
    cfMixedDistance id [.num 1, .str "a"] [.num 2, .str "b"] [0] [1] = .error (α := ℚ) .valueError ∧
    cfMixedDistance id [.num 1] [] [] [] = .error (α := ℚ) .zeroDivision ∧
    cfMixedDistance id [.num 1, .num 1] [.num 2, .num 1] [0] [1] = .ok (1/2 : ℚ) := by decide +kernel
/-- `C171_factual_keywords`: the same call without `lam` succeeds. -/
example : (fdtExplainerFit expCtx (expArgs "m_factual" "i_counterfactual" { lam := some 1 } 0) {}).1 = .error .typeError ∧
    (fdtExplainerFit expCtx (expArgs "m_factual" "i_counterfactual" {} 0) {}).1 = .ok () := by decide +kernel
/-- `C171_norm_euclid`. -/
example : normEuclid [1, 2] [(1 : ℚ)] = .error .valueError ∧ normEuclid [1, 1] [(1 : ℚ), 1] = .error .nan := by decide +kernel
/-- `C171_id3_predict`: a tree testing column 1, a row without it, an empty table. -/
example : let t : INode Nat Nat ℚ := .mk false (some 1) [(5, .mk true none [] (some 0) (1, 1) 1 0 0)] (some 0) (1, 1) 0 0 0
    id3Predict t [[5]] = .error .indexError ∧ id3Predict t [] = .error .valueError ∧ idVars t = [some 1] := by decide +kernel
/-- `C171_explainer_arguments`, `C171_explainer_neighborhood`, `C171_write_before_fit`. -/
example : (fdtExplainerFit expCtx (expArgs "x" "i_counterfactual" {} 0) {}).1 = .error .valueError ∧
    checkExpArgs { expArgs "m_factual" "i_counterfactual" {} 0 with nb := { expNb with decodedInst := none } } = .ok () ∧
    (fdtExplainerFit expCtx { expArgs "m_factual" "i_counterfactual" {} 0 with nb := { expNb with decodedInst := none } } {}).1 =
      .error .attributeError ∧
    (fdtExplainerFit expCtx { expArgs "m_factual" "i_counterfactual" {} 0 with nb := { expNb with vars := none } } {}).1 =
      .error .notFuzzified ∧
    (explain ({} : EState ℚ Nat Nat)).1 = .error .notFitted := by decide +kernel

end examples
end Teacher
