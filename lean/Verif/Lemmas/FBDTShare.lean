import Verif.Spec.FBDT
import Verif.Lemmas.Basic
import Verif.Lemmas.FDT
import Mathlib.Tactic.Linarith
import Mathlib.Tactic.SplitIfs

/-! Lemmas about the shared arrays of `FBDT.fit`: growing a node only writes into the arrays of the node, and leaves alone the ones that were
already written by the evaluation of the parent. -/

set_option linter.unusedSectionVars false

namespace Teacher.FB

open Teacher

variable {C K : Type} [Field K] [LinearOrder K] [IsStrictOrderedRing K]

/-- an array of flags for `n` examples. -/
structure Flags (n : Nat) (a : List K) : Prop where
  len : a.length = n
  bit : ∀ x ∈ a, x = 0 ∨ x = 1

theorem flags_zero (n : Nat) : Flags n (List.replicate n (0 : K)) :=
  ⟨by simp, fun x hx => Or.inl (List.eq_of_mem_replicate hx)⟩

theorem getElem_bit {n : Nat} {a : List K} (h : Flags n a) (i : Nat) (hi : i < a.length) : a[i] = 0 ∨ a[i] = 1 :=
  h.bit _ (List.getElem_mem hi)

theorem length_markPartial (m a : List K) (h : m.length = a.length) : (markPartial m a).length = a.length := by
  simp [markPartial, h]

theorem flags_mark {n : Nat} {m a : List K} (hm : m.length = n) (ha : Flags n a) : Flags n (markPartial m a) := by
  refine ⟨by simp [markPartial, hm, ha.len], ?_⟩
  intro x hx
  obtain ⟨i, hi, rfl⟩ := List.getElem_of_mem hx
  simp only [markPartial, List.getElem_zipWith]
  split_ifs
  · exact Or.inr rfl
  · exact getElem_bit ha _ _

theorem mark_max {n : Nat} {m a : List K} (hm : m.length = n) (ha : Flags n a) :
    markPartial (List.zipWith max m a) a = markPartial m a := by
  apply List.ext_getElem
  · simp [markPartial, hm, ha.len]
  · intro i h1 h2
    have hi : i < a.length := by simp [markPartial] at h2; omega
    simp only [markPartial, List.getElem_zipWith]
    rcases getElem_bit ha i hi with h | h
    · simp only [h]
      have hlen := ha.len
      by_cases h0 : 0 < m[i]'(by omega)
      · simp [max_eq_left h0.le]
      · simp [max_eq_right (not_lt.1 h0), h0]
    · simp [h]

theorem mark_mark {n : Nat} {m a : List K} (hm : m.length = n) (ha : Flags n a) :
    markPartial m (markPartial m a) = markPartial m a := by
  apply List.ext_getElem
  · simp [markPartial, hm, ha.len]
  · intro i h1 h2
    simp only [markPartial, List.getElem_zipWith]
    split_ifs <;> rfl

/-- marking does not undo what was marked. -/
theorem mark_stable {n : Nat} {m m' a : List K} (hm : m.length = n) (hm' : m'.length = n) (ha : Flags n a)
    (h : markPartial m a = a) : markPartial m (markPartial m' a) = markPartial m' a := by
  apply List.ext_getElem
  · simp [markPartial, hm, hm', ha.len]
  · intro i h1 h2
    have hi : i < a.length := by simp [markPartial] at h2; omega
    have hi' : i < (markPartial m a).length := by rw [h]; exact hi
    have he : (markPartial m a)[i] = a[i] := by simp [h]
    simp only [markPartial, List.getElem_zipWith] at he ⊢
    split_ifs at he ⊢ <;> simp_all

/-- `b ≤ a`, as `np.maximum(a, b) = a`. -/
def Below (b a : List K) : Prop := List.zipWith max a b = a

theorem below_refl (a : List K) : Below a a := by
  unfold Below
  apply List.ext_getElem
  · simp
  · intro i h1 h2; simp

theorem below_mark {n : Nat} {m a b : List K} (hm : m.length = n) (ha : Flags n a) (hb : b.length = n) (h : Below b a) :
    Below b (markPartial m a) := by
  unfold Below at *
  apply List.ext_getElem
  · simp [markPartial, hm, ha.len, hb]
  · intro i h1 h2
    have hi : i < a.length := by simp [markPartial] at h2; omega
    have hbi : i < b.length := by rw [hb, ← ha.len]; exact hi
    have he : (List.zipWith max a b)[i]'(by simp; omega) = a[i] := by simp [h]
    have hle : b[i] ≤ a[i] := by
      rw [List.getElem_zipWith] at he; rw [← he]; exact le_max_right _ _
    simp only [markPartial, List.getElem_zipWith]
    split_ifs with hc
    · apply max_eq_left
      rcases getElem_bit ha i hi with h0 | h0 <;> rw [h0] at hle <;> linarith
    · exact max_eq_left hle

/-- the dict of references `ign` in `heap` holds the arrays `ignv`. -/
structure Rel (n : Nat) (heap : IgnHeap K) (ign : Dict String Nat) (ignv : Dict String (List K)) : Prop where
  some : ∀ f r, Dict.get? ign f = some r → ∃ a, Dict.get? ignv f = Option.some a ∧ heap[r]? = Option.some a ∧ Flags n a
  none : ∀ f, Dict.get? ign f = Option.none → Dict.get? ignv f = Option.none
  inj : ∀ f g r, Dict.get? ign f = Option.some r → Dict.get? ign g = Option.some r → f = g

theorem Rel.lt {n : Nat} {heap : IgnHeap K} {ign : Dict String Nat} {ignv : Dict String (List K)} (h : Rel n heap ign ignv)
    {f : String} {r : Nat} (hr : Dict.get? ign f = Option.some r) : r < heap.length := by
  obtain ⟨a, _, ha, _⟩ := h.some f r hr
  exact (List.getElem?_eq_some_iff.1 ha).1

/-- only the cells of `ign` may differ. -/
def Frame (ign : Dict String Nat) (heap heap' : IgnHeap K) : Prop :=
  heap.length ≤ heap'.length ∧ ∀ r < heap.length, (∀ g, Dict.get? ign g ≠ some r) → heap'[r]? = heap[r]?

theorem frame_refl (ign : Dict String Nat) (heap : IgnHeap K) : Frame ign heap heap := ⟨le_refl _, fun _ _ _ => rfl⟩

theorem Frame.trans {ign : Dict String Nat} {h1 h2 h3 : IgnHeap K} (a : Frame ign h1 h2) (b : Frame ign h2 h3) : Frame ign h1 h3 :=
  ⟨le_trans a.1 b.1, fun r hr hg => by rw [b.2 r (lt_of_lt_of_le hr a.1) hg, a.2 r hr hg]⟩

/-- what one side of a split does. -/
theorem evalSide_spec {n : Nat} {heap : IgnHeap K} {ign : Dict String Nat} {ignv : Dict String (List K)}
    (h : Rel n heap ign ignv) (f : String) (mem : List K) (hm : mem.length = n) :
    let e := evalSide n ign heap f mem
    let s := Spec.sideByValue n ignv f mem
    e.1 = s.1 ∧ Rel n e.2.2 ign s.2.2 ∧ Frame ign heap e.2.2 ∧ Flags n s.2.1 ∧ e.2.2[e.2.1]? = some s.2.1 ∧
      ((Dict.get? ign f = some e.2.1 ∧ Dict.get? s.2.2 f = some s.2.1) ∨
        (Dict.get? ign f = none ∧ e.2.1 = heap.length)) ∧
      (∀ g, Dict.get? s.2.2 g = if f = g then (Dict.get? ignv f).map (markPartial mem) else Dict.get? ignv g) := by
  intro e s
  cases hf : Dict.get? ign f with
  | none =>
    have hv := h.none f hf
    have he : e = (mem, heap.length, heap ++ [markPartial mem (List.replicate n 0)]) := by simp only [e, evalSide, hf]
    have hs : s = (mem, markPartial mem (List.replicate n 0), ignv) := by simp only [s, Spec.sideByValue, hv]
    rw [he, hs]
    refine ⟨rfl, ⟨?_, h.none, h.inj⟩, ⟨by simp, ?_⟩, flags_mark hm (flags_zero n), by simp, Or.inr ⟨rfl, rfl⟩, ?_⟩
    · intro g r hg
      obtain ⟨a, h1, h2, h3⟩ := h.some g r hg
      refine ⟨a, h1, ?_, h3⟩
      simp only
      rw [List.getElem?_append_left (h.lt hg)]; exact h2
    · intro r hr _
      simp only
      rw [List.getElem?_append_left hr]
    · intro g
      by_cases hfg : f = g
      · subst hfg; simp [hv]
      · simp [hfg]
  | some r =>
    obtain ⟨a, hv, ha, hfl⟩ := h.some f r hf
    have hget : heap.getD r [] = a := by simp [List.getD, ha]
    have hrl := h.lt hf
    have he : e = (List.zipWith max mem a, r, heap.set r (markPartial mem a)) := by
      simp only [e, evalSide, hf, hget, mark_max hm hfl]
    have hs : s = (List.zipWith max mem a, markPartial mem a, Dict.set ignv f (markPartial mem a)) := by
      simp only [s, Spec.sideByValue, hv, mark_max hm hfl]
    rw [he, hs]
    refine ⟨rfl, ⟨?_, ?_, h.inj⟩, ⟨by simp, ?_⟩, flags_mark hm hfl, by simp [hrl], Or.inl ⟨rfl, by simp [Dict.get?_set]⟩, ?_⟩
    · intro g r' hg
      by_cases hfg : f = g
      · subst hfg
        rw [hf] at hg; cases hg
        exact ⟨_, by simp [Dict.get?_set], by simp [hrl], flags_mark hm hfl⟩
      · obtain ⟨a', h1, h2, h3⟩ := h.some g r' hg
        refine ⟨a', by simp [Dict.get?_set, hfg, h1], ?_, h3⟩
        have hne : r ≠ r' := fun e => hfg (h.inj f g r hf (e ▸ hg))
        simp [hne, h2]
    · intro g hg
      have hne : f ≠ g := fun e => by rw [e, hg] at hf; cases hf
      simp [Dict.get?_set, hne, h.none g hg]
    · intro r' _ hg
      have hne : r ≠ r' := fun e => hg f (by rw [hf, e])
      simp [hne]
    · intro g
      simp only [Dict.get?_set, hv, Option.map_some]

/-- every membership array has one entry per example. -/
def Table (Xm : Dict String (Dict String (List K))) (n : Nat) : Prop :=
  ∀ f d, Dict.get? Xm f = some d → ∀ s m, Dict.get? d s = some m → m.length = n

theorem sumSets_length {Xm : Dict String (Dict String (List K))} {n : Nat} (hX : Table Xm n) (f : String) (sets : List String)
    (m : List K) (h : sumSets Xm n f sets = .ok m) : m.length = n := by
  unfold sumSets at h
  have gen : ∀ (sets : List String) (acc m : List K), acc.length = n → sets.foldlM (fun acc s => do
      let d ← Dict.get Xm f
      let m ← Dict.get d s
      pure (List.zipWith (· + ·) acc m)) acc = (.ok m : Py (List K)) → m.length = n := by
    intro sets
    induction sets with
    | nil => intro acc m hacc h; simp only [List.foldlM_nil, py_pure, Except.ok.injEq] at h; rw [← h]; exact hacc
    | cons s sets ih =>
      intro acc m hacc h
      rw [List.foldlM_cons] at h
      obtain ⟨acc', h1, h2⟩ := py_bind_eq_ok.1 h
      obtain ⟨d, hd, h3⟩ := py_bind_eq_ok.1 h1
      obtain ⟨w, hw, h4⟩ := py_bind_eq_ok.1 h3
      cases h4
      refine ih _ _ ?_ h2
      have := hX f d (Dict.get_eq_ok_iff.1 hd) s w (Dict.get_eq_ok_iff.1 hw)
      simp [hacc, this]
  exact gen sets _ m (by simp) h

/-- an array is not changed by the candidate splits `parts` of feature `f`. -/
def SatP (Xm : Dict String (Dict String (List K))) (n : Nat) (parts : List BPart) (f : String) (a : List K) : Prop :=
  ∀ q ∈ parts, q.1 = f → ∀ m, (sumSets Xm n f q.2.1 = .ok m ∨ sumSets Xm n f q.2.2 = .ok m) → markPartial m a = a

/-- how the best candidate of the code corresponds to the one by value, `start` cells existed before. -/
def BestRel (n start : Nat) (heap : IgnHeap K) (ign : Dict String Nat) (ignv : Dict String (List K)) :
    Option (BBest K Nat) → Option (BBest K (List K)) → Prop
  | none, none => True
  | some b, some v => b.att = v.att ∧ b.gain = v.gain ∧ b.mus = v.mus ∧ b.split = v.split ∧
      ((∃ r a, Dict.get? ign b.att = some r ∧ b.ignored = (r, r) ∧ Dict.get? ignv b.att = some a ∧ Below v.ignored.1 a ∧
          Below v.ignored.2 a ∧ v.ignored.1.length = n ∧ v.ignored.2.length = n) ∨
        (Dict.get? ign b.att = none ∧ start ≤ b.ignored.1 ∧ b.ignored.1 < b.ignored.2 ∧
          heap[b.ignored.1]? = some v.ignored.1 ∧ heap[b.ignored.2]? = some v.ignored.2 ∧ Flags n v.ignored.1 ∧ Flags n v.ignored.2))
  | _, _ => False

/-- the references of `ign` are older than `start`. -/
def Old (ign : Dict String Nat) (start : Nat) : Prop := ∀ g r, Dict.get? ign g = some r → r < start

theorem BestRel.side {n start : Nat} {heap heap' : IgnHeap K} {ign : Dict String Nat} {ignv ignv' : Dict String (List K)}
    {b : Option (BBest K Nat)} {v : Option (BBest K (List K))} (h : BestRel n start heap ign ignv b v) (hold : Old ign start)
    (hrel : Rel n heap ign ignv) (hfr : Frame ign heap heap') (f : String) (mem : List K) (hm : mem.length = n)
    (hv : ∀ g, Dict.get? ignv' g = if f = g then (Dict.get? ignv f).map (markPartial mem) else Dict.get? ignv g) :
    BestRel n start heap' ign ignv' b v := by
  cases b with
  | none => cases v with
    | none => trivial
    | some v => exact h.elim
  | some b => cases v with
    | none => exact h.elim
    | some v =>
      obtain ⟨h1, h2, h3, h4, h5⟩ := h
      refine ⟨h1, h2, h3, h4, ?_⟩
      rcases h5 with ⟨r, a, e1, e2, e3, e4, e5, e6, e7⟩ | ⟨e1, e2, e3, e4, e5, e6, e7⟩
      · left
        obtain ⟨a', ha', _, hfl⟩ := hrel.some _ _ e1
        rw [e3] at ha'; cases ha'
        by_cases hf : f = b.att
        · refine ⟨r, markPartial mem a, e1, e2, ?_, below_mark hm hfl e6 e4, below_mark hm hfl e7 e5, e6, e7⟩
          rw [hv, hf]; simp [e3]
        · exact ⟨r, a, e1, e2, by rw [hv]; simp [hf, e3], e4, e5, e6, e7⟩
      · right
        have hl1 := (List.getElem?_eq_some_iff.1 e4).1
        have hl2 := (List.getElem?_eq_some_iff.1 e5).1
        refine ⟨e1, e2, e3, ?_, ?_, e6, e7⟩
        · rw [hfr.2 _ hl1 (fun g hg => by have := hold g _ hg; omega)]; exact e4
        · rw [hfr.2 _ hl2 (fun g hg => by have := hold g _ hg; omega)]; exact e5

/-- the invariant of the loop over the candidate splits. -/
structure LoopInv (Xm : Dict String (Dict String (List K))) (n : Nat) (heap0 : IgnHeap K) (ign : Dict String Nat)
    (ignv0 : Dict String (List K)) (done : List BPart) (st : Option (BBest K Nat) × IgnHeap K)
    (sv : Option (BBest K (List K)) × Dict String (List K)) : Prop where
  rel : Rel n st.2 ign sv.2
  frame : Frame ign heap0 st.2
  best : BestRel n heap0.length st.2 ign sv.2 st.1 sv.1
  sat : ∀ f a, Dict.get? sv.2 f = some a → SatP Xm n done f a
  same : ∀ f a, Dict.get? ignv0 f = some a → SatP Xm n done f a → Dict.get? sv.2 f = some a

/-- agreement of two results. -/
def Agree {α β : Type} (R : α → β → Prop) : Py α → Py β → Prop
  | .ok a, .ok b => R a b
  | .error e, .error e' => e = e'
  | _, _ => False

theorem agree_bind {α β α' β' : Type} {R : α → β → Prop} {S : α' → β' → Prop} {x : Py α} {y : Py β} {f : α → Py α'}
    {g : β → Py β'} (h : Agree R x y) (hfg : ∀ a b, x = .ok a → y = .ok b → R a b → Agree S (f a) (g b)) :
    Agree S (x >>= f) (y >>= g) := by
  cases x <;> cases y
  · exact h
  · exact h.elim
  · exact h.elim
  · exact hfg _ _ rfl rfl h

theorem agree_refl {α : Type} (x : Py α) : Agree (· = ·) x x := by cases x <;> rfl

theorem agree_ite {α β : Type} {R : α → β → Prop} (c c' : Bool) {x x' : Py α} {y y' : Py β} (h : c = c') (h1 : Agree R x y)
    (h2 : c = false → Agree R x' y') : Agree R (if c = true then x else x') (if c' = true then y else y') := by
  subst h
  cases c
  · simpa using h2 rfl
  · simpa using h1

theorem evalPart_spec {Xm : Dict String (Dict String (List K))} {heap0 : IgnHeap K} {ign : Dict String Nat}
    {ignv0 : Dict String (List K)} {done : List BPart} {st : Option (BBest K Nat) × IgnHeap K}
    {sv : Option (BBest K (List K)) × Dict String (List K)} (ent : List K → List C → K) (y : List C) (mu : List K)
    (hX : Table Xm y.length) (hold : Old ign heap0.length)
    (h : LoopInv Xm y.length heap0 ign ignv0 done st sv) (q : BPart) :
    Agree (LoopInv Xm y.length heap0 ign ignv0 (done ++ [q])) (evalPart ent Xm y mu ign st q) (Spec.partByValue ent Xm y mu sv q) := by
  unfold evalPart Spec.partByValue
  refine agree_bind (agree_refl _) ?_
  rintro lm _ hlm - rfl
  refine agree_bind (agree_refl _) ?_
  rintro rm _ hrm - rfl
  have hll := sumSets_length hX _ _ _ hlm
  have hrl := sumSets_length hX _ _ _ hrm
  obtain ⟨l1, l2, l3, l4, l5, l6, l7⟩ := evalSide_spec h.rel q.1 lm hll
  have hb1 := h.best.side hold h.rel l3 q.1 lm hll l7
  obtain ⟨r1, r2, r3, r4, r5, r6, r7⟩ := evalSide_spec l2 q.1 rm hrl
  have hb2 := hb1.side hold l2 r3 q.1 rm hrl r7
  generalize evalSide y.length ign st.2 q.1 lm = L at *
  generalize Spec.sideByValue y.length sv.2 q.1 lm = LV at *
  generalize evalSide y.length ign L.2.2 q.1 rm = R at *
  generalize Spec.sideByValue y.length LV.2.2 q.1 rm = RV at *
  have hnew : ∀ g, Dict.get? RV.2.2 g = if q.1 = g then (Dict.get? sv.2 g).map (fun a => markPartial rm (markPartial lm a))
      else Dict.get? sv.2 g := by
    intro g
    rw [r7, l7, l7]
    by_cases hg : q.1 = g
    · subst hg; simp [Option.map_map, Function.comp_def]
    · simp [hg]
  dsimp only
  rw [l1, r1]
  refine agree_bind (agree_refl _) ?_
  rintro g _ - - rfl
  have hbg : (match st.1 with | none => (0 : K) | some b => b.gain) = (match sv.1 with | none => 0 | some b => b.gain) := by
    have := h.best
    revert this
    cases st.1 <;> cases sv.1
    · intro _; rfl
    · intro h; exact h.elim
    · intro h; exact h.elim
    · intro h; exact h.2.1
  refine ⟨r2, h.frame.trans (l3.trans r3), ?_, ?_, ?_⟩
  · have key : ∀ x z : K, x = z → BestRel y.length heap0.length R.2.2 ign RV.2.2
        (if x < g then some ⟨q.1, g, (List.zipWith min mu LV.1, List.zipWith min mu RV.1), q.2, (L.2.1, R.2.1)⟩ else st.1)
        (if z < g then some ⟨q.1, g, (List.zipWith min mu LV.1, List.zipWith min mu RV.1), q.2, (LV.2.1, RV.2.1)⟩ else sv.1) := ?_
    · exact key _ _ hbg
    rintro x _ rfl
    split
    · refine ⟨rfl, rfl, rfl, rfl, ?_⟩
      rcases l6 with ⟨a1, a2⟩ | ⟨a1, a2⟩
      · left
        rcases r6 with ⟨b1, b2⟩ | ⟨b1, b2⟩
        · have heq : R.2.1 = L.2.1 := by rw [a1, Option.some.injEq] at b1; exact b1.symm
          refine ⟨L.2.1, RV.2.1, a1, by rw [heq], b2, ?_, below_refl _, l4.len, r4.len⟩
          have hx := r7 q.1
          rw [b2, a2] at hx
          simp only [if_true, Option.map_some, Option.some.injEq] at hx
          rw [hx]
          exact below_mark hrl l4 l4.len (below_refl _)
        · rw [a1] at b1; cases b1
      · right
        rcases r6 with ⟨b1, b2⟩ | ⟨b1, b2⟩
        · rw [a1] at b1; cases b1
        · have hLlt := (List.getElem?_eq_some_iff.1 l5).1
          have hfr := h.frame.1
          refine ⟨a1, by simp only; omega, by simp only; omega, ?_, r5, l4, r4⟩
          rw [r3.2 _ hLlt (fun g hg => by have := hold g _ hg; omega)]; exact l5
    · exact hb2
  · intro f a hf
    rw [hnew] at hf
    by_cases hq : q.1 = f
    · subst hq
      simp only [if_true, Option.map_eq_some_iff] at hf
      obtain ⟨a0, ha0, rfl⟩ := hf
      have hfl : Flags y.length a0 := by
        cases hi : Dict.get? ign q.1 with
        | none => rw [h.rel.none _ hi] at ha0; cases ha0
        | some r => obtain ⟨x, hx, _, hfx⟩ := h.rel.some _ _ hi; rw [hx] at ha0; cases ha0; exact hfx
      intro q' hq' hf' m hm
      rcases List.mem_append.1 hq' with hq' | hq'
      · have hs := h.sat _ _ ha0 q' hq' hf' m hm
        have hml : m.length = y.length := by rcases hm with hm | hm <;> exact sumSets_length hX _ _ _ hm
        exact mark_stable hml hrl (flags_mark hll hfl) (mark_stable hml hll hfl hs)
      · simp only [List.mem_singleton] at hq'
        subst hq'
        rcases hm with hm | hm
        · rw [hlm] at hm; cases hm
          exact mark_stable hll hrl (flags_mark hll hfl) (mark_mark hll hfl)
        · rw [hrm] at hm; cases hm
          exact mark_mark hrl (flags_mark hll hfl)
    · simp only [hq, if_false] at hf
      intro q' hq' hf' m hm
      rcases List.mem_append.1 hq' with hq' | hq'
      · exact h.sat _ _ hf q' hq' hf' m hm
      · simp only [List.mem_singleton] at hq'
        subst hq'; exact absurd hf' hq
  · intro f a hf hs
    have hprev := h.same f a hf (fun q' hq' => hs q' (List.mem_append_left _ hq'))
    rw [hnew]
    by_cases hq : q.1 = f
    · subst hq
      have hqm : q ∈ done ++ [q] := by simp
      simp only [if_true, hprev, Option.map_some, Option.some.injEq]
      rw [hs q hqm rfl lm (Or.inl hlm), hs q hqm rfl rm (Or.inr hrm)]
    · simp [hq, hprev]

theorem foldParts_spec {Xm : Dict String (Dict String (List K))} {heap0 : IgnHeap K} {ign : Dict String Nat}
    {ignv0 : Dict String (List K)} (ent : List K → List C → K) (y : List C) (mu : List K)
    (hX : Table Xm y.length) (hold : Old ign heap0.length) (parts done : List BPart)
    (st : Option (BBest K Nat) × IgnHeap K) (sv : Option (BBest K (List K)) × Dict String (List K))
    (h : LoopInv Xm y.length heap0 ign ignv0 done st sv) :
    Agree (LoopInv Xm y.length heap0 ign ignv0 (done ++ parts)) (parts.foldlM (evalPart ent Xm y mu ign) st)
      (parts.foldlM (Spec.partByValue ent Xm y mu) sv) := by
  induction parts generalizing done st sv with
  | nil => simpa [Agree] using h
  | cons q parts ih =>
    rw [List.foldlM_cons, List.foldlM_cons]
    refine agree_bind (evalPart_spec ent y mu hX hold h q) ?_
    intro st' sv' _ _ h'
    have := ih _ _ _ h'
    simpa using this

theorem mem_set_of_ne {ν : Type} {d : Dict String ν} {k k' : String} {v w : ν} (h : (k', w) ∈ Dict.set d k v) (hne : k' ≠ k) :
    (k', w) ∈ d := by
  induction d with
  | nil => simp only [Dict.set, List.mem_singleton, Prod.mk.injEq] at h; exact absurd h.1 hne
  | cons p d ih =>
    obtain ⟨k₀, v₀⟩ := p
    simp only [Dict.set] at h
    split at h
    · rename_i hk
      rcases List.mem_cons.1 h with h | h
      · cases h; exact absurd hk hne
      · exact List.mem_cons_of_mem _ h
    · rcases List.mem_cons.1 h with h | h
      · rw [h]; exact List.mem_cons_self
      · exact List.mem_cons_of_mem _ (ih h)

section Grow
variable [LinearOrder C]

/-- an array is not changed by the candidate splits of feature `f` when the sets left are `fd`. -/
def SatFd [NanSort K] (cats : List String) (Xm : Dict String (Dict String (List K))) (y : List C) (fd : Dict String (List String)) (f : String)
    (a : List K) : Prop :=
  ∀ c0, (npUnique y)[0]? = some c0 → ∀ sets, (f, sets) ∈ fd → ∀ s,
    featureOrder cats Xm (y.map (fun c => decide (c = c0))) f sets = .ok s → SatP Xm y.length (cuts f s) f a

theorem mem_binaryPartitions [NanSort K] {cats : List String} {Xm : Dict String (Dict String (List K))} {pos : List Bool}
    {fd : Dict String (List String)} {parts : List BPart} (h : binaryPartitions cats Xm pos fd = .ok parts) (q : BPart) :
    q ∈ parts ↔ ∃ f sets s, (f, sets) ∈ fd ∧ featureOrder cats Xm pos f sets = .ok s ∧ q ∈ cuts f s := by
  obtain ⟨l, h1, h2⟩ := py_bind_eq_ok.1 h
  cases h2
  rw [mapM_ok_iff] at h1
  constructor
  · intro hq
    obtain ⟨c, hc, hqc⟩ := List.mem_flatten.1 hq
    obtain ⟨p, hp, hr⟩ := forall₂_mem_right h1 c hc
    obtain ⟨s, hs, hs'⟩ := py_bind_eq_ok.1 hr
    cases hs'
    exact ⟨p.1, p.2, s, hp, hs, hqc⟩
  · rintro ⟨f, sets, s, hm, hs, hq⟩
    obtain ⟨c, hc, hr⟩ := forall₂_mem_left h1 _ hm
    obtain ⟨s', hs', hs''⟩ := py_bind_eq_ok.1 hr
    cases hs''
    simp only at hs'
    rw [hs] at hs'; cases hs'
    exact List.mem_flatten.2 ⟨_, hc, hq⟩

theorem fst_of_mem_cuts {f : String} {s : List String} {q : BPart} (h : q ∈ cuts f s) : q.1 = f := by
  simp only [cuts, List.mem_map] at h
  obtain ⟨i, _, rfl⟩ := h
  rfl

theorem satP_iff [NanSort K] {cats : List String} {Xm : Dict String (Dict String (List K))} {y : List C} {c0 : C}
    {fd : Dict String (List String)} {parts : List BPart} (hc : (npUnique y)[0]? = some c0)
    (h : binaryPartitions cats Xm (y.map (fun c => decide (c = c0))) fd = .ok parts) (f : String) (a : List K) :
    SatP Xm y.length parts f a ↔ SatFd cats Xm y fd f a := by
  constructor
  · intro hs c1 hc1 sets hm s hfo q hq
    rw [hc] at hc1; cases hc1
    exact hs q ((mem_binaryPartitions h q).2 ⟨f, sets, s, hm, hfo, hq⟩)
  · intro hs q hq hf
    obtain ⟨f', sets, s, hm, hfo, hq'⟩ := (mem_binaryPartitions h q).1 hq
    have := fst_of_mem_cuts hq'
    rw [hf] at this; subst this
    exact hs c0 hc sets hm s hfo q hq' hf

theorem satFd_set [NanSort K] {cats : List String} {Xm : Dict String (Dict String (List K))} {y : List C}
    {fd : Dict String (List String)} {att f : String} {v : List String} {a : List K} (h : SatFd cats Xm y fd f a) (hne : f ≠ att) :
    SatFd cats Xm y (Dict.set fd att v) f a :=
  fun c0 hc sets hm s hs => h c0 hc sets (mem_set_of_ne hm hne) s hs

/-- what growing a node does to the heap. -/
def GrowRel [NanSort K] (cats : List String) (Xm : Dict String (Dict String (List K))) (y : List C) (heap : IgnHeap K) (ign : Dict String Nat)
    (fd : Dict String (List String)) (r : BNode C K × IgnHeap K) (t : BNode C K) : Prop :=
  r.1 = t ∧ Frame ign heap r.2 ∧
    ∀ f ref a, Dict.get? ign f = some ref → heap[ref]? = some a → SatFd cats Xm y fd f a → r.2[ref]? = some a

/-- the array of the child. -/
def ChildArr (n : Nat) (heap : IgnHeap K) (ign : Dict String Nat) (ignv : Dict String (List K)) (att : String) (ref : Nat)
    (arr : List K) : Prop :=
  (∃ a, Dict.get? ign att = some ref ∧ Dict.get? ignv att = some a ∧ Below arr a ∧ arr.length = n) ∨
    (Dict.get? ign att = none ∧ heap[ref]? = some arr ∧ Flags n arr ∧ ∀ g, Dict.get? ign g ≠ some ref)

theorem child_spec [NanSort K] {cats : List String} {Xm : Dict String (Dict String (List K))} {y : List C} {p : FDTParams K}
    {rec : IgnHeap K → BNode C K → Dict String Nat → Dict String (List String) → Py (BNode C K × IgnHeap K)}
    {recv : BNode C K → Dict String (List K) → Dict String (List String) → Py (BNode C K)}
    (hrec : ∀ heap cur ign ignv fd, Rel y.length heap ign ignv → Agree (GrowRel cats Xm y heap ign fd) (rec heap cur ign fd) (recv cur ignv fd))
    {heap : IgnHeap K} {ign : Dict String Nat} {ignv : Dict String (List K)} {fd : Dict String (List String)}
    (hrel : Rel y.length heap ign ignv) (hsat : ∀ f a, Dict.get? ignv f = some a → SatFd cats Xm y fd f a)
    (mu : List K) (att : String) (sets : List String) (childMu : List K) (ref : Nat) (arr : List K)
    (hca : ChildArr y.length heap ign ignv att ref arr) :
    Agree (fun (r : BNode C K × IgnHeap K) t => r.1 = t ∧ heap.length ≤ r.2.length ∧
        ∀ r' < heap.length, (Dict.get? ign att = none → r' ≠ ref) → r.2[r']? = heap[r']?)
      (bFitChild rec p y mu ign fd att sets childMu ref heap) (Spec.childByValue recv p y mu ignv fd att sets childMu arr) := by
  -- the dict and the heap of the child
  obtain ⟨ign', heap1, hu, hrel1, hlen, hold1, hkeep⟩ : ∃ ign' heap1, updateIgnored ign heap att ref = (ign', heap1) ∧
      Rel y.length heap1 ign' (Spec.childIgnored ignv att arr) ∧ heap.length ≤ heap1.length ∧
      (∀ r' < heap.length, heap1[r']? = heap[r']?) ∧
      (∀ r' < heap.length, (Dict.get? ign att = none → r' ≠ ref) → ∀ g, Dict.get? ign' g = some r' →
        g ≠ att ∧ Dict.get? ign g = some r') := by
    rcases hca with ⟨a, h1, h2, h3, h4⟩ | ⟨h1, h2, h3, h4⟩
    · obtain ⟨a', ha', hh, hfl⟩ := hrel.some _ _ h1
      rw [h2] at ha'; cases ha'
      have hget : heap.getD ref [] = a := by simp [List.getD, hh]
      refine ⟨Dict.set ign att heap.length, heap ++ [a], ?_, ⟨?_, ?_, ?_⟩, by simp, ?_, ?_⟩
      · simp only [updateIgnored, h1, hget]
        rw [show List.zipWith max a a = a from below_refl a]
      · intro f r hf
        rw [Dict.get?_set] at hf
        simp only [Spec.childIgnored, h2, Dict.get?_set]
        split at hf
        · rename_i he
          cases hf
          simp only [he, if_true]
          exact ⟨a, by rw [h3], by simp, hfl⟩
        · rename_i he
          obtain ⟨b, hb, hb2, hb3⟩ := hrel.some _ _ hf
          simp only [he, if_false]
          exact ⟨b, hb, by rw [List.getElem?_append_left (hrel.lt hf)]; exact hb2, hb3⟩
      · intro f hf
        rw [Dict.get?_set] at hf
        simp only [Spec.childIgnored, h2, Dict.get?_set]
        split at hf
        · cases hf
        · rename_i he
          simp only [he, if_false]
          exact hrel.none f hf
      · intro f g r hf hg
        rw [Dict.get?_set] at hf hg
        split at hf <;> split at hg
        · rename_i e1 e2; rw [← e1, ← e2]
        · cases hf; have := hrel.lt hg; omega
        · cases hg; have := hrel.lt hf; omega
        · exact hrel.inj f g r hf hg
      · intro r' hr'
        rw [List.getElem?_append_left hr']
      · intro r' hr' _ g hg
        rw [Dict.get?_set] at hg
        split at hg
        · cases hg; omega
        · rename_i he; exact ⟨fun e => he e.symm, hg⟩
    · have hv := hrel.none _ h1
      refine ⟨Dict.set ign att ref, heap, ?_, ⟨?_, ?_, ?_⟩, le_refl _, fun _ _ => rfl, ?_⟩
      · simp only [updateIgnored, h1]
      · intro f r hf
        rw [Dict.get?_set] at hf
        simp only [Spec.childIgnored, hv, Dict.get?_set]
        split at hf
        · rename_i he
          cases hf
          simp only [he, if_true]
          exact ⟨arr, rfl, h2, h3⟩
        · rename_i he
          obtain ⟨b, hb, hb2, hb3⟩ := hrel.some _ _ hf
          simp only [he, if_false]
          exact ⟨b, hb, hb2, hb3⟩
      · intro f hf
        rw [Dict.get?_set] at hf
        simp only [Spec.childIgnored, hv, Dict.get?_set]
        split at hf
        · cases hf
        · rename_i he
          simp only [he, if_false]
          exact hrel.none f hf
      · intro f g r hf hg
        rw [Dict.get?_set] at hf hg
        split at hf <;> split at hg
        · rename_i e1 e2; rw [← e1, ← e2]
        · cases hf; exact absurd hg (h4 g)
        · cases hg; exact absurd hf (h4 f)
        · exact hrel.inj f g r hf hg
      · intro r' _ hne g hg
        rw [Dict.get?_set] at hg
        split at hg
        · cases hg; exact absurd rfl (hne h1)
        · rename_i he; exact ⟨fun e => he e.symm, hg⟩
  unfold bFitChild Spec.childByValue
  refine agree_bind (agree_refl _) ?_
  rintro test _ - - rfl
  simp only [hu]
  refine agree_bind (agree_refl _) ?_
  rintro fd' _ hfd - rfl
  obtain ⟨v, hfd'⟩ : ∃ v, fd' = Dict.set fd att v := by
    obtain ⟨l, _, h2⟩ := py_bind_eq_ok.1 hfd
    cases h2; exact ⟨_, rfl⟩
  split
  · have hg := hrec heap1 (.fresh (some test) childMu) ign' _ fd' hrel1
    revert hg
    cases rec heap1 (.fresh (some test) childMu) ign' fd' <;>
      cases recv (.fresh (some test) childMu) (Spec.childIgnored ignv att arr) fd'
    · exact id
    · exact id
    · exact id
    · rintro ⟨g1, g2, g3⟩
      refine ⟨g1, le_trans hlen g2.1, ?_⟩
      intro r' hr' hne
      rw [← hold1 r' hr']
      by_cases hex : ∃ g, Dict.get? ign' g = some r'
      · obtain ⟨g, hg⟩ := hex
        obtain ⟨hga, hg0⟩ := hkeep r' hr' hne g hg
        obtain ⟨a, ha1, ha2, ha3⟩ := hrel.some _ _ hg0
        have ha1' : heap1[r']? = some a := by rw [hold1 r' hr']; exact ha2
        rw [ha1']
        refine g3 g r' a hg ha1' ?_
        rw [hfd']
        exact satFd_set (hsat g a ha1) hga
      · exact g2.2 r' (lt_of_lt_of_le hr' hlen) (fun g hg => hex ⟨g, hg⟩)
  · refine agree_bind (agree_refl _) ?_
    rintro cv _ - - rfl
    exact ⟨rfl, hlen, fun r' hr' _ => hold1 r' hr'⟩

/-- growing a node of the code agrees with growing it by value. -/
theorem grow_spec [NanSort K] (ent : List K → List C → K) (cats : List String) (p : FDTParams K) (Xm : Dict String (Dict String (List K)))
    (y : List C) (hX : Table Xm y.length) (fuel depth : Nat) (heap : IgnHeap K) (cur : BNode C K) (ign : Dict String Nat)
    (ignv : Dict String (List K)) (fd : Dict String (List String)) (hrel : Rel y.length heap ign ignv) :
    Agree (GrowRel cats Xm y heap ign fd) (bPartialFit ent cats p Xm y fuel depth heap cur ign fd)
      (Spec.growByValue ent cats p Xm y fuel depth cur ignv fd) := by
  induction fuel generalizing depth heap cur ign ignv fd with
  | zero => rfl
  | succ fuel ih =>
    have hold : Old ign heap.length := fun g r hg => hrel.lt hg
    rw [bPartialFit, Spec.growByValue]
    have hmax : Agree (fun a b => ∃ c0 parts, (npUnique y)[0]? = some c0 ∧
        binaryPartitions cats Xm (y.map (fun c => decide (c = c0))) fd = .ok parts ∧
        LoopInv Xm y.length heap ign ignv parts a b) (bMaxGain ent cats Xm y cur.mu ign fd heap)
        (Spec.maxGainByValue ent cats Xm y cur.mu ignv fd) := by
      unfold bMaxGain Spec.maxGainByValue
      cases hc0 : (npUnique y)[0]? with
      | none => rfl
      | some c0 =>
        refine agree_bind (agree_refl _) ?_
        rintro parts _ hparts - rfl
        have := foldParts_spec ent y cur.mu hX hold parts [] (none, heap) (none, ignv)
          ⟨hrel, frame_refl _ _, trivial, fun _ _ _ q hq => by simp at hq, fun _ _ h _ => h⟩
        revert this
        cases parts.foldlM (evalPart ent Xm y cur.mu ign) (none, heap) <;>
          cases parts.foldlM (Spec.partByValue ent Xm y cur.mu) (none, ignv)
        · exact id
        · exact id
        · exact id
        · exact fun h => ⟨c0, parts, rfl, hparts, h⟩
    refine agree_bind hmax ?_
    rintro ⟨best, heap1⟩ ⟨bestv, ignv1⟩ - - ⟨c0, parts, hc0, hparts, inv⟩
    have hsat1 : ∀ f a, Dict.get? ignv1 f = some a → SatFd cats Xm y fd f a :=
      fun f a hf => (satP_iff hc0 hparts f a).1 (inv.sat f a hf)
    have hkeep : ∀ f ref a, Dict.get? ign f = some ref → heap[ref]? = some a → SatFd cats Xm y fd f a → heap1[ref]? = some a := by
      intro f ref a hf ha hs
      obtain ⟨a', h1, h2, _⟩ := hrel.some _ _ hf
      rw [ha] at h2; cases h2
      have h3 := inv.same f a h1 ((satP_iff hc0 hparts f a).2 hs)
      obtain ⟨a'', h4, h5, _⟩ := inv.rel.some _ _ hf
      rw [h3] at h4; cases h4
      exact h5
    refine agree_ite _ _ ?_ ?_ (fun _ => ?_)
    · have := inv.best
      revert this
      cases best <;> cases bestv
      · intro _; rfl
      · intro h; exact h.elim
      · intro h; exact h.elim
      · intro h; dsimp only; rw [h.2.1]
    · refine agree_bind (agree_refl _) ?_
      rintro cv _ - - rfl
      exact ⟨rfl, inv.frame, hkeep⟩
    · have hbest := inv.best
      cases best with
      | none => cases bestv with
        | none => rfl
        | some v => exact hbest.elim
      | some b => cases bestv with
        | none => exact hbest.elim
        | some v =>
          obtain ⟨h1, h2, h3, h4, h5⟩ := hbest
          obtain ⟨batt, bgain, bmus, bsplit, bign⟩ := b
          obtain ⟨vatt, vgain, vmus, vsplit, vign⟩ := v
          simp only at h1 h2 h3 h4 h5 ⊢
          subst h1 h2 h3 h4
          have hca1 : ChildArr y.length heap1 ign ignv1 batt bign.1 vign.1 := by
            rcases h5 with ⟨r, a, e1, e2, e3, e4, e5, e6, e7⟩ | ⟨e1, e2, e3, e4, e5, e6, e7⟩
            · exact Or.inl ⟨a, by rw [e1, e2], e3, e4, e6⟩
            · exact Or.inr ⟨e1, e4, e6, fun g hg => by have := hold g _ hg; omega⟩
          refine agree_bind (child_spec (ih (depth + 1)) inv.rel hsat1 cur.mu batt bsplit.1 bmus.1 bign.1 vign.1 hca1) ?_
          rintro ⟨l, heap2⟩ lv - - ⟨g1, g2, g3⟩
          simp only at g1 g2 g3 ⊢
          subst g1
          have hne : ∀ g r, Dict.get? ign g = some r → Dict.get? ign batt = none → r ≠ bign.1 := by
            intro g r hg hb
            rcases h5 with ⟨_, _, e1, _⟩ | ⟨_, e2, _⟩
            · rw [hb] at e1; cases e1
            · have := hold g _ hg; omega
          have hrel2 : Rel y.length heap2 ign ignv1 := by
            refine ⟨?_, inv.rel.none, inv.rel.inj⟩
            intro f r hf
            obtain ⟨a, ha1, ha2, ha3⟩ := inv.rel.some _ _ hf
            refine ⟨a, ha1, ?_, ha3⟩
            rw [g3 r (inv.rel.lt hf) (hne f r hf)]; exact ha2
          have hca2 : ChildArr y.length heap2 ign ignv1 batt bign.2 vign.2 := by
            rcases h5 with ⟨r, a, e1, e2, e3, e4, e5, e6, e7⟩ | ⟨e1, e2, e3, e4, e5, e6, e7⟩
            · exact Or.inl ⟨a, by rw [e1, e2], e3, e5, e7⟩
            · refine Or.inr ⟨e1, ?_, e7, fun g hg => by have := hold g _ hg; omega⟩
              rw [g3 _ (List.getElem?_eq_some_iff.1 e5).1 (fun _ => by omega)]; exact e5
          refine agree_bind (child_spec (ih (depth + 1)) hrel2 hsat1 cur.mu batt bsplit.2 bmus.2 bign.2 vign.2 hca2) ?_
          rintro ⟨r, heap3⟩ rv - - ⟨k1, k2, k3⟩
          simp only at k1 k2 k3 ⊢
          subst k1
          have hframe1 := inv.frame
          simp only at hframe1
          have h13 : ∀ r' < heap.length, heap3[r']? = heap1[r']? := by
            intro r' hr'
            have hr1 : r' < heap1.length := lt_of_lt_of_le hr' hframe1.1
            have hlt : Dict.get? ign batt = none → r' ≠ bign.1 ∧ r' ≠ bign.2 := by
              intro hb
              rcases h5 with ⟨_, _, e1, _⟩ | ⟨_, e2, e3, _⟩
              · rw [hb] at e1; cases e1
              · omega
            rw [k3 r' (lt_of_lt_of_le hr1 g2) (fun hb => (hlt hb).2), g3 r' hr1 (fun hb => (hlt hb).1)]
          refine ⟨rfl, ⟨le_trans hframe1.1 (le_trans g2 k2), ?_⟩, ?_⟩
          · intro r' hr' hg
            simp only
            rw [h13 r' hr']; exact hframe1.2 r' hr' hg
          · intro f ref a hf ha hs
            simp only
            rw [h13 ref (hold f ref hf)]
            exact hkeep f ref a hf ha hs

end Grow

end Teacher.FB
