import Verif.Props.RowOrder
import Verif.Props.FBDTFit

/-! # C157 for binary fuzzy trees: the order of the training rows does not matter -/

namespace Teacher
set_option linter.unusedSectionVars false

section rel
variable {α β : Type}

/-- two computations give the same error, or related results. -/
def PyRel (R : α → β → Prop) (A : Py α) (A' : Py β) : Prop :=
  (∃ e, A = .error e ∧ A' = .error e) ∨ ∃ a a', A = .ok a ∧ A' = .ok a' ∧ R a a'

theorem PyRel.ok {R : α → β → Prop} {a : α} {a' : β} (h : R a a') : PyRel R (.ok a) (.ok a') := .inr ⟨a, a', rfl, rfl, h⟩

theorem PyRel.error {R : α → β → Prop} (e : PyErr) : PyRel R (.error e) (.error e) := .inl ⟨e, rfl, rfl⟩

theorem PyRel.of_eq {A A' : Py α} (h : A = A') : PyRel (fun a a' => a = a') A A' := by
  subst h
  cases A with
  | error e => exact .error e
  | ok a => exact .ok rfl

theorem PyRel.bind {γ δ : Type} {R : α → β → Prop} {S : γ → δ → Prop} {A : Py α} {A' : Py β} {k : α → Py γ} {k' : β → Py δ}
    (h : PyRel R A A') (hk : ∀ a a', R a a' → PyRel S (k a) (k' a')) : PyRel S (A >>= k) (A' >>= k') := by
  rcases h with ⟨e, rfl, rfl⟩ | ⟨a, a', rfl, rfl, hR⟩
  · exact .error e
  · exact hk a a' hR

theorem PyRel.foldlM {σ σ' : Type} {R : σ → σ' → Prop} {f : σ → α → Py σ} {f' : σ' → α → Py σ'} (l : List α)
    (hf : ∀ a ∈ l, ∀ s s', R s s' → PyRel R (f s a) (f' s' a)) : ∀ s s', R s s' → PyRel R (l.foldlM f s) (l.foldlM f' s') := by
  induction l with
  | nil => intro s s' h; exact .ok h
  | cons a l ih =>
    intro s s' h
    rw [List.foldlM_cons, List.foldlM_cons]
    exact (hf a (by simp) s s' h).bind (fun b b' hb => ih (fun a' ha' => hf a' (by simp [ha'])) b b' hb)

end rel

section permB
variable {ι C K : Type} [Field K] [LinearOrder K] [IsStrictOrderedRing K] [LinearOrder C]

/-- two vectors that hold the same numbers for the rows, in the two orders. -/
def RowRel (I I' : List ι) (l l' : List K) : Prop := ∃ m : ι → K, l = I.map m ∧ l' = I'.map m

theorem RowRel.zipWith {I I' : List ι} {l l' k k' : List K} (f : K → K → K) (h : RowRel I I' l l') (hk : RowRel I I' k k') :
    RowRel I I' (List.zipWith f l k) (List.zipWith f l' k') := by
  obtain ⟨m, rfl, rfl⟩ := h
  obtain ⟨g, rfl, rfl⟩ := hk
  exact ⟨fun i => f (m i) (g i), zipWith_maps _ _ _ _, zipWith_maps _ _ _ _⟩

theorem RowRel.const (I I' : List ι) (c : K) : RowRel I I' (List.replicate I.length c) (List.replicate I'.length c) :=
  ⟨fun _ => c, (List.map_const' ..).symm, (List.map_const' ..).symm⟩

theorem RowRel.sum {I I' : List ι} (hp : I.Perm I') {l l' : List K} (h : RowRel I I' l l') : l.sum = l'.sum := by
  obtain ⟨m, rfl, rfl⟩ := h
  exact (hp.map m).sum_eq

theorem lift_get (I I' : List ι) (xm : Dict String (Dict String (ι → K))) (f s : String) :
    PyRel (RowRel I I') ((Dict.get (liftMemb I xm) f).bind (fun d => Dict.get d s)) ((Dict.get (liftMemb I' xm) f).bind (fun d => Dict.get d s)) := by
  unfold liftMemb
  rw [get_mapVal, get_mapVal]
  cases Dict.get xm f with
  | error e => exact .error e
  | ok d =>
    show PyRel _ (Dict.get (liftDict I d) s) (Dict.get (liftDict I' d) s)
    rw [get_liftDict, get_liftDict]
    cases Dict.get d s with
    | error e => exact .error e
    | ok m => exact .ok ⟨m, rfl, rfl⟩

theorem sumSets_perm {I I' : List ι} (xm : Dict String (Dict String (ι → K))) (feature : String) (sets : List String) :
    PyRel (RowRel I I') (sumSets (liftMemb I xm) I.length feature sets) (sumSets (liftMemb I' xm) I'.length feature sets) := by
  unfold sumSets
  refine PyRel.foldlM sets ?_ _ _ (RowRel.const I I' 0)
  intro s _ acc acc' hacc
  have h := lift_get I I' xm feature s
  have e : ∀ (Z : Py (Dict String (List K))) (acc : List K), (do let d ← Z; let m ← Dict.get d s; pure (List.zipWith (· + ·) acc m) : Py (List K)) =
      (Z.bind (fun d => Dict.get d s)) >>= fun m => pure (List.zipWith (· + ·) acc m) := by
    intro Z acc; cases Z <;> rfl
  rw [e, e]
  exact h.bind (fun a a' ha => .ok (hacc.zipWith _ ha))

theorem positiveShare_perm {I I' : List ι} (hp : I.Perm I') (xm : Dict String (Dict String (ι → K))) (ps : ι → Bool) (feature val : String) :
    positiveShare (liftMemb I xm) (I.map ps) feature val = positiveShare (liftMemb I' xm) (I'.map ps) feature val := by
  unfold positiveShare liftMemb
  rw [get_mapVal, get_mapVal]
  cases Dict.get xm feature with
  | error e => rfl
  | ok d =>
    simp only [Except.map, py_bind_ok]
    rw [get_liftDict, get_liftDict]
    cases Dict.get d val with
    | error e => rfl
    | ok m =>
      simp only [Except.map, py_bind_ok]
      rw [zip_maps, zip_maps, (hp.map m).sum_eq, (((hp.map (fun i => (m i, ps i))).filter Prod.snd).map Prod.fst).sum_eq]

theorem binaryPartitions_perm [NanSort K] {I I' : List ι} (hp : I.Perm I') (cats : List String) (xm : Dict String (Dict String (ι → K))) (ps : ι → Bool)
    (fd : Dict String (List String)) :
    binaryPartitions cats (liftMemb I xm) (I.map ps) fd = binaryPartitions cats (liftMemb I' xm) (I'.map ps) fd := by
  unfold binaryPartitions featureOrder
  have : ∀ f, positiveShare (liftMemb I xm) (I.map ps) f = positiveShare (liftMemb I' xm) (I'.map ps) f :=
    fun f => funext (positiveShare_perm hp xm ps f)
  simp only [this]

theorem splitGainOf_perm {ent : List K → List C → K} {ys : ι → C} {I I' : List ι} (hp : I.Perm I') (he : sameEnt ent ys I I')
    {mu mu' l l' r r' : List K} (hmu : RowRel I I' mu mu') (hl : RowRel I I' l l') (hr : RowRel I I' r r') :
    splitGainOf ent (I.map ys) mu l r = splitGainOf ent (I'.map ys) mu' l' r' := by
  unfold splitGainOf
  rw [hmu.sum hp, hl.sum hp, hr.sum hp]
  obtain ⟨m, rfl, rfl⟩ := hmu
  obtain ⟨a, rfl, rfl⟩ := hl
  obtain ⟨b, rfl, rfl⟩ := hr
  rw [he m, he a, he b]

/-- the references of the dict of a node point into the heap. -/
def RefsIn (ign : Dict String Nat) (n : Nat) : Prop := ∀ f r, Dict.get? ign f = some r → r < n

theorem evalSide_perm {I I' : List ι} {heap heap' : IgnHeap K} (hh : List.Forall₂ (RowRel I I') heap heap') {ign : Dict String Nat}
    (hi : RefsIn ign heap.length) (feature : String) {mem mem' : List K} (hm : RowRel I I' mem mem') :
    let a := evalSide I.length ign heap feature mem
    let a' := evalSide I'.length ign heap' feature mem'
    RowRel I I' a.1 a'.1 ∧ a.2.1 = a'.2.1 ∧ a.2.1 < a.2.2.length ∧ heap.length ≤ a.2.2.length ∧ List.Forall₂ (RowRel I I') a.2.2 a'.2.2 := by
  have hlen := hh.length_eq
  unfold evalSide markPartial
  cases hg : Dict.get? ign feature with
  | none =>
    refine ⟨hm, hlen, by simp, by simp, ?_⟩
    exact List.rel_append hh (.cons (hm.zipWith _ (RowRel.const I I' 0)) .nil)
  | some r =>
    have hr := hi feature r hg
    have hget : RowRel I I' (heap.getD r []) (heap'.getD r []) := by
      rw [List.getD_eq_getElem?_getD, List.getD_eq_getElem?_getD, List.getElem?_eq_getElem hr, List.getElem?_eq_getElem (hlen ▸ hr)]
      have := hh.get hr (hlen ▸ hr)
      simpa only [List.get_eq_getElem, Option.getD_some] using this
    refine ⟨hm.zipWith _ hget, rfl, by simpa using hr, by simp, ?_⟩
    dsimp only
    refine List.forall₂_iff_get.mpr ⟨by simp [hlen], ?_⟩
    intro i h1 h2
    simp only [List.get_eq_getElem, List.getElem_set]
    by_cases hri : r = i
    · subst hri
      rw [if_pos rfl, if_pos rfl]
      exact (hm.zipWith _ hget).zipWith _ hget
    · rw [if_neg hri, if_neg hri]
      have := hh.get (by simpa using h1) (by simpa using h2)
      simpa only [List.get_eq_getElem] using this

/-- the best split found in the two orders. -/
def BestRel (I I' : List ι) (n : Nat) : Option (BBest K Nat) → Option (BBest K Nat) → Prop
  | none, none => True
  | some b, some b' => b.att = b'.att ∧ b.gain = b'.gain ∧ b.split = b'.split ∧ b.ignored = b'.ignored ∧ RowRel I I' b.mus.1 b'.mus.1 ∧
    RowRel I I' b.mus.2 b'.mus.2 ∧ b.ignored.1 < n ∧ b.ignored.2 < n
  | _, _ => False

theorem BestRel.mono {I I' : List ι} {n m : Nat} (hnm : n ≤ m) {b b' : Option (BBest K Nat)} (h : BestRel I I' n b b') : BestRel I I' m b b' := by
  cases b <;> cases b' <;> simp only [BestRel] at h ⊢
  obtain ⟨h1, h2, h3, h4, h5, h6, h7, h8⟩ := h
  exact ⟨h1, h2, h3, h4, h5, h6, by omega, by omega⟩

/-- the state of the search in the two orders; `n` bounds the heap from below. -/
def StRel (I I' : List ι) (n : Nat) (s s' : Option (BBest K Nat) × IgnHeap K) : Prop :=
  n ≤ s.2.length ∧ BestRel I I' s.2.length s.1 s'.1 ∧ List.Forall₂ (RowRel I I') s.2 s'.2

theorem evalPart_perm {ent : List K → List C → K} {ys : ι → C} {I I' : List ι} (hp : I.Perm I') (he : sameEnt ent ys I I')
    (xm : Dict String (Dict String (ι → K))) {mu mu' : List K} (hmu : RowRel I I' mu mu') {ign : Dict String Nat} {n : Nat} (hi : RefsIn ign n)
    (part : BPart) (s s' : Option (BBest K Nat) × IgnHeap K) (hs : StRel I I' n s s') :
    PyRel (StRel I I' n) (evalPart ent (liftMemb I xm) (I.map ys) mu ign s part) (evalPart ent (liftMemb I' xm) (I'.map ys) mu' ign s' part) := by
  unfold evalPart
  rw [List.length_map, List.length_map]
  refine (sumSets_perm xm part.1 part.2.1).bind ?_
  intro lm lm' hlm
  obtain ⟨a1, a2, a3, a4, a5⟩ := evalSide_perm hs.2.2 (fun f r h => lt_of_lt_of_le (hi f r h) hs.1) part.1 hlm
  generalize evalSide I.length ign s.2 part.1 lm = L at *
  generalize evalSide I'.length ign s'.2 part.1 lm' = L' at *
  refine (sumSets_perm xm part.1 part.2.2).bind ?_
  intro rm rm' hrm
  obtain ⟨b1, b2, b3, b4, b5⟩ := evalSide_perm a5 (fun f r h => lt_of_lt_of_le (hi f r h) (hs.1.trans a4)) part.1 hrm
  generalize evalSide I.length ign L.2.2 part.1 rm = R at *
  generalize evalSide I'.length ign L'.2.2 part.1 rm' = R' at *
  dsimp only
  refine (PyRel.of_eq (splitGainOf_perm hp he hmu (hmu.zipWith min a1) (hmu.zipWith min b1))).bind ?_
  rintro g _ rfl
  refine .ok ⟨hs.1.trans (a4.trans b4), ?_, b5⟩
  obtain ⟨sb, sh⟩ := s
  obtain ⟨sb', sh'⟩ := s'
  have h2 := hs.2.1
  dsimp only at a4 h2 ⊢
  have hnew : BestRel I I' R.2.2.length (some ⟨part.1, g, (List.zipWith min mu L.1, List.zipWith min mu R.1), part.2, (L.2.1, R.2.1)⟩)
      (some ⟨part.1, g, (List.zipWith min mu' L'.1, List.zipWith min mu' R'.1), part.2, (L'.2.1, R'.2.1)⟩) :=
    ⟨rfl, rfl, rfl, by rw [a2, b2], hmu.zipWith min a1, hmu.zipWith min b1, lt_of_lt_of_le a3 b4, b3⟩
  cases sb with
  | none =>
    cases sb' with
    | some _ => exact absurd h2 (by simp [BestRel])
    | none =>
      dsimp only
      split
      · exact hnew
      · trivial
  | some b =>
    cases sb' with
    | none => exact absurd h2 (by simp [BestRel])
    | some b' =>
      have := h2.2.1
      dsimp only
      by_cases hlt : b.gain < g
      · have hlt' : b'.gain < g := this ▸ hlt
        rw [if_pos hlt, if_pos hlt']
        exact hnew
      · have hlt' : ¬ b'.gain < g := this ▸ hlt
        rw [if_neg hlt, if_neg hlt']
        exact h2.mono (a4.trans b4)

theorem bMaxGain_perm [NanSort K] {ent : List K → List C → K} {ys : ι → C} {I I' : List ι} (hp : I.Perm I') (he : sameEnt ent ys I I') (cats : List String)
    (xm : Dict String (Dict String (ι → K))) {mu mu' : List K} (hmu : RowRel I I' mu mu') {ign : Dict String Nat} {heap heap' : IgnHeap K}
    (hi : RefsIn ign heap.length) (hh : List.Forall₂ (RowRel I I') heap heap') (fd : Dict String (List String)) :
    PyRel (StRel I I' heap.length) (bMaxGain ent cats (liftMemb I xm) (I.map ys) mu ign fd heap)
      (bMaxGain ent cats (liftMemb I' xm) (I'.map ys) mu' ign fd heap') := by
  unfold bMaxGain
  rw [npUnique_perm (hp.map ys)]
  cases (npUnique (I'.map ys))[0]? with
  | none => exact .error _
  | some c0 =>
    dsimp only
    rw [List.map_map, List.map_map]
    refine (PyRel.of_eq (binaryPartitions_perm hp cats xm ((fun c => decide (c = c0)) ∘ ys) fd)).bind ?_
    rintro parts _ rfl
    exact PyRel.foldlM parts (fun part _ s s' hs => evalPart_perm hp he xm hmu hi part s s' hs) _ _ ⟨le_refl _, trivial, hh⟩

mutual
/-- a tree without the degrees of the training rows. -/
def bNoMu : BNode C K → BNode C K
  | .mk test level _ isLeaf cv children => .mk test level [] isLeaf cv (bNoMuList children)
/-- the same for a list. -/
def bNoMuList : List (BNode C K) → List (BNode C K)
  | [] => []
  | c :: cs => bNoMu c :: bNoMuList cs
end

theorem bNoMuList_eq_map (l : List (BNode C K)) : bNoMuList l = l.map bNoMu := by
  induction l with
  | nil => rw [bNoMuList]; rfl
  | cons c cs ih => rw [bNoMuList, ih]; rfl

/-- the result of fitting in the two orders. -/
def OutRel (I I' : List ι) (n : Nat) (s s' : BNode C K × IgnHeap K) : Prop :=
  n ≤ s.2.length ∧ bNoMu s.1 = bNoMu s'.1 ∧ List.Forall₂ (RowRel I I') s.2 s'.2

theorem updateIgnored_perm {I I' : List ι} {heap heap' : IgnHeap K} (hh : List.Forall₂ (RowRel I I') heap heap') {ign : Dict String Nat}
    (hi : RefsIn ign heap.length) (feature : String) {ref : Nat} (hr : ref < heap.length) :
    let a := updateIgnored ign heap feature ref
    let a' := updateIgnored ign heap' feature ref
    a.1 = a'.1 ∧ RefsIn a.1 a.2.length ∧ heap.length ≤ a.2.length ∧ List.Forall₂ (RowRel I I') a.2 a'.2 := by
  have hlen := hh.length_eq
  have hget : ∀ r, r < heap.length → RowRel I I' (heap.getD r []) (heap'.getD r []) := by
    intro r hr
    rw [List.getD_eq_getElem?_getD, List.getD_eq_getElem?_getD, List.getElem?_eq_getElem hr, List.getElem?_eq_getElem (hlen ▸ hr)]
    have := hh.get hr (hlen ▸ hr)
    simpa only [List.get_eq_getElem, Option.getD_some] using this
  unfold updateIgnored
  cases hg : Dict.get? ign feature with
  | none =>
    refine ⟨rfl, ?_, le_refl _, hh⟩
    intro f r h
    rw [Dict.get?_set] at h
    split at h
    · exact (Option.some.inj h) ▸ hr
    · exact hi f r h
  | some r =>
    refine ⟨by dsimp only; rw [hlen], ?_, by simp, List.rel_append hh (.cons ((hget r (hi _ _ hg)).zipWith _ (hget ref hr)) .nil)⟩
    intro f k h
    dsimp only at h ⊢
    rw [Dict.get?_set] at h
    rw [List.length_append, List.length_singleton]
    split at h
    · have := Option.some.inj h; omega
    · have := hi f k h; omega

theorem classValueOf_rel {I I' : List ι} (hp : I.Perm I') {mu mu' : List K} (hmu : RowRel I I' mu mu') (ys : ι → C) :
    classValueOf mu (I.map ys) = classValueOf mu' (I'.map ys) := by
  obtain ⟨m, rfl, rfl⟩ := hmu
  exact classValueOf_perm hp m ys

theorem bFitChild_perm {rec rec' : IgnHeap K → BNode C K → Dict String Nat → Dict String (List String) → Py (BNode C K × IgnHeap K)}
    (p : FDTParams K) {ys : ι → C} {I I' : List ι} (hp : I.Perm I')
    (hrec : ∀ (heap heap' : IgnHeap K) (t : Option (BTest K)) (m m' : List K) (ign : Dict String Nat) (fd : Dict String (List String)),
      List.Forall₂ (RowRel I I') heap heap' → RowRel I I' m m' → RefsIn ign heap.length →
      PyRel (OutRel I I' heap.length) (rec heap (.fresh t m) ign fd) (rec' heap' (.fresh t m') ign fd))
    {mu mu' cm cm' : List K} (hmu : RowRel I I' mu mu') (hcm : RowRel I I' cm cm') {ign : Dict String Nat} (fd : Dict String (List String))
    (att : String) (sets : List String) {ref : Nat} {heap heap' : IgnHeap K} (hh : List.Forall₂ (RowRel I I') heap heap')
    (hi : RefsIn ign heap.length) (hr : ref < heap.length) :
    PyRel (OutRel I I' heap.length) (bFitChild rec p (I.map ys) mu ign fd att sets cm ref heap)
      (bFitChild rec' p (I'.map ys) mu' ign fd att sets cm' ref heap') := by
  unfold bFitChild
  refine (PyRel.of_eq rfl).bind ?_
  rintro test _ rfl
  obtain ⟨u1, u2, u3, u4⟩ := updateIgnored_perm hh hi att hr
  generalize updateIgnored ign heap att ref = U at *
  generalize updateIgnored ign heap' att ref = U' at *
  obtain ⟨ign1, heap1⟩ := U
  obtain ⟨ign2, heap2⟩ := U'
  dsimp only at u1 u2 u3 u4 ⊢
  subst u1
  refine (PyRel.of_eq rfl).bind ?_
  rintro fd' _ rfl
  by_cases h0 : 0 < cm.sum
  · have h1 : 0 < cm'.sum := by rw [← hcm.sum hp]; exact h0
    rw [if_pos h0, if_pos h1]
    rcases hrec heap1 heap2 (some test) cm cm' ign1 fd' u4 hcm u2 with h | ⟨a, a', e1, e2, h1, h2, h3⟩
    · exact .inl h
    · exact .inr ⟨a, a', e1, e2, u3.trans h1, h2, h3⟩
  · have h1 : ¬ 0 < cm'.sum := by rw [← hcm.sum hp]; exact h0
    rw [if_neg h0, if_neg h1]
    refine (PyRel.of_eq (classValueOf_rel hp hmu ys)).bind ?_
    rintro cv _ rfl
    exact .ok ⟨u3, by simp only [bNoMu], u4⟩

theorem bPartialFit_perm [NanSort K] {ent : List K → List C → K} {ys : ι → C} {I I' : List ι} (hp : I.Perm I') (he : sameEnt ent ys I I') (cats : List String)
    (p : FDTParams K) (xm : Dict String (Dict String (ι → K))) :
    ∀ (fuel depth : Nat) (heap heap' : IgnHeap K) (cur cur' : BNode C K) (ign : Dict String Nat) (fd : Dict String (List String)),
      List.Forall₂ (RowRel I I') heap heap' → RowRel I I' cur.mu cur'.mu → RefsIn ign heap.length →
      cur.test = cur'.test → cur.classValue = cur'.classValue → cur.children.map bNoMu = cur'.children.map bNoMu →
      PyRel (OutRel I I' heap.length) (bPartialFit ent cats p (liftMemb I xm) (I.map ys) fuel depth heap cur ign fd)
        (bPartialFit ent cats p (liftMemb I' xm) (I'.map ys) fuel depth heap' cur' ign fd) := by
  intro fuel
  induction fuel with
  | zero => intro depth heap heap' cur cur' ign fd _ _ _ _ _ _; exact .error _
  | succ fuel ih =>
    intro depth heap heap' cur cur' ign fd hh hmu hi ht hc hch
    simp only [bPartialFit]
    refine (bMaxGain_perm hp he cats xm hmu hi hh fd).bind ?_
    rintro ⟨best, heap1⟩ ⟨best', heap1'⟩ ⟨s1, s2, s3⟩
    dsimp only at s1 s2 s3 ⊢
    have hmask : (maskedY cur.mu (I.map ys)).Perm (maskedY cur'.mu (I'.map ys)) := by
      obtain ⟨m, e1, e2⟩ := hmu
      rw [e1, e2]
      exact maskedY_perm hp m ys
    have hstop : PyRel (OutRel I I' heap.length)
        (do let cv ← classValueOf cur.mu (I.map ys); pure (BNode.mk cur.test depth cur.mu true (some cv) cur.children, heap1))
        (do let cv ← classValueOf cur'.mu (I'.map ys); pure (BNode.mk cur'.test depth cur'.mu true (some cv) cur'.children, heap1')) := by
      refine (PyRel.of_eq (classValueOf_rel hp hmu ys)).bind ?_
      rintro cv _ rfl
      exact .ok ⟨s1, by simp only [bNoMu, bNoMuList_eq_map, ht, hch], s3⟩
    cases best with
    | none =>
      cases best' with
      | some b' => exact absurd s2 (by simp [BestRel])
      | none =>
        dsimp only
        have hst := stopMet_perm p 0 hmask depth
        by_cases hs : stopMet p 0 (maskedY cur.mu (I.map ys)) depth = true
        · have hs' := hst ▸ hs
          rw [if_pos hs, if_pos hs']
          exact hstop
        · have hs' := hst ▸ hs
          rw [if_neg hs, if_neg hs']
          exact .error _
    | some b =>
      cases best' with
      | none => exact absurd s2 (by simp [BestRel])
      | some b' =>
        obtain ⟨q1, q2, q3, q4, q5, q6, q7, q8⟩ := s2
        dsimp only
        have hst : stopMet p b.gain (maskedY cur.mu (I.map ys)) depth = stopMet p b'.gain (maskedY cur'.mu (I'.map ys)) depth := by
          rw [q2, stopMet_perm p _ hmask]
        by_cases hs : stopMet p b.gain (maskedY cur.mu (I.map ys)) depth = true
        · have hs' := hst ▸ hs
          rw [if_pos hs, if_pos hs']
          exact hstop
        · have hs' := hst ▸ hs
          rw [if_neg hs, if_neg hs', ← q1, ← q3, ← q4]
          have hrec : ∀ (heap heap' : IgnHeap K) (t : Option (BTest K)) (m m' : List K) (ign : Dict String Nat) (fd : Dict String (List String)),
              List.Forall₂ (RowRel I I') heap heap' → RowRel I I' m m' → RefsIn ign heap.length →
              PyRel (OutRel I I' heap.length) (bPartialFit ent cats p (liftMemb I xm) (I.map ys) fuel (depth + 1) heap (.fresh t m) ign fd)
                (bPartialFit ent cats p (liftMemb I' xm) (I'.map ys) fuel (depth + 1) heap' (.fresh t m') ign fd) :=
            fun heap heap' t m m' ign fd a1 a2 a3 => ih (depth + 1) heap heap' _ _ ign fd a1 a2 a3 rfl rfl rfl
          refine PyRel.bind (R := OutRel I I' heap1.length) (bFitChild_perm p hp hrec hmu q5 fd b.att b.split.1 s3 (fun f r h => lt_of_lt_of_le (hi f r h) s1) q7) ?_
          rintro ⟨l, heap2⟩ ⟨l', heap2'⟩ ⟨l1, l2, l3⟩
          dsimp only at l1 l2 l3 ⊢
          refine PyRel.bind (R := OutRel I I' heap2.length) (bFitChild_perm p hp hrec hmu q6 fd b.att b.split.2 l3 (fun f r h => lt_of_lt_of_le (hi f r h) (s1.trans l1))
            (lt_of_lt_of_le q8 l1)) ?_
          rintro ⟨r, heap3⟩ ⟨r', heap3'⟩ ⟨r1, r2, r3⟩
          dsimp only at r1 r2 r3 ⊢
          exact .ok ⟨s1.trans (l1.trans r1), by simp only [bNoMu, bNoMuList_eq_map, ht, hc, List.map_append, hch, List.map_cons, l2, r2], r3⟩

end permB

section rowsB
variable {C K : Type} [Field K] [LinearOrder K] [IsStrictOrderedRing K] [LinearOrder C]

theorem fbdtFit_perm [NanSort K] {ent : List K → List C → K} (hE : Spec.RowOrderFree ent) (p : FDTParams K)
    (root : BNode C K) {D D' : List (List (Cell K) × C)} (hp : D.Perm D') {t : BNode C K}
    (h : fbdtFit ent p root (D.map Prod.fst) (D.map Prod.snd) = .ok t) :
    ∃ t', fbdtFit ent p root (D'.map Prod.fst) (D'.map Prod.snd) = .ok t' ∧ bNoMu t' = bNoMu t := by
  unfold fbdtFit at h ⊢
  rw [py_bind_eq_ok] at h
  obtain ⟨cats, hcats, h⟩ := h
  rw [hcats, py_bind_ok]
  rw [py_bind_eq_ok] at h
  obtain ⟨u, hu, h⟩ := h
  cases u
  rw [checkArray_perm (hp.map Prod.fst) hu, py_bind_ok]
  simp only [List.length_map, ne_eq, not_true_eq_false, if_false] at h ⊢
  rw [py_bind_eq_ok] at h
  obtain ⟨Xm, hX, h⟩ := h
  have hR := (checkArray_ok_iff _).mp hu
  have hR' := (checkArray_ok_iff _).mp (checkArray_perm (hp.map Prod.fst) hu)
  rw [(datasetMembership_eq _ _).1 hR] at hX
  obtain ⟨xm, hxm⟩ := dsmFrom_as_map p.vars 0 [] Xm hX
  have h1 : Xm = liftMemb D xm := by
    have := hxm D (.refl _)
    exact Except.ok.inj (hX.symm.trans this)
  rw [(datasetMembership_eq _ _).1 hR']
  rw [show datasetMembershipFrom (D'.map Prod.fst) 0 [] p.vars = .ok (liftMemb D' xm) from hxm D' hp, py_bind_ok]
  subst h1
  rw [List.map_map] at h ⊢
  have := bPartialFit_perm hp (sameEnt_of_perm hE Prod.snd hp) cats p xm (p.maxDepth + 1) 0 [] []
    (.mk root.test root.level (D.map ((fun _ => 1) ∘ Prod.snd)) root.isLeaf root.classValue root.children)
    (.mk root.test root.level (D'.map ((fun _ => 1) ∘ Prod.snd)) root.isLeaf root.classValue root.children)
    [] (setNames p.vars) .nil ⟨_, rfl, rfl⟩ (fun f r h => by cases h) rfl rfl rfl
  rw [py_bind_eq_ok] at h
  obtain ⟨⟨t0, hp0⟩, e0, h⟩ := h
  rcases this with ⟨e, e1, _⟩ | ⟨a, a', e1, e2, _, e4, _⟩
  · rw [e1] at e0; cases e0
  · rw [e1] at e0
    cases e0
    rw [e2, py_bind_ok]
    cases h
    exact ⟨a'.1, rfl, e4.symm⟩

theorem bPartialPredict_noMu (T : K → K → K) (X : List (List (Cell K))) (t : BNode C K) :
    ∀ mu, bPartialPredict T X mu (bNoMu t) = bPartialPredict T X mu t := by
  induction t using BNode.induction with
  | h test level m isLeaf cv children ih =>
    intro mu
    have hl : ∀ (cs : List (BNode C K)), (∀ c ∈ cs, ∀ mu, bPartialPredict T X mu (bNoMu c) = bPartialPredict T X mu c) → ∀ mu,
        bPartialPredictList T X mu (bNoMuList cs) = bPartialPredictList T X mu cs := by
      intro cs
      induction cs with
      | nil => intro _ mu; rw [bNoMuList]
      | cons c cs ihc =>
        intro hc mu
        rw [bNoMuList]
        simp only [bPartialPredictList]
        rw [hc c (by simp), ihc (fun c' h' => hc c' (by simp [h']))]
    rw [bNoMu]
    simp only [bPartialPredict]
    congr 1
    funext newMu
    split
    · rfl
    · cases children with
      | nil => rw [bNoMuList]
      | cons c cs =>
        rw [bNoMuList]
        dsimp only
        rw [ih c (by simp), hl cs (fun c' h' => ih c' (by simp [h']))]

theorem bGetRules_noMu (th : K) (t : BNode C K) : ∀ rule, bGetRules th rule (bNoMu t) = bGetRules th rule t := by
  induction t using BNode.induction with
  | h test level m isLeaf cv children ih =>
    intro rule
    have hl : ∀ (cs : List (BNode C K)), (∀ c ∈ cs, ∀ rule, bGetRules th rule (bNoMu c) = bGetRules th rule c) → ∀ rule,
        bGetRulesList th rule (bNoMuList cs) = bGetRulesList th rule cs := by
      intro cs
      induction cs with
      | nil => intro _ mu; rw [bNoMuList]
      | cons c cs ihc =>
        intro hc mu
        rw [bNoMuList]
        simp only [bGetRulesList]
        rw [hc c (by simp), ihc (fun c' h' => hc c' (by simp [h']))]
    rw [bNoMu]
    simp only [bGetRules]
    congr 1
    funext newRule
    split
    · rfl
    · rw [hl children ih]

theorem bStr_noMu (showCV : Option (Dict C K) → String) (t : BNode C K) : BNode.str showCV (bNoMu t) = BNode.str showCV t := by
  induction t using BNode.induction with
  | h test level m isLeaf cv children ih =>
    have hl : ∀ (cs : List (BNode C K)), (∀ c ∈ cs, BNode.str showCV (bNoMu c) = BNode.str showCV c) →
        BNode.strList showCV (bNoMuList cs) = BNode.strList showCV cs := by
      intro cs
      induction cs with
      | nil => intro _; rw [bNoMuList]
      | cons c cs ihc =>
        intro hc
        rw [bNoMuList]
        simp only [BNode.strList]
        rw [hc c (by simp), ihc (fun c' h' => hc c' (by simp [h']))]
    rw [bNoMu]
    simp only [BNode.str]
    rw [hl children ih]

/-- a binary tree seen from outside: predictions for every table, every t-norm and voting method, scores, rules and the printed text. -/
structure Spec.SameBTree (t t' : BNode C K) : Prop where
  predict : ∀ (T : K → K → K) (v : Voting) (Z : List (List (Cell K))), fbdtPredict T v t' Z = fbdtPredict T v t Z
  score : ∀ (T : K → K → K) (v : Voting) (Z : List (List (Cell K))) (w : List C), fbdtScore T v t' Z w = fbdtScore T v t Z w
  rules : ∀ (th : K) (simplify : Bool), t'.toRules th simplify = t.toRules th simplify
  text : ∀ showCV : Option (Dict C K) → String, BNode.str showCV t' = BNode.str showCV t

theorem sameBTree_of_noMu {t t' : BNode C K} (h : bNoMu t' = bNoMu t) : Spec.SameBTree t t' := by
  have hp : ∀ (T : K → K → K) (v : Voting) (Z : List (List (Cell K))), fbdtPredict T v t' Z = fbdtPredict T v t Z := by
    intro T v Z
    unfold fbdtPredict BNode.predict
    rw [← bPartialPredict_noMu T Z t', h, bPartialPredict_noMu]
  refine ⟨hp, ?_, ?_, ?_⟩
  · intro T v Z w
    unfold fbdtScore
    rw [hp]
  · intro th _
    unfold BNode.toRules
    rw [← bGetRules_noMu th t', h, bGetRules_noMu]
  · intro showCV
    rw [← bStr_noMu showCV t', h, bStr_noMu]

/-- **C157** for binary trees: fitting to the same labelled rows in any other order succeeds as well and gives a tree with the same predictions,
scores, rules and printed text. -/
theorem C157_fbdt [NanSort K] {ent : List K → List C → K} (hE : Spec.RowOrderFree ent) (p : FDTParams K)
    (root : BNode C K) (X X' : List (List (Cell K))) (y y' : List C) (hl : X.length = y.length) (hl' : X'.length = y'.length)
    (hp : (X.zip y).Perm (X'.zip y')) {t : BNode C K} (h : fbdtFit ent p root X y = .ok t) :
    ∃ t', fbdtFit ent p root X' y' = .ok t' ∧ Spec.SameBTree t t' := by
  have e1 : (X.zip y).map Prod.fst = X := List.map_fst_zip (by omega)
  have e2 : (X.zip y).map Prod.snd = y := List.map_snd_zip (by omega)
  have e1' : (X'.zip y').map Prod.fst = X' := List.map_fst_zip (by omega)
  have e2' : (X'.zip y').map Prod.snd = y' := List.map_snd_zip (by omega)
  obtain ⟨t', h1, h2⟩ := fbdtFit_perm hE p root hp (t := t) (by rw [e1, e2]; exact h)
  rw [e1', e2'] at h1
  exact ⟨t', h1, sameBTree_of_noMu h2⟩

end rowsB

/-- the example table of the binary trees with its rows reversed. -/
example : ∃ t t', fbdtFit exEnt exBParams fbdtNew exBX exBY = .ok t ∧ t.isLeaf = false ∧
    fbdtFit exEnt exBParams fbdtNew exBX.reverse exBY.reverse = .ok t' ∧ Spec.SameBTree t t' := by
  have h : ((fbdtFit exEnt exBParams fbdtNew exBX exBY).toOption).map (fun t => t.isLeaf) = some false := by decide +kernel
  cases e : fbdtFit exEnt exBParams fbdtNew exBX exBY with
  | error _ => rw [e] at h; simp [Except.toOption] at h
  | ok t =>
    rw [e] at h
    obtain ⟨t', h1, h2⟩ := C157_fbdt exEnt_rowOrderFree exBParams fbdtNew exBX exBX.reverse exBY exBY.reverse rfl rfl
      (by rw [show exBX.reverse.zip exBY.reverse = (exBX.zip exBY).reverse by decide +kernel]; exact (List.reverse_perm _).symm) e
    exact ⟨t, t', rfl, by simpa [Except.toOption] using h, h1, h2⟩

end Teacher
