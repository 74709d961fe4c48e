import Verif.Model.RoundedB
import Verif.Lemmas.FBDTFit
import Verif.Props.RoundedFit
import Verif.Props.FBDTFit

/-! Lemmas about the trees grown by `FBDT.fit` in floating point: as `Lemmas/FBDTFit`, directly on the heap of the arrays `ignored`. -/

set_option linter.unusedSectionVars false

namespace Teacher.FB

open Teacher Spec

variable {C K : Type} [Field K] [LinearOrder K] [IsStrictOrderedRing K] {A : Arith K}

theorem sumSetsF_length {Xm : Dict String (Dict String (List K))} {n : Nat} (hX : Table Xm n) (f : String) (sets : List String)
    (m : List K) (h : sumSetsF A Xm n f sets = .ok m) : m.length = n := by
  unfold sumSetsF at h
  have gen : ∀ (sets : List String) (acc m : List K), acc.length = n → sets.foldlM (fun acc s => do
      let d ← Dict.get Xm f
      let m ← Dict.get d s
      pure (List.zipWith (fun a b => A.fl (a + b)) acc m)) acc = (.ok m : Py (List K)) → m.length = n := by
    intro sets
    induction sets with
    | nil => intro acc m hacc h; simp only [List.foldlM_nil, py_pure, Except.ok.injEq] at h; rw [← h]; exact hacc
    | cons s sets ih =>
      intro acc m hacc h
      rw [List.foldlM_cons] at h
      obtain ⟨acc', h1, h2⟩ := py_bind_eq_ok.1 h
      obtain ⟨d, hd, h3⟩ := py_bind_eq_ok.1 h1
      obtain ⟨w, hw, h4⟩ := py_bind_eq_ok.1 h3
      cases h4
      refine ih _ _ ?_ h2
      have := hX f d (Dict.get_eq_ok_iff.1 hd) s w (Dict.get_eq_ok_iff.1 hw)
      simp [hacc, this]
  exact gen sets _ m (by simp) h

/-- the training memberships of one side of a split, when the features `used` were split on before: the sum of its sets, or 1 for the
examples ignored for this feature. -/
def SideMemF (A : Arith K) (Xm : Dict String (Dict String (List K))) (n : Nat) (used : List String) (att : String) (sets : List String)
    (m : List K) : Prop :=
  ∃ s, sumSetsF A Xm n att sets = .ok s ∧ ((att ∉ used ∧ m = s) ∨ (att ∈ used ∧ ∃ a, Flags n a ∧ m = List.zipWith max s a))

theorem mem_binaryPartitionsF [NanSort K] {cats : List String} {Xm : Dict String (Dict String (List K))} {pos : List Bool}
    {fd : Dict String (List String)} {parts : List BPart} (h : binaryPartitionsF A cats Xm pos fd = .ok parts) (q : BPart) :
    q ∈ parts ↔ ∃ f sets s, (f, sets) ∈ fd ∧ featureOrderF A cats Xm pos f sets = .ok s ∧ q ∈ cuts f s := by
  obtain ⟨l, h1, h2⟩ := py_bind_eq_ok.1 h
  cases h2
  rw [mapM_ok_iff] at h1
  constructor
  · intro hq
    obtain ⟨c, hc, hqc⟩ := List.mem_flatten.1 hq
    obtain ⟨p, hp, hr⟩ := forall₂_mem_right h1 c hc
    obtain ⟨s, hs, hs'⟩ := py_bind_eq_ok.1 hr
    cases hs'
    exact ⟨p.1, p.2, s, hp, hs, hqc⟩
  · rintro ⟨f, sets, s, hm, hs, hq⟩
    obtain ⟨c, hc, hr⟩ := forall₂_mem_left h1 _ hm
    obtain ⟨s', hs', hs''⟩ := py_bind_eq_ok.1 hr
    cases hs''
    simp only at hs'
    rw [hs] at hs'; cases hs'
    exact List.mem_flatten.2 ⟨_, hc, hq⟩

theorem featureOrderF_perm [NanSort K] {cats : List String} {Xm : Dict String (Dict String (List K))} {pos : List Bool} {f : String}
    {sets s : List String} (h : featureOrderF A cats Xm pos f sets = .ok s) : s.Perm sets := by
  unfold featureOrderF at h
  split at h
  · obtain ⟨l, hl, h1⟩ := py_bind_eq_ok.1 h
    cases h1
    rw [mapM_ok_iff] at hl
    have : l.map Prod.fst = sets := by
      clear h
      induction hl with
      | nil => rfl
      | cons h _ ih =>
        obtain ⟨d, -, h⟩ := py_bind_eq_ok.1 h
        obtain ⟨m, -, h⟩ := py_bind_eq_ok.1 h
        cases h
        rw [List.map_cons, ih]
    rw [← this]
    exact (sortShares_perm l).map _
  · cases h; exact List.Perm.refl _

/-- a candidate split is a bipartition of the sets left of its feature. -/
theorem partF_bipartition [NanSort K] {cats : List String} {Xm : Dict String (Dict String (List K))} {pos : List Bool}
    {fd : Dict String (List String)} (hnd : (Dict.keys fd).Nodup) {parts : List BPart}
    (h : binaryPartitionsF A cats Xm pos fd = .ok parts) {q : BPart} (hq : q ∈ parts) :
    ∃ sets, Dict.get? fd q.1 = some sets ∧ q.2.1 ≠ [] ∧ q.2.2 ≠ [] ∧ (q.2.1 ++ q.2.2).Perm sets := by
  obtain ⟨f, sets, s, h1, h2, h3⟩ := (mem_binaryPartitionsF h q).1 hq
  obtain ⟨rfl, h4, h5, h6⟩ := mem_cuts_iff.1 h3
  exact ⟨sets, Dict.get?_of_mem_nodup hnd h1, h4, h5, h6 ▸ featureOrderF_perm h2⟩

/-! ### the arrays `ignored` -/

/-- every array is an array of flags, the references are valid, and there is one for each feature used. -/
def HeapOk (n : Nat) (used : List String) (ign : Dict String Nat) (heap : IgnHeap K) : Prop :=
  (∀ a ∈ heap, Flags n a) ∧ (∀ f r, Dict.get? ign f = some r → r < heap.length) ∧ ∀ f, Dict.get? ign f = none ↔ f ∉ used

theorem getD_flags {n : Nat} {heap : IgnHeap K} (h : ∀ a ∈ heap, Flags n a) {r : Nat} (hr : r < heap.length) : Flags n (heap.getD r []) := by
  rw [List.getD_eq_getElem?_getD, List.getElem?_eq_getElem hr]
  exact h _ (List.getElem_mem hr)

theorem HeapOk.grow {n : Nat} {used : List String} {ign : Dict String Nat} {heap heap' : IgnHeap K} (h : HeapOk n used ign heap)
    (hf : ∀ a ∈ heap', Flags n a) (hl : heap.length ≤ heap'.length) : HeapOk n used ign heap' :=
  ⟨hf, fun f r hr => lt_of_lt_of_le (h.2.1 f r hr) hl, h.2.2⟩

theorem evalSideF_spec {Xm : Dict String (Dict String (List K))} {n : Nat} (hX : Table Xm n) {used : List String}
    {ign : Dict String Nat} {heap : IgnHeap K} (hf : HeapOk n used ign heap) {att : String} {sets : List String} {s : List K}
    (hs : sumSetsF A Xm n att sets = .ok s) :
    SideMemF A Xm n used att sets (evalSide n ign heap att s).1 ∧
      (evalSide n ign heap att s).2.1 < (evalSide n ign heap att s).2.2.length ∧
      HeapOk n used ign (evalSide n ign heap att s).2.2 ∧ heap.length ≤ (evalSide n ign heap att s).2.2.length := by
  have hl := sumSetsF_length hX att sets s hs
  unfold evalSide
  cases h : Dict.get? ign att with
  | none =>
    refine ⟨⟨s, hs, .inl ⟨(hf.2.2 att).1 h, rfl⟩⟩, by simp, hf.grow ?_ (by simp), by simp⟩
    intro a ha
    rcases List.mem_append.1 ha with ha | ha
    · exact hf.1 a ha
    · rw [List.mem_singleton.1 ha]
      exact flags_mark hl (flags_zero n)
  | some r =>
    have hr := hf.2.1 att r h
    have ha := getD_flags hf.1 hr
    have hu : att ∈ used := by
      by_contra hc
      rw [(hf.2.2 att).2 hc] at h; cases h
    have hm : (List.zipWith max s (heap.getD r [])).length = n := by rw [List.length_zipWith, hl, ha.len, min_self]
    refine ⟨⟨s, hs, .inr ⟨hu, _, ha, rfl⟩⟩, by simpa using hr, hf.grow ?_ (by simp), by simp⟩
    intro a hmem
    rcases List.mem_or_eq_of_mem_set hmem with h1 | h1
    · exact hf.1 a h1
    · rw [h1]; exact flags_mark hm ha

theorem updateIgnored_spec {n : Nat} {used : List String} {ign : Dict String Nat} {heap : IgnHeap K} (hf : HeapOk n used ign heap)
    {att : String} {ref : Nat} (hr : ref < heap.length) :
    HeapOk n (att :: used) (updateIgnored ign heap att ref).1 (updateIgnored ign heap att ref).2 ∧
      heap.length ≤ (updateIgnored ign heap att ref).2.length := by
  have hkey : ∀ (v : Nat) (f : String), Dict.get? (Dict.set ign att v) f = none ↔ f ∉ att :: used := by
    intro v f
    rw [Dict.get?_set]
    split
    · rename_i e; simp [e]
    · rename_i e
      rw [hf.2.2 f]
      have e' : f ≠ att := fun x => e x.symm
      simp [e']
  unfold updateIgnored
  cases h : Dict.get? ign att with
  | none =>
    refine ⟨⟨hf.1, ?_, hkey ref⟩, le_refl _⟩
    intro f r hfr
    rw [Dict.get?_set] at hfr
    split at hfr
    · cases hfr; exact hr
    · exact hf.2.1 f r hfr
  | some r =>
    refine ⟨⟨?_, ?_, hkey _⟩, by simp⟩
    · intro a ha
      rcases List.mem_append.1 ha with ha | ha
      · exact hf.1 a ha
      · rw [List.mem_singleton.1 ha]
        exact flags_max (getD_flags hf.1 (hf.2.1 att r h)) (getD_flags hf.1 hr)
    · intro f r' hfr
      rw [Dict.get?_set] at hfr
      rw [List.length_append, List.length_singleton]
      split at hfr
      · cases hfr; omega
      · have := hf.2.1 f r' hfr; omega

/-- what is known of the best candidate. -/
def BestOkF (A : Arith K) (Xm : Dict String (Dict String (List K))) (n : Nat) (used : List String) (mu : List K) (parts : List BPart)
    (heap : IgnHeap K) (b : BBest K Nat) : Prop :=
  0 < b.gain ∧ (b.att, b.split) ∈ parts ∧ b.ignored.1 < heap.length ∧ b.ignored.2 < heap.length ∧
    ∃ ml mr, SideMemF A Xm n used b.att b.split.1 ml ∧
    SideMemF A Xm n used b.att b.split.2 mr ∧ b.mus = (List.zipWith min mu ml, List.zipWith min mu mr)

theorem evalPartF_ok {ent : List K → List C → K} {Xm : Dict String (Dict String (List K))} {y : List C} (hX : Table Xm y.length)
    {used : List String} {mu : List K} {parts : List BPart} {ign : Dict String Nat} {q : BPart} (hq : q ∈ parts)
    {L : Nat} {st st' : Option (BBest K Nat) × IgnHeap K}
    (hst : HeapOk y.length used ign st.2 ∧ L ≤ st.2.length ∧ ∀ b, st.1 = some b → BestOkF A Xm y.length used mu parts st.2 b)
    (h : evalPartF A ent Xm y mu ign st q = .ok st') :
    HeapOk y.length used ign st'.2 ∧ L ≤ st'.2.length ∧ ∀ b, st'.1 = some b → BestOkF A Xm y.length used mu parts st'.2 b := by
  obtain ⟨lm, hl, h1⟩ := py_bind_eq_ok.1 h
  obtain ⟨rm, hr, h2⟩ := py_bind_eq_ok.1 h1
  obtain ⟨g, hg, h3⟩ := py_bind_eq_ok.1 h2
  obtain ⟨l1, l2, l3, l4⟩ := evalSideF_spec hX hst.1 hl
  obtain ⟨r1, r2, r3, r4⟩ := evalSideF_spec hX l3 hr
  cases h3
  refine ⟨r3, by simp only; have := hst.2.1; omega, ?_⟩
  intro b hb
  simp only at hb ⊢
  split_ifs at hb with hgain
  · cases hb
    refine ⟨?_, hq, lt_of_lt_of_le l2 r4, r2, _, _, l1, r1, rfl⟩
    cases hs : st.1 with
    | none => rw [hs] at hgain; exact hgain
    | some b => rw [hs] at hgain; exact lt_trans (hst.2.2 b hs).1 hgain
  · obtain ⟨b1, b2, b3, b4, b5⟩ := hst.2.2 b hb
    exact ⟨b1, b2, by omega, by omega, b5⟩


variable [LinearOrder C]

/-- shape of the trees grown from a node with memberships `mu` under a parent with memberships `pmu`, when the sets left are `fd`. -/
inductive BGrownF (A : Arith K) (p : FDTParams K) (Xm : Dict String (Dict String (List K))) (y : List C) :
    List String → List K → List K → Dict String (List String) → Nat → BNode C K → Prop where
  | empty (used pmu mu fd d test cv) (hp : 0 < A.sum pmu) (hz : ¬ 0 < A.sum mu) (hcv : classValueOfF A pmu y = .ok cv) :
      BGrownF A p Xm y used pmu mu fd d (.mk test (-1) mu true (some cv) [])
  | leaf (used : List String) (pmu mu : List K) (fd) (d : Nat) (test cv) (hp : 0 < A.sum mu) (hcv : classValueOfF A mu y = .ok cv) :
      BGrownF A p Xm y used pmu mu fd d (.mk test d mu true (some cv) [])
  | split (used : List String) (pmu mu : List K) (fd) (d : Nat) (test cv att sets sl sr tl tr ml mr l r) (hd : d < p.maxDepth)
      (hp : 0 < A.sum mu) (hsets : Dict.get? fd att = some sets) (hsl : sl ≠ []) (hsr : sr ≠ []) (hperm : (sl ++ sr).Perm sets)
      (htl : childTest p att sl = .ok tl) (htr : childTest p att sr = .ok tr) (hml : SideMemF A Xm y.length used att sl ml)
      (hmr : SideMemF A Xm y.length used att sr mr) (hl : l.test = some tl) (hr : r.test = some tr)
      (gl : BGrownF A p Xm y (att :: used) mu (List.zipWith min mu ml) (Dict.set fd att (sets.filter (fun x => x ∈ sl))) (d + 1) l)
      (gr : BGrownF A p Xm y (att :: used) mu (List.zipWith min mu mr) (Dict.set fd att (sets.filter (fun x => x ∈ sr))) (d + 1) r) :
      BGrownF A p Xm y used pmu mu fd d (.mk test d mu false cv [l, r])

theorem bMaxGainF_ok [NanSort K] {ent : List K → List C → K} {cats : List String} {Xm : Dict String (Dict String (List K))} {y : List C}
    (hX : Table Xm y.length) {used : List String} {mu : List K} {ign : Dict String Nat} {heap heap' : IgnHeap K}
    (hf : HeapOk y.length used ign heap) {fd : Dict String (List String)} {best : Option (BBest K Nat)}
    (h : bMaxGainF A ent cats Xm y mu ign fd heap = .ok (best, heap')) :
    ∃ c0 parts, (npUnique y)[0]? = some c0 ∧ binaryPartitionsF A cats Xm (y.map (fun c => decide (c = c0))) fd = .ok parts ∧
      HeapOk y.length used ign heap' ∧ heap.length ≤ heap'.length ∧ ∀ b, best = some b → BestOkF A Xm y.length used mu parts heap' b := by
  unfold bMaxGainF at h
  cases hc : (npUnique y)[0]? with
  | none => rw [hc] at h; cases h
  | some c0 =>
    rw [hc] at h
    obtain ⟨parts, hp, h1⟩ := py_bind_eq_ok.1 h
    refine ⟨c0, parts, rfl, hp, ?_⟩
    exact foldlM_inv (fun st : Option (BBest K Nat) × IgnHeap K => HeapOk y.length used ign st.2 ∧ heap.length ≤ st.2.length ∧
      ∀ b, st.1 = some b → BestOkF A Xm y.length used mu parts st.2 b) parts (fun q hq _ _ hst h => evalPartF_ok hX hq hst h) _ _
      ⟨hf, le_refl _, fun b hb => by cases hb⟩ h1

theorem growF_grown [NanSort K] {ent : List K → List C → K} {cats : List String} {p : FDTParams K}
    {Xm : Dict String (Dict String (List K))} {y : List C} (hX : Table Xm y.length) (fuel : Nat) :
    ∀ (depth : Nat) (heap : IgnHeap K) (cur : BNode C K) (ign : Dict String Nat) (fd : Dict String (List String)) (t : BNode C K)
    (heap' : IgnHeap K) (used : List String) (pmu : List K),
    HeapOk y.length used ign heap → (Dict.keys fd).Nodup → cur.children = [] → 0 < A.sum cur.mu →
    bPartialFitF A ent cats p Xm y fuel depth heap cur ign fd = .ok (t, heap') →
    BGrownF A p Xm y used pmu cur.mu fd depth t ∧ t.test = cur.test ∧ (∀ a ∈ heap', Flags y.length a) ∧ heap.length ≤ heap'.length := by
  induction fuel with
  | zero => intro _ _ _ _ _ _ _ _ _ _ _ _ _ h; cases h
  | succ fuel ih =>
    intro depth heap cur ign fd t heap' used pmu hf hnd hch hpos h
    rw [bPartialFitF] at h
    obtain ⟨⟨best, heap1⟩, hm, h1⟩ := py_bind_eq_ok.1 h
    obtain ⟨c0, parts, hc0, hparts, hf', hlen1, hbest⟩ := bMaxGainF_ok hX hf hm
    simp only at h1
    split_ifs at h1 with hstop
    · obtain ⟨cv, hcv, h2⟩ := py_bind_eq_ok.1 h1
      cases h2
      rw [hch]
      exact ⟨.leaf _ _ _ _ _ _ _ hpos hcv, rfl, hf'.1, hlen1⟩
    · have hd : depth < p.maxDepth := by
        by_contra hc
        apply hstop
        simp only [stopMet, Bool.or_eq_true, decide_eq_true_eq]
        exact .inl (.inr (not_lt.1 hc))
      cases best with
      | none => cases h1
      | some b =>
        obtain ⟨-, hpart, fl, fr, ml, mr, hml, hmr, hmus⟩ := hbest b rfl
        simp only at h1
        obtain ⟨⟨l, heap2⟩, hl, h2⟩ := py_bind_eq_ok.1 h1
        simp only at h2
        obtain ⟨⟨r, heap3⟩, hr, h3⟩ := py_bind_eq_ok.1 h2
        cases h3
        obtain ⟨sets, hsets, hsl, hsr, hperm⟩ := partF_bipartition hnd hparts hpart
        simp only at hsets hsl hsr hperm
        rw [hmus] at hl hr
        have hchild : ∀ (s : List String) (m : List K) (ref : Nat) (hp hp' : IgnHeap K) (c : BNode C K),
            HeapOk y.length used ign hp → ref < hp.length →
            bFitChildF A (bPartialFitF A ent cats p Xm y fuel (depth + 1)) p y cur.mu ign fd b.att s m ref hp = .ok (c, hp') →
            ∃ tc, childTest p b.att s = .ok tc ∧ c.test = some tc ∧
              BGrownF A p Xm y (b.att :: used) cur.mu m (Dict.set fd b.att (sets.filter (fun x => x ∈ s))) (depth + 1) c ∧
              (∀ a ∈ hp', Flags y.length a) ∧ hp.length ≤ hp'.length := by
          intro s m ref hp hp' c hpo href hc
          unfold bFitChildF at hc
          obtain ⟨tc, htc, hc1⟩ := py_bind_eq_ok.1 hc
          simp only at hc1
          obtain ⟨fd', hfd, hc2⟩ := py_bind_eq_ok.1 hc1
          have hfd' : fd' = Dict.set fd b.att (sets.filter (fun x => x ∈ s)) := by
            unfold restrictDict at hfd
            rw [Dict.get_eq_ok_iff.2 hsets, py_bind_ok] at hfd
            cases hfd; rfl
          subst hfd'
          obtain ⟨u1, u2⟩ := updateIgnored_spec hpo href (att := b.att)
          split at hc2
          · rename_i hp1
            obtain ⟨g1, g2, g3, g4⟩ := ih (depth + 1) _ (.fresh (some tc) m) _ _ c hp' (b.att :: used) cur.mu u1 (Dict.nodup_keys_set _ _ _ hnd) rfl hp1 hc2
            exact ⟨tc, htc, g2, g1, g3, by omega⟩
          · rename_i hz
            obtain ⟨cv, hcv, hc3⟩ := py_bind_eq_ok.1 hc2
            cases hc3
            exact ⟨tc, htc, rfl, .empty _ _ _ _ _ _ _ hpos hz hcv, u1.1, u2⟩
        obtain ⟨tl, htl, hlt, gl, l1, l2⟩ := hchild _ _ _ _ _ l hf' fl hl
        obtain ⟨tr, htr, hrt, gr, r1, r2⟩ := hchild _ _ _ _ _ r (hf'.grow l1 l2) (lt_of_lt_of_le fr l2) hr
        rw [hch]
        exact ⟨.split _ _ _ _ _ _ _ b.att sets b.split.1 b.split.2 tl tr ml mr l r hd hpos hsets hsl hsr hperm htl htr hml hmr hlt hrt gl gr,
          rfl, r1, hlen1.trans (l2.trans r2)⟩


/-- the tests on a path below a node with memberships `mu`, depth `d` and sets left `fd`, and the same data at the end of the path. -/
inductive BTraceF (A : Arith K) (p : FDTParams K) (Xm : Dict String (Dict String (List K))) (n : Nat) :
    List String → List K → Dict String (List String) → Nat → List (BTest K) → List K → Dict String (List String) → Nat → Prop where
  | nil (used mu fd d) : BTraceF A p Xm n used mu fd d [] mu fd d
  | cons (used mu fd d t att sets s m ts mu' fd' d') (hd : d < p.maxDepth) (hsets : Dict.get? fd att = some sets) (hs : s ≠ [])
      (hsub : s.Subperm sets) (ht : childTest p att s = .ok t) (hm : SideMemF A Xm n used att s m)
      (h : BTraceF A p Xm n (att :: used) (List.zipWith min mu m) (Dict.set fd att (sets.filter (fun x => x ∈ s))) (d + 1) ts mu' fd' d') :
      BTraceF A p Xm n used mu fd d (t :: ts) mu' fd' d'

/-- every node of a grown tree is grown, from the data at the end of its path; `pmu` is the data of its parent. -/
theorem BGrownF.nodes {p : FDTParams K} {Xm : Dict String (Dict String (List K))} {y : List C} {used pmu mu fd d} {t : BNode C K}
    (h : BGrownF A p Xm y used pmu mu fd d t) : ∀ q ∈ bNodePaths t, ∃ rest used' pmu' mu' fd' d', q.1 = t.test.toList ++ rest ∧
      BTraceF A p Xm y.length used mu fd d rest mu' fd' d' ∧ BGrownF A p Xm y used' pmu' mu' fd' d' q.2 ∧
      ((rest = [] ∧ pmu' = pmu) ∨ (rest ≠ [] ∧ ∃ fd'' d'', BTraceF A p Xm y.length used mu fd d rest.dropLast pmu' fd'' d'')) := by
  induction h with
  | empty used pmu mu fd d test cv hp hz hcv =>
    intro q hq
    simp only [bNodePaths, if_true, List.mem_singleton] at hq
    subst hq
    exact ⟨[], used, pmu, mu, fd, d, by simp [BNode.test], .nil _ _ _ _, .empty _ _ _ _ _ _ _ hp hz hcv, .inl ⟨rfl, rfl⟩⟩
  | leaf used pmu mu fd d test cv hp hcv =>
    intro q hq
    simp only [bNodePaths, if_true, List.mem_singleton] at hq
    subst hq
    exact ⟨[], used, pmu, mu, fd, d, by simp [BNode.test], .nil _ _ _ _, .leaf _ _ _ _ _ _ _ hp hcv, .inl ⟨rfl, rfl⟩⟩
  | split used pmu mu fd d test cv att sets sl sr tl tr ml mr l r hd hp hsets hsl hsr hperm htl htr hml hmr hl hr gl gr ihl ihr =>
    intro q hq
    simp only [bNodePaths, Bool.false_eq_true, if_false, bNodePathsList_eq, List.mem_cons, List.mem_map, List.mem_flatMap,
      List.not_mem_nil, or_false] at hq
    rcases hq with rfl | ⟨q', ⟨c, hc, hq'⟩, rfl⟩
    · exact ⟨[], used, pmu, mu, fd, d, by simp [BNode.test], .nil _ _ _ _,
        .split _ _ _ _ _ _ _ att sets sl sr tl tr ml mr l r hd hp hsets hsl hsr hperm htl htr hml hmr hl hr gl gr, .inl ⟨rfl, rfl⟩⟩
    · have key : ∀ (c : BNode C K) s tc m, c.test = some tc → s ≠ [] → s.Subperm sets → childTest p att s = .ok tc →
          SideMemF A Xm y.length used att s m →
          (∀ q ∈ bNodePaths c, ∃ rest used' pmu' mu' fd' d', q.1 = c.test.toList ++ rest ∧
            BTraceF A p Xm y.length (att :: used) (List.zipWith min mu m) (Dict.set fd att (sets.filter (fun x => x ∈ s))) (d + 1) rest mu' fd' d' ∧
            BGrownF A p Xm y used' pmu' mu' fd' d' q.2 ∧
            ((rest = [] ∧ pmu' = mu) ∨ (rest ≠ [] ∧ ∃ fd'' d'', BTraceF A p Xm y.length (att :: used) (List.zipWith min mu m)
              (Dict.set fd att (sets.filter (fun x => x ∈ s))) (d + 1) rest.dropLast pmu' fd'' d''))) →
          q' ∈ bNodePaths c → ∃ rest used' pmu' mu' fd' d', test.toList ++ q'.1 = test.toList ++ rest ∧
            BTraceF A p Xm y.length used mu fd d rest mu' fd' d' ∧ BGrownF A p Xm y used' pmu' mu' fd' d' q'.2 ∧
            ((rest = [] ∧ pmu' = pmu) ∨ (rest ≠ [] ∧ ∃ fd'' d'', BTraceF A p Xm y.length used mu fd d rest.dropLast pmu' fd'' d'')) := by
        intro c s tc m hct hs hsub htc hm ih hq'
        obtain ⟨rest, used', pmu', mu', fd', d', h1, h2, h3, h4⟩ := ih q' hq'
        rw [hct] at h1
        refine ⟨tc :: rest, used', pmu', mu', fd', d', by rw [h1]; rfl, .cons _ _ _ _ _ _ _ _ _ _ _ _ _ hd hsets hs hsub htc hm h2, h3,
          .inr ⟨by simp, ?_⟩⟩
        rcases h4 with ⟨rfl, rfl⟩ | ⟨hne, fd'', d'', h5⟩
        · exact ⟨fd, d, .nil _ _ _ _⟩
        · rw [List.dropLast_cons_of_ne_nil hne]
          exact ⟨fd'', d'', .cons _ _ _ _ _ _ _ _ _ _ _ _ _ hd hsets hs hsub htc hm h5⟩
      rcases hc with rfl | rfl
      · exact key _ sl tl ml hl hsl ((List.sublist_append_left sl sr).subperm.trans hperm.subperm) htl hml ihl hq'
      · exact key _ sr tr mr hr hsr ((List.sublist_append_right sl sr).subperm.trans hperm.subperm) htr hmr ihr hq'

theorem BTraceF.depth {p : FDTParams K} {Xm : Dict String (Dict String (List K))} {n : Nat} {used mu fd d ts mu' fd' d'}
    (h : BTraceF A p Xm n used mu fd d ts mu' fd' d') : d' = d + ts.length ∧ (ts ≠ [] → d' ≤ p.maxDepth) := by
  induction h with
  | nil => simp
  | cons used mu fd d t att sets s m ts mu' fd' d' hd _ _ _ _ _ _ ih =>
    refine ⟨by rw [ih.1, List.length_cons]; omega, fun _ => ?_⟩
    by_cases e : ts = []
    · rw [ih.1, e, List.length_nil]; omega
    · exact ih.2 e

theorem BTraceF.tests {p : FDTParams K} {Xm : Dict String (Dict String (List K))} {n : Nat} {used mu fd d ts mu' fd' d'}
    (h : BTraceF A p Xm n used mu fd d ts mu' fd' d') : ∀ t ∈ ts, p.vars[t.att]? = some t.var ∧ t.idxs ≠ [] ∧
      ∀ i ∈ t.idxs, i < t.var.sets.length := by
  induction h with
  | nil => simp
  | cons used mu fd d t att sets s m ts mu' fd' d' _ _ hs _ ht _ _ ih =>
    intro t' ht'
    rcases List.mem_cons.1 ht' with rfl | ht'
    · obtain ⟨-, h2, h3, h4, -⟩ := childTest_ok ht
      refine ⟨h2, ?_, h4⟩
      intro e
      apply hs
      have := congrArg Prod.snd h3
      simpa [bClauseOf, e] using this.symm
    · exact ih t' ht'

theorem BTraceF.names {p : FDTParams K} {Xm : Dict String (Dict String (List K))} {n : Nat} {used mu fd d ts mu' fd' d'}
    (h : BTraceF A p Xm n used mu fd d ts mu' fd' d') : ∀ t ∈ ts, Dict.get? (featuresDict p.vars) t.var.name = some t.att := by
  induction h with
  | nil => simp
  | cons used mu fd d t att sets s m ts mu' fd' d' _ _ hs _ ht _ _ ih =>
    intro t' ht'
    rcases List.mem_cons.1 ht' with rfl | ht'
    · obtain ⟨h1, h2, -, -, -⟩ := childTest_ok ht
      rw [featuresDict_name h1 h2]; exact h1
    · exact ih t' ht'

theorem BTraceF.lists {p : FDTParams K} {Xm : Dict String (Dict String (List K))} {n : Nat} {used mu fd d ts mu' fd' d'}
    (h : BTraceF A p Xm n used mu fd d ts mu' fd' d') {base : Nat → List Nat} (hl : Lists p.vars fd base) :
    Lists p.vars fd' (fun i => match ts.reverse.find? (fun t => t.att = i) with | some t => t.idxs | none => base i) := by
  induction h generalizing base with
  | nil => simpa using hl
  | cons used mu fd d t att sets s m ts mu' fd' d' _ hsets _ hsub ht _ _ ih =>
    have := ih (lists_step hl hsets hsub ht)
    refine cast ?_ this
    congr 1
    funext i
    rw [List.reverse_cons, List.find?_append]
    cases hf : ts.reverse.find? (fun t => t.att = i) with
    | some t' => simp
    | none =>
      by_cases hi : t.att = i
      · simp [hi]
      · simp [hi]

theorem sumSetsF_exists {Xm : Dict String (Dict String (List K))} (n : Nat) {f : String} {d : Dict String (List K)}
    (hd : Dict.get? Xm f = some d) (sets : List String) (h : ∀ s ∈ sets, ∃ m, Dict.get? d s = some m) :
    ∃ m, sumSetsF A Xm n f sets = .ok m := by
  unfold sumSetsF
  obtain ⟨m, h1, -⟩ := foldlM_exists (fun _ : List K => True) sets (f := fun acc s => do
      let d ← Dict.get Xm f
      let m ← Dict.get d s
      pure (List.zipWith (fun a b => A.fl (a + b)) acc m)) (by
    intro s hs acc _
    obtain ⟨m, hm⟩ := h s hs
    exact ⟨List.zipWith (fun a b => A.fl (a + b)) acc m, by rw [Dict.get_eq_ok_iff.2 hd, py_bind_ok, Dict.get_eq_ok_iff.2 hm]; rfl, trivial⟩)
    (List.replicate n 0) trivial
  exact ⟨m, h1⟩

theorem binaryPartitionsF_exists [NanSort K] {cats : List String} {vars : List (FVar K)} {Xm : Dict String (Dict String (List K))}
    {fd : Dict String (List String)} (hnd : (Dict.keys fd).Nodup) (h : FdOk vars Xm fd) (pos : List Bool) :
    ∃ parts, binaryPartitionsF A cats Xm pos fd = .ok parts := by
  unfold binaryPartitionsF
  obtain ⟨l, hl⟩ := forall₂_of_forall_exists (fun (p : String × List String) (r : List BPart) => (do
    let s ← featureOrderF A cats Xm pos p.1 p.2
    pure (cuts p.1 s)) = (.ok r : Py _)) fd (by
      intro q hq
      obtain ⟨att, sets⟩ := q
      obtain ⟨i, v, d, -, -, hd, hs⟩ := h att sets (Dict.get?_of_mem_nodup hnd hq)
      have : ∃ s, featureOrderF A cats Xm pos att sets = .ok s := by
        unfold featureOrderF
        split
        · rename_i hc
          obtain ⟨ws, hws⟩ := forall₂_of_forall_exists (fun (s : String) (r : String × Option K) =>
            positiveShareF A Xm pos att s = .ok r) sets (by
              intro s hsm
              obtain ⟨-, m, hm⟩ := hs s hsm
              unfold positiveShareF
              rw [Dict.get_eq_ok_iff.2 hd, py_bind_ok, Dict.get_eq_ok_iff.2 hm, py_bind_ok]
              exact ⟨_, rfl⟩)
          rw [(mapM_ok_iff _ _ _).2 hws, py_bind_ok]
          exact ⟨_, rfl⟩
        · exact ⟨_, rfl⟩
      obtain ⟨s, hs⟩ := this
      exact ⟨_, by rw [hs]; rfl⟩)
  rw [(mapM_ok_iff _ _ _).2 hl, py_bind_ok]
  exact ⟨_, rfl⟩

theorem evalPartF_exists {ent : List K → List C → K} {Xm : Dict String (Dict String (List K))} {y : List C} {mu : List K}
    (hmu : A.sum mu ≠ 0) {ign : Dict String Nat} {q : BPart} {d : Dict String (List K)} (hd : Dict.get? Xm q.1 = some d)
    (hl : ∀ s ∈ q.2.1 ++ q.2.2, ∃ m, Dict.get? d s = some m)
    (st : Option (BBest K Nat) × IgnHeap K) : ∃ st', evalPartF A ent Xm y mu ign st q = .ok st' := by
  obtain ⟨a, ha⟩ := sumSetsF_exists (A := A) y.length hd q.2.1 (fun s hs => hl s (by simp [hs]))
  obtain ⟨b, hb⟩ := sumSetsF_exists (A := A) y.length hd q.2.2 (fun s hs => hl s (by simp [hs]))
  unfold evalPartF splitGainOfF flDiv
  rw [ha, py_bind_ok, hb, py_bind_ok]
  simp only [if_neg hmu, py_bind_ok, py_pure]
  exact ⟨_, rfl⟩

theorem growF_exists [NanSort K] {ent : List K → List C → K} {cats : List String} {p : FDTParams K} (hth : 0 < p.fuzzyThreshold)
    {Xm : Dict String (Dict String (List K))} {y : List C} (hX : Table Xm y.length) (hy : y ≠ []) (fuel : Nat) :
    ∀ (depth : Nat) (heap : IgnHeap K) (cur : BNode C K) (used : List String) (ign : Dict String Nat) (fd : Dict String (List String)),
    p.maxDepth < fuel + depth →
    depth ≤ p.maxDepth → HeapOk y.length used ign heap → (Dict.keys fd).Nodup → FdOk p.vars Xm fd → 0 < A.sum cur.mu →
    ∃ t heap', bPartialFitF A ent cats p Xm y fuel depth heap cur ign fd = .ok (t, heap') ∧
      (∀ a ∈ heap', Flags y.length a) ∧ heap.length ≤ heap'.length := by
  induction fuel with
  | zero => intro depth _ _ _ _ _ h h'; omega
  | succ fuel ih =>
    intro depth heap cur used ign fd hfuel hdep hf hnd hok hmu
    obtain ⟨c0, hc0⟩ : ∃ c0, (npUnique y)[0]? = some c0 := by
      have : npUnique y ≠ [] := fun e => hy ((npUnique_eq_nil y).1 e)
      exact ⟨_, List.getElem?_eq_getElem (List.length_pos_iff.2 this)⟩
    obtain ⟨parts, hparts⟩ := binaryPartitionsF_exists (A := A) (cats := cats) hnd hok (y.map (fun c => decide (c = c0)))
    have hm : ∃ r, bMaxGainF A ent cats Xm y cur.mu ign fd heap = .ok r := by
      unfold bMaxGainF
      rw [hc0]
      simp only
      rw [hparts, py_bind_ok]
      obtain ⟨r, hr, -⟩ := foldlM_exists (fun _ => True) parts (f := evalPartF A ent Xm y cur.mu ign) (by
        intro q hq st _
        obtain ⟨sets, h1, -, -, h4⟩ := partF_bipartition hnd hparts hq
        obtain ⟨i, v, d, -, -, hd, hs⟩ := hok _ _ h1
        obtain ⟨st', h⟩ := evalPartF_exists (ent := ent) (y := y) (ign := ign) hmu.ne' hd
          (fun s hsm => by exact (hs s (h4.subset hsm)).2) st
        exact ⟨st', h, trivial⟩) (none, heap) trivial
      exact ⟨r, hr⟩
    obtain ⟨⟨best, heap1⟩, hm⟩ := hm
    obtain ⟨_, parts', hc0', hparts', hf', hlen1, hbest⟩ := bMaxGainF_ok hX hf hm
    rw [hc0] at hc0'; cases hc0'
    rw [hparts] at hparts'; cases hparts'
    rw [bPartialFitF, hm, py_bind_ok]
    simp only
    obtain ⟨cv, hcv⟩ := classValueOfF_exists hmu.ne' y
    split_ifs with hstop
    · rw [hcv, py_bind_ok]
      exact ⟨_, _, rfl, hf'.1, hlen1⟩
    · have hns : depth < p.maxDepth := by
        by_contra hc
        apply hstop
        simp only [stopMet, Bool.or_eq_true, decide_eq_true_eq]
        exact .inl (.inr (not_lt.1 hc))
      cases best with
      | none => exact absurd (by simp only [stopMet, Bool.or_eq_true, decide_eq_true_eq]; exact .inr hth) hstop
      | some b =>
        obtain ⟨-, hpart, fl, fr, ml, mr, hml, hmr, hmus⟩ := hbest b rfl
        obtain ⟨sets, hsets, hsl, hsr, hperm⟩ := partF_bipartition hnd hparts hpart
        simp only at hsets hsl hsr hperm ⊢
        have hchild : ∀ (s : List String) (m : List K) (ref : Nat) (hp : IgnHeap K), s ⊆ sets →
            HeapOk y.length used ign hp → ref < hp.length →
            ∃ c hp', bFitChildF A (bPartialFitF A ent cats p Xm y fuel (depth + 1)) p y cur.mu ign fd b.att s m ref hp = .ok (c, hp') ∧
              (∀ a ∈ hp', Flags y.length a) ∧ hp.length ≤ hp'.length := by
          intro s m ref hp hsub hpo href
          obtain ⟨i, v, d, h1, h2, h3, h4⟩ := hok _ _ hsets
          obtain ⟨idxs, hidx⟩ := forall₂_of_forall_exists (fun (x : String) (j : Nat) => Dict.get (setIndices v) x = .ok j) s (by
            intro x hx
            obtain ⟨⟨j, hj⟩, -⟩ := h4 x (hsub hx)
            exact ⟨j, Dict.get_eq_ok_iff.2 hj⟩)
          have htest : childTest p b.att s = .ok ⟨v, i, idxs⟩ := by
            unfold childTest
            rw [Dict.get_eq_ok_iff.2 h1, py_bind_ok, h2]
            simp only [py_bind_ok]
            rw [(mapM_ok_iff _ _ _).2 hidx]
            rfl
          have hrest : restrictDict fd b.att s = .ok (Dict.set fd b.att (sets.filter (fun x => x ∈ s))) := by
            unfold restrictDict
            rw [Dict.get_eq_ok_iff.2 hsets]
            rfl
          obtain ⟨u1, u2⟩ := updateIgnored_spec hpo href (att := b.att)
          unfold bFitChildF
          rw [htest, py_bind_ok]
          simp only
          rw [hrest, py_bind_ok]
          split
          · rename_i hpos
            obtain ⟨t, hp', g1, g2, g3⟩ := ih (depth + 1) _ (.fresh (some ⟨v, i, idxs⟩) m) (b.att :: used) _ _ (by omega) (by omega) u1
              (Dict.nodup_keys_set _ _ _ hnd) (fdOk_step hok hsets s) hpos
            exact ⟨t, hp', g1, g2, by omega⟩
          · rw [hcv, py_bind_ok]
            exact ⟨_, _, rfl, u1.1, u2⟩
        obtain ⟨l, heap2, hl, l1, l2⟩ := hchild b.split.1 b.mus.1 b.ignored.1 heap1 (fun x hx => hperm.subset (by simp [hx])) hf' fl
        obtain ⟨r, heap3, hr, r1, r2⟩ := hchild b.split.2 b.mus.2 b.ignored.2 heap2 (fun x hx => hperm.subset (by simp [hx]))
          (hf'.grow l1 l2) (lt_of_lt_of_le fr l2)
        rw [hl, py_bind_ok]
        simp only
        rw [hr, py_bind_ok]
        exact ⟨_, _, rfl, r1, hlen1.trans (l2.trans r2)⟩


end Teacher.FB
