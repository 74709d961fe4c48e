import Verif.Lemmas.FBDTShare
import Verif.Lemmas.FBDT
import Verif.Lemmas.FDTTrace

/-! Lemmas about the trees grown by `FBDT.fit`. -/

set_option linter.unusedSectionVars false

namespace Teacher.FB

open Teacher Spec

variable {C K : Type} [Field K] [LinearOrder K] [IsStrictOrderedRing K]

theorem foldlM_inv {α β : Type} {f : β → α → Py β} (P : β → Prop) (l : List α)
    (hstep : ∀ a ∈ l, ∀ b b', P b → f b a = .ok b' → P b') : ∀ b b', P b → l.foldlM f b = .ok b' → P b' := by
  induction l with
  | nil => intro b b' hb h; simp only [List.foldlM_nil, py_pure, Except.ok.injEq] at h; rw [← h]; exact hb
  | cons a l ih =>
    intro b b' hb h
    rw [List.foldlM_cons] at h
    obtain ⟨b1, h1, h2⟩ := py_bind_eq_ok.1 h
    exact ih (fun a ha => hstep a (by simp [ha])) b1 b' (hstep a (by simp) b b1 hb h1) h2

theorem foldlM_exists {α β : Type} {f : β → α → Py β} (P : β → Prop) (l : List α)
    (hstep : ∀ a ∈ l, ∀ b, P b → ∃ b', f b a = .ok b' ∧ P b') : ∀ b, P b → ∃ b', l.foldlM f b = .ok b' ∧ P b' := by
  induction l with
  | nil => intro b hb; exact ⟨b, rfl, hb⟩
  | cons a l ih =>
    intro b hb
    obtain ⟨b1, h1, h2⟩ := hstep a (by simp) b hb
    obtain ⟨b2, h3, h4⟩ := ih (fun a ha => hstep a (by simp [ha])) b1 h2
    exact ⟨b2, by rw [List.foldlM_cons, h1, py_bind_ok, h3], h4⟩

theorem flags_max {n : Nat} {a b : List K} (ha : Flags n a) (hb : Flags n b) : Flags n (List.zipWith max a b) := by
  refine ⟨by simp [ha.len, hb.len], ?_⟩
  intro x hx
  obtain ⟨i, hi, rfl⟩ := List.getElem_of_mem hx
  simp only [List.getElem_zipWith]
  have h1 : i < a.length := by simp at hi; omega
  have h2 : i < b.length := by simp at hi; omega
  rcases getElem_bit ha i h1 with h | h <;> rcases getElem_bit hb i h2 with h' | h' <;> simp [h, h']

/-- the training memberships of one side of a split, when the features `used` were split on before: the sum of its sets, or 1 for the
examples ignored for this feature. -/
def SideMem (Xm : Dict String (Dict String (List K))) (n : Nat) (used : List String) (att : String) (sets : List String)
    (m : List K) : Prop :=
  ∃ s, sumSets Xm n att sets = .ok s ∧ ((att ∉ used ∧ m = s) ∨ (att ∈ used ∧ ∃ a, Flags n a ∧ m = List.zipWith max s a))

/-- the arrays are flags, and there is one for each feature used. -/
def AllFlags (n : Nat) (used : List String) (ign : Dict String (List K)) : Prop :=
  (∀ f a, Dict.get? ign f = some a → Flags n a) ∧ ∀ f, Dict.get? ign f = none ↔ f ∉ used

theorem allFlags_set {n : Nat} {used : List String} {ign : Dict String (List K)} {f : String} {a : List K} (h : AllFlags n used ign)
    (ha : Flags n a) : AllFlags n (f :: used) (Dict.set ign f a) := by
  constructor
  · intro g b hb
    rw [Dict.get?_set] at hb
    split at hb
    · cases hb; exact ha
    · exact h.1 g b hb
  · intro g
    rw [Dict.get?_set]
    split
    · rename_i e; simp [e]
    · rename_i e
      rw [h.2 g]
      have e' : g ≠ f := fun x => e x.symm
      simp [e']

theorem allFlags_same {n : Nat} {used : List String} {ign : Dict String (List K)} {f : String} {a : List K} (h : AllFlags n used ign)
    (hf : f ∈ used) (ha : Flags n a) : AllFlags n used (Dict.set ign f a) := by
  obtain ⟨h1, h2⟩ := allFlags_set h ha (f := f)
  refine ⟨h1, fun g => ?_⟩
  rw [h2 g]
  simp only [List.mem_cons, not_or, and_iff_right_iff_imp]
  rintro hg rfl
  exact hg hf

theorem sideByValue_spec {Xm : Dict String (Dict String (List K))} {n : Nat} (hX : Table Xm n) {used : List String}
    {ign : Dict String (List K)} (hf : AllFlags n used ign) {att : String} {sets : List String} {s : List K} (hs : sumSets Xm n att sets = .ok s) :
    SideMem Xm n used att sets (sideByValue n ign att s).1 ∧ Flags n (sideByValue n ign att s).2.1 ∧
      AllFlags n used (sideByValue n ign att s).2.2 := by
  have hl := sumSets_length hX att sets s hs
  unfold sideByValue
  cases h : Dict.get? ign att with
  | none => exact ⟨⟨s, hs, .inl ⟨(hf.2 att).1 h, rfl⟩⟩, flags_mark hl (flags_zero n), hf⟩
  | some a =>
    have ha := hf.1 _ _ h
    have hu : att ∈ used := by
      by_contra hc
      rw [(hf.2 att).2 hc] at h; cases h
    have hm : (List.zipWith max s a).length = n := by simp [hl, ha.len]
    exact ⟨⟨s, hs, .inr ⟨hu, a, ha, rfl⟩⟩, flags_mark hm ha, allFlags_same hf hu (flags_mark hm ha)⟩

/-- what is known of the best candidate. -/
def BestOk (Xm : Dict String (Dict String (List K))) (n : Nat) (used : List String) (mu : List K) (parts : List BPart)
    (b : BBest K (List K)) : Prop :=
  0 < b.gain ∧ (b.att, b.split) ∈ parts ∧ Flags n b.ignored.1 ∧ Flags n b.ignored.2 ∧ ∃ ml mr, SideMem Xm n used b.att b.split.1 ml ∧
    SideMem Xm n used b.att b.split.2 mr ∧ b.mus = (List.zipWith min mu ml, List.zipWith min mu mr)

theorem partByValue_ok {ent : List K → List C → K} {Xm : Dict String (Dict String (List K))} {y : List C} (hX : Table Xm y.length)
    {used : List String} {mu : List K} {parts : List BPart} {q : BPart} (hq : q ∈ parts) {st st' : Option (BBest K (List K)) × Dict String (List K)}
    (hst : AllFlags y.length used st.2 ∧ ∀ b, st.1 = some b → BestOk Xm y.length used mu parts b)
    (h : partByValue ent Xm y mu st q = .ok st') :
    AllFlags y.length used st'.2 ∧ ∀ b, st'.1 = some b → BestOk Xm y.length used mu parts b := by
  obtain ⟨lm, hl, h1⟩ := py_bind_eq_ok.1 h
  obtain ⟨rm, hr, h2⟩ := py_bind_eq_ok.1 h1
  obtain ⟨g, hg, h3⟩ := py_bind_eq_ok.1 h2
  obtain ⟨l1, l2, l3⟩ := sideByValue_spec hX hst.1 hl
  obtain ⟨r1, r2, r3⟩ := sideByValue_spec hX l3 hr
  cases h3
  refine ⟨r3, ?_⟩
  intro b hb
  simp only at hb
  split_ifs at hb with hgain
  · cases hb
    refine ⟨?_, hq, l2, r2, _, _, l1, r1, rfl⟩
    cases hs : st.1 with
    | none => rw [hs] at hgain; exact hgain
    | some b => rw [hs] at hgain; exact lt_trans (hst.2 b hs).1 hgain
  · exact hst.2 b hb

variable [LinearOrder C]

theorem maxGainByValue_ok [NanSort K] {ent : List K → List C → K} {cats : List String} {Xm : Dict String (Dict String (List K))} {y : List C}
    (hX : Table Xm y.length) {used : List String} {mu : List K} {ign ign' : Dict String (List K)} (hf : AllFlags y.length used ign)
    {fd : Dict String (List String)} {best : Option (BBest K (List K))}
    (h : maxGainByValue ent cats Xm y mu ign fd = .ok (best, ign')) :
    ∃ c0 parts, (npUnique y)[0]? = some c0 ∧ binaryPartitions cats Xm (y.map (fun c => decide (c = c0))) fd = .ok parts ∧
      AllFlags y.length used ign' ∧ ∀ b, best = some b → BestOk Xm y.length used mu parts b := by
  unfold maxGainByValue at h
  cases hc : (npUnique y)[0]? with
  | none => rw [hc] at h; cases h
  | some c0 =>
    rw [hc] at h
    obtain ⟨parts, hp, h1⟩ := py_bind_eq_ok.1 h
    refine ⟨c0, parts, rfl, hp, ?_⟩
    exact foldlM_inv (fun st : Option (BBest K (List K)) × Dict String (List K) => AllFlags y.length used st.2 ∧
      ∀ b, st.1 = some b → BestOk Xm y.length used mu parts b) parts (fun q hq _ _ hst h => partByValue_ok hX hq hst h) _ _
      ⟨hf, fun b hb => by cases hb⟩ h1

theorem mem_cuts_iff {f : String} {s : List String} {q : BPart} :
    q ∈ cuts f s ↔ q.1 = f ∧ q.2.1 ≠ [] ∧ q.2.2 ≠ [] ∧ q.2.1 ++ q.2.2 = s := by
  obtain ⟨g, l, r⟩ := q
  simp only [cuts, List.mem_map, List.mem_range, Prod.mk.injEq]
  constructor
  · rintro ⟨i, hi, rfl, rfl, rfl⟩
    refine ⟨rfl, ?_, ?_, List.take_append_drop _ _⟩
    · rw [ne_eq, List.take_eq_nil_iff]
      rintro (h | h)
      · omega
      · subst h; simp at hi
    · rw [ne_eq, List.drop_eq_nil_iff]; omega
  · rintro ⟨rfl, h1, h2, rfl⟩
    have a := List.length_pos_iff.2 h1
    have b := List.length_pos_iff.2 h2
    refine ⟨l.length - 1, by rw [List.length_append]; omega, rfl, ?_, ?_⟩
    · rw [Nat.sub_add_cancel a]; simp
    · rw [Nat.sub_add_cancel a]; simp

theorem sortShares_perm [NanSort K] (l : List (String × Option K)) : (sortShares l).Perm l := by
  unfold sortShares
  split
  · exact List.perm_insertionSort _ l
  · exact NanSort.perm l

theorem featureOrder_perm [NanSort K] {cats : List String} {Xm : Dict String (Dict String (List K))} {pos : List Bool} {f : String}
    {sets s : List String} (h : featureOrder cats Xm pos f sets = .ok s) : s.Perm sets := by
  unfold featureOrder at h
  split at h
  · obtain ⟨l, hl, h1⟩ := py_bind_eq_ok.1 h
    cases h1
    rw [mapM_ok_iff] at hl
    have : l.map Prod.fst = sets := by
      clear h
      induction hl with
      | nil => rfl
      | cons h _ ih =>
        obtain ⟨d, -, h⟩ := py_bind_eq_ok.1 h
        obtain ⟨m, -, h⟩ := py_bind_eq_ok.1 h
        cases h
        rw [List.map_cons, ih]
    rw [← this]
    exact (sortShares_perm l).map _
  · cases h; exact List.Perm.refl _

/-- a candidate split is a bipartition of the sets left of its feature. -/
theorem part_bipartition [NanSort K] {cats : List String} {Xm : Dict String (Dict String (List K))} {pos : List Bool}
    {fd : Dict String (List String)} (hnd : (Dict.keys fd).Nodup) {parts : List BPart}
    (h : binaryPartitions cats Xm pos fd = .ok parts) {q : BPart} (hq : q ∈ parts) :
    ∃ sets, Dict.get? fd q.1 = some sets ∧ q.2.1 ≠ [] ∧ q.2.2 ≠ [] ∧ (q.2.1 ++ q.2.2).Perm sets := by
  obtain ⟨f, sets, s, h1, h2, h3⟩ := (mem_binaryPartitions h q).1 hq
  obtain ⟨rfl, h4, h5, h6⟩ := mem_cuts_iff.1 h3
  exact ⟨sets, Dict.get?_of_mem_nodup hnd h1, h4, h5, h6 ▸ featureOrder_perm h2⟩

/-! ### the grown tree -/

/-- shape of the trees grown from a node with memberships `mu` under a parent with memberships `pmu`, when the sets left are `fd`. -/
inductive BGrown (p : FDTParams K) (Xm : Dict String (Dict String (List K))) (y : List C) :
    List String → List K → List K → Dict String (List String) → Nat → BNode C K → Prop where
  | empty (used pmu mu fd d test cv) (hz : ¬ 0 < mu.sum) (hcv : classValueOf pmu y = .ok cv) :
      BGrown p Xm y used pmu mu fd d (.mk test (-1) mu true (some cv) [])
  | leaf (used : List String) (pmu mu : List K) (fd) (d : Nat) (test cv) (hcv : classValueOf mu y = .ok cv) :
      BGrown p Xm y used pmu mu fd d (.mk test d mu true (some cv) [])
  | split (used : List String) (pmu mu : List K) (fd) (d : Nat) (test cv att sets sl sr tl tr ml mr l r) (hd : d < p.maxDepth)
      (hsets : Dict.get? fd att = some sets) (hsl : sl ≠ []) (hsr : sr ≠ []) (hperm : (sl ++ sr).Perm sets)
      (htl : childTest p att sl = .ok tl) (htr : childTest p att sr = .ok tr) (hml : SideMem Xm y.length used att sl ml)
      (hmr : SideMem Xm y.length used att sr mr) (hl : l.test = some tl) (hr : r.test = some tr)
      (gl : BGrown p Xm y (att :: used) mu (List.zipWith min mu ml) (Dict.set fd att (sets.filter (fun x => x ∈ sl))) (d + 1) l)
      (gr : BGrown p Xm y (att :: used) mu (List.zipWith min mu mr) (Dict.set fd att (sets.filter (fun x => x ∈ sr))) (d + 1) r) :
      BGrown p Xm y used pmu mu fd d (.mk test d mu false cv [l, r])

theorem grow_grown [NanSort K] {ent : List K → List C → K} {cats : List String} {p : FDTParams K}
    {Xm : Dict String (Dict String (List K))} {y : List C} (hX : Table Xm y.length) (fuel : Nat) :
    ∀ (depth : Nat) (cur : BNode C K) (ign : Dict String (List K)) (fd : Dict String (List String)) (t : BNode C K)
    (used : List String) (pmu : List K),
    AllFlags y.length used ign → (Dict.keys fd).Nodup → cur.children = [] →
    growByValue ent cats p Xm y fuel depth cur ign fd = .ok t → BGrown p Xm y used pmu cur.mu fd depth t ∧ t.test = cur.test := by
  induction fuel with
  | zero => intro _ _ _ _ _ _ _ _ _ _ h; cases h
  | succ fuel ih =>
    intro depth cur ign fd t used pmu hf hnd hch h
    rw [growByValue] at h
    obtain ⟨⟨best, ign'⟩, hm, h1⟩ := py_bind_eq_ok.1 h
    obtain ⟨c0, parts, hc0, hparts, hf', hbest⟩ := maxGainByValue_ok hX hf hm
    simp only at h1
    split_ifs at h1 with hstop
    · obtain ⟨cv, hcv, h2⟩ := py_bind_eq_ok.1 h1
      cases h2
      rw [hch]
      exact ⟨.leaf _ _ _ _ _ _ _ hcv, rfl⟩
    · have hd : depth < p.maxDepth := by
        by_contra hc
        apply hstop
        simp only [stopMet, Bool.or_eq_true, decide_eq_true_eq]
        exact .inl (.inr (not_lt.1 hc))
      cases best with
      | none => cases h1
      | some b =>
        obtain ⟨-, hpart, fl, fr, ml, mr, hml, hmr, hmus⟩ := hbest b rfl
        simp only at h1
        obtain ⟨l, hl, h2⟩ := py_bind_eq_ok.1 h1
        obtain ⟨r, hr, h3⟩ := py_bind_eq_ok.1 h2
        cases h3
        obtain ⟨sets, hsets, hsl, hsr, hperm⟩ := part_bipartition hnd hparts hpart
        simp only at hsets hsl hsr hperm
        rw [hmus] at hl hr
        have hchild : ∀ (s : List String) (m a : List K) (c : BNode C K), Flags y.length a →
            childByValue (growByValue ent cats p Xm y fuel (depth + 1)) p y cur.mu ign' fd b.att s m a = .ok c →
            ∃ tc, childTest p b.att s = .ok tc ∧ c.test = some tc ∧
              BGrown p Xm y (b.att :: used) cur.mu m (Dict.set fd b.att (sets.filter (fun x => x ∈ s))) (depth + 1) c := by
          intro s m a c ha hc
          unfold childByValue at hc
          obtain ⟨tc, htc, hc1⟩ := py_bind_eq_ok.1 hc
          obtain ⟨fd', hfd, hc2⟩ := py_bind_eq_ok.1 hc1
          have hfd' : fd' = Dict.set fd b.att (sets.filter (fun x => x ∈ s)) := by
            unfold restrictDict at hfd
            rw [Dict.get_eq_ok_iff.2 hsets, py_bind_ok] at hfd
            cases hfd; rfl
          subst hfd'
          split at hc2
          · obtain ⟨g1, g2⟩ := ih (depth + 1) _ _ _ c (b.att :: used) cur.mu (by
              unfold childIgnored
              split
              · rename_i a' ha'
                exact allFlags_set hf' (flags_max (hf'.1 _ _ ha') ha)
              · exact allFlags_set hf' ha) (Dict.nodup_keys_set _ _ _ hnd) rfl hc2
            exact ⟨tc, htc, g2, g1⟩
          · rename_i hz
            obtain ⟨cv, hcv, hc3⟩ := py_bind_eq_ok.1 hc2
            cases hc3
            exact ⟨tc, htc, rfl, .empty _ _ _ _ _ _ _ hz hcv⟩
        obtain ⟨tl, htl, hlt, gl⟩ := hchild _ _ _ l fl hl
        obtain ⟨tr, htr, hrt, gr⟩ := hchild _ _ _ r fr hr
        rw [hch]
        exact ⟨.split _ _ _ _ _ _ _ b.att sets b.split.1 b.split.2 tl tr ml mr l r hd hsets hsl hsr hperm htl htr hml hmr hlt hrt gl gr, rfl⟩

/-! ### tests -/

theorem mem_of_ofPairs_get? {ν : Type} (l : List (String × ν)) (k : String) (v : ν) (h : Dict.get? (Dict.ofPairs l) k = some v) :
    (k, v) ∈ l := by
  unfold Dict.ofPairs at h
  rw [Dict.foldl_set_get?] at h
  cases hf : l.reverse.find? (fun p => p.1 = k) with
  | none => rw [hf] at h; simp at h
  | some q =>
    rw [hf] at h
    simp only [Option.some.injEq] at h
    have h1 := List.mem_of_find?_eq_some hf
    have h2 := List.find?_some hf
    simp only [decide_eq_true_eq] at h2
    obtain ⟨a, b⟩ := q
    simp only at h h2
    subst h h2
    simpa using h1

/-- name of the variable and of the sets of a test. -/
def bClauseOf (t : BTest K) : String × List String :=
  (t.var.name, t.idxs.map (fun i => ((t.var.sets[i]?).map FSet.name).getD ""))

theorem setIndices_get? {v : FVar K} {s : String} {i : Nat} (h : Dict.get? (setIndices v) s = some i) :
    ∃ fs, v.sets[i]? = some fs ∧ fs.name = s := by
  have := mem_of_ofPairs_get? _ _ _ h
  obtain ⟨x, hx, he⟩ := List.mem_map.1 this
  rw [List.mem_zipIdx_iff_getElem?] at hx
  simp only [Prod.mk.injEq] at he
  exact ⟨x.1, he.2 ▸ hx, he.1⟩

theorem childTest_ok {p : FDTParams K} {att : String} {s : List String} {t : BTest K} (h : childTest p att s = .ok t) :
    Dict.get? (featuresDict p.vars) att = some t.att ∧ p.vars[t.att]? = some t.var ∧ bClauseOf t = (att, s) ∧
      (∀ i ∈ t.idxs, i < t.var.sets.length) ∧ s.mapM (Dict.get (setIndices t.var)) = .ok t.idxs := by
  unfold childTest at h
  obtain ⟨fi, hfi, h1⟩ := py_bind_eq_ok.1 h
  obtain ⟨v, hv, h2⟩ := py_bind_eq_ok.1 h1
  obtain ⟨idxs, hi, h3⟩ := py_bind_eq_ok.1 h2
  cases h3
  have hv' : p.vars[fi]? = some v := by
    cases hg : p.vars[fi]? with
    | none => rw [hg] at hv; cases hv
    | some v' => rw [hg] at hv; cases hv; rfl
  have hfi' := Dict.get_eq_ok_iff.1 hfi
  have hi' := (mapM_ok_iff _ _ _).1 hi
  refine ⟨hfi', hv', ?_, ?_, hi⟩
  · unfold bClauseOf
    simp only [featuresDict_name hfi' hv', Prod.mk.injEq, true_and]
    clear hi h h1 h2
    induction hi' with
    | nil => rfl
    | cons h _ ih =>
      obtain ⟨fs, h1, h2⟩ := setIndices_get? (Dict.get_eq_ok_iff.1 h)
      rw [List.map_cons, h1, ih]
      simp [h2]
  · intro i hi
    obtain ⟨s, -, hs⟩ := forall₂_mem_right hi' i hi
    obtain ⟨fs, h1, -⟩ := setIndices_get? (Dict.get_eq_ok_iff.1 hs)
    exact (List.getElem?_eq_some_iff.1 h1).1

/-! ### paths of a grown tree -/

/-- the tests on a path below a node with memberships `mu`, depth `d` and sets left `fd`, and the same data at the end of the path. -/
inductive BTrace (p : FDTParams K) (Xm : Dict String (Dict String (List K))) (n : Nat) :
    List String → List K → Dict String (List String) → Nat → List (BTest K) → List K → Dict String (List String) → Nat → Prop where
  | nil (used mu fd d) : BTrace p Xm n used mu fd d [] mu fd d
  | cons (used mu fd d t att sets s m ts mu' fd' d') (hd : d < p.maxDepth) (hsets : Dict.get? fd att = some sets) (hs : s ≠ [])
      (hsub : s.Subperm sets) (ht : childTest p att s = .ok t) (hm : SideMem Xm n used att s m)
      (h : BTrace p Xm n (att :: used) (List.zipWith min mu m) (Dict.set fd att (sets.filter (fun x => x ∈ s))) (d + 1) ts mu' fd' d') :
      BTrace p Xm n used mu fd d (t :: ts) mu' fd' d'

theorem bNodePathsList_eq (cs : List (BNode C K)) : bNodePathsList cs = cs.flatMap bNodePaths := by
  induction cs with
  | nil => rfl
  | cons c cs ih => simp [bNodePathsList, ih]

/-- every node of a grown tree is grown, from the data at the end of its path; `pmu` is the data of its parent. -/
theorem BGrown.nodes {p : FDTParams K} {Xm : Dict String (Dict String (List K))} {y : List C} {used pmu mu fd d} {t : BNode C K}
    (h : BGrown p Xm y used pmu mu fd d t) : ∀ q ∈ bNodePaths t, ∃ rest used' pmu' mu' fd' d', q.1 = t.test.toList ++ rest ∧
      BTrace p Xm y.length used mu fd d rest mu' fd' d' ∧ BGrown p Xm y used' pmu' mu' fd' d' q.2 ∧
      ((rest = [] ∧ pmu' = pmu) ∨ (rest ≠ [] ∧ ∃ fd'' d'', BTrace p Xm y.length used mu fd d rest.dropLast pmu' fd'' d'')) := by
  induction h with
  | empty used pmu mu fd d test cv hz hcv =>
    intro q hq
    simp only [bNodePaths, if_true, List.mem_singleton] at hq
    subst hq
    exact ⟨[], used, pmu, mu, fd, d, by simp [BNode.test], .nil _ _ _ _, .empty _ _ _ _ _ _ _ hz hcv, .inl ⟨rfl, rfl⟩⟩
  | leaf used pmu mu fd d test cv hcv =>
    intro q hq
    simp only [bNodePaths, if_true, List.mem_singleton] at hq
    subst hq
    exact ⟨[], used, pmu, mu, fd, d, by simp [BNode.test], .nil _ _ _ _, .leaf _ _ _ _ _ _ _ hcv, .inl ⟨rfl, rfl⟩⟩
  | split used pmu mu fd d test cv att sets sl sr tl tr ml mr l r hd hsets hsl hsr hperm htl htr hml hmr hl hr gl gr ihl ihr =>
    intro q hq
    simp only [bNodePaths, Bool.false_eq_true, if_false, bNodePathsList_eq, List.mem_cons, List.mem_map, List.mem_flatMap,
      List.not_mem_nil, or_false] at hq
    rcases hq with rfl | ⟨q', ⟨c, hc, hq'⟩, rfl⟩
    · exact ⟨[], used, pmu, mu, fd, d, by simp [BNode.test], .nil _ _ _ _,
        .split _ _ _ _ _ _ _ att sets sl sr tl tr ml mr l r hd hsets hsl hsr hperm htl htr hml hmr hl hr gl gr, .inl ⟨rfl, rfl⟩⟩
    · have key : ∀ (c : BNode C K) s tc m, c.test = some tc → s ≠ [] → s.Subperm sets → childTest p att s = .ok tc →
          SideMem Xm y.length used att s m →
          (∀ q ∈ bNodePaths c, ∃ rest used' pmu' mu' fd' d', q.1 = c.test.toList ++ rest ∧
            BTrace p Xm y.length (att :: used) (List.zipWith min mu m) (Dict.set fd att (sets.filter (fun x => x ∈ s))) (d + 1) rest mu' fd' d' ∧
            BGrown p Xm y used' pmu' mu' fd' d' q.2 ∧
            ((rest = [] ∧ pmu' = mu) ∨ (rest ≠ [] ∧ ∃ fd'' d'', BTrace p Xm y.length (att :: used) (List.zipWith min mu m)
              (Dict.set fd att (sets.filter (fun x => x ∈ s))) (d + 1) rest.dropLast pmu' fd'' d''))) →
          q' ∈ bNodePaths c → ∃ rest used' pmu' mu' fd' d', test.toList ++ q'.1 = test.toList ++ rest ∧
            BTrace p Xm y.length used mu fd d rest mu' fd' d' ∧ BGrown p Xm y used' pmu' mu' fd' d' q'.2 ∧
            ((rest = [] ∧ pmu' = pmu) ∨ (rest ≠ [] ∧ ∃ fd'' d'', BTrace p Xm y.length used mu fd d rest.dropLast pmu' fd'' d'')) := by
        intro c s tc m hct hs hsub htc hm ih hq'
        obtain ⟨rest, used', pmu', mu', fd', d', h1, h2, h3, h4⟩ := ih q' hq'
        rw [hct] at h1
        refine ⟨tc :: rest, used', pmu', mu', fd', d', by rw [h1]; rfl, .cons _ _ _ _ _ _ _ _ _ _ _ _ _ hd hsets hs hsub htc hm h2, h3,
          .inr ⟨by simp, ?_⟩⟩
        rcases h4 with ⟨rfl, rfl⟩ | ⟨hne, fd'', d'', h5⟩
        · exact ⟨fd, d, .nil _ _ _ _⟩
        · rw [List.dropLast_cons_of_ne_nil hne]
          exact ⟨fd'', d'', .cons _ _ _ _ _ _ _ _ _ _ _ _ _ hd hsets hs hsub htc hm h5⟩
      rcases hc with rfl | rfl
      · exact key _ sl tl ml hl hsl ((List.sublist_append_left sl sr).subperm.trans hperm.subperm) htl hml ihl hq'
      · exact key _ sr tr mr hr hsr ((List.sublist_append_right sl sr).subperm.trans hperm.subperm) htr hmr ihr hq'

theorem BTrace.depth {p : FDTParams K} {Xm : Dict String (Dict String (List K))} {n : Nat} {used mu fd d ts mu' fd' d'}
    (h : BTrace p Xm n used mu fd d ts mu' fd' d') : d' = d + ts.length ∧ (ts ≠ [] → d' ≤ p.maxDepth) := by
  induction h with
  | nil => simp
  | cons used mu fd d t att sets s m ts mu' fd' d' hd _ _ _ _ _ _ ih =>
    refine ⟨by rw [ih.1, List.length_cons]; omega, fun _ => ?_⟩
    by_cases e : ts = []
    · rw [ih.1, e, List.length_nil]; omega
    · exact ih.2 e

theorem BTrace.tests {p : FDTParams K} {Xm : Dict String (Dict String (List K))} {n : Nat} {used mu fd d ts mu' fd' d'}
    (h : BTrace p Xm n used mu fd d ts mu' fd' d') : ∀ t ∈ ts, p.vars[t.att]? = some t.var ∧ t.idxs ≠ [] ∧
      ∀ i ∈ t.idxs, i < t.var.sets.length := by
  induction h with
  | nil => simp
  | cons used mu fd d t att sets s m ts mu' fd' d' _ _ hs _ ht _ _ ih =>
    intro t' ht'
    rcases List.mem_cons.1 ht' with rfl | ht'
    · obtain ⟨-, h2, h3, h4, -⟩ := childTest_ok ht
      refine ⟨h2, ?_, h4⟩
      intro e
      apply hs
      have := congrArg Prod.snd h3
      simpa [bClauseOf, e] using this.symm
    · exact ih t' ht'

theorem BTrace.names {p : FDTParams K} {Xm : Dict String (Dict String (List K))} {n : Nat} {used mu fd d ts mu' fd' d'}
    (h : BTrace p Xm n used mu fd d ts mu' fd' d') : ∀ t ∈ ts, Dict.get? (featuresDict p.vars) t.var.name = some t.att := by
  induction h with
  | nil => simp
  | cons used mu fd d t att sets s m ts mu' fd' d' _ _ hs _ ht _ _ ih =>
    intro t' ht'
    rcases List.mem_cons.1 ht' with rfl | ht'
    · obtain ⟨h1, h2, -, -, -⟩ := childTest_ok ht
      rw [featuresDict_name h1 h2]; exact h1
    · exact ih t' ht'

/-- the entries of the table are degrees. -/
def NonnegTable (Xm : Dict String (Dict String (List K))) : Prop :=
  ∀ f d, Dict.get? Xm f = some d → ∀ s m, Dict.get? d s = some m → ∀ x ∈ m, 0 ≤ x

theorem sumSets_nonneg {Xm : Dict String (Dict String (List K))} {n : Nat} (hX : NonnegTable Xm) (f : String) (sets : List String)
    (m : List K) (h : sumSets Xm n f sets = .ok m) : ∀ x ∈ m, 0 ≤ x := by
  unfold sumSets at h
  refine foldlM_inv (fun acc : List K => ∀ x ∈ acc, 0 ≤ x) sets ?_ _ _ ?_ h
  · intro s _ acc acc' hacc h
    obtain ⟨d, hd, h1⟩ := py_bind_eq_ok.1 h
    obtain ⟨w, hw, h2⟩ := py_bind_eq_ok.1 h1
    cases h2
    intro x hx
    rw [← List.map_uncurry_zip_eq_zipWith] at hx
    obtain ⟨⟨a, b⟩, hab, rfl⟩ := List.mem_map.1 hx
    have := List.of_mem_zip hab
    exact add_nonneg (hacc a this.1) (hX f d (Dict.get_eq_ok_iff.1 hd) s w (Dict.get_eq_ok_iff.1 hw) b this.2)
  · intro x hx
    rw [List.eq_of_mem_replicate hx]

theorem SideMem.nonneg {Xm : Dict String (Dict String (List K))} {n : Nat} (hX : NonnegTable Xm) (hT : Table Xm n)
    {used : List String} {att : String} {sets : List String} {m : List K} (h : SideMem Xm n used att sets m) : m.length = n ∧ ∀ x ∈ m, 0 ≤ x := by
  obtain ⟨s, hs, h⟩ := h
  have h1 := sumSets_length hT _ _ _ hs
  have h2 := sumSets_nonneg hX _ _ _ hs
  rcases h with ⟨-, rfl⟩ | ⟨-, a, ha, rfl⟩
  · exact ⟨h1, h2⟩
  · refine ⟨by simp [h1, ha.len], ?_⟩
    intro x hx
    rw [← List.map_uncurry_zip_eq_zipWith] at hx
    obtain ⟨⟨a, b⟩, hab, rfl⟩ := List.mem_map.1 hx
    exact le_max_of_le_left (h2 a (List.of_mem_zip hab).1)

/-- the memberships of a node are degrees. -/
def Degrees (n : Nat) (mu : List K) : Prop := mu.length = n ∧ ∀ x ∈ mu, 0 ≤ x ∧ x ≤ 1

theorem degrees_min {n : Nat} {mu m : List K} (h : Degrees n mu) (h1 : m.length = n) (h2 : ∀ x ∈ m, 0 ≤ x) :
    Degrees n (List.zipWith min mu m) := by
  refine ⟨by simp [h.1, h1], ?_⟩
  intro x hx
  rw [← List.map_uncurry_zip_eq_zipWith] at hx
  obtain ⟨⟨a, b⟩, hab, rfl⟩ := List.mem_map.1 hx
  have := List.of_mem_zip hab
  exact ⟨le_min (h.2 a this.1).1 (h2 b this.2), le_trans (min_le_left _ _) (h.2 a this.1).2⟩

theorem BTrace.degrees {p : FDTParams K} {Xm : Dict String (Dict String (List K))} {n : Nat} (hX : NonnegTable Xm) (hT : Table Xm n)
    {used mu fd d ts mu' fd' d'} (h : BTrace p Xm n used mu fd d ts mu' fd' d') (hmu : Degrees n mu) : Degrees n mu' := by
  induction h with
  | nil => exact hmu
  | cons used mu fd d t att sets s m ts mu' fd' d' _ _ _ _ _ hm _ ih =>
    obtain ⟨h1, h2⟩ := hm.nonneg hX hT
    exact ih (degrees_min hmu h1 h2)

/-! ### the sets left -/

/-- `fd` lists for every variable the names of the sets whose numbers `base` gives. -/
def Lists (vars : List (FVar K)) (fd : Dict String (List String)) (base : Nat → List Nat) : Prop :=
  ∀ att sets, Dict.get? fd att = some sets → sets.Nodup ∧ ∃ i v idxs, Dict.get? (featuresDict vars) att = some i ∧ vars[i]? = some v ∧
    sets.mapM (Dict.get (setIndices v)) = .ok idxs ∧ idxs.Perm (base i)

theorem mapM_get_perm {d : Dict String Nat} {s s' : List String} {l : List Nat} (hp : s'.Perm s)
    (h : s.mapM (Dict.get d) = .ok l) : ∃ l', s'.mapM (Dict.get d) = .ok l' ∧ l'.Perm l := by
  have h1 := (mapM_ok_iff _ _ _).1 h
  have h2 : ∀ a ∈ s, Dict.get d a = .ok ((Dict.get? d a).getD 0) := by
    intro a ha
    obtain ⟨b, -, hb⟩ := forall₂_mem_left h1 a ha
    rw [Dict.get_eq_ok_iff.1 hb]
    exact hb
  have h3 := mapM_ok_of_forall (Dict.get d) (fun a => (Dict.get? d a).getD 0) s h2
  have h4 := mapM_ok_of_forall (Dict.get d) (fun a => (Dict.get? d a).getD 0) s' (fun a ha => h2 a (hp.subset ha))
  rw [h] at h3
  refine ⟨_, h4, ?_⟩
  rw [Except.ok.inj h3]
  exact hp.map _

theorem filter_mem_perm {sets s : List String} (hnd : sets.Nodup) (h : s.Subperm sets) :
    (sets.filter (fun x => x ∈ s)).Perm s := by
  obtain ⟨l, hl, hsub⟩ := h
  have hs : s.Nodup := hl.nodup_iff.1 (hsub.nodup hnd)
  rw [List.perm_ext_iff_of_nodup (hnd.filter _) hs]
  intro a
  simp only [List.mem_filter, decide_eq_true_eq, and_iff_right_iff_imp]
  intro ha
  exact hsub.subset (hl.mem_iff.2 ha)

theorem featuresDict_inj {vars : List (FVar K)} {k k' : String} {i : Nat} (h : Dict.get? (featuresDict vars) k = some i)
    (h' : Dict.get? (featuresDict vars) k' = some i) : k = k' := by
  have h1 := mem_of_ofPairs_get? _ _ _ h
  have h2 := mem_of_ofPairs_get? _ _ _ h'
  obtain ⟨x, hx, hx'⟩ := List.mem_map.1 h1
  obtain ⟨z, hz, hz'⟩ := List.mem_map.1 h2
  rw [List.mem_zipIdx_iff_getElem?] at hx hz
  simp only [Prod.mk.injEq] at hx' hz'
  rw [hx'.2, ← hz'.2, hz] at hx
  rw [← hx'.1, ← hz'.1, Option.some.inj hx]

theorem lists_step {p : FDTParams K} {fd : Dict String (List String)} {base : Nat → List Nat} (h : Lists p.vars fd base) {att : String}
    {sets s : List String} {t : BTest K} (hsets : Dict.get? fd att = some sets) (hsub : s.Subperm sets) (ht : childTest p att s = .ok t) :
    Lists p.vars (Dict.set fd att (sets.filter (fun x => x ∈ s))) (fun i => if t.att = i then t.idxs else base i) := by
  obtain ⟨hnd, i, v, idxs, h1, h2, h3, h4⟩ := h att sets hsets
  obtain ⟨t1, t2, -, -, t5⟩ := childTest_ok ht
  rw [h1] at t1; cases t1
  rw [h2] at t2; cases t2
  intro att' sets' hs'
  rw [Dict.get?_set] at hs'
  split at hs'
  · rename_i he
    cases hs'
    have hf := filter_mem_perm hnd hsub
    obtain ⟨l', hl', hp⟩ := mapM_get_perm hf t5
    exact ⟨hnd.filter _, t.att, t.var, l', by rw [← he]; exact h1, h2, hl', by simpa using hp⟩
  · rename_i he
    obtain ⟨hnd', i', v', idxs', e1, e2, e3, e4⟩ := h att' sets' hs'
    refine ⟨hnd', i', v', idxs', e1, e2, e3, ?_⟩
    dsimp only
    rw [if_neg]
    · exact e4
    · intro hi
      rw [← hi] at e1
      exact he (featuresDict_inj h1 e1)

theorem BTrace.lists {p : FDTParams K} {Xm : Dict String (Dict String (List K))} {n : Nat} {used mu fd d ts mu' fd' d'}
    (h : BTrace p Xm n used mu fd d ts mu' fd' d') {base : Nat → List Nat} (hl : Lists p.vars fd base) :
    Lists p.vars fd' (fun i => match ts.reverse.find? (fun t => t.att = i) with | some t => t.idxs | none => base i) := by
  induction h generalizing base with
  | nil => simpa using hl
  | cons used mu fd d t att sets s m ts mu' fd' d' _ hsets _ hsub ht _ _ ih =>
    have := ih (lists_step hl hsets hsub ht)
    refine cast ?_ this
    congr 1
    funext i
    rw [List.reverse_cons, List.find?_append]
    cases hf : ts.reverse.find? (fun t => t.att = i) with
    | some t' => simp
    | none =>
      by_cases hi : t.att = i
      · simp [hi]
      · simp [hi]

theorem lists_init {vars : List (FVar K)} (hv : (vars.map FVar.name).Nodup) (hn : ∀ v ∈ vars, (v.sets.map FSet.name).Nodup) :
    Lists vars (setNames vars) (fun i => List.range ((vars[i]?.map (fun v => v.sets.length)).getD 0)) := by
  intro att sets hs
  have hm := mem_of_ofPairs_get? _ _ _ hs
  obtain ⟨v, hvm, he⟩ := List.mem_map.1 hm
  simp only [Prod.mk.injEq] at he
  obtain ⟨rfl, rfl⟩ := he
  refine ⟨hn v hvm, ?_⟩
  obtain ⟨i, hi, hvi⟩ := List.getElem_of_mem hvm
  have hvi' : vars[i]? = some v := by rw [List.getElem?_eq_getElem hi, hvi]
  have hself : ∀ (ks : List String), ks.Nodup → ∀ i, (h : i < ks.length) →
      Dict.get? (Dict.ofPairs (ks.zipIdx)) ks[i] = some i := by
    intro ks hks i hi
    rw [Dict.ofPairs_eq_self _ (by simpa using hks)]
    apply Dict.get?_of_mem_nodup
    · simpa [Dict.keys] using hks
    · rw [List.mem_zipIdx_iff_getElem?]; simp [hi]
  have hfd : featuresDict vars = Dict.ofPairs ((vars.map FVar.name).zipIdx) := by
    unfold featuresDict
    congr 1
    rw [List.zipIdx_map]
    rfl
  have hsi : setIndices v = Dict.ofPairs ((v.sets.map FSet.name).zipIdx) := by
    unfold setIndices
    congr 1
    rw [List.zipIdx_map]
    rfl
  refine ⟨i, v, List.range v.sets.length, ?_, hvi', ?_, ?_⟩
  · have := hself (vars.map FVar.name) hv i (by simpa using hi)
    rw [hfd]
    simpa [hvi] using this
  · rw [mapM_ok_iff, List.forall₂_iff_get]
    refine ⟨by simp, ?_⟩
    intro j h1 h2
    rw [Dict.get_eq_ok_iff, hsi]
    have := hself (v.sets.map FSet.name) (hn v hvm) j (by simpa using h1)
    simpa using this
  · simp [hvi']

/-! ### success -/

/-- what growing needs of the sets left: they are in the table and in the variables. -/
def FdOk (vars : List (FVar K)) (Xm : Dict String (Dict String (List K))) (fd : Dict String (List String)) : Prop :=
  ∀ att sets, Dict.get? fd att = some sets → ∃ i v d, Dict.get? (featuresDict vars) att = some i ∧ vars[i]? = some v ∧
    Dict.get? Xm att = some d ∧ ∀ s ∈ sets, (∃ j, Dict.get? (setIndices v) s = some j) ∧
      ∃ m, Dict.get? d s = some m

theorem sumSets_exists {Xm : Dict String (Dict String (List K))} (n : Nat) {f : String} {d : Dict String (List K)}
    (hd : Dict.get? Xm f = some d) (sets : List String) (h : ∀ s ∈ sets, ∃ m, Dict.get? d s = some m) :
    ∃ m, sumSets Xm n f sets = .ok m := by
  unfold sumSets
  obtain ⟨m, h1, -⟩ := foldlM_exists (fun _ : List K => True) sets (f := fun acc s => do
      let d ← Dict.get Xm f
      let m ← Dict.get d s
      pure (List.zipWith (· + ·) acc m)) (by
    intro s hs acc _
    obtain ⟨m, hm⟩ := h s hs
    exact ⟨List.zipWith (· + ·) acc m, by rw [Dict.get_eq_ok_iff.2 hd, py_bind_ok, Dict.get_eq_ok_iff.2 hm]; rfl, trivial⟩)
    (List.replicate n 0) trivial
  exact ⟨m, h1⟩

theorem binaryPartitions_exists [NanSort K] {cats : List String} {vars : List (FVar K)} {Xm : Dict String (Dict String (List K))}
    {fd : Dict String (List String)} (hnd : (Dict.keys fd).Nodup) (h : FdOk vars Xm fd) (pos : List Bool) :
    ∃ parts, binaryPartitions cats Xm pos fd = .ok parts := by
  unfold binaryPartitions
  obtain ⟨l, hl⟩ := forall₂_of_forall_exists (fun (p : String × List String) (r : List BPart) => (do
    let s ← featureOrder cats Xm pos p.1 p.2
    pure (cuts p.1 s)) = (.ok r : Py _)) fd (by
      intro q hq
      obtain ⟨att, sets⟩ := q
      obtain ⟨i, v, d, -, -, hd, hs⟩ := h att sets (Dict.get?_of_mem_nodup hnd hq)
      have : ∃ s, featureOrder cats Xm pos att sets = .ok s := by
        unfold featureOrder
        split
        · rename_i hc
          obtain ⟨ws, hws⟩ := forall₂_of_forall_exists (fun (s : String) (r : String × Option K) =>
            positiveShare Xm pos att s = .ok r) sets (by
              intro s hsm
              obtain ⟨-, m, hm⟩ := hs s hsm
              unfold positiveShare
              rw [Dict.get_eq_ok_iff.2 hd, py_bind_ok, Dict.get_eq_ok_iff.2 hm, py_bind_ok]
              exact ⟨_, rfl⟩)
          rw [(mapM_ok_iff _ _ _).2 hws, py_bind_ok]
          exact ⟨_, rfl⟩
        · exact ⟨_, rfl⟩
      obtain ⟨s, hs⟩ := this
      exact ⟨_, by rw [hs]; rfl⟩)
  rw [(mapM_ok_iff _ _ _).2 hl, py_bind_ok]
  exact ⟨_, rfl⟩

theorem partByValue_exists {ent : List K → List C → K} {Xm : Dict String (Dict String (List K))} {y : List C} {mu : List K}
    (hmu : mu.sum ≠ 0) {q : BPart} {d : Dict String (List K)} (hd : Dict.get? Xm q.1 = some d)
    (hl : ∀ s ∈ q.2.1 ++ q.2.2, ∃ m, Dict.get? d s = some m)
    (st : Option (BBest K (List K)) × Dict String (List K)) : ∃ st', partByValue ent Xm y mu st q = .ok st' := by
  obtain ⟨a, ha⟩ := sumSets_exists y.length hd q.2.1 (fun s hs => hl s (by simp [hs]))
  obtain ⟨b, hb⟩ := sumSets_exists y.length hd q.2.2 (fun s hs => hl s (by simp [hs]))
  unfold partByValue splitGainOf npDiv
  rw [ha, py_bind_ok, hb, py_bind_ok]
  simp only [if_neg hmu, py_bind_ok, py_pure]
  exact ⟨_, rfl⟩

theorem fdOk_step {vars : List (FVar K)} {Xm : Dict String (Dict String (List K))} {fd : Dict String (List String)}
    (h : FdOk vars Xm fd) {att : String} {sets : List String} (hs : Dict.get? fd att = some sets) (s : List String) :
    FdOk vars Xm (Dict.set fd att (sets.filter (fun x => x ∈ s))) := by
  intro att' sets' hs'
  rw [Dict.get?_set] at hs'
  split at hs'
  · rename_i he
    cases hs'
    obtain ⟨i, v, d, h1, h2, h3, h4⟩ := h att sets hs
    subst he
    exact ⟨i, v, d, h1, h2, h3, fun x hx => h4 x (List.mem_filter.1 hx).1⟩
  · exact h att' sets' hs'

theorem grow_exists [NanSort K] {ent : List K → List C → K} {cats : List String} {p : FDTParams K} (hth : 0 < p.fuzzyThreshold)
    {Xm : Dict String (Dict String (List K))} {y : List C} (hX : Table Xm y.length) (hy : y ≠ []) (fuel : Nat) :
    ∀ (depth : Nat) (cur : BNode C K) (used : List String) (ign : Dict String (List K)) (fd : Dict String (List String)),
    p.maxDepth < fuel + depth →
    depth ≤ p.maxDepth → AllFlags y.length used ign → (Dict.keys fd).Nodup → FdOk p.vars Xm fd → 0 < cur.mu.sum →
    ∃ t, growByValue ent cats p Xm y fuel depth cur ign fd = .ok t := by
  induction fuel with
  | zero => intro depth _ _ _ _ h h'; omega
  | succ fuel ih =>
    intro depth cur used ign fd hfuel hdep hf hnd hok hmu
    obtain ⟨c0, hc0⟩ : ∃ c0, (npUnique y)[0]? = some c0 := by
      have : npUnique y ≠ [] := fun e => hy ((npUnique_eq_nil y).1 e)
      exact ⟨_, List.getElem?_eq_getElem (List.length_pos_iff.2 this)⟩
    obtain ⟨parts, hparts⟩ := binaryPartitions_exists hnd hok (y.map (fun c => decide (c = c0)))
    have hm : ∃ r, maxGainByValue ent cats Xm y cur.mu ign fd = .ok r := by
      unfold maxGainByValue
      rw [hc0]
      simp only
      rw [hparts, py_bind_ok]
      obtain ⟨r, hr, -⟩ := foldlM_exists (fun _ => True) parts (f := partByValue ent Xm y cur.mu) (by
        intro q hq st _
        obtain ⟨sets, h1, -, -, h4⟩ := part_bipartition hnd hparts hq
        obtain ⟨i, v, d, -, -, hd, hs⟩ := hok _ _ h1
        obtain ⟨st', h⟩ := partByValue_exists (ent := ent) (y := y) hmu.ne' hd
          (fun s hsm => by exact (hs s (h4.subset hsm)).2) st
        exact ⟨st', h, trivial⟩) (none, ign) trivial
      exact ⟨r, hr⟩
    obtain ⟨⟨best, ign'⟩, hm⟩ := hm
    obtain ⟨_, parts', hc0', hparts', hf', hbest⟩ := maxGainByValue_ok hX hf hm
    rw [hc0] at hc0'; cases hc0'
    rw [hparts] at hparts'; cases hparts'
    rw [growByValue, hm, py_bind_ok]
    simp only
    split_ifs with hstop
    · rw [classValueOf_ok_of_ne hmu.ne', py_bind_ok]
      exact ⟨_, rfl⟩
    · have hns : depth < p.maxDepth := by
        by_contra hc
        apply hstop
        simp only [stopMet, Bool.or_eq_true, decide_eq_true_eq]
        exact .inl (.inr (not_lt.1 hc))
      cases best with
      | none => exact absurd (by simp only [stopMet, Bool.or_eq_true, decide_eq_true_eq]; exact .inr hth) hstop
      | some b =>
        obtain ⟨-, hpart, fl, fr, ml, mr, hml, hmr, hmus⟩ := hbest b rfl
        obtain ⟨sets, hsets, hsl, hsr, hperm⟩ := part_bipartition hnd hparts hpart
        simp only at hsets hsl hsr hperm ⊢
        have hchild : ∀ (s : List String) (m a : List K), s ⊆ sets → Flags y.length a →
            ∃ c, childByValue (growByValue ent cats p Xm y fuel (depth + 1)) p y cur.mu ign' fd b.att s m a = .ok c := by
          intro s m a hsub ha
          obtain ⟨i, v, d, h1, h2, h3, h4⟩ := hok _ _ hsets
          obtain ⟨idxs, hidx⟩ := forall₂_of_forall_exists (fun (x : String) (j : Nat) => Dict.get (setIndices v) x = .ok j) s (by
            intro x hx
            obtain ⟨⟨j, hj⟩, -⟩ := h4 x (hsub hx)
            exact ⟨j, Dict.get_eq_ok_iff.2 hj⟩)
          have htest : childTest p b.att s = .ok ⟨v, i, idxs⟩ := by
            unfold childTest
            rw [Dict.get_eq_ok_iff.2 h1, py_bind_ok, h2]
            simp only [py_bind_ok]
            rw [(mapM_ok_iff _ _ _).2 hidx]
            rfl
          have hrest : restrictDict fd b.att s = .ok (Dict.set fd b.att (sets.filter (fun x => x ∈ s))) := by
            unfold restrictDict
            rw [Dict.get_eq_ok_iff.2 hsets]
            rfl
          unfold childByValue
          rw [htest, py_bind_ok, hrest, py_bind_ok]
          split
          · rename_i hpos
            refine ih (depth + 1) _ (b.att :: used) _ _ (by omega) (by omega) ?_ (Dict.nodup_keys_set _ _ _ hnd) (fdOk_step hok hsets s) hpos
            unfold childIgnored
            split
            · rename_i a' ha'
              exact allFlags_set hf' (flags_max (hf'.1 _ _ ha') ha)
            · exact allFlags_set hf' ha
          · rw [classValueOf_ok_of_ne hmu.ne', py_bind_ok]
            exact ⟨_, rfl⟩
        obtain ⟨l, hl⟩ := hchild b.split.1 b.mus.1 b.ignored.1 (fun x hx => hperm.subset (by simp [hx])) fl
        obtain ⟨r, hr⟩ := hchild b.split.2 b.mus.2 b.ignored.2 (fun x hx => hperm.subset (by simp [hx])) fr
        rw [hl, py_bind_ok, hr, py_bind_ok]
        exact ⟨_, rfl⟩

end Teacher.FB
