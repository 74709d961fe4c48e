import Verif.Lemmas.RoundedB
import Verif.Spec.RoundedB
import Verif.Props.RoundedB
import Verif.Props.FBDTPredict

/-! # C173: binary trees fitted in floating point -/

set_option linter.unusedSectionVars false

namespace Teacher
open Spec FB

variable {C K : Type} [Field K] [LinearOrder K] [IsStrictOrderedRing K]

section table
variable {A : Arith K} {u η : K}

/-- where an entry of the table of degrees comes from. -/
theorem tableF_entry {X : List (List (Cell K))} {vars : List (FVar K)} {Xm : Dict String (Dict String (List K))}
    (h : datasetMembershipF A X vars = .ok Xm) {f : String} {d : Dict String (List K)} (hd : Dict.get? Xm f = some d) {s : String} {m : List K}
    (hm : Dict.get? d s = some m) : ∃ j v col fs, Dict.get? (featuresDict vars) f = some j ∧ vars[j]? = some v ∧ column X j = .ok col ∧
      fs ∈ v.sets ∧ fs.name = s ∧ fs.membershipF A col = .ok m := by
  rcases datasetMembershipF_lookup h f with ⟨h1, -⟩ | ⟨j, v, col, d', h1, h2, -, h4, h5, h6⟩
  · rw [hd] at h1; cases h1
  · rw [hd] at h6; cases h6
    unfold FVar.membershipF at h5
    obtain ⟨ps, hps, h7⟩ := py_bind_eq_ok.1 h5
    cases h7
    have hmem := mem_of_ofPairs_get? _ _ _ hm
    obtain ⟨fs, hfs, hr⟩ := forall₂_mem_right ((mapM_ok_iff _ _ _).1 hps) _ hmem
    obtain ⟨m', hm', he⟩ := py_bind_eq_ok.1 hr
    simp only [py_pure, Except.ok.injEq, Prod.mk.injEq] at he
    obtain ⟨rfl, rfl⟩ := he
    exact ⟨j, v, col, fs, h1, h2, h4, hfs, rfl, hm'⟩

theorem tableF_table {X : List (List (Cell K))} {vars : List (FVar K)} {Xm : Dict String (Dict String (List K))}
    (h : datasetMembershipF A X vars = .ok Xm) {n : Nat} (hn : X.length = n) : Table Xm n := by
  intro f d hd s m hm
  obtain ⟨j, v, col, fs, -, -, h1, -, -, h2⟩ := tableF_entry h hd hm
  rw [← (FSet.membershipF_cells h2).length_eq, column_length h1, hn]

/-- the entries of the table are floating point numbers in [0,1]. -/
def FloatEntries (A : Arith K) (Xm : Dict String (Dict String (List K))) : Prop :=
  ∀ f d, Dict.get? Xm f = some d → ∀ s m, Dict.get? d s = some m → ∀ x ∈ m, 0 ≤ x ∧ x ≤ 1 ∧ IsFloat A x

theorem tableF_entries (hA : Lawful A u η) {X : List (List (Cell K))} {vars : List (FVar K)} {Xm : Dict String (Dict String (List K))}
    (hv : ∀ v ∈ vars, FloatVar A v) (hXf : FloatTable A X) (h : datasetMembershipF A X vars = .ok Xm) : FloatEntries A Xm := by
  intro f d hd s m hm x hx
  obtain ⟨j, v, col, fs, -, h0, h1, h2, -, h3⟩ := tableF_entry h hd hm
  obtain ⟨c, hc, hcx⟩ := forall₂_mem_right (FSet.membershipF_cells h3) x hx
  refine FSet.membershipF_range hA ?_ ?_ hcx
  · rintro c rfl
    exact hv v (List.mem_of_getElem? h0) c h2
  · rintro z rfl
    exact floatColumn hXf h1 z hc

theorem fl_add (hA : Lawful A u η) {a b : K} (ha : 0 ≤ a) (hb : 0 ≤ b) : 0 ≤ A.fl (a + b) ∧ IsFloat A (A.fl (a + b)) := by
  refine ⟨?_, hA.idem _⟩
  have := hA.mono 0 (a + b) (add_nonneg ha hb)
  rwa [hA.zero] at this

theorem sumSetsF_range (hA : Lawful A u η) {Xm : Dict String (Dict String (List K))} {n : Nat} (hX : FloatEntries A Xm) (f : String)
    (sets : List String) (m : List K) (h : sumSetsF A Xm n f sets = .ok m) : ∀ x ∈ m, 0 ≤ x ∧ IsFloat A x := by
  unfold sumSetsF at h
  refine foldlM_inv (fun acc : List K => ∀ x ∈ acc, 0 ≤ x ∧ IsFloat A x) sets ?_ _ _ ?_ h
  · intro s _ acc acc' hacc h
    obtain ⟨d, hd, h1⟩ := py_bind_eq_ok.1 h
    obtain ⟨w, hw, h2⟩ := py_bind_eq_ok.1 h1
    cases h2
    intro x hx
    rw [← List.map_uncurry_zip_eq_zipWith] at hx
    obtain ⟨⟨a, b⟩, hab, rfl⟩ := List.mem_map.1 hx
    have := List.of_mem_zip hab
    exact fl_add hA (hacc a this.1).1 (hX f d (Dict.get_eq_ok_iff.1 hd) s w (Dict.get_eq_ok_iff.1 hw) b this.2).1
  · intro x hx
    rw [List.eq_of_mem_replicate hx]
    exact ⟨le_refl _, hA.zero⟩

theorem _root_.Teacher.FB.SideMemF.range (hA : Lawful A u η) {Xm : Dict String (Dict String (List K))} {n : Nat} (hX : FloatEntries A Xm) (hT : Table Xm n)
    {used : List String} {att : String} {sets : List String} {m : List K} (h : SideMemF A Xm n used att sets m) :
    m.length = n ∧ ∀ x ∈ m, 0 ≤ x ∧ IsFloat A x := by
  obtain ⟨s, hs, h⟩ := h
  have h1 := sumSetsF_length hT _ _ _ hs
  have h2 := sumSetsF_range hA hX _ _ _ hs
  rcases h with ⟨-, rfl⟩ | ⟨-, a, ha, rfl⟩
  · exact ⟨h1, h2⟩
  · refine ⟨by simp [h1, ha.len], ?_⟩
    intro x hx
    rw [← List.map_uncurry_zip_eq_zipWith] at hx
    obtain ⟨⟨a1, b⟩, hab, rfl⟩ := List.mem_map.1 hx
    have hmem := List.of_mem_zip hab
    simp only [Function.uncurry_apply_pair]
    rcases max_choice a1 b with e | e <;> rw [e]
    · exact h2 a1 hmem.1
    · rcases ha.bit b hmem.2 with rfl | rfl
      · exact ⟨le_refl _, hA.zero⟩
      · exact ⟨zero_le_one, hA.one⟩

/-- the memberships of a node are floating point numbers in [0,1]. -/
def FloatDegrees (A : Arith K) (n : Nat) (mu : List K) : Prop := mu.length = n ∧ ∀ x ∈ mu, 0 ≤ x ∧ x ≤ 1 ∧ IsFloat A x

theorem _root_.Teacher.FB.BTraceF.degrees (hA : Lawful A u η) {p : FDTParams K} {Xm : Dict String (Dict String (List K))} {n : Nat} (hX : FloatEntries A Xm)
    (hT : Table Xm n) {used mu fd d ts mu' fd' d'} (h : BTraceF A p Xm n used mu fd d ts mu' fd' d') (hmu : FloatDegrees A n mu) :
    FloatDegrees A n mu' := by
  induction h with
  | nil => exact hmu
  | cons used mu fd d t att sets s m ts mu' fd' d' _ _ _ _ _ hm _ ih =>
    obtain ⟨h1, h2⟩ := SideMemF.range hA hX hT hm
    refine ih ⟨by simp [hmu.1, h1], ?_⟩
    intro x hx
    rw [← List.map_uncurry_zip_eq_zipWith] at hx
    obtain ⟨⟨a, b⟩, hab, rfl⟩ := List.mem_map.1 hx
    have hmem := List.of_mem_zip hab
    simp only [Function.uncurry_apply_pair]
    have ha := hmu.2 a hmem.1
    have hb := h2 b hmem.2
    refine ⟨le_min ha.1 hb.1, (min_le_left _ _).trans ha.2.1, ?_⟩
    rcases min_choice a b with e | e <;> rw [e]
    · exact ha.2.2
    · exact hb.2

/-- an entry of a sum of sets. -/
theorem sumSetsF_entry {Xm : Dict String (Dict String (List K))} {n : Nat} {f : String} {sets : List String} {m : List K}
    (h : sumSetsF A Xm n f sets = .ok m) (j : Nat) (x : K) (hx : m[j]? = some x) :
    ∃ ms, List.Forall₂ (fun s z => ∃ d w, Dict.get? Xm f = some d ∧ Dict.get? d s = some w ∧ w[j]? = some z) sets ms ∧
      x = leftSum A.fl ms := by
  unfold sumSetsF at h
  have gen : ∀ (sets : List String) (acc m : List K) (x : K), sets.foldlM (fun acc s => do
      let d ← Dict.get Xm f
      let m ← Dict.get d s
      pure (List.zipWith (fun a b => A.fl (a + b)) acc m)) acc = (.ok m : Py (List K)) → m[j]? = some x →
      ∃ a ms, acc[j]? = some a ∧ List.Forall₂ (fun s z => ∃ d w, Dict.get? Xm f = some d ∧ Dict.get? d s = some w ∧ w[j]? = some z) sets ms ∧
        x = ms.foldl (fun s x => A.fl (s + x)) a := by
    intro sets
    induction sets with
    | nil =>
      intro acc m x h hx
      simp only [List.foldlM_nil, py_pure, Except.ok.injEq] at h
      subst h
      exact ⟨x, [], hx, .nil, rfl⟩
    | cons s sets ih =>
      intro acc m x h hx
      rw [List.foldlM_cons] at h
      obtain ⟨acc', h1, h2⟩ := py_bind_eq_ok.1 h
      obtain ⟨d, hd, h3⟩ := py_bind_eq_ok.1 h1
      obtain ⟨w, hw, h4⟩ := py_bind_eq_ok.1 h3
      cases h4
      obtain ⟨a, ms, ha, hms, rfl⟩ := ih _ _ x h2 hx
      rw [List.getElem?_zipWith_eq_some] at ha
      obtain ⟨u, v, hu, hv, rfl⟩ := ha
      exact ⟨u, v :: ms, hu, .cons ⟨d, w, Dict.get_eq_ok_iff.1 hd, Dict.get_eq_ok_iff.1 hw, hv⟩ hms, rfl⟩
  obtain ⟨a, ms, ha, hms, rfl⟩ := gen sets _ m x h hx
  have : a = 0 := List.eq_of_mem_replicate (List.mem_of_getElem? ha)
  exact ⟨ms, hms, by rw [this]; rfl⟩

theorem sumSetsF_degree {X : List (List (Cell K))} {p : FDTParams K} {Xm : Dict String (Dict String (List K))}
    (hX : datasetMembershipF A X p.vars = .ok Xm) (hn : ∀ v ∈ p.vars, (v.sets.map FSet.name).Nodup) {att : String} {s : List String}
    {t : BTest K} (ht : childTest p att s = .ok t) {n : Nat} {m : List K} (h : sumSetsF A Xm n att s = .ok m)
    (j : Nat) (row : List (Cell K)) (x : K) (hj : X[j]? = some row) (hx : m[j]? = some x) : BTestDegreeF A row t x := by
  obtain ⟨ms, hms, rfl⟩ := sumSetsF_entry h j x hx
  obtain ⟨h1, h2, -, -, h5⟩ := childTest_ok ht
  refine ⟨ms, ?_, rfl⟩
  rw [mapM_ok_iff] at h5
  generalize t.idxs = idxs at h5
  clear ht h hx
  induction h5 generalizing ms with
  | nil => cases hms; exact .nil
  | @cons s i sets idxs hsi _ ih =>
    cases hms with
    | @cons _ z _ _ hz hms =>
      refine .cons ?_ (ih _ hms)
      obtain ⟨d, w, hd, hw, hz⟩ := hz
      obtain ⟨fs, hfs, hname⟩ := setIndices_get? (Dict.get_eq_ok_iff.1 hsi)
      obtain ⟨j', v, col, fs', e1, e2, e3, e4, e5, e6⟩ := tableF_entry hX hd hw
      rw [h1] at e1; cases e1
      rw [h2] at e2; cases e2
      have hfe : fs' = fs := List.inj_on_of_nodup_map (hn _ (List.mem_of_getElem? h2)) e4 (List.mem_of_getElem? hfs) (by rw [e5, hname])
      subst hfe
      have hcells := FSet.membershipF_cells e6
      rw [column_eq_ok_iff] at e3
      obtain ⟨c, hc⟩ : ∃ c, col[j]? = some c := by
        have := e3.length_eq
        obtain ⟨b1, -⟩ := List.getElem?_eq_some_iff.1 hj
        exact ⟨_, List.getElem?_eq_getElem (by omega)⟩
      have k1 : row[t.att]? = some c := by
        obtain ⟨b1, b2⟩ := List.getElem?_eq_some_iff.1 hj
        obtain ⟨c1, c2⟩ := List.getElem?_eq_some_iff.1 hc
        have := (List.forall₂_iff_get.1 e3).2 j b1 c1
        simpa [b2, c2] using this
      have k2 : fs'.membershipF A [c] = .ok [z] := by
        obtain ⟨b1, b2⟩ := List.getElem?_eq_some_iff.1 hz
        obtain ⟨c1, c2⟩ := List.getElem?_eq_some_iff.1 hc
        have := (List.forall₂_iff_get.1 hcells).2 j c1 b1
        simp only [List.get_eq_getElem, b2, c2] at this
        exact this
      exact ⟨fs', c, hfs, k1, k2⟩

/-- the training membership of a row at the end of a path against its degree in the tests of the path. -/
theorem BTraceF_degrees {X : List (List (Cell K))} {p : FDTParams K} {Xm : Dict String (Dict String (List K))}
    (hX : datasetMembershipF A X p.vars = .ok Xm) (hn : ∀ v ∈ p.vars, (v.sets.map FSet.name).Nodup) {n : Nat} (hT : Table Xm n)
    {used mu fd d ts mu' fd' d'} (h : BTraceF A p Xm n used mu fd d ts mu' fd' d') :
    ∀ (j : Nat) (row : List (Cell K)) (m' : K), X[j]? = some row → mu'[j]? = some m' →
      ∃ m ms, mu[j]? = some m ∧ List.Forall₂ (BTestDegreeF A row) ts ms ∧ (∀ m0, m0 ≤ m → ms.foldl min m0 ≤ m') ∧
        ((ts.map BTest.att).Nodup → (∀ t ∈ ts, t.var.name ∉ used) → m' = ms.foldl min m) := by
  have mono : ∀ (ms : List K) (a b : K), a ≤ b → ms.foldl min a ≤ ms.foldl min b := by
    intro ms
    induction ms with
    | nil => intro a b h; exact h
    | cons m ms ih => intro a b h; exact ih _ _ (min_le_min_right m h)
  induction h with
  | nil => intro j row m' _ hm'; exact ⟨m', [], hm', .nil, fun m0 h => h, fun _ _ => rfl⟩
  | cons used mu fd d t att sets s m ts mu' fd' d' hd hsets hs hsub ht hm htr ih =>
    intro j row m' hj hm'
    obtain ⟨m1, ms, hm1, hms, hle, heq⟩ := ih j row m' hj hm'
    rw [List.getElem?_zipWith_eq_some] at hm1
    obtain ⟨a, b, ha, hb, rfl⟩ := hm1
    obtain ⟨sm, hsm, hcase⟩ := hm
    have hlen := sumSetsF_length hT _ _ _ hsm
    obtain ⟨t1, t2, t3, -, -⟩ := childTest_ok ht
    have hname : t.var.name = att := featuresDict_name t1 t2
    rcases hcase with ⟨hu, rfl⟩ | ⟨hu, fl, hfl, rfl⟩
    · refine ⟨a, b :: ms, ha, .cons (sumSetsF_degree hX hn ht hsm j row b hj hb) hms, ?_, ?_⟩
      · intro m0 hm0
        exact le_trans (mono ms _ _ (min_le_min_right b hm0)) (hle _ le_rfl)
      · intro hnd hused
        rw [List.map_cons, List.nodup_cons] at hnd
        refine heq hnd.2 ?_
        intro t' ht' hc
        rcases List.mem_cons.1 hc with hc | hc
        · apply hnd.1
          have : Dict.get? (featuresDict p.vars) att = some t'.att := by
            have hk := htr.names t' ht'
            rw [hc] at hk
            exact hk
          rw [t1] at this
          rw [Option.some.inj this]
          exact List.mem_map_of_mem ht'
        · exact hused t' (by simp [ht']) hc
    · rw [List.getElem?_zipWith_eq_some] at hb
      obtain ⟨b0, f0, hb0, hf0, rfl⟩ := hb
      refine ⟨a, b0 :: ms, ha, .cons (sumSetsF_degree hX hn ht hsm j row b0 hj hb0) hms, ?_, ?_⟩
      · intro m0 hm0
        exact le_trans (mono ms _ _ (min_le_min hm0 (le_max_left _ _))) (hle _ le_rfl)
      · intro _ hused
        exact absurd (hname ▸ hu) (hused t (by simp))

end table

section fit
variable [LinearOrder C] {A : Arith K} {u η : K}

theorem fbdtFitF_nodes [NanSort K] (hA : Lawful A u η) {ent : List K → List C → K} {p : FDTParams K} {X : List (List (Cell K))} {y : List C}
    {t : BNode C K} (h : fbdtFitF A ent p fbdtNew X y = .ok t) :
    X.length = y.length ∧ ∃ Xm, datasetMembershipF A X p.vars = .ok Xm ∧
      Table Xm y.length ∧ ∀ q ∈ bNodePaths t, ∃ used pmu mu fd d,
        BTraceF A p Xm y.length [] (y.map (fun _ => 1)) (setNames p.vars) 0 q.1 mu fd d ∧ BGrownF A p Xm y used pmu mu fd d q.2 ∧
        ((q.1 = [] ∧ pmu = y.map (fun _ => 1)) ∨ (q.1 ≠ [] ∧ ∃ fd' d', BTraceF A p Xm y.length [] (y.map (fun _ => 1)) (setNames p.vars) 0
          q.1.dropLast pmu fd' d')) := by
  unfold fbdtFitF at h
  obtain ⟨cats, -, h1⟩ := py_bind_eq_ok.1 h
  obtain ⟨_, hX, h2⟩ := py_bind_eq_ok.1 h1
  obtain ⟨n, -, hne, -⟩ := (checkArray_ok_iff X).1 hX
  split at h2
  · cases h2
  · rename_i hlen
    have hlen' := not_not.1 hlen
    obtain ⟨Xm, hXm, h3⟩ := py_bind_eq_ok.1 h2
    obtain ⟨⟨t', heap⟩, h4, h5⟩ := py_bind_eq_ok.1 h3
    cases h5
    have hT := tableF_table hXm hlen'
    have hy : y ≠ [] := by
      intro e
      rw [e] at hlen'
      exact hne (List.length_eq_zero_iff.1 hlen')
    obtain ⟨g1, g2, -, -⟩ := growF_grown hT _ _ _ _ _ _ t heap [] (y.map (fun _ => 1))
      ⟨fun a ha => by simp at ha, fun f r hf => by simp at hf, fun f => by simp⟩ (Dict.nodup_keys_ofPairs _) rfl (sumF_ones_pos hA hy) h4
    refine ⟨hlen', Xm, hXm, hT, ?_⟩
    intro q hq
    obtain ⟨rest, used, pmu, mu, fd, d, h4, h5, h6, h7⟩ := g1.nodes q hq
    have h2' : t.test = none := g2
    rw [h2'] at h4
    have h4' : q.1 = rest := h4
    subst h4'
    exact ⟨used, pmu, mu, fd, d, h5, h6, h7⟩

theorem _root_.Teacher.FB.BTraceF.nodup {p : FDTParams K} {Xm : Dict String (Dict String (List K))} {n : Nat} {used mu fd d ts mu' fd' d'}
    (h : BTraceF A p Xm n used mu fd d ts mu' fd' d') (hfd : ∀ att sets, Dict.get? fd att = some sets → sets.Nodup) :
    ∀ t ∈ ts, t.idxs.Nodup := by
  induction h with
  | nil => simp
  | cons used mu fd d t att sets s m ts mu' fd' d' hd hsets hs hsub ht hm htr ih =>
    intro t' ht'
    have hnd := hfd att sets hsets
    rcases List.mem_cons.1 ht' with rfl | ht'
    · obtain ⟨-, -, h3, -, -⟩ := childTest_ok ht
      obtain ⟨l, hl, hsl⟩ := hsub
      have hsn : s.Nodup := hl.nodup_iff.1 (hsl.nodup hnd)
      have := congrArg Prod.snd h3
      simp only [bClauseOf] at this
      rw [← this] at hsn
      exact hsn.of_map
    · refine ih ?_ t' ht'
      intro att' sets' hs'
      rw [Dict.get?_set] at hs'
      split at hs'
      · cases hs'; exact hnd.filter _
      · exact hfd _ _ hs'

theorem fittedF_idxs_length [NanSort K] (hA : Lawful A u η) {ent : List K → List C → K} {p : FDTParams K}
    (hn : ∀ v ∈ p.vars, (v.sets.map FSet.name).Nodup) {X : List (List (Cell K))} {y : List C} {t : BNode C K}
    (h : fbdtFitF A ent p fbdtNew X y = .ok t) : ∀ q ∈ bNodePaths t, ∀ test ∈ q.1, test.idxs.length ≤ test.var.sets.length := by
  intro q hq test ht
  obtain ⟨-, Xm, -, -, hall⟩ := fbdtFitF_nodes hA h
  obtain ⟨used, pmu, mu, fd, d, h1, -, -⟩ := hall _ hq
  have hnd := h1.nodup (by
    intro att sets hs
    obtain ⟨v, hvm, he⟩ := List.mem_map.1 (mem_of_ofPairs_get? _ _ _ hs)
    simp only [Prod.mk.injEq] at he
    obtain ⟨-, rfl⟩ := he
    exact hn v hvm) test ht
  obtain ⟨-, -, h3⟩ := h1.tests test ht
  have := (hnd.subperm (l₂ := List.range test.var.sets.length) (fun i hi => List.mem_range.2 (h3 i hi))).length_le
  simpa using this

/-- **C173**: a binary tree fitted in floating point, for every rounding, every order of summation and every (rounded) entropy: no path is
longer than `max_depth`; every test is on the variable with its number and a non-empty list of its sets; the stored memberships of a node
are floating point numbers in `[0,1]`, at least the minimum of the degrees computed for the tests of its path, and equal to it if no variable
is tested twice. -/
theorem C173_nodes [NanSort K] (hA : Lawful A u η) (ent : List K → List C → K) (p : FDTParams K)
    (hn : ∀ v ∈ p.vars, (v.sets.map FSet.name).Nodup) (hv : ∀ v ∈ p.vars, FloatVar A v)
    (X : List (List (Cell K))) (hXf : FloatTable A X) (y : List C) (t : BNode C K) (h : fbdtFitF A ent p fbdtNew X y = .ok t) :
    ∀ q ∈ bNodePaths t, q.1.length ≤ p.maxDepth ∧
      (∀ test ∈ q.1, p.vars[test.att]? = some test.var ∧ test.idxs ≠ [] ∧ ∀ i ∈ test.idxs, i < test.var.sets.length) ∧
      List.Forall₂ (fun row m => 0 ≤ m ∧ m ≤ 1 ∧ IsFloat A m ∧ ∃ m0, BLeafDegreeF A row q.1 m0 ∧ m0 ≤ m ∧
        ((q.1.map BTest.att).Nodup → m0 = m)) X q.2.mu := by
  intro q hq
  obtain ⟨hlen, Xm, hXm, hT, hall⟩ := fbdtFitF_nodes hA h
  obtain ⟨used, pmu, mu, fd, d, h1, h2, -⟩ := hall _ hq
  obtain ⟨path, node⟩ := q
  simp only at h1 h2 ⊢
  have hones : FloatDegrees A y.length (y.map (fun _ => (1 : K))) :=
    ⟨by simp, fun x hx => by obtain ⟨_, -, rfl⟩ := List.mem_map.1 hx; exact ⟨zero_le_one, le_rfl, hA.one⟩⟩
  have hmu : node.mu = mu := by cases h2 <;> rfl
  have hdeg := h1.degrees hA (tableF_entries hA hv hXf hXm) hT hones
  refine ⟨?_, h1.tests, ?_⟩
  · by_cases e : path = []
    · simp [e]
    · have := h1.depth.2 e
      rw [h1.depth.1] at this
      omega
  · rw [hmu, List.forall₂_iff_get]
    refine ⟨by rw [hdeg.1, hlen], ?_⟩
    intro j h3 h4
    obtain ⟨m, ms, hm, hms, hle, heq⟩ := BTraceF_degrees hXm hn hT h1 j X[j] mu[j] (List.getElem?_eq_getElem h3)
      (List.getElem?_eq_getElem h4)
    have h1' : m = 1 := by
      have := List.mem_of_getElem? hm
      obtain ⟨_, -, rfl⟩ := List.mem_map.1 this
      rfl
    subst h1'
    obtain ⟨d1, d2, d3⟩ := hdeg.2 mu[j] (List.getElem_mem h4)
    exact ⟨d1, d2, d3, ms.foldl min 1, ⟨ms, hms, rfl⟩, hle 1 le_rfl, fun hnd => (heq hnd (by simp)).symm⟩

/-- **C173**: every split node has exactly two children, on the same variable; with unique names, the sets of the left test and those of the
right test together are exactly the sets that the path leaves of the variable. -/
theorem C173_two_children [NanSort K] (hA : Lawful A u η) (ent : List K → List C → K) (p : FDTParams K)
    (X : List (List (Cell K))) (y : List C) (t : BNode C K) (h : fbdtFitF A ent p fbdtNew X y = .ok t) :
    ∀ q ∈ bNodePaths t, q.2.isLeaf = false → ∃ l r tl tr, q.2.children = [l, r] ∧ l.test = some tl ∧ r.test = some tr ∧
      tl.att = tr.att ∧ tl.var = tr.var ∧ tl.idxs ≠ [] ∧ tr.idxs ≠ [] ∧
      ((p.vars.map FVar.name).Nodup → (∀ v ∈ p.vars, (v.sets.map FSet.name).Nodup) →
        (tl.idxs ++ tr.idxs).Perm (available p.vars q.1 tl.att)) := by
  intro q hq hl
  obtain ⟨-, Xm, -, -, hall⟩ := fbdtFitF_nodes hA h
  obtain ⟨used, pmu, mu, fd, d, h1, h2, -⟩ := hall _ hq
  obtain ⟨path, node⟩ := q
  simp only at h1 h2 hl ⊢
  cases h2 with
  | empty => simp [BNode.isLeaf] at hl
  | leaf => simp [BNode.isLeaf] at hl
  | split _ _ _ _ _ test cv att sets sl sr tl tr ml mr l r hd hp hsets hsl hsr hperm htl htr hml hmr hlt hrt gl gr =>
    obtain ⟨a1, a2, a3, a4, a5⟩ := childTest_ok htl
    obtain ⟨b1, b2, b3, b4, b5⟩ := childTest_ok htr
    rw [a1] at b1
    have hatt := Option.some.inj b1
    have hvar : tl.var = tr.var := by
      rw [← hatt, a2] at b2
      exact Option.some.inj b2
    have hne : ∀ (t : BTest K) s, s ≠ [] → bClauseOf t = (att, s) → t.idxs ≠ [] := by
      intro t s hs hb e
      have := congrArg Prod.snd hb
      simp only [bClauseOf, e, List.map_nil] at this
      exact hs this.symm
    refine ⟨l, r, tl, tr, rfl, hlt, hrt, hatt, hvar, hne tl sl hsl a3, hne tr sr hsr b3, ?_⟩
    intro hv hn
    obtain ⟨-, i, v, idxs, c1, c2, c3, c4⟩ := h1.lists (lists_init hv hn) att sets hsets
    rw [a1] at c1; cases c1
    rw [a2] at c2; cases c2
    obtain ⟨l', hl', hp⟩ := mapM_get_perm hperm c3
    have : (sl ++ sr).mapM (Dict.get (setIndices tl.var)) = .ok (tl.idxs ++ tr.idxs) := by
      rw [hvar] at a5 ⊢
      rw [List.mapM_append, a5, b5]
      rfl
    rw [this] at hl'
    rw [Except.ok.inj hl']
    exact hp.trans c4

/-- **C173**: every leaf has exactly the classes of the training data, in increasing order, with weights in `[0,1]` that are floating point
numbers; they are computed from the memberships of the leaf or, if these are all 0, from memberships of its parent (which are at least the
computed degrees in the tests before the last one, and equal to them if no variable is tested twice): a class without positive memberships
there has exactly weight 0, and a class that has all of them exactly weight 1. -/
theorem C173_leaves [NanSort K] (hA : Lawful A u η) (ent : List K → List C → K) (p : FDTParams K)
    (hn : ∀ v ∈ p.vars, (v.sets.map FSet.name).Nodup) (hv : ∀ v ∈ p.vars, FloatVar A v)
    (X : List (List (Cell K))) (hXf : FloatTable A X) (y : List C) (t : BNode C K) (h : fbdtFitF A ent p fbdtNew X y = .ok t) :
    ∀ q ∈ bNodePaths t, q.2.isLeaf = true → ∃ cv degs, q.2.classValue = some cv ∧ (cv.map Prod.fst).Pairwise (· < ·) ∧
      (∀ c, c ∈ cv.map Prod.fst ↔ c ∈ y) ∧
      ((∃ m ∈ q.2.mu, 0 < m) ∧ degs = q.2.mu ∨ (∀ m ∈ q.2.mu, m = 0) ∧ (∃ m ∈ degs, 0 < m) ∧
        List.Forall₂ (fun row m => ∃ m0, BLeafDegreeF A row q.1.dropLast m0 ∧ m0 ≤ m ∧ ((q.1.dropLast.map BTest.att).Nodup → m0 = m)) X degs) ∧
      ∀ kv ∈ cv, 0 ≤ kv.2 ∧ kv.2 ≤ 1 ∧ IsFloat A kv.2 ∧ ((∀ z ∈ degs.zip y, z.2 = kv.1 → z.1 = 0) → kv.2 = 0) ∧
        ((∀ z ∈ degs.zip y, z.2 ≠ kv.1 → z.1 = 0) → kv.2 = 1) := by
  intro q hq hl
  obtain ⟨hlen, Xm, hXm, hT, hall⟩ := fbdtFitF_nodes hA h
  obtain ⟨used, pmu, mu, fd, d, h1, h2, h3⟩ := hall _ hq
  have hones : FloatDegrees A y.length (y.map (fun _ => (1 : K))) :=
    ⟨by simp, fun x hx => by obtain ⟨_, -, rfl⟩ := List.mem_map.1 hx; exact ⟨zero_le_one, le_rfl, hA.one⟩⟩
  have hent := tableF_entries hA hv hXf hXm
  obtain ⟨path, node⟩ := q
  simp only at h1 h2 h3 hl ⊢
  have hdeg := h1.degrees hA hent hT hones
  cases h2 with
  | leaf _ _ _ _ _ test cv hp hcv =>
    have hr : ∀ m ∈ mu, IsFloat A m ∧ 0 ≤ m := fun m hm => ⟨(hdeg.2 m hm).2.2, (hdeg.2 m hm).1⟩
    obtain ⟨c1, c2, c3⟩ := classValueOfF_ok hA hdeg.1 (fun m hm => (hr m hm).2) hp hcv
    exact ⟨cv, mu, rfl, c1, c2, .inl ⟨(sumF_pos_iff hA hr).1 hp, rfl⟩, c3⟩
  | empty _ _ _ _ _ test cv hp hz hcv =>
    have hr : ∀ m ∈ mu, IsFloat A m ∧ 0 ≤ m := fun m hm => ⟨(hdeg.2 m hm).2.2, (hdeg.2 m hm).1⟩
    obtain ⟨fd', d', htr⟩ : ∃ fd' d', BTraceF A p Xm y.length [] (y.map (fun _ => 1)) (setNames p.vars) 0 path.dropLast pmu fd' d' := by
      rcases h3 with ⟨rfl, rfl⟩ | ⟨-, h3⟩
      · exact ⟨_, _, .nil _ _ _ _⟩
      · exact h3
    have hpd := htr.degrees hA hent hT hones
    have hpr : ∀ m ∈ pmu, IsFloat A m ∧ 0 ≤ m := fun m hm => ⟨(hpd.2 m hm).2.2, (hpd.2 m hm).1⟩
    obtain ⟨c1, c2, c3⟩ := classValueOfF_ok hA hpd.1 (fun m hm => (hpr m hm).2) hp hcv
    refine ⟨cv, pmu, rfl, c1, c2, .inr ⟨?_, (sumF_pos_iff hA hpr).1 hp, ?_⟩, c3⟩
    · intro m hm
      by_contra hne
      exact hz ((sumF_pos_iff hA hr).2 ⟨m, hm, lt_of_le_of_ne (hr m hm).2 (Ne.symm hne)⟩)
    · rw [List.forall₂_iff_get]
      refine ⟨by rw [hpd.1, hlen], ?_⟩
      intro j h3 h4
      obtain ⟨m, ms, hm, hms, hle, heq⟩ := BTraceF_degrees hXm hn hT htr j X[j] pmu[j] (List.getElem?_eq_getElem h3)
        (List.getElem?_eq_getElem h4)
      have h1' : m = 1 := by
        have := List.mem_of_getElem? hm
        obtain ⟨_, -, rfl⟩ := List.mem_map.1 this
        rfl
      subst h1'
      exact ⟨ms.foldl min 1, ⟨ms, hms, rfl⟩, hle 1 le_rfl, fun hnd => (heq hnd (by simp)).symm⟩
  | split => simp [BNode.isLeaf] at hl

theorem FVar.membershipF_keys {v : FVar K} {col : List (Cell K)} {d : Dict String (List K)} (h : v.membershipF A col = .ok d) :
    ∀ s ∈ v.sets.map FSet.name, s ∈ Dict.keys d := by
  intro s hs
  unfold FVar.membershipF at h
  obtain ⟨ps, hps, h1⟩ := py_bind_eq_ok.1 h
  cases h1
  rw [Dict.mem_keys_ofPairs]
  rw [mapM_ok_iff] at hps
  obtain ⟨fs, hfs, rfl⟩ := List.mem_map.1 hs
  obtain ⟨q, hq, hr⟩ := forall₂_mem_left hps fs hfs
  obtain ⟨m, -, hm⟩ := py_bind_eq_ok.1 hr
  cases hm
  exact List.mem_map.2 ⟨_, hq, rfl⟩

/-- **C173**: in floating point, `FBDT.fit` succeeds on every data set on which it succeeds in exact arithmetic (C38), for every rounding,
every order of summation and every entropy, if `fuzzy_threshold > 0`. -/
theorem C173_fit_succeeds [NanSort K] (hA : Lawful A u η) (ent : List K → List C → K) (p : FDTParams K) (hth : 0 < p.fuzzyThreshold)
    (root : BNode C K) (X : List (List (Cell K))) (y : List C) (hR : Rectangular X) (hlen : X.length = y.length)
    (hv : (p.vars.map FVar.name).Nodup) (hsets : ∀ v ∈ p.vars, v.sets ≠ [])
    (hcells : ∀ (i : Nat) v, p.vars[i]? = some v → ∀ row ∈ X, ∃ x, row[i]? = some x ∧
      ∀ s ∈ v.sets, ∃ m, s.membership [x] = .ok [m]) :
    ∃ t, fbdtFitF A ent p root X y = .ok t := by
  obtain ⟨Xm, hXm⟩ := datasetMembershipF_exists (A := A) X p.vars hR hcells
  have hT := tableF_table hXm hlen
  obtain ⟨cats, hcats, -⟩ := categoricalFeatures_ok hsets
  have hy : y ≠ [] := by
    rintro rfl
    obtain ⟨_, _, hne, _⟩ := hR
    exact hne (List.length_eq_zero_iff.1 hlen)
  unfold fbdtFitF
  rw [hcats, py_bind_ok, (checkArray_ok_iff X).2 hR, py_bind_ok, if_neg (by simp [hlen]), hXm, py_bind_ok]
  obtain ⟨t, heap, ht, -⟩ := growF_exists (A := A) (ent := ent) (cats := cats) hth hT hy (p.maxDepth + 1) 0 []
    (.mk root.test root.level (y.map (fun _ => 1)) root.isLeaf root.classValue root.children) [] [] (setNames p.vars) (by omega) (Nat.zero_le _)
    ⟨fun a ha => by simp at ha, fun f r hf => by simp at hf, fun f => by simp⟩ (Dict.nodup_keys_ofPairs _) (by
      intro att sets hs
      have hmem := mem_of_ofPairs_get? _ _ _ hs
      obtain ⟨v, hvm, he⟩ := List.mem_map.1 hmem
      simp only [Prod.mk.injEq] at he
      obtain ⟨rfl, rfl⟩ := he
      rcases datasetMembershipF_lookup hXm v.name with ⟨-, h1⟩ | ⟨j, v', col, d, h1, h2, h3, h4, h5, h6⟩
      · rw [Dict.get?_eq_none_iff, mem_keys_featuresDict] at h1
        exact absurd (List.mem_map_of_mem hvm) h1
      · have hvv : v' = v := List.inj_on_of_nodup_map hv (List.mem_of_getElem? h2) hvm h3
        subst hvv
        refine ⟨j, v', d, h1, h2, h6, ?_⟩
        intro s hsm
        refine ⟨?_, ?_⟩
        · rw [Dict.get?_isSome_iff]
          unfold setIndices
          rw [Dict.mem_keys_ofPairs]
          obtain ⟨fs, hfs, rfl⟩ := List.mem_map.1 hsm
          obtain ⟨i, hi, he⟩ := List.getElem_of_mem hfs
          refine List.mem_map.2 ⟨(fs.name, i), List.mem_map.2 ⟨(fs, i), ?_, rfl⟩, rfl⟩
          rw [List.mem_zipIdx_iff_getElem?]
          simp [hi, he]
        · obtain ⟨m, hm⟩ := (Dict.get?_isSome_iff d s).2 (FVar.membershipF_keys h5 s hsm)
          exact ⟨m, hm⟩) (sumF_ones_pos hA hy)
  rw [ht]
  exact ⟨t, rfl⟩

/-- **C172** for a tree that has been fitted in floating point. -/
theorem C172_fitted [NanSort K] (hA : Lawful A u η) (ent : List K → List C → K) (p : FDTParams K)
    (hn : ∀ v ∈ p.vars, (v.sets.map FSet.name).Nodup) (hv : ∀ v ∈ p.vars, FloatVar A v) (N : Nat)
    (hN : ∀ v ∈ p.vars, v.sets.length ≤ N) (X : List (List (Cell K))) (hXf : FloatTable A X)
    (y : List C) (t : BNode C K) (h : fbdtFitF A ent p fbdtNew X y = .ok t) (v : Voting) (X' : List (List (Cell K))) (hR : Rectangular X')
    (hX' : FloatTable A X') (cs : List C) (hc : List.Forall₂ (fun row c => ∃ L, BRowLeaves min row t L ∧ c ∈ y ∧
      ∀ c', c' ≠ c → vote v L c' + 2 * voteError v u η (unionError u η N) (bLeafPaths t).length < vote v L c) X' cs) :
    fbdtPredictF A min v t X' = .ok [cs] ∧ fbdtPredict min v t X' = .ok [cs] := by
  have hnodes := C173_nodes hA ent p hn hv X hXf y t h
  have hsplit := C173_two_children hA ent p X y t h
  have hb : BBranching t := by
    apply bbranching_of_nodes
    intro q hq hl e
    obtain ⟨l, r, tl, tr, h1, -⟩ := hsplit q hq hl
    rw [h1] at e; cases e
  have hleaf : ∀ q ∈ bLeafPaths t, ∃ cv, q.2 = some cv ∧ (cv.map Prod.fst).Nodup ∧ (∀ c, c ∈ cv.map Prod.fst ↔ c ∈ y) ∧
      ∀ kv ∈ cv, 0 ≤ kv.2 ∧ kv.2 ≤ 1 := by
    intro q hq
    obtain ⟨n, hnn, hl, hcv⟩ := (bLeafPaths_iff t q).1 hq
    obtain ⟨cv, degs, h2, h3, h4, -, h5⟩ := C173_leaves hA ent p hn hv X hXf y t h _ hnn hl
    exact ⟨cv, by rw [← hcv]; exact h2, h3.imp (fun h => h.ne), h4, fun kv hkv => ⟨(h5 kv hkv).1, (h5 kv hkv).2.1⟩⟩
  obtain ⟨q0, hq0⟩ := BBranching.exists_leaf t hb
  refine C172_same_prediction hA v t hb ?_ N ?_ X' hR hX' cs (hc.imp ?_)
  · intro q hq cv hcv
    obtain ⟨cv', h1, h2, -, h3⟩ := hleaf q hq
    rw [hcv] at h1
    cases h1
    exact ⟨h2, h3⟩
  · intro q hq test ht
    obtain ⟨n, hnn, -⟩ := (bLeafPaths_iff t q).1 hq
    obtain ⟨-, h3, -⟩ := hnodes _ hnn
    obtain ⟨k1, k2, k3⟩ := h3 test ht
    have hmem := List.mem_of_getElem? k1
    exact ⟨hv _ hmem, (fittedF_idxs_length hA hn h _ hnn test ht).trans (hN _ hmem)⟩
  · rintro row c ⟨L, hL, hcy, hw⟩
    refine ⟨L, hL, ?_, hw⟩
    obtain ⟨q, hq, h1, -⟩ := forall₂_mem_left hL q0 hq0
    obtain ⟨cv, h2, -, h3, -⟩ := hleaf q0 hq0
    rw [h2] at h1
    cases h1
    exact ⟨q, hq, (h3 c).2 hcy⟩

end fit
/-! ### the exact arithmetic -/

section exact
variable [LinearOrder C]

theorem pySumF_exact (l : List K) : pySumF exactArith l = l.sum := by
  rw [List.sum_eq_foldl]
  rfl

theorem bMaxGainF_exact [NanSort K] (ent : List K → List C → K) (cats : List String) (Xm : Dict String (Dict String (List K))) (y : List C)
    (mu : List K) (ign : Dict String Nat) (fd : Dict String (List String)) (heap : IgnHeap K) :
    bMaxGainF exactArith ent cats Xm y mu ign fd heap = bMaxGain ent cats Xm y mu ign fd heap := by
  have h1 : ∀ pos, binaryPartitionsF exactArith cats Xm pos fd = binaryPartitions cats Xm pos fd := by
    intro pos
    have : ∀ f, positiveShareF exactArith Xm pos f = positiveShare Xm pos f := by
      intro f; funext v
      simp only [positiveShareF, positiveShare, pySumF_exact]
      rfl
    have : ∀ f s, featureOrderF exactArith cats Xm pos f s = featureOrder cats Xm pos f s := by
      intro f s
      simp only [featureOrderF, featureOrder, this]
    simp only [binaryPartitionsF, binaryPartitions, this]
  have h2 : evalPartF exactArith ent Xm y mu ign = evalPart ent Xm y mu ign := by
    funext st part
    rfl
  unfold bMaxGainF bMaxGain
  simp only [h1, h2]
  rfl

/-- without roundings, the computation in floating point is the exact one. -/
theorem fbdtFitF_exact [NanSort K] (ent : List K → List C → K) (p : FDTParams K) (root : BNode C K)
    (X : List (List (Cell K))) (y : List C) : fbdtFitF exactArith ent p root X y = fbdtFit ent p root X y := by
  have hch : ∀ rec (mu : List K) ign fd att sets (childMu : List K) ref heap,
      bFitChildF exactArith rec p y mu ign fd att sets childMu ref heap = bFitChild (C := C) rec p y mu ign fd att sets childMu ref heap := by
    intros
    rfl
  have hrec : ∀ cats Xm (fuel depth : Nat) heap current ign fd, bPartialFitF exactArith ent cats p Xm y fuel depth heap current ign fd =
      bPartialFit ent cats p Xm y fuel depth heap current ign fd := by
    intro cats Xm fuel
    induction fuel with
    | zero => intros; rfl
    | succ fuel ih =>
      intro depth heap current ign fd
      have : bPartialFitF exactArith ent cats p Xm y fuel (depth + 1) = bPartialFit ent cats p Xm y fuel (depth + 1) := by
        funext heap current ign fd
        exact ih _ _ _ _ _
      simp only [bPartialFitF, bPartialFit, bMaxGainF_exact, this, hch]
      rfl
  unfold fbdtFitF fbdtFit
  simp only [datasetMembershipF_exact, hrec]

theorem bPartialPredictF_exact (T : K → K → K) (X : List (List (Cell K))) (t : BNode C K) : ∀ mu : List K,
    bPartialPredictF exactArith T X mu t = bPartialPredict T X mu t := by
  have hmu : ∀ (mu : List K) (test : Option (BTest K)), bnodeMuF exactArith T X mu test = bnodeMu T X mu test := by
    intro mu test
    unfold bnodeMuF bnodeMu pertDegreeF pertDegree
    simp only [FSet.membershipF_exact]
    rfl
  induction t using BNode.induction with
  | h test level m isLeaf cv children ih =>
    intro mu
    have hl : ∀ (cs : List (BNode C K)), (∀ c ∈ cs, ∀ mu, bPartialPredictF exactArith T X mu c = bPartialPredict T X mu c) → ∀ mu,
        bPartialPredictListF exactArith T X mu cs = bPartialPredictList T X mu cs := by
      intro cs
      induction cs with
      | nil => intro _ _; rfl
      | cons c cs ihc =>
        intro h mu
        simp only [bPartialPredictListF, bPartialPredictList, h c (by simp), ihc (fun c hc => h c (by simp [hc]))]
    cases children with
    | nil => simp only [bPartialPredictF, bPartialPredict, hmu]
    | cons c cs =>
      simp only [bPartialPredictF, bPartialPredict, hmu, ih c (by simp), hl cs (fun c hc => ih c (by simp [hc]))]

/-- without roundings, the prediction in floating point is the exact one. -/
theorem fbdtPredictF_exact (T : K → K → K) (v : Voting) (t : BNode C K) (X : List (List (Cell K))) :
    fbdtPredictF exactArith T v t X = fbdtPredict T v t X := by
  unfold fbdtPredictF fbdtPredict BNode.predictF BNode.predict
  simp only [bPartialPredictF_exact, Voting.runF_exact]

end exact
end Teacher
