import Verif.Props.FDTSplits
import Verif.Props.FBDTFit

/-! C116: where FBDT splits, and how. -/

set_option linter.unusedSectionVars false

namespace Teacher
open Spec FB

variable {C K : Type} [Field K] [LinearOrder K] [IsStrictOrderedRing K] [LinearOrder C]

/-! ### the best candidate -/

/-- the gain of the best candidate, 0 without one. -/
def bestGain {I : Type} : Option (BBest K I) → K
  | none => 0
  | some b => b.gain

theorem sideByValue_unused {n : Nat} {used : List String} {ign : Dict String (List K)} (hf : AllFlags n used ign) {f : String}
    (hu : f ∉ used) (s : List K) : (sideByValue n ign f s).1 = s ∧ (sideByValue n ign f s).2.2 = ign := by
  unfold sideByValue
  rw [(hf.2 f).2 hu]
  exact ⟨rfl, rfl⟩

theorem foldParts_best {ent : List K → List C → K} {Xm : Dict String (Dict String (List K))} {y : List C} (hX : Table Xm y.length)
    {used : List String} {mu : List K} (parts : List BPart) :
    ∀ (st st' : Option (BBest K (List K)) × Dict String (List K)), AllFlags y.length used st.2 →
    parts.foldlM (partByValue ent Xm y mu) st = .ok st' →
    bestGain st.1 ≤ bestGain st'.1 ∧
    (∀ q ∈ parts, q.1 ∉ used → ∃ lm rm g, sumSets Xm y.length q.1 q.2.1 = .ok lm ∧ sumSets Xm y.length q.1 q.2.2 = .ok rm ∧
      splitGainOf ent y mu (List.zipWith min mu lm) (List.zipWith min mu rm) = .ok g ∧ g ≤ bestGain st'.1) ∧
    (st'.1 = st.1 ∨ ∃ b, st'.1 = some b ∧ splitGainOf ent y mu b.mus.1 b.mus.2 = .ok b.gain) := by
  induction parts with
  | nil =>
    intro st st' _ h
    simp only [List.foldlM_nil, py_pure, Except.ok.injEq] at h
    subst h
    exact ⟨le_rfl, by simp, .inl rfl⟩
  | cons q parts ih =>
    intro st st' hf h
    rw [List.foldlM_cons] at h
    obtain ⟨st1, hq, h1⟩ := py_bind_eq_ok.1 h
    obtain ⟨lm, hl, e1⟩ := py_bind_eq_ok.1 hq
    obtain ⟨rm, hr, e2⟩ := py_bind_eq_ok.1 e1
    obtain ⟨g, hg, e3⟩ := py_bind_eq_ok.1 e2
    obtain ⟨-, -, l3⟩ := sideByValue_spec hX hf hl
    obtain ⟨-, -, r3⟩ := sideByValue_spec hX l3 hr
    cases e3
    obtain ⟨i1, i2, i3⟩ := ih _ _ r3 h1
    simp only at i1 i3
    have hlt_iff : ∀ hp : Prop, hp = (bestGain st.1 < g) → (hp ↔ bestGain st.1 < g) := fun _ e => by rw [e]
    have hle : bestGain st.1 ≤ bestGain st'.1 ∧ g ≤ bestGain st'.1 := by
      split_ifs at i1 with hlt
      · have h2 : g ≤ bestGain st'.1 := i1
        have h3 : bestGain st.1 < g := (hlt_iff _ (by cases st.1 <;> rfl)).1 hlt
        exact ⟨h3.le.trans h2, h2⟩
      · have h3 : ¬ bestGain st.1 < g := fun h3 => hlt ((hlt_iff _ (by cases st.1 <;> rfl)).2 h3)
        exact ⟨i1, (not_lt.1 h3).trans i1⟩
    refine ⟨hle.1, ?_, ?_⟩
    · intro q' hq' hu
      rcases List.mem_cons.1 hq' with rfl | hq'
      · refine ⟨lm, rm, g, hl, hr, ?_, hle.2⟩
        obtain ⟨a1, a2⟩ := sideByValue_unused hf hu lm
        obtain ⟨b1, -⟩ := sideByValue_unused l3 hu rm
        rwa [a1, b1] at hg
      · exact i2 q' hq' hu
    · rcases i3 with i3 | i3
      · split_ifs at i3 with hlt
        · exact .inr ⟨_, i3, hg⟩
        · exact .inl i3
      · exact .inr i3

theorem maxGain_best [NanSort K] {ent : List K → List C → K} {cats : List String} {Xm : Dict String (Dict String (List K))} {y : List C}
    (hX : Table Xm y.length) {used : List String} {mu : List K} {ign ign' : Dict String (List K)} (hf : AllFlags y.length used ign)
    {fd : Dict String (List String)} {best : Option (BBest K (List K))}
    (h : maxGainByValue ent cats Xm y mu ign fd = .ok (best, ign')) :
    ∃ c0 parts, (npUnique y)[0]? = some c0 ∧ binaryPartitions cats Xm (y.map (fun c => decide (c = c0))) fd = .ok parts ∧
      0 ≤ bestGain best ∧
      (∀ q ∈ parts, q.1 ∉ used → ∃ lm rm g, sumSets Xm y.length q.1 q.2.1 = .ok lm ∧ sumSets Xm y.length q.1 q.2.2 = .ok rm ∧
        splitGainOf ent y mu (List.zipWith min mu lm) (List.zipWith min mu rm) = .ok g ∧ g ≤ bestGain best) ∧
      ∀ b, best = some b → 0 < b.gain ∧ splitGainOf ent y mu b.mus.1 b.mus.2 = .ok b.gain := by
  obtain ⟨_, _, _, _, _, hb⟩ := maxGainByValue_ok hX hf h
  unfold maxGainByValue at h
  cases hc : (npUnique y)[0]? with
  | none => rw [hc] at h; cases h
  | some c0 =>
    rw [hc] at h
    obtain ⟨parts, hp, h1⟩ := py_bind_eq_ok.1 h
    obtain ⟨i1, i2, i3⟩ := foldParts_best hX parts _ _ hf h1
    refine ⟨c0, parts, rfl, hp, i1, i2, ?_⟩
    intro b e
    refine ⟨(hb b e).1, ?_⟩
    rcases i3 with i3 | ⟨b', e', i3⟩
    · simp only at i3; rw [e] at i3; cases i3
    · simp only at e'; rw [e] at e'; cases e'; exact i3

/-! ### what was decided at a node -/

/-- the decision at a node: `used` are the features tested above it. -/
def BDecision [NanSort K] (ent : List K → List C → K) (cats : List String) (p : FDTParams K) (Xm : Dict String (Dict String (List K))) (y : List C)
    (fd0 : Dict String (List String)) (used : List String) (depth : Nat) (n : BNode C K) : Prop :=
  ∃ ign fd best ign', AllFlags y.length used ign ∧ (Dict.keys fd).Nodup ∧ (∀ f, f ∉ used → Dict.get? fd f = Dict.get? fd0 f) ∧
    maxGainByValue ent cats Xm y n.mu ign fd = .ok (best, ign') ∧
    ((n.isLeaf = true ∧ stopMet p (bestGain best) (maskedY n.mu y) depth = true) ∨
     (n.isLeaf = false ∧ stopMet p (bestGain best) (maskedY n.mu y) depth = false ∧
      ∃ b l r, best = some b ∧ n.children = [l, r] ∧ l.mu = b.mus.1 ∧ r.mu = b.mus.2))

theorem growByValue_top [NanSort K] {ent : List K → List C → K} {cats : List String} {p : FDTParams K}
    {Xm : Dict String (Dict String (List K))} {y : List C} {fuel depth : Nat} {cur : BNode C K} {ign : Dict String (List K)}
    {fd : Dict String (List String)} {t : BNode C K} (h : growByValue ent cats p Xm y fuel depth cur ign fd = .ok t) :
    t.test = cur.test ∧ t.mu = cur.mu := by
  cases fuel with
  | zero => cases h
  | succ fuel =>
    rw [growByValue] at h
    obtain ⟨⟨best, ign'⟩, hm, h1⟩ := py_bind_eq_ok.1 h
    simp only at h1
    split_ifs at h1 with hstop
    · obtain ⟨cv, hcv, h2⟩ := py_bind_eq_ok.1 h1
      cases h2; exact ⟨rfl, rfl⟩
    · cases best with
      | none => cases h1
      | some b =>
        obtain ⟨l, hl, h2⟩ := py_bind_eq_ok.1 h1
        obtain ⟨r, hr, h3⟩ := py_bind_eq_ok.1 h2
        cases h3; exact ⟨rfl, rfl⟩

theorem grow_decisions [NanSort K] {ent : List K → List C → K} {cats : List String} {p : FDTParams K}
    {Xm : Dict String (Dict String (List K))} {y : List C} (hX : Table Xm y.length) (fuel : Nat) :
    ∀ (depth : Nat) (cur : BNode C K) (ign : Dict String (List K)) (fd : Dict String (List String)) (t : BNode C K)
    (used : List String), AllFlags y.length used ign → (Dict.keys fd).Nodup → cur.children = [] →
    growByValue ent cats p Xm y fuel depth cur ign fd = .ok t →
    ∀ q ∈ bNodePaths t, ∃ rest, q.1 = t.test.toList ++ rest ∧
      ((∃ used', (∀ f, f ∈ used' ↔ f ∈ used ∨ ∃ tst ∈ rest, tst.var.name = f) ∧
          BDecision ent cats p Xm y fd used' (depth + rest.length) q.2) ∨
        (q.2.isLeaf = true ∧ ¬ 0 < q.2.mu.sum)) := by
  induction fuel with
  | zero => intro _ _ _ _ _ _ _ _ _ h; cases h
  | succ fuel ih =>
    intro depth cur ign fd t used hf hnd hch h q hq
    rw [growByValue] at h
    obtain ⟨⟨best, ign'⟩, hm, h1⟩ := py_bind_eq_ok.1 h
    obtain ⟨c0, parts, hc0, hparts, hf', hbest⟩ := maxGainByValue_ok hX hf hm
    simp only at h1
    split_ifs at h1 with hstop
    · obtain ⟨cv, hcv, h2⟩ := py_bind_eq_ok.1 h1
      cases h2
      simp only [bNodePaths, if_true, List.mem_singleton] at hq
      subst hq
      exact ⟨[], by simp [BNode.test], .inl ⟨used, by simp, ign, fd, best, ign', hf, hnd, fun _ _ => rfl, hm,
        .inl ⟨rfl, by cases best <;> exact hstop⟩⟩⟩
    · cases best with
      | none => cases h1
      | some b =>
        obtain ⟨-, hpart, fl, fr, -⟩ := hbest b rfl
        simp only at h1
        obtain ⟨l, hl, h2⟩ := py_bind_eq_ok.1 h1
        obtain ⟨r, hr, h3⟩ := py_bind_eq_ok.1 h2
        cases h3
        have hchild : ∀ (s : List String) (m a : List K) (c : BNode C K), Flags y.length a →
            childByValue (growByValue ent cats p Xm y fuel (depth + 1)) p y cur.mu ign' fd b.att s m a = .ok c →
            c.mu = m ∧ ∃ tc, c.test = some tc ∧ tc.var.name = b.att ∧
              ∀ q ∈ bNodePaths c, ∃ rest, q.1 = tc :: rest ∧
              ((∃ used', (∀ f, f ∈ used' ↔ f ∈ used ∨ ∃ tst ∈ tc :: rest, tst.var.name = f) ∧
                  BDecision ent cats p Xm y fd used' (depth + (rest.length + 1)) q.2) ∨
                (q.2.isLeaf = true ∧ ¬ 0 < q.2.mu.sum)) := by
          intro s m a c ha hc
          unfold childByValue at hc
          obtain ⟨tc, htc, hc1⟩ := py_bind_eq_ok.1 hc
          obtain ⟨fd', hfd, hc2⟩ := py_bind_eq_ok.1 hc1
          have hname : tc.var.name = b.att := by
            obtain ⟨n1, n2, -⟩ := childTest_ok htc
            exact featuresDict_name n1 n2
          obtain ⟨sets, hfd'⟩ : ∃ sets, fd' = Dict.set fd b.att sets := by
            unfold restrictDict at hfd
            obtain ⟨l, -, e⟩ := py_bind_eq_ok.1 hfd
            cases e
            exact ⟨_, rfl⟩
          subst hfd'
          split at hc2
          · have hfl : AllFlags y.length (b.att :: used) (childIgnored ign' b.att a) := by
              unfold childIgnored
              split
              · rename_i a' ha'
                exact allFlags_set hf' (flags_max (hf'.1 _ _ ha') ha)
              · exact allFlags_set hf' ha
            obtain ⟨g1, g2⟩ := growByValue_top hc2
            refine ⟨g2, tc, g1, hname, ?_⟩
            intro q hq
            obtain ⟨rest, r1, r2⟩ := ih (depth + 1) _ _ _ c (b.att :: used) hfl (Dict.nodup_keys_set _ _ _ hnd) rfl hc2 q hq
            rw [g1] at r1
            refine ⟨rest, by simpa [BNode.fresh, BNode.test] using r1, ?_⟩
            rcases r2 with ⟨used', u1, ign2, fd2, best2, ign2', d1, d2, d3, d4, d5⟩ | r2
            · refine .inl ⟨used', ?_, ign2, fd2, best2, ign2', d1, d2, ?_, d4, ?_⟩
              · intro f
                rw [u1]
                simp only [List.mem_cons, exists_eq_or_imp, hname]
                constructor
                · rintro ((rfl | h) | h)
                  · exact .inr (.inl rfl)
                  · exact .inl h
                  · exact .inr (.inr h)
                · rintro (h | rfl | h)
                  · exact .inl (.inr h)
                  · exact .inl (.inl rfl)
                  · exact .inr h
              · intro f hfu
                rw [d3 f hfu, Dict.get?_set, if_neg]
                rintro rfl
                exact hfu ((u1 _).2 (.inl (by simp)))
              · rw [show depth + (rest.length + 1) = depth + 1 + rest.length by omega]
                exact d5
            · exact .inr r2
          · rename_i hz
            obtain ⟨cv, hcv, hc3⟩ := py_bind_eq_ok.1 hc2
            cases hc3
            refine ⟨rfl, tc, rfl, hname, ?_⟩
            intro q hq
            simp only [bNodePaths, if_true, List.mem_singleton] at hq
            subst hq
            exact ⟨[], by simp, .inr ⟨rfl, hz⟩⟩
        obtain ⟨ml, tl, htl, -, hpl⟩ := hchild _ _ _ l fl hl
        obtain ⟨mr, tr, htr, -, hpr⟩ := hchild _ _ _ r fr hr
        simp only [bNodePaths, Bool.false_eq_true, if_false, bNodePathsList_eq, List.mem_cons, List.mem_map, List.mem_flatMap,
          hch, List.nil_append, List.not_mem_nil, or_false] at hq
        rcases hq with rfl | ⟨q', ⟨c, hc, hq'⟩, rfl⟩
        · exact ⟨[], by simp [BNode.test], .inl ⟨used, by simp, ign, fd, some b, ign', hf, hnd, fun _ _ => rfl, hm,
            .inr ⟨rfl, Bool.eq_false_of_not_eq_true hstop, b, l, r, rfl, rfl, ml, mr⟩⟩⟩
        · rcases hc with rfl | rfl
          · obtain ⟨rest, r1, r2⟩ := hpl q' hq'
            exact ⟨tl :: rest, by simp [BNode.test, r1], r2⟩
          · obtain ⟨rest, r1, r2⟩ := hpr q' hq'
            exact ⟨tr :: rest, by simp [BNode.test, r1], r2⟩

/-! ### candidates -/

theorem filter_split {α : Type} (P : α → Bool) (l : List α) (h : l.Pairwise (fun a b => P b = true → P a = true)) :
    l.filter P ++ l.filter (fun a => !P a) = l := by
  induction h with
  | nil => rfl
  | @cons a l ha _ ih =>
    cases hP : P a with
    | true => simp [hP, ih]
    | false =>
      have hno : ∀ b ∈ l, P b = false := by
        intro b hb
        by_contra hc
        have := ha b hb (by simpa using hc)
        rw [hP] at this; cases this
      have h1 : l.filter P = [] := List.filter_eq_nil_iff.2 (fun b hb => by simp [hno b hb])
      have h2 : l.filter (fun a => !P a) = l := List.filter_eq_self.2 (fun b hb => by simp [hno b hb])
      simp [hP, h1, h2]

/-- name of set number `i`. -/
def setName (v : FVar K) (i : Nat) : String := ((v.sets.map FSet.name)[i]?).getD ""

theorem map_setName_range (v : FVar K) : (List.range v.sets.length).map (setName v) = v.sets.map FSet.name := by
  refine List.ext_getElem (by simp) ?_
  intro i h1 h2
  simp at h1
  simp [setName, h1]

/-- the memberships of a candidate are those of the specification. -/
theorem sumSets_union {Xm : Dict String (Dict String (List K))} {n : Nat} (hT : Table Xm n) {v : FVar K}
    {d : Dict String (List K)} (hd : Dict.get? Xm v.name = some d) (hk : Dict.keys d = v.sets.map FSet.name)
    (hnd : (v.sets.map FSet.name).Nodup) {sets : List String} {idxs : List Nat} (hi : ∀ i ∈ idxs, i < v.sets.length)
    (hp : sets.Perm (idxs.map (setName v))) {m : List K} (h : sumSets Xm n v.name sets = .ok m) :
    m = unionDegrees n (d.map Prod.snd) idxs := by
  have hlen := sumSets_length hT _ _ _ h
  refine List.ext_getElem (by simp [unionDegrees, hlen]) ?_
  intro j h1 h2
  obtain ⟨ms, hms, hx⟩ := sumSets_entry h j m[j] (List.getElem?_eq_getElem h1)
  have hms' : ms = sets.map (fun s => ((Dict.get? d s).getD []).getD j 0) := by
    clear h hp hx
    induction hms with
    | nil => rfl
    | cons hz _ ih =>
      obtain ⟨d', w, e1, e2, e3⟩ := hz
      rw [hd] at e1; cases e1
      rw [List.map_cons, ← ih, e2]
      simp [e3]
  rw [hx, hms', (hp.map _).sum_eq, List.map_map]
  simp only [unionDegrees, List.getElem_map, List.getElem_range]
  congr 1
  refine List.map_congr_left ?_
  intro i hi'
  have hil := hi i hi'
  have hdl : d.length = v.sets.length := by
    have := congrArg List.length hk
    simpa [Dict.keys] using this
  have hkey : d[i].1 = setName v i := by
    have e : (Dict.keys d)[i]? = (v.sets.map FSet.name)[i]? := by rw [hk]
    simp only [setName, ← e]
    simp [Dict.keys, hdl, hil]
  have := Dict.get?_of_mem_nodup (by rw [hk]; exact hnd) (k := d[i].1) (v := d[i].2) (List.getElem_mem (by omega))
  simp only [Function.comp_apply]
  rw [← hkey, this]
  simp [hdl, hil]

theorem setShare_eq (y : List C) (c : C) (m : List K) :
    setShare y c m = (((m.zip (y.map (fun c' => decide (c' = c)))).filter Prod.snd).map Prod.fst).sum / m.sum := by
  unfold setShare
  congr 2
  induction m generalizing y with
  | nil => simp
  | cons a m ih =>
    cases y with
    | nil => simp
    | cons b y =>
      by_cases hb : b = c
      · simp [hb, ih]
      · simp [hb, ih]

theorem first_class {y : List C} {c0 : C} (h : (npUnique y)[0]? = some c0) : c0 ∈ y ∧ ∀ c ∈ y, c0 ≤ c := by
  have h0 := List.mem_of_getElem? h
  refine ⟨(mem_npUnique _ _).1 h0, ?_⟩
  intro c hc
  have hc' := (mem_npUnique y c).2 hc
  have hp := npUnique_pairwise y
  cases hl : npUnique y with
  | nil => rw [hl] at hc'; simp at hc'
  | cons a l =>
    rw [hl] at h hp hc'
    simp only [List.getElem?_cons_zero, Option.some.injEq] at h
    subst h
    rcases List.mem_cons.1 hc' with rfl | hc'
    · exact le_rfl
    · exact (List.rel_of_pairwise_cons hp hc').le

/-- a candidate of the specification is, up to the order of the sets, a candidate of the code. -/
theorem candidate_part [NanSort K] {cats : List String} {vars : List (FVar K)} (hcats : ∀ f, f ∈ cats ↔ ∃ v ∈ vars, v.name = f ∧ ∃ d, v.sets[0]? = some (.disc d))
    (hnames : (vars.map FVar.name).Nodup) (hs : ProperSets vars) {X : List (List (Cell K))} {y : List C}
    {Xm : Dict String (Dict String (List K))} (hXm : datasetMembership X vars = .ok Xm) {c0 : C} (hc0 : (npUnique y)[0]? = some c0)
    {fd : Dict String (List String)} {parts : List BPart}
    (hparts : binaryPartitions cats Xm (y.map (fun c => decide (c = c0))) fd = .ok parts)
    {path : List (BTest K)} {j : Nat} {v : FVar K} {D : List (List K)} {left right : List Nat}
    (hcand : BCandidate vars X y path j v D left right) (hfd : Dict.get? fd v.name = some (v.sets.map FSet.name))
    {d : Dict String (List K)} (hd : Dict.get? Xm v.name = some d) :
    ∃ q ∈ parts, q.1 = v.name ∧ q.2.1.Perm (left.map (setName v)) ∧ q.2.2.Perm (right.map (setName v)) ∧
      (∀ i ∈ left, i < v.sets.length) ∧ ∀ i ∈ right, i < v.sets.length := by
  obtain ⟨hv, -, hD, hl, hr, hcont, hdisc⟩ := hcand
  have hvm := List.mem_of_getElem? hv
  obtain ⟨hne, hnd⟩ := hs v hvm
  obtain ⟨hD', hk⟩ := setDegrees_table hXm hnames (fun v hv => (hs v hv).2) hv hd
  have hDD := hD.unique hD'
  obtain ⟨s0, ss, hss⟩ := List.exists_cons_of_ne_nil hne
  have h0 : v.sets[0]? = some s0 := by rw [hss]; rfl
  have hperm : (left ++ right).Perm (List.range v.sets.length) := by
    cases s0 with
    | cont s => rw [hcont s h0]
    | disc s => exact (hdisc s h0).2.1
  have hlt : ∀ i ∈ left ++ right, i < v.sets.length := fun i hi => List.mem_range.1 (hperm.mem_iff.1 hi)
  have hb : (∀ i ∈ left, i < v.sets.length) ∧ ∀ i ∈ right, i < v.sets.length :=
    ⟨fun i hi => hlt i (by simp [hi]), fun i hi => hlt i (by simp [hi])⟩
  have hpn : (left.map (setName v) ++ right.map (setName v)).Perm (v.sets.map FSet.name) := by
    have := hperm.map (setName v)
    rwa [List.map_append, map_setName_range] at this
  cases s0 with
  | cont s =>
    have hnc : v.name ∉ cats := by
      rw [hcats]
      rintro ⟨v', hv', e, dd, hdd⟩
      have : v' = v := List.inj_on_of_nodup_map hnames hv' hvm e
      subst this
      rw [h0] at hdd; cases hdd
    have hfo : featureOrder cats Xm (y.map (fun c => decide (c = c0))) v.name (v.sets.map FSet.name) = .ok (v.sets.map FSet.name) := by
      unfold featureOrder; rw [if_neg hnc]
    refine ⟨(v.name, left.map (setName v), right.map (setName v)), ?_, rfl, List.Perm.refl _, List.Perm.refl _, hb⟩
    refine (mem_binaryPartitions hparts _).2 ⟨_, _, _, Dict.mem_of_get? hfd, hfo, mem_cuts_iff.2 ⟨rfl, by simpa using hl, by simpa using hr, ?_⟩⟩
    simp only [← List.map_append]
    rw [hcont s h0, map_setName_range]
  | disc s =>
    have hc : v.name ∈ cats := (hcats _).2 ⟨v, hvm, rfl, s, h0⟩
    obtain ⟨l, hl1, -⟩ := py_bind_eq_ok.1 hparts
    rw [mapM_ok_iff] at hl1
    obtain ⟨cs, -, hcs⟩ := forall₂_mem_left hl1 _ (Dict.mem_of_get? hfd)
    obtain ⟨so, hso, -⟩ := py_bind_eq_ok.1 hcs
    simp only at hso
    obtain ⟨hcy, hcmin⟩ := first_class hc0
    have hsep := (hdisc s h0).2.2 c0 hcy hcmin
    have hsort := featureOrder_sorted hso hc (fun s => setShare y c0 ((Dict.get? d s).getD [])) (by
      intro d' s m e1 e2
      rw [hd] at e1; cases e1
      simp only [e2, Option.getD_some]
      exact setShare_eq y c0 m) (by
      intro d' m s hs' e1 e2
      rw [hd] at e1; cases e1
      exact ((hdisc _ h0).1 m (by rw [hDD]; exact List.mem_map.2 ⟨_, Dict.mem_of_get? e2, rfl⟩)).ne')
    have hval : ∀ i, i < v.sets.length → (Dict.get? d (setName v i)).getD [] = D.getD i [] := by
      intro i hi
      have hdl : d.length = v.sets.length := by
        have := congrArg List.length hk
        simpa [Dict.keys] using this
      have hkey : d[i].1 = setName v i := by
        have e : (Dict.keys d)[i]? = (v.sets.map FSet.name)[i]? := by rw [hk]
        simp only [setName, ← e]
        simp [Dict.keys, hdl, hi]
      have := Dict.get?_of_mem_nodup (by rw [hk]; exact hnd) (k := d[i].1) (v := d[i].2) (List.getElem_mem (by omega))
      rw [← hkey, this, hDD]
      simp [hdl, hi]
    have hsep' : ∀ a ∈ left.map (setName v), ∀ b ∈ right.map (setName v),
        setShare y c0 ((Dict.get? d a).getD []) < setShare y c0 ((Dict.get? d b).getD []) := by
      intro a ha b hb'
      obtain ⟨i, hi, rfl⟩ := List.mem_map.1 ha
      obtain ⟨i', hi', rfl⟩ := List.mem_map.1 hb'
      rw [hval i (hb.1 i hi), hval i' (hb.2 i' hi')]
      exact hsep i hi i' hi'
    have hpo : so.Perm (left.map (setName v) ++ right.map (setName v)) := (featureOrder_perm hso).trans hpn.symm
    have hsplit := filter_split (fun s => decide (s ∈ left.map (setName v))) so (by
      refine hsort.imp_of_mem ?_
      intro a b ha hb' hab hbl
      have hbl' := of_decide_eq_true hbl
      rcases List.mem_append.1 (hpo.mem_iff.1 ha) with h | h
      · exact decide_eq_true h
      · exact absurd hab (not_le.2 (hsep' b hbl' a h)))
    have hdisj : ∀ b ∈ right.map (setName v), b ∉ left.map (setName v) := fun b hb' hbl => lt_irrefl _ (hsep' b hbl b hb')
    have hL : (so.filter (fun s => decide (s ∈ left.map (setName v)))).Perm (left.map (setName v)) := by
      have := hpo.filter (fun s => decide (s ∈ left.map (setName v)))
      have f1 := List.filter_eq_self.2 (fun a (ha : a ∈ left.map (setName v)) => decide_eq_true ha)
      have f2 : (right.map (setName v)).filter (fun s => decide (s ∈ left.map (setName v))) = [] :=
        List.filter_eq_nil_iff.2 (fun a ha => by rw [decide_eq_true_iff]; exact hdisj a ha)
      rw [List.filter_append, f1, f2, List.append_nil] at this
      exact this
    have hR : (so.filter (fun s => !decide (s ∈ left.map (setName v)))).Perm (right.map (setName v)) := by
      have := hpo.filter (fun s => !decide (s ∈ left.map (setName v)))
      have f1 : (left.map (setName v)).filter (fun s => !decide (s ∈ left.map (setName v))) = [] :=
        List.filter_eq_nil_iff.2 (fun a ha => by rw [decide_eq_true ha]; decide)
      have f2 : (right.map (setName v)).filter (fun s => !decide (s ∈ left.map (setName v))) = right.map (setName v) :=
        List.filter_eq_self.2 (fun a ha => by rw [decide_eq_false (hdisj a ha)]; rfl)
      rw [List.filter_append, f1, f2, List.nil_append] at this
      exact this
    refine ⟨(v.name, _, _), (mem_binaryPartitions hparts _).2 ⟨_, _, _, Dict.mem_of_get? hfd, hso, mem_cuts_iff.2 ⟨rfl, ?_, ?_, hsplit⟩⟩,
      rfl, hL, hR, hb⟩
    · intro e
      simp only at e
      rw [e] at hL
      exact hl (List.map_eq_nil_iff.1 hL.nil_eq.symm)
    · intro e
      simp only at e
      rw [e] at hR
      exact hr (List.map_eq_nil_iff.1 hR.nil_eq.symm)

theorem splitGainOf_ok {ent : List K → List C → K} {y : List C} {mu l r : List K} {g : K} (h : splitGainOf ent y mu l r = .ok g) :
    g = ent mu y - (l.sum * ent l y + r.sum * ent r y) / mu.sum := by
  unfold splitGainOf npDiv at h
  split_ifs at h
  · cases h
  · cases h; rfl

/-- C116: at every node of a fitted FBDT tree, with `mu` the memberships of the training rows in the node:
a split node has rows of two classes, at least `min_num_examples` rows, depth below `max_depth` and two children; the gain of its
split is positive, at least the threshold and at least the gain of every candidate split on a variable that is not tested above the node;
a leaf has no membership, or rows of less than two classes, or less than `min_num_examples` rows, or depth `max_depth`, or no
candidate reaches the (positive) threshold. For every impurity function. -/
theorem C116_splits [NanSort K] (ent : List K → List C → K) (p : FDTParams K) (hnames : (p.vars.map FVar.name).Nodup) (hs : ProperSets p.vars)
    (X : List (List (Cell K))) (y : List C) (t : BNode C K) (h : fbdtFit ent p fbdtNew X y = .ok t) :
    ∀ q ∈ bNodePaths t,
      (q.2.isLeaf = false →
        (∃ a ∈ livingClasses q.2.mu y, ∃ b ∈ livingClasses q.2.mu y, a ≠ b) ∧
        p.minNumExamples ≤ (livingClasses q.2.mu y).length ∧ q.1.length < p.maxDepth ∧
        ∃ l r gain, q.2.children = [l, r] ∧
          gain = ent q.2.mu y - (l.mu.sum * ent l.mu y + r.mu.sum * ent r.mu y) / q.2.mu.sum ∧
          0 < gain ∧ p.fuzzyThreshold ≤ gain ∧
          ∀ j v D left right, BCandidate p.vars X y q.1 j v D left right →
            splitGain ent q.2.mu y [unionDegrees X.length D left, unionDegrees X.length D right] ≤ gain) ∧
      (q.2.isLeaf = true →
        ¬ 0 < q.2.mu.sum ∨ (∀ a ∈ livingClasses q.2.mu y, ∀ b ∈ livingClasses q.2.mu y, a = b) ∨
        (livingClasses q.2.mu y).length < p.minNumExamples ∨ q.1.length = p.maxDepth ∨
        (0 < p.fuzzyThreshold ∧ ∀ j v D left right, BCandidate p.vars X y q.1 j v D left right →
          splitGain ent q.2.mu y [unionDegrees X.length D left, unionDegrees X.length D right] < p.fuzzyThreshold)) := by
  intro q hq
  have hn : ∀ v ∈ p.vars, (v.sets.map FSet.name).Nodup := fun v hv => (hs v hv).2
  have hdepth := C38_depth ent p X y t h q hq
  obtain ⟨-, -, hlen, htest, Xm, hXm, hT, -, hall⟩ := fbdtFit_nodes h
  obtain ⟨used0, pmu, mu, fd1, d1, htr, -⟩ := hall q hq
  have hvars := htr.tests
  rw [C41_independent] at h
  unfold fitByValue at h
  obtain ⟨cats, hcats, h1⟩ := py_bind_eq_ok.1 h
  obtain ⟨_, hX, h2⟩ := py_bind_eq_ok.1 h1
  obtain ⟨cats', hcats', hcs⟩ := categoricalFeatures_ok (fun v hv => (hs v hv).1)
  rw [hcats] at hcats'; cases hcats'
  split_ifs at h2 with hl'
  obtain ⟨Xm', hXm', h3⟩ := py_bind_eq_ok.1 h2
  rw [hXm] at hXm'; cases hXm'
  obtain ⟨rest, hr1, hr2⟩ := grow_decisions hT _ _ _ _ _ t [] ⟨fun f a hf => by simp at hf, fun f => by simp⟩
      (Dict.nodup_keys_ofPairs _) rfl h3 q hq
  rw [htest] at hr1
  have hr1' : q.1 = rest := hr1
  subst hr1'
  rw [Nat.zero_add] at hr2
  -- the gains of the candidates
  have hcand : ∀ used, (∀ f, f ∈ used ↔ f ∈ ([] : List String) ∨ ∃ tst ∈ q.1, tst.var.name = f) →
      ∀ ign fd best ign', AllFlags y.length used ign → (∀ f, f ∉ used → Dict.get? fd f = Dict.get? (setNames p.vars) f) →
      maxGainByValue ent cats Xm y q.2.mu ign fd = .ok (best, ign') → ∀ j v D left right, BCandidate p.vars X y q.1 j v D left right →
      splitGain ent q.2.mu y [unionDegrees X.length D left, unionDegrees X.length D right] ≤ bestGain best := by
    intro used hused ign fd best ign' hf hfd hm j v D left right hc
    have hv := hc.1
    have hvm := List.mem_of_getElem? hv
    have hnot : v.name ∉ used := by
      rw [hused]
      rintro (h | ⟨tst, ht, e⟩)
      · cases h
      · have hw := (hvars tst ht).1
        have := List.inj_on_of_nodup_map hnames (List.mem_of_getElem? hw) hvm e
        apply hc.2.1 tst ht
        obtain ⟨a1, a2⟩ := List.getElem?_eq_some_iff.1 hv
        obtain ⟨b1, b2⟩ := List.getElem?_eq_some_iff.1 hw
        have := List.nodup_iff_injective_get.1 hnames (a₁ := ⟨tst.att, by simpa using b1⟩) (a₂ := ⟨j, by simpa using a1⟩)
          (by simp [a2, b2, e])
        simpa using this
    have hsn : Dict.get? (setNames p.vars) v.name = some (v.sets.map FSet.name) := by
      unfold setNames
      have hk : (Dict.keys (p.vars.map (fun v => (v.name, v.sets.map FSet.name)))).Nodup := by
        simpa [Dict.keys, Function.comp_def] using hnames
      rw [Dict.ofPairs_eq_self _ hk]
      exact Dict.get?_of_mem_nodup hk (List.mem_map.2 ⟨v, hvm, rfl⟩)
    obtain ⟨c0, parts, hc0, hparts, -, hgains, -⟩ := maxGain_best hT hf hm
    obtain ⟨d, hd⟩ : ∃ d, Dict.get? Xm v.name = some d := by
      rcases datasetMembership_lookup hXm v.name with ⟨-, h2⟩ | ⟨_, _, _, d, _, _, _, _, _, h2⟩
      · have hk := (mem_keys_featuresDict p.vars v.name).2 (List.mem_map_of_mem hvm)
        rw [← Dict.get?_isSome_iff, h2] at hk
        simp at hk
      · exact ⟨d, h2⟩
    obtain ⟨q', hq', hq1, hql, hqr, hbl, hbr⟩ := candidate_part hcs hnames hs hXm hc0 hparts hc (by rw [hfd _ hnot, hsn]) hd
    obtain ⟨lm, rm, g, e1, e2, e3, e4⟩ := hgains q' hq' (by rw [hq1]; exact hnot)
    rw [hq1] at e1 e2
    obtain ⟨hD', hk⟩ := setDegrees_table hXm hnames hn hv hd
    have hDD := hc.2.2.1.unique hD'
    have el := sumSets_union hT hd hk (hn v hvm) hbl hql e1
    have er := sumSets_union hT hd hk (hn v hvm) hbr hqr e2
    rw [← hDD, ← hlen] at el er
    rw [splitGainOf_ok e3, el, er] at e4
    simpa [splitGain] using e4
  refine ⟨?_, ?_⟩
  · intro hl
    rcases hr2 with ⟨used, hused, ign, fd, best, ign', hf, -, hfd, hm, ⟨h1, -⟩ | ⟨-, hstop, b, l, r, hb, hch, hml, hmr⟩⟩ | ⟨h1, -⟩
    · rw [hl] at h1; cases h1
    · have hstop' : 2 ≤ (npUnique (maskedY q.2.mu y)).length ∧ p.minNumExamples ≤ (maskedY q.2.mu y).length ∧
          q.1.length < p.maxDepth ∧ p.fuzzyThreshold ≤ bestGain best := by
        simpa [stopMet, and_assoc] using hstop
      obtain ⟨s1, s2, s3, s4⟩ := hstop'
      have hall' := hcand used hused ign fd best ign' hf hfd hm
      obtain ⟨_, _, _, _, _, _, hbb⟩ := maxGain_best hT hf hm
      obtain ⟨hpos, hg⟩ := hbb b hb
      subst hb
      refine ⟨?_, s2, s3, l, r, b.gain, hch, ?_, hpos, s4, hall'⟩
      · by_contra hno
        have : (npUnique (maskedY q.2.mu y)).length < 2 := by
          rw [two_classes_iff]
          intro a ha b hb
          by_contra hab
          exact hno ⟨a, ha, b, hb, hab⟩
        omega
      · rw [hml, hmr]; exact splitGainOf_ok hg
    · rw [hl] at h1; cases h1
  · intro hl
    rcases hr2 with ⟨used, hused, ign, fd, best, ign', hf, -, hfd, hm, ⟨-, hstop⟩ | ⟨h1, -⟩⟩ | ⟨-, h1⟩
    · have hstop' : (((npUnique (maskedY q.2.mu y)).length < 2 ∨ (maskedY q.2.mu y).length < p.minNumExamples) ∨
          p.maxDepth ≤ q.1.length) ∨ bestGain best < p.fuzzyThreshold := by
        simpa [stopMet] using hstop
      rcases hstop' with ((h1 | h1) | h1) | h1
      · exact .inr (.inl ((two_classes_iff _).1 h1))
      · exact .inr (.inr (.inl h1))
      · exact .inr (.inr (.inr (.inl (le_antisymm hdepth.1 h1))))
      · have hall' := hcand used hused ign fd best ign' hf hfd hm
        obtain ⟨_, _, _, _, h0, _⟩ := maxGain_best hT hf hm
        exact .inr (.inr (.inr (.inr ⟨lt_of_le_of_lt h0 h1, fun j v D left right hc =>
          lt_of_le_of_lt (hall' j v D left right hc) h1⟩)))
    · rw [hl] at h1; cases h1
    · exact .inl h1

/-- the example of `exBParams` meets the hypotheses, and its root is split. -/
example : (exBParams.vars.map FVar.name).Nodup ∧ ProperSets exBParams.vars ∧
    ∃ t, fbdtFit exEnt exBParams fbdtNew exBX exBY = .ok t ∧ t.isLeaf = false := by
  refine ⟨by decide, ?_, ?_⟩
  · intro v hv
    simp only [exBParams, List.mem_cons, List.not_mem_nil, or_false] at hv
    rcases hv with rfl | rfl <;> exact ⟨by decide, by decide⟩
  · have h : ((fbdtFit exEnt exBParams fbdtNew exBX exBY).toOption).map (fun t => t.isLeaf) = some false := by decide +kernel
    cases e : fbdtFit exEnt exBParams fbdtNew exBX exBY with
    | error _ => rw [e] at h; simp [Except.toOption] at h
    | ok t => rw [e] at h; exact ⟨t, rfl, by simpa [Except.toOption] using h⟩

/-- degrees in the sets of `sex`. -/
def exSexD : List (List ℚ) := [[1, 0, 0, 1, 1, 0, 1], [0, 1, 1, 0, 0, 1, 0]]

/-- candidates at the root of the example: `f` against `m` (class 0 has no share in `f`), and the first set of `age` against the others;
the other division of `sex` is not one. -/
example : BCandidate exBParams.vars exBX exBY [] 1 ⟨"sex", [.disc ⟨"m", .str "m"⟩, .disc ⟨"f", .str "f"⟩]⟩ exSexD [1] [0] ∧
    ¬ BCandidate exBParams.vars exBX exBY [] 1 ⟨"sex", [.disc ⟨"m", .str "m"⟩, .disc ⟨"f", .str "f"⟩]⟩ exSexD [0] [1] ∧
    (∃ v D, BCandidate exBParams.vars exBX exBY [] 0 v D [0] [1, 2, 3]) ∧
    unionDegrees 7 exSexD [1] = [0, 1, 1, 0, 0, 1, 0] := by
  have hD : SetDegrees exBX 1 ⟨"sex", [.disc ⟨"m", .str "m"⟩, .disc ⟨"f", .str "f"⟩]⟩ exSexD := by
    simp [SetDegrees, exSexD, exBX]
    decide +kernel
  refine ⟨⟨rfl, by simp, hD, by simp, by simp, ?_, ?_⟩, ?_, ⟨_, [[1, 0, 0, 0, 0, 0, 0], [0, 1, 1, 1/2, 0, 0, 0],
    [0, 0, 0, 1/2, 1, 0, 0], [0, 0, 0, 0, 0, 1, 1]], rfl, by simp, ?_, by simp, by simp, ?_, ?_⟩, ?_⟩
  · intro s hs; simp at hs
  · intro s hs
    refine ⟨by decide +kernel, by decide, ?_⟩
    intro c hc hm a ha b hb
    have h0 := hm 0 (by decide)
    have : c = 0 := by omega
    simp only [List.mem_singleton] at ha hb
    subst this ha hb
    decide +kernel
  · rintro ⟨-, -, -, -, -, -, h⟩
    have := (h _ rfl).2.2 0 (by decide) (by simp) 0 (by simp) 1 (by simp)
    revert this
    decide +kernel
  · simp [SetDegrees, exBX]
    decide +kernel
  · intro s hs; decide
  · intro s hs; simp at hs
  · decide +kernel

end Teacher
