import Verif.Props.SampFit
import Verif.Props.Pipeline

/-! # C145: a sampling neighborhood, fitted and fuzzified, is ready for the explainers -/

set_option linter.unusedSectionVars false

namespace Teacher

open Spec

section
variable {K : Type} [Field K] [LinearOrder K] [IsStrictOrderedRing K]

/-- a sample that the dataset's encoders and the black box' classes cover. -/
structure Spec.GoodSample (o : NObj K) (rows : List (List K)) (cls : List String) : Prop where
  ne : rows ≠ []
  classes : Dict.get? o.ds.encoders o.ds.className = some cls
  known : ∀ r, r = o.inst ∨ r ∈ rows → o.bb r < cls.length
  rows : ∀ r ∈ rows, r.length = o.ds.features.length ∧ ValidCodes o.ds r
  inst : o.ds.features.length ≤ o.inst.length ∧ ValidCodes o.ds o.inst

/-- `v` is the column `c` of the sample. -/
def Spec.SampleCol (o : NObj K) (rows : List (List K)) (c : String) (v : List K) : Prop :=
  rows.map (fun r => r[o.ds.features.idxOf c]?) = v.map some

/-- arguments of `fuzzify`: the numeric columns are the features without a label encoder (at least one), the categorical ones those with an
encoder, the discretizer of the named division answers on every numeric column of the sample with a strictly increasing non-empty list,
and different peaks and different texts get different names. -/
structure Spec.GoodFuzz (o : NObj K) (a : FuzzArgs K) (nums cats : List String) (rows : List (List K)) : Prop where
  numCols : a.numCols = some nums
  catCols : a.catCols = some cats
  ne : nums ≠ []
  split : (nums ++ cats).Perm o.ds.features
  plain : ∀ c ∈ nums, Dict.get? o.ds.encoders c = none
  coded : ∀ c ∈ cats, Dict.get? o.ds.encoders c ≠ none
  quiet : a.verbose = false
  imem : a.instanceMembership = none
  sets : (a.division = "equal_width" ∨ a.division = "equal_freq") → a.sets ≠ none
  disc : ∃ d, o.fz.disc a.division = some d ∧ ∀ c ∈ nums, ∀ v, SampleCol o rows c v → ¬ o.fz.std v < 1 / 100000 →
    ∃ pts, d (a.sets.getD 0) a.th v (rows.map o.bb) = .ok pts ∧ pts ≠ [] ∧ pts.Pairwise (· < ·) ∧ (pts.map o.fz.fmtK).Nodup
  constant : ∀ c ∈ nums, ∀ v, SampleCol o rows c v → o.fz.std v < 1 / 100000 → ∀ x ∈ v, ∀ x' ∈ v, o.fz.fmtK x = o.fz.fmtK x' → x = x'
  texts : ∀ s t, o.fz.fmtC (.str s) = o.fz.fmtC (.str t) → s = t

/-- **C145**. Whatever happened to the object before: `fit` with a good sample and then `fuzzify` with good arguments both succeed, and the
neighborhood is then ready for the explainers, with the decoded sample as data, the black box' classes as labels and one fuzzy
variable per feature. -/
theorem C145_pipeline (o : NObj K) (hd : GoodDs o.ds) (rows : List (List K)) (cls : List String) (hs : GoodSample o rows cls)
    (a : FuzzArgs K) (nums cats : List String) (ha : GoodFuzz o a nums cats rows) (h : List (NCall K)) :
    (o.call (.fit (some (.ok rows))) (o.run h)).1 = .ok () ∧
    (o.call (.fuzzify a) (o.run (h ++ [.fit (some (.ok rows))]))).1 = .ok () ∧
    ∃ (vs : List (FVar K)) (shown : List (List (Cell K))) (dec : List (Cell K)) (im : Memb K),
      ShowsRow o.ds o.ds.features o.inst dec ∧ List.Forall₂ (ShowsRow o.ds o.ds.features) rows shown ∧ vs.map FVar.name = o.ds.features ∧
      Ready (o.run (h ++ [.fit (some (.ok rows)), .fuzzify a])) vs ⟨o.ds.features, shown⟩ (rows.map o.bb) dec im ∧
      SubPartition vs dec ∧ Covered vs shown := by
  have hfit := C144_succeeds o.ds hd o.bb rows o.inst (o.run h) cls hs.classes hs.known hs.rows hs.inst
  obtain ⟨s', hs'⟩ : ∃ s', samplingFit o.ds o.bb (some (.ok rows)) o.inst (o.run h) = (.ok (), s') :=
    ⟨_, Prod.ext hfit rfl⟩
  obtain ⟨dec, t, shown, yd, g1, g2, g3, g4, g5, rfl⟩ := (C144_fit o.ds hd o.bb rows o.inst (o.run h) s').1 hs'
  have hrun : o.run (h ++ [.fit (some (.ok rows))]) = _ := (o.run_append h _).trans (congrArg Prod.snd hs')
  obtain ⟨d, hdisc, hdok⟩ := ha.disc
  have hfn : o.ds.features.Nodup := hd.cols_nodup.filter _
  have hlen : ∀ r ∈ dec :: shown, r.length = o.ds.features.length := by
    intro r hr
    rcases List.mem_cons.1 hr with rfl | hr
    · exact g2.1
    · obtain ⟨r0, -, q⟩ := forall₂_mem_right g4 r hr
      exact q.1
  have hshow : ∀ r ∈ dec :: shown, ∃ r0, ShowsRow o.ds o.ds.features r0 r := by
    intro r hr
    rcases List.mem_cons.1 hr with rfl | hr
    · exact ⟨_, g2⟩
    · obtain ⟨r0, -, q⟩ := forall₂_mem_right g4 r hr
      exact ⟨r0, q⟩
  have hat : ∀ c ∈ o.ds.features, ∀ r ∈ dec :: shown, ∃ x cell, r[o.ds.features.idxOf c]? = some cell ∧ Shows o.ds c x cell := by
    intro c hc r hr
    obtain ⟨r0, q⟩ := hshow r hr
    have hi := List.idxOf_lt_length_iff.2 hc
    obtain ⟨x, cell, -, q1, q2⟩ := q.2 (o.ds.features.idxOf c) c (by rw [List.getElem?_eq_getElem hi]; simp)
    exact ⟨x, cell, q1, q2⟩
  have hsl : shown.length = rows.length := g4.length_eq.symm
  have hscol : ∀ c ∈ nums, ∀ v : List K, shown.map (fun r => r[o.ds.features.idxOf c]?) = v.map (fun x => some (Cell.num x)) →
      SampleCol o rows c v := by
    intro c hc v hv
    have hcf := ha.split.mem_iff.1 (List.mem_append_left cats hc)
    have hi := List.idxOf_lt_length_iff.2 hcf
    have hci : o.ds.features[o.ds.features.idxOf c]? = some c := by rw [List.getElem?_eq_getElem hi]; simp
    unfold SampleCol
    have hplain := ha.plain c hc
    clear hsl hlen hshow hat hs' hrun g1 g5 hfit hs hdok ha
    induction g4 generalizing v with
    | nil => cases v with
      | nil => rfl
      | cons x v => simp at hv
    | @cons r cells l l' hr _ ih =>
      cases v with
      | nil => simp at hv
      | cons x v =>
        simp only [List.map_cons, List.cons.injEq] at hv ⊢
        refine ⟨?_, ih v hv.2⟩
        obtain ⟨x', cell, q1, q2, q3⟩ := hr.2 _ c hci
        rw [q1]
        rw [q2, Option.some.injEq] at hv
        rw [hv.1] at q3
        rcases q3 with ⟨-, q⟩ | ⟨cls', _, _, q, -⟩
        · cases q; rfl
        · rw [hplain] at q; cases q
  obtain ⟨vs, im, k1, k2, k3, -, k4, k5⟩ := C143_ready o.fz (o.inst.map .num) a (o.run (h ++ [.fit (some (.ok rows))])) ⟨o.ds.features, shown⟩
    ⟨o.ds.className :: o.ds.features, rows.map (fun r => .num (o.bb r : K) :: r.map .num)⟩ (rows.map o.bb) dec nums cats d
    (by rw [hrun]) (by rw [hrun]) (by rw [hrun]) (by rw [hrun]) hfn
    (by rintro h0; simp only at h0; rw [h0] at hsl; exact hs.ne (List.eq_nil_of_length_eq_zero hsl.symm))
    hlen ha.numCols ha.catCols ha.ne ha.split ha.quiet ha.imem ha.sets (by simp [hsl]) hdisc
    (by
      intro c hc r hr
      obtain ⟨x, cell, q1, q2⟩ := hat c (ha.split.mem_iff.1 (List.mem_append_left _ hc)) r hr
      rcases q2 with ⟨-, rfl⟩ | ⟨cls', _, _, q, -⟩
      · exact ⟨x, q1⟩
      · rw [ha.plain c hc] at q; cases q)
    (by
      intro c hc v hv hstd
      obtain ⟨pts, p1, p2, p3, -⟩ := hdok c hc v (hscol c hc v hv) hstd
      exact ⟨pts, p1, p2, p3.imp le_of_lt⟩)
    (by
      intro c hc col pts hcol hp
      have hcf := ha.split.mem_iff.1 (List.mem_append_left cats hc)
      have hcl : SampleCol o rows c col := by
        obtain ⟨col', e1, e2⟩ := Frame.numCol_ok (⟨o.ds.features, shown⟩ : Frame K) c hcf
          (fun r hr => hlen r (by simp only at hr; simp [hr])) (by
            intro r hr
            obtain ⟨x, cell, q1, q2⟩ := hat c hcf r (by simp only at hr; simp [hr])
            rcases q2 with ⟨-, rfl⟩ | ⟨cls', _, _, q, -⟩
            · exact ⟨x, q1⟩
            · rw [ha.plain c hc] at q; cases q)
        rw [hcol] at e1
        cases e1
        exact hscol c hc col (forall₂_map_eq e2 (fun r x hx => hx.symm)).symm
      rcases hp with ⟨q0, q1, q2⟩ | ⟨q1, q2⟩
      · refine List.Nodup.map_on ?_ (q1.imp ne_of_lt)
        exact fun x hx x' hx' => ha.constant c hc col hcl q0 x ((q2 x).1 hx) x' ((q2 x').1 hx')
      · obtain ⟨pts', p1, p2, p3, p4⟩ := hdok c hc col hcl q1
        rw [q2] at p1
        cases p1
        exact p4)
    (by
      intro c hc col hcol
      have hcf := ha.split.mem_iff.1 (List.mem_append_right _ hc)
      obtain ⟨col', e1, e2⟩ := Frame.col_ok (⟨o.ds.features, shown⟩ : Frame K) c hcf (fun r hr => hlen r (by simp only at hr; simp [hr]))
      rw [hcol] at e1
      cases e1
      have hstr : ∀ x ∈ col, ∃ s, x = Cell.str s := by
        intro x hx
        obtain ⟨r, hr, q⟩ := forall₂_mem_right e2 x hx
        obtain ⟨v, cell, q1, q2⟩ := hat c hcf r (by simp only at hr; simp [hr])
        simp only at q
        rw [q1] at q
        cases q
        rcases q2 with ⟨q3, -⟩ | ⟨_, _, s, -, -, -, rfl⟩
        · exact absurd q3 (ha.coded c hc)
        · exact ⟨s, rfl⟩
      intro x hx y hy hxy
      obtain ⟨s, rfl⟩ := hstr x hx
      obtain ⟨t, rfl⟩ := hstr y hy
      rw [ha.texts s t hxy])
  refine ⟨hfit, k1, vs, shown, dec, im, g2, g4, k3, ?_, k4 dec (by simp), k5⟩
  have : o.run (h ++ [.fit (some (.ok rows)), .fuzzify a]) = (o.call (.fuzzify a) (o.run (h ++ [.fit (some (.ok rows))]))).2 := by
    rw [← o.run_append]; simp
  rw [this]
  exact k2

/-- **C145**, with the explainer: on the neighborhood so obtained `FDTExplainer.fit`, asked about the decoded instance, behaves as C143 says;
in particular its `exp_value` is one of the classes the black box gave to the sample, and the fit succeeds exactly when the factual
method has an answer and the tree has a split. -/
theorem C145_fdt_explains (o : NObj K) (hd : GoodDs o.ds) (rows : List (List K)) (cls : List String) (hs : GoodSample o rows cls)
    (fa : FuzzArgs K) (nums cats : List String) (ha : GoodFuzz o fa nums cats rows) (h : List (NCall K))
    (cx : ExpCtx K) (hord : ∀ l, (cx.ord l).Perm l) (a : ExpArgs K) (hnb : a.nb = o.run (h ++ [.fit (some (.ok rows)), .fuzzify fa]))
    (hdec : ShowsRow o.ds o.ds.features o.inst a.inst.flatten)
    (hg : ∀ vs, a.nb.vars = some (vs.map some) → GoodArgs cx a vs a.inst.flatten)
    (hy : (∃ r ∈ rows, o.bb r = 1) ∨ 2 < (rows.map o.bb).dedup.length ∨ ∀ r ∈ rows, ∀ r' ∈ rows, o.bb r = o.bb r')
    (s : EState K (List (Rule String Nat K)) Changes) :
    ∃ (p : FDTParams K) (X : Frame K) (t : FNode Nat K) (rs : List (Rule String Nat K)) (c : Nat) (inst : Inst K),
      TreeParams a p ∧ a.nb.X = some X ∧ fdtFit cx.ent cx.ord p fdtNew X.rows (rows.map o.bb) = .ok t ∧ fdtToRules t false false = .ok rs ∧ fdtPredict min .agg t [a.inst.flatten] = .ok [[c]] ∧ (∃ r ∈ rows, c = o.bb r) ∧
      (∃ im, a.nb.instMem = some im ∧ OneInstance im inst) ∧
      ((fdtExplainerFit cx a s).1 = .ok () ↔ t.isLeaf = false ∧ FactualAnswers a.factual (fun r => r.matching inst) rs c) ∧
      ((fdtExplainerFit cx a s).1 = .ok () → (fdtExplainerFit cx a s).2.expValue = some c) := by
  obtain ⟨-, -, vs, shown, dec, im, g1, g2, g3, g4, -⟩ := C145_pipeline o hd rows cls hs fa nums cats ha h
  rw [← hnb] at g4
  have hde : a.inst.flatten = dec := hdec.unique g1
  obtain ⟨p, t, rs, c, inst, h1, h2, h3, h4, h5, h6, h7, h8, h9, h10⟩ := C143_fdt_explains_partial cx hord a vs _ _ dec im g4
    (by rw [← hde]; exact hg vs g4.hvars) hde (by
      rcases hy with ⟨r, hr, e⟩ | hy | hy
      · exact .inr (.inl (by rw [← e]; exact List.mem_map_of_mem hr))
      · exact .inl hy
      · refine .inr (.inr ?_)
        simp only [List.mem_map]
        rintro _ ⟨r, hr, rfl⟩ _ ⟨r', hr', rfl⟩
        exact hy r hr r' hr') s
  obtain ⟨r, hr, e⟩ := List.mem_map.1 h5
  have hiff : (fdtExplainerFit cx a s).1 = .ok () → t.isLeaf = false ∧ FactualAnswers a.factual (fun r => r.matching inst) rs c := by
    intro hok
    have hl : t.isLeaf = false := by
      by_contra hl
      rw [h10 (by simpa using hl)] at hok
      cases hok
    refine ⟨hl, ?_⟩
    by_contra hn
    rw [h9 hl hn] at hok
    cases hok
  refine ⟨p, _, t, rs, c, inst, h1, g4.hX, h2, h3, by rw [hde]; exact h4, ⟨r, hr, e.symm⟩, ⟨im, g4.him, h6⟩, ⟨hiff, fun hh => ?_⟩, fun hok => ?_⟩
  · obtain ⟨f, fact, cf, q⟩ := h8 hh.1 hh.2
    rw [q]
  · obtain ⟨l1, l2⟩ := hiff hok
    obtain ⟨f, fact, cf, q⟩ := h8 l1 l2
    rw [q]

end

/-! ## The hypotheses hold on the example -/

section
example : GoodSample nbObj [[1, 0], [5, 1], [2, 0]] ["no", "yes"] := by
  have hb : ∀ r, nbObj.bb r < (["no", "yes"] : List String).length := by
    intro r
    simp only [nbObj]
    split <;> simp
  have hv : ∀ r ∈ ([[1, 0], [5, 1], [2, 0]] : List (List ℚ)), ValidCodes nbObj.ds r := by
    intro r hr i c x cls hi hx hc
    have hf : nbObj.ds.features = ["age", "sex"] := by decide
    rw [hf] at hi
    match i, hi with
    | 0, hi =>
      simp at hi; subst hi
      have h2 : Dict.get? nbObj.ds.encoders "age" = none := by decide
      rw [h2] at hc; cases hc
    | 1, hi =>
      simp at hi
      subst hi
      have h2 : Dict.get? nbObj.ds.encoders "sex" = some ["f", "m"] := by decide
      rw [h2] at hc
      cases hc
      simp only [List.mem_cons, List.not_mem_nil, or_false] at hr
      rcases hr with rfl | rfl | rfl
      · simp at hx; subst hx; exact ⟨0, by decide, by decide⟩
      · simp at hx; subst hx; exact ⟨1, by decide, by decide⟩
      · simp at hx; subst hx; exact ⟨0, by decide, by decide⟩
    | i + 2, hi => simp at hi
  exact {
    ne := by decide
    classes := by decide
    known := fun r _ => hb r
    rows := fun r hr => ⟨(by
      have : ∀ r ∈ ([[1, 0], [5, 1], [2, 0]] : List (List ℚ)), r.length = nbObj.ds.features.length := by decide
      exact this r hr), hv r hr⟩
    inst := ⟨by decide, hv [2, 0] (by decide)⟩ }

theorem nbArgs_good : GoodFuzz nbObj nbArgs ["age"] ["sex"] [[1, 0], [5, 1], [2, 0]] := by
  have hcol : ∀ c ∈ ["age"], ∀ v, SampleCol nbObj [[1, 0], [5, 1], [2, 0]] c v → v = [1, 5, 2] := by
    intro c hc v hv
    simp at hc
    subst hc
    have h2 : ([[1, 0], [5, 1], [2, 0]] : List (List ℚ)).map (fun r => r[nbObj.ds.features.idxOf "age"]?) = [1, 5, 2].map some := by decide +kernel
    unfold SampleCol at hv
    rw [h2] at hv
    exact (List.map_injective_iff.2 (Option.some_injective ℚ) hv).symm
  exact {
    numCols := rfl
    catCols := rfl
    ne := by decide
    split := by
      have : nbObj.ds.features = ["age", "sex"] := by decide
      rw [this]
      exact List.Perm.refl _
    plain := by decide
    coded := by decide
    quiet := rfl
    imem := rfl
    sets := fun _ => by decide
    disc := ⟨fun sets _ v _ => equalWidth id v (sets - 1), by rfl, by
      intro c hc v hv _
      rw [hcol c hc v hv]
      exact ⟨[1, 3, 5], by decide +kernel, by decide, by decide +kernel, by decide +kernel⟩⟩
    constant := by
      intro c hc v hv hstd
      rw [hcol c hc v hv] at hstd
      exact absurd hstd (by decide +kernel)
    texts := by
      intro s t h
      exact h }

/-- the explainer's arguments on the neighborhood of the example. -/
def e2eArgs : ExpArgs ℚ := ⟨[[.num 2, .str "f"]], 0, nbObj.run [nbFit1, .fuzzify nbArgs], ["age"], "mr_factual", "i_counterfactual", {}⟩

example : ∀ vs, e2eArgs.nb.vars = some (vs.map some) → GoodArgs expCtx e2eArgs vs e2eArgs.inst.flatten := by
  intro vs hvs
  exact {
    rect := ⟨2, by decide, by decide, by decide⟩
    fname := by decide
    cname := by decide
    lam := by decide
    noLam := fun _ => ⟨rfl, rfl⟩
    other := rfl
    noD := fun _ => rfl
    isD := by
      intro h
      exact absurd h (by decide)
    th := by
      intro th h
      cases h
    num := by
      intro v hv _
      have h1 : (e2eArgs.nb.vars.map (fun l => l.all (fun o => match o with | some v => decide (2 ≤ v.sets.length) | none => true))) = some true := by
        decide +kernel
      rw [hvs] at h1
      simp only [Option.map_some, Option.some.injEq, List.all_eq_true, List.mem_map] at h1
      have := h1 (some v) ⟨v, hv, rfl⟩
      simpa using this }

/-- the explanation it gives. -/
example : fdtExplainerFit expCtx e2eArgs {} = (.ok (), ⟨some 0, some 0, some 1, some ([⟨[("age", "low")], 0, 1⟩],
    some [("age", "high")])⟩) := by decide +kernel

end

end Teacher
