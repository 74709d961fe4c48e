import Verif.Props.FastFit
import Verif.Props.FBDTPipeline

/-! # C148 for `FBDTExplainer` -/

set_option linter.unusedSectionVars false

namespace Teacher

open Spec

section
variable {K R : Type} [Field K] [LinearOrder K] [IsStrictOrderedRing K]

/-- **C148**, up to the explanation of a two-class black box by `FBDTExplainer`: `fit` on a good table, `fuzzify` with arguments that suit every
sample, and `FBDTExplainer.fit` on the decoded instance, without keywords it does not know. The last one succeeds exactly when the tree has a split and
the factual method has an answer; its `exp_value` is then the class the tree gives to the instance, which is the black box' class of the instance or of
a sampled row, and no class of the sample has a larger activation in the rules. -/
theorem C148_fbdt_explains [NanSort K] (draw : List K → R → Nat × R) (hf : FairDraw draw) (sqrt : K → K) (h0 : ∀ x, 0 ≤ sqrt x) (h1 : ∀ x, 0 < x → 0 < sqrt x)
    (o : SampObj K) (hd : GoodDs o.ds) (no yes : String) (hg : GoodTable o [no, yes]) (fuel : Nat) (hfuel : o.size * 100 + 1 ≤ fuel) (r : R)
    (fz : FuzzCtx K) (fa : FuzzArgs K) (nums cats : List String)
    (hfz : ∀ rows t r', generateFast draw (o.ctx sqrt) fuel r = .ok (rows, t, r') → GoodFuzz ⟨o.ds, o.bb, o.inst, fz⟩ fa nums cats rows)
    (cx : ExpCtx K) (a : ExpArgs K)
    (hnb : a.nb = (samplingFuzzify fz (o.inst.map .num) fa (o.fit draw sqrt fuel r {}).2).2)
    (hdec : ShowsRow o.ds o.ds.features o.inst a.inst.flatten)
    (hga : GoodBArgs a) (hother : a.kw.other = false) (hdg : a.kw.dGiven = false)
    (s : EState K (List (Rule (List String) Nat K)) String) :
    (o.fit draw sqrt fuel r {}).1 = .ok () ∧ (samplingFuzzify fz (o.inst.map .num) fa (o.fit draw sqrt fuel r {}).2).1 = .ok () ∧
    ∃ (rows : List (List K)) (p : FDTParams K) (X : Frame K) (t : BNode Nat K) (rs : List (Rule (List String) Nat K)) (c : Nat) (inst : Inst K),
      List.Forall₂ (ShowsRow o.ds o.ds.features) rows X.rows ∧ a.nb.X = some X ∧ a.nb.y = some (rows.map o.bb) ∧ TreeParams a p ∧
      fbdtFit cx.ent p fbdtNew X.rows (rows.map o.bb) = .ok t ∧ fbdtToRules t false false = .ok rs ∧
      fbdtPredict min .agg t [a.inst.flatten] = .ok [[c]] ∧ (∃ r ∈ rows, c = o.bb r) ∧ (∃ im, a.nb.instMem = some im ∧ OneInstance im inst) ∧
      (t.isLeaf = false → ∃ deg : Rule (List String) Nat K → K, (∀ r ∈ rs, r.matchingMulti inst = .ok (deg r)) ∧
        ∀ r ∈ rows, activation deg rs (o.bb r) ≤ activation deg rs c) ∧
      ((fbdtExplainerFit cx a s).1 = .ok () ↔ t.isLeaf = false ∧ FactualAnswers a.factual (fun r => r.matchingMulti inst) rs c) ∧
      ((fbdtExplainerFit cx a s).1 = .ok () → (fbdtExplainerFit cx a s).2.expValue = some c) := by
  obtain ⟨rows, t', r', hgen, hs, hfit⟩ := C148_good_sample draw hf sqrt h0 h1 o hd [no, yes] hg fuel hfuel r fz
  have ha := hfz rows t' r' hgen
  have hrun : a.nb = NObj.run ⟨o.ds, o.bb, o.inst, fz⟩ ([] ++ [.fit (some (.ok rows)), .fuzzify fa]) := by
    rw [hnb, hfit]
    rfl
  have hlt : ∀ r, o.bb r < 2 := fun r => by simpa using hg.known r
  obtain ⟨k1, k2, vs, shown, dec, im, k3, k4, k5, k6, -⟩ := C145_pipeline ⟨o.ds, o.bb, o.inst, fz⟩ hd rows [no, yes] hs fa nums cats ha []
  obtain ⟨p, X, t, rs, c, inst, q1, q2, q3, q4, q5, q6, q7, q8, q9, q10⟩ := C146_end_to_end ⟨o.ds, o.bb, o.inst, fz⟩ hd rows [no, yes] hs fa nums cats ha []
    cx a hrun hdec hga hother hdg (by
      have hsub : (rows.map o.bb).dedup.Subperm (List.range 2) := by
        apply List.subperm_of_subset (List.nodup_dedup _)
        intro c hc
        obtain ⟨r, -, rfl⟩ := List.mem_map.1 (List.mem_dedup.1 hc)
        exact List.mem_range.2 (hlt r)
      simpa using hsub.length_le) (by
      by_cases hex : ∃ r ∈ rows, o.bb r = 1
      · exact .inl hex
      · refine .inr (fun r hr r' hr' => ?_)
        push Not at hex
        have g1 := hlt r
        have g2 := hlt r'
        have g3 := hex r hr
        have g4 := hex r' hr'
        show o.bb r = o.bb r'
        omega) s
  rw [← hrun] at k6
  have hX : X = ⟨o.ds.features, shown⟩ := by
    have := q2.symm.trans k6.hX
    cases this
    rfl
  refine ⟨?_, ?_, rows, p, X, t, rs, c, inst, ?_, q2, k6.hy, q1, q3, q4, q5, q6, q7, q8, q9, q10⟩
  · rw [hfit]
    exact k1
  · rw [hfit]
    exact k2
  · rw [hX]
    exact k4

end

/-- the example of C148 with `FBDTExplainer`: the arguments are good and an explanation is found. -/
example : fastArgs.kw.other = false ∧ fastArgs.kw.dGiven = false ∧ fbdtExplainerFit expCtx fastArgs {} = (.ok (), ⟨some 0, some 0, some 1,
    some ([⟨[("age", ["low", "mid"])], 0, 1⟩], "COUNTERFACTUAL NOT IMPLEMENTED FOR BINARY TREE")⟩) := by
  refine ⟨rfl, rfl, by decide +kernel⟩

theorem fastArgs_goodB : GoodBArgs fastArgs where
  rect := ⟨2, by decide, by decide, by decide⟩
  fname := by decide
  cname := by decide
  lam := by decide
  noLam := fun _ => ⟨rfl, rfl⟩
  th := by
    intro th h
    cases h

end Teacher
