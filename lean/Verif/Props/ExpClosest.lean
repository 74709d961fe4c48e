import Verif.Props.Explainer
import Verif.Props.CfDistance

/-! # C152: the counterfactual of `FDTExplainer` is a closest one -/

set_option linter.unusedSectionVars false

namespace Teacher

open Spec

section
variable {K : Type} [Field K] [LinearOrder K] [IsStrictOrderedRing K]

/-- the rules of another class than `c`, in their order. -/
abbrev Spec.others (rs : List (Rule String Nat K)) (c : Nat) : List (Rule String Nat K) := rs.filter (fun r => r.consequent ≠ c)

/-- Specification: `cf` comes from a closest rule: `dist i r` is the distance of rule `r` at position `i` among those of another class; only
rules whose distance satisfies `ok` are tried; `None` exactly when no rule that is tried flips the class. -/
def Spec.ClosestCf (dist : Nat → Rule String Nat K → Py K) (ok : K → Prop) (rs : List (Rule String Nat K)) (inst : Inst K) (c : Nat)
    (cf : Changes) : Prop :=
  (∀ ch, cf = some ch → ∃ i r d, (others rs c)[i]? = some r ∧ dist i r = .ok d ∧ ok d ∧ IsChanges r inst ch ∧ RuleFlips rs inst c r ∧
    ∀ j r', (others rs c)[j]? = some r' → RuleFlips rs inst c r' → ∃ d', dist j r' = .ok d' ∧ (ok d' → d ≤ d')) ∧
  (cf = none → ∀ j r', (others rs c)[j]? = some r' → ∃ d', dist j r' = .ok d' ∧ (ok d' → ¬ RuleFlips rs inst c r'))

theorem closestCf_of {D : Nat → Rule String Nat K → Py K} {rs : List (Rule String Nat K)} {inst : Inst K} {c : Nat} {cf : Changes}
    (q : K → Bool) (hnd : (Dict.keys inst).Nodup)
    (h : ∃ cfs, (others rs c).zipIdx.mapM (fun p => do let d ← D p.2 p.1; pure (p.1, d)) = .ok cfs ∧
      searchCf inst c rs (cfs.filter (fun p => q p.2)) = .ok cf) : ClosestCf D (fun d => q d = true) rs inst c cf := by
  obtain ⟨cfs, h1, h2⟩ := h
  constructor
  · rintro ch rfl
    obtain ⟨i, r, d, e1, e2, e3, e4, e5, e6⟩ := search_closest q hnd h1 h2
    refine ⟨i, r, d, e1, e2, e3, e4, ⟨ch, e4, e5⟩, fun j r' hj hf => ?_⟩
    obtain ⟨d', g1, g2⟩ := e6 j r' hj hf
    exact ⟨d', g1, fun hq => (g2 hq).1⟩
  · rintro rfl
    exact search_none q hnd h1 h2

theorem closest_i {ident : Nat → String → Bool} {inst : Inst K} {rs : List (Rule String Nat K)} {c : Nat} {num : List String} {cf : Changes}
    (hnd : (Dict.keys inst).Nodup) (h : iCounterfactual ident inst rs c num = .ok cf) :
    ClosestCf (fun i r => cfDistInstance (ident i) r inst num) (fun _ => True) rs inst c cf := by
  have := closestCf_of (D := fun i r => cfDistInstance (ident i) r inst num) (fun _ => true) hnd (iCandidates_some h)
  simpa only using this

theorem closest_f {ident : Nat → Nat → String → Bool} {fact : List (Rule String Nat K)} {inst : Inst K} {rs : List (Rule String Nat K)} {c : Nat}
    {num : List String} {tau : K} {cf : Changes} (hnd : (Dict.keys inst).Nodup) (h : fCounterfactual ident fact inst rs c num tau = .ok cf) :
    ClosestCf (fun i r => fDist (ident i) fact inst num tau r) (fun d => 0 < d) rs inst c cf := by
  have := closestCf_of (D := fun i r => fDist (ident i) fact inst num tau r) (fun d => decide (0 < d)) hnd (fCandidates_some h)
  simpa only [decide_eq_true_eq] using this

theorem closest_d {parse : String → Py K} {dist : List (Cell K) → Py K} {cont : List Nat} {inst : Inst K} {rs : List (Rule String Nat K)} {c : Nat}
    {cf : Changes} (hnd : (Dict.keys inst).Nodup) (h : dCounterfactual parse dist cont inst rs c = .ok cf) :
    ClosestCf (fun _ r => dDist parse dist cont inst r) (fun _ => True) rs inst c cf := by
  have := closestCf_of (D := fun _ r => dDist parse dist cont inst r) (fun _ => true) hnd (dCandidates_some h)
  simpa only using this

/-- C152: after `FDTExplainer.fit` succeeds, with `rs` the rules of the fitted tree, `c` the explained class, `inst` the memberships of the
instance and `fact` the factual, the counterfactual of `explain()` comes from a closest rule of another class: with `i_counterfactual` in the
distance between instance and rule, with `f_counterfactual` in the distance to the factual with `tau = 1/2` and among the rules at a positive
distance, with `d_counterfactual` in the chosen distance (`'moth'` unless another one is given) between the decoded instance and the one
moved by the rule. Without a counterfactual no rule (at a positive distance for `f_counterfactual`) flips the class. -/
theorem C152_explainer_closest (cx : ExpCtx K) (a : ExpArgs K) (hdict : ∀ im, a.nb.instMem = some im → (Dict.keys im).Nodup)
    (s s' : EState K (List (Rule String Nat K)) Changes) (h : fdtExplainerFit cx a s = (.ok (), s')) :
    ∃ (p : FDTParams K) (X : Frame K) (y : List Nat) (t : FNode Nat K) (rs : List (Rule String Nat K)) (c : Nat) (im : Memb K) (inst : Inst K)
      (dec : List (Cell K)) (fact : List (Rule String Nat K)) (cf : Changes),
      TreeParams a p ∧ a.nb.X = some X ∧ a.nb.y = some y ∧ fdtFit cx.ent cx.ord p fdtNew X.rows y = .ok t ∧
      fdtToRules t false false = .ok rs ∧ a.nb.instMem = some im ∧ OneInstance im inst ∧ a.nb.decodedInst = some dec ∧
      s'.expValue = some c ∧ s'.explanation = some (fact, cf) ∧
      (a.counterfactual = "i_counterfactual" →
        ClosestCf (fun i r => cfDistInstance (cx.ident i 0) r inst a.numCols) (fun _ => True) rs inst c cf) ∧
      (a.counterfactual = "f_counterfactual" →
        ClosestCf (fun i r => fDist (cx.ident i) fact inst a.numCols (1 / 2) r) (fun d => 0 < d) rs inst c cf) ∧
      (a.counterfactual = "d_counterfactual" → ∃ cont disc mad, a.kw.contIdx = some cont ∧ a.kw.discIdx = some disc ∧ a.kw.mad = some mad ∧
        ClosestCf (fun _ r => dDist cx.parse (fun cells => cx.dist (a.kw.cfDist.getD "moth") dec cells cont disc mad) cont inst r)
          (fun _ => True) rs inst c cf) := by
  obtain ⟨⟨⟨d, t⟩, pr⟩, f, ⟨d', rs⟩, c, ⟨fact, cf⟩, h1, h2, h3, h4, h5, rfl⟩ := explainerFit_ok h
  unfold fdtTrain at h2
  simp only [py_bind_eq_ok] at h2
  obtain ⟨d1, hd, t1, ht, out, ho, pr1, hp, he⟩ := h2
  cases he
  unfold fdtData at hd
  simp only [py_bind_eq_ok] at hd
  obtain ⟨vars, hv, im, him, dec, hdec, X, hX, y, hy, u, hD, p, hpar, he⟩ := hd
  cases he
  obtain ⟨e1, e2, e3, e4⟩ := expParams_ok hpar
  unfold fdtConclude at h4
  simp only [py_bind_eq_ok] at h4
  obtain ⟨rs1, hrs, out2, ho2, c1, hc, he⟩ := h4
  cases he
  unfold fdtFinish at h5
  simp only [py_bind_eq_ok] at h5
  obtain ⟨inst, hinst, fact1, hfact, cf1, hcf, he⟩ := h5
  cases he
  have hone := (scalarInst_ok_iff _ _).1 hinst
  have hnd : (Dict.keys inst).Nodup := by rw [oneInstance_keys hone]; exact hdict im (expGetter_ok him)
  refine ⟨p, X, y, t, rs, c, im, inst, dec, fact, cf, ⟨by rw [← e1]; exact expGetter_ok hv, e2, e3, e4⟩, expGetter_ok hX, expGetter_ok hy, ht, hrs,
    expGetter_ok him, hone, orError_ok hdec, rfl, rfl, ?_, ?_, ?_⟩
  · intro hm
    have hm' : CMethod.ofName a.counterfactual = some .i := by rw [hm]; rfl
    unfold fdtCounterfactual at hcf
    rw [hm'] at hcf
    exact closest_i hnd hcf
  · intro hm
    have hm' : CMethod.ofName a.counterfactual = some .f := by rw [hm]; rfl
    unfold fdtCounterfactual at hcf
    rw [hm'] at hcf
    exact closest_f hnd hcf
  · intro hm
    have hm' : CMethod.ofName a.counterfactual = some .d := by rw [hm]; rfl
    unfold fdtCounterfactual at hcf
    rw [hm'] at hcf
    have hsome : (∃ cont, a.kw.contIdx = some cont) ∧ (∃ disc, a.kw.discIdx = some disc) ∧ ∃ mad, a.kw.mad = some mad := by
      unfold checkD at hD
      split at hD
      · cases hD
      · rename_i hn
        simp only [hm', true_and, not_or] at hn
        obtain ⟨n1, n2, n3⟩ := hn
        refine ⟨Option.ne_none_iff_exists'.1 n1, Option.ne_none_iff_exists'.1 n2, Option.ne_none_iff_exists'.1 ?_⟩
        intro h0
        exact n3 (by rw [h0]; rfl)
    obtain ⟨⟨cont, k1⟩, ⟨disc, k2⟩, mad, k3⟩ := hsome
    refine ⟨cont, disc, mad, k1, k2, k3, ?_⟩
    simp only [k1, k2, k3, Option.getD_some] at hcf
    exact closest_d hnd hcf

/-- the three methods on the neighborhood of the other examples. -/
example : (∃ s', fdtExplainerFit expCtx (expArgs "m_factual" "i_counterfactual" {} 0) {} = (.ok (), s')) ∧
    (fdtExplainerFit expCtx (expArgs "m_factual" "f_counterfactual" {} 0) {}).2.explanation =
      some ([⟨[("age", "1"), ("sex", "m")], 0, 1⟩], some [("sex", "f")]) ∧
    (Dict.keys (expNb.instMem.getD [])).Nodup := by
  refine ⟨⟨_, expFit_mi⟩, by decide +kernel, by decide +kernel⟩

end
end Teacher
