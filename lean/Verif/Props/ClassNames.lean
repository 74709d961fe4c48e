import Verif.Props.Units

/-! # C162: names of the classes. Renaming the classes with an order-preserving map renames the results of the fuzzy trees and changes
nothing else. -/

namespace Teacher
set_option linter.unusedSectionVars false

section rename
variable {C D K : Type} [Field K] [LinearOrder K] [IsStrictOrderedRing K] [LinearOrder C] [LinearOrder D]

/-- the two impurities give the same number to the same classes under other names. -/
def Spec.SameImpurity (f : C → D) (ent : List K → List C → K) (ent' : List K → List D → K) : Prop :=
  ∀ mu y, ent' mu (y.map f) = ent mu y

/-- a rule with the class renamed. -/
def Spec.renameRule {V : Type} (f : C → D) (r : Rule V C K) : Rule V D K := ⟨r.antecedent, f r.consequent, r.weight⟩

/-- a dict with the keys renamed. -/
def renameKeys {ν : Type} (f : C → D) (d : Dict C ν) : Dict D ν := List.map (fun kv => (f kv.1, kv.2)) d

theorem get_renameKeys {ν : Type} {f : C → D} (hf : Function.Injective f) (d : Dict C ν) (c : C) :
    Dict.get? (renameKeys f d) (f c) = Dict.get? d c := by
  induction d with
  | nil => rfl
  | cons kv d ih =>
    obtain ⟨k, v⟩ := kv
    simp only [renameKeys, List.map_cons, Dict.get?, hf.eq_iff] at ih ⊢
    rw [ih]

theorem set_renameKeys {ν : Type} {f : C → D} (hf : Function.Injective f) (d : Dict C ν) (c : C) (w : ν) :
    Dict.set (renameKeys f d) (f c) w = renameKeys f (Dict.set d c w) := by
  induction d with
  | nil => rfl
  | cons kv d ih =>
    obtain ⟨k, v⟩ := kv
    simp only [renameKeys, List.map_cons, Dict.set, hf.eq_iff] at ih ⊢
    split
    · rfl
    · rw [ih]; rfl

theorem npUnique_strictMono {f : C → D} (hf : StrictMono f) (y : List C) : npUnique (y.map f) = (npUnique y).map f := by
  apply npUnique_eq_of
  · exact List.Pairwise.map _ (fun a b h => hf h) (npUnique_pairwise y)
  · intro x
    simp only [List.mem_map, mem_npUnique]

theorem maskedY_rename (f : C → D) (mu : List K) (y : List C) : maskedY mu (y.map f) = (maskedY mu y).map f := by
  unfold maskedY
  induction mu generalizing y with
  | nil => rfl
  | cons m mu ih =>
    cases y with
    | nil => rfl
    | cons c y =>
      simp only [List.map_cons, List.zip_cons_cons, List.filter_cons]
      split
      · rw [List.map_cons, List.map_cons, List.map_cons, ih]
      · exact ih y

theorem stopMet_rename {f : C → D} (hf : StrictMono f) (p : FDTParams K) (gain : K) (ym : List C) (depth : Nat) :
    stopMet p gain (ym.map f) depth = stopMet p gain ym depth := by
  unfold stopMet
  rw [npUnique_strictMono hf, List.length_map, List.length_map]

theorem classValueOf_rename {f : C → D} (hf : StrictMono f) (mu : List K) (y : List C) :
    classValueOf mu (y.map f) = (classValueOf mu y).map (renameKeys f) := by
  unfold classValueOf
  rw [npUnique_strictMono hf]
  have hs : ∀ c, ((mu.zip (y.map f)).map (fun p => if p.2 = f c then p.1 else 0)).sum = ((mu.zip y).map (fun p => if p.2 = c then p.1 else 0)).sum := by
    intro c
    rw [List.zip_map_right, List.map_map]
    congr 1
    apply List.map_congr_left
    intro p _
    simp only [Function.comp, Prod.map, id, hf.injective.eq_iff]
  induction npUnique y with
  | nil => rfl
  | cons c l ih =>
    rw [List.map_cons, List.mapM_cons, List.mapM_cons, ih, hs]
    cases npDiv ((mu.zip y).map (fun p => if p.2 = c then p.1 else 0)).sum mu.sum with
    | error e => rfl
    | ok w =>
      simp only [py_bind_ok]
      have aux : ∀ R : Py (Dict C K), (do let r ← R.map (renameKeys f); pure ((f c, w) :: r) : Py (Dict D K)) =
          (do let r ← R; pure ((c, w) :: r) : Py (Dict C K)).map (renameKeys f) := by
        intro R; cases R <;> rfl
      exact aux _

/-! ### FDT -/

mutual
/-- a tree with the classes renamed. -/
def treeR (f : C → D) : FNode C K → FNode D K
  | .mk test level mu isLeaf cv children => .mk test level mu isLeaf (cv.map (renameKeys f)) (treeRList f children)
/-- the same for a list. -/
def treeRList (f : C → D) : List (FNode C K) → List (FNode D K)
  | [] => []
  | c :: cs => treeR f c :: treeRList f cs
end

theorem treeRList_eq_map (f : C → D) (l : List (FNode C K)) : treeRList f l = l.map (treeR f) := by
  induction l with
  | nil => rw [treeRList]; rfl
  | cons c cs ih => rw [treeRList, ih]; rfl

section
variable {f : C → D} {ent : List K → List C → K} {ent' : List K → List D → K}

theorem fGain_rename (he : Spec.SameImpurity f ent ent') (mu : List K) (y : List C) (child : Dict String (List K)) :
    fGain ent' mu (y.map f) child = fGain ent mu y child := by
  unfold fGain
  have hh : ∀ mu y, ent' mu (y.map f) = ent mu y := he
  simp only [hh]

theorem getMaxFGain_rename (he : Spec.SameImpurity f ent ent') (Xm : Dict String (Dict String (List K))) (y : List C) (mu : List K)
    (features : List String) : getMaxFGain ent' Xm (y.map f) mu features = getMaxFGain ent Xm y mu features := by
  unfold getMaxFGain
  generalize ("", (0 : K), ([] : Dict String (List K))) = best
  induction features generalizing best with
  | nil => rfl
  | cons a fs ih => simp only [maxGainFrom, fGain_rename he, ih]

theorem fitChildren_rename (hf : StrictMono f) {rec : FNode C K → Py (FNode C K)} {rec' : FNode D K → Py (FNode D K)} (p : FDTParams K)
    (hrec : ∀ t, rec' (treeR f t) = (rec t).map (treeR f)) (y : List C) (mu : List K) (att : String) (d : Dict String (List K))
    (features : List String) (vals : List String) : ∀ i,
    fitChildren rec' p (y.map f) mu att d features i vals = (fitChildren rec p y mu att d features i vals).map (List.map (treeR f)) := by
  induction vals with
  | nil => intro i; rfl
  | cons v vals ih =>
    intro i
    simp only [fitChildren]
    by_cases ha : att ∉ features
    · rw [if_pos ha, if_pos ha]; rfl
    · rw [if_neg ha, if_neg ha]
      cases hfi : Dict.get (featuresDict p.vars) att with
      | error e => rfl
      | ok fi =>
        simp only [py_bind_ok]
        cases hv : p.vars[fi]? with
        | none => rfl
        | some var =>
          simp only [py_bind_ok]
          cases hd : Dict.get d v with
          | error e => rfl
          | ok c =>
            simp only [py_bind_ok]
            have hchild : fitChild rec' (y.map f) mu (.fresh (some ⟨var, fi, i⟩) c) =
                (fitChild rec y mu (.fresh (some ⟨var, fi, i⟩) c)).map (treeR f) := by
              unfold fitChild
              by_cases h0 : 0 < c.sum
              · rw [if_pos (show 0 < (FNode.fresh (C := C) (some ⟨var, fi, i⟩) c).mu.sum from h0),
                  if_pos (show 0 < (FNode.fresh (C := D) (some ⟨var, fi, i⟩) c).mu.sum from h0), ← hrec]
                congr 1
              · rw [if_neg (show ¬ 0 < (FNode.fresh (C := C) (some ⟨var, fi, i⟩) c).mu.sum from h0),
                  if_neg (show ¬ 0 < (FNode.fresh (C := D) (some ⟨var, fi, i⟩) c).mu.sum from h0), classValueOf_rename hf]
                cases classValueOf mu y with
                | error e => rfl
                | ok cv => rfl
            rw [hchild, ih (i + 1)]
            generalize fitChild rec y mu (.fresh (some ⟨var, fi, i⟩) c) = A
            generalize fitChildren rec p y mu att d features (i + 1) vals = R
            cases A with
            | error e => rfl
            | ok a => cases R <;> rfl

theorem partialFit_rename (hf : StrictMono f) (he : Spec.SameImpurity f ent ent') (ord : List String → List String) (p : FDTParams K)
    (Xm : Dict String (Dict String (List K))) (y : List C) : ∀ (fuel : Nat) (cur : FNode C K) (features : List String) (depth : Nat),
      partialFit ent' ord p Xm (y.map f) fuel (treeR f cur) features depth = (partialFit ent ord p Xm y fuel cur features depth).map (treeR f) := by
  intro fuel
  induction fuel with
  | zero => intro cur features depth; rfl
  | succ fuel ih =>
    rintro ⟨test, level, mu, isLeaf, cv0, children⟩ features depth
    rw [treeR]
    simp only [partialFit, FNode.mu, FNode.test, FNode.classValue, FNode.children, getMaxFGain_rename he, maskedY_rename, stopMet_rename hf,
      classValueOf_rename hf]
    generalize getMaxFGain ent Xm y mu (ord features) = G
    cases G with
    | error e => rfl
    | ok g =>
      obtain ⟨att, gain, childMu⟩ := g
      simp only [py_bind_ok]
      by_cases hs : stopMet p gain (maskedY mu y) depth = true
      · simp only [hs, if_true]
        cases classValueOf mu y with
        | error e => rfl
        | ok cv => simp only [py_bind_ok, py_pure, Except.map, treeR, Option.map_some]
      · simp only [hs, Bool.false_eq_true, if_false]
        cases Dict.get Xm att with
        | error e => rfl
        | ok sets =>
          simp only [py_bind_ok]
          rw [fitChildren_rename hf p (rec := fun child => partialFit ent ord p Xm y fuel child (features.erase att) (depth + 1))
            (fun t => ih t _ _)]
          generalize fitChildren (fun child => partialFit ent ord p Xm y fuel child (features.erase att) (depth + 1)) p y mu att childMu features 0
            (Dict.keys sets) = R
          cases R with
          | error e => rfl
          | ok cs => simp only [py_bind_ok, py_pure, Except.map, treeR, treeRList_eq_map, List.map_append]

theorem fdtFit_rename (hf : StrictMono f) (he : Spec.SameImpurity f ent ent') (ord : List String → List String) (p : FDTParams K)
    (root : FNode C K) (X : List (List (Cell K))) (y : List C) :
    fdtFit ent' ord p (treeR f root) X (y.map f) = (fdtFit ent ord p root X y).map (treeR f) := by
  unfold fdtFit
  cases checkArray X with
  | error e => rfl
  | ok _ =>
    simp only [py_bind_ok, List.length_map]
    by_cases hxy : X.length ≠ y.length
    · rw [if_pos hxy, if_pos hxy]; rfl
    · rw [if_neg hxy, if_neg hxy]
      cases datasetMembership X p.vars with
      | error e => rfl
      | ok Xm =>
        simp only [py_bind_ok]
        rw [← partialFit_rename hf he]
        obtain ⟨test, level, mu, isLeaf, cv0, children⟩ := root
        simp only [treeR, FNode.test, FNode.level, FNode.isLeaf, FNode.classValue, FNode.children, List.map_map]
        rfl

end

/-- the leaves found by a prediction, with the classes renamed. -/
def leavesR (f : C → D) (l : List (Option (Dict C K) × List K)) : List (Option (Dict D K) × List K) :=
  l.map (fun q => (q.1.map (renameKeys f), q.2))

theorem partialPredict_rename (f : C → D) (T : K → K → K) (X : List (List (Cell K))) (t : FNode C K) :
    ∀ mu, partialPredict T X mu (treeR f t) = (partialPredict T X mu t).map (leavesR f) := by
  induction t using FNode.induction with
  | h test level m isLeaf cv children ih =>
    intro mu
    have hl : ∀ (cs : List (FNode C K)), (∀ c ∈ cs, ∀ mu, partialPredict T X mu (treeR f c) = (partialPredict T X mu c).map (leavesR f)) → ∀ mu,
        partialPredictList T X mu (treeRList f cs) = (partialPredictList T X mu cs).map (leavesR f) := by
      intro cs
      induction cs with
      | nil => intro _ mu; rw [treeRList]; simp only [partialPredictList]; rfl
      | cons c cs ihc =>
        intro hc mu
        rw [treeRList]
        simp only [partialPredictList]
        rw [hc c (by simp), ihc (fun c' h' => hc c' (by simp [h']))]
        generalize partialPredict T X mu c = A
        generalize partialPredictList T X mu cs = B
        cases A with
        | error e => rfl
        | ok a => cases B with
          | error e => rfl
          | ok b => simp only [Except.map, py_bind_ok, py_pure, leavesR, List.map_append]
    rw [treeR]
    simp only [partialPredict]
    cases nodeMu T X mu test with
    | error e => rfl
    | ok newMu =>
      simp only [py_bind_ok]
      split
      · rfl
      · cases children with
        | nil => rw [treeRList]; rfl
        | cons c cs =>
          rw [treeRList]
          dsimp only
          rw [ih c (by simp), hl cs (fun c' h' => ih c' (by simp [h']))]
          generalize partialPredict T X newMu c = A
          generalize partialPredictList T X newMu cs = B
          cases A with
          | error e => rfl
          | ok a => cases B with
            | error e => rfl
            | ok b => simp only [Except.map, py_bind_ok, py_pure, leavesR, List.map_append]

theorem entry_rename {f : C → D} (hf : Function.Injective f) (v : Voting) (mu : List K) (d : Dict C (List K)) (kv : C × K) :
    v.entry mu (renameKeys f d) (f kv.1, kv.2) = renameKeys f (v.entry mu d kv) := by
  cases v with
  | agg => simp only [Voting.entry, aggEntry, get_renameKeys hf, set_renameKeys hf]
  | max => simp only [Voting.entry, maxEntry, get_renameKeys hf, set_renameKeys hf]

theorem run_rename {f : C → D} (hf : Function.Injective f) (v : Voting) (l : List (Option (Dict C K) × List K)) :
    v.run (leavesR f l) = (v.run l).map (renameKeys f) := by
  unfold Voting.run
  have h : ∀ (l : List (Option (Dict C K) × List K)) (d : Dict C (List K)), (leavesR f l).foldlM (fun d leaf => match leaf.1 with
      | none => .error .typeError
      | some cv => .ok (cv.foldl (v.entry leaf.2) d)) (renameKeys f d) = (l.foldlM (fun d leaf => match leaf.1 with
      | none => .error .typeError
      | some cv => .ok (cv.foldl (v.entry leaf.2) d)) d : Py (Dict C (List K))).map (renameKeys f) := by
    intro l
    induction l with
    | nil => intro d; rfl
    | cons q l ih =>
      intro d
      obtain ⟨cv, mu⟩ := q
      cases cv with
      | none => rfl
      | some cv =>
        have hcv : ∀ (cv : Dict C K) (d : Dict C (List K)), (renameKeys f cv).foldl (v.entry mu) (renameKeys f d) = renameKeys f (cv.foldl (v.entry mu) d) := by
          intro cv
          induction cv with
          | nil => intro d; rfl
          | cons kv cv ihv =>
            intro d
            simp only [renameKeys, List.map_cons, List.foldl_cons]
            have := entry_rename hf v mu d kv
            unfold renameKeys at this ihv
            rw [this, ihv]
        simp only [leavesR, List.map_cons, List.foldlM_cons, Option.map_some, py_bind_ok, hcv]
        exact ih _
  exact h l []

theorem bestClass_rename (f : C → D) (votes : Dict C (List K)) (j : Nat) : bestClass (renameKeys f votes) j = (bestClass votes j).map f := by
  unfold bestClass
  have : ∀ votes : Dict C (List K), pyMax (fun p : D × List K => p.2.getD j 0) (renameKeys f votes) =
      (pyMax (fun p : C × List K => p.2.getD j 0) votes).map (fun q => (f q.1, q.2)) := by
    intro votes
    cases votes with
    | nil => rfl
    | cons q l =>
      simp only [renameKeys, List.map_cons, pyMax, Except.map]
      congr 1
      induction l generalizing q with
      | nil => rfl
      | cons q' l ih =>
        simp only [List.map_cons, pyMaxFrom]
        rw [← ih]
        split <;> rfl
  rw [this]
  cases pyMax (fun p : C × List K => p.2.getD j 0) votes <;> rfl

theorem mapM_rename {α : Type} (f : C → D) {g : α → Py D} {h : α → Py C} (l : List α) (hgh : ∀ a, g a = (h a).map f) :
    l.mapM g = (l.mapM h).map (List.map f) := by
  induction l with
  | nil => rfl
  | cons a l ih =>
    rw [List.mapM_cons, List.mapM_cons, hgh, ih]
    cases h a with
    | error e => rfl
    | ok c =>
      generalize l.mapM h = R
      cases R <;> rfl

/-- the vote over the leaves and the best class of every row, with the classes renamed. -/
theorem winners_rename {f : C → D} (hf : Function.Injective f) (v : Voting) (n : Nat) (l : List (Option (Dict C K) × List K)) :
    (do let votes ← v.run (leavesR f l)
        if votes = [] then .error .valueError else (List.range n).mapM (bestClass votes) : Py (List D)) =
    (do let votes ← v.run l
        if votes = [] then .error .valueError else (List.range n).mapM (bestClass votes) : Py (List C)).map (List.map f) := by
  rw [run_rename hf]
  cases v.run l with
  | error e => rfl
  | ok votes =>
    simp only [Except.map, py_bind_ok]
    by_cases h : votes = []
    · subst h; rfl
    · have h' : ¬ renameKeys f votes = [] := by simpa [renameKeys] using h
      rw [if_neg h, if_neg h']
      exact mapM_rename f _ (fun j => bestClass_rename f votes j)

theorem predict_rename {f : C → D} (hf : Function.Injective f) (T : K → K → K) (v : Voting) (t : FNode C K) (X : List (List (Cell K))) :
    fdtPredict T v (treeR f t) X = (fdtPredict T v t X).map (List.map (List.map f)) := by
  unfold fdtPredict FNode.predict
  cases checkArray X with
  | error e => rfl
  | ok _ =>
    simp only [py_bind_ok, partialPredict_rename]
    cases partialPredict T X (X.map (fun _ => 1)) t with
    | error e => rfl
    | ok l =>
      simp only [Except.map, py_bind_ok]
      rw [winners_rename hf]
      generalize (do let votes ← v.run l
                     if votes = [] then .error .valueError else (List.range X.length).mapM (bestClass votes) : Py (List C)) = R
      cases R <;> rfl

theorem hits_rename {f : C → D} (hf : Function.Injective f) (p : List (List C)) (w : List C) :
    ((p.map (List.map f)).map (fun cs => (((cs.zip (w.map f)).filter (fun q => q.1 = q.2)).length : K))).sum =
      (p.map (fun cs => (((cs.zip w).filter (fun q => q.1 = q.2)).length : K))).sum := by
  rw [List.map_map]
  congr 1
  apply List.map_congr_left
  intro cs _
  simp only [Function.comp]
  rw [List.zip_map, List.filter_map, List.length_map]
  congr 3
  funext q
  simp only [Function.comp, Prod.map, hf.eq_iff]

theorem getRules_rename (f : C → D) (th : K) (t : FNode C K) : ∀ rule, getRules th rule (treeR f t) = (getRules th rule t).map (List.map (Spec.renameRule f)) := by
  induction t using FNode.induction with
  | h test level m isLeaf cv children ih =>
    intro rule
    have hl : ∀ (cs : List (FNode C K)), (∀ c ∈ cs, ∀ rule, getRules th rule (treeR f c) = (getRules th rule c).map (List.map (Spec.renameRule f))) → ∀ rule,
        getRulesList th rule (treeRList f cs) = (getRulesList th rule cs).map (List.map (Spec.renameRule f)) := by
      intro cs
      induction cs with
      | nil => intro _ mu; rw [treeRList]; rfl
      | cons c cs ihc =>
        intro hc mu
        rw [treeRList]
        simp only [getRulesList]
        rw [hc c (by simp), ihc (fun c' h' => hc c' (by simp [h']))]
        generalize getRules th mu c = A
        generalize getRulesList th mu cs = B
        cases A with
        | error e => rfl
        | ok a => cases B with
          | error e => rfl
          | ok b => simp only [Except.map, py_bind_ok, py_pure, List.map_append]
    rw [treeR]
    simp only [getRules]
    cases nodeClause test rule with
    | error e => rfl
    | ok newRule =>
      simp only [py_bind_ok]
      split
      · cases cv with
        | none => rfl
        | some cv =>
          simp only [Option.map_some, py_pure, Except.map, renameKeys, List.filter_map, List.map_map]
          rfl
      · rw [hl children ih]

/-- **C162** for FDT: rename the classes of the training set with a map that keeps their order (e.g. 0/1 to "no"/"yes"). If the fit with the old
names succeeds so does the one with the new names, and the new tree predicts the new name of what the old tree predicts, for every table, t-norm
and voting method, has the same score on renamed labels, and the same rules with the new names. -/
theorem C162_fdt (f : C → D) (hf : StrictMono f) {ent : List K → List C → K} {ent' : List K → List D → K} (he : Spec.SameImpurity f ent ent')
    (ord : List String → List String) (p : FDTParams K) (X : List (List (Cell K))) (y : List C) {t : FNode C K}
    (h : fdtFit ent ord p fdtNew X y = .ok t) :
    ∃ t', fdtFit ent' ord p fdtNew X (y.map f) = .ok t' ∧
      (∀ T v Z, fdtPredict T v t' Z = (fdtPredict T v t Z).map (List.map (List.map f))) ∧
      (∀ T v Z w, fdtScore T v t' Z (w.map f) = fdtScore T v t Z w) ∧
      (∀ th verbose, t'.toRules th verbose = (t.toRules th verbose).map (List.map (Spec.renameRule f))) := by
  have h0 := fdtFit_rename hf he ord p fdtNew X y
  rw [h, show treeR f (fdtNew : FNode C K) = fdtNew by simp [fdtNew, FNode.fresh, treeR, treeRList]] at h0
  refine ⟨treeR f t, h0, ?_, ?_, ?_⟩
  · intro T v Z; exact predict_rename hf.injective T v t Z
  · intro T v Z w
    unfold fdtScore
    rw [predict_rename hf.injective, List.length_map]
    cases fdtPredict T v t Z with
    | error e => rfl
    | ok p => simp only [Except.map, py_bind_ok, hits_rename hf.injective]
  · intro th _
    exact getRules_rename f th t []

/-- **C162**, FDT: `fit` fails on the renamed labels exactly when it fails on the labels, with the same exception. -/
theorem C162_fdt_fails (f : C → D) (hf : StrictMono f) {ent : List K → List C → K} {ent' : List K → List D → K} (he : Spec.SameImpurity f ent ent')
    (ord : List String → List String) (p : FDTParams K) (X : List (List (Cell K))) (y : List C) (e : PyErr) :
    fdtFit ent' ord p fdtNew X (y.map f) = .error e ↔ fdtFit ent ord p fdtNew X y = .error e := by
  have hr : treeR f (fdtNew : FNode C K) = fdtNew := rfl
  have := fdtFit_rename hf he ord p fdtNew X y
  rw [hr] at this
  rw [this]
  cases fdtFit ent ord p fdtNew X y <;> simp [Except.map]

/-! ### FBDT -/

mutual
/-- a binary tree with the classes renamed. -/
def btreeR (f : C → D) : BNode C K → BNode D K
  | .mk test level mu isLeaf cv children => .mk test level mu isLeaf (cv.map (renameKeys f)) (btreeRList f children)
/-- the same for a list. -/
def btreeRList (f : C → D) : List (BNode C K) → List (BNode D K)
  | [] => []
  | c :: cs => btreeR f c :: btreeRList f cs
end

theorem btreeRList_eq_map (f : C → D) (l : List (BNode C K)) : btreeRList f l = l.map (btreeR f) := by
  induction l with
  | nil => rw [btreeRList]; rfl
  | cons c cs ih => rw [btreeRList, ih]; rfl

section
variable {f : C → D} {ent : List K → List C → K} {ent' : List K → List D → K}

theorem evalPart_rename (he : Spec.SameImpurity f ent ent') (Xm : Dict String (Dict String (List K))) (y : List C)
    (mu : List K) (ign : Dict String Nat) (st : Option (BBest K Nat) × IgnHeap K) (part : BPart) :
    evalPart ent' Xm (y.map f) mu ign st part = evalPart ent Xm y mu ign st part := by
  have hg : ∀ mu l r, splitGainOf ent' (y.map f) mu l r = splitGainOf ent y mu l r := by
    intro mu l r
    have hh : ∀ mu y, ent' mu (y.map f) = ent mu y := he
    unfold splitGainOf
    simp only [hh]
  unfold evalPart
  simp only [hg, List.length_map]

theorem bMaxGain_rename [NanSort K] (hf : StrictMono f) (he : Spec.SameImpurity f ent ent') (cats : List String) (Xm : Dict String (Dict String (List K)))
    (y : List C) (mu : List K) (ign : Dict String Nat) (fd : Dict String (List String)) (heap : IgnHeap K) :
    bMaxGain ent' cats Xm (y.map f) mu ign fd heap = bMaxGain ent cats Xm y mu ign fd heap := by
  unfold bMaxGain
  rw [npUnique_strictMono hf, List.getElem?_map]
  cases (npUnique y)[0]? with
  | none => rfl
  | some c0 =>
    simp only [Option.map_some]
    have h1 : (y.map f).map (fun c => decide (c = f c0)) = y.map (fun c => decide (c = c0)) := by
      rw [List.map_map]
      apply List.map_congr_left
      intro c _
      simp only [Function.comp, hf.injective.eq_iff]
    have h2 : evalPart ent' Xm (y.map f) mu ign = evalPart ent Xm y mu ign := by
      funext st part
      exact evalPart_rename he Xm y mu ign st part
    rw [h1, h2]

/-- the result of fitting with renamed classes: the heap of marks is the same. -/
def outR (f : C → D) (s : BNode C K × IgnHeap K) : BNode D K × IgnHeap K := (btreeR f s.1, s.2)

theorem bFitChild_rename (hf : StrictMono f)
    {rec : IgnHeap K → BNode C K → Dict String Nat → Dict String (List String) → Py (BNode C K × IgnHeap K)}
    {rec' : IgnHeap K → BNode D K → Dict String Nat → Dict String (List String) → Py (BNode D K × IgnHeap K)} (p : FDTParams K)
    (hrec : ∀ heap t ign fd, rec' heap (btreeR f t) ign fd = (rec heap t ign fd).map (outR f)) (y : List C) (mu : List K) (ign : Dict String Nat)
    (fd : Dict String (List String)) (att : String) (sets : List String) (cm : List K) (ref : Nat) (heap : IgnHeap K) :
    bFitChild rec' p (y.map f) mu ign fd att sets cm ref heap = (bFitChild rec p y mu ign fd att sets cm ref heap).map (outR f) := by
  unfold bFitChild
  cases childTest p att sets with
  | error e => rfl
  | ok test =>
    simp only [py_bind_ok]
    cases restrictDict fd att sets with
    | error e => rfl
    | ok fd' =>
      simp only [py_bind_ok]
      by_cases h0 : 0 < cm.sum
      · rw [if_pos h0, if_pos h0]
        have := hrec (updateIgnored ign heap att ref).2 (.fresh (some test) cm) (updateIgnored ign heap att ref).1 fd'
        rw [show btreeR f (BNode.fresh (C := C) (some test) cm) = .fresh (some test) cm by
          simp [BNode.fresh, btreeR, btreeRList]] at this
        exact this
      · rw [if_neg h0, if_neg h0, classValueOf_rename hf]
        cases classValueOf mu y with
        | error e => rfl
        | ok cv => simp only [Except.map, py_bind_ok, py_pure, outR, btreeR, btreeRList, Option.map_some]

theorem bPartialFit_rename [NanSort K] (hf : StrictMono f) (he : Spec.SameImpurity f ent ent') (cats : List String) (p : FDTParams K)
    (Xm : Dict String (Dict String (List K))) (y : List C) :
    ∀ (fuel depth : Nat) (heap : IgnHeap K) (cur : BNode C K) (ign : Dict String Nat) (fd : Dict String (List String)),
      bPartialFit ent' cats p Xm (y.map f) fuel depth heap (btreeR f cur) ign fd =
        (bPartialFit ent cats p Xm y fuel depth heap cur ign fd).map (outR f) := by
  intro fuel
  induction fuel with
  | zero => intro depth heap cur ign fd; rfl
  | succ fuel ih =>
    rintro depth heap ⟨test, level, mu, isLeaf, cv0, children⟩ ign fd
    rw [btreeR]
    simp only [bPartialFit, BNode.mu, BNode.test, BNode.classValue, BNode.children, bMaxGain_rename hf he, maskedY_rename, stopMet_rename hf,
      classValueOf_rename hf]
    generalize bMaxGain ent cats Xm y mu ign fd heap = G
    cases G with
    | error e => rfl
    | ok g =>
      obtain ⟨best, heap1⟩ := g
      have hleaf : (do let cv ← (classValueOf mu y).map (renameKeys f)
                       pure (BNode.mk test depth mu true (some cv) (btreeRList f children), heap1) : Py (BNode D K × IgnHeap K)) =
          (do let cv ← classValueOf mu y; pure (BNode.mk test depth mu true (some cv) children, heap1) : Py (BNode C K × IgnHeap K)).map (outR f) := by
        cases classValueOf mu y with
        | error e => rfl
        | ok cv => simp only [py_bind_ok, py_pure, Except.map, outR, btreeR, Option.map_some]
      simp only [py_bind_ok]
      cases best with
      | none =>
        dsimp only
        by_cases hs : stopMet p 0 (maskedY mu y) depth = true
        · simp only [hs, if_true]
          exact hleaf
        · simp only [hs, Bool.false_eq_true, if_false]
          rfl
      | some b =>
        dsimp only
        by_cases hs : stopMet p b.gain (maskedY mu y) depth = true
        · simp only [hs, if_true]
          exact hleaf
        · simp only [hs, Bool.false_eq_true, if_false]
          have hrec : ∀ heap t ign fd, bPartialFit ent' cats p Xm (y.map f) fuel (depth + 1) heap (btreeR f t) ign fd =
              (bPartialFit ent cats p Xm y fuel (depth + 1) heap t ign fd).map (outR f) := fun heap t ign fd => ih (depth + 1) heap t ign fd
          rw [bFitChild_rename hf p hrec]
          generalize bFitChild (bPartialFit ent cats p Xm y fuel (depth + 1)) p y mu ign fd b.att b.split.1 b.mus.1 b.ignored.1 heap1 = A
          cases A with
          | error e => rfl
          | ok a =>
            simp only [Except.map, py_bind_ok, outR]
            rw [bFitChild_rename hf p hrec]
            generalize bFitChild (bPartialFit ent cats p Xm y fuel (depth + 1)) p y mu ign fd b.att b.split.2 b.mus.2 b.ignored.2 a.2 = B
            cases B with
            | error e => rfl
            | ok b =>
              simp only [Except.map, py_bind_ok, py_pure, outR, btreeR, btreeRList_eq_map, List.map_append, List.map_cons, List.map_nil]

theorem fbdtFit_rename [NanSort K] (hf : StrictMono f) (he : Spec.SameImpurity f ent ent') (p : FDTParams K)
    (root : BNode C K) (X : List (List (Cell K))) (y : List C) :
    fbdtFit ent' p (btreeR f root) X (y.map f) = (fbdtFit ent p root X y).map (btreeR f) := by
  unfold fbdtFit
  cases categoricalFeatures p.vars with
  | error e => rfl
  | ok cats =>
  simp only [py_bind_ok]
  cases checkArray X with
  | error e => rfl
  | ok _ =>
    simp only [py_bind_ok, List.length_map]
    by_cases hxy : X.length ≠ y.length
    · rw [if_pos hxy, if_pos hxy]; rfl
    · rw [if_neg hxy, if_neg hxy]
      cases datasetMembership X p.vars with
      | error e => rfl
      | ok Xm =>
        simp only [py_bind_ok]
        have := bPartialFit_rename hf he cats p Xm y (p.maxDepth + 1) 0 []
          (.mk root.test root.level (y.map (fun _ => 1)) root.isLeaf root.classValue root.children) [] (setNames p.vars)
        rw [show btreeR f (BNode.mk root.test root.level (y.map (fun _ => (1 : K))) root.isLeaf root.classValue root.children) =
          .mk (btreeR f root).test (btreeR f root).level ((y.map f).map (fun _ => 1)) (btreeR f root).isLeaf (btreeR f root).classValue
            (btreeR f root).children by
          cases root
          simp only [btreeR, BNode.test, BNode.level, BNode.isLeaf, BNode.classValue, BNode.children, List.map_map]
          rfl] at this
        rw [this]
        generalize bPartialFit ent cats p Xm y _ _ _ _ _ _ = R
        cases R with
        | error e => rfl
        | ok r => rfl

/-- **C162**, FBDT: `fit` fails on the renamed labels exactly when it fails on the labels, with the same exception. -/
theorem C162_fbdt_fails [NanSort K] (f : C → D) (hf : StrictMono f) {ent : List K → List C → K} {ent' : List K → List D → K} (he : Spec.SameImpurity f ent ent')
    (p : FDTParams K) (X : List (List (Cell K))) (y : List C) (e : PyErr) :
    fbdtFit ent' p fbdtNew X (y.map f) = .error e ↔ fbdtFit ent p fbdtNew X y = .error e := by
  have hr : btreeR f (fbdtNew : BNode C K) = fbdtNew := rfl
  have := fbdtFit_rename hf he p fbdtNew X y
  rw [hr] at this
  rw [this]
  cases fbdtFit ent p fbdtNew X y <;> simp [Except.map]

end

theorem bPartialPredict_rename (f : C → D) (T : K → K → K) (X : List (List (Cell K))) (t : BNode C K) :
    ∀ mu, bPartialPredict T X mu (btreeR f t) = (bPartialPredict T X mu t).map (leavesR f) := by
  induction t using BNode.induction with
  | h test level m isLeaf cv children ih =>
    intro mu
    have hl : ∀ (cs : List (BNode C K)), (∀ c ∈ cs, ∀ mu, bPartialPredict T X mu (btreeR f c) = (bPartialPredict T X mu c).map (leavesR f)) → ∀ mu,
        bPartialPredictList T X mu (btreeRList f cs) = (bPartialPredictList T X mu cs).map (leavesR f) := by
      intro cs
      induction cs with
      | nil => intro _ mu; rw [btreeRList]; simp only [bPartialPredictList]; rfl
      | cons c cs ihc =>
        intro hc mu
        rw [btreeRList]
        simp only [bPartialPredictList]
        rw [hc c (by simp), ihc (fun c' h' => hc c' (by simp [h']))]
        generalize bPartialPredict T X mu c = A
        generalize bPartialPredictList T X mu cs = B
        cases A with
        | error e => rfl
        | ok a => cases B with
          | error e => rfl
          | ok b => simp only [Except.map, py_bind_ok, py_pure, leavesR, List.map_append]
    rw [btreeR]
    simp only [bPartialPredict]
    cases bnodeMu T X mu test with
    | error e => rfl
    | ok newMu =>
      simp only [py_bind_ok]
      split
      · rfl
      · cases children with
        | nil => rw [btreeRList]; rfl
        | cons c cs =>
          rw [btreeRList]
          dsimp only
          rw [ih c (by simp), hl cs (fun c' h' => ih c' (by simp [h']))]
          generalize bPartialPredict T X newMu c = A
          generalize bPartialPredictList T X newMu cs = B
          cases A with
          | error e => rfl
          | ok a => cases B with
            | error e => rfl
            | ok b => simp only [Except.map, py_bind_ok, py_pure, leavesR, List.map_append]

theorem bpredict_rename {f : C → D} (hf : Function.Injective f) (T : K → K → K) (v : Voting) (t : BNode C K) (X : List (List (Cell K))) :
    fbdtPredict T v (btreeR f t) X = (fbdtPredict T v t X).map (List.map (List.map f)) := by
  unfold fbdtPredict BNode.predict
  cases checkArray X with
  | error e => rfl
  | ok _ =>
    simp only [py_bind_ok, bPartialPredict_rename]
    cases bPartialPredict T X (X.map (fun _ => 1)) t with
    | error e => rfl
    | ok l =>
      simp only [Except.map, py_bind_ok]
      rw [winners_rename hf]
      generalize (do let votes ← v.run l
                     if votes = [] then .error .valueError else (List.range X.length).mapM (bestClass votes) : Py (List C)) = R
      cases R <;> rfl

theorem bGetRules_rename (f : C → D) (th : K) (t : BNode C K) : ∀ rule,
    bGetRules th rule (btreeR f t) = (bGetRules th rule t).map (List.map (Spec.renameRule f)) := by
  induction t using BNode.induction with
  | h test level m isLeaf cv children ih =>
    intro rule
    have hl : ∀ (cs : List (BNode C K)), (∀ c ∈ cs, ∀ rule, bGetRules th rule (btreeR f c) = (bGetRules th rule c).map (List.map (Spec.renameRule f))) → ∀ rule,
        bGetRulesList th rule (btreeRList f cs) = (bGetRulesList th rule cs).map (List.map (Spec.renameRule f)) := by
      intro cs
      induction cs with
      | nil => intro _ mu; rw [btreeRList]; rfl
      | cons c cs ihc =>
        intro hc mu
        rw [btreeRList]
        simp only [bGetRulesList]
        rw [hc c (by simp), ihc (fun c' h' => hc c' (by simp [h']))]
        generalize bGetRules th mu c = A
        generalize bGetRulesList th mu cs = B
        cases A with
        | error e => rfl
        | ok a => cases B with
          | error e => rfl
          | ok b => simp only [Except.map, py_bind_ok, py_pure, List.map_append]
    rw [btreeR]
    simp only [bGetRules]
    cases bnodeClause test rule with
    | error e => rfl
    | ok newRule =>
      simp only [py_bind_ok]
      split
      · cases cv with
        | none => rfl
        | some cv =>
          simp only [Option.map_some, py_pure, Except.map, renameKeys, List.filter_map, List.map_map]
          rfl
      · rw [hl children ih]

/-- **C162** for FBDT. -/
theorem C162_fbdt [NanSort K] (f : C → D) (hf : StrictMono f) {ent : List K → List C → K} {ent' : List K → List D → K} (he : Spec.SameImpurity f ent ent')
    (p : FDTParams K) (X : List (List (Cell K))) (y : List C) {t : BNode C K} (h : fbdtFit ent p fbdtNew X y = .ok t) :
    ∃ t', fbdtFit ent' p fbdtNew X (y.map f) = .ok t' ∧
      (∀ T v Z, fbdtPredict T v t' Z = (fbdtPredict T v t Z).map (List.map (List.map f))) ∧
      (∀ T v Z w, fbdtScore T v t' Z (w.map f) = fbdtScore T v t Z w) ∧
      (∀ th simplify, t'.toRules th simplify = (t.toRules th simplify).map (List.map (Spec.renameRule f))) := by
  have h0 := fbdtFit_rename hf he p fbdtNew X y
  rw [h, show btreeR f (fbdtNew : BNode C K) = fbdtNew by simp [fbdtNew, BNode.fresh, btreeR, btreeRList]] at h0
  refine ⟨btreeR f t, h0, ?_, ?_, ?_⟩
  · intro T v Z; exact bpredict_rename hf.injective T v t Z
  · intro T v Z w
    unfold fbdtScore
    rw [bpredict_rename hf.injective, List.length_map]
    cases fbdtPredict T v t Z with
    | error e => rfl
    | ok p => simp only [Except.map, py_bind_ok, hits_rename hf.injective]
  · intro th simplify
    unfold BNode.toRules
    rw [bGetRules_rename f th t []]
    cases bGetRules th [] t with
    | error e => rfl
    | ok rs =>
      simp only [Except.map, py_bind_ok, py_pure]
      cases simplify with
      | false => rfl
      | true => simp only [if_true, List.map_map]; rfl

end rename

/-- the fuzzy entropy of the library, with any logarithm, does not look at the names of the classes. -/
theorem C162_entropy {C D K : Type} [Field K] [LinearOrder K] [LinearOrder C] [LinearOrder D] (lg : K → K) (f : C → D) (hf : StrictMono f) :
    Spec.SameImpurity f (fuzzyEntropy (C := C) lg) (fuzzyEntropy lg) := by
  intro mu y
  unfold fuzzyEntropy
  have hc : ∀ c, classCard mu (y.map f) (f c) = classCard mu y c := by
    intro c
    unfold classCard
    rw [List.zip_map_right]
    rw [List.map_map]
    congr 1
    apply List.map_congr_left
    intro p _
    simp only [Function.comp, Prod.map, id, hf.injective.eq_iff]
  rw [npUnique_strictMono hf, List.map_map]
  congr 1
  apply List.map_congr_left
  intro c _
  simp only [Function.comp, hc]

/-- an order-preserving renaming: 0, 1, ... to 10, 20, ... -/
def exTens (c : Nat) : Nat := 10 * (c + 1)

theorem exTens_mono : StrictMono exTens := by
  intro a b h
  unfold exTens
  omega

theorem exEnt_same : Spec.SameImpurity exTens exEnt exEnt := by
  intro mu y
  unfold exEnt
  rw [maskedY_rename, npUnique_strictMono exTens_mono, List.length_map]

/-- the example of FDT with renamed classes: a split tree whose predictions are renamed. -/
example : ∃ t t', exFit = .ok t ∧ t.isLeaf = false ∧ fdtFit exEnt id exParams fdtNew exX (exY.map exTens) = .ok t' ∧
    fdtPredict min .agg t exX = .ok [exY] ∧ fdtPredict min .agg t' exX = .ok [exY.map exTens] := by
  have h : (exFit.toOption).map (fun t => (t.isLeaf, (fdtPredict min .agg t exX).toOption)) = some (false, some [exY]) := by decide +kernel
  cases e : exFit with
  | error _ => rw [e] at h; simp [Except.toOption] at h
  | ok t =>
    rw [e] at h
    simp only [Except.toOption, Option.map_some, Option.some.injEq, Prod.mk.injEq] at h
    have hp : fdtPredict min .agg t exX = .ok [exY] := by
      cases ep : fdtPredict min .agg t exX with
      | error _ => rw [ep] at h; simp at h
      | ok q => rw [ep] at h; simp at h; rw [h.2]
    obtain ⟨t', h1, h2, _⟩ := C162_fdt exTens exTens_mono exEnt_same id exParams exX exY e
    exact ⟨t, t', rfl, h.1, h1, hp, by rw [h2, hp]; rfl⟩

/-- the same for the binary tree. -/
example : ∃ t t', fbdtFit exEnt exBParams fbdtNew exBX exBY = .ok t ∧ t.isLeaf = false ∧
    fbdtFit exEnt exBParams fbdtNew exBX (exBY.map exTens) = .ok t' ∧
    ∀ th s, t'.toRules th s = (t.toRules th s).map (List.map (Spec.renameRule exTens)) := by
  have h : ((fbdtFit exEnt exBParams fbdtNew exBX exBY).toOption).map (fun t => t.isLeaf) = some false := by decide +kernel
  cases e : fbdtFit exEnt exBParams fbdtNew exBX exBY with
  | error _ => rw [e] at h; simp [Except.toOption] at h
  | ok t =>
    rw [e] at h
    obtain ⟨t', h1, _, _, h2⟩ := C162_fbdt exTens exTens_mono exEnt_same exBParams exBX exBY e
    exact ⟨t, t', rfl, by simpa [Except.toOption] using h, h1, h2⟩

/-- the order matters: two equal rows of classes 0 and 1, and the same with the names exchanged, give the prediction 0 in both cases. -/
theorem C162_order_matters : ((fdtFit exEnt id exParams fdtNew [[.num 1, .str "m"], [.num 1, .str "m"]] [0, 1]).toOption.map
      (fun t => (fdtPredict min .agg t [[.num 1, .str "m"]]).toOption)) = some (some [[0]]) ∧
    ((fdtFit exEnt id exParams fdtNew [[.num 1, .str "m"], [.num 1, .str "m"]] ([0, 1].map (fun c => 1 - c))).toOption.map
      (fun t => (fdtPredict min .agg t [[.num 1, .str "m"]]).toOption)) = some (some [[0]]) := by decide +kernel

end Teacher
