import Verif.Props.RowOrderB

/-! # C159: units of measure. Changing the unit of a column (`x ↦ a·x + b` with `a > 0`) together with the points of its fuzzy sets changes
nothing a user of the fuzzy trees can see. -/

namespace Teacher
set_option linter.unusedSectionVars false

section units
variable {C K : Type} [Field K] [LinearOrder K] [IsStrictOrderedRing K] [LinearOrder C]

/-- a change of unit: factor and offset. -/
structure Spec.Unit (K : Type) [Field K] [LinearOrder K] where
  factor : K
  offset : K
  pos : 0 < factor

/-- a number in the new unit. -/
def Spec.Unit.app (u : Spec.Unit K) (x : K) : K := u.factor * x + u.offset

/-- a cell in the new unit: strings have none. -/
def Spec.Unit.cell (u : Spec.Unit K) : Cell K → Cell K
  | .num x => .num (u.app x)
  | .str s => .str s

/-- a fuzzy set in the new unit, with the same name. -/
def Spec.Unit.set (u : Spec.Unit K) : FSet K → FSet K
  | .cont s => .cont ⟨s.name, u.app s.a, u.app s.b, u.app s.c, s.pointSet⟩
  | .disc s => .disc ⟨s.name, u.cell s.value⟩

/-- a fuzzy variable in the new unit. -/
def Spec.Unit.var (u : Spec.Unit K) (v : FVar K) : FVar K := ⟨v.name, v.sets.map u.set⟩

/-- a row with column `j` in unit `us j`. -/
def Spec.inUnits (us : Nat → Spec.Unit K) (X : List (List (Cell K))) : List (List (Cell K)) := X.map (fun r => r.mapIdx (fun j c => (us j).cell c))

/-- the variables of the columns in the new units. -/
def Spec.varsInUnits (us : Nat → Spec.Unit K) (vars : List (FVar K)) : List (FVar K) := vars.mapIdx (fun j v => (us j).var v)

theorem Spec.Unit.app_lt (u : Spec.Unit K) {x y : K} : u.app x < u.app y ↔ x < y := by
  unfold Spec.Unit.app
  rw [add_lt_add_iff_right]
  exact mul_lt_mul_iff_right₀ u.pos

theorem Spec.Unit.app_le (u : Spec.Unit K) {x y : K} : u.app x ≤ u.app y ↔ x ≤ y := by
  rw [← not_lt, u.app_lt, not_lt]

theorem Spec.Unit.app_inj (u : Spec.Unit K) {x y : K} : u.app x = u.app y ↔ x = y := by
  rw [le_antisymm_iff, u.app_le, u.app_le, ← le_antisymm_iff]

theorem Spec.Unit.app_sub (u : Spec.Unit K) (x y : K) : u.app x - u.app y = u.factor * (x - y) := by
  unfold Spec.Unit.app; ring

theorem Spec.Unit.cell_inj (u : Spec.Unit K) {x y : Cell K} : u.cell x = u.cell y ↔ x = y := by
  cases x <;> cases y <;> simp [Spec.Unit.cell, u.app_inj]

theorem trimfAt_unit (u : Spec.Unit K) (a b c x : K) : trimfAt (u.app a) (u.app b) (u.app c) (u.app x) = trimfAt a b c x := by
  unfold trimfAt
  have hne : u.factor ≠ 0 := ne_of_gt u.pos
  simp only [ne_eq, u.app_inj, u.app_lt, u.app_sub, mul_div_mul_left _ _ hne]

theorem set_name (u : Spec.Unit K) (s : FSet K) : (u.set s).name = s.name := by cases s <;> rfl

theorem membership_unit (u : Spec.Unit K) (s : FSet K) (v : List (Cell K)) : (u.set s).membership (v.map u.cell) = s.membership v := by
  cases s with
  | cont s =>
    simp only [Spec.Unit.set, FSet.membership, CSet.membership, u.app_le]
    split
    · induction v with
      | nil => rfl
      | cons x v ih =>
        rw [List.map_cons, List.mapM_cons, List.mapM_cons, ih]
        cases x with
        | num x => simp only [Spec.Unit.cell, trimfAt_unit]
        | str x => simp only [Spec.Unit.cell, u.app_inj]
    · rfl
  | disc s =>
    simp only [Spec.Unit.set, FSet.membership, DSet.membership, List.map_map]
    congr 1
    apply List.map_congr_left
    intro x _
    simp only [Function.comp, u.cell_inj]

theorem varMembership_unit (u : Spec.Unit K) (w : FVar K) (v : List (Cell K)) : (u.var w).membership (v.map u.cell) = w.membership v := by
  unfold FVar.membership Spec.Unit.var
  have : ∀ ss : List (FSet K), (ss.map u.set).mapM (fun fs => do let m ← fs.membership (v.map u.cell); pure (fs.name, m)) =
      (ss.mapM (fun fs => do let m ← fs.membership v; pure (fs.name, m)) : Py _) := by
    intro ss
    induction ss with
    | nil => rfl
    | cons s ss ih => rw [List.map_cons, List.mapM_cons, List.mapM_cons, ih, membership_unit, set_name]
  rw [this]

theorem column_unit (us : Nat → Spec.Unit K) (X : List (List (Cell K))) (j : Nat) :
    column (Spec.inUnits us X) j = (column X j).map (List.map (us j).cell) := by
  unfold column Spec.inUnits
  induction X with
  | nil => rfl
  | cons r X ih =>
    rw [List.map_cons, List.mapM_cons, List.mapM_cons, ih, List.getElem?_mapIdx]
    cases r[j]? with
    | none => rfl
    | some x =>
      simp only [Option.map_some, py_bind_ok]
      have aux : ∀ R : Py (List (Cell K)), (do let l ← R.map (List.map (us j).cell); pure ((us j).cell x :: l) : Py (List (Cell K))) =
          (do let l ← R; pure (x :: l) : Py (List (Cell K))).map (List.map (us j).cell) := by
        intro R; cases R <;> rfl
      exact aux _

theorem datasetMembershipFrom_unit (us : Nat → Spec.Unit K) (X : List (List (Cell K))) (vars : List (FVar K)) :
    ∀ (i : Nat) (acc : Dict String (Dict String (List K))),
      datasetMembershipFrom (Spec.inUnits us X) i acc (vars.mapIdx (fun j v => (us (j + i)).var v)) = datasetMembershipFrom X i acc vars := by
  induction vars with
  | nil => intro i acc; rfl
  | cons v vars ih =>
    intro i acc
    rw [List.mapIdx_cons]
    simp only [datasetMembershipFrom, column_unit, Nat.zero_add]
    cases column X i with
    | error e => rfl
    | ok col =>
      simp only [Except.map, py_bind_ok, varMembership_unit]
      cases v.membership col with
      | error e => rfl
      | ok m =>
        simp only [py_bind_ok]
        have := ih (i + 1) (Dict.set acc v.name m)
        rw [← this]
        congr 2
        funext j w
        rw [show j + 1 + i = j + (i + 1) by omega]

theorem rect_unit (us : Nat → Spec.Unit K) (X : List (List (Cell K))) : checkArray (Spec.inUnits us X) = checkArray X := by
  unfold checkArray Spec.inUnits
  cases X with
  | nil => rfl
  | cons r rs =>
    simp only [List.map_cons, List.length_mapIdx, List.mem_map, exists_exists_and_eq_and]

/-- **C159**: the membership table of a dataset is the same in all units. -/
theorem C159_membership (us : Nat → Spec.Unit K) (X : List (List (Cell K))) (vars : List (FVar K)) :
    datasetMembership (Spec.inUnits us X) (Spec.varsInUnits us vars) = datasetMembership X vars := by
  have h := datasetMembershipFrom_unit us X vars 0 []
  simp only [Nat.add_zero] at h
  have hr := rect_unit us X
  by_cases hR : Rectangular X
  · have hR' : Rectangular (Spec.inUnits us X) := by rw [← checkArray_ok_iff, hr, checkArray_ok_iff]; exact hR
    rw [(datasetMembership_eq _ _).1 hR, (datasetMembership_eq _ _).1 hR']
    exact h
  · have hR' : ¬ Rectangular (Spec.inUnits us X) := by rw [← checkArray_ok_iff, hr, checkArray_ok_iff]; exact hR
    rw [(datasetMembership_eq _ _).2 hR, (datasetMembership_eq _ _).2 hR']

/-! ### FDT -/

/-- the test of a node in the new units. -/
def testU (us : Nat → Spec.Unit K) (t : FTest K) : FTest K := ⟨(us t.att).var t.var, t.att, t.idx⟩

mutual
/-- a tree in the new units. -/
def treeU (us : Nat → Spec.Unit K) : FNode C K → FNode C K
  | .mk test level mu isLeaf cv children => .mk (test.map (testU us)) level mu isLeaf cv (treeUList us children)
/-- the same for a list. -/
def treeUList (us : Nat → Spec.Unit K) : List (FNode C K) → List (FNode C K)
  | [] => []
  | c :: cs => treeU us c :: treeUList us cs
end

theorem treeUList_eq_map (us : Nat → Spec.Unit K) (l : List (FNode C K)) : treeUList us l = l.map (treeU us) := by
  induction l with
  | nil => rw [treeUList]; rfl
  | cons c cs ih => rw [treeUList, ih]; rfl

/-- the parameters in the new units. -/
def paramsU (us : Nat → Spec.Unit K) (p : FDTParams K) : FDTParams K := { p with vars := Spec.varsInUnits us p.vars }

theorem featuresDict_unit (us : Nat → Spec.Unit K) (vars : List (FVar K)) : featuresDict (Spec.varsInUnits us vars) = featuresDict vars := by
  unfold featuresDict Spec.varsInUnits
  congr 1
  apply List.ext_getElem?
  intro i
  simp only [List.getElem?_map, List.getElem?_zipIdx, List.getElem?_mapIdx, Option.map_map]
  rfl

theorem varsInUnits_names (us : Nat → Spec.Unit K) (vars : List (FVar K)) : (Spec.varsInUnits us vars).map FVar.name = vars.map FVar.name := by
  unfold Spec.varsInUnits
  apply List.ext_getElem?
  intro i
  simp only [List.getElem?_map, List.getElem?_mapIdx, Option.map_map]
  rfl

theorem fitChildren_unit (us : Nat → Spec.Unit K) {rec rec' : FNode C K → Py (FNode C K)} (p : FDTParams K)
    (hrec : ∀ t, rec' (treeU us t) = (rec t).map (treeU us)) (y : List C) (mu : List K) (att : String) (d : Dict String (List K))
    (features : List String) (vals : List String) : ∀ i,
    fitChildren rec' (paramsU us p) y mu att d features i vals = (fitChildren rec p y mu att d features i vals).map (List.map (treeU us)) := by
  induction vals with
  | nil => intro i; rfl
  | cons v vals ih =>
    intro i
    simp only [fitChildren]
    by_cases ha : att ∉ features
    · rw [if_pos ha, if_pos ha]; rfl
    · rw [if_neg ha, if_neg ha]
      rw [show featuresDict (paramsU us p).vars = featuresDict p.vars from featuresDict_unit us p.vars]
      cases hfi : Dict.get (featuresDict p.vars) att with
      | error e => rfl
      | ok fi =>
        simp only [py_bind_ok]
        have hv' : (paramsU us p).vars[fi]? = p.vars[fi]?.map (us fi).var := by
          simp only [paramsU, Spec.varsInUnits, List.getElem?_mapIdx]
        rw [hv']
        cases hv : p.vars[fi]? with
        | none => rfl
        | some var =>
          simp only [Option.map_some, py_bind_ok]
          cases hd : Dict.get d v with
          | error e => rfl
          | ok c =>
            simp only [py_bind_ok]
            have hchild : fitChild rec' y mu (.fresh (some ⟨(us fi).var var, fi, i⟩) c) =
                (fitChild rec y mu (.fresh (some ⟨var, fi, i⟩) c)).map (treeU us) := by
              unfold fitChild
              by_cases h0 : 0 < c.sum
              · rw [if_pos (show 0 < (FNode.fresh (C := C) (some ⟨var, fi, i⟩) c).mu.sum from h0),
                  if_pos (show 0 < (FNode.fresh (C := C) (some ⟨(us fi).var var, fi, i⟩) c).mu.sum from h0), ← hrec]
                congr 1
              · rw [if_neg (show ¬ 0 < (FNode.fresh (C := C) (some ⟨var, fi, i⟩) c).mu.sum from h0),
                  if_neg (show ¬ 0 < (FNode.fresh (C := C) (some ⟨(us fi).var var, fi, i⟩) c).mu.sum from h0)]
                cases classValueOf mu y with
                | error e => rfl
                | ok cv => rfl
            rw [hchild, ih (i + 1)]
            generalize fitChild rec y mu (.fresh (some ⟨var, fi, i⟩) c) = A
            generalize fitChildren rec p y mu att d features (i + 1) vals = R
            cases A with
            | error e => rfl
            | ok a => cases R <;> rfl

theorem partialFit_unit (us : Nat → Spec.Unit K) (ent : List K → List C → K) (ord : List String → List String) (p : FDTParams K)
    (Xm : Dict String (Dict String (List K))) (y : List C) : ∀ (fuel : Nat) (cur : FNode C K) (features : List String) (depth : Nat),
      partialFit ent ord (paramsU us p) Xm y fuel (treeU us cur) features depth = (partialFit ent ord p Xm y fuel cur features depth).map (treeU us) := by
  intro fuel
  induction fuel with
  | zero => intro cur features depth; rfl
  | succ fuel ih =>
    rintro ⟨test, level, mu, isLeaf, cv0, children⟩ features depth
    rw [treeU]
    simp only [partialFit, FNode.mu, FNode.test, FNode.classValue, FNode.children]
    generalize getMaxFGain ent Xm y mu (ord features) = G
    cases G with
    | error e => rfl
    | ok g =>
      obtain ⟨att, gain, childMu⟩ := g
      simp only [py_bind_ok]
      by_cases hs : stopMet p gain (maskedY mu y) depth = true
      · have hs' : stopMet (paramsU us p) gain (maskedY mu y) depth = true := hs
        simp only [hs, hs', if_true]
        cases classValueOf mu y with
        | error e => rfl
        | ok cv => simp only [py_bind_ok, py_pure, Except.map, treeU]
      · have hs' : ¬ stopMet (paramsU us p) gain (maskedY mu y) depth = true := hs
        simp only [hs, hs', Bool.false_eq_true, if_false]
        cases Dict.get Xm att with
        | error e => rfl
        | ok sets =>
          simp only [py_bind_ok]
          rw [fitChildren_unit us p (rec := fun child => partialFit ent ord p Xm y fuel child (features.erase att) (depth + 1))
            (fun t => ih t _ _)]
          generalize fitChildren (fun child => partialFit ent ord p Xm y fuel child (features.erase att) (depth + 1)) p y mu att childMu features 0
            (Dict.keys sets) = R
          cases R with
          | error e => rfl
          | ok cs => simp only [py_bind_ok, py_pure, Except.map, treeU, treeUList_eq_map, List.map_append]

theorem fdtFit_unit (us : Nat → Spec.Unit K) (ent : List K → List C → K) (ord : List String → List String) (p : FDTParams K)
    (root : FNode C K) (X : List (List (Cell K))) (y : List C) :
    fdtFit ent ord (paramsU us p) (treeU us root) (Spec.inUnits us X) y = (fdtFit ent ord p root X y).map (treeU us) := by
  unfold fdtFit
  rw [rect_unit]
  cases checkArray X with
  | error e => rfl
  | ok _ =>
    simp only [py_bind_ok]
    have hl : (Spec.inUnits us X).length = X.length := by simp [Spec.inUnits]
    rw [hl]
    by_cases hxy : X.length ≠ y.length
    · rw [if_pos hxy, if_pos hxy]; rfl
    · rw [if_neg hxy, if_neg hxy]
      rw [show datasetMembership (Spec.inUnits us X) (paramsU us p).vars = datasetMembership X p.vars from C159_membership us X p.vars]
      cases datasetMembership X p.vars with
      | error e => rfl
      | ok Xm =>
        simp only [py_bind_ok]
        rw [show (paramsU us p).vars.map FVar.name = p.vars.map FVar.name from varsInUnits_names us p.vars]
        rw [← partialFit_unit]
        obtain ⟨test, level, mu, isLeaf, cv0, children⟩ := root
        simp only [treeU, FNode.test, FNode.level, FNode.isLeaf, FNode.classValue, FNode.children]

theorem nodeMu_unit (us : Nat → Spec.Unit K) (T : K → K → K) (X : List (List (Cell K))) (mu : List K) (test : Option (FTest K)) :
    nodeMu T (Spec.inUnits us X) mu (test.map (testU us)) = nodeMu T X mu test := by
  cases test with
  | none => rfl
  | some t =>
    simp only [Option.map_some, nodeMu, testU, Spec.Unit.var, List.getElem?_map]
    cases t.var.sets[t.idx]? with
    | none => rfl
    | some fs =>
      simp only [Option.map_some, column_unit]
      cases column X t.att with
      | error e => rfl
      | ok col => simp only [Except.map, py_bind_ok, membership_unit]

theorem partialPredict_unit (us : Nat → Spec.Unit K) (T : K → K → K) (X : List (List (Cell K))) (t : FNode C K) :
    ∀ mu, partialPredict T (Spec.inUnits us X) mu (treeU us t) = partialPredict T X mu t := by
  induction t using FNode.induction with
  | h test level m isLeaf cv children ih =>
    intro mu
    have hl : ∀ (cs : List (FNode C K)), (∀ c ∈ cs, ∀ mu, partialPredict T (Spec.inUnits us X) mu (treeU us c) = partialPredict T X mu c) → ∀ mu,
        partialPredictList T (Spec.inUnits us X) mu (treeUList us cs) = partialPredictList T X mu cs := by
      intro cs
      induction cs with
      | nil => intro _ mu; rw [treeUList]; simp only [partialPredictList]
      | cons c cs ihc =>
        intro hc mu
        rw [treeUList]
        simp only [partialPredictList]
        rw [hc c (by simp), ihc (fun c' h' => hc c' (by simp [h']))]
    rw [treeU]
    simp only [partialPredict, nodeMu_unit]
    congr 1
    funext newMu
    split
    · rfl
    · cases children with
      | nil => rw [treeUList]
      | cons c cs =>
        rw [treeUList]
        dsimp only
        rw [ih c (by simp), hl cs (fun c' h' => ih c' (by simp [h']))]

theorem getRules_unit (us : Nat → Spec.Unit K) (th : K) (t : FNode C K) : ∀ rule, getRules th rule (treeU us t) = getRules th rule t := by
  induction t using FNode.induction with
  | h test level m isLeaf cv children ih =>
    intro rule
    have hl : ∀ (cs : List (FNode C K)), (∀ c ∈ cs, ∀ rule, getRules th rule (treeU us c) = getRules th rule c) → ∀ rule,
        getRulesList th rule (treeUList us cs) = getRulesList th rule cs := by
      intro cs
      induction cs with
      | nil => intro _ mu; rw [treeUList]
      | cons c cs ihc =>
        intro hc mu
        rw [treeUList]
        simp only [getRulesList]
        rw [hc c (by simp), ihc (fun c' h' => hc c' (by simp [h']))]
    have hn : nodeClause (test.map (testU us)) rule = nodeClause test rule := by
      cases test with
      | none => rfl
      | some t =>
        simp only [Option.map_some, nodeClause, testU, Spec.Unit.var, List.getElem?_map]
        cases t.var.sets[t.idx]? with
        | none => rfl
        | some fs => simp only [Option.map_some, set_name]
    rw [treeU]
    simp only [getRules, hn]
    congr 1
    funext newRule
    split
    · rfl
    · rw [hl children ih]

theorem predict_unit (us : Nat → Spec.Unit K) (T : K → K → K) (v : Voting) (t : FNode C K) (X : List (List (Cell K))) :
    fdtPredict T v (treeU us t) (Spec.inUnits us X) = fdtPredict T v t X := by
  unfold fdtPredict FNode.predict
  have h1 : (Spec.inUnits us X).map (fun _ => (1 : K)) = X.map (fun _ => 1) := by unfold Spec.inUnits; rw [List.map_map]; rfl
  have h2 : (Spec.inUnits us X).length = X.length := by simp [Spec.inUnits]
  rw [rect_unit, h1, h2, partialPredict_unit]

/-- **C159** for FDT: fit a new tree to a table, and another to the same table with any columns in other units and the points of the fuzzy sets in the
same units. If one fit succeeds so does the other, the two trees predict the same classes for every table (given in the respective units) for every
t-norm and voting method, and have the same scores and rules. -/
theorem C159_fdt (us : Nat → Spec.Unit K) (ent : List K → List C → K) (ord : List String → List String) (p : FDTParams K)
    (X : List (List (Cell K))) (y : List C) {t : FNode C K} (h : fdtFit ent ord p fdtNew X y = .ok t) :
    ∃ t', fdtFit ent ord { p with vars := Spec.varsInUnits us p.vars } fdtNew (Spec.inUnits us X) y = .ok t' ∧
      (∀ T v Z, fdtPredict T v t' (Spec.inUnits us Z) = fdtPredict T v t Z) ∧
      (∀ T v Z w, fdtScore T v t' (Spec.inUnits us Z) w = fdtScore T v t Z w) ∧
      (∀ th verbose, t'.toRules th verbose = t.toRules th verbose) ∧ t'.mu = t.mu := by
  have h0 := fdtFit_unit us ent ord p fdtNew X y
  rw [h, show treeU us (fdtNew : FNode C K) = fdtNew by simp [fdtNew, FNode.fresh, treeU, treeUList]] at h0
  refine ⟨treeU us t, h0, ?_, ?_, ?_, ?_⟩
  · intro T v Z; exact predict_unit us T v t Z
  · intro T v Z w
    unfold fdtScore
    rw [predict_unit, rect_unit, show (Spec.inUnits us Z).length = Z.length by simp [Spec.inUnits]]
  · intro th _
    exact getRules_unit us th t []
  · cases t; rw [treeU]; rfl

/-! ### FBDT -/

/-- the test of a node in the new units. -/
def btestU (us : Nat → Spec.Unit K) (t : BTest K) : BTest K := ⟨(us t.att).var t.var, t.att, t.idxs⟩

mutual
/-- a binary tree in the new units. -/
def btreeU (us : Nat → Spec.Unit K) : BNode C K → BNode C K
  | .mk test level mu isLeaf cv children => .mk (test.map (btestU us)) level mu isLeaf cv (btreeUList us children)
/-- the same for a list. -/
def btreeUList (us : Nat → Spec.Unit K) : List (BNode C K) → List (BNode C K)
  | [] => []
  | c :: cs => btreeU us c :: btreeUList us cs
end

theorem btreeUList_eq_map (us : Nat → Spec.Unit K) (l : List (BNode C K)) : btreeUList us l = l.map (btreeU us) := by
  induction l with
  | nil => rw [btreeUList]; rfl
  | cons c cs ih => rw [btreeUList, ih]; rfl

theorem setIndices_unit (u : Spec.Unit K) (v : FVar K) : setIndices (u.var v) = setIndices v := by
  unfold setIndices Spec.Unit.var
  congr 1
  apply List.ext_getElem?
  intro i
  simp only [List.getElem?_map, List.getElem?_zipIdx, Option.map_map]
  congr 1
  funext s
  simp only [Function.comp, set_name]

theorem childTest_unit (us : Nat → Spec.Unit K) (p : FDTParams K) (att : String) (sets : List String) :
    childTest (paramsU us p) att sets = (childTest p att sets).map (btestU us) := by
  unfold childTest
  rw [show featuresDict (paramsU us p).vars = featuresDict p.vars from featuresDict_unit us p.vars]
  cases Dict.get (featuresDict p.vars) att with
  | error e => rfl
  | ok fi =>
    simp only [py_bind_ok]
    have hv' : (paramsU us p).vars[fi]? = p.vars[fi]?.map (us fi).var := by
      simp only [paramsU, Spec.varsInUnits, List.getElem?_mapIdx]
    rw [hv']
    cases p.vars[fi]? with
    | none => rfl
    | some var =>
      simp only [Option.map_some, py_bind_ok, setIndices_unit]
      generalize sets.mapM (Dict.get (setIndices var)) = R
      cases R <;> rfl

/-- the result of fitting in the new units: the heap of marks is the same. -/
def outU (us : Nat → Spec.Unit K) (s : BNode C K × IgnHeap K) : BNode C K × IgnHeap K := (btreeU us s.1, s.2)

theorem bFitChild_unit (us : Nat → Spec.Unit K)
    {rec rec' : IgnHeap K → BNode C K → Dict String Nat → Dict String (List String) → Py (BNode C K × IgnHeap K)} (p : FDTParams K)
    (hrec : ∀ heap t ign fd, rec' heap (btreeU us t) ign fd = (rec heap t ign fd).map (outU us)) (y : List C) (mu : List K) (ign : Dict String Nat)
    (fd : Dict String (List String)) (att : String) (sets : List String) (cm : List K) (ref : Nat) (heap : IgnHeap K) :
    bFitChild rec' (paramsU us p) y mu ign fd att sets cm ref heap = (bFitChild rec p y mu ign fd att sets cm ref heap).map (outU us) := by
  unfold bFitChild
  rw [childTest_unit]
  cases childTest p att sets with
  | error e => rfl
  | ok test =>
    simp only [Except.map, py_bind_ok]
    cases restrictDict fd att sets with
    | error e => rfl
    | ok fd' =>
      simp only [py_bind_ok]
      split
      · have := hrec (updateIgnored ign heap att ref).2 (.fresh (some test) cm) (updateIgnored ign heap att ref).1 fd'
        rw [show btreeU us (BNode.fresh (C := C) (some test) cm) = .fresh (some (btestU us test)) cm by
          simp [BNode.fresh, btreeU, btreeUList]] at this
        rw [this]
        rfl
      · cases classValueOf mu y with
        | error e => rfl
        | ok cv => simp only [py_bind_ok, py_pure, outU, btreeU, btreeUList, Option.map_some]

theorem bPartialFit_unit [NanSort K] (us : Nat → Spec.Unit K) (ent : List K → List C → K) (cats : List String) (p : FDTParams K)
    (Xm : Dict String (Dict String (List K))) (y : List C) :
    ∀ (fuel depth : Nat) (heap : IgnHeap K) (cur : BNode C K) (ign : Dict String Nat) (fd : Dict String (List String)),
      bPartialFit ent cats (paramsU us p) Xm y fuel depth heap (btreeU us cur) ign fd =
        (bPartialFit ent cats p Xm y fuel depth heap cur ign fd).map (outU us) := by
  intro fuel
  induction fuel with
  | zero => intro depth heap cur ign fd; rfl
  | succ fuel ih =>
    rintro depth heap ⟨test, level, mu, isLeaf, cv0, children⟩ ign fd
    rw [btreeU]
    simp only [bPartialFit, BNode.mu, BNode.test, BNode.classValue, BNode.children]
    generalize bMaxGain ent cats Xm y mu ign fd heap = G
    cases G with
    | error e => rfl
    | ok g =>
      obtain ⟨best, heap1⟩ := g
      have hleaf : (do let cv ← classValueOf mu y
                       pure (BNode.mk (test.map (btestU us)) depth mu true (some cv) (btreeUList us children), heap1) : Py (BNode C K × IgnHeap K)) =
          (do let cv ← classValueOf mu y; pure (BNode.mk test depth mu true (some cv) children, heap1) : Py (BNode C K × IgnHeap K)).map (outU us) := by
        cases classValueOf mu y with
        | error e => rfl
        | ok cv => simp only [py_bind_ok, py_pure, Except.map, outU, btreeU]
      simp only [py_bind_ok]
      cases best with
      | none =>
        dsimp only
        by_cases hs : stopMet p 0 (maskedY mu y) depth = true
        · have hs' : stopMet (paramsU us p) 0 (maskedY mu y) depth = true := hs
          simp only [hs, hs', if_true]
          exact hleaf
        · have hs' : ¬ stopMet (paramsU us p) 0 (maskedY mu y) depth = true := hs
          simp only [hs, hs', Bool.false_eq_true, if_false]
          rfl
      | some b =>
        dsimp only
        by_cases hs : stopMet p b.gain (maskedY mu y) depth = true
        · have hs' : stopMet (paramsU us p) b.gain (maskedY mu y) depth = true := hs
          simp only [hs, hs', if_true]
          exact hleaf
        · have hs' : ¬ stopMet (paramsU us p) b.gain (maskedY mu y) depth = true := hs
          simp only [hs, hs', Bool.false_eq_true, if_false]
          have hrec : ∀ heap t ign fd, bPartialFit ent cats (paramsU us p) Xm y fuel (depth + 1) heap (btreeU us t) ign fd =
              (bPartialFit ent cats p Xm y fuel (depth + 1) heap t ign fd).map (outU us) := fun heap t ign fd => ih (depth + 1) heap t ign fd
          rw [bFitChild_unit us p hrec]
          generalize bFitChild (bPartialFit ent cats p Xm y fuel (depth + 1)) p y mu ign fd b.att b.split.1 b.mus.1 b.ignored.1 heap1 = A
          cases A with
          | error e => rfl
          | ok a =>
            simp only [Except.map, py_bind_ok, outU]
            rw [bFitChild_unit us p hrec]
            generalize bFitChild (bPartialFit ent cats p Xm y fuel (depth + 1)) p y mu ign fd b.att b.split.2 b.mus.2 b.ignored.2 a.2 = B
            cases B with
            | error e => rfl
            | ok b =>
              simp only [Except.map, py_bind_ok, py_pure, outU, btreeU, btreeUList_eq_map, List.map_append, List.map_cons, List.map_nil]

theorem mapM_mapIdx {α β γ : Type} {f : α → Py β} {f' : γ → Py β} (l : List γ) : ∀ h : Nat → γ → α, (∀ j c, f (h j c) = f' c) →
    (l.mapIdx h).mapM f = l.mapM f' := by
  induction l with
  | nil => intro h _; rfl
  | cons a l ih =>
    intro h hh
    rw [List.mapIdx_cons, List.mapM_cons, List.mapM_cons, hh, ih (fun j => h (j + 1)) (fun j c => hh (j + 1) c)]

theorem categoricalFeatures_unit (us : Nat → Spec.Unit K) (vars : List (FVar K)) :
    categoricalFeatures (Spec.varsInUnits us vars) = categoricalFeatures vars := by
  unfold categoricalFeatures Spec.varsInUnits
  refine congrArg (fun A : Py (List (String × Bool)) => A >>= _) (mapM_mapIdx vars _ ?_)
  intro j v
  simp only [Spec.Unit.var, List.getElem?_map]
  cases v.sets[0]? with
  | none => rfl
  | some s => cases s <;> rfl

theorem setNames_unit (us : Nat → Spec.Unit K) (vars : List (FVar K)) : setNames (Spec.varsInUnits us vars) = setNames vars := by
  unfold setNames Spec.varsInUnits
  congr 1
  apply List.ext_getElem?
  intro i
  simp only [List.getElem?_map, List.getElem?_mapIdx, Option.map_map]
  congr 1
  funext v
  simp only [Function.comp, Spec.Unit.var, List.map_map]
  congr 2
  funext s
  exact set_name _ s

theorem fbdtFit_unit [NanSort K] (us : Nat → Spec.Unit K) (ent : List K → List C → K) (p : FDTParams K)
    (root : BNode C K) (X : List (List (Cell K))) (y : List C) :
    fbdtFit ent (paramsU us p) (btreeU us root) (Spec.inUnits us X) y = (fbdtFit ent p root X y).map (btreeU us) := by
  unfold fbdtFit
  rw [show categoricalFeatures (paramsU us p).vars = categoricalFeatures p.vars from categoricalFeatures_unit us p.vars, rect_unit]
  cases categoricalFeatures p.vars with
  | error e => rfl
  | ok cats =>
  simp only [py_bind_ok]
  cases checkArray X with
  | error e => rfl
  | ok _ =>
    simp only [py_bind_ok]
    have hl : (Spec.inUnits us X).length = X.length := by simp [Spec.inUnits]
    rw [hl]
    by_cases hxy : X.length ≠ y.length
    · rw [if_pos hxy, if_pos hxy]; rfl
    · rw [if_neg hxy, if_neg hxy]
      rw [show datasetMembership (Spec.inUnits us X) (paramsU us p).vars = datasetMembership X p.vars from C159_membership us X p.vars]
      cases datasetMembership X p.vars with
      | error e => rfl
      | ok Xm =>
        simp only [py_bind_ok]
        rw [show setNames (paramsU us p).vars = setNames p.vars from setNames_unit us p.vars]
        have := bPartialFit_unit us ent cats p Xm y (p.maxDepth + 1) 0 []
          (.mk root.test root.level (y.map (fun _ => 1)) root.isLeaf root.classValue root.children) [] (setNames p.vars)
        rw [show btreeU us (BNode.mk root.test root.level (y.map (fun _ => (1 : K))) root.isLeaf root.classValue root.children) =
          .mk (btreeU us root).test (btreeU us root).level (y.map (fun _ => 1)) (btreeU us root).isLeaf (btreeU us root).classValue
            (btreeU us root).children by
          cases root; simp only [btreeU, BNode.test, BNode.level, BNode.isLeaf, BNode.classValue, BNode.children]] at this
        rw [show (paramsU us p).maxDepth = p.maxDepth from rfl, this]
        generalize bPartialFit ent cats p Xm y _ _ _ _ _ _ = R
        cases R with
        | error e => rfl
        | ok r => rfl

theorem pertDegree_unit (us : Nat → Spec.Unit K) (X : List (List (Cell K))) (t : BTest K) :
    pertDegree (Spec.inUnits us X) (btestU us t) = pertDegree X t := by
  unfold pertDegree
  have h1 : (Spec.inUnits us X).map (fun _ => (0 : K)) = X.map (fun _ => 0) := by unfold Spec.inUnits; rw [List.map_map]; rfl
  rw [h1]
  simp only [btestU]
  congr 1
  funext acc i
  simp only [Spec.Unit.var, List.getElem?_map, column_unit]
  cases t.var.sets[i]? with
  | none => rfl
  | some fs =>
    simp only [Option.map_some]
    cases column X t.att with
    | error e => rfl
    | ok col => simp only [Except.map, py_bind_ok, membership_unit]

theorem bnodeMu_unit (us : Nat → Spec.Unit K) (T : K → K → K) (X : List (List (Cell K))) (mu : List K) (test : Option (BTest K)) :
    bnodeMu T (Spec.inUnits us X) mu (test.map (btestU us)) = bnodeMu T X mu test := by
  cases test with
  | none => rfl
  | some t => simp only [Option.map_some, bnodeMu, pertDegree_unit]

theorem bPartialPredict_unit (us : Nat → Spec.Unit K) (T : K → K → K) (X : List (List (Cell K))) (t : BNode C K) :
    ∀ mu, bPartialPredict T (Spec.inUnits us X) mu (btreeU us t) = bPartialPredict T X mu t := by
  induction t using BNode.induction with
  | h test level m isLeaf cv children ih =>
    intro mu
    have hl : ∀ (cs : List (BNode C K)), (∀ c ∈ cs, ∀ mu, bPartialPredict T (Spec.inUnits us X) mu (btreeU us c) = bPartialPredict T X mu c) → ∀ mu,
        bPartialPredictList T (Spec.inUnits us X) mu (btreeUList us cs) = bPartialPredictList T X mu cs := by
      intro cs
      induction cs with
      | nil => intro _ mu; rw [btreeUList]; simp only [bPartialPredictList]
      | cons c cs ihc =>
        intro hc mu
        rw [btreeUList]
        simp only [bPartialPredictList]
        rw [hc c (by simp), ihc (fun c' h' => hc c' (by simp [h']))]
    rw [btreeU]
    simp only [bPartialPredict, bnodeMu_unit]
    congr 1
    funext newMu
    split
    · rfl
    · cases children with
      | nil => rw [btreeUList]
      | cons c cs =>
        rw [btreeUList]
        dsimp only
        rw [ih c (by simp), hl cs (fun c' h' => ih c' (by simp [h']))]

theorem bGetRules_unit (us : Nat → Spec.Unit K) (th : K) (t : BNode C K) : ∀ rule, bGetRules th rule (btreeU us t) = bGetRules th rule t := by
  induction t using BNode.induction with
  | h test level m isLeaf cv children ih =>
    intro rule
    have hl : ∀ (cs : List (BNode C K)), (∀ c ∈ cs, ∀ rule, bGetRules th rule (btreeU us c) = bGetRules th rule c) → ∀ rule,
        bGetRulesList th rule (btreeUList us cs) = bGetRulesList th rule cs := by
      intro cs
      induction cs with
      | nil => intro _ mu; rw [btreeUList]
      | cons c cs ihc =>
        intro hc mu
        rw [btreeUList]
        simp only [bGetRulesList]
        rw [hc c (by simp), ihc (fun c' h' => hc c' (by simp [h']))]
    have hn : bnodeClause (test.map (btestU us)) rule = bnodeClause test rule := by
      cases test with
      | none => rfl
      | some t =>
        simp only [Option.map_some, bnodeClause, btestU, Spec.Unit.var, List.getElem?_map]
        congr 2
        funext i
        cases t.var.sets[i]? with
        | none => rfl
        | some fs => simp only [Option.map_some, set_name]
    rw [btreeU]
    simp only [bGetRules, hn]
    congr 1
    funext newRule
    split
    · rfl
    · rw [hl children ih]

theorem bpredict_unit (us : Nat → Spec.Unit K) (T : K → K → K) (v : Voting) (t : BNode C K) (X : List (List (Cell K))) :
    fbdtPredict T v (btreeU us t) (Spec.inUnits us X) = fbdtPredict T v t X := by
  unfold fbdtPredict BNode.predict
  have h1 : (Spec.inUnits us X).map (fun _ => (1 : K)) = X.map (fun _ => 1) := by unfold Spec.inUnits; rw [List.map_map]; rfl
  have h2 : (Spec.inUnits us X).length = X.length := by simp [Spec.inUnits]
  rw [rect_unit, h1, h2, bPartialPredict_unit]

/-- **C159** for FBDT. -/
theorem C159_fbdt [NanSort K] (us : Nat → Spec.Unit K) (ent : List K → List C → K) (p : FDTParams K)
    (X : List (List (Cell K))) (y : List C) {t : BNode C K} (h : fbdtFit ent p fbdtNew X y = .ok t) :
    ∃ t', fbdtFit ent { p with vars := Spec.varsInUnits us p.vars } fbdtNew (Spec.inUnits us X) y = .ok t' ∧
      (∀ T v Z, fbdtPredict T v t' (Spec.inUnits us Z) = fbdtPredict T v t Z) ∧
      (∀ T v Z w, fbdtScore T v t' (Spec.inUnits us Z) w = fbdtScore T v t Z w) ∧
      (∀ th simplify, t'.toRules th simplify = t.toRules th simplify) ∧ t'.mu = t.mu := by
  have h0 := fbdtFit_unit us ent p fbdtNew X y
  rw [h, show btreeU us (fbdtNew : BNode C K) = fbdtNew by simp [fbdtNew, BNode.fresh, btreeU, btreeUList]] at h0
  refine ⟨btreeU us t, h0, ?_, ?_, ?_, ?_⟩
  · intro T v Z; exact bpredict_unit us T v t Z
  · intro T v Z w
    unfold fbdtScore
    rw [bpredict_unit, rect_unit, show (Spec.inUnits us Z).length = Z.length by simp [Spec.inUnits]]
  · intro th _
    unfold BNode.toRules
    rw [bGetRules_unit us th t []]
  · cases t; rw [btreeU]; rfl

end units

/-- ages in months instead of years. -/
def exMonths : Nat → Spec.Unit ℚ := fun j => if j = 0 then ⟨12, 0, by norm_num⟩ else ⟨1, 0, by norm_num⟩

/-- the example of FDT with the age in months: the table and the points change, the rules do not. -/
example : Spec.inUnits exMonths exX ≠ exX ∧ Spec.varsInUnits exMonths exParams.vars ≠ exParams.vars ∧
    ∃ t t', exFit = .ok t ∧ t.isLeaf = false ∧
      fdtFit exEnt id { exParams with vars := Spec.varsInUnits exMonths exParams.vars } fdtNew (Spec.inUnits exMonths exX) exY = .ok t' ∧
      ∀ T v Z, fdtPredict T v t' (Spec.inUnits exMonths Z) = fdtPredict T v t Z := by
  refine ⟨by decide +kernel, by decide +kernel, ?_⟩
  have h : (exFit.toOption).map (fun t => t.isLeaf) = some false := by decide +kernel
  cases e : exFit with
  | error _ => rw [e] at h; simp [Except.toOption] at h
  | ok t =>
    rw [e] at h
    obtain ⟨t', h1, h2, _⟩ := C159_fdt exMonths exEnt id exParams exX exY e
    exact ⟨t, t', rfl, by simpa [Except.toOption] using h, h1, h2⟩

/-- the same for the binary tree. -/
example : ∃ t t', fbdtFit exEnt exBParams fbdtNew exBX exBY = .ok t ∧ t.isLeaf = false ∧
    fbdtFit exEnt { exBParams with vars := Spec.varsInUnits exMonths exBParams.vars } fbdtNew (Spec.inUnits exMonths exBX) exBY = .ok t' ∧
    ∀ th s, t'.toRules th s = t.toRules th s := by
  have h : ((fbdtFit exEnt exBParams fbdtNew exBX exBY).toOption).map (fun t => t.isLeaf) = some false := by decide +kernel
  cases e : fbdtFit exEnt exBParams fbdtNew exBX exBY with
  | error _ => rw [e] at h; simp [Except.toOption] at h
  | ok t =>
    rw [e] at h
    obtain ⟨t', h1, _, _, h2, _⟩ := C159_fbdt exMonths exEnt exBParams exBX exBY e
    exact ⟨t, t', rfl, by simpa [Except.toOption] using h, h1, h2⟩

end Teacher
