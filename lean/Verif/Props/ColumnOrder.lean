import Verif.Props.Units
import Verif.Lemmas.FBDTFit

/-! # C167: the order of the columns and FDT -/

namespace Teacher
set_option linter.unusedSectionVars false

section cols
variable {C K : Type} [Field K] [LinearOrder K] [IsStrictOrderedRing K] [LinearOrder C]

/-- a list in another order: the entry in the new place `j` is the one in the old place `l[j]`. -/
def Spec.reorder {α : Type} (l : List Nat) (xs : List α) : List α := l.filterMap (fun i => xs[i]?)

open Spec FB

theorem reorder_spec {α : Type} (xs : List α) (l : List Nat) (h : ∀ i ∈ l, i < xs.length) :
    (reorder l xs).length = l.length ∧ ∀ j : Nat, (reorder l xs)[j]? = (l[j]?).bind (fun i => xs[i]?) := by
  unfold reorder
  induction l with
  | nil => exact ⟨rfl, fun j => rfl⟩
  | cons i l ih =>
    obtain ⟨h1, h2⟩ := ih (fun i hi => h i (List.mem_cons_of_mem _ hi))
    have hi := List.getElem?_eq_getElem (h i List.mem_cons_self)
    rw [List.filterMap_cons, hi]
    refine ⟨by simp [h1], ?_⟩
    intro j
    cases j with
    | zero => simp [hi]
    | succ j => simp [h2]

theorem reorder_length {α : Type} {l : List Nat} {n : Nat} (hl : l.Perm (List.range n)) {xs : List α} (hx : xs.length = n) :
    (reorder l xs).length = xs.length := by
  rw [(reorder_spec xs l (fun i hi => by rw [hx]; exact List.mem_range.1 (hl.mem_iff.1 hi))).1, hl.length_eq, List.length_range, hx]

/-- the entry of the old place `i` is in the new place `l.idxOf i`. -/
theorem reorder_idxOf {α : Type} {l : List Nat} {n : Nat} (hl : l.Perm (List.range n)) {xs : List α} (hx : xs.length = n) (i : Nat) :
    (reorder l xs)[l.idxOf i]? = xs[i]? := by
  rw [(reorder_spec xs l (fun i hi => by rw [hx]; exact List.mem_range.1 (hl.mem_iff.1 hi))).2]
  by_cases hi : i ∈ l
  · rw [List.getElem?_eq_getElem (List.idxOf_lt_length_iff.2 hi), List.getElem_idxOf]
    rfl
  · have h1 : n ≤ i := by
      by_contra hlt
      exact hi (hl.mem_iff.2 (List.mem_range.2 (by omega)))
    rw [List.idxOf_eq_length hi, List.getElem?_eq_none (le_refl _), List.getElem?_eq_none (by omega)]
    rfl

theorem column_reorder {l : List Nat} {n : Nat} (hl : l.Perm (List.range n)) {X : List (List (Cell K))} (hX : ∀ r ∈ X, r.length = n) (i : Nat) :
    column (X.map (reorder l)) (l.idxOf i) = column X i := by
  unfold column
  induction X with
  | nil => rfl
  | cons r X ih =>
    rw [List.map_cons, List.mapM_cons, List.mapM_cons, reorder_idxOf hl (hX r List.mem_cons_self), ih (fun r hr => hX r (List.mem_cons_of_mem _ hr))]

theorem rect_reorder {l : List Nat} {n : Nat} (hl : l.Perm (List.range n)) {X : List (List (Cell K))} (hX : ∀ r ∈ X, r.length = n) :
    checkArray (X.map (reorder l)) = checkArray X := by
  cases X with
  | nil => rfl
  | cons r rs =>
    have h1 : (reorder l r).length = r.length := reorder_length hl (hX r List.mem_cons_self)
    have : (∃ r' ∈ rs.map (reorder l), r'.length ≠ r.length) ↔ ∃ r' ∈ rs, r'.length ≠ r.length := by
      simp only [List.mem_map, exists_exists_and_eq_and]
      refine exists_congr (fun r' => and_congr_right (fun hr' => ?_))
      rw [reorder_length hl (hX r' (List.mem_cons_of_mem _ hr'))]
    simp only [List.map_cons, checkArray, h1, this]

/-- the memberships of the reordered table in the reordered variables: the same for every variable. -/
theorem datasetMembership_reorder {l : List Nat} {vars : List (FVar K)} (hl : l.Perm (List.range vars.length)) (hnd : (vars.map FVar.name).Nodup)
    {X : List (List (Cell K))} (hX : ∀ r ∈ X, r.length = vars.length) {Xm : Dict String (Dict String (List K))}
    (h : datasetMembership X vars = .ok Xm) :
    ∃ Xm', datasetMembership (X.map (reorder l)) (reorder l vars) = .ok Xm' ∧ ∀ k, Dict.get? Xm' k = Dict.get? Xm k := by
  have hR : Rectangular X := by
    by_contra hno
    rw [(datasetMembership_eq X vars).2 hno] at h; cases h
  have hR' : Rectangular (X.map (reorder l)) := by
    rw [← checkArray_ok_iff] at hR ⊢
    rw [rect_reorder hl hX]; exact hR
  rw [(datasetMembership_eq X vars).1 hR] at h
  rw [(datasetMembership_eq _ _).1 hR']
  obtain ⟨h1, h2, h3⟩ := datasetMembershipFrom_ok X vars 0 [] Xm (by simpa [Dict.keys] using hnd) h
  obtain ⟨hs1, hs2⟩ := reorder_spec vars l (fun i hi => List.mem_range.1 (hl.mem_iff.1 hi))
  have hln : l.Nodup := hl.nodup_iff.2 List.nodup_range
  have hold : ∀ (k : Nat) (v : FVar K), (reorder l vars)[k]? = some v → ∃ i, l[k]? = some i ∧ l.idxOf i = k ∧ vars[i]? = some v := by
    intro k v hv
    rw [hs2] at hv
    cases hk : l[k]? with
    | none => rw [hk] at hv; cases hv
    | some i =>
      rw [hk] at hv
      obtain ⟨hlt, he⟩ := List.getElem?_eq_some_iff.1 hk
      refine ⟨i, rfl, ?_, hv⟩
      rw [← he]; exact List.Nodup.idxOf_getElem hln k hlt
  have hexists : ∃ Xm', datasetMembershipFrom (X.map (reorder l)) 0 [] (reorder l vars) = .ok Xm' := by
    apply datasetMembershipFrom_exists
    intro k v hv
    obtain ⟨i, -, q2, q3⟩ := hold k v hv
    obtain ⟨col, d, g1, g2, -⟩ := h3 i v q3
    rw [Nat.zero_add] at g1 ⊢
    exact ⟨col, d, by rw [← q2, column_reorder hl hX]; exact g1, g2⟩
  obtain ⟨Xm', hXm'⟩ := hexists
  have hperm : (reorder l vars).Perm vars := by
    have : ∀ l l' : List Nat, l.Perm l' → (reorder l vars).Perm (reorder l' vars) := fun l l' hp => hp.filterMap _
    refine (this _ _ hl).trans ?_
    refine .of_eq ?_
    apply List.ext_getElem?
    intro j
    rw [(reorder_spec vars _ (fun i hi => List.mem_range.1 hi)).2]
    by_cases hj : j < vars.length
    · rw [List.getElem?_range hj]; rfl
    · rw [List.getElem?_eq_none (by simpa using hj), List.getElem?_eq_none (by simpa using hj)]; rfl
  obtain ⟨h1', h2', h3'⟩ := datasetMembershipFrom_ok (X.map (reorder l)) (reorder l vars) 0 [] Xm' (by
    simpa [Dict.keys] using (hperm.map FVar.name).nodup_iff.2 hnd) hXm'
  refine ⟨Xm', hXm', ?_⟩
  intro k
  by_cases hk : k ∈ vars.map FVar.name
  · obtain ⟨v, hv, rfl⟩ := List.mem_map.1 hk
    obtain ⟨i, hi⟩ := List.mem_iff_getElem?.1 hv
    obtain ⟨col, d, g1, g2, g3⟩ := h3 i v hi
    obtain ⟨col', d', g1', g2', g3'⟩ := h3' (l.idxOf i) v (by rw [reorder_idxOf hl rfl]; exact hi)
    rw [Nat.zero_add] at g1 g1'
    rw [column_reorder hl hX, g1] at g1'
    cases g1'
    rw [g2] at g2'
    cases g2'
    rw [g3, g3']
  · rw [h2 k hk, h2' k (by rw [(hperm.map FVar.name).mem_iff]; exact hk)]

/-- the test of a node in the new order of the columns. -/
def testC (l : List Nat) (t : FTest K) : FTest K := ⟨t.var, l.idxOf t.att, t.idx⟩

mutual
/-- a tree in the new order of the columns. -/
def treeC (l : List Nat) : FNode C K → FNode C K
  | .mk test level mu isLeaf cv children => .mk (test.map (testC l)) level mu isLeaf cv (treeCList l children)
/-- the same for a list. -/
def treeCList (l : List Nat) : List (FNode C K) → List (FNode C K)
  | [] => []
  | c :: cs => treeC l c :: treeCList l cs
end

theorem treeCList_eq_map (l : List Nat) (cs : List (FNode C K)) : treeCList l cs = cs.map (treeC l) := by
  induction cs with
  | nil => rw [treeCList]; rfl
  | cons c cs ih => rw [treeCList, ih]; rfl


theorem reorder_perm {α : Type} {l : List Nat} {xs : List α} (hl : l.Perm (List.range xs.length)) : (reorder l xs).Perm xs := by
  have : ∀ l l' : List Nat, l.Perm l' → (reorder l xs).Perm (reorder l' xs) := fun l l' hp => hp.filterMap _
  refine (this _ _ hl).trans (.of_eq ?_)
  apply List.ext_getElem?
  intro j
  rw [(reorder_spec xs _ (fun i hi => List.mem_range.1 hi)).2]
  by_cases hj : j < xs.length
  · rw [List.getElem?_range hj]; rfl
  · rw [List.getElem?_eq_none (by simpa using hj), List.getElem?_eq_none (by simpa using hj)]; rfl

/-- the column of a variable after the reordering. -/
theorem featuresDict_reorder {l : List Nat} {vars : List (FVar K)} (hl : l.Perm (List.range vars.length)) (hnd : (vars.map FVar.name).Nodup)
    (att : String) : Dict.get? (featuresDict (reorder l vars)) att = (Dict.get? (featuresDict vars) att).map l.idxOf := by
  have hp := reorder_perm hl
  have hkey : ∀ (vs : List (FVar K)), (vs.map FVar.name).Nodup → ∀ (i : Nat) (v : FVar K), vs[i]? = some v → Dict.get? (featuresDict vs) v.name = some i := by
    intro vs hvs i v hv
    have hk : v.name ∈ Dict.keys (featuresDict vs) := (mem_keys_featuresDict vs _).2 (List.mem_map.2 ⟨v, List.mem_of_getElem? hv, rfl⟩)
    obtain ⟨j, hj⟩ := (Dict.get?_isSome_iff _ _).2 hk
    have hm := mem_of_ofPairs_get? _ _ _ hj
    obtain ⟨x, hx, hx'⟩ := List.mem_map.1 hm
    rw [List.mem_zipIdx_iff_getElem?] at hx
    obtain ⟨w, k⟩ := x
    simp only [Prod.mk.injEq] at hx'
    obtain ⟨hname, rfl⟩ := hx'
    have h1 : (vs.map FVar.name)[k]? = some w.name := by rw [List.getElem?_map, hx]; rfl
    have h2 : (vs.map FVar.name)[i]? = some w.name := by rw [List.getElem?_map, hv, hname]; rfl
    have : k = i := (List.Nodup.getElem_inj_iff hvs (hi := (List.getElem?_eq_some_iff.1 h1).1) (hj := (List.getElem?_eq_some_iff.1 h2).1)).1 (by
      rw [(List.getElem?_eq_some_iff.1 h1).2, (List.getElem?_eq_some_iff.1 h2).2])
    rw [hj, this]
  by_cases hk : att ∈ vars.map FVar.name
  · obtain ⟨v, hv, rfl⟩ := List.mem_map.1 hk
    obtain ⟨i, hi⟩ := List.mem_iff_getElem?.1 hv
    rw [hkey vars hnd i v hi, hkey _ ((hp.map FVar.name).nodup_iff.2 hnd) (l.idxOf i) v (by rw [reorder_idxOf hl rfl]; exact hi)]
    rfl
  · have h1 : Dict.get? (featuresDict vars) att = none := by
      rw [← Option.not_isSome_iff_eq_none, Option.isSome_iff_exists, Dict.get?_isSome_iff, mem_keys_featuresDict]; exact hk
    have h2 : Dict.get? (featuresDict (reorder l vars)) att = none := by
      rw [← Option.not_isSome_iff_eq_none, Option.isSome_iff_exists, Dict.get?_isSome_iff, mem_keys_featuresDict, (hp.map FVar.name).mem_iff]; exact hk
    rw [h1, h2]; rfl

/-- the parameters in the new order of the columns. -/
def paramsC (l : List Nat) (p : FDTParams K) : FDTParams K := { p with vars := reorder l p.vars }

theorem fitChildren_cols {l : List Nat} {p : FDTParams K} (hl : l.Perm (List.range p.vars.length)) (hnd : (p.vars.map FVar.name).Nodup)
    {rec rec' : FNode C K → Py (FNode C K)} (hrec : ∀ t, rec' (treeC l t) = (rec t).map (treeC l)) (y : List C) (mu : List K) (att : String)
    (d : Dict String (List K)) {features features' : List String} (hf : features'.Perm features) (vals : List String) : ∀ i,
    fitChildren rec' (paramsC l p) y mu att d features' i vals = (fitChildren rec p y mu att d features i vals).map (List.map (treeC l)) := by
  induction vals with
  | nil => intro i; rfl
  | cons v vals ih =>
    intro i
    simp only [fitChildren]
    have hm : att ∈ features' ↔ att ∈ features := hf.mem_iff
    by_cases ha : att ∉ features
    · rw [if_pos ha, if_pos (by rw [hm]; exact ha)]; rfl
    · rw [if_neg ha, if_neg (by rw [hm]; exact ha)]
      have hfd := featuresDict_reorder hl hnd att
      have e1 : Dict.get (featuresDict (paramsC l p).vars) att = (Dict.get (featuresDict p.vars) att).map l.idxOf := by
        unfold Dict.get
        rw [show (paramsC l p).vars = reorder l p.vars from rfl, hfd]
        cases Dict.get? (featuresDict p.vars) att <;> rfl
      rw [e1]
      cases hfi : Dict.get (featuresDict p.vars) att with
      | error e => rfl
      | ok fi =>
        simp only [Except.map, py_bind_ok]
        have hv' : (paramsC l p).vars[l.idxOf fi]? = p.vars[fi]? := reorder_idxOf hl rfl fi
        rw [hv']
        cases hv : p.vars[fi]? with
        | none => rfl
        | some var =>
          simp only [py_bind_ok]
          cases hd : Dict.get d v with
          | error e => rfl
          | ok c =>
            simp only [py_bind_ok]
            have hchild : fitChild rec' y mu (.fresh (some ⟨var, l.idxOf fi, i⟩) c) =
                (fitChild rec y mu (.fresh (some ⟨var, fi, i⟩) c)).map (treeC l) := by
              unfold fitChild
              by_cases h0 : 0 < c.sum
              · rw [if_pos (show 0 < (FNode.fresh (C := C) (some ⟨var, fi, i⟩) c).mu.sum from h0),
                  if_pos (show 0 < (FNode.fresh (C := C) (some ⟨var, l.idxOf fi, i⟩) c).mu.sum from h0), ← hrec]
                congr 1
              · rw [if_neg (show ¬ 0 < (FNode.fresh (C := C) (some ⟨var, fi, i⟩) c).mu.sum from h0),
                  if_neg (show ¬ 0 < (FNode.fresh (C := C) (some ⟨var, l.idxOf fi, i⟩) c).mu.sum from h0)]
                cases classValueOf mu y with
                | error e => rfl
                | ok cv => rfl
            rw [hchild, ih (i + 1)]
            generalize fitChild rec y mu (.fresh (some ⟨var, fi, i⟩) c) = A
            generalize fitChildren rec p y mu att d features (i + 1) vals = R
            cases A with
            | error e => rfl
            | ok a => cases R <;> rfl

theorem maxGainFrom_cols (ent : List K → List C → K) {Xm Xm' : Dict String (Dict String (List K))} (hX : ∀ k, Dict.get? Xm' k = Dict.get? Xm k)
    (y : List C) (mu : List K) (fs : List String) : ∀ best, maxGainFrom ent Xm' y mu best fs = maxGainFrom ent Xm y mu best fs := by
  induction fs with
  | nil => intro best; rfl
  | cons f fs ih =>
    intro best
    have : Dict.get Xm' f = Dict.get Xm f := by unfold Dict.get; rw [hX]
    simp only [maxGainFrom, this, ih]

theorem partialFit_cols {l : List Nat} {p : FDTParams K} (hl : l.Perm (List.range p.vars.length)) (hnd : (p.vars.map FVar.name).Nodup)
    (ent : List K → List C → K) {ord : List String → List String} (hord : ∀ l l', l.Perm l' → ord l = ord l')
    {Xm Xm' : Dict String (Dict String (List K))} (hX : ∀ k, Dict.get? Xm' k = Dict.get? Xm k) (y : List C) :
    ∀ (fuel : Nat) (cur : FNode C K) (features features' : List String) (depth : Nat), features'.Perm features →
      partialFit ent ord (paramsC l p) Xm' y fuel (treeC l cur) features' depth = (partialFit ent ord p Xm y fuel cur features depth).map (treeC l) := by
  intro fuel
  induction fuel with
  | zero => intro cur features features' depth _; rfl
  | succ fuel ih =>
    rintro ⟨test, level, mu, isLeaf, cv0, children⟩ features features' depth hf
    rw [treeC]
    simp only [partialFit, FNode.mu, FNode.test, FNode.classValue, FNode.children]
    have hG : getMaxFGain ent Xm' y mu (ord features') = getMaxFGain ent Xm y mu (ord features) := by
      rw [hord _ _ hf]; exact maxGainFrom_cols ent hX y mu _ _
    rw [hG]
    generalize getMaxFGain ent Xm y mu (ord features) = G
    cases G with
    | error e => rfl
    | ok g =>
      obtain ⟨att, gain, childMu⟩ := g
      simp only [py_bind_ok]
      by_cases hs : stopMet p gain (maskedY mu y) depth = true
      · have hs' : stopMet (paramsC l p) gain (maskedY mu y) depth = true := hs
        simp only [hs, hs', if_true]
        cases classValueOf mu y with
        | error e => rfl
        | ok cv => simp only [py_bind_ok, py_pure, Except.map, treeC]
      · have hs' : ¬ stopMet (paramsC l p) gain (maskedY mu y) depth = true := hs
        simp only [hs, hs', Bool.false_eq_true, if_false]
        rw [show Dict.get Xm' att = Dict.get Xm att by unfold Dict.get; rw [hX]]
        cases Dict.get Xm att with
        | error e => rfl
        | ok sets =>
          simp only [py_bind_ok]
          rw [fitChildren_cols hl hnd (rec := fun child => partialFit ent ord p Xm y fuel child (features.erase att) (depth + 1))
            (fun t => ih t _ _ _ (hf.erase att)) y mu att childMu hf]
          generalize fitChildren (fun child => partialFit ent ord p Xm y fuel child (features.erase att) (depth + 1)) p y mu att childMu features 0
            (Dict.keys sets) = R
          cases R with
          | error e => rfl
          | ok cs => simp only [py_bind_ok, py_pure, Except.map, treeC, treeCList_eq_map, List.map_append]

theorem fdtFit_cols {l : List Nat} {p : FDTParams K} (hl : l.Perm (List.range p.vars.length)) (hnd : (p.vars.map FVar.name).Nodup)
    (ent : List K → List C → K) {ord : List String → List String} (hord : ∀ l l', l.Perm l' → ord l = ord l') {X : List (List (Cell K))}
    (hX : ∀ r ∈ X, r.length = p.vars.length) (y : List C) {t : FNode C K} (h : fdtFit ent ord p fdtNew X y = .ok t) :
    fdtFit ent ord (paramsC l p) fdtNew (X.map (reorder l)) y = .ok (treeC l t) := by
  unfold fdtFit at h ⊢
  rw [rect_reorder hl hX, List.length_map]
  cases hc : checkArray X with
  | error e => rw [hc] at h; cases h
  | ok u =>
    rw [hc] at h
    simp only [py_bind_ok] at h ⊢
    by_cases hxy : X.length ≠ y.length
    · rw [if_pos hxy] at h; cases h
    · rw [if_neg hxy] at h ⊢
      cases hm : datasetMembership X p.vars with
      | error e => rw [hm] at h; cases h
      | ok Xm =>
        obtain ⟨Xm', hm', hk⟩ := datasetMembership_reorder hl hnd hX hm
        rw [show (paramsC l p).vars = reorder l p.vars from rfl, hm']
        rw [hm] at h
        simp only [py_bind_ok] at h ⊢
        have hf : (((reorder l p.vars).map FVar.name).dedup).Perm ((p.vars.map FVar.name).dedup) := ((reorder_perm hl).map FVar.name).dedup
        rw [hf.length_eq]
        have := partialFit_cols hl hnd ent hord hk y ((p.vars.map FVar.name).dedup.length + 1)
          (.mk (fdtNew : FNode C K).test (fdtNew : FNode C K).level (y.map (fun _ => 1)) (fdtNew : FNode C K).isLeaf
            (fdtNew : FNode C K).classValue (fdtNew : FNode C K).children) _ _ 0 hf
        rw [h] at this
        simpa only [treeC, treeCList, fdtNew, FNode.fresh, FNode.test, FNode.children, FNode.level, FNode.isLeaf, FNode.classValue,
          Option.map_none, Except.map] using this

theorem partialPredict_cols {l : List Nat} {n : Nat} (hl : l.Perm (List.range n)) (T : K → K → K) {X : List (List (Cell K))}
    (hX : ∀ r ∈ X, r.length = n) (t : FNode C K) : ∀ mu, partialPredict T (X.map (reorder l)) mu (treeC l t) = partialPredict T X mu t := by
  induction t using FNode.induction with
  | h test level m isLeaf cv children ih =>
    intro mu
    have hcs : ∀ (cs : List (FNode C K)), (∀ c ∈ cs, ∀ mu, partialPredict T (X.map (reorder l)) mu (treeC l c) = partialPredict T X mu c) → ∀ mu,
        partialPredictList T (X.map (reorder l)) mu (treeCList l cs) = partialPredictList T X mu cs := by
      intro cs
      induction cs with
      | nil => intro _ mu; rw [treeCList]; simp only [partialPredictList]
      | cons c cs ihc =>
        intro hc mu
        rw [treeCList]
        simp only [partialPredictList]
        rw [hc c (by simp), ihc (fun c' h' => hc c' (by simp [h']))]
    have hn : nodeMu T (X.map (reorder l)) mu (test.map (testC l)) = nodeMu T X mu test := by
      cases test with
      | none => rfl
      | some t => simp only [Option.map_some, nodeMu, testC, column_reorder hl hX]
    rw [treeC]
    simp only [partialPredict, hn]
    congr 1
    funext newMu
    split
    · rfl
    · cases children with
      | nil => rw [treeCList]
      | cons c cs =>
        rw [treeCList]
        dsimp only
        rw [ih c (by simp), hcs cs (fun c' h' => ih c' (by simp [h']))]

theorem getRules_cols (l : List Nat) (th : K) (t : FNode C K) : ∀ rule, getRules th rule (treeC l t) = getRules th rule t := by
  induction t using FNode.induction with
  | h test level m isLeaf cv children ih =>
    intro rule
    have hcs : ∀ (cs : List (FNode C K)), (∀ c ∈ cs, ∀ rule, getRules th rule (treeC l c) = getRules th rule c) → ∀ rule,
        getRulesList th rule (treeCList l cs) = getRulesList th rule cs := by
      intro cs
      induction cs with
      | nil => intro _ mu; rw [treeCList]
      | cons c cs ihc =>
        intro hc mu
        rw [treeCList]
        simp only [getRulesList]
        rw [hc c (by simp), ihc (fun c' h' => hc c' (by simp [h']))]
    have hn : nodeClause (test.map (testC l)) rule = nodeClause test rule := by
      cases test <;> rfl
    rw [treeC]
    simp only [getRules, hn]
    congr 1
    funext newRule
    split
    · rfl
    · rw [hcs children ih]

/-- **C167** for FDT (the full property, without `hord`, is false: `C167_false`). Write the columns of the table in another order (`l` lists the old
places) and the fuzzy variables in the same order: if the set of variable names is always iterated in an order that depends only on its elements, the
new fit succeeds whenever the old one did, and the new tree predicts the same classes for every table with its columns in the new order, for every
t-norm and voting method, and has the same scores and the same rules. -/
theorem C167_fdt_columns_partial {l : List Nat} (ent : List K → List C → K) {ord : List String → List String}
    (hord : ∀ l l', l.Perm l' → ord l = ord l') (p : FDTParams K) (hl : l.Perm (List.range p.vars.length)) (hnd : (p.vars.map FVar.name).Nodup)
    {X : List (List (Cell K))} (hX : ∀ r ∈ X, r.length = p.vars.length) (y : List C) {t : FNode C K} (h : fdtFit ent ord p fdtNew X y = .ok t) :
    ∃ t', fdtFit ent ord { p with vars := reorder l p.vars } fdtNew (X.map (reorder l)) y = .ok t' ∧
      (∀ T v (Z : List (List (Cell K))), (∀ r ∈ Z, r.length = p.vars.length) → fdtPredict T v t' (Z.map (reorder l)) = fdtPredict T v t Z ∧
        ∀ w, fdtScore T v t' (Z.map (reorder l)) w = fdtScore T v t Z w) ∧
      (∀ th verbose, t'.toRules th verbose = t.toRules th verbose) ∧ t'.mu = t.mu := by
  refine ⟨treeC l t, fdtFit_cols hl hnd ent hord hX y h, ?_, ?_, ?_⟩
  · intro T v Z hZ
    have hp : fdtPredict T v (treeC l t) (Z.map (reorder l)) = fdtPredict T v t Z := by
      unfold fdtPredict FNode.predict
      rw [rect_reorder hl hZ, List.length_map, List.map_map, partialPredict_cols hl T hZ]
      rfl
    refine ⟨hp, ?_⟩
    intro w
    unfold fdtScore
    rw [hp, rect_reorder hl hZ, List.length_map]
  · intro th _
    exact getRules_cols l th t []
  · cases t; rw [treeC]; rfl

end cols

open Spec FB

/-- the example with the two columns exchanged: both fits succeed, the trees have the same rules. -/
example : (∀ l l' : List String, l.Perm l' → (["age", "sex"].filter (· ∈ l)) = ["age", "sex"].filter (· ∈ l')) ∧
    [1, 0].Perm (List.range exParams.vars.length) ∧ (exParams.vars.map FVar.name).Nodup ∧ (∀ r ∈ exX, r.length = exParams.vars.length) ∧
    reorder [1, 0] exParams.vars ≠ exParams.vars ∧
    ((fdtFit exEnt (fun l => ["age", "sex"].filter (· ∈ l)) exParams fdtNew exX exY).toOption.map (fun t =>
      (t.toRules 0 false).toOption.map List.length)) = some (some 4) := by
  refine ⟨?_, by decide +kernel, by decide +kernel, by decide +kernel, by decide +kernel, ?_⟩
  · intro l l' hp
    apply List.filter_congr
    intro x _
    simp only [hp.mem_iff]
  · decide +kernel

/-- two variables that separate the training rows equally well. -/
def tieVars : List (FVar ℚ) :=
  [⟨"a", [.disc ⟨"x", .str "x"⟩, .disc ⟨"y", .str "y"⟩]⟩, ⟨"b", [.disc ⟨"x", .str "x"⟩, .disc ⟨"y", .str "y"⟩]⟩]

/-- **C167** is false when the iteration order of the set of names follows the order of the columns: on a tie the first variable wins, and the
two trees predict different classes for the same row. -/
theorem C167_false : ∃ (p : FDTParams ℚ) (X : List (List (Cell ℚ))) (y : List Nat) (l : List Nat) (t t' : FNode Nat ℚ) (row : List (Cell ℚ)),
    l.Perm (List.range p.vars.length) ∧ (p.vars.map FVar.name).Nodup ∧ (∀ r ∈ X, r.length = p.vars.length) ∧ row.length = p.vars.length ∧
      fdtFit exEnt id p fdtNew X y = .ok t ∧ fdtFit exEnt id { p with vars := reorder l p.vars } fdtNew (X.map (reorder l)) y = .ok t' ∧
      fdtPredict min .agg t [row] = .ok [[0]] ∧ fdtPredict min .agg t' [reorder l row] = .ok [[1]] := by
  let p : FDTParams ℚ := ⟨tieVars, 1/100, 10, 2⟩
  let X : List (List (Cell ℚ)) := [[.str "x", .str "x"], [.str "y", .str "y"]]
  let row : List (Cell ℚ) := [.str "x", .str "y"]
  have h : ((fdtFit exEnt id p fdtNew X [0, 1]).toOption.bind (fun t =>
      (fdtFit exEnt id { p with vars := reorder [1, 0] p.vars } fdtNew (X.map (reorder [1, 0])) [0, 1]).toOption.map (fun t' =>
        (fdtPredict min .agg t [row], fdtPredict min .agg t' [reorder [1, 0] row])))) = some (.ok [[0]], .ok [[1]]) := by decide +kernel
  cases e : fdtFit exEnt id p fdtNew X [0, 1] with
  | error _ => rw [e] at h; simp [Except.toOption] at h
  | ok t =>
    cases e' : fdtFit exEnt id { p with vars := reorder [1, 0] p.vars } fdtNew (X.map (reorder [1, 0])) [0, 1] with
    | error _ => rw [e, e'] at h; simp [Except.toOption] at h
    | ok t' =>
      rw [e, e'] at h
      simp only [Except.toOption, Option.bind_some, Option.map_some, Option.some.injEq, Prod.mk.injEq] at h
      exact ⟨p, X, [0, 1], [1, 0], t, t', row, by decide +kernel, by decide +kernel, by decide +kernel, rfl, e, e', h.1, h.2⟩

/-- FBDT compares the splits in the order of the columns: on a tie the first variable wins, and the two trees predict different classes. -/
theorem C167_fbdt_false : ∃ (p : FDTParams ℚ) (X : List (List (Cell ℚ))) (y : List Nat) (l : List Nat) (t t' : BNode Nat ℚ) (row : List (Cell ℚ)),
    l.Perm (List.range p.vars.length) ∧ (p.vars.map FVar.name).Nodup ∧ (∀ r ∈ X, r.length = p.vars.length) ∧ row.length = p.vars.length ∧
      fbdtFit exEnt p fbdtNew X y = .ok t ∧ fbdtFit exEnt { p with vars := reorder l p.vars } fbdtNew (X.map (reorder l)) y = .ok t' ∧
      fbdtPredict min .agg t [row] = .ok [[0]] ∧ fbdtPredict min .agg t' [reorder l row] = .ok [[1]] := by
  let p : FDTParams ℚ := ⟨tieVars, 1/100, 10, 2⟩
  let X : List (List (Cell ℚ)) := [[.str "x", .str "x"], [.str "y", .str "y"]]
  let row : List (Cell ℚ) := [.str "x", .str "y"]
  have h : ((fbdtFit exEnt p fbdtNew X [0, 1]).toOption.bind (fun t =>
      (fbdtFit exEnt { p with vars := reorder [1, 0] p.vars } fbdtNew (X.map (reorder [1, 0])) [0, 1]).toOption.map (fun t' =>
        (fbdtPredict min .agg t [row], fbdtPredict min .agg t' [reorder [1, 0] row])))) = some (.ok [[0]], .ok [[1]]) := by decide +kernel
  cases e : fbdtFit exEnt p fbdtNew X [0, 1] with
  | error _ => rw [e] at h; simp [Except.toOption] at h
  | ok t =>
    cases e' : fbdtFit exEnt { p with vars := reorder [1, 0] p.vars } fbdtNew (X.map (reorder [1, 0])) [0, 1] with
    | error _ => rw [e, e'] at h; simp [Except.toOption] at h
    | ok t' =>
      rw [e, e'] at h
      simp only [Except.toOption, Option.bind_some, Option.map_some, Option.some.injEq, Prod.mk.injEq] at h
      exact ⟨p, X, [0, 1], [1, 0], t, t', row, by decide +kernel, by decide +kernel, by decide +kernel, rfl, e, e', h.1, h.2⟩

end Teacher
