import Verif.Props.FDTFit
import Verif.Props.Entropy
import Verif.Model.Show
import Verif.Props.TreeEq

/-! # C157: the order of the training rows does not matter for FDT -/

namespace Teacher
set_option linter.unusedSectionVars false

section perm
variable {ι C K : Type} [Field K] [LinearOrder K] [IsStrictOrderedRing K] [LinearOrder C]

/-- an impurity that does not depend on the order of the (degree, class) pairs. -/
def Spec.RowOrderFree (ent : List K → List C → K) : Prop :=
  ∀ l l' : List (K × C), l.Perm l' → ent (l.map Prod.fst) (l.map Prod.snd) = ent (l'.map Prod.fst) (l'.map Prod.snd)

theorem npUnique_perm {α : Type} [LinearOrder α] {l l' : List α} (h : l.Perm l') : npUnique l = npUnique l' := by
  apply npUnique_eq_of
  · exact npUnique_pairwise l'
  · intro x
    rw [mem_npUnique, h.mem_iff]

theorem zip_maps {α β : Type} (I : List ι) (f : ι → α) (g : ι → β) : (I.map f).zip (I.map g) = I.map (fun i => (f i, g i)) := by
  induction I with
  | nil => rfl
  | cons a I ih => simp [ih]

theorem zipWith_maps {α β γ : Type} (h : α → β → γ) (I : List ι) (f : ι → α) (g : ι → β) :
    List.zipWith h (I.map f) (I.map g) = I.map (fun i => h (f i) (g i)) := by
  induction I with
  | nil => rfl
  | cons a I ih => simp [ih]

theorem classCard_perm {I I' : List ι} (hp : I.Perm I') (m : ι → K) (ys : ι → C) (c : C) :
    classCard (I.map m) (I.map ys) c = classCard (I'.map m) (I'.map ys) c := by
  unfold classCard
  rw [zip_maps, zip_maps]
  exact ((hp.map _).map _).sum_eq

/-- the entropy of the library does not depend on the order of the rows. -/
theorem fuzzyEntropy_rowOrderFree (lg : K → K) : Spec.RowOrderFree (fuzzyEntropy lg : List K → List C → K) := by
  intro l l' hp
  unfold fuzzyEntropy
  rw [npUnique_perm (hp.map Prod.snd), (hp.map Prod.fst).sum_eq]
  congr 1
  apply List.map_congr_left
  intro c _
  rw [classCard_perm hp]

/-- a per-row table: the lists of a dict of functions of the row. -/
def liftDict (I : List ι) (d : Dict String (ι → K)) : Dict String (List K) := d.map (fun p => (p.1, I.map p.2))

/-- the same for the memberships of all features. -/
def liftMemb (I : List ι) (d : Dict String (Dict String (ι → K))) : Dict String (Dict String (List K)) := d.map (fun p => (p.1, liftDict I p.2))

theorem get_mapVal {ν μ : Type} (g : ν → μ) (d : Dict String ν) (k : String) :
    Dict.get (d.map (fun p => (p.1, g p.2))) k = (Dict.get d k).map g := by
  unfold Dict.get
  have : Dict.get? (d.map (fun p => (p.1, g p.2))) k = (Dict.get? d k).map g := by
    induction d with
    | nil => rfl
    | cons p d ih =>
      simp only [List.map_cons, Dict.get?]
      split
      · rfl
      · exact ih
  rw [this]
  cases Dict.get? d k <;> rfl

theorem set_mapVal {ν μ : Type} (g : ν → μ) (d : Dict String ν) (k : String) (v : ν) :
    Dict.set (d.map (fun p => (p.1, g p.2))) k (g v) = (Dict.set d k v).map (fun p => (p.1, g p.2)) := by
  induction d with
  | nil => rfl
  | cons p d ih =>
    simp only [List.map_cons, Dict.set]
    split
    · rfl
    · simp only [List.map_cons, ih]

theorem get_liftDict (I : List ι) (d : Dict String (ι → K)) (k : String) :
    Dict.get (liftDict I d) k = (Dict.get d k).map (fun f => I.map f) := get_mapVal (fun f : ι → K => I.map f) d k

theorem childMus_lift (I : List ι) (m : ι → K) (d : Dict String (ι → K)) :
    childMus (I.map m) (liftDict I d) = liftDict I (d.map (fun p => (p.1, fun i => min (m i) (p.2 i)))) := by
  unfold childMus liftDict
  rw [List.map_map, List.map_map]
  apply List.map_congr_left
  intro p _
  simp only [Function.comp, zipWith_maps]

/-- what the impurity has to satisfy for two lists of rows. -/
def sameEnt (ent : List K → List C → K) (ys : ι → C) (I I' : List ι) : Prop :=
  ∀ m : ι → K, ent (I.map m) (I.map ys) = ent (I'.map m) (I'.map ys)

theorem sameEnt_of_perm {ent : List K → List C → K} (h : Spec.RowOrderFree ent) (ys : ι → C) {I I' : List ι} (hp : I.Perm I') :
    sameEnt ent ys I I' := by
  intro m
  have := h _ _ (hp.map (fun i => (m i, ys i)))
  simpa only [List.map_map, Function.comp_def] using this

theorem fGain_perm {ent : List K → List C → K} {ys : ι → C} {I I' : List ι} (hp : I.Perm I') (he : sameEnt ent ys I I') (m : ι → K)
    (d : Dict String (ι → K)) :
    fGain ent (I.map m) (I.map ys) (liftDict I d) = fGain ent (I'.map m) (I'.map ys) (liftDict I' d) := by
  unfold fGain
  rw [he m, (hp.map m).sum_eq]
  have : ((liftDict I d).map (fun p => p.2.sum * ent p.2 (I.map ys))) = (liftDict I' d).map (fun p => p.2.sum * ent p.2 (I'.map ys)) := by
    unfold liftDict
    rw [List.map_map, List.map_map]
    apply List.map_congr_left
    intro p _
    simp only [Function.comp]
    rw [he p.2, (hp.map p.2).sum_eq]
  rw [this]

/-- the search for the best feature gives the same feature and gain, and the same degrees in the two orders. -/
theorem maxGain_perm {ent : List K → List C → K} {ys : ι → C} {I I' : List ι} (hp : I.Perm I') (he : sameEnt ent ys I I')
    (xm : Dict String (Dict String (ι → K))) (m : ι → K) (fs : List String) (f0 : String) (g0 : K) (d0 : Dict String (ι → K)) :
    (∃ e, maxGainFrom ent (liftMemb I xm) (I.map ys) (I.map m) (f0, g0, liftDict I d0) fs = .error e ∧
      maxGainFrom ent (liftMemb I' xm) (I'.map ys) (I'.map m) (f0, g0, liftDict I' d0) fs = .error e) ∨
    ∃ f g d, maxGainFrom ent (liftMemb I xm) (I.map ys) (I.map m) (f0, g0, liftDict I d0) fs = .ok (f, g, liftDict I d) ∧
      maxGainFrom ent (liftMemb I' xm) (I'.map ys) (I'.map m) (f0, g0, liftDict I' d0) fs = .ok (f, g, liftDict I' d) := by
  induction fs generalizing f0 g0 d0 with
  | nil => exact .inr ⟨f0, g0, d0, rfl, rfl⟩
  | cons f fs ih =>
    simp only [maxGainFrom]
    unfold liftMemb
    rw [get_mapVal, get_mapVal]
    cases hd : Dict.get xm f with
    | error e => exact .inl ⟨e, rfl, rfl⟩
    | ok d =>
      simp only [Except.map, py_bind_ok]
      rw [childMus_lift, childMus_lift, ← fGain_perm hp he]
      cases hg : fGain ent (I.map m) (I.map ys) (liftDict I (d.map (fun p => (p.1, fun i => min (m i) (p.2 i))))) with
      | error e => exact .inl ⟨e, rfl, rfl⟩
      | ok g =>
        simp only [py_bind_ok]
        split
        · exact ih f g _
        · exact ih f0 g0 d0

theorem maskedY_perm {I I' : List ι} (hp : I.Perm I') (m : ι → K) (ys : ι → C) :
    (maskedY (I.map m) (I.map ys)).Perm (maskedY (I'.map m) (I'.map ys)) := by
  unfold maskedY
  rw [zip_maps, zip_maps]
  exact ((hp.map _).filter _).map _

theorem stopMet_perm (p : FDTParams K) (g : K) {l l' : List C} (hp : l.Perm l') (depth : Nat) : stopMet p g l depth = stopMet p g l' depth := by
  unfold stopMet
  rw [npUnique_perm hp, hp.length_eq]

theorem classValueOf_perm {I I' : List ι} (hp : I.Perm I') (m : ι → K) (ys : ι → C) :
    classValueOf (I.map m) (I.map ys) = classValueOf (I'.map m) (I'.map ys) := by
  unfold classValueOf
  rw [npUnique_perm (hp.map ys), (hp.map m).sum_eq]
  congr 1
  funext c
  have := classCard_perm hp m ys c
  unfold classCard at this
  rw [this]

mutual
/-- a tree without the degrees of the training rows. -/
def noMu : FNode C K → FNode C K
  | .mk test level _ isLeaf cv children => .mk test level [] isLeaf cv (noMuList children)
/-- the same for a list. -/
def noMuList : List (FNode C K) → List (FNode C K)
  | [] => []
  | c :: cs => noMu c :: noMuList cs
end

theorem noMuList_eq_map (l : List (FNode C K)) : noMuList l = l.map noMu := by
  induction l with
  | nil => rw [noMuList]; rfl
  | cons c cs ih => rw [noMuList, ih]; rfl

theorem fitChildren_perm {rec rec' : FNode C K → Py (FNode C K)} (p : FDTParams K) {ys : ι → C} {I I' : List ι} (hp : I.Perm I')
    (hrec : ∀ (t : Option (FTest K)) (m : ι → K), (rec (.fresh t (I.map m))).map noMu = (rec' (.fresh t (I'.map m))).map noMu)
    (m : ι → K) (att : String) (d : Dict String (ι → K)) (features : List String) (i : Nat) (vals : List String) :
    (fitChildren rec p (I.map ys) (I.map m) att (liftDict I d) features i vals).map (List.map noMu) =
      (fitChildren rec' p (I'.map ys) (I'.map m) att (liftDict I' d) features i vals).map (List.map noMu) := by
  induction vals generalizing i with
  | nil => rfl
  | cons v vals ih =>
    simp only [fitChildren]
    by_cases ha : att ∉ features
    · rw [if_pos ha, if_pos ha]
    · rw [if_neg ha, if_neg ha]
      cases hfi : Dict.get (featuresDict p.vars) att with
      | error e => rfl
      | ok fi =>
        simp only [py_bind_ok]
        cases hv : p.vars[fi]? with
        | none => rfl
        | some var =>
          simp only [py_bind_ok]
          rw [get_liftDict, get_liftDict]
          cases hd : Dict.get d v with
          | error e => rfl
          | ok c =>
            simp only [Except.map, py_bind_ok]
            have hchild : (fitChild rec (I.map ys) (I.map m) (.fresh (some ⟨var, fi, i⟩) (I.map c))).map noMu =
                (fitChild rec' (I'.map ys) (I'.map m) (.fresh (some ⟨var, fi, i⟩) (I'.map c))).map noMu := by
              unfold fitChild
              by_cases h0 : 0 < (I.map c).sum
              · have h1 : 0 < (I'.map c).sum := by rw [← (hp.map c).sum_eq]; exact h0
                rw [if_pos (show 0 < (FNode.fresh (C := C) (some ⟨var, fi, i⟩) (I.map c)).mu.sum from h0),
                  if_pos (show 0 < (FNode.fresh (C := C) (some ⟨var, fi, i⟩) (I'.map c)).mu.sum from h1)]
                exact hrec _ _
              · have h1 : ¬ 0 < (I'.map c).sum := by rw [← (hp.map c).sum_eq]; exact h0
                rw [if_neg (show ¬ 0 < (FNode.fresh (C := C) (some ⟨var, fi, i⟩) (I.map c)).mu.sum from h0),
                  if_neg (show ¬ 0 < (FNode.fresh (C := C) (some ⟨var, fi, i⟩) (I'.map c)).mu.sum from h1), classValueOf_perm hp]
                cases classValueOf (I'.map m) (I'.map ys) with
                | error e => rfl
                | ok cv => rfl
            have ih' := ih (i + 1)
            generalize fitChildren rec p (I.map ys) (I.map m) att (liftDict I d) features (i + 1) vals = R at ih' ⊢
            generalize fitChildren rec' p (I'.map ys) (I'.map m) att (liftDict I' d) features (i + 1) vals = R' at ih' ⊢
            generalize fitChild rec (I.map ys) (I.map m) (.fresh (some ⟨var, fi, i⟩) (I.map c)) = A at hchild ⊢
            generalize fitChild rec' (I'.map ys) (I'.map m) (.fresh (some ⟨var, fi, i⟩) (I'.map c)) = A' at hchild ⊢
            cases A <;> cases A' <;> simp only [Except.map, Except.error.injEq, Except.ok.injEq, reduceCtorEq] at hchild
            · subst hchild; rfl
            · cases R <;> cases R' <;> simp only [Except.map, Except.error.injEq, Except.ok.injEq, reduceCtorEq] at ih'
              · subst ih'; rfl
              · simp only [py_bind_ok, py_pure, List.map_cons, hchild, ih']

theorem partialFit_perm {ent : List K → List C → K} {ys : ι → C} {I I' : List ι} (hp : I.Perm I') (he : sameEnt ent ys I I')
    (ord : List String → List String) (p : FDTParams K) (xm : Dict String (Dict String (ι → K))) :
    ∀ (fuel : Nat) (cur cur' : FNode C K) (m : ι → K) (features : List String) (depth : Nat), cur.mu = I.map m → cur'.mu = I'.map m →
      cur.test = cur'.test → cur.classValue = cur'.classValue → cur.children.map noMu = cur'.children.map noMu →
      (partialFit ent ord p (liftMemb I xm) (I.map ys) fuel cur features depth).map noMu =
        (partialFit ent ord p (liftMemb I' xm) (I'.map ys) fuel cur' features depth).map noMu := by
  intro fuel
  induction fuel with
  | zero => intro cur cur' m features depth _ _ _ _ _; rfl
  | succ fuel ih =>
    intro cur cur' m features depth h1 h2 h3 h4 h5
    simp only [partialFit, getMaxFGain, h1, h2]
    rcases maxGain_perm hp he xm m (ord features) "" 0 [] with ⟨e, g1, g2⟩ | ⟨f, g, d, g1, g2⟩
    · have g1' : maxGainFrom ent (liftMemb I xm) (I.map ys) (I.map m) ("", 0, []) (ord features) = .error e := g1
      have g2' : maxGainFrom ent (liftMemb I' xm) (I'.map ys) (I'.map m) ("", 0, []) (ord features) = .error e := g2
      rw [g1', g2']; rfl
    · have g1' : maxGainFrom ent (liftMemb I xm) (I.map ys) (I.map m) ("", 0, []) (ord features) = .ok (f, g, liftDict I d) := g1
      have g2' : maxGainFrom ent (liftMemb I' xm) (I'.map ys) (I'.map m) ("", 0, []) (ord features) = .ok (f, g, liftDict I' d) := g2
      rw [g1', g2']
      simp only [py_bind_ok]
      rw [stopMet_perm p g (maskedY_perm hp m ys)]
      by_cases hs : stopMet p g (maskedY (I'.map m) (I'.map ys)) depth = true
      · rw [if_pos hs, if_pos hs, classValueOf_perm hp]
        cases classValueOf (I'.map m) (I'.map ys) with
        | error e => rfl
        | ok cv =>
          simp only [py_bind_ok, py_pure, Except.map, noMu, noMuList_eq_map, h3, h5]
      · rw [if_neg hs, if_neg hs]
        unfold liftMemb at ih ⊢
        rw [get_mapVal, get_mapVal]
        cases hd : Dict.get xm f with
        | error e => rfl
        | ok sets =>
          simp only [Except.map, py_bind_ok]
          have hk : Dict.keys (liftDict I sets) = Dict.keys (liftDict I' sets) := by
            simp [liftDict, Dict.keys]
          rw [hk]
          have hc := fitChildren_perm (ys := ys) p hp (rec := fun child => partialFit ent ord p (xm.map (fun p => (p.1, liftDict I p.2))) (I.map ys) fuel child (features.erase f) (depth + 1))
            (rec' := fun child => partialFit ent ord p (xm.map (fun p => (p.1, liftDict I' p.2))) (I'.map ys) fuel child (features.erase f) (depth + 1))
            (fun t m' => ih _ _ m' _ _ rfl rfl rfl rfl rfl) m f d features 0 (Dict.keys (liftDict I' sets))
          generalize fitChildren _ p (I.map ys) (I.map m) f (liftDict I d) features 0 _ = A at hc ⊢
          generalize fitChildren _ p (I'.map ys) (I'.map m) f (liftDict I' d) features 0 _ = A' at hc ⊢
          cases A <;> cases A' <;> simp only [Except.map, Except.error.injEq, Except.ok.injEq, reduceCtorEq] at hc
          · subst hc; rfl
          · simp only [py_bind_ok, py_pure, noMu, noMuList_eq_map, h3, h4, List.map_append, h5, hc]

theorem forall₂_perm_map {β : Type} {D D' : List ι} (hp : D.Perm D') {Q : ι → β → Prop} {l : List β} (h : List.Forall₂ Q D l) :
    ∃ l', List.Forall₂ Q D' l' ∧ l.Perm l' := by
  obtain ⟨l', h1, h2⟩ := List.perm_comp_forall₂ hp.symm h
  exact ⟨l', h1, h2.symm⟩

/-- rows of a table as functions of the row: every result of a row by row relation is a map. -/
theorem forall₂_as_map {β : Type} [Inhabited β] {Q : ι → β → Prop} {D : List ι} {l : List β} (h : List.Forall₂ Q D l)
    (hu : ∀ i a b, Q i a → Q i b → a = b) : ∃ f : ι → β, l = D.map f ∧ ∀ i ∈ D, Q i (f i) := by
  classical
  refine ⟨fun i => if hi : ∃ b, Q i b then hi.choose else default, ?_, ?_⟩
  · induction h with
    | nil => rfl
    | @cons i b D l hd _ ih =>
      have hi : ∃ b, Q i b := ⟨b, hd⟩
      simp only [List.map_cons, dif_pos hi, ← ih]
      rw [hu i b _ hd hi.choose_spec]
  · intro i hi
    obtain ⟨b, _, hb⟩ := forall₂_mem_left h i hi
    have hi : ∃ b, Q i b := ⟨b, hb⟩
    simp only [dif_pos hi]
    exact hi.choose_spec

end perm

section rows
variable {C K : Type} [Field K] [LinearOrder K] [IsStrictOrderedRing K] [LinearOrder C]

/-- column `j` of the rows as a function of the labelled row. -/
theorem column_as_map {D : List (List (Cell K) × C)} {j : Nat} {col : List (Cell K)} (h : column (D.map Prod.fst) j = .ok col) :
    ∃ f : List (Cell K) × C → Cell K, (∀ D' : List (List (Cell K) × C), D.Perm D' → column (D'.map Prod.fst) j = .ok (D'.map f)) := by
  rw [column_eq_ok_iff, List.forall₂_map_left_iff] at h
  have : Inhabited (Cell K) := ⟨.num 0⟩
  obtain ⟨f, _, hf⟩ := forall₂_as_map h (fun i a b h1 h2 => by rw [h1] at h2; exact Option.some.inj h2)
  refine ⟨f, fun D' hp => ?_⟩
  rw [column_eq_ok_iff, List.forall₂_map_left_iff, List.forall₂_map_right_iff, List.forall₂_same]
  exact fun i hi => hf i (hp.mem_iff.mpr hi)

theorem membership_as_map {D : List (List (Cell K) × C)} (s : FSet K) (f : List (Cell K) × C → Cell K) {ms : List K}
    (h : s.membership (D.map f) = .ok ms) :
    ∃ g : List (Cell K) × C → K, ∀ D' : List (List (Cell K) × C), D.Perm D' → s.membership (D'.map f) = .ok (D'.map g) := by
  rw [FSet.membership_ok_iff, List.forall₂_map_left_iff] at h
  have : Inhabited K := ⟨0⟩
  obtain ⟨g, _, hg⟩ := forall₂_as_map h.2 (fun i a b h1 h2 => by rw [h1] at h2; simpa using h2)
  refine ⟨g, fun D' hp => ?_⟩
  rw [FSet.membership_ok_iff, List.forall₂_map_left_iff, List.forall₂_map_right_iff, List.forall₂_same]
  exact ⟨h.1, fun i hi => hg i (hp.mem_iff.mpr hi)⟩

theorem ofPairs_lift {ι : Type} (I : List ι) (ps : List (String × (ι → K))) :
    Dict.ofPairs (ps.map (fun p => (p.1, I.map p.2))) = liftDict I (Dict.ofPairs ps) := by
  unfold Dict.ofPairs
  suffices h : ∀ acc : Dict String (ι → K), (ps.map (fun p => (p.1, I.map p.2))).foldl (fun d p => Dict.set d p.1 p.2) (liftDict I acc) =
      liftDict I (ps.foldl (fun d p => Dict.set d p.1 p.2) acc) from h []
  induction ps with
  | nil => intro acc; rfl
  | cons p ps ih =>
    intro acc
    simp only [List.map_cons, List.foldl_cons]
    rw [← ih]
    congr 1
    exact set_mapVal (fun f : ι → K => I.map f) acc p.1 p.2

theorem varMembership_as_map {D : List (List (Cell K) × C)} (v : FVar K) (f : List (Cell K) × C → Cell K) {d : Dict String (List K)}
    (h : v.membership (D.map f) = .ok d) :
    ∃ g : Dict String (List (Cell K) × C → K), ∀ D' : List (List (Cell K) × C), D.Perm D' → v.membership (D'.map f) = .ok (liftDict D' g) := by
  unfold FVar.membership at h ⊢
  rw [py_bind_eq_ok] at h
  obtain ⟨ps, hps, -⟩ := h
  suffices hh : ∃ qs : List (String × (List (Cell K) × C → K)), ∀ D' : List (List (Cell K) × C), D.Perm D' →
      v.sets.mapM (fun fs => do let m ← fs.membership (D'.map f); pure (fs.name, m)) = (.ok (qs.map (fun p => (p.1, D'.map p.2))) : Py _) by
    obtain ⟨qs, hqs⟩ := hh
    refine ⟨Dict.ofPairs qs, fun D' hp => ?_⟩
    rw [hqs D' hp, py_bind_ok, ofPairs_lift]; rfl
  generalize v.sets = ss at hps ⊢
  induction ss generalizing ps with
  | nil => exact ⟨[], fun D' _ => rfl⟩
  | cons s ss ih =>
    rw [mapM_ok_iff] at hps
    cases hps with
    | @cons _ b _ l h1 h2 =>
      rw [py_bind_eq_ok] at h1
      obtain ⟨m, hm, -⟩ := h1
      obtain ⟨g, hg⟩ := membership_as_map s f hm
      obtain ⟨qs, hqs⟩ := ih l ((mapM_ok_iff _ _ _).mpr h2)
      refine ⟨(s.name, g) :: qs, fun D' hp => ?_⟩
      rw [List.mapM_cons, hg D' hp, hqs D' hp]
      rfl

theorem dsmFrom_as_map {D : List (List (Cell K) × C)} (vars : List (FVar K)) : ∀ (j : Nat)
    (acc : Dict String (Dict String (List (Cell K) × C → K))) (Xm : Dict String (Dict String (List K))),
    datasetMembershipFrom (D.map Prod.fst) j (liftMemb D acc) vars = .ok Xm →
    ∃ xm : Dict String (Dict String (List (Cell K) × C → K)), ∀ D' : List (List (Cell K) × C), D.Perm D' →
      datasetMembershipFrom (D'.map Prod.fst) j (liftMemb D' acc) vars = .ok (liftMemb D' xm) := by
  induction vars with
  | nil => exact fun j acc Xm _ => ⟨acc, fun D' _ => rfl⟩
  | cons v vars ih =>
    intro j acc Xm h
    simp only [datasetMembershipFrom] at h ⊢
    rw [py_bind_eq_ok] at h
    obtain ⟨col, hcol, h⟩ := h
    rw [py_bind_eq_ok] at h
    obtain ⟨m, hm, h⟩ := h
    obtain ⟨f, hf⟩ := column_as_map hcol
    have hcf : col = D.map f := by have := hf D (.refl _); rw [hcol] at this; exact Except.ok.inj this
    rw [hcf] at hm
    obtain ⟨g, hg⟩ := varMembership_as_map v f hm
    have hmg : m = liftDict D g := by have := hg D (.refl _); rw [hm] at this; exact Except.ok.inj this
    have hset : ∀ D' : List (List (Cell K) × C), Dict.set (liftMemb D' acc) v.name (liftDict D' g) = liftMemb D' (Dict.set acc v.name g) :=
      fun D' => set_mapVal (fun d : Dict String (List (Cell K) × C → K) => liftDict D' d) acc v.name g
    rw [hmg, hset] at h
    obtain ⟨xm, hxm⟩ := ih _ _ _ h
    refine ⟨xm, fun D' hp => ?_⟩
    rw [hf D' hp, py_bind_ok, hg D' hp, py_bind_ok, hset]
    exact hxm D' hp

theorem checkArray_perm {α : Type} {X X' : List (List α)} (hp : X.Perm X') (h : checkArray X = .ok ()) : checkArray X' = .ok () := by
  rw [checkArray_ok_iff] at h ⊢
  unfold Rectangular at h ⊢
  obtain ⟨n, h1, h2, h3⟩ := h
  refine ⟨n, h1, ?_, fun r hr => h3 r (hp.mem_iff.mpr hr)⟩
  intro h0
  rw [h0] at hp
  exact h2 (List.perm_nil.mp hp)

/-- fitting on a permutation of the labelled rows: the same tree except for the degrees of the training rows. -/
theorem fdtFit_perm {ent : List K → List C → K} (hE : Spec.RowOrderFree ent) (ord : List String → List String) (p : FDTParams K)
    (root : FNode C K) {D D' : List (List (Cell K) × C)} (hp : D.Perm D') {t : FNode C K}
    (h : fdtFit ent ord p root (D.map Prod.fst) (D.map Prod.snd) = .ok t) :
    ∃ t', fdtFit ent ord p root (D'.map Prod.fst) (D'.map Prod.snd) = .ok t' ∧ noMu t' = noMu t := by
  unfold fdtFit at h ⊢
  rw [py_bind_eq_ok] at h
  obtain ⟨u, hu, h⟩ := h
  cases u
  rw [checkArray_perm (hp.map Prod.fst) hu, py_bind_ok]
  simp only [List.length_map, ne_eq, not_true_eq_false, if_false] at h ⊢
  rw [py_bind_eq_ok] at h
  obtain ⟨Xm, hX, h⟩ := h
  have hR := (checkArray_ok_iff _).mp hu
  have hR' := (checkArray_ok_iff _).mp (checkArray_perm (hp.map Prod.fst) hu)
  rw [(datasetMembership_eq _ _).1 hR] at hX
  obtain ⟨xm, hxm⟩ := dsmFrom_as_map p.vars 0 [] Xm hX
  have h1 : Xm = liftMemb D xm := by
    have := hxm D (.refl _)
    exact Except.ok.inj (hX.symm.trans this)
  rw [(datasetMembership_eq _ _).1 hR']
  rw [show datasetMembershipFrom (D'.map Prod.fst) 0 [] p.vars = .ok (liftMemb D' xm) from hxm D' hp, py_bind_ok]
  subst h1
  rw [List.map_map] at h ⊢
  have := partialFit_perm hp (sameEnt_of_perm hE Prod.snd hp) ord p xm ((p.vars.map FVar.name).dedup.length + 1)
    (.mk root.test root.level (D.map ((fun _ => 1) ∘ Prod.snd)) root.isLeaf root.classValue root.children)
    (.mk root.test root.level (D'.map ((fun _ => 1) ∘ Prod.snd)) root.isLeaf root.classValue root.children)
    ((fun _ => 1) ∘ Prod.snd) (p.vars.map FVar.name).dedup 0 rfl rfl rfl rfl rfl
  rw [h] at this
  generalize partialFit ent ord p (liftMemb D' xm) (D'.map Prod.snd) _ _ _ _ = R at this ⊢
  cases R with
  | error e => simp [Except.map] at this
  | ok t' =>
    simp only [Except.map, Except.ok.injEq] at this
    exact ⟨t', rfl, this.symm⟩


/-! ### what a user sees of a tree does not depend on the degrees stored in it -/

theorem partialPredict_noMu (T : K → K → K) (X : List (List (Cell K))) (t : FNode C K) :
    ∀ mu, partialPredict T X mu (noMu t) = partialPredict T X mu t := by
  induction t using FNode.induction with
  | h test level m isLeaf cv children ih =>
    intro mu
    have hl : ∀ (cs : List (FNode C K)), (∀ c ∈ cs, ∀ mu, partialPredict T X mu (noMu c) = partialPredict T X mu c) → ∀ mu,
        partialPredictList T X mu (noMuList cs) = partialPredictList T X mu cs := by
      intro cs
      induction cs with
      | nil => intro _ mu; rw [noMuList]
      | cons c cs ihc =>
        intro hc mu
        rw [noMuList]
        simp only [partialPredictList]
        rw [hc c (by simp), ihc (fun c' h' => hc c' (by simp [h']))]
    rw [noMu]
    simp only [partialPredict]
    congr 1
    funext newMu
    split
    · rfl
    · cases children with
      | nil => rw [noMuList]
      | cons c cs =>
        rw [noMuList]
        dsimp only
        rw [ih c (by simp), hl cs (fun c' h' => ih c' (by simp [h']))]

theorem getRules_noMu (th : K) (t : FNode C K) : ∀ rule, getRules th rule (noMu t) = getRules th rule t := by
  induction t using FNode.induction with
  | h test level m isLeaf cv children ih =>
    intro rule
    have hl : ∀ (cs : List (FNode C K)), (∀ c ∈ cs, ∀ rule, getRules th rule (noMu c) = getRules th rule c) → ∀ rule,
        getRulesList th rule (noMuList cs) = getRulesList th rule cs := by
      intro cs
      induction cs with
      | nil => intro _ mu; rw [noMuList]
      | cons c cs ihc =>
        intro hc mu
        rw [noMuList]
        simp only [getRulesList]
        rw [hc c (by simp), ihc (fun c' h' => hc c' (by simp [h']))]
    rw [noMu]
    simp only [getRules]
    congr 1
    funext newRule
    split
    · rfl
    · rw [hl children ih]

theorem str_noMu (showCV : Option (Dict C K) → String) (t : FNode C K) : FNode.str showCV (noMu t) = FNode.str showCV t := by
  induction t using FNode.induction with
  | h test level m isLeaf cv children ih =>
    have hl : ∀ (cs : List (FNode C K)), (∀ c ∈ cs, FNode.str showCV (noMu c) = FNode.str showCV c) →
        FNode.strList showCV (noMuList cs) = FNode.strList showCV cs := by
      intro cs
      induction cs with
      | nil => intro _; rw [noMuList]
      | cons c cs ihc =>
        intro hc
        rw [noMuList]
        simp only [FNode.strList]
        rw [hc c (by simp), ihc (fun c' h' => hc c' (by simp [h']))]
    rw [noMu]
    simp only [FNode.str]
    rw [hl children ih]

/-- a tree seen from outside: predictions for every table, every t-norm and voting method, scores, rules and the printed text. -/
structure Spec.SameTree (t t' : FNode C K) : Prop where
  predict : ∀ (T : K → K → K) (v : Voting) (Z : List (List (Cell K))), fdtPredict T v t' Z = fdtPredict T v t Z
  score : ∀ (T : K → K → K) (v : Voting) (Z : List (List (Cell K))) (w : List C), fdtScore T v t' Z w = fdtScore T v t Z w
  rules : ∀ (th : K) (verbose : Bool), t'.toRules th verbose = t.toRules th verbose
  text : ∀ showCV : Option (Dict C K) → String, FNode.str showCV t' = FNode.str showCV t

theorem sameTree_of_noMu {t t' : FNode C K} (h : noMu t' = noMu t) : Spec.SameTree t t' := by
  have hp : ∀ (T : K → K → K) (v : Voting) (Z : List (List (Cell K))), fdtPredict T v t' Z = fdtPredict T v t Z := by
    intro T v Z
    unfold fdtPredict FNode.predict
    rw [← partialPredict_noMu T Z t', h, partialPredict_noMu]
  refine ⟨hp, ?_, ?_, ?_⟩
  · intro T v Z w
    unfold fdtScore
    rw [hp]
  · intro th _
    unfold FNode.toRules
    rw [← getRules_noMu th t', h, getRules_noMu]
  · intro showCV
    rw [← str_noMu showCV t', h, str_noMu]

/-- **C157**: the order of the training rows does not matter. Fit a fuzzy tree to a table and its classes, and to the same labelled rows in any other
order: if the first fit succeeds so does the second, and the two trees give the same predictions for every table (for every t-norm and voting
method), the same scores, the same rules (for every threshold) and the same printed text. Holds for every impurity that does not depend on the order
of the rows, in particular for the fuzzy entropy of the library (`C157_entropy`). -/
theorem C157_row_order {ent : List K → List C → K} (hE : Spec.RowOrderFree ent) (ord : List String → List String) (p : FDTParams K)
    (root : FNode C K) (X X' : List (List (Cell K))) (y y' : List C) (hl : X.length = y.length) (hl' : X'.length = y'.length)
    (hp : (X.zip y).Perm (X'.zip y')) {t : FNode C K} (h : fdtFit ent ord p root X y = .ok t) :
    ∃ t', fdtFit ent ord p root X' y' = .ok t' ∧ Spec.SameTree t t' := by
  have e1 : (X.zip y).map Prod.fst = X := List.map_fst_zip (by omega)
  have e2 : (X.zip y).map Prod.snd = y := List.map_snd_zip (by omega)
  have e1' : (X'.zip y').map Prod.fst = X' := List.map_fst_zip (by omega)
  have e2' : (X'.zip y').map Prod.snd = y' := List.map_snd_zip (by omega)
  obtain ⟨t', h1, h2⟩ := fdtFit_perm hE ord p root hp (t := t) (by rw [e1, e2]; exact h)
  rw [e1', e2'] at h1
  exact ⟨t', h1, sameTree_of_noMu h2⟩

end rows

/-- **C157** for the fuzzy entropy of the library, with any logarithm. -/
theorem C157_entropy {C : Type} [LinearOrder C] (ord : List String → List String) (p : FDTParams ℝ) (root : FNode C ℝ)
    (X X' : List (List (Cell ℝ))) (y y' : List C) (hl : X.length = y.length) (hl' : X'.length = y'.length)
    (hp : (X.zip y).Perm (X'.zip y')) {t : FNode C ℝ} (h : fdtFit (fuzzyEntropy (Real.logb 2)) ord p root X y = .ok t) :
    ∃ t', fdtFit (fuzzyEntropy (Real.logb 2)) ord p root X' y' = .ok t' ∧ Spec.SameTree t t' :=
  C157_row_order (fuzzyEntropy_rowOrderFree _) ord p root X X' y y' hl hl' hp h

theorem exEnt_rowOrderFree : Spec.RowOrderFree exEnt := by
  intro l l' hp
  have := maskedY_perm hp Prod.fst Prod.snd
  unfold exEnt
  rw [npUnique_perm this]

/-- the example table with its rows reversed: the same tree for the user. -/
example : ∃ t t', exFit = .ok t ∧ t.isLeaf = false ∧ fdtFit exEnt id exParams fdtNew exX.reverse exY.reverse = .ok t' ∧ Spec.SameTree t t' := by
  have h : (exFit.toOption).map (fun t => t.isLeaf) = some false := by decide +kernel
  cases e : exFit with
  | error _ => rw [e] at h; simp [Except.toOption] at h
  | ok t =>
    rw [e] at h
    obtain ⟨t', h1, h2⟩ := C157_row_order exEnt_rowOrderFree id exParams fdtNew exX exX.reverse exY exY.reverse rfl rfl
      (by rw [show exX.reverse.zip exY.reverse = (exX.zip exY).reverse by decide +kernel]; exact (List.reverse_perm _).symm) e
    exact ⟨t, t', rfl, by simpa [Except.toOption] using h, h1, h2⟩

/-- but `==` of the two trees can be false: it compares the degrees of the training rows one by one. -/
theorem C157_eq_false : ∃ (p : FDTParams ℚ) (X : List (List (Cell ℚ))) (y : List Nat) (t t' : FNode Nat ℚ),
    fdtFit exEnt id p fdtNew X y = .ok t ∧ fdtFit exEnt id p fdtNew X.reverse y.reverse = .ok t' ∧ Spec.SameTree t t' ∧
      FNode.pyEq t t = true ∧ FNode.pyEq t t' = false := by
  have h : ((fdtFit exEnt id exParams fdtNew exX exY).toOption.bind (fun t =>
      (fdtFit exEnt id exParams fdtNew exX.reverse exY.reverse).toOption.map (fun t' => (FNode.pyEq t t, FNode.pyEq t t')))) = some (true, false) := by
    decide +kernel
  cases e : fdtFit exEnt id exParams fdtNew exX exY with
  | error _ => rw [e] at h; simp [Except.toOption] at h
  | ok t =>
    obtain ⟨t', h1, h2⟩ := C157_row_order exEnt_rowOrderFree id exParams fdtNew exX exX.reverse exY exY.reverse rfl rfl
      (by rw [show exX.reverse.zip exY.reverse = (exX.zip exY).reverse by decide +kernel]; exact (List.reverse_perm _).symm) e
    rw [e, h1] at h
    simp only [Except.toOption, Option.bind_some, Option.map_some, Option.some.injEq, Prod.mk.injEq] at h
    exact ⟨exParams, exX, exY, t, t', e, h1, h2, h.1, h.2⟩

end Teacher
