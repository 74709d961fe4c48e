import Verif.Props.ID3Predict
import Verif.Props.RowOrder

/-! # C166: ID3 treats values and classes as names -/

namespace Teacher
set_option linter.unusedSectionVars false

variable {V W C D K : Type}

/-- a row with the values of every feature renamed (`g feature value`). -/
def Spec.renameRow (features : List String) (g : String → V → W) (x : List V) : List W := x.mapIdx (fun i v => g (features.getD i "") v)

/-- a table with values and classes renamed. -/
def Spec.renameTable (features : List String) (f : C → D) (g : String → V → W) (rows : IRows V C) : IRows W D :=
  rows.map (fun r => (Spec.renameRow features g r.1, f r.2))

/-- a prediction with the class renamed; `None` and `-1` stay. -/
def Spec.renamePred (f : C → D) : IPred C → IPred D
  | .cls c => .cls (f c)
  | .minusOne => .minusOne
  | .noneVal => .noneVal

/-- a rule with the values of its conditions and its class renamed. -/
def Spec.renameIRule (f : C → D) (g : String → V → W) (r : Rule V (Option C) K) : Rule W (Option D) K :=
  ⟨r.antecedent.map (fun cond => (cond.1, g cond.1 cond.2)), r.consequent.map f, r.weight⟩

open Spec

section
variable [Field K] [LinearOrder K] [IsStrictOrderedRing K] [LinearOrder V] [LinearOrder W] [LinearOrder C] [LinearOrder D]
variable {features : List String} {f : C → D} {g : String → V → W}

theorem getElem?_renameRow (x : List V) (i : Nat) : (renameRow features g x)[i]? = (x[i]?).map (g (features.getD i "")) := by
  unfold renameRow
  rw [List.getElem?_mapIdx]

theorem npUnique_rename {g : V → W} (hg : Function.Injective g) (l : List V) : (npUnique (l.map g)).Perm ((npUnique l).map g) := by
  refine (List.perm_ext_iff_of_nodup (npUnique_nodup _) ((npUnique_nodup l).map hg)).2 ?_
  intro w
  simp only [mem_npUnique, List.mem_map]

theorem column_rename (rows : IRows V C) (i : Nat) :
    column ((renameTable features f g rows).map Prod.fst) i = (column (rows.map Prod.fst) i).map (List.map (g (features.getD i ""))) := by
  unfold column renameTable
  rw [List.map_map]
  induction rows with
  | nil => rfl
  | cons r rows ih =>
    simp only [List.map_cons, List.mapM_cons, Function.comp]
    rw [getElem?_renameRow]
    cases r.1[i]? with
    | none => rfl
    | some v =>
      simp only [Option.map_some, py_bind_ok]
      rw [ih]
      cases (List.mapM (fun r => match r[i]? with | some v => Except.ok v | none => Except.error PyErr.indexError) (List.map Prod.fst rows) : Py (List V)) <;> rfl

theorem labels_rename (rows : IRows V C) : (renameTable features f g rows).map Prod.snd = (rows.map Prod.snd).map f := by
  unfold renameTable
  rw [List.map_map, List.map_map]; rfl

theorem rowsWhere_rename (hg : ∀ nm, Function.Injective (g nm)) (rows : IRows V C) (i : Nat) (s : V) :
    rowsWhere (renameTable features f g rows) i (g (features.getD i "") s) = renameTable features f g (rowsWhere rows i s) := by
  unfold rowsWhere renameTable
  rw [List.filter_map]
  congr 1
  apply List.filter_congr
  intro r _
  simp only [Function.comp, getElem?_renameRow]
  rw [decide_eq_decide]
  cases r.1[i]? with
  | none => simp
  | some v =>
    simp only [Option.map_some, Option.some.injEq]
    exact (hg _).eq_iff

theorem classCounts_rename (hf : Function.Injective f) {ordC : List C → List C} {ordD : List D → List D} (ho : ∀ l, ordD (l.map f) = (ordC l).map f)
    (rows : IRows V C) : classCounts ordD (renameTable features f g rows) = (classCounts ordC rows).map (fun q => (f q.1, q.2)) := by
  unfold classCounts
  rw [labels_rename, ho]
  simp only [List.map_map (l := ordC _)]
  apply List.map_congr_left
  intro c _
  simp only [Function.comp]
  rw [List.count_map_of_injective _ f hf]

theorem pyMaxFrom_rename (q : C × Nat) (l : List (C × Nat)) :
    pyMaxFrom (fun q : D × Nat => q.2) (f q.1, q.2) (l.map (fun q => (f q.1, q.2))) =
      ((f (pyMaxFrom (fun q : C × Nat => q.2) q l).1, (pyMaxFrom (fun q : C × Nat => q.2) q l).2)) := by
  induction l generalizing q with
  | nil => rfl
  | cons a l ih =>
    simp only [List.map_cons, pyMaxFrom]
    by_cases h : q.2 < a.2
    · simp only [h, if_true]; exact ih a
    · simp only [h, if_false]; exact ih q

theorem pyMax_rename (l : List (C × Nat)) :
    pyMax (fun q : D × Nat => q.2) (l.map (fun q => (f q.1, q.2))) = (pyMax (fun q : C × Nat => q.2) l).map (fun q => (f q.1, q.2)) := by
  cases l with
  | nil => rfl
  | cons a l =>
    simp only [List.map_cons, pyMax, Except.map]
    rw [pyMaxFrom_rename]

/-- the gain of a renamed feature whose splits are listed in any order. -/
theorem id3Gain_rename (hf : Function.Injective f) {h : V → W} (hh : Function.Injective h) {ordC : List C → List C} {ordD : List D → List D}
    (ho : ∀ l, ordD (l.map f) = (ordC l).map f) (H : List K → K) (col : List V) (y : List C) (s : List V) (s' : List W) (hs : s'.Perm (s.map h)) :
    id3Gain H ordD (col.map h) (y.map f) s' = id3Gain H ordC col y s := by
  have hfe : ∀ classes l : List C, freqEntropy H (classes.map f) (l.map f) = freqEntropy H classes l := by
    intro classes l
    unfold freqEntropy
    rw [List.map_map, List.length_map]
    congr 1
    apply List.map_congr_left
    intro c _
    simp only [Function.comp]
    rw [List.count_map_of_injective _ f hf]
  unfold id3Gain
  dsimp only
  rw [ho, hfe, List.length_map]
  congr 1
  have hpart : ∀ v : V, (((col.map h).zip (y.map f)).filter (fun p => p.1 = h v)).map Prod.snd =
      (((col.zip y).filter (fun p => p.1 = v)).map Prod.snd).map f := by
    intro v
    rw [List.zip_map, List.filter_map, List.map_map, List.map_map]
    have : ((fun p : W × D => decide (p.1 = h v)) ∘ Prod.map h f) = fun p : V × C => decide (p.1 = v) := by
      funext p
      simp only [Function.comp, Prod.map]
      rw [decide_eq_decide]
      exact hh.eq_iff
    rw [this]
    rfl
  have hp := ((hs.map (fun w => (((col.map h).zip (y.map f)).filter (fun p => p.1 = w)).map Prod.snd)).filter (fun q => q ≠ [])).map
    (fun q => (q.length : K) * freqEntropy H ((ordC y).map f) q / (y.length : K))
  refine hp.sum_eq.trans ?_
  rw [List.map_map]
  have e : (s.map ((fun w => (((col.map h).zip (y.map f)).filter (fun p => p.1 = w)).map Prod.snd) ∘ h)) =
      (s.map (fun v => ((col.zip y).filter (fun p => p.1 = v)).map Prod.snd)).map (List.map f) := by
    rw [List.map_map]
    apply List.map_congr_left
    intro v _
    exact hpart v
  rw [e, List.filter_map, List.map_map]
  have e2 : ((fun q : List D => decide (q ≠ [])) ∘ List.map f) = fun q : List C => decide (q ≠ []) := by
    funext q
    simp
  rw [e2]
  congr 1
  apply List.map_congr_left
  intro q _
  simp only [Function.comp]
  rw [hfe, List.length_map]

/-- the splits of the features of the two tables. -/
def ISplitsRel (features : List String) (g : String → V → W) (fs : List (List V)) (fs' : List (List W)) : Prop :=
  ∀ i, (fs[i]? = none ∧ fs'[i]? = none) ∨
    ∃ (s : List V) (s' : List W), fs[i]? = some s ∧ fs'[i]? = some s' ∧ s.Nodup ∧ s'.Perm (s.map (g (features.getD i "")))

/-- what `_partial_fit` found for the two tables: the same feature and gain, the renamed splits in some order. -/
def IBestRel (features : List String) (g : String → V → W) (b : Option Nat × List V × K) (b' : Option Nat × List W × K) : Prop :=
  b'.1 = b.1 ∧ b'.2.2 = b.2.2 ∧ ((b.1 = none ∧ b.2.1 = [] ∧ b'.2.1 = []) ∨
    ∃ i nm, b.1 = some i ∧ features[i]? = some nm ∧ b.2.1.Nodup ∧ b'.2.1.Perm (b.2.1.map (g nm)))

theorem getD_of_getElem? {i : Nat} {nm : String} (h : features[i]? = some nm) : features.getD i "" = nm := by
  rw [List.getD_eq_getElem?_getD, h]; rfl

theorem id3Best_rename (hf : Function.Injective f) (hg : ∀ nm, Function.Injective (g nm)) {ordC : List C → List C} {ordD : List D → List D}
    (ho : ∀ l, ordD (l.map f) = (ordC l).map f) (H : List K → K) {fs : List (List V)} {fs' : List (List W)} (hfs : ISplitsRel features g fs fs')
    (rows : IRows V C) (fts : List String) : ∀ (b r : Option Nat × List V × K) (b' : Option Nat × List W × K), IBestRel features g b b' →
    id3Best (id3Gain H ordC) features fs rows b fts = .ok r →
    ∃ r', id3Best (id3Gain H ordD) features fs' (renameTable features f g rows) b' fts = .ok r' ∧ IBestRel features g r r' := by
  induction fts with
  | nil =>
    intro b r b' hb h
    simp only [id3Best, Except.ok.injEq] at h
    subst h
    exact ⟨b', rfl, hb⟩
  | cons ft fts ih =>
    intro b r b' hb h
    simp only [id3Best] at h ⊢
    cases hi : Dict.get (featuresDic features) ft with
    | error e => rw [hi] at h; cases h
    | ok i =>
      rw [hi] at h
      simp only [py_bind_ok] at h ⊢
      rw [column_rename]
      cases hcol : column (rows.map Prod.fst) i with
      | error e => rw [hcol] at h; cases h
      | ok col =>
        rw [hcol] at h
        simp only [py_bind_ok, Except.map] at h ⊢
        rcases hfs i with ⟨e1, -⟩ | ⟨s, s', e1, e2, hn, hp⟩
        · rw [e1] at h; cases h
        · rw [e1] at h
          rw [e2]
          simp only [py_bind_ok] at h ⊢
          rw [labels_rename, id3Gain_rename hf (hg _) ho H col _ s s' hp]
          refine ih _ _ _ ?_ h
          obtain ⟨b1, b2, b3⟩ := hb
          rw [b2]
          by_cases hlt : b.2.2 < id3Gain H ordC col (rows.map Prod.snd) s
          · simp only [hlt, if_true]
            have hnm : features[i]? = some ft := featuresDic_get (by
              unfold Dict.get at hi
              cases hd : Dict.get? (featuresDic features) ft with
              | none => rw [hd] at hi; cases hi
              | some j => rw [hd] at hi; cases hi; rfl)
            exact ⟨rfl, rfl, .inr ⟨i, ft, rfl, hnm, hn, by rw [← getD_of_getElem? hnm]; exact hp⟩⟩
          · simp only [hlt, if_false]
            exact ⟨b1, b2, b3⟩

/-- the two trees: the same errors and numbers of leaves, the renamed predictions and the renamed rules in some order. -/
structure ITreeRel (features : List String) (f : C → D) (g : String → V → W) (t : INode V C K) (t' : INode W D K) : Prop where
  error : t'.error = t.error
  numLeaf : t'.numLeaf = t.numLeaf
  predict : ∀ x, t'.predict (renameRow features g x) = (t.predict x).map (renamePred f)
  rules : ∀ conds, ∃ rs rs', t.getRules features conds = .ok rs ∧
    t'.getRules features (conds.map (fun cond => (cond.1, g cond.1 cond.2))) = .ok rs' ∧
    rs'.Perm (rs.map (fun r => (r.1.map (fun cond => (cond.1, g cond.1 cond.2)), r.2.map f)))

theorem ITreeRel.leaf (var var' : Option Nat) (bs : List (V × INode V C K)) (bs' : List (W × INode W D K)) (cv : C) (cc cc' : Nat × Nat)
    (l l' : Int) (e : K) (n : Nat) : ITreeRel features f g (.mk true var bs (some cv) cc l e n) (.mk true var' bs' (some (f cv)) cc' l' e n) where
  error := rfl
  numLeaf := rfl
  predict := by intro x; simp only [INode.predict, if_true]; rfl
  rules := by
    intro conds
    refine ⟨[(conds, some cv)], [(conds.map (fun cond => (cond.1, g cond.1 cond.2)), some (f cv))], ?_, ?_, ?_⟩
    · simp only [INode.getRules, if_true]
    · simp only [INode.getRules, if_true]
    · exact .refl _

theorem predictBranches_err {x : List V} {i : Nat} (hv : x[i]? = none) (bs : List (V × INode V C K)) (hne : bs ≠ []) :
    predictBranches x (some i) bs = .error .indexError := by
  cases bs with
  | nil => exact absurd rfl hne
  | cons b bs => obtain ⟨s, t⟩ := b; simp only [predictBranches, Option.bind_some, hv]

/-- rules of a list of branches: those of the branches one after the other. -/
theorem getRulesBranches_flatMap {i : Nat} {nm : String} (hnm : features[i]? = some nm) (conds : List (String × V))
    (r : V × INode V C K → List (List (String × V) × Option C)) (bs : List (V × INode V C K))
    (h : ∀ b ∈ bs, b.2.getRules features (conds ++ [(nm, b.1)]) = .ok (r b)) : getRulesBranches features conds (some i) bs = .ok (bs.flatMap r) := by
  induction bs with
  | nil => rfl
  | cons b bs ih =>
    obtain ⟨s, t⟩ := b
    simp only [getRulesBranches, Option.bind_some, hnm]
    have := h (s, t) List.mem_cons_self
    simp only at this
    rw [this, ih (fun b hb => h b (List.mem_cons_of_mem _ hb))]
    rfl

/-- a split in the two trees. -/
theorem ITreeRel.split (hg : ∀ nm, Function.Injective (g nm)) {i : Nat} {nm : String} (hnm : features[i]? = some nm)
    {bs : List (V × INode V C K)} {l bs' : List (W × INode W D K)} (hn : (bs.map Prod.fst).Nodup)
    (hl : List.Forall₂ (fun b b' => b'.1 = g nm b.1 ∧ ITreeRel features f g b.2 b'.2) bs l) (hp : bs'.Perm l)
    (cv : Option C) (cv' : Option D) (cc cc' : Nat × Nat) (lv lv' : Int) (e : K) (n : Nat) :
    ITreeRel features f g (.mk false (some i) bs cv cc lv e n) (.mk false (some i) bs' cv' cc' lv' e n) where
  error := rfl
  numLeaf := rfl
  predict := by
    intro x
    simp only [INode.predict, Bool.false_eq_true, if_false]
    have hkeys : l.map Prod.fst = (bs.map Prod.fst).map (g nm) := by
      rw [List.map_map]
      refine (forall₂_map_eq (f := g nm ∘ Prod.fst) (g := Prod.fst) hl ?_)
      rintro b b' ⟨h, -⟩
      exact h
    have hn' : (bs'.map Prod.fst).Nodup := by
      rw [(hp.map Prod.fst).nodup_iff, hkeys]
      exact hn.map (hg nm)
    have hx : (renameRow features g x)[i]? = (x[i]?).map (g nm) := by rw [getElem?_renameRow, getD_of_getElem? hnm]
    cases hxi : x[i]? with
    | none =>
      rw [hxi] at hx
      by_cases hne : bs = []
      · subst hne
        cases hl
        rw [List.perm_nil.mp hp]
        rfl
      · have hne' : bs' ≠ [] := by
          intro h0
          rw [h0] at hp
          rw [List.nil_perm.mp hp] at hl
          cases hl
          exact hne rfl
        rw [predictBranches_err hxi bs hne, predictBranches_err hx bs' hne']
        rfl
    | some v =>
      rw [hxi] at hx
      by_cases hv : v ∈ bs.map Prod.fst
      · obtain ⟨b, hb, rfl⟩ := List.mem_map.1 hv
        obtain ⟨b', hb', h1, h2⟩ := forall₂_mem_left hl b hb
        rw [predictBranches_mem hxi bs b.2 hn hb, predictBranches_mem (t := b'.2) hx bs' hn' (by rw [← h1]; exact hp.mem_iff.mpr hb')]
        exact h2.predict x
      · rw [predictBranches_not_mem hxi bs hv, predictBranches_not_mem hx bs' ?_]
        · rfl
        · rw [(hp.map Prod.fst).mem_iff, hkeys]
          intro hm
          obtain ⟨u, hu, he⟩ := List.mem_map.1 hm
          rw [hg nm he] at hu
          exact hv hu
  rules := by
    intro conds
    let conds' := conds.map (fun cond => (cond.1, g cond.1 cond.2))
    let r : V × INode V C K → List (List (String × V) × Option C) := fun b => (b.2.getRules features (conds ++ [(nm, b.1)])).toOption.getD []
    let r' : W × INode W D K → List (List (String × W) × Option D) := fun b => (b.2.getRules features (conds' ++ [(nm, b.1)])).toOption.getD []
    have h1 : ∀ b ∈ bs, b.2.getRules features (conds ++ [(nm, b.1)]) = .ok (r b) := by
      intro b hb
      obtain ⟨b', -, -, h2⟩ := forall₂_mem_left hl b hb
      obtain ⟨rs, rs', e1, -, -⟩ := h2.rules (conds ++ [(nm, b.1)])
      simp only [r]
      rw [e1]; rfl
    have h2 : ∀ b' ∈ bs', b'.2.getRules features (conds' ++ [(nm, b'.1)]) = .ok (r' b') := by
      intro b' hb'
      obtain ⟨b, -, h3, h4⟩ := forall₂_mem_right hl b' (hp.mem_iff.mp hb')
      obtain ⟨rs, rs', -, e2, -⟩ := h4.rules (conds ++ [(nm, b.1)])
      rw [List.map_append, List.map_singleton] at e2
      simp only [← h3] at e2
      simp only [r']
      rw [e2]; rfl
    refine ⟨bs.flatMap r, bs'.flatMap r', ?_, ?_, ?_⟩
    · simp only [INode.getRules, Bool.false_eq_true, if_false]
      exact getRulesBranches_flatMap hnm conds r bs h1
    · simp only [INode.getRules, Bool.false_eq_true, if_false]
      exact getRulesBranches_flatMap hnm conds' r' bs' h2
    · refine (hp.flatMap_right r').trans ?_
      have : ∀ (bs : List (V × INode V C K)) (l : List (W × INode W D K)),
          List.Forall₂ (fun b b' => b'.1 = g nm b.1 ∧ ITreeRel features f g b.2 b'.2) bs l →
          (l.flatMap r').Perm ((bs.flatMap r).map (fun r => (r.1.map (fun cond => (cond.1, g cond.1 cond.2)), r.2.map f))) := by
        intro bs l hl
        induction hl with
        | nil => exact .refl _
        | @cons b b' bs l hb hl ih =>
          rw [List.flatMap_cons, List.flatMap_cons, List.map_append]
          refine List.Perm.append ?_ ih
          obtain ⟨h3, h4⟩ := hb
          obtain ⟨rs, rs', e1, e2, e3⟩ := h4.rules (conds ++ [(nm, b.1)])
          rw [List.map_append, List.map_singleton] at e2
          simp only [← h3] at e2
          have q1 : r b = rs := by simp only [r]; rw [e1]; rfl
          have q2 : r' b' = rs' := by
            simp only [r', conds']
            rw [e2]; rfl
          rw [q1, q2]
          exact e3
      exact this bs l hl

theorem mapM_ok_perm {α β : Type} {h : α → Py β} {l l' : List α} (hp : l.Perm l') : ∀ {r}, l.mapM h = .ok r → ∃ r', l'.mapM h = .ok r' ∧ r'.Perm r := by
  induction hp with
  | nil => intro r hr; exact ⟨r, hr, .refl _⟩
  | cons a _ ih =>
    intro r hr
    rw [List.mapM_cons] at hr
    obtain ⟨b, hb, hr⟩ := py_bind_eq_ok.1 hr
    obtain ⟨bs, hbs, hr⟩ := py_bind_eq_ok.1 hr
    obtain ⟨bs', e1, e2⟩ := ih hbs
    cases hr
    refine ⟨b :: bs', ?_, e2.cons _⟩
    rw [List.mapM_cons, hb, py_bind_ok, e1]; rfl
  | swap a a' l =>
    intro r hr
    rw [List.mapM_cons, List.mapM_cons] at hr
    obtain ⟨b, hb, hr⟩ := py_bind_eq_ok.1 hr
    obtain ⟨b2, hb2, hr⟩ := py_bind_eq_ok.1 hr
    obtain ⟨b', hb', hr2⟩ := py_bind_eq_ok.1 hb2
    obtain ⟨bs, hbs, hr2⟩ := py_bind_eq_ok.1 hr2
    cases hr2; cases hr
    refine ⟨b' :: b :: bs, ?_, .swap _ _ _⟩
    rw [List.mapM_cons, List.mapM_cons, hb', py_bind_ok, hb, py_bind_ok, hbs]; rfl
  | trans _ _ ih1 ih2 =>
    intro r hr
    obtain ⟨r1, e1, e2⟩ := ih1 hr
    obtain ⟨r2, e3, e4⟩ := ih2 e1
    exact ⟨r2, e3, e4.trans e2⟩

/-- a node without feature and splits. -/
theorem ITreeRel.stump (cv : Option C) (cv' : Option D) (cc cc' : Nat × Nat) (lv lv' : Int) (e : K) (n : Nat) :
    ITreeRel features f g (.mk false none [] cv cc lv e n) (.mk false none [] cv' cc' lv' e n) where
  error := rfl
  numLeaf := rfl
  predict := by intro x; simp only [INode.predict, Bool.false_eq_true, if_false]; rfl
  rules := by
    intro conds
    refine ⟨[], [], ?_, ?_, .refl _⟩
    · simp only [INode.getRules, Bool.false_eq_true, if_false]; rfl
    · simp only [INode.getRules, Bool.false_eq_true, if_false]; rfl

theorem id3Child_rename (hg : ∀ nm, Function.Injective (g nm)) {rec : IRows V C → INode V C K → Py (INode V C K)}
    {rec' : IRows W D → INode W D K → Py (INode W D K)}
    (hrec : ∀ sub T, sub ≠ [] → rec sub .fresh = .ok T → ∃ T', rec' (renameTable features f g sub) .fresh = .ok T' ∧ ITreeRel features f g T T')
    (rows : IRows V C) (i : Nat) (cv : C) (depth : Nat) (s : V) (c : (V × INode V C K) × K) (h : id3Child rec rows i cv depth s = .ok c) :
    ∃ c', id3Child rec' (renameTable features f g rows) i (f cv) depth (g (features.getD i "") s) = .ok c' ∧
      c.1.1 = s ∧ c'.1.1 = g (features.getD i "") s ∧ ITreeRel features f g c.1.2 c'.1.2 ∧ c'.2 = c.2 := by
  unfold id3Child at h ⊢
  dsimp only at h ⊢
  rw [rowsWhere_rename hg]
  have hlen : ∀ l : IRows V C, (renameTable features f g l).length = l.length := fun l => by unfold renameTable; rw [List.length_map]
  by_cases hs : rowsWhere rows i s ≠ []
  · have hs' : renameTable features f g (rowsWhere rows i s) ≠ [] := by
      rw [← List.length_pos_iff, hlen, List.length_pos_iff]; exact hs
    rw [if_pos hs] at h
    rw [if_pos hs']
    obtain ⟨T, h1, h2⟩ := py_bind_eq_ok.1 h
    obtain ⟨T', h3, h4⟩ := hrec _ _ hs h1
    cases h2
    refine ⟨_, by rw [h3, py_bind_ok]; rfl, rfl, rfl, h4, ?_⟩
    simp only
    rw [h4.error, hlen, hlen]
  · have hs' : ¬ renameTable features f g (rowsWhere rows i s) ≠ [] := by
      rw [← List.length_pos_iff, hlen, List.length_pos_iff]; exact hs
    rw [if_neg hs] at h
    rw [if_neg hs']
    cases h
    exact ⟨_, rfl, rfl, rfl, .leaf _ _ _ _ _ _ _ _ _ _ _, rfl⟩

theorem id3Prune_rename {p : ID3Params K} {en : K} {t T : INode V C K} {t' : INode W D K} {cv : C} {cnt n depth : Nat} (ht : ITreeRel features f g t t')
    (h : id3Prune p en t cv cnt n depth = .ok T) : ∃ T', id3Prune p en t' (f cv) cnt n depth = .ok T' ∧ ITreeRel features f g T T' := by
  unfold id3Prune at h ⊢
  rw [ht.numLeaf, ht.error]
  by_cases h1 : p.prunning = true
  · rw [if_pos h1] at h ⊢
    by_cases h2 : (t.numLeaf : K) - 1 = 0
    · rw [if_pos h2] at h; cases h
    · rw [if_neg h2] at h ⊢
      by_cases h3 : (en - t.error) / ((t.numLeaf : K) - 1) < p.th
      · rw [if_pos h3] at h ⊢
        cases h
        exact ⟨_, rfl, .leaf _ _ _ _ _ _ _ _ _ _ _⟩
      · rw [if_neg h3] at h ⊢
        cases h
        exact ⟨_, rfl, ht⟩
  · rw [if_neg h1] at h ⊢
    cases h
    exact ⟨_, rfl, ht⟩

/-- the children of a split in the two trees. -/
theorem children_rename (hg : ∀ nm, Function.Injective (g nm)) {rec : IRows V C → INode V C K → Py (INode V C K)}
    {rec' : IRows W D → INode W D K → Py (INode W D K)}
    (hrec : ∀ sub T, sub ≠ [] → rec sub .fresh = .ok T → ∃ T', rec' (renameTable features f g sub) .fresh = .ok T' ∧ ITreeRel features f g T T')
    (rows : IRows V C) (i : Nat) (nm : String) (hnm : features.getD i "" = nm) (cv : C) (depth : Nat) (s : List V) (s' : List W)
    (hp : s'.Perm (s.map (g nm))) (cs : List ((V × INode V C K) × K))
    (h : s.mapM (id3Child rec rows i cv depth) = .ok cs) :
    ∃ l cs', s'.mapM (id3Child rec' (renameTable features f g rows) i (f cv) depth) = .ok cs' ∧ cs'.Perm l ∧ cs.map (fun c => c.1.1) = s ∧
      List.Forall₂ (fun c c' : (_ × _) × K => c'.1.1 = g nm c.1.1 ∧ ITreeRel features f g c.1.2 c'.1.2 ∧ c'.2 = c.2) cs l := by
  subst hnm
  have : ∃ l, (s.map (g (features.getD i ""))).mapM (id3Child rec' (renameTable features f g rows) i (f cv) depth) = .ok l ∧
      cs.map (fun c => c.1.1) = s ∧
      List.Forall₂ (fun c c' : (_ × _) × K => c'.1.1 = g (features.getD i "") c.1.1 ∧ ITreeRel features f g c.1.2 c'.1.2 ∧ c'.2 = c.2) cs l := by
    clear hp
    induction s generalizing cs with
    | nil => cases h; exact ⟨[], rfl, rfl, .nil⟩
    | cons v s ih =>
      rw [List.mapM_cons] at h
      obtain ⟨c, h1, h⟩ := py_bind_eq_ok.1 h
      obtain ⟨cs, h2, h⟩ := py_bind_eq_ok.1 h
      cases h
      obtain ⟨c', e1, e2, e3, e4, e5⟩ := id3Child_rename hg hrec rows i cv depth v c h1
      obtain ⟨l, e6, e7, e8⟩ := ih cs h2
      refine ⟨c' :: l, ?_, by rw [List.map_cons, e2, e7], .cons ⟨by rw [e2]; exact e3, e4, e5⟩ e8⟩
      rw [List.map_cons, List.mapM_cons, e1, py_bind_ok, e6]; rfl
  obtain ⟨l, h1, h2, h3⟩ := this
  obtain ⟨cs', h4, h5⟩ := mapM_ok_perm hp.symm h1
  exact ⟨l, cs', h4, h5, h2, h3⟩

theorem id3PartialFit_rename (hf : Function.Injective f) (hg : ∀ nm, Function.Injective (g nm)) {ordC : List C → List C} (hC : Spec.IsSetListing ordC)
    {ordD : List D → List D} (ho : ∀ l, ordD (l.map f) = (ordC l).map f) (H : List K → K) (ordF : List String → List String) (p : ID3Params K)
    {fs : List (List V)} {fs' : List (List W)} (hfs : ISplitsRel p.features g fs fs') (yc : List C) (yd : List D) :
    ∀ (fuel : Nat) (rows : IRows V C) (t T : INode V C K) (t' : INode W D K) (depth : Nat) (erased : List String), rows ≠ [] → t'.numLeaf = t.numLeaf →
      id3PartialFit (id3Gain H ordC) ordC ordF p fs yc fuel rows t depth erased = .ok T →
      ∃ T', id3PartialFit (id3Gain H ordD) ordD ordF p fs' yd fuel (renameTable p.features f g rows) t' depth erased = .ok T' ∧
        ITreeRel p.features f g T T' := by
  intro fuel
  induction fuel with
  | zero => intro rows t T t' depth erased _ _ h; cases h
  | succ fuel ih =>
    intro rows t T t' depth erased hne hnl h
    simp only [id3PartialFit] at h ⊢
    rw [classCounts_rename hf ho, pyMax_rename]
    have hlen : (renameTable p.features f g rows).length = rows.length := by unfold renameTable; rw [List.length_map]
    rw [hlen]
    cases hm : pyMax (fun q : C × Nat => q.2) (classCounts ordC rows) with
    | error e =>
      obtain ⟨q, hq⟩ := pyMax_classCounts hC hne
      rw [hq] at hm; cases hm
    | ok q =>
      obtain ⟨cv, cnt⟩ := q
      rw [hm] at h
      simp only [Except.map] at h ⊢
      by_cases h1 : p.maxDepth ≤ depth
      · rw [if_pos h1] at h ⊢
        cases h
        exact ⟨_, rfl, .leaf _ _ _ _ _ _ _ _ _ _ _⟩
      rw [if_neg h1] at h ⊢
      by_cases h2 : rows.length < p.minNumExamples
      · rw [if_pos h2] at h ⊢
        cases h
        exact ⟨_, rfl, .leaf _ _ _ _ _ _ _ _ _ _ _⟩
      rw [if_neg h2] at h ⊢
      obtain ⟨b, hb, h⟩ := py_bind_eq_ok.1 h
      obtain ⟨name, hname, h⟩ := py_bind_eq_ok.1 h
      obtain ⟨cs, hcs, h⟩ := py_bind_eq_ok.1 h
      obtain ⟨b', hb', r1, r2, r3⟩ := id3Best_rename hf hg ho H hfs rows _ (none, [], -1) b (none, [], -1) ⟨rfl, rfl, .inl ⟨rfl, rfl, rfl⟩⟩ hb
      rw [hb', py_bind_ok, r1, hname, py_bind_ok]
      have hrec : ∀ sub T, sub ≠ [] →
          id3PartialFit (id3Gain H ordC) ordC ordF p fs yc fuel sub .fresh (depth + 1) (erased ++ [name]) = .ok T →
          ∃ T', id3PartialFit (id3Gain H ordD) ordD ordF p fs' yd fuel (renameTable p.features f g sub) .fresh (depth + 1) (erased ++ [name]) = .ok T' ∧
            ITreeRel p.features f g T T' := fun sub T hs hT => ih sub .fresh T .fresh (depth + 1) (erased ++ [name]) hs rfl hT
      rcases r3 with ⟨q1, q2, q3⟩ | ⟨i, nm, q1, q2, q3, q4⟩
      · rw [q2] at hcs
        cases hcs
        rw [q3]
        rw [q1] at h ⊢
        simp only [List.mapM_nil, py_pure, py_bind_ok, List.map_nil, List.length_nil, Nat.add_zero, hnl]
        exact id3Prune_rename (.stump _ _ _ _ _ _ _ _) h
      · have q2' := getD_of_getElem? q2
        rw [q1] at h hcs ⊢
        simp only [Option.getD_some] at hcs ⊢
        obtain ⟨l, cs', k1, k2, k3, k4⟩ := children_rename hg
          (rec := fun sub child => id3PartialFit (id3Gain H ordC) ordC ordF p fs yc fuel sub child (depth + 1) (erased ++ [name]))
          (rec' := fun sub child => id3PartialFit (id3Gain H ordD) ordD ordF p fs' yd fuel sub child (depth + 1) (erased ++ [name]))
          hrec rows i nm q2' cv depth _ _ q4 cs hcs
        rw [k1, py_bind_ok]
        have hsum : (cs'.map Prod.snd).sum = (cs.map Prod.snd).sum := by
          rw [(k2.map Prod.snd).sum_eq, forall₂_map_eq (f := Prod.snd) (g := Prod.snd) k4 (fun a b hab => hab.2.2)]
        have hcl : cs'.length = cs.length := k2.length_eq.trans k4.length_eq.symm
        rw [hsum, hcl, hnl]
        refine id3Prune_rename ?_ h
        refine .split hg q2 (l := l.map Prod.fst) ?_ ?_ (k2.map Prod.fst) _ _ _ _ _ _ _ _
        · rw [List.map_map]
          have : (Prod.fst ∘ Prod.fst : (V × INode V C K) × K → V) = fun c => c.1.1 := rfl
          rw [this, k3]
          exact q3
        · rw [List.forall₂_map_left_iff, List.forall₂_map_right_iff]
          exact k4.imp (fun a b hab => ⟨hab.1, hab.2.1⟩)

theorem checkArray_map {α β : Type} (h : List α → List β) (hh : ∀ x, (h x).length = x.length) (X : List (List α)) :
    checkArray (X.map h) = checkArray X := by
  unfold checkArray
  cases X with
  | nil => rfl
  | cons r rs =>
    have : ((h r).length = 0 ∨ ∃ r' ∈ rs.map h, r'.length ≠ (h r).length) ↔ (r.length = 0 ∨ ∃ r' ∈ rs, r'.length ≠ r.length) := by
      simp only [hh, List.mem_map, exists_exists_and_eq_and]
    simp only [List.map_cons, this]

theorem isplitsRel_columns (rows : IRows V C) : ∀ (l : List Nat) (cols : List (List V)),
    l.mapM (column (rows.map Prod.fst)) = .ok cols →
    ∃ cols', l.mapM (column ((renameTable features f g rows).map Prod.fst)) = .ok cols' ∧
      List.Forall₂ (fun (i : Nat) (q : List V × List W) => q.2 = q.1.map (g (features.getD i ""))) l (cols.zip cols') ∧ cols'.length = cols.length := by
  intro l
  induction l with
  | nil => intro cols h; cases h; exact ⟨[], rfl, .nil, rfl⟩
  | cons i l ih =>
    intro cols h
    rw [List.mapM_cons] at h
    obtain ⟨c, h1, h⟩ := py_bind_eq_ok.1 h
    obtain ⟨cs, h2, h⟩ := py_bind_eq_ok.1 h
    cases h
    obtain ⟨cols', e1, e2, e3⟩ := ih cs h2
    refine ⟨c.map (g (features.getD i "")) :: cols', ?_, .cons rfl e2, by rw [List.length_cons, List.length_cons, e3]⟩
    rw [List.mapM_cons, column_rename, h1]
    simp only [Except.map, py_bind_ok]
    rw [e1]; rfl

theorem renamePred_eq_iff (hf : Function.Injective f) (a : IPred C) (c : C) : renamePred f a = .cls (f c) ↔ a = .cls c := by
  cases a with
  | cls d => simp only [renamePred, IPred.cls.injEq]; exact hf.eq_iff
  | minusOne => simp [renamePred]
  | noneVal => simp [renamePred]

/-- **C166**: values and classes are only names for ID3. Rename the values of every feature and the classes (different ones to different ones),
and let Python list a set of renamed classes in the order in which it lists the set of classes (this order decides ties). Then fitting a new
ID3 object to the renamed table succeeds as well, its predictions on renamed rows are the renamed predictions, its scores on renamed tables are
the same, and its rules are the renamed rules in some order. -/
theorem C166_id3 (hf : Function.Injective f) (hg : ∀ nm, Function.Injective (g nm)) (H : List K → K) {ordC : List C → List C}
    (hC : Spec.IsSetListing ordC) {ordD : List D → List D} (ho : ∀ l, ordD (l.map f) = (ordC l).map f) (ordF : List String → List String)
    (p : ID3Params K) (rows : IRows V C) {t : INode V C K} (h : id3Fit H ordC ordF p .fresh rows = .ok t) :
    ∃ t', id3Fit H ordD ordF p .fresh (renameTable p.features f g rows) = .ok t' ∧
      (∀ X, id3Predict t' (X.map (renameRow p.features g)) = (id3Predict t X).map (List.map (renamePred f))) ∧
      (∀ Z, id3Score t' (renameTable p.features f g Z) = id3Score t Z) ∧
      ∃ rs rs', t.toRules p.features = .ok rs ∧ t'.toRules p.features = .ok rs' ∧ rs'.Perm (rs.map (renameIRule f g)) := by
  unfold id3Fit id3FitWith at h ⊢
  obtain ⟨cols, hcols, h⟩ := py_bind_eq_ok.1 h
  obtain ⟨cols', h1, h2, h3⟩ := isplitsRel_columns (features := p.features) (f := f) (g := g) rows _ _ hcols
  have hfs : ISplitsRel p.features g (cols.map npUnique) (cols'.map npUnique) := by
    intro i
    rw [List.getElem?_map, List.getElem?_map]
    cases hi : cols[i]? with
    | none =>
      left
      rw [List.getElem?_eq_none_iff] at hi
      exact ⟨rfl, by rw [List.getElem?_eq_none (by omega)]; rfl⟩
    | some c =>
      have hlt := (List.getElem?_eq_some_iff.1 hi).1
      have hi' : cols'[i]? = some (cols'[i]'(by omega)) := List.getElem?_eq_getElem (by omega)
      right
      refine ⟨npUnique c, npUnique (cols'[i]'(by omega)), rfl, by rw [hi']; rfl, npUnique_nodup c, ?_⟩
      have hz : (cols.zip cols')[i]? = some (c, cols'[i]'(by omega)) := by
        rw [List.getElem?_zip_eq_some]; exact ⟨hi, hi'⟩
      have hil : i < (List.range p.features.length).length := by
        rw [h2.length_eq, List.length_zip]; omega
      have hri : (List.range p.features.length)[i]? = some i := by
        rw [List.length_range] at hil
        rw [List.getElem?_range hil]
      have := (List.forall₂_iff_get.1 h2).2 i hil (List.getElem?_eq_some_iff.1 hz).1
      simp only [List.get_eq_getElem] at this
      rw [(List.getElem?_eq_some_iff.1 hz).2, (List.getElem?_eq_some_iff.1 hri).2] at this
      simp only at this
      rw [this]
      exact npUnique_rename (hg _) c
  have hne : rows ≠ [] := by
    rintro rfl
    have hcc : classCounts ordC ([] : IRows V C) = [] := by
      unfold classCounts
      have := hC []
      simp only [List.dedup_nil, List.perm_nil] at this
      rw [List.map_nil, this]; rfl
    simp only [id3PartialFit, hcc, pyMax] at h
    cases h
  obtain ⟨t', k1, k2⟩ := id3PartialFit_rename hf hg hC ho H ordF p hfs (npUnique (rows.map Prod.snd))
    (npUnique ((renameTable p.features f g rows).map Prod.snd)) (p.maxDepth + 1) rows .fresh t .fresh 0 [] hne rfl h
  have hlenr : ∀ x, (renameRow p.features g x).length = x.length := fun x => by unfold renameRow; rw [List.length_mapIdx]
  have hpred : ∀ X, id3Predict t' (X.map (renameRow p.features g)) = (id3Predict t X).map (List.map (renamePred f)) := by
    intro X
    unfold id3Predict
    rw [checkArray_map _ hlenr]
    cases checkArray X with
    | error e => rfl
    | ok u =>
      simp only [py_bind_ok]
      induction X with
      | nil => rfl
      | cons x X ih =>
        simp only [List.map_cons, List.mapM_cons]
        rw [k2.predict x, ih]
        cases t.predict x with
        | error e => rfl
        | ok c =>
          simp only [Except.map, py_bind_ok]
          cases (X.mapM (fun x => t.predict x) : Py (List (IPred C))) <;> rfl
  refine ⟨t', by rw [h1, py_bind_ok]; exact k1, hpred, ?_, ?_⟩
  · intro Z
    unfold id3Score
    have e1 : (renameTable p.features f g Z).map Prod.fst = (Z.map Prod.fst).map (renameRow p.features g) := by
      unfold renameTable; rw [List.map_map, List.map_map]; rfl
    have e2 : (renameTable p.features f g Z).length = Z.length := by unfold renameTable; rw [List.length_map]
    rw [e1, checkArray_map _ hlenr, hpred, labels_rename, e2]
    cases checkArray (Z.map Prod.fst) with
    | error e => rfl
    | ok u =>
      simp only [py_bind_ok]
      cases id3Predict t (Z.map Prod.fst) with
      | error e => rfl
      | ok ps =>
        simp only [Except.map, py_bind_ok]
        congr 2
        rw [List.zip_map, List.countP_map]
        apply List.countP_congr
        intro q _
        simp only [Function.comp, Prod.map, decide_eq_true_eq]
        exact renamePred_eq_iff hf q.1 q.2
  · obtain ⟨rs, rs', e1, e2, e3⟩ := k2.rules []
    refine ⟨rs.map (fun q => ⟨q.1, q.2, 1⟩), rs'.map (fun q => ⟨q.1, q.2, 1⟩), ?_, ?_, ?_⟩
    · unfold INode.toRules; rw [e1]; rfl
    · unfold INode.toRules; rw [List.map_nil] at e2; rw [e2]; rfl
    · refine (e3.map _).trans ?_
      rw [List.map_map, List.map_map]
      exact .of_eq (List.map_congr_left (fun q _ => rfl))

end
/-- the table of the ID3 example with all values and classes negated (so that their order is reversed): the hypotheses hold, the tree is not
a leaf. -/
example : Function.Injective (fun c : Nat => -(c : Int)) ∧ Spec.IsSetListing (List.dedup : List Nat → List Nat) ∧
    (∀ l : List Nat, (l.map (fun c : Nat => -(c : Int))).dedup = l.dedup.map (fun c : Nat => -(c : Int))) ∧
    (id3Fit ID3Ex.gini List.dedup id { ID3Ex.p with prunning := false } .fresh ID3Ex.rows).toOption.map INode.isLeaf = some false := by
  have hinj : Function.Injective (fun c : Nat => -(c : Int)) := by intro a b h; simpa using h
  exact ⟨hinj, ID3Ex.arr_dedup, fun l => List.dedup_map_of_injective hinj l, by decide +kernel⟩

end Teacher
