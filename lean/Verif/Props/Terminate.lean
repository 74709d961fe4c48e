import Verif.Props.FDTFit
import Verif.Props.FBDTFit
import Verif.Props.ID3Fit
import Verif.Props.Cuts

/-! # C12, C32, C46: training and discretisation stop on every input, also when they fail -/

set_option linter.unusedSectionVars false

namespace Teacher

variable {C V K : Type} [Field K] [LinearOrder K] [IsStrictOrderedRing K]

section fdt
variable [LinearOrder C]

theorem noFuel_maxGainFrom (ent : List K → List C → K) (Xm : Dict String (Dict String (List K))) (y : List C) (mu : List K) (fs : List String) :
    ∀ best, maxGainFrom ent Xm y mu best fs ≠ .error .fuel := by
  induction fs with
  | nil => intro best; simp [maxGainFrom]
  | cons f fs ih =>
    intro best
    rw [maxGainFrom]
    refine noFuel_bind (noFuel_get _ _) (fun d => noFuel_bind ?_ (fun g => ih _))
    unfold fGain
    exact noFuel_bind (noFuel_npDiv _ _) (fun _ => by simp)

theorem noFuel_fitChildren (rec : FNode C K → Py (FNode C K)) (p : FDTParams K) (y : List C) (mu : List K) (att : String)
    (childMu : Dict String (List K)) (features : List String) (hrec : att ∈ features → ∀ c, rec c ≠ .error .fuel) (values : List String) :
    ∀ i, fitChildren rec p y mu att childMu features i values ≠ .error .fuel := by
  induction values with
  | nil => intro i; simp [fitChildren]
  | cons v vs ih =>
    intro i
    rw [fitChildren]
    split
    · simp
    · rename_i hatt
      refine noFuel_bind (noFuel_get _ _) (fun fi => noFuel_bind ?_ (fun var => noFuel_bind (noFuel_get _ _) (fun cmu => noFuel_bind ?_ (fun c =>
        noFuel_bind (ih _) (fun _ => by simp)))))
      · split <;> simp
      · unfold fitChild
        split
        · exact hrec (not_not.1 hatt) _
        · exact noFuel_bind (noFuel_classValueOf _ _) (fun _ => by simp)

theorem noFuel_partialFit (ent : List K → List C → K) (ord : List String → List String) (p : FDTParams K)
    (Xm : Dict String (Dict String (List K))) (y : List C) (fuel : Nat) :
    ∀ (cur : FNode C K) (features : List String) (depth : Nat), features.length < fuel →
      partialFit ent ord p Xm y fuel cur features depth ≠ .error .fuel := by
  induction fuel with
  | zero => intro _ _ _ h; omega
  | succ fuel ih =>
    intro cur features depth h
    rw [partialFit.eq_def]
    simp only
    refine noFuel_bind (noFuel_maxGainFrom _ _ _ _ _ _) ?_
    rintro ⟨att, g, cm⟩
    simp only
    split
    · exact noFuel_bind (noFuel_classValueOf _ _) (fun _ => by simp)
    · refine noFuel_bind (noFuel_get _ _) (fun sets => noFuel_bind (noFuel_fitChildren _ _ _ _ _ _ _ (fun hatt c => ih _ _ _ ?_) _ _)
        (fun _ => by simp))
      rw [List.length_erase_of_mem hatt]
      have := List.length_pos_of_mem hatt
      omega

/-- **C32**: `FDT.fit` terminates on every input, also when it fails, for any parameters: the recursion is never deeper than the number of
features plus one (the model, which is given that many calls, never stops for lack of them). -/
theorem C32_terminates (ent : List K → List C → K) (ord : List String → List String) (p : FDTParams K) (root : FNode C K)
    (X : List (List (Cell K))) (y : List C) : fdtFit ent ord p root X y ≠ .error .fuel := by
  unfold fdtFit
  refine noFuel_bind ?_ (fun _ => ?_)
  · unfold checkArray
    split
    · simp
    · split <;> simp
  · split
    · simp
    · exact noFuel_bind (noFuel_membership _ _) (fun Xm => noFuel_partialFit _ _ _ _ _ _ _ _ _ (Nat.lt_succ_self _))

end fdt

section id3

theorem noFuel_id3Best (gain : List V → List C → List V → K) (features : List String) (fsp : List (List V)) (rows : IRows V C)
    (fts : List String) : ∀ best, id3Best gain features fsp rows best fts ≠ .error .fuel := by
  induction fts with
  | nil => intro best; simp [id3Best]
  | cons f fts ih =>
    intro best
    rw [id3Best]
    refine noFuel_bind (noFuel_get _ _) (fun i => noFuel_bind ?_ (fun c => noFuel_bind ?_ (fun s => ih _)))
    · exact noFuel_mapM _ (fun r => by split <;> simp)
    · split <;> simp

theorem noFuel_id3PartialFit [DecidableEq V] [DecidableEq C] (gain : List V → List C → List V → K) (ordC : List C → List C)
    (ordF : List String → List String) (p : ID3Params K) (fsp : List (List V)) (yc : List C) (fuel : Nat) :
    ∀ (rows : IRows V C) (t : INode V C K) (depth : Nat) (er : List String), p.maxDepth < fuel + depth → depth ≤ p.maxDepth →
      id3PartialFit gain ordC ordF p fsp yc fuel rows t depth er ≠ .error .fuel := by
  induction fuel with
  | zero => intro _ _ _ _ h h'; omega
  | succ fuel ih =>
    intro rows t depth er h hd
    rw [id3PartialFit.eq_def]
    simp only
    split
    · split <;> simp
    · split
      · simp
      · split
        · simp
        · refine noFuel_bind (noFuel_id3Best _ _ _ _ _ _) (fun best => noFuel_bind ?_ (fun name => noFuel_bind (noFuel_mapM _ (fun s => ?_))
            (fun cs => ?_)))
          · unfold erasedName
            split <;> simp
          · unfold id3Child
            simp only
            split
            · exact noFuel_bind (ih _ _ _ _ (by omega) (by omega)) (fun _ => by simp)
            · simp
          · unfold id3Prune
            split
            · split
              · simp
              · split <;> simp
            · simp

/-- **C46**: `ID3.fit` terminates on every input, also when it fails: the recursion is never deeper than `max_depth` plus one. -/
theorem C46_terminates [LinearOrder V] [LinearOrder C] (gain : List V → List C → List V → K) (ordC : List C → List C)
    (ordF : List String → List String) (p : ID3Params K) (t : INode V C K) (rows : IRows V C) :
    id3FitWith gain ordC ordF p t rows ≠ .error .fuel := by
  unfold id3FitWith
  refine noFuel_bind (noFuel_mapM _ (fun i => noFuel_mapM _ (fun r => by split <;> simp))) (fun cols => ?_)
  exact noFuel_id3PartialFit _ _ _ _ _ _ _ _ _ _ _ (by omega) (Nat.zero_le _)

end id3

section discretize

theorem noFuel_trimf (a b c : K) (v : List K) : trimf a b c v ≠ .error .fuel := by
  unfold trimf; split <;> simp

theorem noFuel_splitPoint [DecidableEq C] (lg : K → K) (ent : List K → List C → K) (th : Option K) (maxDepth depth : Nat) (v : List K)
    (y : List C) (lo hi : K) : splitPoint lg ent th maxDepth depth v y lo hi ≠ .error .fuel := by
  unfold splitPoint
  refine noFuel_bind ?_ (fun best => noFuel_bind ?_ (fun g => noFuel_bind ?_ (fun t => by simp)))
  · unfold bestPoint
    refine noFuel_foldlM _ (fun s p => ?_) _
    unfold bestPointStep
    split
    · refine noFuel_bind ?_ (fun tri => ?_)
      · unfold triangle3
        exact noFuel_bind (noFuel_trimf _ _ _ _) (fun _ => noFuel_bind (noFuel_trimf _ _ _ _) (fun _ => noFuel_bind (noFuel_trimf _ _ _ _) (fun _ => by simp)))
      · simp only
        split <;> simp
    · simp
  · unfold triangle2
    exact noFuel_bind (noFuel_trimf _ _ _ _) (fun _ => noFuel_bind (noFuel_trimf _ _ _ _) (fun _ => by simp))
  · unfold gainThreshold
    split
    · simp
    · split <;> simp

/-- the point chosen by a split is a value of the column other than its two ends. -/
theorem splitPoint_mem [DecidableEq C] (lg : K → K) (ent : List K → List C → K) (th : Option K) (maxDepth depth : Nat) (v : List K)
    (y : List C) (lo hi p : K) (h : splitPoint lg ent th maxDepth depth v y lo hi = .ok (some p)) : p ∈ v ∧ p ≠ lo ∧ p ≠ hi := by
  unfold splitPoint at h
  obtain ⟨best, hb, h⟩ := py_bind_eq_ok.1 h
  obtain ⟨g, -, h⟩ := py_bind_eq_ok.1 h
  obtain ⟨t, -, h⟩ := py_bind_eq_ok.1 h
  have hbest : ∀ q, best = some q → q.1 ∈ v ∧ q.1 ≠ lo ∧ q.1 ≠ hi := by
    unfold bestPoint at hb
    have gen : ∀ (l : List K) (s : Option (K × K × List (List K))), (∀ q, s = some q → q.1 ∈ v ∧ q.1 ≠ lo ∧ q.1 ≠ hi) →
        (∀ x ∈ l, x ∈ v) → l.foldlM (bestPointStep ent v y lo hi) s = .ok best → ∀ q, best = some q → q.1 ∈ v ∧ q.1 ≠ lo ∧ q.1 ≠ hi := by
      intro l
      induction l with
      | nil => intro s hs _ hl; cases hl; exact hs
      | cons x l ih =>
        intro s hs hv hl
        rw [List.foldlM_cons] at hl
        obtain ⟨s', hs', hl⟩ := py_bind_eq_ok.1 hl
        refine ih s' ?_ (fun z hz => hv z (by simp [hz])) hl
        intro q hq
        subst hq
        unfold bestPointStep at hs'
        split at hs'
        · rename_i hx
          obtain ⟨tri, -, hs'⟩ := py_bind_eq_ok.1 hs'
          simp only at hs'
          split at hs'
          · cases hs'; exact ⟨hv x (by simp), hx.1, hx.2⟩
          · rename_i p0 w0 t0 _
            have e := Except.ok.inj hs'
            by_cases hw : weightedEntropy ent tri y < w0
            · rw [if_pos hw] at e; cases e; exact ⟨hv x (by simp), hx.1, hx.2⟩
            · rw [if_neg hw] at e; cases e; exact hs _ rfl
        · cases hs'; exact hs _ rfl
    exact gen _ none (by simp) (fun x hx => (mem_npUnique v x).1 hx) hb
  cases best with
  | none => cases h
  | some q =>
    obtain ⟨q1, q2, q3⟩ := q
    have := Except.ok.inj h
    simp only at this
    split at this
    · cases this; exact hbest _ rfl
    · cases this

theorem npMax_mem {v : List K} {m : K} (h : npMax v = .ok m) : m ∈ v ∧ ∀ x ∈ v, x ≤ m := by
  cases v with
  | nil => cases h
  | cons a l =>
    obtain ⟨m', h1, h2⟩ := npMax_ok (v := a :: l) (by simp)
    rw [h] at h1
    cases h1
    exact h2

theorem zip_filter_lt (v : List K) (y : List C) (P : K × C → Bool) (x : K) (hx : x ∈ v) (hP : ∀ c, P (x, c) = false) :
    ((v.zip y).filter P).length < v.length := by
  by_cases h : y.length < v.length
  · have h1 := List.length_filter_le P (v.zip y)
    rw [List.length_zip] at h1
    omega
  · obtain ⟨n, hn, rfl⟩ := List.getElem_of_mem hx
    have hmem : (v[n], y[n]'(by omega)) ∈ v.zip y := by
      refine List.mem_iff_getElem.2 ⟨n, by rw [List.length_zip]; omega, by simp⟩
    have h1 : ((v.zip y).filter P).length < (v.zip y).length := by
      rw [List.length_filter_lt_length_iff_exists]
      exact ⟨_, hmem, by simp [hP]⟩
    rw [List.length_zip] at h1
    omega

theorem noFuel_discretize [DecidableEq C] (lg : K → K) (ent : Bool → List K → List C → K) (th : Option K) (maxDepth : Nat) (fuel : Nat) :
    ∀ (v : List K) (y : List C) (lo : K) (depth : Nat), v.length < fuel → discretize lg ent th maxDepth fuel v y lo depth ≠ .error .fuel := by
  induction fuel with
  | zero => intro _ _ _ _ h; omega
  | succ fuel ih =>
    intro v y lo depth h
    rw [discretize.eq_def]
    simp only
    cases hm : npMax v with
    | error e =>
      cases v with
      | nil => cases hm; simp
      | cons a l => cases hm
    | ok hi =>
      obtain ⟨hmem, hle⟩ := npMax_mem hm
      rw [py_bind_ok]
      cases hs : splitPoint lg (ent (depth != 0)) th maxDepth depth v y lo hi with
      | error e =>
        intro he
        exact noFuel_splitPoint lg (ent (depth != 0)) th maxDepth depth v y lo hi (by rw [hs]; cases he; rfl)
      | ok s =>
        rw [py_bind_ok]
        cases s with
        | none => simp
        | some p =>
          obtain ⟨hp, -, hphi⟩ := splitPoint_mem lg _ th maxDepth depth v y lo hi p hs
          have hlt : p < hi := lt_of_le_of_ne (hle p hp) hphi
          have hb : ∀ (lo : K) (P : K × C → Bool) (x : K), x ∈ v → (∀ c, P (x, c) = false) →
              branchPoints (fun v y => discretize lg ent th maxDepth fuel v y lo (depth + 1)) ((v.zip y).filter P) ≠ .error .fuel := by
            intro lo P x hx hP
            unfold branchPoints
            split
            · refine ih _ _ _ _ ?_
              have := zip_filter_lt v y P x hx hP
              rw [List.length_map]
              omega
            · simp
          refine noFuel_bind (hb lo _ hi hmem (fun c => by simpa using hlt)) (fun l => noFuel_bind (hb p _ p hp (fun c => by simp)) (fun r => by simp))

/-- **C12**: the entropy discretisation terminates on every column and every list of classes (also of another length), for any entropy and
threshold, also when it fails: the recursion is never deeper than the length of the column plus one. -/
theorem C12_terminates [DecidableEq C] (lg : K → K) (ent : Bool → List K → List C → K) (th : Option K) (maxDepth : Nat) (v : List K)
    (y : List C) : entropyPoints lg ent th maxDepth v y ≠ .error .fuel := by
  unfold entropyPoints
  refine noFuel_bind ?_ (fun lo => noFuel_discretize _ _ _ _ _ _ _ _ _ (Nat.lt_succ_self _))
  unfold npMin pyMin
  cases v <;> simp

end discretize

end Teacher
