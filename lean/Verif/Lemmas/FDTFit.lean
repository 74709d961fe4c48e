import Verif.Lemmas.FDT
import Verif.Props.FuzzyVars
import Mathlib.Algebra.Order.BigOperators.Group.List
import Mathlib.Algebra.BigOperators.Group.List.Basic

/-! Lemmas on FDT fitting: shape of the grown tree. -/

set_option linter.unusedSectionVars false

namespace Teacher
open Spec

/-! ### np.unique -/

section
variable {α : Type} [LinearOrder α]

theorem mem_npUnique (l : List α) (a : α) : a ∈ npUnique l ↔ a ∈ l := by
  unfold npUnique
  rw [List.mem_insertionSort, List.mem_dedup]

theorem npUnique_pairwise (l : List α) : (npUnique l).Pairwise (· < ·) := by
  unfold npUnique
  have h1 : (l.dedup.insertionSort (· ≤ ·)).Pairwise (· ≤ ·) := List.pairwise_insertionSort _ _
  have h2 : (l.dedup.insertionSort (· ≤ ·)).Nodup :=
    (List.perm_insertionSort _ _).nodup_iff.2 (List.nodup_dedup l)
  exact (h1.and h2).imp (fun h => lt_of_le_of_ne h.1 h.2)

theorem npUnique_nodup (l : List α) : (npUnique l).Nodup := (npUnique_pairwise l).imp (fun h => h.ne)

theorem npUnique_eq_nil (l : List α) : npUnique l = [] ↔ l = [] := by
  constructor
  · intro h
    cases l with
    | nil => rfl
    | cons a l =>
      have : a ∈ npUnique (a :: l) := (mem_npUnique _ _).2 (by simp)
      rw [h] at this; simp at this
  · rintro rfl; rfl
end

variable {C K : Type} [Field K] [LinearOrder K] [IsStrictOrderedRing K] [LinearOrder C]

/-! ### leaves -/

theorem sum_ite_eq_filter (mu : List K) (y : List C) (c : C) :
    ((mu.zip y).map (fun p => if p.2 = c then p.1 else 0)).sum =
      (((mu.zip y).filter (fun q => q.2 = c)).map Prod.fst).sum := by
  induction mu.zip y with
  | nil => rfl
  | cons p l ih =>
    by_cases h : p.2 = c
    · simp [h, ih]
    · simp [h, ih]

theorem classValueOf_ok_of_ne {mu : List K} (h : mu.sum ≠ 0) (y : List C) :
    classValueOf mu y = .ok ((npUnique y).map (fun c => (c, classShare mu y c))) := by
  unfold classValueOf
  apply mapM_ok_of_forall
  intro c _
  simp only [npDiv, h, if_false, py_bind_ok, py_pure, classShare, sum_ite_eq_filter]

theorem classValueOf_ok {mu : List K} {y : List C} (hy : y ≠ []) {cv : Dict C K} (h : classValueOf mu y = .ok cv) :
    mu.sum ≠ 0 ∧ IsDistribution mu y cv := by
  have hne : mu.sum ≠ 0 := by
    intro h0
    unfold classValueOf at h
    rw [mapM_ok_iff] at h
    have hu : npUnique y ≠ [] := fun e => hy ((npUnique_eq_nil y).1 e)
    obtain ⟨c, hc⟩ := List.exists_mem_of_ne_nil _ hu
    obtain ⟨b, -, hb⟩ := forall₂_mem_left h c hc
    simp [npDiv, h0] at hb
  refine ⟨hne, ?_⟩
  rw [classValueOf_ok_of_ne hne] at h
  cases h
  refine ⟨?_, ?_, ?_⟩
  · simpa [List.map_map, Function.comp_def] using npUnique_pairwise y
  · intro c; simp [List.map_map, Function.comp_def, mem_npUnique]
  · intro kv hkv
    obtain ⟨c, -, rfl⟩ := List.mem_map.1 hkv
    rfl

theorem sum_filter_classes (l : List (K × C)) (cs : List C) (hnd : cs.Nodup) (hcov : ∀ q ∈ l, q.2 ∈ cs) :
    (cs.map (fun c => ((l.filter (fun q => q.2 = c)).map Prod.fst).sum)).sum = (l.map Prod.fst).sum := by
  induction l with
  | nil => simp
  | cons q l ih =>
    have ih' := ih (fun q hq => hcov q (by simp [hq]))
    have hq := hcov q (by simp)
    have : ∀ cs : List C, cs.Nodup →
        (cs.map (fun c => (((q :: l).filter (fun q => q.2 = c)).map Prod.fst).sum)).sum =
        (if q.2 ∈ cs then q.1 else 0) + (cs.map (fun c => ((l.filter (fun q => q.2 = c)).map Prod.fst).sum)).sum := by
      intro cs
      induction cs with
      | nil => simp
      | cons c cs ihc =>
        intro hn
        rw [List.nodup_cons] at hn
        rw [List.map_cons, List.sum_cons, ihc hn.2, List.map_cons, List.sum_cons]
        by_cases h : q.2 = c
        · have : q.2 ∉ cs := by rw [h]; exact hn.1
          simp [h, hn.1]; ring
        · simp [h]; ring
    rw [this cs hnd, if_pos hq, ih']
    simp

theorem Spec.IsDistribution.sum_one {mu : List K} {y : List C} {cv : Dict C K} (h : IsDistribution mu y cv)
    (hlen : mu.length = y.length) (hne : mu.sum ≠ 0) : (cv.map Prod.snd).sum = 1 := by
  obtain ⟨h1, h2, h3⟩ := h
  have e : cv.map Prod.snd = (cv.map Prod.fst).map (fun c => classShare mu y c) := by
    rw [List.map_map]
    apply List.map_congr_left
    intro kv hkv
    exact h3 kv hkv
  rw [e]
  unfold classShare
  have e2 : ((cv.map Prod.fst).map (fun c => (((mu.zip y).filter (fun q => q.2 = c)).map Prod.fst).sum / mu.sum)).sum =
      ((cv.map Prod.fst).map (fun c => (((mu.zip y).filter (fun q => q.2 = c)).map Prod.fst).sum)).sum / mu.sum := by
    induction cv.map Prod.fst with
    | nil => simp
    | cons c l ih => rw [List.map_cons, List.sum_cons, ih, List.map_cons, List.sum_cons, add_div]
  rw [e2, sum_filter_classes _ _ (h1.imp (fun h => h.ne)), List.map_fst_zip (by omega), div_self hne]
  intro q hq
  exact (h2 q.2).2 (List.of_mem_zip hq).2

theorem Spec.IsDistribution.range {mu : List K} {y : List C} {cv : Dict C K} (h : IsDistribution mu y cv)
    (hlen : mu.length = y.length) (hnn : ∀ m ∈ mu, 0 ≤ m) (hne : mu.sum ≠ 0) :
    ∀ kv ∈ cv, 0 ≤ kv.2 ∧ kv.2 ≤ 1 := by
  have hs : 0 ≤ mu.sum := List.sum_nonneg hnn
  have h0 : ∀ kv ∈ cv, 0 ≤ kv.2 := by
    intro kv hkv
    rw [h.2.2 kv hkv]
    refine div_nonneg (List.sum_nonneg ?_) hs
    intro x hx
    obtain ⟨q, hq, rfl⟩ := List.mem_map.1 hx
    exact hnn _ (List.of_mem_zip (List.mem_filter.1 hq).1).1
  intro kv hkv
  refine ⟨h0 kv hkv, ?_⟩
  rw [← h.sum_one hlen hne]
  apply List.single_le_sum
  · intro x hx
    obtain ⟨kv', h', rfl⟩ := List.mem_map.1 hx
    exact h0 kv' h'
  · exact List.mem_map_of_mem hkv

/-! ### best feature -/

theorem maxGainFrom_ok {ent : List K → List C → K} {Xm : Dict String (Dict String (List K))} {y : List C} {mu : List K}
    {best : String × K × Dict String (List K)} {fs : List String} {r : String × K × Dict String (List K)}
    (h : maxGainFrom ent Xm y mu best fs = .ok r) :
    r = best ∨ (best.2.1 < r.2.1 ∧ r.1 ∈ fs ∧ ∃ d, Dict.get? Xm r.1 = some d ∧ r.2.2 = childMus mu d) := by
  induction fs generalizing best with
  | nil => simp only [maxGainFrom, Except.ok.injEq] at h; exact .inl h.symm
  | cons f fs ih =>
    simp only [maxGainFrom] at h
    rw [py_bind_eq_ok] at h
    obtain ⟨d, hd, h⟩ := h
    rw [py_bind_eq_ok] at h
    obtain ⟨g, hg, h⟩ := h
    split at h <;> rename_i hlt
    · rcases ih h with e | ⟨h1, h2, h3⟩
      · refine .inr ⟨by rw [e]; exact hlt, by rw [e]; simp, d, ?_⟩
        rw [e]; exact ⟨Dict.get_eq_ok_iff.1 hd, rfl⟩
      · exact .inr ⟨lt_trans hlt h1, by simp [h2], h3⟩
    · rcases ih h with e | ⟨h1, h2, h3⟩
      · exact .inl e
      · exact .inr ⟨h1, by simp [h2], h3⟩

theorem getMaxFGain_ok {ent : List K → List C → K} {Xm : Dict String (Dict String (List K))} {y : List C} {mu : List K}
    {fs : List String} {att : String} {gain : K} {cm : Dict String (List K)}
    (h : getMaxFGain ent Xm y mu fs = .ok (att, gain, cm)) :
    (att = "" ∧ gain = 0 ∧ cm = []) ∨
      (0 < gain ∧ att ∈ fs ∧ ∃ d, Dict.get? Xm att = some d ∧ cm = childMus mu d) := by
  rcases maxGainFrom_ok h with e | ⟨h1, h2, h3⟩
  · cases e; exact .inl ⟨rfl, rfl, rfl⟩
  · exact .inr ⟨h1, h2, h3⟩

theorem maxGainFrom_exists (ent : List K → List C → K) (Xm : Dict String (Dict String (List K))) (y : List C) (mu : List K)
    (best : String × K × Dict String (List K)) (fs : List String) (hmu : mu.sum ≠ 0)
    (h : ∀ f ∈ fs, ∃ d, Dict.get? Xm f = some d) : ∃ r, maxGainFrom ent Xm y mu best fs = .ok r := by
  induction fs generalizing best with
  | nil => exact ⟨best, rfl⟩
  | cons f fs ih =>
    obtain ⟨d, hd⟩ := h f (by simp)
    simp only [maxGainFrom]
    rw [Dict.get_eq_ok_iff.2 hd, py_bind_ok]
    simp only [fGain, npDiv, hmu, if_false, py_bind_ok, py_pure]
    exact ih _ (fun f hf => h f (by simp [hf]))

theorem get?_childMus (mu : List K) (d : Dict String (List K)) (k : String) :
    Dict.get? (childMus mu d) k = (Dict.get? d k).map (List.zipWith min mu) := by
  induction d with
  | nil => rfl
  | cons p d ih =>
    unfold childMus at ih ⊢
    rw [List.map_cons, Dict.get?_cons, Dict.get?_cons, ih]
    split <;> rfl

/-! ### the grown tree -/

/-- conditions on a child of a split on `att` with memberships `s` in set number `i`. -/
def ChildTest (p : FDTParams K) (feats : List String) (att : String) (i : Nat) (c : FNode C K) : Prop :=
  att ∈ feats ∧ ∃ fi var, Dict.get? (featuresDict p.vars) att = some fi ∧ p.vars[fi]? = some var ∧
    c.test = some ⟨var, fi, i⟩

mutual
/-- shape of the result of `partialFit` on a childless node with memberships `mu`. -/
def Grown (p : FDTParams K) (Xm : Dict String (Dict String (List K))) (y : List C) (mu : List K) (feats : List String)
    (depth : Nat) : FNode C K → Prop
  | .mk _ level m isLeaf cv children => level = depth ∧ m = mu ∧
    ((isLeaf = true ∧ ∃ cv', cv = some cv' ∧ classValueOf mu y = .ok cv') ∨
     (isLeaf = false ∧ depth < p.maxDepth ∧ ∃ att sets, Dict.get? Xm att = some sets ∧
        GrownList p Xm y mu feats depth att 0 sets children))
/-- `Grown` for the children of a split from set number `i` on. -/
def GrownList (p : FDTParams K) (Xm : Dict String (Dict String (List K))) (y : List C) (mu : List K) (feats : List String)
    (depth : Nat) (att : String) (i : Nat) (sets : Dict String (List K)) : List (FNode C K) → Prop
  | [] => sets = []
  | c :: cs => ∃ s sets', sets = s :: sets' ∧ ChildTest p feats att i c ∧
    ((0 < (List.zipWith min mu s.2).sum ∧
        Grown p Xm y (List.zipWith min mu s.2) (feats.erase att) (depth + 1) c) ∨
     (¬ 0 < (List.zipWith min mu s.2).sum ∧ c.isLeaf = true ∧ c.mu = List.zipWith min mu s.2 ∧
        ∃ cv, classValueOf mu y = .ok cv ∧ c.classValue = some cv)) ∧
    GrownList p Xm y mu feats depth att (i + 1) sets' cs
end

theorem fitChildren_grown {p : FDTParams K} {Xm : Dict String (Dict String (List K))} {y : List C} {mu : List K}
    {feats : List String} {depth : Nat} {att : String} {rec : FNode C K → Py (FNode C K)}
    (hrec : ∀ c t, rec c = .ok t → c.children = [] →
      Grown p Xm y c.mu (feats.erase att) (depth + 1) t ∧ t.test = c.test)
    {childMu : Dict String (List K)} (sets : Dict String (List K))
    (hcm : ∀ s ∈ sets, ∀ m, Dict.get? childMu s.1 = some m → m = List.zipWith min mu s.2) (i : Nat) (cs : List (FNode C K))
    (h : fitChildren rec p y mu att childMu feats i (Dict.keys sets) = .ok cs) :
    GrownList p Xm y mu feats depth att i sets cs := by
  induction sets generalizing i cs with
  | nil =>
    simp only [Dict.keys, List.map_nil, fitChildren, Except.ok.injEq] at h
    subst h
    simp [GrownList]
  | cons s sets ih =>
    simp only [Dict.keys, List.map_cons, fitChildren] at h
    split at h
    · cases h
    · rename_i hatt
      rw [py_bind_eq_ok] at h
      obtain ⟨fi, hfi, h⟩ := h
      rw [py_bind_eq_ok] at h
      obtain ⟨var, hvar, h⟩ := h
      rw [py_bind_eq_ok] at h
      obtain ⟨cmu, hcmu, h⟩ := h
      rw [py_bind_eq_ok] at h
      obtain ⟨c, hc, h⟩ := h
      rw [py_bind_eq_ok] at h
      obtain ⟨rest, hrest, h⟩ := h
      cases h
      have hv : p.vars[fi]? = some var := by
        cases hg : p.vars[fi]? with
        | none => rw [hg] at hvar; simp at hvar
        | some v => rw [hg] at hvar; simp at hvar; rw [hvar]
      have hmu := hcm s (by simp) cmu (Dict.get_eq_ok_iff.1 hcmu)
      subst hmu
      have hfi' := Dict.get_eq_ok_iff.1 hfi
      simp only [GrownList]
      refine ⟨s, sets, rfl, ?_, ?_, ih (fun s hs => hcm s (by simp [hs])) _ _ hrest⟩
      · refine ⟨not_not.1 hatt, fi, var, hfi', hv, ?_⟩
        unfold fitChild at hc
        split at hc
        · exact (hrec _ _ hc rfl).2
        · rw [py_bind_eq_ok] at hc
          obtain ⟨cv, hcv, hc⟩ := hc
          cases hc
          rfl
      · unfold fitChild at hc
        split at hc <;> rename_i hpos
        · exact .inl ⟨hpos, (hrec _ _ hc rfl).1⟩
        · rw [py_bind_eq_ok] at hc
          obtain ⟨cv, hcv, hc⟩ := hc
          cases hc
          exact .inr ⟨hpos, rfl, rfl, cv, hcv, rfl⟩

theorem partialFit_grown {ent : List K → List C → K} {ord : List String → List String} {p : FDTParams K}
    {Xm : Dict String (Dict String (List K))} {y : List C}
    (hnd : ∀ f d, Dict.get? Xm f = some d → (Dict.keys d).Nodup)
    (fuel : Nat) : ∀ (current : FNode C K) (feats : List String) (depth : Nat) (t : FNode C K),
    partialFit ent ord p Xm y fuel current feats depth = .ok t → current.children = [] →
      Grown p Xm y current.mu feats depth t ∧ t.test = current.test := by
  induction fuel with
  | zero => intro _ _ _ _ h; cases h
  | succ fuel ih =>
    intro current feats depth t h hch
    simp only [partialFit] at h
    rw [py_bind_eq_ok] at h
    obtain ⟨⟨att, gain, cm⟩, hg, h⟩ := h
    simp only at h
    split at h <;> rename_i hstop
    · rw [py_bind_eq_ok] at h
      obtain ⟨cv, hcv, h⟩ := h
      cases h
      exact ⟨⟨rfl, rfl, .inl ⟨rfl, cv, rfl, hcv⟩⟩, rfl⟩
    · rw [py_bind_eq_ok] at h
      obtain ⟨sets, hsets, h⟩ := h
      rw [py_bind_eq_ok] at h
      obtain ⟨cs, hcs, h⟩ := h
      cases h
      have hsets' := Dict.get_eq_ok_iff.1 hsets
      have hd : depth < p.maxDepth := by
        by_contra hc
        apply hstop
        simp only [stopMet, Bool.or_eq_true, decide_eq_true_eq]
        exact .inl (.inr (not_lt.1 hc))
      refine ⟨⟨rfl, rfl, .inr ⟨rfl, hd, att, sets, hsets', ?_⟩⟩, rfl⟩
      rw [hch, List.nil_append]
      refine fitChildren_grown (fun c t hc hcc => ih c _ _ t hc hcc) sets ?_ 0 cs hcs
      intro s hs m hm
      rcases getMaxFGain_ok hg with ⟨-, -, rfl⟩ | ⟨-, -, d, hd', rfl⟩
      · simp [Dict.get?] at hm
      · rw [hsets'] at hd'
        cases hd'
        rw [get?_childMus, Dict.get?_of_mem_nodup (hnd _ _ hsets') (v := s.2) (by simpa using hs)] at hm
        simpa using hm.symm

/-! ### membership tables -/

theorem FVar.membership_nodup {v : FVar K} {col : List (Cell K)} {d : Dict String (List K)} (h : v.membership col = .ok d) :
    (Dict.keys d).Nodup := by
  unfold FVar.membership at h
  rw [py_bind_eq_ok] at h
  obtain ⟨ps, -, h⟩ := h
  cases h
  exact Dict.nodup_keys_ofPairs ps

theorem FVar.membership_entries {v : FVar K} {col : List (Cell K)} {d : Dict String (List K)} (h : v.membership col = .ok d)
    (s : String × List K) (hs : s ∈ d) : ∃ fs ∈ v.sets, fs.name = s.1 ∧ fs.membership col = .ok s.2 := by
  have hnd := FVar.membership_nodup h
  unfold FVar.membership at h
  rw [py_bind_eq_ok] at h
  obtain ⟨ps, hps, h⟩ := h
  cases h
  have hg := Dict.get?_of_mem_nodup hnd (k := s.1) (v := s.2) (by simpa using hs)
  unfold Dict.ofPairs at hg
  rw [Dict.foldl_set_get?] at hg
  split at hg
  · rename_i q hq
    have hm := List.mem_of_find?_eq_some hq
    have he := List.find?_some hq
    simp only [decide_eq_true_eq] at he
    rw [List.mem_reverse] at hm
    rw [mapM_ok_iff] at hps
    obtain ⟨fs, hfs, hf⟩ := forall₂_mem_right hps q hm
    rw [py_bind_eq_ok] at hf
    obtain ⟨m, hm', hf⟩ := hf
    cases hf
    refine ⟨fs, hfs, he, ?_⟩
    simp only [Option.some.injEq] at hg
    rw [hm', hg]
  · simp at hg

/-- `featuresDict` and `datasetMembership` resolve a name to the same variable. -/
theorem datasetMembershipFrom_lookup (vars : List (FVar K)) (X : List (List (Cell K))) (vs : List (FVar K)) (i : Nat)
    (hvs : ∀ k v, vs[k]? = some v → vars[i + k]? = some v)
    (acc D : Dict String (Dict String (List K))) (facc : Dict String Nat)
    (hacc : ∀ k, (Dict.get? acc k = none ∧ Dict.get? facc k = none) ∨ ∃ j v col d, Dict.get? facc k = some j ∧ vars[j]? = some v ∧
      v.name = k ∧ column X j = .ok col ∧ v.membership col = .ok d ∧ Dict.get? acc k = some d)
    (h : datasetMembershipFrom X i acc vs = .ok D) (k : String) :
    (Dict.get? D k = none ∧
      Dict.get? (((vs.zipIdx i).map (fun p => (p.1.name, p.2))).foldl (fun d p => Dict.set d p.1 p.2) facc) k = none) ∨
    ∃ j v col d, Dict.get? (((vs.zipIdx i).map (fun p => (p.1.name, p.2))).foldl (fun d p => Dict.set d p.1 p.2) facc) k
        = some j ∧ vars[j]? = some v ∧
      v.name = k ∧ column X j = .ok col ∧ v.membership col = .ok d ∧ Dict.get? D k = some d := by
  induction vs generalizing i acc facc with
  | nil =>
    simp only [datasetMembershipFrom, Except.ok.injEq] at h
    subst h
    exact hacc k
  | cons v vs ih =>
    simp only [datasetMembershipFrom] at h
    rw [py_bind_eq_ok] at h
    obtain ⟨col, hcol, h⟩ := h
    rw [py_bind_eq_ok] at h
    obtain ⟨d, hd, h⟩ := h
    simp only [List.zipIdx_cons, List.map_cons, List.foldl_cons]
    refine ih (i + 1) ?_ _ _ ?_ h
    · intro k w hw
      have := hvs (k + 1) w (by simpa using hw)
      rw [← this]; congr 1; omega
    · intro k
      rw [Dict.get?_set, Dict.get?_set]
      by_cases e : v.name = k
      · right
        rw [if_pos e, if_pos e]
        exact ⟨i, v, col, d, rfl, by simpa using hvs 0 v (by simp), e, hcol, hd, rfl⟩
      · rw [if_neg e, if_neg e]
        exact hacc k

theorem datasetMembership_lookup {X : List (List (Cell K))} {vars : List (FVar K)} {D : Dict String (Dict String (List K))}
    (h : datasetMembership X vars = .ok D) (k : String) :
    (Dict.get? D k = none ∧ Dict.get? (featuresDict vars) k = none) ∨
    ∃ j v col d, Dict.get? (featuresDict vars) k = some j ∧ vars[j]? = some v ∧
      v.name = k ∧ column X j = .ok col ∧ v.membership col = .ok d ∧ Dict.get? D k = some d := by
  have hR : Rectangular X := by
    by_contra hc
    rw [(datasetMembership_eq X vars).2 hc] at h
    cases h
  rw [(datasetMembership_eq X vars).1 hR] at h
  exact datasetMembershipFrom_lookup vars X vars 0 (by simp) [] D [] (fun k => .inl ⟨rfl, rfl⟩) h k

theorem mem_keys_featuresDict (vars : List (FVar K)) (k : String) :
    k ∈ Dict.keys (featuresDict vars) ↔ k ∈ vars.map FVar.name := by
  unfold featuresDict
  rw [Dict.mem_keys_ofPairs, List.map_map]
  have : (Prod.fst ∘ fun p : FVar K × Nat => (p.1.name, p.2)) = FVar.name ∘ Prod.fst := rfl
  rw [this, ← List.map_map, List.zipIdx_map_fst]

theorem column_length {α : Type} {X : List (List α)} {i : Nat} {col : List α} (h : column X i = .ok col) :
    col.length = X.length := by
  unfold column at h
  rw [mapM_ok_iff] at h
  exact h.length_eq.symm

end Teacher
