import Verif.Props.Failures
import Verif.Props.ID3Predict

/-!
# Which exception an invalid argument raises (C135), continued
-/

namespace Teacher
set_option linter.unusedSectionVars false

variable {V C K : Type}

/-! ## loaders -/

section
variable [DecidableEq V]

/-- deleting columns succeeds exactly when they are different columns of the table; otherwise it is a `KeyError`. -/
theorem C135_delete_columns (cs : List String) (df : DF V) :
    ((∃ d, delCols cs df = .ok d) ↔ cs.Nodup ∧ ∀ c ∈ cs, c ∈ Dict.keys df) ∧
    (∀ e, delCols cs df = .error e → e = .keyError) := by
  induction cs generalizing df with
  | nil => simp [delCols]
  | cons c cs ih =>
    unfold delCols
    by_cases hc : c ∈ Dict.keys df
    · rw [if_pos hc]
      obtain ⟨h1, h2⟩ := ih (df.filter (fun p => p.1 ≠ c))
      refine ⟨?_, h2⟩
      rw [h1, List.nodup_cons]
      have hk : ∀ x, x ∈ Dict.keys (df.filter (fun p => p.1 ≠ c)) ↔ x ∈ Dict.keys df ∧ x ≠ c := by
        intro x
        simp only [Dict.keys, List.mem_map, List.mem_filter]
        constructor
        · rintro ⟨p, ⟨hp, hne⟩, rfl⟩
          exact ⟨⟨p, hp, rfl⟩, by simpa using hne⟩
        · rintro ⟨⟨p, hp, rfl⟩, hne⟩
          exact ⟨p, ⟨hp, by simpa using hne⟩, rfl⟩
      simp only [hk]
      constructor
      · rintro ⟨g1, g2⟩
        refine ⟨⟨fun h => (g2 c h).2 rfl, g1⟩, ?_⟩
        intro x hx
        rcases List.mem_cons.1 hx with rfl | hx
        · exact hc
        · exact (g2 x hx).1
      · rintro ⟨⟨g1, g2⟩, g3⟩
        exact ⟨g2, fun x hx => ⟨g3 x (by simp [hx]), fun e => g1 (by rw [← e]; exact hx)⟩⟩
    · rw [if_neg hc]
      refine ⟨⟨fun ⟨d, hd⟩ => (by cases hd), fun ⟨_, h⟩ => absurd (h c (by simp)) hc⟩, fun e he => by cases he; rfl⟩

end

section
variable [Field K] [LinearOrder K] [LinearOrder V]

/-- a loader raises `KeyError` for a file without one of the columns it deletes. -/
theorem C135_loader_columns (ops : CellOps K V) (ord : List String → List String) (scale : List V → List V) (dtype : String → DType) (raw : DF V)
    (del : List String) (className : String) (discrete : List String) (normalize : Bool) (q : V) (mode : List V → Py V) :
    ((∃ c ∈ del, c ∉ Dict.keys raw) → loadClassFirst ops ord scale dtype raw del className normalize = .error .keyError ∧
      loadAsIs ops ord scale dtype raw del className discrete normalize = .error .keyError) ∧
    (("fnlwgt" ∉ Dict.keys raw ∨ "education-num" ∉ Dict.keys raw) → loadAdult ops ord scale dtype q mode raw normalize = .error .keyError) := by
  have key : ∀ del : List String, (∃ c ∈ del, c ∉ Dict.keys raw) → delCols del raw = .error .keyError := by
    rintro del ⟨c, hc, hn⟩
    obtain ⟨h1, h2⟩ := C135_delete_columns del raw
    cases h : delCols del raw with
    | ok d => exact absurd ((h1.1 ⟨d, h⟩).2 c hc) hn
    | error e => rw [h2 e h]
  refine ⟨fun h => ⟨?_, ?_⟩, fun h => ?_⟩
  · unfold loadClassFirst; rw [key del h]; rfl
  · unfold loadAsIs; rw [key del h]; rfl
  · unfold loadAdult
    rw [key]
    · rfl
    · rcases h with h | h
      · exact ⟨_, by simp, h⟩
      · exact ⟨_, by simp, h⟩

end

/-! ## metrics -/

section
variable [Field K] [LinearOrder K]

/-- the metrics of a rule raise `IndexError` on a fuzzy dataset without features, or whose first feature has no sets. -/
theorem C135_empty_fuzzy_dataset [DecidableEq C] (rules : List (Rule String C K)) (ds : FuzzyDS K) (y z : List C) (th : K)
    (h : ds = [] ∨ ∃ f rest, ds = (f, []) :: rest) :
    coverage rules ds th = .error .indexError ∧ precision rules ds y th = .error .indexError ∧
      ruleFidelity y z ds rules th = .error .indexError := by
  have hc : fuzzyCoverage rules ds th = .error .indexError := by
    cases rules with
    | nil => rfl
    | cons r rest =>
      have : coveredInstances r ds th = .error .indexError := by
        rcases h with rfl | ⟨f, rest, rfl⟩ <;> rfl
      simp only [fuzzyCoverage, this]
      rfl
  refine ⟨?_, ?_, ?_⟩
  · unfold coverage; rw [hc]; rfl
  · unfold precision; rw [hc]; rfl
  · unfold ruleFidelity; rw [hc]; rfl

/-- `rule_fidelity` with another number of labels or predictions than the dataset has instances raises `IndexError`. -/
theorem C135_rule_fidelity_lengths [IsStrictOrderedRing K] [DecidableEq C] {ds : FuzzyDS K} {n : Nat} {μ : String → String → Nat → K} (h : Spec.Represents ds n μ)
    (rules : List (Rule String C K)) (hne : rules ≠ []) (hk : Spec.KnowsRules ds rules) (y z : List C) (th : K)
    (hl : y.length ≠ n ∨ z.length ≠ n) : ruleFidelity y z ds rules th = .error .indexError := by
  unfold ruleFidelity
  rw [fuzzyCoverage_ok h rules hne hk]
  simp only [py_bind_ok]
  by_cases hy : y.length = n
  · have hz := hl.resolve_left (fun h => h hy)
    rw [npMask_map y n hy]
    simp only [py_bind_ok]
    unfold npMask
    rw [if_neg (by simpa using hz)]
    rfl
  · unfold npMask
    rw [if_neg (by simpa using hy)]
    rfl

end

/-! ## neighborhoods -/

section
variable [Field K] [LinearOrder K] [IsStrictOrderedRing K]

/-- `fit` of a sampling neighborhood with an unknown generation method raises `KeyError` and leaves the object as it was. -/
theorem C135_unknown_method (d : DsCtx K) (bb : List K → Nat) (inst : List K) (s : NState K)
    (hdec : ∃ dec, d.features.zipIdx.mapM (decodeFeature d inst) = .ok dec) : samplingFit d bb none inst s = (.error .keyError, s) := by
  obtain ⟨dec, hdec⟩ := hdec
  have : fitValues d none inst = .error .keyError := by
    unfold fitValues
    rw [hdec]
    rfl
  unfold samplingFit
  rw [this]

/-- the keyword `instance_membership`, which a sampling neighborhood sets itself, is a `TypeError`, and the object stays as it was. -/
theorem C135_instance_membership (cx : FuzzCtx K) (inst : List (Cell K)) (a : FuzzArgs K) (s : NState K) (b : Bool)
    (h : a.instanceMembership = some b) : samplingFuzzify cx inst a s = (.error .typeError, s) := by
  unfold samplingFuzzify
  rw [if_pos (by rw [h]; simp)]

/-- memberships for a list of variables with a hole: the variables before the hole are evaluated, and if none of them fails reading the hole is an
`AttributeError`. -/
theorem C135_missing_variable (rows : List (List (Cell K))) (pre : List (FVar K)) (post : List (Option (FVar K)))
    (hr : checkArray rows = .ok ()) :
    membershipOpt rows (pre.map some ++ none :: post) = (match datasetMembership rows pre with
      | .ok _ => .error .attributeError
      | .error e => .error e) := by
  have hidx : (pre.map some ++ none :: post).idxOf? none = some pre.length := by
    induction pre with
    | nil => simp [List.idxOf?, List.findIdx?_cons]
    | cons v pre ih =>
      rw [List.map_cons, List.cons_append, List.idxOf?_cons, ih]
      simp
  have htake : ((pre.map some ++ none :: post).take pre.length).filterMap id = pre := by
    rw [List.take_left' (by simp)]
    simp
  unfold membershipOpt
  rw [hr, hidx]
  simp only [py_bind_ok, htake]
  cases datasetMembership rows pre <;> rfl

/-- an instance with more values than there are columns is an `IndexError` of `fuzzify`. -/
theorem C135_long_instance (cx : FuzzCtx K) (inst : List (Cell K)) (a : FuzzArgs K) (s : NState K) (X : Frame K) (y : List Nat) (Xy : Frame K)
    (vars : List (Option (FVar K))) (m : Memb K) (hX : s.X = some X) (hy : s.y = some y) (hXy : s.Xy = some Xy)
    (hv : fuzzyVarsOf cx a X y = .ok vars) (hm : membershipOpt X.rows vars = .ok m) (ha : a.instanceMembership ≠ some false)
    (hl : X.cols.length < inst.length) : (fuzzify cx inst a s).1 = .error .indexError := by
  have ha' : a.instanceMembership.getD true = true := by
    cases h : a.instanceMembership with
    | none => rfl
    | some b => cases b with
      | true => rfl
      | false => exact absurd h ha
  have hi : instanceRow X inst = .error .indexError := by
    unfold instanceRow
    rw [if_pos hl]
  unfold fuzzify
  simp only [hX, hy, hXy, hv, hm, ha', if_true, hi]

/-- a list of calls raises the exception of the first one that fails. -/
theorem mapM_error_first {α β : Type} (f : α → Py β) (pre : List α) (c : α) (post : List α) (e : PyErr) (hpre : ∀ a ∈ pre, ∃ b, f a = .ok b)
    (hc : f c = .error e) : (pre ++ c :: post).mapM f = .error e := by
  induction pre with
  | nil =>
    rw [List.nil_append, List.mapM_cons, hc]
    rfl
  | cons a pre ih =>
    obtain ⟨b, hb⟩ := hpre a (by simp)
    rw [List.cons_append, List.mapM_cons, hb, ih (fun x hx => hpre x (by simp [hx]))]
    rfl

/-- a numeric column that the data does not have is a `KeyError` of `fuzzify` (when the columns named before it are columns of numbers), and the
object stays as it was. -/
theorem C135_unknown_column (cx : FuzzCtx K) (inst : List (Cell K)) (a : FuzzArgs K) (s : NState K) (X Xy : Frame K) (y : List Nat)
    (pre post cats : List String) (c : String) (hX : s.X = some X) (hy : s.y = some y) (hXy : s.Xy = some Xy)
    (hn : a.numCols = some (pre ++ c :: post)) (hc : a.catCols = some cats) (hsets : a.sets ≠ none)
    (hpre : ∀ c' ∈ pre, ∃ v, X.numCol c' = .ok v) (hcX : c ∉ X.cols) : fuzzify cx inst a s = (.error .keyError, s) := by
  have hk : X.numCol c = .error .keyError := by
    unfold Frame.numCol Frame.col Frame.colIdx
    rw [if_neg hcX]
    rfl
  have hm : (pre ++ c :: post).mapM (fun c => do let v ← X.numCol c; pure (c, v)) = .error .keyError := by
    apply mapM_error_first
    · intro c' hc'
      obtain ⟨v, hv⟩ := hpre c' hc'
      exact ⟨(c', v), by rw [hv]; rfl⟩
    · rw [hk]; rfl
  have : fuzzyVarsOf cx a X y = .error .keyError := by
    unfold fuzzyVarsOf
    rw [if_neg (fun h => hsets h.2), hn, hc]
    simp only [hm]
    rfl
  unfold fuzzify
  simp only [hX, hy, hXy, this]

/-- smoothing a LORE neighborhood with an instance that has not one number per feature of the sample is a `ValueError`. -/
theorem C135_lore_instance (cx : LoreCtx K) (bb : List K → Nat) (inst : List K) (fuel : Nat) (df ndf : Frame K) (continuous : List String)
    (featIdx : Dict String Nat) (h : smoothRows cx fuel df continuous featIdx = .ok ndf) (hl : inst.length + 1 ≠ ndf.cols.length) :
    smoothNeighborhood cx bb inst fuel df continuous featIdx = .error .valueError := by
  unfold smoothNeighborhood
  rw [h]
  simp only [py_bind_ok, loreRow, List.length_map, List.length_cons, if_neg hl]
  rfl

/-- `fuzzify` with the columns at hand: the keyword `verbose` is a `TypeError`; no numeric column, no rows, a wrong number of labels and an unknown
division are a `ValueError`; the object stays as it was. -/
theorem C135_fuzzy_points (cx : FuzzCtx K) (inst : List (Cell K)) (a : FuzzArgs K) (s : NState K) (X Xy : Frame K) (y : List Nat)
    (nums cats : List String) (hX : s.X = some X) (hy : s.y = some y) (hXy : s.Xy = some Xy)
    (hn : a.numCols = some nums) (hc : a.catCols = some cats) (hsets : a.sets ≠ none) (hcols : ∀ c ∈ nums, ∃ v, X.numCol c = .ok v) :
    (a.verbose = true → fuzzify cx inst a s = (.error .typeError, s)) ∧
    (a.verbose = false → (nums = [] ∨ X.rows = [] ∨ y.length ≠ X.rows.length ∨ cx.disc a.division = none) →
      fuzzify cx inst a s = (.error .valueError, s)) := by
  obtain ⟨l, hl⟩ := forall₂_of_forall_exists (fun c p => (do let v ← X.numCol c; pure (c, v) : Py (String × List K)) = .ok p) nums (by
    intro c hc'
    obtain ⟨v, hv⟩ := hcols c hc'
    exact ⟨(c, v), by rw [hv]; rfl⟩)
  have hm := (mapM_ok_iff _ _ _).2 hl
  have hlen := hl.length_eq
  have key : ∀ e, getFuzzyPoints cx a l X.rows.length y = .error e → fuzzify cx inst a s = (.error e, s) := by
    intro e he
    have : fuzzyVarsOf cx a X y = .error e := by
      unfold fuzzyVarsOf
      rw [if_neg (fun h => hsets h.2), hn, hc]
      simp only [hm, py_bind_ok, he]
      rfl
    unfold fuzzify
    simp only [hX, hy, hXy, this]
  constructor
  · intro hv
    apply key
    unfold getFuzzyPoints
    rw [hv]; rfl
  · intro hv h
    apply key
    unfold getFuzzyPoints
    rw [hv]
    simp only [Bool.false_eq_true, if_false]
    split
    · rfl
    · rename_i hno
      push Not at hno
      rcases h with h | h | h | h
      · rw [h] at hlen
        exact absurd (List.eq_nil_of_length_eq_zero (by simpa using hlen.symm)) hno.1
      · exact absurd (by simp [h]) hno.2.1
      · exact absurd hno.2.2 h
      · rw [h]

set_option synthInstance.maxSize 1000 in
example : (fuzzify nbObj.fz (nbObj.inst.map .num) { nbArgs with numCols := some [] } (nbObj.run [nbFit1])).1 = .error .valueError := by
  decide +kernel

/-- `fit` of a LORE neighborhood with an instance shorter than the features raises `IndexError` and leaves the object as it was, when its numbers are codes that the
label encoders know. -/
theorem C135_lore_short_instance (cx : LoreCtx K) (bb : List K → Nat) (gen : Py (Frame K)) (inst : List K) (fuel : Nat) (s : LState K)
    (hl : inst.length < cx.features.length)
    (hok : ∀ (i : Nat) c x cls, cx.features[i]? = some c → inst[i]? = some x → Dict.get? cx.encoders c = some cls → ∃ v, inverseCell cx cls x = .ok v) :
    loreFit cx bb gen inst fuel s = (.error .indexError, s) := by
  have hm : cx.features.zipIdx.mapM (loreDecode cx inst) = .error .indexError := by
    have hs : cx.features.zipIdx = cx.features.zipIdx.take inst.length ++ (cx.features[inst.length], inst.length) ::
        cx.features.zipIdx.drop (inst.length + 1) := by
      have h1 : inst.length < cx.features.zipIdx.length := by simpa using hl
      have h2 := List.drop_eq_getElem_cons h1
      rw [List.getElem_zipIdx] at h2
      simp only [zero_add] at h2
      rw [← h2, List.take_append_drop]
    rw [hs]
    apply mapM_error_first
    · rintro ⟨c, i⟩ hp
      obtain ⟨j, hj, e⟩ := List.getElem_of_mem hp
      rw [List.getElem_take, List.getElem_zipIdx] at e
      simp only [zero_add, Prod.mk.injEq] at e
      obtain ⟨e1, rfl⟩ := e
      have hji : j < inst.length := by
        simp only [List.length_take] at hj; omega
      have hjf : j < cx.features.length := by omega
      have hx := List.getElem?_eq_getElem hji
      unfold loreDecode
      simp only [hx]
      cases he : Dict.get? cx.encoders c with
      | none => exact ⟨_, rfl⟩
      | some cls => exact hok j c _ cls (by rw [← e1]; exact List.getElem?_eq_getElem hjf) hx he
    · unfold loreDecode
      simp only [List.getElem?_eq_none (le_refl inst.length)]
  unfold loreFit
  rw [hm]

theorem trainRange_of_rows (cx : LoreCtx K) (featIdx : Dict String Nat) (c : String) (j : Nat) (hj : Dict.get? featIdx c = some j)
    (hw : ∀ r ∈ cx.X2E, j < r.length) (hne : cx.X2E ≠ []) : ∃ b, trainRange cx featIdx c = .ok b := by
  obtain ⟨v, hv⟩ := forall₂_of_forall_exists (fun (r : List K) (x : K) => r[j]? = some x) cx.X2E
    (fun r hr => ⟨r[j]'(hw r hr), List.getElem?_eq_getElem (hw r hr)⟩)
  have hvne : v ≠ [] := by
    rintro rfl
    exact hne (List.forall₂_nil_right_iff.1 hv)
  have hnc : numColumn cx.X2E j = .ok v := by
    unfold numColumn
    rw [mapM_ok_iff]
    exact hv.imp (fun r x h => by rw [h])
  obtain ⟨hi, hhi⟩ := pyMax_ok_of_ne_nil id v hvne
  obtain ⟨lo, hlo⟩ : ∃ lo, pyMin v = .ok lo := by
    cases h : pyMin v with
    | ok lo => exact ⟨lo, rfl⟩
    | error e => exact absurd ((pyMin_eq_error_iff v e).1 h).1 hvne
  refine ⟨(lo, hi), ?_⟩
  unfold trainRange
  rw [Dict.get_eq_ok_iff.2 hj]
  simp only [py_bind_ok, hnc, hlo, hhi]
  rfl

set_option synthInstance.maxSize 1000 in
example : (fuzzify nbObj.fz (nbObj.inst.map .num) { nbArgs with numCols := some ["age", "height"] } (nbObj.run [nbFit1])).1 = .error .keyError := by
  decide +kernel

/-- smoothing a LORE neighborhood whose first continuous column holds a string is a `TypeError`. -/
theorem C135_clip_string (cx : LoreCtx K) (bb : List K → Nat) (inst : List K) (fuel : Nat) (df : Frame K) (c : String) (cs : List String)
    (featIdx : Dict String Nat) (j i : Nat) (hj : Dict.get? featIdx c = some j) (hw : ∀ r ∈ cx.X2E, j < r.length) (hne : cx.X2E ≠ [])
    (hi : df.colIdx c = .ok i) (hrows : ∀ r ∈ df.rows, i < r.length) (hstr : ∃ r ∈ df.rows, ∃ t, r[i]? = some (.str t)) :
    smoothNeighborhood cx bb inst fuel df (c :: cs) featIdx = .error .typeError := by
  obtain ⟨b, hb⟩ := trainRange_of_rows cx featIdx c j hj hw hne
  have hm : df.rows.mapM (updCell i (clipCell b.1 b.2)) = .error .typeError := by
    refine mapM_error_eq _ _ _ ?_ ?_
    · intro r hr e he
      unfold updCell at he
      rw [List.getElem?_eq_getElem (hrows r hr)] at he
      cases hcell : r[i]'(hrows r hr) with
      | num x => rw [hcell] at he; cases he
      | str t => rw [hcell] at he; cases he; rfl
    · obtain ⟨r, hr, t, ht⟩ := hstr
      refine ⟨r, hr, ?_⟩
      unfold updCell
      rw [ht]
      rfl
  have hc : clipColumns cx featIdx (c :: cs) df = .error .typeError := by
    unfold clipColumns
    rw [hb]
    simp only [py_bind_ok, hi, hm]
    rfl
  unfold smoothNeighborhood smoothRows
  rw [hc]
  rfl

/-- encoding a LORE neighborhood: a value that is not among the values of the encoder of the first encoded column is a `ValueError`. -/
theorem C135_encode_unknown (className : String) (le : String) (cls : List (Cell K)) (rest : List (String × List (Cell K))) (df : Frame K) (i : Nat)
    (hne : le ≠ className) (hi : df.colIdx le = .ok i) (hrows : ∀ r ∈ df.rows, i < r.length)
    (hnew : ∃ r ∈ df.rows, ∃ c, r[i]? = some c ∧ c ∉ cls) : encodeColumns className ((le, cls) :: rest) df = .error .valueError := by
  have hm : df.rows.mapM (updCell i (encodeCell cls)) = .error .valueError := by
    refine mapM_error_eq _ _ _ ?_ ?_
    · intro r hr e he
      unfold updCell at he
      rw [List.getElem?_eq_getElem (hrows r hr)] at he
      simp only at he
      unfold encodeCell at he
      by_cases hin : r[i]'(hrows r hr) ∈ cls
      · rw [if_pos hin] at he; cases he
      · rw [if_neg hin] at he; cases he; rfl
    · obtain ⟨r, hr, c, hc, hn⟩ := hnew
      refine ⟨r, hr, ?_⟩
      unfold updCell
      rw [hc]
      simp only [encodeCell, if_neg hn]
      rfl
  unfold encodeColumns
  rw [if_neg hne]
  simp only [hi, py_bind_ok, hm]
  rfl

end

/-! ## random data -/

section
variable {R : Type} [Field K] [LinearOrder K]

/-- `generate_random_data` for a table with the class as only column is a `ValueError`, and without the class among the columns as well. -/
theorem C135_random_data_columns (rng : GPRng R K) (std : List K → K) (toInt : K → Int) (types : Dict String DType) (X : List (List K))
    (className : String) (columns discrete continuous : List String) (size : Nat) (r : R) (h : columns = [className] ∨ className ∉ columns) :
    generateRandomData rng std toInt types X className columns discrete continuous size r = .error .valueError := by
  unfold generateRandomData
  rcases h with rfl | h
  · simp [pyRemove, randomLoop]
  · simp [pyRemove, h]

end

/-! ## rules of an ID3 tree -/

section
variable [Field K] [LinearOrder K] [IsStrictOrderedRing K] [LinearOrder V] [LinearOrder C]

/-- **C43**: the method of the tree itself, with or without its flag, returns the rules; with more arguments it is a `TypeError` (C109). -/
theorem C43_tree_method (gain : List V → List C → List V → K) (ordC : List C → List C) (hC : Spec.IsSetListing ordC)
    (ordF : List String → List String) (hF : Spec.IsArrangement ordF) (p : ID3Params K) (hnd : p.features.Nodup)
    (t t' : INode V C K) (rows : IRows V C) (h : id3FitWith gain ordC ordF p t rows = .ok t') (args : List Bool) :
    (args.length < 2 → ∃ rules, t'.toRulesCall p.features args = .ok rules ∧
      ∀ x : List V, p.features.length ≤ x.length →
        (∃ c, t'.predict x = .ok (.cls c) ∧
          (rules.filter (fun r => Spec.satisfies p.features x r.antecedent)).map Rule.consequent = [some c]) ∨
        (t'.predict x = .ok .noneVal ∧ rules.filter (fun r => Spec.satisfies p.features x r.antecedent) = [])) ∧
    (2 ≤ args.length → t'.toRulesCall p.features args = .error .typeError) := by
  obtain ⟨rules, h1, -, h2⟩ := C43_rules gain ordC hC ordF hF p hnd t t' rows h
  refine ⟨fun hl => ⟨rules, ?_, h2⟩, fun hl => ?_⟩
  · unfold INode.toRulesCall
    rw [if_pos (by omega), h1]
  · unfold INode.toRulesCall
    rw [if_neg (by omega)]

end

/-! ## the cases exist -/

/-- a table without one of the columns `load_adult` deletes. -/
example : "fnlwgt" ∉ Dict.keys ([("age", [1]), ("class", [0])] : DF ℚ) ∧ delCols ["age"] ([("age", [1]), ("class", [0])] : DF ℚ) = .ok [("class", [0])] ∧
    delCols ["age", "age"] ([("age", [1]), ("class", [0])] : DF ℚ) = .error .keyError := by decide +kernel

/-- a hole after a variable that works, and one after a variable that does not. -/
example : membershipOpt [[.num 0, .num 1]] [some ⟨"x", [.cont ⟨"0", 0, 0, 1, false⟩]⟩, (none : Option (FVar ℚ))] = .error .attributeError := by rfl

example :
    membershipOpt [[.str "a", .num 1]] [some ⟨"x", [.cont ⟨"0", 0, 0, 1, false⟩]⟩, (none : Option (FVar ℚ))] = .error .typeError := by rfl

/-- a table with a string in a continuous column. -/
example : clipColumns (⟨[], "c", [], [], [], [[0, 1], [2, 3]], fun _ => 0⟩ : LoreCtx ℚ) [("x", 0)] ["x"] ⟨["x"], [[.num 5], [.str "a"]]⟩ = .error .typeError := by
  decide +kernel

/-- an instance of one number for two features. -/
example : ([4] : List ℚ).length < lxCtx.features.length ∧
    (loreFit lxCtx lxBB (.ok lxFrame) [4] 100 { base := {} }).1 = .error .indexError := by
  refine ⟨by decide, ?_⟩
  rw [C135_lore_short_instance lxCtx lxBB (.ok lxFrame) [4] 100 _ (by decide) ?_]
  intro i c x cls hc hx he
  match i, hx with
  | 0, _ =>
    have : lxCtx.features[0]? = some "a" := by decide
    rw [this] at hc
    cases hc
    have : Dict.get? lxCtx.encoders "a" = none := by decide
    rw [this] at he
    cases he
  | n + 1, hx => simp at hx

/-- three instances, two labels. -/
example : ruleFidelity [1, 1] [1, 0, 1] ([("age", [("young", [1, 0, 1/2])])] : FuzzyDS ℚ) [⟨[("age", "young")], 0, 1⟩] (1/1000) = .error .indexError := by
  decide +kernel

end Teacher
