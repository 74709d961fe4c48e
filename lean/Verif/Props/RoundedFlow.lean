import Verif.Props.RoundedCuts
import Verif.Props.RoundedFit
import Verif.Props.IEEEUse
import Verif.Props.Coverage
import Verif.Props.RuleMap
import Mathlib.Data.Rat.Encodable

/-! # C204–C206: from the fuzzy points of a column to a fitted tree, in floating point -/

set_option linter.unusedSectionVars false

namespace Teacher
open Spec

variable {C K : Type} [Field K] [LinearOrder K] [IsStrictOrderedRing K] {A : Arith K} {u η : K}

/-- **C204**: the whole way from a column to degrees, in floating point. If the largest value occurs twice and the computation of the points
does not fail, the fuzzy sets made from the points exist and every value of the column is in the range of the variable: its computed degrees
add up (exactly added) to 1 within twice the error of one degree. -/
theorem C204_column [DecidableEq C] (hA : Lawful A u η) (lg : K → K) (ent : Bool → List K → List C → Py K) (th : Option K) (maxDepth : Nat)
    (v : List K) (y : List C) (hlen : v.length = y.length) (hex : ∃ a ∈ v, ∃ b ∈ v, a ≠ b) (hv : ∀ x ∈ v, IsFloat A x)
    (top : K) (htop : ∀ x ∈ v, x ≤ top) (htwice : 2 ≤ v.count top) (fmt : K → String) (pts : List K)
    (hp : entropyPointsF A lg ent th maxDepth v y = .ok pts) (name : String) :
    ∃ sets, getFuzzyContinuousSets false (pts.map (fun p => (fmt p, p))) = .ok sets ∧ sets.length = pts.length ∧
      FloatVar A ⟨name, sets.map .cont⟩ ∧
      ∀ x ∈ v, InRange ⟨name, sets.map .cont⟩ (.num x) ∧
        ∃ ms : List K, sets.mapM (fun s => s.membershipF A [.num x]) = .ok (ms.map (fun m => [m])) ∧ |ms.sum - 1| ≤ 2 * degreeError u η := by
  have hg : GoodPoints v maxDepth pts := by
    rcases C199_points A lg ent th maxDepth v y hlen hex with ⟨pts', h1, h2⟩ | ⟨e, h1, -⟩
    · rw [hp] at h1; cases h1; exact h2
    · rw [hp] at h1; cases h1
  obtain ⟨lo, h3, h4⟩ := hg.starts
  have h5 := hg.ends top htop htwice
  match pts, hg, h3, h5 with
  | [p0], hg, h3, h5 =>
    exfalso
    simp only [List.head?_cons, Option.some.injEq] at h3
    simp only [List.getLast?_singleton, Option.some.injEq] at h5
    obtain ⟨a, ha, b, hb, hab⟩ := hex
    have e : lo = top := by rw [← h3, h5]
    exact hab ((le_antisymm (htop a ha) (e ▸ h4 a ha)).trans (le_antisymm (htop b hb) (e ▸ h4 b hb)).symm)
  | p0 :: p1 :: rest, hg, h3, h5 =>
    simp only [List.head?_cons, Option.some.injEq] at h3
    set qs : List (String × K) := (p0 :: p1 :: rest).map (fun p => (fmt p, p)) with hqs
    have e1 : qs = (fmt p0, p0) :: (fmt p1, p1) :: rest.map (fun p => (fmt p, p)) := rfl
    have e2 : qs.map Prod.snd = p0 :: p1 :: rest := by rw [hqs]; simp [Function.comp_def]
    have e3 : qs.getLast? = some (fmt top, top) := by rw [hqs, List.getLast?_map, h5]; rfl
    have hinc : (qs.map Prod.snd).Pairwise (· < ·) := by rw [e2]; exact hg.increasing
    have hfl : ∀ q ∈ qs, IsFloat A q.2 := by
      intro q hq
      apply hv _ (hg.from_column _ _)
      rw [← e2]
      exact List.mem_map_of_mem hq
    obtain ⟨sets, hs, hl, hm⟩ := C168_partition hA false (fmt p0, p0) (fmt p1, p1) (rest.map (fun p => (fmt p, p))) (fmt top, top)
      e3 hinc hfl
    refine ⟨sets, hs, by simpa using hl, ?_, ?_⟩
    · intro s hs'
      obtain ⟨s', hs', e⟩ := List.mem_map.1 hs'
      cases e
      exact (floatSet_of_points hs hinc hfl s hs').1
    intro x hx
    have hlo : p0 ≤ x := by rw [h3]; exact h4 x hx
    refine ⟨.continuous name false qs sets (fmt p0, p0) (fmt top, top) x hinc hs rfl e3 hlo (htop x hx), ?_⟩
    obtain ⟨ms, hms, hsum, -⟩ := hm x (hv x hx)
    exact ⟨ms, hms, hsum hlo (htop x hx)⟩

section fit
variable [LinearOrder C]

/-- **C205**: in floating point a row in the range of the fuzzy variables reaches some leaf of a tree fitted in floating point, with a computed
degree of at least 1/2 minus the error of one degree, however deep the tree is. -/
theorem C205_fdt (hA : Lawful A u η) (ent : List K → List C → K) (ord : List String → List String) (p : FDTParams K)
    (hn : ∀ v ∈ p.vars, (v.sets.map FSet.name).Nodup) (hv : ∀ v ∈ p.vars, FloatVar A v)
    (X : List (List (Cell K))) (hXf : FloatTable A X) (y : List C) (t : FNode C K) (h : fdtFitF A ent ord p fdtNew X y = .ok t)
    (row : List (Cell K)) (hrf : ∀ x, Cell.num x ∈ row → IsFloat A x) (hrow : RowInRange p.vars row) :
    ∃ q ∈ leafPaths t, ∃ m, LeafDegreeF A row q.1 m ∧ 1 / 2 - degreeError u η ≤ m := by
  have hall := C170_tree hA ent ord p hn hv X hXf y t h
  obtain ⟨hR, hlen, Xm, hXm, hp⟩ := fdtFitF_ok h
  have hroot : t.test = none := (partialFitF_nodes hXm hn _ _ _ _ _ hp).1
  obtain ⟨q, hq, rest, he, hrest⟩ := covered_leaf (row := row) (h := (1 / 2 : K)) t (by
    intro q hq hl
    obtain ⟨-, -, -, -, hc, -⟩ := hall q hq
    obtain ⟨fi, var, hv, hc⟩ := hc hl
    obtain ⟨x, s, m, hx, hsm, hm, hle⟩ := hrow.covered.1 fi var hv
    obtain ⟨k, hk, rfl⟩ := List.mem_iff_getElem.1 hsm
    have : some (⟨var, fi, k⟩ : FTest K) ∈ q.2.children.map FNode.test := by
      rw [hc]; exact List.mem_map.2 ⟨k, List.mem_range.2 hk, rfl⟩
    obtain ⟨c, hc', ht⟩ := List.mem_map.1 this
    exact ⟨c, hc', _, m, ht, ⟨_, x, List.getElem?_eq_getElem hk, hx, hm⟩, hle⟩)
  rw [hroot] at he
  simp only [Option.toList_none, List.nil_append] at he
  subst he
  have hE := degreeError_nonneg hA
  have hF : ∀ t' ∈ q.1, ∃ m, TestDegreeF A row t' m ∧ 1 / 2 - degreeError u η ≤ m := by
    intro t' ht'
    obtain ⟨m, ⟨fs, x, h1, h2, h3⟩, hle⟩ := hrest t' ht'
    obtain ⟨n, hn', -⟩ := (leafPaths_iff t q).1 hq
    obtain ⟨-, -, h4, -⟩ := hall _ hn'
    have hfv := hv _ (List.mem_of_getElem? (h4 t' ht'))
    obtain ⟨ms', k1, k2⟩ := FSet.membershipF_near hA (s := fs)
      (fun c hc => hfv c (by rw [← hc]; exact List.mem_of_getElem? h1))
      (v := [x]) (fun z hz => hrf z (by rw [List.mem_singleton] at hz; rw [hz]; exact List.mem_of_getElem? h2)) h3
    cases k2 with
    | @cons _ m' _ _ k k' =>
      cases k'
      refine ⟨m', ⟨fs, x, h1, h2, k1⟩, ?_⟩
      have := (abs_le.1 k.2.2.2.2).1
      linarith
  obtain ⟨ms, hms⟩ := forall₂_of_forall_exists (l := q.1) (R := fun t m => TestDegreeF A row t m ∧ 1 / 2 - degreeError u η ≤ m) hF
  refine ⟨q, hq, _, ⟨ms, hms.imp (fun _ _ h => h.1), rfl⟩, foldl_min_ge (fun m hm => ?_) 1 (by linarith)⟩
  obtain ⟨_, -, h⟩ := forall₂_mem_right hms m hm
  exact h.2

/-- `v` is the fuzzy variable that `get_fuzzy_points(..., 'entropy', ...)` and `get_fuzzy_variables` make, in floating point, from the column `i`
of a table of numbers. -/
def Spec.EntropyVar [DecidableEq C] (A : Arith K) (lg : K → K) (ent : Bool → List K → List C → Py K) (th : Option K) (depth : Nat) (fmt : K → String)
    (rows : List (List K)) (y : List C) (i : Nat) (v : FVar K) : Prop :=
  ∃ col pts sets, List.Forall₂ (fun (r : List K) x => r[i]? = some x) rows col ∧ entropyPointsF A lg ent th depth col y = .ok pts ∧
    getFuzzyContinuousSets false (pts.map (fun p => (fmt p, p))) = .ok sets ∧ v.sets = sets.map .cont

/-- each column of the table has two different values, and its largest value twice. -/
def Spec.TopTwice (rows : List (List K)) : Prop :=
  ∀ (i : Nat) col, List.Forall₂ (fun (r : List K) x => r[i]? = some x) rows col → (∃ a ∈ col, ∃ b ∈ col, a ≠ b) ∧
    ∃ top, (∀ x ∈ col, x ≤ top) ∧ 2 ≤ col.count top

theorem entropyVar_facts (hA : Lawful A u η) {lg : K → K} {ent : Bool → List K → List C → Py K} {th : Option K} {depth : Nat} {fmt : K → String}
    (hfmt : ∀ a b, IsFloat A a → IsFloat A b → fmt a = fmt b → a = b)
    {rows : List (List K)} {y : List C} (hlen : rows.length = y.length) (hf : ∀ r ∈ rows, ∀ x ∈ r, IsFloat A x) (htop : TopTwice rows)
    {i : Nat} {v : FVar K} (h : EntropyVar A lg ent th depth fmt rows y i v) :
    FloatVar A v ∧ (v.sets.map FSet.name).Nodup ∧ ∀ r ∈ rows, ∃ x, r[i]? = some x ∧ InRange v (.num x) := by
  obtain ⟨col, pts, sets, h1, h2, h3, h4⟩ := h
  obtain ⟨hex, top, ht1, ht2⟩ := htop i col h1
  have hcf : ∀ x ∈ col, IsFloat A x := by
    intro x hx
    obtain ⟨r, hr, e⟩ := forall₂_mem_right h1 x hx
    exact hf r hr x (List.mem_of_getElem? e)
  have hl : col.length = y.length := by rw [← h1.length_eq, hlen]
  obtain ⟨sets', g1, g2, g3, g4⟩ := C204_column hA lg ent th depth col y hl hex hcf top ht1 ht2 fmt pts h2 v.name
  rw [h3] at g1
  cases g1
  have hve : v = ⟨v.name, sets.map .cont⟩ := by rw [← h4]
  have hg : GoodPoints col depth pts := by
    rcases C199_points A lg ent th depth col y hl hex with ⟨pts', k1, k2⟩ | ⟨e, k1, -⟩
    · rw [h2] at k1; cases k1; exact k2
    · rw [h2] at k1; cases k1
  refine ⟨by rw [hve]; exact g3, ?_, ?_⟩
  · have hinc : ((pts.map (fun p => (fmt p, p))).map Prod.snd).Pairwise (· < ·) := by
      simpa [Function.comp_def] using hg.increasing
    obtain ⟨-, hnm⟩ := C24_generated_separated false _ sets hinc h3
    rw [h4, List.map_map]
    have : (FSet.name ∘ FSet.cont : CSet K → String) = CSet.name := rfl
    rw [this, hnm, List.map_map]
    apply List.Nodup.map_on
    · intro a ha b hb e
      exact hfmt a b (hcf a (hg.from_column a ha)) (hcf b (hg.from_column b hb)) e
    · exact hg.increasing.imp (fun h => h.ne)
  · intro r hr
    obtain ⟨x, hx, e⟩ := forall₂_mem_left h1 r hr
    refine ⟨x, e, ?_⟩
    rw [hve]
    exact (g4 x hx).1

/-- **C206**: training on the variables made by entropy discretisation, everything in floating point: if the largest value of every column occurs
twice, `fit` succeeds, and every row of the training data reaches some leaf with at least degree 1/2 minus the error of one degree. -/
theorem C206_training (hA : Lawful A u η) (lg : K → K) (entD : Bool → List K → List C → Py K) (th : Option K) (depth : Nat) (fmt : K → String)
    (hfmt : ∀ a b, IsFloat A a → IsFloat A b → fmt a = fmt b → a = b) (rows : List (List K)) (y : List C) (hR : Rectangular rows)
    (hlen : rows.length = y.length) (hf : ∀ r ∈ rows, ∀ x ∈ r, IsFloat A x) (htop : TopTwice rows)
    (ent : List K → List C → K) (ord : List String → List String) (hord : ∀ l, (ord l).Perm l) (p : FDTParams K) (hth : 0 < p.fuzzyThreshold)
    (hvars : ∀ (i : Nat) v, p.vars[i]? = some v → EntropyVar A lg entD th depth fmt rows y i v) :
    ∃ t, fdtFitF A ent ord p fdtNew (rows.map (fun r => r.map .num)) y = .ok t ∧
      ∀ r ∈ rows, ∃ q ∈ leafPaths t, ∃ m, LeafDegreeF A (r.map .num) q.1 m ∧ 1 / 2 - degreeError u η ≤ m := by
  have hfacts := fun i v hv => entropyVar_facts hA hfmt hlen hf htop (hvars i v hv)
  have hrange : ∀ r ∈ rows, RowInRange p.vars (r.map .num) := by
    intro r hr i v hv
    obtain ⟨-, -, h⟩ := hfacts i v hv
    obtain ⟨x, hx, hin⟩ := h r hr
    exact ⟨.num x, by simp [hx], hin⟩
  have hXf : FloatTable A (rows.map (fun r => r.map .num)) := by
    intro row hrow x hx
    obtain ⟨r, hr, rfl⟩ := List.mem_map.1 hrow
    obtain ⟨z, hz, e⟩ := List.mem_map.1 hx
    cases e
    exact hf r hr _ hz
  have hRect : Rectangular (rows.map (fun r => r.map (Cell.num (K := K)))) := by
    obtain ⟨n, h1, h2, h3⟩ := hR
    refine ⟨n, h1, by simpa using h2, ?_⟩
    intro row hrow
    obtain ⟨r, hr, rfl⟩ := List.mem_map.1 hrow
    simpa using h3 r hr
  have hidx : ∀ v ∈ p.vars, ∃ i : Nat, p.vars[i]? = some v := fun v hv => List.mem_iff_getElem?.1 hv
  obtain ⟨t, ht⟩ := C170_fit_succeeds hA ent ord hord p hth fdtNew (rows.map (fun r => r.map .num)) y hRect (by simpa using hlen) (by
    intro i v hv row hrow
    obtain ⟨r, hr, rfl⟩ := List.mem_map.1 hrow
    obtain ⟨x, hx, hin⟩ := hrange r hr i v hv
    refine ⟨x, hx, ?_⟩
    obtain ⟨ms, hms, -⟩ := hin.strong.1
    intro s hs
    obtain ⟨m, -, hm⟩ := forall₂_mem_left hms s hs
    exact ⟨m, hm⟩)
  refine ⟨t, ht, ?_⟩
  intro r hr
  refine C205_fdt hA ent ord p ?_ ?_ _ hXf y t ht _ ?_ (hrange r hr)
  · intro v hv
    obtain ⟨i, hi⟩ := hidx v hv
    exact (hfacts i v hi).2.1
  · intro v hv
    obtain ⟨i, hi⟩ := hidx v hv
    exact (hfacts i v hi).1
  · exact hXf _ (List.mem_map_of_mem hr)

end fit

/-- **C206** in double precision, from the table alone: fewer than `2^53` rows, and in each column the distances between different values are
within a factor of `2^1000`. The points of all columns can be computed, and a tree can be fitted with the variables made from them; every row
of the training data reaches some leaf with at least degree `1/2 - 2^-51`. -/
theorem C206_binary64 {C : Type} [LinearOrder C] (lg : ℚ → ℚ) (entD : Bool → List ℚ → List C → Py ℚ)
    (hent : ∀ b, (∀ mu y, entD b mu y = fuzzyEntropyF binary64 lg mu y) ∨ ∀ mu y, entD b mu y = .ok 0) (th : Option ℚ) (depth : Nat)
    (fmt : ℚ → String) (hfmt : ∀ a b, IsFloat binary64 a → IsFloat binary64 b → fmt a = fmt b → a = b) (rows : List (List ℚ)) (y : List C)
    (names : List String) (hne : rows ≠ []) (hnames : names ≠ []) (hw : ∀ r ∈ rows, r.length = names.length) (hlen : rows.length = y.length)
    (hf : ∀ r ∈ rows, ∀ x ∈ r, IsFloat binary64 x) (htop : TopTwice rows) (hrows : rows.length < 2 ^ 53)
    (hr : ∀ (i : Nat) col, List.Forall₂ (fun (r : List ℚ) x => r[i]? = some x) rows col →
      ∀ a ∈ col, ∀ b ∈ col, ∀ c ∈ col, ∀ d ∈ col, a < b → c < d → d - c ≤ 2 ^ 1000 * (b - a))
    (ent : List ℚ → List C → ℚ) (ord : List String → List String) (hord : ∀ l, (ord l).Perm l) (fth : ℚ) (hth : 0 < fth)
    (maxDepth minNum : Nat) :
    ∃ vars, vars.map FVar.name = names ∧ (∀ (i : Nat) v, vars[i]? = some v → EntropyVar binary64 lg entD th depth fmt rows y i v) ∧
      ∃ t, fdtFitF binary64 ent ord ⟨vars, fth, maxDepth, minNum⟩ fdtNew (rows.map (fun r => r.map .num)) y = .ok t ∧
        ∀ r ∈ rows, ∃ q ∈ leafPaths t, ∃ m, LeafDegreeF binary64 (r.map .num) q.1 m ∧ 1 / 2 - 1 / 2 ^ 51 ≤ m := by
  have hA := binary64_lawful
  have hvar : ∀ z ∈ names.zipIdx, ∃ v : FVar ℚ, v.name = z.1 ∧ EntropyVar binary64 lg entD th depth fmt rows y z.2 v := by
    rintro ⟨nm, i⟩ hz
    have hi : i < names.length := by
      have := List.mem_zipIdx hz
      omega
    obtain ⟨col, hcol⟩ := forall₂_of_forall_exists (fun (r : List ℚ) x => r[i]? = some x) rows (by
      intro r hr'
      exact ⟨_, List.getElem?_eq_getElem (by rw [hw r hr']; exact hi)⟩)
    obtain ⟨hex, top, ht1, ht2⟩ := htop i col hcol
    have hcf : ∀ x ∈ col, IsFloat binary64 x := by
      intro x hx
      obtain ⟨r, hr', e⟩ := forall₂_mem_right hcol x hx
      exact hf r hr' x (List.mem_of_getElem? e)
    have hl : col.length = y.length := by rw [← hcol.length_eq, hlen]
    obtain ⟨pts, h1, -⟩ := C200_binary64_partial lg entD hent th depth col y hl hex hcf (by rw [← hcol.length_eq]; exact hrows) (hr i col hcol)
    obtain ⟨sets, g1, -⟩ := C204_column hA lg entD th depth col y hl hex hcf top ht1 ht2 fmt pts h1 nm
    exact ⟨⟨nm, sets.map .cont⟩, rfl, col, pts, sets, hcol, h1, g1, rfl⟩
  obtain ⟨vars, hvars⟩ := forall₂_of_forall_exists _ _ hvar
  have hget : ∀ (i : Nat) v, vars[i]? = some v → EntropyVar binary64 lg entD th depth fmt rows y i v := by
    intro i v hv
    obtain ⟨hi, rfl⟩ := List.getElem?_eq_some_iff.1 hv
    have hi' : i < names.zipIdx.length := by rw [hvars.length_eq]; exact hi
    have := (List.forall₂_iff_get.1 hvars).2 i hi' hi
    simpa using this.2
  refine ⟨vars, ?_, hget, ?_⟩
  · have := forall₂_map_eq (f := Prod.fst) (g := FVar.name) hvars (fun a b h => h.1)
    simpa using this
  obtain ⟨t, h1, h2⟩ := C206_training hA lg entD th depth fmt hfmt rows y
    ⟨names.length, List.length_pos_iff.2 hnames, hne, hw⟩ hlen hf htop ent ord hord ⟨vars, fth, maxDepth, minNum⟩ hth hget
  refine ⟨t, h1, ?_⟩
  intro r hr'
  obtain ⟨q, hq, m, hm, hle⟩ := h2 r hr'
  refine ⟨q, hq, m, hm, le_trans ?_ hle⟩
  have : degreeError (2 ^ (-53 : ℤ)) (2 ^ (-1075 : ℤ)) ≤ (1 / 2 ^ 51 : ℚ) := by
    have h1 : (2 ^ (-1075 : ℤ) : ℚ) ≤ 2 ^ (-60 : ℤ) := zpow_le_zpow_right₀ (by norm_num) (by norm_num)
    unfold degreeError
    have h2 : (2 * 2 ^ (-53 : ℤ) / (1 - 2 ^ (-53 : ℤ)) + 2 ^ (-53 : ℤ) + 2 ^ (-60 : ℤ) : ℚ) ≤ 1 / 2 ^ 51 := by norm_num
    exact (add_le_add (le_refl _) h1).trans h2
  exact sub_le_sub_left this _

/-! ### examples -/

/-- a table with two columns of doubles. -/
def exFlow : List (List ℚ) := [[1, 5], [2, 3], [4, 1], [4, 5]]

theorem exFlow_cols (i : Nat) (col : List ℚ) (h : List.Forall₂ (fun (r : List ℚ) x => r[i]? = some x) exFlow col) :
    col = [1, 2, 4, 4] ∨ col = [5, 3, 1, 5] := by
  unfold exFlow at h
  cases h with
  | cons h1 h =>
  cases h with
  | cons h2 h =>
  cases h with
  | cons h3 h =>
  cases h with
  | cons h4 h =>
  cases h
  match i, h1, h2, h3, h4 with
  | 0, h1, h2, h3, h4 => left; simp at h1 h2 h3 h4; simp [← h1, ← h2, ← h3, ← h4]
  | 1, h1, h2, h3, h4 => right; simp at h1 h2 h3 h4; simp [← h1, ← h2, ← h3, ← h4]
  | i + 2, h1, _, _, _ => simp at h1

theorem exFlow_top : TopTwice exFlow := by
  intro i col h
  rcases exFlow_cols i col h with rfl | rfl
  · exact ⟨⟨1, by simp, 2, by simp, by norm_num⟩, 4, by decide +kernel, by decide +kernel⟩
  · exact ⟨⟨5, by simp, 3, by simp, by norm_num⟩, 5, by decide +kernel, by decide +kernel⟩

/-- a text for each number (different numbers have different texts). -/
def exFmt (q : ℚ) : String := String.ofList (List.replicate (Encodable.encode q) 'a')

theorem exFmt_inj (a b : ℚ) (h : exFmt a = exFmt b) : a = b := by
  unfold exFmt at h
  have := congrArg (fun s => s.toList.length) h
  simpa using this

/-- the hypotheses of C206 are met by a table of doubles with two columns. -/
example : ∃ vars, vars.map FVar.name = ["a", "b"] ∧
    (∀ (i : Nat) v, vars[i]? = some v → EntropyVar binary64 exLg (entDbl exLg) none 0 exFmt exFlow [0, 0, 1, 1] i v) ∧
      ∃ t, fdtFitF binary64 (fun _ _ => 1) id ⟨vars, 1 / 1000, 5, 2⟩ fdtNew (exFlow.map (fun r => r.map .num)) [0, 0, 1, 1] = .ok t ∧
        ∀ r ∈ exFlow, ∃ q ∈ leafPaths t, ∃ m, LeafDegreeF binary64 (r.map .num) q.1 m ∧ 1 / 2 - 1 / 2 ^ 51 ≤ m :=
  C206_binary64 exLg (entDbl exLg) (fun _ => Or.inl fun _ _ => rfl) none 0 exFmt (fun a b _ _ => exFmt_inj a b) exFlow [0, 0, 1, 1] ["a", "b"]
    (by simp [exFlow]) (by simp) (by decide +kernel) rfl (by unfold IsFloat; decide +kernel) exFlow_top (by simp [exFlow])
    (by intro i col h
        rcases exFlow_cols i col h with rfl | rfl <;> decide +kernel)
    (fun _ _ => 1) id (fun l => List.Perm.refl l) (1 / 1000) (by norm_num) 5 2

end Teacher
