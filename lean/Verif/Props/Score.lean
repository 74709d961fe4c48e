import Verif.Props.FBDTPredict
import Verif.Props.FDTSplits
import Mathlib.Data.Finset.Card
import Mathlib.Algebra.BigOperators.Group.Finset.Basic
import Mathlib.Algebra.Order.Field.Basic

/-! # C132: the score of FDT and FBDT -/

set_option linter.unusedSectionVars false

namespace Teacher
open Spec

variable {C K : Type} [Field K] [LinearOrder K] [IsStrictOrderedRing K] [LinearOrder C]

namespace Spec

/-- Specification: the share of the rows whose predicted class is the given one. -/
def accuracy (K : Type) [Field K] (cs y : List C) : K :=
  (((Finset.range y.length).filter (fun i => cs[i]? = y[i]?)).card : K) / (y.length : K)

end Spec

theorem zip_eq_card (cs y : List C) (h : cs.length = y.length) :
    ((cs.zip y).filter (fun q => decide (q.1 = q.2))).length = ((Finset.range y.length).filter (fun i => cs[i]? = y[i]?)).card := by
  induction cs generalizing y with
  | nil =>
    cases y with
    | nil => rfl
    | cons b y => simp at h
  | cons a cs ih =>
    cases y with
    | nil => simp at h
    | cons b y =>
      have ih := ih y (by simpa using h)
      rw [List.length_cons, Finset.range_add_one', Finset.filter_insert, Finset.filter_map]
      simp only [List.zip_cons_cons, List.getElem?_cons_zero, Option.some.injEq, Function.comp_def]
      have hmap : (Finset.filter (fun i => (a :: cs)[(⟨fun i => i + 1, fun i j => by simp⟩ : ℕ ↪ ℕ) i]? =
          (b :: y)[(⟨fun i => i + 1, fun i j => by simp⟩ : ℕ ↪ ℕ) i]?) (Finset.range y.length)).card =
          ((Finset.range y.length).filter (fun i => cs[i]? = y[i]?)).card := by
        congr 1
      by_cases hab : a = b
      · rw [List.filter_cons_of_pos (by simpa using hab), if_pos hab, Finset.card_insert_of_notMem (by simp), Finset.card_map,
          List.length_cons, ih]
        rfl
      · rw [List.filter_cons_of_neg (by simpa using hab), if_neg hab, Finset.card_map, ih]
        rfl

theorem accuracy_bounds (cs y : List C) (hne : y ≠ []) (h : cs.length = y.length) :
    0 ≤ accuracy K cs y ∧ accuracy K cs y ≤ 1 ∧ (accuracy K cs y = 1 ↔ cs = y) ∧ (accuracy K cs y = 0 ↔ ∀ i < y.length, cs[i]? ≠ y[i]?) := by
  have hpos : (0 : K) < (y.length : K) := by exact_mod_cast List.length_pos_of_ne_nil hne
  have hle : ((Finset.range y.length).filter (fun i => cs[i]? = y[i]?)).card ≤ y.length := by
    simpa using Finset.card_filter_le (Finset.range y.length) (fun i => cs[i]? = y[i]?)
  unfold accuracy
  refine ⟨by positivity, ?_, ?_, ?_⟩
  · rw [div_le_one hpos]; exact_mod_cast hle
  · rw [div_eq_one_iff_eq hpos.ne']
    constructor
    · intro e
      have e : ((Finset.range y.length).filter (fun i => cs[i]? = y[i]?)).card = (Finset.range y.length).card := by
        rw [Finset.card_range]; exact_mod_cast e
      rw [Finset.card_filter_eq_iff] at e
      refine List.ext_getElem? fun i => ?_
      by_cases hi : i < y.length
      · exact e i (by simpa using hi)
      · rw [List.getElem?_eq_none (by omega), List.getElem?_eq_none (by omega)]
    · rintro rfl
      simp
  · rw [div_eq_zero_iff, or_iff_left hpos.ne']
    constructor
    · intro e i hi hc
      have e : ((Finset.range y.length).filter (fun i => cs[i]? = y[i]?)).card = 0 := by exact_mod_cast e
      rw [Finset.card_eq_zero, Finset.filter_eq_empty_iff] at e
      exact e (by simpa using hi) hc
    · intro e
      have : (Finset.range y.length).filter (fun i => cs[i]? = y[i]?) = ∅ := by
        rw [Finset.filter_eq_empty_iff]
        intro i hi
        exact e i (by simpa using hi)
      rw [this]; simp

/-- **C132**: `score` of an FDT, on a table that `check_X_y` accepts: when the number of labels is not that of rows it raises
`ValueError`; otherwise it fails if and as `predict` fails, and when `predict` returns the classes `cs` it returns the share of the rows
whose class in `cs` is their label — a number between 0 and 1, 1 only when every class is the label, and 0 only when none is. -/
theorem C132_fdt_score (T : K → K → K) (v : Voting) (t : FNode C K) (X : List (List (Cell K))) (hX : Rectangular X) (y : List C) :
    (X.length ≠ y.length → fdtScore T v t X y = .error .valueError) ∧
    (X.length = y.length →
      (∀ e, fdtPredict T v t X = .error e → fdtScore T v t X y = .error e) ∧
      ∀ cs, fdtPredict T v t X = .ok [cs] → fdtScore T v t X y = .ok (accuracy K cs y) ∧
        0 ≤ accuracy K cs y ∧ accuracy K cs y ≤ 1 ∧ (accuracy K cs y = 1 ↔ cs = y) ∧
        (accuracy K cs y = 0 ↔ ∀ i < y.length, cs[i]? ≠ y[i]?)) := by
  have hc := (checkArray_ok_iff X).2 hX
  have hXne : X ≠ [] := by obtain ⟨_, _, h, _⟩ := hX; exact h
  constructor
  · intro h
    rw [fdtScore, hc, py_bind_ok, if_pos h]
  · intro h
    have hne : y ≠ [] := by
      rintro rfl
      exact hXne (List.length_eq_zero_iff.1 h)
    refine ⟨fun e he => ?_, fun cs hcs => ?_⟩
    · rw [fdtScore, hc, py_bind_ok, if_neg (by simpa using h), he]
      rfl
    · obtain ⟨cs', he, hl⟩ := (C26_row_wise T v t X hX).1 _ hcs
      obtain rfl : cs = cs' := by simpa using he
      refine ⟨?_, accuracy_bounds cs y hne (hl.trans h)⟩
      have hpos : (y.length : K) ≠ 0 := by exact_mod_cast (List.length_pos_of_ne_nil hne).ne'
      rw [fdtScore, hc, py_bind_ok, if_neg (by simpa using h), hcs, py_bind_ok, npDiv, if_neg hpos]
      simp only [List.map_cons, List.map_nil, List.sum_cons, List.sum_nil, add_zero, accuracy, zip_eq_card cs y (hl.trans h)]

/-- **C132** for FBDT. -/
theorem C132_fbdt_score (T : K → K → K) (v : Voting) (t : BNode C K) (X : List (List (Cell K))) (hX : Rectangular X) (y : List C) :
    (X.length ≠ y.length → fbdtScore T v t X y = .error .valueError) ∧
    (X.length = y.length →
      (∀ e, fbdtPredict T v t X = .error e → fbdtScore T v t X y = .error e) ∧
      ∀ cs, fbdtPredict T v t X = .ok [cs] → fbdtScore T v t X y = .ok (accuracy K cs y) ∧
        0 ≤ accuracy K cs y ∧ accuracy K cs y ≤ 1 ∧ (accuracy K cs y = 1 ↔ cs = y) ∧
        (accuracy K cs y = 0 ↔ ∀ i < y.length, cs[i]? ≠ y[i]?)) := by
  have hc := (checkArray_ok_iff X).2 hX
  have hXne : X ≠ [] := by obtain ⟨_, _, h, _⟩ := hX; exact h
  constructor
  · intro h
    rw [fbdtScore, hc, py_bind_ok, if_pos h]
  · intro h
    have hne : y ≠ [] := by
      rintro rfl
      exact hXne (List.length_eq_zero_iff.1 h)
    refine ⟨fun e he => ?_, fun cs hcs => ?_⟩
    · rw [fbdtScore, hc, py_bind_ok, if_neg (by simpa using h), he]
      rfl
    · have hl : cs.length = X.length := by
        obtain ⟨-, cs', he, hp⟩ := (fbdtPredict_ok_iff T v t X _).1 hcs
        obtain rfl : cs = cs' := by simpa using he
        exact ((FB.predict_ok_iff T v t X hXne cs).1 hp).2.length_eq.symm
      refine ⟨?_, accuracy_bounds cs y hne (hl.trans h)⟩
      have hpos : (y.length : K) ≠ 0 := by exact_mod_cast (List.length_pos_of_ne_nil hne).ne'
      rw [fbdtScore, hc, py_bind_ok, if_neg (by simpa using h), hcs, py_bind_ok, npDiv, if_neg hpos]
      simp only [List.map_cons, List.map_nil, List.sum_cons, List.sum_nil, add_zero, accuracy, zip_eq_card cs y (hl.trans h)]

/-- the example tree classifies its training rows; with one label changed the score is the share of the others. -/
example : (exFit.toOption.bind fun t => (fdtScore min .agg t exX exY).toOption) = some 1 := by decide +kernel

example : (exFit.toOption.bind fun t => (fdtScore min .agg t exX [1, 1, 0, 1, 1]).toOption) = some (4 / 5) := by decide +kernel

example : ((fbdtFit exEnt exOParams fbdtNew [[.num 0], [.num 10]] [0, 1]).toOption.bind fun t =>
    (fbdtScore min .agg t [[.num 0], [.num 10], [.num 10]] [0, 1, 0]).toOption) = some (2 / 3) := by decide +kernel

end Teacher
