import Verif.Model.Lore

/-! Specification of the smoothing of a LORE neighborhood, independent of the model's own functions. -/

namespace Teacher.Spec

variable {K : Type} [Field K] [LinearOrder K]

/-- the columns of the table to explain, without the class. -/
def loreFeatures (cx : LoreCtx K) : List String := cx.columns.filter (fun c => c ≠ cx.className)

/-- `lo` and `hi` are the least and the greatest value in column `j` of the training rows. -/
def IsRange (X : List (List K)) (j : Nat) (lo hi : K) : Prop :=
  (∃ r ∈ X, r[j]? = some lo) ∧ (∃ r ∈ X, r[j]? = some hi) ∧ ∀ r ∈ X, ∃ x, r[j]? = some x ∧ lo ≤ x ∧ x ≤ hi

/-- `row'` is `row` with the values of the columns `continuous` moved into the range of the training rows; `idx` says which column of the
training rows a feature is. -/
def Clipped (X : List (List K)) (idx : Dict Nat String) (cols continuous : List String) (row row' : List (Cell K)) : Prop :=
  row'.length = row.length ∧ ∀ (i : Nat) c, cols[i]? = some c →
    (c ∈ continuous → ∃ j x lo hi, (j, c) ∈ idx ∧ IsRange X j lo hi ∧ row[i]? = some (Cell.num x) ∧
      row'[i]? = some (Cell.num (max lo (min hi x)))) ∧
    (c ∉ continuous → row'[i]? = row[i]?)

/-- the numbers in position `i` of the rows. -/
def numsAt (rows : List (List (Cell K))) (i : Nat) : List K :=
  rows.filterMap (fun r => match r[i]? with
    | some (Cell.num x) => some x
    | _ => none)

/-- mean of numbers. -/
def avg (v : List K) : K := v.sum / v.length

/-- variance of numbers: the mean of the squares of the deviations. -/
def variance (v : List K) : K := avg (v.map (fun x => (x - avg v) ^ 2))

/-- the number in position `i` of row `r` deviates from the mean of the rows by less than three times the standard deviation. -/
def Near (rows : List (List (Cell K))) (i : Nat) (r : List (Cell K)) : Prop :=
  ∃ x, r[i]? = some (Cell.num x) ∧ (x - avg (numsAt rows i)) ^ 2 < 9 * variance (numsAt rows i)

/-- `kept` are the rows that are near in all the columns `continuous`, in their order. -/
def NearRows (cols continuous : List String) (rows kept : List (List (Cell K))) : Prop :=
  ∃ f : List (Cell K) → Bool, kept = rows.filter f ∧ ∀ r ∈ rows, f r = true ↔ ∀ (i : Nat) c, cols[i]? = some c → c ∈ continuous → Near rows i r

end Teacher.Spec
