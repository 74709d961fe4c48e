import Mathlib.Algebra.Order.Field.Basic
import Mathlib.Data.List.Basic
import Mathlib.Data.List.Dedup
import Mathlib.Data.List.Sort

/-!
# Python vocabulary used by all the models

* `Py α`  : result of a Python call, exceptions are values.
* `Dict`  : insertion-ordered Python `dict` (and `defaultdict`) as an association list.
* `pyMax` : `max(xs, key=f)`, the *first* maximum, `ValueError` on an empty sequence.
* `Cell`  : content of one cell of a dataset (`float64` or `object` arrays).
-/

namespace Teacher

/-- The exceptions that the modelled code (or numpy/skfuzzy/sklearn below it) can raise.
`nan` stands for a numpy `0/0`, which gives a `nan` and a warning instead of an exception.
`fuel` is not a Python exception: it is the answer of a recursive model whose recursion bound is exhausted; the theorems
about success show that it is unreachable. -/
inductive PyErr where
  | keyError
  | valueError
  | zeroDivision
  | indexError
  | typeError
  | attributeError
  | assertionError
  | notFitted
  | notFuzzified
  | unboundLocal
  | overflowError
  | nan
  | fuel
  deriving DecidableEq, Repr

/-- Result of a Python call. -/
abbrev Py (α : Type) := Except PyErr α

/-- Insertion-ordered Python dict. -/
abbrev Dict (κ ν : Type) := List (κ × ν)

namespace Dict
variable {κ ν : Type} [DecidableEq κ]

/-- `d.get(k)` : value of the entry with key `k`. -/
def get? (d : Dict κ ν) (k : κ) : Option ν :=
  match d with
  | [] => none
  | (k', v) :: t => if k' = k then some v else get? t k

/-- `d[k]`, raising `KeyError`. -/
def get (d : Dict κ ν) (k : κ) : Py ν :=
  match get? d k with
  | some v => .ok v
  | none => .error .keyError

/-- `d[k] = v` : overwrite in place when the key exists, append otherwise. -/
def set (d : Dict κ ν) (k : κ) (v : ν) : Dict κ ν :=
  match d with
  | [] => [(k, v)]
  | (k', v') :: t => if k' = k then (k', v) :: t else (k', v') :: set t k v

/-- `dict(pairs)` / dict comprehension: later pairs overwrite earlier ones, keeping the position of the first. -/
def ofPairs (l : List (κ × ν)) : Dict κ ν := l.foldl (fun d p => set d p.1 p.2) []

/-- `list(d.keys())`. -/
def keys (d : Dict κ ν) : List κ := d.map Prod.fst

end Dict

/-- `max(xs, key=f)`: scan keeping the current best, replaced only by a strictly larger key. -/
def pyMaxFrom {α K : Type} [LinearOrder K] (f : α → K) (best : α) : List α → α
  | [] => best
  | x :: xs => pyMaxFrom f (if f best < f x then x else best) xs

/-- `max(xs, key=f)`, with `ValueError` on an empty sequence. -/
def pyMax {α K : Type} [LinearOrder K] (f : α → K) : List α → Py α
  | [] => .error .valueError
  | x :: xs => .ok (pyMaxFrom f x xs)

/-- `min(xs)` on a list of numbers, `ValueError` on an empty list. -/
def pyMin {K : Type} [LinearOrder K] : List K → Py K
  | [] => .error .valueError
  | x :: xs => .ok (xs.foldl min x)

/-- A cell of a dataset: a number or a string (`check_array(X, dtype=['float64','object'])`). -/
inductive Cell (K : Type) where
  | num (x : K)
  | str (s : String)
  deriving DecidableEq, Repr

/-- `X[:, i]`: column `i` of a table given as a list of rows, `IndexError` when out of range. -/
def column {α : Type} (X : List (List α)) (i : Nat) : Py (List α) :=
  X.mapM (fun r => match r[i]? with
    | some v => .ok v
    | none => .error .indexError)

/-- `np.unique(y)` on a 1-d array: the distinct values in increasing order. -/
def npUnique {α : Type} [LinearOrder α] (l : List α) : List α := l.dedup.insertionSort (· ≤ ·)

/-- numpy division of two scalars, `nan` on a zero divisor. -/
def npDiv {K : Type} [Field K] [DecidableEq K] (a b : K) : Py K := if b = 0 then .error .nan else .ok (a / b)

/-- `check_array(X)`: a table must have at least one row, at least one column and rows of the same length;
`ValueError` otherwise. -/
def checkArray {α : Type} (X : List (List α)) : Py Unit :=
  match X with
  | [] => .error .valueError
  | r :: rs => if r.length = 0 ∨ ∃ r' ∈ rs, r'.length ≠ r.length then .error .valueError else .ok ()

end Teacher
