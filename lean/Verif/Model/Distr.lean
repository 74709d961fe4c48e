import Verif.Model.GP
import Mathlib.Algebra.Order.Floor.Defs
import Mathlib.Data.Nat.Log

/-!
# Model of the estimation of distributions of `neighbors/gpdatagenerator.py` (lines 274-372)

Exact arithmetic: the cube root is a parameter, `math.ceil(np.log2(n))` is `Nat.clog 2 n`. The fits of the distributions (`scipy.stats`) are a
parameter: for every distribution the parameters and the error `sse`, or nothing when an exception is raised (it is swallowed by the code) or
the error is `nan` or infinite (it is never chosen). The quantile function is a parameter too.
-/

namespace Teacher

variable {K D P : Type}

section
variable [Field K] [LinearOrder K]

/-- `np.percentile(x, q)` of a sample that is not empty: linear interpolation of the sorted sample at position `q (n - 1) / 100`
(used at neighbors/gpdatagenerator.py:297). -/
def npPercentile (q : Nat) (x : List K) : K :=
  let s := x.insertionSort (· ≤ ·)
  let pos := q * (x.length - 1)
  let lo := s[pos / 100]?.getD 0
  let hi := s[pos / 100 + 1]?.getD lo
  lo + ((pos % 100 : Nat) : K) / 100 * (hi - lo)

/-- `np.max(x) - np.min(x)` (neighbors/gpdatagenerator.py:300). -/
def sampleRange (x : List K) : K :=
  let s := x.insertionSort (· ≤ ·)
  s[x.length - 1]?.getD 0 - s[0]?.getD 0

/-- `freedman_diaconis` (neighbors/gpdatagenerator.py:296-301): with `h = 0` the division gives `inf` or `nan`, and `math.ceil` raises
`OverflowError` or `ValueError`. -/
def freedmanDiaconis [FloorRing K] (cbrt : Nat → K) (x : List K) : Py Int :=
  let iqr := npPercentile 75 x - npPercentile 25 x
  let h := 2 * iqr / cbrt x.length
  if h = 0 then (if sampleRange x = 0 then .error .valueError else .error .overflowError)
  else .ok ⌈sampleRange x / h⌉

/-- `struges` (neighbors/gpdatagenerator.py:304-307); `math.ceil(-inf)` is an `OverflowError`. -/
def struges (n : Nat) : Py Int := if n = 0 then .error .overflowError else .ok ((Nat.clog 2 n : Int) + 1)

/-- `k_fd` (neighbors/gpdatagenerator.py:313). -/
def fdOrOne [FloorRing K] (cbrt : Nat → K) (x : List K) : Py Int := if 2 < x.length then freedmanDiaconis cbrt x else .ok 1

/-- `estimate_nbr_bins` (neighbors/gpdatagenerator.py:310-318). The test for an infinite or undefined `k_fd` (lines 315-316) never holds:
`math.ceil` returns an `int` or raises. -/
def estimateNbrBins [FloorRing K] (cbrt : Nat → K) (x : List K) : Py Int :=
  if x.length = 1 then .ok 1
  else do
    let kfd ← fdOrOne cbrt x
    let ks ← struges x.length
    pure (max kfd ks)

/-- the choice of one distribution (neighbors/gpdatagenerator.py:361-364): the state is `(best_distribution, best_params, best_sse)`, with
`none` for `np.inf`. -/
def bestFitStep (s : D × P × Option K) (c : D × Option (P × K)) : D × P × Option K :=
  match c.2 with
  | none => s
  | some (params, sse) => if (∀ b ∈ s.2.2, sse < b) ∧ 0 < sse then (c.1, params, some sse) else s

/-- `best_fit_distribution` (neighbors/gpdatagenerator.py:322-372): `default` is `st.norm` with parameters `(0, 1)`. -/
def bestFit (default : D × P) (cands : List (D × Option (P × K))) : D × P :=
  let s := cands.foldl bestFitStep (default.1, default.2, none)
  (s.1, s.2.1)

/-- `np.linspace(start, end, size)`. -/
def npLinspace (start stop : K) (size : Nat) : List K :=
  (List.range size).map (fun (i : Nat) => start + (i : K) * ((stop - start) / ((size - 1 : Nat) : K)))

/-- `get_distr_values` (neighbors/gpdatagenerator.py:274-288). -/
def getDistrValues [FloorRing K] (cbrt : Nat → K) (default : D × P) (fits : List K → Int → List (D × Option (P × K))) (ppf : D → P → K → K)
    (x : List K) (size : Nat) : Py (List K) := do
  let bins ← estimateNbrBins cbrt x
  let best := bestFit default (fits x bins)
  pure (npLinspace (ppf best.1 best.2 (1 / 100)) (ppf best.1 best.2 (99 / 100)) size)

end

end Teacher
