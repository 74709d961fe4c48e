import Mathlib.Data.Int.Log
import Mathlib.Data.Rat.Floor
import Verif.Spec.Rounded

/-!
# IEEE 754 arithmetic without overflow

Rounding to nearest, ties to even, to binary floating point numbers with `p` significant bits and smallest positive number `2^emin` (gradual
underflow). binary64, the numbers of Python and numpy: `p = 53`, `emin = -1074`. The largest number is ignored: there is no overflow.
-/

namespace Teacher.Spec
open Teacher

/-- the nearest integer, the even one if there are two. -/
def halfEven (x : ℚ) : ℤ :=
  if x - ⌊x⌋ < 1 / 2 then ⌊x⌋ else if 1 / 2 < x - ⌊x⌋ then ⌊x⌋ + 1 else if ⌊x⌋ % 2 = 0 then ⌊x⌋ else ⌊x⌋ + 1

/-- exponent of the last bit of the numbers around `x`: `p` bits from the leading one, but not below `emin`. -/
def lastBit (p : Nat) (emin : ℤ) (x : ℚ) : ℤ := max (Int.log 2 |x| - ((p : ℤ) - 1)) emin

/-- rounding to nearest, ties to even. -/
def ieeeRound (p : Nat) (emin : ℤ) (x : ℚ) : ℚ := halfEven (x / 2 ^ lastBit p emin x) * 2 ^ lastBit p emin x

/-- an order of summation: a binary tree whose leaves are positions. -/
inductive SumTree where
  | leaf (i : Nat)
  | node (l r : SumTree)

/-- the positions of a tree. -/
def SumTree.leaves : SumTree → List Nat
  | .leaf i => [i]
  | .node l r => l.leaves ++ r.leaves

/-- the sum in the order given by the tree, with a rounding after each addition. -/
def SumTree.eval (fl : ℚ → ℚ) (xs : List ℚ) : SumTree → ℚ
  | .leaf i => (xs[i]?).getD 0
  | .node l r => fl (l.eval fl xs + r.eval fl xs)

/-- IEEE arithmetic; `order n` is the order in which `ndarray.sum()` adds `n` numbers (in numpy, pairwise summation of blocks). -/
def ieee (p : Nat) (emin : ℤ) (order : Nat → SumTree) : Arith ℚ where
  fl := ieeeRound p emin
  sum := fun xs => if xs = [] then 0 else (order xs.length).eval (ieeeRound p emin) xs

/-- a loop that adds the numbers at the positions `i`, `i + step`, …, `i + m * step`. -/
def loopOrder (i step : Nat) : Nat → SumTree
  | 0 => .leaf i
  | m + 1 => .node (loopOrder i step m) (.leaf (i + step * (m + 1)))

/-- numpy's sum of 8 to 128 numbers from position `off`: eight running sums, added pairwise, then the remaining numbers. -/
def blockOrder (off n : Nat) : SumTree :=
  let r := fun k => loopOrder (off + k) 8 (n / 8 - 1)
  (List.range (n % 8)).foldl (fun t j => .node t (.leaf (off + (8 * (n / 8) + j))))
    (.node (.node (.node (r 0) (r 1)) (.node (r 2) (r 3))) (.node (.node (r 4) (r 5)) (.node (r 6) (r 7))))

/-- numpy's pairwise summation of `n` numbers from position `off` (`pairwise_sum` in numpy's `loops_utils.h.src`); the first number is the fuel
of the recursion. -/
def pairwiseOrder : Nat → Nat → Nat → SumTree
  | 0, off, n => loopOrder off 1 (n - 1)
  | fuel + 1, off, n =>
    if n < 8 then loopOrder off 1 (n - 1)
    else if n ≤ 128 then blockOrder off n
    else .node (pairwiseOrder fuel off (n / 2 - n / 2 % 8)) (pairwiseOrder fuel (off + (n / 2 - n / 2 % 8)) (n - (n / 2 - n / 2 % 8)))

/-- the order in which `ndarray.sum()` adds `n` numbers. -/
def numpyOrder (n : Nat) : SumTree := pairwiseOrder n 0 n

/-- the numbers of Python and numpy, without overflow. -/
def binary64 : Arith ℚ := ieee 53 (-1074) numpyOrder

end Teacher.Spec
