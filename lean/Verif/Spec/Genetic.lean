import Verif.Model.Genetic
import Verif.Spec.Factual

/-! # Specification of the genetic algorithm -/

namespace Teacher.Spec

variable {R K V : Type}

/-- what numpy promises: `random()` is in [0, 1) and `choice(n, k)` gives `k` indices below `n` (for `n > 0`). -/
structure FairRng [Zero K] [One K] [LinearOrder K] (rng : Rng R K V) : Prop where
  random : ∀ r, 0 ≤ (rng.random r).1 ∧ (rng.random r).1 < 1
  choice : ∀ n k r, 0 < n → (rng.choice n k r).1.length = k ∧ ∀ i ∈ (rng.choice n k r).1, i < n

/-- the addresses `pop` hold the individuals `inds`. -/
def Holds (h : Heap V) (pop : List Nat) (inds : List (List V)) : Prop := List.Forall₂ (fun a l => h[a]? = some l) pop inds

/-- how many individuals have at least fitness `v`. -/
def atLeast [LinearOrder K] (fit : List V → K) (v : K) (inds : List (List V)) : Nat := inds.countP (fun l => v ≤ fit l)

/-- the `k`-th best fitness (counting from 0). -/
def kthBest [LinearOrder K] (fit : List V → K) (inds : List (List V)) (k : Nat) : Option K :=
  ((inds.map fit).insertionSort (fun a b => b ≤ a))[k]?

/-- the results of `m` consecutive calls `choice(n, k)` from the random state `r`. -/
def draws (rng : Rng R K V) (n k : Nat) : Nat → R → List (List Nat)
  | 0, _ => []
  | m + 1, r => (rng.choice n k r).1 :: draws rng n k m (rng.choice n k r).2

/-- `out` consists of the `n` individuals of `l` of largest fitness, best first; among equals those that come first in `l`. -/
def IsBestOf [LinearOrder K] (fit : List V → K) (n : Nat) (l out : List (List V)) : Prop :=
  ∃ sorted, SortedDesc fit l sorted ∧ out = sorted.take n

end Teacher.Spec
