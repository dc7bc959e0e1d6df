import Verif.Np.Arr
import Mathlib.Algebra.BigOperators.Group.Finset.Basic
import Mathlib.Algebra.Ring.Defs

/-!
# Specification: the tensor-train format
-/

namespace Verif.TreeBased
open Finset

variable {R : Type}

/-- The product of the slices `i₀, …, iₖ` of the first `k + 1` cores, as a vector: the first core has the axes `(i₀, s)`, the following ones
the axes `(a, iₖ, s)`. -/
def ttVec [CommSemiring R] (G : Nat → Arr R) (idx : List Nat) : Nat → Nat → R
  | 0, s => (G 0).get [idx.getD 0 0, s]
  | k + 1, s => ∑ a ∈ range ((G (k + 1)).shape.getD 0 0), ttVec G idx k a * (G (k + 1)).get [a, idx.getD (k + 1) 0, s]

/-- The entry of the tensor train with `d` cores; the last core has the axes `(a, i_{d-1})`, and possibly an output axis `e`. -/
def ttEntry [CommSemiring R] (G : Nat → Arr R) (d : Nat) (idx e : List Nat) : R :=
  ∑ a ∈ range ((G (d - 1)).shape.getD 0 0), ttVec G idx (d - 2) a * (G (d - 1)).get (a :: idx.getD (d - 1) 0 :: e)

/-- The `d` cores have compatible positive sizes: `n k` in dimension `k`, `r k` between the cores `k - 1` and `k`, `tail` is the shape of the
output of the last core (no axis or one axis). -/
structure TTShapes (G : Nat → Arr R) (d : Nat) (n r : Nat → Nat) (tail : List Nat) : Prop where
  first : (G 0).shape = [n 0, r 1]
  middle : ∀ k, 1 ≤ k → k < d - 1 → (G k).shape = [r k, n k, r (k + 1)]
  last : (G (d - 1)).shape = r (d - 1) :: n (d - 1) :: tail
  short : tail.length ≤ 1
  posN : ∀ k, k < d → 0 < n k
  posR : ∀ k, 1 ≤ k → k < d → 0 < r k
  posT : tail.prod ≠ 0

end Verif.TreeBased
