import Verif.Spec.TreeTensor
import Mathlib.Data.Real.Basic

/-!
# Values of a functional tensor at points, and changes of one node tensor

Independent of the model of the gradient and of the learning algorithms.
-/

namespace Verif.TreeBased

open Verif.Arr

variable {R : Type}

/-- The values at points of the function with coefficients `a` (axes of sizes `shape`, then the axes of the outputs): `H` contains,
for each dimension, the matrix of the values of the basis functions (one row per point). Value of output `e` at point `k`. -/
def predict [CommSemiring R] (shape : List Nat) (H : List (Arr R)) (a : Arr R) (k : Nat) (e : List Nat) : R :=
  sumBox shape (fun idx => a.get (idx ++ e) * (List.zipWith (fun (M : Arr R) j => M.get [k, j]) H idx).prod)

/-- `x'` is obtained from `x` by changing the tensor of node `α`, with the same shape. -/
structure SameOff (x x' : TBT R) (α : Nat) : Prop where
  tree : x'.tree = x.tree
  off : ∀ j, j ≠ α → x'.tensors j = x.tensors j
  shape : (x'.tensors α).shape = (x.tensors α).shape

/-- All the nodes are active. -/
def AllActive (x : TBT R) : Prop := ∀ i, DimTree.IsNode x.tree i → x.active i = true

/-- The sum of the squared errors of the function with coefficients `a` at `n` points, with observations `y` (one row per point, then
the output axes, of sizes `E`). -/
noncomputable def risk (shape E : List Nat) (H : List (Arr ℝ)) (y a : Arr ℝ) (n : Nat) : ℝ :=
  ∑ k ∈ Finset.range n, sumBox E (fun e => (y.get (k :: e) - predict shape H a k e) ^ 2)

end Verif.TreeBased
