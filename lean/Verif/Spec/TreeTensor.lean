import Verif.Model.TreeBasedTensor
import Verif.Spec.Tree
import Verif.Spec.Tensor

/-!
# Specification of tree-based tensors

The entries of a tree-based tensor, by the usual hierarchical formula, and the conditions on the shapes of the node
tensors. `idx` is a tuple of subscripts, one per dimension.
-/

namespace Verif.TreeBased

open Verif.Arr Verif.DimTree Finset

variable {R : Type}

/-- The dimension of a leaf. -/
def dimOf (T : DTree) (c : Nat) : Nat := T.dim2ind.idxOf c

/-- `∑ V(c₁)[s₁] ⋯ V(cₘ)[sₘ] k(s₁, …, sₘ)` over the rank indices `sⱼ` of the children `cⱼ`. A child that is an
inactive leaf has no rank index: `sⱼ` is then the subscript of its dimension, without a sum. -/
def childSum [CommSemiring R] (x : TBT R) (V : Nat → List Nat → List Nat → R) (idx : List Nat) :
    List Nat → (List Nat → R) → R
  | [], k => k []
  | c :: cs, k =>
    if x.active c then ∑ s ∈ range (x.lastDim c), V c idx [s] * childSum x V idx cs (fun t => k (s :: t))
    else childSum x V idx cs (fun t => k (idx.getD (dimOf x.tree c) 0 :: t))

/-- `V i idx e` is the value of the node `i` at the subscripts `idx` and at the rank subscript `e` (a list with one
element, empty for a root without rank axis): the entry of the matrix of an active leaf; for an internal node the sum
over the rank indices of the children of the entry of the node tensor times the values of the children. -/
structure IsValue [CommSemiring R] (x : TBT R) (V : Nat → List Nat → List Nat → R) : Prop where
  leaf : ∀ c ∈ x.tree.dim2ind, x.active c → ∀ idx e, V c idx e = (x.tensors c).get (idx.getD (dimOf x.tree c) 0 :: e)
  node : ∀ i, IsNode x.tree i → i ∉ x.tree.dim2ind → ∀ idx e,
    V i idx e = childSum x V idx (x.tree.children i) (fun t => (x.tensors i).get (t ++ e))

/-- The size of the axis of a child in the tensor of its parent. -/
def childSize (x : TBT R) (c : Nat) : Nat := if x.active c then x.lastDim c else x.leafSize c

/-- The shape of the rank axis of a node: one axis, or none for the root. -/
def rankShape (x : TBT R) (i : Nat) : List Nat := (x.tensors i).shape.drop (x.tree.children i).length

/-- A well-formed tree-based tensor of order at least two: a valid tree; the tensor of an active leaf is a matrix; the
tensor of an internal node is not empty and has one axis per child, of the right size, and a rank axis (optional for
the root). -/
structure WF (x : TBT R) : Prop where
  valid : Valid x.tree
  order : 2 ≤ x.tree.dim2ind.length
  leaf : ∀ c ∈ x.tree.dim2ind, x.active c → ∃ n r, (x.tensors c).shape = [n, r]
  node : ∀ i, IsNode x.tree i → i ∉ x.tree.dim2ind → x.active i = true ∧
    (x.tensors i).shape = (x.tree.children i).map (childSize x) ++ rankShape x i ∧
    (rankShape x i).length ≤ 1 ∧ (¬ IsRoot x.tree i → (rankShape x i).length = 1)

end Verif.TreeBased
