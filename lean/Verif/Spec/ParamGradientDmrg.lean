import Verif.Spec.Regression

/-!
# Change of the tensors of two nodes, and merge of two nodes

Independent of the model of the gradient.
-/

namespace Verif.TreeBased

open Verif.Arr

variable {R : Type}

/-- The sizes of the axes of node `α` without its rank. -/
def ownSizes (x : TBT R) (α : Nat) : List Nat := (x.tensors α).shape.dropLast

/-- `x'` is obtained from `x` by changing the tensors of the nodes `α` and `γ`: the rank of `α` may change, but neither its other sizes
nor the rank of `γ`. -/
structure SamePair (x x' : TBT R) (α γ : Nat) : Prop where
  tree : x'.tree = x.tree
  off : ∀ j, j ≠ α → j ≠ γ → x'.tensors j = x.tensors j
  own : ownSizes x' α = ownSizes x α
  rank : rankShape x' γ = rankShape x γ

/-- The entry of the tensor obtained by merging node `α` with its parent `γ`: `s` are the subscripts of `α` without its rank, `t` those
of `γ` along its other children, `e` those of `γ` that follow. -/
def mergedEntry [CommSemiring R] (x : TBT R) (α γ : Nat) (s t e : List Nat) : R :=
  ∑ i ∈ Finset.range (x.lastDim α), (x.tensors α).get (s ++ [i]) *
    (x.tensors γ).get (t.insertIdx ((x.tree.children γ).idxOf α) i ++ e)

/-- The sizes of the axes of node `γ` along its children other than `α`. -/
def siblingSizes (x : TBT R) (α γ : Nat) : List Nat := ((x.tree.children γ).filter (fun c => c != α)).map x.lastDim

end Verif.TreeBased
