import Verif.Spec.TreeTensor
import Mathlib.Data.Real.Basic

/-!
# Specification: the nodes whose rank can be increased
-/

namespace Verif.TreeBased
open DimTree

/-- `v` is the smallest of the singular values `s`. -/
def SmallestOf (s : List ℝ) (v : ℝ) : Prop := v ∈ s ∧ ∀ w ∈ s, v ≤ w

/-- The node `i` has the value `v`: it is not the root; it is not an active leaf whose tensor has only one size; its rank in the
corrected tensor is the one asked; `v` is the smallest of its singular values, and is not almost zero (less than `2⁻⁵²` times the norm). -/
def NodeValue (x : TBT ℝ) (sRank tRank : Nat → Nat) (sing : Nat → Option (List ℝ)) (norm : ℝ) (i : Nat) (v : ℝ) : Prop :=
  ¬ IsRoot x.tree i ∧ ¬ (i ∈ x.tree.dim2ind ∧ x.active i ∧ ∃ n, (x.tensors i).shape ≠ [] ∧ ∀ m ∈ (x.tensors i).shape, m = n) ∧
    sRank i = tRank i ∧ (∃ s, sing i = some s ∧ SmallestOf s v) ∧ ¬ v / norm < 2⁻¹ ^ 52

/-- The nodes whose rank cannot be increased: the root; the leaves without a value; the nodes with a rank equal to the product of the
ranks of their children, none of which can be increased. -/
inductive Blocked (x : TBT ℝ) (val : Nat → ℝ → Prop) : Nat → Prop
  | root (i : Nat) : IsRoot x.tree i → Blocked x val i
  | leaf (i : Nat) : i ∈ x.tree.dim2ind → (∀ v, ¬ val i v) → Blocked x val i
  | node (i : Nat) : IsNode x.tree i → i ∉ x.tree.dim2ind → (∀ c, Edge x.tree i c → Blocked x val c) →
      x.rank i = ((x.tree.children i).map x.rank).prod → Blocked x val i

end Verif.TreeBased
