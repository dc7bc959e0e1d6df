import Verif.Spec.TreeTensor

/-!
# Specification of the basis adaptation paths

The columns of the array of booleans of a dimension are sets of functions of its basis. A column of the path of a node is a choice of one set for
each axis of its tensor whose size is that of a basis; it keeps an entry of the tensor when each such subscript is in the chosen set.
-/

namespace Verif.TreeBased

open Verif.Arr Verif.DimTree

variable {R : Type}

/-- The array of booleans of the dimension of a leaf. -/
def setsOf (x : TBT R) (P : List (Arr Bool)) (c : Nat) : Arr Bool := P.getD (dimOf x.tree c) ⟨[], fun _ => false⟩

/-- The number of sets for the axis of the child `c`: one if `c` is active (all the subscripts are then kept). -/
def setCount (x : TBT R) (P : List (Arr Bool)) (c : Nat) : Nat := if x.active c then 1 else (setsOf x P c).shape.getD 1 0

/-- The set number `j` for the axis of the child `c` keeps the subscript `i`. -/
def AxisKeeps (x : TBT R) (P : List (Arr Bool)) (c i j : Nat) : Prop := x.active c = true ∨ (setsOf x P c).get [i, j] = true

/-- The numbers of sets for the axes of a node. For a leaf, the list of its sets is repeated twice. -/
def nodeCounts (x : TBT R) (P : List (Arr Bool)) (alpha : Nat) : List Nat :=
  if alpha ∈ x.tree.dim2ind then [2 * (setsOf x P alpha).shape.getD 1 0] else (x.tree.children alpha).map (setCount x P)

/-- The choice `jdx` of sets for the axes of the node `alpha` keeps the subscripts `idx` of its axes other than the rank axis. -/
def NodeKeeps (x : TBT R) (P : List (Arr Bool)) (alpha : Nat) (idx jdx : List Nat) : Prop :=
  if alpha ∈ x.tree.dim2ind then (setsOf x P alpha).get [idx.getD 0 0, jdx.getD 0 0 % (setsOf x P alpha).shape.getD 1 0] = true
  else ∀ t, t < (x.tree.children alpha).length → AxisKeeps x P ((x.tree.children alpha).getD t 0) (idx.getD t 0) (jdx.getD t 0)

/-- The sizes of the axes of the tensor of a node other than its rank axis. -/
def nodeAxes (x : TBT R) (alpha : Nat) : List Nat :=
  (x.tensors alpha).shape.take (if alpha ∈ x.tree.dim2ind then 1 else (x.tree.children alpha).length)

/-- One array of booleans per dimension, with one row per basis function and at least one set. -/
structure AreSets (x : TBT R) (P : List (Arr Bool)) : Prop where
  len : P.length = x.tree.dim2ind.length
  shape : ∀ c ∈ x.tree.dim2ind, ∃ m, 0 < m ∧ (setsOf x P c).shape = [x.leafSize c, m]

end Verif.TreeBased
