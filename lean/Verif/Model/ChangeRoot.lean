import Verif.Model.TreeSurgery
import Verif.Model.TreeBasedOps

/-!
# Model of `TreeBasedTensor.change_root`

tree_based_tensor.py l.573-645.
-/

namespace Verif.TreeBased

open Verif.Arr Verif.DimTree

variable {R : Type}

/-- `p = t.parent(k); p = p[p != 0]` (tree_based_tensor.py l.620-621): an array with the parent, or an empty array. -/
def parentList (T : DTree) (k : Nat) : List Nat := if T.parent k = 0 then [] else [T.parent k]

/-- `np.concatenate((t.children(k), p))` (tree_based_tensor.py l.622-623, l.626-627). -/
def nbrs (T : DTree) (k : Nat) : List Nat := T.children k ++ parentList T k

/-- `np.concatenate([np.where(old == l0)[0] for l0 in new])` (tree_based_tensor.py l.628, l.641). -/
def axesOf (old new : List Nat) : List Nat :=
  new.flatMap (fun l0 => (List.range old.length).filter (fun i => old.getD i 0 == l0))

/-- The body of the loop on the modified nodes (tree_based_tensor.py l.618-629). -/
def rerootStep (x : TBT R) (tnew : DTree) (ts : Nat → Arr R) (k : Nat) : Py (Nat → Arr R) :=
  if x.active k && !x.tree.isLeaf k then do
    .ok (upd ts k (← FullTensor.transposeT (ts k) (axesOf (nbrs x.tree k) (nbrs tnew k))))
  else .ok ts

/-- The treatment of a leaf that becomes the root (tree_based_tensor.py l.630-642): an empty node is added after the other nodes and
the matrix of the leaf is transposed if needed. -/
def rerootLeaf [Zero R] (x : TBT R) (tnew : DTree) (nod : Nat) (ts : Nat → Arr R) : Py (Nat → Arr R) :=
  if x.tree.isLeaf nod then do
    let a ← FullTensor.transposeT (ts nod) (axesOf ((x.tree.n + 1) :: parentList x.tree nod) (tnew.children nod))
    .ok (upd (upd ts (x.tree.n + 1) emptyArr) nod a)
  else .ok ts

/-- `change_root(nod)` (tree_based_tensor.py l.573-645) for an existing node number. The branch of a root of rank greater than one
calls the method `addChild`, which `DimensionTree` does not have (its name is `add_child`): `AttributeError`. -/
def changeRoot [Zero R] (x : TBT R) (nod : Nat) : Py (TBT R) := do
  let r ← x.tree.root
  if nod = r then .ok x
  else if !x.active nod then .error .assertionError
  else if 1 < x.rank r then .error .attributeError
  else do
    let (tnew, M) ← x.tree.changeRoot nod
    let ts ← M.foldlM (rerootStep x tnew) x.tensors
    let ts ← rerootLeaf x tnew nod ts
    mk tnew ts

end Verif.TreeBased
