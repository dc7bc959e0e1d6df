import Verif.Model.DimensionTree
import Verif.Model.FullTensor

/-!
# Model of `tensap/tensor_algebra/tensors/tree_based_tensor.py`

A tree-based tensor is its tree and the tensor of each node (numbered from 1). `ranks`, `shape` and
`is_active_node`, which `update_attributes` stores, are functions of these. Simplifications: `is_orth` and
`orth_node` are not modelled; a node tensor freed by an assignment of `None` during a traversal keeps its value
(it is never read again); NumPy matrices and `FullTensor`s are both arrays.
-/

namespace Verif.TreeBased

open Verif.Arr Verif.DimTree

variable {R : Type}

/-- `TreeBasedTensor` (tree_based_tensor.py l.70-115). -/
structure TBT (R : Type) where
  tree : DTree
  tensors : Nat → Arr R

/-- Assignment `f[k] = v`. -/
def upd {α : Type} (f : Nat → α) (k : Nat) (v : α) : Nat → α := fun j => if j = k then v else f j

namespace TBT

/-- `order` (tree_based_tensor.py l.106). -/
def order (x : TBT R) : Nat := x.tree.dim2ind.length

/-- `is_active_node[nod - 1]` (tree_based_tensor.py l.2439): the tensor of the node is not empty. -/
def active (x : TBT R) (nod : Nat) : Bool := (x.tensors nod).shape.prod != 0

/-- `self.tensors[nod - 1].shape[-1]`. -/
def lastDim (x : TBT R) (nod : Nat) : Nat := (x.tensors nod).shape.getLast?.getD 0

/-- `ranks[nod - 1]` (tree_based_tensor.py l.2438-2464). -/
def rank (x : TBT R) (nod : Nat) : Nat :=
  if x.tree.isLeaf nod then (if x.active nod then x.lastDim nod else 0)
  else if x.tree.parent nod ≠ 0 ∨ (x.tensors nod).order = (x.tree.children nod).length + 1 then x.lastDim nod
  else 1

/-- The size of the dimension of the leaf `nod` (tree_based_tensor.py l.2457-2464). -/
def leafSize (x : TBT R) (nod : Nat) : Nat :=
  if x.active nod then (x.tensors nod).shape.getD 0 0
  else (x.tensors (x.tree.parent nod)).shape.getD (x.tree.childNumber nod - 1) 0

/-- `shape` (tree_based_tensor.py l.2455-2464). -/
def shape (x : TBT R) : List Nat := x.tree.dim2ind.map x.leafSize

end TBT

/-- The constructor `TreeBasedTensor(tensors, tree)` with `update_attributes` (tree_based_tensor.py l.101-110,
l.2428-2465): the internal nodes must be active. -/
def mk (tree : DTree) (tensors : Nat → Arr R) : Py (TBT R) :=
  if tree.internalNodes.all (fun i => (⟨tree, tensors⟩ : TBT R).active i) then .ok ⟨tree, tensors⟩
  else .error .notImplemented

/-- `fast_setdiff(tree.nodes_with_level(level), tree.dim2ind)` (tree_based_tensor.py l.536). -/
def internalAt (T : DTree) (lev : Nat → Nat) (l : Nat) : List Nat :=
  (T.nodesWithLevel lev l).filter (fun i => !T.isLeaf i)

/-- The body of the loop on the children of a node in `full` (tree_based_tensor.py l.540-551): the current tensor of
the node and the dimensions of its first axes. -/
def fullChild [CommSemiring R] (x : TBT R) (st : (Nat → Arr R) × (Nat → List Nat)) (p : Arr R × List Nat) (c : Nat) :
    Py (Arr R × List Nat) :=
  if x.active c then do
    let t ← FullTensor.tensordotT (st.1 c) p.1 [(st.1 c).order - 1] [p.2.length]
    .ok (t, st.2 c ++ p.2)
  else .ok (p.1, p.2 ++ st.2 c)

/-- The body of the loop on the nodes in `full` (tree_based_tensor.py l.537-552). -/
def fullNode [CommSemiring R] (x : TBT R) (st : (Nat → Arr R) × (Nat → List Nat)) (nod : Nat) :
    Py ((Nat → Arr R) × (Nat → List Nat)) := do
  let r ← (x.tree.children nod).foldlM (fullChild x st) (st.1 nod, [])
  .ok (upd st.1 nod r.1, upd st.2 nod r.2)

/-- `full()` (tree_based_tensor.py l.515-559), started with the attribute `tree.dims` equal to `D`. The new value of
this attribute is returned too: `full` overwrites it. -/
def fullWith [CommSemiring R] (x : TBT R) (D : Nat → List Nat) : Py (Arr R × (Nat → List Nat)) := do
  let r ← x.tree.root
  if x.order = 1 then
    let a := x.tensors r
    if a.order = 2 ∧ a.shape.getD 1 0 = 1 then do
      .ok (← FullTensor.squeezeT a [1], D)
    else .ok (a, D)
  else do
    let lev ← x.tree.level
    let st ← (List.range (x.tree.maxLevel lev + 1)).reverse.foldlM
      (fun st l => (internalAt x.tree lev l).foldlM (fullNode x) st) (x.tensors, D)
    let t := st.1 r
    let dims := st.2 r
    let dims := if t.order > x.order then dims ++ (List.range (t.order - x.order)).map (· + x.order) else dims
    if t.order > 1 then do
      .ok (← FullTensor.itransposeT t dims, st.2)
    else .ok (t, st.2)

/-- `full()` on a tree whose `dims` are those computed by its constructor. -/
def full [CommSemiring R] (x : TBT R) : Py (Arr R) := do
  let D ← x.tree.dims
  .ok (← fullWith x D).1

end Verif.TreeBased
