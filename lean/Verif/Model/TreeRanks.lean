import Verif.Model.TreeBasedTensor

/-!
# Model of `TreeBasedTensor.is_admissible_rank` and `storage` (tree_based_tensor.py l.408-485)
-/

namespace Verif.TreeBased
open DimTree

variable {R : Type}

/-- `ranks[idx - 1] = values` (NumPy fancy assignment), on an array seen as a function of the node. -/
def assignAll (f : Nat → Nat) (idx values : List Nat) : Nat → Nat :=
  (idx.zip values).foldl (fun f p => upd f p.1 p.2) f

/-- `fast_intersect(tree.dim2ind, self.non_active_nodes)`: the inactive leaves in increasing order. -/
def inactiveLeaves (x : TBT R) : List Nat := x.tree.nodes.filter (fun i => x.tree.isLeaf i && !x.active i)

/-- `non_active_dims` (tree_based_tensor.py l.194-208): the dimensions of the inactive leaves, increasing. -/
def inactiveDims (x : TBT R) : List Nat :=
  (List.range x.order).filter (fun d => !x.active (x.tree.dim2ind.getD d 0))

/-- The conditions at an internal node (tree_based_tensor.py l.454-463). -/
def nodeAdmissible (x : TBT R) (rk : Nat → Nat) (nod : Nat) : Bool :=
  decide (rk nod ≤ ((x.tree.children nod).map rk).prod) &&
  ((x.tree.children nod).filter x.active).all (fun c =>
    decide (rk c ≤ rk nod * (((x.tree.children nod).filter (· != c)).map rk).prod))

/-- `is_admissible_rank(ranks)` (tree_based_tensor.py l.433-472). Simplification: `ranks` has one entry per
node and is seen as a function of the node; only the first output is modelled. -/
def isAdmissible (x : TBT R) (ranks : Nat → Nat) : Py Bool := do
  let r ← x.tree.root
  let rk := upd ranks r 1
  if (x.tree.nodes.filter (fun i => !x.active i)).any (fun i => rk i != 0) then .ok false
  else
    let rk := assignAll rk (inactiveLeaves x) ((inactiveDims x).map (fun d => x.shape.getD d 0))
    .ok ((x.tree.internalNodes.filter x.active).all (nodeAdmissible x rk) &&
      (x.tree.nodes.filter (fun i => x.tree.isLeaf i && x.active i)).all
        (fun i => decide (rk i ≤ (x.tensors i).shape.getD 0 0)))

/-- `storage()` (tree_based_tensor.py l.475-485): the sum of the numbers of entries of the node tensors. -/
def storage (x : TBT R) : Nat := (x.tree.nodes.map (fun i => (x.tensors i).shape.prod)).sum

end Verif.TreeBased
