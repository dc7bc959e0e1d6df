import Verif.Model.TreeBasedOps
import Verif.Model.CanonicalTensor

/-!
# Model of the conversions to tree-based tensors

`tree_based_tensor` of `full_tensor.py`, `diagonal_tensor.py` and `canonical_tensor.py`.
-/

namespace Verif.TreeBased

open Verif.Arr Verif.DimTree Verif.Diagonal Verif.Canonical

variable {R : Type}

/-- `FullTensor.tree_based_tensor()` (full_tensor.py l.138-152). -/
def ofFull [Zero R] [One R] (x : Arr R) : Py (TBT R) :=
  mk (DTree.trivial x.order) (fun nod => if nod = 1 then x else eyeArr (x.shape.getD (nod - 2) 0))

/-- The tensor of a node of the tree of a diagonal tensor (diagonal_tensor.py l.125-134). -/
def equalNode [Zero R] [One R] (x : Dg R) (T : DTree) (act : Nat → Bool) (nod : Nat) : Arr R :=
  if T.parent nod = 0 then FullTensor.diag x.data (T.children nod).length
  else if T.isLeaf nod && act nod then eyeArr x.data.length
  else if act nod then FullTensor.diag (List.replicate x.data.length 1) ((T.children nod).length + 1)
  else emptyArr

/-- The test of l.129-136 for a node. -/
def diagRefused (T : DTree) (act : Nat → Bool) (nod : Nat) : Bool :=
  T.parent nod ≠ 0 && !(T.isLeaf nod && act nod) && !act nod && !T.isLeaf nod

/-- `DiagonalTensor.tree_based_tensor(tree, is_active_node)` (diagonal_tensor.py l.93-137). -/
def ofDiagonal [Zero R] [One R] (x : Dg R) (T : Option DTree) (act : Option (Nat → Bool)) : Py (TBT R) :=
  let T := T.getD (DTree.linear (List.range x.order))
  let act := act.getD (fun nod => !T.isLeaf nod)
  if T.nodes.any (diagRefused T act) then .error .valueError else mk T (equalNode x T act)

/-- The tensor of a node of the tree of a canonical tensor (canonical_tensor.py l.537-546). -/
def canonNode [Zero R] [One R] (x : Cn R) (T : DTree) (nod : Nat) : Arr R :=
  if T.isLeaf nod then x.space.getD (T.dim2ind.idxOf nod) ⟨[], fun _ => 0⟩
  else if T.parent nod = 0 then FullTensor.diag x.core (T.children nod).length
  else FullTensor.diag (List.replicate x.core.length 1) ((T.children nod).length + 1)

/-- `tensors[tree.dim2ind - 1] = self.space` (canonical_tensor.py l.546): NumPy makes an array of the list. If all the matrices of the
list have the same shape this is an array with three axes, which cannot be assigned; otherwise the list must have as many elements as
there are leaves (a list with one element is refused). -/
def assignable (space : List (Arr R)) (T : DTree) : Bool :=
  decide (space.length = T.dim2ind.length) && space.any (fun M => decide (M.shape ≠ (space.headD ⟨[], M.get⟩).shape))

/-- `CanonicalTensor.tree_based_tensor(tree, is_active_node)` (canonical_tensor.py l.515-552). -/
def ofCanonical [CommSemiring R] (x : Cn R) (T : DTree) (act : Option (Nat → Bool)) : Py (TBT R) := do
  if assignable x.space T then
    let out ← mk T (canonNode x T)
    match act with
    | none => .ok out
    | some a => inactivateNodes out (T.nodes.filter (fun i => !a i))
  else .error .valueError

end Verif.TreeBased
