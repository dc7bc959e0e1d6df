import Verif.Model.TreeBasedOps

/-!
# Model of `tensap/tensor_algebra/tensors/tree_based_tensor.py`: scalar products, orthogonalisation, norm
-/

namespace Verif.TreeBased

open Verif.Arr Verif.DimTree

variable {R : Type}

/-- `out[tree.dim2ind - 1] = matrices` (tree_based_tensor.py l.1877-1878), an assignment of a list of matrices to entries
of an array of objects. NumPy converts the list to an array of objects first: matrices with equal numbers of rows
are stacked in an array of order 2 or 3, which cannot be broadcast to the entries (`ValueError`). -/
def objAssign (T : DTree) (ms : List (Arr R)) (dflt : Arr R) : Py (Nat → Arr R) :=
  if ms.length ≠ T.dim2ind.length then .error .valueError
  else if ms.all (fun M => M.shape.getD 0 0 == (ms.getD 0 dflt).shape.getD 0 0) then .error .valueError
  else .ok (fun i => ms.getD (T.dim2ind.idxOf i) dflt)

/-- The body of the loop on the leaves in `dot_with_rank_one_metric` (tree_based_tensor.py l.1880-1887). -/
def dotLeaf [CommSemiring R] (x y : TBT R) (out : Nat → Arr R) (nod : Nat) : Py (Nat → Arr R) :=
  if x.active nod then do
    let tmp ← FullTensor.tensorMatrixProduct (y.tensors nod) [out nod] (some [0])
    let g ← FullTensor.tensordotT (x.tensors nod) tmp [0] [0]
    let g ← FullTensor.reshape g [x.lastDim nod, y.lastDim nod]
    .ok (upd out nod g)
  else .ok out

/-- The reshape of the matrix of a node below the root (tree_based_tensor.py l.1903-1906). -/
def dotReshape (x y : TBT R) (lev : Nat → Nat) (nod : Nat) (g : Arr R) : Py (Arr R) :=
  if lev nod ≠ 0 then FullTensor.reshape g [x.lastDim nod, y.lastDim nod] else .ok g

/-- The body of the loop on the internal nodes in `dot_with_rank_one_metric` (tree_based_tensor.py l.1893-1907). -/
def dotNode [CommSemiring R] (x y : TBT R) (r : Nat) (lev : Nat → Nat) (out : Nat → Arr R) (nod : Nat) :
    Py (Nat → Arr R) := do
  let o := (x.tensors nod).order
  let ord := if nod ≠ r ∨ x.rank r > 1 then List.range (o - 1) else List.range o
  let tmp ← FullTensor.tensorMatrixProduct (y.tensors nod) ((x.tree.children nod).map out) (some ord)
  let g ← FullTensor.tensordotT (x.tensors nod) tmp ord ord
  let g ← dotReshape x y lev nod g
  .ok (upd out nod g)

/-- The loops of `dot_with_rank_one_metric` (tree_based_tensor.py l.1880-1911), from the list of the matrices of the
leaves. Simplification: for a tree with one node the name `nod_level` is not defined; this is not distinguished. -/
def dotLoop [CommSemiring R] (x y : TBT R) (out : Nat → Arr R) : Py (Arr R) := do
  let r ← x.tree.root
  let lev ← x.tree.level
  let out ← x.tree.dim2ind.foldlM (dotLeaf x y) out
  let out ← (List.range (x.tree.maxLevel lev)).reverse.foldlM
    (fun out l => (internalAt x.tree lev l).foldlM (dotNode x y r lev) out) out
  .ok (out r)

/-- `dot_with_rank_one_metric(tensor2, matrices)` (tree_based_tensor.py l.1851-1911). -/
def dotMetric [CommSemiring R] (x y : TBT R) (ms : List (Arr R)) : Py (Arr R) := do
  let out ← objAssign x.tree ms ⟨[], fun _ => 0⟩
  dotLoop x y out

/-- `dot(tensor2)` (tree_based_tensor.py l.1649-1665). -/
def dot [CommSemiring R] (x y : TBT R) : Py (Arr R) := dotMetric x y (x.shape.map eyeArr)

end Verif.TreeBased
