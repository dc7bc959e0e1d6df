import Verif.Model.Gramians
import Verif.Model.TreeRanks
import Verif.Model.TreeBasedOps

/-!
# Model of short methods of `TreeBasedTensor` and of the complexities of `ModelSelection`
-/

namespace Verif.TreeBased
open Verif.Arr Verif.DimTree

variable {R : Type}

/-- `np.count_nonzero(s)`, where `s` is an entry of `singular_values()`: 0 for `None`. -/
noncomputable def countNonzero : Option (List ℝ) → Nat
  | none => 0
  | some s => (s.filter (fun v => decide (v ≠ 0))).length

/-- The property `rank` (tree_based_tensor.py l.145-156). -/
noncomputable def rankProp (qr : Arr ℝ → Arr ℝ × Arr ℝ) (svd : Truncation.Svd) (x : TBT ℝ) : Py (Nat → Nat) := do
  let sv ← singularValues qr svd x
  .ok (fun i => countNonzero (sv i))

/-- `FullTensor.sparse_storage()` (full_tensor.py l.259-269): `np.count_nonzero(data)`. -/
def nnz [Zero R] [DecidableEq R] (a : Arr R) : Nat := sumBox a.shape (fun i => if a.get i = 0 then 0 else 1)

/-- `sparse_storage()` (tree_based_tensor.py l.487-497). -/
def sparseStorage [Zero R] [DecidableEq R] (x : TBT R) : Nat := (x.tree.nodes.map (fun i => nnz (x.tensors i))).sum

/-- `sparse_leaves_storage()` (tree_based_tensor.py l.499-513). -/
def sparseLeavesStorage [Zero R] [DecidableEq R] (x : TBT R) : Nat :=
  (x.tree.internalNodes.map (fun i => (x.tensors i).shape.prod)).sum + (x.tree.dim2ind.map (fun c => nnz (x.tensors c))).sum

/-- `ModelSelection.complexity_tree_based_tensor(x, fun, c_type)` (model_selection.py l.241-289) for a tree-based tensor, `fn` is `x.fun()`.
Not modelled: the lists, on which the function is mapped, and the functional tensors, whose tensor is used. -/
def complexityTB (x : TBT R) (fn : Nat) (cType : String) : Py Rat :=
  if cType = "standard" then .ok fn
  else if cType = "grassman" then .ok (fn - (x.tree.nodes.map (fun i => ((x.rank i : Rat) ^ 2))).sum)
  else if cType = "stiefel" then .ok (fn - (x.tree.nodes.map (fun i => (x.rank i : Rat) * ((x.rank i : Rat) + 1) / 2)).sum)
  else .error .valueError

/-- `tensor_diagonal_matrix_product(matrices, dims)` (tree_based_tensor.py l.1383-1417). -/
def tensorDiagonalMatrixProductTB [CommSemiring R] (x : TBT R) (ms : List (List R)) (dims : Option (List Nat) := none) : Py (TBT R) :=
  if ms.length ≠ (dims.getD (List.range x.order)).length then .error .assertionError
  else tensorMatrixProduct x (ms.map (fun m => FullTensor.diag m 2)) (some (dims.getD (List.range x.order)))

/-- `M * x` with a matrix `M` that is not of size 1 (tree_based_tensor.py l.334-350): the tensor and the entry of its attribute `ranks` for
the root, which is assigned. -/
def rmulMat [CommSemiring R] (M : Arr R) (x : TBT R) : Py (TBT R × Nat) := do
  let r ← x.tree.root
  let c := M.shape.getD 1 0
  if c = x.rank r ∧ 1 < c then
    let t ← FullTensor.tensorMatrixProduct (x.tensors r) [M] (some [(x.tensors r).order - 1])
    .ok (⟨x.tree, upd x.tensors r t⟩, c)
  else .error .valueError

/-- The argument of `is_active_dim`. -/
inductive DimArg
  | int (d : Nat)
  | array (l : List Nat)

/-- `is_active_dim(dim)` (tree_based_tensor.py l.210-229): `np.isin` of an integer is an array without axis, that cannot be indexed by 0. The
result is a boolean (left) or an array of booleans. -/
def isActiveDim (x : TBT R) : DimArg → Py (Bool ⊕ List Bool)
  | .int _ => .error .indexError
  | .array l =>
    if l.any (fun d => decide (x.order ≤ d)) then .error .indexError
    else match l.map (fun d => x.active (x.tree.dim2ind.getD d 0)) with
      | [b] => .ok (.inl b)
      | bs => .ok (.inr bs)

end Verif.TreeBased
