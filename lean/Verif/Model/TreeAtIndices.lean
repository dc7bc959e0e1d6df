import Verif.Model.TreeEval
import Verif.Model.TreeSqueeze

/-!
# Model of `tensap/tensor_algebra/tensors/tree_based_tensor.py`: `eval_at_indices`

A matrix of indices is the list of its rows with its number of columns (`np.atleast_2d` turns a vector into one row).
-/

namespace Verif.TreeBased

open Verif.Arr Verif.DimTree

variable {R : Type}

/-- `indices[:, k]`. -/
def indexColumn (I : List (List Nat)) (k : Nat) : List Nat := I.map (fun row => row.getD k 0)

/-- The selections of all the dimensions, the matrix being transposed when its number of columns is not the order
(tree_based_tensor.py l.1185-1188). -/
def allSelections (order : Nat) (I : List (List Nat)) (cols : Nat) : Py (List (Option (List Nat))) :=
  if cols = order then .ok ((List.range order).map (fun d => some (indexColumn I d)))
  else if I.length = order then .ok (I.map some)
  else .error .assertionError

/-- `tmp[dim] = indices[:, ind]` (l.1181-1182). -/
def selectionStep (I : List (List Nat)) (tmp : List (Option (List Nat))) (p : Nat × Nat) : Py (List (Option (List Nat))) :=
  if p.1 < tmp.length then .ok (tmp.set p.1 (some (indexColumn I p.2))) else .error .indexError

/-- The selections for the dimensions `dims` (l.1177-1183), nonnegative. -/
def dimsSelections (order : Nat) (I : List (List Nat)) (cols : Nat) (dims : List Nat) : Py (List (Option (List Nat))) :=
  if cols ≠ dims.length then .error .assertionError
  else dims.zipIdx.foldlM (selectionStep I) (List.replicate order none)

/-- `eval_at_indices(indices)` (l.1174-1175, l.1184-1190, l.1195-1197). -/
def evalAtIndices [CommSemiring R] (x : TBT R) (I : List (List Nat)) (cols : Nat) : Py (Arr R) := do
  let sel ← allSelections x.order I cols
  let s ← subTensor x sel
  evalDiag s

/-- `eval_at_indices(indices, dims)` (l.1174-1183, l.1190-1197). `eval_diag(dims)` (l.1259-1288), used for several dimensions and
several points, is not modelled: it is the parameter `diag`. -/
def evalAtIndicesDims [CommSemiring R] (diag : TBT R → List Nat → Py (Squeezed R)) (x : TBT R) (I : List (List Nat)) (cols : Nat)
    (dims : List Nat) : Py (Squeezed R) := do
  let sel ← dimsSelections x.order I cols dims
  let s ← subTensor x sel
  if 1 < dims.length ∧ I.length = 1 then squeezeTB s none
  else if 1 < dims.length then diag s dims
  else .ok (.tree s)

end Verif.TreeBased
