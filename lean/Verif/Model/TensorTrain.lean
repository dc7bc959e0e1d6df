import Verif.Model.TreeBasedTensor
import Verif.Model.FullTensor

/-!
# Model of `TreeBasedTensor.tensor_train` (tree_based_tensor.py)
-/

namespace Verif.TreeBased
open DimTree

variable {R : Type}

/-- The loop `tensors[nod - 1] = cores[dim]; nod = tree.parent(nod)` (tree_based_tensor.py l.2696-2699). -/
def ttAssign (T : DTree) : Nat → List (Arr R) → (Nat → Arr R) → Nat → Arr R
  | _, [], ts => ts
  | nod, G :: Gs, ts => ttAssign T (T.parent nod) Gs (upd ts nod G)

/-- `cores[np.argsort(dims)]` (tree_based_tensor.py l.2692-2693); `isArray` tells whether `cores` is a numpy array. A list cannot be
indexed by an array. When the numbers of cores and of dimensions differ, this indexing or the loop raises `IndexError`. -/
def ttCores (cores : List (Arr R)) (isArray : Bool) : Option (List Nat) → Py (List (Arr R))
  | none => .ok cores
  | some dims =>
    if !isArray then .error .typeError
    else if dims.length ≠ cores.length then .error .indexError
    else (FullTensor.argsort dims).mapM (fun i => match cores[i]? with
      | some G => .ok G
      | none => .error .indexError)

/-- `TreeBasedTensor.tensor_train(cores, dims)` (tree_based_tensor.py l.2670-2703), for at least two cores. Simplification: the empty
tensor `FullTensor([])` of the inactive leaves has shape `[0]`. -/
def tensorTrain [Zero R] (cores : List (Arr R)) (isArray : Bool) (dims : Option (List Nat)) : Py (TBT R) := do
  let T := DTree.linear (List.range cores.length)
  let cores' ← ttCores cores isArray dims
  let ts := ttAssign T (T.dim2ind.headD 0) cores' (fun _ => ⟨[0], fun _ => 0⟩)
  mk T (T.dim2ind.tail.foldl (fun ts c => upd ts c ⟨[0], fun _ => 0⟩) ts)

end Verif.TreeBased
