import Verif.Model.TreeDot

/-!
# Model of `tensap/tensor_algebra/tensors/tree_based_tensor.py`: `tensor_matrix_product_eval_diag`, `eval_diag`
-/

namespace Verif.TreeBased

open Verif.Arr Verif.DimTree

variable {R : Type}

/-- `tmp = l[0]; for k in range(1, len(l)): tmp = tmp.outer_product_eval_diag(l[k], 0, 0)`
(tree_based_tensor.py l.1499-1503, l.1510-1516, l.1234-1238; full_tensor.py l.1116-1141). -/
def outerChain [CommSemiring R] : List (Arr R) → Arr R
  | [] => ⟨[], fun _ => 0⟩
  | a :: l => l.foldl (fun tmp b => FullTensor.tensordotEvalDiag tmp b [] [] [0] [0]) a

/-- `np.arange(1, tmp.order)`. -/
def tailAxes (a : Arr R) : List Nat := List.range' 1 (a.order - 1)

/-- The contraction of a node tensor with the active children (tree_based_tensor.py l.1498-1508). -/
def evalActive [CommSemiring R] (x : TBT R) (ts : Nat → Arr R) (nod : Nat) (act : List Nat) : Py (Arr R) :=
  if act.isEmpty then .ok (ts nod)
  else
    let tmp := outerChain (act.map ts)
    FullTensor.tensordotT tmp (ts nod) (tailAxes tmp) (act.map (childAxis x.tree))

/-- The contraction of a node tensor with the matrices of the inactive children (tree_based_tensor.py l.1509-1531). -/
def evalInactive [CommSemiring R] (x : TBT R) (ms : List (Arr R)) (a : Arr R) (act inact : List Nat) : Py (Arr R) :=
  if inact.isEmpty then .ok a
  else
    let tmp := outerChain (inact.map (fun c => ms.getD (x.tree.dim2ind.idxOf c) ⟨[], fun _ => 0⟩))
    if act.isEmpty then FullTensor.tensordotT tmp a (tailAxes tmp) (inact.map (childAxis x.tree))
    else .ok (FullTensor.tensordotEvalDiag tmp a (tailAxes tmp) (tailAxes tmp) [0] [0])

/-- The body of the loop on the nodes (tree_based_tensor.py l.1490-1531). -/
def evalNode [CommSemiring R] (x : TBT R) (ms : List (Arr R)) (ts : Nat → Arr R) (nod : Nat) : Py (Nat → Arr R) := do
  let act := (x.tree.children nod).filter x.active
  let inact := (x.tree.children nod).filter (fun c => !x.active c)
  let a ← evalActive x ts nod act
  let a ← evalInactive x ms a act inact
  .ok (upd ts nod a)

/-- `tensor_matrix_product_eval_diag(matrices)` (tree_based_tensor.py l.1478-1532, 1541), without `dims`. -/
def tensorMatrixProductEvalDiag [CommSemiring R] (x : TBT R) (ms : List (Arr R)) : Py (Arr R) := do
  let ind := (List.range x.order).filter (fun d => x.active (x.tree.dim2ind.getD d 0))
  let z ← tensorMatrixProduct x (ind.map (fun d => ms.getD d ⟨[], fun _ => 0⟩)) (some ind)
  let r ← x.tree.root
  let lev ← x.tree.level
  let ts ← (List.range (x.tree.maxLevel lev + 1)).reverse.foldlM
    (fun ts l => ((internalAt x.tree lev l).filter x.active).foldlM (evalNode x ms) ts) z.tensors
  .ok (ts r)

/-- The body of the loop of `eval_diag` (tree_based_tensor.py l.1225-1254). `children`, `ind_active` and `ind_inactive` are the
positions in the list of children. -/
def diagNode [CommSemiring R] (x : TBT R) (ts : Nat → Arr R) (nod : Nat) : Py (Nat → Arr R) := do
  let cs := x.tree.children nod
  let act := cs.filter x.active
  let inact := cs.filter (fun c => !x.active c)
  let tmp := outerChain (act.map ts)
  let a ← if act.isEmpty then FullTensor.evalDiag (ts nod) (some (List.range cs.length))
    else if inact.isEmpty then FullTensor.tensordotT tmp (ts nod) (tailAxes tmp) (act.map (fun c => cs.idxOf c))
    else .ok (FullTensor.tensordotEvalDiag tmp (ts nod) (tailAxes tmp) (act.map (fun c => cs.idxOf c)) [0]
      (inact.map (fun c => cs.idxOf c)))
  .ok (upd ts nod a)

/-- `eval_diag()` (tree_based_tensor.py l.1218-1257), without `dims`. -/
def evalDiag [CommSemiring R] (x : TBT R) : Py (Arr R) := do
  let r ← x.tree.root
  let lev ← x.tree.level
  let ts ← (List.range (x.tree.maxLevel lev)).reverse.foldlM
    (fun ts l => (internalAt x.tree lev l).foldlM (diagNode x) ts) x.tensors
  .ok (ts r)

end Verif.TreeBased
