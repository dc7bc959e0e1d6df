import Verif.Model.TreeBasedTensor

/-!
# Model of `tensap/tensor_algebra/tensors/tree_based_tensor.py`: operations

`self` is never modified by the operations of this file: they work on copies of the list of the node tensors.
-/

namespace Verif.TreeBased

open Verif.Arr Verif.DimTree

variable {R : Type}

/-- `tensap.FullTensor([])`: the empty tensor of an inactive node. -/
def emptyArr [Zero R] : Arr R := ⟨[0], fun _ => 0⟩

/-- `active_nodes` (tree_based_tensor.py l.158-168). -/
def TBT.activeNodes (x : TBT R) : List Nat := x.tree.nodes.filter x.active

/-- `__neg__` (tree_based_tensor.py l.308-311): the root tensor is negated. -/
def neg [Neg R] (x : TBT R) : Py (TBT R) := do
  let r ← x.tree.root
  .ok ⟨x.tree, upd x.tensors r (FullTensor.neg (x.tensors r))⟩

/-- `__mul__` with a scalar (tree_based_tensor.py l.313-317), and `__rmul__` with a scalar (l.337-345). `__truediv__`
(l.355-359) is the case of the inverse of the scalar. -/
def smul [Mul R] (c : R) (x : TBT R) : Py (TBT R) := do
  let r ← x.tree.root
  .ok ⟨x.tree, upd x.tensors r (FullTensor.smul c (x.tensors r))⟩

/-- `FullTensor(np.eye(s), 2, [s, s])`. -/
def eyeArr [Zero R] [One R] (s : Nat) : Arr R := ⟨[s, s], fun idx => if idx.getD 0 0 = idx.getD 1 0 then 1 else 0⟩

/-- `activate_nodes(nodes)` (tree_based_tensor.py l.1121-1144). `dim2ind == nod` without a match is an `IndexError`. -/
def activateNodes [Zero R] [One R] (x : TBT R) (nodes : List Nat) : Py (TBT R) := do
  let ts ← nodes.foldlM (fun (ts : Nat → Arr R) nod =>
    if x.active nod then (.ok ts : Py _)
    else if nod ∈ x.tree.dim2ind then .ok (upd ts nod (eyeArr (x.shape.getD (x.tree.dim2ind.idxOf nod) 0)))
    else .error .indexError) x.tensors
  mk x.tree ts

/-- The axis of the node `nod` in the tensor of its parent: `child_number(nod) - 1`. -/
def childAxis (T : DTree) (nod : Nat) : Nat := T.childNumber nod - 1

/-- The body of the loops of `inactivate_nodes` (tree_based_tensor.py l.1099-1118). -/
def inactivateStep [CommSemiring R] (x : TBT R) (nodes : List Nat) (ts : Nat → Arr R) (nod : Nat) : Py (Nat → Arr R) :=
  if nod ∈ nodes ∧ x.active nod then do
    let p := x.tree.parent nod
    let a := childAxis x.tree nod
    let t ← FullTensor.tensordotT (ts nod) (ts p) [(ts nod).order - 1] [a]
    let t ← FullTensor.itransposeT t (a :: FullTensor.setdiffRange t.order [a])
    .ok (upd (upd ts p t) nod emptyArr)
  else .ok ts

/-- `inactivate_nodes(nodes)` (tree_based_tensor.py l.1078-1119). -/
def inactivateNodes [CommSemiring R] (x : TBT R) (nodes : List Nat) : Py (TBT R) := do
  if nodes.all (fun i => x.tree.dim2ind.contains i) then
    let lev ← x.tree.level
    let ts ← (List.range (x.tree.maxLevel lev + 1)).reverse.foldlM
      (fun ts l => (x.tree.nodesWithLevel lev l).foldlM (inactivateStep x nodes) ts) x.tensors
    mk x.tree ts
  else .error .valueError

/-- The positions of the children that are not inactive leaves (tree_based_tensor.py l.276-283). -/
def activeAxes (x : TBT R) (nod : Nat) : List Nat :=
  (List.range (x.tree.children nod).length).filter (fun k => x.active ((x.tree.children nod).getD k 0))

/-- The tensor of one node in `__add__` (tree_based_tensor.py l.272-297). -/
def addNode [AddZeroClass R] (x : TBT R) (r : Nat) (a b : Arr R) (nod : Nat) : Py (Arr R) :=
  if x.tree.isLeaf nod then
    if x.active nod then FullTensor.cat a b (some [1]) else .ok a
  else if nod = r then FullTensor.cat a b (some (activeAxes x nod))
  else if (activeAxes x nod).length < (x.tree.children nod).length then
    FullTensor.cat a b (some (activeAxes x nod ++ [a.order - 1]))
  else FullTensor.cat a b none

/-- A loop on all the nodes whose body replaces the tensor of the node. -/
def forNodes (T : DTree) (ts : Nat → Arr R) (f : Nat → Arr R → Py (Arr R)) : Py (Nat → Arr R) :=
  T.nodes.foldlM (fun ts nod => do .ok (upd ts nod (← f nod (ts nod)))) ts

/-- `__add__` (tree_based_tensor.py l.255-298). -/
def add [AddZeroClass R] [One R] (x y : TBT R) : Py (TBT R) := do
  let (x, y) ←
    if x.tree.n = y.tree.n ∧ x.tree.nodes.all (fun i => x.active i == y.active i) then (.ok (x, y) : Py (TBT R × TBT R))
    else do
      let x' ← activateNodes x y.activeNodes
      let y' ← activateNodes y x'.activeNodes
      .ok (x', y')
  if ← x.tree.eq y.tree then do
    let r ← x.tree.root
    let ts ← forNodes x.tree x.tensors (fun nod a => addNode x r a (y.tensors nod) nod)
    mk x.tree ts
  else .error .valueError

/-- `__sub__` (tree_based_tensor.py l.303-304). -/
def sub [AddZeroClass R] [One R] [Neg R] (x y : TBT R) : Py (TBT R) := do add x (← neg y)

/-- `kron(tensor2)` (tree_based_tensor.py l.1311-1332). -/
def kron [Mul R] (x y : TBT R) : Py (TBT R) := do
  let ts ← forNodes x.tree x.tensors (fun nod a => if x.active nod then FullTensor.kron a (y.tensors nod) else .ok a)
  mk x.tree ts

/-- `eval_at_indices(indices[dim], axis)` on a node tensor (tree_based_tensor.py l.682-688); `none` is `":"`. -/
def pickAxis (a : Arr R) (ind : Option (List Nat)) (axis : Nat) : Py (Arr R) :=
  match ind with
  | none => .ok a
  | some l => FullTensor.evalAtIndices a (l.map (fun i => [i])) (some [axis])

/-- The node tensor and its axis that carry the dimension of the leaf `nod` (tree_based_tensor.py l.679-688,
l.1368-1380). -/
def carrier (x : TBT R) (nod : Nat) : Nat × Nat :=
  if x.active nod then (nod, 0) else (x.tree.parent nod, childAxis x.tree nod)

/-- A loop on dimensions whose body replaces the tensor carrying the dimension. -/
def forDims {α : Type} (x : TBT R) (l : List (α × Nat)) (f : Arr R → α → Nat → Py (Arr R)) : Py (Nat → Arr R) :=
  l.foldlM (fun ts p => do
    let c := carrier x (x.tree.dim2ind.getD p.2 0)
    .ok (upd ts c.1 (← f (ts c.1) p.1 c.2))) x.tensors

/-- `sub_tensor(*indices)` (tree_based_tensor.py l.647-690). -/
def subTensor (x : TBT R) (indices : List (Option (List Nat))) : Py (TBT R) :=
  if indices.length ≠ x.order then .error .assertionError
  else do
    let ts ← forDims x indices.zipIdx pickAxis
    mk x.tree ts

/-- `tensor_matrix_product(matrices, dims)` (tree_based_tensor.py l.1334-1381). The matrix of the dimension `dim` is
the one at the first position of `dim` in `dims`. -/
def tensorMatrixProduct [CommSemiring R] (x : TBT R) (matrices : List (Arr R)) (dims : Option (List Nat) := none) :
    Py (TBT R) :=
  let dims := dims.getD (List.range x.order)
  if matrices.length ≠ dims.length then .error .assertionError
  else if dims.any (fun d => decide (x.order ≤ d)) then .error .indexError
  else do
    let ts ← forDims x (dims.map (fun d => (matrices.getD (dims.idxOf d) ⟨[], fun _ => 0⟩, d)))
      (fun a M axis => FullTensor.tensorMatrixProduct a [M] (some [axis]))
    mk x.tree ts

/-- `np.arange(0, n**2, n + 1)`. -/
def diagInd (n : Nat) : List Nat := (List.range n).map (fun i => i * (n + 1))

/-- `__mul__` with a tree-based tensor (tree_based_tensor.py l.318-331). -/
def mul [Mul R] (x y : TBT R) : Py (TBT R) := do
  let z ← kron x y
  let z ← subTensor z (x.shape.map (fun n => some (diagInd n)))
  let r ← x.tree.root
  let N := x.rank r
  if N > 1 then do
    let ry ← y.tree.root
    if y.rank ry ≠ N then .error .valueError
    else do
      let a := z.tensors r
      let t ← FullTensor.subTensor a ((List.replicate a.order none).set (a.order - 1) (some (diagInd N)))
      mk z.tree (upd z.tensors r t)
  else .ok z

end Verif.TreeBased
