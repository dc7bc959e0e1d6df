import Verif.Model.TreeBasedTensor
import Verif.Model.TreeBasedOps

/-!
# Model of `TreeBasedTensor.squeeze`, `remove_unique_children` and `tensor_vector_product`

tree_based_tensor.py l.380-406, l.1419-1453, l.1543-1647.
-/

namespace Verif.TreeBased

open Verif.Arr Verif.DimTree

variable {R : Type}

/-- The body of the loop on the children of a node in `squeeze` (tree_based_tensor.py l.1582-1589): `p` is the child
and its number, `ind` the list of the removed nodes. -/
def squeezeChild [CommSemiring R] (x : TBT R) (ind : List Nat) (nod : Nat) (ts : Nat → Arr R) (p : Nat × Nat) :
    Py (Nat → Arr R) :=
  if x.active p.1 && ind.contains p.1 then do
    let m := if (ts p.1).order = 1 then (ts p.1).reshapeF [1, (ts p.1).shape.prod] else ts p.1
    let t ← FullTensor.tensorMatrixProduct (ts nod) [m] (some [p.2])
    .ok (upd (upd ts nod t) p.1 emptyArr)
  else .ok ts

/-- The axes of the removed children (tree_based_tensor.py l.1581, l.1592). -/
def removedAxes (cs ind : List Nat) : List Nat := (cs.zipIdx.filter (fun p => ind.contains p.1)).map Prod.snd

/-- `tensors[nod - 1] = tensors[nod - 1].squeeze(axes)` if there are axes (tree_based_tensor.py l.1590-1593). -/
def squeezeAxes (ts : Nat → Arr R) (nod : Nat) (axes : List Nat) : Py (Nat → Arr R) :=
  if axes = [] then .ok ts
  else do
    let t ← FullTensor.squeezeT (ts nod) axes
    .ok (upd ts nod t)

/-- The body of the loop on the nodes in `squeeze` (tree_based_tensor.py l.1579-1595). The set of the removed nodes is
kept in the order of removal (`np.union1d` sorts it; only membership is used). -/
def squeezeNode [CommSemiring R] (x : TBT R) (st : (Nat → Arr R) × List Nat) (nod : Nat) : Py ((Nat → Arr R) × List Nat) := do
  let cs := x.tree.children nod
  let ts ← cs.zipIdx.foldlM (squeezeChild x st.2 nod) st.1
  let ts ← squeezeAxes ts nod (removedAxes cs st.2)
  .ok (ts, if cs.all (fun c => st.2.contains c) then st.2 ++ [nod] else st.2)

/-- The number of the node `c` among the kept nodes: `np.nonzero(x == keep_ind + 1)[0][0] + 1`
(tree_based_tensor.py l.1601, l.1642). -/
def newNumber (keep : List Nat) (c : Nat) : Py Nat := if c ∈ keep then .ok (keep.idxOf c + 1) else .error .indexError

/-- The tree-based tensor made of the nodes `keep` (increasing numbers), renumbered, with the leaves `leaves` (tree_based_tensor.py
l.1597-1605 and l.1641-1647). -/
def restrict [CommSemiring R] (n : Nat) (adj : Nat → Nat → Bool) (ts : Nat → Arr R) (removed leaves : List Nat) : Py (TBT R) := do
  let keep := ((List.range n).map (· + 1)).filter (fun i => !removed.contains i)
  let dim2ind ← leaves.mapM (newNumber keep)
  let T : DTree :=
    { dim2ind := dim2ind, n := keep.length, adj := fun i j => adj (keep.getD i 0 - 1) (keep.getD j 0 - 1) }
  let _ ← T.dims
  mk T (fun k => ts (keep.getD (k - 1) 0))

/-- The state of the loop of `remove_unique_children`. -/
structure Chain (R : Type) where
  ts : Nat → Arr R
  adj : Nat → Nat → Bool
  d2i : List Nat

/-- `unique_children` (tree_based_tensor.py l.1622-1623): the only children of their parents. -/
def uniqueChildren (T : DTree) : List Nat :=
  T.nodes.filterMap (fun i => match T.children i with
    | [c] => some c
    | _ => none)

/-- The body of the loop of `remove_unique_children` (tree_based_tensor.py l.1631-1640). -/
def mergeChild [CommSemiring R] (x : TBT R) (st : Chain R) (nod : Nat) : Py (Chain R) :=
  match (List.range x.tree.n).find? (fun i => st.adj i (nod - 1)) with
  | none => .error .indexError
  | some q =>
    let d2i := st.d2i.map (fun c => if c = nod then q + 1 else c)
    if x.active nod then do
      let t ← FullTensor.tensordotT (st.ts nod) (st.ts (q + 1)) [(st.ts nod).order - 1] [0]
      .ok ⟨upd (upd st.ts (q + 1) t) nod emptyArr,
        fun i j => if i = nod - 1 then false else if i = q then st.adj (nod - 1) j else st.adj i j, d2i⟩
    else .ok ⟨upd st.ts nod emptyArr, st.adj, d2i⟩

/-- `remove_unique_children()` (tree_based_tensor.py l.1609-1647). The nodes of a level are visited in increasing order
(`fast_intersect`). The tensors and the adjacency matrix of the argument, which the method overwrites, are not returned.
A tree with one node (`_children` has no row) raises `IndexError`. -/
def removeUniqueChildren [CommSemiring R] (x : TBT R) : Py (TBT R) :=
  if x.tree.arity = 0 then .error .indexError
  else do
    let lev ← x.tree.level
    let st ← (List.range (x.tree.maxLevel lev + 1)).reverse.foldlM
      (fun st l => ((x.tree.nodesWithLevel lev l).filter (fun i => (uniqueChildren x.tree).contains i)).foldlM (mergeChild x) st)
      ⟨x.tensors, x.tree.adj, x.tree.dim2ind⟩
    restrict x.tree.n st.adj st.ts (uniqueChildren x.tree) st.d2i

/-- The result of `squeeze`: an array or a tree-based tensor. -/
inductive Squeezed (R : Type)
  | dense (a : Arr R)
  | tree (x : TBT R)

/-- The dimensions of size one (tree_based_tensor.py l.1559-1561). -/
def onesDims (shape : List Nat) : List Nat := (List.range shape.length).filter (fun k => shape.getD k 0 == 1)

/-- `dim2ind[d]`. -/
def leafOf (T : DTree) (d : Nat) : Py Nat :=
  match T.dim2ind[d]? with
  | some c => .ok c
  | none => .error .indexError

/-- The case with remaining dimensions (tree_based_tensor.py l.1572-1606); `dims` is sorted. -/
def squeezeTree [CommSemiring R] (x : TBT R) (dims : List Nat) : Py (TBT R) := do
  let ind ← dims.mapM (leafOf x.tree)
  let lev ← x.tree.level
  let st ← (List.range (x.tree.maxLevel lev + 1)).reverse.foldlM
    (fun st l => (internalAt x.tree lev l).foldlM (squeezeNode x) st) (x.tensors, ind)
  let y ← restrict x.tree.n x.tree.adj st.1 st.2
    ((FullTensor.setdiffRange x.order dims).map (fun k => x.tree.dim2ind.getD k 0))
  removeUniqueChildren y

/-- `squeeze(dims)` (tree_based_tensor.py l.1543-1607), for nonnegative dimensions. -/
def squeezeTB [CommSemiring R] (x : TBT R) (dims : Option (List Nat) := none) : Py (Squeezed R) :=
  let dims := (dims.getD (onesDims x.shape)).insertionSort (· ≤ ·)
  if FullTensor.setdiffRange x.order dims = [] then do
    let a ← full x
    let b ← FullTensor.squeezeT a (onesDims a.shape)
    .ok (.dense b)
  else do
    let z ← squeezeTree x dims
    .ok (.tree z)

/-- `tensor_vector_product(vectors, dims)` (tree_based_tensor.py l.1419-1453). -/
def tensorVectorProductTB [CommSemiring R] (x : TBT R) (vectors : List (Arr R)) (dims : Option (List Nat) := none) : Py (Squeezed R) :=
  let ds := dims.getD (List.range x.order)
  if vectors.length ≠ ds.length then .error .assertionError
  else do
    let y ← tensorMatrixProduct x (vectors.map FullTensor.rowMatrix) (some ds)
    squeezeTB y (some ds)

/-- `np.ones(n)`. -/
def onesVec [One R] (n : Nat) : Arr R := ⟨[n], fun _ => 1⟩

/-- `reduce_sum(dims)` (tree_based_tensor.py l.380-406). -/
def reduceSumTB [CommSemiring R] (x : TBT R) (dims : Option (List Nat) := none) : Py (Squeezed R) :=
  let ds := dims.getD (List.range x.order)
  tensorVectorProductTB x (ds.map (fun d => onesVec (x.shape.getD d 0))) (some ds)

end Verif.TreeBased
