import Verif.Model.DimensionTree

/-!
# Model of the operations that modify a dimension tree

`DimensionTree.change_root`, `add_child`, `sub_dimension_tree`, `node_with_dims`
(dimension_tree.py l.270-408) and the tree part of `TreeBasedTensor.permute_nodes`,
`TreeBasedTensor.permute_leaves` (tree_based_tensor.py l.813-899, l.1035-1076).
-/

namespace Verif.DimTree
namespace DTree

/-- `A[i, j] = v` on an adjacency matrix. -/
def setAdj (A : Nat → Nat → Bool) (i j : Nat) (v : Bool) : Nat → Nat → Bool :=
  fun x y => if x = i ∧ y = j then v else A x y

/-- The four assignments of `permute_nodes` (tree_based_tensor.py l.894-897). `tree.parent` reads the
precomputed array, which is only refreshed afterwards. -/
def swapAdj (T : DTree) (a b : Nat) : Nat → Nat → Bool :=
  setAdj (setAdj (setAdj (setAdj T.adj (T.parent a - 1) (a - 1) false)
    (T.parent a - 1) (b - 1) true) (T.parent b - 1) (b - 1) false) (T.parent b - 1) (a - 1) true

/-- The tree computed by `TreeBasedTensor.permute_nodes` (tree_based_tensor.py l.844-853, l.894-899).
The computation of the node tensors is not modelled. -/
def swapNodes (T : DTree) (a b : Nat) : Py DTree := do
  let asc ← T.ascendants a
  let _ ← T.ascendants b
  let desc ← T.descendants a
  if b ∈ asc ∨ b ∈ desc then .error .valueError
  else if T.parent a ≠ T.parent b then .ok { T with adj := T.swapAdj a b }
  else .ok T

/-- `perm[ind] = perm[np.flip(ind)]` for `ind = [a, b]` (tree_based_tensor.py l.1069). -/
def swapAt (l : List Nat) (a b : Nat) : List Nat := (l.set a (l.getD b 0)).set b (l.getD a 0)

/-- The first position where `perm` differs from `arange` (tree_based_tensor.py l.1062-1063). -/
def firstMoved (perm : List Nat) : Option Nat := (List.range perm.length).find? (fun i => perm.getD i 0 != i)

/-- The `while` loop of `permute_leaves` (tree_based_tensor.py l.1060-1069), with fuel. It returns
`elem_perm` and the final content of the array `perm`, which is modified in place. -/
def elemPerm : Nat → List Nat → Py (List (Nat × Nat) × List Nat)
  | 0, _ => .error .nonTermination
  | fuel + 1, perm =>
    match firstMoved perm with
    | none => .ok ([], perm)
    | some i =>
      if i ∈ perm then do
        let a := perm.idxOf i
        let b := perm.idxOf (perm.getD i 0)
        let (es, p) ← elemPerm fuel (swapAt perm a b)
        .ok ((a, b) :: es, p)
      else .error .indexError

/-- One iteration of the second loop of `permute_leaves` (tree_based_tensor.py l.1071-1075), on the tree. -/
def leafSwap (d2i : List Nat) (T : DTree) (e : Nat × Nat) : Py DTree :=
  match d2i[e.1]?, d2i[e.2]? with
  | some x, some y => T.swapNodes x y
  | _, _ => .error .indexError

/-- `TreeBasedTensor.permute_leaves` on the tree (tree_based_tensor.py l.1055-1076): the new tree and
the content of the argument array after the call (modified in place when it is an `ndarray`). -/
def permuteLeaves (T : DTree) (perm : List Nat) : Py (DTree × List Nat) :=
  if perm = sortNat perm then .ok (T, perm)
  else do
    let (es, p) ← elemPerm (perm.length + 1) perm
    let T' ← es.foldlM (leafSwap T.dim2ind) T
    .ok (T', p)

/-- The loop of `change_root` over `a = [nod] + ascendants(nod)` (dimension_tree.py l.305-307). -/
def reverseEdges (A : Nat → Nat → Bool) : List Nat → Nat → Nat → Bool
  | x :: y :: rest => reverseEdges (setAdj (setAdj A (x - 1) (y - 1) true) (y - 1) (x - 1) false) (y :: rest)
  | _ => A

/-- `modifiedNodes` (dimension_tree.py l.303-310): sorted distinct numbers. -/
def modifiedNodes (T : DTree) (a : List Nat) : List Nat :=
  T.nodes.filter (fun i => a.any (fun x => i == x || (T.children x).contains i))

/-- `Anew[:n, :n] = A; Anew[nod - 1, n] = 1` on zeros (dimension_tree.py l.313-315 and l.350-352). -/
def extendAdj (A : Nat → Nat → Bool) (n nod : Nat) : Nat → Nat → Bool :=
  fun i j => if i < n ∧ j < n then A i j else i == nod - 1 && j == n

/-- `change_root(nod)` (dimension_tree.py l.270-322). The constructor of the new tree runs
`update_dims_from_leaves`, which is where a former root left without sons makes it fail. -/
def changeRoot (T : DTree) (nod : Nat) : Py (DTree × List Nat) := do
  let r ← T.root
  if nod = r then .ok (T, [])
  else
    let asc ← T.ascendants nod
    let a := nod :: asc
    let A := reverseEdges T.adj a
    let D ← T.dims
    let T' : DTree := if T.isLeaf nod then
        { dim2ind := scatter T.dim2ind (D nod) ((D nod).map (fun _ => T.n + 1)), n := T.n + 1,
          adj := extendAdj A T.n nod }
      else { T with adj := A }
    let _ ← T'.dims
    .ok (T', T.modifiedNodes a)

/-- `add_child(nod)` (dimension_tree.py l.324-360). -/
def addChild (T : DTree) (nod : Nat) : Py DTree := do
  let T' : DTree :=
    { dim2ind := if T.isLeaf nod then T.dim2ind.map (fun x => if x = nod then T.n + 1 else x)
        else T.dim2ind ++ [T.n + 1]
      n := T.n + 1
      adj := extendAdj T.adj T.n nod }
  let _ ← T'.dims
  .ok T'

/-- `sub_dimension_tree(root)` (dimension_tree.py l.362-386): the new tree and `nod`. -/
def subTree (T : DTree) (root : Nat) : Py (DTree × List Nat) := do
  let D ← T.dims
  let desc ← T.descendants root
  let nod := root :: desc
  let lv := (D root).map (fun k => T.dim2ind.getD k 0)
  let T' : DTree :=
    { dim2ind := ((List.range nod.length).filter (fun i => lv.contains (nod.getD i 0))).map (· + 1)
      n := nod.length
      adj := fun i j => T.adj (nod.getD i 0 - 1) (nod.getD j 0 - 1) }
  let _ ← T'.dims
  .ok (T', nod)

/-- `node_with_dims(dims)` (dimension_tree.py l.388-408). -/
def nodeWithDims (T : DTree) (dims : List Nat) : Py (List Nat) := do
  let D ← T.dims
  .ok (T.nodes.filter (fun i => sortNat dims == sortNat (D i)))

end DTree
end Verif.DimTree
