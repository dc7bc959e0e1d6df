import Verif.Np
import Mathlib.Data.List.Sort

/-!
# Model of `tensap/tensor_algebra/tensors/dimension_tree.py`

Nodes are numbered from 1, as in the code. The attributes that the constructor stores in arrays
(`_precompute_attributes`) are modelled as functions of the tree.
-/

namespace Verif.DimTree

/-- `DimensionTree` (dimension_tree.py l.23-96): `dim2ind` and the `n × n` adjacency matrix.
`adj i j` is `adjacency_matrix[i, j] != 0` (0-based). Simplification: the matrix has entries 0 and 1. -/
structure DTree where
  dim2ind : List Nat
  n : Nat
  adj : Nat → Nat → Bool

namespace DTree

/-- `nodes_indices` (dimension_tree.py l.660): `1..n`. -/
def nodes (T : DTree) : List Nat := (List.range T.n).map (· + 1)

/-- `arity` (dimension_tree.py l.661): the largest row sum of the adjacency matrix. -/
def arity (T : DTree) : Nat :=
  ((List.range T.n).map (fun i => ((List.range T.n).filter (T.adj i)).length)).foldl max 0

/-- `_parent` and `parent(nod)` (dimension_tree.py l.662, l.208-223):
`matmul([1..n], adjacency_matrix)[nod - 1]`. -/
def parent (T : DTree) (nod : Nat) : Nat :=
  ((List.range T.n).map (fun i => if T.adj i (nod - 1) then i + 1 else 0)).sum

/-- `root` (dimension_tree.py l.663): the first node with parent 0, `IndexError` if there is none. -/
def root (T : DTree) : Py Nat :=
  match T.nodes.filter (fun i => T.parent i == 0) with
  | [] => .error .indexError
  | r :: _ => .ok r

/-- `is_leaf[nod - 1]` (dimension_tree.py l.664-665). -/
def isLeaf (T : DTree) (nod : Nat) : Bool := T.dim2ind.contains nod

/-- `children(nod)` (dimension_tree.py l.667-671, l.172-188): the nonzero entries of the column of
`_children`, in increasing order. -/
def children (T : DTree) (nod : Nat) : List Nat :=
  ((List.range T.n).filter (T.adj (nod - 1))).map (· + 1)

/-- `child_number(nod)` (dimension_tree.py l.673-680, l.190-206). -/
def childNumber (T : DTree) (nod : Nat) : Nat :=
  if T.parent nod = 0 then 0
  else if nod ∈ T.children (T.parent nod) then (T.children (T.parent nod)).idxOf nod + 1
  else 0

/-- The nonzero entries of `sibling[:, nod - 1]` (dimension_tree.py l.682-686). -/
def sibling (T : DTree) (nod : Nat) : List Nat :=
  if T.parent nod = 0 then [] else T.children (T.parent nod)

/-- One step of the level loop, `np.reshape(_children[:, ind - 1], [1, -1])` without the zeros
(dimension_tree.py l.694-695): the row-major enumeration of the columns `ind` of `_children`. -/
def nextLevel (T : DTree) (ind : List Nat) : List Nat :=
  (List.range T.arity).flatMap (fun k => ind.filterMap (fun i => (T.children i)[k]?))

/-- The `while ind.size` loop computing `level` (dimension_tree.py l.692-696), with fuel. -/
def levelLoop (T : DTree) : Nat → List Nat → Nat → (Nat → Nat) → Py (Nat → Nat)
  | 0, _, _, _ => .error .nonTermination
  | fuel + 1, ind, level, acc =>
    if ind.isEmpty then .ok acc
    else T.levelLoop fuel (T.nextLevel ind) (level + 1) (fun x => if x ∈ ind then level else acc x)

/-- `level` (dimension_tree.py l.688-697). The loop runs at most `n` times on a tree; fuel `n + 1`. -/
def level (T : DTree) : Py (Nat → Nat) := do
  let r ← T.root
  T.levelLoop (T.n + 1) (T.children r) 1 (fun _ => 0)

/-- `internal_nodes` (dimension_tree.py l.699): the nodes not in `dim2ind`, increasing. -/
def internalNodes (T : DTree) : List Nat := T.nodes.filter (fun i => !T.dim2ind.contains i)

/-- `nodes_parent_of_leaves` (dimension_tree.py l.700): sorted distinct parents of the leaves. -/
def nodesParentOfLeaves (T : DTree) : List Nat :=
  (List.range (T.n + 1)).filter (fun p => (T.dim2ind.map T.parent).contains p)

/-- `nodes_with_level(level)` (dimension_tree.py l.451-467). -/
def nodesWithLevel (T : DTree) (lev : Nat → Nat) (l : Nat) : List Nat :=
  T.nodes.filter (fun i => lev i == l)

/-- `np.max(self.level)`. -/
def maxLevel (T : DTree) (lev : Nat → Nat) : Nat := (T.nodes.map lev).foldl max 0

/-- `_dims[dim2ind - 1] = arange(len(dim2ind))` on zeros, split in singletons
(dimension_tree.py l.435-437). A later dimension overwrites an earlier one. -/
def initDims (T : DTree) : Nat → List Nat :=
  T.dim2ind.zipIdx.foldl (fun f p => fun x => if x = p.1 then [p.2] else f x) (fun _ => [0])

/-- The body of the loop on the nodes of a level (dimension_tree.py l.441-446). `np.hstack` of an
empty list is a `ValueError`. -/
def dimsStep (T : DTree) (D : Nat → List Nat) (nod : Nat) : Py (Nat → List Nat) :=
  if T.isLeaf nod then .ok D
  else if (T.children nod).isEmpty then .error .valueError
  else
    let v := (T.children nod).flatMap D
    .ok (fun x => if x = nod then v else D x)

/-- `update_dims_from_leaves` (dimension_tree.py l.424-449): levels from the deepest to 0. -/
def dims (T : DTree) : Py (Nat → List Nat) := do
  let lev ← T.level
  (List.range (T.maxLevel lev + 1)).reverse.foldlM
    (fun D l => (T.nodesWithLevel lev l).foldlM (fun D nod => T.dimsStep D nod) D) T.initDims

/-- `ascendants(nod)` (dimension_tree.py l.225-245): the `while pnod` loop, with fuel. -/
def ascendantsLoop (T : DTree) : Nat → Nat → Py (List Nat)
  | 0, _ => .error .nonTermination
  | fuel + 1, p => if p = 0 then .ok [] else do
      let rest ← T.ascendantsLoop fuel (T.parent p)
      .ok (p :: rest)

def ascendants (T : DTree) (nod : Nat) : Py (List Nat) := T.ascendantsLoop (T.n + 1) (T.parent nod)

/-- `descendants(nod)` (dimension_tree.py l.247-268): recursive, pre-order; fuel for the recursion depth. -/
def descendantsAux (T : DTree) : Nat → Nat → Py (List Nat)
  | 0, _ => .error .nonTermination
  | fuel + 1, nod => do
      let subs ← (T.children nod).mapM (fun c => do
        let d ← T.descendantsAux fuel c
        .ok (c :: d))
      .ok subs.flatten

def descendants (T : DTree) (nod : Nat) : Py (List Nat) := T.descendantsAux (T.n + 1) nod

/-- NumPy fancy assignment `out = a.copy(); out[sigma] = v` for in-range positions. -/
def scatter {α : Type} (a : List α) (sigma : List Nat) (v : List α) : List α :=
  (sigma.zip v).foldl (fun l p => l.set p.1 p.2) a

/-- `permute(sigma)` (dimension_tree.py l.107-124): `dim2ind[sigma] = dim2ind`. -/
def permute (T : DTree) (sigma : List Nat) : DTree :=
  { T with dim2ind := scatter T.dim2ind sigma T.dim2ind }

/-- `ipermute(sigma)` (dimension_tree.py l.126-143): `dim2ind[sigma]`. -/
def ipermute (T : DTree) (sigma : List Nat) : DTree :=
  { T with dim2ind := sigma.map (fun k => T.dim2ind.getD k 0) }

/-- `np.sort` on dimension arrays. -/
def sortNat (l : List Nat) : List Nat := l.insertionSort (· ≤ ·)

/-- The level loop of `__eq__` (dimension_tree.py l.152-168). `return is_equal` when the numbers of
nodes differ returns `True`. -/
def eqLoop (T1 T2 : DTree) (lev1 lev2 : Nat → Nat) (D1 D2 : Nat → List Nat) : List Nat → Bool
  | [] => true
  | l :: ls =>
    let nodes1 := T1.nodesWithLevel lev1 l
    let nodes2 := T2.nodesWithLevel lev2 l
    if nodes1.length ≠ nodes2.length then true
    else if nodes1.all (fun i => nodes2.any (fun j => sortNat (D1 i) == sortNat (D2 j))) then
      eqLoop T1 T2 lev1 lev2 D1 D2 ls
    else false

/-- `__eq__` (dimension_tree.py l.145-169). -/
def eq (T1 T2 : DTree) : Py Bool := do
  let lev1 ← T1.level
  let lev2 ← T2.level
  let D1 ← T1.dims
  let D2 ← T2.dims
  if T1.dim2ind.length = T2.dim2ind.length ∧ T1.n = T2.n ∧ T1.maxLevel lev1 = T2.maxLevel lev2 then
    .ok (eqLoop T1 T2 lev1 lev2 D1 D2 ((List.range (T1.maxLevel lev1)).map (· + 1)))
  else .ok false

/-- `DimensionTree.trivial(order)` (dimension_tree.py l.703-721). -/
def trivial (d : Nat) : DTree where
  dim2ind := (List.range d).map (· + 2)
  n := d + 1
  adj i j := i == 0 && decide (1 ≤ j ∧ j < d + 1)

/-- `DimensionTree.linear(order)` (dimension_tree.py l.723-755). `sigma` is `arange(dim)` when `order` is a
number, and `order - 1` when it is an array. -/
def linear (sigma : List Nat) : DTree :=
  let d := sigma.length
  let d2i := (2 * d - 2) :: (List.range (d - 1)).map (fun k => 2 * (d - 1 - k) + 1)
  { dim2ind := scatter d2i sigma d2i
    n := 2 * d - 1
    adj := fun i j => (i == 0 && (j == 1 || j == 2)) ||
      (List.range (d - 2)).any (fun l => i == 2 * l + 1 && (j == 2 * l + 3 || j == 2 * l + 4)) }

/-- `DimensionTree.balanced(order)` (dimension_tree.py l.757-788). `sigma` as for `linear`. -/
def balanced (sigma : List Nat) : DTree :=
  let d := sigma.length
  let d2i := (List.range d).map (· + d)
  { dim2ind := scatter d2i sigma d2i
    n := 2 * d - 1
    adj := fun i j => (i == 0 && (j == 1 || j == 2)) ||
      (decide (1 ≤ i ∧ i < d - 1) && (j == 2 * i + 1 || j == 2 * i + 2)) }

end DTree
end Verif.DimTree
