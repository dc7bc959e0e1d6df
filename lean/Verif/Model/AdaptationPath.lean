import Verif.Model.TreeBasedTensor
import Verif.Model.TreeBasedOps

/-!
# Model of the basis adaptation paths of tree-based tensor learning

`create_basis_adaptation_path`, `create_basis_adaptation_path_dmrg`, `create_basis_adaptation_path_dmrg_low_rank`
(tree_based_tensor_learning.py l.416-464, l.1099-1162), with `self.tree`, `self.is_active_node` and `ranks` those of the tensor (l.214-218).
The argument `P` is the list `self.bases_adaptation_path`, one array of booleans per dimension, whose columns are the sets of basis functions
(`functional_bases.py`: `adaptation_path`). Not modelled: adaptation for internal nodes, which raises an assertion (l.445-447); arrays without
element, for which `np.reshape` does not accept the size `-1` (l.443).
-/

namespace Verif.TreeBased

open Verif.Arr Verif.DimTree

variable {R : Type}

/-- `np.kron(A, B)` of two matrices of booleans. -/
def kronB (A B : Arr Bool) : Arr Bool :=
  ⟨[A.shape.getD 0 0 * B.shape.getD 0 0, A.shape.getD 1 0 * B.shape.getD 1 0], fun ij =>
    A.get [ij.getD 0 0 / B.shape.getD 0 0, ij.getD 1 0 / B.shape.getD 1 0] &&
      B.get [ij.getD 0 0 % B.shape.getD 0 0, ij.getD 1 0 % B.shape.getD 1 0]⟩

/-- `np.tile(p, [r, 1])` of a matrix. -/
def tileRows (r : Nat) (p : Arr Bool) : Arr Bool :=
  ⟨[r * p.shape.getD 0 0, p.shape.getD 1 0], fun ij => p.get [ij.getD 0 0 % p.shape.getD 0 0, ij.getD 1 0]⟩

/-- `np.tile(p[np.newaxis, :, np.newaxis, :], [1, 1, r, 2])` (l.441-442) of a matrix. -/
def tileLeaf (r : Nat) (p : Arr Bool) : Arr Bool :=
  ⟨[1, p.shape.getD 0 0, r, 2 * p.shape.getD 1 0], fun idx => p.get [idx.getD 1 0, idx.getD 3 0 % p.shape.getD 1 0]⟩

/-- `self.bases_adaptation_path[np.nonzero(tree.dim2ind == c)[0][0]]` (l.437-439, l.458-459). -/
def leafPath (T : DTree) (P : List (Arr Bool)) (c : Nat) : Py (Arr Bool) :=
  if c ∈ T.dim2ind then
    match P[T.dim2ind.idxOf c]? with
    | some p => .ok p
    | none => .error .indexError
  else .error .indexError

/-- The loop `path = L[-1]; for ind in np.arange(len(L) - 2, -1, -1): path = np.kron(path, L[ind])` (l.460-462, l.1126-1128). -/
def kronLoop (L : List (Arr Bool)) : Py (Arr Bool) :=
  match L.reverse with
  | [] => .error .indexError
  | p :: l => .ok (l.foldl kronB p)

/-- The matrix of booleans of the axis of a child (l.454-459, l.1112-1122, l.1144-1154). -/
def childPath (x : TBT R) (P : List (Arr Bool)) (ranks : Nat → Nat) (c : Nat) : Py (Arr Bool) :=
  if x.active c then .ok ⟨[ranks c, 1], fun _ => true⟩ else leafPath x.tree P c

/-- `create_basis_adaptation_path(ranks, alpha)` (l.416-464). -/
def adaptPath (x : TBT R) (P : List (Arr Bool)) (alpha : Nat) : Py (Arr Bool) := do
  let r ← x.tree.root
  let ranks := upd x.rank r 1
  if x.tree.isLeaf alpha then do
    let p ← leafPath x.tree P alpha
    .ok (reshapeF (tileLeaf (ranks alpha) p) [p.shape.getD 0 0 * ranks alpha, 2 * p.shape.getD 1 0])
  else
    let ch := x.tree.children alpha
    if ch.all x.active then .ok ⟨[(ch.map ranks).prod * ranks alpha], fun _ => true⟩
    else do
      let L ← ch.mapM (childPath x P ranks)
      .ok (tileRows (ranks alpha) (← kronLoop L))

/-- `p_alpha` (l.1105-1108, l.1137-1140): a vector becomes a column, and the first rows are kept. -/
def headPath (p : Arr Bool) (r : Nat) : Arr Bool :=
  let q := if p.order = 1 then reshapeF p [p.shape.prod, 1] else p
  ⟨[q.shape.getD 0 0 / r, q.shape.getD 1 0], q.get⟩

/-- `L[pos(nod)] = path(nod)` for the nodes of a list (l.1112-1122, l.1144-1154). -/
def placePaths (x : TBT R) (P : List (Arr Bool)) (ranks : Nat → Nat) (pos : Nat → Nat) (nodes : List Nat) (L : List (Arr Bool)) :
    Py (List (Arr Bool)) :=
  nodes.foldlM (fun L nod => do .ok (L.set (pos nod) (← childPath x P ranks nod))) L

/-- `create_basis_adaptation_path_dmrg(ranks, alpha)` (l.1099-1129). `None` is the empty array. -/
def adaptPathDmrg (x : TBT R) (P : List (Arr Bool)) (alpha : Nat) : Py (Arr Bool) := do
  let T := x.tree
  let r ← T.root
  let ranks := upd x.rank r 1
  let gamma := T.parent alpha
  let pa ← adaptPath x P alpha
  let ch := T.children gamma
  let L ← placePaths x P ranks (fun nod => T.childNumber nod - 1 + if T.childNumber nod < T.childNumber alpha then 1 else 0)
    (ch.filter (· ≠ alpha)) (List.replicate ch.length ⟨[], fun _ => true⟩)
  let p ← kronLoop (L.set 0 (headPath pa (ranks alpha)))
  .ok (tileRows (ranks gamma) p)

/-- `create_basis_adaptation_path_dmrg_low_rank(ranks, alpha)` (l.1131-1162). `None` is the empty array. -/
def adaptPathLowRank (x : TBT R) (P : List (Arr Bool)) (alpha : Nat) : Py (Arr Bool × Arr Bool) := do
  let T := x.tree
  let r ← T.root
  let ranks := upd x.rank r 1
  let gamma := T.parent alpha
  let pa ← adaptPath x P alpha
  let ch := (T.children gamma).filter (· ≠ alpha)
  let L ← placePaths x P ranks (fun nod => T.childNumber nod - 1 - if T.childNumber alpha < T.childNumber nod then 1 else 0)
    ch (List.replicate ch.length ⟨[], fun _ => true⟩)
  let p ← kronLoop L
  .ok (headPath pa (ranks alpha), tileRows (ranks gamma) p)

end Verif.TreeBased
