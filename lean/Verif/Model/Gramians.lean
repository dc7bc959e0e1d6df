import Verif.Model.Orth
import Verif.Model.Truncator

/-!
# Model of `TreeBasedTensor.gramians` (`tree_based_tensor.py` l.1683-1749)
-/

namespace Verif.TreeBased

open Verif.Arr Verif.DimTree

variable {R : Type}

/-- The tensor of the node multiplied by the Gram matrix of the node along its last axis, except for the root
(tree_based_tensor.py l.1730-1734). -/
def gramTmp [CommSemiring R] (z : TBT R) (root : Nat) (g : Nat → Arr R) (nod : Nat) : Py (Arr R) :=
  if nod = root then .ok (z.tensors nod)
  else FullTensor.tensorMatrixProduct (z.tensors nod) [g nod] (some [(z.tensors nod).order - 1])

/-- The body of the loop on the children in `gramians` (tree_based_tensor.py l.1736-1743). -/
def gramChild [CommSemiring R] (z : TBT R) (nod : Nat) (tmp : Arr R) (g : Nat → Arr R) (child : Nat) : Py (Nat → Arr R) := do
  let l := FullTensor.setdiffRange (z.tensors nod).order [childAxis z.tree child]
  let t ← FullTensor.tensordotT (z.tensors nod) tmp l l
  .ok (upd g child t)

/-- The body of the loop on the nodes in `gramians` (tree_based_tensor.py l.1729-1743). `keep` is the membership in
`list_nodes`. -/
def gramNode [CommSemiring R] (z : TBT R) (root : Nat) (keep : Nat → Bool) (g : Nat → Arr R) (nod : Nat) :
    Py (Nat → Arr R) := do
  let tmp ← gramTmp z root g nod
  ((z.tree.children nod).filter keep).foldlM (gramChild z nod tmp) g

/-- The loops of `gramians` (tree_based_tensor.py l.1708-1709, l.1725-1743) on the orthogonalised tensor `z`, for the levels
up to `maxLev`; a matrix that is not computed (`None`) is an empty array. -/
def gramLoop [CommSemiring R] (z : TBT R) (keep : Nat → Bool) (lev : Nat → Nat) (maxLev : Nat) : Py (Nat → Arr R) := do
  let root ← z.tree.root
  (List.range (maxLev + 1)).foldlM
    (fun g l => ((internalAt z.tree lev l).filter keep).foldlM (gramNode z root keep) g)
    (upd (fun _ => ⟨[], fun _ => 0⟩) root ⟨[1, 1], fun _ => 1⟩)

/-- `gramians()` of a tensor that is already orthogonalised (`is_orth`, `orth_node` the root): l.1706-1715, l.1725-1749. -/
def gramiansOrth [CommSemiring R] (z : TBT R) : Py (Nat → Arr R) := do
  let lev ← z.tree.level
  gramLoop z z.active lev (z.tree.maxLevel lev)

/-- `gramians()` (tree_based_tensor.py l.1683-1749): the Gram matrices and the orthogonalised tensor. The flags of the tensor
are not modelled: it is orthogonalised (l.1703-1704). -/
def gramians [CommSemiring R] (qr : Arr R → Arr R × Arr R) (x : TBT R) : Py ((Nat → Arr R) × TBT R) := do
  let z ← orth qr x
  let g ← gramiansOrth z
  .ok (g, z)

/-- `gramians(alpha)` with one node (tree_based_tensor.py l.1715-1723, l.1745-1746): only the nodes from the root to `alpha`
are visited; the result is the Gram matrix of `alpha`. -/
def gramiansAt [CommSemiring R] (qr : Arr R → Arr R × Arr R) (x : TBT R) (alpha : Nat) : Py (Arr R × TBT R) := do
  let z ← orth qr x
  let lev ← z.tree.level
  let asc ← z.tree.ascendants alpha
  let g ← gramLoop z (fun i => z.active i && (asc.contains i || i == alpha)) lev (lev alpha)
  .ok (g alpha, z)

/-- The multiplication of the tensor of a node along its last axis by the matrix `m` and of the tensor of its parent along the
axis of the node by the matrix `m'` (tree_based_tensor.py l.1835-1842, truncator.py l.450-458). -/
def mulNode [CommSemiring R] (T : DTree) (m m' : Arr R) (ts : Nat → Arr R) (nod : Nat) : Py (Nat → Arr R) := do
  let a ← FullTensor.tensorMatrixProduct (ts nod) [m] (some [(ts nod).order - 1])
  let ts := upd ts nod a
  let b ← FullTensor.tensorMatrixProduct (ts (T.parent nod)) [m'] (some [childAxis T nod])
  .ok (upd ts (T.parent nod) b)

/-- The singular values of a node in `singular_values` (tree_based_tensor.py l.2011-2016). `svd` is `np.linalg.svd`. -/
noncomputable def gramSv (svd : Truncation.Svd) (g : Arr ℝ) : Option (List ℝ) :=
  if g.shape = [] then none else some ((svd g).2.1.map Real.sqrt)

/-- `singular_values()` (tree_based_tensor.py l.1995-2019): for each node, `None` or a list of numbers. The tensor is
orthogonalised once (l.2007, l.1703-1706). -/
noncomputable def singularValues (qr : Arr ℝ → Arr ℝ × Arr ℝ) (svd : Truncation.Svd) (x : TBT ℝ) : Py (Nat → Option (List ℝ)) := do
  let z ← orth qr x
  let g ← gramiansOrth z
  .ok (fun i => gramSv svd (g i))

end Verif.TreeBased
