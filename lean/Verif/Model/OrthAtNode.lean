import Verif.Model.Hosvd
import Verif.Model.Gramians

/-!
# Model of `TreeBasedTensor.orth_at_node` (`tree_based_tensor.py` l.1792-1849)
-/

namespace Verif.TreeBased

open Verif.Arr Verif.DimTree Verif.Truncation

/-- The functions `np.linalg.matrix_rank`, `np.linalg.pinv` and `np.linalg.inv`. -/
structure LinAlg where
  rank : Arr ℝ → Nat
  pinv : Arr ℝ → Arr ℝ
  inv : Arr ℝ → Arr ℝ

/-- `np.matmul(u_svd, np.diag(np.sqrt(np.abs(s_svd))))` (tree_based_tensor.py l.1821-1823). -/
noncomputable def orthL (svd : Svd) (g : Arr ℝ) : Arr ℝ :=
  ⟨(svd g).1.shape, fun i => (svd g).1.get i * Real.sqrt |(svd g).2.1.getD (i.getD 1 0) 0|⟩

/-- The matrices `l_svd` and `s_svd` (tree_based_tensor.py l.1829-1833), for a rank `rep`. -/
noncomputable def orthLS (la : LinAlg) (g l : Arr ℝ) (rep : Nat) : Arr ℝ × Arr ℝ :=
  if rep ≠ g.shape.getD 0 0 then (leftCols l rep, la.pinv (leftCols l rep)) else (l, la.inv l)

/-- The part of `orth_at_node` after the computation of the Gram matrix (tree_based_tensor.py l.1821-1846);
`update_attributes` reads the ranks and the shape of the tensor again. -/
noncomputable def orthAtCore (svd : Svd) (la : LinAlg) (y : TBT ℝ) (nod : Nat) (g : Arr ℝ) : Py (TBT ℝ) :=
  if la.rank (orthL svd g) = 0 then .ok y
  else do
    let ls := orthLS la g (orthL svd g) (la.rank (orthL svd g))
    let ts ← mulNode y.tree (transp ls.1) ls.2 y.tensors nod
    mk y.tree ts

/-- `orth_at_node(nod)` (tree_based_tensor.py l.1792-1849). The flags of the tensors are not modelled. -/
noncomputable def orthAtNode (qr : Arr ℝ → Arr ℝ × Arr ℝ) (svd : Svd) (la : LinAlg) (x : TBT ℝ) (nod : Nat) : Py (TBT ℝ) := do
  let r ← x.tree.root
  if nod = r then orth qr x
  else if x.active nod then do
    let gy ← gramiansAt qr x nod
    orthAtCore svd la gy.2 nod gy.1
  else .error .valueError

end Verif.TreeBased
