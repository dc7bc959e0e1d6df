import Verif.Model.Hosvd
import Verif.Model.Gramians

/-!
# Model of `tensap/tensor_algebra/tools/truncator.py`: `hsvd` of a tree-based tensor
-/

namespace Verif.Truncation

open Verif.Arr Verif.TreeBased Verif.DimTree

/-- `max_rank = np.atleast_1d(self.max_rank)`, repeated with `1` for the root if it has one element
(truncator.py l.327-330). -/
def ranksForTree (mr : List (Option Nat)) (n root : Nat) : List (Option Nat) :=
  match mr with
  | [r] => (List.replicate n r).set (root - 1) (some 1)
  | l => l

/-- `np.transpose(tmp.space[0])` of the truncated decomposition of the Gram matrix of a node (truncator.py l.447-449). -/
noncomputable def hsvdMatrix (svd : Svd) (t : Truncator) (mr : List (Option Nat)) (tol : ℝ) (g : Arr ℝ) (nod : Nat) : Py (Arr ℝ) := do
  let r ← rankAt mr (nod - 1)
  let c ← truncSvd svd { t with maxRank := r } g (some tol) (some 1)
  .ok (transp (c.space.getD 0 ⟨[], fun _ => 0⟩))

/-- The body of the loop on the nodes in `hsvd` (truncator.py l.445-458). -/
noncomputable def hsvdStep (svd : Svd) (t : Truncator) (mr : List (Option Nat)) (tol : ℝ) (T : DTree) (g : Nat → Arr ℝ)
    (ts : Nat → Arr ℝ) (nod : Nat) : Py (Nat → Arr ℝ) := do
  let m ← hsvdMatrix svd t mr tol (g nod) nod
  mulNode T m m ts nod

/-- `np.count_nonzero(is_active_node) - 1` (truncator.py l.332). -/
def activeCount (x : TBT ℝ) : Nat := (x.tree.nodes.filter x.active).length - 1

/-- `hsvd(tensor)` of a `TreeBasedTensor` (truncator.py l.285-332, l.438-461, `_hsvd_type` equal to 2, its only value), for a
truncator with the attribute `max_rank` equal to the list `mr` (the attribute of `t` is not read). The attribute `max_rank` of
the truncator after the call and the flags of the tensors are not modelled. When only the root is active there is no
truncation: the division by zero of l.332 only gives a warning. -/
noncomputable def hsvd (qr : Arr ℝ → Arr ℝ × Arr ℝ) (svd : Svd) (t : Truncator) (mr : List (Option Nat)) (x : TBT ℝ) : Py (TBT ℝ) := do
  let r ← x.tree.root
  let ranks := ranksForTree mr x.tree.n r
  let tol := t.tolerance / Real.sqrt (activeCount x)
  let z ← orth qr x
  let g ← gramiansOrth z
  let lev ← x.tree.level
  let ts ← ((List.range (x.tree.maxLevel lev)).map (· + 1)).reverse.foldlM
    (fun ts l => (activeAt z lev l).foldlM (hsvdStep svd t ranks (tol ^ 2) x.tree g) ts) z.tensors
  mk x.tree ts

end Verif.Truncation
