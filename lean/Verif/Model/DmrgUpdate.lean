import Verif.Model.ParamGradientDmrg
import Verif.Model.Truncator

/-!
# Model of the update of two nodes in the DMRG algorithm of `TreeBasedTensorLearning`

`tensap/approximation/tensor_approximation/tensor_learning/tree_based_tensor_learning.py`, `_solve_dmrg_rank_adaptation`, l.812-954. The
solution of the linear model (l.825, l.911) is a parameter.
-/

namespace Verif.TreeBased

open Verif.Arr Verif.DimTree

variable {R : Type}

/-- `ind - 1` (l.812-816): the axes of the tensor of the parent of `alpha` other than that of `alpha`. -/
def dmrgInd (x : TBT R) (alpha : Nat) : List Nat :=
  FullTensor.setdiffRange (x.tensors (x.tree.parent alpha)).order [x.tree.childNumber alpha - 1]

/-- `f.tensor.tensors[gamma - 1].shape[ind - 1]` (l.841, l.856, l.918). -/
def dmrgShape2 (x : TBT R) (alpha : Nat) : List Nat :=
  (dmrgInd x alpha).map (fun i => (x.tensors (x.tree.parent alpha)).shape.getD i 0)

/-- `sz_1, sz_2, a_alpha, a_gamma` and the assignments (l.852-871 and l.949-954; l.914-929 for `"dmrg_low_rank"`): `U` and `W` are the
matrices reshaped into `a_alpha` and `a_gamma`. `sz_2[perm - 1] = sz_2` is the shape of the transposed array: the constructors of l.949 and
l.952 do not change the arrays. -/
def placePair (x : TBT R) (alpha : Nat) (U W : Arr R) : Py (TBT R) := do
  let gamma := x.tree.parent alpha
  let rank := U.shape.getD 1 0
  let a ← FullTensor.reshape U ((x.tensors alpha).shape.dropLast ++ [rank])
  let b ← FullTensor.reshape W (dmrgShape2 x alpha ++ [rank])
  let b ← FullTensor.itransposeT b (dmrgInd x alpha ++ [x.tree.childNumber alpha - 1])
  .ok ⟨x.tree, upd (upd x.tensors alpha a) gamma b⟩

/-- `C.space[1] * np.tile(np.reshape(C.core.data, [1, -1]), ...)` (l.861-865) for as many columns as terms. -/
def scaleCols [CommSemiring R] (V : Arr R) (core : List R) : Py (Arr R) :=
  if core.length = V.shape.getD 1 0 then .ok ⟨V.shape, fun ij => V.get ij * core.getD (ij.getD 1 0) 0⟩ else .error .valueError

/-- The update with `"dmrg"` (l.840-871, l.949-954): `C` are the coefficients. The numbers are reals, `t` is the truncator of l.844-848. -/
noncomputable def dmrgUpdate (svd : Truncation.Svd) (t : Truncation.Truncator) (x : TBT ℝ) (alpha : Nat) (C : Arr ℝ) : Py (TBT ℝ) := do
  let M ← FullTensor.reshape C [(x.tensors alpha).shape.dropLast.prod, (dmrgShape2 x alpha).prod]
  let c ← Truncation.truncSvd svd t M
  let W ← scaleCols (c.space.getD 1 ⟨[], fun _ => 0⟩) c.core
  placePair x alpha (c.space.getD 0 ⟨[], fun _ => 0⟩) W

/-- The update with `"dmrg_low_rank"` (l.913-929, l.949-954): `t0` and `t1` are the tensors of the root and of the first leaf of the solution of
the learning problem in the tree with two leaves, the second one inactive. -/
def dmrgUpdateLowRank (x : TBT R) (alpha : Nat) (t0 t1 : Arr R) : Py (TBT R) := do
  let W ← FullTensor.transposeT t0 [1, 0]
  placePair x alpha t1 W

/-- `np.reshape(grad.data, (grad.shape[0], -1), order="F")` (l.819, l.873). -/
def dmrgMatrix (g : Arr R) : Py (Arr R) :=
  FullTensor.reshape g [g.shape.getD 0 0, (g.shape.drop 1).prod]

end Verif.TreeBased
