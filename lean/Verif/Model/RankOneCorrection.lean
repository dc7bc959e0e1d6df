import Verif.Model.AlternatingMinimization
import Verif.Model.TreeEval
import Verif.Model.TreeBasedOps

/-!
# Model of `TreeBasedTensorLearning.rank_one_correction` (tree_based_tensor_learning.py l.366-414), with the square loss
-/

namespace Verif.TreeBased

open Verif.Arr Verif.DimTree Verif.Truncation Verif.LeastSquares

/-- `solver.training_data[1] -= fx` (l.396). -/
def residualData (y fx : Arr ℝ) : Arr ℝ := ⟨y.shape, fun i => y.get i - fx.get i⟩

/-- `rank_one_correction(f)` (l.386-414) for two arrays of training data and the square loss. `x1` is the initial function of the local solver
(`initialize` with `rank = 1` and `initialization_type = "ones"`, l.401, l.404), `order` and `stop` the order of the nodes and the stopping test
of the iteration. The values at the training points are those of the tensor with the matrices `bases_eval`. The functional tensors are
represented by their tensors. -/
noncomputable def rankOneCorrection (qr : Arr ℝ → Arr ℝ × Arr ℝ) (svd : Svd) (lin : LinAlg) (la : La) (o : Opts) (H : List (Arr ℝ))
    (y : Arr ℝ) (order : Nat → List Nat) (stop : Nat → TBT ℝ → TBT ℝ → Bool) (x1 : TBT ℝ) : Option (TBT ℝ) → Py (TBT ℝ)
  | none => do
    let s ← solveStandard qr svd lin la o H y order stop 1 x1
    .ok s.1
  | some f => do
    let fx ← tensorMatrixProductEvalDiag f H
    let s ← solveStandard qr svd lin la o H (residualData y fx) order stop 1 x1
    add f s.1

end Verif.TreeBased
