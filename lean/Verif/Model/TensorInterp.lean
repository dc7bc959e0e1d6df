import Verif.Model.FunctionalPca
import Verif.Model.SubBasis
import Verif.Model.Functions

/-!
# Model of the interpolation and the projection on tensor product bases

`FullTensorProductFunctionalBasis` (full_tensor_product_functional_basis.py l.204-319) and `SparseTensorProductFunctionalBasis`
(sparse_tensor_product_functional_basis.py l.325-361), called also by `FunctionalBases.tensor_product_interpolation`. The numbers are
reals, the arithmetic is exact. A function is applied point by point and has one output. The candidate points `X` of the interpolation
are the given grid, or, when there is none, the values or the random draws of the measures of the bases.
-/

namespace Verif.TensorInterp

open Verif.Arr Verif.MultiIndices Verif.Grids Verif.Bases Verif.FunctionalTensor Verif.FunctionalPca

/-- A vector of numbers. -/
def vec (l : List ℝ) : Arr ℝ := ⟨[l.length], fun j => l.getD (j.getD 0 0) 0⟩

/-- `FullTensor(fun(grid.array()), grid.dim, grid.shape)` (full_tensor_product_functional_basis.py l.299-301; full_tensor.py l.74-76), and
`fun.eval_on_tensor_grid(grid)` of a function with one output (function.py l.338-356). -/
def valuesOnGrid (f : List ℝ → ℝ) (G : FullGrid ℝ) : Py (Arr ℝ) := do
  let x ← G.array
  .ok (reshapeF (vec (x.map f)) G.shape)

/-- The argument `fun` of the interpolation: an object that can be called, a tensor, or another object. -/
inductive Arg where
  | callable (f : List ℝ → ℝ)
  | tensor (a : Arr ℝ)
  | other

/-- The values of the argument on the grid and `number_of_evaluations` (full_tensor_product_functional_basis.py l.298-313). The call
`isinstance(fun, (...), tensap.DiagonalTensor)`, with three arguments, raises `TypeError`. -/
def argValues (G : FullGrid ℝ) : Arg → Py (Arr ℝ × Nat)
  | .callable f => do
    let y ← valuesOnGrid f G
    .ok (y, y.shape.prod)
  | .tensor _ => .error .typeError
  | .other => .error .typeError

/-- `FullTensorProductFunctionalBasis.tensor_product_interpolation(fun, grid)` (l.291-319): the function, the number of evaluations, the
grid. -/
noncomputable def fullInterpolation (bs : List (Basis ℝ)) (X : List (List (List ℝ))) (arg : Arg) : Py (FTn ℝ × Nat × FullGrid ℝ) := do
  let G ← gridPoints bs X
  let y ← argValues ⟨G⟩ arg
  let B ← (List.zipWith (fun b g => b.eval g) bs G).mapM SubBasis.inv
  let c ← FullTensor.tensorMatrixProduct y.1 B
  let g ← FTn.mk' (.full c) bs
  .ok (g, y.2, ⟨G⟩)

/-- `SparseTensorProductFunctionalBasis.eval(x)` (sparse_tensor_product_functional_basis.py l.224-226). -/
def sparseEval (bs : List (Basis ℝ)) (ind : MI) (pts : List (List ℝ)) : Py (Arr ℝ) := evalSparse (basesEvalAll bs pts) ind

/-- `self.interpolate(fun, x)` (functional_basis.py l.139-151) for a function with one output. -/
noncomputable def sparseInterpolate (bs : List (Basis ℝ)) (ind : MI) (f : List ℝ → ℝ) (x : List (List ℝ)) : Py (FBA ℝ) := do
  let hx ← sparseEval bs ind x
  let data ← Pca.solve hx (column (x.map f))
  FBA.mk' data ind.rows.length [1]

/-- `SparseTensorProductFunctionalBasis.tensor_product_interpolation(fun, grid)` (l.355-361): the array of functions, the number of
evaluations and the points of the grid. -/
noncomputable def sparseInterpolation (bs : List (Basis ℝ)) (ind : MI) (X : List (List (List ℝ))) (f : List ℝ → ℝ) :
    Py (FBA ℝ × Nat × List (List ℝ)) := do
  let G ← gridPoints bs X
  let x ← sparseArray G ind
  let g ← sparseInterpolate bs ind f x
  .ok (g, x.length, x)

/-- The evaluation of an array of functions of the sparse tensor product basis (functional_basis_array.py l.407-435). -/
noncomputable def sparseFbaEval (bs : List (Basis ℝ)) (ind : MI) (g : FBA ℝ) (pts : List (List ℝ)) : Py (Arr ℝ) := do
  let H ← sparseEval bs ind pts
  g.evalWith H

/-- `np.hstack(grids)` (full_tensor_product_functional_basis.py l.238): the arrays must have the same number of rows. -/
def hstackGrids (g : List (List (List ℝ))) : Py (List (List ℝ)) :=
  match g with
  | [] => .error .valueError
  | g0 :: _ =>
    if g.all (fun x => x.length == g0.length) then .ok ((List.range g0.length).map (fun i => (g.map (fun x => x.getD i [])).flatten))
    else .error .valueError

/-- `np.diag(w)`. -/
def diagM (w : List ℝ) : Arr ℝ := ⟨[w.length, w.length], fun ij => if ij.getD 0 0 = ij.getD 1 0 then w.getD (ij.getD 0 0) 0 else 0⟩

/-- The operator of one dimension: `np.linalg.solve(x.T diag(y) x, x.T diag(y))` (l.240-247). -/
noncomputable def projOperator (p : Arr ℝ × List ℝ) : Py (Arr ℝ) := do
  let wx ← Pca.matmul (diagM p.2) p.1
  let m ← Pca.matmul (SubBasis.transposeM p.1) wx
  let xw ← Pca.matmul (SubBasis.transposeM p.1) (diagM p.2)
  Pca.solve m xw

/-- The argument `I0` of the projection. -/
inductive RuleArg where
  | tensor (r : TensorRule ℝ)
  | other

/-- `FullTensorProductFunctionalBasis.tensor_product_projection(fun, I0)` (l.231-250): the function and the number of evaluations. -/
noncomputable def fullProjection (bs : List (Basis ℝ)) (f : List ℝ → ℝ) : RuleArg → Py (FTn ℝ × Nat)
  | .other => .error .notImplemented
  | .tensor r => do
    let u ← valuesOnGrid f r.points
    let x ← hstackGrids r.points.grids
    let P ← ((basesEvalAll bs x).zip r.weights).mapM projOperator
    let c ← FullTensor.tensorMatrixProduct u P (some (List.range P.length))
    let g ← FTn.mk' (.full c) bs
    .ok (g, u.shape.prod)

end Verif.TensorInterp
