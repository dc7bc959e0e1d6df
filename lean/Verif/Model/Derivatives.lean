import Verif.Model.TensorInterp

/-!
# Model of the derivatives of functional tensors, of tensor product bases and of arrays of functions

`FunctionalBases.eval_derivative` (functional_bases.py l.324-334), `FunctionalTensor.eval_derivative` and `eval_gradient`
(functional_tensor.py l.704-759), `SparseTensorProductFunctionalBasis.eval_derivative`
(sparse_tensor_product_functional_basis.py l.234-236), the generic `FunctionalBasis.eval_jacobian` (functional_basis.py l.470-478),
`FunctionalBasisArray.eval_derivative` and `eval_gradient` (functional_basis_array.py l.437-461, l.484-513). The numbers are reals, the
arithmetic is exact.
-/

namespace Verif.Derivatives

open Verif.Arr Verif.MultiIndices Verif.Bases Verif.FunctionalTensor

/-- A basis with its method `eval_derivative(m, x)`: `der m p j` is what it returns for the function `j` at the point `p`. -/
structure DBasis where
  base : Basis ℝ
  der : Nat → List ℝ → Nat → ℝ

/-- `basis.eval_derivative(m, x)` as evaluations of a basis. -/
def DBasis.order (b : DBasis) (m : Nat) : Basis ℝ := ⟨b.base.ndim, b.base.card, b.der m⟩

/-- `FunctionalBases.eval_derivative(n, x)` (functional_bases.py l.324-334), without `dims`, for an array `x` with one row per point. -/
def basesEvalDerivative (bs : List DBasis) (n : List Nat) (pts : List (List ℝ)) : Py (List (Arr ℝ)) :=
  if n.length = bs.length then .ok (basesEvalAll (List.zipWith DBasis.order bs n) pts) else .error .assertionError

/-- `FunctionalTensor(tensor, bases).eval_derivative(n, x)` (functional_tensor.py l.78-85, l.727-728), without `dims`. -/
def evalDerivative (t : TVal ℝ) (bs : List DBasis) (n : List Nat) (pts : List (List ℝ)) : Py (Arr ℝ) := do
  let f ← FTn.mk' t (bs.map DBasis.base)
  let H ← basesEvalDerivative bs n pts
  f.evalWith H

/-- `FunctionalTensor.eval_gradient(x)` (functional_tensor.py l.751-759): `self.length()` does not exist; without bases, `np.concatenate`
has nothing to concatenate. -/
def evalGradient (bs : List DBasis) : Py (Arr ℝ) :=
  if bs.length = 0 then .error .valueError else .error .attributeError

/-- `SparseTensorProductFunctionalBasis.eval_derivative(n, x)` (sparse_tensor_product_functional_basis.py l.234-236). -/
def sparseEvalDerivative (bs : List DBasis) (ind : MI) (n : List Nat) (pts : List (List ℝ)) : Py (Arr ℝ) := do
  let H ← basesEvalDerivative bs n pts
  evalSparse H ind

/-- `n = d * [0]; n[i] = 1` (functional_basis.py l.472-473). -/
def unitOrder (d i : Nat) : List Nat := (List.replicate d 0).set i 1

/-- The concatenation along a new last axis of matrices of the same shape (functional_basis.py l.475-477). -/
def stackLast (l : List (Arr ℝ)) : Py (Arr ℝ) :=
  match l with
  | [] => .error .valueError
  | a0 :: _ => .ok ⟨a0.shape ++ [l.length], fun idx => (l.getD (idx.getD (idx.length - 1) 0) a0).get idx.dropLast⟩

/-- `FunctionalBasis.eval_jacobian(x)` (functional_basis.py l.470-478): `der` is the method `eval_derivative` for a list of orders. -/
def evalJacobian (ndim : Nat) (der : List Nat → List (List ℝ) → Py (Arr ℝ)) (pts : List (List ℝ)) : Py (Arr ℝ) := do
  let l ← (List.range ndim).mapM (fun i => der (unitOrder ndim i) pts)
  stackLast l

/-- `eval_jacobian(x)` of a sparse tensor product basis: `ndim()` is the number of columns of the multi-indices
(sparse_tensor_product_functional_basis.py l.97-98; multi_indices.py `ndim`). -/
def sparseEvalJacobian (bs : List DBasis) (ind : MI) (pts : List (List ℝ)) : Py (Arr ℝ) :=
  evalJacobian ind.dim (sparseEvalDerivative bs ind) pts

/-- `FunctionalBasisArray.eval_derivative(n, x)` (functional_basis_array.py l.460-461) on a sparse tensor product basis. -/
noncomputable def fbaEvalDerivative (bs : List DBasis) (ind : MI) (g : FBA ℝ) (n : List Nat) (pts : List (List ℝ)) : Py (Arr ℝ) := do
  let H ← sparseEvalDerivative bs ind n pts
  g.evalWith H

/-- `FunctionalBasisArray.eval_gradient(x)` (functional_basis_array.py l.505-513), from the value `J` of `basis.eval_jacobian(x)`:
`np.einsum('kij,il->kjl', J, data)` and `np.reshape(..., order="F")`. The einsum refuses operands whose sizes for the label `i` differ. -/
noncomputable def gradientWith (g : FBA ℝ) (J : Arr ℝ) : Py (Arr ℝ) :=
  let data := g.data.reshapeF [g.card, g.shape.prod]
  if J.shape.length = 3 ∧ J.shape.getD 1 0 = g.card then
    let y := Arr.einsum J [0, 1, 2] data [1, 3] [0, 2, 3]
    if g.shape.prod = 1 then .ok (y.reshapeF [J.shape.getD 0 0, J.shape.getD 2 0])
    else .ok (y.reshapeF (J.shape.getD 0 0 :: J.shape.getD 2 0 :: g.shape))
  else .error .valueError

/-- `FunctionalBasisArray.eval_gradient(x)` on a sparse tensor product basis. -/
noncomputable def fbaEvalGradient (bs : List DBasis) (ind : MI) (g : FBA ℝ) (pts : List (List ℝ)) : Py (Arr ℝ) := do
  let J ← sparseEvalJacobian bs ind pts
  gradientWith g J

/-- The argument `n` of `eval_derivative` of a basis in one variable. -/
inductive OrderArg where
  | int (n : Nat)
  | list (l : List Nat)

/-- `PolynomialFunctionalBasis.eval_derivative(n, x)` (polynomial_functional_basis.py l.239; orthonormal_polynomials.py l.166-191, l.372-374):
`n + 1` of a list raises `TypeError`. -/
noncomputable def polyEvalDerivative (μ : Polynomials.Meas) (ind : List Nat) (x : List ℝ) : OrderArg → Py (Arr ℝ)
  | .int n => SubBasis.polyDer μ.orthonormalPolynomials ind n x
  | .list _ => do
    let m ← Polynomials.npMax ind
    let _ ← μ.orthonormalPolynomials.polyval (List.range (m + 1)) 0
    .error .typeError

/-- The inherited `eval_jacobian(x)` (functional_basis.py l.470-478) of a basis of polynomials. -/
noncomputable def polyEvalJacobian (μ : Polynomials.Meas) (ind : List Nat) (x : List ℝ) : Py (Arr ℝ) :=
  evalJacobian 1 (fun n pts => polyEvalDerivative μ ind (pts.map (fun p => p.getD 0 0)) (.list n)) (x.map (fun t => [t]))

end Verif.Derivatives
