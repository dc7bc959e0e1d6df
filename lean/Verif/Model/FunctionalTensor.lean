import Verif.Model.TreeEval
import Verif.Model.Bases

/-!
# Model of `tensap/functions/functional_tensor.py`

A `FunctionalTensor` is a tensor, in dense or tree-based format, and one basis per dimension (`fdims` is `range(order)`, the
default). A basis is given by its number of variables, its cardinal and its functions. The mean of a basis is a parameter of
`mean`. Not modelled: `fdims` other than the default, lists of evaluations in place of bases, `parameter_gradient_eval`,
`random`, `storage`.
-/

namespace Verif.FunctionalTensor

open Verif.Arr Verif.TreeBased Verif.Bases

variable {K : Type}

/-- The formats of the attribute `tensor`. -/
inductive TVal (K : Type)
  | full (a : Arr K)
  | tree (x : TBT K)

def TVal.order : TVal K → Nat
  | .full a => a.order
  | .tree x => x.order

/-- `tensor.tensor_matrix_product_eval_diag(matrices)` (full_tensor.py l.1000-1052; tree_based_tensor.py l.1455-1541). -/
def TVal.evalDiagProduct [CommSemiring K] : TVal K → List (Arr K) → Py (Arr K)
  | .full a, ms => FullTensor.tensorMatrixProductEvalDiag a ms
  | .tree x, ms => tensorMatrixProductEvalDiag x ms

/-- `tensor.tensor_matrix_product(matrices, dims)` (full_tensor.py l.908-963; tree_based_tensor.py l.1334-1381). -/
def TVal.product [CommSemiring K] : TVal K → List (Arr K) → List Nat → Py (TVal K)
  | .full a, ms, dims => do .ok (.full (← FullTensor.tensorMatrixProduct a ms (some dims)))
  | .tree x, ms, dims => do .ok (.tree (← tensorMatrixProduct x ms (some dims)))

/-- `np.squeeze(data)` without axes. -/
def squeezeAll (a : Arr K) : Arr K := a.squeeze ((List.range a.order).filter (fun d => a.shape.getD d 0 == 1))

/-- `tensor.tensor_vector_product(vectors, range(order))` (full_tensor.py l.965-998; tree_based_tensor.py l.1419-1453, and
`squeeze` l.1566-1569 when no dimension remains: the full tensor, squeezed). -/
def TVal.vectorProductAll [CommSemiring K] : TVal K → List (Arr K) → Py (Arr K)
  | .full a, vs => FullTensor.tensorVectorProduct a vs (some (List.range a.order))
  | .tree x, vs => do
    let z ← tensorMatrixProduct x (vs.map FullTensor.rowMatrix) (some (List.range x.order))
    let y ← TreeBased.full z
    .ok (squeezeAll y)

/-- A functional basis: number of variables, cardinal, functions. -/
structure Basis (K : Type) where
  ndim : Nat
  card : Nat
  fn : List K → Nat → K

/-- `basis.eval(x)` for the rows of `x`. -/
def Basis.eval (b : Basis K) (pts : List (List K)) : Arr K :=
  ⟨[pts.length, b.card], fun kj => b.fn (pts.getD (kj.getD 0 0) []) (kj.getD 1 0)⟩

/-- `FunctionalBases.eval(x)` for an array `x` with one row per point (functional_bases.py l.285-293): the columns are split
according to the numbers of variables of the bases. -/
def basesEvalAll (bs : List (Basis K)) (pts : List (List K)) : List (Arr K) :=
  bs.mapIdx (fun d b => b.eval (pts.map (fun p => (hsplit p 0 (cumsumNat (bs.map Basis.ndim)).dropLast).getD d [])))

/-- A functional tensor. -/
structure FTn (K : Type) where
  tensor : TVal K
  bases : List (Basis K)

/-- The constructor (functional_tensor.py l.78-85). -/
def FTn.mk' (t : TVal K) (bs : List (Basis K)) : Py (FTn K) :=
  if t.order ≠ bs.length then .error .valueError else .ok ⟨t, bs⟩

/-- `eval_with_bases_evals(bases_eval)` (functional_tensor.py l.877-882), without `dims`. The other branch is taken when the number
of bases is not the order of the tensor, which the constructor refuses. -/
def FTn.evalWith [CommSemiring K] (f : FTn K) (H : List (Arr K)) : Py (Arr K) :=
  if f.bases.length = f.tensor.order then f.tensor.evalDiagProduct H else .error .notImplemented

/-- `eval(x)` (functional_tensor.py l.393-397). -/
def FTn.eval [CommSemiring K] (f : FTn K) (pts : List (List K)) : Py (Arr K) := f.evalWith (basesEvalAll f.bases pts)

/-- `mean()` (functional_tensor.py l.136-137): `M` are the means of the bases. -/
def FTn.mean [CommSemiring K] (f : FTn K) (M : List (Nat → K)) : Py (Arr K) :=
  f.tensor.vectorProductAll (List.zipWith (fun b m => (⟨[b.card], fun j => m (j.getD 0 0)⟩ : Arr K)) f.bases M)

/-- `eval_on_grid(x)` (functional_tensor.py l.799-804), without `dims`: `x` is the list of the grids. -/
def FTn.evalOnGrid [CommSemiring K] (f : FTn K) (grids : List (List (List K))) : Py (TVal K) :=
  f.tensor.product (List.zipWith (fun b g => b.eval g) f.bases grids) (List.range f.bases.length)

/-- `eval_with_bases_evals(bases_eval, dims)` (functional_tensor.py l.883-896) for a dense tensor and distinct dimensions, not all of
them: the tensor and the `fdims` of the result. -/
def evalPartial [CommSemiring K] (x : Arr K) (H : List (Arr K)) (dims : List Nat) : Py (Arr K × List Nat) := do
  let y ← FullTensor.tensorMatrixProductEvalDiag x H (some dims)
  let sorted := dims.insertionSort (· ≤ ·)
  let first := sorted.getD 0 0
  let old := FullTensor.setdiffRange x.order (sorted.drop 2)
  let rest := FullTensor.setdiffRange x.order dims
  let positions := fun (l : List Nat) => (List.range l.length).filter (fun i => rest.contains (l.getD i 0))
  if y.shape.getD first 0 = 1 then do
    let z ← FullTensor.squeezeT y [first]
    .ok (z, positions (old.eraseIdx first))
  else .ok (y, positions old)

end Verif.FunctionalTensor
