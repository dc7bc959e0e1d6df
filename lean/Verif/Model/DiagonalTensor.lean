import Verif.Model.SparseTensor

/-!
# Model of `tensap/tensor_algebra/tensors/diagonal_tensor.py`

A diagonal tensor is its diagonal and its order; the attribute `shape` is `order` times the length of the
diagonal (`reshape` and `transpose`, which only rewrite this attribute, are not modelled). Simplification: NumPy
broadcasting of arrays of size one is not modelled; operands of different lengths are a `ValueError`.
-/

namespace Verif.Diagonal

open Verif.Arr Verif.MultiIndices

variable {R : Type}

/-- `DiagonalTensor(data, order)` (diagonal_tensor.py l.45-76). -/
structure Dg (R : Type) where
  data : List R
  order : Nat

/-- `shape` (diagonal_tensor.py l.76). -/
def Dg.shape (x : Dg R) : List Nat := List.replicate x.order x.data.length

/-- `full()` (diagonal_tensor.py l.396-406). -/
def full [Zero R] (x : Dg R) : Arr R := FullTensor.diag x.data x.order

/-- Elementwise operation of two arrays of the same length. -/
def zip2 (f : R → R → R) (a b : List R) : Py (List R) :=
  if a.length = b.length then .ok (List.zipWith f a b) else .error .valueError

/-- `__add__`, `__neg__`, `__sub__`, `__mul__` (diagonal_tensor.py l.176-186). -/
def add [Add R] (x y : Dg R) : Py (Dg R) := do .ok ⟨← zip2 (· + ·) x.data y.data, x.order⟩
def neg [Neg R] (x : Dg R) : Dg R := ⟨x.data.map (fun v => -v), x.order⟩
def sub [Sub R] (x y : Dg R) : Py (Dg R) := do .ok ⟨← zip2 (· - ·) x.data y.data, x.order⟩
def mul [Mul R] (x y : Dg R) : Py (Dg R) := do .ok ⟨← zip2 (· * ·) x.data y.data, x.order⟩

/-- `dot(y)` (diagonal_tensor.py l.367-382). -/
def dot [AddCommMonoid R] [Mul R] (x y : Dg R) : Py R := do .ok (← zip2 (· * ·) x.data y.data).sum

/-- `np.prod(vectors, 1)` of the vectors put in columns (diagonal_tensor.py l.258-260, l.335-338): the rows of
the matrix are multiplied. `np.hstack` refuses different lengths. -/
def prodCols [CommMonoid R] [Zero R] (n : Nat) (vectors : List (List R)) : Py (List R) :=
  if ∀ v ∈ vectors, v.length = n then .ok ((List.range n).map (fun i => (vectors.map (fun v => v.getD i 0)).prod))
  else .error .valueError

/-- The result of a contraction: a diagonal tensor, or a scalar when no dimension is left. -/
inductive Res (R : Type) where
  | tensor (x : Dg R)
  | scalar (v : R)

/-- `tensor_vector_product(vectors)` (diagonal_tensor.py l.240-265). -/
def tensorVectorProduct [CommSemiring R] (x : Dg R) (vectors : List (List R)) : Py (Res R) := do
  let p ← prodCols x.data.length vectors
  let data := List.zipWith (· * ·) x.data p
  let order := x.order - vectors.length
  if order = 0 then .ok (.scalar data.sum) else .ok (.tensor ⟨data, order⟩)

/-- `tensor_diagonal_matrix_product(matrices)` (diagonal_tensor.py l.318-338). -/
def tensorDiagonalMatrixProduct [CommSemiring R] (x : Dg R) (matrices : List (List R)) : Py (Dg R) := do
  let p ← prodCols x.data.length matrices
  .ok ⟨List.zipWith (· * ·) p x.data, x.order⟩

/-- `sparse()` (diagonal_tensor.py l.420-435). -/
def sparse [Zero R] [DecidableEq R] (x : Dg R) : Py (Sparse.Sp R) :=
  let ind := (List.range x.data.length).filter (fun i => x.data.getD i 0 ≠ 0)
  Sparse.mk (x.data.filter (fun v => v ≠ 0)) (ind.map (fun i => List.replicate x.order i)) x.shape

/-- `cat(y)` (diagonal_tensor.py l.437-459). -/
def cat (x y : Dg R) : Dg R := ⟨x.data ++ y.data, x.order⟩

/-- `kron(y)` (diagonal_tensor.py l.461-479): the outer product of `y.data` and `x.data` read column by column. -/
def kron [Mul R] [Zero R] (x y : Dg R) : Dg R :=
  let n := y.data.length
  ⟨(List.range (n * x.data.length)).map (fun k => y.data.getD (k % n) 0 * x.data.getD (k / n) 0), x.order⟩

/-- `np.reshape(np.expand_dims(np.hstack([M.reshape(-1, 1) ...]), 1), (r1, r2, d), order="F")`
(diagonal_tensor.py l.503-509): entry `(i, j)` of the slice `M`. -/
def metricEntry (M : Arr R) (r1 i j : Nat) : R := M.get (unravelC M.shape (i + r1 * j))

/-- `dot_with_rank_one_metric(y, matrix)` for a list of matrices (diagonal_tensor.py l.481-511). -/
def dotWithRankOneMetric [CommSemiring R] (x y : Dg R) (matrices : List (Arr R)) : Py R :=
  let r1 := x.data.length
  let r2 := y.data.length
  if matrices.length = x.order ∧ ∀ M ∈ matrices, M.shape.prod = r1 * r2 then
    .ok (((List.range r1).map (fun i => x.data.getD i 0 * ((List.range r2).map (fun j =>
      (matrices.map (fun M => metricEntry M r1 i j)).prod * y.data.getD j 0)).sum)).sum)
  else .error .valueError

/-- `tensordot_matrix_product_except_dim(y, matrices, dim)` (diagonal_tensor.py l.513-545): the matrices are put
side by side, so that the reshape keeps rows and columns. The result is an `r1 × r2` array. -/
def tensordotMatrixProductExceptDim [CommSemiring R] (x y : Dg R) (matrices : List (Arr R)) (dim : Nat) : Arr R where
  shape := [x.data.length, y.data.length]
  get ij := (((FullTensor.setdiffRange x.order [dim]).map (fun k =>
      (matrices.getD k ⟨[], fun _ => 0⟩).get [ij.getD 0 0, ij.getD 1 0])).prod) *
    (x.data.getD (ij.getD 0 0) 0 * y.data.getD (ij.getD 1 0) 0)

/-- The result of `eval_diag`: an array, or a diagonal tensor. -/
inductive DiagRes (R : Type) where
  | array (data : List R)
  | tensor (x : Dg R)

/-- `eval_diag(dims)` (diagonal_tensor.py l.559-586). -/
def evalDiag (x : Dg R) (dims : Option (List Nat)) : Py (DiagRes R) :=
  match dims with
  | none => .ok (.array x.data)
  | some dims =>
    if dims.length = x.order then .ok (.array x.data)
    else
      let s := dims.insertionSort (· ≤ ·)
      match s with
      | [] => .error .indexError
      | d0 :: _ =>
        let last := s.getLast?.getD 0
        let rep := List.range (d0 + 1) ++ (List.range x.order).filter (fun k => last + 1 ≤ k)
        if rep.any (fun k => x.order ≤ k) then .error .indexError
        else .ok (.tensor ⟨x.data, rep.length⟩)

/-- `eval_at_indices(ind)` on all the dimensions (diagonal_tensor.py l.588-626). -/
def evalAtIndices [Zero R] (x : Dg R) (ind : List (List Nat)) : Py (List R) :=
  ind.mapM (fun r =>
    if r.all (fun a => a == r.getD 0 0) then
      if r.getD 0 0 < x.data.length then .ok (x.data.getD (r.getD 0 0) 0) else .error .indexError
    else .ok 0)

end Verif.Diagonal
