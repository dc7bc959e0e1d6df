import Verif.Np.Arr
import Verif.Model.Utils
import Mathlib.Data.List.Sort

/-!
# Model of `tensap/tensor_algebra/tensors/full_tensor.py`

A `FullTensor` is its `data` array (the flags `is_orth`, `orth_dim` are not modelled). Entries are in a
commutative ring: floating-point rounding is not modelled. Negative axes and negative indices are not
modelled.
-/

namespace Verif.FullTensor

open Verif.Arr

variable {R : Type}

/-- `np.argsort(l)` (for distinct keys the result does not depend on the sorting algorithm). -/
def argsort (l : List Nat) : List Nat :=
  (List.range l.length).insertionSort (fun i j => l.getD i 0 ≤ l.getD j 0)

/-- `fast_setdiff(np.arange(order), dims)` (tools/utils.py, modelled in `Verif.Utils.fastSetdiff`). -/
def setdiffRange (order : Nat) (dims : List Nat) : List Nat :=
  (List.range order).filter (fun i => !dims.contains i)

/-- `reshape(shape)` (full_tensor.py l.388-405), also the constructor with `shape` (l.69-70). -/
def reshape (x : Arr R) (shape : List Nat) : Py (Arr R) :=
  if shape.prod = x.shape.prod then .ok (x.reshapeF shape) else .error .valueError

/-- `transpose(dims)` (full_tensor.py l.407-425). NumPy refuses lists that are not permutations. -/
def transposeT (x : Arr R) (dims : List Nat) : Py (Arr R) :=
  if dims.Perm (List.range x.order) then .ok (x.transpose dims) else .error .valueError

/-- `itranspose(dims)` (full_tensor.py l.427-443): `transpose(np.argsort(dims))`. -/
def itransposeT (x : Arr R) (dims : List Nat) : Py (Arr R) := transposeT x (argsort dims)

/-- `matricize(dims1, dims2=None)` (full_tensor.py l.1080-1118). -/
def matricize (x : Arr R) (dims1 : List Nat) (dims2 : Option (List Nat) := none) : Py (Arr R) := do
  let dims2 := dims2.getD (setdiffRange x.order dims1)
  let shape1 := applyPerm dims1 x.shape
  let shape2 := applyPerm dims2 x.shape
  let t ← transposeT x (dims1 ++ dims2)
  reshape t [shape1.prod, shape2.prod]

/-- `squeeze(dims)` (full_tensor.py l.445-469): `np.squeeze` refuses axes of size other than one. An order-0
result is returned as a scalar, modelled as an array of shape `[]`. -/
def squeezeT (x : Arr R) (dims : List Nat) : Py (Arr R) :=
  if ∀ k ∈ dims, k < x.order ∧ x.shape.getD k 0 = 1 then .ok (x.squeeze dims) else .error .valueError

/-- `dot(tensor2)` (full_tensor.py l.471-486) for tensors of equal shapes. -/
def dot [CommSemiring R] (x y : Arr R) : R := (x.zipWith (· * ·) y).sumAll

/-- One step of the loop of `sub_tensor` (full_tensor.py l.543-549): `none` is `":"`. `np.take` raises
`IndexError` on an index out of range. -/
def subStep (x : Arr R) (p : Option (List Nat) × Nat) : Py (Arr R) :=
  match p.1 with
  | none => .ok x
  | some ind => if ∀ i ∈ ind, i < x.shape.getD p.2 0 then .ok (x.take ind p.2) else .error .indexError

/-- `sub_tensor(*indices)` (full_tensor.py l.514-550). -/
def subTensor (x : Arr R) (indices : List (Option (List Nat))) : Py (Arr R) :=
  if indices.length < x.order then .error .indexError
  else ((indices.take x.order).zipIdx).foldlM subStep x

/-- `eval_at_indices(indices, dims)` (full_tensor.py l.282-345). Not modelled: the transposition of
`indices` when its number of columns is not the number of dims (an assertion failure here). -/
def evalAtIndices (x : Arr R) (indices : List (List Nat)) (dims : Option (List Nat) := none) :
    Py (Arr R) :=
  let dims0 := dims.getD (List.range x.order)
  if indices.any (fun r => r.length != dims0.length) then .error .assertionError
  else
    let sortInd := argsort dims0
    let dimsS := if dims.isNone then dims0 else applyPerm sortInd dims0
    let ind := if dims.isNone then indices else indices.map (applyPerm sortInd)
    if dimsS.length = x.order then
      if ind.all (fun r => decide (InBox x.shape r)) then
        .ok ⟨[ind.length], fun k => x.get (ind.getD (k.getD 0 0) [])⟩
      else .error .indexError
    else if dimsS.length = 1 then
      subTensor x ((List.replicate x.order none).set (dimsS.getD 0 0) (some (ind.map (fun r => r.getD 0 0))))
    else do
      let noDims := setdiffRange x.order dimsS
      let shapeD := applyPerm dimsS x.shape
      let lin ← ind.mapM (fun r =>
        if InBox shapeD r then (.ok (ravelC shapeD r) : Py Nat) else .error .valueError)
      let m ← matricize x dimsS
      let e ← subTensor m [some lin, none]
      let e ← reshape e (lin.length :: applyPerm noDims x.shape)
      let left := dimsS.getD 0 0
      transposeT e ((List.range left).map (· + 1) ++ [0] ++
        (List.range (x.order - dimsS.length - left)).map (· + (left + 1)))

/-- `eval_diag(dims)` (full_tensor.py l.347-386). -/
def evalDiag (x : Arr R) (dims : Option (List Nat) := none) : Py (Arr R) :=
  let dims0 := dims.getD (List.range x.order)
  if dims0.length = 1 then .ok x
  else
    let n := x.shape.getD (dims0.getD 0 0) 0
    if dims0.all (fun k => x.shape.getD k 0 == n) then
      evalAtIndices x ((List.range n).map (fun i => List.replicate dims0.length i)) (some dims0)
    else .error .assertionError

/-- `cat(tensor2, dims)` (full_tensor.py l.552-605). -/
def cat [AddZeroClass R] (x y : Arr R) (dims : Option (List Nat) := none) : Py (Arr R) :=
  if x.order ≠ y.order then .error .assertionError
  else
    let dims := dims.getD (List.range x.order)
    let dimsNot := setdiffRange x.order dims
    if applyPerm dimsNot x.shape ≠ applyPerm dimsNot y.shape then .error .assertionError
    else if dims.length = 1 then .ok (x.concat y (dims.getD 0 0))
    else
      let shapeOut := (List.range x.order).map (fun k =>
        if k ∈ dims then x.shape.getD k 0 + y.shape.getD k 0 else x.shape.getD k 0)
      let zero := List.replicate x.order 0
      .ok ((x.pad zero (List.zipWith (· - ·) shapeOut x.shape)).zipWith (· + ·)
        (y.pad (List.zipWith (· - ·) shapeOut y.shape) zero))

/-- `np.matmul` of `x` flattened as a column and `y` flattened as a row (full_tensor.py l.668-669, l.678). -/
def outerFlat [Mul R] (x y : Arr R) : Arr R where
  shape := [x.shape.prod, y.shape.prod]
  get idx := x.get (unravelC x.shape (idx.getD 0 0)) * y.get (unravelC y.shape (idx.getD 1 0))

/-- The permutation `0, d, 1, d + 1, ...` of `kron` (full_tensor.py l.671-674). -/
def kronPerm (d : Nat) : List Nat := (List.range d).flatMap (fun k => [k, d + k])

/-- `kron(tensor2)` (full_tensor.py l.645-684) for tensors of equal orders. Simplification: with different
orders the last line of the code broadcasts the two shapes and NumPy raises (an order-1 tensor of size one
excepted); this is `ValueError` here. -/
def kron [Mul R] (x y : Arr R) : Py (Arr R) :=
  if x.order ≠ y.order then .error .valueError
  else
    .ok ((((outerFlat x y).reshapeC (x.shape ++ y.shape)).transpose (kronPerm x.order)).reshapeC
      (List.zipWith (· * ·) x.shape y.shape))

/-- `tensordot(tensor2, dims1, dims2)` (full_tensor.py l.786-823): the shapes must agree on the contracted
dimensions. -/
def tensordotT [CommSemiring R] (x y : Arr R) (dims1 dims2 : List Nat) : Py (Arr R) :=
  if applyPerm dims1 x.shape = applyPerm dims2 y.shape then .ok (x.tensordot y dims1 dims2)
  else .error .assertionError

/-- The body of the loop of `tensor_matrix_product` (full_tensor.py l.962-967). -/
def tmpStep [CommSemiring R] (x : Arr R) (p : Arr R × Nat) : Py (Arr R) := do
  let index := setdiffRange x.order [p.2] ++ [p.2]
  let t ← tensordotT x p.1 [p.2] [1]
  itransposeT t index

/-- `tensor_matrix_product(matrices, dims)` (full_tensor.py l.910-968). -/
def tensorMatrixProduct [CommSemiring R] (x : Arr R) (matrices : List (Arr R))
    (dims : Option (List Nat) := none) : Py (Arr R) :=
  let dims := dims.getD (List.range x.order)
  if matrices.length ≠ dims.length then .error .assertionError
  else (matrices.zip dims).foldlM tmpStep x

/-- `FullTensor(v, 2, [1, -1])` (full_tensor.py l.997): a vector as a one-row matrix. -/
def rowMatrix (v : Arr R) : Arr R := v.reshapeF [1, v.shape.prod]

/-- `tensor_vector_product(vectors, dims)` (full_tensor.py l.970-998). -/
def tensorVectorProduct [CommSemiring R] (x : Arr R) (vectors : List (Arr R))
    (dims : Option (List Nat) := none) : Py (Arr R) := do
  let dims := dims.getD (List.range x.order)
  if vectors.length ≠ dims.length then .error .assertionError
  else do
    let t ← tensorMatrixProduct x (vectors.map rowMatrix) (some dims)
    squeezeT t dims

/-- `FullTensor.diag(diag, order)` (full_tensor.py l.1305-1332). -/
def diag [Zero R] (v : List R) (order : Nat) : Arr R where
  shape := List.replicate order v.length
  get idx :=
    (List.range v.length).foldl (fun acc i => if idx = List.replicate order i then v.getD i 0 else acc) 0

/-- `__add__`, `__sub__`, `__neg__`, `__mul__` (full_tensor.py l.193-227) for tensors of equal shapes, and
for a scalar. -/
def add [Add R] (x y : Arr R) : Arr R := x.zipWith (· + ·) y
def sub [Sub R] (x y : Arr R) : Arr R := x.zipWith (· - ·) y
def neg [Neg R] (x : Arr R) : Arr R := x.map (fun v => -v)
def mul [Mul R] (x y : Arr R) : Arr R := x.zipWith (· * ·) y
def smul [Mul R] (c : R) (x : Arr R) : Arr R := x.map (fun v => v * c)

/-- `tensordot_eval_diag(tensor2, dims1, dims2, diag_dims1, diag_dims2, diag)` (full_tensor.py l.825-908):
the labels given to `np.einsum`. -/
def einsumLabels (o1 o2 : Nat) (dims1 dims2 diag1 diag2 : List Nat) (diag : Bool) :
    List Nat × List Nat × List Nat :=
  let ind1 := List.range o1
  let ind2 := (List.range o2).map (· + o1)
  let put := fun (l : List Nat) (pos vals : List Nat) => (pos.zip vals).foldl (fun l p => l.set p.1 p.2) l
  let (ind1, ind2) :=
    if diag && !diag1.isEmpty && !diag2.isEmpty then (ind1, put ind2 diag2 (applyPerm diag1 ind1))
    else if !diag then
      let l := ind1.getD (diag1.getD 0 0) 0
      (put ind1 diag1 (List.replicate diag1.length l), put ind2 diag2 (List.replicate diag2.length l))
    else (ind1, ind2)
  let ind2 := if !dims1.isEmpty && !dims2.isEmpty then put ind2 dims2 (applyPerm dims1 ind1) else ind2
  (ind1, ind2, (distinct (ind1 ++ ind2)).filter (fun l => !dims1.contains l))

def tensordotEvalDiag [CommSemiring R] (x y : Arr R) (dims1 dims2 diag1 diag2 : List Nat)
    (diag : Bool := false) : Arr R :=
  let (l1, l2, out) := einsumLabels x.order y.order dims1 dims2 diag1 diag2 diag
  x.einsum l1 y l2 out

/-- `tensor_matrix_product_eval_diag(matrices, dims)` (full_tensor.py l.1000-1043). The indices are visited
by decreasing dimension (`np.flip(np.argsort(dims))`). -/
def tensorMatrixProductEvalDiag [CommSemiring R] (x : Arr R) (matrices : List (Arr R))
    (dims : Option (List Nat) := none) : Py (Arr R) :=
  let dims := dims.getD (List.range x.order)
  if matrices.length ≠ dims.length then .error .assertionError
  else
    match (argsort dims).reverse with
    | [] => .error .indexError
    | i0 :: is => do
      let M := fun i => matrices.getD i ⟨[], fun _ => 0⟩
      let out ← tensordotT (M i0) x [1] [dims.getD i0 0]
      .ok (is.foldl (fun out i => tensordotEvalDiag (M i) out [1] [dims.getD i 0 + 1] [0] [0]) out)

/-- `reduce_sum(dims)` (full_tensor.py l.607-624): `np.sum(data, dims, keepdims=True)`. -/
def reduceSum [AddCommMonoid R] (x : Arr R) (dims : List Nat) : Arr R where
  shape := (List.range x.order).map (fun k => if k ∈ dims then 1 else x.shape.getD k 0)
  get idx := sumBox (applyPerm dims x.shape) (fun s =>
    x.get (mergeIdx dims s 0 x.order (dropAxes dims idx)))

end Verif.FullTensor
