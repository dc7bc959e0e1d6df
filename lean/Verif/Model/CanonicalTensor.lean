import Verif.Model.DiagonalTensor

/-!
# Model of `tensap/tensor_algebra/tensors/canonical_tensor.py`

A canonical tensor is the list of its factor matrices (`space`, of shape `n_k × r`) and the diagonal of its core.
The matrices are values here: the sharing of the arrays between tensors (`list(self.space)` in `__neg__`,
`tensor_matrix_product`, `squeeze`) is not modelled; the update in place made by `eval_diag` on the tensor itself
is.
-/

namespace Verif.Canonical

open Verif.Arr

variable {R : Type}

/-- `CanonicalTensor(space, core)` with an array `core` (canonical_tensor.py l.46-78). -/
structure Cn (R : Type) where
  space : List (Arr R)
  core : List R

/-- `order`, `shape` (canonical_tensor.py l.75-77). -/
def Cn.order (x : Cn R) : Nat := x.space.length
def Cn.shape (x : Cn R) : List Nat := x.space.map (fun M => M.shape.getD 0 0)

/-- `np.matmul` of two matrices. -/
def matmul [CommSemiring R] (A B : Arr R) : Py (Arr R) :=
  if A.order = 2 ∧ B.order = 2 ∧ A.shape.getD 1 0 = B.shape.getD 0 0 then
    .ok ⟨[A.shape.getD 0 0, B.shape.getD 1 0], fun ij =>
      ∑ k ∈ Finset.range (B.shape.getD 0 0), A.get [ij.getD 0 0, k] * B.get [k, ij.getD 1 0]⟩
  else .error .valueError

/-- `full()` (canonical_tensor.py l.145-155). -/
def full [CommSemiring R] (x : Cn R) : Py (Arr R) :=
  FullTensor.tensorMatrixProduct (Diagonal.full ⟨x.core, x.order⟩) x.space

/-- `np.hstack((x, y))` of two matrices. -/
def hstack (a b : Arr R) : Py (Arr R) :=
  if a.shape.getD 0 0 = b.shape.getD 0 0 then .ok (a.concat b 1) else .error .valueError

/-- `__add__` (canonical_tensor.py l.80-83). -/
def add (x y : Cn R) : Py (Cn R) := do
  let space ← (x.space.zip y.space).mapM (fun p => hstack p.1 p.2)
  .ok ⟨space, x.core ++ y.core⟩

/-- `__neg__`, `__sub__` (canonical_tensor.py l.88-95). -/
def neg [Neg R] (x : Cn R) : Cn R := ⟨x.space, x.core.map (fun v => -v)⟩
def sub [Neg R] (x y : Cn R) : Py (Cn R) := add x (neg y)

/-- `tensor_matrix_product(matrices, dims)` (canonical_tensor.py l.246-284). -/
def tensorMatrixProduct [CommSemiring R] (x : Cn R) (matrices : List (Arr R)) (dims : Option (List Nat) := none) :
    Py (Cn R) :=
  let dims := dims.getD (List.range x.order)
  if matrices.length ≠ dims.length then .error .assertionError
  else do
    let space ← (matrices.zip dims).foldlM (fun (s : List (Arr R)) p =>
      match s[p.2]? with
      | none => .error .indexError
      | some B => do .ok (s.set p.2 (← matmul p.1 B))) x.space
    .ok ⟨space, x.core⟩

/-- The result of `squeeze`: a canonical tensor, or the array of the full tensor without its dimensions of size
one (a scalar). -/
inductive Res (R : Type) where
  | tensor (x : Cn R)
  | array (a : Arr R)

/-- `squeeze(dims)` (canonical_tensor.py l.204-244). -/
def squeeze [CommSemiring R] (x : Cn R) (dims : List Nat) : Py (Res R) :=
  if dims.any (fun d => x.order ≤ d) then .error .indexError
  else if dims.any (fun d => x.shape.getD d 0 ≠ 1) then .error .assertionError
  else
    let dims := dims.insertionSort (· ≤ ·)
    let remaining := FullTensor.setdiffRange x.order dims
    if remaining = [] then do
      let f ← full x
      .ok (.array (f.squeeze ((List.range f.order).filter (fun k => f.shape.getD k 0 = 1))))
    else
      let core := dims.foldl (fun (c : List R) d =>
        (List.range c.length).map (fun i => c.getD i 0 * (x.space.getD d ⟨[], fun _ => 0⟩).get [0, i])) x.core
      .ok (.tensor ⟨remaining.map (fun k => x.space.getD k ⟨[], fun _ => 0⟩), core⟩)

/-- `tensor_vector_product(vectors, dims)` (canonical_tensor.py l.169-202). -/
def tensorVectorProduct [CommSemiring R] (x : Cn R) (vectors : List (Arr R)) (dims : Option (List Nat) := none) :
    Py (Res R) := do
  let dims := dims.getD (List.range x.order)
  if vectors.length ≠ dims.length then .error .assertionError
  else
    let t ← tensorMatrixProduct x (vectors.map FullTensor.rowMatrix) (some dims)
    squeeze t dims

/-- `np.transpose(M)` of a matrix. -/
def tr (M : Arr R) : Arr R := ⟨[M.shape.getD 1 0, M.shape.getD 0 0], fun ij => M.get [ij.getD 1 0, ij.getD 0 0]⟩

/-- `dot(tensor_2)` (canonical_tensor.py l.363-384). -/
def dot [CommSemiring R] (x y : Cn R) : Py R := do
  let matrices ← (x.space.zip y.space).mapM (fun p => matmul (tr p.1) p.2)
  Diagonal.dotWithRankOneMetric ⟨x.core, x.order⟩ ⟨y.core, y.order⟩ matrices

/-- The loop `out = self.space[d0]; for k in ds: out *= self.space[k]` (canonical_tensor.py l.345-347): `out` is
the array stored in the tensor, which is updated in place. The new list of matrices is returned. -/
def hadamardLoop [Mul R] (d0 : Nat) : List Nat → List (Arr R) → Py (List (Arr R))
  | [], s => .ok s
  | k :: ks, s =>
    match s[d0]?, s[k]? with
    | some A, some B =>
      if A.shape = B.shape then hadamardLoop d0 ks (s.set d0 (A.zipWith (· * ·) B)) else .error .valueError
    | _, _ => .error .indexError

/-- `eval_diag()` on all the dimensions (canonical_tensor.py l.311-361): the returned array, and the tensor after
the call. -/
def evalDiag [CommSemiring R] (x : Cn R) : Py (List R × Cn R) := do
  match List.range x.order with
  | [] => .error .indexError
  | d0 :: ds =>
    let s ← hadamardLoop d0 ds x.space
    match s[d0]? with
    | none => .error .indexError
    | some A =>
      if A.shape.getD 1 0 = x.core.length then
        .ok ((List.range (A.shape.getD 0 0)).map (fun i =>
          ∑ k ∈ Finset.range x.core.length, A.get [i, k] * x.core.getD k 0), ⟨s, x.core⟩)
      else .error .valueError

/-- `storage()`, `representation_rank()` (canonical_tensor.py l.405-441). -/
def storage (x : Cn R) : Nat := x.core.length + (x.space.map (fun M => M.shape.prod)).sum
def representationRank (x : Cn R) : Nat := x.core.length

/-- `reduce_sum(dims)` (canonical_tensor.py l.488-513). -/
def reduceSum [CommSemiring R] (x : Cn R) (dims : Option (List Nat) := none) : Py (Res R) :=
  let dims := dims.getD (List.range x.order)
  tensorVectorProduct x (dims.map (fun k => ⟨[x.shape.getD k 0], fun _ => 1⟩)) (some dims)

end Verif.Canonical
