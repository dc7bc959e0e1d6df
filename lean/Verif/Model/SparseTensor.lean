import Verif.Model.FullTensor
import Verif.Model.MultiIndices

/-!
# Model of `tensap/tensor_algebra/tensors/sparse_tensor.py`

A sparse tensor is its shape, the rows of its multi-index set and its data. NumPy detail that matters: the
constructor squeezes `data` and `shape`, so that a tensor built with one entry has a 0-d `data` array, which
cannot be indexed (`IndexError`), and a tensor of order one has a 0-d `shape`. The two flags record this.
Rows are natural numbers (negative indices are not modelled).
-/

namespace Verif.Sparse

open Verif.Arr Verif.MultiIndices

variable {R : Type}

structure Sp (R : Type) where
  shape : List Nat
  rows : List (List Nat)
  data : List R
  dataZeroD : Bool
  shapeZeroD : Bool

/-- The constructor with `data`, `indices`, `shape` (sparse_tensor.py l.97-113). -/
def mk (data : List R) (rows : List (List Nat)) (shape : List Nat) : Py (Sp R) :=
  if data.length = rows.length then .ok ⟨shape, rows, data, data.length == 1, shape.length == 1⟩
  else .error .assertionError

/-- `y = zeros(shape); y[ind] = data`: NumPy assigns in order (the last one stays). -/
def valueAt [Zero R] (rows : List (List Nat)) (data : List R) (idx : List Nat) : R :=
  (rows.zip data).foldl (fun acc p => if p.1 = idx then p.2 else acc) 0

/-- `full()` (sparse_tensor.py l.176-190). With a number of values different from one and from the number of
rows the assignment raises `ValueError`; one value is broadcast. -/
def full [Zero R] (s : Sp R) : Py (Arr R) :=
  if s.rows.any (fun r => !decide (InBox s.shape r)) then .error .indexError
  else if s.data.length = s.rows.length then .ok ⟨s.shape, valueAt s.rows s.data⟩
  else if s.data.length = 1 then
    .ok ⟨s.shape, valueAt s.rows (List.replicate s.rows.length (s.data.getD 0 0))⟩
  else .error .valueError

/-- `FullTensor.sparse()` (full_tensor.py l.154-167). -/
def ofFull [Zero R] [DecidableEq R] (x : Arr R) : Py (Sp R) :=
  let dat := (List.range x.shape.prod).map (fun k => x.get (unravelF x.shape k))
  let ind := (List.range x.shape.prod).filter (fun k => dat.getD k 0 ≠ 0)
  mk (ind.map (fun k => dat.getD k 0)) (ind.map (unravelF x.shape)) x.shape

/-- `eval_at_indices(ind)` (sparse_tensor.py l.209-254), all the dimensions: entry `(k, 0)` of a sparse column
matrix; `loc_J, loc_I` are the pairs (row of the tensor, row of `ind`) that are equal, tensor-row major. -/
def evalAtIndices [Zero R] (s : Sp R) (ind : List (List Nat)) : Py (List R) :=
  if s.dataZeroD then .error .indexError
  else
    let pairs := (List.range s.rows.length).flatMap fun j =>
      ((List.range ind.length).filter fun i => ind.getD i [] == s.rows.getD j []).map fun i => (j, i)
    .ok (pairs.foldl (fun ev p => ev.set p.2 (s.data.getD p.1 0)) (List.replicate ind.length 0))

/-- `self.indices.add_indices(y.indices)` (multi_indices.py l.305-323, as in `MultiIndices.addIndices`). -/
def addRows (r1 r2 : List (List Nat)) : List (List Nat) :=
  let u := dedupFirst (r1 ++ r2)
  if u = [] then [[]] else u

/-- `I.intersect_indices(J)` (multi_indices.py l.368-389, as in `MultiIndices.intersectIndices`): the pairs
(position in `J`, position in `I`) of equal rows, `J`-major. -/
def interPairs (I J : List (List Nat)) : List (Nat × Nat) :=
  (List.range J.length).flatMap fun j =>
    ((List.range I.length).filter fun i => I.getD i [] == J.getD j []).map fun i => (j, i)

/-- `data[rep] += values` (NumPy: buffered, a repeated position gets the last sum; one value is broadcast). -/
def addAt [Add R] [Zero R] (data : List R) (rep : List Nat) (values : List R) : Py (List R) :=
  if rep.length = values.length then
    .ok ((rep.zip values).foldl (fun d p => d.set p.1 (data.getD p.1 0 + p.2)) data)
  else if values.length = 1 then
    .ok (rep.foldl (fun d p => d.set p (data.getD p 0 + values.getD 0 0)) data)
  else .error .valueError

/-- `__add__` (sparse_tensor.py l.274-281). -/
def add [Add R] [Zero R] (x y : Sp R) : Py (Sp R) := do
  let ind := addRows x.rows y.rows
  let repX := (interPairs ind x.rows).map Prod.snd
  let repY := (interPairs ind y.rows).map Prod.snd
  let data ← addAt (List.replicate ind.length 0) repX x.data
  let data ← addAt data repY y.data
  mk data ind x.shape

/-- `dot(y)` (sparse_tensor.py l.556-580). -/
def dot [AddCommMonoid R] [Mul R] (x y : Sp R) : Py R :=
  if x.dataZeroD || y.dataZeroD then .error .indexError
  else .ok (((interPairs x.rows y.rows).map (fun p => x.data.getD p.2 0 * y.data.getD p.1 0)).sum)

/-- `__mul__` (sparse_tensor.py l.582-593). -/
def mul [Mul R] [Zero R] (x y : Sp R) : Py (Sp R) :=
  if x.dataZeroD || y.dataZeroD then .error .indexError
  else
    let pairs := interPairs x.rows y.rows
    .ok { x with
      data := pairs.map (fun p => x.data.getD p.2 0 * y.data.getD p.1 0)
      rows := pairs.map (fun p => x.rows.getD p.2 []) }

/-- `transpose(dims)` (sparse_tensor.py l.453-471). Axis numbers out of range raise. -/
def transpose (s : Sp R) (dims : List Nat) : Py (Sp R) :=
  if s.shapeZeroD || dims.any (fun k => s.shape.length ≤ k) then .error .indexError
  else .ok { s with rows := s.rows.map (applyPerm dims), shape := applyPerm dims s.shape, shapeZeroD := false }

/-- `itranspose(dims)` (sparse_tensor.py l.473-490). -/
def itranspose (s : Sp R) (dims : List Nat) : Py (Sp R) := transpose s (FullTensor.argsort dims)

/-- `reshape(shape)` (sparse_tensor.py l.492-512): `sub2ind` of the old shape, `ind2sub` of the new one; both
raise `ValueError` out of range. The total sizes are not compared. -/
def reshape (s : Sp R) (shape : List Nat) : Py (Sp R) :=
  if s.rows.any (fun r => !decide (InBox s.shape r)) then .error .valueError
  else
    let ind := s.rows.map (ravelF s.shape)
    if ind.any (fun k => shape.prod ≤ k) then .error .valueError
    else .ok { s with rows := ind.map (unravelF shape), shape := shape, shapeZeroD := false }

/-- One iteration of the loop of `tensor_vector_product` (sparse_tensor.py l.325-343) along column `p`.
`np.unique(axis=0)` sorts the rows; `np.bincount(ind, weights)` sums the values of equal rows. When the array
of indices has size zero after the step, `out.data` keeps its old value. -/
def tvpStep [CommSemiring R] [DecidableEq R] (rows : List (List Nat)) (data v : List R) (p : Nat) :
    Py (List (List Nat) × List R) :=
  if rows.any (fun r => v.length ≤ r.getD p 0) then .error .indexError
  else if data.length ≠ rows.length ∧ data.length ≠ 1 ∧ rows.length ≠ 1 then .error .valueError
  else
    let n := if data.length = 1 then rows.length else data.length
    let a := (List.range n).map (fun k => (if data.length = 1 then data.getD 0 0 else data.getD k 0) *
      v.getD ((rows.getD (if rows.length = 1 then 0 else k) []).getD p 0) 0)
    if n ≠ rows.length then .error .indexError
    else
      let kept := ((rows.map (fun r => r.eraseIdx p)).zip a).filter (fun q => q.2 ≠ 0)
      let rows' := kept.map Prod.fst
      if rows'.length * ((rows'.getD 0 []).length) ≠ 0 then
        let u := (dedupFirst rows').insertionSort (· ≤ ·)
        .ok (u, u.map (fun r => ((kept.filter (fun q => q.1 = r)).map Prod.snd).sum))
      else .ok (rows', data)

/-- The loop: `dims -= dims > dims[i]` shifts the later dimensions (sparse_tensor.py l.324-345). -/
def tvpLoop [CommSemiring R] [DecidableEq R] : List (List R) → List Nat → List (List Nat) → List R →
    Py (List (List Nat) × List R)
  | v :: vs, p :: ps, rows, data => do
    let (rows', data') ← tvpStep rows data v p
    tvpLoop vs (ps.map (fun d => if d > p then d - 1 else d)) rows' data'
  | _, _, rows, data => .ok (rows, data)

/-- The result of `tensor_vector_product`: a sparse tensor, or (no dimension left) the array `out.data`. -/
inductive TvpResult (R : Type) where
  | tensor (s : Sp R)
  | array (data : List R)

/-- `tensor_vector_product(vectors, dims)` (sparse_tensor.py l.289-352). Simplification: `shape` of a tensor of
order one built by the constructor is 0-d, and then the only possible contraction is the full one. -/
def tensorVectorProduct [CommSemiring R] [DecidableEq R] (s : Sp R) (vectors : List (List R)) (dims : List Nat) :
    Py (TvpResult R) := do
  if vectors.length ≠ dims.length then .error .assertionError
  else
    let notDims := FullTensor.setdiffRange s.shape.length dims
    let (rows, data) ← tvpLoop vectors dims s.rows s.data
    if notDims = [] then .ok (.array data)
    else .ok (.tensor ⟨applyPerm notDims s.shape, rows, data, false, false⟩)

/-- `tensor_matrix_product_eval_diag(matrices)` (sparse_tensor.py l.430-451): entry `i` of the result. Each
matrix is given by its entries. -/
def tensorMatrixProductEvalDiag [CommSemiring R] (s : Sp R) (matrices : List (Arr R)) (i : Nat) : R :=
  ((s.rows.zip s.data).map (fun p =>
    (List.zipWith (fun (M : Arr R) j => M.get [i, j]) matrices p.1).prod * p.2)).sum

/-- One iteration of the loop of `tensor_matrix_product` (sparse_tensor.py l.384-411). Not modelled: a 0-d
`data` array (a tensor built with one entry). `np.max` of an empty array (no nonzero entry) raises
`ValueError`; a tensor of order one raises `IndexError` (`out.shape[1] = 1`). -/
def tmpStep [CommSemiring R] [DecidableEq R] (s : Sp R) (M : Arr R) (mu : Nat) : Py (Sp R) := do
  let permDims := mu :: FullTensor.setdiffRange s.shape.length [mu]
  let out ← transpose s permDims
  if out.shape.length = 1 then .error .indexError
  else
    let n0 := out.shape.getD 0 0
    let n1 := (out.shape.drop 1).prod
    let nz := (out.rows.zip out.data).filter (fun q => q.2 ≠ 0)
    if nz.any (fun q => !decide (InBox out.shape q.1)) then .error .valueError
    else if nz = [] then .error .valueError
    else if M.shape.getD 1 0 ≠ n0 then .error .valueError
    else
      let x12 := nz.map (fun q => (unravelF [n0, n1] (ravelF out.shape q.1), q.2))
      let x2u := (dedupFirst (x12.map (fun q => q.1.getD 1 0))).insertionSort (· ≤ ·)
      let a := fun (i c : Nat) => (x12.map (fun q =>
        if q.1.getD 1 0 = c then M.get [i, q.1.getD 0 0] * q.2 else 0)).sum
      let m := M.shape.getD 0 0
      let y12 := ((List.range m).flatMap (fun i => x2u.map (fun c => (i, c)))).filter (fun p => a p.1 p.2 ≠ 0)
      let shape' := m :: out.shape.drop 1
      let out' : Sp R := ⟨shape', y12.map (fun p => unravelF shape' (ravelF [m, n1] [p.1, p.2])),
        y12.map (fun p => a p.1 p.2), false, false⟩
      itranspose out' permDims

/-- `tensor_matrix_product(matrices, dims)` (sparse_tensor.py l.354-428). -/
def tensorMatrixProduct [CommSemiring R] [DecidableEq R] (s : Sp R) (matrices : List (Arr R)) (dims : List Nat) :
    Py (Sp R) :=
  if matrices.length ≠ dims.length then .error .assertionError
  else (matrices.zip dims).foldlM (fun s p => tmpStep s p.1 p.2) s

end Verif.Sparse
