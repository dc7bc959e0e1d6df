import Verif.Model.Grids

/-!
# Model of parts of `tensap/approximation/bases`

`FunctionalBasisArray`, `FullTensorProductFunctionalBasis`, `SparseTensorProductFunctionalBasis`, `FunctionalBases`. A
basis enters through the values that the code asks of it: the matrix `H` of its evaluations (one row per point, one
column per basis function), the vector of its means, its Gram matrix.
-/

namespace Verif.Bases

open Verif.MultiIndices Verif.Arr Verif.Grids

variable {K : Type}

/-! ### `FunctionalBasisArray` -/

/-- `FunctionalBasisArray` (functional_basis_array.py l.28-78): the attributes `data`, `basis.cardinal()`, `shape`. -/
structure FBA (K : Type) where
  data : Arr K
  card : Nat
  shape : List Nat

/-- `FunctionalBasisArray(data, basis, shape)` (l.67-78): `np.ravel` in order "F", then `np.reshape` in the default order
"C". -/
def FBA.mk' (data : Arr K) (card : Nat) (shape : List Nat) : Py (FBA K) :=
  if data.shape.prod ≠ (card :: shape).prod then .error .valueError
  else .ok ⟨⟨card :: shape, fun idx => data.get (unravelF data.shape (ravelC (card :: shape) idx))⟩, card, shape⟩

/-- `__add__`, `__neg__`, `__sub__`, `__mul__` with an array of functions or a number (l.80-92), for data of equal shapes
(no broadcasting). -/
def FBA.add [Add K] (f g : FBA K) : Py (FBA K) := FBA.mk' (Arr.zipWith (· + ·) f.data g.data) f.card f.shape
def FBA.neg [Neg K] (f : FBA K) : Py (FBA K) := FBA.mk' (Arr.map (fun x => -x) f.data) f.card f.shape
def FBA.sub [Sub K] (f g : FBA K) : Py (FBA K) := FBA.mk' (Arr.zipWith (· - ·) f.data g.data) f.card f.shape
def FBA.mul [Mul K] (f g : FBA K) : Py (FBA K) := FBA.mk' (Arr.zipWith (· * ·) f.data g.data) f.card f.shape
def FBA.smul [Mul K] (f : FBA K) (c : K) : Py (FBA K) := FBA.mk' (Arr.map (fun x => x * c) f.data) f.card f.shape

/-- `eval_with_bases_evals(H)` (l.413-435), `eval(x)` with `H = basis.eval(x)` (l.407-411). -/
def FBA.evalWith [CommSemiring K] (f : FBA K) (H : Arr K) : Py (Arr K) := do
  let y ← Canonical.matmul H (f.data.reshapeF [f.card, f.shape.prod])
  .ok (y.reshapeF (H.shape.getD 0 0 :: f.shape))

/-- `get_coefficients()` (l.645-657). -/
def FBA.coefficients (f : FBA K) : Arr K := f.data.reshapeF (f.card :: f.shape)

/-- `mean(measure)` (l.187-210); `M` is `basis.mean(measure)`. -/
def FBA.mean [CommSemiring K] (f : FBA K) (M : List K) : Py (Arr K) :=
  if M.length ≠ f.card then .error .valueError
  else .ok ⟨1 :: f.shape, fun idx => ∑ k ∈ Finset.range f.card, f.data.get (k :: idx.tail) * M.getD k 0⟩

/-- `dot(g, 0)` (l.130-151), for data of equal shapes. -/
def FBA.dot0 [CommSemiring K] (f g : FBA K) : Arr K :=
  ⟨1 :: f.shape, fun idx => ∑ k ∈ Finset.range f.card, f.data.get (k :: idx.tail) * g.data.get (k :: idx.tail)⟩

/-- `variance(measure)` (l.234-255) through `dot_product_expectation` (l.279-315), which refuses a basis that is not
orthonormal. -/
def FBA.variance [CommRing K] (f : FBA K) (M : List K) (orthonormal : Bool) : Py (Arr K) := do
  let m ← f.mean M
  if orthonormal then .ok (Arr.zipWith (fun a b => a - b ^ 2) (f.dot0 f) m) else .error .notImplemented

/-! ### tensor product bases -/

/-- The columns of the 1-d bases that a row of multi-indices designates: entry `i` of the row indexes an axis of length
`sizes[i]`; the entries after the last basis are not read. -/
def pickOne (row : List Int) (p : Nat × Nat) : Py Nat :=
  match row[p.2]? with
  | none => .error .indexError
  | some k => npIndex p.1 k

def pick (sizes : List Nat) (row : List Int) : Py (List Nat) := sizes.zipIdx.mapM (pickOne row)

/-- `SparseTensorProductFunctionalBasis.eval_with_functional_bases_evals(Hx)`
(sparse_tensor_product_functional_basis.py l.224-232), for matrices with the same number of rows. -/
def evalSparse [CommSemiring K] (Hx : List (Arr K)) (ind : MI) : Py (Arr K) :=
  match Hx with
  | [] => .error .indexError
  | H0 :: _ => do
    let cols ← ind.rows.mapM (pick (Hx.map (fun H => H.shape.getD 1 0)))
    .ok ⟨[H0.shape.getD 0 0, ind.rows.length], fun pk =>
      (List.zipWith (fun (H : Arr K) j => H.get [pk.getD 0 0, j]) Hx (cols.getD (pk.getD 1 0) [])).prod⟩

/-- `FullTensorProductFunctionalBasis.eval(x)` (full_tensor_product_functional_basis.py l.177-183). -/
def evalFull [CommSemiring K] (Hx : List (Arr K)) : Py (Arr K) := do
  let ind ← boundedBy (Hx.map (fun H => ((H.shape.getD 1 0 : Nat) : Int) - 1))
  evalSparse Hx ind

/-- `SparseTensorProductFunctionalBasis.mean()` (l.168-173). -/
def meanSparse [CommSemiring K] (M : List (List K)) (ind : MI) : Py (List K) :=
  match M with
  | [] => .error .indexError
  | _ => do
    let cols ← ind.rows.mapM (pick (M.map List.length))
    .ok (cols.map (fun c => (List.zipWith (fun (m : List K) j => m.getD j 0) M c).prod))

/-- `np.ravel(a)`. -/
def ravelArrC (a : Arr K) : List K := (List.range a.shape.prod).map (fun k => a.get (unravelC a.shape k))

/-- `FullTensorProductFunctionalBasis.mean()` (full_tensor_product_functional_basis.py l.167-170). -/
def meanFull [CommSemiring K] (M : List (List K)) : Py (List K) := do
  let w ← Canonical.full ⟨M.map column, [1]⟩
  .ok (ravelArrC w)

/-- `SparseTensorProductFunctionalBasis.gram_matrix()` of a basis that is not marked orthonormal
(sparse_tensor_product_functional_basis.py l.267-287); `G` are the Gram matrices of the 1-d bases. -/
def gramSparse [CommSemiring K] (G : List (Arr K)) (ind : MI) : Py (Arr K) :=
  match G with
  | [] => .error .indexError
  | _ => do
    let cols ← ind.rows.mapM (pick (G.map (fun H => H.shape.getD 1 0)))
    .ok ⟨[ind.rows.length, ind.rows.length], fun kl =>
      (List.zipWith (fun (H : Arr K) (p : Nat × Nat) => H.get [p.1, p.2]) G
        ((cols.getD (kl.getD 0 0) []).zip (cols.getD (kl.getD 1 0) []))).prod⟩

/-- `adaptation_path(p)` (sparse_tensor_product_functional_basis.py l.244-265); `n` are the norms of the indices. -/
def adaptationPath [LinearOrder K] (n : List K) : List (List Bool) :=
  let nUnique := (n.dedup).insertionSort (· ≤ ·)
  n.map (fun x => nUnique.map (fun t => decide (x ≤ t)))

/-- `FunctionalBasis.adaptation_path()` (functional_basis.py l.104-116): `np.triu` of an array of `True`. -/
def triuPath (card : Nat) : List (List Bool) := (List.range card).map (fun i => (List.range card).map (fun j => decide (i ≤ j)))

/-- The array `d` of `SparseTensorProductFunctionalBasis.conditional_expectation(dims)`
(sparse_tensor_product_functional_basis.py l.175-204) for dimensions given as distinct nonnegative numbers, some
dimensions left out and at least one kept: the columns of `I0` in `J`, and the means of the other factors. `M` are the
means of the bases of the dimensions left out, in increasing order. -/
def condArray [CommSemiring K] (M : List (List K)) (ind : MI) (dims : List Nat) : Py (Arr K × MI) :=
  let dimsC := (List.range ind.dim).filter (fun k => !dims.contains k)
  do
    let J ← keepDims ind (dims.map Int.ofNat)
    let cols ← ind.rows.mapM (fun r => pick (M.map List.length) (dimsC.map (fun k => r.getD k 0)))
    let m := cols.map (fun c => (List.zipWith (fun (v : List K) j => v.getD j 0) M c).prod)
    let pos := ind.rows.map (fun r => J.rows.idxOf (dims.map (fun k => r.getD k 0)))
    .ok (⟨[J.rows.length, ind.rows.length], fun ji => if pos.getD (ji.getD 1 0) 0 = ji.getD 0 0 then m.getD (ji.getD 1 0) 0 else 0⟩, J)

/-- `conditional_expectation(dims)` (l.175-210): the array `d` goes through the constructor of `FunctionalBasisArray`. -/
def conditionalExpectation [CommSemiring K] (M : List (List K)) (ind : MI) (dims : List Nat) : Py (FBA K × MI) := do
  let d ← condArray M ind dims
  let h ← FBA.mk' d.1 d.2.rows.length [ind.rows.length]
  .ok (h, d.2)

/-! ### `FunctionalBases` -/

/-- `l[i]` for a nonnegative index. -/
def lookup {α : Type} (l : List α) (i : Nat) : Py α :=
  match l[i]? with
  | none => .error .indexError
  | some f => .ok f

/-- `np.hsplit(x, cuts)` of one row: the parts between consecutive cuts. -/
def hsplit (x : List K) (start : Nat) : List Nat → List (List K)
  | [] => [x.drop start]
  | c :: cs => ((x.take c).drop start) :: hsplit x c cs

/-- `np.cumsum` of naturals. -/
def cumsumNat (l : List Nat) : List Nat := (l.scanl (· + ·) 0).tail

/-- `FunctionalBases.eval(x, dims)` for one point (functional_bases.py l.261-294): `bases[i]` is the function of basis
`i` (the vector of its values) and `ndims[i]` its number of variables. -/
def basesEval {V : Type} (bases : List (List K → V)) (ndims : List Nat) (x : List K) (dims : List Nat) : Py (List V) := do
  let b ← dims.mapM (lookup bases)
  let nd ← dims.mapM (lookup ndims)
  .ok (List.zipWith (fun f z => f z) b (hsplit x 0 (cumsumNat nd).dropLast))

/-- `FunctionalBases.mean(dims, measure)` with a `RandomVector` (functional_bases.py l.487-519): `meanOf b μ` is the mean
of basis `b` under `μ`. -/
def basesMean {B Mu V : Type} (meanOf : B → Mu → V) (bases : List B) (dims : List Nat) (rvs : List Mu) : Py (List V) := do
  let b ← dims.mapM (lookup bases)
  .ok (List.zipWith meanOf b rvs)

/-- A `FunctionalBases`: the list of bases and the attribute `measure`, the list of the measures (functional_bases.py
l.45-80). -/
structure FBs (B Mu : Type) where
  bases : List B
  measure : List Mu
  deriving DecidableEq

/-- The constructor: the measure is the product of the measures of the bases (l.72-73). -/
def FBs.mk' {B Mu : Type} (measureOf : B → Mu) (bases : List B) : FBs B Mu := ⟨bases, bases.map measureOf⟩

/-- `keep_bases(ind)`, `transpose(perm)` (l.199-235): only the attribute `bases` is changed. -/
def FBs.keep {B Mu : Type} (F : FBs B Mu) (ind : List Nat) : Py (FBs B Mu) := do
  let b ← ind.mapM (lookup F.bases)
  .ok ⟨b, F.measure⟩

/-- `remove_bases(ind)` (l.180-197), for indices in range (`np.delete` raises an `IndexError` otherwise). -/
def FBs.remove {B Mu : Type} (F : FBs B Mu) (ind : List Nat) : Py (FBs B Mu) :=
  if ∀ i ∈ ind, i < F.bases.length then .ok ⟨dropAxes ind F.bases, F.measure⟩ else .error .indexError

end Verif.Bases
