import Verif.Model.Pca
import Verif.Model.Magic
import Verif.Model.Bases
import Verif.Model.Polynomials

/-!
# Model of `SubFunctionalBasis`, of `orthonormalize` and of `PolynomialFunctionalBasis`

Files `sub_functional_basis.py`, `functional_basis.py` and `polynomial_functional_basis.py` of
`tensap/approximation/bases`. The numbers are reals and the arithmetic is exact. A functional basis is what the code asks
of it: `cardinal()`, `eval(x)` (one row per point, one column per function), `mean()`, `gram_matrix()` and the attribute
`is_orthonormal`. `np.linalg.inv` is the inverse of an invertible matrix and `np.linalg.cholesky` the lower triangular
factor with a positive diagonal, if there is one; both raise an exception otherwise.
-/

namespace Verif.SubBasis

open Verif.Arr Verif.Pca Verif.MultiIndices

/-- A functional basis (functional_basis.py l.29-547): the values that the code asks of it. -/
structure Basis (X : Type) where
  card : Nat
  eval : List X → Py (Arr ℝ)
  mean : Py (List ℝ)
  gram : Py (Arr ℝ)
  orthonormal : Bool

variable {X : Type}

/-- `np.transpose(a)` of a matrix. -/
def transposeM (a : Arr ℝ) : Arr ℝ := ⟨[a.shape.getD 1 0, a.shape.getD 0 0], fun ij => a.get [ij.getD 1 0, ij.getD 0 0]⟩

/-- `np.linalg.norm(a)` of a matrix (Frobenius). -/
noncomputable def frob (a : Arr ℝ) : ℝ :=
  Real.sqrt (∑ i ∈ Finset.range (a.shape.getD 0 0), ∑ j ∈ Finset.range (a.shape.getD 1 0), a.get [i, j] ^ 2)

/-- `SubFunctionalBasis` (sub_functional_basis.py l.27-80): the attributes `underlying_basis`, `basis`, `is_orthonormal`. -/
structure Sub (X : Type) where
  under : Basis X
  basis : Arr ℝ
  orthonormal : Bool

open Classical in
/-- `SubFunctionalBasis(underlying_basis, basis)` (l.61-80). Without a matrix and for an underlying basis marked
orthonormal, `np.matmul(np.transpose(None), None)` raises an exception. For a matrix with no column the quotient of l.74-77
is `0 / 0`, which is not smaller than anything. -/
noncomputable def Sub.mk' (U : Basis X) (B : Option (Arr ℝ)) : Py (Sub X) :=
  match B with
  | none => if U.orthonormal then .error .valueError else .ok ⟨U, ⟨[U.card, 0], fun _ => 0⟩, false⟩
  | some B =>
    if U.orthonormal then do
      let G ← matmul (transposeM B) B
      let r := B.shape.getD 1 0
      .ok ⟨U, B, decide (r ≠ 0 ∧ frob (Arr.zipWith (· - ·) G (eye r)) / Real.sqrt r < 1 / 10 ^ 15)⟩
    else .ok ⟨U, B, false⟩

/-- `cardinal()` (l.85-86). -/
def Sub.cardinal (S : Sub X) : Nat := S.basis.shape.getD 1 0

/-- `storage()` (l.82-83). -/
def Sub.storage (S : Sub X) : Nat := S.basis.shape.prod

/-- `self.basis[:, indices]`. -/
def columns (B : Arr ℝ) (indices : List Int) : Py (Arr ℝ) := do
  let J ← indices.mapM (npIndex (B.shape.getD 1 0))
  .ok ⟨[B.shape.getD 0 0, J.length], fun ij => B.get [ij.getD 0 0, J.getD (ij.getD 1 0) 0]⟩

/-- `eval(x, indices)` (l.117-121). -/
noncomputable def Sub.eval (S : Sub X) (x : List X) (indices : Option (List Int)) : Py (Arr ℝ) := do
  let H ← S.under.eval x
  let C ← columns S.basis (indices.getD ((List.range S.cardinal).map Int.ofNat))
  matmul H C

/-- `np.matmul(m, B)` for a vector `m`. -/
noncomputable def vecMat (m : List ℝ) (B : Arr ℝ) : Py (List ℝ) :=
  if m.length ≠ B.shape.getD 0 0 then .error .valueError
  else .ok ((List.range (B.shape.getD 1 0)).map (fun j => ∑ i ∈ Finset.range m.length, m.getD i 0 * B.get [i, j]))

/-- `mean()` (l.186-187). -/
noncomputable def Sub.mean (S : Sub X) : Py (List ℝ) := do
  let m ← S.under.mean
  vecMat m S.basis

/-- `gram_matrix()` (l.189-190). -/
noncomputable def Sub.gram (S : Sub X) : Py (Arr ℝ) := do
  let G ← S.under.gram
  let A ← matmul (transposeM S.basis) G
  matmul A S.basis

/-- A sub-basis is a functional basis. -/
noncomputable def Sub.toBasis (S : Sub X) : Basis X :=
  ⟨S.cardinal, fun x => S.eval x none, S.mean, S.gram, S.orthonormal⟩

/-! ### `SubFunctionalBasis.orthonormalize` -/

/-- `new_basis[:, i] /= np.linalg.norm(new_basis[:, i])` (l.107 and l.113). -/
noncomputable def normalizeCol (M : Arr ℝ) (i : Nat) : Arr ℝ :=
  ⟨M.shape, fun p => if p.getD 1 0 = i
    then M.get p / Real.sqrt (∑ a ∈ Finset.range (M.shape.getD 0 0), M.get [a, i] ^ 2) else M.get p⟩

/-- `new_basis[:, i] -= np.matmul(new_basis[:, :i], np.matmul(np.transpose(new_basis[:, :i]), new_basis[:, i]))`
(l.109-112). -/
noncomputable def projectCol (M : Arr ℝ) (i : Nat) : Arr ℝ :=
  ⟨M.shape, fun p => if p.getD 1 0 = i
    then M.get p - ∑ j ∈ Finset.range i, M.get [p.getD 0 0, j] *
      ∑ a ∈ Finset.range (M.shape.getD 0 0), M.get [a, j] * M.get [a, i] else M.get p⟩

/-- One turn of the loop (l.108-113). -/
noncomputable def gsStep (M : Arr ℝ) (i : Nat) : Arr ℝ := normalizeCol (projectCol M i) i

/-- `orthonormalize()` (l.94-115), for a matrix of floating-point numbers. -/
noncomputable def Sub.orthonormalize (S : Sub X) : Py (Sub X) :=
  if S.under.orthonormal then
    if S.cardinal = 0 then .error .indexError
    else
      let M0 := normalizeCol S.basis 0
      let M := (List.range' 1 (S.cardinal - 1)).foldl gsStep M0
      Sub.mk' S.under (some M)
  else .error .assertionError

/-! ### `FunctionalBasis.orthonormalize` -/

/-- Lower triangular with a positive diagonal, and `L Lᵀ = G`. -/
def IsCholesky {n : Nat} (G L : Matrix (Fin n) (Fin n) ℝ) : Prop :=
  (∀ i j, i < j → L i j = 0) ∧ (∀ i, 0 < L i i) ∧ L * L.transpose = G

open Classical in
/-- `np.linalg.cholesky(G)`. -/
noncomputable def cholesky (G : Arr ℝ) : Py (Arr ℝ) :=
  if G.shape.getD 0 0 ≠ G.shape.getD 1 0 then .error .valueError
  else if h : ∃ L, IsCholesky (matOf G (G.shape.getD 0 0) (G.shape.getD 0 0)) L then .ok (Magic.toArr h.choose)
  else .error .valueError

open Classical in
/-- `np.linalg.inv(A)`. -/
noncomputable def inv (A : Arr ℝ) : Py (Arr ℝ) :=
  if A.shape.getD 0 0 ≠ A.shape.getD 1 0 then .error .valueError
  else if (matOf A (A.shape.getD 0 0) (A.shape.getD 0 0)).det = 0 then .error .valueError
  else .ok (Magic.toArr (matOf A (A.shape.getD 0 0) (A.shape.getD 0 0))⁻¹)

/-- `G - np.eye(G.shape[0])` is the null matrix (its norm is zero) (functional_basis.py l.448). -/
def IsEye (G : Arr ℝ) : Prop :=
  ∀ i < G.shape.getD 0 0, ∀ j < G.shape.getD 0 0, G.get [i, j] - (if i = j then 1 else 0) = 0

open Classical in
/-- `FunctionalBasis.orthonormalize()` (functional_basis.py l.446-452). -/
noncomputable def Basis.orthonormalize (b : Basis X) : Py (Basis X) := do
  let G ← b.gram
  if ¬ IsEye G then do
    let L ← cholesky G
    let A ← inv L
    let S ← Sub.mk' b (some (transposeM A))
    .ok { S.toBasis with orthonormal := true }
  else .ok { b with orthonormal := true }

/-! ### Derivatives of a sub-basis -/

/-- An array given as the order of a derivative: `np.arange(1, n + 1)` (orthonormal_polynomials.py l.175) accepts an array
with one element `t`, for which it has `⌈t⌉` elements `1, 2, …`, and raises an exception on an array with several elements. -/
noncomputable def asOrder (x : List ℝ) : Py Nat :=
  match x with
  | [t] => .ok ⌈t⌉₊
  | _ => .error .typeError

/-- `eval_derivative(n, x)` (sub_functional_basis.py l.143), for an underlying basis of polynomials that are not shifted;
`der k x` are the derivatives of order `k` of the underlying basis at the points `x`. The call is
`self.underlying_basis.eval_derivative(x, n)`. -/
noncomputable def Sub.evalDerivative (S : Sub ℝ) (der : Nat → List ℝ → Py (Arr ℝ)) (n : Nat) (x : List ℝ) : Py (Arr ℝ) := do
  let k ← asOrder x
  let H ← der k [(n : ℝ)]
  matmul H S.basis

/-- `eval_jacobian(x)` (l.182-184); `J` is the Jacobian of the underlying basis (points, functions, variables). -/
noncomputable def Sub.evalJacobian (S : Sub X) (J : Arr ℝ) : Py (Arr ℝ) :=
  if S.basis.shape.getD 1 0 ≠ J.shape.getD 1 0 then .error .valueError
  else .ok ⟨[J.shape.getD 0 0, S.basis.shape.getD 0 0, J.shape.getD 2 0], fun p =>
    ∑ j ∈ Finset.range (S.basis.shape.getD 1 0), S.basis.get [p.getD 1 0, j] * J.get [p.getD 0 0, j, p.getD 2 0]⟩

/-! ### `PolynomialFunctionalBasis` -/

open Verif.Polynomials

/-- A list of rows as a matrix with `m` columns. -/
def ofRows (rows : List (List ℝ)) (m : Nat) : Arr ℝ :=
  ⟨[rows.length, m], fun ij => (rows.getD (ij.getD 0 0) []).getD (ij.getD 1 0) 0⟩

/-- `eval(x)` (polynomial_functional_basis.py l.120). -/
noncomputable def polyEval (p : Shifted) (ind : List Nat) (x : List ℝ) : Py (Arr ℝ) := do
  let rows ← x.mapM (p.polyval ind)
  .ok (ofRows rows ind.length)

/-- `eval_derivative(k, x)` (l.239). -/
noncomputable def polyDer (p : Shifted) (ind : List Nat) (k : Nat) (x : List ℝ) : Py (Arr ℝ) := do
  let rows ← x.mapM (p.dnPolyval k ind)
  .ok (ofRows rows ind.length)

/-- The rows of `rep` (l.269-275): the first column repeats the indices, in the second one each index is repeated. -/
def gramPairs (ind : List Nat) : List (List Nat) :=
  (List.range (ind.length * ind.length)).map (fun t => [ind.getD (t % ind.length) 0, ind.getD (t / ind.length) 0])

/-- `gram_matrix(measure)` (l.265-278). -/
noncomputable def polyGram (eig : Eig) (p : Shifted) (ind : List Nat) (ν : Option Meas) : Py (Arr ℝ) := do
  let v ← p.moment eig 2 (gramPairs ind) (some (ν.getD p.measure))
  .ok ⟨[ind.length, ind.length], fun ij => v.getD (ij.getD 0 0 * ind.length + ij.getD 1 0) 0⟩

/-- `one()` (l.291-297). -/
noncomputable def polyOne (ind : List Nat) : Py (List ℝ) :=
  if one.2 ∈ ind then .ok (ind.map (fun i => if i = one.2 then one.1 else 0)) else .error .valueError

/-- `PolynomialFunctionalBasis(basis, indices)` (l.48-72) for the orthonormal polynomials of a measure. -/
noncomputable def polyBasis (eig : Eig) (μ : Meas) (ind : List Nat) : Basis ℝ :=
  ⟨ind.length, polyEval μ.orthonormalPolynomials ind, μ.orthonormalPolynomials.mean eig ind none,
    polyGram eig μ.orthonormalPolynomials ind none, true⟩

/-- The number of points of `derivative(k)` (l.171): `int(np.ceil(max - (k - 1) / 2))` for `k ≤ 2 max + 1`. -/
def derPoints (m k : Nat) : Nat := (2 * m + 1 - k + 1) / 2

/-- `quasi_projection(fun, G)` (functional_basis.py l.327-338) of the derivatives, for the matrices `A` of the values of the
basis and `y` of the values of the function at the points of the rule: the matrix `u`. -/
noncomputable def quasiCoeffs (A : Arr ℝ) (w : List ℝ) (y : Arr ℝ) : Arr ℝ :=
  ⟨[A.shape.getD 1 0, y.shape.getD 1 0], fun ij =>
    ∑ p ∈ Finset.range (A.shape.getD 0 0), A.get [p, ij.getD 0 0] * (w.getD p 0 * y.get [p, ij.getD 1 0])⟩

/-- `derivative(k)` (polynomial_functional_basis.py l.167-177), for a positive number of points; the coefficients go through
the constructor of `FunctionalBasisArray` (functional_basis.py l.338), then `sub_functional_basis()`
(functional_basis_array.py l.643). -/
noncomputable def polyDerivative (eig : Eig) (μ : Meas) (ind : List Nat) (k : Nat) : Py (Sub ℝ) := do
  let m ← npMax ind
  let G ← μ.gauss eig (derPoints m k)
  let A ← polyEval μ.orthonormalPolynomials ind G.points
  let y ← polyDer μ.orthonormalPolynomials ind k G.points
  let f ← Bases.FBA.mk' (quasiCoeffs A G.weights y) ind.length [ind.length]
  Sub.mk' (polyBasis eig μ ind) (some f.data)

end Verif.SubBasis
