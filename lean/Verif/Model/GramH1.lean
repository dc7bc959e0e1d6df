import Verif.Model.SubBasis
import Verif.Model.Bases

/-!
# Model of `SparseTensorProductFunctionalBasis.gram_matrix_h1_0` for bases of polynomials

File `sparse_tensor_product_functional_basis.py` l.238-305. The numbers are reals, the arithmetic is exact.
-/

namespace Verif.GramH1

open Verif.Arr Verif.MultiIndices Verif.Bases Verif.SubBasis

/-- `self.bases.derivative(n)` (functional_bases.py l.352-354): a basis of polynomials is its measure and its indices. -/
noncomputable def derivedBases (eig : Polynomials.Eig) (bs : List (Polynomials.Meas × List Nat)) (n : List Nat) : Py (List (SubBasis.Sub ℝ)) :=
  (bs.zip n).mapM (fun p => polyDerivative eig p.1.1 p.1.2 p.2)

/-- `gram_matrix()` (l.279-287) of the basis returned by `derivative(n)` (l.239-242): it is marked orthonormal if all its bases are. -/
noncomputable def productGram (Ss : List (SubBasis.Sub ℝ)) (ind : MI) : Py (Arr ℝ) :=
  if Ss.all (fun S => S.orthonormal) then .ok (Pca.eye ind.rows.length)
  else do
    let G ← Ss.mapM (fun S => S.gram)
    gramSparse G ind

/-- `[1 * (j == i) for j in range(ndim)]` (l.303). -/
def unitList (ndim i : Nat) : List Nat := (List.range ndim).map (fun j => if j = i then 1 else 0)

/-- The loop body (l.302-304). -/
noncomputable def addTerm (eig : Polynomials.Eig) (bs : List (Polynomials.Meas × List Nat)) (ind : MI) (G : Arr ℝ) (i : Nat) : Py (Arr ℝ) := do
  let Ss ← derivedBases eig bs (unitList ind.dim i)
  let M ← productGram Ss ind
  .ok (Arr.zipWith (· + ·) G M)

/-- `gram_matrix_h1_0()` (l.300-305). -/
noncomputable def gramH1 (eig : Polynomials.Eig) (bs : List (Polynomials.Meas × List Nat)) (ind : MI) : Py (Arr ℝ) :=
  (List.range ind.dim).foldlM (addTerm eig bs ind) ⟨[ind.rows.length, ind.rows.length], fun _ => 0⟩

end Verif.GramH1
