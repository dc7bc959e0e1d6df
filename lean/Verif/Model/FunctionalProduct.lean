import Verif.Model.FunctionalTensor
import Verif.Model.SubBasis

/-!
# Model of the products of bases and of functional tensors

`PolynomialFunctionalBasis.kron` (polynomial_functional_basis.py l.122-140), the only implementation of `kron` for a functional basis, and
`FunctionalTensor.__mul__` (functional_tensor.py l.399-425).
-/

namespace Verif.SubBasis

open Verif.Arr Verif.Pca Verif.MultiIndices Verif.Polynomials

/-- The array returned by `fun(x)` (polynomial_functional_basis.py l.127-136): column `i + c1 * j` is the product of the column `i` of `F`, which
has `c1` columns, and of the column `j` of `G` (reshape in Fortran order). -/
noncomputable def kronColumns (F G : Arr ℝ) : Arr ℝ :=
  ⟨[F.shape.getD 0 0, F.shape.getD 1 0 * G.shape.getD 1 0], fun ij =>
    F.get [ij.getD 0 0, ij.getD 1 0 % F.shape.getD 1 0] * G.get [ij.getD 0 0, ij.getD 1 0 / F.shape.getD 1 0]⟩

/-- `kron(q)` (polynomial_functional_basis.py l.122-140) of two bases of orthonormal polynomials of the same measure, of indices `ind` and
`ind'`, not both zero. The projection on `self`, marked orthonormal, is a quasi-projection; its coefficients go through the constructor of
`FunctionalBasisArray` (functional_basis.py l.338). -/
noncomputable def polyKron (eig : Eig) (μ : Meas) (ind ind' : List Nat) : Py (Sub ℝ) := do
  let m1 ← npMax ind
  let m2 ← npMax ind'
  let m := m1 + m2
  let G ← μ.gauss eig (2 * m)
  let A ← polyEval μ.orthonormalPolynomials ind G.points
  let B ← polyEval μ.orthonormalPolynomials ind' G.points
  let f ← Bases.FBA.mk' (quasiCoeffs A G.weights (kronColumns A B)) ind.length [ind.length * ind'.length]
  Sub.mk' (polyBasis eig μ (List.range m)) (some f.data)

end Verif.SubBasis

namespace Verif.FunctionalTensor

open Verif.Arr Verif.TreeBased Verif.Bases

variable {K : Type}

/-- `tensor.kron(tensor2)` (full_tensor.py l.639-673; tree_based_tensor.py l.1311-1332). Not modelled: two different formats. -/
def TVal.kron [Mul K] : TVal K → TVal K → Py (TVal K)
  | .full a, .full b => do .ok (.full (← FullTensor.kron a b))
  | .tree x, .tree y => do .ok (.tree (← TreeBased.kron x y))
  | _, _ => .error .notImplemented

/-- `tensor * s` for a number `s`. -/
def TVal.smul [Mul K] (s : K) : TVal K → Py (TVal K)
  | .full a => .ok (.full (FullTensor.smul s a))
  | .tree x => do .ok (.tree (← TreeBased.smul s x))

/-- `np.arange(n**2, step=n)` (functional_tensor.py l.418). -/
def outputIndices (n : Nat) : List Nat := (List.range n).map (fun k => k * n)

/-- The selection of the outputs of the Kronecker product `z` of `x` and `y` (functional_tensor.py l.404-421). -/
def selectOutputs (x y z : TBT K) : Py (TBT K) := do
  let r ← z.tree.root
  let ry ← y.tree.root
  if 1 < z.rank r then
    if x.rank r ≠ y.rank ry then .error .valueError
    else do
      let c := z.tensors r
      let c' ← FullTensor.subTensor c ((List.replicate c.order none).set (c.order - 1) (some (outputIndices (x.rank r))))
      .ok ⟨z.tree, upd z.tensors r c'⟩
  else .ok z

/-- `f * g` (functional_tensor.py l.399-421): `kb` are the bases `self.bases.kron(f_2.bases)`. -/
def FTn.mul [CommSemiring K] (f g : FTn K) (kb : List (Basis K)) : Py (FTn K) := do
  let t ← f.tensor.kron g.tensor
  let out ← FTn.mk' t kb
  match f.tensor, g.tensor, out.tensor with
  | .tree x, .tree y, .tree z => do .ok ⟨.tree (← selectOutputs x y z), kb⟩
  | _, _, _ => .ok out

/-- `f * s` for a number `s` (functional_tensor.py l.422-425). -/
def FTn.smul [CommSemiring K] (f : FTn K) (s : K) : Py (FTn K) := do .ok ⟨← f.tensor.smul s, f.bases⟩

end Verif.FunctionalTensor
