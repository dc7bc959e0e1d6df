import Verif.Model.Pca
import Verif.Model.FunctionalTensor

/-!
# Model of `functional_tensor_principal_component_analysis.py`

The numbers are reals, the arithmetic is exact; `np.linalg.svd` and `np.linalg.pinv` are parameters. The function is applied point by
point; a point is the row of its variables. The candidate points of the interpolation are given: `X` stands for the attribute
`grid` (a `FullTensorGrid` or a list of arrays), or, when it is `None`, for the values or the random draws of the measures of the bases.
Not modelled: the entries of the output other than those of `tensor_principal_component_analysis.py` (see `Model/Pca.lean`).
-/

namespace Verif.FunctionalPca

open Verif.Arr Verif.DimTree Verif.TreeBased Verif.Truncation Verif.Grids Verif.FunctionalTensor Verif.Pca

/-- The attributes (functional_tensor_principal_component_analysis.py l.76-83), `interpolation` being the test `projection_type ==
"interpolation"`, and the random samples of the object `TensorPrincipalComponentAnalysis`. -/
structure Solver' where
  svd : Svd
  pinv : Arr ℝ → Arr ℝ
  factor : ℝ
  adaptive : Bool
  interpolation : Bool
  tol : Param
  maxRank : Param
  draw : Nat → Nat → List (List Nat)

/-- `basis.interpolation_points(x)` (functional_basis.py l.357): the magic points among the rows of `x`. -/
noncomputable def interpolationPoints (b : Basis ℝ) (x : List (List ℝ)) : Py (List (List ℝ)) := do
  let r ← Magic.magicPoints (fun p (j : Fin b.card) => b.fn p j.val) (fun i : Fin x.length => x.get i)
  .ok (List.ofFn r.1)

/-- `x[k]` and the points of the basis `k` (functional_bases.py l.543-547). -/
noncomputable def pointsOf (X : List (List (List ℝ))) (p : Basis ℝ × Nat) : Py (List (List ℝ)) :=
  match X[p.2]? with
  | none => .error .indexError
  | some x => interpolationPoints p.1 x

/-- `FunctionalBases.interpolation_points(x)` (functional_bases.py l.536-548). -/
noncomputable def gridPoints (bs : List (Basis ℝ)) (X : List (List (List ℝ))) : Py (List (List (List ℝ))) :=
  bs.zipIdx.mapM (pointsOf X)

/-- The grid of `_prepare` (functional_tensor_principal_component_analysis.py l.279-286). -/
noncomputable def prepare (c : Solver') (bs : List (Basis ℝ)) (X : List (List (List ℝ))) : Py (List (List (List ℝ))) :=
  if c.interpolation then gridPoints bs X else .error .valueError

/-- `t_fun(i)` (l.290-291), for subscripts in the range of the grid (the algorithm asks for no other). -/
def tFun (f : List ℝ → ℝ) (G : List (List (List ℝ))) (i : List Nat) : ℝ :=
  match gridRow G (i.map Int.ofNat) with
  | .ok row => f row
  | .error _ => 0

/-- `_projection_operators()` (l.325-330). -/
def projectionOperators (pinv : Arr ℝ → Arr ℝ) (bs : List (Basis ℝ)) (G : List (List (List ℝ))) : List (Arr ℝ) :=
  (List.zipWith (fun b g => b.eval g) bs G).map pinv

/-- The new tensor of the node that carries the dimension (l.357-358, l.360-364). -/
noncomputable def projTensor (x : TBT ℝ) (ts : Nat → Arr ℝ) (M : Arr ℝ) (alpha : Nat) : Py (Arr ℝ) :=
  if x.active alpha then matmul M (ts alpha)
  else FullTensor.tensorMatrixProduct (ts (x.tree.parent alpha)) [M] (some [x.tree.childNumber alpha - 1])

/-- The body of the loop of `_project` (l.354-364). The attribute `is_active_node` is that of the given tensor. -/
noncomputable def projStep (x : TBT ℝ) (P : List (Arr ℝ)) (ts : Nat → Arr ℝ) (nu : Nat) : Py (Nat → Arr ℝ) :=
  match P[nu]? with
  | none => .error .indexError
  | some M => do
    let alpha := x.tree.dim2ind.getD nu 0
    let a ← projTensor x ts M alpha
    .ok (upd ts (if x.active alpha then alpha else x.tree.parent alpha) a)

/-- `_project(t)` (l.352-365). -/
noncomputable def project (pinv : Arr ℝ → Arr ℝ) (x : TBT ℝ) (bs : List (Basis ℝ)) (G : List (List (List ℝ))) : Py (FTn ℝ) := do
  let ts ← (List.range x.order).foldlM (projStep x (projectionOperators pinv bs G)) x.tensors
  FTn.mk' (.tree ⟨x.tree, ts⟩) bs

/-- The sampling parameters of the object `tpca` (l.297-302): the option `subsampling` keeps its default `"eim"`. -/
def Solver'.sampling (c : Solver') : Pca.Solver := ⟨c.factor, c.adaptive, true⟩

/-- `shape = bases.cardinals()` (l.293). -/
def cards (bs : List (Basis ℝ)) : List Nat := bs.map Basis.card

/-- `tree_based_approximation(fun, tree, is_active_node)` (l.240-244): the functional tensor, the arrays of the output, and the grid. -/
noncomputable def treeBasedApproximation (c : Solver') (f : List ℝ → ℝ) (bs : List (Basis ℝ)) (X : List (List (List ℝ))) (T : DTree)
    (act : Nat → Bool) : Py (FTn ℝ × St × List (List (List ℝ))) := do
  let G ← prepare c bs X
  let r ← Pca.treeBasedApproximation c.svd c.sampling (tFun f G) (cards bs) T act c.tol c.maxRank c.draw
  let g ← project c.pinv r.1 bs G
  .ok (g, r.2, G)

/-- `tucker_approximation(fun)` (l.160-162). -/
noncomputable def tuckerApproximation (c : Solver') (f : List ℝ → ℝ) (bs : List (Basis ℝ)) (X : List (List (List ℝ))) :
    Py (FTn ℝ × St × List (List (List ℝ))) := do
  let G ← prepare c bs X
  let r ← Pca.tuckerApproximation c.svd c.sampling (tFun f G) (cards bs) c.tol c.maxRank c.draw
  let g ← project c.pinv r.1 bs G
  .ok (g, r.2, G)

/-- `tt_approximation(fun)` (l.196-198). -/
noncomputable def ttApproximation (c : Solver') (f : List ℝ → ℝ) (bs : List (Basis ℝ)) (X : List (List (List ℝ))) :
    Py (FTn ℝ × St × List (List (List ℝ))) := do
  let G ← prepare c bs X
  let r ← Pca.ttApproximation c.svd c.sampling (tFun f G) (cards bs) c.tol c.maxRank c.draw
  let g ← project c.pinv r.1 bs G
  .ok (g, r.2, G)

/-- `SubFunctionalBasis(b, a)` as a basis (sub_functional_basis.py l.43-70, l.85-89, l.117-121): the functions are the combinations of
the functions of `b` whose coefficients are the columns of `a`. -/
noncomputable def subBasis (b : Basis ℝ) (a : Arr ℝ) : Basis ℝ :=
  ⟨b.ndim, a.shape.getD 1 0, fun p l => ∑ j ∈ Finset.range b.card, b.fn p j * a.get [j, l]⟩

/-- `np.matmul(p, x)` and the sub-basis (l.122-125). -/
noncomputable def pcBasis (q : Basis ℝ × Arr ℝ × Arr ℝ) : Py (Basis ℝ) := do
  let a ← matmul q.2.1 q.2.2
  .ok (subBasis q.1 a)

/-- `hopca(fun)` (l.118-126): the bases of the principal components, and the grid. -/
noncomputable def hopca (c : Solver') (f : List ℝ → ℝ) (bs : List (Basis ℝ)) (X : List (List (List ℝ))) :
    Py (List (Basis ℝ) × List (List (List ℝ))) := do
  let G ← prepare c bs X
  let out ← Pca.hopca c.svd c.sampling (tFun f G) (cards bs) c.tol c.maxRank c.draw
  let l ← (bs.zip ((projectionOperators c.pinv bs G).zip (out.map Prod.fst))).mapM pcBasis
  .ok (l, G)

end Verif.FunctionalPca
