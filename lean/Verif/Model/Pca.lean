import Verif.Model.Hosvd
import Verif.Model.Magic
import Verif.Model.Grids
import Verif.Model.TreeBasedOps
import Mathlib.Algebra.Order.Floor.Semiring

/-!
# Model of `tensor_principal_component_analysis.py` and of `FullTensor.principal_components`

The numbers are reals, the arithmetic is exact; `np.linalg.svd` is a parameter. `np.linalg.solve(B, A)` is `B⁻¹ A` when
`det B ≠ 0` and raises `LinAlgError` (a `ValueError`) otherwise. A grid is the list of its rows; the function to approximate is
applied row by row. The random samples are a parameter: `draw alpha N` is the array of `N` rows drawn for the node `alpha`.
`none` is `np.inf`. Not modelled: the option `subsampling="random"`, the printed messages, the entries `samples` and `outputs`
of the output (only the grids, the bases and the number of evaluations are kept).
-/

namespace Verif.Pca

open Verif.Arr Verif.DimTree Verif.TreeBased Verif.Truncation Verif.Grids

/-- A matrix of arrays as a Mathlib matrix. -/
def matOf (a : Arr ℝ) (n m : Nat) : Matrix (Fin n) (Fin m) ℝ := Matrix.of (fun i j => a.get [i.val, j.val])

open Classical in
/-- `np.linalg.solve(B, A)` for matrices with `n` rows, `A` with `m` columns. -/
noncomputable def solveN (B A : Arr ℝ) (n m : Nat) : Py (Arr ℝ) :=
  if B.shape.getD 1 0 ≠ n ∨ A.shape.getD 0 0 ≠ n then .error .valueError
  else if (matOf B n n).det = 0 then .error .valueError
  else .ok (Magic.toArr ((matOf B n n)⁻¹ * matOf A n m))

/-- `np.linalg.solve(B, A)` for a matrix `A`. -/
noncomputable def solve (B A : Arr ℝ) : Py (Arr ℝ) := solveN B A (B.shape.getD 0 0) (A.shape.getD 1 0)

/-- `np.matmul(A, B)`. -/
noncomputable def matmul (A B : Arr ℝ) : Py (Arr ℝ) :=
  if A.shape.getD 1 0 ≠ B.shape.getD 0 0 then .error .valueError
  else .ok ⟨[A.shape.getD 0 0, B.shape.getD 1 0], fun ij =>
    ∑ k ∈ Finset.range (A.shape.getD 1 0), A.get [ij.getD 0 0, k] * B.get [k, ij.getD 1 0]⟩

/-- `np.eye(n)`. -/
def eye (n : Nat) : Arr ℝ := ⟨[n, n], fun ij => if ij.getD 0 0 = ij.getD 1 0 then 1 else 0⟩

/-- `np.reshape(v, [m, n], "F")` of a vector. -/
def reshapeVec (v : List ℝ) (m n : Nat) : Py (Arr ℝ) :=
  if v.length ≠ m * n then .error .valueError
  else .ok ⟨[m, n], fun ij => v.getD (ravelF [m, n] [ij.getD 0 0, ij.getD 1 0]) 0⟩

/-! ### `FullTensor.principal_components` -/

/-- The truncator of `principal_components` (full_tensor.py l.1167-1173): a rank that is not an integer is rounded down by
`trunc_svd` (`int(np.min([ind, max_rank]))`). -/
noncomputable def pcTruncator (rows : Nat) (parameter : Option ℝ) : Truncator :=
  let p : ℝ := match parameter with
    | none => rows
    | some p => if p > rows then rows else p
  if p < 1 then ⟨p, none, .other, none⟩ else ⟨0, some ⌊p⌋₊, .other, none⟩

/-- `principal_components(parameter)` (full_tensor.py l.1143-1178): the components and the diagonal of the matrix of the
singular values. -/
noncomputable def principalComponents (svd : Svd) (A : Arr ℝ) (parameter : Option ℝ := none) : Py (Arr ℝ × List ℝ) :=
  if A.order ≠ 2 then .error .assertionError
  else do
    let c ← truncSvd svd (pcTruncator (A.shape.getD 0 0) parameter) A
    .ok (c.space.getD 0 ⟨[], fun _ => 0⟩, c.core)

/-- `alpha_principal_components(alpha, parameter)` (full_tensor.py l.1180-1207). -/
noncomputable def fullAlphaPC (svd : Svd) (x : Arr ℝ) (alpha : List Nat) (parameter : Option ℝ := none) : Py (Arr ℝ × List ℝ) := do
  let A ← FullTensor.matricize x alpha
  principalComponents svd A parameter

/-! ### `TensorPrincipalComponentAnalysis` -/

/-- The attributes `pca_sampling_factor`, `pca_adaptive_sampling` and `subsampling == "eim"` (tensor_principal_component_analysis.py
l.70-76); the option `"random"` is not modelled and any other is refused. -/
structure Solver where
  factor : ℝ
  adaptive : Bool
  eim : Bool

/-- `np.min((a, b))` with infinite values. -/
noncomputable def minInf : Option ℝ → Option ℝ → Option ℝ
  | none, b => b
  | a, none => a
  | some a, some b => some (min a b)

/-- The positions of the dimensions in `alpha` followed by the others (l.131, 142-143). -/
def positions (d : Nat) (alpha : List Nat) : List Nat :=
  (List.range d).map (fun x => (alpha ++ FullTensor.setdiffRange d alpha).idxOf x)

/-- `row[ind]` for a row of a grid. -/
def pick (ind : List Nat) (row : List Nat) : List Nat := ind.map (fun k => row.getD k 0)

/-- `fun(FullTensorGrid([I_alpha, X]).array()[:, ind])` (l.151-155, l.164-165). -/
def evalGrid (f : List Nat → ℝ) (d : Nat) (alpha : List Nat) (I X : List (List Nat)) : Py (List ℝ) := do
  let g ← (⟨[I, X]⟩ : FullGrid Nat).array
  .ok (g.map (fun row => f (pick (positions d alpha) row)))

/-- `np.column_stack((A, v))` for a vector given as a matrix with one column. -/
def appendCol (A v : Arr ℝ) : Arr ℝ :=
  ⟨[v.shape.getD 0 0, A.shape.getD 1 0 + 1], fun ij => if ij.getD 1 0 < A.shape.getD 1 0 then A.get ij else v.get [ij.getD 0 0, 0]⟩

/-- The test that stops the adaptive sampling after the sample `k` (l.158-161). -/
noncomputable def stops (s : Solver) (pc : Arr ℝ) (sv : List ℝ) (k : Nat) : Prop :=
  sv.getLastD 0 < 1e-15 ∨ pc.shape.getD 1 0 < ⌈((k : ℝ) + 1) / s.factor⌉₊

open Classical in
/-- The loop of the adaptive sampling (l.150-162) on the samples `k, k + 1, ...`, `A` being the matrix of the first ones: the
components and the number of evaluations. Without any sample `pc` is not assigned (`UnboundLocalError`). -/
noncomputable def adaptLoop (svd : Svd) (s : Solver) (f : List Nat → ℝ) (d : Nat) (alpha : List Nat) (t : ℝ) (B : Arr ℝ)
    (I : List (List Nat)) : List (List Nat) → Nat → Arr ℝ → Py (Arr ℝ × Nat)
  | [], _, _ => .error .attributeError
  | j :: rest, k, A => do
    let v ← evalGrid f d alpha I [j]
    let v ← reshapeVec v v.length 1
    let v ← solve B v
    let A := appendCol A v
    let r ← principalComponents svd A (some t)
    if stops s r.1 r.2 k ∨ rest = [] then .ok (r.1, I.length * (k + 1))
    else adaptLoop svd s f d alpha t B I rest (k + 1) A

/-- The number of samples (l.133-137). -/
noncomputable def nbSamples (s : Solver) (t : ℝ) (B : Arr ℝ) : Nat :=
  if t < 1 then ⌈s.factor * (B.shape.getD 1 0 : ℝ)⌉₊ else ⌈s.factor * t⌉₊

/-- The sampling without adaptation (l.164-170). -/
noncomputable def oneShot (svd : Svd) (f : List Nat → ℝ) (d : Nat) (alpha : List Nat) (t : ℝ) (B : Arr ℝ)
    (I X : List (List Nat)) (N : Nat) : Py (Arr ℝ × Nat) := do
  let v ← evalGrid f d alpha I X
  let A ← reshapeVec v (B.shape.getD 0 0) N
  let A ← solve B A
  let r ← principalComponents svd A (some t)
  .ok (r.1, I.length * N)

open Classical in
/-- `alpha_principal_components(fun, shape, alpha, tol, B_alpha, I_alpha)` (l.78-174): the components and the number of
evaluations. With an infinite `tol` the number of samples is infinite: `OverflowError`, modelled as `ValueError`. -/
noncomputable def alphaPC (svd : Svd) (s : Solver) (f : List Nat → ℝ) (d : Nat) (draw : Nat → List (List Nat))
    (alpha : List Nat) (tol : Option ℝ) (B : Arr ℝ) (I : List (List Nat)) : Py (Arr ℝ × Nat) :=
  match tol with
  | none => .error .valueError
  | some t =>
    let N := nbSamples s t B
    if t < 1 ∧ s.adaptive = true then
      adaptLoop svd s f d alpha t B I (draw N) 0 ⟨[I.length, 0], fun _ => 0⟩
    else oneShot svd f d alpha t B I (draw N) N

/-- The attribute `tol` or `max_rank`: a number, or an array. -/
inductive Param where
  | scalar (v : Option ℝ)
  | array (l : List (Option ℝ))

/-- `tol` or `max_rank` for each of the `n` dimensions or nodes (l.215-225, l.407-419). -/
def expand (p : Param) (n : Nat) : Py (List (Option ℝ)) :=
  match p with
  | .scalar v => .ok (List.replicate n v)
  | .array l => if l.length ≠ n then .error .valueError else .ok l

/-- `np.arange(n)` as a column of a grid (l.230, l.421). -/
def gridCol (n : Nat) : List (List Nat) := (List.range n).map (fun k => [k])

/-- `hopca(fun, shape)` (l.176-238): the principal components of each dimension and the numbers of evaluations. -/
noncomputable def hopca (svd : Svd) (s : Solver) (f : List Nat → ℝ) (shape : List Nat) (tol maxRank : Param)
    (draw : Nat → Nat → List (List Nat)) : Py (List (Arr ℝ × Nat)) := do
  let d := shape.length
  let tol ← expand tol d
  let maxRank ← expand maxRank d
  (List.range d).mapM (fun a =>
    alphaPC svd s f d (draw a) [a] (minInf (tol.getD a none) (maxRank.getD a none)) (eye (shape.getD a 0)) (gridCol (shape.getD a 0)))

/-- `_tensor_product_b_alpha(Bs)` (l.546-569). -/
noncomputable def tensorProductB (Bs : List (Arr ℝ)) : Py (Arr ℝ) := do
  match Bs with
  | [] => .error .indexError
  | B :: rest => do
    let t ← rest.foldlM (fun B C => FullTensor.tensordotT B C [] []) B
    FullTensor.matricize t ((List.range (t.order / 2)).map (2 * ·))

/-- `magic_indices(B)[0]` for a matrix of shape `(n, m)`. -/
noncomputable def magicRowsN (B : Arr ℝ) (n m : Nat) : Py (List Nat) := do
  let r ← Magic.magicIndices (matOf B n m) (min n m) .leftRight
  .ok (List.ofFn (fun a => (r.1 a).val))

/-- `magic_indices(B)[0]`: the number of indices is `min(B.shape)`. -/
noncomputable def magicRows (B : Arr ℝ) : Py (List Nat) := magicRowsN B (B.shape.getD 0 0) (B.shape.getD 1 0)

/-- The arrays of `tree_based_approximation` (l.422-427). -/
structure St where
  basis : Nat → Arr ℝ
  grids : Nat → List (List Nat)
  tensors : Nat → Arr ℝ
  nbEval : Nat

/-- `B[I, :]` and `grid[I, :]` (l.453-454, l.504-505). -/
def takeRows (B : Arr ℝ) (I : List Nat) : Arr ℝ :=
  ⟨[I.length, B.shape.getD 1 0], fun ij => B.get [I.getD (ij.getD 0 0) 0, ij.getD 1 0]⟩
def gridRows (g : List (List Nat)) (I : List Nat) : List (List Nat) := I.map (fun i => g.getD i [])

/-- The end of the step for a node (l.438-456, l.498-506), `B` and `g` being the matrix and the grid before the selection. -/
noncomputable def finish (st : St) (alpha : Nat) (shapeAlpha : List Nat) (pc : Arr ℝ) (ne : Nat) (B : Arr ℝ)
    (g : List (List Nat)) : Py St := do
  let t ← FullTensor.reshape pc shapeAlpha
  let B ← matmul B pc
  let I ← magicRows B
  .ok ⟨upd st.basis alpha (takeRows B I), upd st.grids alpha (gridRows g I), upd st.tensors alpha t, st.nbEval + ne⟩

/-- The data of a run: the function, the shape, the tree, its attribute `dims`, the active nodes, the parameters of the nodes
and the samples. -/
structure Run where
  svd : Svd
  s : Solver
  f : List Nat → ℝ
  shape : List Nat
  T : DTree
  D : Nat → List Nat
  act : Nat → Bool
  tol : List (Option ℝ)
  maxRank : List (Option ℝ)
  draw : Nat → Nat → List (List Nat)

/-- `tol_alpha` (l.432, l.482). -/
noncomputable def Run.tolAt (R : Run) (alpha : Nat) : Option ℝ :=
  minInf (R.tol.getD (alpha - 1) none) (R.maxRank.getD (alpha - 1) none)

/-- The body of the loop on the leaves (l.428-468). -/
noncomputable def leafStep (R : Run) (st : St) (nu : Nat) : Py St :=
  let alpha := R.T.dim2ind.getD nu 0
  let n := R.shape.getD nu 0
  if R.act alpha then do
    let r ← alphaPC R.svd R.s R.f R.shape.length (R.draw alpha) [nu] (R.tolAt alpha) (eye n) (gridCol n)
    if R.s.eim then finish st alpha [n, r.1.shape.getD 1 0] r.1 r.2 (eye n) (gridCol n)
    else .error .valueError
  else .ok { st with basis := upd st.basis alpha (eye n), grids := upd st.grids alpha (gridCol n) }

/-- The body of the loop on the internal nodes (l.474-506). -/
noncomputable def nodeStep (R : Run) (st : St) (alpha : Nat) : Py St := do
  let S := R.T.children alpha
  let B ← tensorProductB (S.map st.basis)
  let g ← (⟨S.map st.grids⟩ : FullGrid Nat).array
  let r ← alphaPC R.svd R.s R.f R.shape.length (R.draw alpha) (R.D alpha) (R.tolAt alpha) B g
  finish st alpha (S.map (fun c => (st.basis c).shape.getD 1 0) ++ [r.1.shape.getD 1 0]) r.1 r.2 B g

/-- The root (l.517-530). -/
noncomputable def rootStep (R : Run) (st : St) (alpha : Nat) : Py St := do
  let S := R.T.children alpha
  let B ← tensorProductB (S.map st.basis)
  let g ← (⟨S.map st.grids⟩ : FullGrid Nat).array
  let v := g.map (fun row => R.f (pick ((List.range R.shape.length).map (fun x => (R.D alpha).idxOf x)) row))
  let v ← reshapeVec v v.length 1
  let v ← solve B v
  let t ← FullTensor.reshape v (S.map (fun c => (st.basis c).shape.getD 1 0))
  .ok ⟨st.basis, upd st.grids alpha g, upd st.tensors alpha t, st.nbEval + g.length⟩

/-- The loops of `tree_based_approximation` (l.421-544), with the parameters of the nodes: the tensor and the final arrays (among
them `alpha_grids` and `number_of_evaluations` of the output). -/
noncomputable def approximate (R : Run) : Py (TBT ℝ × St) := do
  let st ← (List.range R.shape.length).foldlM (leafStep R) ⟨fun _ => emptyArr, fun _ => [], fun _ => emptyArr, 0⟩
  let lev ← R.T.level
  let st ← ((List.range (R.T.maxLevel lev)).map (· + 1)).reverse.foldlM (fun st l => (internalAt R.T lev l).foldlM (nodeStep R) st) st
  let root ← R.T.root
  let st ← rootStep R st root
  let x ← mk R.T st.tensors
  .ok (x, st)

open Classical in
/-- The division of a scalar tolerance smaller than one (l.404-405). With at most one active node numpy divides by zero or takes the
root of a negative number: the result is not finite, and is modelled as infinite. -/
noncomputable def scaleTol (tol : Param) (nbActive : Nat) : Param :=
  match tol with
  | .scalar (some t) => if t < 1 then (if nbActive ≤ 1 then .scalar none else .scalar (some (t / Real.sqrt ((nbActive : ℝ) - 1)))) else tol
  | _ => tol

/-- `tree_based_approximation(fun, shape, tree, is_active_node)` (l.358-544). -/
noncomputable def treeBasedApproximation (svd : Svd) (s : Solver) (f : List Nat → ℝ) (shape : List Nat) (T : DTree)
    (act : Nat → Bool) (tol maxRank : Param) (draw : Nat → Nat → List (List Nat)) : Py (TBT ℝ × St) := do
  let tol ← expand (scaleTol tol (T.nodes.filter act).length) T.n
  let maxRank ← expand maxRank T.n
  let D ← T.dims
  approximate ⟨svd, s, f, shape, T, D, act, tol, maxRank, draw⟩

/-- `a = np.zeros(n); a[pos] = l` for the tolerances and the ranks (l.281-282, l.342-343), `pos` counted from 0. -/
def placeAt (n : Nat) (pos : List Nat) (l : List (Option ℝ)) : List (Option ℝ) :=
  (pos.zip l).foldl (fun a p => a.set p.1 p.2) (List.replicate n (some 0))

/-- The parameters of `tucker_approximation` (l.279-293) and `tt_approximation` (l.340-354): an array of one entry is a number, an
array of `k` entries is placed at the positions `pos`, another array is refused. -/
def spread (p : Param) (n : Nat) (pos : List Nat) : Py Param :=
  match p with
  | .scalar v => .ok (.scalar v)
  | .array l => if l.length = pos.length then .ok (.array (placeAt n pos l)) else .error .valueError

/-- `tucker_approximation(fun, shape)` (l.240-295). -/
noncomputable def tuckerApproximation (svd : Svd) (s : Solver) (f : List Nat → ℝ) (shape : List Nat) (tol maxRank : Param)
    (draw : Nat → Nat → List (List Nat)) : Py (TBT ℝ × St) := do
  let T := DTree.trivial shape.length
  let pos := T.dim2ind.map (· - 1)
  let tol ← spread tol T.n pos
  let maxRank ← spread maxRank T.n pos
  treeBasedApproximation svd s f shape T (fun _ => true) tol maxRank draw

/-- `tt_approximation(fun, shape)` (l.297-356). -/
noncomputable def ttApproximation (svd : Svd) (s : Solver) (f : List Nat → ℝ) (shape : List Nat) (tol maxRank : Param)
    (draw : Nat → Nat → List (List Nat)) : Py (TBT ℝ × St) := do
  let T := DTree.linear (List.range shape.length)
  let act : Nat → Bool := fun i => !(T.dim2ind.tail.contains i)
  let rep := (((List.range T.n).filter (fun i => act (i + 1))).tail).reverse
  let tol ← spread tol T.n rep
  let maxRank ← spread maxRank T.n rep
  treeBasedApproximation svd s f shape T act tol maxRank draw

end Verif.Pca
