import Verif.Model.Hsvd
import Verif.Model.TreeBasedOps

/-!
# Model of `tensap/tensor_algebra/tools/truncator.py`: `hsvd` of a dense tensor and `ttsvd`
-/

namespace Verif.Truncation

open Verif.Arr Verif.TreeBased Verif.DimTree

/-- `np.nonzero(nodes_x == nod)[0][0]` (truncator.py l.346, l.350, l.390). -/
def positionIn (ns : List Nat) (c : Nat) : Py Nat := if c ∈ ns then .ok (ns.idxOf c) else .error .indexError

/-- The nodes whose axes are the rows of the matrix of a node: itself for a leaf, its children (truncator.py l.345-351). -/
def hsvdAxes (T : DTree) (nod : Nat) : List Nat := if T.isLeaf nod then [nod] else T.children nod

/-- `np.matmul(tmp.space[1], np.diag(tmp.core.data))` (truncator.py l.365), where the product by the diagonal matrix is
written without the zero terms; the number of columns of the matrix is the length of the diagonal, by construction. -/
def scaleCols (M : Arr ℝ) (v : List ℝ) : Arr ℝ := ⟨[M.shape.getD 0 0, v.length], fun i => M.get i * v.getD (i.getD 1 0) 0⟩

/-- If the root has a rank, `transpose` to exchange the two last axes (truncator.py l.369-377). -/
def moveRank (rr : Bool) (y : Arr ℝ) : Py (Arr ℝ) :=
  if rr then FullTensor.transposeT y (List.range (y.order - 2) ++ [y.order - 1, y.order - 2]) else .ok y

/-- The tensor of a node and the remaining tensor (truncator.py l.352-378), from the positions `rep` of the axes of the
rows among the `N` first axes of the tensor `cur`. -/
noncomputable def hsvdSplit (svd : Svd) (t : Truncator) (R : Option Nat) (tol : ℝ) (rr : Bool) (cur : Arr ℝ) (N : Nat) (rep : List Nat) :
    Py (Arr ℝ × Arr ℝ) := do
  let axes := FullTensor.setdiffRange N rep ++ (if rr then [cur.order - 1] else [])
  let A ← FullTensor.matricize cur rep
  let c ← truncSvd svd { t with maxRank := R } A (some tol)
  let U := c.space.getD 0 ⟨[], fun _ => 0⟩
  let r := U.shape.getD 1 0
  let u ← FullTensor.reshape U (applyPerm rep cur.shape ++ [r])
  let y ← FullTensor.reshape (scaleCols (c.space.getD 1 ⟨[], fun _ => 0⟩) c.core) (applyPerm axes cur.shape ++ [r])
  let y ← moveRank rr y
  .ok (u, y)

/-- The variables of the loop: `tensor` (the variable `shape` is its shape), `nodes_x` and `tensors`. -/
structure DenseState where
  cur : Arr ℝ
  nodes : List Nat
  tensors : Nat → Arr ℝ

/-- The body of the loop on the nodes (truncator.py l.342-382). -/
noncomputable def hsvdDenseStep (svd : Svd) (t : Truncator) (mr : List (Option Nat)) (tol : ℝ) (T : DTree) (act : Nat → Bool)
    (rr : Bool) (st : DenseState) (nod : Nat) : Py DenseState :=
  if act nod then do
    let rep ← (hsvdAxes T nod).mapM (positionIn st.nodes)
    let R ← rankAt mr (nod - 1)
    let p ← hsvdSplit svd t R tol rr st.cur st.nodes.length rep
    .ok ⟨p.2, applyPerm (FullTensor.setdiffRange st.nodes.length rep) st.nodes ++ [nod], upd st.tensors nod p.1⟩
  else .ok { st with tensors := upd st.tensors nod emptyArr }

/-- `hsvd(tensor, tree, is_active_node)` of a `FullTensor` (truncator.py l.323-394), for a truncator with the attribute
`max_rank` equal to the list `mr`; `act` is `is_active_node`. The attribute `max_rank` of the truncator after the call is
not modelled. -/
noncomputable def hsvdDense (svd : Svd) (t : Truncator) (mr : List (Option Nat)) (T : DTree) (act : Nat → Bool) (x : Arr ℝ) :
    Py (TBT ℝ) := do
  let r ← T.root
  let ranks := ranksForTree mr T.n r
  let tol := t.tolerance / Real.sqrt (((T.nodes.filter act).length - 1 : Nat) : ℝ)
  let rr := x.order == T.dim2ind.length + 1
  let lev ← T.level
  let st ← ((List.range (T.maxLevel lev)).map (· + 1)).reverse.foldlM
    (fun st l => (T.nodesWithLevel lev l).foldlM (hsvdDenseStep svd t ranks tol T act rr) st) ⟨x, T.dim2ind, fun _ => emptyArr⟩
  let rep ← (T.children r).mapM (positionIn st.nodes)
  let c ← FullTensor.transposeT st.cur (rep ++ (if rr then [st.cur.order - 1] else []))
  mk T (upd st.tensors r c)

/-- `ttsvd(tensor)` of a `FullTensor` (truncator.py l.468-488): the linear tree where all the leaves but the one of the first
dimension are inactive. -/
noncomputable def ttsvd (svd : Svd) (t : Truncator) (mr : List (Option Nat)) (x : Arr ℝ) : Py (TBT ℝ) :=
  let T := DTree.linear (List.range x.order)
  hsvdDense svd t mr T (fun i => !(T.dim2ind.tail.contains i)) x

end Verif.Truncation
