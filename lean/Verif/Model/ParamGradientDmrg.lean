import Verif.Model.ParamGradient

/-!
# Model of `parameter_gradient_eval_dmrg`

`tree_based_tensor.py`: `eval_diag_below` with excepted nodes, `parameter_gradient_eval_diag_dmrg`; `functional_tensor.py`:
`parameter_gradient_eval_dmrg` of a tree-based tensor all the nodes of which are active.
-/

namespace Verif.TreeBased

open Verif.Arr Verif.DimTree

variable {R : Type}

/-- `exclude_list` (tree_based_tensor.py l.2075-2083) for given `alpha` and `except_nodes`; the order and the repetitions in the list
do not matter below. -/
def excludeListE (T : DTree) (r alpha : Nat) (except : List Nat) : Py (List Nat) := do
  .ok ((← excludeList T r alpha) ++ except)

/-- `eval_diag_below(alpha, except_nodes)` (tree_based_tensor.py l.2072-2130). The entries of the excluded nodes, set to `None` by the
code except the smallest one (l.2084), keep their tensors here: no one reads them. -/
def evalDiagBelowE [CommSemiring R] (z : TBT R) (alpha : Nat) (except : List Nat) : Py (Nat → Arr R) := do
  let r ← z.tree.root
  let lev ← z.tree.level
  let excl ← excludeListE z.tree r alpha except
  (List.range (z.tree.maxLevel lev)).reverse.foldlM (fun ts l =>
    ((internalAt z.tree lev l).filter (fun i => z.active i && !excl.contains i)).foldlM (belowNode z r excl) ts) z.tensors

/-- The outer products of the arrays of the children `ch` of a node (tree_based_tensor.py l.2343-2373 and l.2395-2424). -/
def childFactor [CommSemiring R] (z : TBT R) (below : Nat → Arr R) (ones : Arr R) (mat : Nat → Arr R) (ch : List Nat) : Arr R :=
  let act := ch.filter z.active
  let inact := ch.filter (fun c => !z.active c)
  let tmp := outerChain (ones :: inact.map mat)
  if inact.isEmpty then outerChain (act.map below)
  else if act.isEmpty then tmp
  else FullTensor.tensordotEvalDiag (outerChain (act.map below)) tmp [] [] [0] [0]

/-- `parameter_gradient_eval_diag_dmrg(alpha, matrices)` (tree_based_tensor.py l.2337-2426) for given matrices: the gradient, then its
two factors `g_alpha` and `g_gamma`. -/
def paramGradEvalDiagDmrg [CommSemiring R] (z : TBT R) (alpha : Nat) (ms : List (Arr R)) : Py (Arr R × Arr R × Arr R) := do
  let r ← z.tree.root
  let gamma := z.tree.parent alpha
  let uGamma ← evalDiagBelowE z gamma [alpha]
  let wGamma ← evalDiagAbove z uGamma gamma
  let ones : Arr R := ⟨[wGamma.shape.getD 0 0], fun _ => 1⟩
  let mat := fun c => ms.getD (z.tree.dim2ind.idxOf c) ⟨[], fun _ => 0⟩
  let g0 := childFactor z uGamma ones mat ((z.tree.children gamma).filter (fun c => c != alpha))
  let gGamma := if gamma = r then g0 else FullTensor.tensordotEvalDiag g0 wGamma [] [] [0] [0]
  let uAlpha ← evalDiagBelow z alpha
  let gAlpha := if z.tree.isLeaf alpha then outerChain [ones, mat alpha]
    else childFactor z uAlpha ones mat (z.tree.children alpha)
  .ok (FullTensor.tensordotEvalDiag gAlpha gGamma [] [] [0] [0], gAlpha, gGamma)

/-- The order of the children, active first (functional_tensor.py l.649-661, l.663-671). -/
def childOrder (active : Nat → Bool) (ch : List Nat) : List Nat :=
  FullTensor.argsort (ch.filter active ++ ch.filter (fun c => !active c))

/-- The order of the axes of `alpha` (functional_tensor.py l.649-661). -/
def dmrgPerm1 (T : DTree) (active : Nat → Bool) (alpha : Nat) : List Nat :=
  if (T.children alpha).isEmpty then [0] else childOrder active (T.children alpha)

/-- The permutation of the axes of the gradient (functional_tensor.py l.674-685): `oa` and `og` are the orders of the tensors of `alpha`
and of its parent `gamma`, `last` is the condition `ranks[root] > 1`. -/
def dmrgPerm (T : DTree) (active : Nat → Bool) (r alpha gamma oa og gradOrder : Nat) (last : Bool) : List Nat :=
  let p1 := dmrgPerm1 T active alpha
  let p1b := childOrder active ((T.children gamma).filter (fun c => c != alpha))
  0 :: ((p1 ++ p1b.map (p1.length + ·)).map (· + 1) ++ (if alpha ≠ r ∧ gamma ≠ r then [oa + og - 2] else []) ++
    (if alpha ≠ r ∧ last then [gradOrder - 1] else []))

/-- The permutation of the axes of the second factor (functional_tensor.py l.688-697). -/
def lowRankPerm (T : DTree) (active : Nat → Bool) (r alpha gamma og gradOrder : Nat) (last : Bool) : List Nat :=
  0 :: ((childOrder active ((T.children gamma).filter (fun c => c != alpha))).map (· + 1) ++ (if gamma ≠ r then [og - 1] else []) ++
    (if alpha ≠ r ∧ last then [gradOrder - 1] else []))

/-- `fH` and its gradients (functional_tensor.py l.618-642). -/
def dmrgGrads [CommSemiring R] (x : TBT R) (alpha : Nat) (H : List (Arr R)) : Py (TBT R × Arr R × Arr R × Arr R) :=
  if x.tree.nodes.all x.active then do
    let dims := (List.range x.order).filter (fun d => !(x.tree.isLeaf alpha && x.tree.dim2ind.getD d 0 == alpha))
    let fH ← tensorMatrixProduct x (dims.map (fun d => H.getD d ⟨[], fun _ => 0⟩)) (some dims)
    let g ← paramGradEvalDiagDmrg fH alpha H
    .ok (fH, g)
  else .error .notImplemented

/-- `parameter_gradient_eval_dmrg(alpha, dmrg_type="dmrg")` (functional_tensor.py l.608-702) of a functional tensor with the
evaluations `H` of its bases, when all the nodes are active. -/
def paramGradEvalDmrg [CommSemiring R] (x : TBT R) (alpha : Nat) (H : List (Arr R)) : Py (Arr R) := do
  let r ← x.tree.root
  let (fH, grad, _, _) ← dmrgGrads x alpha H
  let gamma := x.tree.parent alpha
  FullTensor.transposeT grad (dmrgPerm x.tree fH.active r alpha gamma (fH.tensors alpha).order (fH.tensors gamma).order grad.order
    (decide (1 < x.rank r)))

/-- `parameter_gradient_eval_dmrg(alpha, dmrg_type="dmrg_low_rank")` (functional_tensor.py l.608-702). -/
def paramGradEvalLowRank [CommSemiring R] (x : TBT R) (alpha : Nat) (H : List (Arr R)) : Py (Arr R × Arr R) := do
  let r ← x.tree.root
  let (fH, grad, gAlpha, gGamma) ← dmrgGrads x alpha H
  let gamma := x.tree.parent alpha
  let ga ← FullTensor.transposeT gAlpha (0 :: (dmrgPerm1 x.tree fH.active alpha).map (· + 1))
  let gg ← FullTensor.transposeT gGamma (lowRankPerm x.tree fH.active r alpha gamma (fH.tensors gamma).order grad.order
    (decide (1 < x.rank r)))
  .ok (ga, gg)

end Verif.TreeBased
