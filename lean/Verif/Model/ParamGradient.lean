import Verif.Model.TreeEval

/-!
# Model of `parameter_gradient_eval`

`tree_based_tensor.py`: `eval_diag_below`, `eval_diag_above`, `parameter_gradient_eval_diag`; `functional_tensor.py`:
`parameter_gradient_eval` of a tree-based tensor all the nodes of which are active.
-/

namespace Verif.TreeBased

open Verif.Arr Verif.DimTree

variable {R : Type}

/-- The new array of a node in `eval_diag_below` (tree_based_tensor.py l.2093-2128); `r` is the root, `excl` is `exclude_list`. -/
def belowArr [CommSemiring R] (z : TBT R) (r : Nat) (excl : List Nat) (ts : Nat → Arr R) (nod : Nat) : Py (Arr R) :=
  let ch := (z.tree.children nod).filter (fun c => !excl.contains c)
  let act := ch.filter z.active
  let inact := ch.filter (fun c => !z.active c)
  if act.isEmpty then
    match inact.map (childAxis z.tree) with
    | [] => .error .indexError
    | c :: cs => do
      let a ← if cs.isEmpty then .ok (ts nod) else FullTensor.evalDiag (ts nod) (some (c :: cs))
      FullTensor.transposeT a (c :: FullTensor.setdiffRange a.order [c])
  else if !inact.isEmpty && nod != r then
    .ok (FullTensor.tensordotEvalDiag (ts nod) (outerChain (act.map ts)) (act.map (childAxis z.tree))
      (tailAxes (outerChain (act.map ts))) (inact.map (childAxis z.tree)) [0])
  else FullTensor.tensordotT (outerChain (act.map ts)) (ts nod) (tailAxes (outerChain (act.map ts)))
    (act.map (childAxis z.tree))

/-- The body of the loop of `eval_diag_below` (tree_based_tensor.py l.2092-2128). -/
def belowNode [CommSemiring R] (z : TBT R) (r : Nat) (excl : List Nat) (ts : Nat → Arr R) (nod : Nat) : Py (Nat → Arr R) := do
  .ok (upd ts nod (← belowArr z r excl ts nod))

/-- `exclude_list` (tree_based_tensor.py l.2075-2083) for a given `alpha` and no `except_nodes`; the order of the list does not
matter below. -/
def excludeList (T : DTree) (r alpha : Nat) : Py (List Nat) :=
  if alpha = r then .ok [] else do .ok (alpha :: (← T.ascendants alpha))

/-- `eval_diag_below(alpha)` (tree_based_tensor.py l.2072-2130). The entries of the excluded nodes, set to `None` by the code
except the smallest one (l.2084), keep their tensors here: no one reads them. -/
def evalDiagBelow [CommSemiring R] (z : TBT R) (alpha : Nat) : Py (Nat → Arr R) := do
  let r ← z.tree.root
  let lev ← z.tree.level
  let excl ← excludeList z.tree r alpha
  (List.range (z.tree.maxLevel lev)).reverse.foldlM (fun ts l =>
    ((internalAt z.tree lev l).filter (fun i => z.active i && !excl.contains i)).foldlM (belowNode z r excl) ts) z.tensors

/-- The contraction of the tensor of the parent of `nod` with the siblings of `nod` (tree_based_tensor.py l.2177-2219). Without
sibling, l.2207 raises. -/
def aboveSiblings [CommSemiring R] (z : TBT R) (below : Nat → Arr R) (nod : Nat) : Py (Arr R) :=
  let p := z.tree.parent nod
  let sib := (z.tree.children p).filter (fun c => c != nod)
  let act := sib.filter z.active
  let inact := sib.filter (fun c => !z.active c)
  if act.isEmpty then
    match inact.map (childAxis z.tree) with
    | [] => .error .indexError
    | c :: cs => do
      let a ← if cs.isEmpty then .ok (z.tensors p) else FullTensor.evalDiag (z.tensors p) (some (c :: cs))
      FullTensor.transposeT a (c :: FullTensor.setdiffRange a.order [c])
  else if inact.isEmpty then
    FullTensor.tensordotT (outerChain (act.map below)) (z.tensors p) (tailAxes (outerChain (act.map below)))
      (act.map (childAxis z.tree))
  else .ok (FullTensor.tensordotEvalDiag (outerChain (act.map below)) (z.tensors p) (tailAxes (outerChain (act.map below)))
    (act.map (childAxis z.tree)) [0] (inact.map (childAxis z.tree)))

/-- The product with the array of the parent (tree_based_tensor.py l.2221-2225). -/
def aboveProduct [CommSemiring R] (above a : Arr R) : Py (Arr R) :=
  let b := FullTensor.tensordotEvalDiag above a [1] [2] [0] [0]
  if b.order = 3 then FullTensor.transposeT b [0, 2, 1] else .ok b

/-- The body of the loop of `eval_diag_above` (tree_based_tensor.py l.2176-2225). -/
def aboveNode [CommSemiring R] (z : TBT R) (r : Nat) (below : Nat → Arr R) (above : Nat → Arr R) (nod : Nat) : Py (Nat → Arr R) := do
  let a ← aboveSiblings z below nod
  let b ← if z.tree.parent nod = r then .ok a else aboveProduct (above (z.tree.parent nod)) a
  .ok (upd above nod b)

/-- `eval_diag_above(diag_below, alpha)` (tree_based_tensor.py l.2156-2228) for a given `alpha`. -/
def evalDiagAbove [CommSemiring R] (z : TBT R) (below : Nat → Arr R) (alpha : Nat) : Py (Arr R) := do
  let r ← z.tree.root
  let lev ← z.tree.level
  let asc ← z.tree.ascendants alpha
  let init := upd (fun _ => ⟨[], fun _ => 0⟩) r ⟨(below r).shape, fun _ => (1 : R)⟩
  let above ← ((List.range (z.tree.maxLevel lev)).map (· + 1)).foldlM (fun ab l =>
    ((z.tree.nodesWithLevel lev l).filter (fun i => z.active i && (alpha :: asc).contains i)).foldlM (aboveNode z r below) ab) init
  .ok (above alpha)

/-- `parameter_gradient_eval_diag(alpha, matrices)` (tree_based_tensor.py l.2252-2312) for given matrices. -/
def paramGradEvalDiag [CommSemiring R] (z : TBT R) (alpha : Nat) (ms : List (Arr R)) : Py (Arr R) := do
  let r ← z.tree.root
  let below ← evalDiagBelow z alpha
  let above ← evalDiagAbove z below alpha
  let act := (z.tree.children alpha).filter z.active
  let inact := (z.tree.children alpha).filter (fun c => !z.active c)
  let ones : Arr R := ⟨[above.shape.getD 0 0], fun _ => 1⟩
  let mat := fun c => ms.getD (z.tree.dim2ind.idxOf c) ⟨[], fun _ => 0⟩
  let tmp := outerChain (ones :: inact.map mat)
  let out := if z.tree.isLeaf alpha then outerChain [ones, mat alpha]
    else if inact.isEmpty then outerChain (act.map below)
    else if act.isEmpty then tmp
    else FullTensor.tensordotEvalDiag (outerChain (act.map below)) tmp [] [] [0] [0]
  .ok (if alpha = r then out else FullTensor.tensordotEvalDiag out above [] [] [0] [0])

/-- The permutation of the axes of the gradient (functional_tensor.py l.582-604) for an internal node; `last` is the condition
`ranks[root] > 1` of l.597. -/
def gradPerm (T : DTree) (active : Nat → Bool) (r alpha order gradOrder : Nat) (last : Bool) : List Nat :=
  let ch := T.children alpha
  0 :: ((FullTensor.argsort (ch.filter active ++ ch.filter (fun c => !active c))).map (· + 1) ++
    (if alpha = r then [] else [order]) ++ (if alpha ≠ r ∧ last then [gradOrder - 1] else []))

/-- `parameter_gradient_eval(alpha)` (functional_tensor.py l.453-483, l.575-606) of a functional tensor with the evaluations `H` of
its bases, when all the nodes are active. The other branch (l.484-569) is not modelled. -/
def paramGradEval [CommSemiring R] (x : TBT R) (alpha : Nat) (H : List (Arr R)) : Py (Arr R) := do
  let r ← x.tree.root
  if x.tree.nodes.all x.active then do
    let dims := (List.range x.order).filter (fun d => !(x.tree.isLeaf alpha && x.tree.dim2ind.getD d 0 == alpha))
    let fH ← tensorMatrixProduct x (dims.map (fun d => H.getD d ⟨[], fun _ => 0⟩)) (some dims)
    let grad ← paramGradEvalDiag fH alpha H
    if x.tree.isLeaf alpha then .ok grad
    else FullTensor.transposeT grad (gradPerm x.tree fH.active r alpha (fH.tensors alpha).order grad.order
      (decide (1 < x.rank r)))
  else .error .notImplemented

end Verif.TreeBased
