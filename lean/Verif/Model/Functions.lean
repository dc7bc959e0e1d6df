import Verif.Model.Grids
import Verif.Model.Tensorizer
import Verif.Model.DimensionTree
import Verif.Model.FullTensor

/-!
# Model of `functions/function.py`, `user_defined_function.py`, `tensorized_function.py`, `compositional_model_function.py`

The points (rows of an array) are the elements of a type `P`, or lists of numbers. Not modelled: plots, random evaluations,
`UserDefinedFunction` given by a string.
-/

namespace Verif.Functions

open Verif.Arr Verif.DimTree

variable {P R K α : Type}

/-! ### `UserDefinedFunction` -/

/-- `UserDefinedFunction.eval(x)` with `evaluation_at_multiple_points = False` (user_defined_function.py l.71-94): `fn` returns for
one point an array, of `prod(output_shape)` entries; NumPy refuses to assign another number of entries (except 1, which is
broadcast: `fn` is supposed not to return a single entry if more are expected). -/
def userEval [Zero R] (fn : P → Arr R) (out : List Nat) (x : List P) : Py (Arr R) :=
  if x.all (fun p => (fn p).shape.prod == out.prod) then
    let y : Arr R := ⟨[x.length, out.prod], fun i => match x[i.getD 0 0]? with
      | some p => (reshapeC (fn p) [(fn p).shape.prod]).get [i.getD 1 0]
      | none => 0⟩
    .ok (reshapeC y (x.length :: out))
  else .error .valueError

/-! ### `Function.store_eval` -/

/-- The attributes `_x_stored` and `_y_stored`. -/
structure Store (P R : Type) where
  xs : List P
  ys : Arr R

/-- `y[rows, :] = values` for two-dimensional arrays: row `rows[k]` becomes row `src[k]` of `v`. -/
def setRows (y v : Arr R) (rows src : List Nat) : Arr R :=
  (rows.zip src).foldl (fun y p => ⟨y.shape, fun i => if i.getD 0 0 = p.1 then v.get (p.2 :: i.tail) else y.get i⟩) y

/-- `np.nonzero(np.all(x == x_stored[:, np.newaxis], axis=2))` (function.py l.104-106): the pairs (stored point, point) of equal
points, in the order of the stored points. -/
def matches' [DecidableEq P] (xs x : List P) : List (Nat × Nat) :=
  (List.range xs.length).flatMap (fun i => ((List.range x.length).filter (fun k => decide (xs[i]? = x[k]?))).map (fun k => (i, k)))

/-- The stored values with their output axes merged (function.py l.108-111). -/
def mergeOut (out : List Nat) (s : Store P R) : Arr R :=
  if out.prod ≠ 1 then reshapeF s.ys [s.ys.shape.getD 0 0, s.ys.shape.prod / s.ys.shape.getD 0 0] else s.ys

/-- The stored values with their output axes (function.py l.131-138). -/
def splitOut (out : List Nat) (y : Arr R) : Arr R := if out.prod ≠ 1 then reshapeF y (y.shape.getD 0 0 :: out) else y

/-- The values at known points (function.py l.104-114). -/
def knownValues [DecidableEq P] [Zero R] (ys : Arr R) (xs x : List P) : Arr R :=
  setRows ⟨[x.length, ys.shape.getD 1 0], fun _ => 0⟩ ys ((matches' xs x).map Prod.snd) ((matches' xs x).map Prod.fst)

/-- `np.setdiff1d(range(x.shape[0]), ind_1)` (function.py l.116). -/
def missing [DecidableEq P] (xs x : List P) : List Nat :=
  (List.range x.length).filter (fun k => !((matches' xs x).map Prod.snd).contains k)

/-- `store_eval(x)` (function.py l.82-148), before the final `np.squeeze`; `ev` is `self.eval` and `out` is
`np.atleast_1d(self.output_shape)`. The result is the array of values and the new stored values. -/
def storeEval [DecidableEq P] [Zero R] (ev : List P → Arr R) (out : List Nat) (s : Store P R) (x : List P) : Arr R × Store P R :=
  if s.ys.shape.prod ≠ 0 then
    let ys := mergeOut out s
    let y := knownValues ys s.xs x
    let mis := missing s.xs x
    let xNew := mis.filterMap (fun k => x[k]?)
    if xNew.isEmpty then (reshapeF y (x.length :: out), ⟨s.xs, splitOut out ys⟩)
    else
      let e := ev xNew
      let yNew := reshapeC e [e.shape.getD 0 0, e.shape.prod / e.shape.getD 0 0]
      let y := setRows y yNew mis (List.range mis.length)
      (reshapeF y (x.length :: out), ⟨s.xs ++ xNew, splitOut out (concat ys yNew 0)⟩)
  else
    let e := ev x
    let y := if e.order < 2 then reshapeF e [e.shape.prod, 1] else e
    (y, ⟨x, y⟩)

/-- Successive calls of `store_eval` on the same function. -/
def storeRun [DecidableEq P] [Zero R] (ev : List P → Arr R) (out : List Nat) : Store P R → List (List P) → List (Arr R)
  | _, [] => []
  | s, x :: xs => (storeEval ev out s x).1 :: storeRun ev out (storeEval ev out s x).2 xs

/-! ### `Function.partial_evaluation`, `Function.eval_on_tensor_grid` -/

/-- `partial_evaluation(not_alpha, x_not_alpha)` (function.py l.259-277): the function `fun` of the points `x_alpha`. The points are
lists of coordinates, `f` gives the value at one point. -/
def partialFun (f : List K → R) [Zero K] (dim : Nat) (notAlpha : List Nat) (xNot xAlpha : List (List K)) : Py (List R) := do
  let alpha := (List.range dim).filter (fun k => !notAlpha.contains k)
  let ind := (List.range dim).map (fun k => (alpha ++ notAlpha).idxOf k)
  let rows ← (Grids.FullGrid.mk [xAlpha, xNot]).array
  .ok (rows.map (fun row => f (ind.map (fun j => row.getD j 0))))

/-- `f_alpha.eval(x_alpha)` for `f_alpha` the result of `partial_evaluation` (user_defined_function.py l.71-94 with
`output_shape = 1`), evaluated at all the points at once or point by point; the values, of shape `(n, 1)`. -/
def partialEval (f : List K → R) [Zero K] (dim : Nat) (notAlpha : List Nat) (multi : Bool) (xNot xAlpha : List (List K)) : Py (List R) :=
  if multi then do
    let y ← partialFun f dim notAlpha xNot xAlpha
    if y.length = xAlpha.length then .ok y else .error .valueError
  else xAlpha.mapM (fun a => do
    let y ← partialFun f dim notAlpha xNot [a]
    match y with
    | [v] => .ok v
    | _ => .error .valueError)

/-- `eval_on_tensor_grid(x)` for a `FullTensorGrid` (function.py l.338-339, l.346-356); `ev` is `self.eval`. The constructor of
`FullTensor` reshapes again to the same shape. -/
def evalOnFullGrid (ev : List (List K) → Arr R) (out : List Nat) (scalar : Bool) (G : Grids.FullGrid K) : Py (Arr R) := do
  let xa ← G.array
  let shape := if scalar then G.shape else G.shape ++ out
  .ok (reshapeF (ev xa) shape)

/-! ### `TensorizedFunction` -/

/-- `TensorizedFunction(fun, t).eval(z)` (tensorized_function.py l.80-86) for one point. -/
def tensorizedEval [Field K] [LinearOrder K] [IsStrictOrderedRing K] [FloorRing K] (t : Tensorizer.Tz K) (f : List K → Py R)
    (z : List K) : Py R :=
  if z.length = t.dim then do f (← Tensorizer.map t z) else f z

/-- `t.tensorize(fun)` (tensorizer.py l.184-216): the function given to `TensorizedFunction`. -/
def tensorize [Field K] [LinearOrder K] [IsStrictOrderedRing K] [FloorRing K] (t : Tensorizer.Tz K) (f : List K → R) (z : List K) :
    Py R := do
  let x ← Tensorizer.inverseMap t z
  .ok (f x)

/-! ### `CompositionalModelFunction` -/

/-- The body of the loop (compositional_model_function.py l.100-102). -/
def compNode (T : DTree) (F : Nat → List α → α) (z : Nat → α) (nod : Nat) : Py (Nat → α) :=
  .ok (fun i => if i = nod then F nod ((T.children nod).map z) else z i)

/-- `CompositionalModelFunction.eval(x)` (compositional_model_function.py l.77-104); `x d` is the column `d` of the points, `F i` the
function of node `i`, applied to the list of its arguments; `none'` is the initial content of `z`. -/
def compEval (T : DTree) (F : Nat → List α → α) (none' : α) (x : Nat → α) : Py α := do
  let lev ← T.level
  let z0 := (List.range T.dim2ind.length).foldl (fun z nu => fun i => if i = T.dim2ind.getD nu 0 then x nu else z i) (fun _ => none')
  let z ← (List.range (T.maxLevel lev + 1)).reverse.foldlM (fun z l =>
    ((T.nodesWithLevel lev l).filter (fun i => !T.dim2ind.contains i)).foldlM (compNode T F) z) z0
  let r ← T.root
  .ok (z r)

end Verif.Functions
