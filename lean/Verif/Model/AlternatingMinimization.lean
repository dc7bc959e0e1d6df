import Verif.Model.ParamGradient
import Verif.Model.OrthAtNode
import Verif.Model.LeastSquares

/-!
# Model of the alternating minimization algorithm with the square loss

`tensor_learning.py`: `_solve_standard`; `tree_based_tensor_learning.py`: `prepare_alternating_minimization_system`,
`set_parameter`, the exploration strategy; `linear_model_learning_square_loss.py`: `solve` without regularization, basis
adaptation, weights.
-/

namespace Verif.TreeBased

open Verif.Arr Verif.DimTree Verif.Truncation Verif.LeastSquares

/-- `_solve_ols` (linear_model_learning_square_loss.py l.176-191) for an array of shape `N × P` and `N` observations. The error
estimation (l.193-212) does not change the coefficients. -/
noncomputable def olsArr (la : La) (o : Opts) (A : Arr ℝ) (y : Nat → ℝ) : Nat → ℝ :=
  let sol := (olsFit la o (Matrix.of fun (i : Fin (A.shape.getD 0 0)) (p : Fin (A.shape.getD 1 0)) => A.get [i.val, p.val])
    (fun i => y i.val)).1
  fun p => if h : p < A.shape.getD 1 0 then sol ⟨p, h⟩ else 0

/-- The coefficients for a node other than the root: the array `A` (tree_based_tensor_learning.py l.231-233), with `out` the rank
of the root, `shared_coefficients` (linear_model_learning_square_loss.py l.92-102), `_solve_ols`. -/
noncomputable def nodeCoef (la : La) (o : Opts) (g y : Arr ℝ) (out : Nat) : Arr ℝ :=
  let n := g.shape.getD 0 0
  let P := g.shape.prod / (n * out)
  let A3 := reshapeF g [n, P, out]
  let A := reshapeF (A3.transpose [0, 2, 1]) [n * out, P]
  let b := reshapeF y [n * out]
  ⟨[P], fun i => olsArr la o A (fun k => b.get [k]) (i.getD 0 0)⟩

/-- Column `j` of the observations, which are an array of shape `n` or `n × out`. -/
def yCol (y : Arr ℝ) (j k : Nat) : ℝ := if y.order = 1 then y.get [k] else y.get [k, j]

/-- The coefficients for the root: the array `A` (tree_based_tensor_learning.py l.224), `_solve_ols` for the columns of the
observations. -/
noncomputable def rootCoef (la : La) (o : Opts) (g y : Arr ℝ) (out : Nat) : Arr ℝ :=
  let n := g.shape.getD 0 0
  let P := g.shape.prod / n
  let A := reshapeF g [n, P]
  ⟨[P, out], fun i => olsArr la o A (yCol y (i.getD 1 0)) (i.getD 0 0)⟩

/-- `set_parameter(f, mu, coef)` (tree_based_tensor_learning.py l.267-272). -/
def setParameter (z : TBT ℝ) (mu : Nat) (coef : Arr ℝ) : TBT ℝ :=
  ⟨z.tree, upd z.tensors mu (reshapeF coef (z.tensors mu).shape)⟩

open Classical in
/-- The body of the loop over the parameters (tensor_learning.py l.446-465). The second component tells whether the loop is left
(l.452-463). The linear solver has no basis adaptation (tree_based_tensor_learning.py l.220). -/
noncomputable def amStep (qr : Arr ℝ → Arr ℝ × Arr ℝ) (svd : Svd) (lin : LinAlg) (la : La) (o : Opts) (H : List (Arr ℝ)) (y : Arr ℝ)
    (x : TBT ℝ) (mu : Nat) : Py (TBT ℝ × Bool) := do
  let r ← x.tree.root
  let z ← orthAtNode qr svd lin x mu
  let g ← paramGradEval z mu H
  let coef := if mu = r then rootCoef la o g y (z.rank r) else nodeCoef la o g y (z.rank r)
  .ok (if ∀ q, InBox coef.shape q → coef.get q = 0 then (z, true) else (setParameter z mu coef, false))

/-- The loop over the parameters (tensor_learning.py l.445-465). -/
noncomputable def amSweep (qr : Arr ℝ → Arr ℝ × Arr ℝ) (svd : Svd) (lin : LinAlg) (la : La) (o : Opts) (H : List (Arr ℝ)) (y : Arr ℝ) :
    List Nat → TBT ℝ → Py (TBT ℝ)
  | [], x => .ok x
  | mu :: l, x => do
    let s ← amStep qr svd lin la o H y x mu
    if s.2 then .ok s.1 else amSweep qr svd lin la o H y l s.1

/-- The loop of `_solve_standard` (tensor_learning.py l.433-524) from iteration `it`, with `num` iterations at most. `order it` is
`alpha_list` (l.439-443), `stop it f f0` the tests of l.467-468 and l.515-524: both are arbitrary. The result is the list of the
iterates (l.470-476); the last one is the returned function. -/
noncomputable def amLoop (qr : Arr ℝ → Arr ℝ × Arr ℝ) (svd : Svd) (lin : LinAlg) (la : La) (o : Opts) (H : List (Arr ℝ)) (y : Arr ℝ)
    (order : Nat → List Nat) (stop : Nat → TBT ℝ → TBT ℝ → Bool) : Nat → Nat → TBT ℝ → Py (List (TBT ℝ))
  | 0, _, _ => .ok []
  | num + 1, it, x => do
    let z ← amSweep qr svd lin la o H y (order it) x
    if stop it z x then .ok [z]
    else do .ok (z :: (← amLoop qr svd lin la o H y order stop num (it + 1) z))

/-- `_solve_standard` (tensor_learning.py l.424-540) from the initial function `x`: the returned function (`x` itself when
`max_iterations` is zero, l.424-425) and the iterates. -/
noncomputable def solveStandard (qr : Arr ℝ → Arr ℝ × Arr ℝ) (svd : Svd) (lin : LinAlg) (la : La) (o : Opts) (H : List (Arr ℝ))
    (y : Arr ℝ) (order : Nat → List Nat) (stop : Nat → TBT ℝ → TBT ℝ → Bool) (maxIter : Nat) (x : TBT ℝ) :
    Py (TBT ℝ × List (TBT ℝ)) := do
  let l ← amLoop qr svd lin la o H y order stop maxIter 0 x
  .ok (l.getLastD x, l)

/-- `_exploration_strategy` (tree_based_tensor_learning.py l.166-175): the active nodes by increasing level; `np.intersect1d`
sorts the nodes of a level. -/
def explorationStrategy {R : Type} (x : TBT R) : Py (List Nat) := do
  let lev ← x.tree.level
  .ok ((List.range (x.tree.maxLevel lev + 1)).flatMap (fun l => (x.tree.nodesWithLevel lev l).filter x.active))

/-- The model selection in `solve` (tensor_learning.py l.326-356): `np.argmin` of the errors of the iterations (numbers), and
the iterate of this number. -/
noncomputable def selectModel {T : Type} (errs : List ℝ) (iterates : List T) : Py (Nat × T) :=
  match errs with
  | [] => .error .valueError
  | _ =>
    let ind := LeastSquares.argmin (errs.map .val)
    match iterates[ind]? with
    | none => .error .indexError
    | some f => .ok (ind, f)

end Verif.TreeBased
