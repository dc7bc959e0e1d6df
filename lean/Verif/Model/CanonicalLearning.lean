import Verif.Model.CanonicalTensor
import Verif.Model.AlternatingMinimization

/-!
# Model of the learning with tensors in canonical format and the square loss

`canonical_tensor.py`: `parameter_gradient_eval_diag`; `functional_tensor.py`: `parameter_gradient_eval` for a canonical tensor with
evaluated bases; `canonical_tensor_learning.py`: the exploration strategy, `prepare_alternating_minimization_system`, `set_parameter`,
`_solve_greedy`; `tensor_learning.py`: `_solve_standard`. The numbers are reals, `np.linalg.qr` and the functions used by the linear
solver (without regularization, basis adaptation, weights) are parameters. The attribute `rank` is the number of entries of the
core. Parameters (`mu`) are counted from 1, as in the code.
-/

namespace Verif.Canonical

open Verif.Arr Verif.LeastSquares

variable {R : Type}

/-- `out = np.ones((N, rank)); for M in l: out *= M` (canonical_tensor.py l.463-467, l.471-474). The factors that NumPy would
broadcast (one row or one column) are refused. -/
def hadamard [CommSemiring R] (N r : Nat) (l : List (Arr R)) : Py (Arr R) :=
  l.foldlM (fun out M => if M.shape = [N, r] then .ok (out.zipWith (· * ·) M) else .error .valueError) ⟨[N, r], fun _ => 1⟩

/-- The factor number `k`. -/
def factor [Zero R] (x : Cn R) (k : Nat) : Arr R := x.space.getD k ⟨[], fun _ => 0⟩

/-- `np.setdiff1d(np.arange(1, order + 1), mu)`, counted from 0. -/
def noMu (d mu : Nat) : List Nat := (List.range d).filter (fun k => k + 1 ≠ mu)

/-- `parameter_gradient_eval_diag(mu, matrices)` (canonical_tensor.py l.443-486) with matrices. -/
def paramGradDiag [CommSemiring R] (x : Cn R) (mu : Nat) (H : List (Arr R)) : Py (Arr R) :=
  if mu = x.order + 1 then hadamard ((factor x 0).shape.getD 0 0) x.core.length x.space
  else
    match noMu x.order mu, H[mu - 1]? with
    | nu :: l, some M => do
      let f ← hadamard ((factor x nu).shape.getD 0 0) x.core.length ((nu :: l).map (factor x))
      .ok (FullTensor.tensordotEvalDiag f M [] [] [0] [0])
    | _, _ => .error .indexError

/-- `parameter_gradient_eval(mu)` (functional_tensor.py l.453-462, l.570-575): `H` contains the values of the bases at the points. -/
def paramGrad [CommSemiring R] (x : Cn R) (mu : Nat) (H : List (Arr R)) : Py (Arr R) := do
  let dims := if mu ≤ x.order then (List.range x.order).eraseIdx (mu - 1) else List.range x.order
  let fH ← tensorMatrixProduct x (dims.map (fun k => H.getD k ⟨[], fun _ => 0⟩)) (some dims)
  paramGradDiag fH mu H

/-- The matrix of the system for the factor `mu` (canonical_tensor_learning.py l.239-240). -/
def factorSystem (g : Arr ℝ) : Arr ℝ := reshapeF (g.transpose [0, 2, 1]) [g.shape.getD 0 0, g.shape.getD 2 0 * g.shape.getD 1 0]

/-- `np.sqrt(np.sum(coef**2, 0))` for the column `l` of the coefficients (canonical_tensor_learning.py l.273). -/
noncomputable def colNorm (M : Arr ℝ) (l : Nat) : ℝ := Real.sqrt (∑ j ∈ Finset.range (M.shape.getD 0 0), M.get [j, l] ^ 2)

open Classical in
/-- `coef[:, ind] = np.matmul(coef[:, ind], np.diag(1 / norm_coef[ind]))` (canonical_tensor_learning.py l.274-277). -/
noncomputable def normalize (M : Arr ℝ) : Arr ℝ :=
  ⟨M.shape, fun ij => if colNorm M (ij.getD 1 0) ≠ 0 then M.get ij * (1 / colNorm M (ij.getD 1 0)) else M.get ij⟩

/-- `np.reshape(coef, [n, rank], order="F")` (canonical_tensor_learning.py l.272). -/
def coefMat (n r : Nat) (c : Nat → ℝ) : Arr ℝ := ⟨[n, r], fun ij => c (ij.getD 0 0 + n * ij.getD 1 0)⟩

/-- `set_parameter(f, mu, coef)` for a factor (canonical_tensor_learning.py l.271-282). -/
noncomputable def setFactor (qr : Arr ℝ → Arr ℝ × Arr ℝ) (x : Cn ℝ) (mu : Nat) (M : Arr ℝ) : Cn ℝ :=
  let space := x.space.set (mu - 1) (normalize M)
  let core := (List.range x.core.length).map (colNorm M)
  if x.space.length = 2 ∧ mu = 1 then ⟨space.set 0 (qr (normalize M)).1, core⟩ else ⟨space, core⟩

open Classical in
/-- The step for the factor `mu` (canonical_tensor_learning.py l.238-255, 271-282, tensor_learning.py l.446-465). The second component
tells whether the loop on the parameters is left. -/
noncomputable def factorStep (qr : Arr ℝ → Arr ℝ × Arr ℝ) (la : La) (o : Opts) (H : List (Arr ℝ)) (y : Nat → ℝ) (x : Cn ℝ) (mu : Nat) :
    Py (Cn ℝ × Bool) := do
  let g ← paramGrad x mu H
  let A := factorSystem g
  let n := x.shape.getD (mu - 1) 0
  let c := TreeBased.olsArr la o A y
  if ∀ p, p < A.shape.getD 1 0 → c p = 0 then .ok (x, true)
  else .ok (setFactor qr x mu (coefMat n x.core.length c), false)

open Classical in
/-- The step for the core (canonical_tensor_learning.py l.257-263, 298). -/
noncomputable def coreStep (la : La) (o : Opts) (H : List (Arr ℝ)) (y : Nat → ℝ) (x : Cn ℝ) : Py (Cn ℝ × Bool) := do
  let A ← paramGrad x (x.order + 1) H
  let c := TreeBased.olsArr la o A y
  if ∀ p, p < A.shape.getD 1 0 → c p = 0 then .ok (x, true)
  else .ok (⟨x.space, (List.range x.core.length).map c⟩, false)

/-- `mu` and `ind` (canonical_tensor_learning.py l.207-215, 284-292), with `ceil(a / b)` as `(a + b - 1) / b`. -/
def oneFactor (inner rank ind : Nat) : Nat := (ind + inner * rank - 1) / (inner * rank)
def oneColumn (rank ind : Nat) : Nat := ind - rank * ((ind + rank - 1) / rank - 1)

/-- `fH_mu` (canonical_tensor_learning.py l.221-224). -/
def others [CommSemiring R] (fH : Cn R) (N mu : Nat) : Py (Arr R) := hadamard N fH.core.length ((noMu fH.order mu).map (factor fH))

/-- `b = y - np.matmul(B[:, no_i - 1], fH.core.data[no_i - 1])` (canonical_tensor_learning.py l.226-228). -/
noncomputable def oneRhs (y : Nat → ℝ) (E M : Arr ℝ) (core : List ℝ) (ind k : Nat) : ℝ :=
  y k - ((noMu core.length ind).map (fun l => E.get [k, l] * M.get [k, l] * core.getD l 0)).sum

/-- `A` (canonical_tensor_learning.py l.230-232). -/
def oneSystem (Hm E : Arr ℝ) (ind : Nat) : Arr ℝ := ⟨Hm.shape, fun kj => Hm.get kj * E.get [kj.getD 0 0, ind - 1]⟩

/-- `set_parameter(f, mu, coef)` for a column (canonical_tensor_learning.py l.293-296). -/
noncomputable def setColumn (x : Cn ℝ) (mu ind : Nat) (c : Nat → ℝ) (nrm : ℝ) : Cn ℝ :=
  ⟨x.space.set (mu - 1) ⟨(factor x (mu - 1)).shape, fun ij => if ij.getD 1 0 = ind - 1 then c (ij.getD 0 0) / nrm else (factor x (mu - 1)).get ij⟩,
    x.core.set (ind - 1) nrm⟩

open Classical in
/-- The step for the column `ind` of the factor `mu`, with `one_by_one_factor` (canonical_tensor_learning.py l.206-232, 283-296). -/
noncomputable def columnStep (la : La) (o : Opts) (H : List (Arr ℝ)) (y : Nat → ℝ) (x : Cn ℝ) (mu ind : Nat) : Py (Cn ℝ × Bool) := do
  let fH ← tensorMatrixProduct x H
  let E ← others fH ((H.getD 0 ⟨[], fun _ => 0⟩).shape.getD 0 0) mu
  let A := oneSystem (H.getD (mu - 1) ⟨[], fun _ => 0⟩) E ind
  let c := TreeBased.olsArr la o A (oneRhs y E (factor fH (mu - 1)) x.core ind)
  if ∀ p, p < A.shape.getD 1 0 → c p = 0 then .ok (x, true)
  else .ok (setColumn x mu ind c (Real.sqrt (∑ p ∈ Finset.range (A.shape.getD 1 0), c p ^ 2)), false)

/-- The parameters of the algorithm that select the steps: `one_by_one_factor` and `inner_loops`. -/
structure Mode where
  oneByOne : Bool
  inner : Nat

/-- `one_by_one_factor` after `initialize` (canonical_tensor_learning.py l.67-83). -/
def Mode.columns (m : Mode) (x : Cn R) : Bool := m.oneByOne && decide (x.core.length ≠ 1)

/-- `_number_of_parameters` (canonical_tensor_learning.py l.79, 83). -/
def numParams (m : Mode) (x : Cn R) : Nat := if m.columns x then m.inner * x.core.length * x.order + 1 else x.order + 1

/-- `_exploration_strategy` (canonical_tensor_learning.py l.72-82). -/
def strategy (m : Mode) (x : Cn R) : List Nat := List.range' 1 (numParams m x)

/-- One step of the alternating minimization (tensor_learning.py l.446-465) for a canonical tensor. -/
noncomputable def cnStep (qr : Arr ℝ → Arr ℝ × Arr ℝ) (la : La) (o : Opts) (m : Mode) (H : List (Arr ℝ)) (y : Nat → ℝ) (x : Cn ℝ) (mu : Nat) :
    Py (Cn ℝ × Bool) :=
  if mu = numParams m x then coreStep la o H y x
  else if m.columns x then columnStep la o H y x (oneFactor m.inner x.core.length mu) (oneColumn x.core.length mu)
  else factorStep qr la o H y x mu

/-- The loop over the parameters (tensor_learning.py l.445-465). -/
def sweep {T : Type} (step : T → Nat → Py (T × Bool)) : List Nat → T → Py T
  | [], x => .ok x
  | mu :: l, x => do
    let s ← step x mu
    if s.2 then .ok s.1 else sweep step l s.1

/-- The loop of `_solve_standard` (tensor_learning.py l.433-524) from iteration `it`, with `num` iterations at most. `order it` is
`alpha_list` (l.439-443), `stop it f f0` the tests of l.467-468 and l.515-524: both are arbitrary. The result is the list of the
iterates (l.470-476). -/
def loop {T : Type} (step : T → Nat → Py (T × Bool)) (order : Nat → List Nat) (stop : Nat → T → T → Bool) : Nat → Nat → T → Py (List T)
  | 0, _, _ => .ok []
  | num + 1, it, x => do
    let z ← sweep step (order it) x
    if stop it z x then .ok [z]
    else do .ok (z :: (← loop step order stop num (it + 1) z))

/-- `_solve_standard` (tensor_learning.py l.424-540) from the initial function `x`: the returned function and the iterates. -/
noncomputable def cnSolve (qr : Arr ℝ → Arr ℝ × Arr ℝ) (la : La) (o : Opts) (m : Mode) (H : List (Arr ℝ)) (y : Nat → ℝ)
    (order : Nat → List Nat) (stop : Nat → Cn ℝ → Cn ℝ → Bool) (maxIter : Nat) (x : Cn ℝ) : Py (Cn ℝ × List (Cn ℝ)) := do
  let l ← loop (cnStep qr la o m H y) order stop maxIter 0 x
  .ok (l.getLastD x, l)

end Verif.Canonical
