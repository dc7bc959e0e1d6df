import Verif.Np
import Mathlib.Data.Real.Basic
import Mathlib.Algebra.BigOperators.Group.List.Basic

/-!
# Model of `LinearModelLearning.initialize` and of `DensityL2LossFunction`
(approximation/learning/linear_model_learning.py l.38-74, approximation/learning/loss_functions.py l.56-63, l.191-248)
-/

namespace Verif.LearningSetup

/-- Training or test data: a list whose first entry is the inputs (or `None`), an empty list, or the inputs. -/
inductive Data (A : Type) where
  | list (x : Option A)
  | emptyList
  | arr (x : A)

/-- The attributes `basis` (its method `eval`), `basis_eval`, `basis_eval_test`, `training_data`, `test_data`, `test_error`. -/
structure Setup (A B : Type) where
  basis : Option (A → Py B)
  basisEval : Option B
  basisEvalTest : Option B
  training : Option (Data A)
  test : Option (Data A)
  testError : Bool

variable {A B : Type}

/-- `self.basis.eval(x)`; `None` has no method `eval`. -/
def callBasis (basis : Option (A → Py B)) (x : A) : Py B :=
  match basis with
  | none => .error .attributeError
  | some b => b x

/-- The evaluation of the basis at the data (l.47-58, l.65-72). -/
def evalData (basis : Option (A → Py B)) (d : Data A) : Py B :=
  match d with
  | .list (some x) => callBasis basis x
  | .list none => .error .valueError
  | .emptyList => .error .indexError
  | .arr x => callBasis basis x

/-- `if self.training_data is not None and self.basis_eval is None: ...` (l.46-58). -/
def trainStep (s : Setup A B) : Py (Setup A B) :=
  match s.training, s.basisEval with
  | some d, none => do
    let b ← evalData s.basis d
    .ok { s with basisEval := some b }
  | _, _ => .ok s

/-- `if self.test_error and self.test_data is not None and self.basis_eval_test is None: ...` (l.60-72). -/
def testStep (s : Setup A B) : Py (Setup A B) :=
  if s.testError then
    match s.test, s.basisEvalTest with
    | some d, none => do
      let b ← evalData s.basis d
      .ok { s with basisEvalTest := some b }
    | _, _ => .ok s
  else .ok s

/-- The test error is disabled (l.40-42). -/
def disable (s : Setup A B) : Setup A B :=
  if s.testError && s.basis.isNone && s.basisEvalTest.isNone then { s with testError := false } else s

/-- `initialize()` (l.38-74). All the exceptions are ignored (l.73-74); the assignments made before are kept. -/
def prepare (s : Setup A B) : Setup A B :=
  match trainStep (disable s) with
  | .error _ => disable s
  | .ok t =>
    match testStep t with
    | .error _ => t
    | .ok u => u

/-- The argument `fun` of the loss: an object with a method `eval` or a call (`apply`), and a method `norm` or not, or its evaluations. -/
inductive Fun (A : Type) where
  | obj (eval : A → Py (List ℝ)) (call : A → Py (List ℝ)) (norm : Py ℝ)
  | evals (y : List ℝ)

/-- `y_pred` (loss_functions.py l.214-220). An object that can be neither evaluated nor called makes `2 * y_pred` raise `TypeError`. -/
def predict (f : Fun A) (x : A) : Py (List ℝ) :=
  match f with
  | .evals y => .ok y
  | .obj eval call _ =>
    match eval x with
    | .ok y => .ok y
    | .error _ =>
      match call x with
      | .ok y => .ok y
      | .error _ => .error .typeError

/-- `l_ref` (l.222-232): the norm of the function, otherwise the last argument; `none` is `nan`. -/
def lossRef (f : Fun A) (arg : Option ℝ) : Option ℝ :=
  match f with
  | .obj _ _ (.ok c) => some (c ^ 2)
  | _ => arg.map (fun c => c ^ 2)

/-- `np.mean` of a vector (`nan` for an empty vector is 0 here). -/
noncomputable def mean (l : List ℝ) : ℝ := l.sum / l.length

/-- `risk_estimation(fun, sample, norm)` (l.58-61, l.213-237) for the inputs `x = sample[0]`; `none` is `nan`. -/
noncomputable def densityRisk (f : Fun A) (x : A) (arg : Option ℝ) : Py (Option ℝ) := do
  let y ← predict f x
  .ok ((lossRef f arg).map (fun c => mean (y.map (fun t => c - 2 * t))))

/-- `test_error(fun, sample, norm)` (l.244-248) with the attribute `error_type`. -/
noncomputable def densityTestError (errorType : String) (f : Fun A) (x : A) (arg : Option ℝ) : Py (Option ℝ) :=
  if errorType = "risk" then densityRisk f x arg else .error .assertionError

end Verif.LearningSetup
