import Verif.Model.Losses
import Mathlib.Algebra.BigOperators.Group.List.Basic

/-!
# Model of `CustomLossFunction` (approximation/learning/loss_functions.py l.251-323)

Real numbers. The loss given by the user is any function of the observations (`None` without observations) and of the predictions. The
additional parameters `*args` are not modelled. `reduce_mean` is the mean of all the entries; the mean of an empty array is 0 here (`nan`
in NumPy).
-/

namespace Verif.CustomLoss

open Verif.Arr Verif.Losses

variable {X : Type}

/-- The argument `fun`: an object with a method `eval` (and possibly a call), a callable without it, or an array of predictions. -/
inductive Predictor (X : Type) where
  | object (eval call : X → Py (Arr ℝ))
  | callable (call : X → Py (Arr ℝ))
  | array (a : Arr ℝ)

/-- The sample: the list `[x]` or `[x, y]`. -/
structure Sample (X : Type) where
  x : X
  y : Option (Arr ℝ)

/-- The variable `y_pred` of `eval` (l.289-295): every exception is ignored; `none` stands for the object `fun` itself. -/
def predictions (f : Predictor X) (x : X) : Option (Arr ℝ) :=
  match f with
  | .object eval call =>
    match eval x with
    | .ok p => some p
    | .error _ =>
      match call x with
      | .ok p => some p
      | .error _ => none
  | .callable call =>
    match call x with
    | .ok p => some p
    | .error _ => none
  | .array a => some a

/-- `0 * y_pred`. -/
def zeros (a : Arr ℝ) : Arr ℝ := ⟨a.shape, fun i => 0 * a.get i⟩

/-- `eval(fun, sample, nargout=2)` (l.288-307): the loss and the reference loss. The loss of an object which is not an array is taken to
raise `TypeError` (it depends on the loss given by the user). -/
def eval (loss : Option (Arr ℝ) → Arr ℝ → Py (Arr ℝ)) (f : Predictor X) (s : Sample X) : Py (Arr ℝ × Arr ℝ) :=
  match predictions f s.x with
  | none => .error .typeError
  | some p => do
    let l ← loss s.y p
    let r ← loss s.y (zeros p)
    .ok (l, r)

/-- `np.mean(a)` (`reduce_mean`, l.278-282). -/
noncomputable def mean (a : Arr ℝ) : ℝ := sumAll a / (a.shape.prod : ℝ)

/-- `risk_estimation(fun, sample, nargout=2)` (l.276-286). -/
noncomputable def risk (loss : Option (Arr ℝ) → Arr ℝ → Py (Arr ℝ)) (f : Predictor X) (s : Sample X) : Py (ℝ × ℝ) := do
  let e ← eval loss f s
  .ok (mean e.1, mean e.2)

/-- A custom loss with its attributes (l.270-274). -/
structure Custom (X : Type) where
  loss : Option (Arr ℝ) → Arr ℝ → Py (Arr ℝ)
  errorFunction : Option (Predictor X → Sample X → Py ℝ) := none
  relativeErrorFunction : Option (Predictor X → Sample X → Py ℝ) := none
  errorType : String := "absolute"

/-- `relative_test_error(fun, sample)` (l.309-314). -/
def relativeTestError (c : Custom X) (f : Predictor X) (s : Sample X) : Py ℝ :=
  match c.relativeErrorFunction with
  | none => .error .assertionError
  | some g => g f s

/-- `test_error(fun, sample)` (l.316-321). -/
noncomputable def testError (c : Custom X) (f : Predictor X) (s : Sample X) : Py ℝ :=
  match c.errorFunction with
  | none => do
    let r ← risk c.loss f s
    .ok r.1
  | some g => g f s

/-- A loss given by a NumPy expression applied entry by entry, for example `(y_true - y_pred) ** 2`: arrays of one or two dimensions are
broadcast (other shapes than equal ones are refused here in the other dimensions); without observations `None` is refused. -/
def elementwise (l : ℝ → ℝ → ℝ) (y : Option (Arr ℝ)) (p : Arr ℝ) : Py (Arr ℝ) :=
  match y with
  | none => .error .typeError
  | some y =>
    if y.shape = p.shape then .ok ⟨p.shape, fun i => l (y.get i) (p.get i)⟩
    else
      match y.shape, p.shape with
      | [n], [n'] => do
        let k ← bdim n n'
        .ok ⟨[k], fun i => l (y.get [bidx n (i.getD 0 0)]) (p.get [bidx n' (i.getD 0 0)])⟩
      | [n], [m, n'] => do
        let k ← bdim n n'
        .ok ⟨[m, k], fun i => l (y.get [bidx n (i.getD 1 0)]) (p.get [i.getD 0 0, bidx n' (i.getD 1 0)])⟩
      | [m, n], [n'] => do
        let k ← bdim n n'
        .ok ⟨[m, k], fun i => l (y.get [i.getD 0 0, bidx n (i.getD 1 0)]) (p.get [bidx n' (i.getD 1 0)])⟩
      | [m, n], [m', n'] => do
        let k ← bdim m m'
        let k' ← bdim n n'
        .ok ⟨[k, k'], fun i => l (y.get [bidx m (i.getD 0 0), bidx n (i.getD 1 0)])
          (p.get [bidx m' (i.getD 0 0), bidx n' (i.getD 1 0)])⟩
      | _, _ => .error .valueError

end Verif.CustomLoss
