import Verif.Model.AlternatingMinimization

/-!
# Model of the loop of the rank adaptation (`tensor_learning.py` l.542-749)

The local solver, the computation of the test error and the selection of the new ranks are arbitrary functions. Without tree
adaptation (l.663-699, l.721-726).
-/

namespace Verif.RankAdaptation

open Verif.LeastSquares

variable {S F : Type}

/-- What the loop calls: `s_local.solve()` (the function, and `output_local["error"]` if there is one), the test error of a
function, and the rest of the iteration (l.701-720): `none` when the stagnation test breaks the loop, otherwise the next local
solver. -/
structure Env (S F : Type) where
  solve : S → Py (F × Option Ext)
  test : F → Ext
  next : Nat → S → F → Option F → Option S

/-- `max_iterations`, `test_error`, `tolerance["on_error"]`, `early_stopping`, `early_stopping_factor`. -/
structure Opts where
  testError : Bool
  tol : ℝ
  early : Bool
  fac : ℝ

/-- The result: `f`, `output["iterates"]`, `output["error_iterations"]`, `output["test_error_iterations"]`, `output["flag"]`. -/
structure Res (F : Type) where
  f : Option F
  iterates : List F
  errors : List Ext
  tests : List Ext
  flag : Int

/-- `np.min`. -/
noncomputable def npMin (l : List Ext) : Ext := l.getD (argmin l) .nan

open Classical in
/-- `np.isnan(e) or fac * np.min(l) < e` (tensor_learning.py l.640-641, l.646-647). -/
noncomputable def bad (fac : ℝ) (l : List Ext) (e : Ext) : Bool := e.isNan || decide (Ext.lt ((npMin l).scale fac) e)

open Classical in
/-- `e < tol`. -/
noncomputable def below (e : Ext) (tol : ℝ) : Bool := decide (Ext.lt e (.val tol))

/-- `test_errors[iteration]` (tensor_learning.py l.598-602), zero when it is not computed. -/
def testVal (env : Env S F) (o : Opts) (f : F) : Ext := if o.testError then env.test f else .val 0

open Classical in
/-- The loop (tensor_learning.py l.577-726) from iteration `it`, with `rem` iterations left after this one; `fOld` is the previous
function, `errs`, `tests`, `its` the entries of the arrays `errors`, `test_errors`, `iterates` filled so far. -/
noncomputable def loop (env : Env S F) (o : Opts) : Nat → Nat → S → Option F → List Ext → List Ext → List F → Py (Res F)
  | rem, it, s, fOld, errs, tests, its => do
    let fe ← env.solve s
    if fe.2 = some .inf then .ok ⟨fOld, its, errs, tests, -2⟩
    else
      let e := fe.2.getD (.val 0)
      let t := testVal env o fe.1
      let errs' := errs ++ [e]
      let tests' := tests ++ [t]
      let its' := its ++ [fe.1]
      match rem with
      | 0 => .ok ⟨some fe.1, its', errs', tests', 0⟩
      | rem + 1 =>
        if (o.testError && below t o.tol) || (fe.2.isSome && below e o.tol) then .ok ⟨some fe.1, its', errs', tests', 1⟩
        else if o.early && (decide (0 < it) && ((o.testError && bad o.fac tests t) || (fe.2.isSome && bad o.fac errs e))) then
          .ok ⟨fOld, its, errs, tests, -1⟩
        else match env.next it s fe.1 fOld with
          | none => .ok ⟨some fe.1, its', errs', tests', 0⟩
          | some s' => loop env o rem (it + 1) s' (some fe.1) errs' tests' its'

/-- `_solve_adaptation` (tensor_learning.py l.542-749), with `bases` a `FunctionalBases` (l.728-729: an exception when `f` is
`None`) and `max_iterations` positive. -/
noncomputable def solveAdaptation (env : Env S F) (o : Opts) (maxIter : Nat) (s : S) : Py (F × Res F) := do
  let res ← loop env o (maxIter - 1) 0 s none [] [] []
  match res.f with
  | none => .error .attributeError
  | some f => .ok (f, res)

end Verif.RankAdaptation
