import Verif.Model.Empirical

/-!
# Model of `truncated_support` and of the quantiles of empirical random variables

`RandomVariable.truncated_support` (random_variable.py l.461-487), used by the plots, `discretize_support` and
`EmpiricalRandomVariable.icdf`. Infinite values are those of `EReal`, `none` is `nan`.
-/

namespace Verif.TruncatedSupport

open Verif.Distributions

noncomputable section

open Classical in
/-- `truncated_support(p)` (random_variable.py l.461-487) for a variable of given support and `icdf`. -/
def truncatedSupport (support : EReal × EReal) (icdf : ℝ → Py (Option EReal)) (p : ℝ) : Py (Option EReal × Option EReal) := do
  let a ← if support.1 = ⊥ then icdf ((1 - p) / 2) else .ok (some support.1)
  let b ← if support.2 = ⊤ then icdf (1 - (1 - p) / 2) else .ok (some support.2)
  .ok (a, b)

/-- `truncated_support(p)` of a uniform or normal random variable. -/
def RVar.truncatedSupport (ndtri : ℝ → ℝ) (X : RVar) (p : ℝ) : Py (Option EReal × Option EReal) :=
  TruncatedSupport.truncatedSupport X.support (fun q => .ok (X.icdf ndtri q)) p

/-- `EmpiricalRandomVariable.icdf(q)` (empirical_random_variable.py l.165-189), at one point: it calls `truncated_support()`, whose
default argument is `1 - 2e-16`, which calls `icdf`. `depth` is the number of nested calls that the interpreter still allows;
`nonTermination` stands for `RecursionError`. `brentq xs q a b` is the root search of `scipy.optimize`, a parameter. The support is
infinite (l.122-123). -/
def empIcdf (brentq : List ℝ → ℝ → Option EReal → Option EReal → Py (Option EReal)) (xs : List ℝ) : Nat → ℝ → Py (Option EReal)
  | 0, _ => .error .nonTermination
  | depth + 1, q => do
    let sup ← TruncatedSupport.truncatedSupport (⊥, ⊤) (empIcdf brentq xs depth) (1 - 2e-16)
    brentq xs q sup.1 sup.2

/-- `EmpiricalRandomVariable.random(n)` (empirical_random_variable.py l.206-207); `us` are the uniform draws. -/
def empRandom (brentq : List ℝ → ℝ → Option EReal → Option EReal → Py (Option EReal)) (xs : List ℝ) (depth : Nat) (us : List ℝ) :
    Py (List (Option EReal)) := us.mapM (empIcdf brentq xs depth)

/-- `truncated_support()` of an empirical random variable. -/
def empTruncatedSupport (brentq : List ℝ → ℝ → Option EReal → Option EReal → Py (Option EReal)) (xs : List ℝ) (depth : Nat) (p : ℝ) :
    Py (Option EReal × Option EReal) :=
  TruncatedSupport.truncatedSupport (⊥, ⊤) (empIcdf brentq xs depth) p

end

end Verif.TruncatedSupport
