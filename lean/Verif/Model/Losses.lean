import Verif.Np.Arr
import Mathlib.Analysis.Real.Sqrt

/-!
# Model of `SquareLossFunction` (approximation/learning/loss_functions.py l.135-188)

The predictions are given as an array (they come from `fun.eval(sample[0])`, l.158-164). Real numbers.
-/

namespace Verif.Losses

open Verif.Arr

/-- `np.atleast_2d`. -/
def atleast2 (a : Arr ℝ) : Arr ℝ :=
  match a.shape with
  | [] => ⟨[1, 1], fun _ => a.get []⟩
  | [n] => ⟨[1, n], fun i => a.get [i.getD 1 0]⟩
  | _ => a

/-- Broadcasting of two sizes. -/
def bdim (m n : Nat) : Py Nat := if m = n then .ok m else if m = 1 then .ok n else if n = 1 then .ok m else .error .valueError

/-- Broadcasting of an index: axes of size one are repeated. -/
def bidx (n i : Nat) : Nat := if n = 1 then 0 else i

/-- `a - b` for two-dimensional arrays, with broadcasting. -/
def sub2 (a b : Arr ℝ) : Py (Arr ℝ) := do
  let m ← bdim (a.shape.getD 0 0) (b.shape.getD 0 0)
  let n ← bdim (a.shape.getD 1 0) (b.shape.getD 1 0)
  .ok ⟨[m, n], fun i => a.get [bidx (a.shape.getD 0 0) (i.getD 0 0), bidx (a.shape.getD 1 0) (i.getD 1 0)] -
    b.get [bidx (b.shape.getD 0 0) (i.getD 0 0), bidx (b.shape.getD 1 0) (i.getD 1 0)]⟩

/-- `np.mean(np.sum(a ** 2, 1))` for a two-dimensional array. -/
noncomputable def meanSq (a : Arr ℝ) : ℝ :=
  (∑ i ∈ Finset.range (a.shape.getD 0 0), ∑ j ∈ Finset.range (a.shape.getD 1 0), a.get [i, j] ^ 2) / (a.shape.getD 0 0 : ℝ)

/-- `risk_estimation(fun, sample, nargout=2)` (loss_functions.py l.58-63, l.157-173): the risk and the reference risk. -/
noncomputable def squareRisk (pred y : Arr ℝ) : Py (ℝ × ℝ) := do
  let d ← sub2 (atleast2 pred) (atleast2 y)
  .ok (meanSq d, meanSq (atleast2 y))

/-- `relative_test_error(fun, sample)` (loss_functions.py l.175-177). -/
noncomputable def relativeTestError (pred y : Arr ℝ) : Py ℝ := do
  let r ← squareRisk pred y
  .ok (Real.sqrt (r.1 / r.2))

/-- `test_error(fun, sample)` with `error_type = "absolute"` (loss_functions.py l.180-181). -/
noncomputable def absoluteTestError (pred y : Arr ℝ) : Py ℝ := do
  let r ← squareRisk pred y
  .ok (Real.sqrt r.1)

end Verif.Losses
