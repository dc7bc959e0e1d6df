import Verif.Model.CanonicalTensor
import Verif.Model.Measures
import Mathlib.Analysis.SpecialFunctions.Pow.Real

/-!
# Model of `tensap/tensor_algebra/tools/truncator.py`: truncated singular value decomposition

The numbers are reals; `np.linalg.svd` is a parameter. A `nan` of the division by a zero sum is `none`.
-/

namespace Verif.Truncation

open Verif.Arr

/-- `thresholding_type`: another string than `"soft"` and `"hard"` has no effect. -/
inductive Thresholding where
  | soft
  | hard
  | other

/-- The attributes of `Truncator` used by `trunc_svd` (truncator.py l.44-74); the maximal rank `none` is `np.inf`. -/
structure Truncator where
  tolerance : ℝ
  maxRank : Option Nat
  kind : Thresholding
  param : Option ℝ

/-- `left, sin_val, right = np.linalg.svd(matrix, full_matrices=False)` (truncator.py l.162). -/
abbrev Svd := Arr ℝ → Arr ℝ × List ℝ × Arr ℝ

/-- `error` (truncator.py l.163-170); `power = none` is infinity. -/
noncomputable def errors (s : List ℝ) (power : Option Nat) : List (Option ℝ) :=
  match power with
  | none =>
    let M := s.foldl max (s.getD 0 0)
    s.map (fun v => if M = 0 then none else some (v / M))
  | some p =>
    let S := (s.map (· ^ p)).sum
    (Measures.cumsum (s.map (· ^ p)).reverse).reverse.map
      (fun v => if S = 0 then none else some ((v / S) ^ (1 / (p : ℝ))))

/-- `error < tolerance` for an entry (truncator.py l.172). -/
noncomputable def below (tol : ℝ) (e : Option ℝ) : Bool :=
  match e with
  | none => false
  | some v => decide (v < tol)

/-- The rank before the maximal rank and the thresholding (truncator.py l.171-176). `q` is `np.min(matrix.shape)`. -/
noncomputable def firstRank (s : List ℝ) (tol : ℝ) (power : Option Nat) (q : Nat) : Nat :=
  match ((errors s power).tail ++ [some 0]).findIdx? (below tol) with
  | none => q + 1
  | some k => k + 1

/-- `int(np.min([ind, self.max_rank]))` (truncator.py l.178). -/
def capRank (ind : Nat) (maxRank : Option Nat) : Nat :=
  match maxRank with
  | none => ind
  | some r => min ind r

/-- `np.nonzero(mask)[0][-1] + 1`: `IndexError` if there is no true entry. -/
def lastTrue (mask : List Bool) : Py Nat :=
  match ((List.range mask.length).filter (fun i => mask.getD i false)).getLast? with
  | none => .error .indexError
  | some k => .ok (k + 1)

/-- The thresholding (truncator.py l.179-192): the singular values and the rank. -/
noncomputable def threshold (t : Truncator) (s : List ℝ) (ind : Nat) : Py (List ℝ × Nat) :=
  match t.param with
  | none => .ok (s, ind)
  | some h =>
    if h = 0 then .ok (s, ind)
    else match t.kind with
      | .soft => do
        let s := s.map (· - h)
        let k ← lastTrue (s.map (fun v => decide (0 ≤ v)))
        .ok (s, min ind k)
      | .hard => do
        let k ← lastTrue (s.map (fun v => decide (h ≤ v)))
        .ok (s, min ind k)
      | .other => .ok (s, ind)

/-- `left[:, :ind]` and `np.transpose(right[:ind, :])` (truncator.py l.193-195). -/
def leftCols (a : Arr ℝ) (ind : Nat) : Arr ℝ := ⟨[a.shape.getD 0 0, min ind (a.shape.getD 1 0)], a.get⟩
def rightRows (a : Arr ℝ) (ind : Nat) : Arr ℝ :=
  ⟨[a.shape.getD 1 0, min ind (a.shape.getD 0 0)], fun i => a.get [i.getD 1 0, i.getD 0 0]⟩

/-- `trunc_svd(matrix, tolerance, power)` (truncator.py l.136-197). -/
noncomputable def truncSvd (svd : Svd) (t : Truncator) (A : Arr ℝ) (tolerance : Option ℝ := none)
    (power : Option Nat := some 2) : Py (Canonical.Cn ℝ) := do
  let tol := tolerance.getD t.tolerance
  let d := svd A
  let ind := firstRank d.2.1 tol power (min (A.shape.getD 0 0) (A.shape.getD 1 0))
  let ind := capRank ind t.maxRank
  let p ← threshold t d.2.1 ind
  .ok ⟨[leftCols d.1 p.2, rightRows d.2.2 p.2], p.1.take p.2⟩

end Verif.Truncation
