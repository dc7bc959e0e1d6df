import Verif.Model.Sets
import Mathlib.Data.Rat.Floor

/-!
# Model of `functions/measures/discrete_measure.py`

Rational numbers (no rounding). The uniform sample `np.random.rand(n)` of `random` is a parameter. Plots are not modelled.
-/

namespace Verif.DiscreteMeasures

open Verif.Measures Verif.Sets

/-- `DiscreteMeasure` (l.42-78): the rows and the number of columns of `values`, and `weights`. -/
structure DM where
  rows : List (List ℚ)
  cols : Nat
  weights : List ℚ
  deriving DecidableEq

/-- The rows and the number of columns of `values` (l.67-72); a scalar has no `shape[0]`. -/
def columnOf : NpArr ℚ → Py (List (List ℚ) × Nat)
  | .scalar _ => .error .indexError
  | .vec l => .ok (l.map (fun a => [a]), 1)
  | .mat rows c => .ok (rows, c)

/-- `DiscreteMeasure(values, weights)` (l.65-78). -/
def create (values : NpArr ℚ) (weights : Option (List ℚ) := none) : Py DM := do
  let v ← columnOf values
  match weights with
  | none => .ok ⟨v.1, v.2, List.replicate v.1.length 1⟩
  | some w => if w.length ≠ v.1.length then .error .valueError else .ok ⟨v.1, v.2, w⟩

/-- `ndim()` (l.80-81). -/
def DM.ndim (m : DM) : Nat := m.cols

/-- `mass()` (l.83-84). -/
def DM.mass (m : DM) : ℚ := m.weights.sum

/-- `==` of two discrete measures (l.86-91): `np.array_equal` compares the shapes and the entries. -/
def DM.eq (m n : DM) : Bool :=
  decide (m.rows.length = n.rows.length) && decide (m.cols = n.cols) && decide (m.rows = n.rows) && decide (m.weights = n.weights)

/-- `np.min` or `np.max` of the column `k`, an empty array being refused. -/
def extremum (f : ℚ → ℚ → ℚ) (rows : List (List ℚ)) (k : Nat) : Py ℚ :=
  match rows.map (fun r => r.getD k 0) with
  | [] => .error .valueError
  | a :: l => .ok (l.foldl f a)

/-- `support()` (l.93-94): the rows of the minima and of the maxima. -/
def DM.support (m : DM) : Py (List ℚ × List ℚ) := do
  let lo ← (List.range m.cols).mapM (extremum min m.rows)
  let hi ← (List.range m.cols).mapM (extremum max m.rows)
  .ok (lo, hi)

/-- `Y.icdf(p).astype(int)` for one entry; `-inf` gives an index out of range. -/
def drawIndex (Y : DRV ℚ) (p : ℚ) : Py Nat := do
  let v ← icdf Y p
  match v with
  | none => .error .indexError
  | some a => .ok ⌊a⌋.toNat

/-- `values[i, :]`. -/
def rowAt (m : DM) (i : Nat) : Py (List ℚ) :=
  match m.rows[i]? with
  | none => .error .indexError
  | some r => .ok r

/-- `random(n)` (l.164-169) from the uniform sample `u`; `np.squeeze(.., 1)` refuses an axis of size other than one. -/
def DM.random (eps : ℚ) (m : DM) (u : List ℚ) : Py (List ℚ) := do
  let Y ← Measures.mk eps ((List.range m.weights.length).map (fun i : Nat => (i : ℚ))) (some (m.weights.map (fun w => w / m.weights.sum)))
  let ind ← u.mapM (drawIndex Y)
  let r ← ind.mapM (rowAt m)
  if m.cols = 1 then .ok r.flatten else .error .valueError

end Verif.DiscreteMeasures
