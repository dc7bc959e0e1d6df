import Verif.Model.Distributions
import Verif.Model.Grids

/-!
# Model of `ProductMeasure`, and of the comparison, shift, marginals and permutations of measures

The measures are the uniform and normal random variables and the Lebesgue measures on an interval (`Meas`).
-/

namespace Verif.ProductMeasure

open Verif.Polynomials Verif.Grids

noncomputable section

open Classical in
/-- `==` of two measures: the classes and the parameters are compared (random_variable.py l.65-79, lebesgue_measure.py l.129-138).
A random variable and a Lebesgue measure are never equal. -/
def measEq : Meas → Meas → Bool
  | .uniform a b, .uniform c d => decide (a = c) && decide (b = d)
  | .normal m s, .normal n t => decide (m = n) && decide (s = t)
  | .lebesgue a b, .lebesgue c d => decide (a = c) && decide (b = d)
  | _, _ => false

/-- `get_standard_random_variable()` (uniform_random_variable.py l.151-162, normal_random_variable.py l.150-162); the Lebesgue
measure has no such method. -/
def standard : Meas → Py Meas
  | .uniform _ _ => .ok (.uniform (-1) 1)
  | .normal _ _ => .ok (.normal 0 1)
  | .lebesgue _ _ => .error .attributeError

/-- `RandomVector.__eq__` (random_vector.py l.86-98). -/
def vectorEq (Xs Ys : List Meas) : Bool :=
  if Xs.length ≠ Ys.length then false else (List.zip Xs Ys).all (fun p => measEq p.1 p.2)

/-- `ProductMeasure.__eq__` (product_measure.py l.70-71). -/
def productEq (Xs Ys : List Meas) : Bool := (List.zip Xs Ys).all (fun p => measEq p.1 p.2)

/-- `self.random_variables[ind]` for a list of nonnegative indices. -/
def takeList (Xs : List Meas) (ind : List Nat) : Py (List Meas) :=
  ind.mapM (fun i =>
    match Xs[i]? with
    | none => .error .indexError
    | some X => .ok X)

/-- `marginal(ind)` (random_vector.py l.65-68, product_measure.py l.145-146). -/
def marginal (Xs : List Meas) (ind : List Nat) : Py (List Meas) := takeList Xs ind

/-- `RandomVector.transpose(perm)` (random_vector.py l.365-380). -/
def transpose (Xs : List Meas) (perm : List Nat) : Py (List Meas) := takeList Xs perm

/-- `ProductMeasure.mass()` (product_measure.py l.92-93). -/
def mass (ms : List Meas) : ℝ := (ms.map Meas.mass).prod

/-- `ProductMeasure.duplicate(measure, dim)` (product_measure.py l.161-179). -/
def duplicate (m : Meas) (dim : Nat) : List Meas := List.replicate dim m

/-- The numbers of points in `ProductMeasure.gauss_integration_rule(n)` (product_measure.py l.114-120). -/
def pointNumbers (d : Nat) (n : List Nat) : Py (List Nat) :=
  if n.length = 1 then .ok (List.replicate d (n.getD 0 0))
  else if n.length ≠ d then .error .valueError
  else .ok n

/-- `ProductMeasure.gauss_integration_rule(n)` (product_measure.py l.98-128). -/
def gauss (eig : Eig) (ms : List Meas) (n : List Nat) : Py (TensorRule ℝ) := do
  let n ← pointNumbers ms.length n
  let rules ← (List.zip ms n).mapM (fun p => p.1.gauss eig p.2)
  TensorRule.mk' (ofColumns (rules.map Rule.points)) (rules.map Rule.weights)

end

end Verif.ProductMeasure
