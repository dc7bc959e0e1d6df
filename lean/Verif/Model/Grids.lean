import Verif.Model.MultiIndices
import Verif.Model.CanonicalTensor

/-!
# Model of `tensap/tools/grids.py` and `tensap/approximation/integration/integration_rules.py`

A grid of shape `(n_i, d_i)` is the list of its `n_i` rows. Integration points are of any type `α` (numbers for a rule
on the line, rows for a tensorised rule); a function is applied point by point. Not modelled: the plots, the random
grids, the functions with several outputs.
-/

namespace Verif.Grids

open Verif.MultiIndices

variable {K : Type}

/-- `FullTensorGrid` (grids.py l.142-185): the attribute `grids`. -/
structure FullGrid (K : Type) where
  grids : List (List (List K))
  deriving DecidableEq

/-- `FullTensorGrid(grids)` for 1-d arrays: each becomes a column (grids.py l.171-179). -/
def ofColumns (g : List (List K)) : FullGrid K := ⟨g.map (fun c => c.map (fun x => [x]))⟩

/-- `FullTensorGrid(grids, dim)` for one 1-d array (grids.py l.173-177). -/
def isotropic (g : List K) (dim : Nat) : FullGrid K := ⟨List.replicate dim (g.map (fun x => [x]))⟩

/-- The attributes `dim`, `shape`; `size` (grids.py l.181-183, l.196-198). -/
def FullGrid.dim (G : FullGrid K) : Nat := G.grids.length
def FullGrid.shape (G : FullGrid K) : List Nat := G.grids.map List.length
def FullGrid.size (G : FullGrid K) : Nat := G.shape.prod

/-- `multi_indices()` (grids.py l.200-210). -/
def FullGrid.multiIndices (G : FullGrid K) : Py MI := boundedBy (G.shape.map (fun n : Nat => (n : Int) - 1))

/-- The part of a row of `array(ind)` in the grid `p.1` of number `p.2`: `grids[i][ind[:, i], :]` (grids.py l.189-190). -/
def gridPart (row : List Int) (p : List (List K) × Nat) : Py (List K) :=
  match row[p.2]? with
  | none => .error .indexError
  | some k => do
    let j ← npIndex p.1.length k
    .ok (p.1.getD j [])

/-- One row of `array(ind)`: `np.column_stack` of the parts (grids.py l.188-191). -/
def gridRow (grids : List (List (List K))) (row : List Int) : Py (List K) := do
  let parts ← (grids.zipIdx).mapM (gridPart row)
  .ok parts.flatten

/-- `array(ind)` with an array of indices, `eval_at_indices(ind)` (grids.py l.185-194). -/
def FullGrid.arrayAt (G : FullGrid K) (ind : List (List Int)) : Py (List (List K)) := ind.mapM (gridRow G.grids)

/-- `array()` (grids.py l.185-191). -/
def FullGrid.array (G : FullGrid K) : Py (List (List K)) := do
  let ind ← G.multiIndices
  G.arrayAt ind.rows

/-- `SparseTensorGrid(grids, indices).array()` (grids.py l.297-327). -/
def sparseArray (grids : List (List (List K))) (indices : MI) : Py (List (List K)) :=
  indices.rows.mapM (gridRow grids)

/-- `SparseTensorGrid.size` (grids.py l.315-317). -/
def sparseSize (indices : MI) : Nat := indices.cardinal

/-- `IntegrationRule` (integration_rules.py l.26-56). -/
structure Rule (α K : Type) where
  points : List α
  weights : List K
  deriving DecidableEq

/-- `integrate(fun)` (integration_rules.py l.70-86): `np.dot` refuses two vectors of different lengths. -/
def Rule.integrate {α : Type} [CommSemiring K] (r : Rule α K) (f : α → K) : Py K :=
  if r.points.length ≠ r.weights.length then .error .valueError
  else .ok (List.zipWith (fun p w => f p * w) r.points r.weights).sum

/-- `FullTensorProductIntegrationRule` (integration_rules.py l.170-190). -/
structure TensorRule (K : Type) where
  points : FullGrid K
  weights : List (List K)

/-- The constructor: only the number of weight vectors is compared with the dimension (l.178-190). -/
def TensorRule.mk' (points : FullGrid K) (weights : List (List K)) : Py (TensorRule K) :=
  if weights.length ≠ points.dim then .error .assertionError else .ok ⟨points, weights⟩

/-- `np.reshape(x, [-1, 1])`. -/
def column [Zero K] (x : List K) : Arr K := ⟨[x.length, 1], fun ij => x.getD (ij.getD 0 0) 0⟩

/-- `np.ravel(a, "F")`. -/
def ravelArrF (a : Arr K) : List K := (List.range a.shape.prod).map (fun k => a.get (unravelF a.shape k))

/-- `weights_on_grid()` (integration_rules.py l.204-217). -/
def TensorRule.weightsOnGrid [CommSemiring K] (r : TensorRule K) : Py (List K) := do
  let w ← Canonical.full ⟨r.weights.map column, [1]⟩
  .ok (ravelArrF w)

/-- `integration_rule()` (integration_rules.py l.199-202). -/
def TensorRule.integrationRule [CommSemiring K] (r : TensorRule K) : Py (Rule (List K) K) := do
  let points ← r.points.array
  let weights ← r.weightsOnGrid
  .ok ⟨points, weights⟩

/-- `integrate(fun)` (integration_rules.py l.195-197). -/
def TensorRule.integrate [CommSemiring K] (r : TensorRule K) (f : List K → K) : Py K := do
  let I ← r.integrationRule
  I.integrate f

/-- `IntegrationRule.tensorize(dim)` (integration_rules.py l.88-106). -/
def tensorize (r : Rule K K) (dim : Nat) : Py (TensorRule K) :=
  TensorRule.mk' (isotropic r.points dim) (List.replicate dim r.weights)

/-- `ProductMeasure.gauss_integration_rule(n)` (product_measure.py l.98-128): `gauss[i] n` is the Gauss rule of the
measure `i` with `n` points. -/
def productGauss (gauss : List (Nat → Rule K K)) (n : List Nat) : Py (TensorRule K) :=
  let n' := if n.length = 1 then List.replicate gauss.length (n.getD 0 0) else n
  if n.length ≠ 1 ∧ n.length ≠ gauss.length then .error .valueError
  else
    let rules := List.zipWith (fun g k => g k) gauss n'
    TensorRule.mk' (ofColumns (rules.map Rule.points)) (rules.map Rule.weights)

/-- `IntegrationRule.gauss_legendre_composite(knots, n)` (integration_rules.py l.129-167); `gauss a b n` is the Gauss rule
of the Lebesgue measure on `[a, b]`. An integer `n` is the list of its copies. -/
def composite [LinearOrder K] [Zero K] (gauss : K → K → Nat → Rule K K) (knots : List K) (n : List Nat) : Py (Rule K K) :=
  let knots := knots.insertionSort (· ≤ ·)
  (List.range (knots.length - 1)).foldlM (fun (acc : Rule K K) k =>
    match n[k]? with
    | none => .error .indexError
    | some nk =>
      let g := gauss (knots.getD k 0) (knots.getD (k + 1) 0) nk
      .ok ⟨acc.points ++ g.points, acc.weights ++ g.weights⟩) ⟨[], []⟩

/-- The change of variable at the end of `RandomVariable.gauss_integration_rule` (random_variable.py l.283-285) and the
scaling of the weights of `LebesgueMeasure.gauss_integration_rule` (lebesgue_measure.py l.171-175) on `[a, b]`, from the
rule of the uniform probability on `[-1, 1]`. `UniformRandomVariable.orthonormal_polynomials` (uniform_random_variable.py
l.165-177) gives the shift and the scaling. -/
def lebesgueRule [Field K] (std : Rule K K) (a b : K) : Rule K K :=
  ⟨std.points.map (fun x => (a + b) / 2 + (b - a) / 2 * x), std.weights.map (fun w => w * (b - a))⟩

end Verif.Grids
