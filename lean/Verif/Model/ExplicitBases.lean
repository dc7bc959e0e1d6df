import Verif.Model.Sets
import Mathlib.Data.Rat.Defs

/-!
# Model of `approximation/bases/delta_functional_basis.py` and `approximation/bases/user_defined_functional_basis.py`

The arrays are those of `Verif.Sets.NpArr`. The domain of the basis (`measure.support()`) is not modelled. The values of a
`DeltaFunctionalBasis` are given (`values` is not `None`).
-/

namespace Verif.ExplicitBases

open Verif.Sets

variable {K : Type}

/-- `DeltaFunctionalBasis` (delta_functional_basis.py l.46-83): the rows and the number of columns of `values`, and
`input_dimension`. -/
structure Delta (K : Type) where
  rows : List (List K)
  cols : Nat
  inputDim : Nat

/-- `DeltaFunctionalBasis(values, measure)` (l.68-83), from the dimension of the measure, if there is one. A scalar has no
`shape[0]`: the constructor accepts it and the other methods raise; it is excluded here. -/
def Delta.create (values : NpArr K) (measureDim : Option Nat := none) : Py (Delta K) :=
  match values with
  | .scalar _ => .error .indexError
  | .vec l => .ok ⟨l.map (fun a => [a]), 1, measureDim.getD 1⟩
  | .mat rows c => .ok ⟨rows, c, measureDim.getD 1⟩

/-- `ndim()` (l.98-99). -/
def Delta.ndim (b : Delta K) : Nat := b.inputDim

/-- `cardinal()` (l.101-102): `values.shape[1]`. -/
def Delta.cardinal (b : Delta K) : Nat := b.cols

/-- `np.all(u == v)` for two vectors with broadcasting (l.92); vectors of different sizes, none of which is one, are refused
(NumPy 1.25 and later). -/
def allEqual [DecidableEq K] (u v : List K) : Py Bool :=
  if u.length = v.length then .ok (decide (u = v))
  else
    match u, v with
    | [a], v => .ok (v.all (fun b => decide (a = b)))
    | u, [b] => .ok (u.all (fun a => decide (a = b)))
    | _, _ => .error .valueError

/-- The rows `x[i,]` of `np.atleast_1d(x)` (l.86): the elements of a vector are compared as vectors of size one. -/
def pointRows : NpArr K → List (List K)
  | .scalar a => [[a]]
  | .vec l => l.map (fun a => [a])
  | .mat rows _ => rows

/-- `out[i, mu]`. -/
def deltaEntry [DecidableEq K] (u v : List K) : Py ℚ := do
  let e ← allEqual u v
  .ok (if e then 1 else 0)

/-- `eval(x)` (l.85-93), printed values excluded: the rows of the matrix. -/
def Delta.eval [DecidableEq K] (b : Delta K) (x : NpArr K) : Py (List (List ℚ)) :=
  (pointRows x).mapM (fun u => b.rows.mapM (fun v => deltaEntry u v))

/-- `np.reshape(A, (n, c))` for a matrix given by its rows, as a list of rows. -/
def reshapeRows (A : List (List ℚ)) (n c : Nat) : Py (List (List ℚ)) :=
  if A.flatten.length = n * c then .ok ((List.range n).map (fun i => (A.flatten.drop (i * c)).take c)) else .error .valueError

/-- `FunctionalBasis.random(n)` (functional_basis.py l.82-89), for a probability measure (another one is refused), from its sample `x` of `n` points, the method `eval` and the
value of `cardinal()`. -/
def randomEval (eval : NpArr K → Py (List (List ℚ))) (cardinal : Nat) (n : Nat) (x : NpArr K) : Py (List (List ℚ) × NpArr K) := do
  let A ← eval x
  let A ← reshapeRows A n cardinal
  .ok (A, x)

/-- `UserDefinedFunctionalBasis` (user_defined_functional_basis.py l.47-81): the list `handle_fun` of functions, which map an array of
points to an array (given raveled), and `input_dimension`. -/
structure UserDefined (K : Type) where
  handleFun : List (NpArr K → Py (List ℚ))
  inputDim : Nat

/-- `UserDefinedFunctionalBasis(h_fun, measure, input_dim)` (l.71-81), from the dimension of the measure, if there is one. -/
def UserDefined.create (h : List (NpArr K → Py (List ℚ))) (measureDim : Option Nat := none) (inputDim : Option Nat := none) :
    UserDefined K :=
  match inputDim, measureDim with
  | none, some d => ⟨h, d⟩
  | some d, _ => ⟨h, d⟩
  | none, none => ⟨h, 1⟩

/-- `cardinal()` (l.97-98). -/
def UserDefined.cardinal (b : UserDefined K) : Nat := b.handleFun.length

/-- `np.atleast_1d`. -/
def atleast1d : NpArr K → NpArr K
  | .scalar a => .vec [a]
  | x => x

/-- `np.shape(x)[0]`. -/
def nbRows : NpArr K → Nat
  | .scalar _ => 1
  | .vec l => l.length
  | .mat rows _ => rows.length

/-- `out[:, mu] = np.ravel(handle_fun[mu](x))` (l.88): a vector of size one is broadcast. -/
def column (n : Nat) (y : Py (List ℚ)) : Py (List ℚ) := do
  let l ← y
  if l.length = n then .ok l
  else
    match l with
    | [a] => .ok (List.replicate n a)
    | _ => .error .valueError

/-- The rows of the matrix of given columns. -/
def ofColumns (n : Nat) (c : List (List ℚ)) : List (List ℚ) := (List.range n).map (fun i => c.map (fun l => l.getD i 0))

/-- `eval(x)` (l.83-89): the rows of the matrix. -/
def UserDefined.eval (b : UserDefined K) (x : NpArr K) : Py (List (List ℚ)) := do
  let c ← b.handleFun.mapM (fun h => column (nbRows (atleast1d x)) (h (atleast1d x)))
  .ok (ofColumns (nbRows (atleast1d x)) c)

end Verif.ExplicitBases
