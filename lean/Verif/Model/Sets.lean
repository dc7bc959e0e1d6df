import Verif.Np
import Verif.Model.Measures

/-!
# Model of `functions/sets/is_in.py` and `functions/measures/random_multi_indices.py`
-/

namespace Verif.Sets

open Verif.Measures

variable {K : Type}

/-- The NumPy arrays of order at most two: a scalar, a vector, or a matrix given by its rows and its number of columns. -/
inductive NpArr (K : Type) where
  | scalar (a : K)
  | vec (l : List K)
  | mat (rows : List (List K)) (cols : Nat)

/-- `np.atleast_2d`: the rows and the number of columns. -/
def atleast2d : NpArr K → List (List K) × Nat
  | .scalar a => ([[a]], 1)
  | .vec l => ([l], l.length)
  | .mat rows c => (rows, c)

/-- `if B.size == 2: B = np.reshape(B, [-1, 1])` (is_in.py l.48-49), with `B` a matrix. -/
def boxColumn (B : List (List K) × Nat) : List (List K) × Nat :=
  if B.1.length * B.2 = 2 then (B.1.flatten.map (fun a => [a]), 1) else B

/-- `row[k]`. -/
def pick (k : Nat) (row : List K) : Py K :=
  match row[k]? with
  | none => .error .indexError
  | some a => .ok a

/-- `M[i, k]`. -/
def entry (M : List (List K)) (i k : Nat) : Py K :=
  match M[i]? with
  | none => .error .indexError
  | some row => pick k row

/-- The body of the loop (l.53-54): the tests of coordinate `k` for the points, given by their coordinates. The column `x[:, k]` exists if
`k < cols`, whatever the number of rows. -/
def inStep [LinearOrder K] (B : List (List K)) (X : List (List K)) (cols : Nat) (ok : List Bool) (k : Nat) : Py (List Bool) := do
  if cols ≤ k then .error .indexError
  else do
    let lo ← entry B 0 k
    let hi ← entry B 1 k
    let xk ← X.mapM (pick k)
    .ok (List.zipWith (fun b a => b && decide (lo ≤ a) && decide (a ≤ hi)) ok xk)

/-- `is_in(B, x)` (is_in.py l.46-56). -/
def isIn [LinearOrder K] (B x : NpArr K) : Py (List Bool) := do
  let X := atleast2d x
  let B := boxColumn (atleast2d B)
  (List.range B.2).foldlM (inStep B.1 X.1 X.2) (List.replicate X.1.length true)

/-- The elements of the list given to `random_multi_indices`: an integer, a list of values, or a random variable. -/
inductive Elem where
  | num (n : Nat)
  | vals (l : List ℚ)
  | rv (X : DRV ℚ)

/-- `isinstance(x, (list, np.ndarray))`. -/
def Elem.isList : Elem → Bool
  | .vals _ => true
  | _ => false

/-- The list, for an element that is a list. -/
def Elem.list? : Elem → Option (List ℚ)
  | .vals l => some l
  | _ => none

/-- `np.arange(shape[dim])`: lists and random variables are refused. -/
def arange : Elem → Py (List ℚ)
  | .num n => .ok ((List.range n).map (fun i : Nat => (i : ℚ)))
  | _ => .error .typeError

/-- `ind` (random_multi_indices.py l.44-49): the list of intervals. -/
def intervals (shape : List Elem) : Py (List (List ℚ)) :=
  if shape.all Elem.isList then .ok (shape.filterMap Elem.list?)
  else shape.mapM arange

/-- `random_multi_indices(shape)` (l.42-54) for a list `shape`: the components of the random vector, and the list `shape` after the call:
when it contains lists only, `ind` is `shape` itself (l.45) and its elements are replaced (l.52). Not modelled: empty intervals. -/
def randomMultiIndices (eps : ℚ) (shape : List Elem) : Py (List (DRV ℚ) × List Elem) := do
  let ind ← intervals shape
  let X ← ind.mapM (fun l => mk eps l none)
  .ok (X, if shape.all Elem.isList then X.map Elem.rv else shape)

end Verif.Sets
