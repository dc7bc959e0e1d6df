import Verif.Model.FunctionalTensor
import Verif.Model.TreeSqueeze

/-!
# Model of `tensap/functions/functional_tensor.py`: `conditional_expectation`, `dot_product_expectation`, `norm`, `variance`
-/

namespace Verif.FunctionalTensor

open Verif.Arr Verif.TreeBased Verif.Bases

variable {K : Type}

/-- The argument `dims`: an array of integers (without negative ones) or of booleans. -/
inductive DimsArg
  | idx (l : List Nat)
  | mask (l : List Bool)

/-- `np.sort(np.atleast_1d(dims))` (functional_tensor.py l.308-316), as integers. The elements of a `numpy` array of booleans are not
of type `bool`, so the test of l.309 is true only of an empty array: booleans are sorted as booleans, and compared to the dimensions as
the integers 0 and 1 by `np.setdiff1d`. -/
def DimsArg.sorted : DimsArg → List Nat
  | .idx l => l.insertionSort (· ≤ ·)
  | .mask l => (l.map Bool.toNat).insertionSort (· ≤ ·)

/-- `bases.keep_bases(dims)` (functional_bases.py l.214-216): indexing by integers, or by a (sorted) mask. -/
def DimsArg.keep (bs : List (Basis K)) : DimsArg → Py (List (Basis K))
  | .idx l => (DimsArg.sorted (.idx l)).mapM (lookup bs)
  | .mask l =>
    if l.length ≠ bs.length then .error .indexError
    else .ok (((bs.zip (DimsArg.sorted (.mask l))).filter (fun p => p.2 == 1)).map Prod.fst)

/-- `tensor.tensor_vector_product(vectors, dims)` (full_tensor.py l.965-998; tree_based_tensor.py l.1419-1453). -/
def TVal.vectorProduct [CommSemiring K] : TVal K → List (Arr K) → List Nat → Py (TVal K)
  | .full a, vs, dims => do .ok (.full (← FullTensor.tensorVectorProduct a vs (some dims)))
  | .tree x, vs, dims => do
    match ← tensorVectorProductTB x vs (some dims) with
    | .dense b => .ok (.full b)
    | .tree z => .ok (.tree z)

/-- What `conditional_expectation` returns: a number, or a functional tensor. -/
inductive CondVal (K : Type)
  | number (y : Arr K)
  | function (g : FTn K)

/-- `bases.mean(dims)[i]` for the basis `d` (functional_bases.py l.518), `M` being the means of the bases. -/
def meanVec (bs : List (Basis K)) (M : List (Nat → K)) [Zero K] (d : Nat) : Arr K :=
  ⟨[(bs.getD d ⟨0, 0, fun _ _ => 0⟩).card], fun j => M.getD d (fun _ => 0) (j.getD 0 0)⟩

/-- `conditional_expectation(dims)` (functional_tensor.py l.308-335), without measure and without the attribute `measure` of the
result. The assertion of l.317 holds of the default `fdims`. -/
def FTn.conditionalExpectation [CommSemiring K] (f : FTn K) (M : List (Nat → K)) (dims : DimsArg) : Py (CondVal K) :=
  let ds := dims.sorted
  if ds.isEmpty then do .ok (.number (← f.mean M))
  else
    let rest := FullTensor.setdiffRange f.bases.length ds
    if rest.isEmpty then .ok (.function f)
    else do
      let t ← f.tensor.vectorProduct (rest.map (meanVec f.bases M)) rest
      let bs ← dims.keep f.bases
      let g ← FTn.mk' t bs
      .ok (.function g)

/-- `dot_product_expectation(f_2)` (functional_tensor.py l.236-249) of functional tensors whose `bases` are `FunctionalBases`:
`same` is the result of the comparison of the bases. `FunctionalBases` has no method `gram_matrix` (functional_bases.py: the method is
`gram_matrices`), so l.245 raises an `AttributeError`. -/
def FTn.dotProductExpectation (f g : FTn K) (same : Bool) : Py K :=
  if f.tensor.order ≠ g.tensor.order then .error .valueError
  else if same then .error .attributeError
  else .error .notImplemented

/-- `variance()` (functional_tensor.py l.175-180). -/
def FTn.variance [CommRing K] (f : FTn K) (M : List (Nat → K)) : Py K := do
  let m ← f.mean M
  let v ← f.dotProductExpectation f true
  .ok (v - m.get [] ^ 2)

/-- One line of `variance_conditional_expectation(alpha)` (functional_tensor.py l.357-367). The result of l.366 is a functional tensor,
its argument being nonempty. -/
def FTn.varianceConditionalExpectation [CommRing K] (f : FTn K) (M : List (Nat → K)) (u : DimsArg) : Py K := do
  let m ← f.mean M
  if u.sorted.isEmpty then .ok 0
  else do
    match ← f.conditionalExpectation M u with
    | .number _ => .error .attributeError
    | .function g => do
      let v ← g.dotProductExpectation g true
      .ok (v - m.get [] ^ 2)

/-- The square of `norm()` (functional_tensor.py l.271-278) of a functional tensor whose `bases` are a list of arrays (of evaluations),
the tensor being dense. -/
def normSqEvaluated [CommSemiring K] (a : Arr K) (evals : List (Arr K)) : Py K := do
  let b ← FullTensor.tensorMatrixProduct a (evals.map (fun x => eyeArr (x.shape.getD 1 0))) (some (List.range a.order))
  .ok (FullTensor.dot b a)

end Verif.FunctionalTensor
