import Verif.Model.LeastSquares

/-!
# Model of `tensap/approximation/learning/linear_model_learning_density_l2.py`

Density estimation in an orthonormal basis: `A i p` is the value of function `p` at sample `i`; `b` the optional vector
`training_data[1]` (`none` when it is absent). The option `"included_coefficients"` is not modelled.
-/

namespace Verif.DensityL2

open Verif.LeastSquares

variable {N P : Nat}

/-- `sol = np.mean(A, axis=0)`, minus `b` when it is given (linear_model_learning_density_l2.py l.104-114). -/
noncomputable def standardSol (A : Matrix (Fin N) (Fin P) ℝ) (b : Option (Fin P → ℝ)) : Fin P → ℝ :=
  match b with
  | none => fun p => (∑ i, A i p) / N
  | some b => fun p => (∑ i, A i p) / N - b p

/-- `output["error"]` of `_solve_standard` (l.117-131), with `N = A.shape[0]`; for one sample the code divides by zero. -/
noncomputable def standardErr (A : Matrix (Fin N) (Fin P) ℝ) (b : Option (Fin P → ℝ)) : ℝ :=
  let sol := standardSol A b
  match b with
  | none =>
    (-((N : ℝ) ^ 2)) / (1 - (N : ℝ)) ^ 2 * (∑ p, sol p ^ 2)
      + (2 * (N : ℝ) - 1) / ((N : ℝ) * ((N : ℝ) - 1) ^ 2) * ∑ i, ∑ p, A i p ^ 2
  | some b =>
    ((N : ℝ) ^ 2 - 2 * N) / ((N : ℝ) - 1) ^ 2 * (∑ p, sol p ^ 2)
      + 1 / ((N : ℝ) - 1) ^ 2 * (∑ p, b p ^ 2)
      - 2 / ((N : ℝ) - 1) ^ 2 * (∑ i, ∑ p, A i p * b p)
      + (2 * (N : ℝ) - 1) / ((N : ℝ) * ((N : ℝ) - 1) ^ 2) * (∑ i, ∑ p, A i p ^ 2)
      - 2 / ((N : ℝ) - 1) * (∑ i, ∑ p, A i p * sol p)
      + 2 * ∑ p, sol p * b p

/-- `A_square_sum = np.sum(A**2, 0)` (l.164, l.308). -/
noncomputable def sqSum (A : Matrix (Fin N) (Fin P) ℝ) (p : Fin P) : ℝ := ∑ i, A i p ^ 2

/-- `A_sum = np.sum(A, 0)` (l.310). -/
noncomputable def colSum (A : Matrix (Fin N) (Fin P) ℝ) (p : Fin P) : ℝ := ∑ i, A i p

/-- `err[i]` of `_solve_regularized` for the columns `ind` (l.207-221). -/
noncomputable def regErr (A : Matrix (Fin N) (Fin P) ℝ) (b : Option (Fin P → ℝ)) (ind : List (Fin P)) : ℝ :=
  let sol := standardSol A b
  match b with
  | none =>
    (-((N : ℝ) ^ 2)) / (1 - (N : ℝ)) ^ 2 * (ind.map (fun p => sol p ^ 2)).sum
      + (2 * (N : ℝ) - 1) / ((N : ℝ) * ((N : ℝ) - 1) ^ 2) * (ind.map (sqSum A)).sum
  | some b =>
    ((N : ℝ) ^ 2 - 2 * N) / ((N : ℝ) - 1) ^ 2 * (ind.map (fun p => sol p ^ 2)).sum
      + 1 / ((N : ℝ) - 1) ^ 2 * (ind.map (fun p => b p ^ 2)).sum
      - 2 / ((N : ℝ) - 1) ^ 2 * (∑ i, (ind.map (fun p => A i p * b p)).sum)
      + (2 * (N : ℝ) - 1) / ((N : ℝ) * ((N : ℝ) - 1) ^ 2) * (ind.map (sqSum A)).sum
      - 2 / ((N : ℝ) - 1) * (∑ i, (ind.map (fun p => A i p * sol p)).sum)
      + 2 * (ind.map (fun p => sol p * b p)).sum

/-- `err[i]` of `_select_optimal_path` for the columns of a pattern (l.335-350). -/
noncomputable def pathErr (A : Matrix (Fin N) (Fin P) ℝ) (b : Option (Fin P → ℝ)) (ind : List (Fin P)) : ℝ :=
  let sol := standardSol A b
  match b with
  | none =>
    (-((N : ℝ) ^ 2)) / (1 - (N : ℝ)) ^ 2 * (ind.map (fun p => sol p ^ 2)).sum
      + (2 * (N : ℝ) - 1) / ((N : ℝ) * ((N : ℝ) - 1) ^ 2) * (ind.map (sqSum A)).sum
  | some b =>
    ((N : ℝ) ^ 2 - 2 * N) / ((N : ℝ) - 1) ^ 2 * (ind.map (fun p => sol p ^ 2)).sum
      + 1 / ((N : ℝ) - 1) ^ 2 * (ind.map (fun p => b p ^ 2)).sum
      - 2 / ((N : ℝ) - 1) ^ 2 * (ind.map (fun p => colSum A p * b p)).sum
      + (2 * (N : ℝ) - 1) / ((N : ℝ) * ((N : ℝ) - 1) ^ 2) * (ind.map (sqSum A)).sum
      - 2 / ((N : ℝ) - 1) * (ind.map (fun p => colSum A p * sol p)).sum
      + 2 * (ind.map (fun p => sol p * b p)).sum

/-- `sol[ind, i] = sol_standard[ind]` in a column of zeros (l.205, l.223, l.351). -/
noncomputable def restrict (sol : Fin P → ℝ) (ind : List (Fin P)) : Fin P → ℝ := fun p => if p ∈ ind then sol p else 0

open Classical in
/-- `np.argmin` of a list of numbers: the first smallest. -/
noncomputable def argminR : List ℝ → Nat
  | [] => 0
  | [_] => 0
  | e :: e' :: l =>
    let j := argminR (e' :: l)
    if (e' :: l).getD j 0 < e then j + 1 else 0

/-- `_solve_regularized` (l.135-241) without included coefficients; `sorted` is `np.argsort(-np.abs(sol_standard))`, a parameter because
NumPy's default sort is not stable. The result is the coefficients and, unless there is no coefficient, the error and the index. -/
noncomputable def solveRegularized (A : Matrix (Fin N) (Fin P) ℝ) (b : Option (Fin P → ℝ)) (sorted : List (Fin P)) :
    (Fin P → ℝ) × Option (ℝ × Nat) :=
  if sorted.isEmpty then (standardSol A b, none)
  else
    let inds := (List.range sorted.length).map (fun i => sorted.take (i + 1))
    let err := inds.map (regErr A b)
    let k := argminR err
    (restrict (standardSol A b) (inds.getD k []), some (err.getD k 0, k))

/-- `_select_optimal_path` (l.265-371); the loop writes the errors in turn, so that `stop_if_error_increase` has no effect (see
`Verif.LeastSquares.path_loop`, the same code) and is left out. -/
noncomputable def selectPath (A : Matrix (Fin N) (Fin P) ℝ) (b : Option (Fin P → ℝ)) (path : List (Fin P → Bool)) :
    (Fin P → ℝ) × Option (ℝ × (Fin P → Bool)) :=
  let pats := admissible N path
  if pats.isEmpty then (standardSol A b, none)
  else
    let err := pats.map (fun pat => pathErr A b (cols pat))
    let k := argminR err
    let pat := pats.getD k (fun _ => false)
    (restrict (standardSol A b) (cols pat), some (err.getD k 0, pat))

end Verif.DensityL2
