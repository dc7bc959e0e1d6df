import Verif.Model.Losses
import Mathlib.Analysis.SpecialFunctions.Trigonometric.Basic
import Mathlib.Analysis.SpecialFunctions.Log.Basic

/-!
# Model of `multivariate_functions_benchmark` (functions/multivariate_functions_benchmark.py l.29-346)

Real numbers; a quotient by zero is 0 and a logarithm of a nonpositive number is the one of Mathlib (NumPy gives `nan` or `inf` with a
warning). The parameters `a`, `b` of `ishigami` and `q` of `polynomial` have their default values. The vectors drawn for the six last
families are parameters.
-/

namespace Verif.Benchmark

open Verif.Arr Verif.Losses

/-- A matrix of points, one per row. -/
structure Mat where
  n : Nat
  d : Nat
  get : Nat → Nat → ℝ

/-- The law of a coordinate: `UniformRandomVariable` or `NormalRandomVariable`. -/
inductive Rv where
  | uniform (a b : ℝ)
  | normal (m s : ℝ)

/-- `x[:, k]`. -/
def col (x : Mat) (k : Nat) : Py (Nat → ℝ) := if k < x.d then .ok (fun i => x.get i k) else .error .indexError

/-- An array of shape `[n]`. -/
def vec (n : Nat) (f : Nat → ℝ) : Arr ℝ := ⟨[n], fun i => f (i.getD 0 0)⟩

/-- An array of shape `[n, 1]`. -/
def column (n : Nat) (f : Nat → ℝ) : Arr ℝ := ⟨[n, 1], fun i => f (i.getD 0 0)⟩

/-- `np.matmul(x, np.reshape(w, (-1, 1)))`, as a function of the row. -/
def matvec (x : Mat) (w : List ℝ) : Py (Nat → ℝ) :=
  if w.length = x.d then .ok (fun i => ∑ j ∈ Finset.range x.d, x.get i j * w.getD j 0) else .error .valueError

/-- `borehole` (l.69-88). -/
noncomputable def borehole (x : Mat) : Py (Arr ℝ) := do
  let x0 ← col x 0
  let x1 ← col x 1
  let x2 ← col x 2
  let x3 ← col x 3
  let x4 ← col x 4
  let x5 ← col x 5
  let x6 ← col x 6
  let x7 ← col x 7
  let l := fun i => Real.log (Real.exp (771 / 100 + 10056 / 10000 * x1 i) / x0 i)
  .ok (vec x.n (fun i => 2 * Real.pi * x2 i * (x3 i - x5 i) /
    (l i * (1 + 2 * x6 i * x2 i / l i / x0 i ^ 2 / x7 i + x2 i / x4 i))))

/-- `ishigami` (l.106-111). -/
noncomputable def ishigami (x : Mat) : Py (Arr ℝ) := do
  let x0 ← col x 0
  let x1 ← col x 1
  let x2 ← col x 2
  .ok (vec x.n (fun i => Real.sin (x0 i) + 7 * Real.sin (x1 i) ^ 2 + 1 / 10 * x2 i ^ 4 * Real.sin (x0 i)))

/-- `sin_of_asum` (l.118-126). -/
noncomputable def sinOfSum (w : Option (List ℝ)) (x : Mat) : Py (Arr ℝ) :=
  match w with
  | none => .ok (vec x.n (fun i => Real.sin (∑ j ∈ Finset.range x.d, x.get i j)))
  | some w => do
    let s ← matvec x w
    .ok (column x.n (fun i => Real.sin (s i)))

/-- `linear_additive` (l.135-143). -/
def linearAdditive (w : Option (List ℝ)) (x : Mat) : Py (Arr ℝ) :=
  match w with
  | none => .ok (vec x.n (fun i => ∑ j ∈ Finset.range x.d, x.get i j))
  | some w => do
    let s ← matvec x w
    .ok (column x.n s)

/-- `linear_rank_one` (l.159-160); the broadcasting of one column is not modelled. -/
def linearRankOne (w : List ℝ) (x : Mat) : Py (Arr ℝ) :=
  if w.length = x.d then .ok (vec x.n (fun i => ∏ j ∈ Finset.range x.d, (w.getD j 0 + 2 * x.get i j))) else .error .valueError

/-- `quadratic_rank_one` (l.168-174), with a matrix of three rows; the broadcasting of one column is not modelled. -/
def quadraticRankOne (c : Mat) (x : Mat) : Py (Arr ℝ) :=
  if c.n < 3 then .error .indexError
  else if c.d = x.d then
    .ok (vec x.n (fun i => ∏ j ∈ Finset.range x.d, (c.get 0 j + c.get 1 j * x.get i j + c.get 2 j * x.get i j ^ 2)))
  else .error .valueError

/-- `canonical_rank_2` (l.184-185). -/
def canonicalRank2 (x : Mat) : Py (Arr ℝ) := do
  let x0 ← col x 0
  let x1 ← col x 1
  let x2 ← col x 2
  .ok (vec x.n (fun i => x0 i * x1 i * x2 i + x0 i ^ 2 + x1 i))

/-- `mixture` (l.195-199). -/
noncomputable def mixture (x : Mat) : Py (Arr ℝ) := do
  let x0 ← col x 0
  let x2 ← col x 2
  let x3 ← col x 3
  let x4 ← col x 4
  let x5 ← col x 5
  .ok (vec x.n (fun i => Real.sin (x0 i + x3 i) * Real.exp (x4 i) * x5 i + Real.sin (x2 i * x3 i) * x5 i))

/-- `field` (l.209-217). -/
noncomputable def field (x : Mat) : Py (Arr ℝ) := do
  let x0 ← col x 0
  let x1 ← col x 1
  let x2 ← col x 2
  let x3 ← col x 3
  let x4 ← col x 4
  let x5 ← col x 5
  .ok (vec x.n (fun i => 1 + Real.cos (x0 i) * x1 i + Real.sin (x0 i) * x2 i + Real.exp (x0 i) * x3 i + 1 / (x0 i + 1) * x4 i +
    1 / (2 * x0 i + 3) * x5 i))

/-- `oscillatory` (l.239-240): `w[0] * 2 * np.pi`, of shape `[d]`, is added to a column. -/
noncomputable def oscillatory (d : Nat) (w c : Nat → ℝ) (x : Mat) : Py (Arr ℝ) := do
  let s ← matvec x ((List.range d).map c)
  .ok ⟨[x.n, d], fun i => Real.cos (w (i.getD 1 0) * 2 * Real.pi + s (i.getD 0 0))⟩

/-- `product_peak` (l.244-249): `x ** (-2)`, with one row per point, is tiled as many times as there are points. -/
noncomputable def productPeak (d : Nat) (w : Nat → ℝ) (x : Mat) : Py (Arr ℝ) := do
  let n ← bdim (x.n * x.n) x.n
  let _ ← bdim x.d d
  .ok (vec n (fun i => 1 / ∏ j ∈ Finset.range x.d, ((x.get (i % x.n) j ^ 2)⁻¹ + (x.get i j + w j) ^ 2)))

/-- `corner_peak` (l.252-257). -/
noncomputable def cornerPeak (d : Nat) (c : Nat → ℝ) (x : Mat) : Py (Arr ℝ) := do
  let s ← matvec x ((List.range d).map (fun j => c j * 185 / (d : ℝ) ^ 2 / ∑ k ∈ Finset.range d, c k))
  .ok (column x.n (fun i => ((1 + s i) ^ (d + 1))⁻¹))

/-- `gaussian` and `continuous` (l.261-277): `np.exp` is given the array of shape `[d, 1]` as output, then `np.matmul` one argument. -/
def expPeak (d : Nat) (x : Mat) : Py (Arr ℝ) := do
  let _ ← bdim x.d d
  if x.n = 1 ∧ x.d = 1 ∧ d = 1 then .error .typeError else .error .valueError

/-- `henon_heiles` (l.290-295), for at least one column. -/
noncomputable def henonHeiles (x : Mat) : Py (Arr ℝ) :=
  .ok (vec x.n (fun i => 1 / 2 * ∑ j ∈ Finset.range x.d, x.get i j ^ 2 +
    1 / 5 * ∑ j ∈ Finset.range (x.d - 1), (x.get i j * x.get i (j + 1) ^ 2 - x.get i j ^ 3) +
    (1 / 5) ^ 2 / 16 * ∑ j ∈ Finset.range (x.d - 1), (x.get i j ^ 2 + x.get i (j + 1) ^ 2) ^ 2))

/-- `sobol` (l.310-315); the broadcasting of one column is not modelled. -/
noncomputable def sobol (a : List ℝ) (x : Mat) : Py (Arr ℝ) :=
  if a.length = x.d then
    .ok (vec x.n (fun i => ∏ j ∈ Finset.range x.d, ((|4 * x.get i j - 2| + a.getD j 0) / (1 + a.getD j 0))))
  else .error .valueError

/-- `anisotropic` (l.325-326). -/
noncomputable def anisotropic (x : Mat) : Py (Arr ℝ) := do
  let x2 ← col x 2
  let x3 ← col x 3
  let x15 ← col x 15
  .ok (vec x.n (fun i => x2 i * Real.sin (x3 i + x15 i)))

/-- `polynomial` (l.340-341). -/
noncomputable def polynomial (x : Mat) : Py (Arr ℝ) :=
  .ok (vec x.n (fun i => 1 / 2 ^ x.d * ∏ j ∈ Finset.range x.d, (3 * x.get i j ^ 2 + 1)))

/-- The parameters `*args` (the dimension, then coefficients) and the vectors drawn by the code. -/
structure Args where
  d : Option Nat := none
  coef : Option (List ℝ) := none
  quad : Option Mat := none
  w : Nat → ℝ := fun _ => 0
  c : Nat → ℝ := fun _ => 0

/-- A function and the laws of its inputs. -/
abbrev Bench := (Mat → Py (Arr ℝ)) × List Rv

/-- `multivariate_functions_benchmark(case, *args)` (l.57-346). -/
noncomputable def benchmark (case : String) (a : Args := {}) : Py Bench :=
  if case = "borehole" then .ok (borehole, [.normal (1 / 10) (161812 / 10000000), .normal 0 1, .uniform 63070 115600,
    .uniform 990 1110, .uniform (631 / 10) 116, .uniform 700 820, .uniform 1120 1680, .uniform 9855 12045])
  else if case = "ishigami" then .ok (ishigami, List.replicate (a.d.getD 3) (.uniform (-Real.pi) Real.pi))
  else if case = "sin_of_asum" then .ok (sinOfSum a.coef, List.replicate (a.d.getD 3) (.uniform (-1) 1))
  else if case = "linear_additive" then .ok (linearAdditive a.coef, List.replicate (a.d.getD 3) (.uniform (-1) 1))
  else if case = "linear_rank_one" then
    .ok (linearRankOne (a.coef.getD (List.replicate (a.d.getD 3) 0)), List.replicate (a.d.getD 3) (.uniform (-1) 1))
  else if case = "quadratic_rank_one" then
    match a.d, a.quad with
    | some d, some c => .ok (quadraticRankOne c, List.replicate d (.uniform (-1) 1))
    | _, _ => .error .indexError
  else if case = "canonical_rank_2" then .ok (canonicalRank2, List.replicate (a.d.getD 3) (.uniform (-1) 1))
  else if case = "mixture" then .ok (mixture, List.replicate (a.d.getD 6) (.uniform (-1) 1))
  else if case = "field" then .ok (field, List.replicate (a.d.getD 6) (.uniform 0 1))
  else if case = "oscillatory" then .ok (oscillatory (a.d.getD 10) a.w a.c, List.replicate (a.d.getD 10) (.uniform 0 1))
  else if case = "product_peak" then .ok (productPeak (a.d.getD 10) a.w, List.replicate (a.d.getD 10) (.uniform 0 1))
  else if case = "corner_peak" then .ok (cornerPeak (a.d.getD 10) a.c, List.replicate (a.d.getD 10) (.uniform 0 1))
  else if case = "gaussian" then .ok (expPeak (a.d.getD 10), List.replicate (a.d.getD 10) (.uniform 0 1))
  else if case = "continuous" then .ok (expPeak (a.d.getD 10), List.replicate (a.d.getD 10) (.uniform 0 1))
  else if case = "discontinuous" then .error .notImplemented
  else if case = "henon_heiles" then .ok (henonHeiles, List.replicate (a.d.getD 3) (.normal 0 1))
  else if case = "sobol" then
    match a.d with
    | none => .ok (sobol [1, 2, 5, 10, 20, 50, 100, 500], List.replicate 8 (.uniform 0 1))
    | some d => .ok (sobol (a.coef.getD ((List.range d).map (fun j => (2 : ℝ) ^ j))), List.replicate d (.uniform 0 1))
  else if case = "anisotropic" then .ok (anisotropic, List.replicate (a.d.getD 16) (.uniform 0 1))
  else if case = "polynomial" then .ok (polynomial, List.replicate (a.d.getD 16) (.uniform 0 1))
  else .error .notImplemented

end Verif.Benchmark
