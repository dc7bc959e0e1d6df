import Verif.Model.Distributions
import Mathlib.Analysis.SpecialFunctions.Pow.Real

/-!
# Model of `EmpiricalRandomVariable` and `EmpiricalPolynomials`

`tensap/functions/measures/empirical_random_variable.py` and the class `EmpiricalPolynomials` of
`tensap/functions/polynomials/orthonormal_polynomials.py`. The sample is a list of real numbers, rounding is not modelled,
`np.linalg.eig` is a parameter, and `scipy.stats.gaussian_kde` is modelled by its documentation. `random`, `icdf` (a search of
roots by `scipy.optimize.brentq`) and `likelihood` are not modelled.
-/

namespace Verif.Empirical

open Verif.Polynomials Verif.Grids

noncomputable section

/-- `np.mean(x)`. -/
def npMean (xs : List ℝ) : ℝ := xs.sum / xs.length

/-- `np.var(x)`. -/
def npVar (xs : List ℝ) : ℝ := npMean (xs.map (fun x => (x - npMean xs) ^ 2))

/-- `np.std(x)`. -/
def npStd (xs : List ℝ) : ℝ := Real.sqrt (npVar xs)

/-- The attribute `bandwidth` (empirical_random_variable.py l.63-65). -/
def bandwidth (xs : List ℝ) : ℝ := 3.5 * npStd xs * (xs.length : ℝ) ^ (-1 / 3 : ℝ)

/-- `shift(b, s)` (empirical_random_variable.py l.67-84). -/
def shift (xs : List ℝ) (b s : ℝ) : List ℝ := xs.map (fun x => s * x + b)

/-- `get_standard_random_variable()` (empirical_random_variable.py l.105-120). -/
def standard (xs : List ℝ) : List ℝ := xs.map (fun x => (x - npMean xs) / npStd xs)

/-- `pdf(x)` (empirical_random_variable.py l.191-201), at one point. -/
def pdf (xs : List ℝ) (x : ℝ) : ℝ :=
  1 / (xs.length * bandwidth xs * Real.sqrt (2 * Real.pi)) *
    (xs.map (fun xi => Real.exp (-0.5 * (x - xi) ^ 2 / bandwidth xs ^ 2))).sum

/-- `np.cov(x)`, the unbiased estimator of the variance, used by `scipy.stats.gaussian_kde`. -/
def npCov (xs : List ℝ) : ℝ := (xs.map (fun x => (x - npMean xs) ^ 2)).sum / ((xs.length : ℝ) - 1)

/-- The standard deviation of the kernels of `scipy.stats.gaussian_kde(sample, bw)` for a number `bw`: the covariance of the
sample times `bw ** 2` (scipy). -/
def kdeStd (xs : List ℝ) (bw : ℝ) : ℝ := Real.sqrt (npCov xs * bw ^ 2)

/-- `cdf(x)` (empirical_random_variable.py l.161-163), at one point: `gaussian_kde(...).integrate_box_1d(-inf, z)` is the
average of the distribution functions of the kernels. -/
def cdf (xs : List ℝ) (z : ℝ) : ℝ :=
  npMean (xs.map (fun xi => Distributions.ndtr ((z - xi) / kdeStd xs (bandwidth xs))))

/-- `random_variable_statistics()` (empirical_random_variable.py l.203-204). -/
def statistics (xs : List ℝ) : ℝ × ℝ := (npMean xs, npVar xs)

/-- `mean()` (random_variable.py l.402-412). -/
def mean (xs : List ℝ) : ℝ := (statistics xs).1

/-- `variance()` (random_variable.py l.426-436). -/
def variance (xs : List ℝ) : ℝ := (statistics xs).2

/-- `integration_rule(n)` (empirical_random_variable.py l.128-148). -/
def integrationRule (eig : Eig) (xs : List ℝ) (n : Nat) : Py (Rule ℝ ℝ) := do
  let G ← (Meas.normal 0 1).gauss eig n
  .ok ⟨xs.flatMap (fun xi => G.points.map (fun g => bandwidth xs * g + xi)),
    xs.flatMap (fun _ => G.weights.map (fun w => w / xs.length))⟩

/-! ### polynomials -/

/-- `peval(i, a, b, x)` (orthonormal_polynomials.py l.706-741), at one point; the loop keeps `p_n_loc_m2` and
`p_n_loc_m1`. -/
def peval (i : Nat) (a b : List ℝ) (x : ℝ) : ℝ :=
  if i = 0 then 1
  else ((List.range' 2 (i - 1)).foldl
    (fun (p : ℝ × ℝ) k => (p.2, (x - at' a (k - 1)) * p.2 - at' b (k - 1) * p.1)) (1, x - at' a 0)).2

/-- `np.sum(np.matmul(f(x_ij), weights))` (orthonormal_polynomials.py l.753-776): the rows `i` are the points of the sample
and the columns `j` those of the Gauss-Hermite rule `G`. -/
def quad (G : Rule ℝ ℝ) (ys : List ℝ) (f : ℝ → ℝ) : ℝ :=
  (ys.map (fun xi => (List.zipWith (fun g w => f (bandwidth ys * g + xi) * (w / ys.length)) G.points G.weights).sum)).sum

/-- The arrays `a`, `b`, `norms` of `_precompute_recurrence_monic`, cut at the index `i` of the loop. -/
structure Arrays where
  a : List ℝ
  b : List ℝ
  norms : List ℝ

/-- The initialisation (orthonormal_polynomials.py l.763-767). -/
def arraysInit (Q : (ℝ → ℝ) → ℝ) : Arrays := ⟨[Q (fun x => x)], [0], [1]⟩

/-- The body of the loop (orthonormal_polynomials.py l.770-777); `n` is given, so that `check` is false. -/
def arraysStep (Q : (ℝ → ℝ) → ℝ) (s : Arrays) : Arrays :=
  let i := s.a.length
  let pn := peval i s.a s.b
  let norm := Q (fun x => pn x ^ 2)
  ⟨s.a ++ [Q (fun x => pn x * x * pn x) / norm], s.b ++ [norm / at' s.norms (i - 1)], s.norms ++ [norm]⟩

/-- `EmpiricalPolynomials._precompute_recurrence_monic(measure, n)` (orthonormal_polynomials.py l.653-789): `n + 1` iterations,
after which `i = n + 1`; `int(np.ceil((2 * n + 3) / 2))` is `n + 2`. -/
def precomputeEmp (eig : Eig) (ys : List ℝ) (n : Nat) : Py ((List ℝ × List ℝ) × List ℝ) := do
  let G ← (Meas.normal 0 1).gauss eig ((2 * n + 3 + 1) / 2)
  let s := (arraysStep (quad G ys))^[n + 1] (arraysInit (quad G ys))
  .ok ((s.a.take (n + 1), s.b.take (n + 1)), (s.norms.take (n + 1)).map Real.sqrt)

/-- `EmpiricalPolynomials(X, n)` for an `EmpiricalRandomVariable` of sample `xs` (orthonormal_polynomials.py l.613-651). -/
def empiricalPolynomials (eig : Eig) (xs : List ℝ) (n : Option Nat) : Py OrthPoly := do
  let ys := standard xs
  let r ← precomputeEmp eig ys (n.getD (ys.length - 1))
  .ok ⟨fun m => if r.1.1.length < m + 1 then .error .indexError
    else .ok ((r.1.1.take (m + 1), r.1.2.take (m + 1)), r.2.take (m + 1)), 1⟩

/-- `np.finfo(float).eps`. -/
def eps : ℝ := 2⁻¹ ^ 52

open Classical in
/-- `orthonormal_polynomials(n)` (empirical_random_variable.py l.150-156): the polynomials with, when they are shifted, the
shift and the scaling. -/
def orthonormalPolynomials (eig : Eig) (xs : List ℝ) (n : Option Nat) : Py (OrthPoly × Option (ℝ × ℝ)) := do
  let p ← empiricalPolynomials eig xs n
  .ok (p, if eps < |npMean xs| ∨ eps < |npStd xs - 1| then some (npMean xs, npStd xs) else none)

/-- `polyval(ind, x)` (orthonormal_polynomials.py l.143-161 and, for shifted polynomials, l.364-366). -/
def polyvalOf (p : OrthPoly × Option (ℝ × ℝ)) (ind : List Nat) (x : ℝ) : Py (List ℝ) :=
  match p.2 with
  | none => p.1.polyval ind x
  | some (m, s) => p.1.polyval ind ((x - m) / s)

/-- `X.orthonormal_polynomials(n).polyval(ind, x)`. -/
def polyval (eig : Eig) (xs : List ℝ) (n : Option Nat) (ind : List Nat) (x : ℝ) : Py (List ℝ) := do
  polyvalOf (← orthonormalPolynomials eig xs n) ind x

/-- `gauss_integration_rule(nb_pts)` (random_variable.py l.241-289). -/
def gauss (eig : Eig) (xs : List ℝ) (nbPts : Nat) : Py (Rule ℝ ℝ) := do
  let p ← orthonormalPolynomials eig xs none
  gaussRule eig p.1 p.2 nbPts

/-- `moment(ind)` (random_variable.py l.362-396) without stored moments. -/
def moment (eig : Eig) (xs : List ℝ) (ind : List Nat) : Py (List ℝ) := do
  let m ← npMax ind
  let G ← gauss eig xs ((m + 1 + 1) / 2)
  ind.mapM (fun i => G.integrate (fun x => x ^ i))

end

end Verif.Empirical
