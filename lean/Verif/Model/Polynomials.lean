import Verif.Np
import Verif.Model.Grids
import Mathlib.Analysis.Real.Sqrt
import Mathlib.Data.List.FinRange
import Mathlib.Data.List.Sort
import Mathlib.Data.Matrix.Basic

/-!
# Model of `tensap/functions/polynomials/` and of the Gauss rules of `tensap/functions/measures/`

Arrays of coefficients are lists of real numbers; floating point rounding is not modelled. An array of evaluations has one
row per point in the code; here one row is computed for one point `x`, the code treats the rows independently.
`np.linalg.eig` is a parameter.
-/

namespace Verif.Polynomials

open Verif.Grids

noncomputable section

/-- `l[i]` for `i` a valid index (0 otherwise). -/
def at' (l : List ℝ) (i : Nat) : ℝ := l.getD i 0

/-! ## Recurrence coefficients -/

/-- A family of orthonormal polynomials (orthonormal_polynomials.py l.26-50): the method `recurrence_monic(n)`, which gives
the coefficients `a` and `b` (the two rows of the first result) and the norms, and `measure.mass()`. -/
structure OrthPoly where
  recurrenceMonic : Nat → Py ((List ℝ × List ℝ) × List ℝ)
  mass : ℝ

/-- `HermitePolynomials.recurrence_monic(n)` (orthonormal_polynomials.py l.458-480). -/
def hermiteRec (n : Nat) : (List ℝ × List ℝ) × List ℝ :=
  ((List.replicate (n + 1) 0, (List.range (n + 1)).map (fun i : Nat => (i : ℝ))),
    (List.range (n + 1)).map (fun i : Nat => Real.sqrt (Nat.factorial i)))

/-- `LegendrePolynomials.recurrence_monic(n)` (orthonormal_polynomials.py l.509-539). -/
def legendreRec (n : Nat) : (List ℝ × List ℝ) × List ℝ :=
  ((List.replicate (n + 1) 0, (List.range (n + 1)).map (fun i : Nat => (i : ℝ) ^ 2 / (4 * (i : ℝ) ^ 2 - 1))),
    (List.range (n + 1)).map (fun i : Nat =>
      Real.sqrt (1 / (2 * (i : ℝ) + 1)) * 2 ^ i * (Nat.factorial i : ℝ) ^ 2 / (Nat.factorial (2 * i) : ℝ)))

/-- `LegendrePolynomialsLebesgue.recurrence_monic(n)` (orthonormal_polynomials.py l.568-600). -/
def legendreLebesgueRec (n : Nat) : (List ℝ × List ℝ) × List ℝ :=
  ((List.replicate (n + 1) 0, (List.range (n + 1)).map (fun i : Nat => (i : ℝ) ^ 2 / (4 * (i : ℝ) ^ 2 - 1))),
    (List.range (n + 1)).map (fun i : Nat =>
      Real.sqrt (1 / (2 * (i : ℝ) + 1)) * 2 ^ i * (Nat.factorial i : ℝ) ^ 2 / (Nat.factorial (2 * i) : ℝ) * Real.sqrt 2))

/-- `HermitePolynomials()` (orthonormal_polynomials.py l.432-456): the measure is the standard normal random variable. -/
def hermite : OrthPoly := ⟨fun n => .ok (hermiteRec n), 1⟩

/-- `LegendrePolynomials()` (orthonormal_polynomials.py l.483-507): the measure is uniform on `[-1, 1]`. -/
def legendre : OrthPoly := ⟨fun n => .ok (legendreRec n), 1⟩

/-- `LegendrePolynomialsLebesgue()` (orthonormal_polynomials.py l.542-566): the measure is the Lebesgue measure on
`[-1, 1]`, of mass `1 - (-1)` (lebesgue_measure.py l.143-153). -/
def legendreLebesgue : OrthPoly := ⟨fun n => .ok (legendreLebesgueRec n), 1 - (-1)⟩

/-! ## Discrete measures -/

/-- `DiscreteMeasure.integration_rule()` (discrete_measure.py l.136-146) and
`DiscreteRandomVariable.integration_rule()` (discrete_random_variable.py l.156-168) for a measure on the real line. -/
def discreteRule (values weights : List ℝ) : Rule ℝ ℝ := ⟨values, weights⟩

/-- `dot_product(p1, p2, r)` (orthonormal_polynomials.py l.854-875): `r.integration_rule().integrate(p1 * p2)`; the two
lists have the same length (checked by the constructors of the measures), see `Rule.integrate`. -/
def dotProduct (values weights : List ℝ) (p1 p2 : ℝ → ℝ) : ℝ :=
  (List.zipWith (fun x w => p1 x * p2 x * w) values weights).sum

/-- `is_orth(pnp1, pn, pnm1, r)` (orthonormal_polynomials.py l.877-907). -/
def isOrth (values weights : List ℝ) (pnp1 pn pnm1 : ℝ → ℝ) : Prop :=
  |dotProduct values weights pnp1 pn| < 1e-5 ∧ |dotProduct values weights pnp1 pnm1| < 1e-5

/-- The variables of the loop of `_precompute_recurrence_monic` (orthonormal_polynomials.py l.909-940): `a[:i+1]`,
`b[:i+1]`, `norms[:i+1]`, the functions `pn[i]`, `pnp1[i]` and the flag `cond`. -/
structure Stieltjes where
  a : List ℝ
  b : List ℝ
  norms : List ℝ
  pn : ℝ → ℝ
  pnp1 : ℝ → ℝ
  cond : Bool

open Classical in
/-- The body of the loop (orthonormal_polynomials.py l.923-940). When `norms[i] == 0`, `a[i]` is nan and so are the values
of `pnp1[i]`, so that `is_orth` is false and the loop stops; `a[i]` is then not returned (0 stands for nan). -/
def stieltjesStep (values weights : List ℝ) (s : Stieltjes) : Stieltjes :=
  let pnm1 := s.pn
  let pn := s.pnp1
  let norm := dotProduct values weights pn pn
  let b := norm / s.norms.getLastD 0
  if norm = 0 then
    ⟨s.a ++ [0], s.b ++ [b], s.norms ++ [norm], pn, fun _ => 0, false⟩
  else
    let a := dotProduct values weights pn (fun x => x * pn x) / norm
    let pnp1 := fun x => (x - a) * pn x - b * pnm1 x
    ⟨s.a ++ [a], s.b ++ [b], s.norms ++ [norm], pn, pnp1, decide (isOrth values weights pnp1 pn pnm1)⟩

/-- The initialisation (orthonormal_polynomials.py l.913-920). -/
def stieltjesInit (values weights : List ℝ) : Stieltjes :=
  let norm := dotProduct values weights (fun _ => 1) (fun _ => 1)
  let a := dotProduct values weights (fun _ => 1) (fun x => x) / norm
  ⟨[a], [0], [norm], fun _ => 1, fun x => (x - a) * 1, true⟩

/-- The loop `while cond and i <= n` (orthonormal_polynomials.py l.922-940): at most `n + 1` iterations. -/
def stieltjesLoop (values weights : List ℝ) : Nat → Stieltjes → Stieltjes
  | 0, s => s
  | k + 1, s => if s.cond then stieltjesLoop values weights k (stieltjesStep values weights s) else s

/-- `DiscretePolynomials._precompute_recurrence_monic(measure, n)` (orthonormal_polynomials.py l.833-942): the arrays are
cut at the last value of `i`. -/
def precompute (values weights : List ℝ) (n : Nat) : (List ℝ × List ℝ) × List ℝ :=
  let s := stieltjesLoop values weights (n + 1) (stieltjesInit values weights)
  ((s.a.dropLast, s.b.dropLast), (s.norms.dropLast).map Real.sqrt)

/-- `DiscretePolynomials(measure)` (orthonormal_polynomials.py l.800-831). -/
def discrete (values weights : List ℝ) (mass : ℝ) : OrthPoly :=
  let r := precompute values weights (values.length - 1)
  ⟨fun n => if r.1.1.length < n + 1 then .error .indexError
    else .ok ((r.1.1.take (n + 1), r.1.2.take (n + 1)), r.2.take (n + 1)), mass⟩

/-! ## Evaluation -/

/-- One step of the recurrence of `polyval` (orthonormal_polynomials.py l.155-159). -/
def polyvalStep (a b : List ℝ) (x : ℝ) (out : List ℝ) (deg : Nat) : List ℝ :=
  out ++ [((x - at' a (deg - 1)) * at' out (deg - 1) - Real.sqrt (at' b (deg - 1)) * at' out (deg - 2))
    / Real.sqrt (at' b deg)]

/-- The row of `out` in `polyval` before the division by the mass (orthonormal_polynomials.py l.151-159). -/
def polyvalRow (a b : List ℝ) (maxInd : Nat) (x : ℝ) : List ℝ :=
  if maxInd > 0 then
    (List.range' 2 (maxInd - 1)).foldl (polyvalStep a b x) [1, (x - at' a 0) / Real.sqrt (at' b 1)]
  else [1]

/-- `np.max(ind)`, an error for an empty array. -/
def npMax (ind : List Nat) : Py Nat :=
  match ind with
  | [] => .error .valueError
  | i :: l => .ok (l.foldl max i)

/-- `polyval(ind, x)` (orthonormal_polynomials.py l.143-161). -/
def OrthPoly.polyval (P : OrthPoly) (ind : List Nat) (x : ℝ) : Py (List ℝ) := do
  let m ← npMax ind
  let r ← P.recurrenceMonic m
  let out := (polyvalRow r.1.1 r.1.2 m x).map (fun v => v / Real.sqrt P.mass)
  .ok (ind.map (at' out))

/-- One step of the recurrence of the derivatives (orthonormal_polynomials.py l.185-190). -/
def dnStep (a b : List ℝ) (k : Nat) (x : ℝ) (out0 out : List ℝ) (deg : Nat) : List ℝ :=
  out ++ [(k * at' out0 (deg - 1) + (x - at' a (deg - 1)) * at' out (deg - 1)
    - Real.sqrt (at' b (deg - 1)) * at' out (deg - 2)) / Real.sqrt (at' b deg)]

/-- The loop body over `k` of `dn_polyval` (orthonormal_polynomials.py l.175-190). -/
def dnRow (a b : List ℝ) (maxInd : Nat) (x : ℝ) (out0 : List ℝ) (k : Nat) : List ℝ :=
  if maxInd > 0 then
    (List.range' 2 (maxInd - 1)).foldl (dnStep a b k x out0) [0, if k = 1 then 1 / Real.sqrt (at' b 1) else 0]
  else [0]

/-- `dn_polyval(n, ind, x)` (orthonormal_polynomials.py l.166-191). -/
def OrthPoly.dnPolyval (P : OrthPoly) (n : Nat) (ind : List Nat) (x : ℝ) : Py (List ℝ) := do
  let m ← npMax ind
  let r ← P.recurrenceMonic m
  let out ← P.polyval (List.range (m + 1)) x
  let out := (List.range' 1 n).foldl (dnRow r.1.1 r.1.2 m x) out
  .ok (ind.map (at' out))

/-- `d_polyval(ind, x)` (orthonormal_polynomials.py l.163-164). -/
def OrthPoly.dPolyval (P : OrthPoly) (ind : List Nat) (x : ℝ) : Py (List ℝ) := P.dnPolyval 1 ind x

/-- `coef[deg + 1, 1:] = coef[deg, :-1]`: the coefficients of `x` times the polynomial, last one dropped. -/
def shiftRow (l : List ℝ) : List ℝ := 0 :: l.dropLast

/-- One step of the recurrence of `poly_coeff` (orthonormal_polynomials.py l.133-139); the rows of `coef`. -/
def coeffStep (a b : List ℝ) (coef : List (List ℝ)) (deg : Nat) : List (List ℝ) :=
  let p := coef.getD deg []
  let q := coef.getD (deg - 1) []
  coef ++ [List.zipWith (fun v w => (v - Real.sqrt (at' b deg) * w) / Real.sqrt (at' b (deg + 1)))
    (List.zipWith (fun v w => v - at' a deg * w) (shiftRow p) p) q]

/-- The array `coef` of `poly_coeff` (orthonormal_polynomials.py l.125-139). -/
def polyCoeffRows (a b : List ℝ) (maxInd : Nat) : List (List ℝ) :=
  let r0 : List ℝ := 1 :: List.replicate maxInd 0
  if maxInd > 0 then
    let r1 := List.zipWith (fun v w => (v - at' a 0 * w) / Real.sqrt (at' b 1)) (shiftRow r0) r0
    (List.range' 1 (maxInd - 1)).foldl (coeffStep a b) [r0, r1]
  else [r0]

/-- `poly_coeff(ind)` (orthonormal_polynomials.py l.119-141). -/
def OrthPoly.polyCoeff (P : OrthPoly) (ind : List Nat) : Py (List (List ℝ)) := do
  let m ← npMax ind
  let r ← P.recurrenceMonic m
  .ok (ind.map (fun i => (polyCoeffRows r.1.1 r.1.2 m).getD i []))

/-- `OrthonormalPolynomials.moment(ind)` for the measure of the polynomials and rows of one index
(orthonormal_polynomials.py l.104-112). -/
def moment1 (ind : List Nat) : List ℝ := ind.map (fun i => if i = 0 then 1 else 0)

/-- The same for rows of two indices (orthonormal_polynomials.py l.113-114). -/
def moment2 (ind : List (Nat × Nat)) : List ℝ := ind.map (fun p => if p.1 = p.2 then 1 else 0)

/-- `one()` (orthonormal_polynomials.py l.59-61): the coefficient and the index of the constant function 1. -/
def one : ℝ × Nat := (1, 0)

/-! ## Gauss rules -/

/-- The Jacobi matrix (random_variable.py l.268-276, orthonormal_polynomials.py l.255-261). -/
def jacobi (a b : List ℝ) (n : Nat) : Matrix (Fin n) (Fin n) ℝ := fun i j =>
  (if i = j then at' a i else 0)
    + (if (i : Nat) = j + 1 then Real.sqrt (at' b i) else 0)
    + (if (j : Nat) = i + 1 then Real.sqrt (at' b j) else 0)

/-- `np.linalg.eig`: eigenvalues and eigenvectors (the columns of the second result). -/
abbrev Eig := (n : Nat) → Matrix (Fin n) (Fin n) ℝ → (Fin n → ℝ) × Matrix (Fin n) (Fin n) ℝ

/-- `np.argsort(v)`: the positions in increasing order of the values. -/
def argsort {n : Nat} (v : Fin n → ℝ) : List (Fin n) :=
  (List.finRange n).insertionSort (fun i j => v i ≤ v j)

/-- `np.sort(v)`. -/
def npSort {n : Nat} (v : Fin n → ℝ) : List ℝ := ((List.finRange n).map v).insertionSort (· ≤ ·)

/-- `roots(deg)` (orthonormal_polynomials.py l.235-262). -/
def OrthPoly.roots (eig : Eig) (P : OrthPoly) (deg : Nat) : Py (List ℝ) := do
  let r ← P.recurrenceMonic (deg - 1)
  .ok (npSort (eig deg (jacobi r.1.1 r.1.2 deg)).1)

/-- The weight `eig_vectors[0, k] ** 2 / np.sqrt(np.sum(eig_vectors ** 2, 0))[k]` (random_variable.py l.285). -/
def weight {n : Nat} (V : Matrix (Fin n) (Fin n) ℝ) (k : Fin n) : ℝ :=
  (if h : 0 < n then V ⟨0, h⟩ k else 0) ^ 2 / Real.sqrt (((List.finRange n).map (fun i => V i k ^ 2)).sum)

/-- `RandomVariable.gauss_integration_rule(nb_pts)` (random_variable.py l.241-289) for the orthonormal polynomials `P`,
shifted by `shift` and scaled by `scaling` when they are `ShiftedOrthonormalPolynomials`. -/
def gaussRule (eig : Eig) (P : OrthPoly) (shifted : Option (ℝ × ℝ)) (nbPts : Nat) : Py (Rule ℝ ℝ) := do
  let r ← P.recurrenceMonic (nbPts - 1)
  let e := eig nbPts (jacobi r.1.1 r.1.2 nbPts)
  let points := npSort e.1
  let weights := (argsort e.1).map (weight e.2)
  match shifted with
  | none => .ok ⟨points, weights⟩
  | some (shift, scaling) => .ok ⟨points.map (fun x => shift + scaling * x), weights⟩

/-! ## Measures -/

/-- The measures with a density that the library provides: `UniformRandomVariable(inf, sup)`,
`NormalRandomVariable(mu, sigma)` and `LebesgueMeasure(a, b)`. -/
inductive Meas where
  | uniform (inf sup : ℝ)
  | normal (mu sigma : ℝ)
  | lebesgue (a b : ℝ)

/-- `mass()` (probability_measure.py l.15-17, lebesgue_measure.py l.143-153). -/
def Meas.mass : Meas → ℝ
  | .uniform _ _ => 1
  | .normal _ _ => 1
  | .lebesgue a b => b - a

/-- `shift(bias, scaling)` (uniform_random_variable.py l.125-149, normal_random_variable.py l.124-148,
lebesgue_measure.py l.69-86). -/
def Meas.shift : Meas → ℝ → ℝ → Meas
  | .uniform inf sup, m, s => .uniform (s * inf + m) (s * sup + m)
  | .normal mu sigma, m, s => .normal (mu + m) (sigma * s)
  | .lebesgue a b, m, s => .lebesgue (a * s + m) (b * s + m)

/-- The families of polynomials associated with these measures. -/
inductive Family where
  | hermite | legendre | legendreLebesgue

/-- The methods of the family. -/
def Family.poly : Family → OrthPoly
  | .hermite => Polynomials.hermite
  | .legendre => Polynomials.legendre
  | .legendreLebesgue => Polynomials.legendreLebesgue

/-- The attribute `measure` of the family (orthonormal_polynomials.py l.456, l.507, l.566). -/
def Family.measure : Family → Meas
  | .hermite => .normal 0 1
  | .legendre => .uniform (-1) 1
  | .legendreLebesgue => .lebesgue (-1) 1

/-- `OrthonormalPolynomials` or `ShiftedOrthonormalPolynomials` (orthonormal_polynomials.py l.265-303). -/
structure Shifted where
  family : Family
  shifted : Option (ℝ × ℝ)

open Classical in
/-- `orthonormal_polynomials()` (uniform_random_variable.py l.176-188, normal_random_variable.py l.177-187,
lebesgue_measure.py l.178-190). -/
def Meas.orthonormalPolynomials : Meas → Shifted
  | .uniform inf sup => ⟨.legendre, if inf = -1 ∧ sup = 1 then none else some ((inf + sup) / 2, (sup - inf) / 2)⟩
  | .normal mu sigma => ⟨.hermite, if mu = 0 ∧ sigma = 1 then none else some (mu, sigma)⟩
  | .lebesgue a b => ⟨.legendreLebesgue, if a = -1 ∧ b = 1 then none else some ((a + b) / 2, (b - a) / 2)⟩

/-- `measure` (orthonormal_polynomials.py l.300). -/
def Shifted.measure (p : Shifted) : Meas :=
  match p.shifted with
  | none => p.family.measure
  | some (m, s) => p.family.measure.shift m s

/-- `polyval(ind, x)` (orthonormal_polynomials.py l.143-161 and, for shifted polynomials, l.364-366). -/
def Shifted.polyval (p : Shifted) (ind : List Nat) (x : ℝ) : Py (List ℝ) :=
  match p.shifted with
  | none => p.family.poly.polyval ind x
  | some (m, s) => p.family.poly.polyval ind ((x - m) / s)

/-- `dn_polyval(n, ind, x)` (orthonormal_polynomials.py l.166-191 and, for shifted polynomials, l.372-374). -/
def Shifted.dnPolyval (p : Shifted) (n : Nat) (ind : List Nat) (x : ℝ) : Py (List ℝ) :=
  match p.shifted with
  | none => p.family.poly.dnPolyval n ind x
  | some (m, s) => do
    let out ← p.family.poly.dnPolyval n ind ((x - m) / s)
    .ok (out.map (fun v => v / s ^ n))

/-- `d_polyval(ind, x)` (orthonormal_polynomials.py l.163-164 and, for shifted polynomials, l.368-370). -/
def Shifted.dPolyval (p : Shifted) (ind : List Nat) (x : ℝ) : Py (List ℝ) :=
  match p.shifted with
  | none => p.family.poly.dPolyval ind x
  | some (m, s) => do
    let out ← p.family.poly.dPolyval ind ((x - m) / s)
    .ok (out.map (fun v => v / s))

/-- `roots(n)` (orthonormal_polynomials.py l.235-262 and, for shifted polynomials, l.405-421). -/
def Shifted.roots (eig : Eig) (p : Shifted) (n : Nat) : Py (List ℝ) :=
  match p.shifted with
  | none => p.family.poly.roots eig n
  | some (m, s) => do
    let r ← p.family.poly.roots eig n
    .ok (r.map (fun x => m + s * x))

/-- `gauss_integration_rule(nb_pts)` (random_variable.py l.241-289; for the Lebesgue measure, lebesgue_measure.py
l.155-176). -/
def Meas.gauss (eig : Eig) : Meas → Nat → Py (Rule ℝ ℝ)
  | .lebesgue a b, n => do
    let p := (Meas.uniform a b).orthonormalPolynomials
    let r ← gaussRule eig p.family.poly p.shifted n
    .ok ⟨r.points, r.weights.map (fun w => w * (b - a))⟩
  | μ, n =>
    let p := μ.orthonormalPolynomials
    gaussRule eig p.family.poly p.shifted n

/-- `RandomVariable.moment(ind)` (random_variable.py l.365-403) for a random variable without stored moments. -/
def Meas.moment (eig : Eig) (μ : Meas) (ind : List Nat) : Py (List ℝ) := do
  let m ← npMax ind
  let G ← μ.gauss eig ((m + 1 + 1) / 2)
  ind.mapM (fun i => G.integrate (fun x => x ^ i))

/-- `RandomVariable.moment(ind)` (random_variable.py l.365-403) for a discrete random variable without stored moments, of
orthonormal polynomials `P` (discrete_random_variable.py l.170-178). -/
def OrthPoly.rvMoment (eig : Eig) (P : OrthPoly) (ind : List Nat) : Py (List ℝ) := do
  let m ← npMax ind
  let G ← gaussRule eig P none ((m + 1 + 1) / 2)
  ind.mapM (fun i => G.integrate (fun x => x ^ i))

/-! ## Moments of polynomials -/

/-- `G.integrate(poly)` for `poly` the product of the polynomials of indices `row` (polynomials.py l.227-235). -/
def integrateRow (polyval : List Nat → ℝ → Py (List ℝ)) (G : Rule ℝ ℝ) (row : List Nat) : Py ℝ := do
  let vals ← G.points.mapM (fun x => do
    let v ← row.mapM (fun i => polyval [i] x)
    .ok ((v.map (fun l => at' l 0)).prod))
  if vals.length ≠ G.weights.length then .error .valueError
  else .ok (List.zipWith (fun v w => v * w) vals G.weights).sum

/-- `UnivariatePolynomials.moment(ind, measure)` (polynomials.py l.187-236): `ind` is the list of the rows, and
`int(np.ceil((max_deg + 1) / 2))` is `(max_deg + 2) / 2`. -/
def momentGauss (eig : Eig) (polyval : List Nat → ℝ → Py (List ℝ)) (ind : List (List Nat)) (ν : Meas) : Py (List ℝ) := do
  let maxDeg ← npMax (ind.map List.sum)
  let G ← ν.gauss eig ((maxDeg + 1 + 1) / 2)
  ind.mapM (integrateRow polyval G)

open Classical in
/-- `OrthonormalPolynomials.moment(ind, measure)` (orthonormal_polynomials.py l.104-117); `w` is the number of columns of
`ind`. -/
def Family.moment (eig : Eig) (p : Family) (w : Nat) (ind : List (List Nat)) (ν : Option Meas) : Py (List ℝ) :=
  if (w = 1 ∨ w = 2) ∧ (ν = none ∨ ν = some p.measure) then
    if w = 1 then .ok (moment1 (ind.map (fun r => r.getD 0 0)))
    else .ok (moment2 (ind.map (fun r => (r.getD 0 0, r.getD 1 0))))
  else momentGauss eig p.poly.polyval ind (ν.getD p.measure)

open Classical in
/-- `moment(ind, measure)` (orthonormal_polynomials.py l.104-117 and, for shifted polynomials, l.354-362). -/
def Shifted.moment (eig : Eig) (p : Shifted) (w : Nat) (ind : List (List Nat)) (ν : Option Meas) : Py (List ℝ) :=
  match p.shifted with
  | none => p.family.moment eig w ind ν
  | some (m, s) =>
    match ν with
    | none => p.family.moment eig w ind none
    | some ν =>
      if ν = p.measure then p.family.moment eig w ind none
      else p.family.moment eig w ind (some (ν.shift (-m / s) (1 / s)))

/-- `UnivariatePolynomials.mean(ind, measure)` (polynomials.py l.160-185). -/
def Family.mean (eig : Eig) (p : Family) (ind : List Nat) (ν : Option Meas) : Py (List ℝ) := do
  let out ← p.moment eig 1 (ind.map (fun i => [i])) ν
  .ok (out.map (fun v => v / (ν.getD p.measure).mass))

/-- `mean(ind, measure)` (polynomials.py l.160-185; for shifted polynomials, orthonormal_polynomials.py l.351-352 passes the
measure unchanged to the polynomials). -/
def Shifted.mean (eig : Eig) (p : Shifted) (ind : List Nat) (ν : Option Meas) : Py (List ℝ) :=
  p.family.mean eig ind ν

end

end Verif.Polynomials
