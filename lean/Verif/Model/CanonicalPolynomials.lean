import Verif.Model.Polynomials

/-!
# Model of `UnivariatePolynomials` and `CanonicalPolynomials` (polynomials.py)

`pc` is the method `poly_coeff`, that gives one row of coefficients per index. The evaluations are modelled for one point.
-/

namespace Verif.Polynomials

noncomputable section

/-- `np.polyval(c, x)`: the coefficient of the highest degree is the first. -/
def npPolyval (c : List ℝ) (x : ℝ) : ℝ := c.foldl (fun y a => y * x + a) 0

/-- `UnivariatePolynomials.polyval(ind, x)` (polynomials.py l.33-56). -/
def genPolyval (pc : List Nat → Py (List (List ℝ))) (ind : List Nat) (x : ℝ) : Py (List ℝ) := do
  let m ← npMax ind
  let coef ← pc (List.range (m + 1))
  let out := coef.map (fun row => npPolyval row.reverse x)
  .ok (ind.map (at' out))

/-- `UnivariatePolynomials.d_poly_coef(ind)` (polynomials.py l.58-77). -/
def dPolyCoef (pc : List Nat → Py (List (List ℝ))) (ind : List Nat) : Py (List (List ℝ)) := do
  let c ← pc ind
  let m ← npMax ind
  .ok (c.map (fun row => List.zipWith (fun a b => a * b) row.tail ((List.range' 1 m).map (fun j : Nat => (j : ℝ)))))

/-- The products `(j + 1) ⋯ (j + n)` for `j ≤ m - n` (polynomials.py l.98-104). -/
def derivFactors (n m : Nat) : List ℝ :=
  (List.range (m + 1 - n)).map (fun j => ((List.range' 1 n).map (fun k : Nat => ((j + k : Nat) : ℝ))).prod)

/-- `UnivariatePolynomials.dn_poly_coeff(n, ind)` (polynomials.py l.79-108): a matrix, or a vector of zeros when `n` is the maximal degree
plus one. For larger `n`, `np.tile` with a negative number of copies raises `ValueError`. -/
def dnPolyCoeff (pc : List Nat → Py (List (List ℝ))) (n : Nat) (ind : List Nat) : Py (List (List ℝ) ⊕ List ℝ) := do
  let m ← npMax ind
  if m + 1 < n then .error .valueError
  else
    let c ← pc ind
    let coef := c.map (fun row => List.zipWith (fun a b => a * b) (row.drop n) (derivFactors n m))
    if m + 1 = n then .ok (.inr (List.replicate ind.length 0)) else .ok (.inl coef)

/-- The evaluation in `dn_polyval` (polynomials.py l.152-158): `np.fliplr` refuses a vector. -/
def dnEval (ind : List Nat) (x : ℝ) : List (List ℝ) ⊕ List ℝ → Py (List ℝ)
  | .inr _ => .error .valueError
  | .inl coef => .ok (ind.map (at' (coef.map (fun row => npPolyval row.reverse x))))

/-- `UnivariatePolynomials.dn_polyval(n, ind, x)` (polynomials.py l.132-158). -/
def genDnPolyval (pc : List Nat → Py (List (List ℝ))) (n : Nat) (ind : List Nat) (x : ℝ) : Py (List ℝ) := do
  let m ← npMax ind
  let c ← dnPolyCoeff pc n (List.range (m + 1))
  dnEval ind x c

/-- `CanonicalPolynomials.poly_coeff(ind)` (polynomials.py l.327-328): rows of the identity matrix. -/
def canonicalCoeff (ind : List Nat) : Py (List (List ℝ)) := do
  let m ← npMax ind
  .ok (ind.map (fun i => (List.range (m + 1)).map (fun j => if i = j then 1 else 0)))

/-- `CanonicalPolynomials.d_polyval(ind, x)` (polynomials.py l.330-336). -/
def canonicalDPolyval (ind : List Nat) (x : ℝ) : List ℝ :=
  ind.map (fun i : Nat => if i ≠ 0 then x ^ (i - 1) * (i : ℝ) else 0)

/-- `CanonicalPolynomials(measure).moment(ind, ν)` (polynomials.py l.187-236), with `measure` of the polynomials `own`: `None` has no method
`gauss_integration_rule`. -/
def canonicalMoment (eig : Eig) (own : Option Meas) (ind : List (List Nat)) (ν : Option Meas) : Py (List ℝ) :=
  match ν <|> own with
  | none => (npMax (ind.map List.sum)).bind (fun _ => .error .attributeError)
  | some μ => momentGauss eig (genPolyval canonicalCoeff) ind μ

/-- `CanonicalPolynomials(measure).mean(ind, ν)` (polynomials.py l.160-185). -/
def canonicalMean (eig : Eig) (own : Option Meas) (ind : List Nat) (ν : Option Meas) : Py (List ℝ) :=
  match ν <|> own with
  | none => .error .assertionError
  | some μ => do
    let out ← canonicalMoment eig own (ind.map (fun i => [i])) ν
    .ok (out.map (fun v => v / μ.mass))

end

end Verif.Polynomials
