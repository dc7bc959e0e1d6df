import Verif.Np
import Verif.Model.Polynomials
import Mathlib.MeasureTheory.Integral.Bochner.Set
import Mathlib.MeasureTheory.Measure.Lebesgue.Basic
import Mathlib.Data.EReal.Basic

/-!
# Model of the probability distributions

`UniformRandomVariable`, `NormalRandomVariable`, the generic methods of `RandomVariable` and `RandomVector` with an
independent copula (`tensap/functions/measures`). The functions of `scipy.stats` (`uniform`, `norm`, with their arguments
`loc` and `scale`) are modelled by the formulas of their documentation, on the real numbers. `none` is `nan`, and infinite
values are those of `EReal`. Random generation is not modelled.
-/

namespace Verif.Distributions

noncomputable section

/-- `UniformRandomVariable(inf, sup)` (uniform_random_variable.py l.45-66) and `NormalRandomVariable(mu, sigma)`
(normal_random_variable.py l.43-63). -/
inductive RVar where
  | uniform (inf sup : ℝ)
  | normal (mu sigma : ℝ)

/-- The same object as an element of `Verif.Polynomials.Meas`, where the orthonormal polynomials and the Gauss rules are
modelled (uniform_random_variable.py l.28, normal_random_variable.py l.28). -/
def RVar.meas : RVar → Polynomials.Meas
  | .uniform a b => .uniform a b
  | .normal m s => .normal m s

open Classical in
/-- `scipy.stats.uniform.pdf(x, loc, scale)` (called in uniform_random_variable.py l.123). -/
def uniformPdf (x loc scale : ℝ) : ℝ := if 0 ≤ (x - loc) / scale ∧ (x - loc) / scale ≤ 1 then 1 / scale else 0

open Classical in
/-- `scipy.stats.uniform.cdf(x, loc, scale)` (called in uniform_random_variable.py l.87). -/
def uniformCdf (x loc scale : ℝ) : ℝ :=
  if (x - loc) / scale ≤ 0 then 0 else if 1 ≤ (x - loc) / scale then 1 else (x - loc) / scale

open Classical in
/-- `scipy.stats.uniform.ppf(q, loc, scale)` (called in uniform_random_variable.py l.105). -/
def uniformPpf (q loc scale : ℝ) : Option EReal :=
  if 0 ≤ q ∧ q ≤ 1 then some ((q * scale + loc : ℝ) : EReal) else none

/-- `scipy.stats.norm.pdf(x, loc, scale)` (called in normal_random_variable.py l.122). -/
def normPdf (x loc scale : ℝ) : ℝ := Real.exp (-((x - loc) / scale) ^ 2 / 2) / Real.sqrt (2 * Real.pi) / scale

/-- `scipy.special.ndtr`: the distribution function of the standard normal law. -/
def ndtr (z : ℝ) : ℝ := ∫ t in Set.Iic z, Real.exp (-t ^ 2 / 2) / Real.sqrt (2 * Real.pi)

/-- `scipy.stats.norm.cdf(x, loc, scale)` (called in normal_random_variable.py l.86). -/
def normCdf (x loc scale : ℝ) : ℝ := ndtr ((x - loc) / scale)

open Classical in
/-- `scipy.stats.norm.ppf(q, loc, scale)` (called in normal_random_variable.py l.104); `ndtri` is `scipy.special.ndtri` on
the open interval. -/
def normPpf (ndtri : ℝ → ℝ) (q loc scale : ℝ) : Option EReal :=
  if q = 0 then some ⊥ else if q = 1 then some ⊤
  else if 0 < q ∧ q < 1 then some ((ndtri q * scale + loc : ℝ) : EReal) else none

/-- `pdf(x)` (uniform_random_variable.py l.107-123, normal_random_variable.py l.106-122). -/
def RVar.pdf : RVar → ℝ → ℝ
  | .uniform inf sup, x => uniformPdf x inf (sup - inf)
  | .normal mu sigma, x => normPdf x mu sigma

/-- `cdf(x)` (uniform_random_variable.py l.71-87, normal_random_variable.py l.70-86). -/
def RVar.cdf : RVar → ℝ → ℝ
  | .uniform inf sup, x => uniformCdf x inf (sup - inf)
  | .normal mu sigma, x => normCdf x mu sigma

/-- `icdf(x)` (uniform_random_variable.py l.89-105, normal_random_variable.py l.88-104). -/
def RVar.icdf (ndtri : ℝ → ℝ) : RVar → ℝ → Option EReal
  | .uniform inf sup, q => uniformPpf q inf (sup - inf)
  | .normal mu sigma, q => normPpf ndtri q mu sigma

/-- `random_variable_statistics()` (uniform_random_variable.py l.204-205, normal_random_variable.py l.203-204). -/
def RVar.statistics : RVar → ℝ × ℝ
  | .uniform inf sup => ((inf + sup) / 2, (sup - inf) ^ 2 / 12)
  | .normal mu sigma => (mu, sigma ^ 2)

/-- `mean()` (random_variable.py l.402-412). -/
def RVar.mean (X : RVar) : ℝ := X.statistics.1

/-- `variance()` (random_variable.py l.426-436). -/
def RVar.variance (X : RVar) : ℝ := X.statistics.2

/-- `std()` (random_variable.py l.414-424). -/
def RVar.std (X : RVar) : ℝ := Real.sqrt X.statistics.2

/-- `support()` (uniform_random_variable.py l.164-174, normal_random_variable.py l.164-175), whose ends are `min()` and
`max()` (random_variable.py l.334-360). -/
def RVar.support : RVar → EReal × EReal
  | .uniform inf sup => ((inf : EReal), (sup : EReal))
  | .normal _ _ => (⊥, ⊤)

/-- `transfer(Y, x)` (random_variable.py l.438-459). -/
def transfer (ndtri : ℝ → ℝ) (X Y : RVar) (x : ℝ) : Option EReal := Y.icdf ndtri (X.cdf x)

/-- `np.linspace(a, b, num)` for `num > 1`. -/
def linspace (a b : ℝ) (num : Nat) : List ℝ := (List.range num).map (fun i : Nat => a + (i : ℝ) * ((b - a) / ((num : ℝ) - 1)))

/-- The inner points of `iso_probabilistic_grid(n)` (random_variable.py l.170-175). `none` stands for a list with a
`nan`. -/
def isoInner (ndtri : ℝ → ℝ) (X : RVar) (n : Nat) : Option (List EReal) :=
  if n = 1 then some []
  else if n = 2 then (X.icdf ndtri 0.5).map (fun g => [g])
  else (linspace (1 / (n : ℝ)) (1 - 1 / (n : ℝ)) (n - 1)).mapM (X.icdf ndtri)

/-- `iso_probabilistic_grid(n)` (random_variable.py l.150-176) for an integer `n > 0`. -/
def isoGrid (ndtri : ℝ → ℝ) (X : RVar) (n : Nat) : Option (List EReal) :=
  (isoInner ndtri X n).map (fun g => min X.support.1 X.support.2 :: (g ++ [max X.support.1 X.support.2]))

/-- `iso_probabilistic_grid(n)` (random_variable.py l.167-168) for `0 < n < 1`, the probability of a cell. -/
def isoGridFrac (ndtri : ℝ → ℝ) (X : RVar) (p : ℝ) : Option (List EReal) := isoGrid ndtri X ⌈1 / p⌉₊

/-! ### random vectors -/

/-- The column `i` of a point: `x[:, i]`. -/
def entry (x : List ℝ) (i : Nat) : Py ℝ :=
  match x[i]? with
  | none => .error .indexError
  | some t => .ok t

/-- The loops of `pdf` and `cdf` (random_vector.py l.224-226, l.258-260): an array of zeros with one column for each
column of `x`, whose first columns are filled; here for one point. -/
def marginals (g : RVar → ℝ → ℝ) (Xs : List RVar) (x : List ℝ) : Py (List ℝ) := do
  let p ← Xs.zipIdx.mapM (fun Xi => do .ok (g Xi.1 (← entry x Xi.2)))
  .ok (p ++ List.replicate (x.length - Xs.length) 0)

/-- `RandomVector.pdf(x)` (random_vector.py l.203-235) with an `IndependentCopula`, at one point. -/
def vecPdf (Xs : List RVar) (x : List ℝ) : Py ℝ := do .ok (← marginals RVar.pdf Xs x).prod

/-- `RandomVector.cdf(x)` (random_vector.py l.237-261) with an `IndependentCopula` (copulas.py l.30-35), at one point. -/
def vecCdf (Xs : List RVar) (x : List ℝ) : Py ℝ := do .ok (← marginals RVar.cdf Xs x).prod

/-- `RandomVector.transfer(Y, x)` (random_vector.py l.330-363), at one point. -/
def vecTransfer (ndtri : ℝ → ℝ) (Xs Ys : List RVar) (x : List ℝ) : Py (List (Option EReal)) :=
  if Xs.length ≠ Ys.length then .error .assertionError
  else (Xs.zip Ys).zipIdx.mapM (fun p => do .ok (transfer ndtri p.1.1 p.1.2 (← entry x p.2)))

/-- `RandomVector.mean()` (random_vector.py l.294-304). -/
def vecMean (Xs : List RVar) : List ℝ := Xs.map RVar.mean

/-- `RandomVector.variance()` (random_vector.py l.318-328). -/
def vecVariance (Xs : List RVar) : List ℝ := Xs.map RVar.variance

/-- The numbers of cells in `RandomVector.iso_probabilistic_grid(n)` (random_vector.py l.170-171): `np.full(d, n)` takes a
list of one number, and raises for any other wrong length. -/
def cells (d : Nat) (n : List Nat) : Py (List Nat) :=
  if n.length = d then .ok n
  else match n with
    | [m] => .ok (List.replicate d m)
    | _ => .error .valueError

/-- `RandomVector.iso_probabilistic_grid(n)` (random_vector.py l.143-174) for integers: the grids handed to
`FullTensorGrid`. -/
def vecIsoGrid (ndtri : ℝ → ℝ) (Xs : List RVar) (n : List Nat) : Py (List (Option (List EReal))) := do
  let n ← cells Xs.length n
  .ok (List.zipWith (isoGrid ndtri) Xs n)

/-- The number of cells in each direction for a probability `p < 1` of the cells (random_vector.py l.167-168). -/
def cellsOfFrac (d : Nat) (p : ℝ) : Nat := ⌈p ^ (-1 / (d : ℝ))⌉₊

/-- `RandomVector.iso_probabilistic_grid(p)` (random_vector.py l.143-174) for `0 < p < 1`. -/
def vecIsoGridFrac (ndtri : ℝ → ℝ) (Xs : List RVar) (p : ℝ) : Py (List (Option (List EReal))) :=
  vecIsoGrid ndtri Xs [cellsOfFrac Xs.length p]

end

end Verif.Distributions
