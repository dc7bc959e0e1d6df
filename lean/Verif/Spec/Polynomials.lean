import Verif.Model.Polynomials
import Mathlib.Probability.Distributions.Gaussian.Real
import Mathlib.MeasureTheory.Integral.IntervalIntegral.Basic
import Mathlib.LinearAlgebra.Matrix.Determinant.Basic
import Mathlib.Algebra.Polynomial.Eval.Degree

/-!
# Specification: integrals, eigenvectors
-/

namespace Verif.Polynomials

open MeasureTheory ProbabilityTheory

noncomputable section

/-- The integral of `f` for a measure: the mean for a random variable. -/
def Meas.E : Meas → (ℝ → ℝ) → ℝ
  | .uniform a b, f => (∫ x in a..b, f x) / (b - a)
  | .normal mu sigma, f => ∫ x, f x ∂(gaussianReal mu (sigma ^ 2).toNNReal)
  | .lebesgue a b, f => ∫ x in a..b, f x

/-- The parameters are those of a measure: an interval, a positive standard deviation. -/
def Meas.Proper : Meas → Prop
  | .uniform a b => a < b
  | .normal _ sigma => 0 < sigma
  | .lebesgue a b => a < b

/-- The probability measures. -/
def Meas.IsProba : Meas → Prop
  | .uniform _ _ => True
  | .normal _ _ => True
  | .lebesgue _ _ => False

/-- Eigenvalues of `J`, and linearly independent unit eigenvectors in the columns of `V`. -/
structure IsEig {n : ℕ} (J : Matrix (Fin n) (Fin n) ℝ) (lam : Fin n → ℝ) (V : Matrix (Fin n) (Fin n) ℝ) : Prop where
  eq : ∀ i k, ∑ j, J i j * V j k = lam k * V i k
  unit : ∀ k, ∑ i, V i k ^ 2 = 1
  det : V.det ≠ 0

/-- `np.linalg.eig` is correct on symmetric matrices (it normalises the eigenvectors). -/
def EigOk (eig : Eig) : Prop :=
  ∀ (n : ℕ) (J : Matrix (Fin n) (Fin n) ℝ), (∀ i j, J i j = J j i) → IsEig J (eig n J).1 (eig n J).2

/-- `q i` is the polynomial number `i` of the family associated with the measure: the one whose values `polyval` returns. -/
def Evaluates (μ : Meas) (q : ℕ → Polynomial ℝ) : Prop :=
  ∀ (ind : List ℕ), ind ≠ [] → ∀ x : ℝ,
    μ.orthonormalPolynomials.polyval ind x = .ok (ind.map (fun i => (q i).eval x))

/-- The polynomial function of coefficients `c[0]`, `c[1]`, ... -/
def evalCoeffs (c : List ℝ) (x : ℝ) : ℝ := ∑ j ∈ Finset.range c.length, c.getD j 0 * x ^ j

end

end Verif.Polynomials
