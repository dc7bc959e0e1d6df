import Verif.Model.Empirical
import Mathlib.Probability.Distributions.Gaussian.Real

/-!
# Specification: the law of an empirical random variable
-/

namespace Verif.Empirical

open MeasureTheory ProbabilityTheory

noncomputable section

/-- The mixture, with equal weights, of the normal laws centred at the points of the sample with standard deviation `h`. -/
def mixture (xs : List ℝ) (h : ℝ) : Measure ℝ :=
  (xs.length : ENNReal)⁻¹ • ∑ i : Fin xs.length, gaussianReal xs[(i : ℕ)] (h ^ 2).toNNReal

/-- The law of the variable: the estimator with Gaussian kernels of standard deviation `bandwidth`. -/
def law (xs : List ℝ) : Measure ℝ := mixture xs (bandwidth xs)

/-- The sample has two different values. -/
def Varied (xs : List ℝ) : Prop := ∃ x ∈ xs, ∃ y ∈ xs, x ≠ y

/-- The tests of `orthonormal_polynomials` on the mean and on the standard deviation are those of exact arithmetic: they are
standard, or differ from the standard ones by more than the machine precision. -/
def Resolved (xs : List ℝ) : Prop := (npMean xs = 0 ∧ npStd xs = 1) ∨ eps < |npMean xs| ∨ eps < |npStd xs - 1|

end

end Verif.Empirical
