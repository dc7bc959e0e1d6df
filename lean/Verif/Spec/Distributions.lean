import Verif.Model.Distributions
import Mathlib.Probability.Distributions.Gaussian.Real
import Mathlib.MeasureTheory.Constructions.Pi

/-!
# Specification: the laws

The law of a random variable is a measure of Mathlib, defined without reference to the model of `pdf`, `cdf` or `icdf`.
-/

namespace Verif.Distributions

open MeasureTheory ProbabilityTheory

noncomputable section

/-- The uniform law on `[a, b]`: the length divided by `b - a`; the normal law with mean `m` and standard deviation `s`. -/
def RVar.law : RVar → Measure ℝ
  | .uniform a b => ENNReal.ofReal (1 / (b - a)) • volume.restrict (Set.Icc a b)
  | .normal m s => gaussianReal m (s ^ 2).toNNReal

/-- The parameters are those of a distribution: an interval, a positive standard deviation. -/
def RVar.Proper : RVar → Prop
  | .uniform a b => a < b
  | .normal _ s => 0 < s

/-- `scipy.special.ndtri` inverts the distribution function of the standard normal law. -/
def NdtriOk (ndtri : ℝ → ℝ) : Prop := ∀ q, 0 < q → q < 1 → (gaussianReal 0 1).real (Set.Iic (ndtri q)) = q

/-- The probability that `X ≤ t`, for a finite or infinite `t`. -/
def RVar.prob (X : RVar) (t : EReal) : ℝ := X.law.real {x : ℝ | (x : EReal) ≤ t}

/-- The law of a random vector with independent components. -/
def lawPi {d : ℕ} (X : Fin d → RVar) : Measure (Fin d → ℝ) := Measure.pi (fun i => (X i).law)

end

end Verif.Distributions
