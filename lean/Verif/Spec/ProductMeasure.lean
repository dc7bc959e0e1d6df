import Verif.Spec.Polynomials
import Mathlib.MeasureTheory.Constructions.Pi

/-!
# Specification: the measures as measures of Mathlib
-/

namespace Verif.ProductMeasure

open MeasureTheory ProbabilityTheory Verif.Polynomials

noncomputable section

/-- The uniform law on `[a, b]`, the normal law with mean `m` and standard deviation `s`, the length on `[a, b]`. -/
def law : Meas → Measure ℝ
  | .uniform a b => ENNReal.ofReal (1 / (b - a)) • volume.restrict (Set.Icc a b)
  | .normal m s => gaussianReal m (s ^ 2).toNNReal
  | .lebesgue a b => volume.restrict (Set.Icc a b)

/-- The product measure. -/
def lawPi {d : ℕ} (μ : Fin d → Meas) : Measure (Fin d → ℝ) := Measure.pi (fun i => law (μ i))

end

end Verif.ProductMeasure
