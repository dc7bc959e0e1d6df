import Mathlib.Analysis.Real.Sqrt
import Mathlib.LinearAlgebra.Matrix.NonsingularInverse
import Mathlib.LinearAlgebra.Matrix.Trace

/-!
# Specification of linear regression and of cross-validation

`A i p` is the value of feature `p` on sample `i`, `y i` the observation.
-/

namespace Verif.LeastSquares

open Finset

variable {N P : Nat}

/-- The residual of sample `i` for the coefficients `β`. -/
def residual (A : Matrix (Fin N) (Fin P) ℝ) (y : Fin N → ℝ) (β : Fin P → ℝ) (i : Fin N) : ℝ :=
  y i - ∑ p, A i p * β p

/-- The sum of the squared residuals over the samples in `s`. -/
def rss (A : Matrix (Fin N) (Fin P) ℝ) (y : Fin N → ℝ) (s : Finset (Fin N)) (β : Fin P → ℝ) : ℝ :=
  ∑ i ∈ s, residual A y β i ^ 2

/-- `β` only uses the features in `S` and fits the samples in `s` in the least-squares sense, among the coefficients
that only use these features. -/
def IsFit (A : Matrix (Fin N) (Fin P) ℝ) (y : Fin N → ℝ) (s : Finset (Fin N)) (S : Finset (Fin P)) (β : Fin P → ℝ) : Prop :=
  (∀ p, p ∉ S → β p = 0) ∧ ∀ γ : Fin P → ℝ, (∀ p, p ∉ S → γ p = 0) → rss A y s β ≤ rss A y s γ

/-- The samples in `s` determine the coefficients of the features in `S`. -/
def Determined (A : Matrix (Fin N) (Fin P) ℝ) (s : Finset (Fin N)) (S : Finset (Fin P)) : Prop :=
  ∀ v : Fin P → ℝ, (∀ p, p ∉ S → v p = 0) → (∀ i ∈ s, ∑ p, A i p * v p = 0) → v = 0

/-- The mean of the squares of the observations. -/
noncomputable def meanSq (y : Fin N → ℝ) : ℝ := (∑ i, y i ^ 2) / N

/-- The Gram matrix of the features in `S`. -/
def gram (A : Matrix (Fin N) (Fin P) ℝ) (S : Finset (Fin P)) : Matrix S S ℝ :=
  fun p q => ∑ i, A i p * A i q

/-- The correction of the cross-validation error of a model with the features in `S`:
`N / (N - |S|) * (1 + trace (gram⁻¹))`. -/
noncomputable def corrFactor (A : Matrix (Fin N) (Fin P) ℝ) (S : Finset (Fin P)) : ℝ :=
  (N : ℝ) / ((N : ℝ) - (S.card : ℝ)) * (1 + (gram A S)⁻¹.trace)

/-- `d i` is the prediction residual of sample `i` for the model with features `S` fitted without sample `i`. -/
def IsLoo (A : Matrix (Fin N) (Fin P) ℝ) (y : Fin N → ℝ) (S : Finset (Fin P)) (d : Fin N → ℝ) : Prop :=
  ∀ i, ∃ β, IsFit A y (univ.erase i) S β ∧ d i = residual A y β i

/-- `d i` is the prediction residual of sample `i` for the model with features `S` fitted without the samples of its fold. -/
def IsFoldRes (A : Matrix (Fin N) (Fin P) ℝ) (y : Fin N → ℝ) (S : Finset (Fin P)) (folds : List (List (Fin N)))
    (d : Fin N → ℝ) : Prop :=
  ∀ t ∈ folds, ∃ β, IsFit A y (t.toFinset)ᶜ S β ∧ ∀ i ∈ t, d i = residual A y β i

/-- The average over the folds of the mean of the squares of `d` in the fold. -/
noncomputable def foldMean (folds : List (List (Fin N))) (d : Fin N → ℝ) : ℝ :=
  (folds.map (fun t => (t.map (fun i => d i ^ 2)).sum / (t.length : ℝ))).sum / (folds.length : ℝ)

/-- The relative error of a model with features `S`, from the mean squared prediction residual, with or without correction. -/
noncomputable def relError (A : Matrix (Fin N) (Fin P) ℝ) (y : Fin N → ℝ) (S : Finset (Fin P)) (corrected : Bool) (msq : ℝ) : ℝ :=
  Real.sqrt (msq / meanSq y * if corrected then corrFactor A S else 1)

end Verif.LeastSquares
