import Verif.Lemmas.Legendre
import Mathlib.Probability.Distributions.Gaussian.Real
import Mathlib.MeasureTheory.Integral.IntegralEqImproper

/-!
# The integral of the Hermite polynomials
-/

namespace Verif.Polynomials

open Polynomial MeasureTheory ProbabilityTheory

noncomputable section

/-- The standard normal density. -/
def phi (x : ℝ) : ℝ := gaussianPDFReal 0 1 x

theorem phi_eq (x : ℝ) : phi x = (Real.sqrt (2 * Real.pi))⁻¹ * Real.exp (-(1 / 2) * x ^ 2) := by
  unfold phi
  rw [gaussianPDFReal_def]
  simp only [NNReal.coe_one, mul_one, sub_zero]
  congr 2
  ring

theorem phi_deriv (x : ℝ) : HasDerivAt phi (-x * phi x) x := by
  have h : HasDerivAt (fun x : ℝ => (Real.sqrt (2 * Real.pi))⁻¹ * Real.exp (-(1 / 2) * x ^ 2))
      ((Real.sqrt (2 * Real.pi))⁻¹ * (Real.exp (-(1 / 2) * x ^ 2) * (-(1 / 2) * (2 * x)))) x := by
    have h1 : HasDerivAt (fun x : ℝ => -(1 / 2) * x ^ 2) (-(1 / 2) * (2 * x)) x := by
      have := (hasDerivAt_pow 2 x).const_mul (-(1 / 2) : ℝ)
      simpa using this
    exact h1.exp.const_mul _
  have e : phi = fun x : ℝ => (Real.sqrt (2 * Real.pi))⁻¹ * Real.exp (-(1 / 2) * x ^ 2) := funext phi_eq
  rw [e]
  convert h using 1
  ring

theorem integrable_poly_phi (q : ℝ[X]) : Integrable (fun x => q.eval x * phi x) := by
  have mono : ∀ n : ℕ, Integrable (fun x : ℝ => x ^ n * phi x) := by
    intro n
    have h := integrable_rpow_mul_exp_neg_mul_sq (b := 1 / 2) (by norm_num) (s := (n : ℝ))
      (by have : (0 : ℝ) ≤ n := by positivity
          linarith)
    have h' := h.const_mul (Real.sqrt (2 * Real.pi))⁻¹
    refine h'.congr (Filter.Eventually.of_forall (fun x => ?_))
    simp only [Real.rpow_natCast, phi_eq]
    ring
  induction q using Polynomial.induction_on' with
  | add p q hp hq =>
    simp only [eval_add, add_mul]
    exact hp.add hq
  | monomial n c =>
    simp only [eval_monomial, mul_assoc]
    exact (mono n).const_mul c

/-- The mean of a polynomial for the standard normal distribution. -/
def LN : ℝ[X] →ₗ[ℝ] ℝ where
  toFun q := ∫ x, q.eval x * phi x
  map_add' p q := by
    simp only [eval_add, add_mul]
    exact integral_add (integrable_poly_phi p) (integrable_poly_phi q)
  map_smul' c q := by
    simp only [eval_smul, smul_eq_mul, RingHom.id_apply, mul_assoc]
    exact integral_const_mul _ _

theorem LN_apply (q : ℝ[X]) : LN q = ∫ x, q.eval x * phi x := rfl

theorem LN_gaussian (q : ℝ[X]) : LN q = ∫ x, q.eval x ∂(gaussianReal 0 1) := by
  rw [LN_apply, integral_gaussianReal_eq_integral_smul one_ne_zero]
  simp only [smul_eq_mul, phi]
  congr 1
  ext x
  ring

theorem LN_one : LN 1 = 1 := by
  rw [LN_apply]
  simp only [eval_one, one_mul, phi]
  exact integral_gaussianPDFReal_eq_one 0 one_ne_zero

/-- Stein's identity. -/
theorem LN_stein (q : ℝ[X]) : LN (X * q - derivative q) = 0 := by
  have hd : ∀ x, HasDerivAt (fun x => q.eval x * phi x) ((derivative q - X * q).eval x * phi x) x := by
    intro x
    have h := (q.hasDerivAt x).mul (phi_deriv x)
    have e : (derivative q - X * q).eval x * phi x = (derivative q).eval x * phi x + q.eval x * (-x * phi x) := by
      simp only [eval_sub, eval_mul, eval_X]
      ring
    rw [e]
    exact h
  have h := integral_eq_zero_of_hasDerivAt_of_integrable hd (integrable_poly_phi _) (integrable_poly_phi _)
  have : LN (derivative q - X * q) = 0 := h
  rw [← neg_sub, map_neg, this, neg_zero]

/-- Monic Hermite polynomials. -/
def herm : ℕ → ℝ[X]
  | 0 => 1
  | 1 => X
  | n + 2 => X * herm (n + 1) - C ((n : ℝ) + 1) * herm n

theorem herm_derivative (n : ℕ) : derivative (herm (n + 1)) = C ((n : ℝ) + 1) * herm n := by
  induction n using Nat.strong_induction_on with
  | _ n ih =>
    match n, ih with
    | 0, _ => simp [herm]
    | 1, _ => simp [herm]; ring_nf
    | n + 2, ih =>
      have h1 := ih (n + 1) (by omega)
      have h0 := ih n (by omega)
      have e : herm (n + 2 + 1) = X * herm (n + 2) - C (((n + 1 : ℕ) : ℝ) + 1) * herm (n + 1) := rfl
      have e2 : herm (n + 2) = X * herm (n + 1) - C ((n : ℝ) + 1) * herm n := rfl
      have h1' : derivative (herm (n + 2)) = C (((n + 1 : ℕ) : ℝ) + 1) * herm (n + 1) := h1
      rw [e, derivative_sub, derivative_mul, derivative_C_mul, h1', h0, derivative_X, e2]
      push_cast
      simp only [map_add, map_one, C_two]
      ring

theorem LN_herm (n : ℕ) : LN (herm (n + 1)) = 0 := by
  match n with
  | 0 =>
    have := LN_stein 1
    simpa [herm] using this
  | n + 1 =>
    have h := LN_stein (herm (n + 1))
    rw [herm_derivative] at h
    exact h

theorem pp_herm (n : ℕ) : pp (fun _ => 0) (fun n => (n : ℝ)) n = C (1 / Real.sqrt (n.factorial)) * herm n := by
  induction n using Nat.strong_induction_on with
  | _ n ih =>
    match n, ih with
    | 0, _ => simp [pp_zero, herm]
    | 1, _ => simp [pp_one, herm]
    | n + 2, ih =>
      rw [pp_succ, ih (n + 1) (by omega), ih n (by omega)]
      have h0 : (0 : ℝ) < Real.sqrt (n.factorial) := Real.sqrt_pos.2 (by exact_mod_cast Nat.factorial_pos n)
      have h1 : (0 : ℝ) < Real.sqrt ((n + 1 : ℕ) : ℝ) := Real.sqrt_pos.2 (by positivity)
      have h2 : (0 : ℝ) < Real.sqrt ((n + 2 : ℕ) : ℝ) := Real.sqrt_pos.2 (by positivity)
      have s1 : Real.sqrt ((n + 1 : ℕ) : ℝ) * Real.sqrt ((n + 1 : ℕ) : ℝ) = (n : ℝ) + 1 := by
        rw [Real.mul_self_sqrt (by positivity)]; push_cast; ring
      have f1 : Real.sqrt (((n + 1).factorial : ℕ) : ℝ) = Real.sqrt ((n + 1 : ℕ) : ℝ) * Real.sqrt (n.factorial) := by
        rw [← Real.sqrt_mul (by positivity), Nat.factorial_succ]; push_cast; rfl
      have f2 : Real.sqrt (((n + 2).factorial : ℕ) : ℝ) = Real.sqrt ((n + 2 : ℕ) : ℝ) * Real.sqrt (((n + 1).factorial : ℕ) : ℝ) := by
        rw [← Real.sqrt_mul (by positivity), Nat.factorial_succ (n + 1)]; push_cast; ring_nf
      have e : herm (n + 2) = X * herm (n + 1) - C ((n : ℝ) + 1) * herm n := rfl
      rw [e, f2, f1]
      have k : ∀ (c d : ℝ), c = d → C c * herm n = C d * herm n := fun c d h => by rw [h]
      have k' := k (1 / Real.sqrt ((n + 2 : ℕ) : ℝ) * (Real.sqrt ((n + 1 : ℕ) : ℝ) * (1 / Real.sqrt (n.factorial))))
        (1 / (Real.sqrt ((n + 2 : ℕ) : ℝ) * (Real.sqrt ((n + 1 : ℕ) : ℝ) * Real.sqrt (n.factorial))) * ((n : ℝ) + 1)) (by
          rw [← s1]; field_simp)
      have k2 : (C (1 / (Real.sqrt ((n + 2 : ℕ) : ℝ) * (Real.sqrt ((n + 1 : ℕ) : ℝ) * Real.sqrt (n.factorial)))) : ℝ[X])
          = C (1 / Real.sqrt ((n + 2 : ℕ) : ℝ)) * C (1 / (Real.sqrt ((n + 1 : ℕ) : ℝ) * Real.sqrt (n.factorial))) := by
        rw [← C_mul]; congr 1; field_simp
      simp only [C_mul (a := 1 / Real.sqrt ((n + 2 : ℕ) : ℝ)), C_mul (a := Real.sqrt ((n + 1 : ℕ) : ℝ)),
        C_mul (b := (n : ℝ) + 1)] at k'
      rw [C_0, sub_zero, mul_sub, mul_sub]
      rw [show C (1 / Real.sqrt ((n + 2 : ℕ) : ℝ)) * (C (Real.sqrt ((n + 1 : ℕ) : ℝ)) * (C (1 / Real.sqrt (n.factorial)) * herm n))
        = C (1 / Real.sqrt ((n + 2 : ℕ) : ℝ)) * (C (Real.sqrt ((n + 1 : ℕ) : ℝ)) * C (1 / Real.sqrt (n.factorial))) * herm n by ring,
        k', k2]
      ring

/-- The Hermite polynomials are orthonormal for the standard normal distribution. -/
theorem hermite_orthonormal (i j : ℕ) :
    LN (pp (fun _ => 0) (fun n => (n : ℝ)) i * pp (fun _ => 0) (fun n => (n : ℝ)) j) = if i = j then 1 else 0 := by
  refine favard LN (fun i hi => by exact_mod_cast hi) LN_one (fun i hi => ?_) i j
  obtain ⟨n, rfl⟩ : ∃ n, i = n + 1 := ⟨i - 1, by omega⟩
  rw [pp_herm, ← smul_eq_C_mul, map_smul, LN_herm, smul_zero]

end

end Verif.Polynomials
