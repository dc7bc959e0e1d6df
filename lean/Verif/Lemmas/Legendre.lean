import Verif.Lemmas.OrthPoly
import Mathlib.Analysis.Calculus.Deriv.Polynomial
import Mathlib.MeasureTheory.Integral.IntervalIntegral.FundThmCalculus
import Mathlib.Tactic.FieldSimp
import Mathlib.Topology.Algebra.Polynomial
import Mathlib.Algebra.Polynomial.Eval.SMul

/-!
# The integral of the Legendre polynomials
-/

namespace Verif.Polynomials

open Polynomial

noncomputable section

/-- The recurrence coefficients of the Legendre polynomials. -/
def bLeg (n : ℕ) : ℝ := (n : ℝ) ^ 2 / (4 * (n : ℝ) ^ 2 - 1)

theorem bLeg_pos (i : ℕ) (h : 1 ≤ i) : 0 < bLeg i := by
  have : (1 : ℝ) ≤ i := by exact_mod_cast h
  unfold bLeg
  apply div_pos
  · positivity
  · nlinarith

/-- Legendre polynomials with value 1 at 1. -/
def leg : ℕ → ℝ[X]
  | 0 => 1
  | 1 => X
  | n + 2 => C (1 / ((n : ℝ) + 2)) * (C (2 * (n : ℝ) + 3) * X * leg (n + 1) - C ((n : ℝ) + 1) * leg n)

theorem leg_succ (n : ℕ) : C ((n : ℝ) + 2) * leg (n + 2) = C (2 * (n : ℝ) + 3) * X * leg (n + 1) - C ((n : ℝ) + 1) * leg n := by
  have h : (n : ℝ) + 2 ≠ 0 := by positivity
  rw [leg, ← mul_assoc, ← C_mul, mul_one_div_cancel h, C_1, one_mul]

theorem C_two : (C 2 : ℝ[X]) = 2 := C_ofNat 2

theorem C_three : (C 3 : ℝ[X]) = 3 := C_ofNat 3

theorem C_cancel {c : ℝ} (hc : c ≠ 0) {p q : ℝ[X]} (h : C c * p = C c * q) : p = q :=
  mul_left_cancel₀ (C_ne_zero.2 hc) h

theorem leg_derivative (n : ℕ) :
    (X * derivative (leg (n + 1)) - derivative (leg n) = C ((n : ℝ) + 1) * leg (n + 1)) ∧
    (derivative (leg (n + 1)) - X * derivative (leg n) = C ((n : ℝ) + 1) * leg n) := by
  induction n with
  | zero => simp [leg]
  | succ n ih =>
    obtain ⟨B, A⟩ := ih
    have R := leg_succ n
    have R' := congrArg derivative R
    simp only [derivative_mul, derivative_sub, derivative_C, derivative_X, zero_mul, zero_add, mul_one] at R'
    have h2 : (n : ℝ) + 2 ≠ 0 := by positivity
    have c2 : (C ((n : ℝ) + 2) : ℝ[X]) = C (n : ℝ) + 2 := by rw [C_add, C_two]
    have c1 : (C ((n : ℝ) + 1) : ℝ[X]) = C (n : ℝ) + 1 := by simp
    have c3 : (C (2 * (n : ℝ) + 3) : ℝ[X]) = 2 * C (n : ℝ) + 3 := by
      rw [C_add, C_mul, C_two, C_three]
    have c4 : (C (((n + 1 : ℕ) : ℝ) + 1) : ℝ[X]) = C (n : ℝ) + 2 := by
      push_cast; simp only [map_add, map_one, map_natCast]; ring
    rw [c4]
    rw [c1, c2, c3] at R R'
    rw [c1] at A B
    have A1 : derivative (leg (n + 2)) - X * derivative (leg (n + 1)) = (C (n : ℝ) + 2) * leg (n + 1) := by
      apply C_cancel h2
      rw [c2]
      linear_combination R' + (C (n : ℝ) + 1) * B
    refine ⟨?_, A1⟩
    have e : n + 1 + 1 = n + 2 := rfl
    rw [e]
    linear_combination X * A1 + X * B - A - R

theorem leg_one_eval (n : ℕ) : (leg n).eval 1 = 1 ∧ (leg n).eval (-1) = (-1) ^ n := by
  induction n using Nat.strong_induction_on with
  | _ n ih =>
    match n, ih with
    | 0, _ => simp [leg]
    | 1, _ => simp [leg]
    | n + 2, ih =>
      obtain ⟨a1, b1⟩ := ih (n + 1) (by omega)
      obtain ⟨a0, b0⟩ := ih n (by omega)
      have h2 : (n : ℝ) + 2 ≠ 0 := by positivity
      rw [leg]
      constructor
      · simp only [eval_mul, eval_sub, eval_C, eval_X, a1, a0]
        field_simp; ring
      · simp only [eval_mul, eval_sub, eval_C, eval_X, b1, b0]
        field_simp
        ring

/-- The mean of a polynomial on `[-1, 1]`. -/
def LU : ℝ[X] →ₗ[ℝ] ℝ where
  toFun q := (∫ x in (-1)..1, q.eval x) / 2
  map_add' p q := by
    simp only [eval_add]
    rw [intervalIntegral.integral_add (p.continuous.intervalIntegrable _ _) (q.continuous.intervalIntegrable _ _)]
    ring
  map_smul' c q := by
    simp only [eval_smul, smul_eq_mul, RingHom.id_apply]
    rw [intervalIntegral.integral_const_mul]
    ring

theorem LU_apply (q : ℝ[X]) : LU q = (∫ x in (-1)..1, q.eval x) / 2 := rfl

theorem LU_derivative (q : ℝ[X]) : LU (derivative q) = (q.eval 1 - q.eval (-1)) / 2 := by
  rw [LU_apply]
  congr 1
  exact intervalIntegral.integral_eq_sub_of_hasDerivAt (fun x _ => q.hasDerivAt x)
    ((derivative q).continuous.intervalIntegrable _ _)

theorem LU_leg (n : ℕ) : LU (leg (n + 1)) = 0 := by
  have h : derivative (leg (n + 2)) - derivative (leg n) = C (2 * (n : ℝ) + 3) * leg (n + 1) := by
    obtain ⟨B, -⟩ := leg_derivative n
    obtain ⟨-, A⟩ := leg_derivative (n + 1)
    have c1 : (C ((n : ℝ) + 1) : ℝ[X]) = C (n : ℝ) + 1 := by simp
    have c4 : (C (((n + 1 : ℕ) : ℝ) + 1) : ℝ[X]) = C (n : ℝ) + 2 := by
      push_cast; simp only [map_add, map_one, map_natCast]; ring
    have c3 : (C (2 * (n : ℝ) + 3) : ℝ[X]) = 2 * C (n : ℝ) + 3 := by
      rw [C_add, C_mul, C_two, C_three]
    rw [c1] at B
    rw [c4] at A
    rw [c3]
    have e : n + 1 + 1 = n + 2 := rfl
    rw [e] at A
    linear_combination A + B
  have h3 : (2 * (n : ℝ) + 3) ≠ 0 := by positivity
  have e := congrArg LU h
  rw [map_sub, LU_derivative, LU_derivative, ← smul_eq_C_mul, map_smul, (leg_one_eval _).1, (leg_one_eval _).2,
    (leg_one_eval _).1, (leg_one_eval _).2, smul_eq_mul] at e
  have : (2 * (n : ℝ) + 3) * LU (leg (n + 1)) = 0 := by rw [← e]; ring
  exact (mul_eq_zero.1 this).resolve_left h3

theorem sqrt_bLeg (n : ℕ) : Real.sqrt (bLeg (n + 1)) = ((n : ℝ) + 1) / (Real.sqrt (2 * n + 1) * Real.sqrt (2 * n + 3)) := by
  have h : bLeg (n + 1) = (((n : ℝ) + 1) / (Real.sqrt (2 * n + 1) * Real.sqrt (2 * n + 3))) ^ 2 := by
    rw [div_pow, mul_pow, Real.sq_sqrt (by positivity), Real.sq_sqrt (by positivity), bLeg]
    push_cast
    congr 1
    ring
  rw [h, Real.sqrt_sq (by positivity)]

theorem pp_leg (n : ℕ) : pp (fun _ => 0) bLeg n = C (Real.sqrt (2 * n + 1)) * leg n := by
  induction n using Nat.strong_induction_on with
  | _ n ih =>
    match n, ih with
    | 0, _ => simp [pp_zero, leg]
    | 1, _ =>
      rw [pp_one, leg]
      have := sqrt_bLeg 0
      simp only [zero_add, Nat.cast_zero, mul_zero, Real.sqrt_one, one_mul] at this
      rw [this]
      simp
      norm_num
    | n + 2, ih =>
      rw [pp_succ, ih (n + 1) (by omega), ih n (by omega), sqrt_bLeg n, sqrt_bLeg (n + 1)]
      have h1 : (0 : ℝ) < Real.sqrt (2 * n + 1) := Real.sqrt_pos.2 (by positivity)
      have h3 : (0 : ℝ) < Real.sqrt (2 * n + 3) := Real.sqrt_pos.2 (by positivity)
      have h5 : (0 : ℝ) < Real.sqrt (2 * n + 5) := Real.sqrt_pos.2 (by positivity)
      have s3 : Real.sqrt (2 * n + 3) * Real.sqrt (2 * n + 3) = 2 * n + 3 := Real.mul_self_sqrt (by positivity)
      have e3 : 2 * ((n + 1 : ℕ) : ℝ) + 1 = 2 * n + 3 := by push_cast; ring
      have e5 : 2 * ((n + 1 : ℕ) : ℝ) + 3 = 2 * n + 5 := by push_cast; ring
      have e5' : 2 * ((n + 2 : ℕ) : ℝ) + 1 = 2 * n + 5 := by push_cast; ring
      rw [e3, e5, e5']
      have hn2 : (n : ℝ) + 2 ≠ 0 := by positivity
      apply C_cancel hn2
      rw [show C ((n : ℝ) + 2) * (C (Real.sqrt (2 * n + 5)) * leg (n + 2))
        = C (Real.sqrt (2 * n + 5)) * (C ((n : ℝ) + 2) * leg (n + 2)) by ring, leg_succ]
      have k1 : ((n : ℝ) + 2) * (1 / ((((n + 1 : ℕ) : ℝ) + 1) / (Real.sqrt (2 * n + 3) * Real.sqrt (2 * n + 5))))
          = Real.sqrt (2 * n + 3) * Real.sqrt (2 * n + 5) := by
        push_cast
        have : (n : ℝ) + 1 + 1 ≠ 0 := by positivity
        field_simp
        try ring
      have k2 : Real.sqrt (2 * n + 3) * Real.sqrt (2 * n + 5) * Real.sqrt (2 * n + 3) = Real.sqrt (2 * n + 5) * (2 * n + 3) := by
        rw [mul_comm _ (Real.sqrt (2 * n + 5)), mul_assoc, s3]
      have k3 : Real.sqrt (2 * n + 3) * Real.sqrt (2 * n + 5) * (((n : ℝ) + 1) / (Real.sqrt (2 * n + 1) * Real.sqrt (2 * n + 3))
          * Real.sqrt (2 * n + 1)) = Real.sqrt (2 * n + 5) * (n + 1) := by
        field_simp
      rw [← mul_assoc, ← C_mul, k1, C_0, sub_zero, mul_sub]
      rw [show C (Real.sqrt (2 * n + 3) * Real.sqrt (2 * n + 5)) * (X * (C (Real.sqrt (2 * n + 3)) * leg (n + 1)))
        = C (Real.sqrt (2 * n + 3) * Real.sqrt (2 * n + 5) * Real.sqrt (2 * n + 3)) * (X * leg (n + 1)) by
          simp only [C_mul]; ring]
      rw [← mul_assoc (C (((n : ℝ) + 1) / (Real.sqrt (2 * n + 1) * Real.sqrt (2 * n + 3)))), ← C_mul,
        ← mul_assoc (C (Real.sqrt (2 * n + 3) * Real.sqrt (2 * n + 5))), ← C_mul, k2, k3]
      simp only [C_mul]
      ring

theorem LU_one : LU 1 = 1 := by
  rw [LU_apply]; simp

/-- The Legendre polynomials are orthonormal for the uniform probability on `[-1, 1]`. -/
theorem legendre_orthonormal (i j : ℕ) :
    LU (pp (fun _ => 0) bLeg i * pp (fun _ => 0) bLeg j) = if i = j then 1 else 0 := by
  refine favard LU bLeg_pos LU_one (fun i hi => ?_) i j
  obtain ⟨n, rfl⟩ : ∃ n, i = n + 1 := ⟨i - 1, by omega⟩
  rw [pp_leg, ← smul_eq_C_mul, map_smul, LU_leg, smul_zero]

end

end Verif.Polynomials
