import Mathlib.Algebra.Polynomial.Derivative
import Mathlib.Algebra.Polynomial.Degree.Lemmas
import Mathlib.Algebra.Polynomial.Div
import Mathlib.Analysis.Real.Sqrt
import Mathlib.Tactic.LinearCombination

/-!
# Polynomials with a three-term recurrence

`pp a b n` is the polynomial of degree `n` with the recurrence coefficients `a`, `b`, normalised.
-/

namespace Verif.Polynomials

open Polynomial

noncomputable section

/-- The normalised polynomials of a three-term recurrence. -/
def pp (a b : ℕ → ℝ) : ℕ → ℝ[X]
  | 0 => 1
  | 1 => C (1 / Real.sqrt (b 1)) * (X - C (a 0))
  | n + 2 => C (1 / Real.sqrt (b (n + 2))) * ((X - C (a (n + 1))) * pp a b (n + 1) - C (Real.sqrt (b (n + 1))) * pp a b n)

theorem pp_zero (a b : ℕ → ℝ) : pp a b 0 = 1 := rfl

theorem pp_one (a b : ℕ → ℝ) : pp a b 1 = C (1 / Real.sqrt (b 1)) * (X - C (a 0)) := rfl

theorem pp_succ (a b : ℕ → ℝ) (n : ℕ) : pp a b (n + 2) =
    C (1 / Real.sqrt (b (n + 2))) * ((X - C (a (n + 1))) * pp a b (n + 1) - C (Real.sqrt (b (n + 1))) * pp a b n) := rfl

variable {a b : ℕ → ℝ}

theorem X_mul_pp_zero (h : 0 < b 1) : X * pp a b 0 = C (Real.sqrt (b 1)) * pp a b 1 + C (a 0) * pp a b 0 := by
  have hs : Real.sqrt (b 1) ≠ 0 := (Real.sqrt_pos.2 h).ne'
  rw [pp_one, pp_zero, ← mul_assoc, ← C_mul]
  rw [mul_one_div_cancel hs]
  simp

theorem X_mul_pp (n : ℕ) (h : 0 < b (n + 2)) : X * pp a b (n + 1) =
    C (Real.sqrt (b (n + 2))) * pp a b (n + 2) + C (a (n + 1)) * pp a b (n + 1) + C (Real.sqrt (b (n + 1))) * pp a b n := by
  have hs : Real.sqrt (b (n + 2)) ≠ 0 := (Real.sqrt_pos.2 h).ne'
  rw [pp_succ, ← mul_assoc, ← C_mul, mul_one_div_cancel hs]
  simp
  ring

/-- The degree of the polynomial `n` is `n`. -/
theorem pp_natDegree (n : ℕ) (h : ∀ i, 1 ≤ i → i ≤ n → 0 < b i) : (pp a b n).natDegree = n ∧ pp a b n ≠ 0 := by
  induction n using Nat.strong_induction_on with
  | _ n ih =>
    match n, ih, h with
    | 0, _, _ => simp [pp_zero]
    | 1, _, h =>
      have hs : 1 / Real.sqrt (b 1) ≠ 0 := one_div_ne_zero (Real.sqrt_pos.2 (h 1 le_rfl le_rfl)).ne'
      rw [pp_one]
      refine ⟨?_, mul_ne_zero (C_ne_zero.2 hs) (X_sub_C_ne_zero _)⟩
      rw [natDegree_C_mul hs, natDegree_X_sub_C]
    | n + 2, ih, h =>
      have hs : 1 / Real.sqrt (b (n + 2)) ≠ 0 := one_div_ne_zero (Real.sqrt_pos.2 (h (n + 2) (by omega) le_rfl)).ne'
      obtain ⟨h1, h1'⟩ := ih (n + 1) (by omega) (fun i hi hi' => h i hi (by omega))
      obtain ⟨h0, h0'⟩ := ih n (by omega) (fun i hi hi' => h i hi (by omega))
      have hd : ((X - C (a (n + 1))) * pp a b (n + 1) - C (Real.sqrt (b (n + 1))) * pp a b n).natDegree = n + 2 := by
        have hA : ((X - C (a (n + 1))) * pp a b (n + 1)).natDegree = n + 2 := by
          rw [natDegree_mul (X_sub_C_ne_zero _) h1', natDegree_X_sub_C, h1]; omega
        rw [natDegree_sub_eq_left_of_natDegree_lt, hA]
        rw [hA]
        refine lt_of_le_of_lt (natDegree_C_mul_le _ _) ?_
        omega
      rw [pp_succ]
      refine ⟨by rw [natDegree_C_mul hs, hd], mul_ne_zero (C_ne_zero.2 hs) ?_⟩
      intro h0
      rw [h0] at hd
      simp at hd

/-- Every polynomial of degree at most `n` is a combination of the first ones. -/
theorem exists_combination (n : ℕ) (h : ∀ i, 1 ≤ i → i ≤ n → 0 < b i) (q : ℝ[X]) (hq : q.natDegree ≤ n) :
    ∃ c : ℕ → ℝ, q = ∑ i ∈ Finset.range (n + 1), C (c i) * pp a b i := by
  induction n generalizing q with
  | zero =>
    refine ⟨fun _ => q.coeff 0, ?_⟩
    simp only [zero_add, Finset.sum_range_one, pp_zero, mul_one]
    exact eq_C_of_natDegree_le_zero hq
  | succ n ih =>
    obtain ⟨hd, h0⟩ := pp_natDegree (a := a) (b := b) (n + 1) h
    have hl : (pp a b (n + 1)).leadingCoeff ≠ 0 := leadingCoeff_ne_zero.2 h0
    set c := q.coeff (n + 1) / (pp a b (n + 1)).leadingCoeff with hc
    have hr : (q - C c * pp a b (n + 1)).natDegree ≤ n := by
      rw [natDegree_le_iff_coeff_eq_zero]
      intro N hN
      rw [coeff_sub, coeff_C_mul]
      rcases Nat.lt_or_ge (n + 1) N with h1 | h1
      · rw [coeff_eq_zero_of_natDegree_lt (by omega), coeff_eq_zero_of_natDegree_lt (by omega)]; simp
      · have : N = n + 1 := by omega
        subst this
        have : (pp a b (n + 1)).coeff (n + 1) = (pp a b (n + 1)).leadingCoeff := by rw [leadingCoeff, hd]
        rw [this, hc, div_mul_cancel₀ _ hl, sub_self]
    obtain ⟨d, hd'⟩ := ih (fun i hi hi' => h i hi (by omega)) _ hr
    refine ⟨fun i => if i = n + 1 then c else d i, ?_⟩
    rw [Finset.sum_range_succ]
    simp only [if_true]
    rw [Finset.sum_congr rfl (g := fun i => C (d i) * pp a b i), ← hd']
    · ring
    · intro i hi
      rw [if_neg (by have := Finset.mem_range.1 hi; omega)]

/-- Favard: a linear functional that vanishes on the polynomials of positive degree makes them orthonormal. -/
theorem favard (L : ℝ[X] →ₗ[ℝ] ℝ) (hb : ∀ i, 1 ≤ i → 0 < b i) (h1 : L 1 = 1) (h0 : ∀ i, 1 ≤ i → L (pp a b i) = 0)
    (i j : ℕ) : L (pp a b i * pp a b j) = if i = j then 1 else 0 := by
  have hC : ∀ (c : ℝ) (q : ℝ[X]), L (C c * q) = c * L q := fun c q => by
    rw [← smul_eq_C_mul, map_smul, smul_eq_mul]
  -- the two ways of expanding `X p_i p_j`
  have ex0 : ∀ q : ℝ[X], L (X * pp a b 0 * q) = Real.sqrt (b 1) * L (pp a b 1 * q) + a 0 * L (pp a b 0 * q) := by
    intro q
    rw [X_mul_pp_zero (hb 1 le_rfl), add_mul, map_add, mul_assoc, mul_assoc, hC, hC]
  have ex : ∀ (n : ℕ) (q : ℝ[X]), L (X * pp a b (n + 1) * q) = Real.sqrt (b (n + 2)) * L (pp a b (n + 2) * q)
      + a (n + 1) * L (pp a b (n + 1) * q) + Real.sqrt (b (n + 1)) * L (pp a b n * q) := by
    intro n q
    rw [X_mul_pp n (hb (n + 2) (by omega)), add_mul, add_mul, map_add, map_add, mul_assoc, mul_assoc, mul_assoc,
      hC, hC, hC]
  have comm : ∀ p q : ℝ[X], L (X * p * q) = L (X * q * p) := fun p q => by congr 1; ring
  have sq : ∀ i, 1 ≤ i → Real.sqrt (b i) ≠ 0 := fun i hi => (Real.sqrt_pos.2 (hb i hi)).ne'
  have key : ∀ i j, i < j → L (pp a b i * pp a b j) = 0 := by
    intro i
    induction i using Nat.strong_induction_on with
    | _ i ih =>
      intro j hij
      match i, ih, hij with
      | 0, _, hij => rw [pp_zero, one_mul]; exact h0 j hij
      | 1, ih, hij =>
        obtain ⟨k, rfl⟩ : ∃ k, j = k + 1 := ⟨j - 1, by omega⟩
        have e1 := ex0 (pp a b (k + 1))
        rw [comm, ex k] at e1
        rw [mul_comm (pp a b (k + 2)), mul_comm (pp a b (k + 1)), mul_comm (pp a b k),
          ih 0 (by omega) _ (by omega), ih 0 (by omega) _ (by omega), ih 0 (by omega) _ (by omega)] at e1
        have : Real.sqrt (b 1) * L (pp a b 1 * pp a b (k + 1)) = 0 := by linarith
        exact (mul_eq_zero.1 this).resolve_left (sq 1 le_rfl)
      | i + 2, ih, hij =>
        obtain ⟨k, rfl⟩ : ∃ k, j = k + 1 := ⟨j - 1, by omega⟩
        have e1 := ex i (pp a b (k + 1))
        rw [comm, ex k] at e1
        rw [mul_comm (pp a b (k + 2)), mul_comm (pp a b (k + 1)), mul_comm (pp a b k),
          ih (i + 1) (by omega) _ (by omega), ih (i + 1) (by omega) _ (by omega), ih (i + 1) (by omega) _ (by omega),
          ih i (by omega) _ (by omega)] at e1
        have : Real.sqrt (b (i + 2)) * L (pp a b (i + 2) * pp a b (k + 1)) = 0 := by linarith
        exact (mul_eq_zero.1 this).resolve_left (sq _ (by omega))
  have nrm : ∀ i, L (pp a b i * pp a b i) = 1 := by
    intro i
    induction i with
    | zero => rw [pp_zero, one_mul, h1]
    | succ i ih =>
      have e2 := ex i (pp a b i)
      rw [ih, mul_comm (pp a b (i + 2)), mul_comm (pp a b (i + 1)), key i (i + 2) (by omega), key i (i + 1) (by omega),
        comm] at e2
      match i, e2 with
      | 0, e2 =>
        rw [ex0, key 0 1 (by omega)] at e2
        have : Real.sqrt (b 1) * (L (pp a b 1 * pp a b 1) - 1) = 0 := by simp only [zero_add] at e2 ⊢; linarith
        have := (mul_eq_zero.1 this).resolve_left (sq 1 le_rfl)
        simp only [zero_add]; linarith
      | i + 1, e2 =>
        rw [ex, key (i + 1) (i + 2) (by omega), key i (i + 2) (by omega)] at e2
        have : Real.sqrt (b (i + 2)) * (L (pp a b (i + 2) * pp a b (i + 2)) - 1) = 0 := by
          have e3 : i + 1 + 1 = i + 2 := rfl
          rw [e3] at e2
          linarith
        have := (mul_eq_zero.1 this).resolve_left (sq _ (by omega))
        have e3 : i + 1 + 1 = i + 2 := rfl
        rw [e3]; linarith
  rcases Nat.lt_trichotomy i j with h | h | h
  · rw [if_neg (by omega), key i j h]
  · subst h; rw [if_pos rfl, nrm]
  · rw [if_neg (by omega), mul_comm, key j i h]

end

end Verif.Polynomials
