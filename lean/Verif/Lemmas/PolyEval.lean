import Verif.Model.Polynomials
import Verif.Lemmas.OrthPoly
import Mathlib.Algebra.Polynomial.Eval.Coeff

/-!
# The loops of `polyval`, `dn_polyval` and `poly_coeff` compute the polynomials of the recurrence
-/

namespace Verif.Polynomials

open Polynomial

noncomputable section

/-- A loop that appends one element at a time. -/
theorem foldl_build {α : Type} (F : List α → Nat → α) (f : Nat → α) (s k : Nat)
    (h : ∀ d, s ≤ d → d < s + k → F ((List.range d).map f) d = f d) :
    (List.range' s k).foldl (fun out d => out ++ [F out d]) ((List.range s).map f) = (List.range (s + k)).map f := by
  induction k with
  | zero => simp
  | succ k ih =>
    rw [List.range'_concat, List.foldl_append, ih (fun d h1 h2 => h d h1 (by omega))]
    simp only [List.foldl_cons, List.foldl_nil, Nat.one_mul]
    rw [h (s + k) (by omega) (by omega), ← Nat.add_assoc, List.range_succ, List.map_append]
    rfl

theorem at'_map_range (f : Nat → ℝ) (n i : Nat) (h : i < n) : at' ((List.range n).map f) i = f i := by
  simp [at', List.getD, h]

theorem range_two {α : Type} (f : Nat → α) : (List.range 2).map f = [f 0, f 1] := by
  simp [List.range_succ]

theorem polyvalRow_eq (a b : List ℝ) (m : Nat) (x : ℝ) :
    polyvalRow a b m x = (List.range (m + 1)).map (fun i => (pp (at' a) (at' b) i).eval x) := by
  unfold polyvalRow
  rcases Nat.eq_zero_or_pos m with h | h
  · subst h
    simp [pp_zero]
  · rw [if_pos h]
    have e := foldl_build (fun out deg => ((x - at' a (deg - 1)) * at' out (deg - 1) - Real.sqrt (at' b (deg - 1)) *
      at' out (deg - 2)) / Real.sqrt (at' b deg)) (fun i => (pp (at' a) (at' b) i).eval x) 2 (m - 1) (by
        intro d hd hd'
        obtain ⟨d, rfl⟩ : ∃ k, d = k + 2 := ⟨d - 2, by omega⟩
        rw [at'_map_range _ _ _ (by omega), at'_map_range _ _ _ (by omega), pp_succ]
        simp
        ring)
    have e1 : 2 + (m - 1) = m + 1 := by omega
    rw [e1, range_two] at e
    rw [← e]
    have e0 : ([1, (x - at' a 0) / Real.sqrt (at' b 1)] : List ℝ) =
        [(pp (at' a) (at' b) 0).eval x, (pp (at' a) (at' b) 1).eval x] := by
      simp [pp_zero, pp_one]; ring
    rw [e0]
    rfl

/-- The derivatives of the three-term recurrence. -/
theorem iterate_derivative_X_sub_C_mul (k : ℕ) (c : ℝ) (q : ℝ[X]) :
    derivative^[k + 1] ((X - C c) * q) = (X - C c) * derivative^[k + 1] q + C ((k + 1 : ℕ) : ℝ) * derivative^[k] q := by
  induction k with
  | zero => simp; ring
  | succ k ih =>
    rw [Function.iterate_succ_apply', ih]
    simp only [derivative_add, derivative_mul, derivative_sub, derivative_X, derivative_C, sub_zero, one_mul, zero_mul,
      zero_add, ← Function.iterate_succ_apply']
    push_cast
    simp only [map_add, map_one]
    ring

theorem iterate_derivative_pp (a b : ℕ → ℝ) (k n : ℕ) : derivative^[k + 1] (pp a b (n + 2)) =
    C (1 / Real.sqrt (b (n + 2))) * (C ((k + 1 : ℕ) : ℝ) * derivative^[k] (pp a b (n + 1))
      + (X - C (a (n + 1))) * derivative^[k + 1] (pp a b (n + 1))
      - C (Real.sqrt (b (n + 1))) * derivative^[k + 1] (pp a b n)) := by
  rw [pp_succ, iterate_derivative_C_mul, iterate_derivative_sub, iterate_derivative_X_sub_C_mul, iterate_derivative_C_mul]
  ring

theorem dnRow_eq (a b : List ℝ) (m : Nat) (x : ℝ) (k : Nat) :
    dnRow a b m x ((List.range (m + 1)).map (fun i => (derivative^[k] (pp (at' a) (at' b) i)).eval x)) (k + 1)
      = (List.range (m + 1)).map (fun i => (derivative^[k + 1] (pp (at' a) (at' b) i)).eval x) := by
  unfold dnRow
  rcases Nat.eq_zero_or_pos m with h | h
  · subst h
    simp [pp_zero]
  · rw [if_pos h]
    set out0 := (List.range (m + 1)).map (fun i => (derivative^[k] (pp (at' a) (at' b) i)).eval x) with ho
    have e := foldl_build (fun out deg => (((k + 1 : ℕ) : ℝ) * at' out0 (deg - 1) + (x - at' a (deg - 1)) * at' out (deg - 1)
      - Real.sqrt (at' b (deg - 1)) * at' out (deg - 2)) / Real.sqrt (at' b deg))
      (fun i => (derivative^[k + 1] (pp (at' a) (at' b) i)).eval x) 2 (m - 1) (by
        intro d hd hd'
        obtain ⟨d, rfl⟩ : ∃ k, d = k + 2 := ⟨d - 2, by omega⟩
        rw [at'_map_range _ _ _ (by omega), at'_map_range _ _ _ (by omega), at'_map_range _ _ _ (by omega),
          iterate_derivative_pp]
        simp
        ring)
    have e1 : 2 + (m - 1) = m + 1 := by omega
    rw [e1, range_two] at e
    rw [← e]
    have e0 : ([0, if k + 1 = 1 then 1 / Real.sqrt (at' b 1) else 0] : List ℝ) =
        [(derivative^[k + 1] (pp (at' a) (at' b) 0)).eval x, (derivative^[k + 1] (pp (at' a) (at' b) 1)).eval x] := by
      rw [pp_zero, pp_one, iterate_derivative_C_mul]
      rcases Nat.eq_zero_or_pos k with hk | hk
      · subst hk; simp
      · obtain ⟨j, rfl⟩ : ∃ j, k = j + 1 := ⟨k - 1, by omega⟩
        simp
    rw [e0]
    rfl

theorem dn_foldl (a b : List ℝ) (m : Nat) (x : ℝ) (n : Nat) :
    (List.range' 1 n).foldl (dnRow a b m x) ((List.range (m + 1)).map (fun i => (pp (at' a) (at' b) i).eval x))
      = (List.range (m + 1)).map (fun i => (derivative^[n] (pp (at' a) (at' b) i)).eval x) := by
  induction n with
  | zero => simp
  | succ n ih =>
    rw [List.range'_concat, List.foldl_append, ih]
    simp only [List.foldl_cons, List.foldl_nil]
    rw [Nat.one_mul, Nat.add_comm 1 n, dnRow_eq]

/-! ## Coefficients -/

/-- `shiftRow` of the coefficients of a polynomial of degree less than `m`. -/
theorem shiftRow_coeff (m : Nat) (q : ℝ[X]) :
    shiftRow ((List.range (m + 1)).map q.coeff) = (List.range (m + 1)).map (X * q).coeff := by
  unfold shiftRow
  rw [List.range_succ, List.map_append]
  simp only [List.map_cons, List.map_nil, List.dropLast_concat]
  have : List.range m ++ [m] = 0 :: (List.range m).map Nat.succ := by
    rw [← List.range_succ, List.range_succ_eq_map]
  rw [this]
  simp [Function.comp_def, coeff_X_mul]

theorem zipWith_map_range {α β γ : Type} (F : α → β → γ) (f : Nat → α) (g : Nat → β) (n : Nat) :
    List.zipWith F ((List.range n).map f) ((List.range n).map g) = (List.range n).map (fun i => F (f i) (g i)) := by
  rw [List.zipWith_map, List.zipWith_self]

theorem getD_map_range {α : Type} (f : Nat → α) (d : α) (n i : Nat) (h : i < n) :
    ((List.range n).map f).getD i d = f i := by
  simp [List.getD, h]

theorem polyCoeffRows_eq (a b : List ℝ) (m : Nat) :
    polyCoeffRows a b m = (List.range (m + 1)).map (fun i => (List.range (m + 1)).map (pp (at' a) (at' b) i).coeff) := by
  have r0 : (1 :: List.replicate m 0 : List ℝ) = (List.range (m + 1)).map (pp (at' a) (at' b) 0).coeff := by
    rw [pp_zero, List.range_succ_eq_map]
    simp only [List.map_cons, coeff_one_zero, List.map_map, List.cons.injEq, true_and]
    rw [List.map_congr_left (g := fun _ => (0 : ℝ))]
    · simp
    · intro i _; simp [coeff_one]
  unfold polyCoeffRows
  rcases Nat.eq_zero_or_pos m with h | h
  · subst h
    simp [pp_zero]
  · simp only [if_pos h]
    rw [r0, shiftRow_coeff, zipWith_map_range]
    have e0 : (List.range (m + 1)).map (fun i => ((X * pp (at' a) (at' b) 0).coeff i - at' a 0 * (pp (at' a) (at' b) 0).coeff i)
        / Real.sqrt (at' b 1)) = (List.range (m + 1)).map (pp (at' a) (at' b) 1).coeff := by
      refine List.map_congr_left (fun i _ => ?_)
      rw [pp_one, pp_zero, coeff_C_mul, coeff_sub]
      simp only [mul_one, coeff_C]
      rcases eq_or_ne i 0 with h | h
      · subst h; simp; ring
      · rw [if_neg h, coeff_one, if_neg h]; simp; ring
    rw [e0]
    -- the loop index is one less than the position of the appended row
    have key : ∀ k s, (List.range' (s + 1) k).foldl (coeffStep a b)
        ((List.range (s + 2)).map (fun i => (List.range (m + 1)).map (pp (at' a) (at' b) i).coeff))
        = (List.range (s + 2 + k)).map (fun i => (List.range (m + 1)).map (pp (at' a) (at' b) i).coeff) := by
      intro k
      induction k with
      | zero => intro s; simp
      | succ k ih =>
        intro s
        rw [List.range'_succ, List.foldl_cons]
        have hstep : coeffStep a b ((List.range (s + 2)).map (fun i => (List.range (m + 1)).map
            (pp (at' a) (at' b) i).coeff)) (s + 1) = (List.range (s + 1 + 2)).map (fun i => (List.range (m + 1)).map
            (pp (at' a) (at' b) i).coeff) := by
          unfold coeffStep
          simp only [Nat.add_sub_cancel]
          rw [getD_map_range _ _ _ _ (by omega), getD_map_range _ _ _ _ (by omega), shiftRow_coeff, zipWith_map_range,
            zipWith_map_range]
          have e3 : s + 1 + 2 = (s + 2) + 1 := by omega
          rw [e3, List.range_succ (n := s + 2), List.map_append]
          congr 1
          simp only [List.map_cons, List.map_nil, List.cons.injEq, and_true]
          refine List.map_congr_left (fun i _ => ?_)
          rw [pp_succ, coeff_C_mul, coeff_sub, sub_mul, coeff_sub, coeff_C_mul, coeff_C_mul]
          ring
        rw [hstep, ih (s + 1)]
        congr 2
        omega
    have := key (m - 1) 0
    rw [show 0 + 2 + (m - 1) = m + 1 from by omega] at this
    rw [← this]
    simp [List.range_succ]

end

end Verif.Polynomials
