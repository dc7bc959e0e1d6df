import Verif.Model.Losses
import Verif.Lemmas.Merge
import Mathlib.Tactic.FieldSimp
import Mathlib.Tactic.NormNum

/-! Losses. -/

namespace Verif.Losses

open Verif.Arr

/-- The sum of the squares of the entries of an array. -/
noncomputable def sumSq (s : List Nat) (v : List Nat → ℝ) : ℝ := sumBox s (fun i => v i ^ 2)

theorem bdim_self (n : Nat) : bdim n n = .ok n := by simp [bdim]

theorem bidx_lt {n i : Nat} (h : i < n) : bidx n i = i := by
  unfold bidx
  split
  · omega
  · rfl

theorem risk_same (p y : Arr ℝ) (a b : Nat) (hp : (atleast2 p).shape = [a, b]) (hy : (atleast2 y).shape = [a, b]) :
    squareRisk p y = .ok ((∑ i ∈ Finset.range a, ∑ j ∈ Finset.range b, ((atleast2 p).get [i, j] - (atleast2 y).get [i, j]) ^ 2) / (a : ℝ),
      (∑ i ∈ Finset.range a, ∑ j ∈ Finset.range b, ((atleast2 y).get [i, j]) ^ 2) / (a : ℝ)) := by
  unfold squareRisk sub2
  rw [hp, hy]
  simp only [List.getD_cons_zero, List.getD_cons_succ, bdim_self, bind, Except.bind]
  unfold meanSq
  rw [hy]
  simp only [List.getD_cons_zero, List.getD_cons_succ]
  congr 3
  apply Finset.sum_congr rfl
  intro i hi
  apply Finset.sum_congr rfl
  intro j hj
  rw [bidx_lt (Finset.mem_range.1 hi), bidx_lt (Finset.mem_range.1 hj)]

/-- C117. `relative_test_error`: for observations `y` and predictions of the same shape (`n`, or `n × m`), the square root of the sum of
the squared errors over the sum of the squared observations. -/
theorem relativeTestError_spec (p y : Arr ℝ) (s : List Nat) (hp : p.shape = s) (hy : y.shape = s) (n m : Nat) (hn : 0 < n)
    (hs : s = [n] ∨ s = [n, m]) :
    relativeTestError p y = .ok (Real.sqrt (sumSq s (fun i => p.get i - y.get i) / sumSq s y.get)) := by
  rcases hs with rfl | rfl
  · have e : ∀ a : Arr ℝ, a.shape = [n] → (atleast2 a).shape = [1, n] ∧ ∀ i j, (atleast2 a).get [i, j] = a.get [j] := by
      intro a ha
      unfold atleast2
      rw [ha]
      exact ⟨rfl, fun i j => rfl⟩
    unfold relativeTestError
    rw [risk_same p y 1 n (e p hp).1 (e y hy).1]
    simp only [bind, Except.bind, Finset.sum_range_one, (e p hp).2, (e y hy).2]
    simp [sumSq, sumBox]
  · have e : ∀ a : Arr ℝ, a.shape = [n, m] → atleast2 a = a := by
      intro a ha
      unfold atleast2
      rw [ha]
    unfold relativeTestError
    rw [risk_same p y n m (by rw [e p hp]; exact hp) (by rw [e y hy]; exact hy), e p hp, e y hy]
    simp only [bind, Except.bind]
    congr 2
    have hn' : (n : ℝ) ≠ 0 := by exact_mod_cast hn.ne'
    rw [div_div_div_cancel_right₀ hn']
    simp [sumSq, sumBox]

theorem sumSq_eq_zero (s : List Nat) (v : List Nat → ℝ) : sumSq s v = 0 ↔ ∀ i, InBox s i → v i = 0 := by
  unfold sumSq
  rw [sumBox_eq_sum, Finset.sum_eq_zero_iff_of_nonneg (fun i _ => sq_nonneg _)]
  constructor
  · intro h i hi
    exact pow_eq_zero_iff (two_ne_zero) |>.1 (h i ((mem_box _ _).2 hi))
  · intro h i hi
    rw [h i ((mem_box _ _).1 hi)]
    norm_num

theorem sumSq_nonneg (s : List Nat) (v : List Nat → ℝ) : 0 ≤ sumSq s v := by
  unfold sumSq
  rw [sumBox_eq_sum]
  exact Finset.sum_nonneg (fun i _ => sq_nonneg _)

/-- C117. The relative error is zero if and only if the predictions are exact (the observations are not all zero). -/
theorem relativeTestError_zero (p y : Arr ℝ) (s : List Nat) (hp : p.shape = s) (hy : y.shape = s) (n m : Nat) (hn : 0 < n)
    (hs : s = [n] ∨ s = [n, m]) (h0 : ∃ i, InBox s i ∧ y.get i ≠ 0) :
    relativeTestError p y = .ok 0 ↔ ∀ i, InBox s i → p.get i = y.get i := by
  rw [relativeTestError_spec p y s hp hy n m hn hs]
  have hy0 : sumSq s y.get ≠ 0 := by
    intro hc
    obtain ⟨i, hi, hne⟩ := h0
    exact hne ((sumSq_eq_zero s _).1 hc i hi)
  constructor
  · intro h i hi
    have h' := Except.ok.inj h
    rw [Real.sqrt_eq_zero (div_nonneg (sumSq_nonneg _ _) (sumSq_nonneg _ _)), div_eq_zero_iff] at h'
    rcases h' with h' | h'
    · exact sub_eq_zero.1 ((sumSq_eq_zero s _).1 h' i hi)
    · exact absurd h' hy0
  · intro h
    rw [(sumSq_eq_zero s _).2 (fun i hi => sub_eq_zero.2 (h i hi)), zero_div, Real.sqrt_zero]

/-- C118. The absolute test error for observations of shape `n × m` is the square root of the mean over the sample of the squared error. -/
theorem absoluteTestError_partial (p y : Arr ℝ) (n m : Nat) (hp : p.shape = [n, m]) (hy : y.shape = [n, m]) :
    absoluteTestError p y = .ok (Real.sqrt (sumSq [n, m] (fun i => p.get i - y.get i) / n)) := by
  have e : ∀ a : Arr ℝ, a.shape = [n, m] → atleast2 a = a := by
    intro a ha
    unfold atleast2
    rw [ha]
  unfold absoluteTestError
  rw [risk_same p y n m (by rw [e p hp]; exact hp) (by rw [e y hy]; exact hy), e p hp, e y hy]
  simp only [bind, Except.bind]
  simp [sumSq, sumBox]

/-- C118 is false of the code for observations of shape `n`: the sum is not divided by the number of observations. -/
theorem absoluteTestError_vector (p y : Arr ℝ) (n : Nat) (hp : p.shape = [n]) (hy : y.shape = [n]) :
    absoluteTestError p y = .ok (Real.sqrt (sumSq [n] (fun i => p.get i - y.get i))) := by
  have e : ∀ a : Arr ℝ, a.shape = [n] → (atleast2 a).shape = [1, n] ∧ ∀ i j, (atleast2 a).get [i, j] = a.get [j] := by
    intro a ha
    unfold atleast2
    rw [ha]
    exact ⟨rfl, fun i j => rfl⟩
  unfold absoluteTestError
  rw [risk_same p y 1 n (e p hp).1 (e y hy).1]
  simp only [bind, Except.bind, Finset.sum_range_one, (e p hp).2, (e y hy).2]
  simp [sumSq, sumBox]

/-- Four errors equal to 1: the absolute error is 2, not 1. -/
theorem absoluteTestError_wrong :
    absoluteTestError ⟨[4], fun _ => 1⟩ ⟨[4], fun _ => 0⟩ = .ok 2 ∧ Real.sqrt (sumSq [4] (fun _ => (1 - 0 : ℝ)) / 4) = 1 := by
  constructor
  · rw [absoluteTestError_vector _ _ 4 rfl rfl]
    congr 1
    rw [show sumSq [4] (fun i => (⟨[4], fun _ => 1⟩ : Arr ℝ).get i - (⟨[4], fun _ => 0⟩ : Arr ℝ).get i) = 2 ^ 2 by
      simp [sumSq, sumBox]; norm_num]
    exact Real.sqrt_sq (by norm_num)
  · rw [show sumSq [4] (fun _ => (1 - 0 : ℝ)) / 4 = 1 by simp [sumSq, sumBox]]
    exact Real.sqrt_one

/-- Predictions of shape `n` and observations of shape `n × 1` are broadcast against each other: exact predictions of the values 0 and 1
have the relative error `√2`. -/
theorem relativeTestError_mismatch_wrong :
    relativeTestError ⟨[2], fun i => (i.getD 0 0 : ℝ)⟩ ⟨[2, 1], fun i => (i.getD 0 0 : ℝ)⟩ = .ok (Real.sqrt 2) := by
  unfold relativeTestError squareRisk sub2 atleast2
  simp [bdim, bind, Except.bind, meanSq, bidx, Finset.sum_range_succ]

end Verif.Losses
