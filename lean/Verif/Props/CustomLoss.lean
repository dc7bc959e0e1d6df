import Verif.Model.CustomLoss
import Mathlib.Tactic.Linarith
import Mathlib.Tactic.Positivity
import Mathlib.Tactic.FieldSimp
import Mathlib.Tactic.NormNum
import Mathlib.Algebra.Order.BigOperators.Group.Finset

/-!
# Custom loss functions (C230, C231)
-/

namespace Verif.CustomLoss

open Verif.Arr Verif.Losses

variable {X : Type}

/-! ## Specification -/

/-- `fun` predicts `p` at the points `x`: its method `eval` does, or it is a callable which does, or it is the array `p`. -/
inductive Predicts : Predictor X → X → Arr ℝ → Prop
  | object (e c : X → Py (Arr ℝ)) (x : X) (p : Arr ℝ) (h : e x = .ok p) : Predicts (.object e c) x p
  | callable (c : X → Py (Arr ℝ)) (x : X) (p : Arr ℝ) (h : c x = .ok p) : Predicts (.callable c) x p
  | array (p : Arr ℝ) (x : X) : Predicts (.array p) x p

/-- The empirical risk for `n` observations of one output. -/
noncomputable def riskOne (l : ℝ → ℝ → ℝ) (y p : Nat → ℝ) (n : Nat) : ℝ := (∑ i ∈ Finset.range n, l (y i) (p i)) / n

/-- The empirical risk for `n` observations of `m` outputs. -/
noncomputable def riskMany (l : ℝ → ℝ → ℝ) (y p : Nat → Nat → ℝ) (n m : Nat) : ℝ :=
  (∑ i ∈ Finset.range n, ∑ j ∈ Finset.range m, l (y i j) (p i j)) / (n * m)

/-! ## Proofs -/

theorem predictions_eq (f : Predictor X) (x : X) (p : Arr ℝ) (h : Predicts f x p) : predictions f x = some p := by
  cases h with
  | object e c x p h => simp only [predictions, h]
  | callable c x p h => simp only [predictions, h]
  | array p x => rfl

/-- C230. The loss given by the user is evaluated at the observations and the predictions, and at the observations and zero predictions
for the reference. -/
theorem eval_spec (loss : Option (Arr ℝ) → Arr ℝ → Py (Arr ℝ)) (f : Predictor X) (x : X) (y : Option (Arr ℝ)) (p a b : Arr ℝ)
    (h : Predicts f x p) (h1 : loss y p = .ok a) (h2 : loss y ⟨p.shape, fun _ => 0⟩ = .ok b) :
    eval loss f ⟨x, y⟩ = .ok (a, b) := by
  have hz : zeros p = ⟨p.shape, fun _ => 0⟩ := by unfold zeros; simp only [zero_mul]
  unfold eval
  simp only [predictions_eq f x p h, h1, hz, h2, bind, Except.bind]

/-- C230. An exception raised by the loss is not hidden. -/
theorem eval_error (loss : Option (Arr ℝ) → Arr ℝ → Py (Arr ℝ)) (f : Predictor X) (x : X) (y : Option (Arr ℝ)) (p : Arr ℝ) (e : PyErr)
    (h : Predicts f x p) (h1 : loss y p = .error e) : eval loss f ⟨x, y⟩ = .error e := by
  unfold eval
  simp only [predictions_eq f x p h, h1, bind, Except.bind]

theorem elementwise_same (l : ℝ → ℝ → ℝ) (y p : Arr ℝ) (h : y.shape = p.shape) :
    elementwise l (some y) p = .ok ⟨p.shape, fun i => l (y.get i) (p.get i)⟩ := by
  simp only [elementwise, if_pos h]

/-- Full statement (false of the code, see `risk_column_wrong`): the risk of a loss applied entry by entry is its mean over the observations.
Here: when the predictions have the shape `[n]` of the observations; the second number is the risk of the zero function. -/
theorem risk_vector_partial (l : ℝ → ℝ → ℝ) (f : Predictor X) (x : X) (y p : Arr ℝ) (n : Nat) (h : Predicts f x p)
    (hy : y.shape = [n]) (hp : p.shape = [n]) :
    risk (elementwise l) f ⟨x, some y⟩ = .ok (riskOne l (fun i => y.get [i]) (fun i => p.get [i]) n,
      riskOne l (fun i => y.get [i]) (fun _ => 0) n) := by
  have e1 := elementwise_same l y p (hy.trans hp.symm)
  have e2 := elementwise_same l y ⟨p.shape, fun _ => 0⟩ (hy.trans hp.symm)
  unfold risk
  rw [eval_spec _ f x _ p _ _ h e1 e2]
  simp only [bind, Except.bind, mean, sumAll, hp, sumBox, riskOne, List.prod_cons, List.prod_nil, mul_one]

/-- C230. The same for observations and predictions of `m` outputs, of shape `[n, m]`. -/
theorem risk_matrix_partial (l : ℝ → ℝ → ℝ) (f : Predictor X) (x : X) (y p : Arr ℝ) (n m : Nat) (h : Predicts f x p)
    (hy : y.shape = [n, m]) (hp : p.shape = [n, m]) :
    risk (elementwise l) f ⟨x, some y⟩ = .ok (riskMany l (fun i j => y.get [i, j]) (fun i j => p.get [i, j]) n m,
      riskMany l (fun i j => y.get [i, j]) (fun _ _ => 0) n m) := by
  have e1 := elementwise_same l y p (hy.trans hp.symm)
  have e2 := elementwise_same l y ⟨p.shape, fun _ => 0⟩ (hy.trans hp.symm)
  unfold risk
  rw [eval_spec _ f x _ p _ _ h e1 e2]
  simp only [bind, Except.bind, mean, sumAll, hp, sumBox, riskMany, List.prod_cons, List.prod_nil, mul_one, Nat.cast_mul]

/-- C230. The risk of a nonnegative loss which vanishes only for exact predictions is zero if and only if the predictions are exact. -/
theorem risk_zero_partial (l : ℝ → ℝ → ℝ) (f : Predictor X) (x : X) (y p : Arr ℝ) (n : Nat) (hn : 0 < n) (h : Predicts f x p)
    (hy : y.shape = [n]) (hp : p.shape = [n]) (hl : ∀ a b, 0 ≤ l a b) (hl0 : ∀ a b, l a b = 0 ↔ a = b) :
    (∃ r, risk (elementwise l) f ⟨x, some y⟩ = .ok (0, r)) ↔ ∀ i, i < n → y.get [i] = p.get [i] := by
  rw [risk_vector_partial l f x y p n h hy hp]
  have hn' : (n : ℝ) ≠ 0 := by exact_mod_cast hn.ne'
  have key : riskOne l (fun i => y.get [i]) (fun i => p.get [i]) n = 0 ↔ ∀ i, i < n → y.get [i] = p.get [i] := by
    unfold riskOne
    rw [div_eq_zero_iff, or_iff_left hn', Finset.sum_eq_zero_iff_of_nonneg (fun i _ => hl _ _)]
    simp only [Finset.mem_range, hl0]
  rw [← key]
  constructor
  · rintro ⟨r, hr⟩
    simp only [Except.ok.injEq, Prod.mk.injEq] at hr
    exact hr.1
  · intro h0
    exact ⟨_, by rw [h0]⟩

/-- C230. Without observations a loss which uses them is refused. -/
theorem risk_unobserved (l : ℝ → ℝ → ℝ) (f : Predictor X) (x : X) : risk (elementwise l) f ⟨x, none⟩ = .error .typeError := by
  unfold risk eval
  cases predictions f x with
  | none => rfl
  | some p => rfl

/-- C230. For observations of shape `[n]` and predictions of one output of shape `[n, 1]`, as those of a `Function` with one output may
be, the code returns the mean over all the pairs of an observation and a prediction. -/
theorem risk_column_wrong (l : ℝ → ℝ → ℝ) (f : Predictor X) (x : X) (y p : Arr ℝ) (n : Nat) (h : Predicts f x p)
    (hy : y.shape = [n]) (hp : p.shape = [n, 1]) :
    ∃ r, risk (elementwise l) f ⟨x, some y⟩ =
      .ok ((∑ i ∈ Finset.range n, ∑ j ∈ Finset.range n, l (y.get [j]) (p.get [i, 0])) / (n * n), r) := by
  have hne : y.shape ≠ p.shape := by rw [hy, hp]; simp
  have hb : bdim n 1 = .ok n := by
    unfold bdim
    by_cases h1 : n = 1
    · simp [h1]
    · simp [h1]
  have e : ∀ q : Arr ℝ, q.shape = [n, 1] → elementwise l (some y) q = .ok ⟨[n, n], fun i => l (y.get [bidx n (i.getD 1 0)])
      (q.get [i.getD 0 0, bidx 1 (i.getD 1 0)])⟩ := by
    intro q hq
    have hne' : ¬ ([n] = [n, 1]) := by simp
    simp only [elementwise, hy, hq, if_neg hne', hb, bind, Except.bind]
  have ev := eval_spec _ f x _ p _ _ h (e p hp) (e ⟨p.shape, fun _ => 0⟩ hp)
  suffices hm : ∀ q, risk (elementwise l) f ⟨x, some y⟩ = .ok q →
      q.1 = (∑ i ∈ Finset.range n, ∑ j ∈ Finset.range n, l (y.get [j]) (p.get [i, 0])) / (n * n) by
    have hr : ∃ q, risk (elementwise l) f ⟨x, some y⟩ = .ok q := by
      unfold risk
      rw [ev]
      exact ⟨_, rfl⟩
    obtain ⟨q, hq⟩ := hr
    exact ⟨q.2, by rw [← hm q hq, hq]⟩
  intro q hq
  unfold risk at hq
  rw [ev] at hq
  simp only [bind, Except.bind, Except.ok.injEq] at hq
  rw [← hq]
  simp only [mean, sumAll, sumBox, List.prod_cons, List.prod_nil, mul_one, Nat.cast_mul, List.getD_cons_zero, List.getD_cons_succ]
  congr 1
  apply Finset.sum_congr rfl
  intro i _
  apply Finset.sum_congr rfl
  intro j hj
  have : bidx n j = j := by
    have := Finset.mem_range.1 hj
    unfold bidx
    split
    · omega
    · rfl
  rw [this]
  rfl

/-- C230. With the squared loss, exact predictions `[[0], [1]]` of the observations `[0, 1]` have the risk 1/2. -/
theorem risk_exact_wrong (x : X) : ∃ r, risk (elementwise (fun a b => (a - b) ^ 2)) (.array ⟨[2, 1], fun i => if i = [1, 0] then 1 else 0⟩)
    ⟨x, some ⟨[2], fun i => if i = [1] then 1 else 0⟩⟩ = .ok (1 / 2, r) := by
  obtain ⟨r, hr⟩ := risk_column_wrong (fun a b => (a - b) ^ 2) _ x ⟨[2], fun i => if i = [1] then 1 else 0⟩ _ 2
    (Predicts.array ⟨[2, 1], fun i => if i = [1, 0] then 1 else 0⟩ x) rfl rfl
  refine ⟨r, ?_⟩
  rw [hr]
  norm_num [Finset.sum_range_succ]

/-- The hypotheses of C230 are met: a callable with two predictions, and the squared loss. -/
example : Predicts (.callable fun _ : Unit => .ok ⟨[2], fun i => i.getD 0 0⟩) () ⟨[2], fun i => i.getD 0 0⟩ ∧
    (∀ a b : ℝ, 0 ≤ (a - b) ^ 2) ∧ (∀ a b : ℝ, (a - b) ^ 2 = 0 ↔ a = b) :=
  ⟨.callable _ _ _ rfl, fun a b => sq_nonneg _, fun a b => by rw [pow_eq_zero_iff two_ne_zero, sub_eq_zero]⟩

/-- C231. By default the test error is the risk. -/
theorem testError_default (loss : Option (Arr ℝ) → Arr ℝ → Py (Arr ℝ)) (f : Predictor X) (x : X) (y : Option (Arr ℝ)) (p a b : Arr ℝ)
    (h : Predicts f x p) (h1 : loss y p = .ok a) (h2 : loss y ⟨p.shape, fun _ => 0⟩ = .ok b) :
    testError { loss := loss } f ⟨x, y⟩ = .ok (sumBox a.shape a.get / (a.shape.prod : ℝ)) := by
  unfold testError risk
  simp only [eval_spec loss f x y p a b h h1 h2, bind, Except.bind, mean, sumAll]

/-- C231. With an error function, the test error is its value. -/
theorem testError_given (c : Custom X) (g : Predictor X → Sample X → Py ℝ) (hg : c.errorFunction = some g) (f : Predictor X)
    (s : Sample X) : testError c f s = g f s := by
  unfold testError
  rw [hg]

/-- C231. The relative test error is the value of the given function, and is refused without one. -/
theorem relativeTestError_spec (c : Custom X) (f : Predictor X) (s : Sample X) :
    relativeTestError c f s = match c.relativeErrorFunction with | some g => g f s | none => .error .assertionError := by
  unfold relativeTestError
  cases c.relativeErrorFunction <;> rfl

/-- Full statement (false of the code): `test_error` returns the error of the type given by `error_type`, as for the other losses. Here:
for the type "absolute" (the type has no effect). -/
theorem testError_type_partial (c : Custom X) (f : Predictor X) (s : Sample X) (t : String) :
    testError { c with errorType := t } f s = testError c f s := rfl

/-- C231. With the error type "relative" and a function for the relative error, the code returns the absolute error. -/
theorem testError_type_wrong (x : X) : ∃ c : Custom X, c.errorType = "relative" ∧ ∃ f s,
    relativeTestError c f s = .ok 1 ∧ testError c f s = .ok 4 := by
  refine ⟨{ loss := elementwise (fun a b => (a - b) ^ 2), relativeErrorFunction := some (fun _ _ => .ok 1), errorType := "relative" }, rfl,
    .array ⟨[1], fun _ => 0⟩, ⟨x, some ⟨[1], fun _ => 2⟩⟩, rfl, ?_⟩
  rw [testError, risk_vector_partial _ _ x _ _ 1 (.array _ _) rfl rfl]
  simp only [bind, Except.bind, riskOne]
  norm_num

/-- C231. An exception raised by the method `eval` is ignored: with a call which succeeds its predictions are used, and otherwise the
loss is applied to the object (the exception reported is then another one). -/
theorem eval_hidden_wrong (loss : Option (Arr ℝ) → Arr ℝ → Py (Arr ℝ)) (e c : X → Py (Arr ℝ)) (x : X) (y : Option (Arr ℝ)) (r : PyErr)
    (h : e x = .error r) :
    eval loss (.object e c) ⟨x, y⟩ = eval loss (.callable c) ⟨x, y⟩ ∧
    ((∃ r', c x = .error r') → eval loss (.object e c) ⟨x, y⟩ = .error .typeError) := by
  constructor
  · simp only [eval, predictions, h]
  · rintro ⟨r', h'⟩
    simp only [eval, predictions, h, h']

end Verif.CustomLoss
