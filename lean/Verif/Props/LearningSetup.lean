import Verif.Model.LearningSetup
import Mathlib.Algebra.BigOperators.Ring.Finset
import Mathlib.Algebra.BigOperators.Field
import Mathlib.Tactic.Ring
import Mathlib.Tactic.FieldSimp

/-!
# Preparation of linear learning problems, and the loss for density estimation (C226, C227)
-/

namespace Verif.LearningSetup

open Finset

variable {A B : Type}

/-- The inputs of the data. -/
def inputs : Data A → Option A
  | .list x => x
  | .emptyList => none
  | .arr x => some x

theorem evalData_inputs (b : A → Py B) (d : Data A) (x : A) (h : inputs d = some x) : evalData (some b) d = b x := by
  cases d with
  | list o => simp only [inputs] at h; subst h; rfl
  | emptyList => simp [inputs] at h
  | arr y => simp only [inputs, Option.some.injEq] at h; subst h; rfl

theorem disable_ok (s : Setup A B) (b : A → Py B) (h : s.basis = some b) : disable s = s := by
  unfold disable
  rw [h]; simp

/-- C226. With a basis and inputs: the basis is evaluated at the training inputs, and at the test inputs if the test error is required. -/
theorem prepare_eval (s : Setup A B) (b : A → Py B) (dx dt : Data A) (x t : A) (ex et : B) (hb : s.basis = some b)
    (h1 : s.training = some dx) (h2 : inputs dx = some x) (h3 : b x = .ok ex) (h4 : s.basisEval = none)
    (h5 : s.test = some dt) (h6 : inputs dt = some t) (h7 : b t = .ok et) (h8 : s.basisEvalTest = none) :
    prepare s = { s with basisEval := some ex, basisEvalTest := if s.testError then some et else none } := by
  unfold prepare
  rw [disable_ok s b hb]
  have ht : trainStep s = .ok { s with basisEval := some ex } := by
    unfold trainStep
    rw [h1, h4]
    simp only [hb, evalData_inputs b dx x h2, h3, bind, Except.bind]
  rw [ht]
  simp only
  unfold testStep
  cases hte : s.testError with
  | false => simp [h8]
  | true =>
    simp only [if_true, h5, h8, hb, evalData_inputs b dt t h6, h7, bind, Except.bind]

/-- C226. Given evaluations are kept. -/
theorem prepare_keep (s : Setup A B) (ex : B) (h : s.basisEval = some ex) (ht : s.basisEvalTest.isSome ∨ s.testError = false) :
    prepare s = s := by
  have hd : disable s = s := by
    unfold disable
    rcases ht with h' | h'
    · rw [if_neg]
      cases he : s.basisEvalTest with
      | none => rw [he] at h'; cases h'
      | some e => simp
    · rw [if_neg (by rw [h']; simp)]
  unfold prepare
  rw [hd]
  have htr : trainStep s = .ok s := by
    unfold trainStep
    rw [h]
    cases s.training <;> rfl
  have hte : testStep s = .ok s := by
    unfold testStep
    rcases ht with h' | h'
    · obtain ⟨e, he⟩ := Option.isSome_iff_exists.1 h'
      rw [he]
      cases s.test <;> simp
    · rw [h']; rfl
  rw [htr]
  simp only [hte]

/-- C226. The test error is disabled when neither the basis nor its evaluations at the test inputs are given. -/
theorem prepare_disabled (s : Setup A B) (h1 : s.basis = none) (h2 : s.basisEvalTest = none) :
    (prepare s).testError = false := by
  have hd : (disable s).testError = false := by
    unfold disable
    rw [h1, h2]
    cases hs : s.testError <;> simp [hs]
  have ht : ∀ t, trainStep (disable s) = .ok t → t.testError = false := by
    intro t h
    unfold trainStep at h
    split at h
    · simp only [bind, Except.bind] at h
      split at h
      · cases h
      · cases h; exact hd
    · cases h; exact hd
  unfold prepare
  split
  · exact hd
  · rename_i t heq
    have h3 := ht t heq
    have : testStep t = .ok t := by unfold testStep; rw [h3]; rfl
    rw [this]
    exact h3

/-- Full statement (false of the code): missing training inputs are refused. The code ignores its own exception: nothing is raised and the
evaluations are left undefined. -/
theorem prepare_missing_wrong (s : Setup A B) (b : A → Py B) (hb : s.basis = some b) (h1 : s.training = some (.list none))
    (h2 : s.basisEval = none) : prepare s = s ∧ (prepare s).basisEval = none := by
  have key : prepare s = s := by
    unfold prepare
    rw [disable_ok s b hb]
    unfold trainStep
    rw [h1, h2]; rfl
  exact ⟨key, by rw [key, h2]⟩

/-- C226. An exception of the evaluation at the test inputs is ignored too: the test error stays required without evaluations. -/
theorem prepare_test_wrong (s : Setup A B) (b : A → Py B) (ex : B) (t : A) (e : PyErr) (hb : s.basis = some b)
    (h1 : s.basisEval = some ex) (h2 : s.test = some (.arr t)) (h3 : b t = .error e) (h4 : s.basisEvalTest = none)
    (h5 : s.testError = true) : (prepare s).testError = true ∧ (prepare s).basisEvalTest = none := by
  have key : prepare s = s := by
    unfold prepare
    rw [disable_ok s b hb]
    have htr : trainStep s = .ok s := by
      unfold trainStep
      rw [h1]
      cases s.training <;> rfl
    rw [htr]
    simp only
    unfold testStep
    rw [h5, h2, h4, hb]
    simp only [if_true, evalData, callBasis, h3, bind, Except.bind]
  rw [key]
  exact ⟨h5, h4⟩

/-- Witness for `prepare_eval`: the list of the training data with its outputs, an array of test inputs. -/
example : prepare (A := Nat) (B := Nat) ⟨some (fun x => .ok (x + 1)), none, none, some (.list (some 3)), some (.arr 5), true⟩ =
    ⟨(prepare (A := Nat) (B := Nat) ⟨some (fun x => .ok (x + 1)), none, none, some (.list (some 3)), some (.arr 5), true⟩).basis,
      some 4, some 6, some (.list (some 3)), some (.arr 5), true⟩ := rfl

/-! ### The loss for density estimation -/

theorem mean_affine (y : List ℝ) (c : ℝ) (hy : y ≠ []) : mean (y.map (fun t => c - 2 * t)) = c - 2 * (y.sum / y.length) := by
  have hn : (y.length : ℝ) ≠ 0 := by
    rw [Nat.cast_ne_zero, Ne, List.length_eq_zero_iff]; exact hy
  have hs : ∀ l : List ℝ, (l.map (fun t => c - 2 * t)).sum = l.length * c - 2 * l.sum := by
    intro l
    induction l with
    | nil => simp
    | cons a l ih => rw [List.map_cons, List.sum_cons, ih, List.sum_cons, List.length_cons]; push_cast; ring
  unfold mean
  rw [List.length_map, hs]
  field_simp

/-- C227. The risk of a function with a method `norm`: its squared norm minus twice the mean of its values at the sample. -/
theorem densityRisk_fun (eval call : A → Py (List ℝ)) (c : ℝ) (x : A) (y : List ℝ) (arg : Option ℝ) (h : eval x = .ok y) (hy : y ≠ []) :
    densityRisk (.obj eval call (.ok c)) x arg = .ok (some (c ^ 2 - 2 * (y.sum / y.length))) := by
  unfold densityRisk predict
  simp only [h, bind, Except.bind, lossRef, Option.map_some, mean_affine y (c ^ 2) hy]

/-- C227. The risk from the evaluations and the norm. -/
theorem densityRisk_evals (y : List ℝ) (c : ℝ) (x : A) (hy : y ≠ []) :
    densityRisk (.evals y) x (some c) = .ok (some (c ^ 2 - 2 * (y.sum / y.length))) := by
  unfold densityRisk predict
  simp only [bind, Except.bind, lossRef, Option.map_some, mean_affine y (c ^ 2) hy]

/-- C227. A function which has only a call. -/
theorem densityRisk_call (eval call : A → Py (List ℝ)) (c : ℝ) (x : A) (y : List ℝ) (e : PyErr) (arg : Option ℝ)
    (h0 : eval x = .error e) (h : call x = .ok y) (hy : y ≠ []) :
    densityRisk (.obj eval call (.ok c)) x arg = .ok (some (c ^ 2 - 2 * (y.sum / y.length))) := by
  unfold densityRisk predict
  simp only [h0, h, bind, Except.bind, lossRef, Option.map_some, mean_affine y (c ^ 2) hy]

/-- C227. Without norm the risk is `nan`. -/
theorem densityRisk_nan (y : List ℝ) (x : A) : densityRisk (.evals y) x none = .ok none := rfl

/-- C227. `test_error` is the risk; another type of error is refused. -/
theorem densityTestError_spec (ty : String) (f : Fun A) (x : A) (arg : Option ℝ) :
    (ty = "risk" → densityTestError ty f x arg = densityRisk f x arg) ∧
    (ty ≠ "risk" → densityTestError ty f x arg = .error .assertionError) :=
  ⟨fun h => if_pos h, fun h => if_neg h⟩

/-- C227. On a finite set with weights `w`, for a density `p`: the expectation, for one point of law `p w`, of the risk of a function `f` with
its norm is the squared distance of `f` to the density, up to a constant. The minimisation of the risk is that of the distance. -/
theorem densityRisk_expectation {X : Type} [Fintype X] (w p f : X → ℝ) (hp : ∑ x, w x * p x = 1) (c : ℝ)
    (hc : c ^ 2 = ∑ x, w x * f x ^ 2) :
    ∃ r : X → ℝ, (∀ x, densityRisk (.obj (fun x : X => .ok [f x]) (fun x => .ok [f x]) (.ok c)) x none = .ok (some (r x))) ∧
      ∑ x, (w x * p x) * r x = ∑ x, w x * (f x - p x) ^ 2 - ∑ x, w x * p x ^ 2 := by
  refine ⟨fun x => c ^ 2 - 2 * f x, ?_, ?_⟩
  · intro x
    rw [densityRisk_fun _ _ c x [f x] none rfl (by simp)]
    simp
  · have h1 : ∑ x, (w x * p x) * (c ^ 2 - 2 * f x) = c ^ 2 * ∑ x, w x * p x - 2 * ∑ x, w x * p x * f x := by
      rw [mul_sum, mul_sum, ← sum_sub_distrib]
      apply sum_congr rfl; intro x _; ring
    rw [h1, hp, hc, mul_one, mul_sum, ← sum_sub_distrib, ← sum_sub_distrib]
    apply sum_congr rfl; intro x _; ring

/-- Witness for `densityRisk_expectation`: the uniform density on two points. -/
example : ∑ x : Fin 2, (1 / 2 : ℝ) * (fun _ => 1) x = 1 ∧ (2 : ℝ) ^ 2 = ∑ x : Fin 2, (1 / 2 : ℝ) * ((fun _ => 2) x : ℝ) ^ 2 := by
  constructor <;> simp

end Verif.LearningSetup
