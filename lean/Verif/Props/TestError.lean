import Verif.Model.TestError
import Mathlib.Tactic.Linarith
import Mathlib.Tactic.Positivity
import Mathlib.Algebra.Order.BigOperators.Group.Finset
import Mathlib.Order.Bounds.Basic

/-!
# Test errors and random evaluations of functions (C224, C225)
-/

namespace Verif.TestError

open Verif.Arr Verif.Losses

variable {M : Type}

/-! ## Specification -/

/-- The value at the point `i`, component `j`, of evaluations of a function with `m` outputs (`[n]` is allowed for one output). -/
def value (a : Arr ℝ) (i j : Nat) : ℝ := if a.shape.length = 1 then a.get [i] else a.get [i, j]

/-- Evaluations of `m` outputs at `n` points. -/
def Evals (a : Arr ℝ) (n m : Nat) : Prop := a.shape = [n, m] ∨ (m = 1 ∧ a.shape = [n])

/-- The Euclidean norm of the value of `u` at the point `i`. -/
noncomputable def pointNorm (u : Nat → Nat → ℝ) (m i : Nat) : ℝ := Real.sqrt (∑ j ∈ Finset.range m, u i j ^ 2)

/-- The specified errors of `f` with reference `g` at `n` points: relative errors in the norms `l2` and `linf`. -/
structure IsErrors (f g : Nat → Nat → ℝ) (n m : Nat) (e : ℝ × ℝ) : Prop where
  l2 : e.1 = Real.sqrt (∑ i ∈ Finset.range n, ∑ j ∈ Finset.range m, (f i j - g i j) ^ 2) /
    Real.sqrt (∑ i ∈ Finset.range n, ∑ j ∈ Finset.range m, g i j ^ 2)
  linf : ∃ a b, IsGreatest {t | ∃ i, i < n ∧ t = pointNorm (fun i j => f i j - g i j) m i} a ∧
    IsGreatest {t | ∃ i, i < n ∧ t = pointNorm g m i} b ∧ e.2 = a / b

/-! ## Proofs -/

theorem foldl_max (v : Nat → ℝ) (hv : ∀ i, 0 ≤ v i) (n : Nat) :
    (∀ i, i < n → v i ≤ (List.range n).foldl (fun m i => max m (v i)) 0) ∧
    0 ≤ (List.range n).foldl (fun m i => max m (v i)) 0 ∧
    (0 < n → ∃ i, i < n ∧ (List.range n).foldl (fun m i => max m (v i)) 0 = v i) := by
  induction n with
  | zero => exact ⟨fun i hi => absurd hi (by omega), le_refl _, fun h => absurd h (by omega)⟩
  | succ n ih =>
    obtain ⟨h1, h2, h3⟩ := ih
    rw [List.range_succ, List.foldl_append]
    simp only [List.foldl_cons, List.foldl_nil]
    refine ⟨?_, le_trans h2 (le_max_left _ _), ?_⟩
    · intro i hi
      rcases Nat.lt_succ_iff_lt_or_eq.1 hi with h | h
      · exact le_trans (h1 i h) (le_max_left _ _)
      · subst h; exact le_max_right _ _
    · intro _
      rcases le_total ((List.range n).foldl (fun m i => max m (v i)) 0) (v n) with h | h
      · exact ⟨n, by omega, max_eq_right h⟩
      · rw [max_eq_left h]
        by_cases hn : n = 0
        · subst hn
          exact ⟨0, by omega, le_antisymm (hv 0) h⟩
        · obtain ⟨i, hi, he⟩ := h3 (by omega)
          exact ⟨i, by omega, he⟩

theorem toRows_spec (a : Arr ℝ) (n m : Nat) (h : Evals a n m) :
    ∃ b, toRows n a = .ok b ∧ b.shape = [n, m] ∧ ∀ i j, j < m → b.get [i, j] = value a i j := by
  rcases h with h | ⟨rfl, h⟩
  · refine ⟨a, ?_, h, fun i j _ => ?_⟩
    · unfold toRows; rw [h]; simp
    · unfold value; rw [h]; simp
  · refine ⟨⟨[n, 1], fun i => a.get [i.getD 0 0]⟩, ?_, rfl, fun i j _ => ?_⟩
    · unfold toRows; rw [h]; simp
    · unfold value; rw [h]; simp

theorem errors_spec (f g : Arr ℝ) (n m : Nat) (hn : 0 < n) (hf : Evals f n m) (hg : Evals g n m) :
    ∃ e, errors n f g = .ok e ∧ IsErrors (value f) (value g) n m e := by
  obtain ⟨f', f1, f2, f3⟩ := toRows_spec f n m hf
  obtain ⟨g', g1, g2, g3⟩ := toRows_spec g n m hg
  obtain ⟨d, d1, d2, d3⟩ : ∃ d, sub2 f' g' = .ok d ∧ d.shape = [n, m] ∧
      ∀ i j, i < n → j < m → d.get [i, j] = value f i j - value g i j := by
    refine ⟨_, by unfold sub2; rw [f2, g2]; simp [bdim, bind, Except.bind]; rfl, rfl, ?_⟩
    intro i j hi hj
    have h1 : bidx n i = i := by unfold bidx; split <;> omega
    have h2 : bidx m j = j := by unfold bidx; split <;> omega
    simp [h1, h2, f3 i j hj, g3 i j hj]
  have hrow : ∀ (b : Arr ℝ) (u : Nat → Nat → ℝ), b.shape = [n, m] → (∀ i j, i < n → j < m → b.get [i, j] = u i j) →
      frobenius b = Real.sqrt (∑ i ∈ Finset.range n, ∑ j ∈ Finset.range m, u i j ^ 2) ∧
      IsGreatest {t | ∃ i, i < n ∧ t = pointNorm u m i} (maxRow b) := by
    intro b u hb hu
    have hrn : ∀ i, i < n → rowNorm b i = pointNorm u m i := by
      intro i hi
      unfold rowNorm pointNorm
      rw [hb]
      congr 1
      apply Finset.sum_congr rfl
      intro j hj
      rw [hu i j hi (by simpa using hj)]
    refine ⟨?_, ?_, ?_⟩
    · unfold frobenius
      rw [hb]
      congr 1
      apply Finset.sum_congr rfl
      intro i hi
      apply Finset.sum_congr rfl
      intro j hj
      rw [hu i j (by simpa using hi) (by simpa using hj)]
    · obtain ⟨i, hi, he⟩ := (foldl_max (rowNorm b) (fun i => Real.sqrt_nonneg _) n).2.2 hn
      refine ⟨i, hi, ?_⟩
      rw [← hrn i hi, ← he]
      unfold maxRow
      rw [hb]; rfl
    · rintro t ⟨i, hi, rfl⟩
      rw [← hrn i hi]
      have := (foldl_max (rowNorm b) (fun i => Real.sqrt_nonneg _) n).1 i hi
      unfold maxRow
      rw [hb]; exact this
  obtain ⟨p1, p2⟩ := hrow d (fun i j => value f i j - value g i j) d2 d3
  obtain ⟨q1, q2⟩ := hrow g' (value g) g2 (fun i j _ hj => g3 i j hj)
  refine ⟨(frobenius d / frobenius g', maxRow d / maxRow g'), ?_, ⟨by rw [p1, q1], maxRow d, maxRow g', p2, q2, rfl⟩⟩
  unfold errors
  simp only [f1, g1, d1, bind, Except.bind]
  rw [if_neg (by omega)]

/-- C224. `test_error(g, x)` for test points other than one number, and `g` a function or an array of evaluations: the relative errors. -/
theorem testError_points (random : M → Count → Points) (f : Points → Arr ℝ) (fm : Option M) (g : Ref M) (x : Points) (m : Nat)
    (gx : Arr ℝ) (hg : match g with | .fn g _ => gx = g x | .evals a => gx = a) (hn : 0 < x.rows.length)
    (hs : x.rows.length * x.cols ≠ 1) (h1 : Evals (f x) x.rows.length m) (h2 : Evals gx x.rows.length m) :
    ∃ e, testError random f fm g (.points x) = .ok (some e) ∧ IsErrors (value (f x)) (value gx) x.rows.length m e := by
  obtain ⟨e, e1, e2⟩ := errors_spec (f x) gx x.rows.length m hn h1 h2
  refine ⟨e, ?_, e2⟩
  cases g with
  | fn g gm =>
    simp only at hg
    subst hg
    unfold testError
    simp only
    rw [if_neg (show ¬ (Count.points x).size = 1 from hs)]
    simp only [atPoints, e1, bind, Except.bind]
  | evals a =>
    simp only at hg
    subst hg
    have h0 : gx.shape.headD 0 = x.rows.length := by
      rcases h2 with h | ⟨_, h⟩ <;> rw [h] <;> rfl
    unfold testError
    simp only
    rw [if_neg (show ¬ (Count.points x).size = 1 from hs)]
    simp only [atPoints, if_pos h0, e1, bind, Except.bind]

/-- C224. Evaluations whose number is not the number of points are refused. -/
theorem testError_refused (random : M → Count → Points) (f : Points → Arr ℝ) (fm : Option M) (a : Arr ℝ) (x : Points)
    (hs : x.rows.length * x.cols ≠ 1) (h : a.shape.headD 0 ≠ x.rows.length) :
    testError random f fm (.evals a) (.points x) = .error .assertionError := by
  unfold testError
  simp only
  rw [if_neg (show ¬ (Count.points x).size = 1 from hs)]
  simp only [atPoints, if_neg h, bind, Except.bind]

/-- C224. `test_error(g, n, measure)` is the test error at a sample of the measure. -/
theorem testError_measure (random : M → Count → Points) (f : Points → Arr ℝ) (fm : Option M) (g : Points → Arr ℝ) (gm : Option M)
    (n : Count) (μ : M) (m : Nat) (hn : 0 < (random μ n).rows.length)
    (hs : (random μ n).rows.length * (random μ n).cols ≠ 1) (h1 : Evals (f (random μ n)) (random μ n).rows.length m)
    (h2 : Evals (g (random μ n)) (random μ n).rows.length m) :
    ∃ e, testError random f fm (.fn g gm) n (some μ) = .ok (some e) ∧
      IsErrors (value (f (random μ n))) (value (g (random μ n))) (random μ n).rows.length m e := by
  obtain ⟨e, e1, e2⟩ := errors_spec _ _ _ m hn h1 h2
  refine ⟨e, ?_, e2⟩
  have h0 : (g (random μ n)).shape.headD 0 = (random μ n).rows.length := by
    rcases h2 with h | ⟨_, h⟩ <;> rw [h] <;> rfl
  unfold testError withMeasure
  simp only
  rw [if_neg (show ¬ (Count.points (random μ n)).size = 1 from hs)]
  simp only [atPoints, if_pos h0, e1, bind, Except.bind]

/-- C224. `test_error(g, n)` for a number of points: the measure is the one of the function, otherwise the one of `g`. -/
theorem testError_default (random : M → Count → Points) (f : Points → Arr ℝ) (fm : Option M) (g : Points → Arr ℝ) (gm : Option M)
    (k : Nat) (μ : M) (h : fm.or gm = some μ) :
    testError random f fm (.fn g gm) (.num k) = testError random f fm (.fn g gm) (.num k) (some μ) := by
  unfold testError
  simp only [show (Count.num k).size = 1 from rfl, if_true]
  cases fm with
  | some m => simp only [Option.or] at h; cases h; rfl
  | none => simp only [Option.or] at h; subst h; rfl

/-- C224. The errors are zero exactly when the functions have the same values at the points, for a reference which is not zero. -/
theorem isErrors_zero (f g : Nat → Nat → ℝ) (n m : Nat) (e : ℝ × ℝ) (h : IsErrors f g n m e)
    (hg : ∃ i j, i < n ∧ j < m ∧ g i j ≠ 0) : e.1 = 0 ↔ ∀ i j, i < n → j < m → f i j = g i j := by
  obtain ⟨i0, j0, hi0, hj0, h0⟩ := hg
  have hpos : 0 < ∑ i ∈ Finset.range n, ∑ j ∈ Finset.range m, g i j ^ 2 := by
    refine Finset.sum_pos' (fun i _ => Finset.sum_nonneg fun j _ => sq_nonneg _) ⟨i0, by simpa using hi0, ?_⟩
    exact Finset.sum_pos' (fun j _ => sq_nonneg _) ⟨j0, by simpa using hj0, by positivity⟩
  rw [h.l2, div_eq_zero_iff, or_iff_left (Real.sqrt_ne_zero'.2 hpos),
    Real.sqrt_eq_zero (Finset.sum_nonneg fun i _ => Finset.sum_nonneg fun j _ => sq_nonneg _),
    Finset.sum_eq_zero_iff_of_nonneg (fun i _ => Finset.sum_nonneg fun j _ => sq_nonneg _)]
  constructor
  · intro hh i j hi hj
    have := (Finset.sum_eq_zero_iff_of_nonneg (fun j _ => sq_nonneg _)).1 (hh i (by simpa using hi)) j (by simpa using hj)
    exact sub_eq_zero.1 (pow_eq_zero_iff (two_ne_zero) |>.1 this)
  · intro hh i hi
    apply Finset.sum_eq_zero
    intro j hj
    rw [hh i j (by simpa using hi) (by simpa using hj)]; simp

/-- C224. The code, for one number as the only test point: no error is computed (`UnboundLocalError`), with a measure or with evaluations. -/
theorem testError_one_wrong (random : M → Count → Points) (f : Points → Arr ℝ) (fm : Option M) (g : Points → Arr ℝ) (gm : Option M)
    (n : Count) (μ : M) (a : Arr ℝ) (x : Points) (hx : x.rows.length = 1) (hc : x.cols = 1)
    (h : (random μ n).rows.length = 1) (h' : (random μ n).cols = 1) :
    testError random f fm (.fn g gm) n (some μ) = .ok none ∧ testError random f fm (.evals a) (.points x) = .ok none := by
  constructor
  · unfold testError withMeasure
    simp only
    rw [if_pos (show (Count.points (random μ n)).size = 1 by unfold Count.size; simp only; rw [h, h'])]
  · unfold testError
    simp only
    rw [if_pos (show (Count.points x).size = 1 by unfold Count.size; simp only; rw [hx, hc])]

/-- Witness: two points, `f = (3, 4)`, `g = (0, 5)`. -/
example : Evals ⟨[2], fun i => if i = [0] then 3 else 4⟩ 2 1 ∧ Evals ⟨[2, 1], fun i => if i = [0, 0] then 0 else 5⟩ 2 1 ∧
    (⟨[[0], [1]], 1⟩ : Points).rows.length * (⟨[[0], [1]], 1⟩ : Points).cols ≠ 1 := ⟨.inr ⟨rfl, rfl⟩, .inl rfl, by decide⟩

/-- C225. `random(n)` of a function with a probability measure: the evaluations at a sample of `n` points, and the sample. -/
theorem random_self (random : M → Nat → Points) (f : Points → Arr ℝ) (μ : M) (n : Nat) :
    randomFn random f (.prob μ) n = .ok (f (random μ n), random μ n) := rfl

/-- C225. `random(n)` without a probability measure is refused. -/
theorem random_refused (random : M → Nat → Points) (f : Points → Arr ℝ) (o : Option M) (n : Nat) :
    randomFn random f (.other o) n = .error .valueError := rfl

/-- Full statement (false of the code): `random(n, measure)` draws from the given measure. Here: for a function which already has a
probability measure. -/
theorem random_given_partial (random : M → Nat → Points) (f : Points → Arr ℝ) (self μ : M) (n : Nat) :
    randomFn random f (.prob self) n (some (.prob μ)) = .ok (f (random μ n), random μ n) := rfl

/-- C225. The code refuses the given probability measure for a function without one: it tests the attribute and not the argument. -/
theorem random_given_wrong (random : M → Nat → Points) (f : Points → Arr ℝ) (o : Option M) (μ : M) (n : Nat) :
    randomFn random f (.other o) n (some (.prob μ)) = .error .valueError := rfl

/-- C225. The code accepts a measure which is not a probability measure, for a function which has one. -/
theorem random_other_wrong (random : M → Nat → Points) (f : Points → Arr ℝ) (self μ : M) (n : Nat) :
    randomFn random f (.prob self) n (some (.other (some μ))) = .ok (f (random μ n), random μ n) := rfl

end Verif.TestError
