import Verif.Model.BSplines
import Mathlib.Analysis.Calculus.Deriv.Mul
import Mathlib.Analysis.Calculus.Deriv.Add
import Mathlib.Analysis.Calculus.Deriv.Comp
import Mathlib.Analysis.Calculus.Deriv.Linear
import Mathlib.Algebra.BigOperators.Intervals
import Mathlib.Data.List.GetD
import Mathlib.Tactic.Linarith
import Mathlib.Tactic.FieldSimp
import Mathlib.Tactic.Ring
import Mathlib.Tactic.NormNum

/-! B-splines. -/

namespace Verif.BSplines

open Finset

/-- The knots are increasing. -/
def Increasing (t : List ℝ) : Prop := ∀ i j, i < j → j < t.length → t.getD i 0 < t.getD j 0

theorem knot_lt {t : List ℝ} (ht : Increasing t) {i j : Nat} (h : i < j) (hj : j < t.length) : knot t i < knot t j := ht i j h hj

theorem knot_le {t : List ℝ} (ht : Increasing t) {i j : Nat} (h : i ≤ j) (hj : j < t.length) : knot t i ≤ knot t j := by
  rcases Nat.lt_or_ge i j with h' | h'
  · exact (knot_lt ht h' hj).le
  · rw [show i = j by omega]

/-- The support. -/
theorem bseq_support {t : List ℝ} (ht : Increasing t) (x : ℝ) (j i : Nat) (h : ¬ (knot t i < x ∧ x ≤ knot t (i + j + 1))) :
    bseq t x j i = 0 := by
  induction j generalizing i with
  | zero =>
    rw [bseq]
    by_cases hi : i < t.length - 1
    · rw [if_pos hi, if_neg h]
    · rw [if_neg hi]
  | succ j ih =>
    rw [bseq]
    split
    · rename_i hi
      by_cases h1 : knot t i < x
      · have h2 : ¬ x ≤ knot t (i + (j + 1) + 1) := fun hc => h ⟨h1, hc⟩
        have h3 : knot t (i + j + 1) ≤ knot t (i + (j + 1) + 1) := knot_le ht (by omega) (by omega)
        rw [ih i (fun hc => h2 (hc.2.trans h3)), ih (i + 1) (fun hc => h2 (by rw [show i + (j + 1) + 1 = i + 1 + j + 1 by ring]; exact hc.2))]
        ring
      · have h3 : knot t i ≤ knot t (i + 1) := knot_le ht (by omega) (by omega)
        rw [ih i (fun hc => h1 hc.1), ih (i + 1) (fun hc => h1 (lt_of_le_of_lt h3 hc.1))]
        ring
    · rfl

/-- The functions are nonnegative. -/
theorem bseq_nonneg {t : List ℝ} (ht : Increasing t) (x : ℝ) (j i : Nat) : 0 ≤ bseq t x j i := by
  induction j generalizing i with
  | zero =>
    rw [bseq]
    split
    · split <;> norm_num
    · exact le_rfl
  | succ j ih =>
    rw [bseq]
    split
    · rename_i hi
      have d1 : knot t i < knot t (i + (j + 1)) := knot_lt ht (by omega) (by omega)
      have d2 : knot t (i + 1) < knot t (i + (j + 1) + 1) := knot_lt ht (by omega) (by omega)
      apply add_nonneg
      · by_cases h : knot t i < x
        · exact mul_nonneg (div_nonneg (by linarith) (by linarith)) (ih i)
        · rw [bseq_support ht x j i (fun hc => h hc.1), mul_zero]
      · by_cases h : x ≤ knot t (i + (j + 1) + 1)
        · exact mul_nonneg (div_nonneg (by linarith) (by linarith)) (ih (i + 1))
        · rw [bseq_support ht x j (i + 1) (fun hc => h (by rw [show i + (j + 1) + 1 = i + 1 + j + 1 by ring]; exact hc.2)), mul_zero]
    · exact le_rfl

/-- The functions are positive inside their supports. -/
theorem bseq_pos {t : List ℝ} (ht : Increasing t) (x : ℝ) (j i : Nat) (hi : i < t.length - 1 - j) (h1 : knot t i < x)
    (h2 : x < knot t (i + j + 1) ∨ x ≤ knot t (i + 1)) : 0 < bseq t x j i := by
  induction j generalizing i with
  | zero =>
    rw [bseq, if_pos (by omega), if_pos ⟨h1, by rcases h2 with h2 | h2; exacts [h2.le, h2]⟩]
    norm_num
  | succ j ih =>
    rw [bseq, if_pos hi]
    have d1 : knot t i < knot t (i + (j + 1)) := knot_lt ht (by omega) (by omega)
    have d2 : knot t (i + 1) < knot t (i + (j + 1) + 1) := knot_lt ht (by omega) (by omega)
    have hlt : x < knot t (i + (j + 1) + 1) := by
      rcases h2 with h2 | h2
      · exact h2
      · exact lt_of_le_of_lt h2 d2
    by_cases h : knot t (i + 1) < x
    · apply add_pos_of_nonneg_of_pos
      · exact mul_nonneg (div_nonneg (by linarith) (by linarith)) (bseq_nonneg ht x j i)
      · exact mul_pos (div_pos (by linarith) (by linarith)) (ih (i + 1) (by omega) h (.inl (by
          rw [show i + 1 + j + 1 = i + (j + 1) + 1 by ring]; exact hlt)))
    · push Not at h
      apply add_pos_of_pos_of_nonneg
      · exact mul_pos (div_pos (by linarith) (by linarith)) (ih i (by omega) h1 (.inr h))
      · exact mul_nonneg (div_nonneg (by linarith) (by linarith)) (bseq_nonneg ht x j (i + 1))

/-- C119. The B-spline number `i` of degree `d` is nonnegative, vanishes outside of the interval from knot `i` (excluded) to knot
`i + d + 1` and is positive inside. There are as many functions as `cardinal()`. -/
theorem eval_spec {t : List ℝ} (ht : Increasing t) (d : Nat) (x : ℝ) :
    (eval t d x).length = cardinal t d ∧ ∀ i (hi : i < (eval t d x).length),
      0 ≤ (eval t d x)[i] ∧ ((eval t d x)[i] ≠ 0 → t.getD i 0 < x ∧ x ≤ t.getD (i + d + 1) 0) ∧
      (t.getD i 0 < x → x < t.getD (i + d + 1) 0 → 0 < (eval t d x)[i]) := by
  refine ⟨by simp [eval, cardinal], fun i hi => ?_⟩
  have hi' : i < t.length - 1 - d := by simpa [eval] using hi
  have e : (eval t d x)[i] = bseq t x d i := by simp [eval]
  rw [e]
  refine ⟨bseq_nonneg ht x d i, fun h => ?_, fun h1 h2 => bseq_pos ht x d i hi' h1 (.inl h2)⟩
  by_contra hc
  exact h (bseq_support ht x d i hc)

/-- The sum of the functions of degree `j`. -/
theorem sum_bseq {t : List ℝ} (ht : Increasing t) (x : ℝ) (j : Nat) (hj : j + 1 < t.length - j) (h1 : knot t j < x)
    (h2 : x ≤ knot t (t.length - 1 - j)) : ∑ i ∈ range (t.length - 1 - j), bseq t x j i = 1 := by
  induction j with
  | zero =>
    -- the interval that contains x
    have hex : ∃ k, x ≤ knot t k := ⟨_, h2⟩
    classical
    obtain ⟨k, hk⟩ : ∃ k, Nat.find hex = k := ⟨_, rfl⟩
    have hk1 : x ≤ knot t k := hk ▸ Nat.find_spec hex
    have hk2 : ∀ l, l < k → knot t l < x := fun l hl => not_le.1 (Nat.find_min hex (hk ▸ hl))
    have hk0 : k ≠ 0 := by rintro rfl; linarith
    have hkn : k ≤ t.length - 1 := by rw [← hk]; exact Nat.find_min' hex (by simpa using h2)
    rw [sum_eq_single (k - 1)]
    · rw [bseq, if_pos (by omega), if_pos ⟨hk2 _ (by omega), by rw [show k - 1 + 1 = k by omega]; exact hk1⟩]
    · intro i hi hne
      rw [mem_range] at hi
      apply bseq_support ht
      rintro ⟨c1, c2⟩
      rcases Nat.lt_or_ge i k with h | h
      · have : knot t (i + 0 + 1) < x := hk2 _ (by omega)
        linarith
      · have : knot t k ≤ knot t i := knot_le ht h (by omega)
        linarith
    · intro h
      exact absurd (mem_range.2 (by omega)) h
  | succ j ih =>
    have hM : t.length - 1 - j = (t.length - 1 - (j + 1)) + 1 := by omega
    generalize hMd : t.length - 1 - (j + 1) = M at *
    have hx1 : knot t j < x := lt_of_le_of_lt (knot_le ht (by omega) (by omega)) h1
    have hx2 : x ≤ knot t (t.length - 1 - j) := h2.trans (knot_le ht (by omega) (by omega))
    have hsum := ih (by omega) hx1 hx2
    rw [hM] at hsum
    set w : Nat → ℝ := fun i => (x - knot t i) / (knot t (i + (j + 1)) - knot t i) with hw
    have hstep : ∀ i ∈ range M, bseq t x (j + 1) i = w i * bseq t x j i + (bseq t x j (i + 1) - w (i + 1) * bseq t x j (i + 1)) := by
      intro i hi
      rw [mem_range] at hi
      rw [bseq, if_pos (by omega)]
      have d2 : knot t (i + 1) < knot t (i + (j + 1) + 1) := knot_lt ht (by omega) (by omega)
      have e : knot t (i + 1 + (j + 1)) = knot t (i + (j + 1) + 1) := by congr 1; ring
      simp only [hw, e]
      have : knot t (i + (j + 1) + 1) - knot t (i + 1) ≠ 0 := by linarith
      field_simp
      ring
    rw [sum_congr rfl hstep, sum_add_distrib, sum_sub_distrib]
    have z0 : bseq t x j 0 = 0 := by
      apply bseq_support ht
      rintro ⟨-, c2⟩
      rw [show 0 + j + 1 = j + 1 by ring] at c2
      linarith
    have zM : bseq t x j M = 0 := by
      apply bseq_support ht
      rintro ⟨c1, -⟩
      linarith
    have s1 : ∑ i ∈ range M, bseq t x j (i + 1) = 1 := by
      rw [sum_range_succ'] at hsum
      rw [z0, add_zero] at hsum
      exact hsum
    have s2 : ∑ i ∈ range M, w (i + 1) * bseq t x j (i + 1) = ∑ i ∈ range M, w i * bseq t x j i := by
      have a1 := sum_range_succ' (fun i => w i * bseq t x j i) M
      have a2 := sum_range_succ (fun i => w i * bseq t x j i) M
      rw [z0, mul_zero, add_zero] at a1
      rw [zM, mul_zero, add_zero] at a2
      rw [← a1, a2]
    rw [s1, s2]
    ring

theorem list_sum_map_range (n : Nat) (f : Nat → ℝ) : ((List.range n).map f).sum = ∑ i ∈ range n, f i := by
  induction n with
  | zero => simp
  | succ n ih => rw [List.range_succ, List.map_append, List.sum_append, ih, sum_range_succ]; simp

/-- C120. Partition of unity: at every point from knot `d` (excluded) to knot `n - 1 - d`, the values of the B-splines of degree `d` sum
to 1. -/
theorem eval_sum {t : List ℝ} (ht : Increasing t) (d : Nat) (hd : d + 1 < t.length - d) (x : ℝ) (h1 : t.getD d 0 < x)
    (h2 : x ≤ t.getD (t.length - 1 - d) 0) : (eval t d x).sum = 1 := by
  unfold eval
  rw [list_sum_map_range]
  exact sum_bseq ht x d hd h1 h2

theorem dseq_succ (t : List ℝ) (x : ℝ) (k j i : Nat) : dseq t x (k + 1) (j + 1) i = if i < t.length - 1 - (j + 1) then
      ((k + 1 : Nat) : ℝ) / (knot t (i + (j + 1)) - knot t i) * dseq t x k j i -
        ((k + 1 : Nat) : ℝ) / (knot t (i + (j + 1) + 1) - knot t (i + 1)) * dseq t x k j (i + 1) +
        (x - knot t i) / (knot t (i + (j + 1)) - knot t i) * dseq t x (k + 1) j i +
        (knot t (i + (j + 1) + 1) - x) / (knot t (i + (j + 1) + 1) - knot t (i + 1)) * dseq t x (k + 1) j (i + 1)
    else 0 := by rw [dseq]

/-- The derivatives. -/
theorem dseq_hasDeriv {t : List ℝ} (x : ℝ) (hx : ∀ i, i < t.length → x ≠ t.getD i 0) (j i k : Nat) :
    HasDerivAt (fun x => dseq t x k j i) (dseq t x (k + 1) j i) x := by
  have hxa : ∀ i, i < t.length → x ≠ knot t i := hx
  induction j generalizing i k with
  | zero =>
    cases k with
    | succ k =>
      simp only [dseq]
      exact hasDerivAt_const x 0
    | zero =>
      simp only [dseq, bseq]
      by_cases hi : i < t.length - 1
      · simp only [if_pos hi]
        -- locally constant
        have hlt : ∀ a : ℝ, x ≠ a → ∀ᶠ y in nhds x, (a < y ↔ a < x) := by
          intro a ha
          rcases lt_or_gt_of_ne ha with h | h
          · filter_upwards [Iio_mem_nhds h] with y hy
            exact ⟨fun h' => absurd (lt_trans h' hy) (lt_irrefl _), fun h' => absurd (lt_trans h' h) (lt_irrefl _)⟩
          · filter_upwards [Ioi_mem_nhds h] with y hy
            exact ⟨fun _ => h, fun _ => hy⟩
        have hloc : (fun y => if knot t i < y ∧ y ≤ knot t (i + 1) then (1 : ℝ) else 0) =ᶠ[nhds x]
            (fun _ => if knot t i < x ∧ x ≤ knot t (i + 1) then (1 : ℝ) else 0) := by
          filter_upwards [hlt _ (hxa i (by omega)), hlt _ (hxa (i + 1) (by omega))] with y h1 h2
          have h3 : (y ≤ knot t (i + 1) ↔ x ≤ knot t (i + 1)) := by rw [← not_lt, ← not_lt, h2]
          simp only [h1, h3]
        exact (hasDerivAt_const x _).congr_of_eventuallyEq hloc
      · simp only [if_neg hi]
        exact hasDerivAt_const x 0
  | succ j ih =>
    by_cases hi : i < t.length - 1 - (j + 1)
    · set c := knot t (i + (j + 1)) - knot t i with hc
      set c' := knot t (i + (j + 1) + 1) - knot t (i + 1) with hc'
      have ha : HasDerivAt (fun x => (x - knot t i) / c) (1 / c) x := ((hasDerivAt_id x).sub_const _).div_const c
      have hb : HasDerivAt (fun x => (knot t (i + (j + 1) + 1) - x) / c') (-1 / c') x :=
        ((hasDerivAt_id x).const_sub _).div_const c'
      cases k with
      | zero =>
        have h1 : ∀ y, dseq t y 0 (j + 1) i = (y - knot t i) / c * dseq t y 0 j i + (knot t (i + (j + 1) + 1) - y) / c' * dseq t y 0 j (i + 1) := by
          intro y
          simp only [dseq]
          rw [bseq, if_pos hi]
        have h2 : dseq t x (0 + 1) (j + 1) i = (1 / c * dseq t x 0 j i + (x - knot t i) / c * dseq t x (0 + 1) j i) +
            (-1 / c' * dseq t x 0 j (i + 1) + (knot t (i + (j + 1) + 1) - x) / c' * dseq t x (0 + 1) j (i + 1)) := by
          rw [dseq_succ t x 0 j i, if_pos hi, ← hc, ← hc']
          push_cast
          ring
        rw [h2]
        simp only [h1]
        exact (ha.mul (ih i 0)).add (hb.mul (ih (i + 1) 0))
      | succ k =>
        have h1 : ∀ y, dseq t y (k + 1) (j + 1) i = (((k + 1 : Nat) : ℝ) / c * dseq t y k j i - ((k + 1 : Nat) : ℝ) / c' * dseq t y k j (i + 1)) +
            ((y - knot t i) / c * dseq t y (k + 1) j i + (knot t (i + (j + 1) + 1) - y) / c' * dseq t y (k + 1) j (i + 1)) := by
          intro y
          rw [dseq, if_pos hi, ← hc, ← hc']
          ring
        have h2 : dseq t x (k + 1 + 1) (j + 1) i =
            (((k + 1 : Nat) : ℝ) / c * dseq t x (k + 1) j i - ((k + 1 : Nat) : ℝ) / c' * dseq t x (k + 1) j (i + 1)) +
            ((1 / c * dseq t x (k + 1) j i + (x - knot t i) / c * dseq t x (k + 1 + 1) j i) +
            (-1 / c' * dseq t x (k + 1) j (i + 1) + (knot t (i + (j + 1) + 1) - x) / c' * dseq t x (k + 1 + 1) j (i + 1))) := by
          rw [dseq, if_pos hi, ← hc, ← hc']
          push_cast
          ring
        rw [h2]
        simp only [h1]
        exact (((ih i k).const_mul _).sub ((ih (i + 1) k).const_mul _)).add ((ha.mul (ih i (k + 1))).add (hb.mul (ih (i + 1) (k + 1))))
    · have h0 : ∀ y l, dseq t y l (j + 1) i = 0 := by
        intro y l
        cases l with
        | zero => simp only [dseq]; rw [bseq, if_neg hi]
        | succ l => rw [dseq, if_neg hi]
      simp only [h0]
      exact hasDerivAt_const x 0

/-- C121. `eval_derivative(n, x)` is the derivative of order `n` of the functions, at every point that is not a knot: for `n = 0` it is
`eval(x)`, and the derivative of `eval_derivative(n, .)` is `eval_derivative(n + 1, .)`. -/
theorem evalDerivative_spec (t : List ℝ) (d : Nat) :
    (∀ x, evalDerivative t d 0 x = eval t d x) ∧
    ∀ n i x, i < cardinal t d → (∀ k, k < t.length → x ≠ t.getD k 0) →
      HasDerivAt (fun y => (evalDerivative t d n y).getD i 0) ((evalDerivative t d (n + 1) x).getD i 0) x := by
  constructor
  · intro x
    unfold evalDerivative eval
    apply List.map_congr_left
    intro i _
    rw [dseq]
  · intro n i x hi hx
    have e : ∀ l y, (evalDerivative t d l y).getD i 0 = dseq t y l d i := by
      intro l y
      unfold evalDerivative
      rw [List.getD_eq_getElem _ _ (by simpa [cardinal] using hi)]
      simp
    simp only [e]
    exact dseq_hasDeriv x hx d i n

/-! ### Extra knots -/

theorem getD_extra_left (t : List ℝ) (m i : Nat) (hi : i < m) :
    (extraKnots t m).getD i 0 = t.getD 0 0 + (((i : ℝ) - m) * (t.getD 1 0 - t.getD 0 0)) := by
  unfold extraKnots
  rw [List.append_assoc, List.getD_append _ _ _ _ (by simpa using hi), List.getD_eq_getElem _ _ (by simpa using hi)]
  simp

theorem getD_extra_mid (t : List ℝ) (m i : Nat) (hi : i < t.length) : (extraKnots t m).getD (m + i) 0 = t.getD i 0 := by
  unfold extraKnots
  rw [List.append_assoc, List.getD_append_right _ _ _ _ (by simp), List.getD_append _ _ _ _ (by simpa using hi)]
  simp

theorem getD_extra_right (t : List ℝ) (m i : Nat) (hi : i < m) :
    (extraKnots t m).getD (m + t.length + i) 0 =
      t.getD (t.length - 1) 0 + (((i : ℝ) + 1) * (t.getD (t.length - 1) 0 - t.getD (t.length - 2) 0)) := by
  unfold extraKnots
  rw [List.getD_append_right _ _ _ _ (by simp), List.getD_eq_getElem _ _ (by simpa using hi)]
  simp

theorem extra_increasing {t : List ℝ} (ht : Increasing t) (h2 : 2 ≤ t.length) (m : Nat) : Increasing (extraKnots t m) := by
  have a : ∀ i, i + 1 < (extraKnots t m).length → (extraKnots t m).getD i 0 < (extraKnots t m).getD (i + 1) 0 := by
    intro i hi
    have hl : (extraKnots t m).length = m + t.length + m := by simp [extraKnots]; omega
    rw [hl] at hi
    have d0 : t.getD 0 0 < t.getD 1 0 := ht 0 1 (by omega) (by omega)
    have d1 : t.getD (t.length - 2) 0 < t.getD (t.length - 1) 0 := ht _ _ (by omega) (by omega)
    rcases Nat.lt_or_ge (i + 1) m with c | c
    · rw [getD_extra_left t m i (by omega), getD_extra_left t m (i + 1) c]
      push_cast
      nlinarith
    rcases Nat.lt_or_ge i m with c' | c'
    · rw [getD_extra_left t m i c', show i + 1 = m + 0 by omega, getD_extra_mid t m 0 (by omega)]
      have : (m : ℝ) = (i : ℝ) + 1 := by exact_mod_cast (show m = i + 1 by omega)
      rw [this]
      nlinarith
    obtain ⟨k, rfl⟩ : ∃ k, i = m + k := ⟨i - m, by omega⟩
    rcases Nat.lt_or_ge (k + 1) t.length with e | e
    · rw [getD_extra_mid t m k (by omega), show m + k + 1 = m + (k + 1) by ring, getD_extra_mid t m (k + 1) e]
      exact ht _ _ (by omega) e
    rcases Nat.lt_or_ge k t.length with e' | e'
    · rw [getD_extra_mid t m k e', show m + k + 1 = m + t.length + 0 by omega, getD_extra_right t m 0 (by omega), show k = t.length - 1 by omega]
      push_cast
      linarith
    · obtain ⟨q, rfl⟩ : ∃ q, k = t.length + q := ⟨k - t.length, by omega⟩
      rw [show m + (t.length + q) = m + t.length + q by ring, show m + t.length + q + 1 = m + t.length + (q + 1) by ring,
        getD_extra_right t m q (by omega), getD_extra_right t m (q + 1) (by omega)]
      push_cast
      nlinarith
  intro i j hij
  induction j with
  | zero => omega
  | succ j ih =>
    intro hj
    rcases Nat.lt_or_ge i j with h | h
    · exact (ih h (by omega)).trans (a j hj)
    · rw [show i = j by omega]
      exact a j hj

theorem extra_length (t : List ℝ) (m : Nat) : (extraKnots t m).length = m + t.length + m := by simp [extraKnots]; omega

/-- C122. `with_extra_knots(t, m)` on increasing knots: the extended knots are increasing, they contain the given knots, the number of
functions is the number of intervals plus the degree, and the functions form a partition of unity on the whole range of the given knots
(the first knot excluded). -/
theorem extraKnots_spec {t : List ℝ} (ht : Increasing t) (h2 : 2 ≤ t.length) (m : Nat) :
    Increasing (extraKnots t m) ∧ t <:+: extraKnots t m ∧ cardinal (extraKnots t m) m = t.length - 1 + m ∧
    ∀ x, t.getD 0 0 < x → x ≤ t.getD (t.length - 1) 0 → (eval (extraKnots t m) m x).sum = 1 := by
  refine ⟨extra_increasing ht h2 m, ⟨_, _, rfl⟩, ?_, fun x h0 h1 => ?_⟩
  · unfold cardinal
    rw [extra_length]
    omega
  · apply eval_sum (extra_increasing ht h2 m) m (by rw [extra_length]; omega)
    · have := getD_extra_mid t m 0 (by omega)
      rw [Nat.add_zero] at this
      rw [this]
      exact h0
    · rw [extra_length, show m + t.length + m - 1 - m = m + (t.length - 1) by omega, getD_extra_mid t m _ (by omega)]
      exact h1

/-! ### Dilated B-splines -/

/-- Translation of the knots. -/
theorem bseq_translate (t s : List ℝ) (δ x : ℝ) (j i i' : Nat) (hi : i + j + 1 < t.length) (hi' : i' + j + 1 < s.length)
    (h : ∀ k, k ≤ j + 1 → knot t (i + k) = knot s (i' + k) + δ) : bseq t x j i = bseq s (x - δ) j i' := by
  induction j generalizing i i' with
  | zero =>
    rw [bseq, bseq, if_pos (show i < t.length - 1 by omega), if_pos (show i' < s.length - 1 by omega), h 1 (by omega)]
    have := h 0 (by omega)
    rw [Nat.add_zero, Nat.add_zero] at this
    rw [this]
    have e1 : (knot s i' + δ < x ↔ knot s i' < x - δ) := by constructor <;> intro <;> linarith
    have e2 : (x ≤ knot s (i' + 1) + δ ↔ x - δ ≤ knot s (i' + 1)) := by constructor <;> intro <;> linarith
    simp only [e1, e2]
  | succ j ih =>
    have k0 := h 0 (by omega)
    rw [Nat.add_zero, Nat.add_zero] at k0
    have k1 := h 1 (by omega)
    have k2 := h (j + 1) (by omega)
    have k3 := h (j + 1 + 1) (by omega)
    rw [bseq, bseq, if_pos (by omega), if_pos (by omega), ih i i' (by omega) (by omega) (fun k hk => h k (by omega)),
      ih (i + 1) (i' + 1) (by omega) (by omega) (fun k hk => by
        rw [show i + 1 + k = i + (k + 1) by ring, show i' + 1 + k = i' + (k + 1) by ring]; exact h _ (by omega)),
      k0, k1, k2, show i + (j + 1) + 1 = i + (j + 1 + 1) by ring, show i' + (j + 1) + 1 = i' + (j + 1 + 1) by ring, k3]
    congr 2 <;> congr 1 <;> ring

theorem knot_cardinal (m i : Nat) (hi : i < m + 2) : knot (cardinalKnots m) i = i := by
  unfold knot cardinalKnots
  rw [List.getD_eq_getElem _ _ (by simpa using hi)]
  simp

theorem cardinal_increasing (m : Nat) : Increasing (cardinalKnots m) := by
  intro i j hij hj
  have hj' : j < m + 2 := by simpa [cardinalKnots] using hj
  change knot (cardinalKnots m) i < knot (cardinalKnots m) j
  rw [knot_cardinal m i (by omega), knot_cardinal m j hj']
  exact_mod_cast hij

theorem psi_eq (m : Nat) (x : ℝ) : psi m x = bseq (cardinalKnots m) x m 0 := by
  unfold psi eval
  rw [List.getD_eq_getElem _ _ (by simp [cardinalKnots])]
  simp

theorem dpsi_eq (m k : Nat) (x : ℝ) : dpsi m k x = dseq (cardinalKnots m) x k m 0 := by
  unfold dpsi evalDerivative
  rw [List.getD_eq_getElem _ _ (by simp [cardinalKnots])]
  simp

/-- The regular knots `0, …, N`. -/
noncomputable def regular (N : Nat) : List ℝ := (List.range (N + 1)).map (fun i : Nat => (i : ℝ))

theorem regular_getD (N i : Nat) (hi : i < N + 1) : (regular N).getD i 0 = i := by
  unfold regular
  rw [List.getD_eq_getElem _ _ (by simpa using hi)]
  simp

theorem regular_increasing (N : Nat) : Increasing (regular N) := by
  intro i j hij hj
  have hj' : j < N + 1 := by simpa [regular] using hj
  rw [regular_getD N i (by omega), regular_getD N j hj']
  exact_mod_cast hij

theorem knot_extra_regular (N m i : Nat) (hN : 1 ≤ N) (hi : i < m + (N + 1) + m) : knot (extraKnots (regular N) m) i = (i : ℝ) - m := by
  have hl : (regular N).length = N + 1 := by simp [regular]
  unfold knot
  rcases Nat.lt_or_ge i m with c | c
  · rw [getD_extra_left _ _ _ c, regular_getD N 0 (by omega), regular_getD N 1 (by omega)]
    push_cast
    ring
  obtain ⟨k, rfl⟩ : ∃ k, i = m + k := ⟨i - m, by omega⟩
  rcases Nat.lt_or_ge k (N + 1) with e | e
  · rw [getD_extra_mid _ _ _ (by omega), regular_getD N k e]
    push_cast
    ring
  · obtain ⟨q, rfl⟩ : ∃ q, k = N + 1 + q := ⟨k - (N + 1), by omega⟩
    have := getD_extra_right (regular N) m q (by omega)
    rw [hl] at this
    rw [show m + (N + 1 + q) = m + (N + 1) + q by ring, this, show N + 1 - 1 = N by omega, show N + 1 - 2 = N - 1 by omega,
      regular_getD N N (by omega), regular_getD N (N - 1) (by omega), Nat.cast_sub hN]
    push_cast
    ring

/-- The sum of the translates. -/
theorem psi_sum (m N : Nat) (hN : 1 ≤ N) (y : ℝ) (h0 : 0 < y) (h1 : y ≤ N) :
    ∑ k ∈ range (m + N), psi m (y - ((k : ℝ) - m)) = 1 := by
  have hl : (regular N).length = N + 1 := by simp [regular]
  have hle : (extraKnots (regular N) m).length = m + (N + 1) + m := by rw [extra_length, hl]
  have h := (extraKnots_spec (regular_increasing N) (by omega) m).2.2.2 y (by rw [regular_getD N 0 (by omega)]; exact_mod_cast h0)
    (by rw [hl, show N + 1 - 1 = N by omega, regular_getD N N (by omega)]; exact h1)
  unfold eval at h
  rw [list_sum_map_range, hle, show m + (N + 1) + m - 1 - m = m + N by omega] at h
  rw [← h]
  apply sum_congr rfl
  intro k hk
  rw [mem_range] at hk
  rw [psi_eq]
  symm
  apply bseq_translate
  · omega
  · simp [cardinalKnots]
  · intro l hl'
    rw [knot_extra_regular N m (k + l) hN (by omega), knot_cardinal m _ (by omega)]
    push_cast
    ring

/-- C123. The dilated B-splines. `indices_with_level_bounded_by(L)` lists, once each, the pairs (level, local index) with a level at most
`L` and a local index from `-m` to `b ** level - 1`; the functions of level `L` divided by `b ** (L / 2)` sum to 1 on (0, 1]; and
`eval_derivative(k, i, .)` is the derivative of order `k` of `eval(i, .)`, wherever `b ** level * x` is not an integer. -/
theorem dilated_spec (m b : Nat) (hb : 1 ≤ b) :
    (∀ L l (j : Int), (l, j) ∈ indicesBounded m b L ↔ l ≤ L ∧ -(m : Int) ≤ j ∧ j < (b : Int) ^ l) ∧
    (∀ L, (indicesBounded m b L).Nodup) ∧
    (∀ L l (j : Int), (l, j) ∈ indicesWithLevel m b L ↔ l = L ∧ -(m : Int) ≤ j ∧ j < (b : Int) ^ l) ∧
    (∀ L x, 0 < x → x ≤ 1 → (dilatedEval m b (indicesWithLevel m b L) x).sum = Real.sqrt ((b : ℝ) ^ L)) ∧
    (∀ ind x, dilatedDerivative m b 0 ind x = dilatedEval m b ind x) ∧
    (∀ k l (j : Int) x, (∀ z : Int, x * (b : ℝ) ^ l ≠ z) →
      HasDerivAt (fun y => (dilatedDerivative m b k [(l, j)] y).getD 0 0) ((dilatedDerivative m b (k + 1) [(l, j)] x).getD 0 0) x) := by
  have hmem : ∀ L l (j : Int), (l, j) ∈ indicesWithLevel m b L ↔ l = L ∧ -(m : Int) ≤ j ∧ j < (b : Int) ^ l := by
    intro L l j
    unfold indicesWithLevel
    rw [List.mem_map]
    constructor
    · rintro ⟨k, hk, h⟩
      rw [List.mem_range] at hk
      injection h with h1 h2
      subst h1 h2
      refine ⟨rfl, by omega, ?_⟩
      have : (k : Int) < (m : Int) + (b : Int) ^ L := by exact_mod_cast hk
      omega
    · rintro ⟨rfl, h1, h2⟩
      refine ⟨(j + m).toNat, ?_, ?_⟩
      · rw [List.mem_range]
        zify
        rw [Int.toNat_of_nonneg (by omega)]
        omega
      · rw [Int.toNat_of_nonneg (by omega)]
        simp
  refine ⟨?_, ?_, hmem, ?_, ?_, ?_⟩
  · intro L l j
    unfold indicesBounded
    rw [List.mem_flatMap]
    constructor
    · rintro ⟨a, ha, h⟩
      rw [List.mem_range] at ha
      obtain ⟨rfl, h'⟩ := (hmem a l j).1 h
      exact ⟨by omega, h'⟩
    · rintro ⟨h, h'⟩
      exact ⟨l, List.mem_range.2 (by omega), (hmem l l j).2 ⟨rfl, h'⟩⟩
  · intro L
    unfold indicesBounded
    rw [List.nodup_flatMap]
    constructor
    · intro a _
      unfold indicesWithLevel
      apply List.Nodup.map _ List.nodup_range
      intro k k' h
      injection h with _ h
      omega
    · apply List.Nodup.pairwise_of_forall_ne List.nodup_range
      intro a _ a' _ hne
      rw [Function.onFun, List.disjoint_left]
      rintro ⟨l, j⟩ h h'
      exact hne (((hmem a l j).1 h).1.symm.trans ((hmem a' l j).1 h').1)
  · intro L x h0 h1
    have hb' : (1 : ℝ) ≤ (b : ℝ) := by exact_mod_cast hb
    have hp : (0 : ℝ) < (b : ℝ) ^ L := by positivity
    unfold dilatedEval indicesWithLevel
    rw [List.map_map, list_sum_map_range]
    simp only [Function.comp]
    rw [← sum_mul]
    have := psi_sum m (b ^ L) (Nat.one_le_pow _ _ (by omega)) (x * (b : ℝ) ^ L) (by positivity) (by push_cast; nlinarith)
    push_cast at this ⊢
    rw [this, one_mul]
  · intro ind x
    unfold dilatedDerivative dilatedEval
    apply List.map_congr_left
    intro p _
    rw [dpsi_eq, psi_eq, dseq]
    ring
  · intro k l j x hx
    unfold dilatedDerivative
    simp only [List.map_cons, List.map_nil, List.getD_cons_zero, dpsi_eq]
    have h := dseq_hasDeriv (t := cardinalKnots m) (x * (b : ℝ) ^ l - j) (fun i hi hc => by
      have hi' : i < m + 2 := by simpa [cardinalKnots] using hi
      have := knot_cardinal m i hi'
      unfold knot at this
      rw [this] at hc
      apply hx (j + i)
      push_cast
      linarith) m 0 k
    have hg : HasDerivAt (fun y : ℝ => y * (b : ℝ) ^ l - j) ((b : ℝ) ^ l) x := by
      simpa using ((hasDerivAt_id x).mul_const ((b : ℝ) ^ l)).sub_const (j : ℝ)
    have hc := (h.comp x hg).mul_const (((b : ℝ) ^ l) ^ k * Real.sqrt ((b : ℝ) ^ l))
    rw [show dseq (cardinalKnots m) (x * (b : ℝ) ^ l - j) (k + 1) m 0 * (((b : ℝ) ^ l) ^ (k + 1) * Real.sqrt ((b : ℝ) ^ l)) =
        dseq (cardinalKnots m) (x * (b : ℝ) ^ l - j) (k + 1) m 0 * (b : ℝ) ^ l * (((b : ℝ) ^ l) ^ k * Real.sqrt ((b : ℝ) ^ l)) by
      rw [pow_succ]; ring]
    exact hc

/-- The hypotheses are met: quadratic B-splines on `0, 1, 2` with extra knots. -/
example : Increasing (regular 2) ∧ 2 ≤ (regular 2).length ∧ cardinal (extraKnots (regular 2) 2) 2 = 4 ∧
    (eval (extraKnots (regular 2) 2) 2 (3 / 2)).sum = 1 := by
  have hl : (regular 2).length = 3 := by simp [regular]
  have h := extraKnots_spec (regular_increasing 2) (by omega) 2
  refine ⟨regular_increasing 2, by omega, by rw [h.2.2.1, hl], h.2.2.2 _ ?_ ?_⟩
  · rw [regular_getD 2 0 (by omega)]; norm_num
  · rw [hl, regular_getD 2 2 (by omega)]; norm_num

/-- A value: the cardinal B-spline of degree 1 is the hat function. -/
example : psi 1 (1 / 2) = 1 / 2 := by
  rw [psi_eq]
  have k : ∀ i, i < 3 → knot (cardinalKnots 1) i = i := fun i hi => knot_cardinal 1 i hi
  have hl : (cardinalKnots 1).length = 3 := by simp [cardinalKnots]
  simp only [bseq, hl]
  norm_num [k]

end Verif.BSplines
