import Verif.Model.Benchmark
import Mathlib.MeasureTheory.Integral.Pi
import Mathlib.Analysis.SpecialFunctions.Integrals.Basic
import Mathlib.Tactic.Linarith
import Mathlib.Tactic.FieldSimp
import Mathlib.Tactic.NormNum

/-!
# Benchmark functions (C232, C233)
-/

namespace Verif.Benchmark

open Verif.Arr Verif.Losses

/-! ## Specification -/

/-- `f` is the function `g` of `d` variables: for points in `d` columns it returns one value per point, that of `g` at this point. -/
def Pointwise (f : Mat → Py (Arr ℝ)) (d : Nat) (g : (Nat → ℝ) → ℝ) : Prop :=
  ∀ x : Mat, x.d = d → ∃ a, f x = .ok a ∧
    ((a.shape = [x.n] ∧ ∀ i, i < x.n → a.get [i] = g (x.get i)) ∨
     (a.shape = [x.n, 1] ∧ ∀ i, i < x.n → a.get [i, 0] = g (x.get i)))

/-- The names accepted by the code for which the default parameters give a function of the returned random vector. -/
def goodNames : List String := ["borehole", "ishigami", "linear_additive", "linear_rank_one", "canonical_rank_2", "mixture", "field",
  "corner_peak", "henon_heiles", "sobol", "anisotropic", "polynomial"]

/-- The mean of a function of `d` independent variables, uniform on `[0, 1]`. -/
noncomputable def cubeMean (d : Nat) (g : (Nat → ℝ) → ℝ) : ℝ :=
  ∫ x : Fin d → ℝ, g (fun j => if h : j < d then x ⟨j, h⟩ else 0) ∂(MeasureTheory.Measure.pi fun _ => MeasureTheory.volume.restrict
    (Set.Icc (0 : ℝ) 1))

/-! ## Proofs -/

theorem pointwise_vec (f : Mat → Py (Arr ℝ)) (d : Nat) (g : (Nat → ℝ) → ℝ)
    (h : ∀ x : Mat, x.d = d → f x = .ok (vec x.n (fun i => g (x.get i)))) : Pointwise f d g :=
  fun x hx => ⟨_, h x hx, .inl ⟨rfl, fun _ _ => rfl⟩⟩

theorem pointwise_column (f : Mat → Py (Arr ℝ)) (d : Nat) (g : (Nat → ℝ) → ℝ)
    (h : ∀ x : Mat, x.d = d → f x = .ok (column x.n (fun i => g (x.get i)))) : Pointwise f d g :=
  fun x hx => ⟨_, h x hx, .inr ⟨rfl, fun _ _ => rfl⟩⟩

theorem col_ok (x : Mat) (k d : Nat) (hx : x.d = d) (hk : k < d) : col x k = .ok (fun i => x.get i k) := by
  unfold col
  rw [if_pos (by omega)]

theorem matvec_ok (x : Mat) (w : List ℝ) (hx : x.d = w.length) :
    matvec x w = .ok (fun i => ∑ j ∈ Finset.range w.length, x.get i j * w.getD j 0) := by
  unfold matvec
  rw [if_pos hx.symm, hx]

/-- C232. `borehole` in its eight variables. -/
theorem borehole_spec : Pointwise borehole 8 (fun x =>
    2 * Real.pi * x 2 * (x 3 - x 5) / (Real.log (Real.exp (771 / 100 + 10056 / 10000 * x 1) / x 0) *
      (1 + 2 * x 6 * x 2 / (Real.log (Real.exp (771 / 100 + 10056 / 10000 * x 1) / x 0) * x 0 ^ 2 * x 7) + x 2 / x 4))) := by
  apply pointwise_vec
  intro x hx
  unfold borehole
  simp only [col_ok x _ 8 hx (show 0 < 8 by omega), col_ok x _ 8 hx (show 1 < 8 by omega), col_ok x _ 8 hx (show 2 < 8 by omega),
    col_ok x _ 8 hx (show 3 < 8 by omega), col_ok x _ 8 hx (show 4 < 8 by omega), col_ok x _ 8 hx (show 5 < 8 by omega),
    col_ok x _ 8 hx (show 6 < 8 by omega), col_ok x _ 8 hx (show 7 < 8 by omega), bind, Except.bind, div_div]

/-- C232. `ishigami`, for at least three variables. -/
theorem ishigami_spec (d : Nat) (hd : 3 ≤ d) :
    Pointwise ishigami d (fun x => Real.sin (x 0) + 7 * Real.sin (x 1) ^ 2 + 1 / 10 * x 2 ^ 4 * Real.sin (x 0)) := by
  apply pointwise_vec
  intro x hx
  unfold ishigami
  simp only [col_ok x 0 d hx (by omega), col_ok x 1 d hx (by omega), col_ok x 2 d hx (by omega), bind, Except.bind]

/-- C232. The sine of a sum, weighted or not. -/
theorem sinOfSum_spec (d : Nat) (w : List ℝ) :
    Pointwise (sinOfSum none) d (fun x => Real.sin (∑ j ∈ Finset.range d, x j)) ∧
    Pointwise (sinOfSum (some w)) w.length (fun x => Real.sin (∑ j ∈ Finset.range w.length, x j * w.getD j 0)) := by
  constructor
  · apply pointwise_vec
    intro x hx
    simp only [sinOfSum, hx]
  · apply pointwise_column
    intro x hx
    simp only [sinOfSum, matvec_ok x w hx, bind, Except.bind]

/-- C232. The sum of the variables, weighted or not. -/
theorem linearAdditive_spec (d : Nat) (w : List ℝ) :
    Pointwise (linearAdditive none) d (fun x => ∑ j ∈ Finset.range d, x j) ∧
    Pointwise (linearAdditive (some w)) w.length (fun x => ∑ j ∈ Finset.range w.length, x j * w.getD j 0) := by
  constructor
  · apply pointwise_vec
    intro x hx
    simp only [linearAdditive, hx]
  · apply pointwise_column
    intro x hx
    simp only [linearAdditive, matvec_ok x w hx, bind, Except.bind]

/-- C232. `linear_rank_one`: a product of affine functions. -/
theorem linearRankOne_spec (w : List ℝ) :
    Pointwise (linearRankOne w) w.length (fun x => ∏ j ∈ Finset.range w.length, (w.getD j 0 + 2 * x j)) := by
  apply pointwise_vec
  intro x hx
  simp only [linearRankOne, hx, if_true]

/-- C232. `quadratic_rank_one`: a product of quadratic functions. -/
theorem quadraticRankOne_spec (c : Mat) (hc : c.n = 3) :
    Pointwise (quadraticRankOne c) c.d (fun x => ∏ j ∈ Finset.range c.d, (c.get 0 j + c.get 1 j * x j + c.get 2 j * x j ^ 2)) := by
  apply pointwise_vec
  intro x hx
  simp only [quadraticRankOne, hc, hx, lt_irrefl, if_false, if_true]

/-- C232. `canonical_rank_2`, for at least three variables. -/
theorem canonicalRank2_spec (d : Nat) (hd : 3 ≤ d) : Pointwise canonicalRank2 d (fun x => x 0 * x 1 * x 2 + x 0 ^ 2 + x 1) := by
  apply pointwise_vec
  intro x hx
  unfold canonicalRank2
  simp only [col_ok x 0 d hx (by omega), col_ok x 1 d hx (by omega), col_ok x 2 d hx (by omega), bind, Except.bind]

/-- C232. `mixture`, for at least six variables. -/
theorem mixture_spec (d : Nat) (hd : 6 ≤ d) :
    Pointwise mixture d (fun x => Real.sin (x 0 + x 3) * Real.exp (x 4) * x 5 + Real.sin (x 2 * x 3) * x 5) := by
  apply pointwise_vec
  intro x hx
  unfold mixture
  simp only [col_ok x 0 d hx (by omega), col_ok x 2 d hx (by omega), col_ok x 3 d hx (by omega), col_ok x 4 d hx (by omega),
    col_ok x 5 d hx (by omega), bind, Except.bind]

/-- C232. `field`, for at least six variables. -/
theorem field_spec (d : Nat) (hd : 6 ≤ d) : Pointwise field d (fun x => 1 + Real.cos (x 0) * x 1 + Real.sin (x 0) * x 2 +
    Real.exp (x 0) * x 3 + 1 / (x 0 + 1) * x 4 + 1 / (2 * x 0 + 3) * x 5) := by
  apply pointwise_vec
  intro x hx
  unfold field
  simp only [col_ok x 0 d hx (by omega), col_ok x 1 d hx (by omega), col_ok x 2 d hx (by omega), col_ok x 3 d hx (by omega),
    col_ok x 4 d hx (by omega), col_ok x 5 d hx (by omega), bind, Except.bind]

/-- C232. `corner_peak`: `(1 + ∑ c'_j x_j) ^ (-d - 1)`, with `c'` proportional to `c` and of sum `185 / d ^ 2`. -/
theorem cornerPeak_spec (d : Nat) (c : Nat → ℝ) : Pointwise (cornerPeak d c) d (fun x =>
    ((1 + ∑ j ∈ Finset.range d, x j * (c j * 185 / (d : ℝ) ^ 2 / ∑ k ∈ Finset.range d, c k)) ^ (d + 1))⁻¹) := by
  apply pointwise_column
  intro x hx
  unfold cornerPeak
  rw [matvec_ok x _ (by simp [hx])]
  simp only [bind, Except.bind, List.length_map, List.length_range]
  congr 2
  funext i
  congr 3
  apply Finset.sum_congr rfl
  intro j hj
  congr 1
  rw [List.getD_eq_getElem _ _ (by simpa using Finset.mem_range.1 hj)]
  simp

/-- C232. `henon_heiles`. -/
theorem henonHeiles_spec (d : Nat) : Pointwise henonHeiles d (fun x => 1 / 2 * ∑ j ∈ Finset.range d, x j ^ 2 +
    1 / 5 * ∑ j ∈ Finset.range (d - 1), (x j * x (j + 1) ^ 2 - x j ^ 3) +
    1 / 400 * ∑ j ∈ Finset.range (d - 1), (x j ^ 2 + x (j + 1) ^ 2) ^ 2) := by
  apply pointwise_vec
  intro x hx
  simp only [henonHeiles, hx]
  norm_num

/-- C232. The function of Sobol. -/
theorem sobol_spec (a : List ℝ) :
    Pointwise (sobol a) a.length (fun x => ∏ j ∈ Finset.range a.length, ((|4 * x j - 2| + a.getD j 0) / (1 + a.getD j 0))) := by
  apply pointwise_vec
  intro x hx
  simp only [sobol, hx, if_true]

/-- C232. `anisotropic`, for at least sixteen variables: it depends on three of them. -/
theorem anisotropic_spec (d : Nat) (hd : 16 ≤ d) : Pointwise anisotropic d (fun x => x 2 * Real.sin (x 3 + x 15)) := by
  apply pointwise_vec
  intro x hx
  unfold anisotropic
  simp only [col_ok x 2 d hx (by omega), col_ok x 3 d hx (by omega), col_ok x 15 d hx (by omega), bind, Except.bind]

/-- C232. `polynomial`. -/
theorem polynomial_spec (d : Nat) : Pointwise polynomial d (fun x => ∏ j ∈ Finset.range d, ((3 * x j ^ 2 + 1) / 2)) := by
  apply pointwise_vec
  intro x hx
  simp only [polynomial, hx, Finset.prod_div_distrib, Finset.prod_const, Finset.card_range]
  congr 2
  funext i
  ring

/-- Full statement (false of the code, see the theorems `_wrong` below): each documented name gives a function and the random vector of
its variables, and the function has one value per point, which depends on this point only. Here: for the twelve names `goodNames`. -/
theorem benchmark_partial (name : String) (h : name ∈ goodNames) (w c : Nat → ℝ) :
    ∃ f X g, benchmark name { w := w, c := c } = .ok (f, X) ∧ Pointwise f X.length g := by
  simp only [goodNames, List.mem_cons, List.not_mem_nil, or_false] at h
  rcases h with rfl | rfl | rfl | rfl | rfl | rfl | rfl | rfl | rfl | rfl | rfl | rfl <;> simp only [benchmark, String.reduceEq,
    if_true, if_false, Option.getD_none]
  · exact ⟨_, _, _, rfl, borehole_spec⟩
  · exact ⟨_, _, _, rfl, by simpa using ishigami_spec 3 (by omega)⟩
  · exact ⟨_, _, _, rfl, by simpa using (linearAdditive_spec 3 []).1⟩
  · exact ⟨_, _, _, rfl, by simpa using linearRankOne_spec (List.replicate 3 0)⟩
  · exact ⟨_, _, _, rfl, by simpa using canonicalRank2_spec 3 (by omega)⟩
  · exact ⟨_, _, _, rfl, by simpa using mixture_spec 6 (by omega)⟩
  · exact ⟨_, _, _, rfl, by simpa using field_spec 6 (by omega)⟩
  · exact ⟨_, _, _, rfl, by simpa using cornerPeak_spec 10 c⟩
  · exact ⟨_, _, _, rfl, by simpa using henonHeiles_spec 3⟩
  · exact ⟨_, _, _, rfl, by simpa using sobol_spec [1, 2, 5, 10, 20, 50, 100, 500]⟩
  · exact ⟨_, _, _, rfl, by simpa using anisotropic_spec 16 (by omega)⟩
  · exact ⟨_, _, _, rfl, by simpa using polynomial_spec 16⟩

/-- C232. The documented names `sin_of_a_sum` and `discontinuous` are not implemented (the code accepts `sin_of_asum`). -/
theorem names_wrong (a : Args) :
    benchmark "sin_of_a_sum" a = .error .notImplemented ∧ benchmark "discontinuous" a = .error .notImplemented := by
  constructor <;> simp only [benchmark, String.reduceEq, if_false, if_true]

/-- C232. Evaluating `gaussian` or `continuous` always raises an exception. -/
theorem expPeak_wrong (a : Args) (name : String) (h : name = "gaussian" ∨ name = "continuous") :
    ∃ f X, benchmark name a = .ok (f, X) ∧ ∀ x, ∃ e, f x = .error e := by
  have key : ∀ d x, ∃ e, expPeak d x = .error e := by
    intro d x
    unfold expPeak
    rcases hb : bdim x.d d with e | k
    · exact ⟨e, rfl⟩
    · simp only [bind, Except.bind]
      split
      · exact ⟨_, rfl⟩
      · exact ⟨_, rfl⟩
  rcases h with rfl | rfl <;> simp only [benchmark, String.reduceEq, if_false, if_true]
  · exact ⟨_, _, rfl, key _⟩
  · exact ⟨_, _, rfl, key _⟩

/-- C232. `oscillatory` returns `d` values per point. -/
theorem oscillatory_wrong (a : Args) : ∃ f X, benchmark "oscillatory" a = .ok (f, X) ∧
    ∀ x : Mat, x.d = X.length → ∃ r, f x = .ok r ∧ r.shape = [x.n, X.length] := by
  simp only [benchmark, String.reduceEq, if_false, if_true]
  refine ⟨_, _, rfl, fun x hx => ?_⟩
  rw [List.length_replicate] at hx ⊢
  unfold oscillatory
  rw [matvec_ok x _ (by simpa using hx)]
  exact ⟨_, rfl, rfl⟩

/-- C232. `product_peak` is refused for more than one point. -/
theorem productPeak_wrong (a : Args) : ∃ f X, benchmark "product_peak" a = .ok (f, X) ∧
    ∀ x : Mat, 2 ≤ x.n → f x = .error .valueError := by
  simp only [benchmark, String.reduceEq, if_false, if_true]
  refine ⟨_, _, rfl, fun x hx => ?_⟩
  have h1 : x.n * x.n ≠ x.n := fun h => by nlinarith
  have h2 : x.n * x.n ≠ 1 := fun h => by nlinarith
  simp only [productPeak, bdim, if_neg h1, if_neg h2, if_neg (show ¬ x.n = 1 by omega), bind, Except.bind]

/-- C232. With too few variables the functions of given coordinates are refused. -/
theorem canonicalRank2_refused (x : Mat) (h : x.d < 3) : canonicalRank2 x = .error .indexError := by
  unfold canonicalRank2 col
  by_cases h0 : 0 < x.d
  · by_cases h1 : 1 < x.d
    · simp only [if_pos h0, if_pos h1, if_neg (show ¬ 2 < x.d by omega), bind, Except.bind]
    · simp only [if_pos h0, if_neg h1, bind, Except.bind]
  · simp only [if_neg h0, bind, Except.bind]

/-- The hypotheses of C232 are met: two points in eight columns, and a documented name. -/
example : (⟨2, 8, fun i j => i + j⟩ : Mat).d = 8 ∧ "sobol" ∈ goodNames := ⟨rfl, by simp [goodNames]⟩

theorem cubeMean_prod (d : Nat) (u : Nat → ℝ → ℝ) :
    cubeMean d (fun x => ∏ j ∈ Finset.range d, u j (x j)) = ∏ j ∈ Finset.range d, ∫ t in (0 : ℝ)..1, u j t := by
  unfold cubeMean
  have e : ∀ x : Fin d → ℝ, (∏ j ∈ Finset.range d, u j (if h : j < d then x ⟨j, h⟩ else 0)) = ∏ j : Fin d, u j (x j) := by
    intro x
    rw [Finset.prod_range]
    apply Finset.prod_congr rfl
    intro j _
    rw [dif_pos j.2]
  simp only [e]
  rw [MeasureTheory.integral_fintype_prod_eq_prod (fun (j : Fin d) t => u j t), Finset.prod_range]
  apply Finset.prod_congr rfl
  intro j _
  rw [MeasureTheory.integral_Icc_eq_integral_Ioc, intervalIntegral.integral_of_le zero_le_one]

theorem abs_mean : ∫ t in (0 : ℝ)..1, |4 * t - 2| = 1 := by
  have hi : ∀ a b : ℝ, IntervalIntegrable (fun t : ℝ => |4 * t - 2|) MeasureTheory.volume a b :=
    fun a b => Continuous.intervalIntegrable (by fun_prop) a b
  rw [← intervalIntegral.integral_add_adjacent_intervals (hi 0 (1 / 2)) (hi (1 / 2) 1)]
  have h1 : ∫ t in (0 : ℝ)..(1 / 2), |4 * t - 2| = ∫ t in (0 : ℝ)..(1 / 2), (2 - 4 * t) := by
    apply intervalIntegral.integral_congr
    intro t ht
    rw [Set.uIcc_of_le (by norm_num)] at ht
    show |4 * t - 2| = 2 - 4 * t
    rw [abs_of_nonpos (by linarith [ht.2])]
    ring
  have h2 : ∫ t in (1 / 2 : ℝ)..1, |4 * t - 2| = ∫ t in (1 / 2 : ℝ)..1, (4 * t - 2) := by
    apply intervalIntegral.integral_congr
    intro t ht
    rw [Set.uIcc_of_le (by norm_num)] at ht
    show |4 * t - 2| = 4 * t - 2
    rw [abs_of_nonneg (by linarith [ht.1])]
  rw [h1, h2, intervalIntegral.integral_sub (by simp) (Continuous.intervalIntegrable (by fun_prop) _ _),
    intervalIntegral.integral_sub (Continuous.intervalIntegrable (by fun_prop) _ _) (by simp)]
  have h4 : ∀ a b : ℝ, ∫ t in a..b, 4 * t = 4 * ((b ^ 2 - a ^ 2) / 2) := by
    intro a b
    rw [intervalIntegral.integral_const_mul, integral_id]
  rw [h4, h4]
  simp only [intervalIntegral.integral_const, smul_eq_mul]
  norm_num

/-- C233. The function of Sobol has the mean one for the returned random vector, in any dimension and for all coefficients other than
minus one. -/
theorem sobol_mean (a : List ℝ) (ha : ∀ j, j < a.length → 1 + a.getD j 0 ≠ 0) :
    ∃ g, (∃ f, benchmark "sobol" { d := some a.length, coef := some a } = .ok (f, List.replicate a.length (.uniform 0 1)) ∧
      Pointwise f a.length g) ∧ cubeMean a.length g = 1 := by
  refine ⟨_, ⟨_, by simp only [benchmark, String.reduceEq, if_false, if_true, Option.getD_some], sobol_spec a⟩, ?_⟩
  rw [cubeMean_prod a.length (fun j t => (|4 * t - 2| + a.getD j 0) / (1 + a.getD j 0))]
  apply Finset.prod_eq_one
  intro j hj
  have h := ha j (Finset.mem_range.1 hj)
  rw [intervalIntegral.integral_div, intervalIntegral.integral_add (Continuous.intervalIntegrable (by fun_prop) _ _) (by simp), abs_mean]
  simp only [intervalIntegral.integral_const, smul_eq_mul, sub_zero, one_mul]
  exact div_self h

/-- C233. The benchmark `polynomial` has the mean one for the returned random vector, in any dimension. -/
theorem polynomial_mean (d : Nat) :
    ∃ g, (∃ f, benchmark "polynomial" { d := some d } = .ok (f, List.replicate d (.uniform 0 1)) ∧ Pointwise f d g) ∧
      cubeMean d g = 1 := by
  refine ⟨_, ⟨_, by simp only [benchmark, String.reduceEq, if_false, if_true, Option.getD_some], polynomial_spec d⟩, ?_⟩
  rw [cubeMean_prod d (fun _ t => (3 * t ^ 2 + 1) / 2)]
  apply Finset.prod_eq_one
  intro j _
  rw [intervalIntegral.integral_div, intervalIntegral.integral_add (Continuous.intervalIntegrable (by fun_prop) _ _) (by simp),
    intervalIntegral.integral_const_mul, integral_pow]
  simp only [intervalIntegral.integral_const, smul_eq_mul]
  norm_num

/-- The hypotheses of C233 are met: the coefficients 1 and 2. -/
example : ∀ j, j < ([1, 2] : List ℝ).length → 1 + ([1, 2] : List ℝ).getD j 0 ≠ 0 := by
  intro j hj
  have : j = 0 ∨ j = 1 := by simp at hj; omega
  rcases this with rfl | rfl <;> norm_num

end Verif.Benchmark
