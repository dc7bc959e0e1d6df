import Verif.Model.BasisProjection
import Verif.Props.Magic
import Verif.Lemmas.LeastSquares
import Verif.Props.LeastSquaresExists

/-!
# Projections on a basis with a quadrature rule (C103)
-/

namespace Verif.Magic

open Verif.Arr Verif.Bases Matrix Verif.LeastSquares

variable {X : Type} {N c : Nat}

/-- The square of the distance in the norm of the quadrature. -/
def sqDist (x : Fin N → X) (w y : Fin N → ℝ) (f : X → ℝ) : ℝ := ∑ i, w i * (y i - f (x i)) ^ 2

/-- C103: the entries of the Gram matrix. -/
theorem gramMatrix_spec (φ : X → Fin c → ℝ) (x : Fin N → X) (w : Fin N → ℝ) (a b : Fin c) :
    gramMatrix φ x w a b = ∑ i, w i * (φ (x i) a * φ (x i) b) := by
  unfold gramMatrix
  rw [Matrix.mul_apply]
  refine Finset.sum_congr rfl (fun i _ => ?_)
  rw [Matrix.diagonal_mul]
  simp only [Matrix.transpose_apply, evalBasis]
  ring

theorem fba_col (φ : X → Fin c → ℝ) (u : Fin c → ℝ) {n : Nat} (p : Fin n → X) :
    ∃ f v, FBA.mk' (colArr u) c [1] = .ok f ∧ f.evalWith (toArr (evalBasis φ p)) = .ok v ∧ v.shape = [n, 1] ∧
      ∀ i (hi : i < n), v.get [i, 0] = fn φ u (p ⟨i, hi⟩) := by
  obtain ⟨f, v, h1, h2, h3, h4⟩ := eval_scalar_partial (colArr u) c [1] rfl (by simp) (toArr (evalBasis φ p)) n rfl
  refine ⟨f, v, h1, h2, h3, fun i hi => ?_⟩
  rw [h4 i [0] hi (by simp), sum_fin_range]
  refine Finset.sum_congr rfl (fun k _ => ?_)
  simp [toArr, colArr, hi, evalBasis]

/-- The normal equations characterise the minimisers. -/
theorem best_of_normal (φ : X → Fin c → ℝ) (y : Fin N → ℝ) (x : Fin N → X) (w : Fin N → ℝ) (hw : ∀ i, 0 ≤ w i) (u : Fin c → ℝ)
    (h : ∀ a, ∑ i, w i * (φ (x i) a * (y i - fn φ u (x i))) = 0) (u' : Fin c → ℝ) :
    sqDist x w y (fn φ u') = sqDist x w y (fn φ u) + ∑ i, w i * (fn φ u (x i) - fn φ u' (x i)) ^ 2 := by
  have hcross : ∑ i, w i * ((fn φ u (x i) - fn φ u' (x i)) * (y i - fn φ u (x i))) = 0 := by
    have e : ∀ i, w i * ((fn φ u (x i) - fn φ u' (x i)) * (y i - fn φ u (x i))) =
        ∑ a, (u a - u' a) * (w i * (φ (x i) a * (y i - fn φ u (x i)))) := by
      intro i
      have : fn φ u (x i) - fn φ u' (x i) = ∑ a, φ (x i) a * (u a - u' a) := by
        unfold fn; rw [← Finset.sum_sub_distrib]; exact Finset.sum_congr rfl (fun a _ => by ring)
      rw [this, Finset.sum_mul, Finset.mul_sum]
      exact Finset.sum_congr rfl (fun a _ => by ring)
    rw [Finset.sum_congr rfl (fun i _ => e i), Finset.sum_comm]
    refine Finset.sum_eq_zero (fun a _ => ?_)
    rw [← Finset.mul_sum, h a, mul_zero]
  have e : ∀ i, w i * (y i - fn φ u' (x i)) ^ 2 = w i * (y i - fn φ u (x i)) ^ 2 + w i * (fn φ u (x i) - fn φ u' (x i)) ^ 2 +
      2 * (w i * ((fn φ u (x i) - fn φ u' (x i)) * (y i - fn φ u (x i)))) := by intro i; ring
  unfold sqDist
  rw [Finset.sum_congr rfl (fun i _ => e i), Finset.sum_add_distrib, Finset.sum_add_distrib, ← Finset.mul_sum, hcross]
  ring

/-- C103. With a basis declared orthonormal that is orthonormal for the quadrature, or with any other basis, `projection(fun, G)` is a
function of the space, `eval` of which at any points `p` gives the values of a function that minimises over the space the distance to
`fun` in the norm of the quadrature; the values at the points with positive weights are those of any other minimiser. -/
theorem projection_spec (la : La) (hla : LaOk la) (orth : Bool) (φ : X → Fin c → ℝ) (y : Fin N → ℝ) (x : Fin N → X) (w : Fin N → ℝ)
    (hw : ∀ i, 0 ≤ w i)
    (horth : orth = true → ∀ a b, ∑ i, w i * (φ (x i) a * φ (x i) b) = if a = b then 1 else 0) {n : Nat} (p : Fin n → X) :
    ∃ f v u, projection la orth φ y x w = .ok f ∧ f.evalWith (toArr (evalBasis φ p)) = .ok v ∧ v.shape = [n, 1] ∧
      (∀ i (hi : i < n), v.get [i, 0] = fn φ u (p ⟨i, hi⟩)) ∧
      (∀ u', sqDist x w y (fn φ u) ≤ sqDist x w y (fn φ u')) ∧
      ∀ u', sqDist x w y (fn φ u') ≤ sqDist x w y (fn φ u) → ∀ i, 0 < w i → fn φ u' (x i) = fn φ u (x i) := by
  have key : ∀ u : Fin c → ℝ, (∀ a, ∑ i, w i * (φ (x i) a * (y i - fn φ u (x i))) = 0) →
      projection la orth φ y x w = FBA.mk' (colArr u) c [1] →
      ∃ f v u, projection la orth φ y x w = .ok f ∧ f.evalWith (toArr (evalBasis φ p)) = .ok v ∧ v.shape = [n, 1] ∧
      (∀ i (hi : i < n), v.get [i, 0] = fn φ u (p ⟨i, hi⟩)) ∧
      (∀ u', sqDist x w y (fn φ u) ≤ sqDist x w y (fn φ u')) ∧
      ∀ u', sqDist x w y (fn φ u') ≤ sqDist x w y (fn φ u) → ∀ i, 0 < w i → fn φ u' (x i) = fn φ u (x i) := by
    intro u hu hp
    obtain ⟨f, v, h1, h2, h3, h4⟩ := fba_col φ u p
    have hb := best_of_normal φ y x w hw u hu
    have hnn : ∀ u' i, 0 ≤ w i * (fn φ u (x i) - fn φ u' (x i)) ^ 2 := fun u' i => mul_nonneg (hw i) (sq_nonneg _)
    refine ⟨f, v, u, by rw [hp]; exact h1, h2, h3, h4, fun u' => ?_, fun u' hu' i hi => ?_⟩
    · rw [hb u']
      have := Finset.sum_nonneg (fun i (_ : i ∈ Finset.univ) => hnn u' i)
      linarith
    · rw [hb u'] at hu'
      have h0 := Finset.sum_nonneg (fun i (_ : i ∈ Finset.univ) => hnn u' i)
      have hz : ∑ i, w i * (fn φ u (x i) - fn φ u' (x i)) ^ 2 = 0 := by linarith
      have := (Finset.sum_eq_zero_iff_of_nonneg (fun i _ => hnn u' i)).1 hz i (Finset.mem_univ i)
      have := (mul_eq_zero.1 this).resolve_left hi.ne'
      have := pow_eq_zero_iff (two_ne_zero) |>.1 this
      linarith
  cases orth with
  | true =>
    refine key ((evalBasis φ x)ᵀ *ᵥ (Matrix.diagonal w *ᵥ y)) (fun a => ?_) rfl
    have hu : ∀ b, ((evalBasis φ x)ᵀ *ᵥ (Matrix.diagonal w *ᵥ y)) b = ∑ i, w i * (φ (x i) b * y i) := by
      intro b
      rw [Matrix.mulVec, dotProduct]
      refine Finset.sum_congr rfl (fun i _ => ?_)
      rw [Matrix.mulVec_diagonal]
      simp only [Matrix.transpose_apply, evalBasis]
      ring
    have e : ∀ i, w i * (φ (x i) a * (y i - fn φ ((evalBasis φ x)ᵀ *ᵥ (Matrix.diagonal w *ᵥ y)) (x i))) =
        w i * (φ (x i) a * y i) - ∑ b, (w i * (φ (x i) a * φ (x i) b)) * ((evalBasis φ x)ᵀ *ᵥ (Matrix.diagonal w *ᵥ y)) b := by
      intro i
      unfold fn
      rw [mul_sub, mul_sub, Finset.mul_sum, Finset.mul_sum]
      congr 1
      exact Finset.sum_congr rfl (fun b _ => by ring)
    rw [Finset.sum_congr rfl (fun i _ => e i), Finset.sum_sub_distrib, Finset.sum_comm]
    have e2 : ∀ b, ∑ i, (w i * (φ (x i) a * φ (x i) b)) * ((evalBasis φ x)ᵀ *ᵥ (Matrix.diagonal w *ᵥ y)) b =
        (if a = b then 1 else 0) * ((evalBasis φ x)ᵀ *ᵥ (Matrix.diagonal w *ᵥ y)) b := by
      intro b
      rw [← Finset.sum_mul, horth rfl a b]
    rw [Finset.sum_congr rfl (fun b _ => e2 b)]
    simp only [ite_mul, one_mul, zero_mul, Finset.sum_ite_eq, Finset.mem_univ, if_true]
    rw [hu, sub_self]
  | false =>
    let W : Matrix (Fin N) (Fin N) ℝ := Matrix.diagonal (fun i => Real.sqrt (w i))
    refine key (la.lstsq (W * evalBasis φ x) (W *ᵥ y)) (fun a => ?_) rfl
    have hn := congrFun (lstsq_normal hla (W * evalBasis φ x) (W *ᵥ y)) a
    rw [Matrix.mulVec, dotProduct, Pi.zero_apply] at hn
    rw [← hn]
    refine Finset.sum_congr rfl (fun i _ => ?_)
    rw [Matrix.transpose_apply, Matrix.diagonal_mul, Pi.sub_apply, Matrix.mulVec_diagonal, ← Matrix.mulVec_mulVec, Matrix.mulVec_diagonal]
    have : (evalBasis φ x *ᵥ la.lstsq (W * evalBasis φ x) (W *ᵥ y)) i = fn φ (la.lstsq (W * evalBasis φ x) (W *ᵥ y)) (x i) := rfl
    rw [this]
    have hs := Real.mul_self_sqrt (hw i)
    generalize fn φ (la.lstsq (W * evalBasis φ x) (W *ᵥ y)) (x i) = t
    have : w i * (φ (x i) a * (y i - t)) = (Real.sqrt (w i) * Real.sqrt (w i)) * (φ (x i) a * (y i - t)) := by rw [hs]
    rw [this]
    simp only [evalBasis]
    ring

/-- C103: functions of the space are reproduced at the points with positive weights. -/
theorem projection_reproduces (la : La) (hla : LaOk la) (orth : Bool) (φ : X → Fin c → ℝ) (u0 : Fin c → ℝ) (x : Fin N → X)
    (w : Fin N → ℝ) (hw : ∀ i, 0 < w i)
    (horth : orth = true → ∀ a b, ∑ i, w i * (φ (x i) a * φ (x i) b) = if a = b then 1 else 0) :
    ∃ f v, projection la orth φ (fun i => fn φ u0 (x i)) x w = .ok f ∧ f.evalWith (toArr (evalBasis φ x)) = .ok v ∧ v.shape = [N, 1] ∧
      ∀ i (hi : i < N), v.get [i, 0] = fn φ u0 (x ⟨i, hi⟩) := by
  obtain ⟨f, v, u, h1, h2, h3, h4, h5, h6⟩ := projection_spec la hla orth φ (fun i => fn φ u0 (x i)) x w (fun i => (hw i).le) horth x
  refine ⟨f, v, h1, h2, h3, fun i hi => ?_⟩
  rw [h4 i hi, h6 u0 ?_ _ (hw _)]
  have h0 : sqDist x w (fun i => fn φ u0 (x i)) (fn φ u0) = 0 := by simp [sqDist]
  rw [h0]
  exact Finset.sum_nonneg (fun i _ => mul_nonneg (hw i).le (sq_nonneg _))

/-- The hypotheses are met: the functions 1 and `t` are orthonormal for the weights 1/2 at the points -1 and 1. -/
example : (∃ la : La, LaOk la) ∧ (∀ i : Fin 2, (0 : ℝ) < (fun _ => 1 / 2 : Fin 2 → ℝ) i) ∧
    ∀ a b : Fin 2, ∑ i, (fun _ => 1 / 2 : Fin 2 → ℝ) i * ((fun (t : ℝ) (j : Fin 2) => t ^ (j : Nat)) (![-1, 1] i) a *
      (fun (t : ℝ) (j : Fin 2) => t ^ (j : Nat)) (![-1, 1] i) b) = if a = b then 1 else 0 := by
  refine ⟨?_, fun i => by norm_num, fun a b => ?_⟩
  · obtain ⟨la, h, _⟩ := exists_la (fun _ => false)
    exact ⟨la, h⟩
  · fin_cases a <;> fin_cases b <;> simp [Fin.sum_univ_two]
    all_goals norm_num

end Verif.Magic
