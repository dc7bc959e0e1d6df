import Verif.Spec.LeastSquares
import Verif.Model.LeastSquares
import Mathlib.LinearAlgebra.Matrix.DotProduct
import Mathlib.Tactic.Linarith
import Mathlib.Tactic.Ring
import Mathlib.Tactic.FieldSimp

/-!
# Linear algebra of least squares
-/

namespace Verif.LeastSquares

open Finset Matrix

variable {N P : Nat}

/-- The specification of the functions of `np.linalg` in exact arithmetic, and of `KFold`: `solve` and `inv` raise, or solve the
system and invert the matrix; they do not raise on an injective square matrix; `lstsq` minimises the residual; `pinv` is a
generalised inverse; `qr` an exact reduced factorisation; the test sets of `KFold` partition the samples. Nothing is assumed about
`cond`. -/
structure LaOk (la : La) : Prop where
  solve_sound : ∀ {m n : Nat} (B : Matrix (Fin m) (Fin n) ℝ) (b : Fin m → ℝ) (x : Fin n → ℝ), la.solve B b = .ok x → B *ᵥ x = b
  solve_complete : ∀ {m n : Nat} (B : Matrix (Fin m) (Fin n) ℝ) (b : Fin m → ℝ), m = n → (∀ v, B *ᵥ v = 0 → v = 0) →
    ∃ x, la.solve B b = .ok x
  lstsq : ∀ {m n : Nat} (B : Matrix (Fin m) (Fin n) ℝ) (b : Fin m → ℝ) (z : Fin n → ℝ),
    ∑ i, (b i - (B *ᵥ la.lstsq B b) i) ^ 2 ≤ ∑ i, (b i - (B *ᵥ z) i) ^ 2
  inv_sound : ∀ {m n : Nat} (B : Matrix (Fin m) (Fin n) ℝ) (X : Matrix (Fin n) (Fin m) ℝ), la.inv B = .ok X → X * B = 1 ∧ B * X = 1
  inv_complete : ∀ {m n : Nat} (B : Matrix (Fin m) (Fin n) ℝ), m = n → (∀ v, B *ᵥ v = 0 → v = 0) → ∃ X, la.inv B = .ok X
  pinv : ∀ {m n : Nat} (B : Matrix (Fin m) (Fin n) ℝ), B * la.pinv B * B = B
  qr : ∀ {m n : Nat} (A : Matrix (Fin m) (Fin n) ℝ), (la.qr A).1 * (la.qr A).2 = A ∧ (la.qr A).1ᵀ * (la.qr A).1 = 1
  folds : ∀ k N, 2 ≤ k → k ≤ N → (la.folds k N).length = k ∧ (la.folds k N).flatten.Perm (List.finRange N) ∧
    ∀ t ∈ la.folds k N, t ≠ []

theorem mulVec_eq (A : Matrix (Fin N) (Fin P) ℝ) (v : Fin P → ℝ) (i : Fin N) : (A *ᵥ v) i = ∑ p, A i p * v p := rfl

theorem residual_eq (A : Matrix (Fin N) (Fin P) ℝ) (y : Fin N → ℝ) (v : Fin P → ℝ) (i : Fin N) :
    residual A y v i = y i - (A *ᵥ v) i := rfl

theorem quad_zero {a b : ℝ} (h : ∀ t : ℝ, 0 ≤ -(2 * t * a) + t ^ 2 * b) : a = 0 := by
  by_contra ha
  rcases le_or_gt b 0 with hb | hb
  · have h1 := h a
    have h2 : 0 < a ^ 2 := by positivity
    nlinarith [mul_nonneg h2.le (neg_nonneg.2 hb)]
  · have h1 := h (a / b)
    have h2 : 0 < a ^ 2 := by positivity
    have : -(2 * (a / b) * a) + (a / b) ^ 2 * b = -(a ^ 2 / b) := by field_simp; ring
    rw [this] at h1
    have : 0 < a ^ 2 / b := by positivity
    linarith

/-- Expansion of the residual sum of squares. -/
theorem rss_add (A : Matrix (Fin N) (Fin P) ℝ) (y : Fin N → ℝ) (s : Finset (Fin N)) (β v : Fin P → ℝ) :
    rss A y s (β + v) = rss A y s β - 2 * ∑ i ∈ s, (A *ᵥ v) i * residual A y β i + ∑ i ∈ s, (A *ᵥ v) i ^ 2 := by
  unfold rss
  rw [Finset.mul_sum, ← Finset.sum_sub_distrib, ← Finset.sum_add_distrib]
  refine Finset.sum_congr rfl (fun i _ => ?_)
  rw [residual_eq, residual_eq, mulVec_add, Pi.add_apply]
  ring

/-- The normal equations. -/
theorem isFit_iff (A : Matrix (Fin N) (Fin P) ℝ) (y : Fin N → ℝ) (s : Finset (Fin N)) (S : Finset (Fin P)) (β : Fin P → ℝ) :
    IsFit A y s S β ↔ (∀ p, p ∉ S → β p = 0) ∧
      ∀ v : Fin P → ℝ, (∀ p, p ∉ S → v p = 0) → ∑ i ∈ s, (A *ᵥ v) i * residual A y β i = 0 := by
  constructor
  · rintro ⟨h0, h⟩
    refine ⟨h0, fun v hv => ?_⟩
    apply quad_zero (b := ∑ i ∈ s, (A *ᵥ v) i ^ 2)
    intro t
    have h1 := h (β + t • v) (fun p hp => by simp [h0 p hp, hv p hp])
    rw [rss_add] at h1
    have e1 : ∑ i ∈ s, (A *ᵥ (t • v)) i * residual A y β i = t * ∑ i ∈ s, (A *ᵥ v) i * residual A y β i := by
      rw [Finset.mul_sum]
      refine Finset.sum_congr rfl (fun i _ => ?_)
      rw [mulVec_smul, Pi.smul_apply, smul_eq_mul, mul_assoc]
    have e2 : ∑ i ∈ s, (A *ᵥ (t • v)) i ^ 2 = t ^ 2 * ∑ i ∈ s, (A *ᵥ v) i ^ 2 := by
      rw [Finset.mul_sum]
      refine Finset.sum_congr rfl (fun i _ => ?_)
      rw [mulVec_smul, Pi.smul_apply, smul_eq_mul, mul_pow]
    rw [e1, e2] at h1
    linarith
  · rintro ⟨h0, h⟩
    refine ⟨h0, fun γ hγ => ?_⟩
    have e : γ = β + (γ - β) := by abel
    rw [e, rss_add, h (γ - β) (fun p hp => by simp [h0 p hp, hγ p hp])]
    have : 0 ≤ ∑ i ∈ s, (A *ᵥ (γ - β)) i ^ 2 := Finset.sum_nonneg (fun i _ => sq_nonneg _)
    linarith

/-- The normal equations on all the samples and features, in matrix form. -/
theorem isFit_univ (A : Matrix (Fin N) (Fin P) ℝ) (y : Fin N → ℝ) (β : Fin P → ℝ) :
    IsFit A y univ univ β ↔ Aᵀ *ᵥ (y - A *ᵥ β) = 0 := by
  rw [isFit_iff]
  have key : ∀ v : Fin P → ℝ, ∑ i, (A *ᵥ v) i * residual A y β i = v ⬝ᵥ (Aᵀ *ᵥ (y - A *ᵥ β)) := by
    intro v
    rw [dotProduct_mulVec, vecMul_transpose]
    rfl
  simp only [mem_univ, not_true_eq_false, false_implies, implies_true, true_and, forall_const, key]
  constructor
  · intro h
    exact dotProduct_self_eq_zero.1 (h _)
  · intro h v
    rw [h, dotProduct_zero]

theorem mul_transpose_self_zero {m n : Nat} (D : Matrix (Fin m) (Fin n) ℝ) (h : Dᵀ * D = 0) : D = 0 := by
  ext i j
  have h1 := congrFun (congrFun h j) j
  simp only [Matrix.mul_apply, transpose_apply, Matrix.zero_apply] at h1
  have h2 := (Finset.sum_eq_zero_iff_of_nonneg (fun i _ => mul_self_nonneg (D i j))).1 h1 i (mem_univ _)
  simpa using h2

/-- A generalised inverse of the Gram matrix solves the normal equations. -/
theorem ginv_gram (A : Matrix (Fin N) (Fin P) ℝ) (X : Matrix (Fin P) (Fin P) ℝ) (h : Aᵀ * A * X * (Aᵀ * A) = Aᵀ * A) :
    Aᵀ * A * X * Aᵀ = Aᵀ := by
  have ht : Aᵀ * A * Xᵀ * (Aᵀ * A) = Aᵀ * A := by
    have := congrArg transpose h
    simpa only [transpose_mul, transpose_transpose, Matrix.mul_assoc] using this
  have hD : A * Xᵀ * (Aᵀ * A) - A = 0 := by
    apply mul_transpose_self_zero
    rw [transpose_sub, transpose_mul, transpose_mul, transpose_mul, transpose_transpose, transpose_transpose]
    rw [Matrix.sub_mul, Matrix.mul_sub, Matrix.mul_sub]
    have e1 : Aᵀ * A * (X * Aᵀ) * (A * Xᵀ * (Aᵀ * A)) = Aᵀ * A := by
      calc Aᵀ * A * (X * Aᵀ) * (A * Xᵀ * (Aᵀ * A)) = (Aᵀ * A * X * (Aᵀ * A)) * Xᵀ * (Aᵀ * A) := by
            simp only [Matrix.mul_assoc]
        _ = Aᵀ * A := by rw [h, ht]
    have e2 : Aᵀ * A * (X * Aᵀ) * A = Aᵀ * A := by
      calc Aᵀ * A * (X * Aᵀ) * A = Aᵀ * A * X * (Aᵀ * A) := by simp only [Matrix.mul_assoc]
        _ = Aᵀ * A := h
    have e3 : Aᵀ * (A * Xᵀ * (Aᵀ * A)) = Aᵀ * A := by
      calc Aᵀ * (A * Xᵀ * (Aᵀ * A)) = Aᵀ * A * Xᵀ * (Aᵀ * A) := by simp only [Matrix.mul_assoc]
        _ = Aᵀ * A := ht
    rw [e1, e2, e3]
    simp
  have h1 := congrArg transpose hD
  rw [transpose_sub, transpose_mul, transpose_mul, transpose_mul, transpose_transpose, transpose_transpose, transpose_zero] at h1
  rw [Matrix.mul_assoc]
  exact sub_eq_zero.1 h1

/-- `lstsq` solves the normal equations. -/
theorem lstsq_normal {la : La} (h : LaOk la) {m n : Nat} (B : Matrix (Fin m) (Fin n) ℝ) (b : Fin m → ℝ) :
    Bᵀ *ᵥ (b - B *ᵥ la.lstsq B b) = 0 := by
  rw [← isFit_univ]
  refine ⟨fun p hp => absurd (mem_univ p) hp, fun γ _ => ?_⟩
  exact h.lstsq B b γ

theorem gram_zero (A : Matrix (Fin N) (Fin P) ℝ) (v : Fin P → ℝ) (h : (Aᵀ * A) *ᵥ v = 0) : A *ᵥ v = 0 := by
  have h1 : v ⬝ᵥ ((Aᵀ * A) *ᵥ v) = (A *ᵥ v) ⬝ᵥ (A *ᵥ v) := by
    rw [← mulVec_mulVec, dotProduct_mulVec, vecMul_transpose]
  rw [h, dotProduct_zero] at h1
  exact dotProduct_self_eq_zero.1 h1.symm

/-- `orElse (inv B) (pinv B)` is a generalised inverse. -/
theorem orElse_ginv {la : La} (h : LaOk la) {m n : Nat} (B : Matrix (Fin m) (Fin n) ℝ) :
    B * orElse (la.inv B) (la.pinv B) * B = B := by
  unfold orElse
  split
  · next X hX => rw [(h.inv_sound B X hX).2, Matrix.one_mul]
  · exact h.pinv B

theorem solveInv_normal {la : La} (h : LaOk la) (A : Matrix (Fin N) (Fin P) ℝ) (y : Fin N → ℝ) :
    Aᵀ *ᵥ (y - A *ᵥ (solveInv la A y).1) = 0 := by
  unfold solveInv
  dsimp only
  rw [mulVec_sub, mulVec_mulVec, mulVec_mulVec, mulVec_mulVec]
  rw [ginv_gram A _ (orElse_ginv h _), sub_self]

theorem solveNormal_normal {la : La} (h : LaOk la) (A : Matrix (Fin N) (Fin P) ℝ) (y : Fin N → ℝ) :
    Aᵀ *ᵥ (y - A *ᵥ (solveNormal la A y).1) = 0 := by
  unfold solveNormal orElse
  dsimp only
  rw [mulVec_sub, mulVec_mulVec]
  split
  · next x hx => rw [h.solve_sound _ _ _ hx, sub_self]
  · have h1 := lstsq_normal h (Aᵀ * A) (Aᵀ *ᵥ y)
    have h2 : (Aᵀ * A) *ᵥ (la.pinv (Aᵀ * A) *ᵥ (Aᵀ *ᵥ y)) = Aᵀ *ᵥ y := by
      rw [mulVec_mulVec, mulVec_mulVec, ginv_gram A _ (h.pinv _)]
    rw [← h2, ← mulVec_sub] at h1 ⊢
    rw [mulVec_mulVec] at h1
    rw [h2] at h1 ⊢
    exact gram_zero _ _ h1

theorem solveQr_normal {la : La} (h : LaOk la) (A : Matrix (Fin N) (Fin P) ℝ) (y : Fin N → ℝ) :
    Aᵀ *ᵥ (y - A *ᵥ (solveQr la A y).1) = 0 := by
  obtain ⟨h1, h2⟩ := h.qr A
  have hr : (la.qr A).2ᵀ *ᵥ ((la.qr A).1ᵀ *ᵥ y - (la.qr A).2 *ᵥ (solveQr la A y).1) = 0 := by
    unfold solveQr orElse
    dsimp only
    split
    · next x hx => rw [h.solve_sound _ _ _ hx, sub_self, mulVec_zero]
    · exact lstsq_normal h _ _
  generalize (solveQr la A y).1 = β at hr ⊢
  generalize (la.qr A).1 = q at h1 h2 hr
  generalize (la.qr A).2 = r at h1 h2 hr
  subst h1
  rw [← hr, transpose_mul, ← mulVec_mulVec]
  congr 1
  rw [mulVec_sub, ← mulVec_mulVec, mulVec_mulVec _ qᵀ q, h2, one_mulVec]

/-! ### The hat matrix -/

/-- The conditions that make `H` the orthogonal projection on the range of `A`. -/
structure HatOk (A : Matrix (Fin N) (Fin P) ℝ) (H : Matrix (Fin N) (Fin N) ℝ) : Prop where
  left : H * A = A
  right : ∃ V, H = V * Aᵀ

theorem HatOk.proj {A : Matrix (Fin N) (Fin P) ℝ} {H : Matrix (Fin N) (Fin N) ℝ} (h : HatOk A H) :
    Hᵀ = H ∧ H * H = H ∧ ∃ W, H = A * W := by
  obtain ⟨V, hV⟩ := h.right
  have h1 : H * Hᵀ = Hᵀ := by
    conv_lhs => rw [hV]
    conv_rhs => rw [hV]
    rw [transpose_mul, transpose_transpose, ← Matrix.mul_assoc, ← hV, h.left]
  have h2 : H * Hᵀ = H := by
    have := congrArg transpose h1
    rwa [transpose_mul, transpose_transpose] at this
  have hs : Hᵀ = H := h1.symm.trans h2
  refine ⟨hs, ?_, Vᵀ, ?_⟩
  · rw [hs] at h1; exact h1
  · rw [← hs, hV, transpose_mul, transpose_transpose]

theorem det_inj {A : Matrix (Fin N) (Fin P) ℝ} (hA : Determined A univ univ) (v : Fin P → ℝ) (h : A *ᵥ v = 0) : v = 0 :=
  hA v (fun p hp => absurd (mem_univ p) hp) (fun i _ => congrFun h i)

theorem gram_inj {A : Matrix (Fin N) (Fin P) ℝ} (hA : Determined A univ univ) (v : Fin P → ℝ) (h : (Aᵀ * A) *ᵥ v = 0) : v = 0 :=
  det_inj hA v (gram_zero A v h)

theorem det_card {A : Matrix (Fin N) (Fin P) ℝ} (hA : Determined A univ univ) : P ≤ N := by
  have : Function.Injective A.mulVecLin := by
    rw [← LinearMap.ker_eq_bot, LinearMap.ker_eq_bot']
    exact fun v h => det_inj hA v h
  have := LinearMap.finrank_le_finrank_of_injective this
  simpa using this

/-- The inverse used by the code for a matrix of full column rank. -/
theorem orElse_inv {la : La} (h : LaOk la) {A : Matrix (Fin N) (Fin P) ℝ} (hA : Determined A univ univ) :
    orElse (la.inv (Aᵀ * A)) (la.pinv (Aᵀ * A)) = (Aᵀ * A)⁻¹ ∧ IsUnit (Aᵀ * A).det := by
  obtain ⟨X, hX⟩ := h.inv_complete (Aᵀ * A) rfl (gram_inj hA)
  have h1 := h.inv_sound _ _ hX
  rw [hX]
  refine ⟨(Matrix.inv_eq_left_inv h1.1).symm, ?_⟩
  exact (Matrix.isUnit_iff_isUnit_det _).1 ⟨⟨_, X, h1.2, h1.1⟩, rfl⟩

theorem solveHat_ok {la : La} (h : LaOk la) {A : Matrix (Fin N) (Fin P) ℝ} (hA : Determined A univ univ) :
    HatOk A (hat A (.solve (orElse (la.inv (Aᵀ * A)) (la.pinv (Aᵀ * A))))) := by
  obtain ⟨h1, h2⟩ := orElse_inv h hA
  rw [h1]
  unfold hat
  refine ⟨?_, A * (Aᵀ * A)⁻¹, by simp only [Matrix.mul_assoc]⟩
  rw [Matrix.mul_assoc, Matrix.mul_assoc, Matrix.nonsing_inv_mul _ h2, Matrix.mul_one]

/-- The triangular factor is inverted. -/
theorem qr_inv {la : La} (h : LaOk la) {A : Matrix (Fin N) (Fin P) ℝ} (hA : Determined A univ univ) :
    orElse (la.inv (la.qr A).2) (la.pinv (la.qr A).2) * (la.qr A).2 = 1 ∧
      (la.qr A).2 * orElse (la.inv (la.qr A).2) (la.pinv (la.qr A).2) = 1 := by
  obtain ⟨h1, h2⟩ := h.qr A
  have hc := det_card hA
  obtain ⟨X, hX⟩ := h.inv_complete (la.qr A).2 (by omega) (fun v hv => det_inj hA v (by
    rw [← h1, ← mulVec_mulVec, hv, mulVec_zero]))
  rw [hX]
  exact h.inv_sound _ _ hX

theorem qrHat_ok {la : La} (h : LaOk la) {A : Matrix (Fin N) (Fin P) ℝ} (hA : Determined A univ univ) :
    HatOk A (hat A (.qr (la.qr A).1 (la.qr A).2)) := by
  obtain ⟨h1, h2⟩ := h.qr A
  obtain ⟨h3, h4⟩ := qr_inv h hA
  unfold hat
  refine ⟨?_, (la.qr A).1 * (orElse (la.inv (la.qr A).2) (la.pinv (la.qr A).2))ᵀ, ?_⟩
  · generalize orElse (la.inv (la.qr A).2) (la.pinv (la.qr A).2) = X at h3 h4
    generalize (la.qr A).1 = q at h1 h2 h3 h4 ⊢
    generalize (la.qr A).2 = r at h1 h2 h3 h4 ⊢
    subst h1
    show q * qᵀ * (q * r) = q * r
    rw [← Matrix.mul_assoc, Matrix.mul_assoc q, h2, Matrix.mul_one]
  · generalize orElse (la.inv (la.qr A).2) (la.pinv (la.qr A).2) = X at h3 h4 ⊢
    generalize (la.qr A).1 = q at h1 h2 h3 h4 ⊢
    generalize (la.qr A).2 = r at h1 h2 h3 h4 ⊢
    subst h1
    show q * qᵀ = q * Xᵀ * (q * r)ᵀ
    rw [transpose_mul, ← Matrix.mul_assoc, Matrix.mul_assoc q, ← transpose_mul, h4, transpose_one, Matrix.mul_one]

theorem leverage_eq (A : Matrix (Fin N) (Fin P) ℝ) (f : Factors N P) (i : Fin N) : leverage A f i = hat A f i i := by
  cases f with
  | solve C => rfl
  | qr q r =>
    simp only [leverage, hat, Matrix.mul_apply, transpose_apply]
    exact Finset.sum_congr rfl (fun l _ => sq _)

/-- The identity behind the fast cross-validation: the residuals of the model fitted without the samples of `t`. -/
theorem fold_identity {A : Matrix (Fin N) (Fin P) ℝ} {H : Matrix (Fin N) (Fin N) ℝ} (hH : HatOk A H) {y : Fin N → ℝ}
    {β β' : Fin P → ℝ} (hβ : Aᵀ *ᵥ (y - A *ᵥ β) = 0) {t : Finset (Fin N)} (hβ' : IsFit A y tᶜ univ β') (i : Fin N) :
    residual A y β' i - ∑ j ∈ t, H i j * residual A y β' j = residual A y β i := by
  obtain ⟨V, hV⟩ := hH.right
  obtain ⟨_, hn⟩ := (isFit_iff _ _ _ _ _).1 hβ'
  -- `w` is the residual on `t`, zero elsewhere
  let w : Fin N → ℝ := fun j => if j ∈ t then residual A y β' j else 0
  have h1 : Aᵀ *ᵥ (y - A *ᵥ β') = Aᵀ *ᵥ w := by
    have key : ∀ v : Fin P → ℝ, v ⬝ᵥ (Aᵀ *ᵥ (y - A *ᵥ β')) = v ⬝ᵥ (Aᵀ *ᵥ w) := by
      intro v
      rw [dotProduct_mulVec, dotProduct_mulVec, vecMul_transpose]
      show ∑ i, (A *ᵥ v) i * residual A y β' i = ∑ i, (A *ᵥ v) i * w i
      rw [← Finset.sum_add_sum_compl t, hn v (fun p hp => absurd (mem_univ p) hp), add_zero]
      rw [← Finset.sum_add_sum_compl t (fun i => (A *ᵥ v) i * w i)]
      have e0 : ∑ i ∈ tᶜ, (A *ᵥ v) i * w i = 0 := by
        apply Finset.sum_eq_zero
        intro j hj
        simp only [w, if_neg (mem_compl.1 hj), mul_zero]
      rw [e0, add_zero]
      refine Finset.sum_congr rfl (fun j hj => ?_)
      simp only [w, if_pos hj]
    have h2 := key (Aᵀ *ᵥ (y - A *ᵥ β') - Aᵀ *ᵥ w)
    rw [← sub_eq_zero, ← dotProduct_sub] at h2
    exact sub_eq_zero.1 (dotProduct_self_eq_zero.1 h2)
  have h2 : H *ᵥ (A *ᵥ β - A *ᵥ β') = H *ᵥ w := by
    rw [hV, ← mulVec_mulVec, ← mulVec_mulVec, ← h1]
    congr 1
    have : A *ᵥ β - A *ᵥ β' = (y - A *ᵥ β') - (y - A *ᵥ β) := by abel
    rw [this, mulVec_sub, hβ, sub_zero]
  rw [← mulVec_sub, mulVec_mulVec, hH.left, mulVec_sub] at h2
  have h3 := congrFun h2 i
  have h4 : (H *ᵥ w) i = ∑ j ∈ t, H i j * residual A y β' j := by
    rw [mulVec_eq, ← Finset.sum_add_sum_compl t]
    have e0 : ∑ j ∈ tᶜ, H i j * w j = 0 := by
      apply Finset.sum_eq_zero
      intro j hj
      simp only [w, if_neg (mem_compl.1 hj), mul_zero]
    rw [e0, add_zero]
    refine Finset.sum_congr rfl (fun j hj => ?_)
    simp only [w, if_pos hj]
  rw [h4, Pi.sub_apply] at h3
  rw [← h3, residual_eq, residual_eq]
  ring

/-- When the other samples determine the coefficients, the system of a fold is invertible. -/
theorem fold_inj {A : Matrix (Fin N) (Fin P) ℝ} {H : Matrix (Fin N) (Fin N) ℝ} (hH : HatOk A H) {t : Finset (Fin N)}
    (hd : Determined A tᶜ univ) (w : Fin N → ℝ) (hw0 : ∀ i, i ∉ t → w i = 0) (hw : ∀ i ∈ t, w i - ∑ j ∈ t, H i j * w j = 0) :
    w = 0 := by
  obtain ⟨hs, hi, W, hW⟩ := hH.proj
  have hu : ∀ i, (H *ᵥ w) i = ∑ j ∈ t, H i j * w j := by
    intro i
    rw [mulVec_eq, ← Finset.sum_add_sum_compl t]
    have e0 : ∑ j ∈ tᶜ, H i j * w j = 0 := by
      apply Finset.sum_eq_zero
      intro j hj
      rw [hw0 j (mem_compl.1 hj), mul_zero]
    rw [e0, add_zero]
  have hut : ∀ i ∈ t, (H *ᵥ w) i = w i := by
    intro i hi'
    rw [hu, ← sub_eq_zero, ← neg_eq_zero, neg_sub]
    exact hw i hi'
  have h1 : (H *ᵥ w) ⬝ᵥ (H *ᵥ w) = w ⬝ᵥ (H *ᵥ w) := by
    rw [dotProduct_mulVec, ← vecMul_transpose, hs, vecMul_vecMul, hi, dotProduct_comm]
  have e1 : w ⬝ᵥ (H *ᵥ w) = ∑ i ∈ t, (H *ᵥ w) i * (H *ᵥ w) i := by
    unfold dotProduct
    rw [← Finset.sum_add_sum_compl t]
    have e0 : ∑ j ∈ tᶜ, w j * (H *ᵥ w) j = 0 := by
      apply Finset.sum_eq_zero
      intro j hj
      rw [hw0 j (mem_compl.1 hj), zero_mul]
    rw [e0, add_zero]
    refine Finset.sum_congr rfl (fun j hj => ?_)
    rw [hut j hj]
  rw [e1] at h1
  unfold dotProduct at h1
  rw [← Finset.sum_add_sum_compl t] at h1
  have h2 : ∑ i ∈ tᶜ, (H *ᵥ w) i * (H *ᵥ w) i = 0 := by linarith
  have h3 : ∀ i ∈ tᶜ, (H *ᵥ w) i = 0 := by
    intro i hi'
    have := (Finset.sum_eq_zero_iff_of_nonneg (fun i _ => mul_self_nonneg ((H *ᵥ w) i))).1 h2 i hi'
    simpa using this
  have hz : W *ᵥ w = 0 := by
    refine hd _ (fun p hp => absurd (mem_univ p) hp) (fun i hi' => ?_)
    have := h3 i hi'
    rw [hW, ← mulVec_mulVec] at this
    exact this
  have hHw : H *ᵥ w = 0 := by rw [hW, ← mulVec_mulVec, hz, mulVec_zero]
  funext i
  by_cases hi' : i ∈ t
  · rw [← hut i hi', hHw]
  · exact hw0 i hi'

theorem Determined.mono {A : Matrix (Fin N) (Fin P) ℝ} {s s' : Finset (Fin N)} {S : Finset (Fin P)} (h : Determined A s S)
    (hs : s ⊆ s') : Determined A s' S :=
  fun v hv h1 => h v hv (fun i hi => h1 i (hs hi))

/-- A fit exists. -/
theorem exists_fit {la : La} (h : LaOk la) (A : Matrix (Fin N) (Fin P) ℝ) (y : Fin N → ℝ) (s : Finset (Fin N)) :
    ∃ β, IsFit A y s univ β := by
  let A' : Matrix (Fin N) (Fin P) ℝ := fun i p => if i ∈ s then A i p else 0
  let y' : Fin N → ℝ := fun i => if i ∈ s then y i else 0
  have e : ∀ β, rss A y s β = rss A' y' univ β := by
    intro β
    unfold rss
    rw [← Finset.sum_add_sum_compl s]
    have e0 : ∑ j ∈ sᶜ, residual A' y' β j ^ 2 = 0 := by
      apply Finset.sum_eq_zero
      intro j hj
      simp [residual, A', y', mem_compl.1 hj]
    rw [e0, add_zero]
    refine Finset.sum_congr rfl (fun j hj => ?_)
    simp [residual, A', y', hj]
  refine ⟨la.lstsq A' y', fun p hp => absurd (mem_univ p) hp, fun γ _ => ?_⟩
  rw [e, e]
  exact h.lstsq A' y' γ

theorem secondMoment_eq (y : Fin N → ℝ) (hN : 0 < N) : secondMoment y = meanSq y := by
  have hN' : (N : ℝ) ≠ 0 := by positivity
  unfold secondMoment meanSq
  set m := mean y with hm
  have h1 : ∑ i, y i = N * m := by
    rw [hm]; unfold mean; field_simp
  have h2 : ∑ i, (y i - m) ^ 2 = ∑ i, y i ^ 2 - 2 * m * ∑ i, y i + N * m ^ 2 := by
    rw [Finset.mul_sum, ← Finset.sum_sub_distrib]
    rw [show (N : ℝ) * m ^ 2 = ∑ _i : Fin N, m ^ 2 by simp]
    rw [← Finset.sum_add_distrib]
    refine Finset.sum_congr rfl (fun i _ => by ring)
  unfold mean
  rw [h2, h1]
  field_simp
  ring

end Verif.LeastSquares
