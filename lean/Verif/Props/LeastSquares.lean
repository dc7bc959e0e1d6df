import Verif.Lemmas.LeastSquares
import Mathlib.Data.List.NodupEquivFin

/-!
# Least squares and cross-validation (linear_model_learning_square_loss.py)
-/

namespace Verif.LeastSquares

open Finset Matrix

variable {N P : Nat}

/-! ### Ordinary least squares -/

theorem olsFit_normal {la : La} (h : LaOk la) (o : Opts) (A : Matrix (Fin N) (Fin P) ℝ) (y : Fin N → ℝ) :
    Aᵀ *ᵥ (y - A *ᵥ (olsFit la o A y).1) = 0 := by
  unfold olsFit
  cases o.solver with
  | solve => exact solveNormal_normal h A y
  | qr => exact solveQr_normal h A y

/-- Every solver gives a least-squares fit on all the samples, for every matrix (of full rank or not) and every shape. -/
theorem solveOls_fit {la : La} (h : LaOk la) (o : Opts) (A : Matrix (Fin N) (Fin P) ℝ) (y : Fin N → ℝ)
    (sol : Fin P → ℝ) (e : Option (Ext × (Fin N → Ext))) (hs : solveOls la o A y = .ok (sol, e)) :
    IsFit A y univ univ sol := by
  rw [isFit_univ]
  have h0 := olsFit_normal h o A y
  unfold solveOls at hs
  dsimp only at hs
  split at hs
  · split at hs
    · simp only [Except.ok.injEq, Prod.mk.injEq] at hs
      rw [← hs.1]; exact h0
    · cases hc : cvError la o A y (secondMoment y) (olsFit la o A y).1 (olsFit la o A y).2 with
      | error x => rw [hc] at hs; simp [bind, Except.bind] at hs
      | ok x =>
        rw [hc] at hs
        simp only [bind, Except.bind, Except.ok.injEq, Prod.mk.injEq] at hs
        rw [← hs.1]; exact h0
  · simp only [Except.ok.injEq, Prod.mk.injEq] at hs
    rw [← hs.1]; exact h0

/-- Without error estimation, or with the estimation by residuals or by leave-one-out, `_solve_ols` does not raise. -/
theorem solveOls_ok (la : La) (o : Opts) (A : Matrix (Fin N) (Fin P) ℝ) (y : Fin N → ℝ)
    (ho : o.estimate = false ∨ o.kind = .residuals ∨ effective o.kind N = .leaveOut) : ∃ r, solveOls la o A y = .ok r := by
  have key : ∀ sf : (Fin P → ℝ) × Factors N P, effective o.kind N = .leaveOut →
      ∃ r, cvError la o A y (secondMoment y) sf.1 sf.2 = .ok r := by
    intro sf he
    unfold cvError
    rw [he]
    dsimp only
    split
    · exact ⟨_, rfl⟩
    · exact ⟨_, rfl⟩
  unfold solveOls
  dsimp only
  split
  · split
    · exact ⟨_, rfl⟩
    · rename_i he _ hk
      rcases ho with h1 | h1 | h1
      · rw [h1] at he; exact absurd he (by simp)
      · exact absurd h1 hk
      · obtain ⟨r, hr⟩ := key (olsFit la o A y) h1
        exact ⟨_, by rw [hr]; rfl⟩
  · exact ⟨_, rfl⟩

/-- With `error_estimation_type == "residuals"` the error is the mean squared residual divided by the mean of the squares
of the observations (without the square root that the other estimations take). -/
theorem solveOls_residuals (la : La) (o : Opts) (A : Matrix (Fin N) (Fin P) ℝ) (y : Fin N → ℝ) (ho : o.estimate = true)
    (hk : o.kind = .residuals) (hy : meanSq y ≠ 0) :
    ∃ sol, solveOls la o A y = .ok (sol, some (.val ((∑ i, residual A y sol i ^ 2) / N / meanSq y),
      fun i => .val (residual A y sol i))) := by
  have hN : 0 < N := by
    rcases Nat.eq_zero_or_pos N with h | h
    · subst h; simp [meanSq] at hy
    · exact h
  unfold solveOls
  rw [ho, hk]
  dsimp only
  rw [if_pos rfl, secondMoment_eq y hN]
  unfold Ext.div
  rw [if_neg hy]
  exact ⟨_, rfl⟩

/-! ### Leave-one-out -/

theorem compl_singleton_erase (i : Fin N) : ({i} : Finset (Fin N))ᶜ = univ.erase i := by
  ext j; simp

theorem loo_residual {A : Matrix (Fin N) (Fin P) ℝ} {H : Matrix (Fin N) (Fin N) ℝ} (hH : HatOk A H) {y : Fin N → ℝ}
    {β β' : Fin P → ℝ} (hβ : Aᵀ *ᵥ (y - A *ᵥ β) = 0) (i : Fin N) (hβ' : IsFit A y (univ.erase i) univ β') :
    (1 - H i i) * residual A y β' i = residual A y β i := by
  rw [← compl_singleton_erase] at hβ'
  have := fold_identity hH hβ hβ' i
  rw [Finset.sum_singleton] at this
  rw [← this]; ring

theorem loo_lev {A : Matrix (Fin N) (Fin P) ℝ} {H : Matrix (Fin N) (Fin N) ℝ} (hH : HatOk A H) (i : Fin N)
    (hd : Determined A (univ.erase i) univ) : 1 - H i i ≠ 0 := by
  intro h0
  rw [← compl_singleton_erase] at hd
  have := fold_inj hH hd (fun j => if j = i then 1 else 0) (fun j hj => by
    rw [if_neg]; simpa using hj) (fun j hj => by
    rw [Finset.mem_singleton] at hj
    subst hj
    rw [Finset.sum_singleton]
    simpa using h0)
  have h1 := congrFun this i
  simp at h1

theorem sum_vals (l : List ℝ) : Ext.sum (l.map Ext.val) = .val l.sum := by
  induction l with
  | nil => rfl
  | cons a l ih =>
    show Ext.add (.val a) (Ext.sum (l.map Ext.val)) = _
    rw [ih]
    simp [Ext.add]

theorem meanSqs_vals (d : Fin N → ℝ) (hN : 0 < N) :
    Ext.meanSqs ((List.finRange N).map (fun i => Ext.val (d i))) = .val ((∑ i, d i ^ 2) / N) := by
  unfold Ext.meanSqs
  rw [List.map_map]
  have e : (List.finRange N).map (Ext.sq ∘ fun i => Ext.val (d i)) = ((List.finRange N).map (fun i => d i ^ 2)).map Ext.val := by
    rw [List.map_map]; rfl
  rw [e, sum_vals, List.length_map, List.length_finRange]
  have hN' : (N : ℝ) ≠ 0 := by positivity
  simp only [Ext.divBy, Ext.div, if_neg hN']
  rw [← List.ofFn_eq_map, List.sum_ofFn]

theorem finish_val (la : La) (o : Opts) (f : Factors N P) (x m : ℝ) (hm : m ≠ 0) :
    finish la o f (.val x) m = .val (Real.sqrt (x / m * (correction la o f).getD 1)) := by
  unfold finish
  simp only [Ext.divBy, Ext.div, if_neg hm]
  cases correction la o f with
  | none => simp [Ext.sqrt]
  | some c => simp [Ext.sqrt, Ext.scale]

/-- The leave-one-out branch with the hat matrix. -/
theorem cv_leaveOut {la : La} (hla : LaOk la) (o : Opts) {A : Matrix (Fin N) (Fin P) ℝ} {y : Fin N → ℝ} {sol : Fin P → ℝ}
    {f : Factors N P} (hH : HatOk A (hat A f)) (hsol : Aᵀ *ᵥ (y - A *ᵥ sol) = 0) (hk : effective o.kind N = .leaveOut)
    (hP : P + 1 ≤ N) (hd : ∀ i, Determined A (univ.erase i) univ) {m : ℝ} (hm : m ≠ 0) :
    ∃ d : Fin N → ℝ, IsLoo A y univ d ∧
      cvError la o A y m sol f = .ok (.val (Real.sqrt ((∑ i, d i ^ 2) / N / m * (correction la o f).getD 1)),
        fun i => .val (d i)) := by
  refine ⟨fun i => (y i - (A *ᵥ sol) i) / (1 - leverage A f i), ?_, ?_⟩
  · intro i
    obtain ⟨β, hβ⟩ := exists_fit hla A y (univ.erase i)
    refine ⟨β, hβ, ?_⟩
    dsimp only
    rw [leverage_eq, div_eq_iff (loo_lev hH i (hd i)), ← residual_eq, ← loo_residual hH hsol i hβ, mul_comm]
  · unfold cvError
    rw [hk]
    dsimp only
    rw [if_neg (by omega)]
    have e : (fun i => Ext.div (y i - (A *ᵥ sol) i) (1 - leverage A f i)) =
        fun i => Ext.val ((y i - (A *ᵥ sol) i) / (1 - leverage A f i)) := by
      funext i
      unfold Ext.div
      rw [if_neg]
      rw [leverage_eq]
      exact loo_lev hH i (hd i)
    rw [e, meanSqs_vals _ (by omega), finish_val _ _ _ _ _ hm]

/-- Sums with a nan. -/
theorem sum_nan (l : List Ext) (h : Ext.nan ∈ l) : Ext.sum l = .nan := by
  induction l with
  | nil => simp at h
  | cons a l ih =>
    show Ext.add a (Ext.sum l) = _
    rcases List.mem_cons.1 h with h | h
    · subst h; rfl
    · rw [ih h]; cases a <;> rfl

/-- If a sample is the only one that sees some direction, its leverage is one and the error is a nan. -/
theorem cv_leaveOut_nan (la : La) (o : Opts) {A : Matrix (Fin N) (Fin P) ℝ} {y : Fin N → ℝ} {sol : Fin P → ℝ}
    {f : Factors N P} (hH : HatOk A (hat A f)) (hsol : Aᵀ *ᵥ (y - A *ᵥ sol) = 0) (hk : effective o.kind N = .leaveOut)
    (hP : P + 1 ≤ N) (hA : Determined A univ univ) (i : Fin N) (hd : ¬ Determined A (univ.erase i) univ) {m : ℝ} :
    ∃ delta, cvError la o A y m sol f = .ok (.nan, delta) ∧ delta i = .nan := by
  have hex : ∃ v : Fin P → ℝ, v ≠ 0 ∧ ∀ j ∈ univ.erase i, (A *ᵥ v) j = 0 := by
    by_contra hcon
    push Not at hcon
    apply hd
    intro v _ hv
    by_contra hne
    obtain ⟨j, hj, hj'⟩ := hcon v hne
    exact hj' (hv j hj)
  obtain ⟨v, hv, hv0⟩ := hex
  have hvi : (A *ᵥ v) i ≠ 0 := by
    intro h0
    apply hv
    apply det_inj hA
    funext j
    by_cases hj : j = i
    · rw [hj, h0]; rfl
    · exact hv0 j (by simp [hj])
  have hlev : hat A f i i = 1 := by
    have h1 : hat A f *ᵥ (A *ᵥ v) = A *ᵥ v := by rw [mulVec_mulVec, hH.left]
    have h2 := congrFun h1 i
    rw [mulVec_eq, Finset.sum_eq_single i (fun j _ hj => by rw [hv0 j (by simp [hj]), mul_zero])
      (fun h => absurd (mem_univ _) h)] at h2
    exact mul_right_cancel₀ hvi (by rw [h2, one_mul])
  have hres : y i - (A *ᵥ sol) i = 0 := by
    have h1 := ((isFit_iff _ _ _ _ _).1 ((isFit_univ A y sol).2 hsol)).2 v (fun p hp => absurd (mem_univ p) hp)
    rw [Finset.sum_eq_single i (fun j _ hj => by rw [hv0 j (by simp [hj]), zero_mul]) (fun h => absurd (mem_univ _) h)] at h1
    rcases mul_eq_zero.1 h1 with h1 | h1
    · exact absurd h1 hvi
    · exact h1
  have hdi : Ext.div (y i - (A *ᵥ sol) i) (1 - leverage A f i) = .nan := by
    rw [leverage_eq, hlev, hres, sub_self]
    unfold Ext.div
    simp
  refine ⟨fun i => Ext.div (y i - (A *ᵥ sol) i) (1 - leverage A f i), ?_, hdi⟩
  unfold cvError
  rw [hk]
  dsimp only
  rw [if_neg (by omega)]
  have hsum : Ext.meanSqs ((List.finRange N).map fun i => Ext.div (y i - (A *ᵥ sol) i) (1 - leverage A f i)) = .nan := by
    unfold Ext.meanSqs
    rw [sum_nan]
    · rfl
    · refine List.mem_map.2 ⟨.nan, List.mem_map.2 ⟨i, List.mem_finRange i, hdi⟩, rfl⟩
  rw [hsum]
  congr 2
  unfold finish
  dsimp only [Ext.divBy]
  cases correction la o f <;> rfl

/-! ### The correction factor -/

theorem gram_submatrix {k : Nat} (A : Matrix (Fin N) (Fin P) ℝ) (S : Finset (Fin P)) (c : Fin k → Fin P)
    (e : Fin k ≃ S) (he : ∀ j, (e j : Fin P) = c j) :
    ((A.submatrix id c)ᵀ * A.submatrix id c)⁻¹.trace = (gram A S)⁻¹.trace := by
  have h1 : (A.submatrix id c)ᵀ * A.submatrix id c = (gram A S).submatrix e e := by
    ext p q
    simp only [Matrix.mul_apply, transpose_apply, submatrix_apply, id_eq, gram, he]
  rw [h1, Matrix.inv_submatrix_equiv]
  simp only [Matrix.trace, Matrix.diag, submatrix_apply]
  exact Equiv.sum_comp e (fun p => (gram A S)⁻¹ p p)

theorem trace_inv_nonneg (A : Matrix (Fin N) (Fin P) ℝ) (h : IsUnit (Aᵀ * A).det) : 0 ≤ (Aᵀ * A)⁻¹.trace := by
  have hs : ((Aᵀ * A)⁻¹)ᵀ = (Aᵀ * A)⁻¹ := by
    rw [transpose_nonsing_inv, transpose_mul, transpose_transpose]
  have h1 : (Aᵀ * A)⁻¹ = (A * (Aᵀ * A)⁻¹)ᵀ * (A * (Aᵀ * A)⁻¹) := by
    rw [transpose_mul, hs, Matrix.mul_assoc, ← Matrix.mul_assoc Aᵀ, Matrix.mul_nonsing_inv _ h, Matrix.mul_one]
  rw [h1]
  simp only [Matrix.trace, Matrix.diag, Matrix.mul_apply, transpose_apply]
  exact Finset.sum_nonneg (fun p _ => Finset.sum_nonneg (fun i _ => mul_self_nonneg _))

/-- The factors the code uses for a matrix. -/
def IsFactors (la : La) (A : Matrix (Fin N) (Fin P) ℝ) (f : Factors N P) : Prop :=
  f = .solve (orElse (la.inv (Aᵀ * A)) (la.pinv (Aᵀ * A))) ∨ f = .qr (la.qr A).1 (la.qr A).2

theorem IsFactors.hatOk {la : La} (h : LaOk la) {A : Matrix (Fin N) (Fin P) ℝ} {f : Factors N P} (hf : IsFactors la A f)
    (hA : Determined A univ univ) : HatOk A (hat A f) := by
  rcases hf with rfl | rfl
  · exact solveHat_ok h hA
  · exact qrHat_ok h hA

/-- The `qr` factorisation is found ill-conditioned. -/
def illFactors (la : La) : Factors N P → Bool
  | .qr _ r => la.illCond r
  | .solve _ => false

theorem correction_eq {la : La} (h : LaOk la) (o : Opts) {A : Matrix (Fin N) (Fin P) ℝ} {f : Factors N P} (hf : IsFactors la A f)
    (hA : Determined A univ univ) (hP : P < N) :
    (correction la o f).getD 1 =
      if o.correction = true ∧ illFactors la f = false then (N : ℝ) / ((N : ℝ) - P) * (1 + (Aᵀ * A)⁻¹.trace) else 1 := by
  obtain ⟨hC, hu⟩ := orElse_inv h hA
  have hPN : (P : ℝ) < N := by exact_mod_cast hP
  have hNP : ¬ N = P := by omega
  have hpos : 0 < (N : ℝ) / ((N : ℝ) - P) * (1 + (Aᵀ * A)⁻¹.trace) := by
    have h1 := trace_inv_nonneg A hu
    have h2 : (0 : ℝ) ≤ P := Nat.cast_nonneg _
    exact mul_pos (div_pos (by linarith) (by linarith)) (by linarith)
  rcases hf with rfl | rfl
  · unfold correction illFactors
    dsimp only
    cases o.correction with
    | false => simp
    | true =>
      rw [hC]
      simp [hpos, hNP]
  · obtain ⟨h1, h2⟩ := h.qr A
    obtain ⟨h3, h4⟩ := qr_inv h hA
    have hC' : orElse (la.inv (la.qr A).2) (la.pinv (la.qr A).2) * (orElse (la.inv (la.qr A).2) (la.pinv (la.qr A).2))ᵀ = (Aᵀ * A)⁻¹ := by
      symm
      apply Matrix.inv_eq_left_inv
      generalize orElse (la.inv (la.qr A).2) (la.pinv (la.qr A).2) = X at h3 h4 ⊢
      generalize (la.qr A).1 = q at h1 h2 h3 h4 ⊢
      generalize (la.qr A).2 = r at h1 h2 h3 h4 ⊢
      subst h1
      have e : (q * r)ᵀ * (q * r) = rᵀ * r := by
        rw [transpose_mul, Matrix.mul_assoc, ← Matrix.mul_assoc qᵀ, h2, Matrix.one_mul]
      rw [e, Matrix.mul_assoc, ← Matrix.mul_assoc Xᵀ, ← transpose_mul, h4, transpose_one, Matrix.one_mul, h3]
    unfold correction illFactors
    dsimp only
    rw [hC']
    by_cases hi : la.illCond (la.qr A).2 = true
    · simp [hi]
    · cases o.correction with
      | false => simp
      | true =>
        simp only [hi, hpos, hNP]
        simp

end Verif.LeastSquares
