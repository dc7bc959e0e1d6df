import Mathlib.LinearAlgebra.Matrix.Rank
import Mathlib.LinearAlgebra.Matrix.NonsingularInverse
import Verif.Model.OrthAtNode
import Verif.Props.Truncator

/-!
# Specification of `matrix_rank`, `pinv` and `inv`
-/

namespace Verif.TreeBased

open Verif.Arr Verif.Truncation Finset

/-- The matrix of the entries of an array. -/
def toMat (A : Arr ℝ) (m n : Nat) : Matrix (Fin m) (Fin n) ℝ := fun i j => A.get [i, j]

/-- `rank` is the rank; `pinv` of a matrix with independent columns is its pseudo-inverse; `inv` of an invertible matrix is its
inverse. -/
structure LinAlgOk (la : LinAlg) : Prop where
  rank : ∀ A m n, A.shape = [m, n] → la.rank A = (toMat A m n).rank
  pinv : ∀ A m k, A.shape = [m, k] → (toMat A m k).rank = k → (la.pinv A).shape = [k, m] ∧
    toMat (la.pinv A) k m * toMat A m k = 1 ∧ (toMat A m k * toMat (la.pinv A) k m).IsSymm
  inv : ∀ A n, A.shape = [n, n] → (toMat A n n).rank = n → (la.inv A).shape = [n, n] ∧
    toMat (la.inv A) n n * toMat A n n = 1 ∧ toMat A n n * toMat (la.inv A) n n = 1

/-- Such functions exist. -/
theorem exists_linAlg : ∃ la, LinAlgOk la := by
  have key : ∀ (m k : Nat) (M : Matrix (Fin m) (Fin k) ℝ), M.rank = k →
      ∃ S : Matrix (Fin k) (Fin m) ℝ, S * M = 1 ∧ (M * S).IsSymm := by
    intro m k M hM
    have h1 : (M.transpose * M).rank = k := by rw [Matrix.rank_transpose_mul_self, hM]
    have hunit : IsUnit (M.transpose * M) := by
      rw [← Matrix.mulVec_surjective_iff_isUnit]
      have htop : LinearMap.range (M.transpose * M).mulVecLin = ⊤ := by
        apply Submodule.eq_top_of_finrank_eq
        rw [show Module.finrank ℝ (LinearMap.range (M.transpose * M).mulVecLin) = (M.transpose * M).rank from rfl, h1]
        simp
      exact LinearMap.range_eq_top.1 htop
    have hdet : IsUnit (M.transpose * M).det := (Matrix.isUnit_iff_isUnit_det _).1 hunit
    refine ⟨(M.transpose * M)⁻¹ * M.transpose, ?_, ?_⟩
    · rw [Matrix.mul_assoc, Matrix.nonsing_inv_mul _ hdet]
    · unfold Matrix.IsSymm
      rw [Matrix.transpose_mul, Matrix.transpose_mul, Matrix.transpose_transpose, Matrix.transpose_nonsing_inv, Matrix.transpose_mul,
        Matrix.transpose_transpose, Matrix.mul_assoc]
  have key2 : ∀ (A : Arr ℝ), ∃ S : Arr ℝ, ∀ m k, A.shape = [m, k] → (toMat A m k).rank = k → S.shape = [k, m] ∧
      toMat S k m * toMat A m k = 1 ∧ (toMat A m k * toMat S k m).IsSymm := by
    intro A
    by_cases h : ∃ m k, A.shape = [m, k] ∧ (toMat A m k).rank = k
    · obtain ⟨m, k, h1, h2⟩ := h
      obtain ⟨S, s1, s2⟩ := key m k _ h2
      refine ⟨⟨[k, m], fun i => if h : i.getD 0 0 < k ∧ i.getD 1 0 < m then S ⟨_, h.1⟩ ⟨_, h.2⟩ else 0⟩, ?_⟩
      intro m' k' h1' h2'
      rw [h1] at h1'
      simp only [List.cons.injEq, and_true] at h1'
      obtain ⟨rfl, rfl⟩ := h1'
      have : toMat ⟨[k, m], fun i => if h : i.getD 0 0 < k ∧ i.getD 1 0 < m then S ⟨_, h.1⟩ ⟨_, h.2⟩ else 0⟩ k m = S := by
        ext i j
        unfold toMat
        simp
      rw [this]
      exact ⟨rfl, s1, s2⟩
    · exact ⟨A, fun m k h1 h2 => absurd ⟨m, k, h1, h2⟩ h⟩
  choose S hS using key2
  refine ⟨⟨fun A => (toMat A (A.shape.getD 0 0) (A.shape.getD 1 0)).rank, S, S⟩, ?_, hS, ?_⟩
  · intro A m n h
    show (toMat A (A.shape.getD 0 0) (A.shape.getD 1 0)).rank = _
    rw [h]; rfl
  · intro A n h1 h2
    obtain ⟨s1, s2, _⟩ := hS A n n h1 h2
    exact ⟨s1, s2, mul_eq_one_comm.1 s2⟩

/-- The rank of a matrix whose columns are orthogonal with squared norms `c`. -/
theorem rank_orth_cols {m k : Nat} (M : Matrix (Fin m) (Fin k) ℝ) (c : Fin k → ℝ) (h : M.transpose * M = Matrix.diagonal c) :
    M.rank = Fintype.card {l // c l ≠ 0} := by
  classical
  rw [← Matrix.rank_transpose_mul_self, h, Matrix.rank_diagonal]

/-- The number of the nonzero values of a decreasing list. -/
theorem card_nonzero {n : Nat} (c : Fin n → ℝ) (h0 : ∀ l, 0 ≤ c l) (hd : ∀ l l' : Fin n, l ≤ l' → c l' ≤ c l) (l : Fin n) :
    c l ≠ 0 ↔ l.1 < Fintype.card {l // c l ≠ 0} := by
  classical
  rw [Fintype.card_subtype]
  constructor
  · intro h
    have hsub : (Finset.univ.filter (fun l' : Fin n => l' ≤ l)) ⊆ Finset.univ.filter (fun l' => c l' ≠ 0) := by
      intro l' hl'
      simp only [Finset.mem_filter, Finset.mem_univ, true_and] at hl' ⊢
      have h1 := hd l' l hl'
      have h2 := lt_of_le_of_ne (h0 l) (Ne.symm h)
      exact ne_of_gt (lt_of_lt_of_le h2 h1)
    have h3 := Finset.card_le_card hsub
    have h4 : (Finset.univ.filter (fun l' : Fin n => l' ≤ l)).card = l.1 + 1 := by
      rw [show (Finset.univ.filter (fun l' : Fin n => l' ≤ l)) = Finset.Iic l by ext; simp]
      exact Fin.card_Iic l
    omega
  · intro h hz
    have hsub : Finset.univ.filter (fun l' => c l' ≠ 0) ⊆ (Finset.univ.filter (fun l' : Fin n => l' < l)) := by
      intro l' hl'
      simp only [Finset.mem_filter, Finset.mem_univ, true_and] at hl' ⊢
      by_contra hlt
      have h1 := hd l l' (not_lt.1 hlt)
      rw [hz] at h1
      exact hl' (le_antisymm h1 (h0 l'))
    have h3 := Finset.card_le_card hsub
    have h4 : (Finset.univ.filter (fun l' : Fin n => l' < l)).card = l.1 := by
      rw [show (Finset.univ.filter (fun l' : Fin n => l' < l)) = Finset.Iio l by ext; simp]
      exact Fin.card_Iio l
    omega

end Verif.TreeBased
