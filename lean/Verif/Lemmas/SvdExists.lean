import Verif.Props.Truncator
import Mathlib.Analysis.InnerProductSpace.SingularValues

/-!
# Existence of an exact singular value decomposition

So that the hypothesis `SvdOk` of the theorems on the truncations is met by some `svd`.
-/

namespace Verif.Truncation

open Verif.Arr Finset

/-- The decomposition in the language of linear maps. -/
theorem exists_triplets (m n : Nat) (T : EuclideanSpace ℝ (Fin n) →ₗ[ℝ] EuclideanSpace ℝ (Fin m)) :
    ∃ (v : OrthonormalBasis (Fin n) ℝ (EuclideanSpace ℝ (Fin n))) (b : OrthonormalBasis (Fin m) ℝ (EuclideanSpace ℝ (Fin m))),
      (∀ l (hn : l < n) (hm : l < m), T (v ⟨l, hn⟩) = T.singularValues l • b ⟨l, hm⟩) ∧
      (∀ l (hn : l < n), m ≤ l → T (v ⟨l, hn⟩) = 0) := by
  have hfr : Module.finrank ℝ (EuclideanSpace ℝ (Fin n)) = n := by simp
  set hS := T.isSymmetric_adjoint_comp_self with hSd
  set v := hS.eigenvectorBasis hfr with hv
  have hin : ∀ i j : Fin n, inner ℝ (T (v i)) (T (v j)) = if i = j then T.singularValues i ^ 2 else 0 := by
    intro i j
    rw [← LinearMap.adjoint_inner_right]
    have h1 := hS.apply_eigenvectorBasis hfr j
    have h2 : (LinearMap.adjoint T) (T (v j)) = (hS.eigenvalues hfr j : ℝ) • v j := h1
    rw [h2, inner_smul_right, orthonormal_iff_ite.1 v.orthonormal i j, ← T.sq_singularValues_fin hfr j]
    split
    · rename_i h; rw [h]; simp
    · simp
  have hzero : ∀ i : Fin n, T.singularValues i = 0 → T (v i) = 0 := by
    intro i hi
    have := hin i i
    rw [if_pos rfl, hi] at this
    exact inner_self_eq_zero.1 (by rw [this]; simp)
  have hbig : ∀ l, m ≤ l → T.singularValues l = 0 := by
    intro l hl
    rw [T.singularValues_eq_zero_iff_le_finrank_range]
    have := Submodule.finrank_le (LinearMap.range T)
    simp at this
    omega
  let u : Fin m → EuclideanSpace ℝ (Fin m) := fun l =>
    if h : l.1 < n then (T.singularValues l.1)⁻¹ • T (v ⟨l.1, h⟩) else 0
  let s : Set (Fin m) := {l | l.1 < n ∧ T.singularValues l.1 ≠ 0}
  have hu : Orthonormal ℝ (s.domRestrict u) := by
    rw [orthonormal_iff_ite]
    intro i j
    have hi := i.2; have hj := j.2
    simp only [Set.domRestrict_apply, u]
    rw [dif_pos hi.1, dif_pos hj.1, inner_smul_left, inner_smul_right, hin]
    by_cases hij : i = j
    · subst hij
      rw [if_pos rfl, if_pos rfl]
      have := hi.2
      simp only [conj_trivial]
      field_simp
    · rw [if_neg hij, if_neg]
      · simp
      · intro h
        apply hij
        apply Subtype.ext; apply Fin.ext
        simpa using h
  obtain ⟨b, hb⟩ := hu.exists_orthonormalBasis_extension_of_card_eq (by simp)
  refine ⟨v, b, ?_, ?_⟩
  · intro l hn hm
    by_cases h0 : T.singularValues l = 0
    · rw [hzero ⟨l, hn⟩ h0, h0, zero_smul]
    · rw [hb ⟨l, hm⟩ ⟨hn, h0⟩]
      simp only [u]
      rw [dif_pos hn, smul_smul, mul_inv_cancel₀ h0, one_smul]
  · intro l hn hm
    exact hzero ⟨l, hn⟩ (hbig l hm)

/-- An exact singular value decomposition of the real matrices exists. -/
theorem exists_svd : ∃ svd : Svd, SvdOk svd := by
  have key : ∀ A : Arr ℝ, ∃ p : Arr ℝ × List ℝ × Arr ℝ, ∀ m n, A.shape = [m, n] → IsSvd A m n p.1 p.2.1 p.2.2 := by
    intro A
    by_cases h : ∃ m n, A.shape = [m, n]
    · obtain ⟨m, n, h⟩ := h
      let T : EuclideanSpace ℝ (Fin n) →ₗ[ℝ] EuclideanSpace ℝ (Fin m) :=
        Matrix.toLpLin 2 2 (Matrix.of (fun (i : Fin m) (j : Fin n) => A.get [i.1, j.1]))
      obtain ⟨v, b, h1, h2⟩ := exists_triplets m n T
      let U : Nat → Nat → ℝ := fun i l => if h : i < m ∧ l < m then (b ⟨l, h.2⟩) ⟨i, h.1⟩ else 0
      let W : Nat → Nat → ℝ := fun l j => if h : l < n ∧ j < n then (v ⟨l, h.1⟩) ⟨j, h.2⟩ else 0
      refine ⟨(⟨[m, min m n], fun i => U (i.getD 0 0) (i.getD 1 0)⟩, (List.range (min m n)).map T.singularValues,
        ⟨[min m n, n], fun i => W (i.getD 0 0) (i.getD 1 0)⟩), ?_⟩
      intro m' n' h'
      rw [h] at h'
      have hm : m = m' ∧ n = n' := by simpa using h'
      obtain ⟨rfl, rfl⟩ := hm
      refine ⟨h, by simp, rfl, rfl, ?_, ?_, ?_, ?_, ?_⟩
      · intro i j hi hj
        simp only [List.getD_cons_zero, List.getD_cons_succ]
        have hA : A.get [i, j] = (T (EuclideanSpace.single ⟨j, hj⟩ 1)) ⟨i, hi⟩ := by
          simp [T, Matrix.toLpLin_apply]
        have hs := v.sum_repr' (EuclideanSpace.single ⟨j, hj⟩ (1 : ℝ))
        rw [hA, ← hs, map_sum]
        rw [WithLp.ofLp_sum, Finset.sum_apply]
        have e1 : ∀ l : Fin n, (T (inner ℝ (v l) (EuclideanSpace.single ⟨j, hj⟩ (1 : ℝ)) • v l)) ⟨i, hi⟩ =
            (fun l => if l < min m n then U i l * T.singularValues l * W l j else 0) l.1 := by
          intro l
          rw [map_smul]
          have e2 : inner ℝ (v l) (EuclideanSpace.single ⟨j, hj⟩ (1 : ℝ)) = W l.1 j := by
            simp only [W]
            rw [dif_pos ⟨l.2, hj⟩]
            simp [EuclideanSpace.inner_single_right]
          rw [e2]
          beta_reduce
          split
          · rename_i hl
            have hlm : l.1 < m := by omega
            rw [show v l = v ⟨l.1, l.2⟩ from rfl, h1 l.1 l.2 hlm]
            simp only [U]
            rw [dif_pos ⟨hi, hlm⟩]
            simp
            ring
          · rename_i hl
            rw [show v l = v ⟨l.1, l.2⟩ from rfl, h2 l.1 l.2 (by have := l.2; omega)]
            simp
        rw [Finset.sum_congr rfl (fun l _ => e1 l), Fin.sum_univ_eq_sum_range (fun l => if l < min m n then U i l * T.singularValues l * W l j else 0) n]
        rw [← Finset.sum_subset (s₁ := range (min m n)) (s₂ := range n)]
        · refine Finset.sum_congr rfl (fun l hl => ?_)
          rw [if_pos (mem_range.1 hl), List.getD_eq_getElem _ _ (by simpa using hl)]
          simp
        · intro l hl; simp only [mem_range] at hl ⊢; omega
        · intro l _ hl
          rw [if_neg (by simpa using hl)]
      · intro l l' hl hl'
        simp only [List.getD_cons_zero, List.getD_cons_succ]
        have hlm : l < m := by omega
        have hlm' : l' < m := by omega
        have ho := orthonormal_iff_ite.1 b.orthonormal ⟨l, hlm⟩ ⟨l', hlm'⟩
        rw [← Fin.sum_univ_eq_sum_range (fun i => U i l * U i l') m]
        simp only [Fin.mk.injEq] at ho
        rw [← ho, PiLp.inner_apply]
        refine Finset.sum_congr rfl (fun i _ => ?_)
        simp only [U]
        rw [dif_pos ⟨i.2, hlm⟩, dif_pos ⟨i.2, hlm'⟩]
        simp [mul_comm]
      · intro l l' hl hl'
        simp only [List.getD_cons_zero, List.getD_cons_succ]
        have hln : l < n := by omega
        have hln' : l' < n := by omega
        have ho := orthonormal_iff_ite.1 v.orthonormal ⟨l, hln⟩ ⟨l', hln'⟩
        rw [← Fin.sum_univ_eq_sum_range (fun j => W l j * W l' j) n]
        simp only [Fin.mk.injEq] at ho
        rw [← ho, PiLp.inner_apply]
        refine Finset.sum_congr rfl (fun i _ => ?_)
        simp only [W]
        rw [dif_pos ⟨hln, i.2⟩, dif_pos ⟨hln', i.2⟩]
        simp [mul_comm]
      · intro x hx
        obtain ⟨l, _, rfl⟩ := List.mem_map.1 hx
        exact T.singularValues_nonneg l
      · rw [List.pairwise_map]
        refine List.Pairwise.imp ?_ (List.pairwise_lt_range)
        intro i j hij
        exact T.singularValues_antitone hij.le
    · exact ⟨(A, [], A), fun m n hh => absurd ⟨m, n, hh⟩ h⟩
  choose svd hsvd using key
  exact ⟨svd, fun A m n h _ _ => hsvd A m n h⟩

/-- The hypotheses of `truncSvd_spec` and `truncSvd_error` are met. -/
example : ∃ (svd : Svd) (A : Arr ℝ), SvdOk svd ∧ A.shape = [2, 3] ∧ ∃ i j, i < 2 ∧ j < 3 ∧ A.get [i, j] ≠ 0 := by
  obtain ⟨svd, h⟩ := exists_svd
  exact ⟨svd, ⟨[2, 3], fun i => (i.getD 0 0 : ℝ) + 1⟩, h, rfl, 0, 0, by omega, by omega, by simp⟩

end Verif.Truncation
