import Verif.Props.FullTensorOrth
import Mathlib.Analysis.InnerProductSpace.PiL2

/-!
# Existence of an exact reduced QR factorisation of real matrices

So that the hypothesis `QROk` of the theorems on `orth` is met by some `qr`.
-/

namespace Verif.FullTensor

open Verif.Arr Finset

theorem exists_basis (m n : Nat) (A : Fin n → EuclideanSpace ℝ (Fin m)) :
    ∃ b : OrthonormalBasis (Fin m) ℝ (EuclideanSpace ℝ (Fin m)),
      ∀ (j : Fin n) (i : Fin m), min m n ≤ i.1 → inner ℝ (b i) (A j) = 0 := by
  set W : Submodule ℝ (EuclideanSpace ℝ (Fin m)) := Submodule.span ℝ (Set.range A) with hW
  set d := Module.finrank ℝ W with hd
  have hdn : d ≤ n := by
    have := finrank_range_le_card (R := ℝ) A
    simpa [Set.finrank] using this
  have hdm : d ≤ m := by
    have := Submodule.finrank_le W
    simpa using this
  let c := stdOrthonormalBasis ℝ W
  let v : Fin m → EuclideanSpace ℝ (Fin m) := fun i => if h : i.1 < d then (c ⟨i.1, h⟩ : EuclideanSpace ℝ (Fin m)) else 0
  let s : Set (Fin m) := {i | i.1 < d}
  have hv : Orthonormal ℝ (s.domRestrict v) := by
    have h1 : Orthonormal ℝ (fun i : Fin d => (c i : EuclideanSpace ℝ (Fin m))) :=
      c.orthonormal.comp_linearIsometry W.subtypeₗᵢ
    have h2 : s.domRestrict v = (fun i : Fin d => (c i : EuclideanSpace ℝ (Fin m))) ∘ (fun i : s => ⟨i.1.1, i.2⟩) := by
      funext i
      have := i.2
      simp only [Set.domRestrict_apply, v, Function.comp]
      rw [dif_pos (show i.1.1 < d from this)]
    rw [h2]
    exact h1.comp _ (fun i j h => by
      apply Subtype.ext; apply Fin.ext
      simpa using h)
  obtain ⟨b, hb⟩ := hv.exists_orthonormalBasis_extension_of_card_eq (by simp)
  refine ⟨b, fun j i hi => ?_⟩
  have hA : A j ∈ W := Submodule.subset_span ⟨j, rfl⟩
  have hsum := c.sum_repr ⟨A j, hA⟩
  have hsum' : ∑ l, (c.repr ⟨A j, hA⟩).ofLp l • (c l : EuclideanSpace ℝ (Fin m)) = A j := by
    have := congrArg (fun w : W => (w : EuclideanSpace ℝ (Fin m))) hsum
    simpa using this
  rw [← hsum', inner_sum]
  apply Finset.sum_eq_zero
  intro l _
  rw [inner_smul_right]
  have hlm : l.1 < m := lt_of_lt_of_le l.2 hdm
  have hl : b ⟨l.1, hlm⟩ = (c l : EuclideanSpace ℝ (Fin m)) := by
    rw [hb ⟨l.1, hlm⟩ (show l.1 < d from l.2)]
    simp only [v]
    rw [dif_pos l.2]
  rw [← hl]
  have hne : i ≠ ⟨l.1, hlm⟩ := by
    intro h
    have h1 : i.1 = l.1 := congrArg Fin.val h
    have := l.2
    omega
  have := b.orthonormal.2 hne
  rw [this, mul_zero]

/-- An exact reduced QR factorisation of the real matrices exists. -/
theorem exists_qr : ∃ qr : Arr ℝ → Arr ℝ × Arr ℝ, QROk qr := by
  have key : ∀ A : Arr ℝ, ∃ p : Arr ℝ × Arr ℝ, ∀ m n, A.shape = [m, n] → IsQR A p.1 p.2 := by
    intro A
    by_cases h : ∃ m n, A.shape = [m, n]
    · obtain ⟨m, n, h⟩ := h
      let C : Fin n → EuclideanSpace ℝ (Fin m) := fun j => WithLp.toLp 2 (fun i => A.get [i.1, j.1])
      obtain ⟨b, hb⟩ := exists_basis m n C
      let q : Nat → Nat → ℝ := fun i l => if h : i < m ∧ l < m then (b ⟨l, h.2⟩) ⟨i, h.1⟩ else 0
      let t : Nat → Nat → ℝ := fun l j => if h : l < m ∧ j < n then inner ℝ (b ⟨l, h.1⟩) (C ⟨j, h.2⟩) else 0
      refine ⟨(⟨[m, min m n], fun i => q (i.getD 0 0) (i.getD 1 0)⟩, ⟨[min m n, n], fun i => t (i.getD 0 0) (i.getD 1 0)⟩), ?_⟩
      intro m' n' h'
      rw [h] at h'
      have hm : m = m' ∧ n = n' := by simpa using h'
      obtain ⟨rfl, rfl⟩ := hm
      refine ⟨m, n, min m n, h, rfl, rfl, rfl, ?_, ?_⟩
      · intro i j hi hj
        simp only [List.getD_cons_zero, List.getD_cons_succ]
        have hs := b.sum_repr' (C ⟨j, hj⟩)
        have hs' := congrArg (fun w : EuclideanSpace ℝ (Fin m) => w ⟨i, hi⟩) hs
        simp only [C] at hs'
        have e1 : (∑ l, inner ℝ (b l) (C ⟨j, hj⟩) • b l : EuclideanSpace ℝ (Fin m)) ⟨i, hi⟩ =
            ∑ l : Fin m, q i l.1 * t l.1 j := by
          rw [WithLp.ofLp_sum, Finset.sum_apply]
          refine Finset.sum_congr rfl (fun l _ => ?_)
          simp only [q, t]
          rw [dif_pos ⟨hi, l.2⟩, dif_pos ⟨l.2, hj⟩]
          simp [mul_comm]
        have e2 : A.get [i, j] = ∑ l : Fin m, q i l.1 * t l.1 j := by rw [← e1]; exact hs'.symm
        rw [e2, Fin.sum_univ_eq_sum_range (fun l => q i l * t l j) m]
        symm
        apply Finset.sum_subset
        · intro l hl
          simp only [Finset.mem_range] at hl ⊢
          omega
        · intro l hl hl'
          simp only [Finset.mem_range] at hl hl'
          have : t l j = 0 := by
            simp only [t]
            rw [dif_pos ⟨hl, hj⟩]
            exact hb ⟨j, hj⟩ ⟨l, hl⟩ (by simp only; omega)
          rw [this, mul_zero]
      · intro l l' hl hl'
        simp only [List.getD_cons_zero, List.getD_cons_succ]
        have hlm : l < m := by omega
        have hlm' : l' < m := by omega
        have ho := orthonormal_iff_ite.1 b.orthonormal ⟨l, hlm⟩ ⟨l', hlm'⟩
        rw [← Fin.sum_univ_eq_sum_range (fun i => q i l * q i l') m]
        simp only [Fin.mk.injEq] at ho
        rw [← ho, PiLp.inner_apply]
        refine Finset.sum_congr rfl (fun i _ => ?_)
        simp only [q]
        rw [dif_pos ⟨i.2, hlm⟩, dif_pos ⟨i.2, hlm'⟩]
        simp [mul_comm]
    · exact ⟨(A, A), fun m n hh => absurd ⟨m, n, hh⟩ h⟩
  choose qr hqr using key
  exact ⟨qr, fun A m n h _ _ => hqr A m n h⟩

end Verif.FullTensor
