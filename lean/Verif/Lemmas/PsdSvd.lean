import Verif.Props.Truncator
import Mathlib.LinearAlgebra.Matrix.NonsingularInverse

/-!
# Singular values of a positive semi-definite symmetric matrix
-/

namespace Verif.Truncation

open Verif.Arr Finset

/-- The rows of a square matrix with orthonormal columns are orthonormal. -/
theorem complete {n : Nat} (u : Nat → Nat → ℝ)
    (h : ∀ l l', l < n → l' < n → ∑ s ∈ range n, u s l * u s l' = if l = l' then 1 else 0) :
    ∀ s s', s < n → s' < n → ∑ l ∈ range n, u s l * u s' l = if s = s' then 1 else 0 := by
  let M : Matrix (Fin n) (Fin n) ℝ := fun s l => u s l
  have h1 : M.transpose * M = 1 := by
    ext l l'
    rw [Matrix.mul_apply, Matrix.one_apply]
    have := h l l' l.2 l'.2
    rw [Finset.sum_range] at this
    simp only [Matrix.transpose_apply]
    rw [this]
    simp [Fin.ext_iff]
  have h2 : M * M.transpose = 1 := mul_eq_one_comm.1 h1
  intro s s' hs hs'
  have := congrFun (congrFun h2 ⟨s, hs⟩) ⟨s', hs'⟩
  rw [Matrix.mul_apply, Matrix.one_apply] at this
  simp only [Matrix.transpose_apply, Fin.mk.injEq] at this
  rw [Finset.sum_range]
  exact this

section
variable {n : Nat} {A : Nat → Nat → ℝ}

/-- The bilinear form of the matrix. -/
noncomputable def bil (n : Nat) (A : Nat → Nat → ℝ) (u w : Nat → ℝ) : ℝ := ∑ s ∈ range n, ∑ s' ∈ range n, u s * A s s' * w s'

theorem bil_trace (u : Nat → Nat → ℝ)
    (h : ∀ s s', s < n → s' < n → ∑ l ∈ range n, u l s * u l s' = if s = s' then 1 else 0) :
    ∑ l ∈ range n, bil n A (u l) (u l) = ∑ s ∈ range n, A s s := by
  unfold bil
  rw [sum_comm]
  refine sum_congr rfl (fun s hs => ?_)
  rw [sum_comm]
  have e1 : ∀ s' ∈ range n, ∑ l ∈ range n, u l s * A s s' * u l s' = A s s' * if s = s' then 1 else 0 := by
    intro s' hs'
    rw [← h s s' (mem_range.1 hs) (mem_range.1 hs'), mul_sum]
    exact sum_congr rfl (fun l _ => by ring)
  rw [sum_congr rfl e1, sum_eq_single_of_mem s hs]
  · simp
  · intro b _ hb; rw [if_neg (Ne.symm hb), mul_zero]

theorem two_mul_dot_le (u w : Nat → ℝ) (hu : ∑ s ∈ range n, u s * u s = 1) (hw : ∑ s ∈ range n, w s * w s = 1) :
    ∑ s ∈ range n, u s * w s ≤ 1 := by
  have h : 0 ≤ ∑ s ∈ range n, (u s - w s) * (u s - w s) := sum_nonneg (fun s _ => mul_self_nonneg _)
  have e : ∑ s ∈ range n, (u s - w s) * (u s - w s) =
      ∑ s ∈ range n, u s * u s - 2 * ∑ s ∈ range n, u s * w s + ∑ s ∈ range n, w s * w s := by
    rw [mul_sum, ← sum_sub_distrib, ← sum_add_distrib]
    exact sum_congr rfl (fun s _ => by ring)
  rw [e, hu, hw] at h
  linarith

variable {u w : Nat → Nat → ℝ} {σ : Nat → ℝ}
  (hA : ∀ s s', s < n → s' < n → A s s' = ∑ l ∈ range n, u s l * σ l * w l s')
  (hu : ∀ l l', l < n → l' < n → ∑ s ∈ range n, u s l * u s l' = if l = l' then 1 else 0)
  (hw : ∀ l l', l < n → l' < n → ∑ s ∈ range n, w l s * w l' s = if l = l' then 1 else 0)
  (h0 : ∀ l, l < n → 0 ≤ σ l)

include hA hu in
theorem left_mul {l s' : Nat} (hl : l < n) (hs' : s' < n) : ∑ s ∈ range n, u s l * A s s' = σ l * w l s' := by
  have e1 : ∀ s ∈ range n, u s l * A s s' = ∑ l' ∈ range n, σ l' * w l' s' * (u s l * u s l') := by
    intro s hs
    rw [hA s s' (mem_range.1 hs) hs', mul_sum]
    exact sum_congr rfl (fun l' _ => by ring)
  rw [sum_congr rfl e1, sum_comm, sum_eq_single_of_mem l (mem_range.2 hl)]
  · rw [← mul_sum, hu l l hl hl, if_pos rfl, mul_one]
  · intro l' hl' hne
    rw [← mul_sum, hu l l' hl (mem_range.1 hl'), if_neg (Ne.symm hne), mul_zero]

include hA hu in
theorem bil_left {l : Nat} (hl : l < n) (v : Nat → ℝ) : bil n A (fun s => u s l) v = σ l * ∑ s ∈ range n, w l s * v s := by
  unfold bil
  rw [sum_comm, mul_sum]
  refine sum_congr rfl (fun s' hs' => ?_)
  rw [← sum_mul, left_mul hA hu hl (mem_range.1 hs')]
  ring

include hA hu hw h0 in
/-- The part of the trace outside of the first left singular vectors. -/
theorem trace_tail {r : Nat} (hr : r ≤ n) :
    ∑ s ∈ range n, A s s - ∑ s ∈ range n, ∑ s' ∈ range n, A s s' * ∑ l ∈ range r, u s l * u s' l ≤
      ∑ l ∈ range n, (if l < r then 0 else σ l) := by
  have e1 : ∑ s ∈ range n, ∑ s' ∈ range n, A s s' * ∑ l ∈ range r, u s l * u s' l =
      ∑ l ∈ range r, bil n A (fun s => u s l) (fun s => u s l) := by
    unfold bil
    rw [sum_comm (s := range r)]
    refine sum_congr rfl (fun s _ => ?_)
    rw [sum_comm (s := range r)]
    refine sum_congr rfl (fun s' _ => ?_)
    rw [mul_sum]
    exact sum_congr rfl (fun l _ => by ring)
  have e2 := bil_trace (n := n) (A := A) (fun l s => u s l) (complete u hu)
  rw [e1, ← e2]
  have e3 : ∑ l ∈ range r, bil n A (fun s => u s l) (fun s => u s l) =
      ∑ l ∈ range n, if l < r then bil n A (fun s => u s l) (fun s => u s l) else 0 := by
    rw [← sum_filter]
    congr 1
    ext l; simp; omega
  rw [e3, ← sum_sub_distrib]
  apply sum_le_sum
  intro l hl
  have hl' := mem_range.1 hl
  split
  · simp
  · rw [sub_zero, bil_left hA hu hl']
    have h1 := two_mul_dot_le (n := n) (fun s => w l s) (fun s => u s l) (by simpa using hw l l hl' hl') (by simpa using hu l l hl' hl')
    have := mul_le_mul_of_nonneg_left h1 (h0 l hl')
    linarith

include hA hu hw in
/-- The sum of the singular values of a positive semi-definite symmetric matrix is at most its trace. -/
theorem sum_sv_le (hs : ∀ s s', s < n → s' < n → A s s' = A s' s) (hp : ∀ v : Nat → ℝ, 0 ≤ bil n A v v) :
    ∑ l ∈ range n, σ l ≤ ∑ s ∈ range n, A s s := by
  have e1 := bil_trace (n := n) (A := A) (fun l s => u s l) (complete u hu)
  have e2 := bil_trace (n := n) (A := A) w (complete (fun s l => w l s) hw)
  have key : ∀ l ∈ range n, 2 * σ l ≤ bil n A (fun s => u s l) (fun s => u s l) + bil n A (w l) (w l) := by
    intro l hl
    have hl' := mem_range.1 hl
    have h1 := hp (fun s => u s l - w l s)
    have h2 : bil n A (fun s => u s l - w l s) (fun s => u s l - w l s) =
        bil n A (fun s => u s l) (fun s => u s l) - 2 * bil n A (fun s => u s l) (w l) + bil n A (w l) (w l) := by
      have h3 : bil n A (w l) (fun s => u s l) = bil n A (fun s => u s l) (w l) := by
        unfold bil
        rw [sum_comm]
        refine sum_congr rfl (fun s hs1 => sum_congr rfl (fun s' hs2 => ?_))
        rw [hs s' s (mem_range.1 hs2) (mem_range.1 hs1)]; ring
      rw [two_mul]
      nth_rewrite 2 [← h3]
      unfold bil
      simp only [← sum_sub_distrib, ← sum_add_distrib]
      refine sum_congr rfl (fun s _ => ?_)
      refine sum_congr rfl (fun s' _ => by ring)
    have h4 : bil n A (fun s => u s l) (w l) = σ l := by
      rw [bil_left hA hu hl', hw l l hl' hl', if_pos rfl, mul_one]
    rw [h4] at h2
    linarith
  have := sum_le_sum key
  rw [sum_add_distrib, e1, e2, ← mul_sum] at this
  linarith

end

end Verif.Truncation
