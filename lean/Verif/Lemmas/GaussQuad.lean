import Verif.Lemmas.PolyEval
import Verif.Spec.Polynomials
import Mathlib.Algebra.Polynomial.FieldDivision
import Mathlib.LinearAlgebra.Matrix.ToLinearEquiv
import Mathlib.LinearAlgebra.Matrix.NonsingularInverse

/-!
# Eigenvectors of the Jacobi matrix and Gauss quadrature (Golub-Welsch)
-/

namespace Verif.Polynomials

open Polynomial Finset

noncomputable section

/-- The entry `(i, j)` of the Jacobi matrix. -/
def jent (a b : ℕ → ℝ) (i j : ℕ) : ℝ :=
  (if i = j then a i else 0) + (if i = j + 1 then Real.sqrt (b i) else 0) + (if j = i + 1 then Real.sqrt (b j) else 0)

theorem jacobi_apply (a b : List ℝ) (n : ℕ) (i j : Fin n) : jacobi a b n i j = jent (at' a) (at' b) i j := by
  unfold jacobi jent
  congr 2
  simp only [Fin.ext_iff]

theorem jent_symm (a b : ℕ → ℝ) (i j : ℕ) : jent a b i j = jent a b j i := by
  unfold jent
  rcases eq_or_ne i j with h | h
  · subst h; simp
  · rw [if_neg h, if_neg h.symm]; ring

theorem jent_row (a b : ℕ → ℝ) (n i : ℕ) (v : ℕ → ℝ) (hi : i < n) (hv : ∀ j, n ≤ j → v j = 0) :
    ∑ j ∈ range n, jent a b i j * v j
      = a i * v i + (if i = 0 then 0 else Real.sqrt (b i) * v (i - 1)) + Real.sqrt (b (i + 1)) * v (i + 1) := by
  unfold jent
  simp only [add_mul, sum_add_distrib, ite_mul, zero_mul]
  congr 1
  · congr 1
    · rw [sum_ite_eq (range n) i (fun j => a i * v j), if_pos (mem_range.2 hi)]
    · rcases Nat.eq_zero_or_pos i with h | h
      · subst h
        rw [if_pos rfl]
        exact sum_eq_zero (fun j _ => if_neg (by omega))
      · rw [if_neg (by omega), sum_eq_single (i - 1)]
        · rw [if_pos (by omega)]
        · intro j _ hj; rw [if_neg (by omega)]
        · intro h'; exact absurd (mem_range.2 (by omega)) h'
  · by_cases h : i + 1 < n
    · rw [sum_eq_single (i + 1)]
      · rw [if_pos rfl]
      · intro j _ hj; rw [if_neg hj]
      · intro h'; exact absurd (mem_range.2 h) h'
    · rw [hv (i + 1) (by omega), mul_zero]
      exact sum_eq_zero (fun j hj => if_neg (by have := mem_range.1 hj; omega))

/-- An eigenvector of the Jacobi matrix is made of the values of the polynomials at the eigenvalue. -/
theorem eigvec_eq (a b : ℕ → ℝ) (n : ℕ) (hb : ∀ i, 1 ≤ i → i ≤ n → 0 < b i) (v : ℕ → ℝ) (hv : ∀ j, n ≤ j → v j = 0)
    (lam : ℝ) (h : ∀ i, i < n → ∑ j ∈ range n, jent a b i j * v j = lam * v i) (i : ℕ) (hi : i ≤ n) :
    v i = v 0 * (pp a b i).eval lam := by
  induction i using Nat.strong_induction_on with
  | _ i ih =>
    match i, ih, hi with
    | 0, _, _ => simp [pp_zero]
    | 1, ih, hi =>
      have e := h 0 (by omega)
      rw [jent_row a b n 0 v (by omega) hv, if_pos rfl] at e
      have hs : Real.sqrt (b 1) ≠ 0 := (Real.sqrt_pos.2 (hb 1 le_rfl hi)).ne'
      rw [pp_one]
      simp only [eval_mul, eval_sub, eval_C, eval_X]
      simp only [zero_add] at e
      field_simp
      linarith
    | i + 2, ih, hi =>
      have e := h (i + 1) (by omega)
      rw [jent_row a b n (i + 1) v (by omega) hv, if_neg (by omega)] at e
      have hs : Real.sqrt (b (i + 2)) ≠ 0 := (Real.sqrt_pos.2 (hb (i + 2) (by omega) hi)).ne'
      have i1 := ih (i + 1) (by omega) (by omega)
      have i0 := ih i (by omega) (by omega)
      have e2 : i + 1 + 1 = i + 2 := rfl
      rw [Nat.add_sub_cancel, e2] at e
      rw [pp_succ]
      simp only [eval_mul, eval_sub, eval_C, eval_X]
      field_simp
      rw [mul_sub, show v 0 * ((lam - a (i + 1)) * eval lam (pp a b (i + 1))) = (lam - a (i + 1)) * (v 0 * eval lam (pp a b (i + 1)))
        by ring, show v 0 * (Real.sqrt (b (i + 1)) * eval lam (pp a b i)) = Real.sqrt (b (i + 1)) * (v 0 * eval lam (pp a b i))
        by ring, ← i1, ← i0]
      linarith

section

variable {a b : ℕ → ℝ} {n : ℕ} {J : Matrix (Fin n) (Fin n) ℝ} {lam : Fin n → ℝ} {V : Matrix (Fin n) (Fin n) ℝ}

theorem vec_eq (hn : 0 < n) (hb : ∀ i, 1 ≤ i → i ≤ n → 0 < b i) (hJ : ∀ i j : Fin n, J i j = jent a b i j)
    (h : IsEig J lam V) (k : Fin n) :
    (∀ i : Fin n, V i k = V ⟨0, hn⟩ k * (pp a b i).eval (lam k)) ∧ V ⟨0, hn⟩ k * (pp a b n).eval (lam k) = 0 := by
  set v : ℕ → ℝ := fun i => if hi : i < n then V ⟨i, hi⟩ k else 0 with hv
  have hz : ∀ j, n ≤ j → v j = 0 := fun j hj => by rw [hv]; exact dif_neg (by omega)
  have hvf : ∀ i : Fin n, v i = V i k := fun i => by rw [hv]; exact dif_pos i.2
  have key := eigvec_eq a b n hb v hz (lam k) (by
    intro i hi
    have e := h.eq ⟨i, hi⟩ k
    have : ∑ j ∈ range n, jent a b i j * v j = ∑ j : Fin n, J ⟨i, hi⟩ j * V j k := by
      rw [← Fin.sum_univ_eq_sum_range (fun j => jent a b i j * v j) n]
      exact sum_congr rfl (fun j _ => by rw [hJ, hvf])
    rw [this, e, ← hvf ⟨i, hi⟩])
  have h0 : v 0 = V ⟨0, hn⟩ k := hvf ⟨0, hn⟩
  refine ⟨fun i => ?_, ?_⟩
  · rw [← hvf i, ← h0]; exact key i i.2.le
  · have := key n le_rfl
    rw [hz n le_rfl] at this
    rw [← h0]; exact this.symm

theorem first_ne (hn : 0 < n) (hb : ∀ i, 1 ≤ i → i ≤ n → 0 < b i) (hJ : ∀ i j : Fin n, J i j = jent a b i j)
    (h : IsEig J lam V) (k : Fin n) : V ⟨0, hn⟩ k ≠ 0 := by
  intro h0
  have e := h.unit k
  rw [sum_eq_zero] at e
  · exact zero_ne_one e
  · intro i _
    rw [(vec_eq hn hb hJ h k).1 i, h0]; simp

/-- The eigenvalues are zeros of the polynomial `n`. -/
theorem eig_root (hn : 0 < n) (hb : ∀ i, 1 ≤ i → i ≤ n → 0 < b i) (hJ : ∀ i j : Fin n, J i j = jent a b i j)
    (h : IsEig J lam V) (k : Fin n) : (pp a b n).eval (lam k) = 0 :=
  (mul_eq_zero.1 (vec_eq hn hb hJ h k).2).resolve_left (first_ne hn hb hJ h k)

/-- The eigenvalues are distinct. -/
theorem eig_injective (hn : 0 < n) (hb : ∀ i, 1 ≤ i → i ≤ n → 0 < b i) (hJ : ∀ i j : Fin n, J i j = jent a b i j)
    (h : IsEig J lam V) : Function.Injective lam := by
  intro k l hkl
  by_contra hne
  apply h.det
  rw [← Matrix.exists_mulVec_eq_zero_iff]
  refine ⟨Pi.single k (V ⟨0, hn⟩ l) - Pi.single l (V ⟨0, hn⟩ k), ?_, ?_⟩
  · intro hz
    have := congrFun hz k
    simp [Pi.single_eq_of_ne hne] at this
    exact first_ne hn hb hJ h l this
  · funext i
    rw [Matrix.mulVec_sub, Pi.sub_apply, Matrix.mulVec_single, Matrix.mulVec_single]
    simp only [Pi.smul_apply, Matrix.col_apply, MulOpposite.smul_eq_mul_unop, MulOpposite.unop_op, Pi.zero_apply]
    rw [(vec_eq hn hb hJ h k).1 i, (vec_eq hn hb hJ h l).1 i, hkl]
    ring

theorem eig_orthogonal (hn : 0 < n) (hb : ∀ i, 1 ≤ i → i ≤ n → 0 < b i) (hJ : ∀ i j : Fin n, J i j = jent a b i j)
    (h : IsEig J lam V) (i j : Fin n) : ∑ k, V i k * V j k = if i = j then 1 else 0 := by
  have hT : V.transpose * V = 1 := by
    ext k l
    rw [Matrix.mul_apply]
    simp only [Matrix.transpose_apply, Matrix.one_apply]
    by_cases hkl : k = l
    · subst hkl
      rw [if_pos rfl, ← h.unit k]
      exact sum_congr rfl (fun i _ => by ring)
    · rw [if_neg hkl]
      have e1 : ∑ i, (∑ j, J i j * V j k) * V i l = lam k * ∑ i, V i k * V i l := by
        rw [mul_sum]
        exact sum_congr rfl (fun i _ => by rw [h.eq]; ring)
      have e2 : ∑ i, V i k * (∑ j, J i j * V j l) = lam l * ∑ i, V i k * V i l := by
        rw [mul_sum]
        exact sum_congr rfl (fun i _ => by rw [h.eq]; ring)
      have e3 : ∑ i, (∑ j, J i j * V j k) * V i l = ∑ i, V i k * (∑ j, J i j * V j l) := by
        simp only [sum_mul, mul_sum]
        rw [sum_comm]
        refine sum_congr rfl (fun j _ => sum_congr rfl (fun i _ => ?_))
        rw [hJ i j, hJ j i, jent_symm]; ring
      rw [e1, e2] at e3
      have hne : lam k - lam l ≠ 0 := sub_ne_zero.2 (fun h' => hkl (eig_injective hn hb hJ h h'))
      have : (lam k - lam l) * ∑ i, V i k * V i l = 0 := by rw [sub_mul, e3, sub_self]
      exact (mul_eq_zero.1 this).resolve_left hne
  have hT' : V * V.transpose = 1 := mul_eq_one_comm.1 hT
  have := congrFun (congrFun hT' i) j
  rw [Matrix.mul_apply, Matrix.one_apply] at this
  rw [← this]
  rfl

/-- **Gauss quadrature.** The rule made of the eigenvalues and of the squares of the first components of the eigenvectors is
exact for the polynomials of degree at most `2n - 1`. -/
theorem gauss_exact (hn : 0 < n) (hb : ∀ i, 1 ≤ i → i ≤ n → 0 < b i) (hJ : ∀ i j : Fin n, J i j = jent a b i j)
    (h : IsEig J lam V) (L : ℝ[X] →ₗ[ℝ] ℝ) (hL : ∀ i j, i < n → j < n → L (pp a b i * pp a b j) = if i = j then 1 else 0)
    (hL' : ∀ j, j < n → L (pp a b n * pp a b j) = 0) (q : ℝ[X]) (hq : q.natDegree < 2 * n) :
    ∑ k, V ⟨0, hn⟩ k ^ 2 * q.eval (lam k) = L q := by
  have hC : ∀ (c : ℝ) (q : ℝ[X]), L (C c * q) = c * L q := fun c q => by
    rw [← smul_eq_C_mul, map_smul, smul_eq_mul]
  obtain ⟨hd, h0⟩ := pp_natDegree (a := a) (b := b) n hb
  have hr : (q % pp a b n).natDegree ≤ n - 1 := by
    have := natDegree_mod_lt q (q := pp a b n) (by omega)
    omega
  have hs : (q / pp a b n).natDegree ≤ n - 1 := by
    rcases eq_or_ne (q / pp a b n) 0 with hz | hz
    · rw [hz]; simp
    · have e1 : pp a b n * (q / pp a b n) = q - q % pp a b n := by
        rw [eq_sub_iff_add_eq]; exact EuclideanDomain.div_add_mod q (pp a b n)
      have e2 := natDegree_mul h0 hz
      rw [e1, hd] at e2
      have e3 := natDegree_sub_le q (q % pp a b n)
      rw [e2] at e3
      omega
  obtain ⟨c, hc⟩ := exists_combination (a := a) (b := b) (n - 1) (fun i h1 h2 => hb i h1 (by omega)) _ hs
  obtain ⟨d, hdd⟩ := exists_combination (a := a) (b := b) (n - 1) (fun i h1 h2 => hb i h1 (by omega)) _ hr
  have hn1 : n - 1 + 1 = n := by omega
  rw [hn1] at hc hdd
  have eq : q = pp a b n * (q / pp a b n) + q % pp a b n := (EuclideanDomain.div_add_mod q (pp a b n)).symm
  have hLr : ∀ j, j < n → L (pp a b j) = if j = 0 then 1 else 0 := by
    intro j hj
    have := hL j 0 hj hn
    rwa [pp_zero, mul_one] at this
  have hQ : ∀ j, j < n → ∑ k, V ⟨0, hn⟩ k ^ 2 * (pp a b j).eval (lam k) = if j = 0 then 1 else 0 := by
    intro j hj
    have := eig_orthogonal hn hb hJ h ⟨j, hj⟩ ⟨0, hn⟩
    simp only [Fin.mk.injEq] at this
    rw [← this]
    refine sum_congr rfl (fun k _ => ?_)
    rw [(vec_eq hn hb hJ h k).1 ⟨j, hj⟩]
    ring
  have eL : L q = d 0 := by
    conv_lhs => rw [eq, map_add]
    rw [hc, hdd, mul_sum, map_sum, map_sum]
    rw [sum_eq_zero, zero_add]
    · rw [sum_congr rfl (g := fun j => if j = 0 then d j else 0)]
      · rw [sum_ite_eq' (range n) 0 d, if_pos (mem_range.2 hn)]
      · intro j hj
        rw [hC, hLr j (mem_range.1 hj)]; simp
    · intro j hj
      rw [mul_left_comm, hC, hL' j (mem_range.1 hj), mul_zero]
  have eQ : ∀ k, q.eval (lam k) = ∑ j ∈ range n, d j * (pp a b j).eval (lam k) := by
    intro k
    conv_lhs => rw [eq]
    rw [eval_add, eval_mul, eig_root hn hb hJ h k, zero_mul, zero_add, hdd, eval_finsetSum]
    exact sum_congr rfl (fun j _ => by rw [eval_mul, eval_C])
  rw [eL, sum_congr rfl (fun k _ => by rw [eQ k, mul_sum]), sum_comm]
  rw [sum_congr rfl (g := fun j => if j = 0 then d j else 0)]
  · rw [sum_ite_eq' (range n) 0 d, if_pos (mem_range.2 hn)]
  · intro j hj
    have := hQ j (mem_range.1 hj)
    rw [sum_congr rfl (g := fun k => d j * (V ⟨0, hn⟩ k ^ 2 * (pp a b j).eval (lam k))) (fun k _ => by ring), ← mul_sum, this]
    simp

end

end

end Verif.Polynomials
