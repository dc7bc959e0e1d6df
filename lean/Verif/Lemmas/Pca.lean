import Verif.Model.Pca
import Verif.Lemmas.TruncLeft
import Verif.Lemmas.HsvdDense
import Verif.Props.Magic
import Verif.Props.Grids
import Verif.Props.HsvdDense
import Verif.Props.FullTensor
import Verif.Lemmas.SvdExists

/-!
# Linear algebra for the principal component analysis
-/

namespace Verif.Pca

open Verif.Arr Verif.DimTree Verif.TreeBased Verif.Truncation Verif.Grids Finset

/-- `N` is the inverse of `M`, two matrices of size `n`. -/
structure InvBy (n : Nat) (M N : Nat → Nat → ℝ) : Prop where
  right : ∀ i j, i < n → j < n → ∑ k ∈ range n, M i k * N k j = if i = j then 1 else 0
  left : ∀ i j, i < n → j < n → ∑ k ∈ range n, N i k * M k j = if i = j then 1 else 0

theorem InvBy.symm {n : Nat} {M N : Nat → Nat → ℝ} (h : InvBy n M N) : InvBy n N M := ⟨h.left, h.right⟩

/-- A function as a matrix. -/
def fm (n m : Nat) (M : Nat → Nat → ℝ) : Matrix (Fin n) (Fin m) ℝ := Matrix.of (fun i j => M i.val j.val)

theorem matOf_eq (a : Arr ℝ) (n m : Nat) : matOf a n m = fm n m (fun i j => a.get [i, j]) := rfl

theorem fm_mul (n m q : Nat) (M N : Nat → Nat → ℝ) :
    fm n m M * fm m q N = fm n q (fun i j => ∑ k ∈ range m, M i k * N k j) := by
  ext i j
  rw [Matrix.mul_apply]
  show ∑ k : Fin m, M i k * N k j = ∑ k ∈ range m, M i k * N k j
  rw [Finset.sum_range]

theorem fm_congr {n m : Nat} {M N : Nat → Nat → ℝ} (h : ∀ i j, i < n → j < m → M i j = N i j) : fm n m M = fm n m N := by
  ext i j; exact h i j i.2 j.2

theorem fm_one (n : Nat) : fm n n (fun i j => if i = j then 1 else 0) = 1 := by
  ext i j
  rw [Matrix.one_apply]
  show (if i.val = j.val then (1 : ℝ) else 0) = _
  simp only [Fin.ext_iff]

theorem InvBy.mul {n : Nat} {M N : Nat → Nat → ℝ} (h : InvBy n M N) : fm n n M * fm n n N = 1 := by
  rw [fm_mul, fm_congr h.right, fm_one]

theorem InvBy.det {n : Nat} {M N : Nat → Nat → ℝ} (h : InvBy n M N) : (fm n n M).det ≠ 0 := by
  intro h0
  have := congrArg Matrix.det h.mul
  rw [Matrix.det_mul, h0, zero_mul, Matrix.det_one] at this
  exact zero_ne_one this

theorem InvBy.inv {n : Nat} {M N : Nat → Nat → ℝ} (h : InvBy n M N) : (fm n n M)⁻¹ = fm n n N := Matrix.inv_eq_right_inv h.mul

theorem exists_inv {n : Nat} {M : Nat → Nat → ℝ} (h : (fm n n M).det ≠ 0) : ∃ N, InvBy n M N := by
  have hu : IsUnit (fm n n M).det := isUnit_iff_ne_zero.2 h
  let N : Nat → Nat → ℝ := fun i j => if h : i < n ∧ j < n then (fm n n M)⁻¹ ⟨i, h.1⟩ ⟨j, h.2⟩ else 0
  have hN : fm n n N = (fm n n M)⁻¹ := by
    ext i j
    show (if h : i.val < n ∧ j.val < n then (fm n n M)⁻¹ ⟨i, h.1⟩ ⟨j, h.2⟩ else 0) = _
    rw [dif_pos ⟨i.2, j.2⟩]
  have h1 : fm n n M * fm n n N = 1 := by rw [hN]; exact Matrix.mul_nonsing_inv _ hu
  have h2 : fm n n N * fm n n M = 1 := by rw [hN]; exact Matrix.nonsing_inv_mul _ hu
  rw [fm_mul, ← fm_one] at h1 h2
  refine ⟨N, fun i j hi hj => ?_, fun i j hi hj => ?_⟩
  · exact congrFun (congrFun h1 ⟨i, hi⟩) ⟨j, hj⟩
  · exact congrFun (congrFun h2 ⟨i, hi⟩) ⟨j, hj⟩

/-- The solution of a linear system with a known inverse. -/
theorem InvBy.apply {n : Nat} {M N : Nat → Nat → ℝ} (h : InvBy n M N) {x y : Nat → ℝ}
    (hy : ∀ i, i < n → y i = ∑ k ∈ range n, M i k * x k) : ∀ i, i < n → x i = ∑ k ∈ range n, N i k * y k := by
  intro i hi
  rw [sum_congr rfl (fun k hk => by rw [hy k (mem_range.1 hk), mul_sum]), sum_comm]
  have : ∀ l ∈ range n, ∑ k ∈ range n, N i k * (M k l * x l) = if i = l then x l else 0 := by
    intro l hl
    have := h.left i l hi (mem_range.1 hl)
    rw [sum_congr rfl (fun k _ => (mul_assoc (N i k) (M k l) (x l)).symm), ← sum_mul, this]
    split <;> simp
  rw [sum_congr rfl this, sum_ite_eq, if_pos (mem_range.2 hi)]

theorem solve_ok {B A : Arr ℝ} {n m : Nat} (hB : B.shape = [n, n]) (hA : A.shape = [n, m]) {N : Nat → Nat → ℝ}
    (h : InvBy n (fun i j => B.get [i, j]) N) :
    ∃ C, solve B A = .ok C ∧ C.shape = [n, m] ∧ (∀ i j, i < n → j < m → C.get [i, j] = ∑ k ∈ range n, N i k * A.get [k, j]) := by
  have e0 : B.shape.getD 0 0 = n := by rw [hB]; rfl
  have e1 : B.shape.getD 1 0 = n := by rw [hB]; rfl
  have e2 : A.shape.getD 0 0 = n := by rw [hA]; rfl
  have e3 : A.shape.getD 1 0 = m := by rw [hA]; rfl
  have hdet : (matOf B n n).det ≠ 0 := by rw [matOf_eq]; exact h.det
  refine ⟨Magic.toArr ((matOf B n n)⁻¹ * matOf A n m), ?_, rfl, ?_⟩
  · unfold solve
    rw [e0, e3]
    unfold solveN
    rw [e1, e2, if_neg (by simp), if_neg hdet]
  · intro i j hi hj
    have e : (matOf B n n)⁻¹ * matOf A n m = fm n m (fun i j => ∑ k ∈ range n, N i k * A.get [k, j]) := by
      rw [matOf_eq, h.inv, matOf_eq, fm_mul]
    rw [e]
    show (if h : _ then _ else _) = _
    rw [dif_pos ⟨hi, hj⟩]
    rfl

theorem matmul_ok {A B : Arr ℝ} {n k m : Nat} (hA : A.shape = [n, k]) (hB : B.shape = [k, m]) :
    ∃ C, matmul A B = .ok C ∧ C.shape = [n, m] ∧ ∀ i j, C.get [i, j] = ∑ l ∈ range k, A.get [i, l] * B.get [l, j] := by
  refine ⟨⟨[A.shape.getD 0 0, B.shape.getD 1 0], fun ij =>
    ∑ k ∈ Finset.range (A.shape.getD 1 0), A.get [ij.getD 0 0, k] * B.get [k, ij.getD 1 0]⟩, ?_, ?_, ?_⟩
  · unfold matmul
    rw [if_neg]
    rw [hA, hB]; simp
  · show [A.shape.getD 0 0, B.shape.getD 1 0] = _
    rw [hA, hB]; rfl
  · intro i j
    show ∑ l ∈ range (A.shape.getD 1 0), _ = _
    rw [hA]; rfl

/-- The selection of the rows of a matrix with independent columns. -/
theorem magicRows_ok {B : Arr ℝ} {m r : Nat} (hB : B.shape = [m, r]) {L : Nat → Nat → ℝ}
    (hL : ∀ k k', k < r → k' < r → ∑ t ∈ range m, L k t * B.get [t, k'] = if k = k' then 1 else 0) :
    ∃ I, magicRows B = .ok I ∧ I.length = r ∧ (∀ a, a < r → I.getD a 0 < m) ∧ I.Nodup ∧
      ∃ N, InvBy r (fun a k => B.get [I.getD a 0, k]) N := by
  have e0 : B.shape.getD 0 0 = m := by rw [hB]; rfl
  have e1 : B.shape.getD 1 0 = r := by rw [hB]; rfl
  have hmul : fm r m L * matOf B m r = 1 := by
    rw [matOf_eq, fm_mul, fm_congr hL, fm_one]
  have hrank : (matOf B m r).rank = r := by
    apply le_antisymm
    · have := Matrix.rank_le_card_width (matOf B m r); simpa using this
    · have := Matrix.rank_mul_le_right (fm r m L) (matOf B m r)
      rw [hmul, Matrix.rank_one, Fintype.card_fin] at this
      exact this
  have hrm : r ≤ m := by
    have := Matrix.rank_le_card_height (matOf B m r); rw [hrank] at this; simpa using this
  have key : ∀ q, q = r → ∃ (I : Fin q → Fin m) (J : Fin q → Fin r), Magic.magicIndices (matOf B m r) q .leftRight = .ok (I, J) ∧
      Function.Injective I ∧ ∃ N, InvBy r (fun a k => B.get [(List.ofFn (fun a => (I a).val)).getD a 0, k]) N := by
    rintro q rfl
    obtain ⟨I, J, h1, h2, h3, h4, _⟩ := Magic.magicIndices_leftRight (matOf B m q) q hrank.ge
    refine ⟨I, J, h1, h2, ?_⟩
    apply exists_inv
    have hJ := Finite.injective_iff_bijective.1 h3
    have e : ((matOf B m q).submatrix I J) = (fm q q (fun a k => B.get [(List.ofFn (fun a => (I a).val)).getD a 0, k])).submatrix id
        (Equiv.ofBijective J hJ) := by
      ext a b
      show B.get [(I a).val, (J b).val] = B.get [(List.ofFn (fun a => (I a).val)).getD a.val 0, (J b).val]
      rw [List.getD_eq_getElem _ _ (by simp)]
      simp
    rw [e] at h4
    have hu := (Matrix.isUnit_iff_isUnit_det _).1 h4
    have hp := Matrix.det_permute' (Equiv.ofBijective J hJ)
      (fm q q (fun a k => B.get [(List.ofFn (fun a => (I a).val)).getD a 0, k]))
    intro h0
    rw [hp, h0, mul_zero] at hu
    exact not_isUnit_zero hu
  obtain ⟨I, J, h1, h2, h3⟩ := key (min m r) (min_eq_right hrm)
  refine ⟨List.ofFn (fun a => (I a).val), ?_, by simp [hrm], ?_, ?_, h3⟩
  · unfold magicRows
    rw [e0, e1]
    unfold magicRowsN
    rw [h1]
    rfl
  · intro a ha
    rw [List.getD_eq_getElem _ _ (by simp; omega)]
    simp
  · rw [List.nodup_ofFn]
    intro a b hab
    exact h2 (Fin.ext hab)

/-! ### principal components -/

theorem firstRank_tol (s : List ℝ) (tol : ℝ) (ht : tol ≤ 0) (q : Nat) (hs : s ≠ []) : firstRank s tol (some 2) q = q + 1 := by
  have hb : ∀ e ∈ (errors s (some 2)).tail ++ [some 0], below tol e = false := by
    intro e he
    by_cases hS : (s.map (· ^ 2)).sum = 0
    · rw [shifted_zero s 2 hs hS] at he
      rcases List.mem_append.1 he with he | he
      · rw [List.eq_of_mem_replicate he]; rfl
      · rw [List.mem_singleton.1 he]
        simpa [below] using ht
    · rw [shifted_eq s 2 (by omega) hs hS] at he
      obtain ⟨k, _, rfl⟩ := List.mem_map.1 he
      have : 0 ≤ ratio s 2 (k + 1) := by
        unfold ratio
        apply Real.rpow_nonneg
        apply div_nonneg <;> apply List.sum_nonneg <;> intro x hx <;> obtain ⟨v, _, rfl⟩ := List.mem_map.1 hx <;> positivity
      unfold below
      simp only [decide_eq_false_iff_not, not_lt]
      linarith
  unfold firstRank
  rw [List.findIdx?_eq_none_iff.2 hb]

/-- A matrix of rank at most `R`: its singular values after the first `R` ones are zero. -/
theorem IsSvd_zero_after {A U W : Arr ℝ} {m n : Nat} {s : List ℝ} (h : IsSvd A m n U s W) {R : Nat} (g h' : Nat → Nat → ℝ)
    (hR : ∀ i j, i < m → j < n → A.get [i, j] = ∑ l ∈ range R, g i l * h' l j) : ∀ l, R ≤ l → s.getD l 0 = 0 := by
  by_contra hc
  push Not at hc
  obtain ⟨l, hl, hne⟩ := hc
  have hlq : l < min m n := by
    by_contra hc
    exact hne (by rw [List.getD_eq_getElem?_getD, List.getElem?_eq_none (by rw [h.len]; omega)]; rfl)
  have hpos : ∀ k, k ≤ l → 0 < s.getD k 0 := by
    intro k hk
    have hkl : k < s.length := by rw [h.len]; omega
    have hll : l < s.length := by rw [h.len]; omega
    have h0 := h.nonneg _ (List.getElem_mem hll)
    rw [List.getD_eq_getElem _ _ hll] at hne
    rw [List.getD_eq_getElem _ _ hkl]
    have : s[l] ≤ s[k] := by
      rcases Nat.lt_or_eq_of_le hk with hk | rfl
      · exact (List.pairwise_iff_getElem.1 h.antitone) k l hkl hll hk
      · exact le_refl _
    exact lt_of_lt_of_le (lt_of_le_of_ne h0 (Ne.symm hne)) this
  -- the product Uᵀ A Wᵀ is diagonal
  have hprod : fm (l + 1) m (fun k i => U.get [i, k]) * (fm m n (fun i j => A.get [i, j]) * fm n (l + 1) (fun j k => W.get [k, j])) =
      Matrix.diagonal (fun k : Fin (l + 1) => s.getD k.val 0) := by
    rw [fm_mul, fm_mul]
    ext a b
    show ∑ i ∈ range m, U.get [i, a.val] * ∑ j ∈ range n, A.get [i, j] * W.get [b.val, j] = _
    have hb : b.val < min m n := by have := b.2; omega
    have ha : a.val < min m n := by have := a.2; omega
    have e1 : ∀ i ∈ range m, ∑ j ∈ range n, A.get [i, j] * W.get [b.val, j] = U.get [i, b.val] * s.getD b.val 0 := by
      intro i hi
      have e2 : ∀ j ∈ range n, A.get [i, j] * W.get [b.val, j] =
          ∑ k ∈ range (min m n), (U.get [i, k] * s.getD k 0) * (W.get [k, j] * W.get [b.val, j]) := by
        intro j hj
        rw [h.eq i j (mem_range.1 hi) (mem_range.1 hj), sum_mul]
        exact sum_congr rfl (fun k _ => by ring)
      rw [sum_congr rfl e2, sum_comm]
      have e3 : ∀ k ∈ range (min m n), ∑ j ∈ range n, (U.get [i, k] * s.getD k 0) * (W.get [k, j] * W.get [b.val, j]) =
          if k = b.val then U.get [i, k] * s.getD k 0 else 0 := by
        intro k hk
        rw [← mul_sum, h.orthR k b.val (mem_range.1 hk) hb]
        split <;> simp
      rw [sum_congr rfl e3, sum_ite_eq', if_pos (mem_range.2 hb)]
    rw [sum_congr rfl (fun i hi => by rw [e1 i hi])]
    have e4 : ∀ i ∈ range m, U.get [i, a.val] * (U.get [i, b.val] * s.getD b.val 0) =
        (U.get [i, a.val] * U.get [i, b.val]) * s.getD b.val 0 := fun i _ => by ring
    rw [sum_congr rfl e4, ← sum_mul, h.orthL a.val b.val ha hb, Matrix.diagonal_apply]
    simp only [Fin.ext_iff]
    split
    · rename_i hab; rw [hab, one_mul]
    · rw [zero_mul]
  have hrk : (Matrix.diagonal (fun k : Fin (l + 1) => s.getD k.val 0)).rank = l + 1 := by
    have : IsUnit (Matrix.diagonal (fun k : Fin (l + 1) => s.getD k.val 0)) := by
      rw [Matrix.isUnit_iff_isUnit_det, Matrix.det_diagonal]
      exact isUnit_iff_ne_zero.2 (Finset.prod_ne_zero_iff.2 (fun k _ => (hpos k.val (by have := k.2; omega)).ne'))
    rw [Matrix.rank_of_isUnit _ this, Fintype.card_fin]
  have hA : fm m n (fun i j => A.get [i, j]) = fm m R g * fm R n h' := by
    rw [fm_mul]; exact fm_congr hR
  have h1 : (fm m n (fun i j => A.get [i, j])).rank ≤ R := by
    rw [hA]
    refine (Matrix.rank_mul_le_left _ _).trans ?_
    have := Matrix.rank_le_card_width (fm m R g); simpa using this
  have h2 := Matrix.rank_mul_le_right (fm (l + 1) m (fun k i => U.get [i, k]))
    (fm m n (fun i j => A.get [i, j]) * fm n (l + 1) (fun j k => W.get [k, j]))
  rw [hprod, hrk] at h2
  have h3 := Matrix.rank_mul_le_left (fm m n (fun i j => A.get [i, j])) (fm n (l + 1) (fun j k => W.get [k, j]))
  omega

/-- The parameter after the comparison with the number of rows. -/
noncomputable def capParam (m : Nat) : Option ℝ → ℝ
  | none => m
  | some p => min p m

theorem pcTruncator_eq (m : Nat) (p : Option ℝ) : pcTruncator m p =
    if capParam m p < 1 then ⟨capParam m p, none, .other, none⟩ else ⟨0, some ⌊capParam m p⌋₊, .other, none⟩ := by
  cases p with
  | none => rfl
  | some p =>
    unfold pcTruncator capParam
    simp only
    have : (if p > (m : ℝ) then (m : ℝ) else p) = min p m := by
      split
      · rename_i h; rw [min_eq_right h.le]
      · rename_i h; rw [min_eq_left (not_lt.1 h)]
    rw [this]

theorem threshold_none {t : Truncator} (ht : t.param = none) (s : List ℝ) (ind : Nat) : threshold t s ind = .ok (s, ind) := by
  unfold threshold; rw [ht]

/-- `principal_components`: the components are the first `r` left singular vectors. -/
theorem principalComponents_data (svd : Svd) (hsvd : SvdOk svd) (A : Arr ℝ) (m n : Nat) (hA : A.shape = [m, n]) (hm : 0 < m)
    (hn : 0 < n) (p : Option ℝ) : ∃ ind r, principalComponents svd A p = .ok (leftCols (svd A).1 ind, (svd A).2.1.take ind) ∧
      r = min ind (min m n) ∧ 1 ≤ r ∧ (1 ≤ capParam m p → r = min ⌊capParam m p⌋₊ (min m n)) ∧ (capParam m p ≤ 0 → r = min m n) ∧
      (capParam m p < 1 → ind = firstRank (svd A).2.1 (capParam m p) (some 2) (min m n)) := by
  have hs := hsvd A m n hA hm hn
  have hsne : (svd A).2.1 ≠ [] := by
    intro h'
    have := hs.len
    rw [h'] at this; simp at this; omega
  have e1 : A.shape.getD 1 0 = n := by rw [hA]; rfl
  have e0 : A.shape.getD 0 0 = m := by rw [hA]; rfl
  have hord : A.order = 2 := by simp [Arr.order, hA]
  by_cases hc : capParam m p < 1
  · refine ⟨firstRank (svd A).2.1 (capParam m p) (some 2) (min m n), _, ?_, rfl, ?_, fun h => absurd h (not_le.2 hc), fun h0 => ?_, fun _ => rfl⟩
    · simp only [principalComponents, hord, e0, pcTruncator_eq, if_pos hc, truncSvd, bind, Except.bind, e1, Option.getD_none]
      rw [if_neg (by simp), threshold_none rfl]
      rfl
    · have : 1 ≤ firstRank (svd A).2.1 (capParam m p) (some 2) (min m n) := by
        unfold firstRank; split <;> exact Nat.le_add_left 1 _
      omega
    · rw [firstRank_tol _ _ h0 _ hsne]; omega
  · have h1 : 1 ≤ ⌊capParam m p⌋₊ := by
      rw [Nat.one_le_floor_iff]; exact not_lt.1 hc
    have hcap : capRank (firstRank (svd A).2.1 0 (some 2) (min m n)) (some ⌊capParam m p⌋₊) = min (min m n + 1) ⌊capParam m p⌋₊ := by
      rw [firstRank_tol _ _ le_rfl _ hsne]; rfl
    refine ⟨min (min m n + 1) ⌊capParam m p⌋₊, _, ?_, rfl, ?_, fun _ => ?_, fun h0 => ?_, fun h => absurd h hc⟩
    · simp only [principalComponents, hord, e0, pcTruncator_eq, if_neg hc, truncSvd, bind, Except.bind, e1, Option.getD_none, hcap]
      rw [if_neg (by simp), threshold_none rfl]
      rfl
    · omega
    · omega
    · exact absurd (lt_of_le_of_lt h0 one_pos) hc

end Verif.Pca
