import Verif.Model.Truncator
import Verif.Props.Canonical
import Verif.Props.Measures

/-!
# `Truncator.trunc_svd` (C41)
-/

namespace Verif.Truncation

open Verif.Arr Finset

/-- `A = U diag(s) W` with orthonormal columns of `U` and rows of `W`, `min(m, n)` nonincreasing nonnegative values `s`. -/
structure IsSvd (A : Arr ℝ) (m n : Nat) (U : Arr ℝ) (s : List ℝ) (W : Arr ℝ) : Prop where
  shape : A.shape = [m, n]
  len : s.length = min m n
  left : U.shape = [m, min m n]
  right : W.shape = [min m n, n]
  eq : ∀ i j, i < m → j < n → A.get [i, j] = ∑ l ∈ range (min m n), U.get [i, l] * s.getD l 0 * W.get [l, j]
  orthL : ∀ l l', l < min m n → l' < min m n → ∑ i ∈ range m, U.get [i, l] * U.get [i, l'] = if l = l' then 1 else 0
  orthR : ∀ l l', l < min m n → l' < min m n → ∑ j ∈ range n, W.get [l, j] * W.get [l', j] = if l = l' then 1 else 0
  nonneg : ∀ v ∈ s, 0 ≤ v
  antitone : s.Pairwise (· ≥ ·)

/-- `svd` is an exact singular value decomposition of the matrices that are not empty. -/
def SvdOk (svd : Svd) : Prop :=
  ∀ A m n, A.shape = [m, n] → 0 < m → 0 < n → IsSvd A m n (svd A).1 (svd A).2.1 (svd A).2.2

/-- The relative `ℓᵖ` norm of the values after the first `k` ones. -/
noncomputable def ratio (s : List ℝ) (p k : Nat) : ℝ :=
  (((s.drop k).map (· ^ p)).sum / (s.map (· ^ p)).sum) ^ (1 / (p : ℝ))

/-! ### the rank -/

theorem cumsum_append (l : List ℝ) (a : ℝ) : Measures.cumsum (l ++ [a]) = Measures.cumsum l ++ [l.sum + a] := by
  induction l with
  | nil => simp [Measures.cumsum]
  | cons b l ih =>
    rw [List.cons_append, Measures.cumsum_cons, ih, Measures.cumsum_cons]
    simp [add_assoc]

theorem cumsum_flip (l : List ℝ) :
    (Measures.cumsum l.reverse).reverse = (List.range l.length).map (fun k => (l.drop k).sum) := by
  induction l with
  | nil => simp [Measures.cumsum]
  | cons a l ih =>
    rw [List.reverse_cons, cumsum_append, List.reverse_append, ih, List.length_cons, List.range_succ_eq_map]
    simp [Function.comp_def, add_comm]

/-- The entry `k` of the shifted errors is the relative norm of the values after the first `k + 1` ones. -/
theorem shifted_eq (s : List ℝ) (p : Nat) (hp : 0 < p) (hs : s ≠ []) (hS : (s.map (· ^ p)).sum ≠ 0) :
    (errors s (some p)).tail ++ [some 0] = (List.range s.length).map (fun k => some (ratio s p (k + 1))) := by
  unfold errors
  simp only [if_neg hS, cumsum_flip, List.length_map, List.map_map]
  obtain ⟨n, hn⟩ : ∃ n, s.length = n + 1 := by
    cases s with
    | nil => simp at hs
    | cons a t => exact ⟨t.length, rfl⟩
  rw [hn]
  conv_lhs => rw [List.range_succ_eq_map]
  simp only [List.map_cons, List.tail_cons, List.map_map]
  rw [List.range_succ, List.map_append]
  congr 1
  · apply List.map_congr_left
    intro k _
    simp only [Function.comp, ratio, List.map_drop]
  · simp only [List.map_cons, List.map_nil, ratio]
    rw [List.drop_of_length_le (by omega)]
    have hp' : (p : ℝ)⁻¹ ≠ 0 := inv_ne_zero (by exact_mod_cast hp.ne')
    simp [Real.zero_rpow hp']

theorem shifted_zero (s : List ℝ) (p : Nat) (hs : s ≠ []) (hS : (s.map (· ^ p)).sum = 0) :
    (errors s (some p)).tail ++ [some 0] = List.replicate (s.length - 1) none ++ [some 0] := by
  unfold errors
  simp only [hS, if_true, cumsum_flip, List.length_map, List.map_map]
  congr 1
  rw [List.eq_replicate_iff]
  refine ⟨by simp, ?_⟩
  intro b hb
  have := List.mem_of_mem_tail hb
  rw [List.mem_map] at this
  obtain ⟨k, _, rfl⟩ := this
  rfl

theorem findIdx?_range (n : Nat) (f : Nat → Option ℝ) (tol : ℝ) :
    (((List.range n).map f).findIdx? (below tol) = none ∧ ∀ k, k < n → below tol (f k) = false) ∨
    ∃ k, ((List.range n).map f).findIdx? (below tol) = some k ∧ k < n ∧ below tol (f k) = true ∧
      ∀ j, j < k → below tol (f j) = false := by
  cases h : ((List.range n).map f).findIdx? (below tol) with
  | none =>
    left
    refine ⟨rfl, fun k hk => ?_⟩
    rw [List.findIdx?_eq_none_iff] at h
    exact h (f k) (List.mem_map_of_mem (List.mem_range.2 hk))
  | some k =>
    right
    rw [List.findIdx?_eq_some_iff_getElem] at h
    obtain ⟨h1, h2, h3⟩ := h
    have hk : k < n := by simpa using h1
    refine ⟨k, rfl, hk, by simpa using h2, fun j hj => ?_⟩
    simpa using h3 j hj

/-- The rank kept for the tolerance: the least one (at least one) for which the relative norm of the discarded values is
below the tolerance, and a rank larger than the number of values if there is none. -/
theorem firstRank_spec (s : List ℝ) (tol : ℝ) (p q : Nat) (hp : 0 < p) (hq : s.length = q) (hs : s ≠ [])
    (hS : (s.map (· ^ p)).sum ≠ 0) :
    1 ≤ firstRank s tol (some p) q ∧ (∀ k, 1 ≤ k → k ≤ q → k < firstRank s tol (some p) q → tol ≤ ratio s p k) ∧
      (firstRank s tol (some p) q ≤ q → ratio s p (firstRank s tol (some p) q) < tol) := by
  unfold firstRank
  rw [shifted_eq s p hp hs hS, hq]
  rcases findIdx?_range q (fun k => some (ratio s p (k + 1))) tol with ⟨h1, h2⟩ | ⟨k, h1, h2, h3, h4⟩
  · rw [h1]
    refine ⟨by simp, ?_, by simp⟩
    intro k k1 k2 _
    have := h2 (k - 1) (by omega)
    rw [Nat.sub_add_cancel k1] at this
    simpa [below] using this
  · rw [h1]
    refine ⟨by simp, ?_, ?_⟩
    · intro j j1 j2 j3
      have := h4 (j - 1) (by simp only at j3; omega)
      rw [Nat.sub_add_cancel j1] at this
      simpa [below] using this
    · intro _
      simpa [below] using h3

/-- All values zero (a zero matrix): every rank is kept. -/
theorem firstRank_zero (s : List ℝ) (tol : ℝ) (p q : Nat) (hq : s.length = q) (hs : s ≠ [])
    (hS : (s.map (· ^ p)).sum = 0) : q ≤ firstRank s tol (some p) q := by
  unfold firstRank
  rw [shifted_zero s p hs hS]
  have h0 : 0 < s.length := List.length_pos_iff.2 hs
  have hnone : (List.replicate (s.length - 1) (none : Option ℝ)).findIdx? (below tol) = none := by
    rw [List.findIdx?_eq_none_iff]
    intro x hx
    rw [List.eq_of_mem_replicate hx]; rfl
  rw [List.findIdx?_append, hnone]
  simp only [List.findIdx?_cons, List.findIdx?_nil, Option.none_or, List.length_replicate]
  split
  · exact Nat.le_succ q
  · rename_i k hk
    split at hk
    · simp at hk
      show q ≤ k + 1
      omega
    · simp at hk

/-! ### the truncated decomposition -/

/-- The sum of the squares of the entries of a matrix. -/
noncomputable def sqSum (m n : Nat) (f : Nat → Nat → ℝ) : ℝ := ∑ i ∈ range m, ∑ j ∈ range n, f i j ^ 2

/-- The squared norm of an expansion in orthonormal rank-one matrices. -/
theorem sqSum_expand {m n q : Nat} (u w : Nat → Nat → ℝ) (c : Nat → ℝ)
    (hu : ∀ l l', l < q → l' < q → ∑ i ∈ range m, u i l * u i l' = if l = l' then 1 else 0)
    (hw : ∀ l l', l < q → l' < q → ∑ j ∈ range n, w l j * w l' j = if l = l' then 1 else 0) :
    sqSum m n (fun i j => ∑ l ∈ range q, u i l * c l * w l j) = ∑ l ∈ range q, c l ^ 2 := by
  unfold sqSum
  have h1 : ∀ i j, (∑ l ∈ range q, u i l * c l * w l j) ^ 2 =
      ∑ l ∈ range q, ∑ l' ∈ range q, c l * c l' * ((u i l * u i l') * (w l j * w l' j)) := by
    intro i j
    rw [pow_two, Finset.sum_mul_sum]
    refine sum_congr rfl (fun l _ => sum_congr rfl (fun l' _ => by ring))
  simp only [h1]
  have h2 : ∀ l l', ∑ i ∈ range m, ∑ j ∈ range n, c l * c l' * ((u i l * u i l') * (w l j * w l' j)) =
      c l * c l' * ((∑ i ∈ range m, u i l * u i l') * ∑ j ∈ range n, w l j * w l' j) := by
    intro l l'
    rw [Finset.sum_mul_sum, Finset.mul_sum]
    refine sum_congr rfl (fun i _ => ?_)
    rw [Finset.mul_sum]
  calc ∑ i ∈ range m, ∑ j ∈ range n, ∑ l ∈ range q, ∑ l' ∈ range q, c l * c l' * ((u i l * u i l') * (w l j * w l' j))
      = ∑ l ∈ range q, ∑ l' ∈ range q, ∑ i ∈ range m, ∑ j ∈ range n, c l * c l' * ((u i l * u i l') * (w l j * w l' j)) := by
        have e1 : ∀ i, ∑ j ∈ range n, ∑ l ∈ range q, ∑ l' ∈ range q, c l * c l' * ((u i l * u i l') * (w l j * w l' j)) =
            ∑ l ∈ range q, ∑ l' ∈ range q, ∑ j ∈ range n, c l * c l' * ((u i l * u i l') * (w l j * w l' j)) := by
          intro i
          rw [sum_comm]
          exact sum_congr rfl (fun l _ => sum_comm)
        simp only [e1]
        rw [sum_comm]
        exact sum_congr rfl (fun l _ => sum_comm)
    _ = ∑ l ∈ range q, c l ^ 2 := by
        refine sum_congr rfl (fun l hl => ?_)
        rw [sum_eq_single_of_mem l hl]
        · rw [h2, hu l l (mem_range.1 hl) (mem_range.1 hl), hw l l (mem_range.1 hl) (mem_range.1 hl)]
          simp [pow_two]
        · intro l' hl' hne
          rw [h2, hu l l' (mem_range.1 hl) (mem_range.1 hl'), if_neg (Ne.symm hne)]
          ring

/-- The squared norm of the matrix. -/
theorem IsSvd.sqSum {A U W : Arr ℝ} {m n : Nat} {s : List ℝ} (h : IsSvd A m n U s W) :
    sqSum m n (fun i j => A.get [i, j]) = ∑ l ∈ range (min m n), s.getD l 0 ^ 2 := by
  rw [← sqSum_expand (q := min m n) (fun i l => U.get [i, l]) (fun l j => W.get [l, j]) (fun l => s.getD l 0) h.orthL h.orthR]
  unfold Truncation.sqSum
  refine sum_congr rfl (fun i hi => sum_congr rfl (fun j hj => ?_))
  beta_reduce
  rw [h.eq i j (mem_range.1 hi) (mem_range.1 hj)]

theorem sum_take_eq (q r : Nat) (hr : r ≤ q) (f : Nat → ℝ) :
    ∑ l ∈ range r, f l = ∑ l ∈ range q, if l < r then f l else 0 := by
  rw [← sum_subset (s₁ := range r) (s₂ := range q)]
  · exact sum_congr rfl (fun l hl => by rw [if_pos (mem_range.1 hl)])
  · intro l hl; simp only [mem_range] at hl ⊢; omega
  · intro l _ hl
    rw [if_neg (by simpa using hl)]

/-- The canonical tensor made of the first `r` singular triplets and its error. -/
theorem IsSvd.trunc {A U W : Arr ℝ} {m n : Nat} {s : List ℝ} (h : IsSvd A m n U s W) (ind r : Nat) (hr : r = min ind (min m n)) :
    ∃ a, Canonical.full ⟨[leftCols U ind, rightRows W ind], s.take ind⟩ = .ok a ∧ a.shape = [m, n] ∧
      (∀ i j, i < m → j < n → a.get [i, j] = ∑ l ∈ range r, U.get [i, l] * s.getD l 0 * W.get [l, j]) ∧
      Truncation.sqSum m n (fun i j => A.get [i, j] - a.get [i, j]) =
        ∑ l ∈ range (min m n), if l < r then 0 else s.getD l 0 ^ 2 := by
  have hlen : (s.take ind).length = r := by rw [List.length_take, h.len, hr]
  have hwf : Canonical.WF (⟨[leftCols U ind, rightRows W ind], s.take ind⟩ : Canonical.Cn ℝ) := by
    refine ⟨by simp, ?_⟩
    intro M hM
    simp only [List.mem_cons, List.not_mem_nil, or_false] at hM
    rcases hM with rfl | rfl
    · refine ⟨m, ?_⟩
      simp only [leftCols, h.left]
      rw [hlen, hr]; rfl
    · refine ⟨n, ?_⟩
      simp only [rightRows, h.right]
      rw [hlen, hr]; rfl
  obtain ⟨a, a1, a2, a3⟩ := Canonical.full_spec _ hwf
  have hs : a.shape = [m, n] := by
    rw [a2]; simp [Canonical.Cn.shape, leftCols, rightRows, h.left, h.right]
  have hget : ∀ i j, i < m → j < n → a.get [i, j] = ∑ l ∈ range r, U.get [i, l] * s.getD l 0 * W.get [l, j] := by
    intro i j hi hj
    rw [a3 [i, j] (by rw [hs]; simp [hi, hj])]
    simp only [hlen]
    refine sum_congr rfl (fun l hl => ?_)
    have hl' := mem_range.1 hl
    have hle : (s.take ind).getD l 0 = s.getD l 0 := by
      rw [List.getD_eq_getElem _ _ (by omega), List.getD_eq_getElem _ _ (by rw [h.len]; omega), List.getElem_take]
    rw [hle]
    simp only [leftCols, rightRows, List.zipWith_cons_cons, List.zipWith_nil_right, List.prod_cons, List.prod_nil, mul_one,
      List.getD_cons_zero, List.getD_cons_succ]
    ring
  refine ⟨a, a1, hs, hget, ?_⟩
  have hrq : r ≤ min m n := by rw [hr]; exact min_le_right _ _
  have he := sqSum_expand (m := m) (n := n) (q := min m n) (fun i l => U.get [i, l]) (fun l j => W.get [l, j])
    (fun l => if l < r then 0 else s.getD l 0) h.orthL h.orthR
  have h1 : Truncation.sqSum m n (fun i j => A.get [i, j] - a.get [i, j]) =
      Truncation.sqSum m n (fun i j => ∑ l ∈ range (min m n), U.get [i, l] * (if l < r then 0 else s.getD l 0) * W.get [l, j]) := by
    unfold Truncation.sqSum
    refine sum_congr rfl (fun i hi => sum_congr rfl (fun j hj => ?_))
    beta_reduce
    rw [h.eq i j (mem_range.1 hi) (mem_range.1 hj), hget i j (mem_range.1 hi) (mem_range.1 hj), sum_take_eq _ r hrq,
      ← sum_sub_distrib]
    congr 1
    refine sum_congr rfl (fun l _ => ?_)
    split <;> ring
  rw [h1, he]
  refine sum_congr rfl (fun l _ => ?_)
  split <;> simp

theorem sum_drop_eq (s : List ℝ) (p r : Nat) (hr : r ≤ s.length) :
    ((s.drop r).map (· ^ p)).sum = ∑ l ∈ range s.length, if l < r then 0 else s.getD l 0 ^ p := by
  induction s generalizing r with
  | nil => simp
  | cons a s ih =>
    rw [List.length_cons, Finset.sum_range_succ']
    cases r with
    | zero =>
      have := ih 0 (by omega)
      simp only [List.drop_zero, Nat.not_lt_zero, if_false] at this ⊢
      simp only [List.map_cons, List.sum_cons, List.getD_cons_succ, List.getD_cons_zero]
      rw [this]; ring
    | succ r =>
      have := ih r (by simpa using hr)
      simp only [List.drop_succ_cons, List.getD_cons_succ, Nat.add_lt_add_iff_right, Nat.succ_pos, if_true, add_zero]
      exact this

theorem powSum_eq_zero {s : List ℝ} {p : Nat} (hp : 0 < p) (h0 : ∀ v ∈ s, 0 ≤ v) :
    (s.map (· ^ p)).sum = 0 ↔ ∀ v ∈ s, v = 0 := by
  induction s with
  | nil => simp
  | cons a s ih =>
    have ha : 0 ≤ a ^ p := pow_nonneg (h0 a (by simp)) p
    have hs : 0 ≤ (s.map (· ^ p)).sum := by
      apply List.sum_nonneg
      intro x hx
      obtain ⟨v, hv, rfl⟩ := List.mem_map.1 hx
      exact pow_nonneg (h0 v (by simp [hv])) p
    rw [List.map_cons, List.sum_cons, add_eq_zero_iff_of_nonneg ha hs, ih (fun v hv => h0 v (by simp [hv])),
      pow_eq_zero_iff hp.ne']
    simp

/-- A matrix whose singular values are all zero is zero. -/
theorem IsSvd.zero {A U W : Arr ℝ} {m n : Nat} {s : List ℝ} (h : IsSvd A m n U s W) (hs : ∀ v ∈ s, v = 0) :
    ∀ i j, i < m → j < n → A.get [i, j] = 0 := by
  intro i j hi hj
  rw [h.eq i j hi hj]
  apply sum_eq_zero
  intro l hl
  have : s.getD l 0 = 0 := by
    rw [List.getD_eq_getElem _ _ (by rw [h.len]; exact mem_range.1 hl)]
    exact hs _ (List.getElem_mem _)
  rw [this]; ring

/-- C41. `trunc_svd` without thresholding. `r` is the rank of the result: at most the number of singular values and the
maximal rank; every smaller rank leaves a relative error that is not below the tolerance; the relative error is below the
tolerance, unless all the singular values are kept or the maximal rank is reached. The result is the sum of the first `r`
singular terms, and its squared error is the sum of the squares of the discarded values. -/
theorem truncSvd_spec (svd : Svd) (hsvd : SvdOk svd) (t : Truncator) (ht : t.param = none ∨ t.param = some 0) (A : Arr ℝ)
    (m n : Nat) (hA : A.shape = [m, n]) (hne : ∃ i j, i < m ∧ j < n ∧ A.get [i, j] ≠ 0) (tol : ℝ) (p : Nat) (hp : 0 < p) :
    ∃ c r a, truncSvd svd t A (some tol) (some p) = .ok c ∧ c.core = (svd A).2.1.take r ∧ c.core.length = r ∧
      r ≤ min m n ∧ (∀ R, t.maxRank = some R → r ≤ R) ∧ (t.maxRank ≠ some 0 → 1 ≤ r) ∧
      (∀ k, 1 ≤ k → k < r → tol ≤ ratio (svd A).2.1 p k) ∧
      (ratio (svd A).2.1 p r < tol ∨ r = min m n ∨ t.maxRank = some r) ∧
      Canonical.full c = .ok a ∧ a.shape = [m, n] ∧
      (∀ i j, i < m → j < n → a.get [i, j] =
        ∑ l ∈ range r, (svd A).1.get [i, l] * (svd A).2.1.getD l 0 * (svd A).2.2.get [l, j]) ∧
      sqSum m n (fun i j => A.get [i, j] - a.get [i, j]) = (((svd A).2.1.drop r).map (· ^ 2)).sum := by
  obtain ⟨i0, j0, hi0, hj0, hA0⟩ := hne
  have h := hsvd A m n hA (by omega) (by omega)
  set s := (svd A).2.1 with hs
  have hlen := h.len
  have hsne : s ≠ [] := by
    intro h'
    rw [h'] at hlen; simp at hlen; omega
  have hS : (s.map (· ^ p)).sum ≠ 0 := by
    intro h'
    exact hA0 (h.zero ((powSum_eq_zero hp h.nonneg).1 h') i0 j0 hi0 hj0)
  have hmin : min (A.shape.getD 0 0) (A.shape.getD 1 0) = min m n := by rw [hA]; rfl
  obtain ⟨f1, f2, f3⟩ := firstRank_spec s tol p (min m n) hp hlen hsne hS
  set F := firstRank s tol (some p) (min m n) with hF
  set ind := capRank F t.maxRank with hind
  have hth : threshold t s ind = .ok (s, ind) := by
    unfold threshold
    rcases ht with h' | h' <;> rw [h'] <;> simp
  have hcap : ind ≤ F ∧ (∀ R, t.maxRank = some R → ind ≤ R) ∧ (ind < F → t.maxRank = some ind) ∧
      (t.maxRank ≠ some 0 → 1 ≤ ind) := by
    rw [hind]
    unfold capRank
    cases hmr : t.maxRank with
    | none => simp [f1]
    | some R =>
      simp only [Option.some.injEq]
      refine ⟨min_le_left _ _, fun R' h' => by omega, fun h' => by omega, fun h' => ?_⟩
      have : R ≠ 0 := fun e => h' (by rw [e])
      omega
  set r := min ind (min m n) with hr
  obtain ⟨a, a1, a2, a3, a4⟩ := h.trunc ind r rfl
  refine ⟨⟨[leftCols (svd A).1 ind, rightRows (svd A).2.2 ind], s.take ind⟩, r, a, ?_, ?_, ?_, min_le_right _ _, ?_, ?_, ?_, ?_,
    a1, a2, a3, ?_⟩
  · unfold truncSvd
    simp only [Option.getD_some, hmin]
    rw [← hs, ← hF, ← hind, hth]
    rfl
  · show s.take ind = s.take r
    rw [hr, ← hlen, List.take_eq_take_min]
  · rw [List.length_take, hlen]
  · intro R hR
    exact le_trans (min_le_left _ _) (hcap.2.1 R hR)
  · intro h'
    have := hcap.2.2.2 h'
    omega
  · intro k k1 k2
    exact f2 k k1 (by omega) (by omega)
  · by_cases hq : min m n ≤ ind
    · right; left; omega
    · have hri : r = ind := by omega
      by_cases hlt : ind < F
      · right; right
        rw [hri]; exact hcap.2.2.1 hlt
      · left
        have : ind = F := by omega
        rw [hri, this]
        exact f3 (by omega)
  · rw [a4, sum_drop_eq s 2 r (by rw [hlen]; omega), hlen]

/-- C41. Without maximal rank and thresholding, the relative error in Frobenius norm is at most the tolerance. -/
theorem truncSvd_error (svd : Svd) (hsvd : SvdOk svd) (t : Truncator) (ht : t.param = none ∨ t.param = some 0)
    (hmr : t.maxRank = none) (A : Arr ℝ) (m n : Nat) (hA : A.shape = [m, n])
    (hne : ∃ i j, i < m ∧ j < n ∧ A.get [i, j] ≠ 0) (tol : ℝ) (htol : 0 ≤ tol) :
    ∃ c a, truncSvd svd t A (some tol) = .ok c ∧ Canonical.full c = .ok a ∧ a.shape = [m, n] ∧
      sqSum m n (fun i j => A.get [i, j] - a.get [i, j]) ≤ tol ^ 2 * sqSum m n (fun i j => A.get [i, j]) := by
  obtain ⟨c, r, a, c1, c2, c3, c4, c5, c6, c7, c8, c9, c10, c11, c12⟩ := truncSvd_spec svd hsvd t ht A m n hA hne tol 2 (by omega)
  obtain ⟨i0, j0, hi0, hj0, hA0⟩ := hne
  have h := hsvd A m n hA (by omega) (by omega)
  refine ⟨c, a, c1, c9, c10, ?_⟩
  rw [c12, h.sqSum]
  have hS : ∑ l ∈ range (min m n), (svd A).2.1.getD l 0 ^ 2 = ((svd A).2.1.map (· ^ 2)).sum := by
    have := sum_drop_eq (svd A).2.1 2 0 (by omega)
    simp only [List.drop_zero, Nat.not_lt_zero, if_false] at this
    rw [this, h.len]
  rw [hS]
  have hSpos : 0 < ((svd A).2.1.map (· ^ 2)).sum := by
    apply lt_of_le_of_ne
    · apply List.sum_nonneg
      intro x hx
      obtain ⟨v, _, rfl⟩ := List.mem_map.1 hx
      positivity
    · intro h'
      exact hA0 (h.zero ((powSum_eq_zero (by omega) h.nonneg).1 h'.symm) i0 j0 hi0 hj0)
  have hdn : 0 ≤ (((svd A).2.1.drop r).map (· ^ 2)).sum := by
    apply List.sum_nonneg
    intro x hx
    obtain ⟨v, _, rfl⟩ := List.mem_map.1 hx
    positivity
  rcases c8 with h8 | h8 | h8
  · unfold ratio at h8
    have h9 : 0 ≤ (((svd A).2.1.drop r).map (· ^ 2)).sum / ((svd A).2.1.map (· ^ 2)).sum := by positivity
    rw [show ((1 : ℝ) / ((2 : ℕ) : ℝ)) = 1 / 2 by norm_num, ← Real.sqrt_eq_rpow] at h8
    rw [Real.sqrt_lt' (lt_of_le_of_lt (Real.sqrt_nonneg _) h8), div_lt_iff₀ hSpos] at h8
    exact h8.le
  · rw [h8, List.drop_of_length_le (by rw [h.len])]
    simp; positivity
  · rw [hmr] at h8; simp at h8

/-- C41. A zero matrix (whose relative errors are `nan`): all the ranks are kept up to the maximal rank. -/
theorem truncSvd_zero (svd : Svd) (hsvd : SvdOk svd) (t : Truncator) (ht : t.param = none ∨ t.param = some 0) (A : Arr ℝ)
    (m n : Nat) (hA : A.shape = [m, n]) (hm : 0 < m) (hn : 0 < n) (h0 : ∀ i j, i < m → j < n → A.get [i, j] = 0) (tol : ℝ)
    (p : Nat) (hp : 0 < p) :
    ∃ c, truncSvd svd t A (some tol) (some p) = .ok c ∧ c.core.length = (match t.maxRank with | none => min m n | some R => min R (min m n)) := by
  have h := hsvd A m n hA hm hn
  set s := (svd A).2.1 with hs
  have hlen := h.len
  have hsne : s ≠ [] := by
    intro h'
    rw [h'] at hlen; simp at hlen; omega
  have hz : ∀ v ∈ s, v = 0 := by
    have := h.sqSum
    have hz : sqSum m n (fun i j => A.get [i, j]) = 0 := by
      unfold sqSum
      exact sum_eq_zero (fun i hi => sum_eq_zero (fun j hj => by beta_reduce; rw [h0 i j (mem_range.1 hi) (mem_range.1 hj)]; ring))
    rw [hz] at this
    have h2 := (Finset.sum_eq_zero_iff_of_nonneg (fun l _ => sq_nonneg (s.getD l 0))).1 this.symm
    intro v hv
    obtain ⟨l, hl, rfl⟩ := List.mem_iff_getElem.1 hv
    have := h2 l (mem_range.2 (by rw [← hlen]; exact hl))
    rw [List.getD_eq_getElem _ _ hl] at this
    simpa using this
  have hS := (powSum_eq_zero hp h.nonneg).2 hz
  have hF := firstRank_zero s tol p (min m n) hlen hsne hS
  have hmin : min (A.shape.getD 0 0) (A.shape.getD 1 0) = min m n := by rw [hA]; rfl
  set F := firstRank s tol (some p) (min m n) with hFd
  set ind := capRank F t.maxRank with hind
  have hth : threshold t s ind = .ok (s, ind) := by
    unfold threshold
    rcases ht with h' | h' <;> rw [h'] <;> simp
  refine ⟨⟨[leftCols (svd A).1 ind, rightRows (svd A).2.2 ind], s.take ind⟩, ?_, ?_⟩
  · unfold truncSvd
    simp only [Option.getD_some, hmin]
    rw [← hs, ← hFd, ← hind, hth]
    rfl
  · rw [List.length_take, hlen, hind]
    unfold capRank
    cases t.maxRank with
    | none => simp only; omega
    | some R => simp only; omega

/-! ### thresholding -/

theorem filter_range_lt (n k : Nat) (hk : k ≤ n) : (List.range n).filter (fun i => decide (i < k)) = List.range k := by
  obtain ⟨d, rfl⟩ := Nat.exists_eq_add_of_le hk
  rw [List.range_add, List.filter_append]
  have h1 : (List.range k).filter (fun i => decide (i < k)) = List.range k := by
    rw [List.filter_eq_self]; intro i hi; simpa using hi
  have h2 : ((List.range d).map (k + ·)).filter (fun i => decide (i < k)) = [] := by
    rw [List.filter_eq_nil_iff]
    intro i hi
    obtain ⟨j, _, rfl⟩ := List.mem_map.1 hi
    simp
  rw [h1, h2, List.append_nil]

/-- The number of the values not below `h` in a nonincreasing list. -/
theorem lastTrue_spec (s : List ℝ) (hs : s.Pairwise (· ≥ ·)) (h : ℝ) :
    (s.countP (fun v => decide (h ≤ v)) = 0 ∧ lastTrue (s.map (fun v => decide (h ≤ v))) = .error .indexError) ∨
    (0 < s.countP (fun v => decide (h ≤ v)) ∧
      lastTrue (s.map (fun v => decide (h ≤ v))) = .ok (s.countP (fun v => decide (h ≤ v)))) := by
  have key : ∀ (s : List ℝ), s.Pairwise (· ≥ ·) → ∀ i, i < s.length →
      ((s.map (fun v => decide (h ≤ v))).getD i false = decide (i < s.countP (fun v => decide (h ≤ v)))) := by
    intro s
    induction s with
    | nil => intro _ i hi; simp at hi
    | cons a s ih =>
      intro hs i hi
      rw [List.pairwise_cons] at hs
      by_cases ha : h ≤ a
      · rw [List.countP_cons_of_pos (by simpa using ha)]
        cases i with
        | zero => simp [ha]
        | succ i =>
          rw [List.map_cons, List.getD_cons_succ, ih hs.2 i (by simpa using hi)]
          simp
      · rw [List.countP_cons_of_neg (by simpa using ha)]
        have hz : s.countP (fun v => decide (h ≤ v)) = 0 := by
          rw [List.countP_eq_zero]
          intro v hv
          have := hs.1 v hv
          simp only [decide_eq_true_eq, not_le]
          exact lt_of_le_of_lt this (by simpa using ha)
        cases i with
        | zero => simp [ha, hz]
        | succ i =>
          rw [List.map_cons, List.getD_cons_succ, ih hs.2 i (by simpa using hi), hz]
          simp
  set k := s.countP (fun v => decide (h ≤ v)) with hk
  have hkl : k ≤ s.length := List.countP_le_length
  have hf : (List.range (s.map (fun v => decide (h ≤ v))).length).filter
      (fun i => (s.map (fun v => decide (h ≤ v))).getD i false) = List.range k := by
    rw [List.length_map, ← filter_range_lt s.length k hkl]
    apply List.filter_congr
    intro i hi
    exact key s hs i (List.mem_range.1 hi)
  unfold lastTrue
  rw [hf]
  by_cases h0 : k = 0
  · left; rw [h0]; exact ⟨rfl, rfl⟩
  · right
    obtain ⟨k', hk'⟩ := Nat.exists_eq_succ_of_ne_zero h0
    rw [hk', List.range_succ, List.getLast?_concat]
    exact ⟨by omega, rfl⟩

/-- C41. Hard thresholding: the rank is also at most the number of the singular values not below the parameter, and the
truncation fails if there is none; soft thresholding: moreover the parameter is subtracted from the singular values. -/
theorem truncSvd_threshold (svd : Svd) (hsvd : SvdOk svd) (t : Truncator) (h : ℝ) (hh : h ≠ 0) (ht : t.param = some h)
    (hk : t.kind = .hard ∨ t.kind = .soft) (A : Arr ℝ) (m n : Nat) (hA : A.shape = [m, n]) (hm : 0 < m) (hn : 0 < n)
    (tol : ℝ) (p : Nat) (c0 : Canonical.Cn ℝ)
    (h0 : truncSvd svd { t with param := none } A (some tol) (some p) = .ok c0) :
    ((svd A).2.1.countP (fun v => decide (h ≤ v)) = 0 → truncSvd svd t A (some tol) (some p) = .error .indexError) ∧
    (0 < (svd A).2.1.countP (fun v => decide (h ≤ v)) →
      ∃ c r, truncSvd svd t A (some tol) (some p) = .ok c ∧
        r = min c0.core.length ((svd A).2.1.countP (fun v => decide (h ≤ v))) ∧
        c.core = (if t.kind matches .soft then (((svd A).2.1.take r).map (· - h)) else (svd A).2.1.take r)) := by
  have hs := hsvd A m n hA hm hn
  set s := (svd A).2.1 with hsd
  have hcore : c0.core.length = min (capRank (firstRank s tol (some p) (min (A.shape.getD 0 0) (A.shape.getD 1 0))) t.maxRank) s.length := by
    unfold truncSvd at h0
    simp only [threshold, bind, Except.bind, Option.getD_some] at h0
    rw [Except.ok.injEq] at h0
    rw [← h0, List.length_take, hsd]
  set ind := capRank (firstRank s tol (some p) (min (A.shape.getD 0 0) (A.shape.getD 1 0))) t.maxRank with hind
  have hcl : s.countP (fun v => decide (h ≤ v)) ≤ s.length := List.countP_le_length
  have hmask : (s.map (· - h)).map (fun v => decide (0 ≤ v)) = s.map (fun v => decide (h ≤ v)) := by
    rw [List.map_map]
    apply List.map_congr_left
    intro v _
    simp
  have htr : truncSvd svd t A (some tol) (some p) = (do
      let q ← threshold t s ind
      .ok ⟨[leftCols (svd A).1 q.2, rightRows (svd A).2.2 q.2], q.1.take q.2⟩) := rfl
  rcases lastTrue_spec s hs.antitone h with ⟨e1, e2⟩ | ⟨e1, e2⟩
  · refine ⟨fun _ => ?_, fun h' => by omega⟩
    rw [htr]
    unfold threshold
    rw [ht]
    simp only [if_neg hh]
    rcases hk with hk | hk <;> rw [hk] <;> simp only [hmask, e2, bind, Except.bind]
  · refine ⟨fun h' => by omega, fun _ => ?_⟩
    set k := s.countP (fun v => decide (h ≤ v)) with hkd
    rcases hk with hk | hk
    · refine ⟨⟨[leftCols (svd A).1 (min ind k), rightRows (svd A).2.2 (min ind k)], s.take (min ind k)⟩,
        min c0.core.length k, ?_, rfl, ?_⟩
      · rw [htr]
        unfold threshold
        rw [ht]
        simp only [if_neg hh]
        rw [hk]
        simp only [e2, bind, Except.bind]
      · rw [hk]
        simp only [Bool.false_eq_true, if_false]
        congr 1
        omega
    · refine ⟨⟨[leftCols (svd A).1 (min ind k), rightRows (svd A).2.2 (min ind k)], (s.map (· - h)).take (min ind k)⟩,
        min c0.core.length k, ?_, rfl, ?_⟩
      · rw [htr]
        unfold threshold
        rw [ht]
        simp only [if_neg hh]
        rw [hk]
        simp only [hmask, e2, bind, Except.bind]
      · rw [hk]
        simp only [if_true]
        rw [← List.map_take]
        congr 2
        omega

end Verif.Truncation
