import Verif.Props.Truncator

/-!
# The left factor of a truncated singular value decomposition
-/

namespace Verif.Truncation

open Verif.Arr Finset

/-- The result of `trunc_svd` without thresholding, for a zero or a nonzero matrix. -/
theorem truncSvd_data (svd : Svd) (hsvd : SvdOk svd) (t : Truncator) (ht : t.param = none ∨ t.param = some 0) (A : Arr ℝ)
    (m n : Nat) (hA : A.shape = [m, n]) (hm : 0 < m) (hn : 0 < n) (tol : ℝ) (p : Nat) (hp : 0 < p) :
    ∃ ind r, truncSvd svd t A (some tol) (some p) =
        .ok ⟨[leftCols (svd A).1 ind, rightRows (svd A).2.2 ind], (svd A).2.1.take ind⟩ ∧ r = min ind (min m n) ∧
      (∀ R, t.maxRank = some R → r ≤ R) ∧ (t.maxRank ≠ some 0 → 1 ≤ r) ∧
      (t.maxRank = none → 0 ≤ tol → (((svd A).2.1.drop r).map (· ^ p)).sum ≤ tol ^ p * ((svd A).2.1.map (· ^ p)).sum) := by
  have h := hsvd A m n hA hm hn
  set s := (svd A).2.1 with hs
  have hlen := h.len
  have hsne : s ≠ [] := by
    intro h'
    rw [h'] at hlen; simp at hlen; omega
  have hmin : min (A.shape.getD 0 0) (A.shape.getD 1 0) = min m n := by rw [hA]; rfl
  have hF1 : 1 ≤ firstRank s tol (some p) (min m n) := by
    unfold firstRank; split <;> exact Nat.succ_pos _
  set F := firstRank s tol (some p) (min m n) with hF
  set ind := capRank F t.maxRank with hind
  have hth : threshold t s ind = .ok (s, ind) := by
    unfold threshold
    rcases ht with h' | h' <;> rw [h'] <;> simp
  have hpos : ∀ l : List ℝ, (∀ v ∈ l, 0 ≤ v) → 0 ≤ (l.map (· ^ p)).sum := by
    intro l hl
    apply List.sum_nonneg
    intro x hx
    obtain ⟨v, hv, rfl⟩ := List.mem_map.1 hx
    exact pow_nonneg (hl v hv) p
  refine ⟨ind, min ind (min m n), ?_, rfl, ?_, ?_, ?_⟩
  · unfold truncSvd
    simp only [Option.getD_some, hmin]
    rw [← hs, ← hF, ← hind, hth]
    rfl
  · intro R hR
    refine le_trans (min_le_left _ _) ?_
    rw [hind, hR]
    exact min_le_right _ _
  · intro h0
    have : 1 ≤ ind := by
      rw [hind]
      unfold capRank
      cases hmr : t.maxRank with
      | none => exact hF1
      | some R =>
        have : R ≠ 0 := fun e => h0 (by rw [hmr, e])
        simp only; omega
    omega
  · intro hmr htol
    have hi : ind = F := by rw [hind, hmr]; rfl
    have hdn : 0 ≤ ((s.drop (min ind (min m n))).map (· ^ p)).sum := hpos _ (fun v hv => h.nonneg v (List.mem_of_mem_drop hv))
    by_cases hS : (s.map (· ^ p)).sum = 0
    · have hz := (powSum_eq_zero hp h.nonneg).1 hS
      rw [hS, mul_zero]
      apply le_of_eq
      exact (powSum_eq_zero hp (fun v hv => h.nonneg v (List.mem_of_mem_drop hv))).2 (fun v hv => hz v (List.mem_of_mem_drop hv))
    · obtain ⟨_, _, f3⟩ := firstRank_spec s tol p (min m n) hp hlen hsne hS
      have hSpos : 0 < (s.map (· ^ p)).sum := lt_of_le_of_ne (hpos _ h.nonneg) (Ne.symm hS)
      by_cases hq : min m n ≤ ind
      · rw [min_eq_right hq, List.drop_of_length_le (by rw [hlen])]
        simp only [List.map_nil, List.sum_nil]
        positivity
      · have h3 := f3 (by omega)
        rw [min_eq_left (by omega), hi]
        rw [min_eq_left (by omega), hi] at hdn
        unfold ratio at h3
        have h0 : 0 ≤ ((s.drop F).map (· ^ p)).sum / (s.map (· ^ p)).sum := div_nonneg hdn hSpos.le
        have h4 : ((s.drop F).map (· ^ p)).sum / (s.map (· ^ p)).sum ≤ tol ^ p := by
          have h5 := pow_le_pow_left₀ (Real.rpow_nonneg h0 _) h3.le p
          rwa [← Real.rpow_natCast, ← Real.rpow_mul h0, one_div, inv_mul_cancel₀ (by positivity), Real.rpow_one] at h5
        rwa [div_le_iff₀ hSpos] at h4

/-- The left factor `U` with `r` columns of a truncated singular value decomposition of `A`. -/
structure LeftOk (A : Arr ℝ) (m n : Nat) (s : List ℝ) (U : Arr ℝ) (r : Nat) : Prop where
  shape : U.shape = [m, r]
  le : r ≤ min m n
  orth : ∀ l l', l < r → l' < r → ∑ i ∈ range m, U.get [i, l] * U.get [i, l'] = if l = l' then 1 else 0
  err : sqSum m n (fun i j => A.get [i, j] - ∑ l ∈ range r, U.get [i, l] * ∑ i' ∈ range m, U.get [i', l] * A.get [i', j]) =
    ((s.drop r).map (· ^ 2)).sum
  split : sqSum m n (fun i j => A.get [i, j]) =
    ∑ l ∈ range r, ∑ j ∈ range n, (∑ i ∈ range m, U.get [i, l] * A.get [i, j]) ^ 2 + ((s.drop r).map (· ^ 2)).sum

theorem IsSvd.leftOk {A U W : Arr ℝ} {m n : Nat} {s : List ℝ} (h : IsSvd A m n U s W) (ind r : Nat) (hr : r = min ind (min m n)) :
    LeftOk A m n s (leftCols U ind) r ∧
    (∀ j l, j < n → l < r → (rightRows W ind).get [j, l] * (s.take ind).getD l 0 =
      ∑ i ∈ range m, U.get [i, l] * A.get [i, j]) ∧ (rightRows W ind).shape = [n, r] ∧ (s.take ind).length = r := by
  have hrq : r ≤ min m n := by rw [hr]; exact min_le_right _ _
  have hco : ∀ j l, j < n → l < r → ∑ i ∈ range m, U.get [i, l] * A.get [i, j] = s.getD l 0 * W.get [l, j] := by
    intro j l hj hl
    have e1 : ∀ i ∈ range m, U.get [i, l] * A.get [i, j] =
        ∑ l' ∈ range (min m n), s.getD l' 0 * W.get [l', j] * (U.get [i, l] * U.get [i, l']) := by
      intro i hi
      rw [h.eq i j (mem_range.1 hi) hj, mul_sum]
      exact sum_congr rfl (fun l' _ => by ring)
    rw [sum_congr rfl e1, sum_comm]
    rw [sum_eq_single_of_mem l (mem_range.2 (by omega))]
    · rw [← mul_sum, h.orthL l l (by omega) (by omega), if_pos rfl, mul_one]
    · intro l' hl' hne
      rw [← mul_sum, h.orthL l l' (by omega) (mem_range.1 hl'), if_neg (Ne.symm hne), mul_zero]
  obtain ⟨a, a1, a2, a3, a4⟩ := h.trunc ind r hr
  have hget : ∀ i l, (leftCols U ind).get [i, l] = U.get [i, l] := fun _ _ => rfl
  have hdrop : ((s.drop r).map (· ^ 2)).sum = ∑ l ∈ range (min m n), if l < r then 0 else s.getD l 0 ^ 2 := by
    rw [sum_drop_eq s 2 r (by rw [h.len]; exact hrq), h.len]
  refine ⟨⟨?_, hrq, ?_, ?_, ?_⟩, ?_, ?_, ?_⟩
  · simp only [leftCols, h.left]; rw [hr]; rfl
  · intro l l' hl hl'
    simp only [hget]
    exact h.orthL l l' (by omega) (by omega)
  · rw [hdrop, ← a4]
    unfold Truncation.sqSum
    refine sum_congr rfl (fun i hi => sum_congr rfl (fun j hj => ?_))
    beta_reduce
    rw [a3 i j (mem_range.1 hi) (mem_range.1 hj)]
    congr 2
    refine sum_congr rfl (fun l hl => ?_)
    simp only [hget]
    rw [hco j l (mem_range.1 hj) (mem_range.1 hl)]
    ring
  · rw [h.sqSum, hdrop]
    have e1 : ∀ l ∈ range r, ∑ j ∈ range n, (∑ i ∈ range m, (leftCols U ind).get [i, l] * A.get [i, j]) ^ 2 = s.getD l 0 ^ 2 := by
      intro l hl
      have hl' := mem_range.1 hl
      have e2 : ∀ j ∈ range n, (∑ i ∈ range m, (leftCols U ind).get [i, l] * A.get [i, j]) ^ 2 =
          s.getD l 0 ^ 2 * (W.get [l, j] * W.get [l, j]) := by
        intro j hj
        simp only [hget]
        rw [hco j l (mem_range.1 hj) hl']; ring
      rw [sum_congr rfl e2, ← mul_sum, h.orthR l l (by omega) (by omega), if_pos rfl, mul_one]
    rw [sum_congr rfl e1, sum_take_eq (min m n) r hrq, ← sum_add_distrib]
    exact sum_congr rfl (fun l _ => by split <;> ring)
  · intro j l hj hl
    rw [hco j l hj hl]
    have hle : (s.take ind).getD l 0 = s.getD l 0 := by
      rw [List.getD_eq_getElem _ _ (by rw [List.length_take, h.len]; omega), List.getD_eq_getElem _ _ (by rw [h.len]; omega),
        List.getElem_take]
    rw [hle, mul_comm]
    rfl
  · simp only [rightRows, h.right]; rw [hr]; rfl
  · rw [List.length_take, h.len, hr]

end Verif.Truncation
