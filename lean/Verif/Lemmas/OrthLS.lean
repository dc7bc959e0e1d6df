import Verif.Lemmas.LinAlg
import Verif.Lemmas.NodeSvd

/-!
# The matrices of `orth_at_node`
-/

namespace Verif.TreeBased

open Verif.Arr Verif.Truncation Finset

theorem orthLS_spec (svd : Svd) (hsvd : SvdOk svd) (la : LinAlg) (hla : LinAlgOk la) (g : Arr ℝ) (n : Nat) (hg : g.shape = [n, n])
    (hn : 0 < n) (hs : ∀ s s', s < n → s' < n → g.get [s, s'] = g.get [s', s])
    (hp : ∀ v : Nat → ℝ, 0 ≤ ∑ s ∈ range n, ∑ s' ∈ range n, v s * g.get [s, s'] * v s') :
    ∃ k L S, la.rank (orthL svd g) = k ∧ orthLS la g (orthL svd g) k = (L, S) ∧ L.shape = [n, k] ∧ S.shape = [k, n] ∧ k ≤ n ∧
      (∀ s s', s < n → s' < n → g.get [s, s'] = ∑ l ∈ range k, L.get [s, l] * L.get [s', l]) ∧
      (∀ l l', l < k → l' < k → ∑ s ∈ range n, S.get [l, s] * L.get [s, l'] = if l = l' then 1 else 0) ∧
      ∀ s s', s < n → s' < n → ∑ l ∈ range k, L.get [s, l] * S.get [l, s'] = ∑ l ∈ range k, L.get [s', l] * S.get [l, s] := by
  have h := hsvd g n n hg hn hn
  have hmin : min n n = n := min_self n
  have h0 : ∀ l, 0 ≤ (svd g).2.1.getD l 0 := by
    intro l
    by_cases hl : l < (svd g).2.1.length
    · rw [List.getD_eq_getElem _ _ hl]; exact h.nonneg _ (List.getElem_mem _)
    · rw [List.getD_eq_default _ _ (by omega)]
  set σ : Nat → ℝ := fun l => (svd g).2.1.getD l 0 with hσ
  set L := orthL svd g with hL
  have hLs : L.shape = [n, n] := by rw [hL]; show (svd g).1.shape = _; rw [h.left, hmin]
  have hLg : ∀ s l, L.get [s, l] = (svd g).1.get [s, l] * Real.sqrt (σ l) := by
    intro s l
    show (svd g).1.get [s, l] * Real.sqrt |(svd g).2.1.getD l 0| = _
    rw [abs_of_nonneg (h0 l)]
  have huO : ∀ l l', l < n → l' < n → ∑ s ∈ range n, (svd g).1.get [s, l] * (svd g).1.get [s, l'] = if l = l' then 1 else 0 :=
    fun l l' hl hl' => h.orthL l l' (by omega) (by omega)
  have hcol : ∀ l l', l < n → l' < n → ∑ s ∈ range n, L.get [s, l] * L.get [s, l'] = if l = l' then σ l else 0 := by
    intro l l' hl hl'
    have e : ∀ s ∈ range n, L.get [s, l] * L.get [s, l'] =
        Real.sqrt (σ l) * Real.sqrt (σ l') * ((svd g).1.get [s, l] * (svd g).1.get [s, l']) := by
      intro s _; rw [hLg, hLg]; ring
    rw [sum_congr rfl e, ← mul_sum, huO l l' hl hl']
    by_cases hll : l = l'
    · rw [if_pos hll, if_pos hll, ← hll, mul_one, Real.mul_self_sqrt (h0 l)]
    · rw [if_neg hll, if_neg hll, mul_zero]
  have hdec : ∀ l l' : Fin n, l ≤ l' → σ l' ≤ σ l := by
    intro l l' hll
    rcases eq_or_lt_of_le hll with e | e
    · rw [e]
    · have hlen : (svd g).2.1.length = n := by rw [h.len, hmin]
      show (svd g).2.1.getD l' 0 ≤ (svd g).2.1.getD l 0
      rw [List.getD_eq_getElem _ _ (by rw [hlen]; exact l'.2), List.getD_eq_getElem _ _ (by rw [hlen]; exact l.2)]
      exact List.pairwise_iff_getElem.1 h.antitone l l' _ _ e
  set k := la.rank L with hk
  have hgram : ∀ q, q ≤ n → (toMat L n q).transpose * toMat L n q = Matrix.diagonal (fun l : Fin q => σ l) := by
    intro q hq
    ext l l'
    rw [Matrix.mul_apply, Matrix.diagonal_apply]
    have := hcol l l' (by omega) (by omega)
    rw [Finset.sum_range] at this
    simp only [Matrix.transpose_apply, toMat]
    rw [this]
    by_cases hll : l = l'
    · rw [if_pos hll, if_pos (by rw [hll])]
    · rw [if_neg hll, if_neg (fun e => hll (Fin.ext e))]
  have hk1 : k = Fintype.card {l : Fin n // σ l ≠ 0} := by
    rw [hk, hla.rank L n n hLs, rank_orth_cols _ _ (hgram n le_rfl)]
  have hkn : k ≤ n := by
    rw [hk, hla.rank L n n hLs]
    exact Matrix.rank_le_width _
  have hnz : ∀ l, l < n → (σ l ≠ 0 ↔ l < k) := by
    intro l hl
    rw [hk1]
    exact card_nonzero (fun l : Fin n => σ l) (fun l => h0 l) hdec ⟨l, hl⟩
  -- the eigenvalue decomposition
  have heig : ∀ s s', s < n → s' < n → g.get [s, s'] = ∑ l ∈ range k, L.get [s, l] * L.get [s', l] := by
    intro s s' hsn hsn'
    have hle : ∀ l, l < n → ∑ s'' ∈ range n, g.get [s, s''] * (svd g).1.get [s'', l] = σ l * (svd g).1.get [s, l] := by
      intro l hl
      exact left_eig (n := n) (A := fun s s' => g.get [s, s']) (u := fun s l => (svd g).1.get [s, l])
        (w := fun l s => (svd g).2.2.get [l, s]) (σ := σ)
        (by intro s s' hs hs'; have := h.eq s s' hs hs'; rwa [hmin] at this) huO
        (by intro l l' hl hl'; exact h.orthR l l' (by omega) (by omega)) (fun l _ => h0 l) hs hp hl hsn
    have hc := complete (fun s l => (svd g).1.get [s, l]) huO
    have e1 : g.get [s, s'] = ∑ l ∈ range n, σ l * (svd g).1.get [s, l] * (svd g).1.get [s', l] := by
      have e2 : ∀ l ∈ range n, σ l * (svd g).1.get [s, l] * (svd g).1.get [s', l] =
          ∑ s'' ∈ range n, g.get [s, s''] * ((svd g).1.get [s'', l] * (svd g).1.get [s', l]) := by
        intro l hl
        rw [← hle l (mem_range.1 hl), sum_mul]
        exact sum_congr rfl (fun s'' _ => by ring)
      rw [sum_congr rfl e2, sum_comm, sum_eq_single_of_mem s' (mem_range.2 hsn')]
      · rw [← mul_sum, hc s' s' hsn' hsn', if_pos rfl, mul_one]
      · intro s'' hs'' hne
        rw [← mul_sum, hc s'' s' (mem_range.1 hs'') hsn', if_neg hne, mul_zero]
    rw [e1]
    have hsub : range k ⊆ range n := fun a ha => mem_range.2 (lt_of_lt_of_le (mem_range.1 ha) hkn)
    rw [← sum_subset hsub]
    · refine sum_congr rfl (fun l _ => ?_)
      rw [hLg, hLg]
      have : Real.sqrt (σ l) * Real.sqrt (σ l) = σ l := Real.mul_self_sqrt (h0 l)
      conv_lhs => rw [← this]
      ring
    · intro l hl hl'
      have h1 : σ l = 0 := by
        by_contra hne
        exact hl' (mem_range.2 ((hnz l (mem_range.1 hl)).1 hne))
      rw [h1]; ring
  have hmulL : ∀ (A B : Arr ℝ) (a b c : Nat) (i j : Nat) (hi : i < a) (hj : j < c), (toMat A a b * toMat B b c) ⟨i, hi⟩ ⟨j, hj⟩ =
      ∑ s ∈ range b, A.get [i, s] * B.get [s, j] := by
    intro A B a b c i j hi hj
    rw [Matrix.mul_apply, Finset.sum_range]
    rfl
  by_cases hkn' : k = n
  · have hrank : (toMat L n n).rank = n := by rw [← hla.rank L n n hLs]; exact hkn'
    obtain ⟨i1, i2, i3⟩ := hla.inv L n hLs hrank
    refine ⟨k, L, la.inv L, rfl, ?_, by rw [hLs, hkn'], by rw [i1, hkn'], hkn, heig, ?_, ?_⟩
    · unfold orthLS
      rw [hg, if_neg (by simpa using hkn')]
    · intro l l' hl hl'
      rw [← hmulL (la.inv L) L n n n l l' (by omega) (by omega), i2, Matrix.one_apply]
      simp
    · intro s s' hsn hsn'
      rw [hkn', ← hmulL L (la.inv L) n n n s s' hsn hsn', ← hmulL L (la.inv L) n n n s' s hsn' hsn, i3, Matrix.one_apply, Matrix.one_apply]
      simp [eq_comm]
  · have hcs : (leftCols L k).shape = [n, k] := by
      unfold leftCols
      rw [hLs]
      simp [hkn]
    have hcg : ∀ i, (leftCols L k).get i = L.get i := fun _ => rfl
    have hmat : toMat (leftCols L k) n k = toMat L n k := rfl
    have hrank : (toMat (leftCols L k) n k).rank = k := by
      rw [hmat, rank_orth_cols _ _ (hgram k hkn)]
      rw [Fintype.card_congr (Equiv.subtypeUnivEquiv (fun l : Fin k => (hnz l (by omega)).2 l.2))]
      simp
    obtain ⟨i1, i2, i3⟩ := hla.pinv (leftCols L k) n k hcs hrank
    refine ⟨k, leftCols L k, la.pinv (leftCols L k), rfl, ?_, hcs, i1, hkn, heig, ?_, ?_⟩
    · unfold orthLS
      rw [hg, if_pos (by simpa using hkn')]
    · intro l l' hl hl'
      rw [← hmulL (la.pinv (leftCols L k)) (leftCols L k) k n k l l' hl hl', i2, Matrix.one_apply]
      simp
    · intro s s' hsn hsn'
      rw [← hmulL (leftCols L k) (la.pinv (leftCols L k)) n k n s s' hsn hsn', ← hmulL (leftCols L k) (la.pinv (leftCols L k)) n k n s' s hsn' hsn]
      have := i3.apply ⟨s', hsn'⟩ ⟨s, hsn⟩
      exact this

end Verif.TreeBased
