import Verif.Lemmas.TreeTensor
import Verif.Props.FullTensor
import Verif.Model.Orth

/-!
# `FullTensor.orth` (C64)
-/

namespace Verif.FullTensor

open Verif.Arr Finset

variable {R : Type}

/-- `A = Q R` with `A` of shape `m × n`, orthonormal columns of `Q`, and `min(m, n)` columns in `Q`. -/
def IsQR [CommSemiring R] (A Q T : Arr R) : Prop :=
  ∃ m n k, A.shape = [m, n] ∧ k = min m n ∧ Q.shape = [m, k] ∧ T.shape = [k, n] ∧
    (∀ i j, i < m → j < n → A.get [i, j] = ∑ l ∈ range k, Q.get [i, l] * T.get [l, j]) ∧
    ∀ l l', l < k → l' < k → ∑ i ∈ range m, Q.get [i, l] * Q.get [i, l'] = if l = l' then 1 else 0

/-- `qr` is an exact reduced QR factorisation of the matrices that are not empty. -/
def QROk [CommSemiring R] (qr : Arr R → Arr R × Arr R) : Prop :=
  ∀ A m n, A.shape = [m, n] → 0 < m → 0 < n → IsQR A (qr A).1 (qr A).2

theorem lastPerm_eq {o dim : Nat} (h : dim < o) : lastPerm o dim = setdiffRange o [dim] ++ [dim] := by
  unfold lastPerm setdiffRange
  congr 1
  rw [show o = (dim + 1) + (o - (dim + 1)) by omega]
  conv_rhs => rw [List.range_add, List.range_succ, List.filter_append, List.filter_append]
  have q1 : (List.range dim).filter (fun k => !([dim] : List Nat).contains k) = List.range dim := by
    rw [List.filter_eq_self]
    intro k hk; have := List.mem_range.1 hk; simp; omega
  have q2 : ((List.range (o - (dim + 1))).map (fun k => dim + 1 + k)).filter (fun k => !([dim] : List Nat).contains k) =
      (List.range (o - (dim + 1))).map (fun k => dim + 1 + k) := by
    rw [List.filter_eq_self]
    intro k hk
    obtain ⟨j, _, rfl⟩ := List.mem_map.1 hk
    simp; omega
  rw [q1, q2]
  simp only [List.contains_cons, BEq.rfl, List.contains_nil, Bool.or_false, Bool.not_true, Bool.false_eq_true,
    not_false_eq_true, List.filter_cons_of_neg, List.filter_nil, List.append_nil]
  congr 1
  rw [show dim + 1 + (o - (dim + 1)) - (dim + 1) = o - (dim + 1) by omega]
  apply List.map_congr_left
  intro k _; omega

theorem applyPerm_lastPerm (a b : List Nat) (j : Nat) :
    applyPerm (lastPerm (a.length + 1 + b.length) a.length) (a ++ j :: b) = a ++ b ++ [j] := by
  rw [lastPerm_eq (by omega), applyPerm_append]
  congr 1
  · have := TreeBased.dropAxes_mid a b j
    rw [dropAxes_eq] at this
    rw [← this]
    congr 2
    simp; omega
  · simp [applyPerm]

/-- C64. `orth(dim)`: the tensor is the product of the first result with the second one along the dimension `dim`, and
the slices of the first result along `dim` are orthonormal. `t.shape = sa + [n] + sb` with `dim = len(sa)`. -/
theorem orth_spec [CommSemiring R] (qr : Arr R → Arr R × Arr R) (hqr : QROk qr) (t : Arr R) (sa sb : List Nat) (n : Nat)
    (hs : t.shape = sa ++ n :: sb) (hpos : ∀ m ∈ t.shape, 0 < m) :
    ∃ q r k, orthT qr t sa.length = .ok (q, r) ∧ k = min (sa ++ sb).prod n ∧ 0 < k ∧ q.shape = sa ++ k :: sb ∧
      r.shape = [k, n] ∧
      (∀ u v j, InBox sa u → InBox sb v → j < n →
        t.get (u ++ j :: v) = ∑ l ∈ range k, q.get (u ++ l :: v) * r.get [l, j]) ∧
      ∀ l l', l < k → l' < k → sumBox sa (fun u => sumBox sb (fun v => q.get (u ++ l :: v) * q.get (u ++ l' :: v))) =
        if l = l' then 1 else 0 := by
  have ho : t.order = sa.length + 1 + sb.length := by simp [Arr.order, hs]; omega
  set dims := lastPerm t.order sa.length with hdims
  have hperm : dims.Perm (List.range t.order) := by
    rw [hdims, lastPerm_eq (by omega)]
    exact dims_append_perm' (List.nodup_singleton _) (by simp; omega)
  have hap : ∀ u v j, u.length = sa.length → v.length = sb.length → applyPerm dims (u ++ j :: v) = u ++ v ++ [j] := by
    intro u v j hu hv
    rw [hdims, ho, ← hu, ← hv]; exact applyPerm_lastPerm u v j
  -- the transposition and the matrix
  set t1 := t.transpose dims with ht1
  have ht1s : t1.shape = sa ++ sb ++ [n] := by
    show applyPerm dims t.shape = _
    rw [hs]; exact hap sa sb n rfl rfl
  have hdl : t1.shape.dropLast = sa ++ sb := by rw [ht1s, List.dropLast_concat]
  have hgl : t1.shape.getLast?.getD 0 = n := by rw [ht1s]; simp
  set m := (sa ++ sb).prod with hm
  set M := t1.reshapeF [m, n] with hM
  have hMok : reshape t1 [m, n] = .ok M := by
    unfold reshape
    rw [if_pos]
    rw [ht1s, List.prod_append (l₁ := sa ++ sb)]; simp [hm]
  have hpos' : ∀ a ∈ sa ++ sb, 0 < a := by
    intro a ha
    apply hpos; rw [hs]
    rcases List.mem_append.1 ha with h | h <;> simp [h]
  have hm0 : 0 < m := by
    apply Nat.pos_of_ne_zero
    rw [hm, ne_eq, List.prod_eq_zero_iff]
    intro h0; exact absurd (hpos' 0 h0) (by omega)
  have hn0 : 0 < n := hpos n (by rw [hs]; simp)
  obtain ⟨m', n', k, e1, e2, e3, e4, e5, e6⟩ := hqr M m n rfl hm0 hn0
  have hmn : m' = m ∧ n' = n := by
    have : ([m, n] : List Nat) = [m', n'] := e1
    simp at this; exact ⟨this.1.symm, this.2.symm⟩
  rw [hmn.1, hmn.2] at e2
  rw [hmn.1] at e3
  rw [hmn.2] at e4
  simp only [hmn.1, hmn.2] at e5 e6
  set Q := (qr M).1 with hQ
  set T := (qr M).2 with hT
  have hk0 : 0 < k := by rw [e2]; omega
  set q1 := Q.reshapeF (sa ++ sb ++ [k]) with hq1
  have hq1ok : reshape Q (sa ++ sb ++ [k]) = .ok q1 := by
    unfold reshape
    rw [if_pos]
    rw [e3, List.prod_append (l₁ := sa ++ sb)]; simp [hm]
  have hq1o : q1.order = t.order := by simp [Arr.order, hq1, Arr.reshapeF, hs]
  have hpermq : dims.Perm (List.range q1.order) := by rw [hq1o]; exact hperm
  set q := q1.transpose (invPerm dims) with hq
  have hqok : itransposeT q1 dims = .ok q := by
    unfold itransposeT transposeT
    rw [argsort_eq_invPerm hpermq, if_pos (invPerm_perm hpermq)]
  have hq1s : q1.shape = sa ++ sb ++ [k] := rfl
  have hqs : q.shape = sa ++ k :: sb := by
    show applyPerm (invPerm dims) q1.shape = _
    rw [hq1s, ← hap sa sb k rfl rfl]
    exact invPerm_applyPerm hperm (by simp [ho]; omega)
  -- the entries
  have hqget : ∀ u v l, InBox sa u → InBox sb v → l < k → q.get (u ++ l :: v) = Q.get [ravelF (sa ++ sb) (u ++ v), l] := by
    intro u v l hu hv hl
    show q1.get (applyPerm (invPerm (invPerm dims)) (u ++ l :: v)) = _
    rw [invPerm_invPerm hperm, hap u v l hu.length_eq hv.length_eq]
    show Q.get (unravelF Q.shape (ravelF (sa ++ sb ++ [k]) (u ++ v ++ [l]))) = _
    rw [ravelF_append (by simp [hu.length_eq, hv.length_eq]), e3]
    have hin : InBox (sa ++ sb) (u ++ v) := (inBox_append hu.length_eq).2 ⟨hu, hv⟩
    have : ravelF [k] [l] = l := by simp [ravelF]
    rw [this, ← hm, unravelF_pair (ravelF_lt hin) hl]
  have htget : ∀ u v j, InBox sa u → InBox sb v → j < n → t.get (u ++ j :: v) = M.get [ravelF (sa ++ sb) (u ++ v), j] := by
    intro u v j hu hv hj
    have hin : InBox (sa ++ sb) (u ++ v) := (inBox_append hu.length_eq).2 ⟨hu, hv⟩
    have hin1 : InBox (sa ++ sb ++ [n]) (u ++ v ++ [j]) := (inBox_append hin.length_eq).2 ⟨hin, by simp [hj]⟩
    show _ = t1.get (unravelF t1.shape (ravelF [m, n] [ravelF (sa ++ sb) (u ++ v), j]))
    have : ravelF [m, n] [ravelF (sa ++ sb) (u ++ v), j] = ravelF (sa ++ sb ++ [n]) (u ++ v ++ [j]) := by
      rw [ravelF_append hin.length_eq]; simp [ravelF, hm]
    rw [this, ht1s, unravelF_ravelF hin1]
    show _ = t.get (applyPerm (invPerm dims) (u ++ v ++ [j]))
    rw [← hap u v j hu.length_eq hv.length_eq, invPerm_applyPerm hperm]
    simp [ho, hu.length_eq, hv.length_eq]; omega
  refine ⟨q, T, k, ?_, e2, hk0, hqs, e4, ?_, ?_⟩
  · unfold orthT
    have htr : transposeT t dims = .ok t1 := by unfold transposeT; rw [if_pos hperm]
    simp only [← hdims, htr, bind, Except.bind, hdl, hgl, ← hm, hMok]
    rw [← hQ, ← hT, e4]
    simp only [List.getD_cons_zero, hq1ok, hqok]
  · intro u v j hu hv hj
    have hin : InBox (sa ++ sb) (u ++ v) := (inBox_append hu.length_eq).2 ⟨hu, hv⟩
    rw [htget u v j hu hv hj, e5 _ _ (ravelF_lt hin) hj]
    refine sum_congr rfl (fun l hl => ?_)
    rw [hqget u v l hu hv (mem_range.1 hl)]
  · intro l l' hl hl'
    rw [← e6 l l' hl hl', hm]
    have := sumBox_eq_linearF (sa ++ sb) (fun w => Q.get [ravelF (sa ++ sb) w, l] * Q.get [ravelF (sa ++ sb) w, l'])
    have h2 : ∀ i ∈ range (sa ++ sb).prod, Q.get [ravelF (sa ++ sb) (unravelF (sa ++ sb) i), l] *
        Q.get [ravelF (sa ++ sb) (unravelF (sa ++ sb) i), l'] = Q.get [i, l] * Q.get [i, l'] := by
      intro i hi
      rw [ravelF_unravelF (mem_range.1 hi)]
    rw [sum_congr rfl h2] at this
    rw [← this, sumBox_append]
    apply sumBox_congr
    intro u hu
    apply sumBox_congr
    intro v hv
    rw [hqget u v l hu hv hl, hqget u v l' hu hv hl']

end Verif.FullTensor
