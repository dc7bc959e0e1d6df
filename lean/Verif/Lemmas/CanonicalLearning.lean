import Verif.Model.CanonicalLearning
import Verif.Props.CanonicalContract
import Verif.Lemmas.Matricize
import Verif.Lemmas.Weave
import Verif.Spec.Regression

/-!
# Values and gradients of canonical tensors at points
-/

namespace Verif.Canonical

open Verif.Arr Finset
open Verif.TreeBased (predict)

variable {R : Type} [CommSemiring R]

/-- The matrices of the values of the bases at `N` points fit the tensor. -/
structure Fit (x : Cn R) (H : List (Arr R)) (N : Nat) : Prop where
  len : H.length = x.order
  shape : ∀ k, k < x.order → (H.getD k ⟨[], fun _ => 0⟩).shape = [N, x.shape.getD k 0]

/-- The value at point `i` of the function with coefficients in column `l` of the factor `k`. -/
def fval (H : List (Arr R)) (n : Nat) (C : Arr R) (k i l : Nat) : R :=
  ∑ j ∈ range n, (H.getD k ⟨[], fun _ => 0⟩).get [i, j] * C.get [j, l]

theorem factor_mem {x : Cn R} {k : Nat} (hk : k < x.order) : factor x k ∈ x.space := by
  unfold factor
  rw [List.getD_eq_getElem _ _ hk]
  exact List.getElem_mem _

theorem shape_getD_fac {x : Cn R} {k : Nat} (hk : k < x.order) : x.shape.getD k 0 = (factor x k).shape.getD 0 0 := by
  have hk' : k < x.space.length := hk
  unfold factor Cn.shape
  rw [List.getD_eq_getElem _ _ (by simpa using hk'), List.getD_eq_getElem x.space _ hk', List.getElem_map]

theorem factor_shape {x : Cn R} (h : WF x) {k : Nat} (hk : k < x.order) : (factor x k).shape = [x.shape.getD k 0, x.core.length] := by
  rw [shape_getD_fac hk]
  exact h.shape_eq (factor_mem hk)

theorem length_shape (x : Cn R) : x.shape.length = x.order := by simp [Cn.shape, Cn.order]

theorem factor_set {x : Cn R} {m k : Nat} (C : Arr R) (core : List R) (hk : k < x.order) :
    factor (⟨x.space.set m C, core⟩ : Cn R) k = if m = k then C else factor x k := by
  unfold factor
  have hk' : k < x.space.length := hk
  rw [List.getD_eq_getElem _ _ (by simpa using hk'), List.getElem_set]
  split
  · rfl
  · rw [List.getD_eq_getElem _ _ hk']

/-- The values at the points of the function with coefficients `x`. -/
theorem predict_cn {x : Cn R} {f : Arr R} (hx : Rep x f) {H : List (Arr R)} (hH : H.length = x.order) (i : Nat) :
    predict x.shape H f i [] = ∑ l ∈ range x.core.length, x.core.getD l 0 *
      ∏ k ∈ range x.order, fval H (x.shape.getD k 0) (factor x k) k i l := by
  obtain ⟨h1, h2⟩ := (rep_iff hx.1).1 hx
  unfold predict
  have e : sumBox x.shape (fun idx => f.get (idx ++ []) * (List.zipWith (fun (M : Arr R) j => M.get [i, j]) H idx).prod) =
      sumBox x.shape (fun idx => ∑ l ∈ range x.core.length, x.core.getD l 0 *
        ∏ k ∈ range x.shape.length, ((H.getD k ⟨[], fun _ => 0⟩).get [i, idx.getD k 0] * (factor x k).get [idx.getD k 0, l])) := by
    refine sumBox_congr (fun idx hi => ?_)
    have hl : idx.length = x.order := by rw [hi.length_eq, length_shape]
    rw [List.append_nil, h2 idx hi, sum_mul, Verif.Truncation.zipWith_prod _ (⟨[], fun _ => 0⟩ : Arr R) 0 H idx x.order hH hl]
    refine sum_congr rfl (fun l _ => ?_)
    rw [mul_assoc, term, Verif.Truncation.zipWith_prod _ (⟨[], fun _ => 0⟩ : Arr R) 0 x.space idx x.order rfl hl, ← prod_mul_distrib, length_shape]
    congr 1
    refine prod_congr rfl (fun k _ => ?_)
    rw [mul_comm]; rfl
  rw [e, ← sum_sumBox_comm]
  refine sum_congr rfl (fun l _ => ?_)
  rw [sumBox_mul_left, Verif.Truncation.sumBox_prodF x.shape (fun k a => (H.getD k ⟨[], fun _ => 0⟩).get [i, a] * (factor x k).get [a, l]), length_shape]
  rfl

/-- The factors after `tensor_matrix_product`. -/
theorem tmp_factors (h : Nat → Arr R) (N : Nat) : ∀ (dims : List Nat) (x : Cn R), WF x → dims.Nodup → (∀ k ∈ dims, k < x.order) →
    (∀ k ∈ dims, (h k).shape = [N, x.shape.getD k 0]) →
    ∃ z, tensorMatrixProduct x (dims.map h) (some dims) = .ok z ∧ z.core = x.core ∧ z.order = x.order ∧
      (∀ k, k < x.order → k ∈ dims → (factor z k).shape = [N, x.core.length] ∧
        ∀ i l, (factor z k).get [i, l] = ∑ j ∈ range (x.shape.getD k 0), (h k).get [i, j] * (factor x k).get [j, l]) ∧
      (∀ k, k < x.order → k ∉ dims → factor z k = factor x k) := by
  intro dims
  induction dims with
  | nil =>
    intro x _ _ _ _
    exact ⟨x, rfl, rfl, rfl, by simp, by simp⟩
  | cons d dims ih =>
    intro x hx hnd hlt hsh
    have hd := hlt d (by simp)
    have hs := factor_shape hx hd
    have hd' : d < x.space.length := hd
    have hget : x.space[d]? = some (factor x d) := by
      unfold factor
      rw [List.getD_eq_getElem _ _ hd', List.getElem?_eq_getElem hd']
    obtain ⟨C, hC, hCs, hCg⟩ : ∃ C, matmul (h d) (factor x d) = .ok C ∧ C.shape = [N, x.core.length] ∧
        ∀ i l, C.get [i, l] = ∑ j ∈ range (x.shape.getD d 0), (h d).get [i, j] * (factor x d).get [j, l] := by
      have h1 := hsh d (by simp)
      unfold matmul
      rw [if_pos ⟨by simp [Arr.order, h1], by simp [Arr.order, hs], by rw [h1, hs]; rfl⟩]
      refine ⟨_, rfl, by simp [h1, hs], fun i l => ?_⟩
      simp [hs]
    have hshape : ∀ k, k ∉ [d] → (⟨x.space.set d C, x.core⟩ : Cn R).shape.getD k 0 = x.shape.getD k 0 := by
      intro k hk
      have hk' : d ≠ k := fun e => hk (by simp [e])
      unfold Cn.shape
      dsimp only
      rw [List.map_set]
      simp [List.getElem?_set, hk']
    have hw : WF (⟨x.space.set d C, x.core⟩ : Cn R) := by
      refine ⟨fun hh => ?_, fun M hM => ?_⟩
      · have := congrArg List.length hh
        rw [List.length_set] at this
        simp at this
        exact hx.ne this
      · rcases List.mem_or_eq_of_mem_set hM with h1 | rfl
        · exact hx.cols M h1
        · exact ⟨N, hCs⟩
    have hord : (⟨x.space.set d C, x.core⟩ : Cn R).order = x.order := by simp [Cn.order]
    have hnd' := List.nodup_cons.1 hnd
    have hne : ∀ k ∈ dims, k ∉ [d] := fun k hk hkd => hnd'.1 (by rw [← List.mem_singleton.1 hkd]; exact hk)
    obtain ⟨z, z1, z2, z3, z4, z5⟩ := ih ⟨x.space.set d C, x.core⟩ hw hnd'.2 (fun k hk => by rw [hord]; exact hlt k (by simp [hk]))
      (fun k hk => by rw [hshape k (hne k hk)]; exact hsh k (by simp [hk]))
    rw [hord] at z3 z4 z5
    refine ⟨z, ?_, z2, z3, ?_, ?_⟩
    · simp only [tensorMatrixProduct, Option.getD_some, List.length_map, ne_eq, not_true_eq_false, if_false] at z1 ⊢
      simp only [List.map_cons, List.zip_cons_cons, List.foldlM_cons, hget, hC, bind, Except.bind] at z1 ⊢
      exact z1
    · intro k hk hkd
      by_cases hkd' : k = d
      · subst hkd'
        rw [z5 k hk hnd'.1, factor_set C x.core hk, if_pos rfl]
        exact ⟨hCs, hCg⟩
      · have hkm : k ∈ dims := by
          rcases List.mem_cons.1 hkd with h1 | h1
          · exact absurd h1 hkd'
          · exact h1
        obtain ⟨e1, e2⟩ := z4 k hk hkm
        refine ⟨e1, fun i l => ?_⟩
        rw [e2 i l, hshape k (hne k hkm), factor_set C x.core hk, if_neg (fun e => hkd' e.symm)]
    · intro k hk hkd
      have h1 : k ∉ dims := fun h => hkd (by simp [h])
      have h2 : d ≠ k := fun e => hkd (by simp [e])
      rw [z5 k hk h1, factor_set C x.core hk, if_neg h2]

/-- The entrywise product of matrices. -/
theorem hadamardAll_spec (N r : Nat) (l : List (Arr R)) (hl : ∀ M ∈ l, M.shape = [N, r]) :
    ∃ E, hadamard N r l = .ok E ∧ E.shape = [N, r] ∧ ∀ i j, E.get [i, j] = (l.map (fun M => M.get [i, j])).prod := by
  have key : ∀ (l : List (Arr R)) (E0 : Arr R), (∀ M ∈ l, M.shape = [N, r]) → E0.shape = [N, r] →
      ∃ E, l.foldlM (fun out M => if M.shape = [N, r] then (.ok (out.zipWith (· * ·) M) : Py (Arr R)) else .error .valueError) E0 = .ok E ∧
        E.shape = [N, r] ∧ ∀ i j, E.get [i, j] = E0.get [i, j] * (l.map (fun M => M.get [i, j])).prod := by
    intro l
    induction l with
    | nil => intro E0 _ h0; exact ⟨E0, rfl, h0, by simp⟩
    | cons M l ih =>
      intro E0 hM h0
      obtain ⟨E, e1, e2, e3⟩ := ih (E0.zipWith (· * ·) M) (fun M' h => hM M' (by simp [h])) (by simpa [Arr.zipWith] using h0)
      refine ⟨E, ?_, e2, fun i j => ?_⟩
      · rw [List.foldlM_cons, if_pos (hM M (by simp))]
        exact e1
      · rw [e3 i j, List.map_cons, List.prod_cons, ← mul_assoc]
        rfl
  obtain ⟨E, e1, e2, e3⟩ := key l ⟨[N, r], fun _ => 1⟩ hl rfl
  exact ⟨E, e1, e2, fun i j => by rw [e3 i j, one_mul]⟩

theorem noMu_prod {d m : Nat} (f : Nat → R) : ((noMu d (m + 1)).map f).prod = ∏ k ∈ (range d).erase m, f k := by
  unfold noMu
  rw [← List.prod_toFinset _ (List.nodup_range.filter _)]
  refine prod_congr ?_ (fun _ _ => rfl)
  ext k
  simp [and_comm]

theorem mem_noMu {d m k : Nat} : k ∈ noMu d (m + 1) ↔ k < d ∧ k ≠ m := by simp [noMu]

theorem eraseIdx_range (d m : Nat) : (List.range d).eraseIdx m = noMu d (m + 1) := by
  rw [noMu, List.eraseIdx_eq_take_drop_succ]
  rcases Nat.lt_or_ge m d with h | h
  · obtain ⟨e, rfl⟩ := Nat.exists_eq_add_of_lt h
    have h1 : List.range (m + e + 1) = List.range m ++ (m :: List.range' (m + 1) e) := by
      rw [List.range_eq_range', List.range_eq_range', show m + e + 1 = m + (e + 1) by omega, ← List.range'_append (s := 0) (m := m) (n := e + 1) (step := 1)]
      simp [List.range'_succ]
    rw [h1]
    rw [List.filter_append, List.filter_cons]
    have f1 : (List.range m).filter (fun k => decide (k + 1 ≠ m + 1)) = List.range m := by
      rw [List.filter_eq_self]; intro a ha; have := List.mem_range.1 ha; simp; omega
    have f2 : (List.range' (m + 1) e).filter (fun k => decide (k + 1 ≠ m + 1)) = List.range' (m + 1) e := by
      rw [List.filter_eq_self]; intro a ha; have := (List.mem_range'_1.1 ha).1; simp; omega
    have hdr : List.drop (m + 1) (List.range m ++ m :: List.range' (m + 1) e) = List.range' (m + 1) e := by
      rw [show List.range m ++ m :: List.range' (m + 1) e = (List.range m ++ [m]) ++ List.range' (m + 1) e by simp]
      exact List.drop_left' (by simp)
    rw [f1, f2, hdr]
    simp
  · rw [List.take_of_length_le (by simpa using h), List.drop_of_length_le (by simp; omega), List.append_nil, eq_comm, List.filter_eq_self]
    intro a ha; have := List.mem_range.1 ha; simp; omega

/-- The gradient with respect to the factor `m + 1`. -/
theorem paramGrad_factor {x : Cn R} (hx : WF x) {H : List (Arr R)} {N : Nat} (hF : Fit x H N) (hd : 2 ≤ x.order) {m : Nat} (hm : m < x.order) :
    ∃ g, paramGrad x (m + 1) H = .ok g ∧ g.shape = [N, x.core.length, x.shape.getD m 0] ∧
      ∀ i l j, g.get [i, l, j] = (∏ k ∈ (range x.order).erase m, fval H (x.shape.getD k 0) (factor x k) k i l) * (H.getD m ⟨[], fun _ => 0⟩).get [i, j] := by
  have hnd : (noMu x.order (m + 1)).Nodup := List.nodup_range.filter _
  obtain ⟨z, z1, z2, z3, z4, z5⟩ := tmp_factors (fun k => H.getD k ⟨[], fun _ => 0⟩) N (noMu x.order (m + 1)) x hx hnd
    (fun k hk => (mem_noMu.1 hk).1) (fun k hk => hF.shape k (mem_noMu.1 hk).1)
  have hz : ∀ M ∈ (noMu x.order (m + 1)).map (factor z), M.shape = [N, x.core.length] := by
    intro M hM
    obtain ⟨k, hk, rfl⟩ := List.mem_map.1 hM
    exact (z4 k (mem_noMu.1 hk).1 hk).1
  obtain ⟨E, e1, e2, e3⟩ := hadamardAll_spec N x.core.length _ hz
  have hHm : H[m]? = some (H.getD m ⟨[], fun _ => 0⟩) := by
    have : m < H.length := by rw [hF.len]; exact hm
    rw [List.getD_eq_getElem _ _ this, List.getElem?_eq_getElem this]
  obtain ⟨o1, o2⟩ := TreeBased.outer_one E (H.getD m ⟨[], fun _ => 0⟩) N (x.shape.getD m 0) [x.core.length] e2 (hF.shape m hm)
  refine ⟨_, ?_, o1, ?_⟩
  · unfold paramGrad
    rw [if_pos (by omega), show m + 1 - 1 = m from rfl, eraseIdx_range]
    simp only [z1, bind, Except.bind]
    unfold paramGradDiag
    rw [if_neg (by rw [z3]; omega), z3, show m + 1 - 1 = m from rfl, hHm]
    cases hc : noMu x.order (m + 1) with
    | nil =>
      exfalso
      have : (if m = 0 then 1 else 0) ∈ noMu x.order (m + 1) := mem_noMu.2 (by split <;> omega)
      rw [hc] at this
      simp at this
    | cons nu l =>
      have hnu : nu ∈ noMu x.order (m + 1) := by rw [hc]; simp
      have h0 : (factor z nu).shape.getD 0 0 = N := by rw [(z4 nu (mem_noMu.1 hnu).1 hnu).1]; rfl
      simp only [h0, z2, ← hc, e1, bind, Except.bind]
  · intro i l j
    have := o2 i [l] j rfl
    rw [show (i :: ([l] ++ [j])) = [i, l, j] from rfl] at this
    rw [this, e3, List.map_map]
    congr 1
    rw [← noMu_prod]
    congr 1
    refine List.map_congr_left (fun k hk => ?_)
    exact (z4 k (mem_noMu.1 hk).1 hk).2 i l

/-- The gradient with respect to the core. -/
theorem paramGrad_core {x : Cn R} (hx : WF x) {H : List (Arr R)} {N : Nat} (hF : Fit x H N) :
    ∃ g, paramGrad x (x.order + 1) H = .ok g ∧ g.shape = [N, x.core.length] ∧
      ∀ i l, g.get [i, l] = ∏ k ∈ range x.order, fval H (x.shape.getD k 0) (factor x k) k i l := by
  obtain ⟨z, z1, z2, z3, z4, z5⟩ := tmp_factors (fun k => H.getD k ⟨[], fun _ => 0⟩) N (List.range x.order) x hx List.nodup_range
    (fun k hk => List.mem_range.1 hk) (fun k hk => hF.shape k (List.mem_range.1 hk))
  have hsp : z.space = (List.range x.order).map (factor z) := by
    apply List.ext_getElem
    · simpa [Cn.order] using z3
    · intro k k1 k2
      simp [factor, List.getElem?_eq_getElem k1]
  obtain ⟨E, e1, e2, e3⟩ := hadamardAll_spec N x.core.length z.space (by
    intro M hM
    rw [hsp] at hM
    obtain ⟨k, hk, rfl⟩ := List.mem_map.1 hM
    exact (z4 k (List.mem_range.1 hk) hk).1)
  have hpos : 0 < x.order := List.length_pos_iff.2 hx.ne
  refine ⟨E, ?_, e2, ?_⟩
  · unfold paramGrad
    rw [if_neg (by omega)]
    simp only [z1, bind, Except.bind]
    unfold paramGradDiag
    rw [if_pos (by rw [z3]), (z4 0 hpos (List.mem_range.2 hpos)).1, z2]
    exact e1
  · intro i l
    rw [e3, hsp, List.map_map, ← List.prod_toFinset _ List.nodup_range, List.toFinset_range]
    exact prod_congr rfl (fun k hk => (z4 k (mem_range.1 hk) (List.mem_range.2 (mem_range.1 hk))).2 i l)

end Verif.Canonical
