import Verif.Lemmas.Arr

/-! Lemmas on `mergeIdx`, `dropAxes`, `setdiffRange` and linear indices of concatenated shapes. -/

namespace Verif

open Finset

theorem ravelF_append {s1 s2 v1 v2 : List Nat} (h : v1.length = s1.length) :
    ravelF (s1 ++ s2) (v1 ++ v2) = ravelF s1 v1 + s1.prod * ravelF s2 v2 := by
  induction s1 generalizing v1 with
  | nil => cases v1 with
    | nil => simp [ravelF]
    | cons a v => simp at h
  | cons n s1 ih =>
    cases v1 with
    | nil => simp at h
    | cons a v =>
      simp only [List.cons_append, ravelF, ih (v1 := v) (by simpa using h), List.prod_cons]
      ring

theorem ravelC_append {s1 s2 v1 v2 : List Nat} (h : v1.length = s1.length) :
    ravelC (s1 ++ s2) (v1 ++ v2) = ravelC s1 v1 * s2.prod + ravelC s2 v2 := by
  induction s1 generalizing v1 with
  | nil => cases v1 with
    | nil => simp [ravelC]
    | cons a v => simp at h
  | cons n s1 ih =>
    cases v1 with
    | nil => simp at h
    | cons a v =>
      simp only [List.cons_append, ravelC, ih (v1 := v) (by simpa using h), List.prod_append]
      ring

theorem unravelF_pair {a b : Nat} {i j : Nat} (hi : i < a) (hj : j < b) :
    unravelF [a, b] (i + a * j) = [i, j] := by
  have := unravelF_ravelF (shape := [a, b]) (idx := [i, j]) (by simp [hi, hj])
  simpa [ravelF] using this

theorem unravelC_pair {a b : Nat} {i j : Nat} (hi : i < a) (hj : j < b) :
    unravelC [a, b] (i * b + j) = [i, j] := by
  have := unravelC_ravelC (shape := [a, b]) (idx := [i, j]) (by simp [hi, hj])
  simpa [ravelC] using this

namespace Arr

theorem dropAxes_eq (ax l : List Nat) :
    dropAxes ax l = applyPerm (FullTensor.setdiffRange l.length ax) l := by
  have hz : l.zipIdx = (List.range l.length).map (fun i => (l.getD i 0, i)) := by
    apply List.ext_getElem (by simp)
    intro k h1 h2
    have hk : k < l.length := by simpa using h1
    rw [List.getElem_zipIdx, List.getElem_map, List.getElem_range, List.getD_eq_getElem _ _ hk]
    simp
  unfold dropAxes applyPerm FullTensor.setdiffRange
  rw [hz, List.filter_map, List.map_map]
  rfl

theorem mem_setdiffRange {n : Nat} {ax : List Nat} {k : Nat} :
    k ∈ FullTensor.setdiffRange n ax ↔ k < n ∧ k ∉ ax := by
  simp [FullTensor.setdiffRange]

/-- The listed axes followed by the other ones: a permutation. -/
theorem dims_append_perm {n : Nat} {ax : List Nat} (hnd : ax.Nodup) (hlt : ∀ k ∈ ax, k < n) :
    (ax ++ FullTensor.setdiffRange n ax).Perm (List.range n) := by
  rw [List.perm_ext_iff_of_nodup]
  · intro k
    rw [List.mem_append, mem_setdiffRange, List.mem_range]
    by_cases hk : k ∈ ax
    · simp [hk, hlt k hk]
    · simp [hk]
  · rw [List.nodup_append]
    refine ⟨hnd, List.nodup_range.filter _, ?_⟩
    intro a ha b hb hab
    subst hab
    exact (mem_setdiffRange.1 hb).2 ha
  · exact List.nodup_range

theorem dims_append_perm' {n : Nat} {ax : List Nat} (hnd : ax.Nodup) (hlt : ∀ k ∈ ax, k < n) :
    (FullTensor.setdiffRange n ax ++ ax).Perm (List.range n) :=
  List.perm_append_comm.trans (dims_append_perm hnd hlt)

theorem length_setdiffRange {n : Nat} {ax : List Nat} (hnd : ax.Nodup) (hlt : ∀ k ∈ ax, k < n) :
    (FullTensor.setdiffRange n ax).length + ax.length = n := by
  have := (dims_append_perm' hnd hlt).length_eq
  simpa using this

@[simp] theorem applyPerm_append (a b v : List Nat) :
    applyPerm (a ++ b) v = applyPerm a v ++ applyPerm b v := by simp [applyPerm]

@[simp] theorem applyPerm_nil (v : List Nat) : applyPerm [] v = [] := rfl

@[simp] theorem applyPerm_cons (a : Nat) (l v : List Nat) :
    applyPerm (a :: l) v = v.getD a 0 :: applyPerm l v := rfl

theorem length_mergeIdx (ax s : List Nat) (pos n : Nat) (rest : List Nat) :
    (mergeIdx ax s pos n rest).length = n := by
  induction n generalizing pos rest with
  | zero => rfl
  | succ n ih => unfold mergeIdx; split <;> simp [ih]

/-- An index tuple is recovered from its entries on the listed axes and its other entries. -/
theorem mergeIdx_self_aux (ax s : List Nat) (l : List Nat) (pos : Nat)
    (hs : ∀ k, k < l.length → pos + k ∈ ax → s.getD (ax.idxOf (pos + k)) 0 = l.getD k 0) :
    mergeIdx ax s pos l.length (((l.zipIdx pos).filter (fun p => !ax.contains p.2)).map Prod.fst) = l := by
  induction l generalizing pos with
  | nil => rfl
  | cons a l ih =>
    have hs' : ∀ k, k < l.length → (pos + 1) + k ∈ ax → s.getD (ax.idxOf ((pos + 1) + k)) 0 = l.getD k 0 := by
      intro k hk hm
      have := hs (k + 1) (by simpa using hk) (by rwa [show pos + (k + 1) = pos + 1 + k by omega])
      rw [show pos + (k + 1) = pos + 1 + k by omega] at this
      simpa using this
    have h0 := hs 0 (by simp)
    simp only [List.length_cons, mergeIdx, List.zipIdx_cons]
    by_cases hp : pos ∈ ax
    · simp only [hp, if_true]
      have h0 := h0 (by simpa using hp)
      simp only [Nat.add_zero] at h0
      rw [h0]
      simp only [List.getD_cons_zero, List.cons.injEq, true_and]
      rw [List.filter_cons_of_neg (by simpa using hp)]
      exact ih (pos + 1) hs'
    · simp only [hp, if_false]
      rw [List.filter_cons_of_pos (by simpa using hp)]
      simp only [List.map_cons, List.headD_cons, List.tail_cons, List.cons.injEq, true_and]
      exact ih (pos + 1) hs'

theorem mergeIdx_self {ax : List Nat} {idx : List Nat} {s : List Nat}
    (hs : applyPerm ax idx = s) :
    mergeIdx ax s 0 idx.length (dropAxes ax idx) = idx := by
  apply mergeIdx_self_aux
  intro k hk hm
  rw [Nat.zero_add] at *
  subst hs
  have hi := List.idxOf_lt_length_of_mem hm
  rw [getD_applyPerm _ _ _ hi, List.getD_eq_getElem ax _ hi, List.getElem_idxOf hi]

theorem getD_set (l : List Nat) (i v k : Nat) :
    (l.set i v).getD k 0 = if i = k ∧ k < l.length then v else l.getD k 0 := by
  by_cases hk : k < l.length
  · rw [List.getD_eq_getElem _ _ (by simpa using hk), List.getElem_set, List.getD_eq_getElem _ _ hk]
    simp [hk]
  · rw [List.getD_eq_default _ _ (by simpa using hk), List.getD_eq_default _ _ (by simpa using hk)]
    simp [hk]

theorem applyPerm_congr {p u v : List Nat} (h : ∀ k ∈ p, u.getD k 0 = v.getD k 0) :
    applyPerm p u = applyPerm p v := List.map_congr_left h

end Arr
end Verif
