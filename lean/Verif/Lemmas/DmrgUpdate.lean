import Verif.Model.DmrgUpdate
import Verif.Props.ParamGradientDmrg
import Verif.Props.Truncator

/-! # An axis moved from the last position to a given one -/

namespace Verif.TreeBased

open Verif.Arr Verif.DimTree Finset

variable {R : Type}

theorem setdiff_single (d p : Nat) (hp : p < d) :
    FullTensor.setdiffRange d [p] = List.range p ++ (List.range (d - p - 1)).map (fun i => p + 1 + i) := by
  unfold FullTensor.setdiffRange
  have hd : d = p + (1 + (d - p - 1)) := by omega
  conv_lhs => rw [hd]
  rw [List.range_add, List.filter_append, List.range_add, List.map_append, List.filter_append]
  have h1 : (List.range p).filter (fun i => !([p] : List Nat).contains i) = List.range p := by
    rw [List.filter_eq_self]
    intro i hi
    have := List.mem_range.1 hi
    simp only [List.contains_cons, List.contains_nil, Bool.or_false, Bool.not_eq_true', beq_eq_false_iff_ne]
    omega
  have h2 : ((List.range 1).map (fun x => p + x)).filter (fun i => !([p] : List Nat).contains i) = [] := by simp
  have h3 : (((List.range (d - p - 1)).map (fun x => 1 + x)).map (fun x => p + x)).filter (fun i => !([p] : List Nat).contains i) =
      (List.range (d - p - 1)).map (fun i => p + 1 + i) := by
    rw [List.map_map, List.filter_eq_self.2]
    · apply List.map_congr_left
      intro i _
      simp only [Function.comp]
      omega
    · intro i hi
      obtain ⟨j, _, rfl⟩ := List.mem_map.1 hi
      simp only [List.contains_cons, List.contains_nil, Bool.or_false, Bool.not_eq_true', beq_eq_false_iff_ne, Function.comp]
      omega
  rw [h1, h2, h3, List.nil_append]

theorem map_drop_getD (p : Nat) (i : Nat) (t : List Nat) (hp : p ≤ t.length) :
    (FullTensor.setdiffRange (t.length + 1) [p]).map (fun k => (t.insertIdx p i).getD k 0) = t := by
  rw [setdiff_single _ _ (by omega), List.map_append, List.map_map]
  have hlen : (t.insertIdx p i).length = t.length + 1 := List.length_insertIdx_of_le_length hp i
  apply List.ext_getElem
  · simp; omega
  · intro m h1 h2
    by_cases hm : m < p
    · rw [List.getElem_append_left (by simpa using hm), List.getElem_map, List.getElem_range,
        List.getD_eq_getElem _ _ (by omega), List.getElem_insertIdx_of_lt hm]
    · rw [List.getElem_append_right (by simpa using hm)]
      simp only [List.getElem_map, List.getElem_range, List.length_map, List.length_range, Function.comp]
      rw [List.getD_eq_getElem _ _ (by omega), List.getElem_insertIdx_of_gt (by omega)]
      congr 1
      omega

theorem movePerm_perm (d p : Nat) (hp : p < d) : (FullTensor.setdiffRange d [p] ++ [p]).Perm (List.range d) := by
  rw [setdiff_single d p hp]
  have hd : d = p + (1 + (d - p - 1)) := by omega
  conv_rhs => rw [hd]
  rw [List.range_add, List.append_assoc]
  refine List.Perm.append_left _ ?_
  rw [List.range_add, List.map_append, List.map_map]
  have : (List.range (d - p - 1)).map ((fun x => p + x) ∘ fun x => 1 + x) = (List.range (d - p - 1)).map (fun i => p + 1 + i) := by
    apply List.map_congr_left
    intro i _
    simp only [Function.comp]; omega
  rw [this]
  simpa using List.perm_append_comm

theorem invPerm_invPerm {perm : List Nat} {d : Nat} (h : perm.Perm (List.range d)) : invPerm (invPerm perm) = perm := by
  have hl := perm_len h
  have hi := invPerm_perm h
  have hl2 := perm_len hi
  have hi2 := invPerm_perm hi
  apply ext_getD (by simp)
  intro k hk
  have hkd : k < d := by
    have := perm_len hi2
    omega
  have h1 := perm_getD_lt h hkd
  rw [getD_invPerm _ _ (by omega)]
  have h3 : (invPerm perm).getD (perm.getD k 0) 0 = k := by
    rw [getD_invPerm _ _ (by omega), idxOf_getD h hkd]
  have h4 := idxOf_getD hi h1
  rw [h3] at h4
  exact h4

theorem move_axis (b : Arr R) (S : List Nat) (ρ p : Nat) (hb : b.shape = S ++ [ρ]) (hp : p ≤ S.length) :
    ∃ b', FullTensor.itransposeT b (FullTensor.setdiffRange (S.length + 1) [p] ++ [p]) = .ok b' ∧ b'.shape = S.insertIdx p ρ ∧
      ∀ t i, t.length = S.length → b'.get (t.insertIdx p i) = b.get (t ++ [i]) := by
  have hperm := movePerm_perm (S.length + 1) p (by omega)
  have hinv := invPerm_perm hperm
  have happ : ∀ t i, t.length = S.length →
      applyPerm (FullTensor.setdiffRange (S.length + 1) [p] ++ [p]) (t.insertIdx p i) = t ++ [i] := by
    intro t i ht
    unfold applyPerm
    rw [List.map_append, ← ht, map_drop_getD p i t (by omega)]
    congr 1
    rw [List.map_singleton, List.getD_eq_getElem _ _ (by rw [List.length_insertIdx_of_le_length (by omega)]; omega),
      List.getElem_insertIdx_self]
  unfold FullTensor.itransposeT FullTensor.transposeT
  rw [argsort_eq_invPerm hperm, if_pos (by rw [show b.order = S.length + 1 by show b.shape.length = _; rw [hb]; simp]; exact hinv)]
  refine ⟨_, rfl, ?_, ?_⟩
  · show applyPerm _ b.shape = _
    rw [hb, ← happ S ρ rfl, invPerm_applyPerm hperm (List.length_insertIdx_of_le_length hp ρ)]
  · intro t i ht
    show b.get (applyPerm (invPerm (invPerm _)) _) = _
    rw [invPerm_invPerm hperm, happ t i ht]

end Verif.TreeBased
