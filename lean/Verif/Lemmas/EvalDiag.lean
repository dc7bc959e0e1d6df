import Verif.Model.FullTensor
import Verif.Props.DimensionTreeEq
import Verif.Props.TreeDot

/-! `tensordot_eval_diag` and `outer_product_eval_diag` with one diagonal index: the general formula. -/

namespace Verif
namespace FullTensor

open Arr Finset

variable {R : Type}

theorem distinct_aux (l acc : List Nat) (h : (l.filter (fun x => x ∉ acc)).Nodup) :
    l.foldl (fun acc x => if x ∈ acc then acc else acc ++ [x]) acc = acc ++ l.filter (fun x => x ∉ acc) := by
  induction l generalizing acc with
  | nil => simp
  | cons a l ih =>
    rw [List.foldl_cons]
    by_cases ha : a ∈ acc
    · rw [if_pos ha]
      rw [List.filter_cons_of_neg (by simpa using ha)] at h ⊢
      exact ih acc h
    · rw [if_neg ha]
      rw [List.filter_cons_of_pos (by simpa using ha)] at h ⊢
      have hn := List.nodup_cons.1 h
      have e : l.filter (fun x => x ∉ acc ++ [a]) = l.filter (fun x => x ∉ acc) := by
        apply List.filter_congr
        intro x hx
        by_cases hxa : x ∈ acc
        · simp [hxa]
        · have : x ≠ a := by
            rintro rfl
            exact hn.1 (List.mem_filter.2 ⟨hx, by simpa using hxa⟩)
          simp [hxa, this]
      rw [ih _ (by rw [e]; exact hn.2), e]
      simp

/-- The label of axis `p` of the second tensor. -/
def label2 (o1 : Nat) (ax dg : List Nat) (p : Nat) : Nat :=
  if p ∈ ax then 1 + ax.idxOf p else if p ∈ dg then 0 else p + o1

theorem labels2 (o1 o2 : Nat) (ax dg : List Nat) (ha : ax.Nodup) (hal : ∀ p ∈ ax, p < o2) (hg : dg.Nodup)
    (hgl : ∀ p ∈ dg, p < o2) (hm : 1 + ax.length ≤ o1) :
    DimTree.DTree.scatter (DimTree.DTree.scatter ((List.range o2).map (· + o1)) dg (List.replicate dg.length 0)) ax
      (List.range' 1 ax.length) = (List.range o2).map (label2 o1 ax dg) := by
  apply List.ext_getElem?
  intro p
  by_cases hp : p < o2
  · rw [List.getElem?_map, List.getElem?_range hp, Option.map_some]
    unfold label2
    by_cases h1 : p ∈ ax
    · rw [if_pos h1]
      have hi := List.idxOf_lt_length_of_mem h1
      rw [DimTree.scatter_spec _ ax _ ha (fun s hs => by rw [DimTree.length_scatter]; simpa using hal s hs) (by simp)
        (ax.idxOf p) p (by rw [List.getElem?_eq_getElem hi, List.getElem_idxOf hi])]
      rw [List.getElem?_eq_getElem (by simpa using hi)]
      simp
    · rw [if_neg h1, DimTree.scatter_notMem _ _ _ _ h1]
      by_cases h2 : p ∈ dg
      · rw [if_pos h2]
        have hi := List.idxOf_lt_length_of_mem h2
        rw [DimTree.scatter_spec _ dg _ hg (fun s hs => by simpa using hgl s hs) (by simp)
          (dg.idxOf p) p (by rw [List.getElem?_eq_getElem hi, List.getElem_idxOf hi])]
        rw [List.getElem?_eq_getElem (by simpa using hi)]
        simp
      · rw [if_neg h2, DimTree.scatter_notMem _ _ _ _ h2, List.getElem?_map, List.getElem?_range hp]
        rfl
  · rw [List.getElem?_eq_none (by rw [DimTree.length_scatter, DimTree.length_scatter]; simp; omega),
      List.getElem?_eq_none (by simp; omega)]

theorem range_split (m m' : Nat) : List.range (1 + m + m') = 0 :: (List.range' 1 m ++ List.range' (1 + m) m') := by
  rw [List.range_eq_range', ← List.range'_append_1, ← List.range'_append_1]
  simp

theorem range_filter (m m' : Nat) : (List.range (1 + m + m')).filter (fun l => !(List.range' 1 m).contains l) =
    0 :: List.range' (1 + m) m' := by
  rw [range_split, List.filter_cons_of_pos (by simp), List.filter_append]
  rw [List.filter_eq_nil_iff.2 (by intro a ha; simpa [Nat.pos_iff_ne_zero, Nat.one_le_iff_ne_zero] using ha)]
  rw [List.filter_eq_self.2 (by
    intro a ha
    have := List.mem_range'_1.1 ha
    have h : a ∉ List.range' 1 m := fun h => by have := List.mem_range'_1.1 h; omega
    rw [Bool.not_eq_true', List.contains_eq_mem]
    exact decide_eq_false h)]
  rfl

theorem label2_filter (o1 o2 : Nat) (ax dg : List Nat) (hm : 1 + ax.length ≤ o1) :
    ((List.range o2).map (label2 o1 ax dg)).filter (fun l => l ∉ List.range o1) =
      (setdiffRange o2 (ax ++ dg)).map (· + o1) := by
  rw [List.filter_map]
  unfold setdiffRange
  have : ∀ p ∈ List.range o2, ((fun l => decide (l ∉ List.range o1)) ∘ label2 o1 ax dg) p = !(ax ++ dg).contains p := by
    intro p _
    simp only [Function.comp, label2]
    by_cases h1 : p ∈ ax
    · have := List.idxOf_lt_length_of_mem h1
      simp [h1]; omega
    · by_cases h2 : p ∈ dg
      · simp [h1, h2]; omega
      · simp [h1, h2]
  rw [List.filter_congr this]
  apply List.map_congr_left
  intro p hp
  have hp := (List.mem_filter.1 hp).2
  have h1 : p ∉ ax := fun h => by simp [h] at hp
  have h2 : p ∉ dg := fun h => by simp [h] at hp
  simp [label2, h1, h2]

theorem distinct_labels (m m' o2 : Nat) (ax dg : List Nat) (hax : ax.length = m) :
    (distinct (List.range (1 + m + m') ++ (List.range o2).map (label2 (1 + m + m') ax dg))) =
      List.range (1 + m + m') ++ (setdiffRange o2 (ax ++ dg)).map (· + (1 + m + m')) := by
  subst hax
  unfold distinct
  rw [List.foldl_append]
  have e1 : (List.range (1 + ax.length + m')).foldl (fun acc x => if x ∈ acc then acc else acc ++ [x]) [] =
      List.range (1 + ax.length + m') := by
    rw [distinct_aux]
    · simp
    · simpa using List.nodup_range
  rw [e1, distinct_aux]
  · rw [label2_filter _ _ _ _ (by omega)]
  · rw [label2_filter _ _ _ _ (by omega)]
    exact (List.nodup_range.filter _).map (fun a b h => by simpa using h)

/-- The labels computed by `tensordot_eval_diag(t2, arange(1, 1 + m), ax, 0, dg)` for a first tensor of order `1 + m + m'`. -/
theorem einsumLabels_spec (m m' o2 : Nat) (ax dg : List Nat) (hax : ax.length = m) (ha : ax.Nodup) (hal : ∀ p ∈ ax, p < o2)
    (hg : dg.Nodup) (hgl : ∀ p ∈ dg, p < o2) :
    einsumLabels (1 + m + m') o2 (List.range' 1 m) ax [0] dg false =
      (List.range (1 + m + m'), (List.range o2).map (label2 (1 + m + m') ax dg),
        0 :: List.range' (1 + m) m' ++ (setdiffRange o2 (ax ++ dg)).map (· + (1 + m + m'))) := by
  subst hax
  have hr0 : (List.range (1 + ax.length + m')).getD 0 0 = 0 := by rw [range_split]; rfl
  have hput1 : DimTree.DTree.scatter (List.range (1 + ax.length + m')) [0] (List.replicate 1 0) = List.range (1 + ax.length + m') := by
    rw [range_split]; rfl
  have hperm : applyPerm (List.range' 1 ax.length) (List.range (1 + ax.length + m')) = List.range' 1 ax.length := by
    unfold applyPerm
    conv_rhs => rw [← List.map_id (List.range' 1 ax.length)]
    apply List.map_congr_left
    intro k hk
    have := List.mem_range'_1.1 hk
    rw [List.getD_eq_getElem _ _ (by simp; omega)]
    simp
  have hl2 := labels2 (1 + ax.length + m') o2 ax dg ha hal hg hgl (by omega)
  have hsel : (if !(List.range' 1 ax.length).isEmpty && !ax.isEmpty then
      DimTree.DTree.scatter (DimTree.DTree.scatter ((List.range o2).map (· + (1 + ax.length + m'))) dg (List.replicate dg.length 0)) ax
        (List.range' 1 ax.length) else
      DimTree.DTree.scatter ((List.range o2).map (· + (1 + ax.length + m'))) dg (List.replicate dg.length 0)) =
      (List.range o2).map (label2 (1 + ax.length + m') ax dg) := by
    rw [← hl2]
    by_cases he : ax = []
    · subst he; rfl
    · have h1 : ax.isEmpty = false := by simpa using he
      have h2 : (List.range' 1 ax.length).isEmpty = false := by
        rw [List.isEmpty_eq_false_iff]
        intro h
        exact he (List.length_eq_zero_iff.1 (by simpa using congrArg List.length h))
      rw [h1, h2]
      rfl
  have hout := distinct_labels ax.length m' o2 ax dg rfl
  have key : einsumLabels (1 + ax.length + m') o2 (List.range' 1 ax.length) ax [0] dg false =
      (DimTree.DTree.scatter (List.range (1 + ax.length + m')) [0]
        (List.replicate 1 ((List.range (1 + ax.length + m')).getD 0 0)),
       (if !(List.range' 1 ax.length).isEmpty && !ax.isEmpty then
        DimTree.DTree.scatter (DimTree.DTree.scatter ((List.range o2).map (· + (1 + ax.length + m'))) dg
          (List.replicate dg.length ((List.range (1 + ax.length + m')).getD 0 0))) ax
          (applyPerm (List.range' 1 ax.length) (DimTree.DTree.scatter (List.range (1 + ax.length + m')) [0]
        (List.replicate 1 ((List.range (1 + ax.length + m')).getD 0 0)))) else
        DimTree.DTree.scatter ((List.range o2).map (· + (1 + ax.length + m'))) dg
          (List.replicate dg.length ((List.range (1 + ax.length + m')).getD 0 0))),
       (distinct (DimTree.DTree.scatter (List.range (1 + ax.length + m')) [0]
        (List.replicate 1 ((List.range (1 + ax.length + m')).getD 0 0)) ++
        (if !(List.range' 1 ax.length).isEmpty && !ax.isEmpty then
        DimTree.DTree.scatter (DimTree.DTree.scatter ((List.range o2).map (· + (1 + ax.length + m'))) dg
          (List.replicate dg.length ((List.range (1 + ax.length + m')).getD 0 0))) ax
          (applyPerm (List.range' 1 ax.length) (DimTree.DTree.scatter (List.range (1 + ax.length + m')) [0]
        (List.replicate 1 ((List.range (1 + ax.length + m')).getD 0 0)))) else
        DimTree.DTree.scatter ((List.range o2).map (· + (1 + ax.length + m'))) dg
          (List.replicate dg.length ((List.range (1 + ax.length + m')).getD 0 0))))).filter
          (fun l => !(List.range' 1 ax.length).contains l)) := rfl
  rw [key, hr0, hput1, hperm, hsel, hout, List.filter_append, range_filter]
  congr 2
  rw [List.cons_append, List.cons_append]
  congr 2
  rw [List.filter_eq_self]
  intro a ha
  obtain ⟨b, _, rfl⟩ := List.mem_map.1 ha
  rw [Bool.not_eq_true', List.contains_eq_mem]
  exact decide_eq_false (fun h => by have := List.mem_range'_1.1 h; omega)

/-- The index of the second tensor in `tensordot_eval_diag`: `s` on the contracted axes `ax`, `k` on the axes `dg`, and
`t` on the remaining ones. -/
theorem mergeIdx_label (o1 o2 : Nat) (ax dg : List Nat) (s t : List Nat) (k : Nat) (env : Nat → Nat) (ha : ax.Nodup)
    (hal : ∀ p ∈ ax, p < o2) (hgl : ∀ p ∈ dg, p < o2) (hdis : ∀ p ∈ dg, p ∉ ax)
    (hs : s.length = ax.length)
    (h1 : ∀ i, i < ax.length → env (1 + i) = s.getD i 0) (h0 : env 0 = k)
    (h2 : ∀ j, j < (setdiffRange o2 (ax ++ dg)).length → env ((setdiffRange o2 (ax ++ dg)).getD j 0 + o1) = t.getD j 0)
    (ht : t.length = (setdiffRange o2 (ax ++ dg)).length) :
    ((List.range o2).map (label2 o1 ax dg)).map env =
      mergeIdx (ax ++ dg) (s ++ List.replicate dg.length k) 0 o2 t := by
  have hg : ∀ p, p < o2 → (((List.range o2).map (label2 o1 ax dg)).map env).getD p 0 = env (label2 o1 ax dg p) := by
    intro p hp
    rw [List.getD_eq_getElem _ _ (by simpa using hp)]
    simp
  have hA : applyPerm (ax ++ dg) (((List.range o2).map (label2 o1 ax dg)).map env) = s ++ List.replicate dg.length k := by
    rw [applyPerm_append]
    congr 1
    · apply List.ext_getElem (by simp [applyPerm, hs])
      intro i h1' h2'
      have hi : i < ax.length := by simpa [applyPerm] using h1'
      simp only [applyPerm, List.getElem_map]
      rw [hg _ (hal _ (List.getElem_mem hi)), label2, if_pos (List.getElem_mem hi), ha.idxOf_getElem i hi, h1 i hi,
        List.getD_eq_getElem _ _ (by omega)]
    · apply List.ext_getElem (by simp [applyPerm])
      intro i h1' h2'
      have hi : i < dg.length := by simpa [applyPerm] using h1'
      have hm := List.getElem_mem hi
      simp only [applyPerm, List.getElem_map, List.getElem_replicate]
      rw [hg _ (hgl _ hm), label2, if_neg (hdis _ hm), if_pos hm, h0]
  have hB : dropAxes (ax ++ dg) (((List.range o2).map (label2 o1 ax dg)).map env) = t := by
    rw [dropAxes_eq, List.length_map, List.length_map, List.length_range]
    apply List.ext_getElem (by simp [applyPerm, ht])
    intro i h1' h2'
    have hi : i < (setdiffRange o2 (ax ++ dg)).length := by simpa [applyPerm] using h1'
    have hm := mem_setdiffRange.1 (List.getElem_mem hi)
    have hm2 := hm.2
    rw [List.mem_append, not_or] at hm2
    simp only [applyPerm, List.getElem_map]
    have := h2 i hi
    rw [List.getD_eq_getElem _ _ hi] at this
    rw [hg _ hm.1, label2, if_neg hm2.1, if_neg hm2.2, this, List.getD_eq_getElem _ _ h2']
  have hself := mergeIdx_self (ax := ax ++ dg) (idx := ((List.range o2).map (label2 o1 ax dg)).map env) hA
  rw [List.length_map, List.length_map, List.length_range, hB] at hself
  exact hself.symm

/-- `tensordot_eval_diag(t2, arange(1, 1 + m), ax, 0, dg)`: axis 0 of the first tensor is identified with the axes `dg` of the
second one, its next axes `a` are contracted with the axes `ax`, and its other axes `b` are kept. -/
theorem tensordotEvalDiag_spec [CommSemiring R] (x y : Arr R) (n : Nat) (a b ax dg : List Nat) (hx : x.shape = n :: (a ++ b))
    (hax : ax.length = a.length) (ha : ax.Nodup) (hal : ∀ p ∈ ax, p < y.order)
    (hg : dg.Nodup) (hgl : ∀ p ∈ dg, p < y.order) (hdis : ∀ p ∈ dg, p ∉ ax) :
    (tensordotEvalDiag x y (List.range' 1 a.length) ax [0] dg).shape = n :: (b ++ dropAxes (ax ++ dg) y.shape) ∧
    ∀ k u t, u.length = b.length → t.length = (dropAxes (ax ++ dg) y.shape).length →
      (tensordotEvalDiag x y (List.range' 1 a.length) ax [0] dg).get (k :: (u ++ t)) =
        sumBox a (fun s => x.get (k :: (s ++ u)) *
          y.get (mergeIdx (ax ++ dg) (s ++ List.replicate dg.length k) 0 y.order t)) := by
  have ho : x.order = 1 + a.length + b.length := by simp [Arr.order, hx]; omega
  have hlab := einsumLabels_spec a.length b.length y.order ax dg hax ha hal hg hgl
  have hsd : (setdiffRange y.order (ax ++ dg)).length = (dropAxes (ax ++ dg) y.shape).length := by
    rw [dropAxes_eq]; simp [applyPerm, Arr.order]
  have hE : tensordotEvalDiag x y (List.range' 1 a.length) ax [0] dg =
      x.einsum (List.range (1 + a.length + b.length)) y ((List.range y.order).map (label2 (1 + a.length + b.length) ax dg))
        (0 :: List.range' (1 + a.length) b.length ++ (setdiffRange y.order (ax ++ dg)).map (· + (1 + a.length + b.length))) := by
    unfold tensordotEvalDiag
    rw [ho, hlab]
  have hsum : (distinct (List.range (1 + a.length + b.length) ++
      (List.range y.order).map (label2 (1 + a.length + b.length) ax dg))).filter (fun l =>
        !(0 :: List.range' (1 + a.length) b.length ++
          (setdiffRange y.order (ax ++ dg)).map (· + (1 + a.length + b.length))).contains l) = List.range' 1 a.length := by
    rw [distinct_labels _ _ _ _ _ hax, List.filter_append, range_split, List.filter_cons_of_neg (by simp), List.filter_append]
    have q1 : (List.range' 1 a.length).filter (fun l => !(0 :: List.range' (1 + a.length) b.length ++
          (setdiffRange y.order (ax ++ dg)).map (· + (1 + a.length + b.length))).contains l) = List.range' 1 a.length := by
      rw [List.filter_eq_self]
      intro l hl
      have := List.mem_range'_1.1 hl
      rw [Bool.not_eq_true', List.contains_eq_mem]
      refine decide_eq_false (fun h => ?_)
      rw [List.mem_append, List.mem_cons, List.mem_range'_1, List.mem_map] at h
      rcases h with (h | h) | ⟨p, _, h⟩ <;> omega
    have q2 : (List.range' (1 + a.length) b.length).filter (fun l => !(0 :: List.range' (1 + a.length) b.length ++
          (setdiffRange y.order (ax ++ dg)).map (· + (1 + a.length + b.length))).contains l) = [] := by
      rw [List.filter_eq_nil_iff]
      intro l hl
      rw [Bool.not_eq_true', List.contains_eq_mem]
      intro h
      have h := of_decide_eq_false h
      exact h (List.mem_append_left _ (List.mem_cons_of_mem _ hl))
    have q3 : ((setdiffRange y.order (ax ++ dg)).map (· + (1 + a.length + b.length))).filter (fun l =>
        !(0 :: List.range' (1 + a.length) b.length ++
          (setdiffRange y.order (ax ++ dg)).map (· + (1 + a.length + b.length))).contains l) = [] := by
      rw [List.filter_eq_nil_iff]
      intro l hl
      rw [Bool.not_eq_true', List.contains_eq_mem]
      intro h
      have h := of_decide_eq_false h
      exact h (List.mem_append_right _ hl)
    rw [q1, q2, q3]
    simp
  -- the sizes
  have size1 : ∀ l, l < 1 + a.length + b.length →
      (if l ∈ List.range (1 + a.length + b.length) then
        x.shape.getD ((List.range (1 + a.length + b.length)).idxOf l) 0
      else y.shape.getD (((List.range y.order).map (label2 (1 + a.length + b.length) ax dg)).idxOf l) 0) =
      (n :: (a ++ b)).getD l 0 := by
    intro l hl
    rw [if_pos (List.mem_range.2 hl), hx]
    congr 1
    have := List.nodup_range.idxOf_getElem (xs := List.range (1 + a.length + b.length)) l (by simpa using hl)
    rwa [List.getElem_range] at this
  have size2 : ∀ p ∈ setdiffRange y.order (ax ++ dg),
      (if p + (1 + a.length + b.length) ∈ List.range (1 + a.length + b.length) then
        x.shape.getD ((List.range (1 + a.length + b.length)).idxOf (p + (1 + a.length + b.length))) 0
      else y.shape.getD (((List.range y.order).map (label2 (1 + a.length + b.length) ax dg)).idxOf
        (p + (1 + a.length + b.length))) 0) = y.shape.getD p 0 := by
    intro p hp
    obtain ⟨hp1, hp2⟩ := mem_setdiffRange.1 hp
    rw [List.mem_append, not_or] at hp2
    rw [if_neg (fun h => by have := List.mem_range.1 h; omega)]
    congr 1
    have hmem : p + (1 + a.length + b.length) ∈ (List.range y.order).map (label2 (1 + a.length + b.length) ax dg) :=
      List.mem_map.2 ⟨p, List.mem_range.2 hp1, by simp [label2, hp2.1, hp2.2]⟩
    have hi := List.idxOf_lt_length_of_mem hmem
    have hv := List.getElem_idxOf hi
    rw [List.getElem_map, List.getElem_range] at hv
    generalize List.idxOf (p + (1 + a.length + b.length)) _ = q at hv
    unfold label2 at hv
    split at hv
    · rename_i h
      have := List.idxOf_lt_length_of_mem h
      omega
    · split at hv <;> omega
  rw [hE]
  unfold Arr.einsum
  simp only
  rw [hsum]
  generalize hsz : (fun l => if l ∈ List.range (1 + a.length + b.length) then
        x.shape.getD ((List.range (1 + a.length + b.length)).idxOf l) 0
      else y.shape.getD (((List.range y.order).map (label2 (1 + a.length + b.length) ax dg)).idxOf l) 0) = sz
  have sz1 : ∀ l, l < 1 + a.length + b.length → sz l = (n :: (a ++ b)).getD l 0 := by
    intro l hl; rw [← hsz]; exact size1 l hl
  have sz2 : ∀ p ∈ setdiffRange y.order (ax ++ dg), sz (p + (1 + a.length + b.length)) = y.shape.getD p 0 := by
    intro p hp; rw [← hsz]; exact size2 p hp
  have hsa : (List.range' 1 a.length).map sz = a := by
    apply List.ext_getElem (by simp)
    intro i h1 h2
    rw [List.getElem_map, List.getElem_range', sz1 _ (by omega), Nat.one_mul, Nat.add_comm 1 i, List.getD_cons_succ,
      List.getD_append _ _ _ _ h2, List.getD_eq_getElem _ _ h2]
  have hsb : (List.range' (1 + a.length) b.length).map sz = b := by
    apply List.ext_getElem (by simp)
    intro i h1 h2
    rw [List.getElem_map, List.getElem_range', sz1 _ (by omega), Nat.one_mul,
      show 1 + a.length + i = (a.length + i) + 1 by omega, List.getD_cons_succ,
      List.getD_append_right _ _ _ _ (by omega), Nat.add_sub_cancel_left, List.getD_eq_getElem _ _ h2]
  have hsc : ((setdiffRange y.order (ax ++ dg)).map (· + (1 + a.length + b.length))).map sz = dropAxes (ax ++ dg) y.shape := by
    rw [dropAxes_eq, List.map_map]
    apply List.map_congr_left
    intro p hp
    exact sz2 p hp
  have hs0 : sz 0 = n := sz1 0 (by omega)
  refine ⟨?_, fun k u t hu ht => ?_⟩
  · rw [List.cons_append, List.map_cons, List.map_append, hs0, hsb, hsc]
  · rw [hsa]
    apply sumBox_congr
    intro s hs
    generalize henv : (fun l => if l ∈ 0 :: List.range' (1 + a.length) b.length ++
          (setdiffRange y.order (ax ++ dg)).map (· + (1 + a.length + b.length)) then
        (k :: (u ++ t)).getD ((0 :: List.range' (1 + a.length) b.length ++
          (setdiffRange y.order (ax ++ dg)).map (· + (1 + a.length + b.length))).idxOf l) 0
        else s.getD ((List.range' 1 a.length).idxOf l) 0) = env
    have hnd : (0 :: List.range' (1 + a.length) b.length ++
          (setdiffRange y.order (ax ++ dg)).map (· + (1 + a.length + b.length))).Nodup := by
      rw [List.nodup_append]
      refine ⟨?_, ?_, ?_⟩
      · rw [List.nodup_cons]
        refine ⟨fun h => by have := List.mem_range'_1.1 h; omega, List.nodup_range'⟩
      · exact (List.nodup_range.filter _).map (fun a b h => by simpa using h)
      · intro l hl q hq
        obtain ⟨p, _, rfl⟩ := List.mem_map.1 hq
        rcases List.mem_cons.1 hl with h | h
        · omega
        · have := List.mem_range'_1.1 h; omega
    have envOut : ∀ i (hi : i < (0 :: List.range' (1 + a.length) b.length ++
          (setdiffRange y.order (ax ++ dg)).map (· + (1 + a.length + b.length))).length),
        env (0 :: List.range' (1 + a.length) b.length ++
          (setdiffRange y.order (ax ++ dg)).map (· + (1 + a.length + b.length)))[i] = (k :: (u ++ t)).getD i 0 := by
      intro i hi
      rw [← henv]
      show (if _ then _ else _) = _
      rw [if_pos (List.getElem_mem hi), hnd.idxOf_getElem i hi]
    have env0 : env 0 = k := by simpa using envOut 0 (by simp)
    have env1 : ∀ i, i < a.length → env (1 + i) = s.getD i 0 := by
      intro i hi
      rw [← henv]
      show (if _ then _ else _) = _
      rw [if_neg]
      · congr 1
        have := (List.nodup_range' (s := 1) (n := a.length)).idxOf_getElem i (by simpa using hi)
        rwa [List.getElem_range', Nat.one_mul] at this
      · intro h
        rw [List.mem_append, List.mem_cons, List.mem_range'_1, List.mem_map] at h
        rcases h with (h | h) | ⟨p, _, h⟩ <;> omega
    have env2 : ∀ i, i < b.length → env (1 + a.length + i) = u.getD i 0 := by
      intro i hi
      have := envOut (i + 1) (by simp; omega)
      rw [List.getD_cons_succ, List.getD_append _ _ _ _ (by omega)] at this
      rw [← this]
      congr 1
      simp only [List.cons_append, List.getElem_cons_succ]
      rw [List.getElem_append_left (by simpa using hi), List.getElem_range', Nat.one_mul]
    have env3 : ∀ j, j < (setdiffRange y.order (ax ++ dg)).length →
        env ((setdiffRange y.order (ax ++ dg)).getD j 0 + (1 + a.length + b.length)) = t.getD j 0 := by
      intro j hj
      have := envOut (b.length + j + 1) (by simp; omega)
      rw [List.getD_cons_succ, List.getD_append_right _ _ _ _ (by omega), hu, Nat.add_sub_cancel_left] at this
      rw [← this, List.getD_eq_getElem _ _ hj]
      congr 1
      simp only [List.cons_append, List.getElem_cons_succ]
      rw [List.getElem_append_right (by simp)]
      simp
    have hl1 : (List.range (1 + a.length + b.length)).map env = k :: (s ++ u) := by
      rw [range_split, List.map_cons, List.map_append, env0]
      congr 2
      · apply List.ext_getElem (by simp [hs.length_eq])
        intro i h1 h2
        rw [List.getElem_map, List.getElem_range', Nat.one_mul, env1 i (by simpa using h1), List.getD_eq_getElem _ _ h2]
      · apply List.ext_getElem (by simp [hu])
        intro i h1 h2
        rw [List.getElem_map, List.getElem_range', Nat.one_mul, env2 i (by simpa using h1), List.getD_eq_getElem _ _ h2]
    rw [hl1, mergeIdx_label (1 + a.length + b.length) y.order ax dg s t k env ha hal hgl hdis (by rw [hs.length_eq, hax])
      (fun i hi => env1 i (by omega)) env0 env3 (by rw [ht, hsd])]

end FullTensor
end Verif
