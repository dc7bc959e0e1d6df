import Verif.Model.SparseTensor
import Verif.Props.FullTensor
import Verif.Lemmas.MultiIndices
import Mathlib.Algebra.BigOperators.Ring.List

namespace Verif.Sparse

open Verif.Arr Verif.MultiIndices Finset

variable {R : Type}

/-- Rows in the box, without repetition, with as many values. -/
structure WF (s : Sp R) : Prop where
  len : s.data.length = s.rows.length
  nodup : s.rows.Nodup
  inBox : ∀ r ∈ s.rows, InBox s.shape r

theorem valueAt_acc [Zero R] (l : List (List Nat × R)) (idx : List Nat) (a : R) :
    (∀ p ∈ l, p.1 ≠ idx) → l.foldl (fun acc p => if p.1 = idx then p.2 else acc) a = a := by
  induction l generalizing a with
  | nil => intro _; rfl
  | cons p l ih =>
    intro h
    rw [List.foldl_cons, if_neg (h p (by simp))]
    exact ih a (fun q hq => h q (by simp [hq]))

theorem valueAt_not_mem [Zero R] {rows : List (List Nat)} {data : List R} {idx : List Nat} (h : idx ∉ rows) :
    valueAt rows data idx = 0 := by
  apply valueAt_acc
  intro p hp he
  exact h (he ▸ (List.of_mem_zip hp).1)

theorem valueAt_mem_acc [Zero R] (l : List (List Nat × R)) (hn : (l.map Prod.fst).Nodup) (idx : List Nat) (v a : R)
    (h : (idx, v) ∈ l) : l.foldl (fun acc p => if p.1 = idx then p.2 else acc) a = v := by
  induction l generalizing a with
  | nil => simp at h
  | cons p l ih =>
    rw [List.map_cons, List.nodup_cons] at hn
    rw [List.foldl_cons]
    rcases List.mem_cons.1 h with h | h
    · subst h
      rw [if_pos rfl]
      apply valueAt_acc
      intro q hq he
      exact hn.1 (List.mem_map.2 ⟨q, hq, he⟩)
    · exact ih hn.2 _ h

theorem zip_fst {α β : Type} {a : List α} {b : List β} (h : b.length = a.length) : (a.zip b).map Prod.fst = a := by
  rw [List.map_fst_zip (by omega)]

theorem valueAt_mem [Zero R] {rows : List (List Nat)} {data : List R} (hl : data.length = rows.length)
    (hn : rows.Nodup) {idx : List Nat} {v : R} (h : (idx, v) ∈ rows.zip data) : valueAt rows data idx = v :=
  valueAt_mem_acc _ (by rw [zip_fst hl]; exact hn) _ _ _ h

theorem valueAt_getElem [Zero R] {rows : List (List Nat)} {data : List R} (hl : data.length = rows.length)
    (hn : rows.Nodup) (k : Nat) (hk : k < rows.length) :
    valueAt rows data rows[k] = data[k]'(by omega) := by
  apply valueAt_mem hl hn
  rw [List.mem_iff_getElem]
  exact ⟨k, by simp [hl, hk], by simp⟩

/-- The value at an index tuple as a sum over the stored entries. -/
theorem valueAt_eq_sum [AddCommMonoid R] {rows : List (List Nat)} {data : List R} (hl : data.length = rows.length)
    (hn : rows.Nodup) (idx : List Nat) :
    valueAt rows data idx = ((rows.zip data).map (fun p => if p.1 = idx then p.2 else 0)).sum := by
  induction rows generalizing data with
  | nil => simp [valueAt]
  | cons r rows ih =>
    cases data with
    | nil => simp at hl
    | cons d data =>
      rw [List.nodup_cons] at hn
      have hl' : data.length = rows.length := by simpa using hl
      have ih := ih hl' hn.2
      simp only [List.zip_cons_cons, List.map_cons, List.sum_cons]
      rw [← ih]
      by_cases hr : r = idx
      · subst hr
        rw [if_pos rfl, valueAt_not_mem hn.1, add_zero]
        exact valueAt_mem (by simpa using hl) (List.nodup_cons.2 hn) (by simp)
      · rw [if_neg hr, zero_add]
        unfold valueAt
        rw [List.zip_cons_cons, List.foldl_cons, if_neg hr]

theorem list_sum_sumBox [AddCommMonoid R] {α : Type} (l : List α) (s : List Nat) (f : α → List Nat → R) :
    sumBox s (fun idx => (l.map (fun a => f a idx)).sum) = (l.map (fun a => sumBox s (f a))).sum := by
  induction l with
  | nil => simp [sumBox_zero]
  | cons a l ih => simp only [List.map_cons, List.sum_cons, sumBox_add, ih]

theorem sumBox_ite [AddCommMonoid R] {s r : List Nat} (h : InBox s r) (f : List Nat → R) :
    sumBox s (fun idx => if r = idx then f idx else 0) = f r := by
  rw [sumBox_eq_sum, Finset.sum_ite_eq, if_pos ((mem_box s r).2 h)]

/-- Sums against the values: over the box, or over the stored entries. -/
theorem sumBox_valueAt [CommSemiring R] {rows : List (List Nat)} {data : List R} {shape : List Nat}
    (hl : data.length = rows.length) (hn : rows.Nodup) (hb : ∀ r ∈ rows, InBox shape r) (g : List Nat → R) :
    sumBox shape (fun idx => valueAt rows data idx * g idx) = ((rows.zip data).map (fun p => p.2 * g p.1)).sum := by
  have : ∀ idx, valueAt rows data idx * g idx =
      ((rows.zip data).map (fun p => if p.1 = idx then p.2 * g idx else 0)).sum := by
    intro idx
    rw [valueAt_eq_sum hl hn, ← List.sum_map_mul_right]
    congr 1
    apply List.map_congr_left
    intro p _
    split <;> simp
  simp only [this]
  rw [list_sum_sumBox]
  congr 1
  apply List.map_congr_left
  intro p hp
  rw [sumBox_ite (hb _ (List.of_mem_zip hp).1) (fun idx => p.2 * g idx)]

theorem valueAt_map [Zero R] {rows : List (List Nat)} {data : List R} (f : List Nat → List Nat) (idx : List Nat)
    (h : ∀ r ∈ rows, f r = f idx ↔ r = idx) :
    valueAt (rows.map f) data (f idx) = valueAt rows data idx := by
  unfold valueAt
  generalize (0 : R) = a
  induction rows generalizing data a with
  | nil => rfl
  | cons r rows ih =>
    cases data with
    | nil => rfl
    | cons d data =>
      simp only [List.map_cons, List.zip_cons_cons, List.foldl_cons]
      rw [ih (fun q hq => h q (by simp [hq]))]
      congr 1
      by_cases hr : r = idx
      · rw [if_pos hr, if_pos ((h r (by simp)).2 hr)]
      · rw [if_neg hr, if_neg (fun he => hr ((h r (by simp)).1 he))]

theorem full_ok [Zero R] {s : Sp R} (h : WF s) : full s = .ok ⟨s.shape, valueAt s.rows s.data⟩ := by
  have : (s.rows.any (fun r => !decide (InBox s.shape r))) = false := by
    rw [List.any_eq_false]
    intro r hr
    simp [h.inBox r hr]
  simp [full, this, h.len]

/-! ### intersections -/

theorem filter_range_eq {I : List (List Nat)} (hn : I.Nodup) (r : List Nat) :
    ((List.range I.length).filter fun i => I.getD i [] == r) = if r ∈ I then [I.idxOf r] else [] := by
  split
  · rename_i hr
    have hlt := List.idxOf_lt_length_of_mem hr
    apply List.Perm.eq_singleton
    rw [List.perm_ext_iff_of_nodup (List.nodup_range.filter _) (by simp)]
    intro i
    simp only [List.mem_filter, List.mem_range, beq_iff_eq, List.mem_singleton]
    constructor
    · rintro ⟨hi, he⟩
      rw [List.getD_eq_getElem _ _ hi] at he
      rw [← he, hn.idxOf_getElem]
    · rintro rfl
      exact ⟨hlt, by rw [List.getD_eq_getElem _ _ hlt, List.getElem_idxOf hlt]⟩
  · rename_i hr
    rw [List.filter_eq_nil_iff]
    intro i hi
    have hi := List.mem_range.1 hi
    simp only [beq_iff_eq]
    rw [List.getD_eq_getElem _ _ hi]
    rintro rfl
    exact hr (List.getElem_mem hi)

theorem interPairs_eq {I J : List (List Nat)} (hn : I.Nodup) :
    interPairs I J = ((List.range J.length).filter (fun j => J.getD j [] ∈ I)).map
      (fun j => (j, I.idxOf (J.getD j []))) := by
  unfold interPairs
  simp only [filter_range_eq hn]
  generalize List.range J.length = l
  induction l with
  | nil => rfl
  | cons j l ih =>
    rw [List.flatMap_cons, ih]
    by_cases h : J.getD j [] ∈ I
    · rw [if_pos h, List.filter_cons_of_pos (by simpa using h)]; rfl
    · rw [if_neg h, List.filter_cons_of_neg (by simpa using h)]; rfl

/-- The positions of the rows of a subset. -/
theorem interPairs_subset {I J : List (List Nat)} (hn : I.Nodup) (hs : ∀ r ∈ J, r ∈ I) :
    (interPairs I J).map Prod.snd = J.map (fun r => I.idxOf r) := by
  rw [interPairs_eq hn, List.map_map]
  have : (List.range J.length).filter (fun j => J.getD j [] ∈ I) = List.range J.length := by
    rw [List.filter_eq_self]
    intro j hj
    have hj := List.mem_range.1 hj
    rw [List.getD_eq_getElem _ _ hj]
    simpa using hs _ (List.getElem_mem hj)
  rw [this]
  apply List.ext_getElem (by simp)
  intro k h1 h2
  have hk : k < J.length := by simpa using h1
  simp only [List.getElem_map, List.getElem_range, Function.comp]
  rw [List.getD_eq_getElem _ _ hk]

theorem foldl_set_length {α : Type} (ps : List (Nat × α)) (g : Nat × α → R) (d : List R) :
    (ps.foldl (fun d p => d.set p.1 (g p)) d).length = d.length := by
  induction ps generalizing d with
  | nil => rfl
  | cons p ps ih => rw [List.foldl_cons, ih]; simp

theorem foldl_set_not_mem [Zero R] {α : Type} (ps : List (Nat × α)) (g : Nat × α → R) (d : List R) (k : Nat)
    (h : ∀ p ∈ ps, p.1 ≠ k) : (ps.foldl (fun d p => d.set p.1 (g p)) d).getD k 0 = d.getD k 0 := by
  induction ps generalizing d with
  | nil => rfl
  | cons p ps ih =>
    rw [List.foldl_cons, ih _ (fun q hq => h q (by simp [hq]))]
    rw [List.getD_eq_getElem?_getD, List.getElem?_set_ne (h p (by simp)), ← List.getD_eq_getElem?_getD]

theorem foldl_set_mem [Zero R] {α : Type} (ps : List (Nat × α)) (g : Nat × α → R) (d : List R)
    (hn : (ps.map Prod.fst).Nodup) (p : Nat × α) (hp : p ∈ ps) (hk : p.1 < d.length) :
    (ps.foldl (fun d p => d.set p.1 (g p)) d).getD p.1 0 = g p := by
  induction ps generalizing d with
  | nil => simp at hp
  | cons q ps ih =>
    rw [List.map_cons, List.nodup_cons] at hn
    rw [List.foldl_cons]
    rcases List.mem_cons.1 hp with h | h
    · subst h
      rw [foldl_set_not_mem _ _ _ _ (fun q hq he => hn.1 (List.mem_map.2 ⟨q, hq, he⟩))]
      rw [List.getD_eq_getElem _ _ (by simpa using hk)]; simp
    · exact ih _ hn.2 h (by simpa using hk)

/-- `data[rep] += values` where `rep` are the positions of the rows `J` in the rows `I`. -/
theorem addAt_idxOf [AddZeroClass R] {I J : List (List Nat)} {base values : List R} (hI : I.Nodup) (hJ : J.Nodup)
    (hs : ∀ r ∈ J, r ∈ I) (hb : base.length = I.length) (hv : values.length = J.length) :
    ∃ out, addAt base (J.map (fun r => I.idxOf r)) values = .ok out ∧ out.length = I.length ∧
      ∀ k (hk : k < I.length), out.getD k 0 = base.getD k 0 + valueAt J values I[k] := by
  refine ⟨_, by simp only [addAt]; rw [if_pos (by simp [hv])], by rw [foldl_set_length, hb], ?_⟩
  intro k hk
  have hfst : ((J.map (fun r => I.idxOf r)).zip values).map Prod.fst = J.map (fun r => I.idxOf r) := zip_fst (by simp [hv])
  have hnd : (J.map (fun r => I.idxOf r)).Nodup := by
    refine hJ.map_on ?_
    intro a ha b hb hab
    have h1 := List.getElem_idxOf (List.idxOf_lt_length_of_mem (hs a ha))
    have h2 := List.getElem_idxOf (List.idxOf_lt_length_of_mem (hs b hb))
    rw [← h1, ← h2]
    congr 1
  by_cases hm : I[k] ∈ J
  · obtain ⟨j, hj, hje⟩ := List.getElem_of_mem hm
    have hmem : (k, values[j]'(by omega)) ∈ (J.map (fun r => I.idxOf r)).zip values := by
      rw [List.mem_iff_getElem]
      refine ⟨j, by simp [hv, hj], ?_⟩
      simp [hje, hI.idxOf_getElem]
    have := foldl_set_mem ((J.map (fun r => I.idxOf r)).zip values) (fun p => base.getD p.1 0 + p.2) base
      (by rw [hfst]; exact hnd) _ hmem (by simp; omega)
    simp only at this
    rw [this]
    congr 1
    rw [← hje]
    exact (valueAt_getElem hv hJ j hj).symm
  · rw [valueAt_not_mem hm, add_zero]
    apply foldl_set_not_mem
    intro p hp he
    have := (List.of_mem_zip hp).1
    obtain ⟨r, hr, hre⟩ := List.mem_map.1 this
    have hlt := List.idxOf_lt_length_of_mem (hs r hr)
    have : I[k] = r := by
      have := List.getElem_idxOf hlt
      rw [← this]; congr 1; omega
    exact hm (this ▸ hr)

end Verif.Sparse
