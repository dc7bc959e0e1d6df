import Verif.Model.TreeAtIndices
import Verif.Props.TreeEvalDiag
import Verif.Props.TreeModes
import Verif.Props.TreeVector
import Verif.Props.FullTensorEval

/-!
# Evaluation of a tree-based tensor at indices (C220, C221)
-/

namespace Verif.TreeBased

open Verif.Arr Verif.DimTree Verif.DimTree.DTree Finset

variable {R : Type}

/-- The sub-tensor of a selection, entry by entry. -/
theorem subTensor_entries [CommSemiring R] (x : TBT R) (h : WF x) (sel : List (Option (List Nat)))
    (hsel : List.Forall₂ SelOk sel x.shape) :
    ∃ s a z r, subTensor x sel = .ok s ∧ WF s ∧ full x = .ok a ∧ full s = .ok z ∧ x.tree.root = .ok r ∧ s.tree = x.tree ∧
      a.shape = x.shape ++ rankShape x r ∧ s.shape = List.zipWith FullTensor.pickSize sel x.shape ∧
      rankShape s r = rankShape x r ∧ z.shape = s.shape ++ rankShape x r ∧
      ∀ t e, InBox s.shape t → InBox (rankShape x r) e → z.get (t ++ e) = a.get (List.zipWith FullTensor.pick sel t ++ e) := by
  obtain ⟨s, a, z, z', h1, h2, h3, h4, h5, h6, h7, h8⟩ := subTensor_full x h sel hsel
  obtain ⟨a0, r, q1, q2, q3, _⟩ := full_spec x h
  rw [h3] at q1; cases q1
  obtain ⟨z0, r', w1, w2, w3, _⟩ := full_spec s h2
  rw [h4] at w1; cases w1
  rw [h8, q2] at w2
  obtain rfl : r = r' := by cases w2; rfl
  have hlen := hsel.length_eq
  have hsl : x.shape.length = x.order := by simp [TBT.shape, TBT.order]
  have hso : s.order = x.order := by unfold TBT.order; rw [h8]
  have hssl : s.shape.length = x.order := by simp only [TBT.shape, List.length_map]; unfold TBT.order; rw [h8]
  have hrep : a.order - x.order = (rankShape x r).length := by
    unfold Arr.order; rw [q3, List.length_append, hsl]; omega
  rw [hrep] at h5
  have hpick : List.Forall₂ FullTensor.PickOk (sel ++ List.replicate (rankShape x r).length none) a.shape := by
    rw [q3]
    refine List.rel_append ?_ ?_
    · exact hsel.imp (fun i n hi l hl => (hi l hl).2)
    · rw [List.forall₂_iff_get]
      refine ⟨by simp, fun i h1 h2 l hl => ?_⟩
      simp at hl
  obtain ⟨z1, v1, v2, v3⟩ := FullTensor.subTensor_spec a _ hpick
  rw [h5] at v1
  obtain rfl : z' = z1 := by cases v1; rfl
  have hrs : List.zipWith FullTensor.pickSize (List.replicate (rankShape x r).length none) (rankShape x r) = rankShape x r := by
    apply List.ext_getElem
    · simp
    · intro i i1 i2; simp [FullTensor.pickSize]
  rw [q3, List.zipWith_append hlen, hrs] at v2
  have hsh := h6.1
  rw [w3, v2] at hsh
  obtain ⟨e1, e2⟩ := List.append_inj hsh (by rw [List.length_zipWith, hlen, hssl, hsl]; simp)
  refine ⟨s, a, z, r, h1, h2, h3, h4, q2, h8, q3, e1, e2, by rw [w3, e2], ?_⟩
  intro t e ht he
  have hb : InBox z.shape (t ++ e) := by
    rw [w3, e2]; exact (inBox_append ht.length_eq).2 ⟨ht, he⟩
  rw [h6.2 _ hb, v3 _ (by rw [← h6.1]; exact hb)]
  congr 1
  rw [List.zipWith_append (by rw [hlen, hsl, ht.length_eq, hssl])]
  congr 1
  apply List.ext_getElem
  · simp [he.length_eq]
  · intro i i1 i2; simp [FullTensor.pick]

/-- The selections and the diagonal, for the selections `sel d` of `n` subscripts in each dimension. -/
theorem evalSelections [CommSemiring R] (x : TBT R) (h : WF x) (sel : List (List Nat)) (n : Nat) (hn : 0 < n)
    (hl : sel.length = x.order) (hs : ∀ d, d < x.order → (sel.getD d []).length = n ∧
      ∀ i ∈ sel.getD d [], i < x.shape.getD d 0) :
    ∃ s a y r, subTensor x (sel.map some) = .ok s ∧ evalDiag s = .ok y ∧ full x = .ok a ∧ x.tree.root = .ok r ∧
      y.shape = n :: rankShape x r ∧
      ∀ k e, k < n → InBox (rankShape x r) e → y.get (k :: e) = a.get (sel.map (fun l => l.getD k 0) ++ e) := by
  have hsl : x.shape.length = x.order := by simp [TBT.shape, TBT.order]
  have hsel : List.Forall₂ SelOk (sel.map some) x.shape := by
    rw [List.forall₂_iff_get]
    refine ⟨by simp [hl, hsl], fun d h1 h2 l hl' => ?_⟩
    have hd : d < x.order := by rw [← hsl]; exact h2
    obtain ⟨g1, g2⟩ := hs d hd
    have hd' : d < sel.length := by rw [hl]; exact hd
    simp only [List.get_eq_getElem, List.getElem_map, Option.some.injEq] at hl'
    rw [List.getD_eq_getElem _ _ hd', hl'] at g1 g2
    rw [List.getD_eq_getElem _ _ h2] at g2
    refine ⟨fun h0 => ?_, g2⟩
    rw [h0] at g1; simp at g1; omega
  obtain ⟨s, a, z, r, p1, p2, p3, p4, p5, p6, p7, p8, p9, p10, p11⟩ := subTensor_entries x h _ hsel
  have hso : s.order = x.order := by unfold TBT.order; rw [p6]
  have hss : s.shape = List.replicate x.order n := by
    rw [p8]
    apply List.ext_getElem
    · simp [hl, hsl]
    · intro d d1 d2
      have hd : d < x.order := by simpa using d2
      have g1 := (hs d hd).1
      rw [List.getD_eq_getElem _ _ (by rw [hl]; exact hd)] at g1
      simp [FullTensor.pickSize, g1]
  obtain ⟨z0, y, y1, y2, y3, y4⟩ := evalDiag_full s p2 r (by rw [p6]; exact p5) n (by
    intro d hd
    rw [hso] at hd
    rw [hss, List.getD_eq_getElem _ _ (by simpa using hd)]; simp)
  rw [p4] at y1; cases y1
  refine ⟨s, a, y, r, p1, y2, p3, p5, by rw [y3, p9], ?_⟩
  intro k e hk he
  rw [y4 k e hk (by rw [p9]; exact he), hso, p11 _ _ ?_ he]
  · congr 2
    apply List.ext_getElem
    · simp [hl]
    · intro d d1 d2
      simp [FullTensor.pick]
  · rw [hss, inBox_iff_getD]
    refine ⟨by simp, fun d hd => ?_⟩
    have hd' : d < x.order := by simpa using hd
    rw [List.getD_eq_getElem _ _ (by simpa using hd'), List.getD_eq_getElem _ _ (by simpa using hd')]
    simpa using hk

/-- C220. `eval_at_indices(I)` for a matrix with one row per point: entry `k` (and, for a root with a rank axis, each of its
subscripts `e`) is the entry of the tensor at the `k`-th row. -/
theorem evalAtIndices_full [CommSemiring R] (x : TBT R) (h : WF x) (I : List (List Nat)) (hI : I ≠ [])
    (hb : ∀ row ∈ I, InBox x.shape row) :
    ∃ a y r, full x = .ok a ∧ evalAtIndices x I x.order = .ok y ∧ x.tree.root = .ok r ∧
      y.shape = I.length :: rankShape x r ∧
      ∀ k (hk : k < I.length) e, InBox (rankShape x r) e → y.get (k :: e) = a.get (I[k] ++ e) := by
  have hsl : x.shape.length = x.order := by simp [TBT.shape, TBT.order]
  obtain ⟨s, a, y, r, p1, p2, p3, p4, p5, p6⟩ := evalSelections x h ((List.range x.order).map (indexColumn I)) I.length
    (List.length_pos_of_ne_nil hI) (by simp) (by
    intro d hd
    rw [List.getD_eq_getElem _ _ (by simpa using hd)]
    simp only [List.getElem_map, List.getElem_range]
    refine ⟨by simp [indexColumn], ?_⟩
    intro i hi
    obtain ⟨row, hr, rfl⟩ := List.mem_map.1 hi
    exact ((inBox_iff_getD _ _).1 (hb row hr)).2 d (by rw [hsl]; exact hd))
  refine ⟨a, y, r, p3, ?_, p4, p5, ?_⟩
  · unfold evalAtIndices allSelections
    rw [if_pos rfl]
    rw [List.map_map] at p1
    show (subTensor x ((List.range x.order).map (fun d => some (indexColumn I d))) >>= evalDiag) = _
    have : ((List.range x.order).map (fun d => some (indexColumn I d))) = (List.range x.order).map (some ∘ indexColumn I) := rfl
    rw [this, p1]; exact p2
  · intro k hk e he
    rw [p6 k e hk he]
    congr 2
    have hrow := hb I[k] (List.getElem_mem hk)
    apply List.ext_getElem
    · simp [hrow.length_eq, hsl]
    · intro d d1 d2
      simp [indexColumn, hk, List.getElem?_eq_getElem d2]

/-- C220. `eval_at_indices(I)` for a matrix with one column per point, their number not being the order. -/
theorem evalAtIndices_columns [CommSemiring R] (x : TBT R) (h : WF x) (I : List (List Nat)) (n : Nat) (hn : 0 < n)
    (hne : n ≠ x.order) (hl : I.length = x.order) (hc : ∀ row ∈ I, row.length = n)
    (hb : ∀ k, k < n → InBox x.shape (I.map (fun row => row.getD k 0))) :
    ∃ a y r, full x = .ok a ∧ evalAtIndices x I n = .ok y ∧ x.tree.root = .ok r ∧ y.shape = n :: rankShape x r ∧
      ∀ k e, k < n → InBox (rankShape x r) e → y.get (k :: e) = a.get (I.map (fun row => row.getD k 0) ++ e) := by
  have hsl : x.shape.length = x.order := by simp [TBT.shape, TBT.order]
  obtain ⟨s, a, y, r, p1, p2, p3, p4, p5, p6⟩ := evalSelections x h I n hn hl (by
    intro d hd
    have hd' : d < I.length := by rw [hl]; exact hd
    rw [List.getD_eq_getElem _ _ hd']
    have hlen := hc _ (List.getElem_mem hd')
    refine ⟨hlen, ?_⟩
    intro i hi
    obtain ⟨k, hk, rfl⟩ := List.getElem_of_mem hi
    have := ((inBox_iff_getD _ _).1 (hb k (by rw [← hlen]; exact hk))).2 d (by rw [hsl]; exact hd)
    rw [List.getD_eq_getElem (l := List.map _ _) _ (by simpa using hd'), List.getElem_map, List.getD_eq_getElem _ _ hk] at this
    exact this)
  refine ⟨a, y, r, p3, ?_, p4, p5, p6⟩
  unfold evalAtIndices allSelections
  rw [if_neg hne, if_pos hl]
  show (subTensor x (I.map some) >>= evalDiag) = _
  rw [p1]; exact p2

/-- C220. A matrix which has neither one row nor one column per dimension is refused. -/
theorem evalAtIndices_refused [CommSemiring R] (x : TBT R) (I : List (List Nat)) (cols : Nat) (h1 : cols ≠ x.order)
    (h2 : I.length ≠ x.order) : evalAtIndices x I cols = .error .assertionError := by
  unfold evalAtIndices allSelections
  rw [if_neg h1, if_neg h2]; rfl

theorem fold_selections (I : List (List Nat)) (dims : List Nat) : ∀ (k : Nat) (tmp : List (Option (List Nat))),
    (∀ d ∈ dims, d < tmp.length) → dims.Nodup →
    ∃ t, ((dims.zipIdx k).foldlM (selectionStep I) tmp : Py _) = .ok t ∧ t.length = tmp.length ∧
      ∀ d, d < tmp.length → t[d]? = if d ∈ dims then some (some (indexColumn I (k + dims.idxOf d))) else tmp[d]? := by
  induction dims with
  | nil => intro k tmp _ _; exact ⟨tmp, rfl, rfl, fun d _ => by simp⟩
  | cons c dims ih =>
    intro k tmp hlt hnd
    obtain ⟨hc, hnd'⟩ := List.nodup_cons.1 hnd
    have hcl := hlt c (by simp)
    obtain ⟨t, t1, t2, t3⟩ := ih (k + 1) (tmp.set c (some (indexColumn I k))) (by
      intro d hd; simpa using hlt d (by simp [hd])) hnd'
    refine ⟨t, ?_, by simpa using t2, ?_⟩
    · rw [List.zipIdx_cons, List.foldlM_cons]
      show (selectionStep I tmp (c, k) >>= _) = _
      unfold selectionStep
      rw [if_pos hcl]
      exact t1
    · intro d hd
      rw [t3 d (by simpa using hd)]
      by_cases hdc : d = c
      · subst hdc
        rw [if_neg hc, if_pos (by simp)]
        simp [hd]
      · rw [List.getElem?_set_ne (Ne.symm hdc)]
        by_cases hm : d ∈ dims
        · rw [if_pos hm, if_pos (by simp [hm]), List.idxOf_cons_ne _ (Ne.symm hdc)]
          congr 3; omega
        · rw [if_neg hm, if_neg (by simp [hm, hdc])]

/-- The selection of the dimension `d`. -/
theorem dimsSelections_spec (order : Nat) (I : List (List Nat)) (dims : List Nat) (hlt : ∀ d ∈ dims, d < order)
    (hnd : dims.Nodup) :
    dimsSelections order I dims.length dims =
      .ok ((List.range order).map (fun d => if d ∈ dims then some (indexColumn I (dims.idxOf d)) else none)) := by
  obtain ⟨t, t1, t2, t3⟩ := fold_selections I dims 0 (List.replicate order none) (by simpa using hlt) hnd
  unfold dimsSelections
  rw [if_neg (by simp), t1]
  congr 1
  rw [List.length_replicate] at t2
  apply List.ext_getElem?
  intro d
  by_cases hd : d < order
  · rw [t3 d (by simpa using hd)]
    by_cases hm : d ∈ dims
    · simp [hm, hd]
    · simp [hm, hd]
  · rw [List.getElem?_eq_none (by omega), List.getElem?_eq_none (by simp; omega)]

/-- The points given in the dimensions `dims` are in the box. -/
def PointsOk (x : TBT R) (I : List (List Nat)) (dims : List Nat) : Prop :=
  I ≠ [] ∧ ∀ row ∈ I, List.Forall₂ (fun i d => i < x.shape.getD d 0) row dims

theorem selOk_dims (x : TBT R) (I : List (List Nat)) (dims : List Nat) (hok : PointsOk x I dims) :
    List.Forall₂ SelOk ((List.range x.order).map (fun d => if d ∈ dims then some (indexColumn I (dims.idxOf d)) else none))
      x.shape := by
  have hsl : x.shape.length = x.order := by simp [TBT.shape, TBT.order]
  rw [List.forall₂_iff_get]
  refine ⟨by simp [hsl], fun d h1 h2 l hl => ?_⟩
  simp only [List.get_eq_getElem, List.getElem_map, List.getElem_range] at hl
  split at hl
  · rename_i hm
    cases hl
    refine ⟨by simpa [indexColumn] using hok.1, ?_⟩
    intro i hi
    obtain ⟨row, hr, rfl⟩ := List.mem_map.1 hi
    have hf := hok.2 row hr
    have hp : dims.idxOf d < dims.length := List.idxOf_lt_length_iff.2 hm
    have := (List.forall₂_iff_get.1 hf).2 (dims.idxOf d) (by rw [hf.length_eq]; exact hp) hp
    simp only [List.get_eq_getElem, List.getElem_idxOf] at this
    rw [List.getD_eq_getElem _ _ h2] at this
    rw [List.getD_eq_getElem _ _ (by rw [hf.length_eq]; exact hp)]
    exact this
  · cases hl

/-- C221. `eval_at_indices(I, d)` for one dimension: the tensor restricted to the given subscripts in this dimension. -/
theorem evalAtIndices_dim [CommSemiring R] (diag : TBT R → List Nat → Py (Squeezed R)) (x : TBT R) (h : WF x) (l : List Nat) (d : Nat)
    (hd : d < x.order) (hl : l ≠ []) (hb : ∀ i ∈ l, i < x.shape.getD d 0) :
    ∃ s a z r, evalAtIndicesDims diag x (l.map (fun i => [i])) 1 [d] = .ok (.tree s) ∧ WF s ∧ full x = .ok a ∧ full s = .ok z ∧
      x.tree.root = .ok r ∧ s.shape = x.shape.set d l.length ∧ z.shape = s.shape ++ rankShape x r ∧
      ∀ t e, InBox s.shape t → InBox (rankShape x r) e → z.get (t ++ e) = a.get (t.set d (l.getD (t.getD d 0) 0) ++ e) := by
  have hsl : x.shape.length = x.order := by simp [TBT.shape, TBT.order]
  have hcol : indexColumn (l.map (fun i => [i])) 0 = l := by
    unfold indexColumn; rw [List.map_map]; conv_rhs => rw [← List.map_id l]
    rfl
  obtain ⟨s, a, z, r, p1, p2, p3, p4, p5, p6, p7, p8, p9, p10, p11⟩ := subTensor_entries x h _
    (selOk_dims x (l.map (fun i => [i])) [d] ⟨by simpa using hl, by
      intro row hr
      obtain ⟨i, hi, rfl⟩ := List.mem_map.1 hr
      exact .cons (hb i hi) .nil⟩)
  refine ⟨s, a, z, r, ?_, p2, p3, p4, p5, ?_, p10, ?_⟩
  · unfold evalAtIndicesDims
    have := dimsSelections_spec x.order (l.map (fun i => [i])) [d] (by simpa using hd) (by simp)
    simp only [List.length_singleton] at this ⊢
    simp only [this, bind, Except.bind]
    rw [p1]
    simp
  · rw [p8]
    apply List.ext_getElem
    · simp [hsl]
    · intro k k1 k2
      simp only [List.getElem_zipWith, List.getElem_map, List.getElem_range, List.getElem_set, List.mem_singleton]
      by_cases hk : k = d
      · subst hk
        rw [if_pos rfl, if_pos rfl]
        simp [FullTensor.pickSize, hcol]
      · rw [if_neg hk, if_neg (Ne.symm hk)]; rfl
  · intro t e ht he
    rw [p11 t e ht he]
    congr 2
    have htl : t.length = x.order := by rw [ht.length_eq, p8]; simp [hsl]
    apply List.ext_getElem
    · simp [htl]
    · intro k k1 k2
      have hkt : k < t.length := by simpa using k2
      simp only [List.getElem_zipWith, List.getElem_map, List.getElem_range, List.getElem_set, List.mem_singleton]
      by_cases hk : k = d
      · subst hk
        rw [if_pos rfl, if_pos rfl, List.getD_eq_getElem t _ hkt]
        simp [FullTensor.pick, hcol]
      · rw [if_neg hk, if_neg (Ne.symm hk)]; rfl

/-- The sub-tensor of one point given in several dimensions. -/
theorem point_core [CommSemiring R] (x : TBT R) (h : WF x) (row dims : List Nat)
    (hnd : dims.Nodup) (hlt : ∀ d ∈ dims, d < x.order) (hb : List.Forall₂ (fun i d => i < x.shape.getD d 0) row dims) :
    ∃ sel s a z r, dimsSelections x.order [row] dims.length dims = .ok sel ∧ subTensor x sel = .ok s ∧ WF s ∧ full x = .ok a ∧
      full s = .ok z ∧ x.tree.root = .ok r ∧ s.tree = x.tree ∧ rankShape s r = rankShape x r ∧
      a.shape = x.shape ++ rankShape x r ∧ z.shape = s.shape ++ rankShape x r ∧
      (∀ d, d < x.order → s.shape.getD d 0 = if d ∈ dims then 1 else x.shape.getD d 0) ∧
      ∀ t e, InBox x.shape t → List.Forall₂ (fun i d => t.getD d 0 = i) row dims → InBox (rankShape x r) e →
        ∃ t', InBox s.shape t' ∧ entriesOff dims t' = entriesOff dims t ∧ z.get (t' ++ e) = a.get (t ++ e) := by
  have hsl : x.shape.length = x.order := by simp [TBT.shape, TBT.order]
  obtain ⟨s, a, z, r, p1, p2, p3, p4, p5, p6, p7, p8, p9, p10, p11⟩ := subTensor_entries x h _
    (selOk_dims x [row] dims ⟨by simp, by
      intro row' hr
      rw [List.mem_singleton] at hr; subst hr
      exact hb⟩)
  have hgd : ∀ d, d < x.order → s.shape.getD d 0 = if d ∈ dims then 1 else x.shape.getD d 0 := by
    intro d hd
    rw [p8, List.getD_eq_getElem _ _ (by simpa [hsl] using hd), List.getD_eq_getElem _ _ (by rw [hsl]; exact hd)]
    simp only [List.getElem_zipWith, List.getElem_map, List.getElem_range]
    by_cases hm : d ∈ dims
    · rw [if_pos hm, if_pos hm]; rfl
    · rw [if_neg hm, if_neg hm]; rfl
  have hssl : s.shape.length = x.order := by simp only [TBT.shape, List.length_map]; unfold TBT.order; rw [p6]
  refine ⟨_, s, a, z, r, dimsSelections_spec x.order [row] dims hlt hnd, p1, p2, p3, p4, p5, p6, p9, p7, p10, hgd, ?_⟩
  intro t e ht hrow he
  have htl : t.length = x.order := by rw [ht.length_eq, hsl]
  have hgt : ∀ d, d < x.order → ((List.range x.order).map (fun d => if d ∈ dims then 0 else t.getD d 0)).getD d 0 =
      if d ∈ dims then 0 else t.getD d 0 := by
    intro d hd
    rw [List.getD_eq_getElem _ _ (by simpa using hd)]
    simp only [List.getElem_map, List.getElem_range]
  have hin : InBox s.shape ((List.range x.order).map (fun d => if d ∈ dims then 0 else t.getD d 0)) := by
    rw [inBox_iff_getD]
    refine ⟨by simp [hssl], fun d hd => ?_⟩
    rw [hssl] at hd
    rw [hgt d hd, hgd d hd]
    by_cases hm : d ∈ dims
    · rw [if_pos hm, if_pos hm]; exact Nat.one_pos
    · rw [if_neg hm, if_neg hm]
      exact ((inBox_iff_getD _ _).1 ht).2 d (by rw [hsl]; exact hd)
  refine ⟨_, hin, ?_, ?_⟩
  · rw [FullTensor.entriesOff_eq, FullTensor.entriesOff_eq]
    simp only [List.length_map, List.length_range, htl]
    apply List.map_congr_left
    intro d hd
    obtain ⟨d1, d2⟩ := mem_setdiffRange.1 hd
    rw [hgt d d1, if_neg d2]
  · rw [p11 _ _ hin he]
    congr 2
    apply List.ext_getElem
    · simp [htl]
    · intro d d1 d2
      simp only [List.getElem_zipWith, List.getElem_map, List.getElem_range]
      by_cases hm : d ∈ dims
      · rw [if_pos hm, if_pos hm]
        have hp : dims.idxOf d < dims.length := List.idxOf_lt_length_iff.2 hm
        have := (List.forall₂_iff_get.1 hrow).2 (dims.idxOf d) (by rw [hrow.length_eq]; exact hp) hp
        simp only [List.get_eq_getElem, List.getElem_idxOf] at this
        rw [List.getD_eq_getElem _ _ d2] at this
        have hr : dims.idxOf d < row.length := by rw [hrow.length_eq]; exact hp
        simp [FullTensor.pick, indexColumn, this, List.getElem?_eq_getElem hr]
      · rw [if_neg hm, if_neg hm]
        simp [FullTensor.pick, List.getElem?_eq_getElem d2]

theorem onesDims_mem {x s : TBT R} {dims : List Nat} (hso : s.shape.length = x.order) (hlt : ∀ d ∈ dims, d < x.order)
    (hgd : ∀ d, d < x.order → s.shape.getD d 0 = if d ∈ dims then 1 else x.shape.getD d 0)
    (hne : ∀ d, d < x.order → d ∉ dims → x.shape.getD d 0 ≠ 1) (k : Nat) : k ∈ onesDims s.shape ↔ k ∈ dims := by
  rw [mem_onesDims, hso]
  constructor
  · rintro ⟨h1, h2⟩
    rw [hgd k h1] at h2
    by_contra hm
    rw [if_neg hm] at h2
    exact hne k h1 hm h2
  · intro hk
    refine ⟨hlt k hk, ?_⟩
    rw [hgd k (hlt k hk), if_pos hk]

/-- C221. `eval_at_indices(row, dims)` for one point and several dimensions, the other dimensions being at least two and of sizes
different from one: the tensor in the other dimensions. -/
theorem evalAtIndices_point_partial [CommSemiring R] (diag : TBT R → List Nat → Py (Squeezed R)) (x : TBT R) (h : WF x) (row dims : List Nat)
    (hnd : dims.Nodup) (hlt : ∀ d ∈ dims, d < x.order) (hb : List.Forall₂ (fun i d => i < x.shape.getD d 0) row dims)
    (h2 : 2 ≤ dims.length) (hr2 : 2 ≤ (FullTensor.setdiffRange x.order dims).length)
    (hne : ∀ d, d < x.order → d ∉ dims → x.shape.getD d 0 ≠ 1) :
    ∃ z a b r, evalAtIndicesDims diag x [row] dims.length dims = .ok (.tree z) ∧ WF z ∧ full x = .ok a ∧ full z = .ok b ∧
      x.tree.root = .ok r ∧ z.shape = entriesOff dims x.shape ∧ b.shape = z.shape ++ rankShape x r ∧
      ∀ t e, InBox x.shape t → List.Forall₂ (fun i d => t.getD d 0 = i) row dims → InBox (rankShape x r) e →
        b.get (entriesOff dims t ++ e) = a.get (t ++ e) := by
  obtain ⟨sel, s, a, z0, r, p0, p1, p2, p3, p4, p5, p6, p7, p8, p9, hgd, p11⟩ := point_core x h row dims hnd hlt hb
  have hsl : x.shape.length = x.order := by simp [TBT.shape, TBT.order]
  have hso : s.order = x.order := by unfold TBT.order; rw [p6]
  have hssl : s.shape.length = x.order := by simp only [TBT.shape, List.length_map]; unfold TBT.order; rw [p6]
  have hm := onesDims_mem (x := x) (s := s) hssl hlt hgd hne
  have hoff : ∀ v, entriesOff (onesDims s.shape) v = entriesOff dims v := entriesOff_congr hm
  obtain ⟨z, a', b, r', g1, g2, g3, g4, g5, g6, g7, g8, g9, _⟩ := squeezeTB_full s p2 (onesDims s.shape)
    (fun d hd => by rw [hso]; exact hlt d ((hm d).1 hd)) (fun d hd => (mem_onesDims.1 hd).2)
    (by rw [hso, FullTensor.setdiffRange_congr hm]; exact hr2)
  rw [p4] at g2; cases g2
  rw [p6, p5] at g4; cases g4
  refine ⟨z, a, b, r, ?_, g5, p3, g3, p5, ?_, by rw [g8, p7], ?_⟩
  · unfold evalAtIndicesDims
    simp only [p0, p1, bind, Except.bind]
    rw [if_pos ⟨by omega, rfl⟩]
    exact g1
  · rw [g6, hoff, FullTensor.entriesOff_eq, FullTensor.entriesOff_eq, hssl, hsl]
    apply List.map_congr_left
    intro d hd
    obtain ⟨d1, d2⟩ := mem_setdiffRange.1 hd
    rw [hgd d d1, if_neg d2]
  · intro t e ht hrow he
    obtain ⟨t', t1, t2, t3⟩ := p11 t e ht hrow he
    rw [← t2, ← hoff, g9 t' e t1 (by rw [p7]; exact he)]
    exact t3

/-- C221. The same with one other dimension: the result is a tree with one node, whose tensor is the fibre. -/
theorem evalAtIndices_fibre_partial [CommSemiring R] (diag : TBT R → List Nat → Py (Squeezed R)) (x : TBT R) (h : WF x) (row dims : List Nat)
    (hnd : dims.Nodup) (hlt : ∀ d ∈ dims, d < x.order) (hb : List.Forall₂ (fun i d => i < x.shape.getD d 0) row dims)
    (h2 : 2 ≤ dims.length) (hr1 : (FullTensor.setdiffRange x.order dims).length = 1)
    (hne : ∀ d, d < x.order → d ∉ dims → x.shape.getD d 0 ≠ 1) :
    ∃ z a r, evalAtIndicesDims diag x [row] dims.length dims = .ok (.tree z) ∧ z.tree.n = 1 ∧ full x = .ok a ∧
      x.tree.root = .ok r ∧ z.shape = entriesOff dims x.shape ∧ (z.tensors 1).shape = z.shape ++ rankShape x r ∧
      ∀ t e, InBox x.shape t → List.Forall₂ (fun i d => t.getD d 0 = i) row dims → InBox (rankShape x r) e →
        (z.tensors 1).get (entriesOff dims t ++ e) = a.get (t ++ e) := by
  obtain ⟨sel, s, a, z0, r, p0, p1, p2, p3, p4, p5, p6, p7, p8, p9, hgd, p11⟩ := point_core x h row dims hnd hlt hb
  have hsl : x.shape.length = x.order := by simp [TBT.shape, TBT.order]
  have hso : s.order = x.order := by unfold TBT.order; rw [p6]
  have hssl : s.shape.length = x.order := by simp only [TBT.shape, List.length_map]; unfold TBT.order; rw [p6]
  have hm := onesDims_mem (x := x) (s := s) hssl hlt hgd hne
  have hoff : ∀ v, entriesOff (onesDims s.shape) v = entriesOff dims v := entriesOff_congr hm
  obtain ⟨z, a', b, r', g1, g2, g3, g4, _, g6, _, g8, _, g10, g11, _⟩ := squeezeTB_one s p2 (onesDims s.shape)
    (fun d hd => by rw [hso]; exact hlt d ((hm d).1 hd)) (fun d hd => (mem_onesDims.1 hd).2)
    (by rw [hso, FullTensor.setdiffRange_congr hm]; exact hr1)
  rw [p4] at g2; cases g2
  rw [p6, p5] at g4; cases g4
  refine ⟨z, a, r, ?_, g6, p3, p5, ?_, by rw [g10, p7], ?_⟩
  · unfold evalAtIndicesDims
    simp only [p0, p1, bind, Except.bind]
    rw [if_pos ⟨by omega, rfl⟩]
    exact g1
  · rw [g8, hoff, FullTensor.entriesOff_eq, FullTensor.entriesOff_eq, hssl, hsl]
    apply List.map_congr_left
    intro d hd
    obtain ⟨d1, d2⟩ := mem_setdiffRange.1 hd
    rw [hgd d d1, if_neg d2]
  · intro t e ht hrow he
    obtain ⟨t', t1, t2, t3⟩ := p11 t e ht hrow he
    rw [← t2, ← hoff, (g11 t' e t1 (by rw [p7]; exact he)).1]
    exact t3

/-- C221. `eval_at_indices(row, dims)` for one point and all the dimensions, in any order: the entry, as an array of order zero. -/
theorem evalAtIndices_entry [CommSemiring R] (diag : TBT R → List Nat → Py (Squeezed R)) (x : TBT R) (h : WF x) (row dims : List Nat)
    (hnd : dims.Nodup) (hlt : ∀ d ∈ dims, d < x.order) (hb : List.Forall₂ (fun i d => i < x.shape.getD d 0) row dims)
    (h2 : 2 ≤ dims.length) (hall : ∀ d, d < x.order → d ∈ dims) (hrk : ∀ r, x.tree.root = .ok r → rankShape x r = []) :
    ∃ a b, evalAtIndicesDims diag x [row] dims.length dims = .ok (.dense b) ∧ full x = .ok a ∧ b.shape = [] ∧
      ∀ t, InBox x.shape t → List.Forall₂ (fun i d => t.getD d 0 = i) row dims → b.get [] = a.get t := by
  obtain ⟨sel, s, a, z0, r, p0, p1, p2, p3, p4, p5, p6, p7, p8, p9, hgd, p11⟩ := point_core x h row dims hnd hlt hb
  have hsl : x.shape.length = x.order := by simp [TBT.shape, TBT.order]
  have hso : s.order = x.order := by unfold TBT.order; rw [p6]
  have hssl : s.shape.length = x.order := by simp only [TBT.shape, List.length_map]; unfold TBT.order; rw [p6]
  have hm := onesDims_mem (x := x) (s := s) hssl hlt hgd (fun d hd hn => (hn (hall d hd)).elim)
  have hoff : ∀ v, entriesOff (onesDims s.shape) v = entriesOff dims v := entriesOff_congr hm
  have hsd : FullTensor.setdiffRange x.order dims = [] := by
    rw [List.eq_nil_iff_forall_not_mem]
    intro d hd
    obtain ⟨d1, d2⟩ := mem_setdiffRange.1 hd
    exact d2 (hall d d1)
  obtain ⟨z0', b, g1, g2, g3, g4⟩ := squeezeTB_all s p2 (onesDims s.shape)
    (by rw [hso, FullTensor.setdiffRange_congr hm]; exact hsd)
  rw [p4] at g2; cases g2
  have hr := hrk r p5
  rw [hr, List.append_nil] at p9
  have hnil : ∀ v : List Nat, v.length = x.order → entriesOff dims v = [] := by
    intro v hv
    rw [FullTensor.entriesOff_eq, hv, hsd]; rfl
  rw [p9] at g3 g4
  refine ⟨a, b, ?_, p3, by rw [g3, hoff, hnil _ hssl], ?_⟩
  · unfold evalAtIndicesDims
    simp only [p0, p1, bind, Except.bind]
    rw [if_pos ⟨by omega, rfl⟩]
    exact g1
  · intro t ht hrow
    obtain ⟨t', t1, t2, t3⟩ := p11 t [] ht hrow (by rw [hr]; exact .nil)
    have := g4 t' t1
    rw [hoff, hnil _ (by rw [t1.length_eq, hssl])] at this
    rw [this]
    simpa using t3

/-- The shape of the result. -/
def resShape (q : Py (Squeezed R)) : Option (List Nat) := match q with
  | .ok (.tree z) => some z.shape
  | .ok (.dense b) => some b.shape
  | _ => none

/-- For a tensor of shape [1, 2, 1, 3], the point (1, 2) of the dimensions 1 and 3: the code drops the two other dimensions, which
are of size one. -/
theorem evalAtIndices_point_wrong (diag : TBT Int → List Nat → Py (Squeezed Int)) :
    WF exS ∧ exS.shape = [1, 2, 1, 3] ∧ entriesOff [1, 3] exS.shape = [1, 1] ∧
    resShape (evalAtIndicesDims diag exS [[1, 2]] 2 [1, 3]) = some [] := by
  refine ⟨exS_wf, by decide +kernel, by decide +kernel, ?_⟩
  show resShape (evalAtIndicesDims (fun _ _ => .error .notImplemented) exS [[1, 2]] 2 [1, 3]) = _
  decide +kernel

/-- Non-vacuity of `evalAtIndices_point_partial`, `evalAtIndices_fibre_partial` and `evalAtIndices_entry`. -/
example : WF exS ∧ [2, 0].Nodup ∧ (∀ d ∈ [2, 0], d < exS.order) ∧ (FullTensor.setdiffRange exS.order [2, 0]).length = 2 ∧
    (∀ d, d < exS.order → d ∉ [2, 0] → exS.shape.getD d 0 ≠ 1) ∧ WF exDiag ∧ exDiag.shape = [2, 2, 2] ∧
    (FullTensor.setdiffRange exDiag.order [2, 0]).length = 1 ∧ exDiag.tree.root = .ok 1 ∧ rankShape exDiag 1 = [] :=
  ⟨exS_wf, by decide, by decide +kernel, by decide +kernel, by decide +kernel, exDiag_wf, by decide +kernel, by decide +kernel,
    by decide +kernel, by decide +kernel⟩

/-- Out of range subscripts are refused. -/
example : (match evalAtIndices exDiag [[0, 2, 0]] 3 with | .ok _ => none | .error e => some e) = some .indexError := by
  decide +kernel

/-- A square matrix: the rows are the points. -/
example : (match evalAtIndices exDiag [[0, 1, 0], [1, 1, 0], [0, 0, 1]] 3 with
      | .ok y => some (y.shape, y.get [0], y.get [1], y.get [2]) | .error _ => none) =
    (match full exDiag with | .ok a => some ([3], a.get [0, 1, 0], a.get [1, 1, 0], a.get [0, 0, 1]) | .error _ => none) := by
  decide +kernel

/-- Non-vacuity of `evalAtIndices_full`: a repeated point. -/
example : WF exDiag ∧ ∀ row ∈ [[0, 1, 0], [1, 1, 1], [0, 1, 0]], InBox exDiag.shape row :=
  ⟨exDiag_wf, by
    intro row hr
    rw [inBox_iff_getD]
    revert hr row
    decide +kernel⟩

end Verif.TreeBased
