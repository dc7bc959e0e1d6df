import Verif.Model.ChangeRoot
import Verif.Props.TreeSurgery
import Verif.Props.TreeModes
import Verif.Lemmas.Shaped
import Verif.Lemmas.Gram
import Verif.Lemmas.Path
import Verif.Props.TreeOrth
import Verif.Props.FullTensor

/-!
# Change of the root of a tree-based tensor: C200, C201
-/

namespace Verif.TreeBased

open Verif.Arr Verif.DimTree Finset

variable {R : Type}

/-! ### lists of labelled axes -/

/-- The tuple for the labels `L` of the tuple `t` for the labels `L'`. -/
def relabel (L L' t : List Nat) : List Nat := L.map (fun c => t.getD (L'.idxOf c) 0)

theorem axesOf_eq {L L' : List Nat} (hn : L.Nodup) (h : ∀ c ∈ L', c ∈ L) : axesOf L L' = L'.map L.idxOf := by
  unfold axesOf
  induction L' with
  | nil => rfl
  | cons c L' ih =>
    rw [List.flatMap_cons, List.map_cons, ih (fun c' hc' => h c' (by simp [hc']))]
    have hc : c ∈ L := h c (by simp)
    have hlt := List.idxOf_lt_length_of_mem hc
    have : (List.range L.length).filter (fun i => L.getD i 0 == c) = [L.idxOf c] := by
      have h1 : ∀ i ∈ List.range L.length, (L.getD i 0 == c) = (i == L.idxOf c) := by
        intro i hi
        rw [List.mem_range] at hi
        rw [List.getD_eq_getElem _ _ hi, Bool.eq_iff_iff, beq_iff_eq, beq_iff_eq]
        constructor
        · intro h
          rw [← h, hn.idxOf_getElem i hi]
        · intro h
          subst h
          exact List.getElem_idxOf hlt
      rw [List.filter_congr h1, List.filter_beq, List.count_eq_one_of_mem List.nodup_range (List.mem_range.2 hlt)]
      rfl
    rw [this]
    rfl

theorem axesOf_perm {L L' : List Nat} (hn : L.Nodup) (h : L'.Perm L) : (axesOf L L').Perm (List.range L.length) := by
  rw [axesOf_eq hn (fun c hc => h.mem_iff.1 hc)]
  refine (h.map _).trans ?_
  have : L.map L.idxOf = List.range L.length := by
    apply List.ext_getElem (by simp)
    intro k h1 h2
    rw [List.getElem_map, List.getElem_range, hn.idxOf_getElem k (by simpa using h1)]
  rw [this]

theorem transpose_labels {L L' : List Nat} (hn : L.Nodup) (h : L'.Perm L) {sz : Nat → Nat} {a : Arr R} (ha : a.shape = L.map sz) :
    ∃ b, FullTensor.transposeT a (axesOf L L') = .ok b ∧ b.shape = L'.map sz ∧ ∀ t, b.get t = a.get (relabel L L' t) := by
  have hp := axesOf_perm hn h
  have ho : a.order = L.length := by unfold Arr.order; rw [ha]; simp
  refine ⟨a.transpose (axesOf L L'), ?_, ?_, ?_⟩
  · unfold FullTensor.transposeT
    rw [if_pos (by rw [ho]; exact hp)]
  · show applyPerm _ a.shape = _
    rw [ha, axesOf_eq hn (fun c hc => h.mem_iff.1 hc)]
    unfold applyPerm
    rw [List.map_map]
    apply List.map_congr_left
    intro c hc
    have hlt := List.idxOf_lt_length_of_mem (h.mem_iff.1 hc)
    simp only [Function.comp]
    rw [List.getD_eq_getElem _ _ (by simpa using hlt), List.getElem_map, List.getElem_idxOf hlt]
  · intro t
    show a.get (applyPerm (invPerm (axesOf L L')) t) = _
    congr 1
    have hl := perm_len hp
    apply ext_getD (by simp [relabel, hl])
    intro k hk
    simp only [length_applyPerm, length_invPerm, hl] at hk
    rw [getD_applyPerm _ _ _ (by rw [length_invPerm]; omega), getD_invPerm _ _ (by omega)]
    unfold relabel
    rw [List.getD_eq_getElem (L.map _) _ (by simpa using hk), List.getElem_map]
    congr 1
    have hm : L[k] ∈ L' := h.mem_iff.2 (List.getElem_mem hk)
    have hlt := List.idxOf_lt_length_of_mem hm
    rw [axesOf_eq hn (fun c hc => h.mem_iff.1 hc)]
    have hnd : (L'.map L.idxOf).Nodup := by
      rw [← axesOf_eq hn (fun c hc => h.mem_iff.1 hc)]; exact perm_nodup hp
    have : (L'.map L.idxOf)[L'.idxOf L[k]]'(by simpa using hlt) = k := by
      rw [List.getElem_map, List.getElem_idxOf hlt, hn.idxOf_getElem k hk]
    conv_lhs => rw [← this]
    rw [hnd.idxOf_getElem]

theorem relabel_self {L t : List Nat} (hn : L.Nodup) (ht : t.length = L.length) : relabel L L t = t := by
  unfold relabel
  apply ext_getD (by simp [ht])
  intro k hk
  have hk' : k < L.length := by simpa using hk
  rw [List.getD_eq_getElem (L.map _) _ (by simpa using hk'), List.getElem_map, hn.idxOf_getElem k hk']

theorem relabel_relabel {L L' t : List Nat} (hn' : L'.Nodup) (h : L'.Perm L) (ht : t.length = L'.length) :
    relabel L' L (relabel L L' t) = t := by
  unfold relabel
  apply ext_getD (by simp [ht])
  intro k hk
  have hk' : k < L'.length := by simpa using hk
  have hm : L'[k] ∈ L := h.mem_iff.1 (List.getElem_mem hk')
  have hlt := List.idxOf_lt_length_of_mem hm
  rw [List.getD_eq_getElem (L'.map _) _ (by simpa using hk'), List.getElem_map, List.getD_eq_getElem _ _ (by simpa using hlt),
    List.getElem_map, List.getElem_idxOf hlt, hn'.idxOf_getElem k hk']

theorem inBox_relabel {L L' : List Nat} (h : L'.Perm L) (sz : Nat → Nat) {t : List Nat} (ht : InBox (L'.map sz) t) :
    InBox (L.map sz) (relabel L L' t) := by
  rw [inBox_iff_getD] at ht ⊢
  refine ⟨by simp [relabel], fun k hk => ?_⟩
  have hk' : k < L.length := by simpa [relabel] using hk
  have hm : L[k] ∈ L' := h.mem_iff.2 (List.getElem_mem hk')
  have hlt := List.idxOf_lt_length_of_mem hm
  have := ht.2 (L'.idxOf L[k]) (by simpa using hlt)
  unfold relabel
  rw [List.getD_eq_getElem (L.map _) _ (by simpa using hk'), List.getElem_map, List.getD_eq_getElem (L.map sz) _ (by simpa using hk'),
    List.getElem_map]
  rwa [List.getD_eq_getElem (L'.map sz) _ (by simpa using hlt), List.getElem_map, List.getElem_idxOf hlt] at this

theorem prod_labels [CommSemiring R] (F : Nat → Nat → R) {L t : List Nat} (hn : L.Nodup) (ht : t.length = L.length) :
    (List.zipWith F L t).prod = (L.map (fun c => F c (t.getD (L.idxOf c) 0))).prod := by
  congr 1
  apply List.ext_getElem (by simp [ht])
  intro k h1 h2
  have hk : k < L.length := by simpa using h2
  rw [List.getElem_zipWith, List.getElem_map, hn.idxOf_getElem k hk, List.getD_eq_getElem _ _ (by omega)]

/-- The contraction of a tensor with one vector per axis. -/
def vSum [CommSemiring R] (L : List Nat) (sz : Nat → Nat) (F : Nat → Nat → R) (a : Arr R) : R :=
  sumBox (L.map sz) (fun t => (List.zipWith F L t).prod * a.get t)

/-- The contraction does not depend on the order of the axes. -/
theorem vSum_perm [CommSemiring R] {L L' : List Nat} (hn : L.Nodup) (h : L'.Perm L) (sz : Nat → Nat) (F : Nat → Nat → R) {a b : Arr R}
    (hb : ∀ t, InBox (L'.map sz) t → b.get t = a.get (relabel L L' t)) : vSum L' sz F b = vSum L sz F a := by
  have hn' : L'.Nodup := h.nodup_iff.2 hn
  unfold vSum
  have key : sumBox (L'.map sz) (fun t => (fun s => (List.zipWith F L s).prod * a.get s) (relabel L L' t)) =
      sumBox (L.map sz) (fun s => (List.zipWith F L s).prod * a.get s) := by
    refine sumBox_bij (relabel L L') (relabel L' L) ?_ ?_ ?_ ?_ (fun s => (List.zipWith F L s).prod * a.get s)
    · intro t ht; exact inBox_relabel h sz ht
    · intro t ht; exact inBox_relabel h.symm sz ht
    · intro t ht; exact relabel_relabel hn' h (by simpa using ht.length_eq)
    · intro t ht; exact relabel_relabel hn h.symm (by simpa using ht.length_eq)
  rw [← key]
  apply sumBox_congr
  intro t ht
  have htl : t.length = L'.length := by simpa using ht.length_eq
  rw [hb t ht]
  congr 1
  rw [prod_labels F hn' htl, prod_labels F hn (by simp [relabel]), (h.map _).prod_eq]
  congr 1
  apply List.map_congr_left
  intro c hc
  have hlt := List.idxOf_lt_length_of_mem hc
  unfold relabel
  rw [List.getD_eq_getElem (L.map _) _ (by simpa using hlt), List.getElem_map, List.getElem_idxOf hlt]

theorem vSum_congr [CommSemiring R] {L : List Nat} {sz : Nat → Nat} {F G : Nat → Nat → R} (a : Arr R)
    (h : ∀ c ∈ L, ∀ s, s < sz c → F c s = G c s) : vSum L sz F a = vSum L sz G a := by
  unfold vSum
  apply sumBox_congr
  intro t ht
  congr 2
  have htl : t.length = L.length := by simpa using ht.length_eq
  apply List.ext_getElem (by simp)
  intro k h1 h2
  have hk : k < L.length := by simp at h1; omega
  rw [List.getElem_zipWith, List.getElem_zipWith]
  refine h _ (List.getElem_mem hk) _ ?_
  have := (inBox_iff_getD _ _).1 ht
  have := this.2 k (by simpa [htl] using hk)
  rwa [List.getD_eq_getElem _ _ (by omega), List.getD_eq_getElem (L.map sz) _ (by simpa using hk), List.getElem_map] at this

/-- The last axis apart. -/
theorem vSum_last [CommSemiring R] (L : List Nat) (q : Nat) (sz : Nat → Nat) (F : Nat → Nat → R) (a : Arr R) :
    vSum (L ++ [q]) sz F a = ∑ k ∈ range (sz q), sumBox (L.map sz) (fun t => (List.zipWith F L t).prod * a.get (t ++ [k])) * F q k := by
  unfold vSum
  rw [List.map_append, sumBox_append, List.map_singleton, sumBox_comm, sumBox_singleton]
  refine sum_congr rfl (fun k _ => ?_)
  rw [← sumBox_mul_right]
  apply sumBox_congr
  intro t ht
  rw [List.zipWith_append (by simpa using ht.length_eq.symm), List.prod_append]
  simp only [List.zipWith_cons_cons, List.zipWith_nil_right, List.prod_cons, List.prod_nil, mul_one]
  ring

/-! ### neighbours -/

theorem edge_asymm {T : DTree} (hV : Valid T) {a b : Nat} (h1 : Edge T a b) (h2 : Edge T b a) : False := by
  obtain ⟨k, hk⟩ := exists_level hV h1.1
  have := HasLevel.unique hV.unique_parent hk (.child (.child hk h1) h2)
  omega

theorem edge_irrefl {T : DTree} (hV : Valid T) {a : Nat} (h : Edge T a a) : False := edge_asymm hV h h

theorem mem_parentList {T : DTree} (hV : Valid T) {i : Nat} (hi : IsNode T i) (j : Nat) : j ∈ parentList T i ↔ Edge T j i := by
  unfold parentList
  constructor
  · intro h
    split at h
    · simp at h
    · rename_i h0
      rw [List.mem_singleton] at h
      rw [h]
      exact (parent_eq_iff hV hi h0).1 rfl
  · intro h
    have := edge_parent hV h
    have h1 := h.1.1
    rw [if_neg (by omega), this]; simp

theorem parentList_of {T : DTree} (hV : Valid T) {q i : Nat} (h : Edge T q i) : parentList T i = [q] := by
  unfold parentList
  have := edge_parent hV h
  have h1 := h.1.1
  rw [if_neg (by omega), this]

theorem parentList_root {T : DTree} {i : Nat} (h : IsRoot T i) : parentList T i = [] := by
  unfold parentList
  rw [if_pos ((parent_eq_zero h.1).2 h)]

theorem mem_nbrs {T : DTree} (hV : Valid T) {i : Nat} (hi : IsNode T i) (j : Nat) : j ∈ nbrs T i ↔ Edge T i j ∨ Edge T j i := by
  unfold nbrs
  rw [List.mem_append, mem_children i j hi, mem_parentList hV hi]

theorem nodup_nbrs {T : DTree} (hV : Valid T) {i : Nat} (hi : IsNode T i) : (nbrs T i).Nodup := by
  unfold nbrs
  rw [List.nodup_append]
  refine ⟨nodup_children i, ?_, ?_⟩
  · unfold parentList; split <;> simp
  · intro a ha b hb he
    subst he
    exact edge_asymm hV ((mem_children i a hi).1 ha) ((mem_parentList hV hi a).1 hb)

/-- The labels of the axes of the tensor of a node: the neighbours of the node; for a leaf, the node that will carry its dimension
and its parent. -/
def axesLab (T : DTree) (i : Nat) : List Nat := if T.isLeaf i then (T.n + 1) :: parentList T i else nbrs T i

open Classical in
/-- The size of the axis of a node for a neighbour. -/
noncomputable def axisSize (x : TBT R) (i c : Nat) : Nat :=
  if Edge x.tree i c then childSize x c else if c = x.tree.n + 1 then x.leafSize i else x.lastDim i

theorem axesLab_leaf {T : DTree} {i : Nat} (h : i ∈ T.dim2ind) : axesLab T i = (T.n + 1) :: parentList T i := by
  unfold axesLab; rw [if_pos ((isLeaf_mem _ _).2 h)]

theorem axesLab_node {T : DTree} {i : Nat} (h : i ∉ T.dim2ind) : axesLab T i = nbrs T i := by
  unfold axesLab; rw [if_neg (fun h' => h ((isLeaf_mem _ _).1 h'))]

theorem nodup_axesLab {T : DTree} (hV : Valid T) {i : Nat} (hi : IsNode T i) : (axesLab T i).Nodup := by
  by_cases hl : i ∈ T.dim2ind
  · rw [axesLab_leaf hl, List.nodup_cons]
    refine ⟨?_, ?_⟩
    · intro h
      have := ((mem_parentList hV hi _).1 h).1.2
      omega
    · unfold parentList; split <;> simp
  · rw [axesLab_node hl]
    exact nodup_nbrs hV hi

theorem axisSize_child {x : TBT R} {i c : Nat} (h : Edge x.tree i c) : axisSize x i c = childSize x c := by
  unfold axisSize; rw [if_pos h]

theorem axisSize_parent {x : TBT R} (hV : Valid x.tree) {i q : Nat} (h : Edge x.tree q i) : axisSize x i q = x.lastDim i := by
  unfold axisSize
  rw [if_neg (fun h' => edge_asymm hV h h'), if_neg (by have := h.1.2; omega)]

theorem axisSize_new {x : TBT R} {i : Nat} : axisSize x i (x.tree.n + 1) = x.leafSize i := by
  unfold axisSize
  rw [if_neg (fun h => by have := h.2.1.2; omega), if_pos rfl]

/-- The shape of the tensor of a node in terms of its neighbours. -/
theorem shape_axesLab {x : TBT R} (hx : WF x) {r : Nat} (hr : IsRoot x.tree r) (hr0 : rankShape x r = []) {i : Nat}
    (hi : IsNode x.tree i) (ha : x.active i = true) : (x.tensors i).shape = (axesLab x.tree i).map (axisSize x i) := by
  have hs := hx.shaped hr
  by_cases hl : i ∈ x.tree.dim2ind
  · have hnr : ¬ IsRoot x.tree i := fun h => hx.root_internal h hl
    rw [axesLab_leaf hl, parentList_of hx.valid (leaf_has_parent hx hl), hs.leaf i hl ha, List.map_cons, List.map_singleton, axisSize_new,
      axisSize_parent hx.valid (leaf_has_parent hx hl)]
  · rw [axesLab_node hl, (hx.node i hi hl).2.1]
    unfold nbrs
    rw [List.map_append]
    congr 1
    · apply List.map_congr_left
      intro c hc
      rw [axisSize_child ((mem_children i c hi).1 hc)]
    · by_cases hir : IsRoot x.tree i
      · rw [parentList_root hir, root_unique hx.valid hir hr, hr0]; rfl
      · have hex : ∃ p, Edge x.tree p i := by
          by_contra hno
          exact hir ⟨hi, fun p hp => hno ⟨p, hp⟩⟩
        obtain ⟨p, he⟩ := hex
        rw [parentList_of hx.valid he, List.map_singleton, axisSize_parent hx.valid he]
        exact hs.rankShape_node hi hl hir

/-! ### the tensors after the change of root -/

/-- What `change_root` does on the tree and on the tensors. -/
structure Rerooted (x x' : TBT R) (r nod : Nat) : Prop where
  wf : WF x
  root : IsRoot x.tree r
  rank : rankShape x r = []
  node : IsNode x.tree nod
  ne : nod ≠ r
  act : x.active nod = true
  valid' : Valid x'.tree
  root' : IsRoot x'.tree nod
  edges : ∀ a b, IsNode x.tree a → IsNode x.tree b → (Edge x'.tree a b ↔
    (Edge x.tree a b ∧ ¬ AncSelf x.tree b nod) ∨ (Edge x.tree b a ∧ AncSelf x.tree a nod))
  inner : nod ∉ x.tree.dim2ind → x'.tree.n = x.tree.n ∧ x'.tree.dim2ind = x.tree.dim2ind
  outer : nod ∈ x.tree.dim2ind → x'.tree.n = x.tree.n + 1 ∧ (∀ a, Edge x'.tree a (x.tree.n + 1) ↔ a = nod) ∧
    (∀ a, ¬ Edge x'.tree (x.tree.n + 1) a) ∧ x'.tree.dim2ind = x.tree.dim2ind.map (fun a => if a = nod then x.tree.n + 1 else a) ∧
    (x'.tensors (x.tree.n + 1)).shape.prod = 0
  leaf : ∀ c ∈ x.tree.dim2ind, c ≠ nod → x'.tensors c = x.tensors c
  tens : ∀ i, IsNode x.tree i → (i ∉ x.tree.dim2ind ∨ i = nod) →
    (x'.tensors i).shape = (nbrs x'.tree i).map (axisSize x i) ∧
    ∀ t, t.length = (nbrs x'.tree i).length → (x'.tensors i).get t = (x.tensors i).get (relabel (axesLab x.tree i) (nbrs x'.tree i) t)

namespace Rerooted

variable {x x' : TBT R} {r nod : Nat} (H : Rerooted x x' r nod)

include H

theorem isNode' (j : Nat) : IsNode x'.tree j ↔ IsNode x.tree j ∨ (nod ∈ x.tree.dim2ind ∧ j = x.tree.n + 1) := by
  unfold IsNode
  by_cases hl : nod ∈ x.tree.dim2ind
  · rw [(H.outer hl).1]
    simp only [hl, true_and]
    omega
  · rw [(H.inner hl).1]
    simp [hl]

theorem of_node {i : Nat} (hi : IsNode x.tree i) : IsNode x'.tree i := (H.isNode' i).2 (.inl hi)

theorem new_not {i : Nat} (hi : IsNode x.tree i) : i ≠ x.tree.n + 1 := by have := hi.2; omega

theorem internal_of {i : Nat} (hi : IsNode x.tree i) : i ∉ x'.tree.dim2ind ↔ (i ∉ x.tree.dim2ind ∨ i = nod) := by
  by_cases hl : nod ∈ x.tree.dim2ind
  · rw [(H.outer hl).2.2.2.1, List.mem_map]
    constructor
    · intro h
      by_contra hc
      push Not at hc
      exact h ⟨i, hc.1, by rw [if_neg hc.2]⟩
    · rintro h ⟨a, ha, he⟩
      split at he
      · exact H.new_not hi he.symm
      · rename_i hne
        subst he
        rcases h with h | h
        · exact h ha
        · exact hne h
  · rw [(H.inner hl).2]
    constructor
    · exact fun h => .inl h
    · rintro (h | rfl)
      · exact h
      · exact hl

theorem leaf_of {c : Nat} (hc : c ∈ x.tree.dim2ind) (hne : c ≠ nod) : c ∈ x'.tree.dim2ind := by
  by_contra h
  rcases (H.internal_of ((H.wf.valid.leaves c).1 hc).1).1 h with h | h
  · exact h hc
  · exact hne h

theorem new_leaf (hl : nod ∈ x.tree.dim2ind) : x.tree.n + 1 ∈ x'.tree.dim2ind := by
  rw [(H.outer hl).2.2.2.1, List.mem_map]
  exact ⟨nod, hl, by simp⟩

theorem leaf_cases {c : Nat} (hc : c ∈ x'.tree.dim2ind) :
    (c ∈ x.tree.dim2ind ∧ c ≠ nod) ∨ (nod ∈ x.tree.dim2ind ∧ c = x.tree.n + 1) := by
  by_cases hl : nod ∈ x.tree.dim2ind
  · rw [(H.outer hl).2.2.2.1, List.mem_map] at hc
    obtain ⟨a, ha, he⟩ := hc
    split at he
    · exact .inr ⟨hl, he.symm⟩
    · rename_i hne
      subst he
      exact .inl ⟨ha, hne⟩
  · rw [(H.inner hl).2] at hc
    exact .inl ⟨hc, fun h => hl (h ▸ hc)⟩

theorem dimOf_old {c : Nat} (hc : c ∈ x.tree.dim2ind) (hne : c ≠ nod) : dimOf x'.tree c = dimOf x.tree c := by
  unfold dimOf
  by_cases hl : nod ∈ x.tree.dim2ind
  · rw [(H.outer hl).2.2.2.1]
    have hb : ∀ a ∈ x.tree.dim2ind, a ≠ x.tree.n + 1 := fun a ha => H.new_not ((H.wf.valid.leaves a).1 ha).1
    have hcn := hb c hc
    clear hc hl
    generalize x.tree.dim2ind = l at hb
    induction l with
    | nil => rfl
    | cons a l ih =>
      have ih := ih (fun a' ha' => hb a' (by simp [ha']))
      rw [List.map_cons, List.idxOf_cons, List.idxOf_cons, ih]
      by_cases ha : a = nod
      · subst ha
        have h1 : (x.tree.n + 1 == c) = false := by simpa using Ne.symm hcn
        have h2 : (a == c) = false := by simpa using Ne.symm hne
        simp [h1, h2]
      · simp [ha]
  · rw [(H.inner hl).2]

theorem dimOf_new (hl : nod ∈ x.tree.dim2ind) : dimOf x'.tree (x.tree.n + 1) = dimOf x.tree nod := by
  unfold dimOf
  rw [(H.outer hl).2.2.2.1]
  have hb : ∀ a ∈ x.tree.dim2ind, a ≠ x.tree.n + 1 := fun a ha => H.new_not ((H.wf.valid.leaves a).1 ha).1
  clear hl
  generalize x.tree.dim2ind = l at hb
  induction l with
  | nil => rfl
  | cons a l ih =>
    have ih := ih (fun a' ha' => hb a' (by simp [ha']))
    have h0 := hb a (by simp)
    rw [List.map_cons, List.idxOf_cons, List.idxOf_cons, ih]
    by_cases ha : a = nod
    · subst ha; simp
    · have h1 : (a == x.tree.n + 1) = false := by simpa using h0
      have h2 : (a == nod) = false := by simpa using ha
      simp [ha, h1, h2]

/-- A node of the path has a next node on the path, which is its new parent. -/
theorem next {a : Nat} (h : AncSelf x.tree a nod) (hne : a ≠ nod) : ∃ c, Edge x.tree a c ∧ AncSelf x.tree c nod ∧ Edge x'.tree c a := by
  rcases ancSelf_cases h with h | ⟨c, h1, h2⟩
  · exact absurd h hne
  · exact ⟨c, h1, h2, (H.edges c a h1.2.1 h1.1).2 (.inr ⟨h1, h2⟩)⟩

theorem off_edge {q i : Nat} (he : Edge x.tree q i) (h : ¬ AncSelf x.tree i nod) : Edge x'.tree q i :=
  (H.edges q i he.1 he.2.1).2 (.inl ⟨he, h⟩)

theorem perm {i : Nat} (hi : IsNode x.tree i) (h : i ∉ x.tree.dim2ind ∨ i = nod) : (nbrs x'.tree i).Perm (axesLab x.tree i) := by
  have hV := H.wf.valid
  have hi' := H.of_node hi
  rw [List.perm_ext_iff_of_nodup (nodup_nbrs H.valid' hi') (nodup_axesLab hV hi)]
  intro j
  rw [mem_nbrs H.valid' hi']
  have hold : IsNode x.tree j → (Edge x'.tree i j ∨ Edge x'.tree j i ↔ Edge x.tree i j ∨ Edge x.tree j i) := by
    intro hj
    rw [H.edges i j hi hj, H.edges j i hj hi]
    constructor
    · rintro ((h | h) | (h | h))
      · exact .inl h.1
      · exact .inr h.1
      · exact .inr h.1
      · exact .inl h.1
    · rintro (h | h)
      · by_cases hp : AncSelf x.tree j nod
        · exact .inr (.inr ⟨h, hp⟩)
        · exact .inl (.inl ⟨h, hp⟩)
      · by_cases hp : AncSelf x.tree i nod
        · exact .inl (.inr ⟨h, hp⟩)
        · exact .inr (.inl ⟨h, hp⟩)
  by_cases hl : i ∈ x.tree.dim2ind
  · have hin : i = nod := h.resolve_left (fun h => h hl)
    subst hin
    obtain ⟨o1, o2, o3, _, _⟩ := H.outer hl
    rw [axesLab_leaf hl, List.mem_cons, mem_parentList hV hi]
    by_cases hjn : j = x.tree.n + 1
    · subst hjn
      simp only [true_or, iff_true]
      exact .inl ((o2 i).2 rfl)
    · have hno : ¬ Edge x.tree i j := ((hV.leaves i).1 hl).2 j
      by_cases hj : IsNode x.tree j
      · rw [hold hj]; simp [hjn, hno]
      · have h1 : ¬ IsNode x'.tree j := by
          rw [H.isNode']; push Not; exact ⟨hj, fun _ => hjn⟩
        constructor
        · rintro (h | h)
          · exact absurd h.2.1 h1
          · exact absurd h.1 h1
        · rintro (h | h)
          · exact absurd h hjn
          · exact absurd h.1 hj
  · rw [axesLab_node hl, mem_nbrs hV hi]
    by_cases hj : IsNode x.tree j
    · exact hold hj
    · have hR : ¬ (Edge x.tree i j ∨ Edge x.tree j i) := by
        rintro (h | h)
        · exact hj h.2.1
        · exact hj h.1
      have hL : ¬ (Edge x'.tree i j ∨ Edge x'.tree j i) := by
        intro h
        have hj' : IsNode x'.tree j := by
          rcases h with h | h
          · exact h.2.1
          · exact h.1
        rcases (H.isNode' j).1 hj' with h' | ⟨hn, rfl⟩
        · exact hj h'
        · obtain ⟨o1, o2, o3, _, _⟩ := H.outer hn
          rcases h with h | h
          · rw [o2] at h; exact hl (h ▸ hn)
          · exact o3 _ h
      exact ⟨fun h => absurd h hL, fun h => absurd h hR⟩

theorem active_old {i : Nat} (hi : IsNode x.tree i) : x'.active i = x.active i := by
  by_cases h : i ∉ x.tree.dim2ind ∨ i = nod
  · have ha : x.active i = true := by
      rcases h with h | h
      · exact (H.wf.node i hi h).1
      · rw [h]; exact H.act
    unfold TBT.active
    rw [(H.tens i hi h).1, ((H.perm hi h).map _).prod_eq, ← shape_axesLab H.wf H.root H.rank hi ha]
  · push Not at h
    unfold TBT.active
    rw [H.leaf i h.1 h.2]

theorem path_act {a : Nat} (h : AncSelf x.tree a nod) : x.active a = true := by
  rcases ancSelf_cases h with h | ⟨c, h1, _⟩
  · rw [h]; exact H.act
  · exact (H.wf.node a h1.1 (edge_internal H.wf.valid h1)).1

open Classical in
/-- The new rank of the axis between a node and its new parent. -/
noncomputable def newRank (_ : Rerooted x x' r nod) (i : Nat) : Nat :=
  if AncSelf x.tree i nod ∧ i ≠ nod then x.lastDim (x'.tree.parent i) else x.lastDim i

def newSize (_ : Rerooted x x' r nod) (c : Nat) : Nat := if c = x.tree.n + 1 then x.leafSize nod else x.leafSize c

theorem newRank_off {i : Nat} (h : ¬ AncSelf x.tree i nod) : H.newRank i = x.lastDim i := by
  unfold newRank; rw [if_neg (fun h' => h h'.1)]

theorem newRank_path {a c : Nat} (h : Edge x.tree a c) (hc : AncSelf x.tree c nod) : H.newRank a = x.lastDim c := by
  have ha : AncSelf x.tree a nod := .head h hc
  have hne : a ≠ nod := by
    rintro rfl
    obtain ⟨k, hk⟩ := exists_level H.wf.valid h.1
    exact edge_irrefl H.wf.valid ((H.edges a a h.1 h.1).1 (by
      have := (H.edges c a h.2.1 h.1).2 (.inr ⟨h, hc⟩)
      exact absurd this (H.root'.2 c))|>.elim (fun h => h.1) (fun h => h.1))
  have he := (H.edges c a h.2.1 h.1).2 (.inr ⟨h, hc⟩)
  unfold newRank
  rw [if_pos ⟨ha, hne⟩, edge_parent H.valid' he]

theorem size_child {i c : Nat} (hi : IsNode x.tree i) (he : Edge x'.tree i c) :
    axisSize x i c = if x'.active c then H.newRank c else H.newSize c := by
  rcases (H.isNode' c).1 he.2.1 with hc | ⟨hl, rfl⟩
  · rw [H.active_old hc]
    rcases (H.edges i c hi hc).1 he with ⟨h1, h2⟩ | ⟨h1, h2⟩
    · rw [axisSize_child h1, H.newRank_off h2]
      unfold childSize newSize
      rw [if_neg (H.new_not hc)]
    · rw [axisSize_parent H.wf.valid h1, if_pos (H.path_act (.head h1 h2)), H.newRank_path h1 h2]
  · obtain ⟨o1, o2, o3, _, o5⟩ := H.outer hl
    have hin := (o2 i).1 he
    subst hin
    have : x'.active (x.tree.n + 1) = false := by unfold TBT.active; rw [o5]; rfl
    rw [axisSize_new, this]
    unfold newSize
    simp

theorem size_parent {i q : Nat} (hi : IsNode x.tree i) (he : Edge x'.tree q i) : axisSize x i q = H.newRank i := by
  rcases (H.isNode' q).1 he.1 with hq | ⟨hl, rfl⟩
  · rcases (H.edges q i hq hi).1 he with ⟨h1, h2⟩ | ⟨h1, h2⟩
    · rw [axisSize_parent H.wf.valid h1, H.newRank_off h2]
    · rw [axisSize_child h1, H.newRank_path h1 h2]
      unfold childSize
      rw [if_pos (H.path_act h2)]
  · exact absurd he ((H.outer hl).2.2.1 i)

theorem shaped' : Shaped x' x'.tree x'.active H.newRank H.newSize [] := by
  have hV := H.wf.valid
  have hpos : ∀ i, x.active i = true → ∀ n ∈ (x.tensors i).shape, n ≠ 0 := fun i hi => prod_ne_zero.1 hi
  have hs := H.wf.shaped H.root
  refine ⟨rfl, ?_, ?_, by simp, by simp, ?_, ?_, ?_, ?_⟩
  · intro i hi hr ha
    rcases (H.isNode' i).1 hi with hi0 | ⟨hl, rfl⟩
    · rw [H.active_old hi0] at ha
      by_cases hp : AncSelf x.tree i nod
      · have hne : i ≠ nod := fun e => hr (e ▸ H.root')
        obtain ⟨c, h1, h2, _⟩ := H.next hp hne
        rw [H.newRank_path h1 h2]
        exact hs.rho c h1.2.1 (fun h => h.2 i h1) (H.path_act h2)
      · rw [H.newRank_off hp]
        exact hs.rho i hi0 (fun h => hp (root_unique hV h H.root ▸ (by
          obtain ⟨r', hr', hall⟩ := hV.rooted
          rw [root_unique hV H.root hr']
          exact hall nod H.node))) ha
    · unfold TBT.active at ha
      rw [(H.outer hl).2.2.2.2] at ha
      simp at ha
  · intro c hc
    unfold newSize
    rcases H.leaf_cases hc with ⟨h1, h2⟩ | ⟨hl, rfl⟩
    · rw [if_neg (H.new_not ((hV.leaves c).1 h1).1)]
      exact hs.nu c h1
    · rw [if_pos rfl]; exact hs.nu nod hl
  · intro c hc ha
    rcases H.leaf_cases hc with ⟨h1, h2⟩ | ⟨hl, rfl⟩
    · have hcn := ((hV.leaves c).1 h1).1
      rw [H.active_old hcn] at ha
      have hp : ¬ AncSelf x.tree c nod := fun h => h2 (ancSelf_leaf hV h1 h)
      rw [H.leaf c h1 h2, hs.leaf c h1 ha, H.newRank_off hp]
      unfold newSize
      rw [if_neg (H.new_not hcn)]
    · unfold TBT.active at ha
      rw [(H.outer hl).2.2.2.2] at ha
      simp at ha
  · intro c hc ha
    by_contra hne
    exact ha (by unfold TBT.active; simpa using hne)
  · intro i hi hl
    rcases (H.isNode' i).1 hi with hi0 | ⟨hl', rfl⟩
    · rw [H.active_old hi0]
      rcases (H.internal_of hi0).1 hl with h | h
      · exact (H.wf.node i hi0 h).1
      · rw [h]; exact H.act
    · exact absurd (H.new_leaf hl') hl
  · intro i hi hl
    rcases (H.isNode' i).1 hi with hi0 | ⟨hl', rfl⟩
    · rw [(H.tens i hi0 ((H.internal_of hi0).1 hl)).1]
      unfold nbrs
      rw [List.map_append]
      congr 1
      · apply List.map_congr_left
        intro c hc
        exact H.size_child hi0 ((mem_children i c hi).1 hc)
      · split
        · rename_i hr
          rw [parentList_root hr]; rfl
        · rename_i hr
          have hex : ∃ p, Edge x'.tree p i := by
            by_contra hno
            exact hr ⟨hi, fun p hp => hno ⟨p, hp⟩⟩
          obtain ⟨p, he⟩ := hex
          rw [parentList_of H.valid' he, List.map_singleton, H.size_parent hi0 he]
    · exact absurd (H.new_leaf hl') hl

theorem order' : x'.tree.dim2ind.length = x.tree.dim2ind.length := by
  by_cases hl : nod ∈ x.tree.dim2ind
  · rw [(H.outer hl).2.2.2.1]; simp
  · rw [(H.inner hl).2]

theorem wf' : WF x' := H.shaped'.wf H.valid' (by rw [H.order']; exact H.wf.order)

theorem shape' : x'.shape = x.shape := by
  have ho : 2 ≤ x'.tree.dim2ind.length := by rw [H.order']; exact H.wf.order
  rw [H.shaped'.shapeEq H.valid' ho]
  unfold TBT.shape
  by_cases hl : nod ∈ x.tree.dim2ind
  · rw [(H.outer hl).2.2.2.1, List.map_map]
    apply List.map_congr_left
    intro c hc
    unfold newSize
    by_cases hcn : c = nod
    · subst hcn; simp
    · simp [hcn, H.new_not ((H.wf.valid.leaves c).1 hc).1]
  · rw [(H.inner hl).2]
    apply List.map_congr_left
    intro c hc
    unfold newSize
    rw [if_neg (H.new_not ((H.wf.valid.leaves c).1 hc).1)]

theorem rank' : rankShape x' nod = [] := by
  refine H.shaped'.rankShape_root H.root' ?_
  rw [H.internal_of H.node]; exact .inr rfl


/-! ### the values -/

section values

variable [CommSemiring R] {V V' : Nat → List Nat → List Nat → R} (hV : IsValue x V) (hV' : IsValue x' V') {p : List Nat}
  (hp : InBox x.shape p)

omit H in
theorem value_box {y : TBT R} {W : Nat → List Nat → List Nat → R} (hy : WF y) (hW : IsValue y W) {p : List Nat} (hp : InBox y.shape p)
    {i : Nat} (hi : IsNode y.tree i) (hl : i ∉ y.tree.dim2ind) (e : List Nat) :
    W i p e = sumBox ((y.tree.children i).map (childSize y)) (fun t =>
      (List.zipWith (fun c s => childVal y W c p s) (y.tree.children i) t).prod * (y.tensors i).get (t ++ e)) := by
  rw [hW.node i hi hl p e, childSum_box y W p]
  · rfl
  · intro c hc ha
    have hcl := hy.inactive_leaf ((mem_children i c hi).1 hc).2.1 ha
    unfold childSize; rw [if_neg ha]; exact inBox_shape_getD hp hcl

theorem children_off {c : Nat} (hc : IsNode x.tree c) (h : ¬ AncSelf x.tree c nod) : x'.tree.children c = x.tree.children c := by
  refine children_eq_of_sorted (H.of_node hc) (children_sorted c) (fun j => ?_)
  rw [mem_children c j hc]
  constructor
  · intro he
    rcases (H.isNode' j).1 he.2.1 with hj | ⟨hl, rfl⟩
    · rcases (H.edges c j hc hj).1 he with h1 | h1
      · exact h1.1
      · exact absurd h1.2 h
    · have := ((H.outer hl).2.1 c).1 he
      subst this
      exact absurd .refl h
  · intro he
    exact H.off_edge he (fun h' => h (.head he h'))

theorem parent_off {c : Nat} (hc : IsNode x.tree c) (h : ¬ AncSelf x.tree c nod) : parentList x'.tree c = parentList x.tree c := by
  have hr : ¬ IsRoot x.tree c := by
    intro hr
    obtain ⟨r', hr', hall⟩ := H.wf.valid.rooted
    exact h (root_unique H.wf.valid hr' hr ▸ hall nod H.node)
  have hex : ∃ p, Edge x.tree p c := by
    by_contra hno
    exact hr ⟨hc, fun p hp => hno ⟨p, hp⟩⟩
  obtain ⟨q, he⟩ := hex
  rw [parentList_of H.wf.valid he, parentList_of H.valid' (H.off_edge he h)]

theorem childSize_new {i c : Nat} (hi : IsNode x.tree i) (he : Edge x'.tree i c) : childSize x' c = axisSize x i c := by
  have ho : 2 ≤ x'.tree.dim2ind.length := by rw [H.order']; exact H.wf.order
  rw [H.size_child hi he, H.shaped'.childSize H.valid' ho he.2.1 (fun h => h.2 i he)]

include hV hV' hp in
/-- Off the path the values are unchanged. -/
theorem val_off : ∀ c, IsNode x.tree c → ¬ AncSelf x.tree c nod → ∀ s, s < childSize x c →
    childVal x' V' c p s = childVal x V c p s := by
  refine node_induction H.wf.valid _ ?_
  intro c hc ih hoff s hs
  have hp' : InBox x'.shape p := by rw [H.shape']; exact hp
  have hcn : c ≠ nod := fun e => hoff (e ▸ .refl)
  by_cases hl : c ∈ x.tree.dim2ind
  · unfold childVal
    rw [H.active_old hc, H.dimOf_old hl hcn]
    split
    · rename_i ha
      rw [hV.leaf c hl ha, hV'.leaf c (H.leaf_of hl hcn) (by rw [H.active_old hc]; exact ha), H.dimOf_old hl hcn, H.leaf c hl hcn]
    · rfl
  · have hl' : c ∉ x'.tree.dim2ind := (H.internal_of hc).2 (.inl hl)
    have ha := (H.wf.node c hc hl).1
    unfold childVal
    rw [H.active_old hc, if_pos ha, if_pos ha, value_box H.wf hV hp hc hl, value_box H.wf' hV' hp' (H.of_node hc) hl',
      H.children_off hc hoff]
    have hsz : (x.tree.children c).map (childSize x') = (x.tree.children c).map (childSize x) := by
      apply List.map_congr_left
      intro d hd
      have he := (mem_children c d hc).1 hd
      rw [H.childSize_new hc (H.off_edge he (fun h' => hoff (.head he h'))), axisSize_child he]
    rw [hsz]
    apply sumBox_congr
    intro t ht
    have htl : t.length = (x.tree.children c).length := by simpa using ht.length_eq
    have hr : ¬ IsRoot x.tree c := by
      intro hr
      obtain ⟨r', hr', hall⟩ := H.wf.valid.rooted
      exact hoff (root_unique H.wf.valid hr' hr ▸ hall nod H.node)
    have hex : ∃ p, Edge x.tree p c := by
      by_contra hno
      exact hr ⟨hc, fun p hp => hno ⟨p, hp⟩⟩
    obtain ⟨q, hq⟩ := hex
    have hnb : nbrs x'.tree c = nbrs x.tree c := by
      unfold nbrs; rw [H.children_off hc hoff, H.parent_off hc hoff]
    have hlen : (t ++ [s]).length = (nbrs x'.tree c).length := by
      rw [hnb]; unfold nbrs; rw [parentList_of H.wf.valid hq]; simp [htl]
    rw [(H.tens c hc (.inl hl)).2 _ hlen, hnb, axesLab_node hl, relabel_self (nodup_nbrs H.wf.valid hc) (by rw [← hnb]; exact hlen)]
    congr 2
    apply List.ext_getElem (by simp)
    intro k h1 h2
    have hk : k < (x.tree.children c).length := by simp at h1; omega
    rw [List.getElem_zipWith, List.getElem_zipWith]
    have he := (mem_children c _ hc).1 (List.getElem_mem hk)
    refine ih _ he (fun h' => hoff (.head he h')) _ ?_
    have := ((inBox_iff_getD _ _).1 ht).2 k (by simpa [htl] using hk)
    rwa [List.getD_eq_getElem _ _ (by omega), List.getD_eq_getElem _ _ (by simpa using hk), List.getElem_map] at this

open Classical in
/-- The value coming from a neighbour of a node of the path. -/
noncomputable def mix (_ : Rerooted x x' r nod) (V V' : Nat → List Nat → List Nat → R) (p : List Nat) (a c s : Nat) : R :=
  if Edge x.tree a c then childVal x V c p s else childVal x' V' c p s

include hV hV' hp in
theorem mix_new {a c s : Nat} (ha : IsNode x.tree a) (he : Edge x'.tree a c) (hs : s < axisSize x a c) :
    H.mix V V' p a c s = childVal x' V' c p s := by
  unfold mix
  split
  · rename_i h1
    rcases (H.edges a c ha h1.2.1).1 he with h2 | h2
    · rw [axisSize_child h1] at hs
      exact (H.val_off hV hV' hp c h1.2.1 h2.2 s hs).symm
    · exact absurd h2.1 (fun h => edge_asymm H.wf.valid h1 h)
  · rfl

include hV hV' hp in
/-- The value of the tensor at the former root, seen from any node of the path. -/
theorem path_value {a : Nat} (hra : AncSelf x.tree r a) : AncSelf x.tree a nod →
    V r p [] = vSum (axesLab x.tree a) (axisSize x a) (H.mix V V' p a) (x.tensors a) := by
  have hVd := H.wf.valid
  have hp' : InBox x'.shape p := by rw [H.shape']; exact hp
  induction hra with
  | refl =>
    intro _
    have hrl := H.wf.root_internal H.root
    rw [value_box H.wf hV hp H.root.1 hrl, axesLab_node hrl]
    unfold nbrs vSum
    rw [parentList_root H.root, List.append_nil]
    have hsz : (x.tree.children r).map (childSize x) = (x.tree.children r).map (axisSize x r) := by
      apply List.map_congr_left
      intro d hd
      rw [axisSize_child ((mem_children r d H.root.1).1 hd)]
    rw [hsz]
    apply sumBox_congr
    intro t _
    rw [List.append_nil]
    congr 2
    apply List.ext_getElem (by simp)
    intro k h1 h2
    have hk : k < (x.tree.children r).length := by simp at h1; omega
    rw [List.getElem_zipWith, List.getElem_zipWith]
    unfold mix
    rw [if_pos ((mem_children r _ H.root.1).1 (List.getElem_mem hk))]
  | tail hrq hqa ih =>
    rename_i q a
    intro han
    have hqn : AncSelf x.tree q nod := .head hqa han
    have hq := hqa.1
    have ha := hqa.2.1
    have hql := edge_internal hVd hqa
    have hql' : q ∉ x'.tree.dim2ind := (H.internal_of hq).2 (.inl hql)
    have hact := H.path_act han
    have hqact' : x'.active q = true := by rw [H.active_old hq]; exact H.path_act hqn
    have he' : Edge x'.tree a q := (H.edges a q ha hq).2 (.inr ⟨hqa, han⟩)
    have hnb : nbrs x'.tree q = x'.tree.children q ++ [a] := by unfold nbrs; rw [parentList_of H.valid' he']
    have hsa : axisSize x q a = x.lastDim a := by rw [axisSize_child hqa]; unfold childSize; rw [if_pos hact]
    have key : V r p [] = ∑ k ∈ range (x.lastDim a), V' q p [k] * V a p [k] := by
      rw [ih hqn, ← vSum_perm (nodup_axesLab hVd hq) (H.perm hq (.inl hql)) (axisSize x q) (H.mix V V' p q)
        (fun t ht => (H.tens q hq (.inl hql)).2 t (by simpa using ht.length_eq)), hnb, vSum_last, hsa]
      refine sum_congr rfl (fun k hk => ?_)
      congr 1
      · rw [value_box H.wf' hV' hp' (H.of_node hq) hql']
        have hsz : (x'.tree.children q).map (childSize x') = (x'.tree.children q).map (axisSize x q) := by
          apply List.map_congr_left
          intro d hd
          rw [H.childSize_new hq ((mem_children q d (H.of_node hq)).1 hd)]
        rw [hsz]
        apply sumBox_congr
        intro t ht
        have htl : t.length = (x'.tree.children q).length := by simpa using ht.length_eq
        congr 2
        apply List.ext_getElem (by simp)
        intro m h1 h2
        have hm : m < (x'.tree.children q).length := by simp at h1; omega
        rw [List.getElem_zipWith, List.getElem_zipWith]
        refine H.mix_new hV hV' hp hq ((mem_children q _ (H.of_node hq)).1 (List.getElem_mem hm)) ?_
        have := ((inBox_iff_getD _ _).1 ht).2 m (by simpa [htl] using hm)
        rwa [List.getD_eq_getElem _ _ (by omega), List.getD_eq_getElem _ _ (by simpa using hm), List.getElem_map] at this
      · unfold mix childVal
        rw [if_pos hqa, if_pos hact]
    rw [key]
    have hmq : ∀ k, H.mix V V' p a q k = V' q p [k] := by
      intro k
      unfold mix childVal
      rw [if_neg (fun h => edge_asymm hVd hqa h), if_pos hqact']
    by_cases hl : a ∈ x.tree.dim2ind
    · have han' : a = nod := ancSelf_leaf hVd hl han
      subst han'
      have hlt : p.getD (dimOf x.tree a) 0 < x.leafSize a := inBox_shape_getD hp hl
      rw [axesLab_leaf hl, parentList_of hVd hqa, show (x.tree.n + 1) :: [q] = [x.tree.n + 1] ++ [q] from rfl, vSum_last,
        axisSize_parent hVd hqa]
      refine sum_congr rfl (fun k hk => ?_)
      rw [hmq, mul_comm]
      congr 1
      have hina : x'.active (x.tree.n + 1) = false := by unfold TBT.active; rw [(H.outer hl).2.2.2.2]; rfl
      have hmix : ∀ s, H.mix V V' p a (x.tree.n + 1) s = if p.getD (dimOf x.tree a) 0 = s then 1 else 0 := by
        intro s
        unfold mix childVal
        rw [if_neg (fun h => by have := h.2.1.2; omega), hina, H.dimOf_new hl]
        rfl
      rw [List.map_singleton, sumBox_singleton, axisSize_new, hV.leaf a hl hact]
      simp only [List.zipWith_cons_cons, List.zipWith_nil_right, List.prod_cons, List.prod_nil, mul_one, hmix, ite_mul, one_mul, zero_mul]
      rw [sum_ite_eq, if_pos (mem_range.2 hlt)]
      rfl
    · rw [axesLab_node hl]
      unfold nbrs
      rw [parentList_of hVd hqa, vSum_last, axisSize_parent hVd hqa]
      refine sum_congr rfl (fun k hk => ?_)
      rw [hmq, mul_comm]
      congr 1
      rw [value_box H.wf hV hp ha hl]
      have hsz : (x.tree.children a).map (childSize x) = (x.tree.children a).map (axisSize x a) := by
        apply List.map_congr_left
        intro d hd
        rw [axisSize_child ((mem_children a d ha).1 hd)]
      rw [hsz]
      apply sumBox_congr
      intro t _
      congr 2
      apply List.ext_getElem (by simp)
      intro m h1 h2
      have hm : m < (x.tree.children a).length := by simp at h1; omega
      rw [List.getElem_zipWith, List.getElem_zipWith]
      unfold mix
      rw [if_pos ((mem_children a _ ha).1 (List.getElem_mem hm))]

include hV hV' hp in
/-- The value at the new root is the value at the former root. -/
theorem root_value : V' nod p [] = V r p [] := by
  have hVd := H.wf.valid
  have hp' : InBox x'.shape p := by rw [H.shape']; exact hp
  have hn := H.node
  have hl' : nod ∉ x'.tree.dim2ind := (H.internal_of hn).2 (.inr rfl)
  have hrn : AncSelf x.tree r nod := by
    obtain ⟨r', hr', hall⟩ := hVd.rooted
    rw [root_unique hVd H.root hr']
    exact hall nod hn
  have hnb : nbrs x'.tree nod = x'.tree.children nod := by unfold nbrs; rw [parentList_root H.root', List.append_nil]
  rw [H.path_value hV hV' hp hrn .refl, ← vSum_perm (nodup_axesLab hVd hn) (H.perm hn (.inr rfl)) (axisSize x nod) (H.mix V V' p nod)
    (fun t ht => (H.tens nod hn (.inr rfl)).2 t (by simpa using ht.length_eq)), hnb, value_box H.wf' hV' hp' (H.of_node hn) hl']
  unfold vSum
  have hsz : (x'.tree.children nod).map (childSize x') = (x'.tree.children nod).map (axisSize x nod) := by
    apply List.map_congr_left
    intro d hd
    rw [H.childSize_new hn ((mem_children nod d (H.of_node hn)).1 hd)]
  rw [hsz]
  apply sumBox_congr
  intro t ht
  have htl : t.length = (x'.tree.children nod).length := by simpa using ht.length_eq
  rw [List.append_nil]
  congr 2
  apply List.ext_getElem (by simp)
  intro m h1 h2
  have hm : m < (x'.tree.children nod).length := by simp at h1; omega
  rw [List.getElem_zipWith, List.getElem_zipWith]
  refine (H.mix_new hV hV' hp hn ((mem_children nod _ (H.of_node hn)).1 (List.getElem_mem hm)) ?_).symm
  have := ((inBox_iff_getD _ _).1 ht).2 m (by simpa [htl] using hm)
  rwa [List.getD_eq_getElem _ _ (by omega), List.getD_eq_getElem _ _ (by simpa using hm), List.getElem_map] at this

end values

/-- The represented tensor is unchanged. -/
theorem full_same [CommSemiring R] : ∃ y y', full x = .ok y ∧ full x' = .ok y' ∧ y.shape = x.shape ∧ y' ≃ₐ y := by
  obtain ⟨r1, hr1, hroot1⟩ := root_ok H.wf.valid
  have := root_unique H.wf.valid hroot1 H.root
  subst this
  obtain ⟨r2, hr2, hroot2⟩ := root_ok H.valid'
  have := root_unique H.valid' hroot2 H.root'
  subst this
  obtain ⟨V, hV⟩ := exists_value x H.wf.valid
  obtain ⟨V', hV'⟩ := exists_value x' H.valid'
  obtain ⟨y, y1, y2, y3⟩ := full_on x H.wf hV.on hr1
  obtain ⟨y', z1, z2, z3⟩ := full_on x' H.wf' hV'.on hr2
  rw [H.rank, List.append_nil] at y2
  rw [H.rank', List.append_nil, H.shape'] at z2
  refine ⟨y, y', y1, z1, y2, by rw [z2, y2], ?_⟩
  intro idx hi
  rw [z2] at hi
  have h1 := y3 idx [] hi (by rw [H.rank]; exact .nil)
  have h2 := z3 idx [] (by rw [H.shape']; exact hi) (by rw [H.rank']; exact .nil)
  rw [List.append_nil] at h1 h2
  rw [h1, h2, H.root_value hV hV' hi]

end Rerooted

/-! ### the function -/

theorem modified_nodup {T T' : DTree} {nod : Nat} {M : List Nat} (h : T.changeRoot nod = .ok (T', M)) : M.Nodup := by
  unfold DTree.changeRoot at h
  cases hr : T.root with
  | error e => simp [hr, bind, Except.bind] at h
  | ok r =>
    simp only [hr, bind, Except.bind] at h
    split at h
    · cases h; exact .nil
    · cases ha : T.ascendants nod with
      | error e => simp [ha] at h
      | ok a =>
        simp only [ha] at h
        cases hD : T.dims with
        | error e => simp [hD] at h
        | ok D =>
          simp only [hD] at h
          split at h
          · cases h
          · cases h
            exact nodup_nodes.filter _

/-- The tensors that are expected: those of the nodes that may be modified have their axes in the order of the new neighbours. -/
noncomputable def expected [Zero R] (x : TBT R) (T' : DTree) (nod i : Nat) : Arr R :=
  if i ∈ x.tree.dim2ind ∧ i ≠ nod then x.tensors i
  else if i = x.tree.n + 1 then emptyArr
  else ⟨(nbrs T' i).map (axisSize x i), fun t => (x.tensors i).get (relabel (axesLab x.tree i) (nbrs T' i) t)⟩

theorem arr_ext {a b : Arr R} (h1 : a.shape = b.shape) (h2 : ∀ t, a.get t = b.get t) : a = b := by
  cases a; cases b
  cases h1
  congr
  exact funext h2

/-- C200. `change_root(nod)`, for an active node of a tensor without output axis whose root has at least two sons: it succeeds; the new
tensor is well formed, its tree is the one of `DimensionTree.change_root`, with root `nod`; the shape and all the entries of the
tensor are unchanged; the rank of an edge of the path between `nod` and the former root is now the rank of its other end, the other
ranks are unchanged. -/
theorem changeRoot_full [CommSemiring R] (x : TBT R) (hx : WF x) (r : Nat) (hr : x.tree.root = .ok r) (hr0 : rankShape x r = [])
    (h2 : ∃ c c', c ≠ c' ∧ Edge x.tree r c ∧ Edge x.tree r c') (nod : Nat) (hn : IsNode x.tree nod) (ha : x.active nod = true) :
    ∃ x' M, changeRoot x nod = .ok x' ∧ x.tree.changeRoot nod = .ok (x'.tree, M) ∧ WF x' ∧ x'.tree.root = .ok nod ∧
      rankShape x' nod = [] ∧ x'.shape = x.shape ∧
      (∃ y y', full x = .ok y ∧ full x' = .ok y' ∧ y.shape = x.shape ∧ y' ≃ₐ y) ∧
      (∀ a c, Edge x.tree a c → AncSelf x.tree c nod → x'.lastDim a = x.lastDim c) ∧
      (∀ c, IsNode x.tree c → ¬ AncSelf x.tree c nod → x.active c = true → x'.lastDim c = x.lastDim c) := by
  obtain ⟨r', hr', hroot⟩ := root_ok hx.valid
  rw [hr] at hr'; cases hr'
  obtain ⟨T', M, t1, t2, t3, t4, t5, t6, t7, t8⟩ := changeRoot_spec hx.valid nod hn (fun q hq => by
    rw [root_unique hx.valid hq hroot]; exact h2)
  by_cases hnr : nod = r
  · subst hnr
    obtain ⟨e1, e2⟩ := t5 hroot
    subst e1
    obtain ⟨y, y1, y2, _⟩ := full_on x hx (exists_value x hx.valid).choose_spec.on hr
    rw [hr0, List.append_nil] at y2
    refine ⟨x, M, ?_, t1, hx, hr, hr0, rfl, ⟨y, y, y1, y1, y2, rfl, fun _ _ => rfl⟩, ?_, fun _ _ _ _ => rfl⟩
    · unfold changeRoot
      simp only [hr, bind, Except.bind]
      exact if_pos trivial
    · intro a c h1 h3
      rcases Relation.reflTransGen_iff_eq_or_transGen.1 h3 with h | h
      · subst h; exact absurd h1 (hroot.2 a)
      · obtain ⟨q, _, hq⟩ := Relation.TransGen.tail'_iff.1 h
        exact absurd hq (hroot.2 q)
  have hnroot : ¬ IsRoot x.tree nod := fun h => hnr (root_unique hx.valid h hroot)
  obtain ⟨r', hr', hroot'⟩ := root_ok t2
  rw [t3] at hr'; cases hr'
  have hinner : nod ∉ x.tree.dim2ind → T'.n = x.tree.n ∧ T'.dim2ind = x.tree.dim2ind := by
    intro hl
    apply t7
    by_contra hc
    push Not at hc
    exact hl ((hx.valid.leaves nod).2 ⟨hn, hc⟩)
  have houter : nod ∈ x.tree.dim2ind → _ := fun hl => t8 ((hx.valid.leaves nod).1 hl).2
  have hV := hx.valid
  have hnew : ∀ i, IsNode x.tree i → i ≠ x.tree.n + 1 := fun i hi => by have := hi.2; omega
  have hnewl : x.tree.n + 1 ∉ x.tree.dim2ind := fun h => hnew _ ((hV.leaves _).1 h).1 rfl
  have Hf : Rerooted x ⟨T', expected x T' nod⟩ r nod := by
    refine ⟨hx, hroot, hr0, hn, hnr, ha, t2, hroot', t4, hinner, ?_, ?_, ?_⟩
    · intro hl
      obtain ⟨o1, o2, o3, o4⟩ := houter hl
      refine ⟨o1, o2, o3, o4, ?_⟩
      show (expected x T' nod (x.tree.n + 1)).shape.prod = 0
      unfold expected
      rw [if_neg (fun h => hnewl h.1), if_pos rfl]
      rfl
    · intro c hc hne
      show expected x T' nod c = _
      unfold expected; rw [if_pos ⟨hc, hne⟩]
    · intro i hi h
      have : expected x T' nod i =
          ⟨(nbrs T' i).map (axisSize x i), fun t => (x.tensors i).get (relabel (axesLab x.tree i) (nbrs T' i) t)⟩ := by
        unfold expected
        rw [if_neg (fun h' => h.elim (fun h => h h'.1) (fun h => h'.2 h)), if_neg (hnew i hi)]
      show (expected x T' nod i).shape = _ ∧ _
      rw [this]
      refine ⟨rfl, fun t _ => ?_⟩
      show (expected x T' nod i).get t = _
      rw [this]
  have htr : ∀ k, IsNode x.tree k → x.active k = true → (k ∉ x.tree.dim2ind ∨ k = nod) →
      FullTensor.transposeT (x.tensors k) (axesOf (axesLab x.tree k) (nbrs T' k)) = .ok (expected x T' nod k) := by
    intro k hk hak h
    obtain ⟨b, b1, b2, b3⟩ := transpose_labels (nodup_axesLab hV hk) (Hf.perm hk h) (shape_axesLab hx hroot hr0 hk hak)
    rw [b1]
    congr 1
    apply arr_ext
    · rw [b2]; exact (Hf.tens k hk h).1.symm
    · intro t
      rw [b3]
      show _ = (expected x T' nod k).get t
      unfold expected
      rw [if_neg (fun h' => h.elim (fun h => h h'.1) (fun h => h'.2 h)), if_neg (hnew k hk)]
  have hMn : ∀ k ∈ M, IsNode x.tree k := by
    intro k hk
    obtain ⟨a, h1, h3⟩ := (t6 hnroot k).1 hk
    rcases h3 with rfl | h3
    · rcases ancSelf_cases h1 with rfl | ⟨c, h, _⟩
      · exact hn
      · exact h.1
    · exact h3.2.1
  have hMr : ∀ k, AncSelf x.tree k nod → k ∈ M := fun k hk => (t6 hnroot k).2 ⟨k, hk, .inl rfl⟩
  -- the loop, with the tensors outside `M` completed arbitrarily
  obtain ⟨ts, l1, l2⟩ : ∃ ts, M.foldlM (rerootStep x T') x.tensors = .ok ts ∧ ∀ k, ts k =
      if k ∈ M ∧ x.active k = true ∧ k ∉ x.tree.dim2ind then expected x T' nod k else x.tensors k := by
    have : ∀ (M' : List Nat) (ts : Nat → Arr R), M'.Nodup → (∀ k ∈ M', IsNode x.tree k) → (∀ k ∈ M', ts k = x.tensors k) →
        ∃ ts', M'.foldlM (rerootStep x T') ts = .ok ts' ∧ ∀ k, ts' k =
          if k ∈ M' ∧ x.active k = true ∧ k ∉ x.tree.dim2ind then expected x T' nod k else ts k := by
      intro M'
      induction M' with
      | nil => intro ts _ _ _; exact ⟨ts, rfl, fun k => by simp⟩
      | cons m M' ih =>
        intro ts hnd hno hts
        obtain ⟨s1, s2, s3⟩ : ∃ ts1, rerootStep x T' ts m = .ok ts1 ∧ ∀ k, ts1 k =
            if k = m ∧ x.active k = true ∧ k ∉ x.tree.dim2ind then expected x T' nod k else ts k := by
          unfold rerootStep
          by_cases hm : x.active m = true ∧ m ∉ x.tree.dim2ind
          · have : (x.active m && !x.tree.isLeaf m) = true := by
              have : x.tree.isLeaf m = false := by
                by_contra hc; exact hm.2 ((isLeaf_mem _ _).1 (by simpa using hc))
              rw [hm.1, this]; rfl
            have h := htr m (hno m (by simp)) hm.1 (.inl hm.2)
            rw [axesLab_node hm.2] at h
            rw [if_pos this, hts m (by simp), h]
            refine ⟨_, rfl, fun k => ?_⟩
            by_cases hk : k = m
            · subst hk; rw [if_pos ⟨rfl, hm⟩]; simp [upd]
            · rw [if_neg (fun h => hk h.1)]; simp [upd, hk]
          · have : ¬ (x.active m && !x.tree.isLeaf m) = true := by
              intro h
              rw [Bool.and_eq_true] at h
              refine hm ⟨h.1, fun h' => ?_⟩
              rw [(isLeaf_mem _ _).2 h'] at h
              simp at h
            rw [if_neg this]
            refine ⟨_, rfl, fun k => ?_⟩
            rw [if_neg]
            rintro ⟨rfl, h⟩
            exact hm h
        rw [List.nodup_cons] at hnd
        obtain ⟨ts', h1, h3⟩ := ih s1 hnd.2 (fun k hk => hno k (by simp [hk])) (fun k hk => by
          have hkm : k ≠ m := fun e => hnd.1 (e ▸ hk)
          rw [s3, if_neg (fun h => absurd h.1 hkm)]; exact hts k (by simp [hk]))
        refine ⟨ts', by rw [List.foldlM_cons, s2]; exact h1, fun k => ?_⟩
        rw [h3, s3]
        by_cases hk : k = m
        · subst hk
          rw [if_neg (fun h => hnd.1 h.1)]
          simp
        · simp [hk]
    exact this M x.tensors (modified_nodup t1) hMn (fun _ _ => rfl)
  obtain ⟨ts2, m1, m2⟩ : ∃ ts2, rerootLeaf x T' nod ts = .ok ts2 ∧ ∀ k, ts2 k =
      if nod ∈ x.tree.dim2ind ∧ k = x.tree.n + 1 then emptyArr
      else if nod ∈ x.tree.dim2ind ∧ k = nod then expected x T' nod nod else ts k := by
    unfold rerootLeaf
    by_cases hl : nod ∈ x.tree.dim2ind
    · have hnb : nbrs T' nod = T'.children nod := by unfold nbrs; rw [parentList_root hroot', List.append_nil]
      have h := htr nod hn ha (.inr rfl)
      rw [axesLab_leaf hl, hnb] at h
      have hts : ts nod = x.tensors nod := by rw [l2, if_neg (fun h => h.2.2 hl)]
      rw [if_pos ((isLeaf_mem _ _).2 hl), hts, h]
      refine ⟨_, rfl, fun k => ?_⟩
      by_cases hk : k = nod
      · subst hk
        rw [if_neg (fun h => hnew _ hn h.2), if_pos ⟨hl, rfl⟩]; simp [upd]
      · by_cases hk' : k = x.tree.n + 1
        · rw [if_pos ⟨hl, hk'⟩]; simp [upd, hk']
          intro h; exact absurd h.symm (hnew _ hn)
        · rw [if_neg (fun h => hk' h.2), if_neg (fun h => hk h.2)]; simp [upd, hk, hk']
    · rw [if_neg (fun h => hl ((isLeaf_mem _ _).1 h))]
      exact ⟨ts, rfl, fun k => by simp [hl]⟩
  have H : Rerooted x ⟨T', ts2⟩ r nod := by
    refine ⟨hx, hroot, hr0, hn, hnr, ha, t2, hroot', t4, hinner, ?_, ?_, ?_⟩
    · intro hl
      obtain ⟨o1, o2, o3, o4⟩ := houter hl
      refine ⟨o1, o2, o3, o4, ?_⟩
      show (ts2 (x.tree.n + 1)).shape.prod = 0
      rw [m2, if_pos ⟨hl, rfl⟩]
      rfl
    · intro c hc hne
      show ts2 c = _
      rw [m2, if_neg (fun h => hnew c ((hV.leaves c).1 hc).1 h.2), if_neg (fun h => hne h.2), l2, if_neg (fun h => h.2.2 hc)]
    · intro i hi h
      have hk := hnew i hi
      by_cases hE : ts2 i = expected x T' nod i
      · have := Hf.tens i hi h
        show (ts2 i).shape = _ ∧ ∀ t, _ → (ts2 i).get t = _
        rw [hE]
        exact this
      · have hil : i ∉ x.tree.dim2ind := by
          rcases h with h | h
          · exact h
          · intro hl
            subst h
            refine hE ?_
            rw [m2, if_neg (fun h => hk h.2), if_pos ⟨hl, rfl⟩]
        have hai := (hx.node i hi hil).1
        have hne : ts2 i = ts i := by
          rw [m2, if_neg (fun h : nod ∈ x.tree.dim2ind ∧ i = x.tree.n + 1 => hk h.2), if_neg]
          rintro ⟨h1, h3⟩
          exact hil (h3 ▸ h1)
        have hiM : i ∉ M := by
          intro hM
          exact hE (by rw [hne, l2, if_pos ⟨hM, hai, hil⟩])
        have hoff : ¬ AncSelf x.tree i nod := fun h => hiM (hMr i h)
        have hnb : nbrs T' i = nbrs x.tree i := by
          have h1 := Hf.children_off hi hoff
          have h3 := Hf.parent_off hi hoff
          unfold nbrs
          rw [show T'.children i = x.tree.children i from h1, show parentList T' i = parentList x.tree i from h3]
        have hts : ts2 i = x.tensors i := by rw [hne, l2, if_neg (fun h => hiM h.1)]
        show (ts2 i).shape = (nbrs T' i).map _ ∧ ∀ t, t.length = (nbrs T' i).length → (ts2 i).get t = _
        rw [hts, hnb, axesLab_node hil]
        refine ⟨?_, fun t ht => ?_⟩
        · have := shape_axesLab hx hroot hr0 hi hai
          rwa [axesLab_node hil] at this
        · rw [relabel_self (nodup_nbrs hV hi) ht]
  have hrank : ¬ 1 < x.rank r := by
    unfold TBT.rank
    have hrl := hx.root_internal hroot
    rw [if_neg (fun h => hrl ((isLeaf_mem _ _).1 h)), if_neg]
    · omega
    · rintro (h | h)
      · exact h ((parent_eq_zero hroot.1).2 hroot)
      · have := (hx.node r hroot.1 hrl).2.1
        rw [hr0, List.append_nil] at this
        unfold Arr.order at h
        rw [this] at h
        simp at h
  refine ⟨⟨T', ts2⟩, M, ?_, t1, H.wf', t3, H.rank', H.shape', H.full_same, ?_, ?_⟩
  · unfold changeRoot
    simp only [hr, bind, Except.bind]
    rw [if_neg hnr, if_neg (by simp [ha]), if_neg hrank, t1]
    simp only [l1, m1]
    exact mk_wf H.wf'
  · intro a c h1 h3
    have han : AncSelf x.tree a nod := .head h1 h3
    have he := (H.edges c a h1.2.1 h1.1).2 (.inr ⟨h1, h3⟩)
    rw [H.shaped'.lastDim (H.of_node h1.1) (fun h => h.2 c he) (by rw [H.active_old h1.1]; exact H.path_act han)]
    exact H.newRank_path h1 h3
  · intro c hc hoff hac
    have hex : ∃ p, Edge x.tree p c := by
      by_contra hno
      refine hoff ?_
      obtain ⟨r', hr', hall⟩ := hV.rooted
      rw [root_unique hV ⟨hc, fun p hp => hno ⟨p, hp⟩⟩ hr']
      exact hall nod hn
    obtain ⟨q, hq⟩ := hex
    rw [H.shaped'.lastDim (H.of_node hc) (fun h => h.2 q (H.off_edge hq hoff)) (by rw [H.active_old hc]; exact hac)]
    exact H.newRank_off hoff

/-- C201. An inactive node is refused. -/
theorem changeRoot_inactive [Zero R] (x : TBT R) (r nod : Nat) (hr : x.tree.root = .ok r) (hne : nod ≠ r) (ha : x.active nod = false) :
    changeRoot x nod = .error .assertionError := by
  unfold changeRoot
  simp only [hr, bind, Except.bind]
  rw [if_neg hne, ha]
  rfl

/-- C201, what is proved: the errors. A tensor with several outputs (rank of the root greater than one): the method calls `addChild`, which does not exist. -/
theorem changeRoot_outputs_partial [Zero R] (x : TBT R) (r nod : Nat) (hr : x.tree.root = .ok r) (hne : nod ≠ r) (ha : x.active nod = true)
    (h : 1 < x.rank r) : changeRoot x nod = .error .attributeError := by
  unfold changeRoot
  simp only [hr, bind, Except.bind]
  rw [if_neg hne, if_neg (by simp [ha]), if_pos h]

theorem loop_root_raises {x : TBT R} {T' : DTree} {r : Nat} (hact : x.active r = true) (hl : x.tree.isLeaf r = false)
    (hb : ∀ T', FullTensor.transposeT (x.tensors r) (axesOf (nbrs x.tree r) (nbrs T' r)) = .error .valueError) :
    ∀ (M : List Nat) (ts : Nat → Arr R), M.Nodup → r ∈ M → ts r = x.tensors r → M.foldlM (rerootStep x T') ts = .error .valueError := by
  intro M
  induction M with
  | nil => intro ts _ h; simp at h
  | cons m M ih =>
    intro ts hnd hm hts
    rw [List.nodup_cons] at hnd
    rw [List.foldlM_cons]
    by_cases h : m = r
    · subst h
      unfold rerootStep
      rw [hact, hl, if_pos (by rfl), hts, hb]
      rfl
    · have hrM : r ∈ M := (List.mem_cons.1 hm).resolve_left (Ne.symm h)
      unfold rerootStep
      split
      · unfold FullTensor.transposeT
        split
        · refine ih _ hnd.2 hrM ?_
          unfold upd
          rw [if_neg (Ne.symm h)]
          exact hts
        · rfl
      · exact ih ts hnd.2 hrM hts

/-- C201. A tensor whose root has an output axis of size one: `numpy.transpose` refuses the permutation of the other axes. -/
theorem changeRoot_axis [CommSemiring R] (x : TBT R) (hx : WF x) (r : Nat) (hr : x.tree.root = .ok r) (hr0 : rankShape x r = [1])
    (h2 : ∃ c c', c ≠ c' ∧ Edge x.tree r c ∧ Edge x.tree r c') (nod : Nat) (hn : IsNode x.tree nod) (hne : nod ≠ r)
    (ha : x.active nod = true) : changeRoot x nod = .error .valueError := by
  obtain ⟨r', hr', hroot⟩ := root_ok hx.valid
  rw [hr] at hr'; cases hr'
  obtain ⟨T', M, t1, t2, t3, t4, t5, t6, _⟩ := changeRoot_spec hx.valid nod hn (fun q hq => by
    rw [root_unique hx.valid hq hroot]; exact h2)
  have hrl := hx.root_internal hroot
  have hs := (hx.node r hroot.1 hrl).2.1
  rw [hr0] at hs
  have hleaf : x.tree.isLeaf r = false := by
    by_contra hc; exact hrl ((isLeaf_mem _ _).1 (by simpa using hc))
  have hrank : ¬ 1 < x.rank r := by
    unfold TBT.rank
    rw [if_neg (by simp [hleaf])]
    split
    · rw [lastDim_of_shape hs]; omega
    · omega
  have hnroot : ¬ IsRoot x.tree nod := fun h => hne (root_unique hx.valid h hroot)
  have hrM : r ∈ M := by
    refine (t6 hnroot r).2 ⟨r, ?_, .inl rfl⟩
    obtain ⟨r', hr', hall⟩ := hx.valid.rooted
    rw [root_unique hx.valid hroot hr']
    exact hall nod hn
  have hlen : (nbrs x.tree r).length = (x.tree.children r).length := by
    unfold nbrs; rw [parentList_root hroot]; simp
  have hb : ∀ T', FullTensor.transposeT (x.tensors r) (axesOf (nbrs x.tree r) (nbrs T' r)) = .error .valueError := by
    intro T'
    unfold FullTensor.transposeT
    rw [if_neg]
    intro hp
    have : (x.tree.children r).length ∈ axesOf (nbrs x.tree r) (nbrs T' r) := by
      rw [hp.mem_iff]
      unfold Arr.order
      rw [hs]; simp
    unfold axesOf at this
    rw [List.mem_flatMap] at this
    obtain ⟨c, _, hc⟩ := this
    rw [List.mem_filter, List.mem_range, hlen] at hc
    exact absurd hc.1 (by simp)
  unfold changeRoot
  simp only [hr, bind, Except.bind]
  rw [if_neg hne, if_neg (by simp [ha]), if_neg hrank, t1]
  simp only [loop_root_raises (x := x) (T' := T') (hx.node r hroot.1 hrl).1 hleaf hb M x.tensors (modified_nodup t1) hrM rfl]

/-! ### a concrete case -/

/-- A tensor of shape `3 × 2 × 2` without output axis; the leaf of dimension 1 is inactive. -/
def crT : TBT Int where
  tree := exTree
  tensors := fun i => match i with
    | 1 => ⟨[3, 2], fun t => t.getD 0 0 + 2 * t.getD 1 0⟩
    | 2 => ⟨[2, 2, 3], fun t => t.getD 0 0 * t.getD 1 0 + t.getD 2 0⟩
    | 3 => ⟨[3, 2], fun t => 1 + t.getD 0 0 * t.getD 1 0⟩
    | 5 => ⟨[2, 2], fun t => t.getD 0 0 - t.getD 1 0⟩
    | _ => ⟨[0], fun _ => 0⟩

theorem crT_wf : WF crT := wf_of_wfB _ exTree_valid (by decide +kernel)

/-- The hypotheses of `changeRoot_full` are met, for an internal node and for a leaf. -/
example : ∃ x' M, changeRoot crT 3 = .ok x' ∧ crT.tree.changeRoot 3 = .ok (x'.tree, M) ∧ x'.shape = crT.shape := by
  obtain ⟨x', M, h1, h2, _, _, _, h3, _⟩ := changeRoot_full crT crT_wf 1 (by decide +kernel) (by decide +kernel)
    ⟨2, 5, by decide, ⟨⟨by decide +kernel, by decide +kernel⟩, ⟨by decide +kernel, by decide +kernel⟩, by decide +kernel⟩,
      ⟨⟨by decide +kernel, by decide +kernel⟩, ⟨by decide +kernel, by decide +kernel⟩, by decide +kernel⟩⟩ 3
    ⟨by decide +kernel, by decide +kernel⟩ (by decide +kernel)
  exact ⟨x', M, h1, h2, h3⟩

/-- A number per exception. -/
def errCode : PyErr → Nat
  | .valueError => 1
  | .attributeError => 2
  | .assertionError => 3
  | _ => 4

/-- The number of the exception (0 if there is none), the tree, the shapes of the tensors and an entry after the change of root. -/
def rerootAt (x : TBT Int) (nod : Nat) (idx : List Nat) :
    List (List Nat) × Option (List Nat × Int) :=
  match changeRoot x nod with
  | .ok y => ([0] :: y.tree.nodes.map y.tree.parent :: y.tree.dim2ind :: y.tree.nodes.map (fun i => (y.tensors i).shape), fullAt y idx)
  | .error e => ([[errCode e]], none)

example : fullAt crT [2, 1, 1] = some ([3, 2, 2], 29) := by decide +kernel

example : rerootAt crT 2 [2, 1, 1] =
    ([[0], [2, 0, 2, 2, 1], [3, 4, 5], [2, 3], [3, 2, 2], [3, 2], [0], [2, 2]], some ([3, 2, 2], 29)) := by decide +kernel

example : rerootAt crT 3 [2, 1, 1] = ([[0], [2, 3, 0, 2, 1, 3], [6, 4, 5], [2, 3], [3, 2, 2], [2, 3], [0], [2, 2], [0]],
    some ([3, 2, 2], 29)) := by decide +kernel

/-- C201. An output axis, even of size one, is not accepted: `crTout 1` has the entries of `crT` and an output axis of size
one, `crTout 2` has two outputs. -/
def crTout (m : Nat) : TBT Int where
  tree := exTree
  tensors := fun i => if i = 1 then ⟨[3, 2, m], fun t => t.getD 0 0 + 2 * t.getD 1 0 + t.getD 2 0⟩ else crT.tensors i

theorem crTout_wf : WF (crTout 1) ∧ WF (crTout 2) :=
  ⟨wf_of_wfB _ exTree_valid (by decide +kernel), wf_of_wfB _ exTree_valid (by decide +kernel)⟩

theorem changeRoot_outputs_witness : fullAt (crTout 1) [2, 1, 1, 0] = some ([3, 2, 2, 1], 29) ∧
    rerootAt (crTout 1) 2 [2, 1, 1] = ([[1]], none) ∧
    rerootAt (crTout 2) 2 [2, 1, 1] = ([[2]], none) ∧
    rerootAt crT 4 [2, 1, 1] = ([[3]], none) := by decide +kernel

end Verif.TreeBased
