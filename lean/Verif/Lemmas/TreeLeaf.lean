import Verif.Lemmas.TreeValue

/-!
# Acting on one dimension of a tree-based tensor

The axis of one dimension of the tensor that carries it (the matrix of an active leaf, or the tensor of the parent of
an inactive leaf) is contracted with a matrix: the dense tensor is contracted with the same matrix along this dimension.
-/

namespace Verif.TreeBased

open Verif.Arr Verif.DimTree Finset

variable {R : Type}

theorem childSum_congrI [CommSemiring R] (x : TBT R) {V V' : Nat → List Nat → List Nat → R} {idx idx' : List Nat}
    (cs : List Nat) (k : List Nat → R) (hV : ∀ c ∈ cs, x.active c → ∀ s, V' c idx [s] = V c idx' [s])
    (hi : ∀ c ∈ cs, ¬ x.active c → idx.getD (dimOf x.tree c) 0 = idx'.getD (dimOf x.tree c) 0) :
    childSum x V' idx cs k = childSum x V idx' cs k := by
  induction cs generalizing k with
  | nil => rfl
  | cons c cs ih =>
    have ih' := fun k => ih k (fun c' hc' => hV c' (by simp [hc'])) (fun c' hc' => hi c' (by simp [hc']))
    unfold childSum
    split
    · rename_i ha
      exact sum_congr rfl (fun s _ => by rw [ih', hV c (by simp) ha])
    · rename_i ha
      rw [ih', hi c (by simp) ha]

/-- The value of one child is a linear combination. -/
theorem childSum_lin [CommSemiring R] (x : TBT R) {V V' : Nat → List Nat → List Nat → R} {idx : List Nat} (n : Nat)
    (idx' : Nat → List Nat) (m : Nat → R) (cs : List Nat) (hnd : cs.Nodup) (c' : Nat) (hc' : c' ∈ cs) (hca : x.active c')
    (k : List Nat → R) (h1 : ∀ s, V' c' idx [s] = ∑ j ∈ range n, V c' (idx' j) [s] * m j)
    (h2 : ∀ c ∈ cs, c ≠ c' → x.active c → ∀ j < n, ∀ s, V' c idx [s] = V c (idx' j) [s])
    (h3 : ∀ c ∈ cs, ¬ x.active c → ∀ j < n, idx.getD (dimOf x.tree c) 0 = (idx' j).getD (dimOf x.tree c) 0) :
    childSum x V' idx cs k = ∑ j ∈ range n, childSum x V (idx' j) cs k * m j := by
  induction cs generalizing k with
  | nil => simp at hc'
  | cons c cs ih =>
    rw [List.nodup_cons] at hnd
    by_cases hcc : c = c'
    · subst hcc
      unfold childSum
      rw [if_pos hca]
      simp only [if_pos hca, sum_mul]
      rw [sum_comm]
      apply sum_congr rfl
      intro s _
      rw [h1, sum_mul]
      apply sum_congr rfl
      intro j hj
      have hj := mem_range.1 hj
      rw [childSum_congrI x (V := V) (idx' := idx' j) cs _
        (fun c'' hc'' ha s => h2 c'' (by simp [hc'']) (fun e => hnd.1 (e ▸ hc'')) ha j hj s)
        (fun c'' hc'' ha => h3 c'' (by simp [hc'']) ha j hj)]
      ring
    · have hmem : c' ∈ cs := by simpa [Ne.symm hcc] using hc'
      have ih' := fun k => ih hnd.2 hmem k (fun c'' hc'' => h2 c'' (by simp [hc''])) (fun c'' hc'' => h3 c'' (by simp [hc'']))
      unfold childSum
      by_cases ha : x.active c = true
      · simp only [if_pos ha, sum_mul]
        rw [sum_comm]
        apply sum_congr rfl
        intro s _
        rw [ih', mul_sum]
        apply sum_congr rfl
        intro j hj
        rw [h2 c (by simp) hcc ha j (mem_range.1 hj) s]; ring
      · simp only [if_neg ha]
        rw [ih']
        apply sum_congr rfl
        intro j hj
        rw [h3 c (by simp) ha j (mem_range.1 hj)]

/-- The subscript of an inactive child is read at its position. -/
theorem childSum_set [CommSemiring R] (x : TBT R) {V : Nat → List Nat → List Nat → R} {idx idx' : List Nat} (j : Nat)
    (cs : List Nat) (hnd : cs.Nodup) (c' : Nat) (hc' : c' ∈ cs) (hca : ¬ x.active c') (k : List Nat → R)
    (h1 : idx'.getD (dimOf x.tree c') 0 = j)
    (h2 : ∀ c ∈ cs, x.active c → ∀ s, V c idx [s] = V c idx' [s])
    (h3 : ∀ c ∈ cs, c ≠ c' → ¬ x.active c → idx.getD (dimOf x.tree c) 0 = idx'.getD (dimOf x.tree c) 0) :
    childSum x V idx' cs k = childSum x V idx cs (fun t => k (t.set (cs.idxOf c') j)) := by
  induction cs generalizing k with
  | nil => simp at hc'
  | cons c cs ih =>
    rw [List.nodup_cons] at hnd
    by_cases hcc : c = c'
    · subst hcc
      unfold childSum
      rw [if_neg hca, if_neg hca, h1]
      simp only [List.idxOf_cons_self, List.set_cons_zero]
      refine (childSum_congrI x cs _ ?_ ?_).symm
      · exact fun c'' hc'' ha s => h2 c'' (by simp [hc'']) ha s
      · exact fun c'' hc'' ha => h3 c'' (by simp [hc'']) (fun e => hnd.1 (e ▸ hc'')) ha
    · have hmem : c' ∈ cs := by simpa [Ne.symm hcc] using hc'
      have ih' := fun k => ih hnd.2 hmem k (fun c'' hc'' => h2 c'' (by simp [hc''])) (fun c'' hc'' => h3 c'' (by simp [hc'']))
      unfold childSum
      rw [List.idxOf_cons_ne _ hcc]
      simp only [List.set_cons_succ]
      by_cases ha : x.active c = true
      · simp only [if_pos ha]
        exact sum_congr rfl (fun s _ => by rw [ih', h2 c (by simp) ha])
      · simp only [if_neg ha]
        rw [ih', h3 c (by simp) hcc ha]

/-- The value of a node depends on the subscripts of the dimensions below it only. -/
theorem value_indep [CommSemiring R] (x : TBT R) (h : WF x) {V : Nat → List Nat → List Nat → R} (hV : IsValue x V)
    {idx idx' : List Nat} : ∀ i, IsNode x.tree i → x.active i →
      (∀ c ∈ x.tree.dim2ind, AncSelf x.tree i c → idx.getD (dimOf x.tree c) 0 = idx'.getD (dimOf x.tree c) 0) →
      ∀ e, V i idx e = V i idx' e := by
  refine h.valid.induct ?_
  intro i hi ih ha hd e
  by_cases hl : i ∈ x.tree.dim2ind
  · rw [hV.leaf i hl ha, hV.leaf i hl ha, hd i hl .refl]
  · rw [hV.node i hi hl, hV.node i hi hl]
    apply childSum_congrI
    · intro c hc hca s
      have hce := (mem_children i c hi).1 hc
      exact ih c hce hca (fun l hl' ha' => hd l hl' (Relation.ReflTransGen.head hce ha')) [s]
    · intro c hc hca
      have hce := (mem_children i c hi).1 hc
      exact hd c (h.inactive_leaf hce.2.1 hca) (Relation.ReflTransGen.single hce)

/-! ### the position of a child -/

theorem edge_parent {T : DTree} (hV : Valid T) {p c : Nat} (he : Edge T p c) : T.parent c = p :=
  parent_eq_of_edge hV.unique_parent he

theorem childAxis_eq {T : DTree} (hV : Valid T) {p c : Nat} (he : Edge T p c) :
    childAxis T c = (T.children p).idxOf c := by
  have hp := edge_parent hV he
  have hm := (mem_children p c he.1).2 he
  unfold childAxis DTree.childNumber
  rw [hp, if_neg (by have := he.1.1; omega), if_pos hm]; rfl

theorem childAxis_lt {T : DTree} (hV : Valid T) {p c : Nat} (he : Edge T p c) :
    childAxis T c < (T.children p).length := by
  rw [childAxis_eq hV he]
  exact List.idxOf_lt_length_of_mem ((mem_children p c he.1).2 he)

theorem children_getD {T : DTree} (hV : Valid T) {p c : Nat} (he : Edge T p c) :
    (T.children p).getD (childAxis T c) 0 = c := by
  rw [childAxis_eq hV he, List.getD_eq_getElem _ _ (List.idxOf_lt_length_of_mem ((mem_children p c he.1).2 he)),
    List.getElem_idxOf]

theorem childAxis_inj {T : DTree} (hV : Valid T) {p c c' : Nat} (he : Edge T p c) (he' : Edge T p c')
    (h : childAxis T c = childAxis T c') : c = c' := by
  rw [← children_getD hV he, ← children_getD hV he', h]

theorem leaf_has_parent {x : TBT R} (h : WF x) {c : Nat} (hc : c ∈ x.tree.dim2ind) :
    Edge x.tree (x.tree.parent c) c := by
  have hn := ((h.valid.leaves c).1 hc).1
  have hnr : ¬ IsRoot x.tree c := fun hr => h.root_internal hr hc
  have : ∃ p, Edge x.tree p c := by
    by_contra hno
    exact hnr ⟨hn, fun p hp => hno ⟨p, hp⟩⟩
  obtain ⟨p, hp⟩ := this
  rw [edge_parent h.valid hp]; exact hp

theorem edge_internal {T : DTree} (hV : Valid T) {p c : Nat} (he : Edge T p c) : p ∉ T.dim2ind :=
  fun hm => ((hV.leaves p).1 hm).2 c he

theorem ancSelf_leaf {T : DTree} (hV : Valid T) {l c : Nat} (hl : l ∈ T.dim2ind) (h : AncSelf T l c) : l = c := by
  rcases ancSelf_cases h with h | ⟨d, h, _⟩
  · exact h
  · exact absurd h (((hV.leaves l).1 hl).2 d)

theorem dimOf_inj {T : DTree} {c c' : Nat} (h : c ∈ T.dim2ind) (h' : c' ∈ T.dim2ind) (he : dimOf T c = dimOf T c') :
    c = c' := by
  have h1 := dim2ind_dimOf h
  rw [he, dim2ind_dimOf h'] at h1
  exact (Option.some.inj h1).symm

theorem prod_ne_zero {l : List Nat} : (l.prod != 0) = true ↔ ∀ n ∈ l, n ≠ 0 := by
  simp [List.prod_eq_zero_iff]
  constructor
  · intro h n hn e; exact h (e ▸ hn)
  · intro h h0; exact h 0 h0 rfl

theorem mem_set_ne_zero {l : List Nat} (h : ∀ n ∈ l, n ≠ 0) (a : Nat) {v : Nat} (hv : 0 < v) : ∀ n ∈ l.set a v, n ≠ 0 := by
  intro n hn
  rcases List.mem_or_eq_of_mem_set hn with h1 | h1
  · exact h n h1
  · omega

/-! ### one step -/

/-- `x'` is `x` where the axis of the dimension of the leaf `c` has been contracted with the matrix `M` (`n'` rows). -/
structure LeafStep [CommSemiring R] (x x' : TBT R) (c n' : Nat) (M : Nat → Nat → R) : Prop where
  tree : x'.tree = x.tree
  other : ∀ i, i ≠ (carrier x c).1 → x'.tensors i = x.tensors i
  shape : (x'.tensors (carrier x c).1).shape = (x.tensors (carrier x c).1).shape.set (carrier x c).2 n'
  get : ∀ idx, InBox ((x.tensors (carrier x c).1).shape.set (carrier x c).2 n') idx →
    (x'.tensors (carrier x c).1).get idx =
      ∑ j ∈ range (x.leafSize c), (x.tensors (carrier x c).1).get (idx.set (carrier x c).2 j) * M (idx.getD (carrier x c).2 0) j

theorem carrier_active {x : TBT R} {c : Nat} (h : x.active c = true) : carrier x c = (c, 0) := by
  unfold carrier; rw [if_pos h]

theorem carrier_inactive {x : TBT R} {c : Nat} (h : ¬ x.active c) : carrier x c = (x.tree.parent c, childAxis x.tree c) := by
  unfold carrier; rw [if_neg h]

namespace LeafStep

variable [CommSemiring R] {x x' : TBT R} {c n' : Nat} {M : Nat → Nat → R} (hs : LeafStep x x' c n' M) (h : WF x)
  (hc : c ∈ x.tree.dim2ind) (hn : 0 < n')
include hs h hc hn

theorem active (i : Nat) : x'.active i = x.active i := by
  by_cases hi : i = (carrier x c).1
  · have h1 : x.active i = true := by
      by_cases ha : x.active c = true
      · rw [carrier_active ha] at hi; rw [hi]; exact ha
      · rw [carrier_inactive ha] at hi
        have he := leaf_has_parent h hc
        rw [hi]; exact (h.node _ he.1 (edge_internal h.valid he)).1
    rw [h1]
    unfold TBT.active
    rw [hi, hs.shape, prod_ne_zero]
    apply mem_set_ne_zero _ _ hn
    rw [← hi]
    exact prod_ne_zero.1 h1
  · unfold TBT.active; rw [hs.other i hi]

/-- The shape of the tensors of the nodes other than the carrier is the same; for the carrier one size changes. -/
theorem parent_shape (ha : ¬ x.active c) : (x'.tensors (x.tree.parent c)).shape =
    (x.tensors (x.tree.parent c)).shape.set (childAxis x.tree c) n' := by
  have := hs.shape
  rw [carrier_inactive ha] at this
  exact this

theorem rankShape (i : Nat) (hi : IsNode x.tree i) (hl : i ∉ x.tree.dim2ind) : rankShape x' i = TreeBased.rankShape x i := by
  unfold TreeBased.rankShape
  rw [hs.tree]
  by_cases hic : i = (carrier x c).1
  · by_cases ha : x.active c = true
    · rw [carrier_active ha] at hic; exact absurd hc (by rw [← show i = c from hic]; exact hl)
    · rw [carrier_inactive ha] at hic
      have he := leaf_has_parent h hc
      have hic' : i = x.tree.parent c := hic
      rw [hic', hs.parent_shape h hc hn ha, List.drop_set_of_lt (childAxis_lt h.valid he)]
  · rw [hs.other i hic]

theorem lastDim (i : Nat) (hi : IsNode x.tree i) (hr : ¬ IsRoot x.tree i) : x'.lastDim i = x.lastDim i := by
  by_cases hic : i = (carrier x c).1
  · by_cases ha : x.active c = true
    · obtain ⟨n, r, hsh⟩ := h.leaf c hc ha
      have h2 := hs.shape
      rw [carrier_active ha] at hic h2
      have hic' : i = c := hic
      subst hic'
      unfold TBT.lastDim
      rw [h2, hsh]; rfl
    · rw [carrier_inactive ha] at hic
      have he := leaf_has_parent h hc
      have hic' : i = x.tree.parent c := hic
      have hl : i ∉ x.tree.dim2ind := hic' ▸ edge_internal h.valid he
      obtain ⟨_, n2, _, n4⟩ := h.node i hi hl
      obtain ⟨q, hq⟩ := List.length_eq_one_iff.1 (n4 hr)
      have h2 := hs.parent_shape h hc hn ha
      rw [← hic', n2, hq, List.set_append_left _ _ (by
        rw [List.length_map, hic']; exact childAxis_lt h.valid he)] at h2
      rw [hq] at n2
      rw [lastDim_of_shape h2, lastDim_of_shape n2]
  · unfold TBT.lastDim; rw [hs.other i hic]

theorem leafSize_self : x'.leafSize c = n' := by
  unfold TBT.leafSize
  rw [hs.active h hc hn, hs.tree]
  by_cases ha : x.active c = true
  · obtain ⟨n, r, hsh⟩ := h.leaf c hc ha
    have h2 := hs.shape
    rw [carrier_active ha] at h2
    rw [if_pos ha, h2, hsh]; rfl
  · rw [if_neg ha, hs.parent_shape h hc hn ha]
    have he := leaf_has_parent h hc
    have hlt := childAxis_lt h.valid he
    have hlen : childAxis x.tree c < (x.tensors (x.tree.parent c)).shape.length := by
      rw [(h.node _ he.1 (edge_internal h.valid he)).2.1]; simp; omega
    show ((x.tensors (x.tree.parent c)).shape.set (childAxis x.tree c) n').getD (childAxis x.tree c) 0 = n'
    rw [List.getD_eq_getElem _ _ (by simpa using hlen), List.getElem_set_self]

theorem leafSize_ne (d : Nat) (hd : d ∈ x.tree.dim2ind) (hne : d ≠ c) : x'.leafSize d = x.leafSize d := by
  have hed := leaf_has_parent h hd
  have hec := leaf_has_parent h hc
  unfold TBT.leafSize
  rw [hs.active h hc hn, hs.tree]
  by_cases hac : x.active c = true
  · have e1 : x'.tensors d = x.tensors d := hs.other d (by rw [carrier_active hac]; exact hne)
    have e2 : x'.tensors (x.tree.parent d) = x.tensors (x.tree.parent d) := hs.other _ (by
      rw [carrier_active hac]
      exact fun e => edge_internal h.valid hed (e ▸ hc))
    rw [e1, e2]
  · have e1 : x'.tensors d = x.tensors d := hs.other d (by
      rw [carrier_inactive hac]
      intro e
      rw [show d = x.tree.parent c from e] at hd
      exact edge_internal h.valid hec hd)
    rw [e1]
    by_cases hp : x.tree.parent d = x.tree.parent c
    · rw [hp, hs.parent_shape h hc hn hac]
      have hax : childAxis x.tree c ≠ x.tree.childNumber d - 1 := fun e =>
        hne (childAxis_inj h.valid (hp ▸ hed) hec e.symm)
      simp only [List.getD_eq_getElem?_getD, List.getElem?_set_ne hax]
    · rw [hs.other _ (by rw [carrier_inactive hac]; exact hp)]

theorem childSize_ne (d : Nat) (hd : IsNode x.tree d) (hr : ¬ IsRoot x.tree d) (hne : d ≠ c) :
    childSize x' d = childSize x d := by
  unfold childSize
  rw [hs.active h hc hn]
  split
  · exact hs.lastDim h hc hn d hd hr
  · rename_i ha
    exact hs.leafSize_ne h hc hn d (h.inactive_leaf hd ha) hne

theorem childSize_self (ha : ¬ x.active c) : childSize x' c = n' := by
  unfold childSize
  rw [hs.active h hc hn, if_neg ha, hs.leafSize_self h hc hn]

theorem childSize_self_active (ha : x.active c) : childSize x' c = childSize x c := by
  unfold childSize
  rw [hs.active h hc hn, if_pos ha, if_pos ha]
  exact hs.lastDim h hc hn c ((h.valid.leaves c).1 hc).1 (fun hr => h.root_internal hr hc)

theorem shapeEq : x'.shape = x.shape.set (dimOf x.tree c) n' := by
  unfold TBT.shape
  rw [hs.tree]
  apply List.ext_getElem (by simp)
  intro k h1 h2
  have hk : k < x.tree.dim2ind.length := by simpa using h1
  have hm : x.tree.dim2ind[k] ∈ x.tree.dim2ind := List.getElem_mem hk
  rw [List.getElem_map, List.getElem_set]
  by_cases hkc : dimOf x.tree c = k
  · rw [if_pos hkc]
    have : x.tree.dim2ind[k] = c := by subst hkc; exact List.getElem_idxOf (dimOf_lt hc)
    rw [this]; exact hs.leafSize_self h hc hn
  · rw [if_neg hkc, List.getElem_map]
    refine hs.leafSize_ne h hc hn _ hm (fun e => hkc ?_)
    rw [← e]; exact h.valid.nodup.idxOf_getElem k hk

theorem wf : WF x' := by
  refine ⟨hs.tree ▸ h.valid, hs.tree ▸ h.order, ?_, ?_⟩
  · intro d hd ha
    rw [hs.tree] at hd
    rw [hs.active h hc hn] at ha
    by_cases hdc : d = (carrier x c).1
    · by_cases hac : x.active c = true
      · have h2 := hs.shape
        rw [carrier_active hac] at hdc h2
        have hdc' : d = c := hdc
        subst hdc'
        obtain ⟨n, r, hsh⟩ := h.leaf d hd ha
        exact ⟨n', r, by rw [h2, hsh]; rfl⟩
      · rw [carrier_inactive hac] at hdc
        exact absurd hd (by rw [hdc]; exact edge_internal h.valid (leaf_has_parent h hc))
    · rw [hs.other d hdc]; exact h.leaf d hd ha
  · intro i hi hl
    rw [hs.tree] at hi hl ⊢
    obtain ⟨n1, n2, n3, n4⟩ := h.node i hi hl
    rw [hs.active h hc hn, hs.rankShape h hc hn i hi hl]
    refine ⟨n1, ?_, n3, n4⟩
    by_cases hic : i = (carrier x c).1
    · by_cases hac : x.active c = true
      · rw [carrier_active hac] at hic; exact absurd hc (by rw [← show i = c from hic]; exact hl)
      · rw [carrier_inactive hac] at hic
        have hic' : i = x.tree.parent c := hic
        have he := leaf_has_parent h hc
        rw [← hic'] at he
        have hlt := childAxis_lt h.valid he
        have h2 := hs.parent_shape h hc hn hac
        rw [← hic', n2, List.set_append_left _ _ (by simpa using hlt)] at h2
        rw [h2]
        congr 1
        apply List.ext_getElem (by simp)
        intro k k1 k2
        have hk : k < (x.tree.children i).length := by simpa using k2
        have hck := (mem_children i _ hi).1 (List.getElem_mem hk)
        rw [List.getElem_set, List.getElem_map (f := childSize x')]
        by_cases hkc : childAxis x.tree c = k
        · rw [if_pos hkc]
          have : (x.tree.children i)[k] = c := by
            rw [← children_getD h.valid he, hkc, List.getD_eq_getElem _ _ hk]
          rw [this, hs.childSize_self h hc hn hac]
        · rw [if_neg hkc, List.getElem_map]
          refine (hs.childSize_ne h hc hn _ hck.2.1 (WF.child_not_root hck) (fun e => hkc ?_)).symm
          rw [← e, childAxis_eq h.valid hck]
          exact (nodup_children i).idxOf_getElem k hk
    · rw [hs.other i hic, n2]
      congr 1
      apply List.map_congr_left
      intro d hd
      have hde := (mem_children i d hi).1 hd
      by_cases hdc : d = c
      · subst hdc
        by_cases hac : x.active d = true
        · exact (hs.childSize_self_active h hc hn hac).symm
        · rw [carrier_inactive hac] at hic
          exact absurd (edge_parent h.valid hde).symm hic
      · exact (hs.childSize_ne h hc hn d hde.2.1 (WF.child_not_root hde) hdc).symm

open Classical in
/-- The values of `x'`. -/
noncomputable def newValue [CommSemiring R] (x : TBT R) (c : Nat) (M : Nat → Nat → R) (V : Nat → List Nat → List Nat → R)
    (i : Nat) (idx e : List Nat) : R :=
  if AncSelf x.tree i c then
    ∑ j ∈ range (x.leafSize c), V i (idx.set (dimOf x.tree c) j) e * M (idx.getD (dimOf x.tree c) 0) j
  else V i idx e

theorem value {V : Nat → List Nat → List Nat → R} (hV : IsValue x V) : IsValueOn x' (newValue x c M V) := by
  have hdl := dimOf_lt hc
  have hset : ∀ idx : List Nat, InBox x'.shape idx → ∀ j, (idx.set (dimOf x.tree c) j).getD (dimOf x.tree c) 0 = j := by
    intro idx hidx j
    have : dimOf x.tree c < idx.length := by
      rw [hidx.length_eq, hs.shapeEq h hc hn]; simpa [TBT.shape] using hdl
    rw [List.getD_eq_getElem _ _ (by simpa using this), List.getElem_set_self]
  have hset' : ∀ (idx : List Nat) (d : Nat), d ∈ x.tree.dim2ind → d ≠ c → ∀ j,
      (idx.set (dimOf x.tree c) j).getD (dimOf x.tree d) 0 = idx.getD (dimOf x.tree d) 0 := by
    intro idx d hd hne j
    simp only [List.getD_eq_getElem?_getD]
    rw [List.getElem?_set_ne (fun e => hne (dimOf_inj hd hc e.symm))]
  have hcn := ((h.valid.leaves c).1 hc).1
  -- children of a node: the tensors x and x' have the same structure
  have hX : ∀ (W : Nat → List Nat → List Nat → R) i idx k, IsNode x.tree i →
      childSum x' W idx (x.tree.children i) k = childSum x W idx (x.tree.children i) k := by
    intro W i idx k hi
    refine childSum_congrX (x := x) (x' := x') hs.tree W idx _ k (fun d _ => hs.active h hc hn d) (fun d hd _ => ?_)
    have hde := (mem_children i d hi).1 hd
    exact hs.lastDim h hc hn d hde.2.1 (WF.child_not_root hde)
  refine ⟨?_, ?_⟩
  · intro d hd ha idx s hidx hs'
    rw [hs.tree] at hd ⊢
    rw [hs.active h hc hn] at ha
    unfold newValue
    by_cases hdc : d = c
    · subst hdc
      rw [if_pos .refl]
      have h2 := hs.get
      rw [carrier_active ha] at h2
      obtain ⟨n, r, hsh⟩ := h.leaf d hd ha
      have hr : x'.lastDim d = r := by
        rw [hs.lastDim h hc hn d hcn (fun hr => h.root_internal hr hd)]
        exact lastDim_of_shape (s := [n]) hsh
      rw [hr] at hs'
      rw [h2 [idx.getD (dimOf x.tree d) 0, s] (by
        rw [hsh]
        show InBox [n', r] _
        have hlt := inBox_shape_getD (x := x') hidx (c := d) (by rw [hs.tree]; exact hd)
        rw [hs.leafSize_self h hd hn, hs.tree] at hlt
        simp only [inBox_cons_cons]
        exact ⟨hlt, hs', by simp⟩)]
      apply sum_congr rfl
      intro j _
      rw [hV.leaf d hd ha, hset idx hidx]
      rfl
    · rw [if_neg (fun hA => hdc (ancSelf_leaf h.valid hd hA)), hV.leaf d hd ha, hs.other d ?_]
      by_cases hac : x.active c = true
      · rw [carrier_active hac]; exact hdc
      · rw [carrier_inactive hac]
        intro e
        rw [show d = x.tree.parent c from e] at hd
        exact edge_internal h.valid (leaf_has_parent h hc) hd
  · intro i hi hl idx e hidx he
    rw [hs.tree] at hi hl
    rw [hs.tree, hX _ i idx _ hi]
    by_cases hA : AncSelf x.tree i c
    · have hLHS : newValue x c M V i idx e = ∑ j ∈ range (x.leafSize c),
          childSum x V (idx.set (dimOf x.tree c) j) (x.tree.children i) (fun t => (x.tensors i).get (t ++ e)) *
            M (idx.getD (dimOf x.tree c) 0) j := by
        unfold newValue
        rw [if_pos hA]
        exact sum_congr rfl (fun j _ => by rw [hV.node i hi hl])
      rw [hLHS]
      rcases ancSelf_cases hA with hic | ⟨c', hic', hc'c⟩
      · exact absurd hc (hic ▸ hl)
      have hc'm := (mem_children i c' hi).2 hic'
      -- the other children are not above `c`
      have huniq : ∀ d, Edge x.tree i d → AncSelf x.tree d c → d = c' := by
        intro d hd hdc
        by_contra hne
        obtain ⟨k, hk⟩ := exists_level h.valid hi
        exact hne (disjoint_of_level h.valid (.child hk hd) (.child hk hic') hdc hc'c)
      have hoth : ∀ d ∈ x.tree.children i, d ≠ c' → x.active d → ∀ j s,
          newValue x c M V d idx [s] = V d (idx.set (dimOf x.tree c) j) [s] := by
        intro d hd hne ha j s
        have hde := (mem_children i d hi).1 hd
        have hnA : ¬ AncSelf x.tree d c := fun hA => hne (huniq d hde hA)
        unfold newValue
        rw [if_neg hnA]
        refine value_indep x h hV d hde.2.1 ha (fun l hl' hdl => ?_) [s]
        rw [hset' idx l hl' (fun e => hnA (e ▸ hdl))]
      by_cases hB : c' = c ∧ ¬ x.active c
      · obtain ⟨rfl, hac⟩ := hB
        have hp : x.tree.parent c' = i := edge_parent h.valid hic'
        have h2 := hs.get
        rw [carrier_inactive hac, hp] at h2
        have hax := childAxis_eq h.valid hic'
        have hxlt := childAxis_lt h.valid hic'
        obtain ⟨_, n2, _, _⟩ := h.node i hi hl
        have hsh' := hs.parent_shape h hc hn hac
        rw [hp] at hsh'
        have hwf' := hs.wf h hc hn
        have n2' := (hwf'.node i (by rw [hs.tree]; exact hi) (by rw [hs.tree]; exact hl)).2.1
        rw [hs.tree] at n2'
        -- value of the node of `x'`
        have e1 : childSum x (newValue x c' M V) idx (x.tree.children i) (fun t => (x'.tensors i).get (t ++ e)) =
            childSum x V idx (x.tree.children i) (fun t => ∑ j ∈ range (x.leafSize c'),
              M (idx.getD (dimOf x.tree c') 0) j * (x.tensors i).get (t.set ((x.tree.children i).idxOf c') j ++ e)) := by
          rw [← hX (newValue x c' M V) i idx _ hi, ← hX V i idx _ hi]
          -- keep track of the subscript of the child `c'`
          have gen : ∀ (cs : List Nat) (k k' : List Nat → R), (∀ d ∈ cs, d ∈ x.tree.children i) → cs.Nodup →
              (∀ t, InBox (cs.map (childSize x')) t → (c' ∈ cs → t.getD (cs.idxOf c') 0 = idx.getD (dimOf x.tree c') 0) → k t = k' t) →
              childSum x' (newValue x c' M V) idx cs k = childSum x' V idx cs k' := by
            intro cs
            induction cs with
            | nil => intro k k' _ _ hk; exact hk [] (by simp) (by simp)
            | cons d cs ih =>
              intro k k' hm hnd hk
              rw [List.nodup_cons] at hnd
              have hde := (mem_children i d hi).1 (hm d (by simp))
              unfold childSum
              by_cases ha : x'.active d = true
              · rw [if_pos ha, if_pos ha]
                have ha' := ha
                rw [hs.active h hc hn] at ha'
                have hne : d ≠ c' := fun e => hac (e ▸ ha')
                apply sum_congr rfl
                intro s hs'
                have hs' := mem_range.1 hs'
                have hnA : ¬ AncSelf x.tree d c' := fun hA => hne (huniq d hde hA)
                rw [ih _ _ (fun d' hd' => hm d' (by simp [hd'])) hnd.2 (fun t ht hct => hk (s :: t) (by
                  rw [List.map_cons, inBox_cons_cons]
                  exact ⟨by unfold childSize; rw [if_pos ha]; exact hs', ht⟩) (by
                  intro hmem
                  rw [List.idxOf_cons_ne _ hne, List.getD_cons_succ]
                  exact hct (by simpa [Ne.symm hne] using hmem)))]
                unfold newValue
                rw [if_neg hnA]
              · rw [if_neg ha, if_neg ha]
                have ha' := ha
                rw [hs.active h hc hn] at ha'
                have hdl' : d ∈ x'.tree.dim2ind := by rw [hs.tree]; exact h.inactive_leaf hde.2.1 ha'
                refine ih _ _ (fun d' hd' => hm d' (by simp [hd'])) hnd.2 (fun t ht hct => hk _ (by
                  rw [List.map_cons, inBox_cons_cons]
                  exact ⟨by unfold childSize; rw [if_neg ha]; exact inBox_shape_getD hidx hdl', ht⟩) ?_)
                intro hmem
                by_cases hne : d = c'
                · subst hne; rw [List.idxOf_cons_self, hs.tree]; rfl
                · rw [List.idxOf_cons_ne _ hne, List.getD_cons_succ]
                  exact hct (by simpa [Ne.symm hne] using hmem)
          refine gen _ _ _ (fun d hd => hd) (nodup_children i) ?_
          intro t ht hct
          have hct := hct hc'm
          have htl : t.length = (x.tree.children i).length := by rw [ht.length_eq, List.length_map]
          have hlt' : childAxis x.tree c' < t.length := by rw [htl]; exact hxlt
          rw [h2 (t ++ e) (by
            rw [← hsh', n2']
            exact (inBox_append (by rw [List.length_map, htl])).2 ⟨ht, he⟩)]
          apply sum_congr rfl
          intro j _
          rw [List.set_append_left _ _ hlt', List.getD_append _ _ _ _ hlt', hax, hct, mul_comm]
        rw [e1, childSum_sum]
        apply sum_congr rfl
        intro j _
        rw [childSum_mul, mul_comm]
        congr 1
        refine childSum_set x (idx := idx) j (x.tree.children i) (nodup_children i) c' hc'm hac _ (hset idx hidx j) ?_ ?_
        · intro d hd ha s
          have hne : d ≠ c' := fun e => hac (e ▸ ha)
          have := hoth d hd hne ha j s
          unfold newValue at this
          rw [if_neg (fun hA => hne (huniq d ((mem_children i d hi).1 hd) hA))] at this
          exact this
        · intro d hd hne ha
          have hde := (mem_children i d hi).1 hd
          exact (hset' idx d (h.inactive_leaf hde.2.1 ha) hne j).symm
      · have hic : i ≠ (carrier x c).1 := by
          intro e
          by_cases hac : x.active c = true
          · rw [carrier_active hac] at e; exact hl (e ▸ hc)
          · rw [carrier_inactive hac] at e
            have hec := leaf_has_parent h hc
            rw [← show i = x.tree.parent c from e] at hec
            exact hB ⟨(huniq c hec .refl).symm, hac⟩
        rw [hs.other i hic]
        have hca : x.active c' = true := by
          by_contra hno
          have hcl := h.inactive_leaf hic'.2.1 hno
          have := ancSelf_leaf h.valid hcl hc'c
          exact hB ⟨this, this ▸ hno⟩
        symm
        refine childSum_lin x (x.leafSize c) (fun j => idx.set (dimOf x.tree c) j) (M (idx.getD (dimOf x.tree c) 0))
          (x.tree.children i) (nodup_children i) c' hc'm hca _ ?_ (fun d hd hne ha j _ s => hoth d hd hne ha j s) ?_
        · intro s
          unfold newValue
          rw [if_pos hc'c]
        · intro d hd ha j _
          have hde := (mem_children i d hi).1 hd
          refine (hset' idx d (h.inactive_leaf hde.2.1 ha) (fun e => ?_) j).symm
          subst e
          have := huniq d hde .refl
          exact hB ⟨this.symm, ha⟩
    · have hic : i ≠ (carrier x c).1 := by
        intro e
        by_cases hac : x.active c = true
        · rw [carrier_active hac] at e; exact hl (e ▸ hc)
        · rw [carrier_inactive hac] at e
          have hec := leaf_has_parent h hc
          rw [← show i = x.tree.parent c from e] at hec
          exact hA (.single hec)
      have hLHS : newValue x c M V i idx e = V i idx e := by unfold newValue; rw [if_neg hA]
      rw [hLHS, hs.other i hic, hV.node i hi hl]
      symm
      refine childSum_congrI x _ _ (fun d hd ha s => ?_) (fun _ _ _ => rfl)
      have hde := (mem_children i d hi).1 hd
      unfold newValue
      rw [if_neg (fun h' : AncSelf x.tree d c => hA (Relation.ReflTransGen.head hde h'))]

/-- The dense tensor of `x'` is the dense tensor of `x` contracted with `M` along the dimension of the leaf. -/
theorem full_step : ∃ y y', full x = .ok y ∧ full x' = .ok y' ∧ y'.shape = y.shape.set (dimOf x.tree c) n' ∧
    dimOf x.tree c < x.order ∧ x.order ≤ y.order ∧ y.shape.getD (dimOf x.tree c) 0 = x.leafSize c ∧
    ∀ idx, InBox y'.shape idx → y'.get idx =
      ∑ j ∈ range (x.leafSize c), y.get (idx.set (dimOf x.tree c) j) * M (idx.getD (dimOf x.tree c) 0) j := by
  obtain ⟨V, hV⟩ := exists_value x h.valid
  obtain ⟨r, hr, hroot⟩ := root_ok h.valid
  have hrl := h.root_internal hroot
  obtain ⟨y, y1, y2, y3⟩ := full_on x h hV.on hr
  obtain ⟨z, z1, z2, z3⟩ := full_on x' (hs.wf h hc hn) (hs.value h hc hn hV) (hs.tree ▸ hr)
  have hdl := dimOf_lt hc
  have hsl : dimOf x.tree c < x.shape.length := by simpa [TBT.shape] using hdl
  rw [hs.shapeEq h hc hn, hs.rankShape h hc hn r hroot.1 hrl] at z2 z3
  refine ⟨y, z, y1, z1, ?_, hdl, ?_, ?_, ?_⟩
  · rw [z2, y2, List.set_append_left _ _ hsl]
  · show _ ≤ y.shape.length
    rw [y2]; simp [TBT.shape, TBT.order]
  · rw [y2, List.getD_append _ _ _ _ hsl, shape_getD hc]
  · intro idx hidx
    rw [z2] at hidx
    obtain ⟨p, e, rfl, hp, he⟩ := inBox_append_split hidx
    have hpl : dimOf x.tree c < p.length := by rw [hp.length_eq]; simpa using hsl
    rw [z3 p e hp he]
    unfold newValue
    have hA : AncSelf x.tree r c := by
      obtain ⟨r', hr', hall⟩ := h.valid.rooted
      rw [root_unique h.valid hroot hr']
      exact hall c ((h.valid.leaves c).1 hc).1
    rw [if_pos hA]
    apply sum_congr rfl
    intro j hj
    have hj := mem_range.1 hj
    rw [List.set_append_left _ _ hpl, List.getD_append _ _ _ _ hpl, y3 _ e ?_ he]
    rw [inBox_iff_getD] at hp ⊢
    obtain ⟨p1, p2⟩ := hp
    refine ⟨by simpa using p1, fun k hk => ?_⟩
    have hk' : k < p.length := by rw [p1]; simpa using hk
    by_cases hkd : dimOf x.tree c = k
    · rw [← hkd, List.getD_eq_getElem _ _ (by simpa using hpl), List.getElem_set_self, shape_getD hc]; exact hj
    · have := p2 k (by simpa using hk)
      simp only [List.getD_eq_getElem?_getD, List.getElem?_set_ne hkd] at this ⊢
      exact this

end LeafStep

end Verif.TreeBased
