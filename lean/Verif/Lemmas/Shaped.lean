import Verif.Lemmas.TreeLeaf
import Verif.Props.TreeModes

/-!
# Tree-based tensors with given ranks and dimensions
-/

namespace Verif.TreeBased

open Verif.Arr Verif.DimTree Finset

variable {R : Type}

open Classical in
/-- `z` has the tree `T`, the active nodes `act`, the ranks `ρ`, the dimensions `ν` and the shape `E` of the rank axis
of the root. -/
structure Shaped (z : TBT R) (T : DTree) (act : Nat → Bool) (ρ ν : Nat → Nat) (E : List Nat) : Prop where
  tree : z.tree = T
  rho : ∀ i, IsNode T i → ¬ IsRoot T i → act i = true → 0 < ρ i
  nu : ∀ c ∈ T.dim2ind, 0 < ν c
  rootPos : ∀ n ∈ E, n ≠ 0
  rootLen : E.length ≤ 1
  leaf : ∀ c ∈ T.dim2ind, act c = true → (z.tensors c).shape = [ν c, ρ c]
  off : ∀ c ∈ T.dim2ind, ¬ act c = true → (z.tensors c).shape.prod = 0
  internal : ∀ i, IsNode T i → i ∉ T.dim2ind → act i = true
  node : ∀ i, IsNode T i → i ∉ T.dim2ind → (z.tensors i).shape =
    (T.children i).map (fun c => if act c then ρ c else ν c) ++ (if IsRoot T i then E else [ρ i])

/-- Every well-formed tensor is of this form. -/
theorem WF.shaped {x : TBT R} (h : WF x) {r : Nat} (hroot : IsRoot x.tree r) :
    Shaped x x.tree x.active x.lastDim x.leafSize (rankShape x r) := by
  have hrl := h.root_internal hroot
  have hpos : ∀ i, x.active i = true → ∀ n ∈ (x.tensors i).shape, n ≠ 0 := fun i hi => prod_ne_zero.1 hi
  refine ⟨rfl, ?_, ?_, ?_, (h.node r hroot.1 hrl).2.2.1, ?_, ?_, fun i hi hl => (h.node i hi hl).1, ?_⟩
  · intro i hi hr ha
    by_cases hl : i ∈ x.tree.dim2ind
    · obtain ⟨n, q, hs⟩ := h.leaf i hl ha
      have := hpos i ha q (by rw [hs]; simp)
      rw [lastDim_of_shape (s := [n]) (r := q) (by simpa using hs)]; omega
    · have := h.rs_eq hi hr
      rw [rs_node hl] at this
      have h2 := (h.node i hi hl).2.1
      rw [this] at h2
      have := hpos i ha (x.lastDim i) (by rw [h2]; simp)
      omega
  · intro c hc
    unfold TBT.leafSize
    split
    · rename_i ha
      obtain ⟨n, q, hs⟩ := h.leaf c hc ha
      have := hpos c ha n (by rw [hs]; simp)
      rw [hs]; simp; omega
    · have he := leaf_has_parent h hc
      have hpl := edge_internal h.valid he
      have hn := h.node _ he.1 hpl
      have hlt := childAxis_lt h.valid he
      have hlt' : childAxis x.tree c < (x.tensors (x.tree.parent c)).shape.length := by
        rw [hn.2.1]; simp; omega
      show 0 < (x.tensors (x.tree.parent c)).shape.getD (childAxis x.tree c) 0
      rw [List.getD_eq_getElem _ _ hlt']
      exact Nat.pos_of_ne_zero (hpos _ hn.1 _ (List.getElem_mem hlt'))
  · intro n hn
    have hna := h.node r hroot.1 hrl
    refine hpos r hna.1 n ?_
    rw [hna.2.1]; simp [hn]
  · intro c hc ha
    obtain ⟨n, q, hs⟩ := h.leaf c hc ha
    rw [lastDim_of_shape (x := x) (s := [n]) (r := q) (by simpa using hs)]
    unfold TBT.leafSize; rw [if_pos ha, hs]; rfl
  · intro c hc ha
    by_contra hne
    exact ha (by unfold TBT.active; simpa using hne)
  · intro i hi hl
    rw [(h.node i hi hl).2.1]
    congr 1
    by_cases hir : IsRoot x.tree i
    · rw [if_pos hir, root_unique h.valid hir hroot]
    · rw [if_neg hir, ← rs_node hl, h.rs_eq hi hir]

namespace Shaped

variable {z : TBT R} {T : DTree} {act : Nat → Bool} {ρ ν : Nat → Nat} {E : List Nat}
  (hs : Shaped z T act ρ ν E) (hV : Valid T) (ho : 2 ≤ T.dim2ind.length)

section
include hs

theorem rankShape_root {r : Nat} (hr : IsRoot T r) (hrl : r ∉ T.dim2ind) : rankShape z r = E := by
  unfold TreeBased.rankShape
  rw [hs.tree, hs.node r hr.1 hrl, if_pos hr, List.drop_left' (by simp)]

theorem rankShape_node {i : Nat} (hi : IsNode T i) (hl : i ∉ T.dim2ind) (hr : ¬ IsRoot T i) : rankShape z i = [ρ i] := by
  unfold TreeBased.rankShape
  rw [hs.tree, hs.node i hi hl, if_neg hr, List.drop_left' (by simp)]

theorem lastDim {i : Nat} (hi : IsNode T i) (hr : ¬ IsRoot T i) (ha : act i = true) : z.lastDim i = ρ i := by
  by_cases hl : i ∈ T.dim2ind
  · exact lastDim_of_shape (s := [ν i]) (by simpa using hs.leaf i hl ha)
  · have := hs.node i hi hl
    rw [if_neg hr] at this
    exact lastDim_of_shape this

end

theorem root_internal' {T : DTree} (hV : Valid T) (ho : 2 ≤ T.dim2ind.length) {r : Nat} (hr : IsRoot T r) :
    r ∉ T.dim2ind := by
  intro hm
  have hno := ((hV.leaves r).1 hm).2
  obtain ⟨r', hr', hall⟩ := hV.rooted
  have : r = r' := root_unique hV hr hr'
  subst this
  have hone : ∀ j, IsNode T j → j = r := by
    intro j hj
    rcases Relation.ReflTransGen.cases_head (hall j hj) with h1 | ⟨c, h1, _⟩
    · exact h1.symm
    · exact absurd h1 (hno c)
  have hnd := hV.nodup
  have h0 : T.dim2ind[0] = r := hone _ ((hV.leaves _).1 (List.getElem_mem _)).1
  have h1 : T.dim2ind[1] = r := hone _ ((hV.leaves _).1 (List.getElem_mem _)).1
  have := (List.Nodup.getElem_inj_iff hnd (i := 0) (j := 1) (hi := by omega) (hj := by omega)).1 (h0.trans h1.symm)
  omega

section
include hs hV ho

theorem nodes_pos {i : Nat} (hi : IsNode T i) (ha : act i = true) : ∀ n ∈ (z.tensors i).shape, n ≠ 0 := by
  by_cases hl : i ∈ T.dim2ind
  · rw [hs.leaf i hl ha]
    have h1 := hs.nu i hl
    intro n hn
    have h2 := hs.rho i hi (fun hr => root_internal' hV ho hr hl) ha
    simp at hn; omega
  · rw [hs.node i hi hl]
    intro n hn
    rw [List.mem_append, List.mem_map] at hn
    rcases hn with ⟨c, hc, rfl⟩ | hn
    · have hce := (mem_children i c hi).1 hc
      have hcr : ¬ IsRoot T c := fun h => h.2 i hce
      split
      · rename_i hac
        have := hs.rho c hce.2.1 hcr hac; omega
      · rename_i hac
        have hcl : c ∈ T.dim2ind := by
          by_contra hn; exact hac (hs.internal c hce.2.1 hn)
        have := hs.nu c hcl; omega
    · split at hn
      · exact hs.rootPos n hn
      · rename_i hr
        have := hs.rho i hi hr ha
        simp at hn; omega

theorem active {i : Nat} (hi : IsNode T i) : z.active i = act i := by
  by_cases ha : act i = true
  · rw [ha]
    exact prod_ne_zero.2 (hs.nodes_pos hV ho hi ha)
  · have hl : i ∈ T.dim2ind := by by_contra hn; exact ha (hs.internal i hi hn)
    have := hs.off i hl ha
    unfold TBT.active
    rw [this]; simpa using ha

theorem leafSize {c : Nat} (hc : c ∈ T.dim2ind) : z.leafSize c = ν c := by
  have hn := ((hV.leaves c).1 hc).1
  unfold TBT.leafSize
  rw [hs.active hV ho hn]
  split
  · rename_i ha
    rw [hs.leaf c hc ha]; rfl
  · rename_i ha
    have hr : ¬ IsRoot T c := fun hr => root_internal' hV ho hr hc
    have hex : ∃ p, Edge T p c := by
      by_contra hno
      exact hr ⟨hn, fun p hp => hno ⟨p, hp⟩⟩
    obtain ⟨p, he⟩ := hex
    rw [hs.tree, edge_parent hV he]
    have hpl := edge_internal hV he
    show (z.tensors p).shape.getD (childAxis T c) 0 = _
    rw [hs.node p he.1 hpl, List.getD_append _ _ _ _ (by simpa using childAxis_lt hV he)]
    have hlt := childAxis_lt hV he
    rw [List.getD_eq_getElem _ _ (by simpa using hlt), List.getElem_map]
    have := children_getD hV he
    rw [List.getD_eq_getElem _ _ hlt] at this
    rw [this, if_neg ha]

theorem childSize {c : Nat} (hc : IsNode T c) (hr : ¬ IsRoot T c) : childSize z c = if act c then ρ c else ν c := by
  unfold TreeBased.childSize
  rw [hs.active hV ho hc]
  split
  · rename_i ha; exact hs.lastDim hc hr ha
  · rename_i ha
    exact hs.leafSize hV ho (by by_contra hn; exact ha (hs.internal c hc hn))

theorem shapeEq : z.shape = T.dim2ind.map ν := by
  unfold TBT.shape
  rw [hs.tree]
  exact List.map_congr_left (fun c hc => hs.leafSize hV ho hc)

theorem wf : WF z := by
  refine ⟨hs.tree ▸ hV, hs.tree ▸ ho, ?_, ?_⟩
  · intro c hc ha
    rw [hs.tree] at hc
    rw [hs.active hV ho ((hV.leaves c).1 hc).1] at ha
    exact ⟨_, _, hs.leaf c hc ha⟩
  · intro i hi hl
    rw [hs.tree] at hi hl
    have hch : (z.tree.children i).map (TreeBased.childSize z) = (T.children i).map (fun c => if act c then ρ c else ν c) := by
      rw [hs.tree]
      refine List.map_congr_left (fun c hc => ?_)
      have hce := (mem_children i c hi).1 hc
      exact hs.childSize hV ho hce.2.1 (fun h => h.2 i hce)
    rw [hch, hs.active hV ho hi, hs.tree]
    refine ⟨hs.internal i hi hl, ?_, ?_, ?_⟩
    · by_cases hr : IsRoot T i
      · rw [hs.rankShape_root hr hl, hs.node i hi hl, if_pos hr]
      · rw [hs.rankShape_node hi hl hr, hs.node i hi hl, if_neg hr]
    · by_cases hr : IsRoot T i
      · rw [hs.rankShape_root hr hl]; exact hs.rootLen
      · rw [hs.rankShape_node hi hl hr]; simp
    · intro hr
      rw [hs.rankShape_node hi hl hr]; rfl

end
end Shaped
end Verif.TreeBased
