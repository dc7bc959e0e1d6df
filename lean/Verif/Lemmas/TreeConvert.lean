import Verif.Model.TreeConvert
import Verif.Lemmas.Shaped
import Verif.Lemmas.Gram
import Verif.Props.Diagonal
import Verif.Props.TreeFull

/-!
# Tree-based tensors with diagonal tensors at the nodes
-/

namespace Verif.TreeBased

open Verif.Arr Verif.DimTree Verif.Diagonal Finset

variable {R : Type} [CommSemiring R]

theorem prod_flatMap_map {α β : Type} (f : α → List β) (g : β → R) (l : List α) :
    ((l.flatMap f).map g).prod = (l.map (fun a => ((f a).map g).prod)).prod := by
  induction l with
  | nil => rfl
  | cons a l ih => rw [List.flatMap_cons, List.map_append, List.prod_append, ih, List.map_cons, List.prod_cons]

open Classical in
/-- The tensors of the internal nodes are diagonal, with ones but at the root; the tensors of the leaves are the matrices `M`. -/
structure DiagTree (z : TBT R) (T : DTree) (act : Nat → Bool) (v : List R) (n : Nat → Nat) (M : Nat → Nat → Nat → R) : Prop where
  tree : z.tree = T
  pos : 1 ≤ v.length
  npos : ∀ k, k < T.dim2ind.length → 1 ≤ n k
  leaf : ∀ c ∈ T.dim2ind, act c = true → (z.tensors c).shape = [n (dimOf T c), v.length] ∧
    ∀ j s, j < n (dimOf T c) → s < v.length → (z.tensors c).get [j, s] = M (dimOf T c) j s
  off : ∀ c ∈ T.dim2ind, ¬ act c = true → (z.tensors c).shape.prod = 0 ∧ n (dimOf T c) = v.length ∧
    ∀ j s, M (dimOf T c) j s = if j = s then 1 else 0
  internal : ∀ i, IsNode T i → i ∉ T.dim2ind → act i = true
  node : ∀ i, IsNode T i → i ∉ T.dim2ind → z.tensors i =
    if IsRoot T i then FullTensor.diag v (T.children i).length else FullTensor.diag (List.replicate v.length 1) ((T.children i).length + 1)

variable {z : TBT R} {T : DTree} {act : Nat → Bool} {v : List R} {n : Nat → Nat} {M : Nat → Nat → Nat → R}

theorem DiagTree.shaped (h : DiagTree z T act v n M) : Shaped z T act (fun _ => v.length) (fun c => n (dimOf T c)) [] := by
  refine ⟨h.tree, fun _ _ _ _ => h.pos, fun c hc => h.npos _ (List.idxOf_lt_length_of_mem hc), by simp, by simp,
    fun c hc ha => (h.leaf c hc ha).1, fun c hc ha => (h.off c hc ha).1, h.internal, fun i hi hl => ?_⟩
  have e : (T.children i).map (fun c => if act c then v.length else n (dimOf T c)) = List.replicate (T.children i).length v.length := by
    rw [List.eq_replicate_iff]
    refine ⟨by simp, fun b hb => ?_⟩
    obtain ⟨c, hc, rfl⟩ := List.mem_map.1 hb
    split
    · rfl
    · next ha =>
      have hcl : c ∈ T.dim2ind := by by_contra hn; exact ha (h.internal c ((mem_children i c hi).1 hc).2.1 hn)
      exact (h.off c hcl ha).2.1
  rw [e, h.node i hi hl]
  split
  · simp [FullTensor.diag]
  · show List.replicate _ (List.replicate v.length (1 : R)).length = _
    rw [List.length_replicate, List.replicate_succ']

/-- The values of the nodes: products over the dimensions below. -/
theorem DiagTree.value (h : DiagTree z T act v n M) (hV : Valid T) (ho : 2 ≤ T.dim2ind.length) {D : Nat → List Nat} (hD : T.dims = .ok D)
    {V : Nat → List Nat → List Nat → R} (hz : IsValue z V) {idx : List Nat} (hi : InBox z.shape idx) :
    (∀ i, IsNode T i → ¬ IsRoot T i → ∀ s, s < v.length → childVal z V i idx s = ((D i).map (fun k => M k (idx.getD k 0) s)).prod) ∧
    ∀ i, IsRoot T i → V i idx [] = ∑ s ∈ range v.length, v.getD s 0 * ((D i).map (fun k => M k (idx.getD k 0) s)).prod := by
  have hS := h.shaped
  obtain ⟨D', hD', hrec⟩ := dims_ok hV
  rw [hD] at hD'; cases hD'
  have hleaf := leaf_dims hV hD
  have hidx : ∀ k, k < T.dim2ind.length → idx.getD k 0 < n k := by
    intro k hk
    have := ((inBox_iff_getD _ _).1 hi).2 k (by rw [hS.shapeEq hV ho]; simpa using hk)
    rw [hS.shapeEq hV ho, List.getD_eq_getElem (T.dim2ind.map _) _ (by simpa using hk), List.getElem_map] at this
    rwa [show dimOf T T.dim2ind[k] = k from hV.nodup.idxOf_getElem k hk] at this
  have hbox : ∀ i, IsNode T i → ∀ c ∈ T.children i, ¬ z.active c → idx.getD (dimOf T c) 0 < childSize z c := by
    intro i hin c hc ha
    have he := (mem_children i c hin).1 hc
    rw [hS.active hV ho he.2.1] at ha
    have hcl : c ∈ T.dim2ind := by by_contra hn; exact ha (h.internal c he.2.1 hn)
    rw [hS.childSize hV ho he.2.1 (fun hr => hr.2 i he), if_neg ha]
    exact hidx _ (List.idxOf_lt_length_of_mem hcl)
  have hsz : ∀ i, IsNode T i → (z.tree.children i).map (childSize z) = List.replicate (T.children i).length v.length := by
    intro i hin
    rw [List.eq_replicate_iff]
    refine ⟨by simp [h.tree], fun b hb => ?_⟩
    obtain ⟨c, hc, rfl⟩ := List.mem_map.1 hb
    rw [h.tree] at hc
    have he := (mem_children i c hin).1 hc
    rw [hS.childSize hV ho he.2.1 (fun hr => hr.2 i he)]
    split
    · rfl
    · next ha =>
      have hcl : c ∈ T.dim2ind := by by_contra hn; exact ha (h.internal c he.2.1 hn)
      exact (h.off c hcl ha).2.1
  have hch : ∀ i, IsNode T i → i ∉ T.dim2ind → 1 ≤ (T.children i).length := by
    intro i hin hl
    by_contra h0
    have : T.children i = [] := List.length_eq_zero_iff.1 (by omega)
    refine hl ((hV.leaves i).2 ⟨hin, fun c hc => ?_⟩)
    have := (mem_children i c hin).2 hc
    simp_all
  have hprod : ∀ i (s : Nat), childProd z V (T.children i) idx (List.replicate (T.children i).length s) =
      ((T.children i).map (fun c => childVal z V c idx s)).prod := by
    intro i s
    unfold childProd
    congr 1
    apply List.ext_getElem (by simp)
    intro k k1 k2
    simp
  have main : ∀ i, IsNode T i → ¬ IsRoot T i → ∀ s, s < v.length → childVal z V i idx s = ((D i).map (fun k => M k (idx.getD k 0) s)).prod := by
    refine hV.induct ?_
    intro i hin ih hr s hs
    by_cases hl : i ∈ T.dim2ind
    · rw [hleaf i hl]
      unfold childVal
      rw [hS.active hV ho hin, h.tree]
      simp only [List.map_cons, List.map_nil, List.prod_cons, List.prod_nil, mul_one]
      split
      · next ha =>
        rw [hz.leaf i (by rw [h.tree]; exact hl) (by rw [hS.active hV ho hin]; exact ha), h.tree]
        exact (h.leaf i hl ha).2 _ _ (hidx _ (List.idxOf_lt_length_of_mem hl)) hs
      · next ha => exact ((h.off i hl ha).2.2 _ _).symm
    · unfold childVal
      rw [hS.active hV ho hin, if_pos (h.internal i hin hl), hz.node i (by rw [h.tree]; exact hin) (by rw [h.tree]; exact hl),
        childSum_box _ _ _ _ (by rw [h.tree]; exact hbox i hin), hsz i hin, h.tree, h.node i hin hl, if_neg hr]
      have e : ∀ t, InBox (List.replicate (T.children i).length v.length) t →
          childProd z V (T.children i) idx t * (FullTensor.diag (List.replicate v.length (1 : R)) ((T.children i).length + 1)).get (t ++ [s]) =
          (FullTensor.diag (List.replicate v.length (1 : R)) (T.children i).length).get t * (if t = List.replicate (T.children i).length s then childProd z V (T.children i) idx t else 0) := by
        intro t ht
        by_cases hts : t = List.replicate (T.children i).length s
        · subst hts
          rw [if_pos rfl, ← List.replicate_succ', diag_get_replicate _ (by omega) (by simpa using hs), diag_get_replicate _ (hch i hin hl) (by simpa using hs)]
          exact mul_comm _ _
        · rw [if_neg hts, mul_zero, diag_get_off, mul_zero]
          intro a _ ha
          rw [List.replicate_succ'] at ha
          have h1 := List.append_inj_left' ha rfl
          have h2 := List.append_inj_right' ha rfl
          simp only [List.cons.injEq, and_true] at h2
          exact hts (h2 ▸ h1)
      rw [sumBox_congr e]
      have hd := sumBox_diag (List.replicate v.length (1 : R)) (hch i hin hl)
        (fun t => if t = List.replicate (T.children i).length s then childProd z V (T.children i) idx t else 0)
      rw [List.length_replicate] at hd
      rw [hd, Finset.sum_eq_single s]
      · rw [if_pos rfl, hprod, List.getD_eq_getElem _ _ (by simpa using hs), List.getElem_replicate, one_mul,
          hrec.2 i hin (by rw [Bool.eq_false_iff]; intro hh; exact hl ((isLeaf_mem _ _).1 hh)), prod_flatMap_map]
        congr 1
        refine List.map_congr_left (fun c hc => ?_)
        have he := (mem_children i c hin).1 hc
        exact ih c he (fun hr => hr.2 i he) s hs
      · intro b _ hb
        rw [if_neg, mul_zero]
        intro hh
        have := congrArg (fun l : List Nat => l.getD 0 0) hh
        have h1 := hch i hin hl
        simp only [List.getD_eq_getElem _ _ (show 0 < (List.replicate (T.children i).length b).length by rw [List.length_replicate]; omega),
          List.getD_eq_getElem _ _ (show 0 < (List.replicate (T.children i).length s).length by rw [List.length_replicate]; omega), List.getElem_replicate] at this
        exact hb this
      · intro hh
        exact absurd (mem_range.2 hs) hh
  refine ⟨main, fun i hr => ?_⟩
  have hl : i ∉ T.dim2ind := Shaped.root_internal' hV ho hr
  rw [hz.node i (by rw [h.tree]; exact hr.1) (by rw [h.tree]; exact hl), childSum_box _ _ _ _ (by rw [h.tree]; exact hbox i hr.1), hsz i hr.1, h.tree,
    h.node i hr.1 hl, if_pos hr]
  simp only [List.append_nil]
  have e : ∀ t, InBox (List.replicate (T.children i).length v.length) t →
      childProd z V (T.children i) idx t * (FullTensor.diag v (T.children i).length).get t =
        (FullTensor.diag v (T.children i).length).get t * childProd z V (T.children i) idx t := fun _ _ => mul_comm _ _
  rw [sumBox_congr e, sumBox_diag v (hch i hr.1 hl)]
  refine sum_congr rfl (fun s hs => ?_)
  congr 1
  rw [hprod, hrec.2 i hr.1 (by rw [Bool.eq_false_iff]; intro hh; exact hl ((isLeaf_mem _ _).1 hh)), prod_flatMap_map]
  congr 1
  refine List.map_congr_left (fun c hc => ?_)
  have he := (mem_children i c hr.1).1 hc
  exact main c he.2.1 (fun hr => hr.2 i he) s (mem_range.1 hs)

/-- The full tensor. -/
theorem DiagTree.full (h : DiagTree z T act v n M) (hV : Valid T) (ho : 2 ≤ T.dim2ind.length) :
    WF z ∧ ∃ y, full z = .ok y ∧ y.shape = (List.range T.dim2ind.length).map n ∧ ∀ idx, InBox y.shape idx →
      y.get idx = ∑ s ∈ range v.length, v.getD s 0 * ((List.range T.dim2ind.length).map (fun k => M k (idx.getD k 0) s)).prod := by
  have hS := h.shaped
  have hw := hS.wf hV ho
  refine ⟨hw, ?_⟩
  obtain ⟨y, r, h1, h2, h3, h4⟩ := full_spec z hw
  obtain ⟨V, hz⟩ := exists_value z hw.valid
  obtain ⟨D, hD, hrec⟩ := dims_ok hV
  obtain ⟨r', hr', hroot⟩ := root_ok hV
  rw [h.tree, hr'] at h2
  obtain rfl : r' = r := by cases h2; rfl
  have hrs : rankShape z r' = [] := by
    rw [hS.rankShape_root hroot (Shaped.root_internal' hV ho hroot)]
  rw [hrs, List.append_nil] at h3
  have hsh : z.shape = (List.range T.dim2ind.length).map n := by
    rw [hS.shapeEq hV ho]
    apply List.ext_getElem (by simp)
    intro k k1 k2
    have hk : k < T.dim2ind.length := by simpa using k1
    simp only [List.getElem_map, List.getElem_range]
    rw [show dimOf T T.dim2ind[k] = k from hV.nodup.idxOf_getElem k hk]
  refine ⟨y, h1, h3.trans hsh, fun idx hi => ?_⟩
  rw [h3] at hi
  have := h4 V hz idx [] hi (by rw [hrs]; exact .nil)
  rw [List.append_nil] at this
  rw [this, (h.value hV ho hD hz hi).2 r' hroot]
  refine sum_congr rfl (fun s _ => ?_)
  congr 1
  have hperm : (D r').Perm (List.range T.dim2ind.length) := by
    refine (List.perm_ext_iff_of_nodup (recDims_nodup hV hrec r' hroot.1) List.nodup_range).2 (fun k => ?_)
    rw [recDims_mem hV hrec r' hroot.1 k, List.mem_range]
    constructor
    · rintro ⟨x, hx, -⟩
      exact (List.getElem?_eq_some_iff.1 hx).1
    · intro hk
      refine ⟨T.dim2ind[k], List.getElem?_eq_getElem hk, ?_⟩
      obtain ⟨q, hq, hall⟩ := hV.rooted
      rw [root_unique hV hroot hq]
      exact hall _ ((hV.leaves _).1 (List.getElem_mem hk)).1
  exact (hperm.map _).prod_eq

end Verif.TreeBased
