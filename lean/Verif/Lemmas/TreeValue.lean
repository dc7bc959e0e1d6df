import Verif.Props.TreeFull
import Verif.Model.TreeBasedOps

/-!
# Lemmas on the values of tree-based tensors
-/

namespace Verif.TreeBased

open Verif.Arr Verif.DimTree Finset

variable {R : Type}

/-- The equations of `IsValue` on the subscripts inside the shapes only. -/
structure IsValueOn [CommSemiring R] (x : TBT R) (V : Nat → List Nat → List Nat → R) : Prop where
  leaf : ∀ c ∈ x.tree.dim2ind, x.active c → ∀ idx s, InBox x.shape idx → s < x.lastDim c →
    V c idx [s] = (x.tensors c).get [idx.getD (dimOf x.tree c) 0, s]
  node : ∀ i, IsNode x.tree i → i ∉ x.tree.dim2ind → ∀ idx e, InBox x.shape idx → InBox (rankShape x i) e →
    V i idx e = childSum x V idx (x.tree.children i) (fun t => (x.tensors i).get (t ++ e))

theorem rs_leaf {x : TBT R} {i : Nat} (h : i ∈ x.tree.dim2ind) : rs x i = [x.lastDim i] := by
  unfold rs; rw [if_pos ((isLeaf_mem _ _).2 h)]

theorem rs_node {x : TBT R} {i : Nat} (h : i ∉ x.tree.dim2ind) : rs x i = rankShape x i := by
  unfold rs; rw [if_neg (fun h' => h ((isLeaf_mem _ _).1 h'))]

theorem inBox_single {n : Nat} {e : List Nat} (h : InBox [n] e) : ∃ s, e = [s] ∧ s < n := by
  match e, h with
  | [], h => simp at h
  | [s], h => exact ⟨s, rfl, by simpa using h⟩
  | _ :: _ :: _, h => simp at h

theorem inBox_one {n s : Nat} (h : s < n) : InBox [n] [s] := by simpa using h

theorem value_on [CommSemiring R] (x : TBT R) (h : WF x) {V V' : Nat → List Nat → List Nat → R} (hV : IsValue x V)
    (hV' : IsValueOn x V') : ∀ i, IsNode x.tree i → x.active i → ∀ idx e, InBox x.shape idx → InBox (rs x i) e →
      V i idx e = V' i idx e := by
  refine h.valid.induct ?_
  intro i hi ih ha idx e hidx he
  by_cases hl : i ∈ x.tree.dim2ind
  · rw [rs_leaf hl] at he
    obtain ⟨s, rfl, hs⟩ := inBox_single he
    rw [hV.leaf i hl ha, hV'.leaf i hl ha _ _ hidx hs]
  · rw [rs_node hl] at he
    rw [hV.node i hi hl, hV'.node i hi hl _ _ hidx he]
    apply childSum_congr
    · intro c hc hca s hs
      have hce := (mem_children i c hi).1 hc
      refine ih c hce hca idx [s] hidx ?_
      rw [h.rs_eq hce.2.1 (WF.child_not_root hce)]
      exact inBox_one hs
    · intros; rfl
    · intro c hc hca
      have hce := (mem_children i c hi).1 hc
      have hcl := h.inactive_leaf hce.2.1 hca
      unfold childSize; rw [if_neg hca]
      exact inBox_shape_getD hidx hcl

/-- `full()` from values that satisfy the equations inside the shapes. -/
theorem full_on [CommSemiring R] (x : TBT R) (h : WF x) {V : Nat → List Nat → List Nat → R} (hV : IsValueOn x V)
    {r : Nat} (hr : x.tree.root = .ok r) :
    ∃ y, full x = .ok y ∧ y.shape = x.shape ++ rankShape x r ∧
      ∀ idx e, InBox x.shape idx → InBox (rankShape x r) e → y.get (idx ++ e) = V r idx e := by
  obtain ⟨y, r', h1, h2, h3, h4⟩ := full_spec x h
  rw [hr] at h2; cases h2
  obtain ⟨W, hW⟩ := exists_value x h.valid
  obtain ⟨r', hr', hroot⟩ := root_ok h.valid
  rw [hr] at hr'; cases hr'
  have hrl := h.root_internal hroot
  refine ⟨y, h1, h3, fun idx e hi he => ?_⟩
  rw [h4 W hW idx e hi he]
  exact value_on x h hW hV r hroot.1 (h.node r hroot.1 hrl).1 idx e hi (by rw [rs_node hrl]; exact he)

/-- The values of a tensor satisfy the equations inside the shapes. -/
theorem IsValue.on [CommSemiring R] {x : TBT R} {V : Nat → List Nat → List Nat → R} (hV : IsValue x V) : IsValueOn x V :=
  ⟨fun c hc ha idx s _ _ => hV.leaf c hc ha idx [s], fun i hi hl idx e _ _ => hV.node i hi hl idx e⟩

/-- The same tree and the same shapes of node tensors. -/
structure SameShapes (x x' : TBT R) : Prop where
  tree : x'.tree = x.tree
  shape : ∀ i, (x'.tensors i).shape = (x.tensors i).shape

namespace SameShapes
variable {x x' : TBT R} (h : SameShapes x x')
include h

theorem active (i : Nat) : x'.active i = x.active i := by unfold TBT.active; rw [h.shape]
theorem lastDim (i : Nat) : x'.lastDim i = x.lastDim i := by unfold TBT.lastDim; rw [h.shape]
theorem leafSize (i : Nat) : x'.leafSize i = x.leafSize i := by
  unfold TBT.leafSize; rw [h.active, h.shape, h.shape, h.tree]
theorem childSize (i : Nat) : childSize x' i = TreeBased.childSize x i := by
  unfold TreeBased.childSize; rw [h.active, h.lastDim, h.leafSize]
theorem rankShape (i : Nat) : rankShape x' i = TreeBased.rankShape x i := by
  unfold TreeBased.rankShape; rw [h.shape, h.tree]
theorem shapeEq : x'.shape = x.shape := by
  unfold TBT.shape; rw [h.tree]; exact List.map_congr_left (fun i _ => h.leafSize i)

theorem wf (hx : WF x) : WF x' := by
  refine ⟨h.tree ▸ hx.valid, h.tree ▸ hx.order, ?_, ?_⟩
  · intro c hc ha
    rw [h.tree] at hc; rw [h.active] at ha; rw [h.shape]
    exact hx.leaf c hc ha
  · intro i hi hl
    rw [h.tree] at hi hl ⊢
    rw [h.active, h.rankShape, h.shape, List.map_congr_left (fun c _ => h.childSize c)]
    exact hx.node i hi hl

end SameShapes

/-- `childSum` only reads the activity and the last dimensions of the children. -/
theorem childSum_congrX [CommSemiring R] {x x' : TBT R} (ht : x'.tree = x.tree) (V : Nat → List Nat → List Nat → R)
    (idx : List Nat) (cs : List Nat) (k : List Nat → R) (ha : ∀ c ∈ cs, x'.active c = x.active c)
    (hl : ∀ c ∈ cs, x.active c → x'.lastDim c = x.lastDim c) :
    childSum x' V idx cs k = childSum x V idx cs k := by
  induction cs generalizing k with
  | nil => rfl
  | cons c cs ih =>
    have ih' := fun k => ih k (fun c' hc' => ha c' (by simp [hc'])) (fun c' hc' => hl c' (by simp [hc']))
    unfold childSum
    rw [ha c (by simp)]
    split
    · rename_i hac
      rw [hl c (by simp) hac]
      exact sum_congr rfl (fun s _ => by rw [ih'])
    · rw [ih', ht]

/-- Replacing the root tensor by a multiple. -/
theorem root_scale [CommSemiring R] (x : TBT R) (h : WF x) (r : Nat) (hr : x.tree.root = .ok r) (a : R) (f : Arr R)
    (hs : f.shape = (x.tensors r).shape) (hf : ∀ t, f.get t = a * (x.tensors r).get t) :
    ∃ y z, full x = .ok y ∧ full ⟨x.tree, upd x.tensors r f⟩ = .ok z ∧ WF ⟨x.tree, upd x.tensors r f⟩ ∧ z.shape = y.shape ∧
      ∀ idx, InBox y.shape idx → z.get idx = a * y.get idx := by
  set x' : TBT R := ⟨x.tree, upd x.tensors r f⟩ with hx'
  obtain ⟨r', hr', hroot⟩ := root_ok h.valid
  rw [hr] at hr'; cases hr'
  have hrl := h.root_internal hroot
  have hss : SameShapes x x' := ⟨rfl, fun i => by
    show (upd x.tensors r f i).shape = _
    unfold upd; split
    · rename_i hi; rw [hs, hi]
    · rfl⟩
  obtain ⟨V, hV⟩ := exists_value x h.valid
  set V' : Nat → List Nat → List Nat → R := fun i idx e => if i = r then a * V r idx e else V i idx e with hV'def
  have hch : ∀ i, IsNode x.tree i → ∀ idx k, childSum x' V' idx (x.tree.children i) k = childSum x V idx (x.tree.children i) k := by
    intro i hi idx k
    rw [childSum_congrX (x := x) (x' := x') rfl V' idx _ k (fun c _ => hss.active c) (fun c _ _ => hss.lastDim c)]
    apply childSum_congrV
    intro c hc _ s
    have hce := (mem_children i c hi).1 hc
    have : c ≠ r := fun e => WF.child_not_root hce (e ▸ hroot)
    simp only [hV'def, if_neg this]
  have hon : IsValueOn x' V' := by
    refine ⟨?_, ?_⟩
    · intro c hc ha idx s _ _
      have : c ≠ r := fun e => hrl (e ▸ hc)
      simp only [hV'def, if_neg this]
      rw [hss.active] at ha
      rw [hV.leaf c hc ha]
      show _ = (upd x.tensors r f c).get _
      unfold upd; rw [if_neg this]
    · intro i hi hl idx e _ _
      rw [show x'.tree.children i = x.tree.children i from rfl, hch i hi]
      by_cases hir : i = r
      · subst hir
        simp only [hV'def, if_true]
        rw [hV.node i hi hl, ← childSum_mul]
        apply childSum_congr'
        intro t _
        show _ = (upd x.tensors i f i).get _
        unfold upd; rw [if_pos rfl, hf]
      · simp only [hV'def, if_neg hir]
        rw [hV.node i hi hl]
        apply childSum_congr'
        intro t _
        show _ = (upd x.tensors r f i).get _
        unfold upd; rw [if_neg hir]
  have hwf := hss.wf h
  obtain ⟨y, y1, y2, y3⟩ := full_on x h hV.on hr
  obtain ⟨z, z1, z2, z3⟩ := full_on x' hwf hon hr
  refine ⟨y, z, y1, z1, hwf, ?_, ?_⟩
  · rw [y2, z2, hss.shapeEq, hss.rankShape]
  · intro idx hidx
    rw [y2] at hidx
    obtain ⟨p, e, rfl, hp, he⟩ := inBox_append_split hidx
    rw [y3 p e hp he, z3 p e (by rw [hss.shapeEq]; exact hp) (by rw [hss.rankShape]; exact he)]
    simp only [hV'def, if_true]

end Verif.TreeBased
