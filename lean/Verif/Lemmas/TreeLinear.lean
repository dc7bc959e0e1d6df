import Verif.Props.TreeEval
import Verif.Spec.Regression
import Verif.Lemmas.Path

/-! The values of the nodes of a tree-based tensor, contracted with weights of the dimensions, and their dependence on the tensor
of one node. All the nodes are active. -/

namespace Verif
namespace TreeBased

open Arr DimTree Finset

variable {R : Type}

/-- `B i e` is the value of node `i` contracted with the weights `w` of the dimensions. -/
structure IsEval [CommSemiring R] (x : TBT R) (w : Nat → Nat → R) (B : Nat → List Nat → R) : Prop where
  leaf : ∀ c ∈ x.tree.dim2ind, ∀ s, B c [s] = ∑ a ∈ range (x.leafSize c), w (dimOf x.tree c) a * (x.tensors c).get [a, s]
  node : ∀ i, IsNode x.tree i → i ∉ x.tree.dim2ind → ∀ e, B i e = sumBox ((x.tree.children i).map x.lastDim) (fun t =>
    (List.zipWith (fun c j => B c [j]) (x.tree.children i) t).prod * (x.tensors i).get (t ++ e))

theorem leaf_isNode {T : DTree} (hV : Valid T) {c : Nat} (hc : c ∈ T.dim2ind) : IsNode T c := ((hV.leaves c).1 hc).1

theorem childSizes_active {x : TBT R} (ha : AllActive x) {i : Nat} (hi : IsNode x.tree i) :
    (x.tree.children i).map (childSize x) = (x.tree.children i).map x.lastDim := by
  apply List.map_congr_left
  intro c hc
  unfold childSize
  rw [if_pos (ha c ((mem_children i c hi).1 hc).2.1)]

theorem exists_eval [CommSemiring R] (x : TBT R) (hx : WF x) (ha : AllActive x) (r : Nat) (hr : x.tree.root = .ok r)
    (w : Nat → Nat → R) {a : Arr R} (hf : full x = .ok a) : ∃ B, IsEval x w B ∧
    ∀ e, InBox (rankShape x r) e → B r e = sumBox x.shape (fun idx =>
      ((List.range x.order).map (fun d => w d (idx.getD d 0))).prod * a.get (idx ++ e)) := by
  obtain ⟨r', hr', hroot⟩ := root_ok hx.valid
  rw [hr] at hr'; cases hr'
  obtain ⟨D, _, hD⟩ := dims_ok hx.valid
  obtain ⟨V, hV⟩ := exists_value x hx.valid
  obtain ⟨a', a1, a2, a3⟩ := full_on x hx hV.on hr
  rw [hf] at a1; cases a1
  have hu := inBox_zeros hx
  generalize x.shape.map (fun _ => 0) = u at hu
  refine ⟨fun i e => wVal x V D w i e u, ⟨?_, ?_⟩, ?_⟩
  · intro c hc s
    exact wVal_leaf x hx V hV D hD w u hu hc (ha c (leaf_isNode hx.valid hc)) s
  · intro i hi hl e
    rw [wVal_node x hx V hV D hD w u hu hi hl e, childSizes_active ha hi]
    apply sumBox_congr
    intro t ht
    congr 2
    apply List.ext_getElem (by simp)
    intro m h1 h2
    rw [List.getElem_zipWith, List.getElem_zipWith]
    have hm : m < (x.tree.children i).length := by simp at h1; omega
    exact cVal_active x V D w u (ha _ ((mem_children i _ hi).1 (List.getElem_mem hm)).2.1) _
  · intro e he
    dsimp only
    rw [wVal_root x hx V D hD w u hroot e (by rw [hu.length_eq]; simp [TBT.shape, TBT.order])]
    apply sumBox_congr
    intro idx hidx
    rw [a3 idx e hidx he]

theorem SameOff.shapes {x x' : TBT R} {α : Nat} (h : SameOff x x' α) (j : Nat) : (x'.tensors j).shape = (x.tensors j).shape := by
  by_cases hj : j = α
  · rw [hj, h.shape]
  · rw [h.off j hj]

theorem SameOff.lastDim {x x' : TBT R} {α : Nat} (h : SameOff x x' α) (j : Nat) : x'.lastDim j = x.lastDim j := by
  unfold TBT.lastDim; rw [h.shapes]

theorem SameOff.active {x x' : TBT R} {α : Nat} (h : SameOff x x' α) (j : Nat) : x'.active j = x.active j := by
  unfold TBT.active; rw [h.shapes]

theorem SameOff.leafSize {x x' : TBT R} {α : Nat} (h : SameOff x x' α) (j : Nat) : x'.leafSize j = x.leafSize j := by
  unfold TBT.leafSize; rw [h.active, h.tree]; simp only [h.shapes]

theorem SameOff.childSize {x x' : TBT R} {α : Nat} (h : SameOff x x' α) (j : Nat) : childSize x' j = childSize x j := by
  unfold TreeBased.childSize; rw [h.active, h.lastDim, h.leafSize]

theorem SameOff.rankShape {x x' : TBT R} {α : Nat} (h : SameOff x x' α) (j : Nat) : rankShape x' j = rankShape x j := by
  unfold TreeBased.rankShape; rw [h.shapes, h.tree]

theorem SameOff.shapeEq {x x' : TBT R} {α : Nat} (h : SameOff x x' α) : x'.shape = x.shape := by
  unfold TBT.shape
  rw [h.tree]
  exact List.map_congr_left (fun c _ => h.leafSize c)

theorem SameOff.wf {x x' : TBT R} {α : Nat} (h : SameOff x x' α) (hx : WF x) : WF x' := by
  refine ⟨by rw [h.tree]; exact hx.valid, by rw [h.tree]; exact hx.order, ?_, ?_⟩
  · intro c hc ha
    rw [h.tree] at hc
    rw [h.active] at ha
    rw [h.shapes]
    exact hx.leaf c hc ha
  · intro i hi hl
    rw [h.tree] at hi hl
    obtain ⟨h1, h2, h3, h4⟩ := hx.node i hi hl
    refine ⟨by rw [h.active]; exact h1, ?_, by rw [h.rankShape]; exact h3, by rw [h.rankShape, h.tree]; exact h4⟩
    rw [h.shapes, h2, h.rankShape, h.tree]
    congr 1
    exact List.map_congr_left (fun c _ => (h.childSize c).symm)

theorem SameOff.allActive {x x' : TBT R} {α : Nat} (h : SameOff x x' α) (hx : AllActive x) : AllActive x' := by
  intro i hi
  rw [h.active]
  exact hx i (h.tree ▸ hi)

/-- The tensors of two trees differ at most in the subtree of `α`, which has the same rank. -/
structure SameSub (x x' : TBT R) (α : Nat) : Prop where
  tree : x'.tree = x.tree
  off : ∀ j, ¬ AncSelf x.tree α j → x'.tensors j = x.tensors j
  last : x'.lastDim α = x.lastDim α

theorem SameOff.sub {x x' : TBT R} {α : Nat} (h : SameOff x x' α) : SameSub x x' α :=
  ⟨h.tree, fun j hj => h.off j (fun e => hj (e ▸ .refl)), h.lastDim α⟩

theorem SameSub.lastDim {x x' : TBT R} {α : Nat} (h : SameSub x x' α) {j : Nat} (hj : j = α ∨ ¬ AncSelf x.tree α j) :
    x'.lastDim j = x.lastDim j := by
  rcases hj with rfl | hj
  · exact h.last
  · unfold TBT.lastDim; rw [h.off j hj]

theorem leafSize_active {x x' : TBT R} {i : Nat} (ha : x.active i = true) (h : x'.tensors i = x.tensors i) :
    x'.leafSize i = x.leafSize i := by
  have ha' : x'.active i = true := by rw [← ha]; unfold TBT.active; rw [h]
  unfold TBT.leafSize
  rw [if_pos ha, if_pos ha', h]

/-- Off the path from the root to `α` and off its subtree, the values do not depend on the tensors of this subtree. -/
theorem eval_sub [CommSemiring R] {x x' : TBT R} (hx : WF x) (ha : AllActive x) {α : Nat} (h : SameSub x x' α) {w : Nat → Nat → R}
    {B B' : Nat → List Nat → R} (hB : IsEval x w B) (hB' : IsEval x' w B') :
    ∀ i, IsNode x.tree i → ¬ AncSelf x.tree i α → ¬ AncSelf x.tree α i → (i ∈ x.tree.dim2ind → ∀ s, B' i [s] = B i [s]) ∧
      (i ∉ x.tree.dim2ind → ∀ e, B' i e = B i e) := by
  refine node_induction hx.valid _ ?_
  intro i hi ih hp hs
  have hchs : ∀ c ∈ x.tree.children i, ¬ AncSelf x.tree α c := by
    intro c hc hc'
    have he := (mem_children i c hi).1 hc
    rcases Relation.reflTransGen_iff_eq_or_transGen.1 hc' with h' | h'
    · exact hp (.head he (h' ▸ .refl))
    · obtain ⟨b, h1, h2⟩ := Relation.TransGen.tail'_iff.1 h'
      rw [(edge_parent hx.valid h2).symm.trans (edge_parent hx.valid he)] at h1
      exact hs h1
  have hch : ∀ c ∈ x.tree.children i, ∀ s, B' c [s] = B c [s] := by
    intro c hc s
    have he := (mem_children i c hi).1 hc
    have := ih c he (fun hc' => hp (.head he hc')) (hchs c hc)
    by_cases hcl : c ∈ x.tree.dim2ind
    · exact this.1 hcl s
    · exact this.2 hcl [s]
  constructor
  · intro hl s
    rw [hB.leaf i hl s, hB'.leaf i (by rw [h.tree]; exact hl) s, leafSize_active (ha i hi) (h.off i hs), h.tree, h.off i hs]
  · intro hl e
    rw [hB.node i hi hl e, hB'.node i (by rw [h.tree]; exact hi) (by rw [h.tree]; exact hl) e, h.tree, h.off i hs]
    have : (x.tree.children i).map x'.lastDim = (x.tree.children i).map x.lastDim := List.map_congr_left (fun c hc => h.lastDim (.inr (hchs c hc)))
    rw [this]
    apply sumBox_congr
    intro t ht
    congr 2
    apply List.ext_getElem (by simp)
    intro m h1 h2
    rw [List.getElem_zipWith, List.getElem_zipWith]
    exact hch _ (List.getElem_mem _) _

theorem eval_sub' [CommSemiring R] {x x' : TBT R} (hx : WF x) (ha : AllActive x) {α : Nat} (h : SameSub x x' α) {w : Nat → Nat → R}
    {B B' : Nat → List Nat → R} (hB : IsEval x w B) (hB' : IsEval x' w B') {i : Nat} (hi : IsNode x.tree i)
    (hp : ¬ AncSelf x.tree i α) (hs : ¬ AncSelf x.tree α i) (s : Nat) : B' i [s] = B i [s] := by
  have := eval_sub hx ha h hB hB' i hi hp hs
  by_cases hl : i ∈ x.tree.dim2ind
  · exact this.1 hl s
  · exact this.2 hl [s]

/-- Off the path from the root to `α` the values do not depend on the tensor of `α`. -/
theorem eval_off [CommSemiring R] {x x' : TBT R} (hx : WF x) {α : Nat} (h : SameOff x x' α) {w : Nat → Nat → R}
    {B B' : Nat → List Nat → R} (hB : IsEval x w B) (hB' : IsEval x' w B') :
    ∀ i, IsNode x.tree i → ¬ AncSelf x.tree i α → (i ∈ x.tree.dim2ind → ∀ s, B' i [s] = B i [s]) ∧
      (i ∉ x.tree.dim2ind → ∀ e, B' i e = B i e) := by
  refine node_induction hx.valid _ ?_
  intro i hi ih hp
  have hne : i ≠ α := fun e => hp (e ▸ .refl)
  have hch : ∀ c ∈ x.tree.children i, ∀ s, B' c [s] = B c [s] := by
    intro c hc s
    have he := (mem_children i c hi).1 hc
    have := ih c he (fun hc' => hp (.head he hc'))
    by_cases hcl : c ∈ x.tree.dim2ind
    · exact this.1 hcl s
    · exact this.2 hcl [s]
  constructor
  · intro hl s
    rw [hB.leaf i hl s, hB'.leaf i (by rw [h.tree]; exact hl) s, h.leafSize, h.tree, h.off i hne]
  · intro hl e
    rw [hB.node i hi hl e, hB'.node i (by rw [h.tree]; exact hi) (by rw [h.tree]; exact hl) e, h.tree, h.off i hne]
    have : (x.tree.children i).map x'.lastDim = (x.tree.children i).map x.lastDim := List.map_congr_left (fun c _ => h.lastDim c)
    rw [this]
    apply sumBox_congr
    intro t ht
    congr 2
    apply List.ext_getElem (by simp)
    intro m h1 h2
    rw [List.getElem_zipWith, List.getElem_zipWith]
    exact hch _ (List.getElem_mem _) _

theorem eval_off' [CommSemiring R] {x x' : TBT R} (hx : WF x) {α : Nat} (h : SameOff x x' α) {w : Nat → Nat → R}
    {B B' : Nat → List Nat → R} (hB : IsEval x w B) (hB' : IsEval x' w B') {i : Nat} (hi : IsNode x.tree i)
    (hp : ¬ AncSelf x.tree i α) (s : Nat) : B' i [s] = B i [s] := by
  have := eval_off hx h hB hB' i hi hp
  by_cases hl : i ∈ x.tree.dim2ind
  · exact this.1 hl s
  · exact this.2 hl [s]

/-- The values of an internal node, with one of its children apart. -/
theorem eval_split [CommSemiring R] {x : TBT R} {w : Nat → Nat → R} {B : Nat → List Nat → R} (hB : IsEval x w B) {p c : Nat}
    (hp : IsNode x.tree p) (hl : p ∉ x.tree.dim2ind) (hc : c ∈ x.tree.children p) (e : List Nat) :
    B p e = ∑ j ∈ range (x.lastDim c), (sumBox (((x.tree.children p).filter (fun c' => c' != c)).map x.lastDim) (fun s =>
      (List.zipWith (fun c j => B c [j]) ((x.tree.children p).filter (fun c' => c' != c)) s).prod *
        (x.tensors p).get (weave (fun c' => c' != c) (x.tree.children p) s [j] ++ e))) * B c [j] := by
  have hone : (x.tree.children p).filter (fun c' => !(c' != c)) = [c] := by
    have hn := nodup_children (T := x.tree) p
    have : (x.tree.children p).filter (fun c' => !(c' != c)) = (x.tree.children p).filter (fun c' => c' == c) := by
      apply List.filter_congr
      intro a _
      simp [bne]
    rw [this, List.filter_beq, List.count_eq_one_of_mem hn hc]
    rfl
  rw [hB.node p hp hl e, sumBox_weave (fun c' => c' != c), hone, List.map_singleton, sumBox_comm, sumBox_singleton]
  refine sum_congr rfl (fun j hj => ?_)
  rw [← sumBox_mul_right]
  apply sumBox_congr
  intro s hs
  rw [prod_weave (fun c' => c' != c) _ s [j] _ (by simpa using hs.length_eq) (by rw [hone]; rfl), hone]
  simp only [List.zipWith_cons_cons, List.zipWith_nil_right, List.prod_cons, List.prod_nil, mul_one]
  ring

end TreeBased
end Verif
