import Verif.Lemmas.EnvGram

/-!
# Matrices inserted on the edges of a tree-based tensor
-/

namespace Verif.TreeBased

open Verif.Arr Verif.DimTree Finset

variable {R : Type}

/-- The array multiplied by a matrix along its last axis. -/
def insT [CommSemiring R] (a : Arr R) (K : Nat → Nat → R) : Arr R :=
  ⟨a.shape, fun idx => ∑ s ∈ range (a.shape.getLast?.getD 0), a.get (idx.dropLast ++ [s]) * K s (idx.getLast?.getD 0)⟩

theorem insT_get [CommSemiring R] (a : Arr R) (K : Nat → Nat → R) (t : List Nat) (q : Nat) :
    (insT a K).get (t ++ [q]) = ∑ s ∈ range (a.shape.getLast?.getD 0), a.get (t ++ [s]) * K s q := by
  simp [insT]

open Classical in
/-- The tensor with the matrices `K i` inserted above the nodes `i` of the set `S`. -/
noncomputable def ins [CommSemiring R] (x : TBT R) (K : Nat → Nat → Nat → R) (S : Nat → Prop) : TBT R :=
  ⟨x.tree, fun i => if S i then insT (x.tensors i) (K i) else x.tensors i⟩

section ins

variable [CommSemiring R] {x : TBT R} {K : Nat → Nat → Nat → R} {S : Nat → Prop}

theorem ins_pos {i : Nat} (h : S i) : (ins x K S).tensors i = insT (x.tensors i) (K i) := by
  unfold ins; simp only [if_pos h]

theorem ins_neg {i : Nat} (h : ¬ S i) : (ins x K S).tensors i = x.tensors i := by
  unfold ins; simp only [if_neg h]

theorem ins_same (x : TBT R) (K : Nat → Nat → Nat → R) (S : Nat → Prop) : SameShapes x (ins x K S) := by
  refine ⟨rfl, fun i => ?_⟩
  by_cases h : S i
  · rw [ins_pos h]; rfl
  · rw [ins_neg h]

theorem ins_empty (x : TBT R) (K : Nat → Nat → Nat → R) (h : ∀ i, ¬ S i) : ins x K S = x := by
  unfold ins
  simp only [h, if_false]

theorem lastDim_last (x : TBT R) (i : Nat) : (x.tensors i).shape.getLast?.getD 0 = x.lastDim i := rfl

/-- The values of a node only depend on the matrices inserted above the nodes below it. -/
theorem ins_value_eq (hx : WF x) {S' : Nat → Prop} {W W' : Nat → List Nat → List Nat → R} (hW : IsValue (ins x K S) W)
    (hW' : IsValue (ins x K S') W') : ∀ j, IsNode x.tree j → x.active j = true →
    (∀ m, AncSelf x.tree j m → (S m ↔ S' m)) → ∀ idx e, W j idx e = W' j idx e := by
  have s1 := ins_same x K S
  have s2 := ins_same x K S'
  refine node_induction hx.valid _ ?_
  intro j hj ih ha hm idx e
  have ht : (ins x K S).tensors j = (ins x K S').tensors j := by
    by_cases h : S j
    · rw [ins_pos h, ins_pos ((hm j .refl).1 h)]
    · rw [ins_neg h, ins_neg (fun h' => h ((hm j .refl).2 h'))]
  by_cases hl : j ∈ x.tree.dim2ind
  · have e1 := hW.leaf j hl (by rw [s1.active]; exact ha) idx e
    have e2 := hW'.leaf j hl (by rw [s2.active]; exact ha) idx e
    rw [e1, e2, ht]
    rfl
  · have e1 := hW.node j hj hl idx e
    have e2 := hW'.node j hj hl idx e
    rw [e1, e2, ht]
    show childSum (ins x K S) W idx (x.tree.children j) _ = childSum (ins x K S') W' idx (x.tree.children j) _
    rw [childSum_congrX (x := x) (x' := ins x K S) rfl W idx _ _ (fun c _ => s1.active c) (fun c _ _ => s1.lastDim c),
      childSum_congrX (x := x) (x' := ins x K S') rfl W' idx _ _ (fun c _ => s2.active c) (fun c _ _ => s2.lastDim c)]
    apply childSum_congrV
    intro c hc hac s
    have he := (mem_children j c hj).1 hc
    exact ih c he hac (fun m hm' => hm m (Relation.ReflTransGen.head he hm')) idx [s]

/-- Insertion above one more node, with no matrix below it: the values above the node are values for the same tensor, with
the values of the node multiplied by the matrix. -/
theorem ins_path (hx : WF x) {i : Nat} (hi : IsNode x.tree i) (hai : x.active i = true)
    (hSi : ¬ S i) {W W' : Nat → List Nat → List Nat → R} (hW : IsValue (ins x K S) W)
    (hW' : IsValue (ins x K (fun j => S j ∨ j = i)) W') :
    PathVal (ins x K S) W W' i ∧ ∀ idx q, W' i idx [q] = ∑ s ∈ range (x.lastDim i), W i idx [s] * K i s q := by
  have s1 := ins_same x K S
  have s2 := ins_same x K (fun j => S j ∨ j = i)
  have hoffm : ∀ j, ¬ AncSelf x.tree j i → ∀ m, AncSelf x.tree j m → (S m ↔ (S m ∨ m = i)) := by
    intro j hj m hm
    constructor
    · exact .inl
    · rintro (h | rfl)
      · exact h
      · exact absurd hm hj
  have htens : ∀ j, j ≠ i → (ins x K (fun j => S j ∨ j = i)).tensors j = (ins x K S).tensors j := by
    intro j hj
    by_cases h : S j
    · rw [ins_pos h, ins_pos (S := fun j => S j ∨ j = i) (.inl h)]
    · rw [ins_neg h, ins_neg (S := fun j => S j ∨ j = i) (by rintro (h' | h'); exacts [h h', hj h'])]
  have hcong : ∀ idx cs k, childSum (ins x K (fun j => S j ∨ j = i)) W' idx cs k = childSum (ins x K S) W' idx cs k := by
    intro idx cs k
    exact childSum_congrX (x := ins x K S) (x' := ins x K (fun j => S j ∨ j = i)) rfl W' idx cs k (fun c _ => (s2.active c).trans (s1.active c).symm)
      (fun c _ _ => (s2.lastDim c).trans (s1.lastDim c).symm)
  refine ⟨⟨?_, ?_⟩, ?_⟩
  · intro j hj ha hoff idx e
    rw [s1.active] at ha
    exact (ins_value_eq hx hW hW' j hj ha (hoffm j hoff) idx e).symm
  · intro j hj idx e
    have hjl : j ∉ x.tree.dim2ind := path_internal hx hj
    have hji : j ≠ i := fun h => Anc.irrefl hx.valid i (h ▸ hj)
    have := hW'.node j (anc_isNode hj) hjl idx e
    rw [htens j hji, hcong] at this
    exact this
  · intro idx q
    have hti : (ins x K (fun j => S j ∨ j = i)).tensors i = insT (x.tensors i) (K i) :=
      ins_pos (S := fun j => S j ∨ j = i) (.inr rfl)
    have hti' : (ins x K S).tensors i = x.tensors i := ins_neg hSi
    by_cases hl : i ∈ x.tree.dim2ind
    · have e1 := hW'.leaf i hl (by rw [s2.active]; exact hai) idx [q]
      rw [hti] at e1
      have e2 : ∀ s, W i idx [s] = (x.tensors i).get (idx.getD (dimOf x.tree i) 0 :: [s]) := by
        intro s
        have := hW.leaf i hl (by rw [s1.active]; exact hai) idx [s]
        rw [hti'] at this; exact this
      rw [e1]
      have := insT_get (x.tensors i) (K i) [idx.getD (dimOf x.tree i) 0] q
      refine this.trans ?_
      exact sum_congr rfl (fun s _ => by rw [e2]; rfl)
    · have e1 := hW'.node i hi hl idx [q]
      rw [hti, hcong] at e1
      have e2 : ∀ s, W i idx [s] = childSum (ins x K S) W idx (x.tree.children i) (fun t => (x.tensors i).get (t ++ [s])) := by
        intro s
        have := hW.node i hi hl idx [s]
        rw [hti'] at this; exact this
      rw [e1]
      have e3 : childSum (ins x K S) W' idx (x.tree.children i) (fun t => (insT (x.tensors i) (K i)).get (t ++ [q])) =
          childSum (ins x K S) W idx (x.tree.children i) (fun t => ∑ s ∈ range (x.lastDim i), K i s q * (x.tensors i).get (t ++ [s])) := by
        have : (fun t => (insT (x.tensors i) (K i)).get (t ++ [q])) =
            fun t => ∑ s ∈ range (x.lastDim i), K i s q * (x.tensors i).get (t ++ [s]) := by
          funext t
          rw [insT_get, lastDim_last]
          exact sum_congr rfl (fun s _ => by ring)
        rw [this]
        apply childSum_congrV
        intro c hc hac s
        have he := (mem_children i c hi).1 hc
        rw [s1.active] at hac
        refine (ins_value_eq hx hW hW' c he.2.1 hac (hoffm c ?_) idx [s]).symm
        intro h
        exact Anc.irrefl hx.valid i (Relation.TransGen.head' he h)
      refine Eq.trans ?_ (e3.trans ?_)
      · rfl
      · rw [childSum_sum]
        refine sum_congr rfl (fun s _ => ?_)
        rw [childSum_mul, e2]; ring

end ins

/-! ### one step of truncation is a change of basis of the tensor with a matrix inserted -/

theorem ins_gauge [CommSemiring R] {w w' : TBT R} (hw : WF w) {p i k : Nat} (he : Edge w.tree p i) (hai : w.active i = true)
    (hk : 0 < k) (ht : w'.tree = w.tree) {U P : Nat → Nat → R} {K : Nat → Nat → Nat → R}
    (hK : ∀ s s', s < w.lastDim i → s' < w.lastDim i → K i s s' = ∑ l ∈ range k, U s l * P s' l)
    {s0 : List Nat} (hs0 : (w.tensors i).shape = s0 ++ [w.lastDim i]) (hs1 : (w'.tensors i).shape = s0 ++ [k])
    (hi1 : ∀ t l, InBox s0 t → l < k → (w'.tensors i).get (t ++ [l]) = ∑ s ∈ range (w.lastDim i), (w.tensors i).get (t ++ [s]) * U s l)
    (hp1 : (w'.tensors p).shape = (w.tensors p).shape.set (childAxis w.tree i) k)
    (hp2 : ∀ idx, InBox (w'.tensors p).shape idx → (w'.tensors p).get idx =
      ∑ j ∈ range (w.lastDim i), (w.tensors p).get (idx.set (childAxis w.tree i) j) * P j (idx.getD (childAxis w.tree i) 0))
    (hoth : ∀ j, j ≠ i → j ≠ p → w'.tensors j = w.tensors j)
    {Q : Nat → Prop} (hQi : ¬ Q i) (hQr : ∀ r, IsRoot w.tree r → ¬ Q r) :
    Gauge (ins w K (fun j => Q j ∨ j = i)) (ins w' K Q) p i k (fun l j => P j l) := by
  have s1 := ins_same w K (fun j => Q j ∨ j = i)
  have hne := edge_ne hw.valid he
  have hti : (ins w K (fun j => Q j ∨ j = i)).tensors i = insT (w.tensors i) (K i) :=
    ins_pos (S := fun j => Q j ∨ j = i) (.inr rfl)
  have hti' : (ins w' K Q).tensors i = w'.tensors i := ins_neg hQi
  have hax := childAxis_lt hw.valid he
  have hpl := edge_internal hw.valid he
  refine ⟨ht, he, by rw [s1.active]; exact hai, hk, ⟨s0, ?_, ?_, ?_⟩, ?_, ?_, ?_⟩
  · rw [s1.shape, s1.lastDim]; exact hs0
  · rw [hti']; exact hs1
  · intro t j htb hj
    rw [s1.lastDim] at hj
    rw [hti, hti', insT_get, lastDim_last]
    have e1 : ∀ l ∈ range k, (w'.tensors i).get (t ++ [l]) * P j l =
        ∑ s ∈ range (w.lastDim i), (w.tensors i).get (t ++ [s]) * U s l * P j l := by
      intro l hl
      rw [hi1 t l htb (mem_range.1 hl), sum_mul]
    rw [sum_congr rfl e1, sum_comm]
    refine sum_congr rfl (fun s hs => ?_)
    rw [hK s j (mem_range.1 hs) hj, mul_sum]
    exact sum_congr rfl (fun l _ => by ring)
  · have : ((ins w' K Q).tensors p).shape = (w'.tensors p).shape := (ins_same w' K Q).shape p
    rw [this, s1.shape]; exact hp1
  · intro idx hidx
    have hsh : ((ins w' K Q).tensors p).shape = (w'.tensors p).shape := (ins_same w' K Q).shape p
    rw [hsh] at hidx
    rw [s1.lastDim]
    by_cases hQp : Q p
    · have hpr : ¬ IsRoot w.tree p := fun h => hQr p h hQp
      have h1 : (ins w' K Q).tensors p = insT (w'.tensors p) (K p) := ins_pos hQp
      have h2 : (ins w K (fun j => Q j ∨ j = i)).tensors p = insT (w.tensors p) (K p) :=
        ins_pos (S := fun j => Q j ∨ j = i) (.inl hQp)
      have hpsh : (w.tensors p).shape = (w.tree.children p).map (childSize w) ++ [w.lastDim p] := by
        have := (hw.node p he.1 hpl).2.1
        rw [this, ← hw.rs_eq he.1 hpr, rs_node hpl]
      have hsh' : (w'.tensors p).shape = ((w.tree.children p).map (childSize w)).set (childAxis w.tree i) k ++ [w.lastDim p] := by
        rw [hp1, hpsh, List.set_append_left _ _ (by simpa using hax)]
      rw [hsh'] at hidx
      obtain ⟨t, e, rfl, htb, heb⟩ := inBox_append_split hidx
      obtain ⟨q, rfl, hq⟩ := inBox_single heb
      have htl : t.length = (w.tree.children p).length := by rw [htb.length_eq]; simp
      have hlast' : (w'.tensors p).shape.getLast?.getD 0 = w.lastDim p := by rw [hsh']; simp
      show ((ins w' K Q).tensors p).get (t ++ [q]) = ∑ j ∈ range (w.lastDim i),
        ((ins w K (fun j => Q j ∨ j = i)).tensors p).get ((t ++ [q]).set (childAxis w.tree i) j) *
          P j ((t ++ [q]).getD (childAxis w.tree i) 0)
      rw [h1, h2, insT_get, hlast']
      have hset : ∀ j, (t ++ [q]).set (childAxis w.tree i) j = t.set (childAxis w.tree i) j ++ [q] := fun j =>
        List.set_append_left _ _ (by omega)
      have hgd : ∀ q', (t ++ [q']).getD (childAxis w.tree i) 0 = t.getD (childAxis w.tree i) 0 := fun q' =>
        List.getD_append _ _ _ _ (by omega)
      have e1 : ∀ s ∈ range (w.lastDim p), (w'.tensors p).get (t ++ [s]) * K p s q =
          ∑ j ∈ range (w.lastDim i), (w.tensors p).get (t.set (childAxis w.tree i) j ++ [s]) * P j (t.getD (childAxis w.tree i) 0) * K p s q := by
        intro s hs
        rw [hp2 (t ++ [s]) (by rw [hsh']; exact (inBox_append htb.length_eq).2 ⟨htb, inBox_one (mem_range.1 hs)⟩), sum_mul]
        refine sum_congr rfl (fun j _ => ?_)
        rw [hgd, List.set_append_left _ _ (by omega)]
      rw [sum_congr rfl e1, sum_comm]
      refine sum_congr rfl (fun j _ => ?_)
      rw [hset, insT_get, lastDim_last, sum_mul, hgd]
      exact sum_congr rfl (fun s _ => by ring)
    · have h1 : (ins w' K Q).tensors p = w'.tensors p := ins_neg hQp
      have h2 : (ins w K (fun j => Q j ∨ j = i)).tensors p = w.tensors p :=
        ins_neg (S := fun j => Q j ∨ j = i) (by rintro (h | h); exacts [hQp h, hne h])
      rw [h1, h2]
      exact hp2 idx hidx
  · intro j hji hjp
    by_cases hQj : Q j
    · have h1 : (ins w' K Q).tensors j = insT (w'.tensors j) (K j) := ins_pos hQj
      have h2 : (ins w K (fun j => Q j ∨ j = i)).tensors j = insT (w.tensors j) (K j) :=
        ins_pos (S := fun j => Q j ∨ j = i) (.inl hQj)
      rw [h1, h2, hoth j hji hjp]
    · have h1 : (ins w' K Q).tensors j = w'.tensors j := ins_neg hQj
      have h2 : (ins w K (fun j => Q j ∨ j = i)).tensors j = w.tensors j :=
        ins_neg (S := fun j => Q j ∨ j = i) (by rintro (h | h); exacts [hQj h, hji h])
      rw [h1, h2, hoth j hji hjp]

end Verif.TreeBased
