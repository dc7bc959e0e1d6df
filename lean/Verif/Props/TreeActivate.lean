import Verif.Props.TreeArith

/-!
# `activate_nodes`, and the sum of tensors whose active nodes differ (C35)
-/

namespace Verif.TreeBased

open Verif.Arr Verif.DimTree Finset

variable {R : Type}

/-- The tensors of the nodes after `activate_nodes(nodes)`. -/
def actTensors [Zero R] [One R] (x : TBT R) (nodes : List Nat) (i : Nat) : Arr R :=
  if i ∈ nodes ∧ ¬ x.active i = true then eyeArr (x.leafSize i) else x.tensors i

theorem activate_fold [Zero R] [One R] (x : TBT R) (nodes : List Nat) (h : ∀ i ∈ nodes, ¬ x.active i = true → i ∈ x.tree.dim2ind) :
    (nodes.foldlM (fun (ts : Nat → Arr R) nod =>
      if x.active nod then (.ok ts : Py _)
      else if nod ∈ x.tree.dim2ind then .ok (upd ts nod (eyeArr (x.shape.getD (x.tree.dim2ind.idxOf nod) 0)))
      else .error .indexError) x.tensors) = .ok (actTensors x nodes) := by
  have gen : ∀ (l pre : List Nat), (∀ i ∈ l, ¬ x.active i = true → i ∈ x.tree.dim2ind) →
      (l.foldlM (fun (ts : Nat → Arr R) nod =>
      if x.active nod then (.ok ts : Py _)
      else if nod ∈ x.tree.dim2ind then .ok (upd ts nod (eyeArr (x.shape.getD (x.tree.dim2ind.idxOf nod) 0)))
      else .error .indexError) (actTensors x pre)) = .ok (actTensors x (pre ++ l)) := by
    intro l
    induction l with
    | nil => intro pre _; simp; rfl
    | cons a l ih =>
      intro pre hm
      rw [List.foldlM_cons]
      have ih' := ih (pre ++ [a]) (fun i hi => hm i (by simp [hi]))
      rw [List.append_assoc, List.singleton_append] at ih'
      by_cases ha : x.active a = true
      · rw [if_pos ha]
        have : actTensors x (pre ++ [a]) = actTensors x pre := by
          funext i
          unfold actTensors
          by_cases hi : i = a
          · subst hi; simp [ha]
          · simp [hi]
        rw [this] at ih'
        simpa only [bind, Except.bind] using ih'
      · have hmem := hm a (by simp) ha
        rw [if_neg ha, if_pos hmem]
        have : actTensors x (pre ++ [a]) = upd (actTensors x pre) a (eyeArr (x.shape.getD (x.tree.dim2ind.idxOf a) 0)) := by
          funext i
          unfold actTensors upd
          by_cases hi : i = a
          · subst hi
            have := shape_getD hmem
            unfold dimOf at this
            rw [this]
            simp [ha]
          · simp [hi]
        rw [this] at ih'
        simpa only [bind, Except.bind] using ih'
  have := gen nodes [] h
  have h0 : actTensors x [] = x.tensors := by funext i; unfold actTensors; simp
  rw [h0, List.nil_append] at this
  exact this

/-- A sum against the identity matrix. -/
theorem childSum_eye [CommSemiring R] {x z : TBT R} (ht : z.tree = x.tree) {V V' : Nat → List Nat → List Nat → R}
    {idx : List Nat} (cs : List Nat) (hnew : ∀ c ∈ cs, ¬ x.active c = true → z.active c = true →
      idx.getD (dimOf x.tree c) 0 < z.lastDim c ∧ ∀ s, V' c idx [s] = if idx.getD (dimOf x.tree c) 0 = s then 1 else 0)
    (hold : ∀ c ∈ cs, x.active c = true → z.active c = true ∧ z.lastDim c = x.lastDim c ∧ ∀ s, V' c idx [s] = V c idx [s])
    (k : List Nat → R) : childSum z V' idx cs k = childSum x V idx cs k := by
  induction cs generalizing k with
  | nil => rfl
  | cons c cs ih =>
    have ih' := fun k => ih (fun c' hc' => hnew c' (by simp [hc'])) (fun c' hc' => hold c' (by simp [hc'])) k
    unfold childSum
    by_cases ha : x.active c = true
    · obtain ⟨h1, h2, h3⟩ := hold c (by simp) ha
      rw [if_pos h1, if_pos ha, h2]
      exact sum_congr rfl (fun s _ => by rw [h3, ih'])
    · rw [if_neg ha]
      by_cases hz : z.active c = true
      · obtain ⟨h1, h2⟩ := hnew c (by simp) ha hz
        rw [if_pos hz]
        simp only [h2, ih', ite_mul, one_mul, zero_mul]
        rw [sum_ite_eq, if_pos (mem_range.2 h1)]
      · rw [if_neg hz, ih', ht]

/-- `activate_nodes(nodes)`: the inactive leaves among `nodes` become active, and the full tensor does not change. -/
theorem activateNodes_full [CommSemiring R] (x : TBT R) (hx : WF x) (nodes : List Nat) (hn : ∀ i ∈ nodes, IsNode x.tree i) :
    ∃ x' a b, activateNodes x nodes = .ok x' ∧ WF x' ∧ full x = .ok a ∧ full x' = .ok b ∧ b ≃ₐ a ∧ x'.tree = x.tree ∧
      x'.shape = x.shape ∧ (∀ r, IsRoot x.tree r → rankShape x' r = rankShape x r) ∧
      ∀ i, IsNode x.tree i → (x'.active i = true ↔ x.active i = true ∨ i ∈ nodes) := by
  classical
  have hV := hx.valid
  obtain ⟨r, hr, hroot⟩ := root_ok hV
  have hrl := hx.root_internal hroot
  have hleaf : ∀ i ∈ nodes, ¬ x.active i = true → i ∈ x.tree.dim2ind := fun i hi ha => hx.inactive_leaf (hn i hi) ha
  set z : TBT R := ⟨x.tree, actTensors x nodes⟩ with hz
  have sx := hx.shaped hroot
  have hold : ∀ i, ¬ (i ∈ nodes ∧ ¬ x.active i = true) → z.tensors i = x.tensors i := fun i hi => by
    show actTensors x nodes i = _; unfold actTensors; rw [if_neg hi]
  have hnew : ∀ i, (i ∈ nodes ∧ ¬ x.active i = true) → z.tensors i = eyeArr (x.leafSize i) := fun i hi => by
    show actTensors x nodes i = _; unfold actTensors; rw [if_pos hi]
  have hsz : Shaped z x.tree (fun i => x.active i || decide (i ∈ nodes)) (fun i => if x.active i then x.lastDim i else x.leafSize i)
      x.leafSize (rankShape x r) := by
    refine ⟨rfl, ?_, sx.nu, sx.rootPos, sx.rootLen, ?_, ?_, fun i hi hl => by simp [sx.internal i hi hl], ?_⟩
    · intro i hi hir ha
      show 0 < if x.active i = true then _ else _
      split
      · rename_i h; exact sx.rho i hi hir h
      · rename_i h; exact sx.nu i (hx.inactive_leaf hi h)
    · intro c hcl ha
      by_cases h : x.active c = true
      · rw [hold c (fun h' => h'.2 h), sx.leaf c hcl h]; simp [h]
      · have hm : c ∈ nodes := by simpa [h] using ha
        rw [hnew c ⟨hm, h⟩]; simp [h, eyeArr]
    · intro c hcl ha
      have h1 : ¬ x.active c = true ∧ c ∉ nodes := by simpa using ha
      rw [hold c (fun h' => h1.2 h'.1)]
      exact sx.off c hcl h1.1
    · intro i hi hl
      rw [hold i (fun h' => h'.2 (sx.internal i hi hl)), sx.node i hi hl]
      congr 1
      · refine List.map_congr_left (fun c hc => ?_)
        by_cases h : x.active c = true
        · simp [h]
        · simp [h]
      · by_cases hir : IsRoot x.tree i
        · rw [if_pos hir, if_pos hir]
        · rw [if_neg hir, if_neg hir, if_pos (sx.internal i hi hl)]
  have hwz := hsz.wf hV hx.order
  have hshz : z.shape = x.shape := hsz.shapeEq hV hx.order
  obtain ⟨V, hVx⟩ := exists_value x hV
  let V' : Nat → List Nat → List Nat → R := fun i idx e =>
    if i ∈ nodes ∧ ¬ x.active i = true then (if idx.getD (dimOf x.tree i) 0 = e.getD 0 0 then 1 else 0) else V i idx e
  have hon : IsValueOn z V' := by
    refine ⟨?_, ?_⟩
    · intro c hcl ha idx s hidx hs
      have hcl : c ∈ x.tree.dim2ind := hcl
      have hcn := ((hV.leaves c).1 hcl).1
      rw [hsz.active hV hx.order hcn] at ha
      show V' c idx [s] = (z.tensors c).get [idx.getD (dimOf x.tree c) 0, s]
      by_cases h : x.active c = true
      · have hno : ¬ (c ∈ nodes ∧ ¬ x.active c = true) := fun h' => h'.2 h
        rw [hold c hno]
        show (if _ then _ else _) = _
        rw [if_neg hno, hVx.leaf c hcl h]
      · have hm : c ∈ nodes := by simpa [h] using ha
        rw [hnew c ⟨hm, h⟩]
        show (if _ then _ else _) = _
        rw [if_pos ⟨hm, h⟩]
        rfl
    · intro i hi hl idx e hidx he
      have hi : IsNode x.tree i := hi
      have hl : i ∉ x.tree.dim2ind := hl
      have hai := sx.internal i hi hl
      have hno : ¬ (i ∈ nodes ∧ ¬ x.active i = true) := fun h' => h'.2 hai
      rw [hshz] at hidx
      show (if _ then _ else _) = childSum z V' idx (x.tree.children i) (fun t => (z.tensors i).get (t ++ e))
      rw [if_neg hno, hVx.node i hi hl, hold i hno]
      symm
      apply childSum_eye (x := x) (z := z) rfl
      · intro c hcc hxa hza
        have hce := (mem_children i c hi).1 hcc
        have hcl := hx.inactive_leaf hce.2.1 hxa
        rw [hsz.active hV hx.order hce.2.1] at hza
        have hm : c ∈ nodes := by simpa [hxa] using hza
        rw [hsz.lastDim hce.2.1 (fun h => h.2 i hce) hza]
        refine ⟨?_, fun s => ?_⟩
        · simp only [if_neg hxa]; exact inBox_shape_getD hidx hcl
        · show (if _ then _ else _) = _
          rw [if_pos ⟨hm, hxa⟩]; rfl
      · intro c hcc hxa
        have hce := (mem_children i c hi).1 hcc
        have hza : (x.active c || decide (c ∈ nodes)) = true := by simp [hxa]
        refine ⟨by rw [hsz.active hV hx.order hce.2.1]; exact hza, ?_, fun s => ?_⟩
        · rw [hsz.lastDim hce.2.1 (fun h => h.2 i hce) hza]; simp [hxa]
        · show (if _ then _ else _) = _
          rw [if_neg (fun h' => h'.2 hxa)]
  obtain ⟨a, a1, a2, a3⟩ := full_on x hx hVx.on hr
  obtain ⟨b, b1, b2, b3⟩ := full_on z hwz hon hr
  have hrz : rankShape z r = rankShape x r := hsz.rankShape_root hroot hrl
  refine ⟨z, a, b, ?_, hwz, a1, b1, ⟨?_, ?_⟩, rfl, hshz, ?_, ?_⟩
  · unfold activateNodes
    rw [activate_fold x nodes hleaf]
    simp only [bind, Except.bind]
    exact mk_wf hwz
  · rw [a2, b2, hshz, hrz]
  · intro idx hidx
    rw [b2] at hidx
    obtain ⟨p, e, rfl, hp, he⟩ := inBox_append_split hidx
    rw [b3 p e hp he]
    rw [hshz] at hp
    rw [hrz] at he
    rw [a3 p e hp he]
    show (if _ then _ else _) = _
    rw [if_neg (fun h' => h'.2 (sx.internal r hroot.1 hrl))]
  · intro r' hr'
    rw [root_unique hV hr' hroot]; exact hrz
  · intro i hi
    rw [hsz.active hV hx.order hi]; simp

/-- `activate_nodes` refuses a node that is neither active nor a leaf of the tree (for instance a number that is not
that of a node). -/
theorem activateNodes_refused [CommSemiring R] (x : TBT R) (i : Nat) (ha : ¬ x.active i = true)
    (hl : i ∉ x.tree.dim2ind) : activateNodes x [i] = .error .indexError := by
  unfold activateNodes
  simp only [List.foldlM_cons, if_neg ha, if_neg hl, bind, Except.bind]

/-- The rank shapes and the dimensions agree: what the user has to ensure for a sum. -/
structure Addable (x y : TBT R) : Prop where
  tree : y.tree = x.tree
  shape : y.shape = x.shape
  root : ∀ r, IsRoot x.tree r → rankShape y r = rankShape x r

/-- `x + y` for all tensors on the same tree with the same shape: the full tensor of the sum is the sum of the full
tensors, whatever the ranks and the active leaves of the two terms. -/
theorem add_full [CommSemiring R] (x y : TBT R) (hx : WF x) (hy : WF y) (hc : Addable x y) :
    ∃ z a b w, add x y = .ok z ∧ WF z ∧ full x = .ok a ∧ full y = .ok b ∧ full z = .ok w ∧
      w ≃ₐ FullTensor.add a b ∧ a.shape = b.shape := by
  by_cases hact : ∀ i, IsNode x.tree i → y.active i = x.active i
  · obtain ⟨z, a, b, w, h1, h2, h3, h4, h5, h6, h7, _⟩ := add_same x y hx hy ⟨hc.tree, hact, hc.shape, hc.root⟩
    exact ⟨z, a, b, w, h1, h2, h3, h4, h5, h6, h7⟩
  · have hnodes : ∀ (w : TBT R), ∀ i ∈ w.activeNodes, IsNode w.tree i := by
      intro w i hi
      unfold TBT.activeNodes at hi
      exact (mem_nodes i).1 (List.mem_filter.1 hi).1
    have hmem : ∀ (w : TBT R) i, IsNode w.tree i → (i ∈ w.activeNodes ↔ w.active i = true) := by
      intro w i hi
      unfold TBT.activeNodes
      rw [List.mem_filter, mem_nodes]
      exact ⟨fun h => h.2, fun h => ⟨hi, h⟩⟩
    obtain ⟨x', a, a', p1, p2, p3, p4, p5, p6, p7, p8, p9⟩ := activateNodes_full x hx y.activeNodes (fun i hi => by
      rw [← hc.tree]; exact hnodes y i hi)
    obtain ⟨y', b, b', q1, q2, q3, q4, q5, q6, q7, q8, q9⟩ := activateNodes_full y hy x'.activeNodes (fun i hi => by
      rw [hc.tree, ← p6]; exact hnodes x' i hi)
    have hcomp : Compat x' y' := by
      refine ⟨by rw [q6, p6, hc.tree], ?_, by rw [q7, p7, hc.shape], ?_⟩
      · intro i hi
        rw [p6] at hi
        have hiy : IsNode y.tree i := by rw [hc.tree]; exact hi
        have e1 := p9 i hi
        have e2 := q9 i hiy
        rw [hmem y i hiy] at e1
        rw [hmem x' i (by rw [p6]; exact hi)] at e2
        rw [Bool.eq_iff_iff, e2, e1]
        constructor
        · rintro (h | h)
          · exact .inr h
          · exact h
        · intro h; exact .inr h
      · intro r hr
        rw [p6] at hr
        rw [p8 r hr, q8 r (by rw [hc.tree]; exact hr), hc.root r hr]
    obtain ⟨z, a'', b'', w, h1, h2, h3, h4, h5, h6, h7, h8, _⟩ := add_same x' y' p2 q2 hcomp
    rw [p4] at h3; cases h3
    rw [q4] at h4; cases h4
    refine ⟨z, a, b, w, ?_, h2, p3, q3, h5, ?_, ?_⟩
    · unfold add at h1 ⊢
      have hcond : ¬ (x.tree.n = y.tree.n ∧ x.tree.nodes.all (fun i => x.active i == y.active i) = true) := by
        rintro ⟨_, h⟩
        apply hact
        intro i hi
        rw [List.all_eq_true] at h
        have := h i ((mem_nodes i).2 hi)
        simpa using (beq_iff_eq.1 this).symm
      have hcond' : x'.tree.n = y'.tree.n ∧ x'.tree.nodes.all (fun i => x'.active i == y'.active i) = true := by
        refine ⟨by rw [hcomp.tree], ?_⟩
        rw [List.all_eq_true]
        intro i hi
        rw [hcomp.active i ((mem_nodes i).1 hi)]; simp
      simp only [bind, Except.bind] at h1 ⊢
      rw [if_pos hcond'] at h1
      rw [if_neg hcond]
      simp only [p1, q1]
      exact h1
    · refine h6.trans ⟨p5.1, ?_⟩
      intro idx hidx
      have hidx : InBox a'.shape idx := hidx
      show a'.get idx + b'.get idx = a.get idx + b.get idx
      rw [p5.2 idx hidx, q5.2 idx (by rw [← h7]; exact hidx)]
    · rw [← p5.1, ← q5.1, h7]

/-- `x - y`. -/
theorem sub_full [CommRing R] (x y : TBT R) (hx : WF x) (hy : WF y) (hc : Addable x y) :
    ∃ z a b w, sub x y = .ok z ∧ WF z ∧ full x = .ok a ∧ full y = .ok b ∧ full z = .ok w ∧
      w ≃ₐ FullTensor.sub a b ∧ a.shape = b.shape := by
  obtain ⟨r, hr, hroot⟩ := root_ok hy.valid
  obtain ⟨y', b, c, h1, h2, h3, h4, h5⟩ := neg_full y hy
  have hss : SameShapes y y' := by
    unfold neg at h1
    simp only [hr, bind, Except.bind] at h1
    injection h1 with h1
    subst h1
    refine ⟨rfl, fun i => ?_⟩
    show (upd y.tensors r (FullTensor.neg (y.tensors r)) i).shape = _
    unfold upd; split
    · rename_i hi; rw [hi]; rfl
    · rfl
  obtain ⟨z, a, c', w, g1, g2, g3, g4, g5, g6, g7⟩ := add_full x y' hx h2
    ⟨by rw [hss.tree, hc.tree], by rw [hss.shapeEq, hc.shape], fun r hr => by rw [hss.rankShape, hc.root r hr]⟩
  rw [h4] at g4; cases g4
  have hs : c.shape = b.shape := h5.1
  refine ⟨z, a, b, w, ?_, g2, g3, h3, g5, ?_, by rw [g7, hs]⟩
  · unfold sub
    simp only [h1, bind, Except.bind]
    exact g1
  · refine g6.trans ⟨rfl, ?_⟩
    intro idx hidx
    have hidx : InBox a.shape idx := hidx
    show a.get idx + c.get idx = a.get idx - b.get idx
    rw [h5.2 idx (by rw [← g7]; exact hidx)]
    simp [FullTensor.neg, Arr.map, sub_eq_add_neg]

end Verif.TreeBased
