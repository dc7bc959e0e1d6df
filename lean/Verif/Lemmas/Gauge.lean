import Verif.Lemmas.Shaped

/-!
# Changes of the basis of a node of a tree-based tensor
-/

namespace Verif.TreeBased

open Verif.Arr Verif.DimTree Finset

variable {R : Type}

theorem edge_ne {T : DTree} (hV : Valid T) {p i : Nat} (he : Edge T p i) : p ≠ i := by
  obtain ⟨k, hk⟩ := exists_level hV he.1
  intro h
  have h1 : HasLevel T i (k + 1) := .child hk he
  rw [h] at hk
  have := HasLevel.unique hV.unique_parent hk h1
  omega

/-- `x'` is obtained from `x` by replacing the tensor of the node `i` by one with `k` basis elements, from which the
first one is recovered by the matrix `M`, and by multiplying the tensor of its parent by `M` along the axis of `i`. -/
structure Gauge [CommSemiring R] (x x' : TBT R) (p i k : Nat) (M : Nat → Nat → R) : Prop where
  tree : x'.tree = x.tree
  edge : Edge x.tree p i
  act : x.active i = true
  pos : 0 < k
  shape : ∃ s, (x.tensors i).shape = s ++ [x.lastDim i] ∧ (x'.tensors i).shape = s ++ [k] ∧
    ∀ t j, InBox s t → j < x.lastDim i →
      (x.tensors i).get (t ++ [j]) = ∑ l ∈ range k, (x'.tensors i).get (t ++ [l]) * M l j
  pshape : (x'.tensors p).shape = (x.tensors p).shape.set (childAxis x.tree i) k
  parent : ∀ idx, InBox (x'.tensors p).shape idx → (x'.tensors p).get idx =
    ∑ j ∈ range (x.lastDim i), (x.tensors p).get (idx.set (childAxis x.tree i) j) * M (idx.getD (childAxis x.tree i) 0) j
  other : ∀ j, j ≠ i → j ≠ p → x'.tensors j = x.tensors j

theorem map_set_idxOf {l : List Nat} (hnd : l.Nodup) {i : Nat} (hi : i ∈ l) (f : Nat → Nat) (k : Nat) :
    (l.map f).set (l.idxOf i) k = l.map (fun c => if c = i then k else f c) := by
  apply List.ext_getElem (by simp)
  intro m h1 h2
  have hm : m < l.length := by simpa using h2
  rw [List.getElem_set, List.getElem_map, List.getElem_map]
  by_cases h : l.idxOf i = m
  · have : l[m] = i := by subst h; exact List.getElem_idxOf _
    rw [if_pos h, if_pos this]
  · rw [if_neg h, if_neg]
    intro h'
    apply h
    rw [← h', hnd.idxOf_getElem m hm]

/-- A sum over the children, one of which has a new basis. -/
theorem childSum_gauge [CommSemiring R] {x x' : TBT R} (ht : x'.tree = x.tree) {V V' : Nat → List Nat → List Nat → R}
    {idx : List Nat} {i k : Nat} {M : Nat → Nat → R} (cs : List Nat) (hnd : cs.Nodup) (hi : i ∈ cs)
    (hai : x.active i = true) (hai' : x'.active i = true) (hk : x'.lastDim i = k)
    (ha : ∀ c ∈ cs, c ≠ i → x'.active c = x.active c) (hl : ∀ c ∈ cs, c ≠ i → x.active c → x'.lastDim c = x.lastDim c)
    (hV : ∀ c ∈ cs, c ≠ i → ∀ s, V' c idx [s] = V c idx [s])
    (hVi : ∀ j, j < x.lastDim i → V i idx [j] = ∑ l ∈ range k, V' i idx [l] * M l j) (f : List Nat → R) :
    childSum x' V' idx cs (fun t => ∑ j ∈ range (x.lastDim i), f (t.set (cs.idxOf i) j) * M (t.getD (cs.idxOf i) 0) j) =
      childSum x V idx cs f := by
  induction cs generalizing f with
  | nil => simp at hi
  | cons c cs ih =>
    rw [List.nodup_cons] at hnd
    have hrest : ∀ (h : i ∉ cs) (f : List Nat → R), childSum x' V' idx cs f = childSum x V idx cs f := by
      intro h f
      have hne : ∀ c' ∈ cs, c' ≠ i := fun c' hc' e => h (e ▸ hc')
      rw [childSum_congrX ht V' idx cs f (fun c' hc' => ha c' (by simp [hc']) (hne c' hc'))
        (fun c' hc' => hl c' (by simp [hc']) (hne c' hc'))]
      exact childSum_congrV x V' V idx cs f (fun c' hc' _ s => hV c' (by simp [hc']) (hne c' hc') s)
    by_cases hci : c = i
    · subst hci
      unfold childSum
      rw [if_pos hai, if_pos hai', hk]
      simp only [List.idxOf_cons_self, List.set_cons_zero, List.getD_cons_zero]
      have h1 : ∀ l, childSum x' V' idx cs (fun t => ∑ j ∈ range (x.lastDim c), f (j :: t) * M l j) =
          ∑ j ∈ range (x.lastDim c), M l j * childSum x V idx cs (fun t => f (j :: t)) := by
        intro l
        rw [hrest hnd.1, childSum_sum]
        refine sum_congr rfl (fun j _ => ?_)
        rw [← childSum_mul]
        congr 1; funext t; ring
      simp only [h1, mul_sum]
      rw [sum_comm]
      refine sum_congr rfl (fun j hj => ?_)
      rw [hVi j (mem_range.1 hj), sum_mul]
      exact sum_congr rfl (fun l _ => by ring)
    · have him : i ∈ cs := by simpa [Ne.symm hci] using hi
      have ih' := fun f => ih hnd.2 him (fun c' hc' => ha c' (by simp [hc'])) (fun c' hc' => hl c' (by simp [hc']))
        (fun c' hc' => hV c' (by simp [hc'])) f
      unfold childSum
      rw [ha c (by simp) hci, List.idxOf_cons_ne _ hci]
      simp only [List.set_cons_succ, List.getD_cons_succ]
      by_cases hca : x.active c = true
      · rw [if_pos hca, if_pos hca, hl c (by simp) hci hca]
        refine sum_congr rfl (fun s _ => ?_)
        rw [hV c (by simp) hci, ih' (fun t => f (s :: t))]
      · rw [if_neg hca, if_neg hca, ht, ih' (fun t => f (_ :: t))]

namespace Gauge

variable [CommSemiring R] {x x' : TBT R} {p i k : Nat} {M : Nat → Nat → R}

theorem shaped (g : Gauge x x' p i k M) (hx : WF x) {r : Nat} (hr : IsRoot x.tree r) :
    Shaped x' x.tree x.active (upd x.lastDim i k) x.leafSize (rankShape x r) := by
  have hs := hx.shaped hr
  have hne := edge_ne hx.valid g.edge
  have hir : ¬ IsRoot x.tree i := fun h => h.2 p g.edge
  have hpl := edge_internal hx.valid g.edge
  obtain ⟨s, s1, s2, _⟩ := g.shape
  refine ⟨g.tree, ?_, hs.nu, hs.rootPos, hs.rootLen, ?_, ?_, hs.internal, ?_⟩
  · intro j hj hjr ha
    unfold upd; split
    · exact g.pos
    · exact hs.rho j hj hjr ha
  · intro c hc ha
    have hcp : c ≠ p := fun h => hpl (h ▸ hc)
    by_cases hci : c = i
    · subst hci
      have := hs.leaf c hc ha
      rw [s1] at this
      have hs' : s = [x.leafSize c] := by
        have h2 : s ++ [x.lastDim c] = [x.leafSize c] ++ [x.lastDim c] := by simpa using this
        exact List.append_cancel_right h2
      rw [s2, hs']; simp [upd]
    · rw [g.other c hci hcp, hs.leaf c hc ha]; simp [upd, hci]
  · intro c hc ha
    have hcp : c ≠ p := fun h => hpl (h ▸ hc)
    have hci : c ≠ i := fun h => ha (h ▸ g.act)
    rw [g.other c hci hcp]; exact hs.off c hc ha
  · intro j hj hl
    have hmap : ∀ q, IsNode x.tree q → q ≠ p → (x.tree.children q).map (fun c => if x.active c then upd x.lastDim i k c else x.leafSize c) =
        (x.tree.children q).map (fun c => if x.active c then x.lastDim c else x.leafSize c) := by
      intro q hq hqp
      apply List.map_congr_left
      intro c hc
      have hce := (mem_children q c hq).1 hc
      have : c ≠ i := by
        rintro rfl
        exact hqp (hx.valid.unique_parent _ _ _ hce g.edge)
      simp only [upd, if_neg this]
    by_cases hji : j = i
    · subst hji
      rw [hmap j hj (Ne.symm hne), s2, if_neg hir]
      have := hs.node j hj hl
      rw [s1, if_neg hir] at this
      rw [List.append_cancel_right this]
      simp [upd]
    · by_cases hjp : j = p
      · subst hjp
        rw [g.pshape, hs.node j hj hl]
        have hax := childAxis_eq hx.valid g.edge
        have hmem := (mem_children j i hj).2 g.edge
        have hlt : childAxis x.tree i < (x.tree.children j).length := childAxis_lt hx.valid g.edge
        rw [List.set_append_left _ _ (by simpa using hlt), hax, map_set_idxOf (nodup_children j) hmem]
        congr 1
        · apply List.map_congr_left
          intro c _
          by_cases hci : c = i
          · subst hci; simp [upd, g.act]
          · simp [upd, hci]
        · simp only [upd, if_neg hji]
      · rw [g.other j hji hjp, hs.node j hj hl, hmap j hj hjp]
        simp only [upd, if_neg hji]

/-- A change of basis does not change the full tensor. -/
theorem full_eq (g : Gauge x x' p i k M) (hx : WF x) :
    WF x' ∧ ∃ a b, full x = .ok a ∧ full x' = .ok b ∧ b ≃ₐ a := by
  obtain ⟨r, hr, hroot⟩ := root_ok hx.valid
  have hs := g.shaped hx hroot
  have hwf := hs.wf hx.valid hx.order
  have hrl := hx.root_internal hroot
  have hne := edge_ne hx.valid g.edge
  have hir : ¬ IsRoot x.tree i := fun h => h.2 p g.edge
  have hpl := edge_internal hx.valid g.edge
  have hact : ∀ j, IsNode x.tree j → x'.active j = x.active j := fun j hj => hs.active hx.valid hx.order hj
  have hld : ∀ j, IsNode x.tree j → ¬ IsRoot x.tree j → x.active j = true → x'.lastDim j = upd x.lastDim i k j :=
    fun j hj hjr ha => hs.lastDim hj hjr ha
  have hshape : x'.shape = x.shape := hs.shapeEq hx.valid hx.order
  have hrank : ∀ j, IsNode x.tree j → j ∉ x.tree.dim2ind → j ≠ i → rankShape x' j = rankShape x j := by
    intro j hj hl hji
    by_cases hjr : IsRoot x.tree j
    · rw [hs.rankShape_root hjr hl, root_unique hx.valid hjr hroot]
    · rw [hs.rankShape_node hj hl hjr, (hx.shaped hroot).rankShape_node hj hl hjr]
      simp [upd, hji]
  obtain ⟨s, s1, s2, s3⟩ := g.shape
  have hin := g.edge.2.1
  have hki : x'.lastDim i = k := by rw [hld i hin hir g.act]; simp [upd]
  obtain ⟨V, hV⟩ := exists_value x hx.valid
  set Vi : List Nat → List Nat → R := fun idx e =>
    if i ∈ x.tree.dim2ind then (x'.tensors i).get (idx.getD (dimOf x.tree i) 0 :: e)
    else childSum x V idx (x.tree.children i) (fun t => (x'.tensors i).get (t ++ e)) with hVidef
  set V' : Nat → List Nat → List Nat → R := fun j idx e => if j = i then Vi idx e else V j idx e with hV'def
  have hVne : ∀ j, j ≠ i → ∀ idx e, V' j idx e = V j idx e := fun j hj idx e => by simp only [hV'def, if_neg hj]
  have hVi : ∀ idx, InBox x.shape idx → ∀ j, j < x.lastDim i → V i idx [j] = ∑ l ∈ range k, V' i idx [l] * M l j := by
    intro idx hidx j hj
    simp only [hV'def, if_true, hVidef]
    by_cases hil : i ∈ x.tree.dim2ind
    · simp only [if_pos hil]
      rw [hV.leaf i hil g.act]
      have hs' : s = [x.leafSize i] := by
        have h2 : s ++ [x.lastDim i] = [x.leafSize i] ++ [x.lastDim i] := by
          rw [← s1]; exact (hx.shaped hroot).leaf i hil g.act
        exact List.append_cancel_right h2
      exact s3 [idx.getD (dimOf x.tree i) 0] j (by rw [hs']; simpa using inBox_shape_getD hidx hil) hj
    · simp only [if_neg hil]
      rw [hV.node i hin hil]
      have hs' : s = (x.tree.children i).map (childSize x) := by
        have h2 := (hx.node i hin hil).2.1
        have h3 := hx.rs_eq hin hir
        rw [rs_node hil] at h3
        rw [h3, s1] at h2
        exact List.append_cancel_right h2
      have h1 : childSum x V idx (x.tree.children i) (fun t => (x.tensors i).get (t ++ [j])) =
          childSum x V idx (x.tree.children i) (fun t => ∑ l ∈ range k, M l j * (x'.tensors i).get (t ++ [l])) := by
        apply childSum_congr
        · intros; rfl
        · intro t htb
          rw [s3 t j (by rw [hs']; exact htb) hj]
          exact sum_congr rfl (fun l _ => by ring)
        · intro c hc ha
          have hce := (mem_children i c hin).1 hc
          unfold childSize; rw [if_neg ha]
          exact inBox_shape_getD hidx (hx.inactive_leaf hce.2.1 ha)
      rw [h1, childSum_sum]
      refine sum_congr rfl (fun l _ => ?_)
      rw [childSum_mul]; ring
  have hsame : ∀ j, IsNode x.tree j → j ≠ p → ∀ idx f,
      childSum x' V' idx (x.tree.children j) f = childSum x V idx (x.tree.children j) f := by
    intro j hj hjp idx f
    have hci : ∀ c ∈ x.tree.children j, Edge x.tree j c ∧ c ≠ i := by
      intro c hc
      have hce := (mem_children j c hj).1 hc
      refine ⟨hce, ?_⟩
      rintro rfl
      exact hjp (hx.valid.unique_parent _ _ _ hce g.edge)
    rw [childSum_congrX g.tree V' idx _ f (fun c hc => hact c (hci c hc).1.2.1) (fun c hc ha => by
      rw [hld c (hci c hc).1.2.1 (WF.child_not_root (hci c hc).1) ha]; simp [upd, (hci c hc).2])]
    exact childSum_congrV x V' V idx _ f (fun c hc _ s => hVne c (hci c hc).2 idx [s])
  have hon : IsValueOn x' V' := by
    refine ⟨?_, ?_⟩
    · intro c hc ha idx q hidx hq
      rw [g.tree] at hc ⊢
      have hcn := ((hx.valid.leaves c).1 hc).1
      have hcp : c ≠ p := fun h => hpl (h ▸ hc)
      by_cases hci : c = i
      · subst hci
        simp only [hV'def, if_true, hVidef, if_pos hc]
      · rw [hVne c hci, g.other c hci hcp]
        exact hV.leaf c hc (by rw [← hact c hcn]; exact ha) idx [q]
    · intro j hj hl idx e hidx he
      rw [g.tree] at hj hl ⊢
      rw [hshape] at hidx
      by_cases hji : j = i
      · subst hji
        rw [hsame j hj (Ne.symm hne)]
        simp only [hV'def, if_true, hVidef, if_neg hl]
      · rw [hVne j hji, hV.node j hj hl]
        by_cases hjp : j = p
        · subst hjp
          rw [hrank j hj hl hji] at he
          have hax := childAxis_eq hx.valid g.edge
          have hmem := (mem_children j i hj).2 g.edge
          have hlt : childAxis x.tree i < (x.tree.children j).length := childAxis_lt hx.valid g.edge
          rw [hax] at hlt
          have hsz : (x'.tensors j).shape = (x.tree.children j).map (childSize x') ++ rankShape x j := by
            have := (hwf.node j (by rw [g.tree]; exact hj) (by rw [g.tree]; exact hl)).2.1
            rw [g.tree, hrank j hj hl hji] at this
            exact this
          have h1 : childSum x' V' idx (x.tree.children j) (fun t => (x'.tensors j).get (t ++ e)) =
              childSum x' V' idx (x.tree.children j) (fun t => ∑ q ∈ range (x.lastDim i),
                (x.tensors j).get (t.set ((x.tree.children j).idxOf i) q ++ e) * M (t.getD ((x.tree.children j).idxOf i) 0) q) := by
            apply childSum_congr
            · intros; rfl
            · intro t htb
              have htl : t.length = (x.tree.children j).length := by rw [htb.length_eq]; simp
              rw [g.parent (t ++ e) (by rw [hsz]; exact (inBox_append htb.length_eq).2 ⟨htb, he⟩), hax]
              refine sum_congr rfl (fun q _ => ?_)
              rw [List.set_append_left _ _ (by omega), List.getD_append _ _ _ _ (by omega)]
            · intro c hc ha
              have hce := (mem_children j c hj).1 hc
              rw [hact c hce.2.1] at ha
              have hcl := hx.inactive_leaf hce.2.1 ha
              unfold childSize; rw [if_neg (by rw [hact c hce.2.1]; exact ha), g.tree, hs.leafSize hx.valid hx.order hcl]
              exact inBox_shape_getD hidx hcl
          rw [h1]
          symm
          refine childSum_gauge g.tree (x.tree.children j) (nodup_children j) hmem g.act (by rw [hact i hin]; exact g.act) hki
            ?_ ?_ ?_ (hVi idx hidx) (fun t => (x.tensors j).get (t ++ e))
          · intro c hc _
            exact hact c ((mem_children j c hj).1 hc).2.1
          · intro c hc hci ha
            have hce := (mem_children j c hj).1 hc
            rw [hld c hce.2.1 (WF.child_not_root hce) ha]; simp [upd, hci]
          · intro c hc hci s
            exact hVne c hci idx [s]
        · rw [hsame j hj hjp, g.other j hji hjp]
  refine ⟨hwf, ?_⟩
  obtain ⟨a, a1, a2, a3⟩ := full_on x hx hV.on hr
  obtain ⟨b, b1, b2, b3⟩ := full_on x' hwf hon (by rw [g.tree]; exact hr)
  have hri : r ≠ i := fun h => hir (h ▸ hroot)
  refine ⟨a, b, a1, b1, ?_, ?_⟩
  · rw [b2, a2, hshape, hrank r hroot.1 hrl hri]
  · intro idx hidx
    rw [b2, hshape, hrank r hroot.1 hrl hri] at hidx
    obtain ⟨u, e, rfl, hu, he⟩ := inBox_append_split hidx
    rw [b3 u e (by rw [hshape]; exact hu) (by rw [hrank r hroot.1 hrl hri]; exact he), a3 u e hu he, hVne r hri]

theorem rank_root (g : Gauge x x' p i k M) (hx : WF x) {r : Nat} (hr : IsRoot x.tree r) : rankShape x' r = rankShape x r :=
  (g.shaped hx hr).rankShape_root hr (hx.root_internal hr)

theorem active (g : Gauge x x' p i k M) (hx : WF x) {j : Nat} (hj : IsNode x.tree j) : x'.active j = x.active j := by
  obtain ⟨r, _, hr⟩ := root_ok hx.valid
  exact (g.shaped hx hr).active hx.valid hx.order hj

theorem lastDim (g : Gauge x x' p i k M) (hx : WF x) {j : Nat} (hj : IsNode x.tree j) (hjr : ¬ IsRoot x.tree j)
    (ha : x.active j = true) : x'.lastDim j = if j = i then k else x.lastDim j := by
  obtain ⟨r, _, hr⟩ := root_ok hx.valid
  exact (g.shaped hx hr).lastDim hj hjr ha

theorem shapeEq (g : Gauge x x' p i k M) (hx : WF x) : x'.shape = x.shape := by
  obtain ⟨r, _, hr⟩ := root_ok hx.valid
  exact (g.shaped hx hr).shapeEq hx.valid hx.order

end Gauge
end Verif.TreeBased
