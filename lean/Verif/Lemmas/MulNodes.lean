import Verif.Lemmas.Insert
import Verif.Model.Hsvd

/-!
# Multiplication of the tensors of the nodes and of their parents by matrices
-/

namespace Verif.TreeBased

open Verif.Arr Verif.DimTree Finset Verif.Truncation

variable {R : Type} [CommSemiring R]

/-- The multiplication of a node and of its parent by the matrices `m` and `m'`: the insertion of `mᵀ m'` above the node is a
change of basis. -/
theorem mulNode_gauge {w : TBT R} (hw : WF w) {p i k : Nat} (he : Edge w.tree p i) (hai : w.active i = true) (hk : 0 < k)
    {m m' : Arr R} (hm : m.shape = [k, w.lastDim i]) (hm' : m'.shape = [k, w.lastDim i]) {K : Nat → Nat → Nat → R}
    (hK : ∀ s s', s < w.lastDim i → s' < w.lastDim i → K i s s' = ∑ l ∈ range k, m.get [l, s] * m'.get [l, s']) :
    ∃ ts', mulNode w.tree m m' w.tensors i = .ok ts' ∧
      (∃ s0, (w.tensors i).shape = s0 ++ [w.lastDim i] ∧ (ts' i).shape = s0 ++ [k] ∧ (∀ t l, InBox s0 t → l < k →
        (ts' i).get (t ++ [l]) = ∑ s ∈ range (w.lastDim i), (w.tensors i).get (t ++ [s]) * m.get [l, s]) ∧
        ∀ j, j ≠ i → j ≠ p → ts' j = w.tensors j) ∧ ∀ Q : Nat → Prop, ¬ Q i → (∀ r, IsRoot w.tree r → ¬ Q r) →
      Gauge (ins w K (fun j => Q j ∨ j = i)) (ins ⟨w.tree, ts'⟩ K Q) p i k (fun l j => m'.get [l, j]) := by
  have hir : ¬ IsRoot w.tree i := fun h => h.2 p he
  have hne := edge_ne hw.valid he
  obtain ⟨s0, hs0⟩ := lastShape hw he.2.1 hir hai
  have hpl := edge_internal hw.valid he
  have hlt := childAxis_lt hw.valid he
  have hpsh := (hw.node p he.1 hpl).2.1
  have hlt' : childAxis w.tree i < (w.tensors p).order := by
    unfold Arr.order; rw [hpsh]; simp; omega
  have hsz : (w.tensors p).shape.getD (childAxis w.tree i) 0 = w.lastDim i := by
    rw [hpsh, List.getD_append _ _ _ _ (by simpa using hlt), List.getD_eq_getElem _ _ (by simpa using hlt), List.getElem_map]
    have := children_getD hw.valid he
    rw [List.getD_eq_getElem _ _ hlt] at this
    rw [this]; unfold childSize; rw [if_pos hai]
  have hord : (w.tensors i).order - 1 = s0.length := by simp [Arr.order, hs0]
  have hgd : (w.tensors i).shape.getD s0.length 0 = w.lastDim i := by rw [hs0]; simp
  obtain ⟨a, a1, a2, a3⟩ := FullTensor.tmpStep_spec (w.tensors i) m s0.length k (by simp [Arr.order, hs0]) (by rw [hgd]; exact hm)
  rw [hgd] at a3
  obtain ⟨b, b1, b2, b3⟩ := FullTensor.tmpStep_spec (w.tensors p) m' (childAxis w.tree i) k hlt' (by rw [hsz]; exact hm')
  rw [hsz] at b3
  have hup : ∀ j, upd (upd w.tensors i a) p b j = if j = p then b else if j = i then a else w.tensors j := by
    intro j; simp [upd]
  have hash : a.shape = s0 ++ [k] := by rw [a2, hs0]; simp
  have hag : ∀ t l, InBox s0 t → l < k → a.get (t ++ [l]) = ∑ s ∈ range (w.lastDim i), (w.tensors i).get (t ++ [s]) * m.get [l, s] := by
    intro t l ht hl
    rw [a3 (t ++ [l]) (by rw [hash]; exact (inBox_append ht.length_eq).2 ⟨ht, inBox_one hl⟩)]
    refine sum_congr rfl (fun s _ => ?_)
    have h1 : (t ++ [l]).set s0.length s = t ++ [s] := by rw [← ht.length_eq]; simp
    have h2 : (t ++ [l]).getD s0.length 0 = l := by rw [← ht.length_eq]; simp
    rw [h1, h2]
  refine ⟨upd (upd w.tensors i a) p b, ?_, ⟨s0, hs0, ?_, ?_, ?_⟩, ?_⟩
  · unfold mulNode
    rw [hord, tmp_single, a1]
    simp only [bind, Except.bind]
    rw [edge_parent hw.valid he]
    have : upd w.tensors i a p = w.tensors p := by simp [upd, hne]
    rw [this, tmp_single, b1]
  · simp only [hup, if_neg (Ne.symm hne), if_true, hash]
  · intro t l ht hl
    simp only [hup, if_neg (Ne.symm hne), if_true]
    exact hag t l ht hl
  · intro j h1 h2
    simp only [hup, if_neg h1, if_neg h2]
  · intro Q hQ hQr
    refine ins_gauge hw (w' := ⟨w.tree, upd (upd w.tensors i a) p b⟩) he hai hk rfl (U := fun s l => m.get [l, s]) (P := fun s l => m'.get [l, s]) hK hs0 ?_ ?_ ?_ ?_ ?_ hQ hQr
    · simp only [hup, if_neg (Ne.symm hne), if_true, hash]
    · intro t l ht hl
      simp only [hup, if_neg (Ne.symm hne), if_true]
      exact hag t l ht hl
    · simp only [hup, if_true, b2]
    · intro idx hidx
      simp only [hup, if_true] at hidx ⊢
      exact b3 idx hidx
    · intro j h1 h2
      simp only [hup, if_neg h1, if_neg h2]

/-- The loop on the levels from the deepest one. -/
theorem mulNodes_spec {y : TBT R} (hy : WF y) {lev : Nat → Nat} (hlev : ∀ j k, HasLevel y.tree j k → lev j = k)
    {k : Nat → Nat} {m : Nat → Arr R} {K : Nat → Nat → Nat → R} {step : (Nat → Arr R) → Nat → Py (Nat → Arr R)}
    (hst : ∀ i, IsNode y.tree i → ¬ IsRoot y.tree i → y.active i = true → (∀ ts, step ts i = mulNode y.tree (m i) (m i) ts i) ∧ 0 < k i ∧
      (m i).shape = [k i, y.lastDim i] ∧
      ∀ s s', s < y.lastDim i → s' < y.lastDim i → K i s s' = ∑ l ∈ range (k i), (m i).get [l, s] * (m i).get [l, s']) :
    ∃ ts, ((List.range (y.tree.maxLevel lev)).map (· + 1)).reverse.foldlM
        (fun ts l => (activeAt y lev l).foldlM step ts) y.tensors = .ok ts ∧
      WF ⟨y.tree, ts⟩ ∧ (⟨y.tree, ts⟩ : TBT R).shape = y.shape ∧
      (∀ i, IsNode y.tree i → (⟨y.tree, ts⟩ : TBT R).active i = y.active i) ∧
      (∀ r, IsRoot y.tree r → rankShape (⟨y.tree, ts⟩ : TBT R) r = rankShape y r) ∧
      (∀ i, IsNode y.tree i → ¬ IsRoot y.tree i → y.active i = true → (⟨y.tree, ts⟩ : TBT R).lastDim i = k i) ∧
      ∃ a b, full ⟨y.tree, ts⟩ = .ok a ∧
        full (ins y K (fun i => IsNode y.tree i ∧ ¬ IsRoot y.tree i ∧ y.active i = true)) = .ok b ∧ a ≃ₐ b := by
  obtain ⟨r, hr, hroot⟩ := root_ok hy.valid
  have hlev0 : ∀ i, IsNode y.tree i → (lev i = 0 ↔ IsRoot y.tree i) := by
    intro i hi
    obtain ⟨k, hk⟩ := exists_level hy.valid hi
    rw [hlev i k hk]
    constructor
    · rintro rfl; cases hk; assumption
    · intro h; exact HasLevel.unique hy.valid.unique_parent hk (.root h)
  set nodesAt : Nat → List Nat := fun l => if l = 0 then [] else activeAt y lev l with hnodes
  let Inv : (Nat → Arr R) → (Nat → Prop) → Prop := fun ts P =>
    WF ⟨y.tree, ts⟩ ∧ (⟨y.tree, ts⟩ : TBT R).shape = y.shape ∧
    (∀ i, IsNode y.tree i → (⟨y.tree, ts⟩ : TBT R).active i = y.active i) ∧
    (∀ r, IsRoot y.tree r → rankShape (⟨y.tree, ts⟩ : TBT R) r = rankShape y r) ∧
    (∀ i, IsNode y.tree i → ¬ IsRoot y.tree i → y.active i = true →
      (P i → (⟨y.tree, ts⟩ : TBT R).lastDim i = k i) ∧ (¬ P i → (⟨y.tree, ts⟩ : TBT R).lastDim i = y.lastDim i)) ∧
    ∀ Q : Nat → Prop, (∀ j, Q j → ¬ P j ∧ ¬ IsRoot y.tree j) → ∃ a b, full (ins ⟨y.tree, ts⟩ K Q) = .ok a ∧
      full (ins y K (fun j => P j ∨ Q j)) = .ok b ∧ a ≃ₐ b
  have h0 : (fun i => IsNode y.tree i ∧ (¬ IsRoot y.tree i ∧ y.active i = true) ∧ y.tree.maxLevel lev + 1 ≤ lev i) = fun _ => False := by
    funext i
    apply propext
    constructor
    · rintro ⟨a, _, b⟩
      have := lev_le_maxLevel (T := y.tree) lev a
      omega
    · exact False.elim
  obtain ⟨ts, e1, i1, i2, i3, i4, i5, i6⟩ := bottomUp hy.valid hlev step
    (fun i => ¬ IsRoot y.tree i ∧ y.active i = true) nodesAt
    (by
      intro l i
      simp only [hnodes]
      by_cases h0 : l = 0
      · subst h0
        simp only [if_true, List.not_mem_nil, false_iff]
        rintro ⟨a, b, c, _⟩
        exact c ((hlev0 i a).1 b)
      · rw [if_neg h0]
        unfold activeAt DTree.nodesWithLevel
        rw [List.mem_filter, List.mem_filter, mem_nodes]
        simp only [beq_iff_eq]
        constructor
        · rintro ⟨⟨a, b⟩, c⟩
          exact ⟨a, b, fun h => h0 (by rw [← b]; exact (hlev0 i a).2 h), c⟩
        · rintro ⟨a, b, _, c⟩
          exact ⟨⟨a, b⟩, c⟩)
    (by
      intro l
      simp only [hnodes]
      split
      · exact List.nodup_nil
      · unfold activeAt DTree.nodesWithLevel
        exact ((nodup_nodes (T := y.tree)).filter _).filter _)
    Inv
    (by
      rintro ts P i ⟨j1, j2, j3, j4, j5, j6⟩ hi ⟨hir, hia⟩ hPi hch hpar
      obtain ⟨p, he⟩ : ∃ p, Edge y.tree p i := by
        by_contra hno; exact hir ⟨hi, fun p hp => hno ⟨p, hp⟩⟩
      obtain ⟨c1, c2, c3, c4⟩ := hst i hi hir hia
      have hld : (⟨y.tree, ts⟩ : TBT R).lastDim i = y.lastDim i := (j5 i hi hir hia).2 hPi
      obtain ⟨ts', s1, -, s2⟩ := mulNode_gauge (w := ⟨y.tree, ts⟩) j1 he (by rw [j3 i hi]; exact hia) c2 (m := m i)
        (by rw [hld]; exact c3) (by rw [hld]; exact c3) (K := K) (by rw [hld]; exact c4)
      have g := s2 (fun _ => False) (fun h => h) (fun _ _ h => h)
      rw [ins_empty (⟨y.tree, ts'⟩ : TBT R) K (fun _ h => h)] at g
      have ss := ins_same (⟨y.tree, ts⟩ : TBT R) K (fun j => False ∨ j = i)
      have hwf := ss.wf j1
      obtain ⟨w, _⟩ := g.full_eq hwf
      refine ⟨ts', ?_, w, ?_, ?_, ?_, ?_, ?_⟩
      · rw [c1 ts]; exact s1
      · rw [g.shapeEq hwf, ss.shapeEq, j2]
      · intro j hj
        rw [g.active hwf hj, ss.active, j3 j hj]
      · intro r hr
        rw [g.rank_root hwf hr, ss.rankShape, j4 r hr]
      · intro j hj hjr hja
        have hl := g.lastDim hwf hj hjr (by rw [ss.active, j3 j hj]; exact hja)
        rw [ss.lastDim] at hl
        rw [hl]
        by_cases hji : j = i
        · subst hji
          exact ⟨fun _ => by rw [if_pos rfl], fun h => absurd (.inr rfl) h⟩
        · rw [if_neg hji]
          exact ⟨fun h => (j5 j hj hjr hja).1 (h.resolve_right hji), fun h => (j5 j hj hjr hja).2 (fun h' => h (.inl h'))⟩
      · intro Q hQ
        have hQi : ¬ Q i := fun h => (hQ i h).1 (.inr rfl)
        obtain ⟨a, b, a1, b1, ab⟩ := j6 (fun j => Q j ∨ j = i) (by
          rintro j (hj | rfl)
          · exact ⟨fun h => (hQ j hj).1 (.inl h), (hQ j hj).2⟩
          · exact ⟨hPi, hir⟩)
        have g' := s2 Q hQi (fun r hr h => (hQ r h).2 hr)
        obtain ⟨_, a', b', a1', b1', ab'⟩ := g'.full_eq ((ins_same (⟨y.tree, ts⟩ : TBT R) K _).wf j1)
        rw [a1] at a1'; cases a1'
        refine ⟨b', b, b1', ?_, ab'.trans ab⟩
        rw [← b1]
        congr 2
        funext j
        apply propext
        constructor
        · rintro ((h | h) | h)
          · exact .inl h
          · exact .inr (.inr h)
          · exact .inr (.inl h)
        · rintro (h | h | h)
          · exact .inl (.inl h)
          · exact .inr h
          · exact .inl (.inr h))
    (y.tree.maxLevel lev + 1) y.tensors
    (by
      rw [h0]
      refine ⟨hy, rfl, fun _ _ => rfl, fun _ _ => rfl, fun _ _ _ _ => ⟨fun h => h.elim, fun _ => rfl⟩, fun Q _ => ?_⟩
      have : (fun j => False ∨ Q j) = Q := by funext j; simp
      rw [this]
      have hwf := (ins_same y K Q).wf hy
      obtain ⟨V, hV⟩ := exists_value (ins y K Q) hy.valid
      obtain ⟨a, a1, _⟩ := full_on _ hwf hV.on hr
      exact ⟨a, a, a1, a1, Same.refl a⟩)
  refine ⟨ts, ?_, i1, i2, i3, i4, fun i hi hir hia => (i5 i hi hir hia).1 ⟨hi, hir, hia⟩, ?_⟩
  · rw [List.range_succ_eq_map, List.reverse_cons, List.foldlM_append] at e1
    have hcongr : ∀ (ls : List Nat) (ts : Nat → Arr R), (∀ l ∈ ls, l ≠ 0) →
        ls.foldlM (fun ts l => (nodesAt l).foldlM step ts) ts =
        ls.foldlM (fun ts l => (activeAt y lev l).foldlM step ts) ts := by
      intro ls
      induction ls with
      | nil => intros; rfl
      | cons l ls ih =>
        intro ts h
        rw [List.foldlM_cons, List.foldlM_cons]
        simp only [hnodes, if_neg (h l (by simp))]
        congr 1; funext ts'
        exact ih ts' (fun l' hl' => h l' (by simp [hl']))
    rw [hcongr _ _ (by intro l hl; simp at hl; omega)] at e1
    show ((List.range (y.tree.maxLevel lev)).map Nat.succ).reverse.foldlM
      (fun ts l => (activeAt y lev l).foldlM step ts) y.tensors = .ok ts
    generalize ((List.range (y.tree.maxLevel lev)).map Nat.succ).reverse.foldlM
      (fun ts l => (activeAt y lev l).foldlM step ts) y.tensors = q at e1
    cases q with
    | error => simp [bind, Except.bind] at e1
    | ok q =>
      simp only [bind, Except.bind, List.foldlM_cons, List.foldlM_nil, hnodes, if_true, pure, Except.pure] at e1
      exact e1
  · obtain ⟨a, b, a1, b1, ab⟩ := i6 (fun _ => False) (fun _ h => h.elim)
    rw [ins_empty (⟨y.tree, ts⟩ : TBT R) K (fun _ h => h)] at a1
    refine ⟨a, b, a1, ?_, ab⟩
    rw [← b1]
    congr 2
    funext j
    simp

end Verif.TreeBased
