import Verif.Props.TreeActivate
import Verif.Lemmas.BottomUp
import Verif.Lemmas.Gauge
import Verif.Props.TreeWitness

/-!
# `inactivate_nodes` (C51)
-/

namespace Verif.TreeBased

open Verif.Arr Verif.DimTree Finset

variable {R : Type}

/-- The tensor of the parent after the body of the loop: the axis `sa.length` of `A` is contracted with the matrix `B`. -/
theorem absorb_spec [CommSemiring R] (B A : Arr R) (sa ta : List Nat) (n r : Nat) (hB : B.shape = [n, r])
    (hA : A.shape = sa ++ r :: ta) :
    ∃ t y, FullTensor.tensordotT B A [B.order - 1] [sa.length] = .ok t ∧
      FullTensor.itransposeT t (sa.length :: FullTensor.setdiffRange t.order [sa.length]) = .ok y ∧
      y.shape = sa ++ n :: ta ∧
      ∀ v j w, v.length = sa.length → w.length = ta.length →
        y.get (v ++ j :: w) = ∑ s ∈ range r, B.get [j, s] * A.get (v ++ s :: w) := by
  obtain ⟨t, t1, t2, t3⟩ := tensordot_last B A [n] sa ta r (by simpa using hB) hA
  have hto : t.order = sa.length + 1 + ta.length := by simp [Arr.order, t2]; omega
  set dims := sa.length :: FullTensor.setdiffRange t.order [sa.length] with hdims
  have hperm : dims.Perm (List.range t.order) := by
    have := dims_append_perm' (n := t.order) (ax := [sa.length]) (List.nodup_singleton _) (by simp; omega)
    exact (List.perm_append_comm (l₁ := [sa.length])).trans this
  have happ : ∀ (a : List Nat) (v : Nat) (b : List Nat), a.length = sa.length → b.length = ta.length →
      applyPerm dims (a ++ v :: b) = v :: (a ++ b) := by
    intro a v b ha hb
    rw [hdims, show sa.length :: FullTensor.setdiffRange t.order [sa.length] =
      [sa.length] ++ FullTensor.setdiffRange t.order [sa.length] from rfl, applyPerm_append, applyPerm_single]
    have h2 := dropAxes_mid a b v
    rw [dropAxes_eq, show (a ++ v :: b).length = t.order by simp; omega, ha] at h2
    rw [h2, ← ha]; simp
  refine ⟨t, t.transpose (invPerm dims), t1, ?_, ?_, ?_⟩
  · unfold FullTensor.itransposeT FullTensor.transposeT
    rw [argsort_eq_invPerm hperm, if_pos (invPerm_perm hperm)]
  · show applyPerm (invPerm dims) t.shape = _
    rw [t2, List.singleton_append, ← happ sa n ta rfl rfl, invPerm_applyPerm hperm (by simp; omega)]
  · intro v j w hv hw
    show t.get (applyPerm (invPerm (invPerm dims)) (v ++ j :: w)) = _
    rw [invPerm_invPerm hperm, happ v j w hv hw]
    exact t3 [j] v w rfl hv hw

/-- A sum over the children, one of which has been absorbed in the tensor of the parent. -/
theorem childSum_absorb [CommSemiring R] {x x' : TBT R} (ht : x'.tree = x.tree) {V : Nat → List Nat → List Nat → R}
    {idx : List Nat} {i : Nat} (cs : List Nat) (hnd : cs.Nodup) (hi : i ∈ cs)
    (hai : x.active i = true) (hai' : ¬ x'.active i = true) 
    (ha : ∀ c ∈ cs, c ≠ i → x'.active c = x.active c) (hl : ∀ c ∈ cs, c ≠ i → x.active c → x'.lastDim c = x.lastDim c)
    (f : List Nat → R) :
    childSum x' V idx cs (fun t => ∑ s ∈ range (x.lastDim i), V i idx [s] * f (t.set (cs.idxOf i) s)) =
      childSum x V idx cs f := by
  induction cs generalizing f with
  | nil => simp at hi
  | cons c cs ih =>
    rw [List.nodup_cons] at hnd
    by_cases hci : c = i
    · subst hci
      have hne : ∀ c' ∈ cs, c' ≠ c := fun c' hc' e => hnd.1 (e ▸ hc')
      unfold childSum
      rw [if_pos hai, if_neg hai']
      simp only [List.idxOf_cons_self, List.set_cons_zero]
      rw [childSum_sum]
      refine sum_congr rfl (fun s _ => ?_)
      rw [childSum_mul, childSum_congrX ht V idx cs _ (fun c' hc' => ha c' (by simp [hc']) (hne c' hc'))
        (fun c' hc' => hl c' (by simp [hc']) (hne c' hc'))]
    · have him : i ∈ cs := by simpa [Ne.symm hci] using hi
      have ih' := fun f => ih hnd.2 him (fun c' hc' => ha c' (by simp [hc'])) (fun c' hc' => hl c' (by simp [hc'])) f
      unfold childSum
      rw [ha c (by simp) hci, List.idxOf_cons_ne _ hci]
      simp only [List.set_cons_succ]
      by_cases hca : x.active c = true
      · rw [if_pos hca, if_pos hca, hl c (by simp) hci hca]
        refine sum_congr rfl (fun s _ => ?_)
        rw [ih' (fun t => f (s :: t))]
      · rw [if_neg hca, if_neg hca, ht, ih' (fun t => f (_ :: t))]

/-- One step of `inactivate_nodes`. -/
theorem inactivate_step [CommSemiring R] (x : TBT R) (hx : WF x) {c : Nat} (hc : c ∈ x.tree.dim2ind)
    (hca : x.active c = true) :
    ∃ t y, FullTensor.tensordotT (x.tensors c) (x.tensors (x.tree.parent c)) [(x.tensors c).order - 1] [childAxis x.tree c] = .ok t ∧
      FullTensor.itransposeT t (childAxis x.tree c :: FullTensor.setdiffRange t.order [childAxis x.tree c]) = .ok y ∧
      ∃ x' : TBT R, x' = ⟨x.tree, upd (upd x.tensors (x.tree.parent c) y) c emptyArr⟩ ∧ WF x' ∧ x'.shape = x.shape ∧
        (∀ i, IsNode x.tree i → x'.active i = (x.active i && !decide (i = c))) ∧
        (∀ r, IsRoot x.tree r → rankShape x' r = rankShape x r) ∧
        (∀ i, IsNode x.tree i → ¬ IsRoot x.tree i → i ≠ c → x.active i = true → x'.lastDim i = x.lastDim i) ∧
        ∃ a b, full x = .ok a ∧ full x' = .ok b ∧ b ≃ₐ a := by
  classical
  have hV := hx.valid
  obtain ⟨r, hr, hroot⟩ := root_ok hV
  have hrl := hx.root_internal hroot
  have sx := hx.shaped hroot
  have he := leaf_has_parent hx hc
  set p := x.tree.parent c with hp
  have hpl := edge_internal hV he
  have hne := edge_ne hV he
  have hax := childAxis_eq hV he
  have hlt := childAxis_lt hV he
  have hmem := (mem_children p c he.1).2 he
  have hshp := sx.node p he.1 hpl
  set sz : Nat → Nat := fun c => if x.active c then x.lastDim c else x.leafSize c with hsz
  have hsplit : x.tree.children p = (x.tree.children p).take (childAxis x.tree c) ++ c :: (x.tree.children p).drop (childAxis x.tree c + 1) := by
    have h1 := children_getD hV he
    rw [List.getD_eq_getElem _ _ hlt] at h1
    conv_lhs => rw [← List.take_append_drop (childAxis x.tree c) (x.tree.children p), List.drop_eq_getElem_cons hlt, h1]
  set c1 := (x.tree.children p).take (childAxis x.tree c) with hc1
  set c2 := (x.tree.children p).drop (childAxis x.tree c + 1) with hc2
  have hc1l : c1.length = childAxis x.tree c := by rw [hc1, List.length_take]; omega
  set E : List Nat := if IsRoot x.tree p then rankShape x r else [x.lastDim p] with hE
  have hA : (x.tensors p).shape = c1.map sz ++ x.lastDim c :: (c2.map sz ++ E) := by
    rw [hshp, hsplit]
    simp only [List.map_append, List.map_cons, List.append_assoc, List.cons_append]
    simp [hsz, hca]
  obtain ⟨t, y, t1, t2, t3, t4⟩ := absorb_spec (x.tensors c) (x.tensors p) (c1.map sz) (c2.map sz ++ E) (x.leafSize c)
    (x.lastDim c) (sx.leaf c hc hca) hA
  rw [List.length_map, hc1l] at t1 t2
  refine ⟨t, y, t1, t2, _, rfl, ?_⟩
  set z : TBT R := ⟨x.tree, upd (upd x.tensors p y) c emptyArr⟩ with hz
  have hzc : z.tensors c = emptyArr := by show upd _ _ _ _ = _; unfold upd; rw [if_pos rfl]
  have hzp : z.tensors p = y := by show upd _ _ _ _ = _; unfold upd; rw [if_neg hne, if_pos rfl]
  have hzo : ∀ i, i ≠ c → i ≠ p → z.tensors i = x.tensors i := fun i h1 h2 => by
    show upd _ _ _ _ = _; unfold upd; rw [if_neg h1, if_neg h2]
  have hszS : Shaped z x.tree (fun i => x.active i && !decide (i = c)) x.lastDim x.leafSize (rankShape x r) := by
    have hchild : ∀ q, IsNode x.tree q → q ≠ p → (x.tree.children q).map
        (fun i => if (x.active i && !decide (i = c)) = true then x.lastDim i else x.leafSize i) = (x.tree.children q).map sz := by
      intro q hq hqp
      apply List.map_congr_left
      intro d hd
      have hde := (mem_children q d hq).1 hd
      have : d ≠ c := by rintro rfl; exact hqp (hV.unique_parent _ _ _ hde he)
      simp [this, hsz]
    refine ⟨rfl, ?_, sx.nu, sx.rootPos, sx.rootLen, ?_, ?_, ?_, ?_⟩
    · intro i hi hir ha
      exact sx.rho i hi hir (by simpa using (Bool.and_eq_true_iff.1 ha).1)
    · intro d hd ha
      obtain ⟨h1, h2⟩ := Bool.and_eq_true_iff.1 ha
      have hdc : d ≠ c := by simpa using h2
      rw [hzo d hdc (fun h => hpl (h ▸ hd))]
      exact sx.leaf d hd h1
    · intro d hd ha
      by_cases hdc : d = c
      · subst hdc; rw [hzc]; rfl
      · rw [hzo d hdc (fun h => hpl (h ▸ hd))]
        exact sx.off d hd (fun h => ha (by simp [h, hdc]))
    · intro i hi hl
      have : i ≠ c := fun h => hl (h ▸ hc)
      simp [this, sx.internal i hi hl]
    · intro i hi hl
      have hic : i ≠ c := fun h => hl (h ▸ hc)
      by_cases hip : i = p
      · subst hip
        rw [hzp, t3]
        conv_rhs => rw [hsplit]
        simp only [List.map_append, List.map_cons, List.append_assoc, List.cons_append]
        have hnd := nodup_children (T := x.tree) p
        rw [hsplit, List.nodup_append] at hnd
        congr 1
        · apply List.map_congr_left
          intro d hd
          have : d ≠ c := fun h => hnd.2.2 d hd c (by simp) h
          simp [this, hsz]
        · rw [if_neg (by simp)]
          congr 2
          apply List.map_congr_left
          intro d hd
          have : d ≠ c := fun h => (List.nodup_cons.1 hnd.2.1).1 (h ▸ hd)
          simp [this, hsz]
      · rw [hzo i hic hip, sx.node i hi hl, hchild i hi hip]
  have hwz := hszS.wf hV hx.order
  have hshz : z.shape = x.shape := hszS.shapeEq hV hx.order
  have hact : ∀ i, IsNode x.tree i → z.active i = (x.active i && !decide (i = c)) := fun i hi => hszS.active hV hx.order hi
  have hld : ∀ i, IsNode x.tree i → ¬ IsRoot x.tree i → i ≠ c → x.active i = true → z.lastDim i = x.lastDim i :=
    fun i hi hir hic ha => hszS.lastDim hi hir (by simp [hic, ha])
  have hrz : rankShape z r = rankShape x r := hszS.rankShape_root hroot hrl
  obtain ⟨V, hVx⟩ := exists_value x hV
  have hon : IsValueOn z V := by
    refine ⟨?_, ?_⟩
    · intro d hd ha idx s hidx hs
      have hd : d ∈ x.tree.dim2ind := hd
      rw [hact d ((hV.leaves d).1 hd).1] at ha
      obtain ⟨h1, h2⟩ := Bool.and_eq_true_iff.1 ha
      have hdc : d ≠ c := by simpa using h2
      rw [hzo d hdc (fun h => hpl (h ▸ hd))]
      exact hVx.leaf d hd h1 idx [s]
    · intro i hi hl idx e hidx he'
      have hi : IsNode x.tree i := hi
      have hl : i ∉ x.tree.dim2ind := hl
      have hic : i ≠ c := fun h => hl (h ▸ hc)
      show V i idx e = childSum z V idx (x.tree.children i) _
      rw [hVx.node i hi hl]
      by_cases hip : i = p
      · rw [hip] at hi hl he' ⊢
        rw [hzp]
        have hcz : ¬ z.active c = true := by rw [hact c he.2.1]; simp
        symm
        rw [← childSum_absorb (x := x) (x' := z) (V := V) rfl (x.tree.children p) (nodup_children p) hmem hca hcz
          (fun d hd hdc => by rw [hact d ((mem_children p d hi).1 hd).2.1]; simp [hdc])
          (fun d hd hdc hda => hld d ((mem_children p d hi).1 hd).2.1 (WF.child_not_root ((mem_children p d hi).1 hd)) hdc hda)]
        rw [hshz] at hidx
        have hEl : e.length = E.length := by
          rw [he'.length_eq]
          unfold rankShape
          rw [show z.tree.children p = x.tree.children p from rfl, hzp, t3]
          have h1 : (c1.map sz ++ x.leafSize c :: (c2.map sz ++ E)) = (c1.map sz ++ x.leafSize c :: c2.map sz) ++ E := by simp
          have h2 : (x.tree.children p).length = (c1.map sz ++ x.leafSize c :: c2.map sz).length := by
            rw [hsplit]; simp
          rw [h1, h2, List.drop_left]
        -- only the tuples whose entry for the leaf is its subscript matter
        have hsel : ∀ (cs : List Nat) (k k' : List Nat → R), cs.Nodup → c ∈ cs → 
            (∀ t, t.length = cs.length → t.getD (cs.idxOf c) 0 = idx.getD (dimOf x.tree c) 0 → k t = k' t) →
            childSum z V idx cs k = childSum z V idx cs k' := by
          intro cs
          induction cs with
          | nil => intro k k' _ hcm; simp at hcm
          | cons d cs ih =>
            intro k k' hnd hcm hk
            rw [List.nodup_cons] at hnd
            unfold childSum
            by_cases hdc : d = c
            · subst hdc
              rw [if_neg hcz, if_neg hcz]
              apply childSum_congr'
              intro t ht
              exact hk _ (by simp [ht]) (by simp; rfl)
            · have hcm' : c ∈ cs := by simpa [Ne.symm hdc] using hcm
              rw [List.idxOf_cons_ne _ hdc] at hk
              split
              · refine sum_congr rfl (fun s _ => ?_)
                rw [ih _ _ hnd.2 hcm' (fun t ht h => hk (s :: t) (by simp [ht]) (by simpa using h))]
              · exact ih _ _ hnd.2 hcm' (fun t ht h => hk (_ :: t) (by simp [ht]) (by simpa using h))
        apply hsel _ _ _ (nodup_children p) hmem
        intro t htl htg
        rw [← hax] at htg ⊢
        have hlt' : childAxis x.tree c < t.length := by omega
        have htsplit : t = t.take (childAxis x.tree c) ++ (idx.getD (dimOf x.tree c) 0) :: t.drop (childAxis x.tree c + 1) := by
          rw [List.getD_eq_getElem _ _ hlt'] at htg
          conv_lhs => rw [← List.take_append_drop (childAxis x.tree c) t, List.drop_eq_getElem_cons hlt', htg]
        have hset : ∀ s, t.set (childAxis x.tree c) s = t.take (childAxis x.tree c) ++ s :: t.drop (childAxis x.tree c + 1) := by
          intro s
          rw [List.set_eq_take_append_cons_drop, if_pos hlt']
        conv_lhs => rw [htsplit]
        rw [List.append_assoc, List.cons_append, t4 _ _ _ (by simp [hc1l]; omega) (by
          rw [List.length_append, List.length_append, hEl]
          congr 1
          have := congrArg List.length hsplit
          simp at this ⊢
          omega)]
        refine sum_congr rfl (fun s _ => ?_)
        rw [hVx.leaf c hc hca, hset s, List.append_assoc, List.cons_append]
      · rw [hzo i hic hip]
        have hci : ∀ d ∈ x.tree.children i, Edge x.tree i d ∧ d ≠ c := by
          intro d hd
          have hde := (mem_children i d hi).1 hd
          exact ⟨hde, by rintro rfl; exact hip (hV.unique_parent _ _ _ hde he)⟩
        rw [childSum_congrX (x := x) (x' := z) rfl V idx _ _ (fun d hd => by
            rw [hact d (hci d hd).1.2.1]; simp [(hci d hd).2])
          (fun d hd hda => hld d (hci d hd).1.2.1 (WF.child_not_root (hci d hd).1) (hci d hd).2 hda)]
  obtain ⟨a, a1, a2, a3⟩ := full_on x hx hVx.on hr
  obtain ⟨b, b1, b2, b3⟩ := full_on z hwz hon hr
  refine ⟨hwz, hshz, hact, ?_, hld, a, b, a1, b1, ?_, ?_⟩
  · intro r' hr'
    rw [root_unique hV hr' hroot]; exact hrz
  · rw [a2, b2, hshz, hrz]
  · intro idx hidx
    rw [b2] at hidx
    obtain ⟨u, e, rfl, hu, he⟩ := inBox_append_split hidx
    rw [b3 u e hu he]
    rw [hshz] at hu
    rw [hrz] at he
    rw [a3 u e hu he]

/-- C51. `inactivate_nodes(nodes)` of a list of leaves: the leaves of the list become inactive, the other nodes are
unchanged in this respect, and the full tensor does not change. -/
theorem inactivateNodes_full [CommSemiring R] (x : TBT R) (hx : WF x) (nodes : List Nat)
    (hn : ∀ i ∈ nodes, i ∈ x.tree.dim2ind) :
    ∃ x' a b, inactivateNodes x nodes = .ok x' ∧ WF x' ∧ full x = .ok a ∧ full x' = .ok b ∧ b ≃ₐ a ∧ x'.tree = x.tree ∧
      x'.shape = x.shape ∧ (∀ r, IsRoot x.tree r → rankShape x' r = rankShape x r) ∧
      (∀ i, IsNode x.tree i → (x'.active i = true ↔ x.active i = true ∧ i ∉ nodes)) ∧
      ∀ i, IsNode x.tree i → ¬ IsRoot x.tree i → i ∉ nodes → x.active i = true → x'.lastDim i = x.lastDim i := by
  classical
  obtain ⟨r, hr, hroot⟩ := root_ok hx.valid
  obtain ⟨lev, hlv, hlev⟩ := level_ok hx.valid
  obtain ⟨fa, hfa⟩ : ∃ a, full x = .ok a := by
    obtain ⟨V, hV⟩ := exists_value x hx.valid
    obtain ⟨a, a1, _⟩ := full_on x hx hV.on hr
    exact ⟨a, a1⟩
  let Inv : (Nat → Arr R) → (Nat → Prop) → Prop := fun ts P =>
    WF ⟨x.tree, ts⟩ ∧ (⟨x.tree, ts⟩ : TBT R).shape = x.shape ∧
    (∀ i, IsNode x.tree i → ((⟨x.tree, ts⟩ : TBT R).active i = true ↔ x.active i = true ∧ ¬ (i ∈ nodes ∧ P i))) ∧
    (∀ r, IsRoot x.tree r → rankShape (⟨x.tree, ts⟩ : TBT R) r = rankShape x r) ∧
    (∀ i, IsNode x.tree i → ¬ IsRoot x.tree i → i ∉ nodes → x.active i = true → (⟨x.tree, ts⟩ : TBT R).lastDim i = x.lastDim i) ∧
    ∃ b, full ⟨x.tree, ts⟩ = .ok b ∧ b ≃ₐ fa
  obtain ⟨ts, e1, i1, i2, i3, i4, i5, b, i6, i7⟩ := bottomUp hx.valid hlev (inactivateStep x nodes) (fun _ => True)
    (fun l => x.tree.nodesWithLevel lev l)
    (by
      intro l i
      unfold DTree.nodesWithLevel
      rw [List.mem_filter, mem_nodes]
      simp)
    (by
      intro l
      unfold DTree.nodesWithLevel
      exact (nodup_nodes (T := x.tree)).filter _)
    Inv
    (by
      rintro ts P i ⟨j1, j2, j3, j4, j5, fb, j6, j7⟩ hi _ hPi _ _
      by_cases h : i ∈ nodes ∧ x.active i = true
      · have hil := hn i h.1
        have hia : (⟨x.tree, ts⟩ : TBT R).active i = true := (j3 i hi).2 ⟨h.2, fun h' => hPi h'.2⟩
        obtain ⟨t, y, s1, s2, z, hz, w1, w2, w3, w4, w5, a, b, w6, w7, w8⟩ :=
          inactivate_step (⟨x.tree, ts⟩ : TBT R) j1 (c := i) hil hia
        refine ⟨upd (upd ts (x.tree.parent i) y) i emptyArr, ?_, ?_⟩
        · unfold inactivateStep
          rw [if_pos h]
          simp only at s1 s2
          simp only [bind, Except.bind, s1, s2]
        · rw [hz] at w1 w2 w3 w4 w5 w7
          simp only at w1 w2 w3 w4 w5 w7
          refine ⟨w1, w2.trans j2, ?_, fun r hr => (w4 r hr).trans (j4 r hr), ?_, b, w7, ?_⟩
          · intro j hj
            rw [w3 j hj, Bool.and_eq_true_iff, j3 j hj]
            by_cases hji : j = i
            · subst hji; simp [h.1]
            · simp [hji]
          · intro j hj hjr hjn hja
            rw [w5 j hj hjr (fun e => hjn (e ▸ h.1)) ((j3 j hj).2 ⟨hja, fun h' => hjn h'.1⟩)]
            exact j5 j hj hjr hjn hja
          · rw [j6] at w6
            rw [Except.ok.injEq] at w6
            subst w6
            exact w8.trans j7
      · refine ⟨ts, by unfold inactivateStep; rw [if_neg h], j1, j2, ?_, j4, j5, fb, j6, j7⟩
        intro j hj
        rw [j3 j hj]
        by_cases hji : j = i
        · subst hji
          constructor
          · rintro ⟨a, _⟩; exact ⟨a, fun h' => h ⟨h'.1, a⟩⟩
          · rintro ⟨a, _⟩; exact ⟨a, fun h' => h ⟨h'.1, a⟩⟩
        · simp [hji])
    (x.tree.maxLevel lev + 1) x.tensors
    ⟨hx, rfl, by
      intro i hi
      constructor
      · intro h
        refine ⟨h, fun h' => ?_⟩
        have := lev_le_maxLevel (T := x.tree) lev hi
        have := h'.2.2.2
        omega
      · exact fun h => h.1, fun _ _ => rfl, fun _ _ _ _ _ => rfl, fa, hfa, Same.refl fa⟩
  refine ⟨⟨x.tree, ts⟩, fa, b, ?_, i1, hfa, i6, i7, rfl, i2, i4, ?_, i5⟩
  · unfold inactivateNodes
    rw [if_pos (by rw [List.all_eq_true]; intro i hi; simpa using hn i hi), hlv]
    simp only [bind, Except.bind]
    rw [e1]
    exact mk_wf i1
  · intro i hi
    rw [i3 i hi]
    simp [hi]

/-- Two active leaves of a tensor of order three. -/
example : WF exU ∧ (∀ i ∈ [3, 5], i ∈ exU.tree.dim2ind) ∧ (∀ i ∈ [3, 5], exU.active i = true) :=
  ⟨exU_wf, by decide +kernel, by decide +kernel⟩

/-- C51. `inactivate_nodes` refuses a list with a node that is not a leaf. -/
theorem inactivateNodes_refused [CommSemiring R] (x : TBT R) (nodes : List Nat) (i : Nat) (hi : i ∈ nodes)
    (hl : i ∉ x.tree.dim2ind) : inactivateNodes x nodes = .error .valueError := by
  unfold inactivateNodes
  rw [if_neg]
  intro h
  rw [List.all_eq_true] at h
  exact hl (by simpa using h i hi)

end Verif.TreeBased
