import Verif.Lemmas.Gauge
import Verif.Lemmas.Gram
import Verif.Lemmas.BottomUp
import Verif.Props.FullTensorOrth
import Verif.Props.TreeDot

/-!
# `TreeBasedTensor.orth` and `TreeBasedTensor.norm` (C39)
-/

namespace Verif.TreeBased

open Verif.Arr Verif.DimTree Finset

variable {R : Type}

/-- The slices of `t` along its last axis are orthonormal. -/
def OrthoLast [CommSemiring R] (t : Arr R) : Prop :=
  ∃ s n, t.shape = s ++ [n] ∧ ∀ l l', l < n → l' < n →
    sumBox s (fun u => t.get (u ++ [l]) * t.get (u ++ [l'])) = if l = l' then 1 else 0

theorem lastShape {x : TBT R} (hx : WF x) {i : Nat} (hi : IsNode x.tree i) (hr : ¬ IsRoot x.tree i)
    (ha : x.active i = true) : ∃ s, (x.tensors i).shape = s ++ [x.lastDim i] := by
  by_cases hl : i ∈ x.tree.dim2ind
  · obtain ⟨n, q, hs⟩ := hx.leaf i hl ha
    exact ⟨[n], by rw [lastDim_of_shape (s := [n]) (r := q) (by simpa using hs)]; simpa using hs⟩
  · have h3 := hx.rs_eq hi hr
    rw [rs_node hl] at h3
    have h2 := (hx.node i hi hl).2.1
    rw [h3] at h2
    exact ⟨_, h2⟩

/-- One step of `orth` is a change of basis of the node. -/
theorem orthStep_gauge [CommSemiring R] {qr : Arr R → Arr R × Arr R} (hqr : FullTensor.QROk qr) {x : TBT R} (hx : WF x)
    {p i : Nat} (he : Edge x.tree p i) (ha : x.active i = true) :
    ∃ ts' k M, orthStep qr x.tree x.tensors i = .ok ts' ∧ Gauge x ⟨x.tree, ts'⟩ p i k M ∧ OrthoLast (ts' i) ∧
      k ≤ x.lastDim i := by
  have hir : ¬ IsRoot x.tree i := fun h => h.2 p he
  have hne := edge_ne hx.valid he
  obtain ⟨r0, _, hroot⟩ := root_ok hx.valid
  have hsh := hx.shaped hroot
  obtain ⟨s, hs⟩ := lastShape hx he.2.1 hir ha
  have hpos : ∀ m ∈ (x.tensors i).shape, 0 < m := fun m hm =>
    Nat.pos_of_ne_zero (hsh.nodes_pos hx.valid hx.order he.2.1 ha m hm)
  obtain ⟨q, r, k, o1, o2, o3, o4, o5, o6, o7⟩ := FullTensor.orth_spec qr hqr (x.tensors i) s [] (x.lastDim i) hs hpos
  have hord : (x.tensors i).order - 1 = s.length := by simp [Arr.order, hs]
  have hpl := edge_internal hx.valid he
  have hlt := childAxis_lt hx.valid he
  have hpsh := (hx.node p he.1 hpl).2.1
  have hlt' : childAxis x.tree i < (x.tensors p).order := by
    unfold Arr.order; rw [hpsh]; simp; omega
  have hsz : (x.tensors p).shape.getD (childAxis x.tree i) 0 = x.lastDim i := by
    rw [hpsh, List.getD_append _ _ _ _ (by simpa using hlt), List.getD_eq_getElem _ _ (by simpa using hlt), List.getElem_map]
    have := children_getD hx.valid he
    rw [List.getD_eq_getElem _ _ hlt] at this
    rw [this]; unfold childSize; rw [if_pos ha]
  obtain ⟨t, t1, t2, t3⟩ := FullTensor.tmpStep_spec (x.tensors p) r (childAxis x.tree i) k hlt' (by rw [hsz]; exact o5)
  rw [hsz] at t3
  have hup : ∀ j, upd (upd x.tensors i q) p t j = if j = p then t else if j = i then q else x.tensors j := by
    intro j; simp [upd]
  refine ⟨upd (upd x.tensors i q) p t, k, fun l j => r.get [l, j], ?_, ?_, ?_, ?_⟩
  · unfold orthStep
    rw [hord, o1]
    simp only [bind, Except.bind]
    rw [edge_parent hx.valid he, tmp_single, t1]
  · refine ⟨rfl, he, ha, o3, ⟨s, hs, ?_, ?_⟩, ?_, ?_, ?_⟩
    · simp only [hup, if_neg (Ne.symm hne), if_true, o4]
    · intro u j hu hj
      simp only [hup, if_neg (Ne.symm hne), if_true]
      simpa using o6 u [] j hu (by simp) hj
    · simp only [hup, if_true, t2]
    · intro idx hidx
      simp only [hup, if_true] at hidx ⊢
      exact t3 idx hidx
    · intro j h1 h2
      simp only [hup, if_neg h1, if_neg h2]
  · rw [hup, if_neg (Ne.symm hne), if_pos rfl]
    refine ⟨s, k, o4, fun l l' h1 h2 => ?_⟩
    have := o7 l l' h1 h2
    simpa [sumBox] using this
  · rw [o2]; exact min_le_right _ _

/-- C39. `orth()`: the result represents the same tensor, has the same tree and active nodes, its ranks are not larger,
and the tensor of every active node other than the root is orthonormal. `r` is the root of the tree. -/
theorem orth_full [CommSemiring R] (qr : Arr R → Arr R × Arr R) (hqr : FullTensor.QROk qr) (x : TBT R) (hx : WF x) :
    ∃ z, orth qr x = .ok z ∧ WF z ∧ z.tree = x.tree ∧ z.shape = x.shape ∧
      (∀ i, IsNode x.tree i → z.active i = x.active i) ∧
      (∀ r, IsRoot x.tree r → rankShape z r = rankShape x r) ∧
      (∀ i, IsNode x.tree i → ¬ IsRoot x.tree i → x.active i = true → z.lastDim i ≤ x.lastDim i) ∧
      (∀ i, IsNode x.tree i → ¬ IsRoot x.tree i → x.active i = true → OrthoLast (z.tensors i)) ∧
      ∃ a b, full x = .ok a ∧ full z = .ok b ∧ b ≃ₐ a := by
  obtain ⟨r, hr, hroot⟩ := root_ok hx.valid
  obtain ⟨lev, hlv, hlev⟩ := level_ok hx.valid
  have hlev0 : ∀ i, IsNode x.tree i → (lev i = 0 ↔ IsRoot x.tree i) := by
    intro i hi
    obtain ⟨k, hk⟩ := exists_level hx.valid hi
    rw [hlev i k hk]
    constructor
    · rintro rfl; cases hk; assumption
    · intro h; exact HasLevel.unique hx.valid.unique_parent hk (.root h)
  obtain ⟨fa, hfa, _⟩ : ∃ a, full x = .ok a ∧ True := by
    obtain ⟨V, hV⟩ := exists_value x hx.valid
    obtain ⟨a, a1, _⟩ := full_on x hx hV.on hr
    exact ⟨a, a1, trivial⟩
  set nodesAt : Nat → List Nat := fun l => if l = 0 then [] else activeAt x lev l with hnodes
  let Inv : (Nat → Arr R) → (Nat → Prop) → Prop := fun ts P =>
    WF ⟨x.tree, ts⟩ ∧ (⟨x.tree, ts⟩ : TBT R).shape = x.shape ∧
    (∀ i, IsNode x.tree i → (⟨x.tree, ts⟩ : TBT R).active i = x.active i) ∧
    (∀ r, IsRoot x.tree r → rankShape (⟨x.tree, ts⟩ : TBT R) r = rankShape x r) ∧
    (∀ i, IsNode x.tree i → ¬ IsRoot x.tree i → x.active i = true → (⟨x.tree, ts⟩ : TBT R).lastDim i ≤ x.lastDim i) ∧
    (∀ i, P i → OrthoLast (ts i)) ∧ ∃ b, full ⟨x.tree, ts⟩ = .ok b ∧ b ≃ₐ fa
  obtain ⟨ts, e1, i1, i2, i3, i4, i5, i6, i7⟩ := bottomUp hx.valid hlev (orthStep qr x.tree)
    (fun i => ¬ IsRoot x.tree i ∧ x.active i = true) nodesAt
    (by
      intro l i
      simp only [hnodes]
      by_cases h0 : l = 0
      · subst h0
        simp only [if_true, List.not_mem_nil, false_iff]
        rintro ⟨a, b, c, _⟩
        exact c ((hlev0 i a).1 b)
      · rw [if_neg h0]
        unfold activeAt DTree.nodesWithLevel
        rw [List.mem_filter, List.mem_filter, mem_nodes]
        simp only [beq_iff_eq]
        constructor
        · rintro ⟨⟨a, b⟩, c⟩
          exact ⟨a, b, fun h => h0 (by rw [← b]; exact (hlev0 i a).2 h), c⟩
        · rintro ⟨a, b, _, c⟩
          exact ⟨⟨a, b⟩, c⟩)
    (by
      intro l
      simp only [hnodes]
      split
      · exact List.nodup_nil
      · unfold activeAt DTree.nodesWithLevel
        exact ((nodup_nodes (T := x.tree)).filter _).filter _)
    Inv
    (by
      rintro ts P i ⟨j1, j2, j3, j4, j5, j6, fb, j7, j8⟩ hi ⟨hir, hia⟩ hPi hch hpar
      obtain ⟨p, he⟩ : ∃ p, Edge x.tree p i := by
        by_contra hno; exact hir ⟨hi, fun p hp => hno ⟨p, hp⟩⟩
      obtain ⟨ts', k, M, s1, g, s3, s4⟩ := orthStep_gauge hqr (x := ⟨x.tree, ts⟩) j1 he (by rw [j3 i hi]; exact hia)
      obtain ⟨w, a, b, w1, w2, w3⟩ := g.full_eq j1
      refine ⟨ts', s1, w, ?_, ?_, ?_, ?_, ?_, b, w2, ?_⟩
      · rw [g.shapeEq j1, j2]
      · intro j hj
        rw [g.active j1 hj, j3 j hj]
      · intro r hr
        rw [g.rank_root j1 hr, j4 r hr]
      · intro j hj hjr hja
        rw [g.lastDim j1 hj hjr (by rw [j3 j hj]; exact hja)]
        split
        · rename_i h
          rw [h]; exact le_trans s4 (j5 i hi hir hia)
        · exact j5 j hj hjr hja
      · rintro j (hj | rfl)
        · have hji : j ≠ i := fun h => hPi (h ▸ hj)
          have hjp : j ≠ p := fun h => hpar p he (h ▸ hj)
          have := g.other j hji hjp
          simp only at this
          rw [this]; exact j6 j hj
        · exact s3
      · rw [j7] at w1
        rw [Except.ok.injEq] at w1
        subst w1
        exact w3.trans j8)
    (x.tree.maxLevel lev + 1) x.tensors
    ⟨hx, rfl, fun _ _ => rfl, fun _ _ => rfl, fun _ _ _ _ => le_refl _, by
      rintro i ⟨a, _, b⟩
      have := lev_le_maxLevel (T := x.tree) lev a
      omega, fa, hfa, Same.refl fa⟩
  refine ⟨⟨x.tree, ts⟩, ?_, i1, rfl, i2, i3, i4, i5, ?_, ?_⟩
  · unfold orth
    rw [hlv]
    simp only [bind, Except.bind]
    rw [List.range_succ_eq_map, List.reverse_cons, List.foldlM_append] at e1
    have hcongr : ∀ (ls : List Nat) (ts : Nat → Arr R), (∀ l ∈ ls, l ≠ 0) →
        ls.foldlM (fun ts l => (nodesAt l).foldlM (orthStep qr x.tree) ts) ts =
        ls.foldlM (fun ts l => (activeAt x lev l).foldlM (orthStep qr x.tree) ts) ts := by
      intro ls
      induction ls with
      | nil => intros; rfl
      | cons l ls ih =>
        intro ts h
        rw [List.foldlM_cons, List.foldlM_cons]
        simp only [hnodes, if_neg (h l (by simp))]
        congr 1; funext ts'
        exact ih ts' (fun l' hl' => h l' (by simp [hl']))
    rw [hcongr _ _ (by intro l hl; simp at hl; omega)] at e1
    have e2 : ((List.range (x.tree.maxLevel lev)).map (· + 1)).reverse.foldlM
        (fun ts l => (activeAt x lev l).foldlM (orthStep qr x.tree) ts) x.tensors = .ok ts := by
      show ((List.range (x.tree.maxLevel lev)).map Nat.succ).reverse.foldlM
        (fun ts l => (activeAt x lev l).foldlM (orthStep qr x.tree) ts) x.tensors = .ok ts
      generalize ((List.range (x.tree.maxLevel lev)).map Nat.succ).reverse.foldlM
        (fun ts l => (activeAt x lev l).foldlM (orthStep qr x.tree) ts) x.tensors = q at e1
      cases q with
      | error => simp [bind, Except.bind] at e1
      | ok q =>
        simp only [bind, Except.bind, List.foldlM_cons, List.foldlM_nil, hnodes, if_true, pure, Except.pure] at e1
        exact e1
    rw [e2]
    exact mk_wf i1
  · intro i hi hir hia
    exact i6 i ⟨hi, hir, hia⟩
  · obtain ⟨b, b1, b2⟩ := i7
    exact ⟨fa, b, hfa, b1, b2⟩

/-! ### norm -/

/-- Bottom-up induction on the nodes of a tree. -/
theorem node_induction {T : DTree} (hV : Valid T) (P : Nat → Prop)
    (h : ∀ i, IsNode T i → (∀ c, Edge T i c → P c) → P i) : ∀ i, IsNode T i → P i := by
  obtain ⟨lev, _, hlev⟩ := level_ok hV
  have key : ∀ m i, IsNode T i → T.maxLevel lev < lev i + m → P i := by
    intro m
    induction m with
    | zero =>
      intro i hi hm
      have := lev_le_maxLevel (T := T) lev hi
      omega
    | succ m ih =>
      intro i hi hm
      refine h i hi (fun c hc => ih c hc.2.1 ?_)
      obtain ⟨k, hk⟩ := exists_level hV hi
      have h1 := hlev i k hk
      have h2 := hlev c (k + 1) (.child hk hc)
      omega
  intro i hi
  exact key (T.maxLevel lev + 1) i hi (by omega)

theorem delta_prod [CommSemiring R] {G : Nat → Nat → Nat → R} {size : Nat → Nat} : ∀ (cs t t' : List Nat),
    (∀ c ∈ cs, ∀ a b, a < size c → b < size c → G c a b = if a = b then 1 else 0) →
    InBox (cs.map size) t → InBox (cs.map size) t' →
    (List.zipWith (fun c (s : Nat × Nat) => G c s.1 s.2) cs (t.zip t')).prod = if t = t' then 1 else 0 := by
  intro cs
  induction cs with
  | nil =>
    intro t t' _ h1 h2
    cases h1; cases h2; simp
  | cons c cs ih =>
    intro t t' hG h1 h2
    rw [List.map_cons] at h1 h2
    cases h1 with
    | cons a1 b1 =>
      cases h2 with
      | cons a2 b2 =>
        simp only [List.zip_cons_cons, List.zipWith_cons_cons, List.prod_cons]
        rw [hG c (by simp) _ _ a1 a2, ih _ _ (fun c' hc' => hG c' (by simp [hc'])) b1 b2]
        simp only [List.cons.injEq]
        split <;> split <;> simp_all

/-- The sum of a function over the box against the product of Kronecker symbols. -/
theorem sumBox_pick [CommSemiring R] {s t : List Nat} (ht : InBox s t) (f : List Nat → R) :
    sumBox s (fun t' => f t' * (if t = t' then 1 else 0)) = f t := by
  rw [sumBox_eq_sum, Finset.sum_eq_single_of_mem t ((mem_box _ _).2 ht)]
  · simp
  · intro b _ hne
    rw [if_neg (Ne.symm hne), mul_zero]

/-- The bases of all the nodes of an orthogonal tensor are orthonormal families of tensors. -/
theorem ortho_gram [CommSemiring R] (z : TBT R) (hz : WF z)
    (ho : ∀ i, IsNode z.tree i → ¬ IsRoot z.tree i → z.active i = true → OrthoLast (z.tensors i))
    (V : Nat → List Nat → List Nat → R) (hV : IsValue z V) (D : Nat → List Nat) (hD : RecDims z.tree D (IsNode z.tree))
    (u v : List Nat) (hu : InBox z.shape u) (hv : InBox z.shape v) :
    ∀ i, IsNode z.tree i → ¬ IsRoot z.tree i → ∀ s s', s < childSize z i → s' < childSize z i →
      cgram z z V V D (fun _ a b => if a = b then 1 else 0) i s s' u v = if s = s' then 1 else 0 := by
  apply node_induction hz.valid
  intro i hi ih hir s s' hs hs'
  by_cases hl : i ∈ z.tree.dim2ind
  · by_cases ha : z.active i = true
    · obtain ⟨n, r, hsh⟩ := hz.leaf i hl ha
      have d1 : z.lastDim i = r := lastDim_of_shape (s := [n]) (by simpa using hsh)
      have l1 : z.leafSize i = n := by unfold TBT.leafSize; rw [if_pos ha, hsh]; rfl
      have c1 : childSize z i = r := by unfold childSize; rw [if_pos ha, d1]
      rw [c1] at hs hs'
      obtain ⟨w, m, o1, o2⟩ := ho i hi hir ha
      have hwm : w = [n] ∧ m = r := by
        rw [hsh] at o1
        have h2 : [n] ++ [r] = w ++ [m] := by simpa using o1
        have := List.append_inj' h2 rfl
        simp at this
        exact ⟨this.1.symm, this.2.symm⟩
      rw [hwm.1, hwm.2] at o2
      rw [cgram_active z z V V D _ ha ha]
      unfold gram
      have hd : D i = [dimOf z.tree i] := by
        rw [hD.1 i ((isLeaf_mem _ _).2 hl), initDims_spec hz.valid (dimOf z.tree i) i (dim2ind_dimOf hl)]
      rw [hd]
      simp only [mSum]
      rw [shape_getD hl, l1, ← o2 s s' hs hs', sumBox_singleton]
      refine sum_congr rfl (fun a ha' => ?_)
      rw [sum_eq_single_of_mem a ha']
      · rw [if_pos rfl, hV.leaf i hl ha, hV.leaf i hl ha]
        have hlt := dimOf_lt hl
        have e1 : (u.set (dimOf z.tree i) a).getD (dimOf z.tree i) 0 = a := by
          rw [getD_set, if_pos ⟨rfl, by rw [hu.length_eq]; simpa [TBT.shape] using hlt⟩]
        have e2 : (v.set (dimOf z.tree i) a).getD (dimOf z.tree i) 0 = a := by
          rw [getD_set, if_pos ⟨rfl, by rw [hv.length_eq]; simpa [TBT.shape] using hlt⟩]
        rw [e1, e2]; simp
      · intro b _ hne
        rw [if_neg (Ne.symm hne)]; ring
    · have c1 : childSize z i = z.leafSize i := by unfold childSize; rw [if_neg ha]
      rw [c1] at hs hs'
      rw [cgram_inactive z z V V D hD _ hz.valid hl rfl ha ha s s' hs hs' u v hu.length_eq hv.length_eq]
  · have hn := hz.node i hi hl
    have ha := hn.1
    rw [cgram_active z z V V D _ ha ha]
    have c1 : childSize z i = z.lastDim i := by unfold childSize; rw [if_pos ha]
    rw [c1] at hs hs'
    obtain ⟨w, m, o1, o2⟩ := ho i hi hir ha
    have e1 : rankShape z i = [z.lastDim i] := by
      have := hz.rs_eq hi hir; rwa [rs_node hl] at this
    have hwm : w = (z.tree.children i).map (childSize z) ∧ m = z.lastDim i := by
      have h2 := hn.2.1
      rw [e1, o1] at h2
      have := List.append_inj' h2 rfl
      simp at this
      exact ⟨this.1, this.2⟩
    rw [hwm.1, hwm.2] at o2
    rw [gram_node z z hz hz rfl V V hV hV D hD _ hi hl [s] [s'] u v hu hv, ← o2 s s' hs hs']
    apply sumBox_congr
    intro t ht
    rw [← sumBox_pick ht (fun t' => (z.tensors i).get (t ++ [s]) * (z.tensors i).get (t' ++ [s']))]
    apply sumBox_congr
    intro t' ht'
    rw [delta_prod (size := childSize z) (G := fun c a b => cgram z z V V D (fun _ a b => if a = b then 1 else 0) c a b u v)
      (z.tree.children i) t t' (fun c hc a b ha hb => ?_) ht ht']
    have hce := (mem_children i c hi).1 hc
    exact ih c hce (WF.child_not_root hce) a b ha hb

/-- C39. The sum of the squares of the entries of the root tensor of an orthogonal tree-based tensor is the one of the
entries of the full tensor. -/
theorem ortho_normSq [CommSemiring R] (z : TBT R) (hz : WF z) (r : Nat) (hr : z.tree.root = .ok r)
    (ho : ∀ i, IsNode z.tree i → ¬ IsRoot z.tree i → z.active i = true → OrthoLast (z.tensors i)) :
    ∃ a, full z = .ok a ∧ sumBox (z.tensors r).shape (fun t => (z.tensors r).get t * (z.tensors r).get t) =
      sumBox a.shape (fun i => a.get i * a.get i) := by
  obtain ⟨r', hr', hroot⟩ := root_ok hz.valid
  rw [hr] at hr'; cases hr'
  obtain ⟨D, _, hD⟩ := dims_ok hz.valid
  obtain ⟨V, hV⟩ := exists_value z hz.valid
  obtain ⟨a, a1, a2, a3⟩ := full_on z hz hV.on hr
  refine ⟨a, a1, ?_⟩
  have hrl := hz.root_internal hroot
  have hn := hz.node r hroot.1 hrl
  have hu := inBox_zeros hz
  have hG := ortho_gram z hz ho V hV D hD _ _ hu hu
  rw [hn.2.1, a2, sumBox_append, sumBox_append, sumBox_comm, sumBox_comm z.shape]
  apply sumBox_congr
  intro e he
  have h1 := gram_node z z hz hz rfl V V hV hV D hD (fun _ a b => if a = b then 1 else 0) hroot.1 hrl e e _ _ hu hu
  have h2 := gram_root z z hz V V D hD (fun _ a b => if a = b then 1 else 0) hroot rfl e e (z.shape.map (fun _ => 0))
    (z.shape.map (fun _ => 0)) (by simp) (by simp)
  rw [h1] at h2
  refine Eq.trans ?_ (h2.trans ?_)
  · apply sumBox_congr
    intro t ht
    rw [← sumBox_pick ht (fun t' => (z.tensors r).get (t ++ e) * (z.tensors r).get (t' ++ e))]
    apply sumBox_congr
    intro t' ht'
    rw [delta_prod (size := childSize z) (G := fun c a b => cgram z z V V D (fun _ a b => if a = b then 1 else 0) c a b
      (z.shape.map (fun _ => 0)) (z.shape.map (fun _ => 0))) (z.tree.children r) t t' (fun c hc a b ha hb => ?_) ht ht']
    have hce := (mem_children r c hroot.1).1 hc
    exact hG c hce.2.1 (WF.child_not_root hce) a b ha hb
  · apply sumBox_congr
    intro p hp
    rw [a3 p e hp he, ← sumBox_pick hp (fun q => V r p e * V r q e)]
    apply sumBox_congr
    intro q hq
    rw [mul_comm]
    congr 1
    by_cases hpq : p = q
    · subst hpq
      rw [if_pos rfl]
      apply List.prod_eq_one
      intro v hv
      obtain ⟨k, hk, rfl⟩ := List.mem_map.1 hv
      simp
    · rw [if_neg hpq]
      apply List.prod_eq_zero
      by_contra hno
      apply hpq
      apply ext_getD (by rw [hp.length_eq, hq.length_eq])
      intro k hk
      by_contra hkne
      apply hno
      rw [hp.length_eq] at hk
      exact List.mem_map.2 ⟨k, List.mem_range.2 hk, by rw [if_neg hkne]⟩

/-- C39. `norm()`: its square is the sum of the squares of the entries of the full tensor. -/
theorem normSq_full [CommSemiring R] (qr : Arr R → Arr R × Arr R) (hqr : FullTensor.QROk qr) (x : TBT R) (hx : WF x) :
    ∃ a, full x = .ok a ∧ normSq qr x = .ok (sumBox a.shape (fun i => a.get i * a.get i)) := by
  obtain ⟨z, z1, z2, z3, _, z5, _, _, z8, a, b, a1, b1, ⟨b2, b3⟩⟩ := orth_full qr hqr x hx
  obtain ⟨r, hr, hroot⟩ := root_ok hx.valid
  obtain ⟨b', c1, c2⟩ := ortho_normSq z z2 r (by rw [z3]; exact hr) (by
    intro i hi hir hia
    rw [z3] at hi hir
    exact z8 i hi hir (by rw [← z5 i hi]; exact hia))
  rw [b1] at c1; cases c1
  refine ⟨a, a1, ?_⟩
  unfold normSq
  rw [z1]
  simp only [bind, Except.bind]
  rw [z3, hr]
  simp only
  congr 1
  show sumBox (z.tensors r).shape (fun t => (z.tensors r).get t * (z.tensors r).get t) = _
  rw [c2, ← b2]
  apply sumBox_congr
  intro i hi
  rw [b3 i hi]

end Verif.TreeBased
