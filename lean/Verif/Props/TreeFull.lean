import Verif.Lemmas.TreeTensor
import Verif.Props.DimensionTreeCtor

/-!
# `full()` of a tree-based tensor is the hierarchical formula (C34)
-/

namespace Verif.TreeBased

open Verif.Arr Verif.DimTree Finset

variable {R : Type}

/-- The rank axes of a node, as seen from its parent. -/
def rs (x : TBT R) (i : Nat) : List Nat := if x.tree.isLeaf i then [x.lastDim i] else rankShape x i

theorem lastDim_of_shape {x : TBT R} {i : Nat} {s : List Nat} {r : Nat} (h : (x.tensors i).shape = s ++ [r]) :
    x.lastDim i = r := by
  unfold TBT.lastDim; rw [h]; simp

theorem WF.rs_eq {x : TBT R} (h : WF x) {i : Nat} (hi : IsNode x.tree i) (hr : ¬ IsRoot x.tree i) :
    rs x i = [x.lastDim i] := by
  unfold rs
  split
  · rfl
  · rename_i hl
    obtain ⟨_, h2, _, h4⟩ := h.node i hi (fun hm => hl ((isLeaf_mem _ _).2 hm))
    obtain ⟨r, hr'⟩ := List.length_eq_one_iff.1 (h4 hr)
    rw [hr'] at h2 ⊢
    rw [lastDim_of_shape h2]

theorem dim2ind_dimOf {T : DTree} {c : Nat} (hc : c ∈ T.dim2ind) : T.dim2ind[dimOf T c]? = some c := by
  have := List.idxOf_lt_length_of_mem hc
  unfold dimOf
  rw [List.getElem?_eq_getElem this, List.getElem_idxOf]

theorem dimOf_lt {T : DTree} {c : Nat} (hc : c ∈ T.dim2ind) : dimOf T c < T.dim2ind.length :=
  List.idxOf_lt_length_of_mem hc

theorem shape_getD {x : TBT R} {c : Nat} (hc : c ∈ x.tree.dim2ind) :
    x.shape.getD (dimOf x.tree c) 0 = x.leafSize c := by
  unfold TBT.shape
  have h := dimOf_lt hc
  rw [List.getD_eq_getElem _ _ (by simpa using h), List.getElem_map]
  congr 1
  exact List.getElem_idxOf h

theorem WF.child_not_root {x : TBT R} {i c : Nat} (he : Edge x.tree i c) : ¬ IsRoot x.tree c :=
  fun h => h.2 i he

theorem WF.inactive_leaf {x : TBT R} (h : WF x) {c : Nat} (hc : IsNode x.tree c) (ha : ¬ x.active c) : c ∈ x.tree.dim2ind := by
  by_contra hn
  exact ha (h.node c hc hn).1

theorem inBox_shape_getD {x : TBT R} {idx : List Nat} (hi : InBox x.shape idx) {c : Nat} (hc : c ∈ x.tree.dim2ind) :
    idx.getD (dimOf x.tree c) 0 < x.leafSize c := by
  rw [← shape_getD hc]
  exact ((inBox_iff_getD _ _).1 hi).2 _ (by simpa [TBT.shape] using dimOf_lt hc)

/-- The state of `full` at a visited node: its first axes are the dimensions `st.2 i`, and its entries are the values. -/
def Good [CommSemiring R] (x : TBT R) (V : Nat → List Nat → List Nat → R) (D : Nat → List Nat)
    (st : (Nat → Arr R) × (Nat → List Nat)) (i : Nat) : Prop :=
  (st.1 i).shape = entriesAt (st.2 i) x.shape ++ rs x i ∧ (st.2 i).Perm (D i) ∧
  ∀ idx e, InBox x.shape idx → InBox (rs x i) e → (st.1 i).get (entriesAt (st.2 i) idx ++ e) = V i idx e

theorem entriesAt_append (a b l : List Nat) : entriesAt (a ++ b) l = entriesAt a l ++ entriesAt b l := by
  simp [entriesAt]

theorem length_entriesAt (a l : List Nat) : (entriesAt a l).length = a.length := by simp [entriesAt]

theorem fullChild_fold [CommSemiring R] (x : TBT R) (h : WF x) (V : Nat → List Nat → List Nat → R) (D : Nat → List Nat)
    (st : (Nat → Arr R) × (Nat → List Nat)) (i : Nat) (hi : IsNode x.tree i) (T : Arr R) (e0 : List Nat)
    (hD : ∀ c ∈ x.tree.dim2ind, D c = [dimOf x.tree c])
    (hleafd : ∀ c ∈ x.tree.dim2ind, st.2 c = [dimOf x.tree c])
    (hgood : ∀ c, Edge x.tree i c → x.active c → Good x V D st c) :
    ∀ (cs2 cs1 : List Nat) (A : Arr R) (ds : List Nat), (∀ c ∈ cs2, Edge x.tree i c) →
      A.shape = entriesAt ds x.shape ++ (cs2.map (childSize x) ++ e0) →
      (∀ idx t, InBox x.shape idx → InBox (cs2.map (childSize x) ++ e0) t →
        A.get (entriesAt ds idx ++ t) = childSum x V idx cs1 (fun pre => T.get (pre ++ t))) →
      ds.Perm (cs1.flatMap D) →
      ∃ A' ds', cs2.foldlM (fullChild x st) (A, ds) = .ok (A', ds') ∧ A'.shape = entriesAt ds' x.shape ++ e0 ∧
        (∀ idx e, InBox x.shape idx → InBox e0 e →
          A'.get (entriesAt ds' idx ++ e) = childSum x V idx (cs1 ++ cs2) (fun pre => T.get (pre ++ e))) ∧
        ds'.Perm ((cs1 ++ cs2).flatMap D) := by
  intro cs2
  induction cs2 with
  | nil =>
    intro cs1 A ds _ h1 h2 h3
    refine ⟨A, ds, rfl, by simpa using h1, ?_, by simpa using h3⟩
    intro idx e hidx he
    rw [List.append_nil]
    exact h2 idx e hidx (by simpa using he)
  | cons c cs2 ih =>
    intro cs1 A ds hcs h1 h2 h3
    have hc := hcs c (by simp)
    rw [List.foldlM_cons]
    by_cases ha : x.active c = true
    · obtain ⟨g1, g2, g3⟩ := hgood c hc ha
      have hrs := h.rs_eq hc.2.1 (WF.child_not_root hc)
      rw [hrs] at g1 g3
      have hsz : childSize x c = x.lastDim c := by unfold childSize; rw [if_pos ha]
      rw [List.map_cons, hsz, List.cons_append] at h1 h2
      obtain ⟨t, t1, t2, t3⟩ := tensordot_last (st.1 c) A (entriesAt (st.2 c) x.shape) (entriesAt ds x.shape)
        (cs2.map (childSize x) ++ e0) (x.lastDim c) g1 h1
      rw [length_entriesAt] at t1
      have hstep : fullChild x st (A, ds) c = .ok (t, st.2 c ++ ds) := by
        unfold fullChild
        rw [if_pos ha]
        simp only [t1, bind, Except.bind]
      rw [hstep]
      have hbind : ∀ (p : Arr R × List Nat) (f : Arr R × List Nat → Py (Arr R × List Nat)), (Except.ok p >>= f) = f p :=
        fun _ _ => rfl
      rw [hbind]
      have := ih (cs1 ++ [c]) t (st.2 c ++ ds) (fun c' hc' => hcs c' (by simp [hc'])) (by
        rw [t2, entriesAt_append, List.append_assoc]) (by
        intro idx u hidx hu
        have hul : u.length = (cs2.map (childSize x) ++ e0).length := hu.length_eq
        rw [entriesAt_append, List.append_assoc, t3 _ _ _ (by simp [length_entriesAt]) (by simp [length_entriesAt]) hul,
          childSum_append]
        have e1 : ∀ s ∈ range (x.lastDim c), (st.1 c).get (entriesAt (st.2 c) idx ++ [s]) * A.get (entriesAt ds idx ++ s :: u) =
            childSum x V idx cs1 (fun pre => V c idx [s] * T.get (pre ++ s :: u)) := by
          intro s hs
          have hs := mem_range.1 hs
          rw [g3 idx [s] hidx (by simp [hs]), h2 idx (s :: u) hidx (List.Forall₂.cons hs hu), childSum_mul]
        rw [sum_congr rfl e1, ← childSum_sum]
        apply childSum_congr'
        intro pre _
        unfold childSum
        rw [if_pos ha]
        apply sum_congr rfl
        intro s _
        simp [childSum]) (by
        rw [List.flatMap_append]
        refine (List.Perm.append g2 h3).trans ?_
        simp only [List.flatMap_cons, List.flatMap_nil, List.append_nil]
        exact List.perm_append_comm)
      rw [List.append_assoc] at this
      exact this
    · have hleaf := h.inactive_leaf hc.2.1 ha
      have hstep : fullChild x st (A, ds) c = .ok (A, ds ++ st.2 c) := by
        unfold fullChild; rw [if_neg ha]
      rw [hstep]
      have hsz : childSize x c = x.leafSize c := by unfold childSize; rw [if_neg ha]
      have hds : st.2 c = [dimOf x.tree c] := hleafd c hleaf
      rw [List.map_cons, hsz, List.cons_append] at h1 h2
      have hent : ∀ l, entriesAt (ds ++ st.2 c) l = entriesAt ds l ++ [l.getD (dimOf x.tree c) 0] := by
        intro l; rw [entriesAt_append, hds]; rfl
      have := ih (cs1 ++ [c]) A (ds ++ st.2 c) (fun c' hc' => hcs c' (by simp [hc'])) (by
        rw [hent, shape_getD hleaf, h1]; simp) (by
        intro idx u hidx hu
        rw [hent, List.append_assoc, List.singleton_append,
          h2 idx (_ :: u) hidx (List.Forall₂.cons (inBox_shape_getD hidx hleaf) hu), childSum_append]
        apply childSum_congr'
        intro pre _
        unfold childSum
        rw [if_neg ha]
        simp [childSum]) (by
        rw [List.flatMap_append]
        refine List.Perm.append h3 ?_
        simp [hds, hD c hleaf])
      rw [List.append_assoc] at this
      exact this

theorem mem_internalAt (T : DTree) (lev : Nat → Nat) (l i : Nat) :
    i ∈ internalAt T lev l ↔ IsNode T i ∧ lev i = l ∧ T.isLeaf i = false := by
  unfold internalAt
  rw [List.mem_filter, mem_nodesWithLevel]
  simp [and_assoc]

theorem nodup_internalAt (T : DTree) (lev : Nat → Nat) (l : Nat) : (internalAt T lev l).Nodup :=
  (nodup_nodes.filter _).filter _

theorem applyPerm_extend {ds a e : List Nat} {n : Nat} (hd : ∀ k ∈ ds, k < n) (ha : a.length = n) :
    applyPerm (ds ++ (List.range e.length).map (· + n)) (a ++ e) = applyPerm ds a ++ e := by
  unfold applyPerm
  rw [List.map_append]
  congr 1
  · apply List.map_congr_left
    intro k hk
    rw [List.getD_append _ _ _ _ (by rw [ha]; exact hd k hk)]
  · rw [List.map_map]
    apply List.ext_getElem (by simp)
    intro k h1 h2
    simp only [List.getElem_map, List.getElem_range, Function.comp_apply]
    rw [List.getD_append_right _ _ _ _ (by omega), ha, Nat.add_sub_cancel, List.getD_eq_getElem _ _ h2]

theorem WF.root_internal {x : TBT R} (h : WF x) {r : Nat} (hr : IsRoot x.tree r) : r ∉ x.tree.dim2ind := by
  intro hm
  have hno := ((h.valid.leaves r).1 hm).2
  obtain ⟨r', hr', hall⟩ := h.valid.rooted
  have : r = r' := root_unique h.valid hr hr'
  subst this
  have hone : ∀ j, IsNode x.tree j → j = r := by
    intro j hj
    rcases Relation.ReflTransGen.cases_head (hall j hj) with h1 | ⟨c, h1, _⟩
    · exact h1.symm
    · exact absurd h1 (hno c)
  have h2 := h.order
  have hnd := h.valid.nodup
  have h0 : x.tree.dim2ind[0] = r := hone _ ((h.valid.leaves _).1 (List.getElem_mem _)).1
  have h1 : x.tree.dim2ind[1] = r := hone _ ((h.valid.leaves _).1 (List.getElem_mem _)).1
  have := (List.Nodup.getElem_inj_iff hnd (i := 0) (j := 1) (hi := by omega) (hj := by omega)).1 (h0.trans h1.symm)
  omega

/-- The main statement for `full`, for any initial value of the attribute `dims` that is right on the leaves. -/
theorem fullWith_spec [CommSemiring R] (x : TBT R) (h : WF x) (D0 : Nat → List Nat)
    (hD0 : ∀ c ∈ x.tree.dim2ind, D0 c = [dimOf x.tree c]) :
    ∃ y D1 r, fullWith x D0 = .ok (y, D1) ∧ x.tree.root = .ok r ∧ y.shape = x.shape ++ rankShape x r ∧
      (∀ V, IsValue x V → ∀ idx e, InBox x.shape idx → InBox (rankShape x r) e → y.get (idx ++ e) = V r idx e) ∧
      (∀ c ∈ x.tree.dim2ind, D1 c = [dimOf x.tree c]) := by
  obtain ⟨r, hr, hroot⟩ := root_ok h.valid
  obtain ⟨lev, hl, hlev⟩ := level_ok h.valid
  obtain ⟨D, hDok, hDrec⟩ := dims_ok h.valid
  obtain ⟨V, hVal⟩ := exists_value x h.valid
  have hrl := h.root_internal hroot
  have hDleaf : ∀ c ∈ x.tree.dim2ind, D c = [dimOf x.tree c] := by
    intro c hc
    rw [hDrec.1 c ((isLeaf_mem _ _).2 hc), initDims_spec h.valid (dimOf x.tree c) c (dim2ind_dimOf hc)]
  -- the invariant
  obtain ⟨st, e1, hst1, hst2, hst3⟩ := bottomUp h.valid hlev (fullNode x) (fun i => x.tree.isLeaf i = false)
    (internalAt x.tree lev) (mem_internalAt x.tree lev) (nodup_internalAt x.tree lev)
    (fun st P => (∀ i, x.tree.isLeaf i = true → st.1 i = x.tensors i ∧ st.2 i = D0 i) ∧
      (∀ i, x.tree.isLeaf i = false → ¬ P i → st.1 i = x.tensors i) ∧
      ∀ i, IsNode x.tree i → x.tree.isLeaf i = false → P i → Good x V D st i)
    (by
      intro st P i ⟨i1, i2, i3⟩ hi hq hnP hch hpar
      have hil : i ∉ x.tree.dim2ind := fun hm => by rw [(isLeaf_mem _ _).2 hm] at hq; simp at hq
      obtain ⟨n1, n2, n3, n4⟩ := h.node i hi hil
      have hTi := i2 i hq hnP
      obtain ⟨A', ds', f1, f2, f3, f4⟩ := fullChild_fold x h V D st i hi (x.tensors i) (rankShape x i) hDleaf
        (fun c hc => by rw [(i1 c ((isLeaf_mem _ _).2 hc)).2, hD0 c hc])
        (fun c hc ha => by
          by_cases hcl : x.tree.isLeaf c = true
          · have hcm := (isLeaf_mem _ _).1 hcl
            obtain ⟨a1, a2⟩ := i1 c hcl
            obtain ⟨n, r', hsh⟩ := h.leaf c hcm ha
            have hls : x.leafSize c = n := by unfold TBT.leafSize; rw [if_pos ha, hsh]; rfl
            have hld : x.lastDim c = r' := lastDim_of_shape (s := [n]) hsh
            unfold Good
            rw [a1, a2, hD0 c hcm]
            refine ⟨?_, ?_, ?_⟩
            · rw [hsh]; unfold rs; rw [if_pos hcl, hld]
              show _ = [x.shape.getD (dimOf x.tree c) 0] ++ [r']
              rw [shape_getD hcm, hls]; rfl
            · rw [hDleaf c hcm]
            · intro idx e _ _
              rw [hVal.leaf c hcm ha]; rfl
          · simp only [Bool.not_eq_true] at hcl
            exact i3 c hc.2.1 hcl (hch c hc hcl))
        (x.tree.children i) [] (st.1 i) [] (fun c hc => (mem_children i c hi).1 hc)
        (by rw [hTi]; exact n2) (by intro idx t _ _; rw [hTi]; simp [entriesAt, childSum]) (by simp)
      refine ⟨(upd st.1 i A', upd st.2 i ds'), ?_, ?_, ?_, ?_⟩
      · unfold fullNode; simp only [f1, bind, Except.bind]
      · intro j hj
        have hji : j ≠ i := fun hji => by rw [hji, hq] at hj; simp at hj
        simp only [upd, if_neg hji]; exact i1 j hj
      · intro j hj hnP
        have hji : j ≠ i := fun hji => hnP (.inr hji)
        simp only [upd, if_neg hji]
        exact i2 j hj (fun hp => hnP (.inl hp))
      · intro j hjn hj hP
        by_cases hji : j = i
        · subst hji
          unfold Good
          have u1 : upd st.1 j A' j = A' := by simp [upd]
          have u2 : upd st.2 j ds' j = ds' := by simp [upd]
          show (upd st.1 j A' j).shape = entriesAt (upd st.2 j ds' j) x.shape ++ _ ∧ (upd st.2 j ds' j).Perm _ ∧
            ∀ idx e, _ → _ → (upd st.1 j A' j).get (entriesAt (upd st.2 j ds' j) idx ++ e) = _
          rw [u1, u2]
          have hrs : rs x j = rankShape x j := by unfold rs; rw [hq]; simp
          rw [hrs]
          refine ⟨f2, ?_, ?_⟩
          · rw [hDrec.2 j hjn hq]; simpa using f4
          · intro idx e hidx he
            rw [f3 idx e hidx he, hVal.node j hjn hil]; rfl
        · unfold Good
          simp only [upd, if_neg hji]
          exact i3 j hjn hj (hP.resolve_right hji))
    (x.tree.maxLevel lev + 1) (x.tensors, D0) ⟨fun _ _ => ⟨rfl, rfl⟩, fun _ _ _ => rfl, fun i hi _ hP => by
      have := lev_le_maxLevel lev hi
      omega⟩
  have hrlf : x.tree.isLeaf r = false := by
    rcases hb : x.tree.isLeaf r with _ | _
    · rfl
    · exact absurd ((isLeaf_mem _ _).1 hb) hrl
  obtain ⟨g1, g2, g3⟩ := hst3 r hroot.1 hrlf ⟨hroot.1, hrlf⟩
  have hrs : rs x r = rankShape x r := by unfold rs; rw [hrlf]; simp
  rw [hrs] at g1 g3
  have hDr : (D r).Perm (List.range x.order) := by
    obtain ⟨D', hD', _, _, _, _, _, _, hfin⟩ := dims_spec h.valid
    rw [hDok] at hD'; cases hD'
    exact hfin r hr
  have hds : (st.2 r).Perm (List.range x.order) := g2.trans hDr
  have hslen : x.shape.length = x.order := by simp [TBT.shape, TBT.order]
  have hdl : (st.2 r).length = x.order := by rw [hds.length_eq, List.length_range]
  have hord : (st.1 r).order = x.order + (rankShape x r).length := by
    show (st.1 r).shape.length = _
    rw [g1, List.length_append, length_entriesAt, hdl]
  set P := st.2 r ++ (List.range (rankShape x r).length).map (· + x.order) with hP
  have hPperm : P.Perm (List.range (st.1 r).order) := by
    rw [hord, List.range_add]
    refine List.Perm.append hds ?_
    rw [show (fun k => k + x.order) = (fun k => x.order + k) from funext (fun k => Nat.add_comm _ _)]
  have hdims : (if (st.1 r).order > x.order then st.2 r ++ (List.range ((st.1 r).order - x.order)).map (· + x.order) else st.2 r) = P := by
    rw [hord]
    by_cases hz : (rankShape x r).length = 0
    · rw [if_neg (by omega), hP, hz]; simp
    · rw [if_pos (by omega), Nat.add_sub_cancel_left]
  have hlt : ∀ k ∈ st.2 r, k < x.order := fun k hk => List.mem_range.1 (hds.mem_iff.1 hk)
  have hts : (st.1 r).shape = applyPerm P (x.shape ++ rankShape x r) := by
    rw [hP, applyPerm_extend hlt hslen]; exact g1
  have h2 := h.order
  have hgt : (st.1 r).order > 1 := by rw [hord]; unfold TBT.order; omega
  refine ⟨(st.1 r).transpose (invPerm P), st.2, r, ?_, hr, ?_, ?_, ?_⟩
  · unfold fullWith
    rw [hr]
    simp only [bind, Except.bind]
    rw [if_neg (by unfold TBT.order; omega), hl]
    simp only [e1]
    rw [hdims, if_pos hgt]
    unfold FullTensor.itransposeT FullTensor.transposeT
    rw [argsort_eq_invPerm hPperm, if_pos (invPerm_perm hPperm)]
  · show applyPerm (invPerm P) (st.1 r).shape = _
    rw [hts, invPerm_applyPerm hPperm (by rw [hord]; simp [hslen])]
  · intro V' hV' idx e hidx he
    show (st.1 r).get (applyPerm (invPerm (invPerm P)) (idx ++ e)) = _
    rw [invPerm_invPerm hPperm]
    have hil : idx.length = x.order := by rw [hidx.length_eq, hslen]
    rw [hP, ← he.length_eq, applyPerm_extend hlt hil]
    rw [show applyPerm (st.2 r) idx = entriesAt (st.2 r) idx from rfl, g3 idx e hidx he]
    exact value_unique x h.valid hVal hV' r hroot.1 (h.node r hroot.1 hrl).1 idx e
  · intro c hc
    rw [(hst1 c ((isLeaf_mem _ _).2 hc)).2, hD0 c hc]

theorem leaf_dims {T : DTree} (hV : Valid T) {D : Nat → List Nat} (hD : T.dims = .ok D) :
    ∀ c ∈ T.dim2ind, D c = [dimOf T c] := by
  obtain ⟨D', hD', hrec⟩ := dims_ok hV
  rw [hD] at hD'; cases hD'
  intro c hc
  rw [hrec.1 c ((isLeaf_mem _ _).2 hc), initDims_spec hV (dimOf T c) c (dim2ind_dimOf hc)]

/-- C34. `full()` succeeds on every well-formed tree-based tensor; its shape is the shape of the tensor (followed by
the rank of the root when the root has a rank axis) and its entries are given by the hierarchical formula. -/
theorem full_spec [CommSemiring R] (x : TBT R) (h : WF x) :
    ∃ y r, full x = .ok y ∧ x.tree.root = .ok r ∧ y.shape = x.shape ++ rankShape x r ∧
      ∀ V, IsValue x V → ∀ idx e, InBox x.shape idx → InBox (rankShape x r) e → y.get (idx ++ e) = V r idx e := by
  obtain ⟨D, hD, _⟩ := dims_ok h.valid
  obtain ⟨y, D1, r, h1, h2, h3, h4, _⟩ := fullWith_spec x h D (leaf_dims h.valid hD)
  refine ⟨y, r, ?_, h2, h3, h4⟩
  unfold full
  simp only [hD, h1, bind, Except.bind]

/-- `full()` overwrites the attribute `dims` of the tree, but the following calls return the same tensor. -/
theorem full_again [CommSemiring R] (x : TBT R) (h : WF x) (D : Nat → List Nat) (hD : x.tree.dims = .ok D) :
    ∃ y1 D1, fullWith x D = .ok (y1, D1) ∧ ∃ y2 D2, fullWith x D1 = .ok (y2, D2) ∧ y1 ≃ₐ y2 := by
  obtain ⟨y1, D1, r, h1, h2, h3, h4, h5⟩ := fullWith_spec x h D (leaf_dims h.valid hD)
  obtain ⟨y2, D2, r', g1, g2, g3, g4, _⟩ := fullWith_spec x h D1 h5
  rw [h2] at g2; cases g2
  refine ⟨y1, D1, h1, y2, D2, g1, by rw [h3, g3], ?_⟩
  intro idx hidx
  obtain ⟨V, hV⟩ := exists_value x h.valid
  rw [h3] at hidx
  obtain ⟨a, b, rfl, ha, hb⟩ := inBox_append_split hidx
  rw [h4 V hV a b ha hb, g4 V hV a b ha hb]

/-! ### A concrete case, and the order-one case that goes wrong -/

/-- A decision procedure for the shape conditions of `WF`. -/
def wfB (x : TBT R) : Bool :=
  decide (2 ≤ x.tree.dim2ind.length) && x.tree.dim2ind.all (fun c => !x.active c || (x.tensors c).shape.length == 2) &&
  x.tree.nodes.all (fun i => x.tree.dim2ind.contains i || (x.active i &&
    ((x.tensors i).shape == (x.tree.children i).map (childSize x) ++ rankShape x i) &&
    decide ((rankShape x i).length ≤ 1) && (x.tree.parent i == 0 || (rankShape x i).length == 1)))

theorem wf_of_wfB (x : TBT R) (hV : Valid x.tree) (h : wfB x = true) : WF x := by
  unfold wfB at h
  simp only [Bool.and_eq_true, decide_eq_true_eq, List.all_eq_true, Bool.or_eq_true, Bool.not_eq_true',
    beq_iff_eq, List.contains_iff_mem] at h
  obtain ⟨⟨h1, h2⟩, h3⟩ := h
  refine ⟨hV, h1, ?_, ?_⟩
  · intro c hc ha
    rcases h2 c hc with h | h
    · rw [h] at ha; simp at ha
    · exact List.length_eq_two.1 h
  · intro i hi hl
    rcases h3 i ((mem_nodes i).2 hi) with h | ⟨⟨⟨a1, a2⟩, a3⟩, a4⟩
    · exact absurd h hl
    · exact ⟨a1, a2, a3, fun hr => a4.resolve_left (fun hp => hr ((parent_eq_zero hi).1 hp))⟩

/-- The tree with dimensions 0 and 1 below the node 2, dimension 2 below the root 1; leaves 3, 4, 5. -/
def exTree : DTree := ofParents [0, 0, 1, 1, 0] [3, 4, 5]

theorem exTree_valid : Valid exTree :=
  ofParents_valid _ _ (by decide) (by decide) (by decide) (by decide) (by decide)

/-- A tensor of shape `3 × 2 × 2`: the leaf of dimension 1 is inactive. -/
def exT : TBT Int where
  tree := exTree
  tensors := fun i => match i with
    | 1 => ⟨[3, 2], fun t => t.getD 0 0 + 2 * t.getD 1 0⟩
    | 2 => ⟨[2, 2, 3], fun t => t.getD 0 0 * t.getD 1 0 + t.getD 2 0⟩
    | 3 => ⟨[3, 2], fun t => 1 + t.getD 0 0 * t.getD 1 0⟩
    | 5 => ⟨[2, 2], fun t => t.getD 0 0 - t.getD 1 0⟩
    | _ => ⟨[0], fun _ => 0⟩

theorem exT_wf : WF exT := wf_of_wfB _ exTree_valid (by decide +kernel)

example : exT.shape = [3, 2, 2] := by decide +kernel

/-- Entries and shape of the result of `full`, for concrete evaluations. -/
def fullAt [CommSemiring R] (x : TBT R) (idx : List Nat) : Option (List Nat × R) :=
  match full x with
  | .ok y => some (y.shape, y.get idx)
  | .error _ => none

example : fullAt exT [2, 1, 1] = some ([3, 2, 2], 29) := by decide +kernel

/-- An order-one tensor on the tree with a root and one leaf: `full()` returns the root tensor and ignores the matrix
of the leaf. -/
def oneT : TBT Int where
  tree := DTree.trivial 1
  tensors := fun i => if i = 1 then ⟨[2], fun t => t.getD 0 0⟩ else ⟨[3, 2], fun t => t.getD 0 0 + t.getD 1 0⟩

theorem full_wrong_order_one : Valid oneT.tree ∧ oneT.shape = [3] ∧ fullAt oneT [1] = some ([2], 1) ∧
    ∀ V, IsValue oneT V → V 1 [1] [] = 2 := by
  refine ⟨trivial_valid 1 (by decide), by decide +kernel, by decide +kernel, ?_⟩
  intro V hV
  rw [hV.node 1 ⟨by decide, by decide⟩ (by decide)]
  have hc : oneT.tree.children 1 = [2] := by decide +kernel
  have ha : oneT.active 2 = true := by decide +kernel
  have hd : oneT.lastDim 2 = 2 := by decide +kernel
  rw [hc]
  unfold childSum
  rw [if_pos ha, hd]
  simp only [childSum]
  rw [sum_range_succ, sum_range_succ, sum_range_zero, hV.leaf 2 (by decide) ha, hV.leaf 2 (by decide) ha]
  decide +kernel

end Verif.TreeBased
