import Verif.Lemmas.PcaSteps

/-!
# The run of the tree-based approximation
-/

namespace Verif.Pca

open Verif.Arr Verif.DimTree Verif.TreeBased Verif.Truncation Verif.Grids Finset

variable {R : Run}

/-- The result of a run. -/
structure Done (R : Run) (x : TBT ℝ) (st : St) (r : Nat) : Prop where
  root : IsRoot R.T r
  node : ∀ i, IsNode R.T i → ¬ IsRoot R.T i → NodeOk R st i
  eq : x = ⟨R.T, st.tensors⟩
  shape : (st.tensors r).shape = msOf R st r
  grid : st.grids r = (List.range (msOf R st r).prod).map (fun k => ptOf R st r (unravelF (msOf R st r) k))
  pts : ∀ t, InBox (msOf R st r) t → InBox (entriesAt (R.D r) R.shape) (ptOf R st r t)
  val : ∀ t idx, InBox (msOf R st r) t → InBox R.shape idx →
    sumBox (msOf R st r) (fun s => BfOf R st r t s * (st.tensors r).get s) = R.f (subst idx (R.D r) (ptOf R st r t))

section run

variable (h : RunOk R)
include h

/-- A step at the node `i` keeps the other treated nodes. -/
theorem NodeOk.keep {st st' : St} {i j : Nat} (hj : IsNode R.T j) (hne : j ≠ i) (hch : ¬ Edge R.T j i)
    (hs : ∀ j, j ≠ i → st'.basis j = st.basis j ∧ st'.grids j = st.grids j ∧ st'.tensors j = st.tensors j) (hok : NodeOk R st j) :
    NodeOk R st' j := by
  refine hok.congr (hs j hne).1 (hs j hne).2.1 (hs j hne).2.2 (fun c hc => ?_)
  have : c ≠ i := by
    rintro rfl
    exact hch ((mem_children j c hj).1 hc)
  exact ⟨(hs c this).1, (hs c this).2.1⟩

theorem leaves_ok (n : Nat) (hn : n ≤ R.shape.length) :
    ∃ st, (List.range n).foldlM (leafStep R) ⟨fun _ => emptyArr, fun _ => [], fun _ => emptyArr, 0⟩ = .ok st ∧
      (∀ k, k < n → NodeOk R st (R.T.dim2ind.getD k 0)) ∧ ∀ j, (∀ k, k < n → j ≠ R.T.dim2ind.getD k 0) → st.tensors j = emptyArr := by
  induction n with
  | zero => exact ⟨_, rfl, fun k hk => absurd hk (by omega), fun j _ => rfl⟩
  | succ n ih =>
    obtain ⟨st, s1, s2, s3⟩ := ih (by omega)
    obtain ⟨st', t1, t2, t3⟩ := leafStep_ok h st (nu := n) (by omega)
    have hinj : ∀ k, k < n → R.T.dim2ind.getD k 0 ≠ R.T.dim2ind.getD n 0 := by
      intro k hk he
      have e1 := dimOf_getD h.valid (d := k) (by rw [← h.len]; omega)
      have e2 := dimOf_getD h.valid (d := n) (by rw [← h.len]; omega)
      rw [he, e2] at e1; omega
    refine ⟨st', ?_, ?_, ?_⟩
    · rw [List.range_succ, List.foldlM_append, s1]
      simp only [bind, Except.bind, List.foldlM_cons, List.foldlM_nil, t1]
      rfl
    · intro k hk
      by_cases hkn : k = n
      · subst hkn
        exact t2 (s3 _ (fun k' hk' he => hinj k' hk' he.symm))
      · have hmem : R.T.dim2ind.getD k 0 ∈ R.T.dim2ind := by
          rw [List.getD_eq_getElem _ _ (by rw [← h.len]; omega)]; exact List.getElem_mem _
        have hlf := (h.valid.leaves _).1 hmem
        exact NodeOk.keep h hlf.1 (hinj k (by omega)) (hlf.2 _) t3 (s2 k (by omega))
    · intro j hj
      rw [(t3 j (hj n (by omega))).2.2]
      exact s3 j (fun k hk => hj k (by omega))

theorem levels_ok {lev : Nat → Nat} (hlev : ∀ j k, HasLevel R.T j k → lev j = k) (st : St) (hst : ∀ i ∈ R.T.dim2ind, NodeOk R st i) :
    ∃ st', ((List.range (R.T.maxLevel lev)).map (· + 1)).reverse.foldlM (fun st l => (internalAt R.T lev l).foldlM (nodeStep R) st) st = .ok st' ∧
      ∀ i, IsNode R.T i → ¬ IsRoot R.T i → NodeOk R st' i := by
  have hf : (fun st l => (internalAt R.T lev l).foldlM (nodeStep R) st) =
      fun st l => (R.T.nodesWithLevel lev l).foldlM (fun st i => if (!R.T.isLeaf i) = true then nodeStep R st i else .ok st) st := by
    funext st l
    unfold internalAt
    rw [List.foldlM_filter]
    rfl
  rw [hf]
  obtain ⟨st', e1, e2⟩ := bottomUp1 h.valid hlev (fun st i => if (!R.T.isLeaf i) = true then nodeStep R st i else .ok st)
    (fun st P => (∀ i ∈ R.T.dim2ind, NodeOk R st i) ∧ ∀ i, IsNode R.T i → P i → NodeOk R st i)
    (by
      rintro s P i ⟨i1, i2⟩ hi hir hPi hch hpar
      by_cases hl : i ∈ R.T.dim2ind
      · refine ⟨s, ?_, i1, ?_⟩
        · rw [if_neg (by simp [(isLeaf_mem _ _).2 hl])]
        · rintro j hj (hP | rfl)
          · exact i2 j hj hP
          · exact i1 j hl
      · have hleaf : ¬ R.T.isLeaf i = true := fun hh => hl ((isLeaf_mem _ _).1 hh)
        obtain ⟨s', n1, n2, n3⟩ := nodeStep_ok h s hi hir hl (fun c hc =>
          i2 c ((mem_children i c hi).1 hc).2.1 (hch c ((mem_children i c hi).1 hc)))
        refine ⟨s', ?_, ?_, ?_⟩
        · rw [if_pos (by simp [hleaf])]; exact n1
        · intro j hj
          have hlf := (h.valid.leaves _).1 hj
          exact NodeOk.keep h hlf.1 (by rintro rfl; exact hl hj) (hlf.2 _) n3 (i1 j hj)
        · rintro j hj (hP | rfl)
          · exact NodeOk.keep h hj (by rintro rfl; exact hPi hP) (fun he => hpar j he hP) n3 (i2 j hj hP)
          · exact n2)
    st ⟨hst, fun _ _ hh => hh.elim⟩
  exact ⟨st', e1, fun i hi hr => e2.2 i hi ⟨hi, hr⟩⟩

omit h in
theorem reshape_vec (M : Arr ℝ) (s : List Nat) (h : M.shape = [s.prod, 1]) :
    ∃ y, FullTensor.reshape M s = .ok y ∧ y.shape = s ∧ ∀ u, InBox s u → y.get u = M.get [ravelF s u, 0] := by
  refine ⟨M.reshapeF s, ?_, rfl, ?_⟩
  · unfold FullTensor.reshape
    rw [if_pos (by rw [h]; simp)]
  · intro u hu
    show M.get (unravelF M.shape (ravelF s u)) = _
    rw [h]
    have := unravelF_pair (ravelF_lt hu) (show 0 < 1 by omega)
    simp only [Nat.mul_zero, Nat.add_zero] at this
    rw [this]

theorem D_root {r : Nat} (hr : IsRoot R.T r) {k : Nat} (hk : k < R.shape.length) : k ∈ R.D r := by
  refine (recDims_mem h.valid h.dims r hr.1 k).2 ⟨R.T.dim2ind.getD k 0, ?_, ?_⟩
  · rw [List.getD_eq_getElem _ _ (by rw [← h.len]; exact hk)]
    exact List.getElem?_eq_getElem _
  · obtain ⟨s, hs, hall⟩ := h.valid.rooted
    rw [root_unique h.valid hr hs]
    refine hall _ ((h.valid.leaves _).1 ?_).1
    rw [List.getD_eq_getElem _ _ (by rw [← h.len]; exact hk)]; exact List.getElem_mem _

theorem pick_root {r : Nat} (hr : IsRoot R.T r) (row idx : List Nat) (hidx : InBox R.shape idx) :
    pick ((List.range R.shape.length).map (fun x => (R.D r).idxOf x)) row = subst idx (R.D r) row := by
  unfold pick subst
  rw [hidx.length_eq, List.map_map]
  apply List.map_congr_left
  intro k hk
  rw [if_pos (D_root h hr (List.mem_range.1 hk))]
  rfl

/-- The run succeeds. -/
theorem run_ok : ∃ x st r, approximate R = .ok (x, st) ∧ R.T.root = .ok r ∧ Done R x st r ∧
    Shaped x R.T R.live (fun i => (st.grids i).length) (fun c => R.shape.getD (dimOf R.T c) 0) [] := by
  obtain ⟨st0, a1, a2, _⟩ := leaves_ok h R.shape.length le_rfl
  have hleaves : ∀ i ∈ R.T.dim2ind, NodeOk R st0 i := by
    intro i hi
    have := a2 (dimOf R.T i) (dimOf_lt' h hi)
    rwa [show R.T.dim2ind.getD (dimOf R.T i) 0 = i by
      rw [List.getD_eq_getElem?_getD, dim2ind_dimOf hi]; rfl] at this
  obtain ⟨lev, hl1, hlev⟩ := level_ok h.valid
  obtain ⟨st1, b1, b2⟩ := levels_ok h hlev st0 hleaves
  obtain ⟨r, hr1, hroot⟩ := root_ok h.valid
  have hrl := Shaped.root_internal' h.valid h.order hroot
  have hnr : ∀ c, Edge R.T r c → ¬ IsRoot R.T c := fun c he hc => hc.2 r he
  obtain ⟨n0, n00, n1, n2, B, N, n3, n4, n5, n6, n7, n8⟩ := node_data h st1 hroot.1 hrl (fun c hc =>
    b2 c ((mem_children r c hroot.1).1 hc).2.1 (hnr c ((mem_children r c hroot.1).1 hc)))
  set ms := msOf R st1 r with hms
  set g := (List.range ms.prod).map (fun k => ptOf R st1 r (unravelF ms k)) with hg
  set v := g.map (fun row => R.f (pick ((List.range R.shape.length).map (fun x => (R.D r).idxOf x)) row)) with hv
  have hvl : v.length = ms.prod := by rw [hv, hg]; simp
  obtain ⟨A, v1, v2, v3⟩ := reshapeVec_ok (v := v) (m := v.length) (n := 1) (by simp)
  rw [hvl] at v2 v3
  obtain ⟨C, c1, c2, c3⟩ := solve_ok n4 v2 n6
  obtain ⟨y, y1, y2, y3⟩ := reshape_vec C ms c2
  set st : St := ⟨st1.basis, upd st1.grids r g, upd st1.tensors r y, st1.nbEval + g.length⟩ with hst
  have hrs : rootStep R st1 r = .ok st := by
    unfold rootStep
    simp only [n3, n7, bind, Except.bind, ← hv, v1, c1]
    rw [← n1, y1]
  have hkeep : ∀ j, j ≠ r → st.basis j = st1.basis j ∧ st.grids j = st1.grids j ∧ st.tensors j = st1.tensors j := by
    intro j hj; simp [hst, upd, hj]
  have hch : ∀ c ∈ R.T.children r, c ≠ r := fun c hc => ((edge_ne h.valid ((mem_children r c hroot.1).1 hc))).symm
  have hnode : ∀ i, IsNode R.T i → ¬ IsRoot R.T i → NodeOk R st i := by
    intro i hi hir
    exact NodeOk.keep h hi (by rintro rfl; exact hir hroot) (fun he => hroot.2 i he) hkeep (b2 i hi hir)
  have e1 : msOf R st r = ms := by
    rw [hms]
    unfold msOf; congr 1
    exact List.map_congr_left (fun c hc' => by rw [(hkeep c (hch c hc')).2.1])
  have e2 : ptOf R st r = ptOf R st1 r := by
    funext t
    unfold ptOf
    rw [List.map_congr_left (fun c hc' => (hkeep c (hch c hc')).2.1)]
  have e3 : BfOf R st r = BfOf R st1 r := rfl
  have u1 : st.grids r = g := by simp [hst, upd]
  have u2 : st.tensors r = y := by simp [hst, upd]
  have hlf : ¬ R.T.isLeaf r = true := fun hh => hrl ((isLeaf_mem _ _).1 hh)
  have hsh : Shaped (⟨R.T, st.tensors⟩ : TBT ℝ) R.T R.live (fun i => (st.grids i).length) (fun c => R.shape.getD (dimOf R.T c) 0) [] := by
    have hsize : ∀ i, IsNode R.T i → ¬ IsRoot R.T i → R.live i = true → 0 < (st.grids i).length := fun i hi hir hlv =>
      ((hnode i hi hir).basic (.inl hlv)).2.1
    have hch2 : ∀ i, IsNode R.T i → (R.T.children i).map (fun c => (st.grids c).length) =
        (R.T.children i).map (fun c => if R.live c then (st.grids c).length else R.shape.getD (dimOf R.T c) 0) := by
      intro i hi
      apply List.map_congr_left
      intro c hc
      have he := (mem_children i c hi).1 hc
      split
      · rfl
      · rename_i hlv
        rw [((hnode c he.2.1 (fun hc => hc.2 i he)).off hlv).2.2]
        simp [gridCol]
    refine ⟨rfl, hsize, fun c hc => shape_pos h (dimOf_lt' h hc), by simp, by simp, ?_, ?_, ?_, ?_⟩
    · intro c hc hlv
      have hcn := ((h.valid.leaves c).1 hc).1
      obtain ⟨q, s1, _⟩ := (hnode c hcn (fun hh => Shaped.root_internal' h.valid h.order hh hc)).on hlv
      have := s1.tens
      rw [msOf_leaf st ((isLeaf_mem _ _).2 hc)] at this
      show (st.tensors c).shape = _
      rw [this, s1.grid]; rfl
    · intro c hc hlv
      have hcn := ((h.valid.leaves c).1 hc).1
      show (st.tensors c).shape.prod = 0
      rw [((hnode c hcn (fun hh => Shaped.root_internal' h.valid h.order hh hc)).off hlv).1]
      rfl
    · intro i hi hl
      have : ¬ R.T.isLeaf i = true := fun hh => hl ((isLeaf_mem _ _).1 hh)
      simp [Run.live, this]
    · intro i hi hl
      have hlf' : ¬ R.T.isLeaf i = true := fun hh => hl ((isLeaf_mem _ _).1 hh)
      show (st.tensors i).shape = _
      rw [← hch2 i hi]
      by_cases hir : IsRoot R.T i
      · rw [if_pos hir, root_unique h.valid hir hroot, u2, y2, List.append_nil, ← e1, msOf_node st hlf]
      · rw [if_neg hir]
        obtain ⟨q, s1, _⟩ := (hnode i hi hir).on (by simp [Run.live, hlf'])
        rw [s1.tens, s1.grid, msOf_node st hlf']
  refine ⟨⟨R.T, st.tensors⟩, st, r, ?_, hr1, ⟨hroot, hnode, rfl, by rw [u2, y2, e1], by rw [u1, e1, e2], by rw [e1, e2]; exact n8, ?_⟩, hsh⟩
  · unfold approximate
    simp only [a1, hl1, b1, hr1, hrs, bind, Except.bind]
    have hm := mk_wf (hsh.wf h.valid h.order)
    rw [hm]
  · intro t idx ht hidx
    rw [e1] at ht
    rw [e1, e2, e3, u2]
    have hBC : ∀ a, a < ms.prod → ∑ b ∈ range ms.prod, B.get [a, b] * C.get [b, 0] = A.get [a, 0] := by
      intro a ha
      have := n6.symm.apply (x := fun k => A.get [k, 0]) (y := fun b => C.get [b, 0]) (fun b hb => c3 b 0 hb (by omega)) a ha
      exact this.symm
    have h1 := hBC _ (ravelF_lt ht)
    rw [v3] at h1
    have e5 : ravelF [ms.prod, 1] [ravelF ms t, 0] = ravelF ms t := by simp [ravelF]
    rw [e5] at h1
    have e6 : v.getD (ravelF ms t) 0 = R.f (subst idx (R.D r) (ptOf R st1 r t)) := by
      rw [List.getD_eq_getElem _ _ (by rw [hvl]; exact ravelF_lt ht)]
      simp only [hv, hg, List.getElem_map, List.getElem_range]
      rw [unravelF_ravelF ht, pick_root h hroot _ idx hidx]
    rw [← e6, ← h1, ← sumBox_ravel (s := ms) (fun b => B.get [ravelF ms t, b] * C.get [b, 0])]
    apply sumBox_congr
    intro s hs
    rw [n5 t s ht hs, y3 s hs]

end run

end Verif.Pca
