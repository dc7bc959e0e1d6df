import Verif.Lemmas.PcaTree
import Verif.Props.HsvdDense

/-!
# The loops of the tree-based approximation
-/

namespace Verif.Pca

open Verif.Arr Verif.DimTree Verif.TreeBased Verif.Truncation Verif.Grids Finset

variable {R : Run}

theorem gridCol_eq (n : Nat) : gridCol n = (List.range [n].prod).map (fun k => unravelF [n] k) := by
  unfold gridCol
  rw [List.prod_singleton]
  apply List.map_congr_left
  intro k hk
  have h1 : InBox [n] [k] := .cons (List.mem_range.1 hk) .nil
  have h2 := unravelF_ravelF h1
  have h3 : ravelF [n] [k] = k := by simp [ravelF]
  rw [h3] at h2
  exact h2.symm

theorem entriesAt_flatMap {ι : Type} (cs : List ι) (D : ι → List Nat) (l : List Nat) :
    entriesAt (cs.flatMap D) l = cs.flatMap (fun c => entriesAt (D c) l) := by
  unfold entriesAt
  rw [List.map_flatMap]

theorem gridPoint_cons {K : Type} (g : List (List K)) (gs : List (List (List K))) (j : Nat) (t : List Nat) :
    gridPoint (g :: gs) (j :: t) = g.getD j [] ++ gridPoint gs t := by
  simp [gridPoint]

/-- The points of a product of grids. -/
theorem gridPoint_inBox (grids : Nat → List (List Nat)) (D : Nat → List Nat) (shape : List Nat) (cs : List Nat)
    (h : ∀ c ∈ cs, ∀ row ∈ grids c, InBox (entriesAt (D c) shape) row) :
    ∀ t, InBox (cs.map (fun c => (grids c).length)) t → InBox (entriesAt (cs.flatMap D) shape) (gridPoint (cs.map grids) t) := by
  induction cs with
  | nil => intro t ht; cases ht; exact .nil
  | cons c cs ih =>
    intro t ht
    rw [List.map_cons] at ht
    match t, ht with
    | j :: t, .cons hj ht =>
      rw [List.map_cons, gridPoint_cons, entriesAt_flatMap, List.flatMap_cons, ← entriesAt_flatMap]
      have h1 : InBox (entriesAt (D c) shape) ((grids c).getD j []) := by
        refine h c (by simp) _ ?_
        rw [List.getD_eq_getElem _ _ hj]; exact List.getElem_mem _
      exact (inBox_append h1.length_eq).2 ⟨h1, ih (fun c' hc' => h c' (by simp [hc'])) t ht⟩

section steps

variable (h : RunOk R)
include h

theorem dimOf_lt' {i : Nat} (hi : i ∈ R.T.dim2ind) : dimOf R.T i < R.shape.length := by rw [h.len]; exact dimOf_lt hi

/-- The body of the loop on the leaves. -/
theorem leafStep_ok (st : St) {nu : Nat} (hnu : nu < R.shape.length) :
    ∃ st', leafStep R st nu = .ok st' ∧ (st.tensors (R.T.dim2ind.getD nu 0) = emptyArr → NodeOk R st' (R.T.dim2ind.getD nu 0)) ∧
      ∀ j, j ≠ R.T.dim2ind.getD nu 0 → st'.basis j = st.basis j ∧ st'.grids j = st.grids j ∧ st'.tensors j = st.tensors j := by
  set i := R.T.dim2ind.getD nu 0 with hi
  have hmem : i ∈ R.T.dim2ind := by
    rw [hi, List.getD_eq_getElem _ _ (by rw [← h.len]; exact hnu)]; exact List.getElem_mem _
  have hnode : IsNode R.T i := ((h.valid.leaves i).1 hmem).1
  have hleaf : R.T.isLeaf i = true := (isLeaf_mem _ _).2 hmem
  have hdim : dimOf R.T i = nu := by
    rw [hi]; exact dimOf_getD h.valid (by rw [← h.len]; exact hnu)
  have hD : R.D i = [nu] := by rw [leaf_D h hmem, hdim]
  have hn := shape_pos h hnu
  have hms : msOf R st i = [R.shape.getD nu 0] := by rw [msOf_leaf st hleaf, hdim]
  have hrow : ∀ row ∈ gridCol (R.shape.getD nu 0), InBox (entriesAt (R.D i) R.shape) row := by
    intro row hr
    obtain ⟨k, hk, rfl⟩ := List.mem_map.1 hr
    rw [hD]
    exact .cons (List.mem_range.1 hk) .nil
  by_cases ha : R.act i = true
  · have hlive : R.live i = true := by simp [Run.live, ha]
    have hir : ¬ IsRoot R.T i := fun hr => Shaped.root_internal' h.valid h.order hr hmem
    obtain ⟨pc, r, ne, x, b, g', c1, c2, c3, c4⟩ := core_ok h st hnode hir hlive (B := eye (R.shape.getD nu 0)) (g := gridCol (R.shape.getD nu 0))
      (by rw [hms]; simpa using hn) (by rw [hms]; simp [eye])
      (by
        rw [hms, BfOf_leaf st hleaf]
        rintro t s ht hs
        match t, s, ht, hs with
        | [a], [b], _, _ => simp [ravelF, eye])
      (by rw [hms, List.prod_singleton]; exact eye_inv _)
      (by rw [hms, ptOf_leaf st hleaf]; exact gridCol_eq _) hrow
    refine ⟨_, ?_, fun _ => c4, ?_⟩
    · unfold leafStep
      simp only [← hi, if_pos ha, h.eim, if_true, bind, Except.bind]
      rw [← hD, c1]
      dsimp only
      rw [hms] at c2 c3
      have e : pc.shape.getD 1 0 = r := by rw [c2]; rfl
      rw [e]
      exact c3
    · intro j hj
      simp [upd, hj]
  · have hlive : ¬ R.live i = true := by simp [Run.live, ha, hleaf]
    refine ⟨{ st with basis := upd st.basis i (eye (R.shape.getD nu 0)), grids := upd st.grids i (gridCol (R.shape.getD nu 0)) }, ?_, fun ht => ?_, ?_⟩
    · unfold leafStep
      simp only [← hi, if_neg ha]
    · refine ⟨fun row hr => hrow row (by simpa [upd] using hr), fun hl => absurd hl hlive, fun _ => ⟨ht, ?_, ?_⟩⟩
      · rw [hdim]; simp [upd]
      · rw [hdim]; simp [upd]
    · intro j hj
      simp [upd, hj]

/-- The matrix and the grid of an internal node. -/
theorem node_data (st : St) {i : Nat} (hi : IsNode R.T i) (hl : ¬ i ∈ R.T.dim2ind) (hc : ∀ c ∈ R.T.children i, NodeOk R st c) :
    R.T.children i ≠ [] ∧ (∀ c ∈ R.T.children i, (st.basis c).shape = [(st.grids c).length, (st.grids c).length] ∧ 0 < (st.grids c).length) ∧
    msOf R st i = (R.T.children i).map (fun c => (st.basis c).shape.getD 1 0) ∧ 0 < (msOf R st i).prod ∧
    ∃ B N, tensorProductB ((R.T.children i).map st.basis) = .ok B ∧ B.shape = [(msOf R st i).prod, (msOf R st i).prod] ∧
      (∀ t s, InBox (msOf R st i) t → InBox (msOf R st i) s → B.get [ravelF (msOf R st i) t, ravelF (msOf R st i) s] = BfOf R st i t s) ∧
      InvBy (msOf R st i).prod (fun i j => B.get [i, j]) N ∧
      (⟨(R.T.children i).map st.grids⟩ : FullGrid Nat).array =
        .ok ((List.range (msOf R st i).prod).map (fun k => ptOf R st i (unravelF (msOf R st i) k))) ∧
      ∀ t, InBox (msOf R st i) t → InBox (entriesAt (R.D i) R.shape) (ptOf R st i t) := by
  have hleaf : ¬ R.T.isLeaf i = true := fun hh => hl ((isLeaf_mem _ _).1 hh)
  have hne : R.T.children i ≠ [] := by
    intro he
    rw [isLeaf_iff h.valid hi] at hleaf
    push Not at hleaf
    obtain ⟨j, hj⟩ := hleaf
    have := (mem_children i j hi).2 hj
    rw [he] at this; simp at this
  have hb : ∀ c ∈ R.T.children i, (st.basis c).shape = [(st.grids c).length, (st.grids c).length] ∧ 0 < (st.grids c).length ∧
      ∃ N, InvBy (st.grids c).length (fun a k => (st.basis c).get [a, k]) N := by
    intro c hcc
    refine (hc c hcc).basic ?_
    by_cases hcl : c ∈ R.T.dim2ind
    · exact .inr (shape_pos h (dimOf_lt' h hcl))
    · left
      have : ¬ R.T.isLeaf c = true := fun hh => hcl ((isLeaf_mem _ _).1 hh)
      simp [Run.live, this]
  have hms := msOf_node st hleaf
  have hmsp : 0 < (msOf R st i).prod := by
    rw [hms]
    refine List.prod_pos (fun n hn => ?_)
    obtain ⟨c, hcc, rfl⟩ := List.mem_map.1 hn
    exact (hb c hcc).2.1
  have hN : ∀ c, ∃ N : Nat → Nat → ℝ, c ∈ R.T.children i → InvBy (st.grids c).length (fun a k => (st.basis c).get [a, k]) N := by
    intro c
    by_cases hcc : c ∈ R.T.children i
    · obtain ⟨N, hN⟩ := (hb c hcc).2.2; exact ⟨N, fun _ => hN⟩
    · exact ⟨fun _ _ => 0, fun hh => absurd hh hcc⟩
  choose N hN using hN
  obtain ⟨B, b1, b2, b3⟩ := tensorProductB_ok st.basis (fun c => (st.grids c).length) (fun c => (st.grids c).length) (R.T.children i) hne
    (fun c hcc => (hb c hcc).1)
  rw [← hms] at b2 b3
  set C : Nat → Arr ℝ := fun c => ⟨[], fun ij => N c (ij.getD 0 0) (ij.getD 1 0)⟩ with hC
  refine ⟨hne, fun c hcc => ⟨(hb c hcc).1, (hb c hcc).2.1⟩, ?_, hmsp, B,
    fun a k => kprod C (R.T.children i) (unravelF (msOf R st i) a) (unravelF (msOf R st i) k), b1, b2, ?_, ?_, ?_, ?_⟩
  · rw [hms]
    exact List.map_congr_left (fun c hcc => by rw [(hb c hcc).1]; rfl)
  · rw [BfOf_node st hleaf]; exact b3
  · have hBu : ∀ a k, a < (msOf R st i).prod → k < (msOf R st i).prod →
        B.get [a, k] = kprod st.basis (R.T.children i) (unravelF (msOf R st i) a) (unravelF (msOf R st i) k) := by
      intro a k ha hk
      have := b3 _ _ (unravelF_inBox ha) (unravelF_inBox hk)
      rwa [ravelF_unravelF ha, ravelF_unravelF hk] at this
    have hun : ∀ a b, a < (msOf R st i).prod → b < (msOf R st i).prod →
        ((unravelF (msOf R st i) a = unravelF (msOf R st i) b) ↔ a = b) := by
      intro a b ha hb'
      constructor
      · intro e; rw [← ravelF_unravelF ha, e, ravelF_unravelF hb']
      · rintro rfl; rfl
    constructor
    · intro a b ha hb'
      rw [sum_congr rfl (fun k hk => by
        rw [hBu a k ha (mem_range.1 hk)])]
      rw [← sumBox_eq_linearF _ (fun s => kprod st.basis (R.T.children i) (unravelF (msOf R st i) a) s *
        kprod C (R.T.children i) s (unravelF (msOf R st i) b))]
      have := kprod_inv st.basis C (fun c => (st.grids c).length) (R.T.children i)
        (fun c hcc i' j' hi' hj' => (hN c hcc).right i' j' hi' hj') (unravelF (msOf R st i) a) (unravelF (msOf R st i) b)
        (by rw [← hms]; exact unravelF_inBox ha) (by rw [← hms]; exact unravelF_inBox hb')
      rw [← hms] at this
      rw [this]
      simp only [hun a b ha hb']
    · intro a b ha hb'
      rw [sum_congr rfl (fun k hk => by
        rw [hBu k b (mem_range.1 hk) hb'])]
      rw [← sumBox_eq_linearF _ (fun s => kprod C (R.T.children i) (unravelF (msOf R st i) a) s *
        kprod st.basis (R.T.children i) s (unravelF (msOf R st i) b))]
      have := kprod_inv C st.basis (fun c => (st.grids c).length) (R.T.children i)
        (fun c hcc i' j' hi' hj' => (hN c hcc).left i' j' hi' hj') (unravelF (msOf R st i) a) (unravelF (msOf R st i) b)
        (by rw [← hms]; exact unravelF_inBox ha) (by rw [← hms]; exact unravelF_inBox hb')
      rw [← hms] at this
      rw [this]
      simp only [hun a b ha hb']
  · rw [array_eq _ (by simpa using hne) (by
      intro g hg
      obtain ⟨c, hcc, rfl⟩ := List.mem_map.1 hg
      exact List.length_pos_iff.1 (hb c hcc).2.1)]
    rw [ptOf_node st hleaf, hms]
    have : (⟨(R.T.children i).map st.grids⟩ : FullGrid Nat).shape = (R.T.children i).map (fun c => (st.grids c).length) := by
      simp [FullGrid.shape]
    rw [this]
  · intro t ht
    rw [ptOf_node st hleaf, h.dims.2 i hi (by simpa using hleaf)]
    exact gridPoint_inBox st.grids R.D R.shape _ (fun c hcc => (hc c hcc).rows) t (by rwa [hms] at ht)

/-- The body of the loop on the internal nodes. -/
theorem nodeStep_ok (st : St) {i : Nat} (hi : IsNode R.T i) (hir : ¬ IsRoot R.T i) (hl : ¬ i ∈ R.T.dim2ind)
    (hc : ∀ c ∈ R.T.children i, NodeOk R st c) :
    ∃ st', nodeStep R st i = .ok st' ∧ NodeOk R st' i ∧
      ∀ j, j ≠ i → st'.basis j = st.basis j ∧ st'.grids j = st.grids j ∧ st'.tensors j = st.tensors j := by
  obtain ⟨_, _, n1, n2, B, N, n3, n4, n5, n6, n7, n8⟩ := node_data h st hi hl hc
  have hlive : R.live i = true := by
    have hleaf : ¬ R.T.isLeaf i = true := fun hh => hl ((isLeaf_mem _ _).1 hh)
    simp [Run.live, hleaf]
  obtain ⟨pc, r, ne, x, b, g', c1, c2, c3, c4⟩ := core_ok h st hi hir hlive n2 n4 n5 n6 rfl (by
    intro row hr
    obtain ⟨k, hk, rfl⟩ := List.mem_map.1 hr
    exact n8 _ (unravelF_inBox (List.mem_range.1 hk)))
  refine ⟨_, ?_, c4, fun j hj => by simp [upd, hj]⟩
  unfold nodeStep
  have e : pc.shape.getD 1 0 = r := by rw [c2]; rfl
  simp only [n3, n7, c1, e, bind, Except.bind]
  rw [← n1]
  exact c3

end steps

end Verif.Pca
