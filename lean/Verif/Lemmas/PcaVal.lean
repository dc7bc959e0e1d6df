import Verif.Lemmas.PcaRun
import Verif.Lemmas.Gram

/-!
# The values of the approximation at the points of the grids
-/

namespace Verif.Pca

open Verif.Arr Verif.DimTree Verif.TreeBased Verif.Truncation Verif.Grids Finset

variable {R : Run}

/-- The sum against a delta. -/
theorem sumBox_eq_at {s t : List Nat} (ht : InBox s t) (F : List Nat → ℝ) :
    sumBox s (fun u => (if t = u then 1 else 0) * F u) = F t := by
  rw [← sumBox_pick ht F]
  exact sumBox_congr (fun u _ => mul_comm _ _)

theorem subst_self {d : Nat} (α idx : List Nat) (hd : idx.length = d) : subst idx α (entriesAt α idx) = idx := by
  apply List.ext_getElem
  · rw [length_subst]
  · intro k h1 h2
    have := subst_getD idx α (entriesAt α idx) h2
    rw [List.getD_eq_getElem _ _ h1] at this
    rw [this]
    split
    · rename_i hm
      rw [entriesAt_getD _ _ (List.idxOf_lt_length_of_mem hm), List.getElem_idxOf, List.getD_eq_getElem _ _ h2]
    · rw [List.getD_eq_getElem _ _ h2]

/-- Two successive substitutions at disjoint dimensions. -/
theorem subst_subst {idx α β u v : List Nat} (hu : u.length = α.length) (hdis : α.Disjoint β) :
    subst (subst idx α u) β v = subst idx (α ++ β) (u ++ v) := by
  apply List.ext_getElem
  · simp [length_subst]
  · intro k h1 h2
    have hk : k < idx.length := by simpa [length_subst] using h1
    have e1 := subst_getD (subst idx α u) β v (k := k) (by rw [length_subst]; exact hk)
    have e2 := subst_getD idx (α ++ β) (u ++ v) hk
    rw [List.getD_eq_getElem _ _ h1] at e1
    rw [List.getD_eq_getElem _ _ h2] at e2
    rw [e1, e2, subst_getD _ _ _ hk]
    by_cases ha : k ∈ α
    · have hb : k ∉ β := fun hb => hdis ha hb
      rw [if_neg hb, if_pos ha, if_pos (List.mem_append.2 (.inl ha)), List.idxOf_append_of_mem ha, List.getD_eq_getElem?_getD,
        List.getD_eq_getElem?_getD, List.getElem?_append_left (by rw [hu]; exact List.idxOf_lt_length_of_mem ha)]
    · by_cases hb : k ∈ β
      · rw [if_pos hb, if_pos (List.mem_append.2 (.inr hb)), List.idxOf_append_of_notMem ha, ← hu, List.getD_eq_getElem?_getD,
          List.getD_eq_getElem?_getD, List.getElem?_append_right (by omega), Nat.add_sub_cancel_left]
      · rw [if_neg hb, if_neg ha, if_neg (by simp [ha, hb])]

section val

variable {x : TBT ℝ} {st : St} {r : Nat} {V : Nat → List Nat → List Nat → ℝ} (h : RunOk R) (hd : Done R x st r)
  (hsh : Shaped x R.T R.live (fun i => (st.grids i).length) (fun c => R.shape.getD (dimOf R.T c) 0) []) (hV : IsValue x V)
include h hd hsh hV

theorem wf_x : WF x := hsh.wf h.valid h.order

theorem shape_x : x.shape = R.shape := by
  rw [hsh.shapeEq h.valid h.order]
  apply List.ext_getElem
  · simp [h.len]
  · intro k h1 h2
    rw [List.getElem_map]
    have hk : k < R.T.dim2ind.length := by simpa using h1
    have := dimOf_getD h.valid hk
    rw [List.getD_eq_getElem _ _ hk] at this
    rw [this, List.getD_eq_getElem _ _ h2]

/-- The values of a node from the values of its children. -/
theorem node_sum {i : Nat} (hi : IsNode R.T i) (hl : ¬ i ∈ R.T.dim2ind) (idx e : List Nat) (hidx : InBox R.shape idx) :
    V i idx e = sumBox (msOf R st i) (fun s => childProd x V (R.T.children i) idx s * (st.tensors i).get (s ++ e)) := by
  have hleaf : ¬ R.T.isLeaf i = true := fun hh => hl ((isLeaf_mem _ _).1 hh)
  have ht : x.tree = R.T := hsh.tree
  rw [hV.node i (ht ▸ hi) (ht ▸ hl), ht]
  have hms : (R.T.children i).map (childSize x) = msOf R st i := by
    rw [msOf_node st hleaf]
    apply List.map_congr_left
    intro c hc
    have he := (mem_children i c hi).1 hc
    have hnr : ¬ IsRoot R.T c := fun hh => hh.2 i he
    rw [hsh.childSize h.valid h.order he.2.1 hnr]
    split
    · rfl
    · rename_i hlv
      rw [((hd.node c he.2.1 hnr).off hlv).2.2]
      simp [gridCol]
  rw [childSum_box, hms, hd.eq]
  intro c hc ha
  have he := (mem_children i c hi).1 hc
  have hnr : ¬ IsRoot R.T c := fun hh => hh.2 i he
  have hact := hsh.active h.valid h.order he.2.1
  rw [hsh.childSize h.valid h.order he.2.1 hnr, ← hact, if_neg ha, ht]
  have hcl : c ∈ R.T.dim2ind := by
    have := (wf_x h hd hsh hV).inactive_leaf (ht ▸ he.2.1) ha
    rwa [ht] at this
  exact ((inBox_iff_getD _ _).1 hidx).2 _ (dimOf_lt' h hcl)

/-- The values of a node without tensor. -/
theorem childVal_off {c : Nat} (hc : IsNode R.T c) (hlv : ¬ R.live c = true) (idx : List Nat) (k : Nat) :
    childVal x V c idx k = if idx.getD (dimOf R.T c) 0 = k then 1 else 0 := by
  unfold childVal
  rw [hsh.active h.valid h.order hc, if_neg hlv, hsh.tree]

theorem childVal_on {c : Nat} (hc : IsNode R.T c) (hlv : R.live c = true) (idx : List Nat) (k : Nat) :
    childVal x V c idx k = V c idx [k] := by
  unfold childVal
  rw [hsh.active h.valid h.order hc, if_pos hlv]

/-- The value of a leaf. -/
theorem leaf_val {c : Nat} (hc : c ∈ R.T.dim2ind) (hlv : R.live c = true) (idx : List Nat) (k : Nat) :
    V c idx [k] = (st.tensors c).get [idx.getD (dimOf R.T c) 0, k] := by
  have ht : x.tree = R.T := hsh.tree
  rw [hV.leaf c (ht ▸ hc) (by rw [hsh.active h.valid h.order ((h.valid.leaves c).1 hc).1]; exact hlv), ht, hd.eq]

omit h hd hsh hV in
/-- The product of the values of the children at a point of the product of the grids. -/
theorem childProd_at (D : Nat → List Nat) (grids : Nat → List (List Nat)) (basis : Nat → Arr ℝ) (shape : List Nat) (cs : List Nat) {idx : List Nat}
    (hrow : ∀ c ∈ cs, ∀ row ∈ grids c, InBox (entriesAt (D c) shape) row)
    (hc : ∀ c ∈ cs, ∀ a, a < (grids c).length → entriesAt (D c) idx = (grids c).getD a [] →
      ∀ k, k < (grids c).length → childVal x V c idx k = (basis c).get [a, k]) :
    ∀ t s, InBox (cs.map (fun c => (grids c).length)) t → InBox (cs.map (fun c => (grids c).length)) s →
      entriesAt (cs.flatMap D) idx = gridPoint (cs.map grids) t → childProd x V cs idx s = kprod basis cs t s := by
  induction cs with
  | nil => intro t s ht hs _; cases ht; cases hs; rfl
  | cons c cs ih =>
    intro t s ht hs he
    rw [List.map_cons] at ht hs
    match t, s, ht, hs with
    | a :: t, k :: s, .cons ha ht, .cons hk hs =>
      rw [List.map_cons, gridPoint_cons, entriesAt_flatMap, List.flatMap_cons, ← entriesAt_flatMap] at he
      have hlen : (entriesAt (D c) idx).length = ((grids c).getD a []).length := by
        rw [length_entriesAt, List.getD_eq_getElem _ _ ha, (hrow c (by simp) _ (List.getElem_mem _)).length_eq, length_entriesAt]
      obtain ⟨e1, e2⟩ := List.append_inj he hlen
      rw [kprod_cons, ← ih (fun c' hc' => hrow c' (by simp [hc'])) (fun c' hc' => hc c' (by simp [hc'])) t s ht hs e2,
        ← hc c (by simp) a ha e1 k hk]
      unfold childProd
      rw [List.zipWith_cons_cons, List.prod_cons]

/-- The functions of a node at the points of its grid. -/
theorem childVal_grid : ∀ i, IsNode R.T i → ¬ IsRoot R.T i → ∀ idx, InBox R.shape idx → ∀ a, a < (st.grids i).length →
    entriesAt (R.D i) idx = (st.grids i).getD a [] → ∀ k, k < (st.grids i).length → childVal x V i idx k = (st.basis i).get [a, k] := by
  refine h.valid.induct ?_
  intro i hi ih hir idx hidx a ha hent k hk
  have hok := hd.node i hi hir
  by_cases hlv : R.live i = true
  · obtain ⟨q, s1, _⟩ := hok.on hlv
    obtain ⟨J, j1, j2, j3⟩ := s1.sel
    rw [s1.grid] at ha hk
    rw [childVal_on h hd hsh hV hi hlv, j3 a k ha hk]
    rw [j2 a ha] at hent
    by_cases hl : i ∈ R.T.dim2ind
    · have hleaf := (isLeaf_mem R.T i).2 hl
      rw [leaf_val h hd hsh hV hl hlv]
      have hJ := j1 a ha
      rw [BfOf_leaf st hleaf]
      rw [sumBox_eq_at hJ (fun s => (st.tensors i).get (s ++ [k]))]
      rw [ptOf_leaf st hleaf] at hent
      dsimp only at hent ⊢
      rw [← hent, leaf_D h hl]
      rfl
    · have hleaf : ¬ R.T.isLeaf i = true := fun hh => hl ((isLeaf_mem _ _).1 hh)
      rw [node_sum h hd hsh hV hi hl idx [k] hidx]
      apply sumBox_congr
      intro s hs
      congr 1
      rw [BfOf_node st hleaf]
      have hJ := j1 a ha
      rw [msOf_node st hleaf] at hs hJ
      have hcn : ∀ c ∈ R.T.children i, Edge R.T i c := fun c hc => (mem_children i c hi).1 hc
      refine childProd_at R.D st.grids st.basis R.shape (R.T.children i) (fun c hc => (hd.node c (hcn c hc).2.1 (fun hh => hh.2 i (hcn c hc))).rows)
        (fun c hc a' ha' he' k' hk' => ih c (hcn c hc) (fun hh => hh.2 i (hcn c hc)) idx hidx a' ha' he' k' hk') _ _ hJ hs ?_
      rw [← h.dims.2 i hi (by simpa using hleaf), hent, ptOf_node st hleaf]
  · obtain ⟨_, o2, o3⟩ := hok.off hlv
    have hl : i ∈ R.T.dim2ind := by
      by_contra hl
      have hleaf : ¬ R.T.isLeaf i = true := fun hh => hl ((isLeaf_mem _ _).1 hh)
      exact hlv (by simp [Run.live, hleaf])
    rw [childVal_off h hd hsh hV hi hlv, o2]
    rw [o3, leaf_D h hl] at hent
    rw [o3] at ha
    have ha' : a < R.shape.getD (dimOf R.T i) 0 := by simpa [gridCol] using ha
    rw [List.getD_eq_getElem _ _ ha] at hent
    simp only [gridCol, List.getElem_map, List.getElem_range, entriesAt, List.map_cons, List.map_nil, List.cons.injEq, and_true] at hent
    rw [hent]
    rfl

/-- The approximation interpolates the function at the points of the grid of the root. -/
theorem root_interp {t idx : List Nat} (ht : InBox (msOf R st r) t) (hidx : InBox R.shape idx)
    (he : entriesAt (R.D r) idx = ptOf R st r t) : V r idx [] = R.f idx := by
  have hrl := Shaped.root_internal' h.valid h.order hd.root
  have hleaf : ¬ R.T.isLeaf r = true := fun hh => hrl ((isLeaf_mem _ _).1 hh)
  have hcn : ∀ c ∈ R.T.children r, Edge R.T r c := fun c hc => (mem_children r c hd.root.1).1 hc
  rw [node_sum h hd hsh hV hd.root.1 hrl idx [] hidx]
  have h1 := hd.val t idx ht hidx
  rw [← he, subst_self (d := idx.length) _ _ rfl] at h1
  rw [← h1]
  apply sumBox_congr
  intro s hs
  rw [List.append_nil]
  congr 1
  rw [BfOf_node st hleaf]
  have ht' := ht
  rw [msOf_node st hleaf] at hs ht'
  refine childProd_at R.D st.grids st.basis R.shape (R.T.children r) (fun c hc => (hd.node c (hcn c hc).2.1 (fun hh => hh.2 r (hcn c hc))).rows)
    (fun c hc a' ha' he' k' hk' => childVal_grid h hd hsh hV c (hcn c hc).2.1 (fun hh => hh.2 r (hcn c hc)) idx hidx a' ha' he' k' hk') _ _ ht' hs ?_
  rw [← h.dims.2 r hd.root.1 (by simpa using hleaf), he, ptOf_node st hleaf]

/-! ### exactness -/

omit h hd hsh hV in
/-- The function is a combination of the functions of the node, with the coefficients obtained from the values at the points of its grid. -/
def Exact (R : Run) (x : TBT ℝ) (V : Nat → List Nat → List Nat → ℝ) (st : St) (C : Nat → Nat → ℝ) (i : Nat) : Prop :=
  ∀ idx, InBox R.shape idx → R.f idx = ∑ k ∈ range (st.grids i).length, childVal x V i idx k *
    ∑ a ∈ range (st.grids i).length, C k a * R.f (subst idx (R.D i) ((st.grids i).getD a []))

theorem childProd_indep (cs : List Nat) (hcs : ∀ c ∈ cs, IsNode R.T c) {idx idx' s : List Nat}
    (he : ∀ k, k ∈ cs.flatMap R.D → idx.getD k 0 = idx'.getD k 0) : childProd x V cs idx s = childProd x V cs idx' s := by
  have ht : x.tree = R.T := hsh.tree
  unfold childProd
  congr 1
  apply List.ext_getElem
  · simp
  · intro k h1 h2
    have hkl : k < cs.length := by simp at h1; omega
    simp only [List.getElem_zipWith]
    have hc := hcs cs[k] (List.getElem_mem _)
    generalize hck : cs[k] = c at hc ⊢
    have hmem : c ∈ cs := by rw [← hck]; exact List.getElem_mem _
    have hl : ∀ l ∈ x.tree.dim2ind, AncSelf x.tree c l → idx.getD (dimOf x.tree l) 0 = idx'.getD (dimOf x.tree l) 0 := by
      intro l hl hal
      rw [ht] at hl hal ⊢
      refine he _ (List.mem_flatMap.2 ⟨c, hmem, ?_⟩)
      exact (recDims_mem h.valid h.dims _ hc _).2 ⟨l, dim2ind_dimOf hl, hal⟩
    unfold childVal
    split
    · rename_i ha
      exact value_indep x (wf_x h hd hsh hV) hV _ (by rw [ht]; exact hc) ha hl _
    · rename_i ha
      rw [hl _ ((wf_x h hd hsh hV).inactive_leaf (by rw [ht]; exact hc) ha) .refl]

/-- The exactness at a list of nodes with disjoint dimensions. -/
theorem exact_chain (C : Nat → Arr ℝ) (cs : List Nat) (hcs : ∀ c ∈ cs, IsNode R.T c)
    (hrow : ∀ c ∈ cs, ∀ row ∈ st.grids c, InBox (entriesAt (R.D c) R.shape) row)
    (hdis : cs.Pairwise (fun c c' => (R.D c).Disjoint (R.D c')))
    (hex : ∀ c ∈ cs, Exact R x V st (fun k a => (C c).get [k, a]) c) : ∀ idx, InBox R.shape idx →
    R.f idx = sumBox (cs.map (fun c => (st.grids c).length)) (fun s => childProd x V cs idx s *
      sumBox (cs.map (fun c => (st.grids c).length)) (fun t => kprod C cs s t * R.f (subst idx (cs.flatMap R.D) (gridPoint (cs.map st.grids) t)))) := by
  induction cs with
  | nil =>
    intro idx hidx
    simp only [List.map_nil, sumBox, childProd, kprod, List.zipWith_nil_left, List.prod_nil, one_mul, List.flatMap_nil]
    congr 1
    exact (subst_self (d := idx.length) [] idx rfl).symm
  | cons c cs ih =>
    intro idx hidx
    obtain ⟨hdis1, hdis2⟩ := List.pairwise_cons.1 hdis
    have ih' := ih (fun c' hc' => hcs c' (by simp [hc'])) (fun c' hc' => hrow c' (by simp [hc'])) hdis2 (fun c' hc' => hex c' (by simp [hc']))
    obtain ⟨hDl, hDn⟩ := D_lt h (hcs c (by simp))
    have hdc : (R.D c).Disjoint (cs.flatMap R.D) := by
      intro k h1 h2
      obtain ⟨c', hc', h3⟩ := List.mem_flatMap.1 h2
      exact hdis1 c' hc' h1 h3
    have hsub : ∀ a, a < (st.grids c).length → InBox R.shape (subst idx (R.D c) ((st.grids c).getD a [])) ∧
        ((st.grids c).getD a []).length = (R.D c).length := by
      intro a ha
      have hr : InBox (entriesAt (R.D c) R.shape) ((st.grids c).getD a []) := by
        apply hrow c (by simp)
        rw [List.getD_eq_getElem _ _ ha]; exact List.getElem_mem _
      exact ⟨(subst_full hDl hDn hidx hr).1, by rw [hr.length_eq, length_entriesAt]⟩
    have h2 : ∀ a, a < (st.grids c).length → R.f (subst idx (R.D c) ((st.grids c).getD a [])) =
        sumBox (cs.map (fun c => (st.grids c).length)) (fun s => childProd x V cs idx s *
          sumBox (cs.map (fun c => (st.grids c).length)) (fun t => kprod C cs s t *
            R.f (subst idx ((c :: cs).flatMap R.D) (gridPoint ((c :: cs).map st.grids) (a :: t))))) := by
      intro a ha
      rw [ih' _ (hsub a ha).1]
      apply sumBox_congr
      intro s hs
      congr 1
      · apply childProd_indep h hd hsh hV cs (fun c' hc' => hcs c' (by simp [hc']))
        intro k hk
        have hkn : k ∉ R.D c := fun hh => hdc hh hk
        have hkl : k < idx.length := by
          obtain ⟨c', hc', h3⟩ := List.mem_flatMap.1 hk
          rw [hidx.length_eq]
          exact (D_lt h (hcs c' (by simp [hc']))).1 k h3
        rw [subst_getD _ _ _ hkl, if_neg hkn]
      · apply sumBox_congr
        intro t _
        rw [subst_subst (hsub a ha).2 hdc, List.flatMap_cons, List.map_cons, gridPoint_cons]
    rw [hex c (by simp) idx hidx, List.map_cons]
    simp only [sumBox]
    refine sum_congr rfl (fun k hk => ?_)
    rw [mul_sum]
    rw [sum_congr rfl (fun a ha => by rw [h2 a (mem_range.1 ha)])]
    -- both sides as sums over s, a, t
    have hL : ∀ a, childVal x V c idx k * ((C c).get [k, a] * sumBox (cs.map (fun c => (st.grids c).length)) (fun s => childProd x V cs idx s *
          sumBox (cs.map (fun c => (st.grids c).length)) (fun t => kprod C cs s t *
            R.f (subst idx ((c :: cs).flatMap R.D) (gridPoint ((c :: cs).map st.grids) (a :: t)))))) =
        sumBox (cs.map (fun c => (st.grids c).length)) (fun s => childProd x V (c :: cs) idx (k :: s) *
          sumBox (cs.map (fun c => (st.grids c).length)) (fun t => kprod C (c :: cs) (k :: s) (a :: t) *
            R.f (subst idx ((c :: cs).flatMap R.D) (gridPoint ((c :: cs).map st.grids) (a :: t))))) := by
      intro a
      rw [← mul_assoc, ← sumBox_mul_left]
      apply sumBox_congr
      intro s _
      rw [show childProd x V (c :: cs) idx (k :: s) = childVal x V c idx k * childProd x V cs idx s by
        unfold childProd; rw [List.zipWith_cons_cons, List.prod_cons]]
      rw [sumBox_congr (f := fun t => kprod C (c :: cs) (k :: s) (a :: t) * _)
        (g := fun t => (C c).get [k, a] * (kprod C cs s t *
            R.f (subst idx ((c :: cs).flatMap R.D) (gridPoint ((c :: cs).map st.grids) (a :: t))))) (fun t _ => by rw [kprod_cons]; ring),
        sumBox_mul_left]
      ring
    rw [sum_congr rfl (fun a _ => hL a), sum_sumBox_comm]
    apply sumBox_congr
    intro s _
    rw [mul_sum]

/-- The exactness at the children of a node. -/
theorem exact_children {i : Nat} (hi : IsNode R.T i) (hl : ¬ i ∈ R.T.dim2ind)
    (hex : ∀ c ∈ R.T.children i, ∃ C, InvBy (st.grids c).length (fun a k => (st.basis c).get [a, k]) C ∧ Exact R x V st C c)
    {idx : List Nat} (hidx : InBox R.shape idx) (W : List Nat → ℝ)
    (hW : ∀ t, InBox (msOf R st i) t → R.f (subst idx (R.D i) (ptOf R st i t)) = sumBox (msOf R st i) (fun s => BfOf R st i t s * W s)) :
    R.f idx = sumBox (msOf R st i) (fun s => childProd x V (R.T.children i) idx s * W s) := by
  have hleaf : ¬ R.T.isLeaf i = true := fun hh => hl ((isLeaf_mem _ _).1 hh)
  have hcn : ∀ c ∈ R.T.children i, Edge R.T i c := fun c hc => (mem_children i c hi).1 hc
  have hN : ∀ c, ∃ C : Nat → Nat → ℝ, c ∈ R.T.children i → InvBy (st.grids c).length (fun a k => (st.basis c).get [a, k]) C ∧ Exact R x V st C c := by
    intro c
    by_cases hcc : c ∈ R.T.children i
    · obtain ⟨N, hN⟩ := hex c hcc; exact ⟨N, fun _ => hN⟩
    · exact ⟨fun _ _ => 0, fun hh => absurd hh hcc⟩
  choose N hN using hN
  have hdis : (R.T.children i).Pairwise (fun c c' => (R.D c).Disjoint (R.D c')) := by
    obtain ⟨lv, hlv⟩ := exists_level h.valid hi
    refine List.Pairwise.imp_of_mem ?_ (nodup_children (T := R.T) i)
    intro a b ha hb hne
    exact recDims_disjoint h.valid h.dims (.child hlv (hcn a ha)) (.child hlv (hcn b hb)) hne
  have h1 := exact_chain h hd hsh hV (fun c => ⟨[], fun ij => N c (ij.getD 0 0) (ij.getD 1 0)⟩) (R.T.children i) (fun c hc => (hcn c hc).2.1)
    (fun c hc => (hd.node c (hcn c hc).2.1 (fun hh => hh.2 i (hcn c hc))).rows) hdis (fun c hc => (hN c hc).2) idx hidx
  rw [h1, msOf_node st hleaf]
  apply sumBox_congr
  intro s hs
  congr 1
  rw [msOf_node st hleaf, ptOf_node st hleaf, BfOf_node st hleaf, h.dims.2 i hi (by simpa using hleaf)] at hW
  rw [sumBox_congr (fun t ht => by rw [hW t ht, ← sumBox_mul_left]), sumBox_comm, ← sumBox_eq_at hs W]
  apply sumBox_congr
  intro s' hs'
  rw [← kprod_inv (fun c => ⟨[], fun ij => N c (ij.getD 0 0) (ij.getD 1 0)⟩) st.basis (fun c => (st.grids c).length) (R.T.children i)
    (fun c hcc i' j' hi' hj' => (hN c hcc).1.left i' j' hi' hj') s s' hs hs', ← sumBox_mul_right]
  exact sumBox_congr (fun t _ => by ring)

/-- The exactness at a node. -/
theorem exact_node (hres : ∀ i, IsNode R.T i → ¬ IsRoot R.T i → R.live i = true → ∀ t, R.tolAt i = some t → Resolved R (R.D i) (R.draw i) t) :
    ∀ i, IsNode R.T i → ¬ IsRoot R.T i → ∃ C, InvBy (st.grids i).length (fun a k => (st.basis i).get [a, k]) C ∧ Exact R x V st C i := by
  refine h.valid.induct ?_
  intro i hi ih hir
  have hok := hd.node i hi hir
  by_cases hlv : R.live i = true
  · obtain ⟨q, s1, _, s3⟩ := hok.on hlv
    obtain ⟨J, j1, j2, j3⟩ := s1.sel
    obtain ⟨C, hC⟩ := s1.inv
    rw [s1.grid]
    refine ⟨C, hC, fun idx hidx => ?_⟩
    obtain ⟨w, hw⟩ := s3 (hres i hi hir hlv) idx hidx
    -- the coefficients
    have hq : ∀ k, k < q → w k = ∑ a ∈ range q, C k a * R.f (subst idx (R.D i) ((st.grids i).getD a [])) := by
      refine hC.apply (x := w) (y := fun a => R.f (subst idx (R.D i) ((st.grids i).getD a []))) (fun a ha => ?_)
      rw [j2 a ha, hw _ (j1 a ha)]
      exact sum_congr rfl (fun k hk => by rw [j3 a k ha (mem_range.1 hk)])
    rw [s1.grid]
    rw [sum_congr rfl (fun k hk => by rw [← hq k (mem_range.1 hk), childVal_on h hd hsh hV hi hlv])]
    by_cases hl : i ∈ R.T.dim2ind
    · have hleaf := (isLeaf_mem R.T i).2 hl
      have hb : InBox (msOf R st i) [idx.getD (dimOf R.T i) 0] := by
        rw [msOf_leaf st hleaf]
        exact .cons (((inBox_iff_getD _ _).1 hidx).2 _ (dimOf_lt' h hl)) .nil
      have h1 := hw _ hb
      rw [ptOf_leaf st hleaf, leaf_D h hl] at h1
      have e : subst idx [dimOf R.T i] [idx.getD (dimOf R.T i) 0] = idx := subst_self (d := idx.length) [dimOf R.T i] idx rfl
      dsimp only at h1
      rw [e] at h1
      rw [h1]
      refine sum_congr rfl (fun k _ => ?_)
      rw [leaf_val h hd hsh hV hl hlv, BfOf_leaf st hleaf, sumBox_eq_at hb (fun s => (st.tensors i).get (s ++ [k]))]
      rfl
    · have hcn : ∀ c ∈ R.T.children i, Edge R.T i c := fun c hc => (mem_children i c hi).1 hc
      rw [exact_children h hd hsh hV hi hl (fun c hc => ih c (hcn c hc) (fun hh => hh.2 i (hcn c hc))) hidx
        (fun s => ∑ k ∈ range q, (st.tensors i).get (s ++ [k]) * w k) (fun t ht => by
          rw [hw t ht]
          rw [sum_congr rfl (fun k _ => (sumBox_mul_right _ _ _).symm), sum_sumBox_comm]
          apply sumBox_congr
          intro s _
          rw [mul_sum]
          exact sum_congr rfl (fun k _ => by ring))]
      rw [sum_congr rfl (fun k _ => by rw [node_sum h hd hsh hV hi hl idx [k] hidx, ← sumBox_mul_right]), sum_sumBox_comm]
      apply sumBox_congr
      intro s _
      rw [mul_sum]
      exact sum_congr rfl (fun k _ => by ring)
  · obtain ⟨_, o2, o3⟩ := hok.off hlv
    have hl : i ∈ R.T.dim2ind := by
      by_contra hl
      have hleaf : ¬ R.T.isLeaf i = true := fun hh => hl ((isLeaf_mem _ _).1 hh)
      exact hlv (by simp [Run.live, hleaf])
    have e : (st.grids i).length = R.shape.getD (dimOf R.T i) 0 := by rw [o3]; simp [gridCol]
    rw [e, o2]
    refine ⟨_, eye_inv _, fun idx hidx => ?_⟩
    have hb := ((inBox_iff_getD _ _).1 hidx).2 _ (dimOf_lt' h hl)
    rw [e]
    rw [sum_congr rfl (fun k _ => by rw [childVal_off h hd hsh hV hi hlv])]
    simp only [ite_mul, one_mul, zero_mul]
    rw [sum_ite_eq, if_pos (mem_range.2 hb), sum_ite_eq, if_pos (mem_range.2 hb), o3, leaf_D h hl]
    have : (gridCol (R.shape.getD (dimOf R.T i) 0)).getD (idx.getD (dimOf R.T i) 0) [] = [idx.getD (dimOf R.T i) 0] := by
      rw [List.getD_eq_getElem (gridCol _) _ (by simpa [gridCol] using hb)]
      simp [gridCol]
    rw [this]
    congr 1
    exact (subst_self (d := idx.length) [dimOf R.T i] idx rfl).symm

/-- The approximation is the function if the parameters of the nodes resolve it. -/
theorem root_exact (hres : ∀ i, IsNode R.T i → ¬ IsRoot R.T i → R.live i = true → ∀ t, R.tolAt i = some t → Resolved R (R.D i) (R.draw i) t)
    {idx : List Nat} (hidx : InBox R.shape idx) : V r idx [] = R.f idx := by
  have hrl := Shaped.root_internal' h.valid h.order hd.root
  have hcn : ∀ c ∈ R.T.children r, Edge R.T r c := fun c hc => (mem_children r c hd.root.1).1 hc
  rw [exact_children h hd hsh hV hd.root.1 hrl (fun c hc => exact_node h hd hsh hV hres c (hcn c hc).2.1 (fun hh => hh.2 r (hcn c hc))) hidx
    (fun s => (st.tensors r).get s) (fun t ht => (hd.val t idx ht hidx).symm), node_sum h hd hsh hV hd.root.1 hrl idx [] hidx]
  exact sumBox_congr (fun s _ => by rw [List.append_nil])

end val

end Verif.Pca
