import Verif.Lemmas.Gram
import Verif.Lemmas.Shaped
import Verif.Model.TreeDot
import Verif.Props.TreeWitness

/-!
# Scalar products of tree-based tensors (C38)
-/

namespace Verif.TreeBased

open Verif.Arr Verif.DimTree Finset

variable {R : Type}

/-! ### products on the first axes -/

theorem entriesAt_lead (s e : List Nat) : entriesAt (List.range s.length) (s ++ e) = s := by
  unfold entriesAt
  apply List.ext_getElem (by simp)
  intro k h1 h2
  simp only [List.getElem_map, List.getElem_range]
  rw [List.getD_append _ _ _ _ h2, List.getD_eq_getElem _ _ h2]

theorem subst_lead (t t' e : List Nat) (h : t.length = t'.length) :
    subst (t ++ e) (List.range t.length) t' = t' ++ e := by
  apply ext_getD (by rw [FullTensor.subst_length]; simp [h])
  intro k hk
  rw [FullTensor.subst_length] at hk
  rw [FullTensor.getD_subst _ _ _ _ hk]
  by_cases hkt : k < t.length
  · rw [if_pos (List.mem_range.2 hkt), List.getD_append _ _ _ _ (by omega)]
    congr 1
    have : k < (List.range t.length).length := by simpa using hkt
    conv_lhs => rw [← List.getElem_range this]
    exact List.nodup_range.idxOf_getElem k this
  · rw [if_neg (fun h => hkt (List.mem_range.1 h)), List.getD_append_right _ _ _ _ (by omega),
      List.getD_append_right _ _ _ _ (by omega), h]

/-- `tensor_matrix_product` on the first axes. -/
theorem tmp_lead [CommSemiring R] (A : Arr R) (ms : List (Arr R)) (s E : List Nat) (hA : A.shape = s ++ E)
    (hm : List.Forall₂ (fun (M : Arr R) n => ∃ m, M.shape = [m, n]) ms s) :
    ∃ y, FullTensor.tensorMatrixProduct A ms (some (List.range s.length)) = .ok y ∧
      y.shape = ms.map (fun M => M.shape.getD 0 0) ++ E ∧
      ∀ t e, InBox (ms.map (fun M => M.shape.getD 0 0)) t → InBox E e →
        y.get (t ++ e) = sumBox s (fun t' => A.get (t' ++ e) *
          (List.zipWith (fun (M : Arr R) (p : Nat × Nat) => M.get [p.1, p.2]) ms (t.zip t')).prod) := by
  have hlen := hm.length_eq
  have hfit : List.Forall₂ (fun M d => FullTensor.Fits A M d) ms (List.range s.length) := by
    rw [List.forall₂_iff_get] at hm ⊢
    refine ⟨by simpa using hlen, fun k h1 h2 => ?_⟩
    obtain ⟨m, hm'⟩ := hm.2 k h1 (by omega)
    have hk : k < s.length := by omega
    simp only [List.get_eq_getElem, List.getElem_range] at hm' ⊢
    refine ⟨by simp [Arr.order, hA]; omega, m, ?_⟩
    rw [hm', hA, List.getD_append _ _ _ _ hk, List.getD_eq_getElem _ _ hk]
  obtain ⟨y, h1, h2, h3⟩ := FullTensor.tensorMatrixProduct_spec A ms (List.range s.length) List.nodup_range hfit
  have hsh : y.shape = ms.map (fun M => M.shape.getD 0 0) ++ E := by
    rw [h2, hA]; exact subst_lead s _ E (by simp [hlen])
  refine ⟨y, h1, hsh, fun t e ht he => ?_⟩
  have htl : t.length = s.length := by rw [ht.length_eq]; simp [hlen]
  rw [h3 (t ++ e) (by rw [hsh]; exact (inBox_append (by simpa using ht.length_eq)).2 ⟨ht, he⟩), hA, entriesAt_lead]
  apply sumBox_congr
  intro t' ht'
  rw [← htl, entriesAt_lead, subst_lead t t' e (by rw [htl, ht'.length_eq])]

theorem dropAxes_lead (s E : List Nat) : dropAxes (List.range s.length) (s ++ E) = E := by
  rw [dropAxes_eq]
  unfold FullTensor.setdiffRange applyPerm
  have h1 : (List.range (s ++ E).length).filter (fun k => !(List.range s.length).contains k) =
      (List.range E.length).map (fun k => s.length + k) := by
    rw [List.length_append, List.range_add, List.filter_append]
    have q1 : (List.range s.length).filter (fun k => !(List.range s.length).contains k) = [] := by
      rw [List.filter_eq_nil_iff]
      intro k hk; simpa using List.mem_range.1 hk
    have q2 : ((List.range E.length).map (fun k => s.length + k)).filter (fun k => !(List.range s.length).contains k) =
        (List.range E.length).map (fun k => s.length + k) := by
      rw [List.filter_eq_self]
      intro k hk
      obtain ⟨j, _, rfl⟩ := List.mem_map.1 hk
      simp
    rw [q1, q2, List.nil_append]
  rw [h1, List.map_map]
  apply List.ext_getElem (by simp)
  intro k h1 h2
  rw [List.getElem_map, List.getElem_range]
  show List.getD _ (s.length + k) 0 = _
  rw [List.getD_append_right _ _ _ _ (by omega), List.getD_eq_getElem _ _ (by omega)]
  simp

theorem mergeIdx_lead (t e : List Nat) (n : Nat) (hn : n = t.length + e.length) :
    mergeIdx (List.range t.length) t 0 n e = t ++ e := by
  have := mergeIdx_self (ax := List.range t.length) (idx := t ++ e) (s := t) (entriesAt_lead t e)
  rw [dropAxes_lead, List.length_append] at this
  rw [hn]; exact this

/-- `tensordot` on the first axes of two arrays. -/
theorem tensordot_lead [CommSemiring R] (A B : Arr R) (s E F : List Nat) (hA : A.shape = s ++ E) (hB : B.shape = s ++ F) :
    ∃ g, FullTensor.tensordotT A B (List.range s.length) (List.range s.length) = .ok g ∧ g.shape = E ++ F ∧
      ∀ e f, e.length = E.length → f.length = F.length →
        g.get (e ++ f) = sumBox s (fun t => A.get (t ++ e) * B.get (t ++ f)) := by
  have e1 : ∀ F, applyPerm (List.range s.length) (s ++ F) = s := fun F => entriesAt_lead s F
  refine ⟨A.tensordot B (List.range s.length) (List.range s.length), ?_, ?_, ?_⟩
  · unfold FullTensor.tensordotT
    rw [if_pos (by rw [hA, hB, e1, e1])]
  · simp only [Arr.tensordot]
    rw [hA, hB, dropAxes_lead, dropAxes_lead]
  · intro e f he hf
    simp only [Arr.tensordot]
    rw [hA, e1, dropAxes_lead]
    apply sumBox_congr
    intro t ht
    rw [List.take_left' he, List.drop_left' he, ← ht.length_eq, mergeIdx_lead, mergeIdx_lead]
    · simp [Arr.order, hB, hf, ht.length_eq]
    · simp [Arr.order, hA, he, ht.length_eq]

/-- A reshape to the present shape. -/
theorem reshape_same (A : Arr R) : ∃ B, FullTensor.reshape A A.shape = .ok B ∧ B ≃ₐ A := by
  refine ⟨A.reshapeF A.shape, by simp [FullTensor.reshape], rfl, fun idx hi => ?_⟩
  show A.get (unravelF A.shape (ravelF A.shape idx)) = _
  rw [unravelF_ravelF (show InBox A.shape idx from hi)]

/-! ### the loops -/

section loops

variable [CommSemiring R] (x y : TBT R) (hx : WF x) (hy : WF y) (ht : y.tree = x.tree)
  (hact : ∀ i, IsNode x.tree i → y.active i = x.active i)
  (V W : Nat → List Nat → List Nat → R) (hV : IsValue x V) (hW : IsValue y W) (D : Nat → List Nat)
  (hD : RecDims x.tree D (IsNode x.tree)) (M : Nat → Nat → Nat → R) (u v : List Nat) (hu : InBox x.shape u)
  (hv : InBox y.shape v)

/-- The matrix of a node is its Gram matrix. -/
def GoodG (x y : TBT R) (V W : Nat → List Nat → List Nat → R) (D : Nat → List Nat) (M : Nat → Nat → Nat → R)
    (u v : List Nat) (out : Nat → Arr R) (c : Nat) : Prop :=
  (out c).shape = [childSize x c, childSize y c] ∧
  ∀ s s', s < childSize x c → s' < childSize y c → (out c).get [s, s'] = cgram x y V W D M c s s' u v

include hx hy ht hact hV hW hD hu hv in
theorem dotLeaf_spec (out : Nat → Arr R) {c : Nat} (hc : c ∈ x.tree.dim2ind)
    (hs : (out c).shape = [x.leafSize c, y.leafSize c])
    (hg : ∀ a b, a < x.leafSize c → b < y.leafSize c → (out c).get [a, b] = M (dimOf x.tree c) a b) :
    ∃ g, dotLeaf x y out c = .ok (upd out c g) ∧ GoodG x y V W D M u v (upd out c g) c := by
  have hcn := ((hx.valid.leaves c).1 hc).1
  have hcy : c ∈ y.tree.dim2ind := by rw [ht]; exact hc
  have hd : D c = [dimOf x.tree c] := by
    rw [hD.1 c ((isLeaf_mem _ _).2 hc), initDims_spec hx.valid (dimOf x.tree c) c (dim2ind_dimOf hc)]
  unfold GoodG
  simp only [upd, if_true]
  by_cases ha : x.active c = true
  · have hb : y.active c = true := by rw [hact c hcn]; exact ha
    obtain ⟨n, r1, hxs⟩ := hx.leaf c hc ha
    obtain ⟨m, r2, hys⟩ := hy.leaf c hcy hb
    have l1 : x.leafSize c = n := by unfold TBT.leafSize; rw [if_pos ha, hxs]; rfl
    have l2 : y.leafSize c = m := by unfold TBT.leafSize; rw [if_pos hb, hys]; rfl
    have d1 : x.lastDim c = r1 := lastDim_of_shape (s := [n]) hxs
    have d2 : y.lastDim c = r2 := lastDim_of_shape (s := [m]) hys
    have c1 : childSize x c = r1 := by unfold childSize; rw [if_pos ha, d1]
    have c2 : childSize y c = r2 := by unfold childSize; rw [if_pos hb, d2]
    rw [l1, l2] at hs hg
    obtain ⟨tmp, t1, t2, t3⟩ := tmp_lead (y.tensors c) [out c] [m] [r2] hys (by simp [hs])
    have t2' : tmp.shape = [n] ++ [r2] := by rw [t2]; simp [hs]
    obtain ⟨g, g1, g2, g3⟩ := tensordot_lead (x.tensors c) tmp [n] [r1] [r2] hxs t2'
    obtain ⟨g', q1, q2, q3⟩ := reshape_same g
    refine ⟨g', ?_, ?_, ?_⟩
    · unfold dotLeaf
      rw [if_pos ha]
      have t1' : FullTensor.tensorMatrixProduct (y.tensors c) [out c] (some [0]) = .ok tmp := t1
      have g1' : FullTensor.tensordotT (x.tensors c) tmp [0] [0] = .ok g := g1
      have q1' : FullTensor.reshape g [x.lastDim c, y.lastDim c] = .ok g' := by rw [d1, d2, ← q1, g2]; rfl
      simp only [t1', bind, Except.bind, g1', q1']
    · rw [q2, g2, c1, c2]; rfl
    · intro s s' h1 h2
      rw [c1] at h1; rw [c2] at h2
      rw [cgram_active x y V W D M ha hb]
      unfold gram
      rw [hd]
      simp only [mSum]
      have hidx : InBox g'.shape [s, s'] := by rw [q2, g2]; simp [h1, h2]
      rw [q3 _ hidx, show [s, s'] = [s] ++ [s'] from rfl, g3 [s] [s'] rfl rfl]
      have sx : x.shape.getD (dimOf x.tree c) 0 = n := by rw [shape_getD hc, l1]
      have sy : y.shape.getD (dimOf x.tree c) 0 = m := by
        have := shape_getD (x := y) hcy; rw [ht] at this; rw [this, l2]
      rw [sx, sy, sumBox_singleton]
      refine sum_congr rfl (fun a ha' => ?_)
      have ha'' := mem_range.1 ha'
      have := t3 [a] [s'] (by simp [hs, ha'']) (by simp [h2])
      simp only [List.singleton_append] at this ⊢
      rw [this, sumBox_singleton, mul_sum]
      refine sum_congr rfl (fun b hb' => ?_)
      have hb'' := mem_range.1 hb'
      simp only [List.zip_cons_cons, List.zip_nil_right, List.zipWith_cons_cons, List.zipWith_nil_right, List.prod_cons,
        List.prod_nil, mul_one, List.singleton_append]
      rw [hg a b ha'' hb'', hV.leaf c hc ha, hW.leaf c hcy hb]
      have hlt := dimOf_lt hc
      have e1 : (u.set (dimOf x.tree c) a).getD (dimOf x.tree c) 0 = a := by
        rw [getD_set, if_pos ⟨rfl, by rw [hu.length_eq]; simpa [TBT.shape] using hlt⟩]
      have e2 : (v.set (dimOf x.tree c) b).getD (dimOf x.tree c) 0 = b := by
        rw [getD_set, if_pos ⟨rfl, by rw [hv.length_eq]; simpa [TBT.shape, ht] using hlt⟩]
      rw [ht, e1, e2]; ring
  · have hb : ¬ y.active c = true := by rw [hact c hcn]; exact ha
    refine ⟨out c, ?_, ?_, ?_⟩
    · unfold dotLeaf
      rw [if_neg ha]
      congr 1; funext j; unfold upd; split <;> simp_all
    · unfold childSize; rw [if_neg ha, if_neg hb, hs]
    · intro s s' h1 h2
      unfold childSize at h1 h2
      rw [if_neg ha] at h1; rw [if_neg hb] at h2
      rw [hg s s' h1 h2, cgram_inactive x y V W D hD M hx.valid hc ht ha hb s s' h1 h2 u v hu.length_eq hv.length_eq]

include hx hy ht hact hV hW hD hu hv in
/-- One internal node. -/
theorem dotNode_spec (r : Nat) (lev : Nat → Nat) (out : Nat → Arr R) {i : Nat} (hi : IsNode x.tree i)
    (hl : i ∉ x.tree.dim2ind) (hr : IsRoot x.tree r)
    (hE : rankShape x r = [] ∨ ∃ N, 1 < N ∧ rankShape x r = [N])
    (hlev : lev i ≠ 0 ↔ i ≠ r)
    (hch : ∀ c, Edge x.tree i c → GoodG x y V W D M u v out c) :
    ∃ g, dotNode x y r lev out i = .ok (upd out i g) ∧ g.shape = rankShape x i ++ rankShape y i ∧
      ∀ e e', InBox (rankShape x i) e → InBox (rankShape y i) e' → g.get (e ++ e') = gram x y V W D M i e e' u v := by
  obtain ⟨n1, n2, n3, n4⟩ := hx.node i hi hl
  obtain ⟨m1, m2, m3, m4⟩ := hy.node i (by rw [ht]; exact hi) (by rw [ht]; exact hl)
  have hedge : ∀ c ∈ x.tree.children i, Edge x.tree i c := fun c hc => (mem_children i c hi).1 hc
  have hrl := hx.root_internal hr
  have hord : (if i ≠ r ∨ x.rank r > 1 then List.range ((x.tensors i).order - 1) else List.range (x.tensors i).order) =
      List.range ((x.tree.children i).map (childSize x)).length := by
    have ho : (x.tensors i).order = ((x.tree.children i).map (childSize x)).length + (rankShape x i).length := by
      unfold Arr.order
      conv_lhs => rw [n2]
      rw [List.length_append]
    by_cases hir : i = r
    · subst hir
      rcases hE with hE | ⟨N, hN, hE⟩
      · have hrank : x.rank i = 1 := by
          unfold TBT.rank
          rw [if_neg (fun h => hl ((isLeaf_mem _ _).1 h)), if_neg]
          rw [not_or]
          refine ⟨?_, ?_⟩
          · rw [not_not]; exact (parent_eq_zero hi).2 hr
          · rw [ho, hE]; simp
        rw [hrank, if_neg (by simp), ho, hE]; simp
      · have hrank : x.rank i = N := by
          unfold TBT.rank
          rw [if_neg (fun h => hl ((isLeaf_mem _ _).1 h)), if_pos]
          · exact lastDim_of_shape (by rw [n2, hE])
          · right; rw [ho, hE]; simp
        rw [hrank, if_pos (by right; exact hN), ho, hE]; simp
    · have hir' : ¬ IsRoot x.tree i := fun h => hir (root_unique hx.valid h hr)
      rw [if_pos (.inl hir), ho, n4 hir']; simp
  rw [ht] at m2
  obtain ⟨tmp, t1, t2, t3⟩ := tmp_lead (y.tensors i) ((x.tree.children i).map out) ((x.tree.children i).map (childSize y))
    (rankShape y i) m2 (by
      rw [List.forall₂_map_left_iff, List.forall₂_map_right_iff, List.forall₂_same]
      intro c hc
      exact ⟨_, (hch c (hedge c hc)).1⟩)
  have hrows : ((x.tree.children i).map out).map (fun M => M.shape.getD 0 0) = (x.tree.children i).map (childSize x) := by
    rw [List.map_map]
    apply List.map_congr_left
    intro c hc
    simp only [Function.comp]
    rw [(hch c (hedge c hc)).1]; rfl
  rw [hrows] at t2 t3
  obtain ⟨g, g1, g2, g3⟩ := tensordot_lead (x.tensors i) tmp ((x.tree.children i).map (childSize x)) (rankShape x i)
    (rankShape y i) n2 t2
  have hres : ∃ g', dotReshape x y lev i g = .ok g' ∧ g' ≃ₐ g := by
    unfold dotReshape
    by_cases hir : i = r
    · rw [if_neg (by rw [hlev]; simpa using hir)]
      exact ⟨g, rfl, Same.refl g⟩
    · have hir' : ¬ IsRoot x.tree i := fun h => hir (root_unique hx.valid h hr)
      rw [if_pos (hlev.2 hir)]
      have e1 : rankShape x i = [x.lastDim i] := by
        have := hx.rs_eq hi hir'; rwa [rs_node hl] at this
      have e2 : rankShape y i = [y.lastDim i] := by
        have := hy.rs_eq (i := i) (by rw [ht]; exact hi) (by rw [ht]; exact hir'); rwa [rs_node (by rw [ht]; exact hl)] at this
      obtain ⟨g', q1, q2⟩ := reshape_same g
      refine ⟨g', ?_, q2⟩
      rw [← q1, g2, e1, e2]; rfl
  obtain ⟨g', q1, q2, q3⟩ := hres
  refine ⟨g', ?_, by rw [q2, g2], ?_⟩
  · unfold dotNode
    simp only [hord]
    have t1' := t1
    rw [List.length_map] at t1'
    simp only [List.length_map] at g1 ⊢
    simp only [t1', g1, q1, bind, Except.bind]
  · intro e e' he he'
    rw [q3 (e ++ e') (by rw [q2, g2]; exact (inBox_append he.length_eq).2 ⟨he, he'⟩), g3 e e' he.length_eq he'.length_eq]
    rw [gram_node x y hx hy ht V W hV hW D hD M hi hl e e' u v hu hv]
    apply sumBox_congr
    intro t htb
    rw [t3 t e' htb he', ← sumBox_mul_left]
    apply sumBox_congr
    intro t' htb'
    rw [mul_assoc]
    congr 2
    -- the products of the matrices of the children
    have key : ∀ (cs t t' : List Nat), (∀ c ∈ cs, Edge x.tree i c) → InBox (cs.map (childSize x)) t →
        InBox (cs.map (childSize y)) t' →
        List.zipWith (fun (M : Arr R) (p : Nat × Nat) => M.get [p.1, p.2]) (cs.map out) (t.zip t') =
        List.zipWith (fun c (s : Nat × Nat) => cgram x y V W D M c s.1 s.2 u v) cs (t.zip t') := by
      intro cs
      induction cs with
      | nil => intro t t' _ _ _; rfl
      | cons c cs ih =>
        intro t t' hcs h1 h2
        rw [List.map_cons] at h1 h2
        cases h1 with
        | cons a1 b1 =>
          cases h2 with
          | cons a2 b2 =>
            simp only [List.map_cons, List.zip_cons_cons, List.zipWith_cons_cons]
            rw [ih _ _ (fun c' hc' => hcs c' (by simp [hc'])) b1 b2, (hch c (hcs c (by simp))).2 _ _ a1 a2]
    rw [key _ t t' hedge htb htb']

include hx hy ht hact hV hW hD hu hv in
/-- The loops compute the Gram matrix of the root. -/
theorem dotLoop_spec (out : Nat → Arr R) {r : Nat} (hr : IsRoot x.tree r)
    (hE : rankShape x r = [] ∨ ∃ N, 1 < N ∧ rankShape x r = [N])
    (hs : ∀ c ∈ x.tree.dim2ind, (out c).shape = [x.leafSize c, y.leafSize c])
    (hg : ∀ c ∈ x.tree.dim2ind, ∀ a b, a < x.leafSize c → b < y.leafSize c → (out c).get [a, b] = M (dimOf x.tree c) a b) :
    ∃ g, dotLoop x y out = .ok g ∧ g.shape = rankShape x r ++ rankShape y r ∧
      ∀ e e', InBox (rankShape x r) e → InBox (rankShape y r) e' → g.get (e ++ e') = gram x y V W D M r e e' u v := by
  obtain ⟨r', hr', hroot'⟩ := root_ok hx.valid
  rw [root_unique hx.valid hroot' hr] at hr'
  obtain ⟨lev, hlv, hlev⟩ := level_ok hx.valid
  have hrl := hx.root_internal hr
  have hlev0 : ∀ i, IsNode x.tree i → (lev i ≠ 0 ↔ i ≠ r) := by
    intro i hi
    obtain ⟨k, hk⟩ := exists_level hx.valid hi
    rw [hlev i k hk]
    cases hk with
    | root h => simp; exact root_unique hx.valid h hr
    | child h he => simp; rintro rfl; exact hr.2 _ he
  -- the leaves
  have leaves : ∀ (l : List Nat) (out : Nat → Arr R), l.Nodup → (∀ c ∈ l, c ∈ x.tree.dim2ind) →
      (∀ c ∈ l, (out c).shape = [x.leafSize c, y.leafSize c] ∧
        ∀ a b, a < x.leafSize c → b < y.leafSize c → (out c).get [a, b] = M (dimOf x.tree c) a b) →
      ∃ out', l.foldlM (dotLeaf x y) out = .ok out' ∧ (∀ c ∈ l, GoodG x y V W D M u v out' c) ∧ ∀ c, c ∉ l → out' c = out c := by
    intro l
    induction l with
    | nil => intro out _ _ _; exact ⟨out, rfl, by simp, fun _ _ => rfl⟩
    | cons c l ih =>
      intro out hnd hm hgood
      obtain ⟨g, q1, q2⟩ := dotLeaf_spec x y hx hy ht hact V W hV hW D hD M u v hu hv out (hm c (by simp)) (hgood c (by simp)).1
        (hgood c (by simp)).2
      rw [List.nodup_cons] at hnd
      obtain ⟨out', p1, p2, p3⟩ := ih (upd out c g) hnd.2 (fun c' hc' => hm c' (by simp [hc'])) (fun c' hc' => by
        have hne : c' ≠ c := fun h => hnd.1 (h ▸ hc')
        simp only [upd, if_neg hne]
        exact hgood c' (by simp [hc']))
      refine ⟨out', ?_, ?_, ?_⟩
      · rw [List.foldlM_cons, q1]; exact p1
      · intro c' hc'
        rcases List.mem_cons.1 hc' with rfl | hc'
        · unfold GoodG at q2 ⊢; rw [p3 c' hnd.1]; exact q2
        · exact p2 c' hc'
      · intro c' hc'
        rw [List.mem_cons, not_or] at hc'
        rw [p3 c' hc'.2]; simp only [upd, if_neg hc'.1]
  obtain ⟨out1, o1, o2, _⟩ := leaves x.tree.dim2ind out hx.valid.nodup (fun _ h => h) (fun c hc => ⟨hs c hc, hg c hc⟩)
  -- the internal nodes
  let GR := fun (out : Nat → Arr R) (i : Nat) => (out i).shape = rankShape x i ++ rankShape y i ∧
      ∀ e e', InBox (rankShape x i) e → InBox (rankShape y i) e' → (out i).get (e ++ e') = gram x y V W D M i e e' u v
  obtain ⟨out2, p1, p2, p3⟩ := bottomUp hx.valid hlev (dotNode x y r lev) (fun i => x.tree.isLeaf i = false)
    (internalAt x.tree lev) (mem_internalAt x.tree lev) (nodup_internalAt x.tree lev)
    (fun out P => (∀ c ∈ x.tree.dim2ind, GoodG x y V W D M u v out c) ∧
      ∀ i, IsNode x.tree i → x.tree.isLeaf i = false → P i → GR out i)
    (by
      intro out P i ⟨i1, i2⟩ hi hq hnP hch hpar
      have hil : i ∉ x.tree.dim2ind := fun hm => by rw [(isLeaf_mem _ _).2 hm] at hq; simp at hq
      obtain ⟨g, q1, q2, q3⟩ := dotNode_spec x y hx hy ht hact V W hV hW D hD M u v hu hv r lev out hi hil hr hE (hlev0 i hi)
        (by
          intro c hc
          by_cases hcl : c ∈ x.tree.dim2ind
          · exact i1 c hcl
          · have hcf : x.tree.isLeaf c = false := by
              by_contra hh; exact hcl ((isLeaf_mem _ _).1 (by simpa using hh))
            have hcr : ¬ IsRoot x.tree c := WF.child_not_root hc
            obtain ⟨b1, b2⟩ := i2 c hc.2.1 hcf (hch c hc hcf)
            have ha := (hx.node c hc.2.1 hcl).1
            have hb : y.active c = true := by rw [hact c hc.2.1]; exact ha
            have e1 : rankShape x c = [x.lastDim c] := by
              have := hx.rs_eq hc.2.1 hcr; rwa [rs_node hcl] at this
            have e2 : rankShape y c = [y.lastDim c] := by
              have := hy.rs_eq (i := c) (by rw [ht]; exact hc.2.1) (by rw [ht]; exact hcr)
              rwa [rs_node (by rw [ht]; exact hcl)] at this
            have c1 : childSize x c = x.lastDim c := by unfold childSize; rw [if_pos ha]
            have c2 : childSize y c = y.lastDim c := by unfold childSize; rw [if_pos hb]
            unfold GoodG
            rw [c1, c2]
            refine ⟨by rw [b1, e1, e2]; rfl, fun s s' h1 h2 => ?_⟩
            rw [cgram_active x y V W D M ha hb]
            exact b2 [s] [s'] (by rw [e1]; simpa using h1) (by rw [e2]; simpa using h2))
      refine ⟨upd out i g, q1, ?_, ?_⟩
      · intro c hc
        have hne : c ≠ i := fun h => hil (h ▸ hc)
        have := i1 c hc
        unfold GoodG at this ⊢
        simp only [upd, if_neg hne]
        exact this
      · intro j hj hjl hP
        by_cases hji : j = i
        · subst hji
          simp only [GR, upd, if_true]
          exact ⟨q2, q3⟩
        · simp only [GR, upd, if_neg hji]
          exact i2 j hj hjl (hP.resolve_right hji))
    (x.tree.maxLevel lev) out1 (by
      refine ⟨o2, ?_⟩
      intro i hi hl ⟨_, _, hle⟩
      exfalso
      have hil : i ∉ x.tree.dim2ind := fun hm => by rw [(isLeaf_mem _ _).2 hm] at hl; simp at hl
      have hex : ∃ c, Edge x.tree i c := by
        by_contra hno
        push Not at hno
        exact hil ((hx.valid.leaves i).2 ⟨hi, hno⟩)
      obtain ⟨c, hc⟩ := hex
      obtain ⟨k, hk⟩ := exists_level hx.valid hi
      have h1 := hlev i k hk
      have h2 := hlev c (k + 1) (.child hk hc)
      have h3 := lev_le_maxLevel lev hc.2.1
      omega)
  obtain ⟨z1, z2⟩ := p3 r hr.1 (by
      by_contra hh; exact hrl ((isLeaf_mem _ _).1 (by simpa using hh))) ⟨hr.1, by
      by_contra hh; exact hrl ((isLeaf_mem _ _).1 (by simpa using hh))⟩
  refine ⟨out2 r, ?_, z1, z2⟩
  unfold dotLoop
  simp only [hr', hlv, bind, Except.bind, o1]
  rw [p1]

end loops

/-- The dimensions of a tensor are not zero: the tuple of zeros is a valid index. -/
theorem inBox_zeros {x : TBT R} (hx : WF x) : InBox x.shape (x.shape.map (fun _ => 0)) := by
  obtain ⟨r, _, hr⟩ := root_ok hx.valid
  rw [inBox_iff_getD]
  refine ⟨by simp, fun k hk => ?_⟩
  have hk' : k < x.tree.dim2ind.length := by simpa [TBT.shape] using hk
  have := (hx.shaped hr).nu _ (List.getElem_mem hk')
  rw [List.getD_eq_getElem _ _ (by simpa using hk), List.getElem_map, List.getD_eq_getElem _ _ hk]
  simp only [TBT.shape, List.getElem_map]
  exact this

/-- C38. `x.dot_with_rank_one_metric(y, matrices)` for two tensors on the same tree with the same active nodes: the
weighted scalar products `∑ x(i) M₁(i₁,j₁) ⋯ M_d(i_d,j_d) y(j)` of the full tensors (one for each pair of values of the
root ranks, a scalar when the roots have no rank axis). The matrices must not all have as many rows. -/
theorem dotMetric_full [CommSemiring R] (x y : TBT R) (hx : WF x) (hy : WF y) (ht : y.tree = x.tree)
    (hact : ∀ i, IsNode x.tree i → y.active i = x.active i) (r : Nat) (hr : x.tree.root = .ok r)
    (hE : rankShape x r = [] ∨ ∃ N, 1 < N ∧ rankShape x r = [N]) (ms : List (Arr R)) (hml : ms.length = x.order)
    (hfit : ∀ k, k < x.order → (ms.getD k ⟨[], fun _ => 0⟩).shape = [x.shape.getD k 0, y.shape.getD k 0])
    (hrows : ∃ k l, k < x.order ∧ l < x.order ∧ x.shape.getD k 0 ≠ x.shape.getD l 0) :
    ∃ a b g, full x = .ok a ∧ full y = .ok b ∧ dotMetric x y ms = .ok g ∧ g.shape = rankShape x r ++ rankShape y r ∧
      ∀ e e', InBox (rankShape x r) e → InBox (rankShape y r) e' →
        g.get (e ++ e') = sumBox x.shape (fun i => sumBox y.shape (fun j =>
          a.get (i ++ e) * ((List.range x.order).map (fun k => (ms.getD k ⟨[], fun _ => 0⟩).get [i.getD k 0, j.getD k 0])).prod *
            b.get (j ++ e'))) := by
  obtain ⟨r', hr', hroot⟩ := root_ok hx.valid
  rw [hr] at hr'; cases hr'
  obtain ⟨D, _, hD⟩ := dims_ok hx.valid
  obtain ⟨V, hV⟩ := exists_value x hx.valid
  obtain ⟨W, hW⟩ := exists_value y hy.valid
  obtain ⟨a, a1, a2, a3⟩ := full_on x hx hV.on hr
  obtain ⟨b, b1, b2, b3⟩ := full_on y hy hW.on (by rw [ht]; exact hr)
  have hls : x.shape.length = x.order := by simp [TBT.shape, TBT.order]
  have hls' : y.shape.length = x.order := by simp [TBT.shape, TBT.order, ht]
  have hdl : ∀ c ∈ x.tree.dim2ind, dimOf x.tree c < x.order := fun c hc => dimOf_lt hc
  have hsx : ∀ c ∈ x.tree.dim2ind, x.shape.getD (dimOf x.tree c) 0 = x.leafSize c := fun c hc => shape_getD hc
  have hsy : ∀ c ∈ x.tree.dim2ind, y.shape.getD (dimOf x.tree c) 0 = y.leafSize c := fun c hc => by
    have := shape_getD (x := y) (c := c) (by rw [ht]; exact hc)
    rwa [ht] at this
  obtain ⟨g, g1, g2, g3⟩ := dotLoop_spec x y hx hy ht hact V W hV hW D hD
    (fun k p q => (ms.getD k ⟨[], fun _ => 0⟩).get [p, q]) (x.shape.map (fun _ => 0)) (y.shape.map (fun _ => 0))
    (inBox_zeros hx) (inBox_zeros hy) (fun i => ms.getD (x.tree.dim2ind.idxOf i) ⟨[], fun _ => 0⟩) hroot hE
    (fun c hc => by
      show (ms.getD (dimOf x.tree c) ⟨[], fun _ => 0⟩).shape = _
      rw [hfit _ (hdl c hc), hsx c hc, hsy c hc])
    (fun c hc p q _ _ => rfl)
  refine ⟨a, b, g, a1, b1, ?_, g2, ?_⟩
  · unfold dotMetric objAssign
    rw [if_neg (by rw [hml]; simp [TBT.order]), if_neg]
    · exact g1
    · intro hall
      rw [List.all_eq_true] at hall
      have hc : ∀ k, k < x.order → x.shape.getD k 0 = (ms.getD 0 ⟨[], fun _ => 0⟩).shape.getD 0 0 := by
        intro k hk
        have hk' : k < ms.length := by rw [hml]; exact hk
        have := hall ms[k] (List.getElem_mem hk')
        rw [← List.getD_eq_getElem ms ⟨[], fun _ => 0⟩ hk', hfit k hk] at this
        simpa using this
      obtain ⟨k, l, hk, hl, hne⟩ := hrows
      exact hne ((hc k hk).trans (hc l hl).symm)
  · intro e e' he he'
    rw [g3 e e' he he', gram_root x y hx V W D hD _ hroot (by rw [hls, hls']) e e' _ _ (by simp) (by simp)]
    apply sumBox_congr
    intro i hi
    apply sumBox_congr
    intro j hj
    rw [a3 i e hi he, b3 j e' hj he', hls]
    ring

/-- C38. `x.dot(y)` is the scalar product of the full tensors, for tensors on the same tree with the same active nodes and
without rank axis at the root, whose dimensions do not all have the same size. -/
theorem dot_full [CommSemiring R] (x y : TBT R) (hx : WF x) (hy : WF y) (ht : y.tree = x.tree)
    (hact : ∀ i, IsNode x.tree i → y.active i = x.active i) (hsh : y.shape = x.shape) (r : Nat) (hr : x.tree.root = .ok r)
    (hE : rankShape x r = []) (hE' : rankShape y r = [])
    (hrows : ∃ k l, k < x.order ∧ l < x.order ∧ x.shape.getD k 0 ≠ x.shape.getD l 0) :
    ∃ a b g, full x = .ok a ∧ full y = .ok b ∧ dot x y = .ok g ∧ g.shape = [] ∧ g.get [] = FullTensor.dot a b := by
  have hls : x.shape.length = x.order := by simp [TBT.shape, TBT.order]
  have hget : ∀ k, k < x.order → (x.shape.map (eyeArr (R := R))).getD k ⟨[], fun _ => 0⟩ = eyeArr (x.shape.getD k 0) := by
    intro k hk
    rw [List.getD_eq_getElem _ _ (by simp [hls, hk]), List.getElem_map, List.getD_eq_getElem _ _ (by omega)]
  obtain ⟨a, b, g, h1, h2, h3, h4, h5⟩ := dotMetric_full x y hx hy ht hact r hr (.inl hE) (x.shape.map eyeArr) (by simp [hls])
    (fun k hk => by rw [hget k hk, hsh]; rfl) hrows
  refine ⟨a, b, g, h1, h2, h3, by rw [h4, hE, hE']; rfl, ?_⟩
  have := h5 [] [] (by rw [hE]; exact .nil) (by rw [hE']; exact .nil)
  rw [List.append_nil] at this
  rw [this]
  obtain ⟨a', r', q1, q2, q3, _⟩ := full_spec x hx
  rw [hr] at q2; cases q2
  rw [h1] at q1; cases q1
  rw [hE, List.append_nil] at q3
  show _ = sumBox a.shape (fun i => a.get i * b.get i)
  rw [q3, hsh]
  apply sumBox_congr
  intro i hi
  rw [List.append_nil, sumBox_eq_sum, Finset.sum_eq_single_of_mem i ((mem_box _ _).2 hi)]
  · rw [List.append_nil]
    have : ((List.range x.order).map (fun k => ((x.shape.map (eyeArr (R := R))).getD k ⟨[], fun _ => 0⟩).get [i.getD k 0, i.getD k 0])).prod = 1 := by
      apply List.prod_eq_one
      intro v hv
      obtain ⟨k, hk, rfl⟩ := List.mem_map.1 hv
      rw [hget k (List.mem_range.1 hk)]
      simp [eyeArr]
    rw [this, mul_one]
  · intro j hj hne
    have hjl := ((mem_box _ _).1 hj).length_eq
    have : ((List.range x.order).map (fun k => ((x.shape.map (eyeArr (R := R))).getD k ⟨[], fun _ => 0⟩).get [i.getD k 0, j.getD k 0])).prod = 0 := by
      apply List.prod_eq_zero
      by_contra hno
      apply hne
      apply ext_getD (by rw [hjl, hi.length_eq])
      intro k hk
      rw [hjl, hls] at hk
      by_contra hkne
      apply hno
      refine List.mem_map.2 ⟨k, List.mem_range.2 hk, ?_⟩
      rw [hget k hk]
      simp only [eyeArr, List.getD_cons_zero, List.getD_cons_succ]
      rw [if_neg (fun h => hkne h.symm)]
    rw [this]; ring

/-- Dimensions of equal sizes: `dot` is refused (the assignment of the list of identity matrices raises). -/
theorem dot_refused [CommSemiring R] (x y : TBT R) (n : Nat) (h : ∀ m ∈ x.shape, m = n) :
    dot x y = .error .valueError := by
  unfold dot dotMetric objAssign
  simp only [List.length_map]
  have hall : (x.shape.map (eyeArr (R := R))).all (fun M => M.shape.getD 0 0 ==
      ((x.shape.map (eyeArr (R := R))).getD 0 ⟨[], fun _ => 0⟩).shape.getD 0 0) = true := by
    rw [List.all_eq_true]
    intro M hM
    obtain ⟨m, hm, rfl⟩ := List.mem_map.1 hM
    have h0 : 0 < x.shape.length := List.length_pos_of_mem hm
    have h1 := h _ (List.getElem_mem h0)
    have h2 : (x.shape.map (eyeArr (R := R))).getD 0 ⟨[], fun _ => 0⟩ = eyeArr n := by
      rw [List.getD_eq_getElem _ _ (by simpa using h0), List.getElem_map, h1]
    rw [h2, h m hm]
    simp
  rw [if_pos hall]
  split <;> rfl

/-- A rank axis of size one at the root of `x` makes the loop fail. -/
theorem dotNode_refused [CommSemiring R] (x y : TBT R) (r : Nat) (lev : Nat → Nat) (out : Nat → Arr R)
    (h1 : x.rank r ≤ 1) (h2 : (x.tensors r).order = (x.tree.children r).length + 1) :
    dotNode x y r lev out r = .error .assertionError := by
  unfold dotNode
  simp only [ne_eq, not_true_eq_false, false_or, gt_iff_lt]
  rw [if_neg (by omega), h2]
  unfold FullTensor.tensorMatrixProduct
  simp only [Option.getD_some, List.length_map, List.length_range]
  rw [if_pos (by omega)]
  rfl

/-- The hypotheses of `dot_full` are met. -/
example : WF exT ∧ WF exW ∧ exW.tree = exT.tree ∧ (∀ i, IsNode exT.tree i → exW.active i = exT.active i) ∧
    exW.shape = exT.shape ∧ exT.tree.root = .ok 1 ∧ rankShape exT 1 = [] ∧ rankShape exW 1 = [] ∧
    ∃ k l, k < exT.order ∧ l < exT.order ∧ exT.shape.getD k 0 ≠ exT.shape.getD l 0 :=
  ⟨exT_wf, exW_wf, rfl, exT_compat.active, by decide +kernel, by decide +kernel, by decide +kernel, by decide +kernel,
    0, 1, by decide +kernel, by decide +kernel, by decide +kernel⟩

example : (match dot exT exW with | .ok g => some (g.shape, g.get []) | .error _ => none) =
    some ([], (match full exT, full exW with | .ok a, .ok b => FullTensor.dot a b | _, _ => 0)) := by decide +kernel

end Verif.TreeBased
