import Verif.Props.TensorInterp
import Verif.Props.SparseInterp

/-!
# Projection on tensor product bases (C164)
-/

namespace Verif.TensorInterp

open Verif.Arr Verif.MultiIndices Verif.TreeBased Verif.Grids Verif.Bases Verif.FunctionalTensor Verif.FunctionalPca Verif.Pca Verif.Truncation Finset

/-! ### specification -/

/-- The weight of the point of the grid of subscripts `k`. -/
noncomputable def weightAt (w : List (List ℝ)) (k : List Nat) : ℝ := ∏ d ∈ range w.length, (w.getD d []).getD (k.getD d 0) 0

/-- The semi-scalar product of two functions for the rule: the weighted sum of the products of the values at the points of the grid. -/
noncomputable def ruleDot (r : TensorRule ℝ) (f g : List (List ℝ) → ℝ) : ℝ :=
  sumBox r.points.shape (fun k => weightAt r.weights k * (f (nodesAt r.points.grids k) * g (nodesAt r.points.grids k)))

/-- The function with coefficients `a` and the rule: the difference with `f` is orthogonal to all the functions of the space. -/
def Projects (bs : List (Basis ℝ)) (r : TensorRule ℝ) (f : List ℝ → ℝ) (c : Arr ℝ) : Prop :=
  ∀ a : Arr ℝ, a.shape = cards bs → ruleDot r (fun p => f p.flatten - value c bs p) (value a bs) = 0

/-- A rule that determines the functions of the bases, with the same number `n` of points in each dimension. -/
structure RuleOk (bs : List (Basis ℝ)) (r : TensorRule ℝ) (n : Nat) : Prop where
  pos : 0 < n
  len : r.points.grids.length = bs.length
  wlen : r.weights.length = bs.length
  pts : ∀ g ∈ r.points.grids, g.length = n
  wts : ∀ w ∈ r.weights, w.length = n
  dims : ∀ d, d < bs.length → ∀ p ∈ r.points.grids.getD d [], p.length = (bs.getD d ⟨0, 0, fun _ _ => 0⟩).ndim
  gram : ∀ d, d < bs.length → ∀ u : Nat → ℝ, (∀ i, i < (bs.getD d ⟨0, 0, fun _ _ => 0⟩).card →
    ∑ k ∈ range n, (r.weights.getD d []).getD k 0 * ((bs.getD d ⟨0, 0, fun _ _ => 0⟩).fn ((r.points.grids.getD d []).getD k []) i *
      ∑ j ∈ range (bs.getD d ⟨0, 0, fun _ _ => 0⟩).card, (bs.getD d ⟨0, 0, fun _ _ => 0⟩).fn ((r.points.grids.getD d []).getD k []) j * u j) = 0) →
    ∀ j, j < (bs.getD d ⟨0, 0, fun _ _ => 0⟩).card → u j = 0

/-! ### one dimension -/

theorem projOperator_ok {H : Arr ℝ} {w : List ℝ} {n m : Nat} (hH : H.shape = [n, m]) (hw : w.length = n)
    (hM : (fm m m (fun a b => ∑ k ∈ range n, w.getD k 0 * H.get [k, a] * H.get [k, b])).det ≠ 0) :
    ∃ P N, projOperator (H, w) = .ok P ∧ P.shape = [m, n] ∧
      InvBy m (fun a b => ∑ k ∈ range n, w.getD k 0 * H.get [k, a] * H.get [k, b]) N ∧
      ∀ a k, a < m → k < n → ∑ i ∈ range m, (∑ l ∈ range n, w.getD l 0 * H.get [l, a] * H.get [l, i]) * P.get [i, k] = w.getD k 0 * H.get [k, a] := by
  have hT : (SubBasis.transposeM H).shape = [m, n] := by simp [SubBasis.transposeM, hH]
  have hD : (diagM w).shape = [n, n] := by simp [diagM, hw]
  obtain ⟨WX, x1, x2, x3⟩ := matmul_ok hD hH
  obtain ⟨M, m1, m2, m3⟩ := matmul_ok hT x2
  obtain ⟨XW, y1, y2, y3⟩ := matmul_ok hT hD
  have hdiag : ∀ i j, (diagM w).get [i, j] = if i = j then w.getD i 0 else 0 := fun i j => rfl
  have hWX : ∀ i j, i < n → WX.get [i, j] = w.getD i 0 * H.get [i, j] := by
    intro i j hi
    rw [x3]
    rw [Finset.sum_eq_single_of_mem i (mem_range.2 hi)]
    · rw [hdiag, if_pos rfl]
    · intro l _ hl
      rw [hdiag, if_neg (Ne.symm hl), zero_mul]
  have hXW : ∀ i j, j < n → XW.get [i, j] = w.getD j 0 * H.get [j, i] := by
    intro i j hj
    rw [y3]
    rw [Finset.sum_eq_single_of_mem j (mem_range.2 hj)]
    · rw [hdiag, if_pos rfl, mul_comm]; rfl
    · intro l _ hl
      rw [hdiag, if_neg hl, mul_zero]
  have hMg : ∀ a b, M.get [a, b] = ∑ k ∈ range n, w.getD k 0 * H.get [k, a] * H.get [k, b] := by
    intro a b
    rw [m3]
    refine sum_congr rfl (fun k hk => ?_)
    rw [hWX k b (mem_range.1 hk)]
    show H.get [k, a] * _ = _
    ring
  obtain ⟨N, hN⟩ := exists_inv hM
  have hN' : InvBy m (fun a b => M.get [a, b]) N := by
    have : (fun a b => M.get [a, b]) = (fun a b => ∑ k ∈ range n, w.getD k 0 * H.get [k, a] * H.get [k, b]) := by
      funext a b; exact hMg a b
    rw [this]; exact hN
  obtain ⟨P, p1, p2, p3⟩ := solve_ok m2 y2 hN'
  refine ⟨P, N, by simp only [projOperator, x1, m1, y1, bind, Except.bind]; exact p1, p2, hN, fun a k ha hk => ?_⟩
  have := hN.symm.apply (x := fun i => XW.get [i, k]) (y := fun i => P.get [i, k]) (fun i hi => p3 i k hi hk) a ha
  rw [hXW a k hk] at this
  exact this.symm

/-! ### all dimensions -/

theorem value_grid (bs : List (Basis ℝ)) (G : List (List (List ℝ))) (hG : G.length = bs.length) (a : Arr ℝ) (ha : a.shape = cards bs)
    {k : List Nat} (hk : k.length = bs.length) :
    value a bs (nodesAt G k) = sumBox (cards bs) (fun j => a.get j * ∏ d ∈ range (cards bs).length,
      (bs.getD d ⟨0, 0, fun _ _ => 0⟩).fn ((G.getD d []).getD (k.getD d 0) []) (j.getD d 0)) := by
  have hl : (cards bs).length = bs.length := by simp [cards]
  unfold value
  rw [ha, hl]
  refine sumBox_congr (fun j _ => ?_)
  congr 1
  refine prod_congr rfl (fun d hd => ?_)
  have hd' := mem_range.1 hd
  rw [nodesAt_getD (by rw [hG]; exact hd') (by rw [hk]; exact hd')]

/-- `np.hstack` and the split of the columns by `FunctionalBases.eval`. -/
theorem hstack_evals {bs : List (Basis ℝ)} {r : TensorRule ℝ} {n : Nat} (hbs : bs ≠ []) (h : RuleOk bs r n) :
    ∃ x, hstackGrids r.points.grids = .ok x ∧ basesEvalAll bs x = List.zipWith (fun b g => b.eval g) bs r.points.grids := by
  have hnd : bs.map Basis.ndim ≠ [] := by simpa using hbs
  obtain ⟨g0, gs, hg⟩ := List.exists_cons_of_ne_nil (l := r.points.grids) (by
    intro h0
    have := h.len
    rw [h0] at this
    exact hbs (List.length_eq_zero_iff.1 this.symm))
  have hall : r.points.grids.all (fun x => x.length == g0.length) = true := by
    rw [List.all_eq_true]
    intro x hx
    rw [h.pts x hx, h.pts g0 (by rw [hg]; simp)]
    simp
  have hg0 : g0.length = n := h.pts g0 (by rw [hg]; simp)
  refine ⟨(List.range n).map (fun i => (r.points.grids.map (fun x => x.getD i [])).flatten), ?_, ?_⟩
  · unfold hstackGrids
    rw [hg]
    simp only
    rw [← hg, if_pos hall, hg0]
  · have hdim : ∀ i, i < n → (r.points.grids.map (fun x => x.getD i [])).map List.length = bs.map Basis.ndim := by
      intro i hi
      apply List.ext_getElem (by simp [h.len])
      intro d h1 h2
      have hd : d < bs.length := by simpa using h2
      have hdG : d < r.points.grids.length := by rw [h.len]; exact hd
      rw [List.getElem_map, List.getElem_map, List.getElem_map]
      have hlen := h.pts _ (List.getElem_mem hdG)
      have := h.dims d hd ((r.points.grids[d]).getD i []) (by
        rw [List.getD_eq_getElem _ _ hdG, List.getD_eq_getElem _ _ (by rw [hlen]; exact hi)]
        exact List.getElem_mem _)
      rw [this, List.getD_eq_getElem _ _ hd]
    apply List.ext_getElem (by simp [basesEvalAll, h.len])
    intro d h1 h2
    have hd : d < bs.length := by simpa [basesEvalAll] using h1
    have hdG : d < r.points.grids.length := by rw [h.len]; exact hd
    simp only [basesEvalAll, List.getElem_mapIdx, List.getElem_zipWith, List.map_map]
    congr 1
    apply List.ext_getElem
    · simp [h.pts _ (List.getElem_mem hdG)]
    · intro i i1 i2
      have hi : i < n := by simpa using i1
      rw [List.getElem_map, List.getElem_range]
      simp only [Function.comp]
      rw [hsplit_parts _ _ hnd (hdim i hi), List.getD_eq_getElem _ _ (by simpa using hdG), List.getElem_map, List.getD_eq_getElem _ _ i2]

/-- The coefficients of a projection. -/
theorem coefficients_ok {bs : List (Basis ℝ)} {r : TensorRule ℝ} {n : Nat} (hbs : bs ≠ []) (h : RuleOk bs r n) (f : List ℝ → ℝ) :
    ∃ c, fullProjection bs f (.tensor r) = .ok (⟨.full c, bs⟩, n ^ bs.length) ∧ c.shape = cards bs ∧
      ∀ j, InBox (cards bs) j →
        ruleDot r (fun p => f p.flatten) (fun p => ∏ d ∈ range bs.length, (bs.getD d ⟨0, 0, fun _ _ => 0⟩).fn (p.getD d []) (j.getD d 0)) =
        ruleDot r (value c bs) (fun p => ∏ d ∈ range bs.length, (bs.getD d ⟨0, 0, fun _ _ => 0⟩).fn (p.getD d []) (j.getD d 0)) ∧
        ∀ a : Arr ℝ, a.shape = cards bs →
          (∀ i, InBox (cards bs) i → ruleDot r (value a bs) (fun p => ∏ d ∈ range bs.length, (bs.getD d ⟨0, 0, fun _ _ => 0⟩).fn (p.getD d []) (i.getD d 0)) = 0) →
          a.get j = 0 := by
  have hcl : (cards bs).length = bs.length := by simp [cards]
  have hcard : ∀ d, d < bs.length → (cards bs).getD d 0 = (bs.getD d ⟨0, 0, fun _ _ => 0⟩).card := by
    intro d hd
    rw [List.getD_eq_getElem _ _ hd, List.getD_eq_getElem _ _ (by simpa [cards] using hd)]
    simp [cards]
  have hq : r.points.shape = List.replicate bs.length n := by
    rw [← h.len]
    exact List.eq_replicate_of_mem (by
      intro x hx
      obtain ⟨g, hg, rfl⟩ := List.mem_map.1 hx
      exact h.pts g hg) |>.trans (by simp [FullGrid.shape])
  have hql : r.points.shape.length = bs.length := by rw [hq]; simp
  have hqd : ∀ d, d < bs.length → r.points.shape.getD d 0 = n := by
    intro d hd
    rw [hq, List.getD_eq_getElem _ _ (by simpa using hd), List.getElem_replicate]
  obtain ⟨y, y1, y2, y3⟩ := valuesOnGrid_ok f r.points (by
      intro h0
      have := h.len
      rw [h0] at this
      exact hbs (List.length_eq_zero_iff.1 this.symm)) (by
      rintro g hg rfl
      have := h.pts _ hg
      have := h.pos
      simp at *; omega)
  obtain ⟨x, x1, x2⟩ := hstack_evals hbs h
  let H : Nat → Nat → Nat → ℝ := fun d k j => (bs.getD d ⟨0, 0, fun _ _ => 0⟩).fn ((r.points.grids.getD d []).getD k []) j
  let w : Nat → Nat → ℝ := fun d k => (r.weights.getD d []).getD k 0
  let M : Nat → Nat → Nat → ℝ := fun d a b => ∑ k ∈ range n, w d k * H d k a * H d k b
  have key : ∀ d, ∃ P N, d < bs.length →
      projOperator ((bs.getD d ⟨0, 0, fun _ _ => 0⟩).eval (r.points.grids.getD d []), r.weights.getD d []) = .ok P ∧
      P.shape = [(cards bs).getD d 0, n] ∧ InvBy ((cards bs).getD d 0) (M d) N ∧
      ∀ a k, a < (cards bs).getD d 0 → k < n → ∑ i ∈ range ((cards bs).getD d 0), M d a i * P.get [i, k] = w d k * H d k a := by
    intro d
    by_cases hd : d < bs.length
    · have hdG : d < r.points.grids.length := by rw [h.len]; exact hd
      have hgl : (r.points.grids.getD d []).length = n := by
        rw [List.getD_eq_getElem _ _ hdG]; exact h.pts _ (List.getElem_mem hdG)
      have hwl : (r.weights.getD d []).length = n := by
        rw [List.getD_eq_getElem _ _ (by rw [h.wlen]; exact hd)]; exact h.wts _ (List.getElem_mem _)
      obtain ⟨P, N, p1, p2, p3, p4⟩ := projOperator_ok (H := (bs.getD d ⟨0, 0, fun _ _ => 0⟩).eval (r.points.grids.getD d []))
        (w := r.weights.getD d []) (n := n) (m := (bs.getD d ⟨0, 0, fun _ _ => 0⟩).card) (by show [_, _] = _; rw [hgl]) hwl (by
          intro h0
          obtain ⟨v, hv, hMv⟩ := Matrix.exists_mulVec_eq_zero_iff.2 h0
          apply hv
          have := h.gram d hd (fun j => if hj : j < (bs.getD d ⟨0, 0, fun _ _ => 0⟩).card then v ⟨j, hj⟩ else 0) (fun i hi => by
            have hi' := congrFun hMv ⟨i, hi⟩
            refine Eq.trans ?_ hi'
            show _ = ∑ j, (∑ k ∈ range n, _) * v j
            rw [sum_congr rfl (fun k _ => by rw [mul_sum, mul_sum]), sum_comm, Finset.sum_range]
            refine sum_congr rfl (fun j _ => ?_)
            rw [dif_pos j.2, sum_mul]
            refine sum_congr rfl (fun k _ => ?_)
            simp only [Basis.eval, List.getD_cons_zero, List.getD_cons_succ]
            ring)
          ext j
          have hj := this j.val j.2
          rw [dif_pos j.2] at hj
          exact hj)
      exact ⟨P, N, fun _ => by rw [hcard d hd]; exact ⟨p1, p2, p3, p4⟩⟩
    · exact ⟨emptyArr, fun _ _ => 0, fun hh => absurd hh hd⟩
  choose P N hPN using key
  have hPs : ((basesEvalAll bs x).zip r.weights).mapM projOperator = .ok ((List.range bs.length).map P) := by
    rw [x2, mapM_ok_iff, List.forall₂_iff_get]
    refine ⟨by simp [h.len, h.wlen], fun d h1 h2 => ?_⟩
    have hd : d < bs.length := by simpa using h2
    have hdG : d < r.points.grids.length := by rw [h.len]; exact hd
    have hdw : d < r.weights.length := by rw [h.wlen]; exact hd
    simp only [List.get_eq_getElem, List.getElem_map, List.getElem_range, List.getElem_zip, List.getElem_zipWith]
    have := (hPN d hd).1
    rw [List.getD_eq_getElem _ _ hd, List.getD_eq_getElem _ _ hdG, List.getD_eq_getElem _ _ hdw] at this
    exact this
  have hfit : List.Forall₂ (fun (M : Arr ℝ) n => ∃ m, M.shape = [m, n]) ((List.range bs.length).map P) y.shape := by
    rw [y2, List.forall₂_iff_get]
    refine ⟨by rw [hql]; simp, fun d h1 h2 => ⟨(cards bs).getD d 0, ?_⟩⟩
    have hd : d < bs.length := by simpa using h1
    simp only [List.get_eq_getElem, List.getElem_map, List.getElem_range]
    rw [(hPN d hd).2.1, ← hqd d hd, List.getD_eq_getElem _ _ h2]
  obtain ⟨c, c1, c2, c3⟩ := Verif.tensorMatrixProduct_all y _ hfit
  have hcs : c.shape = cards bs := by
    rw [c2]
    apply List.ext_getElem (by simp [cards])
    intro d h1 h2
    have hd : d < bs.length := by rw [← hcl]; exact h2
    rw [List.getElem_map, List.getElem_map, List.getElem_range, (hPN d hd).2.1, List.getD_eq_getElem (cards bs) _ h2]; rfl
  have hPd : ∀ d, d < bs.length → ((List.range bs.length).map P).getD d emptyArr = P d := by
    intro d hd
    rw [List.getD_eq_getElem _ _ (by simpa using hd), List.getElem_map, List.getElem_range]
  have hc : ∀ i, InBox (cards bs) i → c.get i = sumBox r.points.shape (fun k => y.get k *
      ∏ d ∈ range r.points.shape.length, (P d).get [i.getD d 0, k.getD d 0]) := by
    intro i hi
    rw [c3 i (by rw [hcs]; exact hi), y2]
    refine sumBox_congr (fun k hk => ?_)
    rw [zipWith_entries _ i k (by rw [hi.length_eq, hcl]; simp) (by rw [hk.length_eq, hql]; simp), hql, List.length_map, List.length_range]
    congr 1
    exact prod_congr rfl (fun d hd => by rw [hPd d (mem_range.1 hd)])
  -- the scalar products
  have hdot : ∀ (F : List (List ℝ) → ℝ) (j : List Nat), ruleDot r F (fun p => ∏ d ∈ range bs.length,
      (bs.getD d ⟨0, 0, fun _ _ => 0⟩).fn (p.getD d []) (j.getD d 0)) =
      sumBox r.points.shape (fun k => F (nodesAt r.points.grids k) * ∏ d ∈ range r.points.shape.length, (w d (k.getD d 0) * H d (k.getD d 0) (j.getD d 0))) := by
    intro F j
    unfold ruleDot weightAt
    refine sumBox_congr (fun k hk => ?_)
    have hkl : k.length = bs.length := by rw [hk.length_eq, hql]
    rw [h.wlen, hql, prod_mul_distrib]
    beta_reduce
    have : ∏ d ∈ range bs.length, (bs.getD d ⟨0, 0, fun _ _ => 0⟩).fn ((nodesAt r.points.grids k).getD d []) (j.getD d 0) =
        ∏ d ∈ range bs.length, H d (k.getD d 0) (j.getD d 0) := by
      refine prod_congr rfl (fun d hd => ?_)
      have hd' := mem_range.1 hd
      rw [nodesAt_getD (by rw [h.len]; exact hd') (by rw [hkl]; exact hd')]
    rw [this]; ring
  have hval : ∀ (a : Arr ℝ), a.shape = cards bs → ∀ j, InBox (cards bs) j → ruleDot r (value a bs) (fun p => ∏ d ∈ range bs.length,
      (bs.getD d ⟨0, 0, fun _ _ => 0⟩).fn (p.getD d []) (j.getD d 0)) =
      sumBox (cards bs) (fun i => a.get i * ∏ d ∈ range (cards bs).length, M d (j.getD d 0) (i.getD d 0)) := by
    intro a ha j hj
    rw [hdot]
    have e : sumBox r.points.shape (fun k => value a bs (nodesAt r.points.grids k) *
        ∏ d ∈ range r.points.shape.length, (w d (k.getD d 0) * H d (k.getD d 0) (j.getD d 0))) =
        sumBox r.points.shape (fun k => sumBox (cards bs) (fun i => a.get i * ∏ d ∈ range (cards bs).length, H d (k.getD d 0) (i.getD d 0)) *
        ∏ d ∈ range r.points.shape.length, (w d (k.getD d 0) * H d (k.getD d 0) (j.getD d 0))) :=
      sumBox_congr (fun k hk => by rw [value_grid bs _ h.len a ha (by rw [hk.length_eq, hql])])
    rw [e, compose r.points.shape (cards bs) (by rw [hql, hcl]) (fun d a k => w d k * H d k a) H (fun i => a.get i) j]
    refine sumBox_congr (fun i _ => ?_)
    rw [hql, hcl]
    congr 1
    refine prod_congr rfl (fun d hd => ?_)
    rw [hqd d (mem_range.1 hd)]
  refine ⟨c, ?_, hcs, fun j hj => ⟨?_, fun a ha hz => ?_⟩⟩
  · have hm : FTn.mk' (.full c) bs = .ok ⟨.full c, bs⟩ := by
      unfold FTn.mk'
      rw [if_neg]
      show ¬ c.shape.length ≠ bs.length
      rw [hcs, hcl]; simp
    have hyo : y.order = bs.length := by show y.shape.length = _; rw [y2, hql]
    have c1' : FullTensor.tensorMatrixProduct y ((List.range bs.length).map P) (some (List.range ((List.range bs.length).map P).length)) = .ok c := by
      rw [← c1]
      unfold FullTensor.tensorMatrixProduct
      rw [List.length_map, List.length_range, hyo]
      rfl
    have hsz : y.shape.prod = n ^ bs.length := by rw [y2, hq, List.prod_replicate]
    simp only [fullProjection, y1, x1, hPs, c1', hm, hsz, bind, Except.bind]
  · rw [hval c hcs j hj, hdot]
    have hjv := (inBox_iff_getD _ _).1 hj
    have e : sumBox (cards bs) (fun i => c.get i * ∏ d ∈ range (cards bs).length, M d (j.getD d 0) (i.getD d 0)) =
        sumBox (cards bs) (fun i => sumBox r.points.shape (fun k => y.get k *
          ∏ d ∈ range r.points.shape.length, (P d).get [i.getD d 0, k.getD d 0]) * ∏ d ∈ range (cards bs).length, M d (j.getD d 0) (i.getD d 0)) :=
      sumBox_congr (fun i hi => by rw [hc i hi])
    rw [e, compose (cards bs) r.points.shape (by rw [hql, hcl]) M (fun d a k => (P d).get [a, k]) (fun k => y.get k) j]
    refine sumBox_congr (fun k hk => ?_)
    have hkv := (inBox_iff_getD _ _).1 hk
    rw [y3 k hk, nodesAt_flatten, hql, hcl]
    congr 1
    refine prod_congr rfl (fun d hd => ?_)
    have hd' := mem_range.1 hd
    exact ((hPN d hd').2.2.2 _ _ (hjv.2 d (by rw [hcl]; exact hd')) (by rw [← hqd d hd']; exact hkv.2 d (by rw [hql]; exact hd'))).symm
  · have e := cancel (cards bs) N M (fun d hd i l hi hl => (hPN d (by rw [← hcl]; exact hd)).2.2.1.left i l hi hl) (fun i => a.get i) j hj
    rw [← e]
    refine Eq.trans (sumBox_congr (fun i hi => ?_)) (sumBox_zero (R := ℝ) (cards bs))
    rw [← hval a ha i hi, hz i hi, zero_mul]

/-- The scalar product is linear in the second function. -/
theorem ruleDot_value (bs : List (Basis ℝ)) (r : TensorRule ℝ) (F : List (List ℝ) → ℝ) (a : Arr ℝ) (ha : a.shape = cards bs) :
    ruleDot r F (value a bs) = sumBox (cards bs) (fun j => a.get j * ruleDot r F (fun p => ∏ d ∈ range bs.length,
      (bs.getD d ⟨0, 0, fun _ _ => 0⟩).fn (p.getD d []) (j.getD d 0))) := by
  unfold ruleDot value
  rw [ha]
  rw [show (fun j : List Nat => a.get j * sumBox r.points.shape (fun k => weightAt r.weights k * (F (nodesAt r.points.grids k) *
      ∏ d ∈ range bs.length, (bs.getD d ⟨0, 0, fun _ _ => 0⟩).fn ((nodesAt r.points.grids k).getD d []) (j.getD d 0)))) =
      (fun j => sumBox r.points.shape (fun k => a.get j * (weightAt r.weights k * (F (nodesAt r.points.grids k) *
      ∏ d ∈ range bs.length, (bs.getD d ⟨0, 0, fun _ _ => 0⟩).fn ((nodesAt r.points.grids k).getD d []) (j.getD d 0))))) from
    funext (fun j => (sumBox_mul_left _ _ _).symm), sumBox_comm]
  refine sumBox_congr (fun k _ => ?_)
  rw [← sumBox_mul_left, ← sumBox_mul_left]
  refine sumBox_congr (fun j _ => ?_)
  ring

theorem ruleDot_sub (r : TensorRule ℝ) (F G L : List (List ℝ) → ℝ) : ruleDot r (fun p => F p - G p) L = ruleDot r F L - ruleDot r G L := by
  unfold ruleDot
  rw [sumBox_eq_sum, sumBox_eq_sum, sumBox_eq_sum, ← sum_sub_distrib]
  exact sum_congr rfl (fun k _ => by ring)

/-- C164. With a rule that determines the functions of each basis and has the same number of points in each dimension, the projection is accepted
and gives the only function of the space whose difference with the given one is orthogonal to the space, for the scalar product of the
rule. The function is evaluated once at each point of the grid. -/
theorem fullProjection_partial (bs : List (Basis ℝ)) (r : TensorRule ℝ) (n : Nat) (hbs : bs ≠ []) (h : RuleOk bs r n) (f : List ℝ → ℝ) :
    ∃ c, fullProjection bs f (.tensor r) = .ok (⟨.full c, bs⟩, n ^ bs.length) ∧ c.shape = cards bs ∧ Projects bs r f c ∧
      ∀ a : Arr ℝ, a.shape = cards bs → Projects bs r f a → ∀ j, InBox (cards bs) j → a.get j = c.get j := by
  obtain ⟨c, c1, c2, c3⟩ := coefficients_ok hbs h f
  have hP : Projects bs r f c := by
    intro a ha
    rw [ruleDot_value bs r _ a ha]
    refine Eq.trans (sumBox_congr (fun j hj => ?_)) (sumBox_zero (R := ℝ) (cards bs))
    rw [ruleDot_sub r (fun p => f p.flatten) (value c bs), (c3 j hj).1, sub_self, mul_zero]
  refine ⟨c, c1, c2, hP, fun a ha hpa j hj => ?_⟩
  -- the difference of the two functions
  let e : Arr ℝ := ⟨cards bs, fun i => a.get i - c.get i⟩
  have hve : ∀ p, value e bs p = value a bs p - value c bs p := by
    intro p
    unfold value
    rw [ha, c2]
    show sumBox (cards bs) _ = _
    rw [sumBox_eq_sum, sumBox_eq_sum, sumBox_eq_sum, ← sum_sub_distrib]
    exact sum_congr rfl (fun i _ => by simp only [e]; ring)
  have hz := (c3 j hj).2 e rfl (fun i hi => by
    have hve' : value e bs = fun p => value a bs p - value c bs p := funext hve
    rw [hve', ruleDot_sub r (value a bs) (value c bs), ← (c3 i hi).1]
    let m : Arr ℝ := ⟨cards bs, fun l => if i = l then 1 else 0⟩
    have hm := hpa m rfl
    have hvm : value m bs = fun p => ∏ d ∈ range bs.length, (bs.getD d ⟨0, 0, fun _ _ => 0⟩).fn (p.getD d []) (i.getD d 0) := by
      funext p
      unfold value
      exact sumBox_eq_at hi (fun l => ∏ d ∈ range bs.length, (bs.getD d ⟨0, 0, fun _ _ => 0⟩).fn (p.getD d []) (l.getD d 0))
    rw [hvm, ruleDot_sub r (fun p => f p.flatten) (value a bs)] at hm
    linarith)
  have : a.get j - c.get j = 0 := hz
  linarith

/-- C164. If the weights are nonnegative, the projection is the best approximation for the weighted sum of squares. -/
theorem fullProjection_best_partial (bs : List (Basis ℝ)) (r : TensorRule ℝ) (n : Nat) (hbs : bs ≠ []) (h : RuleOk bs r n)
    (hw : ∀ w ∈ r.weights, ∀ t ∈ w, 0 ≤ t) (f : List ℝ → ℝ) :
    ∃ c, fullProjection bs f (.tensor r) = .ok (⟨.full c, bs⟩, n ^ bs.length) ∧
      ∀ a : Arr ℝ, a.shape = cards bs → ruleDot r (fun p => f p.flatten - value c bs p) (fun p => f p.flatten - value c bs p) ≤
        ruleDot r (fun p => f p.flatten - value a bs p) (fun p => f p.flatten - value a bs p) := by
  obtain ⟨c, c1, c2, c3, _⟩ := fullProjection_partial bs r n hbs h f
  refine ⟨c, c1, fun a ha => ?_⟩
  have hca := c3 a ha
  have hcc := c3 c c2
  have hsum : ruleDot r (fun p => f p.flatten - value a bs p) (fun p => f p.flatten - value a bs p) =
      ruleDot r (fun p => f p.flatten - value c bs p) (fun p => f p.flatten - value c bs p) +
      (2 * ruleDot r (fun p => f p.flatten - value c bs p) (value c bs) - 2 * ruleDot r (fun p => f p.flatten - value c bs p) (value a bs)) +
      ruleDot r (fun p => value c bs p - value a bs p) (fun p => value c bs p - value a bs p) := by
    unfold ruleDot
    simp only [sumBox_eq_sum]
    rw [Finset.mul_sum, Finset.mul_sum, ← sum_sub_distrib, ← sum_add_distrib, ← sum_add_distrib]
    exact sum_congr rfl (fun k _ => by ring)
  have hnn : 0 ≤ ruleDot r (fun p => value c bs p - value a bs p) (fun p => value c bs p - value a bs p) := by
    unfold ruleDot
    rw [sumBox_eq_sum]
    refine sum_nonneg (fun k _ => mul_nonneg ?_ (mul_self_nonneg _))
    unfold weightAt
    refine prod_nonneg (fun d hd => ?_)
    have hd' := mem_range.1 hd
    rw [List.getD_eq_getElem _ _ hd']
    by_cases hk : k.getD d 0 < (r.weights[d]).length
    · rw [List.getD_eq_getElem _ _ hk]
      exact hw _ (List.getElem_mem hd') _ (List.getElem_mem hk)
    · rw [List.getD_eq_default _ _ (by omega)]
  rw [hsum, hca, hcc]
  linarith

/-- C164. A function of the space is reproduced at all points. -/
theorem fullProjection_exact_partial (bs : List (Basis ℝ)) (r : TensorRule ℝ) (n : Nat) (hbs : bs ≠ []) (h : RuleOk bs r n) (f : List ℝ → ℝ)
    (a : Arr ℝ) (ha : a.shape = cards bs) (hf : ∀ p : List (List ℝ), p.map List.length = bs.map Basis.ndim → f p.flatten = value a bs p) :
    ∃ g m, fullProjection bs f (.tensor r) = .ok (g, m) ∧
      ∀ pts : List (List (List ℝ)), (∀ p ∈ pts, p.map List.length = bs.map Basis.ndim) →
        ∃ v, g.eval (pts.map List.flatten) = .ok v ∧ v.shape = [pts.length] ∧ ∀ k, k < pts.length → v.get [k] = f (pts.getD k []).flatten := by
  obtain ⟨c, c1, c2, _, c4⟩ := fullProjection_partial bs r n hbs h f
  have hq : r.points.shape.length = bs.length := by simp [FullGrid.shape, h.len]
  have hac := c4 a ha (fun b hb => by
    unfold ruleDot
    refine Eq.trans (sumBox_congr (fun k hk => ?_)) (sumBox_zero (R := ℝ) r.points.shape)
    have hkv := (inBox_iff_getD _ _).1 hk
    have hd : (nodesAt r.points.grids k).map List.length = bs.map Basis.ndim := by
      apply List.ext_getElem (by simp [nodesAt, h.len, hkv.1, hq])
      intro d h1 h2
      have hd : d < bs.length := by simpa using h2
      have hdG : d < r.points.grids.length := by rw [h.len]; exact hd
      rw [List.getElem_map, List.getElem_map]
      have e := nodesAt_getD (G := r.points.grids) (idx := k) hdG (by rw [hkv.1, hq]; exact hd)
      rw [List.getD_eq_getElem _ _ (by simpa using h1)] at e
      rw [e]
      have hj : k.getD d 0 < (r.points.grids.getD d []).length := by
        have := hkv.2 d (by rw [hq]; exact hd)
        rw [List.getD_eq_getElem r.points.shape _ (by rw [hq]; exact hd)] at this
        rw [List.getD_eq_getElem _ _ hdG]
        simpa [FullGrid.shape] using this
      have := h.dims d hd ((r.points.grids.getD d []).getD (k.getD d 0) []) (by
        rw [List.getD_eq_getElem (r.points.grids.getD d []) _ hj]; exact List.getElem_mem hj)
      rw [this, List.getD_eq_getElem bs _ hd]
    beta_reduce
    rw [hf _ hd, sub_self, zero_mul, mul_zero])
  refine ⟨_, _, c1, fun pts hpts => ?_⟩
  obtain ⟨v, v1, v2, v3⟩ := eval_full c bs hbs c2 pts hpts
  refine ⟨v, v1, v2, fun k hk => ?_⟩
  have hp : (pts.getD k []).map List.length = bs.map Basis.ndim := by
    rw [List.getD_eq_getElem _ _ hk]; exact hpts _ (List.getElem_mem hk)
  rw [v3 k hk, hf _ hp]
  unfold value
  rw [c2, ha]
  exact sumBox_congr (fun idx hidx => by rw [hac idx hidx])

/-- C164, what is false: a rule whose numbers of points are not the same in all dimensions is refused, whatever the bases and the function. -/
theorem fullProjection_wrong (bs : List (Basis ℝ)) (r : TensorRule ℝ) (f : List ℝ → ℝ) (hne : ∀ g ∈ r.points.grids, g ≠ [])
    (g g' : List (List ℝ)) (hg : g ∈ r.points.grids) (hg' : g' ∈ r.points.grids) (hl : g.length ≠ g'.length) :
    fullProjection bs f (.tensor r) = .error .valueError := by
  obtain ⟨g0, gs, he⟩ := List.exists_cons_of_ne_nil (l := r.points.grids) (by intro h0; rw [h0] at hg; cases hg)
  obtain ⟨y, y1, _⟩ := valuesOnGrid_ok f r.points (by rw [he]; simp) hne
  have hx : hstackGrids r.points.grids = .error .valueError := by
    unfold hstackGrids
    rw [he]
    simp only
    rw [← he, if_neg]
    intro hall
    rw [List.all_eq_true] at hall
    have h1 := hall g hg
    have h2 := hall g' hg'
    simp at h1 h2
    exact hl (h1.trans h2.symm)
  simp only [fullProjection, y1, hx, bind, Except.bind]

/-- C164. A rule that is not a tensor product rule is refused. -/
theorem fullProjection_refuses (bs : List (Basis ℝ)) (f : List ℝ → ℝ) : fullProjection bs f .other = .error .notImplemented := rfl

/-! ### the hypotheses are met -/

/-- Two points with weights 1/2 in each of two dimensions. -/
noncomputable def exRule : TensorRule ℝ := ⟨⟨[[[0], [1]], [[2], [4]]]⟩, [[1 / 2, 1 / 2], [1 / 2, 1 / 2]]⟩

theorem exRule_ok : RuleOk [exMono 2, exMono 1] exRule 2 where
  pos := by omega
  len := rfl
  wlen := rfl
  pts := by simp [exRule]
  wts := by simp [exRule]
  dims := by
    intro d hd
    have hd : d < 2 := hd
    interval_cases d <;> simp [exRule, exMono]
  gram := by
    intro d hd u hu j hj
    have hd : d < 2 := hd
    interval_cases d
    · have h0 := hu 0 (by show 0 < 2; omega)
      have h1 := hu 1 (by show 1 < 2; omega)
      simp [exRule, exMono, Finset.sum_range_succ] at h0 h1
      have hj : j < 2 := hj
      interval_cases j <;> linarith
    · have h0 := hu 0 (by show 0 < 1; omega)
      simp [exRule, exMono, Finset.sum_range_succ] at h0
      have hj : j < 1 := hj
      interval_cases j
      linarith

example : ∃ c, fullProjection [exMono 2, exMono 1] (fun p => p.sum) (.tensor exRule) = .ok (⟨.full c, [exMono 2, exMono 1]⟩, 4) ∧ c.shape = [2, 1] := by
  obtain ⟨c, c1, c2, _⟩ := fullProjection_partial [exMono 2, exMono 1] exRule 2 (by simp) exRule_ok (fun p => p.sum)
  exact ⟨c, c1, c2⟩

/-- A rule with two points in the first dimension and one in the second. -/
example (f : List ℝ → ℝ) : fullProjection [exMono 2, exMono 1] f (.tensor ⟨⟨[[[0], [1]], [[2]]]⟩, [[1 / 2, 1 / 2], [1]]⟩) = .error .valueError :=
  fullProjection_wrong _ _ f (by simp) [[0], [1]] [[2]] (by simp) (by simp) (by simp)

end Verif.TensorInterp
