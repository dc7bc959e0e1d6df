import Verif.Model.FunctionalPca
import Verif.Props.Pca
import Verif.Props.FunctionalTensor
import Verif.Props.CondExp
import Verif.Props.Magic

/-!
# Principal component analysis of multivariate functions (C149-C152)
-/

namespace Verif.FunctionalPca

open Verif.Arr Verif.DimTree Verif.TreeBased Verif.Truncation Verif.Grids Verif.FunctionalTensor Verif.Pca Finset

/-! ### the grid -/

/-- The functions of the basis are linearly independent on the points `x`. -/
def Independent (b : Basis ℝ) (x : List (List ℝ)) : Prop :=
  ∀ u : Nat → ℝ, (∀ p ∈ x, ∑ j ∈ range b.card, b.fn p j * u j = 0) → ∀ j, j < b.card → u j = 0

/-- The points `g` are as many points of `x` as functions in the basis, and the interpolation problem at these points has a solution for
all data. -/
structure Nodes (b : Basis ℝ) (x g : List (List ℝ)) : Prop where
  len : g.length = b.card
  sub : ∀ p ∈ g, p ∈ x
  solve : ∀ y : Nat → ℝ, ∃ u : Nat → ℝ, ∀ a, a < b.card → ∑ j ∈ range b.card, b.fn (g.getD a []) j * u j = y a

theorem Nodes.det {b : Basis ℝ} {x g : List (List ℝ)} (h : Nodes b x g) : (fm b.card b.card (fun i j => (b.eval g).get [i, j])).det ≠ 0 := by
  have hs : Function.Surjective (fm b.card b.card (fun i j => (b.eval g).get [i, j])).mulVec := by
    intro y
    obtain ⟨u, hu⟩ := h.solve (fun a => if h : a < b.card then y ⟨a, h⟩ else 0)
    refine ⟨fun j => u j.val, ?_⟩
    ext a
    have := hu a.val a.2
    rw [dif_pos a.2, Magic.sum_fin_range] at this
    rw [← this]
    rfl
  have := Matrix.mulVec_surjective_iff_isUnit.1 hs
  exact ((Matrix.isUnit_iff_isUnit_det _).1 this).ne_zero

theorem interpolationPoints_ok (b : Basis ℝ) (x : List (List ℝ)) (hc : 0 < b.card) (h : Independent b x) :
    ∃ g, interpolationPoints b x = .ok g ∧ Nodes b x g := by
  have hN : 0 < x.length := by
    rcases x with _ | ⟨p, x⟩
    · exact absurd (h (fun _ => 1) (by simp) 0 hc) one_ne_zero
    · simp
  obtain ⟨points, ind, Λ, h1, h2, _, h4, h5, _⟩ := Magic.magicPoints_spec (fun p (j : Fin b.card) => b.fn p j.val)
    (fun i : Fin x.length => x.get i) hN (fun u hu => by
      have := h (fun j => if hj : j < b.card then u ⟨j, hj⟩ else 0) (fun p hp => by
        obtain ⟨i, rfl⟩ := List.get_of_mem hp
        rw [Magic.sum_fin_range, ← hu i]
        unfold Magic.fn
        refine sum_congr rfl (fun j _ => ?_)
        rw [dif_pos j.2])
      ext j
      have := this j.val j.2
      rw [dif_pos j.2] at this
      exact this)
  refine ⟨List.ofFn points, by simp only [interpolationPoints, h1, bind, Except.bind], ⟨by rw [List.length_ofFn, h2], ?_, ?_⟩⟩
  · intro p hp
    obtain ⟨a, rfl⟩ := List.mem_ofFn.1 hp
    rw [h4]
    exact List.get_mem _ _
  · intro y
    obtain ⟨u, hu, _⟩ := h5 (fun a => y a.val)
    refine ⟨fun j => if hj : j < b.card then u ⟨j, hj⟩ else 0, fun a ha => ?_⟩
    have := hu ⟨a, by rw [h2]; exact ha⟩
    rw [List.getD_eq_getElem _ _ (by rw [List.length_ofFn, h2]; exact ha), List.getElem_ofFn, ← this, Magic.sum_fin_range]
    unfold Magic.fn
    refine sum_congr rfl (fun j _ => ?_)
    simp only [dif_pos j.2]

/-- Candidate points that are accepted: for each basis, which has at least one function, points on which the functions are linearly
independent. -/
structure CandidatesOk (bs : List (Basis ℝ)) (X : List (List (List ℝ))) : Prop where
  len : bs.length ≤ X.length
  pos : ∀ b ∈ bs, 0 < b.card
  indep : ∀ k, k < bs.length → Independent (bs.getD k ⟨0, 0, fun _ _ => 0⟩) (X.getD k [])

/-- A grid of interpolation nodes for each basis. -/
structure GridOk (bs : List (Basis ℝ)) (X G : List (List (List ℝ))) : Prop where
  len : G.length = bs.length
  nodes : ∀ k, k < bs.length → Nodes (bs.getD k ⟨0, 0, fun _ _ => 0⟩) (X.getD k []) (G.getD k [])

theorem gridPoints_ok (bs : List (Basis ℝ)) (X : List (List (List ℝ))) (h : CandidatesOk bs X) :
    ∃ G, gridPoints bs X = .ok G ∧ GridOk bs X G := by
  have key : ∀ k, ∃ g, k < bs.length → (pointsOf X (bs.getD k ⟨0, 0, fun _ _ => 0⟩, k) = .ok g ∧
      Nodes (bs.getD k ⟨0, 0, fun _ _ => 0⟩) (X.getD k []) g) := by
    intro k
    by_cases hk : k < bs.length
    · obtain ⟨g, g1, g2⟩ := interpolationPoints_ok (bs.getD k ⟨0, 0, fun _ _ => 0⟩) (X.getD k [])
        (by rw [List.getD_eq_getElem _ _ hk]; exact h.pos _ (List.getElem_mem hk)) (h.indep k hk)
      have hX : k < X.length := lt_of_lt_of_le hk h.len
      refine ⟨g, fun _ => ⟨?_, g2⟩⟩
      unfold pointsOf
      simp only
      rw [List.getElem?_eq_getElem hX]
      rw [List.getD_eq_getElem _ _ hX] at g1
      exact g1
    · exact ⟨[], fun hh => absurd hh hk⟩
  choose g hg using key
  refine ⟨(List.range bs.length).map g, ?_, by simp, fun k hk => ?_⟩
  · unfold gridPoints
    rw [mapM_ok_iff, List.forall₂_iff_get]
    refine ⟨by simp, fun k h1 h2 => ?_⟩
    have hk : k < bs.length := by simpa using h1
    simp only [List.get_eq_getElem, List.getElem_zipIdx, List.getElem_map, List.getElem_range, zero_add]
    have := (hg k hk).1
    rw [List.getD_eq_getElem _ _ hk] at this
    exact this
  · rw [List.getD_eq_getElem ((List.range bs.length).map g) _ (by simpa using hk), List.getElem_map, List.getElem_range]
    exact (hg k hk).2

/-! ### the projection -/

/-- `np.linalg.pinv`: the only property that is used is that it gives the inverse of an invertible matrix. -/
def PinvOk (pinv : Arr ℝ → Arr ℝ) : Prop :=
  ∀ (A : Arr ℝ) (n : Nat), A.shape = [n, n] → (matOf A n n).det ≠ 0 → (pinv A).shape = [n, n] ∧ matOf (pinv A) n n = (matOf A n n)⁻¹

theorem exists_pinv : ∃ pinv, PinvOk pinv := by
  refine ⟨fun A => Magic.toArr ((matOf A (A.shape.getD 0 0) (A.shape.getD 0 0))⁻¹), fun A n hA _ => ?_⟩
  have e : A.shape.getD 0 0 = n := by rw [hA]; rfl
  subst e
  refine ⟨rfl, ?_⟩
  ext i j
  show (if h : _ then _ else _) = _
  rw [dif_pos ⟨i.2, j.2⟩]
  rfl

theorem PinvOk.invBy {pinv : Arr ℝ → Arr ℝ} (h : PinvOk pinv) {A : Arr ℝ} {n : Nat} (hA : A.shape = [n, n]) (hd : (matOf A n n).det ≠ 0) :
    (pinv A).shape = [n, n] ∧ InvBy n (fun i j => A.get [i, j]) (fun i j => (pinv A).get [i, j]) := by
  obtain ⟨h1, h2⟩ := h A n hA hd
  obtain ⟨N, hN⟩ := exists_inv (n := n) (M := fun i j => A.get [i, j]) (by rw [← matOf_eq]; exact hd)
  have e : fm n n (fun i j => (pinv A).get [i, j]) = fm n n N := by rw [← matOf_eq, h2, matOf_eq, hN.inv]
  have e' : ∀ i j, i < n → j < n → (pinv A).get [i, j] = N i j := fun i j hi hj => congrFun (congrFun e ⟨i, hi⟩) ⟨j, hj⟩
  refine ⟨h1, fun i j hi hj => ?_, fun i j hi hj => ?_⟩
  · rw [← hN.right i j hi hj]
    exact sum_congr rfl (fun k hk => by rw [e' k j (mem_range.1 hk) hj])
  · rw [← hN.left i j hi hj]
    exact sum_congr rfl (fun k hk => by rw [e' i k hi (mem_range.1 hk)])

/-- One dimension: the new tensor is that of the mode product. -/
theorem step_of (x : TBT ℝ) (ts : Nat → Arr ℝ) (M : Arr ℝ) (d : Nat) (hwf : WF ⟨x.tree, ts⟩)
    (hact : ∀ i, (⟨x.tree, ts⟩ : TBT ℝ).active i = x.active i) (hp : d < x.order)
    (hok : MatOk M ((⟨x.tree, ts⟩ : TBT ℝ).shape.getD d 0)) :
    ∃ a, projTensor x ts M (x.tree.dim2ind.getD d 0) = .ok a ∧
      StepOk ⟨x.tree, ts⟩ ⟨x.tree, upd ts (carrier x (x.tree.dim2ind.getD d 0)).1 a⟩ d ∧
      ∀ y0 y, full ⟨x.tree, ts⟩ = .ok y0 → y0 ≃ₐ y → ∃ y' y0', FullTensor.tmpStep y (M, d) = .ok y' ∧
        full ⟨x.tree, upd ts (carrier x (x.tree.dim2ind.getD d 0)).1 a⟩ = .ok y0' ∧ y0' ≃ₐ y' := by
  set z : TBT ℝ := ⟨x.tree, ts⟩ with hz
  set c := x.tree.dim2ind.getD d 0 with hcdef
  have hc : c ∈ z.tree.dim2ind := dim2ind_getD_mem hp
  have hdc : dimOf z.tree c = d := dimOf_getD hwf.valid hp
  have hcar : carrier z c = carrier x c := carrier_congr (x := x) (x' := z) rfl (hact c)
  by_cases ha : x.active c = true
  swap
  · obtain ⟨a, a1, a2, a3⟩ := tmp_step x ts (M, d) hwf hact hp hok
    refine ⟨a, ?_, a2, a3⟩
    unfold projTensor
    rw [if_neg ha, ← a1]
    simp only [← hcdef, carrier_inactive ha]
    rfl
  · obtain ⟨m, hm, hM⟩ := hok
    have hM0 := hM
    rw [← hdc, shape_getD hc] at hM
    have hcx : carrier x c = (c, 0) := carrier_active ha
    have hcz : carrier z c = (c, 0) := by rw [hcar, hcx]
    obtain ⟨n, r, hsh⟩ := hwf.leaf c hc (by rw [hact]; exact ha)
    have hls : z.leafSize c = n := by
      rw [leafSize_carrier, hcz]
      show (z.tensors c).shape.getD 0 0 = n
      rw [hsh]; rfl
    rw [hls] at hM
    obtain ⟨a, a1, a2, a3⟩ := matmul_ok hM hsh
    have hstep : LeafStep z ⟨x.tree, upd ts (carrier x c).1 a⟩ c m (fun i j => M.get [i, j]) := by
      refine ⟨rfl, ?_, ?_, ?_⟩
      · intro i hi
        rw [hcz] at hi
        show upd ts (carrier x c).1 a i = _
        rw [hcx]
        unfold upd; rw [if_neg hi]
      · rw [hcz, hcx]
        show (upd ts c a c).shape = (z.tensors c).shape.set 0 m
        unfold upd; rw [if_pos rfl, a2, hsh]; rfl
      · intro idx hidx
        rw [hcz] at hidx ⊢
        simp only at hidx ⊢
        rw [hsh] at hidx
        rw [hls, hcx]
        show (upd ts c a c).get idx = _
        unfold upd; rw [if_pos rfl]
        match idx, hidx with
        | [i, j], _ =>
          rw [a3]
          exact sum_congr rfl (fun k _ => mul_comm _ _)
    refine ⟨a, ?_, ?_, ?_⟩
    · unfold projTensor
      rw [if_pos ha]
      exact a1
    · have := hstep.stepOk hwf hc hm
      rw [hdc] at this
      exact this
    · intro y0 y hy0 hyy
      obtain ⟨w, w', w1, w2, w3, w4, w5, w6, w7⟩ := hstep.full_step hwf hc hm
      rw [hy0] at w1; cases w1
      have hd0 : d < y0.order := by rw [hdc] at w4; omega
      rw [hdc] at w3 w6 w7
      have hMy : M.shape = [m, y0.shape.getD d 0] := by rw [w6, hls]; exact hM
      obtain ⟨u, v, u1, u2, u3⟩ := FullTensor.tmpStep_congr hyy M d ⟨hd0, m, hMy⟩
      obtain ⟨u', v1, v2, v3⟩ := FullTensor.tmpStep_spec y0 M d m hd0 hMy
      rw [u1] at v1; cases v1
      refine ⟨v, w', u2, w2, Same.trans ⟨by rw [w3, v2], ?_⟩ u3⟩
      intro idx hidx
      rw [w7 idx hidx, v3 idx (by rw [v2, ← w3]; exact hidx), w6]

theorem fold_proj (x : TBT ℝ) (P : List (Arr ℝ)) : ∀ (l : List Nat) (ts : Nat → Arr ℝ) (y0 y : Arr ℝ), l.Nodup → WF ⟨x.tree, ts⟩ →
    (∀ i, (⟨x.tree, ts⟩ : TBT ℝ).active i = x.active i) →
    (∀ d ∈ l, d < x.order ∧ d < P.length ∧ MatOk (P.getD d emptyArr) ((⟨x.tree, ts⟩ : TBT ℝ).shape.getD d 0)) →
    full ⟨x.tree, ts⟩ = .ok y0 → y0 ≃ₐ y →
    ∃ ts' y' y0', l.foldlM (projStep x P) ts = .ok ts' ∧ WF ⟨x.tree, ts'⟩ ∧ (∀ i, (⟨x.tree, ts'⟩ : TBT ℝ).active i = x.active i) ∧
      (l.map (fun d => (P.getD d emptyArr, d))).foldlM FullTensor.tmpStep y = .ok y' ∧ full ⟨x.tree, ts'⟩ = .ok y0' ∧ y0' ≃ₐ y' := by
  intro l
  induction l with
  | nil => intro ts y0 y _ hwf hact _ hy0 hy; exact ⟨ts, y, y0, rfl, hwf, hact, rfl, hy0, hy⟩
  | cons d l ih =>
    intro ts y0 y hnd hwf hact hok hy0 hy
    rw [List.nodup_cons] at hnd
    obtain ⟨o1, o2, o3⟩ := hok d (by simp)
    obtain ⟨a, a1, a2, a3⟩ := step_of x ts _ d hwf hact o1 o3
    obtain ⟨y', y0', b1, b2, b3⟩ := a3 y0 y hy0 hy
    obtain ⟨ts', z, z0, c1, c2, c3, c4, c5, c6⟩ := ih (upd ts (carrier x (x.tree.dim2ind.getD d 0)).1 a) y0' y' hnd.2 a2.wf
      (fun i => by rw [a2.active, hact]) (fun q hq => by
        obtain ⟨q1, q2, q3⟩ := hok q (by simp [hq])
        refine ⟨q1, q2, ?_⟩
        rw [a2.shape q (fun e => hnd.1 (e ▸ hq))]
        exact q3) b2 b3
    refine ⟨ts', z, z0, ?_, c2, c3, ?_, c5, c6⟩
    · rw [List.foldlM_cons]
      have e : projStep x P ts d = .ok (upd ts (carrier x (x.tree.dim2ind.getD d 0)).1 a) := by
        unfold projStep
        rw [List.getElem?_eq_getElem o2]
        rw [List.getD_eq_getElem _ _ o2] at a1
        simp only [a1, bind, Except.bind]
        unfold carrier
        split <;> rfl
      rw [e]
      exact c1
    · rw [List.map_cons, List.foldlM_cons, b1]; exact c4

/-- Two families of matrices that are inverse of each other: the successive mode products cancel. -/
theorem cancel (s : List Nat) (A B : Nat → Nat → Nat → ℝ)
    (h : ∀ k, k < s.length → ∀ i j, i < s.getD k 0 → j < s.getD k 0 → ∑ a ∈ range (s.getD k 0), A k i a * B k a j = if i = j then 1 else 0)
    (c : List Nat → ℝ) (i : List Nat) (hi : InBox s i) :
    sumBox s (fun t => sumBox s (fun j => c j * ∏ k ∈ range s.length, B k (t.getD k 0) (j.getD k 0)) *
      ∏ k ∈ range s.length, A k (i.getD k 0) (t.getD k 0)) = c i := by
  have e1 : ∀ t : List Nat, sumBox s (fun j => c j * ∏ k ∈ range s.length, B k (t.getD k 0) (j.getD k 0)) *
      ∏ k ∈ range s.length, A k (i.getD k 0) (t.getD k 0) =
      sumBox s (fun j => c j * ∏ k ∈ range s.length, (A k (i.getD k 0) (t.getD k 0) * B k (t.getD k 0) (j.getD k 0))) := by
    intro t
    rw [← sumBox_mul_right]
    congr 1
    funext j
    rw [prod_mul_distrib]; ring
  rw [show (fun t : List Nat => sumBox s (fun j => c j * ∏ k ∈ range s.length, B k (t.getD k 0) (j.getD k 0)) *
      ∏ k ∈ range s.length, A k (i.getD k 0) (t.getD k 0)) = _ from funext e1, sumBox_comm]
  rw [← sumBox_pick hi c]
  refine sumBox_congr (fun j hj => ?_)
  rw [sumBox_mul_left, sumBox_prodF s (fun k a => A k (i.getD k 0) a * B k a (j.getD k 0))]
  congr 1
  have hi' := (inBox_iff_getD _ _).1 hi
  have hj' := (inBox_iff_getD _ _).1 hj
  rw [prod_congr rfl (fun k hk => h k (mem_range.1 hk) _ _ (hi'.2 k (mem_range.1 hk)) (hj'.2 k (mem_range.1 hk)))]
  by_cases hij : i = j
  · subst hij; simp
  · rw [if_neg hij]
    by_contra hne
    apply hij
    apply List.ext_getElem (by rw [hi'.1, hj'.1])
    intro k k1 k2
    have hk : k < s.length := by rw [← hi'.1]; exact k1
    by_contra hk'
    apply hne
    refine prod_eq_zero (mem_range.2 hk) (if_neg ?_)
    rw [List.getD_eq_getElem _ _ k1, List.getD_eq_getElem _ _ k2]
    exact hk'

/-- The variables of the point of the grid with the subscripts `idx`, one list per basis. -/
def nodesAt (G : List (List (List ℝ))) (idx : List Nat) : List (List ℝ) := List.zipWith (fun g j => g.getD j []) G idx

theorem nodesAt_flatten (G : List (List (List ℝ))) (idx : List Nat) : (nodesAt G idx).flatten = gridPoint G idx := rfl

theorem nodesAt_getD {G : List (List (List ℝ))} {idx : List Nat} {k : Nat} (h1 : k < G.length) (h2 : k < idx.length) :
    (nodesAt G idx).getD k [] = (G.getD k []).getD (idx.getD k 0) [] := by
  unfold nodesAt
  rw [List.getD_eq_getElem _ _ (by simp; omega), List.getElem_zipWith, List.getD_eq_getElem G _ h1, List.getD_eq_getElem idx _ h2]

theorem GridOk.shape {bs : List (Basis ℝ)} {X G : List (List (List ℝ))} (h : GridOk bs X G) : G.map List.length = cards bs := by
  apply List.ext_getElem (by simp [cards, h.len])
  intro k h1 h2
  have hk : k < bs.length := by simpa [cards] using h2
  have hk' : k < G.length := by rw [h.len]; exact hk
  have := (h.nodes k hk).len
  rw [List.getD_eq_getElem _ _ hk, List.getD_eq_getElem _ _ hk'] at this
  simpa [cards] using this

/-- The values of the basis functions at the nodes. -/
theorem value_nodes {bs : List (Basis ℝ)} {X G : List (List (List ℝ))} (h : GridOk bs X G) (a : Arr ℝ) (ha : a.shape = cards bs)
    {idx : List Nat} (hidx : InBox (cards bs) idx) :
    value a bs (nodesAt G idx) = sumBox (cards bs) (fun j => a.get j * ∏ k ∈ range (cards bs).length,
      ((bs.getD k ⟨0, 0, fun _ _ => 0⟩).eval (G.getD k [])).get [idx.getD k 0, j.getD k 0]) := by
  have hl : (cards bs).length = bs.length := by simp [cards]
  unfold value
  rw [ha, hl]
  refine sumBox_congr (fun j _ => ?_)
  congr 1
  refine prod_congr rfl (fun k hk => ?_)
  have hk' := mem_range.1 hk
  rw [nodesAt_getD (by rw [h.len]; exact hk') (by rw [hidx.length_eq, hl]; exact hk')]
  rfl

/-- The operators of the projection are the inverses of the matrices of the values at the nodes. -/
theorem operators_ok {pinv : Arr ℝ → Arr ℝ} (hp : PinvOk pinv) {bs : List (Basis ℝ)} {X G : List (List (List ℝ))} (h : GridOk bs X G) :
    (projectionOperators pinv bs G).length = bs.length ∧ ∀ k, k < bs.length →
      ((projectionOperators pinv bs G).getD k emptyArr).shape = [(cards bs).getD k 0, (cards bs).getD k 0] ∧
      InvBy ((cards bs).getD k 0) (fun i j => ((bs.getD k ⟨0, 0, fun _ _ => 0⟩).eval (G.getD k [])).get [i, j])
        (fun i j => ((projectionOperators pinv bs G).getD k emptyArr).get [i, j]) := by
  have hlen : (projectionOperators pinv bs G).length = bs.length := by simp [projectionOperators, h.len]
  refine ⟨hlen, fun k hk => ?_⟩
  have hkG : k < G.length := by rw [h.len]; exact hk
  have e : (projectionOperators pinv bs G).getD k emptyArr = pinv ((bs.getD k ⟨0, 0, fun _ _ => 0⟩).eval (G.getD k [])) := by
    rw [List.getD_eq_getElem _ _ (by rw [hlen]; exact hk), List.getD_eq_getElem _ _ hk, List.getD_eq_getElem _ _ hkG]
    simp [projectionOperators]
  have hn : (cards bs).getD k 0 = (bs.getD k ⟨0, 0, fun _ _ => 0⟩).card := by
    rw [List.getD_eq_getElem _ _ hk, List.getD_eq_getElem _ _ (by simpa [cards] using hk)]
    simp [cards]
  have hN := h.nodes k hk
  rw [e, hn]
  exact hp.invBy (by show [(G.getD k []).length, _] = _; rw [hN.len]) (by rw [matOf_eq]; exact hN.det)

/-- C149. The projection of a tensor is accepted, and is the function of the tensor product space whose values at the points of the grid
are the entries of the tensor; if these are the values of a function of the space, it has the coefficients of this function. -/
theorem project_spec {pinv : Arr ℝ → Arr ℝ} (hp : PinvOk pinv) {bs : List (Basis ℝ)} {X G : List (List (List ℝ))} (h : GridOk bs X G)
    (hpos : ∀ b ∈ bs, 0 < b.card) (x : TBT ℝ) (hx : WF x) (hs : x.shape = cards bs) (y : Arr ℝ) (hy : full x = .ok y) (hys : y.shape = cards bs) :
    ∃ w z, project pinv x bs G = .ok ⟨.tree w, bs⟩ ∧ w.tree = x.tree ∧ (∀ i, w.active i = x.active i) ∧ Represents (.tree w) z ∧ z.shape = cards bs ∧
      (∀ idx, InBox (cards bs) idx → value z bs (nodesAt G idx) = y.get idx) ∧
      ∀ c : Arr ℝ, c.shape = cards bs → (∀ idx, InBox (cards bs) idx → y.get idx = value c bs (nodesAt G idx)) →
        ∀ idx, InBox (cards bs) idx → z.get idx = c.get idx := by
  obtain ⟨hPl, hP⟩ := operators_ok hp h
  have ho : x.order = bs.length := by
    have := congrArg List.length hs
    simpa [TBT.shape, TBT.order, cards] using this
  have hcl : (cards bs).length = bs.length := by simp [cards]
  have hcp : ∀ k, k < bs.length → 0 < (cards bs).getD k 0 := by
    intro k hk
    rw [List.getD_eq_getElem _ _ (by rw [hcl]; exact hk)]
    simpa [cards] using hpos _ (List.getElem_mem hk)
  obtain ⟨ts, z', z, f1, f2, fa, f3, f4, f5⟩ := fold_proj x (projectionOperators pinv bs G) (List.range x.order) x.tensors y y List.nodup_range hx
    (fun _ => rfl) (fun d hd => by
      have hd' := List.mem_range.1 hd
      refine ⟨hd', by omega, (cards bs).getD d 0, hcp d (by omega), ?_⟩
      rw [show (⟨x.tree, x.tensors⟩ : TBT ℝ).shape = cards bs from hs]
      exact (hP d (by omega)).1) hy (Same.refl y)
  have hmap : (List.range x.order).map (fun d => ((projectionOperators pinv bs G).getD d emptyArr, d)) =
      (projectionOperators pinv bs G).zip (List.range y.order) := by
    apply List.ext_getElem
    · simp [Arr.order, hys, hcl, ho, hPl]
    · intro k h1 h2
      have hk : k < (projectionOperators pinv bs G).length := by simp at h1; omega
      rw [List.getElem_map, List.getElem_range, List.getElem_zip, List.getElem_range, List.getD_eq_getElem _ _ hk]
  have hfit : List.Forall₂ (fun (M : Arr ℝ) n => ∃ m, M.shape = [m, n]) (projectionOperators pinv bs G) y.shape := by
    rw [List.forall₂_iff_get]
    refine ⟨by rw [hys, hcl, hPl], fun k h1 h2 => ⟨(cards bs).getD k 0, ?_⟩⟩
    have := (hP k (by omega)).1
    rw [List.getD_eq_getElem _ _ h1] at this
    simp only [List.get_eq_getElem, hys]
    rw [this, List.getD_eq_getElem _ _ (by omega)]
  obtain ⟨w, w1, w2, w3⟩ := Verif.tensorMatrixProduct_all y _ hfit
  have hw : z' = w := by
    unfold FullTensor.tensorMatrixProduct at w1
    simp only [Option.getD_none] at w1
    rw [if_neg (by simp [Arr.order, hys, hcl, hPl]), ← hmap, f3] at w1
    exact Except.ok.inj w1
  subst hw
  have hws : z'.shape = cards bs := by
    rw [w2]
    apply List.ext_getElem (by simp [hPl, cards])
    intro k h1 h2
    have hk : k < bs.length := by rw [← hcl]; exact h2
    have := (hP k hk).1
    rw [List.getD_eq_getElem _ _ (by rw [hPl]; exact hk)] at this
    rw [List.getElem_map, this, List.getD_eq_getElem _ _ h2]
    rfl
  have hzs : z.shape = cards bs := by rw [f5.1, hws]
  have hz : ∀ idx, InBox (cards bs) idx → z.get idx = sumBox (cards bs) (fun s => y.get s *
      ∏ k ∈ range (cards bs).length, ((projectionOperators pinv bs G).getD k emptyArr).get [idx.getD k 0, s.getD k 0]) := by
    intro idx hidx
    rw [f5.2 idx (by rw [hzs]; exact hidx), w3 idx (by rw [hws]; exact hidx), hys]
    refine sumBox_congr (fun t ht => ?_)
    congr 1
    rw [zipWith_prod _ emptyArr (0, 0) _ _ (cards bs).length (by rw [hPl, hcl]) (by
      rw [List.length_zip, hidx.length_eq, ht.length_eq, min_self])]
    refine prod_congr rfl (fun k hk => ?_)
    have hk' := mem_range.1 hk
    have e : (idx.zip t).getD k (0, 0) = (idx.getD k 0, t.getD k 0) := by
      rw [List.getD_eq_getElem _ _ (by rw [List.length_zip, hidx.length_eq, ht.length_eq, min_self]; exact hk'), List.getElem_zip,
        List.getD_eq_getElem _ _ (by rw [hidx.length_eq]; exact hk'), List.getD_eq_getElem _ _ (by rw [ht.length_eq]; exact hk')]
    rw [e]
  refine ⟨⟨x.tree, ts⟩, z, ?_, rfl, fa, ⟨f2, f4, ?_⟩, hzs, ?_, ?_⟩
  · simp only [project, f1, bind, Except.bind, FTn.mk']
    rw [if_neg]
    show ¬ x.order ≠ bs.length
    omega
  · obtain ⟨y2, r, g1, g2, g3, _⟩ := full_spec _ f2
    rw [f4] at g1; cases g1
    have hzl : z.shape.length = (⟨x.tree, ts⟩ : TBT ℝ).shape.length := by
      rw [hzs, hcl]; simp [TBT.shape, TBT.order] at ho ⊢; omega
    rw [g3, List.length_append] at hzl
    have h0 : rankShape ⟨x.tree, ts⟩ r = [] := List.eq_nil_of_length_eq_zero (by omega)
    rw [g3, h0, List.append_nil]
  · intro idx hidx
    rw [value_nodes h z hzs hidx]
    rw [sumBox_congr (fun t ht => by rw [hz t ht])]
    exact cancel (cards bs) (fun k i a => ((bs.getD k ⟨0, 0, fun _ _ => 0⟩).eval (G.getD k [])).get [i, a])
      (fun k a j => ((projectionOperators pinv bs G).getD k emptyArr).get [a, j])
      (fun k hk i j hi hj => (hP k (by rw [← hcl]; exact hk)).2.right i j hi hj) y.get idx hidx
  · intro c hc hval idx hidx
    rw [hz idx hidx, sumBox_congr (fun t ht => by rw [hval t ht, value_nodes h c hc ht])]
    exact cancel (cards bs) (fun k a j => ((projectionOperators pinv bs G).getD k emptyArr).get [a, j])
      (fun k i a => ((bs.getD k ⟨0, 0, fun _ _ => 0⟩).eval (G.getD k [])).get [i, a])
      (fun k hk i j hi hj => (hP k (by rw [← hcl]; exact hk)).2.left i j hi hj) c.get idx hidx

/-! ### the approximations -/

/-- The call of the method `tree_based_approximation` of the object `tpca` on the function `F` of the subscripts. -/
def pcaArgs (c : Solver') (bs : List (Basis ℝ)) (T : DTree) (act : Nat → Bool) (F : List Nat → ℝ) : Args :=
  ⟨c.svd, c.sampling, F, cards bs, T, act, c.tol, c.maxRank, c.draw⟩

/-- Arguments that are accepted: the projection by interpolation, candidate points on which the bases are independent, and parameters
accepted by the principal component analysis of tensors (`ArgsOk`, which does not depend on the function). -/
structure CallOk (c : Solver') (bs : List (Basis ℝ)) (X : List (List (List ℝ))) (T : DTree) (act : Nat → Bool) : Prop where
  interp : c.interpolation = true
  pinv : PinvOk c.pinv
  points : CandidatesOk bs X
  args : ∀ F, ArgsOk (pcaArgs c bs T act F)

theorem tFun_eq (f : List ℝ → ℝ) {bs : List (Basis ℝ)} {X G : List (List (List ℝ))} (h : GridOk bs X G) {idx : List Nat} (hidx : InBox (cards bs) idx) :
    tFun f G idx = f (gridPoint G idx) := by
  unfold tFun
  rw [gridRow_ok (by rw [h.shape]; exact hidx)]

/-- C150. Every accepted call gives a function of the tensor product space, with the given tree and active leaves, that interpolates the given function:
for whatever samples are drawn, they are equal at the points of the grid whose subscripts are in the output grid of the root, as many as
the product of the ranks of the children of the root (at least one). -/
theorem approximation_interpolates (c : Solver') (f : List ℝ → ℝ) (bs : List (Basis ℝ)) (X : List (List (List ℝ))) (T : DTree)
    (act : Nat → Bool) (h : CallOk c bs X T act) :
    ∃ x z st G D r, treeBasedApproximation c f bs X T act = .ok (⟨.tree x, bs⟩, st, G) ∧ GridOk bs X G ∧ Represents (.tree x) z ∧ z.shape = cards bs ∧
      x.tree = T ∧ (∀ i, IsNode T i → x.active i = (!T.isLeaf i || act i)) ∧
      T.dims = .ok D ∧ T.root = .ok r ∧ st.grids r ≠ [] ∧ (∀ row ∈ st.grids r, InBox (entriesAt (D r) (cards bs)) row) ∧
      ∀ idx, InBox (cards bs) idx → entriesAt (D r) idx ∈ st.grids r → value z bs (nodesAt G idx) = f (nodesAt G idx).flatten := by
  obtain ⟨G, g1, g2⟩ := gridPoints_ok bs X h.points
  obtain ⟨x, st, y, D, r, hA, _, a2, a3, a4⟩ := Pca.approximation_interpolates _ (h.args (tFun f G))
  obtain ⟨t, z, p1, pt, pa, p2, p3, p4, _⟩ := project_spec h.pinv g2 h.points.pos x hA.wf hA.shape y hA.full hA.fullShape
  refine ⟨t, z, st, G, D, r, ?_, g2, p2, p3, pt.trans hA.tree, fun i hi => (pa i).trans (hA.active i hi), hA.dims, hA.root, a2, a3, fun idx hidx hm => ?_⟩
  · have e := hA.call
    unfold Args.call pcaArgs at e
    simp only at e
    simp only [treeBasedApproximation, prepare, h.interp, if_true, g1, e, p1, bind, Except.bind]
  · rw [p4 idx hidx, a4 idx hidx hm, nodesAt_flatten]
    exact tFun_eq f g2 hidx

/-- C151. If the function is in the tensor product space and the principal component analysis of its values on the grid is exact (at each node with a
tensor other than the root, either the tolerance is zero, the sampling not adaptive and the sampling factor at least one, or the
parameter is a rank, at least the rank of the function, and the samples generate its functions), the result is the function: `eval`
gives its values at all points. -/
theorem approximation_exact (c : Solver') (f : List ℝ → ℝ) (bs : List (Basis ℝ)) (X : List (List (List ℝ))) (T : DTree)
    (act : Nat → Bool) (h : CallOk c bs X T act)
    (hX : ∀ k, k < bs.length → ∀ p ∈ X.getD k [], p.length = (bs.getD k ⟨0, 0, fun _ _ => 0⟩).ndim)
    (a : Arr ℝ) (ha : a.shape = cards bs) (hf : ∀ p : List (List ℝ), p.map List.length = bs.map Basis.ndim → f p.flatten = value a bs p)
    (D : Nat → List Nat) (hD : T.dims = .ok D)
    (hres : ∀ G, gridPoints bs X = .ok G → ∀ i, IsNode T i → ¬ IsRoot T i → (!T.isLeaf i || act i) = true →
      ∀ t, minInf ((pcaArgs c bs T act (tFun f G)).tolAt i) (c.maxRank.at i) = some t →
      (t ≤ 0 ∧ 1 ≤ c.factor ∧ c.adaptive = false) ∨
      (1 ≤ t ∧ AlphaRankLe (tFun f G) (cards bs) (D i) ⌊t⌋₊ ∧ SamplesSpan (tFun f G) (cards bs) (D i) (c.draw i ⌈c.factor * t⌉₊))) :
    ∃ g st G, treeBasedApproximation c f bs X T act = .ok (g, st, G) ∧
      ∀ pts : List (List (List ℝ)), (∀ p ∈ pts, p.map List.length = bs.map Basis.ndim) →
        ∃ v, g.eval (pts.map List.flatten) = .ok v ∧ v.shape = [pts.length] ∧ ∀ k, k < pts.length → v.get [k] = f (pts.getD k []).flatten := by
  obtain ⟨G, g1, g2⟩ := gridPoints_ok bs X h.points
  obtain ⟨x, st, y, r, hA, a4⟩ := Pca.approximation_exact _ (h.args (tFun f G)) D hD (hres G g1)
  obtain ⟨t, z, p1, _, _, p2, p3, _, p5⟩ := project_spec h.pinv g2 h.points.pos x hA.wf hA.shape y hA.full hA.fullShape
  have hcl : (cards bs).length = bs.length := by simp [cards]
  have hz : ∀ idx, InBox (cards bs) idx → z.get idx = a.get idx := by
    refine p5 a ha (fun idx hidx => ?_)
    have hil : idx.length = bs.length := by rw [hidx.length_eq, hcl]
    rw [a4 idx hidx]
    show tFun f G idx = _
    rw [tFun_eq f g2 hidx, ← nodesAt_flatten]
    refine hf _ ?_
    apply List.ext_getElem (by simp [nodesAt, g2.len, hil])
    intro k h1 h2
    have hk : k < bs.length := by simpa using h2
    have hkG : k < G.length := by rw [g2.len]; exact hk
    rw [List.getElem_map, List.getElem_map]
    have e := nodesAt_getD (G := G) (idx := idx) hkG (by omega)
    rw [List.getD_eq_getElem _ _ (by simpa using h1)] at e
    rw [e]
    have hj : idx.getD k 0 < (G.getD k []).length := by
      have := ((inBox_iff_getD _ _).1 hidx).2 k (by omega)
      rw [(g2.nodes k hk).len]
      rw [List.getD_eq_getElem (cards bs) _ (by omega)] at this
      rw [List.getD_eq_getElem bs _ hk]
      simpa [cards] using this
    have := hX k hk _ ((g2.nodes k hk).sub ((G.getD k []).getD (idx.getD k 0) []) (by
      rw [List.getD_eq_getElem (G.getD k []) _ hj]; exact List.getElem_mem hj))
    rw [this, List.getD_eq_getElem bs _ hk]
  refine ⟨⟨.tree t, bs⟩, st, G, ?_, fun pts hpts => ?_⟩
  · have e := hA.call
    unfold Args.call pcaArgs at e
    simp only at e
    simp only [treeBasedApproximation, prepare, h.interp, if_true, g1, e, p1, bind, Except.bind]
  · obtain ⟨g, v, v1, v2, v3, v4⟩ := eval_spec (.tree t) z p2 bs p3 pts hpts
    have hg : g = ⟨.tree t, bs⟩ := by
      unfold FTn.mk' at v1
      split at v1
      · cases v1
      · exact (Except.ok.inj v1).symm
    subst hg
    refine ⟨v, v2, v3, fun k hk => ?_⟩
    have hp : (pts.getD k []).map List.length = bs.map Basis.ndim := by
      rw [List.getD_eq_getElem _ _ hk]; exact hpts _ (List.getElem_mem hk)
    rw [v4 k hk, hf _ hp]
    unfold value
    rw [p3, ha]
    exact sumBox_congr (fun idx hidx => by rw [hz idx hidx])

/-- C150. `tucker_approximation` and `tt_approximation` are the approximation for the trivial tree with all the nodes active, and for the linear tree
where the leaves other than that of the first dimension are not active; the parameters are placed as by the methods for tensors. -/
theorem tuckerApproximation_spec (c : Solver') (f : List ℝ → ℝ) (bs : List (Basis ℝ)) (X : List (List (List ℝ)))
    (ht : c.tol.fits bs.length) (hm : c.maxRank.fits bs.length) :
    ∃ tol' maxRank', tuckerApproximation c f bs X =
        treeBasedApproximation { c with tol := tol', maxRank := maxRank' } f bs X (DTree.trivial bs.length) (fun _ => true) ∧
      Placed c.tol tol' (DTree.trivial bs.length).n bs.length (fun k => (DTree.trivial bs.length).dim2ind.getD k 0) ∧
      Placed c.maxRank maxRank' (DTree.trivial bs.length).n bs.length (fun k => (DTree.trivial bs.length).dim2ind.getD k 0) := by
  have hcl : (cards bs).length = bs.length := by simp [cards]
  have hpr : ∀ tol' maxRank', prepare { c with tol := tol', maxRank := maxRank' } bs X = prepare c bs X := fun _ _ => rfl
  have key : ∀ F : List Nat → ℝ, _ := fun F => Pca.tuckerApproximation_spec c.svd c.sampling F (cards bs) c.tol c.maxRank
    (by rw [hcl]; exact ht) (by rw [hcl]; exact hm) c.draw
  rw [hcl] at key
  cases hG : prepare c bs X with
  | error e =>
    obtain ⟨t', m', _, k2, k3⟩ := key (fun _ => 0)
    refine ⟨t', m', ?_, k2, k3⟩
    simp only [tuckerApproximation, treeBasedApproximation, hpr, hG, bind, Except.bind]
  | ok G =>
    obtain ⟨t', m', k1, k2, k3⟩ := key (tFun f G)
    refine ⟨t', m', ?_, k2, k3⟩
    simp only [tuckerApproximation, treeBasedApproximation, hpr, hG, bind, Except.bind, k1]
    rfl

/-- C150, for `tt_approximation`. -/
theorem ttApproximation_spec (c : Solver') (f : List ℝ → ℝ) (bs : List (Basis ℝ)) (X : List (List (List ℝ))) (hd2 : 2 ≤ bs.length)
    (ht : c.tol.fits (bs.length - 1)) (hm : c.maxRank.fits (bs.length - 1)) :
    ∃ tol' maxRank' node D, ttApproximation c f bs X =
        treeBasedApproximation { c with tol := tol', maxRank := maxRank' } f bs X (DTree.linear (List.range bs.length))
          (fun i => !((DTree.linear (List.range bs.length)).dim2ind.tail.contains i)) ∧
      (DTree.linear (List.range bs.length)).dims = .ok D ∧ (∀ k, k < bs.length - 1 → D (node k) = List.range (k + 1)) ∧
      Placed c.tol tol' (DTree.linear (List.range bs.length)).n (bs.length - 1) node ∧
      Placed c.maxRank maxRank' (DTree.linear (List.range bs.length)).n (bs.length - 1) node := by
  have hcl : (cards bs).length = bs.length := by simp [cards]
  have hpr : ∀ tol' maxRank', prepare { c with tol := tol', maxRank := maxRank' } bs X = prepare c bs X := fun _ _ => rfl
  have key : ∀ F : List Nat → ℝ, _ := fun F => Pca.ttApproximation_spec c.svd c.sampling F (cards bs) (by rw [hcl]; exact hd2) c.tol c.maxRank
    (by rw [hcl]; exact ht) (by rw [hcl]; exact hm) c.draw
  rw [hcl] at key
  cases hG : prepare c bs X with
  | error e =>
    obtain ⟨t', m', node, D, _, k2⟩ := key (fun _ => 0)
    refine ⟨t', m', node, D, ?_, k2⟩
    simp only [ttApproximation, treeBasedApproximation, hpr, hG, bind, Except.bind]
  | ok G =>
    obtain ⟨t', m', node, D, k1, k2⟩ := key (tFun f G)
    refine ⟨t', m', node, D, ?_, k2⟩
    simp only [ttApproximation, treeBasedApproximation, hpr, hG, bind, Except.bind, k1]
    rfl

/-! ### `hopca` -/

/-- C152. `hopca` gives for each basis a basis of functions of the same space, at least one and at most the minimum of the tolerance and
of the maximal rank if it is at least one, whose values at the interpolation points form orthonormal vectors. -/
theorem hopca_spec (c : Solver') (f : List ℝ → ℝ) (bs : List (Basis ℝ)) (X : List (List (List ℝ))) (hi : c.interpolation = true)
    (hpinv : PinvOk c.pinv) (hX : CandidatesOk bs X) (hsvd : SvdOk c.svd) (hs : 0 < c.factor)
    (ht : c.tol.fits bs.length) (hm : c.maxRank.fits bs.length)
    (hfin : ∀ k, k < bs.length → c.tol.at (k + 1) ≠ none ∨ c.maxRank.at (k + 1) ≠ none) (hdraw : ∀ k N, (c.draw k N).length = N) :
    ∃ l G, hopca c f bs X = .ok (l, G) ∧ GridOk bs X G ∧ l.length = bs.length ∧ ∀ k, k < bs.length →
      let b := bs.getD k ⟨0, 0, fun _ _ => 0⟩
      let b' := l.getD k ⟨0, 0, fun _ _ => 0⟩
      b'.ndim = b.ndim ∧ 1 ≤ b'.card ∧
      (∀ t, minInf (c.tol.at (k + 1)) (c.maxRank.at (k + 1)) = some t → 1 ≤ t → (b'.card : ℝ) ≤ t) ∧
      (∃ u : Nat → Nat → ℝ, ∀ p q, b'.fn p q = ∑ j ∈ range b.card, b.fn p j * u j q) ∧
      ∀ q q', q < b'.card → q' < b'.card → ∑ a ∈ range b.card, b'.fn ((G.getD k []).getD a []) q * b'.fn ((G.getD k []).getD a []) q' =
        if q = q' then 1 else 0 := by
  have hcl : (cards bs).length = bs.length := by simp [cards]
  obtain ⟨G, g1, g2⟩ := gridPoints_ok bs X hX
  obtain ⟨hPl, hP⟩ := operators_ok hpinv g2
  have hcd : ∀ k, k < bs.length → (cards bs).getD k 0 = (bs.getD k ⟨0, 0, fun _ _ => 0⟩).card := by
    intro k hk
    rw [List.getD_eq_getElem _ _ hk, List.getD_eq_getElem _ _ (by rw [hcl]; exact hk)]
    simp [cards]
  obtain ⟨out, o1, o2, o3⟩ := Pca.hopca_spec c.svd hsvd c.sampling hs (tFun f G) (cards bs) (by
    intro n hn
    obtain ⟨b, hb, rfl⟩ := List.mem_map.1 hn
    exact hX.pos b hb) c.tol c.maxRank (by rw [hcl]; exact ht) (by rw [hcl]; exact hm) (by rw [hcl]; exact hfin) c.draw hdraw
  rw [hcl] at o2 o3
  have key : ∀ k, ∃ b' : Basis ℝ, k < bs.length → (pcBasis (bs.getD k ⟨0, 0, fun _ _ => 0⟩, (projectionOperators c.pinv bs G).getD k emptyArr,
      (out.map Prod.fst).getD k emptyArr) = .ok b' ∧ b'.ndim = (bs.getD k ⟨0, 0, fun _ _ => 0⟩).ndim ∧ 1 ≤ b'.card ∧
      (∀ t, minInf (c.tol.at (k + 1)) (c.maxRank.at (k + 1)) = some t → 1 ≤ t → (b'.card : ℝ) ≤ t) ∧
      (∃ u : Nat → Nat → ℝ, ∀ p q, b'.fn p q = ∑ j ∈ range (bs.getD k ⟨0, 0, fun _ _ => 0⟩).card, (bs.getD k ⟨0, 0, fun _ _ => 0⟩).fn p j * u j q) ∧
      ∀ q q', q < b'.card → q' < b'.card → ∑ a ∈ range (bs.getD k ⟨0, 0, fun _ _ => 0⟩).card,
        b'.fn ((G.getD k []).getD a []) q * b'.fn ((G.getD k []).getD a []) q' = if q = q' then 1 else 0) := by
    intro k
    by_cases hk : k < bs.length
    swap
    · exact ⟨⟨0, 0, fun _ _ => 0⟩, fun hh => absurd hh hk⟩
    obtain ⟨pc, ne, r, p1, p2, p3, p4, p5⟩ := o3 k hk
    have epc : (out.map Prod.fst).getD k emptyArr = pc := by
      rw [List.getD_eq_getElem?_getD, List.getElem?_map, p1]; rfl
    obtain ⟨q1, q2⟩ := hP k hk
    obtain ⟨C, c1, c2, c3⟩ := matmul_ok q1 p2
    have hcard : (subBasis (bs.getD k ⟨0, 0, fun _ _ => 0⟩) C).card = r := by
      show C.shape.getD 1 0 = r
      rw [c2]; rfl
    refine ⟨subBasis (bs.getD k ⟨0, 0, fun _ _ => 0⟩) C, fun _ => ⟨?_, rfl, by rw [hcard]; exact p3, by rw [hcard]; exact p5,
      ⟨fun j q => C.get [j, q], fun p q => rfl⟩, ?_⟩⟩
    · simp only [pcBasis, epc, c1, bind, Except.bind]
    · intro q q' hq hq'
      rw [hcard] at hq hq'
      have hv : ∀ a, a < (cards bs).getD k 0 → ∀ q, (subBasis (bs.getD k ⟨0, 0, fun _ _ => 0⟩) C).fn ((G.getD k []).getD a []) q = pc.get [a, q] := by
        intro a ha q
        have := q2.symm.apply (x := fun i => pc.get [i, q]) (y := fun i => C.get [i, q]) (fun i _ => c3 i q) a ha
        rw [this]
        show ∑ j ∈ range (bs.getD k ⟨0, 0, fun _ _ => 0⟩).card, _ = _
        rw [← hcd k hk]
        rfl
      rw [← p4 q q' hq hq', ← hcd k hk]
      exact sum_congr rfl (fun a ha => by rw [hv a (mem_range.1 ha), hv a (mem_range.1 ha)])
  choose B hB using key
  refine ⟨(List.range bs.length).map B, G, ?_, g2, by simp, fun k hk => ?_⟩
  · have : (bs.zip ((projectionOperators c.pinv bs G).zip (out.map Prod.fst))).mapM pcBasis = .ok ((List.range bs.length).map B) := by
      rw [mapM_ok_iff, List.forall₂_iff_get]
      refine ⟨by simp [hPl, o2], fun k h1 h2 => ?_⟩
      have hk : k < bs.length := by simpa using h2
      have e := (hB k hk).1
      rw [List.getD_eq_getElem _ _ hk, List.getD_eq_getElem _ _ (by rw [hPl]; exact hk),
        List.getD_eq_getElem (out.map Prod.fst) _ (by simpa [o2] using hk)] at e
      simpa using e
    simp only [hopca, prepare, hi, if_true, g1, o1, this, bind, Except.bind]
  · have e : ((List.range bs.length).map B).getD k ⟨0, 0, fun _ _ => 0⟩ = B k := by
      rw [List.getD_eq_getElem ((List.range bs.length).map B) _ (by simpa using hk), List.getElem_map, List.getElem_range]
    simp only [e]
    exact (hB k hk).2

/-! ### refused calls -/

/-- C149. A projection type other than the interpolation is refused by all the methods. -/
theorem projection_refused (c : Solver') (f : List ℝ → ℝ) (bs : List (Basis ℝ)) (X : List (List (List ℝ))) (T : DTree) (act : Nat → Bool)
    (h : c.interpolation = false) :
    treeBasedApproximation c f bs X T act = .error .valueError ∧ tuckerApproximation c f bs X = .error .valueError ∧
      ttApproximation c f bs X = .error .valueError ∧ hopca c f bs X = .error .valueError := by
  have hp : prepare c bs X = .error .valueError := by simp [prepare, h]
  refine ⟨?_, ?_, ?_, ?_⟩
  · simp only [treeBasedApproximation, hp, bind, Except.bind]
  · simp only [tuckerApproximation, hp, bind, Except.bind]
  · simp only [ttApproximation, hp, bind, Except.bind]
  · simp only [hopca, hp, bind, Except.bind]

/-- C149. If the functions of a basis are not independent on its candidate points, or if they are fewer than the functions, the call raises. -/
theorem points_refused (c : Solver') (f : List ℝ → ℝ) (bs : List (Basis ℝ)) (X : List (List (List ℝ))) (T : DTree) (act : Nat → Bool)
    (k : Nat) (hk : k < bs.length) (h : ¬ Independent (bs.getD k ⟨0, 0, fun _ _ => 0⟩) (X.getD k [])) :
    ∃ e, treeBasedApproximation c f bs X T act = .error e := by
  suffices hp : ∃ e, prepare c bs X = .error e by
    obtain ⟨e, he⟩ := hp
    exact ⟨e, by simp only [treeBasedApproximation, he, bind, Except.bind]⟩
  cases hp : prepare c bs X with
  | error e => exact ⟨e, rfl⟩
  | ok G =>
    exfalso
    unfold prepare at hp
    split at hp
    swap
    · cases hp
    unfold gridPoints at hp
    rw [mapM_ok_iff, List.forall₂_iff_get] at hp
    have hkG : k < G.length := by
      have := hp.1
      simp at this
      omega
    have := hp.2 k (by simpa using hk) hkG
    simp only [List.get_eq_getElem, List.getElem_zipIdx, zero_add, pointsOf] at this
    cases hx : X[k]? with
    | none => rw [hx] at this; cases this
    | some x =>
      rw [hx] at this
      simp only at this
      have hXk : X.getD k [] = x := by rw [List.getD_eq_getElem?_getD, hx]; rfl
      rw [hXk, List.getD_eq_getElem _ _ hk] at h
      unfold Independent at h
      push Not at h
      obtain ⟨u, hu, j, hj, hne⟩ := h
      obtain ⟨e, he⟩ := Magic.magicPoints_error (fun p (j : Fin bs[k].card) => bs[k].fn p j.val) (fun i : Fin x.length => x.get i)
        (fun j => u j.val) (fun i => by
          have := hu _ (List.get_mem x i)
          rw [Magic.sum_fin_range] at this
          exact this) (fun h0 => hne (congrFun h0 ⟨j, hj⟩))
      simp only [interpolationPoints, he, bind, Except.bind] at this
      cases this

/-! ### a concrete case -/

/-- The basis `1, x` of a variable. -/
def exB : Basis ℝ := ⟨1, 2, fun p j => p.getD 0 0 ^ j⟩

noncomputable def exSolver (svd : Svd) (pinv : Arr ℝ → Arr ℝ) : Solver' :=
  ⟨svd, pinv, 1, false, true, .scalar (some 0), .scalar (some 1), fun _ N => List.replicate N [0]⟩

theorem exB_indep : Independent exB [[0], [1], [2]] := by
  intro u hu
  have h0 := hu [0] (by simp)
  have h1 := hu [1] (by simp)
  simp only [exB, sum_range_succ, range_zero, sum_empty] at h0 h1
  simp at h0 h1
  intro j hj
  have : j = 0 ∨ j = 1 := by simp [exB] at hj; omega
  rcases this with rfl | rfl
  · exact h0
  · linarith

theorem exCall_ok (svd : Svd) (pinv : Arr ℝ → Arr ℝ) (h : SvdOk svd) (hp : PinvOk pinv) :
    CallOk (exSolver svd pinv) [exB, exB] [[[0], [1], [2]], [[0], [1], [2]]] (DTree.trivial 2) (fun _ => true) := by
  refine ⟨rfl, hp, ⟨by simp, by simp [exB], fun k hk => ?_⟩, fun F => ?_⟩
  · have : k = 0 ∨ k = 1 := by simp at hk; omega
    rcases this with rfl | rfl <;> exact exB_indep
  · have := exRank_ok svd h
    exact ⟨this.svd, this.factor, this.eim, this.valid, this.order, this.len, this.pos, this.fitsTol, this.fitsRank, this.finite, this.draw, this.box⟩

/-- The hypotheses of the exactness are met for `f(x, y) = 1 + x y`, which is not of rank one. -/
example : ∃ (c : Solver') (bs : List (Basis ℝ)) (X : List (List (List ℝ))) (T : DTree) (a : Arr ℝ) (D : Nat → List Nat),
    CallOk c bs X T (fun _ => true) ∧ T.dims = .ok D ∧ a.shape = cards bs ∧
    (∀ k, k < bs.length → ∀ p ∈ X.getD k [], p.length = (bs.getD k ⟨0, 0, fun _ _ => 0⟩).ndim) ∧
    (∀ p : List (List ℝ), p.map List.length = bs.map Basis.ndim → 1 + p.flatten.getD 0 0 * p.flatten.getD 1 0 = value a bs p) ∧
    ∀ F i t, minInf ((pcaArgs c bs T (fun _ => true) F).tolAt i) (c.maxRank.at i) = some t → t ≤ 0 ∧ 1 ≤ c.factor ∧ c.adaptive = false := by
  obtain ⟨svd, hsvd⟩ := exists_svd
  obtain ⟨pinv, hpinv⟩ := exists_pinv
  obtain ⟨D, hD, _⟩ := dims_ok (trivial_valid 2 (by omega))
  refine ⟨exSolver svd pinv, [exB, exB], _, DTree.trivial 2, ⟨[2, 2], fun i => if i.getD 0 0 = i.getD 1 0 then 1 else 0⟩, D,
    exCall_ok svd pinv hsvd hpinv, hD, rfl, ?_, ?_, ?_⟩
  · intro k hk p hp
    have : k = 0 ∨ k = 1 := by simp at hk; omega
    rcases this with rfl | rfl <;> (simp [exB] at hp ⊢; rcases hp with rfl | rfl | rfl <;> rfl)
  · intro p hp
    match p, hp with
    | [[x], [y]], _ => simp [value, sumBox, exB, prod_range_succ, List.range_succ, sum_range_succ]
  · intro F i t ht
    have hl : ((DTree.trivial 2).nodes.filter (fun _ => true)).length = 3 := by decide
    have e : (pcaArgs (exSolver svd pinv) [exB, exB] (DTree.trivial 2) (fun _ => true) F).tolAt i = some 0 := by
      unfold Args.tolAt
      show (scaleTol (.scalar (some 0)) ((DTree.trivial 2).nodes.filter (fun _ => true)).length).at i = _
      rw [hl]
      simp [scaleTol, Param.at]
    rw [e] at ht
    simp only [exSolver, Param.at, minInf] at ht
    have := Option.some.inj ht
    refine ⟨by rw [← this]; simp, le_rfl, rfl⟩

end Verif.FunctionalPca
