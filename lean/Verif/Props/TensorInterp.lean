import Verif.Model.TensorInterp
import Verif.Props.FunctionalPca
import Verif.Props.SubBasis
import Verif.Props.TensorBases
import Verif.Props.BasisArray

/-!
# Interpolation and projection on tensor product bases (C160-C164)
-/

namespace Verif.TensorInterp

open Verif.Arr Verif.MultiIndices Verif.TreeBased Verif.Grids Verif.Bases Verif.FunctionalTensor Verif.FunctionalPca Verif.Pca Verif.Truncation Finset

/-! ### Kronecker products of matrices -/

/-- The successive mode products: the matrices are multiplied dimension by dimension. -/
theorem compose (s r : List Nat) (hl : r.length = s.length) (A B : Nat → Nat → Nat → ℝ) (c : List Nat → ℝ) (i : List Nat) :
    sumBox s (fun t => sumBox r (fun j => c j * ∏ k ∈ range r.length, B k (t.getD k 0) (j.getD k 0)) *
      ∏ k ∈ range s.length, A k (i.getD k 0) (t.getD k 0)) =
    sumBox r (fun j => c j * ∏ k ∈ range s.length, ∑ a ∈ range (s.getD k 0), A k (i.getD k 0) a * B k a (j.getD k 0)) := by
  have e1 : ∀ t : List Nat, sumBox r (fun j => c j * ∏ k ∈ range r.length, B k (t.getD k 0) (j.getD k 0)) *
      ∏ k ∈ range s.length, A k (i.getD k 0) (t.getD k 0) =
      sumBox r (fun j => c j * ∏ k ∈ range s.length, (A k (i.getD k 0) (t.getD k 0) * B k (t.getD k 0) (j.getD k 0))) := by
    intro t
    rw [← sumBox_mul_right]
    congr 1
    funext j
    rw [prod_mul_distrib, hl]; ring
  rw [show (fun t : List Nat => sumBox r (fun j => c j * ∏ k ∈ range r.length, B k (t.getD k 0) (j.getD k 0)) *
      ∏ k ∈ range s.length, A k (i.getD k 0) (t.getD k 0)) = _ from funext e1, sumBox_comm]
  refine sumBox_congr (fun j _ => ?_)
  rw [sumBox_mul_left, sumBox_prodF s (fun k a => A k (i.getD k 0) a * B k a (j.getD k 0))]

/-- The product of the entries of a list of matrices, written with the positions. -/
theorem zipWith_entries (ms : List (Arr ℝ)) (idx s : List Nat) (h1 : idx.length = ms.length) (h2 : s.length = ms.length) :
    (List.zipWith (fun (M : Arr ℝ) (p : Nat × Nat) => M.get [p.1, p.2]) ms (idx.zip s)).prod =
      ∏ k ∈ range ms.length, (ms.getD k emptyArr).get [idx.getD k 0, s.getD k 0] := by
  induction ms generalizing idx s with
  | nil => simp
  | cons M ms ih =>
    rcases idx with _ | ⟨a, idx⟩
    · simp at h1
    rcases s with _ | ⟨b, s⟩
    · simp at h2
    rw [List.zip_cons_cons, List.zipWith_cons_cons, List.prod_cons, List.length_cons, prod_range_succ', mul_comm,
      ih idx s (by simpa using h1) (by simpa using h2)]
    simp

/-! ### the values on the grid -/

theorem valuesOnGrid_ok (f : List ℝ → ℝ) (G : FullGrid ℝ) (h0 : G.grids ≠ []) (h1 : ∀ g ∈ G.grids, g ≠ []) :
    ∃ y, valuesOnGrid f G = .ok y ∧ y.shape = G.shape ∧ ∀ idx, InBox G.shape idx → y.get idx = f (gridPoint G.grids idx) := by
  refine ⟨_, by simp only [valuesOnGrid, array_eq G h0 h1, bind, Except.bind]; rfl, rfl, fun idx hidx => ?_⟩
  have hlt := ravelF_lt hidx
  simp only [reshapeF, vec, List.length_map, List.length_range]
  have e : unravelF [G.shape.prod] (ravelF G.shape idx) = [ravelF G.shape idx] := by
    simp [unravelF, Nat.mod_eq_of_lt hlt]
  rw [e]
  simp only [List.getD_cons_zero, List.map_map]
  rw [List.getD_eq_getElem _ _ (by simpa using hlt), List.getElem_map, List.getElem_range]
  show f (gridPoint G.grids (unravelF G.shape (ravelF G.shape idx))) = _
  rw [unravelF_ravelF hidx]

/-! ### interpolation on the full grid -/

theorem invs_ok {bs : List (Basis ℝ)} {X G : List (List (List ℝ))} (h : GridOk bs X G) :
    ∃ B, (List.zipWith (fun b g => b.eval g) bs G).mapM SubBasis.inv = .ok B ∧ B.length = bs.length ∧ ∀ k, k < bs.length →
      (B.getD k emptyArr).shape = [(cards bs).getD k 0, (cards bs).getD k 0] ∧
      InvBy ((cards bs).getD k 0) (fun i j => ((bs.getD k ⟨0, 0, fun _ _ => 0⟩).eval (G.getD k [])).get [i, j])
        (fun i j => (B.getD k emptyArr).get [i, j]) := by
  have key : ∀ k, ∃ M, k < bs.length → SubBasis.inv ((bs.getD k ⟨0, 0, fun _ _ => 0⟩).eval (G.getD k [])) = .ok M ∧
      M.shape = [(cards bs).getD k 0, (cards bs).getD k 0] ∧
      InvBy ((cards bs).getD k 0) (fun i j => ((bs.getD k ⟨0, 0, fun _ _ => 0⟩).eval (G.getD k [])).get [i, j]) (fun i j => M.get [i, j]) := by
    intro k
    by_cases hk : k < bs.length
    · have hN := h.nodes k hk
      have hn : (cards bs).getD k 0 = (bs.getD k ⟨0, 0, fun _ _ => 0⟩).card := by
        rw [List.getD_eq_getElem _ _ hk, List.getD_eq_getElem _ _ (by simpa [cards] using hk)]
        simp [cards]
      have hs : ((bs.getD k ⟨0, 0, fun _ _ => 0⟩).eval (G.getD k [])).shape = [(bs.getD k ⟨0, 0, fun _ _ => 0⟩).card, (bs.getD k ⟨0, 0, fun _ _ => 0⟩).card] := by
        show [(G.getD k []).length, _] = _; rw [hN.len]
      have hd := hN.det
      obtain ⟨N, hNN⟩ := exists_inv hd
      refine ⟨_, fun _ => ⟨SubBasis.inv_ok hs (by rw [matOf_eq]; exact hd), by rw [hn]; rfl, ?_⟩⟩
      rw [hn]
      have e : ∀ i j, i < (bs.getD k ⟨0, 0, fun _ _ => 0⟩).card → j < (bs.getD k ⟨0, 0, fun _ _ => 0⟩).card →
          (Magic.toArr (matOf ((bs.getD k ⟨0, 0, fun _ _ => 0⟩).eval (G.getD k [])) (bs.getD k ⟨0, 0, fun _ _ => 0⟩).card
            (bs.getD k ⟨0, 0, fun _ _ => 0⟩).card)⁻¹).get [i, j] = N i j := by
        intro i j hi hj
        rw [matOf_eq, hNN.inv]
        exact dif_pos ⟨hi, hj⟩
      exact ⟨fun i j hi hj => (sum_congr rfl (fun a ha => by rw [e a j (mem_range.1 ha) hj])).trans (hNN.right i j hi hj),
        fun i j hi hj => (sum_congr rfl (fun a ha => by rw [e i a hi (mem_range.1 ha)])).trans (hNN.left i j hi hj)⟩
    · exact ⟨emptyArr, fun hh => absurd hh hk⟩
  choose B hB using key
  refine ⟨(List.range bs.length).map B, ?_, by simp, fun k hk => ?_⟩
  · rw [mapM_ok_iff, List.forall₂_iff_get]
    refine ⟨by simp [h.len], fun k h1 h2 => ?_⟩
    have hk : k < bs.length := by simpa using h2
    have hkG : k < G.length := by rw [h.len]; exact hk
    simp only [List.get_eq_getElem, List.getElem_map, List.getElem_range, List.getElem_zipWith]
    have := (hB k hk).1
    rw [List.getD_eq_getElem _ _ hk, List.getD_eq_getElem _ _ hkG] at this
    exact this
  · rw [List.getD_eq_getElem ((List.range bs.length).map B) _ (by simpa using hk), List.getElem_map, List.getElem_range]
    exact (hB k hk).2

/-- `y` interpolates with coefficients `a`. -/
def Interpolates (bs : List (Basis ℝ)) (G : List (List (List ℝ))) (f : List ℝ → ℝ) (a : Arr ℝ) : Prop :=
  ∀ idx, InBox (cards bs) idx → value a bs (nodesAt G idx) = f (nodesAt G idx).flatten

/-- C160. The interpolation of a function is accepted and gives the only function of the tensor product space that has the values of the
given one at the points of the grid, which are as many as the dimension of the space and as the evaluations of the function. -/
theorem fullInterpolation_spec (bs : List (Basis ℝ)) (X : List (List (List ℝ))) (hbs : bs ≠ []) (h : CandidatesOk bs X) (f : List ℝ → ℝ) :
    ∃ c G, fullInterpolation bs X (.callable f) = .ok (⟨.full c, bs⟩, (cards bs).prod, ⟨G⟩) ∧ GridOk bs X G ∧ c.shape = cards bs ∧
      Interpolates bs G f c ∧ ∀ a : Arr ℝ, a.shape = cards bs → Interpolates bs G f a → ∀ idx, InBox (cards bs) idx → a.get idx = c.get idx := by
  obtain ⟨G, g1, g2⟩ := gridPoints_ok bs X h
  have hcl : (cards bs).length = bs.length := by simp [cards]
  have hG0 : G ≠ [] := by
    intro h0
    have := g2.len
    rw [h0] at this
    exact hbs (List.length_eq_zero_iff.1 this.symm)
  have hG1 : ∀ g ∈ G, g ≠ [] := by
    rintro g hg rfl
    obtain ⟨k, hk, e⟩ := List.getElem_of_mem hg
    have hkb : k < bs.length := by rw [← g2.len]; exact hk
    have hn := (g2.nodes k hkb).len
    rw [List.getD_eq_getElem _ _ hk, e, List.getD_eq_getElem _ _ hkb] at hn
    have := h.pos _ (List.getElem_mem hkb)
    simp at hn; omega
  obtain ⟨y, y1, y2, y3⟩ := valuesOnGrid_ok f ⟨G⟩ hG0 hG1
  have hys : y.shape = cards bs := y2.trans g2.shape
  obtain ⟨B, b1, b2, b3⟩ := invs_ok g2
  obtain ⟨c, c1, c2, c3⟩ := Verif.tensorMatrixProduct_all y B (by
    rw [hys, List.forall₂_iff_get]
    refine ⟨by rw [b2, hcl], fun k h1 h2 => ⟨(cards bs).getD k 0, ?_⟩⟩
    have hk : k < bs.length := by rw [← b2]; exact h1
    have := (b3 k hk).1
    rw [List.getD_eq_getElem _ _ h1] at this
    rw [List.get_eq_getElem, List.get_eq_getElem, this, List.getD_eq_getElem _ _ h2])
  have hcs : c.shape = cards bs := by
    rw [c2]
    apply List.ext_getElem (by simp [b2, cards])
    intro k h1 h2
    have hk : k < bs.length := by rw [← hcl]; exact h2
    have := (b3 k hk).1
    rw [List.getD_eq_getElem _ _ (by rw [b2]; exact hk)] at this
    rw [List.getElem_map, this, List.getD_eq_getElem _ _ h2]; rfl
  have hc : ∀ idx, InBox (cards bs) idx → c.get idx = sumBox (cards bs) (fun s => y.get s *
      ∏ k ∈ range (cards bs).length, (B.getD k emptyArr).get [idx.getD k 0, s.getD k 0]) := by
    intro idx hidx
    rw [c3 idx (by rw [hcs]; exact hidx), hys]
    refine sumBox_congr (fun s hs => ?_)
    rw [zipWith_entries B idx s (by rw [hidx.length_eq, hcl, b2]) (by rw [hs.length_eq, hcl, b2]), b2, hcl]
  have hcn : c.order ≠ 0 := by
    show c.shape.length ≠ 0
    rw [hcs, hcl]
    exact fun h0 => hbs (List.length_eq_zero_iff.1 h0)
  refine ⟨c, G, ?_, g2, hcs, ?_, ?_⟩
  · have hm : FTn.mk' (.full c) bs = .ok ⟨.full c, bs⟩ := by
      unfold FTn.mk'
      rw [if_neg]
      show ¬ c.shape.length ≠ bs.length
      rw [hcs, hcl]; simp
    simp only [fullInterpolation, g1, argValues, y1, b1, c1, hm, bind, Except.bind]
    rw [hys]
  · intro idx hidx
    rw [value_nodes g2 c hcs hidx]
    have e : sumBox (cards bs) (fun j => c.get j * ∏ k ∈ range (cards bs).length,
        ((bs.getD k ⟨0, 0, fun _ _ => 0⟩).eval (G.getD k [])).get [idx.getD k 0, j.getD k 0]) =
        sumBox (cards bs) (fun j => sumBox (cards bs) (fun s => y.get s *
          ∏ k ∈ range (cards bs).length, (B.getD k emptyArr).get [j.getD k 0, s.getD k 0]) * ∏ k ∈ range (cards bs).length,
        ((bs.getD k ⟨0, 0, fun _ _ => 0⟩).eval (G.getD k [])).get [idx.getD k 0, j.getD k 0]) :=
      sumBox_congr (fun j hj => by rw [hc j hj])
    rw [e, cancel (cards bs) (fun k i j => ((bs.getD k ⟨0, 0, fun _ _ => 0⟩).eval (G.getD k [])).get [i, j])
      (fun k i j => (B.getD k emptyArr).get [i, j])
      (fun k hk i j hi hj => (b3 k (by rw [← hcl]; exact hk)).2.right i j hi hj) (fun s => y.get s) idx hidx,
      y3 idx (by show InBox (G.map List.length) idx; rw [g2.shape]; exact hidx), ← nodesAt_flatten]
  · intro a ha hai idx hidx
    rw [hc idx hidx]
    have e : sumBox (cards bs) (fun s => y.get s *
        ∏ k ∈ range (cards bs).length, (B.getD k emptyArr).get [idx.getD k 0, s.getD k 0]) =
        sumBox (cards bs) (fun s => sumBox (cards bs) (fun j => a.get j * ∏ k ∈ range (cards bs).length,
          ((bs.getD k ⟨0, 0, fun _ _ => 0⟩).eval (G.getD k [])).get [s.getD k 0, j.getD k 0]) *
        ∏ k ∈ range (cards bs).length, (B.getD k emptyArr).get [idx.getD k 0, s.getD k 0]) :=
      sumBox_congr (fun s hs => by
        rw [← value_nodes g2 a ha hs, hai s hs, nodesAt_flatten, y3 s (by show InBox (G.map List.length) s; rw [g2.shape]; exact hs)])
    rw [e, cancel (cards bs) (fun k i j => (B.getD k emptyArr).get [i, j])
      (fun k i j => ((bs.getD k ⟨0, 0, fun _ _ => 0⟩).eval (G.getD k [])).get [i, j])
      (fun k hk i j hi hj => (b3 k (by rw [← hcl]; exact hk)).2.left i j hi hj) (fun s => a.get s) idx hidx]

/-- The points of the grid have the numbers of variables of the bases, if the candidates have. -/
theorem nodes_dims {bs : List (Basis ℝ)} {X G : List (List (List ℝ))} (g2 : GridOk bs X G)
    (hX : ∀ k, k < bs.length → ∀ p ∈ X.getD k [], p.length = (bs.getD k ⟨0, 0, fun _ _ => 0⟩).ndim)
    {idx : List Nat} (hidx : InBox (cards bs) idx) : (nodesAt G idx).map List.length = bs.map Basis.ndim := by
  have hcl : (cards bs).length = bs.length := by simp [cards]
  have hil : idx.length = bs.length := by rw [hidx.length_eq, hcl]
  apply List.ext_getElem (by simp [nodesAt, g2.len, hil])
  intro k h1 h2
  have hk : k < bs.length := by simpa using h2
  have hkG : k < G.length := by rw [g2.len]; exact hk
  rw [List.getElem_map, List.getElem_map]
  have e := nodesAt_getD (G := G) (idx := idx) hkG (by omega)
  rw [List.getD_eq_getElem _ _ (by simpa using h1)] at e
  rw [e]
  have hj : idx.getD k 0 < (G.getD k []).length := by
    have := ((inBox_iff_getD _ _).1 hidx).2 k (by omega)
    rw [(g2.nodes k hk).len]
    rw [List.getD_eq_getElem (cards bs) _ (by omega)] at this
    rw [List.getD_eq_getElem bs _ hk]
    simpa [cards] using this
  have := hX k hk _ ((g2.nodes k hk).sub ((G.getD k []).getD (idx.getD k 0) []) (by
    rw [List.getD_eq_getElem (G.getD k []) _ hj]; exact List.getElem_mem hj))
  rw [this, List.getD_eq_getElem bs _ hk]

/-- Functional tensors with the same coefficients have the same values; `eval` of a dense one. -/
theorem eval_full (c : Arr ℝ) (bs : List (Basis ℝ)) (hbs : bs ≠ []) (hcs : c.shape = cards bs) (pts : List (List (List ℝ)))
    (hpts : ∀ p ∈ pts, p.map List.length = bs.map Basis.ndim) :
    ∃ v, (⟨.full c, bs⟩ : FTn ℝ).eval (pts.map List.flatten) = .ok v ∧ v.shape = [pts.length] ∧
      ∀ k, k < pts.length → v.get [k] = value c bs (pts.getD k []) := by
  have hcl : (cards bs).length = bs.length := by simp [cards]
  have hcn : c.order ≠ 0 := by
    show c.shape.length ≠ 0
    rw [hcs, hcl]
    exact fun h0 => hbs (List.length_eq_zero_iff.1 h0)
  obtain ⟨g, v, v1, v2, v3, v4⟩ := eval_spec (.full c) c ⟨rfl, hcn⟩ bs hcs pts hpts
  have hg : g = ⟨.full c, bs⟩ := by
    unfold FTn.mk' at v1
    split at v1
    · cases v1
    · exact (Except.ok.inj v1).symm
  subst hg
  exact ⟨v, v2, v3, v4⟩

/-- C160. A function of the tensor product space is reproduced: `eval` of the interpolation gives its values at all points. -/
theorem fullInterpolation_exact (bs : List (Basis ℝ)) (X : List (List (List ℝ))) (hbs : bs ≠ []) (h : CandidatesOk bs X)
    (hX : ∀ k, k < bs.length → ∀ p ∈ X.getD k [], p.length = (bs.getD k ⟨0, 0, fun _ _ => 0⟩).ndim) (f : List ℝ → ℝ)
    (a : Arr ℝ) (ha : a.shape = cards bs) (hf : ∀ p : List (List ℝ), p.map List.length = bs.map Basis.ndim → f p.flatten = value a bs p) :
    ∃ g n G, fullInterpolation bs X (.callable f) = .ok (g, n, G) ∧
      ∀ pts : List (List (List ℝ)), (∀ p ∈ pts, p.map List.length = bs.map Basis.ndim) →
        ∃ v, g.eval (pts.map List.flatten) = .ok v ∧ v.shape = [pts.length] ∧ ∀ k, k < pts.length → v.get [k] = f (pts.getD k []).flatten := by
  obtain ⟨c, G, c1, g2, c2, _, c4⟩ := fullInterpolation_spec bs X hbs h f
  have hac := c4 a ha (fun idx hidx => (hf _ (nodes_dims g2 hX hidx)).symm)
  refine ⟨_, _, _, c1, fun pts hpts => ?_⟩
  obtain ⟨v, v1, v2, v3⟩ := eval_full c bs hbs c2 pts hpts
  refine ⟨v, v1, v2, fun k hk => ?_⟩
  have hp : (pts.getD k []).map List.length = bs.map Basis.ndim := by
    rw [List.getD_eq_getElem _ _ hk]; exact hpts _ (List.getElem_mem hk)
  rw [v3 k hk, hf _ hp]
  unfold value
  rw [c2, ha]
  exact sumBox_congr (fun idx hidx => by rw [hac idx hidx])

/-- C161. The values on the grid cannot be given as a tensor, although the documentation allows it: every tensor is refused, with a `TypeError`. -/
theorem fullInterpolation_tensor_refused (bs : List (Basis ℝ)) (X : List (List (List ℝ))) (h : CandidatesOk bs X) (a : Arr ℝ) :
    fullInterpolation bs X (.tensor a) = .error .typeError ∧ fullInterpolation bs X .other = .error .typeError := by
  obtain ⟨G, g1, _⟩ := gridPoints_ok bs X h
  constructor <;> simp only [fullInterpolation, g1, argValues, bind, Except.bind]

/-- C161. What is accepted: the functions. -/
theorem fullInterpolation_arg_partial (bs : List (Basis ℝ)) (X : List (List (List ℝ))) (hbs : bs ≠ []) (h : CandidatesOk bs X) (arg : Arg) :
    (∃ r, fullInterpolation bs X arg = .ok r) ↔ ∃ f, arg = .callable f := by
  constructor
  · rintro ⟨r, hr⟩
    cases arg with
    | callable f => exact ⟨f, rfl⟩
    | tensor a => rw [(fullInterpolation_tensor_refused bs X h a).1] at hr; cases hr
    | other => rw [(fullInterpolation_tensor_refused bs X h TreeBased.emptyArr).2] at hr; cases hr
  · rintro ⟨f, rfl⟩
    obtain ⟨c, G, e, _⟩ := fullInterpolation_spec bs X hbs h f
    exact ⟨_, e⟩

/-- The hypotheses are met: two bases `1, t`, with the candidates 0, 1, 2. -/
theorem exCandidates : CandidatesOk [exB, exB] [[[0], [1], [2]], [[0], [1], [2]]] where
  len := by simp
  pos := by simp [exB]
  indep := by
    intro k hk
    have hk : k < 2 := hk
    interval_cases k <;> exact exB_indep

example : ∃ c G, fullInterpolation [exB, exB] [[[0], [1], [2]], [[0], [1], [2]]] (.callable (fun p => p.getD 0 0 * p.getD 1 0 + 1)) =
    .ok (⟨.full c, [exB, exB]⟩, 4, G) := by
  obtain ⟨c, G, e, _⟩ := fullInterpolation_spec [exB, exB] _ (by simp) exCandidates (fun p => p.getD 0 0 * p.getD 1 0 + 1)
  exact ⟨c, _, e⟩

end Verif.TensorInterp
