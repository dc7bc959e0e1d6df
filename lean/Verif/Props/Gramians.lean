import Verif.Lemmas.HsvdErr
import Verif.Lemmas.NodeSvd
import Verif.Lemmas.SvdExists
import Verif.Props.Hosvd
import Verif.Props.TreeOrthWitness

/-!
# Properties of `gramians` and `singular_values` (C71, C72)
-/

namespace Verif.TreeBased

open Verif.Arr Verif.DimTree Verif.Projection Verif.Truncation Finset

/-- A tensor with the subscripts `p` and the output subscripts `e` (in `out`) is the sum of the products of the functions `A l`
of the subscripts in `D`, which are orthonormal, and of the functions `B l` of the other subscripts, with the scalar
products `G`. -/
structure Splits (s out : List Nat) (a : List Nat → ℝ) (D : List Nat) (n : Nat) (G : Nat → Nat → ℝ)
    (A : Nat → List Nat → ℝ) (B : Nat → List Nat → List Nat → ℝ) : Prop where
  left : ∀ l, ∀ d ∉ D, ∀ p v, A l (p.set d v) = A l p
  right : ∀ l, ∀ d ∈ D, ∀ p v e, B l (p.set d v) e = B l p e
  eq : ∀ p e, InBox s p → InBox out e → a (p ++ e) = ∑ l ∈ range n, A l p * B l p e
  orth : ∀ l l', l < n → l' < n → ∀ p, InBox s p → dSum s D (fun p => A l p * A l' p) p = if l = l' then 1 else 0
  gram : ∀ l l', l < n → l' < n → ∀ p, InBox s p →
    sumBox out (fun e => dSum s (compl s.length D) (fun p => B l p e * B l' p e) p) = G l l'

/-- C71. `gramians()`: the matrix of an active node other than the root is the matrix of the scalar products of the functions
of the subscripts outside of the node, when the tensor is decomposed on an orthonormal basis of the node; the one of the root
is the number one, and there is none for the other nodes. -/
theorem gramians_spec (qr : Arr ℝ → Arr ℝ × Arr ℝ) (hqr : FullTensor.QROk qr) (x : TBT ℝ) (hx : WF x) (r : Nat)
    (hr : x.tree.root = .ok r) :
    ∃ (g : Nat → Arr ℝ) (y : TBT ℝ) (a b : Arr ℝ) (D : Nat → List Nat), gramians qr x = .ok (g, y) ∧ orth qr x = .ok y ∧
      full x = .ok a ∧ full y = .ok b ∧ b ≃ₐ a ∧ x.tree.dims = .ok D ∧
      (∀ i ∈ activeNodes x r, (g i).shape = [y.lastDim i, y.lastDim i] ∧ 1 ≤ y.lastDim i ∧ y.lastDim i ≤ x.lastDim i ∧
        ∃ A B, Splits x.shape (rankShape x r) a.get (D i) (y.lastDim i) (fun l l' => (g i).get [l, l']) A B) ∧
      (g r).shape = [1, 1] ∧ (g r).get [0, 0] = 1 ∧
      (∀ i, IsNode x.tree i → i ≠ r → x.active i = false → (g i).shape = []) ∧
      ∀ svd, SvdOk svd → ∀ i ∈ activeNodes x r,
        ∃ A B, Splits x.shape (rankShape x r) a.get (D i) (y.lastDim i) (fun l l' => if l = l' then (svd (g i)).2.1.getD l 0 else 0) A B := by
  obtain ⟨r', hr', hroot⟩ := root_ok hx.valid
  rw [hr] at hr'; cases hr'
  obtain ⟨y, y1, hy, y3, y4, y5, y6, y7, y8, a, c, a1, c1, hca⟩ := orth_full qr hqr x hx
  have hroot' : IsRoot y.tree r := by rw [y3]; exact hroot
  obtain ⟨g, g1, g2, g3, g4, g5, g6⟩ := gramiansOrth_spec hy hroot'
  obtain ⟨V, hV⟩ := exists_value y hy.valid
  obtain ⟨D, hD0, hD⟩ := dims_ok hy.valid
  have hO := ortho_vals hy (by
    intro i h1 h2 h3
    rw [y3] at h1 h2
    exact y8 i h1 h2 (by rw [← y5 i h1]; exact h3)) hV hD
  have hact : activeNodes y r = activeNodes x r := by
    unfold activeNodes
    rw [y3]
    apply List.filter_congr
    intro i hi
    rw [y5 i ((mem_nodes i).1 hi)]
  obtain ⟨c', f1, f2, f3⟩ := full_on y hy hV.on (by rw [y3]; exact hr)
  rw [c1] at f1; cases f1
  have hrs : rankShape y r = rankShape x r := y6 r hroot
  have hval : ∀ p e, InBox x.shape p → InBox (rankShape x r) e → a.get (p ++ e) = V r p e := by
    intro p e hp he
    rw [← y4] at hp
    rw [← hrs] at he
    rw [← hca.2 (p ++ e) (by rw [f2]; exact (inBox_append hp.length_eq).2 ⟨hp, he⟩), f3 p e hp he]
  refine ⟨g, y, a, c, D, ?_, y1, a1, c1, hca, by rw [← y3]; exact hD0, ?_, g4, g5, ?_, ?_⟩
  · unfold gramians
    rw [y1]
    simp only [bind, Except.bind, g1]
  · intro i hi
    obtain ⟨h1', h2', h3'⟩ := (mem_activeNodes hx.valid hroot i).1 hi
    rw [← hact] at hi
    obtain ⟨h1, h2, h3⟩ := (mem_activeNodes hy.valid hroot' i).1 hi
    have hpos := (hy.shaped hroot').rho i h1 h2 h3
    refine ⟨g2 i h1 h2 h3, hpos, y7 i h1' h2' h3', ?_⟩
    obtain ⟨F, e1, e2, -, e3⟩ := env_split hy hV hD hO hroot' g3 (anc_active hy h3) h1 h2 h3
    refine ⟨fun l p => V i p [l], F, ?_⟩
    rw [← y4, ← hrs]
    refine ⟨?_, e2, ?_, ?_, ?_⟩
    · intro l d hd p v
      have := childVal_indep y hy V hV D hD h1 l hd p v
      unfold childVal at this
      rwa [if_pos h3, if_pos h3] at this
    · intro p e hp he
      rw [hval p e (by rw [← y4]; exact hp) (by rw [← hrs]; exact he)]
      exact e1 p e
    · intro l l' hl hl' p hp
      exact value_orth hO h1 h2 h3 hl hl' hp
    · intro l l' hl hl' p hp
      exact e3 l l' hl hl' p hp
  · intro i hi hir ha
    exact g6 i hir (by rw [y5 i hi]; exact ha)
  · intro svd hsvd i hi
    rw [← hact] at hi
    obtain ⟨h1, h2, h3⟩ := (mem_activeNodes hy.valid hroot' i).1 hi
    have hpos := (hy.shaped hroot').rho i h1 h2 h3
    have h := hsvd (g i) _ _ (g2 i h1 h2 h3) hpos hpos
    have hmin : min (y.lastDim i) (y.lastDim i) = y.lastDim i := min_self _
    obtain ⟨A, B, e1, e2, e3, e4, e5⟩ := env_svd hy hV hD hO hroot' g3 (anc_active hy h3) h1 h2 h3
      (u := fun s l => (svd (g i)).1.get [s, l]) (w := fun l s => (svd (g i)).2.2.get [l, s]) (σ := fun l => (svd (g i)).2.1.getD l 0)
      (by intro s s' hs hs'; have := h.eq s s' hs hs'; rwa [hmin] at this)
      (by intro l l' hl hl'; exact h.orthL l l' (by omega) (by omega))
      (by intro l l' hl hl'; exact h.orthR l l' (by omega) (by omega))
      (by
        intro l _
        by_cases hl : l < (svd (g i)).2.1.length
        · rw [List.getD_eq_getElem _ _ hl]; exact h.nonneg _ (List.getElem_mem _)
        · rw [List.getD_eq_default _ _ (by omega)])
    refine ⟨A, B, ?_⟩
    rw [← y4, ← hrs]
    refine ⟨e1, e2, ?_, e4, e5⟩
    intro p e hp he
    rw [hval p e (by rw [← y4]; exact hp) (by rw [← hrs]; exact he)]
    exact e3 p e

/-- C72. `singular_values()`: for an active node other than the root, a decreasing list of nonnegative numbers which are the
singular values of the matricization of the tensor at this node: the tensor is the sum of the products of orthonormal functions
of the subscripts of the node and of orthogonal functions of the other ones whose norms are these numbers. There is no list for
the nodes that are not active. -/
theorem singularValues_spec (qr : Arr ℝ → Arr ℝ × Arr ℝ) (hqr : FullTensor.QROk qr) (svd : Svd) (hsvd : SvdOk svd) (x : TBT ℝ)
    (hx : WF x) (r : Nat) (hr : x.tree.root = .ok r) :
    ∃ (sv : Nat → Option (List ℝ)) (a : Arr ℝ) (D : Nat → List Nat), singularValues qr svd x = .ok sv ∧
      full x = .ok a ∧ x.tree.dims = .ok D ∧
      (∀ i ∈ activeNodes x r, ∃ σ : List ℝ, sv i = some σ ∧ 1 ≤ σ.length ∧ σ.length ≤ x.lastDim i ∧
        (∀ v ∈ σ, 0 ≤ v) ∧ σ.Pairwise (· ≥ ·) ∧
        ∃ A B, Splits x.shape (rankShape x r) a.get (D i) σ.length (fun l l' => if l = l' then σ.getD l 0 ^ 2 else 0) A B) ∧
      ∀ i, IsNode x.tree i → i ≠ r → x.active i = false → sv i = none := by
  obtain ⟨g, y, a, b, D, h1, h2, h3, h4, h5, h6, h7, h8, h9, h10, h11⟩ := gramians_spec qr hqr x hx r hr
  have hg : gramiansOrth y = .ok g := by
    unfold gramians at h1
    rw [h2] at h1
    simp only [bind, Except.bind] at h1
    cases hq : gramiansOrth y with
    | error e => rw [hq] at h1; cases h1
    | ok g' =>
      rw [hq] at h1
      have := congrArg Prod.fst (Except.ok.inj h1)
      simp only at this
      rw [this]
  refine ⟨fun i => gramSv svd (g i), a, D, ?_, h3, h6, ?_, ?_⟩
  · unfold singularValues
    rw [h2]
    simp only [bind, Except.bind, hg]
  · intro i hi
    obtain ⟨e1, e2, e3, -⟩ := h7 i hi
    have h := hsvd (g i) _ _ e1 e2 e2
    have hlen : ((svd (g i)).2.1.map Real.sqrt).length = y.lastDim i := by rw [List.length_map, h.len, min_self]
    refine ⟨(svd (g i)).2.1.map Real.sqrt, ?_, by rw [hlen]; exact e2, by rw [hlen]; exact e3, ?_, ?_, ?_⟩
    · dsimp only
      unfold gramSv
      rw [if_neg (by rw [e1]; simp)]
    · intro v hv
      obtain ⟨w, _, rfl⟩ := List.mem_map.1 hv
      exact Real.sqrt_nonneg w
    · exact h.antitone.map _ (fun a b hab => Real.sqrt_le_sqrt hab)
    · obtain ⟨A, B, hs⟩ := h11 svd hsvd i hi
      refine ⟨A, B, ?_⟩
      rw [hlen]
      refine ⟨hs.left, hs.right, hs.eq, hs.orth, ?_⟩
      intro l l' hl hl' p hp
      rw [hs.gram l l' hl hl' p hp]
      by_cases hll : l = l'
      · rw [if_pos hll, if_pos hll]
        have hl2 : l < (svd (g i)).2.1.length := by rw [h.len, min_self]; exact hl
        rw [List.getD_eq_getElem _ _ hl2, List.getD_eq_getElem _ _ (by simpa using hl2), List.getElem_map,
          Real.sq_sqrt (h.nonneg _ (List.getElem_mem _))]
      · rw [if_neg hll, if_neg hll]
  · intro i hi hir ha
    dsimp only
    unfold gramSv
    rw [if_pos (h10 i hi hir ha)]

/-- The hypotheses of `gramians_spec` and `singularValues_spec` are met. -/
example : ∃ (qr : Arr ℝ → Arr ℝ × Arr ℝ) (svd : Svd), FullTensor.QROk qr ∧ SvdOk svd ∧ WF exR ∧ ∃ r, exR.tree.root = .ok r := by
  obtain ⟨qr, h⟩ := FullTensor.exists_qr
  obtain ⟨svd, h'⟩ := exists_svd
  obtain ⟨r, hr, _⟩ := root_ok exR_wf.valid
  exact ⟨qr, svd, h, h', exR_wf, r, hr⟩

end Verif.TreeBased
