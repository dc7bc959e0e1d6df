import Verif.Lemmas.DmrgUpdate
import Verif.Lemmas.Gauge
import Verif.Props.AlternatingMinimization
import Verif.Props.DimensionTreeCtor
import Verif.Lemmas.HsvdDense

/-!
# Update of a node and its parent in the DMRG algorithm (C210, C211)
-/

namespace Verif.TreeBased

open Verif.Arr Verif.DimTree Finset

variable {R : Type}

theorem insertIdx_append_left {A : Type} (l1 l2 : List A) (p : Nat) (a : A) (hp : p ≤ l1.length) :
    (l1 ++ l2).insertIdx p a = l1.insertIdx p a ++ l2 := by
  induction l1 generalizing p with
  | nil => simp at hp; subst hp; simp
  | cons b l ih =>
    cases p with
    | zero => simp
    | succ p => simp only [List.cons_append, List.insertIdx_succ_cons]; rw [ih p (by simpa using hp)]

theorem map_insert (cs : List Nat) (hn : cs.Nodup) (c : Nat) (hc : c ∈ cs) (f : Nat → Nat) :
    cs.map f = ((cs.filter (fun c' => c' != c)).map f).insertIdx (cs.idxOf c) (f c) := by
  induction cs with
  | nil => simp at hc
  | cons a cs ih =>
    rw [List.nodup_cons] at hn
    by_cases hac : a = c
    · subst hac
      have hf : (a :: cs).filter (fun c' => c' != a) = cs := by
        rw [List.filter_cons]
        simp only [bne_self_eq_false, Bool.false_eq_true, if_false]
        rw [List.filter_eq_self]
        intro c' hc'
        simpa using fun h : c' = a => hn.1 (h ▸ hc')
      rw [hf, List.idxOf_cons_self]; simp
    · rw [List.filter_cons, if_pos (by simpa using hac), List.idxOf_cons_ne _ hac, List.map_cons, List.map_cons,
        List.insertIdx_succ_cons, ← ih hn.2 ((List.mem_cons.1 hc).resolve_left (fun h => hac h.symm))]

theorem idxOf_le_filter (cs : List Nat) (c : Nat) : cs.idxOf c ≤ (cs.filter (fun c' => c' != c)).length := by
  induction cs with
  | nil => simp
  | cons a cs ih =>
    by_cases hac : a = c
    · subst hac; simp
    · rw [List.filter_cons, if_pos (by simpa using hac), List.idxOf_cons_ne _ hac, List.length_cons]; omega

section place

variable [CommSemiring R] (x : TBT R) (hx : WF x) (ha : AllActive x) (α γ : Nat) (heγ : Edge x.tree γ α)

include hx ha heγ in
theorem parent_shape : (x.tensors γ).shape =
    (siblingSizes x α γ ++ rankShape x γ).insertIdx ((x.tree.children γ).idxOf α) (x.lastDim α) := by
  rw [(hx.node γ heγ.1 (edge_internal hx.valid heγ)).2.1, childSizes_active ha heγ.1,
    map_insert _ (nodup_children γ) α ((mem_children γ α heγ.1).2 heγ) x.lastDim, insertIdx_append_left _ _ _ _ (by show _ ≤ (List.map _ _).length; rw [List.length_map]; exact idxOf_le_filter _ _)]
  rfl

omit [CommSemiring R] in
theorem idx_le_sib : (x.tree.children γ).idxOf α ≤ (siblingSizes x α γ).length := by
  unfold siblingSizes; rw [List.length_map]; exact idxOf_le_filter _ _

include hx ha heγ in
theorem dmrgShape2_eq : dmrgInd x α = FullTensor.setdiffRange ((siblingSizes x α γ ++ rankShape x γ).length + 1)
      [(x.tree.children γ).idxOf α] ∧ dmrgShape2 x α = siblingSizes x α γ ++ rankShape x γ ∧
      x.tree.childNumber α - 1 = (x.tree.children γ).idxOf α := by
  have h1 := parent_shape x hx ha α γ heγ
  have h2 := childAxis_eq hx.valid heγ
  have hle := idx_le_sib x α γ
  have h3 : dmrgInd x α = FullTensor.setdiffRange ((siblingSizes x α γ ++ rankShape x γ).length + 1)
      [(x.tree.children γ).idxOf α] := by
    unfold dmrgInd
    rw [edge_parent hx.valid heγ]
    unfold childAxis at h2
    rw [h2]
    congr 1
    show (x.tensors γ).shape.length = _
    rw [h1, List.length_insertIdx_of_le_length (by rw [List.length_append]; omega)]
  refine ⟨h3, ?_, h2⟩
  unfold dmrgShape2
  rw [h3, edge_parent hx.valid heγ, h1]
  exact map_drop_getD _ _ _ (by rw [List.length_append]; omega)

/-- The tensor obtained by putting the given arrays at two nodes. -/
theorem placed_ok (hx : WF x) (ha : AllActive x) (heγ : Edge x.tree γ α) (a b : Arr R) (ρ : Nat) (hρ : 0 < ρ)
    (hsa : a.shape = ownSizes x α ++ [ρ])
    (hsb : b.shape = (siblingSizes x α γ).insertIdx ((x.tree.children γ).idxOf α) ρ ++ rankShape x γ) :
    PairOk x ⟨x.tree, upd (upd x.tensors α a) γ b⟩ α γ ∧
      TBT.lastDim ⟨x.tree, upd (upd x.tensors α a) γ b⟩ α = ρ := by
  set x' : TBT R := ⟨x.tree, upd (upd x.tensors α a) γ b⟩ with hx'
  have hne := edge_ne hx.valid heγ
  have htα : x'.tensors α = a := by
    show upd (upd x.tensors α a) γ b α = a
    unfold upd
    rw [if_neg (fun h => hne h.symm), if_pos rfl]
  have htγ : x'.tensors γ = b := by
    show upd (upd x.tensors α a) γ b γ = b
    unfold upd; rw [if_pos rfl]
  have hto : ∀ j, j ≠ α → j ≠ γ → x'.tensors j = x.tensors j := by
    intro j h1 h2
    show upd (upd x.tensors α a) γ b j = _
    unfold upd; rw [if_neg h2, if_neg h1]
  have hγi := edge_internal hx.valid heγ
  have hnγ := hx.node γ heγ.1 hγi
  have hpsh := parent_shape x hx ha α γ heγ
  have hle := idx_le_sib x α γ
  have hld : x'.lastDim α = ρ := lastDim_of_shape (s := ownSizes x α) (by rw [htα, hsa])
  have hldγ : ¬ IsRoot x.tree γ → x'.lastDim γ = x.lastDim γ := by
    intro hr
    have : rankShape x γ = [x.lastDim γ] := by
      have := hx.rs_eq heγ.1 hr; rwa [rs_node hγi] at this
    exact lastDim_of_shape (s := (siblingSizes x α γ).insertIdx ((x.tree.children γ).idxOf α) ρ) (by rw [htγ, hsb, this])
  have hldo : ∀ c, c ≠ α → ¬ IsRoot x.tree c → x'.lastDim c = x.lastDim c := by
    intro c h1 h2
    by_cases h : c = γ
    · subst h; exact hldγ h2
    · unfold TBT.lastDim; rw [hto c h1 h]
  have hpos : ∀ i, IsNode x.tree i → ∀ m ∈ (x.tensors i).shape, m ≠ 0 := fun i hi => prod_ne_zero.1 (ha i hi)
  have hact : AllActive x' := by
    intro i hi
    apply prod_ne_zero.2
    by_cases h1 : i = α
    · subst h1
      rw [htα, hsa]
      intro m hm
      rcases List.mem_append.1 hm with hm | hm
      · exact hpos i hi m (List.mem_of_mem_dropLast hm)
      · simp only [List.mem_singleton] at hm; omega
    · by_cases h2 : i = γ
      · subst h2
        rw [htγ, hsb]
        intro m hm
        have hin : ∀ m, m ∈ siblingSizes x α i ++ rankShape x i → m ≠ 0 := by
          intro m hm
          refine hpos i hi m ?_
          rw [hpsh, List.mem_insertIdx (by rw [List.length_append]; omega)]
          exact .inr hm
        rcases List.mem_append.1 hm with hm | hm
        · rw [List.mem_insertIdx hle] at hm
          rcases hm with rfl | hm
          · omega
          · exact hin m (List.mem_append_left _ hm)
        · exact hin m (List.mem_append_right _ hm)
      · rw [hto i h1 h2]; exact hpos i hi
  have hrsγ : rankShape x' γ = rankShape x γ := by
    unfold rankShape
    rw [htγ, hsb]
    show List.drop (x.tree.children γ).length _ = _
    rw [List.drop_append_of_le_length]
    · rw [List.drop_of_length_le, List.nil_append]
      · rfl
      · rw [List.length_insertIdx_of_le_length hle]
        have := congrArg List.length (map_insert _ (nodup_children γ) α ((mem_children γ α heγ.1).2 heγ) x.lastDim)
        rw [List.length_map, List.length_insertIdx_of_le_length (by rw [List.length_map]; exact idxOf_le_filter _ _)] at this
        rw [this]
        rfl
    · rw [List.length_insertIdx_of_le_length hle]
      have := congrArg List.length (map_insert _ (nodup_children γ) α ((mem_children γ α heγ.1).2 heγ) x.lastDim)
      rw [List.length_map, List.length_insertIdx_of_le_length (by rw [List.length_map]; exact idxOf_le_filter _ _)] at this
      rw [this]
      exact le_refl _
  have hcs : ∀ i, IsNode x.tree i → i ≠ γ → (x.tree.children i).map (childSize x') = (x.tree.children i).map x.lastDim := by
    intro i hi hig
    show (x'.tree.children i).map (childSize x') = _
    rw [childSizes_active hact hi]
    apply List.map_congr_left
    intro c hc
    have he := (mem_children i c hi).1 hc
    refine hldo c (fun h => hig ?_) (WF.child_not_root he)
    rw [← edge_parent hx.valid he, h, edge_parent hx.valid heγ]
  have hwf : WF x' := by
    refine ⟨hx.valid, hx.order, ?_, ?_⟩
    · intro c hc _
      have hcγ : c ≠ γ := fun h => hγi (h ▸ hc)
      by_cases h1 : c = α
      · subst h1
        exact ⟨x.leafSize c, ρ, by rw [htα, hsa, (ownSizes_spec x hx ha c γ heγ).2.1 hc]; rfl⟩
      · rw [hto c h1 hcγ]
        exact hx.leaf c hc (ha c ((hx.valid.leaves c).1 hc).1)
    · intro i hi hil
      refine ⟨hact i hi, ?_⟩
      by_cases h1 : i = α
      · subst h1
        have hown := (ownSizes_spec x hx ha i γ heγ).2.2 hil
        have hrs : rankShape x' i = [ρ] := by
          unfold rankShape
          rw [htα, hsa, hown]
          show List.drop (x.tree.children i).length _ = _
          rw [List.drop_append_of_le_length (by simp), List.drop_of_length_le (by simp), List.nil_append]
        refine ⟨?_, by rw [hrs]; simp, fun _ => by rw [hrs]; rfl⟩
        rw [htα, hsa, hrs, hcs i hi (fun h => hne h.symm), hown]
      · by_cases h2 : i = γ
        · subst h2
          refine ⟨?_, by rw [hrsγ]; exact hnγ.2.2.1, fun h => by rw [hrsγ]; exact hnγ.2.2.2 h⟩
          rw [htγ, hsb, hrsγ]
          congr 1
          rw [childSizes_active hact hi]
          show _ = (x.tree.children i).map x'.lastDim
          rw [map_insert _ (nodup_children i) α ((mem_children i α heγ.1).2 heγ) x'.lastDim, hld]
          congr 1
          unfold siblingSizes
          apply List.map_congr_left
          intro c hc
          have he := (mem_children i c hi).1 (List.mem_of_mem_filter hc)
          have : c ≠ α := by simpa using (List.mem_filter.1 hc).2
          exact (hldo c this (WF.child_not_root he)).symm
        · have hrs : rankShape x' i = rankShape x i := by unfold rankShape; rw [hto i h1 h2]
          have hn := hx.node i hi hil
          refine ⟨?_, by rw [hrs]; exact hn.2.2.1, fun h => by rw [hrs]; exact hn.2.2.2 h⟩
          rw [hto i h1 h2, hrs, hcs i hi h2, ← childSizes_active ha hi]
          exact hn.2.1
  refine ⟨⟨⟨rfl, hto, ?_, hrsγ⟩, hwf, hact⟩, hld⟩
  unfold ownSizes
  rw [htα, hsa, List.dropLast_concat]
  rfl

/-- The arrays of a matrix reshaped. -/
theorem reshape_get (U : Arr R) (s : List Nat) (m : Nat) (hU : U.shape = [s.prod, m]) :
    ∃ a, FullTensor.reshape U (s ++ [m]) = .ok a ∧ a.shape = s ++ [m] ∧
      ∀ t i, InBox s t → i < m → a.get (t ++ [i]) = U.get [ravelF s t, i] := by
  unfold FullTensor.reshape
  rw [if_pos (by rw [hU]; simp)]
  refine ⟨_, rfl, rfl, ?_⟩
  intro t i ht hi
  show U.get (unravelF U.shape (ravelF (s ++ [m]) (t ++ [i]))) = _
  rw [ravelF_append ht.length_eq, hU]
  have : ravelF s t + s.prod * ravelF [m] [i] = ravelF [s.prod, m] [ravelF s t, i] := by simp [ravelF]
  rw [this, unravelF_ravelF]
  exact .cons (ravelF_lt ht) (.cons hi .nil)

include hx ha heγ in
/-- The two nodes after the update: the merged tensor has the entries of the product of the two matrices. -/
theorem placePair_spec (U W : Arr R) (ρ : Nat) (hρ : 0 < ρ) (hU : U.shape = [(ownSizes x α).prod, ρ])
    (hW : W.shape = [(siblingSizes x α γ ++ rankShape x γ).prod, ρ]) :
    ∃ x', placePair x α U W = .ok x' ∧ WF x' ∧ AllActive x' ∧ SamePair x x' α γ ∧ x'.lastDim α = ρ ∧
      ∀ s t e, InBox (ownSizes x α) s → InBox (siblingSizes x α γ) t → InBox (rankShape x γ) e →
        mergedEntry x' α γ s t e = ∑ l ∈ range ρ, U.get [ravelF (ownSizes x α) s, l] *
          W.get [ravelF (siblingSizes x α γ ++ rankShape x γ) (t ++ e), l] := by
  obtain ⟨d1, d2, d3⟩ := dmrgShape2_eq x hx ha α γ heγ
  have hle := idx_le_sib x α γ
  obtain ⟨a, a1, a2, a3⟩ := reshape_get U _ ρ hU
  obtain ⟨b, b1, b2, b3⟩ := reshape_get W _ ρ hW
  obtain ⟨b', c1, c2, c3⟩ := move_axis b _ ρ ((x.tree.children γ).idxOf α) b2 (by rw [List.length_append]; omega)
  rw [insertIdx_append_left _ _ _ _ hle] at c2
  obtain ⟨hp, hl⟩ := placed_ok x α γ hx ha heγ a b' ρ hρ a2 c2
  refine ⟨_, ?_, hp.wf, hp.act, hp.toSamePair, hl, ?_⟩
  · unfold placePair
    rw [edge_parent hx.valid heγ, d2, d1, d3, show U.shape.getD 1 0 = ρ by rw [hU]; rfl]
    change FullTensor.reshape U ((x.tensors α).shape.dropLast ++ [ρ]) = .ok a at a1
    simp only [a1, b1, c1, bind, Except.bind]
  · intro s t e hs ht he
    have hne := edge_ne hx.valid heγ
    unfold mergedEntry
    rw [hl]
    refine sum_congr rfl (fun l hl' => ?_)
    rw [mem_range] at hl'
    have htα : upd (upd x.tensors α a) γ b' α = a := by
      unfold upd; rw [if_neg (fun h => hne h.symm), if_pos rfl]
    have htγ : upd (upd x.tensors α a) γ b' γ = b' := by
      unfold upd; rw [if_pos rfl]
    have hlt := ht.length_eq
    have hte : InBox (siblingSizes x α γ ++ rankShape x γ) (t ++ e) := (inBox_append hlt).2 ⟨ht, he⟩
    simp only [htα, htγ]
    rw [a3 s l hs hl', ← insertIdx_append_left _ _ _ _ (by rw [hlt]; exact hle), c3 _ _ hte.length_eq, b3 _ _ hte hl']

end place

/-- The matrix of the least-squares problem from the gradient. -/
theorem dmrgMatrix_ok (g : Arr ℝ) (n : Nat) (D : List Nat) (hg : g.shape = n :: D) :
    ∃ A, dmrgMatrix g = .ok A ∧ A.shape = [n, D.prod] ∧ ∀ k u, k < n → InBox D u → A.get [k, ravelF D u] = g.get (k :: u) := by
  unfold dmrgMatrix FullTensor.reshape
  rw [if_pos (by rw [hg]; simp)]
  refine ⟨_, rfl, by rw [hg]; rfl, ?_⟩
  intro k u hk hu
  show g.get (unravelF g.shape (ravelF [g.shape.getD 0 0, (g.shape.drop 1).prod] [k, ravelF D u])) = _
  rw [hg]
  have : ravelF [(n :: D).getD 0 0, ((n :: D).drop 1).prod] [k, ravelF D u] = ravelF (n :: D) (k :: u) := by simp [ravelF]
  rw [this, unravelF_ravelF (.cons hk hu)]

theorem sumBox_two (s1 s2 : List Nat) (F : Nat → Nat → ℝ) :
    sumBox s1 (fun s => sumBox s2 (fun t => F (ravelF s1 s) (ravelF s2 t))) = ∑ p ∈ range s1.prod, ∑ q ∈ range s2.prod, F p q := by
  rw [← Truncation.sumBox_ravel (s := s1) (fun p => ∑ q ∈ range s2.prod, F p q)]
  exact sumBox_congr (fun s _ => Truncation.sumBox_ravel (fun q => F (ravelF s1 s) q))

theorem ravelF_ones {D : List Nat} (hD : D.length ≤ 1) (h1 : ∀ m ∈ D, m = 1) {e : List Nat} (he : InBox D e) : ravelF D e = 0 := by
  match D, hD, he with
  | [], _, _ => rfl
  | [m], _, he =>
    obtain ⟨i, rfl, hi⟩ := inBox_single he
    have := h1 m (by simp)
    simp [ravelF]; omega

open Truncation in
/-- The truncated decomposition of a matrix that is not zero. -/
theorem trunc_pair (svd : Svd) (hsvd : SvdOk svd) (t : Truncator) (ht : t.param = none ∨ t.param = some 0) (h0 : t.maxRank ≠ some 0)
    (A : Arr ℝ) (m n : Nat) (hA : A.shape = [m, n]) (hne : ∃ i j, i < m ∧ j < n ∧ A.get [i, j] ≠ 0) :
    ∃ c U V a r, truncSvd svd t A = .ok c ∧ c.space = [U, V] ∧ c.core.length = r ∧ 0 < r ∧ (∀ R, t.maxRank = some R → r ≤ R) ∧
      U.shape = [m, r] ∧ V.shape = [n, r] ∧ Canonical.full c = .ok a ∧
      (∀ i j, i < m → j < n → ∑ l ∈ range r, U.get [i, l] * (V.get [j, l] * c.core.getD l 0) = a.get [i, j]) := by
  obtain ⟨c, r, a, c1, c2, c3, c4, c5, c6, c7, c8, c9, c10, c11, c12⟩ := truncSvd_spec svd hsvd t ht A m n hA hne t.tolerance 2 (by omega)
  obtain ⟨i0, j0, hi0, hj0, hA0⟩ := hne
  have h := hsvd A m n hA (by omega) (by omega)
  change truncSvd svd t A = .ok c at c1
  have hc := c1
  unfold truncSvd at hc
  have hth : ∀ s ind, threshold t s ind = .ok (s, ind) := by
    intro s ind
    unfold threshold
    rcases ht with h' | h' <;> rw [h'] <;> simp
  simp only [hth, bind, Except.bind] at hc
  generalize capRank _ _ = ind at hc
  cases hc
  have hr : r = min ind (min m n) := by
    rw [← c3, List.length_take, h.len]
  refine ⟨_, _, _, a, r, c1, rfl, c3, c6 h0, c5, ?_, ?_, c9, ?_⟩
  · show [(svd A).1.shape.getD 0 0, min ind ((svd A).1.shape.getD 1 0)] = _
    rw [h.left, hr]; rfl
  · show [(svd A).2.2.shape.getD 1 0, min ind ((svd A).2.2.shape.getD 0 0)] = _
    rw [h.right, hr]; rfl
  · intro i j hi hj
    rw [c11 i j hi hj]
    refine sum_congr rfl (fun l hl => ?_)
    have hl' := mem_range.1 hl
    show (svd A).1.get [i, l] * ((svd A).2.2.get [l, j] * ((svd A).2.1.take ind).getD l 0) = _
    rw [List.getD_eq_getElem _ _ (by rw [List.length_take, h.len]; omega), List.getElem_take,
      List.getD_eq_getElem _ _ (by rw [h.len]; omega)]
    ring

section step

variable (x : TBT ℝ) (hx : WF x) (ha : AllActive x) (hu : NoUnary x.tree) (r : Nat) (hr : x.tree.root = .ok r)
  (H : List (Arr ℝ)) (n : Nat) (hn : 0 < n) (hlen : H.length = x.order)
  (hH : ∀ d, d < x.order → (H.getD d ⟨[], fun _ => 0⟩).shape = [n, x.shape.getD d 0]) (α γ : Nat) (heγ : Edge x.tree γ α)

include hx ha hu hr hn hlen hH heγ in
/-- The values of the function with other tensors at `α` and `γ` are the products of the matrix of the least-squares problem with the
entries of the merged tensor. -/
theorem dmrg_value (hE : (γ ≠ r ∧ rankShape x r = []) ∨ (γ = r ∧ ∀ m ∈ rankShape x r, m = 1)) :
    ∃ g A, paramGradEvalDmrg x α H = .ok g ∧ dmrgMatrix g = .ok A ∧
      A.shape = [n, (ownSizes x α).prod * (siblingSizes x α γ ++ rankShape x γ).prod] ∧
      ∀ x' a' (M : Nat → Nat → ℝ), WF x' → AllActive x' → SamePair x x' α γ → full x' = .ok a' →
        (∀ s t e, InBox (ownSizes x α) s → InBox (siblingSizes x α γ) t → InBox (rankShape x γ) e →
          mergedEntry x' α γ s t e = M (ravelF (ownSizes x α) s) (ravelF (siblingSizes x α γ ++ rankShape x γ) (t ++ e))) →
        ∀ k e, k < n → InBox (rankShape x r) e → predict x.shape H a' k e =
          ∑ p ∈ range (ownSizes x α).prod, ∑ q ∈ range (siblingSizes x α γ ++ rankShape x γ).prod,
            A.get [k, p + (ownSizes x α).prod * q] * M p q := by
  obtain ⟨r', hr', hroot⟩ := root_ok hx.valid
  rw [hr] at hr'; cases hr'
  rcases hE with ⟨hγ, hE⟩ | ⟨hγ, hE⟩
  · obtain ⟨g, g1, g2, g3⟩ := paramGradEvalDmrg_node_partial x hx ha hu r hr H n hn hlen hH α γ heγ hγ (by rw [hE]; simp)
    have hrs : rankShape x γ = [x.lastDim γ] := by
      have := hx.rs_eq heγ.1 (fun h => hγ (root_unique hx.valid h hroot))
      rwa [rs_node (edge_internal hx.valid heγ)] at this
    rw [hE, show ownSizes x α ++ siblingSizes x α γ ++ x.lastDim γ :: [] = ownSizes x α ++ (siblingSizes x α γ ++ rankShape x γ) by
      rw [hrs, List.append_assoc]] at g2
    obtain ⟨A, A1, A2, A3⟩ := dmrgMatrix_ok g n _ g2
    refine ⟨g, A, g1, A1, by rw [A2, List.prod_append], ?_⟩
    intro x' a' M hw hac hp hf hM k e hk he
    rw [g3 x' a' hw hac hp hf k e hk he, ← sumBox_two (F := fun p q => A.get [k, p + (ownSizes x α).prod * q] * M p q)]
    apply sumBox_congr
    intro s hs
    rw [hrs, sumBox_append]
    apply sumBox_congr
    intro t ht
    rw [sumBox_singleton]
    refine sum_congr rfl (fun j hj => ?_)
    have hj' : InBox [x.lastDim γ] [j] := .cons (mem_range.1 hj) .nil
    have he0 : e = [] := by rw [hE] at he; cases he; rfl
    rw [hM s t [j] hs ht (by rw [hrs]; exact hj'), he0, ← hrs]
    have hin : InBox (siblingSizes x α γ ++ rankShape x γ) (t ++ [j]) := (inBox_append ht.length_eq).2 ⟨ht, by rw [hrs]; exact hj'⟩
    have hA := A3 k (s ++ (t ++ [j])) hk ((inBox_append hs.length_eq).2 ⟨hs, hin⟩)
    rw [ravelF_append hs.length_eq] at hA
    rw [hA, List.append_assoc]
  · obtain ⟨g, g1, g2, g3⟩ := paramGradEvalDmrg_root_partial x hx ha hu r hr H n hn hlen hH α γ heγ hγ hE
    have hl := (hx.node r hroot.1 (hx.root_internal hroot)).2.2.1
    have hp1 : (rankShape x r).prod = 1 := List.prod_eq_one hE
    obtain ⟨A, A1, A2, A3⟩ := dmrgMatrix_ok g n _ g2
    subst hγ
    have hN : (siblingSizes x α γ ++ rankShape x γ).prod = (siblingSizes x α γ).prod := by rw [List.prod_append, hp1, mul_one]
    refine ⟨g, A, g1, A1, by rw [A2, List.prod_append, hN], ?_⟩
    intro x' a' M hw hac hp hf hM k e hk he
    rw [g3 x' a' hw hac hp hf k e hk he, hN, ← sumBox_two (F := fun p q => A.get [k, p + (ownSizes x α).prod * q] * M p q)]
    apply sumBox_congr
    intro s hs
    apply sumBox_congr
    intro t ht
    have hA := A3 k (s ++ t) hk ((inBox_append hs.length_eq).2 ⟨hs, ht⟩)
    rw [ravelF_append hs.length_eq] at hA
    rw [hM s t e hs ht he, hA, ravelF_append ht.length_eq, ravelF_ones hl hE he, Nat.mul_zero, Nat.add_zero]

include hx ha heγ in
/-- The update with the coefficients `C`: the merged tensor has the entries of the truncated matrix. -/
theorem dmrgUpdate_placed (svd : Truncation.Svd) (hsvd : Truncation.SvdOk svd) (t : Truncation.Truncator)
    (ht : t.param = none ∨ t.param = some 0) (h0 : t.maxRank ≠ some 0) (C : Arr ℝ)
    (hC : C.shape = [(ownSizes x α).prod * (siblingSizes x α γ ++ rankShape x γ).prod])
    (hne : ∃ i < (ownSizes x α).prod * (siblingSizes x α γ ++ rankShape x γ).prod, C.get [i] ≠ 0) :
    ∃ M c a x', M.shape = [(ownSizes x α).prod, (siblingSizes x α γ ++ rankShape x γ).prod] ∧
      (∀ p q, p < (ownSizes x α).prod → q < (siblingSizes x α γ ++ rankShape x γ).prod →
        M.get [p, q] = C.get [p + (ownSizes x α).prod * q]) ∧
      (∃ p q, p < (ownSizes x α).prod ∧ q < (siblingSizes x α γ ++ rankShape x γ).prod ∧ M.get [p, q] ≠ 0) ∧
      Truncation.truncSvd svd t M = .ok c ∧ Canonical.full c = .ok a ∧ dmrgUpdate svd t x α C = .ok x' ∧ WF x' ∧ AllActive x' ∧
      SamePair x x' α γ ∧ x'.lastDim α = c.core.length ∧ (∀ R, t.maxRank = some R → x'.lastDim α ≤ R) ∧
      ∀ s t e, InBox (ownSizes x α) s → InBox (siblingSizes x α γ) t → InBox (rankShape x γ) e →
        mergedEntry x' α γ s t e =
          a.get [ravelF (ownSizes x α) s, ravelF (siblingSizes x α γ ++ rankShape x γ) (t ++ e)] := by
  set m := (ownSizes x α).prod with hm
  set N := (siblingSizes x α γ ++ rankShape x γ).prod with hN
  obtain ⟨d1, d2, d3⟩ := dmrgShape2_eq x hx ha α γ heγ
  obtain ⟨M, m1, m2, m3⟩ : ∃ M, FullTensor.reshape C [m, N] = .ok M ∧ M.shape = [m, N] ∧
      ∀ p q, p < m → q < N → M.get [p, q] = C.get [p + m * q] := by
    unfold FullTensor.reshape
    rw [if_pos (by rw [hC]; simp)]
    refine ⟨_, rfl, rfl, ?_⟩
    intro p q hp hq
    show C.get (unravelF C.shape (ravelF [m, N] [p, q])) = _
    have h1 : InBox [m, N] [p, q] := .cons hp (.cons hq .nil)
    have h2 := ravelF_lt h1
    have h3 : ravelF [m, N] [p, q] = p + m * q := by simp [ravelF]
    rw [h3] at h2 ⊢
    simp only [List.prod_cons, List.prod_nil, mul_one] at h2
    rw [hC]
    simp only [unravelF]
    rw [Nat.mod_eq_of_lt h2]
  have hMne : ∃ p q, p < m ∧ q < N ∧ M.get [p, q] ≠ 0 := by
    obtain ⟨i, hi, hci⟩ := hne
    have hmp : 0 < m := Nat.pos_of_ne_zero (fun h => by simp [h] at hi)
    refine ⟨i % m, i / m, Nat.mod_lt _ hmp, Nat.div_lt_of_lt_mul hi, ?_⟩
    rw [m3 _ _ (Nat.mod_lt _ hmp) (Nat.div_lt_of_lt_mul hi), Nat.mod_add_div]
    exact hci
  obtain ⟨c, U, V, a, ρ, c1, c2, c3, c4, c5, c6, c7, c8, c9⟩ := trunc_pair svd hsvd t ht h0 M m N m2 hMne
  have hsc : scaleCols V c.core = .ok ⟨V.shape, fun ij => V.get ij * c.core.getD (ij.getD 1 0) 0⟩ := by
    unfold scaleCols; rw [if_pos (by rw [c3, c7]; rfl)]
  obtain ⟨x', p1, p2, p3, p4, p5, p6⟩ := placePair_spec x hx ha α γ heγ U
    ⟨V.shape, fun ij => V.get ij * c.core.getD (ij.getD 1 0) 0⟩ ρ c4 c6 c7
  refine ⟨M, c, a, x', m2, m3, hMne, c1, c8, ?_, p2, p3, p4, by rw [p5, c3], fun R hR => by rw [p5]; exact c5 R hR, ?_⟩
  · unfold dmrgUpdate
    rw [d2]
    change FullTensor.reshape C [(x.tensors α).shape.dropLast.prod, N] = .ok M at m1
    simp only [← hN, m1, c1, c2, List.getD_cons_zero, List.getD_cons_succ, hsc, p1, bind, Except.bind]
  · intro s t e hs ht' he
    rw [p6 s t e hs ht' he]
    exact c9 _ _ (ravelF_lt hs) (ravelF_lt ((inBox_append ht'.length_eq).2 ⟨ht', he⟩))

include hx ha hu hr hn hlen hH heγ in
/-- C210. The update of the DMRG algorithm (`"dmrg"`): from coefficients that are not zero of the linear model whose matrix `A` is the
gradient with respect to the merged node, the nodes `alpha` and `gamma` are replaced, with the rank of the truncated coefficients, at most
the maximal rank; the tensor stays well formed. The new function takes at point `k` the value of row `k` of `A` times the truncated
coefficients. Excluded: the functions for which the gradient is refused or has an output axis. -/
theorem dmrgUpdate_partial (hE : (γ ≠ r ∧ rankShape x r = []) ∨ (γ = r ∧ ∀ m ∈ rankShape x r, m = 1))
    (svd : Truncation.Svd) (hsvd : Truncation.SvdOk svd) (t : Truncation.Truncator)
    (ht : t.param = none ∨ t.param = some 0) (h0 : t.maxRank ≠ some 0) :
    ∃ g A m N, m = (ownSizes x α).prod ∧ N = (siblingSizes x α γ ++ rankShape x γ).prod ∧
      paramGradEvalDmrg x α H = .ok g ∧ dmrgMatrix g = .ok A ∧ A.shape = [n, m * N] ∧
      ∀ C : Arr ℝ, C.shape = [m * N] → (∃ i < m * N, C.get [i] ≠ 0) →
        ∃ M c a x', M.shape = [m, N] ∧ (∀ p q, p < m → q < N → M.get [p, q] = C.get [p + m * q]) ∧
          Truncation.truncSvd svd t M = .ok c ∧ Canonical.full c = .ok a ∧
          dmrgUpdate svd t x α C = .ok x' ∧ WF x' ∧ AllActive x' ∧ SamePair x x' α γ ∧ x'.lastDim α = c.core.length ∧
          (∀ R, t.maxRank = some R → x'.lastDim α ≤ R) ∧
          ∃ y, full x' = .ok y ∧ ∀ k e, k < n → InBox (rankShape x r) e →
            predict x.shape H y k e = ∑ p ∈ range m, ∑ q ∈ range N, A.get [k, p + m * q] * a.get [p, q] := by
  obtain ⟨g, A, g1, g2, g3, g4⟩ := dmrg_value x hx ha hu r hr H n hn hlen hH α γ heγ hE
  refine ⟨g, A, _, _, rfl, rfl, g1, g2, g3, ?_⟩
  intro C hC hne
  obtain ⟨M, c, a, x', a1, a2, _, a3, a4, a5, a6, a7, a8, a9, a10, a11⟩ := dmrgUpdate_placed x hx ha α γ heγ svd hsvd t ht h0 C hC hne
  obtain ⟨y, _, hy, _⟩ := full_spec x' a6
  exact ⟨M, c, a, x', a1, a2, a3, a4, a5, a6, a7, a8, a9, a10, y, hy, fun k e hk he =>
    g4 x' y (fun p q => a.get [p, q]) a6 a7 a8 hy a11 k e hk he⟩

include hx ha hu hr hn hlen hH heγ in
/-- C210. Without maximal rank the value of the new function at point `k` differs from row `k` of the matrix times the coefficients by at
most the tolerance times the norm of the coefficients times the norm of the row. -/
theorem dmrgUpdate_error_partial (hE : (γ ≠ r ∧ rankShape x r = []) ∨ (γ = r ∧ ∀ m ∈ rankShape x r, m = 1))
    (svd : Truncation.Svd) (hsvd : Truncation.SvdOk svd) (t : Truncation.Truncator)
    (ht : t.param = none ∨ t.param = some 0) (hmr : t.maxRank = none) (htol : 0 ≤ t.tolerance) :
    ∃ g A N, paramGradEvalDmrg x α H = .ok g ∧ dmrgMatrix g = .ok A ∧ A.shape = [n, N] ∧
      ∀ C : Arr ℝ, C.shape = [N] → (∃ i < N, C.get [i] ≠ 0) →
        ∃ x' y, dmrgUpdate svd t x α C = .ok x' ∧ full x' = .ok y ∧ ∀ k e, k < n → InBox (rankShape x r) e →
          |predict x.shape H y k e - ∑ i ∈ range N, A.get [k, i] * C.get [i]| ≤
            t.tolerance * √(∑ i ∈ range N, C.get [i] ^ 2) * √(∑ i ∈ range N, A.get [k, i] ^ 2) := by
  obtain ⟨g, A, m, N, _, _, g1, g2, g3, g4⟩ := dmrgUpdate_partial x hx ha hu r hr H n hn hlen hH α γ heγ hE svd hsvd t ht (by rw [hmr]; simp)
  refine ⟨g, A, m * N, g1, g2, g3, ?_⟩
  intro C hC hne
  obtain ⟨M, c, a, x', a1, a2, a3, a4, a5, _, _, _, _, _, y, hy, hv⟩ := g4 C hC hne
  refine ⟨x', y, a5, hy, ?_⟩
  intro k e hk he
  have hflat : ∀ F : Nat → ℝ, ∑ i ∈ range (m * N), F i = ∑ p ∈ range m, ∑ q ∈ range N, F (p + m * q) := by
    intro F
    have h1 := Truncation.sumBox_ravel (s := [m, N]) F
    simp only [List.prod_cons, List.prod_nil, mul_one] at h1
    rw [← h1]
    show ∑ p ∈ range m, ∑ q ∈ range N, F (ravelF [m, N] [p, q]) = _
    simp [ravelF]
  have hMne : ∃ i j, i < m ∧ j < N ∧ M.get [i, j] ≠ 0 := by
    obtain ⟨i, hi, hci⟩ := hne
    have hmp : 0 < m := Nat.pos_of_ne_zero (fun h => by simp [h] at hi)
    refine ⟨i % m, i / m, Nat.mod_lt _ hmp, Nat.div_lt_of_lt_mul hi, ?_⟩
    rw [a2 _ _ (Nat.mod_lt _ hmp) (Nat.div_lt_of_lt_mul hi), Nat.mod_add_div]
    exact hci
  obtain ⟨c', a', b1, b2, b3, b4⟩ := Truncation.truncSvd_error svd hsvd t ht hmr M m N a1 hMne t.tolerance htol
  have hcc : c' = c := by
    change Truncation.truncSvd svd t M = .ok c' at b1
    rw [a3] at b1; cases b1; rfl
  subst hcc
  rw [a4] at b2; cases b2
  have hd : predict x.shape H y k e - ∑ i ∈ range (m * N), A.get [k, i] * C.get [i] =
      ∑ pq ∈ range m ×ˢ range N, A.get [k, pq.1 + m * pq.2] * (a.get [pq.1, pq.2] - M.get [pq.1, pq.2]) := by
    rw [hv k e hk he, hflat, ← sum_sub_distrib, sum_product]
    refine sum_congr rfl (fun p hp => ?_)
    rw [← sum_sub_distrib]
    refine sum_congr rfl (fun q hq => ?_)
    rw [a2 p q (mem_range.1 hp) (mem_range.1 hq)]
    ring
  have hcs := sum_mul_sq_le_sq_mul_sq (range m ×ˢ range N) (fun pq => A.get [k, pq.1 + m * pq.2])
    (fun pq => a.get [pq.1, pq.2] - M.get [pq.1, pq.2])
  rw [← hd] at hcs
  have e1 : ∑ pq ∈ range m ×ˢ range N, A.get [k, pq.1 + m * pq.2] ^ 2 = ∑ i ∈ range (m * N), A.get [k, i] ^ 2 := by
    rw [hflat, sum_product]
  have e2 : ∑ pq ∈ range m ×ˢ range N, (a.get [pq.1, pq.2] - M.get [pq.1, pq.2]) ^ 2 =
      Truncation.sqSum m N (fun i j => M.get [i, j] - a.get [i, j]) := by
    unfold Truncation.sqSum
    rw [sum_product]
    exact sum_congr rfl (fun p _ => sum_congr rfl (fun q _ => by ring))
  have e3 : Truncation.sqSum m N (fun i j => M.get [i, j]) = ∑ i ∈ range (m * N), C.get [i] ^ 2 := by
    unfold Truncation.sqSum
    rw [hflat]
    exact sum_congr rfl (fun p hp => sum_congr rfl (fun q hq => by
      beta_reduce; rw [a2 p q (mem_range.1 hp) (mem_range.1 hq)]))
  rw [e1, e2] at hcs
  rw [e3] at b4
  have hA0 : 0 ≤ ∑ i ∈ range (m * N), A.get [k, i] ^ 2 := sum_nonneg (fun i _ => sq_nonneg _)
  have hC0 : 0 ≤ ∑ i ∈ range (m * N), C.get [i] ^ 2 := sum_nonneg (fun i _ => sq_nonneg _)
  apply abs_le_of_sq_le_sq
  · rw [mul_pow, mul_pow, Real.sq_sqrt hA0, Real.sq_sqrt hC0]
    calc _ ≤ _ := hcs
      _ ≤ (∑ i ∈ range (m * N), A.get [k, i] ^ 2) * (t.tolerance ^ 2 * ∑ i ∈ range (m * N), C.get [i] ^ 2) :=
        mul_le_mul_of_nonneg_left b4 hA0
      _ = _ := by ring
  · positivity

include hx ha hu hr hn hlen hH heγ in
/-- C210. For a function with several outputs, when `gamma` is not the root, the least-squares problem has one coefficient per entry of
the merged tensor and per output: every vector of coefficients is refused. -/
theorem dmrgUpdate_raises (hγ : γ ≠ r) (m : Nat) (hm : 1 < m) (hE : rankShape x r = [m]) (svd : Truncation.Svd) (t : Truncation.Truncator) :
    ∃ g A N, paramGradEvalDmrg x α H = .ok g ∧ dmrgMatrix g = .ok A ∧ A.shape = [n, N] ∧
      ∀ C : Arr ℝ, C.shape = [N] → dmrgUpdate svd t x α C = .error .valueError := by
  obtain ⟨r', hr', hroot⟩ := root_ok hx.valid
  rw [hr] at hr'; cases hr'
  obtain ⟨g, g1, g2, g3⟩ := paramGradEvalDmrg_node_partial x hx ha hu r hr H n hn hlen hH α γ heγ hγ (by rw [hE]; simp; omega)
  obtain ⟨A, A1, A2, A3⟩ := dmrgMatrix_ok g n _ g2
  refine ⟨g, A, _, g1, A1, A2, ?_⟩
  intro C hC
  obtain ⟨d1, d2, d3⟩ := dmrgShape2_eq x hx ha α γ heγ
  have hrs : rankShape x γ = [x.lastDim γ] := by
    have := hx.rs_eq heγ.1 (fun h => hγ (root_unique hx.valid h hroot))
    rwa [rs_node (edge_internal hx.valid heγ)] at this
  have hpos : ∀ i, IsNode x.tree i → ∀ m ∈ (x.tensors i).shape, m ≠ 0 := fun i hi => prod_ne_zero.1 (ha i hi)
  have p1 : (ownSizes x α).prod ≠ 0 := by
    intro h
    exact hpos α heγ.2.1 0 (List.mem_of_mem_dropLast (List.prod_eq_zero_iff.1 h)) rfl
  have p2 : (siblingSizes x α γ ++ rankShape x γ).prod ≠ 0 := by
    intro h
    refine hpos γ heγ.1 0 ?_ rfl
    rw [parent_shape x hx ha α γ heγ, List.mem_insertIdx (by rw [List.length_append]; have := idx_le_sib x α γ; omega)]
    exact .inr (List.prod_eq_zero_iff.1 h)
  unfold dmrgUpdate
  rw [d2]
  change (do
    let M ← FullTensor.reshape C [(ownSizes x α).prod, (siblingSizes x α γ ++ rankShape x γ).prod]
    _) = _
  unfold FullTensor.reshape
  rw [if_neg]
  · rfl
  · rw [hC, hE]
    rw [hrs, List.prod_append] at p2
    simp only [hrs, List.prod_append, List.prod_cons, List.prod_nil, mul_one] at p2 ⊢
    intro h
    have h3 : 0 < (ownSizes x α).prod * ((siblingSizes x α γ).prod * x.lastDim γ) :=
      Nat.pos_of_ne_zero (Nat.mul_ne_zero p1 p2)
    have h4 : (ownSizes x α).prod * ((siblingSizes x α γ).prod * x.lastDim γ) * 1 =
        (ownSizes x α).prod * ((siblingSizes x α γ).prod * x.lastDim γ) * m := by
      refine (mul_one _).trans (h.trans ?_); ring
    have := Nat.eq_of_mul_eq_mul_left h3 h4
    omega

/-- The entries of a tensor in the tree with two leaves, the second one inactive. -/
theorem trivial_two (y : TBT ℝ) (hy : WF y) (hT : y.tree = DTree.trivial 2) (h2 : y.active 2 = true) (h3 : y.active 3 = false)
    (m N : Nat) (hs : y.shape = [m, N]) (he : rankShape y 1 = []) (c : Arr ℝ) (hc : full y = .ok c) :
    ∃ ρ, 0 < ρ ∧ (y.tensors 2).shape = [m, ρ] ∧ (y.tensors 1).shape = [ρ, N] ∧
      ∀ p q, p < m → q < N → c.get [p, q] = ∑ l ∈ range ρ, (y.tensors 2).get [p, l] * (y.tensors 1).get [l, q] := by
  have hl2 : (2 : Nat) ∈ y.tree.dim2ind := by rw [hT]; decide
  have hl1 : (1 : Nat) ∉ y.tree.dim2ind := by rw [hT]; decide
  have hn1 : IsNode y.tree 1 := by rw [hT]; exact ⟨by decide, by decide⟩
  have hch : y.tree.children 1 = [2, 3] := by rw [hT]; decide
  obtain ⟨m', ρ, hsh⟩ := hy.leaf 2 hl2 h2
  have hld : y.lastDim 2 = ρ := lastDim_of_shape (s := [m']) hsh
  have hsz : [y.leafSize 2, y.leafSize 3] = [m, N] := by
    rw [← hs]; unfold TBT.shape; rw [hT]; rfl
  simp only [List.cons.injEq, and_true] at hsz
  have hm : m' = m := by
    rw [← hsz.1]; unfold TBT.leafSize; rw [if_pos h2, hsh]; rfl
  subst hm
  have hs1 := (hy.node 1 hn1 hl1).2.1
  rw [hch, he] at hs1
  have hcs2 : childSize y 2 = ρ := by unfold childSize; rw [if_pos h2, hld]
  have hcs3 : childSize y 3 = N := by unfold childSize; rw [h3, if_neg (by simp), hsz.2]
  simp only [List.map_cons, List.map_nil, hcs2, hcs3, List.append_nil] at hs1
  have hρ : 0 < ρ := Nat.pos_of_ne_zero (fun h => by
    have := prod_ne_zero.1 h2 ρ (by rw [hsh]; simp)
    exact this h)
  refine ⟨ρ, hρ, hsh, hs1, ?_⟩
  intro p q hp hq
  obtain ⟨z, r, f1, f2, f3, f4⟩ := full_spec y hy
  rw [hc] at f1; cases f1
  have hr1 : r = 1 := by
    have : (DTree.trivial 2).root = .ok 1 := by decide +kernel
    rw [hT, this] at f2; cases f2; rfl
  subst hr1
  obtain ⟨V, hV⟩ := exists_value y hy.valid
  have h := f4 V hV [p, q] [] (by rw [hs]; exact .cons hp (.cons hq .nil)) (by rw [he]; exact .nil)
  rw [List.append_nil, hV.node 1 hn1 hl1, hch] at h
  rw [h]
  unfold childSum
  rw [if_pos h2, hld]
  refine sum_congr rfl (fun l _ => ?_)
  unfold childSum
  rw [h3, if_neg (by simp)]
  unfold childSum
  rw [hV.leaf 2 hl2 h2]
  have d2 : dimOf y.tree 2 = 0 := by rw [hT]; decide
  have d3 : dimOf y.tree 3 = 1 := by rw [hT]; decide
  rw [d2, d3]
  rfl

include hx ha hu hr hn hlen hH heγ in
/-- C211. The update of the DMRG algorithm with `"dmrg_low_rank"`: from a function `y` of two variables in the tree with two leaves (the
first one active) whose bases take the values of the two factors of the gradient, the nodes `alpha` and `gamma` are replaced, with the
rank of `y`; the tensor stays well formed and the new function takes at every point the value of `y`. -/
theorem dmrgUpdateLowRank_partial (hE : (γ ≠ r ∧ rankShape x r = []) ∨ (γ = r ∧ ∀ m ∈ rankShape x r, m = 1)) :
    ∃ ga gg A₁ A₂, paramGradEvalLowRank x α H = .ok (ga, gg) ∧ dmrgMatrix ga = .ok A₁ ∧ dmrgMatrix gg = .ok A₂ ∧
      A₁.shape = [n, (ownSizes x α).prod] ∧ A₂.shape = [n, (siblingSizes x α γ ++ rankShape x γ).prod] ∧
      ∀ y c, WF y → y.tree = DTree.trivial 2 → y.active 2 = true → y.active 3 = false →
        y.shape = [(ownSizes x α).prod, (siblingSizes x α γ ++ rankShape x γ).prod] → rankShape y 1 = [] → full y = .ok c →
        ∃ x' z, dmrgUpdateLowRank x α (y.tensors 1) (y.tensors 2) = .ok x' ∧ WF x' ∧ AllActive x' ∧ SamePair x x' α γ ∧
          x'.lastDim α = y.lastDim 2 ∧ full x' = .ok z ∧ ∀ k e, k < n → InBox (rankShape x r) e →
            predict x.shape H z k e = predict y.shape [A₁, A₂] c k [] := by
  obtain ⟨r', hr', hroot⟩ := root_ok hx.valid
  rw [hr] at hr'; cases hr'
  obtain ⟨ga, gg, l1, l2, l3, l4⟩ := paramGradEvalLowRank_partial x hx ha hu r hr H n hn hlen hH α γ heγ hE
  have hrsn : γ ≠ r → rankShape x γ = [x.lastDim γ] := by
    intro hγ
    have := hx.rs_eq heγ.1 (fun h => hγ (root_unique hx.valid h hroot))
    rwa [rs_node (edge_internal hx.valid heγ)] at this
  have hprod : (siblingSizes x α γ ++ if γ = r then [] else [x.lastDim γ]).prod = (siblingSizes x α γ ++ rankShape x γ).prod := by
    rcases hE with ⟨hγ, _⟩ | ⟨hγ, hE⟩
    · rw [if_neg hγ, hrsn hγ]
    · subst hγ
      rw [if_pos rfl, List.prod_append, List.prod_append, List.prod_eq_one hE]; rfl
  obtain ⟨A₁, A1, A2, A3⟩ := dmrgMatrix_ok ga n _ l2
  obtain ⟨A₂, B1, B2, B3⟩ := dmrgMatrix_ok gg n _ l3
  refine ⟨ga, gg, A₁, A₂, l1, A1, B1, A2, by rw [B2, hprod], ?_⟩
  intro y c hy hT h2 h3 hs he1 hc
  obtain ⟨ρ, hρ, t1, t2, t3⟩ := trivial_two y hy hT h2 h3 _ _ hs he1 c hc
  obtain ⟨W, w1, w2, w3⟩ : ∃ W, FullTensor.transposeT (y.tensors 1) [1, 0] = .ok W ∧
      W.shape = [(siblingSizes x α γ ++ rankShape x γ).prod, ρ] ∧ ∀ i j, W.get [i, j] = (y.tensors 1).get [j, i] := by
    unfold FullTensor.transposeT
    rw [if_pos (by rw [show (y.tensors 1).order = 2 by show (y.tensors 1).shape.length = _; rw [t2]; rfl]; decide)]
    exact ⟨_, rfl, by show applyPerm [1, 0] (y.tensors 1).shape = _; rw [t2]; rfl, fun i j => rfl⟩
  obtain ⟨x', p1, p2, p3, p4, p5, p6⟩ := placePair_spec x hx ha α γ heγ (y.tensors 2) W ρ hρ t1 w2
  obtain ⟨z, _, hz, _⟩ := full_spec x' p2
  refine ⟨x', z, ?_, p2, p3, p4, by rw [p5]; exact (lastDim_of_shape (s := [(ownSizes x α).prod]) t1).symm, hz, ?_⟩
  · unfold dmrgUpdateLowRank
    simp only [w1, p1, bind, Except.bind]
  · intro k e hk he
    have hM : ∀ s t e, InBox (ownSizes x α) s → InBox (siblingSizes x α γ) t → InBox (rankShape x γ) e →
        mergedEntry x' α γ s t e = c.get [ravelF (ownSizes x α) s, ravelF (siblingSizes x α γ ++ rankShape x γ) (t ++ e)] := by
      intro s t e hs' ht' he'
      rw [p6 s t e hs' ht' he', t3 _ _ (ravelF_lt hs') (ravelF_lt ((inBox_append ht'.length_eq).2 ⟨ht', he'⟩))]
      exact sum_congr rfl (fun l _ => by rw [w3])
    have hrhs : predict y.shape [A₁, A₂] c k [] = ∑ p ∈ range (ownSizes x α).prod,
        ∑ q ∈ range (siblingSizes x α γ ++ rankShape x γ).prod, A₁.get [k, p] * A₂.get [k, q] * c.get [p, q] := by
      unfold predict
      rw [hs]
      show ∑ p ∈ range _, ∑ q ∈ range _, c.get ([p, q] ++ []) * (List.zipWith (fun (M : Arr ℝ) j => M.get [k, j]) [A₁, A₂] [p, q]).prod = _
      refine sum_congr rfl (fun p _ => sum_congr rfl (fun q _ => ?_))
      simp
      ring
    rw [hrhs, l4 x' z p2 p3 p4 hz k e hk he]
    rcases hE with ⟨hγ, hE⟩ | ⟨hγ, hE⟩
    · rw [← sumBox_two (F := fun p q => A₁.get [k, p] * A₂.get [k, q] * c.get [p, q])]
      apply sumBox_congr
      intro s hs'
      rw [hrsn hγ, sumBox_append]
      apply sumBox_congr
      intro t ht'
      rw [sumBox_singleton, if_neg hγ, mul_sum]
      refine sum_congr rfl (fun j hj => ?_)
      have hj' : InBox [x.lastDim γ] [j] := .cons (mem_range.1 hj) .nil
      rw [hM s t [j] hs' ht' (by rw [hrsn hγ]; exact hj'), hrsn hγ, A3 k s hk hs']
      have hB := B3 k (t ++ [j]) hk (by rw [if_neg hγ]; exact (inBox_append ht'.length_eq).2 ⟨ht', hj'⟩)
      rw [if_neg hγ] at hB
      rw [hB]
      ring
    · subst hγ
      have hN : (siblingSizes x α γ ++ rankShape x γ).prod = (siblingSizes x α γ).prod := by
        rw [List.prod_append, List.prod_eq_one hE, mul_one]
      have hl := (hx.node γ hroot.1 (hx.root_internal hroot)).2.2.1
      rw [hN, ← sumBox_two (F := fun p q => A₁.get [k, p] * A₂.get [k, q] * c.get [p, q])]
      apply sumBox_congr
      intro s hs'
      apply sumBox_congr
      intro t ht'
      rw [if_pos rfl, hM s t e hs' ht' he, ravelF_append ht'.length_eq, ravelF_ones hl hE he, Nat.mul_zero, Nat.add_zero,
        A3 k s hk hs']
      have hB := B3 k t hk (by rw [if_pos rfl, List.append_nil]; exact ht')
      rw [if_pos rfl, List.append_nil] at hB
      rw [hB]
      ring

end step

/-- A function of two variables in the tree with two leaves, the second one inactive. -/
def exY : TBT ℝ where
  tree := DTree.trivial 2
  tensors := fun i => match i with
    | 1 => ⟨[2, 2], fun t => t.getD 0 0 + 1⟩
    | 2 => ⟨[2, 2], fun t => 2 * t.getD 1 0⟩
    | _ => ⟨[0], fun _ => 0⟩

/-- The hypotheses of C210 and C211 are met: node 4 of `exUR`, of merged sizes `2 × 2`, its parent 2 is not the root. -/
example : ∃ svd : Truncation.Svd, Truncation.SvdOk svd ∧ WF exUR ∧ AllActive exUR ∧ NoUnary exUR.tree ∧ exUR.tree.root = .ok 1 ∧
    exHR.length = exUR.order ∧ (∀ d, d < exUR.order → (exHR.getD d ⟨[], fun _ => 0⟩).shape = [4, exUR.shape.getD d 0]) ∧
    Edge exUR.tree 2 4 ∧ (2 ≠ 1 ∧ rankShape exUR 1 = []) ∧ (ownSizes exUR 4).prod = 2 ∧
    (siblingSizes exUR 4 2 ++ rankShape exUR 2).prod = 2 := by
  obtain ⟨svd, h⟩ := Truncation.exists_svd
  have d := exUR_data
  exact ⟨svd, h, d.wf, d.active, d.unary, d.root, d.length, d.mats,
    ⟨⟨by decide, by decide⟩, ⟨by decide, by decide⟩, by decide +kernel⟩, ⟨by decide, by decide +kernel⟩, by decide +kernel, by decide +kernel⟩

example : WF exY ∧ exY.active 2 = true ∧ exY.active 3 = false ∧ exY.shape = [2, 2] ∧ rankShape exY 1 = [] :=
  ⟨wf_of_wfB _ (trivial_valid 2 (by decide)) (by decide +kernel), by decide +kernel, by decide +kernel, by decide +kernel,
    by decide +kernel⟩

end Verif.TreeBased
