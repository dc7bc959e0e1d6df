import Verif.Spec.AlphaRank
import Verif.Model.TreeMisc
import Verif.Props.Gramians
import Verif.Props.TreeModes
import Verif.Props.TreeRanks
import Verif.Props.CondExp
import Verif.Props.Diagonal
import Mathlib.LinearAlgebra.Matrix.Rank

/-!
# Properties of short methods of `TreeBasedTensor`
-/

namespace Verif.TreeBased

open Verif.Arr Verif.DimTree Verif.Projection Verif.Truncation Finset

/-- A function that does not depend on the subscripts outside of `D` takes the same value at subscripts that agree on `D`. -/
theorem eq_of_agree {D : List Nat} {A : List Nat → ℝ} {p q : List Nat} (hA : ∀ d ∉ D, d < p.length → ∀ p v, A (p.set d v) = A p)
    (hlen : p.length = q.length) (h : ∀ d ∈ D, p.getD d 0 = q.getD d 0) : A p = A q := by
  have key : ∀ k, k ≤ q.length → A (q.take k ++ p.drop k) = A p := by
    intro k
    induction k with
    | zero => intro _; simp
    | succ k ih =>
      intro hk
      have hkp : k < p.length := by omega
      have e : q.take (k + 1) ++ p.drop (k + 1) = (q.take k ++ p.drop k).set k (q.getD k 0) := by
        rw [List.set_append_right _ _ (by simp), List.length_take, Nat.min_eq_left (by omega), Nat.sub_self,
          List.drop_eq_getElem_cons hkp, List.set_cons_zero, List.take_succ_eq_append_getElem (by omega), List.append_assoc,
          List.getD_eq_getElem _ _ (by omega)]
        rfl
      rw [e]
      by_cases hd : k ∈ D
      · have : (q.take k ++ p.drop k).set k (q.getD k 0) = q.take k ++ p.drop k := by
          rw [← h k hd, List.set_append_right _ _ (by simp), List.length_take, Nat.min_eq_left (by omega), Nat.sub_self,
            List.drop_eq_getElem_cons hkp, List.set_cons_zero, List.getD_eq_getElem _ _ hkp]
        rw [this, ih (by omega)]
      · rw [hA k hd hkp, ih (by omega)]
  have := key q.length le_rfl
  rw [List.take_length, List.drop_of_length_le (by omega), List.append_nil] at this
  exact this.symm

/-- A function of no subscript is constant. -/
theorem const_of_set {A : List Nat → ℝ} (hA : ∀ d p v, A (p.set d v) = A p) {p q : List Nat} (hlen : p.length = q.length) : A p = A q :=
  eq_of_agree (D := []) (fun d _ _ => hA d) hlen (by simp)

/-- The sum over some subscripts of a function that does not depend on another. -/
theorem dSum_set {s D : List Nat} {f : List Nat → ℝ} {d : Nat} (hd : d ∉ D) (hf : ∀ p v, f (p.set d v) = f p) (p : List Nat) (v : Nat) :
    dSum s D f (p.set d v) = dSum s D f p := by
  induction D generalizing p with
  | nil => exact hf p v
  | cons e D ih =>
    simp only [dSum_cons, avg]
    refine sum_congr rfl (fun b _ => ?_)
    have hde : d ≠ e := fun h => hd (by simp [h])
    rw [List.set_comm _ _ hde, ih (fun h => hd (by simp [h]))]

/-- A nonnegative function is at most its sum over some subscripts. -/
theorem le_dSum {s D : List Nat} {f : List Nat → ℝ} (hD : ∀ d ∈ D, d < s.length) (hf : ∀ p, 0 ≤ f p) {p : List Nat} (hp : InBox s p) :
    f p ≤ dSum s D f p := by
  have hnn : ∀ D p, 0 ≤ dSum s D f p := by
    intro D
    induction D with
    | nil => exact hf
    | cons e D ih => intro p; rw [dSum_cons]; exact sum_nonneg (fun a _ => ih _)
  induction D generalizing p with
  | nil => exact le_rfl
  | cons e D ih =>
    have hlt : e < p.length := by rw [hp.length_eq]; exact hD e (by simp)
    have h1 : p.getD e 0 < s.getD e 0 := ((inBox_iff_getD s p).1 hp).2 e (hD e (by simp))
    refine (ih (fun d hd => hD d (by simp [hd])) hp).trans ?_
    rw [dSum_cons]
    unfold avg
    have := single_le_sum (f := fun a => dSum s D f (p.set e a)) (fun a _ => hnn D _) (mem_range.2 h1)
    rwa [List.getD_eq_getElem _ _ hlt, List.set_getElem_self] at this

theorem entriesAt_set {D : List Nat} {d : Nat} (hd : d ∉ D) (p : List Nat) (v : Nat) : entriesAt D (p.set d v) = entriesAt D p := by
  unfold entriesAt
  refine List.map_congr_left (fun k hk => ?_)
  rw [getD_set, if_neg]
  rintro ⟨rfl, -⟩
  exact hd hk

theorem entriesOff_set {D : List Nat} {d : Nat} (hd : d ∈ D) (p : List Nat) (v : Nat) : entriesOff D (p.set d v) = entriesOff D p := by
  unfold entriesOff
  rw [List.length_set]
  refine List.map_congr_left (fun k hk => ?_)
  rw [getD_set, if_neg]
  rintro ⟨rfl, -⟩
  simp [List.mem_filter, hd] at hk

/-- The nonzero entries of a nonincreasing list of nonnegative numbers come first. -/
theorem zero_after {σ : List ℝ} (h : σ.Pairwise (· ≥ ·)) (hn : ∀ v ∈ σ, 0 ≤ v) {l : Nat}
    (hl : (σ.filter (fun v => decide (v ≠ 0))).length ≤ l) : σ.getD l 0 = 0 := by
  induction σ generalizing l with
  | nil => simp
  | cons v σ ih =>
    rw [List.pairwise_cons] at h
    by_cases hv : v = 0
    · have : ∀ w ∈ v :: σ, w = 0 := by
        intro w hw
        rcases List.mem_cons.1 hw with rfl | hw'
        · exact hv
        · exact le_antisymm (hv ▸ h.1 w hw') (hn w hw)
      by_cases hlt : l < (v :: σ).length
      · rw [List.getD_eq_getElem _ _ hlt]
        exact this _ (List.getElem_mem _)
      · rw [List.getD_eq_default _ _ (by omega)]
    · rw [List.filter_cons_of_pos (by simpa using hv), List.length_cons] at hl
      obtain ⟨l, rfl⟩ : ∃ l', l = l' + 1 := ⟨l - 1, by omega⟩
      rw [List.getD_cons_succ]
      exact ih h.2 (fun w hw => hn w (by simp [hw])) (by omega)

theorem card_filter_getD (σ : List ℝ) :
    Fintype.card {i : Fin σ.length // σ.getD i.val 0 ^ 2 ≠ 0} = (σ.filter (fun v => decide (v ≠ 0))).length := by
  induction σ with
  | nil => simp
  | cons v σ ih =>
    rw [Fintype.card_subtype] at ih ⊢
    rw [show (v :: σ).length = σ.length + 1 from rfl, Fin.card_filter_univ_succ]
    simp only [Fin.val_zero, List.getD_cons_zero, Fin.val_succ, List.getD_cons_succ] at ih ⊢
    by_cases hv : v = 0
    · rw [if_neg (by simp [hv]), List.filter_cons_of_neg (by simpa using hv), ← ih]
    · rw [if_pos (by simpa using hv), List.filter_cons_of_pos (by simpa using hv), List.length_cons, ← ih]

/-- A decomposition on orthonormal and orthogonal functions gives the rank: the number of nonzero norms. -/
theorem rank_of_splits {s out : List Nat} {a : List Nat → ℝ} {D : List Nat} {σ : List ℝ} {A : Nat → List Nat → ℝ}
    {B : Nat → List Nat → List Nat → ℝ} (hD : ∀ d ∈ D, d < s.length) (hs : ∃ p, InBox s p)
    (hσ : σ.Pairwise (· ≥ ·)) (hσn : ∀ v ∈ σ, 0 ≤ v)
    (h : Splits s out a D σ.length (fun l l' => if l = l' then σ.getD l 0 ^ 2 else 0) A B) :
    IsAlphaRank s out a D (σ.filter (fun v => decide (v ≠ 0))).length := by
  set k := (σ.filter (fun v => decide (v ≠ 0))).length with hk
  have hkle : k ≤ σ.length := List.length_filter_le _ _
  constructor
  · -- the products of zero norm vanish
    have hB0 : ∀ l, k ≤ l → l < σ.length → ∀ p e, InBox s p → InBox out e → B l p e = 0 := by
      intro l hl1 hl2 p e hp he
      have hg := h.gram l l hl2 hl2 p hp
      rw [if_pos rfl, zero_after hσ hσn hl1, sumBox_eq_sum] at hg
      have hnn : ∀ e q, 0 ≤ B l q e * B l q e := fun e q => mul_self_nonneg _
      have hC : ∀ d ∈ compl s.length D, d < s.length := fun d hd => List.mem_range.1 (List.mem_filter.1 hd).1
      have hge : ∀ e, 0 ≤ dSum s (compl s.length D) (fun p => B l p e * B l p e) p := fun e =>
        (hnn e p).trans (le_dSum hC (fun q => hnn e q) hp)
      have hz : dSum s (compl s.length D) (fun p => B l p e * B l p e) p = 0 := by
        refine (sum_eq_zero_iff_of_nonneg (fun e _ => hge e)).1 (by rw [hg]; ring) e ?_
        exact (mem_box _ _).2 he
      have := le_dSum hC (fun q => hnn e q) hp
      rw [hz] at this
      exact mul_self_eq_zero.1 (le_antisymm this (hnn e p))
    refine ⟨fun l u => A l (subst (List.replicate s.length 0) D u),
      fun l u e => B l (subst (List.replicate s.length 0) (compl s.length D) u) e, fun p e hp he => ?_⟩
    rw [h.eq p e hp he, ← sum_subset (range_subset_range.2 hkle) (fun l hl1 hl2 => by
      rw [hB0 l (by simpa using hl2) (mem_range.1 hl1) p e hp he, mul_zero])]
    refine sum_congr rfl (fun l _ => ?_)
    have hpl := hp.length_eq
    have hgen : ∀ E : List Nat, ∀ d ∈ E, d < s.length → p.getD d 0 = (subst (List.replicate s.length 0) E (entriesAt E p)).getD d 0 := by
      intro E d hd hlt
      rw [FullTensor.getD_subst _ _ _ _ (by simpa using hlt), if_pos hd]
      have hi := List.idxOf_lt_length_of_mem hd
      unfold entriesAt
      rw [List.getD_eq_getElem (E.map _) _ (by simpa using hi), List.getElem_map, List.getElem_idxOf]
    congr 1
    · exact eq_of_agree (fun d hd _ => h.left l d hd) (by simp [subst, hpl]) (fun d hd => hgen D d hd (hD d hd))
    · have e2 : entriesOff D p = entriesAt (compl s.length D) p := by
        unfold entriesOff entriesAt compl
        rw [hpl]
      rw [e2]
      refine eq_of_agree (D := compl s.length D) (A := fun q => B l q e) (fun d hd hdp q v => ?_) (by simp [subst, hpl])
        (fun d hd => hgen _ d hd (List.mem_range.1 (List.mem_filter.1 hd).1))
      by_cases hdD : d ∈ D
      · exact h.right l d hdD q v e
      · exact absurd (List.mem_filter.2 ⟨List.mem_range.2 (by omega), by simpa using hdD⟩) hd
  · rintro n ⟨A', B', h'⟩
    obtain ⟨p0, hp0⟩ := hs
    set c : Nat → Nat → ℝ := fun l m => dSum s D (fun p => A l p * A' m (entriesAt D p)) p0 with hc
    have hcc : ∀ l m p, p.length = p0.length → dSum s D (fun p => A l p * A' m (entriesAt D p)) p = c l m := by
      intro l m p hp
      refine const_of_set (fun d q v => ?_) hp
      by_cases hd : d ∈ D
      · exact dSum_indep D _ hd q v
      · exact dSum_set hd (fun q v => by rw [h.left l d hd, entriesAt_set hd]) q v
    have hBc : ∀ l, l < σ.length → ∀ p e, InBox s p → InBox out e → B l p e = ∑ m ∈ range n, c l m * B' m (entriesOff D p) e := by
      intro l hl p e hp he
      have e1 : dSum s D (fun q => A l q * a (q ++ e)) p = B l p e := by
        rw [dSum_congr (g := fun q => ∑ l' ∈ range σ.length, B l' q e * (A l q * A l' q)) (fun q hq => by
          rw [h.eq q e hq he, mul_sum]
          exact sum_congr rfl (fun l' _ => by ring)) p hp, dSum_sum]
        rw [sum_congr rfl (fun l' hl' => by
          rw [dSum_mul D (fun q => B l' q e) (fun q => A l q * A l' q) (fun d hd i v => h.right l' d hd i v e),
            h.orth l l' hl (mem_range.1 hl') p hp])]
        simp [mem_range.2 hl, hl]
      have e2 : dSum s D (fun q => A l q * a (q ++ e)) p = ∑ m ∈ range n, c l m * B' m (entriesOff D p) e := by
        rw [dSum_congr (g := fun q => ∑ m ∈ range n, B' m (entriesOff D q) e * (A l q * A' m (entriesAt D q))) (fun q hq => by
          rw [h' q e hq he, mul_sum]
          exact sum_congr rfl (fun l' _ => by ring)) p hp, dSum_sum]
        refine sum_congr rfl (fun m _ => ?_)
        rw [dSum_mul D (fun q => B' m (entriesOff D q) e) _ (fun d hd i v => by rw [entriesOff_set hd]),
          hcc l m p (by rw [hp.length_eq, hp0.length_eq]), mul_comm]
      rw [← e1, e2]
    -- the Gram matrix is a product
    have hG : Matrix.diagonal (fun l : Fin σ.length => σ.getD l.val 0 ^ 2) =
        (Matrix.of (fun (l : Fin σ.length) (m : Fin n) => c l m)) * (Matrix.of (fun (m : Fin n) (l : Fin σ.length) =>
          sumBox out (fun e => dSum s (compl s.length D) (fun p => B' m (entriesOff D p) e * B l p e) p0))) := by
      ext l l'
      rw [Matrix.diagonal_apply, Matrix.mul_apply]
      have hg := h.gram l l' l.2 l'.2 p0 hp0
      simp only [Fin.val_inj] at hg
      simp only [Matrix.of_apply]
      rw [← hg, Fin.sum_univ_eq_sum_range (fun m => c l m * sumBox out (fun e => dSum s (compl s.length D)
        (fun p => B' m (entriesOff D p) e * B l' p e) p0)) n]
      simp only [sumBox_eq_sum, mul_sum]
      rw [sum_comm]
      refine sum_congr rfl (fun e he => ?_)
      have he' := (mem_box _ _).1 he
      rw [dSum_congr (g := fun p => ∑ m ∈ range n, c l m * (B' m (entriesOff D p) e * B l' p e)) (fun p hp => by
        rw [hBc l l.2 p e hp he', sum_mul]
        exact sum_congr rfl (fun m _ => by ring)) p0 hp0, dSum_sum]
      exact sum_congr rfl (fun m _ => dSum_mul _ (fun _ => c l m) _ (fun _ _ _ _ => rfl) p0)
    have hr := congrArg Matrix.rank hG
    rw [Matrix.rank_diagonal, card_filter_getD] at hr
    rw [hk, hr]
    refine (Matrix.rank_mul_le_left _ _).trans ?_
    have := Matrix.rank_le_card_width (Matrix.of (fun (l : Fin σ.length) (m : Fin n) => c l m))
    simpa using this

theorem rank_active {R : Type} {x : TBT R} {i : Nat} (hi : IsNode x.tree i) (hnr : ¬ IsRoot x.tree i) (ha : x.active i = true) :
    x.rank i = x.lastDim i := by
  unfold TBT.rank
  rw [if_pos ha]
  split
  · rfl
  · rw [if_pos]
    left
    intro hp
    exact hnr ((parent_eq_zero hi).1 hp)

theorem inBox_zeros_shape {R : Type} (x : TBT R) (h : WF x) : InBox x.shape (List.replicate x.order 0) := by
  obtain ⟨r, _, hroot⟩ := root_ok h.valid
  have hsl : x.shape.length = x.order := by simp [TBT.shape, TBT.order]
  rw [inBox_iff_getD]
  refine ⟨by simp [hsl], fun k hk => ?_⟩
  have hk' : k < x.tree.dim2ind.length := by rw [hsl] at hk; exact hk
  rw [List.getD_eq_getElem _ _ (by rw [List.length_replicate, ← hsl]; exact hk), List.getElem_replicate]
  have := (h.shaped hroot).nu (x.tree.dim2ind[k]) (List.getElem_mem hk')
  unfold TBT.shape
  rw [List.getD_eq_getElem _ _ (by simpa using hk'), List.getElem_map]
  exact this

/-- C195. The property `rank` of a tree-based tensor: for each active node other than the root, the rank of the full tensor with respect to the
dimensions of the node, which is at most the representation rank `ranks`; 0 for the inactive nodes. -/
theorem rankProp_spec (qr : Arr ℝ → Arr ℝ × Arr ℝ) (hqr : FullTensor.QROk qr) (svd : Svd) (hsvd : SvdOk svd) (x : TBT ℝ)
    (hx : WF x) (r : Nat) (hr : x.tree.root = .ok r) :
    ∃ (ρ : Nat → Nat) (a : Arr ℝ) (D : Nat → List Nat), rankProp qr svd x = .ok ρ ∧ full x = .ok a ∧ x.tree.dims = .ok D ∧
      (∀ i, IsNode x.tree i → i ≠ r → x.active i = true →
        IsAlphaRank x.shape (rankShape x r) a.get (D i) (ρ i) ∧ ρ i ≤ x.rank i) ∧
      ∀ i, IsNode x.tree i → i ≠ r → x.active i = false → ρ i = 0 := by
  obtain ⟨sv, a, D, h1, h2, h3, h4, h5⟩ := singularValues_spec qr hqr svd hsvd x hx r hr
  obtain ⟨r', hr', hroot⟩ := root_ok hx.valid
  rw [hr] at hr'; cases hr'
  refine ⟨fun i => countNonzero (sv i), a, D, ?_, h2, h3, ?_, ?_⟩
  · unfold rankProp
    rw [h1]
    rfl
  · intro i hi hir ha
    have hnr : ¬ IsRoot x.tree i := fun h => hir (root_unique hx.valid h hroot)
    obtain ⟨σ, e1, e2, e3, e4, e5, A, B, e6⟩ := h4 i ((mem_activeNodes hx.valid hroot i).2 ⟨hi, hnr, ha⟩)
    dsimp only
    rw [e1]
    obtain ⟨D', d1, -, -, -, -, -, d6, -⟩ := dims_spec hx.valid
    rw [h3] at d1; cases d1
    refine ⟨rank_of_splits ?_ ⟨_, inBox_zeros_shape x hx⟩ e5 e4 e6, ?_⟩
    · intro d hd
      obtain ⟨c, hc, -⟩ := (d6 i hi d).1 hd
      have : d < x.tree.dim2ind.length := (List.getElem?_eq_some_iff.1 hc).1
      simpa [TBT.shape] using this
    · refine (List.length_filter_le _ _).trans (e3.trans (le_of_eq ?_))
      exact (rank_active hi hnr ha).symm
  · intro i hi hir ha
    dsimp only
    rw [h5 i hi hir ha]
    rfl

/-- The hypotheses of `rankProp_spec` are met. -/
example : ∃ (qr : Arr ℝ → Arr ℝ × Arr ℝ) (svd : Svd), FullTensor.QROk qr ∧ SvdOk svd ∧ WF exR ∧ ∃ r, exR.tree.root = .ok r := by
  obtain ⟨qr, h⟩ := FullTensor.exists_qr
  obtain ⟨svd, h'⟩ := exists_svd
  obtain ⟨r, hr, _⟩ := root_ok exR_wf.valid
  exact ⟨qr, svd, h, h', exR_wf, r, hr⟩

section storage

variable {R : Type}

theorem sumBox_one (s : List Nat) : sumBox s (fun _ => 1) = s.prod := by
  rw [sumBox_eq_linearF]
  simp

theorem nnz_le [Zero R] [DecidableEq R] (a : Arr R) : nnz a ≤ a.shape.prod := by
  unfold nnz
  rw [← sumBox_one, sumBox_eq_sum, sumBox_eq_sum]
  exact sum_le_sum (fun i _ => by split <;> simp)

theorem nnz_eq [Zero R] [DecidableEq R] (a : Arr R) (h : ∀ i, InBox a.shape i → a.get i ≠ 0) : nnz a = a.shape.prod := by
  unfold nnz
  rw [← sumBox_one]
  exact sumBox_congr (fun i hi => if_neg (h i hi))

theorem sum_split {x : TBT R} (hx : WF x) (f : Nat → Nat) :
    (x.tree.nodes.map f).sum = (x.tree.internalNodes.map f).sum + (x.tree.dim2ind.map f).sum := by
  have h1 : (x.tree.nodes.filter (fun i => x.tree.dim2ind.contains i)).Perm x.tree.dim2ind := by
    rw [List.perm_ext_iff_of_nodup (nodup_nodes.filter _) hx.valid.nodup]
    intro c
    rw [List.mem_filter, mem_nodes, List.contains_iff_mem]
    exact ⟨fun h => h.2, fun h => ⟨((hx.valid.leaves c).1 h).1, h⟩⟩
  rw [← (h1.map f).sum_eq, add_comm, ← List.sum_append, ← List.map_append]
  exact ((List.filter_append_perm _ _).map f).sum_eq.symm

theorem mem_internal {x : TBT R} (i : Nat) : i ∈ x.tree.internalNodes ↔ IsNode x.tree i ∧ i ∉ x.tree.dim2ind := by
  unfold DTree.internalNodes
  rw [List.mem_filter, mem_nodes]
  simp

/-- C196. `sparse_leaves_storage()` counts the entries of the tensors of the internal nodes and the nonzero entries of the leaves: it lies between
`sparse_storage()` and `storage()`, and is equal to one of them if the leaves, or the internal nodes, have no zero entry. -/
theorem sparseLeavesStorage_spec [Zero R] [DecidableEq R] (x : TBT R) (hx : WF x) :
    sparseStorage x ≤ sparseLeavesStorage x ∧ sparseLeavesStorage x ≤ storage x ∧
      ((∀ c ∈ x.tree.dim2ind, ∀ i, InBox (x.tensors c).shape i → (x.tensors c).get i ≠ 0) → sparseLeavesStorage x = storage x) ∧
      ((∀ k, IsNode x.tree k → k ∉ x.tree.dim2ind → ∀ i, InBox (x.tensors k).shape i → (x.tensors k).get i ≠ 0) →
        sparseLeavesStorage x = sparseStorage x) := by
  unfold sparseStorage sparseLeavesStorage storage
  rw [sum_split hx, sum_split hx]
  refine ⟨?_, ?_, fun h => ?_, fun h => ?_⟩
  · exact Nat.add_le_add_right (List.sum_le_sum (fun i _ => nnz_le _)) _
  · exact Nat.add_le_add_left (List.sum_le_sum (fun i _ => nnz_le _)) _
  · congr 2
    exact List.map_congr_left (fun c hc => nnz_eq _ (h c hc))
  · congr 2
    refine List.map_congr_left (fun i hi => ?_)
    have := (mem_internal i).1 hi
    exact (nnz_eq _ (h i this.1 this.2)).symm

/-- C196. The complexities: that of type "standard" is the storage; the others subtract a function of the ranks, so that
`grassman ≤ stiefel ≤ standard`; other types are refused. -/
theorem complexityTB_spec (x : TBT R) (fn : Nat) :
    ∃ g s : Rat, complexityTB x fn "standard" = .ok fn ∧ complexityTB x fn "grassman" = .ok g ∧ complexityTB x fn "stiefel" = .ok s ∧
      g = fn - (∑ i ∈ Finset.Icc 1 x.tree.n, x.rank i ^ 2 : Nat) ∧ s = fn - (∑ i ∈ Finset.Icc 1 x.tree.n, x.rank i * (x.rank i + 1) / 2 : Nat) ∧
      g ≤ s ∧ s ≤ fn ∧ ∀ t, t ≠ "standard" → t ≠ "grassman" → t ≠ "stiefel" → complexityTB x fn t = .error .valueError := by
  have hsum : ∀ f : Nat → Rat, (x.tree.nodes.map f).sum = ∑ i ∈ Finset.Icc 1 x.tree.n, f i := by
    intro f
    rw [← List.sum_toFinset _ nodup_nodes]
    refine sum_congr ?_ (fun _ _ => rfl)
    ext i
    rw [List.mem_toFinset, mem_nodes, Finset.mem_Icc]
    rfl
  have hhalf : ∀ n : Nat, ((n * (n + 1) / 2 : Nat) : Rat) = (n : Rat) * ((n : Rat) + 1) / 2 := by
    intro n
    rw [Nat.cast_div (Nat.even_mul_succ_self n).two_dvd (by norm_num)]
    push_cast
    ring
  refine ⟨_, _, rfl, rfl, rfl, ?_, ?_, ?_, ?_, ?_⟩
  · rw [hsum]; push_cast; rfl
  · rw [hsum, Nat.cast_sum, sum_congr rfl (fun i _ => hhalf _)]
  · rw [hsum, hsum]
    refine sub_le_sub_left (sum_le_sum (fun i _ => ?_)) _
    have : (0 : Rat) ≤ x.rank i := Nat.cast_nonneg _
    rcases Nat.eq_zero_or_pos (x.rank i) with h | h
    · simp [h]
    · have : (1 : Rat) ≤ x.rank i := by exact_mod_cast h
      nlinarith
  · rw [hsum]
    refine sub_le_self _ (sum_nonneg (fun i _ => ?_))
    positivity
  · intro t h1 h2 h3
    unfold complexityTB
    rw [if_neg h1, if_neg h2, if_neg h3]

open Classical in
/-- C196. For a tensor with admissible ranks and one output, the complexities are nonnegative. -/
theorem complexityTB_nonneg (x : TBT R) (hx : WF x) (r : Nat) (hr : x.tree.root = .ok r) (h1 : x.rank r = 1) (ha : Admissible x x.rank) :
    ∃ g : Rat, complexityTB x (storage x) "grassman" = .ok g ∧ 0 ≤ g := by
  obtain ⟨r', hr', hroot⟩ := root_ok hx.valid
  rw [hr] at hr'; cases hr'
  refine ⟨_, rfl, ?_⟩
  rw [sub_nonneg]
  have hs := hx.shaped hroot
  have key : (x.tree.nodes.map (fun i => x.rank i ^ 2)).sum ≤ storage x := by
    refine List.sum_le_sum (fun i hi => ?_)
    rw [mem_nodes] at hi
    by_cases hl : i ∈ x.tree.dim2ind
    · by_cases hact : x.active i = true
      · rw [hs.leaf i hl hact]
        have hle := ha.leaf i hl hact
        have hrk : x.rank i = x.lastDim i := by
          unfold TBT.rank
          rw [if_pos ((isLeaf_mem x.tree i).2 hl), if_pos hact]
        rw [hrk] at hle ⊢
        simp only [List.prod_cons, List.prod_nil, mul_one, pow_two]
        exact Nat.mul_le_mul_right _ hle
      · have := ha.inactive i hl hact
        simp [this]
    · have hne : ∃ j, Edge x.tree i j := by
        by_contra hc
        push Not at hc
        exact hl ((hx.valid.leaves i).2 ⟨hi, hc⟩)
      have hc := ha.children i hi hne
      rw [(hx.node i hi hl).2.1, List.prod_append, prod_children _ i hi]
      have he : ∀ c ∈ (Finset.Icc 1 x.tree.n).filter (Edge x.tree i), effRank x x.rank c = childSize x c := by
        intro c hc
        have hce := (Finset.mem_filter.1 hc).2
        have hcr : ¬ IsRoot x.tree c := WF.child_not_root hce
        unfold effRank TreeBased.childSize
        rw [if_neg hcr]
        split
        · rename_i hca
          exact rank_active hce.2.1 hcr hca
        · rfl
      rw [← Finset.prod_congr rfl he]
      have hpos : 1 ≤ (rankShape x i).prod := by
        have hne := (hx.node i hi hl).1
        unfold TBT.active at hne
        rw [(hx.node i hi hl).2.1, List.prod_append] at hne
        rcases Nat.eq_zero_or_pos (rankShape x i).prod with h | h
        · rw [h, mul_zero] at hne
          simp at hne
        · exact h
      by_cases hir : IsRoot x.tree i
      · obtain rfl : i = r := root_unique hx.valid hir hroot
        have : effRank x x.rank i = 1 := by unfold effRank; rw [if_pos hir]
        rw [this] at hc
        rw [h1, one_pow]
        exact Nat.mul_le_mul hc hpos
      · have e1 : effRank x x.rank i = x.rank i := by
          unfold effRank
          rw [if_neg hir, if_pos (hx.node i hi hl).1]
        have e2 : (rankShape x i).prod = x.rank i := by
          rw [hs.rankShape_node hi hl hir, rank_active hi hir (hx.node i hi hl).1]
          simp
        rw [e1] at hc
        rw [e2, pow_two]
        exact Nat.mul_le_mul_right _ hc
  have hcast : ((x.tree.nodes.map (fun i => (x.rank i : Rat) ^ 2)).sum : Rat) = ((x.tree.nodes.map (fun i => x.rank i ^ 2)).sum : Nat) := by
    rw [Nat.cast_list_sum, List.map_map]
    simp [Function.comp_def]
  rw [hcast]
  exact_mod_cast key

/-- A tree-based tensor with admissible ranks. -/
def exAdm : TBT Int where
  tree := ofParents [0, 0, 1, 1, 0] [3, 4, 5]
  tensors := fun i => match i with
    | 1 => ⟨[2, 3], fun t => t.getD 0 0 - t.getD 1 0⟩
    | 2 => ⟨[2, 2, 2], fun t => t.getD 0 0 + t.getD 1 0 - t.getD 2 0⟩
    | _ => ⟨[0], fun _ => 0⟩

theorem exAdm_wf : WF exAdm :=
  wf_of_wfB _ (ofParents_valid _ _ (by decide) (by decide) (by decide) (by decide) (by decide)) (by decide +kernel)

/-- The hypotheses of the statements on the complexities are met. -/
example : WF exAdm ∧ exAdm.tree.root = .ok 1 ∧ exAdm.rank 1 = 1 ∧ Admissible exAdm exAdm.rank ∧ storage exAdm = 14 ∧
    complexityTB exAdm 14 "grassman" = .ok 9 := by
  have hwf := exAdm_wf
  refine ⟨hwf, by decide +kernel, by decide +kernel, ?_, by decide +kernel, by decide +kernel⟩
  obtain ⟨b, hb, hb'⟩ := isAdmissible_partial exAdm hwf exAdm.rank (by
    intro d d' c c' hd h1 h2 _ _
    have hl : d' < 3 := (List.getElem?_eq_some_iff.1 h2).1
    have : ∀ d' < 3, ∀ d < d', ([3, 4, 5] : List Nat).getD d 0 < ([3, 4, 5] : List Nat).getD d' 0 := by decide
    have := this d' hl d hd
    rw [List.getD_eq_getElem?_getD, List.getD_eq_getElem?_getD] at this
    have e1 : ([3, 4, 5] : List Nat)[d]? = some c := h1
    have e2 : ([3, 4, 5] : List Nat)[d']? = some c' := h2
    rw [e1, e2] at this
    exact this)
  refine hb'.1 ?_
  have : isAdmissible exAdm exAdm.rank = .ok true := by decide +kernel
  rw [this] at hb
  exact (Except.ok.inj hb).symm

end storage

/-! ### Products -/

section products

variable {R : Type}

theorem diag_entry [CommSemiring R] (m : List R) (i j : Nat) : (FullTensor.diag m 2).get [i, j] = if i = j then m.getD i 0 else 0 := by
  by_cases hij : i = j
  · subst hij
    rw [if_pos rfl]
    by_cases hi : i < m.length
    · exact Diagonal.diag_get_replicate m (by norm_num) hi
    · rw [Diagonal.diag_get_off, List.getD_eq_default _ _ (by omega)]
      intro k hk h
      simp [List.replicate] at h
      omega
  · rw [if_neg hij, Diagonal.diag_get_off]
    intro k hk h
    simp [List.replicate] at h
    omega

/-- The sum against a product of Kronecker deltas. -/
theorem sumBox_deltas [CommSemiring R] (ms : List (List R)) (sh t : List Nat) (ht : InBox sh t) (hl : ms.length = sh.length)
    (F : List Nat → R) :
    sumBox sh (fun s => F s * (List.zipWith (fun (M : Arr R) (p : Nat × Nat) => M.get [p.1, p.2])
      (ms.map (fun m => FullTensor.diag m 2)) (t.zip s)).prod) = F t * (List.zipWith (fun (m : List R) i => m.getD i 0) ms t).prod := by
  induction ht generalizing ms F with
  | nil => 
    obtain rfl : ms = [] := List.length_eq_zero_iff.1 hl
    simp [sumBox]
  | @cons i n t sh hi ht ih =>
    obtain ⟨m, ms, rfl⟩ : ∃ m ms', ms = m :: ms' := by
      cases ms with
      | nil => simp at hl
      | cons m ms => exact ⟨m, ms, rfl⟩
    rw [sumBox]
    rw [sum_eq_single i]
    · have := ih ms (by simpa using hl) (fun s => F (i :: s) * m.getD i 0)
      rw [List.zipWith_cons_cons, List.prod_cons, ← mul_assoc, ← this]
      refine sumBox_congr (fun s _ => ?_)
      rw [List.map_cons, List.zip_cons_cons, List.zipWith_cons_cons, List.prod_cons, diag_entry, if_pos rfl, mul_assoc]
    · intro j _ hj
      rw [← sumBox_zero sh]
      refine sumBox_congr (fun s _ => ?_)
      rw [List.map_cons, List.zip_cons_cons, List.zipWith_cons_cons, List.prod_cons, diag_entry, if_neg (fun h => hj h.symm), zero_mul,
        mul_zero]
    · intro h
      exact absurd (mem_range.2 hi) h

/-- C197. `tensor_diagonal_matrix_product(matrices, dims)` multiplies each entry of the tensor by the diagonal entries at its subscripts. -/
theorem tensorDiagonalMatrixProductTB_spec [CommSemiring R] (x : TBT R) (h : WF x) (ms : List (List R)) (dims : List Nat)
    (hnd : dims.Nodup) (hlt : ∀ d ∈ dims, d < x.order)
    (hfit : List.Forall₂ (fun (m : List R) d => m.length = x.shape.getD d 0) ms dims) :
    ∃ x' y z, tensorDiagonalMatrixProductTB x ms (some dims) = .ok x' ∧ WF x' ∧ full x = .ok y ∧ full x' = .ok z ∧ z.shape = y.shape ∧
      ∀ idx, InBox y.shape idx →
        z.get idx = y.get idx * (List.zipWith (fun (m : List R) d => m.getD (idx.getD d 0) 0) ms dims).prod := by
  have hlen := hfit.length_eq
  have hf := List.forall₂_iff_get.1 hfit
  have hzero := inBox_zeros_shape x h
  have hsl : x.shape.length = x.order := by simp [TBT.shape, TBT.order]
  have hfit' : List.Forall₂ (fun M d => MatOk M (x.shape.getD d 0)) (ms.map (fun m => FullTensor.diag m 2)) dims := by
    rw [List.forall₂_map_left_iff]
    rw [List.forall₂_iff_get]
    refine ⟨hlen, fun i hi hi' => ⟨x.shape.getD (dims.get ⟨i, hi'⟩) 0, ?_, ?_⟩⟩
    · have := ((inBox_iff_getD _ _).1 hzero).2 (dims.get ⟨i, hi'⟩) (by rw [hsl]; exact hlt _ (List.get_mem _ _))
      omega
    · show List.replicate 2 (ms.get ⟨i, hi⟩).length = _
      rw [hf.2 i hi hi']
      rfl
  obtain ⟨x', y, z, z', h1, h2, h3, h4, h5, h6⟩ := tensorMatrixProduct_full x h _ dims hnd hlt hfit'
  obtain ⟨y0, r, f1, f2, f3, -⟩ := full_spec x h
  rw [h3] at f1; cases f1
  have hget : ∀ d, d < x.order → y.shape.getD d 0 = x.shape.getD d 0 := by
    intro d hd
    rw [f3, List.getD_append _ _ _ _ (by rw [hsl]; exact hd)]
  obtain ⟨w, w1, w2, w3⟩ := FullTensor.tensorMatrixProduct_spec y (ms.map (fun m => FullTensor.diag m 2)) dims hnd (by
    rw [List.forall₂_map_left_iff, List.forall₂_iff_get]
    refine ⟨hlen, fun i hi hi' => ⟨?_, y.shape.getD (dims.get ⟨i, hi'⟩) 0, ?_⟩⟩
    · have := hlt _ (List.get_mem dims ⟨i, hi'⟩)
      rw [Arr.order, f3, List.length_append, hsl]
      omega
    · show List.replicate 2 (ms.get ⟨i, hi⟩).length = _
      rw [hf.2 i hi hi', hget _ (hlt _ (List.get_mem _ _))]
      rfl)
  rw [h5] at w1; cases w1
  have hsz : ms.map (fun m => m.length) = entriesAt dims y.shape := by
    unfold entriesAt
    apply List.ext_getElem (by simpa using hlen)
    intro i hi hi'
    have hi1 : i < ms.length := by simpa using hi
    have hi2 : i < dims.length := by simpa using hi'
    rw [List.getElem_map, List.getElem_map, hget _ (hlt _ (List.getElem_mem _))]
    exact hf.2 i hi1 hi2
  have hwy : z'.shape = y.shape := by
    rw [w2, List.map_map]
    have : ((fun M : Arr R => M.shape.getD 0 0) ∘ fun m : List R => FullTensor.diag m 2) = fun m => m.length := by
      funext m; rfl
    rw [this, hsz]
    unfold subst
    apply List.ext_getElem (by simp)
    intro i hi hi'
    rw [List.getElem_map, List.getElem_range]
    split
    · rename_i hd
      have hx := List.idxOf_lt_length_of_mem hd
      unfold entriesAt
      rw [List.getD_eq_getElem _ _ (by simpa using hx), List.getElem_map, List.getElem_idxOf, List.getD_eq_getElem _ _ hi']
    · rw [List.getD_eq_getElem _ _ hi']
  refine ⟨x', y, z, ?_, h2, h3, h4, by rw [h6.1, hwy], ?_⟩
  · unfold tensorDiagonalMatrixProductTB
    rw [Option.getD_some, if_neg (by rw [hlen]; simp)]
    exact h1
  · intro idx hi
    have hiz : InBox z'.shape idx := by rw [hwy]; exact hi
    rw [h6.2 idx (by rw [h6.1]; exact hiz), w3 idx hiz]
    have hin : InBox (entriesAt dims y.shape) (entriesAt dims idx) := by
      unfold InBox entriesAt
      rw [List.forall₂_map_left_iff, List.forall₂_map_right_iff, List.forall₂_same]
      intro d hd
      refine ((inBox_iff_getD _ _).1 hi).2 d ?_
      rw [f3, List.length_append, hsl]
      have := hlt d hd
      omega
    rw [sumBox_deltas ms (entriesAt dims y.shape) (entriesAt dims idx) hin (by simpa [entriesAt] using hlen)
      (fun s => y.get (subst idx dims s))]
    congr 1
    · congr 1
      unfold subst
      apply List.ext_getElem (by simp)
      intro i hi1 hi2
      rw [List.getElem_map, List.getElem_range]
      split
      · rename_i hd
        have hx := List.idxOf_lt_length_of_mem hd
        unfold entriesAt
        rw [List.getD_eq_getElem _ _ (by simpa using hx), List.getElem_map, List.getElem_idxOf, List.getD_eq_getElem _ _ hi2]
      · rw [List.getD_eq_getElem _ _ hi2]
    · unfold entriesAt
      rw [List.zipWith_map_right]

/-- The hypotheses are met. -/
example : WF exAdm ∧ ([2, 0] : List Nat).Nodup ∧ (∀ d ∈ [2, 0], d < exAdm.order) ∧
    List.Forall₂ (fun (m : List Int) d => m.length = exAdm.shape.getD d 0) [[5, 0, 7], [2, 3]] [2, 0] := by
  refine ⟨exAdm_wf, by decide, by decide +kernel, ?_⟩
  refine List.Forall₂.cons (by decide +kernel) (List.Forall₂.cons (by decide +kernel) List.Forall₂.nil)

/-- Outputs that are combinations of the outputs: the tensor of the root is replaced by the combinations of its slices. -/
theorem root_mix [CommSemiring R] (x : TBT R) (h : WF x) (r : Nat) (hr : x.tree.root = .ok r) (c m : Nat)
    (hc : rankShape x r = [c]) (hm : 0 < m) (M : Nat → Nat → R) (t : Arr R)
    (tsh : t.shape = (x.tree.children r).map (childSize x) ++ [m])
    (tget : ∀ u k, InBox ((x.tree.children r).map (childSize x)) u → k < m →
      t.get (u ++ [k]) = ∑ l ∈ range c, M k l * (x.tensors r).get (u ++ [l])) :
    ∃ y z, WF (⟨x.tree, upd x.tensors r t⟩ : TBT R) ∧ (⟨x.tree, upd x.tensors r t⟩ : TBT R).rank r = m ∧
      rankShape (⟨x.tree, upd x.tensors r t⟩ : TBT R) r = [m] ∧ (⟨x.tree, upd x.tensors r t⟩ : TBT R).shape = x.shape ∧
      full x = .ok y ∧ full (⟨x.tree, upd x.tensors r t⟩ : TBT R) = .ok z ∧ z.shape = x.shape ++ [m] ∧
      ∀ p k, InBox x.shape p → k < m → z.get (p ++ [k]) = ∑ l ∈ range c, M k l * y.get (p ++ [l]) := by
  obtain ⟨r', hr', hroot⟩ := root_ok h.valid
  rw [hr] at hr'; cases hr'
  have hrl := h.root_internal hroot
  have hs := h.shaped hroot
  set a := x.tensors r with ha
  set cs := (x.tree.children r).map (childSize x) with hcs
  have hash : a.shape = cs ++ [c] := by
    rw [ha, (h.node r hroot.1 hrl).2.1, hc]
  set x' : TBT R := ⟨x.tree, upd x.tensors r t⟩ with hx'
  have hne : ∀ i, i ≠ r → x'.tensors i = x.tensors i := fun i hi => by
    show upd x.tensors r t i = _
    unfold upd
    rw [if_neg hi]
  have heq : x'.tensors r = t := by
    show upd x.tensors r t r = _
    unfold upd
    rw [if_pos rfl]
  have hs' : Shaped x' x.tree x.active x.lastDim x.leafSize [m] := by
    refine ⟨rfl, hs.rho, hs.nu, by simp; omega, by simp, ?_, ?_, hs.internal, ?_⟩
    · intro c hc ha
      rw [hne c (fun e => hrl (e ▸ hc))]
      exact hs.leaf c hc ha
    · intro c hc ha
      rw [hne c (fun e => hrl (e ▸ hc))]
      exact hs.off c hc ha
    · intro i hi hl
      by_cases hir : i = r
      · subst hir
        have e := hs.node i hi hl
        rw [if_pos hroot, ← ha, hash, hc] at e
        rw [heq, tsh, if_pos hroot, List.append_cancel_right e]
      · rw [hne i hir, hs.node i hi hl, if_neg (fun e => hir (root_unique h.valid e hroot)),
          if_neg (fun e => hir (root_unique h.valid e hroot))]
  have hwf : WF x' := hs'.wf h.valid h.order
  have hact : ∀ i, IsNode x.tree i → x'.active i = x.active i := fun i hi => hs'.active h.valid h.order hi
  have hsheq : x'.shape = x.shape := by rw [hs'.shapeEq h.valid h.order]; rfl
  have hrs' : rankShape x' r = [m] := hs'.rankShape_root hroot hrl
  have hlast : ∀ i, i ≠ r → x'.lastDim i = x.lastDim i := fun i hi => by
    unfold TBT.lastDim
    rw [hne i hi]
  obtain ⟨V, hV⟩ := exists_value x h.valid
  set V' : Nat → List Nat → List Nat → R := fun i idx e =>
    if i = r then ∑ l ∈ range c, M (e.getD 0 0) l * V r idx [l] else V i idx e with hV'def
  have hch : ∀ i, IsNode x.tree i → ∀ idx k, childSum x' V' idx (x.tree.children i) k = childSum x V idx (x.tree.children i) k := by
    intro i hi idx k
    have hcr : ∀ c ∈ x.tree.children i, c ≠ r := fun c hc e => WF.child_not_root ((mem_children i c hi).1 hc) (e ▸ hroot)
    rw [childSum_congrX (x := x) (x' := x') rfl V' idx _ k (fun c hc => hact c ((mem_children i c hi).1 hc).2.1)
      (fun c hc _ => hlast c (hcr c hc))]
    apply childSum_congrV
    intro c hc _ s
    simp only [hV'def, if_neg (hcr c hc)]
  have hon : IsValueOn x' V' := by
    refine ⟨?_, ?_⟩
    · intro c hc hca idx s _ _
      have hcr : c ≠ r := fun e => hrl (e ▸ hc)
      simp only [hV'def, if_neg hcr]
      rw [hact c ((h.valid.leaves c).1 hc).1] at hca
      rw [hV.leaf c hc hca, hne c hcr]
    · intro i hi hl idx e hidx he
      rw [show x'.tree.children i = x.tree.children i from rfl, hch i hi]
      by_cases hir : i = r
      · subst hir
        rw [hrs'] at he
        obtain ⟨k, rfl, hk⟩ := inBox_single he
        simp only [hV'def, if_true, List.getD_cons_zero]
        rw [heq]
        rw [childSum_congr x V idx (x.tree.children i) (k := fun u => t.get (u ++ [k]))
          (k' := fun u => ∑ l ∈ range c, M k l * a.get (u ++ [l])) (V' := V) (fun _ _ _ _ _ => rfl)
          (fun u hu => tget u k hu hk) (fun c hc hca => ?_), childSum_sum]
        · refine sum_congr rfl (fun l _ => ?_)
          rw [childSum_mul, hV.node i hi hl]
        · have hcl := h.inactive_leaf ((mem_children i c hroot.1).1 hc).2.1 hca
          unfold TreeBased.childSize
          rw [if_neg hca]
          refine inBox_shape_getD ?_ hcl
          rw [← hsheq]
          exact hidx
      · simp only [hV'def, if_neg hir]
        rw [hV.node i hi hl, hne i hir]
  obtain ⟨y, y1, y2, y3⟩ := full_on x h hV.on hr
  obtain ⟨z, z1, z2, z3⟩ := full_on x' hwf hon hr
  refine ⟨y, z, hwf, ?_, hrs', hsheq, y1, z1, by rw [z2, hsheq, hrs'], ?_⟩
  · unfold TBT.rank
    rw [if_neg (by rw [isLeaf_mem]; exact hrl), if_pos]
    · unfold TBT.lastDim
      rw [heq, tsh]
      simp
    · right
      rw [heq, Arr.order, tsh]
      simp only [hcs, List.length_append, List.length_map, List.length_cons, List.length_nil]
      rfl
  · intro p k hp hk
    rw [z3 p [k] (by rw [hsheq]; exact hp) (by rw [hrs']; exact inBox_one hk)]
    simp only [hV'def, if_true, List.getD_cons_zero]
    refine sum_congr rfl (fun l hl => ?_)
    rw [y3 p [l] hp (by rw [hc]; exact inBox_one (mem_range.1 hl))]

/-- C198. `M * x` for a matrix `M` and a tensor with several outputs: each output of the result is the combination of the outputs of `x` given by a
row of `M`. Missing: the attribute `ranks` of the result has the number of columns of `M` at the root instead of the number of rows, so it is
correct for square matrices only. -/
theorem rmulMat_partial [CommSemiring R] (M : Arr R) (x : TBT R) (h : WF x) (r : Nat) (hr : x.tree.root = .ok r) (c m : Nat)
    (hc : rankShape x r = [c]) (hc1 : 1 < c) (hm : 0 < m) (hM : M.shape = [m, c]) :
    ∃ x' y z, rmulMat M x = .ok (x', c) ∧ WF x' ∧ x'.rank r = m ∧ full x = .ok y ∧ full x' = .ok z ∧ z.shape = x.shape ++ [m] ∧
      ∀ p k, InBox x.shape p → k < m → z.get (p ++ [k]) = ∑ l ∈ range c, M.get [k, l] * y.get (p ++ [l]) := by
  obtain ⟨r', hr', hroot⟩ := root_ok h.valid
  rw [hr] at hr'; cases hr'
  have hrl := h.root_internal hroot
  have hs := h.shaped hroot
  set a := x.tensors r with ha
  set cs := (x.tree.children r).map (childSize x) with hcs
  have hash : a.shape = cs ++ [c] := by
    rw [ha, (h.node r hroot.1 hrl).2.1, hc]
  have hrank : x.rank r = c := by
    unfold TBT.rank
    rw [if_neg (by rw [isLeaf_mem]; exact hrl), if_pos]
    · unfold TBT.lastDim
      rw [← ha, hash]
      simp
    · right
      rw [← ha, Arr.order, hash]
      simp [hcs]
  have ho : a.order - 1 = cs.length := by rw [Arr.order, hash]; simp
  obtain ⟨t, t1, t2, t3⟩ := FullTensor.tmpStep_spec a M cs.length m (by rw [Arr.order, hash]; simp) (by rw [hash, hM]; simp)
  have tsh : t.shape = cs ++ [m] := by
    rw [t2, hash, List.set_append_right _ _ le_rfl]
    simp
  have tget : ∀ u k, InBox cs u → k < m → t.get (u ++ [k]) = ∑ l ∈ range c, M.get [k, l] * a.get (u ++ [l]) := by
    intro u k hu hk
    have hul := hu.length_eq
    rw [t3 (u ++ [k]) (by rw [tsh]; exact (inBox_append hul).2 ⟨hu, inBox_one hk⟩), hash]
    have e1 : (cs ++ [c]).getD cs.length 0 = c := by simp
    rw [e1]
    refine sum_congr rfl (fun l _ => ?_)
    rw [← hul, List.set_append_right _ _ le_rfl]
    simp [mul_comm]
  obtain ⟨y, z, e1, e2, _, _, e3, e4, e5, e6⟩ := root_mix x h r hr c m hc hm (fun k l => M.get [k, l]) t tsh tget
  refine ⟨_, y, z, ?_, e1, e2, e3, e4, e5, e6⟩
  unfold rmulMat
  simp only [hr, bind, Except.bind]
  rw [hM]
  simp only [List.getD_cons_succ, List.getD_cons_zero]
  rw [if_pos ⟨hrank.symm, hc1⟩, ← ha, ho, tmp_single, t1]

theorem rmulMat_refused [CommSemiring R] (M : Arr R) (x : TBT R) (r : Nat) (hr : x.tree.root = .ok r)
    (h : M.shape.getD 1 0 ≠ x.rank r ∨ M.shape.getD 1 0 ≤ 1) : rmulMat M x = .error .valueError := by
  unfold rmulMat
  simp only [hr, bind, Except.bind]
  rw [if_neg]
  rintro ⟨h1, h2⟩
  rcases h with h | h
  · exact h h1
  · omega

/-- C199. `is_active_dim(dim)` for an array of dimensions tells which are active: a boolean for one dimension, an array otherwise. Missing: the
case of an integer, for which it raises `IndexError` (`isActiveDim_int`). -/
theorem isActiveDim_partial (x : TBT R) (l : List Nat) (hl : ∀ d ∈ l, d < x.order) :
    (l.length = 1 → ∃ d c, l = [d] ∧ x.tree.dim2ind[d]? = some c ∧ isActiveDim x (.array l) = .ok (.inl (x.active c))) ∧
      (l.length ≠ 1 → ∃ bs : List Bool, isActiveDim x (.array l) = .ok (.inr bs) ∧ bs.length = l.length ∧
        ∀ k d : Nat, l[k]? = some d → ∃ c, x.tree.dim2ind[d]? = some c ∧ bs[k]? = some (x.active c)) := by
  have h0 : l.any (fun d => decide (x.order ≤ d)) = false := by
    rw [List.any_eq_false]
    intro d hd
    have := hl d hd
    simpa using this
  have hget : ∀ d ∈ l, x.tree.dim2ind[d]? = some (x.tree.dim2ind.getD d 0) := by
    intro d hd
    have : d < x.tree.dim2ind.length := hl d hd
    rw [List.getD_eq_getElem _ _ this, List.getElem?_eq_getElem this]
  constructor
  · intro h1
    obtain ⟨d, rfl⟩ := List.length_eq_one_iff.1 h1
    refine ⟨d, _, rfl, hget d (by simp), ?_⟩
    show (if _ then _ else _) = _
    rw [if_neg (by rw [h0]; simp)]
  · intro h1
    refine ⟨l.map (fun d => x.active (x.tree.dim2ind.getD d 0)), ?_, by simp, ?_⟩
    · show (if _ then _ else _) = _
      rw [if_neg (by rw [h0]; simp)]
      match l, h1 with
      | [], _ => rfl
      | [_], h1 => simp at h1
      | _ :: _ :: _, _ => rfl
    · intro k d hk
      refine ⟨_, hget d (List.mem_of_getElem? hk), ?_⟩
      rw [List.getElem?_map, hk]
      rfl

/-- The hypotheses are met: a tensor with two outputs, and a matrix with three rows. -/
def exOut : TBT Int := ⟨exAdm.tree, upd exAdm.tensors 1 ⟨[2, 3, 2], fun t => t.getD 0 0 - t.getD 1 0 + 5 * t.getD 2 0⟩⟩

example : WF exOut ∧ exOut.tree.root = .ok 1 ∧ rankShape exOut 1 = [2] ∧ 1 < 2 ∧
    (rmulMat (⟨[3, 2], fun i => i.getD 0 0 + 2 * i.getD 1 0⟩ : Arr Int) exOut).toOption.map (fun p => (p.1.rank 1, p.2)) = some (3, 2) :=
  ⟨wf_of_wfB _ (ofParents_valid _ _ (by decide) (by decide) (by decide) (by decide) (by decide)) (by decide +kernel), by decide +kernel,
    by decide +kernel, by norm_num, by decide +kernel⟩

theorem isActiveDim_int (x : TBT R) (d : Nat) : isActiveDim x (.int d) = .error .indexError := rfl

end products

end Verif.TreeBased
