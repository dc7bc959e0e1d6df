import Verif.Lemmas.OrthLS
import Verif.Lemmas.MulNodes
import Verif.Props.Gramians
import Verif.Props.Hsvd

/-!
# Properties of `gramians(alpha)` (C71) and `orth_at_node` (C73)
-/

namespace Verif.TreeBased

open Verif.Arr Verif.DimTree Verif.Projection Verif.Truncation Finset

/-- The recurrence of the Gram matrices determines them along the path from the root to a node. -/
theorem env_unique {R : Type} [CommSemiring R] {y : TBT R} (hy : WF y) {r : Nat} (hr : IsRoot y.tree r) {Q Q' : Nat → Prop}
    {g g' : Nat → Nat → Nat → R} (hg : EnvRec y r Q g) (hg' : EnvRec y r Q' g') {i : Nat} (hi : IsNode y.tree i) (hir : ¬ IsRoot y.tree i)
    (ha : y.active i = true) (hq : ∀ c, AncSelf y.tree c i → Q c) (hq' : ∀ c, AncSelf y.tree c i → Q' c) :
    ∀ s s', s < y.lastDim i → s' < y.lastDim i → g i s s' = g' i s s' := by
  obtain ⟨k, hk⟩ := exists_level hy.valid hi
  induction hk with
  | root h => exact absurd h hir
  | @child j c k hk he ih =>
    intro s s' hs hs'
    obtain ⟨cs1, cs2, hch⟩ := List.append_of_mem ((mem_children j c he.1).2 he)
    rw [hg j c cs1 cs2 he ha (hq c .refl) hch s s' hs hs', hg' j c cs1 cs2 he ha (hq' c .refl) hch s s' hs hs']
    have hjl := edge_internal hy.valid he
    have hab : ∀ e e', InBox (rankShape y j) e → InBox (rankShape y j) e' → aboveM g r j e e' = aboveM g' r j e e' := by
      intro e e' he1 he2
      unfold aboveM
      by_cases hjr : j = r
      · rw [if_pos hjr, if_pos hjr]
      · rw [if_neg hjr, if_neg hjr]
        have hjr' : ¬ IsRoot y.tree j := fun h => hjr (root_unique hy.valid h hr)
        rw [← rs_node hjl, hy.rs_eq he.1 hjr'] at he1 he2
        obtain ⟨a, rfl, ha1⟩ := inBox_single he1
        obtain ⟨b, rfl, hb1⟩ := inBox_single he2
        exact ih he.1 hjr' (hy.node j he.1 hjl).1 (fun c' h => hq c' (h.tail he)) (fun c' h => hq' c' (h.tail he)) a b ha1 hb1
    apply sumBox_congr; intro t1 _
    apply sumBox_congr; intro t2 _
    apply sumBox_congr; intro e he1
    apply sumBox_congr; intro e' he2
    beta_reduce
    rw [hab e e' he1 he2]

/-- The values of a node are determined by the tensors of the nodes below it. -/
theorem value_below {R : Type} [CommSemiring R] {y z : TBT R} (hy : WF y) (ht : z.tree = y.tree)
    {V V' : Nat → List Nat → List Nat → R} (hV : IsValue y V) (hV' : IsValue z V') :
    ∀ j, IsNode y.tree j → y.active j = true → (∀ m, AncSelf y.tree j m → z.tensors m = y.tensors m) →
      ∀ idx e, V' j idx e = V j idx e := by
  refine node_induction hy.valid _ ?_
  intro j hj ih ha hm idx e
  have htj := hm j .refl
  have hact : ∀ m, AncSelf y.tree j m → z.active m = y.active m := fun m h => by unfold TBT.active; rw [hm m h]
  have hld : ∀ m, AncSelf y.tree j m → z.lastDim m = y.lastDim m := fun m h => by unfold TBT.lastDim; rw [hm m h]
  by_cases hl : j ∈ y.tree.dim2ind
  · rw [hV'.leaf j (by rw [ht]; exact hl) (by rw [hact j .refl]; exact ha) idx e, hV.leaf j hl ha idx e, htj, ht]
  · rw [hV'.node j (by rw [ht]; exact hj) (by rw [ht]; exact hl) idx e, hV.node j hj hl idx e, htj, ht]
    have hed : ∀ c ∈ y.tree.children j, Edge y.tree j c := fun c hc => (mem_children j c hj).1 hc
    rw [childSum_congrX (x := y) (x' := z) ht V' idx _ _ (fun c hc => hact c (Relation.ReflTransGen.single (hed c hc)))
      (fun c hc _ => hld c (Relation.ReflTransGen.single (hed c hc)))]
    apply childSum_congrV
    intro c hc hac s
    exact ih c (hed c hc) hac (fun m hm' => hm m (Relation.ReflTransGen.head (hed c hc) hm')) idx [s]

/-- The values of a node whose tensor is multiplied by a matrix along its last axis. -/
theorem value_mul {R : Type} [CommSemiring R] {y z : TBT R} (hy : WF y) (ht : z.tree = y.tree)
    {V V' : Nat → List Nat → List Nat → R} (hV : IsValue y V) (hV' : IsValue z V') {i : Nat} (hi : IsNode y.tree i)
    (hir : ¬ IsRoot y.tree i) (ha : y.active i = true) (hza : z.active i = true)
    (hb : ∀ m, AncSelf y.tree i m → m ≠ i → z.tensors m = y.tensors m) {s0 : List Nat} (hs0 : (y.tensors i).shape = s0 ++ [y.lastDim i])
    {k : Nat} {L : Nat → Nat → R}
    (hf : ∀ t l, InBox s0 t → l < k → (z.tensors i).get (t ++ [l]) = ∑ s ∈ range (y.lastDim i), (y.tensors i).get (t ++ [s]) * L s l) :
    ∀ p l, InBox y.shape p → l < k → V' i p [l] = ∑ s ∈ range (y.lastDim i), V i p [s] * L s l := by
  intro p l hp hl
  by_cases hil : i ∈ y.tree.dim2ind
  · rw [hV'.leaf i (by rw [ht]; exact hil) hza p [l], ht]
    obtain ⟨r, -, hroot⟩ := root_ok hy.valid
    have hs' : s0 = [y.leafSize i] := by
      have h2 : s0 ++ [y.lastDim i] = [y.leafSize i] ++ [y.lastDim i] := by
        rw [← hs0]; exact (hy.shaped hroot).leaf i hil ha
      exact List.append_cancel_right h2
    have := hf [p.getD (dimOf y.tree i) 0] l (by rw [hs']; simpa using inBox_shape_getD hp hil) hl
    refine this.trans (sum_congr rfl (fun s _ => ?_))
    rw [hV.leaf i hil ha p [s]]; rfl
  · have hed : ∀ c ∈ y.tree.children i, Edge y.tree i c := fun c hc => (mem_children i c hi).1 hc
    have htc : ∀ c ∈ y.tree.children i, z.tensors c = y.tensors c := fun c hc =>
      hb c (Relation.ReflTransGen.single (hed c hc)) (edge_ne hy.valid (hed c hc)).symm
    have hs' : s0 = (y.tree.children i).map (childSize y) := by
      have h2 := (hy.node i hi hil).2.1
      have h3 := hy.rs_eq hi hir
      rw [rs_node hil] at h3
      rw [h3, hs0] at h2
      exact List.append_cancel_right h2
    rw [hV'.node i (by rw [ht]; exact hi) (by rw [ht]; exact hil) p [l], ht,
      childSum_congrX (x := y) (x' := z) ht V' p _ _ (fun c hc => by unfold TBT.active; rw [htc c hc])
      (fun c hc _ => by unfold TBT.lastDim; rw [htc c hc])]
    have h1 : childSum y V' p (y.tree.children i) (fun t => (z.tensors i).get (t ++ [l])) =
        childSum y V p (y.tree.children i) (fun t => ∑ s ∈ range (y.lastDim i), L s l * (y.tensors i).get (t ++ [s])) := by
      apply childSum_congr
      · intro c hc hac s _
        refine value_below hy ht hV hV' c (hed c hc).2.1 hac (fun m hm => ?_) p [s]
        have him : Anc y.tree i m := Relation.TransGen.head' (hed c hc) hm
        refine hb m him.to_reflTransGen ?_
        rintro rfl
        exact Anc.irrefl hy.valid _ him
      · intro t htb
        rw [hf t l (by rw [hs']; exact htb) hl]
        exact sum_congr rfl (fun s _ => by ring)
      · intro c hc hac
        unfold childSize; rw [if_neg hac]
        exact inBox_shape_getD hp (hy.inactive_leaf (hed c hc).2.1 hac)
    rw [h1, childSum_sum]
    refine sum_congr rfl (fun s _ => ?_)
    rw [childSum_mul, hV.node i hi hil p [s]]; ring

section matrices
variable {n k : Nat} {g : Nat → Nat → ℝ} {L S : Nat → Nat → ℝ}
  (hg : ∀ s s', s < n → s' < n → g s s' = ∑ l ∈ range k, L s l * L s' l)
  (hSL : ∀ l l', l < k → l' < k → ∑ s ∈ range n, S l s * L s l' = if l = l' then 1 else 0)
  (hsym : ∀ s s', s < n → s' < n → ∑ l ∈ range k, L s l * S l s' = ∑ l ∈ range k, L s' l * S l s)

include hSL in
theorem ls_left {s l : Nat} (hl : l < k) : ∑ a ∈ range n, (∑ m ∈ range k, L s m * S m a) * L a l = L s l := by
  simp only [sum_mul]
  rw [sum_comm]
  have : ∀ m ∈ range k, ∑ a ∈ range n, L s m * S m a * L a l = L s m * if m = l then 1 else 0 := by
    intro m hm
    rw [← hSL m l (mem_range.1 hm) hl, mul_sum]
    exact sum_congr rfl (fun a _ => by ring)
  rw [sum_congr rfl this, sum_eq_single_of_mem l (mem_range.2 hl)]
  · simp
  · intro b _ hb; simp [hb]

include hSL hsym in
theorem ls_idem {s s' : Nat} (hs : s < n) :
    ∑ a ∈ range n, (∑ l ∈ range k, L a l * S l s) * (∑ l ∈ range k, L a l * S l s') = ∑ l ∈ range k, L s l * S l s' := by
  have h1 : ∀ a ∈ range n, (∑ l ∈ range k, L a l * S l s) * (∑ l ∈ range k, L a l * S l s') =
      ∑ l ∈ range k, (∑ m ∈ range k, L s m * S m a) * L a l * S l s' := by
    intro a ha
    rw [hsym a s (mem_range.1 ha) hs, mul_sum]
    exact sum_congr rfl (fun l _ => by ring)
  rw [sum_congr rfl h1, sum_comm]
  refine sum_congr rfl (fun l hl => ?_)
  rw [← sum_mul, ls_left hSL (mem_range.1 hl)]

include hg hSL in
theorem ls_gram {s : Nat} (hs : s < n) : ∑ s' ∈ range n, g s s' * (∑ l ∈ range k, L s l * S l s') = g s s := by
  have h1 : ∀ s' ∈ range n, g s s' * (∑ l ∈ range k, L s l * S l s') =
      ∑ l ∈ range k, L s l * ((∑ m ∈ range k, L s m * S m s') * L s' l) := by
    intro s' hs'
    rw [hg s s' hs (mem_range.1 hs'), sum_mul]
    exact sum_congr rfl (fun l _ => by ring)
  rw [sum_congr rfl h1, sum_comm, hg s s hs hs]
  refine sum_congr rfl (fun l hl => ?_)
  rw [← mul_sum, ls_left hSL (mem_range.1 hl)]

include hg hSL in
theorem ls_outer {l l' : Nat} (hl : l < k) (hl' : l' < k) :
    ∑ s ∈ range n, ∑ s' ∈ range n, S l s * S l' s' * g s s' = if l = l' then 1 else 0 := by
  have h1 : ∀ s ∈ range n, ∑ s' ∈ range n, S l s * S l' s' * g s s' = S l s * L s l' := by
    intro s hs
    have h2 : ∀ s' ∈ range n, S l s * S l' s' * g s s' = ∑ m ∈ range k, S l s * L s m * (S l' s' * L s' m) := by
      intro s' hs'
      rw [hg s s' (mem_range.1 hs) (mem_range.1 hs'), mul_sum]
      exact sum_congr rfl (fun m _ => by ring)
    rw [sum_congr rfl h2, sum_comm, sum_eq_single_of_mem l' (mem_range.2 hl')]
    · rw [← mul_sum, hSL l' l' hl' hl', if_pos rfl, mul_one]
    · intro m hm hne
      rw [← mul_sum, hSL l' m hl' (mem_range.1 hm), if_neg (Ne.symm hne), mul_zero]
  rw [sum_congr rfl h1]
  exact hSL l l' hl hl'

end matrices

/-- The sum of the squares of a tensor with orthonormal slices, multiplied by a matrix along its last axis. -/
theorem ortho_mul_sq {C Z : Arr ℝ} {s0 : List Nat} {n k : Nat} {L : Nat → Nat → ℝ} (hC : OrthoLast C) (hs : C.shape = s0 ++ [n])
    (hZ : Z.shape = s0 ++ [k]) (hf : ∀ t l, InBox s0 t → l < k → Z.get (t ++ [l]) = ∑ s ∈ range n, C.get (t ++ [s]) * L s l) :
    sumBox Z.shape (fun q => Z.get q ^ 2) = ∑ s ∈ range n, ∑ l ∈ range k, L s l * L s l := by
  obtain ⟨s1, n1, h1, h2⟩ := hC
  rw [h1] at hs
  have hn : n1 = n := by have := congrArg List.getLast? hs; simpa using this
  subst hn
  have hs1 := List.append_cancel_right hs
  subst hs1
  rw [hZ, sumBox_append]
  have e1 : sumBox s1 (fun v => sumBox [k] (fun w => Z.get (v ++ w) ^ 2)) =
      sumBox s1 (fun t => ∑ l ∈ range k, ∑ s ∈ range n1, ∑ s' ∈ range n1, L s l * L s' l * (C.get (t ++ [s]) * C.get (t ++ [s']))) := by
    apply sumBox_congr
    intro t ht
    simp only [sumBox]
    refine sum_congr rfl (fun l hl => ?_)
    rw [hf t l ht (mem_range.1 hl), pow_two, sum_mul_sum]
    exact sum_congr rfl (fun s _ => sum_congr rfl (fun s' _ => by ring))
  rw [e1]
  simp only [sumBox_eq_sum]
  rw [sum_comm]
  rw [sum_comm (s := range n1)]
  refine sum_congr rfl (fun l _ => ?_)
  rw [sum_comm]
  refine sum_congr rfl (fun s hs => ?_)
  rw [sum_comm, sum_eq_single_of_mem s hs]
  · rw [← mul_sum, ← sumBox_eq_sum, h2 s s (mem_range.1 hs) (mem_range.1 hs), if_pos rfl, mul_one]
  · intro s' hs' hne
    rw [← mul_sum, ← sumBox_eq_sum, h2 s s' (mem_range.1 hs) (mem_range.1 hs'), if_neg (Ne.symm hne), mul_zero]

/-- A tensor with the subscripts `p` and the output subscripts `e` (in `out`) is the sum of the products of the functions `A l` and
of the functions `B l`, which do not depend on the subscripts in `D` and are orthonormal. -/
structure OrthSplit (s out : List Nat) (a : List Nat → ℝ) (D : List Nat) (n : Nat)
    (A : Nat → List Nat → ℝ) (B : Nat → List Nat → List Nat → ℝ) : Prop where
  right : ∀ l, ∀ d ∈ D, ∀ p v e, B l (p.set d v) e = B l p e
  eq : ∀ p e, InBox s p → InBox out e → a (p ++ e) = ∑ l ∈ range n, A l p * B l p e
  orth : ∀ l l', l < n → l' < n → ∀ p, InBox s p →
    sumBox out (fun e => dSum s (compl s.length D) (fun p => B l p e * B l' p e) p) = if l = l' then 1 else 0

theorem sq_sum_zero {s : List Nat} {f : List Nat → ℝ} (h : sumBox s (fun i => f i ^ 2) = 0) : ∀ i, InBox s i → f i = 0 := by
  intro i hi
  rw [sumBox_eq_sum] at h
  have := (sum_eq_zero_iff_of_nonneg (fun i _ => sq_nonneg (f i))).1 h i ((mem_box _ _).2 hi)
  simpa using this

/-- `orth_at_node` from an orthogonalised tensor and the Gram matrix of the node. -/
theorem orthAtCore_spec (svd : Svd) (hsv : SvdOk svd) (la : LinAlg) (hla : LinAlgOk la) {y : TBT ℝ} (hy : WF y) {r : Nat}
    (hr : IsRoot y.tree r) (ho : ∀ i, IsNode y.tree i → ¬ IsRoot y.tree i → y.active i = true → OrthoLast (y.tensors i))
    {Q : Nat → Prop} {g : Nat → Arr ℝ} (hg : EnvRec y r Q (fun c s s' => (g c).get [s, s'])) {p i : Nat}
    (hq : ∀ c, AncSelf y.tree c i → Q c) (he : Edge y.tree p i) (ha : y.active i = true)
    (hgs : (g i).shape = [y.lastDim i, y.lastDim i]) {D : Nat → List Nat} (hD : RecDims y.tree D (IsNode y.tree))
    {a : Arr ℝ} (ha1 : full y = .ok a) :
    ∃ z, orthAtCore svd la y i (g i) = .ok z ∧ WF z ∧ z.tree = y.tree ∧ z.shape = y.shape ∧
      (∀ j, IsNode y.tree j → z.active j = y.active j) ∧ rankShape z r = rankShape y r ∧
      (∀ j, IsNode y.tree j → ¬ IsRoot y.tree j → y.active j = true → j ≠ i → z.lastDim j = y.lastDim j) ∧
      z.lastDim i ≤ y.lastDim i ∧ (∃ b, full z = .ok b ∧ b ≃ₐ a) ∧ (∀ j, j ≠ i → j ≠ p → z.tensors j = y.tensors j) ∧
      ((∃ q, InBox a.shape q ∧ a.get q ≠ 0) →
        sumBox (z.tensors i).shape (fun q => (z.tensors i).get q ^ 2) = sumBox a.shape (fun q => a.get q ^ 2) ∧
        ∀ V', IsValue z V' → ∃ B, OrthSplit y.shape (rankShape y r) a.get (D i) (z.lastDim i) (fun l u => V' i u [l]) B) := by
  have hi := he.2.1
  have hir : ¬ IsRoot y.tree i := fun h => h.2 p he
  obtain ⟨V, hV⟩ := exists_value y hy.valid
  have hO := ortho_vals hy ho hV hD
  have hpos := (hy.shaped hr).rho i hi hir ha
  obtain ⟨k, L, S, k1, k2, k3, k4, k5, k6, k7, k8⟩ := orthLS_spec svd hsv la hla (g i) (y.lastDim i) hgs hpos
    (fun s s' hs hs' => env_symm hy hV hD hO hr hg hq hi hir ha hs hs')
    (fun v => env_psd hy hV hD hO hr hg hq hi hir ha v)
  obtain ⟨r', hr1, hr2⟩ := root_ok hy.valid
  have hrr := root_unique hy.valid hr hr2
  subst hrr
  obtain ⟨a', f1, f2, f3⟩ := full_on y hy hV.on hr1
  rw [ha1] at f1; cases f1
  have htr := env_trace hy hV hD hO hr hg hq hi hir ha
  have hna : sumBox (rankShape y r) (fun e => nsq y.shape (fun p => V r p e)) = sumBox a.shape (fun i => a.get i ^ 2) := by
    rw [f2, dense_sum]
    apply sumBox_congr
    intro e he
    unfold nsq
    apply sumBox_congr
    intro p hp
    beta_reduce
    rw [f3 p e hp he, pow_two]
  have hL2 : ∑ s ∈ range (y.lastDim i), ∑ l ∈ range k, L.get [s, l] * L.get [s, l] = sumBox a.shape (fun i => a.get i ^ 2) := by
    rw [← hna, ← htr]
    exact sum_congr rfl (fun s hs => (k6 s s (mem_range.1 hs) (mem_range.1 hs)).symm)
  unfold orthAtCore
  rw [k1]
  by_cases hk0 : k = 0
  · rw [if_pos hk0]
    refine ⟨y, rfl, hy, rfl, rfl, fun _ _ => rfl, rfl, fun _ _ _ _ _ => rfl, le_refl _, ⟨a, ha1, rfl, fun _ _ => rfl⟩, fun _ _ _ => rfl, ?_⟩
    rintro ⟨q, hq1, hq2⟩
    subst hk0
    exact absurd (sq_sum_zero (by rw [← hL2]; simp) q hq1) hq2
  · rw [if_neg hk0, k2]
    dsimp only
    set K : Nat → Nat → Nat → ℝ := fun _ s s' => ∑ l ∈ range k, L.get [s, l] * S.get [l, s'] with hK
    obtain ⟨ts, t1, ⟨s0, s1, s2, s3, s4⟩, t2⟩ := mulNode_gauge hy he ha (k := k) (by omega) (m := transp L) (m' := S)
      (by simp [transp, k3]) k4 (K := K) (by
        intro s s' _ _
        rw [hK]
        exact sum_congr rfl (fun l _ => by simp [transp]))
    have hgau := t2 (fun _ => False) (fun h => h) (fun _ _ h => h)
    rw [ins_empty (⟨y.tree, ts⟩ : TBT ℝ) K (fun _ h => h)] at hgau
    have hset : (fun j => False ∨ j = i) = (fun j => j = i) := by funext j; simp
    rw [hset] at hgau
    have hsame := ins_same y K (fun j => j = i)
    have hwi : WF (ins y K (fun j => j = i)) := hsame.wf hy
    obtain ⟨hwz, c, b, c1, b1, b2, b3⟩ := hgau.full_eq hwi
    set z : TBT ℝ := ⟨y.tree, ts⟩ with hz
    have hrs : rankShape (ins y K (fun j => j = i)) r = rankShape y r := hsame.rankShape r
    have hsh : (ins y K (fun j => j = i)).shape = y.shape := hsame.shapeEq
    have hzsh : z.shape = y.shape := (hgau.shapeEq hwi).trans hsh
    have hzact : ∀ j, IsNode y.tree j → z.active j = y.active j := fun j hj => (hgau.active hwi hj).trans (hsame.active j)
    have hzld : ∀ j, IsNode y.tree j → ¬ IsRoot y.tree j → y.active j = true → z.lastDim j = if j = i then k else y.lastDim j := by
      intro j hj hjr hja
      rw [hgau.lastDim hwi hj hjr (by rw [hsame.active]; exact hja), hsame.lastDim]
    have hzi : z.lastDim i = k := by rw [hzld i hi hir ha, if_pos rfl]
    obtain ⟨W, hW⟩ := exists_value (ins y K (fun j => j = i)) hy.valid
    obtain ⟨c', d1, d2, d3⟩ := full_on _ hwi hW.on hr1
    rw [c1] at d1; cases d1
    rw [hrs, hsh] at d2
    rw [hrs, hsh] at d3
    have herr := env_err hy hV hD hO hr hg hq hi hir ha (K := K)
      (fun s s' hs hs' => ls_idem (L := fun s l => L.get [s, l]) (S := fun l s => S.get [l, s]) k7 k8 hs) hW
    have hzero : sumBox (rankShape y r) (fun e => nsq y.shape (fun p => V r p e - W r p e)) = 0 := by
      rw [herr, sub_eq_zero]
      refine sum_congr rfl (fun s hs => ?_)
      exact (ls_gram (g := fun s s' => (g i).get [s, s']) (L := fun s l => L.get [s, l]) (S := fun l s => S.get [l, s]) k6 k7
        (mem_range.1 hs)).symm
    have hca : ∀ q, InBox a.shape q → c.get q = a.get q := by
      have h0 : sumBox a.shape (fun q => (c.get q - a.get q) ^ 2) = 0 := by
        rw [← hzero, f2, dense_sum]
        apply sumBox_congr
        intro e he
        unfold nsq
        apply sumBox_congr
        intro p hp
        beta_reduce
        rw [f3 p e hp he, d3 p e hp he]; ring
      intro q hq1
      exact sub_eq_zero.1 (sq_sum_zero h0 q hq1)
    refine ⟨z, ?_, hwz, rfl, hzsh, hzact, (hgau.rank_root hwi hr).trans hrs, ?_, by rw [hzi]; exact k5, ⟨b, b1, ?_, ?_⟩, s4, ?_⟩
    · rw [t1]
      exact mk_wf hwz
    · intro j hj hjr hja hji
      rw [hzld j hj hjr hja, if_neg hji]
    · rw [b2, d2, f2]
    · intro q hq1
      rw [b3 q hq1]
      exact hca q (by rw [b2, d2] at hq1; rw [f2]; exact hq1)
    · intro _
      refine ⟨?_, ?_⟩
      · rw [← hL2]
        exact ortho_mul_sq (L := fun s l => L.get [s, l]) (ho i hi hir ha) s1 s2 (by
          intro t l ht hl
          rw [s3 t l ht hl]
          exact sum_congr rfl (fun s _ => by simp [transp]))
      · intro V' hV'
        have hv := value_mul hy (z := z) rfl hV hV' hi hir ha (by rw [hzact i hi]; exact ha) (by
          intro m hm hmi
          refine s4 m hmi ?_
          rintro rfl
          exact Anc.irrefl hy.valid _ (Relation.TransGen.head' he hm)) s1 (k := k) (L := fun s l => L.get [s, l]) (by
          intro t l ht hl
          show (ts i).get _ = _
          rw [s3 t l ht hl]
          exact sum_congr rfl (fun s _ => by simp [transp]))
        obtain ⟨F, e1, e2, e3, e4⟩ := env_split hy hV hD hO hr hg hq hi hir ha
        have hV0 : IsValue (ins y K (fun _ => False)) V := by rw [ins_empty y K (fun _ h => h)]; exact hV
        have hW' := hW
        rw [← hset] at hW'
        obtain ⟨hp, hpi⟩ := ins_path hy hi ha (S := fun _ => False) (fun h => h) hV0 hW'
        rw [ins_empty y K (fun _ h => h)] at hp
        refine ⟨fun l u e => ∑ s ∈ range (y.lastDim i), S.get [l, s] * F s u e, ?_, ?_, ?_⟩
        · intro l d hd u v e
          exact sum_congr rfl (fun s _ => by rw [e2 s d hd])
        · intro u e hu he1
          rw [hzi, ← hca (u ++ e) (by rw [f2]; exact (inBox_append hu.length_eq).2 ⟨hu, he1⟩), d3 u e hu he1, e3 W hp u e]
          have h1 : ∀ l ∈ range k, V' i u [l] * ∑ s ∈ range (y.lastDim i), S.get [l, s] * F s u e =
              ∑ s ∈ range (y.lastDim i), ∑ s' ∈ range (y.lastDim i), V i u [s'] * L.get [s', l] * S.get [l, s] * F s u e := by
            intro l hl
            rw [hv u l hu (mem_range.1 hl), sum_mul_sum, sum_comm]
            exact sum_congr rfl (fun s _ => sum_congr rfl (fun s' _ => by ring))
          rw [sum_congr rfl h1, sum_comm]
          refine sum_congr rfl (fun s _ => ?_)
          rw [hpi u s, sum_mul, sum_comm]
          refine sum_congr rfl (fun s' _ => ?_)
          rw [hK]
          dsimp only
          rw [mul_sum, sum_mul]
          exact sum_congr rfl (fun l _ => by ring)
        · intro l l' hl hl' u hu
          rw [hzi] at hl hl'
          rw [← ls_outer (g := fun s s' => (g i).get [s, s']) (L := fun s l => L.get [s, l]) (S := fun l s => S.get [l, s]) k6 k7 hl hl']
          have h2 : ∀ e, dSum y.shape (compl y.shape.length (D i)) (fun p =>
              (∑ s ∈ range (y.lastDim i), S.get [l, s] * F s p e) * ∑ s ∈ range (y.lastDim i), S.get [l', s] * F s p e) u =
              ∑ s ∈ range (y.lastDim i), ∑ s' ∈ range (y.lastDim i), S.get [l, s] * S.get [l', s'] *
                dSum y.shape (compl y.shape.length (D i)) (fun p => F s p e * F s' p e) u := by
            intro e
            have h3 : (fun p => (∑ s ∈ range (y.lastDim i), S.get [l, s] * F s p e) * ∑ s ∈ range (y.lastDim i), S.get [l', s] * F s p e) =
                fun p => ∑ s ∈ range (y.lastDim i), ∑ s' ∈ range (y.lastDim i), (fun _ => S.get [l, s] * S.get [l', s']) p * (F s p e * F s' p e) := by
              funext p
              rw [sum_mul_sum]
              exact sum_congr rfl (fun s _ => sum_congr rfl (fun s' _ => by ring))
            rw [h3, dSum_sum]
            refine sum_congr rfl (fun s _ => ?_)
            rw [dSum_sum]
            refine sum_congr rfl (fun s' _ => ?_)
            rw [dSum_mul _ (fun _ => S.get [l, s] * S.get [l', s']) _ (fun _ _ _ _ => rfl)]
          simp only [h2, sumBox_eq_sum]
          rw [sum_comm]
          refine sum_congr rfl (fun s hs => ?_)
          rw [sum_comm]
          refine sum_congr rfl (fun s' hs' => ?_)
          rw [← e4 s s' (mem_range.1 hs) (mem_range.1 hs') u hu, sumBox_eq_sum, mul_sum]

/-- The path from the root to a node in `gramians(alpha)`. -/
theorem gramiansAt_loop {R : Type} [CommSemiring R] {y : TBT R} (hy : WF y) {r : Nat} (hr : IsRoot y.tree r) {i : Nat}
    (hi : IsNode y.tree i) (ha : y.active i = true) {lev : Nat → Nat} (hlev : ∀ j k, HasLevel y.tree j k → lev j = k)
    {asc : List Nat} (hasc : ∀ c, c ∈ asc ↔ Anc y.tree c i) :
    ∃ g, gramLoop y (fun j => y.active j && (asc.contains j || j == i)) lev (lev i) = .ok g ∧
      (∀ c, AncSelf y.tree c i → ¬ IsRoot y.tree c → (g c).shape = [y.lastDim c, y.lastDim c]) ∧
      ∃ Q : Nat → Prop, EnvRec y r Q (fun c s s' => (g c).get [s, s']) ∧ ∀ c, AncSelf y.tree c i → Q c := by
  have hkeep : ∀ j, (y.active j && (asc.contains j || j == i)) = true ↔ AncSelf y.tree j i := by
    intro j
    simp only [Bool.and_eq_true, Bool.or_eq_true, List.contains_iff_mem, beq_iff_eq, hasc]
    constructor
    · rintro ⟨_, h | rfl⟩
      · exact h.to_reflTransGen
      · exact .refl
    · intro h
      refine ⟨anc_active hy ha j h, ?_⟩
      rcases Relation.reflTransGen_iff_eq_or_transGen.1 h with h | h
      · exact .inr h.symm
      · exact .inl h
  obtain ⟨g, g1, g2, g3, -, -, -⟩ := gramLoop_spec hy hr (keep := fun j => y.active j && (asc.contains j || j == i))
    (fun j h => (Bool.and_eq_true _ _ ▸ h).1)
    (fun j c he h => (hkeep j).2 (Relation.ReflTransGen.head he ((hkeep c).1 h))) hlev (L := lev i) (by
      intro j c he h
      have hc := (hkeep c).1 h
      obtain ⟨kj, hkj⟩ := exists_level hy.valid he.1
      have key : ∀ c, AncSelf y.tree j c → lev j ≤ lev c := by
        intro c h
        induction h with
        | refl => exact le_refl _
        | @tail b d _ hbd ih =>
          obtain ⟨kb, hkb⟩ := exists_level hy.valid hbd.1
          rw [hlev d (kb + 1) (hkb.child hbd)]
          rw [hlev b kb hkb] at ih
          omega
      exact key i (Relation.ReflTransGen.head he hc))
  refine ⟨g, g1, ?_, _, g3, fun c hc => (hkeep c).2 hc⟩
  intro c hc hcr
  have : IsNode y.tree c := by
    rcases Relation.reflTransGen_iff_eq_or_transGen.1 hc with h | h
    · exact h ▸ hi
    · exact anc_isNode h
  exact g2 c this hcr ((hkeep c).2 hc)

/-- C71. `gramians(alpha)` for one active node other than the root gives the same matrix as `gramians()`. -/
theorem gramiansAt_spec (qr : Arr ℝ → Arr ℝ × Arr ℝ) (hqr : FullTensor.QROk qr) (x : TBT ℝ) (hx : WF x) (r : Nat)
    (hr : x.tree.root = .ok r) (i : Nat) (hi : i ∈ activeNodes x r) :
    ∃ (g : Nat → Arr ℝ) (m : Arr ℝ) (y : TBT ℝ), gramians qr x = .ok (g, y) ∧ gramiansAt qr x i = .ok (m, y) ∧ m ≃ₐ g i := by
  obtain ⟨r', hr', hroot⟩ := root_ok hx.valid
  rw [hr] at hr'; cases hr'
  obtain ⟨y, y1, hy, y3, y4, y5, y6, y7, y8, -⟩ := orth_full qr hqr x hx
  have hroot' : IsRoot y.tree r := by rw [y3]; exact hroot
  obtain ⟨h1, h2, h3⟩ := (mem_activeNodes hx.valid hroot i).1 hi
  rw [← y5 i h1] at h3
  rw [← y3] at h1 h2
  obtain ⟨g, g1, g2, g3, -, -, -⟩ := gramiansOrth_spec hy hroot'
  obtain ⟨lev, hlv, hlev⟩ := level_ok hy.valid
  obtain ⟨asc, as1, -, -, -, as2⟩ := ascendants_spec hy.valid i h1
  obtain ⟨g', e1, e2, Q, e3, e4⟩ := gramiansAt_loop hy hroot' h1 h3 hlev as2
  refine ⟨g, g' i, y, ?_, ?_, ?_, ?_⟩
  · unfold gramians
    rw [y1]
    simp only [bind, Except.bind, g1]
  · unfold gramiansAt
    rw [y1]
    simp only [bind, Except.bind, hlv, as1, e1]
  · rw [e2 i .refl h2, g2 i h1 h2 h3]
  · intro q hq
    rw [e2 i .refl h2] at hq
    match q, hq with
    | [s, s'], hq =>
      obtain ⟨q1, q2, -⟩ : s < y.lastDim i ∧ s' < y.lastDim i ∧ True := by simpa using hq
      exact env_unique hy hroot' e3 g3 h1 h2 h3 e4 (anc_active hy h3) s s' q1 q2

/-- C73. `orth_at_node(i)` for an active node `i` other than the root: the result has the tree, the shape, the active nodes and
the full tensor of `x`, its ranks are at most those of `x`, and the tensors of the nodes other than `i` and its parent have
orthonormal slices. If the tensor is not zero, it is the sum of the products of the functions represented by the node `i` and
of orthonormal functions of the other dimensions, and the norm of the tensor of the node is the norm of the tensor. -/
theorem orthAtNode_spec (qr : Arr ℝ → Arr ℝ × Arr ℝ) (hqr : FullTensor.QROk qr) (svd : Svd) (hsv : SvdOk svd) (la : LinAlg)
    (hla : LinAlgOk la) (x : TBT ℝ) (hx : WF x) (r : Nat) (hr : x.tree.root = .ok r) (i : Nat) (hi : i ∈ activeNodes x r) :
    ∃ (z : TBT ℝ) (a b : Arr ℝ) (D : Nat → List Nat), orthAtNode qr svd la x i = .ok z ∧ WF z ∧ z.tree = x.tree ∧ z.shape = x.shape ∧
      (∀ j, IsNode x.tree j → z.active j = x.active j) ∧ rankShape z r = rankShape x r ∧
      (∀ j ∈ activeNodes x r, z.lastDim j ≤ x.lastDim j) ∧ full x = .ok a ∧ full z = .ok b ∧ b ≃ₐ a ∧ x.tree.dims = .ok D ∧
      (∀ j ∈ activeNodes x r, j ≠ i → j ≠ x.tree.parent i → OrthoLast (z.tensors j)) ∧
      ((∃ q, InBox a.shape q ∧ a.get q ≠ 0) →
        sumBox (z.tensors i).shape (fun q => (z.tensors i).get q ^ 2) = sumBox a.shape (fun q => a.get q ^ 2) ∧
        ∀ V', IsValue z V' → ∃ B, OrthSplit x.shape (rankShape x r) a.get (D i) (z.lastDim i) (fun l u => V' i u [l]) B) := by
  obtain ⟨r', hr', hroot⟩ := root_ok hx.valid
  rw [hr] at hr'; cases hr'
  obtain ⟨y, y1, hy, y3, y4, y5, y6, y7, y8, a, c, a1, c1, ⟨c2, c3⟩⟩ := orth_full qr hqr x hx
  have hroot' : IsRoot y.tree r := by rw [y3]; exact hroot
  obtain ⟨h1', h2', h3'⟩ := (mem_activeNodes hx.valid hroot i).1 hi
  have h1 := h1'; have h2 := h2'; have h3 := h3'
  rw [← y5 i h1] at h3
  rw [← y3] at h1 h2
  obtain ⟨lev, hlv, hlev⟩ := level_ok hy.valid
  obtain ⟨asc, as1, -, -, -, as2⟩ := ascendants_spec hy.valid i h1
  obtain ⟨g, e1, e2, Q, e3, e4⟩ := gramiansAt_loop hy hroot' h1 h3 hlev as2
  obtain ⟨D, hD0, hD⟩ := dims_ok hy.valid
  obtain ⟨p, hp⟩ : ∃ p, Edge y.tree p i := by
    by_contra h
    exact h2 ⟨h1, fun p hp => h ⟨p, hp⟩⟩
  have hpar : x.tree.parent i = p := by rw [← y3]; exact edge_parent hy.valid hp
  obtain ⟨z, z1, z2, z3, z4, z5, z6, z7, z8, ⟨b, b1, b2, b3⟩, z9, z10⟩ := orthAtCore_spec svd hsv la hla hy hroot' (by
    intro j j1 j2 j3
    rw [y3] at j1 j2
    exact y8 j j1 j2 (by rw [← y5 j j1]; exact j3)) e3 e4 hp h3 (e2 i .refl h2) hD c1
  refine ⟨z, a, b, D, ?_, z2, z3.trans y3, z4.trans y4, ?_, z6.trans (y6 r hroot), ?_, a1, b1, ⟨b2.trans c2, ?_⟩, by rw [← y3]; exact hD0, ?_, ?_⟩
  · unfold orthAtNode gramiansAt
    rw [hr]
    have hne : i ≠ r := fun h => h2' (h ▸ hroot)
    simp only [bind, Except.bind, if_neg hne, h3', if_true, y1, hlv, as1, e1, z1]
  · intro j hj
    rw [← y5 j hj]
    exact z5 j (by rw [y3]; exact hj)
  · intro j hj
    obtain ⟨j1, j2, j3⟩ := (mem_activeNodes hx.valid hroot j).1 hj
    by_cases hji : j = i
    · subst hji
      exact z8.trans (y7 j j1 j2 j3)
    · rw [z7 j (by rw [y3]; exact j1) (by rw [y3]; exact j2) (by rw [y5 j j1]; exact j3) hji]
      exact y7 j j1 j2 j3
  · intro q hq
    rw [b3 q hq]
    exact c3 q (by rw [← b2]; exact hq)
  · intro j hj hji hjp
    obtain ⟨j1, j2, j3⟩ := (mem_activeNodes hx.valid hroot j).1 hj
    rw [z9 j hji (by rw [← hpar]; exact hjp)]
    exact y8 j j1 j2 j3
  · rintro ⟨q, q1, q2⟩
    obtain ⟨w1, w2⟩ := z10 ⟨q, by rw [c2]; exact q1, by rw [c3 q (by rw [c2]; exact q1)]; exact q2⟩
    have hrs : rankShape y r = rankShape x r := y6 r hroot
    refine ⟨w1.trans ?_, ?_⟩
    · rw [c2]
      apply sumBox_congr
      intro q hq
      rw [c3 q (by rw [c2]; exact hq)]
    · intro V' hV'
      obtain ⟨B, hB⟩ := w2 V' hV'
      obtain ⟨V, hV⟩ := exists_value y hy.valid
      obtain ⟨c', f1, f2, -⟩ := full_on y hy hV.on (by rw [y3]; exact hr)
      rw [c1] at f1; cases f1
      rw [y4, hrs] at hB f2
      refine ⟨B, hB.right, fun u e hu he => ?_, hB.orth⟩
      rw [← hB.eq u e hu he, c3 (u ++ e) (by rw [f2]; exact (inBox_append hu.length_eq).2 ⟨hu, he⟩)]

/-- C73. At the root, `orth_at_node` is `orth`; a node that is not active is refused. -/
theorem orthAtNode_other (qr : Arr ℝ → Arr ℝ × Arr ℝ) (svd : Svd) (la : LinAlg) (x : TBT ℝ) (r : Nat) (hr : x.tree.root = .ok r) :
    orthAtNode qr svd la x r = orth qr x ∧
      ∀ i, i ≠ r → x.active i = false → orthAtNode qr svd la x i = .error .valueError := by
  constructor
  · unfold orthAtNode
    rw [hr]
    simp [bind, Except.bind]
  · intro i hi ha
    unfold orthAtNode
    rw [hr]
    simp [bind, Except.bind, hi, ha]

/-- The hypotheses of `orthAtNode_spec` and `gramiansAt_spec` are met. -/
example : ∃ (qr : Arr ℝ → Arr ℝ × Arr ℝ) (svd : Svd) (la : LinAlg), FullTensor.QROk qr ∧ SvdOk svd ∧ LinAlgOk la ∧ WF exR ∧
    ∃ r, exR.tree.root = .ok r ∧ ∃ i, i ∈ activeNodes exR r := by
  obtain ⟨qr, h⟩ := FullTensor.exists_qr
  obtain ⟨svd, h'⟩ := exists_svd
  obtain ⟨la, h''⟩ := exists_linAlg
  exact ⟨qr, svd, la, h, h', h'', exR_wf, 1, by decide +kernel, 2, by decide +kernel⟩

end Verif.TreeBased
