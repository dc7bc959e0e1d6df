import Verif.Lemmas.EnvProj

/-!
# The Gram matrices of a tree-based tensor as matrices of scalar products
-/

namespace Verif.TreeBased

open Verif.Arr Verif.DimTree Finset Verif.Projection

/-- The Gram matrix of the root with the identity matrices. -/
theorem gram_root_eye {y : TBT ℝ} (hy : WF y) {D : Nat → List Nat} (hD : RecDims y.tree D (IsNode y.tree))
    (G G' : Nat → List Nat → List Nat → ℝ) {r : Nat} (hr : IsRoot y.tree r) (e : List Nat) {u : List Nat} (hu : InBox y.shape u) :
    gram y y G G' D eyeM r e e u u = ip y.shape (fun p => G r p e) (fun p => G' r p e) := by
  rw [gram_root y y hy G G' D hD eyeM hr rfl e e u u hu.length_eq hu.length_eq]
  unfold ip
  apply sumBox_congr
  intro p hp
  rw [← sumBox_pick hp (fun q => G r p e * G' r q e)]
  apply sumBox_congr
  intro q hq
  rw [mul_comm]
  congr 1
  by_cases hpq : p = q
  · subst hpq
    rw [if_pos rfl]
    apply List.prod_eq_one
    intro v hv
    obtain ⟨k, hk, rfl⟩ := List.mem_map.1 hv
    simp [eyeM]
  · rw [if_neg hpq]
    apply List.prod_eq_zero
    by_contra hno
    apply hpq
    apply ext_getD (by rw [hp.length_eq, hq.length_eq])
    intro k hk
    by_contra hkne
    apply hno
    rw [hp.length_eq] at hk
    exact List.mem_map.2 ⟨k, List.mem_range.2 hk, by unfold eyeM; rw [if_neg hkne]⟩

theorem childSum_congrV' {R : Type} [CommSemiring R] (x : TBT R) (V V' : Nat → List Nat → List Nat → R) (idx : List Nat)
    (cs : List Nat) (k : List Nat → R) (h : ∀ c ∈ cs, x.active c → ∀ s, s < x.lastDim c → V c idx [s] = V' c idx [s]) :
    childSum x V idx cs k = childSum x V' idx cs k := by
  induction cs generalizing k with
  | nil => rfl
  | cons c cs ih =>
    unfold childSum
    split
    · rename_i ha
      refine sum_congr rfl (fun s hs => ?_)
      rw [h c (by simp) ha s (mem_range.1 hs), ih _ (fun c' hc' => h c' (by simp [hc']))]
    · exact ih _ (fun c' hc' => h c' (by simp [hc']))

section
variable {y : TBT ℝ} (hy : WF y) {V : Nat → List Nat → List Nat → ℝ} (hV : IsValue y V) {D : Nat → List Nat}
  (hD : RecDims y.tree D (IsNode y.tree)) (hO : ∀ u, InBox y.shape u → OrthoVal y V D u)
  {r : Nat} (hr : IsRoot y.tree r) {Q : Nat → Prop} {g : Nat → Nat → Nat → ℝ} (hg : EnvRec y r Q g)
  {i : Nat} (hq : ∀ c, AncSelf y.tree c i → Q c) (hi : IsNode y.tree i) (hir : ¬ IsRoot y.tree i) (ha : y.active i = true)

/-- The sum over the rank axes of the root of the scalar products of two families of values at the root. -/
noncomputable def ipR (y : TBT ℝ) (r : Nat) (G G' : Nat → List Nat → List Nat → ℝ) : ℝ :=
  sumBox (rankShape y r) (fun e => ip y.shape (fun p => G r p e) (fun p => G' r p e))

include hy hV hD hO hr hg hq hi hir ha in
theorem env_ip {G G' : Nat → List Nat → List Nat → ℝ} (hG : PathVal y V G i) (hG' : PathVal y V G' i) {A A' : Nat → Nat → ℝ}
    (hA : ∀ p s, G i p [s] = ∑ a ∈ range (y.lastDim i), V i p [a] * A a s)
    (hA' : ∀ p s, G' i p [s] = ∑ a ∈ range (y.lastDim i), V i p [a] * A' a s) :
    ipR y r G G' = ∑ s ∈ range (y.lastDim i), ∑ s' ∈ range (y.lastDim i), g i s s' * ∑ a ∈ range (y.lastDim i), A a s * A' a s' := by
  have hu := inBox_zeros hy
  have hind : ∀ (G : Nat → List Nat → List Nat → ℝ) (A : Nat → Nat → ℝ),
      (∀ p s, G i p [s] = ∑ a ∈ range (y.lastDim i), V i p [a] * A a s) → ChildIndep y G D i := by
    intro G A hA d hd p a s
    unfold childVal
    rw [if_pos ha, if_pos ha, hA, hA]
    refine sum_congr rfl (fun b _ => ?_)
    have := childVal_indep y hy V hV D hD hi b hd p a
    unfold childVal at this
    rw [if_pos ha, if_pos ha] at this
    rw [this]
  have h := env_master hy hV hD ha hG hG' (hind G A hA) (hind G' A' hA') hu (hO _ hu) hr hg hq hi .refl hir
  unfold ipR
  have e1 : sumBox (rankShape y r) (fun e => ip y.shape (fun p => G r p e) (fun p => G' r p e)) =
      sumBox (rankShape y r) (fun e => gram y y G G' D eyeM r e e (y.shape.map (fun _ => 0)) (y.shape.map (fun _ => 0))) := by
    apply sumBox_congr
    intro e _
    exact (gram_root_eye hy hD G G' hr e hu).symm
  rw [e1, h]
  refine sum_congr rfl (fun s hs => sum_congr rfl (fun s' hs' => ?_))
  congr 1
  unfold gram
  unfold eyeM
  rw [mSum_eye]
  have e2 : (fun p => G i p [s] * G' i p [s']) = fun p => ∑ b ∈ range (y.lastDim i), (fun _ => A' b s') p *
      (newB y V i A s p * V i p [b]) := by
    funext p
    rw [hA', mul_sum]
    refine sum_congr rfl (fun b _ => ?_)
    unfold newB
    rw [hA]; ring
  rw [e2, dSum_sum]
  refine sum_congr rfl (fun b hb => ?_)
  rw [dSum_mul _ (fun _ => A' b s') _ (fun _ _ _ _ => rfl), newB_sum hO hi hir ha A (mem_range.1 hb) s hu]
  ring

include hy hV hD hO hr hg hq hi hir ha in
/-- The Gram matrix of a node is a matrix of scalar products. -/
theorem env_gram : ∃ F : Nat → List Nat → List Nat → ℝ, ∀ s s', s < y.lastDim i → s' < y.lastDim i →
    g i s s' = sumBox (rankShape y r) (fun e => ip y.shape (fun p => F s p e) (fun p => F s' p e)) := by
  by_cases h0 : y.lastDim i = 0
  · exact ⟨fun _ _ _ => 0, fun s s' hs => by omega⟩
  have hpos : 0 < y.lastDim i := Nat.pos_of_ne_zero h0
  have hex : ∀ q : Nat, ∃ G, PathVal y V G i ∧ G i = fun (p : List Nat) (e : List Nat) => V i p [0] * if e = [q] then (1 : ℝ) else 0 :=
    fun s => exists_path hy hi _
  choose E hE hEi using hex
  refine ⟨fun q => E q r, fun q q' hq0 hq' => ?_⟩
  have hA : ∀ q p s, E q i p [s] = ∑ a ∈ range (y.lastDim i), V i p [a] * (if a = 0 ∧ s = q then 1 else 0) := by
    intro q p s
    rw [hEi, sum_eq_single_of_mem 0 (mem_range.2 hpos)]
    · simp
    · intro b _ hb; simp [hb]
  have h := env_ip hy hV hD hO hr hg hq hi hir ha (hE q) (hE q') (hA q) (hA q')
  unfold ipR at h
  rw [h]
  symm
  rw [sum_eq_single_of_mem q (mem_range.2 hq0), sum_eq_single_of_mem q' (mem_range.2 hq'), sum_eq_single_of_mem 0 (mem_range.2 hpos)]
  · simp
  · intro b _ hb; simp [hb]
  · intro b _ hb
    rw [sum_eq_zero, mul_zero]
    intro a _; simp [hb]
  · intro b _ hb
    apply sum_eq_zero
    intro s' _
    rw [sum_eq_zero, mul_zero]
    intro a _; simp [hb]

include hy hV hD hO hr hg hq hi hir ha in
theorem env_symm {s s' : Nat} (hs : s < y.lastDim i) (hs' : s' < y.lastDim i) : g i s s' = g i s' s := by
  obtain ⟨F, hF⟩ := env_gram hy hV hD hO hr hg hq hi hir ha
  rw [hF s s' hs hs', hF s' s hs' hs]
  exact sumBox_congr (fun e _ => ip_comm _ _)

include hy hV hD hO hr hg hq hi hir ha in
theorem env_psd (v : Nat → ℝ) : 0 ≤ ∑ s ∈ range (y.lastDim i), ∑ s' ∈ range (y.lastDim i), v s * g i s s' * v s' := by
  obtain ⟨F, hF⟩ := env_gram hy hV hD hO hr hg hq hi hir ha
  have h : ∑ s ∈ range (y.lastDim i), ∑ s' ∈ range (y.lastDim i), v s * g i s s' * v s' =
      sumBox (rankShape y r) (fun e => nsq y.shape (fun p => ∑ s ∈ range (y.lastDim i), v s * F s p e)) := by
    have e1 : ∀ s ∈ range (y.lastDim i), ∀ s' ∈ range (y.lastDim i), v s * g i s s' * v s' =
        sumBox (rankShape y r) (fun e => sumBox y.shape (fun p => (v s * F s p e) * (v s' * F s' p e))) := by
      intro s hs s' hs'
      rw [hF s s' (mem_range.1 hs) (mem_range.1 hs')]
      unfold ip
      simp only [sumBox_eq_sum, mul_sum, sum_mul]
      exact sum_congr rfl (fun e _ => sum_congr rfl (fun p _ => by ring))
    rw [sum_congr rfl (fun s hs => sum_congr rfl (e1 s hs))]
    unfold nsq
    simp only [sumBox_eq_sum, sum_mul_sum]
    rw [sum_congr rfl (fun s _ => sum_comm), sum_comm]
    refine sum_congr rfl (fun e _ => ?_)
    rw [sum_congr rfl (fun s _ => sum_comm), sum_comm]
  rw [h, sumBox_eq_sum]
  exact sum_nonneg (fun e _ => nsq_nonneg _)

include hy hV hr hi hir in
/-- The values of the tensor, with zeros outside of the range of the rank of `i`. -/
theorem env_self : ∃ G, PathVal y V G i ∧ (∀ p e, G r p e = V r p e) ∧
    ∀ p s, G i p [s] = ∑ a ∈ range (y.lastDim i), V i p [a] * (if a = s then 1 else 0) := by
  have hVp : PathVal y V V i := ⟨fun _ _ _ _ _ _ => rfl, fun j hj idx e => hV.node j (anc_isNode hj) (path_internal hy hj) idx e⟩
  have hA : ∀ p s, s < y.lastDim i → V i p [s] = ∑ a ∈ range (y.lastDim i), V i p [a] * (if a = s then 1 else 0) := by
    intro p s hs
    rw [sum_eq_single_of_mem s (mem_range.2 hs)]
    · simp
    · intro b _ hb; simp [hb]
  obtain ⟨G, hG, hGi⟩ := exists_path (V := V) hy hi (fun p e => if e.headD 0 < y.lastDim i then V i p e else 0)
  refine ⟨G, hG, ?_, ?_⟩
  · have key : ∀ j, AncSelf y.tree j i → j ≠ i → ∀ p e, G j p e = V j p e := by
      intro j hj
      induction hj using Relation.ReflTransGen.head_induction_on with
      | refl => intro h; exact absurd rfl h
      | @head j c he hc ih =>
        intro _ p e
        have hji : Anc y.tree j i := Relation.TransGen.head' he hc
        rw [hG.up j hji, hVp.up j hji]
        apply childSum_congrV'
        intro c' hc' hac s hs
        have he' := (mem_children j c' he.1).1 hc'
        by_cases hcc : c' = c
        · by_cases hci : c' = i
          · subst hci
            rw [hGi]
            simp [hs]
          · subst hcc
            exact ih hci p [s]
        · exact hG.off c' he'.2.1 hac (path_off hy he hc he' hcc) p [s]
    obtain ⟨r0, hr0, hall⟩ := hy.valid.rooted
    have hrr := root_unique hy.valid hr hr0
    exact key r (by rw [hrr]; exact hall i hi) (fun h => hir (h ▸ hr))
  · intro p s
    rw [hGi]
    show (if s < y.lastDim i then V i p [s] else 0) = _
    split
    · rename_i hs; exact hA p s hs
    · rename_i hs
      symm
      apply sum_eq_zero
      intro a ha'
      have := mem_range.1 ha'
      rw [if_neg (by omega), mul_zero]

include hy hV hD hO hr hg hq hi hir ha in
/-- The trace of the Gram matrix of a node is the squared norm of the tensor. -/
theorem env_trace : ∑ s ∈ range (y.lastDim i), g i s s = sumBox (rankShape y r) (fun e => nsq y.shape (fun p => V r p e)) := by
  obtain ⟨G, hG, hGr, hA'⟩ := env_self hy hV hr hi hir
  have h := env_ip hy hV hD hO hr hg hq hi hir ha hG hG hA' hA'
  unfold ipR at h
  simp only [hGr] at h
  refine Eq.trans ?_ h.symm
  refine sum_congr rfl (fun s hs => ?_)
  rw [sum_eq_single_of_mem s hs, sum_eq_single_of_mem s hs]
  · simp
  · intro b _ hb; simp [hb]
  · intro b _ hb
    rw [sum_eq_zero, mul_zero]
    intro a _
    by_cases h1 : a = s
    · rw [if_pos h1, if_neg (by rw [h1]; exact Ne.symm hb), mul_zero]
    · rw [if_neg h1, zero_mul]

include hy hV hD hO hr hg hq hi hir ha in
/-- The error of the insertion of an orthogonal projection above one node. -/
theorem env_err {K : Nat → Nat → Nat → ℝ}
    (hK2 : ∀ s s', s < y.lastDim i → s' < y.lastDim i → ∑ a ∈ range (y.lastDim i), K i a s * K i a s' = K i s s')
    {W : Nat → List Nat → List Nat → ℝ} (hW : IsValue (ins y K (fun j => j = i)) W) :
    sumBox (rankShape y r) (fun e => nsq y.shape (fun p => V r p e - W r p e)) =
      ∑ s ∈ range (y.lastDim i), g i s s - ∑ s ∈ range (y.lastDim i), ∑ s' ∈ range (y.lastDim i), g i s s' * K i s s' := by
  have hV0 : IsValue (ins y K (fun _ => False)) V := by rw [ins_empty y K (fun _ h => h)]; exact hV
  have hset : (fun j => j = i) = (fun j => False ∨ j = i) := by funext j; simp
  rw [hset] at hW
  obtain ⟨hp, hpi⟩ := ins_path hy hi ha (S := fun _ => False) (fun h => h) hV0 hW
  rw [ins_empty y K (fun _ h => h)] at hp
  obtain ⟨G, hG, hGr, hA'⟩ := env_self hy hV hr hi hir
  have hpi' : ∀ p s, W i p [s] = ∑ a ∈ range (y.lastDim i), V i p [a] * K i a s := hpi
  have h1 := env_ip hy hV hD hO hr hg hq hi hir ha hG hp hA' hpi'
  have h2 := env_ip hy hV hD hO hr hg hq hi hir ha hp hp hpi' hpi'
  have h3 := env_trace hy hV hD hO hr hg hq hi hir ha
  have e1 : ∑ s ∈ range (y.lastDim i), ∑ s' ∈ range (y.lastDim i), g i s s' * ∑ a ∈ range (y.lastDim i),
      (if a = s then 1 else 0) * K i a s' = ∑ s ∈ range (y.lastDim i), ∑ s' ∈ range (y.lastDim i), g i s s' * K i s s' := by
    refine sum_congr rfl (fun s hs => sum_congr rfl (fun s' hs' => ?_))
    rw [sum_eq_single_of_mem s hs]
    · simp
    · intro b _ hb; simp [hb]
  have e2 : ∑ s ∈ range (y.lastDim i), ∑ s' ∈ range (y.lastDim i), g i s s' * ∑ a ∈ range (y.lastDim i),
      K i a s * K i a s' = ∑ s ∈ range (y.lastDim i), ∑ s' ∈ range (y.lastDim i), g i s s' * K i s s' := by
    refine sum_congr rfl (fun s hs => sum_congr rfl (fun s' hs' => ?_))
    rw [hK2 s s' (mem_range.1 hs) (mem_range.1 hs')]
  rw [e1] at h1
  rw [e2] at h2
  unfold ipR at h1 h2
  simp only [hGr] at h1
  have e3 : sumBox (rankShape y r) (fun e => nsq y.shape (fun p => V r p e - W r p e)) =
      sumBox (rankShape y r) (fun e => nsq y.shape (fun p => V r p e)) -
        2 * sumBox (rankShape y r) (fun e => ip y.shape (fun p => V r p e) (fun p => W r p e)) +
        sumBox (rankShape y r) (fun e => ip y.shape (fun p => W r p e) (fun p => W r p e)) := by
    unfold nsq ip
    simp only [sumBox_eq_sum, mul_sum, ← sum_sub_distrib, ← sum_add_distrib]
    exact sum_congr rfl (fun e _ => sum_congr rfl (fun p _ => by ring))
  rw [e3, h1, h2, h3]
  ring

end
end Verif.TreeBased
