import Verif.Lemmas.EnvIp
import Verif.Lemmas.PsdSvd
import Verif.Lemmas.GramLoop
import Verif.Props.TreeOrth

/-!
# The error of the insertion of projections at all the nodes of an orthogonal tree-based tensor
-/

namespace Verif.TreeBased

open Verif.Arr Verif.DimTree Finset Verif.Projection

/-- The active nodes other than the root. -/
def activeNodes {R : Type} (x : TBT R) (r : Nat) : List Nat := x.tree.nodes.filter (fun i => x.active i && !(i == r))

theorem mem_activeNodes {R : Type} {x : TBT R} (hx : Valid x.tree) {r : Nat} (hr : IsRoot x.tree r) (i : Nat) :
    i ∈ activeNodes x r ↔ IsNode x.tree i ∧ ¬ IsRoot x.tree i ∧ x.active i = true := by
  unfold activeNodes
  rw [List.mem_filter, mem_nodes]
  constructor
  · rintro ⟨h1, h2⟩
    simp only [Bool.and_eq_true, Bool.not_eq_true', beq_eq_false_iff_ne] at h2
    exact ⟨h1, fun h => h2.2 (root_unique hx h hr), h2.1⟩
  · rintro ⟨h1, h2, h3⟩
    refine ⟨h1, ?_⟩
    simp only [Bool.and_eq_true, Bool.not_eq_true', beq_eq_false_iff_ne]
    exact ⟨h3, fun h => h2 (h ▸ hr)⟩

theorem nodup_activeNodes {R : Type} (x : TBT R) (r : Nat) : (activeNodes x r).Nodup := nodup_nodes.filter _

theorem ortho_vals {y : TBT ℝ} (hy : WF y)
    (ho : ∀ i, IsNode y.tree i → ¬ IsRoot y.tree i → y.active i = true → OrthoLast (y.tensors i))
    {V : Nat → List Nat → List Nat → ℝ} (hV : IsValue y V) {D : Nat → List Nat} (hD : RecDims y.tree D (IsNode y.tree)) :
    ∀ u, InBox y.shape u → OrthoVal y V D u :=
  fun u hu => ortho_gram y hy ho V hV D hD u u hu hu

/-- The matrices computed by `gramians()` on an orthogonalised tensor. -/
theorem gramiansOrth_spec {R : Type} [CommSemiring R] {y : TBT R} (hy : WF y) {r : Nat} (hr : IsRoot y.tree r) :
    ∃ g, gramiansOrth y = .ok g ∧
      (∀ c, IsNode y.tree c → ¬ IsRoot y.tree c → y.active c = true → (g c).shape = [y.lastDim c, y.lastDim c]) ∧
      EnvRec y r (fun c => y.active c = true) (fun c s s' => (g c).get [s, s']) ∧ (g r).shape = [1, 1] ∧ (g r).get [0, 0] = 1 ∧
      ∀ c, c ≠ r → y.active c = false → (g c).shape = [] := by
  obtain ⟨lev, hl, hlev⟩ := level_ok hy.valid
  unfold gramiansOrth
  rw [hl]
  exact gramLoop_spec hy hr (keep := y.active) (fun i h => h)
    (fun j c he _ => (hy.node j he.1 (edge_internal hy.valid he)).1) hlev (fun j c he _ => lev_le_maxLevel lev he.1)

theorem anc_active {R : Type} {y : TBT R} (hy : WF y) {i : Nat} (ha : y.active i = true) :
    ∀ c, AncSelf y.tree c i → y.active c = true := by
  intro c h
  induction h using Relation.ReflTransGen.head_induction_on with
  | refl => exact ha
  | @head j c he hc ih => exact (hy.node j he.1 (edge_internal hy.valid he)).1

/-- The squared error of the insertion of the projections `U Uᵀ` at all the active nodes is at most the sum of the
squared errors of the insertions at one node. -/
theorem ins_error {y : TBT ℝ} (hy : WF y) {V : Nat → List Nat → List Nat → ℝ} (hV : IsValue y V) {D : Nat → List Nat}
    (hD : RecDims y.tree D (IsNode y.tree)) (hO : ∀ u, InBox y.shape u → OrthoVal y V D u)
    {r : Nat} (hr : IsRoot y.tree r) {g : Nat → Nat → Nat → ℝ} (hg : EnvRec y r (fun c => y.active c = true) g)
    {K : Nat → Nat → Nat → ℝ} {k : Nat → Nat} {U : Nat → Nat → Nat → ℝ}
    (hK : ∀ i, IsNode y.tree i → ¬ IsRoot y.tree i → y.active i = true →
      (∀ s s', s < y.lastDim i → s' < y.lastDim i → K i s s' = ∑ l ∈ range (k i), U i s l * U i s' l) ∧
      ∀ l l', l < k i → l' < k i → ∑ s ∈ range (y.lastDim i), U i s l * U i s l' = if l = l' then 1 else 0)
    {W : Nat → List Nat → List Nat → ℝ}
    (hW : IsValue (ins y K (fun i => IsNode y.tree i ∧ ¬ IsRoot y.tree i ∧ y.active i = true)) W) :
    sumBox (rankShape y r) (fun e => nsq y.shape (fun p => V r p e - W r p e)) ≤
      ((activeNodes y r).map (fun i => ∑ s ∈ range (y.lastDim i), g i s s -
        ∑ s ∈ range (y.lastDim i), ∑ s' ∈ range (y.lastDim i), g i s s' * ∑ l ∈ range (k i), U i s l * U i s' l)).sum := by
  obtain ⟨lev, -, hlev⟩ := level_ok hy.valid
  -- the nodes, the deepest last
  set L := (activeNodes y r).mergeSort (fun i j => decide (lev i ≤ lev j)) with hLdef
  have hperm : L.Perm (activeNodes y r) := List.mergeSort_perm _ _
  have hpw : L.Pairwise (fun i j => lev i ≤ lev j) := by
    have := List.pairwise_mergeSort (le := fun i j => decide (lev i ≤ lev j)) (by intro a b c h1 h2; simp at *; omega)
      (by intro a b; simp; omega) (activeNodes y r)
    exact this.imp (by intro a b h; simpa using h)
  have hnd : L.Nodup := hperm.nodup_iff.2 (nodup_activeNodes y r)
  have hmem : ∀ i, i ∈ L ↔ IsNode y.tree i ∧ ¬ IsRoot y.tree i ∧ y.active i = true :=
    fun i => hperm.mem_iff.trans (mem_activeNodes hy.valid hr i)
  set Lr := L.reverse with hLr
  have hmem' : ∀ i, i ∈ Lr ↔ IsNode y.tree i ∧ ¬ IsRoot y.tree i ∧ y.active i = true := fun i => by rw [hLr, List.mem_reverse]; exact hmem i
  have hp : Lr.Pairwise (fun i j => lev j ≤ lev i ∧ i ≠ j) := by
    rw [hLr, List.pairwise_reverse]
    have := hpw.and hnd
    exact this.imp (fun h => ⟨h.1, fun e => h.2 e.symm⟩)
  have hp' : Lr.Pairwise (fun i j => ¬ AncSelf y.tree i j) := by
    refine List.Pairwise.imp_of_mem ?_ hp
    intro i j hi hj h ha
    obtain ⟨a, hka⟩ := exists_level hy.valid ((hmem' i).1 hi).1
    obtain ⟨b, hkb⟩ := exists_level hy.valid ((hmem' j).1 hj).1
    have h1 := hlev i a hka
    have h2 := hlev j b hkb
    have h3 := AncSelf.level_le hy.valid ha hka hkb
    exact h.2 (h3.2 (by omega))
  have hset : (fun i => IsNode y.tree i ∧ ¬ IsRoot y.tree i ∧ y.active i = true) = (fun i => i ∈ Lr) := by
    funext i; exact propext (hmem' i).symm
  rw [hset] at hW
  have hPr : ∀ i ∈ Lr, IsProj y.shape (nodeP y V D (k i) (U i) i) := by
    intro i hi
    obtain ⟨h1, h2, h3⟩ := (hmem' i).1 hi
    exact nodeP_proj hy hD hO h1 h2 h3 _ _ (hK i h1 h2 h3).2
  have hcomp := fun e => ins_comp hy hV hD hO Lr (fun i hi => by
    obtain ⟨h1, h2, h3⟩ := (hmem' i).1 hi
    exact ⟨h1, h2, h3, (hK i h1 h2 h3).1⟩) hp' hW hr e hPr
  have hone : ∀ i ∈ Lr, sumBox (rankShape y r) (fun e => nsq y.shape (fun p => V r p e - nodeP y V D (k i) (U i) i (fun p => V r p e) p)) =
      ∑ s ∈ range (y.lastDim i), g i s s -
        ∑ s ∈ range (y.lastDim i), ∑ s' ∈ range (y.lastDim i), g i s s' * ∑ l ∈ range (k i), U i s l * U i s' l := by
    intro i hi
    obtain ⟨h1, h2, h3⟩ := (hmem' i).1 hi
    obtain ⟨k1, k2⟩ := hK i h1 h2 h3
    obtain ⟨Wi, hWi⟩ := exists_value (ins y K (fun j => j = i)) hy.valid
    have hV0 : IsValue (ins y K (fun _ => False)) V := by rw [ins_empty y K (fun _ h => h)]; exact hV
    have hWi' : IsValue (ins y K (fun j => False ∨ j = i)) Wi := by
      have : (fun j => False ∨ j = i) = (fun j => j = i) := by funext j; simp
      rw [this]; exact hWi
    have hK2 : ∀ s s', s < y.lastDim i → s' < y.lastDim i → ∑ a ∈ range (y.lastDim i), K i a s * K i a s' = K i s s' := by
      intro s s' hs hs'
      rw [k1 s s' hs hs']
      have e1 : ∀ a ∈ range (y.lastDim i), K i a s * K i a s' =
          ∑ l ∈ range (k i), ∑ l' ∈ range (k i), U i s l * U i s' l' * (U i a l * U i a l') := by
        intro a ha
        rw [k1 a s (mem_range.1 ha) hs, k1 a s' (mem_range.1 ha) hs', sum_mul_sum]
        exact sum_congr rfl (fun l _ => sum_congr rfl (fun l' _ => by ring))
      rw [sum_congr rfl e1, sum_comm]
      refine sum_congr rfl (fun l hl => ?_)
      rw [sum_comm, sum_eq_single_of_mem l hl]
      · rw [← mul_sum, k2 l l (mem_range.1 hl) (mem_range.1 hl), if_pos rfl, mul_one]
      · intro l' hl' hne
        rw [← mul_sum, k2 l l' (mem_range.1 hl) (mem_range.1 hl'), if_neg (Ne.symm hne), mul_zero]
    have herr := env_err hy hV hD hO hr hg (anc_active hy h3) h1 h2 h3 hK2 hWi
    have e2 : ∑ s ∈ range (y.lastDim i), ∑ s' ∈ range (y.lastDim i), g i s s' * ∑ l ∈ range (k i), U i s l * U i s' l =
        ∑ s ∈ range (y.lastDim i), ∑ s' ∈ range (y.lastDim i), g i s s' * K i s s' :=
      sum_congr rfl (fun s hs => sum_congr rfl (fun s' hs' => by rw [k1 s s' (mem_range.1 hs) (mem_range.1 hs')]))
    rw [e2, ← herr]
    apply sumBox_congr
    intro e _
    unfold nsq
    apply sumBox_congr
    intro p hpb
    beta_reduce
    rw [ins_proj hy hV hD hO h1 h2 h3 k1 (S := fun _ => False) (fun _ _ h => h) hV0 hWi' hr e hpb]
  have hbnd : ∀ e, nsq y.shape (fun p => V r p e - W r p e) ≤
      (Lr.map (fun i => nsq y.shape (fun p => V r p e - nodeP y V D (k i) (U i) i (fun p => V r p e) p))).sum := by
    intro e
    have h := chain y.shape (Lr.map (fun i => nodeP y V D (k i) (U i) i)) (by
      intro P hP
      obtain ⟨i, hi, rfl⟩ := List.mem_map.1 hP
      exact hPr i hi) (fun p => V r p e)
    rw [List.map_map] at h
    refine le_trans (le_of_eq ?_) h
    unfold nsq
    apply sumBox_congr
    intro p hpb
    beta_reduce
    rw [hcomp e p hpb]
  have hsum : ∀ (L : List Nat) (f : Nat → List Nat → ℝ), sumBox (rankShape y r) (fun e => (L.map (fun i => f i e)).sum) =
      (L.map (fun i => sumBox (rankShape y r) (f i))).sum := by
    intro L f
    induction L with
    | nil => simp [sumBox_zero]
    | cons a L ih =>
      simp only [List.map_cons, List.sum_cons]
      rw [sumBox_add, ih]
  have hfin : (Lr.map (fun i => ∑ s ∈ range (y.lastDim i), g i s s -
        ∑ s ∈ range (y.lastDim i), ∑ s' ∈ range (y.lastDim i), g i s s' * ∑ l ∈ range (k i), U i s l * U i s' l)).sum =
      ((activeNodes y r).map (fun i => ∑ s ∈ range (y.lastDim i), g i s s -
        ∑ s ∈ range (y.lastDim i), ∑ s' ∈ range (y.lastDim i), g i s s' * ∑ l ∈ range (k i), U i s l * U i s' l)).sum :=
    (((List.reverse_perm L).trans hperm).map _).sum_eq
  rw [← hfin, ← List.map_congr_left hone, ← hsum]
  rw [sumBox_eq_sum, sumBox_eq_sum]
  exact sum_le_sum (fun e _ => hbnd e)

end Verif.TreeBased
