import Verif.Lemmas.Insert
import Verif.Lemmas.Projection

/-!
# Matrices inserted in an orthogonal tree-based tensor are orthogonal projections
-/

namespace Verif.TreeBased

open Verif.Arr Verif.DimTree Finset Verif.Projection

section
variable {y : TBT ℝ} (hy : WF y) {V : Nat → List Nat → List Nat → ℝ} (hV : IsValue y V) {D : Nat → List Nat}
  (hD : RecDims y.tree D (IsNode y.tree)) (hO : ∀ u, InBox y.shape u → OrthoVal y V D u)

theorem value_orth {i : Nat} (hO : ∀ u, InBox y.shape u → OrthoVal y V D u) (hi : IsNode y.tree i) (hir : ¬ IsRoot y.tree i)
    (ha : y.active i = true) {s s' : Nat} (hs : s < y.lastDim i) (hs' : s' < y.lastDim i) {u : List Nat} (hu : InBox y.shape u) :
    dSum y.shape (D i) (fun p => V i p [s] * V i p [s']) u = if s = s' then 1 else 0 := by
  have hc : childSize y i = y.lastDim i := by unfold childSize; rw [if_pos ha]
  have h := hO u hu i hi hir s s' (by rw [hc]; exact hs) (by rw [hc]; exact hs')
  rw [cgram_active y y V V D eyeM ha ha] at h
  unfold gram eyeM at h
  rw [mSum_eye] at h
  exact h

/-- The basis of the node `i` after multiplication by the matrix `U`. -/
noncomputable def newB (y : TBT ℝ) (V : Nat → List Nat → List Nat → ℝ) (i : Nat) (U : Nat → Nat → ℝ) (l : Nat) (p : List Nat) : ℝ :=
  ∑ s ∈ range (y.lastDim i), V i p [s] * U s l

/-- The orthogonal projection on the span of the new basis of the node `i`. -/
noncomputable def nodeP (y : TBT ℝ) (V : Nat → List Nat → List Nat → ℝ) (D : Nat → List Nat) (k : Nat) (U : Nat → Nat → ℝ) (i : Nat) :
    (List Nat → ℝ) → List Nat → ℝ := expandP y.shape (D i) k (newB y V i U)

theorem newB_sum {i : Nat} (hO : ∀ u, InBox y.shape u → OrthoVal y V D u) (hi : IsNode y.tree i) (hir : ¬ IsRoot y.tree i)
    (ha : y.active i = true) (U : Nat → Nat → ℝ) {s' : Nat} (hs' : s' < y.lastDim i) (l : Nat) {u : List Nat} (hu : InBox y.shape u) :
    dSum y.shape (D i) (fun p => newB y V i U l p * V i p [s']) u = U s' l := by
  unfold newB
  have e1 : (fun p => (∑ s ∈ range (y.lastDim i), V i p [s] * U s l) * V i p [s']) =
      fun p => ∑ s ∈ range (y.lastDim i), (fun _ => U s l) p * (V i p [s] * V i p [s']) := by
    funext p; rw [sum_mul]; exact sum_congr rfl (fun s _ => by ring)
  rw [e1, dSum_sum]
  have e2 : ∀ s ∈ range (y.lastDim i), dSum y.shape (D i) (fun p => (fun _ => U s l) p * (V i p [s] * V i p [s'])) u =
      U s l * if s = s' then 1 else 0 := by
    intro s hs
    rw [dSum_mul _ (fun _ => U s l) _ (fun _ _ _ _ => rfl), value_orth hO hi hir ha (mem_range.1 hs) hs' hu]
  rw [sum_congr rfl e2, sum_eq_single_of_mem s' (mem_range.2 hs')]
  · rw [if_pos rfl, mul_one]
  · intro s _ hne; rw [if_neg hne, mul_zero]

include hy hD hO in
theorem nodeP_proj {i : Nat} (hi : IsNode y.tree i) (hir : ¬ IsRoot y.tree i)
    (ha : y.active i = true) (k : Nat) (U : Nat → Nat → ℝ)
    (hU : ∀ l l', l < k → l' < k → ∑ s ∈ range (y.lastDim i), U s l * U s l' = if l = l' then 1 else 0) :
    IsProj y.shape (nodeP y V D k U i) := by
  apply expandP_proj
  · intro d hd
    obtain ⟨l, hl, _⟩ := (recDims_mem hy.valid hD i hi d).1 hd
    have : d < y.tree.dim2ind.length := by
      by_contra h
      rw [List.getElem?_eq_none (by omega)] at hl
      cases hl
    simpa [TBT.shape] using this
  · intro l l' hl hl' u hu
    have e1 : (fun p => newB y V i U l p * newB y V i U l' p) =
        fun p => ∑ s ∈ range (y.lastDim i), (fun _ => U s l') p * (newB y V i U l p * V i p [s]) := by
      funext p
      conv_lhs => rw [show newB y V i U l' p = ∑ s ∈ range (y.lastDim i), V i p [s] * U s l' from rfl]
      rw [mul_sum]; exact sum_congr rfl (fun s _ => by ring)
    rw [e1, dSum_sum, ← hU l l' hl hl']
    refine sum_congr rfl (fun s hs => ?_)
    rw [dSum_mul _ (fun _ => U s l') _ (fun _ _ _ _ => rfl), newB_sum hO hi hir ha U (mem_range.1 hs) l hu]
    ring

include hy hV hD hO in
/-- Insertion of one more matrix `U Uᵀ`, above a node with no matrix below it, applies the projection of this node. -/
theorem ins_proj {K : Nat → Nat → Nat → ℝ} {i k : Nat} {U : Nat → Nat → ℝ} (hi : IsNode y.tree i) (hir : ¬ IsRoot y.tree i)
    (ha : y.active i = true) (hK : ∀ s s', s < y.lastDim i → s' < y.lastDim i → K i s s' = ∑ l ∈ range k, U s l * U s' l)
    {S : Nat → Prop} (hS : ∀ j, AncSelf y.tree i j → ¬ S j)
    {W W' : Nat → List Nat → List Nat → ℝ} (hW : IsValue (ins y K S) W)
    (hW' : IsValue (ins y K (fun j => S j ∨ j = i)) W') {r : Nat} (hr : IsRoot y.tree r) (e : List Nat) {u : List Nat}
    (hu : InBox y.shape u) : W' r u e = nodeP y V D k U i (fun p => W r p e) u := by
  have hss := ins_same y K S
  have hwf : WF (ins y K S) := hss.wf hy
  have htree : (ins y K S).tree = y.tree := rfl
  have hai : (ins y K S).active i = true := by rw [hss.active]; exact ha
  have hVi : ∀ p s, W i p [s] = V i p [s] := by
    intro p s
    have hV0 : IsValue (ins y K (fun _ => False)) V := by rw [ins_empty y K (fun _ h => h)]; exact hV
    exact ins_value_eq hy hW hV0 i hi ha (fun m hm => ⟨fun h => hS m hm h, False.elim⟩) p [s]
  obtain ⟨hp, hpi⟩ := ins_path hy hi ha (hS i .refl) hW hW'
  have hpW : PathVal (ins y K S) W W i := by
    refine ⟨fun _ _ _ _ _ _ => rfl, fun j hj idx e => ?_⟩
    exact hW.node j (anc_isNode hj) (path_internal hwf hj) idx e
  have hex : ∀ s : Nat, ∃ G, PathVal (ins y K S) W G i ∧ G i = fun (_ : List Nat) (e : List Nat) => if e = [s] then (1 : ℝ) else 0 :=
    fun s => exists_path hwf hi _
  choose E hE hEi using hex
  have hEi' : ∀ s idx e, E s i idx e = if e = [s] then 1 else 0 := fun s idx e => by rw [hEi]
  obtain ⟨r0, hr0, hall⟩ := hy.valid.rooted
  have hrr := root_unique hy.valid hr hr0
  have hri : AncSelf (ins y K S).tree r i := by rw [hrr]; exact hall i hi
  have hrne : r ≠ i := fun h => hir (h ▸ hr)
  have hl : (ins y K S).lastDim i = y.lastDim i := hss.lastDim i
  have e1 := fun idx => path_lin hwf hai hpW hE hEi' hri idx e (fun h => absurd h hrne)
  have e2 := fun idx => path_lin hwf hai hp hE hEi' hri idx e (fun h => absurd h hrne)
  simp only [hl] at e1 e2
  have hind : ∀ q, ∀ d ∈ D i, ∀ p a, E q r (p.set d a) e = E q r p e := by
    intro q d hd p a
    exact env_indep hwf hW (D := D) hD hai (hE q) (fun p p' e => by rw [hEi', hEi']) hd hri p a e
  rw [e2 u]
  unfold nodeP expandP
  have e3 : ∀ l ∈ range k, newB y V i U l u * dSum y.shape (D i) (fun p => newB y V i U l p * W r p e) u =
      ∑ q ∈ range (y.lastDim i), ∑ s ∈ range (y.lastDim i), V i u [s] * U s l * (U q l * E q r u e) := by
    intro l _
    have e4 : (fun p => newB y V i U l p * W r p e) = fun p => ∑ q ∈ range (y.lastDim i), E q r p e * (newB y V i U l p * V i p [q]) := by
      funext p
      rw [e1 p, mul_sum]
      exact sum_congr rfl (fun q _ => by rw [hVi]; ring)
    rw [e4, dSum_sum, mul_sum]
    refine sum_congr rfl (fun q hq => ?_)
    rw [dSum_mul _ _ _ (fun d hd p a => hind q d hd p a), newB_sum hO hi hir ha U (mem_range.1 hq) l hu]
    unfold newB
    rw [sum_mul]
    exact sum_congr rfl (fun s _ => by ring)
  rw [sum_congr rfl e3, sum_comm]
  refine sum_congr rfl (fun q hq => ?_)
  rw [hpi u q, sum_mul, sum_comm]
  refine sum_congr rfl (fun s hs => ?_)
  rw [hVi, hK s q (mem_range.1 hs) (mem_range.1 hq), mul_sum, sum_mul]
  exact sum_congr rfl (fun l _ => by ring)

include hy hV hD hO in
/-- Insertion of matrices above the nodes of a list, where the nodes come after their descendants. -/
theorem ins_comp {K : Nat → Nat → Nat → ℝ} {k : Nat → Nat} {U : Nat → Nat → Nat → ℝ} (L : List Nat)
    (hL : ∀ i ∈ L, IsNode y.tree i ∧ ¬ IsRoot y.tree i ∧ y.active i = true ∧
      ∀ s s', s < y.lastDim i → s' < y.lastDim i → K i s s' = ∑ l ∈ range (k i), U i s l * U i s' l)
    (hp : L.Pairwise (fun i j => ¬ AncSelf y.tree i j)) {W : Nat → List Nat → List Nat → ℝ}
    (hW : IsValue (ins y K (fun j => j ∈ L)) W) {r : Nat} (hr : IsRoot y.tree r) (e : List Nat)
    (hPr : ∀ i ∈ L, IsProj y.shape (nodeP y V D (k i) (U i) i)) :
    ∀ u, InBox y.shape u → W r u e = comp (L.map (fun i => nodeP y V D (k i) (U i) i)) (fun p => V r p e) u := by
  induction L generalizing W with
  | nil =>
    intro u hu
    have hV0 : IsValue (ins y K (fun _ => False)) V := by rw [ins_empty y K (fun _ h => h)]; exact hV
    exact ins_value_eq hy hW hV0 r hr.1 (hy.node r hr.1 (hy.root_internal hr)).1 (fun m _ => by simp) u e
  | cons i L ih =>
    intro u hu
    rw [List.pairwise_cons] at hp
    obtain ⟨h1, h2, h3, h4⟩ := hL i (by simp)
    obtain ⟨W0, hW0⟩ := exists_value (ins y K (fun j => j ∈ L)) hy.valid
    have hset : (fun j => j ∈ i :: L) = (fun j => j ∈ L ∨ j = i) := by
      funext j; rw [List.mem_cons, or_comm]
    rw [hset] at hW
    rw [ins_proj hy hV hD hO h1 h2 h3 h4 (S := fun j => j ∈ L) (fun j hj hm => hp.1 j hm hj) hW0 hW hr e hu]
    show _ = nodeP y V D (k i) (U i) i (comp (L.map _) _) u
    exact (hPr i (by simp)).congr _ _ (ih (fun j hj => hL j (by simp [hj])) hp.2 hW0 (fun j hj => hPr j (by simp [hj]))) u hu

end
end Verif.TreeBased
