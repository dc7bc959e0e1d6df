import Verif.Spec.TreeTensor
import Verif.Lemmas.BottomUp
import Verif.Lemmas.Entries

/-!
# Lemmas on tree-based tensors: values, contraction of one axis
-/

namespace Verif.TreeBased

open Verif.Arr Verif.DimTree Finset

variable {R : Type}

/-! ### contraction of one axis -/

theorem dropAxes_mid (a b : List Nat) (v : Nat) : dropAxes [a.length] (a ++ v :: b) = a ++ b := by
  rw [dropAxes_eq]
  unfold FullTensor.setdiffRange applyPerm
  have h1 : (List.range (a ++ v :: b).length).filter (fun k => !([a.length] : List Nat).contains k) =
      List.range a.length ++ (List.range b.length).map (fun k => a.length + 1 + k) := by
    rw [List.length_append, List.length_cons, show a.length + (b.length + 1) = a.length + 1 + b.length by omega,
      List.range_add, List.range_succ, List.filter_append, List.filter_append]
    have q1 : (List.range a.length).filter (fun k => !([a.length] : List Nat).contains k) = List.range a.length := by
      rw [List.filter_eq_self]
      intro k hk; have := List.mem_range.1 hk; simp; omega
    have q2 : ((List.range b.length).map (fun k => a.length + 1 + k)).filter (fun k => !([a.length] : List Nat).contains k) =
        (List.range b.length).map (fun k => a.length + 1 + k) := by
      rw [List.filter_eq_self]
      intro k hk
      obtain ⟨j, _, rfl⟩ := List.mem_map.1 hk
      simp; omega
    rw [q1, q2]
    simp
  rw [h1, List.map_append, List.map_map]
  congr 1
  · apply List.ext_getElem (by simp)
    intro k h1 h2
    rw [List.getElem_map, List.getElem_range, List.getD_eq_getElem _ _ (by simp; omega), List.getElem_append_left h2]
  · apply List.ext_getElem (by simp)
    intro k h1 h2
    rw [List.getElem_map, List.getElem_range]
    show List.getD _ (a.length + 1 + k) 0 = _
    rw [List.getD_eq_getElem _ _ (by simp; omega), List.getElem_append_right (by omega)]
    simp only [show a.length + 1 + k - a.length = k + 1 by omega, List.getElem_cons_succ]

theorem mergeIdx_mid (a b : List Nat) (s n : Nat) (hn : n = a.length + 1 + b.length) :
    mergeIdx [a.length] [s] 0 n (a ++ b) = a ++ s :: b := by
  have := mergeIdx_self (ax := [a.length]) (idx := a ++ s :: b) (s := [s]) (by simp [applyPerm])
  rw [dropAxes_mid] at this
  rw [hn]
  convert this using 2
  simp; omega

theorem applyPerm_single (k : Nat) (l : List Nat) : applyPerm [k] l = [l.getD k 0] := rfl

/-- `B.tensordot(A, [i], [j])`: axis `i` of `B` against axis `j` of `A`. -/
theorem tensordot_one [CommSemiring R] (B A : Arr R) (sb tb sa ta : List Nat) (r : Nat) (hB : B.shape = sb ++ r :: tb)
    (hA : A.shape = sa ++ r :: ta) :
    ∃ t, FullTensor.tensordotT B A [sb.length] [sa.length] = .ok t ∧ t.shape = sb ++ tb ++ (sa ++ ta) ∧
      ∀ u u' v w, u.length = sb.length → u'.length = tb.length → v.length = sa.length → w.length = ta.length →
        t.get (u ++ u' ++ (v ++ w)) = ∑ s ∈ range r, B.get (u ++ s :: u') * A.get (v ++ s :: w) := by
  refine ⟨B.tensordot A [sb.length] [sa.length], ?_, ?_, ?_⟩
  · unfold FullTensor.tensordotT
    rw [if_pos]
    rw [applyPerm_single, applyPerm_single, hA, hB]
    simp
  · simp only [Arr.tensordot]
    rw [hA, hB, dropAxes_mid, dropAxes_mid]
  · intro u u' v w hu hu' hv hw
    simp only [Arr.tensordot]
    rw [applyPerm_single, hB, dropAxes_mid, sumBox_singleton]
    rw [show (sb ++ r :: tb).getD sb.length 0 = r by simp]
    apply sum_congr rfl
    intro s _
    rw [List.take_left' (by simp [hu, hu']), List.drop_left' (by simp [hu, hu'])]
    congr 2
    · rw [← hu]; apply mergeIdx_mid; simp [Arr.order, hB, hu, hu']; omega
    · rw [← hv]; apply mergeIdx_mid; simp [Arr.order, hA, hv, hw]; omega

/-- The last axis of `B` against an axis of `A`. -/
theorem tensordot_last [CommSemiring R] (B A : Arr R) (sb sa ta : List Nat) (r : Nat) (hB : B.shape = sb ++ [r])
    (hA : A.shape = sa ++ r :: ta) :
    ∃ t, FullTensor.tensordotT B A [B.order - 1] [sa.length] = .ok t ∧ t.shape = sb ++ (sa ++ ta) ∧
      ∀ u v w, u.length = sb.length → v.length = sa.length → w.length = ta.length →
        t.get (u ++ (v ++ w)) = ∑ s ∈ range r, B.get (u ++ [s]) * A.get (v ++ s :: w) := by
  obtain ⟨t, h1, h2, h3⟩ := tensordot_one B A sb [] sa ta r hB hA
  refine ⟨t, ?_, by simpa using h2, fun u v w hu hv hw => ?_⟩
  · rw [show B.order - 1 = sb.length by simp [Arr.order, hB]]; exact h1
  · have := h3 u [] v w hu rfl hv hw
    simpa using this

/-! ### `childSum` -/

section childSum

variable [CommSemiring R] (x : TBT R) (V : Nat → List Nat → List Nat → R) (idx : List Nat)

theorem childSum_congr (cs : List Nat) {k k' : List Nat → R} {V' : Nat → List Nat → List Nat → R}
    (hV : ∀ c ∈ cs, x.active c → ∀ s, s < x.lastDim c → V c idx [s] = V' c idx [s])
    (hk : ∀ t, InBox (cs.map (childSize x)) t → k t = k' t)
    (hidx : ∀ c ∈ cs, ¬ x.active c → idx.getD (dimOf x.tree c) 0 < childSize x c) :
    childSum x V idx cs k = childSum x V' idx cs k' := by
  induction cs generalizing k k' with
  | nil => exact hk [] (by simp)
  | cons c cs ih =>
    unfold childSum
    by_cases ha : x.active c = true
    · rw [if_pos ha, if_pos ha]
      apply sum_congr rfl
      intro s hs
      rw [hV c (by simp) ha s (mem_range.1 hs)]
      congr 1
      apply ih (fun c' hc' => hV c' (by simp [hc'])) _ (fun c' hc' => hidx c' (by simp [hc']))
      intro t ht
      apply hk
      rw [List.map_cons]
      refine List.Forall₂.cons ?_ ht
      unfold childSize; rw [if_pos ha]; exact mem_range.1 hs
    · rw [if_neg ha, if_neg ha]
      apply ih (fun c' hc' => hV c' (by simp [hc'])) _ (fun c' hc' => hidx c' (by simp [hc']))
      intro t ht
      apply hk
      rw [List.map_cons]
      exact List.Forall₂.cons (hidx c (by simp) ha) ht

/-- Congruence without range conditions. -/
theorem childSum_congr' (cs : List Nat) {k k' : List Nat → R} (hk : ∀ t, t.length = cs.length → k t = k' t) :
    childSum x V idx cs k = childSum x V idx cs k' := by
  induction cs generalizing k k' with
  | nil => exact hk [] rfl
  | cons c cs ih =>
    unfold childSum
    split
    · apply sum_congr rfl
      intro s _
      rw [ih (fun t ht => hk (s :: t) (by simp [ht]))]
    · exact ih (fun t ht => hk _ (by simp [ht]))

theorem childSum_sum (cs : List Nat) {ι : Type} (S : Finset ι) (k : ι → List Nat → R) :
    childSum x V idx cs (fun t => ∑ i ∈ S, k i t) = ∑ i ∈ S, childSum x V idx cs (k i) := by
  induction cs generalizing k with
  | nil => rfl
  | cons c cs ih =>
    unfold childSum
    split
    · simp only [ih]
      rw [sum_comm]
      apply sum_congr rfl
      intro s _
      rw [mul_sum]
    · exact ih _

theorem childSum_mul (cs : List Nat) (a : R) (k : List Nat → R) :
    childSum x V idx cs (fun t => a * k t) = a * childSum x V idx cs k := by
  induction cs generalizing k with
  | nil => rfl
  | cons c cs ih =>
    unfold childSum
    split
    · rw [mul_sum]
      apply sum_congr rfl
      intro s _
      rw [ih]; ring
    · exact ih _

theorem childSum_add (cs : List Nat) (k k' : List Nat → R) :
    childSum x V idx cs (fun t => k t + k' t) = childSum x V idx cs k + childSum x V idx cs k' := by
  induction cs generalizing k k' with
  | nil => rfl
  | cons c cs ih =>
    unfold childSum
    split
    · rw [← sum_add_distrib]
      apply sum_congr rfl
      intro s _
      rw [ih]; ring
    · exact ih _ _

theorem childSum_zero (cs : List Nat) : childSum x V idx cs (fun _ => 0) = 0 := by
  have := childSum_mul x V idx cs 0 (fun _ => 0)
  simpa using this

theorem childSum_append (cs cs' : List Nat) (k : List Nat → R) :
    childSum x V idx (cs ++ cs') k =
      childSum x V idx cs (fun t => childSum x V idx cs' (fun t' => k (t ++ t'))) := by
  induction cs generalizing k with
  | nil => rfl
  | cons c cs ih =>
    rw [List.cons_append]
    unfold childSum
    split
    · apply sum_congr rfl
      intro s _
      rw [ih]; rfl
    · rw [ih]; rfl

end childSum

/-! ### existence and uniqueness of the values -/

/-- The values computed with a bounded depth. -/
def fuelValue [CommSemiring R] (x : TBT R) : Nat → Nat → List Nat → List Nat → R
  | 0, _, _, _ => 0
  | f + 1, i, idx, e =>
    if x.tree.isLeaf i then (x.tensors i).get (idx.getD (dimOf x.tree i) 0 :: e)
    else childSum x (fuelValue x f) idx (x.tree.children i) (fun t => (x.tensors i).get (t ++ e))

theorem childSum_congrV [CommSemiring R] (x : TBT R) (V V' : Nat → List Nat → List Nat → R) (idx : List Nat) (cs : List Nat)
    (k : List Nat → R) (h : ∀ c ∈ cs, x.active c → ∀ s, V c idx [s] = V' c idx [s]) :
    childSum x V idx cs k = childSum x V' idx cs k := by
  induction cs generalizing k with
  | nil => rfl
  | cons c cs ih =>
    unfold childSum
    split
    · rename_i ha
      apply sum_congr rfl
      intro s _
      rw [h c (by simp) ha s, ih _ (fun c' hc' => h c' (by simp [hc']))]
    · exact ih _ (fun c' hc' => h c' (by simp [hc']))

theorem isLeaf_mem (T : DTree) (i : Nat) : T.isLeaf i = true ↔ i ∈ T.dim2ind := by
  unfold DTree.isLeaf; exact List.contains_iff_mem

/-- The values exist. -/
theorem exists_value [CommSemiring R] (x : TBT R) (hV : Valid x.tree) : ∃ V, IsValue x V := by
  -- with enough depth the bounded values do not depend on the depth
  have key : ∀ i, IsNode x.tree i → ∃ N, ∀ f, N ≤ f → ∀ idx e, fuelValue x f i idx e = fuelValue x N i idx e := by
    refine hV.induct ?_
    intro i hi ih
    by_cases hl : x.tree.isLeaf i = true
    · refine ⟨1, fun f hf idx e => ?_⟩
      obtain ⟨g, rfl⟩ : ∃ g, f = g + 1 := ⟨f - 1, by omega⟩
      simp [fuelValue, hl]
    · have hch : ∀ cs : List Nat, (∀ c ∈ cs, Edge x.tree i c) →
          ∃ N, ∀ f, N ≤ f → ∀ c ∈ cs, ∀ idx e, fuelValue x f c idx e = fuelValue x N c idx e := by
        intro cs
        induction cs with
        | nil => intro _; exact ⟨0, by simp⟩
        | cons c cs ihc =>
          intro h
          obtain ⟨N1, h1⟩ := ihc (fun c' hc' => h c' (by simp [hc']))
          obtain ⟨N2, h2⟩ := ih c (h c (by simp))
          refine ⟨max N1 N2, fun f hf c' hc' idx e => ?_⟩
          rcases List.mem_cons.1 hc' with rfl | hc'
          · rw [h2 f (by omega), h2 (max N1 N2) (by omega)]
          · rw [h1 f (by omega) c' hc', h1 (max N1 N2) (by omega) c' hc']
      obtain ⟨N, hN⟩ := hch (x.tree.children i) (fun c hc => (mem_children i c hi).1 hc)
      refine ⟨N + 1, fun f hf idx e => ?_⟩
      obtain ⟨g, rfl⟩ : ∃ g, f = g + 1 := ⟨f - 1, by omega⟩
      simp only [fuelValue]
      rw [if_neg hl, if_neg hl]
      apply childSum_congrV
      intro c hc _ s
      rw [hN g (by omega) c hc]
  have hch : ∀ n, n ≤ x.tree.n → ∃ N, ∀ f, N ≤ f → ∀ i, IsNode x.tree i → i ≤ n → ∀ idx e,
      fuelValue x f i idx e = fuelValue x N i idx e := by
    intro n
    induction n with
    | zero => intro _; exact ⟨0, fun f _ i hi h => by unfold IsNode at hi; omega⟩
    | succ n ihn =>
      intro hn
      obtain ⟨N1, h1⟩ := ihn (by omega)
      obtain ⟨N2, h2⟩ := key (n + 1) ⟨by omega, hn⟩
      refine ⟨max N1 N2, fun f hf i hi hin idx e => ?_⟩
      by_cases h : i = n + 1
      · subst h; rw [h2 f (by omega), h2 (max N1 N2) (by omega)]
      · rw [h1 f (by omega) i hi (by omega), h1 (max N1 N2) (by omega) i hi (by omega)]
  obtain ⟨N, hN⟩ := hch x.tree.n (le_refl _)
  refine ⟨fuelValue x N, ?_, ?_⟩
  · intro c hc _ idx e
    have hcn : IsNode x.tree c := ((hV.leaves c).1 hc).1
    rw [← hN (N + 1) (by omega) c hcn hcn.2]
    simp only [fuelValue]
    rw [if_pos ((isLeaf_mem _ _).2 hc)]
  · intro i hi hl idx e
    rw [← hN (N + 1) (by omega) i hi hi.2]
    simp only [fuelValue]
    rw [if_neg (fun h => hl ((isLeaf_mem _ _).1 h))]

/-- The values are determined by the equations. -/
theorem value_unique [CommSemiring R] (x : TBT R) (hV : Valid x.tree) {V V' : Nat → List Nat → List Nat → R}
    (h : IsValue x V) (h' : IsValue x V') : ∀ i, IsNode x.tree i → x.active i → ∀ idx e, V i idx e = V' i idx e := by
  refine hV.induct ?_
  intro i hi ih ha idx e
  by_cases hl : i ∈ x.tree.dim2ind
  · rw [h.leaf i hl ha, h'.leaf i hl ha]
  · rw [h.node i hi hl, h'.node i hi hl]
    apply childSum_congrV
    intro c hc hac s
    exact ih c ((mem_children i c hi).1 hc) hac idx [s]

end Verif.TreeBased
