import Verif.Props.TreeOrth

/-!
# Dependence of the values of a tree-based tensor on the values of one node

`G` is a family of values that satisfies the equations of the proper ancestors of the node `i`, and that equals the values
of the tensor at the nodes that are not on the path from the root to `i`: the values at `i` itself are arbitrary.
-/

namespace Verif.TreeBased

open Verif.Arr Verif.DimTree Finset

variable {R : Type}

/-- A sum over the children is linear in the values of each child. -/
theorem childSum_linF [CommSemiring R] (x : TBT R) {V' : Nat → List Nat → List Nat → R}
    {E : Nat → Nat → List Nat → List Nat → R} {idx : List Nat} (n : Nat) (m : Nat → R) (cs : List Nat) (hnd : cs.Nodup)
    (c' : Nat) (hc' : c' ∈ cs) (hca : x.active c') (k : List Nat → R)
    (h1 : ∀ s, s < x.lastDim c' → V' c' idx [s] = ∑ j ∈ range n, m j * E j c' idx [s])
    (h2 : ∀ c ∈ cs, c ≠ c' → x.active c → ∀ j < n, ∀ s, V' c idx [s] = E j c idx [s]) :
    childSum x V' idx cs k = ∑ j ∈ range n, m j * childSum x (E j) idx cs k := by
  induction cs generalizing k with
  | nil => simp at hc'
  | cons c cs ih =>
    rw [List.nodup_cons] at hnd
    by_cases hcc : c = c'
    · subst hcc
      have hrest : ∀ j < n, ∀ k, childSum x V' idx cs k = childSum x (E j) idx cs k := by
        intro j hj k
        exact childSum_congrV x V' (E j) idx cs k (fun c'' hc'' ha s =>
          h2 c'' (by simp [hc'']) (fun h => hnd.1 (h ▸ hc'')) ha j hj s)
      unfold childSum
      simp only [if_pos hca, mul_sum]
      rw [sum_comm]
      refine sum_congr rfl (fun s hs => ?_)
      rw [h1 s (mem_range.1 hs), sum_mul]
      refine sum_congr rfl (fun j hj => ?_)
      rw [hrest j (mem_range.1 hj)]; ring
    · have him : c' ∈ cs := by simpa [Ne.symm hcc] using hc'
      have ih' := fun k => ih hnd.2 him k (fun c'' hc'' => h2 c'' (by simp [hc'']))
      unfold childSum
      by_cases ha : x.active c = true
      · simp only [if_pos ha, mul_sum]
        rw [sum_comm]
        refine sum_congr rfl (fun s _ => ?_)
        rw [ih' (fun t => k (s :: t)), mul_sum]
        refine sum_congr rfl (fun j hj => ?_)
        rw [h2 c (by simp) hcc ha j (mem_range.1 hj)]; ring
      · simp only [if_neg ha]
        exact ih' _

structure PathVal [CommSemiring R] (x : TBT R) (V G : Nat → List Nat → List Nat → R) (i : Nat) : Prop where
  off : ∀ j, IsNode x.tree j → x.active j = true → ¬ AncSelf x.tree j i → ∀ idx e, G j idx e = V j idx e
  up : ∀ j, Anc x.tree j i → ∀ idx e, G j idx e = childSum x G idx (x.tree.children j) (fun t => (x.tensors j).get (t ++ e))

section path

variable [CommSemiring R] {x : TBT R} (hx : WF x) {V : Nat → List Nat → List Nat → R} {i : Nat}

theorem anc_isNode {T : DTree} {j i : Nat} (h : Anc T j i) : IsNode T j := by
  obtain ⟨c, h1, _⟩ := Relation.TransGen.head'_iff.1 h
  exact h1.1

include hx in
/-- A child of a node of the path that is not the next node of the path is not on the path. -/
theorem path_off {j c c' : Nat} (he : Edge x.tree j c) (hc : AncSelf x.tree c i) (he' : Edge x.tree j c') (hne : c' ≠ c) :
    ¬ AncSelf x.tree c' i := by
  intro h
  obtain ⟨l, hl⟩ := exists_level hx.valid he.1
  exact hne (disjoint_of_level hx.valid (.child hl he') (.child hl he) h hc)

include hx in
theorem path_internal {j : Nat} (h : Anc x.tree j i) : j ∉ x.tree.dim2ind := by
  obtain ⟨c, h1, _⟩ := Relation.TransGen.head'_iff.1 h
  exact edge_internal hx.valid h1

include hx in
theorem path_active (hai : x.active i = true) {j : Nat} (hj : AncSelf x.tree j i) : x.active j = true := by
  rcases Relation.reflTransGen_iff_eq_or_transGen.1 hj with rfl | h
  · exact hai
  · exact (hx.node j (anc_isNode h) (path_internal hx h)).1

include hx in
/-- Every family of values at `i` extends to its ancestors. -/
theorem exists_path (hi : IsNode x.tree i) (F : List Nat → List Nat → R) : ∃ G, PathVal x V G i ∧ G i = F := by
  have key : ∀ j, AncSelf x.tree j i → ∃ G : Nat → List Nat → List Nat → R,
      (∀ j', ¬ AncSelf x.tree j' i → G j' = V j') ∧ G i = F ∧
      ∀ j', AncSelf x.tree j j' → Anc x.tree j' i → ∀ idx e,
        G j' idx e = childSum x G idx (x.tree.children j') (fun t => (x.tensors j').get (t ++ e)) := by
    intro j hj
    induction hj using Relation.ReflTransGen.head_induction_on with
    | refl =>
      refine ⟨upd V i F, ?_, by simp [upd], ?_⟩
      · intro j' hj'
        have : j' ≠ i := fun h => hj' (h ▸ .refl)
        simp [upd, this]
      · intro j' h1 h2
        exact absurd (Relation.TransGen.trans_right h1 h2) (Anc.irrefl hx.valid i)
    | @head j c he hc ih =>
      obtain ⟨G, g1, g2, g3⟩ := ih
      have hji : Anc x.tree j i := Relation.TransGen.head' he hc
      have hne : j ≠ i := fun h => Anc.irrefl hx.valid i (h ▸ hji)
      refine ⟨upd G j (fun idx e => childSum x G idx (x.tree.children j) (fun t => (x.tensors j).get (t ++ e))), ?_, ?_, ?_⟩
      · intro j' hj'
        have : j' ≠ j := fun h => hj' (h ▸ hji.to_reflTransGen)
        simp only [upd, if_neg this]
        exact g1 j' hj'
      · simp only [upd, if_neg (Ne.symm hne)]
        exact g2
      · intro j' h1 h2 idx e
        have hch : ∀ c', Edge x.tree j' c' → c' ≠ j := by
          rintro c' he' rfl
          exact Anc.irrefl hx.valid c' (Relation.TransGen.tail' h1 he')
        have hsame : childSum x (upd G j (fun idx e => childSum x G idx (x.tree.children j) (fun t => (x.tensors j).get (t ++ e))))
            idx (x.tree.children j') (fun t => (x.tensors j').get (t ++ e)) =
            childSum x G idx (x.tree.children j') (fun t => (x.tensors j').get (t ++ e)) := by
          apply childSum_congrV
          intro c' hc' _ s
          simp only [upd, if_neg (hch c' ((mem_children j' c' (anc_isNode h2)).1 hc'))]
        rw [hsame]
        by_cases hjj : j' = j
        · subst hjj; simp [upd]
        · simp only [upd, if_neg hjj]
          refine g3 j' ?_ h2 idx e
          rcases Relation.ReflTransGen.cases_head h1 with rfl | ⟨c', h3, h4⟩
          · exact absurd rfl hjj
          · by_cases hcc : c' = c
            · rw [← hcc]; exact h4
            · exact absurd (h4.trans h2.to_reflTransGen) (path_off hx he hc h3 hcc)
  obtain ⟨r, hr, hall⟩ := hx.valid.rooted
  obtain ⟨G, g1, g2, g3⟩ := key r (hall i hi)
  exact ⟨G, ⟨fun j _ _ hj idx e => by rw [g1 j hj], fun j hj idx e => g3 j (hall j (anc_isNode hj)) hj idx e⟩, g2⟩

include hx in
/-- The values above `i` are linear in the values of `i`. -/
theorem path_lin (hai : x.active i = true) {G : Nat → List Nat → List Nat → R} (hG : PathVal x V G i)
    {E : Nat → Nat → List Nat → List Nat → R} (hE : ∀ s, PathVal x V (E s) i)
    (hEi : ∀ s idx e, E s i idx e = if e = [s] then 1 else 0) {j : Nat} (hj : AncSelf x.tree j i) :
    ∀ idx e, (j = i → ∃ q, q < x.lastDim i ∧ e = [q]) →
      G j idx e = ∑ s ∈ range (x.lastDim i), G i idx [s] * E s j idx e := by
  induction hj using Relation.ReflTransGen.head_induction_on with
  | refl =>
    intro idx e he
    obtain ⟨q, hq, rfl⟩ := he rfl
    rw [sum_eq_single_of_mem q (mem_range.2 hq)]
    · rw [hEi, if_pos rfl, mul_one]
    · intro s _ hne
      rw [hEi, if_neg (by simpa using Ne.symm hne), mul_zero]
  | @head j c he hc ih =>
    intro idx e _
    have hji : Anc x.tree j i := Relation.TransGen.head' he hc
    have hcr : ¬ IsRoot x.tree c := WF.child_not_root he
    rw [hG.up j hji]
    rw [childSum_linF x (E := E) (x.lastDim i) (fun s => G i idx [s]) (x.tree.children j) (nodup_children j) c
      ((mem_children j c he.1).2 he) (path_active hx hai hc)]
    · exact sum_congr rfl (fun s _ => by rw [(hE s).up j hji])
    · intro s hs
      exact ih idx [s] (fun h => ⟨s, by rw [← h]; exact hs, rfl⟩)
    · intro c' hc' hne ha s _ q
      have he' := (mem_children j c' he.1).1 hc'
      have hoff := path_off hx he hc he' hne
      rw [hG.off c' he'.2.1 ha hoff, (hE s).off c' he'.2.1 ha hoff]

variable (hV : IsValue x V) {D : Nat → List Nat} (hD : RecDims x.tree D (IsNode x.tree))

include hx hV hD in
theorem off_indep {G : Nat → List Nat → List Nat → R} (hG : PathVal x V G i) {c : Nat} (hc : IsNode x.tree c)
    (hoff : ¬ AncSelf x.tree c i) : ChildIndep x G D c := by
  intro d hd p a s
  have := childVal_indep x hx V hV D hD hc s hd p a
  unfold childVal at this ⊢
  split
  · rename_i ha
    rw [if_pos ha, if_pos ha] at this
    rw [hG.off c hc ha hoff, hG.off c hc ha hoff]
    exact this
  · rename_i ha
    rwa [if_neg ha, if_neg ha] at this

theorem dims_child {j c : Nat} (hD : RecDims x.tree D (IsNode x.tree)) (hV : Valid x.tree) (he : Edge x.tree j c) {d : Nat}
    (hd : d ∈ D c) : d ∈ D j := by
  obtain ⟨l, hl, hal⟩ := (recDims_mem hV hD c he.2.1 d).1 hd
  exact (recDims_mem hV hD j he.1 d).2 ⟨l, hl, Relation.ReflTransGen.head he hal⟩

/-- The subscript read by a sum over children does not change. -/
theorem childSum_indep {G : Nat → List Nat → List Nat → R} {p p' : List Nat} (cs : List Nat) (k : List Nat → R)
    (h : ∀ c ∈ cs, ∀ s, childVal x G c p' s = childVal x G c p s) :
    childSum x G p' cs k = childSum x G p cs k := by
  have inj : ∀ c ∈ cs, ¬ x.active c = true → (1 : R) ≠ 0 → p'.getD (dimOf x.tree c) 0 = p.getD (dimOf x.tree c) 0 := by
    intro c hc ha h10
    have := h c hc (p.getD (dimOf x.tree c) 0)
    unfold childVal at this
    rw [if_neg ha, if_neg ha, if_pos rfl] at this
    by_contra hne
    rw [if_neg hne] at this
    exact h10 this.symm
  by_cases h10 : (1 : R) = 0
  · have hz : ∀ a b : R, a = b := fun a b => by rw [← one_mul a, ← one_mul b, h10, zero_mul, zero_mul]
    exact hz _ _
  · apply childSum_congrI
    · intro c hc ha s
      have := h c hc s
      unfold childVal at this
      rwa [if_pos ha, if_pos ha] at this
    · intro c hc ha
      exact inj c hc ha h10

include hx hV hD in
/-- The values of a node of the path do not depend on the dimensions that are not below it. -/
theorem path_indep (hai : x.active i = true) {G : Nat → List Nat → List Nat → R} (hG : PathVal x V G i)
    (hGi : ChildIndep x G D i) : ∀ c, IsNode x.tree c → ChildIndep x G D c := by
  intro c hc
  by_cases h : AncSelf x.tree c i
  · induction h using Relation.ReflTransGen.head_induction_on with
    | refl => exact hGi
    | @head j c he hci ih =>
      intro d hd p a s
      have hji : Anc x.tree j i := Relation.TransGen.head' he hci
      have haj := path_active hx hai hji.to_reflTransGen
      unfold childVal
      rw [if_pos haj, if_pos haj, hG.up j hji, hG.up j hji]
      apply childSum_indep
      intro c' hc' q
      have he' := (mem_children j c' he.1).1 hc'
      have hd' : d ∉ D c' := fun h => hd (dims_child hD hx.valid he' h)
      by_cases hcc : c' = c
      · subst hcc; exact ih he'.2.1 d hd' p a q
      · exact off_indep hx hV hD hG he'.2.1 (path_off hx he hci he' hcc) d hd' p a q
  · exact off_indep hx hV hD hG hc h

include hx hV hD in
/-- The coefficients above `i` do not depend on the dimensions below `i`. -/
theorem env_indep (hai : x.active i = true) {E : Nat → List Nat → List Nat → R} (hE : PathVal x V E i)
    (hEi : ∀ p p' e, E i p e = E i p' e) {d : Nat} (hd : d ∈ D i) {j : Nat} (hj : AncSelf x.tree j i) :
    ∀ p a e, E j (p.set d a) e = E j p e := by
  induction hj using Relation.ReflTransGen.head_induction_on with
  | refl => intro p a e; exact hEi _ _ _
  | @head j c he hci ih =>
    intro p a e
    have hji : Anc x.tree j i := Relation.TransGen.head' he hci
    rw [hE.up j hji, hE.up j hji]
    apply childSum_indep
    intro c' hc' q
    have he' := (mem_children j c' he.1).1 hc'
    by_cases hcc : c' = c
    · subst hcc
      have hac := path_active hx hai hci
      unfold childVal
      rw [if_pos hac, if_pos hac, ih]
    · have hoff := path_off hx he hci he' hcc
      have hd' : d ∉ D c' := by
        intro h
        obtain ⟨l, hl, hal⟩ := (recDims_mem hx.valid hD c' he'.2.1 d).1 h
        have hin : IsNode x.tree i := AncSelf.isNode he.2.1 hci
        obtain ⟨l', hl', hal'⟩ := (recDims_mem hx.valid hD i hin d).1 hd
        rw [hl] at hl'; cases hl'
        obtain ⟨lv, hlv⟩ := exists_level hx.valid he.1
        exact hcc (disjoint_of_level hx.valid (.child hlv he') (.child hlv he) hal (hci.trans hal'))
      exact off_indep hx hV hD hE he'.2.1 hoff d hd' p a q

end path
end Verif.TreeBased
