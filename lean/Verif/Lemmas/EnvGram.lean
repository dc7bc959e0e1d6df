import Verif.Lemmas.Path

/-!
# Gram matrices of the part of an orthogonal tree-based tensor above a node
-/

namespace Verif.TreeBased

open Verif.Arr Verif.DimTree Finset

variable {R : Type}

/-- The identity matrices. -/
def eyeM [CommSemiring R] : Nat → Nat → Nat → R := fun _ a b => if a = b then 1 else 0

/-- The bases of the nodes are orthonormal (at the subscripts `u`, which do not matter). -/
def OrthoVal [CommSemiring R] (x : TBT R) (V : Nat → List Nat → List Nat → R) (D : Nat → List Nat) (u : List Nat) : Prop :=
  ∀ i, IsNode x.tree i → ¬ IsRoot x.tree i → ∀ s s', s < childSize x i → s' < childSize x i →
    cgram x x V V D eyeM i s s' u u = if s = s' then 1 else 0

section split

variable [CommSemiring R] {x : TBT R} (hx : WF x) {V : Nat → List Nat → List Nat → R} (hV : IsValue x V)
  {D : Nat → List Nat} (hD : RecDims x.tree D (IsNode x.tree)) {i : Nat} (hai : x.active i = true)
  {G G' : Nat → List Nat → List Nat → R} (hG : PathVal x V G i) (hG' : PathVal x V G' i)
  (hGi : ChildIndep x G D i) (hGi' : ChildIndep x G' D i) {u : List Nat} (hu : InBox x.shape u) (hO : OrthoVal x V D u)

include hx hV hD hai hG hG' hGi hGi' hu hO in
/-- The Gram matrix of a node of the path from the one of the next node of the path. -/
theorem gram_split {j c : Nat} (he : Edge x.tree j c) (hc : AncSelf x.tree c i) {cs1 cs2 : List Nat}
    (hch : x.tree.children j = cs1 ++ c :: cs2) (e e' : List Nat) :
    gram x x G G' D eyeM j e e' u u = sumBox (cs1.map (childSize x)) (fun t1 => ∑ s ∈ range (x.lastDim c),
      sumBox (cs2.map (childSize x)) (fun t2 => ∑ s' ∈ range (x.lastDim c),
        (x.tensors j).get ((t1 ++ s :: t2) ++ e) * (x.tensors j).get ((t1 ++ s' :: t2) ++ e') *
          gram x x G G' D eyeM c [s] [s'] u u)) := by
  have hji : Anc x.tree j i := Relation.TransGen.head' he hc
  have hac := path_active hx hai hc
  have hmem : ∀ c' ∈ x.tree.children j, Edge x.tree j c' := fun c' hc' => (mem_children j c' he.1).1 hc'
  have hnd := nodup_children (T := x.tree) j
  rw [hch] at hnd
  have hne1 : ∀ c' ∈ cs1, c' ≠ c := by
    rintro c' hc' rfl
    rw [List.nodup_append] at hnd
    exact hnd.2.2 c' hc' c' (by simp) rfl
  have hne2 : ∀ c' ∈ cs2, c' ≠ c := by
    rintro c' hc' rfl
    rw [List.nodup_append] at hnd
    have := hnd.2.1
    rw [List.nodup_cons] at this
    exact this.1 hc'
  have hdel : ∀ c' ∈ x.tree.children j, c' ≠ c → ∀ a b, a < childSize x c' → b < childSize x c' →
      cgram x x G G' D eyeM c' a b u u = if a = b then 1 else 0 := by
    intro c' hc' hne a b ha hb
    have he' := hmem c' hc'
    have hoff := path_off hx he hc he' hne
    rw [← hO c' he'.2.1 (WF.child_not_root he') a b ha hb]
    unfold cgram
    congr 1
    funext p q
    unfold childVal
    split
    · rename_i ha'
      rw [hG.off c' he'.2.1 ha' hoff, hG'.off c' he'.2.1 ha' hoff]
    · rfl
  rw [gram_node' x x hx hx rfl G G' D hD eyeM he.1 (path_internal hx hji) e e' u u hu hu (fun p => hG.up j hji p e)
    (fun p => hG'.up j hji p e') (fun c' hc' => ⟨path_indep hx hV hD hai hG hGi c' (hmem c' hc').2.1,
      path_indep hx hV hD hai hG' hGi' c' (hmem c' hc').2.1⟩)]
  have hcs : childSize x c = x.lastDim c := by unfold childSize; rw [if_pos hac]
  rw [hch, List.map_append, List.map_cons, sumBox_append]
  apply sumBox_congr
  intro t1 ht1
  simp only [sumBox, hcs]
  refine sum_congr rfl (fun s _ => ?_)
  apply sumBox_congr
  intro t2 ht2
  rw [sumBox_append]
  simp only [sumBox]
  have hprod : ∀ t1' s' t2', InBox (cs1.map (childSize x)) t1' → InBox (cs2.map (childSize x)) t2' →
      (List.zipWith (fun c (s : Nat × Nat) => cgram x x G G' D eyeM c s.1 s.2 u u) (cs1 ++ c :: cs2)
        ((t1 ++ s :: t2).zip (t1' ++ s' :: t2'))).prod =
      (if t1 = t1' then 1 else 0) * (gram x x G G' D eyeM c [s] [s'] u u * (if t2 = t2' then 1 else 0)) := by
    intro t1' s' t2' ht1' ht2'
    have l1 : t1.length = t1'.length := by rw [ht1.length_eq, ht1'.length_eq]
    rw [List.zip_append l1, List.zipWith_append (by simp [ht1'.length_eq, ht1.length_eq]), List.prod_append,
      List.zip_cons_cons, List.zipWith_cons_cons, List.prod_cons, cgram_active x x G G' D eyeM hac hac]
    rw [delta_prod (size := childSize x) (G := fun c a b => cgram x x G G' D eyeM c a b u u) cs1 t1 t1'
      (fun c' hc' a b ha hb => hdel c' (by rw [hch]; simp [hc']) (hne1 c' hc') a b ha hb) ht1 ht1',
      delta_prod (size := childSize x) (G := fun c a b => cgram x x G G' D eyeM c a b u u) cs2 t2 t2'
      (fun c' hc' a b ha hb => hdel c' (by rw [hch]; simp [hc']) (hne2 c' hc') a b ha hb) ht2 ht2']
  have h1 : sumBox (cs1.map (childSize x)) (fun t1' => ∑ s' ∈ range (x.lastDim c), sumBox (cs2.map (childSize x)) (fun t2' =>
      (x.tensors j).get ((t1 ++ s :: t2) ++ e) * (x.tensors j).get ((t1' ++ s' :: t2') ++ e') *
        (List.zipWith (fun c (s : Nat × Nat) => cgram x x G G' D eyeM c s.1 s.2 u u) (cs1 ++ c :: cs2)
          ((t1 ++ s :: t2).zip (t1' ++ s' :: t2'))).prod)) =
      sumBox (cs1.map (childSize x)) (fun t1' => (∑ s' ∈ range (x.lastDim c),
        (x.tensors j).get ((t1 ++ s :: t2) ++ e) * (x.tensors j).get ((t1' ++ s' :: t2) ++ e') *
          gram x x G G' D eyeM c [s] [s'] u u) * (if t1 = t1' then 1 else 0)) := by
    apply sumBox_congr
    intro t1' ht1'
    rw [sum_mul]
    refine sum_congr rfl (fun s' _ => ?_)
    have h2 := sumBox_pick ht2 (fun t2' => (x.tensors j).get ((t1 ++ s :: t2) ++ e) * (x.tensors j).get ((t1' ++ s' :: t2') ++ e') *
      gram x x G G' D eyeM c [s] [s'] u u * (if t1 = t1' then 1 else 0))
    rw [← h2]
    apply sumBox_congr
    intro t2' ht2'
    rw [hprod t1' s' t2' ht1' ht2']
    ring
  exact h1.trans (sumBox_pick ht1 (fun t1' => ∑ s' ∈ range (x.lastDim c),
        (x.tensors j).get ((t1 ++ s :: t2) ++ e) * (x.tensors j).get ((t1' ++ s' :: t2) ++ e') *
          gram x x G G' D eyeM c [s] [s'] u u))

/-- The matrix above the rank axis of a node: the identity for the root. -/
def aboveM [CommSemiring R] (g : Nat → Nat → Nat → R) (root j : Nat) (e e' : List Nat) : R :=
  if j = root then (if e = e' then 1 else 0) else g j (e.headD 0) (e'.headD 0)

/-- `g` satisfies the recurrence of the Gram matrices from the root to the leaves, for the nodes that satisfy `Q`. -/
def EnvRec [CommSemiring R] (x : TBT R) (root : Nat) (Q : Nat → Prop) (g : Nat → Nat → Nat → R) : Prop :=
  ∀ j c cs1 cs2, Edge x.tree j c → x.active c = true → Q c → x.tree.children j = cs1 ++ c :: cs2 →
    ∀ s s', s < x.lastDim c → s' < x.lastDim c →
    g c s s' = sumBox (cs1.map (childSize x)) (fun t1 => sumBox (cs2.map (childSize x)) (fun t2 =>
      sumBox (rankShape x j) (fun e => sumBox (rankShape x j) (fun e' =>
        (x.tensors j).get ((t1 ++ s :: t2) ++ e) * aboveM g root j e e' * (x.tensors j).get ((t1 ++ s' :: t2) ++ e')))))

include hx hV hD hai hG hG' hGi hGi' hu hO in
/-- The scalar product of two families of values at the root, from the values at a node of the path. -/
theorem env_master {r : Nat} (hr : IsRoot x.tree r) {Q : Nat → Prop} {g : Nat → Nat → Nat → R} (hg : EnvRec x r Q g)
    (hq : ∀ c, AncSelf x.tree c i → Q c) {c : Nat}
    (hin : IsNode x.tree c) (hc : AncSelf x.tree c i) (hcr : ¬ IsRoot x.tree c) :
    sumBox (rankShape x r) (fun e => gram x x G G' D eyeM r e e u u) =
      ∑ s ∈ range (x.lastDim c), ∑ s' ∈ range (x.lastDim c), g c s s' * gram x x G G' D eyeM c [s] [s'] u u := by
  obtain ⟨r', hr', hall⟩ := hx.valid.rooted
  have hrr := root_unique hx.valid hr hr'
  subst hrr
  have key : ∀ c, AncSelf x.tree r c → AncSelf x.tree c i →
      sumBox (rankShape x r) (fun e => gram x x G G' D eyeM r e e u u) =
      sumBox (rs x c) (fun e => sumBox (rs x c) (fun e' => aboveM g r c e e' * gram x x G G' D eyeM c e e' u u)) := by
    intro c hrc
    induction hrc with
    | refl =>
      intro _
      have hrl := hx.root_internal hr
      rw [rs_node hrl]
      apply sumBox_congr
      intro e he
      rw [← sumBox_pick he (fun e' => gram x x G G' D eyeM r e e' u u)]
      apply sumBox_congr
      intro e' _
      unfold aboveM
      rw [if_pos rfl, mul_comm]
    | @tail j c hrj he ih =>
      intro hci
      have hac := path_active hx hai hci
      have hjl := edge_internal hx.valid he
      have hcr : ¬ IsRoot x.tree c := WF.child_not_root he
      have hcne : c ≠ r := fun h => hcr (h ▸ hr)
      rw [ih (Relation.ReflTransGen.head he hci), rs_node hjl, hx.rs_eq he.2.1 hcr]
      obtain ⟨cs1, cs2, hch⟩ := List.append_of_mem ((mem_children j c he.1).2 he)
      simp only [sumBox_singleton]
      have e1 : ∀ s ∈ range (x.lastDim c), ∀ s' ∈ range (x.lastDim c),
          aboveM g r c [s] [s'] * gram x x G G' D eyeM c [s] [s'] u u =
          sumBox (cs1.map (childSize x)) (fun t1 => sumBox (cs2.map (childSize x)) (fun t2 =>
            sumBox (rankShape x j) (fun e => sumBox (rankShape x j) (fun e' =>
            (x.tensors j).get ((t1 ++ s :: t2) ++ e) * aboveM g r j e e' * (x.tensors j).get ((t1 ++ s' :: t2) ++ e') *
              gram x x G G' D eyeM c [s] [s'] u u)))) := by
        intro s hs s' hs'
        have : aboveM g r c [s] [s'] = g c s s' := by unfold aboveM; rw [if_neg hcne]; rfl
        rw [this, hg j c cs1 cs2 he hac (hq c hci) hch s s' (mem_range.1 hs) (mem_range.1 hs')]
        simp only [sumBox_eq_sum, sum_mul]
      rw [sum_congr rfl (fun s hs => sum_congr rfl (e1 s hs))]
      simp only [gram_split hx hV hD hai hG hG' hGi hGi' hu hO he hci hch]
      simp only [sumBox_eq_sum, mul_sum]
      -- reorder the sums
      have swap : ∀ {α β γ δ ε ζ : Type} (A : Finset α) (B : Finset β) (C : Finset γ) (D : Finset δ) (E : Finset ε) (Z : Finset ζ)
          (f : α → β → γ → δ → ε → ζ → R),
          (∑ e ∈ A, ∑ e' ∈ B, ∑ t1 ∈ C, ∑ s ∈ D, ∑ t2 ∈ E, ∑ s' ∈ Z, f e e' t1 s t2 s') =
          ∑ s ∈ D, ∑ s' ∈ Z, ∑ t1 ∈ C, ∑ t2 ∈ E, ∑ e ∈ A, ∑ e' ∈ B, f e e' t1 s t2 s' := by
        intro α β γ δ ε ζ A B C D E Z f
        have h1 : ∀ e, (∑ e' ∈ B, ∑ t1 ∈ C, ∑ s ∈ D, ∑ t2 ∈ E, ∑ s' ∈ Z, f e e' t1 s t2 s') =
            ∑ s ∈ D, ∑ s' ∈ Z, ∑ t1 ∈ C, ∑ t2 ∈ E, ∑ e' ∈ B, f e e' t1 s t2 s' := by
          intro e
          have h2 : ∀ e', (∑ t1 ∈ C, ∑ s ∈ D, ∑ t2 ∈ E, ∑ s' ∈ Z, f e e' t1 s t2 s') =
              ∑ s ∈ D, ∑ s' ∈ Z, ∑ t1 ∈ C, ∑ t2 ∈ E, f e e' t1 s t2 s' := by
            intro e'
            rw [sum_comm]
            refine sum_congr rfl (fun s _ => ?_)
            symm
            rw [sum_comm]
            refine sum_congr rfl (fun t1 _ => ?_)
            rw [sum_comm]
          rw [sum_congr rfl (fun e' _ => h2 e'), sum_comm]
          refine sum_congr rfl (fun s _ => ?_)
          rw [sum_comm]
          refine sum_congr rfl (fun s' _ => ?_)
          rw [sum_comm]
          refine sum_congr rfl (fun t1 _ => ?_)
          rw [sum_comm]
        rw [sum_congr rfl (fun e _ => h1 e), sum_comm]
        refine sum_congr rfl (fun s _ => ?_)
        rw [sum_comm]
        refine sum_congr rfl (fun s' _ => ?_)
        rw [sum_comm]
        refine sum_congr rfl (fun t1 _ => ?_)
        rw [sum_comm]
      rw [swap]
      refine sum_congr rfl (fun s _ => sum_congr rfl (fun s' _ => sum_congr rfl (fun t1 _ => sum_congr rfl (fun t2 _ =>
        sum_congr rfl (fun e _ => sum_congr rfl (fun e' _ => by ring))))))
  rw [key c (hall c hin) hc, hx.rs_eq hin hcr]
  simp only [sumBox_singleton]
  have hcne : c ≠ r := fun h => hcr (h ▸ hr)
  refine sum_congr rfl (fun s _ => sum_congr rfl (fun s' _ => ?_))
  unfold aboveM; rw [if_neg hcne]; rfl

end split
end Verif.TreeBased
