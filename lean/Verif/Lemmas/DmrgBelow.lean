import Verif.Model.ParamGradientDmrg
import Verif.Props.ParamGradient

/-! The arrays of the nodes below, with an excepted child. -/

namespace Verif.TreeBased

open Verif.Arr Verif.DimTree Finset

variable {R : Type}

theorem foldlM_congr_mem {A S : Type} (f g : S → A → Py S) (l : List A) (h : ∀ a ∈ l, ∀ s, f s a = g s a) (s : S) :
    l.foldlM f s = l.foldlM g s := by
  induction l generalizing s with
  | nil => rfl
  | cons a l ih =>
    rw [List.foldlM_cons, List.foldlM_cons, h a (by simp)]
    congr 1
    funext s'
    exact ih (fun b hb => h b (by simp [hb])) s'

theorem belowNode_congr [CommSemiring R] (z : TBT R) (r : Nat) (e1 e2 : List Nat) (nod : Nat)
    (h : ∀ c ∈ z.tree.children nod, e1.contains c = e2.contains c) (ts : Nat → Arr R) :
    belowNode z r e1 ts nod = belowNode z r e2 ts nod := by
  have hf : (z.tree.children nod).filter (fun c => !e1.contains c) = (z.tree.children nod).filter (fun c => !e2.contains c) :=
    List.filter_congr (fun c hc => by rw [h c hc])
  unfold belowNode belowArr
  simp only [hf]

/-- When the parent of `α` is not the root, excepting `α` from the parent is the same as taking `α`. -/
theorem evalDiagBelowE_other [CommSemiring R] (z : TBT R) (hV : Valid z.tree) {r α γ : Nat} (hr : z.tree.root = .ok r)
    (hroot : IsRoot z.tree r) (he : Edge z.tree γ α) (hγ : γ ≠ r) : evalDiagBelowE z γ [α] = evalDiagBelow z α := by
  obtain ⟨lev, hlv, hlev⟩ := level_ok hV
  obtain ⟨a1, p1, -, -, -, q1⟩ := ascendants_spec hV α he.2.1
  obtain ⟨a2, p2, -, -, -, q2⟩ := ascendants_spec hV γ he.1
  have hα : α ≠ r := fun h => hroot.2 γ (h ▸ he)
  have hmem : ∀ c, ((γ :: a2) ++ [α]).contains c = (α :: a1).contains c := by
    intro c
    rw [Bool.eq_iff_iff, List.contains_iff_mem, List.contains_iff_mem, List.mem_append, List.mem_singleton, List.mem_cons, q2,
      List.mem_cons, q1]
    constructor
    · rintro ((rfl | h) | rfl)
      · exact .inr (.single he)
      · exact .inr (.tail h he)
      · exact .inl rfl
    · rintro (rfl | h)
      · exact .inr rfl
      · obtain ⟨b, h1, h2⟩ := Relation.TransGen.tail'_iff.1 h
        rw [(edge_parent hV h2).symm.trans (edge_parent hV he)] at h1
        rcases Relation.reflTransGen_iff_eq_or_transGen.1 h1 with h' | h'
        · exact .inl (.inl h'.symm)
        · exact .inl (.inr h')
  unfold evalDiagBelowE evalDiagBelow excludeListE excludeList
  simp only [hr, hlv, if_neg hγ, if_neg hα, p1, p2, bind, Except.bind]
  apply foldlM_congr_mem
  intro l _ s
  simp only [hmem]
  apply foldlM_congr_mem
  intro i _ s'
  exact belowNode_congr z r _ _ i (fun c _ => hmem c) s'

/-- When the parent of `α` is the root, the root is computed in addition, from its other children. -/
theorem evalDiagBelowE_root [CommSemiring R] (z : TBT R) (hV : Valid z.tree) {r α : Nat} (hr : z.tree.root = .ok r)
    (hroot : IsRoot z.tree r) (he : Edge z.tree r α) (hact : z.active r = true) {ts : Nat → Arr R} (hts : evalDiagBelow z α = .ok ts) :
    evalDiagBelowE z r [α] = belowNode z r [α] ts r := by
  obtain ⟨lev, hlv, hlev⟩ := level_ok hV
  obtain ⟨a1, p1, -, -, -, q1⟩ := ascendants_spec hV α he.2.1
  have hα : α ≠ r := fun h => hroot.2 r (h ▸ he)
  have hlr : lev r = 0 := hlev r 0 (.root hroot)
  have hla : lev α = 1 := hlev α 1 (.child (.root hroot) he)
  obtain ⟨L, hL⟩ : ∃ L, z.tree.maxLevel lev = L + 1 := by
    have := lev_le_maxLevel (T := z.tree) lev he.2.1
    exact ⟨z.tree.maxLevel lev - 1, by omega⟩
  have hanc : ∀ c, Anc z.tree c α ↔ c = r := by
    intro c
    constructor
    · intro h
      obtain ⟨b, h1, h2⟩ := Relation.TransGen.tail'_iff.1 h
      rw [(edge_parent hV h2).symm.trans (edge_parent hV he)] at h1
      rcases Relation.reflTransGen_iff_eq_or_transGen.1 h1 with h' | h'
      · exact h'.symm
      · obtain ⟨b', _, h3⟩ := Relation.TransGen.tail'_iff.1 h'
        exact absurd h3 (hroot.2 b')
    · rintro rfl; exact .single he
  have hne : ∀ c, c ≠ r → ([α] : List Nat).contains c = (α :: a1).contains c := by
    intro c hc
    rw [Bool.eq_iff_iff, List.contains_iff_mem, List.contains_iff_mem, List.mem_cons, List.mem_cons, q1, hanc]
    simp [hc]
  have hleaf : z.tree.isLeaf r = false := by
    by_contra hh
    exact edge_internal hV he ((isLeaf_mem _ _).1 (by simpa using hh))
  have hint0 : internalAt z.tree lev 0 = [r] := by
    refine List.perm_singleton.1 ?_
    rw [List.perm_ext_iff_of_nodup (nodup_internalAt _ _ _) (by simp)]
    intro i
    rw [mem_internalAt, List.mem_singleton]
    constructor
    · rintro ⟨h1, h2, -⟩
      obtain ⟨k, hk⟩ := exists_level hV h1
      have := hlev i k hk
      have hk0 : k = 0 := by omega
      subst hk0
      cases hk with
      | root h => exact root_unique hV h hroot
    · rintro rfl
      exact ⟨hroot.1, hlr, hleaf⟩
  unfold evalDiagBelow excludeList at hts
  simp only [hr, hlv, if_neg hα, p1, bind, Except.bind, hL] at hts
  rw [List.range_succ_eq_map, List.reverse_cons, List.foldlM_append] at hts
  unfold evalDiagBelowE excludeListE excludeList
  simp only [hr, hlv, if_pos, bind, Except.bind, hL, List.nil_append]
  rw [List.range_succ_eq_map, List.reverse_cons, List.foldlM_append]
  have hcongr : ∀ s, ((List.range L).map Nat.succ).reverse.foldlM (fun ts l =>
      ((internalAt z.tree lev l).filter (fun i => z.active i && !([α] : List Nat).contains i)).foldlM (belowNode z r [α]) ts) s =
      ((List.range L).map Nat.succ).reverse.foldlM (fun ts l =>
      ((internalAt z.tree lev l).filter (fun i => z.active i && !(α :: a1).contains i)).foldlM (belowNode z r (α :: a1)) ts) s := by
    intro s
    apply foldlM_congr_mem
    intro l hl s'
    have hl0 : l ≠ 0 := by
      rw [List.mem_reverse, List.mem_map] at hl
      obtain ⟨m, _, rfl⟩ := hl
      omega
    have hf : (internalAt z.tree lev l).filter (fun i => z.active i && !([α] : List Nat).contains i) =
        (internalAt z.tree lev l).filter (fun i => z.active i && !(α :: a1).contains i) := by
      apply List.filter_congr
      intro i hi
      rw [hne i (by rintro rfl; rw [mem_internalAt] at hi; omega)]
    rw [hf]
    apply foldlM_congr_mem
    intro i hi s''
    apply belowNode_congr
    intro c hc
    refine hne c ?_
    rintro rfl
    have hin := ((mem_internalAt _ _ _ _).1 (List.mem_filter.1 hi).1).1
    exact hroot.2 i ((mem_children i _ hin).1 hc)
  rw [hcongr]
  have h0a : (internalAt z.tree lev 0).filter (fun i => z.active i && !(α :: a1).contains i) = [] := by
    rw [hint0]
    have : (α :: a1).contains r = true := by
      rw [List.contains_iff_mem, List.mem_cons, q1, hanc]; exact .inr rfl
    rw [List.filter_cons, this]; simp
  have h0b : (internalAt z.tree lev 0).filter (fun i => z.active i && !([α] : List Nat).contains i) = [r] := by
    rw [hint0]
    have : ([α] : List Nat).contains r = false := by
      simpa using fun h => hα h.symm
    rw [List.filter_cons, this, hact]; rfl
  simp only [List.foldlM_cons, List.foldlM_nil, h0a, h0b, bind, Except.bind, pure, Except.pure] at hts ⊢
  split at hts
  · simp at hts
  · rename_i v hv
    cases hts
    cases belowNode z r [α] ts r <;> rfl

end Verif.TreeBased
