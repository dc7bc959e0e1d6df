import Verif.Lemmas.DimensionTree
import Mathlib.Data.List.Chain

/-!
# Property theorems about dimension trees: C17–C21
-/

namespace Verif.DimTree
open DTree

variable {T : DTree}

/-- C17. On every valid tree the constructor succeeds, and the attributes it computes describe the tree:
`root` is the node without parent, `parent`/`children` are the two directions of the edges, `child_number`
is the (1-based) position among the children of the parent, `sibling` are the children of the parent,
`level` is the distance to the root, `internal_nodes` are the nodes with children,
`nodes_parent_of_leaves` the parents of the nodes without children (0 standing for "no parent"). -/
theorem attributes_spec (hV : Valid T) :
    ∃ r lev, T.root = .ok r ∧ T.level = .ok lev ∧
      (∀ i, IsNode T i → (i = r ↔ ∀ p, ¬ Edge T p i)) ∧
      (∀ i, IsNode T i → (T.parent i = 0 ↔ i = r)) ∧
      (∀ i j, IsNode T j → i ≠ 0 → (T.parent j = i ↔ Edge T i j)) ∧
      (∀ i j, IsNode T i → (j ∈ T.children i ↔ Edge T i j)) ∧
      (∀ i, (T.children i).Pairwise (· < ·)) ∧
      (∀ i j, Edge T i j → 1 ≤ T.childNumber j ∧ (T.children i)[T.childNumber j - 1]? = some j) ∧
      (T.childNumber r = 0) ∧
      (∀ i j, Edge T i j → T.sibling j = T.children i) ∧ T.sibling r = [] ∧
      lev r = 0 ∧ (∀ i j, Edge T i j → lev j = lev i + 1) ∧
      (∀ i, i ∈ T.internalNodes ↔ ∃ j, Edge T i j) ∧
      (∀ i, IsNode T i → (T.isLeaf i = true ↔ ∀ j, ¬ Edge T i j)) ∧
      (∀ p, p ≠ 0 → (p ∈ T.nodesParentOfLeaves ↔ ∃ x ∈ T.dim2ind, Edge T p x)) := by
  obtain ⟨r, hr, hroot⟩ := root_ok hV
  obtain ⟨lev, hl, hlev⟩ := level_ok hV
  have hpr : ∀ i, IsNode T i → (T.parent i = 0 ↔ i = r) := by
    intro i hi
    rw [parent_eq_zero hi]
    constructor
    · intro h; exact root_unique hV h hroot
    · rintro rfl; exact hroot
  refine ⟨r, lev, hr, hl, ?_, hpr, fun i j hj hi => parent_eq_iff hV hj hi,
    fun i j hi => mem_children i j hi, fun i => children_sorted i, ?_, ?_, ?_, ?_, hlev _ _ (.root hroot),
    ?_, ?_, fun i hi => isLeaf_iff hV hi, ?_⟩
  · intro i hi
    constructor
    · rintro rfl; exact hroot.2
    · intro h; exact root_unique hV ⟨hi, h⟩ hroot
  · intro i j he
    have hp := parent_eq_of_edge hV.unique_parent he
    have hi0 : i ≠ 0 := by have := he.1; unfold IsNode at this; omega
    have hm := (mem_children i j he.1).2 he
    unfold childNumber
    rw [hp, if_neg hi0, if_pos hm]
    refine ⟨by omega, ?_⟩
    rw [Nat.add_sub_cancel]
    exact List.getElem?_idxOf hm
  · unfold childNumber
    rw [if_pos ((hpr r hroot.1).2 rfl)]
  · intro i j he
    have hp := parent_eq_of_edge hV.unique_parent he
    have hi0 : i ≠ 0 := by have := he.1; unfold IsNode at this; omega
    unfold sibling
    rw [hp, if_neg hi0]
  · unfold sibling
    rw [if_pos ((hpr r hroot.1).2 rfl)]
  · intro i j he
    obtain ⟨k, hk⟩ := exists_level hV he.1
    rw [hlev _ _ hk, hlev _ _ (.child hk he)]
  · intro i
    unfold internalNodes
    rw [List.mem_filter, mem_nodes]
    simp only [Bool.not_eq_true', List.contains_eq_mem, decide_eq_false_iff_not]
    rw [hV.leaves]
    constructor
    · rintro ⟨h1, h2⟩
      by_contra h3
      push Not at h3
      exact h2 ⟨h1, h3⟩
    · rintro ⟨j, hj⟩
      exact ⟨hj.1, fun h => h.2 j hj⟩
  · intro p hp
    unfold nodesParentOfLeaves
    rw [List.mem_filter, List.mem_range]
    simp only [List.contains_eq_mem, decide_eq_true_eq, List.mem_map]
    constructor
    · rintro ⟨_, x, hx, hxp⟩
      exact ⟨x, hx, (parent_eq_iff hV ((hV.leaves x).1 hx).1 hp).1 hxp⟩
    · rintro ⟨x, hx, he⟩
      exact ⟨by have := he.1; unfold IsNode at this; omega, x, hx,
        parent_eq_of_edge hV.unique_parent he⟩

/-- C18. On every valid tree the dimensions of the leaf of dimension `k` are `[k]`, those of an internal
node are the concatenation of those of its children, without repetition, so the children partition them;
dimension `k` belongs to a node iff the leaf of `k` is below it; the root has all the dimensions once. -/
theorem dims_spec (hV : Valid T) :
    ∃ D, T.dims = .ok D ∧
      (∀ (k x : Nat), T.dim2ind[k]? = some x → D x = [k]) ∧
      (∀ i, (∃ j, Edge T i j) → D i = (T.children i).flatMap D) ∧
      (∀ i, IsNode T i → (D i).Nodup) ∧
      (∀ i, IsNode T i → D i ≠ []) ∧
      (∀ i a b, Edge T i a → Edge T i b → a ≠ b → (D a).Disjoint (D b)) ∧
      (∀ i, IsNode T i → ∀ k : Nat, k ∈ D i ↔ ∃ x, T.dim2ind[k]? = some x ∧ AncSelf T i x) ∧
      (∀ r, T.root = .ok r → (D r).Perm (List.range T.dim2ind.length)) := by
  obtain ⟨D, h, hD⟩ := dims_ok hV
  have hmem := recDims_mem hV hD
  have hnd := recDims_nodup hV hD
  refine ⟨D, h, ?_, ?_, hnd, ?_, ?_, hmem, ?_⟩
  · intro k x hx
    have : T.isLeaf x = true := by
      unfold isLeaf; rw [List.contains_iff_mem]; exact List.mem_of_getElem? hx
    rw [hD.1 x this, initDims_spec hV k x hx]
  · rintro i ⟨j, hj⟩
    apply hD.2 i hj.1
    rcases hl : T.isLeaf i with _ | _
    · rfl
    · exact absurd hj ((isLeaf_iff hV hj.1).1 hl j)
  · intro i hi hnil
    obtain ⟨x, hx, hax⟩ := exists_leaf_below hV i hi
    obtain ⟨m, hm', hm⟩ := List.mem_iff_getElem.1 hx
    have := (hmem i hi m).2 ⟨x, by rw [List.getElem?_eq_getElem hm', hm], hax⟩
    rw [hnil] at this
    simp at this
  · intro i a b ha hb hab
    obtain ⟨k, hk⟩ := exists_level hV ha.1
    exact recDims_disjoint hV hD (.child hk ha) (.child hk hb) hab
  · intro r hr
    obtain ⟨r', hr', hroot⟩ := root_ok hV
    rw [hr] at hr'
    cases hr'
    rw [List.perm_ext_iff_of_nodup (hnd r hroot.1) List.nodup_range]
    intro k
    rw [hmem r hroot.1, List.mem_range]
    constructor
    · rintro ⟨x, hx, _⟩
      exact (List.getElem?_eq_some_iff.1 hx).1
    · intro hk
      refine ⟨T.dim2ind[k], List.getElem?_eq_getElem hk, ?_⟩
      obtain ⟨s, hs, hall⟩ := hV.rooted
      rw [root_unique hV hroot hs]
      exact hall _ ((hV.leaves _).1 (List.getElem_mem hk)).1

theorem ascendantsLoop_spec (hV : Valid T) {p k : Nat} (h : HasLevel T p k) (fuel : Nat) (hf : k + 1 < fuel) :
    ∃ l, T.ascendantsLoop fuel p = .ok l ∧ l.head? = some p ∧ l.length = k + 1 ∧
      l.IsChain (fun a b => Edge T b a) ∧ ∀ x, x ∈ l ↔ AncSelf T x p := by
  induction h generalizing fuel with
  | root hr =>
    rename_i r
    obtain ⟨fuel, rfl⟩ : ∃ f, fuel = f + 2 := ⟨fuel - 2, by omega⟩
    have h0 : r ≠ 0 := by have := hr.1; unfold IsNode at this; omega
    refine ⟨[r], ?_, rfl, rfl, by simp, ?_⟩
    · rw [ascendantsLoop, if_neg h0, (parent_eq_zero hr.1).2 hr, ascendantsLoop, if_pos rfl]; rfl
    · intro x
      rw [List.mem_singleton]
      constructor
      · rintro rfl; exact .refl
      · intro h
        rcases Relation.ReflTransGen.cases_tail h with h1 | ⟨c, _, h2⟩
        · exact h1.symm
        · exact absurd h2 (hr.2 c)
  | child h1 he ih =>
    rename_i i j k
    obtain ⟨fuel, rfl⟩ : ∃ f, fuel = f + 1 := ⟨fuel - 1, by omega⟩
    have h0 : j ≠ 0 := by have := he.2.1; unfold IsNode at this; omega
    obtain ⟨l, hl1, hl2, hl3, hl4, hl5⟩ := ih fuel (by omega)
    refine ⟨j :: l, ?_, rfl, by simp [hl3], ?_, ?_⟩
    · rw [ascendantsLoop, if_neg h0, parent_eq_of_edge hV.unique_parent he, hl1]; rfl
    · cases l with
      | nil => simp
      | cons a l =>
        simp at hl2
        subst hl2
        exact .cons_cons he hl4
    · intro x
      rw [List.mem_cons, hl5]
      constructor
      · rintro (rfl | h)
        · exact .refl
        · exact h.tail he
      · intro h
        rcases Relation.ReflTransGen.cases_tail h with h2 | ⟨c, hc, h2⟩
        · exact .inl h2.symm
        · rw [hV.unique_parent _ _ _ he h2]; exact .inr hc

/-- C19. `ascendants(i)` terminates and lists exactly the proper ancestors of `i`, starting at its parent
and ending at the root, each the parent of the previous one. -/
theorem ascendants_spec (hV : Valid T) (i : Nat) (hi : IsNode T i) :
    ∃ l, T.ascendants i = .ok l ∧ (i :: l).IsChain (fun a b => Edge T b a) ∧ (i :: l).Nodup ∧
      (∀ r, T.root = .ok r → (i :: l).getLast? = some r) ∧ ∀ x, x ∈ l ↔ Anc T x i := by
  obtain ⟨k, hk⟩ := exists_level hV hi
  have hlt := hk.lt hV.unique_parent
  obtain ⟨l, hl1, hl2, hl3, hl4, hl5⟩ := ascendantsLoop_spec hV hk (T.n + 2) (by omega)
  cases l with
  | nil => simp at hl3
  | cons a l =>
    simp at hl2
    subst hl2
    have h0 : a ≠ 0 := by unfold IsNode at hi; omega
    have hnd : (a :: l).Nodup := by
      have : ∀ (l : List Nat) (k : Nat), (∀ x, l.head? = some x → HasLevel T x k) →
          l.IsChain (fun a b => Edge T b a) → l.Nodup ∧ ∀ y ∈ l, ∃ m, m ≤ k ∧ HasLevel T y m := by
        intro l
        induction l with
        | nil => intro k _ _; simp
        | cons b l ih =>
          intro k hb hc
          have hbk := hb b rfl
          cases l with
          | nil => exact ⟨by simp, fun y hy => ⟨k, le_rfl, by rw [List.mem_singleton.1 hy]; exact hbk⟩⟩
          | cons c l =>
            rw [List.isChain_cons_cons] at hc
            cases hbk with
            | root hr => exact absurd hc.1 (hr.2 _)
            | child h1 he =>
              rename_i i' k'
              have : i' = c := hV.unique_parent _ _ _ he hc.1
              subst this
              obtain ⟨h2, h3⟩ := ih k' (fun x hx => by simp at hx; exact hx ▸ h1) hc.2
              refine ⟨List.nodup_cons.2 ⟨?_, h2⟩, ?_⟩
              · intro hbm
                obtain ⟨m, hm, hlm⟩ := h3 b hbm
                have := hlm.unique hV.unique_parent (.child h1 he)
                omega
              · intro y hy
                rcases List.mem_cons.1 hy with rfl | hy
                · exact ⟨_, le_rfl, .child h1 he⟩
                · obtain ⟨m, hm, hlm⟩ := h3 y hy
                  exact ⟨m, by omega, hlm⟩
      exact (this _ k (fun x hx => by simp at hx; exact hx ▸ hk) hl4).1
    refine ⟨l, ?_, hl4, hnd, ?_, ?_⟩
    · unfold ascendants
      rw [ascendantsLoop, if_neg h0] at hl1
      cases hr : T.ascendantsLoop (T.n + 1) (T.parent a) with
      | error e => rw [hr] at hl1; cases hl1
      | ok l' => rw [hr] at hl1; cases hl1; rfl
    · intro r hr
      obtain ⟨r', hr', hroot⟩ := root_ok hV
      rw [hr] at hr'; cases hr'
      obtain ⟨s, hs, hall⟩ := hV.rooted
      have hrs := root_unique hV hroot hs
      subst hrs
      have hmr := (hl5 r).2 (hall a hi)
      obtain ⟨pre, suf, hps⟩ := List.append_of_mem hmr
      cases suf with
      | nil => rw [hps]; simp
      | cons b suf =>
        exfalso
        rw [hps] at hl4
        have := (List.isChain_append.1 hl4).2.1
        rw [List.isChain_cons_cons] at this
        exact hs.2 b this.1
    · intro x
      have hx := hl5 x
      rw [List.mem_cons] at hx
      constructor
      · intro hxl
        rcases Relation.reflTransGen_iff_eq_or_transGen.1 (hx.1 (.inr hxl)) with h | h
        · subst h; exact absurd hxl (List.nodup_cons.1 hnd).1
        · exact h
      · intro h
        rcases hx.2 h.to_reflTransGen with rfl | h'
        · exfalso
          obtain ⟨c, hc1, hc2⟩ := Relation.TransGen.tail'_iff.1 h
          obtain ⟨m, hm⟩ := exists_level hV hc2.1
          have h1 := AncSelf.level_le hV hc1 hk hm
          have h2 := (HasLevel.child hm hc2).unique hV.unique_parent hk
          omega
        · exact h'

theorem Anc.irrefl (hV : Valid T) (x : Nat) : ¬ Anc T x x := by
  intro h
  obtain ⟨c, hc1, hc2⟩ := Relation.TransGen.tail'_iff.1 h
  obtain ⟨m, hm⟩ := exists_level hV hc2.1
  have h1 := AncSelf.level_le hV hc1 (.child hm hc2) hm
  omega

theorem descendantsAux_spec (hV : Valid T) : ∀ i, IsNode T i → ∀ k, HasLevel T i k → ∀ fuel, T.n < fuel + k →
    ∃ l, T.descendantsAux fuel i = .ok l ∧ l.Nodup ∧ ∀ x, x ∈ l ↔ Anc T i x := by
  refine hV.induct ?_
  intro i hi ih k hk fuel hf
  have hkn := hk.lt hV.unique_parent
  obtain ⟨fuel, rfl⟩ : ∃ f, fuel = f + 1 := ⟨fuel - 1, by omega⟩
  have hsub : ∀ ch : List Nat, (∀ c ∈ ch, Edge T i c) → ch.Nodup →
      ∃ subs, ch.mapM (fun c => do
        let d ← T.descendantsAux fuel c
        (.ok (c :: d) : Py (List Nat))) = .ok subs ∧ subs.flatten.Nodup ∧
        ∀ x, x ∈ subs.flatten ↔ ∃ c ∈ ch, AncSelf T c x := by
    intro ch
    induction ch with
    | nil => intro _ _; exact ⟨[], rfl, by simp, by simp⟩
    | cons c ch ihc =>
      intro he hnd
      rw [List.nodup_cons] at hnd
      obtain ⟨subs, h1, h2, h3⟩ := ihc (fun c hc => he c (by simp [hc])) hnd.2
      have hec := he c (by simp)
      obtain ⟨l, hl1, hl2, hl3⟩ := ih c hec (k + 1) (.child hk hec) fuel (by omega)
      have hmc : ∀ x, x ∈ c :: l ↔ AncSelf T c x := by
        intro x
        rw [List.mem_cons, hl3]
        exact (Relation.reflTransGen_iff_eq_or_transGen).symm
      refine ⟨(c :: l) :: subs, ?_, ?_, ?_⟩
      · rw [List.mapM_cons, hl1, h1]; rfl
      · rw [List.flatten_cons, List.nodup_append]
        refine ⟨List.nodup_cons.2 ⟨?_, hl2⟩, h2, ?_⟩
        · rw [hl3]; exact Anc.irrefl hV c
        · intro a ha b hb hab
          subst hab
          obtain ⟨c', hc', hax⟩ := (h3 a).1 hb
          have := disjoint_of_level hV (.child hk hec) (.child hk (he c' (by simp [hc']))) ((hmc a).1 ha) hax
          subst this
          exact hnd.1 hc'
      · intro x
        rw [List.flatten_cons, List.mem_append, hmc, h3]
        simp
  obtain ⟨subs, h1, h2, h3⟩ := hsub (T.children i) (fun c hc => (mem_children i c hi).1 hc)
    (nodup_children i)
  refine ⟨subs.flatten, ?_, h2, ?_⟩
  · rw [descendantsAux, h1]; rfl
  · intro x
    rw [h3]
    constructor
    · rintro ⟨c, hc, hx⟩
      exact Relation.TransGen.head'_iff.2 ⟨c, (mem_children i c hi).1 hc, hx⟩
    · intro h
      obtain ⟨c, hc, hx⟩ := Relation.TransGen.head'_iff.1 h
      exact ⟨c, (mem_children i c hi).2 hc, hx⟩

/-- C19. `descendants(i)` terminates and lists exactly the proper descendants of `i`, each once. -/
theorem descendants_spec (hV : Valid T) (i : Nat) (hi : IsNode T i) :
    ∃ l, T.descendants i = .ok l ∧ l.Nodup ∧ ∀ x, x ∈ l ↔ Anc T i x := by
  obtain ⟨k, hk⟩ := exists_level hV hi
  exact descendantsAux_spec hV i hi k hk (T.n + 1) (by omega)

/-- C19. `j in descendants(i)` iff `i in ascendants(j)`. -/
theorem descendants_ascendants (hV : Valid T) (i j : Nat) (hi : IsNode T i) (hj : IsNode T j) :
    ∃ d a, T.descendants i = .ok d ∧ T.ascendants j = .ok a ∧ (j ∈ d ↔ i ∈ a) := by
  obtain ⟨d, h1, _, h2⟩ := descendants_spec hV i hi
  obtain ⟨a, h3, _, _, _, h4⟩ := ascendants_spec hV j hj
  exact ⟨d, a, h1, h3, by rw [h2, h4]⟩

end Verif.DimTree
