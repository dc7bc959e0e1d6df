import Verif.Lemmas.DimensionTree

/-!
# Traversal of a tree level by level, from the deepest
-/

namespace Verif.DimTree

open DTree

variable {T : DTree}

/-- A loop on the levels from `L - 1` down to `0` and on the nodes of each level satisfying `Q`: an invariant `Inv`
indexed by the set of the nodes already visited is established for all of them, if each step extends it when the
children have been visited and the parent has not. -/
theorem bottomUp (hV : Valid T) {lev : Nat → Nat} (hlev : ∀ j k, HasLevel T j k → lev j = k) {S : Type}
    (step : S → Nat → Py S) (Q : Nat → Prop) (nodesAt : Nat → List Nat)
    (hn : ∀ l i, i ∈ nodesAt l ↔ IsNode T i ∧ lev i = l ∧ Q i) (hnd : ∀ l, (nodesAt l).Nodup)
    (Inv : S → (Nat → Prop) → Prop)
    (hstep : ∀ s P i, Inv s P → IsNode T i → Q i → ¬ P i → (∀ c, Edge T i c → Q c → P c) →
      (∀ p, Edge T p i → ¬ P p) → ∃ s', step s i = .ok s' ∧ Inv s' (fun j => P j ∨ j = i))
    (L : Nat) (s : S) (h : Inv s (fun i => IsNode T i ∧ Q i ∧ L ≤ lev i)) :
    ∃ s', (List.range L).reverse.foldlM (fun s l => (nodesAt l).foldlM step s) s = .ok s' ∧
      Inv s' (fun i => IsNode T i ∧ Q i) := by
  have edge_lev : ∀ i c, Edge T i c → lev c = lev i + 1 := by
    intro i c he
    obtain ⟨k, hk⟩ := exists_level hV he.1
    rw [hlev i k hk, hlev c (k + 1) (.child hk he)]
  induction L generalizing s with
  | zero =>
    refine ⟨s, rfl, ?_⟩
    simpa using h
  | succ L ih =>
    rw [List.range_succ, List.reverse_append, List.reverse_cons, List.reverse_nil, List.nil_append, List.singleton_append,
      List.foldlM_cons]
    have inner : ∀ (todo : List Nat) (s : S) (P : Nat → Prop), todo.Nodup → (∀ i ∈ todo, IsNode T i ∧ lev i = L ∧ Q i ∧ ¬ P i) →
        (∀ i, P i → L ≤ lev i) → (∀ i, IsNode T i → Q i → L < lev i → P i) → Inv s P →
        ∃ s', todo.foldlM step s = .ok s' ∧ Inv s' (fun j => P j ∨ j ∈ todo) := by
      intro todo
      induction todo with
      | nil => intro s P _ _ _ _ hI; exact ⟨s, rfl, by simpa using hI⟩
      | cons i todo iht =>
        intro s P hnd' hm hP hP2 hI
        obtain ⟨h1, h2, h3, h4⟩ := hm i (by simp)
        obtain ⟨s1, e1, hI1⟩ := hstep s P i hI h1 h3 h4
          (fun c he hq => hP2 c he.2.1 hq (by rw [edge_lev i c he]; omega))
          (fun p he hp => by have := hP p hp; have := edge_lev p i he; omega)
        rw [List.nodup_cons] at hnd'
        obtain ⟨s2, e2, hI2⟩ := iht s1 (fun j => P j ∨ j = i) hnd'.2
          (fun j hj => by
            obtain ⟨a, b, c, d⟩ := hm j (by simp [hj])
            exact ⟨a, b, c, fun h => h.elim d (fun e => hnd'.1 (e ▸ hj))⟩)
          (fun j hj => hj.elim (hP j) (fun e => by rw [e, h2]))
          (fun j a b c => .inl (hP2 j a b c)) hI1
        refine ⟨s2, ?_, ?_⟩
        · rw [List.foldlM_cons, e1]; exact e2
        · have : (fun j => P j ∨ j ∈ i :: todo) = (fun j => (P j ∨ j = i) ∨ j ∈ todo) := by
            funext j; simp only [List.mem_cons, or_assoc]
          rw [this]; exact hI2
    obtain ⟨s1, e1, hI1⟩ := inner (nodesAt L) s (fun i => IsNode T i ∧ Q i ∧ L + 1 ≤ lev i) (hnd L)
      (fun i hi => by obtain ⟨a, b, c⟩ := (hn L i).1 hi; exact ⟨a, b, c, fun h => by omega⟩)
      (fun i hi => by omega) (fun i a b c => ⟨a, b, by omega⟩) h
    rw [e1]
    refine ih s1 ?_
    have : (fun i => IsNode T i ∧ Q i ∧ L ≤ lev i) = (fun j => (IsNode T j ∧ Q j ∧ L + 1 ≤ lev j) ∨ j ∈ nodesAt L) := by
      funext j
      rw [hn]
      apply propext
      constructor
      · rintro ⟨a, b, c⟩
        by_cases hc : lev j = L
        · exact .inr ⟨a, hc, b⟩
        · exact .inl ⟨a, b, by omega⟩
      · rintro (⟨a, b, c⟩ | ⟨a, b, c⟩)
        · exact ⟨a, b, by omega⟩
        · exact ⟨a, c, by omega⟩
    rw [this]; exact hI1

theorem lev_le_maxLevel (lev : Nat → Nat) {i : Nat} (hi : IsNode T i) : lev i ≤ T.maxLevel lev := by
  unfold maxLevel
  exact (foldl_max_ge' _ 0).2 _ (List.mem_map_of_mem ((mem_nodes i).2 hi))

end Verif.DimTree
