import Verif.Lemmas.DimensionTree

/-!
# Traversal of a tree level by level, from the root
-/

namespace Verif.DimTree

open DTree

variable {T : DTree}

/-- A loop on the levels from `0` to `L - 1` and on the nodes of each level satisfying `Q`: an invariant `Inv` indexed by
the set of the nodes already visited is established for all of them, if each step extends it when the parent has been
visited and the children have not. -/
theorem topDown (hV : Valid T) {lev : Nat → Nat} (hlev : ∀ j k, HasLevel T j k → lev j = k) {S : Type}
    (step : S → Nat → Py S) (Q : Nat → Prop) (nodesAt : Nat → List Nat)
    (hn : ∀ l i, i ∈ nodesAt l ↔ IsNode T i ∧ lev i = l ∧ Q i) (hnd : ∀ l, (nodesAt l).Nodup)
    (Inv : S → (Nat → Prop) → Prop)
    (hstep : ∀ s P i, Inv s P → IsNode T i → Q i → ¬ P i → (∀ p, Edge T p i → Q p → P p) →
      (∀ c, Edge T i c → ¬ P c) → ∃ s', step s i = .ok s' ∧ Inv s' (fun j => P j ∨ j = i))
    (L : Nat) (s : S) (h : Inv s (fun _ => False)) :
    ∃ s', (List.range L).foldlM (fun s l => (nodesAt l).foldlM step s) s = .ok s' ∧
      Inv s' (fun i => IsNode T i ∧ Q i ∧ lev i < L) := by
  have edge_lev : ∀ i c, Edge T i c → lev c = lev i + 1 := by
    intro i c he
    obtain ⟨k, hk⟩ := exists_level hV he.1
    rw [hlev i k hk, hlev c (k + 1) (.child hk he)]
  induction L with
  | zero =>
    refine ⟨s, rfl, ?_⟩
    have : (fun i => IsNode T i ∧ Q i ∧ lev i < 0) = (fun _ => False) := by
      funext i; simp
    rw [this]; exact h
  | succ L ih =>
    obtain ⟨s1, e1, hI1⟩ := ih
    rw [List.range_succ, List.foldlM_append, e1]
    simp only [bind, Except.bind, List.foldlM_cons, List.foldlM_nil]
    have inner : ∀ (todo : List Nat) (s : S) (P : Nat → Prop), todo.Nodup → (∀ i ∈ todo, IsNode T i ∧ lev i = L ∧ Q i ∧ ¬ P i) →
        (∀ i, P i → lev i ≤ L) → (∀ i, IsNode T i → Q i → lev i < L → P i) → Inv s P →
        ∃ s', todo.foldlM step s = .ok s' ∧ Inv s' (fun j => P j ∨ j ∈ todo) := by
      intro todo
      induction todo with
      | nil => intro s P _ _ _ _ hI; exact ⟨s, rfl, by simpa using hI⟩
      | cons i todo iht =>
        intro s P hnd' hm hP hP2 hI
        obtain ⟨h1, h2, h3, h4⟩ := hm i (by simp)
        obtain ⟨s1, e1, hI1⟩ := hstep s P i hI h1 h3 h4
          (fun p he hq => hP2 p he.1 hq (by have := edge_lev p i he; omega))
          (fun c he hc => by have := hP c hc; have := edge_lev i c he; omega)
        rw [List.nodup_cons] at hnd'
        obtain ⟨s2, e2, hI2⟩ := iht s1 (fun j => P j ∨ j = i) hnd'.2
          (fun j hj => by
            obtain ⟨a, b, c, d⟩ := hm j (by simp [hj])
            exact ⟨a, b, c, fun h => h.elim d (fun e => hnd'.1 (e ▸ hj))⟩)
          (fun j hj => hj.elim (hP j) (fun e => by rw [e, h2]))
          (fun j a b c => .inl (hP2 j a b c)) hI1
        refine ⟨s2, ?_, ?_⟩
        · rw [List.foldlM_cons, e1]; exact e2
        · have : (fun j => P j ∨ j ∈ i :: todo) = (fun j => (P j ∨ j = i) ∨ j ∈ todo) := by
            funext j; simp only [List.mem_cons, or_assoc]
          rw [this]; exact hI2
    obtain ⟨s2, e2, hI2⟩ := inner (nodesAt L) s1 (fun i => IsNode T i ∧ Q i ∧ lev i < L) (hnd L)
      (fun i hi => by obtain ⟨a, b, c⟩ := (hn L i).1 hi; exact ⟨a, b, c, fun h => by omega⟩)
      (fun i hi => by omega) (fun i a b c => ⟨a, b, c⟩) hI1
    rw [e2]
    refine ⟨s2, rfl, ?_⟩
    have : (fun i => IsNode T i ∧ Q i ∧ lev i < L + 1) = (fun j => (IsNode T j ∧ Q j ∧ lev j < L) ∨ j ∈ nodesAt L) := by
      funext j
      rw [hn]
      apply propext
      constructor
      · rintro ⟨a, b, c⟩
        by_cases hc : lev j = L
        · exact .inr ⟨a, hc, b⟩
        · exact .inl ⟨a, b, by omega⟩
      · rintro (⟨a, b, c⟩ | ⟨a, b, c⟩)
        · exact ⟨a, b, by omega⟩
        · exact ⟨a, c, by omega⟩
    rw [this]; exact hI2

end Verif.DimTree
