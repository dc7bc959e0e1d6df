import Verif.Model.AdaptTree
import Verif.Props.OptimizeTree

/-!
# Properties of `TreeBasedTensorLearning.adapt_tree` (C216)
-/

namespace Verif.TreeBased

open Verif.Arr Verif.DimTree

variable {R : Type}

/-- C216. `adapt_tree` does not change the function, or replaces its tensor by one of smaller storage and takes its tree; it says so in
`adapted_tree`, and only then. Without tree adaptation it changes nothing. -/
theorem adaptTree_storage (opt : TBT R → ℝ → Py (TBT R)) (s : Adapter) (f : TBT R) (cv te : Option ℝ) (o : Adapted R)
    (h : adaptTree opt s f cv te = .ok o) :
    (s.on = false → o = ⟨s, f, none⟩) ∧
    ((o.adapted = some true ∧ storage o.tensor < storage f ∧ o.self.tree = o.tensor.tree ∧ o.self.active = o.tensor.active) ∨
      (o.adapted ≠ some true ∧ o.tensor = f ∧ o.self.tree = s.tree ∧ o.self.active = s.active)) := by
  unfold adaptTree at h
  split at h
  · rename_i h0
    cases h
    exact ⟨fun _ => rfl, .inr ⟨by simp, rfl, rfl, rfl⟩⟩
  · rename_i h0
    refine ⟨fun h1 => absurd h1 h0, ?_⟩
    split at h
    · cases h; exact .inr ⟨by simp, rfl, rfl, rfl⟩
    · split at h
      · cases h; exact .inr ⟨by simp, rfl, rfl, rfl⟩
      · cases h
      · rename_i tol _
        cases hg : opt f tol with
        | error e => rw [hg] at h; cases h
        | ok g =>
          simp only [hg, bind, Except.bind] at h
          split at h
          · rename_i hlt
            cases h; exact .inl ⟨rfl, hlt, rfl, rfl⟩
          · cases h; exact .inr ⟨by simp, rfl, rfl, rfl⟩

/-- C216. The tolerance used: that of the options, else (for a relative error) the test error if there is one that is not zero, else the
cross-validation error. -/
theorem adaptError_spec (s : Adapter) (cv te : Option ℝ) (tol : ℝ) :
    adaptError s cv te = some (some tol) ↔ s.tolerance = some tol ∨
      (s.tolerance = none ∧ s.relative = true ∧ ((te = some tol ∧ tol ≠ 0) ∨ ((te = none ∨ te = some 0) ∧ cv = some tol))) := by
  unfold adaptError
  cases s.tolerance with
  | some t => simp
  | none =>
    dsimp only
    by_cases hr : s.relative = true
    · rw [if_pos hr]
      by_cases ht : te = none ∨ te = some 0
      · rw [if_pos ht]
        constructor
        · intro h; exact .inr ⟨rfl, hr, .inr ⟨ht, by simpa using h⟩⟩
        · rintro (h | ⟨_, _, (⟨h1, h2⟩ | ⟨_, h⟩)⟩)
          · cases h
          · rcases ht with ht | ht
            · rw [h1] at ht; cases ht
            · rw [h1] at ht; exact absurd (Option.some.inj ht) h2
          · rw [h]
      · rw [if_neg ht]
        constructor
        · intro h
          have h' : te = some tol := by simpa using h
          exact .inr ⟨rfl, hr, .inl ⟨h', fun h0 => ht (.inr (by rw [h', h0]))⟩⟩
        · rintro (h | ⟨_, _, (⟨h1, _⟩ | ⟨h, _⟩)⟩)
          · cases h
          · rw [h1]
          · exact absurd h ht
    · rw [if_neg hr]
      constructor
      · intro h; cases h
      · rintro (h | ⟨_, h, _⟩)
        · cases h
        · exact absurd h hr

/-- C216. If each exchange of nodes respects its tolerance, the function is changed by at most the tolerance used, relative to its norm,
whatever the random choices. -/
theorem adaptTree_error (P : Permute ℝ) (hP : PermuteOk P) (fuel : Nat) (choices : List (Nat × (Nat → Nat × Nat)))
    (hc : ∀ c ∈ choices, 1 ≤ c.1) (s : Adapter) (f : TBT ℝ) (cv te : Option ℝ) (o : Adapted ℝ)
    (h : adaptTree (fun t tol => optimizeTree P fuel t tol choices) s f cv te = .ok o) (a : Arr ℝ) (ha : full f = .ok a)
    (ho : o.adapted = some true) : ∃ tol, adaptError s cv te = some (some tol) ∧ (0 ≤ tol →
      ∃ b, full o.tensor = .ok b ∧ b.shape = a.shape ∧ frob a.shape (fun i => b.get i - a.get i) ≤ tol * frob a.shape a.get) := by
  unfold adaptTree at h
  split at h
  · cases h; cases ho
  · split at h
    · cases h; cases ho
    · split at h
      · cases h; cases ho
      · cases h
      · rename_i tol hae
        refine ⟨tol, hae, fun htol => ?_⟩
        cases hg : optimizeTree P fuel f tol choices with
        | error e => simp only [hg, bind, Except.bind] at h; cases h
        | ok g =>
          simp only [hg, bind, Except.bind] at h
          split at h
          · cases h
            exact optimizeTree_error P hP fuel f a ha tol htol choices hc g hg
          · cases h; cases ho

/-- C216. With a relative error, no test error and no cross-validation error, and no tolerance in the options, the adaptation raises an
exception. -/
theorem adaptTree_raises (opt : TBT R → ℝ → Py (TBT R)) (s : Adapter) (f : TBT R) (hon : s.on = true) (ht : s.tolerance = none)
    (hr : s.relative = true) (hf : ∀ i ∈ f.tree.nodes, f.active i = true → f.rank i ≠ 0) :
    adaptTree opt s f none none = .error .typeError := by
  unfold adaptTree
  rw [if_neg (by rw [hon]; simp), if_neg]
  · have : adaptError s none none = some none := by
      unfold adaptError
      rw [ht]
      dsimp only
      rw [if_pos hr, if_pos (.inl rfl)]
    rw [this]
  · rw [List.any_eq_true]
    rintro ⟨i, h1, h2⟩
    rw [List.mem_filter] at h1
    exact hf i h1.1 h1.2 (by simpa using h2)

/-- The hypotheses of `adaptTree_storage` and `adaptTree_error` are met by an adaptation that replaces the tensor. -/
example (T : DTree) (act : Nat → Bool) :
    adaptTree (fun t tol => optimizeTree zP 2 t tol [(1, fun _ => (3, 0))]) ⟨true, some 1, true, T, act⟩ (zT ℝ 3) none none =
      .ok ⟨⟨true, some 1, true, exTree, (zT ℝ 2).active⟩, zT ℝ 2, some true⟩ := by
  have h : ((zT ℝ 3).tree.nodes.filter (zT ℝ 3).active).any (fun i => (zT ℝ 3).rank i == 0) = false := by decide +kernel
  unfold adaptTree
  rw [if_neg (by simp), if_neg (by rw [h]; simp)]
  have he : adaptError ⟨true, some 1, true, T, act⟩ none none = some (some 1) := rfl
  rw [he]
  simp only [zRun.1, bind, Except.bind]
  rw [if_pos zRun.2]
  rfl

end Verif.TreeBased
