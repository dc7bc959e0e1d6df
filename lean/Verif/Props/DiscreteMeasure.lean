import Verif.Model.DiscreteMeasure
import Verif.Props.Measures
import Mathlib.Tactic.Linarith

/-!
# Discrete measures (C228, C229)
-/

namespace Verif.DiscreteMeasures

open Verif.Measures Verif.Sets

/-! ### Construction, mass, support -/

/-- C228. Without weights all the weights are one: the mass is the number of values. -/
theorem create_uniform (rows : List (List ℚ)) (d : Nat) :
    ∃ m, create (.mat rows d) = .ok m ∧ m.rows = rows ∧ m.ndim = d ∧ m.weights.length = rows.length ∧ (∀ w ∈ m.weights, w = 1) ∧
      m.mass = rows.length := by
  refine ⟨_, rfl, rfl, rfl, by simp, ?_, ?_⟩
  · intro w hw; exact (List.mem_replicate.1 hw).2
  · show (List.replicate rows.length (1 : ℚ)).sum = _
    rw [List.sum_replicate]; simp

/-- C228. With weights. -/
theorem create_weights (rows : List (List ℚ)) (d : Nat) (w : List ℚ) (h : w.length = rows.length) :
    ∃ m, create (.mat rows d) (some w) = .ok m ∧ m.rows = rows ∧ m.ndim = d ∧ m.weights = w ∧ m.mass = w.sum := by
  refine ⟨⟨rows, d, w⟩, ?_, rfl, rfl, rfl, rfl⟩
  unfold create columnOf
  simp only [bind, Except.bind]
  rw [if_neg (not_not.2 h)]

/-- C228. A vector of values is a column. -/
theorem create_vec (l : List ℚ) (w : Option (List ℚ)) : create (.vec l) w = create (.mat (l.map (fun a => [a])) 1) w := rfl

/-- C228. A number of weights other than the number of values is refused. -/
theorem create_refused (rows : List (List ℚ)) (d : Nat) (w : List ℚ) (h : w.length ≠ rows.length) :
    create (.mat rows d) (some w) = .error .valueError := by
  unfold create columnOf
  simp only [bind, Except.bind]
  rw [if_pos h]

/-- C228. Equality: the same values and the same weights. -/
theorem eq_spec (m n : DM) : m.eq n = true ↔ m = n := by
  unfold DM.eq
  cases m; cases n
  simp only [Bool.and_eq_true, decide_eq_true_eq, DM.mk.injEq]
  constructor
  · rintro ⟨⟨⟨_, a⟩, b⟩, c⟩; exact ⟨b, a, c⟩
  · rintro ⟨a, b, c⟩; exact ⟨⟨⟨by rw [a], b⟩, a⟩, c⟩

theorem foldl_min (l : List ℚ) (a : ℚ) : l.foldl min a ∈ a :: l ∧ ∀ b ∈ a :: l, l.foldl min a ≤ b := by
  induction l generalizing a with
  | nil => simp
  | cons c l ih =>
    rw [List.foldl_cons]
    obtain ⟨h1, h2⟩ := ih (min a c)
    have hm := h2 (min a c) (by simp)
    constructor
    · rcases List.mem_cons.1 h1 with h | h
      · rw [h]
        rcases min_choice a c with h' | h' <;> rw [h'] <;> simp
      · simp [h]
    · intro b hb
      simp only [List.mem_cons] at hb
      rcases hb with rfl | rfl | hb
      · exact le_trans hm (min_le_left _ _)
      · exact le_trans hm (min_le_right _ _)
      · exact h2 b (by simp [hb])

theorem foldl_max (l : List ℚ) (a : ℚ) : l.foldl max a ∈ a :: l ∧ ∀ b ∈ a :: l, b ≤ l.foldl max a := by
  induction l generalizing a with
  | nil => simp
  | cons c l ih =>
    rw [List.foldl_cons]
    obtain ⟨h1, h2⟩ := ih (max a c)
    have hm := h2 (max a c) (by simp)
    constructor
    · rcases List.mem_cons.1 h1 with h | h
      · rw [h]
        rcases max_choice a c with h' | h' <;> rw [h'] <;> simp
      · simp [h]
    · intro b hb
      simp only [List.mem_cons] at hb
      rcases hb with rfl | rfl | hb
      · exact le_trans (le_max_left _ _) hm
      · exact le_trans (le_max_right _ _) hm
      · exact h2 b (by simp [hb])

theorem mapM_extremum (f : ℚ → ℚ → ℚ) (rows : List (List ℚ)) (hr : rows ≠ []) (ks : List Nat) :
    ks.mapM (extremum f rows) =
      .ok (ks.map (fun k => (rows.tail.map (fun r => r.getD k 0)).foldl f ((rows.headD []).getD k 0))) := by
  induction ks with
  | nil => rfl
  | cons k ks ih =>
    rw [List.mapM_cons, ih]
    cases rows with
    | nil => exact absurd rfl hr
    | cons r rows => rfl

/-- C228. `support()`: in each dimension, the least and the greatest coordinates of the values. -/
theorem support_spec (m : DM) (h : m.rows ≠ []) :
    ∃ lo hi, m.support = .ok (lo, hi) ∧ lo.length = m.ndim ∧ hi.length = m.ndim ∧
      ∀ k, k < m.ndim → (∀ r ∈ m.rows, lo.getD k 0 ≤ r.getD k 0 ∧ r.getD k 0 ≤ hi.getD k 0) ∧
        (∃ r ∈ m.rows, r.getD k 0 = lo.getD k 0) ∧ ∃ r ∈ m.rows, r.getD k 0 = hi.getD k 0 := by
  refine ⟨_, _, by unfold DM.support; simp only [mapM_extremum _ _ h, bind, Except.bind]; rfl, by simp [DM.ndim], by simp [DM.ndim], ?_⟩
  intro k hk
  have hk : k < m.cols := hk
  have hg : ∀ f : Nat → ℚ, ((List.range m.cols).map f).getD k 0 = f k := by
    intro f
    rw [List.getD_eq_getElem _ _ (by simpa using hk)]
    simp
  rw [hg, hg]
  cases hrows : m.rows with
  | nil => exact absurd hrows h
  | cons r0 rows =>
    simp only [List.tail_cons, List.headD_cons]
    obtain ⟨a1, a2⟩ := foldl_min (rows.map (fun r => r.getD k 0)) (r0.getD k 0)
    obtain ⟨b1, b2⟩ := foldl_max (rows.map (fun r => r.getD k 0)) (r0.getD k 0)
    have hmem : ∀ r ∈ r0 :: rows, r.getD k 0 ∈ r0.getD k 0 :: rows.map (fun r => r.getD k 0) := by
      intro r hr
      rcases List.mem_cons.1 hr with rfl | hr
      · simp
      · exact List.mem_cons_of_mem _ (List.mem_map_of_mem hr)
    have hmem' : ∀ x, x ∈ r0.getD k 0 :: rows.map (fun r => r.getD k 0) → ∃ r ∈ r0 :: rows, r.getD k 0 = x := by
      intro x hx
      rcases List.mem_cons.1 hx with rfl | hx
      · exact ⟨r0, by simp, rfl⟩
      · obtain ⟨r, hr, rfl⟩ := List.mem_map.1 hx
        exact ⟨r, by simp [hr], rfl⟩
    exact ⟨fun r hr => ⟨a2 _ (hmem r hr), b2 _ (hmem r hr)⟩, hmem' _ a1, hmem' _ b1⟩

/-! ### Samples -/

/-- The position `j` drawn by the uniform number `p`: `p` times the mass is between the partial sums of the weights at `j`. -/
def Draws (w : List ℚ) (p : ℚ) (j : Nat) : Prop :=
  j < w.length ∧ (w.take j).sum < p * w.sum ∧ p * w.sum ≤ (w.take (j + 1)).sum

theorem drawIndex_spec (eps : ℚ) (he : 0 ≤ eps) (w : List ℚ) (hw : ∀ x ∈ w, 0 ≤ x) (hs : 0 < w.sum) :
    ∃ Y, Measures.mk eps ((List.range w.length).map (fun i : Nat => (i : ℚ))) (some (w.map (fun x => x / w.sum))) = .ok Y ∧
      ∀ p, 0 < p → p ≤ 1 → ∃ j, drawIndex Y p = .ok j ∧ Draws w p j := by
  have hsum : ∀ l : List ℚ, (l.map (fun x => x / w.sum)).sum = l.sum / w.sum := fun l => sum_map_div l _
  have h1 : (w.map (fun x => x / w.sum)).sum = 1 := by rw [hsum]; exact div_self hs.ne'
  refine ⟨⟨(List.range w.length).map (fun i : Nat => (i : ℚ)), w.map (fun x => x / w.sum)⟩, ?_, ?_⟩
  · unfold Measures.mk
    dsimp only
    rw [if_neg (by simp), if_neg (not_not.2 (by
      intro x hx
      obtain ⟨y, hy, rfl⟩ := List.mem_map.1 hx
      exact div_nonneg (hw y hy) hs.le)), if_neg (by rw [h1]; simpa using he)]
  · intro p h0 hp
    have hlaw : IsLaw (⟨(List.range w.length).map (fun i : Nat => (i : ℚ)), w.map (fun x => x / w.sum)⟩ : DRV ℚ) := by
      refine ⟨by simp, ?_, h1⟩
      intro x hx
      obtain ⟨y, hy, rfl⟩ := List.mem_map.1 hx
      exact div_nonneg (hw y hy) hs.le
    obtain ⟨j, hj, e, l1, l2⟩ := icdf_spec _ hlaw p h0 hp
    have hj' : j < w.length := by simpa using hj
    refine ⟨j, ?_, hj', ?_, ?_⟩
    · unfold drawIndex
      simp only [e, bind, Except.bind]
      rw [List.getD_eq_getElem _ _ hj]
      simp
    · simp only [← List.map_take, hsum] at l1
      exact (div_lt_iff₀ hs).1 l1
    · simp only [← List.map_take, hsum] at l2
      exact (le_div_iff₀ hs).1 l2

theorem mapM_draws (eps : ℚ) (he : 0 ≤ eps) (w : List ℚ) (hw : ∀ x ∈ w, 0 ≤ x) (hs : 0 < w.sum) (u : List ℚ)
    (hu : ∀ p ∈ u, 0 < p ∧ p ≤ 1) :
    ∃ Y js, Measures.mk eps ((List.range w.length).map (fun i : Nat => (i : ℚ))) (some (w.map (fun x => x / w.sum))) = .ok Y ∧
      u.mapM (drawIndex Y) = .ok js ∧ List.Forall₂ (Draws w) u js := by
  obtain ⟨Y, hY, hd⟩ := drawIndex_spec eps he w hw hs
  have : ∃ js, u.mapM (drawIndex Y) = .ok js ∧ List.Forall₂ (Draws w) u js := by
    induction u with
    | nil => exact ⟨[], rfl, .nil⟩
    | cons p u ih =>
      obtain ⟨js, j1, j2⟩ := ih (fun q hq => hu q (by simp [hq]))
      obtain ⟨j, e1, e2⟩ := hd p (hu p (by simp)).1 (hu p (by simp)).2
      refine ⟨j :: js, ?_, .cons e2 j2⟩
      rw [List.mapM_cons, e1, j1]; rfl
  obtain ⟨js, j1, j2⟩ := this
  exact ⟨Y, js, hY, j1, j2⟩

theorem mapM_rows (m : DM) (js : List Nat) (h : ∀ j ∈ js, j < m.rows.length) : js.mapM (rowAt m) = .ok (js.map (fun j => m.rows.getD j [])) := by
  induction js with
  | nil => rfl
  | cons j js ih =>
    have hj := h j (by simp)
    rw [List.mapM_cons, ih (fun i hi => h i (by simp [hi]))]
    unfold rowAt
    rw [List.getElem?_eq_getElem hj, List.map_cons, List.getD_eq_getElem _ _ hj]; rfl

/-- C229. `random(n)` for values in dimension one: each number of the uniform sample gives the value at the position where the partial sums
of the weights reach this proportion of the mass. The law of the sample is the measure divided by its mass. -/
theorem random_partial (eps : ℚ) (he : 0 ≤ eps) (vals w : List ℚ) (hl : w.length = vals.length) (hw : ∀ x ∈ w, 0 ≤ x)
    (hs : 0 < w.sum) (u : List ℚ) (hu : ∀ p ∈ u, 0 < p ∧ p ≤ 1) :
    ∃ m js, create (.vec vals) (some w) = .ok m ∧ m.random eps u = .ok (js.map (fun j => vals.getD j 0)) ∧
      List.Forall₂ (Draws w) u js := by
  obtain ⟨m, m1, m2, m3, m4, _⟩ := create_weights (vals.map (fun a => [a])) 1 w (by simpa using hl)
  obtain ⟨Y, js, y1, y2, y3⟩ := mapM_draws eps he w hw hs u hu
  refine ⟨m, js, by rw [create_vec]; exact m1, ?_, y3⟩
  have hjs : ∀ j ∈ js, j < vals.length := by
    intro j hj
    obtain ⟨i, hi, rfl⟩ := List.getElem_of_mem hj
    have := (List.forall₂_iff_get.1 y3).2 i (by rw [y3.length_eq]; exact hi) hi
    rw [← hl]; exact this.1
  have hr := mapM_rows m js (by rw [m2]; simpa using hjs)
  have hc : m.cols = 1 := m3
  unfold DM.random
  rw [m4]
  simp only [y1, y2, hr, bind, Except.bind]
  rw [if_pos hc]
  congr 1
  rw [m2]
  clear y2 y3 hr
  induction js with
  | nil => rfl
  | cons j js ih =>
    have hj := hjs j (by simp)
    rw [List.map_cons, List.flatten_cons, ih (fun i hi => hjs i (by simp [hi])), List.map_cons]
    rw [List.getD_eq_getElem _ _ (by simpa using hj), List.getElem_map, List.getD_eq_getElem _ _ hj]; rfl

/-- Full statement (false of the code): `random(n)` for values in any dimension. The code raises an exception for a dimension other than
one, because of `np.squeeze`. -/
theorem random_wrong (eps : ℚ) (he : 0 ≤ eps) (rows : List (List ℚ)) (d : Nat) (hd : d ≠ 1) (w : List ℚ) (hl : w.length = rows.length)
    (hw : ∀ x ∈ w, 0 ≤ x) (hs : 0 < w.sum) (u : List ℚ) (hu : ∀ p ∈ u, 0 < p ∧ p ≤ 1) :
    ∃ m, create (.mat rows d) (some w) = .ok m ∧ m.random eps u = .error .valueError := by
  obtain ⟨m, m1, m2, m3, m4, _⟩ := create_weights rows d w hl
  obtain ⟨Y, js, y1, y2, y3⟩ := mapM_draws eps he w hw hs u hu
  refine ⟨m, m1, ?_⟩
  have hr := mapM_rows m js (by
    intro j hj
    obtain ⟨i, hi, rfl⟩ := List.getElem_of_mem hj
    have := (List.forall₂_iff_get.1 y3).2 i (by rw [y3.length_eq]; exact hi) hi
    rw [m2, ← hl]; exact this.1)
  unfold DM.random
  rw [m4]
  simp only [y1, y2, hr, bind, Except.bind]
  rw [if_neg (show m.cols ≠ 1 by rw [show m.cols = d from m3]; exact hd)]

/-- The numbers drawing the position `j` are those of an interval of length the proportion of the weight `j`. -/
theorem draws_interval (w : List ℚ) (hs : 0 < w.sum) (j : Nat) (hj : j < w.length) :
    ∃ a b, b - a = w.getD j 0 / w.sum ∧ ∀ p, Draws w p j ↔ a < p ∧ p ≤ b := by
  refine ⟨(w.take j).sum / w.sum, (w.take (j + 1)).sum / w.sum, ?_, ?_⟩
  · rw [← sub_div, List.take_succ_eq_append_getElem hj, List.sum_append, List.getD_eq_getElem _ _ hj]
    simp
  · intro p
    unfold Draws
    rw [div_lt_iff₀ hs, le_div_iff₀ hs]
    exact ⟨fun h => h.2, fun h => ⟨hj, h⟩⟩

/-- Witness: weights 1 and 3, the values 5 and 7. -/
example : (DM.random 0 ⟨[[5], [7]], 1, [1, 3]⟩ [1 / 4, 1 / 2, 1]).toOption = some [5, 7, 7] := by decide +kernel

end Verif.DiscreteMeasures
