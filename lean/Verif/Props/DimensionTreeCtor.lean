import Verif.Props.DimensionTreeEq
import Mathlib.Data.Nat.Log

/-!
# Property theorems about dimension trees: C16 (constructors), C21 (negation)
-/

namespace Verif.DimTree
open DTree

variable {T : DTree}

/-- A sufficient condition for validity: each node but the first has exactly one parent, with a smaller
number. -/
theorem valid_of_parent (T : DTree) (p : Nat → Nat) (hn : 0 < T.n)
    (hadj : ∀ i j, i < T.n → j < T.n → (T.adj i j = true ↔ 1 ≤ j ∧ i = p j))
    (hp : ∀ j, 1 ≤ j → j < T.n → p j < j)
    (hnd : T.dim2ind.Nodup)
    (hleaf : ∀ x, x ∈ T.dim2ind ↔ (1 ≤ x ∧ x ≤ T.n) ∧ ∀ j, 1 ≤ j → j < T.n → p j ≠ x - 1) :
    Valid T := by
  have hedge : ∀ i j, Edge T i j ↔ 2 ≤ j ∧ j ≤ T.n ∧ i = p (j - 1) + 1 := by
    intro i j
    unfold Edge IsNode
    constructor
    · rintro ⟨⟨h1, h2⟩, ⟨h3, h4⟩, h5⟩
      rw [hadj _ _ (by omega) (by omega)] at h5
      omega
    · rintro ⟨h1, h2, rfl⟩
      have := hp (j - 1) (by omega) (by omega)
      refine ⟨⟨by omega, by omega⟩, ⟨by omega, by omega⟩, ?_⟩
      rw [hadj _ _ (by omega) (by omega)]
      omega
  refine ⟨?_, ⟨1, ⟨⟨le_rfl, hn⟩, ?_⟩, ?_⟩, hnd, ?_⟩
  · intro i i' j h h'
    rw [hedge] at h h'
    omega
  · intro i h
    rw [hedge] at h
    omega
  · intro j
    induction j using Nat.strong_induction_on with
    | _ j ih =>
      rintro ⟨h1, h2⟩
      by_cases hj : j = 1
      · subst hj; exact .refl
      · have := hp (j - 1) (by omega) (by omega)
        exact (ih (p (j - 1) + 1) (by omega) ⟨by omega, by omega⟩).tail
          ((hedge _ _).2 ⟨by omega, h2, rfl⟩)
  · intro x
    rw [hleaf]
    unfold IsNode
    refine and_congr_right (fun hx => ?_)
    constructor
    · intro h j he
      rw [hedge] at he
      exact h (j - 1) (by omega) (by omega) (by omega)
    · intro h j h1 h2 h3
      refine h (j + 1) ((hedge _ _).2 ⟨by omega, by omega, ?_⟩)
      rw [Nat.add_sub_cancel]; omega

theorem children_eq_of_sorted {i : Nat} (hi : IsNode T i) {l : List Nat} (hl : l.Pairwise (· < ·))
    (h : ∀ j, Edge T i j ↔ j ∈ l) : T.children i = l := by
  have hperm : (T.children i).Perm l := by
    rw [List.perm_ext_iff_of_nodup (nodup_children i) (hl.imp (fun h => Nat.ne_of_lt h))]
    intro j
    rw [mem_children i j hi, h]
  exact List.Perm.eq_of_pairwise' ((children_sorted i).imp (fun h => Nat.le_of_lt h))
    (hl.imp (fun h => Nat.le_of_lt h)) hperm

/-! ### trivial -/

theorem trivial_adj (d i j : Nat) : (trivial d).adj i j = true ↔ i = 0 ∧ 1 ≤ j ∧ j < d + 1 := by
  simp [DTree.trivial]

/-- C16. `trivial(d)` is a valid tree. -/
theorem trivial_valid (d : Nat) (hd : 1 ≤ d) : Valid (trivial d) := by
  refine valid_of_parent _ (fun _ => 0) (by simp [DTree.trivial]) ?_ (fun j h _ => h) ?_ ?_
  · intro i j hi hj
    rw [trivial_adj]
    simp [DTree.trivial] at hi hj
    omega
  · exact List.nodup_range.map (fun a b h => by simpa using h)
  · intro x
    simp only [DTree.trivial, List.mem_map, List.mem_range]
    constructor
    · rintro ⟨a, ha, rfl⟩
      exact ⟨⟨by omega, by omega⟩, fun j _ _ => by omega⟩
    · rintro ⟨h1, h2⟩
      have := h2 1 (by omega) (by omega)
      exact ⟨x - 2, by omega, by omega⟩

/-- C16. In `trivial(d)` the root 1 has the `d` leaves as children, the leaf of dimension `k` being `k + 2`. -/
theorem trivial_spec (d : Nat) (hd : 1 ≤ d) :
    (trivial d).dim2ind.length = d ∧ (∀ i j, Edge (trivial d) i j ↔ i = 1 ∧ j ∈ (trivial d).dim2ind) ∧
    ∃ D, (trivial d).dims = .ok D ∧ D 1 = List.range d := by
  have hE : ∀ i j, Edge (trivial d) i j ↔ i = 1 ∧ j ∈ (trivial d).dim2ind := by
    intro i j
    unfold Edge IsNode
    rw [trivial_adj]
    simp only [DTree.trivial, List.mem_map, List.mem_range]
    constructor
    · rintro ⟨_, _, _⟩; exact ⟨by omega, j - 2, by omega, by omega⟩
    · rintro ⟨rfl, a, ha, rfl⟩; exact ⟨by omega, by omega, by omega, by omega, by omega⟩
  refine ⟨by simp [DTree.trivial], hE, ?_⟩
  obtain ⟨D, hD, h1, h2, _⟩ := dims_spec (trivial_valid d hd)
  refine ⟨D, hD, ?_⟩
  have hch : (trivial d).children 1 = (trivial d).dim2ind := by
    apply children_eq_of_sorted ⟨le_rfl, by simp [DTree.trivial]⟩
    · exact List.pairwise_lt_range.map _ (fun a b h => by simpa using h)
    · intro j; rw [hE]; simp
  rw [h2 1 ⟨2, (hE _ _).2 ⟨rfl, by simp [DTree.trivial]; omega⟩⟩, hch]
  have : ∀ k, k < d → D (k + 2) = [k] := fun k hk => h1 k (k + 2) (by simp [DTree.trivial, hk])
  simp only [DTree.trivial, List.flatMap_map]
  rw [List.flatMap_congr (g := fun k => [k]) (fun k hk => this k (List.mem_range.1 hk))]
  simp

/-! ### linear and balanced: reduction to the identity order -/

theorem scatter_range {α : Type} (a : List α) : scatter a (List.range a.length) a = a := by
  apply List.ext_getElem?
  intro s
  by_cases hs : s < a.length
  · exact scatter_spec a (List.range a.length) a List.nodup_range (fun s hs => List.mem_range.1 hs)
      (by simp) s s (List.getElem?_range hs)
  · rw [List.getElem?_eq_none (by rw [length_scatter]; omega), List.getElem?_eq_none (by omega)]

theorem linear_length (d : Nat) (hd : 1 ≤ d) : (linear (List.range d)).dim2ind.length = d := by
  simp only [linear, length_scatter, List.length_range, List.length_cons, List.length_map]
  omega

theorem linear_dim2ind (d : Nat) (hd : 1 ≤ d) : (linear (List.range d)).dim2ind =
    (2 * d - 2) :: (List.range (d - 1)).map (fun k => 2 * (d - 1 - k) + 1) := by
  simp only [linear, List.length_range]
  conv_lhs => rw [show List.range d = List.range ((2 * d - 2) :: (List.range (d - 1)).map
    (fun k => 2 * (d - 1 - k) + 1)).length by
      rw [List.length_cons, List.length_map, List.length_range]; congr 1; omega]
  exact scatter_range _

theorem linear_eq_permute (sigma : List Nat) (hs : 1 ≤ sigma.length) :
    linear sigma = (linear (List.range sigma.length)).permute sigma := by
  refine ext_dim2ind ?_ ?_ ?_
  · simp [linear, permute]
  · simp [linear, permute]
  · unfold permute
    rw [linear_dim2ind _ hs]
    simp [linear]

theorem balanced_dim2ind (d : Nat) :
    (balanced (List.range d)).dim2ind = (List.range d).map (· + d) := by
  simp only [balanced, List.length_range]
  conv_lhs => rw [show List.range d = List.range ((List.range d).map (· + d)).length by simp]
  have := scatter_range ((List.range d).map (· + d))
  simpa using this

theorem balanced_eq_permute (sigma : List Nat) :
    balanced sigma = (balanced (List.range sigma.length)).permute sigma := by
  refine ext_dim2ind ?_ ?_ ?_
  · simp [balanced, permute]
  · simp [balanced, permute]
  · unfold permute
    rw [balanced_dim2ind]
    simp [balanced]

/-! ### linear -/

theorem linear_adj (d i j : Nat) (hd : 2 ≤ d) (hi : i < 2 * d - 1) (hj : j < 2 * d - 1) :
    (linear (List.range d)).adj i j = true ↔ 1 ≤ j ∧ i = if j ≤ 2 then 0 else 2 * ((j - 1) / 2) - 1 := by
  simp only [linear, List.length_range, Bool.or_eq_true, Bool.and_eq_true, beq_iff_eq, List.any_eq_true,
    List.mem_range]
  constructor
  · rintro (⟨rfl, h⟩ | ⟨l, hl, rfl, h⟩)
    · split <;> omega
    · split <;> omega
  · rintro ⟨h1, h2⟩
    split at h2
    · left; omega
    · right
      exact ⟨(j - 1) / 2 - 1, by omega, by omega, by omega⟩

theorem linear_valid_id (d : Nat) (hd : 2 ≤ d) : Valid (linear (List.range d)) := by
  have hn : (linear (List.range d)).n = 2 * d - 1 := by simp [linear]
  refine valid_of_parent _ (fun j => if j ≤ 2 then 0 else 2 * ((j - 1) / 2) - 1) (by omega)
    (fun i j hi hj => linear_adj d i j hd (by omega) (by omega)) ?_ ?_ ?_
  · intro j h1 h2
    split <;> omega
  · rw [linear_dim2ind d (by omega), List.nodup_cons]
    constructor
    · rw [List.mem_map]
      rintro ⟨k, _, h⟩
      omega
    · refine List.nodup_range.map_on ?_
      intro a ha b hb h
      rw [List.mem_range] at ha hb
      omega
  · intro x
    rw [linear_dim2ind d (by omega), List.mem_cons, List.mem_map, hn]
    constructor
    · rintro (rfl | ⟨k, hk, rfl⟩)
      · refine ⟨by omega, ?_⟩
        intro j h1 h2
        split <;> omega
      · rw [List.mem_range] at hk
        refine ⟨by omega, ?_⟩
        intro j h1 h2
        split <;> omega
    · rintro ⟨h1, h2⟩
      by_cases hx : x = 2 * d - 2
      · exact .inl hx
      · right
        have hodd : x % 2 = 1 := by
          by_contra hne
          have := h2 (x + 1) (by omega) (by omega)
          rw [if_neg (by omega)] at this
          omega
        have h3 : x ≠ 1 := by
          rintro rfl
          have := h2 1 (by omega) (by omega)
          simp at this
        exact ⟨d - 1 - (x - 1) / 2, List.mem_range.2 (by omega), by omega⟩

/-- C16. `linear(order)` is a valid tree, for every order of at least two dimensions. -/
theorem linear_valid (sigma : List Nat) (hs : 2 ≤ sigma.length)
    (hp : sigma.Perm (List.range sigma.length)) : Valid (linear sigma) := by
  rw [linear_eq_permute sigma (by omega)]
  exact permute_valid (linear_valid_id _ hs) sigma (by rw [linear_length _ (by omega)]; exact hp)

theorem linear_edge (d : Nat) (hd : 2 ≤ d) (i j : Nat) : Edge (linear (List.range d)) i j ↔
    (i = 1 ∧ (j = 2 ∨ j = 3)) ∨ ∃ l, l < d - 2 ∧ i = 2 * l + 2 ∧ (j = 2 * l + 4 ∨ j = 2 * l + 5) := by
  have hn : (linear (List.range d)).n = 2 * d - 1 := by simp [linear]
  unfold Edge IsNode
  rw [hn]
  constructor
  · rintro ⟨⟨h1, h2⟩, ⟨h3, h4⟩, h5⟩
    rw [linear_adj d _ _ hd (by omega) (by omega)] at h5
    obtain ⟨h5, h6⟩ := h5
    split at h6
    · left; omega
    · right; exact ⟨(j - 1 - 1) / 2 - 1, by omega, by omega, by omega⟩
  · intro h
    have hb : 1 ≤ i ∧ i ≤ 2 * d - 1 ∧ 1 ≤ j ∧ j ≤ 2 * d - 1 := by
      rcases h with h | ⟨l, h⟩ <;> omega
    refine ⟨by omega, by omega, ?_⟩
    rw [linear_adj d _ _ hd (by omega) (by omega)]
    rcases h with h | ⟨l, h⟩
    · rw [if_pos (by omega)]; omega
    · rw [if_neg (by omega)]; omega

theorem permute_edge (T : DTree) (sigma : List Nat) (i j : Nat) :
    Edge (T.permute sigma) i j ↔ Edge T i j := Iff.rfl

/-- C16. Every internal node of `linear(order)` has exactly two children, and the second is a leaf. -/
theorem linear_binary (sigma : List Nat) (hs : 2 ≤ sigma.length) (i : Nat)
    (h : ∃ j, Edge (linear sigma) i j) :
    ∃ a b, a ≠ b ∧ (∀ j, Edge (linear sigma) i j ↔ j = a ∨ j = b) ∧ ∀ j, ¬ Edge (linear sigma) b j := by
  have hE : ∀ i j, Edge (linear sigma) i j ↔ (i = 1 ∧ (j = 2 ∨ j = 3)) ∨ ∃ l, l < sigma.length - 2 ∧
      i = 2 * l + 2 ∧ (j = 2 * l + 4 ∨ j = 2 * l + 5) := fun i j => by
    rw [linear_eq_permute sigma (by omega)]; exact linear_edge _ hs i j
  obtain ⟨j, hj⟩ := h
  rw [hE] at hj
  rcases hj with hj | ⟨l, hl⟩
  · refine ⟨2, 3, by omega, fun j => ?_, fun j => ?_⟩
    · rw [hE]
      constructor
      · rintro (h | ⟨l, h⟩) <;> omega
      · intro h; left; omega
    · rw [hE]
      rintro (h | ⟨l, h⟩) <;> omega
  · refine ⟨2 * l + 4, 2 * l + 5, by omega, fun j => ?_, fun j => ?_⟩
    · rw [hE]
      constructor
      · rintro (h | ⟨l', h⟩) <;> omega
      · intro h; right; exact ⟨l, by omega⟩
    · rw [hE]
      rintro (h | ⟨l', h⟩) <;> omega

/-- C16. `linear(order)` nests: the root has the dimensions `order` (0-based), and node `2 l + 2`, at level
`l + 1`, has the first `d - 1 - l` of them; its second child is the leaf of the last of them. -/
theorem linear_dims (sigma : List Nat) (hs : 2 ≤ sigma.length)
    (hp : sigma.Perm (List.range sigma.length)) :
    ∃ D, (linear sigma).dims = .ok D ∧ D 1 = sigma ∧
      ∀ l, l + 1 < sigma.length → D (2 * l + 2) = sigma.take (sigma.length - 1 - l) ∧
        D (2 * l + 3) = [sigma.getD (sigma.length - 1 - l) 0] := by
  set d := sigma.length with hd
  have hV := linear_valid_id d hs
  have hlen := linear_length d (by omega)
  obtain ⟨D, D', hD, hD', hmap⟩ := permute_dims hV sigma (by rw [hlen]; exact hp)
  rw [← hd, ← linear_eq_permute sigma (by omega)] at *
  obtain ⟨D0, hD0, h1, h2, _⟩ := dims_spec hV
  rw [hD] at hD0
  cases hD0
  have hleaf : ∀ l, l + 1 < d → D (2 * l + 3) = [d - 1 - l] := by
    intro l hl
    apply h1
    rw [linear_dim2ind d (by omega)]
    obtain ⟨m, hm⟩ : ∃ m, d - 1 - l = m + 1 := ⟨d - 2 - l, by omega⟩
    rw [hm, List.getElem?_cons_succ, List.getElem?_map, List.getElem?_range (by omega)]
    simp only [Option.map_some]
    congr 1; omega
  have hN : ∀ i, i ≤ 2 * d - 1 → 1 ≤ i → IsNode (linear (List.range d)) i := by
    intro i h1 h2
    exact ⟨h2, by simpa [linear] using h1⟩
  have hint : ∀ m l, m + l = d - 2 → D (2 * l + 2) = List.range (d - 1 - l) := by
    intro m
    induction m with
    | zero =>
      intro l hl
      have : D (2 * l + 2) = [0] := by
        apply h1
        rw [linear_dim2ind d (by omega)]
        simp only [List.getElem?_cons_zero]
        congr 1; omega
      rw [this, show d - 1 - l = 1 by omega]
      rfl
    | succ m ih =>
      intro l hl
      have hch : (linear (List.range d)).children (2 * l + 2) = [2 * l + 4, 2 * l + 5] := by
        apply children_eq_of_sorted (hN _ (by omega) (by omega)) (by simp)
        intro j
        rw [linear_edge d hs]
        simp only [List.mem_cons, List.not_mem_nil, or_false]
        constructor
        · rintro (h | ⟨l', h⟩) <;> omega
        · intro h; right; exact ⟨l, by omega⟩
      rw [h2 _ ⟨2 * l + 4, (linear_edge d hs _ _).2 (.inr ⟨l, by omega⟩)⟩, hch]
      have e1 := ih (l + 1) (by omega)
      have e2 := hleaf (l + 1) (by omega)
      rw [show 2 * (l + 1) + 2 = 2 * l + 4 by ring] at e1
      rw [show 2 * (l + 1) + 3 = 2 * l + 5 by ring] at e2
      simp only [List.flatMap_cons, List.flatMap_nil, List.append_nil, e1, e2]
      rw [show d - 1 - l = d - 1 - (l + 1) + 1 by omega, List.range_succ]
  have hroot : D 1 = List.range d := by
    have hch : (linear (List.range d)).children 1 = [2, 3] := by
      apply children_eq_of_sorted (hN _ (by omega) (by omega)) (by simp)
      intro j
      rw [linear_edge d hs]
      simp only [List.mem_cons, List.not_mem_nil, or_false]
      constructor
      · rintro (h | ⟨l', h⟩) <;> omega
      · intro h; exact .inl ⟨True.intro, h⟩
    rw [h2 1 ⟨2, (linear_edge d hs _ _).2 (.inl ⟨rfl, .inl rfl⟩)⟩, hch]
    have e1 := hint (d - 2) 0 (by omega)
    have e2 := hleaf 0 (by omega)
    simp only [Nat.mul_zero, Nat.zero_add] at e1 e2
    simp only [List.flatMap_cons, List.flatMap_nil, List.append_nil, e1, e2]
    rw [show d - 1 - 0 = d - 1 by omega, ← List.range_succ, show (d - 1).succ = d by omega]
  have hmr : ∀ m, m ≤ d → (List.range m).map (fun k => sigma.getD k 0) = sigma.take m := by
    intro m hm
    apply List.ext_getElem?
    intro k
    by_cases hk : k < m
    · rw [List.getElem?_map, List.getElem?_range hk, List.getElem?_take_of_lt hk]
      simp only [Option.map_some]
      rw [List.getD_eq_getElem?_getD, List.getElem?_eq_getElem (by omega)]; rfl
    · rw [List.getElem?_eq_none (by simpa using hk), List.getElem?_eq_none]
      rw [List.length_take]; omega
  refine ⟨D', hD', ?_, ?_⟩
  · rw [hmap 1 (hN 1 (by omega) (by omega)), hroot, hmr d le_rfl, hd, List.take_length]
  · intro l hl
    refine ⟨?_, ?_⟩
    · rw [hmap _ (hN _ (by omega) (by omega)), hint (d - 2 - l) l (by omega), hmr _ (by omega)]
    · rw [hmap _ (hN _ (by omega) (by omega)), hleaf l hl]
      rfl

/-! ### balanced -/

theorem balanced_adj (d i j : Nat) (hd : 2 ≤ d) (_hi : i < 2 * d - 1) (hj : j < 2 * d - 1) :
    (balanced (List.range d)).adj i j = true ↔ 1 ≤ j ∧ i = (j - 1) / 2 := by
  simp only [balanced, List.length_range, Bool.or_eq_true, Bool.and_eq_true, beq_iff_eq,
    decide_eq_true_eq]
  omega

theorem balanced_valid_id (d : Nat) (hd : 1 ≤ d) : Valid (balanced (List.range d)) := by
  have hn : (balanced (List.range d)).n = 2 * d - 1 := by simp [balanced]
  refine valid_of_parent _ (fun j => (j - 1) / 2) (by omega) ?_ (fun j h _ => by show (j - 1) / 2 < j; omega) ?_ ?_
  · intro i j hi hj
    by_cases hd2 : 2 ≤ d
    · exact balanced_adj d i j hd2 (by omega) (by omega)
    · have : d = 1 := by omega
      subst this
      have : i = 0 := by omega
      have : j = 0 := by omega
      subst i j
      simp [balanced]
  · rw [balanced_dim2ind]
    exact List.nodup_range.map (fun a b h => by simpa using h)
  · intro x
    rw [balanced_dim2ind, List.mem_map, hn]
    constructor
    · rintro ⟨k, hk, rfl⟩
      rw [List.mem_range] at hk
      exact ⟨by omega, fun j _ _ => by omega⟩
    · rintro ⟨h1, h2⟩
      refine ⟨x - d, List.mem_range.2 (by omega), ?_⟩
      by_contra hne
      exact h2 (2 * x - 1) (by omega) (by omega) (by omega)

/-- C16. `balanced(order)` is a valid tree. -/
theorem balanced_valid (sigma : List Nat) (hs : 1 ≤ sigma.length)
    (hp : sigma.Perm (List.range sigma.length)) : Valid (balanced sigma) := by
  rw [balanced_eq_permute sigma]
  refine permute_valid (balanced_valid_id _ hs) sigma ?_
  rw [balanced_dim2ind, List.length_map, List.length_range]
  exact hp

theorem balanced_edge (sigma : List Nat) (hd : 2 ≤ sigma.length) (i j : Nat) :
    Edge (balanced sigma) i j ↔ 1 ≤ i ∧ i < sigma.length ∧ (j = 2 * i ∨ j = 2 * i + 1) := by
  have hn : (balanced (List.range sigma.length)).n = 2 * sigma.length - 1 := by simp [balanced]
  rw [balanced_eq_permute, permute_edge]
  unfold Edge IsNode
  rw [hn]
  constructor
  · rintro ⟨⟨h1, h2⟩, ⟨h3, h4⟩, h5⟩
    rw [balanced_adj _ _ _ hd (by omega) (by omega)] at h5
    omega
  · intro h
    refine ⟨by omega, by omega, ?_⟩
    rw [balanced_adj _ _ _ hd (by omega) (by omega)]
    omega

/-- C16. Every internal node `i` of `balanced(order)` has exactly the two children `2i` and `2i + 1`. -/
theorem balanced_binary (sigma : List Nat) (hs : 2 ≤ sigma.length) (i : Nat)
    (h : ∃ j, Edge (balanced sigma) i j) :
    ∀ j, Edge (balanced sigma) i j ↔ j = 2 * i ∨ j = 2 * i + 1 := by
  obtain ⟨j, hj⟩ := h
  rw [balanced_edge sigma hs] at hj
  intro j'
  rw [balanced_edge sigma hs]
  omega

/-- C16. `balanced(order)` is balanced: the levels of two leaves differ by at most one. -/
theorem balanced_level (sigma : List Nat) (hs : 2 ≤ sigma.length)
    (hp : sigma.Perm (List.range sigma.length)) {x y k l : Nat} (hx : x ∈ (balanced sigma).dim2ind)
    (hy : y ∈ (balanced sigma).dim2ind) (hk : HasLevel (balanced sigma) x k)
    (hl : HasLevel (balanced sigma) y l) : k ≤ l + 1 := by
  have hV := balanced_valid sigma (by omega) hp
  have hn : (balanced sigma).n = 2 * sigma.length - 1 := by simp [balanced]
  have key : ∀ i, IsNode (balanced sigma) i → HasLevel (balanced sigma) i (Nat.log 2 i) := by
    intro i
    induction i using Nat.strong_induction_on with
    | _ i ih =>
      rintro ⟨h1, h2⟩
      by_cases hi : i = 1
      · subst hi
        rw [Nat.log_one_right]
        refine .root ⟨⟨h1, h2⟩, fun p hp => ?_⟩
        rw [balanced_edge sigma hs] at hp
        omega
      · rw [Nat.log_of_one_lt_of_le (by omega) (by omega)]
        refine .child (ih (i / 2) (by omega) ⟨by omega, by omega⟩) ?_
        rw [balanced_edge sigma hs]
        omega
  have hmem : ∀ x, x ∈ (balanced sigma).dim2ind → sigma.length ≤ x ∧ x < 2 * sigma.length := by
    intro x hx
    rw [hV.leaves] at hx
    obtain ⟨⟨h1, h2⟩, h3⟩ := hx
    have := h3 (2 * x)
    rw [balanced_edge sigma hs] at this
    omega
  have hx' := hmem x hx
  have hy' := hmem y hy
  rw [hk.unique hV.unique_parent (key x hk.isNode), hl.unique hV.unique_parent (key y hl.isNode)]
  calc Nat.log 2 x ≤ Nat.log 2 (y * 2) := Nat.log_mono_right (by omega)
    _ = Nat.log 2 y + 1 := Nat.log_mul_base (by omega) (by omega)

/-- C16, boundary: `linear(1)` returns a tree whose `dim2ind` is `[0]`, which is not a node. -/
theorem linear_one_invalid : ¬ Valid (linear (List.range 1)) := by
  intro h
  have := (h.leaves 0).1 (by decide)
  unfold IsNode at this
  omega

/-! ### C21: equality is not sound -/

/-- A tree given by the (0-based) parent of each node. -/
def ofParents (p : List Nat) (dim2ind : List Nat) : DTree where
  dim2ind := dim2ind
  n := p.length
  adj i j := decide (1 ≤ j) && (p[j]? == some i)

theorem ofParents_valid (p : List Nat) (dim2ind : List Nat) (hn : 0 < p.length)
    (hp : ∀ j, j < p.length → 1 ≤ j → p.getD j 0 < j) (hnd : dim2ind.Nodup)
    (hb : ∀ x ∈ dim2ind, 1 ≤ x ∧ x ≤ p.length ∧ ∀ j, j < p.length → 1 ≤ j → p.getD j 0 ≠ x - 1)
    (hall : ∀ i, i < p.length → i + 1 ∈ dim2ind ∨ ∃ j, j < p.length ∧ 1 ≤ j ∧ p.getD j 0 = i) :
    Valid (ofParents p dim2ind) := by
  refine valid_of_parent _ (fun j => p.getD j 0) hn ?_ (fun j h1 h2 => hp j h2 h1) hnd ?_
  · intro i j _ hj
    have hj' : j < p.length := hj
    simp only [ofParents, Bool.and_eq_true, decide_eq_true_eq, beq_iff_eq,
      List.getElem?_eq_getElem hj', Option.some.injEq, List.getD_eq_getElem?_getD, Option.getD_some]
    exact and_congr_right (fun _ => eq_comm)
  · intro x
    constructor
    · intro hx
      obtain ⟨h1, h2, h3⟩ := hb x hx
      exact ⟨⟨h1, h2⟩, fun j h4 h5 => h3 j h5 h4⟩
    · rintro ⟨⟨h1, h2⟩, h3⟩
      have h2' : x ≤ p.length := h2
      rcases hall (x - 1) (by omega) with h | ⟨j, h4, h5, h6⟩
      · rwa [show x - 1 + 1 = x by omega] at h
      · exact absurd h6 (h3 j h5 h4)

/-- First tree of the witness: {0,1,2},{3,4,5,6}; then 0,1,2,{3,4},{5,6}; then 3,4,5,6. -/
def wit1 : DTree := ofParents [0, 0, 0, 1, 1, 1, 2, 2, 6, 6, 7, 7] [4, 5, 6, 9, 10, 11, 12]

/-- Second tree of the witness: {0,1,2},{3,4,5,6}; then {0,1},2,3,{4,5,6}; then 0,1,4,5,6. -/
def wit2 : DTree := ofParents [0, 0, 0, 1, 1, 2, 2, 3, 3, 6, 6, 6] [8, 9, 5, 6, 10, 11, 12]

theorem wit1_valid : Valid wit1 := ofParents_valid _ _ (by decide) (by decide) (by decide) (by decide) (by decide)
theorem wit2_valid : Valid wit2 := ofParents_valid _ _ (by decide) (by decide) (by decide) (by decide) (by decide)

def eqTrue (r : Py Bool) : Bool := match r with | .ok true => true | _ => false

theorem wit_eq : eq wit1 wit2 = .ok true := by
  have : eqTrue (eq wit1 wit2) = true := by decide +kernel
  revert this
  cases eq wit1 wit2 with
  | error e => intro h; cases h
  | ok b => cases b <;> intro h <;> first | rfl | cases h

/-- C21, negation: two valid trees that compare equal although their families of dimension sets differ
(the comparison stops with `True` at the first level where the numbers of nodes differ). -/
theorem eq_unsound : ∃ T1 T2, Valid T1 ∧ Valid T2 ∧ eq T1 T2 = .ok true ∧ ¬ SameTree T1 T2 := by
  refine ⟨wit1, wit2, wit1_valid, wit2_valid, wit_eq, ?_⟩
  rintro ⟨_, h⟩
  -- node 7 of the first tree, at level 2, has dimensions {3, 4}; 3 is alone at level 2 of the second
  have root1 : IsRoot wit1 1 := ⟨by unfold IsNode; decide, fun i hi => by
    have := hi.2.2; simp [wit1, ofParents] at this⟩
  have root2 : IsRoot wit2 1 := ⟨by unfold IsNode; decide, fun i hi => by
    have := hi.2.2; simp [wit2, ofParents] at this⟩
  have l7 : HasLevel wit1 7 2 :=
    .child (.child (.root root1) (by unfold Edge IsNode; decide : Edge wit1 1 3))
      (by unfold Edge IsNode; decide)
  have l6 : HasLevel wit2 6 2 :=
    .child (.child (.root root2) (by unfold Edge IsNode; decide : Edge wit2 1 3))
      (by unfold Edge IsNode; decide)
  have m3 : 3 ∈ DimSet wit1 7 := ⟨9, by decide, .single (by unfold Edge IsNode; decide)⟩
  have m4 : 4 ∈ DimSet wit1 7 := ⟨10, by decide, .single (by unfold Edge IsNode; decide)⟩
  have hF : DimSet wit1 7 ∈ Family wit2 2 := by rw [← h 2]; exact ⟨7, l7, rfl⟩
  obtain ⟨j, hj, he⟩ := hF
  rw [he] at m3 m4
  obtain ⟨x, hx, hax⟩ := m3
  have hx6 : x = 6 := by
    have : wit2.dim2ind[3]? = some 6 := by decide
    rw [this] at hx; exact (Option.some.inj hx).symm
  subst hx6
  have hj6 := (hax.level_le wit2_valid hj l6).2 rfl
  subst hj6
  obtain ⟨y, hy, hay⟩ := m4
  have hy10 : y = 10 := by
    have : wit2.dim2ind[4]? = some 10 := by decide
    rw [this] at hy; exact (Option.some.inj hy).symm
  subst hy10
  rcases ancSelf_cases hay with h' | ⟨c, hc, _⟩
  · omega
  · exact ((wit2_valid.leaves 6).1 (by decide)).2 c hc

/-- The hypotheses of the constructor theorems are met: a linear tree with a shuffled order. -/
example : Valid (linear [2, 0, 3, 1]) ∧ Valid (balanced [2, 0, 3, 1]) ∧ Valid (trivial 4) :=
  ⟨linear_valid _ (by decide) (by decide), balanced_valid _ (by decide) (by decide), trivial_valid 4 (by decide)⟩

end Verif.DimTree
