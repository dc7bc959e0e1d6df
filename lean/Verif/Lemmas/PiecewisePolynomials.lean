import Verif.Spec.PiecewisePolynomials
import Verif.Props.Polynomials
import Mathlib.Data.List.GetD
import Mathlib.Algebra.BigOperators.Fin
import Mathlib.Algebra.BigOperators.Group.Finset.Basic
import Mathlib.Tactic.Linarith

/-! # Lemmas on meshes -/

namespace Verif.Piecewise

open Verif.Polynomials Polynomial

noncomputable section

theorem pairwise_getD {l : List ℝ} (h : l.Pairwise (· < ·)) {i j : ℕ} (hij : i < j) (hj : j < l.length) :
    l.getD i 0 < l.getD j 0 := by
  rw [List.getD_eq_getElem _ _ (by omega), List.getD_eq_getElem _ _ hj]
  exact List.pairwise_iff_getElem.1 h i j (by omega) hj hij

theorem pairwise_getD_le {l : List ℝ} (h : l.Pairwise (· < ·)) {i j : ℕ} (hij : i ≤ j) (hj : j < l.length) :
    l.getD i 0 ≤ l.getD j 0 := by
  rcases Nat.lt_or_ge i j with h1 | h1
  · exact (pairwise_getD h h1 hj).le
  · rw [show i = j by omega]

theorem locate_spec (points : List ℝ) (n : ℕ) (x : ℝ)
    (h : ∃ i < n, points.getD i 0 ≤ x ∧ x < points.getD (i + 1) 0) :
    locate points n x < n ∧ points.getD (locate points n x) 0 ≤ x ∧ x < points.getD (locate points n x + 1) 0 := by
  induction n with
  | zero => obtain ⟨i, hi, _⟩ := h; omega
  | succ n ih =>
    have e : locate points (n + 1) x
        = if points.getD n 0 ≤ x ∧ x < points.getD (n + 1) 0 then n else locate points n x := by
      unfold locate
      rw [List.range_succ, List.foldl_append, List.foldl_cons, List.foldl_nil]
    rw [e]
    split
    · next h' => exact ⟨by omega, h'⟩
    · next h' =>
      obtain ⟨i, hi, hx⟩ := h
      have : i ≠ n := by rintro rfl; exact h' hx
      have := ih ⟨i, by omega, hx⟩
      exact ⟨by omega, this.2⟩

theorem exists_element {l : List ℝ} (x : ℝ) (n : ℕ) (hl : l.length = n + 1) (h0 : l.getD 0 0 ≤ x) (h1 : x < l.getD n 0) :
    ∃ i < n, l.getD i 0 ≤ x ∧ x < l.getD (i + 1) 0 := by
  clear hl
  induction n with
  | zero => exact absurd h1 (not_lt.2 h0)
  | succ n ih =>
    rcases lt_or_ge x (l.getD n 0) with h | h
    · obtain ⟨i, hi, hx⟩ := ih h
      exact ⟨i, by omega, hx⟩
    · exact ⟨n, by omega, h, h1⟩

theorem length_setBlock (hx : List ℝ) (o n : ℕ) (v : ℕ → ℝ) : (setBlock hx o n v).length = hx.length := by
  simp [setBlock]

theorem getD_setBlock (hx : List ℝ) (o n : ℕ) (v : ℕ → ℝ) (c : ℕ) (hc : c < hx.length) :
    (setBlock hx o n v).getD c 0 = if o ≤ c ∧ c < o + n then v (c - o) else hx.getD c 0 := by
  rw [List.getD_eq_getElem _ _ (by rw [length_setBlock]; exact hc), List.getD_eq_getElem _ _ hc]
  unfold setBlock
  rw [List.getElem_mapIdx]

theorem offset_eq (b : PPB) (i : ℕ) (hi : i ≤ b.p.length) : b.offset i = ∑ l ∈ Finset.range i, (b.deg l + 1) := by
  induction i with
  | zero => simp [PPB.offset]
  | succ i ih =>
    rw [Finset.sum_range_succ, ← ih (by omega)]
    unfold PPB.offset PPB.deg
    rw [List.getD_eq_getElem _ _ (by omega), List.take_succ_eq_append_getElem (by omega), List.map_append, List.sum_append]
    simp

theorem cardinal_eq (b : PPB) : b.cardinal = b.count := by
  unfold PPB.count
  rw [← offset_eq b _ le_rfl]
  unfold PPB.offset PPB.cardinal
  rw [List.take_length]

theorem index_eq (b : PPB) (i j : ℕ) (hi : i ≤ b.p.length) : b.index i j = b.offset i + j := by
  rw [offset_eq b i hi]; rfl

theorem index_mono (b : PPB) {i i' : ℕ} (h : i < i') : b.index i (b.deg i + 1) ≤ b.index i' 0 := by
  unfold PPB.index
  rw [← Finset.sum_range_succ (fun l => b.deg l + 1), add_zero]
  exact Finset.sum_le_sum_of_subset (Finset.range_subset_range.2 (by omega))

theorem index_lt (b : PPB) {i j : ℕ} (hi : i < b.p.length) (hj : j ≤ b.deg i) : b.index i j < b.count := by
  have h1 : b.index i j < b.index i (b.deg i + 1) := by unfold PPB.index; omega
  have h2 : b.index i (b.deg i + 1) ≤ b.count := by
    unfold PPB.index PPB.count
    rw [← Finset.sum_range_succ (fun l => b.deg l + 1)]
    exact Finset.sum_le_sum_of_subset (Finset.range_subset_range.2 (by omega))
  omega

/-- The position of a function in the block of an element. -/
theorem index_block (b : PPB) {i j i' : ℕ} (hj : j ≤ b.deg i) :
    (b.index i' 0 ≤ b.index i j ∧ b.index i j < b.index i' 0 + (b.deg i' + 1)) ↔ i = i' := by
  have e : ∀ i j, b.index i j = b.index i 0 + j := fun i j => by unfold PPB.index; omega
  constructor
  · intro h
    rcases lt_trichotomy i i' with h' | h' | h'
    · have := index_mono b h'
      rw [e i (b.deg i + 1)] at this
      rw [e i j] at h
      omega
    · exact h'
    · have := index_mono b h'
      rw [e i' (b.deg i' + 1)] at this
      rw [e i j] at h
      omega
  · rintro rfl
    rw [e i j]
    omega

/-- Every position is that of one function of one element. -/
theorem exists_index (b : PPB) (n : ℕ) {k : ℕ} (hk : k < ∑ l ∈ Finset.range n, (b.deg l + 1)) :
    ∃ i < n, ∃ j ≤ b.deg i, k = b.index i j := by
  induction n with
  | zero => simp at hk
  | succ n ih =>
    rw [Finset.sum_range_succ] at hk
    rcases Nat.lt_or_ge k (∑ l ∈ Finset.range n, (b.deg l + 1)) with h | h
    · obtain ⟨i, hi, r⟩ := ih h
      exact ⟨i, by omega, r⟩
    · exact ⟨n, by omega, k - ∑ l ∈ Finset.range n, (b.deg l + 1), by omega, by unfold PPB.index; omega⟩

theorem fill_spec (b : PPB) (pos : ℕ) (v : ℕ → ℝ) (h : pos < b.ne) (hp : pos < b.p.length) :
    b.fill pos v = .ok (setBlock (List.replicate b.cardinal 0) (b.offset pos) (b.deg pos + 1) v) := by
  have hs : b.p[pos]? = some (b.deg pos) := by
    unfold PPB.deg
    rw [List.getD_eq_getElem _ _ hp, List.getElem?_eq_getElem hp]
  have key : ∀ n, (List.range n).foldlM (b.fillStep pos v) (List.replicate b.cardinal 0)
      = .ok (if pos < n then setBlock (List.replicate b.cardinal 0) (b.offset pos) (b.deg pos + 1) v
        else List.replicate b.cardinal 0) := by
    intro n
    induction n with
    | zero => simp [pure, Except.pure]
    | succ n ih =>
      rw [List.range_succ, List.foldlM_append, ih]
      simp only [bind, Except.bind, List.foldlM_cons, List.foldlM_nil, PPB.fillStep]
      by_cases hn : pos = n
      · rw [if_pos hn, if_neg (by omega), if_pos (by omega), ← hn, hs]
        rfl
      · rw [if_neg hn]
        by_cases hlt : pos < n
        · rw [if_pos hlt, if_pos (by omega)]; rfl
        · rw [if_neg hlt, if_neg (by omega)]; rfl
  unfold PPB.fill
  rw [key, if_pos h]

theorem fill_getD (b : PPB) (pos : ℕ) (v : ℕ → ℝ) {i j : ℕ} (hp : pos < b.p.length) (hi : i < b.p.length)
    (hj : j ≤ b.deg i) :
    (setBlock (List.replicate b.cardinal 0) (b.offset pos) (b.deg pos + 1) v).getD (b.index i j) 0
      = if i = pos then v j else 0 := by
  have hlt := index_lt b hi hj
  rw [← cardinal_eq] at hlt
  rw [getD_setBlock _ _ _ _ _ (by rw [List.length_replicate]; exact hlt)]
  have h := index_block b (i' := pos) hj
  have e0 : b.index pos 0 = b.offset pos := by rw [index_eq b pos 0 (by omega), add_zero]
  rw [e0] at h
  simp only [h]
  split
  · next e => subst e; rw [index_eq b i j (by omega)]; congr 1; omega
  · rw [List.getD_replicate _ hlt]

theorem PPB.Mesh.ne_eq {b : PPB} (hb : b.Mesh) : b.ne = b.p.length := by
  unfold PPB.ne; rw [hb.len]; omega

theorem PPB.Mesh.pos {b : PPB} (hb : b.Mesh) : 0 < b.p.length := List.length_pos_iff.2 hb.nonempty

theorem PPB.Mesh.size_pos {b : PPB} (hb : b.Mesh) {i : ℕ} (hi : i < b.p.length) : b.lo i < b.hi i :=
  pairwise_getD hb.increasing (by omega) (by rw [hb.len]; omega)

theorem PPB.Mesh.head {b : PPB} (hb : b.Mesh) : b.points.headD 0 = b.lo 0 := by
  unfold PPB.lo
  have := hb.len
  rcases h : b.points with _ | ⟨x, l⟩
  · rw [h] at this; simp at this
  · rfl

theorem PPB.Mesh.last {b : PPB} (hb : b.Mesh) : b.points.getLastD 0 = b.hi (b.p.length - 1) := by
  unfold PPB.hi
  have := hb.len
  have := hb.pos
  rw [List.getD_eq_getElem _ _ (by omega), List.getLastD_eq_getLast?, List.getLast?_eq_getElem?,
    List.getElem?_eq_getElem (by omega)]
  simp only [Option.getD_some]
  congr 1
  omega

/-- The coefficients of a polynomial in a sequence of polynomials of degrees 0, 1, 2... -/
theorem exists_coeffs (q : ℕ → ℝ[X]) (hq : ∀ i, (q i).natDegree = i) (h0 : ∀ i, q i ≠ 0) (n : ℕ) (P : ℝ[X])
    (hP : P.natDegree < n) : ∃ c : ℕ → ℝ, P = ∑ j ∈ Finset.range n, C (c j) * q j := by
  induction n generalizing P with
  | zero => omega
  | succ n ih =>
    have hl : (q n).leadingCoeff ≠ 0 := leadingCoeff_ne_zero.2 (h0 n)
    have hc : (q n).coeff n = (q n).leadingCoeff := by unfold leadingCoeff; rw [hq]
    set R := P - C (P.coeff n / (q n).leadingCoeff) * q n with hR
    have hRc : ∀ m, n ≤ m → R.coeff m = 0 := by
      intro m hm
      rw [hR, coeff_sub, coeff_C_mul]
      rcases Nat.eq_or_lt_of_le hm with h | h
      · subst h; rw [hc, div_mul_cancel₀ _ hl, sub_self]
      · rw [coeff_eq_zero_of_natDegree_lt (by omega), coeff_eq_zero_of_natDegree_lt (p := q n) (by rw [hq]; omega)]
        simp
    rcases Nat.eq_zero_or_pos n with hn | hn
    · subst hn
      have : R = 0 := by
        ext m; rw [hRc m (by omega), coeff_zero]
      refine ⟨fun _ => P.coeff 0 / (q 0).leadingCoeff, ?_⟩
      rw [Finset.sum_range_one]
      exact sub_eq_zero.1 (hR ▸ this)
    · have hRd : R.natDegree < n := by
        by_contra h'
        have h2 := hRc R.natDegree (by omega)
        have : R = 0 := leadingCoeff_eq_zero.1 h2
        rw [this] at h'
        simp at h'
        omega
      obtain ⟨c, hc'⟩ := ih R hRd
      refine ⟨fun j => if j = n then P.coeff n / (q n).leadingCoeff else c j, ?_⟩
      rw [Finset.sum_range_succ]; dsimp only; rw [if_pos rfl]
      have e : ∑ j ∈ Finset.range n, C (if j = n then P.coeff n / (q n).leadingCoeff else c j) * q j
          = ∑ j ∈ Finset.range n, C (c j) * q j :=
        Finset.sum_congr rfl (fun j hj => by rw [if_neg (by have := Finset.mem_range.1 hj; omega)])
      rw [e, ← hc', hR]
      ring

theorem coeffs_unique (q : ℕ → ℝ[X]) (hq : ∀ i, (q i).natDegree = i) (h0 : ∀ i, q i ≠ 0) (n : ℕ) (c : ℕ → ℝ)
    (h : ∑ j ∈ Finset.range n, C (c j) * q j = 0) : ∀ j < n, c j = 0 := by
  induction n with
  | zero => intro j hj; omega
  | succ n ih =>
    have hl : (q n).leadingCoeff ≠ 0 := leadingCoeff_ne_zero.2 (h0 n)
    have hc : (q n).coeff n = (q n).leadingCoeff := by unfold leadingCoeff; rw [hq]
    have hn : c n = 0 := by
      have := congrArg (fun p => coeff p n) h
      simp only [finset_sum_coeff, coeff_C_mul, coeff_zero] at this
      rw [Finset.sum_range_succ, Finset.sum_eq_zero, zero_add, hc] at this
      · exact (mul_eq_zero.1 this).resolve_right hl
      · intro j hj
        rw [coeff_eq_zero_of_natDegree_lt (by rw [hq]; exact Finset.mem_range.1 hj), mul_zero]
    rw [Finset.sum_range_succ, hn, C_0, zero_mul, add_zero] at h
    intro j hj
    rcases Nat.lt_or_ge j n with h' | h'
    · exact ih h j h'
    · rw [show j = n by omega, hn]

theorem list_ext_index (b : PPB) {c c' : List ℝ} (hc : c.length = b.count) (hc' : c'.length = b.count)
    (h : ∀ i < b.p.length, ∀ j ≤ b.deg i, c.getD (b.index i j) 0 = c'.getD (b.index i j) 0) : c = c' := by
  apply List.ext_getElem (by rw [hc, hc'])
  intro k h1 h2
  obtain ⟨i, hi, j, hj, e⟩ := exists_index b b.p.length (k := k) (by rw [hc] at h1; exact h1)
  have := h i hi j hj
  rw [← e, List.getD_eq_getElem _ _ h1, List.getD_eq_getElem _ _ h2] at this
  exact this

theorem exists_list_index (b : PPB) (f : ℕ → ℕ → ℝ) :
    ∃ c : List ℝ, c.length = b.count ∧ ∀ i < b.p.length, ∀ j ≤ b.deg i, c.getD (b.index i j) 0 = f i j := by
  have hex : ∀ k, ∃ v : ℝ, ∀ i j, j ≤ b.deg i → k = b.index i j → v = f i j := by
    intro k
    by_cases h : ∃ i j, j ≤ b.deg i ∧ k = b.index i j
    · obtain ⟨i, j, hj, e⟩ := h
      refine ⟨f i j, fun i' j' hj' e' => ?_⟩
      have hi : i = i' := (index_block b hj).1 (by rw [← e, e']; unfold PPB.index; omega)
      subst hi
      have : j = j' := by rw [e] at e'; unfold PPB.index at e'; omega
      rw [this]
    · exact ⟨0, fun i j hj e => absurd ⟨i, j, hj, e⟩ h⟩
  choose g hg using hex
  refine ⟨(List.range b.count).map g, by simp, fun i hi j hj => ?_⟩
  have hlt := index_lt b hi hj
  rw [List.getD_eq_getElem _ _ (by simpa using hlt), List.getElem_map, List.getElem_range]
  exact hg _ i j hj rfl

/-- A combination of values that vanish outside the block of an element. -/
theorem comb_block (b : PPB) {c row : List ℝ} (hc : c.length = b.count) {e : ℕ} (he : e < b.p.length) (v : ℕ → ℝ)
    (hrow : ∀ i < b.p.length, ∀ j ≤ b.deg i, row.getD (b.index i j) 0 = if i = e then v j else 0) :
    comb c row = ∑ j ∈ Finset.range (b.deg e + 1), c.getD (b.index e j) 0 * v j := by
  unfold comb
  rw [hc]
  have key : ∀ n, n ≤ b.p.length → ∑ k ∈ Finset.range (b.index n 0), c.getD k 0 * row.getD k 0
      = if e < n then ∑ j ∈ Finset.range (b.deg e + 1), c.getD (b.index e j) 0 * v j else 0 := by
    intro n hn
    induction n with
    | zero => simp [PPB.index]
    | succ n ih =>
      have e1 : b.index (n + 1) 0 = b.index n 0 + (b.deg n + 1) := by
        unfold PPB.index; rw [Finset.sum_range_succ]; omega
      rw [e1, Finset.sum_range_add, ih (by omega)]
      have e2 : ∑ x ∈ Finset.range (b.deg n + 1), c.getD (b.index n 0 + x) 0 * row.getD (b.index n 0 + x) 0
          = ∑ x ∈ Finset.range (b.deg n + 1), c.getD (b.index n x) 0 * (if n = e then v x else 0) := by
        refine Finset.sum_congr rfl (fun j hj => ?_)
        have e3 : b.index n 0 + j = b.index n j := by unfold PPB.index; omega
        rw [e3, hrow n (by omega) j (by have := Finset.mem_range.1 hj; omega)]
      rw [e2]
      by_cases hne : n = e
      · subst hne; simp
      · simp only [if_neg hne, mul_zero, Finset.sum_const_zero, add_zero]
        by_cases h' : e < n
        · rw [if_pos h', if_pos (by omega)]
        · rw [if_neg h', if_neg (by omega)]
  have := key b.p.length le_rfl
  rw [if_pos he] at this
  rw [← this]
  unfold PPB.count PPB.index
  rw [add_zero]

end

end Verif.Piecewise
