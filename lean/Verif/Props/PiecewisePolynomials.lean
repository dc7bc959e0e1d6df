import Verif.Lemmas.PiecewisePolynomials
import Verif.Props.PolyMoments
import Mathlib.LinearAlgebra.Lagrange
import Mathlib.MeasureTheory.Integral.IntervalIntegral.FundThmCalculus
import Mathlib.Analysis.SpecialFunctions.Integrals.Basic

/-!
# Properties C135-C140: piecewise polynomial bases
-/

namespace Verif.Piecewise

open Verif.Polynomials Polynomial

noncomputable section

/-! ## Elements -/

/-- **C135.** `element_number(x)` is the element that contains `x`, the first one on the left of the interval and the last
one on its right. -/
theorem elementNumber_spec (b : PPB) (hb : b.Mesh) (x : ℝ) :
    b.elementNumber x < b.p.length ∧
    (x < b.lo 0 → b.elementNumber x = 0) ∧
    (b.hi (b.p.length - 1) ≤ x → b.elementNumber x = b.p.length - 1) ∧
    (b.lo 0 ≤ x → x < b.hi (b.p.length - 1) → b.lo (b.elementNumber x) ≤ x ∧ x < b.hi (b.elementNumber x)) := by
  have hp := hb.pos
  have hlt : b.lo 0 < b.hi (b.p.length - 1) := pairwise_getD hb.increasing (by omega) (by rw [hb.len]; omega)
  have hne := hb.ne_eq
  have e : b.elementNumber x = if x < b.lo 0 then 0 else if b.hi (b.p.length - 1) ≤ x then b.p.length - 1
      else locate b.points b.p.length x := by
    unfold PPB.elementNumber
    rw [hb.head, hb.last, hne]
  rw [e]
  by_cases h1 : x < b.lo 0
  · simp only [if_pos h1]
    exact ⟨hp, fun _ => trivial, fun h => by linarith, fun h => by linarith⟩
  · simp only [if_neg h1]
    by_cases h2 : b.hi (b.p.length - 1) ≤ x
    · simp only [if_pos h2]
      exact ⟨by omega, fun h => absurd h h1, fun _ => trivial, fun _ h => by linarith⟩
    · simp only [if_neg h2]
      have h3 := locate_spec b.points b.p.length x (exists_element x b.p.length hb.len (not_lt.1 h1) (by
        have := not_le.1 h2
        unfold PPB.hi at this
        rwa [show b.p.length - 1 + 1 = b.p.length by omega] at this))
      exact ⟨h3.1, fun h => absurd h h1, fun h => absurd h h2, fun _ _ => h3.2⟩

theorem elementNumber_eq (b : PPB) (hb : b.Mesh) {x : ℝ} {i : ℕ} (hi : i < b.p.length) (h1 : b.lo i ≤ x) (h2 : x < b.hi i) :
    b.elementNumber x = i := by
  obtain ⟨e1, e2, e3, e4⟩ := elementNumber_spec b hb x
  have hl := hb.len
  have h0 : b.lo 0 ≤ x := le_trans (pairwise_getD_le hb.increasing (by omega) (by omega)) h1
  have h3 : x < b.hi (b.p.length - 1) := lt_of_lt_of_le h2 (pairwise_getD_le hb.increasing (by omega) (by omega))
  obtain ⟨h4, h5⟩ := e4 h0 h3
  rcases lt_trichotomy (b.elementNumber x) i with h | h | h
  · have : b.hi (b.elementNumber x) ≤ b.lo i := pairwise_getD_le hb.increasing (by omega) (by omega)
    linarith
  · exact h
  · have : b.hi i ≤ b.lo (b.elementNumber x) := pairwise_getD_le hb.increasing (by omega) (by omega)
    linarith

/-! ## Evaluation -/

theorem npMax_ok (l : List ℕ) (h : l ≠ []) : ∃ m, npMax l = .ok m ∧ ∀ i < l.length, l.getD i 0 ≤ m := by
  obtain ⟨m, h1, _, h3⟩ := npMax_spec l h
  exact ⟨m, h1, fun i hi => by rw [List.getD_eq_getElem _ _ hi]; exact h3 _ (List.getElem_mem hi)⟩

theorem evalRow_eq (b : PPB) (hb : b.Mesh) (q : ℕ → ℝ[X]) (hq : Evaluates (.lebesgue 0 1) q) (x : ℝ) :
    ∃ row : List ℝ, (∀ ind, b.evalRow x ind = pick ind row) ∧ row.length = b.count ∧
      ∀ i < b.p.length, ∀ j ≤ b.deg i, row.getD (b.index i j) 0 =
        if i = b.elementNumber x then (q j).eval ((x - b.lo i) / (b.hi i - b.lo i)) / Real.sqrt (b.hi i - b.lo i) else 0 := by
  have hp := hb.pos
  have he := (elementNumber_spec b hb x).1
  obtain ⟨m, hm, hm'⟩ := npMax_ok b.p hb.nonempty
  refine ⟨setBlock (List.replicate b.cardinal 0) (b.offset (b.elementNumber x)) (b.deg (b.elementNumber x) + 1)
      (fun j => at' ((List.range (m + 1)).map (fun i => (q i).eval ((x - b.left (b.elementNumber x)) / b.size (b.elementNumber x)))) j
        / Real.sqrt (b.size (b.elementNumber x))), fun ind => ?_, ?_, ?_⟩
  · unfold PPB.evalRow
    rw [if_neg (by rw [hb.ne_eq]; omega)]
    simp only [hm, bind, Except.bind, hq (List.range (m + 1)) (by simp)]
    rw [fill_spec b _ _ (by rw [hb.ne_eq]; exact he) he]
  · rw [length_setBlock, List.length_replicate, cardinal_eq]
  · intro i hi j hj
    rw [fill_getD b _ _ he hi hj]
    by_cases h : i = b.elementNumber x
    · rw [if_pos h, if_pos h, ← h]
      have : j < m + 1 := by have := hm' i hi; unfold PPB.deg at hj; omega
      unfold at'
      rw [List.getD_eq_getElem _ _ (by simpa using this), List.getElem_map, List.getElem_range]
      rfl
    · rw [if_neg h, if_neg h]

/-- **C136.** One row of `eval(x)` has `cardinal()` entries. Those of the functions of the element of `x` are the values of
the polynomials of the Lebesgue measure on `[0, 1]`, mapped to the element and divided by the square root of its length;
the other functions vanish. -/
theorem evalRow_spec (b : PPB) (hb : b.Mesh) (q : ℕ → ℝ[X]) (hq : Evaluates (.lebesgue 0 1) q) (x : ℝ) :
    ∃ row : List ℝ, b.evalRow x = .ok row ∧ row.length = b.count ∧ b.cardinal = b.count ∧
      ∀ i < b.p.length, ∀ j ≤ b.deg i, row.getD (b.index i j) 0 =
        if i = b.elementNumber x then (q j).eval ((x - b.lo i) / (b.hi i - b.lo i)) / Real.sqrt (b.hi i - b.lo i) else 0 := by
  obtain ⟨row, h1, h2, h3⟩ := evalRow_eq b hb q hq x
  exact ⟨row, h1 none, h2, cardinal_eq b, h3⟩

/-- `eval(x, indices)` gives the requested functions, an error if one does not exist. -/
theorem evalRow_indices (b : PPB) (hb : b.Mesh) (x : ℝ) (ind : List ℕ) :
    ∃ row : List ℝ, b.evalRow x = .ok row ∧
      ((∀ k ∈ ind, k < b.count) → b.evalRow x (some ind) = .ok (ind.map (fun k => row.getD k 0))) ∧
      ((∃ k ∈ ind, b.count ≤ k) → b.evalRow x (some ind) = .error .indexError) := by
  obtain ⟨q, hq, _⟩ := polyval_polynomials (.lebesgue 0 1) (by show (0 : ℝ) < 1; norm_num)
  obtain ⟨row, hrow, hl, _⟩ := evalRow_eq b hb q hq x
  refine ⟨row, hrow none, fun hk => ?_, fun hk => ?_⟩
  · rw [hrow (some ind)]
    refine mapM_ok ind _ _ (fun k hk' => ?_)
    have : k < row.length := by rw [hl]; exact hk k hk'
    rw [List.getElem?_eq_getElem this, List.getD_eq_getElem _ _ this]
  · rw [hrow (some ind)]
    show ind.mapM _ = _
    obtain ⟨k, hk', hge⟩ := hk
    induction ind with
    | nil => simp at hk'
    | cons a l ih =>
      rw [List.mapM_cons]
      rcases ha : row[a]? with _ | v
      · rfl
      · simp only [bind, Except.bind]
        have hkl : k ∈ l := by
          rcases List.mem_cons.1 hk' with h | h
          · subst h
            rw [List.getElem?_eq_none (by omega)] at ha
            exact absurd ha (by simp)
          · exact h
        rw [ih hkl]

theorem q_ne_zero {q : ℕ → ℝ[X]} (hq : Evaluates (.lebesgue 0 1) q) : (∀ i, (q i).natDegree = i) ∧ ∀ i, q i ≠ 0 := by
  obtain ⟨q', h1, h2⟩ := polyval_polynomials (.lebesgue 0 1) (by show (0 : ℝ) < 1; norm_num)
  have e : q = q' := by rw [evaluates_eq hq, evaluates_eq h1]
  subst e
  refine ⟨h2, fun i h => ?_⟩
  have h3 := lebesgue_orthogonal 0 1 (by norm_num) q hq i i
  rw [h] at h3
  simp [Meas.E] at h3

/-! ## The functions are a basis of the piecewise polynomials -/

theorem elementNumber_holds (b : PPB) (hb : b.Mesh) {x : ℝ} {i : ℕ} (hi : i < b.p.length) (h : b.Holds i x) :
    b.elementNumber x = i := by
  rcases h.2 with h2 | ⟨h2, h3⟩
  · exact elementNumber_eq b hb hi h.1 h2
  · have e : i = b.p.length - 1 := by omega
    rw [(elementNumber_spec b hb x).2.2.1 (by rw [h3, e])]
    omega

/-- The polynomial of a combination on an element. -/
def elemPoly (b : PPB) (q : ℕ → ℝ[X]) (c : List ℝ) (i : ℕ) : ℝ[X] :=
  (∑ j ∈ Finset.range (b.deg i + 1), C (c.getD (b.index i j) 0 / Real.sqrt (b.hi i - b.lo i)) * q j).comp
    (C (1 / (b.hi i - b.lo i)) * (X - C (b.lo i)))

theorem elemPoly_eval (b : PPB) (hb : b.Mesh) (q : ℕ → ℝ[X]) (hq : Evaluates (.lebesgue 0 1) q) {c : List ℝ}
    (hc : c.length = b.count) {i : ℕ} (hi : i < b.p.length) {x : ℝ} (h : b.Holds i x) :
    ∃ row, b.evalRow x = .ok row ∧ comb c row = (elemPoly b q c i).eval x := by
  obtain ⟨row, h1, h2, _, h3⟩ := evalRow_spec b hb q hq x
  refine ⟨row, h1, ?_⟩
  rw [elementNumber_holds b hb hi h] at h3
  rw [comb_block b hc hi (fun j => (q j).eval ((x - b.lo i) / (b.hi i - b.lo i)) / Real.sqrt (b.hi i - b.lo i))
    (fun i' hi' j hj => by
      rw [h3 i' hi' j hj]
      by_cases he : i' = i
      · rw [if_pos he, if_pos he, he]
      · rw [if_neg he, if_neg he])]
  unfold elemPoly
  rw [eval_comp, eval_finset_sum]
  simp only [eval_mul, eval_C, eval_sub, eval_X]
  refine Finset.sum_congr rfl (fun j _ => ?_)
  rw [show 1 / (b.hi i - b.lo i) * (x - b.lo i) = (x - b.lo i) / (b.hi i - b.lo i) by ring]
  ring

theorem comp_inj {m s : ℝ} (hs : s ≠ 0) {p p' : ℝ[X]}
    (h : p.comp (C (1 / s) * (X - C m)) = p'.comp (C (1 / s) * (X - C m))) : p = p' := by
  have := congrArg (fun r => r.comp (C m + C s * X)) h
  simp only [comp_assoc, aff_comp hs, comp_X] at this
  exact this

theorem elemPoly_inj (b : PPB) (hb : b.Mesh) (q : ℕ → ℝ[X]) (hq : Evaluates (.lebesgue 0 1) q) {c c' : List ℝ}
    (hc : c.length = b.count) (hc' : c'.length = b.count)
    (h : ∀ i < b.p.length, elemPoly b q c i = elemPoly b q c' i) : c = c' := by
  obtain ⟨hd, h0⟩ := q_ne_zero hq
  refine list_ext_index b hc hc' (fun i hi j hj => ?_)
  have hs := sub_pos.2 (hb.size_pos hi)
  have h1 := comp_inj hs.ne' (h i hi)
  have h2 := coeffs_unique q hd h0 (b.deg i + 1)
    (fun j => c.getD (b.index i j) 0 / Real.sqrt (b.hi i - b.lo i) - c'.getD (b.index i j) 0 / Real.sqrt (b.hi i - b.lo i)) (by
      simp only [C_sub, sub_mul, Finset.sum_sub_distrib]
      rw [h1, sub_self]) j (by omega)
  have hsq := Real.sqrt_pos.2 hs
  have h3 := sub_eq_zero.1 h2
  exact (div_left_inj' hsq.ne').1 h3

theorem elemPoly_degree (b : PPB) (q : ℕ → ℝ[X]) (hq : Evaluates (.lebesgue 0 1) q) (c : List ℝ) (i : ℕ) :
    (elemPoly b q c i).natDegree ≤ b.deg i := by
  obtain ⟨hd, h0⟩ := q_ne_zero hq
  unfold elemPoly
  refine le_trans natDegree_comp_le ?_
  have h1 : (∑ j ∈ Finset.range (b.deg i + 1), C (c.getD (b.index i j) 0 / Real.sqrt (b.hi i - b.lo i)) * q j).natDegree ≤ b.deg i := by
    refine natDegree_sum_le_of_forall_le _ _ (fun j hj => le_trans (natDegree_C_mul_le _ _) ?_)
    rw [hd]
    have := Finset.mem_range.1 hj
    omega
  have h2 : (C (1 / (b.hi i - b.lo i)) * (X - C (b.lo i)) : ℝ[X]).natDegree ≤ 1 := by
    refine le_trans (natDegree_C_mul_le _ _) (by rw [natDegree_X_sub_C])
  calc _ ≤ b.deg i * 1 := Nat.mul_le_mul h1 h2
    _ = _ := mul_one _

theorem elemPoly_surj (b : PPB) (hb : b.Mesh) (q : ℕ → ℝ[X]) (hq : Evaluates (.lebesgue 0 1) q) (P : ℕ → ℝ[X])
    (hP : ∀ i < b.p.length, (P i).natDegree ≤ b.deg i) :
    ∃ c : List ℝ, c.length = b.count ∧ ∀ i < b.p.length, elemPoly b q c i = P i := by
  obtain ⟨hd, h0⟩ := q_ne_zero hq
  have hex : ∀ i, ∃ d : ℕ → ℝ, i < b.p.length →
      (P i).comp (C (b.lo i) + C (b.hi i - b.lo i) * X) = ∑ j ∈ Finset.range (b.deg i + 1), C (d j) * q j := by
    intro i
    by_cases hi : i < b.p.length
    · obtain ⟨d, hd'⟩ := exists_coeffs q hd h0 (b.deg i + 1) ((P i).comp (C (b.lo i) + C (b.hi i - b.lo i) * X)) (by
        have h1 := hP i hi
        have h2 : (C (b.lo i) + C (b.hi i - b.lo i) * X : ℝ[X]).natDegree ≤ 1 := by
          rw [add_comm]; exact natDegree_linear_le
        have : ((P i).comp (C (b.lo i) + C (b.hi i - b.lo i) * X)).natDegree ≤ b.deg i * 1 :=
          le_trans natDegree_comp_le (Nat.mul_le_mul h1 h2)
        omega)
      exact ⟨d, fun _ => hd'⟩
    · exact ⟨fun _ => 0, fun h => absurd h hi⟩
  choose d hd' using hex
  obtain ⟨c, hc, hc'⟩ := exists_list_index b (fun i j => d i j * Real.sqrt (b.hi i - b.lo i))
  refine ⟨c, hc, fun i hi => ?_⟩
  have hs := sub_pos.2 (hb.size_pos hi)
  have hsq := Real.sqrt_pos.2 hs
  unfold elemPoly
  have e : ∑ j ∈ Finset.range (b.deg i + 1), C (c.getD (b.index i j) 0 / Real.sqrt (b.hi i - b.lo i)) * q j
      = (P i).comp (C (b.lo i) + C (b.hi i - b.lo i) * X) := by
    rw [hd' i hi]
    refine Finset.sum_congr rfl (fun j hj => ?_)
    rw [hc' i hi j (by have := Finset.mem_range.1 hj; omega), mul_div_cancel_right₀ _ hsq.ne']
  rw [e, comp_assoc]
  have : (C (b.lo i) + C (b.hi i - b.lo i) * X : ℝ[X]).comp (C (1 / (b.hi i - b.lo i)) * (X - C (b.lo i))) = X := by
    simp only [add_comp, C_comp, mul_comp, X_comp]
    rw [← mul_assoc, ← C_mul, mul_one_div_cancel hs.ne', C_1, one_mul]
    ring
  rw [this, comp_X]

theorem infinite_holds (b : PPB) (hb : b.Mesh) {i : ℕ} (hi : i < b.p.length) : Set.Infinite {x | b.Holds i x} :=
  (Set.Ico_infinite (hb.size_pos hi)).mono (fun _ hx => ⟨hx.1, Or.inl hx.2⟩)

/-- **C136.** The functions are a basis of the piecewise polynomials: whatever the polynomials of degree at most the degree
of each element, there is one and only one list of coefficients whose combination is equal to them on the elements. -/
theorem piecewise_basis (b : PPB) (hb : b.Mesh) (P : ℕ → ℝ[X]) (hP : ∀ i < b.p.length, (P i).natDegree ≤ b.deg i) :
    ∃! c : List ℝ, c.length = b.cardinal ∧ ∀ i < b.p.length, ∀ x, b.Holds i x →
      ∃ row, b.evalRow x = .ok row ∧ comb c row = (P i).eval x := by
  obtain ⟨q, hq, _⟩ := polyval_polynomials (.lebesgue 0 1) (by show (0 : ℝ) < 1; norm_num)
  simp only [cardinal_eq]
  obtain ⟨c, hc, hcP⟩ := elemPoly_surj b hb q hq P hP
  refine ⟨c, ⟨hc, fun i hi x hx => ?_⟩, ?_⟩
  · rw [← hcP i hi]
    exact elemPoly_eval b hb q hq hc hi hx
  · rintro c' ⟨hc', h'⟩
    refine elemPoly_inj b hb q hq hc' hc (fun i hi => ?_)
    rw [hcP i hi]
    refine eq_of_infinite_eval_eq _ _ ((infinite_holds b hb hi).mono (fun x hx => ?_))
    obtain ⟨row, h1, h2⟩ := elemPoly_eval b hb q hq hc' hi hx
    obtain ⟨row', h3, h4⟩ := h' i hi x hx
    rw [h1] at h3
    obtain rfl : row = row' := by cases h3; rfl
    show eval x _ = eval x _
    rw [← h2, h4]

/-! ## Orthogonality -/

/-- **C137.** (Partial.) The functions are orthogonal for the Lebesgue measure on the interval, but their squared norms are
1/2: the attribute `is_orthonormal` is wrong. -/
theorem gram_partial (b : PPB) (hb : b.Mesh) (F : ℕ → ℝ → ℝ)
    (hF : ∀ x, b.evalRow x = .ok ((List.range b.cardinal).map (fun k => F k x))) (k l : ℕ) (hk : k < b.cardinal)
    (hl : l < b.cardinal) :
    (Meas.lebesgue (b.lo 0) (b.hi (b.p.length - 1))).E (fun x => F k x * F l x) = if k = l then 1 / 2 else 0 := by
  obtain ⟨q, hq, _⟩ := polyval_polynomials (.lebesgue 0 1) (by show (0 : ℝ) < 1; norm_num)
  have hpos := hb.pos
  rw [cardinal_eq] at hk hl
  obtain ⟨i, hi, j, hj, rfl⟩ := exists_index b b.p.length hk
  obtain ⟨i', hi', j', hj', rfl⟩ := exists_index b b.p.length hl
  have hval : ∀ e < b.p.length, ∀ x ∈ Set.Ioo (b.lo e) (b.hi e), ∀ i < b.p.length, ∀ j ≤ b.deg i,
      F (b.index i j) x = if i = e then (q j).eval (x / (b.hi e - b.lo e) - b.lo e / (b.hi e - b.lo e)) / Real.sqrt (b.hi e - b.lo e) else 0 := by
    intro e he x hx i hi j hj
    obtain ⟨row, h1, h2, _, h3⟩ := evalRow_spec b hb q hq x
    have h4 := hF x
    rw [h1] at h4
    have h5 : row = (List.range b.cardinal).map (fun k => F k x) := by cases h4; rfl
    have h6 := h3 i hi j hj
    rw [elementNumber_eq b hb he hx.1.le hx.2, h5, List.getD_eq_getElem _ _ (by
      rw [List.length_map, List.length_range, cardinal_eq]; exact index_lt b hi hj), List.getElem_map, List.getElem_range] at h6
    rw [h6]
    by_cases h : i = e
    · rw [if_pos h, if_pos h, h, sub_div]
    · rw [if_neg h, if_neg h]
  have hprod : ∀ e < b.p.length, Set.EqOn (fun x => F (b.index i j) x * F (b.index i' j') x)
      (fun x => if i = e ∧ i' = e then
        ((q j).eval (x / (b.hi e - b.lo e) - b.lo e / (b.hi e - b.lo e)) * (q j').eval (x / (b.hi e - b.lo e) - b.lo e / (b.hi e - b.lo e)))
          / (b.hi e - b.lo e) else 0) (Set.Ioo (b.lo e) (b.hi e)) := by
    intro e he x hx
    have hs := sub_pos.2 (hb.size_pos he)
    simp only
    rw [hval e he x hx i hi j hj, hval e he x hx i' hi' j' hj']
    by_cases h : i = e
    · by_cases h' : i' = e
      · rw [if_pos h, if_pos h', if_pos ⟨h, h'⟩, div_mul_div_comm, Real.mul_self_sqrt hs.le]
      · have h2 : ¬ (i = e ∧ i' = e) := fun hh => h' hh.2
        rw [if_neg h', if_neg h2, mul_zero]
    · have h2 : ¬ (i = e ∧ i' = e) := fun hh => h hh.1
      rw [if_neg h, if_neg h2, zero_mul]
  have hcont : ∀ e, Continuous (fun x => if i = e ∧ i' = e then
        ((q j).eval (x / (b.hi e - b.lo e) - b.lo e / (b.hi e - b.lo e)) * (q j').eval (x / (b.hi e - b.lo e) - b.lo e / (b.hi e - b.lo e)))
          / (b.hi e - b.lo e) else (0 : ℝ)) := by
    intro e
    split
    · have h1 : Continuous (fun x : ℝ => x / (b.hi e - b.lo e) - b.lo e / (b.hi e - b.lo e)) :=
        (continuous_id.div_const _).sub continuous_const
      exact (((q j).continuous.comp h1).mul ((q j').continuous.comp h1)).div_const _
    · exact continuous_const
  have hint : ∀ e < b.p.length, IntervalIntegrable (fun x => F (b.index i j) x * F (b.index i' j') x) MeasureTheory.volume
      (b.points.getD e 0) (b.points.getD (e + 1) 0) := by
    intro e he
    have hle := (hb.size_pos he).le
    refine ((hcont e).intervalIntegrable _ _).congr_uIoo ?_
    show Set.EqOn _ _ (Set.uIoo (b.lo e) (b.hi e))
    rw [Set.uIoo_of_le hle]
    exact (hprod e he).symm
  show ∫ x in b.lo 0..b.hi (b.p.length - 1), F (b.index i j) x * F (b.index i' j') x = _
  have hlast : b.hi (b.p.length - 1) = b.points.getD b.p.length 0 := by
    unfold PPB.hi; congr 1; omega
  rw [hlast]
  show ∫ x in b.points.getD 0 0..b.points.getD b.p.length 0, F (b.index i j) x * F (b.index i' j') x = _
  rw [← intervalIntegral.sum_integral_adjacent_intervals (a := fun e => b.points.getD e 0) hint]
  have hel : ∀ e ∈ Finset.range b.p.length, ∫ x in b.points.getD e 0..b.points.getD (e + 1) 0, F (b.index i j) x * F (b.index i' j') x
      = if e = i then (if i = i' ∧ j = j' then 1 / 2 else 0) else 0 := by
    intro e he
    have he := Finset.mem_range.1 he
    have hlt := hb.size_pos he
    have hs := sub_pos.2 hlt
    show ∫ x in b.lo e..b.hi e, F (b.index i j) x * F (b.index i' j') x = _
    rw [intervalIntegral.integral_congr_Ioo_of_le hlt.le (hprod e he)]
    by_cases h : e = i
    · subst h
      rw [if_pos rfl]
      by_cases h' : e = i'
      · subst h'
        simp only [and_self, if_true, true_and]
        rw [intervalIntegral.integral_div, intervalIntegral.integral_comp_div_sub
          (fun u => (q j).eval u * (q j').eval u) hs.ne']
        have e1 : b.lo e / (b.hi e - b.lo e) - b.lo e / (b.hi e - b.lo e) = 0 := sub_self _
        have e2 : b.hi e / (b.hi e - b.lo e) - b.lo e / (b.hi e - b.lo e) = 1 := by
          rw [← sub_div, div_self hs.ne']
        rw [e1, e2]
        have h3 := lebesgue_orthogonal 0 1 (by norm_num) q hq j j'
        have h4 : ∫ u in (0 : ℝ)..1, (q j).eval u * (q j').eval u = if j = j' then (1 - 0) / 2 else 0 := h3
        rw [h4, smul_eq_mul, mul_div_cancel_left₀ _ hs.ne']
        norm_num
      · have h2 : ¬ (i' = e) := fun hh => h' hh.symm
        have h3 : ¬ (e = i' ∧ j = j') := fun hh => h' hh.1
        simp only [h2, and_false, if_false, if_neg h3, intervalIntegral.integral_zero]
    · have h2 : ¬ (i = e ∧ i' = e) := fun hh => h hh.1.symm
      simp only [if_neg h2, if_neg h, intervalIntegral.integral_zero]
  rw [Finset.sum_congr rfl hel, Finset.sum_ite_eq' , if_pos (Finset.mem_range.2 hi)]
  have hiff : (i = i' ∧ j = j') ↔ b.index i j = b.index i' j' := by
    constructor
    · rintro ⟨rfl, rfl⟩; rfl
    · intro h
      have h1 : i = i' := (index_block b hj).1 (by rw [h]; unfold PPB.index; omega)
      subst h1
      exact ⟨rfl, by unfold PPB.index at h; omega⟩
  simp only [hiff]

/-- Such functions exist, so that no function of a basis has norm 1. -/
theorem not_orthonormal (b : PPB) (hb : b.Mesh) : ∃ F : ℕ → ℝ → ℝ,
    (∀ x, b.evalRow x = .ok ((List.range b.cardinal).map (fun k => F k x))) ∧
    ∀ k < b.cardinal, (Meas.lebesgue (b.lo 0) (b.hi (b.p.length - 1))).E (fun x => F k x ^ 2) ≠ 1 := by
  obtain ⟨q, hq, _⟩ := polyval_polynomials (.lebesgue 0 1) (by show (0 : ℝ) < 1; norm_num)
  choose row h1 h2 h3 _ using fun x => evalRow_spec b hb q hq x
  have hF : ∀ x, b.evalRow x = .ok ((List.range b.cardinal).map (fun k => (row x).getD k 0)) := by
    intro x
    rw [h1 x]
    congr 1
    apply List.ext_getElem (by rw [h2, List.length_map, List.length_range, cardinal_eq])
    intro k hk hk'
    rw [List.getElem_map, List.getElem_range, List.getD_eq_getElem _ _ hk]
  refine ⟨fun k x => (row x).getD k 0, hF, fun k hk => ?_⟩
  have h := gram_partial b hb _ hF k k hk hk
  simp only [pow_two]
  rw [h, if_pos rfl]
  norm_num

/-! ## Derivatives -/

/-- **C138.** (Partial.) `eval_derivative(k, x)` scales the derivatives that the polynomials of the Lebesgue measure on
`[0, 1]` return at the mapped point as the derivatives of a function of `(x - lo) / (hi - lo)` must be; they vanish on the
other elements. -/
theorem evalDerivativeRow_partial (b : PPB) (hb : b.Mesh) (k : ℕ) (x : ℝ) (m : ℕ) (hm : ∀ i < b.p.length, b.deg i ≤ m)
    (hm' : ∃ i < b.p.length, b.deg i = m) (D : List ℝ)
    (hD : (Meas.lebesgue 0 1).orthonormalPolynomials.dnPolyval k (List.range (m + 1))
      ((x - b.lo (b.elementNumber x)) / (b.hi (b.elementNumber x) - b.lo (b.elementNumber x))) = .ok D) :
    ∃ row : List ℝ, b.evalDerivativeRow k x = .ok row ∧ row.length = b.count ∧
      ∀ i < b.p.length, ∀ j ≤ b.deg i, row.getD (b.index i j) 0 =
        if i = b.elementNumber x then D.getD j 0 / (Real.sqrt (b.hi i - b.lo i) * (b.hi i - b.lo i) ^ k) else 0 := by
  have hp := hb.pos
  have he := (elementNumber_spec b hb x).1
  obtain ⟨m', h1, h2, h3⟩ := npMax_spec b.p hb.nonempty
  have hmm : m' = m := by
    obtain ⟨n, hn, e⟩ := List.getElem_of_mem h2
    obtain ⟨i, hi, e'⟩ := hm'
    have h4 := hm n hn
    unfold PPB.deg at h4 e'
    rw [List.getD_eq_getElem _ _ hn, e] at h4
    rw [List.getD_eq_getElem _ _ hi] at e'
    have h5 := h3 _ (List.getElem_mem hi)
    omega
  subst hmm
  refine ⟨setBlock (List.replicate b.cardinal 0) (b.offset (b.elementNumber x)) (b.deg (b.elementNumber x) + 1)
      (fun j => at' D j / Real.sqrt (b.size (b.elementNumber x)) * (b.size (b.elementNumber x)) ^ (-(k : ℤ))), ?_, ?_, ?_⟩
  · unfold PPB.evalDerivativeRow
    rw [if_neg (by rw [hb.ne_eq]; omega)]
    have hD' : (Meas.lebesgue 0 1).orthonormalPolynomials.dnPolyval k (List.range (m' + 1))
      ((x - b.left (b.elementNumber x)) / b.size (b.elementNumber x)) = .ok D := hD
    simp only [h1, bind, Except.bind, hD']
    rw [fill_spec b _ _ (by rw [hb.ne_eq]; exact he) he]
    rfl
  · rw [length_setBlock, List.length_replicate, cardinal_eq]
  · intro i hi j hj
    rw [fill_getD b _ _ he hi hj]
    by_cases h : i = b.elementNumber x
    · rw [if_pos h, if_pos h, ← h, zpow_neg, zpow_natCast, div_mul_eq_div_mul_one_div, one_div]
      rfl
    · rw [if_neg h, if_neg h]

/-- The derivative of order 0 is the value. -/
theorem evalDerivativeRow_zero (b : PPB) (hb : b.Mesh) (x : ℝ) : b.evalDerivativeRow 0 x = b.evalRow x := by
  have h : ∀ m u, (Meas.lebesgue 0 1).orthonormalPolynomials.dnPolyval 0 (List.range (m + 1)) u
      = (Meas.lebesgue 0 1).orthonormalPolynomials.polyval (List.range (m + 1)) u := by
    intro m u
    have hs : (Meas.lebesgue 0 1).orthonormalPolynomials = ⟨.legendreLebesgue, some ((0 + 1) / 2, (1 - 0) / 2)⟩ := by
      unfold Meas.orthonormalPolynomials
      norm_num
    rw [hs]
    show (Family.legendreLebesgue.poly.dnPolyval 0 (List.range (m + 1)) _ >>= fun out => .ok (out.map (fun v => v / _ ^ 0)))
      = Family.legendreLebesgue.poly.polyval (List.range (m + 1)) _
    obtain ⟨m', h1, h2, h3⟩ := npMax_spec (List.range (m + 1)) (by simp)
    have e : m' = m := by
      have a1 := List.mem_range.1 h2
      have a2 := h3 m (List.mem_range.2 (by omega))
      omega
    subst e
    have hp := fun y => Polynomials.polyval_eq (family_rec .legendreLebesgue) (List.range (m' + 1)) (by simp) (fun _ _ => trivial) y
    obtain ⟨r, hr, _⟩ := family_rec .legendreLebesgue m' trivial
    unfold OrthPoly.dnPolyval
    simp only [h1, hr, hp, bind, Except.bind, List.range'_zero, List.foldl_nil, pow_zero, div_one, List.map_id']
    congr 1
    refine List.map_congr_left (fun i hi => ?_)
    unfold at'
    rw [List.getD_eq_getElem _ _ (by simpa using hi), List.getElem_map, List.getElem_range]
  unfold PPB.evalDerivativeRow PPB.evalRow
  simp only [h, Nat.cast_zero, neg_zero, zpow_zero, mul_one]

/-- For larger orders the derivatives are wrong: on `[0, 1]` with one element of degree 1, the code answers `2 sqrt 3` for
the derivative of the second function, which is `sqrt 6`. -/
theorem evalDerivativeRow_wrong (x : ℝ) : ∃ f : ℝ → ℝ,
    (∀ y, ∃ v, (⟨[0, 1], [1]⟩ : PPB).evalRow y = .ok [v, f y]) ∧
    (⟨[0, 1], [1]⟩ : PPB).evalDerivativeRow 1 x = .ok [0, 2 * Real.sqrt 3] ∧
    deriv f x = Real.sqrt 6 ∧ 2 * Real.sqrt 3 ≠ Real.sqrt 6 := by
  have hm : (Meas.lebesgue 0 1).Proper := by show (0 : ℝ) < 1; norm_num
  have hb : (⟨[0, 1], [1]⟩ : PPB).Mesh := ⟨by simp, rfl, by simp⟩
  have hs3 : (0 : ℝ) < Real.sqrt 3 := Real.sqrt_pos.2 (by norm_num)
  have hs2 : (0 : ℝ) < Real.sqrt 2 := Real.sqrt_pos.2 (by norm_num)
  have hbq : Real.sqrt (1 / 3) = 1 / Real.sqrt 3 := by rw [Real.sqrt_div (by norm_num)]; simp
  have hs : (Meas.lebesgue 0 1).orthonormalPolynomials = ⟨.legendreLebesgue, some ((0 + 1) / 2, (1 - 0) / 2)⟩ := by
    unfold Meas.orthonormalPolynomials
    norm_num
  have hb1 : Family.legendreLebesgue.b 1 = 1 / 3 := by
    show bLeg 1 = _
    unfold bLeg; norm_num
  have e0 : ∀ y, (⟨[0, 1], [1]⟩ : PPB).elementNumber y = 0 := fun y => by
    have := (elementNumber_spec _ hb y).1
    simp at this
    exact this
  have hq := polys_evaluates (.lebesgue 0 1)
  refine ⟨fun y => (polys (.lebesgue 0 1) 1).eval y, fun y => ?_, ?_, ?_, ?_⟩
  · obtain ⟨row, h1, h2, _, h3⟩ := evalRow_spec _ hb _ hq y
    have h4 := h3 0 (by simp) 1 (by simp [PPB.deg])
    rw [e0, if_pos rfl] at h4
    have h5 : row.length = 2 := by rw [h2]; simp [PPB.count, PPB.deg]
    match row, h5 with
    | [v, w], _ =>
      refine ⟨v, ?_⟩
      rw [h1]
      simp [PPB.index, PPB.lo, PPB.hi] at h4
      rw [h4]
  · have hD : (Meas.lebesgue 0 1).orthonormalPolynomials.dnPolyval 1 (List.range (1 + 1)) x = .ok [0, 2 * Real.sqrt 3] := by
      rw [hs]
      show (Family.legendreLebesgue.poly.dnPolyval 1 (List.range (1 + 1)) _ >>= fun out => .ok (out.map (fun v => v / _ ^ 1))) = _
      have hp := Polynomials.polyval_eq (family_rec .legendreLebesgue) (List.range (1 + 1)) (by simp) (fun _ _ => trivial)
        ((x - (0 + 1) / 2) / ((1 - 0) / 2))
      have hr : Family.legendreLebesgue.poly.recurrenceMonic 1 = .ok (legendreLebesgueRec 1) := rfl
      have hn : npMax (List.range (1 + 1)) = .ok 1 := rfl
      unfold OrthPoly.dnPolyval
      rw [hn]
      simp only [bind, Except.bind, hr, hp]
      have hb1' : at' (legendreLebesgueRec 1).1.2 1 = 1 / 3 := by
        unfold legendreLebesgueRec
        rw [at'_map_range _ _ _ (by norm_num)]
        norm_num
      simp only [List.range'_one, List.foldl_cons, List.foldl_nil, dnRow, hb1', hbq]
      simp [at', List.range_succ]
      ring
    obtain ⟨row, h1, h2, h3⟩ := evalDerivativeRow_partial _ hb 1 x 1 (by simp [PPB.deg]) ⟨0, by simp, by simp [PPB.deg]⟩
      [0, 2 * Real.sqrt 3] (by rw [e0]; simpa [PPB.lo, PPB.hi] using hD)
    have h4 := h3 0 (by simp) 1 (by simp [PPB.deg])
    have h4' := h3 0 (by simp) 0 (by simp [PPB.deg])
    rw [e0, if_pos rfl] at h4 h4'
    have h5 : row.length = 2 := by rw [h2]; simp [PPB.count, PPB.deg]
    match row, h5 with
    | [v, w], _ =>
      rw [h1]
      simp [PPB.index, PPB.lo, PPB.hi] at h4 h4'
      rw [h4, h4']
  · rw [Polynomial.deriv]
    have hms := Meas.ms (.lebesgue 0 1) hm
    simp only [Prod.mk.injEq] at hms
    have hf : (Meas.lebesgue 0 1).fam = .legendreLebesgue := by unfold Meas.fam; rw [hs]
    unfold polys
    rw [hms.1, hms.2, hf, pp_one, hb1, hbq]
    show eval x (derivative (C (1 / Real.sqrt (1 - -1)) * _)) = _
    have h6 : Real.sqrt 6 = Real.sqrt 2 * Real.sqrt 3 := by
      rw [← Real.sqrt_mul (by norm_num)]; norm_num
    simp
    rw [show (1 : ℝ) + 1 = 2 by norm_num, h6]
    field_simp
    rw [Real.sq_sqrt (by norm_num)]
  · intro h
    have h6 : Real.sqrt 6 = Real.sqrt 2 * Real.sqrt 3 := by
      rw [← Real.sqrt_mul (by norm_num)]; norm_num
    rw [h6] at h
    have h7 := mul_right_cancel₀ hs3.ne' h
    have h8 : Real.sqrt 2 ^ 2 = 2 := Real.sq_sqrt (by norm_num)
    rw [← h7] at h8
    norm_num at h8

/-! ## Interpolation -/

/-- **C139.** `interpolation_points()` gives as many points as there are functions, those of an element being different
points of its interior. -/
theorem interpolationPoints_spec (b : PPB) (hb : b.Mesh) :
    ∃ pts, b.interpolationPoints = .ok pts ∧ pts.length = b.cardinal ∧
      ∀ i < b.p.length, ∀ j ≤ b.deg i, b.lo i < pts.getD (b.index i j) 0 ∧ pts.getD (b.index i j) 0 < b.hi i ∧
        ∀ j' < j, pts.getD (b.index i j) 0 < pts.getD (b.index i j') 0 := by
  have hs : ∀ i, i < b.p.length → b.p[i]? = some (b.deg i) := by
    intro i hp
    unfold PPB.deg
    rw [List.getD_eq_getElem _ _ hp, List.getElem?_eq_getElem hp]
  have hnode : ∀ i j, j ≤ b.deg i →
      at' ((chebyshevPoints (b.deg i + 1)).map (fun t => 1 / 2 * (1 + t))) j
        = 1 / 2 * (1 + Real.cos (Real.pi * (2 * ((j : ℝ) + 1) - 1) / 2 / ((b.deg i + 1 : ℕ) : ℝ))) := by
    intro i j hj
    unfold at' chebyshevPoints
    rw [List.getD_eq_getElem _ _ (by simp; omega)]
    simp
  have key : ∀ n, n ≤ b.p.length → ∃ pts, (List.range n).foldlM b.interpStep (List.replicate b.cardinal 0) = .ok pts ∧
      pts.length = b.count ∧ ∀ i < n, ∀ j ≤ b.deg i, pts.getD (b.index i j) 0 =
        b.lo i + 1 / 2 * (1 + Real.cos (Real.pi * (2 * ((j : ℝ) + 1) - 1) / 2 / ((b.deg i + 1 : ℕ) : ℝ))) * (b.hi i - b.lo i) := by
    intro n hn
    induction n with
    | zero => exact ⟨_, rfl, by rw [List.length_replicate, cardinal_eq], fun i hi => by omega⟩
    | succ n ih =>
      obtain ⟨pts, h1, h2, h3⟩ := ih (by omega)
      have h4 : (List.range (n + 1)).foldlM b.interpStep (List.replicate b.cardinal 0) = b.interpStep pts n := by
        rw [List.range_succ, List.foldlM_append, h1]
        simp only [bind, Except.bind, List.foldlM_cons, List.foldlM_nil]
        cases b.interpStep pts n <;> rfl
      rw [h4]
      unfold PPB.interpStep
      rw [hs n (by omega)]
      refine ⟨_, rfl, by rw [length_setBlock]; exact h2, fun i hi j hj => ?_⟩
      have hlt := index_lt b (i := i) (by omega) hj
      rw [getD_setBlock _ _ _ _ _ (by rw [h2]; exact hlt)]
      have h := index_block b (i' := n) hj
      have e0 : b.index n 0 = b.offset n := by rw [index_eq b n 0 (by omega), add_zero]
      rw [e0] at h
      simp only [h]
      split
      · next e =>
        subst e
        rw [index_eq b i j (by omega), show b.offset i + j - b.offset i = j by omega, hnode i j hj]
        rfl
      · exact h3 i (by omega) j hj
  obtain ⟨pts, h1, h2, h3⟩ := key b.p.length le_rfl
  refine ⟨pts, by unfold PPB.interpolationPoints; rw [hb.ne_eq]; exact h1, by rw [h2, cardinal_eq], fun i hi j hj => ?_⟩
  have hlen := sub_pos.2 (hb.size_pos hi)
  have hd : (0 : ℝ) < ((b.deg i + 1 : ℕ) : ℝ) := by positivity
  have harg : ∀ j : ℕ, j ≤ b.deg i → 0 < Real.pi * (2 * ((j : ℝ) + 1) - 1) / 2 / ((b.deg i + 1 : ℕ) : ℝ) ∧
      Real.pi * (2 * ((j : ℝ) + 1) - 1) / 2 / ((b.deg i + 1 : ℕ) : ℝ) < Real.pi := by
    intro j hj
    have hj' : (j : ℝ) ≤ (b.deg i : ℝ) := by exact_mod_cast hj
    have hpi := Real.pi_pos
    have h0 : (0 : ℝ) ≤ j := Nat.cast_nonneg j
    constructor
    · apply div_pos _ hd
      have : 0 < 2 * ((j : ℝ) + 1) - 1 := by linarith
      positivity
    · rw [div_lt_iff₀ hd]
      push_cast
      nlinarith
  have hlt : ∀ j j' : ℕ, j ≤ b.deg i → j' < j →
      Real.cos (Real.pi * (2 * ((j : ℝ) + 1) - 1) / 2 / ((b.deg i + 1 : ℕ) : ℝ))
        < Real.cos (Real.pi * (2 * ((j' : ℝ) + 1) - 1) / 2 / ((b.deg i + 1 : ℕ) : ℝ)) := by
    intro j j' hj hjj
    apply Real.cos_lt_cos_of_nonneg_of_le_pi (harg j' (by omega)).1.le (harg j hj).2.le
    apply div_lt_div_of_pos_right _ hd
    have : (j' : ℝ) < (j : ℝ) := by exact_mod_cast hjj
    have hpi := Real.pi_pos
    nlinarith
  have hc1 : -1 < Real.cos (Real.pi * (2 * ((j : ℝ) + 1) - 1) / 2 / ((b.deg i + 1 : ℕ) : ℝ)) := by
    rw [← Real.cos_pi]
    exact Real.cos_lt_cos_of_nonneg_of_le_pi (harg j hj).1.le le_rfl (harg j hj).2
  have hc2 : Real.cos (Real.pi * (2 * ((j : ℝ) + 1) - 1) / 2 / ((b.deg i + 1 : ℕ) : ℝ)) < 1 := by
    have := Real.cos_lt_cos_of_nonneg_of_le_pi le_rfl (harg j hj).2.le (harg j hj).1
    rwa [Real.cos_zero] at this
  refine ⟨?_, ?_, fun j' hj' => ?_⟩
  · rw [h3 i hi j hj]; nlinarith
  · rw [h3 i hi j hj]; nlinarith
  · rw [h3 i hi j hj, h3 i hi j' (by omega)]
    have := hlt j j' hj hj'
    nlinarith

/-- **C139.** Interpolation at these points is well posed: for all data there is one and only one combination of the
functions that takes these values at the points. -/
theorem interpolation_unisolvent (b : PPB) (hb : b.Mesh) (y : List ℝ) :
    ∃ pts, b.interpolationPoints = .ok pts ∧
      ∃! c : List ℝ, c.length = b.cardinal ∧ ∀ k < b.cardinal,
        ∃ row, b.evalRow (pts.getD k 0) = .ok row ∧ comb c row = y.getD k 0 := by
  obtain ⟨q, hq, _⟩ := polyval_polynomials (.lebesgue 0 1) (by show (0 : ℝ) < 1; norm_num)
  obtain ⟨pts, h1, h2, h3⟩ := interpolationPoints_spec b hb
  refine ⟨pts, h1, ?_⟩
  simp only [cardinal_eq] at h2 ⊢
  have hholds : ∀ i < b.p.length, ∀ j ≤ b.deg i, b.Holds i (pts.getD (b.index i j) 0) := fun i hi j hj =>
    ⟨(h3 i hi j hj).1.le, Or.inl (h3 i hi j hj).2.1⟩
  have hinj : ∀ i < b.p.length, Set.InjOn (fun j => pts.getD (b.index i j) 0) (Finset.range (b.deg i + 1)) := by
    intro i hi j hj j' hj' e
    have hj := Finset.mem_range.1 (Finset.mem_coe.1 hj)
    have hj' := Finset.mem_range.1 (Finset.mem_coe.1 hj')
    simp only at e
    rcases lt_trichotomy j j' with h | h | h
    · have := (h3 i hi j' (by omega)).2.2 j h; linarith
    · exact h
    · have := (h3 i hi j (by omega)).2.2 j' h; linarith
  obtain ⟨c, hc, hcP⟩ := elemPoly_surj b hb q hq
    (fun i => Lagrange.interpolate (Finset.range (b.deg i + 1)) (fun j => pts.getD (b.index i j) 0)
      (fun j => y.getD (b.index i j) 0)) (fun i hi => by
        have := Lagrange.degree_interpolate_lt (fun j => y.getD (b.index i j) 0) (hinj i hi)
        rw [Finset.card_range] at this
        refine natDegree_le_iff_degree_le.2 ?_
        rcases hdg : (Lagrange.interpolate (Finset.range (b.deg i + 1)) (fun j => pts.getD (b.index i j) 0)
          (fun j => y.getD (b.index i j) 0)).degree with _ | n
        · exact bot_le
        · rw [hdg] at this
          have h5 : n < b.deg i + 1 := WithBot.coe_lt_coe.1 this
          exact WithBot.coe_le_coe.2 (Nat.le_of_lt_succ h5))
  refine ⟨c, ⟨hc, fun k hk => ?_⟩, ?_⟩
  · obtain ⟨i, hi, j, hj, rfl⟩ := exists_index b b.p.length hk
    obtain ⟨row, h4, h5⟩ := elemPoly_eval b hb q hq hc hi (hholds i hi j hj)
    refine ⟨row, h4, ?_⟩
    rw [h5, hcP i hi]
    exact Lagrange.eval_interpolate_at_node (fun j => y.getD (b.index i j) 0) (hinj i hi) (Finset.mem_range.2 (by omega))
  · rintro c' ⟨hc', h'⟩
    refine elemPoly_inj b hb q hq hc' hc (fun i hi => ?_)
    have hdeg := elemPoly_degree b q hq
    refine eq_of_degrees_lt_of_eval_index_eq (Finset.range (b.deg i + 1)) (hinj i hi) ?_ ?_ (fun j hj => ?_)
    · rw [Finset.card_range]; exact lt_of_le_of_lt degree_le_natDegree (by exact_mod_cast Nat.lt_succ_of_le (hdeg c' i))
    · rw [Finset.card_range]; exact lt_of_le_of_lt degree_le_natDegree (by exact_mod_cast Nat.lt_succ_of_le (hdeg c i))
    · have hj := Finset.mem_range.1 hj
      obtain ⟨row, h4, h5⟩ := elemPoly_eval b hb q hq hc' hi (hholds i hi j (by omega))
      obtain ⟨row', h6, h7⟩ := h' (b.index i j) (index_lt b hi (by omega))
      rw [h4] at h6
      obtain rfl : row = row' := by cases h6; rfl
      rw [← h5, h7, hcP i hi]
      exact (Lagrange.eval_interpolate_at_node (fun j => y.getD (b.index i j) 0) (hinj i hi) (Finset.mem_range.2 (by omega))).symm

/-- A mesh with two elements of degrees 2 and 0; an example of the hypotheses of the theorems. -/
example : (⟨[0, 1, 3], [2, 0]⟩ : PPB).Mesh ∧ (⟨[0, 1, 3], [2, 0]⟩ : PPB).count = 4 ∧
    (⟨[0, 1, 3], [2, 0]⟩ : PPB).elementNumber 2 = 1 := by
  have hb : (⟨[0, 1, 3], [2, 0]⟩ : PPB).Mesh := ⟨by norm_num, rfl, by simp⟩
  refine ⟨hb, by simp [PPB.count, PPB.deg, Finset.sum_range_succ], ?_⟩
  exact elementNumber_eq _ hb (by simp) (by simp [PPB.lo]) (by simp [PPB.hi]; norm_num)

end

end Verif.Piecewise
