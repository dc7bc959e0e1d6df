import Verif.Model.CanonicalPolynomials
import Verif.Props.PolyMoments

/-!
# Polynomials given by their coefficients
-/

namespace Verif.Polynomials

open Polynomial Verif.Grids

noncomputable section

/-- The method `poly_coeff` gives the coefficients of the polynomials `p i`, of degree at most `i`, up to the largest index. -/
def HasCoeffs (pc : List ℕ → Py (List (List ℝ))) (p : ℕ → ℝ[X]) : Prop :=
  (∀ i, (p i).natDegree ≤ i) ∧ ∀ ind m, m ∈ ind → (∀ i ∈ ind, i ≤ m) →
    pc ind = .ok (ind.map (fun i => (List.range (m + 1)).map (p i).coeff))

theorem npPolyval_aux (c : List ℝ) (x y : ℝ) : c.foldl (fun y a => y * x + a) y =
    y * x ^ c.length + ∑ j ∈ Finset.range c.length, c.getD j 0 * x ^ (c.length - 1 - j) := by
  induction c generalizing y with
  | nil => simp
  | cons a c ih =>
    rw [List.foldl_cons, ih, List.length_cons, Finset.sum_range_succ']
    have e : ∀ j ∈ Finset.range c.length, (a :: c).getD (j + 1) 0 * x ^ (c.length + 1 - 1 - (j + 1)) =
        c.getD j 0 * x ^ (c.length - 1 - j) := by
      intro j hj
      rw [List.getD_cons_succ, show c.length + 1 - 1 - (j + 1) = c.length - 1 - j by omega]
    rw [Finset.sum_congr rfl e]
    simp only [List.getD_cons_zero, Nat.add_sub_cancel, Nat.sub_zero]
    ring

theorem npPolyval_eq (p : ℝ[X]) (m : ℕ) (h : p.natDegree < m) (x : ℝ) :
    npPolyval ((List.range m).map p.coeff).reverse x = p.eval x := by
  unfold npPolyval
  rw [npPolyval_aux, zero_mul, zero_add, List.length_reverse, List.length_map, List.length_range, eval_eq_sum_range' h x,
    ← Finset.sum_range_reflect]
  refine Finset.sum_congr rfl (fun j hj => ?_)
  have hj' := Finset.mem_range.1 hj
  have e : ((List.range m).map p.coeff).reverse.getD (m - 1 - j) 0 = p.coeff j := by
    rw [List.getD_eq_getElem _ _ (by simp; omega)]
    simp only [List.getElem_reverse, List.length_map, List.length_range, List.getElem_map, List.getElem_range]
    congr 1
    omega
  rw [e, show m - 1 - (m - 1 - j) = j by omega]

/-- C192. The generic `polyval(ind, x)` gives the values at `x` of the polynomials whose coefficients `poly_coeff` gives. -/
theorem genPolyval_spec {pc : List ℕ → Py (List (List ℝ))} {p : ℕ → ℝ[X]} (hp : HasCoeffs pc p) (ind : List ℕ) (hi : ind ≠ [])
    (x : ℝ) : genPolyval pc ind x = .ok (ind.map (fun i => (p i).eval x)) := by
  obtain ⟨m, h1, h2, h3⟩ := npMax_spec ind hi
  unfold genPolyval
  simp only [h1, bind, Except.bind]
  rw [hp.2 (List.range (m + 1)) m (by simp) (fun i hi => by have := List.mem_range.1 hi; omega)]
  simp only
  congr 1
  refine List.map_congr_left (fun i hi => ?_)
  rw [List.map_map, at'_map_range _ _ _ (by have := h3 i hi; omega)]
  exact npPolyval_eq _ _ (by have := hp.1 i; have := h3 i hi; omega) x

/-- C192. `d_poly_coef(ind)` gives the coefficients of the derivatives. -/
theorem dPolyCoef_spec {pc : List ℕ → Py (List (List ℝ))} {p : ℕ → ℝ[X]} (hp : HasCoeffs pc p) (ind : List ℕ) (m : ℕ) (hm : m ∈ ind)
    (hmax : ∀ i ∈ ind, i ≤ m) : dPolyCoef pc ind = .ok (ind.map (fun i => (List.range m).map (derivative (p i)).coeff)) := by
  obtain ⟨m', h1, h2, h3⟩ := npMax_spec ind (List.ne_nil_of_mem hm)
  obtain rfl : m = m' := le_antisymm (h3 m hm) (hmax m' h2)
  unfold dPolyCoef
  rw [hp.2 ind m hm hmax]
  simp only [h1, bind, Except.bind, List.map_map]
  congr 1
  refine List.map_congr_left (fun i hi => ?_)
  apply List.ext_getElem
  · simp
  · intro j hj hj'
    simp only [Function.comp, List.getElem_zipWith, List.getElem_tail, List.getElem_map, List.getElem_range, List.getElem_range',
      coeff_derivative]
    push_cast
    ring

theorem derivFactors_eq (n j : ℕ) : ((List.range' 1 n).map (fun k : ℕ => ((j + k : ℕ) : ℝ))).prod = ((j + n).descFactorial n : ℝ) := by
  induction n with
  | zero => simp
  | succ n ih =>
    rw [List.range'_1_concat, List.map_append, List.prod_append, ih, show j + (n + 1) = (j + n) + 1 by omega,
      Nat.succ_descFactorial_succ]
    simp only [List.map_cons, List.map_nil, List.prod_cons, List.prod_nil, mul_one]
    push_cast
    ring

/-- C192. `dn_poly_coeff(n, ind)` gives the coefficients of the derivatives of order `n`, at most the largest degree. -/
theorem dnPolyCoeff_spec {pc : List ℕ → Py (List (List ℝ))} {p : ℕ → ℝ[X]} (hp : HasCoeffs pc p) (ind : List ℕ) (m : ℕ) (hm : m ∈ ind)
    (hmax : ∀ i ∈ ind, i ≤ m) (n : ℕ) (hn : n ≤ m) :
    dnPolyCoeff pc n ind = .ok (.inl (ind.map (fun i => (List.range (m + 1 - n)).map (derivative^[n] (p i)).coeff))) := by
  obtain ⟨m', h1, h2, h3⟩ := npMax_spec ind (List.ne_nil_of_mem hm)
  obtain rfl : m = m' := le_antisymm (h3 m hm) (hmax m' h2)
  unfold dnPolyCoeff
  simp only [h1, bind, Except.bind]
  rw [if_neg (by omega), hp.2 ind m hm hmax]
  simp only
  rw [if_neg (by omega), List.map_map]
  congr 2
  refine List.map_congr_left (fun i hi => ?_)
  apply List.ext_getElem
  · simp [derivFactors]
  · intro j hj hj'
    simp only [Function.comp, List.getElem_zipWith, List.getElem_drop, List.getElem_map, List.getElem_range, derivFactors, derivFactors_eq]
    rw [coeff_iterate_derivative, nsmul_eq_mul, mul_comm, Nat.add_comm n j]

/-- C193. The generic `dn_polyval(n, ind, x)` gives the derivatives of order `n`, at most the largest degree, and raises `ValueError` for
larger orders, for which the derivatives are zero. -/
theorem genDnPolyval_partial {pc : List ℕ → Py (List (List ℝ))} {p : ℕ → ℝ[X]} (hp : HasCoeffs pc p) (ind : List ℕ) (m : ℕ) (hm : m ∈ ind)
    (hmax : ∀ i ∈ ind, i ≤ m) (n : ℕ) (x : ℝ) :
    (n ≤ m → genDnPolyval pc n ind x = .ok (ind.map (fun i => (derivative^[n] (p i)).eval x))) ∧
      (m < n → genDnPolyval pc n ind x = .error .valueError ∧ ∀ i ∈ ind, (derivative^[n] (p i)).eval x = 0) := by
  obtain ⟨m', h1, h2, h3⟩ := npMax_spec ind (List.ne_nil_of_mem hm)
  obtain rfl : m = m' := le_antisymm (h3 m hm) (hmax m' h2)
  have hr : ∀ i ∈ List.range (m + 1), i ≤ m := fun i hi => by have := List.mem_range.1 hi; omega
  constructor
  · intro hn
    unfold genDnPolyval
    simp only [h1, bind, Except.bind]
    rw [dnPolyCoeff_spec hp (List.range (m + 1)) m (by simp) hr n hn]
    simp only [dnEval]
    congr 1
    refine List.map_congr_left (fun i hi => ?_)
    rw [List.map_map, at'_map_range _ _ _ (by have := h3 i hi; omega)]
    have hd : (derivative^[n] (p i)).natDegree ≤ (p i).natDegree - n := natDegree_iterate_derivative _ _
    exact npPolyval_eq _ _ (by have := hp.1 i; have := h3 i hi; omega) x
  · intro hn
    constructor
    · obtain ⟨m', h1', h2', h3'⟩ := npMax_spec (List.range (m + 1)) (by simp)
      have e : m' = m := le_antisymm (hr m' h2') (h3' m (by simp))
      subst e
      unfold genDnPolyval
      simp only [h1, bind, Except.bind]
      unfold dnPolyCoeff
      simp only [h1', bind, Except.bind]
      by_cases hlt : m' + 1 < n
      · rw [if_pos hlt]
      · rw [if_neg hlt, hp.2 _ m' (by simp) hr]
        simp only
        rw [if_pos (by omega)]
        rfl
    · intro i hi
      have hd : (p i).natDegree < n := by have := hp.1 i; have := h3 i hi; omega
      rw [iterate_derivative_eq_zero hd, eval_zero]

/-- C192, C193. The families of Hermite and Legendre give coefficients. -/
theorem hasCoeffs_family (F : Family) : HasCoeffs F.poly.polyCoeff (fun i => pp (fun _ => 0) F.b i) := by
  refine ⟨fun i => (pp_natDegree i (fun j hj _ => family_b_pos F j hj)).1.le, fun ind m hm hmax => ?_⟩
  obtain ⟨m', h1, h2, h3⟩ := npMax_spec ind (List.ne_nil_of_mem hm)
  obtain rfl : m = m' := le_antisymm (h3 m hm) (hmax m' h2)
  obtain ⟨r, h4, h5⟩ := family_rec F m trivial
  unfold OrthPoly.polyCoeff
  simp only [h1, h4, bind, Except.bind, polyCoeffRows_eq]
  congr 1
  refine List.map_congr_left (fun i hi => ?_)
  rw [getD_map_range _ _ _ _ (by have := h3 i hi; omega)]
  rw [pp_congr i (a' := fun _ => 0) (b' := F.b) (fun j hj => (h5 j (by have := h3 i hi; omega)).1)
    (fun j _ hj => (h5 j (by have := h3 i hi; omega)).2)]

/-- The canonical polynomials are the powers. -/
theorem hasCoeffs_canonical : HasCoeffs canonicalCoeff (fun i => X ^ i) := by
  refine ⟨fun i => (natDegree_X_pow i).le, fun ind m hm hmax => ?_⟩
  obtain ⟨m', h1, h2, h3⟩ := npMax_spec ind (List.ne_nil_of_mem hm)
  obtain rfl : m = m' := le_antisymm (h3 m hm) (hmax m' h2)
  unfold canonicalCoeff
  simp only [h1, bind, Except.bind]
  congr 1
  refine List.map_congr_left (fun i _ => List.map_congr_left (fun j _ => ?_))
  rw [coeff_X_pow]
  simp only [eq_comm]

/-- C194. The canonical polynomials: `polyval(ind, x)` are the powers of `x`, `d_polyval(ind, x)` their derivatives. -/
theorem canonical_polyval (ind : List ℕ) (hi : ind ≠ []) (x : ℝ) :
    genPolyval canonicalCoeff ind x = .ok (ind.map (fun i => x ^ i)) ∧
      canonicalDPolyval ind x = ind.map (fun i : ℕ => deriv (fun y : ℝ => y ^ i) x) := by
  constructor
  · rw [genPolyval_spec hasCoeffs_canonical ind hi]
    simp
  · unfold canonicalDPolyval
    refine List.map_congr_left (fun i _ => ?_)
    rw [deriv_pow_field]
    split_ifs with h
    · ring
    · have : i = 0 := by omega
      simp [this]

theorem prod_pow (row : List ℕ) (x : ℝ) : (row.map (fun i => (X ^ i : ℝ[X]).eval x)).prod = x ^ row.sum := by
  induction row with
  | nil => simp
  | cons i row ih =>
    rw [List.map_cons, List.prod_cons, ih, List.sum_cons, pow_add]
    simp

/-- C194. The moments of the canonical polynomials for a measure are the integrals of the products of powers, the means are their quotients by
the mass of the measure. -/
theorem canonicalMoment_spec {eig : Eig} (heig : EigOk eig) (own ν : Option Meas) (μ : Meas) (hμ : (ν <|> own) = some μ) (h : μ.Proper)
    (ind : List (List ℕ)) (hi : ind ≠ []) :
    canonicalMoment eig own ind ν = .ok (ind.map (fun row => μ.E (fun x => x ^ row.sum))) := by
  unfold canonicalMoment
  rw [hμ]
  simp only
  rw [momentGauss_spec heig (genPolyval canonicalCoeff) (fun i => X ^ i)
    (fun i x => genPolyval_spec hasCoeffs_canonical [i] (by simp) x) hasCoeffs_canonical.1 μ h ind hi]
  congr 1
  refine List.map_congr_left (fun row _ => ?_)
  congr 1
  funext x
  exact prod_pow row x

theorem canonicalMean_spec {eig : Eig} (heig : EigOk eig) (own ν : Option Meas) (μ : Meas) (hμ : (ν <|> own) = some μ) (h : μ.Proper)
    (ind : List ℕ) (hi : ind ≠ []) :
    canonicalMean eig own ind ν = .ok (ind.map (fun i => μ.E (fun x => x ^ i) / μ.mass)) := by
  unfold canonicalMean
  rw [hμ]
  simp only
  rw [canonicalMoment_spec heig own ν μ hμ h _ (by simpa using hi)]
  simp [bind, Except.bind, List.map_map, Function.comp_def]

/-- Without a measure, moments and means are refused. -/
theorem canonical_refused (eig : Eig) (ind : List ℕ) (hi : ind ≠ []) :
    canonicalMoment eig none (ind.map (fun i => [i])) none = .error .attributeError ∧
      canonicalMean eig none ind none = .error .assertionError := by
  refine ⟨?_, rfl⟩
  obtain ⟨m, h1, _⟩ := npMax_spec ((ind.map (fun i => [i])).map List.sum) (by simpa using hi)
  show (npMax ((ind.map (fun i => [i])).map List.sum)).bind (fun _ => .error .attributeError) = _
  rw [h1]
  rfl

/-- The hypotheses are met: the measure may be given or be that of the polynomials. -/
example : (none <|> some (Meas.normal 1 2)) = some (Meas.normal 1 2) ∧ (Meas.normal 1 2).Proper ∧ (2 : ℕ) ∈ [0, 2, 1] ∧
    ∀ i ∈ [0, 2, 1], i ≤ 2 := by
  refine ⟨rfl, ?_, by simp, by simp⟩
  simp [Meas.Proper]

end

end Verif.Polynomials
