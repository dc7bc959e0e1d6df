import Verif.Props.GaussRules

/-!
# Coefficients, norms, moments and means of the polynomials
-/

namespace Verif.Polynomials

open Polynomial Verif.Grids

noncomputable section

/-! ## Coefficients -/

theorem evalCoeffs_eq (p : ℝ[X]) (m : ℕ) (h : p.natDegree ≤ m) (x : ℝ) :
    evalCoeffs ((List.range (m + 1)).map p.coeff) x = p.eval x := by
  unfold evalCoeffs
  rw [List.length_map, List.length_range, eval_eq_sum_range' (n := m + 1) (by omega)]
  refine Finset.sum_congr rfl (fun j hj => ?_)
  rw [getD_map_range _ _ _ _ (Finset.mem_range.1 hj)]

/-- **C86.** `poly_coeff(ind)` gives the coefficients of the polynomials that `polyval` evaluates (Hermite and Legendre). -/
theorem polyCoeff_spec (F : Family) (hF : F ≠ .legendreLebesgue) (ind : List ℕ) (hi : ind ≠ []) :
    ∃ rows, F.poly.polyCoeff ind = .ok rows ∧
      List.Forall₂ (fun i row => ∀ x, F.poly.polyval [i] x = .ok [evalCoeffs row x]) ind rows := by
  obtain ⟨m, hm, e⟩ := polyCoeff_eq (family_rec F) ind hi (fun _ _ => trivial)
  refine ⟨_, e, ?_⟩
  rw [List.forall₂_map_right_iff, List.forall₂_same]
  intro i hi' x
  rw [polyval_eq (family_rec F) [i] (by simp) (fun _ _ => trivial)]
  have hmass : F.poly.mass = 1 := by
    cases F
    · rfl
    · rfl
    · exact absurd rfl hF
  have hd := (pp_natDegree (a := fun _ => 0) (b := F.b) i (fun j hj _ => family_b_pos F j hj)).1
  rw [hmass, evalCoeffs_eq _ m (by rw [hd]; exact hm i hi')]
  simp

/-- For the Lebesgue measure they differ by the square root of the mass. -/
theorem lebesgue_polyCoeff_wrong (x : ℝ) :
    Family.legendreLebesgue.poly.polyCoeff [0] = .ok [[1]] ∧
    Family.legendreLebesgue.poly.polyval [0] x = .ok [1 / Real.sqrt 2] ∧ evalCoeffs [1] x ≠ 1 / Real.sqrt 2 := by
  refine ⟨?_, ?_, ?_⟩
  · obtain ⟨m, hm, e⟩ := polyCoeff_eq (family_rec .legendreLebesgue) [0] (by simp) (fun _ _ => trivial)
    have hr : Family.legendreLebesgue.poly.recurrenceMonic 0 = .ok (legendreLebesgueRec 0) := rfl
    have hn : npMax [0] = .ok 0 := rfl
    unfold OrthPoly.polyCoeff
    rw [hn]
    simp only [bind, Except.bind, hr, polyCoeffRows]
    simp
  · rw [polyval_eq (family_rec .legendreLebesgue) [0] (by simp) (fun _ _ => trivial)]
    rw [show Family.legendreLebesgue.poly.mass = 2 from by show (1 : ℝ) - (-1) = 2; norm_num]
    simp [pp_zero]
  · unfold evalCoeffs
    have h2 : (1 : ℝ) < Real.sqrt 2 := by
      rw [Real.lt_sqrt (by norm_num)]; norm_num
    have h3 : 1 / Real.sqrt 2 < 1 := (div_lt_one (by linarith)).2 h2
    have h4 : ∑ j ∈ Finset.range ([1] : List ℝ).length, ([1] : List ℝ).getD j 0 * x ^ j = 1 := by simp
    rw [h4]
    exact h3.ne'

/-! ## Norms of the monic polynomials -/

/-- Monic polynomials of a three-term recurrence. -/
def monic (a b : ℕ → ℝ) : ℕ → ℝ[X]
  | 0 => 1
  | 1 => X - C (a 0)
  | n + 2 => (X - C (a (n + 1))) * monic a b (n + 1) - C (b (n + 1)) * monic a b n

theorem monic_eq (b : ℕ → ℝ) (hb : ∀ i, 1 ≤ i → 0 < b i) (a : ℕ → ℝ) (n : ℕ) :
    monic a b n = C (∏ i ∈ Finset.range n, Real.sqrt (b (i + 1))) * pp a b n := by
  have hs : ∀ i, Real.sqrt (b (i + 1)) ≠ 0 := fun i => (Real.sqrt_pos.2 (hb (i + 1) (by omega))).ne'
  induction n using Nat.strong_induction_on with
  | _ n ih =>
    match n, ih with
    | 0, _ => simp [monic, pp_zero]
    | 1, _ =>
      rw [monic, pp_one, Finset.prod_range_one, ← mul_assoc, ← C_mul, mul_one_div_cancel (hs 0), C_1, one_mul]
    | n + 2, ih =>
      have hC : (C (Real.sqrt (b (n + 1 + 1))) : ℝ[X]) * C (1 / Real.sqrt (b (n + 2))) = 1 := by
        rw [← C_mul, mul_one_div_cancel (hs (n + 1)), C_1]
      have hbb : (C (b (n + 1)) : ℝ[X]) = C (Real.sqrt (b (n + 1))) * C (Real.sqrt (b (n + 1))) := by
        rw [← C_mul, Real.mul_self_sqrt (hb (n + 1) (by omega)).le]
      rw [monic, ih (n + 1) (by omega), ih n (by omega), pp_succ, Finset.prod_range_succ (n := n + 1), Finset.prod_range_succ (n := n)]
      simp only [C_mul]
      rw [hbb]
      linear_combination (C (∏ i ∈ Finset.range n, Real.sqrt (b (i + 1))) * C (Real.sqrt (b (n + 1))) *
        (C (Real.sqrt (b (n + 1))) * pp a b n - (X - C (a (n + 1))) * pp a b (n + 1))) * hC

theorem monic_monic (a b : ℕ → ℝ) (n : ℕ) : (monic a b n).Monic ∧ (monic a b n).natDegree = n := by
  induction n using Nat.strong_induction_on with
  | _ n ih =>
    match n, ih with
    | 0, _ => exact ⟨monic_one, by simp [monic]⟩
    | 1, _ => exact ⟨monic_X_sub_C _, natDegree_X_sub_C _⟩
    | n + 2, ih =>
      obtain ⟨h1, d1⟩ := ih (n + 1) (by omega)
      obtain ⟨h0, d0⟩ := ih n (by omega)
      have hm : ((X - C (a (n + 1))) * monic a b (n + 1)).Monic := (monic_X_sub_C _).mul h1
      have hd : ((X - C (a (n + 1))) * monic a b (n + 1)).natDegree = n + 2 := by
        rw [natDegree_mul (X_sub_C_ne_zero _) h1.ne_zero, natDegree_X_sub_C, d1]; omega
      have hlt : (C (b (n + 1)) * monic a b n).natDegree < n + 2 :=
        lt_of_le_of_lt (natDegree_C_mul_le _ _) (by omega)
      rw [monic]
      constructor
      · refine hm.sub_of_left (lt_of_le_of_lt degree_le_natDegree ?_)
        rw [degree_eq_natDegree hm.ne_zero, hd]
        exact_mod_cast hlt
      · rw [natDegree_sub_eq_left_of_natDegree_lt (by rw [hd]; exact hlt), hd]

theorem legendre_norm (n : ℕ) : (Real.sqrt (1 / (2 * (n : ℝ) + 1)) * 2 ^ n * (n.factorial : ℝ) ^ 2 / ((2 * n).factorial : ℝ)) ^ 2
    = ∏ i ∈ Finset.range n, bLeg (i + 1) := by
  rw [div_pow, mul_pow, mul_pow, Real.sq_sqrt (by positivity)]
  induction n with
  | zero => simp
  | succ n ih =>
    rw [Finset.prod_range_succ, ← ih]
    have e1 : (((2 * (n + 1)).factorial : ℕ) : ℝ) = (2 * n + 2) * (2 * n + 1) * ((2 * n).factorial : ℝ) := by
      rw [show 2 * (n + 1) = 2 * n + 1 + 1 from by ring, Nat.factorial_succ, Nat.factorial_succ]; push_cast; ring
    have e2 : (((n + 1).factorial : ℕ) : ℝ) = (n + 1) * (n.factorial : ℝ) := by
      rw [Nat.factorial_succ]; push_cast; ring
    have h1 : ((2 * n).factorial : ℝ) ≠ 0 := by exact_mod_cast (Nat.factorial_pos _).ne'
    have h2 : (2 * (n : ℝ) + 1) ≠ 0 := by positivity
    have h3 : (2 * (n : ℝ) + 3) ≠ 0 := by positivity
    have h5 : (4 * ((n : ℝ) + 1) ^ 2 - 1) = (2 * n + 1) * (2 * n + 3) := by ring
    rw [e1, e2, bLeg]
    push_cast
    rw [h5, show 2 * ((n : ℝ) + 1) + 1 = 2 * n + 3 by ring]
    field_simp
    ring

theorem hermite_norm (n : ℕ) : (Real.sqrt (n.factorial : ℝ)) ^ 2 = ∏ i ∈ Finset.range n, (((i + 1 : ℕ)) : ℝ) := by
  rw [Real.sq_sqrt (by positivity), ← Finset.prod_range_add_one_eq_factorial]
  push_cast
  rfl

theorem Family.E_eq (F : Family) (q : ℝ[X]) : F.measure.E (fun x => q.eval x) = F.poly.mass * F.L q := by
  cases F
  · show (Meas.normal 0 1).E _ = 1 * LN q
    rw [E_normal one_pos, one_mul, LN_gaussian]
    simp
  · show (Meas.uniform (-1) 1).E _ = 1 * LU q
    rw [E_uniform (by norm_num), one_mul, LU_apply]
    norm_num
  · show (Meas.lebesgue (-1) 1).E _ = (1 - (-1)) * LU q
    rw [E_lebesgue (by norm_num), E_uniform (by norm_num), LU_apply]
    norm_num

/-- **C91.** `recurrence_monic(n)` gives the coefficients of the three-term recurrence of monic polynomials that are orthogonal
for the measure of the family, and their norms. -/
theorem recurrenceMonic_spec (F : Family) (n : ℕ) :
    ∃ a b norms, F.poly.recurrenceMonic n = .ok ((a, b), norms) ∧ a.length = n + 1 ∧ b.length = n + 1 ∧ norms.length = n + 1 ∧
      ∃ π : ℕ → ℝ[X], π 0 = 1 ∧ (0 < n → π 1 = X - C (a.getD 0 0)) ∧
        (∀ k, k + 2 ≤ n → π (k + 2) = (X - C (a.getD (k + 1) 0)) * π (k + 1) - C (b.getD (k + 1) 0) * π k) ∧
        (∀ k, k ≤ n → (π k).Monic ∧ (π k).natDegree = k) ∧
        ∀ i j, i ≤ n → j ≤ n →
          F.measure.E (fun x => (π i).eval x * (π j).eval x) = if i = j then norms.getD i 0 ^ 2 else 0 := by
  obtain ⟨r, hr, hr'⟩ := family_rec F n trivial
  have hnorm : ∀ i, i ≤ n → r.2.getD i 0 ^ 2 = F.poly.mass * ∏ k ∈ Finset.range i, F.b (k + 1) := by
    intro i hi
    cases F
    · obtain rfl := Except.ok.inj hr
      show at' ((List.range (n + 1)).map _) i ^ 2 = _
      rw [at'_map_range _ _ _ (by omega), hermite_norm]
      exact (one_mul _).symm
    · obtain rfl := Except.ok.inj hr
      show at' ((List.range (n + 1)).map _) i ^ 2 = _
      rw [at'_map_range _ _ _ (by omega), legendre_norm]
      exact (one_mul _).symm
    · obtain rfl := Except.ok.inj hr
      show at' ((List.range (n + 1)).map _) i ^ 2 = _
      rw [at'_map_range _ _ _ (by omega), mul_pow, legendre_norm, Real.sq_sqrt (by norm_num)]
      show _ = (1 - (-1)) * _
      rw [mul_comm]
      norm_num
      rfl
  have hlen : r.1.1.length = n + 1 ∧ r.1.2.length = n + 1 ∧ r.2.length = n + 1 := by
    cases F <;> (obtain rfl := Except.ok.inj hr; simp [hermiteRec, legendreRec, legendreLebesgueRec])
  refine ⟨r.1.1, r.1.2, r.2, hr, hlen.1, hlen.2.1, hlen.2.2, monic (fun _ => 0) F.b, rfl, ?_, ?_, ?_, ?_⟩
  · intro hn
    have := (hr' 0 (by omega)).1
    unfold at' at this
    rw [this]
    rfl
  · intro k hk
    have h1 := (hr' (k + 1) (by omega)).1
    have h2 := (hr' (k + 1) (by omega)).2
    unfold at' at h1 h2
    rw [h1, h2]
    rfl
  · intro k _
    exact monic_monic _ _ k
  · intro i j hi hj
    have e := F.E_eq (monic (fun _ => 0) F.b i * monic (fun _ => 0) F.b j)
    simp only [eval_mul] at e
    rw [e, monic_eq _ (family_b_pos F), monic_eq _ (family_b_pos F)]
    have e1 : ∀ (c d : ℝ) (p p' : ℝ[X]), C c * p * (C d * p') = (c * d) • (p * p') := by
      intro c d p p'; rw [smul_eq_C_mul, C_mul]; ring
    rw [e1, map_smul, family_orthonormal]
    split
    · next h =>
      subst h
      rw [hnorm i hi, smul_eq_mul, mul_one, ← Finset.prod_mul_distrib]
      congr 1
      exact Finset.prod_congr rfl (fun k _ => Real.mul_self_sqrt (family_b_pos F (k + 1) (by omega)).le)
    · simp

/-! ## Moments -/

theorem mapM_ok {α β : Type} (l : List α) (f : α → Py β) (g : α → β) (h : ∀ x ∈ l, f x = .ok (g x)) :
    l.mapM f = .ok (l.map g) := by
  induction l with
  | nil => rfl
  | cons x l ih =>
    rw [List.mapM_cons, h x (by simp)]
    simp only [bind, Except.bind, ih (fun y hy => h y (by simp [hy]))]
    rfl

/-- The product of the polynomials of a row. -/
def rowPoly (q : ℕ → ℝ[X]) (row : List ℕ) : ℝ[X] := (row.map q).prod

theorem rowPoly_eval (q : ℕ → ℝ[X]) (row : List ℕ) (x : ℝ) : (rowPoly q row).eval x = (row.map (fun i => (q i).eval x)).prod := by
  unfold rowPoly
  induction row with
  | nil => simp
  | cons i l ih => simp [ih]

theorem rowPoly_natDegree (q : ℕ → ℝ[X]) (hq : ∀ i, (q i).natDegree ≤ i) (row : List ℕ) :
    (rowPoly q row).natDegree ≤ row.sum := by
  unfold rowPoly
  induction row with
  | nil => simp
  | cons i l ih =>
    rw [List.map_cons, List.prod_cons, List.sum_cons]
    exact le_trans natDegree_mul_le (Nat.add_le_add (hq i) ih)

theorem momentGauss_spec {eig : Eig} (heig : EigOk eig) (pv : List ℕ → ℝ → Py (List ℝ)) (q : ℕ → ℝ[X])
    (hpv : ∀ i x, pv [i] x = .ok [(q i).eval x]) (hq : ∀ i, (q i).natDegree ≤ i) (ν : Meas) (hν : ν.Proper)
    (ind : List (List ℕ)) (hi : ind ≠ []) :
    momentGauss eig pv ind ν = .ok (ind.map (fun row => ν.E (fun x => (row.map (fun i => (q i).eval x)).prod))) := by
  obtain ⟨m, h1, h2, h3⟩ := npMax_spec (ind.map List.sum) (by simpa using hi)
  obtain ⟨G, e1, l1, _, l2, _, e2⟩ := gauss_spec heig ν hν ((m + 1 + 1) / 2) (by omega)
  unfold momentGauss
  simp only [h1, e1, bind, Except.bind]
  refine mapM_ok _ _ _ (fun row hrow => ?_)
  have hdeg : (rowPoly q row).natDegree ≤ 2 * ((m + 1 + 1) / 2) - 1 := by
    have := rowPoly_natDegree q hq row
    have := h3 row.sum (List.mem_map.2 ⟨row, hrow, rfl⟩)
    omega
  have e := e2 (rowPoly q row) hdeg
  simp only [rowPoly_eval] at e
  rw [← e]
  unfold integrateRow Rule.integrate
  have hv : ∀ x ∈ G.points, (do let v ← row.mapM (fun i => pv [i] x); Except.ok ((v.map (fun l => at' l 0)).prod) : Py ℝ)
      = .ok ((row.map (fun i => (q i).eval x)).prod) := by
    intro x _
    rw [mapM_ok row _ (fun i => [(q i).eval x]) (fun i _ => hpv i x)]
    simp only [bind, Except.bind, List.map_map]
    rfl
  rw [mapM_ok _ _ _ hv]
  simp only [bind, Except.bind, List.length_map]
  rw [l1, l2]
  simp only [ne_eq, not_true_eq_false, if_false, List.zipWith_map_left]

theorem E_shift {ν : Meas} (hν : ν.Proper) (hp : ν.IsProba) (hc : ∀ a b, ν = .normal a b → a = 0) {m s : ℝ} (hs : 0 < s) (f : ℝ → ℝ) :
    (ν.shift m s).Proper ∧ (ν.shift m s).IsProba ∧ (ν.shift m s).E f = ν.E (fun x => f (m + s * x)) := by
  cases ν with
  | uniform a b =>
    have hab : a < b := hν
    have h2 : s * a + m < s * b + m := by have := mul_lt_mul_of_pos_left hab hs; linarith
    refine ⟨h2, trivial, ?_⟩
    show (Meas.uniform (s * a + m) (s * b + m)).E f = _
    rw [E_uniform h2, E_uniform hab]
    congr 2
    funext x
    congr 1
    ring
  | normal a b =>
    have hb : 0 < b := hν
    obtain rfl := hc a b rfl
    have h2 : 0 < b * s := mul_pos hb hs
    refine ⟨h2, trivial, ?_⟩
    show (Meas.normal (0 + m) (b * s)).E f = _
    rw [E_normal h2, E_normal hb]
    congr 1
    funext x
    congr 1
    ring
  | lebesgue a b => exact hp.elim

theorem measure_none {μ : Meas} (h : μ.orthonormalPolynomials.shifted = none) : μ.fam.measure = μ := by
  unfold Meas.fam
  cases μ with
  | uniform a b =>
    simp only [Meas.orthonormalPolynomials] at h ⊢
    split at h
    · next h' => rw [h'.1, h'.2]; rfl
    · exact absurd h (by simp)
  | normal a b =>
    simp only [Meas.orthonormalPolynomials] at h ⊢
    split at h
    · next h' => rw [h'.1, h'.2]; rfl
    · exact absurd h (by simp)
  | lebesgue a b =>
    simp only [Meas.orthonormalPolynomials] at h ⊢
    split at h
    · next h' => rw [h'.1, h'.2]; rfl
    · exact absurd h (by simp)

/-- The attribute `measure` of the polynomials of a measure is that measure. -/
theorem orthonormalPolynomials_measure (μ : Meas) (h : μ.Proper) : μ.orthonormalPolynomials.measure = μ := by
  unfold Shifted.measure
  split
  · next hn => exact measure_none hn
  · next m s hn =>
    have e := μ.ms h
    have hm0 : μ.m = m := by unfold Meas.m; rw [hn]; rfl
    have hs1 : μ.s = s := by unfold Meas.s; rw [hn]; rfl
    rw [hm0, hs1] at e
    cases μ with
    | uniform a b =>
      simp only [Prod.mk.injEq] at e
      rw [e.1, e.2]
      show Meas.uniform ((b - a) / 2 * (-1) + (a + b) / 2) ((b - a) / 2 * 1 + (a + b) / 2) = _
      congr 1 <;> ring
    | normal a b =>
      simp only [Prod.mk.injEq] at e
      rw [e.1, e.2]
      show Meas.normal (0 + a) (1 * b) = _
      congr 1 <;> ring
    | lebesgue a b =>
      simp only [Prod.mk.injEq] at e
      rw [e.1, e.2]
      show Meas.lebesgue (-1 * ((b - a) / 2) + (a + b) / 2) (1 * ((b - a) / 2) + (a + b) / 2) = _
      congr 1 <;> ring

theorem family_measure_proper (F : Family) : F.measure.Proper := by
  cases F
  · exact one_pos
  · show (-1 : ℝ) < 1; norm_num
  · show (-1 : ℝ) < 1; norm_num

theorem family_moment {eig : Eig} (heig : EigOk eig) (F : Family) (hF : F ≠ .legendreLebesgue) (ν : Option Meas)
    (hν : ∀ ν', ν = some ν' → ν'.Proper) (w : ℕ) (ind : List (List ℕ)) (hi : ind ≠ []) (hw : ∀ row ∈ ind, row.length = w) :
    F.moment eig w ind ν = .ok (ind.map (fun row => (ν.getD F.measure).E
      (fun x => (row.map (fun i => (pp (fun _ => 0) F.b i).eval x)).prod))) := by
  have hmass : F.poly.mass = 1 := by
    cases F
    · rfl
    · rfl
    · exact absurd rfl hF
  have hdeg : ∀ i, (pp (fun _ => 0) F.b i).natDegree ≤ i := fun i =>
    (pp_natDegree i (fun j hj _ => family_b_pos F j hj)).1.le
  unfold Family.moment
  split
  · next h =>
    have hget : ν.getD F.measure = F.measure := by
      rcases h.2 with h' | h' <;> rw [h'] <;> rfl
    rw [hget]
    have key : ∀ p : ℝ[X], F.measure.E (fun x => p.eval x) = F.L p := fun p => by rw [F.E_eq, hmass, one_mul]
    split
    · next h1 =>
      unfold moment1
      rw [List.map_map]
      congr 1
      refine List.map_congr_left (fun row hrow => ?_)
      obtain ⟨i, rfl⟩ := List.length_eq_one_iff.1 ((hw row hrow).trans h1)
      have e := key (pp (fun _ => 0) F.b i)
      have e2 := family_orthonormal F i 0
      rw [pp_zero, mul_one] at e2
      simp only [Function.comp_apply, List.getD_cons_zero, List.map_cons, List.map_nil, List.prod_cons, List.prod_nil, mul_one]
      rw [e, e2]
    · next h1 =>
      have h2 : w = 2 := h.1.resolve_left h1
      unfold moment2
      rw [List.map_map]
      congr 1
      refine List.map_congr_left (fun row hrow => ?_)
      obtain ⟨i, j, rfl⟩ := List.length_eq_two.1 ((hw row hrow).trans h2)
      have e := key (pp (fun _ => 0) F.b i * pp (fun _ => 0) F.b j)
      simp only [eval_mul] at e
      simp only [Function.comp_apply, List.getD_cons_zero, List.getD_cons_succ, List.map_cons, List.map_nil, List.prod_cons,
        List.prod_nil, mul_one]
      rw [e, family_orthonormal F i j]
  · refine momentGauss_spec heig _ _ (fun i x => ?_) hdeg _ ?_ ind hi
    · rw [polyval_eq (family_rec F) [i] (by simp) (fun _ _ => trivial), hmass]
      simp
    · cases ν with
      | none => exact family_measure_proper F
      | some ν' => exact hν ν' rfl

theorem fam_ne {μ : Meas} (hp : μ.IsProba) : μ.fam ≠ .legendreLebesgue := by
  cases μ with
  | uniform a b => intro h; exact absurd h (by simp [Meas.fam, Meas.orthonormalPolynomials])
  | normal a b => intro h; exact absurd h (by simp [Meas.fam, Meas.orthonormalPolynomials])
  | lebesgue a b => exact hp.elim

theorem polys_eval {μ : Meas} (hp : μ.IsProba) (i : ℕ) (x : ℝ) :
    (polys μ i).eval x = (pp (fun _ => 0) μ.fam.b i).eval ((x - μ.m) / μ.s) := by
  unfold polys
  rw [(fam_mass_proba hp).1, Real.sqrt_one, div_one, C_1, one_mul, eval_comp]
  simp only [eval_mul, eval_C, eval_sub, eval_X]
  congr 1
  ring

theorem E_unshift {μ : Meas} (h : μ.Proper) (f : ℝ → ℝ) (hp : μ.IsProba) :
    μ.fam.measure.E f = μ.E (fun x => f ((x - μ.m) / μ.s)) := by
  have hs := μ.s_pos h
  rcases hsh : μ.orthonormalPolynomials.shifted with _ | ⟨m, s⟩
  · have hm0 : μ.m = 0 := by unfold Meas.m; rw [hsh]; rfl
    have hs1 : μ.s = 1 := by unfold Meas.s; rw [hsh]; rfl
    rw [hm0, hs1, measure_none hsh]
    simp
  · have hm0 : μ.m = m := by unfold Meas.m; rw [hsh]; rfl
    have hs1 : μ.s = s := by unfold Meas.s; rw [hsh]; rfl
    have e := orthonormalPolynomials_measure μ h
    unfold Shifted.measure at e
    rw [hsh] at e
    simp only at e
    have hpf : μ.fam.measure.IsProba := by
      have := fam_ne hp
      cases hF : μ.fam
      · exact trivial
      · exact trivial
      · exact absurd hF this
    have hcf : ∀ a b, μ.fam.measure = .normal a b → a = 0 := by
      intro a b hab
      cases hF : μ.fam <;> rw [hF] at hab <;> simp [Family.measure] at hab
      exact hab.1.symm
    have e2 := (E_shift (family_measure_proper μ.fam) hpf hcf (m := m) (s := s) (hs1 ▸ hs) (fun x => f ((x - μ.m) / μ.s))).2.2
    have e3 : μ.fam.measure.shift m s = μ := e
    rw [e3] at e2
    rw [e2, hm0, hs1]
    congr 1
    funext x
    rw [add_sub_cancel_left, mul_div_cancel_left₀ _ (hs1 ▸ hs).ne']

/-- **C89.** `moment(ind)` and `moment(ind, measure)` for the polynomials of a uniform or normal random variable are the means
of the products of polynomials for the random variable, or for the given one if it is uniform or centred, or if the
polynomials are not shifted. -/
theorem moment_polynomials {eig : Eig} (heig : EigOk eig) (μ : Meas) (h : μ.Proper) (hp : μ.IsProba) (q : ℕ → ℝ[X])
    (hq : Evaluates μ q) (ν : Option Meas) (hν : ∀ ν', ν = some ν' → ν'.Proper ∧ ν'.IsProba)
    (hc : μ.orthonormalPolynomials.shifted = none ∨ ∀ a b, ν = some (.normal a b) → a = 0 ∨ ν = some μ)
    (w : ℕ) (ind : List (List ℕ)) (hi : ind ≠ []) (hw : ∀ row ∈ ind, row.length = w) :
    μ.orthonormalPolynomials.moment eig w ind ν
      = .ok (ind.map (fun row => (ν.getD μ).E (fun x => (row.map (fun i => (q i).eval x)).prod))) := by
  rw [evaluates_eq hq]
  simp only [polys_eval hp]
  have hnone := family_moment heig μ.fam (fam_ne hp) none (fun _ h => by simp at h) w ind hi hw
  have hnone' : μ.fam.moment eig w ind none = .ok (ind.map (fun row => μ.E
      (fun x => (row.map (fun i => (pp (fun _ => 0) μ.fam.b i).eval ((x - μ.m) / μ.s))).prod))) := by
    rw [hnone]
    congr 1
    refine List.map_congr_left (fun row _ => ?_)
    exact E_unshift h _ hp
  unfold Shifted.moment
  rcases hsh : μ.orthonormalPolynomials.shifted with _ | ⟨m, s⟩
  · have hm0 : μ.m = 0 := by unfold Meas.m; rw [hsh]; rfl
    have hs1 : μ.s = 1 := by unfold Meas.s; rw [hsh]; rfl
    show μ.fam.moment eig w ind ν = _
    rw [family_moment heig μ.fam (fam_ne hp) ν (fun ν' h => (hν ν' h).1) w ind hi hw, hm0, hs1, measure_none hsh]
    simp
  · have hm0 : μ.m = m := by unfold Meas.m; rw [hsh]; rfl
    have hs1 : μ.s = s := by unfold Meas.s; rw [hsh]; rfl
    have hs := μ.s_pos h
    rw [hs1] at hs
    rw [hm0, hs1] at hnone' ⊢
    cases ν with
    | none => exact hnone'
    | some ν =>
      obtain ⟨hν1, hν2⟩ := hν ν rfl
      simp only []
      split
      · next he =>
        rw [orthonormalPolynomials_measure μ h] at he
        subst he
        exact hnone'
      · next hne =>
        rw [orthonormalPolynomials_measure μ h] at hne
        have hc' : ∀ a b, ν = .normal a b → a = 0 := by
          intro a b hab
          rcases hc with hc | hc
          · rw [hsh] at hc; exact absurd hc (by simp)
          · exact (hc a b (by rw [hab])).resolve_right (fun h => hne (Option.some.inj h))
        have hsh2 := fun f => E_shift hν1 hν2 hc' (m := -m / s) (s := 1 / s) (by positivity) f
        show μ.fam.moment eig w ind (some (ν.shift (-m / s) (1 / s))) = _
        rw [family_moment heig μ.fam (fam_ne hp) _ (fun ν' h => by
          obtain rfl := Option.some.inj h; exact (hsh2 (fun _ => 0)).1) w ind hi hw]
        congr 1
        refine List.map_congr_left (fun row _ => ?_)
        show (ν.shift (-m / s) (1 / s)).E _ = ν.E _
        rw [(hsh2 _).2.2]
        congr 1
        funext x
        have : -m / s + 1 / s * x = (x - m) / s := by ring
        rw [this]

/-- `mean(ind)` for the polynomials of a uniform or normal random variable is the mean of the polynomials. -/
theorem mean_polynomials {eig : Eig} (heig : EigOk eig) (μ : Meas) (h : μ.Proper) (hp : μ.IsProba) (q : ℕ → ℝ[X])
    (hq : Evaluates μ q) (ind : List ℕ) (hi : ind ≠ []) :
    μ.orthonormalPolynomials.mean eig ind none = .ok (ind.map (fun i => μ.E (fun x => (q i).eval x))) := by
  rw [evaluates_eq hq]
  simp only [polys_eval hp]
  have hnone := family_moment heig μ.fam (fam_ne hp) none (fun _ h => by simp at h) 1 (ind.map (fun i => [i])) (by simpa using hi)
    (by intro row hr; obtain ⟨i, _, rfl⟩ := List.mem_map.1 hr; rfl)
  have hm : μ.fam.measure.mass = 1 := by
    have := fam_ne hp
    cases hF : μ.fam
    · rfl
    · rfl
    · exact absurd hF this
  unfold Shifted.mean Family.mean
  unfold Meas.fam at hnone hm
  simp only [hnone, bind, Except.bind, List.map_map, Option.getD_none, hm, div_one]
  congr 1
  refine List.map_congr_left (fun i _ => ?_)
  simp only [Function.comp_apply, List.map_cons, List.map_nil, List.prod_cons, List.prod_nil, mul_one]
  exact E_unshift h _ hp

/-- The constant 1 is the polynomial that `one()` designates. -/
theorem one_spec (μ : Meas) (hp : μ.IsProba) (q : ℕ → ℝ[X]) (hq : Evaluates μ q) (x : ℝ) :
    one.1 * (q one.2).eval x = 1 := by
  rw [evaluates_eq hq]
  simp [one, polys_eval hp, pp_zero]

/-! ## What is wrong for other measures -/

theorem legendre_one_val (x : ℝ) : (pp (fun _ => 0) bLeg 1).eval x = Real.sqrt 3 * x := by
  rw [pp_leg]
  simp only [leg, eval_mul, eval_C, eval_X]
  norm_num

/-- For the Lebesgue measure `[-1, 1]` the first moment and the coefficient of the constant 1 are those of the normalised
measure: the code answers 1, the integral is the square root of 2, and 1 times the polynomial 0 is not 1. -/
theorem lebesgue_moment_wrong (eig : Eig) (q : ℕ → ℝ[X]) (hq : Evaluates (.lebesgue (-1) 1) q) (x : ℝ) :
    (Meas.lebesgue (-1) 1).orthonormalPolynomials.moment eig 1 [[0]] none = .ok [1] ∧
    (Meas.lebesgue (-1) 1).E (fun y => (q 0).eval y) = Real.sqrt 2 ∧
    one.1 * (q one.2).eval x = 1 / Real.sqrt 2 := by
  have ho : (Meas.lebesgue (-1) 1).orthonormalPolynomials = ⟨.legendreLebesgue, none⟩ := by
    unfold Meas.orthonormalPolynomials; simp
  have hf : (Meas.lebesgue (-1) 1).fam = .legendreLebesgue := by unfold Meas.fam; rw [ho]
  have hq0 : ∀ y, (q 0).eval y = 1 / Real.sqrt 2 := by
    intro y
    rw [evaluates_eq hq]
    unfold polys
    rw [hf, show Family.legendreLebesgue.poly.mass = 2 from by show (1 : ℝ) - (-1) = 2; norm_num]
    simp [pp_zero]
  refine ⟨?_, ?_, ?_⟩
  · rw [ho]
    unfold Shifted.moment Family.moment
    simp [moment1]
  · simp only [hq0]
    show ∫ _ in (-1)..1, 1 / Real.sqrt 2 = Real.sqrt 2
    have h2 : Real.sqrt 2 ≠ 0 := (Real.sqrt_pos.2 (by norm_num)).ne'
    rw [intervalIntegral.integral_const, smul_eq_mul]
    rw [show (1 : ℝ) - -1 = Real.sqrt 2 * Real.sqrt 2 by rw [Real.mul_self_sqrt (by norm_num)]; norm_num]
    field_simp
  · simp [one, hq0]

/-- `mean(ind, measure)` with an explicit measure ignores the change of variable of shifted polynomials: for the uniform random
variable on `[0, 1]` and its own measure, the mean of the polynomial 1 is 0 and the code answers `sqrt(3) / 2`. -/
theorem mean_shifted_wrong {eig : Eig} (heig : EigOk eig) (q : ℕ → ℝ[X]) (hq : Evaluates (.uniform 0 1) q) :
    (Meas.uniform 0 1).orthonormalPolynomials.mean eig [1] (some (.uniform 0 1)) = .ok [Real.sqrt 3 / 2] ∧
    (Meas.uniform 0 1).E (fun x => (q 1).eval x) = 0 := by
  have hpr : (Meas.uniform 0 1).Proper := by show (0 : ℝ) < 1; norm_num
  constructor
  · have hfm : Family.legendre.moment eig 1 [[1]] (some (.uniform 0 1)) = .ok [Real.sqrt 3 / 2] := by
      rw [family_moment heig .legendre (by simp) (some (.uniform 0 1)) (fun ν' h => by
        obtain rfl := Option.some.inj h; exact hpr) 1 [[1]] (by simp) (by simp)]
      simp only [List.map_cons, List.map_nil, List.prod_cons, List.prod_nil, mul_one, Option.getD_some]
      congr 2
      show (∫ x in (0)..1, (pp (fun _ => 0) bLeg 1).eval x) / (1 - 0) = _
      simp only [legendre_one_val]
      rw [intervalIntegral.integral_const_mul, integral_id]
      ring
    show Family.mean eig .legendre [1] (some (.uniform 0 1)) = _
    unfold Family.mean
    simp only [List.map_cons, List.map_nil, hfm, bind, Except.bind]
    simp [Meas.mass]
  · have h1 := polyval_orthonormal (.uniform 0 1) hpr trivial q hq 0 1
    have hq0 : ∀ y, (q 0).eval y = 1 := by
      intro y
      have := one_spec (.uniform 0 1) trivial q hq y
      simpa [one] using this
    simp only [hq0, one_mul] at h1
    simpa using h1

/-- `NormalRandomVariable.shift` does not multiply the mean by the scaling, so that the moments of shifted polynomials for a
normal random variable that is not centred are wrong: for the polynomial 1 of a normal random variable of standard deviation
2 and the mean for the normal random variable of mean 1, the code answers 1 and the mean is 1/2. -/
theorem moment_normal_wrong {eig : Eig} (heig : EigOk eig) (q : ℕ → ℝ[X]) (hq : Evaluates (.normal 0 2) q) :
    (Meas.normal 0 2).orthonormalPolynomials.moment eig 1 [[1]] (some (.normal 1 1)) = .ok [1] ∧
    (Meas.normal 1 1).E (fun x => (q 1).eval x) = 1 / 2 := by
  have ho : (Meas.normal 0 2).orthonormalPolynomials = ⟨.hermite, some (0, 2)⟩ := by
    unfold Meas.orthonormalPolynomials; norm_num
  have hval : ∀ x, (pp (fun _ => 0) Family.hermite.b 1).eval x = x := by
    intro x; rw [pp_one]; simp [Family.b]
  have hE : ∀ sg : ℝ, 0 < sg → (Meas.normal 1 sg).E (fun x => x) = 1 := by
    intro sg _
    show ∫ x, x ∂(ProbabilityTheory.gaussianReal 1 (sg ^ 2).toNNReal) = 1
    exact ProbabilityTheory.integral_id_gaussianReal
  constructor
  · rw [ho]
    unfold Shifted.moment Shifted.measure
    have hne : Meas.normal 1 1 ≠ Family.hermite.measure.shift 0 2 := by
      simp [Family.measure, Meas.shift]
    simp only []
    rw [if_neg hne]
    have hsh : (Meas.normal 1 1).shift (-0 / 2) (1 / 2) = Meas.normal 1 (1 / 2) := by
      simp [Meas.shift]
    rw [hsh, family_moment heig .hermite (by simp) (some (.normal 1 (1 / 2))) (fun ν' h => by
      obtain rfl := Option.some.inj h; show (0 : ℝ) < 1 / 2; norm_num) 1 [[1]] (by simp) (by simp)]
    simp only [List.map_cons, List.map_nil, List.prod_cons, List.prod_nil, mul_one, Option.getD_some, hval]
    rw [hE _ (by norm_num)]
  · rw [evaluates_eq hq]
    have hf : (Meas.normal 0 2).fam = .hermite := by unfold Meas.fam; rw [ho]
    have hm : (Meas.normal 0 2).m = 0 := by unfold Meas.m; rw [ho]; rfl
    have hs : (Meas.normal 0 2).s = 2 := by unfold Meas.s; rw [ho]; rfl
    simp only [polys_eval (μ := .normal 0 2) trivial, hf, hm, hs, hval, sub_zero]
    have : (Meas.normal 1 1).E (fun x => x / 2) = (Meas.normal 1 1).E (fun x => x) / 2 := by
      show ∫ x, x / 2 ∂_ = (∫ x, x ∂_) / 2
      exact MeasureTheory.integral_div _ _
    rw [this, hE _ (by norm_num)]

end

end Verif.Polynomials
