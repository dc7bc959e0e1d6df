import Verif.Props.Empirical

/-!
# Orthonormal polynomials and Gauss rules of empirical random variables
-/

namespace Verif.Empirical

open MeasureTheory ProbabilityTheory Polynomial Verif.Polynomials Verif.Grids

noncomputable section

theorem peval_eq (A B : ℕ → ℝ) (i : ℕ) (a b : List ℝ) (ha : ∀ k, k < i → at' a k = A k) (hb : ∀ k, k < i → at' b k = B k) (x : ℝ) :
    peval i a b x = (monic A B i).eval x := by
  unfold peval
  split
  · next h => subst h; simp [monic]
  · next h =>
    have key : ∀ j, j + 1 ≤ i → (List.range' 2 j).foldl
        (fun (p : ℝ × ℝ) k => (p.2, (x - at' a (k - 1)) * p.2 - at' b (k - 1) * p.1)) (1, x - at' a 0) =
        ((monic A B j).eval x, (monic A B (j + 1)).eval x) := by
      intro j
      induction j with
      | zero =>
        intro hj
        simp [monic, ha 0 (by omega)]
      | succ j ih =>
        intro hj
        rw [List.range'_concat, List.foldl_append, ih (by omega)]
        simp only [List.foldl_cons, List.foldl_nil, one_mul]
        rw [show 2 + j - 1 = j + 1 by omega, ha (j + 1) (by omega), hb (j + 1) (by omega)]
        congr 1
        rw [show j + 1 + 1 = j + 2 from rfl, monic]
        simp only [eval_sub, eval_mul, eval_X, eval_C]
    obtain ⟨j, rfl⟩ : ∃ j, i = j + 1 := ⟨i - 1, by omega⟩
    rw [Nat.add_sub_cancel, key j le_rfl]

/-- The arrays after `i` iterations. -/
structure Inv (L : ℝ[X] →ₗ[ℝ] ℝ) (i : ℕ) (s : Arrays) : Prop where
  a : s.a = (List.range (i + 1)).map (stA L)
  b : s.b = (List.range (i + 1)).map (stB L)
  norms : s.norms = (List.range (i + 1)).map (stN L)

theorem at'_range (f : ℕ → ℝ) (n i : ℕ) (h : i < n) : at' ((List.range n).map f) i = f i := by
  unfold at'
  rw [List.getD_eq_getElem _ _ (by simpa using h)]
  simp

theorem step_inv {L : ℝ[X] →ₗ[ℝ] ℝ} {Q : (ℝ → ℝ) → ℝ} {i : ℕ} (hQ : ∀ q : ℝ[X], q.natDegree ≤ 2 * i + 3 → Q (fun x => q.eval x) = L q)
    {s : Arrays} (h : Inv L i s) : Inv L (i + 1) (arraysStep Q s) := by
  have hlen : s.a.length = i + 1 := by rw [h.a]; simp
  have hp : peval (i + 1) s.a s.b = fun x => (sp L (i + 1)).eval x := by
    funext x
    refine peval_eq _ _ _ _ _ (fun k hk => ?_) (fun k hk => ?_) x
    · rw [h.a, at'_range _ _ _ hk]
    · rw [h.b, at'_range _ _ _ hk]
  have hd := (sp_ne (L := L) (i + 1)).2
  have hN : Q (fun x => (sp L (i + 1)).eval x ^ 2) = stN L (i + 1) := by
    have := hQ (sp L (i + 1) * sp L (i + 1)) (le_trans natDegree_mul_le (by omega))
    rw [stN, ← this]
    congr 1
    funext x
    rw [eval_mul, pow_two]
  have hX : Q (fun x => (sp L (i + 1)).eval x * x * (sp L (i + 1)).eval x) = L (sp L (i + 1) * (X * sp L (i + 1))) := by
    have hd2 : (sp L (i + 1) * (X * sp L (i + 1))).natDegree ≤ 2 * i + 3 := by
      refine le_trans natDegree_mul_le ?_
      have : (X * sp L (i + 1) : ℝ[X]).natDegree ≤ i + 2 := le_trans natDegree_mul_le (by rw [natDegree_X]; omega)
      omega
    rw [← hQ _ hd2]
    congr 1
    funext x
    rw [eval_mul, eval_mul, eval_X]
    ring
  unfold arraysStep
  simp only [hlen, hp, hN, hX]
  rw [Nat.add_sub_cancel, h.norms, at'_range _ _ _ (by omega)]
  refine ⟨?_, ?_, ?_⟩
  · rw [h.a, map_range_succ _ (i + 1), stA_eq (i + 1)]
  · rw [h.b, map_range_succ _ (i + 1), stB_succ]
  · rw [map_range_succ _ (i + 1)]

theorem iterate_inv {L : ℝ[X] →ₗ[ℝ] ℝ} {Q : (ℝ → ℝ) → ℝ} (n : ℕ) (h1 : L 1 = 1)
    (hQ : ∀ q : ℝ[X], q.natDegree ≤ 2 * n + 3 → Q (fun x => q.eval x) = L q) :
    ∀ k, k ≤ n + 1 → Inv L k ((arraysStep Q)^[k] (arraysInit Q)) := by
  intro k
  induction k with
  | zero =>
    intro _
    have hX : Q (fun x => x) = L X := by
      have := hQ X (by rw [natDegree_X]; omega)
      rw [← this]
      simp only [eval_X]
    refine ⟨?_, ?_, ?_⟩
    · simp only [Function.iterate_zero, id, arraysInit, hX]
      rw [show List.range (0 + 1) = [0] from rfl, List.map_singleton, stA_eq]
      show [L X] = [L (1 * (X * 1)) / L (1 * 1)]
      rw [one_mul, one_mul, mul_one, h1, div_one]
    · simp [arraysInit, stB]
    · simp only [Function.iterate_zero, id, arraysInit]
      rw [show List.range (0 + 1) = [0] from rfl, List.map_singleton, stN]
      show [(1 : ℝ)] = [L (1 * 1)]
      rw [one_mul, h1]
  | succ k ih =>
    intro hk
    rw [Function.iterate_succ_apply']
    exact step_inv (fun q hq => hQ q (by omega)) (ih (by omega))

theorem quad_eq {eig : Eig} (heig : EigOk eig) {ys : List ℝ} (hb : 0 < bandwidth ys) (n : ℕ) (hn : 0 < n) (G : Rule ℝ ℝ)
    (hG : (Meas.normal 0 1).gauss eig n = .ok G) (q : ℝ[X]) (hq : q.natDegree ≤ 2 * n - 1) :
    quad G ys (fun x => q.eval x) = LK ys (bandwidth ys) q := by
  obtain ⟨G', h1, h2, h3, h4, h5, h6⟩ := gauss_spec heig (.normal 0 1) (show (0 : ℝ) < 1 by norm_num) n hn
  rw [hG] at h1
  obtain rfl := Except.ok.inj h1
  rw [quad, LK_apply, npMean, List.length_map, div_eq_mul_inv, ← List.sum_map_mul_right]
  congr 1
  refine List.map_congr_left (fun a _ => ?_)
  have h7 := rule_sum _ _ _ (h6 (q.comp (C a + C (bandwidth ys) * X)) (by rw [natDegree_comp_aff hb.ne']; exact hq))
  have hE : (Meas.normal 0 1).E (fun x => (q.comp (C a + C (bandwidth ys) * X)).eval x) = LN (q.comp (C a + C (bandwidth ys) * X)) := by
    rw [LN_gaussian]; simp [Meas.E]
  rw [← hE, ← h7, zip_mul]
  congr 2
  funext g w
  simp only [eval_comp, eval_add, eval_mul, eval_C, eval_X]
  rw [add_comm a]
  ring

theorem precompute_eq {eig : Eig} (heig : EigOk eig) {ys : List ℝ} (hne : ys ≠ []) (hb : 0 < bandwidth ys) (n : ℕ) :
    precomputeEmp eig ys n = .ok (((List.range (n + 1)).map (stA (LK ys (bandwidth ys))),
      (List.range (n + 1)).map (stB (LK ys (bandwidth ys)))),
      (List.range (n + 1)).map (fun i => Real.sqrt (stN (LK ys (bandwidth ys)) i))) := by
  have e : (2 * n + 3 + 1) / 2 = n + 2 := by omega
  obtain ⟨G, h1, _⟩ := gauss_spec heig (.normal 0 1) (show (0 : ℝ) < 1 by norm_num) (n + 2) (by omega)
  have hI := iterate_inv (L := LK ys (bandwidth ys)) (Q := quad G ys) n (LK_one hne _)
    (fun q hq => quad_eq heig hb (n + 2) (by omega) G h1 q (by omega)) (n + 1) le_rfl
  have ht : ∀ f : ℕ → ℝ, ((List.range (n + 1 + 1)).map f).take (n + 1) = (List.range (n + 1)).map f := by
    intro f
    rw [← List.map_take, List.take_range]
    congr 2
    omega
  unfold precomputeEmp
  rw [e, h1]
  simp only [bind, Except.bind]
  rw [hI.a, hI.b, hI.norms, ht, ht, ht, List.map_map]
  rfl

/-! ### orthonormality -/

section

variable {L : ℝ[X] →ₗ[ℝ] ℝ}

/-- A functional that is positive on the squares. -/
def PosSq (L : ℝ[X] →ₗ[ℝ] ℝ) : Prop := ∀ q : ℝ[X], q ≠ 0 → 0 < L (q * q)

theorem norm_pos (h : PosSq L) (i : ℕ) : 0 < stN L i := h _ (sp_ne i).1

theorem stB_pos' (h : PosSq L) (i : ℕ) (hi : 1 ≤ i) : 0 < stB L i := by
  obtain ⟨k, rfl⟩ : ∃ k, i = k + 1 := ⟨i - 1, by omega⟩
  rw [stB_succ]
  exact div_pos (norm_pos h _) (norm_pos h _)

/-- The normalisation of the polynomials. -/
def eC (L : ℝ[X] →ₗ[ℝ] ℝ) (n : ℕ) : ℝ := ∏ i ∈ Finset.range n, Real.sqrt (stB L (i + 1))

theorem eC_pos (h : PosSq L) (n : ℕ) : 0 < eC L n :=
  Finset.prod_pos (fun i _ => Real.sqrt_pos.2 (stB_pos' h (i + 1) (by omega)))

theorem sp_pp (h : PosSq L) (n : ℕ) : sp L n = C (eC L n) * pp (stA L) (stB L) n := by
  rw [sp, monic_eq _ (stB_pos' h)]
  rfl

theorem eC_sq (h : PosSq L) (h1 : L 1 = 1) (n : ℕ) : stN L n = eC L n ^ 2 := by
  induction n with
  | zero =>
    show L (1 * 1) = _
    rw [one_mul, h1]
    simp [eC]
  | succ n ih =>
    have h2 : eC L (n + 1) ^ 2 = eC L n ^ 2 * stB L (n + 1) := by
      unfold eC
      rw [Finset.prod_range_succ, mul_pow, Real.sq_sqrt (stB_pos' h _ (by omega)).le]
    rw [h2, stB_succ, ← ih, mul_div_cancel₀ _ (norm_pos h n).ne']

theorem pp_orth (h : PosSq L) (h1 : L 1 = 1) (i j : ℕ) :
    L (pp (stA L) (stB L) i * pp (stA L) (stB L) j) = if i = j then 1 else 0 := by
  have hC : ∀ (c : ℝ) (q : ℝ[X]), L (C c * q) = c * L q := fun c q => by
    rw [← smul_eq_C_mul, map_smul, smul_eq_mul]
  have key : L (sp L i * sp L j) = eC L i * eC L j * L (pp (stA L) (stB L) i * pp (stA L) (stB L) j) := by
    rw [sp_pp h, sp_pp h, ← hC, C_mul]
    congr 1
    ring
  have hi := (eC_pos h i).ne'
  have hj := (eC_pos h j).ne'
  have ho : ∀ i j, i < j → L (sp L i * sp L j) = 0 := fun i j hij =>
    sp_orthogonal j (fun k _ => (norm_pos h k).ne') j le_rfl i hij
  rcases Nat.lt_trichotomy i j with hij | hij | hij
  · rw [ho i j hij] at key
    rw [if_neg (by omega)]
    exact (mul_eq_zero.1 key.symm).resolve_left (mul_ne_zero hi hj)
  · subst hij
    rw [if_pos rfl]
    have h2 := eC_sq h h1 i
    rw [stN, key, pow_two] at h2
    have h3 : eC L i * eC L i ≠ 0 := mul_ne_zero hi hj
    exact mul_left_cancel₀ h3 (h2.trans (mul_one _).symm)
  · rw [mul_comm, ho j i hij] at key
    rw [if_neg (by omega)]
    exact (mul_eq_zero.1 key.symm).resolve_left (mul_ne_zero hi hj)

end

/-! ### the polynomials of a variable -/

theorem standard_varied {xs : List ℝ} (h : Varied xs) : Varied (standard xs) := by
  have hs := std_pos h
  obtain ⟨x, hx, y, hy, hxy⟩ := h
  refine ⟨_, List.mem_map_of_mem hx, _, List.mem_map_of_mem hy, fun h0 => hxy ?_⟩
  field_simp at h0
  linarith

/-- The functional of the standardised variable. -/
abbrev LS (xs : List ℝ) : ℝ[X] →ₗ[ℝ] ℝ := LK (standard xs) (bandwidth (standard xs))

theorem LS_pos {xs : List ℝ} (h : Varied xs) : PosSq (LS xs) := fun _ hq =>
  LK_sq_pos (standard_varied h).ne_nil (bandwidth_pos (standard_varied h)) hq

theorem LS_one {xs : List ℝ} (h : Varied xs) : LS xs 1 = 1 := LK_one (standard_varied h).ne_nil _

theorem emp_eq {eig : Eig} (heig : EigOk eig) {xs : List ℝ} (h : Varied xs) (n : Option ℕ) :
    ∃ P, empiricalPolynomials eig xs n = .ok P ∧ P.mass = 1 ∧
      HasRec P (stA (LS xs)) (stB (LS xs)) (fun m => m ≤ n.getD (xs.length - 1)) ∧
      ∀ m, n.getD (xs.length - 1) < m → P.recurrenceMonic m = .error .indexError := by
  have hv := standard_varied h
  have hlen : (standard xs).length = xs.length := List.length_map _
  unfold empiricalPolynomials
  dsimp only
  rw [hlen]
  generalize n.getD (xs.length - 1) = K
  simp only [precompute_eq heig hv.ne_nil (bandwidth_pos hv), bind, Except.bind]
  refine ⟨_, rfl, rfl, ?_, ?_⟩
  · intro m hm
    simp only [List.length_map, List.length_range]
    rw [if_neg (by omega)]
    refine ⟨_, rfl, fun i hi => ?_⟩
    have key : ∀ f : ℕ → ℝ, at' (((List.range (K + 1)).map f).take (m + 1)) i = f i := by
      intro f
      unfold at'
      rw [List.getD_eq_getElem _ _ (by simp; omega)]
      simp
    exact ⟨key _, key _⟩
  · intro m hm
    simp only [List.length_map, List.length_range]
    rw [if_pos (by omega)]

/-- The affine change of variable of `orthonormal_polynomials`. -/
def aff (xs : List ℝ) (x : ℝ) : ℝ := npMean xs + npStd xs * x

theorem law_std {xs : List ℝ} (h : Varied xs) : law xs = (law (standard xs)).map (aff xs) := by
  have hs := std_pos h
  rw [(standard_law h).1, Measure.map_map (by unfold aff; fun_prop) (by fun_prop)]
  have : aff xs ∘ (fun x => (x - npMean xs) / npStd xs) = id := by
    funext x
    simp only [aff, Function.comp_apply, id]
    field_simp
    ring
  rw [this, Measure.map_id]

theorem integral_std {xs : List ℝ} (h : Varied xs) (f : ℝ → ℝ) : ∫ x, f x ∂(law xs) = ∫ x, f (aff xs x) ∂(law (standard xs)) := by
  rw [law_std h]
  have hemb : MeasurableEmbedding (aff xs) :=
    (measurableEmbedding_addLeft (npMean xs)).comp (Homeomorph.mulLeft₀ (npStd xs) (std_pos h).ne').measurableEmbedding
  exact hemb.integral_map f

theorem standard_id {xs : List ℝ} (h1 : npMean xs = 0) (h2 : npStd xs = 1) : standard xs = xs := by
  rw [standard, h1, h2]
  simp

/-- The polynomial number `i`. -/
def qpoly (xs : List ℝ) (i : ℕ) : ℝ[X] := (pp (stA (LS xs)) (stB (LS xs)) i).comp (C (1 / npStd xs) * (X - C (npMean xs)))

theorem polyval_eq' {eig : Eig} (heig : EigOk eig) {xs : List ℝ} (h : Varied xs) (hr : Resolved xs) (n : Option ℕ) (ind : List ℕ)
    (hi : ind ≠ []) (hD : ∀ i ∈ ind, i ≤ n.getD (xs.length - 1)) (x : ℝ) :
    polyval eig xs n ind x = .ok (ind.map (fun i => (qpoly xs i).eval x)) := by
  have hs := std_pos h
  obtain ⟨P, e1, e2, e3, _⟩ := emp_eq heig h n
  unfold polyval orthonormalPolynomials
  simp only [e1, bind, Except.bind]
  by_cases hc : eps < |npMean xs| ∨ eps < |npStd xs - 1|
  · rw [if_pos hc]
    simp only [polyvalOf]
    rw [Polynomials.polyval_eq e3 ind hi hD, e2]
    congr 1
    refine List.map_congr_left (fun i _ => ?_)
    rw [Real.sqrt_one, div_one, qpoly, eval_comp]
    congr 1
    simp only [eval_mul, eval_C, eval_sub, eval_X]
    ring
  · rw [if_neg hc]
    simp only [polyvalOf]
    obtain ⟨h1, h2⟩ := hr.resolve_right hc
    rw [Polynomials.polyval_eq e3 ind hi hD, e2]
    congr 1
    refine List.map_congr_left (fun i _ => ?_)
    rw [Real.sqrt_one, div_one, qpoly, eval_comp, h1, h2]
    simp

theorem qpoly_aff {xs : List ℝ} (h : Varied xs) (i : ℕ) (x : ℝ) : (qpoly xs i).eval (aff xs x) = (pp (stA (LS xs)) (stB (LS xs)) i).eval x := by
  have hs := std_pos h
  rw [qpoly, eval_comp]
  congr 1
  simp only [eval_mul, eval_C, eval_sub, eval_X, aff]
  field_simp
  ring

/-- For a sample of `N` numbers that are not all equal, `orthonormal_polynomials()` evaluates polynomials of degrees 0 to `N - 1` that
are orthonormal for the law of the variable; with an argument `n`, polynomials of degrees 0 to `n`. -/
theorem polyval_orthonormal {eig : Eig} (heig : EigOk eig) {xs : List ℝ} (h : Varied xs) (hr : Resolved xs) :
    ∃ q : ℕ → ℝ[X], (∀ i, (q i).natDegree = i) ∧
      (∀ (n : Option ℕ) (ind : List ℕ), ind ≠ [] → (∀ i ∈ ind, i ≤ n.getD (xs.length - 1)) → ∀ x : ℝ,
        polyval eig xs n ind x = .ok (ind.map (fun i => (q i).eval x))) ∧
      ∀ i j, ∫ x, (q i).eval x * (q j).eval x ∂(law xs) = if i = j then 1 else 0 := by
  have hs := std_pos h
  refine ⟨qpoly xs, fun i => ?_, fun n ind hi hD x => polyval_eq' heig h hr n ind hi hD x, fun i j => ?_⟩
  · have e : (C (1 / npStd xs) * (X - C (npMean xs)) : ℝ[X]) = C (-npMean xs / npStd xs) + C (1 / npStd xs) * X := by
      rw [mul_sub, ← C_mul, sub_eq_add_neg, add_comm, ← C_neg]
      congr 2
      ring
    rw [qpoly, e, natDegree_comp_aff (one_div_ne_zero hs.ne')]
    exact (pp_natDegree i (fun j hj _ => stB_pos' (LS_pos h) j hj)).1
  · rw [integral_std h]
    simp only [qpoly_aff h]
    have := LK_eq (standard xs) (bandwidth_pos (standard_varied h)) (pp (stA (LS xs)) (stB (LS xs)) i * pp (stA (LS xs)) (stB (LS xs)) j)
    simp only [eval_mul] at this
    rw [law, this]
    exact pp_orth (LS_pos h) (LS_one h) i j

/-- Beyond these degrees `polyval` raises `IndexError`. -/
theorem polyval_refused {eig : Eig} (heig : EigOk eig) {xs : List ℝ} (h : Varied xs) (n : Option ℕ) (ind : List ℕ) (i : ℕ)
    (hi : i ∈ ind) (hD : n.getD (xs.length - 1) < i) (x : ℝ) : polyval eig xs n ind x = .error .indexError := by
  obtain ⟨P, e1, e2, e3, e4⟩ := emp_eq heig h n
  obtain ⟨m, h1, h2, h3⟩ := npMax_spec ind (List.ne_nil_of_mem hi)
  have h4 := e4 m (lt_of_lt_of_le hD (h3 i hi))
  have key : ∀ y, P.polyval ind y = .error .indexError := by
    intro y
    unfold OrthPoly.polyval
    simp only [h1, h4, bind, Except.bind]
  unfold polyval orthonormalPolynomials
  simp only [e1, bind, Except.bind, polyvalOf]
  split <;> exact key _

/-- The Gauss rule with `n ≤ N` points has distinct points in increasing order and positive weights, and integrates exactly every
polynomial of degree at most `2n - 1` for the law. -/
theorem gauss_exactness {eig : Eig} (heig : EigOk eig) {xs : List ℝ} (h : Varied xs) (hr : Resolved xs) (n : ℕ) (hn : 0 < n)
    (hN : n ≤ xs.length) :
    ∃ r : Rule ℝ ℝ, gauss eig xs n = .ok r ∧ r.points.length = n ∧ r.points.Pairwise (· < ·) ∧ r.weights.length = n ∧
      (∀ w ∈ r.weights, 0 < w) ∧
      ∀ q : ℝ[X], q.natDegree ≤ 2 * n - 1 → r.integrate (fun x => q.eval x) = .ok (∫ x, q.eval x ∂(law xs)) := by
  have hs := std_pos h
  obtain ⟨P, e1, e2, e3, _⟩ := emp_eq heig h none
  have hbn : ∀ i, 1 ≤ i → i ≤ n → 0 < stB (LS xs) i := fun i hi _ => stB_pos' (LS_pos h) i hi
  obtain ⟨lam, V, hE, _, hg, hg'⟩ := gaussRule_spec heig e3 hn (show n - 1 ≤ _ by simp only [Option.getD_none]; omega) hbn
  have hinj := eig_injective hn hbn (fun _ _ => rfl) hE
  have hrule : gauss eig xs n = .ok ⟨(npSort lam).map (fun x => npMean xs + npStd xs * x), (argsort lam).map (fun k => V ⟨0, hn⟩ k ^ 2)⟩ := by
    unfold gauss orthonormalPolynomials
    simp only [e1, bind, Except.bind]
    by_cases hc : eps < |npMean xs| ∨ eps < |npStd xs - 1|
    · rw [if_pos hc, hg']
    · rw [if_neg hc, hg]
      obtain ⟨h1, h2⟩ := hr.resolve_right hc
      rw [h1, h2]
      simp
  refine ⟨_, hrule, by rw [List.length_map, npSort_length], ?_, ?_, ?_, fun q hq => ?_⟩
  · rw [List.pairwise_map]
    refine (npSort_pairwise lam hinj).imp (fun {x y} hxy => ?_)
    have := mul_lt_mul_of_pos_left hxy hs
    linarith
  · rw [List.length_map, (argsort_perm lam).length_eq, List.length_finRange]
  · intro w hw
    obtain ⟨k, _, rfl⟩ := List.mem_map.1 hw
    have := first_ne hn hbn (fun _ _ => rfl) hE k
    positivity
  · rw [integrate_rule]
    congr 1
    have e := gauss_exact hn hbn (fun _ _ => rfl) hE (LS xs) (fun i j _ _ => pp_orth (LS_pos h) (LS_one h) i j)
      (fun j hj => by rw [pp_orth (LS_pos h) (LS_one h), if_neg (by omega)]) (q.comp (C (npMean xs) + C (npStd xs) * X))
      (by rw [natDegree_comp_aff hs.ne']; omega)
    rw [integral_std h, law]
    have e2 := LK_eq (standard xs) (bandwidth_pos (standard_varied h)) (q.comp (C (npMean xs) + C (npStd xs) * X))
    simp only [eval_comp, eval_add, eval_mul, eval_C, eval_X] at e2 e
    simp only [aff]
    rw [e2, ← e]

/-- With more points than the sample, it raises `IndexError`. -/
theorem gauss_refused {eig : Eig} (heig : EigOk eig) {xs : List ℝ} (h : Varied xs) (n : ℕ) (hN : xs.length < n) :
    gauss eig xs n = .error .indexError := by
  obtain ⟨P, e1, e2, e3, e4⟩ := emp_eq heig h none
  have hl : 0 < xs.length := List.length_pos_iff.2 h.ne_nil
  have h4 := e4 (n - 1) (by simp only [Option.getD_none]; omega)
  unfold gauss orthonormalPolynomials
  simp only [e1, bind, Except.bind]
  unfold gaussRule
  simp only [h4, bind, Except.bind]

/-- `moment(ind)` returns the moments of the law of the orders of `ind`, at most `2N - 1`. -/
theorem moment_spec {eig : Eig} (heig : EigOk eig) {xs : List ℝ} (h : Varied xs) (hr : Resolved xs) (ind : List ℕ) (hne : ind ≠ [])
    (hind : ∀ i ∈ ind, i < 2 * xs.length) : moment eig xs ind = .ok (ind.map (fun i => ∫ x, x ^ i ∂(law xs))) := by
  obtain ⟨m, e1, e2, e3⟩ := npMax_spec ind hne
  have := hind m e2
  obtain ⟨r, h2, _, _, _, _, h7⟩ := gauss_exactness heig h hr ((m + 1 + 1) / 2) (by omega) (by omega)
  unfold moment
  simp only [e1, h2, bind, Except.bind]
  refine mapM_ok ind _ _ (fun i hi => ?_)
  have := h7 (X ^ i) (by rw [natDegree_X_pow]; have := e3 i hi; omega)
  simpa using this

/-! ### a concrete case -/

theorem example_varied : Varied [1, 2, 4] := ⟨1, by simp, 2, by simp, by norm_num⟩

theorem example_resolved : Resolved [1, 2, 4] := by
  refine Or.inr (Or.inl ?_)
  norm_num [npMean, eps]

end

end Verif.Empirical
