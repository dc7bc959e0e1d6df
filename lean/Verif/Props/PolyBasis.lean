import Verif.Props.SubBasis
import Verif.Props.PolyMoments

/-!
# Bases of polynomials and derivatives of sub-bases (C157–C159)
-/

namespace Verif.SubBasis

open Verif.Arr Verif.Pca Verif.MultiIndices Finset Verif.Polynomials Polynomial

/-! ## Bases of polynomials -/

/-- The functions of the basis of polynomials of indices `ind`. -/
noncomputable def polyFns (q : ℕ → ℝ[X]) (ind : List ℕ) (j : ℕ) : ℝ → ℝ := fun x => (q (ind.getD j 0)).eval x

theorem polyEval_ok {μ : Meas} {q : ℕ → ℝ[X]} (hq : Evaluates μ q) {ind : List ℕ} (hi : ind ≠ []) (xs : List ℝ) :
    ∃ H, polyEval μ.orthonormalPolynomials ind xs = .ok H ∧ H.shape = [xs.length, ind.length] ∧
      ∀ p (hp : p < xs.length) j, j < ind.length → H.get [p, j] = polyFns q ind j xs[p] := by
  have h := Polynomials.mapM_ok xs (μ.orthonormalPolynomials.polyval ind) _ (fun x _ => hq ind hi x)
  refine ⟨_, by simp only [polyEval, h, bind, Except.bind]; rfl, by simp [ofRows], ?_⟩
  intro p hp j hj
  simp only [ofRows, List.getD_cons_zero, List.getD_cons_succ]
  rw [List.getD_eq_getElem (xs.map _) _ (by simpa using hp), List.getElem_map,
    List.getD_eq_getElem (ind.map _) _ (by simpa using hj), List.getElem_map]
  unfold polyFns
  rw [List.getD_eq_getElem ind _ hj]

/-- **C158.** The functions of a basis of polynomials are the polynomials of the given indices. -/
theorem polyBasis_fns (eig : Eig) (μ : Meas) (q : ℕ → ℝ[X]) (hq : Evaluates μ q) (ind : List ℕ) (hi : ind ≠ []) :
    (polyBasis eig μ ind).card = ind.length ∧ Fns (polyBasis eig μ ind) (polyFns q ind) :=
  ⟨rfl, fun xs => polyEval_ok hq hi xs⟩

theorem E_linear {μ : Meas} (h : μ.Proper) {ι : Type} (s : Finset ι) (g : ι → ℝ[X]) :
    LinearOn μ.E s (fun i x => (g i).eval x) := by
  intro c
  have h1 := μ.E_eq h (∑ i ∈ s, C (c i) * g i)
  simp only [eval_finsetSum, eval_mul, eval_C] at h1
  rw [h1, Polynomial.sum_comp, map_sum, mul_sum]
  refine sum_congr rfl (fun i _ => ?_)
  rw [μ.E_eq h (g i), mul_comp, C_comp, ← smul_eq_C_mul, map_smul, smul_eq_mul]
  ring

/-- The means of products of polynomials are linear: the hypothesis of the theorems on sub-bases is met. -/
theorem polyFns_linear {μ : Meas} (h : μ.Proper) (q : ℕ → ℝ[X]) (ind : List ℕ) (n : ℕ) :
    LinearOn μ.E (range n) (polyFns q ind) ∧
    LinearOn μ.E (range n ×ˢ range n) (fun p x => polyFns q ind p.1 x * polyFns q ind p.2 x) := by
  refine ⟨E_linear h (range n) (fun j => q (ind.getD j 0)), ?_⟩
  have := E_linear h (range n ×ˢ range n) (fun p : ℕ × ℕ => q (ind.getD p.1 0) * q (ind.getD p.2 0))
  simp only [eval_mul] at this
  exact this

theorem gramPairs_ne {ind : List ℕ} (hi : ind ≠ []) : gramPairs ind ≠ [] := by
  have : 0 < ind.length := List.length_pos_iff.2 hi
  unfold gramPairs
  intro h
  have := congrArg List.length h
  simp only [List.length_map, List.length_range, List.length_nil] at this
  nlinarith

theorem polyGram_gen {eig : Eig} (μ : Meas) (ind : List ℕ) (ν : Option Meas) (q : ℕ → ℝ[X]) (F : Meas)
    (h : μ.orthonormalPolynomials.moment eig 2 (gramPairs ind) (some (ν.getD μ.orthonormalPolynomials.measure))
      = .ok ((gramPairs ind).map (fun row => F.E (fun x => (row.map (fun i => (q i).eval x)).prod)))) :
    ∃ G, polyGram eig μ.orthonormalPolynomials ind ν = .ok G ∧ G.shape = [ind.length, ind.length] ∧
      ∀ i < ind.length, ∀ j < ind.length, G.get [i, j] = F.E (fun x => polyFns q ind i x * polyFns q ind j x) := by
  refine ⟨_, by simp only [polyGram, h, bind, Except.bind]; rfl, rfl, ?_⟩
  intro i hi j hj
  simp only [List.getD_cons_zero, List.getD_cons_succ]
  have hlt : i * ind.length + j < ind.length * ind.length := by
    calc i * ind.length + j < i * ind.length + ind.length := by omega
      _ = (i + 1) * ind.length := by ring
      _ ≤ ind.length * ind.length := Nat.mul_le_mul_right _ hi
  rw [List.getD_eq_getElem ((gramPairs ind).map _) _ (by simpa [gramPairs] using hlt), List.getElem_map]
  congr 1
  funext x
  unfold gramPairs polyFns
  rw [List.getElem_map, List.getElem_range]
  have h1 : (i * ind.length + j) % ind.length = j := by
    rw [mul_comm, Nat.mul_add_mod]; exact Nat.mod_eq_of_lt hj
  have h2 : (i * ind.length + j) / ind.length = i := by
    rw [mul_comm, Nat.mul_add_div (by omega), Nat.div_eq_of_lt hj, add_zero]
  rw [h1, h2]
  simp [mul_comm]

/-- **C158.** `gram_matrix()` and `mean()` of the basis of the polynomials of a uniform or normal random variable are the
Gram matrix and the means of its functions. -/
theorem polyBasis_gram {eig : Eig} (heig : EigOk eig) (μ : Meas) (h : μ.Proper) (hp : μ.IsProba) (q : ℕ → ℝ[X])
    (hq : Evaluates μ q) (ind : List ℕ) (hi : ind ≠ []) :
    GramOk (polyBasis eig μ ind) (polyFns q ind) μ.E ∧
    (polyBasis eig μ ind).mean = .ok ((List.range ind.length).map (fun j => μ.E (polyFns q ind j))) := by
  constructor
  · have hm := moment_polynomials heig μ h hp q hq (some μ) (fun ν' e => by obtain rfl := Option.some.inj e; exact ⟨h, hp⟩)
      (Or.inr (fun a b e => Or.inr rfl)) 2 (gramPairs ind) (gramPairs_ne hi)
      (by intro row hr; obtain ⟨t, _, rfl⟩ := List.mem_map.1 hr; rfl)
    exact polyGram_gen μ ind none q μ (by
      rw [Option.getD_none, orthonormalPolynomials_measure μ h]; exact hm)
  · show μ.orthonormalPolynomials.mean eig ind none = _
    rw [mean_polynomials heig μ h hp q hq ind hi]
    congr 1
    apply List.ext_getElem
    · simp
    · intro n h1 h2
      simp only [List.getElem_map, List.getElem_range]
      unfold polyFns
      rw [List.getD_eq_getElem ind _ (by simpa using h1)]

/-- **C158.** `gram_matrix(measure)` is the Gram matrix for the given random variable, under the conditions of `moment`
(C89). -/
theorem polyBasis_gram_measure {eig : Eig} (heig : EigOk eig) (μ : Meas) (h : μ.Proper) (hp : μ.IsProba) (q : ℕ → ℝ[X])
    (hq : Evaluates μ q) (ind : List ℕ) (hi : ind ≠ []) (ν : Meas) (hν : ν.Proper) (hνp : ν.IsProba)
    (hc : μ.orthonormalPolynomials.shifted = none ∨ ∀ a b, ν = .normal a b → a = 0 ∨ ν = μ) :
    ∃ G, polyGram eig μ.orthonormalPolynomials ind (some ν) = .ok G ∧ G.shape = [ind.length, ind.length] ∧
      ∀ i < ind.length, ∀ j < ind.length, G.get [i, j] = ν.E (fun x => polyFns q ind i x * polyFns q ind j x) := by
  have hm := moment_polynomials heig μ h hp q hq (some ν) (fun ν' e => by obtain rfl := Option.some.inj e; exact ⟨hν, hνp⟩)
    (hc.imp id (fun hc a b e => (hc a b (Option.some.inj e)).imp id (fun e' => by rw [e']))) 2 (gramPairs ind) (gramPairs_ne hi)
    (by intro row hr; obtain ⟨t, _, rfl⟩ := List.mem_map.1 hr; rfl)
  exact polyGram_gen μ ind (some ν) q ν hm

/-- **C158.** A basis of polynomials is marked orthonormal; it is orthonormal if the indices are distinct, and only then. -/
theorem polyBasis_orthonormal (eig : Eig) (μ : Meas) (h : μ.Proper) (hp : μ.IsProba) (q : ℕ → ℝ[X]) (hq : Evaluates μ q)
    (ind : List ℕ) :
    (polyBasis eig μ ind).orthonormal = true ∧ (Orthonormal μ.E ind.length (polyFns q ind) ↔ ind.Nodup) := by
  refine ⟨rfl, ?_⟩
  unfold Orthonormal polyFns
  simp only [polyval_orthonormal μ h hp q hq]
  rw [List.nodup_iff_injective_getElem]
  constructor
  · intro hO a b hab
    have := hO a a.2 b b.2
    rw [List.getD_eq_getElem ind _ a.2, List.getD_eq_getElem ind _ b.2, if_pos hab] at this
    by_contra hne
    rw [if_neg (fun h => hne (Fin.ext h))] at this
    exact one_ne_zero this
  · intro hinj j hj k hk
    rw [List.getD_eq_getElem ind _ hj, List.getD_eq_getElem ind _ hk]
    by_cases hjk : j = k
    · subst hjk; simp
    · rw [if_neg hjk, if_neg]
      intro h
      exact hjk (congrArg Fin.val (hinj (a₁ := ⟨j, hj⟩) (a₂ := ⟨k, hk⟩) h))

/-- **C158.** `one()` returns the coefficients of the constant function `1`, if the index `0` is present (once), and raises
an exception if it is absent. -/
theorem polyOne_spec (μ : Meas) (hp : μ.IsProba) (q : ℕ → ℝ[X]) (hq : Evaluates μ q) (ind : List ℕ) (hn : ind.Nodup) :
    (0 ∈ ind → ∃ c, polyOne ind = .ok c ∧ c.length = ind.length ∧
      ∀ x, ∑ j ∈ range ind.length, c.getD j 0 * polyFns q ind j x = 1) ∧
    (0 ∉ ind → polyOne ind = .error .valueError) := by
  constructor
  · intro h0
    refine ⟨ind.map (fun i => if i = one.2 then one.1 else 0), ?_, by simp, ?_⟩
    · unfold polyOne
      rw [if_pos (by exact h0)]
    · intro x
      obtain ⟨a, ha, ha0⟩ := List.getElem_of_mem h0
      rw [sum_eq_single a]
      · rw [List.getD_eq_getElem (ind.map _) _ (by simpa using ha), List.getElem_map, ha0]
        unfold polyFns
        rw [List.getD_eq_getElem ind _ ha, ha0]
        have := one_spec μ hp q hq x
        simpa [one] using this
      · intro j hj hja
        have hj' := mem_range.1 hj
        rw [List.getD_eq_getElem (ind.map _) _ (by simpa using hj'), List.getElem_map, if_neg, zero_mul]
        intro h
        apply hja
        have : ind[j] = ind[a] := by rw [ha0]; exact h
        exact (List.Nodup.getElem_inj_iff hn).1 this
      · intro h; exact absurd (mem_range.2 ha) h
  · intro h0
    unfold polyOne
    rw [if_neg (by exact h0)]

/-! ## Derivatives -/

theorem polyDer_ok {μ : Meas} (hp : μ.IsProba) {q : ℕ → ℝ[X]} (hq : Evaluates μ q) {ind : List ℕ} (hi : ind ≠ []) (k : ℕ)
    (xs : List ℝ) :
    ∃ H, polyDer μ.orthonormalPolynomials ind k xs = .ok H ∧ H.shape = [xs.length, ind.length] ∧
      ∀ p (hp : p < xs.length) j, j < ind.length → H.get [p, j] = iteratedDeriv k (polyFns q ind j) xs[p] := by
  have h := Polynomials.mapM_ok xs (μ.orthonormalPolynomials.dnPolyval k ind) _
    (fun x _ => dnPolyval_derivative μ hp q hq k ind hi x)
  refine ⟨_, by simp only [polyDer, h, bind, Except.bind]; rfl, by simp [ofRows], ?_⟩
  intro p hp j hj
  simp only [ofRows, List.getD_cons_zero, List.getD_cons_succ]
  rw [List.getD_eq_getElem (xs.map _) _ (by simpa using hp), List.getElem_map,
    List.getD_eq_getElem (ind.map _) _ (by simpa using hj), List.getElem_map]
  unfold polyFns
  rw [List.getD_eq_getElem ind _ hj]

theorem poly_derivative (p : ℝ[X]) (k : ℕ) :
    (fun x => iteratedDeriv k (fun y => p.eval y) x) = fun x => (derivative^[k] p).eval x := by
  funext x
  induction k generalizing p x with
  | zero => simp
  | succ k ih =>
    rw [iteratedDeriv_succ']
    have hd : deriv (fun y => p.eval y) = fun y => (derivative p).eval y := by funext y; exact Polynomial.deriv p
    rw [hd, ih, Function.iterate_succ_apply]

theorem polyFns_deriv (q : ℕ → ℝ[X]) (ind : List ℕ) (k j : ℕ) (x : ℝ) :
    iteratedDeriv k (polyFns q ind j) x = (derivative^[k] (q (ind.getD j 0))).eval x :=
  congrFun (poly_derivative (q (ind.getD j 0)) k) x

theorem zipWith_sum_range (f : ℝ → ℝ) (l w : List ℝ) (h : l.length = w.length) :
    (List.zipWith (fun p w => f p * w) l w).sum = ∑ p : Fin l.length, f l[p] * w.getD p 0 := by
  induction l generalizing w with
  | nil => simp
  | cons a l ih =>
    cases w with
    | nil => simp at h
    | cons b w =>
      rw [List.zipWith_cons_cons, List.sum_cons, ih w (by simpa using h)]
      exact (Fin.sum_univ_succ (n := l.length) (fun p => f (a :: l)[p] * (b :: w).getD p 0)).symm

/-- **C159.** What `derivative(k)` of a basis of polynomials returns: the sub-basis with the *transposed* coefficients
`E(φ_j φ_i⁽ᵏ⁾)`; its function number `j` is `∑ᵢ E(φ_j φ_i⁽ᵏ⁾) φ_i`. -/
theorem polyDerivative_transposed {eig : Eig} (heig : EigOk eig) (μ : Meas) (h : μ.Proper) (hp : μ.IsProba) (q : ℕ → ℝ[X])
    (hq : Evaluates μ q) (ind : List ℕ) (hi : ind ≠ []) (k : ℕ) (hk : ∃ i ∈ ind, k ≤ 2 * i) :
    ∃ S, polyDerivative eig μ ind k = .ok S ∧ S.basis.shape = [ind.length, ind.length] ∧ S.under = polyBasis eig μ ind ∧
      (∀ i < ind.length, ∀ j < ind.length, S.basis.get [i, j]
        = μ.E (fun x => polyFns q ind j x * iteratedDeriv k (polyFns q ind i) x)) ∧
      Fns S.toBasis (fun j x => ∑ i ∈ range ind.length,
        μ.E (fun y => polyFns q ind j y * iteratedDeriv k (polyFns q ind i) y) * polyFns q ind i x) := by
  obtain ⟨m, hm1, hm2⟩ : ∃ m, npMax ind = .ok m ∧ ∀ i ∈ ind, i ≤ m := by
    obtain ⟨m, h1, h2, h3⟩ := npMax_spec ind hi
    exact ⟨m, h1, h3⟩
  obtain ⟨i0, hi0, hk0⟩ := hk
  have hkm : k ≤ 2 * m := by have := hm2 i0 hi0; omega
  have hpts : 0 < derPoints m k := by unfold derPoints; omega
  obtain ⟨r, r1, r2, _, r4, _, r6⟩ := gauss_spec heig μ h (derPoints m k) hpts
  obtain ⟨A, a1, a2, a3⟩ := polyEval_ok hq hi r.points
  obtain ⟨y, y1, y2, y3⟩ := polyDer_ok hp hq hi k r.points
  obtain ⟨_, hqd, hqdeg⟩ := polyval_polynomials μ h
  obtain rfl : q = _ := (evaluates_eq hq).trans (evaluates_eq hqd).symm
  obtain ⟨u, hu⟩ : ∃ u, u = quasiCoeffs A r.weights y := ⟨_, rfl⟩
  have hus : u.shape = [ind.length, ind.length] := by rw [hu]; unfold quasiCoeffs; rw [a2, y2]; rfl
  have huv : ∀ i < ind.length, ∀ j < ind.length,
      u.get [i, j] = μ.E (fun x => polyFns q ind i x * iteratedDeriv k (polyFns q ind j) x) := by
    intro i hi' j hj
    have hmem : ∀ j (hj : j < ind.length), ind.getD j 0 ∈ ind := fun j hj => by
      rw [List.getD_eq_getElem ind _ hj]; exact List.getElem_mem _
    have hdeg : (q (ind.getD i 0) * derivative^[k] (q (ind.getD j 0))).natDegree ≤ 2 * derPoints m k - 1 := by
      have d1 := hm2 _ (hmem i hi')
      have d2 := hm2 _ (hmem j hj)
      have d3 := natDegree_iterate_derivative (q (ind.getD j 0)) k
      have d4 := natDegree_mul_le (p := q (ind.getD i 0)) (q := derivative^[k] (q (ind.getD j 0)))
      rw [hqdeg] at d3 d4
      by_cases hz : ind.getD j 0 < k
      · have : derivative^[k] (q (ind.getD j 0)) = 0 := iterate_derivative_eq_zero (by rw [hqdeg]; exact hz)
        rw [this, mul_zero]; simp
      · unfold derPoints; omega
    have hint := r6 _ hdeg
    unfold Grids.Rule.integrate at hint
    rw [if_neg (by rw [r2, r4]; simp)] at hint
    have hint := Except.ok.inj hint
    simp only [eval_mul] at hint
    have hE : μ.E (fun x => polyFns q ind i x * iteratedDeriv k (polyFns q ind j) x)
        = μ.E (fun x => (q (ind.getD i 0)).eval x * (derivative^[k] (q (ind.getD j 0))).eval x) := by
      congr 1
      funext x
      rw [polyFns_deriv]
      rfl
    rw [hE, ← hint, hu]
    unfold quasiCoeffs
    simp only [List.getD_cons_zero, List.getD_cons_succ]
    rw [a2]
    simp only [List.getD_cons_zero]
    rw [zipWith_sum_range (fun p => eval p (q (ind.getD i 0)) * eval p (derivative^[k] (q (ind.getD j 0)))) r.points r.weights
      (by rw [r2, r4]), Finset.sum_range]
    refine sum_congr rfl (fun p _ => ?_)
    rw [a3 p p.2 i hi', y3 p p.2 j hj, polyFns_deriv]
    unfold polyFns
    simp only [Fin.getElem_fin]
    ring
  have hfba : Bases.FBA.mk' u ind.length [ind.length] = .ok ⟨⟨[ind.length, ind.length],
      fun idx => u.get (unravelF u.shape (ravelC [ind.length, ind.length] idx))⟩, ind.length, [ind.length]⟩ := by
    unfold Bases.FBA.mk'
    rw [if_neg (by rw [hus]; simp)]
  obtain ⟨D, hD⟩ : ∃ D : Arr ℝ, D = ⟨[ind.length, ind.length],
      fun idx => u.get (unravelF u.shape (ravelC [ind.length, ind.length] idx))⟩ := ⟨_, rfl⟩
  rw [← hD] at hfba
  have hDs : D.shape = [ind.length, ind.length] := by rw [hD]
  have hDv : ∀ i < ind.length, ∀ j < ind.length, D.get [i, j] = u.get [j, i] := by
    intro i hi' j hj
    rw [hD]
    show u.get (unravelF u.shape (ravelC [ind.length, ind.length] [i, j])) = _
    rw [hus]
    congr 1
    have hr : ravelC [ind.length, ind.length] [i, j] = i * ind.length + j := by simp [ravelC]
    rw [hr]
    have h1 : (i * ind.length + j) % ind.length = j := by
      rw [mul_comm, Nat.mul_add_mod]; exact Nat.mod_eq_of_lt hj
    have h2 : (i * ind.length + j) / ind.length = i := by
      rw [mul_comm, Nat.mul_add_div (by omega), Nat.div_eq_of_lt hj, add_zero]
    simp [unravelF, h1, h2, Nat.mod_eq_of_lt hi']
  obtain ⟨S, s1, s2, s3⟩ := mk_ok (polyBasis eig μ ind) hDs
  have hv : ∀ i < ind.length, ∀ j < ind.length, S.basis.get [i, j]
        = μ.E (fun x => polyFns q ind j x * iteratedDeriv k (polyFns q ind i) x) := by
    intro i hi' j hj
    rw [s3, hDv i hi' j hj, huv j hj i hi']
  have hf := sub_fns S (polyFns q ind) (by rw [s2]; exact (polyBasis_fns eig μ q hq ind hi).2) (r := ind.length)
    (by rw [s2, s3]; exact hDs)
  refine ⟨S, ?_, by rw [s3]; exact hDs, s2, hv, ?_⟩
  · simp only [polyDerivative, hm1, r1, a1, y1, bind, Except.bind]
    rw [← hu, hfba]
    exact s1
  · intro xs
    obtain ⟨H, h1, h2, h3⟩ := hf.2 xs
    refine ⟨H, h1, h2, ?_⟩
    intro p hp j hj
    rw [h3 p hp j hj]
    unfold combo
    have hc : S.under.card = ind.length := by rw [s2]; rfl
    rw [hc]
    refine sum_congr rfl (fun i hi' => ?_)
    rw [hv i (mem_range.1 hi') j (by rw [← hf.1]; exact hj)]

/-- **C159.** `derivative(0)` of a basis of distinct polynomials is the basis itself. -/
theorem polyDerivative_partial {eig : Eig} (heig : EigOk eig) (μ : Meas) (h : μ.Proper) (hp : μ.IsProba) (q : ℕ → ℝ[X])
    (hq : Evaluates μ q) (ind : List ℕ) (hi : ind ≠ []) (hn : ind.Nodup) :
    ∃ S, polyDerivative eig μ ind 0 = .ok S ∧ Fns S.toBasis (polyFns q ind) ∧ S.cardinal = ind.length := by
  obtain ⟨a, ha⟩ := List.exists_mem_of_ne_nil ind hi
  obtain ⟨S, h1, h2, h3, h4, h5⟩ := polyDerivative_transposed heig μ h hp q hq ind hi 0 ⟨a, ha, by omega⟩
  have hcard : S.cardinal = ind.length := by unfold Sub.cardinal; rw [h2]; rfl
  have hO := (polyBasis_orthonormal eig μ h hp q hq ind).2.2 hn
  refine ⟨S, h1, ?_, hcard⟩
  intro xs
  obtain ⟨H, e1, e2, e3⟩ := h5 xs
  refine ⟨H, e1, e2, fun p hp j hj => ?_⟩
  have hj' : j < ind.length := by rw [← hcard]; exact hj
  rw [e3 p hp j hj]
  simp only [iteratedDeriv_zero]
  rw [sum_eq_single j]
  · rw [hO j hj' j hj', if_pos rfl, one_mul]
  · intro i hi' hne
    rw [hO j hj' i (mem_range.1 hi'), if_neg (Ne.symm hne), zero_mul]
  · intro hh; exact absurd (mem_range.2 hj') hh

theorem two_polys {μ : Meas} (h : μ.Proper) (hp : μ.IsProba) (q : ℕ → ℝ[X]) (hq : Evaluates μ q) :
    (∀ x, (q 0).eval x = 1) ∧ (∃ a ≠ 0, ∃ b, q 1 = C a * X + C b) ∧ μ.E (fun x => (q 1).eval x) = 0 := by
  have h0 : ∀ x, (q 0).eval x = 1 := by
    intro x
    have := one_spec μ hp q hq x
    simpa [one] using this
  refine ⟨h0, ?_, ?_⟩
  · obtain ⟨q', hq', hdeg⟩ := polyval_polynomials μ h
    obtain rfl : q = q' := (evaluates_eq hq).trans (evaluates_eq hq').symm
    obtain ⟨a, ha, b, hb⟩ := natDegree_eq_one.1 (hdeg 1)
    exact ⟨a, ha, b, hb.symm⟩
  · have := polyval_orthonormal μ h hp q hq 1 0
    simpa [h0] using this

/-- **C159 is false of the code.** For every uniform or normal random variable, the derivative of the basis of the
polynomials of degrees 0 and 1 has a second function that is zero, whereas the derivative of the polynomial of degree 1 is
nowhere zero. -/
theorem polyDerivative_wrong {eig : Eig} (heig : EigOk eig) (μ : Meas) (h : μ.Proper) (hp : μ.IsProba) (q : ℕ → ℝ[X])
    (hq : Evaluates μ q) (x : ℝ) :
    ∃ S H, polyDerivative eig μ [0, 1] 1 = .ok S ∧ S.toBasis.eval [x] = .ok H ∧ H.get [0, 1] = 0 ∧
      iteratedDeriv 1 (polyFns q [0, 1] 1) x ≠ 0 := by
  obtain ⟨h0, ⟨a, ha, b, hab⟩, hE⟩ := two_polys h hp q hq
  obtain ⟨S, s1, s2, s3, s4, s5⟩ := polyDerivative_transposed heig μ h hp q hq [0, 1] (by simp) 1 ⟨1, by simp, by omega⟩
  obtain ⟨H, e1, e2, e3⟩ := s5 [x]
  have hc : S.toBasis.card = 2 := by
    show S.cardinal = 2
    unfold Sub.cardinal; rw [s2]; rfl
  have d0 : ∀ y, iteratedDeriv 1 (polyFns q [0, 1] 0) y = 0 := by
    intro y
    have : polyFns q [0, 1] 0 = fun _ => (1 : ℝ) := by funext z; exact h0 z
    rw [this]; simp
  have d1 : ∀ y, iteratedDeriv 1 (polyFns q [0, 1] 1) y = a := by
    intro y
    rw [polyFns_deriv]
    show (derivative (q 1)).eval y = a
    rw [hab]; simp
  refine ⟨S, H, s1, e1, ?_, by rw [d1]; exact ha⟩
  rw [e3 0 (by simp) 1 (by rw [hc]; norm_num)]
  simp only [List.length_cons, List.length_nil, zero_add, sum_range_succ, sum_range_zero, d0, d1]
  have z0 : μ.E (fun y => polyFns q [0, 1] 1 y * 0) = 0 := by
    have := E_linear h (s := ({0} : Finset ℕ)) (fun _ => q 1) (fun _ => 0)
    simpa [polyFns] using this
  have z1 : μ.E (fun y => polyFns q [0, 1] 1 y * a) = 0 := by
    have := E_linear h (s := ({0} : Finset ℕ)) (fun _ => q 1) (fun _ => a)
    simp only [sum_singleton, hE, mul_zero] at this
    rw [← this]
    congr 1
    funext y
    show (q 1).eval y * a = _
    ring
  rw [z0, z1]
  ring

/-- **C157.** With one point `t`, `eval_derivative(n, t)` of a sub-basis of polynomials that are not shifted returns the
derivatives of order `⌈t⌉` at the point `n`. -/
theorem evalDerivative_swapped (eig : Eig) (μ : Meas) (hp : μ.IsProba) (q : ℕ → ℝ[X]) (hq : Evaluates μ q) (ind : List ℕ)
    (hi : ind ≠ []) (S : Sub ℝ) {r : ℕ} (hU : S.under = polyBasis eig μ ind) (hS : S.basis.shape = [ind.length, r]) (n : ℕ) (t : ℝ) :
    ∃ D, S.evalDerivative (polyDer μ.orthonormalPolynomials ind) n [t] = .ok D ∧ D.shape = [1, r] ∧
      ∀ j < r, D.get [0, j] = iteratedDeriv ⌈t⌉₊ (combo S.basis ind.length (polyFns q ind) j) (n : ℝ) := by
  obtain ⟨H, h1, h2, h3⟩ := polyDer_ok hp hq hi ⌈t⌉₊ [(n : ℝ)]
  obtain ⟨D, d1, d2, d3⟩ := matmul_ok h2 hS
  refine ⟨D, by simp only [Sub.evalDerivative, asOrder, h1, bind, Except.bind, d1], d2, ?_⟩
  intro j _
  rw [d3]
  have hc : combo S.basis ind.length (polyFns q ind) j
      = fun x => (∑ i ∈ range ind.length, C (S.basis.get [i, j]) * q (ind.getD i 0)).eval x := by
    funext x
    simp [combo, polyFns, eval_finsetSum]
  have hd := congrFun (poly_derivative (∑ i ∈ range ind.length, C (S.basis.get [i, j]) * q (ind.getD i 0)) ⌈t⌉₊) (n : ℝ)
  rw [hc, hd, iterate_derivative_sum, eval_finsetSum]
  refine sum_congr rfl (fun i hi' => ?_)
  rw [h3 0 (by simp) i (mem_range.1 hi'), iterate_derivative_C_mul, eval_mul, eval_C]
  have := polyFns_deriv q ind ⌈t⌉₊ i (n : ℝ)
  show iteratedDeriv _ _ (n : ℝ) * _ = _
  rw [this, mul_comm]

/-- **C157 is false of the code.** For the polynomials of degrees 0 and 1 on `[-1, 1]` (as a sub-basis with the identity as
matrix), `eval_derivative(1, 2)` returns `0` for the polynomial of degree 1, whose first derivative is nowhere zero. -/
theorem evalDerivative_wrong (eig : Eig) (q : ℕ → ℝ[X]) (hq : Evaluates (.uniform (-1) 1) q) :
    ∃ D, (⟨polyBasis eig (.uniform (-1) 1) [0, 1], eye 2, true⟩ : Sub ℝ).evalDerivative
        (polyDer (Meas.uniform (-1) 1).orthonormalPolynomials [0, 1]) 1 [2] = .ok D ∧ D.get [0, 1] = 0 ∧
      ∀ x, iteratedDeriv 1 (combo (eye 2) 2 (polyFns q [0, 1]) 1) x ≠ 0 := by
  obtain ⟨_, ⟨a, ha, b, hab⟩, _⟩ := two_polys (μ := .uniform (-1) 1) (by show (-1 : ℝ) < 1; norm_num) trivial q hq
  obtain ⟨D, d1, d2, d3⟩ := evalDerivative_swapped eig (.uniform (-1) 1) trivial q hq [0, 1] (by simp)
    ⟨polyBasis eig (.uniform (-1) 1) [0, 1], eye 2, true⟩ rfl (r := 2) rfl 1 2
  have hc : combo (eye 2) 2 (polyFns q [0, 1]) 1 = polyFns q [0, 1] 1 := by
    funext x
    simp [combo, eye]
  refine ⟨D, d1, ?_, ?_⟩
  · rw [d3 1 (by norm_num)]
    show iteratedDeriv ⌈(2 : ℝ)⌉₊ (combo (eye 2) 2 (polyFns q [0, 1]) 1) _ = 0
    rw [hc, polyFns_deriv]
    have : ⌈(2 : ℝ)⌉₊ = 2 := by rw [show (2 : ℝ) = ((2 : ℕ) : ℝ) by norm_num, Nat.ceil_natCast]
    rw [this]
    show (derivative (derivative (q 1))).eval _ = 0
    rw [hab]; simp
  · intro x
    rw [hc, polyFns_deriv]
    show (derivative (q 1)).eval x ≠ 0
    rw [hab]; simpa using ha

/-! ## The hypotheses are met -/

/-- The polynomials of degrees 0 and 2 of a uniform variable, as a basis, and the sub-basis of the functions `φ₀ + φ₂` and
`φ₀ - φ₂`: the hypotheses of the theorems on sub-bases are met. -/
example {eig : Eig} (heig : EigOk eig) (q : ℕ → ℝ[X]) (hq : Evaluates (.uniform 0 3) q) :
    ∃ S, Sub.mk' (polyBasis eig (.uniform 0 3) [0, 2]) (some ⟨[2, 2], fun ij => if ij = [1, 1] then -1 else 1⟩) = .ok S ∧
      S.under.orthonormal = true ∧ Fns S.under (polyFns q [0, 2]) ∧
      LinearOn (Meas.uniform 0 3).E (range S.under.card ×ˢ range S.under.card)
        (fun p x => polyFns q [0, 2] p.1 x * polyFns q [0, 2] p.2 x) ∧
      Orthonormal (Meas.uniform 0 3).E S.under.card (polyFns q [0, 2]) ∧ S.basis.shape = [S.under.card, 2] ∧
      LinearIndependent ℝ (fun (j : Fin 2) (i : Fin S.under.card) => S.basis.get [i, j]) ∧
      GramOk S.under (polyFns q [0, 2]) (Meas.uniform 0 3).E := by
  have hm : (Meas.uniform 0 3).Proper := by show (0 : ℝ) < 3; norm_num
  obtain ⟨S, s1, s2, s3⟩ := mk_ok (polyBasis eig (.uniform 0 3) [0, 2])
    (B := ⟨[2, 2], fun ij => if ij = [1, 1] then -1 else 1⟩) rfl
  refine ⟨S, s1, by rw [s2]; rfl, by rw [s2]; exact (polyBasis_fns eig _ q hq _ (by simp)).2, (polyFns_linear hm q _ _).2, ?_,
    by rw [s2, s3]; rfl, ?_, by rw [s2]; exact (polyBasis_gram heig _ hm trivial q hq _ (by simp)).1⟩
  · rw [s2]
    exact (polyBasis_orthonormal eig _ hm trivial q hq [0, 2]).2.2 (by simp)
  · rw [s2, s3]
    rw [Fintype.linearIndependent_iff]
    intro g hg
    have e0 := congrFun hg (0 : Fin 2)
    have e1 := congrFun hg (1 : Fin 2)
    rw [Fin.sum_univ_two] at e0 e1
    have f0 : g 0 * (if ([0, 0] : List ℕ) = [1, 1] then -1 else 1) + g 1 * (if ([0, 1] : List ℕ) = [1, 1] then -1 else 1) = 0 := e0
    have f1 : g 0 * (if ([1, 0] : List ℕ) = [1, 1] then -1 else 1) + g 1 * (if ([1, 1] : List ℕ) = [1, 1] then -1 else 1) = 0 := e1
    simp at f0 f1
    intro i
    fin_cases i
    · show g 0 = 0; linarith
    · show g 1 = 0; linarith

/-- This sub-basis, seen as a basis, meets the hypotheses of `basis_orthonormalize`; its Gram matrix is not the identity. -/
example {eig : Eig} (heig : EigOk eig) (q : ℕ → ℝ[X]) (hq : Evaluates (.uniform 0 3) q) :
    ∃ (b : Basis ℝ) (ψ : ℕ → ℝ → ℝ), b.card = 2 ∧ Fns b ψ ∧
      LinearOn (Meas.uniform 0 3).E (range b.card ×ˢ range b.card) (fun p x => ψ p.1 x * ψ p.2 x) ∧
      GramOk b ψ (Meas.uniform 0 3).E ∧ Definite (Meas.uniform 0 3).E b.card ψ ∧
      (Meas.uniform 0 3).E (fun x => ψ 0 x * ψ 0 x) = 2 := by
  have hm : (Meas.uniform 0 3).Proper := by show (0 : ℝ) < 3; norm_num
  obtain ⟨B, hB⟩ : ∃ B : Arr ℝ, B = ⟨[2, 2], fun ij => if ij = [1, 1] then -1 else 1⟩ := ⟨_, rfl⟩
  obtain ⟨S, s1, s2, s3⟩ := mk_ok (polyBasis eig (.uniform 0 3) [0, 2]) (B := B) (by rw [hB])
  have hc : S.under.card = 2 := by rw [s2]; rfl
  have hU : Fns S.under (polyFns q [0, 2]) := by rw [s2]; exact (polyBasis_fns eig _ q hq _ (by simp)).2
  have hS : S.basis.shape = [S.under.card, 2] := by rw [hc, s3, hB]
  have hf := sub_fns S (polyFns q [0, 2]) hU hS
  have hO : Orthonormal (Meas.uniform 0 3).E 2 (polyFns q [0, 2]) :=
    (polyBasis_orthonormal eig _ hm trivial q hq [0, 2]).2.2 (by simp)
  have hL := (polyFns_linear hm q [0, 2] 2).2
  have hG : GramOk S.under (polyFns q [0, 2]) (Meas.uniform 0 3).E := by
    rw [s2]; exact (polyBasis_gram heig _ hm trivial q hq _ (by simp)).1
  have hquad : ∀ u v : ℝ, (Meas.uniform 0 3).E (fun x => (∑ i ∈ range 2, (if i = 0 then u else v) * polyFns q [0, 2] i x)
      * (∑ i ∈ range 2, (if i = 0 then u else v) * polyFns q [0, 2] i x)) = u ^ 2 + v ^ 2 := by
    intro u v
    rw [E_combo hL (fun i => if i = 0 then u else v) (fun i => if i = 0 then u else v)]
    simp [sum_range_succ, hO 0 (by norm_num) 0 (by norm_num), hO 0 (by norm_num) 1 (by norm_num),
      hO 1 (by norm_num) 0 (by norm_num), hO 1 (by norm_num) 1 (by norm_num)]
    ring
  have hcomb : ∀ (c : ℕ → ℝ) (x : ℝ), ∑ j ∈ range 2, c j * combo B 2 (polyFns q [0, 2]) j x
      = ∑ i ∈ range 2, (if i = 0 then c 0 + c 1 else c 0 - c 1) * polyFns q [0, 2] i x := by
    intro c x
    rw [hB]
    simp [combo, sum_range_succ]
    ring
  rw [hc, s3] at hf
  refine ⟨S.toBasis, combo B 2 (polyFns q [0, 2]), hf.1, hf.2, ?_, ?_, ?_, ?_⟩
  · have hp : ∀ j, combo B 2 (polyFns q [0, 2]) j
        = fun x => (∑ i ∈ range 2, C (B.get [i, j]) * q (([0, 2] : List ℕ).getD i 0)).eval x := by
      intro j
      funext x
      simp [combo, polyFns, eval_finsetSum]
    simp only [hp, ← eval_mul]
    exact E_linear hm _ _
  · obtain ⟨G, g1, g2, g3⟩ := hG
    obtain ⟨D, d1, d2, d3⟩ := sub_gram S (polyFns q [0, 2]) _ (by rw [hc]; exact hL) G g1 g2 g3 hS
    refine ⟨D, d1, by rw [hf.1]; exact d2, ?_⟩
    rw [hf.1]
    intro i hi j hj
    rw [d3 i hi j hj, hc, s3]
  · intro c hcne
    rw [hf.1] at hcne ⊢
    simp only [hcomb, hquad]
    obtain ⟨i, hi, hci⟩ := hcne
    have : c 0 ≠ 0 ∨ c 1 ≠ 0 := by
      interval_cases i
      · exact Or.inl hci
      · exact Or.inr hci
    rcases this with h | h
    · have := mul_self_pos.2 h; nlinarith [sq_nonneg (c 1)]
    · have := mul_self_pos.2 h; nlinarith [sq_nonneg (c 0)]
  · have e : ∀ x, combo B 2 (polyFns q [0, 2]) 0 x = ∑ i ∈ range 2, (if i = 0 then 1 else 1) * polyFns q [0, 2] i x := by
      intro x
      rw [hB]
      simp [combo, sum_range_succ]
    simp only [e]
    have := hquad 1 1
    rw [this]; norm_num

end Verif.SubBasis
