import Verif.Spec.Empirical
import Verif.Props.DiscretePolynomials
import Verif.Props.Distributions

/-!
# Empirical random variables
-/

namespace Verif.Empirical

open MeasureTheory ProbabilityTheory Polynomial Verif.Polynomials Verif.Grids

noncomputable section

theorem integrable_poly {m h : ℝ} (hh : 0 < h) (q : ℝ[X]) : Integrable (fun x => q.eval x) (gaussianReal m (h ^ 2).toNNReal) := by
  have std : ∀ q : ℝ[X], Integrable (fun x => q.eval x) (gaussianReal 0 1) := by
    intro q
    rw [gaussianReal_of_var_ne_zero _ one_ne_zero]
    have : (gaussianPDF 0 1) = fun x => ENNReal.ofReal (gaussianPDFReal 0 1 x) := rfl
    rw [this, integrable_withDensity_iff_integrable_smul₀' (by fun_prop) (by simp)]
    refine (integrable_poly_phi q).congr (Filter.Eventually.of_forall (fun x => ?_))
    beta_reduce
    rw [ENNReal.toReal_ofReal (gaussianPDFReal_nonneg _ _ _), smul_eq_mul, mul_comm]
    rfl
  rw [← Distributions.gaussian_affine hh, integrable_map_measure (by fun_prop) (by fun_prop)]
  refine (std (q.comp (C h * X + C m))).congr (Filter.Eventually.of_forall (fun x => ?_))
  simp

theorem integral_poly {m h : ℝ} (hh : 0 < h) (q : ℝ[X]) :
    ∫ x, q.eval x ∂(gaussianReal m (h ^ 2).toNNReal) = LN (q.comp (C m + C h * X)) := by
  have := E_normal (mu := m) hh (fun x => q.eval x)
  rw [show (Meas.normal m h).E (fun x => q.eval x) = ∫ x, q.eval x ∂(gaussianReal m (h ^ 2).toNNReal) from rfl] at this
  rw [this, LN_gaussian]
  simp

theorem integral_mixture (xs : List ℝ) (h : ℝ) (f : ℝ → ℝ) (hf : ∀ x ∈ xs, Integrable f (gaussianReal x (h ^ 2).toNNReal)) :
    ∫ x, f x ∂(mixture xs h) = npMean (xs.map (fun x => ∫ t, f t ∂(gaussianReal x (h ^ 2).toNNReal))) := by
  rw [mixture, integral_smul_measure, integral_finsetSum_measure (fun (i : Fin xs.length) _ => hf xs[(i : ℕ)] (List.getElem_mem _)), npMean, List.length_map]
  rw [← Fin.sum_univ_fun_getElem]
  simp [div_eq_inv_mul]

/-- The mean of a polynomial for the mixture. -/
def LK (xs : List ℝ) (h : ℝ) : ℝ[X] →ₗ[ℝ] ℝ where
  toFun q := npMean (xs.map (fun x => LN (q.comp (C x + C h * X))))
  map_add' p q := by
    simp only [npMean, add_comp, map_add, List.length_map, ← add_div]
    rw [List.sum_map_add]
  map_smul' c q := by
    simp only [npMean, smul_comp, map_smul, List.length_map, RingHom.id_apply, smul_eq_mul, mul_div_assoc']
    rw [← List.sum_map_mul_left]

theorem LK_apply (xs : List ℝ) (h : ℝ) (q : ℝ[X]) : LK xs h q = npMean (xs.map (fun x => LN (q.comp (C x + C h * X)))) := rfl

theorem LK_eq (xs : List ℝ) {h : ℝ} (hh : 0 < h) (q : ℝ[X]) : ∫ x, q.eval x ∂(mixture xs h) = LK xs h q := by
  rw [integral_mixture xs h _ (fun x _ => integrable_poly hh q), LK_apply]
  simp only [integral_poly hh]

theorem LK_one {xs : List ℝ} (hx : xs ≠ []) (h : ℝ) : LK xs h 1 = 1 := by
  have : (xs.length : ℝ) ≠ 0 := by
    have := List.length_pos_iff.2 hx
    positivity
  rw [LK_apply]
  simp only [one_comp, LN_one, npMean, List.map_const', List.sum_replicate, List.length_replicate, nsmul_eq_mul, mul_one]
  exact div_self this

theorem LN_sq_pos {q : ℝ[X]} (hq : q ≠ 0) : 0 < LN (q * q) := by
  obtain ⟨eig, heig⟩ := exists_eig
  obtain ⟨r, h1, h2, h3, h4, h5, h6⟩ := gauss_spec heig (.normal 0 1) (show (0 : ℝ) < 1 by norm_num) (q.natDegree + 1) (by omega)
  have e := h6 (q * q) (by have := natDegree_mul_le (p := q) (q := q); omega)
  have hE : (Meas.normal 0 1).E (fun x => (q * q).eval x) = LN (q * q) := by
    rw [LN_gaussian]; simp [Meas.E]
  rw [hE] at e
  unfold Rule.integrate at e
  rw [if_neg (by omega)] at e
  have e := Except.ok.inj e
  have hp := LV_sq_pos (values := r.points) (weights := r.weights) (by omega) (h3.imp (fun h => ne_of_lt h)) h5 q hq (by omega)
  rw [LD_apply] at hp
  have hz := zip_sum (fun x w => (q * q).eval x * w) r.points r.weights (by omega)
  rw [← hz] at hp
  rw [← e]
  exact hp

theorem sum_pos' {xs : List ℝ} (hx : xs ≠ []) (F : ℝ → ℝ) (hF : ∀ x ∈ xs, 0 < F x) : 0 < npMean (xs.map F) := by
  have hl : (0 : ℝ) < (xs.map F).length := by
    rw [List.length_map]
    exact_mod_cast List.length_pos_iff.2 hx
  refine div_pos (List.sum_pos _ ?_ (by simpa using hx)) hl
  intro y hy
  obtain ⟨x, hx, rfl⟩ := List.mem_map.1 hy
  exact hF x hx

theorem LK_sq_pos {xs : List ℝ} (hx : xs ≠ []) {h : ℝ} (hh : 0 < h) {q : ℝ[X]} (hq : q ≠ 0) : 0 < LK xs h (q * q) := by
  rw [LK_apply]
  refine sum_pos' hx _ (fun x _ => ?_)
  rw [mul_comp]
  refine LN_sq_pos (fun h0 => hq ?_)
  have h1 := congrArg (fun p => p.comp (C (1 / h) * (X - C x))) h0
  simp only [comp_assoc, zero_comp] at h1
  have e : (C x + C h * X : ℝ[X]).comp (C (1 / h) * (X - C x)) = X := by
    simp only [add_comp, mul_comp, C_comp, X_comp]
    rw [← mul_assoc, ← C_mul, mul_one_div_cancel hh.ne', C_1]
    ring
  rwa [e, comp_X] at h1

/-! ### statistics of the sample -/

theorem Varied.ne_nil {xs : List ℝ} (h : Varied xs) : xs ≠ [] := by
  obtain ⟨x, hx, _⟩ := h
  exact List.ne_nil_of_mem hx

theorem len_pos {xs : List ℝ} (h : xs ≠ []) : (0 : ℝ) < xs.length := by exact_mod_cast List.length_pos_iff.2 h

theorem var_pos {xs : List ℝ} (h : Varied xs) : 0 < npVar xs := by
  have hl := len_pos h.ne_nil
  obtain ⟨x, hx, y, hy, hxy⟩ := h
  have hnn : ∀ z ∈ xs.map (fun x => (x - npMean xs) ^ 2), 0 ≤ z := by
    intro z hz
    obtain ⟨t, _, rfl⟩ := List.mem_map.1 hz
    positivity
  rw [npVar, npMean, List.length_map]
  refine div_pos (lt_of_le_of_ne (List.sum_nonneg hnn) (fun h0 => hxy ?_)) hl
  have key : ∀ t ∈ xs, t = npMean xs := by
    intro t ht
    have h1 := List.single_le_sum hnn _ (List.mem_map_of_mem (f := fun x => (x - npMean xs) ^ 2) ht)
    rw [← h0] at h1
    have := pow_eq_zero_iff (two_ne_zero) |>.1 (le_antisymm h1 (sq_nonneg _))
    linarith
  rw [key x hx, key y hy]

theorem std_pos {xs : List ℝ} (h : Varied xs) : 0 < npStd xs := Real.sqrt_pos.2 (var_pos h)

theorem bandwidth_pos {xs : List ℝ} (h : Varied xs) : 0 < bandwidth xs := by
  have h1 := std_pos h
  have h2 := Real.rpow_pos_of_pos (len_pos h.ne_nil) (-1 / 3 : ℝ)
  unfold bandwidth
  positivity

/-- `bandwidth` is Scott's rule: its cube times the size of the sample is the cube of 3.5 standard deviations. -/
theorem bandwidth_spec {xs : List ℝ} (h : Varied xs) : 0 < bandwidth xs ∧ bandwidth xs ^ 3 * xs.length = (3.5 * npStd xs) ^ 3 := by
  refine ⟨bandwidth_pos h, ?_⟩
  have hl := len_pos h.ne_nil
  have e : ((xs.length : ℝ) ^ (-1 / 3 : ℝ)) ^ 3 = (xs.length : ℝ)⁻¹ := by
    rw [← Real.rpow_natCast, ← Real.rpow_mul hl.le]
    norm_num
    exact Real.rpow_neg_one _
  rw [bandwidth, mul_pow, e]
  field_simp

theorem npMean_affine {xs : List ℝ} (h : xs ≠ []) (s b : ℝ) : npMean (xs.map (fun x => s * x + b)) = s * npMean xs + b := by
  have hl := len_pos h
  have e : ∀ l : List ℝ, (l.map (fun x => s * x + b)).sum = s * l.sum + l.length * b := by
    intro l
    induction l with
    | nil => simp
    | cons x l ih =>
      rw [List.map_cons, List.sum_cons, ih, List.sum_cons, List.length_cons]
      push_cast
      ring
  rw [npMean, e, List.length_map, npMean]
  field_simp

theorem npMean_mul (xs : List ℝ) (F : ℝ → ℝ) (c : ℝ) : npMean (xs.map (fun x => c * F x)) = c * npMean (xs.map F) := by
  rw [npMean, npMean, List.length_map, List.length_map, ← mul_div_assoc, ← List.sum_map_mul_left]

theorem npMean_add (xs : List ℝ) (F G : ℝ → ℝ) : npMean (xs.map (fun x => F x + G x)) = npMean (xs.map F) + npMean (xs.map G) := by
  rw [npMean, npMean, npMean, List.length_map, List.length_map, List.length_map, List.sum_map_add, add_div]

theorem npMean_const {xs : List ℝ} (h : xs ≠ []) (c : ℝ) : npMean (xs.map (fun _ => c)) = c := by
  have hl := len_pos h
  simp only [npMean, List.map_const', List.sum_replicate, List.length_replicate, nsmul_eq_mul]
  field_simp

theorem npMean_id (xs : List ℝ) : npMean (xs.map (fun x => x)) = npMean xs := by rw [List.map_id']

theorem npVar_affine {xs : List ℝ} (h : xs ≠ []) (s b : ℝ) : npVar (xs.map (fun x => s * x + b)) = s ^ 2 * npVar xs := by
  rw [npVar, npMean_affine h, List.map_map, npVar, ← npMean_mul]
  congr 1
  refine List.map_congr_left (fun x _ => ?_)
  simp only [Function.comp_apply]
  ring

theorem npStd_affine {xs : List ℝ} (h : xs ≠ []) (s b : ℝ) : npStd (xs.map (fun x => s * x + b)) = |s| * npStd xs := by
  rw [npStd, npVar_affine h, Real.sqrt_mul (sq_nonneg s), Real.sqrt_sq_eq_abs, npStd]

theorem bandwidth_affine {xs : List ℝ} (h : xs ≠ []) (s b : ℝ) :
    bandwidth (xs.map (fun x => s * x + b)) = |s| * bandwidth xs := by
  rw [bandwidth, npStd_affine h, List.length_map, bandwidth]
  ring

theorem gaussian_aff (m h s b : ℝ) : (gaussianReal m (h ^ 2).toNNReal).map (fun x => s * x + b) =
    gaussianReal (s * m + b) (((|s| * h) ^ 2).toNNReal) := by
  have h2 : (fun x => s * x + b) = (fun y => y + b) ∘ (fun x => s * x) := rfl
  rw [h2, ← Measure.map_map (by fun_prop) (by fun_prop), gaussianReal_map_const_mul, gaussianReal_map_add_const]
  congr 1
  ext
  simp [mul_pow, sq_nonneg, mul_nonneg]

theorem mixture_affine (xs : List ℝ) (h s b : ℝ) :
    mixture (xs.map (fun x => s * x + b)) (|s| * h) = (mixture xs h).map (fun x => s * x + b) := by
  have hl : (xs.map (fun x => s * x + b)).length = xs.length := List.length_map _
  rw [mixture, mixture, Measure.map_smul, Measure.map_finset_sum (by fun_prop)]
  congr 1
  · rw [hl]
  refine Fintype.sum_equiv (finCongr hl) _ _ (fun i => ?_)
  rw [gaussian_aff]
  simp

/-- `shift(b, s)` is the variable `s * X + b`. -/
theorem shift_law {xs : List ℝ} (h : xs ≠ []) (b s : ℝ) : law (shift xs b s) = (law xs).map (fun x => s * x + b) := by
  rw [law, shift, bandwidth_affine h, mixture_affine, law]

theorem standard_eq (xs : List ℝ) : standard xs = xs.map (fun x => (1 / npStd xs) * x + (-npMean xs / npStd xs)) := by
  rw [standard]
  refine List.map_congr_left (fun x _ => ?_)
  ring

/-- `get_standard_random_variable()` is the standardised variable, of mean 0 and variance 1. -/
theorem standard_law {xs : List ℝ} (h : Varied xs) :
    law (standard xs) = (law xs).map (fun x => (x - npMean xs) / npStd xs) ∧ mean (standard xs) = 0 ∧ variance (standard xs) = 1 := by
  have hs := std_pos h
  have e : (fun x => (x - npMean xs) / npStd xs) = (fun x => (1 / npStd xs) * x + (-npMean xs / npStd xs)) := by
    funext x; ring
  refine ⟨?_, ?_, ?_⟩
  · rw [e, standard_eq]
    exact shift_law h.ne_nil _ _
  · rw [mean, statistics, standard_eq, npMean_affine h.ne_nil]
    field_simp
    ring
  · rw [variance, statistics, standard_eq, npVar_affine h.ne_nil, div_pow, npStd, Real.sq_sqrt (var_pos h).le, one_pow]
    exact one_div_mul_cancel (var_pos h).ne'

theorem isProba_mixture {xs : List ℝ} (hx : xs ≠ []) (h : ℝ) : IsProbabilityMeasure (mixture xs h) := by
  refine ⟨?_⟩
  rw [mixture, Measure.smul_apply, Measure.finsetSum_apply]
  simp only [measure_univ, Finset.sum_const, Finset.card_univ, Fintype.card_fin, nsmul_eq_mul, mul_one, smul_eq_mul]
  refine ENNReal.inv_mul_cancel ?_ (ENNReal.natCast_ne_top _)
  have := List.length_pos_iff.2 hx
  simp [hx]

/-- `pdf` is the density of the law. -/
theorem pdf_spec {xs : List ℝ} (h : Varied xs) :
    IsProbabilityMeasure (law xs) ∧ (∀ x, 0 ≤ pdf xs x) ∧ law xs = volume.withDensity (fun x => ENNReal.ofReal (pdf xs x)) := by
  have hb := bandwidth_pos h
  have hl := len_pos h.ne_nil
  have e : ∀ x, pdf xs x = (xs.length : ℝ)⁻¹ * ∑ i : Fin xs.length, gaussianPDFReal xs[(i : ℕ)] (bandwidth xs ^ 2).toNNReal x := by
    intro x
    rw [pdf, Fin.sum_univ_fun_getElem xs (fun xi => gaussianPDFReal xi (bandwidth xs ^ 2).toNNReal x), ← List.sum_map_mul_left,
      ← List.sum_map_mul_left]
    congr 1
    refine List.map_congr_left (fun xi _ => ?_)
    rw [← Distributions.normPdf_eq hb, Distributions.normPdf]
    have hp : Real.sqrt (2 * Real.pi) ≠ 0 := by positivity
    have e2 : -0.5 * (x - xi) ^ 2 / bandwidth xs ^ 2 = -((x - xi) / bandwidth xs) ^ 2 / 2 := by
      rw [div_pow]; ring
    rw [e2]
    field_simp
  refine ⟨isProba_mixture h.ne_nil _, ?_, ?_⟩
  · intro x
    rw [e]
    exact mul_nonneg (inv_nonneg.2 hl.le) (Finset.sum_nonneg (fun i _ => gaussianPDFReal_nonneg _ _ _))
  · have hv : (bandwidth xs ^ 2).toNNReal ≠ 0 := Distributions.var_ne_zero hb
    ext s hs
    rw [law, mixture, Measure.smul_apply, Measure.finsetSum_apply, withDensity_apply _ hs]
    simp only [e, gaussianReal_apply _ hv]
    simp only [ENNReal.ofReal_mul (inv_nonneg.2 hl.le)]
    rw [lintegral_const_mul _ (by fun_prop), ENNReal.ofReal_inv_of_pos hl, ENNReal.ofReal_natCast, smul_eq_mul]
    congr 1
    rw [← lintegral_finsetSum _ (fun i _ => measurable_gaussianPDF _ _)]
    refine lintegral_congr (fun x => ?_)
    rw [ENNReal.ofReal_sum_of_nonneg (fun i _ => gaussianPDFReal_nonneg _ _ _)]
    rfl

theorem LN_X : LN X = 0 := by
  rw [LN_gaussian]; simp [integral_id_gaussianReal]

theorem LN_X2 : LN (X ^ 2) = 1 := by
  have := LN_stein X
  rw [derivative_X, map_sub, LN_one] at this
  rw [pow_two]; linarith

theorem mixture_mean {xs : List ℝ} (hx : xs ≠ []) {h : ℝ} (hh : 0 < h) : ∫ x, x ∂(mixture xs h) = npMean xs := by
  have := LK_eq xs hh X
  simp only [eval_X] at this
  rw [this, LK_apply]
  congr 1
  conv_rhs => rw [← List.map_id' xs]
  refine List.map_congr_left (fun x _ => ?_)
  rw [X_comp, map_add, ← smul_eq_C_mul, map_smul, LN_X, ← mul_one (C x), ← smul_eq_C_mul, map_smul, LN_one]
  simp

theorem mixture_variance {xs : List ℝ} (hx : xs ≠ []) {h : ℝ} (hh : 0 < h) :
    ∫ x, (x - npMean xs) ^ 2 ∂(mixture xs h) = npVar xs + h ^ 2 := by
  have := LK_eq xs hh ((X - C (npMean xs)) ^ 2)
  simp only [eval_pow, eval_sub, eval_X, eval_C] at this
  rw [this, LK_apply, npVar]
  have e : ∀ x, LN (((X - C (npMean xs)) ^ 2).comp (C x + C h * X)) = (x - npMean xs) ^ 2 + h ^ 2 := by
    intro x
    have : (((X - C (npMean xs)) ^ 2).comp (C x + C h * X) : ℝ[X]) =
        C ((x - npMean xs) ^ 2) * 1 + C (2 * h * (x - npMean xs)) * X + C (h ^ 2) * X ^ 2 := by
      simp only [pow_comp, sub_comp, X_comp, C_comp, C_mul, C_pow, C_sub]
      rw [show (C (2 : ℝ) : ℝ[X]) = 2 from rfl]
      ring
    rw [this, map_add, map_add, ← smul_eq_C_mul, ← smul_eq_C_mul, ← smul_eq_C_mul, map_smul, map_smul, map_smul, LN_one, LN_X, LN_X2]
    simp
  simp only [e]
  rw [npMean_add, npMean_const hx]

/-- `mean()` is the mean of the law, but `variance()` is smaller than its variance: the square of the bandwidth is missing. -/
theorem moments_partial {xs : List ℝ} (h : Varied xs) :
    mean xs = ∫ x, x ∂(law xs) ∧ variance xs + bandwidth xs ^ 2 = ∫ x, (x - mean xs) ^ 2 ∂(law xs) ∧
      variance xs < ∫ x, (x - mean xs) ^ 2 ∂(law xs) := by
  have hb := bandwidth_pos h
  have h1 := mixture_variance h.ne_nil hb
  refine ⟨(mixture_mean h.ne_nil hb).symm, h1.symm, ?_⟩
  rw [law, show mean xs = npMean xs from rfl, h1, variance, statistics]
  have : 0 < bandwidth xs ^ 2 := by positivity
  linarith

/-! ### the distribution function -/

theorem cov_eq {xs : List ℝ} (h : Varied xs) : npCov xs = npVar xs * xs.length / ((xs.length : ℝ) - 1) ∧ 1 < xs.length ∧ 0 < npCov xs := by
  have hl := len_pos h.ne_nil
  have h1 : 1 < xs.length := by
    obtain ⟨x, hx, y, hy, hxy⟩ := h
    match xs, hx, hy with
    | [a], hx, hy =>
      rw [List.mem_singleton] at hx hy
      exact absurd (hx.trans hy.symm) hxy
    | a :: b :: l, _, _ => simp
  have e : npCov xs = npVar xs * xs.length / ((xs.length : ℝ) - 1) := by
    rw [npCov, npVar]
    generalize hF : xs.map (fun x => (x - npMean xs) ^ 2) = l
    have : l.length = xs.length := by rw [← hF, List.length_map]
    rw [npMean, this]
    field_simp
  have h2 : (1 : ℝ) < xs.length := by exact_mod_cast h1
  refine ⟨e, h1, ?_⟩
  rw [e]
  exact div_pos (mul_pos (var_pos h) hl) (by linarith)

/-- `cdf` is the distribution function of a mixture whose kernels have the standard deviation `bandwidth` times the unbiased standard
deviation of the sample. -/
theorem cdf_eq {xs : List ℝ} (h : Varied xs) (z : ℝ) :
    cdf xs z = (mixture xs (Real.sqrt (npCov xs) * bandwidth xs)).real (Set.Iic z) := by
  have hb := bandwidth_pos h
  have hc := (cov_eq h).2.2
  have hs : kdeStd xs (bandwidth xs) = Real.sqrt (npCov xs) * bandwidth xs := by
    rw [kdeStd, Real.sqrt_mul hc.le, Real.sqrt_sq hb.le]
  have hp : 0 < Real.sqrt (npCov xs) * bandwidth xs := mul_pos (Real.sqrt_pos.2 hc) hb
  rw [cdf, hs, mixture, measureReal_def, Measure.smul_apply, Measure.finsetSum_apply, smul_eq_mul, ENNReal.toReal_mul,
    ENNReal.toReal_sum (fun i _ => measure_ne_top _ _), npMean, List.length_map]
  have key : ∀ x, Distributions.ndtr ((z - x) / (Real.sqrt (npCov xs) * bandwidth xs)) =
      (gaussianReal x ((Real.sqrt (npCov xs) * bandwidth xs) ^ 2).toNNReal (Set.Iic z)).toReal := by
    intro x
    exact Distributions.cdf_spec (.normal x (Real.sqrt (npCov xs) * bandwidth xs)) hp z
  simp only [key]
  rw [← Fin.sum_univ_fun_getElem xs (fun x => (gaussianReal x ((Real.sqrt (npCov xs) * bandwidth xs) ^ 2).toNNReal (Set.Iic z)).toReal)]
  simp [div_eq_inv_mul]

/-- `cdf` is the distribution function of the law, whose density is `pdf`, exactly when the unbiased variance of the sample is 1. -/
theorem cdf_iff {xs : List ℝ} (h : Varied xs) : (∀ z, cdf xs z = (law xs).real (Set.Iic z)) ↔ npCov xs = 1 := by
  have hb := bandwidth_pos h
  have hc := (cov_eq h).2.2
  have hp : 0 < Real.sqrt (npCov xs) * bandwidth xs := mul_pos (Real.sqrt_pos.2 hc) hb
  constructor
  · intro hz
    haveI := isProba_mixture h.ne_nil (bandwidth xs)
    haveI := isProba_mixture h.ne_nil (Real.sqrt (npCov xs) * bandwidth xs)
    have he : mixture xs (Real.sqrt (npCov xs) * bandwidth xs) = mixture xs (bandwidth xs) := by
      refine Measure.ext_of_Iic _ _ (fun z => ?_)
      have := hz z
      rw [cdf_eq h, law] at this
      exact (measureReal_eq_measureReal_iff).1 this
    have h1 := mixture_variance h.ne_nil hp
    rw [he, mixture_variance h.ne_nil hb, mul_pow, Real.sq_sqrt hc.le] at h1
    have h2 : (npCov xs - 1) * bandwidth xs ^ 2 = 0 := by linarith
    rcases mul_eq_zero.1 h2 with h3 | h3
    · linarith
    · exact absurd h3 (by positivity)
  · intro h1 z
    rw [cdf_eq h, h1, Real.sqrt_one, one_mul, law]

theorem cdf_wrong : ∃ z, cdf [-1, 1] z ≠ (law [-1, 1]).real (Set.Iic z) := by
  by_contra hcon
  push Not at hcon
  have hv : Varied [-1, 1] := ⟨-1, by simp, 1, by simp, by norm_num⟩
  have := (cdf_iff hv).1 hcon
  norm_num [npCov, npMean] at this

/-! ### quadrature -/

theorem zip_mul (F : ℝ → ℝ → ℝ) (c : ℝ) (l l' : List ℝ) :
    (List.zipWith F l l').sum * c = (List.zipWith (fun x w => F x w * c) l l').sum := by
  induction l generalizing l' with
  | nil => simp
  | cons a l ih =>
    cases l' with
    | nil => simp
    | cons b l' => rw [List.zipWith_cons_cons, List.zipWith_cons_cons, List.sum_cons, List.sum_cons, add_mul, ih]

theorem rule_sum (r : Rule ℝ ℝ) (f : ℝ → ℝ) (v : ℝ) (h : r.integrate f = .ok v) :
    (List.zipWith (fun x w => f x * w) r.points r.weights).sum = v := by
  unfold Rule.integrate at h
  split at h
  · cases h
  · exact Except.ok.inj h

/-- `integration_rule(n)` has `n` points for each point of the sample and positive weights, and integrates exactly every polynomial of
degree at most `2n - 1` for the law. -/
theorem integrationRule_spec {eig : Eig} (heig : EigOk eig) {xs : List ℝ} (h : Varied xs) (n : ℕ) (hn : 0 < n) :
    ∃ r : Rule ℝ ℝ, integrationRule eig xs n = .ok r ∧ r.points.length = xs.length * n ∧ r.weights.length = xs.length * n ∧
      (∀ w ∈ r.weights, 0 < w) ∧ r.weights.sum = 1 ∧
      ∀ q : ℝ[X], q.natDegree ≤ 2 * n - 1 → r.integrate (fun x => q.eval x) = .ok (∫ x, q.eval x ∂(law xs)) := by
  have hb := bandwidth_pos h
  have hl := len_pos h.ne_nil
  obtain ⟨G, h1, h2, h3, h4, h5, h6⟩ := gauss_spec heig (.normal 0 1) (show (0 : ℝ) < 1 by norm_num) n hn
  have hm := gauss_mass heig (.normal 0 1) (show (0 : ℝ) < 1 by norm_num) n hn G h1
  have c1 : (xs.flatMap (fun xi => G.points.map (fun g => bandwidth xs * g + xi))).length = xs.length * n := by
    simp [List.length_flatMap, h2]
  have c2 : (xs.flatMap (fun _ => G.weights.map (fun w : ℝ => w / (xs.length : ℝ)))).length = xs.length * n := by
    simp [List.length_flatMap, h4]
  have zf : ∀ (f : ℝ → ℝ) (l : List ℝ), List.zipWith (fun x w => f x * w) (l.flatMap (fun xi => G.points.map (fun g => bandwidth xs * g + xi)))
      (l.flatMap (fun _ => G.weights.map (fun w : ℝ => w / (xs.length : ℝ)))) =
      l.flatMap (fun xi => List.zipWith (fun g w => f (bandwidth xs * g + xi) * (w / (xs.length : ℝ))) G.points G.weights) := by
    intro f l
    induction l with
    | nil => rfl
    | cons a l ih =>
      rw [List.flatMap_cons, List.flatMap_cons, List.zipWith_append (by simp [h2, h4]), ih, List.zipWith_map, List.flatMap_cons]
  refine ⟨_, by rw [integrationRule, h1]; rfl, c1, c2, ?_, ?_, ?_⟩
  · intro w hw
    obtain ⟨x, _, hw⟩ := List.mem_flatMap.1 hw
    obtain ⟨v, hv, rfl⟩ := List.mem_map.1 hw
    exact div_pos (h5 v hv) hl
  · have e : ∀ l : List ℝ, (l.flatMap (fun _ => G.weights.map (fun w : ℝ => w / (xs.length : ℝ)))).sum = l.length * (1 / (xs.length : ℝ)) := by
      intro l
      induction l with
      | nil => simp
      | cons a l ih =>
        rw [List.flatMap_cons, List.sum_append, ih]
        have : (G.weights.map (fun w => w / (xs.length : ℝ))).sum = 1 / (xs.length : ℝ) := by
          simp only [div_eq_mul_inv]
          rw [List.sum_map_mul_right, List.map_id', hm]
          rfl
        rw [this, List.length_cons]
        push_cast
        ring
    rw [e]
    field_simp
  · intro q hq
    unfold Rule.integrate
    rw [if_neg (by rw [c1, c2]; simp)]
    congr 1
    rw [zf, law, LK_eq xs hb, LK_apply, npMean, List.length_map]
    have e : ∀ l : List ℝ, (l.flatMap (fun xi => List.zipWith (fun g w => q.eval (bandwidth xs * g + xi) * (w / (xs.length : ℝ))) G.points G.weights)).sum =
        (l.map (fun x => LN (q.comp (C x + C (bandwidth xs) * X)))).sum / xs.length := by
      intro l
      induction l with
      | nil => simp
      | cons a l ih =>
        rw [List.flatMap_cons, List.sum_append, ih, List.map_cons, List.sum_cons, add_div]
        congr 1
        have h7 := rule_sum _ _ _ (h6 (q.comp (C a + C (bandwidth xs) * X)) (by rw [natDegree_comp_aff hb.ne']; exact hq))
        have hE : (Meas.normal 0 1).E (fun x => (q.comp (C a + C (bandwidth xs) * X)).eval x) = LN (q.comp (C a + C (bandwidth xs) * X)) := by
          rw [LN_gaussian]; simp [Meas.E]
        rw [← hE, ← h7, div_eq_mul_inv, zip_mul]
        congr 2
        funext g w
        simp only [eval_comp, eval_add, eval_mul, eval_C, eval_X]
        rw [add_comm a]
        ring
    exact e xs

end

end Verif.Empirical
