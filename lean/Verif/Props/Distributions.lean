import Verif.Spec.Distributions
import Verif.Spec.Polynomials
import Mathlib.Probability.CDF
import Mathlib.MeasureTheory.Integral.Pi
import Mathlib.Analysis.SpecialFunctions.Integrals.Basic

namespace Verif.Distributions

open MeasureTheory ProbabilityTheory

/-! ### densities -/

theorem var_ne_zero {s : ℝ} (hs : 0 < s) : (s ^ 2).toNNReal ≠ 0 := by
  simp only [ne_eq, Real.toNNReal_eq_zero, not_le]
  positivity

theorem normPdf_eq {m s : ℝ} (hs : 0 < s) (x : ℝ) : normPdf x m s = gaussianPDFReal m (s ^ 2).toNNReal x := by
  have h1 : ((s ^ 2).toNNReal : ℝ) = s ^ 2 := Real.coe_toNNReal _ (by positivity)
  rw [normPdf, gaussianPDFReal, h1]
  have h2 : Real.sqrt (2 * Real.pi * s ^ 2) = Real.sqrt (2 * Real.pi) * s := by
    rw [Real.sqrt_mul (by positivity), Real.sqrt_sq hs.le]
  have h3 : -((x - m) / s) ^ 2 / 2 = -(x - m) ^ 2 / (2 * s ^ 2) := by
    field_simp
  rw [h2, h3]
  have : Real.sqrt (2 * Real.pi) ≠ 0 := by positivity
  field_simp

theorem uniformPdf_eq {a b : ℝ} (h : a < b) (x : ℝ) :
    uniformPdf x a (b - a) = Set.indicator (Set.Icc a b) (fun _ => 1 / (b - a)) x := by
  have hb : 0 < b - a := by linarith
  have : (0 ≤ (x - a) / (b - a) ∧ (x - a) / (b - a) ≤ 1) ↔ x ∈ Set.Icc a b := by
    rw [div_le_one hb, Set.mem_Icc]
    constructor
    · rintro ⟨h1, h2⟩
      have := (div_nonneg_iff.1 h1)
      rcases this with h | h
      · exact ⟨by linarith [h.1], by linarith⟩
      · linarith [h.2]
    · rintro ⟨h1, h2⟩
      exact ⟨div_nonneg (by linarith) hb.le, by linarith⟩
  rw [uniformPdf, Set.indicator_apply]
  simp only [this]

/-- `pdf` is the density of the law: it is nonnegative, and the probability of every event is the integral of `pdf`. -/
theorem pdf_spec (X : RVar) (h : X.Proper) :
    (∀ x, 0 ≤ X.pdf x) ∧ X.law = volume.withDensity (fun x => ENNReal.ofReal (X.pdf x)) := by
  cases X with
  | uniform a b =>
    have h : a < b := h
    have hb : 0 < b - a := by linarith
    refine ⟨fun x => ?_, ?_⟩
    · simp only [RVar.pdf, uniformPdf_eq h]
      exact Set.indicator_nonneg (fun _ _ => by positivity) x
    · have : (fun x => ENNReal.ofReal ((RVar.uniform a b).pdf x)) = (Set.Icc a b).indicator (fun _ => ENNReal.ofReal (1 / (b - a))) := by
        funext x
        simp only [RVar.pdf, uniformPdf_eq h, Set.indicator_apply]
        split_ifs <;> simp
      rw [this, withDensity_indicator measurableSet_Icc, withDensity_const]
      rfl
  | normal m s =>
    have h : 0 < s := h
    refine ⟨fun x => ?_, ?_⟩
    · simp only [RVar.pdf, normPdf_eq h]
      exact gaussianPDFReal_nonneg _ _ _
    · simp only [RVar.pdf, normPdf_eq h, RVar.law]
      rw [gaussianReal_of_var_ne_zero _ (var_ne_zero h)]
      rfl

theorem isProba (X : RVar) (h : X.Proper) : IsProbabilityMeasure X.law := by
  cases X with
  | uniform a b =>
    have h : a < b := h
    have hb : 0 < b - a := by linarith
    refine ⟨?_⟩
    simp only [RVar.law, Measure.smul_apply, Measure.restrict_apply MeasurableSet.univ, Set.univ_inter, Real.volume_Icc, smul_eq_mul]
    rw [← ENNReal.ofReal_mul (by positivity), one_div_mul_cancel hb.ne', ENNReal.ofReal_one]
  | normal m s => exact inferInstanceAs (IsProbabilityMeasure (gaussianReal _ _))

theorem measurable_pdf (X : RVar) (h : X.Proper) : Measurable X.pdf := by
  cases X with
  | uniform a b =>
    have h : a < b := h
    have : (RVar.uniform a b).pdf = Set.indicator (Set.Icc a b) (fun _ => 1 / (b - a)) := by
      funext x; exact uniformPdf_eq h x
    rw [this]
    exact measurable_const.indicator measurableSet_Icc
  | normal m s =>
    have h : 0 < s := h
    have : (RVar.normal m s).pdf = gaussianPDFReal m (s ^ 2).toNNReal := by
      funext x; exact normPdf_eq h x
    rw [this]
    exact measurable_gaussianPDFReal _ _

/-! ### distribution functions -/

theorem ndtr_eq (z : ℝ) : ndtr z = (gaussianReal 0 1).real (Set.Iic z) := by
  rw [measureReal_def, gaussianReal_apply_eq_integral 0 one_ne_zero, ENNReal.toReal_ofReal, ndtr]
  · congr 1
    funext t
    simp [gaussianPDFReal]
    field_simp
  · exact setIntegral_nonneg measurableSet_Iic (fun _ _ => gaussianPDFReal_nonneg _ _ _)

theorem gaussian_affine {m s : ℝ} (hs : 0 < s) :
    (gaussianReal 0 1).map (fun x => s * x + m) = gaussianReal m (s ^ 2).toNNReal := by
  have h1 : (gaussianReal 0 1).map (fun x => s * x) = gaussianReal 0 (s ^ 2).toNNReal := by
    rw [gaussianReal_map_const_mul]
    congr 1
    · simp
    · ext
      simp [sq_nonneg]
  have h2 : (fun x => s * x + m) = (fun y => y + m) ∘ (fun x => s * x) := rfl
  rw [h2, ← Measure.map_map (by fun_prop) (by fun_prop), h1, gaussianReal_map_add_const]
  simp

/-- `cdf(x)` is the probability that the random variable is at most `x`. -/
theorem cdf_spec (X : RVar) (h : X.Proper) (x : ℝ) : X.cdf x = X.law.real (Set.Iic x) := by
  cases X with
  | uniform a b =>
    have h : a < b := h
    have hb : 0 < b - a := by linarith
    have e : Set.Iic x ∩ Set.Icc a b = Set.Icc a (min b x) := by
      ext t
      simp only [Set.mem_inter_iff, Set.mem_Iic, Set.mem_Icc, le_min_iff]
      tauto
    simp only [RVar.cdf, RVar.law, uniformCdf, measureReal_def, Measure.smul_apply, Measure.restrict_apply measurableSet_Iic, e,
      Real.volume_Icc, smul_eq_mul, ENNReal.toReal_mul]
    rw [ENNReal.toReal_ofReal (by positivity)]
    rcases le_total x a with h1 | h1
    · rw [if_pos (div_nonpos_of_nonpos_of_nonneg (by linarith) hb.le), ENNReal.ofReal_of_nonpos (by simp [h1])]
      simp
    · rcases le_total b x with h2 | h2
      · rw [if_neg (by rw [not_le]; exact div_pos (by linarith) hb), if_pos (by rw [le_div_iff₀ hb]; linarith), min_eq_left h2,
          ENNReal.toReal_ofReal hb.le, one_div_mul_cancel hb.ne']
      · rw [min_eq_right h2, ENNReal.toReal_ofReal (by linarith)]
        split_ifs with h3 h4
        · have := (div_nonpos_iff.1 h3)
          have h5 : x - a = 0 := by rcases this with h | h <;> linarith [h.1, h.2]
          rw [h5]; simp
        · rw [le_div_iff₀ hb] at h4
          have : x - a = b - a := by linarith
          rw [this, one_div_mul_cancel hb.ne']
        · rw [div_eq_mul_one_div, mul_comm]
  | normal m s =>
    have h : 0 < s := h
    simp only [RVar.cdf, RVar.law, normCdf, ndtr_eq]
    rw [← gaussian_affine h, measureReal_def, measureReal_def, Measure.map_apply (by fun_prop) measurableSet_Iic]
    congr 2
    ext t
    simp only [Set.mem_Iic, Set.mem_preimage]
    rw [le_div_iff₀ h]
    constructor <;> intro h <;> linarith

/-- The mean, the variance and the standard deviation are those of the law; the integral that the polynomials and the Gauss rules
refer to is the one for this law. -/
theorem moments_spec (X : RVar) (h : X.Proper) :
    X.mean = ∫ x, x ∂X.law ∧ X.variance = ∫ x, (x - X.mean) ^ 2 ∂X.law ∧ 0 ≤ X.std ∧ X.std ^ 2 = X.variance ∧
      ∀ f : ℝ → ℝ, X.meas.E f = ∫ x, f x ∂X.law := by
  have key : ∀ f : ℝ → ℝ, X.meas.E f = ∫ x, f x ∂X.law := by
    intro f
    cases X with
    | uniform a b =>
      have h : a < b := h
      have hb : 0 < b - a := by linarith
      simp only [RVar.meas, RVar.law, Polynomials.Meas.E, integral_smul_measure]
      rw [ENNReal.toReal_ofReal (by positivity), integral_Icc_eq_integral_Ioc, ← intervalIntegral.integral_of_le h.le, smul_eq_mul]
      field_simp
    | normal m s => rfl
  have hstd : X.std ^ 2 = X.variance := by
    rw [RVar.std, Real.sq_sqrt]
    · rfl
    · cases X <;> simp only [RVar.statistics] <;> positivity
  refine ⟨?_, ?_, Real.sqrt_nonneg _, hstd, key⟩
  · rw [← key]
    cases X with
    | uniform a b =>
      have h : a < b := h
      have hb : b - a ≠ 0 := by intro h0; linarith
      simp only [RVar.mean, RVar.statistics, RVar.meas, Polynomials.Meas.E, integral_id]
      field_simp
      ring
    | normal m s => simp [RVar.mean, RVar.statistics, RVar.meas, Polynomials.Meas.E, integral_id_gaussianReal]
  · rw [← key]
    cases X with
    | uniform a b =>
      have h : a < b := h
      have hb : b - a ≠ 0 := by intro h0; linarith
      simp only [RVar.mean, RVar.variance, RVar.statistics, RVar.meas, Polynomials.Meas.E]
      have : ∫ x in a..b, (x - (a + b) / 2) ^ 2 = (b - a) ^ 3 / 12 := by
        rw [intervalIntegral.integral_comp_sub_right (fun x => x ^ 2), integral_pow]
        push_cast
        ring
      rw [this]
      field_simp
    | normal m s =>
      have h : 0 < s := h
      simp only [RVar.mean, RVar.variance, RVar.statistics, RVar.meas, Polynomials.Meas.E]
      have := @variance_fun_id_gaussianReal m (s ^ 2).toNNReal
      rw [variance_eq_integral (by fun_prop), integral_id_gaussianReal, Real.coe_toNNReal _ (by positivity)] at this
      exact this.symm

/-! ### quantiles -/

theorem ndtr_strictMono : StrictMono ndtr := by
  intro a b hab
  rw [ndtr_eq, ndtr_eq]
  have hu : Set.Iic b = Set.Iic a ∪ Set.Ioc a b := (Set.Iic_union_Ioc_eq_Iic hab.le).symm
  rw [hu, measureReal_union (Set.Iic_disjoint_Ioc le_rfl) measurableSet_Ioc]
  have hpos : 0 < (gaussianReal 0 1).real (Set.Ioc a b) := by
    rw [measureReal_def, ENNReal.toReal_pos_iff]
    refine ⟨?_, measure_lt_top _ _⟩
    rw [pos_iff_ne_zero]
    intro h0
    have := gaussianReal_absolutelyContinuous' 0 (one_ne_zero) h0
    rw [Real.volume_Ioc, ENNReal.ofReal_eq_zero] at this
    linarith
  linarith

theorem ndtr_lt_one (z : ℝ) : ndtr z < 1 := by
  refine lt_of_lt_of_le (ndtr_strictMono (show z < z + 1 by linarith)) ?_
  rw [ndtr_eq]
  exact measureReal_le_one

theorem ndtr_pos (z : ℝ) : 0 < ndtr z := by
  refine lt_of_le_of_lt ?_ (ndtr_strictMono (show z - 1 < z by linarith))
  rw [ndtr_eq]
  exact measureReal_nonneg

theorem ndtr_continuous : Continuous ndtr := by
  have hi : Integrable (fun t : ℝ => Real.exp (-t ^ 2 / 2) / Real.sqrt (2 * Real.pi)) := by
    have := integrable_gaussianPDFReal 0 1
    convert this using 1
    funext t
    simp [gaussianPDFReal]
    field_simp
  have : ndtr = fun z => ndtr 0 + ∫ t in (0:ℝ)..z, Real.exp (-t ^ 2 / 2) / Real.sqrt (2 * Real.pi) := by
    funext z
    rw [← intervalIntegral.integral_Iic_sub_Iic hi.integrableOn hi.integrableOn]
    simp only [ndtr]
    ring
  rw [this]
  exact continuous_const.add (intervalIntegral.continuous_primitive (fun a b => hi.intervalIntegrable) 0)

/-- The hypothesis `NdtriOk` on the library function is satisfiable. -/
theorem exists_ndtri : ∃ ndtri, NdtriOk ndtri := by
  have h0 : Filter.Tendsto ndtr Filter.atBot (nhds 0) := by
    have := tendsto_cdf_atBot (gaussianReal 0 1)
    convert this using 1
    funext z
    rw [ndtr_eq, cdf_eq_real]
  have h1 : Filter.Tendsto ndtr Filter.atTop (nhds 1) := by
    have := tendsto_cdf_atTop (gaussianReal 0 1)
    convert this using 1
    funext z
    rw [ndtr_eq, cdf_eq_real]
  have key : ∀ q : ℝ, 0 < q → q < 1 → ∃ z, ndtr z = q := by
    intro q hq0 hq1
    have := mem_range_of_exists_le_of_exists_ge ndtr_continuous
      ((h0.eventually (gt_mem_nhds hq0)).exists.imp (fun _ h => le_of_lt h))
      ((h1.eventually (lt_mem_nhds hq1)).exists.imp (fun _ h => le_of_lt h))
    exact this
  choose! f hf using key
  exact ⟨f, fun q h0 h1 => by rw [← ndtr_eq]; exact hf q h0 h1⟩

theorem cdf_mem (X : RVar) (h : X.Proper) (x : ℝ) : 0 ≤ X.cdf x ∧ X.cdf x ≤ 1 := by
  haveI := isProba X h
  rw [cdf_spec X h]
  exact ⟨measureReal_nonneg, measureReal_le_one⟩

/-- `icdf` is the quantile function: for `0 < p < 1` it returns a number whose distribution function is `p`, inside the support, and
for `0 < p ≤ 1` it is below `y` exactly when `p` is below `cdf(y)`. -/
theorem icdf_spec {ndtri : ℝ → ℝ} (hn : NdtriOk ndtri) (X : RVar) (h : X.Proper) (p : ℝ) (h0 : 0 < p) (h1 : p ≤ 1) :
    ∃ t : EReal, X.icdf ndtri p = some t ∧ X.support.1 ≤ t ∧ t ≤ X.support.2 ∧ (∀ y : ℝ, t ≤ (y : EReal) ↔ p ≤ X.cdf y) ∧
      (p < 1 → ∃ r : ℝ, t = (r : EReal) ∧ X.cdf r = p) := by
  cases X with
  | uniform a b =>
    have h : a < b := h
    have hb : 0 < b - a := by linarith
    refine ⟨((p * (b - a) + a : ℝ) : EReal), ?_, ?_, ?_, ?_, ?_⟩
    · simp only [RVar.icdf, uniformPpf]
      rw [if_pos ⟨h0.le, h1⟩]
    · simp only [RVar.support, EReal.coe_le_coe_iff]
      nlinarith
    · simp only [RVar.support, EReal.coe_le_coe_iff]
      nlinarith
    · intro y
      rw [EReal.coe_le_coe_iff]
      simp only [RVar.cdf, uniformCdf]
      have e : p * (b - a) + a ≤ y ↔ p ≤ (y - a) / (b - a) := by
        rw [le_div_iff₀ hb]; constructor <;> intro h <;> linarith
      rw [e]
      split_ifs with h2 h3
      · constructor <;> intro h <;> linarith
      · constructor <;> intro h <;> linarith
      · rfl
    · intro hp
      refine ⟨_, rfl, ?_⟩
      have e : (p * (b - a) + a - a) / (b - a) = p := by field_simp; ring
      simp only [RVar.cdf, uniformCdf, e]
      rw [if_neg (not_le.2 h0), if_neg (not_le.2 hp)]
  | normal m s =>
    have h : 0 < s := h
    rcases h1.lt_or_eq with hp | hp
    · have hz := hn p h0 hp
      rw [← ndtr_eq] at hz
      refine ⟨((ndtri p * s + m : ℝ) : EReal), ?_, bot_le, le_top, ?_, ?_⟩
      · simp only [RVar.icdf, normPpf]
        rw [if_neg h0.ne', if_neg hp.ne, if_pos ⟨h0, hp⟩]
      · intro y
        rw [EReal.coe_le_coe_iff]
        simp only [RVar.cdf, normCdf]
        nth_rw 2 [← hz]
        rw [ndtr_strictMono.le_iff_le, le_div_iff₀ h]
        constructor <;> intro h <;> linarith
      · intro _
        refine ⟨_, rfl, ?_⟩
        have e : (ndtri p * s + m - m) / s = ndtri p := by field_simp; ring
        simp only [RVar.cdf, normCdf, e, hz]
    · subst hp
      refine ⟨⊤, ?_, bot_le, le_rfl, ?_, fun h => absurd h (lt_irrefl _)⟩
      · simp only [RVar.icdf, normPpf]
        rw [if_neg one_ne_zero, if_pos trivial]
      · intro y
        simp only [top_le_iff, EReal.coe_ne_top, false_iff, not_le, RVar.cdf, normCdf]
        exact ndtr_lt_one _

/-- Outside `[0, 1]` there is no quantile: the result is `nan`. -/
theorem icdf_outside (ndtri : ℝ → ℝ) (X : RVar) (p : ℝ) (hp : p < 0 ∨ 1 < p) : X.icdf ndtri p = none := by
  cases X with
  | uniform a b =>
    simp only [RVar.icdf, uniformPpf]
    rw [if_neg]
    rcases hp with h | h <;> · intro ⟨_, _⟩; linarith
  | normal m s =>
    simp only [RVar.icdf, normPpf]
    rw [if_neg (by rcases hp with h | h <;> intro h0 <;> linarith), if_neg (by rcases hp with h | h <;> intro h0 <;> linarith), if_neg]
    rcases hp with h | h <;> · intro ⟨_, _⟩; linarith

/-- The values of `cdf` are uniformly distributed. -/
theorem law_cdf_le {ndtri : ℝ → ℝ} (hn : NdtriOk ndtri) (X : RVar) (h : X.Proper) (u : ℝ) (h0 : 0 ≤ u) (h1 : u ≤ 1) :
    X.law.real {x | X.cdf x ≤ u} = u := by
  haveI := isProba X h
  rcases h1.lt_or_eq with hu | hu
  · cases X with
    | uniform a b =>
      have h' : a < b := h
      have hb : 0 < b - a := by linarith
      have e : {x | (RVar.uniform a b).cdf x ≤ u} = Set.Iic (u * (b - a) + a) := by
        ext x
        simp only [Set.mem_setOf_eq, Set.mem_Iic, RVar.cdf, uniformCdf]
        have e : x ≤ u * (b - a) + a ↔ (x - a) / (b - a) ≤ u := by
          rw [div_le_iff₀ hb]; constructor <;> intro h <;> linarith
        rw [e]
        split_ifs with h2 h3
        · constructor <;> intro h <;> linarith
        · constructor <;> intro h <;> linarith
        · rfl
      rw [e, ← cdf_spec _ h]
      have e : (u * (b - a) + a - a) / (b - a) = u := by field_simp; ring
      simp only [RVar.cdf, uniformCdf, e]
      split_ifs <;> linarith
    | normal m s =>
      have h' : 0 < s := h
      rcases h0.lt_or_eq with hp | hp
      · have hz := hn u hp hu
        rw [← ndtr_eq] at hz
        have e : {x | (RVar.normal m s).cdf x ≤ u} = Set.Iic (ndtri u * s + m) := by
          ext x
          simp only [Set.mem_setOf_eq, Set.mem_Iic, RVar.cdf, normCdf]
          nth_rw 1 [← hz]
          rw [ndtr_strictMono.le_iff_le, div_le_iff₀ h']
          constructor <;> intro h <;> linarith
        rw [e, ← cdf_spec _ h]
        have e : (ndtri u * s + m - m) / s = ndtri u := by field_simp; ring
        simp only [RVar.cdf, normCdf, e, hz]
      · subst hp
        have e : {x | (RVar.normal m s).cdf x ≤ 0} = ∅ := by
          ext x
          simp only [Set.mem_setOf_eq, RVar.cdf, normCdf, Set.mem_empty_iff_false, iff_false, not_le]
          exact ndtr_pos _
        rw [e]; simp
  · subst hu
    have e : {x | X.cdf x ≤ 1} = Set.univ := by
      ext x
      simp [(cdf_mem X h x).2]
    rw [e]; simp

theorem measurable_cdf (X : RVar) (h : X.Proper) : Measurable X.cdf := by
  haveI := isProba X h
  have : Monotone X.cdf := by
    intro a b hab
    rw [cdf_spec X h, cdf_spec X h]
    exact measureReal_mono (Set.Iic_subset_Iic.2 hab)
  exact this.measurable

/-- `X.transfer(Y, ·)` transports the law of `X` to the law of `Y`: it keeps the distribution function at every point that has
probability strictly between 0 and 1 below it, and for a point drawn with the law of `X` the probability that the transferred
point is at most `y` is that of `Y`. -/
theorem transfer_spec {ndtri : ℝ → ℝ} (hn : NdtriOk ndtri) (X Y : RVar) (hX : X.Proper) (hY : Y.Proper) :
    (∀ x, 0 < X.cdf x → X.cdf x < 1 → ∃ y : ℝ, transfer ndtri X Y x = some (y : EReal) ∧ Y.cdf y = X.cdf x) ∧
    (∀ x, transfer ndtri X Y x ≠ none) ∧
    (∀ y : ℝ, X.law.real {x | ∃ t, transfer ndtri X Y x = some t ∧ t ≤ (y : EReal)} = Y.law.real (Set.Iic y)) := by
  haveI := isProba X hX
  refine ⟨?_, ?_, ?_⟩
  · intro x h0 h1
    obtain ⟨t, ht, _, _, _, h5⟩ := icdf_spec hn Y hY (X.cdf x) h0 h1.le
    obtain ⟨r, hr, hc⟩ := h5 h1
    exact ⟨r, by rw [transfer, ht, hr], hc⟩
  · intro x
    rcases (cdf_mem X hX x).1.lt_or_eq with h0 | h0
    · obtain ⟨t, ht, _⟩ := icdf_spec hn Y hY (X.cdf x) h0 (cdf_mem X hX x).2
      rw [transfer, ht]
      simp
    · rw [transfer, ← h0]
      cases Y <;> simp [RVar.icdf, uniformPpf, normPpf]
  · intro y
    rw [← cdf_spec Y hY]
    have key : ∀ x, 0 < X.cdf x → ((∃ t, transfer ndtri X Y x = some t ∧ t ≤ (y : EReal)) ↔ X.cdf x ≤ Y.cdf y) := by
      intro x h0
      obtain ⟨t, ht, _, _, h4, _⟩ := icdf_spec hn Y hY (X.cdf x) h0 (cdf_mem X hX x).2
      rw [transfer, ht, ← h4]
      simp
    have hnull : X.law {x | X.cdf x ≤ 0} = 0 := by
      have := law_cdf_le hn X hX 0 le_rfl zero_le_one
      rwa [measureReal_def, ENNReal.toReal_eq_zero_iff, or_iff_left (measure_ne_top _ _)] at this
    rw [← law_cdf_le hn X hX (Y.cdf y) (cdf_mem Y hY y).1 (cdf_mem Y hY y).2]
    refine measureReal_congr ?_
    rw [Filter.eventuallyEq_set]
    have : ∀ᵐ x ∂X.law, x ∉ {x | X.cdf x ≤ 0} := by
      rw [ae_iff]
      simpa using hnull
    filter_upwards [this] with x hx
    simp only [Set.mem_setOf_eq, not_le] at hx
    exact key x hx

/-! ### isoprobabilistic grids -/

theorem prob_coe (X : RVar) (h : X.Proper) (r : ℝ) : X.prob (r : EReal) = X.cdf r := by
  rw [cdf_spec X h, RVar.prob]
  congr 1
  ext x
  simp

theorem prob_min (X : RVar) (h : X.Proper) : X.prob (min X.support.1 X.support.2) = 0 := by
  cases X with
  | uniform a b =>
    have h' : a < b := h
    have e : min (RVar.uniform a b).support.1 (RVar.uniform a b).support.2 = (a : EReal) := by
      simp only [RVar.support]
      exact min_eq_left (EReal.coe_le_coe_iff.2 h'.le)
    rw [e, prob_coe _ h]
    simp [RVar.cdf, uniformCdf]
  | normal m s => simp [RVar.support, RVar.prob]

theorem prob_max (X : RVar) (h : X.Proper) : X.prob (max X.support.1 X.support.2) = 1 := by
  haveI := isProba X h
  cases X with
  | uniform a b =>
    have h' : a < b := h
    have hb : b - a ≠ 0 := by intro h0; linarith
    have e : max (RVar.uniform a b).support.1 (RVar.uniform a b).support.2 = (b : EReal) := by
      simp only [RVar.support]
      exact max_eq_right (EReal.coe_le_coe_iff.2 h'.le)
    rw [e, prob_coe _ h]
    simp [RVar.cdf, uniformCdf, div_self hb]
  | normal m s => simp [RVar.support, RVar.prob]

theorem icdf_prob {ndtri : ℝ → ℝ} (hn : NdtriOk ndtri) (X : RVar) (h : X.Proper) (p : ℝ) (h0 : 0 < p) (h1 : p < 1) :
    ∃ t, X.icdf ndtri p = some t ∧ X.prob t = p := by
  obtain ⟨t, ht, _, _, _, h5⟩ := icdf_spec hn X h p h0 h1.le
  obtain ⟨r, hr, hc⟩ := h5 h1
  exact ⟨t, ht, by rw [hr, prob_coe X h, hc]⟩

theorem mapM_option {α β : Type} (f : α → Option β) (P : α → β → Prop) : ∀ l : List α, (∀ a ∈ l, ∃ b, f a = some b ∧ P a b) →
    ∃ bs, l.mapM f = some bs ∧ List.Forall₂ P l bs
  | [], _ => ⟨[], rfl, .nil⟩
  | a :: l, h => by
    obtain ⟨b, hb, hP⟩ := h a (by simp)
    obtain ⟨bs, hbs, hF⟩ := mapM_option f P l (fun a ha => h a (by simp [ha]))
    exact ⟨b :: bs, by simp [List.mapM_cons, hb, hbs], .cons hP hF⟩

theorem isoInner_spec {ndtri : ℝ → ℝ} (hn : NdtriOk ndtri) (X : RVar) (h : X.Proper) (n : ℕ) (h0 : 0 < n) :
    ∃ g, isoInner ndtri X n = some g ∧ g.length = n - 1 ∧ ∀ k (hk : k < g.length), X.prob g[k] = ((k : ℝ) + 1) / n := by
  have hn0 : (0 : ℝ) < n := by exact_mod_cast h0
  rcases Nat.lt_or_ge n 3 with h3 | h3
  · have : n = 1 ∨ n = 2 := by omega
    rcases this with rfl | rfl
    · exact ⟨[], by simp [isoInner], rfl, fun k hk => by simp at hk⟩
    · obtain ⟨t, ht, hp⟩ := icdf_prob hn X h 0.5 (by norm_num) (by norm_num)
      refine ⟨[t], by simp [isoInner, ht], rfl, fun k hk => ?_⟩
      simp only [List.length_singleton, Nat.lt_one_iff] at hk
      subst hk
      simp only [List.getElem_cons_zero, hp]
      norm_num
  · have hval : ∀ i : ℕ, (1 : ℝ) / n + (i : ℝ) * ((1 - 1 / (n : ℝ) - 1 / n) / (((n - 1 : ℕ) : ℝ) - 1)) = ((i : ℝ) + 1) / n := by
      intro i
      have e1 : ((n - 1 : ℕ) : ℝ) = (n : ℝ) - 1 := by rw [Nat.cast_sub h0]; simp
      have hn2 : (n : ℝ) - 1 - 1 ≠ 0 := by
        have : (3 : ℝ) ≤ n := by exact_mod_cast h3
        intro h; linarith
      rw [e1]
      field_simp
      ring
    have hl : linspace (1 / (n : ℝ)) (1 - 1 / (n : ℝ)) (n - 1) = (List.range (n - 1)).map (fun i : ℕ => ((i : ℝ) + 1) / n) := by
      rw [linspace]
      refine List.map_congr_left (fun i _ => hval i)
    obtain ⟨bs, hbs, hF⟩ := mapM_option (X.icdf ndtri) (fun p t => X.prob t = p)
      (linspace (1 / (n : ℝ)) (1 - 1 / (n : ℝ)) (n - 1)) (by
        rw [hl]
        intro a ha
        simp only [List.mem_map, List.mem_range] at ha
        obtain ⟨i, hi, rfl⟩ := ha
        have hi' : (i : ℝ) + 1 < n := by
          have : i + 1 < n := by omega
          exact_mod_cast this
        exact icdf_prob hn X h _ (by positivity) (by rw [div_lt_one hn0]; exact hi'))
    refine ⟨bs, ?_, ?_, ?_⟩
    · rw [isoInner, if_neg (by omega), if_neg (by omega), hbs]
    · rw [← hF.length_eq, hl]; simp
    · intro k hk
      have hk' : k < (linspace (1 / (n : ℝ)) (1 - 1 / (n : ℝ)) (n - 1)).length := by rw [hF.length_eq]; exact hk
      have := List.Forall₂.get hF hk' hk
      simp only [List.get_eq_getElem] at this
      rw [this]
      simp only [hl, List.getElem_map, List.getElem_range]

/-- `iso_probabilistic_grid(n)` returns `n + 1` points, from the lower to the upper end of the support, that cut the line in `n`
cells of probability `1/n`. -/
theorem isoGrid_spec {ndtri : ℝ → ℝ} (hn : NdtriOk ndtri) (X : RVar) (h : X.Proper) (n : ℕ) (h0 : 0 < n) :
    ∃ g, isoGrid ndtri X n = some g ∧ g.length = n + 1 ∧ g.head? = some X.support.1 ∧ g.getLast? = some X.support.2 ∧
      (∀ k (hk : k < g.length), X.prob g[k] = (k : ℝ) / n) ∧
      ∀ k (hk : k + 1 < g.length), X.law.real {x : ℝ | g[k] < (x : EReal) ∧ (x : EReal) ≤ g[k + 1]} = 1 / n := by
  haveI := isProba X h
  have hn0 : (0 : ℝ) < n := by exact_mod_cast h0
  obtain ⟨g, hg, hl, hp⟩ := isoInner_spec hn X h n h0
  have hs : X.support.1 ≤ X.support.2 := by
    cases X with
    | uniform a b =>
      have h' : a < b := h
      exact EReal.coe_le_coe_iff.2 h'.le
    | normal m s => exact bot_le
  have hprob : ∀ k (hk : k < (min X.support.1 X.support.2 :: (g ++ [max X.support.1 X.support.2])).length),
      X.prob ((min X.support.1 X.support.2 :: (g ++ [max X.support.1 X.support.2]))[k]) = (k : ℝ) / n := by
    intro k hk
    rcases k with _ | k
    · simp only [List.getElem_cons_zero, prob_min X h]
      simp
    · simp only [List.getElem_cons_succ]
      by_cases hkg : k < g.length
      · rw [List.getElem_append_left hkg, hp k hkg]
        push_cast
        rfl
      · have hk1 : k = g.length := by
          simp only [List.length_cons, List.length_append, List.length_nil] at hk
          omega
        rw [List.getElem_append_right (by omega)]
        simp only [List.getElem_singleton, prob_max X h]
        rw [hk1, hl]
        have : n - 1 + 1 = n := by omega
        rw [this, div_self hn0.ne']
  refine ⟨min X.support.1 X.support.2 :: (g ++ [max X.support.1 X.support.2]), by rw [isoGrid, hg]; rfl, ?_, ?_, ?_, hprob, ?_⟩
  · simp [hl]; omega
  · simp [min_eq_left hs]
  · rw [List.getLast?_cons]
    simp [max_eq_right hs]
  · intro k hk
    have ha := hprob k (by omega)
    have hb := hprob (k + 1) hk
    generalize hA : (min X.support.1 X.support.2 :: (g ++ [max X.support.1 X.support.2]))[k] = A at ha ⊢
    generalize hB : (min X.support.1 X.support.2 :: (g ++ [max X.support.1 X.support.2]))[k + 1] = B at hb ⊢
    have hAB : A ≤ B := by
      by_contra hlt
      have : X.prob B ≤ X.prob A := measureReal_mono (fun x hx => le_trans hx (le_of_lt (not_le.1 hlt)))
      rw [ha, hb, div_le_div_iff_of_pos_right hn0] at this
      push_cast at this
      linarith
    have hsplit : {x : ℝ | (x : EReal) ≤ B} = {x : ℝ | (x : EReal) ≤ A} ∪ {x : ℝ | A < (x : EReal) ∧ (x : EReal) ≤ B} := by
      ext x
      simp only [Set.mem_setOf_eq, Set.mem_union]
      constructor
      · intro hx
        rcases le_or_gt (x : EReal) A with h | h
        · exact Or.inl h
        · exact Or.inr ⟨h, hx⟩
      · rintro (h | h)
        · exact h.trans hAB
        · exact h.2
    have hmeas : MeasurableSet {x : ℝ | A < (x : EReal) ∧ (x : EReal) ≤ B} :=
      (measurable_coe_real_ereal measurableSet_Ioi).inter (measurable_coe_real_ereal measurableSet_Iic)
    have hdis : Disjoint {x : ℝ | (x : EReal) ≤ A} {x : ℝ | A < (x : EReal) ∧ (x : EReal) ≤ B} := by
      rw [Set.disjoint_left]
      intro x hx hx2
      exact absurd hx2.1 (not_lt.2 hx)
    have hu := measureReal_union (μ := X.law) hdis hmeas
    rw [← hsplit] at hu
    change X.prob B = X.prob A + _ at hu
    rw [ha, hb] at hu
    have : X.law.real {x : ℝ | A < (x : EReal) ∧ (x : EReal) ≤ B} = ((k + 1 : ℕ) : ℝ) / n - (k : ℝ) / n := by linarith
    rw [this]
    push_cast
    ring

/-- With a probability `0 < p < 1` the cells have the same probability, at most `p`. -/
theorem isoGridFrac_spec {ndtri : ℝ → ℝ} (hn : NdtriOk ndtri) (X : RVar) (h : X.Proper) (p : ℝ) (h0 : 0 < p) :
    ∃ n : ℕ, 0 < n ∧ 1 / (n : ℝ) ≤ p ∧ isoGridFrac ndtri X p = isoGrid ndtri X n ∧ (n : ℝ) < 1 / p + 1 := by
  have hpos : 0 < ⌈1 / p⌉₊ := Nat.ceil_pos.2 (by positivity)
  refine ⟨⌈1 / p⌉₊, hpos, ?_, rfl, Nat.ceil_lt_add_one (by positivity)⟩
  rw [div_le_iff₀ (by exact_mod_cast hpos)]
  have := Nat.le_ceil (1 / p)
  rw [div_le_iff₀ h0] at this
  linarith

end Verif.Distributions
