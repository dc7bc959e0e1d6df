import Verif.Model.ProductMeasure
import Verif.Spec.ProductMeasure
import Verif.Props.Grids
import Verif.Props.GaussRules
import Verif.Props.Distributions
import Verif.Props.Empirical
import Mathlib.Algebra.MvPolynomial.Degrees
import Mathlib.MeasureTheory.Integral.Pi

/-!
# Product measures
-/

namespace Verif.ProductMeasure

open MeasureTheory ProbabilityTheory Verif.Polynomials Verif.Grids

noncomputable section

instance law_finite (μ : Meas) : IsFiniteMeasure (law μ) := by
  cases μ with
  | uniform a b =>
    refine ⟨?_⟩
    simp only [law, Measure.smul_apply, smul_eq_mul, Measure.restrict_apply_univ, Real.volume_Icc]
    exact ENNReal.mul_lt_top ENNReal.ofReal_lt_top ENNReal.ofReal_lt_top
  | normal m s => unfold law; infer_instance
  | lebesgue a b =>
    refine ⟨?_⟩
    simp only [law, Measure.restrict_apply_univ, Real.volume_Icc]
    exact ENNReal.ofReal_lt_top

/-- The integral for the law is the integral of the specification of the polynomials. -/
theorem E_law (μ : Meas) (h : μ.Proper) (f : ℝ → ℝ) : μ.E f = ∫ x, f x ∂(law μ) := by
  cases μ with
  | uniform a b =>
    have hab : a < b := h
    have hb : 0 < b - a := by linarith
    rw [law, integral_smul_measure, ENNReal.toReal_ofReal (by positivity), Meas.E, intervalIntegral.integral_of_le hab.le,
      integral_Icc_eq_integral_Ioc, smul_eq_mul]
    field_simp
  | normal m s => rfl
  | lebesgue a b =>
    have hab : a < b := h
    rw [law, Meas.E, intervalIntegral.integral_of_le hab.le, integral_Icc_eq_integral_Ioc]

theorem integrable_pow (μ : Meas) (h : μ.Proper) (k : ℕ) : Integrable (fun x : ℝ => x ^ k) (law μ) := by
  have hc : ∀ a b : ℝ, Integrable (fun x : ℝ => x ^ k) (volume.restrict (Set.Icc a b)) := fun a b =>
    (continuous_pow k).continuousOn.integrableOn_compact isCompact_Icc
  cases μ with
  | uniform a b => exact (hc a b).smul_measure ENNReal.ofReal_ne_top
  | normal m s =>
    have := Empirical.integrable_poly (m := m) (h := s) h (Polynomial.X ^ k)
    unfold law; simpa using this
  | lebesgue a b => exact hc a b

/-- `mass()` of a product measure is the measure of the whole space. -/
theorem mass_spec {d : ℕ} (μ : Fin d → Meas) (h : ∀ i, (μ i).Proper) : mass (List.ofFn μ) = (lawPi μ).real Set.univ := by
  have e : ∀ i, (law (μ i)).real Set.univ = (μ i).mass := by
    intro i
    have hi := h i
    cases hm : μ i with
    | uniform a b =>
      rw [hm] at hi
      have hab : a < b := hi
      have hb : 0 < b - a := by linarith
      simp only [law, measureReal_def, Measure.smul_apply, smul_eq_mul, Measure.restrict_apply_univ, Real.volume_Icc,
        ENNReal.toReal_mul, Meas.mass]
      rw [ENNReal.toReal_ofReal (by positivity), ENNReal.toReal_ofReal hb.le, one_div_mul_cancel hb.ne']
    | normal m s => simp [law, Meas.mass]
    | lebesgue a b =>
      rw [hm] at hi
      have hab : a < b := hi
      simp only [law, measureReal_def, Measure.restrict_apply_univ, Real.volume_Icc, Meas.mass]
      rw [ENNReal.toReal_ofReal (by linarith)]
  rw [mass, lawPi, measureReal_def, Measure.pi_univ, ENNReal.toReal_prod, List.map_ofFn, List.prod_ofFn]
  exact Finset.prod_congr rfl (fun i _ => (e i).symm)

/-! ### comparison -/

theorem measEq_iff (μ ν : Meas) : measEq μ ν = true ↔ μ = ν := by
  cases μ <;> cases ν <;> simp [measEq]

/-- The laws of two random variables (uniform or normal) are equal exactly when `==` returns `True`. -/
theorem measEq_law (μ ν : Meas) (hμ : μ.Proper) (hν : ν.Proper) (pμ : μ.IsProba) (pν : ν.IsProba) :
    measEq μ ν = true ↔ law μ = law ν := by
  rw [measEq_iff]
  refine ⟨fun h => by rw [h], fun h => ?_⟩
  have cross : ∀ a b m s : ℝ, 0 < s → law (.uniform a b) ≠ law (.normal m s) := by
    intro a b m s hs e
    have h0 : law (.uniform a b) (Set.Ioi b) = 0 := by
      have e2 : Set.Ioi b ∩ Set.Icc a b = ∅ := by ext x; simp; intro h1 h2; linarith
      simp [law, Measure.restrict_apply measurableSet_Ioi, e2]
    rw [e] at h0
    have := gaussianReal_absolutelyContinuous' m (Distributions.var_ne_zero hs) h0
    simp at this
  cases μ with
  | uniform a b =>
    cases ν with
    | uniform c d =>
      have hab : a < b := hμ
      have hcd : c < d := hν
      have e : Distributions.RVar.law (.uniform a b) = Distributions.RVar.law (.uniform c d) := h
      obtain ⟨m1, v1, _⟩ := Distributions.moments_spec (.uniform a b) hμ
      obtain ⟨m2, v2, _⟩ := Distributions.moments_spec (.uniform c d) hν
      rw [e, ← m2] at m1
      rw [e, m1, ← v2] at v1
      simp only [Distributions.RVar.mean, Distributions.RVar.variance, Distributions.RVar.statistics] at m1 v1
      have hw : b - a = d - c := by nlinarith
      have h1 : a = c := by linarith
      have h2 : b = d := by linarith
      rw [h1, h2]
    | normal m s => exact absurd h (cross a b m s hν)
    | lebesgue c d => exact absurd pν id
  | normal m s =>
    cases ν with
    | uniform c d => exact absurd h.symm (cross c d m s hμ)
    | normal n t =>
      have hs : 0 < s := hμ
      have ht : 0 < t := hν
      have e : Distributions.RVar.law (.normal m s) = Distributions.RVar.law (.normal n t) := h
      obtain ⟨m1, v1, _⟩ := Distributions.moments_spec (.normal m s) hμ
      obtain ⟨m2, v2, _⟩ := Distributions.moments_spec (.normal n t) hν
      rw [e, ← m2] at m1
      rw [e, m1, ← v2] at v1
      simp only [Distributions.RVar.mean, Distributions.RVar.variance, Distributions.RVar.statistics] at m1 v1
      have h2 : s = t := by nlinarith
      rw [m1, h2]
    | lebesgue c d => exact absurd pν id
  | lebesgue c d => exact absurd pμ id

theorem law_proba (μ : Meas) (h : μ.Proper) (p : μ.IsProba) : IsProbabilityMeasure (law μ) := by
  cases μ with
  | uniform a b => exact Distributions.isProba (.uniform a b) h
  | normal m s => exact Distributions.isProba (.normal m s) h
  | lebesgue a b => exact absurd p id

theorem zip_all {d : ℕ} (X Y : Fin d → Meas) :
    (List.zip (List.ofFn X) (List.ofFn Y)).all (fun p => measEq p.1 p.2) = true ↔ ∀ i, measEq (X i) (Y i) = true := by
  rw [List.all_eq_true]
  constructor
  · intro h i
    have hi : i.1 < (List.zip (List.ofFn X) (List.ofFn Y)).length := by simp
    have := h _ (List.getElem_mem hi)
    simpa using this
  · intro h p hp
    obtain ⟨i, hi, rfl⟩ := List.getElem_of_mem hp
    simp at hi
    simpa using h ⟨i, hi⟩

/-- Two random vectors of the same size compare equal exactly when they have the same law, and vectors of different sizes never do. -/
theorem vectorEq_spec {d : ℕ} (X Y : Fin d → Meas) (hX : ∀ i, (X i).Proper ∧ (X i).IsProba) (hY : ∀ i, (Y i).Proper ∧ (Y i).IsProba) :
    vectorEq (List.ofFn X) (List.ofFn Y) = true ↔ lawPi X = lawPi Y := by
  haveI : ∀ i, IsProbabilityMeasure (law (X i)) := fun i => law_proba _ (hX i).1 (hX i).2
  haveI : ∀ i, IsProbabilityMeasure (law (Y i)) := fun i => law_proba _ (hY i).1 (hY i).2
  rw [vectorEq, if_neg (by simp), zip_all]
  constructor
  · intro h
    have : X = Y := funext (fun i => (measEq_iff _ _).1 (h i))
    rw [this]
  · intro h i
    rw [measEq_law _ _ (hX i).1 (hY i).1 (hX i).2 (hY i).2]
    have h1 := (measurePreserving_eval (fun i => law (X i)) i).map_eq
    have h2 := (measurePreserving_eval (fun i => law (Y i)) i).map_eq
    rw [← h1, ← h2]
    exact congrArg (Measure.map (Function.eval i)) h

theorem vectorEq_length (Xs Ys : List Meas) (h : Xs.length ≠ Ys.length) : vectorEq Xs Ys = false := by
  rw [vectorEq, if_pos h]

/-- Product measures with the same number of factors compare equal exactly when their factors are the same. -/
theorem productEq_partial {d : ℕ} (X Y : Fin d → Meas) : productEq (List.ofFn X) (List.ofFn Y) = true ↔ X = Y := by
  rw [productEq, zip_all]
  simp only [measEq_iff]
  exact ⟨fun h => funext h, fun h i => by rw [h]⟩

/-- A product measure compares equal to any extension of it. -/
theorem productEq_prefix (Xs Ys : List Meas) : productEq Xs (Xs ++ Ys) = true := by
  rw [productEq, List.all_eq_true]
  intro p hp
  obtain ⟨i, hi, rfl⟩ := List.getElem_of_mem hp
  rw [measEq_iff]
  simp only [List.getElem_zip]
  simp at hi
  rw [List.getElem_append_left hi]

/-! ### shifts -/

theorem Iic_restrict {a b : ℝ} (h : a ≤ b) (x : ℝ) :
    (volume.restrict (Set.Icc a b)) (Set.Iic x) = ENNReal.ofReal (min b x - a) := by
  rw [Measure.restrict_apply measurableSet_Iic, show Set.Iic x ∩ Set.Icc a b = Set.Icc a (min b x) by
    ext y; simp only [Set.mem_inter_iff, Set.mem_Iic, Set.mem_Icc, le_min_iff]; tauto, Real.volume_Icc]

theorem map_restrict {a b m s : ℝ} (h : a < b) (hs : 0 < s) :
    ENNReal.ofReal s • (volume.restrict (Set.Icc a b)).map (fun x => s * x + m) = volume.restrict (Set.Icc (s * a + m) (s * b + m)) := by
  have hmeas : Measurable (fun x : ℝ => s * x + m) := by fun_prop
  have f1 : IsFiniteMeasure (volume.restrict (Set.Icc a b)) := law_finite (.lebesgue a b)
  have f2 : IsFiniteMeasure (volume.restrict (Set.Icc (s * a + m) (s * b + m))) := law_finite (.lebesgue _ _)
  have f3 : IsFiniteMeasure (ENNReal.ofReal s • (volume.restrict (Set.Icc a b)).map (fun x => s * x + m)) :=
    Measure.smul_finite _ ENNReal.ofReal_ne_top
  refine Measure.ext_of_Iic _ _ (fun x => ?_)
  have hab : s * a + m < s * b + m := by nlinarith
  rw [Iic_restrict hab.le, Measure.smul_apply, Measure.map_apply hmeas measurableSet_Iic,
    show (fun x : ℝ => s * x + m) ⁻¹' Set.Iic x = Set.Iic ((x - m) / s) by
      ext y; simp only [Set.mem_preimage, Set.mem_Iic]; rw [le_div_iff₀ hs]; constructor <;> intro h <;> linarith,
    Iic_restrict h.le, smul_eq_mul, ← ENNReal.ofReal_mul hs.le]
  congr 1
  have e : min (s * b + m) x = s * min b ((x - m) / s) + m := by
    rw [mul_min_of_nonneg _ _ hs.le, ← min_add_add_right]
    congr 1
    field_simp
    ring
  rw [e]
  ring

/-- `shift(b, s)` of a uniform random variable `X` is the law of `s X + b`; that of the Lebesgue measure on an interval is the Lebesgue
measure on the image of the interval. -/
theorem shift_uniform (a b m s : ℝ) (h : a < b) (hs : 0 < s) :
    law ((Meas.uniform a b).shift m s) = (law (.uniform a b)).map (fun x => s * x + m) ∧
      law ((Meas.lebesgue a b).shift m s) = volume.restrict ((fun x => s * x + m) '' Set.Icc a b) := by
  constructor
  · simp only [Meas.shift, law]
    rw [Measure.map_smul, ← map_restrict h hs, smul_smul, ← ENNReal.ofReal_mul (by
      have : 0 < s * b + m - (s * a + m) := by nlinarith
      positivity)]
    congr 2
    have : b - a ≠ 0 := by linarith
    rw [show s * b + m - (s * a + m) = s * (b - a) by ring]
    field_simp
  · simp only [Meas.shift, law]
    congr 1
    rw [Set.image_affine_Icc' hs, mul_comm a, mul_comm b]

/-- `shift(b, s)` of a normal random variable `X` of mean `m` scales about the mean: it is the law of `s (X - m) + m + b`, and that
of `s X + b` exactly when `s = 1` or `m = 0`. -/
theorem shift_normal (m sg b s : ℝ) (hg : 0 < sg) (hs : 0 < s) :
    law ((Meas.normal m sg).shift b s) = (law (.normal m sg)).map (fun x => s * (x - m) + m + b) ∧
      (law ((Meas.normal m sg).shift b s) = (law (.normal m sg)).map (fun x => s * x + b) ↔ s = 1 ∨ m = 0) := by
  have aff : ∀ c : ℝ, (law (.normal m sg)).map (fun x => s * x + c) = law (.normal (s * m + c) (sg * s)) := by
    intro c
    have e : (fun x : ℝ => s * x + c) = (fun x => x + c) ∘ (fun x => s * x) := rfl
    simp only [law]
    rw [e, ← Measure.map_map (by fun_prop) (by fun_prop), gaussianReal_map_const_mul, gaussianReal_map_add_const]
    congr 1
    ext
    push_cast
    rw [Real.coe_toNNReal _ (by positivity), Real.coe_toNNReal _ (by positivity)]
    ring
  constructor
  · have e : (fun x : ℝ => s * (x - m) + m + b) = fun x => s * x + (m + b - s * m) := by funext x; ring
    rw [e, aff]
    simp only [Meas.shift]
    congr 2
    ring
  · have hp : ∀ c, (Meas.normal c (sg * s)).Proper := fun c => mul_pos hg hs
    rw [aff, show (Meas.normal m sg).shift b s = .normal (m + b) (sg * s) from rfl, ← measEq_law _ _ (hp _) (hp _) trivial trivial, measEq_iff]
    simp only [Meas.normal.injEq, and_true]
    constructor
    · intro h
      have : (s - 1) * m = 0 := by linarith
      rcases mul_eq_zero.1 this with h | h
      · left; linarith
      · right; exact h
    · rintro (h | h) <;> rw [h] <;> ring

/-- `get_standard_random_variable()` is the affine image of the variable on `[-1, 1]`, or with mean 0 and standard deviation 1. -/
theorem standard_spec (a b m s : ℝ) (h : a < b) (hs : 0 < s) :
    (∃ ν, standard (.uniform a b) = .ok ν ∧ law ν = (law (.uniform a b)).map (fun x => (x - (a + b) / 2) / ((b - a) / 2))) ∧
    (∃ ν, standard (.normal m s) = .ok ν ∧ law ν = (law (.normal m s)).map (fun x => (x - m) / s)) := by
  have hb : 0 < b - a := by linarith
  refine ⟨⟨_, rfl, ?_⟩, ⟨_, rfl, ?_⟩⟩
  · have := (shift_uniform a b (-(a + b) / (b - a)) (2 / (b - a)) h (by positivity)).1
    rw [show (fun x : ℝ => (x - (a + b) / 2) / ((b - a) / 2)) = fun x => 2 / (b - a) * x + -(a + b) / (b - a) by
      funext x; field_simp; ring, ← this]
    simp only [Meas.shift]
    congr 2 <;> field_simp <;> ring
  · have := (shift_normal m s (-m) (1 / s) hs (by positivity)).1
    rw [show (fun x : ℝ => (x - m) / s) = fun x => 1 / s * (x - m) + m + -m by funext x; ring, ← this]
    simp only [Meas.shift]
    congr 2
    · ring
    · field_simp

/-! ### marginals -/

theorem takeList_ok {d k : ℕ} (X : Fin d → Meas) (σ : Fin k → Fin d) :
    takeList (List.ofFn X) (List.ofFn (fun j => (σ j).1)) = .ok (List.ofFn (X ∘ σ)) := by
  rw [takeList, mapM_ok _ _ (fun i => if h : i < d then X ⟨i, h⟩ else .uniform 0 0)]
  · rw [List.map_ofFn]
    congr 2
    funext j
    simp
  · intro i hi
    rw [List.mem_ofFn] at hi
    obtain ⟨j, rfl⟩ := hi
    simp

/-- `marginal(ind)`, for a list of distinct indices, is the law of the components with these indices, in this order;
`transpose(perm)` is the law of the permuted vector. -/
theorem marginal_spec {d k : ℕ} (X : Fin d → Meas) (h : ∀ i, (X i).Proper ∧ (X i).IsProba) (σ : Fin k → Fin d)
    (hσ : Function.Injective σ) :
    ∃ Y : Fin k → Meas, marginal (List.ofFn X) (List.ofFn (fun j => (σ j).1)) = .ok (List.ofFn Y) ∧
      transpose (List.ofFn X) (List.ofFn (fun j => (σ j).1)) = .ok (List.ofFn Y) ∧
      lawPi Y = (lawPi X).map (fun x j => x (σ j)) := by
  haveI : ∀ i, IsProbabilityMeasure (law (X i)) := fun i => law_proba _ (h i).1 (h i).2
  refine ⟨X ∘ σ, takeList_ok X σ, takeList_ok X σ, ?_⟩
  rw [lawPi]
  refine Measure.pi_eq (fun s hs => ?_)
  have hm : Measurable (fun (x : Fin d → ℝ) (j : Fin k) => x (σ j)) := by fun_prop
  rw [Measure.map_apply hm (MeasurableSet.univ_pi hs)]
  classical
  let t : Fin d → Set ℝ := fun i => if hi : ∃ j, σ j = i then s hi.choose else Set.univ
  have ht : ∀ j, t (σ j) = s j := by
    intro j
    have hi : ∃ j', σ j' = σ j := ⟨j, rfl⟩
    simp only [t, dif_pos hi]
    rw [hσ hi.choose_spec]
  have ht' : ∀ i, i ∉ Set.range σ → t i = Set.univ := fun i hi => dif_neg (fun ⟨j, hj⟩ => hi ⟨j, hj⟩)
  have e : (fun (x : Fin d → ℝ) (j : Fin k) => x (σ j)) ⁻¹' Set.univ.pi s = Set.univ.pi t := by
    ext x
    simp only [Set.mem_preimage, Set.mem_pi, Set.mem_univ, true_implies]
    constructor
    · intro hx i
      by_cases hi : i ∈ Set.range σ
      · obtain ⟨j, rfl⟩ := hi
        rw [ht]; exact hx j
      · rw [ht' i hi]; exact Set.mem_univ _
    · intro hx j
      rw [← ht]; exact hx _
  rw [e, lawPi, Measure.pi_pi]
  rw [← Finset.prod_subset (Finset.subset_univ (Finset.univ.image σ)) (fun i _ hi => by
    rw [ht' i (fun ⟨j, hj⟩ => hi (Finset.mem_image.2 ⟨j, Finset.mem_univ _, hj⟩)), measure_univ]),
    Finset.prod_image (fun a _ b _ hab => hσ hab)]
  exact Finset.prod_congr rfl (fun j _ => by rw [ht]; rfl)

/-- An index outside the vector is refused. -/
theorem marginal_refused (Xs : List Meas) (ind : List ℕ) (h : ∃ i ∈ ind, Xs.length ≤ i) :
    marginal Xs ind = .error .indexError ∧ transpose Xs ind = .error .indexError := by
  have : takeList Xs ind = .error .indexError := by
    induction ind with
    | nil => obtain ⟨i, hi, _⟩ := h; simp at hi
    | cons j l ih =>
      rw [takeList, List.mapM_cons]
      rcases lt_or_ge j Xs.length with hj | hj
      · have h' : ∃ i ∈ l, Xs.length ≤ i := by
          obtain ⟨i, hi, hi2⟩ := h
          rcases List.mem_cons.1 hi with rfl | hi
          · omega
          · exact ⟨i, hi, hi2⟩
        have := ih h'
        rw [takeList] at this
        rw [List.getElem?_eq_getElem hj, this]
        rfl
      · rw [List.getElem?_eq_none hj]
        rfl
  exact ⟨this, this⟩

/-! ### the Gauss rule -/

/-- `gauss_integration_rule(n)` with `n_i` points in direction `i` integrates exactly, for the product measure, every polynomial
whose degree in each variable `x_i` is at most `2 n_i - 1`. -/
theorem gauss_exact {eig : Eig} (heig : EigOk eig) {d : ℕ} (hd : 0 < d) (μ : Fin d → Meas) (h : ∀ i, (μ i).Proper) (n : Fin d → ℕ)
    (hn : ∀ i, 0 < n i) :
    ∃ r : TensorRule ℝ, gauss eig (List.ofFn μ) (List.ofFn n) = .ok r ∧
      (∃ pts, r.points.array = .ok pts ∧ pts.length = ∏ i, n i) ∧
      (∃ w, r.weightsOnGrid = .ok w ∧ w.length = ∏ i, n i ∧ ∀ v ∈ w, 0 < v) ∧
      ∀ q : MvPolynomial (Fin d) ℝ, (∀ i, q.degreeOf i ≤ 2 * n i - 1) →
        r.integrate (fun p => MvPolynomial.eval (fun i => p.getD i.1 0) q) = .ok (∫ x, MvPolynomial.eval x q ∂(lawPi μ)) := by
  choose R hR hp _ hw hpos hex using fun i => gauss_spec heig (μ i) (h i) (n i) (hn i)
  have hrules : (List.zip (List.ofFn μ) (List.ofFn n)).mapM (fun p => p.1.gauss eig p.2) = .ok (List.ofFn R) := by
    have hz : List.zip (List.ofFn μ) (List.ofFn n) = List.ofFn (fun i => (μ i, n i)) := by
      apply List.ext_getElem (by simp)
      intro i h1 h2
      simp
    rw [hz]
    clear hz
    have gen : ∀ (k : ℕ) (f : Fin k → Meas × ℕ) (g : Fin k → Rule ℝ ℝ), (∀ i, (f i).1.gauss eig (f i).2 = .ok (g i)) →
        (List.ofFn f).mapM (fun p => p.1.gauss eig p.2) = .ok (List.ofFn g) := by
      intro k
      induction k with
      | zero => intro f g _; simp; rfl
      | succ k ih =>
        intro f g hfg
        rw [List.ofFn_succ, List.mapM_cons, hfg 0, ih _ (fun i => g i.succ) (fun i => hfg i.succ), List.ofFn_succ]
        rfl
    exact gen d _ R hR
  have hnum : pointNumbers (List.ofFn μ).length (List.ofFn n) = .ok (List.ofFn n) := by
    unfold pointNumbers
    by_cases h1 : d = 1
    · subst h1
      simp
    · rw [if_neg (by simpa using h1), if_neg (by simp)]
  set x : List (List ℝ) := (List.ofFn R).map Rule.points with hx
  set w : List (List ℝ) := (List.ofFn R).map Rule.weights with hwd
  have hxl : x.length = d := by simp [hx]
  have hwl : w.length = d := by simp [hwd]
  have hlen : w.map List.length = x.map List.length := by
    rw [hx, hwd, List.map_map, List.map_map, List.map_ofFn, List.map_ofFn]
    congr 1
    funext i
    simp [hp, hw]
  have hlen' : x.map List.length = List.ofFn n := by
    rw [hx, List.map_map, List.map_ofFn]
    congr 1
    funext i
    simp [hp]
  have hx0 : x ≠ [] := by
    intro e
    rw [e] at hxl
    simp at hxl
    omega
  have hw0 : w ≠ [] := by
    intro e
    rw [e] at hwl
    simp at hwl
    omega
  have hx1 : ∀ c ∈ x, c ≠ [] := by
    intro c hc e
    rw [hx, List.map_ofFn, List.mem_ofFn] at hc
    obtain ⟨i, hi⟩ := hc
    have := hp i
    simp only [Function.comp_apply] at hi
    rw [hi, e] at this
    have := hn i
    simp at *
    omega
  have hsh : (ofColumns x).grids.map List.length = x.map List.length := by
    unfold ofColumns
    simp [List.map_map, Function.comp_def]
  have hG0 : (ofColumns x).grids ≠ [] := by
    unfold ofColumns
    simpa using hx0
  have hG1 : ∀ g ∈ (ofColumns x).grids, g ≠ [] := by
    intro g hg
    unfold ofColumns at hg
    simp only [List.mem_map] at hg
    obtain ⟨c, hc, rfl⟩ := hg
    simpa using hx1 c hc
  refine ⟨⟨ofColumns x, w⟩, ?_, ⟨_, array_eq _ hG0 hG1, ?_⟩, ⟨_, weightsOnGrid_eq ⟨ofColumns x, w⟩ hw0, ?_, ?_⟩, ?_⟩
  · unfold gauss
    rw [hnum]
    simp only [bind, Except.bind]
    rw [hrules]
    dsimp only
    rw [← hx, ← hwd]
    unfold TensorRule.mk'
    rw [if_neg (by simp [FullGrid.dim, ofColumns, hwl, hxl])]
  · rw [List.length_map, List.length_range, FullGrid.shape, hsh, hlen', List.prod_ofFn]
  · rw [List.length_map, List.length_range, hlen, hlen', List.prod_ofFn]
  · intro v hv
    rw [List.mem_map] at hv
    obtain ⟨k, hk, rfl⟩ := hv
    rw [List.mem_range] at hk
    have hb := unravelF_inBox hk
    generalize unravelF (w.map List.length) k = idx at hb
    have hwpos : ∀ c ∈ w, ∀ v ∈ c, 0 < v := by
      intro c hc v hv
      rw [hwd, List.map_ofFn, List.mem_ofFn] at hc
      obtain ⟨i, rfl⟩ := hc
      exact hpos i v hv
    clear_value w
    clear hk hwd hwl hlen hw0
    induction w generalizing idx with
    | nil => simp
    | cons c w ih =>
      cases idx with
      | nil => simp
      | cons j idx =>
        simp only [List.map_cons, inBox_cons_cons] at hb
        rw [List.zipWith_cons_cons, List.prod_cons]
        refine mul_pos ?_ (ih idx hb.2 (fun c hc => hwpos c (List.mem_cons_of_mem _ hc)))
        rw [List.getD_eq_getElem _ _ hb.1]
        exact hwpos c List.mem_cons_self _ (List.getElem_mem _)
  · intro q hq
    have hint := tensor_integrate_spec (⟨ofColumns x, w⟩ : TensorRule ℝ) hG0 hG1 (by rw [hsh]; exact hlen)
    rw [hint]
    congr 1
    have hmono : ∀ s ∈ q.support, sumBox (ofColumns x).shape (fun idx =>
        (∏ i : Fin d, (gridPoint (ofColumns x).grids idx).getD i.1 0 ^ s i) *
          (List.zipWith (fun (w : List ℝ) j => w.getD j 0) w idx).prod) = ∫ y, ∏ i : Fin d, y i ^ s i ∂(lawPi μ) := by
      intro s hs
      obtain ⟨r, hr1, hr2⟩ := integrate_product x w hx0 hx1 hlen (List.ofFn (fun (i : Fin d) (t : ℝ) => t ^ s i))
        (by simp [hxl]) (fun p => ∏ i : Fin d, p.getD i.1 0 ^ s i) (by
          intro p hp
          rw [List.length_ofFn] at hp
          have : List.zipWith (fun (φ : ℝ → ℝ) t => φ t) (List.ofFn (fun (i : Fin d) (t : ℝ) => t ^ s i)) p
              = List.ofFn (fun i : Fin d => p.getD i.1 0 ^ s i) := by
            apply List.ext_getElem (by simp [hp])
            intro i h1 h2
            simp at h1 h2
            simp [hp, h2]
          rw [this, List.prod_ofFn])
      have : r = ⟨ofColumns x, w⟩ := by
        unfold TensorRule.mk' at hr1
        rw [if_neg (by simp [FullGrid.dim, ofColumns, hwl, hxl])] at hr1
        exact (Except.ok.inj hr1).symm
      rw [this, hint] at hr2
      rw [Except.ok.inj hr2]
      rw [lawPi, integral_fintype_prod_eq_prod (fun (i : Fin d) (t : ℝ) => t ^ s i)]
      rw [hxl, show (List.range d) = List.ofFn (fun i : Fin d => i.1) by
        apply List.ext_getElem (by simp)
        intro i h1 h2; simp, List.map_ofFn, List.prod_ofFn]
      refine Finset.prod_congr rfl (fun i _ => ?_)
      have he := hex i (Polynomial.X ^ s i) (by
        rw [Polynomial.natDegree_X_pow]
        exact (MvPolynomial.monomial_le_degreeOf i hs).trans (hq i))
      simp only [Polynomial.eval_pow, Polynomial.eval_X] at he
      rw [integrate_eq _ (by rw [hp, hw])] at he
      rw [← E_law _ (h i), ← Except.ok.inj he]
      simp only [Function.comp_apply, lineSum]
      have g1 : x.getD i.1 [] = (R i).points := by
        rw [hx, List.getD_eq_getElem _ _ (by simp)]
        simp
      have g2 : w.getD i.1 [] = (R i).weights := by
        rw [hwd, List.getD_eq_getElem _ _ (by simp)]
        simp
      rw [g1, g2, List.getD_eq_getElem _ _ (by simp)]
      simp
    have hL : ∀ (S : Finset (Fin d →₀ ℕ)) (c : (Fin d →₀ ℕ) → ℝ) (f : (Fin d →₀ ℕ) → List ℕ → ℝ) (v : List ℕ → ℝ) (sh : List ℕ),
        sumBox sh (fun idx => (∑ s ∈ S, c s * f s idx) * v idx) = ∑ s ∈ S, c s * sumBox sh (fun idx => f s idx * v idx) := by
      intro S c f v sh
      classical
      induction S using Finset.induction_on with
      | empty => simp [sumBox_zero]
      | insert a S ha ih =>
        rw [Finset.sum_insert ha, ← ih, ← sumBox_mul_left, ← sumBox_add]
        congr 1
        funext idx
        rw [Finset.sum_insert ha]
        ring
    simp only [MvPolynomial.eval_eq']
    rw [hL, integral_finset_sum]
    · refine Finset.sum_congr rfl (fun s hs => ?_)
      rw [hmono s hs, integral_const_mul]
    · intro s _
      refine Integrable.const_mul ?_ _
      exact Integrable.fintype_prod (f := fun (i : Fin d) (t : ℝ) => t ^ s i) (fun i => integrable_pow _ (h i) _)

/-- The hypotheses are met: three points on `[0, 2]` and two for a normal law. -/
example : ∃ (eig : Eig) (r : TensorRule ℝ), gauss eig [.uniform 0 2, .normal 1 3] [3, 2] = .ok r ∧
    r.integrate (fun p => MvPolynomial.eval (fun i : Fin 2 => p.getD i.1 0) (MvPolynomial.X 0 ^ 5 * MvPolynomial.X 1 ^ 3)) =
      .ok (∫ x, MvPolynomial.eval x (MvPolynomial.X 0 ^ 5 * MvPolynomial.X 1 ^ 3) ∂(lawPi ![.uniform 0 2, .normal 1 3])) := by
  obtain ⟨eig, heig⟩ := exists_eig
  obtain ⟨r, h1, _, _, h2⟩ := gauss_exact heig (d := 2) (by norm_num) ![.uniform 0 2, .normal 1 3]
    (by intro i; fin_cases i <;> simp [Meas.Proper]) ![3, 2] (by intro i; fin_cases i <;> simp)
  refine ⟨eig, r, by simpa using h1, h2 _ (fun i => ?_)⟩
  refine (MvPolynomial.degreeOf_mul_le _ _ _).trans ?_
  refine (Nat.add_le_add (MvPolynomial.degreeOf_pow_le _ _ _) (MvPolynomial.degreeOf_pow_le _ _ _)).trans ?_
  rw [MvPolynomial.degreeOf_X, MvPolynomial.degreeOf_X]
  fin_cases i <;> simp

/-- One number of points is used in all directions; a wrong number of numbers is refused. -/
theorem gauss_sizes (eig : Eig) (ms : List Meas) (n : List ℕ) (m : ℕ) :
    gauss eig ms [m] = gauss eig ms (List.replicate ms.length m) ∧
      (n.length ≠ ms.length → n.length ≠ 1 → gauss eig ms n = .error .valueError) := by
  constructor
  · unfold gauss
    have : pointNumbers ms.length [m] = pointNumbers ms.length (List.replicate ms.length m) := by
      unfold pointNumbers
      rw [if_pos (by simp)]
      by_cases h1 : ms.length = 1
      · rw [h1]; rfl
      · rw [if_neg (by simpa using h1), if_neg (by simp)]; rfl
    rw [this]
  · intro h1 h2
    unfold gauss pointNumbers
    rw [if_neg h2, if_pos h1]
    rfl

end

end Verif.ProductMeasure
