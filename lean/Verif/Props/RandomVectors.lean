import Verif.Props.Distributions

/-! # Random vectors with independent components -/

namespace Verif.Distributions

open MeasureTheory ProbabilityTheory

theorem mapM_entry (g : RVar → ℝ → ℝ) (x : List ℝ) : ∀ (Xs : List RVar) (k : ℕ), k + Xs.length ≤ x.length →
    (Xs.zipIdx k).mapM (fun Xi => do .ok (g Xi.1 (← entry x Xi.2))) =
      (.ok (List.zipWith g Xs (x.drop k)) : Py (List ℝ))
  | [], k, _ => by simp [List.mapM_nil]; rfl
  | X :: Xs, k, h => by
    simp only [List.length_cons] at h
    have hk : k < x.length := by omega
    have ih := mapM_entry g x Xs (k + 1) (by omega)
    rw [List.zipIdx_cons, List.mapM_cons, ih, List.drop_eq_getElem_cons hk]
    simp only [entry, List.getElem?_eq_getElem hk, bind, Except.bind, List.zipWith_cons_cons]
    rfl

theorem marginals_ok (g : RVar → ℝ → ℝ) (Xs : List RVar) (x : List ℝ) (h : Xs.length ≤ x.length) :
    marginals g Xs x = .ok (List.zipWith g Xs x ++ List.replicate (x.length - Xs.length) 0) := by
  rw [marginals, mapM_entry g x Xs 0 (by omega)]
  simp only [bind, Except.bind, List.drop_zero]

theorem zipWith_ofFn {d : ℕ} (g : RVar → ℝ → ℝ) (X : Fin d → RVar) (x : Fin d → ℝ) :
    List.zipWith g (List.ofFn X) (List.ofFn x) = List.ofFn (fun i => g (X i) (x i)) := by
  apply List.ext_getElem
  · simp
  · intro i h1 h2
    simp

theorem marginals_fin {d : ℕ} (g : RVar → ℝ → ℝ) (X : Fin d → RVar) (x : Fin d → ℝ) :
    marginals g (List.ofFn X) (List.ofFn x) = .ok (List.ofFn (fun i => g (X i) (x i))) := by
  rw [marginals_ok _ _ _ (by simp), zipWith_ofFn]
  simp

theorem lawPi_density {d : ℕ} (X : Fin d → RVar) (h : ∀ i, (X i).Proper) :
    lawPi X = volume.withDensity (fun x => ENNReal.ofReal (∏ i, (X i).pdf (x i))) := by
  haveI : ∀ i, IsProbabilityMeasure (X i).law := fun i => isProba _ (h i)
  rw [lawPi]
  symm
  refine (Measure.pi_eq (fun s hs => ?_)).symm
  have hint : ∀ i, Integrable ((s i).indicator (X i).pdf) := by
    intro i
    have hi : Integrable (X i).pdf := by
      refine ⟨(measurable_pdf _ (h i)).aestronglyMeasurable, ?_⟩
      rw [hasFiniteIntegral_iff_ofReal (Filter.Eventually.of_forall (pdf_spec _ (h i)).1)]
      have : (X i).law Set.univ = 1 := measure_univ
      rw [(pdf_spec _ (h i)).2, withDensity_apply _ MeasurableSet.univ, Measure.restrict_univ] at this
      rw [this]
      exact ENNReal.one_lt_top
    exact hi.indicator (hs i)
  have hone : ∀ i, (X i).law (s i) = ENNReal.ofReal (∫ x, (s i).indicator (X i).pdf x) := by
    intro i
    rw [ofReal_integral_eq_lintegral_ofReal (hint i)
      (Filter.Eventually.of_forall (fun x => Set.indicator_nonneg (fun y _ => (pdf_spec _ (h i)).1 y) x)), (pdf_spec _ (h i)).2,
      withDensity_apply _ (hs i), ← lintegral_indicator (hs i)]
    refine lintegral_congr (fun x => ?_)
    by_cases hx : x ∈ s i
    · rw [Set.indicator_of_mem hx, Set.indicator_of_mem hx]
    · rw [Set.indicator_of_notMem hx, Set.indicator_of_notMem hx, ENNReal.ofReal_zero]
  have hprod : Integrable (fun x : Fin d → ℝ => ∏ i, (s i).indicator (X i).pdf (x i)) := by
    exact Integrable.fintype_prod (f := fun i => (s i).indicator (X i).pdf) hint
  rw [withDensity_apply _ (MeasurableSet.univ_pi hs), ← lintegral_indicator (MeasurableSet.univ_pi hs)]
  have e : (fun x : Fin d → ℝ => (Set.univ.pi s).indicator (fun x => ENNReal.ofReal (∏ i, (X i).pdf (x i))) x) =
      fun x => ENNReal.ofReal (∏ i, (s i).indicator (X i).pdf (x i)) := by
    funext x
    by_cases hx : x ∈ Set.univ.pi s
    · rw [Set.indicator_of_mem hx]
      congr 1
      refine Finset.prod_congr rfl (fun i _ => ?_)
      rw [Set.indicator_of_mem (hx i (Set.mem_univ i))]
    · rw [Set.indicator_of_notMem hx]
      simp only [Set.mem_pi, Set.mem_univ, true_implies, not_forall] at hx
      obtain ⟨i, hi⟩ := hx
      rw [Finset.prod_eq_zero (Finset.mem_univ i) (Set.indicator_of_notMem hi _), ENNReal.ofReal_zero]
  rw [e, ← ofReal_integral_eq_lintegral_ofReal hprod (Filter.Eventually.of_forall (fun x =>
    Finset.prod_nonneg (fun i _ => Set.indicator_nonneg (fun y _ => (pdf_spec _ (h i)).1 y) _))),
    integral_fintype_prod_volume_eq_prod (fun i => (s i).indicator (X i).pdf),
    ENNReal.ofReal_prod_of_nonneg (fun i _ => integral_nonneg (fun x => Set.indicator_nonneg (fun y _ => (pdf_spec _ (h i)).1 y) x))]
  exact Finset.prod_congr rfl (fun i _ => (hone i).symm)

/-- `RandomVector.pdf` is the density of the law with independent components. -/
theorem vecPdf_spec {d : ℕ} (X : Fin d → RVar) (h : ∀ i, (X i).Proper) :
    ∃ f : (Fin d → ℝ) → ℝ, (∀ x, vecPdf (List.ofFn X) (List.ofFn x) = .ok (f x)) ∧ (∀ x, 0 ≤ f x) ∧
      lawPi X = volume.withDensity (fun x => ENNReal.ofReal (f x)) := by
  refine ⟨fun x => ∏ i, (X i).pdf (x i), fun x => ?_, fun x => Finset.prod_nonneg (fun i _ => (pdf_spec _ (h i)).1 _), lawPi_density X h⟩
  rw [vecPdf, marginals_fin]
  simp only [bind, Except.bind, List.prod_ofFn]

/-- `RandomVector.cdf(x)` is the probability that every component is at most the one of `x`. -/
theorem vecCdf_spec {d : ℕ} (X : Fin d → RVar) (h : ∀ i, (X i).Proper) (x : Fin d → ℝ) :
    vecCdf (List.ofFn X) (List.ofFn x) = .ok ((lawPi X).real {y | ∀ i, y i ≤ x i}) := by
  haveI : ∀ i, IsProbabilityMeasure (X i).law := fun i => isProba _ (h i)
  have e : {y : Fin d → ℝ | ∀ i, y i ≤ x i} = Set.univ.pi (fun i => Set.Iic (x i)) := by
    ext y; simp only [Set.mem_setOf_eq, Set.mem_pi, Set.mem_univ, true_implies, Set.mem_Iic]
  rw [vecCdf, marginals_fin, e, lawPi, measureReal_def, Measure.pi_pi, ENNReal.toReal_prod]
  simp only [bind, Except.bind, List.prod_ofFn]
  congr 1
  exact Finset.prod_congr rfl (fun i _ => cdf_spec _ (h i) _)

/-- A point with a column too many is not refused: the density and the distribution function are then zero; with a column too few
the index error of NumPy is raised. -/
theorem vec_wrong_size (Xs : List RVar) (x : List ℝ) :
    (Xs.length < x.length → vecPdf Xs x = .ok 0 ∧ vecCdf Xs x = .ok 0) ∧
    (x.length < Xs.length → vecPdf Xs x = .error .indexError ∧ vecCdf Xs x = .error .indexError) := by
  constructor
  · intro h
    have hr : List.replicate (x.length - Xs.length) (0 : ℝ) = 0 :: List.replicate (x.length - Xs.length - 1) 0 := by
      rw [← List.replicate_succ]
      congr 1
      omega
    constructor
    · rw [vecPdf, marginals_ok _ _ _ h.le, hr]
      simp [bind, Except.bind]
    · rw [vecCdf, marginals_ok _ _ _ h.le, hr]
      simp [bind, Except.bind]
  · intro h
    have key : ∀ (g : RVar → ℝ → ℝ) (Xs : List RVar) (k : ℕ), k ≤ x.length → x.length < k + Xs.length →
        (Xs.zipIdx k).mapM (fun Xi => do .ok (g Xi.1 (← entry x Xi.2))) = (.error .indexError : Py (List ℝ)) := by
      intro g Xs
      induction Xs with
      | nil => intro k h1 h2; simp at h2; omega
      | cons X Xs ih =>
        intro k h1 h2
        rw [List.zipIdx_cons, List.mapM_cons]
        rcases h1.lt_or_eq with hk | hk
        · rw [ih (k + 1) hk (by simp at h2; omega)]
          simp only [entry, List.getElem?_eq_getElem hk, bind, Except.bind]
        · simp only [entry, hk, List.getElem?_eq_none (le_refl x.length), bind, Except.bind]
    have h2 : ∀ g, marginals g Xs x = .error .indexError := by
      intro g
      rw [marginals, key g Xs 0 (by omega) (by omega)]
      rfl
    exact ⟨by rw [vecPdf, h2]; rfl, by rw [vecCdf, h2]; rfl⟩

theorem mapM_transfer (ndtri : ℝ → ℝ) (x : List ℝ) : ∀ (P : List (RVar × RVar)) (k : ℕ), k + P.length ≤ x.length →
    (P.zipIdx k).mapM (fun p => do .ok (transfer ndtri p.1.1 p.1.2 (← entry x p.2))) =
      (.ok (List.zipWith (fun (p : RVar × RVar) t => transfer ndtri p.1 p.2 t) P (x.drop k)) : Py (List (Option EReal)))
  | [], k, _ => by simp [List.mapM_nil]; rfl
  | X :: P, k, h => by
    simp only [List.length_cons] at h
    have hk : k < x.length := by omega
    have ih := mapM_transfer ndtri x P (k + 1) (by omega)
    rw [List.zipIdx_cons, List.mapM_cons, ih, List.drop_eq_getElem_cons hk]
    simp only [entry, List.getElem?_eq_getElem hk, bind, Except.bind, List.zipWith_cons_cons]
    rfl

/-- `RandomVector.transfer` transports the law with independent components to that of the other vector: the probability that every
component of the transferred point is at most `y i` is that of the target. Vectors of different sizes are refused. -/
theorem vecTransfer_spec {ndtri : ℝ → ℝ} (hn : NdtriOk ndtri) {d : ℕ} (X Y : Fin d → RVar) (hX : ∀ i, (X i).Proper)
    (hY : ∀ i, (Y i).Proper) (y : Fin d → ℝ) :
    (lawPi X).real {x | ∃ t : Fin d → EReal, vecTransfer ndtri (List.ofFn X) (List.ofFn Y) (List.ofFn x) =
        .ok (List.ofFn (fun i => some (t i))) ∧ ∀ i, t i ≤ (y i : EReal)} = (lawPi Y).real {x | ∀ i, x i ≤ y i} := by
  haveI : ∀ i, IsProbabilityMeasure (X i).law := fun i => isProba _ (hX i)
  haveI : ∀ i, IsProbabilityMeasure (Y i).law := fun i => isProba _ (hY i)
  have hv : ∀ x : Fin d → ℝ, vecTransfer ndtri (List.ofFn X) (List.ofFn Y) (List.ofFn x) =
      .ok (List.ofFn (fun i => transfer ndtri (X i) (Y i) (x i))) := by
    intro x
    rw [vecTransfer, if_neg (by simp), mapM_transfer _ _ _ 0 (by simp)]
    congr 1
    apply List.ext_getElem
    · simp
    · intro i h1 h2
      simp
  have e1 : {x : Fin d → ℝ | ∃ t : Fin d → EReal, vecTransfer ndtri (List.ofFn X) (List.ofFn Y) (List.ofFn x) =
        .ok (List.ofFn (fun i => some (t i))) ∧ ∀ i, t i ≤ (y i : EReal)} =
      Set.univ.pi (fun i => {x | ∃ t, transfer ndtri (X i) (Y i) x = some t ∧ t ≤ (y i : EReal)}) := by
    ext x
    simp only [hv, Except.ok.injEq, Set.mem_setOf_eq, Set.mem_pi, Set.mem_univ, true_implies, List.ofFn_injective.eq_iff]
    constructor
    · rintro ⟨t, ht, hle⟩ i
      exact ⟨t i, congrFun ht i, hle i⟩
    · intro h
      choose t ht using h
      exact ⟨t, funext (fun i => (ht i).1), fun i => (ht i).2⟩
  have e2 : {x : Fin d → ℝ | ∀ i, x i ≤ y i} = Set.univ.pi (fun i => Set.Iic (y i)) := by
    ext x; simp only [Set.mem_setOf_eq, Set.mem_pi, Set.mem_univ, true_implies, Set.mem_Iic]
  rw [e1, e2, lawPi, lawPi, measureReal_def, measureReal_def, Measure.pi_pi, Measure.pi_pi, ENNReal.toReal_prod, ENNReal.toReal_prod]
  exact Finset.prod_congr rfl (fun i _ => (transfer_spec hn (X i) (Y i) (hX i) (hY i)).2.2 (y i))

theorem vecTransfer_refused (ndtri : ℝ → ℝ) (Xs Ys : List RVar) (x : List ℝ) (h : Xs.length ≠ Ys.length) :
    vecTransfer ndtri Xs Ys x = .error .assertionError := by
  rw [vecTransfer, if_pos h]

/-- `mean()` and `variance()` of the vector are those of the components of the law. -/
theorem vecMoments_spec {d : ℕ} (X : Fin d → RVar) (h : ∀ i, (X i).Proper) :
    ∃ m v : Fin d → ℝ, vecMean (List.ofFn X) = List.ofFn m ∧ vecVariance (List.ofFn X) = List.ofFn v ∧
      ∀ i, m i = ∫ x, x i ∂(lawPi X) ∧ v i = ∫ x, (x i - m i) ^ 2 ∂(lawPi X) := by
  haveI : ∀ i, IsProbabilityMeasure (X i).law := fun i => isProba _ (h i)
  refine ⟨fun i => (X i).mean, fun i => (X i).variance, ?_, ?_, fun i => ?_⟩
  · simp [vecMean, List.map_ofFn, Function.comp_def]
  · simp [vecVariance, List.map_ofFn, Function.comp_def]
  · have hmp := measurePreserving_eval (fun i => (X i).law) i
    have hm : ∀ f : ℝ → ℝ, Measurable f → ∫ x, f (x i) ∂(lawPi X) = ∫ t, f t ∂(X i).law := by
      intro f hf
      rw [lawPi, ← hmp.map_eq, integral_map hmp.measurable.aemeasurable hf.aestronglyMeasurable]
    obtain ⟨h1, h2, _⟩ := moments_spec (X i) (h i)
    exact ⟨by rw [hm (fun t => t) measurable_id, ← h1], by rw [hm (fun t => (t - (X i).mean) ^ 2) (by fun_prop), ← h2]⟩

/-! ### isoprobabilistic grids -/

/-- The cells of the tensor grid returned by `iso_probabilistic_grid(n)` have the same probability, the inverse of the number of
cells. One number of cells for each component, or a single one for all. -/
theorem vecIsoGrid_spec {ndtri : ℝ → ℝ} (hn : NdtriOk ndtri) {d : ℕ} (X : Fin d → RVar) (h : ∀ i, (X i).Proper) (n : Fin d → ℕ)
    (h0 : ∀ i, 0 < n i) :
    ∃ g : Fin d → List EReal, vecIsoGrid ndtri (List.ofFn X) (List.ofFn n) = .ok (List.ofFn (fun i => some (g i))) ∧
      (∀ i, (g i).length = n i + 1) ∧
      ∀ k : Fin d → ℕ, (∀ i, k i < n i) →
        (lawPi X).real {x | ∀ i, (g i).getD (k i) ⊥ < (x i : EReal) ∧ (x i : EReal) ≤ (g i).getD (k i + 1) ⊥} = 1 / ∏ i, (n i : ℝ) := by
  haveI : ∀ i, IsProbabilityMeasure (X i).law := fun i => isProba _ (h i)
  choose g hg hl _ _ _ hc using fun i => isoGrid_spec hn (X i) (h i) (n i) (h0 i)
  refine ⟨g, ?_, hl, ?_⟩
  · have hcell : cells (List.ofFn X).length (List.ofFn n) = .ok (List.ofFn n) := by
      unfold cells; rw [if_pos (by simp)]
    rw [vecIsoGrid, hcell]
    simp only [bind, Except.bind]
    congr 1
    apply List.ext_getElem
    · simp
    · intro i h1 h2
      simp [hg]
  · intro k hk
    have e : {x : Fin d → ℝ | ∀ i, (g i).getD (k i) ⊥ < (x i : EReal) ∧ (x i : EReal) ≤ (g i).getD (k i + 1) ⊥} =
        Set.univ.pi (fun i => {x : ℝ | (g i).getD (k i) ⊥ < (x : EReal) ∧ (x : EReal) ≤ (g i).getD (k i + 1) ⊥}) := by
      ext x; simp [Set.mem_pi]
    rw [e, lawPi, measureReal_def, Measure.pi_pi, ENNReal.toReal_prod, one_div, ← Finset.prod_inv_distrib]
    refine Finset.prod_congr rfl (fun i _ => ?_)
    have := hc i (k i) (by rw [hl]; have := hk i; omega)
    rw [List.getD_eq_getElem (g i) _ (by rw [hl]; have := hk i; omega), List.getD_eq_getElem (g i) _ (by rw [hl]; have := hk i; omega)]
    rw [← measureReal_def, this, one_div]

theorem vecIsoGrid_one (ndtri : ℝ → ℝ) (Xs : List RVar) (m : ℕ) :
    vecIsoGrid ndtri Xs [m] = vecIsoGrid ndtri Xs (List.replicate Xs.length m) := by
  by_cases h : 1 = Xs.length
  · rw [← h]; rfl
  · simp [vecIsoGrid, cells, h]

/-- For a probability `0 < p < 1` the cells have probability at most `p`. -/
theorem vecIsoGridFrac_spec (ndtri : ℝ → ℝ) (Xs : List RVar) (hd : Xs ≠ []) (p : ℝ) (h0 : 0 < p) :
    ∃ m : ℕ, 0 < m ∧ 1 / (m : ℝ) ^ Xs.length ≤ p ∧
      vecIsoGridFrac ndtri Xs p = vecIsoGrid ndtri Xs (List.replicate Xs.length m) := by
  have hd' : 0 < Xs.length := List.length_pos_iff.2 hd
  have hdr : (0 : ℝ) < Xs.length := by exact_mod_cast hd'
  have hq : 0 < p ^ (-1 / (Xs.length : ℝ)) := Real.rpow_pos_of_pos h0 _
  have hm : 0 < cellsOfFrac Xs.length p := Nat.ceil_pos.2 hq
  refine ⟨cellsOfFrac Xs.length p, hm, ?_, ?_⟩
  · have h1 : p ^ (-1 / (Xs.length : ℝ)) ≤ (cellsOfFrac Xs.length p : ℝ) := Nat.le_ceil _
    have h2 : (p ^ (-1 / (Xs.length : ℝ))) ^ Xs.length = p⁻¹ := by
      rw [← Real.rpow_natCast, ← Real.rpow_mul h0.le, div_mul_cancel₀ _ hdr.ne', Real.rpow_neg_one]
    have h3 : p⁻¹ ≤ (cellsOfFrac Xs.length p : ℝ) ^ Xs.length := by
      rw [← h2]; exact pow_le_pow_left₀ hq.le h1 _
    rw [one_div]
    exact inv_le_of_inv_le₀ h0 h3
  · rw [vecIsoGridFrac, vecIsoGrid_one]

theorem cells_refused (ndtri : ℝ → ℝ) (Xs : List RVar) (n : List ℕ) (h1 : n.length ≠ Xs.length) (h2 : n.length ≠ 1) :
    vecIsoGrid ndtri Xs n = .error .valueError := by
  have hcell : cells Xs.length n = .error .valueError := by
    unfold cells
    rw [if_neg h1]
    match n, h2 with
    | [], _ => rfl
    | [m], h2 => exact absurd rfl h2
    | a :: b :: l, _ => rfl
  rw [vecIsoGrid, hcell]
  rfl

/-! ### concrete cases -/

example : (RVar.uniform (-1) 3).Proper := by norm_num [RVar.Proper]
example : (RVar.normal 2 5).Proper := by norm_num [RVar.Proper]
example : (RVar.uniform (-1) 3).cdf 0 = 1 / 4 := by norm_num [RVar.cdf, uniformCdf]
example : (RVar.uniform (-1) 3).variance = 4 / 3 := by norm_num [RVar.variance, RVar.statistics]

end Verif.Distributions
