import Verif.Model.TruncatedSupport
import Verif.Props.Distributions

/-!
# Truncated supports
-/

namespace Verif.TruncatedSupport

open Verif.Distributions MeasureTheory

noncomputable section

/-- For `0 < p < 1` the truncated support of a uniform or normal random variable is a bounded interval inside the support, with
probability at least `p`; for a uniform variable it is the support, and for a normal one its probability is `p` and both tails have the
same probability. -/
theorem truncatedSupport_spec {ndtri : ℝ → ℝ} (hn : NdtriOk ndtri) (X : RVar) (h : X.Proper) (p : ℝ) (h0 : 0 < p) (h1 : p < 1) :
    ∃ a b : ℝ, RVar.truncatedSupport ndtri X p = .ok (some (a : EReal), some (b : EReal)) ∧ a < b ∧
      X.support.1 ≤ (a : EReal) ∧ (b : EReal) ≤ X.support.2 ∧ p ≤ X.law.real (Set.Icc a b) ∧
      X.law.real (Set.Iio a) = X.law.real (Set.Ioi b) ∧
      (∀ m s, X = .normal m s → X.law.real (Set.Icc a b) = p) := by
  haveI := isProba X h
  cases X with
  | uniform c d =>
    have hcd : c < d := h
    refine ⟨c, d, ?_, hcd, le_rfl, le_rfl, ?_, ?_, ?_⟩
    · simp [RVar.truncatedSupport, truncatedSupport, RVar.support, bind, Except.bind]
    · have : (RVar.uniform c d).law.real (Set.Icc c d) = 1 := by
        have hb : 0 < d - c := by linarith
        simp only [RVar.law, measureReal_def, Measure.smul_apply, Measure.restrict_apply measurableSet_Icc, Set.inter_self,
          Real.volume_Icc, smul_eq_mul, ENNReal.toReal_mul]
        rw [ENNReal.toReal_ofReal (by positivity), ENNReal.toReal_ofReal hb.le, one_div_mul_cancel hb.ne']
      linarith
    · have e1 : Set.Iio c ∩ Set.Icc c d = ∅ := by ext x; simp; intro h1 h2; linarith
      have e2 : Set.Ioi d ∩ Set.Icc c d = ∅ := by ext x; simp; intro h1 h2; linarith
      simp [RVar.law, measureReal_def, Measure.restrict_apply measurableSet_Iio, Measure.restrict_apply measurableSet_Ioi, e1, e2]
    · intro m s hX; cases hX
  | normal m s =>
    obtain ⟨t, ht, _, _, _, h5⟩ := icdf_spec hn (.normal m s) h ((1 - p) / 2) (by linarith) (by linarith)
    obtain ⟨a, rfl, ha⟩ := h5 (by linarith)
    obtain ⟨t, ht', _, _, _, h5⟩ := icdf_spec hn (.normal m s) h (1 - (1 - p) / 2) (by linarith) (by linarith)
    obtain ⟨b, rfl, hb⟩ := h5 (by linarith)
    have hs : 0 < s := h
    have hna : ∀ z : ℝ, (RVar.normal m s).law {z} = 0 := by
      intro z
      have hv : (s ^ 2).toNNReal ≠ 0 := var_ne_zero hs
      exact ProbabilityTheory.gaussianReal_absolutelyContinuous m hv Real.volume_singleton
    rw [cdf_spec _ h] at ha hb
    have hab : a < b := by
      by_contra hcon
      have := measureReal_mono (μ := (RVar.normal m s).law) (Set.Iic_subset_Iic.2 (not_lt.1 hcon))
      rw [ha, hb] at this
      linarith
    have hio : (RVar.normal m s).law.real (Set.Iio a) = (1 - p) / 2 := by
      rw [← ha, ← Set.Iio_union_right, measureReal_union (by simp) (measurableSet_singleton a)]
      simp [measureReal_def, hna]
    have hoi : (RVar.normal m s).law.real (Set.Ioi b) = (1 - p) / 2 := by
      rw [← Set.compl_Iic, probReal_compl_eq_one_sub measurableSet_Iic, hb]
      ring
    have hic : (RVar.normal m s).law.real (Set.Icc a b) = p := by
      have e : Set.Iic b = Set.Iio a ∪ Set.Icc a b := by
        ext x
        simp only [Set.mem_Iic, Set.mem_union, Set.mem_Iio, Set.mem_Icc]
        constructor
        · intro hx
          rcases lt_or_ge x a with h | h
          · exact Or.inl h
          · exact Or.inr ⟨h, hx⟩
        · rintro (h | h)
          · linarith
          · exact h.2
      have hd : Disjoint (Set.Iio a) (Set.Icc a b) := Set.disjoint_left.2 (fun x h1 h2 => not_le.2 h1 h2.1)
      rw [e, measureReal_union hd measurableSet_Icc, hio] at hb
      linarith
    refine ⟨a, b, ?_, hab, bot_le, le_top, hic.ge, hio.trans hoi.symm, fun _ _ _ => hic⟩
    simp [RVar.truncatedSupport, truncatedSupport, RVar.support, bind, Except.bind, ht, ht']

/-- Whatever the root search and the depth of the stack, `icdf`, `random` and `truncated_support` of an empirical random variable
never return: the calls of `icdf` and `truncated_support` are nested until the interpreter stops them. -/
theorem empIcdf_refused (brentq : List ℝ → ℝ → Option EReal → Option EReal → Py (Option EReal)) (xs : List ℝ) (depth : ℕ) (q : ℝ) :
    empIcdf brentq xs depth q = .error .nonTermination := by
  induction depth generalizing q with
  | zero => rfl
  | succ k ih =>
    rw [empIcdf, truncatedSupport, if_pos rfl, ih]
    rfl

theorem empRandom_refused (brentq : List ℝ → ℝ → Option EReal → Option EReal → Py (Option EReal)) (xs : List ℝ) (depth : ℕ)
    (u : ℝ) (us : List ℝ) (p : ℝ) :
    empRandom brentq xs depth (u :: us) = .error .nonTermination ∧ empTruncatedSupport brentq xs depth p = .error .nonTermination := by
  constructor
  · rw [empRandom, List.mapM_cons, empIcdf_refused]
    rfl
  · rw [empTruncatedSupport, truncatedSupport, if_pos rfl, empIcdf_refused]
    rfl

end

end Verif.TruncatedSupport
