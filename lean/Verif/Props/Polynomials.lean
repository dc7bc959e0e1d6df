import Verif.Lemmas.PolyFamilies
import Mathlib.Analysis.Matrix.Spectrum

/-!
# Orthonormal polynomials and Gauss rules of the random variables and of the Lebesgue measure
-/

namespace Verif.Polynomials

open Polynomial Verif.Grids

noncomputable section

/-! ## The data of a measure -/

/-- The change of variable of the polynomials of a measure. -/
def Meas.m (μ : Meas) : ℝ := (μ.orthonormalPolynomials.shifted.getD (0, 1)).1

/-- The scaling. -/
def Meas.s (μ : Meas) : ℝ := (μ.orthonormalPolynomials.shifted.getD (0, 1)).2

theorem Meas.ms (μ : Meas) (h : μ.Proper) :
    (μ.m, μ.s) = match μ with
      | .uniform a b => ((a + b) / 2, (b - a) / 2)
      | .normal mu sigma => (mu, sigma)
      | .lebesgue a b => ((a + b) / 2, (b - a) / 2) := by
  cases μ with
  | uniform a b =>
    simp only [Meas.m, Meas.s, Meas.orthonormalPolynomials]
    split
    · next h => rw [h.1, h.2]; simp
    · rfl
  | normal a b =>
    simp only [Meas.m, Meas.s, Meas.orthonormalPolynomials]
    split
    · next h => rw [h.1, h.2]; simp
    · rfl
  | lebesgue a b =>
    simp only [Meas.m, Meas.s, Meas.orthonormalPolynomials]
    split
    · next h => rw [h.1, h.2]; simp
    · rfl

theorem Meas.s_pos (μ : Meas) (h : μ.Proper) : 0 < μ.s := by
  have e := congrArg Prod.snd (μ.ms h)
  cases μ with
  | uniform a b => simp only [Meas.Proper] at h; simp only at e; rw [e]; linarith
  | normal a b => simp only [Meas.Proper] at h; simp only at e; rw [e]; exact h
  | lebesgue a b => simp only [Meas.Proper] at h; simp only at e; rw [e]; linarith

/-- The family of a measure. -/
def Meas.fam (μ : Meas) : Family := μ.orthonormalPolynomials.family

theorem Meas.E_eq (μ : Meas) (h : μ.Proper) (q : ℝ[X]) :
    μ.E (fun x => q.eval x) = μ.mass * μ.fam.L (q.comp (C μ.m + C μ.s * X)) := by
  have e := μ.ms h
  cases μ with
  | uniform a b =>
    simp only [Meas.Proper] at h
    simp only [Prod.mk.injEq] at e
    rw [E_uniform h, e.1, e.2]
    show _ = 1 * LU _
    rw [one_mul, LU_apply]
    simp
  | normal a b =>
    simp only [Meas.Proper] at h
    simp only [Prod.mk.injEq] at e
    rw [E_normal h, e.1, e.2]
    show _ = 1 * LN _
    rw [one_mul, LN_gaussian]
    simp
  | lebesgue a b =>
    simp only [Meas.Proper] at h
    simp only [Prod.mk.injEq] at e
    rw [E_lebesgue h, E_uniform h, e.1, e.2]
    show _ = (b - a) * LU _
    rw [LU_apply]
    simp

theorem Meas.polyval_eq (μ : Meas) (ind : List ℕ) (x : ℝ) :
    μ.orthonormalPolynomials.polyval ind x = μ.fam.poly.polyval ind ((x - μ.m) / μ.s) := by
  unfold Shifted.polyval Meas.m Meas.s Meas.fam
  split
  · next h => rw [h]; simp
  · next h => rw [h]; simp

/-- The polynomials of a measure. -/
def polys (μ : Meas) (i : ℕ) : ℝ[X] :=
  C (1 / Real.sqrt μ.fam.poly.mass) * (pp (fun _ => 0) μ.fam.b i).comp (C (1 / μ.s) * (X - C μ.m))

theorem polys_evaluates (μ : Meas) : Evaluates μ (polys μ) := by
  intro ind hi x
  rw [μ.polyval_eq, Polynomials.polyval_eq (family_rec _) ind hi (fun _ _ => trivial)]
  congr 1
  refine List.map_congr_left (fun i _ => ?_)
  unfold polys
  simp only [eval_mul, eval_C, eval_comp, eval_sub, eval_X]
  rw [show 1 / μ.s * (x - μ.m) = (x - μ.m) / μ.s by ring]
  ring

theorem evaluates_eq {μ : Meas} {q : ℕ → ℝ[X]} (h : Evaluates μ q) : q = polys μ := by
  funext i
  apply Polynomial.funext
  intro x
  have h1 := h [i] (by simp) x
  rw [polys_evaluates μ [i] (by simp) x] at h1
  simpa using h1.symm

theorem fam_mass_pos (F : Family) : 0 < F.poly.mass := by
  cases F
  · exact one_pos
  · exact one_pos
  · show (0 : ℝ) < 1 - (-1); norm_num

theorem aff_comp {m s : ℝ} (hs : s ≠ 0) : (C (1 / s) * (X - C m)).comp (C m + C s * X) = (X : ℝ[X]) := by
  simp only [mul_comp, C_comp, sub_comp, X_comp]
  rw [add_sub_cancel_left, ← mul_assoc, ← C_mul, one_div_mul_cancel hs, C_1, one_mul]

theorem polys_comp (μ : Meas) (h : μ.Proper) (i : ℕ) :
    (polys μ i).comp (C μ.m + C μ.s * X) = C (1 / Real.sqrt μ.fam.poly.mass) * pp (fun _ => 0) μ.fam.b i := by
  unfold polys
  rw [mul_comp, C_comp, comp_assoc, aff_comp (μ.s_pos h).ne', comp_X]

theorem natDegree_aff {m s : ℝ} (hs : s ≠ 0) : (C m + C s * X : ℝ[X]).natDegree = 1 := by
  rw [add_comm]; exact natDegree_linear hs

/-! ## Polynomials -/

/-- **C83.** For every measure, `polyval` evaluates polynomials, the one of index `i` of degree `i`. -/
theorem polyval_polynomials (μ : Meas) (h : μ.Proper) :
    ∃ q : ℕ → ℝ[X], Evaluates μ q ∧ ∀ i, (q i).natDegree = i := by
  refine ⟨polys μ, polys_evaluates μ, fun i => ?_⟩
  unfold polys
  rw [natDegree_C_mul (one_div_ne_zero (Real.sqrt_pos.2 (fam_mass_pos _)).ne'), natDegree_comp,
    (pp_natDegree i (fun j hj _ => family_b_pos _ j hj)).1]
  have hs : 1 / μ.s ≠ 0 := one_div_ne_zero (μ.s_pos h).ne'
  rw [natDegree_C_mul hs, natDegree_X_sub_C, mul_one]

theorem E_polys (μ : Meas) (h : μ.Proper) (i j : ℕ) :
    μ.E (fun x => (polys μ i).eval x * (polys μ j).eval x) = if i = j then μ.mass / μ.fam.poly.mass else 0 := by
  have e := μ.E_eq h (polys μ i * polys μ j)
  simp only [eval_mul] at e
  rw [e, mul_comp, polys_comp μ h, polys_comp μ h]
  have e1 : ∀ (c : ℝ) (p p' : ℝ[X]), C c * p * (C c * p') = (c * c) • (p * p') := by
    intro c p p'; rw [smul_eq_C_mul, C_mul]; ring
  rw [e1, map_smul, family_orthonormal]
  have hm := fam_mass_pos μ.fam
  split
  · rw [smul_eq_mul, mul_one, div_mul_div_comm, one_mul, Real.mul_self_sqrt hm.le]; ring
  · simp

theorem fam_mass_proba {μ : Meas} (h : μ.IsProba) : μ.fam.poly.mass = 1 ∧ μ.mass = 1 := by
  cases μ with
  | uniform a b => exact ⟨rfl, rfl⟩
  | normal a b => exact ⟨rfl, rfl⟩
  | lebesgue a b => exact h.elim

/-- **C84.** The polynomials of a uniform or normal random variable are orthonormal. -/
theorem polyval_orthonormal (μ : Meas) (h : μ.Proper) (hp : μ.IsProba) (q : ℕ → ℝ[X]) (hq : Evaluates μ q) (i j : ℕ) :
    μ.E (fun x => (q i).eval x * (q j).eval x) = if i = j then 1 else 0 := by
  rw [evaluates_eq hq, E_polys μ h, (fam_mass_proba hp).1, (fam_mass_proba hp).2, div_one]

/-- The polynomials of the Lebesgue measure on `[a, b]` are orthogonal, of squared norm `(b - a) / 2`. -/
theorem lebesgue_orthogonal (a b : ℝ) (h : a < b) (q : ℕ → ℝ[X]) (hq : Evaluates (.lebesgue a b) q) (i j : ℕ) :
    (Meas.lebesgue a b).E (fun x => (q i).eval x * (q j).eval x) = if i = j then (b - a) / 2 else 0 := by
  rw [evaluates_eq hq, E_polys (.lebesgue a b) h]
  have : (Meas.lebesgue a b).mass / (Meas.lebesgue a b).fam.poly.mass = (b - a) / 2 := by
    show (b - a) / (1 - (-1)) = _
    norm_num
  rw [this]

/-- So that they are orthonormal on the intervals of length 2, such as the reference interval, and only there: the library
declares them orthonormal on every interval. -/
theorem lebesgue_orthonormal_iff (a b : ℝ) (h : a < b) (q : ℕ → ℝ[X]) (hq : Evaluates (.lebesgue a b) q) :
    (∀ i j, (Meas.lebesgue a b).E (fun x => (q i).eval x * (q j).eval x) = if i = j then 1 else 0) ↔ b - a = 2 := by
  simp only [lebesgue_orthogonal a b h q hq]
  constructor
  · intro h'
    have := h' 0 0
    simp only [if_true] at this
    linarith
  · intro h' i j
    rw [h']
    norm_num

/-! ## Derivatives -/

theorem iteratedDeriv_eval (q : ℝ[X]) (n : ℕ) (x : ℝ) : iteratedDeriv n (fun y => q.eval y) x = (derivative^[n] q).eval x := by
  induction n generalizing q with
  | zero => simp
  | succ n ih =>
    rw [iteratedDeriv_succ']
    have : deriv (fun y => q.eval y) = fun y => (derivative q).eval y := by
      funext y; exact q.deriv
    rw [this, ih, Function.iterate_succ_apply]

/-- **C85.** For a uniform or normal random variable, `dn_polyval(n, ind, x)` is the derivative of order `n` of the
polynomials. -/
theorem dnPolyval_derivative (μ : Meas) (hp : μ.IsProba) (q : ℕ → ℝ[X]) (hq : Evaluates μ q)
    (n : ℕ) (ind : List ℕ) (hi : ind ≠ []) (x : ℝ) :
    μ.orthonormalPolynomials.dnPolyval n ind x = .ok (ind.map (fun i => iteratedDeriv n (fun y => (q i).eval y) x)) := by
  rw [evaluates_eq hq]
  have hm := (fam_mass_proba hp).1
  have key : ∀ y, μ.fam.poly.dnPolyval n ind y = .ok (ind.map (fun i => (derivative^[n] (pp (fun _ => 0) μ.fam.b i)).eval y)) :=
    fun y => dnPolyval_eq (family_rec _) hm n ind hi (fun _ _ => trivial) (fun _ _ _ _ => trivial) y
  have hd : ∀ i, (derivative^[n] (polys μ i)).eval x
      = (derivative^[n] (pp (fun _ => 0) μ.fam.b i)).eval ((x - μ.m) / μ.s) / μ.s ^ n := by
    intro i
    unfold polys
    rw [hm, Real.sqrt_one, div_one, C_1, one_mul]
    have : ∀ (k : ℕ) (p : ℝ[X]), derivative^[k] (p.comp (C (1 / μ.s) * (X - C μ.m)))
        = C ((1 / μ.s) ^ k) * (derivative^[k] p).comp (C (1 / μ.s) * (X - C μ.m)) := by
      intro k
      induction k with
      | zero => intro p; simp
      | succ k ih =>
        intro p
        rw [Function.iterate_succ_apply, derivative_comp, Function.iterate_succ_apply]
        simp only [derivative_mul, derivative_C, zero_mul, derivative_sub, derivative_X, sub_zero, mul_one, zero_add]
        rw [iterate_derivative_C_mul, ih, pow_succ, C_mul]
        ring
    rw [this]
    simp only [eval_mul, eval_C, eval_comp, eval_sub, eval_X]
    rw [show 1 / μ.s * (x - μ.m) = (x - μ.m) / μ.s by ring, one_div, inv_pow]
    ring
  simp only [iteratedDeriv_eval, hd]
  unfold Shifted.dnPolyval
  split
  · next h =>
    have hm0 : μ.m = 0 := by unfold Meas.m; rw [h]; rfl
    have hs1 : μ.s = 1 := by unfold Meas.s; rw [h]; rfl
    rw [hm0, hs1]
    have := key x
    unfold Meas.fam at this
    rw [this]
    simp only [sub_zero, div_one, one_pow, Meas.fam]
  · next m s h =>
    have hm0 : μ.m = m := by unfold Meas.m; rw [h]; rfl
    have hs1 : μ.s = s := by unfold Meas.s; rw [h]; rfl
    rw [hm0, hs1]
    have := key ((x - m) / s)
    unfold Meas.fam at this
    rw [this]
    simp only [bind, Except.bind, List.map_map, Meas.fam]
    rfl

/-- `d_polyval(ind, x)` is the derivative. -/
theorem dPolyval_derivative (μ : Meas) (hp : μ.IsProba) (q : ℕ → ℝ[X]) (hq : Evaluates μ q)
    (ind : List ℕ) (hi : ind ≠ []) (x : ℝ) :
    μ.orthonormalPolynomials.dPolyval ind x = .ok (ind.map (fun i => deriv (fun y => (q i).eval y) x)) := by
  have h := dnPolyval_derivative μ hp q hq 1 ind hi x
  simp only [iteratedDeriv_one] at h
  rw [← h]
  unfold Shifted.dPolyval Shifted.dnPolyval OrthPoly.dPolyval
  simp only [pow_one]

/-- For the Lebesgue measure, `d_polyval` is not the derivative of `polyval`. -/
theorem lebesgue_derivative_wrong (q : ℕ → ℝ[X]) (hq : Evaluates (.lebesgue (-1) 1) q) (x : ℝ) :
    (Meas.lebesgue (-1) 1).orthonormalPolynomials.dPolyval [1] x = .ok [Real.sqrt 3] ∧
    deriv (fun y => (q 1).eval y) x = Real.sqrt 3 / Real.sqrt 2 ∧ Real.sqrt 3 ≠ Real.sqrt 3 / Real.sqrt 2 := by
  have hs3 : (0 : ℝ) < Real.sqrt 3 := Real.sqrt_pos.2 (by norm_num)
  have hb : Real.sqrt (1 / 3) = 1 / Real.sqrt 3 := by rw [Real.sqrt_div (by norm_num)]; simp
  have ho : (Meas.lebesgue (-1) 1).orthonormalPolynomials = ⟨.legendreLebesgue, none⟩ := by
    unfold Meas.orthonormalPolynomials; simp
  refine ⟨?_, ?_, ?_⟩
  · rw [ho]
    show OrthPoly.dnPolyval Family.legendreLebesgue.poly 1 [1] x = _
    have hp := Polynomials.polyval_eq (family_rec .legendreLebesgue) (List.range (1 + 1)) (by simp) (fun _ _ => trivial) x
    have hr : Family.legendreLebesgue.poly.recurrenceMonic 1 = .ok (legendreLebesgueRec 1) := rfl
    have hn : npMax [1] = .ok 1 := rfl
    unfold OrthPoly.dnPolyval
    rw [hn]
    simp only [bind, Except.bind, hr, hp]
    have hb1 : at' (legendreLebesgueRec 1).1.2 1 = 1 / 3 := by
      unfold legendreLebesgueRec
      rw [at'_map_range _ _ _ (by norm_num)]
      norm_num
    simp only [List.range'_one, List.foldl_cons, List.foldl_nil, dnRow, hb1, hb]
    simp [at']
  · rw [evaluates_eq hq, Polynomial.deriv]
    have hm : (Meas.lebesgue (-1) 1).m = 0 := by unfold Meas.m; rw [ho]; rfl
    have hs : (Meas.lebesgue (-1) 1).s = 1 := by unfold Meas.s; rw [ho]; rfl
    have hf : (Meas.lebesgue (-1) 1).fam = .legendreLebesgue := by unfold Meas.fam; rw [ho]
    unfold polys
    rw [hm, hs, hf, pp_one]
    show eval x (derivative (C (1 / Real.sqrt (1 - -1)) * _)) = _
    have hb1 : Family.legendreLebesgue.b 1 = 1 / 3 := by
      show bLeg 1 = _
      unfold bLeg; norm_num
    rw [hb1, hb]
    simp
    rw [show (1 : ℝ) + 1 = 2 by norm_num]
    ring
  · intro h
    have h2 : (1 : ℝ) < Real.sqrt 2 := by
      rw [Real.lt_sqrt (by norm_num)]; norm_num
    have h3 : Real.sqrt 3 / Real.sqrt 2 < Real.sqrt 3 := div_lt_self hs3 h2
    linarith

/-- The hypotheses of the theorems are met by the polynomials of a uniform random variable on `[0, 3]` and of a normal one. -/
example : (∃ q, Evaluates (.uniform 0 3) q ∧ (Meas.uniform 0 3).Proper ∧ (Meas.uniform 0 3).IsProba) ∧
    ∃ q, Evaluates (.normal 1 2) q ∧ (Meas.normal 1 2).Proper ∧ (Meas.normal 1 2).IsProba := by
  have h1 : (Meas.uniform 0 3).Proper := by show (0 : ℝ) < 3; norm_num
  have h2 : (Meas.normal 1 2).Proper := by show (0 : ℝ) < 2; norm_num
  exact ⟨⟨_, polys_evaluates _, h1, trivial⟩, ⟨_, polys_evaluates _, h2, trivial⟩⟩

end

end Verif.Polynomials
