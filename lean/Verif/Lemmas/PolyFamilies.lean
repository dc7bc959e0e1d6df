import Verif.Lemmas.GaussQuad
import Verif.Lemmas.Hermite
import Mathlib.Analysis.Calculus.IteratedDeriv.Lemmas
import Mathlib.MeasureTheory.Integral.IntervalIntegral.IntegrationByParts

/-!
# The methods of a family of polynomials in terms of the polynomials of its recurrence
-/

namespace Verif.Polynomials

open Polynomial

noncomputable section

theorem npMax_spec (ind : List Nat) (h : ind ≠ []) : ∃ m, npMax ind = .ok m ∧ m ∈ ind ∧ ∀ i ∈ ind, i ≤ m := by
  match ind, h with
  | i :: l, _ =>
    refine ⟨l.foldl max i, rfl, ?_⟩
    induction l generalizing i with
    | nil => simp
    | cons j l ih =>
      rw [List.foldl_cons]
      obtain ⟨h1, h2⟩ := ih (max i j) (by simp)
      refine ⟨?_, ?_⟩
      · rcases List.mem_cons.1 h1 with h | h
        · rw [h]
          rcases max_choice i j with h' | h' <;> rw [h'] <;> simp
        · exact List.mem_cons_of_mem _ (List.mem_cons_of_mem _ h)
      · intro k hk
        have hm := h2 (max i j) (by simp)
        rcases List.mem_cons.1 hk with h | h
        · subst h; exact le_trans (le_max_left _ _) hm
        · rcases List.mem_cons.1 h with h | h
          · subst h; exact le_trans (le_max_right _ _) hm
          · exact h2 k (List.mem_cons_of_mem _ h)

theorem pp_congr {a b a' b' : ℕ → ℝ} (n : ℕ) (ha : ∀ i, i < n → a i = a' i) (hb : ∀ i, 1 ≤ i → i ≤ n → b i = b' i) :
    pp a b n = pp a' b' n := by
  induction n using Nat.strong_induction_on with
  | _ n ih =>
    match n, ih, ha, hb with
    | 0, _, _, _ => rfl
    | 1, _, ha, hb => rw [pp_one, pp_one, ha 0 (by omega), hb 1 le_rfl le_rfl]
    | n + 2, ih, ha, hb =>
      rw [pp_succ, pp_succ, ha (n + 1) (by omega), hb (n + 2) (by omega) le_rfl, hb (n + 1) (by omega) (by omega),
        ih (n + 1) (by omega) (fun i hi => ha i (by omega)) (fun i h1 h2 => hb i h1 (by omega)),
        ih n (by omega) (fun i hi => ha i (by omega)) (fun i h1 h2 => hb i h1 (by omega))]

/-- The method `recurrence_monic` gives the coefficients `a`, `b` for the degrees of `D`. -/
def HasRec (P : OrthPoly) (a b : ℕ → ℝ) (D : ℕ → Prop) : Prop :=
  ∀ m, D m → ∃ r, P.recurrenceMonic m = .ok r ∧ ∀ i, i ≤ m → at' r.1.1 i = a i ∧ at' r.1.2 i = b i

section

variable {P : OrthPoly} {a b : ℕ → ℝ} {D : ℕ → Prop}

theorem polyval_eq (h : HasRec P a b D) (ind : List Nat) (hi : ind ≠ []) (hD : ∀ i ∈ ind, D i) (x : ℝ) :
    P.polyval ind x = .ok (ind.map (fun i => (pp a b i).eval x / Real.sqrt P.mass)) := by
  obtain ⟨m, h1, h2, h3⟩ := npMax_spec ind hi
  obtain ⟨r, h4, h5⟩ := h m (hD m h2)
  unfold OrthPoly.polyval
  simp only [h1, h4, bind, Except.bind, polyvalRow_eq, List.map_map]
  congr 1
  refine List.map_congr_left (fun i hi => ?_)
  rw [at'_map_range _ _ _ (by have := h3 i hi; omega)]
  simp only [Function.comp_apply]
  rw [pp_congr i (a' := a) (b' := b) (fun j hj => (h5 j (by have := h3 i hi; omega)).1)
    (fun j _ hj => (h5 j (by have := h3 i hi; omega)).2)]

theorem polyCoeff_eq (h : HasRec P a b D) (ind : List Nat) (hi : ind ≠ []) (hD : ∀ i ∈ ind, D i) :
    ∃ m, (∀ i ∈ ind, i ≤ m) ∧ P.polyCoeff ind = .ok (ind.map (fun i => (List.range (m + 1)).map (pp a b i).coeff)) := by
  obtain ⟨m, h1, h2, h3⟩ := npMax_spec ind hi
  obtain ⟨r, h4, h5⟩ := h m (hD m h2)
  refine ⟨m, h3, ?_⟩
  unfold OrthPoly.polyCoeff
  simp only [h1, h4, bind, Except.bind, polyCoeffRows_eq]
  congr 1
  refine List.map_congr_left (fun i hi => ?_)
  rw [getD_map_range _ _ _ _ (by have := h3 i hi; omega)]
  rw [pp_congr i (a' := a) (b' := b) (fun j hj => (h5 j (by have := h3 i hi; omega)).1)
    (fun j _ hj => (h5 j (by have := h3 i hi; omega)).2)]

theorem dnPolyval_eq (h : HasRec P a b D) (hm : P.mass = 1) (n : ℕ) (ind : List Nat) (hi : ind ≠ []) (hD : ∀ i ∈ ind, D i)
    (hcl : ∀ i j, D i → j ≤ i → D j) (x : ℝ) :
    P.dnPolyval n ind x = .ok (ind.map (fun i => (derivative^[n] (pp a b i)).eval x)) := by
  obtain ⟨m, h1, h2, h3⟩ := npMax_spec ind hi
  obtain ⟨r, h4, h5⟩ := h m (hD m h2)
  have hpp : ∀ i, i ≤ m → pp a b i = pp (at' r.1.1) (at' r.1.2) i := fun i hi =>
    (pp_congr i (fun j hj => (h5 j (by omega)).1) (fun j _ hj => (h5 j (by omega)).2)).symm
  unfold OrthPoly.dnPolyval
  rw [h1]
  simp only [bind, Except.bind, h4]
  rw [polyval_eq h (List.range (m + 1)) (by simp) (fun i hi => hcl m i (hD m h2) (by have := List.mem_range.1 hi; omega)) x]
  simp only
  have e : (List.range (m + 1)).map (fun i => (pp a b i).eval x / Real.sqrt P.mass)
      = (List.range (m + 1)).map (fun i => (pp (at' r.1.1) (at' r.1.2) i).eval x) := by
    refine List.map_congr_left (fun i hi => ?_)
    rw [hm, Real.sqrt_one, div_one, hpp i (by have := List.mem_range.1 hi; omega)]
  rw [e, dn_foldl]
  congr 1
  refine List.map_congr_left (fun i hi => ?_)
  rw [at'_map_range _ _ _ (by have := h3 i hi; omega), hpp i (h3 i hi)]

end

/-! ## Sorting -/

theorem npSort_eq {n : ℕ} (v : Fin n → ℝ) : npSort v = (argsort v).map v := by
  unfold npSort argsort
  exact (List.map_insertionSort (fun i j => v i ≤ v j) (· ≤ ·) v (List.finRange n) (fun _ _ _ _ => Iff.rfl)).symm

theorem argsort_perm {n : ℕ} (v : Fin n → ℝ) : (argsort v).Perm (List.finRange n) := List.perm_insertionSort _ _

theorem npSort_pairwise {n : ℕ} (v : Fin n → ℝ) (hv : Function.Injective v) : (npSort v).Pairwise (· < ·) := by
  have h1 : (npSort v).Pairwise (· ≤ ·) := List.pairwise_insertionSort _ _
  have h2 : (npSort v).Nodup := by
    rw [npSort_eq]
    exact ((argsort_perm v).nodup_iff.2 (List.nodup_finRange n)).map hv
  rw [List.Nodup] at h2
  exact h1.imp₂ (fun _ _ h3 h4 => lt_of_le_of_ne h3 h4) h2

theorem sum_argsort {n : ℕ} (v : Fin n → ℝ) (g : Fin n → ℝ) : ((argsort v).map g).sum = ∑ k, g k := by
  rw [((argsort_perm v).map g).sum_eq, Fin.sum_univ_def]

theorem weight_eq {n : ℕ} (hn : 0 < n) {J : Matrix (Fin n) (Fin n) ℝ} {lam : Fin n → ℝ} {V : Matrix (Fin n) (Fin n) ℝ}
    (h : IsEig J lam V) (k : Fin n) : weight V k = V ⟨0, hn⟩ k ^ 2 := by
  unfold weight
  rw [dif_pos hn, ← Fin.sum_univ_def, h.unit k, Real.sqrt_one, div_one]

/-- The Gauss rule of a family. -/
theorem gaussRule_spec {P : OrthPoly} {a b : ℕ → ℝ} {D : ℕ → Prop} {eig : Eig} (heig : EigOk eig) (h : HasRec P a b D)
    {n : ℕ} (hn : 0 < n) (hD : D (n - 1)) (hb : ∀ i, 1 ≤ i → i ≤ n → 0 < b i) :
    ∃ (lam : Fin n → ℝ) (V : Matrix (Fin n) (Fin n) ℝ), IsEig (fun i j : Fin n => jent a b i j) lam V ∧
      P.roots eig n = .ok (npSort lam) ∧
      gaussRule eig P none n = .ok ⟨npSort lam, (argsort lam).map (fun k => V ⟨0, hn⟩ k ^ 2)⟩ ∧
      ∀ m s, gaussRule eig P (some (m, s)) n =
        .ok ⟨(npSort lam).map (fun x => m + s * x), (argsort lam).map (fun k => V ⟨0, hn⟩ k ^ 2)⟩ := by
  obtain ⟨r, h4, h5⟩ := h (n - 1) hD
  have hJ : jacobi r.1.1 r.1.2 n = fun i j : Fin n => jent a b i j := by
    funext i j
    rw [jacobi_apply]
    unfold jent
    rw [(h5 i (by omega)).1, (h5 i (by omega)).2, (h5 j (by omega)).2]
  have hE := heig n (fun i j : Fin n => jent a b i j) (fun i j => jent_symm a b i j)
  have hw : weight (eig n (fun i j : Fin n => jent a b i j)).2 = _ := funext (fun k => weight_eq hn hE k)
  refine ⟨_, _, hE, ?_, ?_, ?_⟩
  · unfold OrthPoly.roots
    simp only [h4, bind, Except.bind, hJ]
  · unfold gaussRule
    simp only [h4, bind, Except.bind, hJ, hw]
  · intro m s
    unfold gaussRule
    simp only [h4, bind, Except.bind, hJ, hw]

/-! ## The families -/

/-- The recurrence coefficients of a family. -/
def Family.b : Family → ℕ → ℝ
  | .hermite => fun n => (n : ℝ)
  | .legendre => bLeg
  | .legendreLebesgue => bLeg

theorem family_rec (F : Family) : HasRec F.poly (fun _ => 0) F.b (fun _ => True) := by
  intro m _
  have hrep : ∀ i, at' (List.replicate (m + 1) 0) i = 0 := by
    intro i
    unfold at'
    rw [List.getD_eq_getElem?_getD, List.getElem?_replicate]
    split <;> rfl
  cases F
  · refine ⟨_, rfl, fun i hi => ⟨hrep i, ?_⟩⟩
    exact at'_map_range _ _ _ (by omega)
  · refine ⟨_, rfl, fun i hi => ⟨hrep i, ?_⟩⟩
    exact at'_map_range _ _ _ (by omega)
  · refine ⟨_, rfl, fun i hi => ⟨hrep i, ?_⟩⟩
    exact at'_map_range _ _ _ (by omega)

theorem family_b_pos (F : Family) (i : ℕ) (h : 1 ≤ i) : 0 < F.b i := by
  cases F
  · exact Nat.cast_pos.2 h
  · exact bLeg_pos i h
  · exact bLeg_pos i h

/-- The probability for which the polynomials of the recurrence are orthonormal. -/
def Family.L : Family → ℝ[X] →ₗ[ℝ] ℝ
  | .hermite => LN
  | .legendre => LU
  | .legendreLebesgue => LU

theorem family_orthonormal (F : Family) (i j : ℕ) :
    F.L (pp (fun _ => 0) F.b i * pp (fun _ => 0) F.b j) = if i = j then 1 else 0 := by
  cases F
  · exact hermite_orthonormal i j
  · exact legendre_orthonormal i j
  · exact legendre_orthonormal i j

/-! ## Changes of variable -/

theorem E_uniform {c d : ℝ} (h : c < d) (f : ℝ → ℝ) :
    (Meas.uniform c d).E f = (∫ x in (-1)..1, f ((c + d) / 2 + (d - c) / 2 * x)) / 2 := by
  have hs : (d - c) / 2 ≠ 0 := by
    have : 0 < d - c := by linarith
    positivity
  have e := intervalIntegral.integral_comp_mul_add (a := -1) (b := 1) f hs ((c + d) / 2)
  have e2 : (∫ x in (-1)..1, f ((c + d) / 2 + (d - c) / 2 * x)) = ∫ x in (-1)..1, f ((d - c) / 2 * x + (c + d) / 2) := by
    congr 1; funext x; rw [add_comm]
  rw [e2, e]
  have l1 : (d - c) / 2 * -1 + (c + d) / 2 = c := by ring
  have l2 : (d - c) / 2 * 1 + (c + d) / 2 = d := by ring
  rw [l1, l2]
  unfold Meas.E
  have hdc : d - c ≠ 0 := by linarith
  simp only [smul_eq_mul]
  field_simp

theorem E_lebesgue {c d : ℝ} (h : c < d) (f : ℝ → ℝ) : (Meas.lebesgue c d).E f = (d - c) * (Meas.uniform c d).E f := by
  unfold Meas.E
  have hdc : d - c ≠ 0 := by linarith
  field_simp

open MeasureTheory ProbabilityTheory in
theorem E_normal {mu sigma : ℝ} (h : 0 < sigma) (f : ℝ → ℝ) :
    (Meas.normal mu sigma).E f = ∫ x, f (mu + sigma * x) ∂(gaussianReal 0 1) := by
  have e : gaussianReal mu (sigma ^ 2).toNNReal = (gaussianReal 0 1).map (fun x => mu + sigma * x) := by
    have h1 : (fun x : ℝ => mu + sigma * x) = (fun x => mu + x) ∘ (fun x => sigma * x) := rfl
    rw [h1, ← Measure.map_map (measurable_const_add mu) (measurable_const_mul sigma), gaussianReal_map_const_mul,
      gaussianReal_map_const_add]
    simp only [mul_zero, zero_add, mul_one]
    congr 1
    exact Real.toNNReal_of_nonneg (sq_nonneg sigma)
  show ∫ x, f x ∂(gaussianReal mu (sigma ^ 2).toNNReal) = _
  rw [e]
  have hemb : MeasurableEmbedding (fun x : ℝ => mu + sigma * x) :=
    (measurableEmbedding_addLeft mu).comp (Homeomorph.mulLeft₀ sigma h.ne').measurableEmbedding
  exact hemb.integral_map f

end

end Verif.Polynomials
