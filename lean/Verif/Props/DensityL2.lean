import Verif.Model.DensityL2
import Verif.Props.BasisAdaptation
import Mathlib.Algebra.BigOperators.Field
import Mathlib.Data.List.GetD
import Mathlib.Tactic.FieldSimp

/-!
# Density estimation with the L² loss

Specification: the contrast of coefficients `g` on an observation with features `a` is `‖g‖² - 2 g·a + 2 g·b`, where `b` (zero if
absent) are the scalar products with a given part of the density; its mean over the samples is the empirical risk.
-/

namespace Verif.DensityL2

open Finset Verif.LeastSquares

variable {N P : Nat}

/-- The vector `b`, zero when it is absent. -/
def offset (b : Option (Fin P → ℝ)) : Fin P → ℝ := b.getD (fun _ => 0)

/-- The contrast of the coefficients `g` on an observation with features `a`. -/
noncomputable def contrast (b : Option (Fin P → ℝ)) (g a : Fin P → ℝ) : ℝ :=
  (∑ p, g p ^ 2) - 2 * (∑ p, g p * a p) + 2 * ∑ p, g p * offset b p

/-- The empirical risk. -/
noncomputable def risk (A : Matrix (Fin N) (Fin P) ℝ) (b : Option (Fin P → ℝ)) (g : Fin P → ℝ) : ℝ :=
  (∑ i, contrast b g (A i)) / N

/-- The estimate computed without sample `i`, with the functions in `S`: the mean of the features of the other samples minus `b`. -/
noncomputable def estimateWithout (A : Matrix (Fin N) (Fin P) ℝ) (b : Option (Fin P → ℝ)) (S : Finset (Fin P)) (i : Fin N) : Fin P → ℝ :=
  fun p => if p ∈ S then (∑ j ∈ univ.erase i, A j p) / ((N : ℝ) - 1) - offset b p else 0

/-- The leave-one-out risk of the model with the functions in `S`. -/
noncomputable def looRisk (A : Matrix (Fin N) (Fin P) ℝ) (b : Option (Fin P → ℝ)) (S : Finset (Fin P)) : ℝ :=
  (∑ i, contrast b (estimateWithout A b S i) (A i)) / N

theorem standardSol_eq (A : Matrix (Fin N) (Fin P) ℝ) (b : Option (Fin P → ℝ)) (p : Fin P) :
    standardSol A b p = colSum A p / N - offset b p := by
  cases b with
  | none => simp [standardSol, offset, colSum]
  | some b => rfl

/-- The risk is a sum over the functions. -/
theorem risk_eq (A : Matrix (Fin N) (Fin P) ℝ) (b : Option (Fin P → ℝ)) (g : Fin P → ℝ) (hN : 0 < N) :
    risk A b g = ∑ p, (g p ^ 2 - 2 * g p * standardSol A b p) := by
  have hN' : (N : ℝ) ≠ 0 := by positivity
  unfold risk contrast
  have e : ∀ i, (∑ p, g p ^ 2) - 2 * (∑ p, g p * A i p) + 2 * (∑ p, g p * offset b p) =
      ∑ p, (g p ^ 2 - 2 * (g p * A i p) + 2 * (g p * offset b p)) := by
    intro i
    rw [Finset.mul_sum, Finset.mul_sum, ← Finset.sum_sub_distrib, ← Finset.sum_add_distrib]
  simp only [e]
  rw [Finset.sum_comm, Finset.sum_div]
  refine Finset.sum_congr rfl (fun p _ => ?_)
  rw [Finset.sum_add_distrib, Finset.sum_sub_distrib]
  simp only [Finset.sum_const, Finset.card_univ, Fintype.card_fin, nsmul_eq_mul]
  rw [← Finset.mul_sum, ← Finset.mul_sum, standardSol_eq]
  unfold colSum
  field_simp
  ring

/-- The estimate restricted to any set of functions minimises the empirical risk over the combinations of these functions. -/
theorem restrict_minimizes (A : Matrix (Fin N) (Fin P) ℝ) (b : Option (Fin P → ℝ)) (ind : List (Fin P)) (hN : 0 < N)
    (g : Fin P → ℝ) (hg : ∀ p, p ∉ ind → g p = 0) : risk A b (restrict (standardSol A b) ind) ≤ risk A b g := by
  rw [risk_eq _ _ _ hN, risk_eq _ _ _ hN]
  refine Finset.sum_le_sum (fun p _ => ?_)
  unfold restrict
  by_cases hp : p ∈ ind
  · rw [if_pos hp]
    nlinarith [sq_nonneg (g p - standardSol A b p)]
  · rw [if_neg hp, hg p hp]

/-- `_solve_standard` minimises the empirical risk. -/
theorem standardSol_minimizes (A : Matrix (Fin N) (Fin P) ℝ) (b : Option (Fin P → ℝ)) (hN : 0 < N) (g : Fin P → ℝ) :
    risk A b (standardSol A b) ≤ risk A b g := by
  have h := restrict_minimizes A b (List.finRange P) hN g (fun p hp => absurd (List.mem_finRange p) hp)
  have e : restrict (standardSol A b) (List.finRange P) = standardSol A b := by
    funext p; simp [restrict]
  rwa [e] at h

/-- The leave-one-out risk as a sum over the functions. -/
theorem looRisk_eq (A : Matrix (Fin N) (Fin P) ℝ) (b : Option (Fin P → ℝ)) (S : Finset (Fin P)) (hN : 2 ≤ N) :
    looRisk A b S = ∑ p ∈ S, (((N : ℝ) ^ 2 - 2 * N) / ((N : ℝ) - 1) ^ 2 * standardSol A b p ^ 2
      + 1 / ((N : ℝ) - 1) ^ 2 * offset b p ^ 2
      - 2 / ((N : ℝ) - 1) ^ 2 * (colSum A p * offset b p)
      + (2 * (N : ℝ) - 1) / ((N : ℝ) * ((N : ℝ) - 1) ^ 2) * sqSum A p
      - 2 / ((N : ℝ) - 1) * (colSum A p * standardSol A b p)
      + 2 * (standardSol A b p * offset b p)) := by
  have hN2 : (2 : ℝ) ≤ N := by exact_mod_cast hN
  have hN0 : (N : ℝ) ≠ 0 := by linarith
  have hN1 : (N : ℝ) - 1 ≠ 0 := by intro h; linarith
  unfold looRisk contrast
  have e : ∀ i, (∑ p, estimateWithout A b S i p ^ 2) - 2 * (∑ p, estimateWithout A b S i p * A i p) +
      2 * (∑ p, estimateWithout A b S i p * offset b p) =
      ∑ p ∈ S, (((colSum A p - A i p) / ((N : ℝ) - 1) - offset b p) ^ 2
        - 2 * (((colSum A p - A i p) / ((N : ℝ) - 1) - offset b p) * A i p)
        + 2 * (((colSum A p - A i p) / ((N : ℝ) - 1) - offset b p) * offset b p)) := by
    intro i
    rw [Finset.mul_sum, Finset.mul_sum, ← Finset.sum_sub_distrib, ← Finset.sum_add_distrib]
    rw [← Finset.sum_subset (Finset.subset_univ S)]
    · refine Finset.sum_congr rfl (fun p hp => ?_)
      unfold estimateWithout
      rw [if_pos hp]
      have : ∑ j ∈ univ.erase i, A j p = colSum A p - A i p := by
        unfold colSum
        rw [← Finset.add_sum_erase _ _ (mem_univ i)]; ring
      rw [this]
    · intro p _ hp
      unfold estimateWithout
      rw [if_neg hp]; ring
  simp only [e]
  rw [Finset.sum_comm, Finset.sum_div]
  refine Finset.sum_congr rfl (fun p _ => ?_)
  have hpt : ∀ i, (((colSum A p - A i p) / ((N : ℝ) - 1) - offset b p) ^ 2
        - 2 * (((colSum A p - A i p) / ((N : ℝ) - 1) - offset b p) * A i p)
        + 2 * (((colSum A p - A i p) / ((N : ℝ) - 1) - offset b p) * offset b p)) =
      ((colSum A p / ((N : ℝ) - 1)) ^ 2 - offset b p ^ 2)
        - (2 * colSum A p / ((N : ℝ) - 1) ^ 2 + 2 * colSum A p / ((N : ℝ) - 1) - 2 * offset b p) * A i p
        + (1 / ((N : ℝ) - 1) ^ 2 + 2 / ((N : ℝ) - 1)) * A i p ^ 2 := by
    intro i
    field_simp
    ring
  simp only [hpt]
  rw [Finset.sum_add_distrib, Finset.sum_sub_distrib, ← Finset.mul_sum, ← Finset.mul_sum]
  simp only [Finset.sum_const, Finset.card_univ, Fintype.card_fin, nsmul_eq_mul]
  rw [standardSol_eq]
  rw [show ∑ i, A i p = colSum A p from rfl, show ∑ i, A i p ^ 2 = sqSum A p from rfl]
  field_simp
  ring

theorem sum_list {ind : List (Fin P)} (hn : ind.Nodup) (g : Fin P → ℝ) : (ind.map g).sum = ∑ p ∈ ind.toFinset, g p :=
  (List.sum_toFinset g hn).symm

/-- The error used by `_solve_regularized` for a set of columns is the leave-one-out risk. -/
theorem pathErr_eq (A : Matrix (Fin N) (Fin P) ℝ) (b : Option (Fin P → ℝ)) (ind : List (Fin P)) (hn : ind.Nodup) (hN : 2 ≤ N) :
    pathErr A b ind = looRisk A b ind.toFinset := by
  have hN2 : (2 : ℝ) ≤ N := by exact_mod_cast hN
  have hN0 : (N : ℝ) ≠ 0 := by linarith
  have hN1 : (N : ℝ) - 1 ≠ 0 := by intro h; linarith
  have hN1' : 1 - (N : ℝ) ≠ 0 := by intro h; linarith
  rw [looRisk_eq A b _ hN]
  cases b with
  | none =>
    unfold pathErr
    dsimp only
    rw [sum_list hn, sum_list hn, Finset.mul_sum, Finset.mul_sum, ← Finset.sum_add_distrib]
    refine Finset.sum_congr rfl (fun p _ => ?_)
    rw [standardSol_eq]
    have : offset (none : Option (Fin P → ℝ)) p = 0 := rfl
    rw [this]
    field_simp
    ring
  | some b =>
    unfold pathErr
    dsimp only
    rw [sum_list hn, sum_list hn, sum_list hn, sum_list hn, sum_list hn, sum_list hn]
    simp only [Finset.mul_sum]
    rw [← Finset.sum_add_distrib, ← Finset.sum_sub_distrib, ← Finset.sum_add_distrib, ← Finset.sum_sub_distrib,
      ← Finset.sum_add_distrib]
    rfl

theorem sum_swap {ind : List (Fin P)} (hn : ind.Nodup) (A : Matrix (Fin N) (Fin P) ℝ) (g : Fin P → ℝ) :
    ∑ i, (ind.map (fun p => A i p * g p)).sum = (ind.map (fun p => colSum A p * g p)).sum := by
  rw [sum_list hn]
  simp only [sum_list hn]
  rw [Finset.sum_comm]
  refine Finset.sum_congr rfl (fun p _ => ?_)
  unfold colSum
  rw [Finset.sum_mul]

theorem regErr_eq (A : Matrix (Fin N) (Fin P) ℝ) (b : Option (Fin P → ℝ)) (ind : List (Fin P)) (hn : ind.Nodup) (hN : 2 ≤ N) :
    regErr A b ind = looRisk A b ind.toFinset := by
  rw [← pathErr_eq A b ind hn hN]
  cases b with
  | none => rfl
  | some b =>
    unfold regErr pathErr
    dsimp only
    rw [sum_swap hn, sum_swap hn]

/-- **Leave-one-out error.** The error of `_solve_standard` is the mean over the samples of the contrast, on each sample, of the estimate
computed without it. -/
theorem standardErr_eq (A : Matrix (Fin N) (Fin P) ℝ) (b : Option (Fin P → ℝ)) (hN : 2 ≤ N) :
    standardErr A b = looRisk A b univ := by
  have h := regErr_eq A b (List.finRange P) (List.nodup_finRange P) hN
  have e : (List.finRange P).toFinset = univ := by ext p; simp
  rw [e] at h
  rw [← h]
  have hs : ∀ g : Fin P → ℝ, ((List.finRange P).map g).sum = ∑ p, g p := by
    intro g; rw [sum_list (List.nodup_finRange P), e]
  cases b with
  | none =>
    unfold standardErr regErr
    dsimp only
    rw [hs, hs, Finset.sum_comm]
    rfl
  | some b =>
    unfold standardErr regErr
    dsimp only
    rw [hs, hs, hs, hs]
    simp only [hs]
    rw [Finset.sum_comm (f := fun i p => A i p ^ 2)]
    rfl

/-! ### Selection -/

theorem argminR_spec (l : List ℝ) (hl : l ≠ []) :
    argminR l < l.length ∧ (∀ j < l.length, l.getD (argminR l) 0 ≤ l.getD j 0) ∧
      ∀ j < argminR l, l.getD (argminR l) 0 < l.getD j 0 := by
  induction l with
  | nil => exact absurd rfl hl
  | cons e l ih =>
    cases l with
    | nil =>
      refine ⟨by simp [argminR], fun j hj => ?_, fun j hj => ?_⟩
      · have : j = 0 := by simpa using hj
        subst this; simp [argminR]
      · simp [argminR] at hj
    | cons e' l' =>
      obtain ⟨h1, h2, h3⟩ := ih (by simp)
      rw [argminR]
      split
      · next hc =>
        refine ⟨by simpa using h1, fun j hj => ?_, fun j hj => ?_⟩
        · rw [List.getD_cons_succ]
          cases j with
          | zero => exact hc.le
          | succ j => rw [List.getD_cons_succ]; exact h2 j (by simpa using hj)
        · rw [List.getD_cons_succ]
          cases j with
          | zero => exact hc
          | succ j => rw [List.getD_cons_succ]; exact h3 j (by omega)
      · next hc =>
        refine ⟨by simp, fun j hj => ?_, fun j hj => absurd hj (by omega)⟩
        cases j with
        | zero => simp
        | succ j =>
          rw [List.getD_cons_zero, List.getD_cons_succ]
          exact (not_lt.1 hc).trans (h2 j (by simpa using hj))

/-- **Sparse estimation.** `_solve_regularized` returns the estimate restricted to the `k + 1` largest coefficients, where `k`
minimises the leave-one-out risk; that risk is the returned error. -/
theorem solveRegularized_spec (A : Matrix (Fin N) (Fin P) ℝ) (b : Option (Fin P → ℝ)) (sorted : List (Fin P))
    (hs : sorted.Perm (List.finRange P)) (hso : sorted.Pairwise (fun p q => |standardSol A b q| ≤ |standardSol A b p|))
    (hN : 2 ≤ N) (hP : 0 < P) :
    ∃ k < P, solveRegularized A b sorted =
        (restrict (standardSol A b) (sorted.take (k + 1)), some (looRisk A b (sorted.take (k + 1)).toFinset, k)) ∧
      (∀ j < P, looRisk A b (sorted.take (k + 1)).toFinset ≤ looRisk A b (sorted.take (j + 1)).toFinset) ∧
      ∀ j < P, (sorted.take (j + 1)).toFinset.card = j + 1 ∧ ∀ p ∈ sorted.take (j + 1), ∀ q, q ∉ sorted.take (j + 1) →
        |standardSol A b q| ≤ |standardSol A b p| := by
  have hlen : sorted.length = P := by rw [hs.length_eq, List.length_finRange]
  have hnd : ∀ j, (sorted.take j).Nodup := fun j => (hs.nodup_iff.2 (List.nodup_finRange P)).sublist (List.take_sublist _ _)
  have hne : sorted.isEmpty = false := by
    cases sorted with
    | nil => simp at hlen; omega
    | cons a l => rfl
  unfold solveRegularized
  rw [if_neg (by rw [hne]; simp)]
  dsimp only
  set err := ((List.range sorted.length).map (fun i => sorted.take (i + 1))).map (regErr A b) with herr
  have herrl : err.length = P := by rw [herr]; simp [hlen]
  have hget : ∀ j < P, err.getD j 0 = looRisk A b (sorted.take (j + 1)).toFinset := by
    intro j hj
    rw [List.getD_eq_getElem _ _ (by rw [herrl]; exact hj)]
    simp only [herr, List.getElem_map, List.getElem_range]
    exact regErr_eq A b _ (hnd _) hN
  obtain ⟨h1, h2, _⟩ := argminR_spec err (by
    intro h0
    rw [h0] at herrl; simp at herrl; omega)
  rw [herrl] at h1 h2
  refine ⟨argminR err, h1, ?_, ?_, ?_⟩
  · rw [hget _ h1]
    have : ((List.range sorted.length).map (fun i => sorted.take (i + 1))).getD (argminR err) [] = sorted.take (argminR err + 1) := by
      rw [List.getD_eq_getElem _ _ (by simp [hlen, h1])]
      simp
    rw [this]
  · intro j hj
    have := h2 j hj
    rwa [hget _ h1, hget _ hj] at this
  · intro j hj
    refine ⟨?_, ?_⟩
    · rw [List.toFinset_card_of_nodup (hnd _), List.length_take, hlen]; omega
    · intro p hp q hq
      rw [← List.take_append_drop (j + 1) sorted, List.pairwise_append] at hso
      have hq' : q ∈ sorted := hs.mem_iff.2 (List.mem_finRange q)
      rw [← List.take_append_drop (j + 1) sorted, List.mem_append] at hq'
      exact hso.2.2 p hp q (hq'.resolve_left hq)

/-- **Selection along a path.** The result is the estimate restricted to a pattern of the path whose leave-one-out risk is the smallest. -/
theorem selectPath_spec (A : Matrix (Fin N) (Fin P) ℝ) (b : Option (Fin P → ℝ)) (path : List (Fin P → Bool)) (hN : 2 ≤ N)
    (hex : ∃ pat ∈ path, (supp pat).Nonempty ∧ (supp pat).card ≤ N) :
    ∃ pat ∈ path, (supp pat).Nonempty ∧ (supp pat).card ≤ N ∧
      selectPath A b path = (restrict (standardSol A b) (cols pat), some (looRisk A b (supp pat), pat)) ∧
      ∀ pat' ∈ path, (supp pat').Nonempty → (supp pat').card ≤ N → looRisk A b (supp pat) ≤ looRisk A b (supp pat') := by
  have hadm := mem_admissible N path
  have hcs : ∀ pat : Fin P → Bool, (cols pat).toFinset = supp pat := by
    intro pat; ext p; rw [List.mem_toFinset, mem_cols, mem_supp]
  have hne : admissible N path ≠ [] := by
    obtain ⟨pat, h1, h2⟩ := hex
    intro h0
    have := (hadm pat).2 ⟨h1, h2⟩
    rw [h0] at this; simp at this
  unfold selectPath
  dsimp only
  rw [if_neg (by simpa using hne)]
  set err := (admissible N path).map (fun pat => pathErr A b (cols pat)) with herr
  have herrl : err.length = (admissible N path).length := by rw [herr]; simp
  have hget : ∀ j (hj : j < (admissible N path).length), err.getD j 0 = looRisk A b (supp (admissible N path)[j]) := by
    intro j hj
    rw [List.getD_eq_getElem _ _ (by rw [herrl]; exact hj)]
    simp only [herr, List.getElem_map]
    rw [pathErr_eq A b _ (cols_nodup _) hN, hcs]
  obtain ⟨h1, h2, _⟩ := argminR_spec err (by
    intro h0
    rw [h0] at herrl
    exact hne (List.length_eq_zero_iff.1 herrl.symm))
  rw [herrl] at h1 h2
  have hm := (hadm _).1 (List.getElem_mem h1)
  refine ⟨(admissible N path)[argminR err], hm.1, hm.2.1, hm.2.2, ?_, ?_⟩
  · rw [hget _ h1, List.getD_eq_getElem _ _ h1]
  · intro pat' h3 h4 h5
    obtain ⟨j, hj, rfl⟩ := List.getElem_of_mem ((hadm pat').2 ⟨h3, h4, h5⟩)
    have := h2 j hj
    rwa [hget _ h1, hget _ hj] at this

/-- The hypotheses are met: two samples, two functions. -/
example : ∃ k < 2, solveRegularized (![![1, 0], ![1, 2]] : Matrix (Fin 2) (Fin 2) ℝ) none [0, 1] =
    (restrict (standardSol ![![1, 0], ![1, 2]] none) (([0, 1] : List (Fin 2)).take (k + 1)),
      some (looRisk ![![1, 0], ![1, 2]] none (([0, 1] : List (Fin 2)).take (k + 1)).toFinset, k)) := by
  obtain ⟨k, h1, h2, _⟩ := solveRegularized_spec (![![1, 0], ![1, 2]] : Matrix (Fin 2) (Fin 2) ℝ) none [0, 1] (by decide)
    (by simp [standardSol, Fin.sum_univ_two]) (le_refl 2) (by norm_num)
  exact ⟨k, h1, h2⟩

end Verif.DensityL2
