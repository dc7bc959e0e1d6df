import Verif.Lemmas.Stieltjes

/-!
# Orthonormal polynomials and Gauss rules of discrete measures
-/

namespace Verif.Polynomials

open Polynomial Finset Verif.Grids

noncomputable section

/-- A measure with finitely many points: distinct points, positive weights. -/
structure IsDiscrete (values weights : List ℝ) : Prop where
  len : values.length = weights.length
  nodup : values.Nodup
  pos : ∀ w ∈ weights, 0 < w
  nonempty : values ≠ []

/-- The integral of `f`. -/
def discreteE (values weights : List ℝ) (f : ℝ → ℝ) : ℝ := (List.zipWith (fun x w => f x * w) values weights).sum

section

variable {values weights : List ℝ}

theorem discreteE_eq (hd : IsDiscrete values weights) (q : ℝ[X]) :
    discreteE values weights (fun x => q.eval x) = LV values weights q := by
  unfold discreteE
  rw [zip_sum _ _ _ hd.len, LD_apply]

theorem LV_one (hd : IsDiscrete values weights) : LV values weights 1 = weights.sum := by
  rw [LD_apply]
  have h := zip_sum (fun _ w => w) values weights hd.len
  simp only [eval_one, one_mul]
  rw [← h]
  congr 1
  refine List.ext_getElem (by rw [List.length_zipWith, hd.len, min_self]) (fun i h5 h6 => ?_)
  simp

theorem mass_pos (hd : IsDiscrete values weights) : 0 < weights.sum := by
  rw [← LV_one hd, ← one_mul (1 : ℝ[X])]
  exact LV_sq_pos hd.len hd.nodup hd.pos 1 one_ne_zero (by simp; exact List.length_pos_iff.2 hd.nonempty)

/-- The coefficients of the recurrence, completed by 1. -/
def dB (values weights : List ℝ) (i : ℕ) : ℝ := if i < values.length then stB (LV values weights) i else 1

theorem dB_pos (hd : IsDiscrete values weights) (i : ℕ) (h : 1 ≤ i) : 0 < dB values weights i := by
  unfold dB
  split
  · next h1 => exact stB_pos hd.len hd.nodup hd.pos i h h1
  · exact one_pos

theorem discrete_rec' (hd : IsDiscrete values weights) (mass : ℝ) :
    HasRec (discrete values weights mass) (stA (LV values weights)) (dB values weights) (fun m => m < values.length) := by
  intro m hm
  obtain ⟨r, h1, h2⟩ := discrete_rec hd.len hd.nodup hd.pos hd.nonempty mass m hm
  refine ⟨r, h1, fun i hi => ⟨(h2 i hi).1, ?_⟩⟩
  rw [(h2 i hi).2, dB, if_pos (by omega)]

theorem monic_congr (a : ℕ → ℝ) {b b' : ℕ → ℝ} (n : ℕ) (h : ∀ i, i < n → b i = b' i) : monic a b n = monic a b' n := by
  induction n using Nat.strong_induction_on with
  | _ n ih =>
    match n, ih, h with
    | 0, _, _ => rfl
    | 1, _, _ => rfl
    | n + 2, ih, h =>
      rw [monic, monic, ih (n + 1) (by omega) (fun i hi => h i (by omega)), ih n (by omega) (fun i hi => h i (by omega)),
        h (n + 1) (by omega)]

/-- The normalisation of the polynomials. -/
def dC (values weights : List ℝ) (n : ℕ) : ℝ := ∏ i ∈ Finset.range n, Real.sqrt (dB values weights (i + 1))

theorem dC_ne (hd : IsDiscrete values weights) (n : ℕ) : dC values weights n ≠ 0 :=
  prod_ne_zero_iff.2 (fun i _ => (Real.sqrt_pos.2 (dB_pos hd (i + 1) (by omega))).ne')

theorem sp_eq (hd : IsDiscrete values weights) (n : ℕ) (hn : n ≤ values.length) :
    sp (LV values weights) n = C (dC values weights n) * pp (stA (LV values weights)) (dB values weights) n := by
  rw [sp, monic_congr (b' := dB values weights) _ n (fun i hi => by rw [dB, if_pos (by omega)]),
    monic_eq _ (dB_pos hd)]
  rfl

theorem dC_sq (hd : IsDiscrete values weights) (n : ℕ) (hn : n < values.length) :
    stN (LV values weights) n = dC values weights n ^ 2 * weights.sum := by
  induction n with
  | zero =>
    show LV values weights (1 * 1) = _
    rw [one_mul, LV_one hd]
    simp [dC]
  | succ n ih =>
    have h1 := sp_norm_pos hd.len hd.nodup hd.pos n (by omega)
    have h2 : dC values weights (n + 1) ^ 2 = dC values weights n ^ 2 * stB (LV values weights) (n + 1) := by
      unfold dC
      rw [prod_range_succ, mul_pow, Real.sq_sqrt (dB_pos hd _ (by omega)).le, dB, if_pos hn]
    rw [h2, stB_succ, mul_right_comm, ← ih (by omega), mul_div_cancel₀ _ h1.ne']

/-- Orthonormality for the probability. -/
theorem dpp_orth (hd : IsDiscrete values weights) (i j : ℕ) (hi : i ≤ values.length) (hj : j < values.length) :
    LV values weights (pp (stA (LV values weights)) (dB values weights) i * pp (stA (LV values weights)) (dB values weights) j)
      = if i = j then weights.sum else 0 := by
  have hC : ∀ (c : ℝ) (q : ℝ[X]), LV values weights (C c * q) = c * LV values weights q := fun c q => by
    rw [← smul_eq_C_mul, map_smul, smul_eq_mul]
  have key : LV values weights (sp (LV values weights) i * sp (LV values weights) j) = dC values weights i * dC values weights j *
      LV values weights (pp (stA (LV values weights)) (dB values weights) i *
        pp (stA (LV values weights)) (dB values weights) j) := by
    rw [sp_eq hd i hi, sp_eq hd j hj.le, ← hC, C_mul]
    congr 1
    ring
  have hci := dC_ne hd i
  have hcj := dC_ne hd j
  have hpos : ∀ k, k < values.length → LV values weights (sp (LV values weights) k * sp (LV values weights) k) ≠ 0 :=
    fun k hk => (sp_norm_pos hd.len hd.nodup hd.pos k hk).ne'
  rcases Nat.lt_trichotomy i j with h | h | h
  · rw [sp_orthogonal values.length hpos j hj.le i h] at key
    rw [if_neg (by omega)]
    exact (mul_eq_zero.1 key.symm).resolve_left (mul_ne_zero hci hcj)
  · subst h
    rw [if_pos rfl]
    have h2 := dC_sq hd i hj
    rw [stN, key] at h2
    have h3 : dC values weights i * dC values weights i ≠ 0 := mul_ne_zero hci hcj
    rw [pow_two] at h2
    exact mul_left_cancel₀ h3 h2
  · rw [mul_comm, sp_orthogonal values.length hpos i hi j h] at key
    rw [if_neg (by omega)]
    exact (mul_eq_zero.1 key.symm).resolve_left (mul_ne_zero hci hcj)

/-- **C90.** For a discrete measure with `N` distinct points and positive weights, `polyval` evaluates polynomials of
degrees 0 to `N - 1` that are orthonormal for the measure. -/
theorem discrete_orthonormal (hd : IsDiscrete values weights) :
    ∃ q : ℕ → ℝ[X], (∀ i, i < values.length → (q i).natDegree = i) ∧
      (∀ ind : List ℕ, ind ≠ [] → (∀ i ∈ ind, i < values.length) → ∀ x : ℝ,
        (discrete values weights weights.sum).polyval ind x = .ok (ind.map (fun i => (q i).eval x))) ∧
      ∀ i j, i < values.length → j < values.length →
        discreteE values weights (fun x => (q i).eval x * (q j).eval x) = if i = j then 1 else 0 := by
  have hm := mass_pos hd
  have hsq : Real.sqrt weights.sum ≠ 0 := (Real.sqrt_pos.2 hm).ne'
  refine ⟨fun i => C (1 / Real.sqrt weights.sum) * pp (stA (LV values weights)) (dB values weights) i, ?_, ?_, ?_⟩
  · intro i hi
    rw [natDegree_C_mul (one_div_ne_zero hsq)]
    exact (pp_natDegree i (fun j hj _ => dB_pos hd j hj)).1
  · intro ind hne hind x
    rw [polyval_eq (discrete_rec' hd weights.sum) ind hne hind x]
    congr 1
    refine List.map_congr_left (fun i _ => ?_)
    rw [eval_mul, eval_C, show (discrete values weights weights.sum).mass = weights.sum from rfl]
    ring
  · intro i j hi hj
    have e := discreteE_eq hd ((C (1 / Real.sqrt weights.sum) * pp (stA (LV values weights)) (dB values weights) i) *
      (C (1 / Real.sqrt weights.sum) * pp (stA (LV values weights)) (dB values weights) j))
    simp only [eval_mul] at e
    simp only [eval_mul]
    rw [e]
    have hC : ∀ (c : ℝ) (q : ℝ[X]), LV values weights (C c * q) = c * LV values weights q := fun c q => by
      rw [← smul_eq_C_mul, map_smul, smul_eq_mul]
    rw [show ∀ c p q : ℝ[X], c * p * (c * q) = c * (c * (p * q)) from fun c p q => by ring, hC, hC, dpp_orth hd i j hi.le hj]
    split
    · field_simp
      rw [Real.sq_sqrt hm.le]
    · simp

/-- There is no polynomial beyond: `polyval` raises `IndexError`. -/
theorem discrete_indexError (hd : IsDiscrete values weights) (mass : ℝ) (ind : List ℕ) (i : ℕ) (hi : i ∈ ind)
    (h : values.length ≤ i) (x : ℝ) : (discrete values weights mass).polyval ind x = .error .indexError := by
  obtain ⟨m, h1, h2, h3⟩ := npMax_spec ind (List.ne_nil_of_mem hi)
  have := h3 i hi
  unfold OrthPoly.polyval discrete
  simp only [h1, precompute_spec hd.len hd.nodup hd.pos hd.nonempty, List.length_map, List.length_range, bind, Except.bind]
  rw [if_pos (by omega)]

/-- For a discrete random variable `dn_polyval` evaluates the derivatives of the polynomials of `polyval`. -/
theorem discrete_derivative (hd : IsDiscrete values weights) (h1 : weights.sum = 1) (q : ℕ → ℝ[X])
    (hq : ∀ i, i < values.length → ∀ x : ℝ, (discrete values weights weights.sum).polyval [i] x = .ok [(q i).eval x])
    (n : ℕ) (ind : List ℕ) (hne : ind ≠ []) (hind : ∀ i ∈ ind, i < values.length) (x : ℝ) :
    (discrete values weights weights.sum).dnPolyval n ind x = .ok (ind.map (fun i => iteratedDeriv n (fun y => (q i).eval y) x)) := by
  rw [dnPolyval_eq (discrete_rec' hd weights.sum) h1 n ind hne hind (fun i j hi hj => by omega) x]
  congr 1
  refine List.map_congr_left (fun i hi => ?_)
  have e : q i = pp (stA (LV values weights)) (dB values weights) i := by
    refine Polynomial.funext (fun y => ?_)
    have h2 := hq i (hind i hi) y
    rw [polyval_eq (discrete_rec' hd weights.sum) [i] (by simp) (by simpa using hind i hi) y] at h2
    have h3 := List.cons.inj (Except.ok.inj h2)
    rw [← h3.1, show (discrete values weights weights.sum).mass = weights.sum from rfl, h1]
    simp
  rw [e, iteratedDeriv_eq_iterate]
  have : ∀ p : ℝ[X], deriv^[n] (fun y => p.eval y) = fun y => (derivative^[n] p).eval y := by
    induction n with
    | zero => intro p; rfl
    | succ n ih =>
      intro p
      rw [Function.iterate_succ_apply, Function.iterate_succ_apply, ← ih]
      congr 1
      funext y
      exact Polynomial.deriv p
  rw [this]

/-- The Gauss rule with `n ≤ N` points of a discrete random variable with `N` values has `n` distinct points in increasing
order and positive weights, and integrates exactly every polynomial of degree at most `2n - 1`. -/
theorem discrete_gauss {eig : Eig} (heig : EigOk eig) (hd : IsDiscrete values weights) (h1 : weights.sum = 1) (n : ℕ)
    (hn : 0 < n) (hN : n ≤ values.length) :
    ∃ r : Rule ℝ ℝ, gaussRule eig (discrete values weights weights.sum) none n = .ok r ∧ r.points.length = n ∧
      r.points.Pairwise (· < ·) ∧ r.weights.length = n ∧ (∀ w ∈ r.weights, 0 < w) ∧
      ∀ q : ℝ[X], q.natDegree ≤ 2 * n - 1 → r.integrate (fun x => q.eval x)
        = .ok (discreteE values weights (fun x => q.eval x)) := by
  have hbn : ∀ i, 1 ≤ i → i ≤ n → 0 < dB values weights i := fun i hi _ => dB_pos hd i hi
  obtain ⟨lam, V, hE, _, hg, _⟩ := gaussRule_spec heig (discrete_rec' hd weights.sum) hn (show n - 1 < values.length by omega) hbn
  have hinj := eig_injective hn hbn (fun _ _ => rfl) hE
  refine ⟨_, hg, npSort_length lam, npSort_pairwise lam hinj, ?_, ?_, fun q hq => ?_⟩
  · rw [List.length_map, (argsort_perm lam).length_eq, List.length_finRange]
  · intro w hw
    obtain ⟨k, _, rfl⟩ := List.mem_map.1 hw
    have := first_ne hn hbn (fun _ _ => rfl) hE k
    positivity
  · have e := integrate_rule lam (fun k => V ⟨0, hn⟩ k ^ 2) 0 1 (fun x => q.eval x)
    simp only [zero_add, one_mul, List.map_id'] at e
    rw [e, gauss_exact hn hbn (fun _ _ => rfl) hE (LV values weights)
      (fun i j hi hj => by rw [dpp_orth hd i j (by omega) (by omega), h1])
      (fun j hj => by rw [dpp_orth hd n j hN (by omega), if_neg (by omega)]) q (by omega), discreteE_eq hd]

/-- With as many points as values, the points are the values. -/
theorem discrete_gauss_all {eig : Eig} (heig : EigOk eig) (hd : IsDiscrete values weights) (h1 : weights.sum = 1) :
    ∃ r : Rule ℝ ℝ, gaussRule eig (discrete values weights weights.sum) none values.length = .ok r ∧
      r.points.Perm values ∧ r.points.Pairwise (· < ·) := by
  have hpos : 0 < values.length := List.length_pos_iff.2 hd.nonempty
  obtain ⟨r, h2, h3, h4, h5, h6, h7⟩ := discrete_gauss heig hd h1 values.length hpos le_rfl
  refine ⟨r, h2, ?_, h4⟩
  -- each value is a point: otherwise the polynomial vanishing on the points would have a positive square
  have hsub : ∀ v ∈ values, v ∈ r.points := by
    intro v hv
    by_contra hnot
    -- the polynomial of degree 2N - 2 positive at v and zero at the other values has zero
    set p : ℝ[X] := ∏ y ∈ r.points.toFinset, (X - C y) with hp
    have hmon : p.Monic := monic_prod_of_monic _ _ (fun y _ => monic_X_sub_C y)
    have hdeg : p.natDegree = values.length := by
      rw [hp, natDegree_prod_of_monic _ _ (fun y _ => monic_X_sub_C y)]
      simp only [natDegree_X_sub_C, sum_const, smul_eq_mul, mul_one]
      rw [List.toFinset_card_of_nodup (h4.imp (fun h => ne_of_lt h)), h3]
    -- p is orthogonal to everything of degree < N, in particular to the Lagrange polynomial of v
    set l : ℝ[X] := ∏ y ∈ values.toFinset.erase v, (X - C y) with hl
    have hldeg : l.natDegree ≤ values.length - 1 := by
      rw [hl, natDegree_prod_of_monic _ _ (fun y _ => monic_X_sub_C y)]
      simp only [natDegree_X_sub_C, sum_const, smul_eq_mul, mul_one]
      rw [card_erase_of_mem (List.mem_toFinset.2 hv), List.toFinset_card_of_nodup hd.nodup]
    have h8 := h7 (p * l) (le_trans natDegree_mul_le (by omega))
    have hvan : ∀ y ∈ r.points, p.eval y = 0 := by
      intro y hy
      rw [hp, eval_prod]
      exact prod_eq_zero (List.mem_toFinset.2 hy) (by simp)
    have hz : r.integrate (fun x => (p * l).eval x) = .ok 0 := by
      unfold Rule.integrate
      rw [if_neg (by omega)]
      congr 1
      refine List.sum_eq_zero (fun z hz => ?_)
      obtain ⟨k, hk, rfl⟩ := List.getElem_of_mem hz
      rw [List.getElem_zipWith]
      beta_reduce
      rw [eval_mul]
      rw [hvan _ (List.getElem_mem _)]
      ring
    rw [hz] at h8
    have h9 := Except.ok.inj h8
    rw [discreteE_eq hd, LD_apply] at h9
    obtain ⟨k, hk, hkv⟩ := List.getElem_of_mem hv
    have hat : at' values k = v := by unfold at'; rw [List.getD_eq_getElem _ _ hk]; exact hkv
    rw [sum_eq_single k] at h9
    · rw [hat, eval_mul] at h9
      have hw := hd.pos _ (at'_mem (l := weights) (i := k) (by rw [← hd.len]; exact hk))
      have hp0 : p.eval v ≠ 0 := by
        rw [hp, eval_prod]
        refine prod_ne_zero_iff.2 (fun y hy => ?_)
        simp only [eval_sub, eval_X, eval_C]
        intro h0
        rw [List.mem_toFinset, ← sub_eq_zero.1 h0] at hy
        exact hnot hy
      have hl0 : l.eval v ≠ 0 := by
        rw [hl, eval_prod]
        refine prod_ne_zero_iff.2 (fun y hy => ?_)
        simp only [eval_sub, eval_X, eval_C]
        intro h0
        exact (mem_erase.1 hy).1 (sub_eq_zero.1 h0).symm
      exact (mul_ne_zero (mul_ne_zero hp0 hl0) hw.ne') h9.symm
    · intro j hj hjk
      rw [eval_mul]
      have : l.eval (at' values j) = 0 := by
        rw [hl, eval_prod]
        refine prod_eq_zero (i := at' values j) (mem_erase.2 ⟨?_, List.mem_toFinset.2 (at'_mem (mem_range.1 hj))⟩) (by simp)
        rw [← hat]
        intro h0
        exact hjk (at'_inj hd.nodup (mem_range.1 hj) hk h0)
      rw [this]; ring
    · intro h0
      exact absurd (mem_range.2 hk) h0
  have hsp : values.Subperm r.points := List.subperm_of_subset hd.nodup hsub
  exact (hsp.perm_of_length_le (by omega)).symm

/-- `moment(ind)` of a discrete random variable gives the exact moments of orders at most `2N - 1`. -/
theorem discrete_moment {eig : Eig} (heig : EigOk eig) (hd : IsDiscrete values weights) (h1 : weights.sum = 1) (ind : List ℕ)
    (hne : ind ≠ []) (hind : ∀ i ∈ ind, i < 2 * values.length) :
    (discrete values weights weights.sum).rvMoment eig ind
      = .ok (ind.map (fun i => discreteE values weights (fun x => x ^ i))) := by
  obtain ⟨m, e1, e2, e3⟩ := npMax_spec ind hne
  have := hind m e2
  obtain ⟨r, h2, _, _, _, _, h7⟩ := discrete_gauss heig hd h1 ((m + 1 + 1) / 2) (by omega) (by omega)
  have key : ∀ i ∈ ind, r.integrate (fun x => x ^ i) = .ok (discreteE values weights (fun x => x ^ i)) := by
    intro i hi
    have := h7 (X ^ i) (by rw [natDegree_X_pow]; have := e3 i hi; omega)
    simpa using this
  unfold OrthPoly.rvMoment
  simp only [e1, h2, bind, Except.bind]
  clear e1 e2 e3 hne hind
  induction ind with
  | nil => rfl
  | cons i l ih =>
    rw [List.mapM_cons, key i (by simp)]
    simp only [bind, Except.bind, ih (fun j hj => key j (by simp [hj]))]
    rfl

/-- Beyond, it raises `IndexError`. -/
theorem discrete_moment_error {eig : Eig} (hd : IsDiscrete values weights) (mass : ℝ) (ind : List ℕ) (i : ℕ) (hi : i ∈ ind)
    (h : 2 * values.length ≤ i) : (discrete values weights mass).rvMoment eig ind = .error .indexError := by
  obtain ⟨m, h1, h2, h3⟩ := npMax_spec ind (List.ne_nil_of_mem hi)
  have := h3 i hi
  unfold OrthPoly.rvMoment gaussRule discrete
  simp only [h1, precompute_spec hd.len hd.nodup hd.pos hd.nonempty, List.length_map, List.length_range, bind, Except.bind]
  rw [if_pos (by omega)]

end

/-- The hypotheses are satisfied by a measure with three unsorted points. -/
example : IsDiscrete [2, -1, 0] [1 / 2, 1 / 4, 1 / 4] ∧ ([1 / 2, 1 / 4, 1 / 4] : List ℝ).sum = 1 :=
  ⟨⟨rfl, by norm_num, by norm_num, by simp⟩, by norm_num⟩

end

end Verif.Polynomials
