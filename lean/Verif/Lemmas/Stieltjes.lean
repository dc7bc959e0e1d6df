import Verif.Props.PolyMoments

/-!
# The Stieltjes procedure for a discrete measure
-/

namespace Verif.Polynomials

open Polynomial Finset

noncomputable section

theorem zip_sum (F : ℝ → ℝ → ℝ) (l l' : List ℝ) (h : l.length = l'.length) :
    (List.zipWith F l l').sum = ∑ k ∈ range l.length, F (at' l k) (at' l' k) := by
  induction l generalizing l' with
  | nil => simp
  | cons x l ih =>
    match l', h with
    | y :: l', h =>
      rw [List.zipWith_cons_cons, List.sum_cons, ih l' (by simpa using h), List.length_cons, sum_range_succ', add_comm]
      rfl

/-- The integral for a discrete measure. -/
def LD (x w : ℕ → ℝ) (N : ℕ) : ℝ[X] →ₗ[ℝ] ℝ where
  toFun q := ∑ k ∈ range N, q.eval (x k) * w k
  map_add' p q := by simp only [eval_add, add_mul, sum_add_distrib]
  map_smul' c q := by simp only [eval_smul, smul_eq_mul, RingHom.id_apply, mul_sum, mul_assoc]

theorem LD_apply (x w : ℕ → ℝ) (N : ℕ) (q : ℝ[X]) : LD x w N q = ∑ k ∈ range N, q.eval (x k) * w k := rfl

theorem dotProduct_eq (values weights : List ℝ) (h : values.length = weights.length) (f g : ℝ → ℝ) (p q : ℝ[X])
    (hf : ∀ x, f x = p.eval x) (hg : ∀ x, g x = q.eval x) :
    dotProduct values weights f g = LD (at' values) (at' weights) values.length (p * q) := by
  unfold dotProduct
  rw [zip_sum _ _ _ h, LD_apply]
  refine sum_congr rfl (fun k _ => ?_)
  rw [hf, hg, eval_mul]

/-- The polynomials `n` and `n + 1` of the procedure, for the functional `L`. -/
def stp (L : ℝ[X] →ₗ[ℝ] ℝ) : ℕ → ℝ[X] × ℝ[X]
  | 0 => (1, X - C (L (1 * X) / L (1 * 1)))
  | n + 1 =>
    let p := (stp L n).2
    (p, (X - C (L (p * (X * p)) / L (p * p))) * p - C (L (p * p) / L ((stp L n).1 * (stp L n).1)) * (stp L n).1)

/-- The coefficients. -/
def stA (L : ℝ[X] →ₗ[ℝ] ℝ) (n : ℕ) : ℝ := L ((stp L n).1 * (X * (stp L n).1)) / L ((stp L n).1 * (stp L n).1)

/-- The coefficients. -/
def stB (L : ℝ[X] →ₗ[ℝ] ℝ) (n : ℕ) : ℝ :=
  if n = 0 then 0 else L ((stp L n).1 * (stp L n).1) / L ((stp L (n - 1)).1 * (stp L (n - 1)).1)

theorem stp_monic (L : ℝ[X] →ₗ[ℝ] ℝ) (n : ℕ) :
    (stp L n).1 = monic (stA L) (stB L) n ∧ (stp L n).2 = monic (stA L) (stB L) (n + 1) := by
  induction n with
  | zero =>
    refine ⟨rfl, ?_⟩
    show X - C _ = X - C (stA L 0)
    unfold stA
    show _ = X - C (L (1 * (X * 1)) / L (1 * 1))
    rw [mul_one X]
  | succ n ih =>
    refine ⟨ih.2, ?_⟩
    show _ = (X - C (stA L (n + 1))) * monic (stA L) (stB L) (n + 1) - C (stB L (n + 1)) * monic (stA L) (stB L) n
    rw [← ih.1, ← ih.2]
    rfl

section

variable {L : ℝ[X] →ₗ[ℝ] ℝ}

/-- The polynomials of the procedure. -/
abbrev sp (L : ℝ[X] →ₗ[ℝ] ℝ) (n : ℕ) : ℝ[X] := monic (stA L) (stB L) n

theorem stA_eq (n : ℕ) : stA L n = L (sp L n * (X * sp L n)) / L (sp L n * sp L n) := by
  unfold stA; rw [(stp_monic L n).1]

theorem stB_succ (n : ℕ) : stB L (n + 1) = L (sp L (n + 1) * sp L (n + 1)) / L (sp L n * sp L n) := by
  unfold stB; rw [if_neg (by omega), (stp_monic L (n + 1)).1, Nat.add_sub_cancel, (stp_monic L n).1]

theorem X_mul_sp (n : ℕ) : X * sp L n = sp L (n + 1) + C (stA L n) * sp L n + C (stB L n) * sp L (n - 1) := by
  match n with
  | 0 =>
    show X * 1 = (X - C (stA L 0)) + C (stA L 0) * 1 + C (stB L 0) * _
    rw [show stB L 0 = 0 from rfl]
    simp
  | n + 1 =>
    show X * sp L (n + 1) = ((X - C (stA L (n + 1))) * sp L (n + 1) - C (stB L (n + 1)) * sp L n) + _ + C (stB L (n + 1)) * sp L n
    ring

theorem sp_orthogonal (K : ℕ) (hK : ∀ i, i < K → L (sp L i * sp L i) ≠ 0) (j : ℕ) (hj : j ≤ K) (i : ℕ) (hi : i < j) :
    L (sp L i * sp L j) = 0 := by
  have hC : ∀ (c : ℝ) (q : ℝ[X]), L (C c * q) = c * L q := fun c q => by
    rw [← smul_eq_C_mul, map_smul, smul_eq_mul]
  have ex : ∀ (n : ℕ) (q : ℝ[X]), L (X * sp L n * q) = L (sp L (n + 1) * q) + stA L n * L (sp L n * q)
      + stB L n * L (sp L (n - 1) * q) := by
    intro n q
    rw [X_mul_sp, add_mul, add_mul, map_add, map_add, mul_assoc, mul_assoc, hC, hC]
  induction j using Nat.strong_induction_on generalizing i with
  | _ j ih =>
    match j, ih, hj, hi with
    | 1, _, hj, hi =>
      obtain rfl : i = 0 := by omega
      have hne := hK 0 (by omega)
      have e := ex 0 (sp L 0)
      rw [show stB L 0 = 0 from rfl, zero_mul, add_zero, stA_eq, div_mul_cancel₀ _ hne] at e
      have e2 : X * sp L 0 * sp L 0 = sp L 0 * (X * sp L 0) := by ring
      rw [e2] at e
      rw [mul_comm]
      simp only [zero_add] at e
      linarith
    | m + 2, ih, hj, hi =>
      have h1 := ex (m + 1) (sp L i)
      rw [Nat.add_sub_cancel] at h1
      have hcomm : X * sp L (m + 1) * sp L i = X * sp L i * sp L (m + 1) := by ring
      rw [mul_comm (sp L i)]
      have ih' : ∀ i j, i < j → j < m + 2 → L (sp L i * sp L j) = 0 := fun i j h1 h2 => ih j h2 (by omega) i h1
      have ih'' : ∀ i j, i < j → j < m + 2 → L (sp L j * sp L i) = 0 := fun i j h1 h2 => by rw [mul_comm]; exact ih' i j h1 h2
      rcases Nat.lt_trichotomy i (m + 1) with h | h | h
      · rcases Nat.lt_trichotomy i m with h' | h' | h'
        · have h2 := ex i (sp L (m + 1))
          rw [ih' (i + 1) (m + 1) (by omega) (by omega), ih' i (m + 1) (by omega) (by omega),
            ih' (i - 1) (m + 1) (by omega) (by omega)] at h2
          rw [hcomm, h2, ih'' i (m + 1) (by omega) (by omega), ih'' i m (by omega) (by omega)] at h1
          have e : m + 1 + 1 = m + 2 := rfl
          rw [e] at h1
          linarith
        · subst h'
          have h2 := ex i (sp L (i + 1))
          rw [ih' i (i + 1) (by omega) (by omega)] at h2
          have hz : stB L i * L (sp L (i - 1) * sp L (i + 1)) = 0 := by
            rcases Nat.eq_zero_or_pos i with h0 | h0
            · subst h0; rw [show stB L 0 = 0 from rfl, zero_mul]
            · rw [ih' (i - 1) (i + 1) (by omega) (by omega), mul_zero]
          rw [hz] at h2
          rw [hcomm, h2, ih'' i (i + 1) (by omega) (by omega), stB_succ, div_mul_cancel₀ _ (hK i (by omega))] at h1
          have e : i + 1 + 1 = i + 2 := rfl
          rw [e] at h1
          linarith
        · omega
      · subst h
        rw [ih' m (m + 1) (by omega) (by omega), stA_eq, div_mul_cancel₀ _ (hK (m + 1) (by omega))] at h1
        have e2 : X * sp L (m + 1) * sp L (m + 1) = sp L (m + 1) * (X * sp L (m + 1)) := by ring
        rw [e2] at h1
        have e : m + 1 + 1 = m + 2 := rfl
        rw [e] at h1
        linarith
      · omega

end

/-! ## Discrete measures with distinct points and positive weights -/

section

variable {values weights : List ℝ}

/-- The functional of the measure. -/
abbrev LV (values weights : List ℝ) : ℝ[X] →ₗ[ℝ] ℝ := LD (at' values) (at' weights) values.length

theorem at'_inj (h : values.Nodup) {i j : ℕ} (hi : i < values.length) (hj : j < values.length)
    (e : at' values i = at' values j) : i = j := by
  unfold at' at e
  rw [List.getD_eq_getElem _ _ hi, List.getD_eq_getElem _ _ hj] at e
  exact (List.Nodup.getElem_inj_iff h).1 e

theorem at'_mem {l : List ℝ} {i : ℕ} (hi : i < l.length) : at' l i ∈ l := by
  unfold at'
  rw [List.getD_eq_getElem _ _ hi]
  exact List.getElem_mem hi

theorem LV_sq_pos (hl : values.length = weights.length) (hn : values.Nodup) (hw : ∀ w ∈ weights, 0 < w) (p : ℝ[X]) (hp : p ≠ 0)
    (hd : p.natDegree < values.length) : 0 < LV values weights (p * p) := by
  rw [LD_apply]
  have hnn : ∀ k ∈ range values.length, 0 ≤ (p * p).eval (at' values k) * at' weights k := by
    intro k hk
    rw [eval_mul]
    exact mul_nonneg (mul_self_nonneg _) (hw _ (at'_mem (by rw [← hl]; exact mem_range.1 hk))).le
  refine lt_of_le_of_ne (sum_nonneg hnn) (fun h0 => ?_)
  have hz := (sum_eq_zero_iff_of_nonneg hnn).1 h0.symm
  have hroots : ∀ x ∈ values, p.eval x = 0 := by
    intro x hx
    obtain ⟨k, hk, rfl⟩ := List.getElem_of_mem hx
    have := hz k (mem_range.2 hk)
    rw [eval_mul] at this
    have hwk := hw _ (at'_mem (l := weights) (i := k) (by omega))
    have h2 := (mul_eq_zero.1 this).resolve_right hwk.ne'
    have h3 : at' values k = values[k] := by unfold at'; rw [List.getD_eq_getElem _ _ hk]
    rw [h3] at h2
    exact mul_self_eq_zero.1 h2
  have hsub : values.toFinset ⊆ p.roots.toFinset := by
    intro y hy
    rw [Multiset.mem_toFinset, mem_roots hp]
    exact hroots y (List.mem_toFinset.1 hy)
  have h1 := card_le_card hsub
  rw [List.toFinset_card_of_nodup hn] at h1
  have h2 := le_trans (Multiset.toFinset_card_le _) (card_roots' p)
  omega

theorem sp_ne {L : ℝ[X] →ₗ[ℝ] ℝ} (i : ℕ) : sp L i ≠ 0 ∧ (sp L i).natDegree = i :=
  ⟨(monic_monic _ _ i).1.ne_zero, (monic_monic _ _ i).2⟩

theorem sp_norm_pos (hl : values.length = weights.length) (hn : values.Nodup) (hw : ∀ w ∈ weights, 0 < w) (i : ℕ)
    (hi : i < values.length) : 0 < LV values weights (sp (LV values weights) i * sp (LV values weights) i) :=
  LV_sq_pos hl hn hw _ (sp_ne i).1 (by rw [(sp_ne i).2]; exact hi)

/-- The norms. -/
abbrev stN (L : ℝ[X] →ₗ[ℝ] ℝ) (n : ℕ) : ℝ := L (sp L n * sp L n)

/-- The state after `i` iterations. -/
structure StInv (values weights : List ℝ) (i : ℕ) (s : Stieltjes) : Prop where
  a : s.a = (List.range (i + 1)).map (stA (LV values weights))
  b : s.b = (List.range (i + 1)).map (stB (LV values weights))
  norms : s.norms = (List.range (i + 1)).map (stN (LV values weights))
  pn : ∀ x, s.pn x = (sp (LV values weights) i).eval x
  pnp1 : ∀ x, s.pnp1 x = (sp (LV values weights) (i + 1)).eval x
  cond : s.cond = true

theorem stInit_inv (hl : values.length = weights.length) : StInv values weights 0 (stieltjesInit values weights) := by
  have h1 : dotProduct values weights (fun _ => 1) (fun _ => 1) = LV values weights (1 * 1) :=
    dotProduct_eq values weights hl _ _ 1 1 (by simp) (by simp)
  have h2 : dotProduct values weights (fun _ => 1) (fun x => x) = LV values weights (1 * X) :=
    dotProduct_eq values weights hl _ _ 1 X (by simp) (by simp)
  have hA : stA (LV values weights) 0 = LV values weights (1 * X) / LV values weights (1 * 1) := by
    rw [stA_eq]
    show LV values weights (1 * (X * 1)) / LV values weights (1 * 1) = _
    rw [mul_one X]
  refine ⟨?_, ?_, ?_, ?_, ?_, rfl⟩
  · simp only [stieltjesInit, h1, h2, ← hA]; simp
  · simp [stieltjesInit, stB]
  · simp only [stieltjesInit, h1]; simp [stN, sp, monic]
  · intro x; simp [stieltjesInit, sp, monic]
  · intro x
    simp only [stieltjesInit, h1, h2, ← hA]
    simp [sp, monic]

theorem range_getLastD (f : ℕ → ℝ) (n : ℕ) : ((List.range (n + 1)).map f).getLastD 0 = f n := by
  rw [List.range_succ, List.map_append]; simp

theorem map_range_succ {α : Type} (f : ℕ → α) (n : ℕ) : (List.range (n + 1)).map f = (List.range n).map f ++ [f n] := by
  rw [List.range_succ, List.map_append]; rfl

open Classical in
theorem stStep_inv (hl : values.length = weights.length) (hn : values.Nodup) (hw : ∀ w ∈ weights, 0 < w) (i : ℕ)
    (hi : i + 1 < values.length) (s : Stieltjes) (h : StInv values weights i s) :
    StInv values weights (i + 1) (stieltjesStep values weights s) := by
  have hN : dotProduct values weights s.pnp1 s.pnp1 = stN (LV values weights) (i + 1) :=
    dotProduct_eq values weights hl _ _ _ _ h.pnp1 h.pnp1
  have hX : dotProduct values weights s.pnp1 (fun x => x * s.pnp1 x) = (LV values weights) (sp (LV values weights) (i + 1) * (X * sp (LV values weights) (i + 1))) :=
    dotProduct_eq values weights hl _ _ _ (X * sp (LV values weights) (i + 1)) h.pnp1 (fun x => by rw [h.pnp1, eval_mul, eval_X])
  have hpos := sp_norm_pos hl hn hw (i + 1) hi
  have hlast : s.norms.getLastD 0 = stN (LV values weights) i := by rw [h.norms, range_getLastD]
  have hA : (LV values weights) (sp (LV values weights) (i + 1) * (X * sp (LV values weights) (i + 1))) / stN (LV values weights) (i + 1) = stA (LV values weights) (i + 1) := (stA_eq (i + 1)).symm
  have hB : stN (LV values weights) (i + 1) / stN (LV values weights) i = stB (LV values weights) (i + 1) := (stB_succ i).symm
  have hp : ∀ x, (x - stA (LV values weights) (i + 1)) * s.pnp1 x - stB (LV values weights) (i + 1) * s.pn x = (sp (LV values weights) (i + 2)).eval x := by
    intro x
    rw [h.pnp1, h.pn]
    show _ = ((X - C (stA (LV values weights) (i + 1))) * sp (LV values weights) (i + 1) - C (stB (LV values weights) (i + 1)) * sp (LV values weights) i).eval x
    simp only [eval_sub, eval_mul, eval_X, eval_C]
  unfold stieltjesStep
  simp only [hN, hX, hlast]
  rw [if_neg hpos.ne']
  simp only [hA, hB]
  refine ⟨?_, ?_, ?_, h.pnp1, hp, ?_⟩
  · rw [h.a, map_range_succ _ (i + 1)]
  · rw [h.b, map_range_succ _ (i + 1)]
  · rw [h.norms, map_range_succ _ (i + 1)]
  · refine decide_eq_true ?_
    unfold isOrth
    have o1 := sp_orthogonal (L := LV values weights) (i + 2) (fun k hk => (sp_norm_pos hl hn hw k (by omega)).ne') (i + 2) le_rfl
    rw [dotProduct_eq values weights hl _ _ (sp (LV values weights) (i + 2)) (sp (LV values weights) (i + 1)) hp h.pnp1,
      dotProduct_eq values weights hl _ _ (sp (LV values weights) (i + 2)) (sp (LV values weights) i) hp h.pn, mul_comm, mul_comm (sp (LV values weights) (i + 2))]
    have e1 := o1 (i + 1) (by omega)
    have e2 := o1 i (by omega)
    rw [e1, e2]
    norm_num

theorem stLoop_spec (hl : values.length = weights.length) (hn : values.Nodup) (hw : ∀ w ∈ weights, 0 < w) (k i : ℕ)
    (hk : i + k = values.length) (hk0 : 0 < k) (s : Stieltjes) (h : StInv values weights i s) :
    ((stieltjesLoop values weights k s).a.dropLast = (List.range values.length).map (stA (LV values weights))) ∧
    ((stieltjesLoop values weights k s).b.dropLast = (List.range values.length).map (stB (LV values weights))) ∧
    ((stieltjesLoop values weights k s).norms.dropLast = (List.range values.length).map (stN (LV values weights))) := by
  induction k generalizing i s with
  | zero => omega
  | succ k ih =>
    rw [stieltjesLoop, h.cond, if_pos rfl]
    rcases Nat.eq_zero_or_pos k with h0 | h0
    · subst h0
      have hlen : values.length = i + 1 := by omega
      unfold stieltjesLoop stieltjesStep
      simp only []
      rw [hlen, ← h.a, ← h.b, ← h.norms]
      split <;> simp
    · exact ih (i + 1) (by omega) h0 _ (stStep_inv hl hn hw i (by omega) s h)

theorem precompute_spec (hl : values.length = weights.length) (hn : values.Nodup) (hw : ∀ w ∈ weights, 0 < w)
    (h0 : values ≠ []) :
    precompute values weights (values.length - 1) = (((List.range values.length).map (stA (LV values weights)),
      (List.range values.length).map (stB (LV values weights))),
      (List.range values.length).map (fun i => Real.sqrt (stN (LV values weights) i))) := by
  have hpos : 0 < values.length := List.length_pos_iff.2 h0
  have e : values.length - 1 + 1 = values.length := by omega
  obtain ⟨e1, e2, e3⟩ := stLoop_spec hl hn hw values.length 0 (by omega) hpos _ (stInit_inv hl)
  unfold precompute
  simp only [e, e1, e2, e3, List.map_map]
  rfl

theorem discrete_rec (hl : values.length = weights.length) (hn : values.Nodup) (hw : ∀ w ∈ weights, 0 < w)
    (h0 : values ≠ []) (mass : ℝ) :
    HasRec (discrete values weights mass) (stA (LV values weights)) (stB (LV values weights)) (fun m => m < values.length) := by
  intro m hm
  unfold discrete
  simp only [precompute_spec hl hn hw h0, List.length_map, List.length_range]
  rw [if_neg (by omega)]
  refine ⟨_, rfl, fun i hi => ?_⟩
  have key : ∀ f : ℕ → ℝ, at' (((List.range values.length).map f).take (m + 1)) i = f i := by
    intro f
    unfold at'
    rw [List.getD_eq_getElem _ _ (by simp; omega)]
    simp
  exact ⟨key _, key _⟩

theorem stB_pos (hl : values.length = weights.length) (hn : values.Nodup) (hw : ∀ w ∈ weights, 0 < w) (i : ℕ) (h1 : 1 ≤ i)
    (hi : i < values.length) : 0 < stB (LV values weights) i := by
  obtain ⟨k, rfl⟩ : ∃ k, i = k + 1 := ⟨i - 1, by omega⟩
  rw [stB_succ]
  exact div_pos (sp_norm_pos hl hn hw _ hi) (sp_norm_pos hl hn hw _ (by omega))

end

end

end Verif.Polynomials
