import Verif.Lemmas.CanonicalLearning
import Verif.Props.AlternatingMinimization
import Verif.Props.LeastSquares
import Mathlib.Algebra.Order.BigOperators.Ring.Finset

/-!
# Properties of the learning with canonical tensors (C129 - C132)
-/

namespace Verif.Canonical

open Verif.Arr Verif.LeastSquares Finset
open Verif.TreeBased (predict olsArr)

/-- The array of the coefficients. -/
noncomputable def coefArr (x : Cn ℝ) : Arr ℝ :=
  match full x with
  | .ok f => f
  | .error _ => ⟨[], fun _ => 0⟩

/-- The sum of the squared errors at `N` points of the function whose coefficients are the entries of `x.full()`; `H` contains the values
of the bases at the points, `y` the observations. -/
noncomputable def risk (H : List (Arr ℝ)) (y : Nat → ℝ) (N : Nat) (x : Cn ℝ) : ℝ :=
  ∑ i ∈ range N, (y i - predict x.shape H (coefArr x) i []) ^ 2

/-- `x'` has the shape and the rank of `x`. -/
structure Same (x x' : Cn ℝ) : Prop where
  wf : WF x'
  shape : x'.shape = x.shape
  rank : x'.core.length = x.core.length

theorem Same.order {x x' : Cn ℝ} (h : Same x x') : x'.order = x.order := by
  rw [← length_shape, ← length_shape, h.shape]

theorem Same.refl {x : Cn ℝ} (h : WF x) : Same x x := ⟨h, rfl, rfl⟩

theorem Same.trans {x y z : Cn ℝ} (h : Same x y) (h' : Same y z) : Same x z := ⟨h'.wf, h'.shape.trans h.shape, h'.rank.trans h.rank⟩

theorem Same.fit {x x' : Cn ℝ} (h : Same x x') {H : List (Arr ℝ)} {N : Nat} (hF : Fit x H N) : Fit x' H N :=
  ⟨hF.len.trans h.order.symm, fun k hk => by rw [h.shape]; exact hF.shape k (by rw [← h.order]; exact hk)⟩

theorem rep_coefArr {x : Cn ℝ} (h : WF x) : Rep x (coefArr x) := by
  obtain ⟨y, h1, _, _⟩ := full_spec x h
  refine ⟨h, y, h1, ?_⟩
  unfold coefArr
  rw [h1]
  exact ⟨rfl, fun _ _ => rfl⟩

/-- The product of the values of the factors other than `m`. -/
noncomputable def rest (x : Cn ℝ) (H : List (Arr ℝ)) (m i l : Nat) : ℝ :=
  ∏ k ∈ (range x.order).erase m, fval H (x.shape.getD k 0) (factor x k) k i l

theorem risk_eq {x : Cn ℝ} (hx : WF x) {H : List (Arr ℝ)} {N : Nat} (hF : Fit x H N) (y : Nat → ℝ) : risk H y N x =
    ∑ i ∈ range N, (y i - ∑ l ∈ range x.core.length, x.core.getD l 0 * ∏ k ∈ range x.order, fval H (x.shape.getD k 0) (factor x k) k i l) ^ 2 := by
  unfold risk
  refine sum_congr rfl (fun i _ => ?_)
  rw [predict_cn (rep_coefArr hx) hF.len i]

theorem same_set {x : Cn ℝ} (hx : WF x) {m : Nat} (hm : m < x.order) {C : Arr ℝ} {core : List ℝ} (hC : C.shape = [x.shape.getD m 0, x.core.length])
    (hc : core.length = x.core.length) : Same x ⟨x.space.set m C, core⟩ := by
  have hs : (⟨x.space.set m C, core⟩ : Cn ℝ).shape = x.shape := by
    apply List.ext_getElem
    · simp [Cn.shape]
    · intro k k1 k2
      have hk : k < x.order := by rw [← length_shape]; exact k2
      have e1 := shape_getD_fac (x := (⟨x.space.set m C, core⟩ : Cn ℝ)) (k := k) (by simpa [Cn.order] using hk)
      rw [List.getD_eq_getElem _ _ k1, factor_set C core hk] at e1
      rw [e1]
      split
      · next h => subst h; rw [hC]; rw [List.getD_eq_getElem _ _ k2]; rfl
      · rw [← shape_getD_fac hk, List.getD_eq_getElem _ _ k2]
  refine ⟨⟨fun hh => ?_, fun M hM => ?_⟩, hs, hc⟩
  · have := congrArg List.length hh
    rw [List.length_set] at this
    exact hx.ne (List.length_eq_zero_iff.1 this)
  · show ∃ n, M.shape = [n, core.length]
    rw [hc]
    rcases List.mem_or_eq_of_mem_set hM with h1 | rfl
    · exact hx.cols M h1
    · exact ⟨_, hC⟩

/-- The values after a change of the factor `m` and of the core. -/
theorem terms_set {x : Cn ℝ} (hx : WF x) {H : List (Arr ℝ)} {m : Nat} (hm : m < x.order) {C : Arr ℝ} {core : List ℝ}
    (hC : C.shape = [x.shape.getD m 0, x.core.length]) (hc : core.length = x.core.length) (i l : Nat) :
    ∏ k ∈ range (⟨x.space.set m C, core⟩ : Cn ℝ).order, fval H ((⟨x.space.set m C, core⟩ : Cn ℝ).shape.getD k 0) (factor (⟨x.space.set m C, core⟩ : Cn ℝ) k) k i l =
      rest x H m i l * fval H (x.shape.getD m 0) C m i l := by
  have hS := same_set hx hm hC hc
  rw [hS.order, ← mul_prod_erase _ _ (mem_range.2 hm), mul_comm, hS.shape, factor_set C core hm, if_pos rfl]
  congr 1
  refine prod_congr rfl (fun k hk => ?_)
  rw [factor_set C core (mem_range.1 (mem_erase.1 hk).2), if_neg (fun e => (mem_erase.1 hk).1 e.symm)]

theorem risk_set {x : Cn ℝ} (hx : WF x) {H : List (Arr ℝ)} {N : Nat} (hF : Fit x H N) (y : Nat → ℝ) {m : Nat} (hm : m < x.order) {C : Arr ℝ}
    {core : List ℝ} (hC : C.shape = [x.shape.getD m 0, x.core.length]) (hc : core.length = x.core.length) :
    risk H y N ⟨x.space.set m C, core⟩ = ∑ i ∈ range N, (y i - ∑ l ∈ range x.core.length, core.getD l 0 *
      (rest x H m i l * fval H (x.shape.getD m 0) C m i l)) ^ 2 := by
  have hS := same_set hx hm hC hc
  rw [risk_eq hS.wf (hS.fit hF)]
  refine sum_congr rfl (fun i _ => ?_)
  congr 2
  rw [hS.rank]
  exact sum_congr rfl (fun l _ => by rw [terms_set hx hm hC hc])

theorem set_factor_self {x : Cn ℝ} (m : Nat) : (⟨x.space.set m (factor x m), x.core⟩ : Cn ℝ) = x := by
  have : x.space.set m (factor x m) = x.space := by
    by_cases h : m < x.space.length
    · unfold factor
      rw [List.getD_eq_getElem _ _ h, List.set_getElem_self]
    · rw [List.set_eq_of_length_le (by omega)]
  rw [this]

/-! ### C129: the gradient -/

/-- C129. `parameter_gradient_eval(mu)` for a factor: the values at the points of the function with any other factor number `mu` and any other
core are the products of the gradient with the factor multiplied by the core. -/
theorem paramGrad_factor_spec (x : Cn ℝ) (hx : WF x) (H : List (Arr ℝ)) (N : Nat) (hF : Fit x H N) (hd : 2 ≤ x.order) (mu : Nat) (h1 : 1 ≤ mu)
    (h2 : mu ≤ x.order) : ∃ g, paramGrad x mu H = .ok g ∧ g.shape = [N, x.core.length, x.shape.getD (mu - 1) 0] ∧
      ∀ (C : Arr ℝ) (core : List ℝ) (f : Arr ℝ), C.shape = [x.shape.getD (mu - 1) 0, x.core.length] → core.length = x.core.length →
        full ⟨x.space.set (mu - 1) C, core⟩ = .ok f → ∀ i, predict x.shape H f i [] =
          ∑ l ∈ range x.core.length, ∑ j ∈ range (x.shape.getD (mu - 1) 0), g.get [i, l, j] * (core.getD l 0 * C.get [j, l]) := by
  obtain ⟨m, rfl⟩ : ∃ m, mu = m + 1 := ⟨mu - 1, by omega⟩
  have hm : m < x.order := by omega
  obtain ⟨g, g1, g2, g3⟩ := paramGrad_factor hx hF hd hm
  refine ⟨g, g1, g2, fun C core f hC hc hf i => ?_⟩
  rw [show m + 1 - 1 = m from rfl] at *
  have hS := same_set hx hm hC hc
  have hr : Rep (⟨x.space.set m C, core⟩ : Cn ℝ) f := ⟨hS.wf, f, hf, rfl, fun _ _ => rfl⟩
  rw [← hS.shape, predict_cn hr (hF.len.trans hS.order.symm) i, hS.rank, hS.shape]
  refine sum_congr rfl (fun l _ => ?_)
  have e := terms_set (H := H) hx hm hC hc i l
  rw [hS.shape] at e
  rw [e]
  unfold fval
  rw [mul_sum, mul_sum]
  refine sum_congr rfl (fun j _ => ?_)
  rw [g3]
  unfold rest
  ring

/-- C129. `parameter_gradient_eval(order + 1)`: the values of the function with any other core are the products of the gradient with the
core. -/
theorem paramGrad_core_spec (x : Cn ℝ) (hx : WF x) (H : List (Arr ℝ)) (N : Nat) (hF : Fit x H N) :
    ∃ g, paramGrad x (x.order + 1) H = .ok g ∧ g.shape = [N, x.core.length] ∧
      ∀ (core : List ℝ) (f : Arr ℝ), core.length = x.core.length → full ⟨x.space, core⟩ = .ok f →
        ∀ i, predict x.shape H f i [] = ∑ l ∈ range x.core.length, g.get [i, l] * core.getD l 0 := by
  obtain ⟨g, g1, g2, g3⟩ := paramGrad_core hx hF
  refine ⟨g, g1, g2, fun core f hc hf i => ?_⟩
  have hw : WF (⟨x.space, core⟩ : Cn ℝ) := ⟨hx.ne, fun M hM => by show ∃ n, M.shape = [n, core.length]; rw [hc]; exact hx.cols M hM⟩
  have hr : Rep (⟨x.space, core⟩ : Cn ℝ) f := ⟨hw, f, hf, rfl, fun _ _ => rfl⟩
  have := predict_cn hr (H := H) hF.len i
  rw [show (⟨x.space, core⟩ : Cn ℝ).shape = x.shape from rfl] at this
  rw [this]
  show ∑ l ∈ range core.length, _ = _
  rw [hc]
  refine sum_congr rfl (fun l _ => ?_)
  rw [g3, mul_comm]; rfl

/-! ### C130: the steps -/

theorem sum_cols (n : Nat) (F : Nat → ℝ) : ∀ r, ∑ p ∈ range (n * r), F p = ∑ l ∈ range r, ∑ j ∈ range n, F (j + n * l) := by
  intro r
  induction r with
  | zero => simp
  | succ r ih =>
    rw [Nat.mul_succ, sum_range_add, sum_range_succ, ih]
    congr 1
    exact sum_congr rfl (fun j _ => by rw [Nat.add_comm])

theorem factorSystem_get {g : Arr ℝ} {N r n : Nat} (h : g.shape = [N, r, n]) {i l j : Nat} (hi : i < N) (hl : l < r) (hj : j < n) :
    (factorSystem g).shape = [N, n * r] ∧ (factorSystem g).get [i, j + n * l] = g.get [i, l, j] := by
  have hs : (g.transpose [0, 2, 1]).shape = [N, n, r] := by simp [transpose, applyPerm, h]
  have hr : ravelF [N, n * r] [i, j + n * l] = ravelF [N, n, r] [i, j, l] := by simp [ravelF]
  refine ⟨by simp [factorSystem, reshapeF, h], ?_⟩
  unfold factorSystem reshapeF
  dsimp only
  rw [hs, h]
  simp only [List.getD_cons_zero, List.getD_cons_succ]
  rw [hr, unravelF_ravelF (.cons hi (.cons hj (.cons hl .nil)))]
  have : (g.transpose [0, 2, 1]).get [i, j, l] = g.get (applyPerm (invPerm [0, 2, 1]) [i, j, l]) := rfl
  rw [this, show invPerm [0, 2, 1] = [0, 2, 1] by decide]
  rfl

theorem colNorm_mul {M : Arr ℝ} {n r : Nat} (hM : M.shape = [n, r]) {j l : Nat} (hj : j < n) :
    colNorm M l * (normalize M).get [j, l] = M.get [j, l] := by
  unfold normalize
  dsimp only
  have e : ([j, l] : List Nat).getD 1 0 = l := rfl
  rw [e]
  by_cases h : colNorm M l = 0
  · rw [if_neg (by simpa using h), h, zero_mul]
    unfold colNorm at h
    rw [hM, Real.sqrt_eq_zero (sum_nonneg (fun _ _ => sq_nonneg _))] at h
    have := (sum_eq_zero_iff_of_nonneg (fun _ _ => sq_nonneg _)).1 h j (mem_range.2 hj)
    exact (pow_eq_zero_iff (by omega)).1 this |>.symm
  · rw [if_pos h]
    field_simp

theorem getD_range_map {r : Nat} (f : Nat → ℝ) {l : Nat} (hl : l < r) : ((List.range r).map f).getD l 0 = f l := by
  rw [List.getD_eq_getElem _ _ (by simpa using hl), List.getElem_map, List.getElem_range]

/-- The best factor. -/
theorem factor_best {la : La} (hla : LaOk la) (o : Opts) {x : Cn ℝ} (hx : WF x) {H : List (Arr ℝ)} {N : Nat} (hF : Fit x H N) (y : Nat → ℝ)
    {m : Nat} (hm : m < x.order) {g : Arr ℝ} (hg : g.shape = [N, x.core.length, x.shape.getD m 0])
    (hget : ∀ i l j, g.get [i, l, j] = rest x H m i l * (H.getD m ⟨[], fun _ => 0⟩).get [i, j]) {M C : Arr ℝ} {core : List ℝ}
    (hMs : M = coefMat (x.shape.getD m 0) x.core.length (olsArr la o (factorSystem g) y))
    (hC : C.shape = [x.shape.getD m 0, x.core.length]) (hc : core.length = x.core.length) :
    risk H y N ⟨x.space.set m (normalize M), (List.range x.core.length).map (colNorm M)⟩ ≤ risk H y N ⟨x.space.set m C, core⟩ := by
  have hM : M.shape = [x.shape.getD m 0, x.core.length] := by rw [hMs]; rfl
  rw [risk_set hx hF y hm hC hc, risk_set hx hF y hm (show (normalize M).shape = _ from hM) (by simp)]
  have hA : (factorSystem g).shape = [N, x.shape.getD m 0 * x.core.length] := by simp [factorSystem, reshapeF, hg]
  have hfit := TreeBased.olsArr_fit hla o (factorSystem g) hA y (fun p => core.getD (p / x.shape.getD m 0) 0 * C.get [p % x.shape.getD m 0, p / x.shape.getD m 0])
  refine le_trans (le_of_eq ?_) (hfit.trans (le_of_eq ?_))
  · refine sum_congr rfl (fun i hi => ?_)
    congr 2
    rw [sum_cols]
    refine sum_congr rfl (fun l hl => ?_)
    rw [getD_range_map _ (mem_range.1 hl)]
    unfold fval
    rw [mul_sum, mul_sum]
    refine sum_congr rfl (fun j hj => ?_)
    have e := colNorm_mul hM (l := l) (mem_range.1 hj)
    rw [(factorSystem_get hg (mem_range.1 hi) (mem_range.1 hl) (mem_range.1 hj)).2, hget]
    have e2 : M.get [j, l] = olsArr la o (factorSystem g) y (j + x.shape.getD m 0 * l) := by rw [hMs]; rfl
    rw [← e2, ← e]
    ring
  · refine sum_congr rfl (fun i hi => ?_)
    congr 2
    rw [sum_cols]
    refine sum_congr rfl (fun l hl => ?_)
    unfold fval
    rw [mul_sum, mul_sum]
    refine sum_congr rfl (fun j hj => ?_)
    have hj' := mem_range.1 hj
    rw [(factorSystem_get hg (mem_range.1 hi) (mem_range.1 hl) hj').2, hget]
    have e1 : (j + x.shape.getD m 0 * l) / x.shape.getD m 0 = l := by
      rw [Nat.add_mul_div_left _ _ (by omega), Nat.div_eq_of_lt hj', zero_add]
    have e2 : (j + x.shape.getD m 0 * l) % x.shape.getD m 0 = j := by
      rw [Nat.add_mul_mod_self_left, Nat.mod_eq_of_lt hj']
    rw [e1, e2]
    ring

/-- If the coefficients are zero, no factor does better than the zero function. -/
theorem factor_zero {la : La} (hla : LaOk la) (o : Opts) {x : Cn ℝ} (hx : WF x) {H : List (Arr ℝ)} {N : Nat} (hF : Fit x H N) (y : Nat → ℝ)
    {m : Nat} (hm : m < x.order) {g : Arr ℝ} (hg : g.shape = [N, x.core.length, x.shape.getD m 0])
    (hget : ∀ i l j, g.get [i, l, j] = rest x H m i l * (H.getD m ⟨[], fun _ => 0⟩).get [i, j]) {C : Arr ℝ} {core : List ℝ}
    (h0 : ∀ p, p < (factorSystem g).shape.getD 1 0 → olsArr la o (factorSystem g) y p = 0)
    (hC : C.shape = [x.shape.getD m 0, x.core.length]) (hc : core.length = x.core.length) :
    ∑ i ∈ range N, y i ^ 2 ≤ risk H y N ⟨x.space.set m C, core⟩ := by
  refine le_trans (le_of_eq ?_) (factor_best hla o hx hF y hm hg hget rfl hC hc)
  rw [risk_set hx hF y hm (show (normalize _).shape = [x.shape.getD m 0, x.core.length] from rfl) (by simp)]
  refine sum_congr rfl (fun i _ => ?_)
  have : ∀ l ∈ range x.core.length, ((List.range x.core.length).map (colNorm (coefMat (x.shape.getD m 0) x.core.length (olsArr la o (factorSystem g) y)))).getD l 0 *
      (rest x H m i l * fval H (x.shape.getD m 0) (normalize (coefMat (x.shape.getD m 0) x.core.length (olsArr la o (factorSystem g) y))) m i l) = 0 := by
    intro l hl
    rw [getD_range_map _ (mem_range.1 hl)]
    have : colNorm (coefMat (x.shape.getD m 0) x.core.length (olsArr la o (factorSystem g) y)) l = 0 := by
      unfold colNorm
      rw [Real.sqrt_eq_zero (sum_nonneg (fun _ _ => sq_nonneg _))]
      refine sum_eq_zero (fun j hj => ?_)
      have hj' : j < x.shape.getD m 0 := mem_range.1 hj
      show olsArr la o (factorSystem g) y (j + x.shape.getD m 0 * l) ^ 2 = 0
      rw [h0 _ ?_]
      · ring
      · have hA : (factorSystem g).shape.getD 1 0 = x.shape.getD m 0 * x.core.length := by simp [factorSystem, reshapeF, hg]
        rw [hA]
        have := mem_range.1 hl
        calc j + x.shape.getD m 0 * l < x.shape.getD m 0 * (l + 1) := by rw [Nat.mul_succ]; omega
          _ ≤ _ := Nat.mul_le_mul_left _ this
    rw [this, zero_mul]
  rw [sum_eq_zero this, sub_zero]

/-- C130. The step for the factor `mu`: unless the loop is left, in which case the tensor is unchanged and no such tensor does better than
the zero function, the new tensor has the smallest risk among all those that differ from the previous one by the factor `mu` and by the core. For tensors of order two and `mu = 1` the
code then replaces the factor by another one. -/
theorem factorStep_spec (qr : Arr ℝ → Arr ℝ × Arr ℝ) (la : La) (hla : LaOk la) (o : Opts) (x : Cn ℝ) (hx : WF x) (H : List (Arr ℝ)) (N : Nat)
    (hF : Fit x H N) (y : Nat → ℝ) (hd : 2 ≤ x.order) (mu : Nat) (h1 : 1 ≤ mu) (h2 : mu ≤ x.order) (hq : x.order ≠ 2 ∨ mu ≠ 1) :
    ∃ x' left, factorStep qr la o H y x mu = .ok (x', left) ∧ Same x x' ∧
      (left = true → x' = x ∧ ∀ (C : Arr ℝ) (core : List ℝ), C.shape = [x.shape.getD (mu - 1) 0, x.core.length] → core.length = x.core.length →
        ∑ i ∈ range N, y i ^ 2 ≤ risk H y N ⟨x.space.set (mu - 1) C, core⟩) ∧
      (left = false → (∀ k, k < x.order → k ≠ mu - 1 → factor x' k = factor x k) ∧
        ∀ (C : Arr ℝ) (core : List ℝ), C.shape = [x.shape.getD (mu - 1) 0, x.core.length] → core.length = x.core.length →
        risk H y N x' ≤ risk H y N ⟨x.space.set (mu - 1) C, core⟩) := by
  obtain ⟨m, rfl⟩ : ∃ m, mu = m + 1 := ⟨mu - 1, by omega⟩
  have hm : m < x.order := by omega
  obtain ⟨g, g1, g2, g3⟩ := paramGrad_factor hx hF hd hm
  simp only [factorStep, g1, bind, Except.bind, show m + 1 - 1 = m from rfl]
  by_cases h0 : ∀ p, p < (factorSystem g).shape.getD 1 0 → olsArr la o (factorSystem g) y p = 0
  · rw [if_pos h0]
    exact ⟨x, true, rfl, Same.refl hx, fun _ => ⟨rfl, fun C core hC hc => factor_zero hla o hx hF y hm g2 g3 h0 hC hc⟩, by simp⟩
  · rw [if_neg h0]
    refine ⟨_, false, rfl, ?_, by simp, ?_⟩
    · unfold setFactor
      dsimp only
      rw [if_neg (by rintro ⟨e1, e2⟩; rcases hq with h | h; exacts [h e1, h e2])]
      exact same_set hx hm rfl (by simp)
    · intro _
      unfold setFactor
      dsimp only
      rw [if_neg (by rintro ⟨e1, e2⟩; rcases hq with h | h; exacts [h e1, h e2])]
      refine ⟨fun k hk hkm => ?_, fun C core hC hc => factor_best hla o hx hF y hm g2 g3 rfl hC hc⟩
      show factor (⟨x.space.set m _, _⟩ : Cn ℝ) k = _
      rw [factor_set _ _ hk, if_neg (fun e => hkm e.symm)]

/-- C130. The step for the core. -/
theorem coreStep_spec (la : La) (hla : LaOk la) (o : Opts) (x : Cn ℝ) (hx : WF x) (H : List (Arr ℝ)) (N : Nat) (hF : Fit x H N) (y : Nat → ℝ) :
    ∃ x' left, coreStep la o H y x = .ok (x', left) ∧ Same x x' ∧ (left = true → x' = x) ∧
      (left = false → x'.space = x.space ∧ ∀ core : List ℝ, core.length = x.core.length → risk H y N x' ≤ risk H y N ⟨x.space, core⟩) := by
  obtain ⟨g, g1, g2, g3⟩ := paramGrad_core hx hF
  simp only [coreStep, g1, bind, Except.bind]
  by_cases h0 : ∀ p, p < g.shape.getD 1 0 → olsArr la o g y p = 0
  · rw [if_pos h0]
    exact ⟨x, true, rfl, Same.refl hx, fun _ => rfl, by simp⟩
  · rw [if_neg h0]
    have hw : ∀ core : List ℝ, core.length = x.core.length → Same x ⟨x.space, core⟩ := fun core hc =>
      ⟨⟨hx.ne, fun M hM => by show ∃ n, M.shape = [n, core.length]; rw [hc]; exact hx.cols M hM⟩, rfl, hc⟩
    have hr : ∀ core : List ℝ, core.length = x.core.length → risk H y N ⟨x.space, core⟩ =
        ∑ i ∈ range N, (y i - ∑ l ∈ range x.core.length, g.get [i, l] * core.getD l 0) ^ 2 := by
      intro core hc
      rw [risk_eq (hw core hc).wf ((hw core hc).fit hF)]
      refine sum_congr rfl (fun i _ => ?_)
      congr 2
      show ∑ l ∈ range core.length, _ = _
      rw [hc]
      refine sum_congr rfl (fun l _ => ?_)
      rw [g3, mul_comm]; rfl
    refine ⟨_, false, rfl, hw _ (by simp), by simp, fun _ => ⟨rfl, fun core hc => ?_⟩⟩
    rw [hr core hc, hr _ (by simp)]
    refine le_trans (le_of_eq ?_) (TreeBased.olsArr_fit hla o g g2 y (fun l => core.getD l 0))
    refine sum_congr rfl (fun i _ => ?_)
    congr 2
    exact sum_congr rfl (fun l hl => by rw [getD_range_map _ (mem_range.1 hl)])

theorem noMu_sum {d m : Nat} (f : Nat → ℝ) : ((noMu d (m + 1)).map f).sum = ∑ k ∈ (range d).erase m, f k := by
  unfold noMu
  rw [← List.sum_toFinset _ (List.nodup_range.filter _)]
  refine sum_congr ?_ (fun _ _ => rfl)
  ext k
  simp [and_comm]

/-- The risk after a change of one column of the factor `m` and of one entry of the core. -/
theorem risk_column {x : Cn ℝ} (hx : WF x) {H : List (Arr ℝ)} {N : Nat} (hF : Fit x H N) (y : Nat → ℝ) {m : Nat} (hm : m < x.order) {C : Arr ℝ}
    {core : List ℝ} (hC : C.shape = [x.shape.getD m 0, x.core.length]) (hc : core.length = x.core.length) {q : Nat} (hq : q < x.core.length)
    (hCq : ∀ j l, j < x.shape.getD m 0 → l < x.core.length → l ≠ q → C.get [j, l] = (factor x m).get [j, l])
    (hcq : ∀ l, l < x.core.length → l ≠ q → core.getD l 0 = x.core.getD l 0) :
    risk H y N ⟨x.space.set m C, core⟩ = ∑ i ∈ range N, ((y i - ∑ l ∈ (range x.core.length).erase q,
      rest x H m i l * fval H (x.shape.getD m 0) (factor x m) m i l * x.core.getD l 0) -
      ∑ j ∈ range (x.shape.getD m 0), ((H.getD m ⟨[], fun _ => 0⟩).get [i, j] * rest x H m i q) * (core.getD q 0 * C.get [j, q])) ^ 2 := by
  rw [risk_set hx hF y hm hC hc]
  refine sum_congr rfl (fun i _ => ?_)
  congr 1
  rw [← add_sum_erase _ _ (mem_range.2 hq)]
  have e1 : ∑ l ∈ (range x.core.length).erase q, core.getD l 0 * (rest x H m i l * fval H (x.shape.getD m 0) C m i l) =
      ∑ l ∈ (range x.core.length).erase q, rest x H m i l * fval H (x.shape.getD m 0) (factor x m) m i l * x.core.getD l 0 := by
    refine sum_congr rfl (fun l hl => ?_)
    have hl1 := (mem_erase.1 hl).1
    have hl2 := mem_range.1 (mem_erase.1 hl).2
    rw [hcq l hl2 hl1, mul_comm]
    congr 2
    unfold fval
    exact sum_congr rfl (fun j hj => by rw [hCq j l (mem_range.1 hj) hl2 hl1])
  have e2 : core.getD q 0 * (rest x H m i q * fval H (x.shape.getD m 0) C m i q) =
      ∑ j ∈ range (x.shape.getD m 0), ((H.getD m ⟨[], fun _ => 0⟩).get [i, j] * rest x H m i q) * (core.getD q 0 * C.get [j, q]) := by
    unfold fval
    rw [mul_sum, mul_sum]
    exact sum_congr rfl (fun j _ => by ring)
  rw [e1, e2]
  ring

/-- C130. With `one_by_one_factor`, the step for the column `ind` of the factor `mu`: unless the loop is left, in which case the tensor is
unchanged, the new tensor has the smallest risk among all those that differ from the previous one by this column and by the entry
`ind` of the core. -/
theorem columnStep_spec (la : La) (hla : LaOk la) (o : Opts) (x : Cn ℝ) (hx : WF x) (H : List (Arr ℝ)) (N : Nat) (hF : Fit x H N) (y : Nat → ℝ)
    (mu ind : Nat) (h1 : 1 ≤ mu) (h2 : mu ≤ x.order) (h3 : 1 ≤ ind) (h4 : ind ≤ x.core.length) :
    ∃ x' left, columnStep la o H y x mu ind = .ok (x', left) ∧ Same x x' ∧ (left = true → x' = x) ∧
      (left = false → (∀ k, k < x.order → k ≠ mu - 1 → factor x' k = factor x k) ∧
        (∀ j l, l ≠ ind - 1 → (factor x' (mu - 1)).get [j, l] = (factor x (mu - 1)).get [j, l]) ∧
        (∀ l, l ≠ ind - 1 → x'.core.getD l 0 = x.core.getD l 0) ∧
        ∀ (C : Arr ℝ) (core : List ℝ), C.shape = [x.shape.getD (mu - 1) 0, x.core.length] → core.length = x.core.length →
          (∀ j l, j < x.shape.getD (mu - 1) 0 → l < x.core.length → l ≠ ind - 1 → C.get [j, l] = (factor x (mu - 1)).get [j, l]) →
          (∀ l, l < x.core.length → l ≠ ind - 1 → core.getD l 0 = x.core.getD l 0) →
          risk H y N x' ≤ risk H y N ⟨x.space.set (mu - 1) C, core⟩) := by
  obtain ⟨m, rfl⟩ : ∃ m, mu = m + 1 := ⟨mu - 1, by omega⟩
  obtain ⟨q, rfl⟩ : ∃ q, ind = q + 1 := ⟨ind - 1, by omega⟩
  have hm : m < x.order := by omega
  have hq : q < x.core.length := by omega
  obtain ⟨z, z1, z2, z3, z4, _⟩ := tmp_factors (fun k => H.getD k ⟨[], fun _ => 0⟩) N (List.range x.order) x hx List.nodup_range
    (fun k hk => List.mem_range.1 hk) (fun k hk => hF.shape k (List.mem_range.1 hk))
  have hH : (List.range x.order).map (fun k => H.getD k ⟨[], fun _ => 0⟩) = H := by
    apply List.ext_getElem
    · simp [hF.len]
    · intro k k1 k2
      simp [List.getElem?_eq_getElem k2]
  rw [hH] at z1
  have z1' : tensorMatrixProduct x H = .ok z := z1
  have hN : (H.getD 0 ⟨[], fun _ => 0⟩).shape.getD 0 0 = N := by rw [hF.shape 0 (by omega)]; rfl
  obtain ⟨E, e1, e2, e3⟩ := hadamardAll_spec N x.core.length ((noMu x.order (m + 1)).map (factor z)) (by
    intro M hM
    obtain ⟨k, hk, rfl⟩ := List.mem_map.1 hM
    exact (z4 k (mem_noMu.1 hk).1 (List.mem_range.2 (mem_noMu.1 hk).1)).1)
  have hE : ∀ i l, E.get [i, l] = rest x H m i l := by
    intro i l
    rw [e3, List.map_map]
    unfold rest
    rw [← noMu_prod]
    congr 1
    refine List.map_congr_left (fun k hk => ?_)
    exact (z4 k (mem_noMu.1 hk).1 (List.mem_range.2 (mem_noMu.1 hk).1)).2 i l
  have hO : others z N (m + 1) = .ok E := by unfold others; rw [z2, z3]; exact e1
  have hrhs : ∀ i, oneRhs y E (factor z m) x.core (q + 1) i = y i - ∑ l ∈ (range x.core.length).erase q,
      rest x H m i l * fval H (x.shape.getD m 0) (factor x m) m i l * x.core.getD l 0 := by
    intro i
    unfold oneRhs
    rw [noMu_sum]
    congr 1
    refine sum_congr rfl (fun l _ => ?_)
    rw [hE, (z4 m hm (List.mem_range.2 hm)).2 i l]
    rfl
  have hA : (oneSystem (H.getD m ⟨[], fun _ => 0⟩) E (q + 1)).shape = [N, x.shape.getD m 0] := hF.shape m hm
  have hAg : ∀ i j, (oneSystem (H.getD m ⟨[], fun _ => 0⟩) E (q + 1)).get [i, j] = (H.getD m ⟨[], fun _ => 0⟩).get [i, j] * rest x H m i q := by
    intro i j
    rw [← hE]; rfl
  simp only [columnStep, z1', hN, hO, bind, Except.bind, show m + 1 - 1 = m from rfl]
  generalize hc : olsArr la o (oneSystem (H.getD m ⟨[], fun _ => 0⟩) E (q + 1)) (oneRhs y E (factor z m) x.core (q + 1)) = c
  by_cases h0 : ∀ p, p < (oneSystem (H.getD m ⟨[], fun _ => 0⟩) E (q + 1)).shape.getD 1 0 → c p = 0
  · rw [if_pos h0]
    exact ⟨x, true, rfl, Same.refl hx, fun _ => rfl, by simp⟩
  · rw [if_neg h0]
    have hfs := factor_shape hx hm
    have hn1 : (oneSystem (H.getD m ⟨[], fun _ => 0⟩) E (q + 1)).shape.getD 1 0 = x.shape.getD m 0 := by rw [hA]; rfl
    rw [hn1] at h0 ⊢
    have hnz : Real.sqrt (∑ p ∈ range (x.shape.getD m 0), c p ^ 2) ≠ 0 := by
      intro hh
      rw [Real.sqrt_eq_zero (sum_nonneg (fun _ _ => sq_nonneg _))] at hh
      apply h0
      intro p hp
      exact (pow_eq_zero_iff (by omega)).1 ((sum_eq_zero_iff_of_nonneg (fun _ _ => sq_nonneg _)).1 hh p (mem_range.2 hp))
    generalize hnrm : Real.sqrt (∑ p ∈ range (x.shape.getD m 0), c p ^ 2) = nrm at hnz
    have hCs : ∀ j l, l ≠ q → (⟨(factor x m).shape, fun ij => if ij.getD 1 0 = q + 1 - 1 then c (ij.getD 0 0) / nrm else (factor x m).get ij⟩ : Arr ℝ).get [j, l] =
        (factor x m).get [j, l] := by
      intro j l hl
      show (if l = q then _ else _) = _
      rw [if_neg hl]
    have hcs : ∀ l, l ≠ q → (x.core.set q nrm).getD l 0 = x.core.getD l 0 := by
      intro l hl
      simp [List.getElem?_set, Ne.symm hl]
    refine ⟨_, false, rfl, same_set hx hm hfs (by simp), by simp, fun _ => ⟨fun k hk hkm => ?_, ?_, hcs, fun C core hC hcl hCq hcq => ?_⟩⟩
    · show factor (⟨x.space.set m _, _⟩ : Cn ℝ) k = _
      rw [factor_set _ _ hk, if_neg (fun e => hkm e.symm)]
    · intro j l hl
      show (factor (⟨x.space.set m _, _⟩ : Cn ℝ) m).get [j, l] = _
      rw [factor_set _ _ hm, if_pos rfl]
      exact hCs j l hl
    · rw [risk_column hx hF y hm hC hcl hq hCq hcq]
      show risk H y N ⟨x.space.set m (⟨(factor x m).shape, fun ij => if ij.getD 1 0 = q + 1 - 1 then c (ij.getD 0 0) / nrm else (factor x m).get ij⟩ : Arr ℝ),
        x.core.set q nrm⟩ ≤ _
      rw [risk_column (C := ⟨(factor x m).shape, fun ij => if ij.getD 1 0 = q + 1 - 1 then c (ij.getD 0 0) / nrm else (factor x m).get ij⟩) hx hF y hm (q := q) hfs
        (by simp) hq (fun j l _ _ hl => hCs j l hl) (fun l _ hl => hcs l hl)]
      have hfit := TreeBased.olsArr_fit hla o _ hA (oneRhs y E (factor z m) x.core (q + 1)) (fun j => core.getD q 0 * C.get [j, q])
      rw [hc] at hfit
      refine le_trans (le_of_eq ?_) (hfit.trans (le_of_eq ?_))
      · refine sum_congr rfl (fun i _ => ?_)
        rw [hrhs]
        congr 2
        refine sum_congr rfl (fun j _ => ?_)
        rw [hAg]
        congr 1
        have hg : (x.core.set q nrm).getD q 0 = nrm := by simp [hq]
        rw [hg]
        show nrm * (if q = q then c j / nrm else _) = c j
        rw [if_pos rfl]
        field_simp
      · refine sum_congr rfl (fun i _ => ?_)
        rw [hrhs]
        congr 2
        exact sum_congr rfl (fun j _ => by rw [hAg])

/-- C130. With `one_by_one_factor` the exploration strategy visits the columns `1, ..., rank` of the factor `mu` in order, `inner_loops` times,
for each `mu` in order. -/
theorem oneByOne_order (inner rank mu t ind : Nat) (h1 : 1 ≤ mu) (ht : t < inner) (h3 : 1 ≤ ind) (h4 : ind ≤ rank) :
    oneFactor inner rank (((mu - 1) * inner + t) * rank + ind) = mu ∧ oneColumn rank (((mu - 1) * inner + t) * rank + ind) = ind := by
  obtain ⟨m, rfl⟩ : ∃ m, mu = m + 1 := ⟨mu - 1, by omega⟩
  obtain ⟨q, rfl⟩ : ∃ q, ind = q + 1 := ⟨ind - 1, by omega⟩
  rw [show m + 1 - 1 = m from rfl]
  have hr : 0 < rank := by omega
  have hi : 0 < inner := by omega
  constructor
  · unfold oneFactor
    have e : (m * inner + t) * rank + (q + 1) + inner * rank - 1 = (t * rank + q) + (inner * rank) * (m + 1) := by
      have : (m * inner + t) * rank + (q + 1) + inner * rank = (t * rank + q) + (inner * rank) * (m + 1) + 1 := by ring
      omega
    rw [e, Nat.add_mul_div_left _ _ (Nat.mul_pos hi hr), Nat.div_eq_of_lt, zero_add]
    have : (t + 1) * rank ≤ inner * rank := Nat.mul_le_mul_right _ ht
    rw [Nat.add_mul, Nat.one_mul] at this
    omega
  · unfold oneColumn
    have e : (m * inner + t) * rank + (q + 1) + rank - 1 = q + rank * (m * inner + t + 1) := by
      have : (m * inner + t) * rank + (q + 1) + rank = q + rank * (m * inner + t + 1) + 1 := by ring
      omega
    rw [e, Nat.add_mul_div_left _ _ hr, Nat.div_eq_of_lt (by omega), zero_add, Nat.add_sub_cancel, Nat.mul_comm rank]
    omega

theorem one_bounds {inner rank d ind : Nat} (hi : 1 ≤ inner) (hr : 1 ≤ rank) (h1 : 1 ≤ ind) (h2 : ind ≤ inner * rank * d) :
    1 ≤ oneFactor inner rank ind ∧ oneFactor inner rank ind ≤ d ∧ 1 ≤ oneColumn rank ind ∧ oneColumn rank ind ≤ rank := by
  have hp : 0 < inner * rank := Nat.mul_pos hi hr
  have e := Nat.div_add_mod (ind - 1) rank
  have hm := Nat.mod_lt (ind - 1) hr
  have hc : oneColumn rank ind = (ind - 1) % rank + 1 := by
    unfold oneColumn
    have e2 : ind + rank - 1 = (ind - 1) % rank + rank * ((ind - 1) / rank + 1) := by rw [Nat.mul_add]; omega
    rw [e2, Nat.add_mul_div_left _ _ hr, Nat.mod_div_self, zero_add, Nat.add_sub_cancel]
    omega
  refine ⟨?_, ?_, by omega, by omega⟩
  · unfold oneFactor
    rw [Nat.le_div_iff_mul_le hp]
    omega
  · unfold oneFactor
    rw [Nat.div_le_iff_le_mul_add_pred hp]
    omega

/-! ### C131: the algorithm -/

/-- One step: the shape and the rank are kept and the risk does not increase. -/
theorem cnStep_ok (qr : Arr ℝ → Arr ℝ × Arr ℝ) {la : La} (hla : LaOk la) (o : Opts) {md : Mode} {x : Cn ℝ} (hx : WF x) {H : List (Arr ℝ)} {N : Nat}
    (hF : Fit x H N) (y : Nat → ℝ) (hmd : 1 ≤ md.inner) (hd : 3 ≤ x.order ∨ md.columns x = true) {mu : Nat} (h1 : 1 ≤ mu) (h2 : mu ≤ numParams md x) :
    ∃ x' left, cnStep qr la o md H y x mu = .ok (x', left) ∧ Same x x' ∧ risk H y N x' ≤ risk H y N x := by
  unfold cnStep
  by_cases hmu : mu = numParams md x
  · rw [if_pos hmu]
    obtain ⟨x', left, s1, s2, s3, s4⟩ := coreStep_spec la hla o x hx H N hF y
    refine ⟨x', left, s1, s2, ?_⟩
    cases left with
    | true => rw [s3 rfl]
    | false => exact (s4 rfl).2 x.core rfl
  · rw [if_neg hmu]
    by_cases hcol : md.columns x = true
    · rw [if_pos hcol]
      have hnp : numParams md x = md.inner * x.core.length * x.order + 1 := by unfold numParams; rw [if_pos hcol]
      have hr : 1 ≤ x.core.length := by
        rcases Nat.eq_zero_or_pos x.core.length with h | h
        · rw [h] at hnp; simp at hnp; omega
        · exact h
      obtain ⟨b1, b2, b3, b4⟩ := one_bounds (d := x.order) hmd hr h1 (by omega)
      obtain ⟨x', left, s1, s2, s3, s4⟩ := columnStep_spec la hla o x hx H N hF y _ _ b1 b2 b3 b4
      refine ⟨x', left, s1, s2, ?_⟩
      cases left with
      | true => rw [s3 rfl]
      | false =>
        have := (s4 rfl).2.2.2 (factor x _) x.core (factor_shape hx (by omega)) rfl (fun _ _ _ _ _ => rfl) (fun _ _ _ => rfl)
        rw [set_factor_self] at this
        exact this
    · rw [if_neg hcol]
      have hnp : numParams md x = x.order + 1 := by unfold numParams; rw [if_neg hcol]
      have hd3 : 3 ≤ x.order := by rcases hd with h | h; exacts [h, absurd h hcol]
      obtain ⟨x', left, s1, s2, s3, s4⟩ := factorStep_spec qr la hla o x hx H N hF y (by omega) mu h1 (by omega) (.inl (by omega))
      refine ⟨x', left, s1, s2, ?_⟩
      cases left with
      | true => rw [(s3 rfl).1]
      | false =>
        have := (s4 rfl).2 (factor x _) x.core (factor_shape hx (by omega)) rfl
        rw [set_factor_self] at this
        exact this

theorem Same.params {x x' : Cn ℝ} (h : Same x x') (md : Mode) : numParams md x' = numParams md x ∧ md.columns x' = md.columns x := by
  have : md.columns x' = md.columns x := by unfold Mode.columns; rw [h.rank]
  refine ⟨?_, this⟩
  unfold numParams
  rw [this, h.rank, h.order]

/-- A sweep over any list of parameters. -/
theorem sweep_ok (qr : Arr ℝ → Arr ℝ × Arr ℝ) {la : La} (hla : LaOk la) (o : Opts) {md : Mode} {H : List (Arr ℝ)} {N : Nat} (y : Nat → ℝ)
    (hmd : 1 ≤ md.inner) : ∀ (l : List Nat) (x : Cn ℝ), WF x → Fit x H N → (3 ≤ x.order ∨ md.columns x = true) →
      (∀ mu ∈ l, 1 ≤ mu ∧ mu ≤ numParams md x) →
      ∃ x', sweep (cnStep qr la o md H y) l x = .ok x' ∧ Same x x' ∧ risk H y N x' ≤ risk H y N x := by
  intro l
  induction l with
  | nil => intro x hx _ _ _; exact ⟨x, rfl, Same.refl hx, le_rfl⟩
  | cons mu l ih =>
    intro x hx hF hd hl
    obtain ⟨x', left, s1, s2, s3⟩ := cnStep_ok qr hla o hx hF y hmd hd (hl mu (by simp)).1 (hl mu (by simp)).2
    simp only [sweep, s1, bind, Except.bind]
    cases left with
    | true => exact ⟨x', rfl, s2, s3⟩
    | false =>
      obtain ⟨p1, p2⟩ := s2.params md
      obtain ⟨x'', t1, t2, t3⟩ := ih x' s2.wf (s2.fit hF) (by rw [s2.order, p2]; exact hd) (fun mu hmu => by rw [p1]; exact hl mu (by simp [hmu]))
      exact ⟨x'', t1, s2.trans t2, t3.trans s3⟩

/-- C131. `_solve_standard` for a canonical tensor, for every order of the parameters (random or not), every stopping rule and every number of
iterations: it terminates without error, the iterates have the shape and the rank of the initial tensor, and the risks of the initial
tensor, of the iterates and of the returned tensor are nonincreasing. Order at least three, or `one_by_one_factor`. -/
theorem cnSolve_partial (qr : Arr ℝ → Arr ℝ × Arr ℝ) (la : La) (hla : LaOk la) (o : Opts) (md : Mode) (hmd : 1 ≤ md.inner) (H : List (Arr ℝ)) (N : Nat)
    (y : Nat → ℝ) (order : Nat → List Nat) (stop : Nat → Cn ℝ → Cn ℝ → Bool) (maxIter : Nat) (x : Cn ℝ) (hx : WF x) (hF : Fit x H N)
    (hd : 3 ≤ x.order ∨ md.columns x = true) (hord : ∀ it, ∀ mu ∈ order it, mu ∈ strategy md x) :
    ∃ x' its, cnSolve qr la o md H y order stop maxIter x = .ok (x', its) ∧ its.length ≤ maxIter ∧ x' = its.getLastD x ∧
      (∀ z ∈ its, Same x z) ∧ List.IsChain (fun a b => risk H y N b ≤ risk H y N a) (x :: its) ∧ risk H y N x' ≤ risk H y N x := by
  have key : ∀ (num it : Nat) (x : Cn ℝ), WF x → Fit x H N → (3 ≤ x.order ∨ md.columns x = true) → (∀ it, ∀ mu ∈ order it, mu ∈ strategy md x) →
      ∃ its, loop (cnStep qr la o md H y) order stop num it x = .ok its ∧ its.length ≤ num ∧ (∀ z ∈ its, Same x z) ∧
        List.IsChain (fun a b => risk H y N b ≤ risk H y N a) (x :: its) ∧ risk H y N (its.getLastD x) ≤ risk H y N x := by
    intro num
    induction num with
    | zero => intro it x _ _ _ _; exact ⟨[], rfl, le_rfl, by simp, by simp, le_rfl⟩
    | succ num ih =>
      intro it x hx hF hd hord
      obtain ⟨z, z1, z2, z3⟩ := sweep_ok qr hla o y hmd (order it) x hx hF hd (fun mu hmu => by
        have := List.mem_range'_1.1 (hord it mu hmu)
        omega)
      simp only [loop, z1, bind, Except.bind]
      by_cases hs : stop it z x = true
      · rw [if_pos hs]
        exact ⟨[z], rfl, by simp, by simpa using z2, by simpa using z3, z3⟩
      · rw [if_neg hs]
        obtain ⟨p1, p2⟩ := z2.params md
        obtain ⟨its, i1, i2, i3, i4, i5⟩ := ih (it + 1) z z2.wf (z2.fit hF) (by rw [z2.order, p2]; exact hd)
          (fun it mu hmu => by have := hord it mu hmu; unfold strategy at this ⊢; rw [p1]; exact this)
        simp only [i1]
        refine ⟨z :: its, rfl, by simp; omega, ?_, ?_, ?_⟩
        · intro w hw
          rcases List.mem_cons.1 hw with rfl | h
          · exact z2
          · exact z2.trans (i3 w h)
        · exact List.IsChain.cons_cons z3 i4
        · refine le_trans ?_ z3
          have : (z :: its).getLastD x = its.getLastD z := by cases its <;> simp [List.getLastD]
          rw [this]
          exact i5
  obtain ⟨its, i1, i2, i3, i4, i5⟩ := key maxIter 0 x hx hF hd hord
  refine ⟨_, its, ?_, i2, rfl, i3, i4, i5⟩
  unfold cnSolve
  rw [i1]; rfl

/-! ### order two -/

/-- The step for the first factor of a tensor of order two: the new factor generates the best one. -/
theorem factorStep_two (qr : Arr ℝ → Arr ℝ × Arr ℝ) (hqr : FullTensor.QROk qr) {la : La} (hla : LaOk la) (o : Opts) {x : Cn ℝ} (hx : WF x)
    {H : List (Arr ℝ)} {N : Nat} (hF : Fit x H N) (y : Nat → ℝ) (hd : x.order = 2) (hr : 1 ≤ x.core.length)
    (hn : x.core.length ≤ x.shape.getD 0 0) :
    ∃ x' left, factorStep qr la o H y x 1 = .ok (x', left) ∧ Same x x' ∧
      (left = true → x' = x ∧ ∑ i ∈ range N, y i ^ 2 ≤ risk H y N x) ∧
      (left = false → ∃ (A R : Arr ℝ) (κ : List ℝ), A.shape = [x.shape.getD 0 0, x.core.length] ∧ κ.length = x.core.length ∧
        factor x' 1 = factor x 1 ∧ x'.space = x.space.set 0 (factor x' 0) ∧ (qr A).1 = factor x' 0 ∧ (qr A).2 = R ∧ FullTensor.IsQR A (factor x' 0) R ∧
        (∀ l, l < x.core.length → 0 ≤ κ.getD l 0) ∧
        ∀ (C : Arr ℝ) (core : List ℝ), C.shape = [x.shape.getD 0 0, x.core.length] → core.length = x.core.length →
          risk H y N ⟨x.space.set 0 A, κ⟩ ≤ risk H y N ⟨x.space.set 0 C, core⟩) := by
  have hm : 0 < x.order := by omega
  obtain ⟨g, g1, g2, g3⟩ := paramGrad_factor hx hF (by omega) hm
  simp only [factorStep, g1, bind, Except.bind, show 1 - 1 = 0 from rfl]
  by_cases h0 : ∀ p, p < (factorSystem g).shape.getD 1 0 → olsArr la o (factorSystem g) y p = 0
  · rw [if_pos h0]
    refine ⟨x, true, rfl, Same.refl hx, fun _ => ⟨rfl, ?_⟩, by simp⟩
    have := factor_zero hla o hx hF y hm g2 g3 h0 (factor_shape hx hm) rfl
    rw [set_factor_self] at this
    exact this
  · rw [if_neg h0]
    generalize hM : coefMat (x.shape.getD 0 0) x.core.length (olsArr la o (factorSystem g) y) = M
    have hMs : (normalize M).shape = [x.shape.getD 0 0, x.core.length] := by rw [← hM]; rfl
    have hq := hqr (normalize M) _ _ hMs (by omega) hr
    have hQ : (qr (normalize M)).1.shape = [x.shape.getD 0 0, x.core.length] := by
      obtain ⟨a, b, k, q1, q2, q3, _⟩ := hq
      rw [hMs] at q1
      obtain ⟨rfl, rfl⟩ : x.shape.getD 0 0 = a ∧ x.core.length = b := by simpa using q1
      rw [q3, q2, min_eq_right hn]
    have hset : setFactor qr x 1 M = ⟨x.space.set 0 (qr (normalize M)).1, (List.range x.core.length).map (colNorm M)⟩ := by
      unfold setFactor
      dsimp only
      rw [if_pos ⟨hd, rfl⟩, List.set_set]
    rw [hset]
    have hf0 : factor (⟨x.space.set 0 (qr (normalize M)).1, (List.range x.core.length).map (colNorm M)⟩ : Cn ℝ) 0 = (qr (normalize M)).1 := by
      rw [factor_set _ _ hm, if_pos rfl]
    refine ⟨_, false, rfl, same_set hx hm hQ (by simp), by simp, fun _ => ⟨normalize M, (qr (normalize M)).2, (List.range x.core.length).map (colNorm M), hMs, by simp,
      ?_, ?_, ?_, rfl, ?_, ?_, ?_⟩⟩
    · rw [factor_set _ _ (by omega), if_neg (by omega)]
    · rw [hf0]
    · rw [hf0]
    · rw [hf0]; exact hq
    · intro l hl
      rw [getD_range_map _ hl]
      exact Real.sqrt_nonneg _
    · intro C core hC hc
      exact factor_best hla o hx hF y hm g2 g3 hM.symm hC hc

/-- C131. For a tensor of order two with a rank that is at most the size of the first dimension, and the parameters in the default order
`1, 2, 3`, a sweep does not increase the risk, if the initial tensor is better than the zero function. -/
theorem sweep_two_partial (qr : Arr ℝ → Arr ℝ × Arr ℝ) (hqr : FullTensor.QROk qr) (la : La) (hla : LaOk la) (o : Opts) (md : Mode) (x : Cn ℝ) (hx : WF x)
    (H : List (Arr ℝ)) (N : Nat) (hF : Fit x H N) (y : Nat → ℝ) (hd : x.order = 2) (hr : 1 ≤ x.core.length) (hn : x.core.length ≤ x.shape.getD 0 0)
    (hcol : md.columns x = false) (hy : risk H y N x < ∑ i ∈ range N, y i ^ 2) :
    ∃ x', sweep (cnStep qr la o md H y) (strategy md x) x = .ok x' ∧ Same x x' ∧ risk H y N x' ≤ risk H y N x := by
  have hcn : ¬ md.columns x = true := by rw [hcol]; simp
  have hnp : numParams md x = 3 := by unfold numParams; rw [if_neg hcn, hd]
  have hst : strategy md x = [1, 2, 3] := by unfold strategy; rw [hnp]; rfl
  rw [hst]
  obtain ⟨x1, left, a1, a2, a3, a4⟩ := factorStep_two qr hqr hla o hx hF y hd hr hn
  cases left with
  | true => exact absurd (a3 rfl).2 (not_le.2 hy)
  | false =>
    obtain ⟨A, R, κ, b1, b2, b3, b4, b5, b6, b7, b8, b9⟩ := a4 rfl
    obtain ⟨p1, p2⟩ := a2.params md
    have e1 : cnStep qr la o md H y x 1 = .ok (x1, false) := by
      unfold cnStep; rw [if_neg (by omega), if_neg hcn]; exact a1
    obtain ⟨x2, left2, c1, c2, c3, c4⟩ := factorStep_spec qr la hla o x1 a2.wf H N (a2.fit hF) y (by rw [a2.order]; omega) 2 (by omega) (by rw [a2.order]; omega)
      (.inr (by omega))
    have e2 : cnStep qr la o md H y x1 2 = .ok (x2, left2) := by
      unfold cnStep; rw [p1, p2, if_neg (by omega), if_neg hcn]; exact c1
    -- the best second factor does as well as before the replacement of the first one
    have hx0 : risk H y N ⟨x.space.set 0 A, κ⟩ ≤ risk H y N x := by
      have := b9 (factor x 0) x.core (factor_shape hx (by omega)) rfl
      rw [set_factor_self] at this
      exact this
    let C2 : Arr ℝ := ⟨[x.shape.getD 1 0, x.core.length], fun ij => ∑ l ∈ range x.core.length, R.get [ij.getD 1 0, l] * κ.getD l 0 * (factor x 1).get [ij.getD 0 0, l]⟩
    have hcand : risk H y N ⟨x1.space.set 1 C2, List.replicate x.core.length 1⟩ = risk H y N ⟨x.space.set 0 A, κ⟩ := by
      rw [risk_set a2.wf (a2.fit hF) y (m := 1) (by rw [a2.order]; omega) (by rw [a2.shape, a2.rank]) (by simp [a2.rank]),
        risk_set hx hF y (by omega) b1 b2]
      refine sum_congr rfl (fun i _ => ?_)
      congr 2
      have r1 : ∀ l, rest x1 H 1 i l = fval H (x.shape.getD 0 0) (factor x1 0) 0 i l := by
        intro l
        unfold rest
        rw [a2.order, hd, show (range 2).erase 1 = {0} by decide, prod_singleton, a2.shape]
      have r0 : ∀ l, rest x H 0 i l = fval H (x.shape.getD 1 0) (factor x 1) 1 i l := by
        intro l
        unfold rest
        rw [hd, show (range 2).erase 0 = {1} by decide, prod_singleton]
      obtain ⟨n', r', k, q1, q2, q3, q4, q5, _⟩ := b7
      rw [b1] at q1
      obtain ⟨rfl, rfl⟩ : x.shape.getD 0 0 = n' ∧ x.core.length = r' := by simpa using q1
      rw [min_eq_right hn] at q2
      subst q2
      rw [a2.rank, a2.shape]
      have hA : ∀ l, l < x.core.length → fval H (x.shape.getD 0 0) A 0 i l =
          ∑ s ∈ range x.core.length, fval H (x.shape.getD 0 0) (factor x1 0) 0 i s * R.get [s, l] := by
        intro l hl
        unfold fval
        simp_rw [sum_mul]
        rw [sum_comm]
        refine sum_congr rfl (fun j hj => ?_)
        rw [q5 j l (mem_range.1 hj) hl, mul_sum]
        exact sum_congr rfl (fun s _ => by ring)
      have hC : ∀ s, s < x.core.length → fval H (x.shape.getD 1 0) C2 1 i s =
          ∑ l ∈ range x.core.length, R.get [s, l] * κ.getD l 0 * fval H (x.shape.getD 1 0) (factor x 1) 1 i l := by
        intro s _
        unfold fval
        simp_rw [mul_sum]
        rw [sum_comm]
        refine sum_congr rfl (fun j _ => ?_)
        show _ * (∑ l ∈ range x.core.length, R.get [s, l] * κ.getD l 0 * (factor x 1).get [j, l]) = _
        rw [mul_sum]
        exact sum_congr rfl (fun l _ => by ring)
      have lhs : ∀ s ∈ range x.core.length, (List.replicate x.core.length (1 : ℝ)).getD s 0 * (rest x1 H 1 i s * fval H (x.shape.getD 1 0) C2 1 i s) =
          ∑ l ∈ range x.core.length, fval H (x.shape.getD 0 0) (factor x1 0) 0 i s * (R.get [s, l] * κ.getD l 0 * fval H (x.shape.getD 1 0) (factor x 1) 1 i l) := by
        intro s hs
        have : (List.replicate x.core.length (1 : ℝ)).getD s 0 = 1 := by
          rw [List.getD_eq_getElem _ _ (by simpa using mem_range.1 hs)]; simp
        rw [this, one_mul, r1, hC s (mem_range.1 hs), mul_sum]
      rw [sum_congr rfl lhs, sum_comm]
      refine sum_congr rfl (fun l hl => ?_)
      rw [r0, hA l (mem_range.1 hl), mul_sum, mul_sum]
      exact sum_congr rfl (fun s _ => by ring)
    have hC2s : C2.shape = [x1.shape.getD (2 - 1) 0, x1.core.length] := by rw [a2.shape, a2.rank]
    cases left2 with
    | true =>
      have := (c3 rfl).2 C2 (List.replicate x.core.length 1) hC2s (by simp [a2.rank])
      rw [show 2 - 1 = 1 from rfl, hcand] at this
      exact absurd (this.trans hx0) (not_le.2 hy)
    | false =>
      have h12 := (c4 rfl).2 C2 (List.replicate x.core.length 1) hC2s (by simp [a2.rank])
      rw [show 2 - 1 = 1 from rfl, hcand] at h12
      obtain ⟨s1, s2⟩ := c2.params md
      obtain ⟨x3, left3, d1, d2, d3, d4⟩ := coreStep_spec la hla o x2 c2.wf H N (c2.fit (a2.fit hF)) y
      have e3 : cnStep qr la o md H y x2 3 = .ok (x3, left3) := by
        unfold cnStep; rw [s1, p1, if_pos (by omega)]; exact d1
      have hle : risk H y N x3 ≤ risk H y N x2 := by
        cases left3 with
        | true => rw [d3 rfl]
        | false => exact (d4 rfl).2 x2.core rfl
      refine ⟨x3, ?_, (a2.trans c2).trans d2, (hle.trans h12).trans hx0⟩
      simp only [sweep, e1, e2, e3, bind, Except.bind]
      cases left3 <;> rfl

/-! ### order two with a random order -/

/-- Two bases of two functions at four points: the indicators of the first and of the second binary digit. -/
def twoH : List (Arr ℝ) :=
  [⟨[4, 2], fun ij => if ij.getD 1 0 = ij.getD 0 0 / 2 then 1 else 0⟩, ⟨[4, 2], fun ij => if ij.getD 1 0 = ij.getD 0 0 % 2 then 1 else 0⟩]

/-- The observations: the entries of the identity matrix. -/
def twoY (i : Nat) : ℝ := if i / 2 = i % 2 then 1 else 0

/-- A representation of rank two of the identity matrix. -/
def twoX : Cn ℝ :=
  ⟨[⟨[2, 2], fun ij => if ij.getD 0 0 = 1 ∧ ij.getD 1 0 = 0 then 0 else 1⟩,
    ⟨[2, 2], fun ij => if ij.getD 0 0 = ij.getD 1 0 then 1 else if ij.getD 0 0 = 1 then -1 else 0⟩], [1, 1]⟩

theorem twoX_wf : WF twoX := ⟨by simp [twoX], fun M hM => by simp [twoX] at hM; rcases hM with rfl | rfl <;> exact ⟨2, rfl⟩⟩

theorem twoX_fit : Fit twoX twoH 4 := ⟨rfl, fun k hk => by
  have : k < 2 := hk
  interval_cases k <;> rfl⟩

/-- The risk of a tensor with the shape and the rank of `twoX`. -/
theorem two_risk {z : Cn ℝ} (hS : Same twoX z) : risk twoH twoY 4 z =
    (1 - (z.core.getD 0 0 * ((factor z 0).get [0, 0] * (factor z 1).get [0, 0]) + z.core.getD 1 0 * ((factor z 0).get [0, 1] * (factor z 1).get [0, 1]))) ^ 2 +
    (0 - (z.core.getD 0 0 * ((factor z 0).get [0, 0] * (factor z 1).get [1, 0]) + z.core.getD 1 0 * ((factor z 0).get [0, 1] * (factor z 1).get [1, 1]))) ^ 2 +
    (0 - (z.core.getD 0 0 * ((factor z 0).get [1, 0] * (factor z 1).get [0, 0]) + z.core.getD 1 0 * ((factor z 0).get [1, 1] * (factor z 1).get [0, 1]))) ^ 2 +
    (1 - (z.core.getD 0 0 * ((factor z 0).get [1, 0] * (factor z 1).get [1, 0]) + z.core.getD 1 0 * ((factor z 0).get [1, 1] * (factor z 1).get [1, 1]))) ^ 2 := by
  rw [risk_eq hS.wf (hS.fit twoX_fit), hS.rank, hS.order, hS.shape]
  have e1 : twoX.core.length = 2 := rfl
  have e2 : twoX.order = 2 := rfl
  have e3 : twoX.shape.getD 0 0 = 2 := rfl
  have e4 : twoX.shape.getD 1 0 = 2 := rfl
  rw [e1, e2]
  simp only [sum_range_succ, prod_range_succ, sum_range_zero, prod_range_zero, zero_add, one_mul, e3, e4]
  have f0 : ∀ (C : Arr ℝ) (i l : Nat), fval twoH 2 C 0 i l = (if 0 = i / 2 then 1 else 0) * C.get [0, l] + (if 1 = i / 2 then 1 else 0) * C.get [1, l] := by
    intro C i l
    unfold fval
    rw [sum_range_succ, sum_range_succ, sum_range_zero, zero_add]
    rfl
  have f1 : ∀ (C : Arr ℝ) (i l : Nat), fval twoH 2 C 1 i l = (if 0 = i % 2 then 1 else 0) * C.get [0, l] + (if 1 = i % 2 then 1 else 0) * C.get [1, l] := by
    intro C i l
    unfold fval
    rw [sum_range_succ, sum_range_succ, sum_range_zero, zero_add]
    rfl
  simp only [f0, f1, twoY]
  norm_num

theorem twoX_risk : risk twoH twoY 4 twoX = 0 := by
  rw [two_risk (Same.refl twoX_wf)]
  simp [twoX, factor]

/-- C131. The risk of a tensor of order two may increase in a sweep with a random order: starting from a tensor that interpolates the data,
the sweep `2, 1, 3` (one of the possible results of `randomize_exploration_strategy`, the core is last) always gives a positive risk, whatever the
functions of the linear algebra do within their specifications. -/
theorem sweep_two_increases (qr : Arr ℝ → Arr ℝ × Arr ℝ) (hqr : FullTensor.QROk qr) (la : La) (hla : LaOk la) (o : Opts) :
    risk twoH twoY 4 twoX = 0 ∧ ∃ x', sweep (cnStep qr la o ⟨false, 1⟩ twoH twoY) [2, 1, 3] twoX = .ok x' ∧ 0 < risk twoH twoY 4 x' := by
  refine ⟨twoX_risk, ?_⟩
  have hp : ∀ z, Same twoX z → numParams ⟨false, 1⟩ z = 3 ∧ ¬ (⟨false, 1⟩ : Mode).columns z = true := fun z hz => by
    obtain ⟨p1, p2⟩ := hz.params ⟨false, 1⟩
    rw [p1, p2]
    exact ⟨rfl, by simp [Mode.columns]⟩
  obtain ⟨x1, l1, a1, a2, a3, a4⟩ := factorStep_spec qr la hla o twoX twoX_wf twoH 4 twoX_fit twoY (by decide) 2 (by decide) (by decide) (.inr (by decide))
  have hy : ∑ i ∈ range 4, twoY i ^ 2 = 2 := by
    simp only [sum_range_succ, sum_range_zero, twoY]; norm_num
  have hself : (⟨twoX.space.set (2 - 1) (factor twoX 1), twoX.core⟩ : Cn ℝ) = twoX := set_factor_self 1
  have hl1 : l1 = false := by
    cases l1 with
    | false => rfl
    | true =>
      have := (a3 rfl).2 (factor twoX 1) twoX.core rfl rfl
      rw [hself, twoX_risk, hy] at this
      norm_num at this
  subst hl1
  obtain ⟨b1, b2⟩ := a4 rfl
  have r1 : risk twoH twoY 4 x1 ≤ 0 := by
    have := b2 (factor twoX 1) twoX.core rfl rfl
    rwa [hself, twoX_risk] at this
  have e1 : cnStep qr la o ⟨false, 1⟩ twoH twoY twoX 2 = .ok (x1, false) := by
    obtain ⟨q1, q2⟩ := hp _ (Same.refl twoX_wf)
    unfold cnStep; rw [q1, if_neg (by omega), if_neg q2]; exact a1
  obtain ⟨x2, l2, c1, c2, c3, c4⟩ := factorStep_two qr hqr hla o a2.wf (a2.fit twoX_fit) twoY (by rw [a2.order]; rfl) (by rw [a2.rank]; decide)
    (by rw [a2.rank, a2.shape]; decide)
  have hl2 : l2 = false := by
    cases l2 with
    | false => rfl
    | true =>
      have := (c3 rfl).2.trans r1
      rw [hy] at this
      norm_num at this
  subst hl2
  obtain ⟨A, R, κ, d1, d2, d3, d4, d5, d6, d7, -, -⟩ := c4 rfl
  have hS2 := a2.trans c2
  have e2 : cnStep qr la o ⟨false, 1⟩ twoH twoY x1 1 = .ok (x2, false) := by
    obtain ⟨q1, q2⟩ := hp _ a2
    unfold cnStep; rw [q1, if_neg (by omega), if_neg q2]; exact c1
  obtain ⟨x3, l3, g1, g2, g3, g4⟩ := coreStep_spec la hla o x2 hS2.wf twoH 4 (hS2.fit twoX_fit) twoY
  have e3 : cnStep qr la o ⟨false, 1⟩ twoH twoY x2 3 = .ok (x3, l3) := by
    obtain ⟨q1, q2⟩ := hp _ hS2
    unfold cnStep; rw [q1, if_pos rfl]; exact g1
  have hS3 := hS2.trans g2
  refine ⟨x3, ?_, ?_⟩
  · simp only [sweep, e1, e2, e3, bind, Except.bind]
    cases l3 <;> rfl
  have hsp : x3.space = x2.space := by
    cases l3 with
    | true => rw [g3 rfl]
    | false => exact (g4 rfl).1
  have k0 : factor x3 0 = factor x2 0 := by unfold factor; rw [hsp]
  have k1 : factor x3 1 = factor x1 1 := by unfold factor at d3 ⊢; rw [hsp]; exact d3
  have k2 : factor x1 0 = factor twoX 0 := b1 0 (by decide) (by decide)
  -- the columns of the new first factor are orthogonal
  have horth : (factor x2 0).get [0, 0] * (factor x2 0).get [0, 1] + (factor x2 0).get [1, 0] * (factor x2 0).get [1, 1] = 0 := by
    obtain ⟨n, r, k, q1, q2, q3, q4, q5, q6⟩ := d7
    rw [d1, a2.shape, a2.rank] at q1
    have q1 : [2, 2] = [n, r] := q1
    obtain ⟨rfl, rfl⟩ : 2 = n ∧ 2 = r := by simpa using q1
    have := q6 0 1 (by omega) (by omega)
    simpa [sum_range_succ] using this
  by_contra hcon
  have hz : risk twoH twoY 4 x3 ≤ 0 := not_lt.1 hcon
  rw [two_risk hS3, k0, k1] at hz
  rw [two_risk a2, k2] at r1
  have t00 : (factor twoX 0).get [0, 0] = 1 := by simp [twoX, factor]
  have t01 : (factor twoX 0).get [0, 1] = 1 := by simp [twoX, factor]
  have t10 : (factor twoX 0).get [1, 0] = 0 := by simp [twoX, factor]
  have t11 : (factor twoX 0).get [1, 1] = 1 := by simp [twoX, factor]
  rw [t00, t01, t10, t11] at r1
  generalize (factor x1 1).get [0, 0] = D00 at *
  generalize (factor x1 1).get [0, 1] = D01 at *
  generalize (factor x1 1).get [1, 0] = D10 at *
  generalize (factor x1 1).get [1, 1] = D11 at *
  generalize (factor x2 0).get [0, 0] = Q00 at *
  generalize (factor x2 0).get [0, 1] = Q01 at *
  generalize (factor x2 0).get [1, 0] = Q10 at *
  generalize (factor x2 0).get [1, 1] = Q11 at *
  generalize x1.core.getD 0 0 = u at *
  generalize x1.core.getD 1 0 = v at *
  generalize x3.core.getD 0 0 = s at *
  generalize x3.core.getD 1 0 = t at *
  have four : ∀ a b c d : ℝ, a ^ 2 + b ^ 2 + c ^ 2 + d ^ 2 ≤ 0 → a = 0 ∧ b = 0 ∧ c = 0 ∧ d = 0 := by
    intro a b c d h
    refine ⟨?_, ?_, ?_, ?_⟩ <;> nlinarith [sq_nonneg a, sq_nonneg b, sq_nonneg c, sq_nonneg d]
  obtain ⟨m1, m2, m3, m4⟩ := four _ _ _ _ r1
  obtain ⟨n1, n2, n3, n4⟩ := four _ _ _ _ hz
  have v11 : v * D11 = 1 := by linarith
  have v01 : v * D01 = 0 := by linarith
  have hv : v ≠ 0 := by rintro rfl; simp at v11
  have D01z : D01 = 0 := by rcases mul_eq_zero.1 v01 with h | h; exacts [absurd h hv, h]
  subst D01z
  have u00 : u * D00 = 1 := by linarith
  have hD : D00 ≠ 0 := by rintro rfl; simp at u00
  have u10 : u * D10 = -1 := by linarith
  have q10 : s * Q10 = 0 := by
    have : s * Q10 * D00 = 0 := by linarith
    rcases mul_eq_zero.1 this with h | h; exacts [h, absurd h hD]
  have q00 : s * Q00 = u := by
    have : s * Q00 * D00 = u * D00 := by linarith
    exact mul_right_cancel₀ hD this
  have hs : s ≠ 0 := by
    rintro rfl
    rw [zero_mul] at q00
    rw [← q00] at u00; simp at u00
  have Q10z : Q10 = 0 := by rcases mul_eq_zero.1 q10 with h | h; exacts [absurd h hs, h]
  subst Q10z
  have p : t * (Q01 * D11) = 1 := by
    have : s * (Q00 * D10) = -1 := by rw [← mul_assoc, q00, u10]
    linarith
  have hQ00 : Q00 ≠ 0 := by rintro rfl; rw [mul_zero] at q00; rw [← q00] at u00; simp at u00
  have hQ01 : Q01 = 0 := by
    rw [zero_mul, add_zero] at horth
    rcases mul_eq_zero.1 horth with h | h; exacts [absurd h hQ00, h]
  rw [hQ01] at p
  simp at p

/-! ### the hypotheses are met -/

/-- Functions of the linear algebra with the required properties exist, for every test of the conditioning. -/
example : (∃ la : La, LaOk la) ∧ ∃ qr, FullTensor.QROk (R := ℝ) qr :=
  ⟨⟨_, (exists_la (fun _ => false)).choose_spec.1⟩, FullTensor.exists_qr⟩

/-- A tensor of order three and rank two, bases evaluated at two points. -/
noncomputable def exCn : Cn ℝ := ⟨List.replicate 3 ⟨[2, 2], fun ij => (ij.getD 0 0 : ℝ) + ij.getD 1 0⟩, [1, 2]⟩
noncomputable def exCnH : List (Arr ℝ) := List.replicate 3 ⟨[2, 2], fun ij => (ij.getD 0 0 : ℝ) + 2 * ij.getD 1 0⟩

theorem exCn_data : WF exCn ∧ Fit exCn exCnH 2 ∧ exCn.order = 3 ∧ strategy ⟨false, 1⟩ exCn = [1, 2, 3, 4] ∧
    strategy ⟨true, 1⟩ exCn = [1, 2, 3, 4, 5, 6, 7] := by
  refine ⟨⟨by simp [exCn], fun M hM => ⟨2, by rw [List.eq_of_mem_replicate hM]; rfl⟩⟩, ⟨rfl, fun k hk => ?_⟩, rfl, rfl, rfl⟩
  have : k < 3 := hk
  interval_cases k <;> rfl

/-- All the conclusions for this tensor, in the two modes. -/
example (o : Opts) (md : Mode) (hmd : 1 ≤ md.inner) : ∃ (qr : Arr ℝ → Arr ℝ × Arr ℝ) (la : La), LaOk la ∧ ∃ x' its,
    cnSolve qr la o md exCnH (fun i => i) (fun _ => strategy md exCn) (fun _ _ _ => false) 5 exCn = .ok (x', its) ∧
      risk exCnH (fun i => i) 2 x' ≤ risk exCnH (fun i => i) 2 exCn := by
  obtain ⟨qr, hqr⟩ := FullTensor.exists_qr
  obtain ⟨la, hla, -⟩ := exists_la (fun _ => false)
  obtain ⟨x', its, h1, -, -, -, -, h2⟩ := cnSolve_partial qr la hla o md hmd exCnH 2 (fun i => i) (fun _ => strategy md exCn) (fun _ _ _ => false) 5 exCn
    exCn_data.1 exCn_data.2.1 (.inl le_rfl) (fun _ _ h => h)
  exact ⟨qr, la, hla, x', its, h1, h2⟩

/-- The hypotheses of `sweep_two_partial`. -/
example : WF twoX ∧ Fit twoX twoH 4 ∧ twoX.order = 2 ∧ twoX.core.length ≤ twoX.shape.getD 0 0 ∧ risk twoH twoY 4 twoX < ∑ i ∈ range 4, twoY i ^ 2 := by
  refine ⟨twoX_wf, twoX_fit, rfl, by decide, ?_⟩
  rw [twoX_risk]
  simp only [sum_range_succ, sum_range_zero, twoY]; norm_num

end Verif.Canonical
