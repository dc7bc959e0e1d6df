import Verif.Model.FunctionalProduct
import Verif.Props.PolyBasis

/-!
# Products of bases of polynomials (C202)
-/

namespace Verif.SubBasis

open Verif.Arr Verif.Pca Verif.MultiIndices Finset Verif.Polynomials Polynomial

/-- `m` is the largest of the indices. -/
def IsMax (ind : List ℕ) (m : ℕ) : Prop := m ∈ ind ∧ ∀ i ∈ ind, i ≤ m

theorem npMax_isMax {ind : List ℕ} {m : ℕ} (h : IsMax ind m) : npMax ind = .ok m := by
  obtain ⟨m', h1, h2, h3⟩ := npMax_spec ind (List.ne_nil_of_mem h.1)
  rw [h1, le_antisymm (h.2 _ h2) (h3 _ h.1)]

theorem kronColumns_get {F G : Arr ℝ} {N c1 c2 : ℕ} (hF : F.shape = [N, c1]) (hG : G.shape = [N, c2]) :
    (kronColumns F G).shape = [N, c1 * c2] ∧
      ∀ p t, (kronColumns F G).get [p, t] = F.get [p, t % c1] * G.get [p, t / c1] := by
  unfold kronColumns
  rw [hF, hG]
  exact ⟨rfl, fun p t => rfl⟩

/-- C202, what is proved: `kron(q)` returns a sub-basis of the polynomials of degrees `0, …, m - 1`, where `m` is the sum of the largest indices,
with `c1 * c2` functions. Its matrix has `c1` rows and its entry `(k, t)` is the mean of the product of `φ_k'` and of the functions `i` and `j`
of the two bases, with `k' = t % c1` and `i + c1 * j = k * c2 + t / c1`. -/
theorem polyKron_partial {eig : Eig} (heig : EigOk eig) (μ : Meas) (h : μ.Proper) (hp : μ.IsProba) (q : ℕ → ℝ[X])
    (hq : Evaluates μ q) (ind ind' : List ℕ) (m1 m2 : ℕ) (h1 : IsMax ind m1) (h2 : IsMax ind' m2) (hm : 0 < m1 + m2) :
    ∃ S, polyKron eig μ ind ind' = .ok S ∧ S.under = polyBasis eig μ (List.range (m1 + m2)) ∧
      S.basis.shape = [ind.length, ind.length * ind'.length] ∧
      ∀ k < ind.length, ∀ t < ind.length * ind'.length, S.basis.get [k, t] =
        μ.E (fun x => polyFns q ind (t % ind.length) x *
          (polyFns q ind ((k * ind'.length + t / ind.length) % ind.length) x *
            polyFns q ind' ((k * ind'.length + t / ind.length) / ind.length) x)) := by
  have hi := List.ne_nil_of_mem h1.1
  have hi' := List.ne_nil_of_mem h2.1
  have hc1 : 0 < ind.length := List.length_pos_iff.2 hi
  have hc2 : 0 < ind'.length := List.length_pos_iff.2 hi'
  obtain ⟨r, r1, r2, _, r4, _, r6⟩ := gauss_spec heig μ h (2 * (m1 + m2)) (by omega)
  obtain ⟨A, a1, a2, a3⟩ := polyEval_ok hq hi r.points
  obtain ⟨B, b1, b2, b3⟩ := polyEval_ok hq hi' r.points
  obtain ⟨_, hqd, hqdeg⟩ := polyval_polynomials μ h
  obtain rfl : q = _ := (evaluates_eq hq).trans (evaluates_eq hqd).symm
  obtain ⟨y2, y3⟩ := kronColumns_get a2 b2
  obtain ⟨y, hy⟩ : ∃ y, y = kronColumns A B := ⟨_, rfl⟩
  rw [← hy] at y2 y3
  obtain ⟨u, hu⟩ : ∃ u, u = quasiCoeffs A r.weights y := ⟨_, rfl⟩
  have hus : u.shape = [ind.length, ind.length * ind'.length] := by rw [hu]; unfold quasiCoeffs; rw [a2, y2]; rfl
  have hmem : ∀ (ind : List ℕ) j (hj : j < ind.length), ind.getD j 0 ∈ ind := fun ind j hj => by
    rw [List.getD_eq_getElem ind _ hj]; exact List.getElem_mem _
  have huv : ∀ k < ind.length, ∀ l < ind.length * ind'.length, u.get [k, l] =
      μ.E (fun x => polyFns q ind k x * (polyFns q ind (l % ind.length) x * polyFns q ind' (l / ind.length) x)) := by
    intro k hk l hl
    have hl1 : l % ind.length < ind.length := Nat.mod_lt _ hc1
    have hl2 : l / ind.length < ind'.length := by rw [Nat.div_lt_iff_lt_mul hc1, mul_comm]; exact hl
    have hdeg : (q (ind.getD k 0) * (q (ind.getD (l % ind.length) 0) * q (ind'.getD (l / ind.length) 0))).natDegree
        ≤ 2 * (2 * (m1 + m2)) - 1 := by
      have d1 := h1.2 _ (hmem ind k hk)
      have d2 := h1.2 _ (hmem ind _ hl1)
      have d3 := h2.2 _ (hmem ind' _ hl2)
      have d4 := natDegree_mul_le (p := q (ind.getD k 0)) (q := q (ind.getD (l % ind.length) 0) * q (ind'.getD (l / ind.length) 0))
      have d5 := natDegree_mul_le (p := q (ind.getD (l % ind.length) 0)) (q := q (ind'.getD (l / ind.length) 0))
      rw [hqdeg] at d4
      rw [hqdeg, hqdeg] at d5
      omega
    have hint := r6 _ hdeg
    unfold Grids.Rule.integrate at hint
    rw [if_neg (by rw [r2, r4]; simp)] at hint
    have hint := Except.ok.inj hint
    simp only [eval_mul] at hint
    unfold polyFns
    rw [← hint, hu]
    unfold quasiCoeffs
    simp only [List.getD_cons_zero, List.getD_cons_succ]
    rw [a2]
    simp only [List.getD_cons_zero]
    rw [zipWith_sum_range (fun p => eval p (q (ind.getD k 0)) * (eval p (q (ind.getD (l % ind.length) 0)) *
      eval p (q (ind'.getD (l / ind.length) 0)))) r.points r.weights (by rw [r2, r4]), Finset.sum_range]
    refine sum_congr rfl (fun p _ => ?_)
    rw [a3 p p.2 k hk, y3, a3 p p.2 _ hl1, b3 p p.2 _ hl2]
    unfold polyFns
    simp only [Fin.getElem_fin]
    ring
  have hfba : Bases.FBA.mk' u ind.length [ind.length * ind'.length] = .ok ⟨⟨[ind.length, ind.length * ind'.length],
      fun idx => u.get (unravelF u.shape (ravelC [ind.length, ind.length * ind'.length] idx))⟩, ind.length, [ind.length * ind'.length]⟩ := by
    unfold Bases.FBA.mk'
    rw [if_neg (by rw [hus]; simp)]
  obtain ⟨D, hD⟩ : ∃ D : Arr ℝ, D = ⟨[ind.length, ind.length * ind'.length],
      fun idx => u.get (unravelF u.shape (ravelC [ind.length, ind.length * ind'.length] idx))⟩ := ⟨_, rfl⟩
  rw [← hD] at hfba
  have hDs : D.shape = [ind.length, ind.length * ind'.length] := by rw [hD]
  have hDv : ∀ k < ind.length, ∀ t < ind.length * ind'.length,
      D.get [k, t] = u.get [t % ind.length, k * ind'.length + t / ind.length] := by
    intro k hk t ht
    rw [hD]
    show u.get (unravelF u.shape (ravelC [ind.length, ind.length * ind'.length] [k, t])) = _
    rw [hus]
    congr 1
    have hr : ravelC [ind.length, ind.length * ind'.length] [k, t] = t + ind.length * (k * ind'.length) := by simp [ravelC]; ring
    rw [hr]
    have e1 : (t + ind.length * (k * ind'.length)) % ind.length = t % ind.length := Nat.add_mul_mod_self_left _ _ _
    have e2 : (t + ind.length * (k * ind'.length)) / ind.length = k * ind'.length + t / ind.length := by
      rw [Nat.add_mul_div_left _ _ hc1, add_comm]
    have e3 : k * ind'.length + t / ind.length < ind.length * ind'.length := by
      have : t / ind.length < ind'.length := by rw [Nat.div_lt_iff_lt_mul hc1, mul_comm]; exact ht
      calc k * ind'.length + t / ind.length < k * ind'.length + ind'.length := by omega
        _ = (k + 1) * ind'.length := by ring
        _ ≤ _ := Nat.mul_le_mul_right _ hk
    simp [unravelF, e1, e2, Nat.mod_eq_of_lt e3]
  obtain ⟨S, s1, s2, s3⟩ := mk_ok (polyBasis eig μ (List.range (m1 + m2))) hDs
  refine ⟨S, ?_, s2, by rw [s3]; exact hDs, ?_⟩
  · simp only [polyKron, npMax_isMax h1, npMax_isMax h2, r1, a1, b1, bind, Except.bind]
    rw [← hy, ← hu, hfba]
    exact s1
  · intro k hk t ht
    have e1 := Nat.mod_lt t hc1
    have e3 : k * ind'.length + t / ind.length < ind.length * ind'.length := by
      have : t / ind.length < ind'.length := by rw [Nat.div_lt_iff_lt_mul hc1, mul_comm]; exact ht
      calc k * ind'.length + t / ind.length < k * ind'.length + ind'.length := by omega
        _ = (k + 1) * ind'.length := by ring
        _ ≤ _ := Nat.mul_le_mul_right _ hk
    rw [s3, hDv k hk t ht, huv _ e1 _ e3]

/-- C202 is false of the code, whatever the bases: if `c1` is not `m`, all the evaluations of `kron(q)` fail, and otherwise the functions of `kron(q)`
are polynomials of degree less than `m`, so that none of them is the product of the polynomials of largest degrees of the two bases. -/
theorem polyKron_wrong {eig : Eig} (heig : EigOk eig) (μ : Meas) (h : μ.Proper) (hp : μ.IsProba) (q : ℕ → ℝ[X])
    (hq : Evaluates μ q) (ind ind' : List ℕ) (m1 m2 : ℕ) (h1 : IsMax ind m1) (h2 : IsMax ind' m2) (hm : 0 < m1 + m2) :
    ∃ S, polyKron eig μ ind ind' = .ok S ∧
      (ind.length ≠ m1 + m2 → ∀ xs, S.toBasis.eval xs = .error .valueError) ∧
      (ind.length = m1 + m2 → ∃ ψ, Fns S.toBasis ψ) ∧
      ∀ ψ, Fns S.toBasis ψ → ∀ j < S.toBasis.card, ψ j ≠ fun x => (q m1).eval x * (q m2).eval x := by
  obtain ⟨S, s1, s2, s3, -⟩ := polyKron_partial heig μ h hp q hq ind ind' m1 m2 h1 h2 hm
  have hr : List.range (m1 + m2) ≠ [] := by simp; omega
  have hF := (polyBasis_fns eig μ q hq (List.range (m1 + m2)) hr).2
  have hcol := columns_ok S.basis s3 (List.range (ind.length * ind'.length)) (fun j hj => List.mem_range.1 hj)
  have hcard : S.cardinal = ind.length * ind'.length := by unfold Sub.cardinal; rw [s3]; rfl
  have herr : ind.length ≠ m1 + m2 → ∀ xs, S.toBasis.eval xs = .error .valueError := by
    intro hne xs
    obtain ⟨H, e1, e2, _⟩ := hF xs
    show S.eval xs none = _
    rw [← s2] at e1
    simp only [Sub.eval, e1, Option.getD_none, hcard, hcol, bind, Except.bind]
    unfold matmul
    rw [e2, if_pos]
    simp only [List.getD_cons_zero, List.getD_cons_succ, s2]
    intro e
    exact hne (e.symm.trans List.length_range)
  have hfns : ind.length = m1 + m2 → Fns S.toBasis (combo S.basis S.under.card (polyFns q (List.range (m1 + m2)))) := by
    intro he
    exact (sub_fns S _ (by rw [s2]; exact hF) (r := ind.length * ind'.length) (by
      rw [s3, s2]; show _ = [(List.range (m1 + m2)).length, _]; rw [List.length_range, he])).2
  refine ⟨S, s1, herr, fun he => ⟨_, hfns he⟩, ?_⟩
  intro ψ hψ j hj heq
  by_cases he : ind.length = m1 + m2
  · obtain ⟨_, hqd, hqdeg⟩ := polyval_polynomials μ h
    obtain rfl : q = _ := (evaluates_eq hq).trans (evaluates_eq hqd).symm
    have hval : ∀ x, (q m1 * q m2).eval x = (∑ i ∈ range (m1 + m2), C (S.basis.get [i, j]) * q i).eval x := by
      intro x
      obtain ⟨H, e1, _, e3⟩ := hψ [x]
      obtain ⟨H', e1', _, e3'⟩ := hfns he [x]
      rw [e1] at e1'; cases e1'
      have := (e3 0 (by simp) j hj).symm.trans (e3' 0 (by simp) j hj)
      rw [heq] at this
      simp only [List.getElem_cons_zero] at this
      rw [eval_mul, this, eval_finset_sum]
      unfold combo
      have hc : S.under.card = m1 + m2 := by rw [s2]; exact List.length_range
      rw [hc]
      refine sum_congr rfl (fun i hi => ?_)
      unfold polyFns
      rw [eval_mul, eval_C, List.getD_eq_getElem _ _ (by simpa using hi), List.getElem_range]
    have hpoly := Polynomial.funext hval
    have h0 := (two_polys h hp _ hq).1
    have hne : ∀ i, q i ≠ 0 := by
      intro i hz
      have hi := hqdeg i
      rw [hz, natDegree_zero] at hi
      subst hi
      have := h0 0
      rw [hz, eval_zero] at this
      exact zero_ne_one this
    have hd1 : (q m1 * q m2).natDegree = m1 + m2 := by rw [natDegree_mul (hne _) (hne _), hqdeg, hqdeg]
    have hd2 : (∑ i ∈ range (m1 + m2), C (S.basis.get [i, j]) * q i).natDegree ≤ m1 + m2 - 1 := by
      refine natDegree_sum_le_of_forall_le _ _ (fun i hi => ?_)
      have := mem_range.1 hi
      refine (natDegree_C_mul_le _ _).trans ?_
      rw [hqdeg]; omega
    rw [← hpoly, hd1] at hd2
    omega
  · obtain ⟨H, e1, _⟩ := hψ []
    rw [herr he []] at e1
    cases e1

/-- The hypotheses are met: the basis `1, x` of a uniform variable times itself. The result spans nothing of degree 2: the products of the
two polynomials of degree 1 are not in it. -/
example {eig : Eig} (heig : EigOk eig) : ∃ q : ℕ → ℝ[X], Evaluates (.uniform 0 3) q ∧
    ∃ S, polyKron eig (.uniform 0 3) [0, 1] [0, 1] = .ok S ∧ (∃ ψ, Fns S.toBasis ψ) ∧
      ∀ ψ, Fns S.toBasis ψ → ∀ j < S.toBasis.card, ψ j ≠ fun x => (q 1).eval x * (q 1).eval x := by
  have hm : (Meas.uniform 0 3).Proper := by show (0 : ℝ) < 3; norm_num
  obtain ⟨_, hq, _⟩ := polyval_polynomials (.uniform 0 3) hm
  have h1 : IsMax [0, 1] 1 := ⟨by simp, by simp⟩
  obtain ⟨S, s1, _, s3, s4⟩ := polyKron_wrong heig _ hm trivial _ hq [0, 1] [0, 1] 1 1 h1 h1 (by norm_num)
  exact ⟨_, hq, S, s1, s3 rfl, s4⟩

/-- The hypotheses are met, with the error: `1, x, x²` times itself. -/
example {eig : Eig} (heig : EigOk eig) :
    ∃ S, polyKron eig (.uniform 0 3) [0, 1, 2] [0, 1, 2] = .ok S ∧ ∀ xs, S.toBasis.eval xs = .error .valueError := by
  have hm : (Meas.uniform 0 3).Proper := by show (0 : ℝ) < 3; norm_num
  obtain ⟨_, hq, _⟩ := polyval_polynomials (.uniform 0 3) hm
  have h1 : IsMax [0, 1, 2] 2 := ⟨by simp, by simp⟩
  obtain ⟨S, s1, s2, _⟩ := polyKron_wrong heig _ hm trivial _ hq [0, 1, 2] [0, 1, 2] 2 2 h1 h1 (by norm_num)
  exact ⟨S, s1, s2 (by decide)⟩

end Verif.SubBasis
