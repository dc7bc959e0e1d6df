import Verif.Props.Polynomials
import Mathlib.Analysis.Matrix.Spectrum
import Mathlib.Algebra.Polynomial.Roots

/-!
# Roots, Gauss rules and moments
-/

namespace Verif.Polynomials

open Polynomial Verif.Grids

noncomputable section

/-- Functions as `np.linalg.eig` exist. -/
theorem exists_eig : ∃ eig : Eig, EigOk eig := by
  have key : ∀ (n : ℕ) (J : Matrix (Fin n) (Fin n) ℝ), ∃ p : (Fin n → ℝ) × Matrix (Fin n) (Fin n) ℝ,
      (∀ i j, J i j = J j i) → IsEig J p.1 p.2 := by
    intro n J
    by_cases hJ : ∀ i j, J i j = J j i
    · have hH : J.IsHermitian := by
        ext i j
        rw [Matrix.conjTranspose_apply]
        simp [hJ i j]
      refine ⟨(hH.eigenvalues, fun i k => hH.eigenvectorBasis k i), fun _ => ⟨fun i k => ?_, fun k => ?_, ?_⟩⟩
      · have := congrFun (hH.mulVec_eigenvectorBasis k) i
        simpa [Matrix.mulVec, _root_.dotProduct] using this
      · have h1 := hH.eigenvectorBasis.orthonormal.1 k
        rw [EuclideanSpace.norm_eq] at h1
        have h2 := Real.sqrt_eq_one.1 h1
        simpa using h2
      · have hT : (Matrix.of (fun i k => hH.eigenvectorBasis k i) : Matrix (Fin n) (Fin n) ℝ).transpose
            * Matrix.of (fun i k => hH.eigenvectorBasis k i) = 1 := by
          ext k l
          rw [Matrix.mul_apply, Matrix.one_apply]
          have h1 := (orthonormal_iff_ite.1 hH.eigenvectorBasis.orthonormal) k l
          rw [PiLp.inner_apply] at h1
          simp only [RCLike.inner_apply, conj_trivial] at h1
          rw [← h1]
          exact Finset.sum_congr rfl (fun i _ => by simp [Matrix.transpose_apply, mul_comm])
        intro h0
        have hd := congrArg Matrix.det hT
        rw [Matrix.det_mul, Matrix.det_transpose, Matrix.det_one] at hd
        have h0' : (Matrix.of (fun i k => hH.eigenvectorBasis k i) : Matrix (Fin n) (Fin n) ℝ).det = 0 := h0
        rw [h0'] at hd
        simp at hd
    · exact ⟨(fun _ => 0, 1), fun h => absurd h hJ⟩
  choose eig heig using key
  exact ⟨eig, fun n J h => heig n J h⟩

/-! ## Roots -/

theorem mem_npSort {n : ℕ} (v : Fin n → ℝ) (x : ℝ) : x ∈ npSort v ↔ ∃ k, v k = x := by
  rw [npSort_eq, List.mem_map]
  constructor
  · rintro ⟨k, _, h⟩; exact ⟨k, h⟩
  · rintro ⟨k, h⟩; exact ⟨k, (argsort_perm v).mem_iff.2 (List.mem_finRange k), h⟩

theorem npSort_length {n : ℕ} (v : Fin n → ℝ) : (npSort v).length = n := by
  rw [npSort_eq, List.length_map, (argsort_perm v).length_eq, List.length_finRange]

/-- A list of `n` distinct zeros of a polynomial of degree `n` contains them all. -/
theorem roots_all {q : ℝ[X]} {l : List ℝ} (hd : q ≠ 0) (hl : q.natDegree = l.length) (hn : l.Nodup)
    (h0 : ∀ x ∈ l, q.eval x = 0) (x : ℝ) : x ∈ l ↔ q.eval x = 0 := by
  refine ⟨h0 x, fun hx => ?_⟩
  have hsub : l.toFinset ⊆ q.roots.toFinset := by
    intro y hy
    rw [Multiset.mem_toFinset, mem_roots hd]
    exact h0 y (List.mem_toFinset.1 hy)
  have hc : q.roots.toFinset.card ≤ l.toFinset.card := by
    rw [List.toFinset_card_of_nodup hn, ← hl]
    exact le_trans (Multiset.toFinset_card_le _) (card_roots' q)
  have he := Finset.eq_of_subset_of_card_le hsub hc
  have : x ∈ q.roots.toFinset := by
    rw [Multiset.mem_toFinset, mem_roots hd]; exact hx
  rw [← he] at this
  exact List.mem_toFinset.1 this

/-- **C87.** `roots(n)` is the increasing list of the `n` zeros of the polynomial `n`, which are real and simple. -/
theorem roots_spec {eig : Eig} (heig : EigOk eig) (μ : Meas) (h : μ.Proper) (q : ℕ → ℝ[X]) (hq : Evaluates μ q)
    (n : ℕ) (hn : 0 < n) :
    ∃ l, μ.orthonormalPolynomials.roots eig n = .ok l ∧ l.length = n ∧ l.Pairwise (· < ·) ∧
      ∀ x, x ∈ l ↔ (q n).eval x = 0 := by
  rw [evaluates_eq hq]
  obtain ⟨q', hq', hdeg⟩ := polyval_polynomials μ h
  rw [evaluates_eq hq'] at hdeg
  have hbn : ∀ i, 1 ≤ i → i ≤ n → 0 < μ.fam.b i := fun i hi _ => family_b_pos _ i hi
  obtain ⟨lam, V, hE, hr, _, _⟩ := gaussRule_spec heig (family_rec μ.fam) hn trivial hbn
  have hs := μ.s_pos h
  have hroot : ∀ k, (polys μ n).eval (μ.m + μ.s * lam k) = 0 := by
    intro k
    have e := congrArg (eval (lam k)) (polys_comp μ h n)
    rw [eval_comp] at e
    simp only [eval_add, eval_C, eval_mul, eval_X] at e
    rw [e, eig_root hn hbn (fun _ _ => rfl) hE k, mul_zero]
  have hinj := eig_injective hn hbn (fun _ _ => rfl) hE
  have hsort : ((npSort lam).map (fun x => μ.m + μ.s * x)).Pairwise (· < ·) := by
    rw [List.pairwise_map]
    refine (npSort_pairwise lam hinj).imp (fun {x y} hxy => ?_)
    have := mul_lt_mul_of_pos_left hxy hs
    linarith
  have hroots : μ.orthonormalPolynomials.roots eig n = .ok ((npSort lam).map (fun x => μ.m + μ.s * x)) := by
    unfold Shifted.roots
    unfold Meas.fam at hr
    split
    · next hn' =>
      have hm0 : μ.m = 0 := by unfold Meas.m; rw [hn']; rfl
      have hs1 : μ.s = 1 := by unfold Meas.s; rw [hn']; rfl
      rw [hr, hm0, hs1]
      simp
    · next m s hn' =>
      have hm0 : μ.m = m := by unfold Meas.m; rw [hn']; rfl
      have hs1 : μ.s = s := by unfold Meas.s; rw [hn']; rfl
      rw [hr, hm0, hs1]
      rfl
  refine ⟨_, hroots, ?_, hsort, fun x => ?_⟩
  · rw [List.length_map, npSort_length]
  · have hne : polys μ n ≠ 0 := by
      intro h0
      have := hdeg n
      rw [h0] at this
      simp at this
      omega
    refine roots_all hne (by rw [hdeg, List.length_map, npSort_length]) (hsort.imp (fun h => ne_of_lt h)) ?_ x
    intro y hy
    obtain ⟨z, hz, rfl⟩ := List.mem_map.1 hy
    obtain ⟨k, rfl⟩ := (mem_npSort lam z).1 hz
    exact hroot k

/-! ## Gauss rules -/

theorem natDegree_comp_aff {m s : ℝ} (hs : s ≠ 0) (q : ℝ[X]) : (q.comp (C m + C s * X)).natDegree = q.natDegree := by
  rw [natDegree_comp, natDegree_aff hs, mul_one]

theorem integrate_rule {n : ℕ} (lam : Fin n → ℝ) (g : Fin n → ℝ) (m s : ℝ) (f : ℝ → ℝ) :
    (⟨(npSort lam).map (fun x => m + s * x), (argsort lam).map g⟩ : Rule ℝ ℝ).integrate f
      = .ok (∑ k, g k * f (m + s * lam k)) := by
  unfold Rule.integrate
  rw [if_neg (by rw [npSort_eq]; simp), npSort_eq, List.map_map, List.zipWith_map, List.zipWith_self, ← sum_argsort lam]
  congr 2
  refine List.map_congr_left (fun k _ => ?_)
  simp only [Function.comp_apply]
  ring

/-- **C88.** The Gauss rule with `n` points of a uniform or normal random variable or of the Lebesgue measure on an interval
has `n` distinct points in increasing order and positive weights, and integrates exactly every polynomial of degree at most
`2n - 1`. -/
theorem gauss_spec {eig : Eig} (heig : EigOk eig) (μ : Meas) (h : μ.Proper) (n : ℕ) (hn : 0 < n) :
    ∃ r : Rule ℝ ℝ, μ.gauss eig n = .ok r ∧ r.points.length = n ∧ r.points.Pairwise (· < ·) ∧
      r.weights.length = n ∧ (∀ w ∈ r.weights, 0 < w) ∧
      ∀ q : ℝ[X], q.natDegree ≤ 2 * n - 1 → r.integrate (fun x => q.eval x) = .ok (μ.E (fun x => q.eval x)) := by
  have hbn : ∀ i, 1 ≤ i → i ≤ n → 0 < μ.fam.b i := fun i hi _ => family_b_pos _ i hi
  -- the family of the rule: the probability of the same support for the Lebesgue measure
  have key : ∀ ν : Meas, ν.Proper → ∃ (lam : Fin n → ℝ) (g : Fin n → ℝ),
      gaussRule eig ν.orthonormalPolynomials.family.poly ν.orthonormalPolynomials.shifted n
        = .ok ⟨(npSort lam).map (fun x => ν.m + ν.s * x), (argsort lam).map g⟩ ∧
      Function.Injective lam ∧ (∀ k, 0 < g k) ∧
      ∀ q : ℝ[X], q.natDegree ≤ 2 * n - 1 → ∑ k, g k * q.eval (ν.m + ν.s * lam k) = ν.fam.L (q.comp (C ν.m + C ν.s * X)) := by
    intro ν hν
    have hbn : ∀ i, 1 ≤ i → i ≤ n → 0 < ν.fam.b i := fun i hi _ => family_b_pos _ i hi
    obtain ⟨lam, V, hE, _, hg, hg'⟩ := gaussRule_spec heig (family_rec ν.fam) hn trivial hbn
    refine ⟨lam, fun k => V ⟨0, hn⟩ k ^ 2, ?_, eig_injective hn hbn (fun _ _ => rfl) hE,
      fun k => by have := first_ne hn hbn (fun _ _ => rfl) hE k; positivity, fun q hq => ?_⟩
    · unfold Meas.fam at hg hg'
      rcases hsh : ν.orthonormalPolynomials.shifted with _ | ⟨m, s⟩
      · have hm0 : ν.m = 0 := by unfold Meas.m; rw [hsh]; rfl
        have hs1 : ν.s = 1 := by unfold Meas.s; rw [hsh]; rfl
        rw [hg, hm0, hs1]
        simp
      · have hm0 : ν.m = m := by unfold Meas.m; rw [hsh]; rfl
        have hs1 : ν.s = s := by unfold Meas.s; rw [hsh]; rfl
        rw [hg' m s, hm0, hs1]
    · have e := gauss_exact hn hbn (fun _ _ => rfl) hE ν.fam.L (fun i j _ _ => family_orthonormal ν.fam i j)
        (fun j hj => by rw [family_orthonormal, if_neg (by omega)]) (q.comp (C ν.m + C ν.s * X))
        (by rw [natDegree_comp_aff (ν.s_pos hν).ne']; omega)
      rw [← e]
      refine Finset.sum_congr rfl (fun k _ => ?_)
      rw [eval_comp]
      simp
  have pts : ∀ (ν : Meas) (hν : ν.Proper) (lam : Fin n → ℝ), Function.Injective lam →
      ((npSort lam).map (fun x => ν.m + ν.s * x)).length = n ∧ ((npSort lam).map (fun x => ν.m + ν.s * x)).Pairwise (· < ·) := by
    intro ν hν lam hinj
    refine ⟨by rw [List.length_map, npSort_length], ?_⟩
    rw [List.pairwise_map]
    refine (npSort_pairwise lam hinj).imp (fun {x y} hxy => ?_)
    have := mul_lt_mul_of_pos_left hxy (ν.s_pos hν)
    linarith
  have fin : ∀ (lam : Fin n → ℝ) (g : Fin n → ℝ), (∀ k, 0 < g k) →
      ((argsort lam).map g).length = n ∧ ∀ w ∈ (argsort lam).map g, 0 < w := by
    intro lam g hg
    refine ⟨by rw [List.length_map, (argsort_perm lam).length_eq, List.length_finRange], ?_⟩
    intro w hw
    obtain ⟨k, _, rfl⟩ := List.mem_map.1 hw
    exact hg k
  match μ, h with
  | .uniform a b, h =>
    obtain ⟨lam, g, e1, e2, e3, e4⟩ := key (.uniform a b) h
    refine ⟨_, e1, (pts _ h lam e2).1, (pts _ h lam e2).2, (fin lam g e3).1, (fin lam g e3).2, fun q hq => ?_⟩
    rw [integrate_rule, e4 q hq, Meas.E_eq (.uniform a b) h]
    congr 1
    exact (one_mul _).symm
  | .normal mu sigma, h =>
    obtain ⟨lam, g, e1, e2, e3, e4⟩ := key (.normal mu sigma) h
    refine ⟨_, e1, (pts _ h lam e2).1, (pts _ h lam e2).2, (fin lam g e3).1, (fin lam g e3).2, fun q hq => ?_⟩
    rw [integrate_rule, e4 q hq, Meas.E_eq (.normal mu sigma) h]
    congr 1
    exact (one_mul _).symm
  | .lebesgue a b, h =>
    have hab : a < b := h
    obtain ⟨lam, g, e1, e2, e3, e4⟩ := key (.uniform a b) h
    have hba : 0 < b - a := by linarith
    refine ⟨⟨_, ((argsort lam).map g).map (fun w => w * (b - a))⟩, ?_, (pts (.uniform a b) h lam e2).1,
      (pts (.uniform a b) h lam e2).2, ?_, ?_, fun q hq => ?_⟩
    · unfold Meas.gauss
      simp only [bind, Except.bind, e1]
    · rw [List.length_map]; exact (fin lam g e3).1
    · intro w hw
      obtain ⟨w', hw', rfl⟩ := List.mem_map.1 hw
      exact mul_pos ((fin lam g e3).2 w' hw') hba
    · rw [List.map_map, integrate_rule, E_lebesgue hab, Meas.E_eq (.uniform a b) h]
      congr 1
      rw [show (Meas.uniform a b).mass = 1 from rfl, one_mul, ← e4 q hq, Finset.mul_sum]
      refine Finset.sum_congr rfl (fun k _ => ?_)
      simp only [Function.comp_apply]
      ring

/-- The weights add up to the mass of the measure. -/
theorem gauss_mass {eig : Eig} (heig : EigOk eig) (μ : Meas) (h : μ.Proper) (n : ℕ) (hn : 0 < n) (r : Rule ℝ ℝ)
    (hr : μ.gauss eig n = .ok r) : r.weights.sum = μ.mass := by
  obtain ⟨r', h1, h2, _, h3, _, h4⟩ := gauss_spec heig μ h n hn
  rw [hr] at h1
  obtain rfl := Except.ok.inj h1
  have e := h4 1 (by simp)
  simp only [eval_one] at e
  have hE : μ.E (fun _ => (1 : ℝ)) = μ.mass := by
    have := μ.E_eq h 1
    simp only [eval_one, one_comp] at this
    rw [this]
    have h1 : μ.fam.L 1 = 1 := by
      have := family_orthonormal μ.fam 0 0
      simpa [pp_zero] using this
    rw [h1, mul_one]
  rw [hE] at e
  unfold Rule.integrate at e
  rw [if_neg (by omega)] at e
  rw [← Except.ok.inj e]
  congr 1
  simp only [one_mul]
  refine List.ext_getElem (by rw [List.length_zipWith]; omega) (fun i h5 h6 => ?_)
  simp

/-- **Moments of random variables**: `moment(ind)` gives the exact moments. -/
theorem moment_spec {eig : Eig} (heig : EigOk eig) (μ : Meas) (h : μ.Proper) (ind : List ℕ) (hi : ind ≠ []) :
    μ.moment eig ind = .ok (ind.map (fun i => μ.E (fun x => x ^ i))) := by
  obtain ⟨m, h1, h2, h3⟩ := npMax_spec ind hi
  obtain ⟨r, e1, _, _, _, _, e2⟩ := gauss_spec heig μ h ((m + 1 + 1) / 2) (by omega)
  unfold Meas.moment
  simp only [h1, e1, bind, Except.bind]
  have : ∀ i ∈ ind, r.integrate (fun x => x ^ i) = .ok (μ.E (fun x => x ^ i)) := by
    intro i hi
    have := e2 (X ^ i) (by rw [natDegree_X_pow]; have := h3 i hi; omega)
    simpa using this
  clear h1 h2 h3 e2 hi
  induction ind with
  | nil => rfl
  | cons i l ih =>
    rw [List.mapM_cons, this i (by simp)]
    simp only [bind, Except.bind, ih (fun j hj => this j (by simp [hj]))]
    rfl

end

end Verif.Polynomials
