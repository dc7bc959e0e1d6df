import Verif.Model.GramH1
import Verif.Props.PolyBasis
import Verif.Props.TensorBases

/-!
# The Gram matrix of the gradients (C169)
-/

namespace Verif.GramH1

open Verif.Arr Verif.MultiIndices Verif.Bases Verif.SubBasis Verif.Polynomials Finset

theorem unitList_one : unitList 1 0 = [1] := by decide

/-- C169, what holds: `gram_matrix_h1_0()` is the sum over the variables of the Gram matrices of the bases that `derivative` returns, when
none of them is marked orthonormal. Missing: these bases are not made of the derivatives, see `gramH1_wrong`. -/
theorem gramH1_partial (eig : Eig) (bs : List (Meas × List Nat)) (d : Nat) (ind : List (List Nat)) (Ss : Nat → List (SubBasis.Sub ℝ))
    (Gs : Nat → List (Arr ℝ)) (h1 : ∀ i, i < d → derivedBases eig bs (unitList d i) = .ok (Ss i))
    (h2 : ∀ i, i < d → ∃ S ∈ Ss i, S.orthonormal = false) (h3 : ∀ i, i < d → (Ss i).mapM (fun S => S.gram) = .ok (Gs i))
    (h4 : ∀ i, i < d → ∀ r ∈ ind, InBox ((Gs i).map (fun H => H.shape.getD 1 0)) r) :
    ∃ G, gramH1 eig bs (ofNats d ind) = .ok G ∧ G.shape = [ind.length, ind.length] ∧ ∀ k l, G.get [k, l] =
      ∑ i ∈ range d, (List.zipWith (fun (H : Arr ℝ) (p : Nat × Nat) => H.get [p.1, p.2]) (Gs i) ((ind.getD k []).zip (ind.getD l []))).prod := by
  have hlen : (ofNats d ind).rows.length = ind.length := by simp [ofNats]
  suffices key : ∀ m, m ≤ d → ∃ G, (List.range m).foldlM (addTerm eig bs (ofNats d ind)) ⟨[ind.length, ind.length], fun _ => (0 : ℝ)⟩ = .ok G ∧
      G.shape = [ind.length, ind.length] ∧ ∀ k l, G.get [k, l] = ∑ i ∈ range m,
        (List.zipWith (fun (H : Arr ℝ) (p : Nat × Nat) => H.get [p.1, p.2]) (Gs i) ((ind.getD k []).zip (ind.getD l []))).prod by
    obtain ⟨G, g⟩ := key d le_rfl
    exact ⟨G, by unfold gramH1; rw [hlen]; exact g⟩
  intro m
  induction m with
  | zero => intro _; exact ⟨_, rfl, rfl, fun k l => by simp⟩
  | succ m ih =>
    intro hm
    obtain ⟨G, g1, g2, g3⟩ := ih (by omega)
    have hne : Gs m ≠ [] := by
      intro h0
      obtain ⟨S, hS, _⟩ := h2 m (by omega)
      have := (mapM_ok_iff _ _ _).1 (h3 m (by omega))
      rw [h0] at this
      have hl := this.length_eq
      have hnil : Ss m = [] := List.length_eq_zero_iff.1 (by simpa using hl)
      rw [hnil] at hS
      cases hS
    obtain ⟨y, y1, y2, y3⟩ := gramSparse_spec (Gs m) hne d ind (h4 m (by omega))
    have hfl : ¬ ((Ss m).all (fun S => S.orthonormal) = true) := by
      obtain ⟨S, hS, hf⟩ := h2 m (by omega)
      intro hall
      have := List.all_eq_true.1 hall S hS
      rw [hf] at this; cases this
    have hadd : addTerm eig bs (ofNats d ind) G m = .ok (Arr.zipWith (· + ·) G y) := by
      have hu : unitList (ofNats d ind).dim m = unitList d m := rfl
      simp only [addTerm, hu, h1 m (by omega), productGram, if_neg hfl, h3 m (by omega), y1, bind, Except.bind]
    refine ⟨Arr.zipWith (· + ·) G y, ?_, ?_, ?_⟩
    · rw [List.range_succ, List.foldlM_append, g1]
      simp only [List.foldlM_cons, List.foldlM_nil, bind, Except.bind, hadd]
      rfl
    · exact g2
    · intro k l
      rw [sum_range_succ, ← g3, ← y3]
      rfl

theorem mk_self {U : SubBasis.Basis ℝ} {B : Arr ℝ} {S : SubBasis.Sub ℝ} (h : Sub.mk' U (some B) = .ok S) : Sub.mk' S.under (some S.basis) = .ok S := by
  by_cases hU : U.orthonormal = true
  · simp only [Sub.mk', if_pos hU, bind, Except.bind] at h
    split at h
    · cases h
    · rename_i G hG
      cases h
      simp only [Sub.mk', if_pos hU, bind, Except.bind, hG]
  · simp only [Sub.mk', if_neg hU] at h
    cases h
    simp only [Sub.mk', if_neg hU]

theorem polyDerivative_self {eig : Eig} {μ : Meas} {ind : List Nat} {k : Nat} {S : SubBasis.Sub ℝ} (h : polyDerivative eig μ ind k = .ok S) :
    Sub.mk' S.under (some S.basis) = .ok S := by
  simp only [polyDerivative, bind, Except.bind] at h
  repeat' split at h
  all_goals first | cases h | exact mk_self h

/-- C169, what is false: for every uniform or normal random variable, the matrix returned for the polynomials of degrees 0 and 1 has a null entry for the
polynomial of degree 1, whose derivative has a positive norm. -/
theorem gramH1_wrong {eig : Eig} (heig : EigOk eig) (μ : Meas) (h : μ.Proper) (hp : μ.IsProba) (q : ℕ → Polynomial ℝ) (hq : Evaluates μ q) :
    ∃ G, gramH1 eig [(μ, [0, 1])] (ofNats 1 [[0], [1]]) = .ok G ∧ G.get [1, 1] = 0 ∧
      μ.E (fun x => deriv (polyFns q [0, 1] 1) x * deriv (polyFns q [0, 1] 1) x) ≠ 0 := by
  obtain ⟨h0, ⟨a, ha, b, hab⟩, hE⟩ := two_polys h hp q hq
  obtain ⟨S, s1, s2, s3, s4, s5⟩ := polyDerivative_transposed heig μ h hp q hq [0, 1] (by simp) 1 ⟨1, by simp, by omega⟩
  have d0 : ∀ y, iteratedDeriv 1 (polyFns q [0, 1] 0) y = 0 := by
    intro y
    have : polyFns q [0, 1] 0 = fun _ => (1 : ℝ) := by funext z; exact h0 z
    rw [this]; simp
  have d1 : ∀ y, iteratedDeriv 1 (polyFns q [0, 1] 1) y = a := by
    intro y
    rw [polyFns_deriv]
    show (Polynomial.derivative (q 1)).eval y = a
    rw [hab]; simp
  have z0 : S.basis.get [0, 1] = 0 := by
    rw [s4 0 (by simp) 1 (by simp)]
    simp only [d0]
    have := E_linear h (s := ({0} : Finset ℕ)) (fun _ => q 1) (fun _ => 0)
    simpa [polyFns] using this
  have z1 : S.basis.get [1, 1] = 0 := by
    rw [s4 1 (by simp) 1 (by simp)]
    simp only [d1]
    have := E_linear h (s := ({0} : Finset ℕ)) (fun _ => q 1) (fun _ => a)
    simp only [sum_singleton, hE, mul_zero] at this
    rw [← this]
    congr 1
    funext y
    show (q 1).eval y * a = _
    ring
  have hO := (polyBasis_orthonormal eig μ h hp q hq [0, 1]).2.2 (by decide)
  have hlin : LinearOn μ.E (range 2 ×ˢ range 2) (fun p x => polyFns q [0, 1] p.1 x * polyFns q [0, 1] p.2 x) := by
    have := E_linear h (s := range 2 ×ˢ range 2) (fun p => q (([0, 1] : List Nat).getD p.1 0) * q (([0, 1] : List Nat).getD p.2 0))
    simpa [polyFns] using this
  have hz : ∀ x, combo S.basis 2 (polyFns q [0, 1]) 1 x = 0 := by
    intro x
    unfold combo
    simp [sum_range_succ, z0, z1]
  have hE0 : ∀ f : ℝ → ℝ, (∀ x, f x = 0) → μ.E f = 0 := by
    intro f hf
    have hf' : f = fun _ => 0 := funext hf
    rw [hf']
    have := E_linear h (s := (∅ : Finset ℕ)) (fun _ => q 1) (fun _ => 0)
    simpa using this
  have hflag : S.orthonormal = false := by
    by_contra hne
    have ht : S.orthonormal = true := by simpa using hne
    obtain ⟨S', e1, e2, e3, e4, _⟩ := flag_sound (polyBasis eig μ [0, 1]) rfl (polyFns q [0, 1]) μ.E hlin hO S.basis (r := 2) s2
    have hself := polyDerivative_self s1
    rw [s3, e1] at hself
    cases hself
    have := e4 ht 1 (by omega) 1 (by omega)
    rw [hE0 _ (fun x => by
      show combo S.basis 2 (polyFns q [0, 1]) 1 x * combo S.basis 2 (polyFns q [0, 1]) 1 x = 0
      rw [hz x, zero_mul])] at this
    have h2 : Real.sqrt ((2 : ℕ) : ℝ) ≤ 2 := Real.sqrt_le_iff.2 ⟨by norm_num, by norm_num⟩
    rw [if_pos rfl, zero_sub, abs_neg, abs_one, lt_div_iff₀ (by norm_num)] at this
    rw [one_mul] at this
    have h3 : (10 : ℝ) ^ 15 > 2 := by norm_num
    linarith
  obtain ⟨D, g1, g2, g3⟩ := (polyBasis_gram heig μ h hp q hq [0, 1] (by simp)).1
  obtain ⟨M, m1, m2, m3⟩ := sub_gram S (polyFns q [0, 1]) μ.E (by rw [s3]; exact hlin) D (by rw [s3]; exact g1) (by rw [s3]; exact g2)
    (by rw [s3]; exact g3) (r := 2) (by rw [s3]; exact s2)
  obtain ⟨G, G1, _, G3⟩ := gramH1_partial eig [(μ, [0, 1])] 1 [[0], [1]] (fun _ => [S]) (fun _ => [M])
    (fun i hi => by
      have : i = 0 := by omega
      subst this
      rw [unitList_one]
      simp [derivedBases, s1, bind, Except.bind, pure, Except.pure]) (fun i _ => ⟨S, by simp, hflag⟩)
    (fun i _ => by simp [m1, bind, Except.bind, pure, Except.pure]) (fun i _ r hr => by
      simp only [List.map_cons, List.map_nil, m2, List.getD_cons_succ, List.getD_cons_zero]
      simp only [List.mem_cons, List.not_mem_nil, or_false] at hr
      rcases hr with rfl | rfl <;> simp)
  refine ⟨G, G1, ?_, ?_⟩
  · rw [G3]
    simp only [sum_range_one, List.getD_cons_succ, List.getD_cons_zero, List.zip_cons_cons, List.zip_nil_left, List.zipWith_cons_cons, List.zipWith_nil_left,
      List.prod_cons, List.prod_nil, mul_one]
    rw [m3 1 (by omega) 1 (by omega)]
    refine hE0 _ (fun x => ?_)
    rw [s3]
    show combo S.basis 2 (polyFns q [0, 1]) 1 x * combo S.basis 2 (polyFns q [0, 1]) 1 x = 0
    rw [hz x, zero_mul]
  · have e : (fun x => deriv (polyFns q [0, 1] 1) x * deriv (polyFns q [0, 1] 1) x) = fun x => (a * a) * (1 : ℝ) := by
      funext x
      have := d1 x
      rw [iteratedDeriv_one] at this
      rw [this]; ring
    have h1 := polyval_orthonormal μ h hp q hq 0 0
    have h2 := E_linear h (s := ({0} : Finset ℕ)) (fun _ => q 0) (fun _ => a * a)
    simp only [sum_singleton, h0] at h2 h1
    rw [e, h2]
    simp only [mul_one, if_true] at h1
    rw [h1]
    simpa using ha

end Verif.GramH1
