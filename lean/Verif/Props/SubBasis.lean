import Verif.Model.SubBasis
import Verif.Lemmas.Pca
import Verif.Props.Grids
import Verif.Props.Tensorizer
import Mathlib.Analysis.Matrix.LDL
import Mathlib.LinearAlgebra.Matrix.Block
import Mathlib.Tactic.LinearCombination

/-!
# Sub-bases and orthonormalisation (C153–C157)
-/

namespace Verif.SubBasis

open Verif.Arr Verif.Pca Verif.MultiIndices Finset

variable {X : Type}

/-! ## Specification -/

/-- The functions of a basis are `φ 0, φ 1, …`: `eval` returns their values, one row per point. -/
def Fns (b : Basis X) (φ : ℕ → X → ℝ) : Prop :=
  ∀ xs : List X, ∃ H, b.eval xs = .ok H ∧ H.shape = [xs.length, b.card] ∧
    ∀ p (hp : p < xs.length) j, j < b.card → H.get [p, j] = φ j xs[p]

/-- `E` is linear on the combinations of the functions `g i`, `i ∈ s`. -/
def LinearOn {ι : Type} (E : (X → ℝ) → ℝ) (s : Finset ι) (g : ι → X → ℝ) : Prop :=
  ∀ c : ι → ℝ, E (fun x => ∑ i ∈ s, c i * g i x) = ∑ i ∈ s, c i * E (g i)

/-- The function of coefficients `B[:, j]`. -/
def combo (B : Arr ℝ) (n : ℕ) (φ : ℕ → X → ℝ) (j : ℕ) : X → ℝ := fun x => ∑ i ∈ range n, B.get [i, j] * φ i x

/-- The functions `ψ` are orthonormal for `E`. -/
def Orthonormal (E : (X → ℝ) → ℝ) (r : ℕ) (ψ : ℕ → X → ℝ) : Prop :=
  ∀ j < r, ∀ k < r, E (fun x => ψ j x * ψ k x) = if j = k then 1 else 0

/-- The position that `k` designates among `r`: negative numbers count from the end. -/
def fromEnd (r : ℕ) (k : ℤ) : ℕ := (if 0 ≤ k then k else k + (r : ℤ)).toNat

/-! ## Evaluation, mean and Gram matrix -/

theorem columns_ok (B : Arr ℝ) {n r : ℕ} (hB : B.shape = [n, r]) (J : List ℕ) (hJ : ∀ j ∈ J, j < r) :
    columns B (J.map Int.ofNat) = .ok ⟨[n, J.length], fun ij => B.get [ij.getD 0 0, J.getD (ij.getD 1 0) 0]⟩ := by
  have h : (J.map Int.ofNat).mapM (npIndex (B.shape.getD 1 0)) = .ok J := by
    rw [mapM_ok_iff, List.forall₂_map_left_iff, List.forall₂_same]
    intro j hj
    exact Grids.npIndex_ofNat (by rw [hB]; exact hJ j hj)
  simp only [columns, h, bind, Except.bind]
  rw [hB]
  rfl

/-- Negative column numbers count from the end. -/
theorem columns_int (B : Arr ℝ) {n r : ℕ} (hB : B.shape = [n, r]) (I : List ℤ) (hI : ∀ k ∈ I, -(r : ℤ) ≤ k ∧ k < r) :
    ∃ C, columns B I = .ok C ∧ C.shape = [n, I.length] ∧ ∀ i j, j < I.length →
      C.get [i, j] = B.get [i, (fromEnd r (I.getD j 0))] := by
  have h : I.mapM (npIndex (B.shape.getD 1 0)) = .ok (I.map (fromEnd r)) := by
    rw [mapM_ok_iff, List.forall₂_map_right_iff, List.forall₂_same]
    intro k hk
    obtain ⟨h1, h2⟩ := hI k hk
    unfold npIndex fromEnd
    rw [hB]
    simp only [List.getD_cons_succ, List.getD_cons_zero]
    split_ifs with h3 h4 h5 <;> first | rfl | (exfalso; omega) | skip
  refine ⟨_, by simp only [columns, h, bind, Except.bind]; rfl, ?_, ?_⟩
  · simp [hB]
  · intro i j hj
    simp only [List.getD_cons_zero, List.getD_cons_succ]
    rw [List.getD_eq_getElem (I.map _) _ (by simpa using hj), List.getElem_map, List.getD_eq_getElem I _ hj]

theorem eval_gen (S : Sub X) (φ : ℕ → X → ℝ) (hφ : Fns S.under φ) {m : ℕ}
    (xs : List X) (I : Option (List ℤ)) (C : Arr ℝ)
    (hC : columns S.basis (I.getD ((List.range S.cardinal).map Int.ofNat)) = .ok C) (hs : C.shape = [S.under.card, m]) :
    ∃ H, S.eval xs I = .ok H ∧ H.shape = [xs.length, m] ∧
      ∀ p (hp : p < xs.length) j, H.get [p, j] = ∑ i ∈ range S.under.card, C.get [i, j] * φ i xs[p] := by
  obtain ⟨H, h1, h2, h3⟩ := hφ xs
  obtain ⟨D, d1, d2, d3⟩ := matmul_ok h2 hs
  refine ⟨D, by simp only [Sub.eval, h1, hC, bind, Except.bind, d1], d2, ?_⟩
  intro p hp j
  rw [d3]
  refine sum_congr rfl (fun i hi => ?_)
  rw [h3 p hp i (mem_range.1 hi), mul_comm]

/-- **C153.** The functions of a sub-basis are the combinations of the functions of the underlying basis with the columns of
the matrix as coefficients. -/
theorem sub_fns (S : Sub X) (φ : ℕ → X → ℝ) (hφ : Fns S.under φ) {r : ℕ} (hS : S.basis.shape = [S.under.card, r]) :
    S.toBasis.card = r ∧ Fns S.toBasis (combo S.basis S.under.card φ) := by
  have hr : S.cardinal = r := by unfold Sub.cardinal; rw [hS]; rfl
  refine ⟨hr, fun xs => ?_⟩
  have hC := columns_ok S.basis hS (List.range r) (fun j hj => List.mem_range.1 hj)
  obtain ⟨H, h1, h2, h3⟩ := eval_gen S φ hφ xs none _ (by rw [Option.getD_none, hr]; exact hC) rfl
  refine ⟨H, h1, by rw [h2, List.length_range]; show _ = [_, S.cardinal]; rw [hr], ?_⟩
  intro p hp j hj
  have hj' : j < r := by rw [← hr]; exact hj
  rw [h3 p hp j]
  unfold combo
  refine sum_congr rfl (fun i _ => ?_)
  simp only [List.getD_cons_zero, List.getD_cons_succ]
  rw [List.getD_eq_getElem (List.range r) _ (by simpa using hj'), List.getElem_range]

/-- **C153.** `eval(x, indices)` returns the values of the functions of the given numbers; negative numbers count from the
end. -/
theorem sub_eval_indices (S : Sub X) (φ : ℕ → X → ℝ) (hφ : Fns S.under φ) {r : ℕ} (hS : S.basis.shape = [S.under.card, r])
    (xs : List X) (I : List ℤ) (hI : ∀ k ∈ I, -(r : ℤ) ≤ k ∧ k < r) :
    ∃ H, S.eval xs (some I) = .ok H ∧ H.shape = [xs.length, I.length] ∧
      ∀ p (hp : p < xs.length) j, j < I.length → H.get [p, j]
        = combo S.basis S.under.card φ (fromEnd r (I.getD j 0)) xs[p] := by
  obtain ⟨C, c1, c2, c3⟩ := columns_int S.basis hS I hI
  obtain ⟨H, h1, h2, h3⟩ := eval_gen S φ hφ xs (some I) C c1 c2
  refine ⟨H, h1, h2, ?_⟩
  intro p hp j hj
  rw [h3 p hp j]
  unfold combo
  exact sum_congr rfl (fun i _ => by rw [c3 i j hj])

/-- **C153.** `mean()` of a sub-basis returns the means of its functions. -/
theorem sub_mean (S : Sub X) (φ : ℕ → X → ℝ) (E : (X → ℝ) → ℝ) (hE : LinearOn E (range S.under.card) φ)
    (hm : S.under.mean = .ok ((List.range S.under.card).map (fun i => E (φ i)))) {r : ℕ}
    (hS : S.basis.shape = [S.under.card, r]) :
    S.mean = .ok ((List.range r).map (fun j => E (combo S.basis S.under.card φ j))) := by
  simp only [Sub.mean, hm, bind, Except.bind, vecMat, List.length_map, List.length_range]
  rw [if_neg (by rw [hS]; simp), hS]
  congr 1
  refine List.map_congr_left (fun j _ => ?_)
  unfold combo
  rw [hE (fun i => S.basis.get [i, j])]
  refine sum_congr rfl (fun i hi => ?_)
  rw [Tensorizer.getD_map_range _ _ _ _ (mem_range.1 hi), mul_comm]

/-- The mean of a product of two combinations. -/
theorem E_combo {E : (X → ℝ) → ℝ} {φ : ℕ → X → ℝ} {n : ℕ}
    (hE : LinearOn E (range n ×ˢ range n) (fun p x => φ p.1 x * φ p.2 x)) (u v : ℕ → ℝ) :
    E (fun x => (∑ i ∈ range n, u i * φ i x) * (∑ i ∈ range n, v i * φ i x))
      = ∑ i ∈ range n, ∑ j ∈ range n, u i * v j * E (fun x => φ i x * φ j x) := by
  have h := hE (fun p => u p.1 * v p.2)
  rw [sum_product] at h
  rw [← h]
  congr 1
  funext x
  rw [sum_mul_sum, sum_product]
  refine sum_congr rfl (fun i _ => sum_congr rfl (fun j _ => ?_))
  ring

/-- **C153.** `gram_matrix()` of a sub-basis is its Gram matrix. -/
theorem sub_gram (S : Sub X) (φ : ℕ → X → ℝ) (E : (X → ℝ) → ℝ)
    (hE : LinearOn E (range S.under.card ×ˢ range S.under.card) (fun p x => φ p.1 x * φ p.2 x))
    (G : Arr ℝ) (hG : S.under.gram = .ok G) (hs : G.shape = [S.under.card, S.under.card])
    (hv : ∀ i < S.under.card, ∀ j < S.under.card, G.get [i, j] = E (fun x => φ i x * φ j x)) {r : ℕ}
    (hS : S.basis.shape = [S.under.card, r]) :
    ∃ D, S.gram = .ok D ∧ D.shape = [r, r] ∧ ∀ j < r, ∀ k < r, D.get [j, k]
      = E (fun x => combo S.basis S.under.card φ j x * combo S.basis S.under.card φ k x) := by
  have hT : (transposeM S.basis).shape = [r, S.under.card] := by unfold transposeM; rw [hS]; rfl
  obtain ⟨A, a1, a2, a3⟩ := matmul_ok hT hs
  obtain ⟨D, d1, d2, d3⟩ := matmul_ok a2 hS
  refine ⟨D, by simp only [Sub.gram, hG, bind, Except.bind, a1, d1], d2, ?_⟩
  intro j _ k _
  rw [d3]
  unfold combo
  rw [E_combo hE (fun i => S.basis.get [i, j]) (fun i => S.basis.get [i, k]), sum_comm]
  refine sum_congr rfl (fun l hl => ?_)
  rw [a3, sum_mul]
  refine sum_congr rfl (fun i hi => ?_)
  rw [hv i (mem_range.1 hi) l (mem_range.1 hl)]
  show S.basis.get [i, j] * _ * _ = _
  ring

/-! ## The attribute `is_orthonormal` -/

/-- **C154.** A sub-basis of an orthonormal basis is marked orthonormal exactly if it has a function and the Frobenius
distance of its Gram matrix to the identity, divided by the square root of its cardinal, is smaller than `1e-15`. -/
theorem flag_spec (U : Basis X) (hU : U.orthonormal = true) (φ : ℕ → X → ℝ) (E : (X → ℝ) → ℝ)
    (hE : LinearOn E (range U.card ×ˢ range U.card) (fun p x => φ p.1 x * φ p.2 x)) (ho : Orthonormal E U.card φ)
    (B : Arr ℝ) {r : ℕ} (hB : B.shape = [U.card, r]) :
    ∃ S, Sub.mk' U (some B) = .ok S ∧ S.under = U ∧ S.basis = B ∧ (S.orthonormal = true ↔ 0 < r ∧
      Real.sqrt (∑ j ∈ range r, ∑ k ∈ range r,
        (E (fun x => combo B U.card φ j x * combo B U.card φ k x) - if j = k then 1 else 0) ^ 2) / Real.sqrt r
        < 1 / 10 ^ 15) := by
  have hT : (transposeM B).shape = [r, U.card] := by unfold transposeM; rw [hB]; rfl
  obtain ⟨G, g1, g2, g3⟩ := matmul_ok hT hB
  have hr : B.shape.getD 1 0 = r := by rw [hB]; rfl
  refine ⟨⟨U, B, _⟩, by simp only [Sub.mk', hU, if_true, g1, bind, Except.bind]; rfl, rfl, rfl, ?_⟩
  rw [decide_eq_true_iff, hr, Nat.pos_iff_ne_zero]
  refine and_congr_right (fun _ => ?_)
  have : frob (Arr.zipWith (· - ·) G (eye r)) = Real.sqrt (∑ j ∈ range r, ∑ k ∈ range r,
        (E (fun x => combo B U.card φ j x * combo B U.card φ k x) - if j = k then 1 else 0) ^ 2) := by
    unfold frob
    have hsh : (Arr.zipWith (· - ·) G (eye r)).shape = [r, r] := g2
    rw [hsh]
    congr 1
    refine sum_congr rfl (fun j _ => sum_congr rfl (fun k _ => ?_))
    congr 1
    show G.get [j, k] - (if j = k then 1 else 0) = _
    congr 1
    rw [g3]
    unfold combo
    rw [E_combo hE (fun i => B.get [i, j]) (fun i => B.get [i, k])]
    refine sum_congr rfl (fun i hi => ?_)
    rw [sum_eq_single i]
    · rw [ho i (mem_range.1 hi) i (mem_range.1 hi), if_pos rfl, mul_one]; rfl
    · intro l hl hne
      rw [ho i (mem_range.1 hi) l (mem_range.1 hl), if_neg (Ne.symm hne), mul_zero]
    · intro h; exact absurd hi h
  rw [this]

/-- **C154.** A sub-basis marked orthonormal is orthonormal up to `1e-15` times the square root of its cardinal, and a
sub-basis with orthonormal functions is marked orthonormal. -/
theorem flag_sound (U : Basis X) (hU : U.orthonormal = true) (φ : ℕ → X → ℝ) (E : (X → ℝ) → ℝ)
    (hE : LinearOn E (range U.card ×ˢ range U.card) (fun p x => φ p.1 x * φ p.2 x)) (ho : Orthonormal E U.card φ)
    (B : Arr ℝ) {r : ℕ} (hB : B.shape = [U.card, r]) :
    ∃ S, Sub.mk' U (some B) = .ok S ∧ S.under = U ∧ S.basis = B ∧
      (S.orthonormal = true → ∀ j < r, ∀ k < r,
        |E (fun x => combo B U.card φ j x * combo B U.card φ k x) - if j = k then 1 else 0| < Real.sqrt r / 10 ^ 15) ∧
      (0 < r → Orthonormal E r (combo B U.card φ) → S.orthonormal = true) := by
  obtain ⟨S, h1, h2, h3, h4⟩ := flag_spec U hU φ E hE ho B hB
  refine ⟨S, h1, h2, h3, ?_, ?_⟩
  · intro hS j hj k hk
    obtain ⟨hr, hlt⟩ := h4.1 hS
    have hs : 0 < Real.sqrt r := Real.sqrt_pos.2 (by exact_mod_cast hr)
    rw [div_lt_iff₀ hs] at hlt
    refine lt_of_le_of_lt ?_ (by rw [div_eq_inv_mul, ← one_div]; exact hlt)
    rw [← Real.sqrt_sq_eq_abs]
    apply Real.sqrt_le_sqrt
    refine le_trans ?_ (single_le_sum (f := fun j => ∑ k ∈ range r,
        (E (fun x => combo B U.card φ j x * combo B U.card φ k x) - if j = k then 1 else 0) ^ 2)
        (fun i _ => sum_nonneg (fun l _ => sq_nonneg _)) (mem_range.2 hj))
    exact single_le_sum (f := fun k =>
        (E (fun x => combo B U.card φ j x * combo B U.card φ k x) - if j = k then 1 else 0) ^ 2)
        (fun l _ => sq_nonneg _) (mem_range.2 hk)
  · intro hr hO
    refine h4.2 ⟨hr, ?_⟩
    rw [sum_eq_zero (fun j hj => sum_eq_zero (fun k hk => ?_))]
    · rw [Real.sqrt_zero, zero_div]; positivity
    · rw [hO j (mem_range.1 hj) k (mem_range.1 hk), sub_self]; ring

/-- **C154.** A sub-basis of a basis that is not marked orthonormal is not marked orthonormal; without a matrix, it has no
function, and for an underlying basis marked orthonormal an exception is raised. -/
theorem flag_other (U : Basis X) :
    (U.orthonormal = false → (∀ B, Sub.mk' U (some B) = .ok ⟨U, B, false⟩) ∧
      ∃ S, Sub.mk' U none = .ok S ∧ S.cardinal = 0 ∧ S.under = U ∧ S.orthonormal = false) ∧
    (U.orthonormal = true → Sub.mk' U none = .error .valueError) := by
  refine ⟨fun h => ⟨fun B => by simp [Sub.mk', h], ?_⟩, fun h => by simp [Sub.mk', h]⟩
  exact ⟨⟨U, ⟨[U.card, 0], fun _ => 0⟩, false⟩, by simp [Sub.mk', h], rfl, rfl, rfl⟩

theorem mk_ok (U : Basis X) {B : Arr ℝ} {n r : ℕ} (hB : B.shape = [n, r]) :
    ∃ S, Sub.mk' U (some B) = .ok S ∧ S.under = U ∧ S.basis = B := by
  unfold Sub.mk'
  cases hbo : U.orthonormal
  · exact ⟨⟨U, B, false⟩, by simp, rfl, rfl⟩
  · have hT : (transposeM B).shape = [r, n] := by unfold transposeM; rw [hB]; rfl
    obtain ⟨D, d1, _, _⟩ := matmul_ok hT hB
    simp only [if_true, d1, bind, Except.bind]
    exact ⟨_, rfl, rfl, rfl⟩

/-! ## Gram–Schmidt -/

/-- A column of a matrix with `n` rows. -/
def col (M : Arr ℝ) (n j : ℕ) : Fin n → ℝ := fun i => M.get [i, j]

open scoped Matrix in
theorem sum_dot (M : Arr ℝ) (n j k : ℕ) :
    ∑ a ∈ range n, M.get [a, j] * M.get [a, k] = col M n j ⬝ᵥ col M n k := by
  rw [Finset.sum_range]; rfl

open scoped Matrix in
theorem col_gsStep (M : Arr ℝ) {n r : ℕ} (hM : M.shape = [n, r]) (i j : ℕ) :
    (gsStep M i).shape = [n, r] ∧ (j ≠ i → col (gsStep M i) n j = col M n j) ∧
    (let v := col M n i - ∑ l ∈ range i, (col M n l ⬝ᵥ col M n i) • col M n l
     col (gsStep M i) n i = (Real.sqrt (v ⬝ᵥ v))⁻¹ • v) := by
  refine ⟨hM, fun h => ?_, ?_⟩
  · funext a
    simp [col, gsStep, normalizeCol, projectCol, h]
  · intro v
    have hv : ∀ a : Fin n, (projectCol M i).get [a, i] = v a := by
      intro a
      simp only [projectCol, List.getD_cons_succ, List.getD_cons_zero, if_true, hM, sum_dot]
      show _ = M.get [a, i] - (∑ l ∈ range i, (col M n l ⬝ᵥ col M n i) • col M n l) a
      congr 1
      rw [Finset.sum_apply]
      refine sum_congr rfl (fun l _ => ?_)
      show _ = _ * M.get [a, l]
      ring
    funext a
    show (if i = i then _ else _) = _
    rw [if_pos rfl]
    have hs : ∑ a ∈ range ((projectCol M i).shape.getD 0 0), (projectCol M i).get [a, i] ^ 2 = v ⬝ᵥ v := by
      have : (projectCol M i).shape.getD 0 0 = n := by show M.shape.getD 0 0 = n; rw [hM]; rfl
      rw [this, Finset.sum_range]
      refine sum_congr rfl (fun a _ => ?_)
      rw [hv, sq]
    show (projectCol M i).get [a, i] / _ = _
    rw [hs, hv, div_eq_inv_mul]
    rfl

/-- The columns `0, …, j - 1` span the same space. -/
def SameSpan (M B : Arr ℝ) (n j : ℕ) : Prop :=
  Submodule.span ℝ (col M n '' {l | l < j}) = Submodule.span ℝ (col B n '' {l | l < j})

theorem lt_succ_set (k : ℕ) : {l | l < k + 1} = insert k {l | l < k} := by
  ext l
  simp only [Set.mem_setOf_eq, Set.mem_insert_iff]
  omega

open scoped Matrix in
theorem gs_fold (B : Arr ℝ) {n r : ℕ} (hB : B.shape = [n, r]) (hind : LinearIndependent ℝ (fun j : Fin r => col B n j)) (k : ℕ)
    (hk : k ≤ r) :
    let M := (List.range k).foldl gsStep B
    M.shape = [n, r] ∧ (∀ j, k ≤ j → col M n j = col B n j) ∧
      (∀ j < k, ∀ l < k, col M n j ⬝ᵥ col M n l = if j = l then 1 else 0) ∧ ∀ j ≤ k, SameSpan M B n j := by
  induction k with
  | zero =>
    refine ⟨hB, fun _ _ => rfl, fun _ h => absurd h (by omega), ?_⟩
    intro j hj
    rfl
  | succ k ih =>
    obtain ⟨M, hMdef⟩ : ∃ M, M = (List.range k).foldl gsStep B := ⟨_, rfl⟩
    have ih := ih (by omega)
    rw [List.range_succ, List.foldl_append, List.foldl_cons, List.foldl_nil]
    rw [← hMdef] at ih ⊢
    obtain ⟨i1, i2, i3, i4⟩ := ih
    obtain ⟨v, hv⟩ : ∃ v, v = col M n k - ∑ l ∈ range k, (col M n l ⬝ᵥ col M n k) • col M n l := ⟨_, rfl⟩
    have hk1 : col (gsStep M k) n k = (Real.sqrt (v ⬝ᵥ v))⁻¹ • v := by
      have := (col_gsStep M i1 k k).2.2
      simp only at this
      rw [this, hv]
    have hko : ∀ j, j ≠ k → col (gsStep M k) n j = col M n j := fun j => (col_gsStep M i1 k j).2.1
    -- the projection on the previous columns
    have hproj : ∑ l ∈ range k, (col M n l ⬝ᵥ col M n k) • col M n l ∈ Submodule.span ℝ (col M n '' {l | l < k}) :=
      Submodule.sum_mem _ (fun l hl => Submodule.smul_mem _ _ (Submodule.subset_span ⟨l, mem_range.1 hl, rfl⟩))
    have hne : v ≠ 0 := by
      intro h0
      rw [h0] at hv
      have hbk : col B n k ∈ Submodule.span ℝ (col B n '' {l | l < k}) := by
        rw [← i2 k le_rfl, ← i4 k le_rfl, sub_eq_zero.1 hv.symm]
        exact hproj
      have := hind.notMem_span_image (s := {l : Fin r | l.val < k}) (x := ⟨k, by omega⟩) (by simp)
      apply this
      have himg : (fun j : Fin r => col B n j) '' {l : Fin r | l.val < k} = col B n '' {l | l < k} := by
        ext w
        constructor
        · rintro ⟨l, hl, rfl⟩; exact ⟨l, hl, rfl⟩
        · rintro ⟨l, hl, rfl⟩
          have hl' : l < k := hl
          exact ⟨⟨l, by omega⟩, hl, rfl⟩
      rw [himg]
      exact hbk
    have hpos : 0 < v ⬝ᵥ v := by
      obtain ⟨a, ha⟩ := Function.ne_iff.1 hne
      refine sum_pos' (fun i _ => mul_self_nonneg _) ⟨a, mem_univ _, ?_⟩
      exact mul_self_pos.2 ha
    have hsq : 0 < Real.sqrt (v ⬝ᵥ v) := Real.sqrt_pos.2 hpos
    have horth : ∀ j < k, col M n j ⬝ᵥ v = 0 := by
      intro j hj
      rw [hv, dotProduct_sub, dotProduct_sum, sum_eq_single j]
      · rw [dotProduct_smul, i3 j hj j hj, if_pos rfl, smul_eq_mul, mul_one, sub_self]
      · intro l hl hlj
        rw [dotProduct_smul, i3 j hj l (mem_range.1 hl), if_neg (Ne.symm hlj), smul_zero]
      · intro h; exact absurd (mem_range.2 hj) h
    refine ⟨(col_gsStep M i1 k 0).1, ?_, ?_, ?_⟩
    · intro j hj
      rw [hko j (by omega), i2 j (by omega)]
    · intro j hj l hl
      rcases Nat.lt_succ_iff_lt_or_eq.1 hj with hj | rfl <;> rcases Nat.lt_succ_iff_lt_or_eq.1 hl with hl | rfl
      · rw [hko j (by omega), hko l (by omega)]; exact i3 j hj l hl
      · rw [hko j (by omega), hk1, dotProduct_smul, horth j hj, smul_zero, if_neg (by omega)]
      · rw [hko l (by omega), hk1, smul_dotProduct, dotProduct_comm v (col M n l), horth l hl, smul_zero, if_neg (by omega)]
      · rw [hk1, smul_dotProduct, dotProduct_smul, if_pos rfl, smul_eq_mul, smul_eq_mul]
        have := Real.mul_self_sqrt hpos.le
        field_simp
        rw [sq, this]
    · intro j hj
      have hlow : ∀ j ≤ k, col (gsStep M k) n '' {l | l < j} = col M n '' {l | l < j} := by
        intro j hj
        refine Set.image_congr (fun l hl => hko l ?_)
        have : l < j := hl
        omega
      rcases Nat.le_succ_iff.1 hj with hj | rfl
      · unfold SameSpan
        rw [hlow j hj]
        exact i4 j hj
      · unfold SameSpan
        rw [lt_succ_set, Set.image_insert_eq, Set.image_insert_eq, hlow k le_rfl, Submodule.span_insert,
          Submodule.span_insert, i4 k le_rfl, hk1]
        have hvB : v = col B n k - ∑ l ∈ range k, (col M n l ⬝ᵥ col M n k) • col M n l := by rw [hv, i2 k le_rfl]
        have hp' := hproj
        rw [i4 k le_rfl] at hp'
        apply le_antisymm
        · refine sup_le ?_ le_sup_right
          rw [Submodule.span_singleton_le_iff_mem]
          refine Submodule.smul_mem _ _ ?_
          rw [hvB]
          exact Submodule.sub_mem _ (Submodule.mem_sup_left (Submodule.mem_span_singleton_self _)) (Submodule.mem_sup_right hp')
        · refine sup_le ?_ le_sup_right
          rw [Submodule.span_singleton_le_iff_mem]
          have : col B n k = Real.sqrt (v ⬝ᵥ v) • ((Real.sqrt (v ⬝ᵥ v))⁻¹ • v)
              + ∑ l ∈ range k, (col M n l ⬝ᵥ col M n k) • col M n l := by
            rw [smul_smul, mul_inv_cancel₀ hsq.ne', one_smul, hvB, sub_add_cancel]
          rw [this]
          exact Submodule.add_mem _ (Submodule.smul_mem _ _ (Submodule.mem_sup_left (Submodule.mem_span_singleton_self _)))
            (Submodule.mem_sup_right hp')

/-- The linear map of the coefficients to the functions. -/
def coeffMap (n : ℕ) (φ : ℕ → X → ℝ) : (Fin n → ℝ) →ₗ[ℝ] (X → ℝ) where
  toFun c := fun x => ∑ i : Fin n, c i * φ i x
  map_add' a b := by funext x; simp [add_mul, sum_add_distrib]
  map_smul' a b := by funext x; simp [mul_sum, mul_assoc]

theorem combo_eq (B : Arr ℝ) (n : ℕ) (φ : ℕ → X → ℝ) (j : ℕ) : combo B n φ j = coeffMap n φ (col B n j) := by
  funext x
  unfold combo
  rw [Finset.sum_range]
  rfl

theorem span_combo {M B : Arr ℝ} {n j : ℕ} (h : SameSpan M B n j) (φ : ℕ → X → ℝ) :
    Submodule.span ℝ (combo M n φ '' {l | l < j}) = Submodule.span ℝ (combo B n φ '' {l | l < j}) := by
  have key : ∀ A : Arr ℝ, Submodule.span ℝ (combo A n φ '' {l | l < j})
      = (Submodule.span ℝ (col A n '' {l | l < j})).map (coeffMap n φ) := by
    intro A
    rw [Submodule.map_span, ← Set.image_comp]
    congr 1
    exact Set.image_congr (fun l _ => combo_eq A n φ l)
  rw [key, key, h]

open scoped Matrix in
theorem E_cols {E : (X → ℝ) → ℝ} {φ : ℕ → X → ℝ} {n : ℕ}
    (hE : LinearOn E (range n ×ˢ range n) (fun p x => φ p.1 x * φ p.2 x)) (ho : Orthonormal E n φ) (M : Arr ℝ) (j k : ℕ) :
    E (fun x => combo M n φ j x * combo M n φ k x) = col M n j ⬝ᵥ col M n k := by
  unfold combo
  rw [E_combo hE (fun i => M.get [i, j]) (fun i => M.get [i, k]), ← sum_dot]
  refine sum_congr rfl (fun i hi => ?_)
  rw [sum_eq_single i]
  · rw [ho i (mem_range.1 hi) i (mem_range.1 hi), if_pos rfl, mul_one]
  · intro l hl hne
    rw [ho i (mem_range.1 hi) l (mem_range.1 hl), if_neg (Ne.symm hne), mul_zero]
  · intro h; exact absurd hi h

/-- **C155.** `orthonormalize()` of a sub-basis with linearly independent columns of coefficients, of an orthonormal basis,
returns a sub-basis of the same basis, marked orthonormal, with orthonormal functions, the first `j` of which span the
same space as the first `j` functions of the given sub-basis, for every `j`. -/
theorem orthonormalize_spec (S : Sub X) (hU : S.under.orthonormal = true) (φ : ℕ → X → ℝ) (hφ : Fns S.under φ)
    (E : (X → ℝ) → ℝ)
    (hE : LinearOn E (range S.under.card ×ˢ range S.under.card) (fun p x => φ p.1 x * φ p.2 x))
    (ho : Orthonormal E S.under.card φ) {r : ℕ} (hr : 0 < r) (hS : S.basis.shape = [S.under.card, r])
    (hind : LinearIndependent ℝ (fun (j : Fin r) (i : Fin S.under.card) => S.basis.get [i, j])) :
    ∃ (S' : Sub X) (ψ : ℕ → X → ℝ), S.orthonormalize = .ok S' ∧ S'.under = S.under ∧ S'.orthonormal = true ∧ S'.cardinal = r ∧
      Fns S'.toBasis ψ ∧ Orthonormal E r ψ ∧ ∀ j ≤ r,
        Submodule.span ℝ (ψ '' {l | l < j}) = Submodule.span ℝ (combo S.basis S.under.card φ '' {l | l < j}) := by
  obtain ⟨g1, _, g3, g4⟩ := gs_fold S.basis hS hind r le_rfl
  have hc : S.cardinal = r := by unfold Sub.cardinal; rw [hS]; rfl
  obtain ⟨M, hM⟩ : ∃ M, M = (List.range r).foldl gsStep S.basis := ⟨_, rfl⟩
  rw [← hM] at g1 g3 g4
  obtain ⟨S', s1, s2, s3, _, s5⟩ := flag_sound S.under hU φ E hE ho M g1
  have hO : Orthonormal E r (combo M S.under.card φ) := by
    intro j hj k hk
    rw [E_cols hE ho]
    exact g3 j hj k hk
  have h0 : normalizeCol S.basis 0 = gsStep S.basis 0 := by
    unfold gsStep
    congr 1
    unfold projectCol
    simp
  have hfold : (List.range' 1 (S.cardinal - 1)).foldl gsStep (normalizeCol S.basis 0) = M := by
    rw [h0, hM, hc]
    obtain ⟨m, rfl⟩ : ∃ m, r = m + 1 := ⟨r - 1, by omega⟩
    rw [List.range_eq_range', List.range'_succ, List.foldl_cons]
    rfl
  have hf := sub_fns S' φ (by rw [s2]; exact hφ) (r := r) (by rw [s2, s3]; exact g1)
  refine ⟨S', combo M S.under.card φ, ?_, s2, s5 hr hO, hf.1, ?_, hO, fun j hj => span_combo (g4 j hj) φ⟩
  · simp only [Sub.orthonormalize, hU, if_true]
    rw [if_neg (by omega)]
    rw [hfold]
    exact s1
  · have := hf.2
    rw [s2, s3] at this
    exact this

/-- **C155.** `orthonormalize()` of a sub-basis refuses an underlying basis that is not marked orthonormal, and a matrix
without column. -/
theorem orthonormalize_refuses (S : Sub X) :
    (S.under.orthonormal = false → S.orthonormalize = .error .assertionError) ∧
    (S.under.orthonormal = true → S.cardinal = 0 → S.orthonormalize = .error .indexError) := by
  constructor
  · intro h; simp [Sub.orthonormalize, h]
  · intro h h0; simp [Sub.orthonormalize, h, h0]

/-! ## Cholesky -/

open Matrix in
theorem exists_cholesky {n : ℕ} {G : Matrix (Fin n) (Fin n) ℝ} (hG : G.PosDef) : ∃ L, IsCholesky G L := by
  classical
  obtain ⟨W, hW⟩ : ∃ W, W = LDL.lowerInv hG := ⟨_, rfl⟩
  letI : Invertible W := by rw [hW]; exact LDL.invertibleLowerInv hG
  have htri : W.BlockTriangular OrderDual.toDual := by
    intro i j hij
    rw [hW]
    exact LDL.lowerInv_triangular hG hij
  have htri' : (W⁻¹).BlockTriangular OrderDual.toDual := blockTriangular_inv_of_blockTriangular htri
  have hdiag : LDL.diag hG = W * G * Wᴴ := by rw [hW]; exact LDL.diag_eq_lowerInv_conj hG
  have hpd : (LDL.diag hG).PosDef := by
    rw [hdiag]
    apply hG.mul_mul_conjTranspose_same
    intro a b hab
    have := congrArg (fun v => Matrix.vecMul v W⁻¹) hab
    simpa [Matrix.vecMul_vecMul] using this
  have hd : ∀ i, 0 < LDL.diagEntries hG i := by
    intro i
    have := hpd.diag_pos (i := i)
    simpa [LDL.diag] using this
  have hdet : (W⁻¹).det ≠ 0 := by
    have : IsUnit (W⁻¹) := (isUnit_of_invertible W⁻¹)
    exact ((Matrix.isUnit_iff_isUnit_det _).1 this).ne_zero
  have hii : ∀ i, (W⁻¹) i i ≠ 0 := by
    intro i h0
    apply hdet
    rw [Matrix.det_of_isLowerTriangular _ htri']
    exact Finset.prod_eq_zero (mem_univ i) h0
  obtain ⟨c, hc⟩ : ∃ c : Fin n → ℝ, ∀ i, c i = (if 0 < (W⁻¹) i i then 1 else -1) * Real.sqrt (LDL.diagEntries hG i) := ⟨_, fun _ => rfl⟩
  have hc2 : ∀ i, c i * c i = LDL.diagEntries hG i := by
    intro i
    rw [hc]
    have := Real.mul_self_sqrt (hd i).le
    split_ifs <;> nlinarith
  refine ⟨W⁻¹ * Matrix.diagonal c, ?_, ?_, ?_⟩
  · intro i j hij
    rw [Matrix.mul_diagonal, htri' hij, zero_mul]
  · intro i
    rw [Matrix.mul_diagonal, hc]
    have := Real.sqrt_pos.2 (hd i)
    split_ifs with h
    · rw [one_mul]; positivity
    · have h' : (W⁻¹) i i < 0 := lt_of_le_of_ne (not_lt.1 h) (hii i)
      nlinarith
  · have h := LDL.lower_conj_diag hG
    have hl : LDL.lower hG = W⁻¹ := by rw [hW]; rfl
    rw [hl] at h
    rw [← h]
    rw [Matrix.transpose_mul, Matrix.diagonal_transpose, Matrix.mul_assoc, ← Matrix.mul_assoc (Matrix.diagonal c),
      Matrix.diagonal_mul_diagonal, ← Matrix.mul_assoc]
    have : (fun i => c i * c i) = LDL.diagEntries hG := funext hc2
    rw [this, Matrix.conjTranspose_eq_transpose_of_trivial]
    rfl

open Matrix in
theorem cholesky_posDef {n : ℕ} {G L : Matrix (Fin n) (Fin n) ℝ} (h : IsCholesky G L) : G.PosDef ∧ L.det ≠ 0 := by
  obtain ⟨h1, h2, h3⟩ := h
  have hdet : L.det ≠ 0 := by
    rw [Matrix.det_of_isLowerTriangular _ (fun i j hij => h1 i j hij)]
    exact Finset.prod_ne_zero_iff.2 (fun i _ => (h2 i).ne')
  refine ⟨?_, hdet⟩
  have hinj : Function.Injective L.vecMul := by
    intro a b hab
    have hu : IsUnit L.det := isUnit_iff_ne_zero.2 hdet
    have := congrArg (fun v => Matrix.vecMul v L⁻¹) hab
    simpa [Matrix.vecMul_vecMul, Matrix.mul_nonsing_inv _ hu] using this
  have := (Matrix.PosDef.one (n := Fin n) (R := ℝ)).mul_mul_conjTranspose_same hinj
  rw [Matrix.mul_one, Matrix.conjTranspose_eq_transpose_of_trivial, h3] at this
  exact this

theorem toArr_shape {n m : ℕ} (A : Matrix (Fin n) (Fin m) ℝ) : (Magic.toArr A).shape = [n, m] := rfl

theorem matOf_toArr {n m : ℕ} (A : Matrix (Fin n) (Fin m) ℝ) : matOf (Magic.toArr A) n m = A := by
  ext i j
  simp [matOf, Magic.toArr]

theorem cholesky_ok {G : Arr ℝ} {n : ℕ} (hs : G.shape = [n, n]) (hG : (matOf G n n).PosDef) :
    ∃ L : Matrix (Fin n) (Fin n) ℝ, IsCholesky (matOf G n n) L ∧ cholesky G = .ok (Magic.toArr L) := by
  have hex := exists_cholesky hG
  have h0 : G.shape.getD 0 0 = n := by rw [hs]; rfl
  have h1 : G.shape.getD 1 0 = n := by rw [hs]; rfl
  unfold cholesky
  rw [if_neg (by rw [h0, h1]; simp)]
  generalize G.shape.getD 0 0 = m at h0
  subst h0
  exact ⟨hex.choose, hex.choose_spec, by rw [dif_pos hex]⟩

theorem cholesky_error {G : Arr ℝ} {n : ℕ} (hs : G.shape = [n, n]) (hG : ¬ (matOf G n n).PosDef) :
    cholesky G = .error .valueError := by
  have h0 : G.shape.getD 0 0 = n := by rw [hs]; rfl
  have h1 : G.shape.getD 1 0 = n := by rw [hs]; rfl
  unfold cholesky
  rw [if_neg (by rw [h0, h1]; simp), dif_neg]
  rintro ⟨L, hL⟩
  apply hG
  have := (cholesky_posDef hL).1
  rwa [h0] at this

theorem inv_ok {A : Arr ℝ} {n : ℕ} (hs : A.shape = [n, n]) (hd : (matOf A n n).det ≠ 0) :
    inv A = .ok (Magic.toArr (matOf A n n)⁻¹) := by
  have h0 : A.shape.getD 0 0 = n := by rw [hs]; rfl
  have h1 : A.shape.getD 1 0 = n := by rw [hs]; rfl
  unfold inv
  rw [if_neg (by rw [h0, h1]; simp)]
  generalize A.shape.getD 0 0 = m at h0
  subst h0
  rw [if_neg hd]

/-! ## `FunctionalBasis.orthonormalize` -/

/-- The Gram matrix that the basis returns is the one of its functions. -/
def GramOk (b : Basis X) (φ : ℕ → X → ℝ) (E : (X → ℝ) → ℝ) : Prop :=
  ∃ G, b.gram = .ok G ∧ G.shape = [b.card, b.card] ∧
    ∀ i < b.card, ∀ j < b.card, G.get [i, j] = E (fun x => φ i x * φ j x)

/-- No nontrivial combination of the functions has a mean square that is zero or negative. -/
def Definite (E : (X → ℝ) → ℝ) (n : ℕ) (φ : ℕ → X → ℝ) : Prop :=
  ∀ c : ℕ → ℝ, (∃ i < n, c i ≠ 0) → 0 < E (fun x => (∑ i ∈ range n, c i * φ i x) * (∑ i ∈ range n, c i * φ i x))

open Matrix in
theorem quad_eq {E : (X → ℝ) → ℝ} {φ : ℕ → X → ℝ} {n : ℕ}
    (hE : LinearOn E (range n ×ˢ range n) (fun p x => φ p.1 x * φ p.2 x)) {G : Arr ℝ}
    (hv : ∀ i < n, ∀ j < n, G.get [i, j] = E (fun x => φ i x * φ j x)) (c : ℕ → ℝ) :
    E (fun x => (∑ i ∈ range n, c i * φ i x) * (∑ i ∈ range n, c i * φ i x))
      = (fun i : Fin n => c i) ⬝ᵥ (matOf G n n *ᵥ fun i : Fin n => c i) := by
  rw [E_combo hE c c, Finset.sum_range]
  unfold dotProduct mulVec dotProduct
  refine sum_congr rfl (fun i _ => ?_)
  rw [mul_sum, Finset.sum_range]
  refine sum_congr rfl (fun j _ => ?_)
  rw [← hv i i.2 j j.2]
  show _ = c i * (G.get [i.val, j.val] * c j)
  ring

theorem posDef_iff {E : (X → ℝ) → ℝ} {φ : ℕ → X → ℝ} {n : ℕ}
    (hE : LinearOn E (range n ×ˢ range n) (fun p x => φ p.1 x * φ p.2 x)) {G : Arr ℝ}
    (hv : ∀ i < n, ∀ j < n, G.get [i, j] = E (fun x => φ i x * φ j x)) :
    (matOf G n n).PosDef ↔ Definite E n φ := by
  rw [Matrix.posDef_iff_dotProduct_mulVec]
  constructor
  · rintro ⟨_, h⟩ c ⟨i, hi, hc⟩
    rw [quad_eq hE hv c]
    have := h (x := fun i : Fin n => c i) (fun h0 => hc (congrFun h0 ⟨i, hi⟩))
    simpa using this
  · intro h
    refine ⟨?_, ?_⟩
    · ext i j
      show G.get [j.val, i.val] = G.get [i.val, j.val]
      rw [hv _ j.2 _ i.2, hv _ i.2 _ j.2]
      congr 1
      funext x
      ring
    · intro x hx
      obtain ⟨a, ha⟩ := Function.ne_iff.1 hx
      have := h (fun i => if h : i < n then x ⟨i, h⟩ else 0) ⟨a, a.2, by simpa using ha⟩
      rw [quad_eq hE hv] at this
      simpa using this

theorem isEye_iff {G : Arr ℝ} {n : ℕ} (hs : G.shape = [n, n]) : IsEye G ↔ matOf G n n = 1 := by
  have h0 : G.shape.getD 0 0 = n := by rw [hs]; rfl
  unfold IsEye
  rw [h0]
  constructor
  · intro h
    ext i j
    rw [Matrix.one_apply]
    have := sub_eq_zero.1 (h i i.2 j j.2)
    simp only [Fin.ext_iff]
    exact this
  · intro h i hi j hj
    have := congrFun (congrFun h ⟨i, hi⟩) ⟨j, hj⟩
    rw [Matrix.one_apply] at this
    simp only [Fin.mk.injEq] at this
    exact sub_eq_zero.2 this

/-- **C156.** `orthonormalize()` of a basis with linearly independent functions returns a basis marked orthonormal, with
as many functions, orthonormal, the first `j` of which span the same space as the first `j` functions of the given basis,
for every `j`. -/
theorem basis_orthonormalize (b : Basis X) (φ : ℕ → X → ℝ) (hφ : Fns b φ) (E : (X → ℝ) → ℝ)
    (hE : LinearOn E (range b.card ×ˢ range b.card) (fun p x => φ p.1 x * φ p.2 x)) (hG : GramOk b φ E)
    (hd : Definite E b.card φ) :
    ∃ (b' : Basis X) (ψ : ℕ → X → ℝ), b.orthonormalize = .ok b' ∧ b'.orthonormal = true ∧ b'.card = b.card ∧ Fns b' ψ ∧
      Orthonormal E b.card ψ ∧ ∀ j ≤ b.card,
        Submodule.span ℝ (ψ '' {l | l < j}) = Submodule.span ℝ (φ '' {l | l < j}) := by
  obtain ⟨G, g1, g2, g3⟩ := hG
  have h0 : G.shape.getD 0 0 = b.card := by rw [g2]; rfl
  by_cases hone : matOf G b.card b.card = 1
  · refine ⟨{ b with orthonormal := true }, φ, ?_, rfl, rfl, hφ, ?_, fun _ _ => rfl⟩
    · simp only [Basis.orthonormalize, g1, bind, Except.bind]
      rw [if_neg (not_not.2 ((isEye_iff g2).2 hone))]
    · intro i hi j hj
      rw [← g3 i hi j hj]
      exact sub_eq_zero.1 ((isEye_iff g2).2 hone i (by rw [h0]; exact hi) j (by rw [h0]; exact hj))
  · have hpd := (posDef_iff hE g3).2 hd
    obtain ⟨L, hL, c1⟩ := cholesky_ok g2 hpd
    have hdet := (cholesky_posDef hL).2
    have hu : IsUnit L.det := isUnit_iff_ne_zero.2 hdet
    have hA := inv_ok (toArr_shape L) (by rw [matOf_toArr]; exact hdet)
    rw [matOf_toArr] at hA
    obtain ⟨B, hBdef⟩ : ∃ B, B = transposeM (Magic.toArr L⁻¹) := ⟨_, rfl⟩
    have hBs : B.shape = [b.card, b.card] := by rw [hBdef]; rfl
    have hBv : ∀ i j : Fin b.card, B.get [i, j] = L⁻¹ j i := by
      intro i j
      rw [hBdef]
      simp [transposeM, Magic.toArr]
    obtain ⟨S, s1, s2, s3⟩ := mk_ok b hBs
    have hf := sub_fns S φ (by rw [s2]; exact hφ) (r := b.card) (by rw [s2, s3]; exact hBs)
    rw [s2, s3] at hf
    refine ⟨{ S.toBasis with orthonormal := true }, combo B b.card φ, ?_, rfl, hf.1, hf.2, ?_, ?_⟩
    · simp only [Basis.orthonormalize, g1, bind, Except.bind, c1, hA]
      rw [if_pos (fun h => hone ((isEye_iff g2).1 h)), ← hBdef, s1]
    · intro j hj k hk
      unfold combo
      rw [E_combo hE (fun i => B.get [i, j]) (fun i => B.get [i, k])]
      have hid : L⁻¹ * matOf G b.card b.card * L⁻¹.transpose = 1 := by
        rw [← hL.2.2, ← Matrix.mul_assoc, Matrix.nonsing_inv_mul _ hu, Matrix.one_mul, ← Matrix.transpose_mul,
          Matrix.nonsing_inv_mul _ hu, Matrix.transpose_one]
      have := congrFun (congrFun hid ⟨j, hj⟩) ⟨k, hk⟩
      rw [Matrix.one_apply] at this
      simp only [Fin.mk.injEq] at this
      rw [← this, Matrix.mul_apply, Finset.sum_range, sum_comm, Finset.sum_range]
      refine sum_congr rfl (fun l _ => ?_)
      rw [Matrix.mul_apply, sum_mul, Matrix.transpose_apply]
      refine sum_congr rfl (fun i _ => ?_)
      rw [hBv i ⟨j, hj⟩, hBv l ⟨k, hk⟩, ← g3 i i.2 l l.2]
      show _ = L⁻¹ ⟨j, hj⟩ i * G.get [i.val, l.val] * L⁻¹ ⟨k, hk⟩ l
      ring
    · -- triangular changes of basis
      let _ : Invertible L := Matrix.invertibleOfIsUnitDet L hu
      have htri : ∀ i j : Fin b.card, i < j → L⁻¹ i j = 0 := by
        have := Matrix.blockTriangular_inv_of_blockTriangular (M := L) (b := OrderDual.toDual)
          (fun i j hij => hL.1 i j hij)
        exact fun i j hij => this hij
      intro j hj
      apply le_antisymm
      · rw [Submodule.span_le]
        rintro _ ⟨l, hl, rfl⟩
        have hl' : l < j := hl
        show combo B b.card φ l ∈ _
        have : combo B b.card φ l = ∑ i ∈ range b.card, B.get [i, l] • φ i := by
          funext x
          simp [combo, Finset.sum_apply]
        rw [this]
        refine Submodule.sum_mem _ (fun i hi => ?_)
        by_cases hil : i ≤ l
        · exact Submodule.smul_mem _ _ (Submodule.subset_span ⟨i, by show i < j; omega, rfl⟩)
        · have : B.get [i, l] = 0 := by
            rw [hBv ⟨i, mem_range.1 hi⟩ ⟨l, by omega⟩]
            exact htri _ _ (by show l < i; omega)
          rw [this, zero_smul]
          exact Submodule.zero_mem _
      · rw [Submodule.span_le]
        rintro _ ⟨l, hl, rfl⟩
        have hl' : l < j := hl
        have hlb : l < b.card := by omega
        -- `φ l` is the combination with the row `l` of `L`
        have key : φ l = ∑ k : Fin b.card, L ⟨l, hlb⟩ k • combo B b.card φ k := by
          funext x
          simp only [combo, Finset.sum_apply, Pi.smul_apply, smul_eq_mul]
          have : ∀ k : Fin b.card, L ⟨l, hlb⟩ k * ∑ i ∈ range b.card, B.get [i, k] * φ i x
              = ∑ i : Fin b.card, L ⟨l, hlb⟩ k * L⁻¹ k i * φ i x := by
            intro k
            rw [mul_sum, Finset.sum_range]
            refine sum_congr rfl (fun i _ => ?_)
            rw [hBv i k]; ring
          rw [sum_congr rfl (fun k _ => this k), sum_comm]
          have hLL : L * L⁻¹ = 1 := Matrix.mul_nonsing_inv _ hu
          have h2 : ∀ i : Fin b.card, ∑ k : Fin b.card, L ⟨l, hlb⟩ k * L⁻¹ k i * φ i x
              = (if (⟨l, hlb⟩ : Fin b.card) = i then 1 else 0) * φ i x := by
            intro i
            rw [← sum_mul, ← Matrix.mul_apply, hLL, Matrix.one_apply]
          rw [sum_congr rfl (fun i _ => h2 i)]
          simp
        show φ l ∈ _
        rw [key]
        refine Submodule.sum_mem _ (fun k _ => ?_)
        by_cases hkl : k.val ≤ l
        · exact Submodule.smul_mem _ _ (Submodule.subset_span ⟨k, by show k.val < j; omega, rfl⟩)
        · rw [hL.1 ⟨l, hlb⟩ k (by show l < k.val; omega), zero_smul]
          exact Submodule.zero_mem _

/-- **C156.** `orthonormalize()` raises an exception if the functions are linearly dependent. -/
theorem basis_orthonormalize_refuses (b : Basis X) (φ : ℕ → X → ℝ) (E : (X → ℝ) → ℝ)
    (hE : LinearOn E (range b.card ×ˢ range b.card) (fun p x => φ p.1 x * φ p.2 x)) (hG : GramOk b φ E)
    (hd : ¬ Definite E b.card φ) : b.orthonormalize = .error .valueError := by
  obtain ⟨G, g1, g2, g3⟩ := hG
  have h0 : G.shape.getD 0 0 = b.card := by rw [g2]; rfl
  have hpd : ¬ (matOf G b.card b.card).PosDef := fun h => hd ((posDef_iff hE g3).1 h)
  have hone : matOf G b.card b.card ≠ 1 := fun h => hpd (by rw [h]; exact Matrix.PosDef.one)
  simp only [Basis.orthonormalize, g1, bind, Except.bind]
  rw [if_pos (fun h => hone ((isEye_iff g2).1 h)), cholesky_error g2 hpd]

/-- **C156.** The bases that have no `gram_matrix()` of their own (the one of `FunctionalBasis` asks for an integration rule)
cannot be orthonormalised. -/
theorem basis_orthonormalize_gram (b : Basis X) (e : PyErr) (h : b.gram = .error e) : b.orthonormalize = .error e := by
  simp only [Basis.orthonormalize, h, bind, Except.bind]

/-! ## Derivatives of a sub-basis -/

/-- **C157.** With two points or more, `eval_derivative(n, x)` of a sub-basis raises an exception. -/
theorem evalDerivative_refuses (S : Sub ℝ) (der : ℕ → List ℝ → Py (Arr ℝ)) (n : ℕ) (x : List ℝ) (hx : 2 ≤ x.length) :
    S.evalDerivative der n x = .error .typeError := by
  match x, hx with
  | a :: b :: l, _ => rfl

/-- **C157.** `eval_jacobian(x)` of a sub-basis, where it returns something, contracts the matrix along its columns; it
raises an exception if the number of functions of the sub-basis is not the one of the underlying basis. -/
theorem evalJacobian_eq (S : Sub X) {c r N d : ℕ} (hS : S.basis.shape = [c, r]) (J : Arr ℝ) (hJ : J.shape = [N, c, d]) :
    (r ≠ c → S.evalJacobian J = .error .valueError) ∧
    (r = c → ∃ D, S.evalJacobian J = .ok D ∧ D.shape = [N, r, d] ∧ ∀ p j k, D.get [p, j, k]
      = ∑ i ∈ range c, S.basis.get [j, i] * J.get [p, i, k]) := by
  constructor
  · intro h
    unfold Sub.evalJacobian
    rw [hS, hJ, if_pos (by simpa using h)]
  · rintro rfl
    unfold Sub.evalJacobian
    rw [hS, hJ, if_neg (by simp)]
    exact ⟨_, rfl, rfl, fun p j k => rfl⟩

/-- **C157.** `eval_jacobian(x)` is the Jacobian of the sub-basis if its matrix is symmetric. -/
theorem evalJacobian_partial (S : Sub X) {c N d : ℕ} (hS : S.basis.shape = [c, c]) (J : Arr ℝ) (hJ : J.shape = [N, c, d])
    (hsym : ∀ i < c, ∀ j < c, S.basis.get [i, j] = S.basis.get [j, i]) :
    ∃ D, S.evalJacobian J = .ok D ∧ D.shape = [N, c, d] ∧ ∀ p, ∀ j < c, ∀ k, D.get [p, j, k]
      = ∑ i ∈ range c, S.basis.get [i, j] * J.get [p, i, k] := by
  obtain ⟨D, h1, h2, h3⟩ := (evalJacobian_eq S hS J hJ).2 rfl
  refine ⟨D, h1, h2, fun p j hj k => ?_⟩
  rw [h3]
  exact sum_congr rfl (fun i hi => by rw [hsym j hj i (mem_range.1 hi)])

/-- **C157 is false of the code.** For one point and the basis of functions `φ₀, φ₁` with gradients `1` and `0`, the sub-basis
`(φ₁, 0)` has zero gradients, but `eval_jacobian` returns `0` and `1`. -/
theorem evalJacobian_wrong (U : Basis X) :
    ∃ D, (⟨U, ⟨[2, 2], fun ij => if ij = [1, 0] then 1 else 0⟩, false⟩ : Sub X).evalJacobian
        ⟨[1, 2, 1], fun p => if p.getD 1 0 = 0 then 1 else 0⟩ = .ok D ∧ D.get [0, 1, 0] = 1 ∧
      ∀ j < 2, ∑ i ∈ range 2, (if [i, j] = [1, 0] then (1 : ℝ) else 0) * (if i = 0 then 1 else 0) = 0 := by
  refine ⟨_, by unfold Sub.evalJacobian; rw [if_neg (by simp)], ?_, ?_⟩
  · simp [sum_range_succ]
  · intro j hj
    interval_cases j <;> simp [sum_range_succ]

end Verif.SubBasis
