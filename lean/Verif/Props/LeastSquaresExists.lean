import Verif.Props.BasisAdaptation
import Verif.Lemmas.QRExists
import Mathlib.LinearAlgebra.Matrix.ToLin
import Mathlib.LinearAlgebra.Basis.VectorSpace

/-!
# The hypotheses of the theorems on least squares are met
-/

namespace Verif.LeastSquares

open Finset Matrix

/-- Every matrix has a generalised inverse. -/
theorem exists_ginv {m n : Nat} (B : Matrix (Fin m) (Fin n) ℝ) : ∃ X : Matrix (Fin n) (Fin m) ℝ, B * X * B = B := by
  set f := B.mulVecLin with hf
  obtain ⟨g, hg⟩ := f.rangeRestrict.exists_rightInverse_of_surjective f.range_rangeRestrict
  obtain ⟨G, hG⟩ := LinearMap.exists_extend g
  refine ⟨LinearMap.toMatrix' G, ?_⟩
  have h1 : ∀ v, f (G (f v)) = f v := by
    intro v
    have h2 : G (f v) = g (f.rangeRestrict v) := by
      rw [← hG]; rfl
    have h3 : f.rangeRestrict (g (f.rangeRestrict v)) = f.rangeRestrict v := by
      have := congrArg (fun F => F (f.rangeRestrict v)) hg
      exact this
    rw [h2]
    exact congrArg Subtype.val h3
  apply Matrix.toLin'.injective
  apply LinearMap.ext
  intro v
  have := h1 v
  rw [Matrix.toLin'_mul, Matrix.toLin'_mul, LinearMap.comp_apply, LinearMap.comp_apply, Matrix.toLin'_toMatrix']
  exact this

theorem exists_qrM {m n : Nat} (A : Matrix (Fin m) (Fin n) ℝ) :
    ∃ p : Matrix (Fin m) (Fin (min m n)) ℝ × Matrix (Fin (min m n)) (Fin n) ℝ, p.1 * p.2 = A ∧ p.1ᵀ * p.1 = 1 := by
  let C : Fin n → EuclideanSpace ℝ (Fin m) := fun j => WithLp.toLp 2 (fun i => A i j)
  obtain ⟨b, hb⟩ := FullTensor.exists_basis m n C
  have hmn : ∀ l : Fin (min m n), l.1 < m := fun l => lt_of_lt_of_le l.2 (min_le_left _ _)
  refine ⟨(fun i l => b ⟨l.1, hmn l⟩ i, fun l j => inner ℝ (b ⟨l.1, hmn l⟩) (C j)), ?_, ?_⟩
  · ext i j
    have hs := b.sum_repr' (C j)
    have hs' := congrArg (fun w : EuclideanSpace ℝ (Fin m) => w i) hs
    have e1 : (∑ l, inner ℝ (b l) (C j) • b l : EuclideanSpace ℝ (Fin m)) i = ∑ l : Fin m, b l i * inner ℝ (b l) (C j) := by
      rw [WithLp.ofLp_sum, Finset.sum_apply]
      refine Finset.sum_congr rfl (fun l _ => ?_)
      simp [mul_comm]
    have e2 : A i j = ∑ l : Fin m, b l i * inner ℝ (b l) (C j) := by rw [← e1]; exact hs'.symm
    rw [e2, Matrix.mul_apply]
    symm
    rw [← Finset.sum_subset (Finset.subset_univ (univ.filter (fun l : Fin m => l.1 < min m n)))]
    · symm
      refine Finset.sum_bij (fun (l : Fin (min m n)) _ => (⟨l.1, hmn l⟩ : Fin m)) (fun l _ => mem_filter.2 ⟨mem_univ _, l.2⟩)
        (fun l _ l' _ h => by simpa [Fin.ext_iff] using h)
        (fun l hl => ⟨⟨l.1, (mem_filter.1 hl).2⟩, mem_univ _, rfl⟩) (fun l _ => rfl)
    · intro l _ hl
      have : min m n ≤ l.1 := not_lt.1 (fun h => hl (mem_filter.2 ⟨mem_univ _, h⟩))
      rw [hb j l this, mul_zero]
  · ext l l'
    have ho := orthonormal_iff_ite.1 b.orthonormal ⟨l.1, hmn l⟩ ⟨l'.1, hmn l'⟩
    rw [PiLp.inner_apply] at ho
    rw [Matrix.mul_apply, Matrix.one_apply]
    simp only [transpose_apply]
    have e : (if (⟨l.1, hmn l⟩ : Fin m) = ⟨l'.1, hmn l'⟩ then (1 : ℝ) else 0) = if l = l' then 1 else 0 := by
      simp [Fin.ext_iff]
    rw [← e, ← ho]
    refine Finset.sum_congr rfl (fun i _ => ?_)
    show b ⟨l.1, hmn l⟩ i * b ⟨l'.1, hmn l'⟩ i = _
    simp [mul_comm]

theorem exists_folds {α : Type} (k : Nat) (l : List α) (h1 : 1 ≤ k) (h2 : k ≤ l.length) :
    ∃ fs : List (List α), fs.length = k ∧ fs.flatten = l ∧ ∀ t ∈ fs, t ≠ [] := by
  induction k generalizing l with
  | zero => omega
  | succ k ih =>
    cases l with
    | nil => simp at h2
    | cons a l =>
      rcases Nat.eq_zero_or_pos k with rfl | hk
      · exact ⟨[a :: l], rfl, by simp, by simp⟩
      · obtain ⟨fs, h3, h4, h5⟩ := ih l hk (by simpa using h2)
        refine ⟨[a] :: fs, by simp [h3], by simp [h4], ?_⟩
        intro t ht
        rcases List.mem_cons.1 ht with rfl | ht
        · simp
        · exact h5 t ht

theorem inj_inv {m n : Nat} (B : Matrix (Fin m) (Fin n) ℝ) (hmn : m = n) (h : ∀ v, B *ᵥ v = 0 → v = 0) :
    ∃ X : Matrix (Fin n) (Fin m) ℝ, X * B = 1 ∧ B * X = 1 := by
  subst hmn
  have hinj : Function.Injective B.mulVec := by
    have : Function.Injective B.mulVecLin := by
      rw [← LinearMap.ker_eq_bot, LinearMap.ker_eq_bot']
      exact h
    exact this
  have hu : IsUnit B := Matrix.mulVec_injective_iff_isUnit.1 hinj
  have hd := (Matrix.isUnit_iff_isUnit_det B).1 hu
  exact ⟨B⁻¹, Matrix.nonsing_inv_mul _ hd, Matrix.mul_nonsing_inv _ hd⟩

/-- Functions with the specification `LaOk` exist; `cond` is arbitrary. -/
theorem exists_la (cond : {m n : Nat} → Matrix (Fin m) (Fin n) ℝ → Bool) : ∃ la : La, LaOk la ∧ @La.illCond la = @cond := by
  classical
  have hinv : ∀ (m n : Nat) (B : Matrix (Fin m) (Fin n) ℝ), ∃ r : Py (Matrix (Fin n) (Fin m) ℝ),
      (∀ X, r = .ok X → X * B = 1 ∧ B * X = 1) ∧ (m = n → (∀ v, B *ᵥ v = 0 → v = 0) → ∃ X, r = .ok X) := by
    intro m n B
    by_cases h : ∃ X : Matrix (Fin n) (Fin m) ℝ, X * B = 1 ∧ B * X = 1
    · obtain ⟨X, hX⟩ := h
      exact ⟨.ok X, fun X' h' => by injection h' with h'; rw [← h']; exact hX, fun _ _ => ⟨X, rfl⟩⟩
    · exact ⟨.error .valueError, fun X' h' => by simp at h', fun h1 h2 => absurd (inj_inv B h1 h2) h⟩
  choose inv inv1 inv2 using hinv
  have hpinv : ∀ (m n : Nat) (B : Matrix (Fin m) (Fin n) ℝ), ∃ X : Matrix (Fin n) (Fin m) ℝ, B * X * B = B := fun _ _ B => exists_ginv B
  choose pinv hpi using hpinv
  have hqr : ∀ (m n : Nat) (A : Matrix (Fin m) (Fin n) ℝ), ∃ p : Matrix (Fin m) (Fin (min m n)) ℝ × Matrix (Fin (min m n)) (Fin n) ℝ,
      p.1 * p.2 = A ∧ p.1ᵀ * p.1 = 1 := fun _ _ A => exists_qrM A
  choose qr hq using hqr
  have hf : ∀ (k N : Nat), ∃ fs : List (List (Fin N)), 2 ≤ k → k ≤ N → fs.length = k ∧ fs.flatten.Perm (List.finRange N) ∧
      ∀ t ∈ fs, t ≠ [] := by
    intro k N
    by_cases h : 2 ≤ k ∧ k ≤ N
    · obtain ⟨fs, h1, h2, h3⟩ := exists_folds k (List.finRange N) (by omega) (by rw [List.length_finRange]; exact h.2)
      exact ⟨fs, fun _ _ => ⟨h1, by rw [h2], h3⟩⟩
    · exact ⟨[], fun h1 h2 => absurd ⟨h1, h2⟩ h⟩
  choose folds hfo using hf
  let la : La :=
    { solve := fun {m n} B b => match inv m n B with
        | .ok X => .ok (X *ᵥ b)
        | .error e => .error e
      lstsq := fun {m n} B b => pinv n n (Bᵀ * B) *ᵥ (Bᵀ *ᵥ b)
      inv := fun {m n} B => inv m n B
      pinv := fun {m n} B => pinv m n B
      qr := fun {m n} A => qr m n A
      illCond := fun {m n} B => cond B
      folds := folds }
  refine ⟨la, ?_, rfl⟩
  constructor
  · intro m n B b x hx
    simp only [la] at hx
    split at hx
    · next X hX =>
      injection hx with hx
      rw [← hx, mulVec_mulVec, (inv1 m n B X hX).2, one_mulVec]
    · simp at hx
  · intro m n B b h1 h2
    obtain ⟨X, hX⟩ := inv2 m n B h1 h2
    refine ⟨X *ᵥ b, ?_⟩
    simp only [la, hX]
  · intro m n B b z
    have h1 : IsFit B b univ univ (pinv n n (Bᵀ * B) *ᵥ (Bᵀ *ᵥ b)) := by
      rw [isFit_univ, mulVec_sub, mulVec_mulVec, mulVec_mulVec, mulVec_mulVec]
      rw [ginv_gram B _ (hpi n n _), sub_self]
    exact h1.2 z (fun p hp => absurd (mem_univ p) hp)
  · intro m n B X hX
    exact inv1 m n B X hX
  · intro m n B h1 h2
    exact inv2 m n B h1 h2
  · intro m n B
    exact hpi m n B
  · intro m n A
    exact hq m n A
  · intro k N h1 h2
    exact hfo k N h1 h2

/-! ### Concrete cases -/

/-- Three samples; the second feature is only seen by the first one. -/
def exA : Matrix (Fin 3) (Fin 2) ℝ := ![![1, 1], ![1, 0], ![1, 0]]

def exY : Fin 3 → ℝ := ![5, 1, 2]

/-- Four samples of an affine model. -/
def exB : Matrix (Fin 4) (Fin 2) ℝ := ![![1, 0], ![1, 1], ![1, 2], ![1, 3]]

def exZ : Fin 4 → ℝ := ![0, 1, 1, 3]

theorem exB_det (i : Fin 4) : Determined exB (univ.erase i) univ := by
  intro v _ hv
  have h : ∀ j : Fin 4, j ≠ i → v 0 + (j.1 : ℝ) * v 1 = 0 := by
    intro j hj
    have := hv j (by simp [hj])
    fin_cases j <;> simp [exB, Fin.sum_univ_two] at this ⊢ <;> linarith
  have h2 : v 0 = 0 ∧ v 1 = 0 := by
    fin_cases i
    · have h1 := h 1 (by decide); have h2 := h 2 (by decide)
      norm_num at h1 h2
      constructor <;> linarith
    · have h1 := h 0 (by decide); have h2 := h 2 (by decide)
      norm_num at h1 h2
      constructor <;> linarith
    · have h1 := h 0 (by decide); have h2 := h 1 (by decide)
      norm_num at h1 h2
      constructor <;> linarith
    · have h1 := h 0 (by decide); have h2 := h 1 (by decide)
      norm_num at h1 h2
      constructor <;> linarith
  funext p
  fin_cases p
  · exact h2.1
  · exact h2.2

theorem Determined.anti {N P : Nat} {A : Matrix (Fin N) (Fin P) ℝ} {s : Finset (Fin N)} {S S' : Finset (Fin P)} (h : Determined A s S)
    (hs : S' ⊆ S) : Determined A s S' :=
  fun v hv h1 => h v (fun p hp => hv p (fun h2 => hp (hs h2))) h1

theorem exZ_meanSq : meanSq exZ ≠ 0 := by
  unfold meanSq exZ
  rw [Fin.sum_univ_four]
  simp
  norm_num

/-- The hypotheses of `solveOls_leaveOut`, `solveOls_kFold` and `selectOptimalPath_leaveOut` are met by four samples of an affine model with
any linear algebra that meets its specification, which exists. -/
example : ∃ la : La, LaOk la ∧
    (∀ o : Opts, o.estimate = true → o.kind = .leaveOut → ∃ sol d, IsFit exB exZ univ univ sol ∧ IsLoo exB exZ univ d ∧
      solveOls la o exB exZ = .ok (sol, some (.val (relError exB exZ univ (isCorrected la o exB) ((∑ i, d i ^ 2) / (4 : Nat))),
        fun i => .val (d i)))) ∧
    (∀ o : Opts, o.kind = .leaveOut → ∃ sol out, solveBasisAdaptation la o exB exZ none = .ok (sol, some out) ∧
      IsFit exB exZ univ (supp out.pattern) sol) := by
  obtain ⟨la, h, _⟩ := exists_la (fun _ => false)
  refine ⟨la, h, fun o h1 h2 => ?_, fun o h2 => ?_⟩
  · exact solveOls_leaveOut h o exB exZ h1 (by rw [h2]; rfl) (by norm_num) exB_det exZ_meanSq
  · rw [(solveBasisAdaptation_default la o exB exZ).1]
    obtain ⟨sol, out, d, e, h3, _, _, _, h4, _⟩ := selectOptimalPath_leaveOut h o exB exZ (triuPath 2) (by rw [h2]; rfl) exZ_meanSq
      ⟨fun p => decide (p.1 ≤ 0), by simp [triuPath, List.range_succ], ⟨0, by simp [supp]⟩, by decide⟩
      (fun pat _ _ i => (exB_det i).anti (Finset.subset_univ _))
    exact ⟨sol, out, h3, h4⟩

/-- The hypotheses of `solveOls_kFold`: two folds of four samples. -/
example (la : La) (h : LaOk la) (hf : la.folds 2 4 = [[0, 2], [1, 3]]) (o : Opts) (he : o.estimate = true)
    (hk : o.kind = .kFold (some 2)) : ∃ sol d, IsFit exB exZ univ univ sol ∧ IsFoldRes exB exZ univ (la.folds 2 4) d ∧
      solveOls la o exB exZ = .ok (sol, some (.val (relError exB exZ univ (isCorrected la o exB) (foldMean (la.folds 2 4) d)),
        fun i => .val (d i))) := by
  refine solveOls_kFold h o exB exZ he 2 (Or.inl hk) (le_refl 2) (by norm_num) (by norm_num) ?_ exZ_meanSq
  rw [hf]
  intro t ht v _ hv
  have h2 : v 0 = 0 ∧ v 1 = 0 := by
    simp only [List.mem_cons, List.not_mem_nil, or_false] at ht
    rcases ht with rfl | rfl
    · have h1 := hv 1 (by simp); have h2 := hv 3 (by simp)
      simp [exB, Fin.sum_univ_two] at h1 h2
      constructor <;> linarith
    · have h1 := hv 0 (by simp); have h2 := hv 2 (by simp)
      simp [exB, Fin.sum_univ_two] at h1 h2
      constructor <;> linarith
  funext p
  fin_cases p
  · exact h2.1
  · exact h2.2

/-! ### The selection prefers a nan -/

theorem candidate_nan {la : La} (h : LaOk la) {N P : Nat} (o : Opts) (A : Matrix (Fin N) (Fin P) ℝ) (y : Fin N → ℝ) (pat : Fin P → Bool)
    (hk : effective o.kind N = .leaveOut) (hP : (supp pat).card + 1 ≤ N) (hA : Determined A univ (supp pat)) (i : Fin N)
    (hd : ¬ Determined A (univ.erase i) (supp pat)) : ∃ sol delta, candidate la o A y pat = .ok (sol, .nan, delta) := by
  have hl : (cols pat).length + 1 ≤ N := by rw [cols_length]; exact hP
  have hA' := determined_embed A pat _ hA
  have hd' : ¬ Determined (A.submatrix id (cols pat).get) (univ.erase i) univ := by
    intro h1
    apply hd
    intro v hv hv0
    rw [← embed_restrict pat v hv] at hv0 ⊢
    have := h1 _ (fun p hp => absurd (mem_univ p) hp) (fun j hj => by
      have := hv0 j hj
      rwa [mulVec_embed] at this)
    rw [this]
    funext p
    unfold embed
    simp
  obtain ⟨hf, _⟩ := candFit_factors la o A y pat (by omega)
  obtain ⟨delta, h1, _⟩ := cv_leaveOut_nan la o (hf.hatOk h hA') (candFit_normal h o A y pat) hk hl hA' i hd' (m := secondMoment y)
  refine ⟨embed (cols pat) (candFit la o A y pat).1, delta, ?_⟩
  rw [candidate_eq, h1]
  rfl

/-- A candidate of the path whose leave-one-out error is not defined is selected, although another candidate has a finite error: three
samples, a constant feature and a feature only seen by the first sample. -/
theorem selectOptimalPath_nan_wrong (la : La) (h : LaOk la) (o : Opts) (hk : o.kind = .leaveOut) :
    ∃ sol out, solveBasisAdaptation la o exA exY none = .ok (sol, some out) ∧ out.error = .nan ∧
      ∃ pat ∈ triuPath 2, ∃ s e d, candidate la o exA exY pat = .ok (s, .val e, d) := by
  have hk' : effective o.kind 3 = .leaveOut := by rw [hk]; rfl
  let p0 : Fin 2 → Bool := fun p => decide (p.1 ≤ 0)
  let p1 : Fin 2 → Bool := fun p => decide (p.1 ≤ 1)
  have hs0 : supp p0 = {0} := by decide
  have hs1 : supp p1 = univ := by decide
  have htri : triuPath 2 = [p0, p1] := by simp [triuPath, List.range_succ, p0, p1]
  have hd0 : ∀ i, Determined exA (univ.erase i) (supp p0) := by
    intro i v hv hv0
    rw [hs0] at hv
    have h1 : v 1 = 0 := hv 1 (by decide)
    have h0 : v 0 = 0 := by
      by_cases hi : i = 1
      · subst hi
        have := hv0 2 (by decide)
        simpa [exA, Fin.sum_univ_two] using this
      · have := hv0 1 (by simp [Ne.symm hi])
        simpa [exA, Fin.sum_univ_two] using this
    funext p
    fin_cases p
    · exact h0
    · exact h1
  have hy : meanSq exY ≠ 0 := by
    unfold meanSq exY
    rw [Fin.sum_univ_three]
    simp
    norm_num
  obtain ⟨s0, d0, _, hc0⟩ := candidate_leaveOut h o exA exY p0 hk' (by rw [hs0]; decide) hd0 hy
  have hA : Determined exA univ (supp p1) := by
    intro v _ hv0
    have h1 := hv0 1 (mem_univ _)
    have h0 := hv0 0 (mem_univ _)
    simp [exA, Fin.sum_univ_two] at h0 h1
    funext p
    fin_cases p
    · exact h1
    · show v 1 = 0
      linarith
  have hnd : ¬ Determined exA (univ.erase 0) (supp p1) := by
    intro hd
    have := hd ![0, 1] (fun p hp => absurd (by rw [hs1]; exact mem_univ p) hp) (fun j hj => by
      fin_cases j
      · simp at hj
      · simp [exA, Fin.sum_univ_two]
      · simp [exA, Fin.sum_univ_two])
    have := congrFun this 1
    simp at this
  obtain ⟨s1, d1, hc1⟩ := candidate_nan h o exA exY p1 hk' (by rw [hs1]; decide) hA 0 hnd
  have hadm : ∀ pat, pat ∈ admissible 3 (triuPath 2) ↔ pat = p0 ∨ pat = p1 := by
    intro pat
    rw [mem_admissible, htri]
    constructor
    · rintro ⟨h1, _⟩
      simpa using h1
    · rintro (rfl | rfl)
      · exact ⟨by simp, by rw [hs0]; decide, by rw [hs0]; decide⟩
      · exact ⟨by simp, by rw [hs1]; decide, by rw [hs1]; decide⟩
  have hne : admissible 3 (triuPath 2) ≠ [] := by
    intro h0
    have := (hadm p0).2 (Or.inl rfl)
    rw [h0] at this
    simp at this
  obtain ⟨sol, out, r1, r2, r3, r4, r5, r6, r7, r8, r9, r10⟩ := selectOptimalPath_spec h o exA exY (triuPath 2) hne (fun pat hp => by
    rcases (hadm pat).1 hp with rfl | rfl
    · exact ⟨_, hc0⟩
    · exact ⟨_, hc1⟩)
  refine ⟨sol, out, ?_, ?_, p0, by rw [htri]; simp, s0, _, _, hc0⟩
  · rw [(solveBasisAdaptation_default la o exA exY).1]; exact r1
  · have hn : out.error.isNan = true := by
      rw [r9]
      obtain ⟨j, hj, hj'⟩ := List.getElem_of_mem ((hadm p1).2 (Or.inr rfl))
      obtain ⟨s, d, h2⟩ := r8 j hj
      rw [List.getD_eq_getElem _ _ hj, hj', hc1] at h2
      injection h2 with h2
      have h3 : Ext.nan = out.errorPath.getD j .nan := congrArg (fun z => z.2.1) h2
      rw [List.getD_eq_getElem _ _ (by rw [r6]; exact hj)] at h3
      exact ⟨_, List.getElem_mem (by rw [r6]; exact hj), by rw [← h3]; rfl⟩
    cases he : out.error with
    | nan => rfl
    | val x => rw [he] at hn; simp [Ext.isNan] at hn
    | inf => rw [he] at hn; simp [Ext.isNan] at hn

end Verif.LeastSquares
