import Verif.Model.Magic
import Verif.Props.BasisArray
import Mathlib.LinearAlgebra.Matrix.SchurComplement
import Mathlib.LinearAlgebra.Matrix.Rank

/-!
# Magic indices, magic points, interpolation (C99-C102)
-/

namespace Verif.Magic

open Verif.Arr Verif.Bases Matrix

variable {K : Type} [Field K] [LinearOrder K] {N M : Nat}

/-! ### specification -/

/-- `G` is a matrix of rank at most `k` that coincides with `F` on the rows `I` and on the columns `J`. -/
structure IsCross {k : Nat} (F G : Matrix (Fin N) (Fin M) K) (I : Fin k → Fin N) (J : Fin k → Fin M) : Prop where
  rank : G.rank ≤ k
  rows : ∀ a j, G (I a) j = F (I a) j
  cols : ∀ i a, G i (J a) = F i (J a)

/-- `(i, j)` is the position of the greatest entry of `R` in absolute value, the first one in the order of the rows. -/
structure IsPivot (R : Matrix (Fin N) (Fin M) K) (i : Fin N) (j : Fin M) : Prop where
  max : ∀ i' j', |R i' j'| ≤ |R i j|
  firstRow : ∀ i' j', i' < i → |R i' j'| < |R i j|
  firstCol : ∀ j', j' < j → |R i j'| < |R i j|

/-! ### algebra of crosses -/

omit [LinearOrder K] in
/-- Schur complement. -/
theorem det_snoc {k : Nat} (F : Matrix (Fin N) (Fin M) K) (I : Fin k → Fin N) (J : Fin k → Fin M) (i : Fin N) (j : Fin M)
    (h : (F.submatrix I J).det ≠ 0) :
    (F.submatrix (Fin.snoc I i : Fin (k + 1) → Fin N) (Fin.snoc J j : Fin (k + 1) → Fin M)).det =
      (F.submatrix I J).det * (F i j - (F.submatrix id J * ((F.submatrix I J)⁻¹ * F.submatrix I id)) i j) := by
  have := Matrix.invertibleOfIsUnitDet _ (isUnit_iff_ne_zero.2 h)
  have e : (F.submatrix (Fin.snoc I i : Fin (k + 1) → Fin N) (Fin.snoc J j : Fin (k + 1) → Fin M)).submatrix
      finSumFinEquiv finSumFinEquiv = fromBlocks (F.submatrix I J) (F.submatrix I (fun _ : Fin 1 => j))
        (F.submatrix (fun _ : Fin 1 => i) J) (Matrix.of (fun _ _ : Fin 1 => F i j)) := by
    ext a b
    rcases a with a | a <;> rcases b with b | b <;>
      simp [Fin.snoc_eq_append, fromBlocks, Fin.append_left, Fin.append_right, Fin.cons]
    all_goals
      first
      | rw [Subsingleton.elim a 0, Subsingleton.elim b 0]
      | rw [Subsingleton.elim a 0]
      | rw [Subsingleton.elim b 0]
    all_goals simp
  rw [← Matrix.det_submatrix_equiv_self finSumFinEquiv, e, det_fromBlocks₁₁]
  congr 1
  rw [Matrix.det_unique, Matrix.invOf_eq_nonsing_inv, Matrix.mul_assoc]
  rfl

omit [LinearOrder K] in
theorem isCross {k : Nat} (F : Matrix (Fin N) (Fin M) K) (I : Fin k → Fin N) (J : Fin k → Fin M)
    (h : (F.submatrix I J).det ≠ 0) :
    IsCross F (F.submatrix id J * ((F.submatrix I J)⁻¹ * F.submatrix I id)) I J where
  rank := (Matrix.rank_mul_le_left _ _).trans ((Matrix.rank_le_card_width _).trans (by simp))
  rows a j := by
    have : (F.submatrix id J * ((F.submatrix I J)⁻¹ * F.submatrix I id)).submatrix I id = F.submatrix I id := by
      rw [Matrix.submatrix_mul _ _ I id id Function.bijective_id, submatrix_submatrix, submatrix_id_id, Function.id_comp, Function.comp_id]
      rw [← Matrix.mul_assoc, Matrix.mul_nonsing_inv _ (isUnit_iff_ne_zero.2 h), Matrix.one_mul]
    exact congrFun (congrFun this a) j
  cols i a := by
    have : (F.submatrix id J * ((F.submatrix I J)⁻¹ * F.submatrix I id)).submatrix id J = F.submatrix id J := by
      rw [Matrix.submatrix_mul _ _ id id J Function.bijective_id, Matrix.submatrix_mul _ _ id id J Function.bijective_id,
        submatrix_submatrix, submatrix_submatrix, submatrix_id_id, Function.id_comp, Function.comp_id, Function.comp_id, Function.id_comp]
      rw [Matrix.nonsing_inv_mul _ (isUnit_iff_ne_zero.2 h), Matrix.mul_one]
    exact congrFun (congrFun this i) a

omit [LinearOrder K] in
/-- Every square submatrix with more rows than the rank is singular. -/
theorem det_eq_zero_of_rank {k : Nat} (F : Matrix (Fin N) (Fin M) K) (I : Fin k → Fin N) (J : Fin k → Fin M)
    (h : F.rank < k) : (F.submatrix I J).det = 0 := by
  by_contra h0
  have h1 := Matrix.rank_of_isUnit (F.submatrix I J) ((Matrix.isUnit_iff_isUnit_det _).2 (isUnit_iff_ne_zero.2 h0))
  have h2 := Matrix.rank_submatrix_le F I J
  rw [h1, Fintype.card_fin] at h2
  omega

omit [LinearOrder K] in
/-- The cross interpolation is determined by its rows and columns when `F[I, J]` is invertible: there is one matrix of rank at most `k`
that coincides with `F` on them. -/
theorem cross_unique {k : Nat} (F G : Matrix (Fin N) (Fin M) K) (I : Fin k → Fin N) (J : Fin k → Fin M)
    (h : (F.submatrix I J).det ≠ 0) (hG : IsCross F G I J) :
    G = F.submatrix id J * ((F.submatrix I J)⁻¹ * F.submatrix I id) := by
  have e1 : G.submatrix I J = F.submatrix I J := by ext a b; exact hG.rows a _
  have e2 : G.submatrix id J = F.submatrix id J := by ext a b; exact hG.cols _ b
  have e3 : G.submatrix I id = F.submatrix I id := by ext a b; exact hG.rows a _
  ext i j
  have h0 := det_eq_zero_of_rank G (Fin.snoc I i : Fin (k + 1) → Fin N) (Fin.snoc J j : Fin (k + 1) → Fin M)
    (Nat.lt_succ_of_le hG.rank)
  rw [det_snoc G I J i j (by rw [e1]; exact h), e1, e2, e3] at h0
  exact sub_eq_zero.1 ((mul_eq_zero.1 h0).resolve_left h)

/-! ### pivots -/

theorem argmaxFin_spec {n : Nat} (v : Fin n → K) {i : Fin n} (h : argmaxFin v = .ok i) :
    (∀ a, v a ≤ v i) ∧ ∀ a, a < i → v a < v i := by
  unfold argmaxFin at h
  split at h
  · rename_i m hm
    cases h
    have := List.mem_argmax_iff.1 (Option.mem_def.2 hm)
    refine ⟨fun a => this.2.1 a (List.mem_finRange a), fun a ha => ?_⟩
    by_contra hc
    have := this.2.2 a (List.mem_finRange a) (not_lt.1 hc)
    rw [List.idxOf_finRange, List.idxOf_finRange] at this
    omega
  · cases h

theorem argmaxFin_ok {n : Nat} (v : Fin n → K) (h : n ≠ 0) : ∃ i, argmaxFin v = .ok i := by
  unfold argmaxFin
  split
  · exact ⟨_, rfl⟩
  · rename_i hm
    rw [List.argmax_eq_none, List.finRange_eq_nil_iff] at hm
    exact absurd hm h

theorem le_maxAbs {l : List K} {a : K} (h : a ∈ l) : |a| ≤ maxAbs l := by
  induction l with
  | nil => cases h
  | cons b l ih =>
    unfold maxAbs
    rw [List.map_cons, List.foldr_cons]
    rcases List.mem_cons.1 h with rfl | h
    · exact le_max_left _ _
    · exact (ih h).trans (le_max_right _ _)

theorem maxAbs_nonneg (l : List K) : 0 ≤ maxAbs l := by
  induction l with
  | nil => exact le_refl _
  | cons b l ih => exact ih.trans (le_max_right _ _)

theorem maxAbs_le {l : List K} {b : K} (h0 : 0 ≤ b) (h : ∀ a ∈ l, |a| ≤ b) : maxAbs l ≤ b := by
  induction l with
  | nil => exact h0
  | cons c l ih => exact max_le (h c (by simp)) (ih (fun a ha => h a (by simp [ha])))

theorem maxAbs_mem {l : List K} (h : l ≠ []) [IsStrictOrderedRing K] : ∃ a ∈ l, maxAbs l = |a| := by
  induction l with
  | nil => exact absurd rfl h
  | cons c l ih =>
    have e : maxAbs (c :: l) = max |c| (maxAbs l) := rfl
    rw [e]
    rcases le_total (maxAbs l) |c| with hle | hle
    · exact ⟨c, by simp, max_eq_left hle⟩
    · by_cases hl : l = []
      · subst hl
        exact ⟨c, by simp, max_eq_left (abs_nonneg c)⟩
      · obtain ⟨a, ha, hae⟩ := ih hl
        exact ⟨a, by simp [ha], by rw [max_eq_right hle, hae]⟩

variable [IsStrictOrderedRing K]

theorem pickLR_spec (F G : Matrix (Fin N) (Fin M) K) {i : Fin N} {j : Fin M} (h : pickLR F G = .ok (i, j)) :
    IsPivot (F - G) i j := by
  unfold pickLR at h
  split at h
  · cases h
  rename_i hM
  cases h1 : argmaxFin (fun i => maxAbs ((List.finRange M).map (fun j => F i j - G i j))) with
  | error e => rw [h1] at h; cases h
  | ok i0 =>
    rw [h1] at h
    cases h2 : argmaxFin (fun j => |F i0 j - G i0 j|) with
    | error e => simp [bind, Except.bind, h2] at h
    | ok j0 =>
      simp only [bind, Except.bind, h2] at h
      cases h
      obtain ⟨a1, a2⟩ := argmaxFin_spec _ h1
      obtain ⟨b1, b2⟩ := argmaxFin_spec _ h2
      have hmax : maxAbs ((List.finRange M).map (fun j => F i j - G i j)) = |F i j - G i j| := by
        apply le_antisymm
        · apply maxAbs_le (abs_nonneg _)
          intro a ha
          obtain ⟨j', _, rfl⟩ := List.mem_map.1 ha
          exact b1 j'
        · exact le_maxAbs (List.mem_map.2 ⟨j, List.mem_finRange _, rfl⟩)
      have hle : ∀ i' j', |F i' j' - G i' j'| ≤ maxAbs ((List.finRange M).map (fun j => F i' j - G i' j)) :=
        fun i' j' => le_maxAbs (List.mem_map.2 ⟨j', List.mem_finRange _, rfl⟩)
      refine ⟨fun i' j' => ?_, fun i' j' hi => ?_, fun j' hj => b2 j' hj⟩
      · exact (hle i' j').trans (hmax ▸ a1 i')
      · exact (hle i' j').trans_lt (hmax ▸ a2 i' hi)

theorem pickLR_ok (F G : Matrix (Fin N) (Fin M) K) (hN : N ≠ 0) (hM : M ≠ 0) : ∃ i j, pickLR F G = .ok (i, j) := by
  obtain ⟨i, hi⟩ := argmaxFin_ok (fun i => maxAbs ((List.finRange M).map (fun j => F i j - G i j))) hN
  obtain ⟨j, hj⟩ := argmaxFin_ok (fun j => |F i j - G i j|) hM
  exact ⟨i, j, by simp [pickLR, hM, hi, hj, bind, Except.bind]⟩

/-! ### the loop -/

omit [IsStrictOrderedRing K] in
theorem crossG_ok {k : Nat} {F : Matrix (Fin N) (Fin M) K} {I : Fin k → Fin N} {J : Fin k → Fin M} {G} (h : crossG F I J = .ok G) :
    (F.submatrix I J).det ≠ 0 ∧ G = F.submatrix id J * ((F.submatrix I J)⁻¹ * F.submatrix I id) := by
  unfold crossG at h
  split at h
  · cases h
  · cases h; exact ⟨by assumption, rfl⟩

omit [IsStrictOrderedRing K] in
/-- What the loop computes: a nonsingular submatrix and the cross interpolation. -/
theorem loop_inv (F : Matrix (Fin N) (Fin M) K) (pick : Nat → Matrix (Fin N) (Fin M) K → Py (Fin N × Fin M)) (n : Nat)
    {I J G} (h : loop F pick n = .ok (I, J, G)) :
    (F.submatrix I J).det ≠ 0 ∧ G = F.submatrix id J * ((F.submatrix I J)⁻¹ * F.submatrix I id) := by
  cases n with
  | zero =>
    cases h
    refine ⟨by simp, ?_⟩
    ext i j
    simp [Matrix.mul_apply]
  | succ n =>
    unfold loop at h
    cases h1 : loop F pick n with
    | error e => rw [h1] at h; cases h
    | ok s =>
      obtain ⟨I0, J0, G0⟩ := s
      rw [h1] at h
      cases h2 : pick n G0 with
      | error e => simp [bind, Except.bind, h2] at h
      | ok p =>
        obtain ⟨i, j⟩ := p
        simp only [bind, Except.bind, h2] at h
        cases h3 : crossG F (Fin.snoc I0 i : Fin (n + 1) → Fin N) (Fin.snoc J0 j : Fin (n + 1) → Fin M) with
        | error e => simp [h3] at h
        | ok G' =>
          simp only [h3] at h
          cases h
          exact crossG_ok h3

omit [IsStrictOrderedRing K] in
/-- One more iteration. -/
theorem loop_succ (F : Matrix (Fin N) (Fin M) K) (pick : Nat → Matrix (Fin N) (Fin M) K → Py (Fin N × Fin M)) (n : Nat)
    {I J G} (h : loop F pick n = .ok (I, J, G)) {i j} (hp : pick n G = .ok (i, j)) :
    loop F pick (n + 1) = if F i j - G i j = 0 then .error .valueError else
      .ok (Fin.snoc I i, Fin.snoc J j, F.submatrix id (Fin.snoc J j : Fin (n + 1) → Fin M) *
        ((F.submatrix (Fin.snoc I i : Fin (n + 1) → Fin N) (Fin.snoc J j : Fin (n + 1) → Fin M))⁻¹ *
          F.submatrix (Fin.snoc I i : Fin (n + 1) → Fin N) id)) := by
  obtain ⟨h1, h2⟩ := loop_inv F pick n h
  have hd := det_snoc F I J i j h1
  rw [← h2] at hd
  unfold loop
  simp only [h, hp, bind, Except.bind, crossG, hd, mul_eq_zero, h1, false_or]
  by_cases hr : F i j - G i j = 0
  · simp [hr]
  · simp [hr]

omit [IsStrictOrderedRing K] in
/-- The iterations are nested. -/
theorem loop_prefix (F : Matrix (Fin N) (Fin M) K) (pick : Nat → Matrix (Fin N) (Fin M) K → Py (Fin N × Fin M)) (n : Nat)
    {I J G} (h : loop F pick (n + 1) = .ok (I, J, G)) :
    ∃ I0 J0 G0 i j, loop F pick n = .ok (I0, J0, G0) ∧ pick n G0 = .ok (i, j) ∧ F i j - G0 i j ≠ 0 ∧
      I = Fin.snoc I0 i ∧ J = Fin.snoc J0 j := by
  cases h1 : loop F pick n with
  | error e => unfold loop at h; rw [h1] at h; cases h
  | ok s =>
    obtain ⟨I0, J0, G0⟩ := s
    cases h2 : pick n G0 with
    | error e => unfold loop at h; simp [h1, bind, Except.bind, h2] at h
    | ok p =>
      obtain ⟨i, j⟩ := p
      rw [loop_succ F pick n h1 h2] at h
      split at h
      · cases h
      · rename_i hne
        cases h
        exact ⟨I0, J0, G0, i, j, rfl, h2, hne, rfl, rfl⟩

omit [IsStrictOrderedRing K] in
/-- Every pivot of the loop is chosen from the cross interpolation of the preceding ones. -/
theorem loop_pivots (F : Matrix (Fin N) (Fin M) K) (pick : Nat → Matrix (Fin N) (Fin M) K → Py (Fin N × Fin M)) (n : Nat)
    {I J G} (h : loop F pick n = .ok (I, J, G)) (k : Nat) (hk : k < n) :
    ∃ G0, IsCross F G0 (fun a : Fin k => I (a.castLE hk.le)) (fun a : Fin k => J (a.castLE hk.le)) ∧
      (F.submatrix (fun a : Fin k => I (a.castLE hk.le)) (fun a : Fin k => J (a.castLE hk.le))).det ≠ 0 ∧
      pick k G0 = .ok (I ⟨k, hk⟩, J ⟨k, hk⟩) ∧ F (I ⟨k, hk⟩) (J ⟨k, hk⟩) - G0 (I ⟨k, hk⟩) (J ⟨k, hk⟩) ≠ 0 := by
  induction n generalizing G with
  | zero => omega
  | succ n ih =>
    obtain ⟨I0, J0, G0, i, j, h1, h2, h3, rfl, rfl⟩ := loop_prefix F pick n h
    rcases Nat.lt_succ_iff_lt_or_eq.1 hk with hlt | rfl
    · obtain ⟨G1, g1, gd, g2, g3⟩ := ih h1 hlt
      have e1 : ∀ a : Fin k, (Fin.snoc I0 i : Fin (n + 1) → Fin N) (a.castLE hk.le) = I0 (a.castLE hlt.le) := fun a =>
        Fin.snoc_castSucc (α := fun _ => Fin N) i I0 (a.castLE hlt.le)
      have e2 : ∀ a : Fin k, (Fin.snoc J0 j : Fin (n + 1) → Fin M) (a.castLE hk.le) = J0 (a.castLE hlt.le) := fun a =>
        Fin.snoc_castSucc (α := fun _ => Fin M) j J0 (a.castLE hlt.le)
      have e3 : (Fin.snoc I0 i : Fin (n + 1) → Fin N) ⟨k, hk⟩ = I0 ⟨k, hlt⟩ :=
        Fin.snoc_castSucc (α := fun _ => Fin N) i I0 ⟨k, hlt⟩
      have e4 : (Fin.snoc J0 j : Fin (n + 1) → Fin M) ⟨k, hk⟩ = J0 ⟨k, hlt⟩ :=
        Fin.snoc_castSucc (α := fun _ => Fin M) j J0 ⟨k, hlt⟩
      simp only [e1, e2, e3, e4]
      exact ⟨G1, g1, gd, g2, g3⟩
    · have e1 : ∀ a : Fin k, (Fin.snoc I0 i : Fin (k + 1) → Fin N) (a.castLE hk.le) = I0 a := fun a =>
        Fin.snoc_castSucc (α := fun _ => Fin N) i I0 a
      have e2 : ∀ a : Fin k, (Fin.snoc J0 j : Fin (k + 1) → Fin M) (a.castLE hk.le) = J0 a := fun a =>
        Fin.snoc_castSucc (α := fun _ => Fin M) j J0 a
      have e3 : (Fin.snoc I0 i : Fin (k + 1) → Fin N) ⟨k, hk⟩ = i := Fin.snoc_last (α := fun _ => Fin N) i I0
      have e4 : (Fin.snoc J0 j : Fin (k + 1) → Fin M) ⟨k, hk⟩ = j := Fin.snoc_last (α := fun _ => Fin M) j J0
      simp only [e1, e2, e3, e4]
      obtain ⟨d1, d2⟩ := loop_inv F pick k h1
      exact ⟨G0, d2 ▸ isCross F I0 J0 d1, d1, h2, h3⟩

omit [LinearOrder K] [IsStrictOrderedRing K] in
theorem injective_of_det {k : Nat} (F : Matrix (Fin N) (Fin M) K) (I : Fin k → Fin N) (J : Fin k → Fin M)
    (h : (F.submatrix I J).det ≠ 0) : Function.Injective I ∧ Function.Injective J := by
  constructor
  · intro a b hab
    by_contra hne
    exact h (Matrix.det_zero_of_row_eq hne (by ext c; simp [hab]))
  · intro a b hab
    by_contra hne
    exact h (Matrix.det_zero_of_column_eq hne (by intro c; simp [hab]))

/-- C99, option `left_right`. When `n` is at most the rank, the indices are distinct, `F[I, J]` is invertible, and every pair of
indices is the position of the greatest entry in absolute value of `F - G`, where `G` is the only matrix of rank `k` that interpolates
`F` on the preceding rows and columns. -/
theorem magicIndices_leftRight (F : Matrix (Fin N) (Fin M) K) (n : Nat) (hn : n ≤ F.rank) :
    ∃ I J, magicIndices F n .leftRight = .ok (I, J) ∧ Function.Injective I ∧ Function.Injective J ∧
      IsUnit (F.submatrix I J) ∧
      ∀ k (hk : k < n), ∃! G, IsCross F G (fun a : Fin k => I (a.castLE hk.le)) (fun a : Fin k => J (a.castLE hk.le)) ∧
        IsPivot (F - G) (I ⟨k, hk⟩) (J ⟨k, hk⟩) := by
  have hloop : ∃ I J G, loop F (fun _ G => pickLR F G) n = .ok (I, J, G) := by
    induction n with
    | zero => exact ⟨_, _, _, rfl⟩
    | succ n ih =>
      obtain ⟨I, J, G, h⟩ := ih (by omega)
      have hN : N ≠ 0 := by
        rintro rfl
        have := Matrix.rank_le_card_height F
        simp at this; omega
      have hM : M ≠ 0 := by
        rintro rfl
        have := Matrix.rank_le_card_width F
        simp at this; omega
      obtain ⟨i, j, hp⟩ := pickLR_ok F G hN hM
      have hpiv := pickLR_spec F G hp
      rw [loop_succ F _ n h hp, if_neg]
      · exact ⟨_, _, _, rfl⟩
      · intro h0
        obtain ⟨d1, d2⟩ := loop_inv F _ n h
        have hFG : F = G := by
          ext i' j'
          have := hpiv.max i' j'
          rw [Matrix.sub_apply, Matrix.sub_apply, h0, abs_zero] at this
          exact sub_eq_zero.1 (abs_nonpos_iff.1 this)
        have := (isCross F I J d1).rank
        rw [← d2, ← hFG] at this
        omega
  obtain ⟨I, J, G, h⟩ := hloop
  obtain ⟨d1, d2⟩ := loop_inv F _ n h
  obtain ⟨i1, i2⟩ := injective_of_det F I J d1
  refine ⟨I, J, by simp [magicIndices, h, bind, Except.bind], i1, i2,
    (Matrix.isUnit_iff_isUnit_det _).2 (isUnit_iff_ne_zero.2 d1), fun k hk => ?_⟩
  obtain ⟨G0, g1, gd, g2, g3⟩ := loop_pivots F _ n h k hk
  refine ⟨G0, ⟨g1, pickLR_spec F G0 g2⟩, fun G' hG' => ?_⟩
  rw [cross_unique F G' _ _ gd hG'.1, cross_unique F G0 _ _ gd g1]

/-- C99: with more indices than the rank the code raises `LinAlgError` (a `ValueError`). -/
theorem magicIndices_leftRight_error (F : Matrix (Fin N) (Fin M) K) (n : Nat) (hn : F.rank < n) :
    magicIndices F n .leftRight = .error .valueError := by
  have hstep : ∀ m, loop F (fun _ G => pickLR F G) m = .error .valueError ∨ ∃ I J G, loop F (fun _ G => pickLR F G) m = .ok (I, J, G) := by
    intro m
    induction m with
    | zero => exact .inr ⟨_, _, _, rfl⟩
    | succ m ih =>
      rcases ih with ih | ⟨I, J, G, h⟩
      · left; unfold loop; rw [ih]; rfl
      · cases hp : pickLR F G with
        | ok p =>
          obtain ⟨i, j⟩ := p
          rw [loop_succ F _ m h hp]
          split
          · exact .inl rfl
          · exact .inr ⟨_, _, _, rfl⟩
        | error e =>
          left
          have he : e = .valueError := by
            unfold pickLR at hp
            split at hp
            · cases hp; rfl
            · rename_i hM
              by_cases hN : N = 0
              · subst hN
                simp [argmaxFin, bind, Except.bind] at hp
                exact hp.symm
              · obtain ⟨i, j, hok⟩ := pickLR_ok F G hN hM
                unfold pickLR at hok
                rw [if_neg hM] at hok
                rw [hok] at hp; cases hp
          subst he
          unfold loop
          simp [h, bind, Except.bind, hp]
  rcases hstep n with h | ⟨I, J, G, h⟩
  · simp [magicIndices, h, bind, Except.bind]
  · exact absurd (det_eq_zero_of_rank F I J hn) (loop_inv F _ n h).1

omit [LinearOrder K] [IsStrictOrderedRing K] in
/-- C99: with as many indices as the rank, the cross interpolation is the matrix itself. -/
theorem cross_exact (F G : Matrix (Fin N) (Fin M) K) (I : Fin F.rank → Fin N) (J : Fin F.rank → Fin M)
    (h : IsUnit (F.submatrix I J)) (hG : IsCross F G I J) : G = F := by
  have hd : (F.submatrix I J).det ≠ 0 := isUnit_iff_ne_zero.1 ((Matrix.isUnit_iff_isUnit_det _).1 h)
  rw [cross_unique F G I J hd hG, ← cross_unique F F I J hd ⟨le_refl _, fun _ _ => rfl, fun _ _ => rfl⟩]

omit [IsStrictOrderedRing K] in
/-- C99: the indices for `n` are the first ones for `n + 1`. -/
theorem magicIndices_nested (F : Matrix (Fin N) (Fin M) K) (n : Nat) (o : Option') {I J}
    (h : magicIndices F (n + 1) o = .ok (I, J)) :
    magicIndices F n o = .ok (fun a => I a.castSucc, fun a => J a.castSucc) := by
  have key : ∀ {N M : Nat} (F : Matrix (Fin N) (Fin M) K) (pick : Nat → Matrix (Fin N) (Fin M) K → Py (Fin N × Fin M)) {I J G},
      loop F pick (n + 1) = .ok (I, J, G) → ∃ G0, loop F pick n = .ok (fun a => I a.castSucc, fun a => J a.castSucc, G0) := by
    intro N M F pick I J G h
    obtain ⟨I0, J0, G0, i, j, h1, _, _, rfl, rfl⟩ := loop_prefix F pick n h
    refine ⟨G0, ?_⟩
    simp only [Fin.snoc_castSucc]
    exact h1
  have keyL : ∀ {N M : Nat} (F : Matrix (Fin N) (Fin M) K) {I J}, magicLeft F (n + 1) = .ok (I, J) →
      magicLeft F n = .ok (fun a => I a.castSucc, fun a => J a.castSucc) := by
    intro N M F I J h
    unfold magicLeft at h ⊢
    cases h1 : loop F (fun k G => pickL k F G) (n + 1) with
    | error e => simp [h1, bind, Except.bind] at h
    | ok s =>
      obtain ⟨I1, J1, G⟩ := s
      simp only [h1, bind, Except.bind] at h
      cases h
      obtain ⟨G0, h2⟩ := key F _ h1
      simp [h2, bind, Except.bind]
  cases o with
  | leftRight =>
    unfold magicIndices at h ⊢
    cases h1 : loop F (fun _ G => pickLR F G) (n + 1) with
    | error e => simp [h1, bind, Except.bind] at h
    | ok s =>
      obtain ⟨I1, J1, G⟩ := s
      simp only [h1, bind, Except.bind] at h
      cases h
      obtain ⟨G0, h2⟩ := key F _ h1
      simp [h2, bind, Except.bind]
  | left => exact keyL F h
  | right =>
    unfold magicIndices at h ⊢
    cases h1 : magicLeft Fᵀ (n + 1) with
    | error e => simp [h1, bind, Except.bind] at h
    | ok s =>
      obtain ⟨J1, I1⟩ := s
      simp only [h1, bind, Except.bind] at h
      cases h
      simp [keyL _ h1, bind, Except.bind]
  | other => cases h

/-! ### options `left` and `right` -/

/-- `i` is the first position of the greatest entry of `R[:, j]` in absolute value. -/
structure IsColPivot (R : Matrix (Fin N) (Fin M) K) (i : Fin N) (j : Fin M) : Prop where
  max : ∀ i', |R i' j| ≤ |R i j|
  first : ∀ i', i' < i → |R i' j| < |R i j|

/-- No nontrivial combination of the first `n` columns vanishes. -/
def ColsIndependent (F : Matrix (Fin N) (Fin M) K) (n : Nat) : Prop :=
  ∀ u : Fin M → K, (∀ j, n ≤ j.val → u j = 0) → F *ᵥ u = 0 → u = 0

theorem pickL_spec (F G : Matrix (Fin N) (Fin M) K) (k : Nat) (h0 : ∀ i j, j.val < k → G i j = F i j) {i : Fin N} {j : Fin M}
    (h : pickL k F G = .ok (i, j)) : j.val = k ∧ IsColPivot (F - G) i j := by
  unfold pickL at h
  split at h
  · cases h
  cases h1 : argmaxFin (fun i => maxAbs (((List.finRange M).filter (fun j => j.val < k + 1)).map (fun j => F i j - G i j))) with
  | error e => rw [h1] at h; cases h
  | ok i0 =>
    rw [h1] at h
    simp only [bind, Except.bind] at h
    split at h
    · rename_i hk
      cases h
      have hm : ∀ i', maxAbs (((List.finRange M).filter (fun j => j.val < k + 1)).map (fun j => F i' j - G i' j)) =
          |F i' ⟨k, hk⟩ - G i' ⟨k, hk⟩| := by
        intro i'
        apply le_antisymm
        · apply maxAbs_le (abs_nonneg _)
          intro a ha
          obtain ⟨j', hj', rfl⟩ := List.mem_map.1 ha
          have hj' : j'.val < k + 1 := by simpa using (List.mem_filter.1 hj').2
          by_cases hlt : j'.val < k
          · rw [h0 i' j' hlt, sub_self, abs_zero]; exact abs_nonneg _
          · rw [show j' = ⟨k, hk⟩ from Fin.ext (by simp; omega)]
        · exact le_maxAbs (List.mem_map.2 ⟨⟨k, hk⟩, List.mem_filter.2 ⟨List.mem_finRange _, by simp⟩, rfl⟩)
      obtain ⟨a1, a2⟩ := argmaxFin_spec _ h1
      simp only [hm] at a1 a2
      exact ⟨rfl, a1, a2⟩
    · cases h

theorem loopL_cols (F : Matrix (Fin N) (Fin M) K) (n : Nat) {I J G} (h : loop F (fun k G => pickL k F G) n = .ok (I, J, G)) (a : Fin n) :
    (J a).val = a := by
  induction n generalizing G with
  | zero => exact a.elim0
  | succ n ih =>
    obtain ⟨I0, J0, G0, i, j, h1, h2, h3, rfl, rfl⟩ := loop_prefix F _ n h
    obtain ⟨d1, d2⟩ := loop_inv F _ n h1
    induction a using Fin.lastCases with
    | last =>
      rw [Fin.snoc_last]
      have hc := (isCross F I0 J0 d1).cols
      rw [← d2] at hc
      exact (pickL_spec F G0 n (fun i' j' hj => by
        have := hc i' ⟨j', hj⟩
        rwa [show J0 ⟨j', hj⟩ = j' from Fin.ext (ih h1 ⟨j', hj⟩)] at this) h2).1
    | cast a => rw [Fin.snoc_castSucc]; exact ih h1 a

theorem loopL_ok (F : Matrix (Fin N) (Fin M) K) (n : Nat) (hn : n ≤ M) (hF : ColsIndependent F n) :
    ∃ I J G, loop F (fun k G => pickL k F G) n = .ok (I, J, G) := by
  suffices hs : ∀ m, m ≤ n → ∃ I J G, loop F (fun k G => pickL k F G) m = .ok (I, J, G) from hs n le_rfl
  intro m hm
  induction m with
  | zero => exact ⟨_, _, _, rfl⟩
  | succ m ih =>
    obtain ⟨I, J, G, h⟩ := ih (by omega)
    have hmM : m < M := by omega
    have hN : N ≠ 0 := by
      rintro rfl
      have := hF (Pi.single ⟨m, hmM⟩ 1) (fun j hj => by
        rw [Pi.single_apply, if_neg]; intro he; rw [he] at hj; simp at hj; omega) (by ext i; exact i.elim0)
      have := congrFun this ⟨m, hmM⟩
      simp at this
    obtain ⟨i, hi⟩ := argmaxFin_ok
      (fun i => maxAbs (((List.finRange M).filter (fun j => j.val < m + 1)).map (fun j => F i j - G i j))) hN
    have hp : pickL m F G = .ok (i, ⟨m, hmM⟩) := by
      unfold pickL
      rw [if_neg (by omega), hi]
      simp [bind, Except.bind, hmM]
    obtain ⟨d1, d2⟩ := loop_inv F _ m h
    have hJ := loopL_cols F m h
    have hc := (isCross F I J d1).cols
    rw [← d2] at hc
    have hpiv := (pickL_spec F G m (fun i' j' hj => by
        have := hc i' ⟨j', hj⟩
        rwa [show J ⟨j', hj⟩ = j' from Fin.ext (hJ ⟨j', hj⟩)] at this) hp).2
    rw [loop_succ F _ m h hp, if_neg]
    · exact ⟨_, _, _, rfl⟩
    · intro h0
      have hcol : ∀ i', F i' ⟨m, hmM⟩ = G i' ⟨m, hmM⟩ := by
        intro i'
        have := hpiv.max i'
        rw [Matrix.sub_apply, Matrix.sub_apply, h0, abs_zero] at this
        exact sub_eq_zero.1 (abs_nonpos_iff.1 this)
      let w : Fin m → K := fun a => ((F.submatrix I J)⁻¹ * F.submatrix I id) a ⟨m, hmM⟩
      have hG : ∀ i', G i' ⟨m, hmM⟩ = ∑ a, F i' (J a) * w a := by
        intro i'; rw [d2, Matrix.mul_apply]; rfl
      let u : Fin M → K := fun j => if hj : j.val < m then w ⟨j, hj⟩ else if j.val = m then -1 else 0
      have hu := hF u (fun j hj => by
        simp only [u]; rw [dif_neg (by omega), if_neg (by omega)]) (by
        ext i'
        rw [Matrix.mulVec, dotProduct, Pi.zero_apply]
        have hsplit : ∑ j, F i' j * u j = ∑ a : Fin m, F i' (J a) * w a - F i' ⟨m, hmM⟩ := by
          have e1 : ∀ j : Fin M, F i' j * u j = (if hj : j.val < m then F i' j * w ⟨j, hj⟩ else 0) -
              (if j = ⟨m, hmM⟩ then F i' j else 0) := by
            intro j
            simp only [u]
            by_cases hj : j.val < m
            · rw [dif_pos hj, dif_pos hj, if_neg, sub_zero]
              intro he; rw [he] at hj; simp at hj
            · rw [dif_neg hj, dif_neg hj]
              by_cases hj' : j.val = m
              · rw [if_pos hj', if_pos (Fin.ext hj')]; ring
              · rw [if_neg hj', if_neg (fun he => hj' (by rw [he]))]; ring
          rw [Finset.sum_congr rfl (fun j _ => e1 j), Finset.sum_sub_distrib, Finset.sum_ite_eq' Finset.univ,
            if_pos (Finset.mem_univ _)]
          congr 1
          symm
          apply Finset.sum_of_injOn J
          · intro a _ b _ hab
            exact Fin.ext (by rw [← hJ a, ← hJ b, hab])
          · intro a _; simp
          · intro j _ hj
            rw [dif_neg]
            intro hlt
            exact hj ⟨⟨j, hlt⟩, by simp, Fin.ext (hJ ⟨j, hlt⟩)⟩
          · intro a _
            rw [dif_pos (by rw [hJ a]; exact a.isLt)]
            congr 2
            exact Fin.ext (hJ a).symm
        rw [hsplit, ← hG, hcol i', sub_self])
      have := congrFun hu ⟨m, hmM⟩
      simp [u] at this

/-- C100, option `left`. When the first `n` columns are linearly independent, `J` is `0, ..., n-1`, the row indices are distinct,
`F[I, J]` is invertible, and every row index is the first position of the greatest entry of the residual of the next column, for the
interpolation `G` on the preceding rows and columns. -/
theorem magicIndices_left (F : Matrix (Fin N) (Fin M) K) (n : Nat) (hn : n ≤ M) (hF : ColsIndependent F n) :
    ∃ I J, magicIndices F n .left = .ok (I, J) ∧ (∀ a, (J a).val = a) ∧ Function.Injective I ∧ IsUnit (F.submatrix I J) ∧
      ∀ k (hk : k < n), ∃! G, IsCross F G (fun a : Fin k => I (a.castLE hk.le)) (fun a : Fin k => J (a.castLE hk.le)) ∧
        IsColPivot (F - G) (I ⟨k, hk⟩) (J ⟨k, hk⟩) := by
  obtain ⟨I, J, G, h⟩ := loopL_ok F n hn hF
  obtain ⟨d1, d2⟩ := loop_inv F _ n h
  have hJ := loopL_cols F n h
  refine ⟨I, J, by simp [magicIndices, magicLeft, h, bind, Except.bind], hJ, (injective_of_det F I J d1).1,
    (Matrix.isUnit_iff_isUnit_det _).2 (isUnit_iff_ne_zero.2 d1), fun k hk => ?_⟩
  obtain ⟨G0, g1, gd, g2, g3⟩ := loop_pivots F _ n h k hk
  refine ⟨G0, ⟨g1, (pickL_spec F G0 k (fun i' j' hj => ?_) g2).2⟩, fun G' hG' => ?_⟩
  · have := g1.cols i' ⟨j', hj⟩
    rwa [show J (Fin.castLE hk.le ⟨j', hj⟩) = j' from Fin.ext (hJ _)] at this
  · rw [cross_unique F G' _ _ gd hG'.1, cross_unique F G0 _ _ gd g1]

/-- C100: conversely the indices are returned only if the columns are linearly independent. -/
theorem magicIndices_left_error (F : Matrix (Fin N) (Fin M) K) (n : Nat) (hF : M < n ∨ ¬ ColsIndependent F n) :
    ∃ e, magicIndices F n .left = .error e := by
  cases h : loop F (fun k G => pickL k F G) n with
  | error e => exact ⟨e, by simp [magicIndices, magicLeft, h, bind, Except.bind]⟩
  | ok s =>
    exfalso
    obtain ⟨I, J, G⟩ := s
    obtain ⟨d1, d2⟩ := loop_inv F _ n h
    have hJ := loopL_cols F n h
    rcases hF with hF | hF
    · have h1 := hJ ⟨M, hF⟩
      have h2 := (J ⟨M, hF⟩).isLt
      simp at h1; omega
    · apply hF
      intro u hu hFu
      have hsub : F.submatrix I J *ᵥ (fun a => u (J a)) = 0 := by
        ext a
        have := congrFun hFu (I a)
        rw [Matrix.mulVec, dotProduct, Pi.zero_apply] at this ⊢
        rw [← this]
        apply Finset.sum_of_injOn J
        · intro a _ b _ hab; exact (injective_of_det F I J d1).2 hab
        · intro a _; simp
        · intro j _ hj
          rw [hu j, mul_zero]
          by_contra hlt
          exact hj ⟨⟨j, by omega⟩, by simp, Fin.ext (hJ _)⟩
        · intro b _; rfl
      have hz := Matrix.eq_zero_of_mulVec_eq_zero d1 hsub
      ext j
      by_cases hj : j.val < n
      · have := congrFun hz ⟨j, hj⟩
        simpa [show J ⟨j, hj⟩ = j from Fin.ext (hJ _)] using this
      · exact hu j (by omega)

/-- C100, option `right`: the same with rows and columns exchanged. -/
theorem magicIndices_right (F : Matrix (Fin N) (Fin M) K) (n : Nat) (hn : n ≤ N) (hF : ColsIndependent Fᵀ n) :
    ∃ I J, magicIndices F n .right = .ok (I, J) ∧ (∀ a, (I a).val = a) ∧ Function.Injective J ∧ IsUnit (F.submatrix I J) ∧
      ∀ k (hk : k < n), ∃! G, IsCross F G (fun a : Fin k => I (a.castLE hk.le)) (fun a : Fin k => J (a.castLE hk.le)) ∧
        IsColPivot (F - G)ᵀ (J ⟨k, hk⟩) (I ⟨k, hk⟩) := by
  obtain ⟨J, I, h1, h2, h3, h4, h5⟩ := magicIndices_left Fᵀ n hn hF
  have hcr : ∀ {k : Nat} (G : Matrix (Fin N) (Fin M) K) (I : Fin k → Fin N) (J : Fin k → Fin M),
      IsCross F G I J ↔ IsCross Fᵀ Gᵀ J I := by
    intro k G I J
    constructor
    · intro h
      exact ⟨by rw [Matrix.rank_transpose]; exact h.rank, fun a j => h.cols j a, fun i a => h.rows a i⟩
    · intro h
      exact ⟨by have := h.rank; rwa [Matrix.rank_transpose] at this, fun a j => h.cols j a, fun i a => h.rows a i⟩
  refine ⟨I, J, ?_, h2, h3, ?_, fun k hk => ?_⟩
  · have : magicLeft Fᵀ n = .ok (J, I) := h1
    simp [magicIndices, this, bind, Except.bind]
  · rw [← Matrix.isUnit_transpose]; exact h4
  · obtain ⟨G, ⟨g1, g2⟩, g3⟩ := h5 k hk
    refine ⟨Gᵀ, ⟨(hcr _ _ _).2 g1, g2⟩, fun G' hG' => ?_⟩
    have := g3 G'ᵀ ⟨(hcr _ _ _).1 hG'.1, hG'.2⟩
    rw [← this, Matrix.transpose_transpose]

/-- C100: `right` raises when the first `n` rows are not linearly independent. -/
theorem magicIndices_right_error (F : Matrix (Fin N) (Fin M) K) (n : Nat) (hF : N < n ∨ ¬ ColsIndependent Fᵀ n) :
    ∃ e, magicIndices F n .right = .error e := by
  obtain ⟨e, he⟩ := magicIndices_left_error Fᵀ n hF
  have : magicLeft Fᵀ n = .error e := he
  exact ⟨e, by simp [magicIndices, this, bind, Except.bind]⟩

/-! ### magic points -/

variable {X : Type} {c : Nat}

/-- The function with coefficients `u`. -/
def fn (φ : X → Fin c → K) (u : Fin c → K) (p : X) : K := ∑ j, φ p j * u j

omit [LinearOrder K] [IsStrictOrderedRing K] in
theorem rank_of_independent (φ : X → Fin c → K) (x : Fin N → X) (hφ : ∀ u : Fin c → K, (∀ i, fn φ u (x i) = 0) → u = 0) :
    (evalBasis φ x).rank = c := by
  unfold Matrix.rank
  rw [LinearMap.finrank_range_of_inj, Module.finrank_fin_fun]
  rw [← LinearMap.ker_eq_bot, LinearMap.ker_eq_bot']
  intro u hu
  exact hφ u (fun i => congrFun hu i)

omit [IsStrictOrderedRing K] in
theorem magicPoints_few (φ : X → Fin c → K) (x : Fin N → X) (h : N < c) : magicPoints φ x = .error .assertionError := by
  simp [magicPoints, h]

/-- C101. If the basis functions are linearly independent on the points `x`, the magic points are distinct points of `x`, as many as
basis functions, on which the interpolation problem has one solution for all data, and the Lebesgue constant is the greatest value on
`x` of the functions of the space that are bounded by 1 at the magic points. -/
theorem magicPoints_spec (φ : X → Fin c → K) (x : Fin N → X) (hN : 0 < N)
    (hφ : ∀ u : Fin c → K, (∀ i, fn φ u (x i) = 0) → u = 0) :
    ∃ points ind Λ, magicPoints φ x = .ok (points, ind, Λ) ∧ min N c = c ∧ Function.Injective ind ∧ (∀ a, points a = x (ind a)) ∧
      (∀ y : Fin (min N c) → K, ∃! u : Fin c → K, ∀ a, fn φ u (points a) = y a) ∧
      (∀ u : Fin c → K, (∀ a, |fn φ u (points a)| ≤ 1) → ∀ i, |fn φ u (x i)| ≤ Λ) ∧
      ∃ u : Fin c → K, (∀ a, |fn φ u (points a)| ≤ 1) ∧ ∃ i, |fn φ u (x i)| = Λ := by
  have hr := rank_of_independent φ x hφ
  have hc : c ≤ N := by
    have := Matrix.rank_le_card_height (evalBasis φ x)
    rw [hr, Fintype.card_fin] at this
    exact this
  have hm : min N c = c := min_eq_right hc
  obtain ⟨ind, J, h1, h2, h3, h4, _⟩ := magicIndices_leftRight (evalBasis φ x) (min N c) (by rw [hr, hm])
  -- all columns are selected
  let H : Matrix (Fin c) (Fin c) K := fun a j => φ (x (ind (a.cast hm.symm))) j
  have hJ : Function.Bijective (fun a : Fin c => J (a.cast hm.symm)) :=
    Finite.injective_iff_bijective.1 (fun a b hab => by
      have := h3 hab
      exact Fin.ext (by simpa using congrArg Fin.val this))
  have hH : H.det ≠ 0 := by
    have e : ((evalBasis φ x).submatrix ind J).submatrix (finCongr hm.symm) (finCongr hm.symm) =
        H.submatrix id (Equiv.ofBijective _ hJ) := by
      ext a b; rfl
    have hu : IsUnit (((evalBasis φ x).submatrix ind J).submatrix (finCongr hm.symm) (finCongr hm.symm)).det := by
      rw [Matrix.det_submatrix_equiv_self]
      exact (Matrix.isUnit_iff_isUnit_det _).1 h4
    rw [e] at hu
    intro h0
    have hz := Matrix.exists_mulVec_eq_zero_iff.2 h0
    obtain ⟨v, hv, hHv⟩ := hz
    have hu' := isUnit_iff_ne_zero.1 hu
    apply hu'
    apply Matrix.exists_mulVec_eq_zero_iff.1
    refine ⟨v ∘ Equiv.ofBijective _ hJ, ?_, ?_⟩
    · intro hv0
      apply hv
      ext j
      obtain ⟨b, rfl⟩ := (Equiv.ofBijective _ hJ).surjective j
      exact congrFun hv0 b
    · ext a
      have := congrFun hHv a
      rw [Matrix.mulVec, dotProduct] at this ⊢
      rw [Pi.zero_apply] at this ⊢
      rw [← this]
      exact (Equiv.ofBijective _ hJ).sum_comp (fun j => H a j * v j)
  let hx : Matrix (Fin c) (Fin c) K := fun a b => φ (x (ind (b.cast hm.symm))) a
  have hxH : hx = Hᵀ := rfl
  have hxd : hx.det ≠ 0 := by rw [hxH, Matrix.det_transpose]; exact hH
  let A : Matrix (Fin N) (Fin c) K := (hx⁻¹ * (evalBasis φ x)ᵀ)ᵀ
  have hA : A * H = evalBasis φ x := by
    have : (A * H)ᵀ = (evalBasis φ x)ᵀ := by
      rw [Matrix.transpose_mul, Matrix.transpose_transpose, ← hxH, ← Matrix.mul_assoc,
        Matrix.mul_nonsing_inv _ (isUnit_iff_ne_zero.2 hxd), Matrix.one_mul]
    exact Matrix.transpose_injective this
  have hfn : ∀ u i, fn φ u (x i) = ∑ a, A i a * fn φ u (x (ind (a.cast hm.symm))) := by
    intro u i
    have h1 : fn φ u (x i) = (evalBasis φ x *ᵥ u) i := rfl
    rw [h1, ← hA, ← Matrix.mulVec_mulVec]
    rfl
  refine ⟨fun a => x (ind a), ind, maxAbs ((List.finRange N).map (fun i => ∑ j, |A i j|)), ?_, hm, h2, fun _ => rfl, ?_, ?_, ?_⟩
  · simp only [magicPoints, h1, bind, Except.bind]
    rw [if_neg (by omega), dif_pos hm, if_neg, if_neg (by omega)]
    · rfl
    · exact hxd
  · intro y
    refine ⟨H⁻¹ *ᵥ (fun a => y (a.cast hm.symm)), fun a => ?_, fun v hv => ?_⟩
    · have h1 : fn φ (H⁻¹ *ᵥ (fun a => y (a.cast hm.symm))) (x (ind a)) =
          (H *ᵥ (H⁻¹ *ᵥ (fun a => y (a.cast hm.symm)))) (a.cast hm) := rfl
      rw [h1, Matrix.mulVec_mulVec, Matrix.mul_nonsing_inv _ (isUnit_iff_ne_zero.2 hH), Matrix.one_mulVec]
      rfl
    · have h1 : H *ᵥ v = fun a => y (a.cast hm.symm) := by
        ext a; exact hv (a.cast hm.symm)
      rw [← h1, Matrix.mulVec_mulVec, Matrix.nonsing_inv_mul _ (isUnit_iff_ne_zero.2 hH), Matrix.one_mulVec]
  · intro u hu i
    have hle : |fn φ u (x i)| ≤ ∑ j, |A i j| := by
      rw [hfn u i]
      refine (Finset.abs_sum_le_sum_abs _ _).trans (Finset.sum_le_sum (fun a _ => ?_))
      rw [abs_mul]
      exact mul_le_of_le_one_right (abs_nonneg _) (hu _)
    refine hle.trans ((le_abs_self _).trans (le_maxAbs (List.mem_map.2 ⟨i, List.mem_finRange i, rfl⟩)))
  · obtain ⟨s, hs, hse⟩ := maxAbs_mem (l := (List.finRange N).map (fun i => ∑ j, |A i j|)) (by
      intro h0; rw [List.map_eq_nil_iff, List.finRange_eq_nil_iff] at h0; omega)
    obtain ⟨i, _, rfl⟩ := List.mem_map.1 hs
    let v : Fin c → K := fun a => if 0 ≤ A i a then 1 else -1
    have hv : ∀ a, fn φ (H⁻¹ *ᵥ v) (x (ind (a.cast hm.symm))) = v a := by
      intro a
      have h1 : fn φ (H⁻¹ *ᵥ v) (x (ind (a.cast hm.symm))) = (H *ᵥ (H⁻¹ *ᵥ v)) a := rfl
      rw [h1, Matrix.mulVec_mulVec, Matrix.mul_nonsing_inv _ (isUnit_iff_ne_zero.2 hH), Matrix.one_mulVec]
    refine ⟨H⁻¹ *ᵥ v, fun a => ?_, i, ?_⟩
    · have := hv (a.cast hm)
      have e : Fin.cast hm.symm (Fin.cast hm a) = a := rfl
      rw [e] at this
      show |fn φ _ (x (ind a))| ≤ 1
      rw [this]
      simp only [v]
      split <;> simp
    · rw [hse, hfn]
      congr 1
      refine Finset.sum_congr rfl (fun a _ => ?_)
      rw [hv]
      simp only [v]
      split
      · rename_i h0; rw [mul_one, abs_of_nonneg h0]
      · rename_i h0; rw [abs_of_neg (not_le.1 h0)]; ring

/-- C101: if the basis functions are not independent on the points, `magic_points` raises. -/
theorem magicPoints_error (φ : X → Fin c → K) (x : Fin N → X) (u : Fin c → K) (hu : ∀ i, fn φ u (x i) = 0) (h0 : u ≠ 0) :
    ∃ e, magicPoints φ x = .error e := by
  by_cases hN : N < c
  · exact ⟨_, magicPoints_few φ x hN⟩
  · refine ⟨.valueError, ?_⟩
    have hr : (evalBasis φ x).rank < min N c := by
      rw [min_eq_right (not_lt.1 hN)]
      have h1 := LinearMap.finrank_range_add_finrank_ker (evalBasis φ x).mulVecLin
      rw [Module.finrank_fin_fun] at h1
      have h2 : 0 < Module.finrank K (LinearMap.ker (evalBasis φ x).mulVecLin) := by
        rw [Module.finrank_pos_iff]
        refine ⟨⟨u, ?_⟩, 0, ?_⟩
        · rw [LinearMap.mem_ker]; ext i; exact hu i
        · intro h; exact h0 (congrArg Subtype.val h)
      unfold Matrix.rank
      omega
    simp only [magicPoints, magicIndices_leftRight_error _ _ hr, bind, Except.bind]
    rw [if_neg hN]

/-! ### interpolation -/

omit [LinearOrder K] [IsStrictOrderedRing K] in
theorem sum_fin_range {n : Nat} (f : Nat → K) : ∑ k ∈ Finset.range n, f k = ∑ k : Fin n, f k := (Fin.sum_univ_eq_sum_range f n).symm

omit [IsStrictOrderedRing K] in
/-- C102 (partial: one output). If the values of the basis functions at the points form an invertible matrix, `interpolate(y, x)` is a
function of the space, `eval` of which at any points `p` gives the values of the only function of the space equal to `y` at `x`. -/
theorem interpolate_scalar_partial (φ : X → Fin c → K) (y : Fin c → K) (x : Fin c → X) (hx : (evalBasis φ x).det ≠ 0) {n : Nat}
    (p : Fin n → X) :
    ∃ f v u, interpolate φ (Matrix.of (fun a (_ : Fin 1) => y a)) x = .ok f ∧ f.evalWith (toArr (evalBasis φ p)) = .ok v ∧ v.shape = [n, 1] ∧
      (∀ i (hi : i < n), v.get [i, 0] = fn φ u (p ⟨i, hi⟩)) ∧ (∀ a, fn φ u (x a) = y a) ∧
      ∀ u', (∀ a, fn φ u' (x a) = y a) → u' = u := by
  have hU := isUnit_iff_ne_zero.2 hx
  obtain ⟨f, v, h1, h2, h3, h4⟩ := eval_scalar_partial (toArr ((evalBasis φ x)⁻¹ * (Matrix.of (fun a (_ : Fin 1) => y a)))) c [1] rfl (by simp)
    (toArr (evalBasis φ p)) n rfl
  refine ⟨f, v, (evalBasis φ x)⁻¹ *ᵥ y, ?_, h2, h3, fun i hi => ?_, fun a => ?_, fun u' hu' => ?_⟩
  · unfold interpolate
    rw [if_neg hx]
    exact h1
  · rw [h4 i [0] hi (by simp), sum_fin_range]
    refine Finset.sum_congr rfl (fun k _ => ?_)
    simp [toArr, hi, evalBasis, Matrix.mul_apply, Matrix.mulVec, dotProduct]
  · have h1 : fn φ ((evalBasis φ x)⁻¹ *ᵥ y) (x a) = (evalBasis φ x *ᵥ ((evalBasis φ x)⁻¹ *ᵥ y)) a := rfl
    rw [h1, Matrix.mulVec_mulVec, Matrix.mul_nonsing_inv _ hU, Matrix.one_mulVec]
  · have h1 : evalBasis φ x *ᵥ u' = y := by ext a; exact hu' a
    rw [← h1, Matrix.mulVec_mulVec, Matrix.nonsing_inv_mul _ hU, Matrix.one_mulVec]

omit [IsStrictOrderedRing K] in
/-- C102: `interpolate` raises when the matrix is singular. -/
theorem interpolate_error {m : Nat} (φ : X → Fin c → K) (y : Matrix (Fin c) (Fin m) K) (x : Fin c → X)
    (hx : (evalBasis φ x).det = 0) : interpolate φ y x = .error .valueError := by
  simp [interpolate, hx]

/-- With two outputs the result does not interpolate: for the basis of the two functions with value 1 at one of the two points
and 0 at the other, and the data (0, 1), (0, 0), the first output is not 0 at the second point. -/
theorem interpolate_wrong : ∃ (φ : Fin 2 → Fin 2 → ℚ) (y : Matrix (Fin 2) (Fin 2) ℚ) (f : FBA ℚ) (v : Arr ℚ),
    (evalBasis φ id).det ≠ 0 ∧ interpolate φ y id = .ok f ∧ f.evalWith (toArr (evalBasis φ id)) = .ok v ∧ v.get [1, 0] ≠ y 1 0 := by
  refine ⟨fun a b => if a = b then 1 else 0, fun a b => if a = 0 ∧ b = 1 then 1 else 0, ?_⟩
  have h1 : evalBasis (fun a b : Fin 2 => if a = b then (1 : ℚ) else 0) id = 1 := by
    ext a b; simp [evalBasis, Matrix.one_apply]
  refine ⟨_, _, by rw [h1]; simp, by unfold interpolate; rw [h1]; simp only [Matrix.det_one, one_ne_zero, if_false, inv_one, one_mul]; rfl,
    by rw [h1]; rfl, ?_⟩
  decide +kernel

/-! ### the hypotheses are met -/

/-- A matrix of rank two (the third row is the sum of the others). -/
def exF : Matrix (Fin 3) (Fin 2) ℚ := !![1, 2; 3, 4; 4, 6]

example : 2 ≤ exF.rank := by
  have h : (exF.submatrix ![0, 1] id).det ≠ 0 := by
    rw [Matrix.det_fin_two]; simp [exF]; norm_num
  by_contra hlt
  exact h (det_eq_zero_of_rank exF ![0, 1] id (by omega))

theorem exF_independent : ColsIndependent exF 2 := by
  intro u _ hu
  have h0 := congrFun hu 0
  have h1 := congrFun hu 1
  simp [exF, Matrix.mulVec, dotProduct, Fin.sum_univ_two] at h0 h1
  ext j
  fin_cases j <;> simp <;> linarith

example : 2 ≤ 2 ∧ ColsIndependent exF 2 ∧ ColsIndependent (exFᵀ)ᵀ 2 := ⟨le_refl _, exF_independent, exF_independent⟩

/-- The functions 1 and `t` on the points 0, 1, 2. -/
example : ∀ u : Fin 2 → ℚ, (∀ i, fn (fun (t : ℚ) j => t ^ (j : Nat)) u ((![0, 1, 2] : Fin 3 → ℚ) i) = 0) → u = 0 := by
  intro u hu
  have h0 := hu 0
  have h1 := hu 1
  simp [fn, Fin.sum_univ_two] at h0 h1
  ext j
  fin_cases j <;> simp <;> linarith

example : (evalBasis (fun (t : ℚ) (j : Fin 2) => t ^ (j : Nat)) ![0, 1]).det ≠ 0 := by
  rw [Matrix.det_fin_two]; simp [evalBasis]

end Verif.Magic
