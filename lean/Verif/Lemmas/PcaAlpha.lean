import Verif.Lemmas.PcaKron

/-!
# The principal components of a node
-/

namespace Verif.Pca

open Verif.Arr Verif.DimTree Verif.TreeBased Verif.Truncation Verif.Grids Finset

/-- A tuple of subscripts of `d` dimensions with the values `v` at the dimensions that are not in `α`, in increasing order. -/
def fillIn (d : Nat) (α v : List Nat) : List Nat :=
  (List.range d).map (fun x => v.getD ((FullTensor.setdiffRange d α).idxOf x) 0)

theorem length_fillIn (d : Nat) (α v : List Nat) : (fillIn d α v).length = d := by simp [fillIn]

theorem length_subst (idx dims s : List Nat) : (subst idx dims s).length = idx.length := by simp [subst]

theorem subst_getD (idx dims s : List Nat) {k : Nat} (hk : k < idx.length) :
    (subst idx dims s).getD k 0 = if k ∈ dims then s.getD (dims.idxOf k) 0 else idx.getD k 0 := by
  unfold subst
  rw [List.getD_eq_getElem _ _ (by simpa using hk)]
  simp

theorem pick_eq {d : Nat} {α u : List Nat} (hu : u.length = α.length) (v : List Nat) :
    pick (positions d α) (u ++ v) = subst (fillIn d α v) α u := by
  apply List.ext_getElem
  · simp [pick, positions, length_subst, length_fillIn]
  · intro k h1 h2
    have hk : k < d := by simpa [length_subst, length_fillIn] using h2
    have h3 := subst_getD (fillIn d α v) α u (k := k) (by rw [length_fillIn]; exact hk)
    rw [List.getD_eq_getElem _ _ h2] at h3
    rw [h3]
    simp only [pick, positions, List.map_map, List.getElem_map, List.getElem_range, Function.comp_def]
    split
    · rename_i hm
      rw [List.idxOf_append_of_mem hm, List.getD_eq_getElem?_getD, List.getElem?_append_left (by rw [hu]; exact List.idxOf_lt_length_of_mem hm),
        ← List.getD_eq_getElem?_getD]
    · rename_i hm
      rw [List.idxOf_append_of_notMem hm, ← hu, List.getD_eq_getElem?_getD, List.getElem?_append_right (by omega), Nat.add_sub_cancel_left,
        ← List.getD_eq_getElem?_getD]
      have : (fillIn d α v).getD k 0 = v.getD ((FullTensor.setdiffRange d α).idxOf k) 0 := by
        unfold fillIn
        rw [List.getD_eq_getElem _ _ (by simpa using hk)]
        simp
      rw [this]

/-- The values of the function on a product of a grid and of samples. -/
theorem evalGrid_ok (f : List Nat → ℝ) (d : Nat) (α : List Nat) {I X : List (List Nat)} (hI : I ≠ []) (hX : X ≠ [])
    (hr : ∀ row ∈ I, row.length = α.length) :
    ∃ v, evalGrid f d α I X = .ok v ∧ v.length = I.length * X.length ∧ ∀ a j, a < I.length → j < X.length →
      v.getD (ravelF [I.length, X.length] [a, j]) 0 = f (subst (fillIn d α (X.getD j [])) α (I.getD a [])) := by
  have harr := array_eq (⟨[I, X]⟩ : FullGrid Nat) (by simp) (by simp [hI, hX])
  have hsh : (⟨[I, X]⟩ : FullGrid Nat).shape = [I.length, X.length] := rfl
  have hev : evalGrid f d α I X = .ok (((List.range (⟨[I, X]⟩ : FullGrid Nat).shape.prod).map (fun k =>
      gridPoint [I, X] (unravelF (⟨[I, X]⟩ : FullGrid Nat).shape k))).map (fun row => f (pick (positions d α) row))) := by
    unfold evalGrid
    rw [harr]
    rfl
  refine ⟨_, hev, ?_, ?_⟩
  · rw [hsh]; simp
  · intro a j ha hj
    have hb : InBox [I.length, X.length] [a, j] := .cons ha (.cons hj .nil)
    have hlt := ravelF_lt hb
    rw [hsh, List.getD_eq_getElem _ _ (by simpa using hlt)]
    simp only [List.getElem_map, List.getElem_range]
    rw [unravelF_ravelF hb]
    have : gridPoint [I, X] [a, j] = I.getD a [] ++ X.getD j [] := by
      unfold gridPoint; simp
    rw [this, pick_eq]
    rw [List.getD_eq_getElem _ _ ha]
    exact hr _ (List.getElem_mem _)

theorem reshapeVec_ok {v : List ℝ} {m n : Nat} (h : v.length = m * n) :
    ∃ A, reshapeVec v m n = .ok A ∧ A.shape = [m, n] ∧ ∀ a j, A.get [a, j] = v.getD (ravelF [m, n] [a, j]) 0 := by
  refine ⟨⟨[m, n], fun ij => v.getD (ravelF [m, n] [ij.getD 0 0, ij.getD 1 0]) 0⟩, ?_, rfl, ?_⟩
  · unfold reshapeVec
    rw [if_neg (by rw [h]; simp)]
  · intro a j
    rfl

/-- The components of a matrix: orthonormal, at least one. -/
structure PcOk (m : Nat) (t : ℝ) (pc : Arr ℝ) (r : Nat) : Prop where
  shape : pc.shape = [m, r]
  pos : 1 ≤ r
  orth : ∀ l l', l < r → l' < r → ∑ i ∈ range m, pc.get [i, l] * pc.get [i, l'] = if l = l' then 1 else 0
  le : 1 ≤ t → r ≤ ⌊t⌋₊
  le_rows : r ≤ m

theorem capParam_some_ge {m : Nat} (hm : 0 < m) {t : ℝ} (ht : 1 ≤ t) : 1 ≤ capParam m (some t) := by
  unfold capParam
  exact le_min ht (by exact_mod_cast hm)

theorem principalComponents_ok (svd : Svd) (hsvd : SvdOk svd) (A : Arr ℝ) (m n : Nat) (hA : A.shape = [m, n]) (hm : 0 < m)
    (hn : 0 < n) (t : ℝ) : ∃ pc sv r, principalComponents svd A (some t) = .ok (pc, sv) ∧ PcOk m t pc r ∧ (t ≤ 0 → r = min m n) ∧
      (t ≤ 0 ∨ (1 ≤ t ∧ ∃ R, R ≤ ⌊t⌋₊ ∧ ∃ g h : Nat → Nat → ℝ, ∀ i j, i < m → j < n → A.get [i, j] = ∑ l ∈ range R, g i l * h l j) →
        ∀ j, j < n → ∃ w : Nat → ℝ, ∀ i, i < m → A.get [i, j] = ∑ l ∈ range r, pc.get [i, l] * w l) := by
  obtain ⟨ind, r, h1, h2, h3, h4, h5, _⟩ := principalComponents_data svd hsvd A m n hA hm hn (some t)
  have hs := hsvd A m n hA hm hn
  obtain ⟨hl, _⟩ := hs.leftOk ind r h2
  refine ⟨_, _, r, h1, ⟨hl.shape, h3, hl.orth, ?_, by omega⟩, fun ht => h5 ((min_le_left _ _).trans ht), ?_⟩
  · intro ht
    rw [h4 (capParam_some_ge hm ht)]
    refine (min_le_left _ _).trans (Nat.floor_le_floor ?_)
    exact min_le_left _ _
  · intro hc j hj
    refine ⟨fun l => (svd A).2.1.getD l 0 * (svd A).2.2.get [l, j], fun i hi => ?_⟩
    rw [hs.eq i j hi hj]
    have hz : ∀ l, r ≤ l → l < min m n → (svd A).2.1.getD l 0 = 0 := by
      intro l hl1 hl2
      rcases hc with hc | ⟨ht, R, hR, g, h, hgh⟩
      · have : capParam m (some t) ≤ 0 := (min_le_left _ _).trans hc
        rw [h5 this] at hl1; omega
      · rw [h4 (capParam_some_ge hm ht)] at hl1
        refine IsSvd_zero_after hs g h hgh l (hR.trans ?_)
        have : ⌊capParam m (some t)⌋₊ ≤ l := by omega
        change ⌊min t (m : ℝ)⌋₊ ≤ l at this
        by_cases htm : t ≤ m
        · rwa [min_eq_left htm] at this
        · rw [min_eq_right (not_le.1 htm).le, Nat.floor_natCast] at this; omega
    have : ∑ l ∈ range r, (leftCols (svd A).1 ind).get [i, l] * ((svd A).2.1.getD l 0 * (svd A).2.2.get [l, j]) =
        ∑ l ∈ range (min m n), if l < r then (svd A).1.get [i, l] * (svd A).2.1.getD l 0 * (svd A).2.2.get [l, j] else 0 := by
      rw [← sum_take_eq (min m n) r (by omega) (fun l => (svd A).1.get [i, l] * (svd A).2.1.getD l 0 * (svd A).2.2.get [l, j])]
      refine sum_congr rfl (fun l _ => ?_)
      show (svd A).1.get [i, l] * _ = _
      ring
    rw [this]
    refine sum_congr rfl (fun l hl => ?_)
    split
    · rfl
    · rename_i hlr
      rw [hz l (by omega) (mem_range.1 hl)]; ring

/-- The loop of the adaptive sampling ends with components of a nonempty matrix. -/
theorem adaptLoop_ok (svd : Svd) (hsvd : SvdOk svd) (s : Solver) (f : List Nat → ℝ) (d : Nat) (α : List Nat) (t : ℝ) {B : Arr ℝ}
    {I : List (List Nat)} {M : Nat} (hM : 0 < M) (hB : B.shape = [M, M]) {N : Nat → Nat → ℝ} (hN : InvBy M (fun i j => B.get [i, j]) N)
    (hI : I.length = M) (hr : ∀ row ∈ I, row.length = α.length) (rest : List (List Nat)) (hne : rest ≠ []) (k : Nat) (A : Arr ℝ)
    (hA : A.shape = [M, k]) :
    ∃ pc r ne, adaptLoop svd s f d α t B I rest k A = .ok (pc, ne) ∧ PcOk M t pc r ∧ ne ≤ M * (k + rest.length) := by
  induction rest generalizing k A with
  | nil => exact absurd rfl hne
  | cons j rest ih =>
    have hIne : I ≠ [] := by intro h; rw [h] at hI; simp at hI; omega
    obtain ⟨v, v1, v2, v3⟩ := evalGrid_ok f d α hIne (X := [j]) (by simp) hr
    obtain ⟨w, w1, w2, w3⟩ := reshapeVec_ok (v := v) (m := v.length) (n := 1) (by simp)
    have hvl : v.length = M := by rw [v2, hI]; simp
    rw [hvl] at w2
    obtain ⟨C, c1, c2, c3⟩ := solve_ok hB w2 hN
    have hsh : (appendCol A C).shape = [M, k + 1] := by
      show [C.shape.getD 0 0, A.shape.getD 1 0 + 1] = _
      rw [c2, hA]; rfl
    obtain ⟨pc, sv, r, p1, p2, _, _⟩ := principalComponents_ok svd hsvd (appendCol A C) M (k + 1) hsh hM (by omega) t
    unfold adaptLoop
    simp only [v1, w1, c1, p1, bind, Except.bind]
    split
    · refine ⟨pc, r, _, rfl, p2, ?_⟩
      rw [hI, List.length_cons]
      exact Nat.mul_le_mul_left _ (by omega)
    · rename_i hs
      push Not at hs
      obtain ⟨pc', r', ne, q1, q2, q3⟩ := ih hs.2 (k + 1) (appendCol A C) hsh
      exact ⟨pc', r', ne, q1, q2, by rw [List.length_cons]; rw [show k + (rest.length + 1) = k + 1 + rest.length by ring]; exact q3⟩

/-- A square matrix with orthonormal columns has orthonormal rows. -/
theorem orth_rows {m : Nat} {p : Nat → Nat → ℝ} (h : ∀ l l', l < m → l' < m → ∑ i ∈ range m, p i l * p i l' = if l = l' then 1 else 0) :
    ∀ i i', i < m → i' < m → ∑ l ∈ range m, p i l * p i' l = if i = i' then 1 else 0 := by
  have h1 : fm m m (fun l i => p i l) * fm m m p = 1 := by
    rw [fm_mul, fm_congr h, fm_one]
  have h2 := mul_eq_one_comm.1 h1
  rw [fm_mul, ← fm_one] at h2
  intro i i' hi hi'
  exact congrFun (congrFun h2 ⟨i, hi⟩) ⟨i', hi'⟩

/-- `alpha_principal_components` succeeds. Without adaptation, a vector of values on the grid is in the span of the new basis if
the basis is complete (tolerance zero, at least as many samples as rows), or if it is a combination of the sampled vectors and these
have a rank at most the prescribed one. -/
theorem alphaPC_ok (svd : Svd) (hsvd : SvdOk svd) (s : Solver) (hs : 0 < s.factor) (f : List Nat → ℝ) (d : Nat)
    (draw : Nat → List (List Nat)) (hdraw : ∀ N, (draw N).length = N) (α : List Nat) (t : ℝ) {B : Arr ℝ}
    {I : List (List Nat)} {M : Nat} (hM : 0 < M) (hB : B.shape = [M, M]) {N : Nat → Nat → ℝ} (hN : InvBy M (fun i j => B.get [i, j]) N)
    (hI : I.length = M) (hr : ∀ row ∈ I, row.length = α.length) :
    ∃ pc r ne, alphaPC svd s f d draw α (some t) B I = .ok (pc, ne) ∧ PcOk M t pc r ∧ ne ≤ M * nbSamples s t B ∧
      (¬ (t < 1 ∧ s.adaptive = true) → ne = M * nbSamples s t B ∧ ∀ F : Nat → ℝ,
        ((t ≤ 0 ∧ 1 ≤ s.factor) ∨ (1 ≤ t ∧ (∃ R, R ≤ ⌊t⌋₊ ∧ ∃ g h : Nat → Nat → ℝ, ∀ a j, a < M → j < nbSamples s t B →
          f (subst (fillIn d α ((draw (nbSamples s t B)).getD j [])) α (I.getD a [])) = ∑ l ∈ range R, g a l * h l j) ∧
          ∃ w : Nat → ℝ, ∀ a, a < M → F a = ∑ j ∈ range (nbSamples s t B),
            w j * f (subst (fillIn d α ((draw (nbSamples s t B)).getD j [])) α (I.getD a [])))) →
        ∃ q : Nat → ℝ, ∀ a, a < M → F a = ∑ l ∈ range r, (∑ b ∈ range M, B.get [a, b] * pc.get [b, l]) * q l) := by
  have hIne : I ≠ [] := by intro h; rw [h] at hI; simp at hI; omega
  have e1 : B.shape.getD 1 0 = M := by rw [hB]; rfl
  have hNs : 0 < nbSamples s t B := by
    unfold nbSamples
    rw [e1]
    split
    · exact Nat.ceil_pos.2 (mul_pos hs (by exact_mod_cast hM))
    · rename_i ht
      exact Nat.ceil_pos.2 (mul_pos hs (by linarith [not_lt.1 ht]))
  have hdl := hdraw (nbSamples s t B)
  have hdne : draw (nbSamples s t B) ≠ [] := by intro h; rw [h] at hdl; simp at hdl; omega
  by_cases hc : t < 1 ∧ s.adaptive = true
  · obtain ⟨pc, r, ne, h1, h2, h3⟩ := adaptLoop_ok svd hsvd s f d α t hM hB hN hI hr (draw (nbSamples s t B)) hdne 0
      ⟨[I.length, 0], fun _ => 0⟩ (by rw [hI])
    refine ⟨pc, r, ne, ?_, h2, by rwa [hdl, zero_add] at h3, fun h => absurd hc h⟩
    unfold alphaPC
    simp only [if_pos hc, h1]
  · obtain ⟨v, v1, v2, v3⟩ := evalGrid_ok f d α hIne hdne hr
    rw [hI, hdl] at v2 v3
    have e0 : B.shape.getD 0 0 = M := by rw [hB]; rfl
    obtain ⟨A, a1, a2, a3⟩ := reshapeVec_ok v2
    obtain ⟨C, c1, c2, c3⟩ := solve_ok hB a2 hN
    obtain ⟨pc, sv, r, p1, p2, p3, p4⟩ := principalComponents_ok svd hsvd C M _ c2 hM hNs t
    refine ⟨pc, r, M * nbSamples s t B, ?_, p2, le_rfl, fun _ => ⟨rfl, fun F hF => ?_⟩⟩
    · unfold alphaPC
      simp only [if_neg hc, oneShot, v1, e0, a1, c1, p1, bind, Except.bind, hI]
    · have hA : ∀ a j, a < M → j < nbSamples s t B → A.get [a, j] = f (subst (fillIn d α ((draw (nbSamples s t B)).getD j [])) α (I.getD a [])) := by
        intro a j ha hj
        rw [a3, v3 a j ha hj]
      rcases hF with ⟨h0, hf⟩ | ⟨ht, ⟨R, hR, g, h, hgh⟩, w, hw⟩
      · have hrM : r = M := by
          rw [p3 h0]
          apply min_eq_left
          unfold nbSamples
          rw [if_pos (by linarith), e1]
          have : (M : ℝ) ≤ s.factor * M := by
            have : (0 : ℝ) ≤ M := Nat.cast_nonneg M
            nlinarith
          exact_mod_cast this.trans (Nat.le_ceil _)
        subst hrM
        have hrow := orth_rows (m := r) (p := fun i l => pc.get [i, l]) p2.orth
        refine ⟨fun l => ∑ b ∈ range r, pc.get [b, l] * ∑ k ∈ range r, N b k * F k, fun a ha => ?_⟩
        have hx : ∀ b, b < r → ∑ k ∈ range r, N b k * F k = ∑ l ∈ range r, pc.get [b, l] * ∑ b' ∈ range r, pc.get [b', l] * ∑ k ∈ range r, N b' k * F k := by
          intro b hb
          rw [sum_congr rfl (fun l _ => mul_sum _ _ _), sum_comm]
          have : ∀ b' ∈ range r, ∑ l ∈ range r, pc.get [b, l] * (pc.get [b', l] * ∑ k ∈ range r, N b' k * F k) =
              if b = b' then ∑ k ∈ range r, N b' k * F k else 0 := by
            intro b' hb'
            rw [sum_congr rfl (fun l _ => (mul_assoc _ _ _).symm), ← sum_mul, hrow b b' hb (mem_range.1 hb')]
            split <;> simp
          rw [sum_congr rfl this, sum_ite_eq, if_pos (mem_range.2 hb)]
        rw [hN.symm.apply (x := F) (y := fun i => ∑ k ∈ range r, N i k * F k) (fun i _ => rfl) a ha,
          sum_congr rfl (fun b hb => by rw [hx b (mem_range.1 hb), mul_sum]), sum_comm]
        refine sum_congr rfl (fun l _ => ?_)
        rw [sum_mul]
        exact sum_congr rfl (fun b _ => by ring)
      · have hcond : t ≤ 0 ∨ (1 ≤ t ∧ ∃ R, R ≤ ⌊t⌋₊ ∧ ∃ g h : Nat → Nat → ℝ, ∀ i j, i < M → j < nbSamples s t B → C.get [i, j] = ∑ l ∈ range R, g i l * h l j) := by
          refine .inr ⟨ht, R, hR, fun i l => ∑ k ∈ range M, N i k * g k l, h, fun i j hi hj => ?_⟩
          rw [c3 i j hi hj]
          rw [sum_congr rfl (fun k hk => by rw [hA k j (mem_range.1 hk) hj, hgh k j (mem_range.1 hk) hj, mul_sum]), sum_comm]
          refine sum_congr rfl (fun l _ => ?_)
          rw [sum_mul]
          exact sum_congr rfl (fun k _ => by ring)
        have hex : ∀ j, ∃ w : Nat → ℝ, j < nbSamples s t B → ∀ i, i < M → C.get [i, j] = ∑ l ∈ range r, pc.get [i, l] * w l := by
          intro j
          by_cases hj : j < nbSamples s t B
          · obtain ⟨w, hw⟩ := p4 hcond j hj
            exact ⟨w, fun _ => hw⟩
          · exact ⟨fun _ => 0, fun h => absurd h hj⟩
        choose y hy using hex
        refine ⟨fun l => ∑ j ∈ range (nbSamples s t B), w j * y j l, fun a ha => ?_⟩
        rw [hw a ha]
        have e : ∀ j ∈ range (nbSamples s t B), w j * f (subst (fillIn d α ((draw (nbSamples s t B)).getD j [])) α (I.getD a [])) =
            ∑ l ∈ range r, (∑ b ∈ range M, B.get [a, b] * pc.get [b, l]) * (w j * y j l) := by
          intro j hj
          rw [mem_range] at hj
          rw [← hA a j ha hj, hN.symm.apply (x := fun k => A.get [k, j]) (y := fun i => C.get [i, j]) (fun i hi => c3 i j hi hj) a ha,
            sum_congr rfl (fun b hb => by rw [hy j hj b (mem_range.1 hb), mul_sum]), sum_comm, mul_sum]
          refine sum_congr rfl (fun l _ => ?_)
          rw [sum_mul, mul_sum]
          exact sum_congr rfl (fun b _ => by ring)
        rw [sum_congr rfl e, sum_comm]
        refine sum_congr rfl (fun l _ => ?_)
        rw [mul_sum]

end Verif.Pca
