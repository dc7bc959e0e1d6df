import Verif.Model.TensordotExcept
import Verif.Props.CondExp

/-!
# Contraction of two tensors along all dimensions but one, with matrices
-/

namespace Verif.FullTensor

open Verif.Arr

variable {R : Type}

theorem dims_facts {n d : Nat} (hd : d < n) : (setdiffRange n [d]).Nodup ∧ (∀ k ∈ setdiffRange n [d], k < n) ∧ d ∉ setdiffRange n [d] ∧
    setdiffRange n (setdiffRange n [d]) = [d] := by
  refine ⟨List.nodup_range.filter _, fun k hk => (mem_setdiffRange.1 hk).1, fun h => (mem_setdiffRange.1 h).2 (by simp), ?_⟩
  refine List.perm_singleton.1 ?_
  rw [List.perm_ext_iff_of_nodup (by exact List.nodup_range.filter _) (by simp)]
  intro k
  rw [mem_setdiffRange, mem_setdiffRange, List.mem_singleton]
  constructor
  · rintro ⟨h1, h2⟩
    by_contra h
    exact h2 ⟨h1, by simpa using h⟩
  · rintro rfl
    exact ⟨hd, fun h => h.2 (by simp)⟩

theorem mergeIdx_except {n d i : Nat} (hd : d < n) {u : List Nat} (hu : u.length = (setdiffRange n [d]).length) :
    mergeIdx (setdiffRange n [d]) u 0 n [i] = subst (List.replicate n i) (setdiffRange n [d]) u := by
  obtain ⟨h1, h2, h3, h4⟩ := dims_facts hd
  have hl : (subst (List.replicate n i) (setdiffRange n [d]) u).length = n := by rw [subst_length]; simp
  have e1 : applyPerm (setdiffRange n [d]) (subst (List.replicate n i) (setdiffRange n [d]) u) = u :=
    FunctionalTensor.entriesAt_subst h1 (by simpa using h2) hu
  have e2 : dropAxes (setdiffRange n [d]) (subst (List.replicate n i) (setdiffRange n [d]) u) = [i] := by
    rw [dropAxes_eq, hl, h4, applyPerm_singleton, getD_subst _ _ _ _ (by simpa using hd), if_neg h3, List.getD_eq_getElem _ _ (by simpa using hd)]
    simp
  have := mergeIdx_self e1
  rwa [hl, e2] at this

/-- C207. `x.tensordot_matrix_product_except_dim(y, matrices, d)` is the matrix whose entry `(i, j)` is the sum over the subscripts `u` of `x`
and `v` of `y` along the other dimensions of the entries of `x` and `y`, with `i` and `j` along the dimension `d`, times the entries of the
matrices. The matrix given for the dimension `d` is not used. -/
theorem tensordotExceptDim_spec [CommSemiring R] (x y : Arr R) (Ms : List (Arr R)) (d : Nat) (hxy : y.order = x.order) (hd : d < x.order)
    (hM : Ms.length = x.order)
    (hfit : ∀ k, k < x.order → k ≠ d → (Ms.getD k ⟨[], fun _ => 0⟩).shape = [x.shape.getD k 0, y.shape.getD k 0])
    (dims : List Nat) (hdims : dims = (List.range x.order).filter (fun k => k ≠ d)) :
    ∃ z, tensordotExceptDim x y Ms d = .ok z ∧ z.shape = [x.shape.getD d 0, y.shape.getD d 0] ∧
      ∀ i j, i < x.shape.getD d 0 → j < y.shape.getD d 0 →
        z.get [i, j] = sumBox (entriesAt dims x.shape) (fun u => sumBox (entriesAt dims y.shape) (fun v =>
          x.get (subst (List.replicate x.order i) dims u) * y.get (subst (List.replicate x.order j) dims v) *
            (List.zipWith (fun (k : Nat) (p : Nat × Nat) => (Ms.getD k ⟨[], fun _ => 0⟩).get [p.1, p.2]) dims (u.zip v)).prod)) := by
  have hdims' : dims = setdiffRange x.order [d] := by
    rw [hdims]
    unfold setdiffRange
    refine List.filter_congr (fun k _ => by simp)
  obtain ⟨f1, f2, f3, f4⟩ := dims_facts hd
  rw [← hdims'] at f1 f2 f3 f4
  have hyl : y.shape.length = x.order := hxy
  have hmemne : ∀ k ∈ dims, k < x.order ∧ k ≠ d := fun k hk => ⟨f2 k hk, fun h => f3 (h ▸ hk)⟩
  obtain ⟨t, t1, t2, t3⟩ := tensorMatrixProduct_spec y (dims.map (fun i => Ms.getD i ⟨[], fun _ => 0⟩)) dims f1 (by
    rw [List.forall₂_map_left_iff, List.forall₂_same]
    intro k hk
    exact ⟨by rw [hxy]; exact f2 k hk, _, hfit k (hmemne k hk).1 (hmemne k hk).2⟩)
  have hrows : (dims.map (fun i => Ms.getD i ⟨[], fun _ => 0⟩)).map (fun M => M.shape.getD 0 0) = entriesAt dims x.shape := by
    unfold entriesAt
    rw [List.map_map]
    refine List.map_congr_left (fun k hk => ?_)
    show (Ms.getD k _).shape.getD 0 0 = _
    rw [hfit k (hmemne k hk).1 (hmemne k hk).2]; rfl
  rw [hrows] at t2
  have htl : t.shape.length = x.order := by rw [t2, subst_length]; exact hyl
  have hto : t.order = x.order := htl
  have htd : t.shape.getD d 0 = y.shape.getD d 0 := by
    rw [t2, getD_subst _ _ _ _ (by omega), if_neg f3]
  have hte : applyPerm dims t.shape = entriesAt dims x.shape := by
    rw [t2]
    exact FunctionalTensor.entriesAt_subst f1 (by rw [hyl]; exact f2) (by simp [entriesAt])
  have hdx : dropAxes dims x.shape = [x.shape.getD d 0] := by
    rw [dropAxes_eq, show x.shape.length = x.order from rfl, f4]; rfl
  have hdt : dropAxes dims t.shape = [y.shape.getD d 0] := by
    rw [dropAxes_eq, htl, f4, ← htd]; rfl
  have hrun : tensordotExceptDim x y Ms d = .ok (x.tensordot t dims dims) := by
    unfold tensordotExceptDim
    rw [if_neg (by simpa using hM), ← hdims']
    simp only [t1, bind, Except.bind]
    unfold tensordotT
    rw [if_pos (by rw [hte]; rfl)]
  refine ⟨_, hrun, by show _ ++ _ = _; rw [hdx, hdt]; rfl, fun i j hi hj => ?_⟩
  show sumBox (applyPerm dims x.shape) (fun s => x.get (mergeIdx dims s 0 x.order ([i, j].take (dropAxes dims x.shape).length)) *
    t.get (mergeIdx dims s 0 t.order ([i, j].drop (dropAxes dims x.shape).length))) = _
  rw [hdx]
  show sumBox (entriesAt dims x.shape) (fun s => x.get (mergeIdx dims s 0 x.order [i]) * t.get (mergeIdx dims s 0 t.order [j])) = _
  refine sumBox_congr (fun u hu => ?_)
  have hul : u.length = dims.length := by rw [hu.length_eq]; simp [entriesAt]
  rw [hto]
  have e1 := mergeIdx_except (i := i) hd (u := u) (by rw [← hdims']; exact hul)
  have e2 := mergeIdx_except (i := j) hd (u := u) (by rw [← hdims']; exact hul)
  rw [← hdims'] at e1 e2
  rw [e1, e2]
  have hbox : InBox t.shape (subst (List.replicate x.order j) dims u) := by
    rw [inBox_iff_getD]
    refine ⟨by rw [subst_length, htl]; simp, fun k hk => ?_⟩
    have hk' : k < x.order := by rw [← htl]; exact hk
    rw [getD_subst _ _ _ _ (by simpa using hk')]
    by_cases hkd : k ∈ dims
    · rw [if_pos hkd, t2, getD_subst _ _ _ _ (by omega), if_pos hkd]
      have := (inBox_iff_getD _ _).1 hu
      exact this.2 _ (by simp [entriesAt]; exact List.idxOf_lt_length_of_mem hkd)
    · rw [if_neg hkd]
      have : k = d := by
        by_contra h
        exact hkd (by rw [hdims']; exact mem_setdiffRange.2 ⟨hk', by simpa using h⟩)
      rw [this, htd, List.getD_eq_getElem _ _ (by simpa using hd)]
      simpa using hj
  rw [t3 _ hbox, ← sumBox_mul_left]
  refine sumBox_congr (fun v hv => ?_)
  have hsub : subst (subst (List.replicate x.order j) dims u) dims v = subst (List.replicate x.order j) dims v := by
    refine ext_getD (by simp [subst_length]) (fun k hk => ?_)
    have hk' : k < (List.replicate x.order j).length := by simpa [subst_length] using hk
    rw [getD_subst _ _ _ _ (by rw [subst_length]; exact hk'), getD_subst _ _ _ _ hk', getD_subst _ _ _ _ hk']
    by_cases h : k ∈ dims <;> simp [h]
  have hat : entriesAt dims (subst (List.replicate x.order j) dims u) = u := FunctionalTensor.entriesAt_subst f1 (by simpa using f2) hul
  rw [hsub, hat, List.zipWith_map_left, mul_assoc]

/-- The number of matrices must be the order. -/
theorem tensordotExceptDim_refused [CommSemiring R] (x y : Arr R) (Ms : List (Arr R)) (d : Nat) (h : Ms.length ≠ x.order) :
    tensordotExceptDim x y Ms d = .error .assertionError := by
  unfold tensordotExceptDim
  rw [if_pos h]

/-- The hypotheses are met by tensors of different shapes, with a matrix that is not used. -/
example : ∃ z, tensordotExceptDim (⟨[2, 3, 1], fun p => p.getD 0 0 + 2 * p.getD 1 0⟩ : Arr Int) ⟨[2, 2, 4], fun p => 1 + p.getD 2 0 * p.getD 1 0⟩
    [⟨[7], fun _ => 0⟩, ⟨[3, 2], fun p => p.getD 0 0 - p.getD 1 0⟩, ⟨[1, 4], fun p => p.getD 1 0⟩] 0 = .ok z ∧ z.shape = [2, 2] := by
  obtain ⟨z, z1, z2, _⟩ := tensordotExceptDim_spec (⟨[2, 3, 1], fun p => p.getD 0 0 + 2 * p.getD 1 0⟩ : Arr Int)
    ⟨[2, 2, 4], fun p => 1 + p.getD 2 0 * p.getD 1 0⟩
    [⟨[7], fun _ => 0⟩, ⟨[3, 2], fun p => p.getD 0 0 - p.getD 1 0⟩, ⟨[1, 4], fun p => p.getD 1 0⟩] 0 rfl (by decide) rfl (by decide) _ rfl
  exact ⟨z, z1, z2⟩

end Verif.FullTensor
