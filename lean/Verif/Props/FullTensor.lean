import Verif.Lemmas.Merge
import Verif.Spec.Tensor

/-!
# Properties of `FullTensor`: transposition, reshape, matricisation, mode products (C22, C23)
-/

namespace Verif.FullTensor

open Verif.Arr Finset

variable {R : Type}

/-! ### C22: transposition -/

/-- `transpose(dims)`: axis `k` of the result is axis `dims[k]` of the argument, and the entry of the result
with subscripts `i_dims[0], i_dims[1], ...` is the entry of the argument with subscripts `i_0, i_1, ...`. -/
theorem transpose_spec (x : Arr R) (dims : List Nat) (h : dims.Perm (List.range x.order)) :
    ∃ y, transposeT x dims = .ok y ∧ y.shape = entriesAt dims x.shape ∧
      (∀ idx, InBox x.shape idx → InBox y.shape (entriesAt dims idx) ∧ y.get (entriesAt dims idx) = x.get idx) ∧
      (∀ jdx, InBox y.shape jdx → ∃ idx, InBox x.shape idx ∧ jdx = entriesAt dims idx) := by
  refine ⟨x.transpose dims, by simp [transposeT, h], rfl, ?_, ?_⟩
  · intro idx hi
    refine ⟨(inBox_applyPerm h rfl hi.length_eq).2 hi, ?_⟩
    show x.get (applyPerm (invPerm dims) (applyPerm dims idx)) = _
    rw [invPerm_applyPerm h hi.length_eq]
  · intro jdx hj
    have hjl : jdx.length = x.order := by
      rw [hj.length_eq]; simp [transpose, perm_len h]
    refine ⟨applyPerm (invPerm dims) jdx, ?_, (applyPerm_invPerm h hjl).symm⟩
    have := (inBox_applyPerm h (s := x.shape) (v := applyPerm (invPerm dims) jdx) rfl (by simp [perm_len h])).1
    rw [applyPerm_invPerm h hjl] at this
    exact this hj

/-- A list of axes that is not a permutation of all the axes is refused. -/
theorem transpose_refused (x : Arr R) (dims : List Nat) (h : ¬ dims.Perm (List.range x.order)) :
    transposeT x dims = .error .valueError := by simp [transposeT, h]

theorem transpose_congr {x y : Arr R} (h : x ≃ₐ y) {dims : List Nat} (hd : dims.Perm (List.range x.order)) :
    x.transpose dims ≃ₐ y.transpose dims := by
  refine ⟨by simp [Arr.transpose, h.1], ?_⟩
  intro idx hi
  apply h.2
  have hl : idx.length = x.order := by rw [hi.length_eq]; simp [Arr.transpose, perm_len hd]
  have := (inBox_applyPerm hd (s := x.shape) (v := applyPerm (invPerm dims) idx) rfl (by simp [perm_len hd])).1
  rw [applyPerm_invPerm hd hl] at this
  exact this hi

/-- `itranspose(dims)` undoes `transpose(dims)`. -/
theorem itranspose_transpose (x : Arr R) (dims : List Nat) (h : dims.Perm (List.range x.order)) :
    ∃ y, (transposeT x dims >>= fun t => itransposeT t dims) = .ok y ∧ y ≃ₐ x := by
  have hl := perm_len h
  have ho : (x.transpose dims).order = x.order := by simp [Arr.order, Arr.transpose, hl]
  refine ⟨(x.transpose dims).transpose (invPerm dims), ?_, ?_, ?_⟩
  · simp [transposeT, h, itransposeT, argsort_eq_invPerm h, ho, invPerm_perm h, bind, Except.bind]
  · exact invPerm_applyPerm h rfl
  · intro idx hi
    have hlen : idx.length = x.order := by rw [hi.length_eq]; simp [Arr.transpose, hl]
    show x.get (applyPerm (invPerm dims) (applyPerm (invPerm (invPerm dims)) idx)) = _
    rw [invPerm_invPerm h, invPerm_applyPerm h hlen]

/-- `transpose(dims)` undoes `itranspose(dims)`. -/
theorem transpose_itranspose (x : Arr R) (dims : List Nat) (h : dims.Perm (List.range x.order)) :
    ∃ y, (itransposeT x dims >>= fun t => transposeT t dims) = .ok y ∧ y ≃ₐ x := by
  have hl := perm_len h
  have ho : (x.transpose (invPerm dims)).order = x.order := by simp [Arr.order, Arr.transpose, hl]
  refine ⟨(x.transpose (invPerm dims)).transpose dims, ?_, ?_, ?_⟩
  · simp [transposeT, h, itransposeT, argsort_eq_invPerm h, ho, invPerm_perm h, bind, Except.bind]
  · exact applyPerm_invPerm h rfl
  · intro idx hi
    have hlen : idx.length = x.order := by rw [hi.length_eq]; simp [Arr.transpose, hl]
    show x.get (applyPerm (invPerm (invPerm dims)) (applyPerm (invPerm dims) idx)) = _
    rw [invPerm_invPerm h, applyPerm_invPerm h hlen]

example : [2, 0, 1].Perm (List.range (⟨[2, 3, 4], fun i => i.sum⟩ : Arr Nat).order) := by decide +kernel

/-! ### C22: reshape -/

/-- `reshape(shape)` is accepted exactly when the sizes agree; it keeps the column-major enumeration of the
entries. -/
theorem reshape_spec (x : Arr R) (shape : List Nat) :
    (shape.prod ≠ x.shape.prod → reshape x shape = .error .valueError) ∧
    (shape.prod = x.shape.prod → ∃ y, reshape x shape = .ok y ∧ y.shape = shape ∧
      ∀ idx jdx, InBox x.shape idx → InBox shape jdx → ravelF shape jdx = ravelF x.shape idx →
        y.get jdx = x.get idx) := by
  constructor
  · intro h; simp [reshape, h]
  · intro h
    refine ⟨x.reshapeF shape, by simp [reshape, h], rfl, ?_⟩
    intro idx jdx hi _ he
    show x.get (unravelF x.shape (ravelF shape jdx)) = _
    rw [he, unravelF_ravelF hi]

/-- Reshaping back to the first shape restores the tensor. -/
theorem reshape_reshape (x : Arr R) (shape : List Nat) (h : shape.prod = x.shape.prod) :
    ∃ y, (reshape x shape >>= fun t => reshape t x.shape) = .ok y ∧ y ≃ₐ x := by
  refine ⟨(x.reshapeF shape).reshapeF x.shape, ?_, rfl, ?_⟩
  · simp [reshape, h, bind, Except.bind, Arr.reshapeF]
  · intro idx hi
    have hi : InBox x.shape idx := hi
    show x.get (unravelF x.shape (ravelF shape (unravelF shape (ravelF x.shape idx)))) = _
    rw [ravelF_unravelF (by rw [h]; exact ravelF_lt hi), unravelF_ravelF hi]

/-! ### C22: matricisation -/

theorem prod_applyPerm {dims s : List Nat} {d : Nat} (h : dims.Perm (List.range d)) (hs : s.length = d) :
    (applyPerm dims s).prod = s.prod := by
  have : (applyPerm dims s).Perm s := by
    refine (h.map _).trans ?_
    have : (List.range d).map (fun k => s.getD k 0) = s := by
      apply ext_getD (by simp [hs])
      intro k hk
      rw [List.getD_eq_getElem _ _ hk, List.getElem_map, List.getElem_range]
    rw [this]
  exact this.prod_eq

/-- `matricize(dims1, dims2)`: the row number is the column-major number of the subscripts `dims1`, the column
number that of the subscripts `dims2`. -/
theorem matricize_spec (x : Arr R) (dims1 dims2 : List Nat) (h : (dims1 ++ dims2).Perm (List.range x.order)) :
    ∃ y, matricize x dims1 (some dims2) = .ok y ∧
      y.shape = [(entriesAt dims1 x.shape).prod, (entriesAt dims2 x.shape).prod] ∧
      ∀ idx, InBox x.shape idx →
        y.get [ravelF (entriesAt dims1 x.shape) (entriesAt dims1 idx),
               ravelF (entriesAt dims2 x.shape) (entriesAt dims2 idx)] = x.get idx := by
  have hprod := prod_applyPerm h (s := x.shape) rfl
  have hprod' := hprod
  rw [applyPerm_append, List.prod_append] at hprod'
  refine ⟨(x.transpose (dims1 ++ dims2)).reshapeF [(applyPerm dims1 x.shape).prod, (applyPerm dims2 x.shape).prod],
    ?_, rfl, ?_⟩
  · simp only [matricize, Option.getD_some, transposeT, h, if_true, bind, Except.bind, reshape]
    rw [if_pos]
    show _ = (applyPerm (dims1 ++ dims2) x.shape).prod
    rw [hprod, ← hprod']; simp
  · intro idx hi
    have hb : InBox (applyPerm (dims1 ++ dims2) x.shape) (applyPerm (dims1 ++ dims2) idx) :=
      (inBox_applyPerm h rfl hi.length_eq).2 hi
    have hr : ravelF [(applyPerm dims1 x.shape).prod, (applyPerm dims2 x.shape).prod]
        [ravelF (applyPerm dims1 x.shape) (applyPerm dims1 idx), ravelF (applyPerm dims2 x.shape) (applyPerm dims2 idx)]
        = ravelF (applyPerm (dims1 ++ dims2) x.shape) (applyPerm (dims1 ++ dims2) idx) := by
      rw [applyPerm_append, applyPerm_append, ravelF_append (by simp)]
      simp [ravelF]
    show x.get (applyPerm (invPerm (dims1 ++ dims2)) (unravelF (applyPerm (dims1 ++ dims2) x.shape)
      (ravelF [(applyPerm dims1 x.shape).prod, (applyPerm dims2 x.shape).prod] _))) = _
    erw [hr]
    rw [unravelF_ravelF hb, invPerm_applyPerm h hi.length_eq]

/-- With one list of dimensions, the columns are numbered by the other dimensions in increasing order. -/
theorem matricize_default (x : Arr R) (dims : List Nat) (hnd : dims.Nodup) (hlt : ∀ k ∈ dims, k < x.order) :
    ∃ y, matricize x dims = .ok y ∧
      y.shape = [(entriesAt dims x.shape).prod, (entriesOff dims x.shape).prod] ∧
      ∀ idx, InBox x.shape idx →
        y.get [ravelF (entriesAt dims x.shape) (entriesAt dims idx),
               ravelF (entriesOff dims x.shape) (entriesOff dims idx)] = x.get idx := by
  obtain ⟨y, h1, h2, h3⟩ := matricize_spec x dims (setdiffRange x.order dims) (dims_append_perm hnd hlt)
  have e : ∀ idx : List Nat, idx.length = x.order → entriesAt (setdiffRange x.order dims) idx = entriesOff dims idx := by
    intro idx hl
    unfold entriesAt entriesOff setdiffRange
    rw [hl]
    congr 1
    apply List.filter_congr
    intro k _
    simp
  refine ⟨y, h1, ?_, ?_⟩
  · rw [h2, e _ rfl]
  · intro idx hi
    have := h3 idx hi
    rwa [e _ rfl, e _ hi.length_eq] at this

/-! ### C23: products with matrices along dimensions -/

/-- The matrix `M` can be applied along dimension `dim` of `x`. -/
def Fits (x : Arr R) (M : Arr R) (dim : Nat) : Prop :=
  dim < x.order ∧ ∃ m, M.shape = [m, x.shape.getD dim 0]

theorem applyPerm_singleton (d : Nat) (v : List Nat) : applyPerm [d] v = [v.getD d 0] := rfl

theorem getD_mem_lt {α : Type} {l : List α} {k : Nat} {a : α} (h : k < l.length) : l.getD k a = l[k] :=
  List.getD_eq_getElem _ _ h

/-- One product: subscript `dim` is summed against the row of the matrix; all the subscripts keep their
positions. -/
theorem tmpStep_spec [CommSemiring R] (x M : Arr R) (dim m : Nat) (hd : dim < x.order)
    (hM : M.shape = [m, x.shape.getD dim 0]) :
    ∃ y, tmpStep x (M, dim) = .ok y ∧ y.shape = x.shape.set dim m ∧
      ∀ idx, InBox y.shape idx →
        y.get idx = ∑ j ∈ range (x.shape.getD dim 0), x.get (idx.set dim j) * M.get [idx.getD dim 0, j] := by
  have hlt : ∀ k ∈ [dim], k < x.order := by simpa using hd
  have hp := dims_append_perm' (n := x.order) (List.nodup_singleton dim) hlt
  set index := setdiffRange x.order [dim] ++ [dim] with hindex
  set t := x.tensordot M [dim] [1] with ht
  have hlens := length_setdiffRange (n := x.order) (List.nodup_singleton dim) hlt
  simp only [List.length_singleton] at hlens
  have htshape : t.shape = applyPerm (setdiffRange x.order [dim]) x.shape ++ [m] := by
    rw [ht]
    show dropAxes [dim] x.shape ++ dropAxes [1] M.shape = _
    rw [dropAxes_eq, hM]; rfl
  have hto : t.order = x.order := by
    show t.shape.length = _
    rw [htshape]; simp [hlens]
  refine ⟨t.transpose (invPerm index), ?_, ?_, ?_⟩
  · simp only [tmpStep, tensordotT, hM, applyPerm_singleton]
    rw [if_pos (by simp)]
    simp only [bind, Except.bind, itransposeT, transposeT, ← hindex, argsort_eq_invPerm hp, ← ht, hto,
      invPerm_perm hp, if_true]
  · show applyPerm (invPerm index) t.shape = _
    have : t.shape = applyPerm index (x.shape.set dim m) := by
      rw [htshape, hindex, applyPerm_append, applyPerm_singleton]
      congr 1
      · apply applyPerm_congr
        intro k hk
        rw [getD_set, if_neg]
        rintro ⟨rfl, _⟩
        exact (mem_setdiffRange.1 hk).2 (by simp)
      · rw [getD_set, if_pos ⟨rfl, hd⟩]
    rw [this, invPerm_applyPerm hp (by simp [Arr.order])]
  · intro idx hidx
    have hl : idx.length = x.order := by
      rw [hidx.length_eq]
      show (applyPerm (invPerm index) t.shape).length = _
      simp [perm_len hp]
    show t.get (applyPerm (invPerm (invPerm index)) idx) = _
    rw [invPerm_invPerm hp, hindex, applyPerm_append, applyPerm_singleton]
    simp only [ht, Arr.tensordot]
    rw [applyPerm_singleton, sumBox_singleton]
    refine sum_congr rfl (fun j hj => ?_)
    have hk : (dropAxes [dim] x.shape).length = (applyPerm (setdiffRange x.order [dim]) idx).length := by
      rw [dropAxes_eq]; simp [Arr.order]
    simp only [hk, List.take_left', List.drop_left']
    congr 1
    · congr 1
      have e1 : applyPerm (setdiffRange x.order [dim]) idx = dropAxes [dim] (idx.set dim j) := by
        rw [dropAxes_eq, List.length_set, hl]
        apply applyPerm_congr
        intro k hk
        rw [getD_set, if_neg]
        rintro ⟨rfl, _⟩
        exact (mem_setdiffRange.1 hk).2 (by simp)
      rw [e1]
      have hl' : x.order = (idx.set dim j).length := by rw [List.length_set, hl]
      rw [hl']
      apply mergeIdx_self
      rw [applyPerm_singleton, getD_set, if_pos ⟨rfl, by omega⟩]
    · congr 1
      have : M.order = 2 := by simp [Arr.order, hM]
      rw [this]
      simp [mergeIdx]

/-- A product with a matrix of the wrong width is refused. -/
theorem tmpStep_refused [CommSemiring R] (x M : Arr R) (dim : Nat) (h : M.shape.getD 1 0 ≠ x.shape.getD dim 0) :
    tmpStep x (M, dim) = .error .assertionError := by
  have : ¬ applyPerm [dim] x.shape = applyPerm [1] M.shape := by
    rw [applyPerm_singleton, applyPerm_singleton]
    intro h'
    exact h (List.cons.inj h').1.symm
  simp only [tmpStep, tensordotT, this, if_false, bind, Except.bind]

theorem subst_length (idx dims s : List Nat) : (subst idx dims s).length = idx.length := by simp [subst]

theorem getD_subst (idx dims s : List Nat) (k : Nat) (hk : k < idx.length) :
    (subst idx dims s).getD k 0 = if k ∈ dims then s.getD (dims.idxOf k) 0 else idx.getD k 0 := by
  unfold subst
  rw [List.getD_eq_getElem _ _ (by simpa using hk), List.getElem_map, List.getElem_range]

theorem subst_nil (idx s : List Nat) : subst idx [] s = idx := by
  apply ext_getD (by simp [subst])
  intro k hk
  rw [getD_subst _ _ _ _ (by simpa [subst] using hk)]; simp

theorem subst_cons (idx : List Nat) (d j : Nat) (ds js : List Nat) (hd : d ∉ ds) :
    subst idx (d :: ds) (j :: js) = (subst idx ds js).set d j := by
  apply ext_getD (by simp [subst])
  intro k hk
  have hk : k < idx.length := by simpa [subst] using hk
  rw [getD_subst _ _ _ _ hk, getD_set, getD_subst _ _ _ _ hk, subst_length]
  by_cases hdk : d = k
  · subst hdk; simp [hk]
  · have : k ≠ d := fun h => hdk h.symm
    simp only [hdk, false_and, if_false, List.mem_cons, this, false_or]
    rw [List.idxOf_cons_ne _ hdk]
    simp

/-- `tensor_matrix_product(matrices, dims)` with distinct dimensions: the multilinear formula. Entry `idx` of
the result is the sum, over the subscripts `s` of the dimensions `dims`, of the entry of `x` with these
subscripts replaced by `s`, times the entries `(idx[dims[k]], s[k])` of the matrices. -/
theorem tensorMatrixProduct_spec [CommSemiring R] (x : Arr R) (ms : List (Arr R)) (dims : List Nat)
    (hnd : dims.Nodup) (hfit : List.Forall₂ (fun M d => Fits x M d) ms dims) :
    ∃ y, tensorMatrixProduct x ms (some dims) = .ok y ∧
      y.shape = subst x.shape dims (ms.map (fun M => M.shape.getD 0 0)) ∧
      ∀ idx, InBox y.shape idx →
        y.get idx = sumBox (entriesAt dims x.shape) (fun s => x.get (subst idx dims s) *
          (List.zipWith (fun (M : Arr R) (p : Nat × Nat) => M.get [p.1, p.2]) ms
            ((entriesAt dims idx).zip s)).prod) := by
  simp only [tensorMatrixProduct, Option.getD_some, hfit.length_eq, ne_eq, not_true_eq_false, if_false]
  induction ms generalizing x dims with
  | nil =>
    cases hfit
    refine ⟨x, rfl, ?_, ?_⟩
    · simp [subst_nil]
    · intro idx _; simp [entriesAt, sumBox, subst_nil]
  | cons M ms ih =>
    obtain ⟨d, ds, ⟨hd, m, hm⟩, hrest, rfl⟩ := List.forall₂_cons_left_iff.1 hfit
    rw [List.nodup_cons] at hnd
    obtain ⟨x', hx', hshape, hget⟩ := tmpStep_spec x M d m hd hm
    have hord : x'.order = x.order := by simp [Arr.order, hshape]
    have hoff : ∀ k, k ≠ d → x'.shape.getD k 0 = x.shape.getD k 0 := by
      intro k hk
      rw [hshape, getD_set, if_neg]
      rintro ⟨rfl, _⟩; exact hk rfl
    have hfit' : List.Forall₂ (fun M d => Fits x' M d) ms ds := by
      rw [List.forall₂_iff_get] at hrest ⊢
      refine ⟨hrest.1, fun i h1 h2 => ?_⟩
      obtain ⟨h3, m', h4⟩ := hrest.2 i h1 h2
      refine ⟨by rw [hord]; exact h3, m', ?_⟩
      rw [h4, hoff _ (by intro he; exact hnd.1 (he ▸ List.get_mem _ _))]
    obtain ⟨y, hy, hys, hyg⟩ := ih x' ds hnd.2 hfit'
    have hentries : ∀ (l : List Nat), d ∉ l → entriesAt l x'.shape = entriesAt l x.shape := by
      intro l hl
      exact applyPerm_congr (fun k hk => hoff k (by rintro rfl; exact hl hk))
    refine ⟨y, ?_, ?_, ?_⟩
    · simp only [List.zip_cons_cons, List.foldlM_cons, hx', bind, Except.bind] at *
      exact hy
    · rw [hys, hshape]
      simp only [List.map_cons]
      rw [subst_cons _ _ _ _ _ hnd.1]
      have hM0 : M.shape.getD 0 0 = m := by rw [hm]; rfl
      rw [hM0]
      apply ext_getD (by simp [subst])
      intro k hk
      have hk : k < x.shape.length := by simpa [subst] using hk
      rw [getD_subst _ _ _ _ (by simpa using hk), getD_set, getD_set, getD_subst _ _ _ _ hk, subst_length]
      by_cases hdk : d = k
      · subst hdk; simp [hk, hnd.1]
      · simp [hdk]
    · intro idx hidx
      have hlen : idx.length = x.order := by
        rw [hidx.length_eq, hys, subst_length]; exact hord
      rw [hyg idx hidx]
      rw [hentries ds hnd.1]
      show _ = sumBox (x.shape.getD d 0 :: entriesAt ds x.shape) _
      rw [sumBox, sum_sumBox_comm]
      refine sumBox_congr (fun s hs => ?_)
      have hin : InBox x'.shape (subst idx ds s) := by
        rw [inBox_iff_getD]
        refine ⟨by rw [subst_length, hlen, ← hord]; rfl, ?_⟩
        intro k hk
        have hk' : k < idx.length := by rw [hlen, ← hord]; exact hk
        rw [getD_subst _ _ _ _ hk']
        by_cases hks : k ∈ ds
        · rw [if_pos hks]
          have hi := List.idxOf_lt_length_of_mem hks
          have := ((inBox_iff_getD _ _).1 hs).2 (ds.idxOf k) (by simpa [entriesAt] using hi)
          have e := getD_applyPerm ds x.shape (ds.idxOf k) hi
          rw [List.getD_eq_getElem ds _ hi, List.getElem_idxOf hi] at e
          rw [hoff k (by rintro rfl; exact hnd.1 hks), ← e]
          exact this
        · rw [if_neg hks]
          have := ((inBox_iff_getD _ _).1 hidx).2 k (by rw [hys, subst_length]; exact hk)
          rw [hys, getD_subst _ _ _ _ hk, if_neg hks] at this
          exact this
      rw [hget _ hin, sum_mul]
      refine sum_congr rfl (fun j _ => ?_)
      rw [subst_cons _ _ _ _ _ hnd.1, getD_subst _ _ _ _ (by omega), if_neg hnd.1]
      simp only [entriesAt, List.map_cons, List.zip_cons_cons, List.zipWith_cons_cons, List.prod_cons]
      ring

example : List.Forall₂ (fun M d => Fits (⟨[2, 3], fun i => i.sum⟩ : Arr Nat) M d)
    [⟨[5, 3], fun i => i.sum⟩, ⟨[4, 2], fun i => i.sum⟩] [1, 0] :=
  .cons ⟨by decide, 5, rfl⟩ (.cons ⟨by decide, 4, rfl⟩ .nil)

theorem tmpStep_congr [CommSemiring R] {x y : Arr R} (h : x ≃ₐ y) (M : Arr R) (d : Nat) (hf : Fits x M d) :
    ∃ x' y', tmpStep x (M, d) = .ok x' ∧ tmpStep y (M, d) = .ok y' ∧ x' ≃ₐ y' := by
  obtain ⟨hd, m, hm⟩ := hf
  obtain ⟨x', h1, h2, h3⟩ := tmpStep_spec x M d m hd hm
  obtain ⟨y', g1, g2, g3⟩ := tmpStep_spec y M d m (by simpa [Arr.order, ← h.1] using hd) (by rw [hm, h.1])
  refine ⟨x', y', h1, g1, by rw [h2, g2, h.1], ?_⟩
  intro idx hi
  have hi' : InBox y'.shape idx := by rw [g2, ← h.1, ← h2]; exact hi
  rw [h3 idx hi, g3 idx hi', ← h.1]
  refine sum_congr rfl (fun j hj => ?_)
  rw [h.2]
  rw [inBox_iff_getD]
  rw [h2, inBox_iff_getD] at hi
  simp only [List.length_set] at hi ⊢
  refine ⟨hi.1, fun k hk => ?_⟩
  have := hi.2 k hk
  rw [getD_set] at this ⊢
  by_cases hdk : d = k
  · subst hdk
    rw [if_pos ⟨rfl, by omega⟩]; exact mem_range.1 hj
  · rw [if_neg (by tauto)] at this ⊢
    exact this

/-- Products along different dimensions commute. -/
theorem tensorMatrixProduct_comm [CommSemiring R] (x A B : Arr R) (a b : Nat) (hab : a ≠ b)
    (hA : Fits x A a) (hB : Fits x B b) :
    ∃ y z, tensorMatrixProduct x [A, B] (some [a, b]) = .ok y ∧
      tensorMatrixProduct x [B, A] (some [b, a]) = .ok z ∧ y ≃ₐ z := by
  obtain ⟨y, h1, h2, h3⟩ := tensorMatrixProduct_spec x [A, B] [a, b] (by simp [hab])
    (.cons hA (.cons hB .nil))
  obtain ⟨z, g1, g2, g3⟩ := tensorMatrixProduct_spec x [B, A] [b, a] (by simp [hab.symm])
    (.cons hB (.cons hA .nil))
  have hs : ∀ (v : List Nat) (p q : Nat), subst v [a, b] [p, q] = subst v [b, a] [q, p] := by
    intro v p q
    rw [subst_cons _ _ _ _ _ (by simpa using hab), subst_cons _ _ _ _ _ (by simp),
      subst_cons _ _ _ _ _ (by simpa using hab.symm), subst_cons _ _ _ _ _ (by simp), subst_nil,
      List.set_comm _ _ hab.symm]
  refine ⟨y, z, h1, g1, by rw [h2, g2]; exact hs _ _ _, ?_⟩
  intro idx hi
  have hi' : InBox z.shape idx := by
    rw [g2]
    rw [h2] at hi
    simp only [List.map_cons, List.map_nil] at hi ⊢
    rw [← hs]; exact hi
  rw [h3 idx hi, g3 idx hi']
  simp only [entriesAt, List.map_cons, List.map_nil, sumBox]
  rw [sum_comm]
  refine sum_congr rfl (fun p _ => sum_congr rfl (fun q _ => ?_))
  rw [hs]
  simp
  ring

/-- Two products along the same dimension are the product by the product matrix. -/
theorem tensorMatrixProduct_comp [CommSemiring R] (x A B C : Arr R) (d m p : Nat) (hd : d < x.order)
    (hA : A.shape = [m, x.shape.getD d 0]) (hB : B.shape = [p, m]) (hC : C.shape = [p, x.shape.getD d 0])
    (hCg : ∀ i j, i < p → j < x.shape.getD d 0 → C.get [i, j] = ∑ k ∈ range m, B.get [i, k] * A.get [k, j]) :
    ∃ y z, tensorMatrixProduct x [A, B] (some [d, d]) = .ok y ∧
      tensorMatrixProduct x [C] (some [d]) = .ok z ∧ y ≃ₐ z := by
  obtain ⟨x1, h1, h2, h3⟩ := tmpStep_spec x A d m hd hA
  have hx1d : x1.shape.getD d 0 = m := by rw [h2, getD_set, if_pos ⟨rfl, hd⟩]
  obtain ⟨y, i1, i2, i3⟩ := tmpStep_spec x1 B d p (by simpa [Arr.order, h2] using hd) (by rw [hB, hx1d])
  obtain ⟨z, g1, g2, g3⟩ := tmpStep_spec x C d p hd hC
  have hsh : y.shape = z.shape := by rw [i2, h2, g2]; simp
  refine ⟨y, z, ?_, ?_, hsh, ?_⟩
  · simp [tensorMatrixProduct, h1, i1, bind, Except.bind, pure, Except.pure]
  · simp [tensorMatrixProduct, g1, bind, Except.bind, pure, Except.pure]
  · intro idx hi
    have hlen : idx.length = x.order := by rw [hi.length_eq, hsh, g2]; simp [Arr.order]
    have hb := (inBox_iff_getD _ _).1 (hsh ▸ hi)
    rw [g2] at hb
    have hip : idx.getD d 0 < p := by
      have := hb.2 d (by rw [List.length_set]; exact hd)
      rwa [getD_set, if_pos ⟨rfl, hd⟩] at this
    rw [i3 idx hi, g3 idx (hsh ▸ hi), hx1d]
    have e1 : ∀ k ∈ range m, x1.get (idx.set d k) * B.get [idx.getD d 0, k] =
        ∑ j ∈ range (x.shape.getD d 0), x.get (idx.set d j) * (B.get [idx.getD d 0, k] * A.get [k, j]) := by
      intro k hk
      have hin : InBox x1.shape (idx.set d k) := by
        rw [inBox_iff_getD, h2]
        simp only [List.length_set] at hb ⊢
        refine ⟨hb.1, fun l hl => ?_⟩
        have := hb.2 l hl
        rw [getD_set] at this ⊢
        rw [getD_set]
        by_cases hdl : d = l
        · subst hdl
          rw [if_pos ⟨rfl, by omega⟩, if_pos ⟨rfl, by omega⟩]; exact mem_range.1 hk
        · rw [if_neg (by tauto)] at this ⊢
          rw [if_neg (by tauto)]
          exact this
      rw [h3 _ hin, sum_mul]
      refine sum_congr rfl (fun j _ => ?_)
      rw [getD_set, if_pos ⟨rfl, by omega⟩, List.set_set]
      ring
    rw [sum_congr rfl e1, sum_comm]
    refine sum_congr rfl (fun j hj => ?_)
    rw [hCg _ _ hip (mem_range.1 hj), ← mul_sum]

/-- `np.squeeze` of axes of size one. -/
theorem squeezeT_spec (x : Arr R) (dims : List Nat) (hlt : ∀ k ∈ dims, k < x.order)
    (h1 : ∀ k ∈ dims, x.shape.getD k 0 = 1) :
    ∃ y, squeezeT x dims = .ok y ∧ y.shape = entriesOff dims x.shape ∧
      ∀ idx, InBox x.shape idx → y.get (entriesOff dims idx) = x.get idx := by
  have hdrop : ∀ v : List Nat, dropAxes dims v = entriesOff dims v := by
    intro v
    rw [dropAxes_eq]
    unfold entriesOff applyPerm setdiffRange
    congr 1
    apply List.filter_congr
    intro k _; simp
  refine ⟨x.squeeze dims, ?_, hdrop _, ?_⟩
  · unfold squeezeT
    rw [if_pos]
    exact fun k hk => ⟨hlt k hk, h1 k hk⟩
  · intro idx hi
    show x.get (mergeIdx dims [] 0 x.order (entriesOff dims idx)) = _
    rw [← hdrop]
    have hl : x.order = idx.length := hi.length_eq.symm
    rw [hl]
    congr 1
    apply mergeIdx_self_aux
    intro k hk hm
    rw [Nat.zero_add] at hm
    have := ((inBox_iff_getD _ _).1 hi).2 k (by rw [← hi.length_eq]; exact hk)
    rw [h1 k hm] at this
    simp; simp at this; exact this.symm

/-- `tensor_vector_product(vectors, dims)`: the subscripts `dims` are contracted with the vectors, the others
remain, in order. -/
theorem tensorVectorProduct_spec [CommSemiring R] (x : Arr R) (vs : List (Arr R)) (dims : List Nat)
    (hnd : dims.Nodup) (hfit : List.Forall₂ (fun (v : Arr R) d => d < x.order ∧ v.shape = [x.shape.getD d 0]) vs dims) :
    ∃ y, tensorVectorProduct x vs (some dims) = .ok y ∧ y.shape = entriesOff dims x.shape ∧
      ∀ idx, InBox x.shape idx →
        y.get (entriesOff dims idx) = sumBox (entriesAt dims x.shape) (fun s => x.get (subst idx dims s) *
          (List.zipWith (fun (v : Arr R) j => v.get [j]) vs s).prod) := by
  have hfit' : List.Forall₂ (fun M d => Fits x M d) (vs.map rowMatrix) dims := by
    rw [List.forall₂_map_left_iff]
    refine hfit.imp ?_
    rintro v d ⟨h1, h2⟩
    exact ⟨h1, 1, by simp [rowMatrix, reshapeF, h2]⟩
  obtain ⟨t, ht1, ht2, ht3⟩ := tensorMatrixProduct_spec x (vs.map rowMatrix) dims hnd hfit'
  have hlt : ∀ k ∈ dims, k < x.order := by
    intro k hk
    obtain ⟨i, hi, rfl⟩ := List.getElem_of_mem hk
    have := List.forall₂_iff_get.1 hfit
    exact (this.2 i (by rw [this.1]; exact hi) hi).1
  have hto : t.order = x.order := by show t.shape.length = _; rw [ht2, subst_length]; rfl
  have hones : ∀ k ∈ dims, t.shape.getD k 0 = 1 := by
    intro k hk
    rw [ht2, getD_subst _ _ _ _ (hlt k hk), if_pos hk]
    have hi : dims.idxOf k < vs.length := by rw [hfit.length_eq]; exact List.idxOf_lt_length_of_mem hk
    rw [List.getD_eq_getElem _ _ (by simpa using hi)]
    simp [rowMatrix, reshapeF]
  obtain ⟨y, hy1, hy2, hy3⟩ := squeezeT_spec t dims (by rw [hto]; exact hlt) hones
  have hoffeq : ∀ (u v : List Nat), u.length = v.length → (∀ k, k < u.length → k ∉ dims → u.getD k 0 = v.getD k 0) →
      entriesOff dims u = entriesOff dims v := by
    intro u v hl h
    unfold entriesOff
    rw [hl]
    apply List.map_congr_left
    intro k hk
    simp at hk
    exact h k (by omega) hk.2
  refine ⟨y, ?_, ?_, ?_⟩
  · simp only [tensorVectorProduct, Option.getD_some, hfit.length_eq, ne_eq, not_true_eq_false, if_false, ht1,
      bind, Except.bind]
    exact hy1
  · rw [hy2, ht2]
    apply hoffeq _ _ (subst_length _ _ _)
    intro k hk hkd
    rw [subst_length] at hk
    rw [getD_subst _ _ _ _ hk, if_neg hkd]
  · intro idx hi
    -- the same tuple with zeros on the contracted dimensions is an index of the intermediate tensor
    set idx0 := subst idx dims (List.replicate dims.length 0) with hidx0
    have hl0 : idx0.length = idx.length := subst_length _ _ _
    have hil : idx.length = x.order := hi.length_eq
    have hin : InBox t.shape idx0 := by
      rw [inBox_iff_getD]
      refine ⟨by rw [hl0, hil]; exact hto.symm, ?_⟩
      intro k hk
      have hk' : k < x.order := by rw [← hto]; exact hk
      rw [hidx0, getD_subst _ _ _ _ (by omega)]
      by_cases hkd : k ∈ dims
      · rw [if_pos hkd, hones k hkd]
        have := List.idxOf_lt_length_of_mem hkd
        rw [List.getD_eq_getElem _ _ (by simpa using this)]
        simp
      · rw [if_neg hkd, ht2, getD_subst _ _ _ _ hk', if_neg hkd]
        exact ((inBox_iff_getD _ _).1 hi).2 k hk'
    have e0 : entriesOff dims idx = entriesOff dims idx0 := by
      apply hoffeq _ _ hl0.symm
      intro k hk hkd
      rw [hidx0, getD_subst _ _ _ _ hk, if_neg hkd]
    rw [e0, hy3 idx0 hin, ht3 idx0 hin]
    refine sumBox_congr (fun s hs => ?_)
    congr 1
    · congr 1
      apply ext_getD (by simp only [subst_length, hl0])
      intro k hk
      rw [subst_length, hl0] at hk
      rw [getD_subst _ _ _ _ (by omega), getD_subst idx dims s k hk, hidx0, getD_subst _ _ _ _ hk]
      by_cases hkd : k ∈ dims <;> simp [hkd]
    · congr 1
      have hsl : s.length = dims.length := by rw [hs.length_eq]; simp [entriesAt]
      have hvl := hfit.length_eq
      apply List.ext_getElem
      · simp [entriesAt, hsl, hvl]
      · intro k h1 h2
        simp only [List.length_zipWith, List.length_map] at h2
        have hkv : k < vs.length := by omega
        have hkd : k < dims.length := by omega
        simp only [List.getElem_zipWith, List.getElem_map, List.getElem_zip]
        have hv := (List.forall₂_iff_get.1 hfit).2 k hkv hkd
        simp only [List.get_eq_getElem] at hv
        have hsk := ((inBox_iff_getD _ _).1 hs).2 k (by simpa [entriesAt] using hkd)
        have hek : (entriesAt dims x.shape).getD k 0 = x.shape.getD dims[k] 0 := by
          unfold entriesAt
          rw [List.getD_eq_getElem _ _ (by simpa using hkd), List.getElem_map]
        rw [hek, List.getD_eq_getElem _ _ (by omega)] at hsk
        have hen : (entriesAt dims idx0)[k]'(by simpa [entriesAt] using hkd) = 0 := by
          unfold entriesAt
          rw [List.getElem_map, hidx0, getD_subst _ _ _ _ (by rw [hil]; exact hlt _ (List.getElem_mem hkd)),
            if_pos (List.getElem_mem hkd), hnd.idxOf_getElem]
          rw [List.getD_eq_getElem _ _ (by simpa using hkd)]
          simp
        rw [hen]
        simp only [rowMatrix, reshapeF, hv.2, List.prod_cons, List.prod_nil, Nat.mul_one]
        simp only [ravelF, unravelF, Nat.mul_zero, Nat.add_zero, Nat.zero_add, Nat.one_mul, Nat.mod_eq_of_lt hsk]

example : List.Forall₂ (fun (v : Arr Nat) d => d < (⟨[2, 3, 4], fun i => i.sum⟩ : Arr Nat).order ∧
    v.shape = [[2, 3, 4].getD d 0]) [⟨[4], fun i => i.sum⟩, ⟨[2], fun i => i.sum⟩] [2, 0] :=
  .cons ⟨by decide, rfl⟩ (.cons ⟨by decide, rfl⟩ .nil)

end Verif.FullTensor
