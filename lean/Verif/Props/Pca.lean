import Verif.Lemmas.PcaVal
import Verif.Lemmas.SvdExists
import Verif.Lemmas.HsvdDense

/-!
# Properties of the principal component analysis of tensors
-/

namespace Verif.Pca

open Verif.Arr Verif.DimTree Verif.TreeBased Verif.Truncation Verif.Grids Finset

/-! ### `principal_components` -/

/-- C124. The principal components of a matrix are orthonormal, at least one, and the singular values are returned with them. For a
parameter `0 ≤ p < 1` the projection on them has a relative error at most `p` in Frobenius norm; for `p ≤ 0` all the components
are returned and the error is zero; for `p ≥ 1` their number is `min(p, rows, columns)`, rounded down. The documentation says
`min(p, rows)`. -/
theorem principalComponents_spec_partial (svd : Svd) (hsvd : SvdOk svd) (A : Arr ℝ) (m n : Nat) (hA : A.shape = [m, n]) (hm : 0 < m)
    (hn : 0 < n) (p : ℝ) : ∃ pc sv r, principalComponents svd A (some p) = .ok (pc, sv) ∧ pc.shape = [m, r] ∧ sv = (svd A).2.1.take r ∧ 1 ≤ r ∧
      (∀ l l', l < r → l' < r → ∑ i ∈ range m, pc.get [i, l] * pc.get [i, l'] = if l = l' then 1 else 0) ∧
      (1 ≤ p → r = min ⌊p⌋₊ (min m n)) ∧
      (0 ≤ p → p < 1 →
        sqSum m n (fun i j => A.get [i, j] - ∑ l ∈ range r, pc.get [i, l] * ∑ i' ∈ range m, pc.get [i', l] * A.get [i', j]) ≤
          p ^ 2 * sqSum m n (fun i j => A.get [i, j])) ∧
      (p ≤ 0 → r = min m n ∧ sqSum m n (fun i j => A.get [i, j] - ∑ l ∈ range r, pc.get [i, l] * ∑ i' ∈ range m, pc.get [i', l] * A.get [i', j]) = 0) := by
  obtain ⟨ind, r, h1, h2, h3, h4, h5, h6⟩ := principalComponents_data svd hsvd A m n hA hm hn (some p)
  have hs := hsvd A m n hA hm hn
  obtain ⟨hl, _⟩ := hs.leftOk ind r h2
  have hlen := hs.len
  have hm1 : (1 : ℝ) ≤ m := by exact_mod_cast hm
  have htake : (svd A).2.1.take ind = (svd A).2.1.take r := by
    rw [h2]
    by_cases hi : ind ≤ min m n
    · rw [min_eq_left hi]
    · rw [min_eq_right (by omega), List.take_of_length_le (by omega), List.take_of_length_le (by omega)]
  refine ⟨_, _, r, h1, hl.shape, htake, h3, hl.orth, ?_, ?_, ?_⟩
  · intro hp
    rw [h4 (capParam_some_ge hm hp)]
    unfold capParam
    have : min ⌊min p (m : ℝ)⌋₊ (min m n) = min ⌊p⌋₊ (min m n) := by
      rcases le_total p m with hc | hc
      · rw [min_eq_left hc]
      · rw [min_eq_right hc, Nat.floor_natCast]
        have : m ≤ ⌊p⌋₊ := Nat.le_floor hc
        omega
    rw [this]
  · intro hp0 hp1
    have hcap : capParam m (some p) = p := min_eq_left (by linarith)
    obtain ⟨ind2, r2, t1, t2, _, _, t5⟩ := truncSvd_data svd hsvd ⟨p, none, .other, none⟩ (.inl rfl) A m n hA hm hn p 2 (by omega)
    have h7 : principalComponents svd A (some p) = .ok (leftCols (svd A).1 ind2, (svd A).2.1.take ind2) := by
      have hord : A.order = 2 := by simp [Arr.order, hA]
      have e0 : A.shape.getD 0 0 = m := by rw [hA]; rfl
      unfold principalComponents
      rw [if_neg (by simp [hord]), e0, pcTruncator_eq, hcap, if_pos hp1]
      have : truncSvd svd ⟨p, none, .other, none⟩ A = truncSvd svd ⟨p, none, .other, none⟩ A (some p) (some 2) := rfl
      rw [this, t1]
      rfl
    have h8 : leftCols (svd A).1 ind = leftCols (svd A).1 ind2 := by
      rw [h1] at h7
      exact (Prod.mk.inj (Except.ok.inj h7)).1
    obtain ⟨hl2, _⟩ := hs.leftOk ind2 r2 t2
    have hr : r = r2 := by
      have e1 := hl.shape
      rw [h8, hl2.shape] at e1
      simpa using e1.symm
    rw [hl.err, hs.sqSum, hr]
    have hS : ∑ l ∈ range (min m n), (svd A).2.1.getD l 0 ^ 2 = ((svd A).2.1.map (· ^ 2)).sum := by
      rw [← hlen, ← Grids.list_sum_range]
      congr 1
      apply List.ext_getElem
      · simp
      · intro k k1 k2
        simp at k1
        simp [List.getElem?_eq_getElem k1]
    rw [hS]
    exact t5 rfl hp0
  · intro hp
    have := h5 ((min_le_left _ _).trans hp)
    refine ⟨this, ?_⟩
    rw [hl.err, this, List.drop_of_length_le (by omega)]
    rfl

/-- C124. A matrix with less columns than rows does not have `min(p, rows)` components. -/
theorem principalComponents_count_wrong (svd : Svd) (hsvd : SvdOk svd) : ∃ A : Arr ℝ, A.shape = [2, 1] ∧
    ∀ pc sv, principalComponents svd A (some 2) = .ok (pc, sv) → pc.shape ≠ [2, min 2 2] := by
  refine ⟨⟨[2, 1], fun _ => 1⟩, rfl, fun pc sv h => ?_⟩
  obtain ⟨pc', sv', r, h1, h2, _, _, _, h4, _⟩ := principalComponents_spec_partial svd hsvd ⟨[2, 1], fun _ => 1⟩ 2 1 rfl (by omega) (by omega) 2
  rw [h1] at h
  cases h
  rw [h2, h4 (by norm_num)]
  norm_num

/-- `alpha_principal_components` are the principal components of the matricisation. -/
theorem fullAlphaPC_eq (svd : Svd) (x M : Arr ℝ) (α : List Nat) (p : Option ℝ) (hM : FullTensor.matricize x α = .ok M) :
    fullAlphaPC svd x α p = principalComponents svd M p := by
  unfold fullAlphaPC
  rw [hM]; rfl

theorem entriesOff_subst (idx α u : List Nat) : entriesOff α (subst idx α u) = entriesOff α idx := by
  unfold entriesOff
  rw [length_subst]
  apply List.map_congr_left
  intro k hk
  have hk' := List.mem_filter.1 hk
  have h1 : k < idx.length := List.mem_range.1 hk'.1
  have h2 : k ∉ α := by simpa using hk'.2
  unfold subst
  rw [List.getD_eq_getElem _ _ (by simpa using h1)]
  simp [h2]

/-- C124. The `α`-principal components of a tensor are orthonormal functions of the subscripts in `α` (given by their linear index);
for a parameter `0 ≤ p < 1` the projection of the tensor on them, along these subscripts, has a relative error at most `p`; for `p ≥ 1`
their number is at most `p`. -/
theorem fullAlphaPC_spec (svd : Svd) (hsvd : SvdOk svd) (x : Arr ℝ) (α : List Nat) (hnd : α.Nodup) (hlt : ∀ k ∈ α, k < x.shape.length)
    (hpos : ∀ n ∈ x.shape, 0 < n) (p : ℝ) : ∃ pc sv r, fullAlphaPC svd x α (some p) = .ok (pc, sv) ∧
      pc.shape = [(entriesAt α x.shape).prod, r] ∧ 1 ≤ r ∧ (1 ≤ p → (r : ℝ) ≤ p) ∧
      (∀ l l', l < r → l' < r → sumBox (entriesAt α x.shape) (fun u =>
        pc.get [ravelF (entriesAt α x.shape) u, l] * pc.get [ravelF (entriesAt α x.shape) u, l']) = if l = l' then 1 else 0) ∧
      (0 ≤ p → p < 1 → sumBox x.shape (fun idx => (x.get idx - ∑ l ∈ range r, pc.get [ravelF (entriesAt α x.shape) (entriesAt α idx), l] *
          sumBox (entriesAt α x.shape) (fun u => pc.get [ravelF (entriesAt α x.shape) u, l] * x.get (subst idx α u))) ^ 2) ≤
        p ^ 2 * sumBox x.shape (fun idx => x.get idx ^ 2)) := by
  obtain ⟨M, m1, m2, m3⟩ := FullTensor.matricize_default x α hnd hlt
  have posA : 0 < (entriesAt α x.shape).prod := by
    apply List.prod_pos
    intro n hn
    obtain ⟨k, hk, rfl⟩ := List.mem_map.1 hn
    exact hpos _ (by rw [List.getD_eq_getElem _ _ (hlt k hk)]; exact List.getElem_mem _)
  have posO : 0 < (entriesOff α x.shape).prod := by
    apply List.prod_pos
    intro n hn
    obtain ⟨k, hk, rfl⟩ := List.mem_map.1 hn
    have := List.mem_range.1 (List.mem_filter.1 hk).1
    exact hpos _ (by rw [List.getD_eq_getElem _ _ this]; exact List.getElem_mem _)
  obtain ⟨pc, sv, r, p1, p2, p3, p4, p5, p6, p7, p8⟩ := principalComponents_spec_partial svd hsvd M _ _ m2 posA posO p
  refine ⟨pc, sv, r, (fullAlphaPC_eq svd x M α (some p) m1).trans p1, p2, p4, ?_, ?_, ?_⟩
  · intro hp
    rw [p6 hp]
    exact (Nat.cast_le.2 (min_le_left _ _)).trans (Nat.floor_le (by linarith))
  · intro l l' hl hl'
    rw [sumBox_ravel (s := entriesAt α x.shape) (fun a => pc.get [a, l] * pc.get [a, l'])]
    exact p5 l l' hl hl'
  · intro h0 h1
    have hh := p7 h0 h1
    unfold sqSum at hh
    rw [← matSum x.shape α hnd hlt, ← matSum x.shape α hnd hlt] at hh
    have e1 : sumBox x.shape (fun idx => M.get [ravelF (entriesAt α x.shape) (entriesAt α idx), ravelF (entriesOff α x.shape) (entriesOff α idx)] ^ 2) =
        sumBox x.shape (fun idx => x.get idx ^ 2) := sumBox_congr (fun idx hidx => by rw [m3 idx hidx])
    rw [e1] at hh
    refine le_trans (le_of_eq ?_) hh
    refine sumBox_congr (fun idx hidx => ?_)
    beta_reduce
    rw [m3 idx hidx]
    congr 2
    refine sum_congr rfl (fun l _ => ?_)
    congr 1
    rw [← sumBox_ravel (s := entriesAt α x.shape) (fun a => pc.get [a, l] * M.get [a, ravelF (entriesOff α x.shape) (entriesOff α idx)])]
    refine sumBox_congr (fun u hu => ?_)
    obtain ⟨b1, b2⟩ := subst_full hlt hnd hidx hu
    have := m3 _ b1
    rw [b2, entriesOff_subst] at this
    rw [this]

/-! ### the tree-based approximation -/

/-- The arguments of `tree_based_approximation`, with the attributes of the object, the singular value decomposition and the random
samples. -/
structure Args where
  svd : Svd
  s : Solver
  f : List Nat → ℝ
  shape : List Nat
  T : DTree
  act : Nat → Bool
  tol : Param
  maxRank : Param
  draw : Nat → Nat → List (List Nat)

/-- The call. -/
noncomputable def Args.call (a : Args) : Py (TBT ℝ × St) :=
  treeBasedApproximation a.svd a.s a.f a.shape a.T a.act a.tol a.maxRank a.draw

/-- The value of an attribute at a node. -/
def Param.at (p : Param) (i : Nat) : Option ℝ :=
  match p with
  | .scalar v => v
  | .array l => l.getD (i - 1) none

/-- An array has one entry for each of the `n` nodes. -/
def Param.fits (p : Param) (n : Nat) : Prop :=
  match p with
  | .scalar _ => True
  | .array l => l.length = n

/-- The tolerance of a node: a scalar tolerance smaller than one is divided by the root of the number of active nodes minus one. -/
noncomputable def Args.tolAt (a : Args) (i : Nat) : Option ℝ := (scaleTol a.tol (a.T.nodes.filter a.act).length).at i

/-- A node with a tensor: an internal node, or an active leaf. -/
def Args.live (a : Args) (i : Nat) : Bool := !a.T.isLeaf i || a.act i

/-- Arguments that are accepted: an exact singular value decomposition, a positive sampling factor, the selection of points by
empirical interpolation, a valid tree with at least two dimensions, positive sizes, arrays of the right length, a finite tolerance or
maximal rank at the nodes with a tensor other than the root, and samples that are as many as asked for, in the range of the
dimensions that are not below the node. -/
structure ArgsOk (a : Args) : Prop where
  svd : SvdOk a.svd
  factor : 0 < a.s.factor
  eim : a.s.eim = true
  valid : Valid a.T
  order : 2 ≤ a.T.dim2ind.length
  len : a.shape.length = a.T.dim2ind.length
  pos : ∀ n ∈ a.shape, 0 < n
  fitsTol : (scaleTol a.tol (a.T.nodes.filter a.act).length).fits a.T.n
  fitsRank : a.maxRank.fits a.T.n
  finite : ∀ i, IsNode a.T i → ¬ IsRoot a.T i → a.live i = true → a.tolAt i ≠ none ∨ a.maxRank.at i ≠ none
  draw : ∀ i, IsNode a.T i → ¬ IsRoot a.T i → ∀ N, (a.draw i N).length = N
  box : ∀ D, a.T.dims = .ok D → ∀ i, IsNode a.T i → ¬ IsRoot a.T i → ∀ N row, row ∈ a.draw i N →
    InBox (entriesAt ((List.range a.shape.length).filter (fun k => k ∉ D i)) a.shape) row

theorem expand_at {p : Param} {n : Nat} (h : p.fits n) : ∃ l, expand p n = .ok l ∧ ∀ i, 1 ≤ i → i ≤ n → l.getD (i - 1) none = p.at i := by
  cases p with
  | scalar v =>
    refine ⟨List.replicate n v, rfl, fun i h1 h2 => ?_⟩
    rw [List.getD_eq_getElem _ _ (by rw [List.length_replicate]; omega)]
    simp [Param.at]
  | array l =>
    refine ⟨l, ?_, fun i _ _ => rfl⟩
    unfold expand
    exact if_neg (fun hh => hh h)

/-- The call is a run. -/
theorem call_run {a : Args} (h : ArgsOk a) : ∃ R : Run, RunOk R ∧ a.call = approximate R ∧ a.T.dims = .ok R.D ∧ R.T = a.T ∧ R.shape = a.shape ∧
    R.f = a.f ∧ R.s = a.s ∧ R.act = a.act ∧ R.draw = a.draw ∧ ∀ i, IsNode a.T i → R.tolAt i = minInf (a.tolAt i) (a.maxRank.at i) := by
  obtain ⟨tl, t1, t2⟩ := expand_at h.fitsTol
  obtain ⟨ml, m1, m2⟩ := expand_at h.fitsRank
  obtain ⟨D, d1, d2⟩ := dims_ok h.valid
  have htol : ∀ i, IsNode a.T i → minInf (tl.getD (i - 1) none) (ml.getD (i - 1) none) = minInf (a.tolAt i) (a.maxRank.at i) := by
    intro i hi
    rw [t2 i hi.1 hi.2, m2 i hi.1 hi.2]
    rfl
  refine ⟨⟨a.svd, a.s, a.f, a.shape, a.T, D, a.act, tl, ml, a.draw⟩, ?_, ?_, d1, rfl, rfl, rfl, rfl, rfl, rfl, htol⟩
  · refine ⟨h.svd, h.factor, h.eim, h.valid, h.order, h.len, h.pos, d2, fun i hi hir hlv => ?_, h.draw, ?_⟩
    · show ∃ t, minInf (tl.getD (i - 1) none) (ml.getD (i - 1) none) = some t
      rw [htol i hi]
      rcases h.finite i hi hir hlv with hf | hf
      · obtain ⟨v, hv⟩ := Option.ne_none_iff_exists'.1 hf
        rw [hv]
        cases a.maxRank.at i with
        | none => exact ⟨v, rfl⟩
        | some w => exact ⟨min v w, rfl⟩
      · obtain ⟨v, hv⟩ := Option.ne_none_iff_exists'.1 hf
        rw [hv]
        cases a.tolAt i with
        | none => exact ⟨v, rfl⟩
        | some w => exact ⟨min w v, rfl⟩
    · intro i hi hir N row hr
      have hb := h.box D d1 i hi hir N row hr
      have e : (List.range a.shape.length).filter (fun k => k ∉ D i) = FullTensor.setdiffRange a.shape.length (D i) := by
        unfold FullTensor.setdiffRange
        apply List.filter_congr
        intro k _
        simp [List.contains_eq_mem]
      rw [e] at hb
      exact hb
  · unfold Args.call treeBasedApproximation
    simp only [t1, m1, d1, bind, Except.bind]

/-- What every accepted call gives: `x` the tensor, `y` its full tensor, `pts` the points `alpha_grids` of the root. -/
structure Approx (a : Args) (x : TBT ℝ) (st : St) (y : Arr ℝ) (D : Nat → List Nat) (r : Nat) : Prop where
  call : a.call = .ok (x, st)
  dims : a.T.dims = .ok D
  root : a.T.root = .ok r
  wf : WF x
  tree : x.tree = a.T
  shape : x.shape = a.shape
  active : ∀ i, IsNode a.T i → x.active i = a.live i
  full : full x = .ok y
  fullShape : y.shape = a.shape

/-- C125. Every accepted call gives a well-formed tensor of the given tree and shape that interpolates the function: for whatever
samples are drawn, it is equal to the function at the points of the output grid of the root, as many as the product of the
ranks of the children of the root, given in the order of the dimensions of the root. -/
theorem approximation_interpolates (a : Args) (h : ArgsOk a) : ∃ x st y D r, Approx a x st y D r ∧
    (st.grids r).length = ((a.T.children r).map (childSize x)).prod ∧ st.grids r ≠ [] ∧
    (∀ row ∈ st.grids r, InBox (entriesAt (D r) a.shape) row) ∧
    ∀ idx, InBox a.shape idx → entriesAt (D r) idx ∈ st.grids r → y.get idx = a.f idx := by
  obtain ⟨R, hR, hcall, hD, hT, hS, hf, _, hact, _, _⟩ := call_run h
  obtain ⟨x, st, r, r1, r2, hd, hsh⟩ := run_ok hR
  obtain ⟨V, hV⟩ := exists_value x (hsh.wf hR.valid hR.order).valid
  have hwf := hsh.wf hR.valid hR.order
  have hrl := Shaped.root_internal' hR.valid hR.order hd.root
  obtain ⟨y, r', y1, y2, y3, y4⟩ := full_spec x hwf
  rw [hsh.tree, r2] at y2
  cases y2
  have hrs := hsh.rankShape_root hd.root hrl
  rw [hrs, List.append_nil, shape_x hR hd hsh hV] at y3
  have hms : msOf R st r = (R.T.children r).map (childSize x) := by
    have hleaf : ¬ R.T.isLeaf r = true := fun hh => hrl ((isLeaf_mem _ _).1 hh)
    have := (hwf.node r (by rw [hsh.tree]; exact hd.root.1) (by rw [hsh.tree]; exact hrl)).2.1
    rw [hrs, List.append_nil, hsh.tree, hd.eq] at this
    rw [← hd.shape, this, ← hd.eq]
  have hnz : 0 < (msOf R st r).prod := by
    have := (hwf.node r (by rw [hsh.tree]; exact hd.root.1) (by rw [hsh.tree]; exact hrl)).1
    rw [hd.eq] at this
    have h2 : (st.tensors r).shape.prod ≠ 0 := by simpa [TBT.active] using this
    rw [hd.shape] at h2
    exact Nat.pos_of_ne_zero h2
  refine ⟨x, st, y, R.D, r, ⟨hcall.trans r1, hD, hT ▸ r2, hwf, hsh.tree.trans hT, (shape_x hR hd hsh hV).trans hS, ?_, y1, y3.trans hS⟩, ?_, ?_, ?_, ?_⟩
  · intro i hi
    rw [hsh.active hR.valid hR.order (by rw [hT]; exact hi)]
    unfold Run.live Args.live
    rw [hT, hact]
  · rw [hd.grid, ← hT, ← hms]; simp
  · rw [hd.grid]
    intro he
    have := congrArg List.length he
    simp only [List.length_map, List.length_range, List.length_nil] at this
    omega
  · intro row hr
    rw [hd.grid] at hr
    obtain ⟨k, hk, rfl⟩ := List.mem_map.1 hr
    rw [← hS]
    exact hd.pts _ (unravelF_inBox (List.mem_range.1 hk))
  · intro idx hidx hmem
    rw [hd.grid] at hmem
    obtain ⟨k, hk, he⟩ := List.mem_map.1 hmem
    rw [← hS] at hidx
    have e1 := y4 V hV idx [] (by rw [shape_x hR hd hsh hV]; exact hidx) (by rw [hrs]; exact .nil)
    rw [List.append_nil] at e1
    rw [e1, ← hf]
    exact root_interp hR hd hsh hV (unravelF_inBox (List.mem_range.1 hk)) hidx he.symm

/-- The function of the subscripts in `α` and of the others is a sum of `r` products: the matricisation has a rank at most `r`. -/
def AlphaRankLe (f : List Nat → ℝ) (shape α : List Nat) (r : Nat) : Prop :=
  ∃ g h : List Nat → Nat → ℝ, ∀ u v, InBox shape u → InBox shape v → f (subst v α (entriesAt α u)) = ∑ l ∈ range r, g u l * h v l

/-- The functions of the subscripts in `α` that the samples `X` of the other subscripts give generate the functions for all the values of
the other subscripts. -/
def SamplesSpan (f : List Nat → ℝ) (shape α : List Nat) (X : List (List Nat)) : Prop :=
  ∀ v, InBox shape v → ∃ w : Nat → ℝ, ∀ u, InBox shape u → f (subst v α (entriesAt α u)) =
    ∑ j ∈ range X.length, w j * f (subst (fillIn shape.length α (X.getD j [])) α (entriesAt α u))

/-- C126. The approximation is exact if at each node with a tensor other than the root, either the tolerance is zero (or
negative), the sampling is not adaptive and the sampling factor is at least one, or the parameter is a rank, at least the rank of the
function, and the samples of the node generate its functions. -/
theorem approximation_exact (a : Args) (h : ArgsOk a) (D : Nat → List Nat) (hD : a.T.dims = .ok D)
    (hres : ∀ i, IsNode a.T i → ¬ IsRoot a.T i → a.live i = true → ∀ t, minInf (a.tolAt i) (a.maxRank.at i) = some t →
      (t ≤ 0 ∧ 1 ≤ a.s.factor ∧ a.s.adaptive = false) ∨
      (1 ≤ t ∧ AlphaRankLe a.f a.shape (D i) ⌊t⌋₊ ∧ SamplesSpan a.f a.shape (D i) (a.draw i ⌈a.s.factor * t⌉₊))) :
    ∃ x st y r, Approx a x st y D r ∧ ∀ idx, InBox a.shape idx → y.get idx = a.f idx := by
  obtain ⟨x, st, y, D', r, hA, _⟩ := approximation_interpolates a h
  have hDD : D' = D := by
    have := hA.dims
    rw [hD] at this
    exact (Except.ok.inj this).symm
  subst hDD
  refine ⟨x, st, y, r, hA, fun idx hidx => ?_⟩
  obtain ⟨R, hR, hcall, hD', hT, hS, hf, hs, hact, hdr, htol⟩ := call_run h
  obtain ⟨x', st', r', r1, r2, hd, hsh⟩ := run_ok hR
  have e1 := hA.call
  rw [hcall, r1] at e1
  cases e1
  have e2 := hA.root
  rw [← hT, r2] at e2
  cases e2
  have e3 : R.D = D' := by
    rw [hD] at hD'
    exact (Except.ok.inj hD').symm
  obtain ⟨V, hV⟩ := exists_value x hA.wf.valid
  have hrl := Shaped.root_internal' hR.valid hR.order hd.root
  obtain ⟨y', r', y1, y2, y3, y4⟩ := full_spec x hA.wf
  rw [hA.full] at y1
  cases y1
  rw [hsh.tree, r2] at y2
  cases y2
  have e4 := y4 V hV idx [] (by rw [hA.shape]; exact hidx) (by rw [hsh.rankShape_root hd.root hrl]; exact .nil)
  rw [List.append_nil] at e4
  rw [e4, ← hf]
  refine root_exact hR hd hsh hV ?_ (by rw [hS]; exact hidx)
  intro i hi hir hlv t ht
  have := hres i (hT ▸ hi) (hT ▸ hir) (by unfold Run.live at hlv; unfold Args.live; rw [← hT, ← hact]; exact hlv) t
    (by rw [← htol i (hT ▸ hi)]; exact ht)
  unfold Resolved RankLe Spans
  rw [e3, hs, hf, hS, hdr]
  exact this

/-- C127. The rank of a node is at least one, and at most the minimum of the tolerance and of the maximal rank, if both are at least
one. -/
theorem approximation_rank_partial (a : Args) (h : ArgsOk a) : ∃ x st y D r, Approx a x st y D r ∧
    ∀ i, IsNode a.T i → ¬ IsRoot a.T i → a.live i = true → 1 ≤ x.lastDim i ∧
      ∀ t, minInf (a.tolAt i) (a.maxRank.at i) = some t → 1 ≤ t → (x.lastDim i : ℝ) ≤ t := by
  obtain ⟨x, st, y, D', r, hA, _⟩ := approximation_interpolates a h
  refine ⟨x, st, y, D', r, hA, fun i hi hir hlv => ?_⟩
  obtain ⟨R, hR, hcall, hD', hT, hS, hf, hs, hact, hdr, htol⟩ := call_run h
  obtain ⟨x', st', r', r1, r2, hd, hsh⟩ := run_ok hR
  have e1 := hA.call
  rw [hcall, r1] at e1
  cases e1
  have hlv' : R.live i = true := by unfold Args.live at hlv; unfold Run.live; rw [hT, hact]; exact hlv
  obtain ⟨q, s1, s2, _⟩ := (hd.node i (hT ▸ hi) (hT ▸ hir)).on hlv'
  rw [hsh.lastDim (hT ▸ hi) (hT ▸ hir) hlv', s1.grid]
  refine ⟨s1.pos, fun t ht h1 => ?_⟩
  have := s2 t (by rw [htol i hi]; exact ht) h1
  exact (Nat.cast_le.2 this).trans (Nat.floor_le (by linarith))

/-- C127. The maximal rank has no effect with a tolerance smaller than one: the result is the same as without maximal rank. -/
theorem maxRank_ignored (svd : Svd) (s : Solver) (f : List Nat → ℝ) (shape : List Nat) (T : DTree) (act : Nat → Bool) (t m : ℝ)
    (ht : t < 1) (hm : 1 ≤ m) (hT : Valid T) (hact : 2 ≤ (T.nodes.filter act).length) (draw : Nat → Nat → List (List Nat)) :
    treeBasedApproximation svd s f shape T act (.scalar (some t)) (.scalar (some m)) draw =
      treeBasedApproximation svd s f shape T act (.scalar (some t)) (.scalar none) draw := by
  set n := (T.nodes.filter act).length with hn
  have hsc : scaleTol (.scalar (some t)) n = .scalar (some (t / Real.sqrt ((n : ℝ) - 1))) := by
    unfold scaleTol
    simp only [if_pos ht]
    rw [if_neg (by omega)]
  have h1 : (1 : ℝ) ≤ Real.sqrt ((n : ℝ) - 1) := by
    rw [Real.one_le_sqrt]
    have : (2 : ℝ) ≤ n := by exact_mod_cast hact
    linarith
  have h2 : t / Real.sqrt ((n : ℝ) - 1) < 1 := by
    rw [div_lt_one (by linarith)]; linarith
  obtain ⟨D, d1, _⟩ := dims_ok hT
  unfold treeBasedApproximation
  rw [← hn, hsc]
  simp only [expand, d1, bind, Except.bind]
  set τ := t / Real.sqrt ((n : ℝ) - 1) with hτ
  -- the two runs have the same parameters
  set R1 : Run := ⟨svd, s, f, shape, T, D, act, List.replicate T.n (some τ), List.replicate T.n (some m), draw⟩ with hR1
  set R2 : Run := ⟨svd, s, f, shape, T, D, act, List.replicate T.n (some τ), List.replicate T.n none, draw⟩ with hR2
  have htol : ∀ i, R1.tolAt i = R2.tolAt i := by
    intro i
    show minInf ((List.replicate T.n (some τ)).getD (i - 1) none) ((List.replicate T.n (some m)).getD (i - 1) none) =
      minInf ((List.replicate T.n (some τ)).getD (i - 1) none) ((List.replicate T.n none).getD (i - 1) none)
    by_cases hi : i - 1 < T.n
    · rw [List.getD_eq_getElem _ _ (by simpa using hi), List.getD_eq_getElem _ _ (by simpa using hi),
        List.getD_eq_getElem _ _ (by simpa using hi)]
      simp only [List.getElem_replicate, minInf]
      rw [min_eq_left (by linarith)]
    · rw [List.getD_eq_default _ _ (by simpa using hi), List.getD_eq_default _ _ (by simpa using hi),
        List.getD_eq_default _ _ (by simpa using hi)]
  have e1 : leafStep R1 = leafStep R2 := by
    funext st nu
    unfold leafStep
    simp only [htol]
    rfl
  have e2 : nodeStep R1 = nodeStep R2 := by
    funext st i
    unfold nodeStep
    simp only [htol]
    rfl
  have e3 : rootStep R1 = rootStep R2 := rfl
  unfold approximate
  rw [e1, e2, e3]

/-! ### `hopca` -/

/-- C128. `hopca` gives for each dimension an orthonormal family of vectors, at least one, and at most the minimum of the tolerance and
of the maximal rank of the dimension, if it is at least one. -/
theorem hopca_spec (svd : Svd) (hsvd : SvdOk svd) (s : Solver) (hs : 0 < s.factor) (f : List Nat → ℝ) (shape : List Nat) (hpos : ∀ n ∈ shape, 0 < n)
    (tol maxRank : Param) (ht : tol.fits shape.length) (hm : maxRank.fits shape.length)
    (hfin : ∀ k, k < shape.length → tol.at (k + 1) ≠ none ∨ maxRank.at (k + 1) ≠ none)
    (draw : Nat → Nat → List (List Nat)) (hdraw : ∀ k N, (draw k N).length = N) :
    ∃ out, hopca svd s f shape tol maxRank draw = .ok out ∧ out.length = shape.length ∧ ∀ k, k < shape.length → ∃ pc ne r,
      out[k]? = some (pc, ne) ∧ pc.shape = [shape.getD k 0, r] ∧ 1 ≤ r ∧
      (∀ l l', l < r → l' < r → ∑ i ∈ range (shape.getD k 0), pc.get [i, l] * pc.get [i, l'] = if l = l' then 1 else 0) ∧
      ∀ t, minInf (tol.at (k + 1)) (maxRank.at (k + 1)) = some t → 1 ≤ t → (r : ℝ) ≤ t := by
  obtain ⟨tl, t1, t2⟩ := expand_at ht
  obtain ⟨ml, m1, m2⟩ := expand_at hm
  have key : ∀ k, ∃ p : Arr ℝ × Nat, k < shape.length → (alphaPC svd s f shape.length (draw k) [k] (minInf (tl.getD k none) (ml.getD k none))
      (eye (shape.getD k 0)) (gridCol (shape.getD k 0)) = .ok p ∧ ∃ r, p.1.shape = [shape.getD k 0, r] ∧ 1 ≤ r ∧
      (∀ l l', l < r → l' < r → ∑ i ∈ range (shape.getD k 0), p.1.get [i, l] * p.1.get [i, l'] = if l = l' then 1 else 0) ∧
      ∀ t, minInf (tol.at (k + 1)) (maxRank.at (k + 1)) = some t → 1 ≤ t → (r : ℝ) ≤ t) := by
    intro k
    by_cases hk : k < shape.length
    · have e1 := t2 (k + 1) (by omega) (by omega)
      have e2 := m2 (k + 1) (by omega) (by omega)
      rw [Nat.add_sub_cancel] at e1 e2
      obtain ⟨t, ht'⟩ : ∃ t, minInf (tol.at (k + 1)) (maxRank.at (k + 1)) = some t := by
        rcases hfin k hk with hf | hf
        · obtain ⟨v, hv⟩ := Option.ne_none_iff_exists'.1 hf
          rw [hv]
          cases maxRank.at (k + 1) with
          | none => exact ⟨v, rfl⟩
          | some w => exact ⟨min v w, rfl⟩
        · obtain ⟨v, hv⟩ := Option.ne_none_iff_exists'.1 hf
          rw [hv]
          cases tol.at (k + 1) with
          | none => exact ⟨v, rfl⟩
          | some w => exact ⟨min w v, rfl⟩
      have hn : 0 < shape.getD k 0 := by rw [List.getD_eq_getElem _ _ hk]; exact hpos _ (List.getElem_mem _)
      obtain ⟨pc, r, ne, h1, h2, _⟩ := alphaPC_ok svd hsvd s hs f shape.length (draw k) (hdraw k) [k] t hn (B := eye (shape.getD k 0)) rfl
        (eye_inv _) (I := gridCol (shape.getD k 0)) (by simp [gridCol]) (by
          intro row hr
          obtain ⟨j, _, rfl⟩ := List.mem_map.1 hr
          rfl)
      refine ⟨(pc, ne), fun _ => ⟨by rw [e1, e2, ht']; exact h1, r, h2.shape, h2.pos, h2.orth, fun t' ht'' h1' => ?_⟩⟩
      have : t' = t := by rw [ht'] at ht''; exact (Option.some.inj ht'').symm
      subst this
      exact (Nat.cast_le.2 (h2.le h1')).trans (Nat.floor_le (by linarith))
    · exact ⟨(⟨[], fun _ => 0⟩, 0), fun hh => absurd hh hk⟩
  choose p hp using key
  refine ⟨(List.range shape.length).map p, ?_, by simp, fun k hk => ?_⟩
  · unfold hopca
    simp only [t1, m1, bind, Except.bind]
    rw [mapM_ok_iff, List.forall₂_map_right_iff, List.forall₂_same]
    intro k hk
    exact (hp k (List.mem_range.1 hk)).1
  · obtain ⟨_, r, h1, h2, h3, h4⟩ := hp k hk
    exact ⟨(p k).1, (p k).2, r, by rw [List.getElem?_map, List.getElem?_range hk]; rfl, h1, h2, h3, h4⟩

/-! ### `tucker_approximation` and `tt_approximation` -/

theorem length_placeAt (n : Nat) (pos : List Nat) (l : List (Option ℝ)) : (placeAt n pos l).length = n := by
  unfold placeAt
  have : ∀ (ps : List (Nat × Option ℝ)) (a : List (Option ℝ)), (ps.foldl (fun a p => a.set p.1 p.2) a).length = a.length := by
    intro ps
    induction ps with
    | nil => intro a; rfl
    | cons p ps ih => intro a; rw [List.foldl_cons, ih, List.length_set]
  rw [this, List.length_replicate]

theorem placeAt_spec (n : Nat) (pos : List Nat) (l : List (Option ℝ)) (hl : l.length = pos.length) (hnd : pos.Nodup) (hlt : ∀ q ∈ pos, q < n) :
    ∀ k, k < pos.length → (placeAt n pos l).getD (pos.getD k 0) none = l.getD k none := by
  have key : ∀ (pos : List Nat) (l a : List (Option ℝ)), l.length = pos.length → pos.Nodup → (∀ q ∈ pos, q < a.length) →
      (∀ k, k < pos.length → ((pos.zip l).foldl (fun a p => a.set p.1 p.2) a).getD (pos.getD k 0) none = l.getD k none) ∧
      ∀ q, q ∉ pos → ((pos.zip l).foldl (fun a p => a.set p.1 p.2) a).getD q none = a.getD q none := by
    intro pos
    induction pos with
    | nil => intro l a _ _ _; exact ⟨fun k hk => absurd hk (by simp), fun q _ => rfl⟩
    | cons q pos ih =>
      intro l a hl hnd hlt
      match l, hl with
      | v :: l, hl =>
        obtain ⟨hq, hnd'⟩ := List.nodup_cons.1 hnd
        obtain ⟨i1, i2⟩ := ih l (a.set q v) (by simpa using hl) hnd' (fun q' hq' => by rw [List.length_set]; exact hlt q' (by simp [hq']))
        refine ⟨fun k hk => ?_, fun q' hq' => ?_⟩
        · cases k with
          | zero =>
            show ((pos.zip l).foldl (fun a p => a.set p.1 p.2) (a.set q v)).getD q none = v
            rw [i2 q hq, List.getD_eq_getElem?_getD, List.getElem?_set_self (hlt q (by simp))]
            rfl
          | succ k => exact i1 k (by simpa using hk)
        · show ((pos.zip l).foldl (fun a p => a.set p.1 p.2) (a.set q v)).getD q' none = _
          rw [i2 q' (fun hh => hq' (by simp [hh])), List.getD_eq_getElem?_getD, List.getElem?_set_ne (by rintro rfl; exact hq' (by simp)),
            ← List.getD_eq_getElem?_getD]
  exact (key pos l (List.replicate n (some 0)) hl hnd (by simpa using hlt)).1

/-- The entry `k` of an array of parameters is the parameter of the node `node k`, a scalar is the parameter of all the nodes. -/
def Placed (p q : Param) (n count : Nat) (node : Nat → Nat) : Prop :=
  match p with
  | .scalar v => q = .scalar v
  | .array l => l.length = count ∧ q.fits n ∧ ∀ k, k < count → q.at (node k) = l.getD k none

theorem spread_ok {p : Param} {n : Nat} {pos : List Nat} (hnd : pos.Nodup) (hlt : ∀ q ∈ pos, q < n) (h : p.fits pos.length) :
    ∃ q, spread p n pos = .ok q ∧ Placed p q n pos.length (fun k => pos.getD k 0 + 1) := by
  cases p with
  | scalar v => exact ⟨_, rfl, rfl⟩
  | array l =>
    refine ⟨.array (placeAt n pos l), if_pos h, h, length_placeAt _ _ _, fun k hk => ?_⟩
    show (placeAt n pos l).getD (pos.getD k 0 + 1 - 1) none = _
    rw [Nat.add_sub_cancel]
    exact placeAt_spec n pos l h hnd hlt k hk

/-- C128. `tucker_approximation` is the approximation for the trivial tree with all the nodes active, the entry `k` of an array `tol` or
`max_rank` being the parameter of the leaf of the dimension `k`. -/
theorem tuckerApproximation_spec (svd : Svd) (s : Solver) (f : List Nat → ℝ) (shape : List Nat) (tol maxRank : Param)
    (ht : tol.fits shape.length) (hm : maxRank.fits shape.length) (draw : Nat → Nat → List (List Nat)) :
    ∃ tol' maxRank', tuckerApproximation svd s f shape tol maxRank draw =
        treeBasedApproximation svd s f shape (DTree.trivial shape.length) (fun _ => true) tol' maxRank' draw ∧
      Placed tol tol' (DTree.trivial shape.length).n shape.length (fun k => (DTree.trivial shape.length).dim2ind.getD k 0) ∧
      Placed maxRank maxRank' (DTree.trivial shape.length).n shape.length (fun k => (DTree.trivial shape.length).dim2ind.getD k 0) := by
  set d := shape.length with hd
  set pos := (DTree.trivial d).dim2ind.map (· - 1) with hpos
  have hpe : pos = (List.range d).map (· + 1) := by rw [hpos]; simp [DTree.trivial]
  have hl : pos.length = d := by rw [hpe]; simp
  have hnd : pos.Nodup := by rw [hpe]; exact List.nodup_range.map (fun a b h => by simpa using h)
  have hlt : ∀ q ∈ pos, q < (DTree.trivial d).n := by
    rw [hpe]
    intro q hq
    obtain ⟨k, hk, rfl⟩ := List.mem_map.1 hq
    have := List.mem_range.1 hk
    simp [DTree.trivial]; omega
  have hnode : (fun k => pos.getD k 0 + 1) = fun k => if k < d then (DTree.trivial d).dim2ind.getD k 0 else 1 := by
    funext k
    split
    · rename_i hk
      rw [List.getD_eq_getElem _ _ (by rw [hl]; exact hk), List.getD_eq_getElem _ _ (by simpa [DTree.trivial] using hk)]
      simp [hpe, DTree.trivial]
    · rename_i hk
      rw [List.getD_eq_default _ _ (by rw [hl]; omega)]
  have hPl : ∀ p q, Placed p q (DTree.trivial d).n pos.length (fun k => pos.getD k 0 + 1) →
      Placed p q (DTree.trivial d).n d (fun k => (DTree.trivial d).dim2ind.getD k 0) := by
    intro p q h
    rw [hnode, hl] at h
    cases p with
    | scalar v => exact h
    | array l => exact ⟨h.1, h.2.1, fun k hk => by have := h.2.2 k hk; simpa only [if_pos hk] using this⟩
  obtain ⟨t', t1, t2⟩ := spread_ok (p := tol) hnd hlt (by rw [hl]; exact ht)
  obtain ⟨m', m1, m2⟩ := spread_ok (p := maxRank) hnd hlt (by rw [hl]; exact hm)
  refine ⟨t', m', ?_, hPl _ _ t2, hPl _ _ m2⟩
  unfold tuckerApproximation
  simp only [← hd, ← hpos, t1, m1, bind, Except.bind]

/-- C128. `tt_approximation` is the approximation for the linear tree where the leaves of the dimensions other than the first one are
not active, the entry `k` of an array `tol` or `max_rank` being the parameter of the node of the dimensions `0, ..., k`. -/
theorem ttApproximation_spec (svd : Svd) (s : Solver) (f : List Nat → ℝ) (shape : List Nat) (hd2 : 2 ≤ shape.length) (tol maxRank : Param)
    (ht : tol.fits (shape.length - 1)) (hm : maxRank.fits (shape.length - 1)) (draw : Nat → Nat → List (List Nat)) :
    ∃ tol' maxRank' node D, ttApproximation svd s f shape tol maxRank draw =
        treeBasedApproximation svd s f shape (DTree.linear (List.range shape.length))
          (fun i => !((DTree.linear (List.range shape.length)).dim2ind.tail.contains i)) tol' maxRank' draw ∧
      (DTree.linear (List.range shape.length)).dims = .ok D ∧ (∀ k, k < shape.length - 1 → D (node k) = List.range (k + 1)) ∧
      Placed tol tol' (DTree.linear (List.range shape.length)).n (shape.length - 1) node ∧
      Placed maxRank maxRank' (DTree.linear (List.range shape.length)).n (shape.length - 1) node := by
  set d := shape.length with hd
  set T := DTree.linear (List.range d) with hT
  have hn : T.n = 2 * d - 1 := by simp [hT, DTree.linear]
  have htail : T.dim2ind.tail = (DTree.linear (List.range d)).dim2ind.tail := rfl
  have hmem : ∀ i, i ∈ T.dim2ind.tail ↔ ∃ l, l < d - 1 ∧ i = 2 * l + 3 := by
    intro i
    rw [htail, linear_dim2ind d (by omega), List.tail_cons, List.mem_map]
    constructor
    · rintro ⟨k, hk, rfl⟩
      have := List.mem_range.1 hk
      exact ⟨d - 2 - k, by omega, by omega⟩
    · rintro ⟨l, hl, rfl⟩
      exact ⟨d - 2 - l, List.mem_range.2 (by omega), by omega⟩
  set act : Nat → Bool := fun i => !(T.dim2ind.tail.contains i) with hact
  have hfil : (List.range T.n).filter (fun i => act (i + 1)) = 0 :: (List.range (d - 1)).map (fun l => 2 * l + 1) := by
    apply List.Perm.eq_of_pairwise (le := (· < ·))
    · intro a b _ _ h1 h2; omega
    · exact (List.pairwise_lt_range).filter _
    · rw [List.pairwise_cons]
      refine ⟨?_, ?_⟩
      · intro a ha
        obtain ⟨l, _, rfl⟩ := List.mem_map.1 ha
        omega
      · rw [List.pairwise_map]
        exact (List.pairwise_lt_range).imp (fun h => by omega)
    · rw [List.perm_ext_iff_of_nodup (List.nodup_range.filter _)]
      · intro i
        simp only [List.mem_filter, List.mem_range, hact, Bool.not_eq_true', List.contains_eq_mem, decide_eq_false_iff_not, hmem, List.mem_cons, List.mem_map, hn]
        constructor
        · rintro ⟨h1, h2⟩
          by_cases h0 : i = 0
          · exact .inl h0
          · right
            by_cases hodd : i % 2 = 1
            · exact ⟨i / 2, by omega, by omega⟩
            · exact absurd ⟨i / 2 - 1, by omega, by omega⟩ h2
        · rintro (rfl | ⟨l, hl, rfl⟩)
          · exact ⟨by omega, by rintro ⟨l, hl, he⟩; omega⟩
          · exact ⟨by omega, by rintro ⟨l', hl', he⟩; omega⟩
      · rw [List.nodup_cons]
        refine ⟨?_, List.nodup_range.map (fun a b h => by simpa using h)⟩
        rw [List.mem_map]
        rintro ⟨l, _, h⟩; omega
  set rep := (((List.range T.n).filter (fun i => act (i + 1))).tail).reverse with hrep
  have hrep' : rep = ((List.range (d - 1)).map (fun l => 2 * l + 1)).reverse := by rw [hrep, hfil, List.tail_cons]
  have hl : rep.length = d - 1 := by rw [hrep']; simp
  have hnd : rep.Nodup := by
    rw [hrep', List.nodup_reverse]; exact List.nodup_range.map (fun a b h => by simpa using h)
  have hlt : ∀ q ∈ rep, q < T.n := by
    rw [hrep']
    intro q hq
    obtain ⟨k, hk, rfl⟩ := List.mem_map.1 (List.mem_reverse.1 hq)
    have := List.mem_range.1 hk
    rw [hn]; omega
  have hget : ∀ k, k < d - 1 → rep.getD k 0 + 1 = 2 * (d - 2 - k) + 2 := by
    intro k hk
    rw [List.getD_eq_getElem _ _ (by rw [hl]; exact hk)]
    simp only [hrep', List.getElem_reverse, List.getElem_map, List.getElem_range, List.length_map, List.length_range]
    omega
  obtain ⟨D, d1, _, d3⟩ := linear_dims (List.range d) (by simpa using hd2) (by simp)
  obtain ⟨t', t1, t2⟩ := spread_ok (p := tol) hnd hlt (by rw [hl]; exact ht)
  obtain ⟨m', m1, m2⟩ := spread_ok (p := maxRank) hnd hlt (by rw [hl]; exact hm)
  rw [hl] at t2 m2
  refine ⟨t', m', _, D, ?_, d1, ?_, t2, m2⟩
  · unfold ttApproximation
    simp only [← hd, ← hT]
    rw [show spread tol T.n (((List.range T.n).filter (fun i => !T.dim2ind.tail.contains (i + 1))).tail).reverse = .ok t' from t1,
      show spread maxRank T.n (((List.range T.n).filter (fun i => !T.dim2ind.tail.contains (i + 1))).tail).reverse = .ok m' from m1]
    rfl
  · intro k hk
    rw [hget k hk, (d3 (d - 2 - k) (by simp; omega)).1, List.length_range, List.take_range]
    congr 1
    omega

/-! ### concrete cases -/

/-- A function of rank one of three subscripts, the tree `((0, 1), 2)` and the maximal rank one. -/
noncomputable def exArgs (svd : Svd) : Args :=
  ⟨svd, ⟨1, false, true⟩, fun idx => ((idx.getD 0 0 : ℝ) + 1) * ((idx.getD 1 0 : ℝ) + 1) * ((idx.getD 2 0 : ℝ) + 1), [3, 2, 2], exTree, fun _ => true,
    .scalar none, .scalar (some 1), fun i N => List.replicate N (List.replicate (if i = 2 then 1 else 2) 0)⟩

theorem exTree_dims {D : Nat → List Nat} (h : exTree.dims = .ok D) : D 2 = [0, 1] ∧ D 3 = [0] ∧ D 4 = [1] ∧ D 5 = [2] := by
  obtain ⟨D', h1, h2, h3⟩ := dims_ok exTree_valid
  rw [h] at h1
  cases h1
  have e3 : D 3 = [0] := h2 3 (by decide)
  have e4 : D 4 = [1] := h2 4 (by decide)
  refine ⟨?_, e3, e4, h2 5 (by decide)⟩
  rw [h3 2 ⟨by decide, by decide⟩ (by decide), show exTree.children 2 = [3, 4] by decide]
  simp [e3, e4]

theorem exTree_nodes {i : Nat} (hi : IsNode exTree i) (hr : ¬ IsRoot exTree i) : i = 2 ∨ i = 3 ∨ i = 4 ∨ i = 5 := by
  have h1 := hi.1
  have h2 : i ≤ 5 := hi.2
  have h3 : i ≠ 1 := by
    rintro rfl
    apply hr
    exact (parent_eq_zero ⟨by decide, by decide⟩).1 (by decide)
  omega

theorem exArgs_ok (svd : Svd) (h : SvdOk svd) : ArgsOk (exArgs svd) := by
  refine ⟨h, by simp [exArgs], rfl, exTree_valid, (show 2 ≤ exTree.dim2ind.length by decide), rfl, by simp [exArgs], trivial, trivial, ?_, ?_, ?_⟩
  · intro i _ _ _
    right
    simp [exArgs, Param.at]
  · intro i _ _ N
    simp [exArgs]
  · intro D hD i hi hir N row hr
    obtain ⟨d2, d3, d4, d5⟩ := exTree_dims hD
    have : row = List.replicate (if i = 2 then 1 else 2) 0 := List.eq_of_mem_replicate hr
    subst this
    rcases exTree_nodes hi hir with rfl | rfl | rfl | rfl
    · rw [d2]; simp [exArgs, entriesAt, inBox_iff_getD, List.range_succ]
    · rw [d3]; exact .cons (show 0 < 2 by decide) (.cons (show 0 < 2 by decide) .nil)
    · rw [d4]; exact .cons (show 0 < 3 by decide) (.cons (show 0 < 2 by decide) .nil)
    · rw [d5]; exact .cons (show 0 < 3 by decide) (.cons (show 0 < 2 by decide) .nil)

/-- The hypotheses of the exactness are met by a function of rank one and one sample per node. -/
example : ∃ a : Args, ArgsOk a ∧ ∃ D, a.T.dims = .ok D ∧ ∀ i, IsNode a.T i → ¬ IsRoot a.T i → a.live i = true →
    ∀ t, minInf (a.tolAt i) (a.maxRank.at i) = some t →
      (1 ≤ t ∧ AlphaRankLe a.f a.shape (D i) ⌊t⌋₊ ∧ SamplesSpan a.f a.shape (D i) (a.draw i ⌈a.s.factor * t⌉₊)) := by
  obtain ⟨svd, hsvd⟩ := exists_svd
  obtain ⟨D, hD, _⟩ := dims_ok exTree_valid
  refine ⟨exArgs svd, exArgs_ok svd hsvd, D, hD, ?_⟩
  intro i hi hir _ t ht
  have ht1 : t = 1 := by
    have : minInf none (some (1 : ℝ)) = some t := ht
    exact (Option.some.inj this).symm
  subst ht1
  obtain ⟨d2, d3, d4, d5⟩ := exTree_dims hD
  have hb : ∀ u, InBox (exArgs svd).shape u → ∃ a b c, u = [a, b, c] := by
    intro u hu
    match u, hu with
    | [a, b, c], _ => exact ⟨a, b, c, rfl⟩
  refine ⟨le_rfl, ?_, ?_⟩
  · rcases exTree_nodes hi hir with rfl | rfl | rfl | rfl
    · refine ⟨fun u _ => (u.getD 0 0 + 1) * (u.getD 1 0 + 1), fun v _ => v.getD 2 0 + 1, fun u v hu hv => ?_⟩
      obtain ⟨a, b, c, rfl⟩ := hb u hu
      obtain ⟨a', b', c', rfl⟩ := hb v hv
      rw [d2]; simp [exArgs, subst, entriesAt, List.range_succ]
    · refine ⟨fun u _ => (u.getD 0 0 + 1), fun v _ => (v.getD 1 0 + 1) * (v.getD 2 0 + 1), fun u v hu hv => ?_⟩
      obtain ⟨a, b, c, rfl⟩ := hb u hu
      obtain ⟨a', b', c', rfl⟩ := hb v hv
      rw [d3]; simp [exArgs, subst, entriesAt, List.range_succ]; ring
    · refine ⟨fun u _ => (u.getD 1 0 + 1), fun v _ => (v.getD 0 0 + 1) * (v.getD 2 0 + 1), fun u v hu hv => ?_⟩
      obtain ⟨a, b, c, rfl⟩ := hb u hu
      obtain ⟨a', b', c', rfl⟩ := hb v hv
      rw [d4]; simp [exArgs, subst, entriesAt, List.range_succ]; ring
    · refine ⟨fun u _ => (u.getD 2 0 + 1), fun v _ => (v.getD 0 0 + 1) * (v.getD 1 0 + 1), fun u v hu hv => ?_⟩
      obtain ⟨a, b, c, rfl⟩ := hb u hu
      obtain ⟨a', b', c', rfl⟩ := hb v hv
      rw [d5]; simp [exArgs, subst, entriesAt, List.range_succ]; ring
  · have hX : (exArgs svd).draw i ⌈(exArgs svd).s.factor * 1⌉₊ = [List.replicate (if i = 2 then 1 else 2) 0] := by
      simp [exArgs]
    rw [hX]
    intro v hv
    obtain ⟨a', b', c', rfl⟩ := hb v hv
    rcases exTree_nodes hi hir with rfl | rfl | rfl | rfl
    · refine ⟨fun _ => c' + 1, fun u hu => ?_⟩
      obtain ⟨a, b, c, rfl⟩ := hb u hu
      rw [d2]; simp [exArgs, subst, entriesAt, List.range_succ, fillIn, FullTensor.setdiffRange]; ring
    · refine ⟨fun _ => (b' + 1) * (c' + 1), fun u hu => ?_⟩
      obtain ⟨a, b, c, rfl⟩ := hb u hu
      rw [d3]; simp [exArgs, subst, entriesAt, List.range_succ, fillIn, FullTensor.setdiffRange]; ring
    · refine ⟨fun _ => (a' + 1) * (c' + 1), fun u hu => ?_⟩
      obtain ⟨a, b, c, rfl⟩ := hb u hu
      rw [d4]; simp [exArgs, subst, entriesAt, List.range_succ, fillIn, FullTensor.setdiffRange]; ring
    · refine ⟨fun _ => (a' + 1) * (b' + 1), fun u hu => ?_⟩
      obtain ⟨a, b, c, rfl⟩ := hb u hu
      rw [d5]; simp [exArgs, subst, entriesAt, List.range_succ, fillIn, FullTensor.setdiffRange]

/-- The identity matrix, the tolerance zero and the maximal rank one. -/
noncomputable def exRank (svd : Svd) : Args :=
  ⟨svd, ⟨1, false, true⟩, fun idx => if idx.getD 0 0 = idx.getD 1 0 then 1 else 0, [2, 2], DTree.trivial 2, fun _ => true,
    .scalar (some 0), .scalar (some 1), fun _ N => List.replicate N [0]⟩

theorem exRank_nodes {i : Nat} (hi : IsNode (DTree.trivial 2) i) (hr : ¬ IsRoot (DTree.trivial 2) i) : i = 2 ∨ i = 3 := by
  have h1 := hi.1
  have h2 : i ≤ 3 := hi.2
  have h3 : i ≠ 1 := by
    rintro rfl
    apply hr
    exact (parent_eq_zero ⟨by decide, by decide⟩).1 (by decide)
  omega

theorem exRank_ok (svd : Svd) (h : SvdOk svd) : ArgsOk (exRank svd) := by
  have hV : Valid (DTree.trivial 2) := trivial_valid 2 (by omega)
  refine ⟨h, by simp [exRank], rfl, hV, (show 2 ≤ (DTree.trivial 2).dim2ind.length by decide), rfl, by simp [exRank], ?_, trivial, ?_, ?_, ?_⟩
  · have : ∀ n, (scaleTol (.scalar (some 0)) n).fits (DTree.trivial 2).n := by
      intro n
      unfold scaleTol
      simp only
      split
      · split <;> trivial
      · trivial
    exact this _
  · intro i _ _ _
    right
    simp [exRank, Param.at]
  · intro i _ _ N
    simp [exRank]
  · intro D hD i hi hir N row hr
    obtain ⟨D', h1, h2, _⟩ := dims_ok hV
    have hD' : (DTree.trivial 2).dims = .ok D := hD
    rw [hD'] at h1
    cases h1
    have e2 : D 2 = [0] := h2 2 (by decide)
    have e3 : D 3 = [1] := h2 3 (by decide)
    have : row = [0] := List.eq_of_mem_replicate hr
    subst this
    rcases exRank_nodes hi hir with rfl | rfl
    · rw [e2]; simp [exRank, entriesAt, inBox_iff_getD, List.range_succ]
    · rw [e3]; simp [exRank, entriesAt, inBox_iff_getD, List.range_succ]

/-- C127. The maximal rank is not a bound on the ranks: with the tolerance zero the approximation of the identity matrix is exact and
has a rank that is larger than the maximal rank one. -/
theorem maxRank_exceeded (svd : Svd) (h : SvdOk svd) : (exRank svd).maxRank = .scalar (some 1) ∧
    ∃ x st, (exRank svd).call = .ok (x, st) ∧ ∃ i, IsNode x.tree i ∧ ¬ IsRoot x.tree i ∧ 1 < x.lastDim i := by
  refine ⟨rfl, ?_⟩
  have hV : Valid (DTree.trivial 2) := trivial_valid 2 (by omega)
  obtain ⟨D, hD, _⟩ := dims_ok hV
  have htol : ∀ i, (exRank svd).tolAt i = some 0 := by
    intro i
    have h3 : (((DTree.trivial 2).nodes.filter (fun _ => true)).length) = 3 := by decide
    show (scaleTol (.scalar (some 0)) ((DTree.trivial 2).nodes.filter (fun _ => true)).length).at i = some 0
    rw [h3]
    unfold scaleTol
    simp [Param.at]
  obtain ⟨x, st, y, r, hA, hex⟩ := approximation_exact (exRank svd) (exRank_ok svd h) D hD (by
    intro i _ _ _ t ht
    left
    rw [htol i] at ht
    have : some (min (0 : ℝ) 1) = some t := ht
    have h0 : t = 0 := by rw [← Option.some.inj this]; norm_num
    rw [h0]
    exact ⟨le_rfl, le_rfl, rfl⟩)
  refine ⟨x, st, hA.call, ?_⟩
  by_contra hno
  push Not at hno
  have ht : x.tree = DTree.trivial 2 := hA.tree
  have hr : IsRoot (DTree.trivial 2) 1 := (parent_eq_zero ⟨by decide, by decide⟩).1 (by decide)
  have hr1 : r = 1 := by
    obtain ⟨r', h1, h2⟩ := root_ok hV
    have h3 : (DTree.trivial 2).root = .ok r := hA.root
    rw [h3] at h1
    cases h1
    exact root_unique hV h2 hr
  subst hr1
  obtain ⟨V, hVal⟩ := exists_value x hA.wf.valid
  obtain ⟨y', r', y1, y2, y3, y4⟩ := full_spec x hA.wf
  rw [hA.full] at y1
  cases y1
  rw [hA.tree] at y2
  have y2' := hA.root
  rw [y2] at y2'
  cases y2'
  have hrs : rankShape x 1 = [] := by
    rw [hA.fullShape, hA.shape] at y3
    have := congrArg List.length y3
    rw [List.length_append] at this
    exact List.length_eq_zero_iff.1 (by omega)
  have hn2 : ¬ IsRoot (DTree.trivial 2) 2 := fun hh => absurd (root_unique hV hh hr) (by decide)
  have hn3 : ¬ IsRoot (DTree.trivial 2) 3 := fun hh => absurd (root_unique hV hh hr) (by decide)
  have a2 : x.active 2 = true := by rw [hA.active 2 (show IsNode (DTree.trivial 2) 2 from ⟨by decide, by decide⟩)]; rfl
  have a3 : x.active 3 = true := by rw [hA.active 3 (show IsNode (DTree.trivial 2) 3 from ⟨by decide, by decide⟩)]; rfl
  have l2 : x.lastDim 2 ≤ 1 := hno 2 (by rw [ht]; exact ⟨by decide, by decide⟩) (by rw [ht]; exact hn2)
  have l3 : x.lastDim 3 ≤ 1 := hno 3 (by rw [ht]; exact ⟨by decide, by decide⟩) (by rw [ht]; exact hn3)
  have hch : x.tree.children 1 = [2, 3] := by rw [ht]; decide
  have d2 : dimOf x.tree 2 = 0 := by rw [ht]; decide
  have d3 : dimOf x.tree 3 = 1 := by rw [ht]; decide
  have hval : ∀ i j, i < 2 → j < 2 → (if i = j then (1 : ℝ) else 0) = if x.lastDim 2 = 1 ∧ x.lastDim 3 = 1 then
      (x.tensors 2).get [i, 0] * ((x.tensors 3).get [j, 0] * (x.tensors 1).get [0, 0]) else 0 := by
    intro i j hi hj
    have hb : InBox [2, 2] [i, j] := .cons hi (.cons hj .nil)
    have h1 := hex [i, j] hb
    have h2 := y4 V hVal [i, j] [] (by rw [hA.shape]; exact hb) (by rw [hrs]; exact .nil)
    rw [List.append_nil] at h2
    rw [h2] at h1
    have h3 : V 1 [i, j] [] = if i = j then (1 : ℝ) else 0 := h1
    rw [← h3, hVal.node 1 (by rw [ht]; exact hr.1) (by rw [ht]; decide), hch]
    simp only [childSum, a2, a3, if_true]
    have v2 : ∀ s, V 2 [i, j] [s] = (x.tensors 2).get [i, s] := fun s => by
      rw [hVal.leaf 2 (by rw [ht]; decide) a2, d2]; rfl
    have v3 : ∀ s, V 3 [i, j] [s] = (x.tensors 3).get [j, s] := fun s => by
      rw [hVal.leaf 3 (by rw [ht]; decide) a3, d3]; rfl
    simp only [v2, v3]
    interval_cases hx : x.lastDim 2 <;> interval_cases hx' : x.lastDim 3 <;> simp
  have h00 := hval 0 0 (by omega) (by omega)
  have h11 := hval 1 1 (by omega) (by omega)
  have h01 := hval 0 1 (by omega) (by omega)
  have h10 := hval 1 0 (by omega) (by omega)
  by_cases hc : x.lastDim 2 = 1 ∧ x.lastDim 3 = 1
  · rw [if_pos hc] at h00 h11 h01 h10
    simp only [if_true] at h00 h11
    rw [if_neg (by omega)] at h01 h10
    have : (1 : ℝ) * 1 = 0 * 0 := by
      conv_lhs => rw [h00]
      conv_rhs => rw [h01]
      nlinarith
    norm_num at this
  · rw [if_neg hc] at h00
    simp at h00

/-- The hypotheses of `hopca_spec` are met. -/
example : ∃ svd s draw, SvdOk svd ∧ (0 : ℝ) < Solver.factor s ∧ (Param.scalar (some (1 / 2))).fits 2 ∧
    (∀ k, k < 2 → (Param.scalar (some (1 / 2))).at (k + 1) ≠ none ∨ (Param.scalar none).at (k + 1) ≠ none) ∧
    ∀ k N, ((draw : Nat → Nat → List (List Nat)) k N).length = N := by
  obtain ⟨svd, hsvd⟩ := exists_svd
  exact ⟨svd, ⟨1, true, true⟩, fun _ N => List.replicate N [0], hsvd, one_pos, trivial, fun k _ => .inl (by simp [Param.at]), fun k N => by simp⟩

end Verif.Pca
