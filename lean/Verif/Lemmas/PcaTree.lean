import Verif.Lemmas.PcaAlpha

/-!
# The steps of the tree-based approximation
-/

namespace Verif.Pca

open Verif.Arr Verif.DimTree Verif.TreeBased Verif.Truncation Verif.Grids Finset

/-- The selection of `r` points of a grid of shape `ms` (`pt` gives its points) with the matrix `Bf` and the coefficients `x`:
the new grid, and the values `b` of the new functions at its points, an invertible matrix. -/
structure Sel (ms : List Nat) (pt : List Nat → List Nat) (Bf : List Nat → List Nat → ℝ) (x b : Arr ℝ)
    (g : List (List Nat)) (r : Nat) : Prop where
  pos : 1 ≤ r
  tens : x.shape = ms ++ [r]
  basis : b.shape = [r, r]
  grid : g.length = r
  sel : ∃ J : Nat → List Nat, (∀ a, a < r → InBox ms (J a)) ∧ (∀ a, a < r → g.getD a [] = pt (J a)) ∧
    ∀ a k, a < r → k < r → b.get [a, k] = sumBox ms (fun s => Bf (J a) s * x.get (s ++ [k]))
  inv : ∃ N, InvBy r (fun a k => b.get [a, k]) N

theorem finish_ok (st : St) (α : Nat) (ms : List Nat) (pt : List Nat → List Nat) (Bf : List Nat → List Nat → ℝ) {B : Arr ℝ}
    (hB : B.shape = [ms.prod, ms.prod]) (hBf : ∀ t s, InBox ms t → InBox ms s → B.get [ravelF ms t, ravelF ms s] = Bf t s)
    {N : Nat → Nat → ℝ} (hN : InvBy ms.prod (fun i j => B.get [i, j]) N) {g : List (List Nat)}
    (hg : g = (List.range ms.prod).map (fun k => pt (unravelF ms k))) {pc : Arr ℝ} {t : ℝ} {r : Nat} (hpc : PcOk ms.prod t pc r) (ne : Nat) :
    ∃ T b g', finish st α (ms ++ [r]) pc ne B g = .ok ⟨upd st.basis α b, upd st.grids α g', upd st.tensors α T, st.nbEval + ne⟩ ∧
      Sel ms pt Bf T b g' r ∧ (∀ s k, InBox ms s → k < r → T.get (s ++ [k]) = pc.get [ravelF ms s, k]) ∧
      ∀ row ∈ g', row ∈ g := by
  obtain ⟨T, t1, t2, t3⟩ := reshape_pair pc ms r hpc.shape
  obtain ⟨C, c1, c2, c3⟩ := matmul_ok hB hpc.shape
  have hL : ∀ k k', k < r → k' < r → ∑ u ∈ range ms.prod, (∑ b ∈ range ms.prod, pc.get [b, k] * N b u) * C.get [u, k'] =
      if k = k' then 1 else 0 := by
    intro k k' hk hk'
    rw [← hpc.orth k k' hk hk']
    have e1 : ∀ b, b < ms.prod → pc.get [b, k'] = ∑ u ∈ range ms.prod, N b u * C.get [u, k'] := fun b hb =>
      hN.apply (x := fun b => pc.get [b, k']) (y := fun u => C.get [u, k']) (fun u _ => c3 u k') b hb
    rw [sum_congr rfl (fun u _ => sum_mul _ _ _), sum_comm]
    refine sum_congr rfl (fun b hb => ?_)
    rw [e1 b (mem_range.1 hb), mul_sum]
    exact sum_congr rfl (fun u _ => by ring)
  obtain ⟨I, i1, i2, i3, _, i4⟩ := magicRows_ok c2 hL
  have hgl : g.length = ms.prod := by rw [hg]; simp
  have hgI : ∀ i, i < ms.prod → g.getD i [] = pt (unravelF ms i) := by
    intro i hi
    rw [List.getD_eq_getElem _ _ (by rw [hgl]; exact hi)]
    simp [hg]
  have hrow : ∀ a, a < r → (gridRows g I).getD a [] = g.getD (I.getD a 0) [] := by
    intro a ha
    unfold gridRows
    have ha' : a < I.length := by rw [i2]; exact ha
    simp [List.getD_eq_getElem?_getD, List.getElem?_eq_getElem ha']
  refine ⟨T, takeRows C I, gridRows g I, ?_, ⟨hpc.pos, t2, ?_, by simp [gridRows, i2], ?_, ?_⟩, t3, ?_⟩
  · unfold finish
    rw [t1]
    simp only [bind, Except.bind, c1, i1]
  · show [I.length, C.shape.getD 1 0] = _
    rw [i2, c2]; rfl
  · refine ⟨fun a => unravelF ms (I.getD a 0), fun a ha => unravelF_inBox (i3 a ha), fun a ha => ?_, fun a k ha hk => ?_⟩
    · rw [hrow a ha, hgI _ (i3 a ha)]
    · show C.get [I.getD a 0, k] = _
      rw [c3, ← sumBox_ravel (s := ms) (fun l => B.get [I.getD a 0, l] * pc.get [l, k])]
      apply sumBox_congr
      intro s hs
      have := hBf (unravelF ms (I.getD a 0)) s (unravelF_inBox (i3 a ha)) hs
      rw [ravelF_unravelF (i3 a ha)] at this
      rw [this, t3 s k hs hk]
  · exact i4
  · intro row hrow'
    unfold gridRows at hrow'
    obtain ⟨i, hi, rfl⟩ := List.mem_map.1 hrow'
    obtain ⟨a, ha, rfl⟩ := List.mem_iff_getElem.1 hi
    have := i3 a (by omega)
    rw [List.getD_eq_getElem _ _ ha] at this
    rw [List.getD_eq_getElem _ _ (by rw [hgl]; exact this)]
    exact List.getElem_mem _

theorem entriesAt_getElem (α l : List Nat) {k : Nat} (hk : k < α.length) :
    (entriesAt α l)[k]'(by rw [length_entriesAt]; exact hk) = l.getD α[k] 0 := by simp [entriesAt]

theorem entriesAt_getD (α l : List Nat) {k : Nat} (hk : k < α.length) : (entriesAt α l).getD k 0 = l.getD α[k] 0 := by
  rw [List.getD_eq_getElem _ _ (by rw [length_entriesAt]; exact hk), entriesAt_getElem _ _ hk]

/-! ### the state after the treatment of a node -/

variable (R : Run)

/-- The nodes with a tensor. -/
def Run.live (i : Nat) : Bool := !R.T.isLeaf i || R.act i

/-- The shape of the grid of a node before the selection. -/
def msOf (st : St) (i : Nat) : List Nat :=
  if R.T.isLeaf i then [R.shape.getD (dimOf R.T i) 0] else (R.T.children i).map (fun c => (st.grids c).length)

/-- The points of the grid of a node before the selection. -/
def ptOf (st : St) (i : Nat) (t : List Nat) : List Nat :=
  if R.T.isLeaf i then t else gridPoint ((R.T.children i).map st.grids) t

/-- The matrix of a node before the selection. -/
noncomputable def BfOf (st : St) (i : Nat) (t s : List Nat) : ℝ :=
  if R.T.isLeaf i then (if t = s then 1 else 0) else kprod st.basis (R.T.children i) t s

/-- The rank of the `α`-matricisation of the function is at most `r`: the function is a sum of `r` products of functions of the
subscripts in `α` and of the others. -/
def RankLe (f : List Nat → ℝ) (shape α : List Nat) (r : Nat) : Prop :=
  ∃ g h : List Nat → Nat → ℝ, ∀ u v, InBox shape u → InBox shape v → f (subst v α (entriesAt α u)) = ∑ l ∈ range r, g u l * h v l

/-- The functions of the subscripts in `α` obtained for the samples `X` of the other subscripts generate all of them. -/
def Spans (f : List Nat → ℝ) (shape α : List Nat) (X : List (List Nat)) : Prop :=
  ∀ v, InBox shape v → ∃ w : Nat → ℝ, ∀ u, InBox shape u → f (subst v α (entriesAt α u)) =
    ∑ j ∈ range X.length, w j * f (subst (fillIn shape.length α (X.getD j [])) α (entriesAt α u))

/-- The parameters of a node that give an exact representation: a tolerance zero with a number of samples that is at least the
number of rows; or a prescribed rank that is at least the rank of the function, for samples that generate. -/
def Resolved (α : List Nat) (draw : Nat → List (List Nat)) (t : ℝ) : Prop :=
  (t ≤ 0 ∧ 1 ≤ R.s.factor ∧ R.s.adaptive = false) ∨
  (1 ≤ t ∧ RankLe R.f R.shape α ⌊t⌋₊ ∧ Spans R.f R.shape α (draw ⌈R.s.factor * t⌉₊))

/-- The sections of the function on the grid of the node are in the span of the new functions. -/
def SpanOk (st : St) (i r : Nat) : Prop :=
  (∀ t, R.tolAt i = some t → Resolved R (R.D i) (R.draw i) t) →
    ∀ idx, InBox R.shape idx → ∃ q : Nat → ℝ, ∀ t, InBox (msOf R st i) t → R.f (subst idx (R.D i) (ptOf R st i t)) =
      ∑ k ∈ range r, sumBox (msOf R st i) (fun s => BfOf R st i t s * (st.tensors i).get (s ++ [k])) * q k

/-- The node `i` has been treated. -/
structure NodeOk (st : St) (i : Nat) : Prop where
  rows : ∀ row ∈ st.grids i, InBox (entriesAt (R.D i) R.shape) row
  on : R.live i = true → ∃ r, Sel (msOf R st i) (ptOf R st i) (BfOf R st i) (st.tensors i) (st.basis i) (st.grids i) r ∧
    (∀ t, R.tolAt i = some t → 1 ≤ t → r ≤ ⌊t⌋₊) ∧ SpanOk R st i r
  off : ¬ R.live i = true → st.tensors i = emptyArr ∧ st.basis i = eye (R.shape.getD (dimOf R.T i) 0) ∧
    st.grids i = gridCol (R.shape.getD (dimOf R.T i) 0)

/-- A run that can be made: an exact singular value decomposition, a positive sampling factor, a valid tree with at least two
dimensions, a shape of positive sizes, a finite parameter for each node with a tensor other than the root, and as many samples as
asked for, in the range of the subscripts of the other dimensions. -/
structure RunOk : Prop where
  svd : SvdOk R.svd
  factor : 0 < R.s.factor
  eim : R.s.eim = true
  valid : Valid R.T
  order : 2 ≤ R.T.dim2ind.length
  len : R.shape.length = R.T.dim2ind.length
  pos : ∀ n ∈ R.shape, 0 < n
  dims : RecDims R.T R.D (IsNode R.T)
  tol : ∀ i, IsNode R.T i → ¬ IsRoot R.T i → R.live i = true → ∃ t, R.tolAt i = some t
  draw : ∀ i, IsNode R.T i → ¬ IsRoot R.T i → ∀ N, (R.draw i N).length = N
  box : ∀ i, IsNode R.T i → ¬ IsRoot R.T i → ∀ N row, row ∈ R.draw i N → InBox (entriesAt (FullTensor.setdiffRange R.shape.length (R.D i)) R.shape) row

variable {R}

theorem msOf_leaf (st : St) {i : Nat} (h : R.T.isLeaf i = true) : msOf R st i = [R.shape.getD (dimOf R.T i) 0] := by unfold msOf; rw [if_pos h]
theorem msOf_node (st : St) {i : Nat} (h : ¬ R.T.isLeaf i = true) : msOf R st i = (R.T.children i).map (fun c => (st.grids c).length) := by
  unfold msOf; rw [if_neg h]
theorem ptOf_leaf (st : St) {i : Nat} (h : R.T.isLeaf i = true) : ptOf R st i = fun t => t := by funext t; unfold ptOf; rw [if_pos h]
theorem ptOf_node (st : St) {i : Nat} (h : ¬ R.T.isLeaf i = true) : ptOf R st i = gridPoint ((R.T.children i).map st.grids) := by
  funext t; unfold ptOf; rw [if_neg h]
theorem BfOf_leaf (st : St) {i : Nat} (h : R.T.isLeaf i = true) : BfOf R st i = fun t s => if t = s then 1 else 0 := by
  funext t s; unfold BfOf; rw [if_pos h]
theorem BfOf_node (st : St) {i : Nat} (h : ¬ R.T.isLeaf i = true) : BfOf R st i = kprod st.basis (R.T.children i) := by
  funext t s; unfold BfOf; rw [if_neg h]

/-- The data of a treated node only depend on the state at the node and at its children. -/
theorem NodeOk.congr {st st' : St} {i : Nat} (h : NodeOk R st i) (hb : st'.basis i = st.basis i) (hg : st'.grids i = st.grids i)
    (ht : st'.tensors i = st.tensors i) (hc : ∀ c ∈ R.T.children i, st'.basis c = st.basis c ∧ st'.grids c = st.grids c) :
    NodeOk R st' i := by
  have e1 : msOf R st' i = msOf R st i := by
    unfold msOf; congr 1
    exact List.map_congr_left (fun c hc' => by rw [(hc c hc').2])
  have e2 : ptOf R st' i = ptOf R st i := by
    funext t
    unfold ptOf
    rw [List.map_congr_left (fun c hc' => (hc c hc').2)]
  have e3 : BfOf R st' i = BfOf R st i := by
    funext t s
    unfold BfOf kprod
    congr 2
    apply List.ext_getElem
    · simp
    · intro k h1 h2
      simp only [List.getElem_zipWith]
      rw [(hc _ (List.getElem_mem _)).1]
  refine ⟨by rw [hg]; exact h.rows, fun hl => ?_, fun hl => ?_⟩
  · obtain ⟨r, h1, h2, h3⟩ := h.on hl
    refine ⟨r, by rw [e1, e2, e3, hb, hg, ht]; exact h1, h2, ?_⟩
    unfold SpanOk at h3 ⊢
    rw [e1, e2, e3, ht]; exact h3
  · rw [hb, hg, ht]; exact h.off hl

theorem eye_inv (n : Nat) : InvBy n (fun i j => (eye n).get [i, j]) (fun i j => if i = j then 1 else 0) := by
  have h : ∀ i j, i < n → j < n → ∑ k ∈ range n, (if i = k then (1 : ℝ) else 0) * (if k = j then 1 else 0) = if i = j then 1 else 0 := by
    intro i j hi hj
    rw [sum_congr rfl (fun k _ => show (if i = k then (1 : ℝ) else 0) * (if k = j then 1 else 0) = if i = k then (if k = j then 1 else 0) else 0 by split <;> simp)]
    rw [sum_ite_eq, if_pos (mem_range.2 hi)]
  exact ⟨h, h⟩

/-- The sizes, the inverse and the bounds of a treated node. -/
theorem NodeOk.basic {st : St} {i : Nat} (h : NodeOk R st i) (hpos : R.live i = true ∨ 0 < R.shape.getD (dimOf R.T i) 0) :
    (st.basis i).shape = [(st.grids i).length, (st.grids i).length] ∧ 0 < (st.grids i).length ∧
      ∃ N, InvBy (st.grids i).length (fun a k => (st.basis i).get [a, k]) N := by
  by_cases hl : R.live i = true
  · obtain ⟨r, h1, _⟩ := h.on hl
    rw [h1.grid]
    exact ⟨h1.basis, h1.pos, h1.inv⟩
  · obtain ⟨_, h2, h3⟩ := h.off hl
    have e : (st.grids i).length = R.shape.getD (dimOf R.T i) 0 := by rw [h3]; simp [gridCol]
    rw [e, h2]
    exact ⟨rfl, hpos.resolve_left hl, _, eye_inv _⟩

section steps

variable (h : RunOk R)
include h

theorem shape_pos {k : Nat} (hk : k < R.shape.length) : 0 < R.shape.getD k 0 := by
  rw [List.getD_eq_getElem _ _ hk]; exact h.pos _ (List.getElem_mem _)

theorem leaf_D {i : Nat} (hi : i ∈ R.T.dim2ind) : R.D i = [dimOf R.T i] := by
  rw [h.dims.1 i ((isLeaf_mem _ _).2 hi), initDims_spec h.valid (dimOf R.T i) i (dim2ind_dimOf hi)]

omit h in
/-- A full tuple with given subscripts at the dimensions `α`. -/
theorem subst_full {shape α idx u : List Nat} (hα : ∀ k ∈ α, k < shape.length) (hnd : α.Nodup) (hidx : InBox shape idx)
    (hu : InBox (entriesAt α shape) u) : InBox shape (subst idx α u) ∧ entriesAt α (subst idx α u) = u := by
  have hl : u.length = α.length := by rw [hu.length_eq, length_entriesAt]
  constructor
  · rw [inBox_iff_getD]
    refine ⟨by rw [length_subst]; exact hidx.length_eq, fun k hk => ?_⟩
    have hk' : k < idx.length := by rw [hidx.length_eq]; exact hk
    rw [subst_getD _ _ _ hk']
    split
    · rename_i hm
      have h5 := ((inBox_iff_getD _ _).1 hu).2 (α.idxOf k) (by rw [length_entriesAt]; exact List.idxOf_lt_length_of_mem hm)
      rw [entriesAt_getD _ _ (List.idxOf_lt_length_of_mem hm), List.getElem_idxOf] at h5
      exact h5
    · exact ((inBox_iff_getD _ _).1 hidx).2 k hk
  · apply List.ext_getElem
    · rw [length_entriesAt, hl]
    · intro k k1 k2
      rw [length_entriesAt] at k1
      rw [entriesAt_getElem _ _ k1, subst_getD _ _ _ (by rw [hidx.length_eq]; exact hα _ (List.getElem_mem _)), if_pos (List.getElem_mem _),
        hnd.idxOf_getElem k k1, List.getD_eq_getElem _ _ k2]

omit h in
theorem fillIn_inBox {shape α u v : List Nat} (hα : ∀ k ∈ α, k < shape.length) (hpos : ∀ n ∈ shape, 0 < n)
    (hv : InBox (entriesAt (FullTensor.setdiffRange shape.length α) shape) v) : InBox shape (fillIn shape.length α v) := by
  rw [inBox_iff_getD]
  refine ⟨length_fillIn _ _ _, fun k hk => ?_⟩
  have e : (fillIn shape.length α v).getD k 0 = v.getD ((FullTensor.setdiffRange shape.length α).idxOf k) 0 := by
    unfold fillIn
    rw [List.getD_eq_getElem _ _ (by simpa using hk)]
    simp
  rw [e]
  by_cases hm : k ∈ FullTensor.setdiffRange shape.length α
  · have h5 := ((inBox_iff_getD _ _).1 hv).2 _ (by rw [length_entriesAt]; exact List.idxOf_lt_length_of_mem hm)
    rw [entriesAt_getD _ _ (List.idxOf_lt_length_of_mem hm), List.getElem_idxOf] at h5
    exact h5
  · rw [List.idxOf_eq_length hm, List.getD_eq_default _ _ (by rw [hv.length_eq, length_entriesAt])]
    rw [List.getD_eq_getElem _ _ hk]; exact hpos _ (List.getElem_mem _)

omit h in
/-- The rows of the samples against the whole hypothesis on the function. -/
theorem resolved_use {α : List Nat} {draw : Nat → List (List Nat)} {t : ℝ} (hdraw : ∀ N, (draw N).length = N)
    (hα : ∀ k ∈ α, k < R.shape.length) (hnd : α.Nodup) (hpos : ∀ n ∈ R.shape, 0 < n)
    (hres : Resolved R α draw t) {M : Nat} {I : List (List Nat)} {B : Arr ℝ}
    (hrow : ∀ a, a < M → InBox (entriesAt α R.shape) (I.getD a []))
    (hdr : ∀ N row, row ∈ draw N → InBox (entriesAt (FullTensor.setdiffRange R.shape.length α) R.shape) row)
    {idx : List Nat} (hidx : InBox R.shape idx) :
    ¬ (t < 1 ∧ R.s.adaptive = true) ∧ ((t ≤ 0 ∧ 1 ≤ R.s.factor) ∨ (1 ≤ t ∧ (∃ Q, Q ≤ ⌊t⌋₊ ∧ ∃ g h : Nat → Nat → ℝ, ∀ a j, a < M → j < nbSamples R.s t B →
          R.f (subst (fillIn R.shape.length α ((draw (nbSamples R.s t B)).getD j [])) α (I.getD a [])) = ∑ l ∈ range Q, g a l * h l j) ∧
          ∃ w : Nat → ℝ, ∀ a, a < M → R.f (subst idx α (I.getD a [])) = ∑ j ∈ range (nbSamples R.s t B),
            w j * R.f (subst (fillIn R.shape.length α ((draw (nbSamples R.s t B)).getD j [])) α (I.getD a [])))) := by
  rcases hres with ⟨h1, h2, h3⟩ | ⟨h1, ⟨g, hh, hgh⟩, h3⟩
  · exact ⟨fun hc => by rw [h3] at hc; simp at hc, .inl ⟨h1, h2⟩⟩
  · have hns : nbSamples R.s t B = ⌈R.s.factor * t⌉₊ := by unfold nbSamples; rw [if_neg (not_lt.2 h1)]
    -- the rows of the grid as full tuples
    have hfull := fun a (ha : a < M) => subst_full hα hnd hidx (hrow a ha)
    refine ⟨fun hc => by linarith [hc.1], .inr ⟨h1, ⟨_, le_rfl, fun a l => g (subst idx α (I.getD a [])) l,
      fun l j => hh (fillIn R.shape.length α ((draw (nbSamples R.s t B)).getD j [])) l, fun a j ha hj => ?_⟩, ?_⟩⟩
    · have hdj : InBox R.shape (fillIn R.shape.length α ((draw (nbSamples R.s t B)).getD j [])) := by
        refine fillIn_inBox (u := []) hα hpos (hdr (nbSamples R.s t B) _ ?_)
        rw [List.getD_eq_getElem _ _ (by rw [hdraw]; exact hj)]
        exact List.getElem_mem _
      have := hgh _ _ (hfull a ha).1 hdj
      rw [(hfull a ha).2] at this
      exact this
    · obtain ⟨w, hw⟩ := h3 idx hidx
      refine ⟨w, fun a ha => ?_⟩
      have := hw _ (hfull a ha).1
      rw [(hfull a ha).2, hdraw] at this
      rw [hns]; exact this

theorem D_lt {i : Nat} (hi : IsNode R.T i) : (∀ k ∈ R.D i, k < R.shape.length) ∧ (R.D i).Nodup := by
  refine ⟨fun k hk => ?_, recDims_nodup h.valid h.dims i hi⟩
  obtain ⟨l, hl, _⟩ := (recDims_mem h.valid h.dims i hi k).1 hk
  rw [h.len]
  exact (List.getElem?_eq_some_iff.1 hl).1

/-- The components, the selection and the new state of a node. -/
theorem core_ok (st : St) {i : Nat} (hi : IsNode R.T i) (hir : ¬ IsRoot R.T i) (hlive : R.live i = true) {B : Arr ℝ}
    (hpos : 0 < (msOf R st i).prod) (hB : B.shape = [(msOf R st i).prod, (msOf R st i).prod])
    (hBf : ∀ t s, InBox (msOf R st i) t → InBox (msOf R st i) s → B.get [ravelF (msOf R st i) t, ravelF (msOf R st i) s] = BfOf R st i t s)
    {N : Nat → Nat → ℝ} (hN : InvBy (msOf R st i).prod (fun i j => B.get [i, j]) N) {g : List (List Nat)}
    (hg : g = (List.range (msOf R st i).prod).map (fun k => ptOf R st i (unravelF (msOf R st i) k)))
    (hrow : ∀ row ∈ g, InBox (entriesAt (R.D i) R.shape) row) :
    ∃ pc r ne x b g', alphaPC R.svd R.s R.f R.shape.length (R.draw i) (R.D i) (R.tolAt i) B g = .ok (pc, ne) ∧
      pc.shape = [(msOf R st i).prod, r] ∧
      finish st i (msOf R st i ++ [r]) pc ne B g = .ok ⟨upd st.basis i b, upd st.grids i g', upd st.tensors i x, st.nbEval + ne⟩ ∧
      NodeOk R ⟨upd st.basis i b, upd st.grids i g', upd st.tensors i x, st.nbEval + ne⟩ i := by
  obtain ⟨t, ht⟩ := h.tol i hi hir hlive
  obtain ⟨hDl, hDn⟩ := D_lt h hi
  have hgl : g.length = (msOf R st i).prod := by rw [hg]; simp
  have hgI : ∀ a, a < (msOf R st i).prod → g.getD a [] = ptOf R st i (unravelF (msOf R st i) a) := by
    intro a ha
    rw [List.getD_eq_getElem _ _ (by rw [hgl]; exact ha)]
    simp [hg]
  have hgrow : ∀ a, a < (msOf R st i).prod → InBox (entriesAt (R.D i) R.shape) (g.getD a []) := by
    intro a ha
    apply hrow
    rw [List.getD_eq_getElem _ _ (by rw [hgl]; exact ha)]
    exact List.getElem_mem _
  obtain ⟨pc, r, ne, a1, a2, a3, a4⟩ := alphaPC_ok R.svd h.svd R.s h.factor R.f R.shape.length (R.draw i) (h.draw i hi hir) (R.D i) t hpos hB hN hgl
    (fun row hr => by rw [(hrow row hr).length_eq, length_entriesAt])
  obtain ⟨x, b, g', f1, f2, f3, f4⟩ := finish_ok st i (msOf R st i) (ptOf R st i) (BfOf R st i) hB hBf hN hg a2 ne
  refine ⟨pc, r, ne, x, b, g', by rw [ht]; exact a1, a2.shape, f1, ?_⟩
  set st' : St := ⟨upd st.basis i b, upd st.grids i g', upd st.tensors i x, st.nbEval + ne⟩ with hst'
  have hch : ∀ c ∈ R.T.children i, c ≠ i := fun c hc => ((edge_ne h.valid ((mem_children i c hi).1 hc))).symm
  have e1 : msOf R st' i = msOf R st i := by
    unfold msOf; congr 1
    exact List.map_congr_left (fun c hc' => by simp [hst', upd, hch c hc'])
  have e2 : ptOf R st' i = ptOf R st i := by
    funext t
    unfold ptOf
    rw [List.map_congr_left (fun c hc' => show st'.grids c = st.grids c by simp [hst', upd, hch c hc'])]
  have hcb : ∀ c ∈ R.T.children i, st'.basis c = st.basis c := fun c hc => by simp [hst', upd, hch c hc]
  have e3 : BfOf R st' i = BfOf R st i := by
    funext t s
    unfold BfOf kprod
    congr 2
    apply List.ext_getElem
    · simp
    · intro k h1 h2
      simp only [List.getElem_zipWith]
      rw [hcb _ (List.getElem_mem _)]
  have u1 : st'.basis i = b := by simp [hst', upd]
  have u2 : st'.grids i = g' := by simp [hst', upd]
  have u3 : st'.tensors i = x := by simp [hst', upd]
  refine ⟨fun row hr => hrow _ (f4 _ (by rwa [u2] at hr)), fun _ => ⟨r, ?_, ?_, ?_⟩, fun hl => absurd hlive hl⟩
  · rw [e1, e2, e3, u1, u2, u3]; exact f2
  · intro t' ht' h1
    have : t' = t := by rw [ht] at ht'; exact (Option.some.inj ht').symm
    subst this; exact a2.le h1
  · intro hres idx hidx
    rw [e1, e2, e3, u3]
    have := resolved_use (h.draw i hi hir) hDl hDn h.pos (hres t ht) (B := B) hgrow (h.box i hi hir) hidx
    obtain ⟨q, hq⟩ := (a4 this.1).2 (fun a => R.f (subst idx (R.D i) (g.getD a []))) this.2
    refine ⟨q, fun u hu => ?_⟩
    have h7 := hq _ (ravelF_lt hu)
    rw [hgI _ (ravelF_lt hu), unravelF_ravelF hu] at h7
    rw [h7]
    refine sum_congr rfl (fun l hl => ?_)
    congr 1
    rw [← sumBox_ravel (s := msOf R st i) (fun b => B.get [ravelF (msOf R st i) u, b] * pc.get [b, l])]
    apply sumBox_congr
    intro s hs
    rw [hBf u s hu hs, f3 s l hs (mem_range.1 hl)]

end steps

end Verif.Pca
