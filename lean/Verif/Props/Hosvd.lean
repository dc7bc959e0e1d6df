import Verif.Lemmas.Matricize
import Verif.Model.Hosvd
import Verif.Lemmas.Shaped
import Verif.Props.DimensionTreeCtor
import Verif.Lemmas.SvdExists
import Verif.Props.Grids

/-!
# Truncated higher-order singular value decomposition (C65)
-/

namespace Verif.Truncation

open Verif.Arr Finset Verif.TreeBased Verif.DimTree Verif.Projection

/-- The singular values of the matrix whose rows are the subscripts of the dimension `k`. -/
noncomputable def modeSv (svd : Svd) (x : Arr ℝ) (k : Nat) : List ℝ :=
  match FullTensor.matricize x [k] with
  | .ok A => (svd A).2.1
  | .error _ => []

/-- The orthogonal projection along the dimension `k` on the columns of `U`. -/
noncomputable def modeP (s : List Nat) (U : Arr ℝ) (r k : Nat) : (List Nat → ℝ) → List Nat → ℝ :=
  expandP s [k] r (fun l p => U.get [p.getD k 0, l])

theorem entriesOff_set (dims i : List Nat) (k a : Nat) (hk : k ∈ dims) : entriesOff dims (i.set k a) = entriesOff dims i := by
  unfold entriesOff
  rw [List.length_set]
  apply List.map_congr_left
  intro m hm
  have : m ∉ dims := by simpa using (List.mem_filter.1 hm).2
  rw [Arr.getD_set, if_neg]
  rintro ⟨rfl, _⟩
  exact this hk

theorem hosvdLeft_spec (svd : Svd) (hsvd : SvdOk svd) (t : Truncator) (ht : t.param = none ∨ t.param = some 0)
    (mr : List (Option Nat)) (tol : ℝ) (x : Arr ℝ) (hx : ∀ n ∈ x.shape, 0 < n) (k : Nat) (hk : k < x.order) (R : Option Nat)
    (hR : mr[k]? = some R) (hR0 : R ≠ some 0) :
    ∃ U r, hosvdLeft svd t mr tol x k = .ok U ∧ U.shape = [x.shape.getD k 0, r] ∧ 1 ≤ r ∧ (∀ q, R = some q → r ≤ q) ∧
      (∀ l l', l < r → l' < r → ∑ i ∈ range (x.shape.getD k 0), U.get [i, l] * U.get [i, l'] = if l = l' then 1 else 0) ∧
      nsq x.shape (fun i => x.get i - modeP x.shape U r k x.get i) = (((modeSv svd x k).drop r).map (· ^ 2)).sum ∧
      (R = none → 0 ≤ tol → (((modeSv svd x k).drop r).map (· ^ 2)).sum ≤ tol ^ 2 * nsq x.shape x.get) := by
  have hkl : k < x.shape.length := hk
  obtain ⟨A, a1, a2, a3⟩ := FullTensor.matricize_default x [k] (by simp) (by simpa using hk)
  set m := (entriesAt [k] x.shape).prod with hm
  set n := (entriesOff [k] x.shape).prod with hn
  have hmk : m = x.shape.getD k 0 := by rw [hm]; simp [entriesAt]
  have hm0 : 0 < m := by
    rw [hmk, List.getD_eq_getElem _ _ hkl]; exact hx _ (List.getElem_mem _)
  have hn0 : 0 < n := by
    rw [hn]
    apply List.prod_pos
    intro v hv
    unfold entriesOff at hv
    obtain ⟨j, hj, rfl⟩ := List.mem_map.1 hv
    have hjl : j < x.shape.length := List.mem_range.1 (List.mem_filter.1 hj).1
    rw [List.getD_eq_getElem _ _ hjl]; exact hx _ (List.getElem_mem _)
  obtain ⟨ind, r, b1, b2, b3, b4, b5⟩ := truncSvd_data svd hsvd { t with maxRank := R } ht A m n a2 hm0 hn0 tol 2 (by omega)
  obtain ⟨c1, _, _, _⟩ := (hsvd A m n a2 hm0 hn0).leftOk ind r b2
  set U := leftCols (svd A).1 ind with hU
  have hsv : modeSv svd x k = (svd A).2.1 := by unfold modeSv; rw [a1]
  have hrow : ∀ i, InBox x.shape i → ravelF (entriesAt [k] x.shape) (entriesAt [k] i) = i.getD k 0 := by
    intro i _; simp [entriesAt, ravelF]
  have hnx : nsq x.shape x.get = sqSum m n (fun i j => A.get [i, j]) := by
    unfold nsq sqSum
    rw [hm, hn, ← matSum x.shape [k] (by simp) (by simpa using hkl)]
    apply sumBox_congr
    intro i hi
    beta_reduce
    rw [a3 i hi]; ring
  refine ⟨U, r, ?_, ?_, b4 hR0, b3, ?_, ?_, ?_⟩
  · unfold hosvdLeft rankAt
    rw [hR]
    simp only [a1, b1, bind, Except.bind]
    rfl
  · rw [c1.shape, hmk]
  · rw [← hmk]; exact c1.orth
  · rw [hsv, ← c1.err]
    unfold nsq sqSum
    rw [hm, hn, ← matSum x.shape [k] (by simp) (by simpa using hkl), ← hm]
    apply sumBox_congr
    intro i hi
    beta_reduce
    rw [a3 i hi, hrow i hi, ← pow_two]
    congr 2
    unfold modeP expandP
    refine sum_congr rfl (fun l _ => ?_)
    congr 1
    show ∑ a ∈ range (x.shape.getD k 0), U.get [(i.set k a).getD k 0, l] * x.get (i.set k a) = _
    rw [← hmk]
    refine sum_congr rfl (fun a ha => ?_)
    have hal := mem_range.1 ha
    have hset : (i.set k a).getD k 0 = a := by
      rw [Arr.getD_set, if_pos ⟨rfl, by rw [hi.length_eq]; exact hkl⟩]
    have hbox : InBox x.shape (i.set k a) := inBox_set hi (by rw [← hmk]; exact hal)
    have := a3 _ hbox
    rw [hrow _ hbox, hset, entriesOff_set [k] i k a (by simp)] at this
    rw [hset, this]
  · intro h1 h2
    have := b5 h1 h2
    rw [hsv, hnx, (hsvd A m n a2 hm0 hn0).sqSum]
    have hS : ∑ l ∈ range (min m n), (svd A).2.1.getD l 0 ^ 2 = ((svd A).2.1.map (· ^ 2)).sum := by
      have := sum_drop_eq (svd A).2.1 2 0 (by omega)
      simp only [List.drop_zero, Nat.not_lt_zero, if_false] at this
      rw [this, (hsvd A m n a2 hm0 hn0).len]
    rw [hS]; exact this

theorem modeP_proj (s : List Nat) (U : Arr ℝ) (r k : Nat) (hk : k < s.length)
    (ho : ∀ l l', l < r → l' < r → ∑ i ∈ range (s.getD k 0), U.get [i, l] * U.get [i, l'] = if l = l' then 1 else 0) :
    IsProj s (modeP s U r k) := by
  apply expandP_proj (by simpa using hk)
  intro l l' hl hl' i hi
  show ∑ a ∈ range (s.getD k 0), U.get [(i.set k a).getD k 0, l] * U.get [(i.set k a).getD k 0, l'] = _
  rw [← ho l l' hl hl']
  refine sum_congr rfl (fun a _ => ?_)
  rw [Arr.getD_set, if_pos ⟨rfl, by rw [hi.length_eq]; exact hk⟩]

/-- The projections along all the dimensions. -/
theorem comp_modeP (s : List Nat) (us : Nat → Arr ℝ) (r : Nat → Nat) (f : List Nat → ℝ) (i : List Nat) (hi : InBox s i) :
    comp ((List.range s.length).map (fun k => modeP s (us k) (r k) k)) f i =
      sumBox s (fun j => f j * ∏ k ∈ range s.length, ∑ l ∈ range (r k), (us k).get [i.getD k 0, l] * (us k).get [j.getD k 0, l]) := by
  have h := comp_modes (fun k a b => ∑ l ∈ range (r k), (us k).get [a, l] * (us k).get [b, l]) f s [] [] i rfl hi.length_eq
  simp only [List.nil_append, List.length_nil, zero_add] at h
  rw [← h, List.range_eq_range']
  have key : ∀ (L : List Nat) (i : List Nat), (∀ k ∈ L, k < s.length) → InBox s i →
      comp (L.map (fun k => modeP s (us k) (r k) k)) f i =
      comp (L.map (fun k h i => ∑ a ∈ range (s.getD k 0), (∑ l ∈ range (r k), (us k).get [i.getD k 0, l] * (us k).get [a, l]) * h (i.set k a))) f i := by
    intro L
    induction L with
    | nil => intro i _ _; rfl
    | cons k L ih =>
      intro i hL hi
      show modeP s (us k) (r k) k (comp (L.map _) f) i = ∑ a ∈ range (s.getD k 0), _ * comp (L.map _) f (i.set k a)
      unfold modeP expandP
      have e1 : ∀ l ∈ range (r k), (us k).get [i.getD k 0, l] * dSum s [k] (fun p => (us k).get [p.getD k 0, l] *
          comp (L.map (fun k => modeP s (us k) (r k) k)) f p) i =
          ∑ a ∈ range (s.getD k 0), (us k).get [i.getD k 0, l] * (us k).get [a, l] *
            comp (L.map (fun k h i => ∑ a ∈ range (s.getD k 0), (∑ l ∈ range (r k), (us k).get [i.getD k 0, l] * (us k).get [a, l]) * h (i.set k a))) f (i.set k a) := by
        intro l _
        show _ * ∑ a ∈ range (s.getD k 0), _ = _
        rw [mul_sum]
        refine sum_congr rfl (fun a ha => ?_)
        have hbox : InBox s (i.set k a) := inBox_set hi (mem_range.1 ha)
        show _ * ((us k).get [(i.set k a).getD k 0, l] * comp (L.map _) f (i.set k a)) = _
        rw [ih (i.set k a) (fun k' hk' => hL k' (by simp [hk'])) hbox, Arr.getD_set,
          if_pos ⟨rfl, by rw [hi.length_eq]; exact hL k (by simp)⟩]
        ring
      refine (sum_congr rfl e1).trans ?_
      rw [sum_comm]
      exact sum_congr rfl (fun a _ => by rw [sum_mul])
  exact key _ i (fun k hk => by simpa using hk) hi

theorem hosvdCore_eq (x : Arr ℝ) (us : List (Arr ℝ)) (h : us.length = x.order) :
    hosvdCore x us = FullTensor.tensorMatrixProduct x (us.map transp) (some (List.range x.order)) := by
  unfold hosvdCore FullTensor.tensorMatrixProduct
  rw [Option.getD_some, if_neg (by simp [h])]
  congr 1
  funext y p
  exact tmp_single y p.1 p.2

theorem trivial_children (d : Nat) (hd : 1 ≤ d) : (DTree.trivial d).children 1 = (DTree.trivial d).dim2ind := by
  apply children_eq_of_sorted ⟨le_rfl, by simp [DTree.trivial]⟩
  · exact List.pairwise_lt_range.map _ (fun a b h => by simpa using h)
  · intro j
    rw [(trivial_spec d hd).2.1]; simp

theorem trivial_root (d : Nat) (hd : 1 ≤ d) : (DTree.trivial d).root = .ok 1 ∧ IsRoot (DTree.trivial d) 1 := by
  have h1 : IsRoot (DTree.trivial d) 1 := by
    refine ⟨⟨le_rfl, by simp [DTree.trivial]⟩, ?_⟩
    intro i he
    have := ((trivial_spec d hd).2.1 i 1).1 he
    simp [DTree.trivial] at this
  obtain ⟨r, hr, hroot⟩ := root_ok (trivial_valid d hd)
  rw [root_unique (trivial_valid d hd) h1 hroot]
  exact ⟨hr, hroot⟩

theorem trivial_dimOf (d k : Nat) (hk : k < d) : dimOf (DTree.trivial d) (k + 2) = k := by
  unfold dimOf
  have hg : (DTree.trivial d).dim2ind[k]? = some (k + 2) := by simp [DTree.trivial, hk]
  have hnd : (DTree.trivial d).dim2ind.Nodup := by
    show ((List.range d).map (· + 2)).Nodup
    exact List.nodup_range.map (fun a b h => by simpa using h)
  have hl : k < (DTree.trivial d).dim2ind.length := by simpa [DTree.trivial] using hk
  have : (DTree.trivial d).dim2ind[k] = k + 2 := by
    rw [List.getElem?_eq_getElem hl] at hg; exact Option.some.inj hg
  rw [← this]
  exact hnd.idxOf_getElem k hl

/-- A tensor in Tucker format: the root tensor multiplied by the matrices of the leaves. -/
theorem trivial_full (d : Nat) (hd : 2 ≤ d) (core : Arr ℝ) (us : List (Arr ℝ)) (n r : Nat → Nat) (hu : us.length = d)
    (hus : ∀ k, k < d → (us.getD k ⟨[], fun _ => 0⟩).shape = [n k, r k]) (hn : ∀ k, k < d → 0 < n k) (hr : ∀ k, k < d → 0 < r k)
    (hc : core.shape = (List.range d).map r) :
    ∃ z a, mk (DTree.trivial d) (fun k => if k = 1 then core else us.getD (k - 2) ⟨[], fun _ => 0⟩) = .ok z ∧ WF z ∧
      z.tree = DTree.trivial d ∧
      z.tensors 1 = core ∧ (∀ k, k < d → z.tensors (k + 2) = us.getD k ⟨[], fun _ => 0⟩) ∧
      full z = .ok a ∧ a.shape = (List.range d).map n ∧ ∀ i, InBox ((List.range d).map n) i → a.get i =
        sumBox core.shape (fun t => (∏ k ∈ range d, (us.getD k ⟨[], fun _ => 0⟩).get [i.getD k 0, t.getD k 0]) * core.get t) := by
  set T := DTree.trivial d with hT
  set z : TBT ℝ := ⟨T, fun k => if k = 1 then core else us.getD (k - 2) ⟨[], fun _ => 0⟩⟩ with hz
  have hVl := trivial_valid d (by omega : 1 ≤ d)
  obtain ⟨hr1, hroot⟩ := trivial_root d (by omega)
  have hch := trivial_children d (by omega)
  have hd2 : T.dim2ind = (List.range d).map (· + 2) := rfl
  have hint : ∀ i, IsNode T i → i ∉ T.dim2ind → i = 1 := by
    intro i hi hl
    obtain ⟨h1, h2⟩ := hi
    by_contra hne
    apply hl
    rw [hd2]
    have h2' : i ≤ d + 1 := h2
    exact List.mem_map.2 ⟨i - 2, by rw [List.mem_range]; omega, by omega⟩
  have hten : ∀ k, k < d → z.tensors (k + 2) = us.getD k ⟨[], fun _ => 0⟩ := by
    intro k _
    show (if k + 2 = 1 then core else us.getD (k + 2 - 2) _) = _
    rw [if_neg (by omega), Nat.add_sub_cancel]
  have hsh : Shaped z T (fun _ => true) (fun i => r (i - 2)) (fun i => n (i - 2)) [] := by
    refine ⟨rfl, ?_, ?_, by simp, by simp, ?_, ?_, fun _ _ _ => rfl, ?_⟩
    · intro i hi hnr _
      by_cases hl : i ∈ T.dim2ind
      · rw [hd2] at hl
        obtain ⟨k, hk, rfl⟩ := List.mem_map.1 hl
        simpa using hr k (List.mem_range.1 hk)
      · exact absurd (hint i hi hl ▸ hroot) hnr
    · intro c hc
      rw [hd2] at hc
      obtain ⟨k, hk, rfl⟩ := List.mem_map.1 hc
      simpa using hn k (List.mem_range.1 hk)
    · intro c hc _
      rw [hd2] at hc
      obtain ⟨k, hk, rfl⟩ := List.mem_map.1 hc
      rw [hten k (List.mem_range.1 hk), hus k (List.mem_range.1 hk)]
      simp
    · intro c _ h; simp at h
    · intro i hi hl
      have := hint i hi hl
      subst this
      rw [if_pos hroot, hch, hd2]
      show core.shape = _
      rw [hc, List.map_map, List.append_nil]
      apply List.map_congr_left
      intro k _
      simp
  have hwf : WF z := hsh.wf hVl (by rw [hd2]; simpa using hd)
  have hmk : mk T (fun k => if k = 1 then core else us.getD (k - 2) ⟨[], fun _ => 0⟩) = .ok z := mk_wf hwf
  obtain ⟨V, hV⟩ := exists_value z hVl
  obtain ⟨a, f1, f2, f3⟩ := full_on z hwf hV.on hr1
  have hrl : (1 : Nat) ∉ T.dim2ind := by rw [hd2]; simp
  have hshape : z.shape = (List.range d).map n := by
    rw [hsh.shapeEq hVl (by rw [hd2]; simpa using hd), hd2, List.map_map]
    apply List.map_congr_left
    intro k _; simp
  have hrs : rankShape z 1 = [] := hsh.rankShape_root hroot hrl
  refine ⟨z, a, hmk, hwf, rfl, rfl, hten, f1, by rw [f2, hshape, hrs, List.append_nil], ?_⟩
  intro i hi
  rw [← hshape] at hi
  have h3 := f3 i [] hi (by rw [hrs]; simp)
  rw [List.append_nil] at h3
  rw [h3, hV.node 1 hroot.1 hrl]
  have hact : ∀ c ∈ T.dim2ind, z.active c = true := fun c hc => hsh.active hVl (by rw [hd2]; simpa using hd) ((hVl.leaves c).1 hc).1
  show childSum z V i (T.children 1) _ = _
  rw [hch, childSum_box z V i T.dim2ind (fun c hc h => absurd (hact c hc) h)]
  have hcs : T.dim2ind.map (childSize z) = core.shape := by
    rw [hc, hd2, List.map_map]
    apply List.map_congr_left
    intro k hk
    have hk' := List.mem_range.1 hk
    show childSize z (k + 2) = r k
    have hm : k + 2 ∈ T.dim2ind := by rw [hd2]; exact List.mem_map.2 ⟨k, hk, rfl⟩
    rw [hsh.childSize hVl (by rw [hd2]; simpa using hd) ((hVl.leaves _).1 hm).1
      (fun h => by have h' : k + 2 = 1 := root_unique hVl h hroot; omega)]
    simp
  rw [hcs]
  apply sumBox_congr
  intro t htb
  have htl : t.length = d := by rw [htb.length_eq, hc]; simp
  congr 1
  · unfold childProd
    rw [zipWith_prod _ 0 0 _ _ d (by rw [hd2]; simp) htl]
    refine prod_congr rfl (fun k hk => ?_)
    have hk' := mem_range.1 hk
    have hg : T.dim2ind.getD k 0 = k + 2 := by
      rw [hd2, List.getD_eq_getElem _ _ (by simpa using hk'), List.getElem_map, List.getElem_range]
    have hm : k + 2 ∈ T.dim2ind := by rw [hd2]; exact List.mem_map.2 ⟨k, by simpa using hk', rfl⟩
    rw [hg]
    unfold childVal
    rw [if_pos (hact _ hm), hV.leaf _ hm (hact _ hm), hten k hk']
    show _ = _
    rw [trivial_dimOf d k hk']
  · rw [List.append_nil]; rfl

theorem entriesAt_range (l : List Nat) : entriesAt (List.range l.length) l = l := by
  apply ext_getD (by simp [entriesAt])
  intro k hk
  have hk' : k < l.length := by simpa [entriesAt] using hk
  unfold entriesAt
  rw [List.getD_eq_getElem _ _ (by simpa using hk'), List.getElem_map, List.getElem_range]

theorem subst_range (l j : List Nat) (h : j.length = l.length) : subst l (List.range l.length) j = j := by
  apply ext_getD (by simp [subst, h])
  intro k hk
  have hk' : k < l.length := by simpa [subst] using hk
  rw [FullTensor.getD_subst _ _ _ _ hk', if_pos (by simpa using hk')]
  congr 1
  have := (List.nodup_range (n := l.length)).idxOf_getElem k (by simpa using hk')
  rwa [List.getElem_range] at this

theorem ranksFor_get (mr : List (Option Nat)) (d : Nat) (h : mr.length = 1 ∨ mr.length = d) (k : Nat) (hk : k < d) :
    (ranksFor mr d)[k]? = some (if mr.length = 1 then mr.getD 0 none else mr.getD k none) := by
  unfold ranksFor
  match mr, h with
  | [r], _ => simp [hk]
  | [], h => simp at h; omega
  | a :: b :: l, h =>
    have hl : (a :: b :: l).length = d := by rcases h with h | h; · simp at h
                                             · exact h
    rw [if_neg (by simp)]
    show (a :: b :: l)[k]? = _
    rw [List.getElem?_eq_getElem (by omega), List.getD_eq_getElem _ _ (by omega)]

/-- C65. `hosvd` of a tensor of order at least three (or two), without thresholding, with a maximal rank or one per
dimension (`none`: infinity; not zero). The result is a tree-based tensor with the trivial tree, of the shape of the tensor;
the matrices of its leaves have orthonormal columns and their numbers `r k` respect the maximal ranks; its squared distance
to the tensor is at most the sum over the dimensions of the squares of the discarded singular values; without maximal rank
the discarded part of each dimension is at most `tolerance² / order` times the squared norm. `m'`, the attribute `max_rank`
of the truncator after the call, is the maximal rank of the last dimension. -/
theorem hosvd_spec (svd : Svd) (hsvd : SvdOk svd) (t : Truncator) (ht : t.param = none ∨ t.param = some 0)
    (mr : List (Option Nat)) (x : Arr ℝ) (hx : ∀ n ∈ x.shape, 0 < n) (ho : 2 ≤ x.order)
    (hmr : mr.length = 1 ∨ mr.length = x.order) (hmr0 : ∀ q ∈ mr, q ≠ some 0) :
    ∃ (z : TBT ℝ) (a : Arr ℝ) (m' : List (Option Nat)) (r : Nat → Nat), hosvd svd t mr x = .ok (z, m') ∧
      m' = [mr.getD (if mr.length = 1 then 0 else x.order - 1) none] ∧ WF z ∧ z.tree = DTree.trivial x.order ∧
      full z = .ok a ∧ a.shape = x.shape ∧
      (∀ k, k < x.order → (z.tensors (k + 2)).shape = [x.shape.getD k 0, r k] ∧ 1 ≤ r k ∧
        (∀ q, mr.getD (if mr.length = 1 then 0 else k) none = some q → r k ≤ q) ∧
        ∀ l l', l < r k → l' < r k →
          ∑ i ∈ range (x.shape.getD k 0), (z.tensors (k + 2)).get [i, l] * (z.tensors (k + 2)).get [i, l'] = if l = l' then 1 else 0) ∧
      sumBox x.shape (fun i => (x.get i - a.get i) ^ 2) ≤
        ∑ k ∈ range x.order, (((modeSv svd x k).drop (r k)).map (· ^ 2)).sum ∧
      (0 ≤ t.tolerance → (∀ q ∈ mr, q = none) → ∀ k, k < x.order →
        (((modeSv svd x k).drop (r k)).map (· ^ 2)).sum ≤ t.tolerance ^ 2 / x.order * sumBox x.shape (fun i => x.get i ^ 2)) := by
  have hlen : x.shape.length = x.order := rfl
  set tol := t.tolerance / Real.sqrt x.order with htol
  have hget : ∀ k, k < x.order → ∃ R, (ranksFor mr x.order)[k]? = some R ∧ R ≠ some 0 ∧
      R = mr.getD (if mr.length = 1 then 0 else k) none ∧ R ∈ mr := by
    intro k hk
    refine ⟨_, ranksFor_get mr x.order hmr k hk, ?_⟩
    by_cases h1 : mr.length = 1
    · rw [if_pos h1, if_pos h1]
      have : mr.getD 0 none ∈ mr := by rw [List.getD_eq_getElem _ _ (by omega)]; exact List.getElem_mem _
      exact ⟨hmr0 _ this, rfl, this⟩
    · rw [if_neg h1, if_neg h1]
      have hl : mr.length = x.order := by omega
      have : mr.getD k none ∈ mr := by rw [List.getD_eq_getElem _ _ (by omega)]; exact List.getElem_mem _
      exact ⟨hmr0 _ this, rfl, this⟩
  have key : ∀ k, ∃ U r, k < x.order → hosvdLeft svd t (ranksFor mr x.order) tol x k = .ok U ∧ U.shape = [x.shape.getD k 0, r] ∧
      1 ≤ r ∧ (∀ q, mr.getD (if mr.length = 1 then 0 else k) none = some q → r ≤ q) ∧
      (∀ l l', l < r → l' < r → ∑ i ∈ range (x.shape.getD k 0), U.get [i, l] * U.get [i, l'] = if l = l' then 1 else 0) ∧
      nsq x.shape (fun i => x.get i - modeP x.shape U r k x.get i) = (((modeSv svd x k).drop r).map (· ^ 2)).sum ∧
      ((∀ q ∈ mr, q = none) → 0 ≤ tol → (((modeSv svd x k).drop r).map (· ^ 2)).sum ≤ tol ^ 2 * nsq x.shape x.get) := by
    intro k
    by_cases hk : k < x.order
    · obtain ⟨R, h1, h2, h3, h4⟩ := hget k hk
      obtain ⟨U, r, g1, g2, g3, g4, g5, g6, g7⟩ := hosvdLeft_spec svd hsvd t ht (ranksFor mr x.order) tol x hx k hk R h1 h2
      exact ⟨U, r, fun _ => ⟨g1, g2, g3, fun q hq => g4 q (h3.trans hq), g5, g6, fun hq => g7 (hq R h4)⟩⟩
    · exact ⟨⟨[], fun _ => 0⟩, 0, fun h => absurd h hk⟩
  choose U r hU using key
  set us := (List.range x.order).map U with hus
  have hul : us.length = x.order := by rw [hus]; simp
  have hug : ∀ k, k < x.order → us.getD k ⟨[], fun _ => 0⟩ = U k := by
    intro k hk
    rw [hus, List.getD_eq_getElem _ _ (by simpa using hk), List.getElem_map, List.getElem_range]
  have hmap : (List.range x.order).mapM (hosvdLeft svd t (ranksFor mr x.order) tol x) = .ok us := by
    rw [mapM_ok_iff, hus, List.forall₂_map_right_iff, List.forall₂_same]
    exact fun k hk => (hU k (List.mem_range.1 hk)).1
  -- the core
  have hfit : List.Forall₂ (fun M d => FullTensor.Fits x M d) (us.map transp) (List.range x.order) := by
    rw [hus, List.map_map, List.forall₂_map_left_iff, List.forall₂_same]
    intro k hk
    have hk' := List.mem_range.1 hk
    refine ⟨hk', r k, ?_⟩
    show (transp (U k)).shape = _
    unfold transp
    rw [(hU k hk').2.1]
    rfl
  obtain ⟨core, c1, c2, c3⟩ := FullTensor.tensorMatrixProduct_spec x (us.map transp) (List.range x.order) List.nodup_range hfit
  have hcs : core.shape = (List.range x.order).map r := by
    rw [c2, ← hlen, subst_range _ _ (by simp [hul, hlen]), hus, List.map_map, List.map_map]
    apply List.map_congr_left
    intro k hk
    show (transp (U k)).shape.getD 0 0 = r k
    unfold transp
    rw [(hU k (List.mem_range.1 hk)).2.1]
    rfl
  have hcg : ∀ tt, InBox core.shape tt → core.get tt = sumBox x.shape (fun j => x.get j * ∏ k ∈ range x.order, (U k).get [j.getD k 0, tt.getD k 0]) := by
    intro tt htt
    have htl : tt.length = x.order := by rw [htt.length_eq, hcs]; simp
    rw [c3 tt htt]
    have e1 : entriesAt (List.range x.order) x.shape = x.shape := by rw [← hlen]; exact entriesAt_range _
    have e2 : entriesAt (List.range x.order) tt = tt := by rw [← htl]; exact entriesAt_range _
    rw [e1, e2]
    apply sumBox_congr
    intro j hj
    have hjl : j.length = x.order := hj.length_eq
    have e3 : subst tt (List.range x.order) j = j := by rw [← htl]; exact subst_range _ _ (by omega)
    rw [e3, zipWith_prod _ ⟨[], fun _ => 0⟩ (0, 0) _ _ x.order (by simp [hul]) (by simp [htl, hjl])]
    congr 1
    refine prod_congr rfl (fun k hk => ?_)
    have hk' := mem_range.1 hk
    have e4 : (us.map transp).getD k ⟨[], fun _ => 0⟩ = transp (U k) := by
      rw [List.getD_eq_getElem _ _ (by simpa [hul] using hk'), List.getElem_map, ← hug k hk',
        List.getD_eq_getElem _ _ (by omega)]
    have e5 : (tt.zip j).getD k (0, 0) = (tt.getD k 0, j.getD k 0) := by
      rw [List.getD_eq_getElem _ _ (by simp [htl, hjl, hk']), List.getElem_zip, List.getD_eq_getElem _ _ (by omega),
        List.getD_eq_getElem _ _ (by omega)]
    rw [e4, e5]
    rfl
  have hpos : ∀ k, k < x.order → 0 < x.shape.getD k 0 := by
    intro k hk
    rw [List.getD_eq_getElem _ _ hk]; exact hx _ (List.getElem_mem _)
  obtain ⟨z, a, m1, m2, m3, m4, m5, m6, m7, m8⟩ := trivial_full x.order ho core us (fun k => x.shape.getD k 0) r hul
    (fun k hk => by rw [hug k hk]; exact (hU k hk).2.1) hpos (fun k hk => (hU k hk).2.2.1) hcs
  have hshape : (List.range x.order).map (fun k => x.shape.getD k 0) = x.shape := entriesAt_range x.shape
  rw [hshape] at m7 m8
  have hval : ∀ i, InBox x.shape i → a.get i = comp ((List.range x.shape.length).map (fun k => modeP x.shape (U k) (r k) k)) x.get i := by
    intro i hi
    rw [m8 i hi, comp_modeP x.shape U r x.get i hi]
    have e1 : sumBox core.shape (fun tt => (∏ k ∈ range x.order, (us.getD k ⟨[], fun _ => 0⟩).get [i.getD k 0, tt.getD k 0]) * core.get tt) =
        sumBox core.shape (fun tt => sumBox x.shape (fun j => x.get j *
          ∏ k ∈ range core.shape.length, (U k).get [i.getD k 0, tt.getD k 0] * (U k).get [j.getD k 0, tt.getD k 0])) := by
      apply sumBox_congr
      intro tt htt
      rw [hcg tt htt, ← sumBox_mul_left]
      apply sumBox_congr
      intro j _
      have : core.shape.length = x.order := by rw [hcs]; simp
      rw [this, prod_mul_distrib, prod_congr rfl (fun k hk => by rw [hug k (mem_range.1 hk)])]
      ring
    rw [e1, sumBox_comm]
    apply sumBox_congr
    intro j _
    rw [sumBox_mul_left, sumBox_prodF core.shape (fun k l => (U k).get [i.getD k 0, l] * (U k).get [j.getD k 0, l])]
    have hcl : core.shape.length = x.shape.length := by rw [hcs]; simp [hlen]
    rw [hcl]
    congr 1
    refine prod_congr rfl (fun k hk => ?_)
    have : core.shape.getD k 0 = r k := by
      have hk' : k < x.order := mem_range.1 hk
      rw [hcs, List.getD_eq_getElem _ _ (by simpa using hk'), List.getElem_map, List.getElem_range]
    rw [this]
  have hsq : ∀ f : List Nat → ℝ, sumBox x.shape (fun i => f i ^ 2) = nsq x.shape f := fun f => sumBox_congr (fun i _ => by ring)
  refine ⟨z, a, if x.order = 0 then mr else [((ranksFor mr x.order).getD (x.order - 1) none)], r, ?_, ?_, m2, m3, m6, m7, ?_, ?_, ?_⟩
  · unfold hosvd
    rw [← htol]
    dsimp only
    rw [hmap]
    simp only [bind, Except.bind]
    rw [hosvdCore_eq x us hul, c1]
    simp only [m1]
  · rw [if_neg (by omega)]
    have := ranksFor_get mr x.order hmr (x.order - 1) (by omega)
    rw [List.getD_eq_getElem?_getD, this]
    split <;> rfl
  · intro k hk
    rw [m5 k hk, hug k hk]
    obtain ⟨_, g2, g3, g4, g5, _, _⟩ := hU k hk
    exact ⟨g2, g3, g4, g5⟩
  · rw [hsq (fun i => x.get i - a.get i), nsq_congr (fun i hi => by rw [hval i hi])]
    have hch := chain x.shape ((List.range x.shape.length).map (fun k => modeP x.shape (U k) (r k) k)) (by
      intro P hP
      obtain ⟨k, hk, rfl⟩ := List.mem_map.1 hP
      have hk' := List.mem_range.1 hk
      exact modeP_proj _ _ _ _ hk' (hU k hk').2.2.2.2.1) x.get
    refine hch.trans (le_of_eq ?_)
    rw [List.map_map, Grids.list_sum_range]
    exact sum_congr rfl (fun k hk => (hU k (mem_range.1 hk)).2.2.2.2.2.1)
  · intro h0 hq k hk
    have h1 : 0 ≤ tol := div_nonneg h0 (Real.sqrt_nonneg _)
    refine ((hU k hk).2.2.2.2.2.2 hq h1).trans (le_of_eq ?_)
    rw [hsq, htol, div_pow, Real.sq_sqrt (by positivity)]

/-- C65. Without maximal rank, the error of `hosvd` relative to the norm of the tensor is at most the tolerance. -/
theorem hosvd_error (svd : Svd) (hsvd : SvdOk svd) (t : Truncator) (ht : t.param = none ∨ t.param = some 0)
    (htol : 0 ≤ t.tolerance) (x : Arr ℝ) (hx : ∀ n ∈ x.shape, 0 < n) (ho : 2 ≤ x.order) :
    ∃ z a m', hosvd svd t [none] x = .ok (z, m') ∧ m' = [none] ∧ full z = .ok a ∧ a.shape = x.shape ∧
      sumBox x.shape (fun i => (x.get i - a.get i) ^ 2) ≤ t.tolerance ^ 2 * sumBox x.shape (fun i => x.get i ^ 2) := by
  obtain ⟨z, a, m', r, h1, h2, h3, h4, h5, h6, h7, h8, h9⟩ := hosvd_spec svd hsvd t ht [none] x hx ho (by simp) (by simp)
  refine ⟨z, a, m', h1, h2, h5, h6, h8.trans ?_⟩
  have hb := h9 htol (by simp)
  refine (sum_le_sum (fun k hk => hb k (mem_range.1 hk))).trans (le_of_eq ?_)
  rw [sum_const, card_range, nsmul_eq_mul]
  have : (x.order : ℝ) ≠ 0 := by
    have : x.order ≠ 0 := by omega
    exact_mod_cast this
  field_simp

/-- `full()` of a truncated tensor. -/
noncomputable def denseOf : Truncated → Py (Arr ℝ)
  | .canonical c => Canonical.full c
  | .tree z => full z

/-- C65. `truncate` of a dense tensor: an order below two is refused; without maximal rank and thresholding, the result (a
canonical tensor for a matrix that is not zero, a tree-based tensor otherwise) is at a relative distance at most the
tolerance. -/
theorem truncate_error (svd : Svd) (hsvd : SvdOk svd) (t : Truncator) (ht : t.param = none ∨ t.param = some 0)
    (hmr : t.maxRank = none) (htol : 0 ≤ t.tolerance) (x : Arr ℝ) (hx : ∀ n ∈ x.shape, 0 < n) :
    (x.order < 2 → truncate svd t x = .error .valueError) ∧
    (2 ≤ x.order → (x.order = 2 → ∃ i, InBox x.shape i ∧ x.get i ≠ 0) → ∃ (y : Truncated) (a : Arr ℝ), truncate svd t x = .ok y ∧
      denseOf y = .ok a ∧ a.shape = x.shape ∧
      sumBox x.shape (fun i => (x.get i - a.get i) ^ 2) ≤ t.tolerance ^ 2 * sumBox x.shape (fun i => x.get i ^ 2)) := by
  constructor
  · intro h
    unfold truncate
    rw [if_neg (by omega), if_neg (by omega)]
  · intro h2 hne
    by_cases ho : x.order = 2
    · obtain ⟨m, n, hs⟩ : ∃ m n, x.shape = [m, n] := by
        have : x.shape.length = 2 := ho
        match hsh : x.shape, this with
        | [m, n], _ => exact ⟨m, n, rfl⟩
      obtain ⟨i, hi, hi0⟩ := hne ho
      rw [hs] at hi
      have h0 : ∃ i j, i < m ∧ j < n ∧ x.get [i, j] ≠ 0 := by
        match i, hi with
        | [i, j], hi =>
          simp at hi
          exact ⟨i, j, hi.1, hi.2, hi0⟩
        | [], hi => simp at hi
        | [_], hi => simp at hi
        | _ :: _ :: _ :: _, hi => simp at hi
      obtain ⟨c, a, c1, c2, c3, c4⟩ := truncSvd_error svd hsvd t ht hmr x m n hs h0 t.tolerance htol
      have hss : ∀ f : Nat → Nat → ℝ, sqSum m n f = sumBox [m, n] (fun i => f (i.getD 0 0) (i.getD 1 0) ^ 2) := by
        intro f; simp [sqSum, sumBox]
      have hpair : ∀ i, InBox [m, n] i → [i.getD 0 0, i.getD 1 0] = i := by
        intro i hi
        match i, hi with
        | [i, j], hi => rfl
        | [], hi => simp at hi
        | [_], hi => simp at hi
        | _ :: _ :: _ :: _, hi => simp at hi
      refine ⟨.canonical c, a, ?_, c2, by rw [c3, hs], ?_⟩
      · unfold truncate
        rw [if_pos ho]
        have : truncSvd svd t x = truncSvd svd t x (some t.tolerance) := rfl
        rw [this, c1]; rfl
      · rw [hss, hss] at c4
        rw [hs]
        refine le_trans (le_of_eq ?_) (c4.trans (le_of_eq ?_))
        · exact sumBox_congr (fun i hi => by rw [hpair i hi])
        · congr 1
    · obtain ⟨z, a, m', h1, _, h3, h4, h5⟩ := hosvd_error svd hsvd t ht htol x hx h2
      refine ⟨.tree z, a, ?_, h3, h4, h5⟩
      unfold truncate
      rw [if_neg ho, if_pos (by omega), hmr, h1]
      rfl

/-- The hypotheses are met: a tensor of order three and an exact singular value decomposition. -/
example : ∃ svd : Svd, SvdOk svd ∧ ∃ z a m', hosvd svd ⟨1 / 10, none, .hard, none⟩ [none]
    (⟨[2, 3, 2], fun i => (i.getD 0 0 : ℝ) + i.getD 1 0 * i.getD 2 0⟩) = .ok (z, m') ∧ full z = .ok a ∧ a.shape = [2, 3, 2] := by
  obtain ⟨svd, h⟩ := exists_svd
  obtain ⟨z, a, m', h1, _, h3, h4, _⟩ := hosvd_error svd h ⟨1 / 10, none, .hard, none⟩ (Or.inl rfl) (by norm_num)
    (⟨[2, 3, 2], fun i => (i.getD 0 0 : ℝ) + i.getD 1 0 * i.getD 2 0⟩) (by simp) (by simp [Arr.order])
  exact ⟨svd, h, z, a, m', h1, h3, h4⟩

end Verif.Truncation
