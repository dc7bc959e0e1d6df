import Verif.Props.Canonical

/-!
# Properties of `CanonicalTensor`: contractions, inner product, diagonal (C31, C32, C33)
-/

namespace Verif.Canonical

open Verif.Arr Finset Verif.Sparse Verif.Diagonal

variable {R : Type}

/-- The factor number `k`. -/
def fac [Zero R] (space : List (Arr R)) (k : Nat) : Arr R := space.getD k ⟨[], fun _ => 0⟩

theorem fac_eq [Zero R] {space : List (Arr R)} {k : Nat} (h : k < space.length) : fac space k = space[k] := by
  unfold fac; rw [List.getD_eq_getElem _ _ h]

theorem term_eq_range [CommSemiring R] {space : List (Arr R)} {idx : List Nat} (h : idx.length = space.length) (i : Nat) :
    term space idx i = ((List.range space.length).map (fun k => (fac space k).get [idx.getD k 0, i])).prod := by
  unfold term
  congr 1
  apply List.ext_getElem (by simp [h])
  intro k h1 h2
  have hk : k < space.length := by simpa using h2
  simp only [List.getElem_zipWith, List.getElem_map, List.getElem_range]
  rw [fac_eq hk, List.getD_eq_getElem _ _ (by omega)]

theorem core_fold [CommSemiring R] (space : List (Arr R)) (ds : List Nat) (c : List R) :
    (ds.foldl (fun (c : List R) d => (List.range c.length).map (fun i => c.getD i 0 *
      (space.getD d ⟨[], fun _ => 0⟩).get [0, i])) c).length = c.length ∧
    ∀ i, i < c.length → (ds.foldl (fun (c : List R) d => (List.range c.length).map (fun i => c.getD i 0 *
      (space.getD d ⟨[], fun _ => 0⟩).get [0, i])) c).getD i 0 = c.getD i 0 * (ds.map (fun d => (fac space d).get [0, i])).prod := by
  induction ds generalizing c with
  | nil => simp
  | cons d ds ih =>
    rw [List.foldl_cons]
    obtain ⟨h1, h2⟩ := ih ((List.range c.length).map (fun i => c.getD i 0 * (space.getD d ⟨[], fun _ => 0⟩).get [0, i]))
    rw [List.length_map, List.length_range] at h1 h2
    refine ⟨h1, fun i hi => ?_⟩
    rw [h2 i hi, List.getD_eq_getElem (List.map _ _) _ (by simpa using hi), List.getElem_map, List.getElem_range,
      List.map_cons, List.prod_cons, mul_assoc]
    rfl

/-- The result of a contraction represents the array `g`: a canonical tensor whose `full()` is `g`, or the array `g`
itself. -/
def RepRes [CommSemiring R] (r : Res R) (g : Arr R) : Prop :=
  match r with
  | .tensor z => Rep z g
  | .array a => a ≃ₐ g

theorem squeeze_spec [CommSemiring R] (x : Cn R) (f : Arr R) (hx : Rep x f) (dims : List Nat) (hnd : dims.Nodup)
    (hlt : ∀ k ∈ dims, k < f.order) (h1 : ∀ k ∈ dims, f.shape.getD k 0 = 1) :
    ∃ r g, squeeze x dims = .ok r ∧ FullTensor.squeezeT f dims = .ok g ∧ RepRes r g ∧
      (dims.length < x.order → ∃ z, r = .tensor z ∧ z.core.length = x.core.length) ∧
      (dims.length = x.order → ∃ a, r = .array a ∧ a.shape = []) := by
  have wx := hx.1
  obtain ⟨hfs, hfg⟩ := (rep_iff wx).1 hx
  have hord : f.order = x.order := by show f.shape.length = _; rw [hfs]; simp [Cn.shape, Cn.order]
  obtain ⟨g, hg1, hg2, hg3⟩ := FullTensor.squeezeT_spec f dims hlt h1
  have hltx : ∀ k ∈ dims, k < x.order := fun k hk => hord ▸ hlt k hk
  have hsq : squeeze x dims = squeeze x dims := rfl
  conv_rhs at hsq => rw [squeeze, if_neg (by simpa using hltx), if_neg (by rw [← hfs]; simpa using h1)]
  dsimp only at hsq
  have hps : (dims.insertionSort (· ≤ ·)).Perm dims := List.perm_insertionSort _ _
  set ds := dims.insertionSort (· ≤ ·) with hds
  have hsd : FullTensor.setdiffRange x.order ds = FullTensor.setdiffRange x.order dims := by
    unfold FullTensor.setdiffRange
    apply List.filter_congr
    intro k _
    simp [hps.mem_iff]
  rw [hsd] at hsq
  have hlen := length_setdiffRange hnd hltx
  have hpos : ∀ k ∈ dims, 0 < f.shape.getD k 0 := fun k hk => by rw [h1 k hk]; exact Nat.one_pos
  by_cases hrem : FullTensor.setdiffRange x.order dims = []
  · rw [if_pos hrem] at hsq
    have hdl : dims.length = x.order := by rw [hrem] at hlen; simpa using hlen
    obtain ⟨_, y, hy, hys, hyg⟩ := hx
    rw [hy] at hsq
    simp only [bind, Except.bind] at hsq
    have hall : ∀ k, k < f.order → f.shape.getD k 0 = 1 := by
      intro k hk
      apply h1
      by_contra hn
      have : k ∈ FullTensor.setdiffRange x.order dims := mem_setdiffRange.2 ⟨hord ▸ hk, hn⟩
      rw [hrem] at this; simp at this
    have hfil : (List.range y.order).filter (fun k => y.shape.getD k 0 = 1) = List.range y.order := by
      rw [List.filter_eq_self]
      intro k hk
      have hk' : k < f.order := by
        have := List.mem_range.1 hk
        unfold Arr.order at this ⊢
        rw [← hys]; exact this
      simpa [hys] using hall k hk'
    rw [hfil] at hsq
    obtain ⟨g', hg1', hg2', hg3'⟩ := FullTensor.squeezeT_spec y (List.range y.order) (by simp) (by
      intro k hk
      rw [hys]
      refine hall k ?_
      have := List.mem_range.1 hk
      unfold Arr.order at this ⊢
      rw [← hys]; exact this)
    have hgy : y.squeeze (List.range y.order) = g' := by
      unfold FullTensor.squeezeT at hg1'
      split at hg1'
      · simpa using hg1'
      · simp at hg1'
    have hoff : ∀ (v : List Nat), v.length = y.order → entriesOff (List.range y.order) v = [] := by
      intro v hv
      unfold entriesOff
      rw [hv]; simp
    have hoff2 : ∀ (v : List Nat), v.length = f.order → entriesOff dims v = [] := by
      intro v hv
      rw [entriesOff_eq_applyPerm, hv, hord, hrem]; rfl
    refine ⟨_, g, hsq, hg1, ?_, fun h => absurd h (by omega), fun _ => ⟨_, rfl, ?_⟩⟩
    · show y.squeeze (List.range y.order) ≃ₐ g
      rw [hgy]
      have e1 : g'.shape = [] := by rw [hg2']; exact hoff _ rfl
      have e2 : g.shape = [] := by rw [hg2]; exact hoff2 _ rfl
      refine ⟨by rw [e1, e2], fun idx hi => ?_⟩
      have hnil : idx = [] := by have := hi.length_eq; rw [e1] at this; exact List.length_eq_zero_iff.1 this
      subst hnil
      have hz : InBox f.shape (List.replicate f.order 0) := by
        rw [inBox_iff_getD]
        refine ⟨by simp [Arr.order], fun k hk => ?_⟩
        rw [hall k hk, List.getD_replicate _ (show k < f.order from hk)]
        exact Nat.one_pos
      have a1 := hg3' _ (hys ▸ hz)
      have a2 := hg3 _ hz
      rw [hoff _ (by rw [List.length_replicate]; unfold Arr.order; rw [hys])] at a1
      rw [hoff2 _ (by simp)] at a2
      rw [a1, a2, hyg _ (hys ▸ hz)]
    · rw [hgy, hg2']; exact hoff _ rfl
  · rw [if_neg hrem] at hsq
    have hnl : dims.length < x.order := by
      have : 0 < (FullTensor.setdiffRange x.order dims).length := List.length_pos_iff.2 hrem
      omega
    obtain ⟨hc1, hc2⟩ := core_fold x.space ds x.core
    refine ⟨_, g, hsq, hg1, ?_, fun _ => ⟨_, rfl, hc1⟩, fun h => absurd h (by omega)⟩
    show Rep _ g
    have hmem : ∀ k ∈ FullTensor.setdiffRange x.order dims, k < x.space.length := fun k hk => (mem_setdiffRange.1 hk).1
    have wz : WF (⟨(FullTensor.setdiffRange x.order dims).map (fun k => x.space.getD k ⟨[], fun _ => 0⟩),
        ds.foldl (fun (c : List R) d => (List.range c.length).map (fun i => c.getD i 0 *
          (x.space.getD d ⟨[], fun _ => 0⟩).get [0, i])) x.core⟩ : Cn R) := by
      refine ⟨by simpa using hrem, fun M hM => ?_⟩
      obtain ⟨k, hk, rfl⟩ := List.mem_map.1 hM
      show ∃ n, _ = [n, List.length _]
      rw [hc1]
      refine wx.cols _ ?_
      rw [List.getD_eq_getElem _ _ (hmem k hk)]
      exact List.getElem_mem _
    have hshape : entriesOff dims f.shape = (FullTensor.setdiffRange x.order dims).map
        (fun k => (x.space.getD k ⟨[], fun _ => 0⟩ : Arr R).shape.getD 0 0) := by
      rw [entriesOff_eq_applyPerm, show f.shape.length = x.order from hord]
      unfold applyPerm
      apply List.map_congr_left
      intro k hk
      have hk := hmem k hk
      rw [hfs]
      unfold Cn.shape
      rw [List.getD_eq_getElem (x.space.map _) _ (by simpa using hk), List.getElem_map, List.getD_eq_getElem x.space _ hk]
    refine (rep_iff wz).2 ⟨?_, ?_⟩
    · rw [hg2, hshape]; simp only [Cn.shape, List.map_map]; rfl
    · intro jdx hj
      have hj' : InBox (entriesOff dims f.shape) jdx := by
        rw [hshape]; simp only [Cn.shape, List.map_map] at hj; exact hj
      obtain ⟨idx, hi, rfl⟩ := exists_entriesOff hnd hlt hpos hj'
      have hil : idx.length = x.order := by rw [hi.length_eq]; exact hord
      rw [hg3 idx hi, hfg idx (hfs ▸ hi)]
      show _ = ∑ i ∈ range (List.length _), _
      rw [hc1]
      apply sum_congr rfl
      intro i hi'
      show _ = List.getD _ i 0 * _
      rw [hc2 i (mem_range.1 hi'), mul_assoc]
      congr 1
      rw [term_eq_range (by exact hil), show x.space.length = x.order from rfl, ((dims_append_perm hnd hltx).symm.map _).prod_eq, List.map_append, List.prod_append,
        (hps.map _).prod_eq]
      congr 1
      · congr 1
        apply List.map_congr_left
        intro k hk
        have := ((inBox_iff_getD _ _).1 hi).2 k (hlt k hk)
        rw [h1 k hk] at this
        rw [show idx.getD k 0 = 0 by omega]
      · unfold term
        congr 1
        rw [entriesOff_eq_applyPerm, hil]
        unfold applyPerm
        apply List.ext_getElem (by simp)
        intro k a b
        simp only [List.getElem_map, List.getElem_zipWith]
        rfl

/-- `tensor_vector_product(vectors, dims)` is the dense contraction; contracting every dimension gives the value as a
scalar (an array of shape `()`). -/
theorem tensorVectorProduct_spec [CommSemiring R] (x : Cn R) (f : Arr R) (hx : Rep x f) (vs : List (Arr R))
    (dims : List Nat) (hnd : dims.Nodup)
    (hfit : List.Forall₂ (fun (v : Arr R) d => d < f.order ∧ v.shape = [f.shape.getD d 0]) vs dims) :
    ∃ r g, tensorVectorProduct x vs (some dims) = .ok r ∧ FullTensor.tensorVectorProduct f vs (some dims) = .ok g ∧
      RepRes r g ∧ (dims.length < x.order → ∃ z, r = .tensor z ∧ z.core.length = x.core.length) ∧
      (dims.length = x.order → ∃ a, r = .array a ∧ a.shape = []) := by
  have hfit' : List.Forall₂ (fun M d => FullTensor.Fits f M d) (vs.map FullTensor.rowMatrix) dims := by
    rw [List.forall₂_map_left_iff]
    refine hfit.imp ?_
    rintro v d ⟨h1, h2⟩
    exact ⟨h1, 1, by simp [FullTensor.rowMatrix, reshapeF, h2]⟩
  obtain ⟨z, t, hz, ht, hrep, hcore⟩ := tensorMatrixProduct_spec x f hx _ dims hnd hfit'
  obtain ⟨t', ht', hts, _⟩ := FullTensor.tensorMatrixProduct_spec f (vs.map FullTensor.rowMatrix) dims hnd hfit'
  rw [ht] at ht'; cases ht'
  have hlt : ∀ k ∈ dims, k < f.order := by
    intro k hk
    obtain ⟨i, hi, rfl⟩ := List.getElem_of_mem hk
    have := List.forall₂_iff_get.1 hfit
    exact (this.2 i (by rw [this.1]; exact hi) hi).1
  have hto : t.order = f.order := by show t.shape.length = _; rw [hts, FullTensor.subst_length]; rfl
  have hones : ∀ k ∈ dims, t.shape.getD k 0 = 1 := by
    intro k hk
    rw [hts, FullTensor.getD_subst _ _ _ _ (hlt k hk), if_pos hk]
    have hi : dims.idxOf k < vs.length := by rw [hfit.length_eq]; exact List.idxOf_lt_length_of_mem hk
    rw [List.getD_eq_getElem _ _ (by simpa using hi)]
    simp [FullTensor.rowMatrix, reshapeF]
  obtain ⟨r, g, h1, h2, h3, h4, h5⟩ := squeeze_spec z t hrep dims hnd (by rw [hto]; exact hlt) hones
  have hzo : z.order = x.order := by
    have e1 : t.order = z.order := by show t.shape.length = _; rw [((rep_iff hrep.1).1 hrep).1]; simp [Cn.shape, Cn.order]
    have e2 : f.order = x.order := by show f.shape.length = _; rw [((rep_iff hx.1).1 hx).1]; simp [Cn.shape, Cn.order]
    omega
  rw [hzo] at h4 h5
  refine ⟨r, g, ?_, ?_, h3, hcore ▸ h4, h5⟩
  · simp only [tensorVectorProduct, Option.getD_some, hfit.length_eq, ne_eq, not_true_eq_false, if_false, hz,
      bind, Except.bind]
    exact h1
  · simp only [FullTensor.tensorVectorProduct, Option.getD_some, hfit.length_eq, ne_eq, not_true_eq_false, if_false, ht,
      bind, Except.bind]
    exact h2

/-- `reduce_sum(dims)` sums the entries over the subscripts `dims`. -/
theorem reduceSum_spec [CommSemiring R] (x : Cn R) (f : Arr R) (hx : Rep x f) (dims : List Nat) (hnd : dims.Nodup)
    (hlt : ∀ k ∈ dims, k < f.order) :
    ∃ r g, reduceSum x (some dims) = .ok r ∧ RepRes r g ∧ g.shape = entriesOff dims f.shape ∧
      ∀ idx, InBox f.shape idx →
        g.get (entriesOff dims idx) = sumBox (entriesAt dims f.shape) (fun s => f.get (subst idx dims s)) := by
  have hfs := ((rep_iff hx.1).1 hx).1
  have hfit : List.Forall₂ (fun (v : Arr R) d => d < f.order ∧ v.shape = [f.shape.getD d 0])
      (dims.map (fun k => (⟨[x.shape.getD k 0], fun _ => 1⟩ : Arr R))) dims := by
    rw [List.forall₂_map_left_iff, List.forall₂_same]
    intro d hd
    exact ⟨hlt d hd, by rw [hfs]⟩
  obtain ⟨r, g, h1, h2, h3, _⟩ := tensorVectorProduct_spec x f hx _ dims hnd hfit
  obtain ⟨g', h2', h4, h5⟩ := FullTensor.tensorVectorProduct_spec f _ dims hnd hfit
  rw [h2] at h2'; cases h2'
  refine ⟨r, g, ?_, h3, h4, fun idx hi => ?_⟩
  · unfold reduceSum
    exact h1
  · rw [h5 idx hi]
    apply sumBox_congr
    intro s _
    have : (List.zipWith (fun (v : Arr R) j => v.get [j]) (dims.map (fun k => (⟨[x.shape.getD k 0], fun _ => 1⟩ : Arr R))) s).prod
        = 1 := by
      apply List.prod_eq_one
      intro a ha
      rw [List.zipWith_map_left] at ha
      obtain ⟨i, hi, rfl⟩ := List.getElem_of_mem ha
      simp
    rw [this, mul_one]

/-! ### C32: inner product -/

/-- The sum over a box of a product of one-dimensional functions is the product of the sums. -/
theorem sumBox_prod [CommSemiring R] (s : List Nat) (F : List (Nat → R)) (h : F.length = s.length) :
    sumBox s (fun idx => (List.zipWith (fun φ j => φ j) F idx).prod) =
      (List.zipWith (fun φ n => ∑ j ∈ range n, φ j) F s).prod := by
  induction s generalizing F with
  | nil =>
    cases F with
    | nil => simp [sumBox]
    | cons a F => simp at h
  | cons n s ih =>
    cases F with
    | nil => simp at h
    | cons φ F =>
      simp only [sumBox, List.zipWith_cons_cons, List.prod_cons]
      rw [sum_mul]
      apply sum_congr rfl
      intro j _
      rw [sumBox_mul_left, ih F (by simpa using h)]

/-- The factors of the two tensors paired: the product of the two terms is the product over the dimensions. -/
theorem term_mul_term [CommSemiring R] {X Y : List (Arr R)} {idx : List Nat} (h : X.length = Y.length)
    (hi : idx.length = X.length) (i j : Nat) :
    term X idx i * term Y idx j =
      (List.zipWith (fun (φ : Nat → R) k => φ k)
        (List.zipWith (fun (A B : Arr R) k => A.get [k, i] * B.get [k, j]) X Y) idx).prod := by
  induction X generalizing Y idx with
  | nil =>
    cases Y with
    | nil => simp [term]
    | cons => simp at h
  | cons A X ih =>
    cases Y with
    | nil => simp at h
    | cons B Y =>
      cases idx with
      | nil => simp at hi
      | cons a idx =>
        have := ih (Y := Y) (idx := idx) (by simpa using h) (by simpa using hi)
        simp only [term, List.zipWith_cons_cons, List.prod_cons] at this ⊢
        rw [← this]; ring

/-- The inner product of the full tensors, in terms of the factors. -/
theorem dense_dot [CommSemiring R] (x y : Cn R) (f g : Arr R) (hx : Rep x f) (hy : Rep y g) (hsh : f.shape = g.shape) :
    FullTensor.dot f g = ∑ i ∈ range x.core.length, ∑ j ∈ range y.core.length, x.core.getD i 0 * y.core.getD j 0 *
      ((x.space.zip y.space).map (fun p => ∑ k ∈ range (p.1.shape.getD 0 0), p.1.get [k, i] * p.2.get [k, j])).prod := by
  obtain ⟨fx1, fx2⟩ := (rep_iff hx.1).1 hx
  obtain ⟨fy1, fy2⟩ := (rep_iff hy.1).1 hy
  have hlen : x.space.length = y.space.length := by
    have : x.shape = y.shape := by rw [← fx1, hsh, fy1]
    simpa [Cn.shape] using congrArg List.length this
  show sumBox f.shape (fun idx => f.get idx * g.get idx) = _
  have e : ∀ idx, InBox f.shape idx → f.get idx * g.get idx =
      ∑ i ∈ range x.core.length, ∑ j ∈ range y.core.length, x.core.getD i 0 * y.core.getD j 0 *
        (List.zipWith (fun (φ : Nat → R) k => φ k)
          (List.zipWith (fun (A B : Arr R) k => A.get [k, i] * B.get [k, j]) x.space y.space) idx).prod := by
    intro idx hi
    have hil : idx.length = x.space.length := by rw [hi.length_eq, fx1]; simp [Cn.shape]
    rw [fx2 idx (fx1 ▸ hi), fy2 idx (fy1 ▸ hsh ▸ hi), sum_mul_sum]
    apply sum_congr rfl; intro i _
    apply sum_congr rfl; intro j _
    rw [← term_mul_term hlen hil]; ring
  rw [sumBox_congr e, ← sum_sumBox_comm]
  apply sum_congr rfl; intro i _
  rw [← sum_sumBox_comm]
  apply sum_congr rfl; intro j _
  rw [sumBox_mul_left, sumBox_prod _ _ (by simp [fx1, Cn.shape, hlen])]
  congr 2
  rw [fx1]
  apply List.ext_getElem (by simp [Cn.shape])
  intro k h1 h2
  simp [Cn.shape]

/-- What `dot` computes when the two tensors have as many terms: the two cores are exchanged. -/
theorem dot_code [CommSemiring R] (x y : Cn R) (f g : Arr R) (hx : Rep x f) (hy : Rep y g) (hsh : f.shape = g.shape)
    (hr : x.core.length = y.core.length) :
    dot x y = .ok (∑ i ∈ range x.core.length, ∑ j ∈ range y.core.length, x.core.getD i 0 * y.core.getD j 0 *
      ((x.space.zip y.space).map (fun p => ∑ k ∈ range (p.1.shape.getD 0 0), p.1.get [k, j] * p.2.get [k, i])).prod) := by
  obtain ⟨fx1, _⟩ := (rep_iff hx.1).1 hx
  obtain ⟨fy1, _⟩ := (rep_iff hy.1).1 hy
  have hshape : x.shape = y.shape := by rw [← fx1, hsh, fy1]
  have hlen : x.space.length = y.space.length := by simpa [Cn.shape] using congrArg List.length hshape
  set mm : Arr R × Arr R → Arr R := fun p => ⟨[x.core.length, y.core.length], fun ij =>
      ∑ k ∈ range (p.1.shape.getD 0 0), p.1.get [k, ij.getD 0 0] * p.2.get [k, ij.getD 1 0]⟩ with hmm
  have hok : ∀ p ∈ x.space.zip y.space, matmul (tr p.1) p.2 = .ok (mm p) := by
    intro p hp
    obtain ⟨k, hk, rfl⟩ := List.getElem_of_mem hp
    have hk1 : k < x.space.length := by simp at hk; omega
    have hk2 : k < y.space.length := by omega
    have hn : x.space[k].shape.getD 0 0 = y.space[k].shape.getD 0 0 := by
      have := congrArg (fun l => l.getD k 0) hshape
      simp only [Cn.shape] at this
      rw [List.getD_eq_getElem _ _ (by simpa using hk1), List.getD_eq_getElem _ _ (by simpa using hk2)] at this
      simpa using this
    have s1 := hx.1.shape_eq (List.getElem_mem hk1)
    have s2 := hy.1.shape_eq (List.getElem_mem hk2)
    simp only [List.getElem_zip]
    unfold matmul
    rw [if_pos ⟨by simp [tr, Arr.order], by show y.space[k].shape.length = 2; rw [s2]; rfl, by simp only [tr, List.getD_cons_succ, List.getD_cons_zero]; exact hn⟩]
    congr 1
    simp only [hmm, tr, List.getD_cons_zero, List.getD_cons_succ, Arr.mk.injEq]
    refine ⟨?_, ?_⟩
    · rw [s1, s2]; rfl
    · rw [hn]
  have hmap : (x.space.zip y.space).mapM (fun p => matmul (tr p.1) p.2) = .ok ((x.space.zip y.space).map mm) := by
    generalize x.space.zip y.space = l at hok
    induction l with
    | nil => rfl
    | cons p l ih =>
      rw [List.mapM_cons, hok p (by simp), ih (fun q hq => hok q (by simp [hq]))]
      rfl
  unfold dot
  simp only [hmap, bind, Except.bind]
  rw [dotWithRankOneMetric_code _ _ _ hr (by simp [Cn.order, hlen]) (by
    intro M hM
    obtain ⟨p, _, rfl⟩ := List.mem_map.1 hM
    rfl)]
  congr 1
  apply sum_congr rfl; intro i _
  apply sum_congr rfl; intro j _
  rw [List.map_map]
  rfl

/-- C32, the part that holds: `dot` is the inner product of the full tensors when the two tensors have the same factor
matrices, in particular for the norm. -/
theorem dot_partial [CommSemiring R] (x y : Cn R) (f g : Arr R) (hx : Rep x f) (hy : Rep y g)
    (hsp : x.space = y.space) (hr : x.core.length = y.core.length) :
    dot x y = .ok (FullTensor.dot f g) := by
  have hsh : f.shape = g.shape := by
    rw [((rep_iff hx.1).1 hx).1, ((rep_iff hy.1).1 hy).1]; unfold Cn.shape; rw [hsp]
  rw [dot_code x y f g hx hy hsh hr, dense_dot x y f g hx hy hsh]
  congr 1
  apply sum_congr rfl; intro i _
  apply sum_congr rfl; intro j _
  congr 2
  apply List.map_congr_left
  intro p hp
  obtain ⟨k, hk, rfl⟩ := List.getElem_of_mem hp
  simp only [List.getElem_zip, hsp]
  apply sum_congr rfl; intro l _
  ring

/-- C32, the other case in which it holds: one term in each tensor. -/
theorem dot_rank_one_partial [CommSemiring R] (x y : Cn R) (f g : Arr R) (hx : Rep x f) (hy : Rep y g)
    (hsh : f.shape = g.shape) (h1 : x.core.length = 1) (h2 : y.core.length = 1) :
    dot x y = .ok (FullTensor.dot f g) := by
  rw [dot_code x y f g hx hy hsh (by omega), dense_dot x y f g hx hy hsh, h1, h2]
  simp

/-- `norm()` squared: `dot` of a tensor with itself is the sum of the squares of the entries. -/
theorem norm_spec [CommSemiring R] (x : Cn R) (f : Arr R) (hx : Rep x f) :
    dot x x = .ok (sumBox f.shape (fun idx => f.get idx * f.get idx)) :=
  dot_partial x x f f hx hx rfl rfl

/-- A `2`-vector `core` expanded on the two columns of a matrix. -/
def exX : Cn Int := ⟨[⟨[2, 2], fun ij => if ij.getD 0 0 = ij.getD 1 0 then 1 else 0⟩], [1, 0]⟩
def exY : Cn Int := ⟨[⟨[2, 2], fun ij => if ij = [0, 1] then 2 else if ij = [1, 0] then 3 else 0⟩], [0, 1]⟩

theorem exX_wf : WF exX := ⟨by decide, by simp [exX]⟩
theorem exY_wf : WF exY := ⟨by decide, by simp [exY]⟩

/-- C32 fails in general: two tensors of order one and rank two whose full tensors are `(1, 0)` and `(2, 0)`;
`dot` returns 3 and not 2. -/
theorem dot_wrong : ∃ f g, Rep exX f ∧ Rep exY g ∧ f.shape = g.shape ∧ dot exX exY = .ok 3 ∧
    FullTensor.dot f g = 2 := by
  have hx : Rep exX ⟨exX.shape, fun idx => ∑ i ∈ range exX.core.length, exX.core.getD i 0 * term exX.space idx i⟩ :=
    (rep_iff exX_wf).2 ⟨rfl, fun _ _ => rfl⟩
  have hy : Rep exY ⟨exY.shape, fun idx => ∑ i ∈ range exY.core.length, exY.core.getD i 0 * term exY.space idx i⟩ :=
    (rep_iff exY_wf).2 ⟨rfl, fun _ _ => rfl⟩
  exact ⟨_, _, hx, hy, by decide, by decide +kernel, by decide +kernel⟩

/-! ### C33: `eval_diag` and the state after it -/

theorem hadamard_spec [CommSemiring R] (n r : Nat) : ∀ (ks : List Nat) (s : List (Arr R)), 0 < s.length →
    (∀ k ∈ ks, k ≠ 0 ∧ k < s.length) → (∀ M ∈ s, M.shape = [n, r]) →
    ∃ A : Arr R, hadamardLoop 0 ks s = .ok (s.set 0 A) ∧ A.shape = [n, r] ∧
      ∀ ij, A.get ij = (fac s 0).get ij * (ks.map (fun k => (fac s k).get ij)).prod := by
  intro ks
  induction ks with
  | nil =>
    intro s h0 _ hs
    refine ⟨s[0], by simp [hadamardLoop], hs _ (List.getElem_mem h0), fun ij => ?_⟩
    rw [fac_eq h0]; simp
  | cons k ks ih =>
    intro s h0 hk hs
    obtain ⟨hk0, hkl⟩ := hk k (by simp)
    have hA := hs _ (List.getElem_mem h0)
    have hB := hs _ (List.getElem_mem hkl)
    set C : Arr R := s[0].zipWith (· * ·) s[k] with hC
    have hCs : C.shape = [n, r] := hA
    obtain ⟨A, h1, h2, h3⟩ := ih (s.set 0 C) (by simpa using h0)
      (fun j hj => by have := hk j (by simp [hj]); simpa using this) (by
        intro M hM
        rcases List.mem_or_eq_of_mem_set hM with h | h
        · exact hs M h
        · rw [h]; exact hCs)
    refine ⟨A, ?_, h2, fun ij => ?_⟩
    · unfold hadamardLoop
      rw [List.getElem?_eq_getElem h0, List.getElem?_eq_getElem hkl]
      dsimp only
      rw [if_pos (by rw [hA, hB]), ← hC, h1, List.set_set]
    · rw [h3 ij, List.map_cons, List.prod_cons, ← mul_assoc]
      congr 1
      · rw [fac_eq (by simpa using h0), List.getElem_set_self, fac_eq h0, fac_eq hkl]
        rfl
      · congr 1
        apply List.map_congr_left
        intro j hj
        have := hk j (by simp [hj])
        rw [fac_eq (by simpa using this.2), List.getElem_set_ne (by omega), fac_eq this.2]

/-- C33, the answer: the first call of `eval_diag()` returns the diagonal entries of `full()`; C33, the state: after
the call the first factor of the tensor has been replaced by the entrywise product of all the factors. -/
theorem evalDiag_partial [CommSemiring R] (x : Cn R) (f : Arr R) (hx : Rep x f) (n : Nat) (hn : ∀ k ∈ f.shape, k = n) :
    ∃ v A, evalDiag x = .ok (v, ⟨x.space.set 0 A, x.core⟩) ∧ v.length = n ∧
      (∀ i, i < n → v.getD i 0 = f.get (List.replicate f.order i)) ∧
      A.shape = [n, x.core.length] ∧
      ∀ i j, A.get [i, j] = (x.space.map (fun M => M.get [i, j])).prod := by
  have wx := hx.1
  obtain ⟨hfs, hfg⟩ := (rep_iff wx).1 hx
  have h0 : 0 < x.space.length := List.length_pos_iff.2 wx.ne
  have hsh : ∀ M ∈ x.space, M.shape = [n, x.core.length] := by
    intro M hM
    rw [wx.shape_eq hM]
    congr 1
    apply hn
    rw [hfs]
    exact List.mem_map_of_mem hM
  obtain ⟨d, hd⟩ : ∃ d, x.space.length = d + 1 := ⟨x.space.length - 1, by omega⟩
  have hr : List.range x.order = 0 :: (List.range d).map (· + 1) := by
    rw [show x.order = d + 1 from hd, List.range_succ_eq_map]
  obtain ⟨A, h1, h2, h3⟩ := hadamard_spec n x.core.length ((List.range d).map (· + 1)) x.space h0 (by
    intro k hk
    obtain ⟨j, hj, rfl⟩ := List.mem_map.1 hk
    have := List.mem_range.1 hj
    omega) hsh
  have hAg : ∀ i j, A.get [i, j] = (x.space.map (fun M => M.get [i, j])).prod := by
    intro i j
    rw [h3]
    have : x.space.map (fun M => M.get [i, j]) = (0 :: (List.range d).map (· + 1)).map (fun k => (fac x.space k).get [i, j]) := by
      rw [← hr]
      apply List.ext_getElem (by simp [Cn.order])
      intro k a b
      simp only [List.getElem_map, List.getElem_range]
      rw [fac_eq (by simpa using a)]
    rw [this, List.map_cons, List.prod_cons]
  have hbox : ∀ i, i < n → InBox x.shape (List.replicate f.order i) := by
    intro i hi
    rw [← hfs, inBox_iff_getD]
    refine ⟨by simp [Arr.order], fun k hk => ?_⟩
    rw [List.getD_replicate _ (show k < f.order from hk), List.getD_eq_getElem _ _ hk, hn _ (List.getElem_mem hk)]
    exact hi
  refine ⟨(List.range n).map (fun i => ∑ k ∈ range x.core.length, A.get [i, k] * x.core.getD k 0), A, ?_, by simp, ?_, h2, hAg⟩
  · unfold evalDiag
    rw [hr]
    simp only [h1, bind, Except.bind]
    rw [List.getElem?_set_self h0]
    dsimp only
    rw [if_pos (by rw [h2]; rfl)]
    simp only [h2, List.getD_cons_zero]
  · intro i hi
    rw [List.getD_eq_getElem _ _ (by simpa using hi), List.getElem_map, List.getElem_range, hfg _ (hbox i hi)]
    apply sum_congr rfl
    intro k _
    rw [mul_comm, hAg]
    congr 1
    unfold term
    have hfo : f.order = x.space.length := by show f.shape.length = _; rw [hfs]; simp [Cn.shape]
    congr 1
    apply List.ext_getElem (by simp [hfo])
    intro j a b
    simp

/-- C33 holds for tensors of order one: `eval_diag()` leaves the entries of the tensor unchanged. -/
theorem evalDiag_order_one_partial [CommSemiring R] (x : Cn R) (f : Arr R) (hx : Rep x f) (ho : x.order = 1) :
    ∃ v x', evalDiag x = .ok (v, x') ∧ Rep x' f ∧ v.length = f.shape.getD 0 0 ∧
      ∀ i, i < v.length → v.getD i 0 = f.get [i] := by
  have hfs := ((rep_iff hx.1).1 hx).1
  obtain ⟨M, hM⟩ : ∃ M, x.space = [M] := List.length_eq_one_iff.1 ho
  have hfl : f.shape = [f.shape.getD 0 0] := by rw [hfs]; simp [Cn.shape, hM]
  obtain ⟨v, A, h1, h2, h3, h4, h5⟩ := evalDiag_partial x f hx (f.shape.getD 0 0) (by
    intro k hk; rw [hfl] at hk; simpa using hk)
  have hAM : ∀ i j, A.get [i, j] = M.get [i, j] := by intro i j; rw [h5, hM]; simp
  have hMs := hx.1.shape_eq (M := M) (by rw [hM]; simp)
  have hfM : f.shape.getD 0 0 = M.shape.getD 0 0 := by rw [hfs]; simp [Cn.shape, hM]
  have w' : WF (⟨x.space.set 0 A, x.core⟩ : Cn R) := by
    refine ⟨by rw [hM]; simp, fun N hN => ?_⟩
    rw [hM] at hN; simp at hN; subst hN
    exact ⟨_, h4⟩
  refine ⟨v, _, h1, (rep_iff w').2 ⟨?_, ?_⟩, h2, ?_⟩
  · rw [hfl]; simp only [Cn.shape, hM, List.set_cons_zero, List.map_cons, List.map_nil, h4, List.getD_cons_zero]
  · intro idx hi
    have hsame : (⟨x.space.set 0 A, x.core⟩ : Cn R).shape = x.shape := by
      rw [← hfs, hfl]; simp only [Cn.shape, hM, List.set_cons_zero, List.map_cons, List.map_nil, h4, List.getD_cons_zero]
    rw [hsame] at hi
    rw [((rep_iff hx.1).1 hx).2 idx hi]
    apply sum_congr rfl
    intro k _
    congr 1
    rw [hM]
    cases idx with
    | nil => simp [term]
    | cons a idx => simp [term, hAM]
  · intro i hi
    rw [h3 i (by omega)]
    have : f.order = 1 := by show f.shape.length = 1; rw [hfl]; rfl
    rw [this]; rfl

/-- A tensor of order two and rank one: the rank-one tensor `(2, 3) ⊗ (5, 7)`. -/
def exD : Cn Int := ⟨[⟨[2, 1], fun ij => if ij = [0, 0] then 2 else 3⟩, ⟨[2, 1], fun ij => if ij = [0, 0] then 5 else 7⟩], [1]⟩

/-- C33 fails in general: `eval_diag` called twice on the same tensor returns `(10, 21)` and then `(50, 147)`. -/
theorem evalDiag_wrong : ∃ x', evalDiag exD = .ok ([10, 21], x') ∧ ∃ x'', evalDiag x' = .ok ([50, 147], x'') := by
  obtain ⟨v, x', h⟩ : ∃ v x', evalDiag exD = .ok (v, x') := ⟨_, _, rfl⟩
  have e : (evalDiag exD).map Prod.fst = .ok [10, 21] := by decide +kernel
  have e2 : ((evalDiag exD).bind (fun p => evalDiag p.2)).map Prod.fst = .ok [50, 147] := by decide +kernel
  rw [h] at e e2
  simp only [Except.map, Except.bind, Except.ok.injEq] at e e2
  refine ⟨x', by rw [h, e], ?_⟩
  cases hq : evalDiag x' with
  | error er => rw [hq] at e2; simp at e2
  | ok p =>
    rw [hq] at e2
    simp only [Except.ok.injEq] at e2
    exact ⟨p.2, by rw [← e2]⟩

/-- The hypotheses of the theorems above are met by a tensor of order two and rank two. -/
def exZ : Cn Int := ⟨[⟨[2, 2], fun ij => ij.getD 0 0 + 2 * ij.getD 1 0⟩, ⟨[3, 2], fun ij => ij.getD 0 0 - ij.getD 1 0⟩], [4, -1]⟩

example : WF exZ ∧ ∃ f, Rep exZ f ∧ f.shape = [2, 3] ∧ f.get [1, 2] ≠ 0 ∧ ([0] : List Nat).Nodup := by
  have w : WF exZ := ⟨by decide, by simp [exZ]⟩
  exact ⟨w, ⟨exZ.shape, fun idx => ∑ i ∈ range exZ.core.length, exZ.core.getD i 0 * term exZ.space idx i⟩,
    (rep_iff w).2 ⟨rfl, fun _ _ => rfl⟩, by decide, by decide +kernel, by decide⟩

end Verif.Canonical
