import Verif.Props.TreeSqueezeFull
import Verif.Props.SparseContract
import Verif.Props.TreeModes

/-!
# `squeeze` of all the dimensions, `tensor_vector_product` and `reduce_sum` of tree-based tensors
-/

namespace Verif.TreeBased

open Verif.Arr Verif.DimTree Verif.DimTree.DTree Finset

variable {R : Type}

theorem mem_onesDims {s : List Nat} {k : Nat} : k ∈ onesDims s ↔ k < s.length ∧ s.getD k 0 = 1 := by
  unfold onesDims
  rw [List.mem_filter, List.mem_range]; simp

/-- C143. `squeeze(dims)` when `dims` contains all the dimensions: the array without the axes of size one, whatever the sizes. -/
theorem squeezeTB_all [CommSemiring R] (x : TBT R) (h : WF x) (dims : List Nat) (h2 : FullTensor.setdiffRange x.order dims = []) :
    ∃ a b, squeezeTB x (some dims) = .ok (.dense b) ∧ full x = .ok a ∧ b.shape = entriesOff (onesDims a.shape) a.shape ∧
      ∀ idx, InBox a.shape idx → b.get (entriesOff (onesDims a.shape) idx) = a.get idx := by
  obtain ⟨a, r, a1, _⟩ := full_spec x h
  obtain ⟨b, b1, b2, b3⟩ := FullTensor.squeezeT_spec a (onesDims a.shape) (fun k hk => (mem_onesDims.1 hk).1)
    (fun k hk => (mem_onesDims.1 hk).2)
  refine ⟨a, b, ?_, a1, b2, b3⟩
  unfold squeezeTB
  have hsd : FullTensor.setdiffRange x.order (dims.insertionSort (· ≤ ·)) = [] := by
    rw [FullTensor.setdiffRange_congr (fun k => mem_sortDims k)]; exact h2
  simp only [Option.getD_some, if_pos hsd, a1, b1, bind, Except.bind]

/-- `squeeze()` removes the dimensions of size one. -/
theorem squeezeTB_none [CommSemiring R] (x : TBT R) : squeezeTB x none = squeezeTB x (some (onesDims x.shape)) := rfl

theorem tmp_tree [CommSemiring R] {x x' : TBT R} {ms : List (Arr R)} {ds : Option (List Nat)} (h : tensorMatrixProduct x ms ds = .ok x') :
    x'.tree = x.tree := by
  unfold tensorMatrixProduct at h
  simp only at h
  split at h
  · cases h
  · split at h
    · cases h
    · simp only [bind, Except.bind] at h
      split at h
      · cases h
      · unfold mk at h
        split at h
        · cases h; rfl
        · cases h

/-- The vectors have the sizes of the dimensions `dims`. -/
def VecOk (x : TBT R) (vs : List (Arr R)) (dims : List Nat) : Prop :=
  dims.Nodup ∧ (∀ d ∈ dims, d < x.order) ∧ List.Forall₂ (fun (v : Arr R) d => v.shape = [x.shape.getD d 0]) vs dims

theorem entriesOff_app {rep t e : List Nat} (h : ∀ a ∈ rep, a < t.length) : entriesOff rep (t ++ e) = entriesOff rep t ++ e :=
  Truncation.entriesOff_app h

/-- The products by the rows, then the dense product. -/
theorem tvp_core [CommSemiring R] (x : TBT R) (h : WF x) (vs : List (Arr R)) (dims : List Nat) (hok : VecOk x vs dims) :
    ∃ x' a c b' r, tensorMatrixProduct x (vs.map FullTensor.rowMatrix) (some dims) = .ok x' ∧ WF x' ∧ x'.tree = x.tree ∧
      full x = .ok a ∧ full x' = .ok c ∧ FullTensor.tensorVectorProduct a vs (some dims) = .ok b' ∧
      (∀ d ∈ dims, x'.shape.getD d 0 = 1) ∧ b'.shape = entriesOff dims c.shape ∧
      (∀ idx, InBox c.shape idx → b'.get (entriesOff dims idx) = c.get idx) ∧ x.tree.root = .ok r ∧
      entriesOff dims x'.shape = entriesOff dims x.shape ∧ rankShape x' r = rankShape x r ∧ a.shape = x.shape ++ rankShape x r := by
  obtain ⟨hnd, hlt, hfit⟩ := hok
  obtain ⟨a, r, a1, a2, a3, _⟩ := full_spec x h
  have hpos : ∀ d ∈ dims, 0 < x.shape.getD d 0 := by
    intro d hd
    obtain ⟨r, _, hroot⟩ := root_ok h.valid
    have hdl : d < x.tree.dim2ind.length := hlt d hd
    have := (h.shaped hroot).nu (x.tree.dim2ind[d]) (List.getElem_mem hdl)
    unfold TBT.shape
    rw [List.getD_eq_getElem _ _ (by simpa using hdl), List.getElem_map]
    exact this
  have hf1 : List.Forall₂ (fun M d => MatOk M (x.shape.getD d 0)) (vs.map FullTensor.rowMatrix) dims := by
    rw [List.forall₂_map_left_iff]
    refine hfit.imp ?_
    intro v d hv
    exact ⟨1, by omega, by simp [FullTensor.rowMatrix, reshapeF, hv]⟩
  obtain ⟨x', a', c, t, e1, e2, e3, e4, e5, e6⟩ := tensorMatrixProduct_full x h (vs.map FullTensor.rowMatrix) dims hnd hlt hf1
  rw [a1] at e3; cases e3
  have hT := tmp_tree e1
  have hsl : x.shape.length = x.order := by unfold TBT.shape TBT.order; simp
  have hsl' : x'.shape.length = x.order := by unfold TBT.shape TBT.order; rw [hT]; simp
  have hgd : ∀ d ∈ dims, a.shape.getD d 0 = x.shape.getD d 0 := by
    intro d hd
    rw [a3, List.getD_append _ _ _ _ (by rw [hsl]; exact hlt d hd)]
  have hao : ∀ d ∈ dims, d < a.order := by
    intro d hd
    unfold Arr.order
    rw [a3, List.length_append, hsl]
    have := hlt d hd
    omega
  have hvd : List.Forall₂ (fun (v : Arr R) d => d < a.order ∧ v.shape = [a.shape.getD d 0]) vs dims := by
    rw [List.forall₂_iff_zip] at hfit ⊢
    refine ⟨hfit.1, fun hm => ?_⟩
    have hd := (List.of_mem_zip hm).2
    refine ⟨hao _ hd, ?_⟩
    rw [hgd _ hd]
    exact hfit.2 hm
  obtain ⟨b', b1, b2, b3⟩ := FullTensor.tensorVectorProduct_spec a vs dims hnd hvd
  have hfits : List.Forall₂ (fun M d => FullTensor.Fits a M d) (vs.map FullTensor.rowMatrix) dims := by
    rw [List.forall₂_map_left_iff]
    refine hvd.imp ?_
    rintro v d ⟨q1, q2⟩
    exact ⟨q1, 1, by simp [FullTensor.rowMatrix, reshapeF, q2]⟩
  obtain ⟨t', t1, t2, t3⟩ := FullTensor.tensorMatrixProduct_spec a (vs.map FullTensor.rowMatrix) dims hnd hfits
  rw [e5] at t1
  obtain rfl : t = t' := by cases t1; rfl
  have htone : ∀ d ∈ dims, t.shape.getD d 0 = 1 := by
    intro d hd
    rw [t2, FullTensor.getD_subst _ _ _ _ (hao d hd), if_pos hd]
    have hi : dims.idxOf d < vs.length := by rw [hfit.length_eq]; exact List.idxOf_lt_length_of_mem hd
    rw [List.getD_eq_getElem _ _ (by simpa using hi)]
    simp [FullTensor.rowMatrix, reshapeF]
  have hto : ∀ d ∈ dims, d < t.order := by
    intro d hd
    show d < t.shape.length
    rw [t2, FullTensor.subst_length]; exact hao d hd
  obtain ⟨b'', s1, s2, s3⟩ := FullTensor.squeezeT_spec t dims hto htone
  have hb'' : b'' = b' := by
    unfold FullTensor.tensorVectorProduct at b1
    have hlen : ¬ vs.length ≠ dims.length := by simp [hfit.length_eq]
    simp only [Option.getD_some, if_neg hlen, e5, s1, bind, Except.bind] at b1
    cases b1; rfl
  subst hb''
  obtain ⟨c0, r', c1, c2, c3, _⟩ := full_spec x' e2
  rw [e4] at c1; cases c1
  have hrr : r' = r := by
    rw [hT, a2] at c2; cases c2; rfl
  subst hrr
  have hoff : entriesOff dims x'.shape ++ rankShape x' r' = entriesOff dims x.shape ++ rankShape x r' := by
    rw [← entriesOff_app (by rw [hsl']; exact hlt), ← entriesOff_app (by rw [hsl]; exact hlt), ← a3, ← c3, e6.1, ← s2, b2]
  have hol : (entriesOff dims x'.shape).length = (entriesOff dims x.shape).length := by
    rw [FullTensor.entriesOff_eq, FullTensor.entriesOff_eq, hsl, hsl']
    unfold applyPerm; simp
  obtain ⟨o1, o2⟩ := List.append_inj hoff hol
  refine ⟨x', a, c, b'', r', e1, e2, hT, a1, e4, b1, ?_, by rw [s2, e6.1], ?_, a2, o1, o2, a3⟩
  · intro d hd
    have := htone d hd
    rw [← e6.1, c3, List.getD_append _ _ _ _ (by rw [hsl']; exact hlt d hd)] at this
    exact this
  · intro idx hi
    rw [s3 idx (by rw [← e6.1]; exact hi), e6.2 idx hi]

theorem tvp_eq [CommSemiring R] {x x' : TBT R} {vs : List (Arr R)} {dims : List Nat} (hlen : vs.length = dims.length)
    (h : tensorMatrixProduct x (vs.map FullTensor.rowMatrix) (some dims) = .ok x') :
    tensorVectorProductTB x vs (some dims) = squeezeTB x' (some dims) := by
  unfold tensorVectorProductTB
  have hl : ¬ vs.length ≠ dims.length := by simp [hlen]
  simp only [Option.getD_some, if_neg hl, h, bind, Except.bind]

/-- C144. `tensor_vector_product(vectors, dims)` with at least two remaining dimensions represents the dense contraction. -/
theorem tensorVectorProductTB_full [CommSemiring R] (x : TBT R) (h : WF x) (vs : List (Arr R)) (dims : List Nat) (hok : VecOk x vs dims)
    (h2 : 2 ≤ (FullTensor.setdiffRange x.order dims).length) :
    ∃ z a b b', tensorVectorProductTB x vs (some dims) = .ok (.tree z) ∧ WF z ∧ full x = .ok a ∧ full z = .ok b ∧
      FullTensor.tensorVectorProduct a vs (some dims) = .ok b' ∧ b ≃ₐ b' ∧ z.shape = entriesOff dims x.shape ∧
      SameSetsOn z.tree x.tree (FullTensor.setdiffRange x.order dims) := by
  obtain ⟨x', a, c, b', r0, e1, e2, e3, e4, e5, e6, e7, e8, e9, e10, e11, e12, e13⟩ := tvp_core x h vs dims hok
  have hord : x'.order = x.order := by unfold TBT.order; rw [e3]
  obtain ⟨z, c', b, r, g1, g2, g3, g4, g5, g6, g7, g8, g9, g10, g11⟩ := squeezeTB_full x' e2 dims
    (fun d hd => by rw [hord]; exact hok.2.1 d hd) e7 (by rw [hord]; exact h2)
  rw [e5] at g2; cases g2
  have hsl' : x'.shape.length = x.order := by unfold TBT.shape TBT.order; rw [e3]; simp
  have hsl : x.shape.length = x.order := by unfold TBT.shape TBT.order; simp
  have hdl : ∀ k ∈ dims, k < x'.shape.length := fun k hk => by rw [hsl']; exact hok.2.1 k hk
  refine ⟨z, a, b, b', by rw [tvp_eq hok.2.2.length_eq e1]; exact g1, g5, e4, g3, e6, ⟨?_, ?_⟩, ?_, ?_⟩
  · rw [g8, e8, g7, entriesOff_app hdl, g6]
  · intro j hj
    rw [g8] at hj
    obtain ⟨p, e, rfl, hp, he⟩ := inBox_append_split hj
    rw [g6] at hp
    obtain ⟨idx, hi, rfl⟩ := Sparse.exists_entriesOff hok.1 hdl (fun k hk => by rw [e7 k hk]; omega) hp
    rw [g9 idx e hi he, ← e9 (idx ++ e) (by rw [g7]; exact (inBox_append hi.length_eq).2 ⟨hi, he⟩),
      entriesOff_app (by rw [hi.length_eq]; exact hdl)]
  · rw [g6, e11]
  · rw [hord, e3] at g11; exact g11

/-- C144, one remaining dimension: the tensor of the only node is the dense contraction. -/
theorem tensorVectorProductTB_one [CommSemiring R] (x : TBT R) (h : WF x) (vs : List (Arr R)) (dims : List Nat) (hok : VecOk x vs dims)
    (h2 : (FullTensor.setdiffRange x.order dims).length = 1) :
    ∃ z a b', tensorVectorProductTB x vs (some dims) = .ok (.tree z) ∧ Valid z.tree ∧ z.tree.n = 1 ∧ full x = .ok a ∧
      FullTensor.tensorVectorProduct a vs (some dims) = .ok b' ∧ z.tensors 1 ≃ₐ b' ∧ z.shape = entriesOff dims x.shape := by
  obtain ⟨x', a, c, b', r0, e1, e2, e3, e4, e5, e6, e7, e8, e9, e10, e11, e12, e13⟩ := tvp_core x h vs dims hok
  have hord : x'.order = x.order := by unfold TBT.order; rw [e3]
  obtain ⟨z, c', b, r, g1, g2, g3, g4, g5, g6, g7, g8, g9, g10, g11, g12⟩ := squeezeTB_one x' e2 dims
    (fun d hd => by rw [hord]; exact hok.2.1 d hd) e7 (by rw [hord]; exact h2)
  rw [e5] at g2; cases g2
  have hsl' : x'.shape.length = x.order := by unfold TBT.shape TBT.order; rw [e3]; simp
  have hdl : ∀ k ∈ dims, k < x'.shape.length := fun k hk => by rw [hsl']; exact hok.2.1 k hk
  refine ⟨z, a, b', by rw [tvp_eq hok.2.2.length_eq e1]; exact g1, g5, g6, e4, e6, ⟨?_, ?_⟩, by rw [g8, e11]⟩
  · rw [g10, g8, e8, g9, entriesOff_app hdl]
  · intro j hj
    rw [g10] at hj
    obtain ⟨p, e, rfl, hp, he⟩ := inBox_append_split hj
    rw [g8] at hp
    obtain ⟨idx, hi, rfl⟩ := Sparse.exists_entriesOff hok.1 hdl (fun k hk => by rw [e7 k hk]; omega) hp
    rw [(g11 idx e hi he).1, ← e9 (idx ++ e) (by rw [g9]; exact (inBox_append hi.length_eq).2 ⟨hi, he⟩),
      entriesOff_app (by rw [hi.length_eq]; exact hdl)]

theorem onesDims_cons (s : List Nat) (n : Nat) :
    onesDims (n :: s) = if n = 1 then 0 :: (onesDims s).map (· + 1) else (onesDims s).map (· + 1) := by
  unfold onesDims
  rw [List.length_cons, List.range_succ_eq_map, List.filter_cons, List.filter_map]
  have : (fun k => (n :: s).getD k 0 == 1) ∘ Nat.succ = fun k => s.getD k 0 == 1 := by funext k; simp
  rw [this]
  by_cases hn : n = 1
  · simp [hn]
  · simp [hn]

theorem drop_ones (s E p e : List Nat) (h : ∀ n ∈ s, n = 1) (hp : p.length = s.length) :
    entriesOff (onesDims (s ++ E)) (p ++ e) = entriesOff (onesDims E) e := by
  rw [entriesOff_dropAxes, entriesOff_dropAxes]
  induction s generalizing p with
  | nil => simp at hp; subst hp; rfl
  | cons n s ih =>
    cases p with
    | nil => simp at hp
    | cons a p =>
      rw [List.cons_append, onesDims_cons, if_pos (h n (by simp)), List.cons_append, dropAxes_zero_succ]
      exact ih p (fun m hm => h m (by simp [hm])) (by simpa using hp)

/-- C144, no remaining dimension: the array of the dense contraction, without a rank axis of size one of the root: a scalar when the
root has no rank axis, or one of size one. -/
theorem tensorVectorProductTB_all [CommSemiring R] (x : TBT R) (h : WF x) (vs : List (Arr R)) (dims : List Nat) (hok : VecOk x vs dims)
    (h2 : FullTensor.setdiffRange x.order dims = []) :
    ∃ a b b' r, tensorVectorProductTB x vs (some dims) = .ok (.dense b) ∧ full x = .ok a ∧ x.tree.root = .ok r ∧
      FullTensor.tensorVectorProduct a vs (some dims) = .ok b' ∧ b'.shape = rankShape x r ∧
      b.shape = entriesOff (onesDims b'.shape) b'.shape ∧
      ∀ e, InBox b'.shape e → b.get (entriesOff (onesDims b'.shape) e) = b'.get e := by
  obtain ⟨x', a, c, b', r0, e1, e2, e3, e4, e5, e6, e7, e8, e9, e10, e11, e12, e13⟩ := tvp_core x h vs dims hok
  have hord : x'.order = x.order := by unfold TBT.order; rw [e3]
  obtain ⟨c', b, g1, g2, g3, g4⟩ := squeezeTB_all x' e2 dims (by rw [hord]; exact h2)
  rw [e5] at g2; cases g2
  have hsl' : x'.shape.length = x.order := by unfold TBT.shape TBT.order; rw [e3]; simp
  have hdl : ∀ k ∈ dims, k < x'.shape.length := fun k hk => by rw [hsl']; exact hok.2.1 k hk
  have hall : ∀ k, k < x.order → k ∈ dims := by
    intro k hk
    by_contra hn
    have : k ∈ FullTensor.setdiffRange x.order dims := mem_setdiffRange.2 ⟨hk, hn⟩
    rw [h2] at this; simp at this
  have hones : ∀ n ∈ x'.shape, n = 1 := by
    intro n hn
    obtain ⟨k, hk, rfl⟩ := List.getElem_of_mem hn
    rw [← List.getD_eq_getElem _ 0 hk]
    exact e7 k (hall k (by rw [← hsl']; exact hk))
  have hoff : ∀ v : List Nat, v.length = x.order → entriesOff dims v = [] := by
    intro v hv
    rw [FullTensor.entriesOff_eq, hv, h2]; rfl
  obtain ⟨c0, r1, c1, c2, c3, _⟩ := full_spec x' e2
  rw [e5] at c1; cases c1
  have hrr : r1 = r0 := by
    rw [e3, e10] at c2; cases c2; rfl
  subst hrr
  rw [e12] at c3
  have hb' : b'.shape = rankShape x r1 := by
    rw [e8, c3, entriesOff_app hdl, hoff _ hsl']; rfl
  have hzero : InBox x'.shape (List.replicate x'.shape.length 0) := by
    rw [inBox_iff_getD]
    refine ⟨by simp, fun k hk => ?_⟩
    rw [e7 k (hall k (by rw [← hsl']; exact hk)), List.getD_eq_getElem _ _ (by simpa using hk), List.getElem_replicate]; omega
  refine ⟨a, b, b', r1, by rw [tvp_eq hok.2.2.length_eq e1]; exact g1, e4, e10, e6, hb', ?_, ?_⟩
  · rw [g3, hb', c3, drop_ones _ _ _ _ hones rfl]
  · intro e he
    rw [hb'] at he ⊢
    have hbox : InBox c.shape (List.replicate x'.shape.length 0 ++ e) := by
      rw [c3]; exact (inBox_append hzero.length_eq).2 ⟨hzero, he⟩
    have k1 := g4 _ hbox
    have k2 := e9 _ hbox
    rw [entriesOff_app (by simpa using hdl), hoff _ (by simp [hsl'])] at k2
    rw [c3, drop_ones _ _ _ _ hones (by simp)] at k1
    rw [k1, ← k2]; rfl

theorem onesVec_ok [CommSemiring R] (x : TBT R) {dims : List Nat} (hnd : dims.Nodup) (hlt : ∀ d ∈ dims, d < x.order) :
    VecOk x (dims.map (fun d => (onesVec (x.shape.getD d 0) : Arr R))) dims := by
  refine ⟨hnd, hlt, ?_⟩
  rw [List.forall₂_map_left_iff]
  exact List.forall₂_same.2 (fun _ _ => rfl)

/-- C144. `reduce_sum(dims)`, with at least two remaining dimensions: the sums of the entries over the dimensions `dims`. -/
theorem reduceSumTB_full [CommSemiring R] (x : TBT R) (h : WF x) (dims : List Nat) (hnd : dims.Nodup) (hlt : ∀ d ∈ dims, d < x.order)
    (h2 : 2 ≤ (FullTensor.setdiffRange x.order dims).length) :
    ∃ z a b, reduceSumTB x (some dims) = .ok (.tree z) ∧ WF z ∧ full x = .ok a ∧ full z = .ok b ∧ b.shape = entriesOff dims a.shape ∧
      ∀ idx, InBox a.shape idx → b.get (entriesOff dims idx) = sumBox (entriesAt dims a.shape) (fun s => a.get (subst idx dims s)) := by
  have hok := onesVec_ok x hnd hlt
  obtain ⟨z, a, b, b', g1, g2, g3, g4, g5, g6, g7, g8⟩ := tensorVectorProductTB_full x h _ dims hok h2
  obtain ⟨a0, r, a1, _, a3, _⟩ := full_spec x h
  rw [g3] at a1; cases a1
  have hsl : x.shape.length = x.order := by unfold TBT.shape TBT.order; simp
  have hvd : List.Forall₂ (fun (v : Arr R) d => d < a.order ∧ v.shape = [a.shape.getD d 0]) (dims.map (fun d => (onesVec (x.shape.getD d 0) : Arr R))) dims := by
    rw [List.forall₂_map_left_iff, List.forall₂_same]
    intro d hd
    have := hlt d hd
    refine ⟨by unfold Arr.order; rw [a3, List.length_append, hsl]; omega, ?_⟩
    rw [a3, List.getD_append _ _ _ _ (by rw [hsl]; exact this)]; rfl
  obtain ⟨b0, b1, b2, b3⟩ := FullTensor.tensorVectorProduct_spec a _ dims hnd hvd
  rw [g5] at b1
  obtain rfl : b' = b0 := by cases b1; rfl
  refine ⟨z, a, b, g1, g2, g3, g4, by rw [g6.1, b2], ?_⟩
  intro idx hi
  rw [g6.2 _ (by rw [g6.1, b2]; exact Truncation.inBox_off dims hi), b3 idx hi]
  apply sumBox_congr
  intro s hs
  have hprod : (List.zipWith (fun (v : Arr R) j => v.get [j]) (dims.map (fun d => (onesVec (x.shape.getD d 0) : Arr R))) s).prod = 1 := by
    apply List.prod_eq_one
    intro v hv
    obtain ⟨k, hk, rfl⟩ := List.getElem_of_mem hv
    rw [List.getElem_zipWith, List.getElem_map]; rfl
  rw [hprod, mul_one]

/-- `reduce_sum` of all the dimensions: the sum of the entries. -/
theorem reduceSumTB_all [CommSemiring R] (x : TBT R) (h : WF x) :
    ∃ a b r, reduceSumTB x none = .ok (.dense b) ∧ full x = .ok a ∧ x.tree.root = .ok r ∧
      b.shape = entriesOff (onesDims (rankShape x r)) (rankShape x r) ∧
      ∀ e, InBox (rankShape x r) e → b.get (entriesOff (onesDims (rankShape x r)) e) = sumBox x.shape (fun s => a.get (s ++ e)) := by
  have hnd : (List.range x.order).Nodup := List.nodup_range
  have hlt : ∀ d ∈ List.range x.order, d < x.order := fun d hd => List.mem_range.1 hd
  have hok := onesVec_ok x hnd hlt
  obtain ⟨a, b, b', r, g1, g2, g3, g4, g5, g6, g7⟩ := tensorVectorProductTB_all x h _ _ hok (by
    unfold FullTensor.setdiffRange
    rw [List.filter_eq_nil_iff]
    intro k hk
    simpa using hk)
  obtain ⟨a0, r0, a1, a2, a3, _⟩ := full_spec x h
  rw [g2] at a1; cases a1
  rw [g3] at a2; cases a2
  have hsl : x.shape.length = x.order := by unfold TBT.shape TBT.order; simp
  have hvd : List.Forall₂ (fun (v : Arr R) d => d < a.order ∧ v.shape = [a.shape.getD d 0])
      ((List.range x.order).map (fun d => (onesVec (x.shape.getD d 0) : Arr R))) (List.range x.order) := by
    rw [List.forall₂_map_left_iff, List.forall₂_same]
    intro d hd
    have := hlt d hd
    refine ⟨by unfold Arr.order; rw [a3, List.length_append, hsl]; omega, ?_⟩
    rw [a3, List.getD_append _ _ _ _ (by rw [hsl]; exact this)]; rfl
  obtain ⟨b0, b1, b2, b3⟩ := FullTensor.tensorVectorProduct_spec a _ _ hnd hvd
  rw [g4] at b1
  obtain rfl : b' = b0 := by cases b1; rfl
  rw [g5] at g6 g7
  refine ⟨a, b, r, g1, g2, g3, g6, ?_⟩
  intro e he
  obtain ⟨V, hV⟩ := exists_value x h.valid
  rw [g7 e he]
  have hpos : ∀ k ∈ List.range x.order, 0 < x.shape.getD k 0 := by
    intro d hd
    obtain ⟨r, _, hroot⟩ := root_ok h.valid
    have hdl : d < x.tree.dim2ind.length := hlt d hd
    have := (h.shaped hroot).nu (x.tree.dim2ind[d]) (List.getElem_mem hdl)
    unfold TBT.shape
    rw [List.getD_eq_getElem _ _ (by simpa using hdl), List.getElem_map]
    exact this
  have hzero : InBox x.shape (List.replicate x.order 0) := by
    rw [inBox_iff_getD]
    refine ⟨by simp [hsl], fun k hk => ?_⟩
    have hk' : k < x.order := by rw [← hsl]; exact hk
    rw [List.getD_eq_getElem _ _ (by simpa using hk'), List.getElem_replicate]
    exact hpos k (List.mem_range.2 hk')
  have hbox : InBox a.shape (List.replicate x.order 0 ++ e) := by
    rw [a3]; exact (inBox_append hzero.length_eq).2 ⟨hzero, he⟩
  have hb := b3 _ hbox
  have hro : ∀ v w : List Nat, v.length = x.order → entriesOff (List.range x.order) (v ++ w) = w := by
    intro v w hv
    rw [entriesOff_app (by intro k hk; rw [hv]; exact hlt k hk), FullTensor.entriesOff_eq, hv]
    have : FullTensor.setdiffRange x.order (List.range x.order) = [] := by
      unfold FullTensor.setdiffRange
      rw [List.filter_eq_nil_iff]
      intro k hk
      simpa using hk
    rw [this]; rfl
  rw [hro _ _ (by simp)] at hb
  rw [hb]
  have hea : entriesAt (List.range x.order) a.shape = x.shape := by
    rw [a3, Truncation.entriesAt_app (by intro k hk; rw [hsl]; exact hlt k hk), ← hsl]
    unfold entriesAt
    apply List.ext_getElem
    · simp
    · intro k h1 h2; simp [List.getElem?_eq_getElem h2]
  rw [hea]
  apply sumBox_congr
  intro s hs
  have hprod : (List.zipWith (fun (v : Arr R) j => v.get [j]) ((List.range x.order).map (fun d => (onesVec (x.shape.getD d 0) : Arr R))) s).prod = 1 := by
    apply List.prod_eq_one
    intro v hv
    obtain ⟨k, hk, rfl⟩ := List.getElem_of_mem hv
    rw [List.getElem_zipWith, List.getElem_map]; rfl
  rw [hprod, mul_one]
  congr 1
  have hsl2 : s.length = x.order := by rw [hs.length_eq, hsl]
  apply List.ext_getElem
  · rw [FullTensor.subst_length]; simp [hsl2]
  · intro k k1 k2
    rw [← List.getD_eq_getElem _ 0 k1, ← List.getD_eq_getElem _ 0 k2]
    rw [FullTensor.getD_subst _ _ _ _ (by rw [FullTensor.subst_length] at k1; exact k1)]
    by_cases hk : k < x.order
    · rw [if_pos (List.mem_range.2 hk), List.getD_append _ _ _ _ (by rw [hsl2]; exact hk)]
      congr 1
      have := List.nodup_range.idxOf_getElem k (xs := List.range x.order) (by simpa using hk)
      simpa using this
    · rw [if_neg (by simpa using hk), List.getD_append_right _ _ _ _ (by simp; omega), List.getD_append_right _ _ _ _ (by rw [hsl2]; omega)]
      simp [hsl2]

/-! ## Witnesses -/

/-- A tensor of shape [1, 2, 1, 3] on the tree {0,1,2,3} ⊃ {0,1,2} ⊃ {0,1}, with the leaf of the dimension 2 inactive. -/
def exS : TBT Int where
  tree := ofParents [0, 0, 0, 2, 2, 3, 3] [6, 7, 5, 2]
  tensors i := match i with
    | 1 => ⟨[3, 2], fun t => t.getD 0 0 + 2 * t.getD 1 0⟩
    | 2 => ⟨[3, 3], fun t => 3 * t.getD 0 0 - t.getD 1 0⟩
    | 3 => ⟨[2, 1, 2], fun t => t.getD 0 0 + 1 + t.getD 2 0⟩
    | 4 => ⟨[2, 1, 2], fun t => t.getD 0 0 * 2 + 1 - t.getD 2 0⟩
    | 5 => emptyArr
    | 6 => ⟨[1, 2], fun t => 5 - 3 * t.getD 1 0⟩
    | 7 => ⟨[2, 1], fun t => 1 + t.getD 0 0⟩
    | _ => emptyArr

theorem exS_wf : WF exS := wf_of_wfB _ (ofParents_valid _ _ (by decide) (by decide) (by decide) (by decide) (by decide)) (by decide +kernel)

/-- The tree of the result. -/
def resTree (q : Py (Squeezed R)) : Option (TBT R) := match q with
  | .ok (.tree z) => some z
  | _ => none

/-- The error of the result. -/
def resErr (q : Py (Squeezed R)) : Option PyErr := match q with
  | .error e => some e
  | _ => none

/-- Witness for C142: two dimensions of size one are removed, two remain, two nodes are merged. -/
theorem squeezeTB_witness : WF exS ∧ exS.shape = [1, 2, 1, 3] ∧ (FullTensor.setdiffRange exS.order [0, 2]).length = 2 ∧
    (resTree (squeezeTB exS none)).map (fun z => (z.tree.n, z.shape)) = some (3, [2, 3]) :=
  ⟨exS_wf, by decide +kernel, by decide +kernel, by decide +kernel⟩

/-- Witness for C142, one remaining dimension. -/
theorem squeezeTB_one_witness : ∃ z : TBT Int, WF z ∧ z.shape = [1, 2, 1, 1] ∧
    (resTree (squeezeTB z none)).map (fun z => (z.tree.n, z.shape)) = some (1, [2]) :=
  ⟨⟨exS.tree, upd exS.tensors 2 ⟨[1, 3], fun t => 2 - t.getD 1 0⟩⟩,
    wf_of_wfB _ (ofParents_valid _ _ (by decide) (by decide) (by decide) (by decide) (by decide)) (by decide +kernel),
    by decide +kernel, by decide +kernel⟩

/-- `squeeze(dims)` raises for a dimension of size three, but not when all the dimensions are given. -/
theorem squeezeTB_refused_witness : WF exS ∧ resErr (squeezeTB exS (some [3])) = some .valueError ∧
    resErr (squeezeTB exS (some [0, 1, 2, 3])) = none :=
  ⟨exS_wf, by decide +kernel, by decide +kernel⟩

/-- Witness for C144. -/
theorem tensorVectorProductTB_witness : WF exS ∧ VecOk exS [⟨[3], fun t => t.getD 0 0⟩, ⟨[1], fun _ => 2⟩] [3, 0] ∧
    (FullTensor.setdiffRange exS.order [3, 0]).length = 2 ∧ (FullTensor.setdiffRange exS.order [3, 0, 2]).length = 1 :=
  ⟨exS_wf, ⟨by decide, by decide, .cons (by decide +kernel) (.cons (by decide +kernel) .nil)⟩, by decide +kernel, by decide +kernel⟩

end Verif.TreeBased
