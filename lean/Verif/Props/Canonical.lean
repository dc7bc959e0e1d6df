import Verif.Props.Diagonal
import Verif.Model.CanonicalTensor

/-!
# Properties of `CanonicalTensor` (C31, C32, C33)

`Rep x f`: the factors of `x` have a common number of columns, and `x.full()` is the array `f`.
-/

namespace Verif.Canonical

open Verif.Arr Finset Verif.Sparse Verif.Diagonal

variable {R : Type}

/-- The factor matrices have one column per entry of the core, and there is at least one. -/
structure WF (x : Cn R) : Prop where
  ne : x.space ≠ []
  cols : ∀ M ∈ x.space, ∃ n, M.shape = [n, x.core.length]

/-- `x` is well formed and `x.full()` returns `f`. -/
def Rep [CommSemiring R] (x : Cn R) (f : Arr R) : Prop := WF x ∧ ∃ y, full x = .ok y ∧ y ≃ₐ f

/-- The product of the entries `(idx_k, i)` of the factors. -/
def term [CommSemiring R] (space : List (Arr R)) (idx : List Nat) (i : Nat) : R :=
  (List.zipWith (fun (M : Arr R) j => M.get [j, i]) space idx).prod

theorem WF.shape_eq {x : Cn R} (h : WF x) {M : Arr R} (hM : M ∈ x.space) : M.shape = [M.shape.getD 0 0, x.core.length] := by
  obtain ⟨n, hn⟩ := h.cols M hM
  rw [hn]; rfl

/-- Entry `(i_1, ..., i_d)` of `full()` is the sum over the terms of the products of the factor entries. -/
theorem full_spec [CommSemiring R] (x : Cn R) (h : WF x) :
    ∃ y, full x = .ok y ∧ y.shape = x.shape ∧
      ∀ idx, InBox y.shape idx → y.get idx = ∑ i ∈ range x.core.length, x.core.getD i 0 *
        (List.zipWith (fun (M : Arr R) j => M.get [j, i]) x.space idx).prod := by
  have ho : 1 ≤ x.order := List.length_pos_iff.2 h.ne
  have hs : (Diagonal.full (⟨x.core, x.order⟩ : Dg R)).shape = List.replicate x.order x.core.length := rfl
  obtain ⟨y, h1, h2, h3⟩ := tensorMatrixProduct_all (Diagonal.full (⟨x.core, x.order⟩ : Dg R)) x.space (by
    rw [List.forall₂_iff_get]
    refine ⟨by rw [hs]; simp [Cn.order], fun i ha hb => ?_⟩
    refine ⟨(x.space.get ⟨i, by simpa using ha⟩).shape.getD 0 0, ?_⟩
    simp only [List.get_eq_getElem, hs, List.getElem_replicate]
    exact h.shape_eq (List.getElem_mem _))
  refine ⟨y, h1, h2, ?_⟩
  intro idx hi
  rw [h3 idx hi, hs]
  have hil : idx.length = x.order := by rw [hi.length_eq, h2]; simp [Cn.order]
  show sumBox _ (fun s => (FullTensor.diag x.core x.order).get s * _) = _
  rw [sumBox_diag _ ho]
  apply sum_congr rfl
  intro i _
  congr 2
  apply List.ext_getElem (by simp [hil, Cn.order])
  intro k a b
  simp only [List.getElem_zipWith, List.getElem_zip, List.getElem_replicate]

theorem rep_iff [CommSemiring R] {x : Cn R} {f : Arr R} (h : WF x) :
    Rep x f ↔ f.shape = x.shape ∧ ∀ idx, InBox x.shape idx →
      f.get idx = ∑ i ∈ range x.core.length, x.core.getD i 0 * term x.space idx i := by
  obtain ⟨y, h1, h2, h3⟩ := full_spec x h
  unfold Rep
  rw [h1]
  constructor
  · rintro ⟨_, z, hz, hs, hg⟩
    cases hz
    refine ⟨hs.symm.trans h2, fun idx hi => ?_⟩
    rw [← hg idx (h2 ▸ hi), h3 idx (h2 ▸ hi)]; rfl
  · rintro ⟨hs, hg⟩
    refine ⟨h, y, rfl, h2.trans hs.symm, fun idx hi => ?_⟩
    rw [h3 idx hi, hg idx (h2 ▸ hi)]; rfl

/-! ### C31: arithmetic -/

theorem hstack_get {a b : Arr R} {n r s : Nat} (ha : a.shape = [n, r]) (hb : b.shape = [n, s]) :
    hstack a b = .ok (a.concat b 1) ∧ (a.concat b 1).shape = [n, r + s] ∧
      (∀ j i, i < r → (a.concat b 1).get [j, i] = a.get [j, i]) ∧
      (∀ j i, (a.concat b 1).get [j, r + i] = b.get [j, i]) := by
  refine ⟨by unfold hstack; rw [if_pos (by rw [ha, hb]; rfl)], by simp [Arr.concat, ha, hb], ?_, ?_⟩
  · intro j i hi
    simp [Arr.concat, ha, hi]
  · intro j i
    simp [Arr.concat, ha]

/-- `full()` of a sum is the sum of the `full()`; the ranks add up. -/
theorem add_spec [CommSemiring R] (x y : Cn R) (f g : Arr R) (hx : Rep x f) (hy : Rep y g) (hsh : f.shape = g.shape) :
    ∃ z, add x y = .ok z ∧ Rep z (FullTensor.add f g) ∧ z.core.length = x.core.length + y.core.length := by
  have wx := hx.1
  have wy := hy.1
  obtain ⟨fx1, fx2⟩ := (rep_iff wx).1 hx
  obtain ⟨fy1, fy2⟩ := (rep_iff wy).1 hy
  have hshape : x.shape = y.shape := by rw [← fx1, hsh, fy1]
  have hlen : x.space.length = y.space.length := by
    have := congrArg List.length hshape
    simpa [Cn.shape] using this
  set sp := List.zipWith (fun a b : Arr R => a.concat b 1) x.space y.space with hsp
  have hn : ∀ k, (h1 : k < x.space.length) → (h2 : k < y.space.length) →
      x.space[k].shape.getD 0 0 = y.space[k].shape.getD 0 0 := by
    intro k h1 h2
    have := congrArg (fun l => l.getD k 0) hshape
    simp only [Cn.shape] at this
    rw [List.getD_eq_getElem _ _ (by simpa using h1), List.getD_eq_getElem _ _ (by simpa using h2)] at this
    simpa using this
  have hk : ∀ k, (h1 : k < x.space.length) → (h2 : k < y.space.length) →
      hstack x.space[k] y.space[k] = .ok (x.space[k].concat y.space[k] 1) ∧
      (x.space[k].concat y.space[k] 1).shape = [x.space[k].shape.getD 0 0, x.core.length + y.core.length] ∧
      (∀ j i, i < x.core.length → (x.space[k].concat y.space[k] 1).get [j, i] = x.space[k].get [j, i]) ∧
      (∀ j i, (x.space[k].concat y.space[k] 1).get [j, x.core.length + i] = y.space[k].get [j, i]) := by
    intro k h1 h2
    refine hstack_get (wx.shape_eq (List.getElem_mem h1)) ?_
    rw [hn k h1 h2]; exact wy.shape_eq (List.getElem_mem h2)
  have hmap : (x.space.zip y.space).mapM (fun p => hstack p.1 p.2) = .ok sp := by
    have : ∀ (a b : List (Arr R)), a.length = b.length →
        (∀ k, (h1 : k < a.length) → (h2 : k < b.length) → hstack a[k] b[k] = .ok (a[k].concat b[k] 1)) →
        (a.zip b).mapM (fun p => hstack p.1 p.2) = .ok (List.zipWith (fun a b : Arr R => a.concat b 1) a b) := by
      intro a
      induction a with
      | nil => intro b _ _; rfl
      | cons u a ih =>
        intro b hl hk
        cases b with
        | nil => simp at hl
        | cons w b =>
          rw [List.zip_cons_cons, List.mapM_cons, ih b (by simpa using hl) (fun k h1 h2 => hk (k + 1) (by simpa using h1) (by simpa using h2))]
          have := hk 0 (by simp) (by simp)
          simp only [List.getElem_cons_zero] at this
          rw [this]
          rfl
    exact this _ _ hlen (fun k h1 h2 => (hk k h1 h2).1)
  have hspl : sp.length = x.space.length := by simp [hsp, hlen]
  have hwz : WF (⟨sp, x.core ++ y.core⟩ : Cn R) := by
    refine ⟨?_, ?_⟩
    · intro h0
      rw [List.length_eq_zero_iff.2 h0] at hspl
      exact wx.ne (List.length_eq_zero_iff.1 hspl.symm)
    · intro M hM
      obtain ⟨k, hkl, rfl⟩ := List.getElem_of_mem hM
      have h1 : k < x.space.length := by rw [hspl] at hkl; exact hkl
      refine ⟨x.space[k].shape.getD 0 0, ?_⟩
      show sp[k].shape = _
      rw [show sp[k] = x.space[k].concat (y.space[k]'(hlen ▸ h1)) 1 by simp [hsp]]
      rw [(hk k h1 (hlen ▸ h1)).2.1, List.length_append]
  have hzs : (⟨sp, x.core ++ y.core⟩ : Cn R).shape = x.shape := by
    apply List.ext_getElem (by simp [Cn.shape, hspl])
    intro k h1 h2
    have h1 : k < x.space.length := by simpa [Cn.shape] using h2
    simp only [Cn.shape, List.getElem_map]
    rw [show sp[k]'(by rw [hspl]; exact h1) = x.space[k].concat (y.space[k]'(hlen ▸ h1)) 1 by simp [hsp]]
    rw [(hk k h1 (hlen ▸ h1)).2.1]; rfl
  refine ⟨⟨sp, x.core ++ y.core⟩, ?_, (rep_iff hwz).2 ⟨?_, ?_⟩, by simp⟩
  · simp only [add, hmap, bind, Except.bind]
  · rw [hzs]; exact fx1
  · intro idx hi
    rw [hzs] at hi
    have hil : idx.length = x.space.length := by rw [hi.length_eq]; simp [Cn.shape]
    show f.get idx + g.get idx = _
    rw [fx2 idx hi, fy2 idx (hshape ▸ hi)]
    simp only [List.length_append]
    rw [sum_range_add]
    congr 1
    · apply sum_congr rfl
      intro i hi'
      have hi' := mem_range.1 hi'
      rw [List.getD_append _ _ _ _ hi']
      congr 1
      unfold term
      congr 1
      apply List.ext_getElem (by simp [hspl])
      intro k h1 h2
      have h1 : k < x.space.length := by simp at h1; exact h1.1
      simp only [List.getElem_zipWith, hsp]
      exact ((hk k h1 (hlen ▸ h1)).2.2.1 _ _ hi').symm
    · apply sum_congr rfl
      intro i hi'
      rw [List.getD_append_right _ _ _ _ (by omega), Nat.add_sub_cancel_left]
      congr 1
      unfold term
      congr 1
      apply List.ext_getElem (by simp [hspl, hlen])
      intro k h1 h2
      have h1 : k < y.space.length := by simp at h1; exact h1.1
      simp only [List.getElem_zipWith, hsp]
      exact ((hk k (hlen ▸ h1) h1).2.2.2 _ _).symm

/-- `full()` of the opposite. -/
theorem neg_spec [CommRing R] (x : Cn R) (f : Arr R) (hx : Rep x f) : Rep (neg x) (FullTensor.neg f) := by
  have wx := hx.1
  obtain ⟨h1, h2⟩ := (rep_iff wx).1 hx
  have wn : WF (neg x) := ⟨wx.ne, fun M hM => by simpa [neg] using wx.cols M hM⟩
  refine (rep_iff wn).2 ⟨h1, ?_⟩
  intro idx hi
  show -(f.get idx) = _
  rw [h2 idx hi, ← sum_neg_distrib]
  simp only [neg, List.length_map]
  apply sum_congr rfl
  intro i hi'
  have hi' := mem_range.1 hi'
  rw [List.getD_eq_getElem _ _ hi', List.getD_eq_getElem _ _ (by simpa using hi'), List.getElem_map, neg_mul]

/-- `full()` of a difference. -/
theorem sub_spec [CommRing R] (x y : Cn R) (f g : Arr R) (hx : Rep x f) (hy : Rep y g) (hsh : f.shape = g.shape) :
    ∃ z, sub x y = .ok z ∧ Rep z (FullTensor.sub f g) := by
  obtain ⟨z, h1, h2, _⟩ := add_spec x (neg y) f (FullTensor.neg g) hx (neg_spec y g hy) hsh
  refine ⟨z, h1, h2.1, ?_⟩
  obtain ⟨w, hw1, hw2, hw3⟩ := h2.2
  refine ⟨w, hw1, hw2, fun idx hi => ?_⟩
  rw [hw3 idx hi]
  exact (sub_eq_add_neg _ _).symm

/-! ### C31: mode products -/

/-- The product of the factor entries depends linearly on the entry of factor `d`. -/
theorem term_set [CommSemiring R] (space : List (Arr R)) (idx : List Nat) (d i : Nat) (hd : d < space.length)
    (hl : idx.length = space.length) :
    ∃ P : R, ∀ (C : Arr R) (j : Nat), term (space.set d C) (idx.set d j) i = P * C.get [j, i] := by
  induction space generalizing idx d with
  | nil => simp at hd
  | cons M space ih =>
    cases idx with
    | nil => simp at hl
    | cons a idx =>
      cases d with
      | zero =>
        refine ⟨term space idx i, fun C j => ?_⟩
        simp [term, mul_comm]
      | succ d =>
        obtain ⟨P, hP⟩ := ih idx d (by simpa using hd) (by simpa using hl)
        refine ⟨M.get [a, i] * P, fun C j => ?_⟩
        have := hP C j
        simp only [term, List.set_cons_succ, List.zipWith_cons_cons, List.prod_cons] at this ⊢
        rw [this, mul_assoc]

theorem set_getD_self {l : List Nat} {d : Nat} : l.set d (l.getD d 0) = l := by
  by_cases h : d < l.length
  · rw [List.getD_eq_getElem _ _ h, List.set_getElem_self]
  · rw [List.set_eq_of_length_le (by omega)]

/-- One mode product. -/
theorem tmpStep_rep [CommSemiring R] (x : Cn R) (f : Arr R) (hx : Rep x f) (M : Arr R) (d m : Nat) (hd : d < x.order)
    (hM : M.shape = [m, f.shape.getD d 0]) :
    ∃ B C g, x.space[d]? = some B ∧ matmul M B = .ok C ∧ FullTensor.tmpStep f (M, d) = .ok g ∧
      Rep ⟨x.space.set d C, x.core⟩ g ∧ g.shape = f.shape.set d m := by
  have wx := hx.1
  obtain ⟨h1, h2⟩ := (rep_iff wx).1 hx
  have hd' : d < x.space.length := hd
  have hfo : f.order = x.space.length := by show f.shape.length = _; rw [h1]; simp [Cn.shape]
  obtain ⟨g, hg1, hg2, hg3⟩ := FullTensor.tmpStep_spec f M d m (by omega) hM
  have hB : x.space[d].shape = [f.shape.getD d 0, x.core.length] := by
    have : x.shape.getD d 0 = x.space[d].shape.getD 0 0 := by
      unfold Cn.shape
      rw [List.getD_eq_getElem (x.space.map _) _ (by simpa using hd'), List.getElem_map]
    rw [h1, this]
    exact wx.shape_eq (List.getElem_mem hd')
  set C : Arr R := ⟨[m, x.core.length], fun ij =>
      ∑ k ∈ range (f.shape.getD d 0), M.get [ij.getD 0 0, k] * x.space[d].get [k, ij.getD 1 0]⟩ with hC
  have hmm : matmul M x.space[d] = .ok C := by
    unfold matmul
    rw [if_pos ⟨by simp [Arr.order, hM], by simp [Arr.order, hB], by simp [hM, hB]⟩]
    simp only [hM, hB, hC, List.getD_cons_zero, List.getD_cons_succ]
  have wz : WF (⟨x.space.set d C, x.core⟩ : Cn R) := by
    refine ⟨by simpa using wx.ne, fun N hN => ?_⟩
    rcases List.mem_or_eq_of_mem_set hN with h | h
    · exact wx.cols N h
    · exact ⟨m, by rw [h]⟩
  have hzs : (⟨x.space.set d C, x.core⟩ : Cn R).shape = f.shape.set d m := by
    rw [h1]; simp only [Cn.shape, List.map_set]; rfl
  refine ⟨x.space[d], C, g, List.getElem?_eq_getElem hd', hmm, hg1, (rep_iff wz).2 ⟨by rw [hg2, hzs], ?_⟩, hg2⟩
  intro idx hi
  rw [hzs] at hi
  have hil : idx.length = x.space.length := by rw [hi.length_eq, List.length_set, ← hfo]; rfl
  rw [hg3 idx (hg2 ▸ hi)]
  have hbox : ∀ j ∈ range (f.shape.getD d 0), InBox x.shape (idx.set d j) := by
    intro j hj
    rw [← h1]
    rw [inBox_iff_getD] at hi ⊢
    refine ⟨by rw [List.length_set, hil, ← hfo]; rfl, fun k hk => ?_⟩
    have := hi.2 k (by simpa using hk)
    rw [getD_set] at this ⊢
    by_cases hkd : k = d
    · rw [if_pos ⟨hkd.symm, by omega⟩, hkd]; exact mem_range.1 hj
    · rw [if_neg (fun h => hkd h.1.symm)] at this ⊢; exact this
  have e1 : ∀ j ∈ range (f.shape.getD d 0), f.get (idx.set d j) * M.get [idx.getD d 0, j] =
      ∑ i ∈ range x.core.length, x.core.getD i 0 * (term x.space (idx.set d j) i * M.get [idx.getD d 0, j]) := by
    intro j hj
    rw [h2 _ (hbox j hj), sum_mul]
    apply sum_congr rfl
    intro i _
    rw [mul_assoc]
  rw [sum_congr rfl e1, sum_comm]
  apply sum_congr rfl
  intro i _
  rw [← mul_sum]
  congr 1
  obtain ⟨P, hP⟩ := term_set x.space idx d i hd' hil
  have e2 : term (x.space.set d C) idx i = P * C.get [idx.getD d 0, i] := by
    rw [← hP C (idx.getD d 0), set_getD_self]
  have e3 : ∀ j, term x.space (idx.set d j) i = P * x.space[d].get [j, i] := by
    intro j
    rw [← hP x.space[d] j, List.set_getElem_self]
  rw [e2]
  simp only [e3, hC, List.getD_cons_zero, List.getD_cons_succ]
  rw [mul_sum]
  apply sum_congr rfl
  intro j _
  ring

/-- `tensor_matrix_product(matrices, dims)` is the dense mode product, for distinct dimensions. -/
theorem tensorMatrixProduct_spec [CommSemiring R] (x : Cn R) (f : Arr R) (hx : Rep x f) (ms : List (Arr R))
    (dims : List Nat) (hnd : dims.Nodup) (hfit : List.Forall₂ (fun M d => FullTensor.Fits f M d) ms dims) :
    ∃ z g, tensorMatrixProduct x ms (some dims) = .ok z ∧ FullTensor.tensorMatrixProduct f ms (some dims) = .ok g ∧
      Rep z g ∧ z.core = x.core := by
  simp only [tensorMatrixProduct, FullTensor.tensorMatrixProduct, Option.getD_some, hfit.length_eq, ne_eq, not_true_eq_false,
    if_false]
  induction ms generalizing x f dims with
  | nil =>
    cases hfit
    exact ⟨x, f, rfl, rfl, hx, rfl⟩
  | cons M ms ih =>
    cases hfit with
    | cons hM hrest =>
      rename_i d dims
      obtain ⟨hdo, m, hMs⟩ := hM
      have hord : f.order = x.order := by
        show f.shape.length = x.space.length
        rw [((rep_iff hx.1).1 hx).1]; simp [Cn.shape]
      obtain ⟨B, C, g, hB, hC, hg, hrep, hgs⟩ := tmpStep_rep x f hx M d m (by omega) hMs
      rw [List.nodup_cons] at hnd
      obtain ⟨z, g', i1, i2, i3, i4⟩ := ih ⟨x.space.set d C, x.core⟩ g hrep dims hnd.2 (by
        rw [List.forall₂_iff_get] at hrest ⊢
        refine ⟨hrest.1, fun i ha hb => ?_⟩
        obtain ⟨q1, m', q2⟩ := hrest.2 i ha hb
        refine ⟨by show _ < g.shape.length; rw [hgs, List.length_set]; exact q1, m', ?_⟩
        rw [hgs, getD_set, if_neg]
        · exact q2
        · rintro ⟨he, _⟩
          exact hnd.1 (he ▸ List.get_mem _ _))
      refine ⟨z, g', ?_, ?_, i3, i4⟩
      · simp only [List.zip_cons_cons, List.foldlM_cons, hB, hC, bind, Except.bind] at i1 ⊢
        exact i1
      · simp only [List.zip_cons_cons, List.foldlM_cons, hg, bind, Except.bind] at i2 ⊢
        exact i2

/-- `representation_rank()` is the number of terms of the sum of products given by `full()`, it adds up in a sum of tensors, and
`storage()` is the rank times one plus the sum of the sizes. -/
theorem representationRank_spec [CommSemiring R] (x : Cn R) (h : WF x) :
    (∃ y, full x = .ok y ∧ ∀ idx, InBox x.shape idx → y.get idx = ∑ i ∈ range (representationRank x), x.core.getD i 0 *
      (List.zipWith (fun (M : Arr R) j => M.get [j, i]) x.space idx).prod) ∧
    (∀ y z, WF y → x.shape = y.shape → add x y = .ok z → representationRank z = representationRank x + representationRank y) ∧
    storage x = representationRank x * (1 + x.shape.sum) := by
  refine ⟨?_, ?_, ?_⟩
  · obtain ⟨y, h1, h2, h3⟩ := full_spec x h
    exact ⟨y, h1, fun idx hi => h3 idx (h2 ▸ hi)⟩
  · intro y z hy hs hz
    obtain ⟨f, f1, f2, f3⟩ := full_spec x h
    obtain ⟨g, g1, g2, g3⟩ := full_spec y hy
    obtain ⟨z', z1, _, z3⟩ := add_spec x y f g ⟨h, f, f1, ⟨rfl, fun _ _ => rfl⟩⟩ ⟨hy, g, g1, ⟨rfl, fun _ _ => rfl⟩⟩ (by rw [f2, g2, hs])
    rw [hz] at z1; cases z1
    exact z3
  · have key : ∀ l : List (Arr R), (∀ M ∈ l, ∃ n, M.shape = [n, x.core.length]) →
        (l.map (fun M => M.shape.prod)).sum = x.core.length * (l.map (fun M => M.shape.getD 0 0)).sum := by
      intro l
      induction l with
      | nil => intro _; simp
      | cons M l ih =>
        intro hl
        obtain ⟨n, hn⟩ := hl M (by simp)
        rw [List.map_cons, List.map_cons, List.sum_cons, List.sum_cons, ih (fun M hM => hl M (by simp [hM])), hn]
        simp only [List.prod_cons, List.prod_nil, List.getD_cons_zero]
        ring
    unfold storage representationRank Cn.shape
    rw [key _ h.cols]
    ring

end Verif.Canonical
