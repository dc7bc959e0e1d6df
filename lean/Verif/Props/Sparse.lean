import Verif.Lemmas.Sparse

/-!
# Properties of `SparseTensor` (C26, C27)

`Represents s x`: the tensor `s` is well formed and `s.full()` is the array `x`.
-/

namespace Verif.Sparse

open Verif.Arr Verif.MultiIndices Finset

variable {R : Type}

/-- `s` has distinct indices inside its shape, and `s.full()` returns `x`. -/
def Represents [Zero R] (s : Sp R) (x : Arr R) : Prop := WF s ∧ ∃ y, full s = .ok y ∧ y ≃ₐ x

theorem represents_iff [Zero R] {s : Sp R} {x : Arr R} (h : WF s) :
    Represents s x ↔ s.shape = x.shape ∧ ∀ idx, InBox s.shape idx → valueAt s.rows s.data idx = x.get idx := by
  unfold Represents
  rw [full_ok h]
  constructor
  · rintro ⟨_, y, hy, h1, h2⟩
    cases hy
    exact ⟨h1, h2⟩
  · rintro ⟨h1, h2⟩
    exact ⟨h, _, rfl, h1, h2⟩

/-! ### C26 -/

/-- `x.sparse().full()` is `x`; the sparse version stores exactly the nonzero entries, in column-major order. -/
theorem ofFull_spec [Zero R] [DecidableEq R] (x : Arr R) :
    ∃ s, ofFull x = .ok s ∧ Represents s x ∧ (∀ v ∈ s.data, v ≠ 0) ∧
      (∀ idx, idx ∈ s.rows ↔ InBox x.shape idx ∧ x.get idx ≠ 0) ∧
      (s.rows.map (ravelF x.shape)).Pairwise (· < ·) := by
  set N := x.shape.prod with hN
  set dat := (List.range N).map (fun k => x.get (unravelF x.shape k)) with hdat
  have hd : ∀ k, k < N → dat.getD k 0 = x.get (unravelF x.shape k) := by
    intro k hk
    rw [hdat, List.getD_eq_getElem _ _ (by simpa using hk), List.getElem_map, List.getElem_range]
  set ind := (List.range N).filter (fun k => dat.getD k 0 ≠ 0) with hind
  have hmem : ∀ k, k ∈ ind ↔ k < N ∧ x.get (unravelF x.shape k) ≠ 0 := by
    intro k
    rw [hind, List.mem_filter, List.mem_range]
    constructor
    · rintro ⟨h1, h2⟩; rw [hd k h1] at h2; exact ⟨h1, by simpa using h2⟩
    · rintro ⟨h1, h2⟩; rw [hd k h1]; exact ⟨h1, by simpa using h2⟩
  have hndi : ind.Nodup := List.nodup_range.filter _
  have hrows : ∀ idx, idx ∈ ind.map (unravelF x.shape) ↔ InBox x.shape idx ∧ x.get idx ≠ 0 := by
    intro idx
    rw [List.mem_map]
    constructor
    · rintro ⟨k, hk, rfl⟩
      obtain ⟨h1, h2⟩ := (hmem k).1 hk
      exact ⟨unravelF_inBox h1, h2⟩
    · rintro ⟨h1, h2⟩
      exact ⟨ravelF x.shape idx, (hmem _).2 ⟨ravelF_lt h1, by rwa [unravelF_ravelF h1]⟩, unravelF_ravelF h1⟩
  have hravel : (ind.map (unravelF x.shape)).map (ravelF x.shape) = ind := by
    rw [List.map_map]
    conv_rhs => rw [← List.map_id ind]
    apply List.map_congr_left
    intro k hk
    exact ravelF_unravelF ((hmem k).1 hk).1
  have hwf : WF (⟨x.shape, ind.map (unravelF x.shape), ind.map (fun k => dat.getD k 0),
      (ind.map (fun k => dat.getD k 0)).length == 1, x.shape.length == 1⟩ : Sp R) := by
    refine ⟨by simp, ?_, fun r hr => ((hrows r).1 hr).1⟩
    apply List.Nodup.of_map (ravelF x.shape)
    rw [hravel]; exact hndi
  refine ⟨_, ?_, (represents_iff hwf).2 ⟨rfl, ?_⟩, ?_, hrows, ?_⟩
  · simp only [ofFull, mk, ← hN, ← hdat, ← hind]
    rw [if_pos (by simp)]
  · intro idx hi
    by_cases h0 : x.get idx = 0
    · rw [h0]
      apply valueAt_not_mem
      intro hm
      exact ((hrows idx).1 hm).2 h0
    · have hi : InBox x.shape idx := hi
      have hk : ravelF x.shape idx ∈ ind := (hmem _).2 ⟨ravelF_lt hi, by rwa [unravelF_ravelF hi]⟩
      apply valueAt_mem hwf.len hwf.nodup
      show (idx, x.get idx) ∈ (ind.map (unravelF x.shape)).zip (ind.map (fun k => dat.getD k 0))
      rw [List.zip_map', List.mem_map]
      refine ⟨_, hk, ?_⟩
      rw [unravelF_ravelF hi, hd _ (ravelF_lt hi), unravelF_ravelF hi]
  · intro v hv
    obtain ⟨k, hk, rfl⟩ := List.mem_map.1 hv
    have := (hmem k).1 hk
    rw [hd k this.1]; exact this.2
  · rw [hravel]
    exact List.pairwise_lt_range.filter _

/-- `full()` refuses an entry whose subscripts are outside the shape. -/
theorem full_refused [Zero R] (s : Sp R) (r : List Nat) (hr : r ∈ s.rows) (h : ¬ InBox s.shape r) :
    full s = .error .indexError := by
  unfold full
  rw [if_pos]
  rw [List.any_eq_true]
  exact ⟨r, hr, by simpa using h⟩

/-- `s.full().sparse()` has the same entries as `s`, without explicit zeros. -/
theorem full_ofFull_spec [Zero R] [DecidableEq R] (s : Sp R) (h : WF s) :
    ∃ x t, full s = .ok x ∧ ofFull x = .ok t ∧ Represents t x ∧ t.shape = s.shape ∧
      (∀ idx, idx ∈ t.rows ↔ idx ∈ s.rows ∧ valueAt s.rows s.data idx ≠ 0) := by
  obtain ⟨t, h1, h2, h3, h4, _⟩ := ofFull_spec (⟨s.shape, valueAt s.rows s.data⟩ : Arr R)
  refine ⟨_, t, full_ok h, h1, h2, ?_, ?_⟩
  · exact ((represents_iff h2.1).1 h2).1
  · intro idx
    rw [h4]
    constructor
    · rintro ⟨hb, hne⟩
      refine ⟨?_, hne⟩
      by_contra hm
      exact hne (valueAt_not_mem hm)
    · rintro ⟨hm, hne⟩
      exact ⟨h.inBox _ hm, hne⟩

/-- `transpose(dims)` and `itranspose(dims)` of the sparse tensor are those of the full tensor. -/
theorem transpose_spec [Zero R] (s : Sp R) (x : Arr R) (hr : Represents s x) (hz : s.shapeZeroD = false) (dims : List Nat)
    (hd : dims.Perm (List.range x.order)) :
    ∃ t y, transpose s dims = .ok t ∧ FullTensor.transposeT x dims = .ok y ∧ Represents t y ∧
      t.shapeZeroD = false := by
  have hwf := hr.1
  obtain ⟨hsh, hval⟩ := (represents_iff hwf).1 hr
  have hsl : s.shape.length = x.order := by rw [hsh]; rfl
  have hlen := perm_len hd
  have hany : (dims.any (fun k => decide (s.shape.length ≤ k))) = false := by
    rw [List.any_eq_false]
    intro k hk
    have := List.mem_range.1 (hd.mem_iff.1 hk)
    simp; omega
  have hinj : ∀ a b : List Nat, a.length = x.order → b.length = x.order → (applyPerm dims a = applyPerm dims b ↔ a = b) := by
    intro a b ha hb
    constructor
    · intro h
      rw [← invPerm_applyPerm hd ha, h, invPerm_applyPerm hd hb]
    · rintro rfl; rfl
  have hrl : ∀ r ∈ s.rows, r.length = x.order := fun r h => by rw [(hwf.inBox r h).length_eq, hsl]
  have hwf' : WF (⟨applyPerm dims s.shape, s.rows.map (applyPerm dims), s.data, s.dataZeroD, false⟩ : Sp R) := by
    refine ⟨by simpa using hwf.len, ?_, ?_⟩
    · refine hwf.nodup.map_on ?_
      intro a ha b hb h
      exact (hinj a b (hrl a ha) (hrl b hb)).1 h
    · intro r hr
      obtain ⟨r0, h0, rfl⟩ := List.mem_map.1 hr
      exact (inBox_applyPerm hd hsl (hrl r0 h0)).2 (hwf.inBox _ h0)
  refine ⟨_, x.transpose dims, ?_, by simp [FullTensor.transposeT, hd], (represents_iff hwf').2 ⟨?_, ?_⟩, rfl⟩
  · simp [transpose, hz, hany]
  · simp [Arr.transpose, hsh]
  · intro idx hi
    have hil : idx.length = x.order := by rw [hi.length_eq]; simp [hlen]
    have hb : InBox s.shape (applyPerm (invPerm dims) idx) := by
      have := (inBox_applyPerm hd (s := s.shape) (v := applyPerm (invPerm dims) idx) hsl (by simp [hlen])).1
      rw [applyPerm_invPerm hd hil] at this
      exact this hi
    show valueAt (s.rows.map (applyPerm dims)) s.data idx = x.get (applyPerm (invPerm dims) idx)
    rw [← hval _ hb]
    conv_lhs => rw [← applyPerm_invPerm hd hil]
    apply valueAt_map
    intro r hr
    exact hinj _ _ (hrl r hr) (by simp [hlen])

theorem itranspose_spec [Zero R] (s : Sp R) (x : Arr R) (hr : Represents s x) (hz : s.shapeZeroD = false) (dims : List Nat)
    (hd : dims.Perm (List.range x.order)) :
    ∃ t y, itranspose s dims = .ok t ∧ FullTensor.itransposeT x dims = .ok y ∧ Represents t y ∧
      t.shapeZeroD = false := by
  unfold itranspose FullTensor.itransposeT
  rw [argsort_eq_invPerm hd]
  exact transpose_spec s x hr hz _ (invPerm_perm hd)

/-- A tensor of order one made by the constructor cannot be transposed (its `shape` is 0-d). -/
theorem transpose_order_one [Zero R] (data : List R) (rows : List (List Nat)) (n : Nat) (s : Sp R) (dims : List Nat)
    (h : mk data rows [n] = .ok s) : transpose s dims = .error .indexError := by
  unfold mk at h
  split at h
  · cases h; simp [transpose]
  · simp at h

/-- `reshape(shape)` of the sparse tensor is that of the full tensor. -/
theorem reshape_spec [Zero R] (s : Sp R) (x : Arr R) (hr : Represents s x) (shape : List Nat)
    (hp : shape.prod = x.shape.prod) :
    ∃ t y, reshape s shape = .ok t ∧ FullTensor.reshape x shape = .ok y ∧ Represents t y := by
  have hwf := hr.1
  obtain ⟨hsh, hval⟩ := (represents_iff hwf).1 hr
  have hany1 : (s.rows.any (fun r => !decide (InBox s.shape r))) = false := by
    rw [List.any_eq_false]; intro r h; simp [hwf.inBox r h]
  have hlt : ∀ r ∈ s.rows, ravelF s.shape r < shape.prod := by
    intro r h; rw [hp, ← hsh]; exact ravelF_lt (hwf.inBox r h)
  have hany2 : ((s.rows.map (ravelF s.shape)).any (fun k => decide (shape.prod ≤ k))) = false := by
    rw [List.any_eq_false]
    intro k hk
    obtain ⟨r, h, rfl⟩ := List.mem_map.1 hk
    have := hlt r h
    simp; omega
  set f := fun r => unravelF shape (ravelF s.shape r) with hf
  have hinj : ∀ a b, InBox s.shape a → InBox s.shape b → (f a = f b ↔ a = b) := by
    intro a b ha hb
    constructor
    · intro h
      have h1 : ravelF shape (f a) = ravelF s.shape a := ravelF_unravelF (by rw [hp, ← hsh]; exact ravelF_lt ha)
      have h2 : ravelF shape (f b) = ravelF s.shape b := ravelF_unravelF (by rw [hp, ← hsh]; exact ravelF_lt hb)
      rw [← unravelF_ravelF ha, ← unravelF_ravelF hb, ← h1, ← h2, h]
    · rintro rfl; rfl
  have hmm : (s.rows.map (ravelF s.shape)).map (unravelF shape) = s.rows.map f := by
    rw [List.map_map]; rfl
  have hwf' : WF (⟨shape, s.rows.map f, s.data, s.dataZeroD, false⟩ : Sp R) := by
    refine ⟨by simpa using hwf.len, ?_, ?_⟩
    · refine hwf.nodup.map_on ?_
      intro a ha b hb h
      exact (hinj a b (hwf.inBox a ha) (hwf.inBox b hb)).1 h
    · intro r hr
      obtain ⟨r0, h0, rfl⟩ := List.mem_map.1 hr
      exact unravelF_inBox (hlt r0 h0)
  refine ⟨_, x.reshapeF shape, ?_, by simp [FullTensor.reshape, hp], (represents_iff hwf').2 ⟨rfl, ?_⟩⟩
  · simp only [reshape, hany1, hany2, Bool.false_eq_true, if_false, hmm]
  · intro idx hi
    have hi : InBox shape idx := hi
    have hk : ravelF shape idx < s.shape.prod := by rw [hsh, ← hp]; exact ravelF_lt hi
    have hb : InBox s.shape (unravelF s.shape (ravelF shape idx)) := unravelF_inBox hk
    show valueAt (s.rows.map f) s.data idx = x.get (unravelF x.shape (ravelF shape idx))
    rw [← hsh, ← hval _ hb]
    have : idx = f (unravelF s.shape (ravelF shape idx)) := by
      simp only [hf]
      rw [ravelF_unravelF hk, unravelF_ravelF hi]
    conv_lhs => rw [this]
    apply valueAt_map
    intro r h
    exact hinj _ _ (hwf.inBox r h) hb

/-! ### C27 -/

/-- `x + y`: the sum of the full tensors; the indices of the result are the union. -/
theorem add_spec [AddZeroClass R] (s t : Sp R) (x y : Arr R) (hs : Represents s x) (ht : Represents t y)
    (hsh : x.shape = y.shape) (hne : s.rows ≠ [] ∨ t.rows ≠ []) :
    ∃ u, add s t = .ok u ∧ Represents u (FullTensor.add x y) ∧ ∀ r, r ∈ u.rows ↔ r ∈ s.rows ∨ r ∈ t.rows := by
  have hws := hs.1
  have hwt := ht.1
  obtain ⟨h1, h2⟩ := (represents_iff hws).1 hs
  obtain ⟨g1, g2⟩ := (represents_iff hwt).1 ht
  set I := dedupFirst (s.rows ++ t.rows) with hI
  have hmem : ∀ r, r ∈ I ↔ r ∈ s.rows ∨ r ∈ t.rows := by
    intro r; rw [hI, mem_dedupFirst, List.mem_append]
  have hIne : I ≠ [] := by
    intro h
    rcases hne with hne | hne
    · obtain ⟨r, hr⟩ := List.exists_mem_of_ne_nil _ hne
      have := (hmem r).2 (Or.inl hr); rw [h] at this; simp at this
    · obtain ⟨r, hr⟩ := List.exists_mem_of_ne_nil _ hne
      have := (hmem r).2 (Or.inr hr); rw [h] at this; simp at this
  have haddR : addRows s.rows t.rows = I := by simp only [addRows, ← hI]; rw [if_neg hIne]
  have hnd : I.Nodup := nodup_dedupFirst _
  obtain ⟨d1, a1, a2, a3⟩ := addAt_idxOf (base := List.replicate I.length (0 : R)) hnd hws.nodup
    (fun r hr => (hmem r).2 (Or.inl hr)) (by simp) hws.len
  obtain ⟨d2, b1, b2, b3⟩ := addAt_idxOf (base := d1) hnd hwt.nodup
    (fun r hr => (hmem r).2 (Or.inr hr)) a2 hwt.len
  have hval : ∀ idx, valueAt I d2 idx = valueAt s.rows s.data idx + valueAt t.rows t.data idx := by
    intro idx
    by_cases hm : idx ∈ I
    · obtain ⟨k, hk, rfl⟩ := List.getElem_of_mem hm
      rw [valueAt_getElem b2 hnd k hk, ← List.getD_eq_getElem _ 0, b3 k hk, a3 k hk]
      rw [List.getD_eq_getElem _ _ (by simpa using hk)]
      simp
    · have := (not_congr (hmem idx)).1 hm
      rw [valueAt_not_mem hm, valueAt_not_mem (fun h => this (Or.inl h)), valueAt_not_mem (fun h => this (Or.inr h)),
        add_zero]
  have hwf : WF (⟨s.shape, I, d2, d2.length == 1, s.shape.length == 1⟩ : Sp R) := by
    refine ⟨b2, hnd, ?_⟩
    intro r hr
    rcases (hmem r).1 hr with h | h
    · exact hws.inBox r h
    · have := hwt.inBox r h
      rw [g1, ← hsh, ← h1] at this
      exact this
  refine ⟨_, ?_, (represents_iff hwf).2 ⟨h1, ?_⟩, hmem⟩
  · simp only [add, haddR, interPairs_subset hnd (fun r hr => (hmem r).2 (Or.inl hr)),
      interPairs_subset hnd (fun r hr => (hmem r).2 (Or.inr hr)), a1, b1, bind, Except.bind, mk]
    rw [if_pos b2]
  · intro idx hi
    show valueAt I d2 idx = x.get idx + y.get idx
    rw [hval, h2 idx hi, g2 idx (by rw [g1, ← hsh, ← h1]; exact hi)]

/-- The sum of two tensors without entries has one stored index, of length zero. -/
theorem add_empty [AddZeroClass R] (s t : Sp R) (hs : s.rows = []) (ht : t.rows = []) (hsd : s.data = []) (htd : t.data = []) :
    ∃ u, add s t = .ok u ∧ u.rows = [[]] := by
  refine ⟨⟨s.shape, [[]], [0], true, s.shape.length == 1⟩, ?_, rfl⟩
  simp [add, hs, ht, hsd, htd, addRows, dedupFirst, dedupAux, interPairs, addAt, mk, bind, Except.bind]

/-- The data of a tensor can be indexed: it was not built by the constructor with exactly one entry. -/
def Indexable (s : Sp R) : Prop := s.dataZeroD = false

theorem pairs_sum [AddCommMonoid R] {I J : List (List Nat)} {f : Nat → Nat → R} (hn : I.Nodup) :
    ((interPairs I J).map (fun p => f p.2 p.1)).sum =
      ((List.range J.length).map (fun j => if J.getD j [] ∈ I then f (I.idxOf (J.getD j [])) j else 0)).sum := by
  rw [interPairs_eq hn, List.map_map]
  generalize List.range J.length = l
  induction l with
  | nil => rfl
  | cons j l ih =>
    by_cases h : J.getD j [] ∈ I
    · rw [List.filter_cons_of_pos (by simpa using h), List.map_cons, List.sum_cons, List.map_cons, List.sum_cons, ih,
        if_pos h]; rfl
    · rw [List.filter_cons_of_neg (by simpa using h), List.map_cons, List.sum_cons, ih, if_neg h, zero_add]

theorem valueAt_idxOf [Zero R] {rows : List (List Nat)} {data : List R} (hl : data.length = rows.length)
    (hn : rows.Nodup) (r : List Nat) :
    valueAt rows data r = if r ∈ rows then data.getD (rows.idxOf r) 0 else 0 := by
  split
  · rename_i hr
    have hlt := List.idxOf_lt_length_of_mem hr
    have := valueAt_getElem hl hn _ hlt
    rw [List.getElem_idxOf hlt] at this
    rw [this, List.getD_eq_getElem]
  · rename_i hr; exact valueAt_not_mem hr

/-- `x.dot(y)` is the scalar product of the full tensors. -/
theorem dot_spec [CommSemiring R] (s t : Sp R) (x y : Arr R) (hs : Represents s x) (ht : Represents t y)
    (hsh : x.shape = y.shape) (his : Indexable s) (hit : Indexable t) :
    dot s t = .ok (FullTensor.dot x y) := by
  have hws := hs.1
  have hwt := ht.1
  obtain ⟨h1, h2⟩ := (represents_iff hws).1 hs
  obtain ⟨g1, g2⟩ := (represents_iff hwt).1 ht
  unfold dot
  simp only [show s.dataZeroD = false from his, show t.dataZeroD = false from hit, Bool.or_self, Bool.false_eq_true, if_false]
  congr 1
  rw [pairs_sum (f := fun i j => s.data.getD i 0 * t.data.getD j 0) hws.nodup]
  have e1 : FullTensor.dot x y = sumBox y.shape (fun idx => valueAt t.rows t.data idx * valueAt s.rows s.data idx) := by
    unfold FullTensor.dot sumAll
    show sumBox x.shape (fun idx => x.get idx * y.get idx) = _
    rw [hsh]
    refine sumBox_congr (fun idx hi => ?_)
    rw [h2 idx (by rw [h1, hsh]; exact hi), g2 idx (by rw [g1]; exact hi), mul_comm]
  rw [e1, ← g1, sumBox_valueAt hwt.len hwt.nodup hwt.inBox]
  congr 1
  apply List.ext_getElem (by simp [hwt.len])
  intro j ha hb
  have hj : j < t.rows.length := by simpa using ha
  simp only [List.getElem_map, List.getElem_range, List.getElem_zip]
  rw [valueAt_idxOf hws.len hws.nodup, List.getD_eq_getElem _ _ hj]
  split
  · rw [List.getD_eq_getElem t.data _ (by rw [hwt.len]; exact hj), mul_comm]
  · simp

/-- `x * y` is the elementwise product; its indices are the common ones, each once. -/
theorem mul_spec [CommSemiring R] (s t : Sp R) (x y : Arr R) (hs : Represents s x) (ht : Represents t y)
    (hsh : x.shape = y.shape) (his : Indexable s) (hit : Indexable t) :
    ∃ u, mul s t = .ok u ∧ Represents u (FullTensor.mul x y) ∧ ∀ r, r ∈ u.rows ↔ r ∈ s.rows ∧ r ∈ t.rows := by
  have hws := hs.1
  have hwt := ht.1
  obtain ⟨h1, h2⟩ := (represents_iff hws).1 hs
  obtain ⟨g1, g2⟩ := (represents_iff hwt).1 ht
  set js := (List.range t.rows.length).filter (fun j => t.rows.getD j [] ∈ s.rows) with hjs
  have hrows : (interPairs s.rows t.rows).map (fun p => s.rows.getD p.2 []) = js.map (fun j => t.rows.getD j []) := by
    rw [interPairs_eq hws.nodup, List.map_map]
    apply List.map_congr_left
    intro j hj
    have := (List.mem_filter.1 hj).2
    simp only [decide_eq_true_eq] at this
    have hlt := List.idxOf_lt_length_of_mem this
    simp only [Function.comp]
    rw [List.getD_eq_getElem _ _ hlt, List.getElem_idxOf hlt]
  have hdata : (interPairs s.rows t.rows).map (fun p => s.data.getD p.2 0 * t.data.getD p.1 0) =
      js.map (fun j => valueAt s.rows s.data (t.rows.getD j []) * valueAt t.rows t.data (t.rows.getD j [])) := by
    rw [interPairs_eq hws.nodup, List.map_map]
    apply List.map_congr_left
    intro j hj
    have hm := (List.mem_filter.1 hj).2
    have hj := List.mem_range.1 (List.mem_filter.1 hj).1
    simp only [decide_eq_true_eq] at hm
    simp only [Function.comp]
    rw [valueAt_idxOf hws.len hws.nodup, if_pos hm]
    congr 1
    have := valueAt_getElem hwt.len hwt.nodup j hj
    rw [List.getD_eq_getElem t.rows _ hj, this, List.getD_eq_getElem]
  have hmem : ∀ r, r ∈ js.map (fun j => t.rows.getD j []) ↔ r ∈ s.rows ∧ r ∈ t.rows := by
    intro r
    rw [List.mem_map]
    constructor
    · rintro ⟨j, hj, rfl⟩
      have hm := (List.mem_filter.1 hj).2
      have hj := List.mem_range.1 (List.mem_filter.1 hj).1
      refine ⟨by simpa using hm, ?_⟩
      rw [List.getD_eq_getElem _ _ hj]; exact List.getElem_mem hj
    · rintro ⟨hr1, hr2⟩
      obtain ⟨j, hj, rfl⟩ := List.getElem_of_mem hr2
      refine ⟨j, List.mem_filter.2 ⟨List.mem_range.2 hj, ?_⟩, List.getD_eq_getElem _ _ hj⟩
      rw [List.getD_eq_getElem _ _ hj]; simpa using hr1
  have hnd : (js.map (fun j => t.rows.getD j [])).Nodup := by
    refine (List.nodup_range.filter _).map_on ?_
    intro a ha b hb hab
    have ha := List.mem_range.1 (List.mem_filter.1 ha).1
    have hb := List.mem_range.1 (List.mem_filter.1 hb).1
    rw [List.getD_eq_getElem _ _ ha, List.getD_eq_getElem _ _ hb] at hab
    exact (hwt.nodup.getElem_inj_iff).1 hab
  have hwf : WF (⟨s.shape, js.map (fun j => t.rows.getD j []),
      js.map (fun j => valueAt s.rows s.data (t.rows.getD j []) * valueAt t.rows t.data (t.rows.getD j [])),
      s.dataZeroD, s.shapeZeroD⟩ : Sp R) := by
    refine ⟨by simp, hnd, ?_⟩
    intro r hr
    exact hws.inBox r ((hmem r).1 hr).1
  refine ⟨_, ?_, (represents_iff hwf).2 ⟨h1, ?_⟩, hmem⟩
  · unfold mul
    simp only [show s.dataZeroD = false from his, show t.dataZeroD = false from hit, Bool.or_self, Bool.false_eq_true, if_false,
      hrows, hdata]
  · intro idx hi
    show valueAt _ _ idx = x.get idx * y.get idx
    rw [← h2 idx hi, ← g2 idx (by rw [g1, ← hsh, ← h1]; exact hi)]
    by_cases hm : idx ∈ js.map (fun j => t.rows.getD j [])
    · obtain ⟨j, hj, rfl⟩ := List.mem_map.1 hm
      apply valueAt_mem hwf.len hwf.nodup
      show (_, _) ∈ (js.map (fun j => t.rows.getD j [])).zip (js.map _)
      rw [List.zip_map', List.mem_map]
      exact ⟨j, hj, rfl⟩
    · rw [valueAt_not_mem hm]
      have := (not_congr (hmem idx)).1 hm
      by_cases h : idx ∈ s.rows
      · rw [valueAt_not_mem (rows := t.rows) (fun h' => this ⟨h, h'⟩), mul_zero]
      · rw [valueAt_not_mem (rows := s.rows) h, zero_mul]

/-- A tensor built by the constructor with exactly one entry has 0-d data: `dot`, `*` and `eval_at_indices`
raise `IndexError`. This is the case excluded by `Indexable` above. -/
theorem one_entry_raises [CommSemiring R] (v : R) (r : List Nat) (shape : List Nat) (t : Sp R) (ind : List (List Nat)) :
    ∃ s, mk [v] [r] shape = .ok s ∧ ¬ Indexable s ∧ dot s t = .error .indexError ∧ mul s t = .error .indexError ∧
      evalAtIndices s ind = .error .indexError := by
  refine ⟨⟨shape, [r], [v], true, shape.length == 1⟩, rfl, by simp [Indexable], ?_, ?_, ?_⟩
  · simp [dot]
  · simp [mul]
  · simp [evalAtIndices]

/-- The constructor gives an indexable tensor for any other number of entries. -/
theorem mk_indexable (data : List R) (rows : List (List Nat)) (shape : List Nat) (s : Sp R)
    (h : mk data rows shape = .ok s) : Indexable s ↔ data.length ≠ 1 := by
  unfold mk at h
  split at h
  · cases h; simp [Indexable]
  · simp at h

/-- `eval_at_indices(ind)`: for each row of `ind`, the entry of the tensor there, zero if it is
not stored. -/
theorem evalAtIndices_spec [Zero R] (s : Sp R) (x : Arr R) (hs : Represents s x) (his : Indexable s)
    (ind : List (List Nat)) (hi : ∀ r ∈ ind, InBox x.shape r) :
    ∃ ev, evalAtIndices s ind = .ok ev ∧ ev = ind.map x.get := by
  have hws := hs.1
  obtain ⟨h1, h2⟩ := (represents_iff hws).1 hs
  unfold evalAtIndices
  simp only [show s.dataZeroD = false from his, Bool.false_eq_true, if_false]
  refine ⟨_, rfl, ?_⟩
  set pairs := (List.range s.rows.length).flatMap fun j =>
      ((List.range ind.length).filter fun i => ind.getD i [] == s.rows.getD j []).map fun i => (j, i) with hp
  have hmemp : ∀ j i, (j, i) ∈ pairs ↔ j < s.rows.length ∧ i < ind.length ∧ ind.getD i [] = s.rows.getD j [] := by
    intro j i
    simp [hp]
  have hswap : pairs.foldl (fun ev p => ev.set p.2 (s.data.getD p.1 0)) (List.replicate ind.length 0) =
      (pairs.map (fun p => (p.2, p.1))).foldl (fun ev p => ev.set p.1 (s.data.getD p.2 0)) (List.replicate ind.length 0) := by
    rw [List.foldl_map]
  rw [hswap]
  have hnd : ((pairs.map (fun p => (p.2, p.1))).map Prod.fst).Nodup := by
    rw [List.map_map]
    show (pairs.map (fun p => p.2)).Nodup
    rw [hp, List.map_flatMap, List.nodup_flatMap]
    refine ⟨?_, ?_⟩
    · intro j _
      rw [List.map_map]
      show (List.map (fun i => i) _).Nodup
      rw [List.map_id']
      exact List.nodup_range.filter _
    · rw [List.pairwise_iff_getElem]
      intro a b ha hb hab
      simp only [List.length_range] at ha hb
      simp only [List.getElem_range, Function.onFun, List.disjoint_left, List.mem_map, List.mem_filter, List.mem_range,
        beq_iff_eq]
      rintro i ⟨p, ⟨i', ⟨_, h3⟩, rfl⟩, h5⟩ ⟨q, ⟨i'', ⟨_, h4⟩, rfl⟩, h6⟩
      have h5 : i' = i := h5
      have h6 : i'' = i := h6
      subst h5; subst h6
      rw [h3, List.getD_eq_getElem _ _ ha, List.getD_eq_getElem _ _ hb] at h4
      have := (hws.nodup.getElem_inj_iff).1 h4
      omega
  apply List.ext_getElem
  · rw [foldl_set_length]; simp
  · intro i ha hb
    have hil : i < ind.length := by simpa using hb
    rw [← List.getD_eq_getElem _ 0 ha, List.getElem_map]
    have hbox := hi _ (List.getElem_mem hil)
    rw [← h2 _ (by rw [h1]; exact hbox)]
    by_cases hm : ind[i] ∈ s.rows
    · obtain ⟨j, hj, hje⟩ := List.getElem_of_mem hm
      have hmem : (i, j) ∈ pairs.map (fun p => (p.2, p.1)) := by
        rw [List.mem_map]
        refine ⟨(j, i), (hmemp j i).2 ⟨hj, hil, ?_⟩, rfl⟩
        rw [List.getD_eq_getElem _ _ hil, List.getD_eq_getElem _ _ hj, hje]
      have := foldl_set_mem _ (fun p : Nat × Nat => s.data.getD p.2 0) (List.replicate ind.length (0 : R)) hnd _ hmem (by simpa using hil)
      simp only at this
      rw [this, ← hje, valueAt_getElem hws.len hws.nodup j hj, List.getD_eq_getElem]
    · rw [valueAt_not_mem hm, foldl_set_not_mem]
      · rw [List.getD_eq_getElem _ _ (by simpa using hil)]; simp
      · rintro ⟨i', j⟩ hmem rfl
        rw [List.mem_map] at hmem
        obtain ⟨⟨a, b⟩, hab, he⟩ := hmem
        cases he
        obtain ⟨h3, h4, h5⟩ := (hmemp _ _).1 hab
        rw [List.getD_eq_getElem _ _ h4, List.getD_eq_getElem _ _ h3] at h5
        exact hm (h5 ▸ List.getElem_mem h3)

/-- The hypotheses are met by a concrete pair of tensors of shape `(2, 3)`. -/
example : ∃ s t : Sp Int, mk [5, -2] [[0, 1], [1, 2]] [2, 3] = .ok s ∧ mk [2, 7] [[1, 2], [1, 0]] [2, 3] = .ok t ∧
    WF s ∧ WF t ∧ Indexable s ∧ Indexable t := by
  refine ⟨_, _, rfl, rfl, ⟨by decide, by decide, by decide⟩, ⟨by decide, by decide, by decide⟩, by simp [Indexable], by simp [Indexable]⟩

end Verif.Sparse
