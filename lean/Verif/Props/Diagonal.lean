import Verif.Lemmas.Entries
import Verif.Model.DiagonalTensor
import Verif.Props.FullTensorEval

/-!
# Properties of `DiagonalTensor` (C29, C30)

The specification is the dense tensor: every statement compares `full` of the result with the operation on the
`full` versions (or with its explicit formula).
-/

namespace Verif.Diagonal

open Verif.Arr Finset Verif.Sparse

variable {R : Type}

/-! ### entries of a diagonal tensor -/

/-- The stored entries of a diagonal tensor. -/
def dgRows (n d : Nat) : List (List Nat) := (List.range n).map (fun i => List.replicate d i)

theorem replicate_inj_of_pos {d : Nat} (hd : 1 ≤ d) {i j : Nat} (h : List.replicate d i = List.replicate d j) : i = j := by
  obtain ⟨e, rfl⟩ : ∃ e, d = e + 1 := ⟨d - 1, by omega⟩
  rw [List.replicate_succ, List.replicate_succ, List.cons.injEq] at h
  exact h.1

theorem dgRows_nodup {n d : Nat} (hd : 1 ≤ d) : (dgRows n d).Nodup :=
  List.nodup_range.map_on (fun _ _ _ _ h => replicate_inj_of_pos hd h)

theorem inBox_replicate {n d i : Nat} (h : i < n) : InBox (List.replicate d n) (List.replicate d i) := by
  rw [inBox_iff_getD]
  refine ⟨by simp, fun k hk => ?_⟩
  have hk : k < d := by simpa using hk
  rw [List.getD_eq_getElem _ _ (by simpa using hk), List.getD_eq_getElem _ _ (by simpa using hk)]
  simpa using h

theorem dgRows_inBox {n d : Nat} : ∀ r ∈ dgRows n d, InBox (List.replicate d n) r := by
  intro r hr
  obtain ⟨i, hi, rfl⟩ := List.mem_map.1 hr
  exact inBox_replicate (List.mem_range.1 hi)

theorem diag_get_eq_valueAt [Zero R] (v : List R) (d : Nat) (idx : List Nat) :
    (FullTensor.diag v d).get idx = valueAt (dgRows v.length d) v idx := by
  have hz : (dgRows v.length d).zip v = (List.range v.length).map (fun i => (List.replicate d i, v.getD i 0)) := by
    apply List.ext_getElem (by simp [dgRows])
    intro k h1 h2
    have hk : k < v.length := by simpa using h2
    simp only [dgRows, List.getElem_zip, List.getElem_map, List.getElem_range]
    rw [List.getD_eq_getElem _ _ hk]
  unfold valueAt FullTensor.diag
  rw [hz, List.foldl_map]
  simp only
  congr 1
  funext acc i
  by_cases h : idx = List.replicate d i
  · rw [if_pos h, if_pos h.symm]
  · rw [if_neg h, if_neg (fun h' => h h'.symm)]

theorem dgRows_length (n d : Nat) : (dgRows n d).length = n := by simp [dgRows]

theorem diag_get_replicate [Zero R] (v : List R) {d i : Nat} (hd : 1 ≤ d) (hi : i < v.length) :
    (FullTensor.diag v d).get (List.replicate d i) = v.getD i 0 := by
  rw [diag_get_eq_valueAt]
  have hk : i < (dgRows v.length d).length := by rw [dgRows_length]; exact hi
  have := valueAt_getElem (rows := dgRows v.length d) (data := v) (by simp [dgRows]) (dgRows_nodup hd) i hk
  rw [show (dgRows v.length d)[i] = List.replicate d i by simp [dgRows]] at this
  rw [this, List.getD_eq_getElem _ _ hi]

theorem diag_get_off [Zero R] (v : List R) {d : Nat} {idx : List Nat} (h : ∀ i, i < v.length → idx ≠ List.replicate d i) :
    (FullTensor.diag v d).get idx = 0 := by
  rw [diag_get_eq_valueAt]
  apply valueAt_not_mem
  intro hm
  obtain ⟨i, hi, rfl⟩ := List.mem_map.1 hm
  exact h i (List.mem_range.1 hi) rfl

/-- An index tuple of a diagonal tensor is constant, or not. -/
theorem diag_cases {n d : Nat} {idx : List Nat} (hd : 1 ≤ d) (h : InBox (List.replicate d n) idx) :
    (∃ i, i < n ∧ idx = List.replicate d i) ∨ (∀ i, idx ≠ List.replicate d i) := by
  by_cases hc : ∃ i, idx = List.replicate d i
  · obtain ⟨i, rfl⟩ := hc
    left
    refine ⟨i, ?_, rfl⟩
    have := ((inBox_iff_getD _ _).1 h).2 0 (by simp; omega)
    rw [List.getD_eq_getElem _ _ (by simp; omega), List.getD_eq_getElem _ _ (by simp; omega)] at this
    simpa using this
  · right; intro i hi; exact hc ⟨i, hi⟩

/-- Sums against a diagonal tensor. -/
theorem sumBox_diag [CommSemiring R] (v : List R) {d : Nat} (hd : 1 ≤ d) (g : List Nat → R) :
    sumBox (List.replicate d v.length) (fun idx => (FullTensor.diag v d).get idx * g idx) =
      ∑ i ∈ range v.length, v.getD i 0 * g (List.replicate d i) := by
  simp only [diag_get_eq_valueAt]
  rw [sumBox_valueAt (by simp [dgRows]) (dgRows_nodup hd) dgRows_inBox]
  have hz : (dgRows v.length d).zip v = (List.range v.length).map (fun i => (List.replicate d i, v.getD i 0)) := by
    apply List.ext_getElem (by simp [dgRows])
    intro k h1 h2
    have hk : k < v.length := by simpa using h2
    simp only [dgRows, List.getElem_zip, List.getElem_map, List.getElem_range]
    rw [List.getD_eq_getElem _ _ hk]
  rw [hz, List.map_map]
  rfl

/-! ### C29: arithmetic -/

theorem getD_zipWith_gen (f : R → R → R) (a b : List R) [Zero R] (h : a.length = b.length) {i : Nat} (hi : i < a.length) :
    (List.zipWith f a b).getD i 0 = f (a.getD i 0) (b.getD i 0) := by
  rw [List.getD_eq_getElem _ _ (by simp; omega), List.getElem_zipWith, List.getD_eq_getElem _ _ hi,
    List.getD_eq_getElem _ _ (h ▸ hi)]

/-- An elementwise operation that fixes zero commutes with the conversion to a full tensor. -/
theorem full_zipWith [Zero R] (f : R → R → R) (h0 : f 0 0 = 0) (a b : List R) (d : Nat) (hd : 1 ≤ d) (h : a.length = b.length) :
    FullTensor.diag (List.zipWith f a b) d ≃ₐ (FullTensor.diag a d).zipWith f (FullTensor.diag b d) := by
  have hl : (List.zipWith f a b).length = a.length := by simp [h]
  refine ⟨by simp [FullTensor.diag, Arr.zipWith, hl], ?_⟩
  intro idx hi
  change InBox (List.replicate d (List.zipWith f a b).length) idx at hi
  rw [hl] at hi
  show _ = f _ _
  rcases diag_cases hd hi with ⟨i, hin, rfl⟩ | hoff
  · rw [diag_get_replicate _ hd (by omega), diag_get_replicate _ hd hin, diag_get_replicate _ hd (by omega),
      getD_zipWith_gen f a b h hin]
  · rw [diag_get_off _ (fun i _ => hoff i), diag_get_off _ (fun i _ => hoff i), diag_get_off _ (fun i _ => hoff i), h0]

/-- `full()` of the sum, difference, product, opposite of diagonal tensors. -/
theorem add_spec [AddZeroClass R] (x y : Dg R) (hd : 1 ≤ x.order) (ho : x.order = y.order) (hl : x.data.length = y.data.length) :
    ∃ z, add x y = .ok z ∧ full z ≃ₐ FullTensor.add (full x) (full y) := by
  refine ⟨⟨List.zipWith (· + ·) x.data y.data, x.order⟩, by simp only [add, zip2, hl, if_true, bind, Except.bind], ?_⟩
  have := full_zipWith (· + ·) (add_zero (0 : R)) x.data y.data x.order hd hl
  unfold full
  rw [← ho]; exact this

theorem sub_spec [AddGroup R] (x y : Dg R) (hd : 1 ≤ x.order) (ho : x.order = y.order) (hl : x.data.length = y.data.length) :
    ∃ z, sub x y = .ok z ∧ full z ≃ₐ FullTensor.sub (full x) (full y) := by
  refine ⟨⟨List.zipWith (· - ·) x.data y.data, x.order⟩, by simp only [sub, zip2, hl, if_true, bind, Except.bind], ?_⟩
  have := full_zipWith (· - ·) (sub_zero (0 : R)) x.data y.data x.order hd hl
  unfold full
  rw [← ho]; exact this

theorem mul_spec [MulZeroClass R] (x y : Dg R) (hd : 1 ≤ x.order) (ho : x.order = y.order) (hl : x.data.length = y.data.length) :
    ∃ z, mul x y = .ok z ∧ full z ≃ₐ FullTensor.mul (full x) (full y) := by
  refine ⟨⟨List.zipWith (· * ·) x.data y.data, x.order⟩, by simp only [mul, zip2, hl, if_true, bind, Except.bind], ?_⟩
  have := full_zipWith (· * ·) (mul_zero (0 : R)) x.data y.data x.order hd hl
  unfold full
  rw [← ho]; exact this

theorem neg_spec [AddGroup R] (x : Dg R) (hd : 1 ≤ x.order) : full (neg x) ≃ₐ FullTensor.neg (full x) := by
  refine ⟨by simp [full, neg, FullTensor.diag, FullTensor.neg, Arr.map], ?_⟩
  intro idx hi
  change InBox (List.replicate x.order (x.data.map _).length) idx at hi
  rw [List.length_map] at hi
  show (FullTensor.diag (x.data.map fun v => -v) x.order).get idx = -(FullTensor.diag x.data x.order).get idx
  rcases diag_cases hd hi with ⟨i, hin, rfl⟩ | hoff
  · rw [diag_get_replicate _ hd (by simpa using hin), diag_get_replicate _ hd hin, List.getD_eq_getElem _ _ (by simpa using hin),
      List.getElem_map, List.getD_eq_getElem _ _ hin]
  · rw [diag_get_off _ (fun i _ => hoff i), diag_get_off _ (fun i _ => hoff i), neg_zero]

/-- `dot` is the dense scalar product. -/
theorem dot_spec [CommSemiring R] (x y : Dg R) (hd : 1 ≤ x.order) (ho : x.order = y.order) (hl : x.data.length = y.data.length) :
    dot x y = .ok (FullTensor.dot (full x) (full y)) := by
  simp only [dot, zip2, hl, if_true, bind, Except.bind]
  congr 1
  show _ = sumBox (List.replicate x.order x.data.length) (fun idx => (FullTensor.diag x.data x.order).get idx *
    (FullTensor.diag y.data y.order).get idx)
  rw [sumBox_diag _ hd, ← ho]
  have : ∀ i ∈ range x.data.length, x.data.getD i 0 * (FullTensor.diag y.data x.order).get (List.replicate x.order i) =
      x.data.getD i 0 * y.data.getD i 0 := by
    intro i hi
    rw [diag_get_replicate _ hd (by have := mem_range.1 hi; omega)]
  rw [sum_congr rfl this]
  have e : List.zipWith (· * ·) x.data y.data = (List.range x.data.length).map (fun i => x.data.getD i 0 * y.data.getD i 0) := by
    apply List.ext_getElem (by simp [hl])
    intro k h1 h2
    have hk : k < x.data.length := by simpa using h2
    simp only [List.getElem_zipWith, List.getElem_map, List.getElem_range]
    rw [List.getD_eq_getElem _ _ hk, List.getD_eq_getElem _ _ (hl ▸ hk)]
  rw [e]
  rfl

/-- Tensors of different sizes are refused. -/
theorem add_refused [AddZeroClass R] (x y : Dg R) (h : x.data.length ≠ y.data.length) : add x y = .error .valueError := by
  simp [add, zip2, h, bind, Except.bind]

/-! ### C29: contractions -/

theorem entriesOff_replicate (dims : List Nat) (d i : Nat) (hnd : dims.Nodup) (hlt : ∀ k ∈ dims, k < d) :
    entriesOff dims (List.replicate d i) = List.replicate (d - dims.length) i := by
  rw [entriesOff_eq_applyPerm, List.length_replicate]
  have hl := length_setdiffRange hnd hlt
  rw [List.eq_replicate_iff]
  refine ⟨by simp; omega, ?_⟩
  intro b hb
  obtain ⟨k, hk, rfl⟩ := List.mem_map.1 hb
  have := (mem_setdiffRange.1 hk).1
  rw [List.getD_eq_getElem _ _ (by simpa using this)]; simp

/-- A diagonal tensor contracted with one vector per dimension of any list of distinct dimensions. -/
theorem tensorVectorProduct_spec [CommSemiring R] (x : Dg R) (vs : List (List R)) (dims : List Nat) (hx : x.data ≠ [])
    (hnd : dims.Nodup) (hlt : ∀ k ∈ dims, k < x.order) (hvl : vs.length = dims.length)
    (hv : ∀ v ∈ vs, v.length = x.data.length) (ho : 1 ≤ x.order) :
    ∃ r y, tensorVectorProduct x vs = .ok r ∧
      FullTensor.tensorVectorProduct (full x) (vs.map (fun v => ⟨[v.length], fun i => v.getD (i.getD 0 0) 0⟩)) (some dims) = .ok y ∧
      match r with
      | .tensor t => full t ≃ₐ y
      | .scalar c => y.shape = [] ∧ y.get [] = c := by
  set n := x.data.length with hn
  have hnpos : 0 < n := List.length_pos_iff.2 hx
  have hfs : (full x).shape = List.replicate x.order n := rfl
  obtain ⟨y, hy1, hy2, hy3⟩ := FullTensor.tensorVectorProduct_spec (full x)
    (vs.map (fun v => (⟨[v.length], fun i => v.getD (i.getD 0 0) 0⟩ : Arr R))) dims hnd (by
      rw [List.forall₂_map_left_iff, List.forall₂_iff_get]
      refine ⟨hvl, fun i ha hb => ?_⟩
      have h1 : dims.get ⟨i, hb⟩ < x.order := hlt _ (List.get_mem _ _)
      refine ⟨by show _ < (full x).shape.length; rw [hfs, List.length_replicate]; exact h1, ?_⟩
      rw [hfs, List.getD_eq_getElem _ _ (by simpa using h1), List.getElem_replicate]
      show [(vs.get ⟨i, ha⟩).length] = _
      rw [hv _ (List.get_mem _ _)])
  have hpc : prodCols n vs = .ok ((List.range n).map (fun i => (vs.map (fun v => v.getD i 0)).prod)) := by
    unfold prodCols; rw [if_pos hv]
  set data := List.zipWith (· * ·) x.data ((List.range n).map (fun i => (vs.map (fun v => v.getD i 0)).prod)) with hdata
  have hdl : data.length = n := by simp [hdata, hn]
  have hdg : ∀ i, i < n → data.getD i 0 = x.data.getD i 0 * (vs.map (fun v => v.getD i 0)).prod := by
    intro i hi
    rw [hdata, getD_zipWith_gen _ _ _ (by simp [hn]) (hn ▸ hi)]
    congr 1
    rw [List.getD_eq_getElem _ _ (by simpa using hi), List.getElem_map, List.getElem_range]
  -- the dense contraction
  have hval : ∀ jdx, InBox (List.replicate (x.order - dims.length) n) jdx →
      y.get jdx = ∑ i ∈ range n, if List.replicate (x.order - dims.length) i = jdx then data.getD i 0 else 0 := by
    intro jdx hj
    obtain ⟨idx, hidx, rfl⟩ := exists_entriesOff (shape := List.replicate x.order n) hnd (by simpa using hlt) (by
      intro k hk
      rw [List.getD_eq_getElem _ _ (by simpa using hlt k hk), List.getElem_replicate]; exact hnpos) (by
      rw [entriesOff_replicate _ _ _ hnd hlt]; exact hj)
    rw [hy3 idx hidx]
    rw [show (fun u => (full x).get (subst idx dims u) * (List.zipWith (fun (v : Arr R) j => v.get [j])
          (vs.map (fun v => (⟨[v.length], fun i => v.getD (i.getD 0 0) 0⟩ : Arr R))) u).prod) =
        (fun u => (full x).get (subst idx dims u) * (List.zipWith (fun (v : List R) j => v.getD j 0) vs u).prod) by
      funext u; rw [List.zipWith_map_left]; rfl]
    rw [tvp_valueAt (full x) (dgRows n x.order) x.data (by simp [dgRows, hn]) (dgRows_nodup ho) dgRows_inBox
      (fun i _ => (diag_get_eq_valueAt _ _ _).symm) dims hnd
      (by show ∀ k ∈ dims, k < (full x).shape.length; rw [hfs, List.length_replicate]; exact hlt) vs idx hidx]
    have hz : (dgRows n x.order).zip x.data = (List.range n).map (fun i => (List.replicate x.order i, x.data.getD i 0)) := by
      apply List.ext_getElem (by simp [dgRows, hn])
      intro k h1 h2
      have hk : k < x.data.length := by simpa [hn] using h2
      simp only [dgRows, List.getElem_zip, List.getElem_map, List.getElem_range]
      rw [List.getD_eq_getElem _ _ hk]
    rw [hz, List.map_map]
    show ((List.range n).map _).sum = ((List.range n).map _).sum
    congr 1
    apply List.map_congr_left
    intro i hi
    have hi := List.mem_range.1 hi
    simp only [Function.comp]
    rw [entriesOff_replicate _ _ _ hnd hlt, hdg i hi]
    congr 2
    congr 1
    apply List.ext_getElem (by simp [hvl])
    intro k h1 h2
    have hk : k < dims.length := by simp at h1; omega
    rw [List.getElem_zipWith, List.getElem_map]
    congr 1
    rw [List.getD_eq_getElem _ _ (by simpa using hlt _ (List.getElem_mem hk)), List.getElem_replicate]
  have hcode : tensorVectorProduct x vs = if x.order - vs.length = 0 then .ok (.scalar data.sum) else
      .ok (.tensor ⟨data, x.order - vs.length⟩) := by
    simp only [tensorVectorProduct, ← hn, hpc, bind, Except.bind]
    rfl
  have hysh : y.shape = List.replicate (x.order - dims.length) n := by
    rw [hy2, hfs, entriesOff_replicate _ _ _ hnd hlt]
  rw [hcode, hvl]
  by_cases h0 : x.order - dims.length = 0
  · rw [if_pos h0]
    refine ⟨_, y, rfl, hy1, ?_⟩
    refine ⟨by rw [hysh, h0]; rfl, ?_⟩
    rw [hval [] (by rw [h0]; simp)]
    rw [h0]
    simp only [List.replicate_zero, if_true]
    rw [← hdl]
    show ((List.range data.length).map (fun i => data.getD i 0)).sum = data.sum
    congr 1
    apply List.ext_getElem (by simp)
    intro k h1 h2
    rw [List.getElem_map, List.getElem_range, List.getD_eq_getElem _ _ h2]
  · rw [if_neg h0]
    refine ⟨_, y, rfl, hy1, ?_⟩
    refine ⟨by rw [hysh]; simp [full, FullTensor.diag, hdl], ?_⟩
    intro jdx hj
    change InBox (List.replicate (x.order - dims.length) data.length) jdx at hj
    rw [hdl] at hj
    rw [hval jdx hj]
    show (FullTensor.diag data (x.order - dims.length)).get jdx = _
    rcases diag_cases (by omega) hj with ⟨i, hin, rfl⟩ | hoff
    · rw [diag_get_replicate _ (by omega) (by omega)]
      rw [sum_eq_single i]
      · rw [if_pos rfl]
      · intro b _ hb
        rw [if_neg (fun h => hb (replicate_inj_of_pos (by omega) h))]
      · intro h; exact absurd (mem_range.2 hin) h
    · rw [diag_get_off _ (fun i _ => hoff i)]
      symm
      apply sum_eq_zero
      intro i _
      rw [if_neg (fun h => hoff i h.symm)]

/-- `tensor_diagonal_matrix_product`: the dense product with the diagonal matrices. -/
theorem tensorDiagonalMatrixProduct_spec [CommSemiring R] (x : Dg R) (ms : List (List R)) (ho : 1 ≤ x.order)
    (hml : ms.length = x.order) (hm : ∀ m ∈ ms, m.length = x.data.length) :
    ∃ z y, tensorDiagonalMatrixProduct x ms = .ok z ∧
      FullTensor.tensorMatrixProduct (full x) (ms.map (fun m => FullTensor.diag m 2)) = .ok y ∧ full z ≃ₐ y := by
  set n := x.data.length with hn
  have hfs : (full x).shape = List.replicate x.order n := rfl
  obtain ⟨y, hy1, hy2, hy3⟩ := tensorMatrixProduct_all (full x) (ms.map (fun m => FullTensor.diag m 2)) (by
    rw [List.forall₂_map_left_iff, List.forall₂_iff_get]
    refine ⟨by rw [hfs]; simpa using hml, fun i ha hb => ?_⟩
    refine ⟨n, ?_⟩
    simp only [List.get_eq_getElem, hfs, List.getElem_replicate]
    show List.replicate 2 _ = _
    rw [hm _ (List.getElem_mem _)]; rfl)
  have hpc : prodCols n ms = .ok ((List.range n).map (fun i => (ms.map (fun v => v.getD i 0)).prod)) := by
    unfold prodCols; rw [if_pos hm]
  set p := (List.range n).map (fun i => (ms.map (fun v => v.getD i 0)).prod) with hp
  have hpl : p.length = n := by simp [hp]
  refine ⟨⟨List.zipWith (· * ·) p x.data, x.order⟩, y, ?_, hy1, ?_⟩
  · simp only [tensorDiagonalMatrixProduct, ← hn, hpc, bind, Except.bind]
  have hzl : (List.zipWith (· * ·) p x.data).length = n := by simp [hpl, hn]
  have hysh : y.shape = List.replicate x.order n := by
    rw [hy2, List.map_map, List.eq_replicate_iff]
    refine ⟨by simpa using hml, ?_⟩
    intro b hb
    obtain ⟨m, hmm, rfl⟩ := List.mem_map.1 hb
    exact hm m hmm
  refine ⟨by rw [hysh]; simp [full, FullTensor.diag, hpl, hn], ?_⟩
  intro idx hi
  change InBox (List.replicate x.order (List.zipWith (· * ·) p x.data).length) idx at hi
  rw [hzl] at hi
  rw [hy3 idx (hysh ▸ hi), hfs]
  rw [show (List.replicate x.order n) = List.replicate x.order x.data.length from rfl]
  show _ = sumBox _ (fun s => (FullTensor.diag x.data x.order).get s * _)
  rw [sumBox_diag _ ho]
  show (FullTensor.diag _ x.order).get idx = _
  have hidl : idx.length = x.order := by rw [hi.length_eq]; simp
  have hterm : ∀ i, i < n → (List.zipWith (fun (M : Arr R) (p : Nat × Nat) => M.get [p.1, p.2])
      (ms.map (fun m => FullTensor.diag m 2)) (idx.zip (List.replicate x.order i))).prod =
      if idx = List.replicate x.order i then (ms.map (fun v => v.getD i 0)).prod else 0 := by
    intro i hin
    have hg : ∀ (m : List R) (a : Nat), m.length = n → (FullTensor.diag m 2).get [a, i] = if a = i then m.getD i 0 else 0 := by
      intro m a hmn
      by_cases h : a = i
      · subst h
        rw [if_pos rfl]
        exact diag_get_replicate m (d := 2) (by omega) (by omega)
      · rw [if_neg h]
        apply diag_get_off
        intro j _ hj
        have : [a, i] = [j, j] := hj
        simp at this
        exact h (this.1.trans this.2.symm)
    have hz : List.zipWith (fun (M : Arr R) (p : Nat × Nat) => M.get [p.1, p.2])
        (ms.map (fun m => FullTensor.diag m 2)) (idx.zip (List.replicate x.order i)) =
        List.zipWith (fun m a => if a = i then m.getD i 0 else 0) ms idx := by
      apply List.ext_getElem (by simp [hidl])
      intro k h1 h2
      simp only [List.getElem_zipWith, List.getElem_map, List.getElem_zip, List.getElem_replicate]
      exact hg _ _ (hm _ (List.getElem_mem _))
    rw [hz]
    by_cases h : idx = List.replicate x.order i
    · rw [if_pos h]
      congr 1
      apply List.ext_getElem (by simp [hidl, hml])
      intro k h1 h2
      simp only [List.getElem_zipWith, List.getElem_map]
      rw [if_pos]
      have : k < (List.replicate x.order i).length := by simp at h2 ⊢; omega
      rw [List.getElem_of_eq h]; simp
    · rw [if_neg h]
      have : ∃ k, ∃ hk : k < idx.length, idx[k] ≠ i := by
        by_contra hc
        push Not at hc
        apply h
        rw [List.eq_replicate_iff]
        refine ⟨hidl, fun b hb => ?_⟩
        obtain ⟨k, hk, rfl⟩ := List.getElem_of_mem hb
        exact hc k hk
      obtain ⟨k, hk, hne⟩ := this
      apply List.prod_eq_zero
      rw [List.mem_iff_getElem]
      refine ⟨k, by simp; omega, ?_⟩
      rw [List.getElem_zipWith, if_neg hne]
  rcases diag_cases ho hi with ⟨i, hin, rfl⟩ | hoff
  · rw [diag_get_replicate _ ho (by show i < (List.zipWith (· * ·) p x.data).length; omega), getD_zipWith_gen _ _ _ (by omega) (by omega), sum_eq_single i]
    · rw [hterm i hin, if_pos rfl, mul_comm]
      congr 1
      rw [hp, List.getD_eq_getElem _ _ (by simpa using hin), List.getElem_map, List.getElem_range]
    · intro b hb hbi
      rw [hterm b (mem_range.1 hb), if_neg (fun h => hbi (replicate_inj_of_pos ho h).symm), mul_zero]
    · intro h; exact absurd (mem_range.2 hin) h
  · rw [diag_get_off _ (fun i _ => hoff i)]
    symm
    apply sum_eq_zero
    intro i hi
    rw [hterm i (mem_range.1 hi), if_neg (hoff i), mul_zero]

/-- `sparse()` represents the same tensor, without explicit zeros. -/
theorem sparse_spec [Zero R] [DecidableEq R] (x : Dg R) (ho : 1 ≤ x.order) :
    ∃ s, sparse x = .ok s ∧ Represents s (full x) ∧ ∀ v ∈ s.data, v ≠ 0 := by
  set n := x.data.length with hn
  set ind := (List.range n).filter (fun i => x.data.getD i 0 ≠ 0) with hind
  have hdata : x.data.filter (fun v => v ≠ 0) = ind.map (fun i => x.data.getD i 0) := by
    have e : x.data = (List.range n).map (fun i => x.data.getD i 0) := by
      apply List.ext_getElem (by simp [hn])
      intro k h1 h2
      rw [List.getElem_map, List.getElem_range, List.getD_eq_getElem _ _ h1]
    conv_lhs => rw [e]
    rw [List.filter_map]
    rfl
  have hwf : WF (⟨x.shape, ind.map (fun i => List.replicate x.order i), ind.map (fun i => x.data.getD i 0),
      (ind.map (fun i => x.data.getD i 0)).length == 1, x.shape.length == 1⟩ : Sp R) := by
    refine ⟨by simp, ?_, ?_⟩
    · exact (List.nodup_range.filter _).map_on (fun _ _ _ _ h => replicate_inj_of_pos ho h)
    · intro r hr
      obtain ⟨i, hi, rfl⟩ := List.mem_map.1 hr
      exact inBox_replicate (List.mem_range.1 (List.mem_filter.1 hi).1)
  refine ⟨_, ?_, (represents_iff hwf).2 ⟨rfl, ?_⟩, ?_⟩
  · simp only [sparse, ← hn, ← hind, hdata, Sparse.mk]
    rw [if_pos (by simp)]
  · intro idx hi
    change InBox (List.replicate x.order x.data.length) idx at hi
    show _ = (FullTensor.diag x.data x.order).get idx
    rcases diag_cases ho hi with ⟨i, hin, rfl⟩ | hoff
    · rw [diag_get_replicate _ ho hin]
      by_cases h0 : x.data.getD i 0 = 0
      · rw [h0]
        apply valueAt_not_mem
        intro hm
        obtain ⟨j, hj, he⟩ := List.mem_map.1 hm
        have := replicate_inj_of_pos ho he
        subst this
        have := (List.mem_filter.1 hj).2
        rw [h0] at this
        simp at this
      · apply valueAt_mem hwf.len hwf.nodup
        show (_, _) ∈ (ind.map _).zip (ind.map _)
        rw [List.zip_map', List.mem_map]
        refine ⟨i, List.mem_filter.2 ⟨List.mem_range.2 hin, by simpa using h0⟩, rfl⟩
    · rw [diag_get_off _ (fun i _ => hoff i)]
      apply valueAt_not_mem
      intro hm
      obtain ⟨j, hj, he⟩ := List.mem_map.1 hm
      exact hoff j he.symm
  · intro v hv
    obtain ⟨i, hi, rfl⟩ := List.mem_map.1 hv
    simpa using (List.mem_filter.1 hi).2

/-! ### C29: concatenation and Kronecker product -/

/-- `cat(y)` is the dense concatenation along all the dimensions. -/
theorem cat_spec [AddZeroClass R] (x y : Dg R) (ho : 1 ≤ x.order) (hxy : x.order = y.order) :
    ∃ z, FullTensor.cat (full x) (full y) none = .ok z ∧ full (cat x y) ≃ₐ z := by
  set d := x.order with hd
  set n := x.data.length with hn
  set m := y.data.length with hm
  have hxs : (full x).shape = List.replicate d n := rfl
  have hys : (full y).shape = List.replicate d m := by rw [hxy]; rfl
  have hxo : (full x).order = d := by show (full x).shape.length = d; rw [hxs]; simp
  have hyo : (full y).order = d := by show (full y).shape.length = d; rw [hys]; simp
  have hgx : ∀ k, k < d → (full x).shape.getD k 0 = n := by
    intro k hk; rw [hxs, List.getD_eq_getElem _ _ (by simpa using hk), List.getElem_replicate]
  have hgy : ∀ k, k < d → (full y).shape.getD k 0 = m := by
    intro k hk; rw [hys, List.getD_eq_getElem _ _ (by simpa using hk), List.getElem_replicate]
  obtain ⟨z, h1, h2, h3⟩ := FullTensor.cat_spec (full x) (full y) (List.range d) (by simp; omega) List.nodup_range
    (by rw [hxo]; intro k hk; exact List.mem_range.1 hk) (by rw [hxo, hyo]) (by
      intro k hk hkd; rw [hxo] at hk; exact absurd (List.mem_range.2 hk) hkd)
  have hzs : z.shape = List.replicate d (n + m) := by
    rw [h2, hxo, List.eq_replicate_iff]
    refine ⟨by simp, fun b hb => ?_⟩
    obtain ⟨k, hk, rfl⟩ := List.mem_map.1 hb
    rw [if_pos hk, hgx k (List.mem_range.1 hk), hgy k (List.mem_range.1 hk)]
  refine ⟨z, by rw [FullTensor.cat_default, hxo]; exact h1, ?_⟩
  have hl : (cat x y).data.length = n + m := by simp [cat, hn, hm]
  refine ⟨by rw [hzs]; show List.replicate d _ = _; rw [hl], ?_⟩
  intro idx hi
  change InBox (List.replicate d (cat x y).data.length) idx at hi
  rw [hl] at hi
  have hil : idx.length = d := by rw [hi.length_eq]; simp
  obtain ⟨c1, c2, c3⟩ := h3 idx (hzs ▸ hi)
  show (FullTensor.diag (x.data ++ y.data) d).get idx = _
  have hlen' : (x.data ++ y.data).length = n + m := by simp [hn, hm]
  have hrep : ∀ (a : Nat) k, k < d → (List.replicate d a).getD k 0 = a := by
    intro a k hk; rw [List.getD_eq_getElem _ _ (by simpa using hk), List.getElem_replicate]
  rcases diag_cases ho hi with ⟨i, hin, rfl⟩ | hoff
  · rw [diag_get_replicate _ ho (by omega)]
    by_cases hlt : i < n
    · rw [c1 (by intro k hk; rw [hgx k (List.mem_range.1 hk), hrep i k (List.mem_range.1 hk)]; exact hlt)]
      show _ = (FullTensor.diag x.data d).get _
      rw [diag_get_replicate _ ho hlt, List.getD_append _ _ _ _ hlt]
    · rw [c2 (by intro k hk; rw [hgx k (List.mem_range.1 hk), hrep i k (List.mem_range.1 hk)]; omega)]
      have hsb : FullTensor.shiftBack (List.range d) (full x).shape (List.replicate d i) = List.replicate d (i - n) := by
        unfold FullTensor.shiftBack
        rw [List.eq_replicate_iff]
        refine ⟨by simp, fun b hb => ?_⟩
        obtain ⟨k, hk, rfl⟩ := List.mem_map.1 hb
        have hk : k < d := by simpa using hk
        rw [if_pos (List.mem_range.2 hk), hgx k hk, hrep i k hk]
      rw [hsb]
      show _ = (FullTensor.diag y.data y.order).get _
      rw [← hxy, diag_get_replicate _ ho (by omega), List.getD_append_right _ _ _ _ (by omega)]
  · rw [diag_get_off _ (fun i _ => hoff i)]
    -- off the diagonal: in one of the two blocks, off its diagonal, or in no block
    by_cases hall : ∀ k ∈ List.range d, idx.getD k 0 < (full x).shape.getD k 0
    · rw [c1 hall]
      exact (diag_get_off _ (fun i _ => hoff i)).symm
    · by_cases hall2 : ∀ k ∈ List.range d, (full x).shape.getD k 0 ≤ idx.getD k 0
      · rw [c2 hall2]
        symm
        show (FullTensor.diag y.data y.order).get _ = 0
        apply diag_get_off
        intro i _ he
        apply hoff (i + n)
        apply ext_getD (by simp [hil])
        intro k hk
        rw [hil] at hk
        have h4 := congrArg (fun l => l.getD k 0) he
        simp only [← hxy, hrep i k hk] at h4
        unfold FullTensor.shiftBack at h4
        rw [List.getD_eq_getElem _ _ (by simp; omega), List.getElem_map, List.getElem_range, if_pos (List.mem_range.2 hk),
          hgx k hk] at h4
        have h5 := hall2 k (List.mem_range.2 hk)
        rw [hgx k hk] at h5
        rw [hrep _ k hk]; omega
      · push Not at hall hall2
        obtain ⟨k1, hk1, h4⟩ := hall
        obtain ⟨k2, hk2, h5⟩ := hall2
        exact (c3 ⟨k2, hk2, h5⟩ ⟨k1, hk1, h4⟩).symm

/-- `kron(y)` is the dense Kronecker product. -/
theorem kron_spec [CommSemiring R] (x y : Dg R) (ho : 1 ≤ x.order) (hxy : x.order = y.order) :
    ∃ z, FullTensor.kron (full x) (full y) = .ok z ∧ full (kron x y) ≃ₐ z := by
  set d := x.order with hd
  set n := x.data.length with hn
  set m := y.data.length with hm
  have hxs : (full x).shape = List.replicate d n := rfl
  have hys : (full y).shape = List.replicate d m := by rw [hxy]; rfl
  obtain ⟨z, h1, h2, h3⟩ := FullTensor.kron_spec (full x) (full y) (by
    show (full x).shape.length = (full y).shape.length; rw [hxs, hys]; simp)
  have hzs : z.shape = List.replicate d (n * m) := by
    rw [h2, hxs, hys]; simp
  refine ⟨z, h1, ?_⟩
  set data := (kron x y).data with hdata
  have hl : data.length = n * m := by simp [hdata, kron, hn, hm, Nat.mul_comm]
  refine ⟨by rw [hzs]; show List.replicate d _ = _; rw [← hdata, hl], ?_⟩
  intro idx hi
  change InBox (List.replicate d data.length) idx at hi
  rw [hl] at hi
  have hil : idx.length = d := by rw [hi.length_eq]; simp
  rw [h3 idx (hzs ▸ hi), hys]
  show (FullTensor.diag data d).get idx = (FullTensor.diag x.data d).get _ * (FullTensor.diag y.data y.order).get _
  rw [← hxy]
  rcases diag_cases ho hi with ⟨i, hin, rfl⟩ | hoff
  · have hmpos : 0 < m := Nat.pos_of_ne_zero (fun h => by rw [h] at hin; simp at hin)
    have hq : i / m < n := Nat.div_lt_of_lt_mul (by rw [Nat.mul_comm]; exact hin)
    have hr : i % m < m := Nat.mod_lt _ hmpos
    rw [List.zipWith_replicate, List.zipWith_replicate, Nat.min_self, diag_get_replicate _ ho hq, diag_get_replicate _ ho hr,
      diag_get_replicate _ ho (by omega), hdata]
    unfold kron
    rw [List.getD_eq_getElem _ _ (by simp only [List.length_map, List.length_range]; rw [← hm, ← hn, Nat.mul_comm]; exact hin),
      List.getElem_map, List.getElem_range, mul_comm]
  · rw [diag_get_off _ (fun i _ => hoff i)]
    by_cases hq : ∃ a, List.zipWith (· / ·) idx (List.replicate d m) = List.replicate d a
    · by_cases hr : ∃ b, List.zipWith (· % ·) idx (List.replicate d m) = List.replicate d b
      · exfalso
        obtain ⟨a, ha⟩ := hq
        obtain ⟨b, hb⟩ := hr
        apply hoff (m * a + b)
        apply ext_getD (by simp [hil])
        intro k hk
        rw [hil] at hk
        have e1 := congrArg (fun l => l.getD k 0) ha
        have e2 := congrArg (fun l => l.getD k 0) hb
        rw [List.getD_eq_getElem _ _ (by simp; omega), List.getD_eq_getElem _ _ (by simpa using hk), List.getElem_zipWith,
          List.getElem_replicate, List.getElem_replicate] at e1 e2
        rw [List.getD_eq_getElem _ _ (by omega), List.getD_eq_getElem _ _ (by simpa using hk), List.getElem_replicate, ← e1, ← e2]
        exact (Nat.div_add_mod _ _).symm
      · rw [diag_get_off y.data (fun i _ he => hr ⟨i, he⟩), mul_zero]
    · rw [diag_get_off x.data (fun i _ he => hq ⟨i, he⟩), zero_mul]

/-! ### C29: evaluations -/

/-- `eval_at_indices(ind)`: the entries of the full tensor. -/
theorem evalAtIndices_spec [Zero R] (x : Dg R) (ho : 1 ≤ x.order) (ind : List (List Nat))
    (hi : ∀ r ∈ ind, InBox (List.replicate x.order x.data.length) r) :
    evalAtIndices x ind = .ok (ind.map (full x).get) := by
  unfold evalAtIndices
  induction ind with
  | nil => rfl
  | cons r ind ih =>
    rw [List.mapM_cons, ih (fun r hr => hi r (by simp [hr]))]
    have hr := hi r (by simp)
    have hrl : r.length = x.order := by rw [hr.length_eq]; simp
    have hone : (if (r.all (fun a => a == r.getD 0 0)) = true then
        if r.getD 0 0 < x.data.length then (.ok (x.data.getD (r.getD 0 0) 0) : Py R) else .error .indexError
      else .ok 0) = .ok ((full x).get r) := by
      rcases diag_cases ho hr with ⟨i, hin, rfl⟩ | hoff
      · have h0 : (List.replicate x.order i).getD 0 0 = i := by
          rw [List.getD_eq_getElem _ _ (by simp; omega), List.getElem_replicate]
        rw [h0, if_pos (by rw [List.all_eq_true]; intro a ha; simpa using (List.eq_of_mem_replicate ha)), if_pos hin]
        congr 1
        exact (diag_get_replicate _ ho hin).symm
      · rw [if_neg]
        · congr 1
          exact (diag_get_off _ (fun i _ => hoff i)).symm
        · intro hall
          rw [List.all_eq_true] at hall
          apply hoff (r.getD 0 0)
          rw [List.eq_replicate_iff]
          exact ⟨hrl, fun b hb => by simpa using hall b hb⟩
    rw [hone]
    rfl

/-! ### C30: diagonals and rank-one metrics -/

/-- `eval_diag()`: the diagonal of the full tensor. -/
theorem evalDiag_all [Zero R] (x : Dg R) (ho : 1 ≤ x.order) :
    evalDiag x none = .ok (.array ((List.range x.data.length).map (fun i => (full x).get (List.replicate x.order i)))) := by
  simp only [evalDiag]
  congr 2
  apply List.ext_getElem (by simp)
  intro k h1 h2
  rw [List.getElem_map, List.getElem_range]
  rw [show (full x).get (List.replicate x.order k) = _ from diag_get_replicate _ ho h1, List.getD_eq_getElem _ _ h1]

/-- `eval_diag(dims)`: what the code computes. All the dimensions between the first and the last one of `dims` are
merged, whether they are in `dims` or not. -/
theorem evalDiag_code (x : Dg R) (dims : List Nat) (lo hi : Nat) (hlo : lo ∈ dims) (hhi : hi ∈ dims)
    (hmin : ∀ k ∈ dims, lo ≤ k) (hmax : ∀ k ∈ dims, k ≤ hi) (hlt : hi < x.order) (hne : dims.length ≠ x.order) :
    evalDiag x (some dims) = .ok (.tensor ⟨x.data, x.order - (hi - lo)⟩) := by
  have hperm := List.perm_insertionSort (· ≤ ·) dims
  have hsort : (dims.insertionSort (· ≤ ·)).Pairwise (· ≤ ·) := List.pairwise_insertionSort _ _
  have hlohi : lo ≤ hi := hmin hi hhi
  unfold evalDiag
  dsimp only
  rw [if_neg hne]
  cases hs : dims.insertionSort (· ≤ ·) with
  | nil =>
    rw [hs] at hperm
    have := hperm.mem_iff.2 hlo
    simp at this
  | cons d0 tl =>
    have hd0 : d0 = lo := by
      rw [hs] at hperm hsort
      have h1 : lo ≤ d0 := hmin d0 (hperm.mem_iff.1 (by simp))
      have h2 := hperm.mem_iff.2 hlo
      rcases List.mem_cons.1 h2 with h | h
      · exact h.symm
      · exact le_antisymm ((List.pairwise_cons.1 hsort).1 lo h) h1
    have hlast : ((d0 :: tl).getLast?).getD 0 = hi := by
      rw [List.getLast?_eq_some_getLast (by simp), Option.getD_some]
      rw [hs] at hperm hsort
      apply le_antisymm
      · exact hmax _ (hperm.mem_iff.1 (List.getLast_mem _))
      · have h2 := hperm.mem_iff.2 hhi
        exact hsort.rel_getLast h2
    dsimp only
    rw [hlast, hd0]
    have hf : (List.range x.order).filter (fun k => decide (hi + 1 ≤ k)) = (List.range (x.order - (hi + 1))).map (fun k => hi + 1 + k) := by
      have : x.order = (hi + 1) + (x.order - (hi + 1)) := by omega
      conv_lhs => rw [this, List.range_add, List.filter_append]
      have h1 : (List.range (hi + 1)).filter (fun k => decide (hi + 1 ≤ k)) = [] := by
        rw [List.filter_eq_nil_iff]
        intro a ha; have := List.mem_range.1 ha; simp; omega
      rw [h1, List.nil_append, List.filter_eq_self]
      intro a ha
      obtain ⟨b, _, rfl⟩ := List.mem_map.1 ha
      simp
    rw [hf, if_neg]
    · congr 3
      simp
      omega
    · intro hany
      rw [List.any_eq_true] at hany
      obtain ⟨k, hk, hk2⟩ := hany
      have hk2 : x.order ≤ k := by simpa using hk2
      rcases List.mem_append.1 hk with h | h
      · have := List.mem_range.1 h; omega
      · obtain ⟨b, hb, rfl⟩ := List.mem_map.1 h
        have := List.mem_range.1 hb; omega

/-- C30, partial: for contiguous dimensions, the result has the order `order - |dims| + 1` and its entry at
`(.., i, ..)` is the entry of the tensor with `i` repeated on `dims`. What is missing: dimensions with gaps
(`evalDiag_gap_wrong`). -/
theorem evalDiag_partial [Zero R] (x : Dg R) (lo m : Nat) (hm : 2 ≤ m) (hlt : lo + m ≤ x.order) (hne : m ≠ x.order) :
    ∃ t, evalDiag x (some ((List.range m).map (fun k => lo + k))) = .ok (.tensor t) ∧
      t.order = x.order - m + 1 ∧ t.data.length = x.data.length ∧
      ∀ pre i post, pre.length = lo → post.length = x.order - m - lo →
        InBox (full t).shape (pre ++ [i] ++ post) →
        (full t).get (pre ++ [i] ++ post) = (full x).get (pre ++ List.replicate m i ++ post) := by
  have hc := evalDiag_code x ((List.range m).map (fun k => lo + k)) lo (lo + (m - 1))
    (List.mem_map.2 ⟨0, List.mem_range.2 (by omega), rfl⟩) (List.mem_map.2 ⟨m - 1, List.mem_range.2 (by omega), rfl⟩)
    (by intro k hk; obtain ⟨b, _, rfl⟩ := List.mem_map.1 hk; omega)
    (by intro k hk; obtain ⟨b, hb, rfl⟩ := List.mem_map.1 hk; have := List.mem_range.1 hb; omega)
    (by omega) (by simpa using hne)
  have hord : x.order - (lo + (m - 1) - lo) = x.order - m + 1 := by omega
  rw [hord] at hc
  refine ⟨_, hc, rfl, rfl, ?_⟩
  intro pre i post hpre hpost hbox
  change InBox (List.replicate (x.order - m + 1) x.data.length) _ at hbox
  show (FullTensor.diag x.data (x.order - m + 1)).get _ = (FullTensor.diag x.data x.order).get _
  rcases diag_cases (by omega) hbox with ⟨j, hjn, he⟩ | hoff
  · have hij : i = j := by
      have : i ∈ pre ++ [i] ++ post := by simp
      rw [he] at this
      exact List.eq_of_mem_replicate this
    subst hij
    rw [he, diag_get_replicate _ (by omega) hjn]
    have : pre ++ List.replicate m i ++ post = List.replicate x.order i := by
      rw [List.eq_replicate_iff]
      refine ⟨by simp; omega, fun b hb => ?_⟩
      have hb' : b ∈ pre ++ [i] ++ post := by
        simp only [List.mem_append, List.mem_replicate, List.mem_singleton] at hb ⊢
        rcases hb with (h | h) | h
        · exact Or.inl (Or.inl h)
        · exact Or.inl (Or.inr h.2)
        · exact Or.inr h
      rw [he] at hb'
      exact List.eq_of_mem_replicate hb'
    rw [this, diag_get_replicate _ (by omega) hjn]
  · rw [diag_get_off _ (fun i _ => hoff i)]
    symm
    apply diag_get_off
    intro j _ he
    apply hoff j
    rw [List.eq_replicate_iff]
    refine ⟨by simp; omega, fun b hb => ?_⟩
    have hb' : b ∈ pre ++ List.replicate m i ++ post := by
      simp only [List.mem_append, List.mem_replicate, List.mem_singleton] at hb ⊢
      rcases hb with (h | h) | h
      · exact Or.inl (Or.inl h)
      · exact Or.inl (Or.inr ⟨by omega, h⟩)
      · exact Or.inr h
    rw [he] at hb'
    exact List.eq_of_mem_replicate hb'

/-- With a gap, dimensions that are not listed are merged too: whenever the listed dimensions are fewer than those
between the first and the last one, the order of the result is too small. -/
theorem evalDiag_gap_wrong (x : Dg R) (dims : List Nat) (lo hi : Nat) (hlo : lo ∈ dims) (hhi : hi ∈ dims)
    (hmin : ∀ k ∈ dims, lo ≤ k) (hmax : ∀ k ∈ dims, k ≤ hi) (hlt : hi < x.order) (hgap : dims.length < hi - lo + 1) :
    ∃ t, evalDiag x (some dims) = .ok (.tensor t) ∧ t.order < x.order - dims.length + 1 := by
  refine ⟨_, evalDiag_code x dims lo hi hlo hhi hmin hmax hlt (by omega), ?_⟩
  have := hmin hi hhi
  simp only
  omega

/-- Non-vacuity of `evalDiag_gap_wrong`: order 4, dimensions 0 and 2: the result has order 2, not 3. -/
theorem evalDiag_gap_example : evalDiag (⟨[5, 7], 4⟩ : Dg Int) (some [0, 2]) = .ok (.tensor ⟨[5, 7], 2⟩) := by rfl

/-- The dense value of `x.dot(y.tensor_matrix_product(matrices))`, for diagonal tensors. -/
theorem dense_metric [CommSemiring R] (x y : Dg R) (ms : List (Arr R)) (ho : 1 ≤ x.order) (hxy : x.order = y.order)
    (hml : ms.length = x.order) (hm : ∀ M ∈ ms, M.shape = [x.data.length, y.data.length]) :
    ∃ z, FullTensor.tensorMatrixProduct (full y) ms = .ok z ∧ z.shape = (full x).shape ∧
      FullTensor.dot (full x) z = ∑ i ∈ range x.data.length, ∑ j ∈ range y.data.length,
        x.data.getD i 0 * y.data.getD j 0 * (ms.map (fun M => M.get [i, j])).prod := by
  have hys : (full y).shape = List.replicate x.order y.data.length := by rw [hxy]; rfl
  obtain ⟨z, hz1, hz2, hz3⟩ := tensorMatrixProduct_all (full y) ms (by
    rw [List.forall₂_iff_get]
    refine ⟨by rw [hys]; simpa using hml, fun i ha hb => ⟨x.data.length, ?_⟩⟩
    simp only [List.get_eq_getElem, hys, List.getElem_replicate]
    exact hm _ (List.getElem_mem _))
  have hzs : z.shape = List.replicate x.order x.data.length := by
    rw [hz2, List.eq_replicate_iff]
    refine ⟨by simpa using hml, fun b hb => ?_⟩
    obtain ⟨M, hM, rfl⟩ := List.mem_map.1 hb
    rw [hm M hM]; rfl
  refine ⟨z, hz1, hzs, ?_⟩
  show sumBox (List.replicate x.order x.data.length) (fun idx => (FullTensor.diag x.data x.order).get idx * z.get idx) = _
  rw [sumBox_diag _ ho]
  apply sum_congr rfl
  intro i hi
  have hi := mem_range.1 hi
  rw [hz3 _ (by rw [hzs]; exact inBox_replicate hi), hys, hxy]
  show _ * sumBox _ (fun s => (FullTensor.diag y.data y.order).get s * _) = _
  rw [sumBox_diag _ (by omega), mul_sum]
  apply sum_congr rfl
  intro j _
  rw [mul_assoc]
  congr 2
  congr 1
  apply List.ext_getElem (by simp; omega)
  intro k h1 h2
  rw [List.getElem_zipWith, List.getElem_zip, List.getElem_replicate, List.getElem_replicate, List.getElem_map]

/-- What the code of `dot_with_rank_one_metric` computes for equal ranks: the matrices are transposed. -/
theorem dotWithRankOneMetric_code [CommSemiring R] (x y : Dg R) (ms : List (Arr R)) (hl : x.data.length = y.data.length)
    (hml : ms.length = x.order) (hm : ∀ M ∈ ms, M.shape = [x.data.length, y.data.length]) :
    dotWithRankOneMetric x y ms = .ok (∑ i ∈ range x.data.length, ∑ j ∈ range y.data.length,
      x.data.getD i 0 * y.data.getD j 0 * (ms.map (fun M => M.get [j, i])).prod) := by
  unfold dotWithRankOneMetric
  dsimp only
  rw [if_pos ⟨hml, fun M hM => by rw [hm M hM]; simp⟩]
  congr 1
  show ∑ i ∈ range x.data.length, _ = _
  apply sum_congr rfl
  intro i hi
  have hi := mem_range.1 hi
  show _ * ∑ j ∈ range y.data.length, _ = _
  rw [mul_sum]
  apply sum_congr rfl
  intro j hj
  have hj := mem_range.1 hj
  have e : ms.map (fun M => metricEntry M x.data.length i j) = ms.map (fun M => M.get [j, i]) := by
    apply List.map_congr_left
    intro M hM
    unfold metricEntry
    rw [hm M hM]
    congr 1
    have hji : j < x.data.length := by omega
    have hii : i < y.data.length := by omega
    have := unravelC_pair (a := x.data.length) (b := y.data.length) hji hii
    rw [← this]
    congr 1
    rw [← hl]; ring
  rw [e]; ring

/-- C30, partial: for symmetric matrices (the case of a norm) the code returns the dense weighted scalar product.
What is missing: other matrices (`dotWithRankOneMetric_wrong`). -/
theorem dotWithRankOneMetric_partial [CommSemiring R] (x y : Dg R) (ms : List (Arr R)) (ho : 1 ≤ x.order)
    (hxy : x.order = y.order) (hl : x.data.length = y.data.length)
    (hml : ms.length = x.order) (hm : ∀ M ∈ ms, M.shape = [x.data.length, y.data.length])
    (hsym : ∀ M ∈ ms, ∀ i j, i < x.data.length → j < x.data.length → M.get [i, j] = M.get [j, i]) :
    ∃ z, FullTensor.tensorMatrixProduct (full y) ms = .ok z ∧
      dotWithRankOneMetric x y ms = .ok (FullTensor.dot (full x) z) := by
  obtain ⟨z, h1, _, h3⟩ := dense_metric x y ms ho hxy hml hm
  refine ⟨z, h1, ?_⟩
  rw [dotWithRankOneMetric_code x y ms hl hml hm, h3]
  congr 1
  apply sum_congr rfl
  intro i hi
  apply sum_congr rfl
  intro j hj
  have hi := mem_range.1 hi
  have hj := mem_range.1 hj
  congr 2
  apply List.map_congr_left
  intro M hM
  exact hsym M hM j i (by omega) hi

/-- A matrix that is not symmetric: the code returns 3 where the dense value is 2. -/
theorem dotWithRankOneMetric_wrong :
    let x : Dg Int := ⟨[1, 0], 1⟩
    let y : Dg Int := ⟨[0, 1], 1⟩
    let M : Arr Int := ⟨[2, 2], fun ij => if ij = [0, 1] then 2 else if ij = [1, 0] then 3 else 0⟩
    dotWithRankOneMetric x y [M] = .ok 3 ∧
      ∃ z, FullTensor.tensorMatrixProduct (full y) [M] = .ok z ∧ FullTensor.dot (full x) z = 2 := by
  refine ⟨by decide +kernel, ?_⟩
  obtain ⟨z, h1, _, h3⟩ := dense_metric (⟨[1, 0], 1⟩ : Dg Int) ⟨[0, 1], 1⟩
    [⟨[2, 2], fun ij => if ij = [0, 1] then 2 else if ij = [1, 0] then 3 else 0⟩] (by decide) rfl rfl (by simp)
  refine ⟨z, h1, ?_⟩
  rw [h3]; decide +kernel

/-- `tensordot_matrix_product_except_dim` keeps rows and columns: entry `(i, j)` is the product of the entries
`(i, j)` of the other matrices and of the two diagonals. -/
theorem tensordotMatrixProductExceptDim_spec [CommSemiring R] (x y : Dg R) (ms : List (Arr R)) (dim i j : Nat)
    (hml : ms.length = x.order) (hdim : dim < x.order) :
    (tensordotMatrixProductExceptDim x y ms dim).get [i, j] =
      ((ms.eraseIdx dim).map (fun M => M.get [i, j])).prod * (x.data.getD i 0 * y.data.getD j 0) := by
  show ((FullTensor.setdiffRange x.order [dim]).map (fun k => (ms.getD k ⟨[], fun _ => 0⟩).get [i, j])).prod * _ = _
  congr 2
  have : ms.eraseIdx dim = (FullTensor.setdiffRange x.order [dim]).map (fun k => ms.getD k ⟨[], fun _ => 0⟩) := by
    have e1 : x.order = dim + (1 + (x.order - dim - 1)) := by omega
    have hs : FullTensor.setdiffRange x.order [dim] = List.range dim ++ (List.range (x.order - dim - 1)).map (fun k => dim + (1 + k)) := by
      unfold FullTensor.setdiffRange
      conv_lhs => rw [e1, List.range_add, List.filter_append, List.range_add, List.map_append, List.filter_append]
      have h1 : (List.range dim).filter (fun i => !([dim].contains i)) = List.range dim := by
        rw [List.filter_eq_self]; intro a ha; have := List.mem_range.1 ha; simp; omega
      have h2 : ((List.range 1).map (fun x => dim + x)).filter (fun i => !([dim].contains i)) = [] := by simp
      have h3 : (((List.range (x.order - dim - 1)).map (fun x => 1 + x)).map (fun x => dim + x)).filter (fun i => !([dim].contains i)) =
          (List.range (x.order - dim - 1)).map (fun k => dim + (1 + k)) := by
        rw [List.map_map, List.filter_eq_self.2]
        · rfl
        · intro a ha
          obtain ⟨b, _, rfl⟩ := List.mem_map.1 ha
          simp
      rw [h1, h2, h3, List.nil_append]
    apply List.ext_getElem
    · rw [List.length_eraseIdx, if_pos (by omega), hs]; simp; omega
    · intro k h1 h2
      rw [List.getElem_eraseIdx, List.getElem_map]
      simp only [hs]
      by_cases hk : k < dim
      · rw [dif_pos hk, List.getElem_append_left (by simpa using hk), List.getElem_range, List.getD_eq_getElem]
      · rw [dif_neg hk, List.getElem_append_right (by simpa using hk)]
        have h2' : k - dim < x.order - dim - 1 := by rw [hs] at h2; simp at h2; omega
        rw [List.getElem_map, List.getElem_range]
        simp only [List.length_range]
        rw [show dim + (1 + (k - dim)) = k + 1 by omega, List.getD_eq_getElem _ _ (by omega)]
  rw [this, List.map_map]
  rfl

end Verif.Diagonal
