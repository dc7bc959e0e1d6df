import Verif.Props.FullTensorEval

/-!
# Properties of `FullTensor`: evaluation at indices (C24)
-/

namespace Verif.FullTensor

open Verif.Arr Finset

variable {R : Type}

/-- The specification of `x.eval_at_indices(rows, dims)`: the dimensions `dims` are replaced by one dimension,
at the place of the least of them, numbered by the rows; entry `k` along it is the slice of `x` at the
subscripts `rows[k]` of the dimensions `dims`. -/
structure EvalSpec (x : Arr R) (rows : List (List Nat)) (dims : List Nat) (y : Arr R) : Prop where
  shape : y.shape = (entriesOff dims x.shape).take (dims.foldr min (dims.getD 0 0)) ++
    rows.length :: (entriesOff dims x.shape).drop (dims.foldr min (dims.getD 0 0))
  entry : ∀ idx, InBox x.shape idx → ∀ k, k < rows.length → rows.getD k [] = entriesAt dims idx →
    y.get ((entriesOff dims idx).take (dims.foldr min (dims.getD 0 0)) ++
      k :: (entriesOff dims idx).drop (dims.foldr min (dims.getD 0 0))) = x.get idx

theorem entriesOff_eq (dims v : List Nat) : entriesOff dims v = applyPerm (setdiffRange v.length dims) v := by
  unfold entriesOff applyPerm setdiffRange
  congr 1
  apply List.filter_congr
  intro k _; simp

theorem mapM_if_ok {α β : Type} (p : α → Prop) [DecidablePred p] (f : α → β) (e : PyErr) (l : List α)
    (h : ∀ a ∈ l, p a) : (l.mapM (fun a => if p a then (.ok (f a) : Py β) else .error e)) = .ok (l.map f) := by
  induction l with
  | nil => rfl
  | cons a l ih =>
    rw [List.mapM_cons, if_pos (h a (by simp)), ih (fun b hb => h b (by simp [hb]))]
    rfl

theorem mapM_if_error {α β : Type} (p : α → Prop) [DecidablePred p] (f : α → β) (e : PyErr) (l : List α)
    (h : ∃ a ∈ l, ¬ p a) : (l.mapM (fun a => if p a then (.ok (f a) : Py β) else .error e)) = .error e := by
  induction l with
  | nil => simp at h
  | cons a l ih =>
    rw [List.mapM_cons]
    by_cases ha : p a
    · rw [if_pos ha, ih (by obtain ⟨b, hb, hb'⟩ := h; exact ⟨b, by
        rcases List.mem_cons.1 hb with rfl | hb
        · exact absurd ha hb'
        · exact hb, hb'⟩)]
      rfl
    · rw [if_neg ha]; rfl

section sorted

variable {dims : List Nat}

theorem sorted_perm (dims : List Nat) : (applyPerm (argsort dims) dims).Perm dims := by
  refine ((argsort_perm dims).map _).trans ?_
  have : (List.range dims.length).map (fun k => dims.getD k 0) = dims := by
    apply ext_getD (by simp)
    intro k hk
    rw [List.getD_eq_getElem _ _ hk, List.getElem_map, List.getElem_range]
  rw [this]

theorem sorted_sorted (dims : List Nat) : (applyPerm (argsort dims) dims).Pairwise (· ≤ ·) :=
  (argsort_sorted dims).map _ (fun _ _ h => h)

theorem foldr_min_le (l : List Nat) (a : Nat) : l.foldr min a ≤ a ∧ ∀ k ∈ l, l.foldr min a ≤ k := by
  induction l with
  | nil => simp
  | cons b l ih =>
    simp only [List.foldr_cons, List.mem_cons, forall_eq_or_imp]
    refine ⟨by omega, by omega, fun k hk => by have := ih.2 k hk; omega⟩

theorem foldr_min_mem (l : List Nat) (a : Nat) : l.foldr min a = a ∨ l.foldr min a ∈ l := by
  induction l with
  | nil => simp
  | cons b l ih =>
    simp only [List.foldr_cons, List.mem_cons]
    rcases Nat.le_total b (l.foldr min a) with h | h
    · right; left; omega
    · rw [Nat.min_eq_right h]; tauto

theorem sorted_head (hne : dims ≠ []) :
    (applyPerm (argsort dims) dims).getD 0 0 = dims.foldr min (dims.getD 0 0) := by
  set l := applyPerm (argsort dims) dims with hl
  have hp := sorted_perm dims
  have hs := sorted_sorted dims
  rw [← hl] at hp hs
  have hlen : 0 < dims.length := List.length_pos_iff.2 hne
  have h0 : l.getD 0 0 ∈ dims := by
    rw [← hp.mem_iff, List.getD_eq_getElem _ _ (by rw [hp.length_eq]; exact hlen)]
    exact List.getElem_mem _
  have hle : ∀ k ∈ dims, l.getD 0 0 ≤ k := by
    intro k hk
    rw [← hp.mem_iff] at hk
    cases hl' : l with
    | nil => rw [hl'] at hk; simp at hk
    | cons a t =>
      rw [hl'] at hk hs
      rw [List.pairwise_cons] at hs
      rcases List.mem_cons.1 hk with rfl | h
      · simp
      · exact hs.1 k h
  have hm := foldr_min_le dims (dims.getD 0 0)
  have hmem : dims.foldr min (dims.getD 0 0) ∈ dims := by
    rcases foldr_min_mem dims (dims.getD 0 0) with h | h
    · rw [h, List.getD_eq_getElem _ _ hlen]; exact List.getElem_mem _
    · exact h
  exact le_antisymm (hle _ hmem) (hm.2 _ h0)

theorem setdiffRange_congr {n : Nat} {a b : List Nat} (h : ∀ k, k ∈ a ↔ k ∈ b) :
    setdiffRange n a = setdiffRange n b := by
  unfold setdiffRange
  apply List.filter_congr
  intro k _
  simp [h k]

end sorted

/-- In a sorted duplicate-free list of `m` axes below `n`, the first axis leaves room for all the others. -/
theorem left_le {n : Nat} {dims : List Nat} (hnd : dims.Nodup) (hlt : ∀ k ∈ dims, k < n) (hne : dims ≠ []) :
    dims.foldr min (dims.getD 0 0) + dims.length ≤ n := by
  set left := dims.foldr min (dims.getD 0 0) with hleft
  have hsub : dims ⊆ (List.range (n - left)).map (· + left) := by
    intro k hk
    have h1 := hlt k hk
    have h2 := (foldr_min_le dims (dims.getD 0 0)).2 k hk
    rw [← hleft] at h2
    exact List.mem_map.2 ⟨k - left, List.mem_range.2 (by omega), by omega⟩
  have hlen := (hnd.subperm hsub).length_le
  have hpos : 0 < dims.length := List.length_pos_iff.2 hne
  simp at hlen
  omega

/-- The last part of `eval_at_indices`: the dimension of the rows, first after the selection, is moved to the
place `left`. -/
theorem moveAxis_spec (e : Arr R) (m left r : Nat) (off : List Nat) (he : e.shape = m :: off)
    (hoff : off.length = r) (hl : left ≤ r) :
    ∃ y, transposeT e ((List.range left).map (· + 1) ++ [0] ++
        (List.range (r - left)).map (· + (left + 1))) = .ok y ∧
      y.shape = off.take left ++ m :: off.drop left ∧
      ∀ k v, v.length = r → y.get (v.take left ++ k :: v.drop left) = e.get (k :: v) := by
  set p := (List.range left).map (· + 1) ++ [0] ++ (List.range (r - left)).map (· + (left + 1)) with hp
  have hperm : p.Perm (List.range (r + 1)) := by
    rw [List.perm_ext_iff_of_nodup _ List.nodup_range]
    · intro a
      simp only [hp, List.mem_append, List.mem_map, List.mem_range, List.mem_singleton]
      constructor
      · rintro ((⟨k, hk, rfl⟩ | rfl) | ⟨k, hk, rfl⟩) <;> omega
      · intro h
        by_cases h0 : a = 0
        · left; right; exact h0
        · by_cases h1 : a ≤ left
          · left; left; exact ⟨a - 1, by omega, by omega⟩
          · right; exact ⟨a - (left + 1), by omega, by omega⟩
    · rw [hp, List.nodup_append, List.nodup_append]
      refine ⟨⟨List.nodup_range.map (fun a b h => by simpa using h), by simp, ?_⟩,
        List.nodup_range.map (fun a b h => by simpa using h), ?_⟩
      · intro a ha b hb hab
        simp only [List.mem_map, List.mem_range, List.mem_singleton] at ha hb
        obtain ⟨k, _, rfl⟩ := ha
        omega
      · intro a ha b hb hab
        simp only [List.mem_append, List.mem_map, List.mem_range, List.mem_singleton] at ha hb
        obtain ⟨j, _, rfl⟩ := hb
        rcases ha with ⟨k, hk, rfl⟩ | rfl <;> omega
  have heo : e.order = r + 1 := by simp [Arr.order, he, hoff]
  have happ : ∀ k v, v.length = r → applyPerm p (k :: v) = v.take left ++ k :: v.drop left := by
    intro k v hv
    rw [hp, applyPerm_append, applyPerm_append, List.append_assoc]
    congr 1
    · unfold applyPerm
      rw [List.map_map]
      apply List.ext_getElem (by simp; omega)
      intro i h1 h2
      have hi : i < left := by simpa using h1
      rw [List.getElem_map, List.getElem_range, List.getElem_take]
      simp only [Function.comp, List.getD_cons_succ]
      rw [List.getD_eq_getElem]
    · rw [applyPerm_singleton, List.getD_cons_zero]
      rw [List.singleton_append]
      congr 1
      unfold applyPerm
      rw [List.map_map]
      apply List.ext_getElem (by simp; omega)
      intro i h1 h2
      have hi : i < r - left := by simpa using h1
      rw [List.getElem_map, List.getElem_range, List.getElem_drop]
      simp only [Function.comp]
      rw [show i + (left + 1) = (left + i) + 1 by omega, List.getD_cons_succ, List.getD_eq_getElem]
  refine ⟨e.transpose p, ?_, ?_, ?_⟩
  · unfold transposeT
    rw [heo, if_pos hperm]
  · show applyPerm p e.shape = _
    rw [he, happ m off hoff]
  · intro k v hv
    show e.get (applyPerm (invPerm p) _) = _
    rw [← happ k v hv, invPerm_applyPerm hperm (by simp [hv])]

/-- The rows given to `eval_at_indices`: of the right length and inside the shape. -/
def RowsOk (x : Arr R) (rows : List (List Nat)) (dims : List Nat) : Prop :=
  ∀ r ∈ rows, InBox (entriesAt dims x.shape) r

theorem rowsOk_length {x : Arr R} {rows : List (List Nat)} {dims : List Nat} (h : RowsOk x rows dims) :
    (rows.any (fun r => r.length != dims.length)) = false := by
  rw [List.any_eq_false]
  intro r hr
  have := (h r hr).length_eq
  simp only [entriesAt, List.length_map] at this
  simp [this]

theorem getD_map_row {rows : List (List Nat)} {f : List Nat → List Nat} {k : Nat} (hk : k < rows.length) :
    (rows.map f).getD k [] = f (rows.getD k []) := by
  rw [List.getD_eq_getElem _ _ (by simpa using hk), List.getElem_map, List.getD_eq_getElem _ _ hk]

/-- All the dimensions designated (in any order): the listed entries. -/
theorem evalAtIndices_full (x : Arr R) (rows : List (List Nat)) (dims : List Nat)
    (hd : dims.Perm (List.range x.order)) (hrows : RowsOk x rows dims) :
    ∃ y, evalAtIndices x rows (some dims) = .ok y ∧ y.shape = [rows.length] ∧
      ∀ idx, InBox x.shape idx → ∀ k, k < rows.length → rows.getD k [] = entriesAt dims idx → y.get [k] = x.get idx := by
  have hl := perm_len hd
  have hslen : (applyPerm (argsort dims) dims).length = x.order := by
    rw [(sorted_perm dims).length_eq, hl]
  have hall : (rows.map (applyPerm (argsort dims))).all (fun r => decide (InBox x.shape r)) = true := by
    rw [List.all_eq_true]
    intro r hr
    obtain ⟨r0, hr0, rfl⟩ := List.mem_map.1 hr
    have hb := hrows r0 hr0
    have hbl : r0.length = x.order := by rw [hb.length_eq]; simp [entriesAt, hl]
    rw [argsort_eq_invPerm hd, decide_eq_true_eq]
    have := (inBox_applyPerm hd (s := x.shape) (v := applyPerm (invPerm dims) r0) rfl (by simp [hl])).1
    rw [applyPerm_invPerm hd hbl] at this
    exact this hb
  refine ⟨⟨[rows.length], fun k => x.get ((rows.map (applyPerm (argsort dims))).getD (k.getD 0 0) [])⟩, ?_, rfl, ?_⟩
  · unfold evalAtIndices
    simp only [Option.getD_some, rowsOk_length hrows, Bool.false_eq_true, if_false, Option.isNone_some]
    rw [if_pos hslen, if_pos hall]
    simp
  · intro idx hi k hk hrow
    simp only [List.getD_cons_zero]
    rw [getD_map_row hk, hrow, argsort_eq_invPerm hd]
    show x.get (applyPerm (invPerm dims) (applyPerm dims idx)) = _
    rw [invPerm_applyPerm hd hi.length_eq]

/-- `dims` left out: the listed entries. -/
theorem evalAtIndices_all (x : Arr R) (rows : List (List Nat)) (hrows : ∀ r ∈ rows, InBox x.shape r) :
    ∃ y, evalAtIndices x rows = .ok y ∧ y.shape = [rows.length] ∧
      ∀ k, k < rows.length → y.get [k] = x.get (rows.getD k []) := by
  have hall : rows.all (fun r => decide (InBox x.shape r)) = true := by
    rw [List.all_eq_true]
    intro r hr
    simpa using hrows r hr
  have hany : (rows.any (fun r => r.length != (List.range x.order).length)) = false := by
    rw [List.any_eq_false]
    intro r hr
    have := (hrows r hr).length_eq
    simp [this, Arr.order]
  refine ⟨⟨[rows.length], fun k => x.get (rows.getD (k.getD 0 0) [])⟩, ?_, rfl, ?_⟩
  · unfold evalAtIndices
    simp only [Option.getD_none, hany, Bool.false_eq_true, if_false, Option.isNone_none, if_true]
    rw [if_pos (by simp), if_pos hall]
  · intro k _; rfl

/-- One designated dimension: the listed slices, at the place of this dimension. -/
theorem evalAtIndices_one (x : Arr R) (rows : List (List Nat)) (d : Nat) (hd : d < x.order) (ho : x.order ≠ 1)
    (hrows : RowsOk x rows [d]) :
    ∃ y, evalAtIndices x rows (some [d]) = .ok y ∧ y.shape = x.shape.set d rows.length ∧
      ∀ idx, InBox x.shape idx → ∀ k, k < rows.length → rows.getD k [] = [idx.getD d 0] →
        y.get (idx.set d k) = x.get idx := by
  have hsort : argsort [d] = [0] := rfl
  have hpk : List.Forall₂ PickOk ((List.replicate x.order none).set d (some (rows.map (fun r => r.getD 0 0)))) x.shape := by
    rw [List.forall₂_iff_get]
    refine ⟨by simp [Arr.order], fun i h1 h2 => ?_⟩
    simp only [List.get_eq_getElem, List.getElem_set, List.getElem_replicate]
    split
    · rename_i hdi; subst hdi
      intro l hl j hj
      cases hl
      obtain ⟨r, hr, rfl⟩ := List.mem_map.1 hj
      have := ((inBox_iff_getD _ _).1 (hrows r hr)).2 0 (by simp [entriesAt])
      simp only [entriesAt, List.map_cons, List.getD_cons_zero] at this
      rwa [List.getD_eq_getElem _ _ h2] at this
    · intro l hl; cases hl
  obtain ⟨y, hy1, hy2, hy3⟩ := subTensor_spec x _ hpk
  have hmaprow : (rows.map (applyPerm [0])).map (fun r => r.getD 0 0) = rows.map (fun r => r.getD 0 0) := by
    rw [List.map_map]; rfl
  have hys : y.shape = x.shape.set d rows.length := by
    rw [hy2]
    apply List.ext_getElem (by simp [Arr.order])
    intro i h1 h2
    simp only [List.getElem_zipWith, List.getElem_set, List.getElem_replicate]
    split <;> simp [pickSize]
  refine ⟨y, ?_, hys, ?_⟩
  · unfold evalAtIndices
    have := rowsOk_length hrows
    rw [List.length_singleton] at this
    simp only [Option.getD_some, this, Bool.false_eq_true, if_false, Option.isNone_some, hsort,
      applyPerm_singleton, List.getD_cons_zero, List.length_singleton, if_true, this]
    rw [if_neg (Ne.symm ho), hmaprow, hy1]
  · intro idx hi k hk hrow
    have hil : idx.length = x.order := hi.length_eq
    have hin : InBox y.shape (idx.set d k) := by
      rw [hys, inBox_iff_getD]
      refine ⟨by simpa [Arr.order] using hil, fun j hj => ?_⟩
      have hj : j < x.order := by simpa [Arr.order] using hj
      rw [getD_set, getD_set]
      by_cases hdj : d = j
      · subst hdj; rw [if_pos ⟨rfl, by omega⟩, if_pos ⟨rfl, hd⟩]; exact hk
      · rw [if_neg (by tauto), if_neg (by tauto)]
        exact ((inBox_iff_getD _ _).1 hi).2 j hj
    rw [hy3 _ hin]
    congr 1
    apply ext_getD (by simp [hil])
    intro j hj
    have hj : j < x.order := by simp [hil] at hj; exact hj
    rw [List.getD_eq_getElem _ _ (by simp [hil, hj]), List.getElem_zipWith]
    rw [List.getElem_set, List.getElem_set]
    by_cases hdj : d = j
    · subst hdj
      simp only [if_true, pick]
      rw [List.getD_eq_getElem _ _ (by simpa using hk), List.getElem_map, ← List.getD_eq_getElem _ [] hk, hrow]
      rfl
    · simp only [hdj, if_false, List.getElem_replicate, pick]
      rw [List.getD_eq_getElem]

/-- Some of the dimensions (at least two): the specification holds when, for each row, the row-major and the
column-major numbers of the row coincide. This is what is missing to the full claim: the code numbers the rows
of the matricised tensor in row-major order although `matricize` numbers them in column-major order
(full_tensor.py l.326-333). See `evalAtIndices_wrong`. -/
theorem evalAtIndices_partial (x : Arr R) (rows : List (List Nat)) (dims : List Nat) (hnd : dims.Nodup)
    (hlt : ∀ k ∈ dims, k < x.order) (h2 : 2 ≤ dims.length) (hlen : dims.length < x.order)
    (hrows : RowsOk x rows dims)
    (hagree : ∀ r ∈ rows,
      ravelC (entriesAt (applyPerm (argsort dims) dims) x.shape) (applyPerm (argsort dims) r) =
      ravelF (entriesAt (applyPerm (argsort dims) dims) x.shape) (applyPerm (argsort dims) r)) :
    ∃ y, evalAtIndices x rows (some dims) = .ok y ∧ EvalSpec x rows dims y := by
  have hne : dims ≠ [] := by rintro rfl; simp at h2
  set ds := applyPerm (argsort dims) dims with hds
  have hdp : ds.Perm dims := sorted_perm dims
  have hdsl : ds.length = dims.length := hdp.length_eq
  have hdsnd : ds.Nodup := hdp.nodup_iff.2 hnd
  have hdslt : ∀ k ∈ ds, k < x.order := fun k hk => hlt k (hdp.mem_iff.1 hk)
  have hsd : setdiffRange x.order ds = setdiffRange x.order dims := setdiffRange_congr (fun k => hdp.mem_iff)
  have hleft : ds.getD 0 0 = dims.foldr min (dims.getD 0 0) := sorted_head hne
  have hll := left_le hnd hlt hne
  have hentS : ∀ v, entriesAt ds v = applyPerm (argsort dims) (entriesAt dims v) := by
    intro v
    apply ext_getD (by simp [entriesAt, hdsl, (argsort_perm dims).length_eq])
    intro k hk
    have hk : k < (argsort dims).length := by
      rw [(argsort_perm dims).length_eq]
      simpa [entriesAt, hdsl] using hk
    have h3 : (argsort dims).getD k 0 < dims.length := by
      rw [List.getD_eq_getElem _ _ hk]
      exact List.mem_range.1 ((argsort_perm dims).mem_iff.1 (List.getElem_mem hk))
    rw [getD_applyPerm _ _ _ hk]
    show (applyPerm ds v).getD k 0 = (applyPerm dims v).getD _ 0
    rw [getD_applyPerm _ _ _ (by rw [hdsl]; rwa [(argsort_perm dims).length_eq, List.length_range] at hk),
      getD_applyPerm _ _ _ h3, hds, getD_applyPerm _ _ _ hk]
  have hrowsS : ∀ r ∈ rows.map (applyPerm (argsort dims)), InBox (entriesAt ds x.shape) r := by
    intro r hr
    obtain ⟨r0, hr0, rfl⟩ := List.mem_map.1 hr
    rw [hentS]
    exact (inBox_applyPerm (argsort_perm dims) (by simp [entriesAt]) (by
      rw [(hrows r0 hr0).length_eq]; simp [entriesAt])).2 (hrows r0 hr0)
  obtain ⟨m, hm1, hm2, hm3⟩ := matricize_default x ds hdsnd hdslt
  set lin := (rows.map (applyPerm (argsort dims))).map (ravelC (entriesAt ds x.shape)) with hlin
  have hlinl : lin.length = rows.length := by simp [hlin]
  have hpk : List.Forall₂ PickOk [some lin, none] m.shape := by
    rw [hm2]
    refine .cons ?_ (.cons (by intro l hl; cases hl) .nil)
    intro l hl i hi
    cases hl
    rw [hlin] at hi
    obtain ⟨r, hr, rfl⟩ := List.mem_map.1 hi
    exact ravelC_lt (hrowsS r hr)
  obtain ⟨e, he1, he2, he3⟩ := subTensor_spec m _ hpk
  have hoffS : ∀ v : List Nat, entriesOff ds v = entriesOff dims v := by
    intro v
    unfold entriesOff
    congr 1
    apply List.filter_congr
    intro k _
    simp [hdp.mem_iff]
  have hes : e.shape = [rows.length, (entriesOff dims x.shape).prod] := by
    rw [he2, hm2, hoffS]; simp [pickSize, hlinl]
  have hoffx : applyPerm (setdiffRange x.order dims) x.shape = entriesOff dims x.shape := (entriesOff_eq _ _).symm
  have hlsd := length_setdiffRange hnd hlt
  have hresh : reshape e (rows.length :: entriesOff dims x.shape) = .ok (e.reshapeF (rows.length :: entriesOff dims x.shape)) := by
    simp [reshape, hes]
  obtain ⟨y, hy1, hy2, hy3⟩ := moveAxis_spec (e.reshapeF (rows.length :: entriesOff dims x.shape)) rows.length
    (dims.foldr min (dims.getD 0 0)) (x.order - dims.length) (entriesOff dims x.shape) rfl
    (by rw [← hoffx]; simp; omega) (by omega)
  refine ⟨y, ?_, hy2, ?_⟩
  · unfold evalAtIndices
    simp only [Option.getD_some, rowsOk_length hrows, Bool.false_eq_true, if_false, Option.isNone_some, ← hds]
    rw [if_neg (by omega), if_neg (by omega)]
    have hmap := mapM_if_ok (fun r => InBox (applyPerm ds x.shape) r) (ravelC (applyPerm ds x.shape)) .valueError
      (rows.map (applyPerm (argsort dims))) hrowsS
    simp only [bind, Except.bind] at *
    rw [hmap]
    simp only [hm1]
    erw [he1]
    simp only
    rw [show ((rows.map (applyPerm (argsort dims))).map (ravelC (applyPerm ds x.shape))).length = rows.length by simp,
      hsd, hoffx, hresh]
    simp only
    rw [hleft, hdsl]
    exact hy1
  · intro idx hi k hk hrow
    have hoffl : (entriesOff dims idx).length = x.order - dims.length := by
      rw [entriesOff_eq, hi.length_eq]
      have : x.shape.length = x.order := rfl
      rw [this]; simp; omega
    rw [hy3 k _ hoffl]
    show e.get (unravelF e.shape (ravelF (rows.length :: entriesOff dims x.shape) (k :: entriesOff dims idx))) = _
    have hoffin : InBox (entriesOff dims x.shape) (entriesOff dims idx) := by
      have := (inBox_applyPerm (dims_append_perm hnd hlt) (s := x.shape) rfl hi.length_eq).2 hi
      rw [applyPerm_append, applyPerm_append, inBox_append (by simp)] at this
      rw [entriesOff_eq, entriesOff_eq, hi.length_eq]
      exact this.2
    have hkin : InBox (entriesAt ds x.shape) (entriesAt ds idx) := by
      have := (inBox_applyPerm (dims_append_perm hdsnd hdslt) (s := x.shape) rfl hi.length_eq).2 hi
      rw [applyPerm_append, applyPerm_append, inBox_append (by simp)] at this
      exact this.1
    rw [hes]
    show e.get (unravelF [rows.length, _] (k + rows.length * ravelF (entriesOff dims x.shape) (entriesOff dims idx))) = _
    rw [unravelF_pair hk (ravelF_lt hoffin)]
    rw [he3 _ (by rw [hes]; simp [hk, ravelF_lt hoffin])]
    rw [← hm3 idx hi]
    congr 1
    simp only [List.zipWith_cons_cons, pick, hoffS, List.zipWith_nil_right, List.cons.injEq, and_true]
    rw [hlin, List.map_map, List.getD_eq_getElem _ _ (by simpa using hk), List.getElem_map]
    simp only [Function.comp]
    have hrk : rows[k] = entriesAt dims idx := by rw [← hrow, List.getD_eq_getElem _ _ hk]
    rw [hagree _ (List.getElem_mem hk), hrk, ← hentS]

/-- The full claim is false: for a tensor of shape `(2, 3, 4)` and the single row `(1, 0)` of the dimensions
`(0, 1)`, the code returns the slice `x[1, 1, :]` instead of `x[1, 0, :]`. -/
theorem evalAtIndices_wrong :
    let x : Arr Nat := ⟨[2, 3, 4], fun i => 100 * i.getD 0 0 + 10 * i.getD 1 0 + i.getD 2 0⟩
    RowsOk x [[1, 0]] [0, 1] ∧
    (∀ y, evalAtIndices x [[1, 0]] (some [0, 1]) = .ok y → y.get [0, 2] = x.get [1, 1, 2]) ∧
    ¬ ∃ y, evalAtIndices x [[1, 0]] (some [0, 1]) = .ok y ∧ EvalSpec x [[1, 0]] [0, 1] y := by
  intro x
  have h1 : ∃ y, evalAtIndices x [[1, 0]] (some [0, 1]) = .ok y ∧ y.get [0, 2] = x.get [1, 1, 2] := by
    refine ⟨_, rfl, ?_⟩
    decide +kernel
  obtain ⟨y0, hy0, hg⟩ := h1
  refine ⟨?_, ?_, ?_⟩
  · intro r hr
    simp only [List.mem_singleton] at hr
    subst hr
    decide
  · intro y hy
    rw [hy0] at hy
    cases hy
    exact hg
  · rintro ⟨y, hy, hspec⟩
    rw [hy0] at hy
    cases hy
    have := hspec.entry [1, 0, 2] (by decide) 0 (by decide) (by decide)
    have e : ((entriesOff [0, 1] [1, 0, 2]).take (([0, 1] : List Nat).foldr min (([0, 1] : List Nat).getD 0 0)) ++
      0 :: (entriesOff [0, 1] [1, 0, 2]).drop (([0, 1] : List Nat).foldr min (([0, 1] : List Nat).getD 0 0))) = [0, 2] := by
      decide
    rw [e, hg] at this
    exact absurd this (by decide)

/-- The designated dimensions all have the same size. -/
def EqualSizes (x : Arr R) (dims : List Nat) : Prop :=
  ∀ k ∈ dims, x.shape.getD k 0 = x.shape.getD (dims.getD 0 0) 0

theorem ravel_const (m n i : Nat) : ravelC (List.replicate m n) (List.replicate m i) =
    ravelF (List.replicate m n) (List.replicate m i) := by
  -- both are `i * (1 + n + ... + n ^ (m - 1))`
  have hC : ∀ m, ravelC (List.replicate m n) (List.replicate m i) = i * ∑ j ∈ range m, n ^ j := by
    intro m
    induction m with
    | zero => simp [ravelC]
    | succ m ih =>
      rw [List.replicate_succ, List.replicate_succ, ravelC, ih, List.prod_replicate, sum_range_succ]; ring
  have hF : ∀ m, ravelF (List.replicate m n) (List.replicate m i) = i * ∑ j ∈ range m, n ^ j := by
    intro m
    induction m with
    | zero => simp [ravelF]
    | succ m ih =>
      rw [List.replicate_succ, List.replicate_succ, ravelF, ih, sum_range_succ', mul_add]
      simp only [pow_succ, ← sum_mul, pow_zero]
      ring
  rw [hC, hF]

/-- `eval_diag(dims)` merges the dimensions `dims` into one (placed at the least of them) and keeps the entries
with equal subscripts there — for every choice of dimensions of equal sizes. -/
theorem evalDiag_spec (x : Arr R) (dims : List Nat) (hnd : dims.Nodup) (hne : dims ≠ [])
    (hlt : ∀ k ∈ dims, k < x.order) (heq : EqualSizes x dims) :
    ∃ y, evalDiag x (some dims) = .ok y ∧
      y.shape = (entriesOff dims x.shape).take (dims.foldr min (dims.getD 0 0)) ++
        x.shape.getD (dims.getD 0 0) 0 :: (entriesOff dims x.shape).drop (dims.foldr min (dims.getD 0 0)) ∧
      ∀ idx, InBox x.shape idx → ∀ i, (∀ k ∈ dims, idx.getD k 0 = i) →
        y.get ((entriesOff dims idx).take (dims.foldr min (dims.getD 0 0)) ++
          i :: (entriesOff dims idx).drop (dims.foldr min (dims.getD 0 0))) = x.get idx := by
  set n := x.shape.getD (dims.getD 0 0) 0 with hn
  have hsize : entriesAt dims x.shape = List.replicate dims.length n := by
    unfold entriesAt
    rw [List.eq_replicate_iff]
    refine ⟨by simp, fun b hb => ?_⟩
    obtain ⟨k, hk, rfl⟩ := List.mem_map.1 hb
    exact heq k hk
  set rows := (List.range n).map (fun i => List.replicate dims.length i) with hrowsdef
  have hrows : RowsOk x rows dims := by
    intro r hr
    obtain ⟨i, hi, rfl⟩ := List.mem_map.1 hr
    rw [hsize, inBox_iff_getD]
    refine ⟨by simp, fun k hk => ?_⟩
    have hk : k < dims.length := by simpa using hk
    rw [getD_replicate hk, getD_replicate hk]
    exact List.mem_range.1 hi
  have hrowk : ∀ idx i, InBox x.shape idx → (∀ k ∈ dims, idx.getD k 0 = i) → i < n ∧ entriesAt dims idx = List.replicate dims.length i := by
    intro idx i hi hk
    have h0 : dims.getD 0 0 ∈ dims := by
      rw [List.getD_eq_getElem _ _ (List.length_pos_iff.2 hne)]; exact List.getElem_mem _
    constructor
    · have := ((inBox_iff_getD _ _).1 hi).2 _ (hlt _ h0)
      rwa [hk _ h0] at this
    · unfold entriesAt
      rw [List.eq_replicate_iff]
      refine ⟨by simp, fun b hb => ?_⟩
      obtain ⟨k, hk', rfl⟩ := List.mem_map.1 hb
      exact hk k hk'
  have hrl : rows.length = n := by simp [hrowsdef]
  have hrg : ∀ i, i < n → rows.getD i [] = List.replicate dims.length i := by
    intro i hi
    rw [hrowsdef, List.getD_eq_getElem _ _ (by simpa using hi), List.getElem_map, List.getElem_range]
  by_cases h1 : dims.length = 1
  · obtain ⟨d, rfl⟩ := List.length_eq_one_iff.1 h1
    have hd := hlt d (by simp)
    have hins : ∀ v : List Nat, v.length = x.order → (entriesOff [d] v).take d ++ v.getD d 0 :: (entriesOff [d] v).drop d = v := by
      intro v hv
      have hsdr : setdiffRange x.order [d] = List.range d ++ (List.range (x.order - d - 1)).map (· + (d + 1)) := by
        have e : x.order = d + (1 + (x.order - d - 1)) := by omega
        unfold setdiffRange
        conv_lhs => rw [e, List.range_add, List.range_add]
        simp only [List.filter_append, List.map_append, List.map_map, List.filter_map]
        have h1 : (List.range d).filter (fun i => !([d] : List Nat).contains i) = List.range d := by
          rw [List.filter_eq_self]; intro a ha; have := List.mem_range.1 ha; simp; omega
        have h2 : (List.range 1).filter ((fun i => !([d] : List Nat).contains i) ∘ fun x => d + x) = [] := by
          simp
        have h3 : (List.range (x.order - d - 1)).filter ((fun i => !([d] : List Nat).contains i) ∘ ((fun x => d + x) ∘ fun x => 1 + x))
            = List.range (x.order - d - 1) := by
          rw [List.filter_eq_self]; intro a ha; simp; omega
        rw [h1, h2, h3]
        simp
        intro a _; omega
      rw [entriesOff_eq, hv, hsdr, applyPerm_append]
      have ht : (applyPerm (List.range d) v ++ applyPerm ((List.range (x.order - d - 1)).map (· + (d + 1))) v).take d
          = applyPerm (List.range d) v := List.take_left' (by simp)
      have hdr : (applyPerm (List.range d) v ++ applyPerm ((List.range (x.order - d - 1)).map (· + (d + 1))) v).drop d
          = applyPerm ((List.range (x.order - d - 1)).map (· + (d + 1))) v := List.drop_left' (by simp)
      rw [ht, hdr]
      apply ext_getD (by simp [hv]; omega)
      intro k hk
      rcases Nat.lt_trichotomy k d with h | h | h
      · rw [List.getD_append _ _ _ _ (by simpa using h), getD_applyPerm _ _ _ (by simpa using h),
          List.getD_eq_getElem (List.range d) _ (by simpa using h), List.getElem_range]
      · subst h
        rw [List.getD_append_right _ _ _ _ (by simp)]; simp
      · rw [List.getD_append_right _ _ _ _ (by simp; omega)]
        simp only [length_applyPerm, List.length_range]
        rw [show k - d = (k - d - 1) + 1 by omega, List.getD_cons_succ]
        simp [hv] at hk
        rw [getD_applyPerm _ _ _ (by simp; omega), List.getD_eq_getElem (List.map _ _) _ (by simp; omega), List.getElem_map,
          List.getElem_range]
        congr 1; omega
    refine ⟨x, by simp [evalDiag], ?_, ?_⟩
    · have := (hins x.shape rfl).symm
      simp only [List.foldr_cons, List.foldr_nil, List.getD_cons_zero, Nat.min_self]
      rw [hn]
      simp only [List.getD_cons_zero]
      exact this
    · intro idx hi i hk
      have hk := hk d (by simp)
      subst hk
      have := hins idx hi.length_eq
      simp only [List.foldr_cons, List.foldr_nil, List.getD_cons_zero, Nat.min_self]
      rw [this]
  · have hcode : evalDiag x (some dims) = evalAtIndices x rows (some dims) := by
      unfold evalDiag
      simp only [Option.getD_some]
      rw [if_neg h1, if_pos]
      rw [List.all_eq_true]
      intro k hk
      simpa using heq k hk
    rw [hcode]
    by_cases hfull : dims.length = x.order
    · have hperm : dims.Perm (List.range x.order) :=
        (hnd.subperm (fun k hk => List.mem_range.2 (hlt k hk))).perm_of_length_le (by simp [hfull])
      have hoffnil : ∀ v : List Nat, v.length = x.order → entriesOff dims v = [] := by
        intro v hv
        rw [entriesOff_eq, hv]
        have : setdiffRange x.order dims = [] := by
          unfold setdiffRange
          rw [List.filter_eq_nil_iff]
          intro a ha
          simp [hperm.mem_iff.2 ha]
        rw [this]; rfl
      obtain ⟨y, hy1, hy2, hy3⟩ := evalAtIndices_full x rows dims hperm hrows
      refine ⟨y, hy1, by rw [hy2, hoffnil _ rfl, hrl]; simp, ?_⟩
      intro idx hi i hk
      obtain ⟨hin, hent⟩ := hrowk idx i hi hk
      rw [hoffnil _ hi.length_eq]
      simpa using hy3 idx hi i (by omega) (by rw [hrg i hin, hent])
    · have hle : dims.length ≤ x.order := by
        have := (hnd.subperm (fun k hk => List.mem_range.2 (hlt k hk) : dims ⊆ List.range x.order)).length_le
        simpa using this
      have hpos : 0 < dims.length := List.length_pos_iff.2 hne
      obtain ⟨y, hy1, hy2⟩ := evalAtIndices_partial x rows dims hnd hlt (by omega) (by omega) hrows (by
        intro r hr
        obtain ⟨i, hi, rfl⟩ := List.mem_map.1 hr
        have e1 : applyPerm (argsort dims) (List.replicate dims.length i) = List.replicate dims.length i := by
          rw [List.eq_replicate_iff]
          refine ⟨by simp [(argsort_perm dims).length_eq], fun b hb => ?_⟩
          obtain ⟨k, hk, rfl⟩ := List.mem_map.1 hb
          exact getD_replicate (List.mem_range.1 ((argsort_perm dims).mem_iff.1 hk))
        have e2 : entriesAt (applyPerm (argsort dims) dims) x.shape = List.replicate dims.length n := by
          rw [List.eq_replicate_iff]
          refine ⟨by simp [entriesAt, (argsort_perm dims).length_eq], fun b hb => ?_⟩
          obtain ⟨k, hk, rfl⟩ := List.mem_map.1 hb
          exact heq k ((sorted_perm dims).mem_iff.1 hk)
        rw [e1, e2, ravel_const])
      refine ⟨y, hy1, by rw [hy2.shape, hrl], ?_⟩
      intro idx hi i hk
      obtain ⟨hin, hent⟩ := hrowk idx i hi hk
      exact hy2.entry idx hi i (by omega) (by rw [hrg i hin, hent])

/-- Dimensions of different sizes have no diagonal: refused. -/
theorem evalDiag_refused (x : Arr R) (dims : List Nat) (h1 : dims.length ≠ 1) (h : ¬ EqualSizes x dims) :
    evalDiag x (some dims) = .error .assertionError := by
  unfold evalDiag
  simp only [Option.getD_some]
  rw [if_neg h1, if_neg]
  rw [List.all_eq_true]
  intro hall
  exact h (fun k hk => by simpa using hall k hk)

example : EqualSizes (⟨[3, 2, 3, 5], fun i => i.sum⟩ : Arr Nat) [2, 0] ∧ [2, 0].Nodup ∧
    RowsOk (⟨[3, 2, 3, 5], fun i => i.sum⟩ : Arr Nat) [[1, 1], [2, 2]] [2, 0] := by
  refine ⟨?_, by decide, ?_⟩
  · intro k hk; simp at hk; rcases hk with rfl | rfl <;> rfl
  · intro r hr; simp at hr; rcases hr with rfl | rfl <;> decide

end Verif.FullTensor
