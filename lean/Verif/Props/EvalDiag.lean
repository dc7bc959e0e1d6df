import Verif.Lemmas.EvalDiag
import Verif.Props.FullTensorIndex
import Verif.Props.SparseContract

/-! `FullTensor.tensor_matrix_product_eval_diag`. -/

namespace Verif
namespace FullTensor

open Arr Finset
open TreeBased (tensordot_one dropAxes_mid mergeIdx_mid)

variable {R : Type}

theorem mergeIdx_shift (ax s : List Nat) (k : Nat) (hs : s.length = ax.length) (pos n : Nat) (t : List Nat) :
    mergeIdx (ax.map (· + 1) ++ [0]) (s ++ [k]) (pos + 1) n t = mergeIdx ax s pos n t := by
  induction n generalizing pos t with
  | zero => rfl
  | succ n ih =>
    unfold mergeIdx
    have hiff : pos + 1 ∈ ax.map (· + 1) ++ [0] ↔ pos ∈ ax := by simp
    by_cases h : pos ∈ ax
    · rw [if_pos h, if_pos (hiff.2 h), ih]
      congr 1
      have hm : pos + 1 ∈ ax.map (· + 1) := by simpa using h
      rw [List.idxOf_append_of_mem hm]
      have e : (ax.map (· + 1)).idxOf (pos + 1) = ax.idxOf pos := by
        clear hs ih h hm hiff
        induction ax with
        | nil => rfl
        | cons a l ihl =>
          rw [List.map_cons, List.idxOf_cons, List.idxOf_cons, ihl]
          by_cases hap : a = pos
          · simp [hap]
          · have : ¬ (a + 1 = pos + 1) := by omega
            simp [hap, this]
      rw [e, List.getD_append _ _ _ _ (by rw [hs]; exact List.idxOf_lt_length_of_mem h)]
    · rw [if_neg h, if_neg (fun h' => h (hiff.1 h')), ih]

theorem mergeIdx_cons0 (ax s : List Nat) (k : Nat) (hs : s.length = ax.length) (n : Nat) (t : List Nat) :
    mergeIdx (ax.map (· + 1) ++ [0]) (s ++ [k]) 0 (n + 1) t = k :: mergeIdx ax s 0 n t := by
  rw [mergeIdx, if_pos (by simp), mergeIdx_shift _ _ _ hs]
  congr 1
  have : 0 ∉ ax.map (· + 1) := by simp
  rw [List.idxOf_append_of_notMem this, List.getD_append_right _ _ _ _ (by simp [hs])]
  simp [hs]

theorem dropAxes_cons0 (ax l : List Nat) (k : Nat) : dropAxes (ax.map (· + 1) ++ [0]) (k :: l) = dropAxes ax l := by
  rw [dropAxes_eq, dropAxes_eq]
  unfold setdiffRange applyPerm
  rw [List.length_cons, List.range_succ_eq_map, List.filter_cons_of_neg (by simp), List.filter_map, List.map_map]
  have : ∀ p ∈ List.range l.length, ((fun j => !(ax.map (· + 1) ++ [0]).contains j) ∘ Nat.succ) p = !ax.contains p := by
    intro p _; simp
  rw [List.filter_congr this]
  apply List.map_congr_left
  intro p _
  rfl

/-- The entries after position `d`, at the positions not in `D`. -/
def tailOff (D : List Nat) (d : Nat) (v : List Nat) : List Nat :=
  ((List.range' (d + 1) (v.length - (d + 1))).filter (fun k => k ∉ D)).map (fun k => v.getD k 0)

theorem range_at {d n : Nat} (h : d < n) : List.range n = List.range d ++ d :: List.range' (d + 1) (n - (d + 1)) := by
  conv_lhs => rw [show n = d + (1 + (n - (d + 1))) by omega, List.range_eq_range', ← List.range'_append_1,
    ← List.range'_append_1]
  simp [List.range_eq_range']

theorem take_eq_range (v : List Nat) (d : Nat) (h : d < v.length) : (List.range d).map (fun k => v.getD k 0) = v.take d := by
  apply List.ext_getElem (by simp; omega)
  intro i h1 h2
  have hi : i < d := by simpa using h1
  rw [List.getElem_map, List.getElem_range, List.getD_eq_getElem _ _ (by omega), List.getElem_take]

theorem entriesOff_low {D : List Nat} {d : Nat} {v : List Nat} (hd : d < v.length) (hD : ∀ q ∈ D, d < q) :
    entriesOff D v = v.take d ++ v.getD d 0 :: tailOff D d v := by
  unfold entriesOff tailOff
  rw [range_at hd, List.filter_append, List.map_append, List.filter_cons_of_pos (by
    simp only [decide_eq_true_eq]; exact fun h => by have := hD d h; omega), List.map_cons, List.filter_eq_self.2 (by
    intro a ha
    simp only [decide_eq_true_eq]
    exact fun h => by have := hD a h; have := List.mem_range.1 ha; omega), take_eq_range _ _ hd]

theorem entriesOff_low_cons {D : List Nat} {d : Nat} {v : List Nat} (hd : d < v.length) (hD : ∀ q ∈ D, d < q) :
    entriesOff (d :: D) v = v.take d ++ tailOff D d v := by
  unfold entriesOff tailOff
  rw [range_at hd, List.filter_append, List.map_append, List.filter_cons_of_neg (by simp), List.filter_eq_self.2 (by
    intro a ha
    have := List.mem_range.1 ha
    simp only [decide_eq_true_eq, List.mem_cons, not_or]
    exact ⟨by omega, fun h => by have := hD a h; omega⟩), take_eq_range _ _ hd]
  congr 2
  apply List.filter_congr
  intro a ha
  have := List.mem_range'_1.1 ha
  have : a ≠ d := by omega
  simp [this]

theorem tailOff_set (D : List Nat) (d j : Nat) (v : List Nat) : tailOff D d (v.set d j) = tailOff D d v := by
  unfold tailOff
  rw [List.length_set]
  apply List.map_congr_left
  intro a ha
  have := List.mem_range'_1.1 (List.mem_filter.1 ha).1
  rw [Arr.getD_set, if_neg (by omega)]

/-- The state of the loop: the dimensions `D` have been contracted with the matrices `Ms`. -/
def Contracted [CommSemiring R] (x : Arr R) (n : Nat) (D : List Nat) (Ms : List (Arr R)) (out : Arr R) : Prop :=
  out.shape = n :: entriesOff D x.shape ∧
  ∀ k idx, idx.length = x.shape.length → out.get (k :: entriesOff D idx) =
    sumBox (entriesAt D x.shape) (fun s => x.get (subst idx D s) *
      (List.zipWith (fun (M : Arr R) j => M.get [k, j]) Ms s).prod)

theorem contracted_first [CommSemiring R] (x M : Arr R) (n d : Nat) (hd : d < x.order) (hM : M.shape = [n, x.shape.getD d 0]) :
    ∃ out, tensordotT M x [1] [d] = .ok out ∧ Contracted x n [d] [M] out := by
  have hdx : d < x.shape.length := hd
  have hnil : ∀ v : List Nat, entriesOff [] v = v := by
    intro v
    unfold entriesOff
    rw [List.filter_eq_self.2 (by simp)]
    apply ext_getD (by simp)
    intro k hk
    rw [List.getD_eq_getElem _ _ hk, List.getElem_map, List.getElem_range]
  have hsplit : ∀ v : List Nat, d < v.length → v = v.take d ++ v.getD d 0 :: tailOff [] d v := by
    intro v hv
    have := entriesOff_low (D := []) hv (by simp)
    rwa [hnil] at this
  obtain ⟨t, h1, h2, h3⟩ := tensordot_one M x [n] [] (x.shape.take d) (tailOff [] d x.shape) (x.shape.getD d 0) hM
    (hsplit _ hdx)
  have hl : (x.shape.take d).length = d := by simp; omega
  rw [hl] at h1
  refine ⟨t, h1, ?_, fun k idx hi => ?_⟩
  · rw [h2, entriesOff_low_cons hdx (by simp)]
    rfl
  · have hdi : d < idx.length := by rw [hi]; exact hdx
    have := h3 [k] [] (idx.take d) (tailOff [] d idx) rfl rfl (by simp [hi])
      (by simp only [tailOff, List.length_map, hi])
    rw [entriesOff_low_cons hdi (by simp)]
    refine this.trans ?_
    show _ = sumBox [x.shape.getD d 0] _
    rw [sumBox_singleton]
    apply Finset.sum_congr rfl
    intro j _
    rw [subst_cons _ _ _ _ _ (by simp), subst_nil]
    have hs := hsplit (idx.set d j) (by simpa using hdi)
    rw [tailOff_set, List.take_set_of_le (by omega : d ≤ d), Arr.getD_set, if_pos ⟨rfl, hdi⟩] at hs
    rw [← hs]
    simp [mul_comm]

theorem contracted_step [CommSemiring R] (x M out : Arr R) (n d : Nat) (D : List Nat) (Ms : List (Arr R)) (hd : d < x.order)
    (hD : ∀ q ∈ D, d < q) (hM : M.shape = [n, x.shape.getD d 0]) (h : Contracted x n D Ms out) :
    Contracted x n (d :: D) (M :: Ms) (tensordotEvalDiag M out [1] [d + 1] [0] [0]) := by
  obtain ⟨h1, h2⟩ := h
  have hdx : d < x.shape.length := hd
  have hlow := entriesOff_low (v := x.shape) hdx hD
  have ho : out.order = (x.shape.take d ++ x.shape.getD d 0 :: tailOff D d x.shape).length + 1 := by
    simp only [Arr.order, h1, hlow, List.length_cons]
  have hsp := tensordotEvalDiag_spec M out n [x.shape.getD d 0] [] [d + 1] [0] hM rfl (by simp) (by
    intro p hp; rw [List.mem_singleton.1 hp, ho]; simp; omega) (by simp) (by
    intro p hp; rw [List.mem_singleton.1 hp, ho]; omega) (by simp)
  have hdrop : ∀ v : List Nat, d < v.length → ∀ k, dropAxes ([d + 1] ++ [0]) (k :: entriesOff D v) = entriesOff (d :: D) v := by
    intro v hv k
    have := dropAxes_cons0 [d] (entriesOff D v) k
    rw [List.map_singleton] at this
    rw [this, entriesOff_low hv hD, entriesOff_low_cons hv hD]
    have hl : (v.take d).length = d := by simp; omega
    conv_lhs => rw [show [d] = [(v.take d).length] by rw [hl]]
    exact dropAxes_mid _ _ _
  rw [h1, hdrop _ hdx] at hsp
  obtain ⟨hs1, hs2⟩ := hsp
  refine ⟨hs1, fun k idx hi => ?_⟩
  have hdi : d < idx.length := by rw [hi]; exact hdx
  have hget := hs2 k [] (entriesOff (d :: D) idx) rfl (by
    rw [entriesOff_low_cons hdi hD, entriesOff_low_cons hdx hD]
    simp only [tailOff, List.length_append, List.length_take, List.length_map, hi])
  rw [List.nil_append] at hget
  refine hget.trans ?_
  rw [show entriesAt (d :: D) x.shape = x.shape.getD d 0 :: entriesAt D x.shape from rfl, sumBox, sumBox]
  apply Finset.sum_congr rfl
  intro j hj
  have hj := Finset.mem_range.1 hj
  rw [sumBox]
  have hset : (idx.set d j).length = x.shape.length := by rw [List.length_set, hi]
  have hmerge : mergeIdx ([d + 1] ++ [0]) ([j] ++ List.replicate [0].length k) 0 out.order (entriesOff (d :: D) idx) =
      k :: entriesOff D (idx.set d j) := by
    have := mergeIdx_cons0 [d] [j] k rfl (x.shape.take d ++ x.shape.getD d 0 :: tailOff D d x.shape).length
      (entriesOff (d :: D) idx)
    rw [List.map_singleton] at this
    rw [ho]
    refine this.trans ?_
    congr 1
    rw [entriesOff_low_cons hdi hD, entriesOff_low (v := idx.set d j) (by simpa using hdi) hD, tailOff_set,
      List.take_set_of_le (by omega : d ≤ d), Arr.getD_set, if_pos ⟨rfl, hdi⟩]
    have hl : (idx.take d).length = d := by simp; omega
    conv_lhs => rw [show [d] = [(idx.take d).length] by rw [hl]]
    apply mergeIdx_mid
    simp only [tailOff, List.length_append, List.length_take, List.length_map, List.length_cons, hi]
    omega
  rw [hmerge, h2 k _ hset, ← sumBox_mul_left]
  apply sumBox_congr
  intro s _
  have hdD : d ∉ D := fun h => by have := hD d h; omega
  rw [subst_cons _ _ _ _ _ hdD, List.zipWith_cons_cons, List.prod_cons]
  have hsub : subst (idx.set d j) D s = (subst idx D s).set d j := by
    apply ext_getD (by simp [subst])
    intro p hp
    have hp : p < idx.length := by simpa [subst] using hp
    rw [getD_subst _ _ _ _ (by simpa using hp), Arr.getD_set, Arr.getD_set, getD_subst _ _ _ _ hp, subst_length]
    by_cases hdp : d = p
    · subst hdp; simp [hdD, hp]
    · simp [hdp]
  rw [hsub]
  simp only [List.append_nil]
  ring

/-- The loop over the remaining indices, visited by decreasing dimension. -/
theorem contracted_loop [CommSemiring R] (x : Arr R) (n : Nat) (dimOf : Nat → Nat) (M : Nat → Arr R) (is : List Nat)
    (D : List Nat) (Ms : List (Arr R)) (out : Arr R)
    (hfit : ∀ i ∈ is, dimOf i < x.order ∧ (M i).shape = [n, x.shape.getD (dimOf i) 0])
    (hdec : is.Pairwise (fun i j => dimOf j < dimOf i)) (hD : ∀ i ∈ is, ∀ q ∈ D, dimOf i < q)
    (h : Contracted x n D Ms out) :
    Contracted x n ((is.map dimOf).reverse ++ D) ((is.map M).reverse ++ Ms)
      (is.foldl (fun out i => tensordotEvalDiag (M i) out [1] [dimOf i + 1] [0] [0]) out) := by
  induction is generalizing D Ms out with
  | nil => exact h
  | cons i is ih =>
    rw [List.foldl_cons]
    have hi := hfit i (by simp)
    have := ih (dimOf i :: D) (M i :: Ms) _ (fun j hj => hfit j (by simp [hj])) (List.pairwise_cons.1 hdec).2 (by
      intro j hj q hq
      rcases List.mem_cons.1 hq with rfl | hq
      · exact (List.pairwise_cons.1 hdec).1 j hj
      · exact hD j (by simp [hj]) q hq)
      (contracted_step x (M i) out n (dimOf i) D Ms hi.1 (hD i (by simp)) hi.2 h)
    simpa using this

/-- `tensor_matrix_product_eval_diag(matrices, dims)` for distinct dimensions, in any order, and matrices with the same number
`n` of rows: the result has a first axis of size `n` followed by the dimensions of `x` that are not contracted, and its entry
`(k, rest)` is the sum over the subscripts `s` of the dimensions `dims` of the entry of `x` with these subscripts replaced by
`s`, times the entries `(k, s[i])` of the matrices. -/
theorem tensorMatrixProductEvalDiag_spec [CommSemiring R] (x : Arr R) (ms : List (Arr R)) (dims : List Nat) (n : Nat)
    (hne : dims ≠ []) (hnd : dims.Nodup)
    (hfit : List.Forall₂ (fun (M : Arr R) d => d < x.order ∧ M.shape = [n, x.shape.getD d 0]) ms dims) :
    ∃ y, tensorMatrixProductEvalDiag x ms (some dims) = .ok y ∧ y.shape = n :: entriesOff dims x.shape ∧
      ∀ k idx, idx.length = x.order → y.get (k :: entriesOff dims idx) =
        sumBox (entriesAt dims x.shape) (fun s => x.get (subst idx dims s) *
          (List.zipWith (fun (M : Arr R) j => M.get [k, j]) ms s).prod) := by
  have hlen := hfit.length_eq
  have hp := argsort_perm dims
  have hf := List.forall₂_iff_get.1 hfit
  have hfit' : ∀ i, i < dims.length → dims.getD i 0 < x.order ∧
      (ms.getD i ⟨[], fun _ => 0⟩).shape = [n, x.shape.getD (dims.getD i 0) 0] := by
    intro i hi
    have := hf.2 i (by omega) hi
    rw [List.getD_eq_getElem _ _ hi, List.getD_eq_getElem _ _ (by omega)]
    exact this
  have hdec : (argsort dims).reverse.Pairwise (fun i j => dims.getD j 0 < dims.getD i 0) := by
    rw [List.pairwise_reverse]
    have hs := argsort_sorted dims
    have hnd' : (argsort dims).Nodup := hp.nodup_iff.2 List.nodup_range
    refine (hs.and (List.nodup_iff_pairwise_ne.1 hnd')).imp_of_mem ?_
    rintro i j hi hj ⟨h1, h2⟩
    have hi' : i < dims.length := List.mem_range.1 (hp.mem_iff.1 hi)
    have hj' : j < dims.length := List.mem_range.1 (hp.mem_iff.1 hj)
    have : dims.getD i 0 ≠ dims.getD j 0 := by
      rw [List.getD_eq_getElem _ _ hi', List.getD_eq_getElem _ _ hj']
      intro he
      exact h2 ((hnd.getElem_inj_iff).1 he)
    omega
  have hrev : (argsort dims).reverse ≠ [] := by
    intro h
    have := congrArg List.length h
    rw [List.length_reverse, hp.length_eq, List.length_range, List.length_nil] at this
    exact hne (List.length_eq_zero_iff.1 this)
  unfold tensorMatrixProductEvalDiag
  simp only [Option.getD_some]
  rw [if_neg (by rw [hlen]; simp)]
  generalize hr : (argsort dims).reverse = rev at hdec hrev
  have hmem : ∀ i ∈ rev, i < dims.length := by
    intro i hi
    rw [← hr, List.mem_reverse] at hi
    exact List.mem_range.1 (hp.mem_iff.1 hi)
  cases rev with
  | nil => exact absurd rfl hrev
  | cons i0 is =>
    have h0 := hfit' i0 (hmem i0 (by simp))
    obtain ⟨out, ho1, ho2⟩ := contracted_first x (ms.getD i0 ⟨[], fun _ => 0⟩) n (dims.getD i0 0) h0.1 h0.2
    have hl := contracted_loop x n (fun i => dims.getD i 0) (fun i => ms.getD i ⟨[], fun _ => 0⟩) is
      [dims.getD i0 0] [ms.getD i0 ⟨[], fun _ => 0⟩] out (fun i hi => hfit' i (hmem i (by simp [hi])))
      (List.pairwise_cons.1 hdec).2 (by
        intro i hi q hq
        rw [List.mem_singleton.1 hq]
        exact (List.pairwise_cons.1 hdec).1 i hi) ho2
    simp only [ho1, bind, Except.bind]
    refine ⟨_, rfl, ?_⟩
    have hpi : argsort dims = is.reverse ++ [i0] := by
      rw [← List.reverse_inj, hr]; simp
    have hD : (is.map (fun i => dims.getD i 0)).reverse ++ [dims.getD i0 0] = applyPerm (argsort dims) dims := by
      rw [hpi]; simp [applyPerm]
    have hMs : (is.map (fun i => ms.getD i ⟨[], fun _ => 0⟩)).reverse ++ [ms.getD i0 ⟨[], fun _ => 0⟩] =
        (argsort dims).map (fun i => ms.getD i ⟨[], fun _ => 0⟩) := by
      rw [hpi]; simp
    rw [hD, hMs] at hl
    obtain ⟨hl1, hl2⟩ := hl
    have hmemD : ∀ q, q ∈ applyPerm (argsort dims) dims ↔ q ∈ dims := by
      intro q
      simp only [applyPerm, List.mem_map]
      constructor
      · rintro ⟨i, hi, rfl⟩
        have hi' := List.mem_range.1 (hp.mem_iff.1 hi)
        rw [List.getD_eq_getElem _ _ hi']
        exact List.getElem_mem hi'
      · intro hq
        obtain ⟨i, hi, rfl⟩ := List.getElem_of_mem hq
        exact ⟨i, hp.mem_iff.2 (List.mem_range.2 hi), List.getD_eq_getElem _ _ hi⟩
    have hoff : ∀ v, entriesOff (applyPerm (argsort dims) dims) v = entriesOff dims v := by
      intro v
      unfold entriesOff
      congr 1
      apply List.filter_congr
      intro q _
      simp [hmemD q]
    rw [hoff] at hl1
    refine ⟨hl1, fun k idx hi => ?_⟩
    have hk := hl2 k idx hi
    rw [hoff] at hk
    refine hk.trans ?_
    have hat : entriesAt (applyPerm (argsort dims) dims) x.shape = applyPerm (argsort dims) (entriesAt dims x.shape) := by
      unfold entriesAt applyPerm
      rw [List.map_map]
      apply List.map_congr_left
      intro i hi
      have hi' := List.mem_range.1 (hp.mem_iff.1 hi)
      simp only [Function.comp]
      conv_rhs => rw [List.getD_eq_getElem _ _ (by simpa using hi'), List.getElem_map]
      rw [List.getD_eq_getElem _ _ hi']
    rw [hat, ← sumBox_applyPerm hp (by simp [entriesAt])]
    apply sumBox_congr
    intro s hs
    have hsl : s.length = dims.length := by rw [hs.length_eq]; simp [entriesAt]
    congr 1
    · congr 1
      apply ext_getD (by simp [subst])
      intro q hq
      have hq : q < idx.length := by simpa [subst] using hq
      rw [getD_subst _ _ _ _ hq, getD_subst _ _ _ _ hq]
      by_cases hqd : q ∈ dims
      · rw [if_pos hqd, if_pos ((hmemD q).2 hqd)]
        have hpos : (applyPerm (argsort dims) dims).idxOf q < (argsort dims).length := by
          have := List.idxOf_lt_length_of_mem ((hmemD q).2 hqd)
          simpa [applyPerm] using this
        rw [getD_applyPerm _ _ _ hpos]
        congr 1
        have hv := List.getElem_idxOf (List.idxOf_lt_length_of_mem ((hmemD q).2 hqd))
        have hlt : (argsort dims).getD ((applyPerm (argsort dims) dims).idxOf q) 0 < dims.length :=
          perm_getD_lt hp (by rw [hp.length_eq, List.length_range] at hpos; exact hpos)
        rw [← List.getD_eq_getElem _ 0, getD_applyPerm _ _ _ hpos] at hv
        generalize (argsort dims).getD ((applyPerm (argsort dims) dims).idxOf q) 0 = r at hv hlt ⊢
        rw [List.getD_eq_getElem _ _ hlt] at hv
        rw [← hv, hnd.idxOf_getElem r hlt]
      · rw [if_neg hqd, if_neg (fun h => hqd ((hmemD q).1 h))]
    · have e1 : List.zipWith (fun (M : Arr R) j => M.get [k, j]) ((argsort dims).map (fun i => ms.getD i ⟨[], fun _ => 0⟩))
          (applyPerm (argsort dims) s) = (argsort dims).map (fun i => (ms.getD i ⟨[], fun _ => 0⟩).get [k, s.getD i 0]) := by
        unfold applyPerm
        rw [List.zipWith_map_left, List.zipWith_map_right, List.zipWith_self]
      have e2 : List.zipWith (fun (M : Arr R) j => M.get [k, j]) ms s =
          (List.range dims.length).map (fun i => (ms.getD i ⟨[], fun _ => 0⟩).get [k, s.getD i 0]) := by
        apply List.ext_getElem (by simp [hlen, hsl])
        intro i h1 h2
        have hi : i < dims.length := by simpa using h2
        rw [List.getElem_zipWith, List.getElem_map, List.getElem_range, List.getD_eq_getElem _ _ (by omega),
          List.getD_eq_getElem _ _ (by omega)]
      rw [e1, e2]
      exact (hp.map _).prod_eq

/-- With all the dimensions (`dims=None`): entry `k` of the result is the contraction of `x` with row `k` of each matrix. -/
theorem tensorMatrixProductEvalDiag_all [CommSemiring R] (x : Arr R) (ms : List (Arr R)) (n : Nat) (hne : x.order ≠ 0)
    (hfit : List.Forall₂ (fun (M : Arr R) m => M.shape = [n, m]) ms x.shape) :
    ∃ y, tensorMatrixProductEvalDiag x ms = .ok y ∧ y.shape = [n] ∧
      ∀ k, y.get [k] = sumBox x.shape (fun s => x.get s *
          (List.zipWith (fun (M : Arr R) j => M.get [k, j]) ms s).prod) := by
  have hf := List.forall₂_iff_get.1 hfit
  obtain ⟨y, h1, h2, h3⟩ := tensorMatrixProductEvalDiag_spec x ms (List.range x.order) n
    (by intro h; exact hne (by simpa using congrArg List.length h)) List.nodup_range (by
      rw [List.forall₂_iff_get]
      refine ⟨by simp [hf.1, Arr.order], fun i hi hi' => ?_⟩
      have hi2 : i < x.order := by simpa using hi'
      have := hf.2 i hi hi2
      simp only [List.get_eq_getElem, List.getElem_range] at this ⊢
      rw [List.getD_eq_getElem _ _ hi2]
      exact ⟨hi2, this⟩)
  have hoff : ∀ v : List Nat, v.length = x.order → entriesOff (List.range x.order) v = [] := by
    intro v hv
    unfold entriesOff
    rw [List.filter_eq_nil_iff.2 (by intro a ha; rw [hv] at ha; simpa using ha)]
    rfl
  have hat : entriesAt (List.range x.order) x.shape = x.shape := by
    unfold entriesAt
    apply ext_getD (by simp [Arr.order])
    intro k hk
    have hk : k < x.order := by simpa using hk
    rw [List.getD_eq_getElem _ _ (by simpa using hk)]
    simp
  refine ⟨y, h1, by rw [h2, hoff _ rfl], ?_⟩
  intro k
  have := h3 k x.shape rfl
  rw [hoff _ rfl, hat] at this
  rw [this]
  apply sumBox_congr
  intro s hs
  congr 2
  apply ext_getD (by rw [subst_length, hs.length_eq])
  intro q hq
  rw [subst_length] at hq
  have hq' : q < x.order := hq
  rw [getD_subst _ _ _ _ hq, if_pos (List.mem_range.2 hq')]
  congr 1
  have := List.nodup_range.idxOf_getElem (xs := List.range x.order) q (by simpa using hq')
  rwa [List.getElem_range] at this

/-- Non-vacuity: a tensor of shape (2, 3, 2) evaluated in its dimensions 2 and 0. -/
example : List.Forall₂ (fun (M : Arr Int) d => d < (⟨[2, 3, 2], fun i => i.sum⟩ : Arr Int).order ∧
      M.shape = [4, (⟨[2, 3, 2], fun i => i.sum⟩ : Arr Int).shape.getD d 0])
    [⟨[4, 2], fun i => i.sum⟩, ⟨[4, 2], fun i => i.prod⟩] [2, 0] :=
  .cons ⟨by decide, rfl⟩ (.cons ⟨by decide, rfl⟩ .nil)

example : (match tensorMatrixProductEvalDiag (⟨[2, 3, 2], fun i => (i.getD 0 0 : Int) + 5 * i.getD 1 0 + 7 * i.getD 2 0⟩ : Arr Int)
      [⟨[4, 2], fun i => i.sum⟩, ⟨[4, 2], fun i => i.prod⟩] (some [2, 0]) with
    | .ok y => some (y.shape, y.get [3, 1], y.get [2, 2]) | .error _ => none) =
    some ([4, 3], 3 * (3 * 6 + 4 * 13), 2 * (2 * 11 + 3 * 18)) := by decide +kernel

end FullTensor
end Verif
