import Verif.Lemmas.MultiIndices
import Mathlib.Algebra.BigOperators.Ring.List

/-! # Properties C02-C14 of `MultiIndices` -/

namespace Verif.MultiIndices

/-! ## Specification -/

/-- Column-major linear index `Σ_k idx[k] * Π_{l<k} shape[l]`: the first subscript varies fastest. -/
def colMajor (shape idx : List Nat) : Nat :=
  (idx.mapIdx fun k i => i * (shape.take k).prod).sum

/-- Componentwise order of multi-indices. -/
def RowLE (u v : List Int) : Prop := List.Forall₂ (· ≤ ·) u v

/-- A set of multi-indices (given by a list) is downward closed above the bound `m`. -/
def DownClosed (m : Int) (S : List (List Int)) : Prop :=
  ∀ v ∈ S, ∀ u, RowLE u v → (∀ x ∈ u, m ≤ x) → u ∈ S

/-- All components are nonnegative. -/
def NonNeg (S : List (List Int)) : Prop := ∀ v ∈ S, ∀ x ∈ v, 0 ≤ x

/-! ## C02: linear indices and subscripts -/

theorem ravelF_eq_colMajor (shape idx : List Nat) (h : idx.length ≤ shape.length) :
    ravelF shape idx = colMajor shape idx := by
  induction shape generalizing idx with
  | nil => cases idx <;> simp_all [ravelF, colMajor]
  | cons n ns ih =>
    cases idx with
    | nil => simp [ravelF, colMajor]
    | cons i is =>
      simp only [List.length_cons, Nat.add_le_add_iff_right] at h
      simp only [ravelF, ih is h, colMajor, List.mapIdx_cons, List.take_zero, List.prod_nil,
        Nat.mul_one, List.sum_cons, List.take_succ_cons, List.prod_cons]
      congr 1
      have e : is.mapIdx (fun k j => j * (n * (ns.take k).prod))
          = (is.mapIdx fun k j => j * (ns.take k).prod).map (fun x => n * x) := by
        apply List.ext_getElem <;> simp
        intro a _; ring
      rw [e, List.sum_map_mul_left, List.map_id']

theorem inBoxZ_iff (shape : List Nat) (idx : List Int) :
    inBoxZ shape idx = true ↔ List.Forall₂ (fun i (n : Nat) => 0 ≤ i ∧ i < (n : Int)) idx shape := by
  induction shape generalizing idx with
  | nil => cases idx <;> simp [inBoxZ]
  | cons n ns ih =>
    cases idx with
    | nil => simp [inBoxZ]
    | cons i is =>
      have := ih is
      simp only [inBoxZ, Bool.and_eq_true, beq_iff_eq] at this ⊢
      simp only [List.length_cons, List.zipWith_cons_cons, List.all_cons, id_eq,
        Bool.and_eq_true, decide_eq_true_eq, List.forall₂_cons, ← this]
      constructor
      · rintro ⟨h1, h2, h3⟩; exact ⟨h2, by omega, h3⟩
      · rintro ⟨h1, h2, h3⟩; exact ⟨by omega, h1, h3⟩

theorem inBox_map_toNat {shape : List Nat} {idx : List Int}
    (h : List.Forall₂ (fun i (n : Nat) => 0 ≤ i ∧ i < (n : Int)) idx shape) :
    InBox shape (idx.map Int.toNat) := by
  unfold InBox
  rw [List.forall₂_map_left_iff]
  exact h.imp (fun i n h => by omega)

theorem forall₂_nonneg {shape : List Nat} {idx : List Int}
    (h : List.Forall₂ (fun i (n : Nat) => 0 ≤ i ∧ i < (n : Int)) idx shape) : ∀ x ∈ idx, 0 ≤ x := by
  induction h with
  | nil => simp
  | cons h1 _ ih => simp only [List.forall_mem_cons]; exact ⟨h1.1, ih⟩

/-- C02. `sub2ind` succeeds exactly when every row is a subscript of the shape, and returns the
column-major index of each row. -/
theorem sub2ind_spec (I : MI) (shape : List Nat) (out : List Nat) :
    sub2ind I shape = .ok out ↔
      List.Forall₂ (fun r k => List.Forall₂ (fun i (n : Nat) => 0 ≤ i ∧ i < (n : Int)) r shape ∧
        k = colMajor shape (r.map Int.toNat)) I.rows out := by
  unfold sub2ind
  rw [mapM_ok_iff]
  have key : ∀ r k, ravelMultiIndexF shape r = .ok k ↔
      List.Forall₂ (fun i (n : Nat) => 0 ≤ i ∧ i < (n : Int)) r shape ∧
        k = colMajor shape (r.map Int.toNat) := by
    intro r k
    unfold ravelMultiIndexF
    split
    · rename_i h
      rw [inBoxZ_iff] at h
      have := inBox_map_toNat h
      rw [Except.ok.injEq, ravelF_eq_colMajor _ _ (by rw [this.length_eq])]
      constructor
      · rintro rfl; exact ⟨h, rfl⟩
      · rintro ⟨_, rfl⟩; rfl
    · rename_i h
      rw [inBoxZ_iff] at h
      simp [h]
  constructor <;> intro h <;> refine h.imp ?_ <;> intro r k hr
  · exact (key r k).1 hr
  · exact (key r k).2 hr

/-- C02. Round trip from subscripts. -/
theorem ind2sub_sub2ind (I : MI) (shape : List Nat) (hs : shape ≠ []) (hd : I.dim = shape.length)
    (h : ∀ r ∈ I.rows, List.Forall₂ (fun i (n : Nat) => 0 ≤ i ∧ i < (n : Int)) r shape) :
    ∃ out, sub2ind I shape = .ok out ∧ ind2sub shape (out.map Int.ofNat) = .ok I := by
  refine ⟨I.rows.map (fun r => colMajor shape (r.map Int.toNat)), ?_, ?_⟩
  · rw [sub2ind_spec, List.forall₂_map_right_iff, List.forall₂_same]
    exact fun r hr => ⟨h r hr, rfl⟩
  · have : (List.map Int.ofNat (I.rows.map fun r => colMajor shape (r.map Int.toNat))).mapM
        (unravelIndexF shape) = .ok (I.rows.map (List.map Int.toNat)) := by
      rw [mapM_ok_iff, List.map_map, List.forall₂_map_left_iff, List.forall₂_map_right_iff,
        List.forall₂_same]
      intro r hr
      have hb := inBox_map_toNat (h r hr)
      have hc := ravelF_eq_colMajor shape (r.map Int.toNat) (by rw [hb.length_eq])
      have hl := ravelF_lt hb
      simp only [Function.comp, ← hc]
      unfold unravelIndexF
      rw [if_neg hs, if_pos (by constructor <;> simp; exact_mod_cast hl)]
      simp [unravelF_ravelF hb]
    unfold ind2sub
    rw [this]
    simp only [bind, Except.bind, pure, Except.pure, List.map_map, Except.ok.injEq]
    cases I with
    | mk dim rows =>
      simp only at hd h ⊢
      subst hd
      congr 1
      conv_rhs => rw [← List.map_id rows]
      apply List.map_congr_left
      intro r hr
      simp only [Function.comp, List.map_map, id]
      conv_rhs => rw [← List.map_id r]
      apply List.map_congr_left
      intro x hx
      have : 0 ≤ x := forall₂_nonneg (h r hr) x hx
      simp [Int.toNat_of_nonneg this]

/-- C02. `ind2sub` succeeds exactly for indices in `[0, prod(shape))`, and round trip from linear
indices. -/
theorem sub2ind_ind2sub (shape : List Nat) (hs : shape ≠ []) (ind : List Int) :
    (∃ I, ind2sub shape ind = .ok I) ↔ ∀ k ∈ ind, 0 ≤ k ∧ k < (shape.prod : Nat) := by
  unfold ind2sub
  constructor
  · rintro ⟨I, hI⟩ k hk
    cases hm : ind.mapM (unravelIndexF shape) with
    | error e => rw [hm] at hI; simp [bind, Except.bind] at hI
    | ok rows =>
      rw [mapM_ok_iff] at hm
      obtain ⟨r, hr⟩ : ∃ r, unravelIndexF shape k = .ok r := by
        clear hI
        induction hm with
        | nil => simp at hk
        | cons h1 _ ih =>
          rcases List.mem_cons.1 hk with rfl | hk
          · exact ⟨_, h1⟩
          · exact ih hk
      unfold unravelIndexF at hr
      rw [if_neg hs] at hr
      split at hr
      · assumption
      · cases hr
  · intro h
    have : ind.mapM (unravelIndexF shape) = .ok (ind.map fun k => unravelF shape k.toNat) := by
      rw [mapM_ok_iff, List.forall₂_map_right_iff, List.forall₂_same]
      intro k hk
      unfold unravelIndexF
      rw [if_neg hs, if_pos (h k hk)]
    rw [this]; exact ⟨_, rfl⟩

/-- C02. Round trip from linear indices. -/
theorem sub2ind_ind2sub_eq (shape : List Nat) (hs : shape ≠ []) (ind : List Int)
    (h : ∀ k ∈ ind, 0 ≤ k ∧ k < (shape.prod : Nat)) :
    ∃ I, ind2sub shape ind = .ok I ∧ I.WF ∧ I.dim = shape.length ∧
      (sub2ind I shape).map (List.map Int.ofNat) = .ok ind := by
  have hm : ind.mapM (unravelIndexF shape) = .ok (ind.map fun k => unravelF shape k.toNat) := by
    rw [mapM_ok_iff, List.forall₂_map_right_iff, List.forall₂_same]
    intro k hk
    unfold unravelIndexF
    rw [if_neg hs, if_pos (h k hk)]
  refine ⟨⟨shape.length, (ind.map fun k => unravelF shape k.toNat).map (List.map Int.ofNat)⟩,
    by unfold ind2sub; rw [hm]; rfl, ?_, rfl, ?_⟩
  · intro r hr
    simp only [List.map_map, List.mem_map, Function.comp] at hr
    obtain ⟨k, hk, rfl⟩ := hr
    have := h k hk
    have hb := unravelF_inBox (shape := shape) (k := k.toNat) (by omega)
    simp [hb.length_eq]
  · have : sub2ind ⟨shape.length, (ind.map fun k => unravelF shape k.toNat).map (List.map Int.ofNat)⟩
        shape = .ok (ind.map Int.toNat) := by
      rw [sub2ind_spec]
      simp only [List.map_map]
      rw [List.forall₂_map_left_iff, List.forall₂_map_right_iff, List.forall₂_same]
      intro k hk
      have hk' := h k hk
      have hlt : k.toNat < shape.prod := by omega
      have hb := unravelF_inBox hlt
      simp only [Function.comp, List.map_map]
      have e : List.map (Int.toNat ∘ Int.ofNat) (unravelF shape k.toNat) = unravelF shape k.toNat := by
        conv_rhs => rw [← List.map_id (unravelF shape k.toNat)]
        exact List.map_congr_left (fun x _ => by simp)
      refine ⟨?_, ?_⟩
      · rw [List.forall₂_map_left_iff]
        exact List.Forall₂.imp (fun a b hab => ⟨by simp, by simpa using hab⟩) hb
      · rw [e, ← ravelF_eq_colMajor _ _ (by rw [hb.length_eq]), ravelF_unravelF hlt]
    rw [this]
    simp only [Except.map, List.map_map, Except.ok.injEq]
    conv_rhs => rw [← List.map_id ind]
    exact List.map_congr_left (fun k hk => by have := h k hk; simp; omega)

example : sub2ind ⟨2, [[1, 0], [0, 2]]⟩ [2, 3] = .ok [1, 4] := by decide
example : ind2sub [2, 3] [1, 4] = .ok ⟨2, [[1, 0], [0, 2]]⟩ := by decide
example : ind2sub [2, 3] [6] = .error .valueError := by decide
example : sub2ind ⟨2, [[2, 0]]⟩ [2, 3] = .error .valueError := by decide

/-! ## C03: `product_set` -/

/-- C03. `product_set` of a nonempty list of nonempty sets succeeds with as many rows as the product
of the cardinals; otherwise it raises. -/
theorem productSet_ok_iff (L : List MI) (n : Nat) :
    (∃ P, productSet L = .ok P ∧ P.rows.length = n) ↔
      L ≠ [] ∧ (∀ M ∈ L, M.rows ≠ []) ∧ n = (L.map fun M => M.rows.length).prod := by
  unfold productSet
  have hL : (if L.length = 1 ∧ (none : Option Nat).getD L.length > 1
      then (List.replicate ((none : Option Nat).getD L.length) L).flatten else L) = L := by
    rw [if_neg]; rintro ⟨h1, h2⟩; simp only [Option.getD_none] at h2; omega
  simp only [hL]
  have h0 : (L.map MI.cardinal).prod = 0 ↔ ∃ M ∈ L, M.rows = [] := by
    rw [List.prod_eq_zero_iff]
    simp [MI.cardinal]
  split
  · rename_i h
    simp only [reduceCtorEq, false_and, exists_false, false_iff]
    rintro ⟨h1, h2, _⟩
    rcases h with h | h
    · exact h1 h
    · obtain ⟨M, hM, hM0⟩ := h0.1 h; exact h2 M hM hM0
  · rename_i h
    rw [not_or] at h
    simp only [Except.ok.injEq, exists_eq_left', List.length_map, List.length_range]
    constructor
    · rintro rfl
      exact ⟨h.1, fun M hM hM0 => h.2 (h0.2 ⟨M, hM, hM0⟩), rfl⟩
    · rintro ⟨_, _, rfl⟩; rfl

/-- With one set and `d > 1`, the set is repeated `d` times. -/
theorem productSet_replicate (M : MI) (d : Nat) (hd : 1 < d) :
    productSet [M] (some d) = productSet (List.replicate d M) := by
  unfold productSet
  simp only [Option.getD_some, List.length_singleton, true_and, gt_iff_lt, hd, if_true,
    Option.getD_none, List.length_replicate]
  simp only [List.flatten_replicate_singleton, show ¬ d = 1 by omega, false_and, if_false]

theorem zipWith_getD_mem {L : List MI} {idx : List Nat} (h : InBox (L.map MI.cardinal) idx) :
    List.Forall₂ (fun p (M : MI) => p ∈ M.rows)
      (List.zipWith (fun (M : MI) l => M.rows.getD l []) L idx) L := by
  induction L generalizing idx with
  | nil => simp
  | cons M L ih =>
    cases idx with
    | nil => simp at h
    | cons i idx =>
      simp only [List.map_cons, inBox_cons_cons] at h
      simp only [List.zipWith_cons_cons, List.forall₂_cons]
      refine ⟨?_, ih h.2⟩
      rw [List.getD_eq_getElem _ _ h.1]; exact List.getElem_mem _

theorem exists_idx_of_mem {L : List MI} {parts : List (List Int)}
    (h : List.Forall₂ (fun p (M : MI) => p ∈ M.rows) parts L) :
    ∃ idx, InBox (L.map MI.cardinal) idx ∧
      List.zipWith (fun (M : MI) l => M.rows.getD l []) L idx = parts := by
  induction h with
  | nil => exact ⟨[], by simp, rfl⟩
  | cons h1 _ ih =>
    obtain ⟨idx, hb, he⟩ := ih
    obtain ⟨i, hi, he1⟩ := List.getElem_of_mem h1
    refine ⟨i :: idx, ?_, ?_⟩
    · simp only [List.map_cons, inBox_cons_cons]; exact ⟨hi, hb⟩
    · simp only [List.zipWith_cons_cons, he, List.getD_eq_getElem _ _ hi, he1]

/-- The rows computed by a successful `product_set`. -/
theorem productSet_rows {L : List MI} {P : MI} (h : productSet L = .ok P) :
    P.dim = (L.map MI.dim).sum ∧
    P.rows = (List.range (L.map MI.cardinal).prod).map fun r =>
      (List.zipWith (fun (M : MI) l => M.rows.getD l []) L (unravelF (L.map MI.cardinal) r)).flatten := by
  unfold productSet at h
  have hL : (if L.length = 1 ∧ (none : Option Nat).getD L.length > 1
      then (List.replicate ((none : Option Nat).getD L.length) L).flatten else L) = L := by
    rw [if_neg]; rintro ⟨h1, h2⟩; simp only [Option.getD_none] at h2; omega
  simp only [hL] at h
  split at h
  · cases h
  · cases h; exact ⟨rfl, rfl⟩

/-- The only exception of `product_set` in the model is `TypeError`. -/
theorem productSet_error {L : List MI} {d : Option Nat} {e : PyErr} (h : productSet L d = .error e) :
    e = .typeError := by
  unfold productSet at h
  dsimp only at h
  by_cases hc : L.length = 1 ∧ d.getD L.length > 1
  · rw [if_pos hc] at h
    split at h
    · cases h; rfl
    · cases h
  · rw [if_neg hc] at h
    split at h
    · cases h; rfl
    · cases h

/-- C03. A row is in `product_set(L)` iff it is a concatenation of one row of each factor. -/
theorem mem_productSet {L : List MI} {P : MI} (h : productSet L = .ok P) (row : List Int) :
    row ∈ P.rows ↔
      ∃ parts, List.Forall₂ (fun p (M : MI) => p ∈ M.rows) parts L ∧ row = parts.flatten := by
  rw [(productSet_rows h).2, List.mem_map]
  constructor
  · rintro ⟨r, hr, rfl⟩
    exact ⟨_, zipWith_getD_mem (unravelF_inBox (List.mem_range.1 hr)), rfl⟩
  · rintro ⟨parts, hp, rfl⟩
    obtain ⟨idx, hb, rfl⟩ := exists_idx_of_mem hp
    exact ⟨ravelF _ idx, List.mem_range.2 (ravelF_lt hb), by rw [unravelF_ravelF hb]⟩

/-- C03. Order: the row number `colMajor(cardinals, idx)` is made of the rows `idx[k]` of the
factors, i.e. the first factor varies fastest. -/
theorem productSet_order {L : List MI} {P : MI} (h : productSet L = .ok P) (idx : List Nat)
    (hidx : InBox (L.map MI.cardinal) idx) :
    P.rows[colMajor (L.map MI.cardinal) idx]? =
      some (List.zipWith (fun (M : MI) l => M.rows.getD l []) L idx).flatten := by
  rw [(productSet_rows h).2, ← ravelF_eq_colMajor _ _ (by rw [hidx.length_eq]),
    List.getElem?_map, List.getElem?_range (ravelF_lt hidx)]
  simp [unravelF_ravelF hidx]

theorem flatten_inj_of_dims {L : List MI} (hL : ∀ M ∈ L, M.WF) {p q : List (List Int)}
    (hp : List.Forall₂ (fun p (M : MI) => p ∈ M.rows) p L)
    (hq : List.Forall₂ (fun p (M : MI) => p ∈ M.rows) q L) (h : p.flatten = q.flatten) : p = q := by
  induction L generalizing p q with
  | nil => cases hp; cases hq; rfl
  | cons M L ih =>
    cases hp with
    | cons hp1 hp2 =>
      cases hq with
      | cons hq1 hq2 =>
        simp only [List.flatten_cons] at h
        have hl := hL M (by simp)
        obtain ⟨h1, h2⟩ := List.append_inj h (by rw [hl _ hp1, hl _ hq1])
        rw [h1, ih (fun M hM => hL M (by simp [hM])) hp2 hq2 h2]

theorem zipWith_inj {L : List MI} (hn : ∀ M ∈ L, M.rows.Nodup) {i j : List Nat}
    (hi : InBox (L.map MI.cardinal) i) (hj : InBox (L.map MI.cardinal) j)
    (h : List.zipWith (fun (M : MI) l => M.rows.getD l []) L i =
      List.zipWith (fun (M : MI) l => M.rows.getD l []) L j) : i = j := by
  induction L generalizing i j with
  | nil => simp at hi hj; rw [hi, hj]
  | cons M L ih =>
    cases i with
    | nil => simp at hi
    | cons a i =>
      cases j with
      | nil => simp at hj
      | cons b j =>
        simp only [List.map_cons, inBox_cons_cons] at hi hj
        simp only [List.zipWith_cons_cons, List.cons.injEq] at h
        rw [ih (fun M hM => hn M (by simp [hM])) hi.2 hj.2 h.2]
        congr 1
        have h1 := h.1
        rw [List.getD_eq_getElem _ _ hi.1, List.getD_eq_getElem _ _ hj.1] at h1
        exact (List.Nodup.getElem_inj_iff (hn M (by simp))).1 h1

/-- C03. No repeated row when the factors have none. -/
theorem productSet_nodup {L : List MI} {P : MI} (h : productSet L = .ok P)
    (hw : ∀ M ∈ L, M.WF) (hn : ∀ M ∈ L, M.rows.Nodup) : P.rows.Nodup := by
  rw [(productSet_rows h).2]
  refine List.Nodup.map_on ?_ List.nodup_range
  intro a ha b hb hab
  rw [List.mem_range] at ha hb
  have h1 := unravelF_inBox ha
  have h2 := unravelF_inBox hb
  have h3 := flatten_inj_of_dims hw (zipWith_getD_mem h1) (zipWith_getD_mem h2) hab
  have h4 := zipWith_inj hn h1 h2 h3
  rw [← ravelF_unravelF ha, ← ravelF_unravelF hb, h4]

example : productSet [ofColumn [5, 7], ⟨2, [[0, 1], [2, 3]]⟩]
    = .ok ⟨3, [[5, 0, 1], [7, 0, 1], [5, 2, 3], [7, 2, 3]]⟩ := by decide
example : productSet [ofColumn [5, 7], ofColumn []] = .error .typeError := by decide

/-! ## C04: `bounded_by` -/

theorem mem_arange (a b x : Int) : x ∈ arange a b ↔ a ≤ x ∧ x < b := by
  unfold arange
  simp only [List.mem_map, List.mem_range]
  constructor
  · rintro ⟨k, hk, rfl⟩; omega
  · rintro ⟨h1, h2⟩; exact ⟨(x - a).toNat, by omega, by omega⟩

theorem nodup_arange (a b : Int) : (arange a b).Nodup :=
  List.Nodup.map (fun x y h => by simpa using h) List.nodup_range

/-- C04. `bounded_by(m, m0)` succeeds exactly when `m` is nonempty and `m0 ≤ m_k` for all `k`
(an empty range makes `product_set` raise). -/
theorem boundedBy_ok_iff (m : List Int) (m0 : Int) :
    (∃ P, boundedBy m m0 = .ok P) ↔ m ≠ [] ∧ ∀ x ∈ m, m0 ≤ x := by
  have := productSet_ok_iff (m.map fun x => ofColumn (arange m0 (x + 1)))
  unfold boundedBy
  constructor
  · rintro ⟨P, hP⟩
    obtain ⟨h1, h2, _⟩ := (this _).1 ⟨P, hP, rfl⟩
    refine ⟨by simpa using h1, fun x hx => ?_⟩
    have h3 := h2 _ (List.mem_map_of_mem hx)
    simp only [ofColumn, ne_eq, List.map_eq_nil_iff] at h3
    by_contra hlt
    apply h3
    rw [List.eq_nil_iff_forall_not_mem]
    intro y hy
    rw [mem_arange] at hy; omega
  · rintro ⟨h1, h2⟩
    have h3 : ∀ M ∈ m.map (fun x => ofColumn (arange m0 (x + 1))), M.rows ≠ [] := by
      intro M hM
      obtain ⟨x, hx, rfl⟩ := List.mem_map.1 hM
      simp only [ofColumn, ne_eq, List.map_eq_nil_iff]
      apply List.ne_nil_of_mem (a := x)
      rw [mem_arange]; have := h2 x hx; omega
    obtain ⟨P, hP, _⟩ := (this _).2 ⟨by simpa using h1, h3, rfl⟩
    exact ⟨P, hP⟩

theorem flatten_columns {parts : List (List Int)} {L : List (List Int)}
    (h : List.Forall₂ (fun p l => p ∈ (ofColumn l).rows) parts L) :
    List.Forall₂ (fun x l => x ∈ l) parts.flatten L := by
  induction h with
  | nil => simp
  | cons h1 _ ih =>
    simp only [ofColumn, List.mem_map] at h1
    obtain ⟨x, hx, rfl⟩ := h1
    simp [hx, ih]

theorem columns_of_row {row : List Int} {L : List (List Int)}
    (h : List.Forall₂ (fun x l => x ∈ l) row L) :
    List.Forall₂ (fun p l => p ∈ (ofColumn l).rows) (row.map fun x => [x]) L := by
  rw [List.forall₂_map_left_iff]
  exact h.imp (fun x l hx => by simp [ofColumn, hx])

/-- Membership in a product of 1-d arrays. -/
theorem mem_productSet_columns {L : List (List Int)} {P : MI}
    (h : productSet (L.map ofColumn) = .ok P) (row : List Int) :
    row ∈ P.rows ↔ List.Forall₂ (fun x l => x ∈ l) row L := by
  rw [mem_productSet h]
  constructor
  · rintro ⟨parts, hp, rfl⟩
    rw [List.forall₂_map_right_iff] at hp
    exact flatten_columns hp
  · intro hr
    refine ⟨row.map fun x => [x], ?_, ?_⟩
    · rw [List.forall₂_map_right_iff]; exact columns_of_row hr
    · clear hr
      induction row with
      | nil => rfl
      | cons a l ih => rw [List.map_cons, List.flatten_cons, ← ih]; rfl

/-- C04. `bounded_by(m, m0)` contains exactly the multi-indices of the box, each once. -/
theorem mem_boundedBy {m : List Int} {m0 : Int} {P : MI} (h : boundedBy m m0 = .ok P) :
    (∀ row, row ∈ P.rows ↔ List.Forall₂ (fun i x => m0 ≤ i ∧ i ≤ x) row m) ∧ P.rows.Nodup ∧
      P.dim = m.length := by
  have h' : productSet ((m.map fun x => arange m0 (x + 1)).map ofColumn) = .ok P := by
    rw [List.map_map]; exact h
  refine ⟨fun row => ?_, ?_, ?_⟩
  · rw [mem_productSet_columns h', List.forall₂_map_right_iff]
    constructor <;> intro hh <;> refine hh.imp ?_ <;> intro a b hab
    · rw [mem_arange] at hab; omega
    · rw [mem_arange]; omega
  · refine productSet_nodup h' ?_ ?_
    · intro M hM
      obtain ⟨l, _, rfl⟩ := List.mem_map.1 hM
      intro r hr
      simp only [ofColumn, List.mem_map] at hr ⊢
      obtain ⟨x, _, rfl⟩ := hr; rfl
    · intro M hM
      obtain ⟨l, hl, rfl⟩ := List.mem_map.1 hM
      obtain ⟨x, _, rfl⟩ := List.mem_map.1 hl
      exact List.Nodup.map (fun a b hab => by simpa using hab) (nodup_arange _ _)
  · rw [(productSet_rows h').1]
    simp only [List.map_map]
    have : (MI.dim ∘ ofColumn ∘ fun x => arange m0 (x + 1)) = fun _ => 1 := rfl
    rw [this]; simp

theorem zipWith_arange (L : List Nat) (idx : List Nat) (h : InBox L idx) :
    (List.zipWith (fun (M : MI) l => M.rows.getD l [])
      (L.map fun n : Nat => ofColumn (arange 0 (n : Int))) idx).flatten = idx.map Int.ofNat := by
  induction L generalizing idx with
  | nil => simp at h; simp [h]
  | cons n L ih =>
    cases idx with
    | nil => simp at h
    | cons i idx =>
      simp only [inBox_cons_cons] at h
      simp only [List.map_cons, List.zipWith_cons_cons, List.flatten_cons, ih _ h.2]
      have : (ofColumn (arange 0 (n : Int))).rows.getD i [] = [Int.ofNat i] := by
        rw [List.getD_eq_getElem _ _ (by simp [ofColumn, arange]; exact h.1)]
        simp [ofColumn, arange]
      rw [this]; rfl

/-- C04. The rows of `bounded_by(shape - 1)` are the column-major enumeration of the subscripts of
`shape`: `bounded_by(shape - 1).sub2ind(shape) = 0, 1, ..., prod(shape) - 1`. -/
theorem boundedBy_order (shape : List Nat) (P : MI)
    (h : boundedBy (shape.map fun n : Nat => (n : Int) - 1) 0 = .ok P) :
    sub2ind P shape = .ok (List.range shape.prod) := by
  have e : (shape.map fun n : Nat => (n : Int) - 1).map (fun x => ofColumn (arange 0 (x + 1)))
      = shape.map fun n : Nat => ofColumn (arange 0 (n : Int)) := by
    rw [List.map_map]; apply List.map_congr_left; intro n _; simp
  unfold boundedBy at h
  rw [e] at h
  have hc : (shape.map fun n : Nat => ofColumn (arange 0 (n : Int))).map MI.cardinal = shape := by
    rw [List.map_map]
    conv_rhs => rw [← List.map_id shape]
    apply List.map_congr_left; intro n _; simp [MI.cardinal, ofColumn, arange]
  have hr := (productSet_rows h).2
  rw [hc] at hr
  rw [sub2ind_spec, hr, List.forall₂_map_left_iff, List.forall₂_same]
  intro k hk
  rw [List.mem_range] at hk
  have hb := unravelF_inBox hk
  rw [zipWith_arange _ _ hb]
  refine ⟨?_, ?_⟩
  · rw [List.forall₂_map_left_iff]
    exact List.Forall₂.imp (fun a b hab => ⟨by simp, by simpa using hab⟩) hb
  · have : List.map Int.toNat (List.map Int.ofNat (unravelF shape k)) = unravelF shape k := by
      rw [List.map_map]
      conv_rhs => rw [← List.map_id (unravelF shape k)]
      exact List.map_congr_left (fun x _ => by simp)
    rw [this, ← ravelF_eq_colMajor _ _ (by rw [hb.length_eq]), ravelF_unravelF hk]

example : boundedBy [1, 2] = .ok ⟨2, [[0, 0], [1, 0], [0, 1], [1, 1], [0, 2], [1, 2]]⟩ := by decide
example : boundedBy [1, -1] = .error .typeError := by decide

/-! ## C05: `add_indices` -/

/-- C05. The union contains exactly the rows of both sets, each once, those of `self` first and in
their order (`self` duplicate-free), followed by the new ones in the order of `J`. -/
theorem addIndices_spec (I J : MI) (h : I.rows ≠ []) :
    (∀ v, v ∈ (addIndices I J).rows ↔ v ∈ I.rows ∨ v ∈ J.rows) ∧
    (addIndices I J).rows.Nodup ∧
    (addIndices I J).dim = I.dim ∧
    (I.rows.Nodup → ∃ new, (addIndices I J).rows = I.rows ++ new ∧ new.Sublist J.rows ∧
      ∀ v ∈ new, v ∉ I.rows) := by
  have hr := addIndices_rows I J h
  refine ⟨fun v => by rw [hr.1]; simp, by rw [hr.1]; exact nodup_dedupFirst _, hr.2, fun hn => ?_⟩
  refine ⟨(dedupFirst J.rows).filter (fun x => decide (x ∉ I.rows)), ?_, ?_, ?_⟩
  · rw [hr.1, dedupFirst_append _ _ (fun x => decide (x ∉ I.rows)) (by simp), dedupFirst_of_nodup hn]
  · exact List.filter_sublist.trans (sublist_dedupFirst _)
  · intro v hv; simpa using (List.mem_filter.1 hv).2

/-- C05. Adding the same set again changes nothing. -/
theorem addIndices_idem (I J : MI) (h : I.rows ≠ []) :
    addIndices (addIndices I J) J = addIndices I J := by
  have hr := addIndices_rows I J h
  have hne : (addIndices I J).rows ≠ [] := by
    obtain ⟨v, hv⟩ := List.exists_mem_of_ne_nil _ h
    exact List.ne_nil_of_mem (a := v) (by rw [hr.1]; simp [hv])
  have hr2 := addIndices_rows (addIndices I J) J hne
  have hn : (addIndices I J).rows.Nodup := by rw [hr.1]; exact nodup_dedupFirst _
  have e : (addIndices (addIndices I J) J).rows = (addIndices I J).rows := by
    rw [hr2.1, dedupFirst_append _ _ (fun x => decide (x ∉ (addIndices I J).rows)) (by simp), dedupFirst_of_nodup hn]
    have : (dedupFirst J.rows).filter (fun x => decide (x ∉ (addIndices I J).rows)) = [] := by
      rw [List.filter_eq_nil_iff]
      intro v hv
      rw [mem_dedupFirst] at hv
      simp [hr.1, hv]
    rw [this, List.append_nil]
  have e2 := hr2.2
  cases hA : addIndices (addIndices I J) J
  cases hB : addIndices I J
  rw [hA] at e e2
  rw [hB] at e e2
  simp at e e2
  rw [e, e2]

example : addIndices ⟨2, [[0, 0], [1, 0]]⟩ ⟨2, [[0, 1], [1, 0], [0, 1]]⟩
    = ⟨2, [[0, 0], [1, 0], [0, 1]]⟩ := by decide

/-- C05 finding: the union of two empty sets is not empty: it is one multi-index of dimension zero. -/
theorem addIndices_empty_empty (d e : Nat) : addIndices ⟨d, []⟩ ⟨e, []⟩ = ⟨0, [[]]⟩ := by
  simp [addIndices, dedupFirst, dedupAux, ofRows]

/-! ## C06: remove, keep, intersect -/

/-- C06. `remove_indices(J)` keeps the rows not in `J`, in order. -/
theorem removeIndices_spec (I J : MI) :
    (removeIndices I J).rows = I.rows.filter (fun v => decide (v ∉ J.rows)) ∧
    (removeIndices I J).dim = I.dim := by
  refine ⟨?_, rfl⟩
  unfold removeIndices
  simp only [MI.cardinal, filter_filter_range]
  rw [map_filter_range I.rows [] (fun v => !J.rows.contains v)]
  apply List.filter_congr; intro v _; simp

theorem mem_pairs (I J : MI) (j i : Nat) :
    (j, i) ∈ ((List.range J.cardinal).flatMap fun j =>
      ((List.range I.cardinal).filter fun i => I.rows.getD i [] == J.rows.getD j []).map fun i => (j, i))
    ↔ j < J.cardinal ∧ i < I.cardinal ∧ I.rows.getD i [] = J.rows.getD j [] := by
  simp only [List.mem_flatMap, List.mem_range, List.mem_map, List.mem_filter, beq_iff_eq,
    Prod.mk.injEq]
  constructor
  · rintro ⟨j', hj, i', ⟨hi, he⟩, rfl, rfl⟩; exact ⟨hj, hi, he⟩
  · rintro ⟨hj, hi, he⟩; exact ⟨j, hj, i, ⟨hi, he⟩, rfl, rfl⟩

/-- C06. `intersect_indices(J)` returns exactly the common rows; the returned row numbers designate
them in `self` and in `J`. -/
theorem intersectIndices_spec (I J : MI) :
    (∀ v, v ∈ (intersectIndices I J).1.rows ↔ v ∈ I.rows ∧ v ∈ J.rows) ∧
    (intersectIndices I J).1.rows = (intersectIndices I J).2.1.map (fun i => I.rows.getD i []) ∧
    (intersectIndices I J).1.rows = (intersectIndices I J).2.2.map (fun j => J.rows.getD j []) := by
  refine ⟨fun v => ?_, ?_, ?_⟩
  · unfold intersectIndices
    simp only [List.mem_map]
    constructor
    · rintro ⟨⟨j, i⟩, hp, rfl⟩
      rw [mem_pairs] at hp
      obtain ⟨hj, hi, he⟩ := hp
      constructor
      · simp only; rw [List.getD_eq_getElem _ _ hi]; exact List.getElem_mem _
      · simp only; rw [he, List.getD_eq_getElem _ _ hj]; exact List.getElem_mem _
    · rintro ⟨h1, h2⟩
      obtain ⟨i, hi, rfl⟩ := List.getElem_of_mem h1
      obtain ⟨j, hj, he⟩ := List.getElem_of_mem h2
      refine ⟨(j, i), ?_, ?_⟩
      · rw [mem_pairs]
        exact ⟨hj, hi, by rw [List.getD_eq_getElem _ _ hi, List.getD_eq_getElem _ _ hj, he]⟩
      · simp only; rw [List.getD_eq_getElem _ _ hi]
  · unfold intersectIndices; simp only [List.map_map]; rfl
  · unfold intersectIndices; simp only [List.map_map]
    apply List.map_congr_left
    rintro ⟨j, i⟩ hp
    rw [mem_pairs] at hp
    exact hp.2.2

/-- C06. No row is lost or kept twice: `remove_indices(J)` and `intersect_indices(J)` partition the
rows of `self`. -/
theorem remove_intersect_partition (I J : MI) (v : List Int) :
    (v ∈ I.rows ↔ v ∈ (removeIndices I J).rows ∨ v ∈ (intersectIndices I J).1.rows) ∧
    ¬ (v ∈ (removeIndices I J).rows ∧ v ∈ (intersectIndices I J).1.rows) := by
  rw [(removeIndices_spec I J).1, (intersectIndices_spec I J).1, List.mem_filter]
  simp only [decide_eq_true_eq]
  tauto

/-- C06. With duplicate-free sets the intersection has no repetition either. -/
theorem intersectIndices_nodup (I J : MI) (hI : I.rows.Nodup) (hJ : J.rows.Nodup) :
    (intersectIndices I J).1.rows.Nodup := by
  unfold intersectIndices
  simp only
  refine List.Nodup.map_on ?_ ?_
  · rintro ⟨j, i⟩ hp ⟨j', i'⟩ hp' he
    rw [mem_pairs] at hp hp'
    simp only at he
    have e1 : i = i' := by
      rw [List.getD_eq_getElem _ _ hp.2.1, List.getD_eq_getElem _ _ hp'.2.1] at he
      exact (List.Nodup.getElem_inj_iff hI).1 he
    have e2 : j = j' := by
      have := hp.2.2.symm.trans (he.trans hp'.2.2)
      rw [List.getD_eq_getElem _ _ hp.1, List.getD_eq_getElem _ _ hp'.1] at this
      exact (List.Nodup.getElem_inj_iff hJ).1 this
    rw [e1, e2]
  · rw [List.nodup_flatMap]
    refine ⟨fun j _ => ?_, ?_⟩
    · exact List.Nodup.map (fun a b h => by simpa using h) (List.nodup_range.filter _)
    · refine List.nodup_range.imp ?_
      intro a b hab x hx hx'
      simp only [List.mem_map] at hx hx'
      obtain ⟨i, _, rfl⟩ := hx
      obtain ⟨i', _, h2⟩ := hx'
      simp at h2; exact hab h2.1.symm

/-- C06. `remove_indices(k)` with row numbers keeps exactly the rows whose number is not in `k`. -/
theorem removeIndicesAt_spec (I : MI) (k : List Int) :
    (removeIndicesAt I k).rows =
      ((List.range I.rows.length).filter (fun (i : Nat) => decide ((i : Int) ∉ k))).map
        (fun i => I.rows.getD i []) := by
  unfold removeIndicesAt
  simp only [MI.cardinal]
  congr 1
  apply List.filter_congr; intro i _; simp

/-- C06. `keep_indices(k)` with nonnegative row numbers returns the designated rows, in the order of
`k`, and raises when a number is out of range. -/
theorem keepIndices_spec (I : MI) (k : List Nat) (P : MI) :
    keepIndices I (k.map Int.ofNat) = .ok P ↔
      (∀ i ∈ k, i < I.rows.length) ∧ P = ⟨I.dim, k.map (fun i => I.rows.getD i [])⟩ := by
  have key : ∀ pos, (k.map Int.ofNat).mapM (npIndex I.cardinal) = .ok pos ↔
      (∀ i ∈ k, i < I.rows.length) ∧ pos = k := by
    intro pos
    rw [mapM_ok_iff, List.forall₂_map_left_iff]
    have : ∀ a b, npIndex I.cardinal (Int.ofNat a) = .ok b ↔ a < I.rows.length ∧ b = a := by
      intro a b
      unfold npIndex MI.cardinal
      split
      · rename_i h; simp at h ⊢; constructor
        · rintro rfl; exact ⟨h, rfl⟩
        · rintro ⟨_, rfl⟩; rfl
      · rename_i h
        simp at h
        rw [if_neg (by simp)]
        simp; omega
    constructor
    · intro h
      have h2 := h.imp (fun a b hab => (this a b).1 hab)
      constructor
      · clear h
        induction h2 with
        | nil => simp
        | cons h1 _ ih => simp only [List.forall_mem_cons]; exact ⟨h1.1, ih⟩
      · clear h
        induction h2 with
        | nil => rfl
        | cons h1 _ ih => rw [ih, h1.2]
    · rintro ⟨h, rfl⟩
      rw [List.forall₂_same]
      exact fun a ha => (this a a).2 ⟨h a ha, rfl⟩
  unfold keepIndices
  cases hm : (k.map Int.ofNat).mapM (npIndex I.cardinal) with
  | error e =>
    simp only [bind, Except.bind, reduceCtorEq, false_iff]
    rintro ⟨h, _⟩
    have := (key k).2 ⟨h, rfl⟩
    rw [hm] at this; cases this
  | ok pos =>
    obtain ⟨h, rfl⟩ := (key pos).1 hm
    simp only [bind, Except.bind, pure, Except.pure, Except.ok.injEq]
    constructor
    · rintro rfl; exact ⟨h, rfl⟩
    · rintro ⟨_, rfl⟩; rfl

example : (intersectIndices ⟨1, [[0], [1], [2]]⟩ ⟨1, [[2], [0], [5]]⟩).1.rows = [[2], [0]] := by decide
example : (removeIndices ⟨1, [[0], [1], [2]]⟩ ⟨1, [[2], [0], [5]]⟩).rows = [[1]] := by decide

end Verif.MultiIndices
