import Verif.Props.FullTensor
import Mathlib.Tactic.Linarith

/-!
# Properties of `FullTensor`: sub-tensors, evaluation at indices, concatenation, Kronecker product (C24, C25)
-/

namespace Verif.FullTensor

open Verif.Arr Finset

variable {R : Type}

/-! ### C25: sub_tensor -/

/-- The subscript designated by position `i` in the selection `ind` (`none` is `":"`). -/
def pick (ind : Option (List Nat)) (i : Nat) : Nat := match ind with | none => i | some l => l.getD i 0

/-- The number of subscripts selected in a dimension of size `n`. -/
def pickSize (ind : Option (List Nat)) (n : Nat) : Nat := match ind with | none => n | some l => l.length

/-- All the selected subscripts are in range. -/
def PickOk (ind : Option (List Nat)) (n : Nat) : Prop := ∀ l, ind = some l → ∀ i ∈ l, i < n

theorem subTensor_aux (pre : List Nat) (indices : List (Option (List Nat))) (s : List Nat)
    (h : List.Forall₂ PickOk indices s) (x : Arr R) (hx : x.shape = pre ++ s) :
    ∃ y, ((indices.zipIdx pre.length).foldlM subStep x : Py (Arr R)) = .ok y ∧
      y.shape = pre ++ List.zipWith pickSize indices s ∧
      ∀ u v, u.length = pre.length → v.length = s.length →
        y.get (u ++ v) = x.get (u ++ List.zipWith pick indices v) := by
  induction h generalizing pre x with
  | nil => exact ⟨x, rfl, by simpa using hx, by intro u v _ hv; cases v <;> simp_all⟩
  | @cons ind n inds s hn hrest ih =>
    have hget : x.shape.getD pre.length 0 = n := by
      rw [hx, List.getD_append_right _ _ _ _ (le_refl _)]; simp
    obtain ⟨x', h1, h2, h3⟩ : ∃ x', subStep x (ind, pre.length) = .ok x' ∧
        x'.shape = (pre ++ [pickSize ind n]) ++ s ∧
        ∀ u a v, u.length = pre.length → x'.get (u ++ a :: v) = x.get (u ++ pick ind a :: v) := by
      cases ind with
      | none => exact ⟨x, rfl, by simp [hx, pickSize], by intros; rfl⟩
      | some l =>
        refine ⟨x.take l pre.length, ?_, ?_, ?_⟩
        · simp only [subStep]
          rw [if_pos]
          intro i hi
          rw [hget]; exact hn l rfl i hi
        · simp [Arr.take, hx, pickSize]
        · intro u a v hu
          simp only [Arr.take]
          rw [← hu, List.getD_append_right _ _ _ _ (le_refl _), List.set_append_right _ _ (le_refl _)]
          simp [pick]
    obtain ⟨y, g1, g2, g3⟩ := ih (pre ++ [pickSize ind n]) x' h2
    refine ⟨y, ?_, ?_, ?_⟩
    · simp only [List.zipIdx_cons, List.foldlM_cons, h1, bind, Except.bind] at *
      simpa using g1
    · simp [g2]
    · intro u v hu hv
      cases v with
      | nil => simp at hv
      | cons a v =>
        have := g3 (u ++ [a]) v (by simp [hu]) (by simpa using hv)
        simp only [List.append_assoc, List.singleton_append] at this
        rw [this, h3 _ _ _ hu]
        simp

/-- `sub_tensor(*indices)` selects exactly the listed subscripts, in the listed order (repetitions allowed). -/
theorem subTensor_spec (x : Arr R) (indices : List (Option (List Nat)))
    (h : List.Forall₂ PickOk indices x.shape) :
    ∃ y, subTensor x indices = .ok y ∧ y.shape = List.zipWith pickSize indices x.shape ∧
      ∀ idx, InBox y.shape idx → y.get idx = x.get (List.zipWith pick indices idx) := by
  obtain ⟨y, h1, h2, h3⟩ := subTensor_aux [] indices x.shape h x rfl
  have hl := h.length_eq
  refine ⟨y, ?_, by simpa using h2, ?_⟩
  · unfold subTensor
    rw [if_neg (by simp [Arr.order, hl]), List.take_of_length_le (by simp [Arr.order, hl])]
    exact h1
  · intro idx hi
    have := h3 [] idx rfl (by rw [hi.length_eq, h2]; simp [hl])
    simpa using this

/-- `sub_tensor` with fewer index lists than dimensions is refused. -/
theorem subTensor_missing (x : Arr R) (indices : List (Option (List Nat))) (h : indices.length < x.order) :
    subTensor x indices = .error .indexError := by
  unfold subTensor
  rw [if_pos h]

/-- One subscript out of range, and the selection is refused. -/
theorem subTensor_refused (x : Arr R) (l : List Nat) (i : Nat) (hi : i ∈ l) (hge : x.shape.getD 0 0 ≤ i)
    (rest : List (Option (List Nat))) (ho : 0 < x.order) :
    subTensor x (some l :: rest) = .error .indexError := by
  unfold subTensor
  split
  · rfl
  · obtain ⟨n, hn⟩ : ∃ n, x.order = n + 1 := ⟨x.order - 1, by omega⟩
    rw [hn, List.take_succ_cons, List.zipIdx_cons, List.foldlM_cons]
    have : subStep x (some l, 0) = .error .indexError := by
      simp only [subStep]
      rw [if_neg]
      intro hall
      have := hall i hi
      omega
    rw [this]; rfl

example : List.Forall₂ PickOk [some [1, 0, 1], none, some [3]] [2, 5, 4] :=
  .cons (by intro l h; cases h; decide) (.cons (by intro l h; cases h) (.cons (by intro l h; cases h; decide) .nil))

/-! ### C25: concatenation -/

/-- `idx` with the sizes of the first block subtracted on the dimensions `dims`. -/
def shiftBack (dims s idx : List Nat) : List Nat :=
  (List.range idx.length).map (fun k => if k ∈ dims then idx.getD k 0 - s.getD k 0 else idx.getD k 0)

theorem getD_shiftBack (dims s idx : List Nat) (k : Nat) (hk : k < idx.length) :
    (shiftBack dims s idx).getD k 0 = if k ∈ dims then idx.getD k 0 - s.getD k 0 else idx.getD k 0 := by
  unfold shiftBack
  rw [List.getD_eq_getElem _ _ (by simpa using hk), List.getElem_map, List.getElem_range]

theorem getD_zipWith {f : Nat → Nat → Nat} {a b : List Nat} {k : Nat} (h1 : k < a.length) (h2 : k < b.length) :
    (List.zipWith f a b).getD k 0 = f (a.getD k 0) (b.getD k 0) := by
  rw [List.getD_eq_getElem _ _ (by simp [h1, h2]), List.getElem_zipWith, List.getD_eq_getElem _ _ h1,
    List.getD_eq_getElem _ _ h2]

theorem getD_replicate {n a k : Nat} (h : k < n) : (List.replicate n a).getD k 0 = a := by
  rw [List.getD_eq_getElem _ _ (by simpa using h), List.getElem_replicate]

theorem getD_map_range {f : Nat → Nat} {n k : Nat} (h : k < n) : ((List.range n).map f).getD k 0 = f k := by
  rw [List.getD_eq_getElem _ _ (by simpa using h), List.getElem_map, List.getElem_range]

/-- `cat(y, dims)`: the two tensors are the two diagonal blocks along the dimensions `dims`, all the entries
outside of these blocks are zero (with one dimension: the two tensors are put side by side). -/
theorem cat_spec [AddZeroClass R] (x y : Arr R) (dims : List Nat) (hne : dims ≠ []) (hnd : dims.Nodup)
    (hlt : ∀ k ∈ dims, k < x.order) (ho : x.order = y.order)
    (hoff : ∀ k, k < x.order → k ∉ dims → x.shape.getD k 0 = y.shape.getD k 0) :
    ∃ z, cat x y (some dims) = .ok z ∧
      z.shape = (List.range x.order).map (fun k =>
        if k ∈ dims then x.shape.getD k 0 + y.shape.getD k 0 else x.shape.getD k 0) ∧
      ∀ idx, InBox z.shape idx →
        ((∀ k ∈ dims, idx.getD k 0 < x.shape.getD k 0) → z.get idx = x.get idx) ∧
        ((∀ k ∈ dims, x.shape.getD k 0 ≤ idx.getD k 0) → z.get idx = y.get (shiftBack dims x.shape idx)) ∧
        ((∃ k ∈ dims, idx.getD k 0 < x.shape.getD k 0) → (∃ k ∈ dims, x.shape.getD k 0 ≤ idx.getD k 0) →
          z.get idx = 0) := by
  have hoffeq : applyPerm (setdiffRange x.order dims) x.shape = applyPerm (setdiffRange x.order dims) y.shape := by
    apply applyPerm_congr
    intro k hk
    have := mem_setdiffRange.1 hk
    exact hoff k this.1 this.2
  have hxl : x.shape.length = x.order := rfl
  have hyl : y.shape.length = x.order := ho.symm
  by_cases h1 : dims.length = 1
  · obtain ⟨d, rfl⟩ := List.length_eq_one_iff.1 h1
    have hd : d < x.order := hlt d (by simp)
    refine ⟨x.concat y d, by simp [cat, ho, ho ▸ hoffeq], ?_, ?_⟩
    · apply ext_getD (by simp [Arr.concat, Arr.order])
      intro k hk
      have hk : k < x.order := by simpa [Arr.concat, Arr.order] using hk
      rw [getD_map_range hk]
      show (x.shape.set d _).getD k 0 = _
      rw [getD_set]
      by_cases hdk : d = k
      · subst hdk; simp [hxl, hk]
      · simp [hdk, Ne.symm hdk]
    · intro idx hi
      have hil : idx.length = x.order := by rw [hi.length_eq]; simp [Arr.concat, Arr.order]
      refine ⟨fun h => ?_, fun h => ?_, fun h1 h2 => ?_⟩
      · simp only [Arr.concat]
        rw [if_pos (h d (by simp))]
      · have := h d (by simp)
        simp only [Arr.concat]
        rw [if_neg (by omega)]
        congr 1
        apply ext_getD (by simp [shiftBack])
        intro k hk
        have hk : k < idx.length := by simpa using hk
        rw [getD_set, getD_shiftBack _ _ _ _ hk]
        by_cases hdk : d = k
        · subst hdk; simp [hk]
        · simp [hdk, Ne.symm hdk]
      · obtain ⟨k, hk, h3⟩ := h1
        obtain ⟨l, hl, h4⟩ := h2
        rw [List.mem_singleton] at hk hl
        subst hk; subst hl; omega
  · set shapeOut := (List.range x.order).map (fun k =>
        if k ∈ dims then x.shape.getD k 0 + y.shape.getD k 0 else x.shape.getD k 0) with hso
    have hsl : shapeOut.length = x.order := by simp [hso]
    have hsg : ∀ k, k < x.order → shapeOut.getD k 0 =
        if k ∈ dims then x.shape.getD k 0 + y.shape.getD k 0 else x.shape.getD k 0 :=
      fun k hk => getD_map_range hk
    refine ⟨(x.pad (List.replicate x.order 0) (List.zipWith (· - ·) shapeOut x.shape)).zipWith (· + ·)
        (y.pad (List.zipWith (· - ·) shapeOut y.shape) (List.replicate x.order 0)), ?_, ?_, ?_⟩
    · simp only [cat, Option.getD_some]
      rw [if_neg (by simp [ho]), if_neg (by simp [hoffeq]), if_neg h1]
    · apply ext_getD (by simp [Arr.zipWith, Arr.pad, hsl, hxl])
      intro k hk
      have hk : k < x.order := by simpa [Arr.zipWith, Arr.pad, hsl, hxl] using hk
      rw [hsg k hk]
      show (List.zipWith (· + ·) (List.zipWith (· + ·) _ x.shape) _).getD k 0 = _
      rw [getD_zipWith (by simp [hxl, hk]) (by simp [hxl, hk, hsl]), getD_zipWith (by simpa using hk) (by omega),
        getD_zipWith (by omega) (by omega), getD_replicate hk, hsg k hk]
      split <;> omega
    · intro idx hi
      have hi' : InBox shapeOut idx := by
        have e : ((x.pad (List.replicate x.order 0) (List.zipWith (· - ·) shapeOut x.shape)).zipWith (· + ·)
          (y.pad (List.zipWith (· - ·) shapeOut y.shape) (List.replicate x.order 0))).shape = shapeOut := by
          apply ext_getD (by simp [Arr.zipWith, Arr.pad, hsl, hxl])
          intro k hk
          have hk : k < x.order := by simpa [Arr.zipWith, Arr.pad, hsl, hxl] using hk
          rw [hsg k hk]
          show (List.zipWith (· + ·) (List.zipWith (· + ·) _ x.shape) _).getD k 0 = _
          rw [getD_zipWith (by simp [hxl, hk]) (by simp [hxl, hk, hsl]), getD_zipWith (by simpa using hk) (by omega),
            getD_zipWith (by omega) (by omega), getD_replicate hk, hsg k hk]
          split <;> omega
        rw [e] at hi; exact hi
      clear hi
      have hil : idx.length = x.order := by rw [hi'.length_eq, hsl]
      have hib : ∀ k, k < x.order → idx.getD k 0 < shapeOut.getD k 0 :=
        fun k hk => ((inBox_iff_getD _ _).1 hi').2 k (by omega)
      -- the first block
      have hz0 : List.zipWith (· - ·) idx (List.replicate x.order 0) = idx := by
        apply ext_getD (by simp [hil])
        intro k hk
        have hk : k < x.order := by simpa [hil] using hk
        rw [getD_zipWith (by omega) (by simpa using hk), getD_replicate hk]; simp
      have hle0 : List.Forall₂ (· ≤ ·) (List.replicate x.order 0) idx := by
        rw [List.forall₂_iff_get]
        refine ⟨by simp [hil], fun i h1 h2 => by simp⟩
      have hA : InBox x.shape idx ↔ ∀ k ∈ dims, idx.getD k 0 < x.shape.getD k 0 := by
        rw [inBox_iff_getD]
        constructor
        · intro h k hk; exact h.2 k (hlt k hk)
        · intro h
          refine ⟨hil, fun k hk => ?_⟩
          by_cases hkd : k ∈ dims
          · exact h k hkd
          · have := hib k hk
            rwa [hsg k hk, if_neg hkd] at this
      have hP : (x.pad (List.replicate x.order 0) (List.zipWith (· - ·) shapeOut x.shape)).get idx =
          if (∀ k ∈ dims, idx.getD k 0 < x.shape.getD k 0) then x.get idx else 0 := by
        simp only [Arr.pad, hz0]
        by_cases hc : ∀ k ∈ dims, idx.getD k 0 < x.shape.getD k 0
        · rw [if_pos ⟨hA.2 hc, hle0⟩, if_pos hc]
        · rw [if_neg (by rintro ⟨h, _⟩; exact hc (hA.1 h)), if_neg hc]
      -- the second block
      have hlo : ∀ k, k < x.order → (List.zipWith (· - ·) shapeOut y.shape).getD k 0 =
          if k ∈ dims then x.shape.getD k 0 else 0 := by
        intro k hk
        rw [getD_zipWith (by omega) (by omega), hsg k hk]
        by_cases hkd : k ∈ dims
        · simp only [hkd, if_true]; omega
        · simp only [hkd, if_false]; rw [hoff k hk hkd]; omega
      have hzy : List.zipWith (· - ·) idx (List.zipWith (· - ·) shapeOut y.shape) = shiftBack dims x.shape idx := by
        apply ext_getD (by simp [hil, hsl, hyl, shiftBack])
        intro k hk
        have hk : k < x.order := by simpa [hil, hsl, hyl] using hk
        rw [getD_zipWith (by omega) (by simp [hsl, hyl, hk]), hlo k hk, getD_shiftBack _ _ _ _ (by omega)]
        split <;> omega
      have hB : (InBox y.shape (shiftBack dims x.shape idx) ∧
          List.Forall₂ (· ≤ ·) (List.zipWith (· - ·) shapeOut y.shape) idx) ↔
          ∀ k ∈ dims, x.shape.getD k 0 ≤ idx.getD k 0 := by
        constructor
        · rintro ⟨_, h2⟩ k hk
          rw [List.forall₂_iff_get] at h2
          have hk' := hlt k hk
          have := h2.2 k (by simp [hsl, hyl, hk']) (by omega)
          simp only [List.get_eq_getElem] at this
          rw [← List.getD_eq_getElem _ 0, hlo k hk', if_pos hk, ← List.getD_eq_getElem _ 0] at this
          exact this
        · intro h
          constructor
          · rw [inBox_iff_getD]
            refine ⟨by simp [shiftBack, hil, hyl], fun k hk => ?_⟩
            have hk : k < x.order := by omega
            rw [getD_shiftBack _ _ _ _ (by omega)]
            have hb := hib k hk
            rw [hsg k hk] at hb
            by_cases hkd : k ∈ dims
            · rw [if_pos hkd] at hb ⊢
              have := h k hkd
              omega
            · rw [if_neg hkd] at hb ⊢
              rw [← hoff k hk hkd]; exact hb
          · rw [List.forall₂_iff_get]
            refine ⟨by simp [hsl, hyl, hil], fun k h1 h2 => ?_⟩
            have hk : k < x.order := by omega
            simp only [List.get_eq_getElem]
            rw [← List.getD_eq_getElem _ 0, hlo k hk, ← List.getD_eq_getElem _ 0]
            split
            · rename_i hkd; exact h k hkd
            · omega
      have hQ : (y.pad (List.zipWith (· - ·) shapeOut y.shape) (List.replicate x.order 0)).get idx =
          if (∀ k ∈ dims, x.shape.getD k 0 ≤ idx.getD k 0) then y.get (shiftBack dims x.shape idx) else 0 := by
        simp only [Arr.pad, hzy]
        by_cases hc : ∀ k ∈ dims, x.shape.getD k 0 ≤ idx.getD k 0
        · rw [if_pos (hB.2 hc), if_pos hc]
        · rw [if_neg (fun h => hc (hB.1 h)), if_neg hc]
      simp only [Arr.zipWith]
      rw [hP, hQ]
      obtain ⟨d0, hd0⟩ := List.exists_mem_of_ne_nil dims hne
      refine ⟨fun h => ?_, fun h => ?_, fun h1 h2 => ?_⟩
      · rw [if_pos h, if_neg, add_zero]
        intro h'
        have := h d0 hd0; have := h' d0 hd0; omega
      · rw [if_pos h, if_neg, zero_add]
        intro h'
        have := h d0 hd0; have := h' d0 hd0; omega
      · obtain ⟨k, hk, h3⟩ := h1
        obtain ⟨l, hl, h4⟩ := h2
        rw [if_neg, if_neg, add_zero]
        · intro h; have := h k hk; omega
        · intro h; have := h l hl; omega

/-- Without `dims`, all the dimensions. -/
theorem cat_default [AddZeroClass R] (x y : Arr R) : cat x y none = cat x y (some (List.range x.order)) := rfl

/-- Tensors whose other dimensions differ, or of different orders, are refused. -/
theorem cat_refused [AddZeroClass R] (x y : Arr R) (dims : List Nat)
    (h : x.order ≠ y.order ∨ ∃ k, k < x.order ∧ k ∉ dims ∧ x.shape.getD k 0 ≠ y.shape.getD k 0) :
    cat x y (some dims) = .error .assertionError := by
  unfold cat
  by_cases ho : x.order = y.order
  · rw [if_neg (by simp [ho])]
    obtain ⟨k, hk, hkd, hne⟩ : ∃ k, k < x.order ∧ k ∉ dims ∧ x.shape.getD k 0 ≠ y.shape.getD k 0 := by tauto
    simp only [Option.getD_some]
    rw [if_pos]
    intro he
    have hmem : k ∈ setdiffRange x.order dims := mem_setdiffRange.2 ⟨hk, hkd⟩
    exact hne (List.map_inj_left.1 he k hmem)
  · rw [if_pos ho]

/-! ### C25: Kronecker product -/

/-- `a_0, b_0, a_1, b_1, ...` -/
def interleave : List Nat → List Nat → List Nat
  | a :: as, b :: bs => a :: b :: interleave as bs
  | _, _ => []

theorem interleave_eq (d : Nat) (a b : List Nat) (ha : a.length = d) (hb : b.length = d) :
    applyPerm (kronPerm d) (a ++ b) = interleave a b := by
  have key : ∀ (m : Nat) (a b : List Nat), a.length = m → b.length = m →
      (List.range m).flatMap (fun k => [a.getD k 0, b.getD k 0]) = interleave a b := by
    intro m
    induction m with
    | zero =>
      intro a b ha hb
      rw [List.length_eq_zero_iff] at ha hb
      subst ha; subst hb; rfl
    | succ m ih =>
      intro a b ha hb
      cases a with
      | nil => simp at ha
      | cons x a =>
        cases b with
        | nil => simp at hb
        | cons y b =>
          rw [List.range_succ_eq_map, List.flatMap_cons, List.flatMap_map]
          have := ih a b (by simpa using ha) (by simpa using hb)
          simp only [List.getD_cons_zero, List.getD_cons_succ, interleave, List.cons_append, List.nil_append]
          rw [this]
  rw [← key d a b ha hb]
  unfold applyPerm kronPerm
  rw [List.map_flatMap]
  unfold List.flatMap
  congr 1
  apply List.map_congr_left
  intro k hk
  have hk : k < d := List.mem_range.1 hk
  simp only [List.map_cons, List.map_nil]
  rw [List.getD_append _ _ _ _ (by omega), List.getD_append_right _ _ _ _ (by omega)]
  simp [ha]

theorem kronPerm_perm (d : Nat) : (kronPerm d).Perm (List.range (d + d)) := by
  rw [List.perm_ext_iff_of_nodup _ List.nodup_range]
  · intro a
    simp only [kronPerm, List.mem_flatMap, List.mem_range, List.mem_cons, List.not_mem_nil, or_false]
    constructor
    · rintro ⟨k, hk, h⟩; omega
    · intro h
      by_cases ha : a < d
      · exact ⟨a, ha, Or.inl rfl⟩
      · exact ⟨a - d, by omega, Or.inr (by omega)⟩
  · unfold kronPerm
    rw [List.nodup_flatMap]
    refine ⟨fun k hk => by simp at hk; simp; omega, ?_⟩
    rw [List.pairwise_iff_getElem]
    intro i j h1 h2 hij
    simp only [List.getElem_range, Function.onFun, List.disjoint_left]
    simp only [List.length_range] at h1 h2
    intro a h3 h4
    simp at h3 h4
    omega

theorem prod_interleave (a b : List Nat) (h : a.length = b.length) :
    (interleave a b).prod = (List.zipWith (· * ·) a b).prod := by
  induction a generalizing b with
  | nil => cases b <;> simp_all [interleave]
  | cons x a ih =>
    cases b with
    | nil => simp at h
    | cons y b => simp [interleave, ih b (by simpa using h), mul_assoc]

theorem ravelC_interleave (sx sy idx : List Nat) (h1 : idx.length = sx.length) (h : sx.length = sy.length) :
    ravelC (interleave sx sy) (interleave (List.zipWith (· / ·) idx sy) (List.zipWith (· % ·) idx sy)) =
      ravelC (List.zipWith (· * ·) sx sy) idx := by
  induction sx generalizing sy idx with
  | nil => cases sy <;> cases idx <;> simp_all [interleave, ravelC]
  | cons a sx ih =>
    cases sy with
    | nil => simp at h
    | cons b sy =>
      cases idx with
      | nil => simp at h1
      | cons i idx =>
        simp only [List.zipWith_cons_cons, interleave, ravelC, List.prod_cons]
        rw [ih sy idx (by simpa using h1) (by simpa using h), prod_interleave _ _ (by simpa using h)]
        have := Nat.div_add_mod i b
        have e : i * (List.zipWith (· * ·) sx sy).prod =
          (b * (i / b) + i % b) * (List.zipWith (· * ·) sx sy).prod := by rw [this]
        rw [e]; ring

theorem inBox_interleave (sx sy idx : List Nat) (hi : InBox (List.zipWith (· * ·) sx sy) idx)
    (h : sx.length = sy.length) :
    InBox sx (List.zipWith (· / ·) idx sy) ∧ InBox sy (List.zipWith (· % ·) idx sy) ∧
      InBox (interleave sx sy) (interleave (List.zipWith (· / ·) idx sy) (List.zipWith (· % ·) idx sy)) := by
  induction sx generalizing sy idx with
  | nil => cases sy <;> simp_all [interleave]
  | cons a sx ih =>
    cases sy with
    | nil => simp at h
    | cons b sy =>
      cases idx with
      | nil => simp at hi
      | cons i idx =>
        simp only [List.zipWith_cons_cons, inBox_cons_cons] at hi
        obtain ⟨h1, h2, h3⟩ := ih sy idx hi.2 (by simpa using h)
        have hb : 0 < b := by
          rcases Nat.eq_zero_or_pos b with h0 | h0
          · subst h0; simp at hi
          · exact h0
        have h4 : i / b < a := Nat.div_lt_of_lt_mul (by rw [Nat.mul_comm]; exact hi.1)
        have h5 : i % b < b := Nat.mod_lt _ hb
        simp [interleave, h1, h2, h3, h4, h5]

/-- `kron(y)`: entry `idx` of the result is the product of the entry of `x` with subscripts `idx / n` and the
entry of `y` with subscripts `idx % n`, where `n` are the sizes of `y`. -/
theorem kron_spec [Mul R] (x y : Arr R) (ho : x.order = y.order) :
    ∃ z, kron x y = .ok z ∧ z.shape = List.zipWith (· * ·) x.shape y.shape ∧
      ∀ idx, InBox z.shape idx →
        z.get idx = x.get (List.zipWith (· / ·) idx y.shape) * y.get (List.zipWith (· % ·) idx y.shape) := by
  have hl : x.shape.length = y.shape.length := ho
  refine ⟨_, by simp only [kron]; rw [if_neg (by simp [ho])], rfl, ?_⟩
  intro idx hi
  have hi : InBox (List.zipWith (· * ·) x.shape y.shape) idx := hi
  have hil : idx.length = x.shape.length := by rw [hi.length_eq]; simp [hl]
  obtain ⟨h1, h2, h3⟩ := inBox_interleave _ _ _ hi hl
  set a := List.zipWith (· / ·) idx y.shape with ha
  set b := List.zipWith (· % ·) idx y.shape with hb
  have hal : a.length = x.order := h1.length_eq
  have hbl : b.length = x.order := h2.length_eq.trans hl.symm
  have e1 : applyPerm (kronPerm x.order) (x.shape ++ y.shape) = interleave x.shape y.shape :=
    interleave_eq _ _ _ rfl hl.symm
  show (outerFlat x y).get (unravelC [x.shape.prod, y.shape.prod] (ravelC (x.shape ++ y.shape)
    (applyPerm (invPerm (kronPerm x.order)) (unravelC (applyPerm (kronPerm x.order) (x.shape ++ y.shape))
      (ravelC (List.zipWith (· * ·) x.shape y.shape) idx))))) = _
  rw [e1, ← ravelC_interleave _ _ _ hil hl, unravelC_ravelC h3, ← interleave_eq x.order a b hal hbl,
    invPerm_applyPerm (kronPerm_perm x.order) (by simp [hal, hbl]), ravelC_append h1.length_eq,
    unravelC_pair (ravelC_lt h1) (ravelC_lt h2)]
  simp only [outerFlat, List.getD_cons_zero, List.getD_cons_succ]
  rw [unravelC_ravelC h1, unravelC_ravelC h2]

/-- Tensors of different orders are refused. -/
theorem kron_refused [Mul R] (x y : Arr R) (h : x.order ≠ y.order) : kron x y = .error .valueError := by
  simp [kron, h]

/-- The subscripts `0, n + 1, 2 (n + 1), ...` of one dimension of `x.kron(x)`: `arange(0, n * n, n + 1)`. -/
def diagSel (n : Nat) : List Nat := (List.range n).map (fun i => i * (n + 1))

/-- Kronecker product followed by the selection of the diagonal subscripts: the elementwise product. -/
theorem kron_diag_eq_mul [Mul R] (x y : Arr R) (hs : x.shape = y.shape) :
    ∃ z w, kron x y = .ok z ∧ subTensor z (x.shape.map (fun n => some (diagSel n))) = .ok w ∧
      w.shape = x.shape ∧ ∀ idx, InBox x.shape idx → w.get idx = x.get idx * y.get idx := by
  obtain ⟨z, hz1, hz2, hz3⟩ := kron_spec x y (by simp [Arr.order, hs])
  have hpk : List.Forall₂ PickOk (x.shape.map (fun n => some (diagSel n))) z.shape := by
    rw [hz2, ← hs, List.forall₂_iff_get]
    refine ⟨by simp, fun i h1 h2 => ?_⟩
    simp only [List.get_eq_getElem, List.getElem_map, List.getElem_zipWith]
    intro l hl j hj
    cases hl
    simp only [diagSel, List.mem_map, List.mem_range] at hj
    obtain ⟨k, hk, rfl⟩ := hj
    set n := x.shape[i]'(by simpa using h1)
    calc k * (n + 1) < k * (n + 1) + 1 := by omega
      _ ≤ n * n := by
        obtain ⟨m, hm⟩ : ∃ m, n = k + 1 + m := ⟨n - k - 1, by omega⟩
        rw [hm]; ring_nf; nlinarith [Nat.zero_le (m * k), Nat.zero_le (m * m)]
  obtain ⟨w, hw1, hw2, hw3⟩ := subTensor_spec z _ hpk
  have hws : w.shape = x.shape := by
    rw [hw2, hz2, ← hs]
    apply List.ext_getElem (by simp)
    intro i h1 h2
    simp [pickSize, diagSel]
  refine ⟨z, w, hz1, hw1, hws, ?_⟩
  intro idx hi
  have hil := hi.length_eq
  rw [hw3 idx (by rw [hws]; exact hi)]
  set idx' := List.zipWith pick (x.shape.map (fun n => some (diagSel n))) idx with hidx'
  have hl' : idx'.length = x.shape.length := by simp [hidx', hil]
  have hk : ∀ k (h : k < x.shape.length), idx'[k]'(by omega) = (idx[k]'(by omega)) * (x.shape[k] + 1) := by
    intro k h
    have hlt : idx[k]'(by omega) < x.shape[k] := by
      have := (List.forall₂_iff_get.1 hi).2 k (by omega) h
      simpa using this
    simp only [hidx', List.getElem_zipWith, List.getElem_map, pick, diagSel]
    rw [List.getD_eq_getElem _ _ (by simpa using hlt), List.getElem_map, List.getElem_range]
  have hdiv : List.zipWith (· / ·) idx' y.shape = idx := by
    apply List.ext_getElem (by simp [hl', ← hs, hil])
    intro k h1 h2
    have hkx : k < x.shape.length := by omega
    have hlt : idx[k] < x.shape[k] := by
      have := (List.forall₂_iff_get.1 hi).2 k (by omega) hkx
      simpa using this
    simp only [List.getElem_zipWith, hk k hkx, ← hs]
    rw [show idx[k] * (x.shape[k] + 1) = idx[k] + x.shape[k] * idx[k] by ring,
      Nat.add_mul_div_left _ _ (by omega), Nat.div_eq_of_lt hlt, Nat.zero_add]
  have hmod : List.zipWith (· % ·) idx' y.shape = idx := by
    apply List.ext_getElem (by simp [hl', ← hs, hil])
    intro k h1 h2
    have hkx : k < x.shape.length := by omega
    have hlt : idx[k] < x.shape[k] := by
      have := (List.forall₂_iff_get.1 hi).2 k (by omega) hkx
      simpa using this
    simp only [List.getElem_zipWith, hk k hkx, ← hs]
    rw [show idx[k] * (x.shape[k] + 1) = idx[k] + x.shape[k] * idx[k] by ring,
      Nat.add_mul_mod_self_left, Nat.mod_eq_of_lt hlt]
  have hin : InBox z.shape idx' := by
    rw [hz2, ← hs, inBox_iff_getD]
    refine ⟨by simp [hl'], fun k hkk => ?_⟩
    have hkx : k < x.shape.length := by simpa using hkk
    have hlt : idx[k]'(by omega) < x.shape[k] := by
      have := (List.forall₂_iff_get.1 hi).2 k (by omega) hkx
      simpa using this
    rw [getD_zipWith hkx hkx, List.getD_eq_getElem _ _ (by omega), List.getD_eq_getElem _ _ hkx, hk k hkx]
    set n := x.shape[k]
    set i := idx[k]'(by omega)
    obtain ⟨m, hm⟩ : ∃ m, n = i + 1 + m := ⟨n - i - 1, by omega⟩
    rw [hm]; ring_nf; nlinarith [Nat.zero_le (m * i), Nat.zero_le (m * m)]
  rw [hz3 idx' hin, hdiv, hmod]

end Verif.FullTensor
