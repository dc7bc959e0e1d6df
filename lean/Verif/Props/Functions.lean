import Verif.Model.Functions
import Verif.Props.Grids
import Verif.Props.Tensorizer
import Verif.Lemmas.BottomUp
import Verif.Lemmas.Merge
import Verif.Props.TreeOrth

/-! Functions: storage of evaluations, partial evaluation, evaluation on grids, tensorization, composition. -/

namespace Verif.Functions

open Verif.Arr Verif.DimTree Verif.DimTree.DTree

variable {P R K α : Type}

theorem reshapeF_self (a : Arr R) {s : List Nat} (h : a.shape = s) {idx : List Nat} (hi : InBox s idx) : (reshapeF a s).get idx = a.get idx := by
  show a.get (unravelF a.shape (ravelF s idx)) = _
  rw [h, unravelF_ravelF hi]

theorem reshapeC_self (a : Arr R) {s : List Nat} (h : a.shape = s) {idx : List Nat} (hi : InBox s idx) : (reshapeC a s).get idx = a.get idx := by
  show a.get (unravelC a.shape (ravelC s idx)) = _
  rw [h, unravelC_ravelC hi]

/-! ### `UserDefinedFunction` -/

/-- C111. `UserDefinedFunction.eval(x)`, point by point: the values at point `k` are those of `fun` at this point, in the same order. -/
theorem userEval_spec [Zero R] (fn : P → Arr R) (out : List Nat) (x : List P) (h : ∀ p ∈ x, (fn p).shape = out) :
    ∃ y, userEval fn out x = .ok y ∧ y.shape = x.length :: out ∧
      ∀ k (hk : k < x.length) i, InBox out i → y.get (k :: i) = (fn x[k]).get i := by
  unfold userEval
  rw [if_pos (by
    rw [List.all_eq_true]
    intro p hp
    rw [h p hp]
    simp)]
  refine ⟨_, rfl, rfl, ?_⟩
  intro k hk i hi
  have hr : ravelC (x.length :: out) (k :: i) = k * out.prod + ravelC out i := by
    simp [ravelC]
  show (match x[(unravelC [x.length, out.prod] (ravelC (x.length :: out) (k :: i))).getD 0 0]? with
    | some p => (reshapeC (fn p) [(fn p).shape.prod]).get [(unravelC [x.length, out.prod] (ravelC (x.length :: out) (k :: i))).getD 1 0]
    | none => 0) = _
  rw [hr, unravelC_pair hk (ravelC_lt hi)]
  have : x[([k, ravelC out i] : List Nat).getD 0 0]? = some x[k] := by simp [hk]
  rw [this]
  show (fn x[k]).get (unravelC (fn x[k]).shape (ravelC [(fn x[k]).shape.prod] [ravelC out i])) = _
  rw [h _ (List.getElem_mem hk)]
  have : ravelC [out.prod] [ravelC out i] = ravelC out i := by simp [ravelC]
  rw [this, unravelC_ravelC hi]

/-! ### `store_eval` -/

theorem setRows_shape (y v : Arr R) (rows src : List Nat) : (setRows y v rows src).shape = y.shape := by
  unfold setRows
  generalize rows.zip src = l
  induction l generalizing y with
  | nil => rfl
  | cons p l ih => rw [List.foldl_cons, ih]

theorem setRows_get (y v : Arr R) (rows src : List Nat) (k : Nat) (i : List Nat) :
    ((setRows y v rows src).get (k :: i) = y.get (k :: i) ∧ ∀ s, (k, s) ∉ rows.zip src) ∨
      ∃ s, (k, s) ∈ rows.zip src ∧ (setRows y v rows src).get (k :: i) = v.get (s :: i) := by
  unfold setRows
  generalize rows.zip src = l
  induction l generalizing y with
  | nil => left; simp
  | cons p l ih =>
    rw [List.foldl_cons]
    rcases ih ⟨y.shape, fun i => if i.getD 0 0 = p.1 then v.get (p.2 :: i.tail) else y.get i⟩ with ⟨h1, h2⟩ | ⟨s, h1, h2⟩
    · by_cases hk : k = p.1
      · right
        refine ⟨p.2, by rw [hk]; exact List.mem_cons_self .., ?_⟩
        rw [h1]
        simp [hk]
      · left
        refine ⟨by rw [h1]; simp [hk], ?_⟩
        intro s hs
        rcases List.mem_cons.1 hs with e | e
        · exact hk (congrArg Prod.fst e)
        · exact h2 s e
    · exact .inr ⟨s, List.mem_cons_of_mem _ h1, h2⟩

theorem mem_matches [DecidableEq P] (xs x : List P) (i k : Nat) :
    (i, k) ∈ matches' xs x ↔ ∃ p, xs[i]? = some p ∧ x[k]? = some p := by
  unfold matches'
  rw [List.mem_flatMap]
  constructor
  · rintro ⟨i', hi, h⟩
    obtain ⟨k', hk, e⟩ := List.mem_map.1 h
    cases e
    rw [List.mem_filter, List.mem_range] at hk
    rw [List.mem_range] at hi
    refine ⟨xs[i], List.getElem?_eq_getElem hi, ?_⟩
    have := of_decide_eq_true hk.2
    rw [← this, List.getElem?_eq_getElem hi]
  · rintro ⟨p, h1, h2⟩
    refine ⟨i, List.mem_range.2 (List.getElem?_eq_some_iff.1 h1).1, List.mem_map.2 ⟨k, ?_, rfl⟩⟩
    rw [List.mem_filter, List.mem_range]
    exact ⟨(List.getElem?_eq_some_iff.1 h2).1, by rw [h1, h2]; simp⟩

theorem mem_missing [DecidableEq P] (xs x : List P) (k : Nat) : k ∈ missing xs x ↔ ∃ p, x[k]? = some p ∧ p ∉ xs := by
  unfold missing
  rw [List.mem_filter, List.mem_range]
  have hc : ((matches' xs x).map Prod.snd).contains k = true ↔ ∃ i, (i, k) ∈ matches' xs x := by
    rw [List.contains_iff_mem, List.mem_map]
    exact ⟨fun ⟨⟨i, k'⟩, h, e⟩ => ⟨i, e ▸ h⟩, fun ⟨i, h⟩ => ⟨(i, k), h, rfl⟩⟩
  constructor
  · rintro ⟨hk, h⟩
    refine ⟨x[k], List.getElem?_eq_getElem hk, fun hm => ?_⟩
    obtain ⟨i, hi, e⟩ := List.getElem_of_mem hm
    have : ∃ i, (i, k) ∈ matches' xs x :=
      ⟨i, (mem_matches ..).2 ⟨x[k], by rw [List.getElem?_eq_getElem hi, e], List.getElem?_eq_getElem hk⟩⟩
    rw [← hc] at this
    rw [this] at h
    simp at h
  · rintro ⟨p, hp, hn⟩
    refine ⟨(List.getElem?_eq_some_iff.1 hp).1, ?_⟩
    rw [Bool.not_eq_true', ← Bool.not_eq_true, hc]
    rintro ⟨i, hi⟩
    obtain ⟨q, h1, h2⟩ := (mem_matches ..).1 hi
    rw [hp] at h2; cases h2
    exact hn (List.mem_of_getElem? h1)

/-- The new points are the points that are not stored. -/
theorem newPoints [DecidableEq P] (xs x : List P) : (missing xs x).filterMap (fun k => x[k]?) = x.filter (fun p => decide (p ∉ xs)) := by
  have h1 : missing xs x = (List.range x.length).filter (fun k => (x[k]?).any (fun p => decide (p ∉ xs))) := by
    have hm := mem_missing xs x
    unfold missing at hm ⊢
    apply List.filter_congr
    intro k hk
    have := hm k
    rw [List.mem_filter] at this
    simp only [hk, true_and] at this
    rw [Bool.eq_iff_iff, this]
    constructor
    · rintro ⟨p, hp, hn⟩
      rw [hp]; simpa using hn
    · intro h
      rw [List.mem_range] at hk
      rw [List.getElem?_eq_getElem hk] at h
      exact ⟨x[k], List.getElem?_eq_getElem hk, by simpa using h⟩
  rw [h1]
  clear h1
  induction x using List.reverseRecOn with
  | nil => rfl
  | append_singleton x a ih =>
    rw [List.length_append, List.length_singleton, List.range_succ, List.filter_append, List.filterMap_append, List.filter_append]
    congr 1
    · rw [← ih]
      have e : ∀ k ∈ List.range x.length, (x ++ [a])[k]? = x[k]? := fun k hk => List.getElem?_append_left (List.mem_range.1 hk)
      rw [List.filter_congr (q := fun k => (x[k]?).any (fun p => decide (p ∉ xs))) (fun k hk => by rw [e k hk])]
      apply List.filterMap_congr
      intro k hk
      exact e k (List.mem_of_mem_filter hk)
    · have e : (x ++ [a])[x.length]? = some a := by simp
      by_cases ha : a ∈ xs <;> simp [e, ha]

theorem filterMap_some {α β : Type} (g : α → Option β) (l : List α) (h : ∀ k ∈ l, ∃ p, g k = some p) :
    (l.filterMap g).map some = l.map g := by
  induction l with
  | nil => rfl
  | cons a l ih =>
    obtain ⟨p, hp⟩ := h a (by simp)
    rw [List.filterMap_cons_some hp, List.map_cons, List.map_cons, ih (fun k hk => h k (by simp [hk])), hp]

/-- The stored values are values of `f`, for functions whose output is a vector of size `m` (`m = 1` for numbers). -/
structure Faithful (f : P → Nat → R) (m : Nat) (s : Store P R) : Prop where
  shape : s.ys.shape = [s.xs.length, m]
  vals : ∀ k (hk : k < s.xs.length) j, j < m → s.ys.get [k, j] = f s.xs[k] j

/-- `eval` returns the values of `f`, one row per point. -/
structure IsEval (ev : List P → Arr R) (f : P → Nat → R) (m : Nat) : Prop where
  shape : ∀ x, (ev x).shape = [x.length, m]
  vals : ∀ x k (hk : k < x.length) j, j < m → (ev x).get [k, j] = f x[k] j

theorem inBox2 {a b i j : Nat} (hi : i < a) (hj : j < b) : InBox [a, b] [i, j] := .cons hi (.cons hj .nil)

/-- One call. -/
theorem storeEval_spec [DecidableEq P] [Zero R] (ev : List P → Arr R) (f : P → Nat → R) (m : Nat) (hm : 0 < m) (hev : IsEval ev f m)
    (s : Store P R) (hs : Faithful f m s) (x : List P) :
    (storeEval ev [m] s x).1.shape = [x.length, m] ∧
    (∀ k (hk : k < x.length) j, j < m → (storeEval ev [m] s x).1.get [k, j] = f x[k] j) ∧
    Faithful f m (storeEval ev [m] s x).2 ∧
    (storeEval ev [m] s x).2.xs = s.xs ++ x.filter (fun p => decide (p ∉ s.xs)) ∧
    ∀ ev', ev' (x.filter (fun p => decide (p ∉ s.xs))) = ev (x.filter (fun p => decide (p ∉ s.xs))) →
      storeEval ev' [m] s x = storeEval ev [m] s x := by
  by_cases h0 : s.ys.shape.prod ≠ 0
  · have hN : s.xs.length ≠ 0 := by
      intro h
      rw [hs.shape, h] at h0; simp at h0
    have hys : (mergeOut [m] s).shape = [s.xs.length, m] ∧ ∀ k (hk : k < s.xs.length) j, j < m → (mergeOut [m] s).get [k, j] = f s.xs[k] j := by
      unfold mergeOut
      split
      · have e : [s.ys.shape.getD 0 0, s.ys.shape.prod / s.ys.shape.getD 0 0] = [s.xs.length, m] := by
          rw [hs.shape]
          simp only [List.getD_cons_zero, List.prod_cons, List.prod_nil, mul_one]
          rw [Nat.mul_div_cancel_left _ (by omega)]
        rw [e]
        exact ⟨rfl, fun k hk j hj => by rw [reshapeF_self _ hs.shape (inBox2 hk hj), hs.vals k hk j hj]⟩
      · exact ⟨hs.shape, hs.vals⟩
    have hsplit : ∀ (n : Nat) (y : Arr R), y.shape = [n, m] → (splitOut [m] y).shape = [n, m] ∧
        ∀ k j, k < n → j < m → (splitOut [m] y).get [k, j] = y.get [k, j] := by
      intro n y hy
      unfold splitOut
      split
      · have e : (y.shape.getD 0 0 :: [m]) = [n, m] := by rw [hy]; rfl
        rw [e]
        exact ⟨rfl, fun k j hk hj => reshapeF_self _ hy (inBox2 hk hj)⟩
      · exact ⟨hy, fun _ _ _ _ => rfl⟩
    obtain ⟨y1, y2⟩ := hys
    have hk1 : (knownValues (mergeOut [m] s) s.xs x).shape = [x.length, m] := by
      unfold knownValues
      rw [setRows_shape, y1]
      rfl
    have hzip : ((matches' s.xs x).map Prod.snd).zip ((matches' s.xs x).map Prod.fst) = (matches' s.xs x).map (fun p => (p.2, p.1)) := by
      rw [List.zip_map']
    have hk2 : ∀ k (hk : k < x.length) j, j < m → x[k] ∈ s.xs → (knownValues (mergeOut [m] s) s.xs x).get [k, j] = f x[k] j := by
      intro k hk j hj hmem
      unfold knownValues
      rcases setRows_get ⟨[x.length, (mergeOut [m] s).shape.getD 1 0], fun _ => 0⟩ (mergeOut [m] s) ((matches' s.xs x).map Prod.snd)
        ((matches' s.xs x).map Prod.fst) k [j] with ⟨-, h2⟩ | ⟨i, h1, h2⟩
      · exfalso
        obtain ⟨i, hi, e⟩ := List.getElem_of_mem hmem
        apply h2 i
        rw [hzip, List.mem_map]
        exact ⟨(i, k), (mem_matches ..).2 ⟨x[k], by rw [List.getElem?_eq_getElem hi, e], List.getElem?_eq_getElem hk⟩, rfl⟩
      · rw [h2]
        rw [hzip, List.mem_map] at h1
        obtain ⟨⟨i', k'⟩, h3, e⟩ := h1
        simp only [Prod.mk.injEq] at e
        obtain ⟨rfl, rfl⟩ := e
        obtain ⟨p, p1, p2⟩ := (mem_matches ..).1 h3
        obtain ⟨hi, p1⟩ := List.getElem?_eq_some_iff.1 p1
        obtain ⟨_, p2⟩ := List.getElem?_eq_some_iff.1 p2
        rw [y2 i' hi j hj, p1, p2]
    have hnew := newPoints s.xs x
    unfold storeEval
    rw [if_pos h0]
    simp only [hnew]
    by_cases he : (x.filter (fun p => decide (p ∉ s.xs))).isEmpty
    · rw [if_pos he]
      have hnil := List.isEmpty_iff.1 he
      have hall : ∀ k (hk : k < x.length), x[k] ∈ s.xs := by
        intro k hk
        by_contra hc
        have : x[k] ∈ x.filter (fun p => decide (p ∉ s.xs)) := List.mem_filter.2 ⟨List.getElem_mem hk, by simpa using hc⟩
        rw [hnil] at this
        simp at this
      obtain ⟨s1, s2⟩ := hsplit _ _ y1
      refine ⟨rfl, ?_, ⟨s1, ?_⟩, by rw [hnil]; simp, ?_⟩
      · intro k hk j hj
        rw [reshapeF_self _ hk1 (inBox2 hk hj), hk2 k hk j hj (hall k hk)]
      · intro k hk j hj
        rw [s2 k j hk hj, y2 k hk j hj]
      · intro ev' _
        rw [if_pos h0, if_pos he]
    · rw [if_neg he]
      have hx0 : (x.filter (fun p => decide (p ∉ s.xs))).length ≠ 0 := by
        intro h
        exact he (List.isEmpty_iff.2 (List.eq_nil_of_length_eq_zero h))
      generalize hxn : x.filter (fun p => decide (p ∉ s.xs)) = xn at hx0 hnew ⊢
      have e1 : (ev xn).shape = [xn.length, m] := hev.shape xn
      have e2 : [(ev xn).shape.getD 0 0, (ev xn).shape.prod / (ev xn).shape.getD 0 0] = [xn.length, m] := by
        rw [e1]
        simp only [List.getD_cons_zero, List.prod_cons, List.prod_nil, mul_one]
        rw [Nat.mul_div_cancel_left _ (by omega)]
      rw [e2]
      have e3 : ∀ k (hk : k < xn.length) j, j < m → (reshapeC (ev xn) [xn.length, m]).get [k, j] = f xn[k] j := by
        intro k hk j hj
        rw [reshapeC_self _ e1 (inBox2 hk hj), hev.vals xn k hk j hj]
      have hmap : xn.map some = (missing s.xs x).map (fun k => x[k]?) := by
        rw [← hnew]
        apply filterMap_some
        intro k hk
        obtain ⟨p, hp, -⟩ := (mem_missing ..).1 hk
        exact ⟨p, hp⟩
      have hlen : (missing s.xs x).length = xn.length := by
        have := congrArg List.length hmap
        simpa using this.symm
      have hget : ∀ q (hq : q < (missing s.xs x).length) k (hk : k < x.length), (missing s.xs x)[q] = k → xn[q]'(by omega) = x[k] := by
        intro q hq k hk e
        have := congrArg (fun l => l[q]?) hmap
        simp only [List.getElem?_map] at this
        rw [List.getElem?_eq_getElem (by omega), List.getElem?_eq_getElem hq, e] at this
        simp only [Option.map_some, List.getElem?_eq_getElem hk, Option.some.injEq] at this
        exact this
      obtain ⟨s1, s2⟩ := hsplit (s.xs.length + xn.length) (concat (mergeOut [m] s) (reshapeC (ev xn) [xn.length, m]) 0) (by
        unfold concat
        rw [y1]
        rfl)
      refine ⟨rfl, ?_, ⟨?_, ?_⟩, rfl, ?_⟩
      · intro k hk j hj
        have hsh : (setRows (knownValues (mergeOut [m] s) s.xs x) (reshapeC (ev xn) [xn.length, m]) (missing s.xs x)
            (List.range (missing s.xs x).length)).shape = [x.length, m] := by rw [setRows_shape, hk1]
        rw [reshapeF_self _ hsh (inBox2 hk hj)]
        rcases setRows_get (knownValues (mergeOut [m] s) s.xs x) (reshapeC (ev xn) [xn.length, m]) (missing s.xs x)
          (List.range (missing s.xs x).length) k [j] with ⟨h1, h2⟩ | ⟨q, h1, h2⟩
        · rw [h1]
          apply hk2 k hk j hj
          by_contra hc
          have hmis : k ∈ missing s.xs x := (mem_missing ..).2 ⟨x[k], List.getElem?_eq_getElem hk, hc⟩
          obtain ⟨q, hq, e⟩ := List.getElem_of_mem hmis
          apply h2 q
          rw [List.mem_iff_getElem]
          exact ⟨q, by simpa using hq, by simp [e]⟩
        · rw [h2]
          obtain ⟨q', hq', e⟩ := List.getElem_of_mem h1
          rw [List.getElem_zip, List.getElem_range, Prod.mk.injEq] at e
          obtain ⟨e1, rfl⟩ := e
          have hq2 : q' < (missing s.xs x).length := by simpa using hq'
          rw [e3 q' (by omega) j hj, hget q' hq2 k hk e1]
      · rw [s1]; simp
      · intro k hk j hj
        have hk' : k < s.xs.length + xn.length := by simpa using hk
        show (splitOut [m] (concat (mergeOut [m] s) (reshapeC (ev xn) [xn.length, m]) 0)).get [k, j] = f ((s.xs ++ xn)[k]'hk) j
        rw [s2 k j hk' hj]
        unfold concat
        simp only [y1, List.getD_cons_zero]
        by_cases h : k < s.xs.length
        · rw [if_pos h, y2 k h j hj, List.getElem_append_left h]
        · rw [if_neg h]
          show (reshapeC (ev xn) [xn.length, m]).get [k - s.xs.length, j] = _
          rw [e3 (k - s.xs.length) (by omega) j hj, List.getElem_append_right (by omega)]
      · intro ev' hev'
        rw [if_pos h0, if_neg (by rw [← hxn]; exact he), hev', e2]
  · unfold storeEval
    rw [if_neg h0]
    have hN : s.xs = [] := by
      rw [hs.shape] at h0
      push Not at h0
      simp only [List.prod_cons, List.prod_nil, mul_one, mul_eq_zero] at h0
      exact List.eq_nil_of_length_eq_zero (by omega)
    have hf : x.filter (fun p => decide (p ∉ s.xs)) = x := by rw [hN]; simp
    have ho : ¬ (ev x).order < 2 := by unfold Arr.order; rw [hev.shape]; simp
    simp only [if_neg ho]
    refine ⟨hev.shape x, hev.vals x, ⟨hev.shape x, hev.vals x⟩, by rw [hf, hN]; rfl, ?_⟩
    intro ev' h
    rw [hf] at h
    rw [if_neg h0, h, if_neg ho]

/-- C112. Storing evaluations is transparent: for a function with scalar or vector values, whatever the sequence of calls, each call of
`store_eval` returns the values of the function at the points asked for. -/
theorem storeRun_partial [DecidableEq P] [Zero R] (ev : List P → Arr R) (f : P → Nat → R) (m : Nat) (hm : 0 < m) (hev : IsEval ev f m)
    (calls : List (List P)) (s : Store P R) (hs : Faithful f m s) :
    List.Forall₂ (fun x (y : Arr R) => y.shape = [x.length, m] ∧ ∀ k (hk : k < x.length) j, j < m → y.get [k, j] = f x[k] j)
      calls (storeRun ev [m] s calls) := by
  induction calls generalizing s with
  | nil => exact .nil
  | cons x calls ih =>
    obtain ⟨h1, h2, h3, -, -⟩ := storeEval_spec ev f m hm hev s hs x
    exact .cons ⟨h1, h2⟩ (ih _ h3)

/-- C112. A call evaluates the function only at the points that are not stored: if `eval` is replaced by a function that has the same
result on these points (and anything elsewhere), nothing changes; and the stored points are then those of the preceding calls and the new
ones. -/
theorem storeEval_once_partial [DecidableEq P] [Zero R] (ev : List P → Arr R) (f : P → Nat → R) (m : Nat) (hm : 0 < m) (hev : IsEval ev f m)
    (s : Store P R) (hs : Faithful f m s) (x : List P) :
    (∀ ev', ev' (x.filter (fun p => decide (p ∉ s.xs))) = ev (x.filter (fun p => decide (p ∉ s.xs))) →
      storeEval ev' [m] s x = storeEval ev [m] s x) ∧
    Faithful f m (storeEval ev [m] s x).2 ∧ ∀ p, p ∈ (storeEval ev [m] s x).2.xs ↔ p ∈ s.xs ∨ p ∈ x := by
  obtain ⟨-, -, h3, h4, h5⟩ := storeEval_spec ev f m hm hev s hs x
  refine ⟨h5, h3, fun p => ?_⟩
  rw [h4, List.mem_append, List.mem_filter]
  by_cases h : p ∈ s.xs <;> simp [h]

/-- The hypotheses are met: nothing is stored at the beginning. -/
example : IsEval (P := Int) (fun x => ⟨[x.length, 2], fun i => (x.getD (i.getD 0 0) 0) + i.getD 1 0⟩) (fun p j => p + (j : Int)) 2 ∧
    Faithful (P := Int) (R := Int) (fun p j => p + (j : Int)) 2 ⟨[], ⟨[0, 2], fun _ => 0⟩⟩ :=
  ⟨⟨fun _ => rfl, fun x k hk j hj => by simp [hk]⟩, ⟨rfl, fun k hk => by simp at hk⟩⟩

/-- C112 is false of the code for functions whose values are matrices: the second call returns the transposed values at the new points. -/
theorem storeRun_matrix_wrong :
    let f : Nat → Arr Int := fun p => ⟨[2, 2], fun i => p * 4 + i.getD 0 0 * 2 + i.getD 1 0⟩
    let ev : List Nat → Arr Int := fun x => ⟨[x.length, 2, 2], fun i => (f (x.getD (i.getD 0 0) 0)).get i.tail⟩
    (storeRun ev [2, 2] ⟨[], ⟨[0, 2, 2], fun _ => 0⟩⟩ [[5], [7]]).map (fun y => (y.shape, y.get [0, 0, 1])) =
      [([1, 2, 2], (f 5).get [0, 1]), ([1, 2, 2], (f 7).get [1, 0])] := by
  decide +kernel

/-! ### `partial_evaluation` -/

/-- The values of `fun` in `partial_evaluation`, for one value of the fixed variables. -/
theorem partialFun_one [Zero K] (f : List K → R) (dim : Nat) (na : List Nat) (hnd : na.Nodup)
    (c : List K) (hc : c.length = na.length) (xs : List (List K)) (hx : xs ≠ [])
    (hxl : ∀ a ∈ xs, a.length = ((List.range dim).filter (fun k => decide (k ∉ na))).length) :
    ∃ ys, partialFun f dim na [c] xs = .ok ys ∧ ys.length = xs.length ∧
      ∀ k (hk : k < xs.length) (hk' : k < ys.length) (p : List K), p.length = dim →
        (∀ j, j < ((List.range dim).filter (fun k => decide (k ∉ na))).length →
          p.getD (((List.range dim).filter (fun k => decide (k ∉ na))).getD j 0) 0 = xs[k].getD j 0) →
        (∀ j, j < na.length → na.getD j 0 < dim → p.getD (na.getD j 0) 0 = c.getD j 0) → ys[k] = f p := by
  have hal : (List.range dim).filter (fun k => !na.contains k) = (List.range dim).filter (fun k => decide (k ∉ na)) := by
    apply List.filter_congr
    intro k _
    by_cases h : k ∈ na <;> simp [h]
  have harr := Grids.array_eq (Grids.FullGrid.mk [xs, [c]]) (by simp) (by simpa using hx)
  unfold partialFun
  rw [harr, hal]
  simp only [bind, Except.bind]
  generalize hα : (List.range dim).filter (fun k => decide (k ∉ na)) = al at hxl ⊢
  have hpr : (Grids.FullGrid.mk [xs, [c]]).shape.prod = xs.length := by simp [Grids.FullGrid.shape]
  refine ⟨_, rfl, by simp [hpr], ?_⟩
  intro k hk hk' p hp h1 h2
  have hun : unravelF [xs.length, 1] k = [k, 0] := by
    have := unravelF_pair (a := xs.length) (b := 1) hk (j := 0) (by omega)
    simpa using this
  have hpt : Grids.gridPoint [xs, [c]] (unravelF (Grids.FullGrid.mk [xs, [c]]).shape k) = xs[k] ++ c := by
    show Grids.gridPoint [xs, [c]] (unravelF [xs.length, 1] k) = _
    rw [hun]
    unfold Grids.gridPoint
    simp [hk]
  rw [List.getElem_map, List.getElem_map, List.getElem_range, hpt]
  congr 1
  apply List.ext_getElem (by simp [hp])
  intro v v1 v2
  have hv : v < dim := by simpa using v1
  rw [List.getElem_map, List.getElem_map, List.getElem_range, ← List.getD_eq_getElem p 0 v2]
  have hla : al.length = xs[k].length := (hxl _ (List.getElem_mem hk)).symm
  by_cases hvn : v ∈ na
  · have hva : v ∉ al := by rw [← hα]; simp [hvn]
    have hi := List.idxOf_lt_length_iff.2 hvn
    have hg : na.getD (na.idxOf v) 0 = v := by rw [List.getD_eq_getElem _ _ hi, List.getElem_idxOf]
    have := h2 (na.idxOf v) hi (by rw [hg]; exact hv)
    rw [hg] at this
    rw [this, List.idxOf_append_of_notMem hva, hla, List.getD_append_right _ _ _ _ (by omega)]
    congr 1
    omega
  · have hva : v ∈ al := by rw [← hα]; simp [hvn, hv]
    have hi := List.idxOf_lt_length_iff.2 hva
    have hg : al.getD (al.idxOf v) 0 = v := by rw [List.getD_eq_getElem _ _ hi, List.getElem_idxOf]
    have := h1 (al.idxOf v) hi
    rw [hg] at this
    rw [this, List.idxOf_append_of_mem hva, List.getD_append _ _ _ _ (by omega)]

/-- C113. `partial_evaluation(not_alpha, x)` with one point `x`: the value at `x_alpha` is the value of the function at the point whose
coordinates are those of `x` for the variables `not_alpha` and those of `x_alpha`, in order, for the other variables. -/
theorem partialEval_partial [Zero K] (f : List K → R) (dim : Nat) (na : List Nat) (hnd : na.Nodup)
    (c : List K) (hc : c.length = na.length) (multi : Bool) (xs : List (List K)) (hx : xs ≠ [])
    (hxl : ∀ a ∈ xs, a.length = ((List.range dim).filter (fun k => decide (k ∉ na))).length) :
    ∃ ys, partialEval f dim na multi [c] xs = .ok ys ∧ ys.length = xs.length ∧
      ∀ k (hk : k < xs.length) (hk' : k < ys.length) (p : List K), p.length = dim →
        (∀ j, j < ((List.range dim).filter (fun k => decide (k ∉ na))).length →
          p.getD (((List.range dim).filter (fun k => decide (k ∉ na))).getD j 0) 0 = xs[k].getD j 0) →
        (∀ j, j < na.length → na.getD j 0 < dim → p.getD (na.getD j 0) 0 = c.getD j 0) → ys[k] = f p := by
  unfold partialEval
  cases multi with
  | true =>
    obtain ⟨ys, h1, h2, h3⟩ := partialFun_one f dim na hnd c hc xs hx hxl
    rw [if_pos rfl, h1]
    simp only [bind, Except.bind]
    rw [if_pos h2]
    exact ⟨ys, rfl, h2, h3⟩
  | false =>
    rw [if_neg (by simp)]
    have hex : ∀ a, ∃ v, a ∈ xs → partialFun f dim na [c] [a] = .ok [v] ∧ ∀ p : List K, p.length = dim →
        (∀ j, j < ((List.range dim).filter (fun k => decide (k ∉ na))).length →
          p.getD (((List.range dim).filter (fun k => decide (k ∉ na))).getD j 0) 0 = a.getD j 0) →
        (∀ j, j < na.length → na.getD j 0 < dim → p.getD (na.getD j 0) 0 = c.getD j 0) → v = f p := by
      intro a
      by_cases ha : a ∈ xs
      · obtain ⟨ys, h1, h2, h3⟩ := partialFun_one f dim na hnd c hc [a] (by simp) (by simpa using hxl a ha)
        obtain ⟨v, rfl⟩ := List.length_eq_one_iff.1 (by simpa using h2)
        exact ⟨v, fun _ => ⟨h1, fun p p1 p2 p3 => h3 0 (by simp) (by simp) p p1 p2 p3⟩⟩
      · exact ⟨f [], fun h => absurd h ha⟩
    choose v hv using hex
    refine ⟨xs.map v, ?_, by simp, ?_⟩
    · apply (mapM_ok_iff _ _ _).2
      rw [List.forall₂_map_right_iff, List.forall₂_same]
      intro a ha
      simp [(hv a ha).1, bind, Except.bind]
    · intro k hk hk' p p1 p2 p3
      rw [List.getElem_map]
      exact (hv _ (List.getElem_mem hk)).2 p p1 p2 p3

/-- With several points for the fixed variables the function returned by `partial_evaluation` cannot be evaluated. -/
theorem partialEval_several [Zero K] (f : List K → R) (dim : Nat) (na : List Nat) (cs : List (List K)) (hcs : 2 ≤ cs.length)
    (multi : Bool) (xs : List (List K)) (hx : xs ≠ []) : partialEval f dim na multi cs xs = .error .valueError := by
  have hcs0 : cs ≠ [] := by rintro rfl; simp at hcs
  have hgen : ∀ xs : List (List K), xs ≠ [] → ∃ ys, partialFun f dim na cs xs = .ok ys ∧ ys.length = xs.length * cs.length := by
    intro xs hx
    unfold partialFun
    rw [Grids.array_eq (Grids.FullGrid.mk [xs, cs]) (by simp) (by simpa using ⟨hx, hcs0⟩)]
    simp only [bind, Except.bind]
    exact ⟨_, rfl, by simp [Grids.FullGrid.shape]⟩
  unfold partialEval
  have hpos := List.length_pos_iff.2 hx
  cases multi with
  | true =>
    obtain ⟨ys, h1, h2⟩ := hgen xs hx
    rw [if_pos rfl, h1]
    simp only [bind, Except.bind]
    rw [if_neg (by rw [h2]; intro h; nlinarith)]
  | false =>
    rw [if_neg (by simp)]
    cases xs with
    | nil => exact absurd rfl hx
    | cons a xs =>
      obtain ⟨ys, h1, h2⟩ := hgen [a] (by simp)
      rw [List.mapM_cons, h1]
      have : ∀ v, ys ≠ [v] := by rintro v rfl; simp at h2; omega
      match ys, this with
      | [], _ => rfl
      | [v], h => exact absurd rfl (h v)
      | _ :: _ :: _, _ => rfl

/-! ### `eval_on_tensor_grid` -/

/-- C114. `eval_on_tensor_grid(G)`: the entry of subscripts `idx` (then `i` for the outputs) is the value of the function at the point
of the grid of subscripts `idx`. -/
theorem evalOnFullGrid_spec (ev : List (List K) → Arr R) (f : List K → List Nat → R) (out : List Nat) (G : Grids.FullGrid K)
    (h0 : G.grids ≠ []) (h1 : ∀ g ∈ G.grids, g ≠ [])
    (hs : ∀ x, (ev x).shape = x.length :: out)
    (hv : ∀ (x : List (List K)) k (hk : k < x.length) i, InBox out i → (ev x).get (k :: i) = f x[k] i) :
    ∃ T, evalOnFullGrid ev out false G = .ok T ∧ T.shape = G.shape ++ out ∧
      ∀ idx i, InBox G.shape idx → InBox out i →
        T.get (idx ++ i) = f (List.zipWith (fun (g : List (List K)) j => g.getD j []) G.grids idx).flatten i := by
  unfold evalOnFullGrid
  rw [Grids.array_eq G h0 h1]
  simp only [bind, Except.bind, Bool.false_eq_true, if_false]
  refine ⟨_, rfl, rfl, ?_⟩
  intro idx i hidx hi
  generalize hx : (List.range G.shape.prod).map (fun k => Grids.gridPoint G.grids (unravelF G.shape k)) = x
  have hxl : x.length = G.shape.prod := by rw [← hx]; simp
  show (ev x).get (unravelF (ev x).shape (ravelF (G.shape ++ out) (idx ++ i))) = _
  have hlt : ravelF G.shape idx < G.shape.prod := ravelF_lt hidx
  have hr : ravelF (G.shape ++ out) (idx ++ i) = ravelF (x.length :: out) (ravelF G.shape idx :: i) := by
    rw [ravelF_append hidx.length_eq, hxl]
    simp [ravelF]
  rw [hs, hr, unravelF_ravelF (List.Forall₂.cons (by rw [hxl]; exact hlt) hi), hv x _ (by rw [hxl]; exact hlt) i hi]
  congr 1
  subst hx
  rw [List.getElem_map, List.getElem_range, unravelF_ravelF hidx]
  rfl

/-- C114. The same for functions with a single value (`output_shape = 1`). -/
theorem evalOnFullGrid_scalar (ev : List (List K) → Arr R) (f : List K → R) (G : Grids.FullGrid K)
    (h0 : G.grids ≠ []) (h1 : ∀ g ∈ G.grids, g ≠ [])
    (hs : ∀ x, (ev x).shape = [x.length] ∨ (ev x).shape = [x.length, 1])
    (hv : ∀ (x : List (List K)) k (hk : k < x.length), (ev x).get (if (ev x).shape.length = 1 then [k] else [k, 0]) = f x[k]) :
    ∃ T, evalOnFullGrid ev [1] true G = .ok T ∧ T.shape = G.shape ∧
      ∀ idx, InBox G.shape idx →
        T.get idx = f (List.zipWith (fun (g : List (List K)) j => g.getD j []) G.grids idx).flatten := by
  unfold evalOnFullGrid
  rw [Grids.array_eq G h0 h1]
  simp only [bind, Except.bind, if_true]
  refine ⟨_, rfl, rfl, ?_⟩
  intro idx hidx
  generalize hx : (List.range G.shape.prod).map (fun k => Grids.gridPoint G.grids (unravelF G.shape k)) = x
  have hxl : x.length = G.shape.prod := by rw [← hx]; simp
  show (ev x).get (unravelF (ev x).shape (ravelF G.shape idx)) = _
  have hlt : ravelF G.shape idx < x.length := by rw [hxl]; exact ravelF_lt hidx
  have hu : unravelF (ev x).shape (ravelF G.shape idx) = if (ev x).shape.length = 1 then [ravelF G.shape idx] else [ravelF G.shape idx, 0] := by
    rcases hs x with h | h
    · rw [h, if_pos (by simp)]
      have := unravelF_ravelF (shape := [x.length]) (idx := [ravelF G.shape idx]) (.cons hlt .nil)
      simpa [ravelF] using this
    · rw [h, if_neg (by simp)]
      have := unravelF_pair (a := x.length) (b := 1) hlt (j := 0) (by omega)
      simpa using this
  rw [hu, hv x _ hlt]
  subst hx
  rw [List.getElem_map, List.getElem_range, unravelF_ravelF hidx]
  rfl

/-! ### `tensorize` -/

/-- C115. The tensorized function has the values of the function: at a point `x`, and at a code `z` for the point `inverse_map(z)`. -/
theorem tensorize_spec [Field K] [LinearOrder K] [IsStrictOrderedRing K] [FloorRing K] (t : Tensorizer.Tz K) (f : List K → R) (hb : 0 < t.b)
    (hd : 0 < t.d) (ho : t.ordering = 1 ∨ t.ordering = 2) :
    (∀ x : List K, x.length = t.dim →
      (∀ k < t.dim, 0 ≤ t.cdfX k (x.getD k 0) ∧ t.cdfX k (x.getD k 0) ≤ 1 ∧ t.icdfX k (t.cdfX k (x.getD k 0)) = x.getD k 0) →
      (∀ k < t.dim, ∀ y, 0 ≤ y → y ≤ 1 → t.cdfY k (t.icdfY k y) = y) →
      tensorizedEval t (tensorize t f) x = .ok (f x)) ∧
    (∀ z x : List K, 0 < t.dim → z.length = (t.d + 1) * t.dim → Tensorizer.inverseMap t z = .ok x →
      tensorizedEval t (tensorize t f) z = .ok (f x)) := by
  constructor
  · intro x hl hx hY
    obtain ⟨z, h1, h2⟩ := Tensorizer.inverseMap_map t hb hd ho x hl hx hY
    unfold tensorizedEval tensorize
    rw [if_pos hl, h1]
    simp [bind, Except.bind, h2]
  · intro z x h0 hz h
    unfold tensorizedEval tensorize
    rw [if_neg (by rw [hz]; intro h; nlinarith)]
    simp [bind, Except.bind, h]

/-! ### `CompositionalModelFunction` -/

/-- The values of the composition: the variables at the leaves, the function of the node applied to the values of its children, in order,
elsewhere. -/
structure IsComp (T : DTree) (F : Nat → List α → α) (x : Nat → α) (Z : Nat → α) : Prop where
  leaf : ∀ d c, T.dim2ind[d]? = some c → Z c = x d
  node : ∀ i, IsNode T i → i ∉ T.dim2ind → Z i = F i ((T.children i).map Z)

theorem scatter_leaf (l : List Nat) (hnd : l.Nodup) (x : Nat → α) (z : Nat → α) : ∀ d c, l[d]? = some c →
    (List.range l.length).foldl (fun z nu => fun i => if i = l.getD nu 0 then x nu else z i) z c = x d := by
  suffices h : ∀ n, n ≤ l.length → ∀ d c, d < n → l[d]? = some c →
      (List.range n).foldl (fun z nu => fun i => if i = l.getD nu 0 then x nu else z i) z c = x d from
    fun d c hc => h l.length le_rfl d c (List.getElem?_eq_some_iff.1 hc).1 hc
  intro n
  induction n with
  | zero => intro _ d c hd; omega
  | succ n ih =>
    intro hn d c hd hc
    obtain ⟨hdl, hc'⟩ := List.getElem?_eq_some_iff.1 hc
    rw [List.range_succ, List.foldl_append]
    simp only [List.foldl_cons, List.foldl_nil]
    rw [List.getD_eq_getElem _ _ (by omega)]
    by_cases h : d = n
    · subst h; rw [if_pos hc'.symm]
    · rw [if_neg (by rw [← hc']; intro e; exact h ((List.Nodup.getElem_inj_iff hnd).1 e))]
      exact ih (by omega) d c (by omega) hc

/-- C116. A compositional function is the composition of the functions of the nodes along the tree, for every valid tree. -/
theorem compEval_spec (T : DTree) (hV : Valid T) (F : Nat → List α → α) (dflt : α) (x : Nat → α) :
    ∃ (r : Nat) (Z : Nat → α), IsRoot T r ∧ IsComp T F x Z ∧ compEval T F dflt x = .ok (Z r) ∧
      ∀ Z', IsComp T F x Z' → ∀ i, IsNode T i → Z' i = Z i := by
  obtain ⟨lev, hlv, hlev⟩ := level_ok hV
  obtain ⟨r, hr, hroot⟩ := root_ok hV
  set z0 := (List.range T.dim2ind.length).foldl (fun z nu => fun i => if i = T.dim2ind.getD nu 0 then x nu else z i) (fun _ => dflt) with hz0
  have hleaf := scatter_leaf T.dim2ind hV.nodup x (fun _ => dflt)
  obtain ⟨Z, h1, h2, h3⟩ := bottomUp hV hlev (compNode T F) (fun i => i ∉ T.dim2ind)
    (fun l => (T.nodesWithLevel lev l).filter (fun i => !T.dim2ind.contains i))
    (by
      intro l i
      rw [List.mem_filter, mem_nodesWithLevel]
      simp [and_assoc])
    (fun l => (nodup_nodes.filter _).filter _)
    (fun z Pr => (∀ d c, T.dim2ind[d]? = some c → z c = x d) ∧
      ∀ i, IsNode T i → i ∉ T.dim2ind → Pr i → (∀ c, Edge T i c → c ∉ T.dim2ind → Pr c) ∧ z i = F i ((T.children i).map z))
    (by
      intro z Pr i hI hi hil hni hch hpar
      refine ⟨_, rfl, ?_, ?_⟩
      · intro d c hc
        have : c ≠ i := by rintro rfl; exact hil (List.mem_of_getElem? hc)
        rw [if_neg this]
        exact hI.1 d c hc
      · intro j hj hjl hPj
        have hcong : ∀ j, IsNode T j → ¬ Edge T j i →
            (T.children j).map (fun k => if k = i then F i ((T.children i).map z) else z k) = (T.children j).map z := by
          intro j hj hji
          apply List.map_congr_left
          intro c hc
          rw [if_neg]
          rintro rfl
          exact hji ((mem_children j c hj).1 hc)
        by_cases hji : j = i
        · subst hji
          refine ⟨fun c hc hcl => .inl (hch c hc hcl), ?_⟩
          rw [if_pos rfl, hcong j hj (fun h => TreeBased.edge_ne hV h rfl)]
        · have hPj' : Pr j := hPj.resolve_right hji
          refine ⟨fun c hc hcl => .inl ((hI.2 j hj hjl hPj').1 c hc hcl), ?_⟩
          rw [if_neg hji, hcong j hj (fun h => hpar j h hPj')]
          exact (hI.2 j hj hjl hPj').2)
    (T.maxLevel lev + 1) z0
    (by
      refine ⟨hleaf, ?_⟩
      rintro i hi - ⟨-, -, h⟩
      obtain ⟨k, hk⟩ := exists_level hV hi
      have := lev_le_maxLevel (lev := lev) hi
      omega)
  have hcomp : IsComp T F x Z := ⟨h2, fun i hi hl => (h3 i hi hl ⟨hi, hl⟩).2⟩
  refine ⟨r, Z, hroot, hcomp, ?_, ?_⟩
  · unfold compEval
    rw [hlv]
    simp only [bind, Except.bind]
    rw [← hz0, h1]
    simp [hr]
  · intro Z' hZ'
    apply TreeBased.node_induction hV
    intro i hi ih
    by_cases hl : i ∈ T.dim2ind
    · obtain ⟨d, hd⟩ := List.getElem?_of_mem hl
      rw [hZ'.leaf d i hd, hcomp.leaf d i hd]
    · rw [hZ'.node i hi hl, hcomp.node i hi hl]
      congr 1
      apply List.map_congr_left
      intro c hc
      exact ih c ((mem_children i c hi).1 hc)

/-- The hypotheses are met: `g(h(x0, x1), x2)` with `g = -`, `h = *`. -/
example : Valid (ofParents [0, 0, 1, 1, 0] [3, 4, 5]) ∧
    compEval (ofParents [0, 0, 1, 1, 0] [3, 4, 5]) (fun i l => if i = 1 then l.getD 0 0 - l.getD 1 0 else l.getD 0 0 * l.getD 1 0) 0
      (fun d => ([2, 3, 5] : List Int).getD d 0) = .ok 1 :=
  ⟨ofParents_valid _ _ (by decide) (by decide) (by decide) (by decide) (by decide), by decide +kernel⟩

/-- The hypotheses of C113 and C114 are met: `f(x0, x1, x2)` with `x1 = 7`, on two points; a grid of six points. -/
example : partialEval (fun x : List Int => x) 3 [1] true [[7]] [[1, 2], [3, 4]] = .ok [[1, 7, 2], [3, 7, 4]] := by decide +kernel

example : (do let T ← evalOnFullGrid (K := Int) (fun x => (⟨[x.length], fun i => (x.getD (i.getD 0 0) []).sum⟩ : Arr Int)) [1] true
                (Grids.ofColumns [[1, 2, 3], [10, 20]])
              pure (T.shape, T.get [2, 1]) : Py _) = .ok ([3, 2], 23) := by decide +kernel

end Verif.Functions
