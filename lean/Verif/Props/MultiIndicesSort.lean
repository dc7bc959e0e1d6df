import Verif.Props.MultiIndicesSets
import Mathlib.Algebra.Order.Group.Abs
import Mathlib.Algebra.Order.Group.Unbundled.Abs

/-! # Properties C13 (sort), C14 (envelope), and projections of index sets -/

namespace Verif.MultiIndices

/-! ## Specification of the orders -/

/-- Lexicographic order by the listed columns, ascending: compare the first listed column, break ties
with the next ones. -/
def LexLE : List Nat → List Int → List Int → Prop
  | [], _, _ => True
  | k :: ks, a, b => a.getD k 0 < b.getD k 0 ∨ (a.getD k 0 = b.getD k 0 ∧ LexLE ks a b)

/-- What mode 'descend' actually produces: the first column descending, the next one ascending, and so
on, alternating. -/
def AltLex : List Nat → List Int → List Int → Prop
  | [], _, _ => True
  | k :: ks, a, b => b.getD k 0 < a.getD k 0 ∨ (a.getD k 0 = b.getD k 0 ∧ AltLex ks b a)

/-- Contract of the default `np.argsort` on a key: a permutation sorted by the key. Nothing is assumed
on ties (quicksort is not stable). -/
def SortContract (qs : (List Int → Int) → List (List Int) → List (List Int)) : Prop :=
  ∀ key l, (qs key l).Perm l ∧ (qs key l).Pairwise (fun a b => key a ≤ key b)

/-! ## Stability of the merge sort -/

theorem orderedInsert_stable {α : Type} (key : α → Int) (R : α → α → Prop) (a : α) (l : List α)
    (hl : l.Pairwise (fun x y => key x < key y ∨ (key x = key y ∧ R x y))) (ha : ∀ b ∈ l, R a b) :
    (l.orderedInsert (fun x y => key x ≤ key y) a).Pairwise
      (fun x y => key x < key y ∨ (key x = key y ∧ R x y)) := by
  induction l with
  | nil => simp
  | cons b l ih =>
    rw [List.pairwise_cons] at hl
    simp only [List.orderedInsert_cons]
    split
    · rename_i hab
      rw [List.pairwise_cons]
      refine ⟨?_, List.pairwise_cons.2 hl⟩
      intro c hc
      rcases lt_or_eq_of_le hab with h1 | h1
      · rcases List.mem_cons.1 hc with rfl | hc'
        · exact .inl h1
        · rcases hl.1 c hc' with h2 | h2
          · exact .inl (by omega)
          · exact .inl (by omega)
      · rcases List.mem_cons.1 hc with rfl | hc'
        · exact .inr ⟨h1, ha _ (by simp)⟩
        · rcases hl.1 c hc' with h2 | h2
          · exact .inl (by omega)
          · exact .inr ⟨by omega, ha c hc⟩
    · rename_i hab
      rw [List.pairwise_cons]
      refine ⟨?_, ih hl.2 (fun c hc => ha c (by simp [hc]))⟩
      intro c hc
      rw [List.mem_orderedInsert] at hc
      rcases hc with rfl | hc
      · exact .inl (by omega)
      · exact hl.1 c hc

theorem insertionSort_stable {α : Type} (key : α → Int) (R : α → α → Prop) (l : List α)
    (hl : l.Pairwise R) :
    (l.insertionSort (fun x y => key x ≤ key y)).Pairwise
      (fun x y => key x < key y ∨ (key x = key y ∧ R x y)) := by
  induction l with
  | nil => simp
  | cons a l ih =>
    rw [List.pairwise_cons] at hl
    rw [List.insertionSort_cons]
    refine orderedInsert_stable key R a _ (ih hl.2) ?_
    intro b hb
    exact hl.1 b ((List.perm_insertionSort _ l).mem_iff.1 hb)

/-! ## C13 -/

/-- One round of the loop of `sort` (lines 295-302), for the column list `columns`. -/
def sortRound (qs : (List Int → Int) → List (List Int) → List (List Int)) (columns : List Nat)
    (descend : Bool) (k : Nat) (rows : List (List Int)) : List (List Int) :=
  let key := fun r : List Int => r.getD k 0
  let sorted := if columns.getLast? = some k then qs key rows
    else rows.insertionSort (fun a b => key a ≤ key b)
  if descend then sorted.reverse else sorted

theorem sort_eq_foldr (qs : (List Int → Int) → List (List Int) → List (List Int)) (I : MI)
    (columns : List Nat) (descend : Bool) :
    (sort qs I (some columns) descend).rows = columns.foldr (sortRound qs columns descend) I.rows := by
  unfold sort
  simp only [Option.getD_some]
  rw [List.foldl_reverse]
  rfl

theorem sortRound_perm {qs : (List Int → Int) → List (List Int) → List (List Int)}
    (hqs : SortContract qs) (columns : List Nat) (descend : Bool) (k : Nat) (rows : List (List Int)) :
    (sortRound qs columns descend k rows).Perm rows := by
  unfold sortRound
  dsimp only
  have h1 : (if columns.getLast? = some k then qs (fun r => r.getD k 0) rows
      else rows.insertionSort (fun a b => a.getD k 0 ≤ b.getD k 0)).Perm rows := by
    split
    · exact (hqs _ _).1
    · exact List.perm_insertionSort _ _
  split
  · exact (List.reverse_perm _).trans h1
  · exact h1

theorem foldr_sortRound (qs : (List Int → Int) → List (List Int) → List (List Int))
    (hqs : SortContract qs) (columns pre suf : List Nat) (hc : columns = pre ++ suf)
    (hnd : columns.Nodup) (rows : List (List Int)) :
    (suf.foldr (sortRound qs columns false) rows).Pairwise (LexLE suf) ∧
    (suf.foldr (sortRound qs columns true) rows).Pairwise (AltLex suf) := by
  induction suf generalizing pre with
  | nil => exact ⟨List.pairwise_of_forall (fun _ _ => trivial), List.pairwise_of_forall (fun _ _ => trivial)⟩
  | cons k suf ih =>
    obtain ⟨h1, h2⟩ := ih (pre ++ [k]) (by rw [hc]; simp)
    simp only [List.foldr_cons]
    by_cases hs : suf = []
    · subst hs
      have hl : columns.getLast? = some k := by rw [hc]; simp
      simp only [List.foldr_nil, sortRound, hl, if_true, Bool.false_eq_true, if_false]
      have hq := (hqs (fun r => r.getD k 0) rows).2
      refine ⟨hq.imp ?_, ?_⟩
      · intro a b hab
        exact (lt_or_eq_of_le hab).imp_right (fun h => ⟨h, trivial⟩)
      · rw [List.pairwise_reverse]
        refine hq.imp ?_
        intro a b hab
        exact (lt_or_eq_of_le hab).imp_right (fun h => ⟨h.symm, trivial⟩)
    · have hl : columns.getLast? ≠ some k := by
        intro he
        rw [hc, List.getLast?_append_of_ne_nil _ (by simp), List.getLast?_cons_of_ne_nil hs] at he
        have hk : k ∈ suf := List.mem_of_getLast? he
        rw [hc, List.nodup_append] at hnd
        exact (List.nodup_cons.1 hnd.2.1).1 hk
      unfold sortRound
      simp only [hl, if_false, Bool.false_eq_true, if_true]
      refine ⟨?_, ?_⟩
      · exact insertionSort_stable (fun r => r.getD k 0) (LexLE suf) _ h1
      · rw [List.pairwise_reverse]
        have := insertionSort_stable (fun r => r.getD k 0) (AltLex suf) _ h2
        refine this.imp ?_
        rintro a b (h | ⟨h, h'⟩)
        · exact .inl h
        · exact .inr ⟨h.symm, h'⟩

/-- C13. `sort(columns, 'ascend')` returns a permutation of the rows in lexicographic order of the
listed columns, whatever the default argsort does with ties. -/
theorem sort_ascend_spec (qs : (List Int → Int) → List (List Int) → List (List Int))
    (hqs : SortContract qs) (I : MI) (columns : List Nat) (hnd : columns.Nodup) :
    (sort qs I (some columns) false).rows.Perm I.rows ∧
    (sort qs I (some columns) false).rows.Pairwise (LexLE columns) := by
  rw [sort_eq_foldr]
  refine ⟨?_, (foldr_sortRound qs hqs columns [] columns rfl hnd I.rows).1⟩
  have : ∀ suf : List Nat, (suf.foldr (sortRound qs columns false) I.rows).Perm I.rows := by
    intro suf
    induction suf with
    | nil => exact .refl _
    | cons k suf ih => exact (sortRound_perm hqs _ _ _ _).trans ih
  exact this columns

/-- The default column list is last to first. -/
theorem sort_default_columns (qs : (List Int → Int) → List (List Int) → List (List Int)) (I : MI)
    (descend : Bool) :
    sort qs I none descend = sort qs I (some (List.range I.dim).reverse) descend := rfl

/-- C13 (partial). `sort(columns, 'descend')` returns a permutation of the rows that is descending for
the first listed column; for the next columns the direction alternates at each tie level (so with one
column the result is descending, with more it is not: see `sort_descend_wrong`). -/
theorem sort_descend_partial (qs : (List Int → Int) → List (List Int) → List (List Int))
    (hqs : SortContract qs) (I : MI) (columns : List Nat) (hnd : columns.Nodup) :
    (sort qs I (some columns) true).rows.Perm I.rows ∧
    (sort qs I (some columns) true).rows.Pairwise (AltLex columns) := by
  rw [sort_eq_foldr]
  refine ⟨?_, (foldr_sortRound qs hqs columns [] columns rfl hnd I.rows).2⟩
  have : ∀ suf : List Nat, (suf.foldr (sortRound qs columns true) I.rows).Perm I.rows := by
    intro suf
    induction suf with
    | nil => exact .refl _
    | cons k suf ih => exact (sortRound_perm hqs _ _ _ _).trans ih
  exact this columns

/-- C13. With a single column, 'descend' is right. -/
theorem sort_descend_one_column (qs : (List Int → Int) → List (List Int) → List (List Int))
    (hqs : SortContract qs) (I : MI) (k : Nat) :
    (sort qs I (some [k]) true).rows.Pairwise (fun a b => b.getD k 0 ≤ a.getD k 0) := by
  refine (sort_descend_partial qs hqs I [k] (by simp)).2.imp ?_
  rintro a b (h | ⟨h, _⟩) <;> omega

/-- A stable sort meets the contract. -/
theorem insertionSort_contract :
    SortContract (fun key l => l.insertionSort (fun a b => key a ≤ key b)) := by
  intro key l
  refine ⟨List.perm_insertionSort _ _, ?_⟩
  have := insertionSort_stable key (fun _ _ => True) l (List.pairwise_of_forall (fun _ _ => trivial))
  exact this.imp (by rintro a b (h | h) <;> omega)

/-- C13 finding: sorting the rows (0,0), (0,1) by columns (0, 1) in mode 'descend' leaves (0,0) before
(0,1): the second column is ascending. -/
theorem sort_descend_wrong :
    ∃ (I : MI) (columns : List Nat), columns.Nodup ∧
      ¬ (sort (fun key l => l.insertionSort (fun a b => key a ≤ key b)) I (some columns) true).rows.Pairwise
        (fun a b => LexLE columns b a) := by
  refine ⟨⟨2, [[0, 0], [0, 1]]⟩, [0, 1], by decide, ?_⟩
  have e : (sort (fun key l => l.insertionSort (fun a b => key a ≤ key b)) ⟨2, [[0, 0], [0, 1]]⟩
      (some [0, 1]) true).rows = [[0, 0], [0, 1]] := by decide
  rw [e]
  simp [LexLE]

example : (sort (fun key l => l.insertionSort (fun a b => key a ≤ key b))
    ⟨2, [[1, 1], [0, 2], [1, 0]]⟩ (some [0, 1]) false).rows = [[0, 2], [1, 0], [1, 1]] := by decide

/-! ## C14: envelope -/

theorem foldl_max_ge {R : Type} [LinearOrder R] (l : List R) (x : R) :
    x ≤ l.foldl max x ∧ ∀ y ∈ l, y ≤ l.foldl max x := by
  induction l generalizing x with
  | nil => simp
  | cons a l ih =>
    simp only [List.foldl_cons, List.forall_mem_cons]
    obtain ⟨h1, h2⟩ := ih (max x a)
    exact ⟨le_trans (le_max_left _ _) h1, le_trans (le_max_right _ _) h1, h2⟩

theorem foldl_max_le {R : Type} [LinearOrder R] (l : List R) (x b : R) (hx : x ≤ b)
    (hl : ∀ y ∈ l, y ≤ b) : l.foldl max x ≤ b := by
  induction l generalizing x with
  | nil => simpa
  | cons a l ih =>
    simp only [List.forall_mem_cons] at hl
    exact ih (max x a) (max_le hx hl.1) hl.2

theorem zipWith_all_iff {a b : List Int} (h : a.length = b.length) :
    (List.zipWith (fun x y => decide (y ≤ x)) a b).all id = true ↔ RowLE b a := by
  unfold RowLE
  induction a generalizing b with
  | nil => cases b with
    | nil => simp
    | cons => simp at h
  | cons x a ih =>
    cases b with
    | nil => simp at h
    | cons y b =>
      simp only [List.length_cons, Nat.add_right_cancel_iff] at h
      simp only [List.zipWith_cons_cons, List.all_cons, id_eq, Bool.and_eq_true, decide_eq_true_eq,
        List.forall₂_cons, ih h]

variable {R : Type} [AddCommGroup R] [LinearOrder R]

/-- C14. `envelope(u)` dominates `|u|`, decreases along the componentwise order of the multi-indices,
and is the smallest sequence with these two properties. (Values in any linearly ordered group.) -/
theorem envelope_spec (I : MI) (hI : I.WF) (u : List R) (hu : u.length = I.rows.length) :
    ∃ env, envelope (fun x : R => |x|) I u = .ok env ∧ env.length = I.rows.length ∧
      (∀ i < I.rows.length, |u.getD i 0| ≤ env.getD i 0) ∧
      (∀ i < I.rows.length, ∀ j < I.rows.length,
        RowLE (I.rows.getD i []) (I.rows.getD j []) → env.getD j 0 ≤ env.getD i 0) ∧
      (∀ w : Nat → R, (∀ i < I.rows.length, |u.getD i 0| ≤ w i) →
        (∀ i < I.rows.length, ∀ j < I.rows.length,
          RowLE (I.rows.getD i []) (I.rows.getD j []) → w j ≤ w i) →
        ∀ i < I.rows.length, env.getD i 0 ≤ w i) := by
  unfold envelope
  rw [if_neg (by simp [MI.cardinal, hu])]
  refine ⟨_, rfl, by simp [MI.cardinal], ?_⟩
  -- value at i
  have hlen : ∀ i < I.rows.length, (I.rows.getD i []).length = I.dim := by
    intro i hi; rw [List.getD_eq_getElem _ _ hi]; exact hI _ (List.getElem_mem _)
  have hval : ∀ i < I.rows.length, ∃ x xs,
      (((List.range I.cardinal).filter fun j =>
        (List.zipWith (fun a b => decide (b ≤ a)) (I.rows.getD j []) (I.rows.getD i [])).all id).map
          fun j => |u.getD j 0|) = x :: xs ∧
      (∀ y, y ∈ x :: xs ↔ ∃ j < I.rows.length, RowLE (I.rows.getD i []) (I.rows.getD j []) ∧
        y = |u.getD j 0|) := by
    intro i hi
    have hmem : ∀ y, y ∈ (((List.range I.cardinal).filter fun j =>
        (List.zipWith (fun a b => decide (b ≤ a)) (I.rows.getD j []) (I.rows.getD i [])).all id).map
          fun j => |u.getD j 0|) ↔ ∃ j < I.rows.length, RowLE (I.rows.getD i []) (I.rows.getD j []) ∧
        y = |u.getD j 0| := by
      intro y
      simp only [List.mem_map, List.mem_filter, List.mem_range]
      constructor
      · rintro ⟨j, ⟨hj, h⟩, rfl⟩
        exact ⟨j, hj, (zipWith_all_iff (by rw [hlen i hi, hlen j hj])).1 h, rfl⟩
      · rintro ⟨j, hj, h, rfl⟩
        exact ⟨j, ⟨hj, (zipWith_all_iff (by rw [hlen i hi, hlen j hj])).2 h⟩, rfl⟩
    have hne : (((List.range I.cardinal).filter fun j =>
        (List.zipWith (fun a b => decide (b ≤ a)) (I.rows.getD j []) (I.rows.getD i [])).all id).map
          fun j => |u.getD j 0|) ≠ [] :=
      List.ne_nil_of_mem ((hmem _).2 ⟨i, hi, RowLE.refl _, rfl⟩)
    obtain ⟨x, xs, hx⟩ := List.exists_cons_of_ne_nil hne
    exact ⟨x, xs, hx, fun y => by rw [← hx]; exact hmem y⟩
  set env := (List.range I.cardinal).map fun i =>
    let sup := (List.range I.cardinal).filter fun j =>
      (List.zipWith (fun a b => decide (b ≤ a)) (I.rows.getD j []) (I.rows.getD i [])).all id
    match sup.map fun j => |u.getD j 0| with
    | [] => 0
    | x :: xs => xs.foldl max x with henv
  have hget : ∀ i < I.rows.length, ∃ x xs, env.getD i 0 = xs.foldl max x ∧
      (∀ y, y ∈ x :: xs ↔ ∃ j < I.rows.length, RowLE (I.rows.getD i []) (I.rows.getD j []) ∧
        y = |u.getD j 0|) := by
    intro i hi
    obtain ⟨x, xs, h1, h2⟩ := hval i hi
    refine ⟨x, xs, ?_, h2⟩
    rw [henv, List.getD_eq_getElem _ _ (by simpa [MI.cardinal] using hi)]
    simp only [List.getElem_map, List.getElem_range, h1]
  have hle : ∀ i < I.rows.length, ∀ j < I.rows.length,
      RowLE (I.rows.getD i []) (I.rows.getD j []) → |u.getD j 0| ≤ env.getD i 0 := by
    intro i hi j hj hij
    obtain ⟨x, xs, h1, h2⟩ := hget i hi
    rw [h1]
    have := (h2 _).2 ⟨j, hj, hij, rfl⟩
    have hm := foldl_max_ge xs x
    rcases List.mem_cons.1 this with h | h
    · rw [h]; exact hm.1
    · exact hm.2 _ h
  have hleast : ∀ i < I.rows.length, ∀ b, (∀ j < I.rows.length,
      RowLE (I.rows.getD i []) (I.rows.getD j []) → |u.getD j 0| ≤ b) → env.getD i 0 ≤ b := by
    intro i hi b hb
    obtain ⟨x, xs, h1, h2⟩ := hget i hi
    rw [h1]
    have hall : ∀ y ∈ x :: xs, y ≤ b := by
      intro y hy
      obtain ⟨j, hj, hij, rfl⟩ := (h2 y).1 hy
      exact hb j hj hij
    exact foldl_max_le xs x b (hall x (by simp)) (fun y hy => hall y (by simp [hy]))
  refine ⟨fun i hi => hle i hi i hi (RowLE.refl _), ?_, ?_⟩
  · intro i hi j hj hij
    exact hleast j hj _ (fun l hl hjl => hle i hi l hl (hij.trans hjl))
  · intro w hw1 hw2 i hi
    exact hleast i hi _ (fun j hj hij => le_trans (hw1 j hj) (hw2 i hi j hj hij))

example : envelope (fun x : Int => |x|) ⟨1, [[0], [1], [2]]⟩ [1, -5, 2] = .ok [5, 5, 2] := by decide

end Verif.MultiIndices
