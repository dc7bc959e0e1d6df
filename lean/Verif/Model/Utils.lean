import Verif.Np
import Mathlib.Data.Nat.Log
import Mathlib.Data.List.Sort

/-! # Model of `tensap/tools/utils.py` -/

namespace Verif.Utils

/-- Adjacent-equality selection `aux[:-1][aux[1:] == aux[:-1]]`.
Models /repo/tensap/tools/utils.py lines 28-29. -/
def adjEq : List Int → List Int
  | x :: y :: l => if x = y then x :: adjEq (y :: l) else adjEq (y :: l)
  | _ => []

/-- `fast_intersect(a, b)`. Models /repo/tensap/tools/utils.py lines 25-29
(`aux.sort()` is an insertion sort here: the sorted array does not depend on the algorithm). -/
def fastIntersect (a b : List Int) : List Int :=
  adjEq ((a ++ b).insertionSort (· ≤ ·))

/-- `fast_setdiff(a, b)`. Models /repo/tensap/tools/utils.py lines 32-33
(`np.isin` by its contract: membership; its flag `assume_unique` only licenses a faster algorithm
for duplicate-free arguments). -/
def fastSetdiff (a b : List Int) : List Int := a.filter (fun x => !(b.contains x))

/-- Default digit count `ceil(log(max(i)+1)/log(b))` in exact arithmetic, for `b ≥ 2`.
Models /repo/tensap/tools/utils.py lines 57-58 (simplification: the code evaluates the logarithms in
floating point and may round up, e.g. for 124 in base 5; negative integers are not handled here,
they are refused by `unravel_index` for every digit count). -/
def defaultDigits (i : List Int) (b : Nat) : Nat :=
  Nat.clog b (i.foldr (fun x m => max x.toNat m) 0 + 1)

/-- `integer2baseb(i, b, d)`. Models /repo/tensap/tools/utils.py lines 36-61. -/
def integer2baseb (i : List Int) (b : Nat) (d : Option Nat := none) : Py (List (List Nat)) :=
  let d := d.getD (defaultDigits i b)
  i.mapM (fun k => (unravelIndexF (List.replicate d b) k).map List.reverse)

/-- `baseb2integer(I, b)` on rows of length `d`. Models /repo/tensap/tools/utils.py lines 64-86. -/
def baseb2integer (I0 : List (List Int)) (b : Nat) : Py (List Nat) :=
  I0.mapM (fun r => ravelMultiIndexF (List.replicate r.length b) r.reverse)

/-! ## Lemmas -/

theorem mem_adjEq {l : List Int} (h : l.Pairwise (· ≤ ·)) (x : Int) :
    x ∈ adjEq l ↔ 2 ≤ l.count x := by
  fun_induction adjEq l with
  | case1 x' l ih =>
    have h1 := List.pairwise_cons.1 h
    rw [List.mem_cons, ih h1.2]
    by_cases hx : x = x'
    · subst hx; simp
    · simp [hx, List.count_cons_of_ne (Ne.symm hx)]
  | case2 x' y l hne ih =>
    have h1 := List.pairwise_cons.1 h
    rw [ih h1.2]
    by_cases hx : x = x'
    · subst hx
      have hlt : ∀ z ∈ y :: l, x < z := by
        have h2 := List.pairwise_cons.1 h1.2
        intro z hz
        have hxy : x < y := lt_of_le_of_ne (h1.1 y (by simp)) hne
        rcases List.mem_cons.1 hz with rfl | hz
        · exact hxy
        · exact lt_of_lt_of_le hxy (h2.1 z hz)
      have h0 : (y :: l).count x = 0 := by
        rw [List.count_eq_zero]; intro hm; exact lt_irrefl _ (hlt x hm)
      rw [List.count_cons_self, h0]; omega
    · rw [List.count_cons_of_ne (Ne.symm hx)]
  | case3 l hl =>
    match l, hl with
    | [], _ => simp
    | [a], _ =>
      have := List.count_le_length (a := x) (l := [a])
      simp at this ⊢; omega
    | a :: b :: l, hl => exact absurd rfl (hl a b l)

theorem adjEq_sublist (l : List Int) : (adjEq l).Sublist l := by
  fun_induction adjEq l with
  | case1 x l ih => exact ih.cons_cons x
  | case2 x y l _ ih => exact ih.cons x
  | case3 l _ => exact List.nil_sublist _

theorem count_adjEq_le {l : List Int} (h : l.Pairwise (· ≤ ·)) (x : Int) :
    (adjEq l).count x ≤ l.count x - 1 := by
  fun_induction adjEq l with
  | case1 y l ih =>
    have h1 := List.pairwise_cons.1 h
    have := ih h1.2
    by_cases hx : x = y
    · subst hx; simp only [List.count_cons_self] at *; omega
    · have hne : y ≠ x := Ne.symm hx
      simp only [List.count_cons_of_ne hne] at *; omega
  | case2 y z l hne ih =>
    have h1 := List.pairwise_cons.1 h
    have := ih h1.2
    by_cases hx : x = y
    · subst hx
      rw [List.count_cons_self]; omega
    · rw [List.count_cons_of_ne (Ne.symm hx)]; exact this
  | case3 l _ => simp

theorem foldr_max_mono (l : List Int) (x : Int) (h : x ∈ l) :
    x.toNat ≤ l.foldr (fun x m => max x.toNat m) 0 := by
  induction l with
  | nil => simp at h
  | cons a l ih =>
    simp only [List.foldr_cons]
    rcases List.mem_cons.1 h with rfl | h
    · exact le_max_left _ _
    · exact le_trans (ih h) (le_max_right _ _)

end Verif.Utils
