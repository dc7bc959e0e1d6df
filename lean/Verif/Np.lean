import Mathlib.Algebra.BigOperators.Group.List.Basic
import Mathlib.Tactic.Ring

/-!
# Trusted semantics of the NumPy primitives used by tensap: storage order

Column-major ("F") and row-major ("C") linear indices. Nothing here is tensap code; it is the
specification of `np.ravel_multi_index` and `np.unravel_index`, which tensap calls.
-/

namespace Verif

/-- Python exceptions as values. -/
inductive PyErr where
  | valueError | indexError | typeError | assertionError | attributeError | notImplemented
  | nonTermination
  deriving DecidableEq, Repr

/-- A Python computation that may raise. -/
abbrev Py (α : Type) := Except PyErr α

/-- An index tuple lies in the box of a shape (NumPy's bounds check). -/
def InBox (shape idx : List Nat) : Prop := List.Forall₂ (· < ·) idx shape

instance (shape idx : List Nat) : Decidable (InBox shape idx) := by
  unfold InBox; infer_instance

/-- `np.ravel_multi_index(idx, shape, order="F")` on in-range arguments. -/
def ravelF : List Nat → List Nat → Nat
  | n :: ns, i :: is => i + n * ravelF ns is
  | _, _ => 0

/-- `np.unravel_index(k, shape, order="F")` on in-range arguments. -/
def unravelF : List Nat → Nat → List Nat
  | [], _ => []
  | n :: ns, k => (k % n) :: unravelF ns (k / n)

/-- `np.ravel_multi_index(idx, shape)` (order "C", the default) on in-range arguments. -/
def ravelC : List Nat → List Nat → Nat
  | _ :: ns, i :: is => i * ns.prod + ravelC ns is
  | _, _ => 0

/-- `np.unravel_index(k, shape)` (order "C", the default) on in-range arguments. -/
def unravelC : List Nat → Nat → List Nat
  | [], _ => []
  | _ :: ns, k => (k / ns.prod) :: unravelC ns (k % ns.prod)

/-- Checked `np.unravel_index(k, shape, order="F")`: `ValueError` out of range; an array of
indices with an empty shape is refused too ("multiple indices are not supported for 0d array"). -/
def unravelIndexF (shape : List Nat) (k : Int) : Py (List Nat) :=
  if shape = [] then .error .valueError
  else if 0 ≤ k ∧ k < (shape.prod : Nat) then .ok (unravelF shape k.toNat)
  else .error .valueError

/-- All entries nonnegative and inside the shape, same length (NumPy mode "raise"). -/
def inBoxZ (shape : List Nat) (idx : List Int) : Bool :=
  idx.length == shape.length && (List.zipWith (fun (i : Int) (n : Nat) => decide (0 ≤ i ∧ i < n)) idx shape).all id

/-- Checked `np.ravel_multi_index(idx, shape, order="F")`. -/
def ravelMultiIndexF (shape : List Nat) (idx : List Int) : Py Nat :=
  if inBoxZ shape idx then .ok (ravelF shape (idx.map Int.toNat)) else .error .valueError

theorem InBox.length_eq {shape idx : List Nat} (h : InBox shape idx) : idx.length = shape.length :=
  List.Forall₂.length_eq h

@[simp] theorem inBox_nil_left (idx : List Nat) : InBox [] idx ↔ idx = [] := by
  unfold InBox; cases idx <;> simp

@[simp] theorem inBox_cons_nil (n : Nat) (ns : List Nat) : ¬ InBox (n :: ns) [] := by
  unfold InBox; simp

@[simp] theorem inBox_cons_cons (n : Nat) (ns : List Nat) (i : Nat) (is : List Nat) :
    InBox (n :: ns) (i :: is) ↔ i < n ∧ InBox ns is := by
  unfold InBox; simp

theorem ravelF_lt {shape idx : List Nat} (h : InBox shape idx) : ravelF shape idx < shape.prod := by
  induction shape generalizing idx with
  | nil => simp [ravelF]
  | cons n ns ih =>
    cases idx with
    | nil => simp at h
    | cons i is =>
      simp only [inBox_cons_cons] at h
      have := ih h.2
      simp only [ravelF, List.prod_cons]
      calc i + n * ravelF ns is < n + n * ravelF ns is := by omega
        _ = n * (ravelF ns is + 1) := by ring
        _ ≤ n * ns.prod := Nat.mul_le_mul_left _ this

theorem unravelF_inBox {shape : List Nat} {k : Nat} (h : k < shape.prod) :
    InBox shape (unravelF shape k) := by
  induction shape generalizing k with
  | nil => simp [unravelF]
  | cons n ns ih =>
    simp only [List.prod_cons] at h
    simp only [unravelF, inBox_cons_cons]
    rcases Nat.eq_zero_or_pos n with rfl | hn
    · simp at h
    · exact ⟨Nat.mod_lt _ hn, ih (Nat.div_lt_of_lt_mul h)⟩

theorem ravelF_unravelF {shape : List Nat} {k : Nat} (h : k < shape.prod) :
    ravelF shape (unravelF shape k) = k := by
  induction shape generalizing k with
  | nil => simp at h; simp [ravelF, h]
  | cons n ns ih =>
    simp only [List.prod_cons] at h
    simp only [unravelF, ravelF]
    rcases Nat.eq_zero_or_pos n with rfl | hn
    · simp at h
    · rw [ih (Nat.div_lt_of_lt_mul h)]; exact Nat.mod_add_div k n

theorem unravelF_ravelF {shape idx : List Nat} (h : InBox shape idx) :
    unravelF shape (ravelF shape idx) = idx := by
  induction shape generalizing idx with
  | nil => simp at h; simp [unravelF, h]
  | cons n ns ih =>
    cases idx with
    | nil => simp at h
    | cons i is =>
      simp only [inBox_cons_cons] at h
      simp only [ravelF, unravelF]
      have hn : 0 < n := by omega
      rw [Nat.add_mul_mod_self_left, Nat.mod_eq_of_lt h.1, Nat.add_mul_div_left _ _ hn,
        Nat.div_eq_of_lt h.1, Nat.zero_add, ih h.2]

theorem ravelC_lt {shape idx : List Nat} (h : InBox shape idx) : ravelC shape idx < shape.prod := by
  induction shape generalizing idx with
  | nil => simp [ravelC]
  | cons n ns ih =>
    cases idx with
    | nil => simp at h
    | cons i is =>
      simp only [inBox_cons_cons] at h
      have := ih h.2
      simp only [ravelC, List.prod_cons]
      calc i * ns.prod + ravelC ns is < i * ns.prod + ns.prod := by omega
        _ = (i + 1) * ns.prod := by ring
        _ ≤ n * ns.prod := Nat.mul_le_mul_right _ h.1

theorem unravelC_inBox {shape : List Nat} {k : Nat} (h : k < shape.prod) :
    InBox shape (unravelC shape k) := by
  induction shape generalizing k with
  | nil => simp [unravelC]
  | cons n ns ih =>
    simp only [List.prod_cons] at h
    simp only [unravelC, inBox_cons_cons]
    rcases Nat.eq_zero_or_pos ns.prod with h0 | hn
    · simp [h0] at h
    · exact ⟨Nat.div_lt_of_lt_mul (by rw [Nat.mul_comm]; exact h), ih (Nat.mod_lt _ hn)⟩

theorem ravelC_unravelC {shape : List Nat} {k : Nat} (h : k < shape.prod) :
    ravelC shape (unravelC shape k) = k := by
  induction shape generalizing k with
  | nil => simp at h; simp [ravelC, h]
  | cons n ns ih =>
    simp only [List.prod_cons] at h
    simp only [unravelC, ravelC]
    rcases Nat.eq_zero_or_pos ns.prod with h0 | hn
    · simp [h0] at h
    · rw [ih (Nat.mod_lt _ hn)]; exact Nat.div_add_mod' k ns.prod

theorem unravelC_ravelC {shape idx : List Nat} (h : InBox shape idx) :
    unravelC shape (ravelC shape idx) = idx := by
  induction shape generalizing idx with
  | nil => simp at h; simp [unravelC, h]
  | cons n ns ih =>
    cases idx with
    | nil => simp at h
    | cons i is =>
      simp only [inBox_cons_cons] at h
      simp only [ravelC, unravelC]
      have hlt := ravelC_lt h.2
      have hn : 0 < ns.prod := by omega
      rw [Nat.add_comm (i * ns.prod), Nat.add_mul_mod_self_right, Nat.mod_eq_of_lt hlt, Nat.add_mul_div_right _ _ hn,
        Nat.div_eq_of_lt hlt, Nat.zero_add, ih h.2]

theorem mapM_ok_iff {α β : Type} (f : α → Py β) (l : List α) (r : List β) :
    l.mapM f = .ok r ↔ List.Forall₂ (fun a b => f a = .ok b) l r := by
  induction l generalizing r with
  | nil => simp [List.mapM_nil, pure, Except.pure, eq_comm]
  | cons a l ih =>
    rw [List.mapM_cons]
    cases hfa : f a with
    | error e =>
      simp only [bind, Except.bind, reduceCtorEq, false_iff]
      intro h
      cases h with
      | cons h1 _ => rw [hfa] at h1; cases h1
    | ok b =>
      cases hl : l.mapM f with
      | error e =>
        simp only [bind, Except.bind, reduceCtorEq, false_iff]
        intro h
        cases h with
        | cons h1 h2 => rw [← ih, hl] at h2; cases h2
      | ok bs =>
        simp only [bind, Except.bind, pure, Except.pure, Except.ok.injEq]
        constructor
        · rintro rfl
          exact .cons hfa ((ih _).1 hl)
        · intro h
          cases h with
          | cons h1 h2 =>
            rw [hfa] at h1; rw [← ih, hl] at h2
            cases h1; cases h2; rfl

end Verif
