import Verif.Lemmas.Projection
import Verif.Lemmas.TruncLeft
import Verif.Props.FullTensor
import Verif.Props.CanonicalContract

/-!
# Sums over the entries of a matricisation; products over the dimensions
-/

namespace Verif.Truncation

open Verif.Arr Finset Verif.FullTensor

variable {R : Type}

/-- The sum over the subscripts of a tensor is the sum over the rows and the columns of a matricisation. -/
theorem matSum [AddCommMonoid R] (s dims : List Nat) (hnd : dims.Nodup) (hlt : ∀ k ∈ dims, k < s.length) (F : Nat → Nat → R) :
    sumBox s (fun i => F (ravelF (entriesAt dims s) (entriesAt dims i)) (ravelF (entriesOff dims s) (entriesOff dims i))) =
      ∑ a ∈ range (entriesAt dims s).prod, ∑ b ∈ range (entriesOff dims s).prod, F a b := by
  have e : ∀ idx : List Nat, idx.length = s.length → applyPerm (setdiffRange s.length dims) idx = entriesOff dims idx := by
    intro idx hl
    show (setdiffRange s.length dims).map _ = _
    unfold entriesOff setdiffRange
    rw [hl]
    congr 1
    apply List.filter_congr
    intro k _
    simp
  have e1 : ∀ idx : List Nat, applyPerm dims idx = entriesAt dims idx := fun _ => rfl
  have hp := dims_append_perm (n := s.length) hnd hlt
  have h1 : sumBox s (fun i => F (ravelF (entriesAt dims s) (entriesAt dims i)) (ravelF (entriesOff dims s) (entriesOff dims i))) =
      sumBox s (fun i => (fun v => F (ravelF (entriesAt dims s) (v.take dims.length)) (ravelF (entriesOff dims s) (v.drop dims.length)))
        (applyPerm (dims ++ setdiffRange s.length dims) i)) := by
    apply sumBox_congr
    intro i hi
    beta_reduce
    rw [applyPerm_append, List.take_left' (by simp), List.drop_left' (by simp), e i hi.length_eq]
    rfl
  rw [h1, sumBox_applyPerm hp rfl (fun v => F (ravelF (entriesAt dims s) (v.take dims.length)) (ravelF (entriesOff dims s) (v.drop dims.length))),
    applyPerm_append, sumBox_append, e s rfl, e1, sumBox_eq_linearF]
  refine sum_congr rfl (fun a ha => ?_)
  rw [sumBox_eq_linearF]
  refine sum_congr rfl (fun b hb => ?_)
  have hl : (unravelF (entriesAt dims s) a).length = dims.length := by
    rw [(unravelF_inBox (mem_range.1 ha)).length_eq]; simp [entriesAt]
  rw [List.take_left' hl, List.drop_left' hl, ravelF_unravelF (mem_range.1 ha), ravelF_unravelF (mem_range.1 hb)]

theorem zipWith_prod [CommMonoid R] {α β : Type} (f : α → β → R) (za : α) (zb : β) : ∀ (l1 : List α) (l2 : List β) (n : Nat),
    l1.length = n → l2.length = n → (List.zipWith f l1 l2).prod = ∏ k ∈ range n, f (l1.getD k za) (l2.getD k zb) := by
  intro l1
  induction l1 with
  | nil => intro l2 n h1 h2; simp at h1; subst h1; simp
  | cons a l1 ih =>
    intro l2 n h1 h2
    cases l2 with
    | nil => simp at h2; subst h2; simp at h1
    | cons b l2 =>
      cases n with
      | zero => simp at h1
      | succ n =>
        rw [List.zipWith_cons_cons, List.prod_cons, prod_range_succ', ih l2 n (by simpa using h1) (by simpa using h2)]
        simp only [List.getD_cons_succ, List.getD_cons_zero]
        rw [mul_comm]

/-- A sum of products is the product of the sums. -/
theorem sumBox_prodF [CommSemiring R] (s : List Nat) (φ : Nat → Nat → R) :
    sumBox s (fun j => ∏ k ∈ range s.length, φ k (j.getD k 0)) = ∏ k ∈ range s.length, ∑ a ∈ range (s.getD k 0), φ k a := by
  have h := Canonical.sumBox_prod s ((List.range s.length).map φ) (by simp)
  have g : ∀ k, k < s.length → ((List.range s.length).map φ).getD k (fun _ => 0) = φ k := by
    intro k hk
    rw [List.getD_eq_getElem _ _ (by simpa using hk), List.getElem_map, List.getElem_range]
  rw [zipWith_prod _ (fun _ => 0) 0 _ _ s.length (by simp) rfl] at h
  have h2 : ∏ k ∈ range s.length, ∑ a ∈ range (s.getD k 0), φ k a =
      ∏ k ∈ range s.length, ∑ j ∈ range (s.getD k 0), ((List.range s.length).map φ).getD k (fun _ => 0) j :=
    prod_congr rfl (fun k hk => by rw [g k (mem_range.1 hk)])
  rw [h2, ← h]
  apply sumBox_congr
  intro j hj
  rw [zipWith_prod _ (fun _ => 0) 0 _ _ s.length (by simp) hj.length_eq]
  exact prod_congr rfl (fun k hk => by rw [g k (mem_range.1 hk)])

/-- Operators applied along the successive dimensions. -/
theorem comp_modes (g : Nat → Nat → Nat → ℝ) (f : List Nat → ℝ) : ∀ (suf pre : List Nat) (i1 i2 : List Nat), i1.length = pre.length →
    i2.length = suf.length →
    Projection.comp ((List.range' pre.length suf.length).map (fun k h i => ∑ a ∈ range ((pre ++ suf).getD k 0), g k (i.getD k 0) a * h (i.set k a)))
      f (i1 ++ i2) =
    sumBox suf (fun j => f (i1 ++ j) * ∏ m ∈ range suf.length, g (pre.length + m) (i2.getD m 0) (j.getD m 0)) := by
  intro suf
  induction suf with
  | nil =>
    intro pre i1 i2 h1 h2
    have : i2 = [] := by simpa using h2
    subst this
    simp [Projection.comp, sumBox]
  | cons n suf ih =>
    intro pre i1 i2 h1 h2
    cases i2 with
    | nil => simp at h2
    | cons b i2 =>
      have e1 : pre ++ n :: suf = (pre ++ [n]) ++ suf := by simp
      rw [List.length_cons, List.range'_succ, List.map_cons]
      show ∑ a ∈ range ((pre ++ n :: suf).getD pre.length 0), g pre.length ((i1 ++ b :: i2).getD pre.length 0) a *
        Projection.comp _ f ((i1 ++ b :: i2).set pre.length a) = _
      have e2 : (pre ++ n :: suf).getD pre.length 0 = n := by
        rw [List.getD_append_right _ _ _ _ (le_refl _)]; simp
      have e3 : (i1 ++ b :: i2).getD pre.length 0 = b := by
        rw [List.getD_append_right _ _ _ _ (by omega), h1]; simp
      rw [e2, e3]
      show _ = ∑ a ∈ range n, sumBox suf (fun j => f (i1 ++ a :: j) * _)
      refine sum_congr rfl (fun a _ => ?_)
      have e4 : (i1 ++ b :: i2).set pre.length a = (i1 ++ [a]) ++ i2 := by
        rw [← h1, List.set_append_right _ _ (le_refl _)]; simp
      have := ih (pre ++ [n]) (i1 ++ [a]) i2 (by simp [h1]) (by simpa using h2)
      rw [List.length_append, List.length_singleton, ← e1] at this
      rw [e4, this, ← sumBox_mul_left]
      apply sumBox_congr
      intro j _
      rw [prod_range_succ']
      simp only [List.getD_cons_succ, List.getD_cons_zero, add_zero, List.append_assoc, List.singleton_append]
      have : ∀ m, pre.length + 1 + m = pre.length + (m + 1) := fun m => by omega
      simp only [this]
      ring

end Verif.Truncation
