import Verif.Lemmas.Gram
import Mathlib.Data.Real.Basic
import Mathlib.Algebra.Order.BigOperators.Group.Finset
import Mathlib.Tactic.Linarith

/-!
# Orthogonal projections of arrays along some of their dimensions
-/

namespace Verif.Projection

open Verif.Arr Finset Verif.TreeBased

/-- Scalar product and squared norm of the functions on a box of subscripts. -/
noncomputable def ip (s : List Nat) (f g : List Nat → ℝ) : ℝ := sumBox s (fun i => f i * g i)
noncomputable def nsq (s : List Nat) (f : List Nat → ℝ) : ℝ := sumBox s (fun i => f i * f i)

section basic
variable {s : List Nat}

theorem ip_congr {f f' g g' : List Nat → ℝ} (h1 : ∀ i, InBox s i → f i = f' i) (h2 : ∀ i, InBox s i → g i = g' i) :
    ip s f g = ip s f' g' := sumBox_congr (fun i hi => by rw [h1 i hi, h2 i hi])

theorem nsq_congr {f f' : List Nat → ℝ} (h1 : ∀ i, InBox s i → f i = f' i) : nsq s f = nsq s f' :=
  sumBox_congr (fun i hi => by rw [h1 i hi])

theorem ip_comm (f g : List Nat → ℝ) : ip s f g = ip s g f := sumBox_congr (fun i _ => by ring)

theorem nsq_nonneg (f : List Nat → ℝ) : 0 ≤ nsq s f := by
  unfold nsq
  rw [sumBox_eq_sum]
  exact sum_nonneg (fun i _ => mul_self_nonneg _)

theorem nsq_add (f g : List Nat → ℝ) : nsq s (fun i => f i + g i) = nsq s f + 2 * ip s f g + nsq s g := by
  unfold nsq ip
  rw [← sumBox_mul_left, ← sumBox_add, ← sumBox_add]
  exact sumBox_congr (fun i _ => by ring)

theorem ip_zero (g : List Nat → ℝ) (f : List Nat → ℝ) (h : ∀ i, InBox s i → f i = 0) : ip s f g = 0 := by
  unfold ip
  rw [← sumBox_zero (R := ℝ) s]
  exact sumBox_congr (fun i hi => by rw [h i hi]; ring)

theorem ip_sum {ι : Type} (S : Finset ι) (f : ι → List Nat → ℝ) (g : List Nat → ℝ) :
    ip s (fun i => ∑ l ∈ S, f l i) g = ∑ l ∈ S, ip s (f l) g := by
  unfold ip
  rw [sum_sumBox_comm]
  exact sumBox_congr (fun i _ => by rw [sum_mul])

end basic

/-- `P` is an orthogonal projection of the functions on the box. -/
structure IsProj (s : List Nat) (P : (List Nat → ℝ) → List Nat → ℝ) : Prop where
  congr : ∀ f g, (∀ i, InBox s i → f i = g i) → ∀ i, InBox s i → P f i = P g i
  sub : ∀ f g i, InBox s i → P (fun i => f i - g i) i = P f i - P g i
  adj : ∀ f g, ip s (P f) g = ip s f (P g)
  idem : ∀ f i, InBox s i → P (P f) i = P f i

namespace IsProj

variable {s : List Nat} {P : (List Nat → ℝ) → List Nat → ℝ} (h : IsProj s P)
include h

theorem perp (f g : List Nat → ℝ) : ip s (fun i => f i - P f i) (P g) = 0 := by
  rw [← h.adj]
  apply ip_zero
  intro i hi
  rw [h.sub f (P f) i hi, h.idem f i hi, sub_self]

/-- Pythagoras. -/
theorem pyth (f : List Nat → ℝ) : nsq s f = nsq s (fun i => f i - P f i) + nsq s (P f) := by
  have h1 := nsq_add (s := s) (fun i => f i - P f i) (P f)
  rw [h.perp f f] at h1
  have h2 : nsq s (fun i => f i - P f i + P f i) = nsq s f := nsq_congr (fun i _ => by ring)
  rw [h2] at h1
  linarith

theorem contract (f : List Nat → ℝ) : nsq s (P f) ≤ nsq s f := by
  have := h.pyth f
  have := nsq_nonneg (s := s) (fun i => f i - P f i)
  linarith

end IsProj

/-- The operators of a list applied one after the other, the last one first. -/
def comp (Ps : List ((List Nat → ℝ) → List Nat → ℝ)) (f : List Nat → ℝ) : List Nat → ℝ := Ps.foldr (fun P g => P g) f

/-- The error of a product of orthogonal projections is at most the sum of the errors of the projections (in squared norms). -/
theorem chain (s : List Nat) (Ps : List ((List Nat → ℝ) → List Nat → ℝ)) (h : ∀ P ∈ Ps, IsProj s P) (x : List Nat → ℝ) :
    nsq s (fun i => x i - comp Ps x i) ≤ (Ps.map (fun P => nsq s (fun i => x i - P x i))).sum := by
  induction Ps with
  | nil =>
    simp only [comp, List.foldr_nil, sub_self, List.map_nil, List.sum_nil]
    unfold nsq
    simp [sumBox_zero]
  | cons P Ps ih =>
    have hP := h P (by simp)
    have ih' := ih (fun Q hQ => h Q (by simp [hQ]))
    rw [List.map_cons, List.sum_cons]
    have e1 : ∀ i, InBox s i → x i - comp (P :: Ps) x i = (x i - P x i) + P (fun i => x i - comp Ps x i) i := by
      intro i hi
      rw [hP.sub x (comp Ps x) i hi]
      show x i - P (comp Ps x) i = _
      ring
    rw [nsq_congr e1, nsq_add, hP.perp]
    have := hP.contract (fun i => x i - comp Ps x i)
    linarith

/-! ### sums over the subscripts of some dimensions -/

/-- The sum over the subscript of the dimension `d`. -/
noncomputable def avg (s : List Nat) (d : Nat) (f : List Nat → ℝ) : List Nat → ℝ :=
  fun i => ∑ a ∈ range (s.getD d 0), f (i.set d a)

/-- The sum over the subscripts of the dimensions of a list. -/
noncomputable def dSum (s : List Nat) (D : List Nat) (f : List Nat → ℝ) : List Nat → ℝ := D.foldr (fun d g => avg s d g) f

section dSum
variable {s : List Nat}

theorem dSum_cons (d : Nat) (D : List Nat) (f : List Nat → ℝ) : dSum s (d :: D) f = avg s d (dSum s D f) := rfl

theorem avg_comm (d e : Nat) (f : List Nat → ℝ) : avg s d (avg s e f) = avg s e (avg s d f) := by
  by_cases h : d = e
  · rw [h]
  · funext i
    unfold avg
    rw [sum_comm]
    refine sum_congr rfl (fun b _ => sum_congr rfl (fun a _ => ?_))
    rw [List.set_comm _ _ h]

theorem dSum_avg (d : Nat) (D : List Nat) (f : List Nat → ℝ) : dSum s D (avg s d f) = avg s d (dSum s D f) := by
  induction D with
  | nil => rfl
  | cons e D ih => rw [dSum_cons, dSum_cons, ih, avg_comm]

theorem avg_congr {d : Nat} {f g : List Nat → ℝ} (h : ∀ i, InBox s i → f i = g i) : ∀ i, InBox s i → avg s d f i = avg s d g i :=
  fun i hi => sum_congr rfl (fun a ha => h _ (inBox_set hi (mem_range.1 ha)))

theorem dSum_congr {D : List Nat} {f g : List Nat → ℝ} (h : ∀ i, InBox s i → f i = g i) :
    ∀ i, InBox s i → dSum s D f i = dSum s D g i := by
  induction D with
  | nil => exact h
  | cons e D ih => exact avg_congr ih

theorem dSum_sub (D : List Nat) (f g : List Nat → ℝ) (i : List Nat) :
    dSum s D (fun i => f i - g i) i = dSum s D f i - dSum s D g i := by
  induction D generalizing i with
  | nil => rfl
  | cons e D ih =>
    simp only [dSum_cons, avg]
    rw [← sum_sub_distrib]
    exact sum_congr rfl (fun a _ => ih _)

theorem dSum_sum {ι : Type} (S : Finset ι) (D : List Nat) (f : ι → List Nat → ℝ) (i : List Nat) :
    dSum s D (fun i => ∑ l ∈ S, f l i) i = ∑ l ∈ S, dSum s D (f l) i := by
  induction D generalizing i with
  | nil => rfl
  | cons e D ih =>
    simp only [dSum_cons, avg]
    rw [sum_comm]
    exact sum_congr rfl (fun a _ => ih _)

theorem dSum_indep (D : List Nat) (f : List Nat → ℝ) {d : Nat} (hd : d ∈ D) (i : List Nat) (a : Nat) :
    dSum s D f (i.set d a) = dSum s D f i := by
  induction D generalizing i with
  | nil => simp at hd
  | cons e D ih =>
    simp only [dSum_cons, avg]
    refine sum_congr rfl (fun b _ => ?_)
    by_cases h : d = e
    · subst h; rw [List.set_set]
    · have hd' : d ∈ D := by simpa [h] using hd
      rw [List.set_comm _ _ h, ih hd']

theorem dSum_mul (D : List Nat) (h g : List Nat → ℝ) (hh : ∀ d ∈ D, ∀ i a, h (i.set d a) = h i) (i : List Nat) :
    dSum s D (fun p => h p * g p) i = h i * dSum s D g i := by
  induction D generalizing i with
  | nil => rfl
  | cons e D ih =>
    simp only [dSum_cons, avg]
    rw [mul_sum]
    refine sum_congr rfl (fun a _ => ?_)
    rw [ih (fun d hd => hh d (by simp [hd])), hh e (by simp)]

theorem avg_adj {d : Nat} (hd : d < s.length) (f g : List Nat → ℝ) : ip s (avg s d f) g = ip s f (avg s d g) := by
  unfold ip avg
  simp only [sumBox_eq_sum, sum_mul, mul_sum]
  rw [sum_sigma', sum_sigma']
  have hset : ∀ (i : List Nat), InBox s i → ∀ a, (i.set d a).getD d 0 = a := by
    intro i hi a
    rw [getD_set, if_pos ⟨rfl, by rw [hi.length_eq]; exact hd⟩]
  have hback : ∀ (i : List Nat), InBox s i → ∀ a, (i.set d a).set d (i.getD d 0) = i := by
    intro i hi a
    rw [List.set_set]
    have hl : d < i.length := by rw [hi.length_eq]; exact hd
    rw [List.getD_eq_getElem _ _ hl, List.set_getElem_self]
  have hlt : ∀ (i : List Nat), InBox s i → i.getD d 0 < s.getD d 0 := fun i hi => ((inBox_iff_getD s i).1 hi).2 d (by
    first | exact hd | (rw [hi.length_eq]; exact hd))
  refine sum_bij' (fun p _ => ⟨p.1.set d p.2, p.1.getD d 0⟩) (fun p _ => ⟨p.1.set d p.2, p.1.getD d 0⟩) ?_ ?_ ?_ ?_ ?_
  · rintro ⟨i, a⟩ hp
    rw [mem_sigma, mem_box] at hp
    rw [mem_sigma, mem_box]
    exact ⟨inBox_set hp.1 (mem_range.1 hp.2), mem_range.2 (hlt i hp.1)⟩
  · rintro ⟨i, a⟩ hp
    rw [mem_sigma, mem_box] at hp
    rw [mem_sigma, mem_box]
    exact ⟨inBox_set hp.1 (mem_range.1 hp.2), mem_range.2 (hlt i hp.1)⟩
  · rintro ⟨i, a⟩ hp
    rw [mem_sigma, mem_box] at hp
    simp only [hback i hp.1, hset i hp.1]
  · rintro ⟨i, a⟩ hp
    rw [mem_sigma, mem_box] at hp
    simp only [hback i hp.1, hset i hp.1]
  · rintro ⟨i, a⟩ hp
    rw [mem_sigma, mem_box] at hp
    simp only [hback i hp.1]

theorem dSum_adj {D : List Nat} (hD : ∀ d ∈ D, d < s.length) (f g : List Nat → ℝ) :
    ip s (dSum s D f) g = ip s f (dSum s D g) := by
  induction D generalizing f g with
  | nil => rfl
  | cons d D ih =>
    have ih' := ih (fun e he => hD e (by simp [he]))
    rw [dSum_cons, avg_adj (hD d (by simp)), ih', dSum_cons, ← dSum_avg]

end dSum

/-- The projection on the functions `∑ B_l(i) c_l(i)` where `c_l` does not depend on the dimensions `D`. -/
noncomputable def expandP (s D : List Nat) (r : Nat) (B : Nat → List Nat → ℝ) (f : List Nat → ℝ) : List Nat → ℝ :=
  fun i => ∑ l ∈ range r, B l i * dSum s D (fun p => B l p * f p) i

/-- It is an orthogonal projection if the `B_l` are orthonormal along the dimensions `D`. -/
theorem expandP_proj {s D : List Nat} (hD : ∀ d ∈ D, d < s.length) {r : Nat} {B : Nat → List Nat → ℝ}
    (hB : ∀ l l', l < r → l' < r → ∀ i, InBox s i → dSum s D (fun p => B l p * B l' p) i = if l = l' then 1 else 0) :
    IsProj s (expandP s D r B) := by
  refine ⟨?_, ?_, ?_, ?_⟩
  · intro f g h i hi
    unfold expandP
    refine sum_congr rfl (fun l _ => ?_)
    rw [dSum_congr (fun p hp => by rw [h p hp]) i hi]
  · intro f g i _
    unfold expandP
    rw [← sum_sub_distrib]
    refine sum_congr rfl (fun l _ => ?_)
    rw [← mul_sub, ← dSum_sub]
    congr 2; funext p; ring
  · intro f g
    rw [ip_comm f]
    unfold expandP
    rw [ip_sum, ip_sum]
    refine sum_congr rfl (fun l _ => ?_)
    have e1 : ∀ f g : List Nat → ℝ, ip s (fun i => B l i * dSum s D (fun p => B l p * f p) i) g =
        ip s (dSum s D (fun p => B l p * f p)) (fun p => B l p * g p) := fun f g => sumBox_congr (fun i _ => by ring)
    rw [e1, e1, dSum_adj hD, ip_comm]
  · intro f i hi
    unfold expandP
    refine sum_congr rfl (fun l hl => ?_)
    congr 1
    have e1 : (fun p => B l p * ∑ l' ∈ range r, B l' p * dSum s D (fun q => B l' q * f q) p) =
        fun p => ∑ l' ∈ range r, dSum s D (fun q => B l' q * f q) p * (B l p * B l' p) := by
      funext p; rw [mul_sum]; exact sum_congr rfl (fun l' _ => by ring)
    rw [e1, dSum_sum]
    rw [sum_eq_single_of_mem l hl]
    · rw [dSum_mul D _ _ (fun d hd j a => dSum_indep D _ hd j a), hB l l (mem_range.1 hl) (mem_range.1 hl) i hi, if_pos rfl,
        mul_one]
    · intro l' hl' hne
      rw [dSum_mul D _ _ (fun d hd j a => dSum_indep D _ hd j a), hB l l' (mem_range.1 hl) (mem_range.1 hl') i hi,
        if_neg (Ne.symm hne), mul_zero]

/-- The weighted double sum with the identity matrices. -/
theorem mSum_eye (s D : List Nat) (F : List Nat → List Nat → ℝ) (i : List Nat) :
    mSum s s (fun _ a b => if a = b then (1 : ℝ) else 0) D F i i = dSum s D (fun p => F p p) i := by
  induction D generalizing i with
  | nil => rfl
  | cons d D ih =>
    unfold mSum
    rw [dSum_cons]
    unfold avg
    refine sum_congr rfl (fun a ha => ?_)
    rw [sum_eq_single_of_mem a ha]
    · rw [if_pos rfl, one_mul, ih]
    · intro b _ hne
      rw [if_neg (Ne.symm hne), zero_mul]

end Verif.Projection
