import Verif.Props.EvalDiag
import Verif.Model.TreeEval

/-! Splitting the children of a node into two groups: index tuples, sums and products. -/

namespace Verif
namespace TreeBased

open Arr Finset

variable {R : Type}

/-- The tuple with the entries of `s` at the positions of the elements of `cs` satisfying `p`, those of `t` elsewhere. -/
def weave (p : Nat → Bool) : List Nat → List Nat → List Nat → List Nat
  | [], _, _ => []
  | c :: cs, s, t => if p c then s.headD 0 :: weave p cs s.tail t else t.headD 0 :: weave p cs s t.tail

/-- The positions of the elements of `cs` satisfying `p`. -/
def posOf (p : Nat → Bool) (cs : List Nat) : List Nat := (cs.filter p).map (fun c => cs.idxOf c)

theorem length_weave (p : Nat → Bool) (cs s t : List Nat) : (weave p cs s t).length = cs.length := by
  induction cs generalizing s t with
  | nil => rfl
  | cons c cs ih => unfold weave; split <;> simp [ih]

theorem posOf_cons (p : Nat → Bool) {c : Nat} {cs : List Nat} (h : c ∉ cs) :
    posOf p (c :: cs) = if p c then 0 :: (posOf p cs).map (· + 1) else (posOf p cs).map (· + 1) := by
  unfold posOf
  have hm : (cs.filter p).map (fun c' => (c :: cs).idxOf c') = ((cs.filter p).map (fun c' => cs.idxOf c')).map (· + 1) := by
    rw [List.map_map]
    apply List.map_congr_left
    intro c' hc'
    have hne : c ≠ c' := fun e => h (e ▸ (List.mem_filter.1 hc').1)
    simp only [Function.comp]
    rw [List.idxOf_cons_ne _ hne]
  by_cases hp : p c = true
  · rw [if_pos hp, List.filter_cons_of_pos hp, List.map_cons, hm, List.idxOf_cons_self]
  · rw [if_neg hp, List.filter_cons_of_neg hp, hm]

theorem applyPerm_succ (l w : List Nat) (v : Nat) : applyPerm (l.map (· + 1)) (v :: w) = applyPerm l w := by
  unfold applyPerm
  rw [List.map_map]
  apply List.map_congr_left
  intro k _
  simp

theorem dropAxes_succ (l w : List Nat) (v : Nat) : dropAxes (l.map (· + 1)) (v :: w) = v :: dropAxes l w := by
  rw [dropAxes_eq, dropAxes_eq]
  unfold FullTensor.setdiffRange applyPerm
  rw [List.length_cons, List.range_succ_eq_map, List.filter_cons_of_pos (by simp), List.filter_map, List.map_cons, List.map_map]
  have : ∀ p ∈ List.range w.length, ((fun j => !(l.map (· + 1)).contains j) ∘ Nat.succ) p = !l.contains p := by
    intro p _; simp
  rw [List.filter_congr this]
  congr 1

theorem dropAxes_zero_succ (l w : List Nat) (v : Nat) : dropAxes (0 :: l.map (· + 1)) (v :: w) = dropAxes l w := by
  rw [dropAxes_eq, dropAxes_eq]
  unfold FullTensor.setdiffRange applyPerm
  rw [List.length_cons, List.range_succ_eq_map, List.filter_cons_of_neg (by simp), List.filter_map, List.map_map]
  have : ∀ p ∈ List.range w.length, ((fun j => !(0 :: l.map (· + 1)).contains j) ∘ Nat.succ) p = !l.contains p := by
    intro p _; simp
  rw [List.filter_congr this]
  apply List.map_congr_left
  intro p _
  rfl

theorem applyPerm_weave (p : Nat → Bool) (cs s t e : List Nat) (hn : cs.Nodup) (hs : s.length = (cs.filter p).length) :
    applyPerm (posOf p cs) (weave p cs s t ++ e) = s := by
  induction cs generalizing s t with
  | nil => simp at hs; subst hs; rfl
  | cons c cs ih =>
    rw [List.nodup_cons] at hn
    rw [posOf_cons p hn.1, weave]
    by_cases hp : p c = true
    · rw [List.filter_cons_of_pos hp] at hs
      cases s with
      | nil => simp at hs
      | cons a s =>
        rw [if_pos hp, if_pos hp, List.cons_append, applyPerm_cons, applyPerm_succ, List.tail_cons,
          ih s t hn.2 (by simpa using hs)]
        rfl
    · rw [List.filter_cons_of_neg hp] at hs
      rw [if_neg hp, if_neg hp, List.cons_append, applyPerm_succ, ih s _ hn.2 hs]

theorem dropAxes_weave (p : Nat → Bool) (cs s t e : List Nat) (hn : cs.Nodup)
    (ht : t.length = (cs.filter (fun c => !p c)).length) :
    dropAxes (posOf p cs) (weave p cs s t ++ e) = t ++ e := by
  induction cs generalizing s t with
  | nil =>
    simp at ht
    subst ht
    simp only [posOf, weave, List.filter_nil, List.map_nil, List.nil_append]
    exact dropAxes_lead [] e
  | cons c cs ih =>
    rw [List.nodup_cons] at hn
    rw [posOf_cons p hn.1, weave]
    by_cases hp : p c = true
    · rw [List.filter_cons_of_neg (by simpa using hp)] at ht
      rw [if_pos hp, if_pos hp, List.cons_append, dropAxes_zero_succ, ih _ t hn.2 ht]
    · rw [List.filter_cons_of_pos (by simpa using hp)] at ht
      cases t with
      | nil => simp at ht
      | cons a t =>
        rw [if_neg hp, if_neg hp, List.cons_append, dropAxes_succ, List.tail_cons, ih s t hn.2 (by simpa using ht)]
        rfl

theorem mergeIdx_weave (p : Nat → Bool) (cs s t e : List Nat) (hn : cs.Nodup) (hs : s.length = (cs.filter p).length)
    (ht : t.length = (cs.filter (fun c => !p c)).length) (n : Nat) (hl : n = cs.length + e.length) :
    mergeIdx (posOf p cs) s 0 n (t ++ e) = weave p cs s t ++ e := by
  have := mergeIdx_self (ax := posOf p cs) (idx := weave p cs s t ++ e) (applyPerm_weave p cs s t e hn hs)
  rw [dropAxes_weave p cs s t e hn ht, List.length_append, length_weave, ← hl] at this
  exact this

theorem weave_map (p : Nat → Bool) (cs : List Nat) (f : Nat → Nat) :
    weave p cs ((cs.filter p).map f) ((cs.filter (fun c => !p c)).map f) = cs.map f := by
  induction cs with
  | nil => rfl
  | cons c cs ih =>
    rw [weave]
    by_cases hp : p c = true
    · rw [if_pos hp, List.filter_cons_of_pos hp, List.filter_cons_of_neg (by simpa using hp), List.map_cons, List.tail_cons, ih]
      rfl
    · rw [if_neg hp, List.filter_cons_of_neg hp, List.filter_cons_of_pos (by simpa using hp), List.map_cons, List.tail_cons, ih]
      rfl

theorem sumBox_weave [AddCommMonoid R] (p : Nat → Bool) (cs : List Nat) (sz : Nat → Nat) (f : List Nat → R) :
    sumBox (cs.map sz) f = sumBox ((cs.filter p).map sz) (fun s => sumBox ((cs.filter (fun c => !p c)).map sz) (fun t =>
      f (weave p cs s t))) := by
  induction cs generalizing f with
  | nil => rfl
  | cons c cs ih =>
    rw [List.map_cons, sumBox]
    by_cases hp : p c = true
    · rw [List.filter_cons_of_pos hp, List.filter_cons_of_neg (by simpa using hp), List.map_cons, sumBox]
      refine sum_congr rfl (fun a _ => ?_)
      rw [ih]
      simp only [weave, if_pos hp, List.headD_cons, List.tail_cons]
    · rw [List.filter_cons_of_neg hp, List.filter_cons_of_pos (by simpa using hp), List.map_cons]
      simp only [sumBox]
      rw [← sum_sumBox_comm]
      refine sum_congr rfl (fun a _ => ?_)
      rw [ih]
      simp only [weave, if_neg hp, List.headD_cons, List.tail_cons]

theorem prod_weave [CommSemiring R] (p : Nat → Bool) (cs s t : List Nat) (g : Nat → Nat → R)
    (hs : s.length = (cs.filter p).length) (ht : t.length = (cs.filter (fun c => !p c)).length) :
    (List.zipWith g cs (weave p cs s t)).prod =
      (List.zipWith g (cs.filter p) s).prod * (List.zipWith g (cs.filter (fun c => !p c)) t).prod := by
  induction cs generalizing s t with
  | nil => simp [weave]
  | cons c cs ih =>
    rw [weave]
    by_cases hp : p c = true
    · rw [List.filter_cons_of_pos hp] at hs ⊢
      rw [List.filter_cons_of_neg (by simpa using hp)] at ht ⊢
      cases s with
      | nil => simp at hs
      | cons a s =>
        rw [if_pos hp, List.tail_cons, List.headD_cons, List.zipWith_cons_cons, List.zipWith_cons_cons, List.prod_cons,
          List.prod_cons, ih s t (by simpa using hs) ht, mul_assoc]
    · rw [List.filter_cons_of_neg hp] at hs ⊢
      rw [List.filter_cons_of_pos (by simpa using hp)] at ht ⊢
      cases t with
      | nil => simp at ht
      | cons a t =>
        rw [if_neg hp, List.tail_cons, List.headD_cons, List.zipWith_cons_cons, List.zipWith_cons_cons, List.prod_cons,
          List.prod_cons, ih s t hs (by simpa using ht)]
        ring

/-! ### outer products with a common first index -/

theorem outer_one [CommSemiring R] (x b : Arr R) (n m : Nat) (l : List Nat) (hx : x.shape = n :: l) (hb : b.shape = [n, m]) :
    (FullTensor.tensordotEvalDiag x b [] [] [0] [0]).shape = n :: (l ++ [m]) ∧
    ∀ k s j, s.length = l.length →
      (FullTensor.tensordotEvalDiag x b [] [] [0] [0]).get (k :: (s ++ [j])) = x.get (k :: s) * b.get [k, j] := by
  have hbo : b.order = 2 := by simp [Arr.order, hb]
  obtain ⟨h1, h2⟩ := FullTensor.tensordotEvalDiag_spec x b n [] l [] [0] (by simpa using hx) rfl (by simp) (by simp) (by simp)
    (by simp [hbo]) (by simp)
  have hd : dropAxes ([] ++ [0]) b.shape = [m] := by rw [hb]; rfl
  rw [hd] at h1 h2
  refine ⟨h1, fun k s j hs => ?_⟩
  have := h2 k s [j] hs rfl
  rw [hbo] at this
  exact this

theorem outerChain_spec [CommSemiring R] (n : Nat) (l : List (Arr R × Nat)) (hne : l ≠ [])
    (hl : ∀ q ∈ l, q.1.shape = [n, q.2]) :
    (outerChain (l.map Prod.fst)).shape = n :: l.map Prod.snd ∧
    ∀ k s, s.length = l.length →
      (outerChain (l.map Prod.fst)).get (k :: s) = (List.zipWith (fun (q : Arr R × Nat) j => q.1.get [k, j]) l s).prod := by
  have key : ∀ (l : List (Arr R × Nat)) (x : Arr R) (pre : List (Arr R × Nat)), (∀ q ∈ l, q.1.shape = [n, q.2]) →
      x.shape = n :: pre.map Prod.snd → (∀ k s, s.length = pre.length → x.get (k :: s) =
        (List.zipWith (fun (q : Arr R × Nat) j => q.1.get [k, j]) pre s).prod) →
      ((l.map Prod.fst).foldl (fun tmp b => FullTensor.tensordotEvalDiag tmp b [] [] [0] [0]) x).shape =
        n :: (pre ++ l).map Prod.snd ∧
      ∀ k s, s.length = (pre ++ l).length →
        ((l.map Prod.fst).foldl (fun tmp b => FullTensor.tensordotEvalDiag tmp b [] [] [0] [0]) x).get (k :: s) =
          (List.zipWith (fun (q : Arr R × Nat) j => q.1.get [k, j]) (pre ++ l) s).prod := by
    intro l
    induction l with
    | nil => intro x pre _ h1 h2; simpa using ⟨h1, h2⟩
    | cons q l ih =>
      intro x pre hq h1 h2
      obtain ⟨o1, o2⟩ := outer_one x q.1 n q.2 _ h1 (hq q (by simp))
      have := ih (FullTensor.tensordotEvalDiag x q.1 [] [] [0] [0]) (pre ++ [q]) (fun q' hq' => hq q' (by simp [hq']))
        (by rw [o1]; simp) (by
          intro k s hs
          obtain ⟨s', j, rfl⟩ : ∃ s' j, s = s' ++ [j] := by
            have hsl : s ≠ [] := by intro h; subst h; simp at hs
            exact ⟨s.dropLast, s.getLast hsl, (List.dropLast_append_getLast hsl).symm⟩
          have hs' : s'.length = pre.length := by simpa using hs
          rw [o2 k s' j (by simpa using hs'), h2 k s' hs', List.zipWith_append hs'.symm]
          simp)
      simpa using this
  cases l with
  | nil => exact absurd rfl hne
  | cons q l =>
    have := key l q.1 [q] (fun q' hq' => hl q' (by simp [hq'])) (by simpa using hl q (by simp)) (by
      intro k s hs
      match s, hs with
      | [j], _ => simp)
    simpa [outerChain] using this

end TreeBased
end Verif
