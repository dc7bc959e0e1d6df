import Verif.Lemmas.TreeMerge
import Verif.Lemmas.Weave
import Verif.Props.FullTensor

/-!
# Contraction of the children of a node in `squeeze`
-/

namespace Verif.TreeBased

open Verif.Arr Verif.DimTree Verif.DimTree.DTree Finset

variable {R : Type}

theorem upd_self (ts : Nat → Arr R) (i : Nat) (t : Arr R) : upd ts i t i = t := by unfold upd; simp

theorem upd_ne (ts : Nat → Arr R) {i j : Nat} (t : Arr R) (h : j ≠ i) : upd ts i t j = ts j := by unfold upd; simp [h]

/-- The sum on the contracted children `q` among `cs`. -/
def gsum [CommSemiring R] (q : Nat → Bool) (sz : Nat → Nat) (W : Nat → Nat → R) : List Nat → (List Nat → R) → List Nat → R
  | [], k, _ => k []
  | c :: cs, k, w =>
    if q c then ∑ s ∈ range (sz c), W c s * gsum q sz W cs (fun t => k (s :: t)) w.tail
    else gsum q sz W cs (fun t => k (w.headD 0 :: t)) w.tail

theorem gsum_sum [CommSemiring R] (q : Nat → Bool) (sz : Nat → Nat) (W : Nat → Nat → R) (cs w : List Nat) (S : Finset Nat)
    (f : Nat → R) (k : Nat → List Nat → R) :
    gsum q sz W cs (fun t => ∑ i ∈ S, f i * k i t) w = ∑ i ∈ S, f i * gsum q sz W cs (k i) w := by
  induction cs generalizing k w with
  | nil => rfl
  | cons c cs ih =>
    unfold gsum
    by_cases hc : q c = true
    · simp only [hc, if_true, ih, Finset.mul_sum]
      rw [Finset.sum_comm]
      refine sum_congr rfl fun i _ => sum_congr rfl fun s _ => ?_
      ring
    · simp only [hc, Bool.false_eq_true, if_false, ih]

/-- Only the values in the box matter. -/
theorem gsum_box [CommSemiring R] (q : Nat → Bool) (sz : Nat → Nat) (W : Nat → Nat → R) (cs : List Nat) {w : List Nat}
    {k k' : List Nat → R} (hw : InBox (cs.map (fun c => if q c then 1 else sz c)) w)
    (h : ∀ t, InBox (cs.map sz) t → k t = k' t) : gsum q sz W cs k w = gsum q sz W cs k' w := by
  induction cs generalizing k k' w with
  | nil => exact h [] .nil
  | cons c cs ih =>
    cases hw with
    | cons h1 h2 =>
    rename_i a w
    unfold gsum
    by_cases hc : q c = true
    · rw [if_pos hc, if_pos hc]
      refine sum_congr rfl fun s hs => ?_
      rw [List.tail_cons, ih h2 (fun t ht => h (s :: t) (.cons (mem_range.1 hs) ht))]
    · rw [if_neg hc, if_neg hc]
      simp only [hc, Bool.false_eq_true, if_false] at h1
      exact ih h2 (fun t ht => h (a :: t) (.cons h1 ht))

/-- A vector seen as a row, as in the body of the loop. -/
def rowOf (t : Arr R) : Arr R := if t.order = 1 then t.reshapeF [1, t.shape.prod] else t

theorem squeezeFold [CommSemiring R] (x : TBT R) (ind : List Nat) (nod : Nat) (sz : Nat → Nat) (W : Nat → Nat → R) (E : List Nat)
    (q : Nat → Bool) (hq : ∀ c, q c = (x.active c && ind.contains c)) :
    ∀ (suf pre : List Nat) (ts : Nat → Arr R), suf.Nodup → nod ∉ suf →
      (ts nod).shape = pre.map (fun c => if q c then 1 else sz c) ++ (suf.map sz ++ E) →
      (∀ c ∈ suf, q c = true → (rowOf (ts c)).shape = [1, sz c] ∧ ∀ s < sz c, (rowOf (ts c)).get [0, s] = W c s) →
      ∃ ts', (suf.zipIdx pre.length).foldlM (squeezeChild x ind nod) ts = .ok ts' ∧
        (ts' nod).shape = pre.map (fun c => if q c then 1 else sz c) ++ (suf.map (fun c => if q c then 1 else sz c) ++ E) ∧
        (∀ j, j ≠ nod → ts' j = if j ∈ suf ∧ q j = true then emptyArr else ts j) ∧
        ∀ p w e, InBox (pre.map (fun c => if q c then 1 else sz c)) p → InBox (suf.map (fun c => if q c then 1 else sz c)) w →
          InBox E e → (ts' nod).get (p ++ (w ++ e)) = gsum q sz W suf (fun t => (ts nod).get (p ++ (t ++ e))) w := by
  intro suf
  induction suf with
  | nil =>
    intro pre ts _ _ hsh _
    refine ⟨ts, rfl, hsh, fun j _ => by simp, ?_⟩
    intro p w e _ hw _
    cases hw
    rfl
  | cons c suf ih =>
    intro pre ts hnd hnod hsh hm
    rw [List.nodup_cons] at hnd
    rw [List.zipIdx_cons, List.foldlM_cons]
    have hcn : c ≠ nod := fun h => hnod (by simp [h])
    have hlen : pre.length + 1 = (pre ++ [c]).length := by simp
    obtain ⟨sz', hsz'⟩ : ∃ f : Nat → Nat, f = fun c => if q c then 1 else sz c := ⟨_, rfl⟩
    rw [← hsz'] at hsh ⊢
    rw [← hsz'] at ih
    by_cases hc : q c = true
    · obtain ⟨m1, m2⟩ := hm c (by simp) hc
      have hpl : pre.length < (ts nod).order := by unfold Arr.order; rw [hsh]; simp
      have hgd : (ts nod).shape.getD pre.length 0 = sz c := by
        rw [hsh, List.getD_append_right _ _ _ _ (by simp)]; simp
      obtain ⟨t, t1, t2, t3⟩ := FullTensor.tmpStep_spec (ts nod) (rowOf (ts c)) pre.length 1 hpl (by rw [hgd]; exact m1)
      have hset : (ts nod).shape.set pre.length 1 = (pre ++ [c]).map sz' ++ (suf.map sz ++ E) := by
        have hl : (pre.map sz').length = pre.length := by simp
        rw [hsh, List.map_cons, List.cons_append, ← hl, List.set_append_right _ _ (le_refl _), Nat.sub_self, List.set_cons_zero,
          List.map_append, List.map_singleton, List.append_assoc]
        have : sz' c = 1 := by rw [hsz']; simp [hc]
        rw [this]; rfl
      have hstep : squeezeChild x ind nod ts (c, pre.length) = .ok (upd (upd ts nod t) c emptyArr) := by
        have e : FullTensor.tensorMatrixProduct (ts nod) [rowOf (ts c)] (some [pre.length]) = .ok t := by
          unfold FullTensor.tensorMatrixProduct
          simp only [Option.getD_some, List.length_singleton, ne_eq, not_true_eq_false, if_false, List.zip_cons_cons, List.zip_nil_left,
            List.foldlM_cons, List.foldlM_nil, t1, bind, Except.bind]
          rfl
        unfold squeezeChild
        rw [← hq, if_pos hc]
        unfold rowOf at e
        simp only [e, bind, Except.bind]
      obtain ⟨ts', g1, g2, g3, g4⟩ := ih (pre ++ [c]) (upd (upd ts nod t) c emptyArr) hnd.2 (fun h => hnod (by simp [h]))
        (by rw [upd_ne _ _ hcn.symm, upd_self, t2, hset])
        (by
          intro c' hc' hq'
          have h1 : c' ≠ c := by rintro rfl; exact hnd.1 hc'
          have h2 : c' ≠ nod := by rintro rfl; exact hnod (by simp [hc'])
          rw [upd_ne _ _ h1, upd_ne _ _ h2]
          exact hm c' (by simp [hc']) hq')
      refine ⟨ts', ?_, ?_, ?_, ?_⟩
      · rw [hstep]
        simp only [bind, Except.bind]
        rw [hlen]; exact g1
      · rw [g2]; simp
      · intro j hj
        rw [g3 j hj]
        by_cases hjc : j = c
        · subst hjc
          rw [if_neg (fun h => hnd.1 h.1), upd_self, if_pos ⟨by simp, hc⟩]
        · rw [upd_ne _ _ hjc, upd_ne _ _ hj]
          simp [hjc]
      · intro p w e hp hw he
        cases hw with
        | cons h1 h2 =>
        rename_i a w
        have hp' : InBox ((pre ++ [c]).map sz') (p ++ [a]) := by
          rw [List.map_append]
          exact (inBox_append hp.length_eq).2 ⟨hp, .cons h1 .nil⟩
        have ha : a = 0 := by
          have : sz' c = 1 := by rw [hsz']; simp [hc]
          omega
        have := g4 (p ++ [a]) w e hp' h2 he
        simp only [List.append_assoc, List.singleton_append] at this
        rw [List.cons_append, this, upd_ne _ _ hcn.symm, upd_self]
        conv_rhs => rw [gsum, if_pos hc, List.tail_cons, ← gsum_sum]
        refine gsum_box q sz W suf (by rw [← hsz']; exact h2) ?_
        intro u hu
        rw [t3 _ ?_, hgd]
        · have hpl' : p.length = pre.length := by rw [hp.length_eq]; simp
          refine sum_congr rfl fun s hs => ?_
          rw [← hpl', List.set_append_right _ _ (le_refl _), Nat.sub_self, List.set_cons_zero,
            List.getD_append_right _ _ _ _ (le_refl _), Nat.sub_self]
          rw [List.getD_cons_zero, ha, m2 s (mem_range.1 hs), mul_comm]
          rfl
        · rw [t2, hset]
          have h3 : p ++ a :: (u ++ e) = (p ++ [a]) ++ (u ++ e) := by simp
          rw [h3]
          exact (inBox_append hp'.length_eq).2 ⟨hp', (inBox_append hu.length_eq).2 ⟨hu, he⟩⟩
    · have hstep : squeezeChild x ind nod ts (c, pre.length) = .ok ts := by
        unfold squeezeChild
        rw [← hq, if_neg hc]
      have hszc : sz' c = sz c := by rw [hsz']; simp [hc]
      obtain ⟨ts', g1, g2, g3, g4⟩ := ih (pre ++ [c]) ts hnd.2 (fun h => hnod (by simp [h]))
        (by rw [hsh]; simp [hszc])
        (fun c' hc' hq' => hm c' (by simp [hc']) hq')
      refine ⟨ts', ?_, ?_, ?_, ?_⟩
      · rw [hstep]
        simp only [bind, Except.bind]
        rw [hlen]; exact g1
      · rw [g2]; simp
      · intro j hj
        rw [g3 j hj]
        by_cases hjc : j = c
        · subst hjc; simp [hc]
        · simp [hjc]
      · intro p w e hp hw he
        cases hw with
        | cons h1 h2 =>
        rename_i a w
        have hp' : InBox ((pre ++ [c]).map sz') (p ++ [a]) := by
          rw [List.map_append]
          exact (inBox_append hp.length_eq).2 ⟨hp, .cons h1 .nil⟩
        have := g4 (p ++ [a]) w e hp' h2 he
        simp only [List.append_assoc, List.singleton_append] at this
        rw [List.cons_append, this]
        conv_rhs => rw [gsum, if_neg hc]
        rfl

theorem posOf_eq (ind : List Nat) (cs : List Nat) (hn : cs.Nodup) : removedAxes cs ind = posOf (fun c => ind.contains c) cs := by
  have key : ∀ (cs : List Nat) (k : Nat), cs.Nodup → ((cs.zipIdx k).filter (fun p => ind.contains p.1)).map Prod.snd =
      (posOf (fun c => ind.contains c) cs).map (· + k) := by
    intro cs
    induction cs with
    | nil => intro k _; rfl
    | cons c cs ih =>
      intro k hn
      rw [List.nodup_cons] at hn
      rw [posOf_cons _ hn.1, List.zipIdx_cons, List.filter_cons]
      have : ((posOf (fun c => ind.contains c) cs).map (· + 1)).map (· + k) = (posOf (fun c => ind.contains c) cs).map (· + (k + 1)) := by
        rw [List.map_map]
        exact List.map_congr_left (fun a _ => by show a + 1 + k = a + (k + 1); omega)
      by_cases hc : ind.contains c = true
      · simp only [hc, if_true, List.map_cons, this, ih (k + 1) hn.2]
        simp
      · simp only [hc, Bool.false_eq_true, if_false, this, ih (k + 1) hn.2]
  have := key cs 0 hn
  unfold removedAxes
  rw [this]; simp

/-- The value of a node is the hierarchical sum on the kept children of the contracted tensor. -/
theorem psum_gsum [CommSemiring R] {act : Nat → Bool} {ρ dim : Nat → Nat} {V : Nat → List Nat → List Nat → R} {idx : List Nat}
    (gone : Nat → Bool) (sz : Nat → Nat) (W : Nat → Nat → R) (cs : List Nat) (k : List Nat → R)
    (h1 : ∀ c ∈ cs, gone c = true → act c = true → sz c = ρ c ∧ ∀ s, V c idx [s] = W c s)
    (h2 : ∀ c ∈ cs, gone c = true → ¬ act c = true → idx.getD (dim c) 0 = 0) :
    psum act ρ dim V idx cs k = psum act ρ dim V idx (cs.filter (fun c => !gone c))
      (fun u => gsum (fun c => act c && gone c) sz W cs k (weave gone cs [] u)) := by
  induction cs generalizing k with
  | nil => rfl
  | cons c cs ih =>
    have ih' := fun k => ih k (fun c hc => h1 c (by simp [hc])) (fun c hc => h2 c (by simp [hc]))
    rw [psum]
    by_cases hg : gone c = true
    · rw [List.filter_cons_of_neg (by simp [hg])]
      by_cases ha : act c = true
      · obtain ⟨e1, e2⟩ := h1 c (by simp) hg ha
        rw [if_pos ha]
        have : ∀ u, gsum (fun c => act c && gone c) sz W (c :: cs) k (weave gone (c :: cs) [] u) =
            ∑ s ∈ range (sz c), gsum (fun c => act c && gone c) sz W cs (fun t => k (s :: t)) (weave gone cs [] u) * W c s := by
          intro u
          rw [gsum, weave, if_pos hg]
          simp only [ha, hg, Bool.and_true, if_true, List.tail_cons]
          exact sum_congr rfl fun s _ => mul_comm _ _
        simp only [this]
        rw [psum_sum, e1]
        refine sum_congr rfl fun s _ => ?_
        rw [psum_mul, ← ih', e2, mul_comm]
      · rw [if_neg ha, ih', h2 c (by simp) hg ha]
        congr 1
        funext u
        rw [gsum, weave, if_pos hg]
        simp only [ha, Bool.false_and, Bool.false_eq_true, if_false]
        rfl
    · rw [List.filter_cons_of_pos (by simp [hg])]
      have : ∀ a u, gsum (fun c => act c && gone c) sz W (c :: cs) k (weave gone (c :: cs) [] (a :: u)) =
          gsum (fun c => act c && gone c) sz W cs (fun t => k (a :: t)) (weave gone cs [] u) := by
        intro a u
        rw [gsum, weave, if_neg hg]
        simp only [hg, Bool.and_false, Bool.false_eq_true, if_false]
        rfl
      by_cases ha : act c = true
      · rw [if_pos ha, psum, if_pos ha]
        refine sum_congr rfl fun s _ => ?_
        rw [ih']
        simp only [this]
      · rw [if_neg ha, psum, if_neg ha, ih']
        simp only [this]

end Verif.TreeBased
