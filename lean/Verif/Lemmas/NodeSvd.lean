import Verif.Lemmas.EnvIp
import Verif.Lemmas.PsdSvd

/-!
# The Gram matrix of a node and the singular value decomposition of the matricization of the tensor at this node
-/

namespace Verif.Projection

open Verif.Arr Finset

theorem dSum_append (s D1 D2 : List Nat) (f : List Nat → ℝ) : dSum s (D1 ++ D2) f = dSum s D1 (dSum s D2 f) := by
  unfold dSum; rw [List.foldr_append]

theorem dSum_perm (s : List Nat) {D1 D2 : List Nat} (h : D1.Perm D2) (f : List Nat → ℝ) : dSum s D1 f = dSum s D2 f := by
  induction h with
  | nil => rfl
  | cons d _ ih => rw [dSum_cons, dSum_cons, ih]
  | swap a b l => rw [dSum_cons, dSum_cons, dSum_cons, dSum_cons, avg_comm]
  | trans _ _ h1 h2 => rw [h1, h2]

theorem dSum_range' (f : List Nat → ℝ) (s : List Nat) : ∀ (pre ip i : List Nat), ip.length = pre.length → i.length = s.length →
    dSum (pre ++ s) (List.range' pre.length s.length) f (ip ++ i) = sumBox s (fun u => f (ip ++ u)) := by
  induction s with
  | nil =>
    intro pre ip i _ hi
    have : i = [] := List.length_eq_zero_iff.1 hi
    subst this
    simp [dSum, sumBox]
  | cons n s ih =>
    intro pre ip i hp hi
    match i, hi with
    | b :: i, hi =>
      rw [List.length_cons, List.range'_succ, dSum_cons]
      unfold avg
      rw [show (pre ++ n :: s).getD pre.length 0 = n by simp]
      show _ = ∑ a ∈ range n, sumBox s (fun u => f (ip ++ a :: u))
      refine sum_congr rfl (fun a _ => ?_)
      have h1 : (ip ++ b :: i).set pre.length a = (ip ++ [a]) ++ i := by
        rw [← hp, List.set_append_right _ _ (le_refl _), Nat.sub_self]
        simp
      have h2 := ih (pre ++ [n]) (ip ++ [a]) i (by simp [hp]) (by simpa using hi)
      rw [h1]
      simpa using h2

/-- The sum over the subscripts of all the dimensions. -/
theorem dSum_all (s : List Nat) (f : List Nat → ℝ) {u : List Nat} (hu : u.length = s.length) :
    dSum s (List.range s.length) f u = sumBox s f := by
  have := dSum_range' f s [] [] u rfl hu
  simpa [List.range_eq_range'] using this

end Verif.Projection

namespace Verif.Truncation

open Finset

/-- The left singular vectors of a positive semi-definite symmetric matrix are eigenvectors. -/
theorem left_eig {n : Nat} {A : Nat → Nat → ℝ} {u w : Nat → Nat → ℝ} {σ : Nat → ℝ}
    (hA : ∀ s s', s < n → s' < n → A s s' = ∑ l ∈ range n, u s l * σ l * w l s')
    (hu : ∀ l l', l < n → l' < n → ∑ s ∈ range n, u s l * u s l' = if l = l' then 1 else 0)
    (hw : ∀ l l', l < n → l' < n → ∑ s ∈ range n, w l s * w l' s = if l = l' then 1 else 0)
    (h0 : ∀ l, l < n → 0 ≤ σ l) (hs : ∀ s s', s < n → s' < n → A s s' = A s' s)
    (hp : ∀ v : Nat → ℝ, 0 ≤ bil n A v v) {l s : Nat} (hl : l < n) (hsn : s < n) :
    ∑ s' ∈ range n, A s s' * u s' l = σ l * u s l := by
  -- `A u = σ w` and `A w = σ u`
  have h1 : ∀ s, s < n → ∑ s' ∈ range n, A s s' * u s' l = σ l * w l s := by
    intro s hsn
    rw [← left_mul hA hu hl hsn]
    refine sum_congr rfl (fun s' hs' => ?_)
    rw [hs s s' hsn (mem_range.1 hs'), mul_comm]
  have h2 : ∀ s, s < n → ∑ s' ∈ range n, A s s' * w l s' = σ l * u s l := by
    intro s hsn
    have e1 : ∀ s' ∈ range n, A s s' * w l s' = ∑ l' ∈ range n, u s l' * σ l' * (w l' s' * w l s') := by
      intro s' hs'
      rw [hA s s' hsn (mem_range.1 hs'), sum_mul]
      exact sum_congr rfl (fun l' _ => by ring)
    rw [sum_congr rfl e1, sum_comm, sum_eq_single_of_mem l (mem_range.2 hl)]
    · rw [← mul_sum, hw l l hl hl, if_pos rfl]; ring
    · intro l' hl' hne
      rw [← mul_sum, hw l' l (mem_range.1 hl') hl, if_neg hne, mul_zero]
  rw [h1 s hsn]
  -- `v = w - u` satisfies `A v = - σ v`
  have h3 : bil n A (fun s => w l s - u s l) (fun s => w l s - u s l) = - σ l * ∑ s ∈ range n, (w l s - u s l) ^ 2 := by
    unfold bil
    rw [mul_sum]
    refine sum_congr rfl (fun s hs => ?_)
    have e : ∑ s' ∈ range n, (w l s - u s l) * A s s' * (w l s' - u s' l) =
        (w l s - u s l) * (∑ s' ∈ range n, A s s' * w l s' - ∑ s' ∈ range n, A s s' * u s' l) := by
      rw [← sum_sub_distrib, mul_sum]
      exact sum_congr rfl (fun s' _ => by ring)
    rw [e, h1 s (mem_range.1 hs), h2 s (mem_range.1 hs)]
    ring
  have h4 := hp (fun s => w l s - u s l)
  rw [h3] at h4
  have h5 : 0 ≤ ∑ s ∈ range n, (w l s - u s l) ^ 2 := sum_nonneg (fun s _ => sq_nonneg _)
  rcases eq_or_lt_of_le (h0 l hl) with h | h
  · rw [← h]; ring
  · have h6 : ∑ s ∈ range n, (w l s - u s l) ^ 2 = 0 := by nlinarith
    have h7 := (sum_eq_zero_iff_of_nonneg (fun s _ => sq_nonneg (w l s - u s l))).1 h6 s (mem_range.2 hsn)
    have h8 : w l s - u s l = 0 := by simpa using h7
    rw [sub_eq_zero.1 h8]

end Verif.Truncation

namespace Verif.TreeBased

open Verif.Arr Verif.DimTree Finset Verif.Projection Verif.Truncation

/-- The dimensions that are not in a list. -/
def compl (n : Nat) (D : List Nat) : List Nat := (List.range n).filter (fun d => decide (d ∉ D))

section
variable {y : TBT ℝ} (hy : WF y) {V : Nat → List Nat → List Nat → ℝ} (hV : IsValue y V) {D : Nat → List Nat}
  (hD : RecDims y.tree D (IsNode y.tree)) (hO : ∀ u, InBox y.shape u → OrthoVal y V D u)
  {r : Nat} (hr : IsRoot y.tree r) {Q : Nat → Prop} {g : Nat → Nat → Nat → ℝ} (hg : EnvRec y r Q g)
  {i : Nat} (hq : ∀ c, AncSelf y.tree c i → Q c) (hi : IsNode y.tree i) (hir : ¬ IsRoot y.tree i) (ha : y.active i = true)

include hy hD hi in
theorem compl_perm : (compl y.shape.length (D i) ++ D i).Perm (List.range y.shape.length) := by
  have hnd := recDims_nodup hy.valid hD i hi
  rw [List.perm_ext_iff_of_nodup _ List.nodup_range]
  · intro d
    unfold compl
    simp only [List.mem_append, List.mem_filter, List.mem_range, decide_eq_true_eq]
    constructor
    · rintro (h | h)
      · exact h.1
      · obtain ⟨c, hc, _⟩ := (recDims_mem hy.valid hD i hi d).1 h
        have := (List.getElem?_eq_some_iff.1 hc).1
        simpa [TBT.shape] using this
    · intro h
      by_cases hd : d ∈ D i
      · exact Or.inr hd
      · exact Or.inl ⟨h, hd⟩
  · rw [List.nodup_append]
    refine ⟨List.nodup_range.filter _, hnd, ?_⟩
    rintro a ha b hb rfl
    unfold compl at ha
    simp at ha
    exact ha.2 hb

include hy hV hD hO hr hg hq hi hir ha in
/-- The tensor as a sum over the rank of a node of products of two functions, and the Gram matrix of the second ones. -/
theorem env_split : ∃ F : Nat → List Nat → List Nat → ℝ,
    (∀ p e, V r p e = ∑ s ∈ range (y.lastDim i), V i p [s] * F s p e) ∧
    (∀ s, ∀ d ∈ D i, ∀ p a e, F s (p.set d a) e = F s p e) ∧
    (∀ G, PathVal y V G i → ∀ p e, G r p e = ∑ s ∈ range (y.lastDim i), G i p [s] * F s p e) ∧
    ∀ s s', s < y.lastDim i → s' < y.lastDim i → ∀ u, InBox y.shape u →
      sumBox (rankShape y r) (fun e => dSum y.shape (compl y.shape.length (D i)) (fun p => F s p e * F s' p e) u) = g i s s' := by
  have hex : ∀ s : Nat, ∃ G, PathVal y V G i ∧ G i = fun (_ : List Nat) (e : List Nat) => if e = [s] then (1 : ℝ) else 0 :=
    fun s => exists_path hy hi _
  choose E hE hEi using hex
  have hEi' : ∀ s idx e, E s i idx e = if e = [s] then 1 else 0 := fun s idx e => by rw [hEi]
  obtain ⟨r0, hr0, hall⟩ := hy.valid.rooted
  have hrr := root_unique hy.valid hr hr0
  have hri : AncSelf y.tree r i := by rw [hrr]; exact hall i hi
  have hrne : r ≠ i := fun h => hir (h ▸ hr)
  have hVp : PathVal y V V i := ⟨fun _ _ _ _ _ _ => rfl, fun j hj idx e => hV.node j (anc_isNode hj) (path_internal hy hj) idx e⟩
  have hind : ∀ q, ∀ d ∈ D i, ∀ p a e, E q r (p.set d a) e = E q r p e := by
    intro q d hd p a e
    exact env_indep hy hV hD ha (hE q) (fun p p' e => by rw [hEi', hEi']) hd hri p a e
  refine ⟨fun s => E s r, fun p e => path_lin hy ha hVp hE hEi' hri p e (fun h => absurd h hrne), hind,
    fun G hG p e => path_lin hy ha hG hE hEi' hri p e (fun h => absurd h hrne), ?_⟩
  intro q q' hq1 hq2 u hu
  have hpos : 0 < y.lastDim i := by omega
  have hex2 : ∀ q : Nat, ∃ G, PathVal y V G i ∧ G i = fun (p : List Nat) (e : List Nat) => V i p [0] * if e = [q] then (1 : ℝ) else 0 :=
    fun s => exists_path hy hi _
  choose B hB hBi using hex2
  have hA : ∀ q p s, B q i p [s] = ∑ a ∈ range (y.lastDim i), V i p [a] * (if a = 0 ∧ s = q then 1 else 0) := by
    intro q p s
    rw [hBi, sum_eq_single_of_mem 0 (mem_range.2 hpos)]
    · simp
    · intro b _ hb; simp [hb]
  have hBr : ∀ q, q < y.lastDim i → ∀ p e, B q r p e = V i p [0] * E q r p e := by
    intro q hq p e
    rw [path_lin hy ha (hB q) hE hEi' hri p e (fun h => absurd h hrne), sum_eq_single_of_mem q (mem_range.2 hq)]
    · rw [hBi]; simp
    · intro b _ hb
      rw [hBi]; simp [hb]
  have h := env_ip hy hV hD hO hr hg hq hi hir ha (hB q) (hB q') (hA q) (hA q')
  have hsum : ∑ s ∈ range (y.lastDim i), ∑ s' ∈ range (y.lastDim i), g i s s' * ∑ a ∈ range (y.lastDim i),
      (if a = 0 ∧ s = q then (1 : ℝ) else 0) * (if a = 0 ∧ s' = q' then 1 else 0) = g i q q' := by
    rw [sum_eq_single_of_mem q (mem_range.2 hq1), sum_eq_single_of_mem q' (mem_range.2 hq2), sum_eq_single_of_mem 0 (mem_range.2 hpos)]
    · simp
    · intro b _ hb; simp [hb]
    · intro b _ hb
      rw [sum_eq_zero, mul_zero]
      intro a _; simp [hb]
    · intro b _ hb
      apply sum_eq_zero
      intro s' _
      rw [sum_eq_zero, mul_zero]
      intro a _; simp [hb]
  rw [hsum] at h
  rw [← h]
  unfold ipR
  apply sumBox_congr
  intro e _
  unfold ip
  rw [← dSum_all _ _ hu.length_eq, ← dSum_perm _ (compl_perm hy hD hi), dSum_append]
  apply dSum_congr _ _ hu
  intro p hp
  have e1 : (fun p => B q r p e * B q' r p e) = fun p => (E q r p e * E q' r p e) * (V i p [0] * V i p [0]) := by
    funext p
    rw [hBr q hq1, hBr q' hq2]; ring
  rw [e1, dSum_mul _ (fun p => E q r p e * E q' r p e) _ (fun d hd p a => by rw [hind q d hd, hind q' d hd]),
    value_orth hO hi hir ha hpos hpos hp]
  simp

include hy hV hD hO hr hg hq hi hir ha in
/-- A singular value decomposition of the Gram matrix of a node gives one of the matricization of the tensor. -/
theorem env_svd {u w : Nat → Nat → ℝ} {σ : Nat → ℝ}
    (hA : ∀ s s', s < y.lastDim i → s' < y.lastDim i → g i s s' = ∑ l ∈ range (y.lastDim i), u s l * σ l * w l s')
    (hu : ∀ l l', l < y.lastDim i → l' < y.lastDim i → ∑ s ∈ range (y.lastDim i), u s l * u s l' = if l = l' then 1 else 0)
    (hw : ∀ l l', l < y.lastDim i → l' < y.lastDim i → ∑ s ∈ range (y.lastDim i), w l s * w l' s = if l = l' then 1 else 0)
    (h0 : ∀ l, l < y.lastDim i → 0 ≤ σ l) :
    ∃ (A : Nat → List Nat → ℝ) (B : Nat → List Nat → List Nat → ℝ),
      (∀ l, ∀ d ∉ D i, ∀ p a, A l (p.set d a) = A l p) ∧ (∀ l, ∀ d ∈ D i, ∀ p a e, B l (p.set d a) e = B l p e) ∧
      (∀ p e, V r p e = ∑ l ∈ range (y.lastDim i), A l p * B l p e) ∧
      (∀ l l', l < y.lastDim i → l' < y.lastDim i → ∀ p, InBox y.shape p →
        dSum y.shape (D i) (fun p => A l p * A l' p) p = if l = l' then 1 else 0) ∧
      ∀ l l', l < y.lastDim i → l' < y.lastDim i → ∀ p, InBox y.shape p →
        sumBox (rankShape y r) (fun e => dSum y.shape (compl y.shape.length (D i)) (fun p => B l p e * B l' p e) p) =
          if l = l' then σ l else 0 := by
  obtain ⟨F, f1, f2, -, f3⟩ := env_split hy hV hD hO hr hg hq hi hir ha
  have hcomp := complete u hu
  have hsym := fun s s' hs hs' => env_symm hy hV hD hO hr hg hq hi hir ha (s := s) (s' := s') hs hs'
  have hpsd := fun v => env_psd hy hV hD hO hr hg hq hi hir ha v
  refine ⟨newB y V i u, fun l p e => ∑ s ∈ range (y.lastDim i), u s l * F s p e, ?_, ?_, ?_, ?_, ?_⟩
  · intro l d hd p a
    unfold newB
    refine sum_congr rfl (fun s _ => ?_)
    have := childVal_indep y hy V hV D hD hi s hd p a
    unfold childVal at this
    rw [if_pos ha, if_pos ha] at this
    rw [this]
  · intro l d hd p a e
    exact sum_congr rfl (fun s _ => by rw [f2 s d hd])
  · intro p e
    rw [f1]
    have e1 : ∀ l ∈ range (y.lastDim i), newB y V i u l p * ∑ s ∈ range (y.lastDim i), u s l * F s p e =
        ∑ s ∈ range (y.lastDim i), ∑ s' ∈ range (y.lastDim i), V i p [s] * F s' p e * (u s l * u s' l) := by
      intro l _
      unfold newB
      rw [sum_mul_sum]
      exact sum_congr rfl (fun s _ => sum_congr rfl (fun s' _ => by ring))
    rw [sum_congr rfl e1, sum_comm]
    refine sum_congr rfl (fun s hs => ?_)
    rw [sum_comm, sum_eq_single_of_mem s hs]
    · rw [← mul_sum, hcomp s s (mem_range.1 hs) (mem_range.1 hs), if_pos rfl, mul_one]
    · intro s' hs' hne
      rw [← mul_sum, hcomp s s' (mem_range.1 hs) (mem_range.1 hs'), if_neg (Ne.symm hne), mul_zero]
  · intro l l' hl hl' p hp
    have e1 : (fun p => newB y V i u l p * newB y V i u l' p) =
        fun p => ∑ s ∈ range (y.lastDim i), (fun _ => u s l') p * (newB y V i u l p * V i p [s]) := by
      funext p
      conv_lhs => rw [show newB y V i u l' p = ∑ s ∈ range (y.lastDim i), V i p [s] * u s l' from rfl]
      rw [mul_sum]; exact sum_congr rfl (fun s _ => by ring)
    rw [e1, dSum_sum, ← hu l l' hl hl']
    refine sum_congr rfl (fun s hs => ?_)
    rw [dSum_mul _ (fun _ => u s l') _ (fun _ _ _ _ => rfl), newB_sum hO hi hir ha u (mem_range.1 hs) l hp]
    ring
  · intro l l' hl hl' p hp
    have e1 : sumBox (rankShape y r) (fun e => dSum y.shape (compl y.shape.length (D i)) (fun p =>
        (∑ s ∈ range (y.lastDim i), u s l * F s p e) * ∑ s ∈ range (y.lastDim i), u s l' * F s p e) p) =
        ∑ s ∈ range (y.lastDim i), ∑ s' ∈ range (y.lastDim i), u s l * g i s s' * u s' l' := by
      have e2 : ∀ e, dSum y.shape (compl y.shape.length (D i)) (fun p =>
          (∑ s ∈ range (y.lastDim i), u s l * F s p e) * ∑ s ∈ range (y.lastDim i), u s l' * F s p e) p =
          ∑ s ∈ range (y.lastDim i), ∑ s' ∈ range (y.lastDim i), u s l * u s' l' *
            dSum y.shape (compl y.shape.length (D i)) (fun p => F s p e * F s' p e) p := by
        intro e
        have e3 : (fun p => (∑ s ∈ range (y.lastDim i), u s l * F s p e) * ∑ s ∈ range (y.lastDim i), u s l' * F s p e) =
            fun p => ∑ s ∈ range (y.lastDim i), ∑ s' ∈ range (y.lastDim i), (fun _ => u s l * u s' l') p * (F s p e * F s' p e) := by
          funext p
          rw [sum_mul_sum]
          exact sum_congr rfl (fun s _ => sum_congr rfl (fun s' _ => by ring))
        rw [e3, dSum_sum]
        refine sum_congr rfl (fun s _ => ?_)
        rw [dSum_sum]
        refine sum_congr rfl (fun s' _ => ?_)
        rw [dSum_mul _ (fun _ => u s l * u s' l') _ (fun _ _ _ _ => rfl)]
      simp only [e2, sumBox_eq_sum]
      rw [sum_comm]
      refine sum_congr rfl (fun s hs => ?_)
      rw [sum_comm]
      refine sum_congr rfl (fun s' hs' => ?_)
      rw [← f3 s s' (mem_range.1 hs) (mem_range.1 hs') p hp, sumBox_eq_sum, mul_sum, sum_mul]
      exact sum_congr rfl (fun e _ => by ring)
    rw [e1]
    have e4 : ∀ s ∈ range (y.lastDim i), ∑ s' ∈ range (y.lastDim i), u s l * g i s s' * u s' l' = σ l' * (u s l * u s l') := by
      intro s hs
      have := left_eig (A := fun s s' => g i s s') hA hu hw h0 hsym hpsd hl' (mem_range.1 hs)
      rw [show σ l' * (u s l * u s l') = u s l * (σ l' * u s l') by ring, ← this, mul_sum]
      exact sum_congr rfl (fun s' _ => by ring)
    rw [sum_congr rfl e4, ← mul_sum, hu l l' hl hl']
    split
    · rename_i h; rw [h, mul_one]
    · rw [mul_zero]

end
end Verif.TreeBased
