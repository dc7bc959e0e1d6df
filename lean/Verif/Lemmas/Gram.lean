import Verif.Props.TreeModes

/-!
# Weighted sums over the subscripts of some dimensions, and Gram matrices of the nodes of a tree
-/

namespace Verif.TreeBased

open Verif.Arr Verif.DimTree Finset

variable {R : Type}

/-- The sum over the subscripts `a`, `b` of the dimensions of a list, in two index tuples, weighted by the products of
the entries `M d a b`. -/
def mSum [CommSemiring R] (sx sy : List Nat) (M : Nat → Nat → Nat → R) :
    List Nat → (List Nat → List Nat → R) → List Nat → List Nat → R
  | [], f, i, j => f i j
  | d :: ds, f, i, j => ∑ a ∈ range (sx.getD d 0), ∑ b ∈ range (sy.getD d 0),
      M d a b * mSum sx sy M ds f (i.set d a) (j.set d b)

section mSum

variable [CommSemiring R] {sx sy : List Nat} {M : Nat → Nat → Nat → R}

theorem inBox_set {s i : List Nat} (h : InBox s i) {d a : Nat} (ha : a < s.getD d 0) : InBox s (i.set d a) := by
  rw [inBox_iff_getD] at h ⊢
  refine ⟨by simpa using h.1, fun k hk => ?_⟩
  rw [getD_set]
  split
  · rename_i hc; rw [← hc.1]; exact ha
  · exact h.2 k hk

theorem mSum_congr (D : List Nat) {f g : List Nat → List Nat → R} {i j : List Nat} (hi : InBox sx i) (hj : InBox sy j)
    (h : ∀ i j, InBox sx i → InBox sy j → f i j = g i j) : mSum sx sy M D f i j = mSum sx sy M D g i j := by
  induction D generalizing i j with
  | nil => exact h i j hi hj
  | cons d D ih =>
    unfold mSum
    refine sum_congr rfl (fun a ha => sum_congr rfl (fun b hb => ?_))
    rw [ih (inBox_set hi (mem_range.1 ha)) (inBox_set hj (mem_range.1 hb))]

theorem mSum_mul (D : List Nat) (c : R) (f : List Nat → List Nat → R) (i j : List Nat) :
    mSum sx sy M D (fun i j => c * f i j) i j = c * mSum sx sy M D f i j := by
  induction D generalizing i j with
  | nil => rfl
  | cons d D ih =>
    unfold mSum
    rw [mul_sum]
    refine sum_congr rfl (fun a _ => ?_)
    rw [mul_sum]
    refine sum_congr rfl (fun b _ => ?_)
    rw [ih]; ring

theorem mSum_sum {ι : Type} (S : Finset ι) (D : List Nat) (f : ι → List Nat → List Nat → R) (i j : List Nat) :
    mSum sx sy M D (fun i j => ∑ s ∈ S, f s i j) i j = ∑ s ∈ S, mSum sx sy M D (f s) i j := by
  induction D generalizing i j with
  | nil => rfl
  | cons d D ih =>
    unfold mSum
    simp only [ih, mul_sum]
    have h1 : ∀ a, (∑ b ∈ range (sy.getD d 0), ∑ s ∈ S, M d a b * mSum sx sy M D (f s) (i.set d a) (j.set d b)) =
        ∑ s ∈ S, ∑ b ∈ range (sy.getD d 0), M d a b * mSum sx sy M D (f s) (i.set d a) (j.set d b) := fun a => sum_comm
    simp only [h1]
    rw [sum_comm]

theorem mSum_sumBox (s : List Nat) (D : List Nat) (f : List Nat → List Nat → List Nat → R) (i j : List Nat) :
    mSum sx sy M D (fun i j => sumBox s (fun t => f t i j)) i j = sumBox s (fun t => mSum sx sy M D (f t) i j) := by
  simp only [sumBox_eq_sum]
  exact mSum_sum _ D _ i j

theorem mSum_append (D1 D2 : List Nat) (f : List Nat → List Nat → R) (i j : List Nat) :
    mSum sx sy M (D1 ++ D2) f i j = mSum sx sy M D1 (fun i j => mSum sx sy M D2 f i j) i j := by
  induction D1 generalizing i j with
  | nil => rfl
  | cons d D1 ih =>
    rw [List.cons_append]
    unfold mSum
    refine sum_congr rfl (fun a _ => sum_congr rfl (fun b _ => ?_))
    rw [ih]

/-- A function of two index tuples that does not depend on the dimension `d`. -/
def Indep (f : List Nat → List Nat → R) (d : Nat) : Prop := ∀ i j a b, f (i.set d a) (j.set d b) = f i j

theorem mSum_mul_indep (D : List Nat) (f g : List Nat → List Nat → R) (hf : ∀ d ∈ D, Indep f d) (i j : List Nat) :
    mSum sx sy M D (fun i j => f i j * g i j) i j = f i j * mSum sx sy M D g i j := by
  induction D generalizing i j with
  | nil => rfl
  | cons d D ih =>
    unfold mSum
    rw [mul_sum]
    refine sum_congr rfl (fun a _ => ?_)
    rw [mul_sum]
    refine sum_congr rfl (fun b _ => ?_)
    rw [ih (fun d' hd' => hf d' (by simp [hd'])), hf d (by simp)]; ring

theorem mSum_indep (D : List Nat) (f : List Nat → List Nat → R) (d : Nat) (hd : d ∉ D) (hf : Indep f d) :
    Indep (mSum sx sy M D f) d := by
  induction D with
  | nil => exact hf
  | cons d' D ih =>
    intro i j a b
    unfold mSum
    refine sum_congr rfl (fun a' _ => sum_congr rfl (fun b' _ => ?_))
    have hne : d ≠ d' := fun h => hd (by simp [h])
    rw [List.set_comm _ _ hne, List.set_comm _ _ hne, ih (fun h => hd (by simp [h]))]

/-- The sum of a product of a function of the dimensions `D1` and a function of the dimensions `D2`. -/
theorem mSum_prod (D1 D2 : List Nat) (f g : List Nat → List Nat → R) (hf : ∀ d ∈ D2, Indep f d)
    (hg : ∀ d ∈ D1, Indep g d) (hd : D1.Disjoint D2) (i j : List Nat) :
    mSum sx sy M (D1 ++ D2) (fun i j => f i j * g i j) i j = mSum sx sy M D1 f i j * mSum sx sy M D2 g i j := by
  rw [mSum_append]
  have h1 : (fun i j => mSum sx sy M D2 (fun i j => f i j * g i j) i j) =
      fun i j => mSum sx sy M D2 g i j * f i j := by
    funext i j
    rw [mSum_mul_indep D2 f g hf, mul_comm]
  rw [h1, mSum_mul_indep D1 _ f (fun d hd' => mSum_indep D2 g d (hd hd') (hg d hd'))]
  ring

theorem mSum_swap (d d' : Nat) (hne : d ≠ d') (D : List Nat) (f : List Nat → List Nat → R) (i j : List Nat) :
    mSum sx sy M (d :: d' :: D) f i j = mSum sx sy M (d' :: d :: D) f i j := by
  simp only [mSum, mul_sum]
  have key : ∀ (n m n' m' : Nat) (F : Nat → Nat → Nat → Nat → R),
      (∑ a ∈ range n, ∑ b ∈ range m, ∑ a' ∈ range n', ∑ b' ∈ range m', F a b a' b') =
      ∑ a' ∈ range n', ∑ b' ∈ range m', ∑ a ∈ range n, ∑ b ∈ range m, F a b a' b' := by
    intro n m n' m' F
    have h1 : ∀ a, (∑ b ∈ range m, ∑ a' ∈ range n', ∑ b' ∈ range m', F a b a' b') =
        ∑ a' ∈ range n', ∑ b' ∈ range m', ∑ b ∈ range m, F a b a' b' := by
      intro a
      rw [sum_comm]
      exact sum_congr rfl (fun a' _ => sum_comm)
    simp only [h1]
    rw [sum_comm]
    exact sum_congr rfl (fun a' _ => sum_comm)
  rw [key]
  refine sum_congr rfl (fun a' _ => sum_congr rfl (fun b' _ => sum_congr rfl (fun a _ => sum_congr rfl (fun b _ => ?_))))
  rw [List.set_comm _ _ hne, List.set_comm _ _ hne]; ring

theorem mSum_perm {D D' : List Nat} (h : D.Perm D') (hn : D.Nodup) (f : List Nat → List Nat → R) (i j : List Nat) :
    mSum sx sy M D f i j = mSum sx sy M D' f i j := by
  induction h generalizing i j with
  | nil => rfl
  | cons d _ ih =>
    unfold mSum
    rw [List.nodup_cons] at hn
    refine sum_congr rfl (fun a _ => sum_congr rfl (fun b _ => ?_))
    rw [ih hn.2]
  | swap d d' D =>
    refine mSum_swap _ _ ?_ D f i j
    intro h
    simp [h] at hn
  | trans h1 _ ih1 ih2 => rw [ih1 hn, ih2 (h1.nodup_iff.1 hn)]

/-- The sum over all the dimensions is a sum over the two boxes. -/
theorem mSum_range (f : List Nat → List Nat → R) (hl : sx.length = sy.length) : ∀ (k : Nat) (i j : List Nat),
    i.length = sx.length → j.length = sy.length → k ≤ sx.length →
    mSum sx sy M ((List.range (sx.length - k)).map (· + k)) f i j =
      sumBox (sx.drop k) (fun u => sumBox (sy.drop k) (fun v =>
        ((List.range (sx.length - k)).map (fun m => M (m + k) (u.getD m 0) (v.getD m 0))).prod * f (i.take k ++ u) (j.take k ++ v))) := by
  intro k i j hi hj hk
  generalize hm : sx.length - k = m
  induction m generalizing k i j with
  | zero =>
    have hk' : k = sx.length := by omega
    subst hk'
    rw [List.drop_length, show sy.drop sx.length = [] by rw [hl, List.drop_length]]
    simp [mSum, sumBox]
    rw [List.take_of_length_le (by omega), List.take_of_length_le (by omega)]
  | succ m ih =>
    have hkx : k < sx.length := by omega
    have hky : k < sy.length := by omega
    rw [List.drop_eq_getElem_cons hkx, List.drop_eq_getElem_cons hky, List.range_succ_eq_map, List.map_cons]
    unfold mSum
    simp only [Nat.zero_add, List.map_map]
    rw [List.getD_eq_getElem _ _ hkx, List.getD_eq_getElem _ _ hky]
    simp only [sumBox]
    refine sum_congr rfl (fun a _ => ?_)
    have h1 : sumBox (sx.drop (k + 1)) (fun is => ∑ b ∈ range sy[k], sumBox (sy.drop (k + 1)) fun is_1 =>
        (List.map (fun m => M (m + k) ((a :: is).getD m 0) ((b :: is_1).getD m 0)) (0 :: List.map Nat.succ (List.range m))).prod *
          f (i.take k ++ a :: is) (j.take k ++ b :: is_1)) =
        ∑ b ∈ range sy[k], sumBox (sx.drop (k + 1)) (fun is => sumBox (sy.drop (k + 1)) fun is_1 =>
        (List.map (fun m => M (m + k) ((a :: is).getD m 0) ((b :: is_1).getD m 0)) (0 :: List.map Nat.succ (List.range m))).prod *
          f (i.take k ++ a :: is) (j.take k ++ b :: is_1)) := by
      exact (sum_sumBox_comm _ _ (fun b is => _)).symm
    rw [h1]
    refine sum_congr rfl (fun b _ => ?_)
    have h2 : (List.range m).map ((fun x => x + k) ∘ Nat.succ) = (List.range m).map (· + (k + 1)) := by
      apply List.map_congr_left; intro q _; simp only [Function.comp]; omega
    rw [h2, ih (k + 1) (i.set k a) (j.set k b) (by simpa using hi) (by simpa using hj) (by omega) (by omega)]
    rw [← sumBox_mul_left]
    apply sumBox_congr
    intro u _
    rw [← sumBox_mul_left]
    apply sumBox_congr
    intro v _
    have t1 : ∀ (l : List Nat) (x : Nat), k < l.length → (l.set k x).take (k + 1) = l.take k ++ [x] := by
      intro l x h
      rw [List.take_succ_eq_append_getElem (by simpa using h)]
      simp [List.take_set_of_le]
    rw [t1 i a (by omega), t1 j b (by omega)]
    simp only [List.map_cons, List.prod_cons, List.getD_cons_zero, List.map_map, List.append_assoc, List.singleton_append, Nat.zero_add]
    have h3 : (List.range m).map ((fun m => M (m + k) ((a :: u).getD m 0) ((b :: v).getD m 0)) ∘ Nat.succ) =
        (List.range m).map (fun m => M (m + (k + 1)) (u.getD m 0) (v.getD m 0)) := by
      apply List.map_congr_left; intro q _
      simp only [Function.comp, Nat.succ_eq_add_one, List.getD_cons_succ]
      rw [show q + 1 + k = q + (k + 1) by omega]
    rw [h3]; ring

end mSum

/-! ### the values of the children as products -/

/-- The value of a child at the subscript `s` of its axis in its parent: for an inactive leaf, one if `s` is the subscript
of the dimension. -/
def childVal [CommSemiring R] (x : TBT R) (V : Nat → List Nat → List Nat → R) (c : Nat) (idx : List Nat) (s : Nat) : R :=
  if x.active c then V c idx [s] else if idx.getD (dimOf x.tree c) 0 = s then 1 else 0

/-- The product of the values of children. -/
def childProd [CommSemiring R] (x : TBT R) (V : Nat → List Nat → List Nat → R) (cs : List Nat) (idx t : List Nat) : R :=
  (List.zipWith (fun c s => childVal x V c idx s) cs t).prod

theorem childSum_box [CommSemiring R] (x : TBT R) (V : Nat → List Nat → List Nat → R) (idx : List Nat) (cs : List Nat)
    (hidx : ∀ c ∈ cs, ¬ x.active c → idx.getD (dimOf x.tree c) 0 < childSize x c) (k : List Nat → R) :
    childSum x V idx cs k = sumBox (cs.map (childSize x)) (fun t => childProd x V cs idx t * k t) := by
  induction cs generalizing k with
  | nil => simp [childSum, sumBox, childProd]
  | cons c cs ih =>
    have ih' := fun k => ih (fun c' hc' => hidx c' (by simp [hc'])) k
    unfold childSum
    rw [List.map_cons]
    simp only [sumBox]
    by_cases ha : x.active c = true
    · rw [if_pos ha]
      have hcs : childSize x c = x.lastDim c := by unfold childSize; rw [if_pos ha]
      rw [hcs]
      refine sum_congr rfl (fun s _ => ?_)
      rw [ih', ← sumBox_mul_left]
      apply sumBox_congr
      intro t _
      simp only [childProd, List.zipWith_cons_cons, List.prod_cons, childVal, if_pos ha]
      ring
    · rw [if_neg ha, ih']
      have h0 := hidx c (by simp) ha
      have : ∀ s, sumBox (cs.map (childSize x)) (fun t => childProd x V (c :: cs) idx (s :: t) * k (s :: t)) =
          if idx.getD (dimOf x.tree c) 0 = s then
            sumBox (cs.map (childSize x)) (fun t => childProd x V cs idx t * k (s :: t)) else 0 := by
        intro s
        split
        · rename_i hs
          apply sumBox_congr
          intro t _
          simp only [childProd, List.zipWith_cons_cons, List.prod_cons, childVal, if_neg ha, if_pos hs, one_mul]
        · rename_i hs
          rw [← sumBox_zero (R := R) (cs.map (childSize x))]
          apply sumBox_congr
          intro t _
          simp only [childProd, List.zipWith_cons_cons, List.prod_cons, childVal, if_neg ha, if_neg hs, zero_mul]
      simp only [this]
      rw [sum_ite_eq, if_pos (mem_range.2 h0)]

/-! ### Gram matrices -/

section gram

variable [CommSemiring R] (x y : TBT R) (hx : WF x) (hy : WF y) (ht : y.tree = x.tree)
  (V W : Nat → List Nat → List Nat → R) (hV : IsValue x V) (hW : IsValue y W) (D : Nat → List Nat)
  (hD : RecDims x.tree D (IsNode x.tree)) (M : Nat → Nat → Nat → R)

/-- The scalar products of the values of a node of `x` with those of `y`, over the dimensions below the node. -/
def gram (x y : TBT R) (V W : Nat → List Nat → List Nat → R) (D : Nat → List Nat) (M : Nat → Nat → Nat → R) (i : Nat)
    (e e' : List Nat) (u v : List Nat) : R :=
  mSum x.shape y.shape M (D i) (fun p q => V i p e * W i q e') u v

/-- The same for the axis of a child in its parent. -/
def cgram (x y : TBT R) (V W : Nat → List Nat → List Nat → R) (D : Nat → List Nat) (M : Nat → Nat → Nat → R) (c : Nat)
    (s s' : Nat) (u v : List Nat) : R :=
  mSum x.shape y.shape M (D c) (fun p q => childVal x V c p s * childVal y W c q s') u v

theorem cgram_active {c : Nat} (ha : x.active c = true) (hb : y.active c = true) (s s' : Nat) (u v : List Nat) :
    cgram x y V W D M c s s' u v = gram x y V W D M c [s] [s'] u v := by
  unfold cgram gram childVal
  simp only [if_pos ha, if_pos hb]

include hD in
theorem cgram_inactive (hVl : Valid x.tree) {c : Nat} (hc : c ∈ x.tree.dim2ind) (hty : y.tree = x.tree)
    (ha : ¬ x.active c = true) (hb : ¬ y.active c = true)
    (s s' : Nat) (hs : s < x.leafSize c) (hs' : s' < y.leafSize c) (u v : List Nat) (hu : u.length = x.shape.length)
    (hv : v.length = y.shape.length) :
    cgram x y V W D M c s s' u v = M (dimOf x.tree c) s s' := by
  have hd : D c = [dimOf x.tree c] := by
    rw [hD.1 c ((isLeaf_mem _ _).2 hc), initDims_spec hVl (dimOf x.tree c) c (dim2ind_dimOf hc)]
  unfold cgram childVal
  simp only [if_neg ha, if_neg hb, hd, mSum]
  rw [shape_getD hc]
  have hsy : y.shape.getD (dimOf x.tree c) 0 = y.leafSize c := by
    have := shape_getD (x := y) (c := c) (by rw [hty]; exact hc)
    rw [hty] at this; exact this
  have hlt := dimOf_lt hc
  have hul : dimOf x.tree c < u.length := by rw [hu]; simpa [TBT.shape] using hlt
  have hvl : dimOf x.tree c < v.length := by rw [hv]; simp [TBT.shape, hty]; exact hlt
  rw [hsy, hty]
  have e1 : ∀ a, (u.set (dimOf x.tree c) a).getD (dimOf x.tree c) 0 = a := fun a => by rw [getD_set]; simp [hul]
  have e2 : ∀ a, (v.set (dimOf x.tree c) a).getD (dimOf x.tree c) 0 = a := fun a => by rw [getD_set]; simp [hvl]
  simp only [e1, e2]
  rw [sum_eq_single_of_mem s (mem_range.2 hs) (fun a _ hne => by
      apply sum_eq_zero; intro b _; rw [if_neg hne]; ring),
    sum_eq_single_of_mem s' (mem_range.2 hs') (fun b _ hne => by rw [if_neg hne]; ring)]
  simp

include hx hV hD in
theorem childVal_indep {c : Nat} (hc : IsNode x.tree c) (s : Nat) {d : Nat} (hd : d ∉ D c) (p : List Nat) (a : Nat) :
    childVal x V c (p.set d a) s = childVal x V c p s := by
  have hl : ∀ l ∈ x.tree.dim2ind, AncSelf x.tree c l → (p.set d a).getD (dimOf x.tree l) 0 = p.getD (dimOf x.tree l) 0 := by
    intro l hl hal
    have hne : d ≠ dimOf x.tree l := by
      intro h
      exact hd ((recDims_mem hx.valid hD c hc d).2 ⟨l, by rw [h]; exact dim2ind_dimOf hl, hal⟩)
    rw [getD_set, if_neg (fun h => hne h.1)]
  unfold childVal
  split
  · rename_i ha
    exact value_indep x hx hV c hc ha hl [s]
  · rename_i ha
    rw [hl c (hx.inactive_leaf hc ha) .refl]

/-- The values of a child do not depend on the subscripts of the dimensions that are not below it. -/
def ChildIndep (x : TBT R) (V : Nat → List Nat → List Nat → R) (D : Nat → List Nat) (c : Nat) : Prop :=
  ∀ d, d ∉ D c → ∀ p a s, childVal x V c (p.set d a) s = childVal x V c p s

theorem mSum_children' : ∀ (cs t t' : List Nat), (∀ c ∈ cs, ChildIndep x V D c ∧ ChildIndep y W D c) →
    cs.Pairwise (fun c c' => (D c).Disjoint (D c')) → t.length = cs.length → t'.length = cs.length → ∀ u v,
    mSum x.shape y.shape M (cs.flatMap D) (fun p q => childProd x V cs p t * childProd y W cs q t') u v =
      (List.zipWith (fun c (s : Nat × Nat) => cgram x y V W D M c s.1 s.2 u v) cs (t.zip t')).prod := by
  intro cs
  induction cs with
  | nil => intro t t' _ _ _ _ u v; simp [childProd, mSum]
  | cons c cs ih =>
    intro t t' hn hp hl hl' u v
    cases t with
    | nil => simp at hl
    | cons s t =>
    cases t' with
    | nil => simp at hl'
    | cons s' t' =>
    rw [List.pairwise_cons] at hp
    rw [List.flatMap_cons, List.zip_cons_cons, List.zipWith_cons_cons, List.prod_cons]
    have h1 : (fun p q => childProd x V (c :: cs) p (s :: t) * childProd y W (c :: cs) q (s' :: t')) =
        (fun p q => (childVal x V c p s * childVal y W c q s') * (childProd x V cs p t * childProd y W cs q t')) := by
      funext p q
      simp only [childProd, List.zipWith_cons_cons, List.prod_cons]; ring
    rw [h1, mSum_prod]
    · rw [ih t t' (fun c' hc' => hn c' (by simp [hc'])) hp.2 (by simpa using hl) (by simpa using hl')]
      rfl
    · intro d hd p q a b
      obtain ⟨c', hc', hdc⟩ := List.mem_flatMap.1 hd
      have hnd : d ∉ D c := fun h => hp.1 c' hc' h hdc
      have hcn := hn c (by simp)
      simp only []
      rw [hcn.1 d hnd, hcn.2 d hnd]
    · intro d hd p q a b
      have key : ∀ (z : TBT R) (Z : Nat → List Nat → List Nat → R)
          (cs : List Nat) (t : List Nat) (p : List Nat) (a : Nat), (∀ c' ∈ cs, ChildIndep z Z D c' ∧ d ∉ D c') →
          childProd z Z cs (p.set d a) t = childProd z Z cs p t := by
        intro z Z cs t p a hcs
        unfold childProd
        congr 1
        induction cs generalizing t with
        | nil => rfl
        | cons c' cs ihc =>
          cases t with
          | nil => rfl
          | cons s t =>
            simp only [List.zipWith_cons_cons]
            rw [ihc t (fun c'' hc'' => hcs c'' (by simp [hc''])),
              (hcs c' (by simp)).1 d (hcs c' (by simp)).2]
      have hcs : ∀ c' ∈ cs, d ∉ D c' := fun c' hc' h => hp.1 c' hc' hd h
      simp only []
      rw [key x V cs t p a (fun c' hc' => ⟨(hn c' (by simp [hc'])).1, hcs c' hc'⟩),
        key y W cs t' q b (fun c' hc' => ⟨(hn c' (by simp [hc'])).2, hcs c' hc'⟩)]
    · intro d hd hd'
      obtain ⟨c', hc', hdc⟩ := List.mem_flatMap.1 hd'
      exact hp.1 c' hc' hd hdc

include hx hy ht hD in
/-- The Gram matrix of a node from those of its children, for families of values that satisfy the equation of this node. -/
theorem gram_node' {i : Nat} (hi : IsNode x.tree i) (hl : i ∉ x.tree.dim2ind) (e e' u v : List Nat)
    (hu : InBox x.shape u) (hv : InBox y.shape v)
    (hVi : ∀ p, V i p e = childSum x V p (x.tree.children i) (fun t => (x.tensors i).get (t ++ e)))
    (hWi : ∀ p, W i p e' = childSum y W p (x.tree.children i) (fun t => (y.tensors i).get (t ++ e')))
    (hci : ∀ c ∈ x.tree.children i, ChildIndep x V D c ∧ ChildIndep y W D c) :
    gram x y V W D M i e e' u v = sumBox ((x.tree.children i).map (childSize x)) (fun t =>
      sumBox ((x.tree.children i).map (childSize y)) (fun t' =>
        (x.tensors i).get (t ++ e) * (y.tensors i).get (t' ++ e') *
          (List.zipWith (fun c (s : Nat × Nat) => cgram x y V W D M c s.1 s.2 u v) (x.tree.children i) (t.zip t')).prod)) := by
  have hlf : x.tree.isLeaf i = false := by
    by_contra hc; exact hl ((isLeaf_mem _ _).1 (by simpa using hc))
  have hch : ∀ c ∈ x.tree.children i, Edge x.tree i c := fun c hc => (mem_children i c hi).1 hc
  have hpw : (x.tree.children i).Pairwise (fun c c' => (D c).Disjoint (D c')) := by
    obtain ⟨l, hil⟩ := exists_level hx.valid hi
    refine List.Pairwise.imp_of_mem ?_ (nodup_children (T := x.tree) i)
    intro a b ha hb hab
    exact recDims_disjoint hx.valid hD (.child hil (hch a ha)) (.child hil (hch b hb)) hab
  unfold gram
  rw [hD.2 i hi hlf]
  have h1 : ∀ p q, InBox x.shape p → InBox y.shape q → V i p e * W i q e' =
      sumBox ((x.tree.children i).map (childSize x)) (fun t => sumBox ((x.tree.children i).map (childSize y)) (fun t' =>
        ((x.tensors i).get (t ++ e) * (y.tensors i).get (t' ++ e')) *
        (childProd x V (x.tree.children i) p t * childProd y W (x.tree.children i) q t'))) := by
    intro p q hp hq
    rw [hVi, hWi,
      childSum_box x V p, childSum_box y W q, ← sumBox_mul_right]
    · apply sumBox_congr
      intro t _
      rw [← sumBox_mul_left]
      apply sumBox_congr
      intro t' _
      ring
    · intro c hc ha
      have hcl := hy.inactive_leaf (by rw [ht]; exact (hch c hc).2.1) ha
      unfold childSize; rw [if_neg ha]; exact inBox_shape_getD hq hcl
    · intro c hc ha
      have hcl := hx.inactive_leaf (hch c hc).2.1 ha
      unfold childSize; rw [if_neg ha]; exact inBox_shape_getD hp hcl
  rw [mSum_congr _ hu hv h1, mSum_sumBox]
  apply sumBox_congr
  intro t htb
  rw [mSum_sumBox]
  apply sumBox_congr
  intro t' htb'
  rw [mSum_mul, mSum_children' x y V W D M (x.tree.children i) t t' hci hpw
    (by simpa using htb.length_eq) (by simpa using htb'.length_eq)]

include hx hy ht hV hW hD in
/-- The Gram matrix of a node from those of its children. -/
theorem gram_node {i : Nat} (hi : IsNode x.tree i) (hl : i ∉ x.tree.dim2ind) (e e' u v : List Nat)
    (hu : InBox x.shape u) (hv : InBox y.shape v) :
    gram x y V W D M i e e' u v = sumBox ((x.tree.children i).map (childSize x)) (fun t =>
      sumBox ((x.tree.children i).map (childSize y)) (fun t' =>
        (x.tensors i).get (t ++ e) * (y.tensors i).get (t' ++ e') *
          (List.zipWith (fun c (s : Nat × Nat) => cgram x y V W D M c s.1 s.2 u v) (x.tree.children i) (t.zip t')).prod)) := by
  have hD' : RecDims y.tree D (IsNode y.tree) := by rw [ht]; exact hD
  refine gram_node' x y hx hy ht V W D hD M hi hl e e' u v hu hv (fun p => hV.node i hi hl p e) (fun p => ?_) (fun c hc => ?_)
  · have := hW.node i (by rw [ht]; exact hi) (by rw [ht]; exact hl) p e'
    rw [ht] at this; exact this
  · have hcn := ((mem_children i c hi).1 hc).2.1
    exact ⟨fun d hd p a s => childVal_indep x hx V hV D hD hcn s hd p a,
      fun d hd p a s => childVal_indep y hy W hW D hD' (by rw [ht]; exact hcn) s hd p a⟩

include hx hD in
/-- The Gram matrix of the root is the sum over all the subscripts. -/
theorem gram_root {r : Nat} (hr : IsRoot x.tree r) (hls : x.shape.length = y.shape.length) (e e' u v : List Nat)
    (hu : u.length = x.shape.length) (hv : v.length = y.shape.length) :
    gram x y V W D M r e e' u v = sumBox x.shape (fun p => sumBox y.shape (fun q =>
      ((List.range x.shape.length).map (fun d => M d (p.getD d 0) (q.getD d 0))).prod * (V r p e * W r q e'))) := by
  have hp : (D r).Perm (List.range x.shape.length) := by
    rw [List.perm_ext_iff_of_nodup (recDims_nodup hx.valid hD r hr.1) List.nodup_range]
    intro k
    rw [recDims_mem hx.valid hD r hr.1 k, List.mem_range]
    constructor
    · rintro ⟨c, hc, _⟩
      have := (List.getElem?_eq_some_iff.1 hc).1
      simpa [TBT.shape] using this
    · intro hk
      have hk' : k < x.tree.dim2ind.length := by simpa [TBT.shape] using hk
      refine ⟨x.tree.dim2ind[k], List.getElem?_eq_getElem hk', ?_⟩
      obtain ⟨r', hr', hall⟩ := hx.valid.rooted
      rw [root_unique hx.valid hr hr']
      exact hall _ ((hx.valid.leaves _).1 (List.getElem_mem hk')).1
  unfold gram
  rw [mSum_perm hp (recDims_nodup hx.valid hD r hr.1)]
  have := mSum_range (M := M) (fun p q => V r p e * W r q e') hls 0 u v hu hv (by omega)
  simpa using this

end gram

end Verif.TreeBased
