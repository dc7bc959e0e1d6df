import Verif.Model.Derivatives
import Verif.Props.SparseInterp
import Verif.Props.PolyBasis
import Mathlib.Analysis.Calculus.IteratedDeriv.Lemmas
import Mathlib.Analysis.Calculus.ContDiff.Polynomial

/-!
# Derivatives of functional tensors, of tensor product bases and of arrays of functions (C165-C168)
-/

namespace Verif.Derivatives

open Verif.Arr Verif.MultiIndices Verif.TreeBased Verif.Bases Verif.FunctionalTensor Verif.TensorInterp Verif.FunctionalPca Finset

/-! ### specification -/

/-- The derivative of order `m` with respect to the coordinate `k`. -/
noncomputable def partialD (k m : Nat) (F : List ℝ → ℝ) (p : List ℝ) : ℝ := iteratedDeriv m (fun t => F (p.set k t)) (p.getD k 0)

/-- The mixed partial derivative, of order `n k` with respect to the coordinate `k` for `k` in `l`; the derivatives are taken one after
the other, in the order of `l`, from its end. -/
noncomputable def mixedD (n : Nat → Nat) : List Nat → (List ℝ → ℝ) → List ℝ → ℝ
  | [], F => F
  | k :: l, F => partialD k (n k) (mixedD n l F)

/-- The basis has functions of one variable, that are smooth, and `eval_derivative` returns their derivatives. -/
def DOk (b : DBasis) : Prop :=
  b.base.ndim = 1 ∧ ∀ j, j < b.base.card → (∀ m : ℕ, ContDiff ℝ m (fun s => b.base.fn [s] j)) ∧
    ∀ m t, b.der m [t] j = iteratedDeriv m (fun s => b.base.fn [s] j) t

/-- The point with coordinates `p`, one variable per basis. -/
def coords (p : List ℝ) : List (List ℝ) := p.map (fun t => [t])

theorem coords_flatten (p : List ℝ) : (coords p).flatten = p := by
  induction p with
  | nil => rfl
  | cons t p ih => simpa [coords] using ih

/-! ### the derivative of a sum of products -/

theorem mixed_sum {ι : Type} (I : Finset ι) (c : ι → ℝ) (g : Nat → ι → ℝ → ℝ) (D : Nat)
    (hg : ∀ d, d < D → ∀ i ∈ I, ∀ m : ℕ, ContDiff ℝ m (g d i)) (n : Nat → Nat) (F : List ℝ → ℝ)
    (hF : ∀ p : List ℝ, p.length = D → F p = ∑ i ∈ I, c i * ∏ d ∈ range D, g d i (p.getD d 0)) (l : List Nat) (hl : l.Nodup)
    (hlD : ∀ k ∈ l, k < D) (p : List ℝ) (hp : p.length = D) :
    mixedD n l F p = ∑ i ∈ I, c i * ∏ d ∈ range D, (if d ∈ l then iteratedDeriv (n d) (g d i) (p.getD d 0) else g d i (p.getD d 0)) := by
  induction l generalizing p with
  | nil => simpa [mixedD] using hF p hp
  | cons k l ih =>
    have hk : k < D := hlD k (by simp)
    have hkl : k ∉ l := (List.nodup_cons.1 hl).1
    have hset : ∀ t, (p.set k t).length = D := fun t => by simpa using hp
    have hget : ∀ t d, (p.set k t).getD d 0 = if d = k then t else p.getD d 0 := by
      intro t d
      rcases eq_or_ne d k with rfl | hd
      · rw [if_pos rfl, List.getD_eq_getElem _ _ (by rw [hset]; exact hk), List.getElem_set_self]
      · rw [if_neg hd, List.getD_eq_getElem?_getD, List.getD_eq_getElem?_getD, List.getElem?_set_ne (Ne.symm hd)]
    show iteratedDeriv (n k) (fun t => mixedD n l F (p.set k t)) (p.getD k 0) = _
    have e : (fun t => mixedD n l F (p.set k t)) = fun t => ∑ i ∈ I, (c i * ∏ d ∈ (range D).erase k,
        (if d ∈ l then iteratedDeriv (n d) (g d i) (p.getD d 0) else g d i (p.getD d 0))) * g k i t := by
      funext t
      rw [ih (List.nodup_cons.1 hl).2 (fun k' hk' => hlD k' (by simp [hk'])) _ (hset t)]
      refine sum_congr rfl (fun i _ => ?_)
      rw [← mul_prod_erase (range D) _ (mem_range.2 hk), if_neg hkl, hget, if_pos rfl, mul_assoc, mul_comm (g k i t)]
      congr 2
      refine prod_congr rfl (fun d hd => ?_)
      rw [hget, if_neg (mem_erase.1 hd).1]
    rw [e, iteratedDeriv_fun_sum (fun i hi => (contDiff_const.mul (hg k hk i hi (n k))).contDiffAt)]
    refine sum_congr rfl (fun i hi => ?_)
    rw [iteratedDeriv_const_mul _ ((hg k hk i hi (n k)).contDiffAt)]
    rw [← mul_prod_erase (range D) (fun d => if d ∈ k :: l then iteratedDeriv (n d) (g d i) (p.getD d 0) else g d i (p.getD d 0)) (mem_range.2 hk)]
    rw [if_pos (by simp), mul_assoc]
    congr 1
    rw [mul_comm]
    congr 1
    refine prod_congr rfl (fun d hd => ?_)
    have hdk := (mem_erase.1 hd).1
    simp [hdk]

theorem value_derivative (a : Arr ℝ) (bs : List DBasis) (hb : ∀ b ∈ bs, DOk b) (ha : a.shape = bs.map (fun b => b.base.card)) (n : List Nat)
    (hn : n.length = bs.length) (l : List Nat) (hl : l.Perm (List.range bs.length)) (p : List ℝ) (hp : p.length = bs.length) :
    value a (List.zipWith DBasis.order bs n) (coords p) =
      mixedD (fun k => n.getD k 0) l (fun q => value a (bs.map DBasis.base) (coords q)) p := by
  have hc : ∀ q : List ℝ, ∀ d, d < q.length → (coords q).getD d [] = [q.getD d 0] := by
    intro q d hd
    rw [List.getD_eq_getElem (coords q) _ (by simpa [coords] using hd), List.getD_eq_getElem q _ hd]
    simp [coords]
  rw [mixed_sum (box a.shape) a.get (fun d idx t => ((bs.map DBasis.base).getD d ⟨0, 0, fun _ _ => 0⟩).fn [t] (idx.getD d 0)) bs.length ?_ _ _ ?_ l
    (hl.nodup_iff.2 List.nodup_range) (fun k hk => List.mem_range.1 (hl.mem_iff.1 hk)) p hp]
  · unfold value
    rw [sumBox_eq_sum]
    refine sum_congr rfl (fun idx hidx => ?_)
    congr 1
    rw [show (List.zipWith DBasis.order bs n).length = bs.length by simp [hn]]
    refine prod_congr rfl (fun d hd => ?_)
    have hd := mem_range.1 hd
    rw [if_pos (hl.mem_iff.2 (List.mem_range.2 hd)), hc p d (by omega)]
    rw [List.getD_eq_getElem (List.zipWith DBasis.order bs n) _ (by simp [hn, hd]), List.getElem_zipWith,
      List.getD_eq_getElem (bs.map DBasis.base) _ (by simpa using hd), List.getElem_map, List.getD_eq_getElem n _ (by omega)]
    have hj : idx.getD d 0 < bs[d].base.card := by
      have h := (mem_box _ _).1 hidx
      rw [ha] at h
      have := (inBox_iff_getD _ _).1 h
      have h2 := this.2 d (by simpa using hd)
      rwa [List.getD_eq_getElem (bs.map _) _ (by simpa using hd), List.getElem_map] at h2
    exact ((hb _ (List.getElem_mem hd)).2 _ hj).2 _ _
  · intro d hd idx hidx m
    have hj : idx.getD d 0 < bs[d].base.card := by
      have h := (mem_box _ _).1 hidx
      rw [ha] at h
      have := (inBox_iff_getD _ _).1 h
      have h2 := this.2 d (by simpa using hd)
      rwa [List.getD_eq_getElem (bs.map _) _ (by simpa using hd), List.getElem_map] at h2
    have := ((hb _ (List.getElem_mem hd)).2 _ hj).1 m
    rw [List.getD_eq_getElem (bs.map DBasis.base) _ (by simpa using hd), List.getElem_map]
    exact this
  · intro q hq
    unfold value
    rw [sumBox_eq_sum]
    refine sum_congr rfl (fun idx _ => ?_)
    congr 1
    rw [List.length_map]
    refine prod_congr rfl (fun d hd => ?_)
    rw [hc q d (by rw [hq]; exact mem_range.1 hd)]

/-- C165. `eval_derivative(n, x)` of a functional tensor is accepted and gives the mixed partial derivatives of orders `n` of the represented
function, in whatever order the derivatives are taken. -/
theorem evalDerivative_spec (t : TVal ℝ) (a : Arr ℝ) (h : Represents t a) (bs : List DBasis) (hb : ∀ b ∈ bs, DOk b)
    (ha : a.shape = bs.map (fun b => b.base.card)) (n : List Nat) (hn : n.length = bs.length) (pts : List (List ℝ))
    (hp : ∀ p ∈ pts, p.length = bs.length) (l : List Nat) (hl : l.Perm (List.range bs.length)) :
    ∃ y, evalDerivative t bs n pts = .ok y ∧ y.shape = [pts.length] ∧ ∀ k, k < pts.length →
      y.get [k] = mixedD (fun k => n.getD k 0) l (fun q => value a (bs.map DBasis.base) (coords q)) (pts.getD k []) := by
  have hzl : (List.zipWith DBasis.order bs n).length = bs.length := by simp [hn]
  have hcard : a.shape = (List.zipWith DBasis.order bs n).map Basis.card := by
    rw [ha]
    apply List.ext_getElem (by simp [hn])
    intro k h1 h2
    simp [DBasis.order]
  have hfl : (pts.map coords).map List.flatten = pts := by
    rw [List.map_map]
    conv_rhs => rw [← List.map_id pts]
    refine List.map_congr_left (fun p _ => ?_)
    exact coords_flatten p
  obtain ⟨f, y, h1, h2, h3, h4⟩ := eval_spec t a h (List.zipWith DBasis.order bs n) hcard (pts.map coords) (by
    intro p hp'
    obtain ⟨q, hq, rfl⟩ := List.mem_map.1 hp'
    apply List.ext_getElem (by simp [coords, hp q hq, hn])
    intro k h1 h2
    have hk : k < bs.length := by simp at h2; omega
    simp [coords, DBasis.order, (hb _ (List.getElem_mem hk)).1])
  rw [hfl] at h2
  rw [List.length_map] at h3 h4
  have hord : t.order = bs.length := by rw [h.order, ha]; simp
  refine ⟨y, ?_, h3, fun k hk => ?_⟩
  · have hf : FTn.mk' t (bs.map DBasis.base) = .ok ⟨t, bs.map DBasis.base⟩ := by
      unfold FTn.mk'; rw [if_neg (by simp [hord])]
    have hf' : f = ⟨t, List.zipWith DBasis.order bs n⟩ := by
      unfold FTn.mk' at h1
      rw [if_neg (by simp [hord, hn])] at h1
      exact (Except.ok.inj h1).symm
    simp only [evalDerivative, hf, basesEvalDerivative, if_pos hn, bind, Except.bind]
    rw [hf'] at h2
    unfold FTn.eval FTn.evalWith at h2
    unfold FTn.evalWith
    rw [if_pos (by simp [hord, hn])] at h2
    rw [if_pos (by simp [hord])]
    exact h2
  · rw [h4 k hk, ← value_derivative a bs hb ha n hn l hl _ (by rw [List.getD_eq_getElem _ _ hk]; exact hp _ (List.getElem_mem hk))]
    rw [List.getD_eq_getElem (pts.map coords) _ (by simpa using hk), List.getElem_map, List.getD_eq_getElem pts _ hk]

/-- C165. A list of orders that has not one order per basis is refused. -/
theorem evalDerivative_refuses (t : TVal ℝ) (bs : List DBasis) (ht : t.order = bs.length) (n : List Nat) (hn : n.length ≠ bs.length)
    (pts : List (List ℝ)) : evalDerivative t bs n pts = .error .assertionError := by
  have hf : FTn.mk' t (bs.map DBasis.base) = .ok ⟨t, bs.map DBasis.base⟩ := by
    unfold FTn.mk'; rw [if_neg (by simp [ht])]
  simp only [evalDerivative, hf, basesEvalDerivative, if_neg hn, bind, Except.bind]

/-! ### the gradient of a functional tensor -/

/-- C166, what is false: the gradient of a functional tensor is always refused. -/
theorem evalGradient_refused (bs : List DBasis) : ∀ y, evalGradient bs ≠ .ok y := by
  intro y h
  unfold evalGradient at h
  split_ifs at h

theorem mixed_zero (n : Nat → Nat) (l : List Nat) (hz : ∀ k ∈ l, n k = 0) (F : List ℝ → ℝ) (p : List ℝ) (hp : ∀ k ∈ l, k < p.length) :
    mixedD n l F p = F p := by
  induction l generalizing p with
  | nil => rfl
  | cons k l ih =>
    show partialD k (n k) (mixedD n l F) p = F p
    unfold partialD
    rw [hz k (by simp), iteratedDeriv_zero]
    have hk := hp k (by simp)
    have : p.set k (p.getD k 0) = p := by
      rw [List.getD_eq_getElem _ _ hk]; simp
    rw [this]
    exact ih (fun k' hk' => hz k' (by simp [hk'])) p (fun k' hk' => hp k' (by simp [hk']))

theorem unitOrder_getD (d i k : Nat) (hi : i < d) : (unitOrder d i).getD k 0 = if k = i then 1 else 0 := by
  unfold unitOrder
  rcases eq_or_ne k i with rfl | hk
  · rw [if_pos rfl, List.getD_eq_getElem _ _ (by simpa using hi), List.getElem_set_self]
  · rw [if_neg hk, List.getD_eq_getElem?_getD, List.getElem?_set_ne (Ne.symm hk)]
    by_cases h : k < d <;> simp [h]

theorem mixed_unit (d i : Nat) (hi : i < d) (F : List ℝ → ℝ) (p : List ℝ) (hp : p.length = d) :
    ∃ l : List Nat, l.Perm (List.range d) ∧
      mixedD (fun k => (unitOrder d i).getD k 0) l F p = deriv (fun t => F (p.set i t)) (p.getD i 0) := by
  refine ⟨i :: (List.range d).erase i, (List.perm_cons_erase (List.mem_range.2 hi)).symm, ?_⟩
  show partialD i ((unitOrder d i).getD i 0) (mixedD _ _ F) p = _
  unfold partialD
  rw [unitOrder_getD _ _ _ hi, if_pos rfl, iteratedDeriv_one]
  congr 1
  funext t
  refine mixed_zero _ _ (fun k hk => ?_) F _ (fun k hk => ?_)
  · rw [unitOrder_getD _ _ _ hi, if_neg]
    exact ((List.Nodup.mem_erase_iff List.nodup_range).1 hk).1
  · have := List.mem_range.1 (List.mem_of_mem_erase hk)
    simpa [hp] using this

/-- C166, what holds: the components of the gradient are given by `eval_derivative` with the orders `(0, ..., 1, ..., 0)`. Missing: the
method `eval_gradient` itself, see `evalGradient_refused`. -/
theorem evalGradient_partial (t : TVal ℝ) (a : Arr ℝ) (h : Represents t a) (bs : List DBasis) (hb : ∀ b ∈ bs, DOk b)
    (ha : a.shape = bs.map (fun b => b.base.card)) (pts : List (List ℝ)) (hp : ∀ p ∈ pts, p.length = bs.length) (i : Nat)
    (hi : i < bs.length) :
    ∃ y, evalDerivative t bs (unitOrder bs.length i) pts = .ok y ∧ y.shape = [pts.length] ∧ ∀ k, k < pts.length →
      y.get [k] = deriv (fun s => value a (bs.map DBasis.base) (coords ((pts.getD k []).set i s))) ((pts.getD k []).getD i 0) := by
  obtain ⟨y, h1, h2, _⟩ := evalDerivative_spec t a h bs hb ha (unitOrder bs.length i) (by simp [unitOrder]) pts hp _ (List.Perm.refl _)
  refine ⟨y, h1, h2, fun k hk => ?_⟩
  have hpk : (pts.getD k []).length = bs.length := by rw [List.getD_eq_getElem _ _ hk]; exact hp _ (List.getElem_mem hk)
  obtain ⟨l, hl, he⟩ := mixed_unit bs.length i hi (fun q => value a (bs.map DBasis.base) (coords q)) (pts.getD k []) hpk
  obtain ⟨y', h1', _, h3'⟩ := evalDerivative_spec t a h bs hb ha (unitOrder bs.length i) (by simp [unitOrder]) pts hp l hl
  rw [h1] at h1'; cases h1'
  rw [h3' k hk, he]

/-! ### sparse tensor product bases -/

/-- The function designated by the multi-index `i`: the product of the functions `i[d]` of the coordinates. -/
noncomputable def productFn (bs : List DBasis) (i : List Nat) (q : List ℝ) : ℝ :=
  ∏ d ∈ range bs.length, ((bs.map DBasis.base).getD d ⟨0, 0, fun _ _ => 0⟩).fn [q.getD d 0] (i.getD d 0)

theorem productFn_derivative (bs : List DBasis) (hb : ∀ b ∈ bs, DOk b) (i : List Nat) (hi : InBox (bs.map (fun b => b.base.card)) i) (n : List Nat)
    (hn : n.length = bs.length) (l : List Nat) (hl : l.Perm (List.range bs.length)) (p : List ℝ) (hp : p.length = bs.length) :
    mixedD (fun k => n.getD k 0) l (productFn bs i) p = ∏ d ∈ range bs.length,
      ((List.zipWith DBasis.order bs n).getD d ⟨0, 0, fun _ _ => 0⟩).fn ((coords p).getD d []) (i.getD d 0) := by
  have hj : ∀ d (hd : d < bs.length), i.getD d 0 < bs[d].base.card := by
    intro d hd
    have h2 := ((inBox_iff_getD _ _).1 hi).2 d (by simpa using hd)
    rwa [List.getD_eq_getElem (bs.map _) _ (by simpa using hd), List.getElem_map] at h2
  rw [mixed_sum {i} (fun _ => 1) (fun d idx t => ((bs.map DBasis.base).getD d ⟨0, 0, fun _ _ => 0⟩).fn [t] (idx.getD d 0)) bs.length ?_ _ _ ?_ l
    (hl.nodup_iff.2 List.nodup_range) (fun k hk => List.mem_range.1 (hl.mem_iff.1 hk)) p hp]
  · rw [sum_singleton, one_mul]
    refine prod_congr rfl (fun d hd => ?_)
    have hd := mem_range.1 hd
    rw [if_pos (hl.mem_iff.2 (List.mem_range.2 hd))]
    rw [List.getD_eq_getElem (List.zipWith DBasis.order bs n) _ (by simp [hn, hd]), List.getElem_zipWith,
      List.getD_eq_getElem (bs.map DBasis.base) _ (by simpa using hd), List.getElem_map, List.getD_eq_getElem n _ (by omega),
      List.getD_eq_getElem (coords p) _ (by simpa [coords] using hp ▸ hd), List.getD_eq_getElem p _ (by omega)]
    simp only [coords, List.getElem_map]
    exact (((hb _ (List.getElem_mem hd)).2 _ (hj d hd)).2 _ _).symm
  · intro d hd idx hidx m
    rw [mem_singleton.1 hidx, List.getD_eq_getElem (bs.map DBasis.base) _ (by simpa using hd), List.getElem_map]
    exact ((hb _ (List.getElem_mem hd)).2 _ (hj d hd)).1 m
  · intro q _
    simp [productFn]

/-- C167. Column `k` of `eval_derivative(n, x)` of a sparse tensor product basis is the mixed partial derivative of orders `n` of the function
designated by the multi-index `k`. -/
theorem sparseEvalDerivative_spec (bs : List DBasis) (hbs : bs ≠ []) (hb : ∀ b ∈ bs, DOk b) (d : Nat) (ind : List (List Nat))
    (hi : ∀ i ∈ ind, InBox (bs.map (fun b => b.base.card)) i) (n : List Nat) (hn : n.length = bs.length) (pts : List (List ℝ))
    (hp : ∀ p ∈ pts, p.length = bs.length) (l : List Nat) (hl : l.Perm (List.range bs.length)) :
    ∃ H, sparseEvalDerivative bs (ofNats d ind) n pts = .ok H ∧ H.shape = [pts.length, ind.length] ∧
      ∀ p k, p < pts.length → k < ind.length →
        H.get [p, k] = mixedD (fun k => n.getD k 0) l (productFn bs (ind.getD k [])) (pts.getD p []) := by
  have hcard : cards (List.zipWith DBasis.order bs n) = bs.map (fun b => b.base.card) := by
    apply List.ext_getElem (by simp [cards, hn])
    intro k h1 h2
    simp [cards, DBasis.order]
  have hfl : (pts.map coords).map List.flatten = pts := by
    rw [List.map_map]
    conv_rhs => rw [← List.map_id pts]
    exact List.map_congr_left (fun p _ => coords_flatten p)
  obtain ⟨H, h1, h2, h3⟩ := sparseEval_ok (List.zipWith DBasis.order bs n) (by
      intro h0
      have := congrArg List.length h0
      simp [hn] at this
      exact hbs this) d ind (by rw [hcard]; exact hi) (pts.map coords) (by
    intro p hp'
    obtain ⟨q, hq, rfl⟩ := List.mem_map.1 hp'
    apply List.ext_getElem (by simp [coords, hp q hq, hn])
    intro k h1 h2
    have hk : k < bs.length := by simp at h2; omega
    simp [coords, DBasis.order, (hb _ (List.getElem_mem hk)).1])
  rw [hfl] at h1
  rw [List.length_map] at h2 h3
  refine ⟨H, ?_, h2, fun p k hpl hk => ?_⟩
  · simp only [sparseEvalDerivative, basesEvalDerivative, if_pos hn, bind, Except.bind]
    exact h1
  · have hpp : (pts.getD p []).length = bs.length := by rw [List.getD_eq_getElem _ _ hpl]; exact hp _ (List.getElem_mem hpl)
    rw [h3 p k hpl hk, productFn_derivative bs hb _ (by rw [List.getD_eq_getElem _ _ hk]; exact hi _ (List.getElem_mem hk)) n hn l hl _ hpp]
    rw [show (List.zipWith DBasis.order bs n).length = bs.length by simp [hn]]
    rw [List.getD_eq_getElem (pts.map coords) _ (by simpa using hpl), List.getElem_map, List.getD_eq_getElem pts _ hpl]

/-- C167. `eval_jacobian(x)` of a sparse tensor product basis: the partial derivatives of its functions. -/
theorem sparseEvalJacobian_spec (bs : List DBasis) (hbs : bs ≠ []) (hb : ∀ b ∈ bs, DOk b) (ind : List (List Nat))
    (hi : ∀ i ∈ ind, InBox (bs.map (fun b => b.base.card)) i) (pts : List (List ℝ)) (hp : ∀ p ∈ pts, p.length = bs.length) :
    ∃ J, sparseEvalJacobian bs (ofNats bs.length ind) pts = .ok J ∧ J.shape = [pts.length, ind.length, bs.length] ∧
      ∀ p k i, p < pts.length → k < ind.length → i < bs.length →
        J.get [p, k, i] = deriv (fun t => productFn bs (ind.getD k []) ((pts.getD p []).set i t)) ((pts.getD p []).getD i 0) := by
  have key : ∀ i, i < bs.length → ∃ H, sparseEvalDerivative bs (ofNats bs.length ind) (unitOrder bs.length i) pts = .ok H ∧
      H.shape = [pts.length, ind.length] ∧ ∀ p k, p < pts.length → k < ind.length →
        H.get [p, k] = deriv (fun t => productFn bs (ind.getD k []) ((pts.getD p []).set i t)) ((pts.getD p []).getD i 0) := by
    intro i hil
    obtain ⟨H, h1, h2, _⟩ := sparseEvalDerivative_spec bs hbs hb bs.length ind hi (unitOrder bs.length i) (by simp [unitOrder]) pts hp _
      (List.Perm.refl _)
    refine ⟨H, h1, h2, fun p k hpl hk => ?_⟩
    have hpp : (pts.getD p []).length = bs.length := by rw [List.getD_eq_getElem _ _ hpl]; exact hp _ (List.getElem_mem hpl)
    obtain ⟨l, hl, he⟩ := mixed_unit bs.length i hil (productFn bs (ind.getD k [])) (pts.getD p []) hpp
    obtain ⟨H', h1', _, h3'⟩ := sparseEvalDerivative_spec bs hbs hb bs.length ind hi (unitOrder bs.length i) (by simp [unitOrder]) pts hp l hl
    rw [h1] at h1'; cases h1'
    rw [h3' p k hpl hk, he]
  haveI : Inhabited (Arr ℝ) := ⟨⟨[], fun _ => 0⟩⟩
  choose! H h1 h2 h3 using key
  have hm := Tensorizer.mapM_range_ok bs.length (fun i => sparseEvalDerivative bs (ofNats bs.length ind) (unitOrder bs.length i) pts) H h1
  have hpos : 0 < bs.length := List.length_pos_of_ne_nil hbs
  obtain ⟨L, hL⟩ : ∃ L, L = (List.range bs.length).map H := ⟨_, rfl⟩
  have hLlen : L.length = bs.length := by simp [hL]
  obtain ⟨a0, L', hc⟩ := List.exists_cons_of_ne_nil (l := L) (by rintro rfl; simp at hLlen; omega)
  have ha0 : a0 = H 0 := by
    have : L.getD 0 (H 0) = a0 := by rw [hc]; rfl
    rw [← this, hL, List.getD_eq_getElem _ _ (by simpa using hpos)]; simp
  refine ⟨⟨a0.shape ++ [L.length], fun idx => (L.getD (idx.getD (idx.length - 1) 0) a0).get idx.dropLast⟩, ?_, ?_, ?_⟩
  · simp only [sparseEvalJacobian, evalJacobian]
    rw [show (ofNats bs.length ind).dim = bs.length from rfl, hm]
    simp only [bind, Except.bind]
    rw [← hL, hc]
    rfl
  · rw [ha0]
    show (H 0).shape ++ [L.length] = _
    rw [h2 0 hpos, hLlen]; rfl
  · intro p k i hpl hk hil
    show (L.getD i a0).get [p, k] = _
    rw [List.getD_eq_getElem _ _ (by omega)]
    simp only [hL, List.getElem_map, List.getElem_range]
    exact h3 i hil p k hpl hk

/-! ### arrays of functions -/

/-- The output `j` of the array of functions, at the point `q`. -/
noncomputable def arrayFn (bs : List DBasis) (ind : List (List Nat)) (g : FBA ℝ) (j : List Nat) (q : List ℝ) : ℝ :=
  ∑ k ∈ range ind.length, g.data.get (k :: j) * productFn bs (ind.getD k []) q

theorem arrayFn_derivative (bs : List DBasis) (hb : ∀ b ∈ bs, DOk b) (ind : List (List Nat))
    (hi : ∀ i ∈ ind, InBox (bs.map (fun b => b.base.card)) i) (g : FBA ℝ) (j : List Nat) (n : List Nat) (hn : n.length = bs.length)
    (l : List Nat) (hl : l.Perm (List.range bs.length)) (p : List ℝ) (hp : p.length = bs.length) :
    mixedD (fun k => n.getD k 0) l (arrayFn bs ind g j) p =
      ∑ k ∈ range ind.length, g.data.get (k :: j) * mixedD (fun k => n.getD k 0) l (productFn bs (ind.getD k [])) p := by
  have hg : ∀ d, d < bs.length → ∀ k ∈ range ind.length, ∀ m : ℕ,
      ContDiff ℝ m (fun t => ((bs.map DBasis.base).getD d ⟨0, 0, fun _ _ => 0⟩).fn [t] ((ind.getD k []).getD d 0)) := by
    intro d hd k hk m
    have hk := mem_range.1 hk
    have h2 := ((inBox_iff_getD _ _).1 (hi _ (List.getElem_mem hk))).2 d (by simpa using hd)
    rw [List.getD_eq_getElem (bs.map _) _ (by simpa using hd), List.getElem_map] at h2
    rw [List.getD_eq_getElem ind _ hk, List.getD_eq_getElem (bs.map DBasis.base) _ (by simpa using hd), List.getElem_map]
    exact ((hb _ (List.getElem_mem hd)).2 _ h2).1 m
  rw [mixed_sum (range ind.length) (fun k => g.data.get (k :: j))
    (fun d k t => ((bs.map DBasis.base).getD d ⟨0, 0, fun _ _ => 0⟩).fn [t] ((ind.getD k []).getD d 0)) bs.length hg _ _
    (fun q _ => by simp only [arrayFn, productFn]) l (hl.nodup_iff.2 List.nodup_range) (fun k hk => List.mem_range.1 (hl.mem_iff.1 hk)) p hp]
  refine sum_congr rfl (fun k hk => ?_)
  rw [mixed_sum {k} (fun _ => 1) (fun d k t => ((bs.map DBasis.base).getD d ⟨0, 0, fun _ _ => 0⟩).fn [t] ((ind.getD k []).getD d 0)) bs.length
    (fun d hd k' hk' => by rw [mem_singleton.1 hk']; exact hg d hd k hk) _ _
    (fun q _ => by simp [productFn]) l (hl.nodup_iff.2 List.nodup_range) (fun k hk => List.mem_range.1 (hl.mem_iff.1 hk)) p hp]
  rw [sum_singleton, one_mul]

/-- The array of functions is evaluated as `arrayFn`. -/
theorem arrayFn_eval (bs : List DBasis) (hbs : bs ≠ []) (hb : ∀ b ∈ bs, DOk b) (d : Nat) (ind : List (List Nat))
    (hi : ∀ i ∈ ind, InBox (bs.map (fun b => b.base.card)) i) (g : FBA ℝ) (hg : g.data.shape = g.card :: g.shape) (hc : g.card = ind.length)
    (pts : List (List ℝ)) (hp : ∀ p ∈ pts, p.length = bs.length) :
    ∃ y, sparseFbaEval (bs.map DBasis.base) (ofNats d ind) g pts = .ok y ∧ y.shape = pts.length :: g.shape ∧
      ∀ k j, k < pts.length → InBox g.shape j → y.get (k :: j) = arrayFn bs ind g j (pts.getD k []) := by
  have hfl : (pts.map coords).map List.flatten = pts := by
    rw [List.map_map]
    conv_rhs => rw [← List.map_id pts]
    exact List.map_congr_left (fun p _ => coords_flatten p)
  obtain ⟨H, h1, h2, h3⟩ := sparseEval_ok (bs.map DBasis.base) (by simpa using hbs) d ind (by
      rw [show cards (bs.map DBasis.base) = bs.map (fun b => b.base.card) by simp [cards]]; exact hi) (pts.map coords) (by
    intro p hp'
    obtain ⟨q, hq, rfl⟩ := List.mem_map.1 hp'
    apply List.ext_getElem (by simp [coords, hp q hq])
    intro k h1 h2
    have hk : k < bs.length := by simpa using h2
    simp [coords, (hb _ (List.getElem_mem hk)).1])
  rw [hfl] at h1
  rw [List.length_map] at h2 h3
  obtain ⟨y, y1, y2, y3⟩ := evalWith_spec g hg H pts.length (by rw [h2, hc])
  refine ⟨y, by simp only [sparseFbaEval, h1, bind, Except.bind]; exact y1, y2, fun k j hk hj => ?_⟩
  rw [y3 k j hk hj, hc]
  unfold arrayFn
  refine sum_congr rfl (fun i hi' => ?_)
  have hi' := mem_range.1 hi'
  rw [h3 k i hk hi', mul_comm]
  congr 1
  unfold productFn
  rw [List.length_map]
  refine prod_congr rfl (fun d hd => ?_)
  have hd := mem_range.1 hd
  have hkl : pts[k].length = bs.length := hp _ (List.getElem_mem hk)
  rw [List.getD_eq_getElem (pts.map coords) _ (by simpa using hk), List.getElem_map, List.getD_eq_getElem pts _ hk,
    List.getD_eq_getElem (coords pts[k]) _ (by simpa [coords, hkl] using hd), List.getD_eq_getElem pts[k] _ (by omega)]
  simp [coords]

/-- C167. `eval_derivative(n, x)` of an array of functions on a sparse tensor product basis gives the mixed partial derivatives of what `eval`
gives (`arrayFn_eval`). -/
theorem fbaEvalDerivative_spec (bs : List DBasis) (hbs : bs ≠ []) (hb : ∀ b ∈ bs, DOk b) (d : Nat) (ind : List (List Nat))
    (hi : ∀ i ∈ ind, InBox (bs.map (fun b => b.base.card)) i) (g : FBA ℝ) (hg : g.data.shape = g.card :: g.shape) (hc : g.card = ind.length)
    (n : List Nat) (hn : n.length = bs.length) (pts : List (List ℝ)) (hp : ∀ p ∈ pts, p.length = bs.length) (l : List Nat)
    (hl : l.Perm (List.range bs.length)) :
    ∃ y, fbaEvalDerivative bs (ofNats d ind) g n pts = .ok y ∧ y.shape = pts.length :: g.shape ∧
      ∀ k j, k < pts.length → InBox g.shape j →
        y.get (k :: j) = mixedD (fun k => n.getD k 0) l (arrayFn bs ind g j) (pts.getD k []) := by
  obtain ⟨H, h1, h2, h3⟩ := sparseEvalDerivative_spec bs hbs hb d ind hi n hn pts hp l hl
  obtain ⟨y, y1, y2, y3⟩ := evalWith_spec g hg H pts.length (by rw [h2, hc])
  refine ⟨y, by simp only [fbaEvalDerivative, h1, bind, Except.bind]; exact y1, y2, fun k j hk hj => ?_⟩
  have hpk : (pts.getD k []).length = bs.length := by rw [List.getD_eq_getElem _ _ hk]; exact hp _ (List.getElem_mem hk)
  rw [y3 k j hk hj, hc, arrayFn_derivative bs hb ind hi g j n hn l hl _ hpk]
  refine sum_congr rfl (fun i hi' => ?_)
  rw [h3 k i hk (mem_range.1 hi'), mul_comm]

theorem einsum_get (J D : Arr ℝ) (n c d m : Nat) (hJ : J.shape = [n, c, d]) (hD : D.shape = [c, m]) :
    (Arr.einsum J [0, 1, 2] D [1, 3] [0, 2, 3]).shape = [n, d, m] ∧ ∀ k i l,
      (Arr.einsum J [0, 1, 2] D [1, 3] [0, 2, 3]).get [k, i, l] = ∑ s ∈ range c, J.get [k, s, i] * D.get [s, l] := by
  have hdis : ((distinct ([0, 1, 2] ++ [1, 3])).filter (fun l => !([0, 2, 3] : List Nat).contains l)) = [1] := by decide
  constructor
  · simp [Arr.einsum, hJ, hD, List.idxOf_cons]
  · intro k i l
    unfold Arr.einsum
    simp only [hdis]
    simp [hJ, sumBox, List.idxOf_cons]

/-- C167. `eval_gradient(x)` of an array of functions on a sparse tensor product basis gives the partial derivatives of what `eval` gives. For
functions with one output the axis of the outputs is dropped. -/
theorem fbaEvalGradient_spec (bs : List DBasis) (hbs : bs ≠ []) (hb : ∀ b ∈ bs, DOk b) (ind : List (List Nat))
    (hi : ∀ i ∈ ind, InBox (bs.map (fun b => b.base.card)) i) (g : FBA ℝ) (hg : g.data.shape = g.card :: g.shape) (hc : g.card = ind.length)
    (pts : List (List ℝ)) (hp : ∀ p ∈ pts, p.length = bs.length) :
    ∃ y, fbaEvalGradient bs (ofNats bs.length ind) g pts = .ok y ∧
      y.shape = (if g.shape.prod = 1 then [pts.length, bs.length] else pts.length :: bs.length :: g.shape) ∧
      ∀ k i j, k < pts.length → i < bs.length → InBox g.shape j →
        y.get (if g.shape.prod = 1 then [k, i] else k :: i :: j) =
          deriv (fun t => arrayFn bs ind g j ((pts.getD k []).set i t)) ((pts.getD k []).getD i 0) := by
  obtain ⟨J, h1, h2, h3⟩ := sparseEvalJacobian_spec bs hbs hb ind hi pts hp
  have hD : (g.data.reshapeF [g.card, g.shape.prod]).shape = [ind.length, g.shape.prod] := by simp [reshapeF, hc]
  obtain ⟨e1, e2⟩ := einsum_get J _ _ _ _ _ h2 hD
  have hval : ∀ k i j, k < pts.length → i < bs.length → InBox g.shape j →
      (Arr.einsum J [0, 1, 2] (g.data.reshapeF [g.card, g.shape.prod]) [1, 3] [0, 2, 3]).get [k, i, ravelF g.shape j] =
          deriv (fun t => arrayFn bs ind g j ((pts.getD k []).set i t)) ((pts.getD k []).getD i 0) := by
    intro k i j hk hil hj
    have hpk : (pts.getD k []).length = bs.length := by rw [List.getD_eq_getElem _ _ hk]; exact hp _ (List.getElem_mem hk)
    obtain ⟨l, hl, he⟩ := mixed_unit bs.length i hil (arrayFn bs ind g j) (pts.getD k []) hpk
    rw [← he, arrayFn_derivative bs hb ind hi g j _ (by simp [unitOrder]) l hl _ hpk, e2]
    refine sum_congr rfl (fun s hs => ?_)
    have hs := mem_range.1 hs
    have hisb : InBox (bs.map (fun b => b.base.card)) (ind.getD s []) := by rw [List.getD_eq_getElem _ _ hs]; exact hi _ (List.getElem_mem hs)
    obtain ⟨l', hl', he'⟩ := mixed_unit bs.length i hil (productFn bs (ind.getD s [])) (pts.getD k []) hpk
    rw [h3 k s i hk hs hil, ← he', productFn_derivative bs hb _ hisb _ (by simp [unitOrder]) l' hl' _ hpk,
      productFn_derivative bs hb _ hisb _ (by simp [unitOrder]) l hl _ hpk, mul_comm]
    congr 1
    simp only [reshapeF, hg]
    have : ravelF [g.card, g.shape.prod] [s, ravelF g.shape j] = ravelF (g.card :: g.shape) (s :: j) := by simp [ravelF]
    rw [this, unravelF_ravelF (by simp [hc, hs, hj])]
  have hcond : J.shape.length = 3 ∧ J.shape.getD 1 0 = g.card := by rw [h2]; simp [hc]
  have hgr : gradientWith g J = .ok ((Arr.einsum J [0, 1, 2] (g.data.reshapeF [g.card, g.shape.prod]) [1, 3] [0, 2, 3]).reshapeF
      (if g.shape.prod = 1 then [pts.length, bs.length] else pts.length :: bs.length :: g.shape)) := by
    unfold gradientWith
    simp only [if_pos hcond]
    split_ifs with h
    · simp [h2]
    · simp [h2]
  refine ⟨_, by simp only [fbaEvalGradient, h1, hgr, bind, Except.bind]; rfl, by simp [reshapeF], fun k i j hk hil hj => ?_⟩
  rw [← hval k i j hk hil hj]
  have hlt := ravelF_lt hj
  unfold reshapeF at e1 ⊢
  dsimp only
  rw [e1]
  congr 1
  split_ifs with h
  · have h0 : ravelF g.shape j = 0 := by omega
    have : ravelF [pts.length, bs.length] [k, i] = ravelF [pts.length, bs.length, g.shape.prod] [k, i, ravelF g.shape j] := by
      simp [ravelF, h0]
    rw [this, unravelF_ravelF (by simp [hk, hil, hlt])]
  · have : ravelF (pts.length :: bs.length :: g.shape) (k :: i :: j) = ravelF [pts.length, bs.length, g.shape.prod] [k, i, ravelF g.shape j] := by
      simp [ravelF]
    rw [this, unravelF_ravelF (by simp [hk, hil, hlt])]

/-! ### polynomials -/

open Verif.Polynomials Verif.SubBasis in
/-- The basis of the polynomials `q[ind[j]]` with its derivatives. -/
noncomputable def polyD (q : ℕ → Polynomial ℝ) (ind : List Nat) : DBasis :=
  ⟨⟨1, ind.length, fun p j => polyFns q ind j (p.getD 0 0)⟩, fun m p j => iteratedDeriv m (polyFns q ind j) (p.getD 0 0)⟩

theorem polyD_ok (q : ℕ → Polynomial ℝ) (ind : List Nat) : DOk (polyD q ind) := by
  refine ⟨rfl, fun j _ => ⟨fun m => ?_, fun m t => rfl⟩⟩
  have := Polynomial.contDiff_aeval (𝕜 := ℝ) (q (ind.getD j 0)) (m : ℕ∞)
  simpa [Polynomial.aeval_def, Polynomial.eval₂_id, polyD, SubBasis.polyFns] using this

/-- C168, what holds: with an integer order, `eval_derivative` of a basis of polynomials returns the derivatives, as in `polyD`. Missing: the
lists of orders that `eval_jacobian` passes, see `polyEvalJacobian_refused`. -/
theorem polyEvalDerivative_partial (μ : Polynomials.Meas) (hp : μ.IsProba) (q : ℕ → Polynomial ℝ) (hq : Polynomials.Evaluates μ q) (ind : List Nat)
    (hi : ind ≠ []) (n : Nat) (x : List ℝ) :
    ∃ H, polyEvalDerivative μ ind x (.int n) = .ok H ∧ H.shape = (((polyD q ind).order n).eval (coords x)).shape ∧
      ∀ k j, k < x.length → j < ind.length → H.get [k, j] = (((polyD q ind).order n).eval (coords x)).get [k, j] ∧
        H.get [k, j] = iteratedDeriv n (fun t => (q (ind.getD j 0)).eval t) (x.getD k 0) := by
  obtain ⟨H, h1, h2, h3⟩ := SubBasis.polyDer_ok hp hq hi n x
  refine ⟨H, h1, by simp [h2, Basis.eval, DBasis.order, polyD, coords], fun k j hk hj => ?_⟩
  have e : H.get [k, j] = iteratedDeriv n (fun t => (q (ind.getD j 0)).eval t) (x.getD k 0) := by
    rw [h3 k hk j hj, List.getD_eq_getElem _ _ hk]; rfl
  refine ⟨?_, e⟩
  rw [e]
  show _ = iteratedDeriv n _ (((coords x).getD k []).getD 0 0)
  rw [List.getD_eq_getElem (coords x) _ (by simpa [coords] using hk), List.getD_eq_getElem _ _ hk]
  simp [coords]
  rfl

/-- C168, what is false: `eval_jacobian` of a basis of polynomials is refused, whatever the points. -/
theorem polyEvalJacobian_refused (μ : Polynomials.Meas) (ind : List Nat) (hi : ind ≠ []) (x : List ℝ) :
    polyEvalJacobian μ ind x = .error .typeError := by
  obtain ⟨q, hq⟩ : ∃ q, Polynomials.Evaluates μ q := ⟨_, Polynomials.polys_evaluates μ⟩
  have h1 : ∃ m, Polynomials.npMax ind = .ok m := by
    cases ind with
    | nil => exact absurd rfl hi
    | cons i l => exact ⟨_, rfl⟩
  obtain ⟨m, hm⟩ := h1
  have h2 : ∃ v, μ.orthonormalPolynomials.polyval (List.range (m + 1)) 0 = .ok v := ⟨_, hq _ (by simp) 0⟩
  obtain ⟨v, hv⟩ := h2
  simp [polyEvalJacobian, evalJacobian, polyEvalDerivative, hm, hv, bind, Except.bind]

/-! ### the hypotheses are met -/

/-- Two bases of the monomials `1, t, t²` and `1, t`. -/
noncomputable def exBs : List DBasis := [polyD (fun j => Polynomial.X ^ j) [0, 1, 2], polyD (fun j => Polynomial.X ^ j) [0, 1]]

theorem exBs_ok : ∀ b ∈ exBs, DOk b := by
  intro b hb
  simp only [exBs, List.mem_cons, List.not_mem_nil, or_false] at hb
  rcases hb with rfl | rfl <;> exact polyD_ok _ _

example (a : Arr ℝ) (ha : a.shape = [3, 2]) (pts : List (List ℝ)) (hp : ∀ p ∈ pts, p.length = 2) :
    ∃ y, evalDerivative (.full a) exBs [2, 1] pts = .ok y ∧ ∀ k, k < pts.length → y.get [k] =
      mixedD (fun k => [2, 1].getD k 0) [1, 0] (fun q => value a (exBs.map DBasis.base) (coords q)) (pts.getD k []) := by
  obtain ⟨y, h1, _, h3⟩ := evalDerivative_spec (.full a) a ⟨rfl, by simp [Arr.order, ha]⟩ exBs exBs_ok (by rw [ha]; rfl) [2, 1] rfl pts hp
    [1, 0] (List.Perm.swap 0 1 [])
  exact ⟨y, h1, h3⟩

example (g : FBA ℝ) (hg : g.data.shape = [3, 2]) (hc : g.card = 3) (hs : g.shape = [2]) (pts : List (List ℝ)) (hp : ∀ p ∈ pts, p.length = 2) :
    ∃ y, fbaEvalGradient exBs (ofNats 2 [[0, 0], [1, 0], [0, 1]]) g pts = .ok y ∧ y.shape = [pts.length, 2, 2] := by
  obtain ⟨y, h1, h2, _⟩ := fbaEvalGradient_spec exBs (by simp [exBs]) exBs_ok [[0, 0], [1, 0], [0, 1]] (by
    intro i hi
    simp only [List.mem_cons, List.not_mem_nil, or_false] at hi
    rcases hi with rfl | rfl | rfl <;> simp [exBs, polyD]) g (by rw [hg, hc, hs]) (by rw [hc]; rfl) pts hp
  refine ⟨y, h1, ?_⟩
  rw [h2, hs]
  rfl

end Verif.Derivatives
