import Verif.Props.TensorInterp
import Mathlib.Algebra.Polynomial.Roots

/-!
# Interpolation on sparse tensor product bases (C162, C163)
-/

namespace Verif.TensorInterp

open Verif.Arr Verif.MultiIndices Verif.TreeBased Verif.Grids Verif.Bases Verif.FunctionalTensor Verif.FunctionalPca Verif.Pca Verif.Truncation Finset

/-! ### specification -/

/-- The function of the sparse tensor product space with coefficients `u` : the sum over the multi-indices `ind[k]` of `u k` times the
product of the basis functions they designate. -/
noncomputable def sparseValue (bs : List (Basis ℝ)) (ind : List (List Nat)) (u : Nat → ℝ) (p : List (List ℝ)) : ℝ :=
  ∑ k ∈ range ind.length, u k * ∏ d ∈ range bs.length, (bs.getD d ⟨0, 0, fun _ _ => 0⟩).fn (p.getD d []) ((ind.getD k []).getD d 0)

/-- The first `i + 1` functions are linearly independent on the first `i + 1` points, for each `i`. -/
def Hierarchical (b : Basis ℝ) (g : List (List ℝ)) : Prop :=
  ∀ i, i < b.card → ∀ u : Nat → ℝ, (∀ a, a ≤ i → ∑ j ∈ range (i + 1), b.fn (g.getD a []) j * u j = 0) → ∀ j, j ≤ i → u j = 0

/-- A set of distinct multi-indices of functions that contains all the multi-indices smaller than its elements. -/
structure Downward (bs : List (Basis ℝ)) (ind : List (List Nat)) : Prop where
  nodup : ind.Nodup
  box : ∀ i ∈ ind, InBox (cards bs) i
  down : ∀ i ∈ ind, ∀ j : List Nat, j.length = i.length → (∀ d, d < i.length → j.getD d 0 ≤ i.getD d 0) → j ∈ ind

/-! ### the interpolation problem has one solution -/

theorem Hierarchical.lower {b : Basis ℝ} {g : List (List ℝ)} (h : Hierarchical b g) :
    ∃ D : Nat → Nat → ℝ, (∀ i m, i < m → D i m = 0) ∧ ∀ i j, i < b.card → j ≤ i →
      ∑ m ∈ range b.card, D i m * b.fn (g.getD m []) j = if i = j then 1 else 0 := by
  have key : ∀ i, ∃ D : Nat → ℝ, (∀ m, i < m → D m = 0) ∧ (i < b.card → ∀ j, j ≤ i →
      ∑ m ∈ range b.card, D m * b.fn (g.getD m []) j = if i = j then 1 else 0) := by
    intro i
    by_cases hi : i < b.card
    · have hd : (fm (i + 1) (i + 1) (fun a j => b.fn (g.getD a []) j)).det ≠ 0 := by
        intro h0
        obtain ⟨v, hv, hM⟩ := Matrix.exists_mulVec_eq_zero_iff.2 h0
        apply hv
        have := h i hi (fun j => if hj : j < i + 1 then v ⟨j, hj⟩ else 0) (fun a ha => by
          have := congrFun hM ⟨a, by omega⟩
          rw [Finset.sum_range]
          refine Eq.trans (Finset.sum_congr rfl (fun j _ => ?_)) this
          rw [dif_pos j.2]; rfl)
        ext j
        have hj := this j.val (by omega)
        rw [dif_pos j.2] at hj
        exact hj
      obtain ⟨N, hN⟩ := exists_inv hd
      refine ⟨fun m => if m ≤ i then N i m else 0, fun m hm => if_neg (by omega), fun _ j hj => ?_⟩
      rw [← hN.left i j (by omega) (by omega)]
      rw [← Finset.sum_subset (Finset.range_subset_range.2 (by omega : i + 1 ≤ b.card))]
      · refine Finset.sum_congr rfl (fun m hm => ?_)
        have hm' : m ≤ i := by have := mem_range.1 hm; omega
        simp only [if_pos hm']
      · intro m _ hm
        have hm' : ¬ m ≤ i := by have := mt mem_range.2 hm; omega
        simp only [if_neg hm', zero_mul]
    · exact ⟨fun _ => 0, fun _ _ => rfl, fun h => absurd h hi⟩
  choose D hD using key
  exact ⟨D, fun i m => (hD i).1 m, fun i j hi => (hD i).2 hi j⟩

/-- Functions of the sparse space that vanish at the points of the sparse grid are zero. -/
theorem unisolvent {bs : List (Basis ℝ)} {G : List (List (List ℝ))} {ind : List (List Nat)} (hG : G.length = bs.length) (hd : Downward bs ind)
    (hH : ∀ d, d < bs.length → Hierarchical (bs.getD d ⟨0, 0, fun _ _ => 0⟩) (G.getD d [])) (u : Nat → ℝ)
    (hu : ∀ i ∈ ind, sparseValue bs ind u (nodesAt G i) = 0) : ∀ k, k < ind.length → u k = 0 := by
  have hcl : (cards bs).length = bs.length := by simp [cards]
  have hcard : ∀ d, d < bs.length → (cards bs).getD d 0 = (bs.getD d ⟨0, 0, fun _ _ => 0⟩).card := by
    intro d hd
    rw [List.getD_eq_getElem _ _ hd, List.getD_eq_getElem _ _ (by simpa [cards] using hd)]
    simp [cards]
  choose D hD0 hD1 using fun (d : Fin bs.length) => (hH d.val d.2).lower
  let D' : Nat → Nat → Nat → ℝ := fun d => if h : d < bs.length then D ⟨d, h⟩ else fun _ _ => 0
  let H : Nat → Nat → Nat → ℝ := fun d a j => (bs.getD d ⟨0, 0, fun _ _ => 0⟩).fn ((G.getD d []).getD a []) j
  have hD' : ∀ d, d < bs.length → ∀ i m, i < m → D' d i m = 0 := by
    intro d h i m him
    simp only [D', dif_pos h]
    exact hD0 ⟨d, h⟩ i m him
  have hU : ∀ d, d < bs.length → ∀ i j, i < (cards bs).getD d 0 → j ≤ i →
      ∑ m ∈ range ((cards bs).getD d 0), D' d i m * H d m j = if i = j then 1 else 0 := by
    intro d h i j hi hj
    rw [hcard d h] at hi ⊢
    simp only [D', dif_pos h]
    exact hD1 ⟨d, h⟩ i j hi hj
  let c : List Nat → ℝ := fun j => if j ∈ ind then u (ind.idxOf j) else 0
  have hval : ∀ i, i.length = bs.length → sparseValue bs ind u (nodesAt G i) =
      sumBox (cards bs) (fun j => c j * ∏ d ∈ range (cards bs).length, H d (i.getD d 0) (j.getD d 0)) := by
    intro i hi
    rw [sumBox_eq_sum]
    have hsub : ind.toFinset ⊆ box (cards bs) := fun j hj => (mem_box _ _).2 (hd.box j (List.mem_toFinset.1 hj))
    rw [← Finset.sum_subset hsub (fun j _ hj => by
      simp only [c]
      rw [if_neg (fun h => hj (List.mem_toFinset.2 h)), zero_mul])]
    unfold sparseValue
    refine Finset.sum_bij (fun k hk => ind.getD k []) (fun k hk => ?_) (fun k hk l hl e => ?_) (fun j hj => ?_) (fun k hk => ?_)
    · rw [List.getD_eq_getElem _ _ (mem_range.1 hk)]
      exact List.mem_toFinset.2 (List.getElem_mem _)
    · rw [List.getD_eq_getElem _ _ (mem_range.1 hk), List.getD_eq_getElem _ _ (mem_range.1 hl)] at e
      exact (List.Nodup.getElem_inj_iff hd.nodup).1 e
    · have hj' := List.mem_toFinset.1 hj
      refine ⟨ind.idxOf j, mem_range.2 (List.idxOf_lt_length_iff.2 hj'), ?_⟩
      rw [List.getD_eq_getElem _ _ (List.idxOf_lt_length_iff.2 hj'), List.getElem_idxOf]
    · have hk' := mem_range.1 hk
      have e : c (ind.getD k []) = u k := by
        simp only [c]
        rw [List.getD_eq_getElem _ _ hk', if_pos (List.getElem_mem _), List.Nodup.idxOf_getElem hd.nodup]
      rw [e, hcl]
      congr 1
      refine Finset.prod_congr rfl (fun d hdd => ?_)
      have hd' := mem_range.1 hdd
      rw [nodesAt_getD (by rw [hG]; exact hd') (by rw [hi]; exact hd')]
  -- the triangular system
  have htri : ∀ i ∈ ind, sumBox (cards bs) (fun j => c j * ∏ d ∈ range (cards bs).length,
      ∑ m ∈ range ((cards bs).getD d 0), D' d (i.getD d 0) m * H d m (j.getD d 0)) = 0 := by
    intro i hi
    have hib := hd.box i hi
    have hil : i.length = bs.length := by rw [hib.length_eq, hcl]
    rw [← compose (cards bs) (cards bs) rfl D' H c i]
    rw [← sumBox_zero (R := ℝ) (cards bs)]
    refine sumBox_congr (fun m hm => ?_)
    have hml : m.length = bs.length := by rw [hm.length_eq, hcl]
    by_cases hle : ∀ d, d < i.length → m.getD d 0 ≤ i.getD d 0
    · have hmi := hd.down i hi m (by rw [hml, hil]) hle
      rw [← hval m hml, hu m hmi, zero_mul]
    · push Not at hle
      obtain ⟨d, hd1, hd2⟩ := hle
      have hz : ∏ k ∈ range (cards bs).length, D' k (i.getD k 0) (m.getD k 0) = 0 :=
        Finset.prod_eq_zero (mem_range.2 (by rw [hcl]; omega : d < (cards bs).length)) (hD' d (by omega) _ _ hd2)
      rw [hz, mul_zero]
  have hc0 : ∀ n, ∀ i ∈ ind, (ind.map List.sum).foldr max 0 - i.sum = n → c i = 0 := by
    intro n
    induction n using Nat.strong_induction_on with
    | _ n ih =>
      intro i hi hn
      have hib := hd.box i hi
      have hil : i.length = bs.length := by rw [hib.length_eq, hcl]
      have hiv := (inBox_iff_getD _ _).1 hib
      have ht := htri i hi
      rw [sumBox_eq_sum, Finset.sum_eq_single_of_mem i ((mem_box _ _).2 hib)] at ht
      · rw [Finset.prod_congr rfl (fun d hdd => by
          have hd' := mem_range.1 hdd
          rw [hU d (by omega) _ _ (hiv.2 d hd') le_rfl, if_pos rfl]), Finset.prod_const_one, mul_one] at ht
        exact ht
      · intro j hj hne
        have hjb := (mem_box _ _).1 hj
        have hjl : j.length = bs.length := by rw [hjb.length_eq, hcl]
        by_cases hjm : j ∈ ind
        · by_cases hge : ∀ d, d < bs.length → i.getD d 0 ≤ j.getD d 0
          · have hlt : i.sum < j.sum := by
              have hs : ∀ l : List Nat, l.length = bs.length → l.sum = ∑ d ∈ range bs.length, l.getD d 0 := by
                intro l hl
                rw [← hl]
                conv_lhs => rw [← List.ofFn_getElem (xs := l)]
                rw [List.sum_ofFn, Finset.sum_range]
                refine Finset.sum_congr rfl (fun d _ => ?_)
                rw [List.getD_eq_getElem _ _ d.2]
              rw [hs i hil, hs j hjl]
              refine Finset.sum_lt_sum (fun d hdd => hge d (mem_range.1 hdd)) ?_
              by_contra hcon
              push Not at hcon
              apply hne
              apply List.ext_getElem (by rw [hjl, hil])
              intro d d1 d2
              have h1 := hge d (by omega)
              have h2 := hcon d (mem_range.2 (by omega))
              rw [List.getD_eq_getElem _ _ d1, List.getD_eq_getElem _ _ d2] at *
              omega
            have hle : j.sum ≤ (ind.map List.sum).foldr max 0 := by
              have : ∀ l : List Nat, ∀ x ∈ l, x ≤ l.foldr max 0 := by
                intro l
                induction l with
                | nil => simp
                | cons a l ih =>
                  intro x hx
                  rcases List.mem_cons.1 hx with rfl | hx
                  · exact le_max_left _ _
                  · exact (ih x hx).trans (le_max_right _ _)
              exact this _ _ (List.mem_map_of_mem hjm)
            rw [ih _ (by omega) j hjm rfl, zero_mul]
          · push Not at hge
            obtain ⟨d, hd1, hd2⟩ := hge
            rw [Finset.prod_eq_zero (mem_range.2 (by rw [hcl]; exact hd1 : d < (cards bs).length)), mul_zero]
            rw [hU d hd1 _ _ (hiv.2 d (by rw [hcl]; exact hd1)) hd2.le, if_neg (by omega)]
        · simp only [c]
          rw [if_neg hjm, zero_mul]
  intro k hk
  have := hc0 _ (ind[k]) (List.getElem_mem hk) rfl
  simp only [c] at this
  rwa [if_pos (List.getElem_mem hk), List.Nodup.idxOf_getElem hd.nodup] at this

/-! ### the evaluations -/

theorem sparseEval_ok (bs : List (Basis ℝ)) (hbs : bs ≠ []) (d : Nat) (ind : List (List Nat)) (hb : ∀ i ∈ ind, InBox (cards bs) i)
    (pts : List (List (List ℝ))) (hp : ∀ p ∈ pts, p.map List.length = bs.map Basis.ndim) :
    ∃ H, sparseEval bs (ofNats d ind) (pts.map List.flatten) = .ok H ∧ H.shape = [pts.length, ind.length] ∧
      ∀ p k, p < pts.length → k < ind.length → H.get [p, k] =
        ∏ d ∈ range bs.length, (bs.getD d ⟨0, 0, fun _ _ => 0⟩).fn ((pts.getD p []).getD d []) ((ind.getD k []).getD d 0) := by
  have hnd : bs.map Basis.ndim ≠ [] := by simpa using hbs
  have hcl : (cards bs).length = bs.length := by simp [cards]
  obtain ⟨H, h1, h2, h3⟩ := evalSparse_spec (basesEvalAll bs (pts.map List.flatten)) (by
      intro h0
      have := congrArg List.length h0
      simp [basesEvalAll] at this
      exact hbs this) pts.length (by
      intro H hH
      obtain ⟨k, hk, rfl⟩ := List.getElem_of_mem hH
      simp [basesEvalAll, Basis.eval]) d ind (by
      have e : (basesEvalAll bs (pts.map List.flatten)).map (fun H => H.shape.getD 1 0) = cards bs := by
        apply List.ext_getElem (by simp [basesEvalAll, cards])
        intro k h1 h2
        simp [basesEvalAll, Basis.eval, cards]
      rw [e]; exact hb)
  refine ⟨H, h1, h2, fun p k hpl hk => ?_⟩
  have hil : (ind.getD k []).length = bs.length := by
    rw [List.getD_eq_getElem _ _ hk, (hb _ (List.getElem_mem hk)).length_eq, hcl]
  rw [h3, Truncation.zipWith_prod (fun (M : Arr ℝ) j => M.get [p, j]) ⟨[], fun _ => 0⟩ 0 _ _ bs.length (by simp [basesEvalAll]) hil]
  refine prod_congr rfl (fun d hd => ?_)
  have hd := mem_range.1 hd
  have hpk := hp (pts[p]) (List.getElem_mem hpl)
  rw [List.getD_eq_getElem (basesEvalAll _ _) _ (by simpa [basesEvalAll] using hd)]
  simp only [basesEvalAll, List.getElem_mapIdx, Basis.eval, List.map_map]
  rw [List.getD_eq_getElem bs _ hd]
  show bs[d].fn (List.getD _ p []) _ = _
  rw [List.getD_eq_getElem _ _ (by simpa using hpl), List.getElem_map, List.getD_eq_getElem pts _ hpl]
  simp only [Function.comp]
  rw [hsplit_parts _ _ hnd hpk]
  rfl

/-- The result of a call of the sparse interpolation: `g` represents the function of the sparse space with coefficients `u`. -/
def SparseRepresents (bs : List (Basis ℝ)) (d : Nat) (ind : List (List Nat)) (g : FBA ℝ) (u : Nat → ℝ) : Prop :=
  ∀ pts : List (List (List ℝ)), (∀ p ∈ pts, p.map List.length = bs.map Basis.ndim) →
    ∃ v, sparseFbaEval bs (ofNats d ind) g (pts.map List.flatten) = .ok v ∧ v.shape = [pts.length, 1] ∧
      ∀ k, k < pts.length → v.get [k, 0] = sparseValue bs ind u (pts.getD k [])

/-- C162. On a downward closed set of multi-indices, with points that are unisolvent for the first functions of each basis, the sparse
interpolation is accepted and gives the only function of the sparse space that has the values of the given one at the points of the
sparse grid, which are as many as the multi-indices and as the evaluations of the function. -/
theorem sparseInterpolation_spec (bs : List (Basis ℝ)) (X : List (List (List ℝ))) (hbs : bs ≠ []) (h : CandidatesOk bs X)
    (hX : ∀ k, k < bs.length → ∀ p ∈ X.getD k [], p.length = (bs.getD k ⟨0, 0, fun _ _ => 0⟩).ndim) (d : Nat) (ind : List (List Nat))
    (hd : Downward bs ind)
    (hH : ∀ G, gridPoints bs X = .ok G → ∀ d, d < bs.length → Hierarchical (bs.getD d ⟨0, 0, fun _ _ => 0⟩) (G.getD d [])) (f : List ℝ → ℝ) :
    ∃ g G u, sparseInterpolation bs (ofNats d ind) X f = .ok (g, ind.length, ind.map (fun i => (nodesAt G i).flatten)) ∧ GridOk bs X G ∧
      SparseRepresents bs d ind g u ∧ (∀ i ∈ ind, sparseValue bs ind u (nodesAt G i) = f (nodesAt G i).flatten) ∧
      ∀ u', (∀ i ∈ ind, sparseValue bs ind u' (nodesAt G i) = f (nodesAt G i).flatten) → ∀ k, k < ind.length → u' k = u k := by
  obtain ⟨G, g1, g2⟩ := gridPoints_ok bs X h
  obtain ⟨x1, _⟩ := sparseArray_spec G ind d (fun i hi => by rw [g2.shape]; exact hd.box i hi)
  have hpd : ∀ p ∈ ind.map (nodesAt G), p.map List.length = bs.map Basis.ndim := by
    intro p hp
    obtain ⟨i, hi, rfl⟩ := List.mem_map.1 hp
    exact nodes_dims g2 hX (hd.box i hi)
  obtain ⟨H, h1, h2, h3⟩ := sparseEval_ok bs hbs d ind hd.box (ind.map (nodesAt G)) hpd
  have hxe : (ind.map (nodesAt G)).map List.flatten = ind.map (gridPoint G) := by
    rw [List.map_map]; rfl
  rw [hxe] at h1
  rw [List.length_map] at h2
  have hrow : ∀ (u : Nat → ℝ) p (hp : p < ind.length), ∑ k ∈ range ind.length, H.get [p, k] * u k = sparseValue bs ind u (nodesAt G (ind[p])) := by
    intro u p hp
    unfold sparseValue
    refine sum_congr rfl (fun k hk => ?_)
    rw [h3 p k (by simpa using hp) (mem_range.1 hk), mul_comm, List.getD_eq_getElem (ind.map (nodesAt G)) _ (by simpa using hp), List.getElem_map]
  have huni := fun u => unisolvent g2.len hd (hH G g1) u
  have hdet : (fm ind.length ind.length (fun a k => H.get [a, k])).det ≠ 0 := by
    intro h0
    obtain ⟨v, hv, hM⟩ := Matrix.exists_mulVec_eq_zero_iff.2 h0
    apply hv
    have := huni (fun j => if hj : j < ind.length then v ⟨j, hj⟩ else 0) (fun i hi => by
      obtain ⟨p, hp, rfl⟩ := List.getElem_of_mem hi
      rw [← hrow _ p hp, Finset.sum_range]
      refine Eq.trans (Finset.sum_congr rfl (fun j _ => ?_)) (congrFun hM ⟨p, hp⟩)
      rw [dif_pos j.2]; rfl)
    ext j
    have hj := this j.val j.2
    rw [dif_pos j.2] at hj
    exact hj
  obtain ⟨N, hN⟩ := exists_inv hdet
  obtain ⟨C, c1, c2, c3⟩ := solve_ok (A := column ((ind.map (gridPoint G)).map f)) (m := 1) h2 (by simp [column]) hN
  have hcol : ∀ k, k < ind.length → (column ((ind.map (gridPoint G)).map f)).get [k, 0] = f (gridPoint G (ind.getD k [])) := by
    intro k hk
    show List.getD _ k 0 = _
    rw [List.getD_eq_getElem _ _ (by simpa using hk), List.getD_eq_getElem _ _ hk]
    simp
  have hmk : ∃ g, FBA.mk' C ind.length [1] = .ok g := by
    obtain ⟨g, _, e, _⟩ := eval_scalar_partial C ind.length [1] c2 (by simp) H ind.length h2
    exact ⟨g, e⟩
  obtain ⟨g, hg⟩ := hmk
  have hC : ∀ u : Nat → ℝ, (∀ p (hp : p < ind.length), ∑ k ∈ range ind.length, H.get [p, k] * u k = f (gridPoint G (ind.getD p []))) →
      ∀ k, k < ind.length → u k = C.get [k, 0] := by
    intro u hu k hk
    rw [c3 k 0 hk one_pos]
    rw [hN.apply (x := u) (y := fun p => f (gridPoint G (ind.getD p []))) (fun p hp => (hu p hp).symm) k hk]
    exact sum_congr rfl (fun p hp => by rw [hcol p (mem_range.1 hp)])
  refine ⟨g, G, fun k => C.get [k, 0], ?_, g2, ?_, ?_, ?_⟩
  · have e : (ofNats d ind).rows.length = ind.length := by simp [ofNats]
    have x1' : sparseArray G (ofNats d ind) = .ok (ind.map (gridPoint G)) := x1
    simp only [sparseInterpolation, g1, x1', sparseInterpolate, h1, c1, e, hg, bind, Except.bind, List.length_map]
    rfl
  · intro pts hpts
    obtain ⟨E, e1, e2, e3⟩ := sparseEval_ok bs hbs d ind hd.box pts hpts
    obtain ⟨g', v, v1, v2, v3, v4⟩ := eval_scalar_partial C ind.length [1] c2 (by simp) E pts.length e2
    rw [hg] at v1; cases v1
    refine ⟨v, by simp only [sparseFbaEval, e1, bind, Except.bind]; exact v2, v3, fun k hk => ?_⟩
    rw [v4 k [0] hk (.cons one_pos .nil)]
    unfold sparseValue
    refine sum_congr rfl (fun j hj => ?_)
    rw [e3 k j hk (mem_range.1 hj), mul_comm]
  · intro i hi
    obtain ⟨p, hp, rfl⟩ := List.getElem_of_mem hi
    rw [← hrow _ p hp]
    have : ∀ k ∈ range ind.length, H.get [p, k] * C.get [k, 0] = H.get [p, k] * ∑ l ∈ range ind.length, N k l * f (gridPoint G (ind.getD l [])) := by
      intro k hk
      rw [c3 k 0 (mem_range.1 hk) one_pos]
      congr 1
      exact sum_congr rfl (fun l hl => by rw [hcol l (mem_range.1 hl)])
    rw [sum_congr rfl this]
    have := hN.symm.apply (x := fun l => f (gridPoint G (ind.getD l []))) (y := fun k => ∑ l ∈ range ind.length, N k l * f (gridPoint G (ind.getD l [])))
      (fun k _ => rfl) p hp
    rw [← this]
    show f (gridPoint G (ind.getD p [])) = _
    rw [List.getD_eq_getElem _ _ hp, nodesAt_flatten]
  · intro u' hu' k hk
    refine hC u' (fun p hp => ?_) k hk
    rw [hrow u' p hp, hu' _ (List.getElem_mem hp), nodesAt_flatten, List.getD_eq_getElem _ _ hp]

/-- C162. A function of the sparse space is reproduced at all points. -/
theorem sparseInterpolation_exact (bs : List (Basis ℝ)) (X : List (List (List ℝ))) (hbs : bs ≠ []) (h : CandidatesOk bs X)
    (hX : ∀ k, k < bs.length → ∀ p ∈ X.getD k [], p.length = (bs.getD k ⟨0, 0, fun _ _ => 0⟩).ndim) (d : Nat) (ind : List (List Nat))
    (hd : Downward bs ind)
    (hH : ∀ G, gridPoints bs X = .ok G → ∀ d, d < bs.length → Hierarchical (bs.getD d ⟨0, 0, fun _ _ => 0⟩) (G.getD d [])) (f : List ℝ → ℝ)
    (a : Nat → ℝ) (hf : ∀ p : List (List ℝ), p.map List.length = bs.map Basis.ndim → f p.flatten = sparseValue bs ind a p) :
    ∃ g n x, sparseInterpolation bs (ofNats d ind) X f = .ok (g, n, x) ∧
      ∀ pts : List (List (List ℝ)), (∀ p ∈ pts, p.map List.length = bs.map Basis.ndim) →
        ∃ v, sparseFbaEval bs (ofNats d ind) g (pts.map List.flatten) = .ok v ∧ v.shape = [pts.length, 1] ∧
          ∀ k, k < pts.length → v.get [k, 0] = f (pts.getD k []).flatten := by
  obtain ⟨g, G, u, s1, s2, s3, _, s5⟩ := sparseInterpolation_spec bs X hbs h hX d ind hd hH f
  have hau := s5 a (fun i hi => (hf _ (nodes_dims s2 hX (hd.box i hi))).symm)
  refine ⟨g, _, _, s1, fun pts hpts => ?_⟩
  obtain ⟨v, v1, v2, v3⟩ := s3 pts hpts
  refine ⟨v, v1, v2, fun k hk => ?_⟩
  have hp : (pts.getD k []).map List.length = bs.map Basis.ndim := by
    rw [List.getD_eq_getElem _ _ hk]; exact hpts _ (List.getElem_mem hk)
  rw [v3 k hk, hf _ hp]
  unfold sparseValue
  exact sum_congr rfl (fun j hj => by rw [hau j (mem_range.1 hj)])

/-! ### polynomials -/

/-- A basis of polynomials in one variable, of degrees 0, 1, 2, ... -/
def PolyBasis (b : Basis ℝ) : Prop :=
  b.ndim = 1 ∧ ∃ P : Nat → Polynomial ℝ, (∀ j, j < b.card → P j ≠ 0 ∧ (P j).natDegree = j) ∧
    ∀ p j, j < b.card → b.fn p j = (P j).eval (p.getD 0 0)

/-- A combination of the first `n` polynomials that has `n` roots is zero. -/
theorem poly_zero {P : Nat → Polynomial ℝ} {n : Nat} (hP : ∀ j, j < n → P j ≠ 0 ∧ (P j).natDegree = j) (S : Finset ℝ) (hS : n ≤ S.card)
    (u : Nat → ℝ) (h : ∀ t ∈ S, ∑ j ∈ range n, (P j).eval t * u j = 0) : ∀ j, j < n → u j = 0 := by
  let Q : Polynomial ℝ := ∑ j ∈ range n, Polynomial.C (u j) * P j
  have hQ : Q = 0 := by
    by_contra hne
    have hn : 0 < n := by
      rcases Nat.eq_zero_or_pos n with rfl | hn
      · exact absurd (by simp [Q]) hne
      · exact hn
    have hdeg : Q.natDegree < n := by
      have : Q.natDegree ≤ n - 1 := by
        refine Polynomial.natDegree_sum_le_of_forall_le _ _ (fun j hj => ?_)
        refine (Polynomial.natDegree_C_mul_le _ _).trans ?_
        rw [(hP j (mem_range.1 hj)).2]
        have := mem_range.1 hj
        omega
      omega
    have hsub : S ⊆ Q.roots.toFinset := by
      intro t ht
      rw [Multiset.mem_toFinset, Polynomial.mem_roots hne]
      show Q.eval t = 0
      rw [Polynomial.eval_finsetSum, ← h t ht]
      refine sum_congr rfl (fun j _ => ?_)
      rw [Polynomial.eval_mul, Polynomial.eval_C, mul_comm]
    have h1 := Finset.card_le_card hsub
    have h2 := Multiset.toFinset_card_le Q.roots
    have h3 := Polynomial.card_roots' Q
    omega
  -- the coefficients, from the last one
  have key : ∀ m j, n ≤ m + j → j < n → u j = 0 := by
    intro m
    induction m with
    | zero => intro j h1 h2; omega
    | succ m ih =>
      intro j h1 h2
      have hc : Q.coeff j = 0 := by rw [hQ]; simp
      simp only [Q, Polynomial.finsetSum_coeff, Polynomial.coeff_C_mul] at hc
      rw [Finset.sum_eq_single_of_mem j (mem_range.2 h2)] at hc
      · refine (mul_eq_zero.1 hc).resolve_right ?_
        have hlc : (P j).leadingCoeff ≠ 0 := Polynomial.leadingCoeff_ne_zero.2 (hP j h2).1
        rwa [Polynomial.leadingCoeff, (hP j h2).2] at hlc
      · intro l hl hne
        have hl' := mem_range.1 hl
        rcases Nat.lt_or_gt_of_ne hne with hlt | hgt
        · rw [Polynomial.coeff_eq_zero_of_natDegree_lt (by rw [(hP l hl').2]; exact hlt), mul_zero]
        · rw [ih l (by omega) hl', zero_mul]
  intro j hj
  exact key n j (by omega) hj

/-- Polynomials of degrees 0, 1, ... are linearly independent on as many distinct points. -/
theorem PolyBasis.independent {b : Basis ℝ} (h : PolyBasis b) (x : List (List ℝ))
    (hx : b.card ≤ (x.map (fun p => p.getD 0 0)).toFinset.card) : Independent b x := by
  obtain ⟨_, P, hP, hf⟩ := h
  intro u hu
  refine poly_zero hP _ hx u (fun t ht => ?_)
  obtain ⟨p, hp, rfl⟩ := List.mem_map.1 (List.mem_toFinset.1 ht)
  exact (sum_congr rfl (fun j hj => by rw [hf p j (mem_range.1 hj)])).trans (hu p hp)

/-- Whatever points are selected, they are unisolvent for the first polynomials. -/
theorem PolyBasis.hierarchical {b : Basis ℝ} (h : PolyBasis b) {x g : List (List ℝ)} (hg : Nodes b x g) : Hierarchical b g := by
  obtain ⟨_, P, hP, hf⟩ := h
  have hinj : ∀ a a', a < b.card → a' < b.card → (g.getD a []).getD 0 0 = (g.getD a' []).getD 0 0 → a = a' := by
    intro a a' ha ha' he
    by_contra hne
    obtain ⟨u, hu⟩ := hg.solve (fun k => if k = a then 1 else 0)
    have h1 := hu a ha
    have h2 := hu a' ha'
    rw [if_pos rfl] at h1
    rw [if_neg (Ne.symm hne)] at h2
    have : ∑ j ∈ range b.card, b.fn (g.getD a []) j * u j = ∑ j ∈ range b.card, b.fn (g.getD a' []) j * u j :=
      sum_congr rfl (fun j hj => by rw [hf _ j (mem_range.1 hj), hf _ j (mem_range.1 hj), he])
    rw [h1, h2] at this
    exact one_ne_zero this
  intro i hi u hu j hj
  refine poly_zero (n := i + 1) (fun j hj => hP j (by omega)) ((range (i + 1)).image (fun a => (g.getD a []).getD 0 0)) ?_ u ?_ j (by omega)
  · rw [Finset.card_image_of_injOn, card_range]
    intro a ha a' ha' he
    have h1 := mem_range.1 (Finset.mem_coe.1 ha)
    have h2 := mem_range.1 (Finset.mem_coe.1 ha')
    exact hinj a a' (by omega) (by omega) he
  · intro t ht
    obtain ⟨a, ha, rfl⟩ := Finset.mem_image.1 ht
    have := mem_range.1 ha
    refine Eq.trans (sum_congr rfl (fun j hj => ?_)) (hu a (by omega))
    have := mem_range.1 hj
    rw [hf _ j (by omega)]

/-- C162. For bases of polynomials of degrees 0, 1, ..., with as many distinct candidates as polynomials in each dimension, and a downward closed set, the
sparse interpolation is accepted, it interpolates at the points of its grid, and reproduces the functions of the sparse space. -/
theorem sparseInterpolation_polynomials (bs : List (Basis ℝ)) (X : List (List (List ℝ))) (hbs : bs ≠ []) (hl : bs.length ≤ X.length)
    (hpos : ∀ b ∈ bs, 0 < b.card) (hpoly : ∀ b ∈ bs, PolyBasis b)
    (hX : ∀ k, k < bs.length → (∀ p ∈ X.getD k [], p.length = 1) ∧
      (bs.getD k ⟨0, 0, fun _ _ => 0⟩).card ≤ ((X.getD k []).map (fun p => p.getD 0 0)).toFinset.card)
    (d : Nat) (ind : List (List Nat)) (hd : Downward bs ind) (f : List ℝ → ℝ) :
    ∃ g G u, sparseInterpolation bs (ofNats d ind) X f = .ok (g, ind.length, ind.map (fun i => (nodesAt G i).flatten)) ∧ GridOk bs X G ∧
      SparseRepresents bs d ind g u ∧ (∀ i ∈ ind, sparseValue bs ind u (nodesAt G i) = f (nodesAt G i).flatten) ∧
      (∀ u', (∀ i ∈ ind, sparseValue bs ind u' (nodesAt G i) = f (nodesAt G i).flatten) → ∀ k, k < ind.length → u' k = u k) ∧
      ∀ a : Nat → ℝ, (∀ p : List (List ℝ), p.map List.length = bs.map Basis.ndim → f p.flatten = sparseValue bs ind a p) →
        ∀ p : List (List ℝ), p.map List.length = bs.map Basis.ndim → sparseValue bs ind u p = f p.flatten := by
  have hb : ∀ k, k < bs.length → PolyBasis (bs.getD k ⟨0, 0, fun _ _ => 0⟩) := fun k hk => by
    rw [List.getD_eq_getElem _ _ hk]; exact hpoly _ (List.getElem_mem hk)
  have hc : CandidatesOk bs X := ⟨hl, hpos, fun k hk => (hb k hk).independent _ (hX k hk).2⟩
  have hX1 : ∀ k, k < bs.length → ∀ p ∈ X.getD k [], p.length = (bs.getD k ⟨0, 0, fun _ _ => 0⟩).ndim := by
    intro k hk p hp
    rw [(hX k hk).1 p hp, (hb k hk).1]
  obtain ⟨g, G, u, s1, s2, s3, s4, s5⟩ := sparseInterpolation_spec bs X hbs hc hX1 d ind hd (fun G hG k hk => by
    obtain ⟨G', g1, g2⟩ := gridPoints_ok bs X hc
    rw [hG] at g1; cases g1
    exact (hb k hk).hierarchical (g2.nodes k hk)) f
  refine ⟨g, G, u, s1, s2, s3, s4, s5, fun a ha p hp => ?_⟩
  have hau := s5 a (fun i hi => (ha _ (nodes_dims s2 hX1 (hd.box i hi))).symm)
  rw [ha p hp]
  unfold sparseValue
  exact sum_congr rfl (fun j hj => by rw [hau j (mem_range.1 hj)])

/-- Monomials `1, t, t²` and `1, t`, and a downward closed set of multi-indices that is not a box. -/
def exMono (n : Nat) : Basis ℝ := ⟨1, n, fun p j => p.getD 0 0 ^ j⟩

theorem exMono_poly (n : Nat) : PolyBasis (exMono n) :=
  ⟨rfl, fun j => Polynomial.X ^ j, fun j _ => ⟨Polynomial.Monic.ne_zero (Polynomial.monic_X_pow j), Polynomial.natDegree_X_pow j⟩,
    fun p j _ => by simp [exMono]⟩

theorem exDown : Downward [exMono 3, exMono 2] [[0, 0], [1, 0], [0, 1], [2, 0]] where
  nodup := by decide
  box := by
    intro i hi
    have : ∀ i ∈ [[0, 0], [1, 0], [0, 1], [2, 0]], i.length = 2 ∧ i.getD 0 0 < 3 ∧ i.getD 1 0 < 2 := by decide
    obtain ⟨h1, h2, h3⟩ := this i hi
    match i, h1 with
    | [a, b], _ => exact .cons h2 (.cons h3 .nil)
  down := by
    intro i hi j hj hle
    have h2 : j.length = 2 := by
      rw [hj]
      exact (show ∀ i ∈ [[0, 0], [1, 0], [0, 1], [2, 0]], i.length = 2 by decide) i hi
    have hl : i.length = 2 := by rw [← hj, h2]
    match j, h2 with
    | [a, b], _ =>
      have ha := hle 0 (by omega)
      have hb := hle 1 (by omega)
      simp only [List.getD_cons_zero, List.getD_cons_succ] at ha hb
      rcases List.mem_cons.1 hi with rfl | hi
      · simp at ha hb; subst ha; subst hb; decide
      rcases List.mem_cons.1 hi with rfl | hi
      · simp at ha hb; subst hb; interval_cases a <;> decide
      rcases List.mem_cons.1 hi with rfl | hi
      · simp at ha hb; subst ha; interval_cases b <;> decide
      rcases List.mem_cons.1 hi with rfl | hi
      · simp at ha hb; subst hb; interval_cases a <;> decide
      · cases hi

/-- The hypotheses of `sparseInterpolation_polynomials` are met. -/
example : ∃ g G u, sparseInterpolation [exMono 3, exMono 2] (ofNats 2 [[0, 0], [1, 0], [0, 1], [2, 0]]) [[[0], [1], [2], [3]], [[1], [0]]]
      (fun p => (p.getD 0 0 + p.getD 1 0) ^ 2) = .ok (g, 4, [[0, 0], [1, 0], [0, 1], [2, 0]].map (fun i => (nodesAt G i).flatten)) ∧
    SparseRepresents [exMono 3, exMono 2] 2 [[0, 0], [1, 0], [0, 1], [2, 0]] g u := by
  obtain ⟨g, G, u, h1, _, h3, _⟩ := sparseInterpolation_polynomials [exMono 3, exMono 2] [[[0], [1], [2], [3]], [[1], [0]]] (by simp) (by simp)
    (by intro b hb; simp at hb; rcases hb with rfl | rfl <;> simp [exMono])
    (by intro b hb; simp at hb; rcases hb with rfl | rfl <;> exact exMono_poly _)
    (by
      intro k hk
      have hk : k < 2 := hk
      interval_cases k
      · refine ⟨by simp, ?_⟩
        show 3 ≤ ([0, 1, 2, 3] : List ℝ).toFinset.card
        rw [List.toFinset_card_of_nodup]
        · decide
        · norm_num
      · refine ⟨by simp, ?_⟩
        show 2 ≤ ([1, 0] : List ℝ).toFinset.card
        rw [List.toFinset_card_of_nodup]
        · decide
        · norm_num) 2 _ exDown (fun p => (p.getD 0 0 + p.getD 1 0) ^ 2)
  exact ⟨g, G, u, h1, h3⟩

/-! ### other bases -/

/-- The functions `t` and `2 (1 - t)`. -/
def exBad : Basis ℝ := ⟨1, 2, fun p j => if j = 0 then p.getD 0 0 else 2 * (1 - p.getD 0 0)⟩

theorem exBad_independent : Independent exBad [[0], [1]] := by
  intro u hu j hj
  have h0 := hu [0] (by simp)
  have h1 := hu [1] (by simp)
  have hj : j < 2 := hj
  simp [exBad, Finset.sum_range_succ] at h0 h1
  interval_cases j
  · exact h1
  · exact h0

/-- The first magic point is a point where one of the functions has the greatest absolute value. -/
theorem first_point {X : Type} {c N : Nat} (φ : X → Fin c → ℝ) (x : Fin N → X) (hN : 0 < N)
    (hφ : ∀ u : Fin c → ℝ, (∀ i, Magic.fn φ u (x i) = 0) → u = 0) :
    ∃ points ind Λ, Magic.magicPoints φ x = .ok (points, ind, Λ) ∧ min N c = c ∧ (∀ a, points a = x (ind a)) ∧
      ∀ h : 0 < min N c, ∃ j, ∀ i' j', |φ (x i') j'| ≤ |φ (points ⟨0, h⟩) j| := by
  obtain ⟨points, ind, Λ, h1, h2, _, h4, _⟩ := Magic.magicPoints_spec φ x hN hφ
  refine ⟨points, ind, Λ, h1, h2, h4, fun h => ?_⟩
  have hr := Magic.rank_of_independent φ x hφ
  obtain ⟨I, J, i1, _, _, _, i5⟩ := Magic.magicIndices_leftRight (Magic.evalBasis φ x) (min N c) (by rw [hr, h2])
  have hI : I = ind := by
    unfold Magic.magicPoints at h1
    rw [if_neg (by have := h2; omega)] at h1
    simp only [bind, Except.bind, i1] at h1
    split_ifs at h1
    exact congrArg (fun x => x.2.1) (Except.ok.inj h1)
  subst hI
  obtain ⟨G, ⟨gc, gp⟩, _⟩ := i5 0 h
  have hG : G = 0 := by
    by_contra hne
    have : ∃ i j, G i j ≠ 0 := by
      by_contra hcon
      push Not at hcon
      exact hne (by ext i j; exact hcon i j)
    obtain ⟨i, j, hij⟩ := this
    have h1 := Magic.det_eq_zero_of_rank G (fun _ : Fin 1 => i) (fun _ : Fin 1 => j) (Nat.lt_succ_of_le gc.rank)
    rw [Matrix.det_fin_one] at h1
    exact hij h1
  rw [hG, sub_zero] at gp
  refine ⟨J ⟨0, h⟩, fun i' j' => ?_⟩
  rw [h4]
  exact gp.max i' j'

/-- The first magic point of `exBad` is 0, where its first function vanishes. -/
theorem exBad_first : ∃ g, interpolationPoints exBad [[0], [1]] = .ok g ∧ g.getD 0 [] = [0] := by
  obtain ⟨x, hx⟩ : ∃ x : List (List ℝ), x = [[0], [1]] := ⟨_, rfl⟩
  rw [← hx]
  have hN : 0 < x.length := by rw [hx]; simp
  have hind : Independent exBad x := by rw [hx]; exact exBad_independent
  obtain ⟨points, ind, Λ, h1, h2, h4, h5⟩ := first_point (fun p (j : Fin exBad.card) => exBad.fn p j.val) (fun i : Fin x.length => x.get i) hN
    (fun u hu => by
      have := hind (fun j => if hj : j < exBad.card then u ⟨j, hj⟩ else 0) (fun p hp => by
        obtain ⟨i, rfl⟩ := List.get_of_mem hp
        rw [Magic.sum_fin_range, ← hu i]
        unfold Magic.fn
        refine sum_congr rfl (fun j _ => ?_)
        rw [dif_pos j.2])
      ext j
      have := this j.val j.2
      rw [dif_pos j.2] at this
      exact this)
  refine ⟨List.ofFn points, by simp only [interpolationPoints, h1, bind, Except.bind], ?_⟩
  have hlen : 0 < min x.length exBad.card := by rw [h2]; show 0 < 2; omega
  rw [List.getD_eq_getElem _ _ (by rw [List.length_ofFn]; exact hlen), List.getElem_ofFn]
  obtain ⟨j, hj⟩ := h5 hlen
  have hm : points ⟨0, hlen⟩ ∈ x := by rw [h4]; exact List.get_mem _ _
  obtain ⟨i0, hi0⟩ := List.get_of_mem (show [0] ∈ x by rw [hx]; simp)
  have h2' := hj i0 ⟨1, by show 1 < 2; omega⟩
  rw [hi0] at h2'
  have hx2 : ∀ q ∈ x, q = [0] ∨ q = [1] := by rw [hx]; simp
  rcases hx2 _ hm with h | h
  · exact h
  · rw [h] at h2'
    simp only [exBad, one_ne_zero, if_false] at h2'
    split at h2' <;> norm_num at h2'

/-- C163, what holds: with points that are unisolvent for the first functions of each basis (`Hierarchical`), the interpolation is accepted on
every downward closed set and has the values of the function at the points of the sparse grid. Missing: bases for which the selected points
are not so, see `sparseInterpolation_wrong`. -/
theorem sparseInterpolation_partial (bs : List (Basis ℝ)) (X : List (List (List ℝ))) (hbs : bs ≠ []) (h : CandidatesOk bs X)
    (hX : ∀ k, k < bs.length → ∀ p ∈ X.getD k [], p.length = (bs.getD k ⟨0, 0, fun _ _ => 0⟩).ndim)
    (hH : ∀ G, gridPoints bs X = .ok G → ∀ d, d < bs.length → Hierarchical (bs.getD d ⟨0, 0, fun _ _ => 0⟩) (G.getD d []))
    (d : Nat) (ind : List (List Nat)) (hd : Downward bs ind) (f : List ℝ → ℝ) :
    ∃ g G u, sparseInterpolation bs (ofNats d ind) X f = .ok (g, ind.length, ind.map (fun i => (nodesAt G i).flatten)) ∧
      SparseRepresents bs d ind g u ∧ ∀ i ∈ ind, sparseValue bs ind u (nodesAt G i) = f (nodesAt G i).flatten := by
  obtain ⟨g, G, u, s1, _, s3, s4, _⟩ := sparseInterpolation_spec bs X hbs h hX d ind hd hH f
  exact ⟨g, G, u, s1, s3, s4⟩

/-- C163. In general the interpolation is refused on some downward closed sets: the points are chosen for the whole basis, not for its first
functions. Here the first point is a zero of the first function, and the set contains this function only. -/
theorem sparseInterpolation_wrong (f : List ℝ → ℝ) : CandidatesOk [exBad] [[[0], [1]]] ∧ Downward [exBad] [[0]] ∧
    sparseInterpolation [exBad] (ofNats 1 [[0]]) [[[0], [1]]] f = .error .valueError := by
  obtain ⟨g, g1, g2⟩ := exBad_first
  have hc : CandidatesOk [exBad] [[[0], [1]]] := ⟨by simp, by simp [exBad], fun k hk => by
    have : k = 0 := by simpa using hk
    subst this
    exact exBad_independent⟩
  have hd : Downward [exBad] [[0]] := ⟨by simp, by
    intro i hi
    rw [List.mem_singleton.1 hi]
    exact .cons (by show 0 < 2; omega) .nil, by
    intro i hi j hj hle
    rw [List.mem_singleton.1 hi] at hj hle
    match j, hj with
    | [a], _ =>
      have := hle 0 (by simp)
      simp at this
      simp [this]⟩
  refine ⟨hc, hd, ?_⟩
  have hG : gridPoints [exBad] [[[0], [1]]] = .ok [g] := by
    simp [gridPoints, pointsOf, g1, bind, Except.bind, pure, Except.pure]
  have hlen : g.length = 2 := by
    obtain ⟨G, e1, e2⟩ := gridPoints_ok [exBad] [[[0], [1]]] hc
    rw [hG] at e1; cases e1
    exact (e2.nodes 0 (by simp)).len
  obtain ⟨x1, _⟩ := sparseArray_spec [g] [[0]] 1 (by
    intro i hi
    rw [List.mem_singleton.1 hi]
    exact .cons (by rw [hlen]; omega) .nil)
  have hgp : gridPoint [g] [0] = [0] := by
    show (List.flatten [g.getD 0 []]) = _
    rw [g2]; rfl
  have x1' : sparseArray [g] (ofNats 1 [[0]]) = .ok [[0]] := by
    refine Eq.trans x1 ?_
    simp [hgp]
  obtain ⟨H, h1, h2, h3⟩ := sparseEval_ok [exBad] (by simp) 1 [[0]] hd.box [[[0]]] (by simp [exBad])
  have hH : H.get [0, 0] = 0 := by
    rw [h3 0 0 (by simp) (by simp)]
    simp [exBad]
  have h1' : sparseEval [exBad] (ofNats 1 [[0]]) [[0]] = .ok H := h1
  have hs : Pca.solve H (column ([[0]].map f)) = .error .valueError := by
    unfold Pca.solve
    have e : H.shape.getD 0 0 = 1 := by rw [h2]; rfl
    rw [e]
    unfold solveN
    rw [if_neg (by rw [h2]; simp [column]), if_pos]
    rw [Matrix.det_fin_one]
    exact hH
  simp only [sparseInterpolation, hG, x1', sparseInterpolate, h1', hs, bind, Except.bind]

end Verif.TensorInterp
