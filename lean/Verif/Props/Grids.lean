import Verif.Model.Grids
import Verif.Props.MultiIndices
import Verif.Props.CanonicalContract
import Mathlib.Data.List.Sort
import Mathlib.Data.Rat.Defs
import Mathlib.Algebra.Order.Ring.Rat
import Mathlib.Algebra.Field.Rat
import Mathlib.Algebra.Order.Group.Unbundled.Basic
import Mathlib.Tactic.Linarith
import Mathlib.Tactic.FieldSimp

/-!
# Grids and integration rules (C46, C56, C57)
-/

namespace Verif.Grids

open Verif.MultiIndices Finset Verif.Arr

variable {K : Type}

/-! ### grids -/

theorem boundedBy_rows (shape : List Nat) (P : MI)
    (h : boundedBy (shape.map fun n : Nat => (n : Int) - 1) = .ok P) :
    P.rows = (List.range shape.prod).map (fun k => (unravelF shape k).map Int.ofNat) := by
  have e : (shape.map fun n : Nat => (n : Int) - 1).map (fun x => ofColumn (arange 0 (x + 1)))
      = shape.map fun n : Nat => ofColumn (arange 0 (n : Int)) := by
    rw [List.map_map]; apply List.map_congr_left; intro n _; simp
  unfold boundedBy at h
  rw [e] at h
  have hc : (shape.map fun n : Nat => ofColumn (arange 0 (n : Int))).map MI.cardinal = shape := by
    rw [List.map_map]
    conv_rhs => rw [← List.map_id shape]
    apply List.map_congr_left; intro n _; simp [MI.cardinal, ofColumn, arange]
  have hr := (productSet_rows h).2
  rw [hc] at hr
  rw [hr]
  apply List.map_congr_left
  intro k hk
  exact zipWith_arange _ _ (unravelF_inBox (List.mem_range.1 hk))

/-- The point of the grid of subscripts `idx`: the concatenation of the rows `idx_i` of the grids. -/
def gridPoint (grids : List (List (List K))) (idx : List Nat) : List K :=
  (List.zipWith (fun (g : List (List K)) j => g.getD j []) grids idx).flatten

theorem npIndex_ofNat {n j : Nat} (h : j < n) : npIndex n (Int.ofNat j) = .ok j := by
  unfold npIndex
  rw [if_pos ⟨Int.natCast_nonneg _, by simpa using h⟩]
  simp

theorem parts_ok (grids : List (List (List K))) (idx pre : List Nat) (h : InBox (grids.map List.length) idx) :
    (grids.zipIdx pre.length).mapM (gridPart ((pre ++ idx).map Int.ofNat)) =
      .ok (List.zipWith (fun (g : List (List K)) j => g.getD j []) grids idx) := by
  induction grids generalizing idx pre with
  | nil => simp [pure, Except.pure]
  | cons g grids ih =>
    cases idx with
    | nil => simp at h
    | cons j idx =>
      simp only [List.map_cons, inBox_cons_cons] at h
      have hj : ((pre ++ j :: idx).map Int.ofNat)[pre.length]? = some (Int.ofNat j) := by simp
      rw [List.zipIdx_cons, List.mapM_cons]
      have e := ih idx (pre ++ [j]) h.2
      simp only [List.length_append, List.length_singleton, List.append_assoc, List.singleton_append] at e
      rw [e]
      simp only [gridPart, hj, npIndex_ofNat h.1, bind, Except.bind, pure, Except.pure, List.zipWith_cons_cons]

theorem gridRow_ok {grids : List (List (List K))} {idx : List Nat} (h : InBox (grids.map List.length) idx) :
    gridRow grids (idx.map Int.ofNat) = .ok (gridPoint grids idx) := by
  have := parts_ok grids idx [] h
  simp only [List.length_nil, List.nil_append] at this
  unfold gridRow
  rw [this]
  rfl

/-- The grid of `d ≥ 1` non-empty grids is defined; its points are `size` many, and the point of subscripts `idx` is in
the row of column-major number of `idx`. -/
theorem array_spec (G : FullGrid K) (h0 : G.grids ≠ []) (h1 : ∀ g ∈ G.grids, g ≠ []) :
    ∃ A, G.array = .ok A ∧ A.length = G.size ∧
      ∀ idx, InBox G.shape idx → A[colMajor G.shape idx]? = some (gridPoint G.grids idx) := by
  obtain ⟨P, hP⟩ := (boundedBy_ok_iff (G.shape.map fun n : Nat => (n : Int) - 1) 0).2 ⟨by simpa [FullGrid.shape] using h0, by
    intro x hx
    obtain ⟨n, hn, rfl⟩ := List.mem_map.1 hx
    obtain ⟨g, hg, rfl⟩ := List.mem_map.1 hn
    have := List.length_pos_iff.2 (h1 g hg)
    omega⟩
  have hr := boundedBy_rows _ _ hP
  have hA : G.array = .ok ((List.range G.shape.prod).map (fun k => gridPoint G.grids (unravelF G.shape k))) := by
    unfold FullGrid.array FullGrid.multiIndices FullGrid.arrayAt
    rw [hP]
    show List.mapM (gridRow G.grids) P.rows = _
    rw [mapM_ok_iff, hr, List.forall₂_map_left_iff, List.forall₂_map_right_iff, List.forall₂_same]
    intro k hk
    exact gridRow_ok (unravelF_inBox (List.mem_range.1 hk))
  refine ⟨_, hA, by simp [FullGrid.size], fun idx hi => ?_⟩
  rw [← ravelF_eq_colMajor _ _ (by rw [hi.length_eq]), List.getElem?_map, List.getElem?_range (ravelF_lt hi)]
  simp [unravelF_ravelF hi]

theorem array_eq (G : FullGrid K) (h0 : G.grids ≠ []) (h1 : ∀ g ∈ G.grids, g ≠ []) :
    G.array = .ok ((List.range G.shape.prod).map (fun k => gridPoint G.grids (unravelF G.shape k))) := by
  obtain ⟨A, hA, hl, hp⟩ := array_spec G h0 h1
  rw [hA]; congr 1
  apply List.ext_getElem?
  intro k
  by_cases hk : k < G.shape.prod
  · have := hp _ (unravelF_inBox hk)
    rw [← ravelF_eq_colMajor _ _ (by rw [(unravelF_inBox hk).length_eq]), ravelF_unravelF hk] at this
    rw [this, List.getElem?_map, List.getElem?_range hk]; rfl
  · rw [List.getElem?_eq_none (by rw [hl]; unfold FullGrid.size; omega), List.getElem?_eq_none (by simpa using hk)]

/-- An empty grid, or no grid at all, is refused. -/
theorem array_refused (G : FullGrid K) (h : G.grids = [] ∨ ∃ g ∈ G.grids, g = []) : G.array = .error .typeError := by
  unfold FullGrid.array FullGrid.multiIndices
  have : ¬ ∃ P, boundedBy (G.shape.map fun n : Nat => (n : Int) - 1) = .ok P := by
    rw [boundedBy_ok_iff]
    rintro ⟨ha, hb⟩
    rcases h with h | ⟨g, hg, rfl⟩
    · simp [FullGrid.shape, h] at ha
    · have := hb (-1) (List.mem_map.2 ⟨0, List.mem_map.2 ⟨[], hg, rfl⟩, by simp⟩)
      omega
  cases hP : boundedBy (G.shape.map fun n : Nat => (n : Int) - 1) with
  | ok P => exact absurd ⟨P, hP⟩ this
  | error e =>
    unfold boundedBy at hP
    rw [productSet_error hP]; rfl

/-- The points of the grid are exactly the combinations of one row of each grid. -/
theorem mem_array (G : FullGrid K) (h0 : G.grids ≠ []) (h1 : ∀ g ∈ G.grids, g ≠ []) :
    ∃ A, G.array = .ok A ∧ ∀ p, p ∈ A ↔ ∃ rows, List.Forall₂ (fun r g => r ∈ g) rows G.grids ∧ p = rows.flatten := by
  refine ⟨_, array_eq G h0 h1, fun p => ?_⟩
  rw [List.mem_map]
  constructor
  · rintro ⟨k, hk, rfl⟩
    have hb := unravelF_inBox (List.mem_range.1 hk)
    refine ⟨_, ?_, rfl⟩
    rw [List.forall₂_iff_get]
    have hl := hb.length_eq
    have hl' : G.shape.length = G.grids.length := by simp [FullGrid.shape]
    refine ⟨by rw [List.length_zipWith]; omega, fun i ha hc => ?_⟩
    simp only [List.get_eq_getElem, List.getElem_zipWith]
    have := List.forall₂_iff_get.1 hb |>.2 i (by omega) (by simpa [FullGrid.shape] using hc)
    simp only [List.get_eq_getElem, FullGrid.shape, List.getElem_map] at this
    exact (List.getD_eq_getElem _ [] this) ▸ List.getElem_mem _
  · rintro ⟨rows, hf, rfl⟩
    have : ∃ idx, InBox (G.grids.map List.length) idx ∧
        rows = List.zipWith (fun (g : List (List K)) j => g.getD j []) G.grids idx := by
      clear h0 h1
      generalize G.grids = gs at hf
      induction hf with
      | nil => exact ⟨[], by simp, rfl⟩
      | cons hm _ ih =>
        obtain ⟨idx, hi, rfl⟩ := ih
        obtain ⟨j, hj, rfl⟩ := List.getElem_of_mem hm
        exact ⟨j :: idx, by simp [hj, hi], by
          rw [List.zipWith_cons_cons, List.getD_eq_getElem _ _ hj]⟩
    obtain ⟨idx, hi, rfl⟩ := this
    exact ⟨ravelF G.shape idx, List.mem_range.2 (ravelF_lt hi), by
      show gridPoint G.grids (unravelF G.shape (ravelF G.shape idx)) = _
      rw [unravelF_ravelF (shape := G.shape) hi]; rfl⟩

/-- `SparseTensorGrid`: point `i` is the grid point of the multi-index `i`, and `size` is the number of points. -/
theorem sparseArray_spec (grids : List (List (List K))) (ind : List (List Nat)) (d : Nat)
    (h : ∀ i ∈ ind, InBox (grids.map List.length) i) :
    sparseArray grids ⟨d, ind.map (fun r => r.map Int.ofNat)⟩ = .ok (ind.map (gridPoint grids)) ∧
      (ind.map (gridPoint grids)).length = sparseSize ⟨d, ind.map (fun r => r.map Int.ofNat)⟩ := by
  refine ⟨?_, by simp [sparseSize, MI.cardinal]⟩
  unfold sparseArray
  rw [mapM_ok_iff, List.forall₂_map_left_iff, List.forall₂_map_right_iff, List.forall₂_same]
  intro i hi
  exact gridRow_ok (h i hi)

/-- `array(ind)` and `eval_at_indices(ind)` agree with `array()` read at the linear indices of `ind`. -/
theorem arrayAt_spec (G : FullGrid K) (h0 : G.grids ≠ []) (h1 : ∀ g ∈ G.grids, g ≠ []) (ind : List (List Nat))
    (h : ∀ i ∈ ind, InBox G.shape i) :
    ∃ A B, G.array = .ok A ∧ G.arrayAt (ind.map (fun r => r.map Int.ofNat)) = .ok B ∧
      B.map some = ind.map (fun i => A[colMajor G.shape i]?) := by
  obtain ⟨A, hA, _, hp⟩ := array_spec G h0 h1
  refine ⟨A, ind.map (gridPoint G.grids), hA, (sparseArray_spec G.grids ind 0 h).1, ?_⟩
  rw [List.map_map]
  exact List.map_congr_left (fun i hi => (hp i (h i hi)).symm)

/-! ### integration rules -/

theorem list_sum_range [AddCommMonoid K] (n : Nat) (f : Nat → K) : ((List.range n).map f).sum = ∑ k ∈ range n, f k := by
  induction n with
  | zero => simp
  | succ n ih => rw [List.range_succ, List.map_append, List.sum_append, ih, sum_range_succ]; simp

theorem integrate_refused {α : Type} [CommSemiring K] (r : Rule α K) (f : α → K) :
    r.integrate f = .error .valueError ↔ r.points.length ≠ r.weights.length := by
  unfold Rule.integrate
  split <;> simp_all

theorem integrate_eq {α : Type} [CommSemiring K] (r : Rule α K) (h : r.points.length = r.weights.length) (f : α → K) :
    r.integrate f = .ok (List.zipWith (fun p w => f p * w) r.points r.weights).sum := by
  unfold Rule.integrate; rw [if_neg (by omega)]

theorem weights_wf [CommSemiring K] (w : List (List K)) (h0 : w ≠ []) : Canonical.WF (⟨w.map column, [1]⟩ : Canonical.Cn K) := by
  refine ⟨by simpa using h0, ?_⟩
  intro M hM
  obtain ⟨x, _, rfl⟩ := List.mem_map.1 hM
  exact ⟨x.length, rfl⟩

/-- The weight of the grid point of subscripts `idx`, in the row of column-major number of `idx`, is the product of the
weights. -/
theorem weightsOnGrid_spec [CommSemiring K] (r : TensorRule K) (h0 : r.weights ≠ []) :
    ∃ W, r.weightsOnGrid = .ok W ∧ W.length = (r.weights.map List.length).prod ∧
      ∀ idx, InBox (r.weights.map List.length) idx →
        W[colMajor (r.weights.map List.length) idx]? =
          some (List.zipWith (fun (w : List K) j => w.getD j 0) r.weights idx).prod := by
  obtain ⟨y, hy, hs, hv⟩ := Canonical.full_spec _ (weights_wf r.weights h0)
  have hs' : y.shape = r.weights.map List.length := by
    rw [hs]; unfold Canonical.Cn.shape
    rw [List.map_map]; rfl
  refine ⟨ravelArrF y, by unfold TensorRule.weightsOnGrid; rw [hy]; rfl, by simp [ravelArrF, hs'], fun idx hi => ?_⟩
  unfold ravelArrF
  rw [← ravelF_eq_colMajor _ _ (by rw [hi.length_eq]), List.getElem?_map, hs', List.getElem?_range (ravelF_lt hi)]
  simp only [Option.map_some, unravelF_ravelF hi]
  rw [hv _ (hs' ▸ hi)]
  simp only [List.length_singleton, sum_range_one, List.getD_cons_zero, one_mul]
  rw [List.zipWith_map_left]
  simp [column]

theorem weightsOnGrid_eq [CommSemiring K] (r : TensorRule K) (h0 : r.weights ≠ []) :
    r.weightsOnGrid = .ok ((List.range (r.weights.map List.length).prod).map (fun k =>
      (List.zipWith (fun (w : List K) j => w.getD j 0) r.weights (unravelF (r.weights.map List.length) k)).prod)) := by
  obtain ⟨A, hA, hl, hp⟩ := weightsOnGrid_spec r h0
  rw [hA]; congr 1
  apply List.ext_getElem?
  intro k
  by_cases hk : k < (r.weights.map List.length).prod
  · have := hp _ (unravelF_inBox hk)
    rw [← ravelF_eq_colMajor _ _ (by rw [(unravelF_inBox hk).length_eq]), ravelF_unravelF hk] at this
    rw [this, List.getElem?_map, List.getElem?_range hk]; rfl
  · rw [List.getElem?_eq_none (by omega), List.getElem?_eq_none (by simpa using hk)]

/-- The integral by a tensor product rule is the sum over the subscripts of the function at the grid point times the
product of the weights. -/
theorem tensor_integrate_spec [CommSemiring K] (r : TensorRule K) (h0 : r.points.grids ≠ [])
    (h1 : ∀ g ∈ r.points.grids, g ≠ []) (hw : r.weights.map List.length = r.points.grids.map List.length)
    (f : List K → K) :
    r.integrate f = .ok (sumBox r.points.shape (fun idx => f (gridPoint r.points.grids idx) *
      (List.zipWith (fun (w : List K) j => w.getD j 0) r.weights idx).prod)) := by
  have hw0 : r.weights ≠ [] := by
    intro h; rw [h] at hw
    exact h0 (List.map_eq_nil_iff.1 hw.symm)
  unfold TensorRule.integrate TensorRule.integrationRule
  rw [array_eq _ h0 h1, weightsOnGrid_eq r hw0]
  simp only [bind, Except.bind]
  rw [integrate_eq _ (by simp [hw, FullGrid.shape])]
  congr 1
  rw [hw, show r.points.grids.map List.length = r.points.shape from rfl, sumBox_eq_linearF]
  rw [show (List.zipWith (fun p w => f p * w)
      (List.map (fun k => gridPoint r.points.grids (unravelF r.points.shape k)) (List.range r.points.shape.prod))
      (List.map (fun k => (List.zipWith (fun (w : List K) j => w.getD j 0) r.weights (unravelF r.points.shape k)).prod)
        (List.range r.points.shape.prod))) =
      (List.range r.points.shape.prod).map (fun k => f (gridPoint r.points.grids (unravelF r.points.shape k)) *
        (List.zipWith (fun (w : List K) j => w.getD j 0) r.weights (unravelF r.points.shape k)).prod) from by
    rw [List.zipWith_map]; simp]
  exact list_sum_range _ _

/-- The value of a rule on the line: `∑ f(x_j) w_j`. -/
def lineSum [CommSemiring K] (x w : List K) (f : K → K) : K := (List.zipWith (fun p v => f p * v) x w).sum

theorem lineSum_eq [CommSemiring K] (x w : List K) (h : w.length = x.length) (f : K → K) :
    lineSum x w f = ∑ j ∈ range x.length, f (x.getD j 0) * w.getD j 0 := by
  rw [← list_sum_range, lineSum]
  congr 1
  apply List.ext_getElem (by simp [h])
  intro i h1 h2
  simp at h1 h2
  rw [List.getElem_zipWith, List.getElem_map, List.getElem_range, List.getD_eq_getElem _ _ h2,
    List.getD_eq_getElem _ _ (by omega)]

theorem gridPoint_columns (x : List (List K)) [Zero K] (idx : List Nat) (h : InBox (x.map List.length) idx) :
    gridPoint (ofColumns x).grids idx = List.zipWith (fun (c : List K) j => c.getD j 0) x idx := by
  unfold gridPoint ofColumns
  induction x generalizing idx with
  | nil => simp
  | cons c x ih =>
    cases idx with
    | nil => simp at h
    | cons j idx =>
      simp only [List.map_cons, inBox_cons_cons] at h
      simp only [List.map_cons, List.zipWith_cons_cons, List.flatten_cons, ih idx h.2]
      rw [List.getD_eq_getElem _ _ (by simpa using h.1), List.getD_eq_getElem _ _ h.1]
      simp

/-- C46. A tensor product rule integrates a product `f_1(x_1) ⋯ f_d(x_d)` to the product of the values of the rules on
the line, and does so for points and weights in any number `d ≥ 1` of dimensions, with any numbers of points. -/
theorem integrate_product [CommSemiring K] (x w : List (List K)) (h0 : x ≠ []) (h1 : ∀ c ∈ x, c ≠ [])
    (hw : w.map List.length = x.map List.length) (f : List (K → K)) (hf : f.length = x.length) (F : List K → K)
    (hF : ∀ p, p.length = f.length → F p = (List.zipWith (fun (φ : K → K) t => φ t) f p).prod) :
    ∃ r, TensorRule.mk' (ofColumns x) w = .ok r ∧
      r.integrate F = .ok ((List.range x.length).map (fun i =>
        lineSum (x.getD i []) (w.getD i []) (f.getD i (fun _ => 0)))).prod := by
  have hwl : w.length = x.length := by simpa using congrArg List.length hw
  refine ⟨⟨ofColumns x, w⟩, by unfold TensorRule.mk'; rw [if_neg (by simp [FullGrid.dim, ofColumns, hwl])], ?_⟩
  have hg : (ofColumns x).grids.map List.length = x.map List.length := by
    simp [ofColumns, List.map_map]
  rw [tensor_integrate_spec ⟨ofColumns x, w⟩ (by simpa [ofColumns] using h0) (by
    intro g hg
    obtain ⟨c, hc, rfl⟩ := List.mem_map.1 hg
    simpa using h1 c hc) (by rw [hg]; exact hw)]
  congr 1
  show sumBox ((ofColumns x).grids.map List.length) _ = _
  rw [hg]
  have key : ∀ idx, InBox (x.map List.length) idx →
      F (gridPoint (ofColumns x).grids idx) * (List.zipWith (fun (v : List K) j => v.getD j 0) w idx).prod =
        (List.zipWith (fun (φ : Nat → K) j => φ j) ((List.range x.length).map (fun i j =>
          (f.getD i (fun _ => 0)) ((x.getD i []).getD j 0) * (w.getD i []).getD j 0)) idx).prod := by
    intro idx hi
    have hl : idx.length = x.length := by simpa using hi.length_eq
    rw [gridPoint_columns x idx hi, hF _ (by simp [hf, hl])]
    clear hF h0 h1 hi hg hw
    induction x generalizing w f idx with
    | nil =>
      have : idx = [] := List.length_eq_zero_iff.1 hl
      subst this; simp
    | cons c x ih =>
      obtain ⟨j, idx, rfl⟩ := List.exists_cons_of_length_pos (l := idx) (by simp at hl; omega)
      obtain ⟨v, w, rfl⟩ := List.exists_cons_of_length_pos (l := w) (by simp at hwl; omega)
      obtain ⟨φ, f, rfl⟩ := List.exists_cons_of_length_pos (l := f) (by simp at hf; omega)
      simp only [List.length_cons, Nat.add_right_cancel_iff] at hf hwl hl
      have := ih w f hf hwl idx hl
      rw [List.length_cons, List.range_succ_eq_map]
      simp only [List.zipWith_cons_cons, List.prod_cons, List.map_cons, List.map_map, Function.comp_def,
        List.getD_cons_zero, List.getD_cons_succ]
      rw [← this]
      ring
  rw [sumBox_congr key, Canonical.sumBox_prod _ _ (by simp)]
  congr 1
  apply List.ext_getElem (by simp)
  intro i ha hb
  simp at hb
  simp only [List.getElem_zipWith, List.getElem_map, List.getElem_range]
  have hwi : (w.getD i []).length = (x.getD i []).length := by
    rw [List.getD_eq_getElem _ _ hb, List.getD_eq_getElem _ _ (by omega)]
    have := congrArg (fun l => l.getD i 0) hw
    rw [List.getD_eq_getElem _ _ (by simp; omega), List.getD_eq_getElem _ _ (by simpa using hb)] at this
    simpa using this
  rw [lineSum_eq _ _ hwi, List.getD_eq_getElem _ _ hb]

/-- The constructor refuses a list of weights of another length than the number of grids. -/
theorem mk'_refused (G : FullGrid K) (w : List (List K)) : TensorRule.mk' G w = .error .assertionError ↔ w.length ≠ G.grids.length := by
  unfold TensorRule.mk' FullGrid.dim
  split <;> simp_all

/-- It does not compare the numbers of points and weights: a 2 × 3 grid with 3 × 2 weights is accepted and gives a number. -/
theorem mk'_accepts_mismatch :
    ∃ r : TensorRule ℚ, TensorRule.mk' (ofColumns [[0, 1], [0, 1, 2]]) [[1, 2, 4], [1, 3]] = .ok r ∧
      r.integrate (fun p => p.getD 0 0) = .ok 17 := ⟨_, rfl, by decide +kernel⟩

/-- `tensorize(dim)` is the rule with the same points and weights in each direction. -/
theorem tensorize_spec [CommSemiring K] (r : Rule K K) (d : Nat) :
    ∃ t, tensorize r d = .ok t ∧ TensorRule.mk' (ofColumns (List.replicate d r.points)) (List.replicate d r.weights) = .ok t := by
  refine ⟨⟨ofColumns (List.replicate d r.points), List.replicate d r.weights⟩, ?_, ?_⟩
  · unfold tensorize TensorRule.mk' isotropic ofColumns
    rw [if_neg (by simp [FullGrid.dim])]
    simp
  · unfold TensorRule.mk'
    rw [if_neg (by simp [FullGrid.dim, ofColumns])]

/-- The integral of `f(x_1) ⋯ f(x_d)` by the tensorised rule is the power `d` of the integral of `f`. -/
theorem tensorize_power [CommSemiring K] (r : Rule K K) (d : Nat) (hd : 1 ≤ d) (hr : r.points ≠ [])
    (hw : r.points.length = r.weights.length) (f : K → K) :
    ∃ t v, tensorize r d = .ok t ∧ r.integrate f = .ok v ∧ t.integrate (fun p => (p.map f).prod) = .ok (v ^ d) := by
  obtain ⟨t, ht, ht'⟩ := tensorize_spec r d
  obtain ⟨t2, h2, h3⟩ := integrate_product (List.replicate d r.points) (List.replicate d r.weights)
    (by intro h; rw [List.replicate_eq_nil_iff] at h; omega) (by intro c hc; rw [(List.mem_replicate.1 hc).2]; exact hr) (by simp [hw])
    (List.replicate d f) (by simp) (fun p => if p.length = d then (p.map f).prod else (p.map f).prod) (by
      intro p hp
      simp only [List.length_replicate] at hp
      rw [if_pos hp]
      congr 1
      apply List.ext_getElem (by simp [hp])
      intro i h1 h2
      simp)
  simp only [ite_self] at h3
  rw [ht'] at h2
  injection h2 with h2
  subst h2
  refine ⟨t, _, ht, integrate_eq r hw f, ?_⟩
  rw [h3]
  congr 1
  rw [List.length_replicate]
  have : (List.range d).map (fun i => lineSum ((List.replicate d r.points).getD i []) ((List.replicate d r.weights).getD i [])
      ((List.replicate d f).getD i (fun _ => 0))) = List.replicate d (lineSum r.points r.weights f) := by
    apply List.ext_getElem (by simp)
    intro i h1 h2
    simp at h1
    rw [List.getElem_map, List.getElem_range, List.getElem_replicate, List.getD_eq_getElem _ _ (by simpa using h1),
      List.getD_eq_getElem _ _ (by simpa using h1), List.getD_eq_getElem _ _ (by simpa using h1)]
    simp
  rw [this, List.prod_replicate]
  rfl

/-- `ProductMeasure.gauss_integration_rule(n)` uses the Gauss rule of measure `i` with `n_i` points in direction `i`; one
number of points is used for all the measures; another number of numbers is refused. -/
theorem productGauss_spec (gauss : List (Nat → Rule K K)) (n : List Nat) (h : n.length = gauss.length) (h1 : n.length ≠ 1) :
    productGauss gauss n = TensorRule.mk' (ofColumns (List.zipWith (fun g k => (g k).points) gauss n))
      (List.zipWith (fun g k => (g k).weights) gauss n) := by
  unfold productGauss
  dsimp only
  rw [if_neg (by omega), if_neg h1, List.map_zipWith, List.map_zipWith]

theorem productGauss_scalar (gauss : List (Nat → Rule K K)) (n : Nat) :
    productGauss gauss [n] = TensorRule.mk' (ofColumns (gauss.map (fun g => (g n).points))) (gauss.map (fun g => (g n).weights)) := by
  unfold productGauss
  dsimp only
  rw [if_neg (by simp), if_pos (by simp)]
  have : List.zipWith (fun (g : Nat → Rule K K) k => g k) gauss (List.replicate gauss.length ([n].getD 0 0)) =
      gauss.map (fun g => g n) := by
    apply List.ext_getElem (by simp)
    intro i h1 h2; simp
  rw [this, List.map_map, List.map_map]; rfl

theorem productGauss_refused (gauss : List (Nat → Rule K K)) (n : List Nat) (h : n.length ≠ gauss.length) (h1 : n.length ≠ 1) :
    productGauss gauss n = .error .valueError := by
  unfold productGauss
  dsimp only
  rw [if_pos ⟨h1, h⟩]

/-- The integral of a product by the Gauss rule of a product measure is the product of the integrals by the Gauss rules
of the measures. -/
theorem productGauss_integrate [CommSemiring K] (gauss : List (Nat → Rule K K)) (n : List Nat) (h : n.length = gauss.length)
    (h1 : 2 ≤ n.length) (hg : ∀ g ∈ gauss, ∀ k ∈ n, (g k).points ≠ [] ∧ (g k).weights.length = (g k).points.length)
    (f : List (K → K)) (hf : f.length = gauss.length) :
    ∃ r, productGauss gauss n = .ok r ∧
      r.integrate (fun p => (List.zipWith (fun (φ : K → K) t => φ t) f p).prod) =
        .ok ((List.range gauss.length).map (fun i =>
          lineSum ((gauss.getD i (fun _ => ⟨[], []⟩)) (n.getD i 0)).points ((gauss.getD i (fun _ => ⟨[], []⟩)) (n.getD i 0)).weights
            (f.getD i (fun _ => 0)))).prod := by
  rw [productGauss_spec gauss n h (by omega)]
  obtain ⟨r, hr, hv⟩ := integrate_product (List.zipWith (fun g k => (g k).points) gauss n)
    (List.zipWith (fun g k => (g k).weights) gauss n)
    (by intro he; have := congrArg List.length he; rw [List.length_zipWith, List.length_nil] at this; omega)
    (by
      intro c hc
      obtain ⟨i, hi, rfl⟩ := List.getElem_of_mem hc
      rw [List.getElem_zipWith]
      exact (hg _ (List.getElem_mem _) _ (List.getElem_mem _)).1)
    (by
      rw [List.map_zipWith, List.map_zipWith]
      apply List.ext_getElem (by simp)
      intro i ha hb
      simp only [List.getElem_zipWith]
      exact (hg _ (List.getElem_mem _) _ (List.getElem_mem _)).2)
    f (by simp [hf, h]) (fun p => (List.zipWith (fun (φ : K → K) t => φ t) f p).prod) (fun _ _ => rfl)
  refine ⟨r, hr, ?_⟩
  rw [hv]
  congr 2
  rw [show (List.zipWith (fun (g : Nat → Rule K K) k => (g k).points) gauss n).length = gauss.length by simp [h]]
  apply List.map_congr_left
  intro i hi
  rw [List.mem_range] at hi
  rw [List.getD_eq_getElem _ _ (by simp; omega), List.getD_eq_getElem _ _ (by simp; omega), List.getElem_zipWith,
    List.getElem_zipWith, List.getD_eq_getElem gauss _ hi, List.getD_eq_getElem n _ (by omega)]

/-! ### composite rules -/

theorem lineSum_append [CommSemiring K] (x w x' w' : List K) (h : x.length = w.length) (f : K → K) :
    lineSum (x ++ x') (w ++ w') f = lineSum x w f + lineSum x' w' f := by
  unfold lineSum
  rw [List.zipWith_append h, List.sum_append]

/-- C56. The composite rule adds the integrals by the rules of the intervals between consecutive sorted knots. -/
theorem composite_integrate [Field K] [LinearOrder K] (gauss : K → K → Nat → Rule K K)
    (hg : ∀ a b n, (gauss a b n).points.length = (gauss a b n).weights.length) (knots : List K) (n : List Nat)
    (hn : knots.length - 1 ≤ n.length) (f : K → K) :
    ∃ r, composite gauss knots n = .ok r ∧
      r.integrate f = .ok ((List.range (knots.length - 1)).map (fun k =>
        let a := (knots.insertionSort (· ≤ ·)).getD k 0
        let b := (knots.insertionSort (· ≤ ·)).getD (k + 1) 0
        lineSum (gauss a b (n.getD k 0)).points (gauss a b (n.getD k 0)).weights f)).sum := by
  unfold composite
  dsimp only
  rw [List.length_insertionSort]
  generalize knots.length - 1 = m at hn ⊢
  suffices h : ∃ r : Rule K K, (List.range m).foldlM (fun (acc : Rule K K) k =>
      (match n[k]? with
      | none => .error .indexError
      | some nk =>
        let g := gauss ((knots.insertionSort (· ≤ ·)).getD k 0) ((knots.insertionSort (· ≤ ·)).getD (k + 1) 0) nk
        .ok ⟨acc.points ++ g.points, acc.weights ++ g.weights⟩ : Py (Rule K K))) ⟨[], []⟩ = .ok r ∧
      r.points.length = r.weights.length ∧ lineSum r.points r.weights f = ((List.range m).map (fun k =>
        let a := (knots.insertionSort (· ≤ ·)).getD k 0
        let b := (knots.insertionSort (· ≤ ·)).getD (k + 1) 0
        lineSum (gauss a b (n.getD k 0)).points (gauss a b (n.getD k 0)).weights f)).sum by
    obtain ⟨r, h1, h2, h3⟩ := h
    exact ⟨r, h1, by rw [integrate_eq _ h2]; exact congrArg _ h3⟩
  induction m with
  | zero => exact ⟨⟨[], []⟩, rfl, rfl, rfl⟩
  | succ m ih =>
    obtain ⟨r, h1, h2, h3⟩ := ih (by omega)
    refine ⟨⟨r.points ++ (gauss ((knots.insertionSort (· ≤ ·)).getD m 0) ((knots.insertionSort (· ≤ ·)).getD (m + 1) 0) (n.getD m 0)).points,
      r.weights ++ (gauss ((knots.insertionSort (· ≤ ·)).getD m 0) ((knots.insertionSort (· ≤ ·)).getD (m + 1) 0) (n.getD m 0)).weights⟩, ?_, ?_, ?_⟩
    · rw [List.range_succ, List.foldlM_append, h1]
      simp only [bind, Except.bind, List.foldlM_cons, List.foldlM_nil, pure, Except.pure]
      rw [List.getElem?_eq_getElem (by omega), List.getD_eq_getElem n _ (by omega)]
    · simp only [List.length_append]; rw [h2, hg]
    · rw [lineSum_append _ _ _ _ h2, h3, List.range_succ, List.map_append, List.sum_append]
      simp

theorem telescope [AddCommGroup K] (F : Nat → K) (m : Nat) : ((List.range m).map (fun k => F (k + 1) - F k)).sum = F m - F 0 := by
  induction m with
  | zero => simp
  | succ m ih => rw [List.range_succ, List.map_append, List.sum_append, ih]; simp

/-- A function that the rule of each interval integrates to the increment of `F` is integrated by the composite rule to
the increment of `F` between the smallest and the largest knot. -/
theorem composite_exact [Field K] [LinearOrder K] (gauss : K → K → Nat → Rule K K)
    (hg : ∀ a b n, (gauss a b n).points.length = (gauss a b n).weights.length) (knots : List K) (h0 : knots ≠ []) (n : List Nat)
    (hn : knots.length - 1 ≤ n.length) (f F : K → K)
    (hf : ∀ a b, ∀ k ∈ n, a ≤ b → (gauss a b k).integrate f = .ok (F b - F a)) :
    ∃ r lo hi, composite gauss knots n = .ok r ∧ lo ∈ knots ∧ hi ∈ knots ∧ (∀ x ∈ knots, lo ≤ x ∧ x ≤ hi) ∧
      r.integrate f = .ok (F hi - F lo) := by
  obtain ⟨r, h1, h2⟩ := composite_integrate gauss hg knots n hn f
  set s := knots.insertionSort (· ≤ ·) with hs
  have hl : s.length = knots.length := List.length_insertionSort ..
  have hp : 0 < knots.length := List.length_pos_iff.2 h0
  have hsorted : s.Pairwise (· ≤ ·) := List.pairwise_insertionSort _ _
  have hmem : ∀ x, x ∈ s ↔ x ∈ knots := fun x => List.mem_insertionSort _
  have hmono : ∀ i j, i ≤ j → j < s.length → s.getD i 0 ≤ s.getD j 0 := by
    intro i j hij hj
    rw [List.getD_eq_getElem _ _ (by omega), List.getD_eq_getElem _ _ hj]
    rcases Nat.lt_or_eq_of_le hij with h | h
    · exact List.pairwise_iff_getElem.1 hsorted i j (by omega) hj h
    · subst h; exact le_refl _
  refine ⟨r, s.getD 0 0, s.getD (knots.length - 1) 0, h1, ?_, ?_, ?_, ?_⟩
  · rw [← hmem, List.getD_eq_getElem _ _ (by omega)]; exact List.getElem_mem _
  · rw [← hmem, List.getD_eq_getElem _ _ (by omega)]; exact List.getElem_mem _
  · intro x hx
    rw [← hmem] at hx
    obtain ⟨i, hi, rfl⟩ := List.getElem_of_mem hx
    rw [← List.getD_eq_getElem _ 0 hi]
    exact ⟨hmono _ _ (by omega) hi, hmono _ _ (by omega) (by omega)⟩
  · rw [h2]
    congr 1
    rw [← telescope (fun k => F (s.getD k 0))]
    congr 1
    apply List.map_congr_left
    intro k hk
    rw [List.mem_range] at hk
    have hkn : n.getD k 0 ∈ n := by rw [List.getD_eq_getElem _ _ (by omega)]; exact List.getElem_mem _
    have := hf (s.getD k 0) (s.getD (k + 1) 0) _ hkn (hmono _ _ (by omega) (by omega))
    rw [integrate_eq _ (hg _ _ _)] at this
    injection this

/-- The rule on `[a, b]` obtained from a rule on `[-1, 1]` for the uniform probability: the integral of `f` is `b - a`
times the value of the rule on `[-1, 1]` at `f` composed with the affine map. -/
theorem lebesgueRule_integrate [Field K] (std : Rule K K) (h : std.points.length = std.weights.length) (a b : K) (f : K → K) (v : K)
    (hv : std.integrate (fun t => f ((a + b) / 2 + (b - a) / 2 * t)) = .ok v) :
    (lebesgueRule std a b).integrate f = .ok ((b - a) * v) := by
  rw [integrate_eq _ h] at hv
  injection hv with hv
  rw [integrate_eq _ (by simp [lebesgueRule, h])]
  congr 1
  rw [← hv]
  unfold lebesgueRule
  generalize std.points = p at *
  generalize std.weights = w at *
  clear hv
  induction p generalizing w with
  | nil => simp
  | cons x p ih =>
    cases w with
    | nil => simp
    | cons y w =>
      simp only [List.map_cons, List.zipWith_cons_cons, List.sum_cons]
      rw [ih w (by simpa using h)]
      ring

/-- With the midpoint rule (one Gauss point) on the intervals of the unsorted knots 2, 0, 1 the integral of `x` over
`[0, 2]` is 2. -/
example : ∃ r, composite (fun (a b : ℚ) _ => lebesgueRule ⟨[0], [1]⟩ a b) [2, 0, 1] [1, 1] = .ok r ∧
    r.integrate (fun x => x) = .ok 2 := ⟨⟨[1/2, 3/2], [1, 1]⟩, by decide +kernel, by decide +kernel⟩

example : ∀ a b : ℚ, (lebesgueRule ⟨[0], [1]⟩ a b).integrate (fun x => x) = .ok (b ^ 2 / 2 - a ^ 2 / 2) := by
  intro a b
  rw [lebesgueRule_integrate _ rfl a b _ ((a + b) / 2) (by simp [Rule.integrate])]
  congr 1; ring

example : ((ofColumns [[0, 1], [5, 6, 7]] : FullGrid ℚ)).array =
    .ok [[0, 5], [1, 5], [0, 6], [1, 6], [0, 7], [1, 7]] := by decide +kernel

end Verif.Grids
