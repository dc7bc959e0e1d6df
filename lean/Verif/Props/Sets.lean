import Verif.Model.Sets
import Verif.Props.Measures
import Verif.Lemmas.Arr
import Mathlib.Tactic.Linarith

/-!
# Properties of `is_in` (C218) and `random_multi_indices` (C219)
-/

namespace Verif.Sets

open Verif.Measures

variable {K : Type}

/-- The point `p` is in the closed box of extreme points `lo` and `hi`. -/
def InClosedBox [LE K] [Zero K] (lo hi p : List K) : Prop := ∀ k, k < lo.length → lo.getD k 0 ≤ p.getD k 0 ∧ p.getD k 0 ≤ hi.getD k 0

theorem mapM_col {K : Type} [Zero K] (X : List (List K)) (k : Nat) (h : ∀ row ∈ X, k < row.length) :
    X.mapM (pick k) = .ok (X.map (fun row => row.getD k 0)) := by
  induction X with
  | nil => rfl
  | cons row X ih =>
    have h1 := h row (by simp)
    rw [List.mapM_cons, ih (fun r hr => h r (by simp [hr]))]
    simp only [pick, List.getElem?_eq_getElem h1, List.map_cons, List.getD_eq_getElem _ _ h1]
    rfl

theorem entry_ok [Zero K] {M : List (List K)} {row : List K} {i k : Nat} (h : M[i]? = some row) (hk : k < row.length) :
    entry M i k = .ok (row.getD k 0) := by
  unfold entry
  rw [h]
  simp only [pick, List.getElem?_eq_getElem hk, List.getD_eq_getElem _ _ hk]

theorem zipWith_map_map {α β γ δ : Type} (F : β → γ → δ) (f : α → β) (g : α → γ) (X : List α) :
    List.zipWith F (X.map f) (X.map g) = X.map (fun a => F (f a) (g a)) := by
  induction X with
  | nil => rfl
  | cons a X ih => simp [ih]

theorem inStep_ok [LinearOrder K] [Zero K] {lo hi : List K} {X : List (List K)} {c k : Nat} (hlo : k < lo.length) (hhi : k < hi.length)
    (hc : k < c) (hX : ∀ row ∈ X, row.length = c) (f : List K → Bool) :
    inStep [lo, hi] X c (X.map f) k = .ok (X.map (fun row => f row && decide (lo.getD k 0 ≤ row.getD k 0) && decide (row.getD k 0 ≤ hi.getD k 0))) := by
  unfold inStep
  rw [if_neg (by omega), entry_ok (row := lo) rfl hlo, entry_ok (row := hi) rfl hhi]
  simp only [bind, Except.bind]
  have := mapM_col X k (fun row hr => by rw [hX row hr]; exact hc)
  rw [this]
  simp only
  rw [zipWith_map_map]

theorem fold_ok [LinearOrder K] [Zero K] {lo hi : List K} {X : List (List K)} {c : Nat} (hh : hi.length = lo.length) (hc : lo.length ≤ c)
    (hX : ∀ row ∈ X, row.length = c) (ks : List Nat) (hks : ∀ k ∈ ks, k < lo.length) (f : List K → Bool) :
    ∃ g : List K → Bool, ks.foldlM (inStep [lo, hi] X c) (X.map f) = .ok (X.map g) ∧
      ∀ row, g row = true ↔ f row = true ∧ ∀ k ∈ ks, lo.getD k 0 ≤ row.getD k 0 ∧ row.getD k 0 ≤ hi.getD k 0 := by
  induction ks generalizing f with
  | nil => exact ⟨f, rfl, fun row => by simp⟩
  | cons k ks ih =>
    have hk := hks k (by simp)
    obtain ⟨g, g1, g2⟩ := ih (fun k' hk' => hks k' (by simp [hk']))
      (fun row => f row && decide (lo.getD k 0 ≤ row.getD k 0) && decide (row.getD k 0 ≤ hi.getD k 0))
    refine ⟨g, ?_, fun row => ?_⟩
    · rw [List.foldlM_cons, inStep_ok hk (by omega) (by omega) hX f]
      exact g1
    · rw [g2 row]
      simp only [Bool.and_eq_true, decide_eq_true_eq, List.mem_cons, forall_eq_or_imp]
      tauto

theorem boxColumn_rows {lo hi : List K} (hh : hi.length = lo.length) : boxColumn ([lo, hi], lo.length) = ([lo, hi], lo.length) := by
  unfold boxColumn
  split
  · rename_i h
    have h : 2 * lo.length = 2 := h
    obtain ⟨a, rfl⟩ := List.length_eq_one_iff.1 (show lo.length = 1 by omega)
    obtain ⟨b, rfl⟩ := List.length_eq_one_iff.1 (show hi.length = 1 by simpa using hh)
    rfl
  · rfl

/-- C218. For a box given by its two extreme points and points given by the rows of a matrix with enough columns, `is_in` returns one boolean per
point, true exactly when the point is in the closed box. -/
theorem isIn_spec [LinearOrder K] [Zero K] (lo hi : List K) (hh : hi.length = lo.length) (X : List (List K)) (c : Nat)
    (hX : ∀ row ∈ X, row.length = c) (hc : lo.length ≤ c) :
    ∃ ok, isIn (.mat [lo, hi] lo.length) (.mat X c) = .ok ok ∧ ok.length = X.length ∧
      ∀ i (h : i < X.length), ok.getD i false = true ↔ InClosedBox lo hi X[i] := by
  obtain ⟨g, g1, g2⟩ := fold_ok hh hc hX (List.range lo.length) (fun k hk => List.mem_range.1 hk) (fun _ => true)
  refine ⟨X.map g, ?_, by simp, fun i h => ?_⟩
  · unfold isIn
    simp only [atleast2d, boxColumn_rows hh]
    rw [← g1]
    congr 1
    induction X with
    | nil => rfl
    | cons a X ih => simp [List.replicate_succ]
  · rw [List.getD_eq_getElem _ _ (by simpa using h), List.getElem_map, g2]
    unfold InClosedBox
    simp

/-- C218. A box of dimension one can be given by its two bounds in a vector or in a row, with the same result. -/
theorem isIn_interval [LinearOrder K] [Zero K] (a b : K) (x : NpArr K) :
    isIn (.vec [a, b]) x = isIn (.mat [[a], [b]] 1) x ∧ isIn (.mat [[a, b]] 2) x = isIn (.mat [[a], [b]] 1) x := ⟨rfl, rfl⟩

/-- C218. Points with fewer coordinates than the box are refused. -/
theorem isIn_short [LinearOrder K] [Zero K] (lo hi : List K) (hh : hi.length = lo.length) (X : List (List K)) (c : Nat)
    (hX : ∀ row ∈ X, row.length = c) (hc : c < lo.length) :
    isIn (.mat [lo, hi] lo.length) (.mat X c) = .error .indexError := by
  unfold isIn
  simp only [atleast2d, boxColumn_rows hh]
  have hsplit : List.range lo.length = List.range c ++ c :: (List.range' (c + 1) (lo.length - c - 1)) := by
    rw [List.range_eq_range', List.range_eq_range', show lo.length = c + ((lo.length - c - 1) + 1) by omega,
      ← List.range'_append_1, List.range'_succ]
    simp
  rw [hsplit, List.foldlM_append]
  have hrep : List.replicate X.length true = X.map (fun _ => true) := by
    simp
  rw [hrep]
  have key : ∀ (ks : List Nat) (f : List K → Bool), (∀ k ∈ ks, k < c) →
      ∃ g : List K → Bool, ks.foldlM (inStep [lo, hi] X c) (X.map f) = .ok (X.map g) := by
    intro ks
    induction ks with
    | nil => intro f _; exact ⟨f, rfl⟩
    | cons k ks ih =>
      intro f hk
      have h1 := hk k (by simp)
      obtain ⟨g, hg⟩ := ih (fun row => f row && decide (lo.getD k 0 ≤ row.getD k 0) && decide (row.getD k 0 ≤ hi.getD k 0))
        (fun k' hk' => hk k' (by simp [hk']))
      exact ⟨g, by rw [List.foldlM_cons, inStep_ok (by omega) (by omega) h1 hX f]; exact hg⟩
  obtain ⟨g, hg⟩ := key (List.range c) (fun _ => true) (fun k hk => List.mem_range.1 hk)
  rw [hg]
  show (c :: _).foldlM (inStep [lo, hi] X c) (X.map g) = _
  rw [List.foldlM_cons]
  unfold inStep
  rw [if_pos (le_refl c)]
  rfl

/-- C218. A vector of numbers is one point: with an interval, only its first entry is tested. -/
theorem isIn_vector [LinearOrder K] [Zero K] (a b u : K) (l : List K) :
    isIn (.vec [a, b]) (.vec (u :: l)) = .ok [decide (a ≤ u) && decide (u ≤ b)] := by
  simp [isIn, atleast2d, boxColumn, inStep, entry, pick, bind, Except.bind, List.range_succ, pure, Except.pure]

/-- C218. Two points of which the second is outside the interval: the result has one entry, true. -/
theorem isIn_vector_wrong : isIn (.vec [0, 1]) (.vec [(1 / 2 : ℚ), 2]) = .ok [true] := by
  rw [isIn_vector]; norm_num

/-- The hypotheses of `isIn_spec` are met, by points inside and outside a box. -/
example : isIn (.mat [[0, 1], [2, 3]] 2) (.mat [[1, 3], [1, 4]] 2 : NpArr Int) = .ok [true, false] := by decide +kernel

/-! ### random multi-indices -/

/-- The probability that independent variables take the values `v`. -/
def jointMass : List (DRV ℚ) → List ℚ → ℚ
  | [], [] => 1
  | X :: Xs, a :: v => (List.zipWith (fun b p => if b = a then p else 0) X.values X.probs).sum * jointMass Xs v
  | _, _ => 0

theorem mass_uniform (l : List ℚ) (hl : l.Nodup) (p a : ℚ) :
    (List.zipWith (fun b q => if b = a then q else 0) l (List.replicate l.length p)).sum = if a ∈ l then p else 0 := by
  induction l with
  | nil => simp
  | cons b l ih =>
    obtain ⟨h1, h2⟩ := List.nodup_cons.1 hl
    rw [List.length_cons, List.replicate_succ, List.zipWith_cons_cons, List.sum_cons, ih h2]
    by_cases hb : b = a
    · subst hb
      simp [h1]
    · simp [hb, Ne.symm hb]

theorem components (eps : ℚ) (ind : List (List ℚ)) : ind.mapM (fun l => mk eps l none) =
    (.ok (ind.map (fun l => ⟨l, List.replicate l.length (1 / (l.length : ℚ))⟩)) : Py (List (DRV ℚ))) := by
  induction ind with
  | nil => rfl
  | cons l ind ih => rw [List.mapM_cons, ih]; rfl

theorem jointMass_uniform (ind : List (List ℚ)) (hn : ∀ l ∈ ind, l.Nodup) (v : List ℚ) :
    (List.Forall₂ (fun l a => a ∈ l) ind v → jointMass (ind.map (fun l => ⟨l, List.replicate l.length (1 / (l.length : ℚ))⟩)) v =
      1 / (((ind.map List.length).prod : ℕ) : ℚ)) ∧
    (¬ List.Forall₂ (fun l a => a ∈ l) ind v → jointMass (ind.map (fun l => ⟨l, List.replicate l.length (1 / (l.length : ℚ))⟩)) v = 0) := by
  induction ind generalizing v with
  | nil => cases v <;> simp [jointMass]
  | cons l ind ih =>
    cases v with
    | nil => simp [jointMass]
    | cons a v =>
      obtain ⟨i1, i2⟩ := ih (fun l' h => hn l' (by simp [h])) v
      have hm := mass_uniform l (hn l (by simp)) (1 / (l.length : ℚ)) a
      simp only [List.map_cons, jointMass, List.forall₂_cons, List.prod_cons]
      rw [hm]
      constructor
      · rintro ⟨h1, h2⟩
        rw [i1 h2, if_pos h1]
        push_cast
        rw [one_div_mul_one_div]
      · intro h
        by_cases h1 : a ∈ l
        · rw [i2 (fun h2 => h ⟨h1, h2⟩), mul_zero]
        · rw [if_neg h1, zero_mul]

theorem mapM_arange (s : List Nat) : (s.map Elem.num).mapM arange = .ok (s.map (fun n => (List.range n).map (fun i : Nat => (i : ℚ)))) := by
  induction s with
  | nil => rfl
  | cons n s ih => rw [List.map_cons, List.mapM_cons, ih]; rfl

theorem mem_intervals (s : List Nat) (v : List ℚ) :
    List.Forall₂ (fun l a => a ∈ l) (s.map (fun n => (List.range n).map (fun i : Nat => (i : ℚ)))) v ↔
      ∃ idx, InBox s idx ∧ v = idx.map (fun i : Nat => (i : ℚ)) := by
  induction s generalizing v with
  | nil =>
    constructor
    · intro h; cases h; exact ⟨[], .nil, rfl⟩
    · rintro ⟨idx, h, rfl⟩
      cases h; exact .nil
  | cons n s ih =>
    constructor
    · intro h
      rw [List.map_cons] at h
      cases h with
      | cons h1 h2 =>
        obtain ⟨i, hi, rfl⟩ := List.mem_map.1 h1
        obtain ⟨idx, q1, rfl⟩ := (ih _).1 h2
        exact ⟨i :: idx, .cons (List.mem_range.1 hi) q1, rfl⟩
    · rintro ⟨idx, h, rfl⟩
      cases h with
      | cons h1 h2 =>
        exact .cons (List.mem_map.2 ⟨_, List.mem_range.2 h1, rfl⟩) ((ih _).2 ⟨_, h2, rfl⟩)

/-- C219. For a list of positive integers, the random vector has the uniform law on the multi-indices of the box: probability one over the number
of multi-indices for each of them, zero elsewhere; the components are laws, and the list is not modified. -/
theorem randomMultiIndices_ints (eps : ℚ) (s : List Nat) (hs : s ≠ []) (hp : ∀ n ∈ s, 0 < n) :
    ∃ X, randomMultiIndices eps (s.map Elem.num) = .ok (X, s.map Elem.num) ∧ X.length = s.length ∧ (∀ x ∈ X, IsLaw x) ∧
      (∀ idx, InBox s idx → jointMass X (idx.map (fun i : Nat => (i : ℚ))) = 1 / ((s.prod : ℕ) : ℚ)) ∧
      ∀ v : List ℚ, (¬ ∃ idx, InBox s idx ∧ v = idx.map (fun i : Nat => (i : ℚ))) → jointMass X v = 0 := by
  have hall : (s.map Elem.num).all Elem.isList = false := by
    cases s with
    | nil => exact absurd rfl hs
    | cons n s => rfl
  have hnd : ∀ l ∈ s.map (fun n => (List.range n).map (fun i : Nat => (i : ℚ))), l.Nodup := by
    intro l hl
    obtain ⟨n, -, rfl⟩ := List.mem_map.1 hl
    exact List.nodup_range.map (fun a b h => by exact_mod_cast h)
  have hlen : (s.map (fun n => (List.range n).map (fun i : Nat => (i : ℚ)))).map List.length = s := by
    rw [List.map_map]
    conv_rhs => rw [← List.map_id s]
    exact List.map_congr_left (fun n _ => by simp)
  have hmem : ∀ v : List ℚ, List.Forall₂ (fun l a => a ∈ l) (s.map (fun n => (List.range n).map (fun i : Nat => (i : ℚ)))) v ↔
      ∃ idx, InBox s idx ∧ v = idx.map (fun i : Nat => (i : ℚ)) := by
    intro v
    exact mem_intervals s v
  refine ⟨(s.map (fun n => (List.range n).map (fun i : Nat => (i : ℚ)))).map (fun l => (⟨l, List.replicate l.length (1 / (l.length : ℚ))⟩ : DRV ℚ)), ?_, ?_, ?_, ?_, ?_⟩
  · unfold randomMultiIndices intervals
    simp only [hall]
    rw [if_neg (by simp), mapM_arange]
    simp only [bind, Except.bind]
    rw [components]
    rfl
  · simp
  · intro x hx
    obtain ⟨l, hl, rfl⟩ := List.mem_map.1 hx
    obtain ⟨n, hn, rfl⟩ := List.mem_map.1 hl
    obtain ⟨X, x1, -, x2, -⟩ := mk_uniform eps ((List.range n).map (fun i : Nat => (i : ℚ))) (by
      have := hp n hn
      intro h
      rw [List.map_eq_nil_iff, List.range_eq_nil] at h
      omega)
    cases x1
    exact x2
  · intro idx hi
    rw [(jointMass_uniform _ hnd _).1 ((hmem _).2 ⟨idx, hi, rfl⟩), hlen]
  · intro v hv
    exact (jointMass_uniform _ hnd _).2 (fun h => hv ((hmem v).1 h))

/-- C219. For a list of lists of distinct values, the vector has the uniform law on the product of the lists, but the argument is modified: its
elements are replaced by the random variables. -/
theorem randomMultiIndices_lists (eps : ℚ) (ind : List (List ℚ)) (hn : ∀ l ∈ ind, l.Nodup) :
    ∃ X, randomMultiIndices eps (ind.map Elem.vals) = .ok (X, X.map Elem.rv) ∧ X.length = ind.length ∧
      ∀ v, (List.Forall₂ (fun l a => a ∈ l) ind v → jointMass X v = 1 / (((ind.map List.length).prod : ℕ) : ℚ)) ∧
        (¬ List.Forall₂ (fun l a => a ∈ l) ind v → jointMass X v = 0) := by
  have hall : (ind.map Elem.vals).all Elem.isList = true := by
    rw [List.all_eq_true]
    intro e he
    obtain ⟨l, -, rfl⟩ := List.mem_map.1 he
    rfl
  have hf : (ind.map Elem.vals).filterMap Elem.list? = ind := by
    rw [List.filterMap_map]
    exact List.filterMap_some
  refine ⟨ind.map (fun l => (⟨l, List.replicate l.length (1 / (l.length : ℚ))⟩ : DRV ℚ)), ?_, ?_, jointMass_uniform ind hn⟩
  · unfold randomMultiIndices intervals
    simp only [hall, if_true, bind, Except.bind, hf]
    rw [components]
  · simp

/-- C219. A second call with the same list raises an exception. -/
theorem randomMultiIndices_twice (eps : ℚ) (ind : List (List ℚ)) (hne : ind ≠ []) :
    ∃ X s, randomMultiIndices eps (ind.map Elem.vals) = .ok (X, s) ∧ randomMultiIndices eps s = .error .typeError := by
  cases ind with
  | nil => exact absurd rfl hne
  | cons l ind =>
    have hall : ((l :: ind).map Elem.vals).all Elem.isList = true := by
      rw [List.all_eq_true]
      intro e he
      obtain ⟨l, -, rfl⟩ := List.mem_map.1 he
      rfl
    have hf : ((l :: ind).map Elem.vals).filterMap Elem.list? = l :: ind := by
      rw [List.filterMap_map]
      exact List.filterMap_some
    refine ⟨(l :: ind).map (fun l => (⟨l, List.replicate l.length (1 / (l.length : ℚ))⟩ : DRV ℚ)), ((l :: ind).map (fun l => (⟨l, List.replicate l.length (1 / (l.length : ℚ))⟩ : DRV ℚ))).map Elem.rv, ?_, ?_⟩
    · unfold randomMultiIndices intervals
      simp only [hall, if_true, bind, Except.bind, hf]
      rw [components]
    · unfold randomMultiIndices intervals
      rfl

/-- The hypotheses of C219 are met. -/
example : ([2, 3] : List Nat) ≠ [] ∧ (∀ n ∈ ([2, 3] : List Nat), 0 < n) ∧ ([[0, 1], [2, 5, 7]] : List (List ℚ)) ≠ [] ∧
    ∀ l ∈ ([[0, 1], [2, 5, 7]] : List (List ℚ)), l.Nodup := by decide +kernel

end Verif.Sets
