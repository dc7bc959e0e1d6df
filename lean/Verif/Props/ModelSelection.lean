import Verif.Model.ModelSelection
import Mathlib.Data.List.GetD
import Mathlib.Data.Rat.Defs
import Mathlib.Algebra.Order.Ring.Rat
import Mathlib.Algebra.Field.Rat
import Mathlib.Tactic.Linarith
import Mathlib.Tactic.NormNum

/-!
# Penalised model selection (C43)
-/

namespace Verif.ModelSelection

variable {K : Type} [Field K] [LinearOrder K] [IsStrictOrderedRing K]

/-! ### specification -/

/-- The penalty of model `j`. -/
def MS.pen (s : MS K) (j : Nat) : K := s.penShape (s.comp.getD j 0)

/-- The risk of model `j`. -/
def MS.rk (s : MS K) (j : Nat) : K := s.risk.getD j 0

/-- Model `m` minimises `risk + l pen` among the models of the list. -/
def IsMin (s : MS K) (l : K) (m : Nat) : Prop :=
  m < s.risk.length ∧ ∀ j < s.risk.length, s.rk m + l * s.pen m ≤ s.rk j + l * s.pen j

/-! ### argmin -/

theorem exists_min : ∀ (l : List K), l ≠ [] → ∃ x ∈ l, ∀ y ∈ l, x ≤ y
  | [], h => absurd rfl h
  | [a], _ => ⟨a, by simp, by simp⟩
  | a :: b :: l, _ => by
    obtain ⟨x, hx, h⟩ := exists_min (b :: l) (by simp)
    rcases le_total a x with hax | hax
    · refine ⟨a, by simp, fun y hy => ?_⟩
      rcases List.mem_cons.1 hy with rfl | hy
      · exact le_refl _
      · exact hax.trans (h y hy)
    · refine ⟨x, List.mem_cons_of_mem _ hx, fun y hy => ?_⟩
      rcases List.mem_cons.1 hy with rfl | hy
      · exact hax
      · exact h y hy

theorem argmin_spec (l : List K) (h : l ≠ []) :
    ∃ m, argmin l = .ok m ∧ m < l.length ∧ (∀ j < l.length, l.getD m 0 ≤ l.getD j 0) ∧ ∀ j < m, l.getD m 0 < l.getD j 0 := by
  set p : K → Bool := fun x => l.all (fun y => decide (x ≤ y)) with hp
  have hlt : l.findIdx p < l.length := by
    rw [List.findIdx_lt_length]
    obtain ⟨x, hx, hm⟩ := exists_min l h
    exact ⟨x, hx, by rw [hp]; simpa using hm⟩
  have hmin : ∀ y ∈ l, l.getD (l.findIdx p) 0 ≤ y := by
    have := List.findIdx_getElem (w := hlt)
    rw [List.getD_eq_getElem _ _ hlt]
    simpa [hp] using this
  refine ⟨l.findIdx p, by unfold argmin; rw [if_neg h], hlt, ?_, ?_⟩
  · intro j hj
    rw [List.getD_eq_getElem _ 0 hj]; exact hmin _ (List.getElem_mem _)
  · intro j hj
    have hjl : j < l.length := hj.trans hlt
    have := List.not_of_lt_findIdx hj
    by_contra hcon
    rw [not_lt] at hcon
    apply (Bool.eq_false_iff.1 this)
    simp only [hp, List.all_eq_true, decide_eq_true_eq]
    intro y hy
    rw [List.getD_eq_getElem _ _ hjl] at hcon
    exact hcon.trans (hmin y hy)

theorem argmax_spec (l : List K) (h : l ≠ []) :
    ∃ m, argmax l = .ok m ∧ m < l.length ∧ ∀ j < l.length, l.getD j 0 ≤ l.getD m 0 := by
  set p : K → Bool := fun x => l.all (fun y => decide (y ≤ x)) with hp
  have hlt : l.findIdx p < l.length := by
    rw [List.findIdx_lt_length]
    obtain ⟨x, hx, hm⟩ := exists_min (l.map (fun x => -x)) (by simpa using h)
    obtain ⟨x, hxl, rfl⟩ := List.mem_map.1 hx
    refine ⟨x, hxl, ?_⟩
    rw [hp]
    simp only [List.all_eq_true, decide_eq_true_eq]
    intro y hy
    have := hm (-y) (List.mem_map.2 ⟨y, hy, rfl⟩)
    linarith
  refine ⟨l.findIdx p, by unfold argmax; rw [if_neg h], hlt, ?_⟩
  intro j hj
  have := List.findIdx_getElem (w := hlt)
  rw [List.getD_eq_getElem _ _ hlt, List.getD_eq_getElem _ _ hj]
  simp only [hp, List.all_eq_true, decide_eq_true_eq] at this
  exact this _ (List.getElem_mem _)

theorem zipWith_getD {α β γ : Type} (f : α → β → γ) (a : List α) (b : List β) (z : γ) (za : α) (zb : β) (j : Nat)
    (h1 : j < a.length) (h2 : j < b.length) : (List.zipWith f a b).getD j z = f (a.getD j za) (b.getD j zb) := by
  rw [List.getD_eq_getElem _ _ (by rw [List.length_zipWith]; omega), List.getElem_zipWith,
    List.getD_eq_getElem _ _ h1, List.getD_eq_getElem _ _ h2]

/-- C43. `m_lambda(l)` is the first model that minimises the penalised risk. -/
theorem mLambda1_spec (s : MS K) (hl : s.comp.length = s.risk.length) (h0 : s.risk ≠ []) (l : K) :
    ∃ m, mLambda1 s l = .ok m ∧ IsMin s l m ∧ ∀ j < m, ¬ IsMin s l j := by
  have hz : (List.zipWith (fun r c => r + l * s.penShape c) s.risk s.comp).length = s.risk.length := by
    rw [List.length_zipWith]; omega
  have hg : ∀ j < s.risk.length, (List.zipWith (fun r c => r + l * s.penShape c) s.risk s.comp).getD j 0 =
      s.rk j + l * s.pen j := fun j hj => zipWith_getD _ _ _ _ 0 0 j hj (by omega)
  obtain ⟨m, h1, h2, h3, h4⟩ := argmin_spec (List.zipWith (fun r c => r + l * s.penShape c) s.risk s.comp) (by
    intro h
    rw [h] at hz
    exact h0 (List.length_eq_zero_iff.1 hz.symm))
  rw [hz] at h2 h3
  refine ⟨m, h1, ⟨h2, fun j hj => ?_⟩, fun j hj hm => ?_⟩
  · rw [← hg m h2, ← hg j hj]; exact h3 j hj
  · have := h4 j hj
    rw [hg m h2, hg j (hj.trans h2)] at this
    exact absurd (hm.2 m h2) (not_le.2 this)

/-- C43, for an array of penalisation factors. -/
theorem mLambda_spec (s : MS K) (hl : s.comp.length = s.risk.length) (h0 : s.risk ≠ []) (ls : List K) :
    ∃ ms, mLambda s ls = .ok ms ∧ List.Forall₂ (fun l m => IsMin s l m ∧ ∀ j < m, ¬ IsMin s l j) ls ms := by
  induction ls with
  | nil => exact ⟨[], rfl, .nil⟩
  | cons l ls ih =>
    obtain ⟨ms, h1, h2⟩ := ih
    obtain ⟨m, h3, h4⟩ := mLambda1_spec s hl h0 l
    refine ⟨m :: ms, ?_, .cons h4 h2⟩
    unfold mLambda at h1 ⊢
    simp [List.mapM_cons, h3, h1, bind, Except.bind, pure, Except.pure]

theorem mLambda1_empty (s : MS K) (h0 : s.risk = []) (l : K) : mLambda1 s l = .error .valueError := by
  unfold mLambda1 argmin
  rw [h0]; rfl

/-! ### the candidates -/

theorem lambdaCurrent_length (s : MS K) (hl : s.comp.length = s.risk.length) (ind : Nat) (l0 : K) :
    (lambdaCurrent s ind l0).length = s.risk.length := by
  unfold lambdaCurrent
  rw [List.length_zipWith]; omega

/-- An entry of `lambda_current` is the value at which model `j` becomes as good as model `ind`, if this is above
`lambda_0`. -/
theorem lambdaCurrent_some (s : MS K) (hl : s.comp.length = s.risk.length) (ind : Nat) (l0 : K) (j : Nat) (q : K) :
    (lambdaCurrent s ind l0).getD j none = some q ↔
      j < s.risk.length ∧ s.pen j ≠ s.pen ind ∧ q = (s.rk j - s.rk ind) / (s.pen ind - s.pen j) ∧ l0 < q := by
  by_cases hj : j < s.risk.length
  · unfold lambdaCurrent
    rw [zipWith_getD _ _ _ none 0 0 j hj (by omega)]
    change (if s.pen ind - s.pen j = 0 then none else if (s.rk j - s.rk ind) / (s.pen ind - s.pen j) ≤ l0 then none
      else some ((s.rk j - s.rk ind) / (s.pen ind - s.pen j))) = some q ↔ _
    by_cases hd : s.pen ind - s.pen j = 0
    · rw [if_pos hd]
      constructor
      · intro h; cases h
      · rintro ⟨_, h, _⟩; exact absurd (sub_eq_zero.1 hd).symm h
    · rw [if_neg hd]
      have hne : s.pen j ≠ s.pen ind := fun h => hd (sub_eq_zero.2 h.symm)
      by_cases hq : (s.rk j - s.rk ind) / (s.pen ind - s.pen j) ≤ l0
      · rw [if_pos hq]
        constructor
        · intro h; cases h
        · rintro ⟨_, _, rfl, h⟩; exact absurd hq (not_le.2 h)
      · rw [if_neg hq, Option.some_inj]
        exact ⟨fun h => ⟨hj, hne, h.symm, h ▸ not_le.1 hq⟩, fun h => h.2.2.1.symm⟩
  · rw [List.getD_eq_default _ _ (by rw [lambdaCurrent_length s hl]; omega)]
    constructor
    · intro h; cases h
    · rintro ⟨h, _⟩; exact absurd h hj

theorem nanargmin_none (l : List (Option K)) (h : l.getD (nanargmin l) none = none) : ∀ j, l.getD j none = none := by
  by_contra hcon
  push Not at hcon
  obtain ⟨j, hj⟩ := hcon
  have hjl : j < l.length := by
    by_contra hlt
    exact hj (List.getD_eq_default _ _ (by omega))
  obtain ⟨x, hx, hm⟩ := exists_min (l.filterMap id) (by
    intro h0
    have := List.filterMap_eq_nil_iff.1 h0 _ (List.getElem_mem hjl)
    rw [List.getD_eq_getElem _ _ hjl] at hj
    exact hj (by simpa using this))
  have hlt : nanargmin l < l.length := by
    unfold nanargmin
    rw [List.findIdx_lt_length]
    refine ⟨some x, by simpa using hx, ?_⟩
    simp only [isNanMin, List.all_eq_true]
    intro o ho
    cases o with
    | none => rfl
    | some y => exact decide_eq_true (hm y (by simpa using ho))
  rw [List.getD_eq_getElem _ _ hlt] at h
  have := List.findIdx_getElem (w := hlt)
  have h2 : isNanMin l l[nanargmin l] = true := this
  rw [h] at h2
  cases h2

theorem nanargmin_some (l : List (Option K)) (x : K) (h : l.getD (nanargmin l) none = some x) :
    (∀ j y, l.getD j none = some y → x ≤ y) ∧ ∀ j y, l.getD j none = some y → y ≤ x → nanargmin l ≤ j := by
  have hlt : nanargmin l < l.length := by
    by_contra hlt
    rw [List.getD_eq_default _ _ (by omega)] at h; cases h
  have h2 : isNanMin l l[nanargmin l] = true := List.findIdx_getElem (w := hlt)
  rw [List.getD_eq_getElem _ _ hlt] at h
  rw [h] at h2
  have hmin : ∀ j y, l.getD j none = some y → x ≤ y := by
    intro j y hj
    have hjl : j < l.length := by
      by_contra hlt
      rw [List.getD_eq_default _ _ (by omega)] at hj; cases hj
    rw [List.getD_eq_getElem _ _ hjl] at hj
    simp only [isNanMin, List.all_eq_true] at h2
    have := h2 _ (List.getElem_mem hjl)
    rw [hj] at this
    simpa using this
  refine ⟨hmin, fun j y hj hy => ?_⟩
  by_contra hcon
  have hjl : j < l.length := by omega
  have := List.not_of_lt_findIdx (p := isNanMin l) (xs := l) (i := j) (by unfold nanargmin at hcon; omega)
  apply (Bool.eq_false_iff.1 this)
  rw [List.getD_eq_getElem _ _ hjl] at hj
  rw [hj]
  simp only [isNanMin, List.all_eq_true]
  intro o ho
  cases o with
  | none => rfl
  | some z =>
    obtain ⟨k, hk, e⟩ := List.getElem_of_mem ho
    exact decide_eq_true (hy.trans (hmin k z (by rw [List.getD_eq_getElem _ _ hk, e])))

/-! ### termination -/

/-- All the values of the penalisation at which two models are equally good. -/
def crossings (s : MS K) : List K :=
  (List.range s.risk.length).flatMap (fun i => (List.range s.risk.length).map (fun j =>
    (s.rk j - s.rk i) / (s.pen i - s.pen j)))

theorem crossings_length (s : MS K) : (crossings s).length = s.risk.length * s.risk.length := by
  unfold crossings
  simp [List.length_flatMap]

theorem walk_terminates (s : MS K) (hl : s.comp.length = s.risk.length) (fuel : Nat) (l0 : K) (ind : Nat)
    (hi : ind < s.risk.length) (hf : (crossings s).countP (fun q => decide (l0 < q)) < fuel) :
    ∃ L, walk s fuel l0 ind = .ok L := by
  induction fuel generalizing l0 ind with
  | zero => omega
  | succ fuel ih =>
    unfold walk
    dsimp only
    split
    · exact ⟨_, rfl⟩
    · rename_i l1 h1
      obtain ⟨h2, h3, h4, h5⟩ := (lambdaCurrent_some s hl ind l0 _ l1).1 h1
      have hmem : l1 ∈ crossings s := by
        unfold crossings
        rw [List.mem_flatMap]
        exact ⟨ind, List.mem_range.2 hi, List.mem_map.2 ⟨_, List.mem_range.2 h2, h4.symm⟩⟩
      have hlt : (crossings s).countP (fun q => decide (l1 < q)) < (crossings s).countP (fun q => decide (l0 < q)) := by
        obtain ⟨A, B, e⟩ := List.append_of_mem hmem
        rw [e]
        simp only [List.countP_append, List.countP_cons, lt_irrefl, decide_false, h5, decide_true]
        have hm : ∀ l : List K, l.countP (fun q => decide (l1 < q)) ≤ l.countP (fun q => decide (l0 < q)) := by
          intro l
          apply List.countP_mono_left
          intro q _ hq
          simp only [decide_eq_true_eq] at hq ⊢
          exact h5.trans hq
        have := hm A
        have := hm B
        simp
        omega
      obtain ⟨L, hL⟩ := ih l1 _ h2 (by omega)
      rw [hL]
      exact ⟨_, rfl⟩

/-- C43. `lambda_path()` returns, whatever the data; it makes at most `n² + 1` rounds for `n` models. -/
theorem lambdaPath_terminates (s : MS K) (hl : s.comp.length = s.risk.length) (h0 : s.risk ≠ []) (fuel : Nat)
    (hf : s.risk.length * s.risk.length < fuel) : ∃ r, lambdaPath s fuel = .ok r := by
  obtain ⟨m, h1, h2, _⟩ := argmin_spec s.risk h0
  obtain ⟨L, hL⟩ := walk_terminates s hl fuel 0 m h2 (lt_of_le_of_lt (List.countP_le_length) (by rw [crossings_length]; exact hf))
  unfold lambdaPath
  simp only [h1, hL, bind, Except.bind]
  cases L with
  | nil => exact ⟨_, rfl⟩
  | cons p L => exact ⟨_, rfl⟩

/-- No model: refused. -/
theorem lambdaPath_empty (s : MS K) (h0 : s.risk = []) (fuel : Nat) : lambdaPath s fuel = .error .valueError := by
  unfold lambdaPath argmin
  rw [if_pos h0]; rfl

/-! ### the walk along the lower envelope -/

/-- Where several models tie, the first one has the least penalty: the first model of least risk, and the first one
among those that tie at a positive `l` with a model of greater penalty. -/
structure TieBreak (s : MS K) : Prop where
  start : ∀ a b, IsMin s 0 a → IsMin s 0 b → (∀ j < a, ¬ IsMin s 0 j) → s.pen a ≤ s.pen b
  step : ∀ l, 0 < l → ∀ a b k, IsMin s l a → IsMin s l b → IsMin s l k → a < b → s.pen a < s.pen k → s.pen b < s.pen k → s.pen a ≤ s.pen b

/-- The models listed by increasing complexity. -/
theorem tieBreak_of_sorted (s : MS K) (h : ∀ i j, i ≤ j → j < s.risk.length → s.pen i ≤ s.pen j) : TieBreak s := by
  refine ⟨fun a b ha hb hf => ?_, fun l _ a b k ha hb _ hab _ _ => h a b hab.le hb.1⟩
  exact h a b (not_lt.1 (fun hba => hf b hba hb)) hb.1

/-- Data in general position: no three models of different penalties tie, nor two at `l = 0`. -/
theorem tieBreak_of_generic (s : MS K) (h0 : ∀ a b, IsMin s 0 a → IsMin s 0 b → s.pen a = s.pen b)
    (h : ∀ l, 0 < l → ∀ a b k, IsMin s l a → IsMin s l b → IsMin s l k → s.pen a = s.pen b ∨ s.pen a = s.pen k ∨ s.pen b = s.pen k) :
    TieBreak s := by
  refine ⟨fun a b ha hb _ => (h0 a b ha hb).le, fun l hl a b k ha hb hk _ h1 h2 => ?_⟩
  rcases h l hl a b k ha hb hk with e | e | e
  · exact e.le
  · exact absurd e h1.ne
  · exact absurd e h2.ne

/-- `ind` is best at `l0`, and of least penalty among the best. -/
def Inv (s : MS K) (l0 : K) (ind : Nat) : Prop :=
  0 ≤ l0 ∧ IsMin s l0 ind ∧ ∀ j, IsMin s l0 j → s.pen ind ≤ s.pen j

/-- A list of breakpoints describes the lower envelope from `l0`, `ind` on. -/
def Env (s : MS K) : K → Nat → List (K × Nat) → Prop
  | l0, ind, [] => ∀ l, l0 ≤ l → IsMin s l ind
  | l0, ind, p :: L => l0 < p.1 ∧ s.pen p.2 < s.pen ind ∧ (∀ l, l0 ≤ l → l ≤ p.1 → IsMin s l ind) ∧ Env s p.1 p.2 L

theorem isMin_upto (s : MS K) (l0 : K) (ind : Nat) (h : IsMin s l0 ind) (l : K) (hl : l0 ≤ l)
    (hc : ∀ j < s.risk.length, s.pen j < s.pen ind → l ≤ (s.rk j - s.rk ind) / (s.pen ind - s.pen j)) : IsMin s l ind := by
  refine ⟨h.1, fun j hj => ?_⟩
  rcases lt_or_ge (s.pen j) (s.pen ind) with hp | hp
  · have := hc j hj hp
    rw [le_div_iff₀ (sub_pos.2 hp)] at this
    linarith
  · have h1 := h.2 j hj
    have h2 := mul_nonneg (sub_nonneg.2 hl) (sub_nonneg.2 hp)
    linarith

theorem inv_candidates (s : MS K) (hl : s.comp.length = s.risk.length) (l0 : K) (ind : Nat) (h : Inv s l0 ind) (j : Nat) (q : K) :
    (lambdaCurrent s ind l0).getD j none = some q ↔
      j < s.risk.length ∧ s.pen j < s.pen ind ∧ q = (s.rk j - s.rk ind) / (s.pen ind - s.pen j) := by
  rw [lambdaCurrent_some s hl]
  constructor
  · rintro ⟨h1, h2, h3, h4⟩
    refine ⟨h1, lt_of_le_of_ne (not_lt.1 (fun hlt => ?_)) h2, h3⟩
    have hd : s.pen ind - s.pen j < 0 := sub_neg.2 hlt
    rw [h3, lt_div_iff_of_neg hd] at h4
    have := h.2.1.2 j h1
    linarith
  · rintro ⟨h1, h2, h3⟩
    refine ⟨h1, h2.ne, h3, ?_⟩
    by_contra hcon
    have hle := not_lt.1 hcon
    rw [h3, div_le_iff₀ (sub_pos.2 h2)] at hle
    have := h.2.2 j ⟨h1, fun k hk => by have := h.2.1.2 k hk; linarith⟩
    linarith

theorem walk_env (s : MS K) (hl : s.comp.length = s.risk.length) (ht : TieBreak s) (fuel : Nat) (l0 : K) (ind : Nat)
    (h : Inv s l0 ind) (L : List (K × Nat)) (hw : walk s fuel l0 ind = .ok L) : Env s l0 ind L := by
  induction fuel generalizing l0 ind L with
  | zero => cases hw
  | succ fuel ih =>
    unfold walk at hw
    dsimp only at hw
    have hc := inv_candidates s hl l0 ind h
    split at hw
    · rename_i hn
      injection hw with hw
      subst hw
      have := nanargmin_none _ hn
      intro l hle
      refine isMin_upto s l0 ind h.2.1 l hle (fun j hj hp => ?_)
      have h2 := (hc j _).2 ⟨hj, hp, rfl⟩
      rw [this j] at h2; cases h2
    · rename_i l1 hs
      set m := nanargmin (lambdaCurrent s ind l0) with hm
      obtain ⟨L', hL', e⟩ : ∃ L', walk s fuel l1 m = .ok L' ∧ L = (l1, m) :: L' := by
        cases hr : walk s fuel l1 m with
        | error _ => rw [hr] at hw; cases hw
        | ok L' => rw [hr] at hw; exact ⟨L', rfl, by injection hw with hw; exact hw.symm⟩
      subst e
      obtain ⟨g1, g2⟩ := nanargmin_some _ l1 hs
      obtain ⟨m1, m2, m3⟩ := (hc m l1).1 hs
      have hlt : l0 < l1 := ((lambdaCurrent_some s hl ind l0 m l1).1 hs).2.2.2
      have hmin : ∀ l, l0 ≤ l → l ≤ l1 → IsMin s l ind := fun l ha hb =>
        isMin_upto s l0 ind h.2.1 l ha (fun j hj hp => hb.trans (g1 j _ ((hc j _).2 ⟨hj, hp, rfl⟩)))
      have hat : IsMin s l1 ind := hmin l1 hlt.le (le_refl _)
      have htie : s.rk m + l1 * s.pen m = s.rk ind + l1 * s.pen ind := by
        rw [eq_div_iff (sub_pos.2 m2).ne'] at m3
        linarith
      have hatm : IsMin s l1 m := ⟨m1, fun k hk => by rw [htie]; exact hat.2 k hk⟩
      refine ⟨hlt, m2, hmin, ih l1 m ⟨h.1.trans hlt.le, hatm, fun j hj => ?_⟩ L' hL'⟩
      by_contra hcon
      have hpj := not_le.1 hcon
      have hpi : s.pen j < s.pen ind := hpj.trans m2
      have hq : (lambdaCurrent s ind l0).getD j none = some l1 := (hc j l1).2 ⟨hj.1, hpi, by
        rw [eq_div_iff (sub_pos.2 hpi).ne']
        have a1 := hat.2 j hj.1
        have a2 := hj.2 ind hat.1
        linarith⟩
      have hle := g2 j l1 hq (le_refl _)
      have hne : m ≠ j := fun e => by rw [e] at hpj; exact lt_irrefl _ hpj
      exact absurd (ht.step l1 (lt_of_le_of_lt h.1 hlt) m j ind hatm hj hat (by omega) m2 hpi) hcon

/-! ### the result -/

/-- `(p, m)` describes the models selected for each penalisation: `p` increases, and model `m i` is best between `p i`
and `p (i + 1)`, the first one also below `p 0` and the last one also above the last entry. -/
structure Describes (s : MS K) (p : List K) (m : List Nat) : Prop where
  length : p.length = m.length
  pos : ∀ x ∈ p, 0 < x
  increasing : p.Pairwise (· < ·)
  best : ∀ i < m.length, ∀ l, p.getD i 0 ≤ l → (i + 1 < p.length → l ≤ p.getD (i + 1) 0) → IsMin s l (m.getD i 0)
  best_below : ∀ l, 0 ≤ l → l ≤ p.getD 0 0 → IsMin s l (m.getD 0 0)
  drops : ∀ i, i + 2 < m.length → s.pen (m.getD (i + 1) 0) < s.pen (m.getD i 0)

/-- The part of the description that follows the first entry. -/
theorem env_describes (s : MS K) (l0 : K) (ind : Nat) (L : List (K × Nat)) (h : Env s l0 ind L) :
    (l0 :: L.map Prod.fst).Pairwise (· < ·) ∧
    (∀ i ≤ L.length, ∀ l, (l0 :: L.map Prod.fst).getD i 0 ≤ l → (i < L.length → l ≤ (L.map Prod.fst).getD i 0) →
      IsMin s l ((ind :: L.map Prod.snd).getD i 0)) ∧
    ∀ i < L.length, s.pen ((L.map Prod.snd).getD i 0) < s.pen ((ind :: L.map Prod.snd).getD i 0) := by
  induction L generalizing l0 ind with
  | nil =>
    refine ⟨by simp, fun i hi l h1 _ => ?_, fun i hi => absurd hi (by simp)⟩
    have : i = 0 := by simpa using hi
    subst this
    exact h l h1
  | cons p L ih =>
    obtain ⟨h1, h2, h3, h4⟩ := h
    obtain ⟨a, b, c⟩ := ih p.1 p.2 h4
    refine ⟨?_, ?_, ?_⟩
    · rw [List.map_cons, List.pairwise_cons]
      refine ⟨fun x hx => ?_, a⟩
      rcases List.mem_cons.1 hx with rfl | hx
      · exact h1
      · exact h1.trans ((List.pairwise_cons.1 a).1 x hx)
    · intro i hi l hl hu
      cases i with
      | zero => exact h3 l hl (hu (by simp))
      | succ i => exact b i (by simpa using hi) l hl (fun hlt => hu (by simpa using hlt))
    · intro i hi
      cases i with
      | zero => exact h2
      | succ i => exact c i (by simpa using hi)

theorem getD_last {α : Type} (z : α) (L : List α) (h : L ≠ []) : L.getD (L.length - 1) z = L.getLast h := by
  rw [List.getLast_eq_getElem, List.getD_eq_getElem]

/-- C43, when the first of tied models has the least penalty: `lambda_path()` follows the lower envelope. In the case of
the zero-dimensional answer, one model (not reported by the code) is best for each penalisation. -/
theorem lambdaPath_partial (s : MS K) (hl : s.comp.length = s.risk.length) (h0 : s.risk ≠ []) (ht : TieBreak s) (fuel : Nat)
    (r : PathResult K) (hr : lambdaPath s fuel = .ok r) :
    match r with
    | .zero => ∃ m, argmin s.risk = .ok m ∧ ∀ l, 0 ≤ l → IsMin s l m
    | .path p m => Describes s p m := by
  obtain ⟨ind, h1, h2, h3, h4⟩ := argmin_spec s.risk h0
  have hmin0 : ∀ j, IsMin s 0 j ↔ j < s.risk.length ∧ ∀ k < s.risk.length, s.risk.getD j 0 ≤ s.risk.getD k 0 := by
    intro j
    unfold IsMin
    simp only [zero_mul, add_zero]
    rfl
  have hinv : Inv s 0 ind := by
    refine ⟨le_refl _, (hmin0 ind).2 ⟨h2, h3⟩, fun j hj => ht.start ind j ((hmin0 ind).2 ⟨h2, h3⟩) hj (fun k hk hkm => ?_)⟩
    exact absurd (((hmin0 k).1 hkm).2 ind h2) (not_le.2 (h4 k hk))
  unfold lambdaPath at hr
  simp only [h1, bind, Except.bind] at hr
  cases hw : walk s fuel 0 ind with
  | error e => rw [hw] at hr; cases hr
  | ok L =>
    rw [hw] at hr
    have henv := walk_env s hl ht fuel 0 ind hinv L hw
    cases L with
    | nil =>
      dsimp only at hr
      injection hr with hr
      subst hr
      exact ⟨ind, h1, henv⟩
    | cons q L =>
      dsimp only at hr
      injection hr with hr
      subst hr
      obtain ⟨hs, hb, hd⟩ := env_describes s 0 ind (q :: L) henv
      set P := (q :: L).map Prod.fst with hP
      set M := (q :: L).map Prod.snd with hM
      have hPl : P.length = L.length + 1 := by simp [hP]
      have hMl : M.length = L.length + 1 := by simp [hM]
      have hlast1 : ((q :: L).getLast (by simp)).1 = P.getD (P.length - 1) 0 := by
        rw [getD_last 0 P (by simp [hP])]; simp only [hP, List.getLast_map]
      have hlast2 : ((q :: L).getLast (by simp)).2 = M.getD (M.length - 1) 0 := by
        rw [getD_last 0 M (by simp [hM])]; simp only [hM, List.getLast_map]
      have hs1 := List.pairwise_cons.1 hs
      have hq : 0 < q.1 := hs1.1 q.1 (by simp [hP])
      have hPlast : 0 < P.getD (P.length - 1) 0 := by
        apply hs1.1
        rw [getD_last 0 P (by simp [hP])]; exact List.getLast_mem _
      have hle_last : ∀ x ∈ P, x ≤ P.getD (P.length - 1) 0 := by
        intro x hx
        obtain ⟨i, hi, rfl⟩ := List.getElem_of_mem hx
        rcases Nat.lt_or_ge i (P.length - 1) with hlt | hge
        · rw [List.getD_eq_getElem _ _ (by omega)]
          exact (List.pairwise_iff_getElem.1 hs1.2 i (P.length - 1) hi (by omega) hlt).le
        · have : i = P.length - 1 := by omega
          subst this
          rw [List.getD_eq_getElem _ _ (by omega)]
      show Describes s ([q.1 / 2] ++ P ++ [((q :: L).getLast (by simp)).1 * 2]) ([ind] ++ M ++ [((q :: L).getLast (by simp)).2])
      rw [hlast1, hlast2]
      have gp0 : ([q.1 / 2] ++ P ++ [P.getD (P.length - 1) 0 * 2]).getD 0 0 = q.1 / 2 := rfl
      have gp : ∀ i < P.length, ([q.1 / 2] ++ P ++ [P.getD (P.length - 1) 0 * 2]).getD (i + 1) 0 = P.getD i 0 := by
        intro i hi
        rw [List.append_assoc, List.singleton_append, List.getD_cons_succ, List.getD_append _ _ _ _ hi]
      have gpl : ([q.1 / 2] ++ P ++ [P.getD (P.length - 1) 0 * 2]).getD (P.length + 1) 0 = P.getD (P.length - 1) 0 * 2 := by
        rw [List.append_assoc, List.singleton_append, List.getD_cons_succ, List.getD_append_right _ _ _ _ (le_refl _), Nat.sub_self]
        rfl
      have gm : ∀ i ≤ M.length, ([ind] ++ M ++ [M.getD (M.length - 1) 0]).getD i 0 = (ind :: M).getD i 0 := by
        intro i hi
        rw [List.getD_append _ _ _ _ (by simp; omega)]; rfl
      have gml : ([ind] ++ M ++ [M.getD (M.length - 1) 0]).getD (M.length + 1) 0 = M.getD (M.length - 1) 0 := by
        rw [List.append_assoc, List.singleton_append, List.getD_cons_succ, List.getD_append_right _ _ _ _ (le_refl _), Nat.sub_self]
        rfl
      have hML : (q :: L).length = M.length := by simp [hM]
      have hPM : P.length = M.length := by omega
      have hP0 : P.getD 0 0 = q.1 := rfl
      rw [hML] at hb hd
      refine ⟨by simp [hPM], ?_, ?_, ?_, ?_, ?_⟩
      · intro x hx
        simp only [List.mem_append, List.mem_singleton] at hx
        rcases hx with (rfl | hx) | rfl
        · exact half_pos hq
        · exact hs1.1 x hx
        · linarith
      · rw [List.append_assoc, List.singleton_append, List.pairwise_cons, List.pairwise_append]
        have hqle : ∀ x ∈ P, q.1 ≤ x := by
          intro x hx
          rw [hP, List.map_cons] at hx hs1
          rcases List.mem_cons.1 hx with rfl | hx
          · exact le_refl _
          · exact ((List.pairwise_cons.1 hs1.2).1 x hx).le
        refine ⟨fun x hx => ?_, hs1.2, by simp, fun x hx y hy => ?_⟩
        · simp only [List.mem_append, List.mem_singleton] at hx
          rcases hx with hx | rfl
          · have := hqle x hx; linarith
          · have := hle_last q.1 (by simp [hP]); linarith
        · rw [List.mem_singleton] at hy; subst hy
          have := hle_last x hx; linarith
      · intro i hi l hl1 hu
        have hlen : ([q.1 / 2] ++ P ++ [P.getD (P.length - 1) 0 * 2]).length = P.length + 2 := by simp
        have hi' : i < M.length + 2 := by simpa using hi
        rw [hlen] at hu
        rcases Nat.lt_or_ge i (M.length + 1) with hlt | hge
        · rw [gm i (by omega)]
          apply hb i (by omega) l
          · cases i with
            | zero =>
              rw [gp0] at hl1
              show (0 : K) ≤ l
              linarith
            | succ i =>
              rw [gp i (by omega)] at hl1
              exact hl1
          · intro h
            have := hu (by omega)
            rw [gp i (by omega)] at this
            exact this
        · have : i = M.length + 1 := by omega
          subst this
          rw [gml]
          rw [← hPM, gpl] at hl1
          have := hb M.length (le_refl _) l (by
            obtain ⟨n, hn⟩ : ∃ n, M.length = n + 1 := ⟨L.length, hMl⟩
            rw [hn, List.getD_cons_succ]
            have : n = P.length - 1 := by omega
            rw [this]; linarith) (fun h => absurd h (lt_irrefl _))
          obtain ⟨n, hn⟩ : ∃ n, M.length = n + 1 := ⟨L.length, hMl⟩
          rw [hn, List.getD_cons_succ] at this
          have e : n = M.length - 1 := by omega
          rw [e] at this
          exact this
      · intro l hl1 hl2
        rw [gp0] at hl2
        exact hb 0 (Nat.zero_le _) l hl1 (fun _ => by rw [hP0]; linarith)
      · intro i hi
        have hi' : i < M.length := by simp at hi; omega
        rw [gm (i + 1) (by omega), gm i (by omega), List.getD_cons_succ]
        exact hd i hi'

/-- C43 in full for models of strictly increasing penalties: then the zero-dimensional answer (`0`, model `0`) is right
too. -/
theorem lambdaPath_sorted (s : MS K) (hl : s.comp.length = s.risk.length) (h0 : s.risk ≠ [])
    (h : ∀ i j, i < j → j < s.risk.length → s.pen i < s.pen j) (fuel : Nat) (hf : s.risk.length * s.risk.length < fuel) :
    ∃ r, lambdaPath s fuel = .ok r ∧
      match r with
      | .zero => ∀ l, 0 ≤ l → IsMin s l 0
      | .path p m => Describes s p m := by
  obtain ⟨r, hr⟩ := lambdaPath_terminates s hl h0 fuel hf
  refine ⟨r, hr, ?_⟩
  have ht : TieBreak s := tieBreak_of_sorted s (fun i j hij hj => by
    rcases Nat.eq_or_lt_of_le hij with rfl | hlt
    · exact le_refl _
    · exact (h i j hlt hj).le)
  have := lambdaPath_partial s hl h0 ht fuel r hr
  cases r with
  | path p m => exact this
  | zero =>
    obtain ⟨m, h1, h2⟩ := this
    show ∀ l, 0 ≤ l → IsMin s l 0
    have hm : m = 0 := by
      by_contra hne
      have hp := h 0 m (Nat.pos_of_ne_zero hne) (h2 0 (le_refl _)).1
      have hn : 0 < s.risk.length := List.length_pos_iff.2 h0
      -- far enough, the model 0 is better
      have hd : 0 < s.pen m - s.pen 0 := sub_pos.2 hp
      have hr0 : s.rk m ≤ s.rk 0 := by
        have := (h2 0 (le_refl _)).2 0 hn
        simpa using this
      have hx := (h2 ((s.rk 0 - s.rk m + 1) / (s.pen m - s.pen 0)) (div_nonneg (by linarith) hd.le)).2 0 hn
      have : (s.rk 0 - s.rk m + 1) / (s.pen m - s.pen 0) * (s.pen m - s.pen 0) = s.rk 0 - s.rk m + 1 :=
        div_mul_cancel₀ _ hd.ne'
      linarith
    subst hm
    exact h2

/-- The hypotheses of `lambdaPath_sorted` are met, with a breakpoint. -/
theorem exSorted : let s : MS ℚ := ⟨[1, 2, 4], [5, 2, 1], id, 2⟩
    (∀ i j, i < j → j < s.risk.length → s.pen i < s.pen j) ∧
    lambdaPath s 10 = .ok (.path [1 / 4, 1 / 2, 3, 6] [2, 1, 0, 0]) := by
  intro s
  constructor
  · intro i j hij hj
    have hj : j < 3 := hj
    have : (i = 0 ∧ j = 1) ∨ (i = 0 ∧ j = 2) ∨ (i = 1 ∧ j = 2) := by omega
    rcases this with ⟨rfl, rfl⟩ | ⟨rfl, rfl⟩ | ⟨rfl, rfl⟩ <;> simp [s, MS.pen] <;> norm_num
  · decide +kernel

/-- The claim is false of the code when the models come in another order: two of them tie for the least risk, the first
one has the greater complexity, and `lambda_path` then reports model 0, then 2 on [2/3, 2], then 1 — although model 1 is
the best one on (0, 2) and model 2 from 2 on. -/
theorem lambdaPath_ties_wrong : let s : MS ℚ := ⟨[4, 2, 1], [1, 1, 3], id, 2⟩
    lambdaPath s 10 = .ok (.path [1 / 3, 2 / 3, 2, 4] [0, 2, 1, 1]) ∧ ¬ IsMin s (1 / 3) 0 ∧ ¬ IsMin s 1 2 := by
  intro s
  refine ⟨by decide +kernel, ?_, ?_⟩
  · intro h
    have := h.2 1 (by decide)
    simp [s, MS.rk, MS.pen] at this
    norm_num at this
  · intro h
    have := h.2 1 (by decide)
    simp [s, MS.rk, MS.pen] at this
    norm_num at this

/-- With no breakpoint the code reports model 0, here the worst one for each penalisation. -/
theorem lambdaPath_zero_wrong : let s : MS ℚ := ⟨[2, 1], [2, 1], id, 2⟩
    lambdaPath s 10 = .ok .zero ∧ ∀ l, 0 ≤ l → ¬ IsMin s l 0 := by
  intro s
  refine ⟨by decide +kernel, fun l hl h => ?_⟩
  have := h.2 1 (by decide)
  simp [s, MS.rk, MS.pen] at this
  linarith

/-! ### the slope heuristic -/

/-- The first model that is best at `l`. -/
def FirstMin (s : MS K) (l : K) (m : Nat) : Prop := IsMin s l m ∧ ∀ j < m, ¬ IsMin s l j

/-- `slope_heuristic()`: `lambda_hat` is `gap_factor` times the breakpoint of the path where the complexity of the
selected model (at the middles of the neighbouring intervals) drops most, and `m_hat` is best there. -/
theorem slopeHeuristic_spec (s : MS K) (hl : s.comp.length = s.risk.length) (h0 : s.risk ≠ []) (fuel : Nat)
    (hne : ∃ i, i + 1 < s.comp.length ∧ s.comp.getD i 0 ≠ s.comp.getD (i + 1) 0) (p : List K) (m : List Nat)
    (hp : lambdaPath s fuel = .ok (.path p m)) :
    ∃ i lh mh, slopeHeuristic s fuel = .ok (lh, mh) ∧ i + 2 < p.length ∧ lh = s.gapFactor * p.getD (i + 1) 0 ∧ FirstMin s lh mh ∧
      ∃ g : Nat → K, (∀ k, k + 2 < p.length → g k ≤ g i) ∧
        ∀ k, k + 2 < p.length → ∃ a b, FirstMin s ((p.getD k 0 + p.getD (k + 1) 0) / 2) a ∧
          FirstMin s ((p.getD (k + 1) 0 + p.getD (k + 2) 0) / 2) b ∧ g k = s.comp.getD a 0 - s.comp.getD b 0 := by
  have hall : (List.zipWith (fun a b => b - a) s.comp s.comp.tail).all (fun d => decide (d = 0)) = false := by
    rw [Bool.eq_false_iff]
    intro hall
    obtain ⟨i, hi, hne⟩ := hne
    rw [List.all_eq_true] at hall
    have hlen : i < (List.zipWith (fun a b => b - a) s.comp s.comp.tail).length := by
      rw [List.length_zipWith, List.length_tail]; omega
    have := hall _ (List.getElem_mem hlen)
    rw [List.getElem_zipWith, List.getElem_tail, decide_eq_true_eq, sub_eq_zero] at this
    apply hne
    rw [List.getD_eq_getElem _ _ hi, List.getD_eq_getElem _ _ (by omega)]
    exact this.symm
  have h3 : 3 ≤ p.length := by
    unfold lambdaPath at hp
    cases ha : argmin s.risk with
    | error e => rw [ha] at hp; cases hp
    | ok ind =>
      simp only [ha, bind, Except.bind] at hp
      cases hw : walk s fuel 0 ind with
      | error e => rw [hw] at hp; cases hp
      | ok L =>
        rw [hw] at hp
        cases L with
        | nil => dsimp only at hp; injection hp with hp; cases hp
        | cons q L =>
          dsimp only at hp; injection hp with hp; injection hp with hp _
          rw [← hp]; simp
  set mid := List.zipWith (fun a b => (a + b) / 2) p.dropLast p.tail with hmid
  have hmidl : mid.length = p.length - 1 := by rw [hmid, List.length_zipWith, List.length_dropLast, List.length_tail]; omega
  have hmidg : ∀ k, k + 1 < p.length → mid.getD k 0 = (p.getD k 0 + p.getD (k + 1) 0) / 2 := by
    intro k hk
    rw [hmid, zipWith_getD _ _ _ 0 0 0 k (by rw [List.length_dropLast]; omega) (by rw [List.length_tail]; omega)]
    rw [List.getD_eq_getElem _ _ (by rw [List.length_dropLast]; omega), List.getElem_dropLast,
      List.getD_eq_getElem _ _ (by rw [List.length_tail]; omega), List.getElem_tail,
      List.getD_eq_getElem _ _ (by omega), List.getD_eq_getElem _ _ hk]
  obtain ⟨m1, hm1, f1⟩ := mLambda_spec s hl h0 mid.dropLast
  obtain ⟨m2, hm2, f2⟩ := mLambda_spec s hl h0 mid.tail
  have l1 : m1.length = p.length - 2 := by rw [← f1.length_eq, List.length_dropLast, hmidl]; omega
  have l2 : m2.length = p.length - 2 := by rw [← f2.length_eq, List.length_tail, hmidl]; omega
  set gaps := List.zipWith (fun a b => s.comp.getD a 0 - s.comp.getD b 0) m1 m2 with hgaps
  have hgl : gaps.length = p.length - 2 := by rw [hgaps, List.length_zipWith]; omega
  obtain ⟨i, hi, hil, himax⟩ := argmax_spec gaps (by
    intro h; rw [h] at hgl; simp at hgl; omega)
  obtain ⟨mh, hmh, hmh2⟩ := mLambda1_spec s hl h0 (s.gapFactor * p.getD (i + 1) 0)
  refine ⟨i, s.gapFactor * p.getD (i + 1) 0, mh, ?_, by omega, rfl, hmh2, fun k => gaps.getD k 0, ?_, ?_⟩
  · unfold slopeHeuristic
    rw [hall, hp]
    simp only [Bool.false_eq_true, if_false, bind, Except.bind, ← hmid, hm1, hm2, ← hgaps, hi, hmh]
  · intro k hk
    exact himax k (by omega)
  · intro k hk
    refine ⟨m1.getD k 0, m2.getD k 0, ?_, ?_, ?_⟩
    · have hk1 : k < mid.dropLast.length := by rw [List.length_dropLast, hmidl]; omega
      have := f1.get (i := k) hk1 (by omega)
      simp only [List.get_eq_getElem] at this
      rw [List.getElem_dropLast] at this
      rw [← hmidg k (by omega), List.getD_eq_getElem mid _ (by omega), List.getD_eq_getElem m1 _ (by omega)]
      exact this
    · have hk1 : k < mid.tail.length := by rw [List.length_tail, hmidl]; omega
      have := f2.get (i := k) hk1 (by omega)
      simp only [List.get_eq_getElem] at this
      rw [List.getElem_tail] at this
      rw [← hmidg (k + 1) (by omega), List.getD_eq_getElem mid _ (by omega), List.getD_eq_getElem m2 _ (by omega)]
      exact this
    · show gaps.getD k 0 = _
      rw [hgaps, zipWith_getD _ m1 m2 0 0 0 k (by omega) (by omega)]

/-- Equal complexities: model 0, whatever the risks. -/
theorem slopeHeuristic_equal_wrong : let s : MS ℚ := ⟨[1, 1], [2, 1], id, 2⟩
    slopeHeuristic s 10 = .ok (0, 0) ∧ ¬ IsMin s 0 0 := by
  intro s
  refine ⟨by decide +kernel, fun h => ?_⟩
  have := h.2 1 (by decide)
  simp [s, MS.rk, MS.pen] at this

/-- No breakpoint: `slope_heuristic` raises. -/
theorem slopeHeuristic_no_path_raises : let s : MS ℚ := ⟨[2, 1], [2, 1], id, 2⟩
    slopeHeuristic s 10 = .error .indexError := by
  decide +kernel

/-- The hypotheses of `slopeHeuristic_spec` are met. -/
theorem exSlope : let s : MS ℚ := ⟨[1, 2, 4], [5, 2, 1], id, 2⟩
    slopeHeuristic s 10 = .ok (1, 1) := by
  decide +kernel

end Verif.ModelSelection
