import Verif.Props.CrossValidation
import Mathlib.Data.List.GetD

/-!
# Selection of a basis along a path (`_select_optimal_path`, `_solve_basis_adaptation`)
-/

namespace Verif.LeastSquares

open Finset Matrix

variable {N P : Nat}

/-- Order of the errors: the numbers, then infinity; a nan is not comparable. -/
def Ext.Le : Ext → Ext → Prop
  | .val x, .val y => x ≤ y
  | .val _, .inf => True
  | .inf, .inf => True
  | _, _ => False

theorem Ext.Le.of_not_lt {a b : Ext} (ha : a.isNan = false) (hb : b.isNan = false) (h : ¬ Ext.lt b a) : Ext.Le a b := by
  cases a <;> cases b <;> simp_all [Ext.lt, Ext.Le, Ext.isNan]

theorem Ext.Le.of_lt {a b : Ext} (h : Ext.lt a b) : Ext.Le a b := by
  cases a <;> cases b <;> simp_all [Ext.lt, Ext.Le]
  exact h.le

theorem Ext.Le.trans {a b c : Ext} (h : Ext.Le a b) (h' : Ext.Le b c) : Ext.Le a c := by
  cases a <;> cases b <;> cases c <;> simp_all [Ext.Le]
  exact h.trans h'

open Classical in
/-- The index returned by `argmin` is valid; with a nan it is the first nan; otherwise the first smallest element. -/
theorem argmin_spec (l : List Ext) (hl : l ≠ []) :
    argmin l < l.length ∧
      ((∃ e ∈ l, e.isNan = true) → (l.getD (argmin l) .nan).isNan = true ∧ ∀ j < argmin l, (l.getD j .nan).isNan = false) ∧
      ((∀ e ∈ l, e.isNan = false) →
        (∀ j < l.length, Ext.Le (l.getD (argmin l) .nan) (l.getD j .nan)) ∧
        ∀ j < argmin l, Ext.lt (l.getD (argmin l) .nan) (l.getD j .nan)) := by
  induction l with
  | nil => exact absurd rfl hl
  | cons e l ih =>
    cases l with
    | nil =>
      have h0 : argmin [e] = 0 := by simp [argmin]
      rw [h0]
      refine ⟨by simp, ?_, ?_⟩
      · rintro ⟨x, hx, hx'⟩
        simp at hx
        subst hx
        exact ⟨hx', fun j hj => absurd hj (by omega)⟩
      · intro h
        refine ⟨fun j hj => ?_, fun j hj => absurd hj (by omega)⟩
        have hj0 : j = 0 := by simpa using hj
        subst hj0
        have := h e (by simp)
        cases e <;> simp_all [Ext.Le, Ext.isNan]
    | cons e' l' =>
      obtain ⟨h1, h2, h3⟩ := ih (by simp)
      by_cases hen : e.isNan = true
      · have h0 : argmin (e :: e' :: l') = 0 := by rw [argmin, if_pos hen]
        rw [h0]
        refine ⟨by simp, fun _ => ⟨by simpa using hen, fun j hj => absurd hj (by omega)⟩, fun h => ?_⟩
        exact absurd hen (by rw [h e (by simp)]; simp)
      · have hef : e.isNan = false := by simpa using hen
        have hun : argmin (e :: e' :: l') =
            if ((e' :: l').getD (argmin (e' :: l')) .nan).isNan = true ∨ Ext.lt ((e' :: l').getD (argmin (e' :: l')) .nan) e
            then argmin (e' :: l') + 1 else 0 := by
          rw [argmin, if_neg hen]
        by_cases hc : ((e' :: l').getD (argmin (e' :: l')) .nan).isNan = true ∨ Ext.lt ((e' :: l').getD (argmin (e' :: l')) .nan) e
        · rw [if_pos hc] at hun
          rw [hun]
          refine ⟨by simpa using h1, ?_, ?_⟩
          · rintro ⟨x, hx, hx'⟩
            have hx2 : x ∈ e' :: l' := by
              rcases List.mem_cons.1 hx with rfl | hx
              · exact absurd hx' hen
              · exact hx
            obtain ⟨h4, h5⟩ := h2 ⟨x, hx2, hx'⟩
            refine ⟨by rw [List.getD_cons_succ]; exact h4, fun j hj => ?_⟩
            cases j with
            | zero => simpa using hef
            | succ j => rw [List.getD_cons_succ]; exact h5 j (by omega)
          · intro h
            obtain ⟨h4, h5⟩ := h3 (fun x hx => h x (List.mem_cons_of_mem _ hx))
            have hlt : Ext.lt ((e' :: l').getD (argmin (e' :: l')) .nan) e := by
              rcases hc with hc | hc
              · have hm : (e' :: l').getD (argmin (e' :: l')) .nan ∈ e' :: l' := by
                  rw [List.getD_eq_getElem _ _ h1]; exact List.getElem_mem _
                rw [h _ (List.mem_cons_of_mem _ hm)] at hc
                exact absurd hc (by simp)
              · exact hc
            rw [List.getD_cons_succ]
            refine ⟨fun j hj => ?_, fun j hj => ?_⟩
            · cases j with
              | zero => exact Ext.Le.of_lt hlt
              | succ j => rw [List.getD_cons_succ]; exact h4 j (by simpa using hj)
            · cases j with
              | zero => exact hlt
              | succ j => rw [List.getD_cons_succ]; exact h5 j (by omega)
        · rw [if_neg hc] at hun
          rw [hun]
          rw [not_or] at hc
          have hnn : ∀ x ∈ e :: e' :: l', x.isNan = false := by
            by_contra hcon
            push Not at hcon
            obtain ⟨x, hx, hx'⟩ := hcon
            have hx1 : x.isNan = true := by simpa using hx'
            have hx2 : x ∈ e' :: l' := by
              rcases List.mem_cons.1 hx with rfl | hx
              · exact absurd hx1 hen
              · exact hx
            exact hc.1 (h2 ⟨x, hx2, hx1⟩).1
          refine ⟨by simp, ?_, ?_⟩
          · rintro ⟨x, hx, hx'⟩
            rw [hnn x hx] at hx'
            exact absurd hx' (by simp)
          · intro _
            obtain ⟨h4, _⟩ := h3 (fun x hx => hnn x (List.mem_cons_of_mem _ hx))
            have hm : (e' :: l').getD (argmin (e' :: l')) .nan ∈ e' :: l' := by
              rw [List.getD_eq_getElem _ _ h1]; exact List.getElem_mem _
            have hle := Ext.Le.of_not_lt hef (hnn _ (List.mem_cons_of_mem _ hm)) hc.2
            refine ⟨fun j hj => ?_, fun j hj => absurd hj (by omega)⟩
            cases j with
            | zero =>
              simp only [List.getD_cons_zero]
              cases e <;> simp_all [Ext.Le, Ext.isNan]
            | succ j =>
              rw [List.getD_cons_zero, List.getD_cons_succ]
              exact hle.trans (h4 j (by simpa using hj))

/-- The loop stores the candidates: the infinities written by `stop_if_error_increase` are overwritten. -/
theorem path_loop (la : La) (o : Opts) (A : Matrix (Fin N) (Fin P) ℝ) (y : Fin N → ℝ) (pats : List (Fin P → Bool))
    (c : Nat → (Fin P → ℝ) × Ext × (Fin N → Ext))
    (hc : ∀ j < pats.length, candidate la o A y (pats.getD j (fun _ => false)) = .ok (c j)) (st : PathState N P)
    (h1 : st.sol.length = pats.length) (h2 : st.err.length = pats.length) (h3 : st.delta.length = pats.length) (i : Nat)
    (hi : i ≤ pats.length) :
    ∃ st', (List.range i).foldlM (pathStep la o A y pats) st = .ok st' ∧ st'.sol.length = pats.length ∧
      st'.err.length = pats.length ∧ st'.delta.length = pats.length ∧
      ∀ j < i, st'.sol[j]? = some (c j).1 ∧ st'.err[j]? = some (c j).2.1 ∧ st'.delta[j]? = some (c j).2.2 := by
  induction i with
  | zero => exact ⟨st, rfl, h1, h2, h3, fun j hj => absurd hj (by omega)⟩
  | succ i ih =>
    obtain ⟨s, hs, l1, l2, l3, hv⟩ := ih (by omega)
    have hset : ∀ {α : Type} (l : List α) (x : α), l.length = pats.length → ∀ j < i + 1, ∀ z : Nat → α,
        (∀ j < i, l[j]? = some (z j)) → z i = x → (l.set i x)[j]? = some (z j) := by
      intro α l x hl j hj z hz hx
      rw [List.getElem?_set]
      by_cases hij : i = j
      · subst hij
        rw [if_pos rfl, if_pos (by omega), hx]
      · rw [if_neg hij]; exact hz j (by omega)
    have htk : ∀ {α : Type} (l : List α) (g : α → α) (j : Nat), j < i + 1 → i < l.length →
        (l.take (i + 1) ++ (l.drop (i + 1)).map g)[j]? = l[j]? := by
      intro α l g j hj hl
      rw [List.getElem?_append_left (by rw [List.length_take]; omega), List.getElem?_take, if_pos hj]
    have hlen : ∀ {α : Type} (l : List α) (g : α → α), (l.take (i + 1) ++ (l.drop (i + 1)).map g).length = l.length := by
      intro α l g
      simp only [List.length_append, List.length_take, List.length_map, List.length_drop]
      omega
    rw [List.range_succ, List.foldlM_append, hs]
    have hstep : ∃ st', pathStep la o A y pats s i = .ok st' ∧ st'.sol.length = pats.length ∧
        st'.err.length = pats.length ∧ st'.delta.length = pats.length ∧
        ∀ j < i + 1, st'.sol[j]? = some (c j).1 ∧ st'.err[j]? = some (c j).2.1 ∧ st'.delta[j]? = some (c j).2.2 := by
      unfold pathStep
      rw [hc i (by omega)]
      simp only [bind, Except.bind]
      split
      · refine ⟨_, rfl, ?_, ?_, ?_, fun j hj => ⟨?_, ?_, ?_⟩⟩
        · simpa using l1
        · rw [hlen]; simpa using l2
        · rw [hlen]; simpa using l3
        · exact hset _ _ l1 j hj (fun j => (c j).1) (fun j hj => (hv j hj).1) rfl
        · rw [htk _ _ j hj (by rw [List.length_set]; omega)]
          exact hset _ _ l2 j hj (fun j => (c j).2.1) (fun j hj => (hv j hj).2.1) rfl
        · rw [htk _ _ j hj (by rw [List.length_set]; omega)]
          exact hset _ _ l3 j hj (fun j => (c j).2.2) (fun j hj => (hv j hj).2.2) rfl
      · refine ⟨_, rfl, ?_, ?_, ?_, fun j hj => ⟨?_, ?_, ?_⟩⟩
        · simpa using l1
        · simpa using l2
        · simpa using l3
        · exact hset _ _ l1 j hj (fun j => (c j).1) (fun j hj => (hv j hj).1) rfl
        · exact hset _ _ l2 j hj (fun j => (c j).2.1) (fun j hj => (hv j hj).2.1) rfl
        · exact hset _ _ l3 j hj (fun j => (c j).2.2) (fun j hj => (hv j hj).2.2) rfl
    obtain ⟨st', h4, h5⟩ := hstep
    refine ⟨st', ?_, h5⟩
    simp only [bind, Except.bind, List.foldlM_cons, List.foldlM_nil, h4, pure, Except.pure]

theorem mem_admissible (N : Nat) (path : List (Fin P → Bool)) (pat : Fin P → Bool) :
    pat ∈ admissible N path ↔ pat ∈ path ∧ (supp pat).Nonempty ∧ (supp pat).card ≤ N := by
  unfold admissible
  simp only [List.mem_filter, List.mem_reverse, List.mem_dedup, List.any_eq_true, List.mem_finRange, true_and,
    decide_eq_true_eq, cols_length]
  constructor
  · rintro ⟨⟨h1, p, h2⟩, h3⟩
    exact ⟨h1, ⟨p, (mem_supp _ _).2 h2⟩, h3⟩
  · rintro ⟨h1, ⟨p, h2⟩, h3⟩
    exact ⟨⟨h1, p, (mem_supp _ _).1 h2⟩, h3⟩

/-- The coefficients and the factors of a candidate. -/
noncomputable def candFit (la : La) (o : Opts) (A : Matrix (Fin N) (Fin P) ℝ) (y : Fin N → ℝ) (pat : Fin P → Bool) :
    (Fin (cols pat).length → ℝ) × Factors N (cols pat).length :=
  if N < (cols pat).length then solveInv la (A.submatrix id (cols pat).get) y
    else match o.solver with
      | .qr => solveQr la (A.submatrix id (cols pat).get) y
      | .solve => solveInv la (A.submatrix id (cols pat).get) y

theorem candidate_eq (la : La) (o : Opts) (A : Matrix (Fin N) (Fin P) ℝ) (y : Fin N → ℝ) (pat : Fin P → Bool) :
    candidate la o A y pat = (do
      let e ← cvError la o (A.submatrix id (cols pat).get) y (secondMoment y) (candFit la o A y pat).1 (candFit la o A y pat).2
      .ok (embed (cols pat) (candFit la o A y pat).1, e.1, e.2)) := rfl

theorem candFit_normal {la : La} (h : LaOk la) (o : Opts) (A : Matrix (Fin N) (Fin P) ℝ) (y : Fin N → ℝ) (pat : Fin P → Bool) :
    (A.submatrix id (cols pat).get)ᵀ *ᵥ (y - A.submatrix id (cols pat).get *ᵥ (candFit la o A y pat).1) = 0 := by
  unfold candFit
  split
  · exact solveInv_normal h _ _
  · cases o.solver with
    | qr => exact solveQr_normal h _ _
    | solve => exact solveInv_normal h _ _

theorem candFit_factors (la : La) (o : Opts) (A : Matrix (Fin N) (Fin P) ℝ) (y : Fin N → ℝ) (pat : Fin P → Bool)
    (hN : (cols pat).length ≤ N) :
    IsFactors la (A.submatrix id (cols pat).get) (candFit la o A y pat).2 ∧
      (o.correction = true ∧ illFactors la (candFit la o A y pat).2 = false ↔
        isCorrected la o (A.submatrix id (cols pat).get) = true) := by
  unfold candFit
  rw [if_neg (by omega)]
  unfold isCorrected
  cases o.solver with
  | solve => exact ⟨Or.inl rfl, by simp [solveInv, illFactors]⟩
  | qr => exact ⟨Or.inr rfl, by simp [solveQr, illFactors]⟩

theorem candidate_fit {la : La} (h : LaOk la) (o : Opts) (A : Matrix (Fin N) (Fin P) ℝ) (y : Fin N → ℝ) (pat : Fin P → Bool)
    (c : (Fin P → ℝ) × Ext × (Fin N → Ext)) (hc : candidate la o A y pat = .ok c) : IsFit A y univ (supp pat) c.1 := by
  rw [candidate_eq] at hc
  cases hcv : cvError la o (A.submatrix id (cols pat).get) y (secondMoment y) (candFit la o A y pat).1 (candFit la o A y pat).2 with
  | error x => rw [hcv] at hc; simp [bind, Except.bind] at hc
  | ok x =>
    rw [hcv] at hc
    simp only [bind, Except.bind, Except.ok.injEq] at hc
    rw [← hc]
    exact isFit_embed A y pat univ _ ((isFit_univ _ _ _).2 (candFit_normal h o A y pat))

/-- **Selection along a path.** If the cross-validation of every admissible candidate succeeds, the result is the least-squares fit with
the features of a candidate of the path whose error is the first smallest (the first nan if there is one); the errors of the path are
those of the candidates. -/
theorem selectOptimalPath_spec {la : La} (h : LaOk la) (o : Opts) (A : Matrix (Fin N) (Fin P) ℝ) (y : Fin N → ℝ)
    (path : List (Fin P → Bool)) (hne : admissible N path ≠ [])
    (hok : ∀ pat ∈ admissible N path, ∃ c, candidate la o A y pat = .ok c) :
    ∃ sol out, selectOptimalPath la o A y path = .ok (sol, some out) ∧ out.pattern ∈ path ∧ (supp out.pattern).Nonempty ∧
      (supp out.pattern).card ≤ N ∧ IsFit A y univ (supp out.pattern) sol ∧
      out.errorPath.length = (admissible N path).length ∧
      candidate la o A y out.pattern = .ok (sol, out.error, out.delta) ∧
      (∀ j < (admissible N path).length, ∃ s d, candidate la o A y ((admissible N path).getD j (fun _ => false)) =
        .ok (s, out.errorPath.getD j .nan, d)) ∧
      (out.error.isNan = true ↔ ∃ e ∈ out.errorPath, e.isNan = true) ∧
      (out.error.isNan = false → ∀ pat ∈ path, (supp pat).Nonempty → (supp pat).card ≤ N →
        ∀ c, candidate la o A y pat = .ok c → Ext.Le out.error c.2.1) := by
  set pats := admissible N path with hpats
  have hmem : ∀ j < pats.length, pats.getD j (fun _ => false) ∈ pats := by
    intro j hj
    rw [List.getD_eq_getElem _ _ hj]; exact List.getElem_mem _
  have hex : ∀ j, ∃ c, j < pats.length → candidate la o A y (pats.getD j (fun _ => false)) = .ok c := by
    intro j
    by_cases hj : j < pats.length
    · obtain ⟨c, hc⟩ := hok _ (hmem j hj)
      exact ⟨c, fun _ => hc⟩
    · exact ⟨(fun _ => 0, .nan, fun _ => .nan), fun h => absurd h hj⟩
  choose c hc using hex
  obtain ⟨st, h1, l1, l2, l3, hv⟩ := path_loop la o A y pats c hc
    ⟨pats.map (fun _ _ => 0), pats.map (fun _ => .val 0), pats.map (fun _ _ => .val 0)⟩ (by simp) (by simp) (by simp)
    pats.length (le_refl _)
  have herr0 : st.err ≠ [] := by
    intro h0
    rw [h0] at l2
    exact hne (List.length_eq_zero_iff.1 l2.symm)
  obtain ⟨a1, a2, a3⟩ := argmin_spec st.err herr0
  rw [l2] at a1
  set ind := argmin st.err with hind
  have hsel : selectOptimalPath la o A y path = .ok (st.sol.getD ind (fun _ => 0),
      some ⟨st.err.getD ind .nan, st.err, ind, pats.getD ind (fun _ => false), st.delta.getD ind (fun _ => .nan)⟩) := by
    unfold selectOptimalPath
    rw [← hpats]
    dsimp only
    rw [if_neg (by simpa using hne), h1]
    rfl
  have g1 : st.sol.getD ind (fun _ => 0) = (c ind).1 := by
    rw [List.getD_eq_getElem?_getD, (hv ind a1).1]; rfl
  have g2 : ∀ j < pats.length, st.err.getD j .nan = (c j).2.1 := by
    intro j hj
    rw [List.getD_eq_getElem?_getD, (hv j hj).2.1]; rfl
  have g3 : st.delta.getD ind (fun _ => .nan) = (c ind).2.2 := by
    rw [List.getD_eq_getElem?_getD, (hv ind a1).2.2]; rfl
  have hcm := (mem_admissible N path _).1 (hmem ind a1)
  refine ⟨_, _, hsel, hcm.1, hcm.2.1, hcm.2.2, ?_, l2, ?_, ?_, ?_, ?_⟩
  · rw [g1]; exact candidate_fit h o A y _ _ (hc ind a1)
  · dsimp only
    rw [g1, g2 ind a1, g3]; exact hc ind a1
  · intro j hj
    exact ⟨(c j).1, (c j).2.2, by dsimp only; rw [g2 j hj]; exact hc j hj⟩
  · dsimp only
    constructor
    · intro hn
      refine ⟨_, ?_, hn⟩
      rw [List.getD_eq_getElem _ _ (by rw [l2]; exact a1)]
      exact List.getElem_mem _
    · intro hn
      exact (a2 hn).1
  · dsimp only
    intro hn pat hp hp1 hp2 c' hc'
    have hall : ∀ e ∈ st.err, e.isNan = false := by
      by_contra hcon
      push Not at hcon
      obtain ⟨e, he, he'⟩ := hcon
      rw [(a2 ⟨e, he, by simpa using he'⟩).1] at hn
      exact absurd hn (by simp)
    obtain ⟨b1, _⟩ := a3 hall
    have hpm : pat ∈ pats := (mem_admissible N path pat).2 ⟨hp, hp1, hp2⟩
    obtain ⟨j, hj, rfl⟩ := List.getElem_of_mem hpm
    have h5 := b1 j (by rw [l2]; exact hj)
    rw [g2 j hj] at h5
    have h6 := hc j hj
    rw [List.getD_eq_getElem _ _ hj, hc'] at h6
    injection h6 with h6
    rw [h6]
    exact h5

/-- Without admissible candidate, the result is that of ordinary least squares with all the features. -/
theorem selectOptimalPath_none {la : La} (o : Opts) (A : Matrix (Fin N) (Fin P) ℝ) (y : Fin N → ℝ)
    (path : List (Fin P → Bool)) (hne : ∀ pat ∈ path, (supp pat).Nonempty → N < (supp pat).card)
    (sol : Fin P → ℝ) (e : Option (Ext × (Fin N → Ext))) (hs : solveOls la o A y = .ok (sol, e)) :
    selectOptimalPath la o A y path = .ok (sol, none) := by
  have : admissible N path = [] := by
    apply List.eq_nil_iff_forall_not_mem.2
    intro pat hp
    obtain ⟨h1, h2, h3⟩ := (mem_admissible N path pat).1 hp
    have := hne pat h1 h2
    omega
  unfold selectOptimalPath
  rw [this]
  simp only [List.isEmpty_nil, if_true]
  rw [hs]
  rfl

/-- The leave-one-out error of a candidate. -/
theorem candidate_leaveOut {la : La} (h : LaOk la) (o : Opts) (A : Matrix (Fin N) (Fin P) ℝ) (y : Fin N → ℝ) (pat : Fin P → Bool)
    (hk : effective o.kind N = .leaveOut) (hP : (supp pat).card + 1 ≤ N)
    (hd : ∀ i, Determined A (univ.erase i) (supp pat)) (hy : meanSq y ≠ 0) :
    ∃ sol d, IsLoo A y (supp pat) d ∧ candidate la o A y pat = .ok (sol,
      .val (relError A y (supp pat) (isCorrected la o (A.submatrix id (cols pat).get)) ((∑ i, d i ^ 2) / N)), fun i => .val (d i)) := by
  have hN := meanSq_pos_N hy
  have hl : (cols pat).length + 1 ≤ N := by rw [cols_length]; exact hP
  have hd' : ∀ i, Determined (A.submatrix id (cols pat).get) (univ.erase i) univ := fun i => determined_embed A pat _ (hd i)
  have hA : Determined (A.submatrix id (cols pat).get) univ univ := (hd' ⟨0, hN⟩).mono (Finset.subset_univ _)
  obtain ⟨hf, hc⟩ := candFit_factors la o A y pat (by omega)
  obtain ⟨d, h1, h2⟩ := cv_leaveOut h o (hf.hatOk h hA) (candFit_normal h o A y pat) hk hl hd' (m := secondMoment y)
    (by rw [secondMoment_eq y hN]; exact hy)
  refine ⟨embed (cols pat) (candFit la o A y pat).1, d, isLoo_embed A y pat d h1, ?_⟩
  rw [candidate_eq, h2]
  simp only [bind, Except.bind]
  rw [correction_eq h o hf hA (by omega), corrFactor_embed, secondMoment_eq y hN]
  unfold relError
  by_cases hcc : o.correction = true ∧ illFactors la (candFit la o A y pat).2 = false
  · rw [if_pos hcc, if_pos (hc.1 hcc)]
  · rw [if_neg hcc, if_neg (fun h2 => hcc (hc.2 h2))]

theorem candidate_inf {la : La} (o : Opts) (A : Matrix (Fin N) (Fin P) ℝ) (y : Fin N → ℝ) (pat : Fin P → Bool)
    (hk : effective o.kind N = .leaveOut) (hP : N < (supp pat).card + 1) :
    ∃ sol, candidate la o A y pat = .ok (sol, .inf, fun _ => .inf) := by
  rw [candidate_eq]
  unfold cvError
  rw [hk]
  dsimp only
  rw [if_pos (by rw [cols_length]; exact hP)]
  exact ⟨_, rfl⟩

/-- Two fits of samples that determine the coefficients are equal. -/
theorem fit_unique {A : Matrix (Fin N) (Fin P) ℝ} {y : Fin N → ℝ} {s : Finset (Fin N)} {S : Finset (Fin P)}
    (hd : Determined A s S) {β β' : Fin P → ℝ} (h : IsFit A y s S β) (h' : IsFit A y s S β') : β = β' := by
  obtain ⟨h1, h2⟩ := (isFit_iff _ _ _ _ _).1 h
  obtain ⟨h1', h2'⟩ := (isFit_iff _ _ _ _ _).1 h'
  have hz : ∀ p, p ∉ S → (β - β') p = 0 := fun p hp => by simp [h1 p hp, h1' p hp]
  have e1 := h2 (β - β') hz
  have e2 := h2' (β - β') hz
  have e3 : ∑ i ∈ s, (A *ᵥ (β - β')) i * (A *ᵥ (β - β')) i = 0 := by
    have : ∑ i ∈ s, (A *ᵥ (β - β')) i * (A *ᵥ (β - β')) i =
        ∑ i ∈ s, (A *ᵥ (β - β')) i * residual A y β' i - ∑ i ∈ s, (A *ᵥ (β - β')) i * residual A y β i := by
      rw [← Finset.sum_sub_distrib]
      refine Finset.sum_congr rfl (fun i _ => ?_)
      rw [residual_eq, residual_eq, mulVec_sub, Pi.sub_apply]
      ring
    rw [this, e1, e2, sub_zero]
  have := hd (β - β') hz (fun i hi => by
    have := (Finset.sum_eq_zero_iff_of_nonneg (fun i _ => mul_self_nonneg ((A *ᵥ (β - β')) i))).1 e3 i hi
    exact mul_self_eq_zero.1 this)
  exact sub_eq_zero.1 this

theorem loo_unique {A : Matrix (Fin N) (Fin P) ℝ} {y : Fin N → ℝ} {S : Finset (Fin P)}
    (hd : ∀ i, Determined A (univ.erase i) S) {d d' : Fin N → ℝ} (h : IsLoo A y S d) (h' : IsLoo A y S d') : d = d' := by
  funext i
  obtain ⟨β, h1, h2⟩ := h i
  obtain ⟨β', h1', h2'⟩ := h' i
  rw [h2, h2', fit_unique (hd i) h1 h1']

/-- **Basis selection by leave-one-out.** The coefficients returned are the least-squares fit with the features of a pattern of the path,
and no pattern of the path has a smaller leave-one-out error. -/
theorem selectOptimalPath_leaveOut {la : La} (h : LaOk la) (o : Opts) (A : Matrix (Fin N) (Fin P) ℝ) (y : Fin N → ℝ)
    (path : List (Fin P → Bool)) (hk : effective o.kind N = .leaveOut) (hy : meanSq y ≠ 0)
    (hex : ∃ pat ∈ path, (supp pat).Nonempty ∧ (supp pat).card + 1 ≤ N)
    (hd : ∀ pat ∈ path, (supp pat).card + 1 ≤ N → ∀ i, Determined A (univ.erase i) (supp pat)) :
    ∃ sol out d e, selectOptimalPath la o A y path = .ok (sol, some out) ∧ out.pattern ∈ path ∧ (supp out.pattern).Nonempty ∧
      (supp out.pattern).card + 1 ≤ N ∧ IsFit A y univ (supp out.pattern) sol ∧
      IsLoo A y (supp out.pattern) d ∧ out.delta = (fun i => .val (d i)) ∧ out.error = .val e ∧
      e = relError A y (supp out.pattern) (isCorrected la o (A.submatrix id (cols out.pattern).get)) ((∑ i, d i ^ 2) / N) ∧
      ∀ pat ∈ path, (supp pat).Nonempty → (supp pat).card + 1 ≤ N → ∀ d', IsLoo A y (supp pat) d' →
        e ≤ relError A y (supp pat) (isCorrected la o (A.submatrix id (cols pat).get)) ((∑ i, d' i ^ 2) / N) := by
  obtain ⟨pat0, hp0, hp1, hp2⟩ := hex
  have hok : ∀ pat ∈ admissible N path, ∃ c, candidate la o A y pat = .ok c ∧ c.2.1.isNan = false := by
    intro pat hp
    obtain ⟨q1, q2, q3⟩ := (mem_admissible N path pat).1 hp
    by_cases hc : (supp pat).card + 1 ≤ N
    · obtain ⟨s, d, _, h2⟩ := candidate_leaveOut h o A y pat hk hc (hd pat q1 hc) hy
      exact ⟨_, h2, rfl⟩
    · obtain ⟨s, h2⟩ := candidate_inf (la := la) o A y pat hk (by omega)
      exact ⟨_, h2, rfl⟩
  have hne : admissible N path ≠ [] := by
    intro h0
    have := (mem_admissible N path pat0).2 ⟨hp0, hp1, by omega⟩
    rw [h0] at this
    simp at this
  obtain ⟨sol, out, r1, r2, r3, r4, r5, r6, r7, r8, r9, r10⟩ := selectOptimalPath_spec h o A y path hne
    (fun pat hp => (hok pat hp).imp (fun c hc => hc.1))
  have hnn : out.error.isNan = false := by
    obtain ⟨c, h1, h2⟩ := hok out.pattern ((mem_admissible _ _ _).2 ⟨r2, r3, r4⟩)
    rw [r7] at h1
    injection h1 with h1
    rw [← h1] at h2
    exact h2
  have hle := r10 hnn
  have hfin : (supp out.pattern).card + 1 ≤ N := by
    by_contra hcon
    obtain ⟨s, h2⟩ := candidate_inf (la := la) o A y out.pattern hk (by omega)
    rw [r7] at h2
    injection h2 with h2
    have h3 : out.error = .inf := congrArg (fun z => z.2.1) h2
    obtain ⟨s', d', _, h4⟩ := candidate_leaveOut h o A y pat0 hk hp2 (hd pat0 hp0 hp2) hy
    have := hle pat0 hp0 hp1 (by omega) _ h4
    rw [h3] at this
    exact this
  obtain ⟨s, d, h1, h2⟩ := candidate_leaveOut h o A y out.pattern hk hfin (hd _ r2 hfin) hy
  rw [r7] at h2
  injection h2 with h2
  refine ⟨sol, out, d, _, r1, r2, r3, hfin, r5, h1, congrArg (fun z => z.2.2) h2, congrArg (fun z => z.2.1) h2, rfl, ?_⟩
  intro pat hp hp1' hp2' d' hd'
  obtain ⟨s', d'', h3, h4⟩ := candidate_leaveOut h o A y pat hk hp2' (hd pat hp hp2') hy
  have h5 := hle pat hp hp1' (by omega) _ h4
  have h6 : out.error = _ := congrArg (fun z => z.2.1) h2
  rw [h6] at h5
  rw [loo_unique (hd pat hp hp2') hd' h3]
  exact h5

/-- The default path of `_solve_basis_adaptation`: the patterns select the first features. -/
theorem mem_triuPath (pat : Fin P → Bool) : pat ∈ triuPath P ↔ ∃ j < P, ∀ p, pat p = true ↔ p.1 ≤ j := by
  unfold triuPath
  rw [List.mem_map]
  constructor
  · rintro ⟨j, hj, rfl⟩
    exact ⟨j, by simpa using hj, fun p => by simp⟩
  · rintro ⟨j, hj, h⟩
    refine ⟨j, by simpa using hj, ?_⟩
    funext p
    have := h p
    by_cases hp : p.1 ≤ j
    · rw [this.2 hp]; simp [hp]
    · have h2 : pat p = false := by
        cases hq : pat p with
        | false => rfl
        | true => exact absurd (this.1 hq) hp
      rw [h2]; simp [hp]

theorem solveBasisAdaptation_default (la : La) (o : Opts) (A : Matrix (Fin N) (Fin P) ℝ) (y : Fin N → ℝ) :
    solveBasisAdaptation la o A y none = selectOptimalPath la o A y (triuPath P) ∧
      ∀ path, solveBasisAdaptation la o A y (some path) = selectOptimalPath la o A y path := ⟨rfl, fun _ => rfl⟩

end Verif.LeastSquares
