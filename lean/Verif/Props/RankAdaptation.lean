import Verif.Props.AlternatingMinimization
import Verif.Model.RankAdaptation

/-! The loop of the rank adaptation. -/

namespace Verif.RankAdaptation

open LeastSquares

variable {S F : Type}

/-- `Run env s0 l`: `l` is the list of the functions computed by the local solvers, the first one from `s0`, with their errors and with
the solvers of the next iterations. -/
inductive Run (env : Env S F) (s0 : S) : List (S × F × Option Ext) → Prop
  | nil : Run env s0 []
  | one {f e} : env.solve s0 = .ok (f, e) → Run env s0 [(s0, f, e)]
  | snoc {l s f e s' f' e' fOld} : Run env s0 (l ++ [(s, f, e)]) → env.next l.length s f fOld = some s' →
      fOld = (l.getLast?).map (fun q => q.2.1) → env.solve s' = .ok (f', e') → Run env s0 (l ++ [(s, f, e)] ++ [(s', f', e')])

/-- The error recorded for a function. -/
noncomputable def errOf (q : S × F × Option Ext) : Ext := q.2.2.getD (.val 0)

/-- The test error recorded for a function. -/
noncomputable def testOf (env : Env S F) (o : Opts) (q : S × F × Option Ext) : Ext := if o.testError then env.test q.2.1 else .val 0

/-- The early stopping test, for iteration `i` of a run. -/
def Acceptable (env : Env S F) (o : Opts) (l : List (S × F × Option Ext)) (i : Nat) (q : S × F × Option Ext) : Prop :=
  (o.testError = true → bad o.fac ((l.take i).map (testOf env o)) (testOf env o q) = false) ∧
  (q.2.2.isSome = true → bad o.fac ((l.take i).map errOf) (errOf q) = false)

theorem loop_spec (env : Env S F) (o : Opts) (s0 : S) (rem it : Nat) (s : S) (l : List (S × F × Option Ext)) (hit : it = l.length)
    (hrun : Run env s0 l)
    (hs : ∀ f e, env.solve s = .ok (f, e) → Run env s0 (l ++ [(s, f, e)]))
    (hinf : ∀ q ∈ l, q.2.2 ≠ some .inf)
    (hacc : ∀ i (hi : i < l.length), o.early = true → 0 < i → Acceptable env o l i l[i])
    (res : Res F)
    (h : loop env o rem it s ((l.getLast?).map (fun q => q.2.1)) (l.map errOf) (l.map (testOf env o)) (l.map (fun q => q.2.1)) = .ok res) :
    ∃ l', l <+: l' ∧ Run env s0 l' ∧ l'.length ≤ it + rem + 1 ∧ res.f = (l'.getLast?).map (fun q => q.2.1) ∧
      res.iterates = l'.map (fun q => q.2.1) ∧ res.errors = l'.map errOf ∧ res.tests = l'.map (testOf env o) ∧
      (∀ q ∈ l', q.2.2 ≠ some .inf) ∧
      (∀ i (hi : i < l'.length), o.early = true → 0 < i → i + 1 < l'.length → Acceptable env o l' i l'[i]) := by
  induction rem generalizing it s l with
  | zero =>
    rw [loop] at h
    cases hsol : env.solve s with
    | error e => rw [hsol] at h; simp [bind, Except.bind] at h
    | ok fe =>
      obtain ⟨f, e⟩ := fe
      rw [hsol] at h
      simp only [bind, Except.bind] at h
      by_cases he : e = some .inf
      · rw [if_pos he] at h
        cases h
        exact ⟨l, List.prefix_refl _, hrun, by omega, rfl, rfl, rfl, rfl, hinf, fun i hi h1 h2 _ => hacc i hi h1 h2⟩
      · rw [if_neg he] at h
        cases h
        refine ⟨l ++ [(s, f, e)], List.prefix_append _ _, hs f e hsol, by simp [hit], by simp, by simp, by simp [errOf], by simp [testOf, testVal], ?_, ?_⟩
        · intro q hq
          rcases List.mem_append.1 hq with hq | hq
          · exact hinf q hq
          · rw [List.mem_singleton] at hq; subst hq; exact he
        · intro i hi h1 h2 h3
          simp only [List.length_append, List.length_singleton] at h3
          have hil : i < l.length := by omega
          have := hacc i hil h1 h2
          unfold Acceptable at this ⊢
          rw [List.getElem_append_left hil, List.take_append_of_le_length (by omega)]
          exact this
  | succ rem ih =>
    rw [loop] at h
    cases hsol : env.solve s with
    | error e => rw [hsol] at h; simp [bind, Except.bind] at h
    | ok fe =>
      obtain ⟨f, e⟩ := fe
      rw [hsol] at h
      simp only [bind, Except.bind] at h
      have hpre : ∀ i (hil : i < l.length), o.early = true → 0 < i → Acceptable env o (l ++ [(s, f, e)]) i ((l ++ [(s, f, e)])[i]'(by rw [List.length_append]; omega)) := by
        intro i hil h1 h2
        have := hacc i hil h1 h2
        unfold Acceptable at this ⊢
        rw [List.getElem_append_left hil, List.take_append_of_le_length (by omega)]
        exact this
      by_cases he : e = some .inf
      · rw [if_pos he] at h
        cases h
        exact ⟨l, List.prefix_refl _, hrun, by omega, rfl, rfl, rfl, rfl, hinf, fun i hi h1 h2 _ => hacc i hi h1 h2⟩
      · rw [if_neg he] at h
        have hinf' : ∀ q ∈ l ++ [(s, f, e)], q.2.2 ≠ some .inf := by
          intro q hq
          rcases List.mem_append.1 hq with hq | hq
          · exact hinf q hq
          · rw [List.mem_singleton] at hq; subst hq; exact he
        have hdone : ∀ fl : Int, res = ⟨some f, l.map (fun q => q.2.1) ++ [f], l.map errOf ++ [e.getD (.val 0)],
            l.map (testOf env o) ++ [testVal env o f], fl⟩ →
            ∃ l', l <+: l' ∧ Run env s0 l' ∧ l'.length ≤ it + (rem + 1) + 1 ∧ res.f = (l'.getLast?).map (fun q => q.2.1) ∧
            res.iterates = l'.map (fun q => q.2.1) ∧ res.errors = l'.map errOf ∧ res.tests = l'.map (testOf env o) ∧
            (∀ q ∈ l', q.2.2 ≠ some .inf) ∧
            (∀ i (hi : i < l'.length), o.early = true → 0 < i → i + 1 < l'.length → Acceptable env o l' i l'[i]) := by
          rintro fl rfl
          refine ⟨l ++ [(s, f, e)], List.prefix_append _ _, hs f e hsol, by simp [hit], by simp, by simp, by simp [errOf], by simp [testOf, testVal], hinf', ?_⟩
          intro i hi h1 h2 h3
          simp only [List.length_append, List.length_singleton] at h3
          exact hpre i (by omega) h1 h2
        split at h
        · exact hdone 1 (by cases h; rfl)
        · split at h
          · cases h
            exact ⟨l, List.prefix_refl _, hrun, by omega, rfl, rfl, rfl, rfl, hinf, fun i hi h1 h2 _ => hacc i hi h1 h2⟩
          · rename_i hnot
            cases hnx : env.next it s f ((l.getLast?).map (fun q => q.2.1)) with
            | none =>
              rw [hnx] at h
              exact hdone 0 (by cases h; rfl)
            | some s' =>
              rw [hnx] at h
              dsimp only at h
              obtain ⟨l', p1, p2, p3, p4⟩ := ih (it + 1) s' (l ++ [(s, f, e)]) (by simp [hit]) (hs f e hsol)
                (fun f' e' hs' => .snoc (hs f e hsol) (by rw [← hit]; exact hnx) rfl hs') hinf' (by
                  intro i hi h1 h2
                  simp only [List.length_append, List.length_singleton] at hi
                  by_cases hil : i < l.length
                  · exact hpre i hil h1 h2
                  · have hie : i = l.length := by omega
                    subst hie
                    rw [h1, hit] at hnot
                    simp only [Bool.true_and, Bool.and_eq_true, decide_eq_true_eq, Bool.or_eq_true, not_and, not_or, Bool.not_eq_true] at hnot
                    obtain ⟨n1, n2⟩ := hnot h2
                    unfold Acceptable
                    rw [List.getElem_concat_length (h := rfl), List.take_left]
                    refine ⟨fun ht => ?_, fun hs => n2 hs⟩
                    have := n1 ht
                    simpa [testOf, testVal] using this) (by
                  rw [List.getLast?_concat, List.map_append, List.map_append, List.map_append]
                  exact h)
              exact ⟨l', (List.prefix_append _ _).trans p1, p2, by omega, p4⟩

/-- C109. When the rank adaptation returns a function, there is a sequence of functions computed by the local solvers, one per iteration,
such that the returned function is the last one; the recorded iterates, errors and test errors are those of this sequence, in the same order;
no infinite error is recorded; with early stopping, the errors of all of them, except perhaps the first and the last one, have passed the
test of early stopping: they are numbers at most `early_stopping_factor` times the smallest error recorded before. -/
theorem solveAdaptation_spec (env : Env S F) (o : Opts) (maxIter : Nat) (hm : 0 < maxIter) (s : S) (f : F) (res : Res F)
    (h : solveAdaptation env o maxIter s = .ok (f, res)) :
    ∃ l q, Run env s (l ++ [q]) ∧ f = q.2.1 ∧ l.length + 1 ≤ maxIter ∧ res.iterates = (l ++ [q]).map (fun q => q.2.1) ∧
      res.errors = (l ++ [q]).map errOf ∧ res.tests = (l ++ [q]).map (testOf env o) ∧ (∀ q' ∈ l ++ [q], q'.2.2 ≠ some .inf) ∧
      ∀ i (hi : i < l.length), o.early = true → 0 < i → Acceptable env o l i l[i] := by
  unfold solveAdaptation at h
  cases hl : loop env o (maxIter - 1) 0 s none [] [] [] with
  | error e => rw [hl] at h; simp [bind, Except.bind] at h
  | ok res' =>
    rw [hl] at h
    simp only [bind, Except.bind] at h
    obtain ⟨l', -, p2, p3, p4, p5, p6, p7, p8, p9⟩ := loop_spec env o s (maxIter - 1) 0 s [] rfl .nil
      (fun f e hs => .one hs) (by simp) (by simp) res' hl
    cases hf : res'.f with
    | none => rw [hf] at h; simp at h
    | some f' =>
      rw [hf] at h
      simp only [Except.ok.injEq, Prod.mk.injEq] at h
      obtain ⟨rfl, rfl⟩ := h
      rcases List.eq_nil_or_concat l' with h0 | ⟨l, q, rfl⟩
      · rw [p4, h0] at hf; simp at hf
      · rw [List.concat_eq_append] at p2 p3 p4 p5 p6 p7 p8 p9
        refine ⟨l, q, p2, ?_, by simp at p3; omega, p5, p6, p7, p8, ?_⟩
        · rw [p4] at hf; simpa using hf.symm
        · intro i hi h1 h2
          have := p9 i (by simp; omega) h1 h2 (by simp; omega)
          unfold Acceptable at this ⊢
          rw [List.getElem_append_left hi, List.take_append_of_le_length (by omega)] at this
          exact this

/-- If the first local solver returns an infinite error, the rank adaptation raises an exception instead of returning a function. -/
theorem solveAdaptation_first_inf (env : Env S F) (o : Opts) (maxIter : Nat) (s : S) (f : F)
    (h : env.solve s = .ok (f, some .inf)) : solveAdaptation env o maxIter s = .error .attributeError := by
  unfold solveAdaptation
  rw [loop, h]
  simp [bind, Except.bind]

/-- What the test of early stopping means for numbers. -/
theorem bad_val (fac : ℝ) (hfac : 0 ≤ fac) (l : List ℝ) (hl : l ≠ []) (e : ℝ) :
    bad fac (l.map .val) (.val e) = false ↔ ∃ m ∈ l, (∀ v ∈ l, m ≤ v) ∧ e ≤ fac * m := by
  have hne : l.map Ext.val ≠ [] := by simpa using hl
  obtain ⟨h1, -, h3⟩ := argmin_spec (l.map Ext.val) hne
  obtain ⟨h4, -⟩ := h3 (by
    intro e he
    obtain ⟨v, -, rfl⟩ := List.mem_map.1 he
    rfl)
  rw [List.length_map] at h1 h4
  have hget : ∀ j (hj : j < l.length), (l.map Ext.val).getD j .nan = .val l[j] := by
    intro j hj
    rw [List.getD_eq_getElem _ _ (by simpa using hj), List.getElem_map]
  unfold bad npMin
  rw [hget _ h1]
  have hn : (Ext.val e).isNan = false := rfl
  rw [hn, Bool.false_or, decide_eq_false_iff_not]
  show ¬ (l[argmin (l.map Ext.val)] * fac < e) ↔ _
  rw [not_lt]
  have hmin : ∀ v ∈ l, l[argmin (l.map Ext.val)] ≤ v := by
    intro v hv
    obtain ⟨j, hj, rfl⟩ := List.getElem_of_mem hv
    have := h4 j hj
    rw [hget _ h1, hget j hj] at this
    exact this
  constructor
  · intro h
    exact ⟨_, List.getElem_mem h1, hmin, by rw [mul_comm]; exact h⟩
  · rintro ⟨m, hm, hle, h⟩
    rw [mul_comm]
    exact h.trans (mul_le_mul_of_nonneg_left (hle _ (List.getElem_mem h1)) hfac)

/-- The hypotheses of C109 are met: two iterations with the errors 1 and 2, early stopping with factor 10. -/
example : ∃ (env : Env Nat Nat) (res : Res Nat), solveAdaptation env ⟨false, 0, true, 10⟩ 2 0 = .ok (1, res) := by
  refine ⟨⟨fun s => .ok (s, some (.val (s + 1))), fun _ => .val 0, fun _ s _ _ => some (s + 1)⟩, ?_⟩
  have hb : below (.val (((0 : Nat) : ℝ) + 1)) 0 = false := by
    unfold below
    simp [Ext.lt]
  refine ⟨⟨some 1, [0, 1], [.val (((0 : Nat) : ℝ) + 1), .val (((1 : Nat) : ℝ) + 1)], [.val 0, .val 0], 0⟩, ?_⟩
  unfold solveAdaptation
  rw [show 2 - 1 = 0 + 1 from rfl, loop]
  simp only [bind, Except.bind, Option.some.injEq, reduceCtorEq, if_false, Option.getD_some, hb, Bool.false_and, Bool.and_false,
    Bool.or_false, Bool.false_eq_true, lt_irrefl, decide_false]
  rw [loop]
  simp [bind, Except.bind, testVal]

end Verif.RankAdaptation
