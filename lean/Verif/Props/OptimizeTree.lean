import Verif.Lemmas.Arr
import Verif.Props.DimensionTree
import Verif.Props.TreeOrthWitness
import Verif.Spec.OptimizeTree
import Mathlib.Analysis.MeanInequalities

/-!
# Properties of the optimization of the dimension tree (C212-C214)
-/

namespace Verif.TreeBased

open Verif.Arr Verif.DimTree

variable {R : Type}

/-! ## The ranks written by `nodes_permutation_cost` -/

theorem foldl_upd_of_not_mem (l : List (Nat × Nat)) (f : Nat → Nat) (i : Nat) (h : ∀ p ∈ l, p.1 ≠ i) :
    l.foldl (fun f p => upd f p.1 p.2) f i = f i := by
  induction l generalizing f with
  | nil => rfl
  | cons p l ih =>
    rw [List.foldl_cons, ih _ (fun q hq => h q (by simp [hq]))]
    unfold upd
    rw [if_neg (Ne.symm (h p (by simp)))]

theorem costRanks_active (x : TBT R) (i : Nat) (h : ¬ (i ∈ x.tree.nodes ∧ x.active i = false)) : costRanks x i = x.rank i := by
  unfold costRanks
  refine foldl_upd_of_not_mem _ _ _ (fun p hp hpi => h ?_)
  have := (List.of_mem_zip hp).1
  rw [List.mem_filter, hpi] at this
  exact ⟨this.1, by simpa using this.2⟩

/-- The test of admissibility with the modified array is not weaker. -/
theorem isAdmissible_costRanks (x : TBT R) (hx : InternalActive x) (h : isAdmissible x (costRanks x) = .ok true) :
    isAdmissible x x.rank = .ok true := by
  unfold isAdmissible at h ⊢
  cases hr : x.tree.root with
  | error e => rw [hr] at h; cases h
  | ok r =>
    simp only [hr, bind, Except.bind] at h ⊢
    by_cases hz : ((x.tree.nodes.filter (fun i => !x.active i)).any (fun i => upd (costRanks x) r 1 i != 0)) = true
    · rw [if_pos hz] at h; cases h
    · have he : upd (costRanks x) r 1 = upd x.rank r 1 := by
        funext i
        unfold upd
        by_cases hi : i = r
        · rw [if_pos hi, if_pos hi]
        · rw [if_neg hi, if_neg hi]
          by_cases hin : i ∈ x.tree.nodes ∧ x.active i = false
          · have h0 : x.rank i = 0 := by
              unfold TBT.rank
              have hl : x.tree.isLeaf i = true := by
                by_contra hl
                have := hx i ((mem_nodes i).1 hin.1) (by simpa using hl)
                rw [hin.2] at this
                cases this
              rw [if_pos hl, if_neg (by rw [hin.2]; simp)]
            have h1 : upd (costRanks x) r 1 i = 0 := by
              by_contra hne
              apply hz
              rw [List.any_eq_true]
              exact ⟨i, List.mem_filter.2 ⟨hin.1, by rw [hin.2]; rfl⟩, by simpa using hne⟩
            unfold upd at h1
            rw [if_neg hi] at h1
            rw [h1, h0]
          · exact costRanks_active x i hin
      rw [he] at h
      exact h

/-! ## The inner loops -/

/-- What an inner loop of the optimization does: it applies `P` at most `m` times with the tolerance `eps`, returns `m` rows, and its
array of ranks is that of the tensor or the one left by `nodes_permutation_cost`. -/
inductive Steps (P : Permute R) (eps : ℝ) : Nat → TBT R → TBT R → Prop
  | refl (n t) : Steps P eps n t t
  | step {n t t' t'' p} : P t p eps = .ok t' → Steps P eps n t' t'' → Steps P eps (n + 1) t t''

theorem Steps.mono {P : Permute R} {eps : ℝ} {n n' : Nat} {t t' : TBT R} (h : Steps P eps n t t') (hn : n ≤ n') : Steps P eps n' t t' := by
  induction h generalizing n' with
  | refl => exact .refl _ _
  | step h1 _ ih =>
    obtain ⟨k, rfl⟩ : ∃ k, n' = k + 1 := ⟨n' - 1, by omega⟩
    exact .step h1 (ih (by omega))

theorem Steps.end_ok {P : Permute R} {eps : ℝ} (K : TBT R → Prop) (hK : ∀ t p eps t', P t p eps = .ok t' → K t') {n : Nat} {t t' : TBT R}
    (h : Steps P eps n t t') (ht : K t) : K t' := by
  induction h with
  | refl => exact ht
  | step h1 _ ih => exact ih (hK _ _ _ _ h1)

theorem whileLoop_spec (P : Permute R) (eps : ℝ) (m : Nat) (draw : Nat → Nat × Nat) : ∀ (fuel k : Nat) (sigma : List (Nat × Nat)) (t : TBT R)
    (rk : Nat → Nat) (out : List (Nat × Nat) × TBT R × (Nat → Nat)), sigma.length ≤ m → (rk = t.rank ∨ rk = costRanks t) →
    whileLoop P eps m draw fuel k sigma t rk = .ok out →
    out.1.length = m ∧ Steps P eps (m - sigma.length) t out.2.1 ∧ (out.2.2 = out.2.1.rank ∨ out.2.2 = costRanks out.2.1) := by
  intro fuel
  induction fuel with
  | zero => intro k sigma t rk out _ _ h; cases h
  | succ fuel ih =>
    intro k sigma t rk out hl hrk h
    unfold whileLoop at h
    split at h
    · rename_i hlt
      unfold nodesPermutationCost at h
      cases hc : permutationCost t.tree (costRanks t) (draw k).1 with
      | error e => simp only [hc, bind, Except.bind] at h; cases h
      | ok cost =>
        simp only [hc, bind, Except.bind] at h
        cases hd : (candidates cost)[(draw k).2]? with
        | none =>
          simp only [hd] at h
          exact ih _ _ _ _ _ hl (.inr rfl) h
        | some beta =>
          simp only [hd] at h
          cases hp : P t ((draw k).1, beta) eps with
          | error e => simp only [hp] at h; cases h
          | ok t' =>
            simp only [hp] at h
            obtain ⟨h1, h2, h3⟩ := ih _ _ _ _ _ (by rw [List.length_append, List.length_singleton]; omega) (.inl rfl) h
            refine ⟨h1, ?_, h3⟩
            rw [List.length_append, List.length_singleton] at h2
            obtain ⟨q, hq⟩ : ∃ q, m - sigma.length = q + 1 := ⟨m - sigma.length - 1, by omega⟩
            rw [hq]
            exact .step hp (h2.mono (by omega))
    · cases h
      exact ⟨by show sigma.length = m; omega, .refl _ _, hrk⟩

theorem forLoop_spec (P : Permute R) (T0 : DTree) (eps : ℝ) (draw : Nat → Nat × Nat) : ∀ (n k : Nat) (sigma : List (Nat × Nat)) (t : TBT R)
    (rk : Nat → Nat) (out : List (Nat × Nat) × TBT R × (Nat → Nat)), (rk = t.rank ∨ rk = costRanks t) →
    forLoop P T0 eps draw n k sigma t rk = .ok out →
    out.1.length = sigma.length + n ∧ Steps P eps n t out.2.1 ∧ (out.2.2 = out.2.1.rank ∨ out.2.2 = costRanks out.2.1) := by
  intro n
  induction n with
  | zero => intro k sigma t rk out hrk h; cases h; exact ⟨rfl, .refl _ _, hrk⟩
  | succ n ih =>
    intro k sigma t rk out hrk h
    unfold forLoop nodesPermutationCost at h
    cases hc : permutationCost t.tree (costRanks t) (draw k).1 with
    | error e => simp only [hc, bind, Except.bind] at h; cases h
    | ok cost =>
      simp only [hc, bind, Except.bind] at h
      cases hd : (candidates (leafCost T0 cost))[(draw k).2]? with
      | none =>
        simp only [hd] at h
        obtain ⟨h1, h2, h3⟩ := ih _ _ _ _ _ (.inr rfl) h
        refine ⟨?_, h2.mono (by omega), h3⟩
        rw [h1, List.length_append, List.length_singleton]; omega
      | some beta =>
        simp only [hd] at h
        cases hp : P t ((draw k).1, beta) eps with
        | error e => simp only [hp] at h; cases h
        | ok t' =>
          simp only [hp] at h
          obtain ⟨h1, h2, h3⟩ := ih _ _ _ _ _ (.inl rfl) h
          refine ⟨?_, .step hp h2, h3⟩
          rw [h1, List.length_append, List.length_singleton]; omega

/-! ## The error -/

theorem frob_nonneg (s : List Nat) (f : List Nat → ℝ) : 0 ≤ frob s f := Real.sqrt_nonneg _

theorem frob_triangle (s : List Nat) (f g : List Nat → ℝ) : frob s (fun i => f i + g i) ≤ frob s f + frob s g := by
  unfold frob
  rw [sumBox_eq_sum, sumBox_eq_sum, sumBox_eq_sum]
  have := Real.Lp_add_le (box s) f g (p := 2) (by norm_num)
  simp only [← Real.sqrt_eq_rpow, Real.rpow_two, sq_abs] at this
  exact this

theorem frob_zero (s : List Nat) (f : List Nat → ℝ) (h : ∀ i, f i = 0) : frob s f = 0 := by
  unfold frob
  rw [sumBox_eq_sum]
  simp [h]

/-- The tensor `t` represents an array of the shape of `a`, at a distance at most `e` of it, of norm at most that of `a`. -/
def Near (a : Arr ℝ) (e : ℝ) (t : TBT ℝ) : Prop :=
  ∃ b, full t = .ok b ∧ b.shape = a.shape ∧ frob a.shape (fun i => b.get i - a.get i) ≤ e ∧ frob a.shape b.get ≤ frob a.shape a.get

theorem Near.step {P : Permute ℝ} (hP : PermuteOk P) {a : Arr ℝ} {e eps : ℝ} (heps : 0 ≤ eps) {t t' : TBT ℝ} {p : Nat × Nat} (h : Near a e t)
    (hp : P t p eps = .ok t') : Near a (e + eps * frob a.shape a.get) t' := by
  obtain ⟨b, h1, h2, h3, h4⟩ := h
  obtain ⟨c, g1, g2, g3, g4⟩ := hP t p eps t' b heps h1 hp
  rw [h2] at g2 g3 g4
  refine ⟨c, g1, g2, ?_, g4.trans h4⟩
  have htri := frob_triangle a.shape (fun i => c.get i - b.get i) (fun i => b.get i - a.get i)
  have he : (fun i => c.get i - b.get i + (b.get i - a.get i)) = fun i => c.get i - a.get i := by funext i; ring
  rw [he] at htri
  have := mul_le_mul_of_nonneg_left h4 heps
  linarith

theorem Near.mono {a : Arr ℝ} {e e' : ℝ} {t : TBT ℝ} (h : Near a e t) (he : e ≤ e') : Near a e' t := by
  obtain ⟨b, h1, h2, h3, h4⟩ := h
  exact ⟨b, h1, h2, h3.trans he, h4⟩

theorem Near.steps {P : Permute ℝ} (hP : PermuteOk P) {a : Arr ℝ} {eps : ℝ} (heps : 0 ≤ eps) {n : Nat} {t t' : TBT ℝ}
    (h : Steps P eps n t t') : ∀ {e : ℝ}, Near a e t → Near a (e + n * (eps * frob a.shape a.get)) t' := by
  have hN := frob_nonneg a.shape a.get
  induction h with
  | refl n t =>
    intro e h
    exact h.mono (le_add_of_nonneg_right (by positivity))
  | step h1 _ ih =>
    intro e h
    refine (ih (h.step hP heps h1)).mono (le_of_eq ?_)
    push_cast; ring

theorem Near.foldlM {P : Permute ℝ} (hP : PermuteOk P) {a : Arr ℝ} {eps : ℝ} (heps : 0 ≤ eps) : ∀ (l : List (Nat × Nat)) {t t' : TBT ℝ} {e : ℝ},
    Near a e t → l.foldlM (fun t p => P t p eps) t = .ok t' → Near a (e + l.length * (eps * frob a.shape a.get)) t' := by
  intro l
  induction l with
  | nil => intro t t' e h hf; cases hf; exact h.mono (by simp)
  | cons p l ih =>
    intro t t' e h hf
    rw [List.foldlM_cons] at hf
    cases hp : P t p eps with
    | error e => rw [hp] at hf; cases hf
    | ok t1 =>
      rw [hp] at hf
      refine (ih (h.step hP heps hp) hf).mono (le_of_eq ?_)
      rw [List.length_cons]; push_cast; ring

/-! ## The outer loop -/

/-- What is used of an inner loop. -/
def InnerOk (P : Permute R) (inner : Inner R) : Prop :=
  ∀ eps m draw t sigma cur rk, inner eps m draw t = .ok (sigma, cur, rk) → Steps P eps m t cur ∧ (rk = cur.rank ∨ rk = costRanks cur)

theorem whileLoop_innerOk (P : Permute R) (fuel : Nat) : InnerOk P (fun eps m draw t => whileLoop P eps m draw fuel 0 [] t t.rank) := by
  intro eps m draw t sigma cur rk h
  have := (whileLoop_spec P eps m draw fuel 0 [] t t.rank _ (by simp) (.inl rfl) h).2
  simpa using this

theorem forLoop_innerOk (P : Permute R) (T0 : DTree) : InnerOk P (fun eps m draw t => forLoop P T0 eps draw m 0 [] t t.rank) := by
  intro eps m draw t sigma cur rk h
  exact (forLoop_spec P T0 eps draw m 0 [] t t.rank _ (.inl rfl) h).2

theorem refresh_ok {P : Permute R} {x : TBT R} {m : Nat} {eps : ℝ} {s s' : OptState R} (h : refresh P x m eps s = .ok s') :
    s'.star = s.star ∧ s'.cStar = s.cStar ∧ s'.sigmaStar = s.sigmaStar ∧
      ((s'.mPerm = m ∧ s'.ind = false ∧ s.sigmaStar.foldlM (fun t p => P t p eps) x = .ok s'.tSigma) ∨
        (m ≤ s.mPerm ∧ s.ind = false ∧ s' = s)) := by
  unfold refresh at h
  split at h
  · cases hf : s.sigmaStar.foldlM (fun t p => P t p eps) x with
    | error e => rw [hf] at h; cases h
    | ok t => rw [hf] at h; cases h; exact ⟨rfl, rfl, rfl, .inl ⟨rfl, rfl, rfl⟩⟩
  · rename_i hn
    cases h
    exact ⟨rfl, rfl, rfl, .inr ⟨by omega, by simpa using fun h => hn (.inr h), rfl⟩⟩

theorem keep_ok {s s' : OptState R} {sigma : List (Nat × Nat)} {cur : TBT R} {rk : Nat → Nat} (h : keep s sigma cur rk = .ok s') :
    s' = s ∨ (storage cur < s.cStar ∧ isAdmissible cur rk = .ok true ∧
      s' = { s with ind := true, cStar := storage cur, star := cur, sigmaStar := s.sigmaStar ++ sigma }) := by
  unfold keep at h
  split at h
  · rename_i hlt
    cases ha : isAdmissible cur rk with
    | error e => rw [ha] at h; cases h
    | ok b =>
      rw [ha] at h
      cases b with
      | false => cases h; exact .inl rfl
      | true => cases h; exact .inr ⟨hlt, rfl, rfl⟩
  · cases h; exact .inl rfl

theorem optStep_ok {P : Permute R} {inner : Inner R} {x : TBT R} {tol : ℝ} {s s' : OptState R} {c : Nat × (Nat → Nat × Nat)}
    (h : optStep P inner x tol s c = .ok s') : ∃ s1 sigma cur rk, refresh P x c.1 (tol / ((c.1 + s.sigmaStar.length : Nat) : ℝ)) s = .ok s1 ∧
      inner (tol / ((c.1 + s.sigmaStar.length : Nat) : ℝ)) c.1 c.2 s1.tSigma = .ok (sigma, cur, rk) ∧ keep s1 sigma cur rk = .ok s' := by
  unfold optStep at h
  dsimp only at h
  cases hr : refresh P x c.1 (tol / ((c.1 + s.sigmaStar.length : Nat) : ℝ)) s with
  | error e => rw [hr] at h; cases h
  | ok s1 =>
    rw [hr] at h
    cases hi : inner (tol / ((c.1 + s.sigmaStar.length : Nat) : ℝ)) c.1 c.2 s1.tSigma with
    | error e =>
      replace h : (inner (tol / ((c.1 + s.sigmaStar.length : Nat) : ℝ)) c.1 c.2 s1.tSigma >>= fun p => keep s1 p.1 p.2.1 p.2.2) = .ok s' := h
      rw [hi] at h; cases h
    | ok out =>
      replace h : (inner (tol / ((c.1 + s.sigmaStar.length : Nat) : ℝ)) c.1 c.2 s1.tSigma >>= fun p => keep s1 p.1 p.2.1 p.2.2) = .ok s' := h
      rw [hi] at h
      exact ⟨s1, out.1, out.2.1, out.2.2, rfl, hi, h⟩

theorem foldlM_invariant {α β : Type} (f : β → α → Py β) (I : β → Prop) : ∀ (l : List α), (∀ s c s', c ∈ l → I s → f s c = .ok s' → I s') →
    ∀ s s', I s → l.foldlM f s = .ok s' → I s' := by
  intro l
  induction l with
  | nil => intro _ s s' hs h; cases h; exact hs
  | cons c l ih =>
    intro hf s s' hs h
    rw [List.foldlM_cons] at h
    cases hc : f s c with
    | error e => rw [hc] at h; cases h
    | ok s1 =>
      rw [hc] at h
      exact ih (fun s c s' hcl => hf s c s' (by simp [hcl])) s1 s' (hf s c s1 (by simp) hs hc) h

theorem foldlM_keeps (P : Permute R) (K : TBT R → Prop) (hK : ∀ t p eps t', P t p eps = .ok t' → K t') (eps : ℝ) (l : List (Nat × Nat))
    (t t' : TBT R) (ht : K t) (h : l.foldlM (fun t p => P t p eps) t = .ok t') : K t' :=
  foldlM_invariant (fun t p => P t p eps) K l (fun s c s' _ _ hs => hK s c eps s' hs) t t' ht h

/-- The invariant of the outer loop: storage and admissibility. -/
def OptInv (x : TBT R) (s : OptState R) : Prop :=
  s.cStar = storage s.star ∧ InternalActive s.tSigma ∧
    (s.star = x ∨ (storage s.star < storage x ∧ isAdmissible s.star s.star.rank = .ok true))

theorem optStep_inv {P : Permute R} (hPa : ∀ t p eps t', P t p eps = .ok t' → InternalActive t') {inner : Inner R} (hi : InnerOk P inner)
    {x : TBT R} (hx : InternalActive x) {tol : ℝ} {s s' : OptState R} {c : Nat × (Nat → Nat × Nat)} (hs : OptInv x s)
    (h : optStep P inner x tol s c = .ok s') : OptInv x s' := by
  obtain ⟨s1, sigma, cur, rk, h1, h2, h3⟩ := optStep_ok h
  obtain ⟨e1, e2, e3, e4⟩ := refresh_ok h1
  obtain ⟨i1, i2⟩ := hi _ _ _ _ _ _ _ h2
  have hs1 : OptInv x s1 := by
    refine ⟨by rw [e1, e2]; exact hs.1, ?_, by rw [e1]; exact hs.2.2⟩
    rcases e4 with ⟨_, _, hf⟩ | ⟨_, _, rfl⟩
    · exact foldlM_keeps P InternalActive hPa _ _ _ _ hx hf
    · exact hs.2.1
  have hca : InternalActive cur := i1.end_ok InternalActive hPa hs1.2.1
  rcases keep_ok h3 with rfl | ⟨k1, k2, rfl⟩
  · exact hs1
  · refine ⟨rfl, hs1.2.1, .inr ⟨?_, ?_⟩⟩
    · show storage cur < storage x
      rw [hs1.1] at k1
      rcases hs1.2.2 with h | ⟨h, _⟩
      · rw [h] at k1; exact k1
      · exact k1.trans h
    · show isAdmissible cur cur.rank = .ok true
      rcases i2 with rfl | rfl
      · exact k2
      · exact isAdmissible_costRanks cur hca k2

theorem optimize_inv {P : Permute R} (hPa : ∀ t p eps t', P t p eps = .ok t' → InternalActive t') {inner : Inner R} (hi : InnerOk P inner)
    {x : TBT R} (hx : InternalActive x) {tol : ℝ} (choices : List (Nat × (Nat → Nat × Nat))) {s : OptState R}
    (h : choices.foldlM (optStep P inner x tol) ⟨x, storage x, [], 0, true, x⟩ = .ok s) :
    s.star = x ∨ (storage s.star < storage x ∧ isAdmissible s.star s.star.rank = .ok true) :=
  (foldlM_invariant _ (OptInv x) choices (fun _ _ _ _ hs hc => optStep_inv hPa hi hx hs hc) _ _ ⟨rfl, hx, .inl rfl⟩ h).2.2

/-- C212. Whatever the random choices and the exchange of nodes, `optimize_dimension_tree` returns its argument, or a tensor of smaller
storage whose ranks are admissible. -/
theorem optimizeTree_storage (P : Permute R) (hPa : ∀ t p eps t', P t p eps = .ok t' → InternalActive t') (fuel : Nat) (x : TBT R)
    (hx : InternalActive x) (tol : ℝ) (choices : List (Nat × (Nat → Nat × Nat))) (y : TBT R) (h : optimizeTree P fuel x tol choices = .ok y) :
    y = x ∨ (storage y < storage x ∧ isAdmissible y y.rank = .ok true) := by
  unfold optimizeTree at h
  cases hf : choices.foldlM (optStep P (fun eps m draw t => whileLoop P eps m draw fuel 0 [] t t.rank) x tol) ⟨x, storage x, [], 0, true, x⟩ with
  | error e => rw [hf] at h; cases h
  | ok s =>
    rw [hf] at h; cases h
    exact optimize_inv hPa (whileLoop_innerOk P fuel) hx choices hf

/-- C212. The same for `optimize_leaves_permutations`. -/
theorem optimizeLeaves_storage (P : Permute R) (hPa : ∀ t p eps t', P t p eps = .ok t' → InternalActive t') (x : TBT R)
    (hx : InternalActive x) (tol : ℝ) (choices : List (Nat × (Nat → Nat × Nat))) (y : TBT R) (h : optimizeLeaves P x tol choices = .ok y) :
    y = x ∨ (storage y < storage x ∧ isAdmissible y y.rank = .ok true) := by
  unfold optimizeLeaves at h
  cases hf : choices.foldlM (optStep P (fun eps m draw t => forLoop P x.tree eps draw m 0 [] t t.rank) x tol) ⟨x, storage x, [], 0, true, x⟩ with
  | error e => rw [hf] at h; cases h
  | ok s =>
    rw [hf] at h; cases h
    exact optimize_inv hPa (forLoop_innerOk P x.tree) hx choices hf

/-- The invariant of the outer loop: error. -/
def ErrInv (a : Arr ℝ) (tol : ℝ) (s : OptState ℝ) : Prop :=
  Near a (tol * frob a.shape a.get) s.star ∧ (s.ind = false → 1 ≤ s.mPerm ∧
    Near a (s.sigmaStar.length * (tol / ((s.mPerm + s.sigmaStar.length : Nat) : ℝ) * frob a.shape a.get)) s.tSigma)

theorem optStep_err {P : Permute ℝ} (hP : PermuteOk P) {inner : Inner ℝ} (hi : InnerOk P inner) {x : TBT ℝ} {a : Arr ℝ} (ha : full x = .ok a)
    {tol : ℝ} (htol : 0 ≤ tol) {s s' : OptState ℝ} {c : Nat × (Nat → Nat × Nat)} (hc : 1 ≤ c.1) (hs : ErrInv a tol s)
    (h : optStep P inner x tol s c = .ok s') : ErrInv a tol s' := by
  obtain ⟨s1, sigma, cur, rk, h1, h2, h3⟩ := optStep_ok h
  obtain ⟨e1, e2, e3, e4⟩ := refresh_ok h1
  obtain ⟨i1, _⟩ := hi _ _ _ _ _ _ _ h2
  have hN := frob_nonneg a.shape a.get
  set L := s.sigmaStar.length with hL
  set eps := tol / ((c.1 + L : Nat) : ℝ) with heps
  have hpos : (0 : ℝ) < ((c.1 + L : Nat) : ℝ) := by exact_mod_cast (by omega : 0 < c.1 + L)
  have heps0 : 0 ≤ eps := div_nonneg htol hpos.le
  have hx0 : Near a 0 x := ⟨a, ha, rfl, le_of_eq (frob_zero _ _ (fun i => sub_self _)), le_rfl⟩
  have hnear : Near a (L * (eps * frob a.shape a.get)) s1.tSigma ∧ (s1.ind = false → 1 ≤ s1.mPerm ∧
      Near a (s1.sigmaStar.length * (tol / ((s1.mPerm + s1.sigmaStar.length : Nat) : ℝ) * frob a.shape a.get)) s1.tSigma) := by
    rcases e4 with ⟨q1, q2, hf⟩ | ⟨q1, q2, rfl⟩
    · have := (hx0.foldlM hP heps0 _ hf).mono (le_of_eq (zero_add _))
      refine ⟨this, fun _ => ⟨by rw [q1]; exact hc, ?_⟩⟩
      rw [q1, e3]
      exact this
    · refine ⟨?_, hs.2⟩
      refine (hs.2 q2).2.mono ?_
      refine mul_le_mul_of_nonneg_left (mul_le_mul_of_nonneg_right ?_ hN) (Nat.cast_nonneg _)
      refine div_le_div_of_nonneg_left htol hpos ?_
      exact_mod_cast (by omega : c.1 + L ≤ s1.mPerm + s1.sigmaStar.length)
  have hcur : Near a (tol * frob a.shape a.get) cur := by
    refine (Near.steps hP heps0 i1 hnear.1).mono (le_of_eq ?_)
    have : ((c.1 : ℝ) + L) * eps = tol := by
      rw [heps]; push_cast
      rw [mul_div_cancel₀]
      push_cast at hpos; exact hpos.ne'
    calc (L : ℝ) * (eps * frob a.shape a.get) + c.1 * (eps * frob a.shape a.get) = ((c.1 : ℝ) + L) * eps * frob a.shape a.get := by ring
      _ = _ := by rw [this]
  rcases keep_ok h3 with rfl | ⟨_, _, rfl⟩
  · exact ⟨by rw [e1]; exact hs.1, hnear.2⟩
  · exact ⟨hcur, by intro h; cases h⟩

theorem optimize_err {P : Permute ℝ} (hP : PermuteOk P) {inner : Inner ℝ} (hi : InnerOk P inner) {x : TBT ℝ} {a : Arr ℝ} (ha : full x = .ok a)
    {tol : ℝ} (htol : 0 ≤ tol) (choices : List (Nat × (Nat → Nat × Nat))) (hc : ∀ c ∈ choices, 1 ≤ c.1) {s : OptState ℝ}
    (h : choices.foldlM (optStep P inner x tol) ⟨x, storage x, [], 0, true, x⟩ = .ok s) :
    ∃ b, full s.star = .ok b ∧ b.shape = a.shape ∧ frob a.shape (fun i => b.get i - a.get i) ≤ tol * frob a.shape a.get := by
  have hx0 : Near a (tol * frob a.shape a.get) x :=
    ⟨a, ha, rfl, (le_of_eq (frob_zero _ _ (fun i => sub_self _))).trans (mul_nonneg htol (frob_nonneg _ _)), le_rfl⟩
  obtain ⟨⟨b, h1, h2, h3, _⟩, _⟩ := foldlM_invariant _ (ErrInv a tol) choices (fun _ c _ hcm hs hh => optStep_err hP hi ha htol (hc c hcm) hs hh)
    _ _ ⟨hx0, by intro h; cases h⟩ h
  exact ⟨b, h1, h2, h3⟩

/-- C213. Whatever the random choices, if each exchange of nodes respects its tolerance, `optimize_dimension_tree` returns a tensor at a
relative distance at most the given tolerance. -/
theorem optimizeTree_error (P : Permute ℝ) (hP : PermuteOk P) (fuel : Nat) (x : TBT ℝ) (a : Arr ℝ) (ha : full x = .ok a) (tol : ℝ)
    (htol : 0 ≤ tol) (choices : List (Nat × (Nat → Nat × Nat))) (hc : ∀ c ∈ choices, 1 ≤ c.1) (y : TBT ℝ)
    (h : optimizeTree P fuel x tol choices = .ok y) :
    ∃ b, full y = .ok b ∧ b.shape = a.shape ∧ frob a.shape (fun i => b.get i - a.get i) ≤ tol * frob a.shape a.get := by
  unfold optimizeTree at h
  cases hf : choices.foldlM (optStep P (fun eps m draw t => whileLoop P eps m draw fuel 0 [] t t.rank) x tol) ⟨x, storage x, [], 0, true, x⟩ with
  | error e => rw [hf] at h; cases h
  | ok s =>
    rw [hf] at h; cases h
    exact optimize_err hP (whileLoop_innerOk P fuel) ha htol choices hc hf

/-- C213. The same for `optimize_leaves_permutations`. -/
theorem optimizeLeaves_error (P : Permute ℝ) (hP : PermuteOk P) (x : TBT ℝ) (a : Arr ℝ) (ha : full x = .ok a) (tol : ℝ)
    (htol : 0 ≤ tol) (choices : List (Nat × (Nat → Nat × Nat))) (hc : ∀ c ∈ choices, 1 ≤ c.1) (y : TBT ℝ)
    (h : optimizeLeaves P x tol choices = .ok y) :
    ∃ b, full y = .ok b ∧ b.shape = a.shape ∧ frob a.shape (fun i => b.get i - a.get i) ≤ tol * frob a.shape a.get := by
  unfold optimizeLeaves at h
  cases hf : choices.foldlM (optStep P (fun eps m draw t => forLoop P x.tree eps draw m 0 [] t t.rank) x tol) ⟨x, storage x, [], 0, true, x⟩ with
  | error e => rw [hf] at h; cases h
  | ok s =>
    rw [hf] at h; cases h
    exact optimize_err hP (forLoop_innerOk P x.tree) ha htol choices hc hf

end Verif.TreeBased

namespace Verif.DimTree

/-! ## The cost of an exchange -/

variable {T : DTree}

theorem filter_eq_singleton {l : List Nat} (hnd : l.Nodup) {g : Nat} (hg : g ∈ l) {p : Nat → Bool} (hp : ∀ x ∈ l, p x = true ↔ x = g) :
    l.filter p = [g] := by
  have : l.filter p = l.filter (· == g) := List.filter_congr (fun x hx => by
    rw [Bool.eq_iff_iff, hp x hx, beq_iff_eq])
  rw [this, List.filter_beq, List.count_eq_one_of_mem hnd hg]
  rfl

theorem foldl_max_eq {l : List Nat} {m : Nat} (hm : m ∈ l) (hle : ∀ x ∈ l, x ≤ m) : l.foldl max 0 = m := by
  apply le_antisymm
  · have : ∀ (l : List Nat) (a : Nat), a ≤ m → (∀ x ∈ l, x ≤ m) → l.foldl max a ≤ m := by
      intro l
      induction l with
      | nil => intro a ha _; exact ha
      | cons b l ih => intro a ha h; exact ih _ (max_le ha (h b (by simp))) (fun x hx => h x (by simp [hx]))
    exact this l 0 (Nat.zero_le _) hle
  · have : ∀ (l : List Nat) (a : Nat), a ≤ l.foldl max a ∧ ∀ x ∈ l, x ≤ l.foldl max a := by
      intro l
      induction l with
      | nil => intro a; exact ⟨le_rfl, by simp⟩
      | cons b l ih =>
        intro a
        rw [List.foldl_cons]
        refine ⟨(le_max_left _ _).trans (ih _).1, ?_⟩
        intro x hx
        rcases List.mem_cons.1 hx with rfl | hx
        · exact (le_max_right _ _).trans (ih _).1
        · exact (ih _).2 x hx
    exact (this l 0).2 m hm

theorem Deepest.unique (hV : Valid T) {a b g g' : Nat} (h : Deepest T a b g) (h' : Deepest T a b g') : g = g' := by
  have h1 := h.2.2 g' h'.1 h'.2.1
  have h2 := h'.2.2 g h.1 h.2.1
  rcases Relation.reflTransGen_iff_eq_or_transGen.1 h1 with e | e
  · exact e
  · rcases Relation.reflTransGen_iff_eq_or_transGen.1 h2 with e' | e'
    · exact e'.symm
    · exact absurd (e.trans e') (Anc.irrefl hV _)

/-- Two nodes that can be exchanged have a deepest common ancestor. -/
theorem exists_deepest (hV : Valid T) {a b : Nat} (ha : IsNode T a) (hb : IsNode T b) (h : Swappable T a b) : ∃ g, Deepest T a b g := by
  classical
  obtain ⟨r, hr, hall⟩ := hV.rooted
  have hra : Anc T r a := by
    rcases Relation.reflTransGen_iff_eq_or_transGen.1 (hall a ha) with e | e
    · exact absurd (e ▸ hall b hb) h.1
    · exact e
  have hrb : Anc T r b := by
    rcases Relation.reflTransGen_iff_eq_or_transGen.1 (hall b hb) with e | e
    · exact absurd (e ▸ hall a ha) h.2.1
    · exact e
  obtain ⟨f, _, hf⟩ := level_ok hV
  have hnode : ∀ x y, Anc T x y → IsNode T x := by
    intro x y hxy
    obtain ⟨c, hc, _⟩ := Relation.TransGen.head'_iff.1 hxy
    exact hc.1
  let S := (Finset.Icc 1 T.n).filter (fun x => Anc T x a ∧ Anc T x b)
  have hS : S.Nonempty := ⟨r, Finset.mem_filter.2 ⟨Finset.mem_Icc.2 (hnode r a hra), hra, hrb⟩⟩
  obtain ⟨g, hg, hmax⟩ := S.exists_max_image f hS
  obtain ⟨_, hga, hgb⟩ := Finset.mem_filter.1 hg
  refine ⟨g, hga, hgb, fun x hxa hxb => ?_⟩
  rcases anc_chain hV hxa.to_reflTransGen hga.to_reflTransGen with e | e
  · exact e
  · obtain ⟨k, hk⟩ := exists_level hV (hnode g a hga)
    obtain ⟨l, hl⟩ := exists_level hV (hnode x a hxa)
    have h1 := AncSelf.level_le hV e hk hl
    have h2 := hmax x (Finset.mem_filter.2 ⟨Finset.mem_Icc.2 (hnode x a hxa), hxa, hxb⟩)
    rw [hf _ _ hk, hf _ _ hl] at h2
    rw [h1.2 (by omega)]
    exact .refl

theorem onPaths_iff (hV : Valid T) {a b g : Nat} (h : Deepest T a b g) (x : Nat) :
    OnPaths T a b g x ↔ (Anc T x a ∨ Anc T x b) ∧ ¬ Anc T x g := by
  constructor
  · rintro ⟨h1, h2⟩
    refine ⟨h2, fun h3 => Anc.irrefl hV x ?_⟩
    exact Relation.TransGen.trans_left h3 h1
  · rintro ⟨h1, h2⟩
    refine ⟨?_, h1⟩
    have : AncSelf T x g ∨ AncSelf T g x := by
      rcases h1 with h1 | h1
      · exact anc_chain hV h1.to_reflTransGen h.1.to_reflTransGen
      · exact anc_chain hV h1.to_reflTransGen h.2.1.to_reflTransGen
    rcases this with e | e
    · rcases Relation.reflTransGen_iff_eq_or_transGen.1 e with e | e
      · rw [e]; exact .refl
      · exact absurd e h2
    · exact e

theorem not_swappable_iff (hV : Valid T) {a b : Nat} (ha : IsNode T a) (hb : IsNode T b) :
    (Anc T b a ∨ Anc T a b ∨ T.parent b = T.parent a) ↔ ¬ Swappable T a b := by
  have hu := hV.unique_parent
  constructor
  · rintro (h | h | h) hs
    · exact hs.2.1 h.to_reflTransGen
    · exact hs.1 h.to_reflTransGen
    · by_cases h0 : T.parent a = 0
      · obtain ⟨r, hr, hall⟩ := hV.rooted
        have e1 := root_unique hV ((parent_eq_zero ha).1 h0) hr
        exact hs.1 (e1 ▸ hall b hb)
      · have hex : ∀ j, IsNode T j → T.parent j ≠ 0 → Edge T (T.parent j) j := by
          intro j hj h0
          have : ¬ IsRoot T j := fun h => h0 ((parent_eq_zero hj).2 h)
          unfold IsRoot at this
          push Not at this
          obtain ⟨i, hi⟩ := this hj
          rw [parent_eq_of_edge hu hi]; exact hi
        exact hs.2.2 ⟨T.parent a, hex a ha h0, h ▸ hex b hb (h ▸ h0)⟩
  · intro h
    by_contra hn
    push Not at hn
    refine h ⟨?_, ?_, ?_⟩
    · intro e
      rcases Relation.reflTransGen_iff_eq_or_transGen.1 e with e | e
      · exact hn.2.2 (by rw [e])
      · exact hn.2.1 e
    · intro e
      rcases Relation.reflTransGen_iff_eq_or_transGen.1 e with e | e
      · exact hn.2.2 (by rw [e])
      · exact hn.1 e
    · rintro ⟨p, h1, h2⟩
      exact hn.2.2 ((parent_eq_of_edge hu h2).trans (parent_eq_of_edge hu h1).symm)

end Verif.DimTree

namespace Verif.TreeBased

open Verif.DimTree

open Classical in
theorem pairCost_spec {T : DTree} (hV : Valid T) {lev : Nat → Nat} (hlev : ∀ j k, HasLevel T j k → lev j = k) (ranks : Nat → Nat) {a b : Nat}
    (ha : IsNode T a) (hb : IsNode T b) : ∃ c, pairCost T lev ranks a b = .ok c ∧ (¬ Swappable T a b → c = 0) ∧
      (Swappable T a b → ∀ g, Deepest T a b g → c = ranks g * ∏ i ∈ (Finset.Icc 1 T.n).filter (Hangs T a b g), ranks i) := by
  obtain ⟨ascA, a1, _, a3, _, a5⟩ := ascendants_spec hV a ha
  obtain ⟨ascB, b1, _, b3, _, b5⟩ := ascendants_spec hV b hb
  obtain ⟨desc, d1, _, d3⟩ := descendants_spec hV a ha
  have hns := not_swappable_iff hV ha hb
  unfold pairCost
  simp only [a1, b1, d1, bind, Except.bind, a5, d3]
  by_cases hs : Swappable T a b
  · obtain ⟨g, hg⟩ := exists_deepest hV ha hb hs
    rw [if_neg (fun h => hns.1 h hs)]
    have hnd : (ascA.filter (fun i => ascB.contains i)).Nodup := ((List.nodup_cons.1 a3).2).filter _
    have hmem : ∀ x, x ∈ ascA.filter (fun i => ascB.contains i) ↔ Anc T x a ∧ Anc T x b := by
      intro x
      rw [List.mem_filter, List.contains_iff_mem, a5, b5]
    have hnode : ∀ x y, Anc T x y → IsNode T x := by
      intro x y hxy
      obtain ⟨c, hc, _⟩ := Relation.TransGen.head'_iff.1 hxy
      exact hc.1
    obtain ⟨kg, hkg⟩ := exists_level hV (hnode g a hg.1)
    have hmg := (hmem g).2 ⟨hg.1, hg.2.1⟩
    have htop : ((ascA.filter (fun i => ascB.contains i)).map lev).foldl max 0 = lev g := by
      refine foldl_max_eq (List.mem_map.2 ⟨g, hmg, rfl⟩) ?_
      intro y hy
      obtain ⟨x, hx, rfl⟩ := List.mem_map.1 hy
      obtain ⟨hxa, hxb⟩ := (hmem x).1 hx
      obtain ⟨kx, hkx⟩ := exists_level hV (hnode x a hxa)
      rw [hlev _ _ hkx, hlev _ _ hkg]
      exact (AncSelf.level_le hV (hg.2.2 x hxa hxb) hkx hkg).1
    have hsing : (ascA.filter (fun i => ascB.contains i)).filter
        (fun i => lev i == ((ascA.filter (fun i => ascB.contains i)).map lev).foldl max 0) = [g] := by
      refine filter_eq_singleton hnd hmg ?_
      intro x hx
      rw [htop, beq_iff_eq]
      refine ⟨fun h => ?_, fun h => by rw [h]⟩
      obtain ⟨hxa, hxb⟩ := (hmem x).1 hx
      obtain ⟨kx, hkx⟩ := exists_level hV (hnode x a hxa)
      rw [hlev _ _ hkx, hlev _ _ hkg] at h
      exact (AncSelf.level_le hV (hg.2.2 x hxa hxb) hkx hkg).2 h
    obtain ⟨ascG, g1, _, _, _, g5⟩ := ascendants_spec hV g (hnode g a hg.1)
    rw [hsing]
    dsimp only
    rw [g1]
    dsimp only
    refine ⟨_, rfl, fun h => absurd hs h, ?_⟩
    intro _ g' hg'
    rw [← Deepest.unique hV hg hg']
    congr 1
    have hu : ∀ x, x ∈ (ascA ++ ascB).dedup ↔ Anc T x a ∨ Anc T x b := by
      intro x
      rw [List.mem_dedup, List.mem_append, a5, b5]
    have hpath : ∀ x, x ∈ (ascA ++ ascB).dedup.filter (fun i => !ascG.contains i) ↔ OnPaths T a b g x := by
      intro x
      rw [List.mem_filter, hu, onPaths_iff hV hg, Bool.not_eq_true', ← Bool.not_eq_true, List.contains_iff_mem, g5]
    have hpn : ∀ x, OnPaths T a b g x → IsNode T x := by
      rintro x ⟨_, h | h⟩
      · exact hnode _ _ h
      · exact hnode _ _ h
    have hnd2 : ((((ascA ++ ascB).dedup.filter (fun i => !ascG.contains i)).flatMap T.children).filter
        (fun i => !(ascA ++ ascB).dedup.contains i)).Nodup := by
      refine List.Nodup.filter _ ?_
      rw [List.nodup_flatMap]
      refine ⟨fun x _ => nodup_children x, ?_⟩
      refine List.Pairwise.imp_of_mem ?_ ((List.nodup_dedup _).filter _)
      intro x y hx hy hxy c hc1 hc2
      have e1 := (mem_children x c (hpn x ((hpath x).1 hx))).1 hc1
      have e2 := (mem_children y c (hpn y ((hpath y).1 hy))).1 hc2
      exact hxy (hV.unique_parent _ _ _ e1 e2)
    rw [← List.prod_toFinset _ hnd2]
    refine Finset.prod_congr ?_ (fun _ _ => rfl)
    ext c
    rw [List.mem_toFinset, List.mem_filter, List.mem_flatMap, Finset.mem_filter, Finset.mem_Icc, Bool.not_eq_true', ← Bool.not_eq_true,
      List.contains_iff_mem, hu]
    constructor
    · rintro ⟨⟨p, hp, hc⟩, hn⟩
      have hp' := (hpath p).1 hp
      have he := (mem_children p c (hpn p hp')).1 hc
      exact ⟨he.2.1, ⟨p, he, hp'⟩, fun h => hn h.2⟩
    · rintro ⟨_, ⟨p, he, hp'⟩, hn⟩
      refine ⟨⟨p, (hpath p).2 hp', (mem_children p c he.1).2 he⟩, fun h => hn ⟨hp'.1.tail he, h⟩⟩
  · rw [if_pos (hns.2 hs)]
    exact ⟨0, rfl, fun _ => rfl, fun h => absurd h hs⟩

open Classical in
/-- C214. `nodes_permutation_cost(alpha)` is zero exactly at the nodes that cannot be exchanged with `alpha` or whose exchange would change
nothing (its ancestors and descendants, itself and its siblings). Elsewhere it is the product of the rank of the deepest common
ancestor and of the ranks of all the nodes hanging from the paths to the two nodes. -/
theorem permutationCost_spec {T : DTree} (hV : Valid T) (ranks : Nat → Nat) (hr : ∀ i, IsNode T i → ranks i ≠ 0) {a : Nat} (ha : IsNode T a) :
    ∃ c, permutationCost T ranks a = .ok c ∧ c.length = T.n ∧ ∀ b, IsNode T b → (c.getD (b - 1) 0 ≠ 0 ↔ Swappable T a b) ∧
      (Swappable T a b → ∃ g, Deepest T a b g ∧
        c.getD (b - 1) 0 = ranks g * ∏ i ∈ (Finset.Icc 1 T.n).filter (Hangs T a b g), ranks i) := by
  obtain ⟨lev, hl, hlev⟩ := level_ok hV
  have hsp : ∀ b, IsNode T b → ∃ c, pairCost T lev ranks a b = .ok c ∧ (¬ Swappable T a b → c = 0) ∧
      (Swappable T a b → ∀ g, Deepest T a b g → c = ranks g * ∏ i ∈ (Finset.Icc 1 T.n).filter (Hangs T a b g), ranks i) :=
    fun b hb => pairCost_spec hV hlev ranks ha hb
  choose! f hf1 hf2 hf3 using hsp
  refine ⟨T.nodes.map f, ?_, by simp [DTree.nodes], ?_⟩
  · unfold permutationCost
    rw [hl]
    show T.nodes.mapM (pairCost T lev ranks a) = _
    rw [mapM_ok_iff, List.forall₂_map_right_iff, List.forall₂_same]
    exact fun b hb => hf1 b ((mem_nodes b).1 hb)
  · intro b hb
    have hget : (T.nodes.map f).getD (b - 1) 0 = f b := by
      unfold IsNode at hb
      unfold DTree.nodes
      rw [List.map_map, List.getD_eq_getElem?_getD, List.getElem?_map, List.getElem?_range (by omega)]
      show f (b - 1 + 1) = f b
      rw [Nat.sub_add_cancel hb.1]
    rw [hget]
    refine ⟨?_, ?_⟩
    · constructor
      · intro h
        by_contra hs
        exact h (hf2 b hb hs)
      · intro hs
        obtain ⟨g, hg⟩ := exists_deepest hV ha hb hs
        rw [hf3 b hb hs g hg]
        have hgn : IsNode T g := by
          obtain ⟨c, hc, _⟩ := Relation.TransGen.head'_iff.1 hg.1
          exact hc.1
        refine Nat.mul_ne_zero (hr g hgn) (Finset.prod_ne_zero_iff.2 (fun i hi => hr i ?_))
        exact Finset.mem_Icc.1 (Finset.mem_filter.1 hi).1
    · intro hs
      obtain ⟨g, hg⟩ := exists_deepest hV ha hb hs
      exact ⟨g, hg, hf3 b hb hs g hg⟩

theorem mem_candidates (c : List Nat) (b : Nat) : b ∈ candidates c ↔ 1 ≤ b ∧ b ≤ c.length ∧ c.getD (b - 1) 0 ≠ 0 := by
  unfold candidates
  simp only [List.mem_map, List.mem_filter, List.mem_range, bne_iff_ne]
  constructor
  · rintro ⟨i, ⟨h1, h2⟩, rfl⟩
    exact ⟨by omega, by omega, by simpa using h2⟩
  · rintro ⟨h1, h2, h3⟩
    exact ⟨b - 1, ⟨by omega, h3⟩, by omega⟩

/-- C214. The nodes among which `beta` is drawn are those that can be exchanged with `alpha`, and `permute_nodes` does not refuse them. -/
theorem candidates_spec {T : DTree} (hV : Valid T) (ranks : Nat → Nat) (hr : ∀ i, IsNode T i → ranks i ≠ 0) {a : Nat} (ha : IsNode T a) :
    ∃ c, permutationCost T ranks a = .ok c ∧ ∀ b, b ∈ candidates c ↔ IsNode T b ∧ Swappable T a b := by
  obtain ⟨c, h1, h2, h3⟩ := permutationCost_spec hV ranks hr ha
  refine ⟨c, h1, fun b => ?_⟩
  rw [mem_candidates, h2]
  unfold IsNode
  constructor
  · rintro ⟨e1, e2, e3⟩; exact ⟨⟨e1, e2⟩, (h3 b ⟨e1, e2⟩).1.1 e3⟩
  · rintro ⟨⟨e1, e2⟩, e3⟩; exact ⟨e1, e2, (h3 b ⟨e1, e2⟩).1.2 e3⟩

/-- C214. The candidates of `optimize_leaves_permutations` are the leaves among them. -/
theorem leafCandidates_spec {T : DTree} (hV : Valid T) (ranks : Nat → Nat) (hr : ∀ i, IsNode T i → ranks i ≠ 0) {a : Nat} (ha : IsNode T a) :
    ∃ c, permutationCost T ranks a = .ok c ∧ ∀ b, b ∈ candidates (leafCost T c) ↔ IsNode T b ∧ T.isLeaf b = true ∧ Swappable T a b := by
  obtain ⟨c, h1, h2, h3⟩ := permutationCost_spec hV ranks hr ha
  have hlen : (leafCost T c).length = T.n := by unfold leafCost; rw [List.length_map, List.length_range, h2]
  have hget : ∀ b, IsNode T b → (leafCost T c).getD (b - 1) 0 = if T.isLeaf b then c.getD (b - 1) 0 else 0 := by
    intro b hb
    unfold IsNode at hb
    unfold leafCost
    rw [List.getD_eq_getElem?_getD, List.getElem?_map, List.getElem?_range (by omega)]
    show (if T.isLeaf (b - 1 + 1) then c.getD (b - 1) 0 else 0) = _
    rw [Nat.sub_add_cancel hb.1]
  refine ⟨c, h1, fun b => ?_⟩
  rw [mem_candidates, hlen]
  constructor
  · rintro ⟨e1, e2, e3⟩
    rw [hget b ⟨e1, e2⟩] at e3
    by_cases hl : T.isLeaf b = true
    · rw [if_pos hl] at e3
      exact ⟨⟨e1, e2⟩, hl, (h3 b ⟨e1, e2⟩).1.1 e3⟩
    · rw [if_neg hl] at e3; exact absurd rfl e3
  · rintro ⟨⟨e1, e2⟩, hl, e3⟩
    refine ⟨e1, e2, ?_⟩
    rw [hget b ⟨e1, e2⟩, if_pos hl]
    exact (h3 b ⟨e1, e2⟩).1.2 e3

/-- C214. The tree computed by `permute_nodes` for two nodes that can be exchanged. -/
theorem swappable_swapNodes {T : DTree} (hV : Valid T) {a b : Nat} (ha : IsNode T a) (hb : IsNode T b) (h : Swappable T a b) :
    T.swapNodes a b = .ok { T with adj := T.swapAdj a b } := by
  obtain ⟨ascA, a1, _, _, _, a5⟩ := ascendants_spec hV a ha
  obtain ⟨ascB, b1, _, _, _, _⟩ := ascendants_spec hV b hb
  obtain ⟨desc, d1, _, d3⟩ := descendants_spec hV a ha
  have hns := not_swappable_iff hV ha hb
  unfold DTree.swapNodes
  simp only [a1, b1, d1, bind, Except.bind, a5, d3]
  rw [if_neg (fun hh => hns.1 (hh.elim (fun e => .inl ((a5 b).1 e)) (fun e => .inr (.inl ((d3 b).1 e)))) h), if_pos (fun hh => hns.1 (.inr (.inr hh.symm)) h)]

/-! ## The loop that does not end -/

/-- C215. If all the nodes other than the root are siblings (a trivial tree), the loop `while i < m_current` of `optimize_dimension_tree` does
not end: whatever the random choices, no number of turns is sufficient. -/
theorem whileLoop_never (P : Permute R) (eps : ℝ) (m : Nat) (draw : Nat → Nat × Nat) (t : TBT R) (hV : Valid t.tree)
    (hsib : ∀ a b, IsNode t.tree a → IsNode t.tree b → ¬ Swappable t.tree a b) (hd : ∀ k, IsNode t.tree (draw k).1) (hm : 0 < m) :
    ∀ (fuel k : Nat) (rk : Nat → Nat), whileLoop P eps m draw fuel k [] t rk = .error .nonTermination := by
  intro fuel
  induction fuel with
  | zero => intro k rk; rfl
  | succ fuel ih =>
    intro k rk
    unfold whileLoop nodesPermutationCost
    rw [if_pos (by simpa using hm)]
    obtain ⟨lev, hl, hlev⟩ := level_ok hV
    have hc : permutationCost t.tree (costRanks t) (draw k).1 = .ok (t.tree.nodes.map (fun _ => 0)) := by
      unfold permutationCost
      rw [hl]
      show t.tree.nodes.mapM (pairCost t.tree lev (costRanks t) (draw k).1) = _
      rw [mapM_ok_iff, List.forall₂_map_right_iff, List.forall₂_same]
      intro b hb
      obtain ⟨c, h1, h2, _⟩ := pairCost_spec hV hlev (costRanks t) (hd k) ((mem_nodes b).1 hb)
      rw [h1, h2 (hsib _ _ (hd k) ((mem_nodes b).1 hb))]
    have hcand : candidates (t.tree.nodes.map (fun _ => 0)) = [] := by
      rw [List.eq_nil_iff_forall_not_mem]
      intro b hb
      obtain ⟨_, _, h⟩ := (mem_candidates _ b).1 hb
      apply h
      rw [List.getD_eq_getElem?_getD, List.getElem?_map]
      cases t.tree.nodes[b - 1]? <;> rfl
    simp only [hc, bind, Except.bind, hcand, List.getElem?_nil]
    exact ih _ _

/-- C215. Then `optimize_dimension_tree` with at least one iteration does not return. -/
theorem optimizeTree_never (P : Permute R) (fuel : Nat) (x : TBT R) (hV : Valid x.tree)
    (hsib : ∀ a b, IsNode x.tree a → IsNode x.tree b → ¬ Swappable x.tree a b) (tol : ℝ) (c : Nat × (Nat → Nat × Nat))
    (choices : List (Nat × (Nat → Nat × Nat))) (hc : 1 ≤ c.1) (hd : ∀ k, IsNode x.tree (c.2 k).1) :
    optimizeTree P fuel x tol (c :: choices) = .error .nonTermination := by
  have h : optStep P (fun eps m draw t => whileLoop P eps m draw fuel 0 [] t t.rank) x tol ⟨x, storage x, [], 0, true, x⟩ c =
      .error .nonTermination := by
    unfold optStep
    dsimp only
    have hrf : refresh P x c.1 (tol / ((c.1 + ([] : List (Nat × Nat)).length : Nat) : ℝ)) ⟨x, storage x, [], 0, true, x⟩ =
        .ok ⟨x, storage x, [], c.1, false, x⟩ := by
      unfold refresh
      rw [if_pos (.inr rfl)]; rfl
    rw [hrf]
    show (whileLoop P _ c.1 c.2 fuel 0 [] x x.rank >>= _) = _
    rw [whileLoop_never P _ c.1 c.2 x hV hsib hd hc]
    rfl
  unfold optimizeTree
  rw [List.foldlM_cons, h]
  rfl

/-- C215. In a tree where the nodes other than the root are its sons, no two nodes can be exchanged. -/
theorem not_swappable_of_star {T : DTree} {r : Nat} (hstar : ∀ i, IsNode T i → i ≠ r → Edge T r i) (a b : Nat)
    (ha : IsNode T a) (hb : IsNode T b) : ¬ Swappable T a b := by
  rintro ⟨h1, h2, h3⟩
  by_cases har : a = r
  · by_cases hbr : b = r
    · exact h1 (by rw [har, hbr]; exact .refl)
    · exact h1 (by rw [har]; exact .single (hstar b hb hbr))
  · by_cases hbr : b = r
    · exact h2 (by rw [hbr]; exact .single (hstar a ha har))
    · exact h3 ⟨r, hstar a ha har, hstar b hb hbr⟩

/-! ## What is false of the code, and witnesses -/

/-- Two tensors of shape `3 x 2 x 2` on the tree of the root 1, its sons 2 and 5, and the sons 3 and 4 of 2: `exT` (node 4 inactive). -/
example : exT.tree.n = 5 ∧ Swappable exT.tree 3 5 := by
  have hV := exTree_valid
  refine ⟨by decide, ?_⟩
  by_contra h
  have := (not_swappable_iff hV (a := 3) (b := 5) (by unfold IsNode; decide) (by unfold IsNode; decide)).2 h
  obtain ⟨l, e1, _, _, _, e2⟩ := ascendants_spec hV 3 (by unfold IsNode; decide)
  obtain ⟨d, f1, _, f2⟩ := descendants_spec hV 3 (by unfold IsNode; decide)
  have g1 : exTree.ascendants 3 = .ok [2, 1] := by decide +kernel
  have g2 : exTree.descendants 3 = .ok [] := by decide +kernel
  rw [g1] at e1
  rw [g2] at f1
  cases e1
  cases f1
  rcases this with h | h | h
  · have := (e2 5).2 h; simp at this
  · have := (f2 5).2 h; simp at this
  · revert h; decide +kernel

/-- Null tensors of shape `3 x 2 x 2` on this tree, the rank of the node 2 being `k`. -/
def zT (R : Type) [Zero R] (k : Nat) : TBT R where
  tree := exTree
  tensors := fun i => ⟨match i with
    | 1 => [k, 2]
    | 2 => [2, 2, k]
    | 3 => [3, 2]
    | 5 => [2, 2]
    | _ => [0], fun _ => 0⟩

/-- C212. `nodes_permutation_cost` modifies `self.ranks`: after a call on a tensor with an inactive leaf whose ranks are admissible, its ranks
are no longer admissible. -/
theorem permutationCost_modifies_ranks : ∃ (x : TBT Int) (c : List Nat) (rk : Nat → Nat), Valid x.tree ∧ isAdmissible x x.rank = .ok true ∧
    nodesPermutationCost x 3 = .ok (c, rk) ∧ isAdmissible x rk = .ok false := by
  refine ⟨zT Int 2, [0, 0, 0, 0, 8], costRanks (zT Int 2), exTree_valid, by decide +kernel, ?_, by decide +kernel⟩
  have h : permutationCost (zT Int 2).tree (costRanks (zT Int 2)) 3 = .ok [0, 0, 0, 0, 8] := by decide +kernel
  unfold nodesPermutationCost
  rw [h]
  rfl

theorem zT_wf (k : Nat) (hk : k = 2 ∨ k = 3) : WF (zT ℝ k) := by
  rcases hk with rfl | rfl
  · exact wf_of_wfB _ exTree_valid (by decide +kernel)
  · exact wf_of_wfB _ exTree_valid (by decide +kernel)

theorem zT_full (k : Nat) (hk : k = 2 ∨ k = 3) : ∃ a, full (zT ℝ k) = .ok a ∧ a.shape = [3, 2, 2] ∧ ∀ i, InBox [3, 2, 2] i → a.get i = 0 := by
  obtain ⟨y, r, h1, h2, h3, h4⟩ := full_spec _ (zT_wf k hk)
  obtain ⟨V, hV⟩ := exists_value (zT ℝ k) exTree_valid
  have hr : r = 1 := by
    have : exTree.root = .ok 1 := by decide +kernel
    have h2' : exTree.root = .ok r := h2
    rw [this] at h2'
    cases h2'; rfl
  subst hr
  have hs : (zT ℝ k).shape = [3, 2, 2] ∧ rankShape (zT ℝ k) 1 = [] := by
    rcases hk with rfl | rfl <;> exact ⟨by decide +kernel, by decide +kernel⟩
  refine ⟨y, h1, by rw [h3, hs.1, hs.2]; rfl, fun i hi => ?_⟩
  have := h4 V hV i [] (by rw [hs.1]; exact hi) (by rw [hs.2]; exact .nil)
  rw [List.append_nil] at this
  rw [this, hV.node 1 (show 1 ≤ 1 ∧ 1 ≤ exTree.n by decide) (show 1 ∉ exTree.dim2ind by decide)]
  exact childSum_zero _ _ _ _

theorem frob_box_zero (s : List Nat) (f : List Nat → ℝ) (h : ∀ i, InBox s i → f i = 0) : frob s f = 0 := by
  unfold frob
  rw [sumBox_eq_sum, Finset.sum_eq_zero (fun i hi => by rw [h i ((mem_box s i).1 hi)]; ring), Real.sqrt_zero]

open Classical in
/-- The exchange that replaces the null tensor of larger rank. -/
noncomputable def zP : Permute ℝ := fun t _ _ => .ok (if t = zT ℝ 3 then zT ℝ 2 else t)

theorem zP_ok : PermuteOk zP := by
  intro t p eps t' a heps ha h
  unfold zP at h
  by_cases ht : t = zT ℝ 3
  · rw [if_pos ht] at h
    cases h
    obtain ⟨a', h1, h2, h3⟩ := zT_full 3 (.inr rfl)
    obtain ⟨b, g1, g2, g3⟩ := zT_full 2 (.inl rfl)
    rw [ht, h1] at ha
    cases ha
    refine ⟨b, g1, by rw [g2, h2], ?_, ?_⟩
    · rw [h2, frob_box_zero _ _ (fun i hi => by rw [g3 i hi, h3 i hi, sub_zero])]
      exact mul_nonneg heps (frob_nonneg _ _)
    · rw [h2, frob_box_zero _ _ g3]
      exact frob_nonneg _ _
  · rw [if_neg ht] at h
    cases h
    exact ⟨a, ha, rfl, by rw [frob_zero _ _ (fun i => sub_self _)]; exact mul_nonneg heps (frob_nonneg _ _), le_rfl⟩

theorem zT_internalActive (k : Nat) (hk : k = 2 ∨ k = 3) : InternalActive (zT ℝ k) := by
  intro i hn hi
  have h1 : 1 ≤ i := hn.1
  have h5 : i ≤ 5 := hn.2
  have hi' : exTree.isLeaf i = false := hi
  rcases hk with rfl | rfl <;> interval_cases i <;> first | decide +kernel | (revert hi'; decide +kernel)

/-- The hypotheses of `optimizeTree_storage` and `optimizeTree_error` are met by a run that replaces the tensor. -/
theorem zRun : optimizeTree zP 2 (zT ℝ 3) 1 [(1, fun _ => (3, 0))] = .ok (zT ℝ 2) ∧ storage (zT ℝ 2) < storage (zT ℝ 3) := by
  have hst : storage (zT ℝ 2) < storage (zT ℝ 3) := by decide +kernel
  refine ⟨?_, hst⟩
  have hc : permutationCost (zT ℝ 3).tree (costRanks (zT ℝ 3)) 3 = .ok [0, 0, 0, 0, 8] := by decide +kernel
  have had : isAdmissible (zT ℝ 2) (zT ℝ 2).rank = .ok true := by decide +kernel
  have hw : ∀ eps, whileLoop zP eps 1 (fun _ => (3, 0)) 2 0 [] (zT ℝ 3) (zT ℝ 3).rank = .ok ([(3, 5)], zT ℝ 2, (zT ℝ 2).rank) := by
    intro eps
    unfold whileLoop nodesPermutationCost
    rw [if_pos (by decide)]
    have hcand : (candidates [0, 0, 0, 0, 8])[0]? = some 5 := by decide
    simp only [hc, bind, Except.bind, hcand]
    unfold zP
    rw [if_pos rfl]
    dsimp only
    unfold whileLoop
    rw [if_neg (by decide)]
    rfl
  unfold optimizeTree
  rw [List.foldlM_cons]
  unfold optStep refresh
  dsimp only
  rw [if_pos (.inr rfl)]
  simp only [List.foldlM_nil, pure, Except.pure, bind, Except.bind, hw]
  unfold keep
  rw [if_pos hst, had]
  rfl

/-- C215. The loop `while i < m_current` ends after `m_current` turns if, on the tensors that occur (a class `K` kept by the exchanges), each
node drawn can be exchanged with another: then only an error of an exchange can prevent the result. -/
theorem whileLoop_ends_partial (P : Permute R) (eps : ℝ) (m : Nat) (draw : Nat → Nat × Nat) (K : TBT R → Prop)
    (hK : ∀ t p, K t → ∃ t', P t p eps = .ok t' ∧ K t')
    (hd : ∀ t k, K t → ∃ c beta, permutationCost t.tree (costRanks t) (draw k).1 = .ok c ∧ (candidates c)[(draw k).2]? = some beta) :
    ∀ (fuel k : Nat) (sigma : List (Nat × Nat)) (t : TBT R) (rk : Nat → Nat), K t → sigma.length ≤ m → m < sigma.length + fuel →
      ∃ out, whileLoop P eps m draw fuel k sigma t rk = .ok out := by
  intro fuel
  induction fuel with
  | zero =>
    intro k sigma t rk _ h1 h
    omega
  | succ fuel ih =>
    intro k sigma t rk ht hle h
    unfold whileLoop nodesPermutationCost
    by_cases hl : sigma.length < m
    · rw [if_pos hl]
      obtain ⟨c, beta, h1, h2⟩ := hd t k ht
      obtain ⟨t', h3, h4⟩ := hK t ((draw k).1, beta) ht
      simp only [h1, bind, Except.bind, h2, h3]
      exact ih _ _ _ _ h4 (by rw [List.length_append, List.length_singleton]; omega) (by rw [List.length_append, List.length_singleton]; omega)
    · rw [if_neg hl]
      exact ⟨_, rfl⟩

/-- The hypotheses of `whileLoop_ends_partial` are met. -/
example : ∃ out, whileLoop (R := ℝ) (fun t _ _ => .ok t) 0 3 (fun _ => (3, 0)) 4 0 [] (zT ℝ 2) (zT ℝ 2).rank = .ok out := by
  refine whileLoop_ends_partial _ 0 3 _ (fun t => t = zT ℝ 2) (fun t _ ht => ⟨t, rfl, ht⟩) ?_ 4 0 [] _ _ rfl (by simp) (by simp)
  rintro t k rfl
  exact ⟨[0, 0, 0, 0, 8], 5, by decide +kernel, by decide⟩

/-- The hypotheses of `optimizeTree_never` are met by trivial trees. -/
example : ∃ T : DTree, Valid T ∧ T.n = 3 ∧ ∀ a b, IsNode T a → IsNode T b → ¬ Swappable T a b := by
  refine ⟨ofParents [0, 0, 0] [2, 3], ofParents_valid _ _ (by decide) (by decide) (by decide) (by decide) (by decide), rfl,
    not_swappable_of_star (r := 1) ?_⟩
  intro i hi hne
  have h1 : 1 ≤ i := hi.1
  have h3 : i ≤ 3 := hi.2
  interval_cases i
  · exact absurd rfl hne
  · unfold Edge IsNode; decide +kernel
  · unfold Edge IsNode; decide +kernel

/-- A tensor of shape `3 x 2 x 2` with the two leaves 3 and 4 inactive, in the order of the dimensions 4, 3, 5. -/
def exSwap : TBT Int where
  tree := ofParents [0, 0, 1, 1, 0] [4, 3, 5]
  tensors := fun i => match i with
    | 1 => ⟨[2, 2], fun _ => 1⟩
    | 2 => ⟨[2, 3, 2], fun _ => 1⟩
    | 5 => ⟨[2, 2], fun _ => 1⟩
    | _ => ⟨[0], fun _ => 0⟩

/-- C214. With several inactive leaves the cost does not use their sizes: those are assigned in the order of the dimensions to the nodes in
increasing order. -/
theorem costRanks_order : ∃ x : TBT Int, WF x ∧ x.active 3 = false ∧ x.active 4 = false ∧ x.leafSize 3 = 2 ∧ x.leafSize 4 = 3 ∧
    costRanks x 3 = 3 ∧ costRanks x 4 = 2 :=
  ⟨exSwap, wf_of_wfB _ (ofParents_valid _ _ (by decide) (by decide) (by decide) (by decide) (by decide)) (by decide +kernel),
    by decide +kernel, by decide +kernel, by decide +kernel, by decide +kernel, by decide +kernel, by decide +kernel⟩

/-- C214. If the numbers of the leaves increase with the dimensions, the cost uses the ranks of the active nodes and the sizes of the
inactive leaves. -/
theorem costRanks_spec_partial (x : TBT R) (hx : InternalActive x) (hV : Valid x.tree) (hinc : x.tree.dim2ind.Pairwise (· < ·)) (i : Nat)
    (hi : IsNode x.tree i) : costRanks x i = if x.active i then x.rank i else x.leafSize i := by
  by_cases ha : x.active i = true
  · rw [if_pos ha]
    exact costRanks_active x i (fun h => by rw [ha] at h; cases h.2)
  · rw [if_neg ha]
    have hl : x.tree.nodes.filter (fun i => !x.active i) = x.tree.dim2ind.filter (fun i => !x.active i) := by
      refine List.Perm.eq_of_pairwise (le := (· < ·)) (fun a b _ _ h1 h2 => absurd (h1.trans h2) (lt_irrefl _)) ?_ (hinc.filter _) ?_
      · refine List.Pairwise.filter _ ?_
        unfold DTree.nodes
        rw [List.pairwise_map]
        exact List.pairwise_lt_range.imp (by omega)
      · rw [List.perm_ext_iff_of_nodup (nodup_nodes.filter _) (hV.nodup.filter _)]
        intro j
        rw [List.mem_filter, List.mem_filter, mem_nodes]
        constructor
        · rintro ⟨h1, h2⟩
          refine ⟨?_, h2⟩
          by_contra hn
          have := hx j h1 (by unfold DTree.isLeaf; rw [← Bool.not_eq_true, List.contains_iff_mem]; exact hn)
          rw [this] at h2; cases h2
        · rintro ⟨h1, h2⟩
          exact ⟨((hV.leaves j).1 h1).1, h2⟩
    have hfold : ∀ (l : List Nat) (f : Nat → Nat), i ∈ l →
        (l.zip (l.map x.leafSize)).foldl (fun f p => upd f p.1 p.2) f i = x.leafSize i := by
      intro l
      induction l with
      | nil => intro f h; cases h
      | cons j l ih =>
        intro f h
        rw [List.map_cons, List.zip_cons_cons, List.foldl_cons]
        by_cases hil : i ∈ l
        · exact ih _ hil
        · have hij : i = j := by
            rcases List.mem_cons.1 h with h | h
            · exact h
            · exact absurd h hil
          rw [foldl_upd_of_not_mem]
          · unfold upd; rw [if_pos hij, hij]
          · intro p hp he
            exact hil (he ▸ (List.of_mem_zip hp).1)
    unfold costRanks
    rw [hl]
    refine hfold _ _ ?_
    rw [← hl, List.mem_filter]
    exact ⟨(mem_nodes i).2 hi, by simpa using ha⟩

end Verif.TreeBased
