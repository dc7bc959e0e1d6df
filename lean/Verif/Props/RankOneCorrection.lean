import Verif.Model.RankOneCorrection
import Verif.Props.AlternatingMinimization
import Verif.Props.TreeArith

/-!
# Properties of the rank-one correction (C217)
-/

namespace Verif.TreeBased

open Arr DimTree Finset Truncation LeastSquares

variable {qr : Arr ℝ → Arr ℝ × Arr ℝ} {svd : Svd} {lin : LinAlg} {la : La} {o : Opts} {H : List (Arr ℝ)} {y : Arr ℝ} {n r : Nat}

/-- With the null tensor at a node the function is null at the points. -/
theorem zero_node {x : TBT ℝ} (hx : AmData x r H y n) {mu : Nat} (hmu : IsNode x.tree mu) :
    ∃ x0 a0, SameOff x x0 mu ∧ full x0 = .ok a0 ∧ ∀ k e, k < n → InBox (rankShape x r) e → predict x.shape H a0 k e = 0 := by
  have hso : SameOff x ⟨x.tree, upd x.tensors mu ⟨(x.tensors mu).shape, fun _ => 0⟩⟩ mu :=
    ⟨rfl, fun j hj => by simp [upd, hj], by simp [upd]⟩
  obtain ⟨V, hV⟩ := exists_value _ (hso.wf hx.wf).valid
  obtain ⟨a0, a1, -⟩ := full_on _ (hso.wf hx.wf) hV.on (r := r) (by rw [hso.tree]; exact hx.root)
  refine ⟨_, a0, hso, a1, fun k e hk he => ?_⟩
  have hz : ∀ s : List Nat, ∀ f : List Nat → ℝ, (∀ q, f q = 0) → sumBox s f = 0 := by
    intro s f hf
    rw [sumBox_eq_sum]
    exact sum_eq_zero (fun q _ => hf q)
  by_cases hmr : mu = r
  · subst hmr
    obtain ⟨g, -, -, g3⟩ := paramGradEval_root_partial x hx.wf hx.active hx.unary mu hx.root H n hx.pos hx.length hx.mats
    rw [g3 _ a0 hso a1 k e hk he]
    exact hz _ _ (fun q => by simp [upd])
  · obtain ⟨g, -, -, g3⟩ := paramGradEval_node_partial x hx.wf hx.active hx.unary r hx.root H n hx.pos hx.length hx.mats mu hmu hmr
      (.inr hx.axis)
    rw [g3 _ a0 hso a1 k e hk he]
    exact hz _ _ (fun q => by simp [upd])

/-- The sum of the squared observations. -/
noncomputable def sqObs (E : List Nat) (y : Arr ℝ) (n : Nat) : ℝ := ∑ k ∈ range n, sumBox E (fun e => y.get (k :: e) ^ 2)

theorem risk_zero {s E : List Nat} {a : Arr ℝ} (h : ∀ k e, k < n → InBox E e → predict s H a k e = 0) : risk s E H y a n = sqObs E y n := by
  unfold risk sqObs
  refine sum_congr rfl (fun k hk => sumBox_congr (fun e he => ?_))
  rw [h k e (mem_range.1 hk) he, sub_zero]

theorem solve_one {order : Nat → List Nat} {stop : Nat → TBT ℝ → TBT ℝ → Bool} {x z : TBT ℝ}
    (h : amSweep qr svd lin la o H y (order 0) x = .ok z) :
    solveStandard qr svd lin la o H y order stop 1 x = .ok (z, [z]) := by
  unfold solveStandard
  rw [amLoop]
  simp only [h, bind, Except.bind]
  by_cases hs : stop 0 z x = true
  · simp [hs]
  · simp only [hs, if_false, amLoop]
    rfl

/-- One iteration of the alternating minimization from `x`, with at least one node: the sum of squared errors is at most that of `x`, and at
most that of the null function unless the first solution is null. -/
theorem sweep_null (hqr : FullTensor.QROk qr) (hsv : SvdOk svd) (hlin : LinAlgOk lin) (hla : LaOk la) {x : TBT ℝ} (hx : AmData x r H y n)
    (mu : Nat) (l : List Nat) (hmu : IsNode x.tree mu) (hl : ∀ j ∈ l, IsNode x.tree j) :
    ∃ z a b, amSweep qr svd lin la o H y (mu :: l) x = .ok z ∧ AmData z r H y n ∧ z.tree = x.tree ∧ z.shape = x.shape ∧
      rankShape z r = rankShape x r ∧ full x = .ok a ∧ full z = .ok b ∧
      risk x.shape (rankShape x r) H y b n ≤ risk x.shape (rankShape x r) H y a n ∧
      (risk x.shape (rankShape x r) H y b n ≤ sqObs (rankShape x r) y n ∨
        (b ≃ₐ a ∧ ∀ x'' a'', SameOff z x'' mu → full x'' = .ok a'' →
          sqObs (rankShape x r) y n ≤ risk x.shape (rankShape x r) H y a'' n)) := by
  obtain ⟨z, s, a, b, h1, h2, h3, h4, h5, h6, h7, h8, h9, h10⟩ := amStep_spec hqr hsv hlin hla o hx hmu
  cases s with
  | true =>
    refine ⟨z, a, b, ?_, h2, h3, h4, h5, h6, h7, h8, .inr (h10 rfl)⟩
    rw [amSweep]
    simp only [h1, bind, Except.bind]
    rfl
  | false =>
    obtain ⟨w, b', c, q1, q2, q3, q4, q5, q6, q7, q8⟩ := amSweep_spec hqr hsv hlin hla o l h2 (fun j hj => by rw [h3]; exact hl j hj)
    rw [h7] at q6; cases q6
    rw [h4, h5] at q8
    refine ⟨w, a, c, ?_, q2, q3.trans h3, q4.trans h4, q5.trans h5, h6, q7, q8.trans h8, .inl ?_⟩
    · rw [amSweep]
      simp only [h1, bind, Except.bind]
      exact q1
    · obtain ⟨x0, a0, s1, s2, s3⟩ := zero_node h2 (mu := mu) (by rw [h3]; exact hmu)
      refine q8.trans ((h9 rfl x0 a0 s1 s2).trans (le_of_eq ?_))
      rw [← h4, ← h5]
      exact risk_zero s3

theorem predict_add (s : List Nat) (E : List Nat) (a b w : Arr ℝ) (ha : a.shape = s ++ E) (hw : w ≃ₐ FullTensor.add a b) (k : Nat) {e : List Nat}
    (he : InBox E e) : predict s H w k e = predict s H a k e + predict s H b k e := by
  unfold predict
  simp only [sumBox_eq_sum]
  rw [← sum_add_distrib]
  refine sum_congr rfl (fun q hq => ?_)
  have hq := (mem_box _ _).1 hq
  have hs : w.shape = s ++ E := hw.1.trans ha
  rw [hw.2 (q ++ e) (by rw [hs]; exact (inBox_append hq.length_eq).2 ⟨hq, he⟩)]
  show (a.get _ + b.get _) * _ = _
  ring

/-- C217. Rank-one correction of the null function: it never fails, and its training risk is at most that of the initial function. -/
theorem rankOneCorrection_none (hqr : FullTensor.QROk qr) (hsv : SvdOk svd) (hlin : LinAlgOk lin) (hla : LaOk la)
    (order : Nat → List Nat) (stop : Nat → TBT ℝ → TBT ℝ → Bool) {x1 : TBT ℝ} (hx : AmData x1 r H y n)
    (mu : Nat) (l : List Nat) (ho : order 0 = mu :: l) (hn : ∀ j ∈ order 0, IsNode x1.tree j) :
    ∃ z b w, rankOneCorrection qr svd lin la o H y order stop x1 none = .ok z ∧ WF z ∧ full x1 = .ok b ∧ full z = .ok w ∧
      risk x1.shape (rankShape x1 r) H y w n ≤ risk x1.shape (rankShape x1 r) H y b n ∧
      (risk x1.shape (rankShape x1 r) H y w n ≤ sqObs (rankShape x1 r) y n ∨ w ≃ₐ b) := by
  rw [ho] at hn
  obtain ⟨z, a, b, h1, h2, -, -, -, h6, h7, h8, h9⟩ := sweep_null (o := o) hqr hsv hlin hla hx mu l (hn mu (by simp)) (fun j hj => hn j (by simp [hj]))
  refine ⟨z, a, b, ?_, h2.wf, h6, h7, h8, h9.imp_right And.left⟩
  unfold rankOneCorrection
  rw [solve_one (by rw [ho]; exact h1)]
  rfl

/-- C217. Rank-one correction of a function `f` (the function added starts from `x1`): it never fails; the result is `f` plus a function; its
training risk is at most that of `f + x1`. It is also at most that of `f`, unless the first linear system has a null solution: then the result is
`f + x1`, although no tensor at the first node would be better than the null one. -/
theorem rankOneCorrection_spec_partial (hqr : FullTensor.QROk qr) (hsv : SvdOk svd) (hlin : LinAlgOk lin) (hla : LaOk la)
    (order : Nat → List Nat) (stop : Nat → TBT ℝ → TBT ℝ → Bool) {x1 f : TBT ℝ} (hx : AmData x1 r H y n) (hf : AmData f r H y n)
    (hc : Compat f x1) (mu : Nat) (l : List Nat) (ho : order 0 = mu :: l) (hn : ∀ j ∈ order 0, IsNode x1.tree j) :
    ∃ z g a b c w, rankOneCorrection qr svd lin la o H y order stop x1 (some f) = .ok z ∧ WF z ∧ z.tree = f.tree ∧
      full f = .ok a ∧ full x1 = .ok b ∧ full g = .ok c ∧ full z = .ok w ∧ w ≃ₐ FullTensor.add a c ∧
      risk f.shape (rankShape f r) H y w n ≤ risk f.shape (rankShape f r) H y (FullTensor.add a b) n ∧
      (risk f.shape (rankShape f r) H y w n ≤ risk f.shape (rankShape f r) H y a n ∨
        (c ≃ₐ b ∧ ∀ g' c', SameOff g g' mu → full g' = .ok c' →
          risk f.shape (rankShape f r) H y a n ≤ risk f.shape (rankShape f r) H y (FullTensor.add a c') n)) := by
  obtain ⟨r', hr', hroot⟩ := root_ok hf.wf.valid
  rw [hf.root] at hr'; cases hr'
  obtain ⟨a, fx, f1, f2, f3⟩ := predict_eval f hf.wf r hf.root H n hf.length hf.mats
  have hxr : AmData x1 r H (residualData y fx) n :=
    ⟨hx.wf, hx.active, hx.unary, hx.root, hx.pos, hx.length, hx.mats, hx.obs, hx.axis⟩
  rw [ho] at hn
  obtain ⟨g, b, c, h1, h2, h3, h4, h5, h6, h7, h8, h9⟩ := sweep_null (o := o) hqr hsv hlin hla hxr mu l (hn mu (by simp))
    (fun j hj => hn j (by simp [hj]))
  have hE := hc.root r hroot
  have hcg : Compat f g := by
    refine ⟨h3.trans hc.tree, fun i hi => ?_, h4.trans hc.shape, fun q hq => ?_⟩
    · rw [h2.active i (by rw [h3, hc.tree]; exact hi), hf.active i hi]
    · rw [root_unique hf.wf.valid hq hroot, h5, hE]
  obtain ⟨z, a', c', w, z1, z2, z3, z4, z5, z6, z7, z8, -⟩ := add_same f g hf.wf h2.wf hcg
  rw [f1] at z3; cases z3
  rw [h7] at z4; cases z4
  have hash : a.shape = f.shape ++ rankShape f r := by
    obtain ⟨V, hV⟩ := exists_value f hf.wf.valid
    obtain ⟨a', a1, a2, -⟩ := full_on f hf.wf hV.on hf.root
    rw [f1] at a1; cases a1; exact a2
  -- the risk of a sum is the risk for the residuals
  have key : ∀ u v : Arr ℝ, v ≃ₐ FullTensor.add a u →
      risk f.shape (rankShape f r) H y v n = risk x1.shape (rankShape x1 r) H (residualData y fx) u n := by
    intro u v hv
    rw [hE, hc.shape]
    unfold risk
    refine sum_congr rfl (fun k hk => sumBox_congr (fun e he => ?_))
    rw [predict_add _ _ a u v hash hv k he, ← f3 k e (mem_range.1 hk) he]
    show _ = (y.get (k :: e) - fx.get (k :: e) - _) ^ 2
    ring
  have hsq : sqObs (rankShape x1 r) (residualData y fx) n = risk f.shape (rankShape f r) H y a n := by
    rw [hE]
    unfold risk sqObs
    refine sum_congr rfl (fun k hk => sumBox_congr (fun e he => ?_))
    rw [← f3 k e (mem_range.1 hk) he]
    rfl
  refine ⟨z, g, a, b, c, w, ?_, z2, z8, f1, h6, h7, z5, z6, ?_, ?_⟩
  · unfold rankOneCorrection
    simp only [f2]
    show ((solveStandard qr svd lin la o H (residualData y fx) order stop 1 x1).bind fun s => add f s.1) = .ok z
    rw [solve_one (by rw [ho]; exact h1)]
    exact z1
  · rw [key c w z6, key b _ ⟨rfl, fun _ _ => rfl⟩]
    exact h8
  · rw [key c w z6, ← hsq]
    refine h9.imp_right (fun h => ⟨h.1, fun g' c' hs hf' => ?_⟩)
    rw [key c' _ ⟨rfl, fun _ _ => rfl⟩]
    exact h.2 g' c' hs hf'

/-- The solvers give the null solution for the null data (as those of NumPy do). -/
def NullOnNull (la : La) : Prop := ∀ {m n : Nat} (B : Matrix (Fin m) (Fin n) ℝ),
  (∀ x, la.solve B 0 = .ok x → x = 0) ∧ la.lstsq B 0 = 0

theorem olsFit_null (hz : NullOnNull la) {N P : Nat} (A : Matrix (Fin N) (Fin P) ℝ) : (olsFit la o A 0).1 = 0 := by
  have key : ∀ {m n : Nat} (B : Matrix (Fin m) (Fin n) ℝ), orElse (la.solve B 0) (la.lstsq B 0) = 0 := by
    intro m n B
    unfold orElse
    cases h : la.solve B 0 with
    | ok x => exact (hz B).1 x h
    | error _ => exact (hz B).2
  unfold olsFit
  cases o.solver with
  | solve => simp only [solveNormal, Matrix.mulVec_zero, key]
  | qr => simp only [solveQr, Matrix.mulVec_zero, key]

theorem olsArr_null (hz : NullOnNull la) (A : Arr ℝ) {d : Nat → ℝ} (hd : ∀ i, i < A.shape.getD 0 0 → d i = 0) (p : Nat) :
    olsArr la o A d p = 0 := by
  unfold olsArr
  have : (fun i : Fin (A.shape.getD 0 0) => d i) = 0 := by funext i; exact hd i i.isLt
  rw [this, olsFit_null hz]
  split <;> rfl

/-- With null observations the step leaves the loop and the function is unchanged. -/
theorem amStep_null (hqr : FullTensor.QROk qr) (hsv : SvdOk svd) (hlin : LinAlgOk lin) (hla : LaOk la) (hz : NullOnNull la) {x : TBT ℝ}
    (hx : AmData x r H y n) {mu : Nat} (hmu : IsNode x.tree mu)
    (hy : ∀ k e, k < n → InBox (rankShape x r) e → y.get (k :: e) = 0) :
    ∃ z a b, amStep qr svd lin la o H y x mu = .ok (z, true) ∧ WF z ∧ AllActive z ∧ z.tree = x.tree ∧ z.shape = x.shape ∧
      rankShape z r = rankShape x r ∧ full x = .ok a ∧ full z = .ok b ∧ b ≃ₐ a := by
  obtain ⟨z, a, b, z1, z2, z3, z4, z5, z6, f1, f2, f3⟩ := orthAt_ok hqr hsv hlin x hx.wf hx.active r hx.root mu hmu
  have hzd : AmData z r H y n := hx.congr z2 z3 z4 z5 z6
  refine ⟨z, a, b, ?_, z2, z3, z4, z5, z6, f1, f2, f3⟩
  obtain ⟨r', hr', hroot⟩ := root_ok z2.valid
  rw [hzd.root] at hr'; cases hr'
  have hrk := rank_root_prod z2 hroot
  obtain ⟨-, -, hElen, -⟩ := z2.node r hroot.1 (z2.root_internal hroot)
  have hyz : ∀ q, InBox y.shape q → y.get q = 0 := by
    intro q hq
    rw [hx.obs] at hq
    cases hq with
    | cons h1 h2 => exact hy _ _ h1 h2
  have hmuz : IsNode z.tree mu := by rw [z4]; exact hmu
  by_cases hmr : mu = r
  · subst hmr
    obtain ⟨g, g1, g2, -⟩ := paramGradEval_root_partial z hzd.wf hzd.active hzd.unary mu hzd.root H n hzd.pos hzd.length hzd.mats
    unfold amStep
    simp only [hx.root, z1, g1, bind, Except.bind, if_true]
    rw [if_pos]
    rw [if_pos rfl]
    intro q hq
    show olsArr la o _ _ _ = 0
    apply olsArr_null hz
    intro k hk
    have hk : k < n := by
      have : (reshapeF g [g.shape.getD 0 0, g.shape.prod / g.shape.getD 0 0]).shape.getD 0 0 = g.shape.getD 0 0 := rfl
      rw [this, g2] at hk
      simpa using hk
    have hj : q.getD 1 0 < z.rank mu := by
      have : InBox [g.shape.prod / g.shape.getD 0 0, z.rank mu] q := hq
      match q, this with
      | [_, j], h => simpa using ((List.forall₂_cons.1 (List.forall₂_cons.1 h).2).1)
    unfold yCol
    have hsy : y.shape = n :: rankShape z mu := by rw [hx.obs, z6]
    match hE : rankShape z mu, hElen with
    | [], _ =>
      rw [hE] at hsy
      rw [if_pos (by simp [Arr.order, hsy])]
      exact hyz _ (by rw [hsy]; exact .cons hk .nil)
    | [m], _ =>
      rw [hE] at hsy
      rw [hrk, hE] at hj
      rw [if_neg (by simp [Arr.order, hsy])]
      exact hyz _ (by rw [hsy]; exact .cons hk (.cons (by simpa using hj) .nil))
  · obtain ⟨g, g1, g2, -⟩ := paramGradEval_node_partial z hzd.wf hzd.active hzd.unary r hzd.root H n hzd.pos hzd.length hzd.mats mu hmuz hmr
      (.inr hzd.axis)
    unfold amStep
    simp only [hx.root, z1, g1, bind, Except.bind, if_neg hmr]
    rw [if_pos]
    intro q hq
    rw [if_neg hmr]
    unfold nodeCoef
    dsimp only
    apply olsArr_null hz
    intro k hk
    have hk : k < y.shape.prod := by
      have : k < g.shape.getD 0 0 * z.rank r := hk
      rw [g2, hrk] at this
      rw [hx.obs, ← z6, List.prod_cons]
      simpa using this
    have : ravelF [g.shape.getD 0 0 * z.rank r] [k] = k := by simp [ravelF]
    show y.get (unravelF y.shape (ravelF [g.shape.getD 0 0 * z.rank r] [k])) = 0
    rw [this]
    exact hyz _ (unravelF_inBox hk)

/-- C217. If `f` interpolates the training data, its rank-one correction is `f + x1`, where `x1` is the initial function: the training risk
becomes the sum of the squared values of `x1`. -/
theorem rankOneCorrection_interpolant (hqr : FullTensor.QROk qr) (hsv : SvdOk svd) (hlin : LinAlgOk lin) (hla : LaOk la) (hz : NullOnNull la)
    (order : Nat → List Nat) (stop : Nat → TBT ℝ → TBT ℝ → Bool) {x1 f : TBT ℝ} (hx : AmData x1 r H y n) (hf : AmData f r H y n)
    (hc : Compat f x1) (mu : Nat) (l : List Nat) (ho : order 0 = mu :: l) (hmu : IsNode x1.tree mu) {a : Arr ℝ} (ha : full f = .ok a)
    (hr : risk f.shape (rankShape f r) H y a n = 0) :
    ∃ z b w, rankOneCorrection qr svd lin la o H y order stop x1 (some f) = .ok z ∧ full x1 = .ok b ∧ full z = .ok w ∧
      w ≃ₐ FullTensor.add a b ∧ risk f.shape (rankShape f r) H y w n =
        ∑ k ∈ range n, sumBox (rankShape f r) (fun e => predict f.shape H b k e ^ 2) := by
  obtain ⟨r', hr', hroot⟩ := root_ok hf.wf.valid
  rw [hf.root] at hr'; cases hr'
  obtain ⟨a', fx, f1, f2, f3⟩ := predict_eval f hf.wf r hf.root H n hf.length hf.mats
  rw [ha] at f1; cases f1
  have hE := hc.root r hroot
  have hzero : ∀ k e, k < n → InBox (rankShape f r) e → y.get (k :: e) = predict f.shape H a k e := by
    intro k e hk he
    unfold risk at hr
    simp only [sumBox_eq_sum] at hr
    have h1 := (sum_eq_zero_iff_of_nonneg (fun k _ => sum_nonneg (fun e _ => sq_nonneg _))).1 hr k (mem_range.2 hk)
    have h2 := (sum_eq_zero_iff_of_nonneg (fun e _ => sq_nonneg _)).1 h1 e ((mem_box _ _).2 he)
    have := pow_eq_zero_iff (two_ne_zero) |>.1 h2
    linarith
  have hxr : AmData x1 r H (residualData y fx) n :=
    ⟨hx.wf, hx.active, hx.unary, hx.root, hx.pos, hx.length, hx.mats, hx.obs, hx.axis⟩
  obtain ⟨g, b, c, h1, h2, h2', h3, h4, h5, h6, h7, h8⟩ := amStep_null (o := o) hqr hsv hlin hla hz hxr hmu (fun k e hk he => by
    rw [hE] at he
    show y.get (k :: e) - fx.get (k :: e) = 0
    rw [f3 k e hk he, hzero k e hk he, sub_self])
  have hcg : Compat f g := by
    refine ⟨h3.trans hc.tree, fun i hi => ?_, h4.trans hc.shape, fun q hq => ?_⟩
    · rw [h2' i (by rw [h3, hc.tree]; exact hi), hf.active i hi]
    · rw [root_unique hf.wf.valid hq hroot, h5, hE]
  obtain ⟨z, a', c', w, z1, z2, z3, z4, z5, z6, z7, z8, -⟩ := add_same f g hf.wf h2 hcg
  rw [ha] at z3; cases z3
  rw [h7] at z4; cases z4
  have hw : w ≃ₐ FullTensor.add a b := by
    refine ⟨z6.1, fun q hq => ?_⟩
    rw [z6.2 q hq]
    show a.get q + c.get q = a.get q + b.get q
    rw [h8.2 q (by rw [← z7, show a.shape = w.shape from z6.1.symm]; exact hq)]
  have hash : a.shape = f.shape ++ rankShape f r := by
    obtain ⟨V, hV⟩ := exists_value f hf.wf.valid
    obtain ⟨a', a1, a2, -⟩ := full_on f hf.wf hV.on hf.root
    rw [ha] at a1; cases a1; exact a2
  refine ⟨z, b, w, ?_, h6, z5, hw, ?_⟩
  · unfold rankOneCorrection
    simp only [f2]
    show ((solveStandard qr svd lin la o H (residualData y fx) order stop 1 x1).bind fun s => add f s.1) = .ok z
    rw [solve_one (z := g)]
    · exact z1
    · rw [ho, amSweep]
      simp only [h1, bind, Except.bind]
      rfl
  · unfold risk
    refine sum_congr rfl (fun k hk => sumBox_congr (fun e he => ?_))
    rw [predict_add _ _ a b w hash hw k he, hzero k e (mem_range.1 hk) he]
    ring

theorem exists_la_null : ∃ la : La, LaOk la ∧ NullOnNull la := by
  classical
  obtain ⟨la, h, -⟩ := exists_la (fun _ => false)
  refine ⟨{ la with
    solve := fun B b => if b = 0 then .ok 0 else la.solve B b
    lstsq := fun B b => if b = 0 then 0 else la.lstsq B b }, ⟨?_, ?_, ?_, h.inv_sound, h.inv_complete, h.pinv, h.qr, h.folds⟩, ?_⟩
  · intro m n B b x hx
    dsimp only at hx
    split at hx
    · rename_i hb
      cases hx
      rw [hb, Matrix.mulVec_zero]
    · exact h.solve_sound B b x hx
  · intro m n B b hm hi
    dsimp only
    split
    · exact ⟨_, rfl⟩
    · exact h.solve_complete B b hm hi
  · intro m n B b z
    dsimp only
    split
    · rename_i hb
      rw [hb, Matrix.mulVec_zero]
      simp only [Pi.zero_apply, sub_self]
      simp only [ne_eq, OfNat.ofNat_ne_zero, not_false_eq_true, zero_pow, sum_const_zero, zero_sub, even_two, Even.neg_pow]
      exact sum_nonneg (fun i _ => sq_nonneg _)
    · exact h.lstsq B b z
  · intro m n B
    refine ⟨fun x hx => ?_, by simp⟩
    simpa using hx.symm

/-- The tensor of ones of rank one, with the tree and the shape of the example `exUR`. -/
def exOne : TBT ℝ where
  tree := exTree
  tensors := fun i => match i with
    | 1 => ⟨[1, 1], fun _ => 1⟩
    | 2 => ⟨[1, 1, 1], fun _ => 1⟩
    | 3 => ⟨[3, 1], fun _ => 1⟩
    | 4 => ⟨[2, 1], fun _ => 1⟩
    | 5 => ⟨[2, 1], fun _ => 1⟩
    | _ => ⟨[0], fun _ => 0⟩

/-- The same tensor over the integers. -/
def exOneZ : TBT Int := ⟨exTree, fun i => ⟨(exOne.tensors i).shape, fun _ => 1⟩⟩

theorem exOneZ_wf : WF exOneZ := wf_of_wfB _ exTree_valid (by decide +kernel)

theorem exOne_wf : WF exOne := by
  obtain ⟨r, _, hr⟩ := root_ok exOneZ_wf.valid
  have h := exOneZ_wf.shaped hr
  exact (show Shaped exOne exOneZ.tree exOneZ.active exOneZ.lastDim exOneZ.leafSize (rankShape exOneZ r) from
    ⟨rfl, h.rho, h.nu, h.rootPos, h.rootLen, h.leaf, h.off, h.internal, h.node⟩).wf exOneZ_wf.valid exOneZ_wf.order

theorem exOne_data (y : Arr ℝ) (hy : y.shape = [4]) : AmData exOne 1 exHR y 4 := by
  have d := exUR_data
  have ho : exOne.order = exUR.order := rfl
  have hs : exOne.shape = exUR.shape := by
    show exOneZ.shape = exU.shape
    decide +kernel
  have hE : rankShape exOne 1 = [] := by
    show rankShape exOneZ 1 = []
    decide +kernel
  refine ⟨exOne_wf, ?_, d.unary, d.root, d.pos, d.length, by rw [ho, hs]; exact d.mats, by rw [hE, hy], by rw [hE]; simp⟩
  intro i hi
  have hi' : i ∈ [1, 2, 3, 4, 5] := by
    obtain ⟨h1, h2⟩ := hi
    have : exOne.tree.n = 5 := rfl
    simp only [List.mem_cons, List.not_mem_nil, or_false]
    omega
  exact (show ∀ i ∈ [1, 2, 3, 4, 5], exOneZ.active i = true by decide +kernel) i hi'

theorem exOne_compat : Compat exUR exOne := by
  refine ⟨rfl, fun i hi => ?_, ?_, fun q hq => ?_⟩
  · rw [(exOne_data ⟨[4], fun _ => 0⟩ rfl).active i hi, exUR_data.active i hi]
  · show exOneZ.shape = exU.shape
    decide +kernel
  · have : q = 1 := exTree_root hq
    subst this
    show rankShape exOneZ 1 = rankShape exU 1
    decide +kernel

/-- The entries of the tensor of ones. -/
theorem exOne_full : ∃ b, full exOne = .ok b ∧ ∀ idx, InBox exOne.shape idx → b.get idx = 1 := by
  obtain ⟨V, hV⟩ := exists_value exOne exOne_wf.valid
  obtain ⟨b, b1, -, b3⟩ := full_on exOne exOne_wf hV.on (r := 1) (by decide +kernel)
  refine ⟨b, b1, fun idx hi => ?_⟩
  have hE : rankShape exOne 1 = [] := by
    show rankShape exOneZ 1 = []
    decide +kernel
  have h := b3 idx [] hi (by rw [hE]; exact .nil)
  rw [List.append_nil] at h
  rw [h]
  have act : ∀ i ∈ [1, 2, 3, 4, 5], exOne.active i = true := (show ∀ i ∈ [1, 2, 3, 4, 5], exOneZ.active i = true by decide +kernel)
  have ld : ∀ i ∈ [2, 3, 4, 5], exOne.lastDim i = 1 := (show ∀ i ∈ [2, 3, 4, 5], exOneZ.lastDim i = 1 by decide +kernel)
  have c1 : exOne.tree.children 1 = [2, 5] := by decide +kernel
  have c2 : exOne.tree.children 2 = [3, 4] := by decide +kernel
  have l3 : V 3 idx [0] = 1 := by rw [hV.leaf 3 (by decide +kernel) (act 3 (by simp))]; rfl
  have l4 : V 4 idx [0] = 1 := by rw [hV.leaf 4 (by decide +kernel) (act 4 (by simp))]; rfl
  have l5 : V 5 idx [0] = 1 := by rw [hV.leaf 5 (by decide +kernel) (act 5 (by simp))]; rfl
  have l2 : V 2 idx [0] = 1 := by
    rw [hV.node 2 ⟨by decide, by decide⟩ (by decide +kernel), c2]
    simp only [childSum, act 3 (by simp), act 4 (by simp), ld 3 (by simp), ld 4 (by simp), if_true, sum_range_one, l3, l4]
    show (1 : ℝ) * (1 * 1) = 1
    norm_num
  rw [hV.node 1 ⟨by decide, by decide⟩ (by decide +kernel), c1]
  simp only [childSum, act 2 (by simp), act 5 (by simp), ld 2 (by simp), ld 5 (by simp), if_true, sum_range_one, l2, l5]
  show (1 : ℝ) * (1 * 1) = 1
  norm_num

/-- C217. The rank-one correction of an interpolant can increase the training risk: for the function `exUR`, that fits the data exactly, with
the tensor of ones as initial function, the risk of the corrected function is positive. -/
theorem rankOneCorrection_increases : ∃ (y : Arr ℝ) (a : Arr ℝ), AmData exUR 1 exHR y 4 ∧ full exUR = .ok a ∧
    risk exUR.shape (rankShape exUR 1) exHR y a 4 = 0 ∧
    ∀ (qr : Arr ℝ → Arr ℝ × Arr ℝ) (svd : Svd) (lin : LinAlg) (la : La) (o : Opts) (stop : Nat → TBT ℝ → TBT ℝ → Bool),
      FullTensor.QROk qr → SvdOk svd → LinAlgOk lin → LaOk la → NullOnNull la →
      ∃ z w, rankOneCorrection qr svd lin la o exHR y (fun _ => [1, 2, 5, 3, 4]) stop exOne (some exUR) = .ok z ∧ full z = .ok w ∧
        0 < risk exUR.shape (rankShape exUR 1) exHR y w 4 := by
  have d := exUR_data
  obtain ⟨a, fx, f1, -, -⟩ := predict_eval exUR exUR_wf 1 d.root exHR 4 d.length d.mats
  have hE : rankShape exUR 1 = [] := by
    show rankShape exU 1 = []
    decide +kernel
  have hs : exUR.shape = [3, 2, 2] := by
    show exU.shape = _
    decide +kernel
  let y : Arr ℝ := ⟨[4], fun q => predict exUR.shape exHR a (q.getD 0 0) []⟩
  have hy : AmData exUR 1 exHR y 4 := ⟨d.wf, d.active, d.unary, d.root, d.pos, d.length, d.mats, by rw [hE], d.axis⟩
  have h0 : risk exUR.shape (rankShape exUR 1) exHR y a 4 = 0 := by
    rw [hE]
    unfold risk
    refine sum_eq_zero (fun k _ => ?_)
    show (predict exUR.shape exHR a k [] - predict exUR.shape exHR a k []) ^ 2 = 0
    rw [sub_self]; norm_num
  refine ⟨y, a, hy, f1, h0, fun qr svd lin la o stop hqr hsv hlin hla hz => ?_⟩
  obtain ⟨z, b, w, z1, z2, z3, -, z5⟩ := rankOneCorrection_interpolant (o := o) hqr hsv hlin hla hz (fun _ => [1, 2, 5, 3, 4]) stop
    (exOne_data y rfl) hy exOne_compat 1 [2, 5, 3, 4] rfl ⟨by decide, by decide⟩ f1 h0
  refine ⟨z, w, z1, z3, ?_⟩
  rw [z5, hE]
  obtain ⟨b', q1, q2⟩ := exOne_full
  rw [z2] at q1; cases q1
  have hp : predict exUR.shape exHR b 1 [] = 6 := by
    have : exOne.shape = exUR.shape := exOne_compat.shape
    have e1 : predict exUR.shape exHR b 1 [] =
        sumBox exUR.shape (fun idx => (List.zipWith (fun (M : Arr ℝ) j => M.get [1, j]) exHR idx).prod) := by
      unfold predict
      apply sumBox_congr
      intro idx hi
      rw [List.append_nil, q2 idx (by rw [this]; exact hi), one_mul]
    rw [e1, hs]
    simp [sumBox, exHR, sum_range_succ]
    norm_num
  refine lt_of_lt_of_le ?_ (single_le_sum (f := fun k => sumBox [] (fun e => predict exUR.shape exHR b k e ^ 2)) (fun k _ => ?_)
    (mem_range.2 (show 1 < 4 by decide)))
  · show 0 < predict exUR.shape exHR b 1 [] ^ 2
    rw [hp]; norm_num
  · show 0 ≤ predict exUR.shape exHR b k [] ^ 2
    exact sq_nonneg _

/-- The hypotheses of C217 are met: a tensor of order 3 with 5 nodes, the tensor of ones, 4 points. -/
example : ∃ (qr : Arr ℝ → Arr ℝ × Arr ℝ) (svd : Svd) (lin : LinAlg) (la : La), FullTensor.QROk qr ∧ SvdOk svd ∧ LinAlgOk lin ∧
    LaOk la ∧ NullOnNull la ∧ AmData exUR 1 exHR ⟨[4], fun i => i.sum⟩ 4 ∧ AmData exOne 1 exHR ⟨[4], fun i => i.sum⟩ 4 ∧ Compat exUR exOne ∧
    ∀ j ∈ [1, 2, 5, 3, 4], IsNode exOne.tree j := by
  obtain ⟨qr, h1⟩ := FullTensor.exists_qr
  obtain ⟨svd, h2⟩ := exists_svd
  obtain ⟨lin, h3⟩ := exists_linAlg
  obtain ⟨la, h4, h5⟩ := exists_la_null
  refine ⟨qr, svd, lin, la, h1, h2, h3, h4, h5, exUR_data, exOne_data _ rfl, exOne_compat, fun j hj => ?_⟩
  exact (mem_nodes j).1 ((show ∀ j ∈ [1, 2, 5, 3, 4], j ∈ exTree.nodes by decide +kernel) j hj)

end Verif.TreeBased
