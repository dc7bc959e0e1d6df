import Verif.Props.ParamGradient
import Verif.Props.OrthAtNode
import Verif.Props.LeastSquares
import Verif.Props.BasisAdaptation
import Verif.Props.LeastSquaresExists
import Verif.Props.TreeOrthWitness
import Verif.Lemmas.HsvdDense
import Verif.Model.AlternatingMinimization

/-! Alternating minimization with the square loss. -/

namespace Verif
namespace TreeBased

open Arr DimTree Finset Truncation LeastSquares

theorem olsArr_fit {la : La} (hla : LaOk la) (o : Opts) (A : Arr ℝ) {N P : Nat} (hA : A.shape = [N, P]) (y c : Nat → ℝ) :
    ∑ i ∈ range N, (y i - ∑ p ∈ range P, A.get [i, p] * olsArr la o A y p) ^ 2 ≤
      ∑ i ∈ range N, (y i - ∑ p ∈ range P, A.get [i, p] * c p) ^ 2 := by
  have h0 : A.shape.getD 0 0 = N := by rw [hA]; rfl
  have h1 : A.shape.getD 1 0 = P := by rw [hA]; rfl
  unfold olsArr
  rw [h0, h1]
  have hn := olsFit_normal hla o (Matrix.of fun (i : Fin N) (p : Fin P) => A.get [i.val, p.val]) (fun i => y i.val)
  rw [← isFit_univ] at hn
  have := hn.2 (fun p => c p.val) (by simp)
  unfold rss LeastSquares.residual at this
  simp only [sum_range]
  simpa using this

theorem nodeCoef_fit {la : La} (hla : LaOk la) (o : Opts) (g y : Arr ℝ) (n : Nat) (s E : List Nat) (hn : 0 < n) (hE : 0 < E.prod)
    (hg : g.shape = n :: (s ++ E)) (hy : y.shape = n :: E) :
    (nodeCoef la o g y E.prod).shape = [s.prod] ∧ ∀ c : Nat → ℝ,
      ∑ k ∈ range n, sumBox E (fun e => (y.get (k :: e) - ∑ p ∈ range s.prod, g.get (k :: (unravelF s p ++ e)) *
        (nodeCoef la o g y E.prod).get [p]) ^ 2) ≤
      ∑ k ∈ range n, sumBox E (fun e => (y.get (k :: e) - ∑ p ∈ range s.prod, g.get (k :: (unravelF s p ++ e)) * c p) ^ 2) := by
  have h0 : g.shape.getD 0 0 = n := by rw [hg]; rfl
  have hP : g.shape.prod / (n * E.prod) = s.prod := by
    rw [hg, List.prod_cons, List.prod_append, Nat.mul_left_comm, ← mul_assoc, mul_comm s.prod n, mul_assoc, mul_comm s.prod, ← mul_assoc]
    exact Nat.mul_div_cancel_left _ (Nat.mul_pos hn hE)
  unfold nodeCoef
  simp only [h0, hP]
  refine ⟨trivial, fun c => ?_⟩
  generalize hA : reshapeF ((reshapeF g [n, s.prod, E.prod]).transpose [0, 2, 1]) [n * E.prod, s.prod] = A
  have hAs : A.shape = [n * E.prod, s.prod] := by rw [← hA]; rfl
  have hent : ∀ k e p, k < n → InBox E e → p < s.prod → A.get [k + n * ravelF E e, p] = g.get (k :: (unravelF s p ++ e)) := by
    intro k e p hk he hp
    have hj := ravelF_lt he
    rw [← hA]
    show g.get (unravelF g.shape (ravelF [n, s.prod, E.prod] (applyPerm (invPerm [0, 2, 1])
      (unravelF (applyPerm [0, 2, 1] [n, s.prod, E.prod]) (ravelF [n * E.prod, s.prod] [k + n * ravelF E e, p]))))) = _
    have e1 : applyPerm [0, 2, 1] [n, s.prod, E.prod] = [n, E.prod, s.prod] := rfl
    have e2 : ravelF [n * E.prod, s.prod] [k + n * ravelF E e, p] = ravelF [n, E.prod, s.prod] [k, ravelF E e, p] := by
      simp only [ravelF]; ring
    have e3 : InBox [n, E.prod, s.prod] [k, ravelF E e, p] := .cons hk (.cons hj (.cons hp .nil))
    rw [e1, e2, unravelF_ravelF e3]
    have e4 : applyPerm (invPerm [0, 2, 1]) [k, ravelF E e, p] = [k, p, ravelF E e] := rfl
    have hb : InBox s (unravelF s p) := unravelF_inBox hp
    have e5 : InBox g.shape (k :: (unravelF s p ++ e)) := by
      rw [hg]; exact .cons hk ((inBox_append hb.length_eq).2 ⟨hb, he⟩)
    rw [e4]
    have e6 : ravelF [n, s.prod, E.prod] [k, p, ravelF E e] = ravelF g.shape (k :: (unravelF s p ++ e)) := by
      rw [hg]
      simp only [ravelF]
      rw [ravelF_append hb.length_eq, ravelF_unravelF hp]
      ring
    rw [e6, unravelF_ravelF e5]
  have hyv : ∀ k e, k < n → InBox E e → (reshapeF y [n * E.prod]).get [k + n * ravelF E e] = y.get (k :: e) := by
    intro k e hk he
    show y.get (unravelF y.shape (ravelF [n * E.prod] [k + n * ravelF E e])) = _
    have e1 : ravelF [n * E.prod] [k + n * ravelF E e] = ravelF y.shape (k :: e) := by
      rw [hy]; simp only [ravelF]; ring
    rw [e1, unravelF_ravelF (by rw [hy]; exact .cons hk he)]
  have hsum : ∀ d : Nat → ℝ, ∑ i ∈ range (n * E.prod), ((reshapeF y [n * E.prod]).get [i] - ∑ p ∈ range s.prod, A.get [i, p] * d p) ^ 2 =
      ∑ k ∈ range n, sumBox E (fun e => (y.get (k :: e) - ∑ p ∈ range s.prod, g.get (k :: (unravelF s p ++ e)) * d p) ^ 2) := by
    intro d
    have := sumBox_ravel (s := n :: E) (fun i => ((reshapeF y [n * E.prod]).get [i] - ∑ p ∈ range s.prod, A.get [i, p] * d p) ^ 2)
    rw [List.prod_cons] at this
    rw [← this, sumBox]
    refine sum_congr rfl (fun k hk => ?_)
    apply sumBox_congr
    intro e he
    have hk := mem_range.1 hk
    simp only [ravelF]
    rw [hyv k e hk he]
    congr 2
    refine sum_congr rfl (fun p hp => ?_)
    rw [hent k e p hk he (mem_range.1 hp)]
  have := olsArr_fit hla o A hAs (fun k => (reshapeF y [n * E.prod]).get [k]) c
  rw [hsum, hsum] at this
  exact this

theorem rootCoef_fit {la : La} (hla : LaOk la) (o : Opts) (g y : Arr ℝ) (n : Nat) (s E : List Nat) (hn : 0 < n)
    (hE1 : E.length ≤ 1) (hg : g.shape = n :: s) (hy : y.shape = n :: E) :
    (rootCoef la o g y E.prod).shape = [s.prod, E.prod] ∧ ∀ c : Nat → List Nat → ℝ,
      ∑ k ∈ range n, sumBox E (fun e => (y.get (k :: e) - ∑ p ∈ range s.prod, g.get (k :: unravelF s p) *
        (rootCoef la o g y E.prod).get [p, ravelF E e]) ^ 2) ≤
      ∑ k ∈ range n, sumBox E (fun e => (y.get (k :: e) - ∑ p ∈ range s.prod, g.get (k :: unravelF s p) * c p e) ^ 2) := by
  have h0 : g.shape.getD 0 0 = n := by rw [hg]; rfl
  have hP : g.shape.prod / n = s.prod := by
    rw [hg, List.prod_cons]
    exact Nat.mul_div_cancel_left _ hn
  unfold rootCoef
  simp only [h0, hP]
  refine ⟨trivial, fun c => ?_⟩
  generalize hA : reshapeF g [n, s.prod] = A
  have hAs : A.shape = [n, s.prod] := by rw [← hA]; rfl
  have hent : ∀ k p, k < n → p < s.prod → A.get [k, p] = g.get (k :: unravelF s p) := by
    intro k p hk hp
    rw [← hA]
    show g.get (unravelF g.shape (ravelF [n, s.prod] [k, p])) = _
    have hb : InBox s (unravelF s p) := unravelF_inBox hp
    have e6 : ravelF [n, s.prod] [k, p] = ravelF g.shape (k :: unravelF s p) := by
      rw [hg]
      simp only [ravelF]
      rw [ravelF_unravelF hp]
      ring
    rw [e6, unravelF_ravelF (by rw [hg]; exact .cons hk hb)]
  have hcol : ∀ e, InBox E e → ∀ k, yCol y (ravelF E e) k = y.get (k :: e) := by
    intro e he k
    unfold yCol
    match E, hE1, hy, he with
    | [], _, hy, he =>
      have : e = [] := by simpa using he.length_eq
      rw [if_pos (by simp [Arr.order, hy]), this]
    | [m], _, hy, he =>
      obtain ⟨j, rfl, _⟩ := inBox_single he
      rw [if_neg (by simp [Arr.order, hy])]
      simp [ravelF]
  rw [sum_sumBox_comm, sum_sumBox_comm]
  simp only [sumBox_eq_sum]
  refine sum_le_sum (fun e he => ?_)
  have he : InBox E e := (mem_box _ _).1 he
  have := olsArr_fit hla o A hAs (yCol y (ravelF E e)) (fun p => c p e)
  refine le_trans (le_of_eq ?_) (this.trans (le_of_eq ?_))
  · refine sum_congr rfl (fun k hk => ?_)
    rw [hcol e he]
    congr 2
    refine sum_congr rfl (fun p hp => ?_)
    rw [hent k p (mem_range.1 hk) (mem_range.1 hp)]
    rfl
  · refine sum_congr rfl (fun k hk => ?_)
    rw [hcol e he]
    congr 2
    refine sum_congr rfl (fun p hp => ?_)
    rw [hent k p (mem_range.1 hk) (mem_range.1 hp)]

/-- `coef` as computed in one step. -/
noncomputable def stepCoef (la : La) (o : Opts) (g y : Arr ℝ) (r mu out : Nat) : Arr ℝ :=
  if mu = r then rootCoef la o g y out else nodeCoef la o g y out

theorem setParameter_sameOff (z : TBT ℝ) (mu : Nat) (coef : Arr ℝ) : SameOff z (setParameter z mu coef) mu :=
  ⟨rfl, fun j hj => by simp [setParameter, upd, hj], by simp [setParameter, upd, reshapeF]⟩

theorem rank_root_prod {x : TBT ℝ} (hx : WF x) {r : Nat} (hroot : IsRoot x.tree r) : x.rank r = (rankShape x r).prod := by
  rw [rank_root_eq hx r hroot]
  have hlen := (hx.node r hroot.1 (hx.root_internal hroot)).2.2.1
  match hE : rankShape x r, hlen with
  | [], _ => rfl
  | [m], _ => simp

/-- The new parameter is optimal: no other tensor at node `mu` gives a smaller sum of squared errors. -/
theorem step_optimal {la : La} (hla : LaOk la) (o : Opts) (z : TBT ℝ) (hz : WF z) (ha : AllActive z) (hu : NoUnary z.tree) (r : Nat)
    (hr : z.tree.root = .ok r) (H : List (Arr ℝ)) (y : Arr ℝ) (n : Nat) (hn : 0 < n) (hlen : H.length = z.order)
    (hH : ∀ d, d < z.order → (H.getD d ⟨[], fun _ => 0⟩).shape = [n, z.shape.getD d 0]) (hy : y.shape = n :: rankShape z r)
    (hE : rankShape z r ≠ [1]) (mu : Nat) (hmu : IsNode z.tree mu) :
    ∃ g ac, paramGradEval z mu H = .ok g ∧ full (setParameter z mu (stepCoef la o g y r mu (z.rank r))) = .ok ac ∧
      (∀ x' a', SameOff z x' mu → full x' = .ok a' →
        risk z.shape (rankShape z r) H y ac n ≤ risk z.shape (rankShape z r) H y a' n) ∧
      ((∀ q, InBox (stepCoef la o g y r mu (z.rank r)).shape q → (stepCoef la o g y r mu (z.rank r)).get q = 0) →
        risk z.shape (rankShape z r) H y ac n = ∑ k ∈ range n, sumBox (rankShape z r) (fun e => y.get (k :: e) ^ 2)) := by
  obtain ⟨r', hr', hroot⟩ := root_ok hz.valid
  rw [hr] at hr'; cases hr'
  have hrk := rank_root_prod hz hroot
  have hrl := hz.root_internal hroot
  obtain ⟨hract, hrsh, hElen, -⟩ := hz.node r hroot.1 hrl
  have hfull : ∀ x', SameOff z x' mu → ∃ a', full x' = .ok a' := by
    intro x' hx'
    obtain ⟨V, hV⟩ := exists_value x' (hx'.wf hz).valid
    obtain ⟨a, a1, -⟩ := full_on x' (hx'.wf hz) hV.on (r := r) (by rw [hx'.tree]; exact hr)
    exact ⟨a, a1⟩
  have hEpos : 0 < (rankShape z r).prod := by
    unfold TBT.active at hract
    rw [hrsh] at hract
    simp only [List.prod_append, bne_iff_ne, ne_eq, mul_eq_zero, not_or] at hract
    exact Nat.pos_of_ne_zero hract.2
  by_cases hmr : mu = r
  · subst hmr
    obtain ⟨g, g1, g2, g3⟩ := paramGradEval_root_partial z hz ha hu mu hr H n hn hlen hH
    obtain ⟨c1, c2⟩ := rootCoef_fit hla o g y n ((z.tree.children mu).map z.lastDim) (rankShape z mu) hn hElen g2 hy
    have hco : stepCoef la o g y mu mu (z.rank mu) = rootCoef la o g y (rankShape z mu).prod := by
      unfold stepCoef; rw [if_pos rfl, hrk]
    have hsh : (z.tensors mu).shape = (z.tree.children mu).map z.lastDim ++ rankShape z mu := by
      rw [hrsh, childSizes_active ha hmu]
    refine ⟨g, ?_⟩
    rw [hco]
    generalize rootCoef la o g y (rankShape z mu).prod = coef at c1 c2
    have hso := setParameter_sameOff z mu coef
    obtain ⟨ac, hac⟩ := hfull _ hso
    have hrisk : ∀ x' a', SameOff z x' mu → full x' = .ok a' → risk z.shape (rankShape z mu) H y a' n =
        ∑ k ∈ range n, sumBox (rankShape z mu) (fun e => (y.get (k :: e) - ∑ p ∈ range ((z.tree.children mu).map z.lastDim).prod,
          g.get (k :: unravelF ((z.tree.children mu).map z.lastDim) p) *
            (x'.tensors mu).get (unravelF ((z.tree.children mu).map z.lastDim) p ++ e)) ^ 2) := by
      intro x' a' hx' ha'
      unfold risk
      refine sum_congr rfl (fun k hk => sumBox_congr (fun e he => ?_))
      rw [g3 x' a' hx' ha' k e (mem_range.1 hk) he, sumBox_eq_linearF]
    have hT : ∀ p e, p < ((z.tree.children mu).map z.lastDim).prod → InBox (rankShape z mu) e →
        ((setParameter z mu coef).tensors mu).get (unravelF ((z.tree.children mu).map z.lastDim) p ++ e) =
          coef.get [p, ravelF (rankShape z mu) e] := by
      intro p e hp he
      have : (setParameter z mu coef).tensors mu = reshapeF coef (z.tensors mu).shape := by simp [setParameter, upd]
      rw [this]
      show coef.get (unravelF coef.shape (ravelF (z.tensors mu).shape _)) = _
      rw [c1, hsh, ravelF_append (unravelF_inBox hp).length_eq, ravelF_unravelF hp, unravelF_pair hp (ravelF_lt he)]
    have hrc : risk z.shape (rankShape z mu) H y ac n =
        ∑ k ∈ range n, sumBox (rankShape z mu) (fun e => (y.get (k :: e) - ∑ p ∈ range ((z.tree.children mu).map z.lastDim).prod,
          g.get (k :: unravelF ((z.tree.children mu).map z.lastDim) p) * coef.get [p, ravelF (rankShape z mu) e]) ^ 2) := by
      rw [hrisk _ ac hso hac]
      refine sum_congr rfl (fun k hk => sumBox_congr (fun e he => ?_))
      congr 2
      exact sum_congr rfl (fun p hp => by rw [hT p e (mem_range.1 hp) he])
    refine ⟨ac, g1, hac, ?_, ?_⟩
    · intro x' a' hx' ha'
      rw [hrisk x' a' hx' ha', hrc]
      exact c2 (fun p e => (x'.tensors mu).get (unravelF ((z.tree.children mu).map z.lastDim) p ++ e))
    · intro h0
      rw [hrc]
      refine sum_congr rfl (fun k hk => sumBox_congr (fun e he => ?_))
      congr 1
      rw [sum_eq_zero, sub_zero]
      intro p hp
      rw [h0 [p, ravelF (rankShape z mu) e], mul_zero]
      rw [c1]
      exact .cons (mem_range.1 hp) (.cons (ravelF_lt he) .nil)
  · obtain ⟨g, g1, g2, g3⟩ := paramGradEval_node_partial z hz ha hu r hr H n hn hlen hH mu hmu hmr (.inr hE)
    obtain ⟨c1, c2⟩ := nodeCoef_fit hla o g y n (z.tensors mu).shape (rankShape z r) hn hEpos g2 hy
    have hco : stepCoef la o g y r mu (z.rank r) = nodeCoef la o g y (rankShape z r).prod := by
      unfold stepCoef; rw [if_neg hmr, hrk]
    refine ⟨g, ?_⟩
    rw [hco]
    generalize nodeCoef la o g y (rankShape z r).prod = coef at c1 c2
    have hso := setParameter_sameOff z mu coef
    obtain ⟨ac, hac⟩ := hfull _ hso
    have hrisk : ∀ x' a', SameOff z x' mu → full x' = .ok a' → risk z.shape (rankShape z r) H y a' n =
        ∑ k ∈ range n, sumBox (rankShape z r) (fun e => (y.get (k :: e) - ∑ p ∈ range (z.tensors mu).shape.prod,
          g.get (k :: (unravelF (z.tensors mu).shape p ++ e)) * (x'.tensors mu).get (unravelF (z.tensors mu).shape p)) ^ 2) := by
      intro x' a' hx' ha'
      unfold risk
      refine sum_congr rfl (fun k hk => sumBox_congr (fun e he => ?_))
      rw [g3 x' a' hx' ha' k e (mem_range.1 hk) he, sumBox_eq_linearF]
    have hT : ∀ p, p < (z.tensors mu).shape.prod →
        ((setParameter z mu coef).tensors mu).get (unravelF (z.tensors mu).shape p) = coef.get [p] := by
      intro p hp
      have : (setParameter z mu coef).tensors mu = reshapeF coef (z.tensors mu).shape := by simp [setParameter, upd]
      rw [this]
      show coef.get (unravelF coef.shape (ravelF (z.tensors mu).shape _)) = _
      rw [c1, ravelF_unravelF hp]
      simp [unravelF, Nat.mod_eq_of_lt hp]
    have hrc : risk z.shape (rankShape z r) H y ac n =
        ∑ k ∈ range n, sumBox (rankShape z r) (fun e => (y.get (k :: e) - ∑ p ∈ range (z.tensors mu).shape.prod,
          g.get (k :: (unravelF (z.tensors mu).shape p ++ e)) * coef.get [p]) ^ 2) := by
      rw [hrisk _ ac hso hac]
      refine sum_congr rfl (fun k hk => sumBox_congr (fun e he => ?_))
      congr 2
      exact sum_congr rfl (fun p hp => by rw [hT p (mem_range.1 hp)])
    refine ⟨ac, g1, hac, ?_, ?_⟩
    · intro x' a' hx' ha'
      rw [hrisk x' a' hx' ha', hrc]
      exact c2 (fun p => (x'.tensors mu).get (unravelF (z.tensors mu).shape p))
    · intro h0
      rw [hrc]
      refine sum_congr rfl (fun k hk => sumBox_congr (fun e he => ?_))
      congr 1
      rw [sum_eq_zero, sub_zero]
      intro p hp
      rw [h0 [p], mul_zero]
      rw [c1]
      exact .cons (mem_range.1 hp) .nil

/-- The orthogonalisation at a node, when all the nodes are active. -/
theorem orthAt_ok {qr : Arr ℝ → Arr ℝ × Arr ℝ} (hqr : FullTensor.QROk qr) {svd : Svd} (hsv : SvdOk svd) {lin : LinAlg}
    (hlin : LinAlgOk lin) (x : TBT ℝ) (hx : WF x) (ha : AllActive x) (r : Nat) (hr : x.tree.root = .ok r) (mu : Nat)
    (hmu : IsNode x.tree mu) :
    ∃ z a b, orthAtNode qr svd lin x mu = .ok z ∧ WF z ∧ AllActive z ∧ z.tree = x.tree ∧ z.shape = x.shape ∧
      rankShape z r = rankShape x r ∧ full x = .ok a ∧ full z = .ok b ∧ b ≃ₐ a := by
  obtain ⟨r', hr', hroot⟩ := root_ok hx.valid
  rw [hr] at hr'; cases hr'
  by_cases hmr : mu = r
  · subst hmr
    obtain ⟨z, z1, z2, z3, z4, z5, z6, -, -, a, b, h1, h2, h3⟩ := orth_full qr hqr x hx
    refine ⟨z, a, b, by rw [(orthAtNode_other qr svd lin x mu hr).1, z1], z2, ?_, z3, z4, z6 mu hroot, h1, h2, h3⟩
    intro i hi
    rw [z3] at hi
    rw [z5 i hi]; exact ha i hi
  · have hm : mu ∈ activeNodes x r := (mem_activeNodes hx.valid hroot mu).2
      ⟨hmu, fun h => hmr (root_unique hx.valid h hroot), ha mu hmu⟩
    obtain ⟨z, a, b, D, z1, z2, z3, z4, z5, z6, -, h1, h2, h3, -⟩ := orthAtNode_spec qr hqr svd hsv lin hlin x hx r hr mu hm
    refine ⟨z, a, b, z1, z2, ?_, z3, z4, z6, h1, h2, h3⟩
    intro i hi
    rw [z3] at hi
    rw [z5 i hi]; exact ha i hi

theorem risk_congr {x : TBT ℝ} (hx : WF x) {r : Nat} (hr : x.tree.root = .ok r) {a b : Arr ℝ} (hf : full x = .ok a) (h : b ≃ₐ a)
    (H : List (Arr ℝ)) (y : Arr ℝ) (n : Nat) :
    risk x.shape (rankShape x r) H y b n = risk x.shape (rankShape x r) H y a n := by
  have hsh : a.shape = x.shape ++ rankShape x r := by
    obtain ⟨V, hV⟩ := exists_value x hx.valid
    obtain ⟨a', a1, a2, -⟩ := full_on x hx hV.on hr
    rw [hf] at a1; cases a1; exact a2
  unfold risk
  refine sum_congr rfl (fun k _ => sumBox_congr (fun e he => ?_))
  congr 2
  unfold predict
  apply sumBox_congr
  intro idx hidx
  rw [h.2 (idx ++ e) (by rw [h.1, hsh]; exact (inBox_append hidx.length_eq).2 ⟨hidx, he⟩)]

/-- The data of the regression are compatible with the function `x`: all its nodes are active, no node has an only child, the
root has no output axis of size one; `H` contains the values of the bases at `n` points and `y` the observations. -/
structure AmData (x : TBT ℝ) (r : Nat) (H : List (Arr ℝ)) (y : Arr ℝ) (n : Nat) : Prop where
  wf : WF x
  active : AllActive x
  unary : NoUnary x.tree
  root : x.tree.root = .ok r
  pos : 0 < n
  length : H.length = x.order
  mats : ∀ d, d < x.order → (H.getD d ⟨[], fun _ => 0⟩).shape = [n, x.shape.getD d 0]
  obs : y.shape = n :: rankShape x r
  axis : rankShape x r ≠ [1]

theorem AmData.congr {x z : TBT ℝ} {r : Nat} {H : List (Arr ℝ)} {y : Arr ℝ} {n : Nat} (h : AmData x r H y n) (hz : WF z)
    (ha : AllActive z) (ht : z.tree = x.tree) (hs : z.shape = x.shape) (hE : rankShape z r = rankShape x r) : AmData z r H y n := by
  have ho : z.order = x.order := by unfold TBT.order; rw [ht]
  exact ⟨hz, ha, by rw [ht]; exact h.unary, by rw [ht]; exact h.root, h.pos, by rw [ho]; exact h.length,
    by rw [ho, hs]; exact h.mats, by rw [hE]; exact h.obs, by rw [hE]; exact h.axis⟩

section am

variable {qr : Arr ℝ → Arr ℝ × Arr ℝ} (hqr : FullTensor.QROk qr) {svd : Svd} (hsv : SvdOk svd) {lin : LinAlg}
  (hlin : LinAlgOk lin) {la : La} (hla : LaOk la) (o : Opts) {H : List (Arr ℝ)} {y : Arr ℝ} {n r : Nat}

include hqr hsv hlin hla in
/-- C105. One step of the alternating minimization at node `mu` never fails. It keeps the tree, the shape and the well-formedness of
the function and does not increase the sum of the squared errors. If the loop goes on, the function obtained has the smallest sum of
squared errors among all the functions which differ from it by the tensor of node `mu`. If the loop is left (null solution), the function is
unchanged (up to orthogonalisation), and no tensor at node `mu` is better than the null one. -/
theorem amStep_spec {x : TBT ℝ} (hx : AmData x r H y n) {mu : Nat} (hmu : IsNode x.tree mu) :
    ∃ x' b a a', amStep qr svd lin la o H y x mu = .ok (x', b) ∧ AmData x' r H y n ∧ x'.tree = x.tree ∧ x'.shape = x.shape ∧
      rankShape x' r = rankShape x r ∧ full x = .ok a ∧ full x' = .ok a' ∧
      risk x.shape (rankShape x r) H y a' n ≤ risk x.shape (rankShape x r) H y a n ∧
      (b = false → ∀ x'' a'', SameOff x' x'' mu → full x'' = .ok a'' →
        risk x.shape (rankShape x r) H y a' n ≤ risk x.shape (rankShape x r) H y a'' n) ∧
      (b = true → a' ≃ₐ a ∧ ∀ x'' a'', SameOff x' x'' mu → full x'' = .ok a'' →
        ∑ k ∈ range n, sumBox (rankShape x r) (fun e => y.get (k :: e) ^ 2) ≤ risk x.shape (rankShape x r) H y a'' n) := by
  obtain ⟨z, a, b, z1, z2, z3, z4, z5, z6, f1, f2, f3⟩ := orthAt_ok hqr hsv hlin x hx.wf hx.active r hx.root mu hmu
  have hz : AmData z r H y n := hx.congr z2 z3 z4 z5 z6
  obtain ⟨g, ac, g1, g2, g3, g4⟩ := step_optimal hla o z hz.wf hz.active hz.unary r hz.root H y n hz.pos hz.length hz.mats hz.obs
    hz.axis mu (by rw [z4]; exact hmu)
  have hrb : risk x.shape (rankShape x r) H y b n = risk x.shape (rankShape x r) H y a n := risk_congr hx.wf hx.root f1 f3 H y n
  rw [z5, z6] at g3 g4
  have hself : SameOff z z mu := ⟨rfl, fun _ _ => rfl, rfl⟩
  have hso := setParameter_sameOff z mu (stepCoef la o g y r mu (z.rank r))
  by_cases h0 : ∀ q, InBox (stepCoef la o g y r mu (z.rank r)).shape q → (stepCoef la o g y r mu (z.rank r)).get q = 0
  · refine ⟨z, true, a, b, ?_, hz, z4, z5, z6, f1, f2, le_of_eq hrb, by simp, fun _ => ⟨f3, fun x'' a'' hs hf => ?_⟩⟩
    · unfold amStep
      simp only [hx.root, z1, g1, bind, Except.bind]
      unfold stepCoef at h0
      rw [if_pos h0]
    · rw [← g4 h0]
      exact g3 x'' a'' hs hf
  · refine ⟨setParameter z mu (stepCoef la o g y r mu (z.rank r)), false, a, ac, ?_,
      hz.congr (hso.wf hz.wf) (hso.allActive hz.active) hso.tree hso.shapeEq (hso.rankShape r), by rw [hso.tree, z4], by rw [hso.shapeEq, z5],
      by rw [hso.rankShape, z6], f1, g2, (g3 z b hself f2).trans (le_of_eq hrb), fun _ x'' a'' hs hf => ?_, by simp⟩
    · unfold amStep
      simp only [hx.root, z1, g1, bind, Except.bind]
      unfold stepCoef at h0 ⊢
      rw [if_neg h0]
    · refine g3 x'' a'' ⟨hs.tree.trans hso.tree, fun j hj => (hs.off j hj).trans (hso.off j hj), hs.shape.trans hso.shape⟩ hf

include hqr hsv hlin hla in
/-- A sweep over any list of nodes. -/
theorem amSweep_spec (l : List Nat) {x : TBT ℝ} (hx : AmData x r H y n) (hl : ∀ mu ∈ l, IsNode x.tree mu) :
    ∃ x' a a', amSweep qr svd lin la o H y l x = .ok x' ∧ AmData x' r H y n ∧ x'.tree = x.tree ∧ x'.shape = x.shape ∧
      rankShape x' r = rankShape x r ∧ full x = .ok a ∧ full x' = .ok a' ∧
      risk x.shape (rankShape x r) H y a' n ≤ risk x.shape (rankShape x r) H y a n := by
  induction l generalizing x with
  | nil =>
    obtain ⟨V, hV⟩ := exists_value x hx.wf.valid
    obtain ⟨a, a1, -⟩ := full_on x hx.wf hV.on hx.root
    exact ⟨x, a, a, rfl, hx, rfl, rfl, rfl, a1, a1, le_refl _⟩
  | cons mu l ih =>
    obtain ⟨z, b, a, a1, h1, h2, h3, h4, h5, h6, h7, h8, -, -⟩ := amStep_spec hqr hsv hlin hla o hx (hl mu (by simp))
    cases b with
    | true =>
      refine ⟨z, a, a1, ?_, h2, h3, h4, h5, h6, h7, h8⟩
      rw [amSweep]
      simp only [h1, bind, Except.bind]
      rfl
    | false =>
      obtain ⟨x', a2, a', q1, q2, q3, q4, q5, q6, q7, q8⟩ := ih h2 (fun m hm => by rw [h3]; exact hl m (by simp [hm]))
      rw [h7] at q6; cases q6
      rw [h4, h5] at q8
      refine ⟨x', a, a', ?_, q2, q3.trans h3, q4.trans h4, q5.trans h5, h6, q7, q8.trans h8⟩
      rw [amSweep]
      simp only [h1, bind, Except.bind]
      exact q1

include hqr hsv hlin hla in
theorem amLoop_spec (order : Nat → List Nat) (stop : Nat → TBT ℝ → TBT ℝ → Bool) (num it : Nat) {x : TBT ℝ} (hx : AmData x r H y n)
    (ho : ∀ i, ∀ mu ∈ order i, IsNode x.tree mu) :
    ∃ l, amLoop qr svd lin la o H y order stop num it x = .ok l ∧ l.length ≤ num ∧ (0 < num → l ≠ []) ∧
      (∀ z ∈ l, AmData z r H y n ∧ z.tree = x.tree ∧ z.shape = x.shape ∧ rankShape z r = rankShape x r) ∧
      List.Pairwise (fun u v => ∃ a b, full u = .ok a ∧ full v = .ok b ∧
        risk x.shape (rankShape x r) H y b n ≤ risk x.shape (rankShape x r) H y a n) (x :: l) := by
  induction num generalizing x it with
  | zero => exact ⟨[], rfl, by simp, by simp, by simp, by simp⟩
  | succ num ih =>
    obtain ⟨z, a, a', z1, z2, z3, z4, z5, z6, z7, z8⟩ := amSweep_spec hqr hsv hlin hla o (order it) hx (ho it)
    by_cases hs : stop it z x = true
    · refine ⟨[z], ?_, by simp, by simp, ?_, ?_⟩
      · rw [amLoop]
        simp only [z1, bind, Except.bind, hs, if_true]
      · intro w hw
        rw [List.mem_singleton] at hw
        subst hw
        exact ⟨z2, z3, z4, z5⟩
      · rw [List.pairwise_cons]
        refine ⟨fun w hw => ?_, by simp⟩
        rw [List.mem_singleton] at hw
        subst hw
        exact ⟨a, a', z6, z7, z8⟩
    · obtain ⟨l, l1, l2, l3, l4, l5⟩ := ih (it + 1) z2 (fun i mu hm => by rw [z3]; exact ho i mu hm)
      rw [z4, z5] at l5
      refine ⟨z :: l, ?_, by simpa using l2, by simp, ?_, ?_⟩
      · rw [amLoop]
        simp only [z1, bind, Except.bind, hs, if_false, l1]
        rfl
      · intro w hw
        rcases List.mem_cons.1 hw with rfl | hw
        · exact ⟨z2, z3, z4, z5⟩
        · obtain ⟨q1, q2, q3, q4⟩ := l4 w hw
          exact ⟨q1, q2.trans z3, q3.trans z4, q4.trans z5⟩
      · rw [List.pairwise_cons]
        refine ⟨fun w hw => ?_, l5⟩
        rcases List.mem_cons.1 hw with rfl | hw
        · exact ⟨a, a', z6, z7, z8⟩
        · obtain ⟨a1, b, q1, q2, q3⟩ := (List.pairwise_cons.1 l5).1 w hw
          rw [z7] at q1; cases q1
          exact ⟨a, b, z6, q2, q3.trans z8⟩

include hqr hsv hlin hla in
/-- C106. The alternating minimization never fails, for every initial function, every choice of the order of the nodes in the
iterations (random or not), every stopping test and every number of iterations. The sum of the squared errors never increases from the
initial function to the first iterate and from an iterate to a later one; the returned function is the last iterate, or the initial
function when no iteration is asked for. The tree, the shape and the output axes are unchanged. -/
theorem solveStandard_spec (order : Nat → List Nat) (stop : Nat → TBT ℝ → TBT ℝ → Bool) (maxIter : Nat) {x : TBT ℝ}
    (hx : AmData x r H y n) (ho : ∀ i, ∀ mu ∈ order i, IsNode x.tree mu) :
    ∃ f l a b, solveStandard qr svd lin la o H y order stop maxIter x = .ok (f, l) ∧ l.length ≤ maxIter ∧
      (maxIter = 0 → f = x) ∧ (0 < maxIter → ∃ h : l ≠ [], f = l.getLast h) ∧
      (∀ z ∈ f :: l, WF z ∧ z.tree = x.tree ∧ z.shape = x.shape ∧ rankShape z r = rankShape x r) ∧
      full x = .ok a ∧ full f = .ok b ∧ risk x.shape (rankShape x r) H y b n ≤ risk x.shape (rankShape x r) H y a n ∧
      List.Pairwise (fun u v => ∃ a b, full u = .ok a ∧ full v = .ok b ∧
        risk x.shape (rankShape x r) H y b n ≤ risk x.shape (rankShape x r) H y a n) (x :: l) := by
  obtain ⟨l, l1, l2, l3, l4, l5⟩ := amLoop_spec hqr hsv hlin hla o order stop maxIter 0 hx ho
  obtain ⟨V, hV⟩ := exists_value x hx.wf.valid
  obtain ⟨a, a1, -⟩ := full_on x hx.wf hV.on hx.root
  by_cases hl : l = []
  · subst hl
    have hm : maxIter = 0 := by
      by_contra h
      exact l3 (Nat.pos_of_ne_zero h) rfl
    refine ⟨x, [], a, a, ?_, by simp, fun _ => rfl, by omega, ?_, a1, a1, le_refl _, l5⟩
    · unfold solveStandard
      simp only [l1, bind, Except.bind]
      rfl
    · intro z hz
      rw [List.mem_singleton] at hz
      subst hz
      exact ⟨hx.wf, rfl, rfl, rfl⟩
  · have hm : maxIter ≠ 0 := by
      rintro rfl
      exact hl (by simpa using l2)
    obtain ⟨a', b, q1, q2, q3⟩ := (List.pairwise_cons.1 l5).1 (l.getLast hl) (List.getLast_mem hl)
    rw [a1] at q1; cases q1
    refine ⟨l.getLast hl, l, a, b, ?_, l2, fun h => absurd h hm, fun _ => ⟨hl, rfl⟩, ?_, a1, q2, q3, l5⟩
    · unfold solveStandard
      simp only [l1, bind, Except.bind]
      rw [List.getLastD_eq_getLast?, List.getLast?_eq_some_getLast hl]
      rfl
    · intro z hz
      have : z ∈ l := by
        rcases List.mem_cons.1 hz with rfl | h
        · exact List.getLast_mem hl
        · exact h
      obtain ⟨q1, q2, q3, q4⟩ := l4 z this
      exact ⟨q1.wf, q2, q3, q4⟩

end am

/-- C107. The exploration strategy contains every active node exactly once, and the level never decreases along it: a node comes
before its descendants. -/
theorem explorationStrategy_spec {R : Type} (x : TBT R) (hV : Valid x.tree) :
    ∃ l, explorationStrategy x = .ok l ∧ l.Nodup ∧ (∀ i, i ∈ l ↔ IsNode x.tree i ∧ x.active i = true) ∧
      List.Pairwise (fun i j => ∀ p q, HasLevel x.tree i p → HasLevel x.tree j q → p ≤ q) l ∧
      List.Pairwise (fun i j => ¬ Anc x.tree j i) l := by
  obtain ⟨lev, hlv, hlev⟩ := level_ok hV
  have hlevs : List.Pairwise (fun i j => lev i ≤ lev j) ((List.range (x.tree.maxLevel lev + 1)).flatMap (fun l => (x.tree.nodesWithLevel lev l).filter x.active)) := by
    rw [List.pairwise_flatMap]
    constructor
    · intro l _
      rw [List.pairwise_iff_forall_sublist]
      intro a b hab
      have ha := hab.subset (List.mem_cons_self ..)
      have hb := hab.subset (List.mem_cons_of_mem _ (List.mem_cons_self ..))
      rw [List.mem_filter, mem_nodesWithLevel] at ha hb
      omega
    · refine List.pairwise_lt_range.imp (fun {p q} hpq a ha b hb => ?_)
      rw [List.mem_filter, mem_nodesWithLevel] at ha hb
      omega
  have hmem : ∀ i, i ∈ ((List.range (x.tree.maxLevel lev + 1)).flatMap (fun l => (x.tree.nodesWithLevel lev l).filter x.active)) ↔
      IsNode x.tree i ∧ x.active i = true := by
    intro i
    rw [List.mem_flatMap]
    constructor
    · rintro ⟨l, _, h⟩
      rw [List.mem_filter, mem_nodesWithLevel] at h
      exact ⟨h.1.1, h.2⟩
    · rintro ⟨h1, h2⟩
      refine ⟨lev i, List.mem_range.2 (Nat.lt_succ_of_le (lev_le_maxLevel lev h1)), ?_⟩
      rw [List.mem_filter, mem_nodesWithLevel]
      exact ⟨⟨h1, rfl⟩, h2⟩
  have hnd : ((List.range (x.tree.maxLevel lev + 1)).flatMap (fun l => (x.tree.nodesWithLevel lev l).filter x.active)).Nodup := by
    rw [List.nodup_flatMap]
    refine ⟨fun l _ => (nodup_nodes.filter _).filter _, ?_⟩
    refine List.pairwise_lt_range.imp (fun {p q} hpq => ?_)
    intro i h1 h2
    rw [List.mem_filter, mem_nodesWithLevel] at h1 h2
    omega
  refine ⟨_, by simp only [explorationStrategy, hlv, bind, Except.bind], hnd, hmem, ?_, ?_⟩
  · refine hlevs.imp (fun {i j} h p q hp hq => ?_)
    rw [hlev i p hp, hlev j q hq] at h
    exact h
  · rw [List.pairwise_iff_forall_sublist] at hlevs ⊢
    intro i j hij hanc
    have h := hlevs hij
    have hj := ((hmem j).1 (hij.subset (List.mem_cons_of_mem _ (List.mem_cons_self ..)))).1
    obtain ⟨q, hq⟩ := exists_level hV hj
    have : ∀ i, Anc x.tree j i → lev j < lev i := by
      intro i h
      induction h with
      | single he =>
        have := hlev _ _ (.child hq he)
        rw [hlev _ _ hq, this]; omega
      | tail hp he ih =>
        rename_i b c
        obtain ⟨q', hq'⟩ := exists_level hV he.1
        have := hlev _ _ (.child hq' he)
        rw [hlev _ _ hq'] at ih
        omega
    have := this i hanc
    omega

/-- C108. Model selection: with at least one iterate and one error per iterate, the selected model is one of the iterates, its error is
the smallest one, and the first such iterate is taken. -/
theorem selectModel_spec {T : Type} (errs : List ℝ) (iterates : List T) (hlen : errs.length = iterates.length) (hne : errs ≠ []) :
    ∃ (ind : Nat) (h : ind < iterates.length), selectModel errs iterates = .ok (ind, iterates[ind]) ∧
      (∀ j (hj : j < errs.length), errs[ind]'(hlen ▸ h) ≤ errs[j]) ∧ (∀ j (hj : j < ind), errs[ind]'(hlen ▸ h) < errs[j]'(by omega)) := by
  have hne' : errs.map Ext.val ≠ [] := by simpa using hne
  obtain ⟨h1, -, h3⟩ := argmin_spec (errs.map Ext.val) hne'
  obtain ⟨h4, h5⟩ := h3 (by
    intro e he
    obtain ⟨v, -, rfl⟩ := List.mem_map.1 he
    rfl)
  rw [List.length_map] at h1 h4
  have hget : ∀ j (hj : j < errs.length), (errs.map Ext.val).getD j .nan = .val errs[j] := by
    intro j hj
    rw [List.getD_eq_getElem _ _ (by simpa using hj), List.getElem_map]
  refine ⟨argmin (errs.map Ext.val), by omega, ?_, ?_, ?_⟩
  · unfold selectModel
    cases errs with
    | nil => exact absurd rfl hne
    | cons a l =>
      dsimp only
      rw [List.getElem?_eq_getElem (by omega)]
  · intro j hj
    have := h4 j hj
    rw [hget _ h1, hget j hj] at this
    exact this
  · intro j hj
    have := h5 j hj
    rw [hget _ h1, hget j (by omega)] at this
    exact this

/-- The tensor `exU` over the real numbers. -/
def exUR : TBT ℝ := ⟨exU.tree, fun i => ⟨(exU.tensors i).shape, fun idx => (((exU.tensors i).get idx : ℤ) : ℝ)⟩⟩

theorem exUR_wf : WF exUR := by
  obtain ⟨r, _, hr⟩ := root_ok exU_wf.valid
  have h := exU_wf.shaped hr
  exact (show Shaped exUR exU.tree exU.active exU.lastDim exU.leafSize (rankShape exU r) from
    ⟨rfl, h.rho, h.nu, h.rootPos, h.rootLen, h.leaf, h.off, h.internal, h.node⟩).wf exU_wf.valid exU_wf.order

/-- The matrices and the observations of the example. -/
def exHR : List (Arr ℝ) := [⟨[4, 3], fun i => i.sum⟩, ⟨[4, 2], fun i => i.prod⟩, ⟨[4, 2], fun i => i.getD 0 0 - i.getD 1 0⟩]

/-- The hypotheses of C105 and C106 are met: a tensor of order 3 with 5 nodes, 4 points. -/
theorem exUR_data : AmData exUR 1 exHR ⟨[4], fun i => i.sum⟩ 4 := by
  have hi : ∀ i, IsNode exU.tree i → i ∈ [1, 2, 3, 4, 5] := by
    rintro i ⟨h1, h2⟩
    have : exU.tree.n = 5 := rfl
    simp only [List.mem_cons, List.not_mem_nil, or_false]
    omega
  have hE : rankShape exUR 1 = rankShape exU 1 := rfl
  have hE' : rankShape exU 1 = [] := by decide +kernel
  have hsh : exUR.shape = exU.shape := rfl
  refine ⟨exUR_wf, ?_, ?_, by decide +kernel, by decide, rfl, ?_, by rw [hE, hE'], by rw [hE, hE']; simp⟩
  · intro i h
    exact (show ∀ i ∈ [1, 2, 3, 4, 5], exU.active i = true by decide +kernel) i (hi i h)
  · intro i h hl
    exact (show ∀ i ∈ [1, 2, 3, 4, 5], i ∉ exU.tree.dim2ind → 2 ≤ (exU.tree.children i).length by decide +kernel) i (hi i h) hl
  · intro d hd
    rw [hsh]
    have h3 : d < 3 := hd
    have hs : exU.shape = [3, 2, 2] := by decide +kernel
    rw [hs]
    match d, h3 with
    | 0, _ => rfl
    | 1, _ => rfl
    | 2, _ => rfl

example : ∃ (qr : Arr ℝ → Arr ℝ × Arr ℝ) (svd : Svd) (lin : LinAlg) (la : La), FullTensor.QROk qr ∧ SvdOk svd ∧ LinAlgOk lin ∧
    LaOk la ∧ AmData exUR 1 exHR ⟨[4], fun i => i.sum⟩ 4 ∧ IsNode exUR.tree 2 := by
  obtain ⟨qr, h1⟩ := FullTensor.exists_qr
  obtain ⟨svd, h2⟩ := exists_svd
  obtain ⟨lin, h3⟩ := exists_linAlg
  obtain ⟨la, h4, -⟩ := exists_la (fun _ => false)
  exact ⟨qr, svd, lin, la, h1, h2, h3, h4, exUR_data, ⟨by decide, by decide⟩⟩

example : (explorationStrategy exU).toOption = some [1, 2, 5, 3, 4] := by decide +kernel

end TreeBased
end Verif
