import Verif.Lemmas.HsvdErr
import Verif.Lemmas.MulNodes
import Verif.Lemmas.SvdExists
import Verif.Props.Hosvd
import Verif.Props.TreeOrthWitness

/-!
# Properties of `Truncator.hsvd` for tree-based tensors (C70)
-/

namespace Verif.Truncation

open Verif.Arr Verif.TreeBased Verif.DimTree Verif.Projection Finset

theorem ranksForTree_get (mr : List (Option Nat)) (n root : Nat) (h : mr.length = 1 ∨ mr.length = n) (hn : 2 ≤ n) (i : Nat) (hi : 1 ≤ i)
    (hin : i ≤ n) (hir : i ≠ root) (hr : 1 ≤ root) :
    (ranksForTree mr n root)[i - 1]? = some (mr.getD (if mr.length = 1 then 0 else i - 1) none) := by
  unfold ranksForTree
  match mr, h with
  | [r], _ =>
    show ((List.replicate n r).set (root - 1) (some 1))[i - 1]? = _
    rw [List.getElem?_set_ne (by omega), List.getElem?_replicate, if_pos (by omega)]
    simp
  | [], h => simp at h; omega
  | a :: b :: l, h =>
    have hl : (a :: b :: l).length = n := by
      rcases h with h | h
      · simp at h
      · exact h
    rw [if_neg (by simp)]
    show (a :: b :: l)[i - 1]? = _
    rw [List.getElem?_eq_getElem (by omega), List.getD_eq_getElem _ _ (by omega)]

/-- The decomposition of the Gram matrix of a node: the matrix of the first left singular vectors. -/
theorem hsvdMatrix_spec (svd : Svd) (hsvd : SvdOk svd) (t : Truncator) (ht : t.param = none ∨ t.param = some 0)
    (mr : List (Option Nat)) (tol : ℝ) (g : Arr ℝ) (nod n : Nat) (hg : g.shape = [n, n]) (hn : 0 < n) (R : Option Nat)
    (hR : mr[nod - 1]? = some R) (hR0 : R ≠ some 0) :
    ∃ m k, hsvdMatrix svd t mr tol g nod = .ok m ∧ m.shape = [k, n] ∧ 1 ≤ k ∧ k ≤ n ∧ (∀ q, R = some q → k ≤ q) ∧
      (∀ l s, m.get [l, s] = (svd g).1.get [s, l]) ∧
      (R = none → 0 ≤ tol → ((svd g).2.1.drop k).sum ≤ tol * (svd g).2.1.sum) := by
  obtain ⟨ind, r, b1, b2, b3, b4, b5⟩ := truncSvd_data svd hsvd { t with maxRank := R } ht g n n hg hn hn tol 1 (by omega)
  have hs := hsvd g n n hg hn hn
  refine ⟨transp (leftCols (svd g).1 ind), r, ?_, ?_, b4 hR0, ?_, b3, fun l s => rfl, ?_⟩
  · unfold hsvdMatrix rankAt
    rw [hR]
    simp only [b1, bind, Except.bind]
    rfl
  · unfold transp leftCols
    rw [hs.left, b2]
    simp
  · rw [b2]; simp
  · intro h1 h2
    have := b5 h1 h2
    simpa using this

theorem activeCount_eq {x : TBT ℝ} (hx : WF x) {r : Nat} (hr : IsRoot x.tree r) : activeCount x = (activeNodes x r).length := by
  unfold activeCount activeNodes
  have h1 : x.tree.nodes.filter (fun i => x.active i && !(i == r)) = (x.tree.nodes.filter x.active).erase r := by
    rw [List.Nodup.erase_eq_filter (nodup_nodes.filter _), List.filter_filter]
    apply List.filter_congr
    intro i _
    rw [Bool.and_comm]
    rfl
  rw [h1, List.length_erase_of_mem]
  exact List.mem_filter.2 ⟨(mem_nodes r).2 hr.1, (hx.node r hr.1 (hx.root_internal hr)).1⟩

/-- The sum of the discarded singular values bounds the error of the insertion of the projection at one node. -/
theorem node_tail (svd : Svd) (hsvd : SvdOk svd) (g : Arr ℝ) (n k : Nat) (hg : g.shape = [n, n]) (hn : 0 < n) (hk : k ≤ n) :
    ∑ s ∈ range n, g.get [s, s] - ∑ s ∈ range n, ∑ s' ∈ range n, g.get [s, s'] *
      ∑ l ∈ range k, (svd g).1.get [s, l] * (svd g).1.get [s', l] ≤ ((svd g).2.1.drop k).sum := by
  have h := hsvd g n n hg hn hn
  have hmin : min n n = n := min_self n
  have e := trace_tail (n := n) (A := fun s s' => g.get [s, s']) (u := fun s l => (svd g).1.get [s, l])
    (w := fun l s => (svd g).2.2.get [l, s]) (σ := fun l => (svd g).2.1.getD l 0)
    (by intro s s' hs hs'; have := h.eq s s' hs hs'; rwa [hmin] at this)
    (by intro l l' hl hl'; exact h.orthL l l' (by omega) (by omega))
    (by intro l l' hl hl'; exact h.orthR l l' (by omega) (by omega))
    (by
      intro l _
      by_cases hl : l < (svd g).2.1.length
      · rw [List.getD_eq_getElem _ _ hl]; exact h.nonneg _ (List.getElem_mem _)
      · rw [List.getD_eq_default _ _ (by omega)]) hk
  have hs := sum_drop_eq (svd g).2.1 1 k (by rw [h.len, hmin]; exact hk)
  simp only [pow_one, List.map_id', h.len, hmin] at hs
  rw [hs]
  exact e

theorem node_sum (svd : Svd) (hsvd : SvdOk svd) (g : Arr ℝ) (n : Nat) (hg : g.shape = [n, n]) (hn : 0 < n)
    (hs : ∀ s s', s < n → s' < n → g.get [s, s'] = g.get [s', s])
    (hp : ∀ v : Nat → ℝ, 0 ≤ ∑ s ∈ range n, ∑ s' ∈ range n, v s * g.get [s, s'] * v s') :
    (svd g).2.1.sum ≤ ∑ s ∈ range n, g.get [s, s] := by
  have h := hsvd g n n hg hn hn
  have hmin : min n n = n := min_self n
  have e := sum_sv_le (n := n) (A := fun s s' => g.get [s, s']) (u := fun s l => (svd g).1.get [s, l])
    (w := fun l s => (svd g).2.2.get [l, s]) (σ := fun l => (svd g).2.1.getD l 0)
    (by intro s s' hs hs'; have := h.eq s s' hs hs'; rwa [hmin] at this)
    (by intro l l' hl hl'; exact h.orthL l l' (by omega) (by omega))
    (by intro l l' hl hl'; exact h.orthR l l' (by omega) (by omega)) hs hp
  have hs := sum_drop_eq (svd g).2.1 1 0 (by omega)
  simp only [pow_one, List.map_id', h.len, hmin, List.drop_zero, Nat.not_lt_zero, if_false] at hs
  rw [hs]
  exact e

theorem dense_sum {s e : List Nat} (f : List Nat → ℝ) :
    sumBox (s ++ e) f = sumBox e (fun q => sumBox s (fun p => f (p ++ q))) := by
  rw [sumBox_append, sumBox_comm]

/-- C70. `hsvd` of a tree-based tensor, without thresholding, with a maximal rank or one per node (`none`: infinity; not
zero). The result has the tree, the shape, the active nodes and the output rank of the tensor; its ranks are at most those of
the tensor and respect the maximal ranks; its squared distance to the tensor is at most the sum over the active nodes other
than the root of the discarded singular values of the matrices given by `gramians`; without maximal rank each of these sums
is at most `tolerance² / N` times the squared norm, where `N` is the number of these nodes. -/
theorem hsvd_spec (qr : Arr ℝ → Arr ℝ × Arr ℝ) (hqr : FullTensor.QROk qr) (svd : Svd) (hsv : SvdOk svd) (t : Truncator)
    (ht : t.param = none ∨ t.param = some 0) (mr : List (Option Nat)) (x : TBT ℝ) (hx : WF x)
    (hmr : mr.length = 1 ∨ mr.length = x.tree.n) (hmr0 : ∀ q ∈ mr, q ≠ some 0) (r : Nat) (hr : x.tree.root = .ok r) :
    ∃ (z : TBT ℝ) (a b : Arr ℝ) (g : Nat → Arr ℝ) (y : TBT ℝ), hsvd qr svd t mr x = .ok z ∧ WF z ∧ z.tree = x.tree ∧
      z.shape = x.shape ∧ (∀ i, IsNode x.tree i → z.active i = x.active i) ∧ rankShape z r = rankShape x r ∧
      full x = .ok a ∧ full z = .ok b ∧ b.shape = a.shape ∧ gramians qr x = .ok (g, y) ∧
      (∀ i ∈ activeNodes x r, 1 ≤ z.lastDim i ∧ z.lastDim i ≤ x.lastDim i ∧
        ∀ q, mr.getD (if mr.length = 1 then 0 else i - 1) none = some q → z.lastDim i ≤ q) ∧
      sumBox a.shape (fun i => (a.get i - b.get i) ^ 2) ≤
        ((activeNodes x r).map (fun i => ((svd (g i)).2.1.drop (z.lastDim i)).sum)).sum ∧
      (0 ≤ t.tolerance → (∀ q ∈ mr, q = none) → ∀ i ∈ activeNodes x r, ((svd (g i)).2.1.drop (z.lastDim i)).sum ≤
        t.tolerance ^ 2 / (activeNodes x r).length * sumBox a.shape (fun i => a.get i ^ 2)) := by
  obtain ⟨r', hr', hroot⟩ := root_ok hx.valid
  rw [hr] at hr'; cases hr'
  obtain ⟨y, y1, hy, y3, y4, y5, y6, y7, y8, a, c, a1, c1, ⟨c2, c3⟩⟩ := orth_full qr hqr x hx
  have hroot' : IsRoot y.tree r := by rw [y3]; exact hroot
  obtain ⟨g, g1, g2, g3, -, -, -⟩ := gramiansOrth_spec hy hroot'
  obtain ⟨lev, hlv, hlev⟩ := level_ok hx.valid
  have hact : activeNodes y r = activeNodes x r := by
    unfold activeNodes
    rw [y3]
    apply List.filter_congr
    intro i hi
    rw [y5 i ((mem_nodes i).1 hi)]
  set tol := t.tolerance / Real.sqrt (activeCount x) with htol
  set ranks := ranksForTree mr x.tree.n r with hranks
  have hn2 : 2 ≤ x.tree.n := by
    have h1 := hx.order
    have hnd := hx.valid.nodup
    have hsub : x.tree.dim2ind ⊆ x.tree.nodes := fun i hi => (mem_nodes i).2 ((hx.valid.leaves i).1 hi).1
    have h2 := (hnd.subperm hsub).length_le
    have h3 : x.tree.nodes.length = x.tree.n := by simp [DTree.nodes]
    omega
  have key : ∀ i, ∃ (m : Arr ℝ) (k : Nat), IsNode y.tree i → ¬ IsRoot y.tree i → y.active i = true →
      hsvdMatrix svd t ranks (tol ^ 2) (g i) i = .ok m ∧ m.shape = [k, y.lastDim i] ∧ 1 ≤ k ∧ k ≤ y.lastDim i ∧
      (∀ q, mr.getD (if mr.length = 1 then 0 else i - 1) none = some q → k ≤ q) ∧
      (∀ l s, m.get [l, s] = (svd (g i)).1.get [s, l]) ∧
      ((∀ q ∈ mr, q = none) → ((svd (g i)).2.1.drop k).sum ≤ tol ^ 2 * (svd (g i)).2.1.sum) := by
    intro i
    by_cases hi : IsNode y.tree i ∧ ¬ IsRoot y.tree i ∧ y.active i = true
    · obtain ⟨h1, h2, h3⟩ := hi
      have h1' : IsNode x.tree i := by rw [← y3]; exact h1
      have hpos := (hy.shaped hroot').rho i h1 h2 h3
      have hR := ranksForTree_get mr x.tree.n r hmr hn2 i h1'.1 h1'.2 (fun h => h2 (h ▸ hroot')) hroot.1.1
      have hin : mr.getD (if mr.length = 1 then 0 else i - 1) none ∈ mr := by
        have : (if mr.length = 1 then 0 else i - 1) < mr.length := by
          split
          · omega
          · have := h1'.2; omega
        rw [List.getD_eq_getElem _ _ this]; exact List.getElem_mem _
      obtain ⟨m, k, e1, e2, e3, e4, e5, e6, e7⟩ := hsvdMatrix_spec svd hsv t ht ranks (tol ^ 2) (g i) i (y.lastDim i) (g2 i h1 h2 h3)
        hpos _ hR (hmr0 _ hin)
      exact ⟨m, k, fun _ _ _ => ⟨e1, e2, e3, e4, e5, e6, fun hq => e7 (hq _ hin) (sq_nonneg _)⟩⟩
    · exact ⟨⟨[], fun _ => 0⟩, 0, fun h1 h2 h3 => absurd ⟨h1, h2, h3⟩ hi⟩
  choose m k hm using key
  set K : Nat → Nat → Nat → ℝ := fun i s s' => ∑ l ∈ range (k i), (svd (g i)).1.get [s, l] * (svd (g i)).1.get [s', l] with hK
  obtain ⟨ts, t1, t2, t3, t4, t5, t6, b, d, b1, d1, ⟨b2, b3⟩⟩ := mulNodes_spec hy (lev := lev) (by rw [y3]; exact hlev)
    (k := k) (m := m) (K := K) (step := hsvdStep svd t ranks (tol ^ 2) x.tree g) (by
      intro i h1 h2 h3
      obtain ⟨e1, e2, e3, e4, e5, e6, e7⟩ := hm i h1 h2 h3
      refine ⟨fun ts => ?_, e3, e2, fun s s' _ _ => ?_⟩
      · unfold hsvdStep
        rw [e1, y3]; rfl
      · rw [hK]
        exact sum_congr rfl (fun l _ => by rw [e6, e6]))
  set z : TBT ℝ := ⟨y.tree, ts⟩ with hz
  obtain ⟨V, hV⟩ := exists_value y hy.valid
  obtain ⟨D, -, hD⟩ := dims_ok hy.valid
  have hO := ortho_vals hy (by
    intro i h1 h2 h3
    rw [y3] at h1 h2
    exact y8 i h1 h2 (by rw [← y5 i h1]; exact h3)) hV hD
  set S : Nat → Prop := fun i => IsNode y.tree i ∧ ¬ IsRoot y.tree i ∧ y.active i = true with hS
  have hwi : WF (ins y K S) := (ins_same y K S).wf hy
  obtain ⟨W, hW⟩ := exists_value (ins y K S) hy.valid
  have hry : y.tree.root = .ok r := by rw [y3]; exact hr
  obtain ⟨c', f1, f2, f3⟩ := full_on y hy hV.on hry
  rw [c1] at f1; cases f1
  obtain ⟨d', k1, k2, k3⟩ := full_on (ins y K S) hwi hW.on hry
  rw [d1] at k1; cases k1
  have hrsd : rankShape (ins y K S) r = rankShape y r := (ins_same y K S).rankShape r
  have hshd : (ins y K S).shape = y.shape := (ins_same y K S).shapeEq
  have hash : a.shape = y.shape ++ rankShape y r := by rw [← c2, f2]
  have hdsh : d.shape = y.shape ++ rankShape y r := by rw [k2, hrsd, hshd]
  have hbsh : b.shape = a.shape := by rw [b2, hdsh, hash]
  have hav : ∀ p e, InBox y.shape p → InBox (rankShape y r) e → a.get (p ++ e) = V r p e := by
    intro p e hp he
    rw [← c3 (p ++ e) (by rw [f2]; exact (inBox_append hp.length_eq).2 ⟨hp, he⟩), f3 p e hp he]
  have hbv : ∀ p e, InBox y.shape p → InBox (rankShape y r) e → b.get (p ++ e) = W r p e := by
    intro p e hp he
    rw [b3 (p ++ e) (by rw [b2, hdsh]; exact (inBox_append hp.length_eq).2 ⟨hp, he⟩), k3 p e (by rw [hshd]; exact hp) (by rw [hrsd]; exact he)]
  have hld : ∀ i ∈ activeNodes x r, z.lastDim i = k i := by
    intro i hi
    rw [← hact] at hi
    obtain ⟨h1, h2, h3⟩ := (mem_activeNodes hy.valid hroot' i).1 hi
    exact t6 i h1 h2 h3
  refine ⟨z, a, b, g, y, ?_, t2, y3, t3.trans y4, ?_, (t5 r hroot').trans (y6 r hroot), a1, b1, hbsh, ?_, ?_, ?_, ?_⟩
  · unfold hsvd
    rw [hr, y1]
    dsimp only
    simp only [bind, Except.bind, g1, hlv]
    rw [← hranks, ← htol]
    rw [y3] at t1
    simp only [t1]
    rw [show z = ⟨x.tree, ts⟩ by rw [hz, y3]]
    exact mk_wf (T := x.tree) (ts := ts) (by rw [← y3]; exact t2)
  · intro i hi
    rw [← y5 i hi]
    exact t4 i (by rw [y3]; exact hi)
  · unfold gramians
    rw [y1]
    simp only [bind, Except.bind, g1]
  · intro i hi
    rw [hld i hi]
    have hi' := hi
    rw [← hact] at hi'
    obtain ⟨h1, h2, h3⟩ := (mem_activeNodes hy.valid hroot' i).1 hi'
    obtain ⟨h1', h2', h3'⟩ := (mem_activeNodes hx.valid hroot i).1 hi
    obtain ⟨e1, e2, e3, e4, e5, e6, e7⟩ := hm i h1 h2 h3
    exact ⟨e3, e4.trans (y7 i h1' h2' h3'), e5⟩
  · have herr := ins_error hy hV hD hO hroot' g3 (K := K) (k := k) (U := fun i s l => (svd (g i)).1.get [s, l]) (by
      intro i h1 h2 h3
      obtain ⟨e1, e2, e3, e4, e5, e6, e7⟩ := hm i h1 h2 h3
      refine ⟨fun s s' _ _ => rfl, fun l l' hl hl' => ?_⟩
      exact (hsv (g i) _ _ (g2 i h1 h2 h3) (by omega) (by omega)).orthL l l' (by omega) (by omega)) hW
    rw [hact] at herr
    have e1 : sumBox a.shape (fun i => (a.get i - b.get i) ^ 2) =
        sumBox (rankShape y r) (fun e => nsq y.shape (fun p => V r p e - W r p e)) := by
      rw [hash, dense_sum]
      apply sumBox_congr
      intro e he
      unfold nsq
      apply sumBox_congr
      intro p hp
      beta_reduce
      rw [hav p e hp he, hbv p e hp he, pow_two]
    rw [e1]
    refine herr.trans (List.sum_le_sum ?_)
    intro i hi
    rw [hld i hi]
    rw [← hact] at hi
    obtain ⟨h1, h2, h3⟩ := (mem_activeNodes hy.valid hroot' i).1 hi
    obtain ⟨e1, e2, e3, e4, e5, e6, e7⟩ := hm i h1 h2 h3
    exact node_tail svd hsv (g i) _ _ (g2 i h1 h2 h3) (by omega) e4
  · intro h0 hq i hi
    rw [hld i hi]
    have hlen : (0 : ℝ) < (activeNodes x r).length := by
      have := List.length_pos_of_mem hi
      exact_mod_cast this
    rw [← hact] at hi
    obtain ⟨h1, h2, h3⟩ := (mem_activeNodes hy.valid hroot' i).1 hi
    obtain ⟨e1, e2, e3, e4, e5, e6, e7⟩ := hm i h1 h2 h3
    have htr := env_trace hy hV hD hO hroot' g3 (anc_active hy h3) h1 h2 h3
    have hle := node_sum svd hsv (g i) _ (g2 i h1 h2 h3) (by omega)
      (fun s s' hs hs' => env_symm hy hV hD hO hroot' g3 (anc_active hy h3) h1 h2 h3 hs hs')
      (fun v => env_psd hy hV hD hO hroot' g3 (anc_active hy h3) h1 h2 h3 v)
    have hna : sumBox (rankShape y r) (fun e => nsq y.shape (fun p => V r p e)) = sumBox a.shape (fun i => a.get i ^ 2) := by
      rw [hash, dense_sum]
      apply sumBox_congr
      intro e he
      unfold nsq
      apply sumBox_congr
      intro p hp
      beta_reduce
      rw [hav p e hp he, pow_two]
    refine (e7 hq).trans ?_
    rw [← hna, ← htr, htol, div_pow, activeCount_eq hx hroot, Real.sq_sqrt (le_of_lt hlen)]
    exact mul_le_mul_of_nonneg_left hle (div_nonneg (sq_nonneg _) (le_of_lt hlen))

/-- C70. Without maximal rank, the error of `hsvd` relative to the norm of the tensor is at most the tolerance. -/
theorem hsvd_error (qr : Arr ℝ → Arr ℝ × Arr ℝ) (hqr : FullTensor.QROk qr) (svd : Svd) (hsv : SvdOk svd) (t : Truncator)
    (ht : t.param = none ∨ t.param = some 0) (htol : 0 ≤ t.tolerance) (x : TBT ℝ) (hx : WF x) :
    ∃ (z : TBT ℝ) (a b : Arr ℝ), hsvd qr svd t [none] x = .ok z ∧ full x = .ok a ∧ full z = .ok b ∧ b.shape = a.shape ∧
      sumBox a.shape (fun i => (a.get i - b.get i) ^ 2) ≤ t.tolerance ^ 2 * sumBox a.shape (fun i => a.get i ^ 2) := by
  obtain ⟨r, hr, hroot⟩ := root_ok hx.valid
  obtain ⟨z, a, b, g, y, h1, h2, h3, h4, h5, h6, h7, h8, h9, h10, h11, h12, h13⟩ :=
    hsvd_spec qr hqr svd hsv t ht [none] x hx (by simp) (by simp) r hr
  refine ⟨z, a, b, h1, h7, h8, h9, h12.trans ?_⟩
  have hb := h13 htol (by simp)
  set N := sumBox a.shape (fun i => a.get i ^ 2) with hN
  have hN0 : 0 ≤ N := by
    rw [hN, sumBox_eq_sum]; exact sum_nonneg (fun i _ => sq_nonneg _)
  have h : ((activeNodes x r).map (fun i => ((svd (g i)).2.1.drop (z.lastDim i)).sum)).sum ≤
      ((activeNodes x r).map (fun _ => t.tolerance ^ 2 / (activeNodes x r).length * N)).sum := List.sum_le_sum hb
  refine h.trans ?_
  rw [List.map_const', List.sum_replicate, nsmul_eq_mul]
  by_cases hl : (activeNodes x r).length = 0
  · rw [hl]; simp; positivity
  · have : ((activeNodes x r).length : ℝ) ≠ 0 := by exact_mod_cast hl
    apply le_of_eq
    field_simp

/-- The hypotheses of `hsvd_spec` and `hsvd_error` are met. -/
example : ∃ (qr : Arr ℝ → Arr ℝ × Arr ℝ) (svd : Svd), FullTensor.QROk qr ∧ SvdOk svd ∧ WF exR := by
  obtain ⟨qr, h⟩ := FullTensor.exists_qr
  obtain ⟨svd, h'⟩ := exists_svd
  exact ⟨qr, svd, h, h', exR_wf⟩

end Verif.Truncation
