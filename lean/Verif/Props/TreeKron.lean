import Verif.Props.TreeActivate
import Verif.Props.FullTensorIndex

/-!
# Kronecker and elementwise products of tree-based tensors (C37)
-/

namespace Verif.TreeBased

open Verif.Arr Verif.DimTree Finset

variable {R : Type}

theorem sum_divmod [AddCommMonoid R] (a b : Nat) (h : Nat → Nat → R) :
    ∑ s ∈ range (a * b), h (s / b) (s % b) = ∑ i ∈ range a, ∑ j ∈ range b, h i j := by
  induction a with
  | zero => simp
  | succ a ih =>
    rw [Nat.succ_mul, sum_range_add, ih, sum_range_succ]
    congr 1
    apply sum_congr rfl
    intro j hj
    have hj := mem_range.1 hj
    have hb : 0 < b := by omega
    rw [Nat.mul_comm a b, Nat.mul_add_div hb, Nat.div_eq_of_lt hj, Nat.mul_add_mod, Nat.mod_eq_of_lt hj, Nat.add_zero]

theorem childSum_kron [CommSemiring R] {x y z : TBT R} (hzx : z.tree = x.tree) (hzy : z.tree = y.tree)
    {V W V' : Nat → List Nat → List Nat → R} {idx ix iy : List Nat} (cs : List Nat)
    (ha : ∀ c ∈ cs, z.active c = x.active c) (hb : ∀ c ∈ cs, y.active c = x.active c)
    (hl : ∀ c ∈ cs, x.active c = true → z.lastDim c = x.lastDim c * y.lastDim c)
    (hV : ∀ c ∈ cs, x.active c = true → ∀ s, V' c idx [s] = V c ix [s / y.lastDim c] * W c iy [s % y.lastDim c])
    (hi : ∀ c ∈ cs, ¬ x.active c = true → ix.getD (dimOf x.tree c) 0 = idx.getD (dimOf x.tree c) 0 / childSize y c ∧
      iy.getD (dimOf x.tree c) 0 = idx.getD (dimOf x.tree c) 0 % childSize y c)
    (k1 k2 : List Nat → R) :
    childSum z V' idx cs (fun t => k1 (List.zipWith (· / ·) t (cs.map (childSize y))) *
      k2 (List.zipWith (· % ·) t (cs.map (childSize y)))) = childSum x V ix cs k1 * childSum y W iy cs k2 := by
  induction cs generalizing k1 k2 with
  | nil => rfl
  | cons c cs ih =>
    have ih' := fun k1 k2 => ih (fun c' hc' => ha c' (by simp [hc'])) (fun c' hc' => hb c' (by simp [hc']))
      (fun c' hc' => hl c' (by simp [hc'])) (fun c' hc' => hV c' (by simp [hc'])) (fun c' hc' => hi c' (by simp [hc'])) k1 k2
    unfold childSum
    rw [ha c (by simp), hb c (by simp)]
    by_cases hac : x.active c = true
    · rw [if_pos hac, if_pos hac, if_pos hac, hl c (by simp) hac]
      have hcy : childSize y c = y.lastDim c := by unfold childSize; rw [if_pos (by rw [hb c (by simp)]; exact hac)]
      simp only [List.map_cons, List.zipWith_cons_cons, hcy, hV c (by simp) hac]
      have e : ∀ s, childSum z V' idx cs (fun t =>
          k1 (s / y.lastDim c :: List.zipWith (· / ·) t (cs.map (childSize y))) *
          k2 (s % y.lastDim c :: List.zipWith (· % ·) t (cs.map (childSize y)))) =
          childSum x V ix cs (fun t => k1 (s / y.lastDim c :: t)) * childSum y W iy cs (fun t => k2 (s % y.lastDim c :: t)) :=
        fun s => ih' (fun t => k1 (s / y.lastDim c :: t)) (fun t => k2 (s % y.lastDim c :: t))
      simp only [e]
      rw [sum_divmod (x.lastDim c) (y.lastDim c) (fun i j => V c ix [i] * W c iy [j] *
        (childSum x V ix cs (fun t => k1 (i :: t)) * childSum y W iy cs (fun t => k2 (j :: t)))), sum_mul_sum]
      apply sum_congr rfl
      intro i _
      apply sum_congr rfl
      intro j _
      rw [mul_mul_mul_comm]
    · rw [if_neg hac, if_neg hac, if_neg hac]
      obtain ⟨h1, h2⟩ := hi c (by simp) hac
      simp only [List.map_cons, List.zipWith_cons_cons]
      rw [← hzy, hzx, h1, h2]
      exact ih' (fun t => k1 (_ :: t)) (fun t => k2 (_ :: t))

/-- Two tensors with the same tree and the same active nodes, whose root tensors have the same order. -/
structure Parallel (x y : TBT R) : Prop where
  tree : y.tree = x.tree
  active : ∀ i, IsNode x.tree i → y.active i = x.active i
  root : ∀ r, IsRoot x.tree r → (rankShape y r).length = (rankShape x r).length

theorem zipWith_getD (f : Nat → Nat → Nat) (hf : f 0 0 = 0) (a b : List Nat) (h : a.length = b.length) (k : Nat) :
    (List.zipWith f a b).getD k 0 = f (a.getD k 0) (b.getD k 0) := by
  by_cases hk : k < a.length
  · rw [List.getD_eq_getElem _ _ (by simp; omega), List.getElem_zipWith, List.getD_eq_getElem _ _ hk,
      List.getD_eq_getElem _ _ (by omega)]
  · rw [List.getD_eq_default _ _ (by simp; omega), List.getD_eq_default _ _ (by omega), List.getD_eq_default _ _ (by omega), hf]

theorem inBox_div {sx sy idx : List Nat} (h : sx.length = sy.length) (hi : InBox (List.zipWith (· * ·) sx sy) idx) :
    InBox sx (List.zipWith (· / ·) idx sy) ∧ InBox sy (List.zipWith (· % ·) idx sy) :=
  ⟨(FullTensor.inBox_interleave sx sy idx hi h).1, (FullTensor.inBox_interleave sx sy idx hi h).2.1⟩

/-- `kron(y)`: the full tensor is the dense Kronecker product of the full tensors, and the ranks are multiplied. -/
theorem kron_full [CommSemiring R] (x y : TBT R) (hx : WF x) (hy : WF y) (hc : Parallel x y) :
    ∃ z a b w, kron x y = .ok z ∧ WF z ∧ full x = .ok a ∧ full y = .ok b ∧ full z = .ok w ∧
      (∃ v, FullTensor.kron a b = .ok v ∧ w ≃ₐ v) ∧ z.tree = x.tree ∧ z.shape = List.zipWith (· * ·) x.shape y.shape ∧
      (∀ r, IsRoot x.tree r → rankShape z r = List.zipWith (· * ·) (rankShape x r) (rankShape y r)) ∧
      ∀ i, IsNode x.tree i → ¬ IsRoot x.tree i → x.active i → z.active i = true ∧ z.lastDim i = x.lastDim i * y.lastDim i := by
  classical
  have hV := hx.valid
  obtain ⟨r, hr, hroot⟩ := root_ok hV
  have hrl := hx.root_internal hroot
  have sx := hx.shaped hroot
  have sy := hy.shaped (r := r) (by rw [hc.tree]; exact hroot)
  rw [hc.tree] at sy
  -- the node tensors
  have hsx : ∀ i, IsNode x.tree i → x.active i = true → (x.tensors i).shape.length = (y.tensors i).shape.length := by
    intro i hi ha
    by_cases hl : i ∈ x.tree.dim2ind
    · rw [sx.leaf i hl ha, sy.leaf i hl (by rw [hc.active i hi]; exact ha)]; rfl
    · rw [sx.node i hi hl, sy.node i hi hl]
      by_cases hir : IsRoot x.tree i
      · simp only [if_pos hir, List.length_append, List.length_map]
        rw [hc.root r hroot]
      · simp [if_neg hir]
  have hex : ∀ i, ∃ z, IsNode x.tree i → (if x.active i then FullTensor.kron (x.tensors i) (y.tensors i) else .ok (x.tensors i)) = .ok z := by
    intro i
    by_cases hi : IsNode x.tree i
    · by_cases ha : x.active i = true
      · obtain ⟨z, z1, _⟩ := FullTensor.kron_spec (x.tensors i) (y.tensors i) (hsx i hi ha)
        exact ⟨z, fun _ => by rw [if_pos ha, z1]⟩
      · exact ⟨x.tensors i, fun _ => by rw [if_neg ha]⟩
    · exact ⟨x.tensors i, fun h => absurd h hi⟩
  choose g hg using hex
  set ts : Nat → Arr R := fun i => if i ∈ x.tree.nodes then g i else x.tensors i with hts
  have hfor := forNodes_spec (T := x.tree) (ts := x.tensors)
    (f := fun nod a => if x.active nod then FullTensor.kron a (y.tensors nod) else .ok a) (g := g) (fun i hi => hg i hi)
  set z : TBT R := ⟨x.tree, ts⟩ with hz
  have htsn : ∀ i, IsNode x.tree i → z.tensors i = g i := by
    intro i hi
    show ts i = g i
    simp only [hts]; rw [if_pos ((mem_nodes i).2 hi)]
  have hon1 : ∀ i, IsNode x.tree i → x.active i = true →
      (z.tensors i).shape = List.zipWith (· * ·) (x.tensors i).shape (y.tensors i).shape ∧
      ∀ idx, InBox (z.tensors i).shape idx → (z.tensors i).get idx =
        (x.tensors i).get (List.zipWith (· / ·) idx (y.tensors i).shape) * (y.tensors i).get (List.zipWith (· % ·) idx (y.tensors i).shape) := by
    intro i hi ha
    obtain ⟨w, w1, w2, w3⟩ := FullTensor.kron_spec (x.tensors i) (y.tensors i) (hsx i hi ha)
    have h1 := hg i hi
    rw [if_pos ha, w1] at h1
    injection h1 with h1
    rw [htsn i hi, ← h1]
    exact ⟨w2, w3⟩
  have hoff1 : ∀ i, IsNode x.tree i → ¬ x.active i = true → z.tensors i = x.tensors i := by
    intro i hi ha
    have h1 := hg i hi
    rw [if_neg ha] at h1
    injection h1 with h1
    rw [htsn i hi, ← h1]
  have hsz : Shaped z x.tree x.active (fun i => x.lastDim i * y.lastDim i) (fun i => x.leafSize i * y.leafSize i)
      (List.zipWith (· * ·) (rankShape x r) (rankShape y r)) := by
    refine ⟨rfl, ?_, ?_, ?_, ?_, ?_, ?_, sx.internal, ?_⟩
    · intro i hi hir ha
      exact Nat.mul_pos (sx.rho i hi hir ha) (sy.rho i hi hir (by rw [hc.active i hi]; exact ha))
    · intro c hcl; exact Nat.mul_pos (sx.nu c hcl) (sy.nu c hcl)
    · intro n hn
      obtain ⟨k, hk, rfl⟩ := List.mem_iff_getElem.1 hn
      rw [List.getElem_zipWith]
      have hk' := hk
      rw [List.length_zipWith] at hk'
      exact Nat.mul_ne_zero (sx.rootPos _ (List.getElem_mem _)) (sy.rootPos _ (List.getElem_mem _))
    · rw [List.length_zipWith]; have := sx.rootLen; omega
    · intro c hcl ha
      have hcn := ((hV.leaves c).1 hcl).1
      rw [(hon1 c hcn ha).1, sx.leaf c hcl ha, sy.leaf c hcl (by rw [hc.active c hcn]; exact ha)]; rfl
    · intro c hcl ha
      rw [hoff1 c ((hV.leaves c).1 hcl).1 ha]; exact sx.off c hcl ha
    · intro i hi hl
      have ha := sx.internal i hi hl
      rw [(hon1 i hi ha).1, sx.node i hi hl, sy.node i hi hl, List.zipWith_append (by simp)]
      congr 1
      · rw [List.zipWith_map, List.zipWith_self]
        refine List.map_congr_left (fun c hcc => ?_)
        have hce := (mem_children i c hi).1 hcc
        rw [hc.active c hce.2.1]
        split <;> rfl
      · by_cases hir : IsRoot x.tree i
        · simp only [if_pos hir]
        · simp only [if_neg hir]; rfl
  have hwz := hsz.wf hV hx.order
  have hshx : x.shape = x.tree.dim2ind.map x.leafSize := rfl
  have hshy : y.shape = x.tree.dim2ind.map y.leafSize := by unfold TBT.shape; rw [hc.tree]
  have hshz : z.shape = List.zipWith (· * ·) x.shape y.shape := by
    rw [hsz.shapeEq hV hx.order, hshx, hshy, List.zipWith_map, List.zipWith_self]
  have hlen : x.shape.length = y.shape.length := by rw [hshx, hshy]; simp
  have hrz : rankShape z r = List.zipWith (· * ·) (rankShape x r) (rankShape y r) := hsz.rankShape_root hroot hrl
  obtain ⟨V, hVx⟩ := exists_value x hV
  obtain ⟨W, hWy⟩ := exists_value y hy.valid
  let V' : Nat → List Nat → List Nat → R := fun i idx e =>
    V i (List.zipWith (· / ·) idx y.shape) (List.zipWith (· / ·) e (rs y i)) *
    W i (List.zipWith (· % ·) idx y.shape) (List.zipWith (· % ·) e (rs y i))
  have hrsy : ∀ i, IsNode x.tree i → ¬ IsRoot x.tree i → rs y i = [y.lastDim i] := fun i hi hir =>
    hy.rs_eq (by rw [hc.tree]; exact hi) (by rw [hc.tree]; exact hir)
  have hleafi : ∀ idx, InBox z.shape idx → ∀ c ∈ x.tree.dim2ind,
      (List.zipWith (· / ·) idx y.shape).getD (dimOf x.tree c) 0 = idx.getD (dimOf x.tree c) 0 / y.leafSize c ∧
      (List.zipWith (· % ·) idx y.shape).getD (dimOf x.tree c) 0 = idx.getD (dimOf x.tree c) 0 % y.leafSize c := by
    intro idx hidx c hcl
    have hl : idx.length = y.shape.length := by
      rw [hidx.length_eq, hshz, List.length_zipWith, hlen]; simp
    have hs : y.shape.getD (dimOf x.tree c) 0 = y.leafSize c := by
      have := shape_getD (x := y) (c := c) (by rw [hc.tree]; exact hcl)
      rwa [hc.tree] at this
    rw [zipWith_getD _ (by simp) _ _ hl, zipWith_getD _ (by simp) _ _ hl, hs]
    exact ⟨rfl, rfl⟩
  have hon : IsValueOn z V' := by
    refine ⟨?_, ?_⟩
    · intro c hcl ha idx s hidx hs
      have hcl : c ∈ x.tree.dim2ind := hcl
      have hcn := ((hV.leaves c).1 hcl).1
      have hcr : ¬ IsRoot x.tree c := fun h => hx.root_internal h hcl
      rw [hsz.active hV hx.order hcn] at ha
      rw [hsz.lastDim hcn hcr ha] at hs
      have hay : y.active c = true := by rw [hc.active c hcn]; exact ha
      show V' c idx [s] = (z.tensors c).get [idx.getD (dimOf x.tree c) 0, s]
      have hic := inBox_shape_getD (x := z) hidx hcl
      rw [hsz.leafSize hV hx.order hcl] at hic
      have hic : idx.getD (dimOf x.tree c) 0 < x.leafSize c * y.leafSize c := hic
      have hs : s < x.lastDim c * y.lastDim c := hs
      rw [(hon1 c hcn ha).2 _ (by
        rw [hsz.leaf c hcl ha]
        show InBox [x.leafSize c * y.leafSize c, x.lastDim c * y.lastDim c] _
        exact (inBox_cons_cons _ _ _ _).2 ⟨hic, inBox_one hs⟩),
        sy.leaf c hcl hay]
      show V c _ (List.zipWith (· / ·) [s] (rs y c)) * W c _ (List.zipWith (· % ·) [s] (rs y c)) = _
      obtain ⟨e1, e2⟩ := hleafi idx hidx c hcl
      rw [hrsy c hcn hcr, hVx.leaf c hcl ha, hWy.leaf c (by rw [hc.tree]; exact hcl) hay, hc.tree, e1, e2]
      rfl
    · intro i hi hl idx e hidx he
      have hi : IsNode x.tree i := hi
      have hl : i ∉ x.tree.dim2ind := hl
      have hai := sx.internal i hi hl
      have hcn : ∀ c ∈ x.tree.children i, IsNode x.tree c ∧ ¬ IsRoot x.tree c := fun c hcc => by
        have hce := (mem_children i c hi).1 hcc
        exact ⟨hce.2.1, fun h => h.2 i hce⟩
      have hyn := (hy.node i (by rw [hc.tree]; exact hi) (by rw [hc.tree]; exact hl)).2.1
      rw [hc.tree] at hyn
      have hrsyi : rs y i = rankShape y i := rs_node (by rw [hc.tree]; exact hl)
      show V i _ (List.zipWith (· / ·) e (rs y i)) * W i _ (List.zipWith (· % ·) e (rs y i)) =
        childSum z V' idx (x.tree.children i) (fun t => (z.tensors i).get (t ++ e))
      rw [hrsyi, hVx.node i hi hl, hWy.node i (by rw [hc.tree]; exact hi) (by rw [hc.tree]; exact hl), hc.tree]
      symm
      rw [← childSum_kron (x := x) (y := y) (z := z) rfl hc.tree.symm (V := V) (W := W) (V' := V') (idx := idx) (x.tree.children i)
        (fun c hcc => hsz.active hV hx.order (hcn c hcc).1) (fun c hcc => hc.active c (hcn c hcc).1)
        (fun c hcc ha => hsz.lastDim (hcn c hcc).1 (hcn c hcc).2 ha)
        (by
          intro c hcc ha s
          show V c _ (List.zipWith (· / ·) [s] (rs y c)) * W c _ (List.zipWith (· % ·) [s] (rs y c)) = _
          rw [hrsy c (hcn c hcc).1 (hcn c hcc).2]; rfl)
        (by
          intro c hcc ha
          have hcl := hx.inactive_leaf (hcn c hcc).1 ha
          have : childSize y c = y.leafSize c := by
            unfold childSize; rw [if_neg (by rw [hc.active c (hcn c hcc).1]; exact ha)]
          rw [this]
          exact hleafi idx hidx c hcl)]
      apply childSum_congr
      · intros; rfl
      · intro t ht
        have hzi := (hwz.node i hi hl).2.1
        have hb : InBox (z.tensors i).shape (t ++ e) := by
          rw [hzi]
          exact (inBox_append ht.length_eq).2 ⟨ht, he⟩
        have htl : t.length = (x.tree.children i).length := by simpa using ht.length_eq
        rw [(hon1 i hi hai).2 _ hb, hyn, List.zipWith_append (by simp [htl]), List.zipWith_append (by simp [htl])]
      · intro c hcc hca
        have hcl := hwz.inactive_leaf (hcn c hcc).1 hca
        unfold childSize; rw [if_neg hca]
        exact inBox_shape_getD hidx hcl
  obtain ⟨a, a1, a2, a3⟩ := full_on x hx hVx.on hr
  obtain ⟨b, b1, b2, b3⟩ := full_on y hy hWy.on (r := r) (by rw [hc.tree]; exact hr)
  obtain ⟨w, w1, w2, w3⟩ := full_on z hwz hon hr
  have hrlen := hc.root r hroot
  have hab : a.order = b.order := by
    show a.shape.length = b.shape.length
    rw [a2, b2, List.length_append, List.length_append, hlen, hrlen]
  obtain ⟨v, v1, v2, v3⟩ := FullTensor.kron_spec a b hab
  have hvs : v.shape = w.shape := by
    rw [v2, a2, b2, List.zipWith_append hlen, w2, hshz, hrz]
  refine ⟨z, a, b, w, ?_, hwz, a1, b1, w1, ⟨v, v1, hvs.symm, ?_⟩, rfl, hshz, ?_, ?_⟩
  · unfold kron
    simp only [hfor, bind, Except.bind]
    exact mk_wf hwz
  · intro idx hidx
    rw [v3 idx (by rw [hvs]; exact hidx)]
    rw [w2] at hidx
    obtain ⟨p, e, rfl, hp, he⟩ := inBox_append_split hidx
    rw [w3 p e hp he]
    rw [hshz] at hp
    rw [hrz] at he
    have hpl : p.length = y.shape.length := by rw [hp.length_eq, List.length_zipWith, hlen]; simp
    obtain ⟨i1, i2⟩ := inBox_div hlen hp
    obtain ⟨i3, i4⟩ := inBox_div hrlen.symm he
    rw [b2, List.zipWith_append hpl, List.zipWith_append hpl, a3 _ _ i1 i3, b3 _ _ i2 i4]
    show V r _ (List.zipWith (· / ·) e (rs y r)) * W r _ (List.zipWith (· % ·) e (rs y r)) = _
    rw [rs_node (x := y) (by rw [hc.tree]; exact hrl)]
  · intro r' hr'
    rw [root_unique hV hr' hroot]; exact hrz
  · intro i hi hir ha
    exact ⟨by rw [hsz.active hV hx.order hi]; exact ha, hsz.lastDim hi hir ha⟩

/-! ### the elementwise product -/

theorem diag_lt {i n : Nat} (h : i < n) : i * (n + 1) < n * n := by
  obtain ⟨m, hm⟩ : ∃ m, n = i + 1 + m := ⟨n - i - 1, by omega⟩
  rw [hm]; ring_nf; nlinarith [Nat.zero_le (m * i), Nat.zero_le (m * m)]

theorem diagInd_getD {i n : Nat} (h : i < n) : (diagInd n).getD i 0 = i * (n + 1) := by
  unfold diagInd
  rw [List.getD_eq_getElem _ _ (by simpa using h), List.getElem_map, List.getElem_range]

theorem diag_div {i n : Nat} (h : i < n) : i * (n + 1) / n = i := by
  rw [show i * (n + 1) = i + n * i by ring, Nat.add_mul_div_left _ _ (by omega), Nat.div_eq_of_lt h, Nat.zero_add]

theorem diag_mod {i n : Nat} (h : i < n) : i * (n + 1) % n = i := by
  rw [show i * (n + 1) = i + n * i by ring, Nat.add_mul_mod_self_left, Nat.mod_eq_of_lt h]

theorem diagPick (sh p : List Nat) (h : InBox sh p) :
    List.zipWith (· / ·) (List.zipWith FullTensor.pick (sh.map (fun n => some (diagInd n))) p) sh = p ∧
    List.zipWith (· % ·) (List.zipWith FullTensor.pick (sh.map (fun n => some (diagInd n))) p) sh = p ∧
    InBox (List.zipWith (· * ·) sh sh) (List.zipWith FullTensor.pick (sh.map (fun n => some (diagInd n))) p) := by
  induction sh generalizing p with
  | nil => cases p <;> simp_all
  | cons n sh ih =>
    cases p with
    | nil => simp at h
    | cons i p =>
      rw [inBox_cons_cons] at h
      obtain ⟨h1, h2, h3⟩ := ih p h.2
      simp only [List.map_cons, List.zipWith_cons_cons, FullTensor.pick]
      rw [diagInd_getD h.1, diag_div h.1, diag_mod h.1, h1, h2]
      exact ⟨rfl, rfl, (inBox_cons_cons _ _ _ _).2 ⟨diag_lt h.1, h3⟩⟩

theorem diag_sel (sh : List Nat) (h : ∀ n ∈ sh, n ≠ 0) :
    List.Forall₂ SelOk (sh.map (fun n => some (diagInd n))) (List.zipWith (· * ·) sh sh) := by
  induction sh with
  | nil => exact .nil
  | cons n sh ih =>
    refine .cons ?_ (ih (fun n hn => h n (by simp [hn])))
    intro l hl
    cases hl
    have hn := h n (by simp)
    refine ⟨fun h0 => ?_, fun i hi => ?_⟩
    · have := congrArg List.length h0
      simp [diagInd] at this
      exact hn this
    · simp only [diagInd, List.mem_map, List.mem_range] at hi
      obtain ⟨k, hk, rfl⟩ := hi
      exact diag_lt hk

theorem diag_size (sh : List Nat) :
    List.zipWith FullTensor.pickSize (sh.map (fun n => some (diagInd n))) (List.zipWith (· * ·) sh sh) = sh := by
  induction sh with
  | nil => rfl
  | cons n sh ih => simp only [List.map_cons, List.zipWith_cons_cons, ih]; simp [FullTensor.pickSize, diagInd]

theorem pickSize_none (l : List Nat) : List.zipWith FullTensor.pickSize (List.replicate l.length none) l = l := by
  induction l with
  | nil => rfl
  | cons a l ih => simp only [List.length_cons, List.replicate_succ, List.zipWith_cons_cons, ih]; rfl

theorem pick_none (l : List Nat) : List.zipWith FullTensor.pick (List.replicate l.length none) l = l := by
  induction l with
  | nil => rfl
  | cons a l ih => simp only [List.length_cons, List.replicate_succ, List.zipWith_cons_cons, ih]; rfl

theorem pickOk_none (l : List Nat) : List.Forall₂ FullTensor.PickOk (List.replicate l.length none) l := by
  induction l with
  | nil => exact .nil
  | cons a l ih => exact .cons (fun l h => by cases h) ih

/-- Replacing the tensor of the root by a tensor with another rank axis. -/
theorem root_replace [CommSemiring R] (x : TBT R) (h : WF x) (r : Nat) (hr : x.tree.root = .ok r) (f : Arr R) (E : List Nat)
    (hs : f.shape = (x.tree.children r).map (childSize x) ++ E) (hE : ∀ n ∈ E, n ≠ 0) (hE1 : E.length ≤ 1) :
    ∃ z, full ⟨x.tree, upd x.tensors r f⟩ = .ok z ∧ WF ⟨x.tree, upd x.tensors r f⟩ ∧ z.shape = x.shape ++ E ∧
      (⟨x.tree, upd x.tensors r f⟩ : TBT R).shape = x.shape ∧ rankShape ⟨x.tree, upd x.tensors r f⟩ r = E ∧
      (∀ i, IsNode x.tree i → (⟨x.tree, upd x.tensors r f⟩ : TBT R).active i = x.active i) ∧
      ∀ V, IsValue x V → ∀ idx e, InBox x.shape idx → InBox E e →
        z.get (idx ++ e) = childSum x V idx (x.tree.children r) (fun t => f.get (t ++ e)) := by
  classical
  have hV := h.valid
  obtain ⟨r', hr', hroot⟩ := root_ok hV
  rw [hr] at hr'; cases hr'
  have hrl := h.root_internal hroot
  have sx := h.shaped hroot
  set x' : TBT R := ⟨x.tree, upd x.tensors r f⟩ with hx'
  have hne : ∀ i, i ≠ r → x'.tensors i = x.tensors i := fun i hi => by
    show upd x.tensors r f i = _; unfold upd; rw [if_neg hi]
  have heq : x'.tensors r = f := by show upd x.tensors r f r = _; unfold upd; rw [if_pos rfl]
  have hleaf : ∀ c ∈ x.tree.dim2ind, c ≠ r := fun c hc e => hrl (e ▸ hc)
  have hsz : Shaped x' x.tree x.active x.lastDim x.leafSize E := by
    refine ⟨rfl, sx.rho, sx.nu, hE, hE1, ?_, ?_, sx.internal, ?_⟩
    · intro c hc ha; rw [hne c (hleaf c hc)]; exact sx.leaf c hc ha
    · intro c hc ha; rw [hne c (hleaf c hc)]; exact sx.off c hc ha
    · intro i hi hl
      by_cases hir : i = r
      · subst hir
        rw [heq, hs, if_pos hroot]; rfl
      · rw [hne i hir, sx.node i hi hl]
        have : ¬ IsRoot x.tree i := fun hh => hir (root_unique hV hh hroot)
        rw [if_neg this, if_neg this]
  have hwf := hsz.wf hV h.order
  have hsh : x'.shape = x.shape := hsz.shapeEq hV h.order
  have hrs : rankShape x' r = E := hsz.rankShape_root hroot hrl
  obtain ⟨V, hVx⟩ := exists_value x hV
  let V' : Nat → List Nat → List Nat → R := fun i idx e =>
    if i = r then childSum x V idx (x.tree.children r) (fun t => f.get (t ++ e)) else V i idx e
  have hch : ∀ i, IsNode x.tree i → ∀ idx k, childSum x' V' idx (x.tree.children i) k = childSum x V idx (x.tree.children i) k := by
    intro i hi idx k
    have hcn : ∀ c ∈ x.tree.children i, IsNode x.tree c ∧ ¬ IsRoot x.tree c := fun c hcc => by
      have hce := (mem_children i c hi).1 hcc
      exact ⟨hce.2.1, fun h => h.2 i hce⟩
    rw [childSum_congrX (x := x) (x' := x') rfl V' idx _ k (fun c hc => hsz.active hV h.order (hcn c hc).1)
      (fun c hc ha => hsz.lastDim (hcn c hc).1 (hcn c hc).2 ha)]
    apply childSum_congrV
    intro c hc _ s
    show (if _ then _ else _) = _
    rw [if_neg (fun e : c = r => (hcn c hc).2 (e ▸ hroot))]
  have hon : IsValueOn x' V' := by
    refine ⟨?_, ?_⟩
    · intro c hc ha idx s _ _
      have hc : c ∈ x.tree.dim2ind := hc
      rw [hsz.active hV h.order ((hV.leaves c).1 hc).1] at ha
      show (if _ then _ else _) = _
      rw [if_neg (hleaf c hc), hVx.leaf c hc ha, hne c (hleaf c hc)]
    · intro i hi hl idx e _ _
      rw [show x'.tree.children i = x.tree.children i from rfl, hch i hi]
      show (if _ then _ else _) = _
      by_cases hir : i = r
      · subst hir; rw [if_pos rfl, heq]
      · rw [if_neg hir, hne i hir]; exact hVx.node i hi hl idx e
  obtain ⟨z, z1, z2, z3⟩ := full_on x' hwf hon hr
  refine ⟨z, z1, hwf, by rw [z2, hsh, hrs], hsh, hrs, fun i hi => hsz.active hV h.order hi, ?_⟩
  intro W hW idx e hidx he
  rw [z3 idx e (by rw [hsh]; exact hidx) (by rw [hrs]; exact he)]
  show (if _ then _ else _) = _
  rw [if_pos rfl]
  apply childSum_congrV
  intro c hc ha s
  have hce := (mem_children r c hroot.1).1 hc
  exact value_unique x hV hVx hW c hce.2.1 ha idx [s]

/-- C38. The product of two tensors with vector values of different lengths is refused. -/
theorem mul_refused [CommSemiring R] (x y : TBT R) (hx : WF x) (hy : WF y) (hp : Parallel x y) (hs : y.shape = x.shape)
    (r : Nat) (hr : x.tree.root = .ok r) (h1 : x.rank r > 1) (h2 : y.rank r ≠ x.rank r) :
    mul x y = .error .valueError := by
  obtain ⟨r', hr', hroot⟩ := root_ok hx.valid
  rw [hr] at hr'; cases hr'
  have sx := hx.shaped hroot
  obtain ⟨z, a, b, w, k1, k2, k3, k4, k5, ⟨v, k6, k7⟩, k8, k9, k10, k11⟩ := kron_full x y hx hy hp
  have hpos : ∀ n ∈ x.shape, n ≠ 0 := by
    intro n hn
    unfold TBT.shape at hn
    obtain ⟨c, hcl, rfl⟩ := List.mem_map.1 hn
    have := sx.nu c hcl; omega
  rw [hs] at k9
  obtain ⟨z2, w', w2, d2, s1, _⟩ := subTensor_full z k2 (x.shape.map (fun n => some (diagInd n)))
    (by rw [k9]; exact diag_sel x.shape hpos)
  unfold mul
  simp only [k1, s1, hr, bind, Except.bind, hp.tree]
  rw [if_pos h1, if_pos h2]

/-- `x * y`, the elementwise product, for tensors with the same tree, the same active nodes, the same shape and the
same root rank. -/
theorem mul_full [CommSemiring R] (x y : TBT R) (hx : WF x) (hy : WF y) (hc : Compat x y) :
    ∃ z a b w, mul x y = .ok z ∧ WF z ∧ full x = .ok a ∧ full y = .ok b ∧ full z = .ok w ∧
      w ≃ₐ FullTensor.mul a b ∧ a.shape = b.shape := by
  have hV := hx.valid
  obtain ⟨r, hr, hroot⟩ := root_ok hV
  have hrl := hx.root_internal hroot
  have sx := hx.shaped hroot
  have hpar : Parallel x y := ⟨hc.tree, hc.active, fun r hr => by rw [hc.root r hr]⟩
  obtain ⟨z, a, b, w, k1, k2, k3, k4, k5, ⟨v, k6, k7⟩, k8, k9, k10, k11⟩ := kron_full x y hx hy hpar
  have hpos : ∀ n ∈ x.shape, n ≠ 0 := by
    intro n hn
    unfold TBT.shape at hn
    obtain ⟨c, hcl, rfl⟩ := List.mem_map.1 hn
    have := sx.nu c hcl; omega
  rw [hc.shape] at k9
  obtain ⟨z2, w', w2, d2, s1, s2, s3, s4, s5, s6, s7, s8⟩ := subTensor_full z k2 (x.shape.map (fun n => some (diagInd n)))
    (by rw [k9]; exact diag_sel x.shape hpos)
  rw [k5] at s3; cases s3
  obtain ⟨a', r', a1, a2, a3, a4⟩ := full_spec x hx
  rw [hr] at a2; cases a2
  rw [k3] at a1; cases a1
  obtain ⟨b', r', b1, b2, b3, b4⟩ := full_spec y hy
  rw [hc.tree, hr] at b2; cases b2
  rw [k4] at b1; cases b1
  rw [hc.shape, hc.root r hroot] at b3
  have hab : a.shape = b.shape := by rw [a3, b3]
  have hwsh : w.shape = List.zipWith (· * ·) x.shape x.shape ++ List.zipWith (· * ·) (rankShape x r) (rankShape x r) := by
    obtain ⟨w', r', h1, h2, h3, _⟩ := full_spec z k2
    rw [k8, hr] at h2; cases h2
    rw [k5] at h1; cases h1
    rw [h3, k9, k10 r hroot, hc.root r hroot]
  -- the entries of the sub-tensor
  have hzord : w.order - z.order = (rankShape x r).length := by
    show w.shape.length - z.tree.dim2ind.length = _
    rw [hwsh, k8]; simp [TBT.shape]
  set EE := List.zipWith (· * ·) (rankShape x r) (rankShape x r) with hEE
  have hEElen : EE.length = (rankShape x r).length := by simp [hEE]
  rw [hzord, ← hEElen] at s5
  have hpk : List.Forall₂ FullTensor.PickOk (x.shape.map (fun n => some (diagInd n)) ++ List.replicate EE.length none) w.shape := by
    rw [hwsh]
    refine List.rel_append ?_ (pickOk_none EE)
    exact (diag_sel x.shape hpos).imp (fun i n h l hl => (h l hl).2)
  obtain ⟨d2', e1, e2, e3⟩ := FullTensor.subTensor_spec w _ hpk
  rw [s5] at e1; cases e1
  have hlen0 : (x.shape.map (fun n => some (diagInd n))).length = (List.zipWith (· * ·) x.shape x.shape).length := by simp
  have hd2 : d2.shape = x.shape ++ EE := by
    rw [e2, hwsh, List.zipWith_append hlen0, diag_size, pickSize_none]
  have hrl2 : rankShape z2 r = EE ∧ z2.shape = x.shape := by
    obtain ⟨w', r', h1, h2, h3, _⟩ := full_spec z2 s2
    rw [s8, k8, hr] at h2; cases h2
    rw [s4] at h1; cases h1
    have := s6.1
    rw [h3, hd2] at this
    have hl : z2.shape.length = x.shape.length := by simp [TBT.shape, s8, k8]
    exact ⟨(List.append_inj this hl).2, (List.append_inj this hl).1⟩
  have hw2 : ∀ p e, InBox x.shape p → InBox EE e → w2.get (p ++ e) =
      a.get (p ++ List.zipWith (· / ·) e (rankShape x r)) * b.get (p ++ List.zipWith (· % ·) e (rankShape x r)) := by
    intro p e hp he
    have hb : InBox d2.shape (p ++ e) := by
      rw [hd2]; exact (inBox_append hp.length_eq).2 ⟨hp, he⟩
    rw [s6.2 _ (by rw [s6.1]; exact hb), e3 _ hb]
    obtain ⟨d1, d2, d3⟩ := diagPick x.shape p hp
    have hel : e.length = EE.length := he.length_eq
    rw [List.zipWith_append (by simp [hp.length_eq]), ← hel, pick_none]
    have hwb : InBox w.shape (List.zipWith FullTensor.pick (x.shape.map (fun n => some (diagInd n))) p ++ e) := by
      rw [hwsh]; exact (inBox_append d3.length_eq).2 ⟨d3, he⟩
    rw [k7.2 _ hwb]
    obtain ⟨v', f1, f2, f3⟩ := FullTensor.kron_spec a b (by show a.shape.length = _; rw [hab]; rfl)
    rw [k6] at f1; cases f1
    rw [f3 _ (by rw [← k7.1]; exact hwb), b3, List.zipWith_append (by simp [hp.length_eq]),
      List.zipWith_append (by simp [hp.length_eq]), d1, d2]
  have hrn := hx.node r hroot.1 hrl
  have hrleaf : ¬ x.tree.isLeaf r = true := fun h => hrl ((isLeaf_mem _ _).1 h)
  have hpar0 : x.tree.parent r = 0 := (parent_eq_zero hroot.1).2 hroot
  have hrank : x.rank r = if (rankShape x r).length = 1 then x.lastDim r else 1 := by
    unfold TBT.rank
    rw [if_neg hrleaf, hpar0]
    have : (x.tensors r).order = (x.tree.children r).length + (rankShape x r).length := by
      show (x.tensors r).shape.length = _
      conv_lhs => rw [hrn.2.1]
      simp
    rw [this]
    simp
  have hyrank : y.rank r = x.rank r := by
    have hyn := hy.node r (by rw [hc.tree]; exact hroot.1) (by rw [hc.tree]; exact hrl)
    have hyo : (y.tensors r).order = (x.tree.children r).length + (rankShape x r).length := by
      show (y.tensors r).shape.length = _
      rw [hyn.2.1]
      simp [hc.tree, hc.root r hroot]
    rw [hrank]
    unfold TBT.rank
    rw [hc.tree, if_neg hrleaf, hpar0, hyo]
    by_cases h1 : (rankShape x r).length = 1
    · rw [if_pos (.inr (by omega)), if_pos h1]
      obtain ⟨n, hn⟩ := List.length_eq_one_iff.1 h1
      have q1 := hrn.2.1
      have q2 := hyn.2.1
      rw [hn] at q1
      rw [hc.root r hroot, hn] at q2
      rw [lastDim_of_shape q1, lastDim_of_shape q2]
    · rw [if_neg (by omega), if_neg h1]
  have mulEnd : ∀ (z3 : TBT R) (w3 : Arr R), w3.shape = x.shape ++ rankShape x r →
      (∀ p e, InBox x.shape p → InBox (rankShape x r) e → w3.get (p ++ e) = a.get (p ++ e) * b.get (p ++ e)) →
      w3 ≃ₐ FullTensor.mul a b := by
    intro z3 w3 hs hg
    refine ⟨by show w3.shape = a.shape; rw [hs, a3], ?_⟩
    intro idx hidx
    rw [hs] at hidx
    obtain ⟨p, e, rfl, hp, he⟩ := inBox_append_split hidx
    exact hg p e hp he
  have hmul : mul x y = (if x.rank r > 1 then do
      let t ← FullTensor.subTensor (z2.tensors r) ((List.replicate (z2.tensors r).order none).set ((z2.tensors r).order - 1) (some (diagInd (x.rank r))))
      mk z2.tree (upd z2.tensors r t) else .ok z2) := by
    unfold mul
    simp only [k1, s1, hr, bind, Except.bind, hc.tree, hyrank, ne_eq, not_true, if_false]
  by_cases hN : x.rank r > 1
  · have h1 : (rankShape x r).length = 1 := by
      by_contra h; rw [hrank, if_neg h] at hN; omega
    obtain ⟨n, hn⟩ := List.length_eq_one_iff.1 h1
    have q1 := hrn.2.1
    rw [hn] at q1
    have hld := lastDim_of_shape q1
    have hxr : x.rank r = n := by rw [hrank, if_pos h1, hld]
    have hn0 : n ≠ 0 := by omega
    have hEEn : EE = [n * n] := by rw [hEE, hn]; rfl
    have hz2n := s2.node r (by rw [s8, k8]; exact hroot.1) (by rw [s8, k8]; exact hrl)
    have hch : z2.tree.children r = x.tree.children r := by rw [s8, k8]
    have hash := hz2n.2.1
    rw [hrl2.1, hEEn, hch] at hash
    set A := z2.tensors r with hA
    set pre := (x.tree.children r).map (childSize z2) with hpre
    have hAo : A.order = pre.length + 1 := by show A.shape.length = _; rw [hash]; simp
    have hsel : (List.replicate A.order none).set (A.order - 1) (some (diagInd (x.rank r))) =
        List.replicate pre.length none ++ [some (diagInd n)] := by
      rw [hAo, hxr, List.replicate_succ', Nat.add_sub_cancel, List.set_append_right _ _ (by simp)]
      simp
    obtain ⟨t, t1, t2, t3⟩ := FullTensor.subTensor_spec A (List.replicate pre.length none ++ [some (diagInd n)]) (by
      rw [hash]
      refine List.rel_append (pickOk_none pre) (.cons ?_ .nil)
      intro l hl i hi
      cases hl
      simp only [diagInd, List.mem_map, List.mem_range] at hi
      obtain ⟨k, hk, rfl⟩ := hi
      exact diag_lt hk)
    have ht2 : t.shape = pre ++ [n] := by
      rw [t2, hash, List.zipWith_append (by simp), pickSize_none]
      simp [FullTensor.pickSize, diagInd]
    obtain ⟨w3, m1, m2, m3, m4, m5, _, m6⟩ := root_replace z2 s2 r (by rw [s8, k8]; exact hr) t [n] (by rw [hch]; exact ht2)
      (by simpa using hn0) (by simp)
    refine ⟨⟨z2.tree, upd z2.tensors r t⟩, a, b, w3, ?_, m2, k3, k4, m1, ?_, hab⟩
    · rw [hmul, if_pos hN, hsel, t1]
      simp only [bind, Except.bind]
      exact mk_wf m2
    · refine mulEnd z2 w3 (by rw [m3, hrl2.2, hn]) ?_
      intro p e hp he
      rw [hn] at he
      obtain ⟨s, rfl, hs⟩ := inBox_single he
      obtain ⟨U, hU⟩ := exists_value z2 s2.valid
      rw [m6 U hU p [s] (by rw [hrl2.2]; exact hp) he, hch]
      have hval : childSum z2 U p (x.tree.children r) (fun u => t.get (u ++ [s])) = w2.get (p ++ [s * (n + 1)]) := by
        obtain ⟨w', r', h1, h2, h3, h4⟩ := full_spec z2 s2
        rw [s8, k8, hr] at h2; cases h2
        rw [s4] at h1; cases h1
        rw [h4 U hU p [s * (n + 1)] (by rw [hrl2.2]; exact hp) (by rw [hrl2.1, hEEn]; exact inBox_one (diag_lt hs)),
          hU.node r (by rw [s8, k8]; exact hroot.1) (by rw [s8, k8]; exact hrl), hch]
        apply childSum_congr
        · intros; rfl
        · intro u hu
          have hub : InBox t.shape (u ++ [s]) := by
            rw [ht2]; exact (inBox_append hu.length_eq).2 ⟨hu, inBox_one hs⟩
          rw [t3 _ hub, List.zipWith_append (by simp [hu.length_eq, hpre])]
          have : pre.length = u.length := hu.length_eq.symm
          rw [this, pick_none]
          show A.get (u ++ [(diagInd n).getD s 0]) = _
          rw [diagInd_getD hs]
        · intro c hcc hca
          have hce := (mem_children r c hroot.1).1 hcc
          have hcl := s2.inactive_leaf (by rw [s8, k8]; exact hce.2.1) hca
          unfold childSize; rw [if_neg hca]
          exact inBox_shape_getD (by rw [hrl2.2]; exact hp) hcl
      rw [hval, hw2 p [s * (n + 1)] hp (by rw [hEEn]; exact inBox_one (diag_lt hs)), hn]
      show a.get (p ++ [s * (n + 1) / n]) * b.get (p ++ [s * (n + 1) % n]) = _
      rw [diag_div hs, diag_mod hs]
  · have hE : EE = rankShape x r ∧ ∀ n ∈ rankShape x r, n = 1 := by
      have hlen := hrn.2.2.1
      match hm : rankShape x r with
      | [] => rw [hEE, hm]; simp
      | [n] =>
        have h1 : (rankShape x r).length = 1 := by rw [hm]; rfl
        have q1 := hrn.2.1
        rw [hm] at q1
        rw [hrank, if_pos h1, lastDim_of_shape q1] at hN
        have := sx.rootPos n (by rw [hm]; simp)
        have hn1 : n = 1 := by omega
        subst hn1
        rw [hEE, hm]; simp
      | _ :: _ :: _ => rw [hm] at hlen; simp at hlen
    refine ⟨z2, a, b, w2, ?_, s2, k3, k4, s4, ?_, hab⟩
    · rw [hmul, if_neg hN]
    · refine mulEnd z2 w2 (by rw [s6.1, hd2, hE.1]) ?_
      intro p e hp he
      rw [hw2 p e hp (by rw [hE.1]; exact he)]
      have key : ∀ (l e : List Nat), (∀ n ∈ l, n = 1) → InBox l e → List.zipWith (· / ·) e l = e ∧ List.zipWith (· % ·) e l = e := by
        intro l
        induction l with
        | nil =>
          intro e _ he
          cases e with
          | nil => exact ⟨rfl, rfl⟩
          | cons i e => simp at he
        | cons n l ih =>
          intro e hl he
          cases e with
          | nil => simp at he
          | cons i e =>
            rw [inBox_cons_cons] at he
            obtain ⟨h1, h2⟩ := ih e (fun n hn => hl n (by simp [hn])) he.2
            have hn := hl n (by simp)
            subst hn
            have : i = 0 := by omega
            subst this
            simp [h1, h2]
      obtain ⟨h1, h2⟩ := key _ e hE.2 he
      rw [h1, h2]

end Verif.TreeBased
