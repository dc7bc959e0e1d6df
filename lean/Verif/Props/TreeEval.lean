import Mathlib.Tactic.IntervalCases
import Verif.Lemmas.Weave
import Verif.Props.TreeModes
import Verif.Props.TreeDot

/-! `TreeBasedTensor.tensor_matrix_product_eval_diag`. -/

namespace Verif
namespace TreeBased

open Arr DimTree Finset

variable {R : Type}

theorem tailAxes_of_shape {a : Arr R} {n : Nat} {l : List Nat} (h : a.shape = n :: l) : tailAxes a = List.range' 1 l.length := by
  unfold tailAxes Arr.order
  rw [h]; simp

theorem range'_one (m : Nat) : List.range' 1 m = (List.range m).map (· + 1) := by
  apply List.ext_getElem (by simp)
  intro i h1 h2
  rw [List.getElem_range', List.getElem_map, List.getElem_range]
  omega

/-- The contraction of a node tensor with the outer product of the arrays of a group of children. -/
theorem chain_contract [CommSemiring R] (p : Nat → Bool) (cs : List Nat) (hn : cs.Nodup) (sz : Nat → Nat) (arr : Nat → Arr R)
    (n : Nat) (A : Arr R) (E : List Nat) (hA : A.shape = cs.map sz ++ E) (hne : cs.filter p ≠ [])
    (harr : ∀ c ∈ cs.filter p, (arr c).shape = [n, sz c]) :
    ∃ g, FullTensor.tensordotT (outerChain ((cs.filter p).map arr)) A (tailAxes (outerChain ((cs.filter p).map arr)))
        (posOf p cs) = .ok g ∧
      g.shape = n :: ((cs.filter (fun c => !p c)).map sz ++ E) ∧
      ∀ k t e, t.length = (cs.filter (fun c => !p c)).length → e.length = E.length → g.get (k :: (t ++ e)) =
        sumBox ((cs.filter p).map sz) (fun s =>
          (List.zipWith (fun c j => (arr c).get [k, j]) (cs.filter p) s).prod * A.get (weave p cs s t ++ e)) := by
  have hmf : ((cs.filter p).map (fun c => (arr c, sz c))).map Prod.fst = (cs.filter p).map arr := by
    rw [List.map_map]; rfl
  have hms : ((cs.filter p).map (fun c => (arr c, sz c))).map Prod.snd = (cs.filter p).map sz := by
    rw [List.map_map]; rfl
  obtain ⟨o1, o2⟩ := outerChain_spec n ((cs.filter p).map (fun c => (arr c, sz c))) (by simpa using hne) (by
    intro q hq
    obtain ⟨c, hc, rfl⟩ := List.mem_map.1 hq
    exact harr c hc)
  rw [hmf] at o1 o2
  rw [hms] at o1
  have hta := tailAxes_of_shape o1
  rw [List.length_map, range'_one] at hta
  have hap : applyPerm ((List.range (cs.filter p).length).map (· + 1)) (n :: (cs.filter p).map sz) = (cs.filter p).map sz := by
    rw [applyPerm_succ]
    have := entriesAt_lead ((cs.filter p).map sz) []
    simpa [applyPerm, entriesAt] using this
  have hdr : ∀ (l : List Nat) (k : Nat), dropAxes ((List.range l.length).map (· + 1)) (k :: l) = [k] := by
    intro l k
    rw [dropAxes_succ]
    have := dropAxes_lead l []
    rw [List.append_nil] at this
    rw [this]
  have hS : A.shape = weave p cs ((cs.filter p).map sz) ((cs.filter (fun c => !p c)).map sz) ++ E := by
    rw [weave_map, hA]
  have hdr1 := hdr ((cs.filter p).map sz) n
  rw [List.length_map] at hdr1
  refine ⟨Arr.tensordot (outerChain ((cs.filter p).map arr)) A (tailAxes (outerChain ((cs.filter p).map arr))) (posOf p cs),
    ?_, ?_, ?_⟩
  · unfold FullTensor.tensordotT
    rw [if_pos]
    rw [hta, o1, hap, hS, applyPerm_weave p cs _ _ _ hn (by simp)]
  · simp only [Arr.tensordot]
    rw [o1, hta, hdr1, hS, dropAxes_weave p cs _ _ _ hn (by simp)]
    rfl
  · intro k t e ht he
    simp only [Arr.tensordot]
    rw [o1, hta, hap, hdr1]
    apply sumBox_congr
    intro s hs
    have hsl : s.length = (cs.filter p).length := by simpa using hs.length_eq
    have hm1 : mergeIdx ((List.range (cs.filter p).length).map (· + 1)) s 0 (outerChain ((cs.filter p).map arr)).order
        ((k :: (t ++ e)).take [n].length) = k :: s := by
      have := mergeIdx_self (ax := (List.range s.length).map (· + 1)) (idx := k :: s) (s := s) (by
        rw [applyPerm_succ]
        have := entriesAt_lead s []
        simpa [applyPerm, entriesAt] using this)
      rw [hdr, hsl] at this
      have ho : (outerChain ((cs.filter p).map arr)).order = (k :: s).length := by
        simp [Arr.order, o1, hsl]
      rw [ho]
      exact this
    rw [hm1, o2 k s (by simpa using hsl), List.zipWith_map_left]
    congr 2
    exact mergeIdx_weave p cs s t e hn hsl ht _ (by simp [Arr.order, hA, he])

/-- The contraction of the matrices of the remaining children. -/
theorem chain_diag [CommSemiring R] (cs : List Nat) (sz : Nat → Nat) (arr : Nat → Arr R)
    (n : Nat) (g : Arr R) (E : List Nat) (hg : g.shape = n :: (cs.map sz ++ E)) (hne : cs ≠ [])
    (harr : ∀ c ∈ cs, (arr c).shape = [n, sz c]) :
    (FullTensor.tensordotEvalDiag (outerChain (cs.map arr)) g (tailAxes (outerChain (cs.map arr)))
        (tailAxes (outerChain (cs.map arr))) [0] [0]).shape = n :: E ∧
      ∀ k e, e.length = E.length → (FullTensor.tensordotEvalDiag (outerChain (cs.map arr)) g
        (tailAxes (outerChain (cs.map arr))) (tailAxes (outerChain (cs.map arr))) [0] [0]).get (k :: e) =
        sumBox (cs.map sz) (fun t => (List.zipWith (fun c j => (arr c).get [k, j]) cs t).prod * g.get (k :: (t ++ e))) := by
  have hmf : (cs.map (fun c => (arr c, sz c))).map Prod.fst = cs.map arr := by rw [List.map_map]; rfl
  have hms : (cs.map (fun c => (arr c, sz c))).map Prod.snd = cs.map sz := by rw [List.map_map]; rfl
  obtain ⟨o1, o2⟩ := outerChain_spec n (cs.map (fun c => (arr c, sz c))) (by simpa using hne) (by
    intro q hq
    obtain ⟨c, hc, rfl⟩ := List.mem_map.1 hq
    exact harr c hc)
  rw [hmf] at o1 o2
  rw [hms] at o1
  have hta := tailAxes_of_shape o1
  have hgo : g.order = (cs.length + E.length) + 1 := by simp [Arr.order, hg]
  obtain ⟨h1, h2⟩ := FullTensor.tensordotEvalDiag_spec (outerChain (cs.map arr)) g n (cs.map sz) [] (List.range' 1 (cs.map sz).length)
    [0] (by simpa using o1) (by simp) List.nodup_range' (by
      intro q hq
      have := List.mem_range'_1.1 hq
      rw [List.length_map] at this
      omega) (by simp) (by
      intro q hq; rw [List.mem_singleton.1 hq]; omega) (by
      intro q hq; rw [List.mem_singleton.1 hq]; intro h; have := List.mem_range'_1.1 h; omega)
  have hdrop : dropAxes (List.range' 1 (cs.map sz).length ++ [0]) g.shape = E := by
    rw [hg, range'_one, FullTensor.dropAxes_cons0, dropAxes_lead]
  rw [hdrop] at h1 h2
  rw [hta]
  refine ⟨by simpa using h1, fun k e he => ?_⟩
  have := h2 k [] e rfl he
  rw [List.nil_append] at this
  rw [this]
  apply sumBox_congr
  intro t ht
  have htl : t.length = cs.length := by simpa using ht.length_eq
  rw [List.append_nil, o2 k t (by simpa using htl), List.zipWith_map_left]
  congr 2
  rw [hgo, range'_one]
  have := FullTensor.mergeIdx_cons0 (List.range (cs.map sz).length) t k (by simpa using htl) (cs.length + E.length) e
  refine this.trans ?_
  rw [List.length_map, ← htl, mergeIdx_lead t e _ (by omega)]

/-- The array that stands for a child: its tensor if it is active, else the matrix of its dimension. -/
def childArr [CommSemiring R] (x : TBT R) (ms : List (Arr R)) (ts : Nat → Arr R) (c : Nat) : Arr R :=
  if x.active c then ts c else ms.getD (dimOf x.tree c) ⟨[], fun _ => 0⟩

/-- One node: its tensor contracted with the arrays of its children, with a common first index. -/
theorem evalNode_spec [CommSemiring R] (x : TBT R) (hV : Valid x.tree) (ms : List (Arr R)) (ts : Nat → Arr R) {i : Nat}
    (hi : IsNode x.tree i) (hne : x.tree.children i ≠ []) (n : Nat) (E : List Nat)
    (hA : (ts i).shape = (x.tree.children i).map (childSize x) ++ E)
    (harr : ∀ c ∈ x.tree.children i, (childArr x ms ts c).shape = [n, childSize x c]) :
    ∃ g, evalNode x ms ts i = .ok (upd ts i g) ∧ g.shape = n :: E ∧
      ∀ k e, e.length = E.length → g.get (k :: e) =
        sumBox ((x.tree.children i).map (childSize x)) (fun u =>
          (List.zipWith (fun c j => (childArr x ms ts c).get [k, j]) (x.tree.children i) u).prod * (ts i).get (u ++ e)) := by
  have hn := nodup_children (T := x.tree) i
  have hpos : ∀ p : Nat → Bool, ((x.tree.children i).filter p).map (childAxis x.tree) = posOf p (x.tree.children i) := by
    intro p
    apply List.map_congr_left
    intro c hc
    exact childAxis_eq hV ((mem_children i c hi).1 (List.mem_filter.1 hc).1)
  have hact : ((x.tree.children i).filter x.active).map ts = ((x.tree.children i).filter x.active).map (childArr x ms ts) := by
    apply List.map_congr_left
    intro c hc
    unfold childArr
    rw [if_pos (List.mem_filter.1 hc).2]
  have hinact : ((x.tree.children i).filter (fun c => !x.active c)).map (fun c => ms.getD (x.tree.dim2ind.idxOf c) ⟨[], fun _ => 0⟩) =
      ((x.tree.children i).filter (fun c => !x.active c)).map (childArr x ms ts) := by
    apply List.map_congr_left
    intro c hc
    unfold childArr
    rw [if_neg (by simpa using (List.mem_filter.1 hc).2)]
    rfl
  unfold evalNode evalActive evalInactive
  simp only [hpos, hact, hinact]
  by_cases ha : (x.tree.children i).filter x.active = []
  · -- no active child
    have hall : (x.tree.children i).filter (fun c => !x.active c) = x.tree.children i := by
      rw [List.filter_eq_self]
      intro c hc
      have := List.filter_eq_nil_iff.1 ha c hc
      simpa using this
    have hne' : (x.tree.children i).filter (fun c => !x.active c) ≠ [] := by rw [hall]; exact hne
    obtain ⟨g, g1, g2, g3⟩ := chain_contract (fun c => !x.active c) (x.tree.children i) hn (childSize x) (childArr x ms ts) n
      (ts i) E hA hne' (fun c hc => harr c (List.mem_filter.1 hc).1)
    have hnn : (x.tree.children i).filter (fun c => !(fun c => !x.active c) c) = [] := by simpa using ha
    have e1 : ((x.tree.children i).filter x.active).isEmpty = true := by rw [ha]; rfl
    have e2 : ((x.tree.children i).filter (fun c => !x.active c)).isEmpty = false := by
      rw [List.isEmpty_eq_false_iff]; exact hne'
    refine ⟨g, ?_, ?_, ?_⟩
    · simp only [e1, e2, if_true, bind, Except.bind, Bool.false_eq_true, if_false, g1]
    · rw [g2, hnn]; rfl
    · intro k e he
      have := g3 k [] e (by rw [hnn]) he
      rw [List.nil_append] at this
      rw [this]
      have hw : ∀ s, s.length = (x.tree.children i).length → weave (fun c => !x.active c) (x.tree.children i) s [] = s := by
        have key : ∀ (cs s : List Nat), (∀ c ∈ cs, x.active c = false) → s.length = cs.length →
            weave (fun c => !x.active c) cs s [] = s := by
          intro cs
          induction cs with
          | nil => intro s _ hs; simp at hs; subst hs; rfl
          | cons c cs ih =>
            intro s hc hs
            cases s with
            | nil => simp at hs
            | cons a s =>
              rw [weave, if_pos (by simp [hc c (by simp)]), List.tail_cons, ih s (fun c' hc' => hc c' (by simp [hc']))
                (by simpa using hs)]
              rfl
        intro s hs
        refine key _ s (fun c hc => ?_) hs
        have := List.filter_eq_nil_iff.1 ha c hc
        simpa using this
      rw [hall]
      apply sumBox_congr
      intro s hs
      rw [hw s (by simpa using hs.length_eq)]
  · obtain ⟨g, g1, g2, g3⟩ := chain_contract x.active (x.tree.children i) hn (childSize x) (childArr x ms ts) n
      (ts i) E hA ha (fun c hc => harr c (List.mem_filter.1 hc).1)
    have e1 : ((x.tree.children i).filter x.active).isEmpty = false := by
      rw [List.isEmpty_eq_false_iff]; exact ha
    by_cases hb : (x.tree.children i).filter (fun c => !x.active c) = []
    · have e2 : ((x.tree.children i).filter (fun c => !x.active c)).isEmpty = true := by rw [hb]; rfl
      refine ⟨g, ?_, ?_, ?_⟩
      · simp only [e1, e2, if_true, bind, Except.bind, Bool.false_eq_true, if_false, g1]
      · rw [g2, hb]; rfl
      · intro k e he
        have := g3 k [] e (by rw [hb]) he
        rw [List.nil_append] at this
        rw [this, sumBox_weave x.active (x.tree.children i) (childSize x)]
        rw [hb]
        apply sumBox_congr
        intro s hs
        rw [List.map_nil, sumBox, prod_weave x.active _ s [] _ (by simpa using hs.length_eq) (by rw [hb]), hb]
        simp
    · have e2 : ((x.tree.children i).filter (fun c => !x.active c)).isEmpty = false := by
        rw [List.isEmpty_eq_false_iff]; exact hb
      obtain ⟨d1, d2⟩ := chain_diag ((x.tree.children i).filter (fun c => !x.active c)) (childSize x) (childArr x ms ts) n g E g2 hb
        (fun c hc => harr c (List.mem_filter.1 hc).1)
      refine ⟨_, ?_, d1, ?_⟩
      · simp only [e1, e2, bind, Except.bind, Bool.false_eq_true, if_false, g1]
      · intro k e he
        rw [d2 k e he, sumBox_weave x.active (x.tree.children i) (childSize x), sumBox_comm]
        apply sumBox_congr
        intro t ht
        have htl : t.length = ((x.tree.children i).filter (fun c => !x.active c)).length := by simpa using ht.length_eq
        rw [g3 k t e htl he, ← sumBox_mul_left]
        apply sumBox_congr
        intro s hs
        rw [prod_weave x.active _ s t _ (by simpa using hs.length_eq) htl]
        ring

/-! ### the values that are computed -/

/-- The tree tensor whose values are all one, with one subscript per dimension: the second factor in the weighted sums below. -/
def unitT [One R] (T : DTree) : TBT R := ⟨T, fun _ => ⟨[1], fun _ => 1⟩⟩

theorem unitT_active [One R] (T : DTree) (c : Nat) : (unitT (R := R) T).active c = true := rfl

theorem unitT_shape [One R] (T : DTree) : (unitT (R := R) T).shape = List.replicate T.dim2ind.length 1 := by
  unfold TBT.shape
  rw [List.eq_replicate_iff]
  refine ⟨by simp [unitT], ?_⟩
  intro b hb
  obtain ⟨c, _, rfl⟩ := List.mem_map.1 hb
  rfl

/-- The value of node `i` integrated against weights of the dimensions: the sum over the subscripts of the dimensions below the node
of its value times the weights of the subscripts. -/
def wVal [CommSemiring R] (x : TBT R) (V : Nat → List Nat → List Nat → R) (D : Nat → List Nat) (w : Nat → Nat → R) (i : Nat)
    (e u : List Nat) : R :=
  gram x (unitT x.tree) V (fun _ _ _ => 1) D (fun d a _ => w d a) i e [] u (List.replicate x.order 0)

/-- The same for the axis of a child. -/
def cVal [CommSemiring R] (x : TBT R) (V : Nat → List Nat → List Nat → R) (D : Nat → List Nat) (w : Nat → Nat → R) (c : Nat)
    (s : Nat) (u : List Nat) : R :=
  cgram x (unitT x.tree) V (fun _ _ _ => 1) D (fun d a _ => w d a) c s 0 u (List.replicate x.order 0)

section values

variable [CommSemiring R] (x : TBT R) (hx : WF x) (V : Nat → List Nat → List Nat → R) (hV : IsValue x V) (D : Nat → List Nat)
  (hD : RecDims x.tree D (IsNode x.tree)) (w : Nat → Nat → R) (u : List Nat) (hu : InBox x.shape u)

theorem inBox_unit : InBox (unitT (R := R) x.tree).shape (List.replicate x.order 0) := by
  rw [unitT_shape, inBox_iff_getD]
  refine ⟨by simp [TBT.order], fun k hk => ?_⟩
  rw [List.length_replicate] at hk
  rw [List.getD_eq_getElem _ _ (by simp [TBT.order]; exact hk), List.getD_eq_getElem _ _ (by simpa using hk)]
  simp

theorem cVal_active {c : Nat} (ha : x.active c = true) (s : Nat) : cVal x V D w c s u = wVal x V D w c [s] u := by
  unfold cVal wVal
  rw [cgram_active _ _ _ _ _ _ ha rfl]
  rfl

include hx hD hu in
theorem cVal_inactive {c : Nat} (hc : c ∈ x.tree.dim2ind) (ha : ¬ x.active c = true) (s : Nat) (hs : s < x.leafSize c) :
    cVal x V D w c s u = w (dimOf x.tree c) s := by
  have hd : D c = [dimOf x.tree c] := by
    rw [hD.1 c ((isLeaf_mem _ _).2 hc), initDims_spec hx.valid (dimOf x.tree c) c (dim2ind_dimOf hc)]
  have hlt := dimOf_lt hc
  have hul : dimOf x.tree c < u.length := by rw [hu.length_eq]; simpa [TBT.shape] using hlt
  unfold cVal cgram childVal
  simp only [if_neg ha, unitT_active, if_true, hd, mSum]
  rw [shape_getD hc, unitT_shape, List.getD_eq_getElem _ _ (by simpa using hlt), List.getElem_replicate]
  have e1 : ∀ a, (u.set (dimOf x.tree c) a).getD (dimOf x.tree c) 0 = a := fun a => by rw [getD_set]; simp [hul]
  simp only [e1, sum_range_one]
  rw [sum_eq_single_of_mem s (mem_range.2 hs) (fun a _ hne => by rw [if_neg hne]; ring)]
  simp

include hx hD hV hu in
theorem wVal_leaf {c : Nat} (hc : c ∈ x.tree.dim2ind) (ha : x.active c = true) (s : Nat) :
    wVal x V D w c [s] u = ∑ a ∈ range (x.leafSize c), w (dimOf x.tree c) a * (x.tensors c).get [a, s] := by
  have hd : D c = [dimOf x.tree c] := by
    rw [hD.1 c ((isLeaf_mem _ _).2 hc), initDims_spec hx.valid (dimOf x.tree c) c (dim2ind_dimOf hc)]
  have hlt := dimOf_lt hc
  have hul : dimOf x.tree c < u.length := by rw [hu.length_eq]; simpa [TBT.shape] using hlt
  unfold wVal gram
  simp only [hd, mSum]
  rw [shape_getD hc, unitT_shape, List.getD_eq_getElem _ _ (by simpa using hlt), List.getElem_replicate]
  refine sum_congr rfl (fun a _ => ?_)
  rw [sum_range_one, mul_one, hV.leaf c hc ha, getD_set, if_pos ⟨rfl, hul⟩]

include hx hD hV hu in
theorem wVal_node {i : Nat} (hi : IsNode x.tree i) (hl : i ∉ x.tree.dim2ind) (e : List Nat) :
    wVal x V D w i e u = sumBox ((x.tree.children i).map (childSize x)) (fun t =>
      (List.zipWith (fun c s => cVal x V D w c s u) (x.tree.children i) t).prod * (x.tensors i).get (t ++ e)) := by
  have hlf : x.tree.isLeaf i = false := by
    by_contra hc; exact hl ((isLeaf_mem _ _).1 (by simpa using hc))
  have hch : ∀ c ∈ x.tree.children i, Edge x.tree i c := fun c hc => (mem_children i c hi).1 hc
  have hpw : (x.tree.children i).Pairwise (fun c c' => (D c).Disjoint (D c')) := by
    obtain ⟨l, hil⟩ := exists_level hx.valid hi
    refine List.Pairwise.imp_of_mem ?_ (nodup_children (T := x.tree) i)
    intro a b ha hb hab
    exact recDims_disjoint hx.valid hD (.child hil (hch a ha)) (.child hil (hch b hb)) hab
  have hone : ∀ (cs q : List Nat) (m : Nat), childProd (unitT x.tree) (fun _ _ _ => (1 : R)) cs q (List.replicate m 0) = 1 := by
    intro cs q
    unfold childProd
    induction cs with
    | nil => intro m; simp
    | cons c cs ih =>
      intro m
      cases m with
      | zero => simp
      | succ m =>
        rw [List.replicate_succ, List.zipWith_cons_cons, List.prod_cons, ih m]
        simp [childVal, unitT_active]
  unfold wVal gram
  rw [hD.2 i hi hlf]
  have h1 : ∀ p q, InBox x.shape p → InBox (unitT (R := R) x.tree).shape q → V i p e * 1 =
      sumBox ((x.tree.children i).map (childSize x)) (fun t => (x.tensors i).get (t ++ e) *
        (childProd x V (x.tree.children i) p t * childProd (unitT x.tree) (fun _ _ _ => (1 : R)) (x.tree.children i) q
          (List.replicate (x.tree.children i).length 0))) := by
    intro p q hp _
    rw [hV.node i hi hl p e, childSum_box x V p, mul_one]
    · apply sumBox_congr
      intro t _
      rw [hone]; ring
    · intro c hc ha
      have hcl := hx.inactive_leaf (hch c hc).2.1 ha
      unfold childSize; rw [if_neg ha]; exact inBox_shape_getD hp hcl
  rw [mSum_congr _ hu (inBox_unit x) h1, mSum_sumBox]
  apply sumBox_congr
  intro t htb
  have htl : t.length = (x.tree.children i).length := by simpa using htb.length_eq
  rw [mSum_mul, mSum_children' x (unitT x.tree) V (fun _ _ _ => 1) D (fun d a _ => w d a) (x.tree.children i) t
    (List.replicate (x.tree.children i).length 0) (fun c hc => ⟨fun d hd p a s =>
      childVal_indep x hx V hV D hD (hch c hc).2.1 s hd p a, fun d hd p a s => by simp [childVal, unitT_active]⟩) hpw htl (by simp)]
  rw [mul_comm]
  congr 1
  congr 1
  apply List.ext_getElem (by simp [htl])
  intro k h1 h2
  simp [cVal]

include hx hD in
/-- At the root: the sum over all the subscripts. -/
theorem wVal_root {r : Nat} (hr : IsRoot x.tree r) (e : List Nat) (hul : u.length = x.order) :
    wVal x V D w r e u = sumBox x.shape (fun p => ((List.range x.order).map (fun d => w d (p.getD d 0))).prod * V r p e) := by
  have hls : x.shape.length = x.order := by simp [TBT.shape, TBT.order]
  unfold wVal
  rw [gram_root x (unitT x.tree) hx V _ D hD _ hr (by rw [unitT_shape, hls]; simp [TBT.order]) e [] _ _ (by rw [hls, hul])
    (by rw [unitT_shape]; simp [TBT.order])]
  apply sumBox_congr
  intro p _
  rw [unitT_shape, hls]
  have : ∀ m (c : R), sumBox (List.replicate m 1) (fun _ => c) = c := by
    intro m c
    induction m with
    | zero => rfl
    | succ m ih => rw [List.replicate_succ, sumBox, sum_range_one, ih]
  rw [this, mul_one]

end values

/-! ### the products with the matrices of the active leaves -/

/-- A loop on the dimensions of distinct active leaves only changes the tensors of these leaves. -/
theorem forDims_leaves [CommSemiring R] (x : TBT R) (hV : Valid x.tree) (f : Arr R → Arr R → Nat → Py (Arr R)) (M : Nat → Arr R)
    (g : Nat → Arr R) (l : List Nat) (hnd : l.Nodup) (hlt : ∀ d ∈ l, d < x.order)
    (hact : ∀ d ∈ l, x.active (x.tree.dim2ind.getD d 0) = true) (hf : ∀ d ∈ l, f (x.tensors (x.tree.dim2ind.getD d 0)) (M d) 0 = .ok (g d)) :
    ∃ ts, forDims x (l.map (fun d => (M d, d))) f = .ok ts ∧ (∀ d ∈ l, ts (x.tree.dim2ind.getD d 0) = g d) ∧
      ∀ i, (∀ d ∈ l, i ≠ x.tree.dim2ind.getD d 0) → ts i = x.tensors i := by
  unfold forDims
  have key : ∀ (l : List Nat) (ts : Nat → Arr R), l.Nodup → (∀ d ∈ l, d < x.order) →
      (∀ d ∈ l, x.active (x.tree.dim2ind.getD d 0) = true) →
      (∀ d ∈ l, f (ts (x.tree.dim2ind.getD d 0)) (M d) 0 = .ok (g d)) →
      ∃ ts', (l.map (fun d => (M d, d))).foldlM (fun ts p => do
        let c := carrier x (x.tree.dim2ind.getD p.2 0)
        .ok (upd ts c.1 (← f (ts c.1) p.1 c.2))) ts = (.ok ts' : Py _) ∧ (∀ d ∈ l, ts' (x.tree.dim2ind.getD d 0) = g d) ∧
        ∀ i, (∀ d ∈ l, i ≠ x.tree.dim2ind.getD d 0) → ts' i = ts i := by
    intro l
    induction l with
    | nil => intro ts _ _ _ _; exact ⟨ts, rfl, by simp, fun _ _ => rfl⟩
    | cons d l ih =>
      intro ts hnd hlt hact hf
      rw [List.nodup_cons] at hnd
      have hinj : ∀ d' ∈ l, x.tree.dim2ind.getD d' 0 ≠ x.tree.dim2ind.getD d 0 := by
        intro d' hd' he
        have h1 : d' < x.tree.dim2ind.length := hlt d' (by simp [hd'])
        have h2 : d < x.tree.dim2ind.length := hlt d (by simp)
        rw [List.getD_eq_getElem _ _ h1, List.getD_eq_getElem _ _ h2] at he
        exact hnd.1 ((hV.nodup.getElem_inj_iff.1 he) ▸ hd')
      have hc : carrier x (x.tree.dim2ind.getD d 0) = (x.tree.dim2ind.getD d 0, 0) := by
        unfold carrier; rw [if_pos (hact d (by simp))]
      obtain ⟨ts', t1, t2, t3⟩ := ih (upd ts (x.tree.dim2ind.getD d 0) (g d)) hnd.2 (fun d' hd' => hlt d' (by simp [hd']))
        (fun d' hd' => hact d' (by simp [hd'])) (fun d' hd' => by
          rw [upd, if_neg (hinj d' hd')]
          exact hf d' (by simp [hd']))
      refine ⟨ts', ?_, ?_, ?_⟩
      · rw [List.map_cons, List.foldlM_cons]
        simp only [hc, hf d (by simp), bind, Except.bind] at t1 ⊢
        exact t1
      · intro d' hd'
        rcases List.mem_cons.1 hd' with rfl | hd'
        · rw [t3 _ (fun d'' hd'' => (hinj d'' hd'').symm), upd, if_pos rfl]
        · exact t2 d' hd'
      · intro i hi'
        rw [t3 i (fun d' hd' => hi' d' (by simp [hd'])), upd, if_neg (hi' d (by simp))]
  exact key l x.tensors hnd hlt hact hf

/-! ### the loop -/

/-- C93. `tensor_matrix_product_eval_diag(matrices)` of a tree-based tensor, for matrices with the same number `n` of rows: entry
`k` (and, for a root with a rank axis, each of its subscripts `e`) is the full contraction of the tensor with the rows `k` of the
matrices. -/
theorem tensorMatrixProductEvalDiag_full [CommSemiring R] (x : TBT R) (hx : WF x) (r : Nat) (hr : x.tree.root = .ok r)
    (ms : List (Arr R)) (n : Nat) (hml : ms.length = x.order)
    (hms : ∀ d, d < x.order → (ms.getD d ⟨[], fun _ => 0⟩).shape = [n, x.shape.getD d 0]) :
    ∃ a y, full x = .ok a ∧ tensorMatrixProductEvalDiag x ms = .ok y ∧ y.shape = n :: rankShape x r ∧
      ∀ k e, k < n → InBox (rankShape x r) e → y.get (k :: e) = sumBox x.shape (fun idx => a.get (idx ++ e) *
        (List.zipWith (fun (M : Arr R) j => M.get [k, j]) ms idx).prod) := by
  obtain ⟨r', hr', hroot⟩ := root_ok hx.valid
  rw [hr] at hr'; cases hr'
  obtain ⟨D, _, hD⟩ := dims_ok hx.valid
  obtain ⟨V, hV⟩ := exists_value x hx.valid
  obtain ⟨a, a1, a2, a3⟩ := full_on x hx hV.on hr
  obtain ⟨lev, hlv, hlev⟩ := level_ok hx.valid
  have hrl := hx.root_internal hroot
  have hu := inBox_zeros hx
  generalize x.shape.map (fun _ => 0) = u at hu
  let w : Nat → Nat → Nat → R := fun k d j => (ms.getD d ⟨[], fun _ => 0⟩).get [k, j]
  -- the products with the matrices of the active leaves
  let ind := (List.range x.order).filter (fun d => x.active (x.tree.dim2ind.getD d 0))
  have hindlt : ∀ d ∈ ind, d < x.order := fun d hd => List.mem_range.1 (List.mem_filter.1 hd).1
  have hindact : ∀ d ∈ ind, x.active (x.tree.dim2ind.getD d 0) = true := fun d hd => (List.mem_filter.1 hd).2
  have hindnd : ind.Nodup := List.nodup_range.filter _
  have hmem : ∀ d, d < x.order → x.tree.dim2ind.getD d 0 ∈ x.tree.dim2ind := fun d hd => dim2ind_getD_mem hd
  have hdim : ∀ d, d < x.order → dimOf x.tree (x.tree.dim2ind.getD d 0) = d := fun d hd => dimOf_getD hx.valid hd
  have hleafs : ∀ d ∈ ind, ∃ g, FullTensor.tensorMatrixProduct (x.tensors (x.tree.dim2ind.getD d 0))
      [ms.getD d ⟨[], fun _ => 0⟩] (some [0]) = .ok g ∧ g.shape = [n, x.lastDim (x.tree.dim2ind.getD d 0)] ∧
      ∀ k s, k < n → s < x.lastDim (x.tree.dim2ind.getD d 0) → g.get [k, s] = wVal x V D (w k) (x.tree.dim2ind.getD d 0) [s] u := by
    intro d hd
    have hdl := hindlt d hd
    have hc := hmem d hdl
    obtain ⟨m, q, hsh⟩ := hx.leaf _ hc (hindact d hd)
    have l1 : x.leafSize (x.tree.dim2ind.getD d 0) = m := by unfold TBT.leafSize; rw [if_pos (hindact d hd), hsh]; rfl
    have d1 : x.lastDim (x.tree.dim2ind.getD d 0) = q := lastDim_of_shape (s := [m]) hsh
    have hsd : x.shape.getD d 0 = m := by
      have := shape_getD (x := x) hc
      rwa [hdim d hdl, l1] at this
    have hM := hms d hdl
    rw [hsd] at hM
    obtain ⟨g, g1, g2, g3⟩ := tmp_lead (x.tensors (x.tree.dim2ind.getD d 0)) [ms.getD d ⟨[], fun _ => 0⟩] [m] [q] hsh
      (List.Forall₂.cons ⟨n, hM⟩ .nil)
    refine ⟨g, g1, by rw [g2, d1]; simp only [List.map_cons, List.map_nil, hM]; rfl, fun k s hk hs => ?_⟩
    rw [d1] at hs
    have := g3 [k] [s] (by simp only [List.map_cons, List.map_nil, hM]; simpa using hk) (by simpa using hs)
    simp only [List.singleton_append] at this
    rw [this, wVal_leaf x hx V hV D hD (w k) u hu hc (hindact d hd), l1, hdim d hdl, sumBox_singleton]
    refine sum_congr rfl (fun b _ => ?_)
    simp [w, mul_comm]
  have hfd : ∃ z ts, tensorMatrixProduct x (ind.map (fun d => ms.getD d ⟨[], fun _ => 0⟩)) (some ind) = .ok z ∧ z.tensors = ts ∧
      (∀ d ∈ ind, (ts (x.tree.dim2ind.getD d 0)).shape = [n, x.lastDim (x.tree.dim2ind.getD d 0)] ∧
        ∀ k s, k < n → s < x.lastDim (x.tree.dim2ind.getD d 0) → (ts (x.tree.dim2ind.getD d 0)).get [k, s] =
          wVal x V D (w k) (x.tree.dim2ind.getD d 0) [s] u) ∧
      ∀ i, (∀ d ∈ ind, i ≠ x.tree.dim2ind.getD d 0) → ts i = x.tensors i := by
    have hleafs' : ∀ d, ∃ g : Arr R, d ∈ ind → FullTensor.tensorMatrixProduct (x.tensors (x.tree.dim2ind.getD d 0))
      [ms.getD d ⟨[], fun _ => 0⟩] (some [0]) = .ok g ∧ g.shape = [n, x.lastDim (x.tree.dim2ind.getD d 0)] ∧
      ∀ k s, k < n → s < x.lastDim (x.tree.dim2ind.getD d 0) → g.get [k, s] = wVal x V D (w k) (x.tree.dim2ind.getD d 0) [s] u := by
      intro d
      by_cases hd : d ∈ ind
      · obtain ⟨g, hg⟩ := hleafs d hd
        exact ⟨g, fun _ => hg⟩
      · exact ⟨⟨[], fun _ => 0⟩, fun h => absurd h hd⟩
    choose G hG using hleafs'
    have hG1 := fun d hd => (hG d hd).1
    have hG2 := fun d hd => (hG d hd).2.1
    have hG3 := fun d hd => (hG d hd).2.2
    obtain ⟨ts, t1, t2, t3⟩ := forDims_leaves x hx.valid (fun a M axis => FullTensor.tensorMatrixProduct a [M] (some [axis]))
      (fun d => ms.getD d ⟨[], fun _ => 0⟩) G ind hindnd hindlt hindact hG1
    have hin : ∀ i, IsNode x.tree i → i ∉ x.tree.dim2ind → ts i = x.tensors i := by
      intro i _ hil
      apply t3
      intro d hd he
      exact hil (he ▸ hmem d (hindlt d hd))
    refine ⟨⟨x.tree, ts⟩, ts, ?_, rfl, ?_, t3⟩
    · unfold tensorMatrixProduct
      simp only [Option.getD_some]
      rw [if_neg (by simp), if_neg (by
        simp only [List.any_eq_true, decide_eq_true_eq, not_exists, not_and, not_le]
        exact hindlt)]
      have hpairs : ind.map (fun d => ((ind.map (fun d => ms.getD d ⟨[], fun _ => 0⟩)).getD (ind.idxOf d) ⟨[], fun _ => 0⟩, d)) =
          ind.map (fun d => (ms.getD d ⟨[], fun _ => 0⟩, d)) := by
        apply List.map_congr_left
        intro d hd
        have hi := List.idxOf_lt_length_of_mem hd
        rw [List.getD_eq_getElem _ _ (by simpa using hi), List.getElem_map, List.getElem_idxOf hi]
      rw [hpairs, t1]
      show mk x.tree ts = _
      unfold mk
      rw [if_pos]
      rw [List.all_eq_true]
      intro i hi
      unfold DTree.internalNodes at hi
      rw [List.mem_filter, mem_nodes] at hi
      have h1 := hi.1
      have h2 : i ∉ x.tree.dim2ind := fun hm => by
        have := hi.2
        rw [List.contains_iff_mem.2 hm] at this
        simp at this
      have := (hx.node i h1 h2).1
      unfold TBT.active at this ⊢
      show ((ts i).shape.prod != 0) = true
      rw [hin i h1 h2]
      exact this
    · intro d hd
      rw [t2 d hd]
      exact ⟨hG2 d hd, hG3 d hd⟩
  obtain ⟨z, ts0, z1, z2, z3, z4⟩ := hfd
  -- the loop
  let GL := fun (ts : Nat → Arr R) (c : Nat) => (ts c).shape = [n, x.lastDim c] ∧
      ∀ k s, k < n → s < x.lastDim c → (ts c).get [k, s] = wVal x V D (w k) c [s] u
  let GR := fun (ts : Nat → Arr R) (i : Nat) => (ts i).shape = n :: rankShape x i ∧
      ∀ k e, k < n → InBox (rankShape x i) e → (ts i).get (k :: e) = wVal x V D (w k) i e u
  have hdd : ∀ c ∈ x.tree.dim2ind, x.tree.dim2ind.getD (dimOf x.tree c) 0 = c := by
    intro c hc
    rw [List.getD_eq_getElem?_getD, dim2ind_dimOf hc]; rfl
  have hleaf_of : ∀ i, x.tree.isLeaf i = false ↔ i ∉ x.tree.dim2ind := by
    intro i
    constructor
    · intro hq hm
      rw [(isLeaf_mem _ _).2 hm] at hq; simp at hq
    · intro hq
      by_contra hh; exact hq ((isLeaf_mem _ _).1 (by simpa using hh))
  have hnodes : ∀ l i, i ∈ (internalAt x.tree lev l).filter x.active ↔ IsNode x.tree i ∧ lev i = l ∧ x.tree.isLeaf i = false := by
    intro l i
    rw [List.mem_filter, mem_internalAt]
    constructor
    · exact fun h => h.1
    · intro h
      exact ⟨h, (hx.node i h.1 ((hleaf_of i).1 h.2.2)).1⟩
  obtain ⟨ts1, p1, p2, p3, p4⟩ := bottomUp hx.valid hlev (evalNode x ms) (fun i => x.tree.isLeaf i = false)
    (fun l => (internalAt x.tree lev l).filter x.active) hnodes (fun l => (nodup_internalAt x.tree lev l).filter _)
    (fun ts P => (∀ c ∈ x.tree.dim2ind, x.active c = true → GL ts c) ∧
      (∀ i, IsNode x.tree i → x.tree.isLeaf i = false → P i → GR ts i) ∧
      (∀ i, IsNode x.tree i → x.tree.isLeaf i = false → ¬ P i → ts i = x.tensors i))
    (by
      intro ts P i ⟨i1, i2, i3⟩ hi hq hnP hch hpar
      have hil := (hleaf_of i).1 hq
      have hti := i3 i hi hq hnP
      have hsi := (hx.node i hi hil)
      have hex : x.tree.children i ≠ [] := by
        intro hno
        refine hil ((hx.valid.leaves i).2 ⟨hi, fun c hc => ?_⟩)
        have := (mem_children i c hi).2 hc
        rw [hno] at this; simp at this
      have hcarr : ∀ c ∈ x.tree.children i, (childArr x ms ts c).shape = [n, childSize x c] ∧
          ∀ k s, k < n → s < childSize x c → (childArr x ms ts c).get [k, s] = cVal x V D (w k) c s u := by
        intro c hc
        have hc := (mem_children i c hi).1 hc
        by_cases ha : x.active c = true
        · have e1 : childArr x ms ts c = ts c := by unfold childArr; rw [if_pos ha]
          have e2 : childSize x c = x.lastDim c := by unfold childSize; rw [if_pos ha]
          rw [e1, e2]
          by_cases hcl : c ∈ x.tree.dim2ind
          · obtain ⟨g1, g2⟩ := i1 c hcl ha
            refine ⟨g1, fun k s hk hs => ?_⟩
            rw [cVal_active x V D (w k) u ha]
            exact g2 k s hk hs
          · have hcf := (hleaf_of c).2 hcl
            have hcr : ¬ IsRoot x.tree c := WF.child_not_root hc
            obtain ⟨b1, b2⟩ := i2 c hc.2.1 hcf (hch c hc hcf)
            have e3 : rankShape x c = [x.lastDim c] := by
              have := hx.rs_eq hc.2.1 hcr; rwa [rs_node hcl] at this
            refine ⟨by rw [b1, e3], fun k s hk hs => ?_⟩
            rw [cVal_active x V D (w k) u ha]
            exact b2 k [s] hk (by rw [e3]; simpa using hs)
        · have e1 : childArr x ms ts c = ms.getD (dimOf x.tree c) ⟨[], fun _ => 0⟩ := by unfold childArr; rw [if_neg ha]
          have e2 : childSize x c = x.leafSize c := by unfold childSize; rw [if_neg ha]
          have hcl := hx.inactive_leaf hc.2.1 ha
          rw [e1, e2]
          refine ⟨by rw [hms _ (dimOf_lt hcl), shape_getD hcl], fun k s hk hs => ?_⟩
          rw [cVal_inactive x hx V D hD (w k) u hu hcl ha s hs]
      obtain ⟨g, q1, q2, q3⟩ := evalNode_spec x hx.valid ms ts hi hex n (rankShape x i) (by rw [hti]; exact hsi.2.1)
        (fun c hc => (hcarr c hc).1)
      refine ⟨upd ts i g, q1, ?_, ?_, ?_⟩
      · intro c hc ha
        have hne : c ≠ i := fun h => hil (h ▸ hc)
        simp only [GL, upd, if_neg hne]
        exact i1 c hc ha
      · intro j hj hjl hP
        by_cases hji : j = i
        · subst hji
          simp only [GR, upd, if_true]
          refine ⟨q2, fun k e hk he => ?_⟩
          rw [q3 k e he.length_eq, wVal_node x hx V hV D hD (w k) u hu hi hil e, hti]
          apply sumBox_congr
          intro t ht
          congr 2
          apply List.ext_getElem (by simp)
          intro m h1 h2
          rw [List.getElem_zipWith, List.getElem_zipWith]
          have hm : m < (x.tree.children j).length := by simp at h1; omega
          refine (hcarr _ (List.getElem_mem hm)).2 k _ hk ?_
          have htl : m < t.length := by rw [ht.length_eq]; simpa using hm
          have := ((inBox_iff_getD _ _).1 ht).2 m (by simpa using hm)
          rw [List.getD_eq_getElem _ _ htl, List.getD_eq_getElem _ _ (by simpa using hm), List.getElem_map] at this
          exact this
        · simp only [GR, upd, if_neg hji]
          exact i2 j hj hjl (hP.resolve_right hji)
      · intro j hj hjl hP
        have hji : j ≠ i := fun h => hP (Or.inr h)
        rw [upd, if_neg hji]
        exact i3 j hj hjl (fun h => hP (Or.inl h)))
    (x.tree.maxLevel lev + 1) ts0 (by
      refine ⟨?_, ?_, ?_⟩
      · intro c hc ha
        have := z3 (dimOf x.tree c) (by
          refine List.mem_filter.2 ⟨List.mem_range.2 (dimOf_lt hc), ?_⟩
          rw [hdd c hc]; exact ha)
        rwa [hdd c hc] at this
      · intro i hi hl ⟨_, _, hle⟩
        exfalso
        have hil := (hleaf_of i).1 hl
        have hex : ∃ c, Edge x.tree i c := by
          by_contra hno
          push Not at hno
          exact hil ((hx.valid.leaves i).2 ⟨hi, hno⟩)
        obtain ⟨c, hc⟩ := hex
        obtain ⟨k, hk⟩ := exists_level hx.valid hi
        have h1 := hlev i k hk
        have h2 := hlev c (k + 1) (.child hk hc)
        have h3 := lev_le_maxLevel lev hc.2.1
        omega
      · intro i hi hl _
        apply z4
        intro d hd he
        exact (hleaf_of i).1 hl (he ▸ hmem d (hindlt d hd)))
  have hrf := (hleaf_of r).2 hrl
  obtain ⟨y1, y2⟩ := p3 r hroot.1 hrf ⟨hroot.1, hrf⟩
  refine ⟨a, ts1 r, a1, ?_, y1, fun k e hk he => ?_⟩
  · unfold tensorMatrixProductEvalDiag
    have z1' : tensorMatrixProduct x (((List.range x.order).filter (fun d => x.active (x.tree.dim2ind.getD d 0))).map
      (fun d => ms.getD d ⟨[], fun _ => 0⟩)) (some ((List.range x.order).filter (fun d => x.active (x.tree.dim2ind.getD d 0)))) = .ok z := z1
    simp only [z1', hr, hlv, z2, bind, Except.bind]
    rw [p1]
  · rw [y2 k e hk he, wVal_root x hx V D hD (w k) u hroot e (by rw [hu.length_eq]; simp [TBT.shape, TBT.order])]
    apply sumBox_congr
    intro idx hidx
    rw [a3 idx e hidx he, mul_comm]
    congr 2
    have hil : idx.length = x.order := by rw [hidx.length_eq]; simp [TBT.shape, TBT.order]
    apply List.ext_getElem (by simp [hml, hil])
    intro m h1 h2
    have hm : m < x.order := by simpa using h1
    simp only [List.getElem_map, List.getElem_range, List.getElem_zipWith, w]
    rw [List.getD_eq_getElem _ _ (by omega), List.getD_eq_getElem _ _ (by omega)]

/-- Non-vacuity of `tensorMatrixProductEvalDiag_full`: a tree with an inactive leaf and dimensions of different sizes. -/
example : WF exT ∧ exT.tree.root = .ok 1 ∧ ∀ d, d < exT.order → (([⟨[5, 3], fun i => i.sum⟩, ⟨[5, 2], fun i => i.prod⟩,
    ⟨[5, 2], fun i => 1 + i.sum⟩] : List (Arr Int)).getD d ⟨[], fun _ => 0⟩).shape = [5, exT.shape.getD d 0] :=
  ⟨exT_wf, by decide +kernel, by
    intro d hd
    have hd : d < 3 := hd
    interval_cases d <;> decide +kernel⟩

example : (match tensorMatrixProductEvalDiag exT [⟨[5, 3], fun i => (i.getD 0 0 : Int)⟩, ⟨[5, 2], fun i => (i.getD 1 0 : Int)⟩,
      ⟨[5, 2], fun i => 1 + (i.getD 0 0 : Int)⟩], full exT with
    | .ok y, .ok a => some (y.shape, y.get [2] = 2 * 3 * ∑ i ∈ range 3, ∑ k ∈ range 2, a.get [i, 1, k]) | _, _ => none) =
    some ([5], true) := by decide +kernel

end TreeBased
end Verif
