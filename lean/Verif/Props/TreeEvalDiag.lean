import Verif.Props.TreeEval
import Verif.Props.TreeOrth
import Verif.Props.FullTensorIndex

/-! `TreeBasedTensor.eval_diag()`. -/

namespace Verif
namespace TreeBased

open Arr DimTree Finset

variable {R : Type}

theorem weave_not (p : Nat → Bool) (cs s t : List Nat) : weave p cs s t = weave (fun c => !p c) cs t s := by
  induction cs generalizing s t with
  | nil => rfl
  | cons c cs ih =>
    unfold weave
    by_cases h : p c = true
    · rw [if_pos h, if_neg (by simp [h]), ih]
    · rw [if_neg h, if_pos (by simpa using h), ih]

theorem applyPerm_weave_not (p : Nat → Bool) (cs s t e : List Nat) (hn : cs.Nodup)
    (ht : t.length = (cs.filter (fun c => !p c)).length) :
    applyPerm (posOf (fun c => !p c) cs) (weave p cs s t ++ e) = t := by
  rw [weave_not]
  exact applyPerm_weave _ cs t s e hn ht

theorem posOf_lt {p : Nat → Bool} {cs : List Nat} {q : Nat} (h : q ∈ posOf p cs) : q < cs.length := by
  unfold posOf at h
  obtain ⟨c, hc, rfl⟩ := List.mem_map.1 h
  exact List.idxOf_lt_length_of_mem (List.mem_filter.1 hc).1

theorem posOf_nodup {p : Nat → Bool} {cs : List Nat} (hn : cs.Nodup) : (posOf p cs).Nodup := by
  unfold posOf
  refine List.Nodup.map_on ?_ (hn.filter _)
  intro a ha b hb h
  exact (List.idxOf_inj (List.mem_filter.1 ha).1).1 h

theorem posOf_disjoint {p : Nat → Bool} {cs : List Nat} {q : Nat} (h : q ∈ posOf (fun c => !p c) cs) : q ∉ posOf p cs := by
  intro h'
  unfold posOf at h h'
  obtain ⟨c, hc, rfl⟩ := List.mem_map.1 h
  obtain ⟨c', hc', he⟩ := List.mem_map.1 h'
  have := (List.idxOf_inj (List.mem_filter.1 hc').1).1 he
  subst this
  have h1 := (List.mem_filter.1 hc).2
  have h2 := (List.mem_filter.1 hc').2
  simp [h2] at h1

theorem dropAxes_both (p : Nat → Bool) (cs w e : List Nat) (hn : cs.Nodup) (hw : w.length = cs.length) :
    dropAxes (posOf p cs ++ posOf (fun c => !p c) cs) (w ++ e) = e := by
  have h : dropAxes (posOf p cs ++ posOf (fun c => !p c) cs) (w ++ e) = dropAxes (List.range w.length) (w ++ e) := by
    rw [dropAxes_eq, dropAxes_eq]
    congr 1
    unfold FullTensor.setdiffRange
    apply List.filter_congr
    intro q _
    congr 1
    rw [Bool.eq_iff_iff, List.contains_iff_mem, List.contains_iff_mem, List.mem_range, List.mem_append, hw]
    constructor
    · rintro (h | h) <;> exact posOf_lt h
    · intro hq
      by_cases hp : p cs[q] = true
      · left
        exact List.mem_map.2 ⟨cs[q], List.mem_filter.2 ⟨List.getElem_mem hq, hp⟩, hn.idxOf_getElem q hq⟩
      · right
        exact List.mem_map.2 ⟨cs[q], List.mem_filter.2 ⟨List.getElem_mem hq, by simpa using hp⟩, hn.idxOf_getElem q hq⟩
  rw [h, dropAxes_lead]

/-- One node: its tensor contracted with the arrays of its active children, the subscripts of the inactive children being equal to
the common subscript. -/
theorem diagNode_spec [CommSemiring R] (x : TBT R) (ts : Nat → Arr R) {i : Nat}
    (hne : x.tree.children i ≠ []) (n : Nat) (E : List Nat)
    (hA : (ts i).shape = (x.tree.children i).map (childSize x) ++ E)
    (hact : ∀ c ∈ x.tree.children i, x.active c = true → (ts c).shape = [n, childSize x c])
    (hin : ∀ c ∈ x.tree.children i, ¬ x.active c = true → childSize x c = n) :
    ∃ g, diagNode x ts i = .ok (upd ts i g) ∧ g.shape = n :: E ∧
      ∀ k e, k < n → InBox E e → g.get (k :: e) =
        sumBox (((x.tree.children i).filter x.active).map (childSize x)) (fun s =>
          (List.zipWith (fun c j => (ts c).get [k, j]) ((x.tree.children i).filter x.active) s).prod *
            (ts i).get (weave x.active (x.tree.children i) s
              (List.replicate ((x.tree.children i).filter (fun c => !x.active c)).length k) ++ e)) := by
  have hn := nodup_children (T := x.tree) i
  generalize hcs : x.tree.children i = cs at *
  have hpos : ∀ p : Nat → Bool, (cs.filter p).map (fun c => cs.idxOf c) = posOf p cs := fun p => rfl
  unfold diagNode
  simp only [hcs, hpos]
  by_cases ha : cs.filter x.active = []
  · -- no active child
    have hall : cs.filter (fun c => !x.active c) = cs := by
      rw [List.filter_eq_self]
      intro c hc
      have := List.filter_eq_nil_iff.1 ha c hc
      simpa using this
    have hsz : cs.map (childSize x) = List.replicate cs.length n := by
      rw [List.eq_replicate_iff]
      refine ⟨by simp, fun b hb => ?_⟩
      obtain ⟨c, hc, rfl⟩ := List.mem_map.1 hb
      exact hin c hc (by simpa using List.filter_eq_nil_iff.1 ha c hc)
    have hl : 0 < cs.length := List.length_pos_iff.2 hne
    have hr0 : (List.range cs.length).getD 0 0 = 0 := by
      rw [List.getD_eq_getElem _ _ (by simpa using hl)]; simp
    have hmin : (List.range cs.length).foldr min 0 = 0 := by
      obtain ⟨m, hm⟩ : ∃ m, cs.length = m + 1 := ⟨cs.length - 1, by omega⟩
      rw [hm, List.range_succ_eq_map, List.foldr_cons]; simp
    have hd0 : ∀ j, j < cs.length → (ts i).shape.getD j 0 = n := by
      intro j hj
      rw [hA, hsz, List.getD_append _ _ _ _ (by simpa using hj), List.getD_eq_getElem _ _ (by simpa using hj)]
      simp
    obtain ⟨y, y1, y2, y3⟩ := FullTensor.evalDiag_spec (ts i) (List.range cs.length) List.nodup_range (by
      intro h; rw [List.range_eq_nil] at h; omega) (by
      intro k hk
      simp only [Arr.order, hA, List.length_append, List.length_map]
      have := List.mem_range.1 hk
      omega) (by
      intro k hk
      rw [hr0, hd0 k (List.mem_range.1 hk), hd0 0 hl])
    rw [hr0, hmin] at y2 y3
    have hoff : ∀ (w e : List Nat), w.length = cs.length → entriesOff (List.range cs.length) (w ++ e) = e := by
      intro w e hw
      rw [← hw, FullTensor.entriesOff_eq, ← dropAxes_eq, dropAxes_lead]
    refine ⟨y, ?_, ?_, ?_⟩
    · have e1 : (cs.filter x.active).isEmpty = true := by rw [ha]; rfl
      simp only [e1, if_true, y1, bind, Except.bind]
    · rw [y2, hA, hoff _ _ (by simp), ← hA, hd0 0 hl]; simp
    · intro k e hk he
      have hb : InBox (ts i).shape (List.replicate cs.length k ++ e) := by
        rw [hA, hsz]
        refine (inBox_append (by simp)).2 ⟨?_, he⟩
        rw [inBox_iff_getD]
        refine ⟨by simp, fun j hj => ?_⟩
        have hj' : j < cs.length := by simpa using hj
        rw [List.getD_eq_getElem _ _ (by simpa using hj'), List.getD_eq_getElem _ _ (by simpa using hj')]
        simpa using hk
      have := y3 (List.replicate cs.length k ++ e) hb k (by
        intro j hj
        have hj := List.mem_range.1 hj
        rw [List.getD_append _ _ _ _ (by simpa using hj), List.getD_eq_getElem _ _ (by simpa using hj)]
        simp)
      rw [hoff _ _ (by simp)] at this
      simp only [List.take_zero, List.drop_zero, List.nil_append] at this
      rw [this, ha, hall]
      have hw : ∀ (l : List Nat), (∀ c ∈ l, ¬ x.active c = true) →
          weave x.active l [] (List.replicate l.length k) = List.replicate l.length k := by
        intro l
        induction l with
        | nil => intro _; rfl
        | cons c l ih =>
          intro h
          rw [weave, if_neg (h c (by simp)), List.length_cons, List.replicate_succ, List.tail_cons, ih (fun c' hc' => h c' (by simp [hc']))]
          rfl
      rw [List.map_nil, sumBox, hw cs (fun c hc => by simpa using List.filter_eq_nil_iff.1 ha c hc)]
      simp
  · have e1 : (cs.filter x.active).isEmpty = false := by
      rw [List.isEmpty_eq_false_iff]; exact ha
    have harr : ∀ c ∈ cs.filter x.active, (ts c).shape = [n, childSize x c] := fun c hc =>
      hact c (List.mem_filter.1 hc).1 (List.mem_filter.1 hc).2
    by_cases hb : cs.filter (fun c => !x.active c) = []
    · obtain ⟨g, g1, g2, g3⟩ := chain_contract x.active cs hn (childSize x) ts n (ts i) E hA ha harr
      have e2 : (cs.filter (fun c => !x.active c)).isEmpty = true := by rw [hb]; rfl
      refine ⟨g, ?_, by rw [g2, hb]; rfl, fun k e hk he => ?_⟩
      · simp only [e1, e2, if_true, bind, Except.bind, Bool.false_eq_true, if_false, g1]
      · have := g3 k [] e (by rw [hb]) he.length_eq
        rw [List.nil_append] at this
        rw [this, hb]
        rfl
    · have e2 : (cs.filter (fun c => !x.active c)).isEmpty = false := by
        rw [List.isEmpty_eq_false_iff]; exact hb
      have hmf : ((cs.filter x.active).map (fun c => (ts c, childSize x c))).map Prod.fst = (cs.filter x.active).map ts := by
        rw [List.map_map]; rfl
      have hms : ((cs.filter x.active).map (fun c => (ts c, childSize x c))).map Prod.snd = (cs.filter x.active).map (childSize x) := by
        rw [List.map_map]; rfl
      obtain ⟨o1, o2⟩ := outerChain_spec n ((cs.filter x.active).map (fun c => (ts c, childSize x c))) (by simpa using ha) (by
        intro q hq
        obtain ⟨c, hc, rfl⟩ := List.mem_map.1 hq
        exact harr c hc)
      rw [hmf] at o1 o2
      rw [hms] at o1
      have hta := tailAxes_of_shape o1
      have hord : (ts i).order = cs.length + E.length := by simp [Arr.order, hA]
      have hlp : ∀ p : Nat → Bool, (posOf p cs).length = (cs.filter p).length := fun p => by simp [posOf]
      obtain ⟨h1, h2⟩ := FullTensor.tensordotEvalDiag_spec (outerChain ((cs.filter x.active).map ts)) (ts i) n
        ((cs.filter x.active).map (childSize x)) [] (posOf x.active cs) (posOf (fun c => !x.active c) cs) (by simpa using o1)
        (by simp [hlp]) (posOf_nodup hn) (fun q hq => by have := posOf_lt hq; omega) (posOf_nodup hn)
        (fun q hq => by have := posOf_lt hq; omega) (fun q hq => posOf_disjoint hq)
      have hdrop : dropAxes (posOf x.active cs ++ posOf (fun c => !x.active c) cs) (ts i).shape = E := by
        rw [hA]; exact dropAxes_both x.active cs _ E hn (by simp)
      rw [hdrop] at h1 h2
      refine ⟨FullTensor.tensordotEvalDiag (outerChain ((cs.filter x.active).map ts)) (ts i)
        (tailAxes (outerChain ((cs.filter x.active).map ts))) (posOf x.active cs) [0] (posOf (fun c => !x.active c) cs),
        ?_, by rw [hta]; simpa using h1, fun k e hk he => ?_⟩
      · simp only [e1, e2, bind, Except.bind, Bool.false_eq_true, if_false]
      · have := h2 k [] e rfl he.length_eq
        rw [List.nil_append] at this
        rw [hta, this]
        apply sumBox_congr
        intro s hs
        have hsl : s.length = (cs.filter x.active).length := by simpa using hs.length_eq
        rw [List.append_nil, o2 k s (by simpa using hsl), List.zipWith_map_left]
        congr 2
        have hm := mergeIdx_self (ax := posOf x.active cs ++ posOf (fun c => !x.active c) cs)
          (idx := weave x.active cs s (List.replicate (cs.filter (fun c => !x.active c)).length k) ++ e)
          (s := s ++ List.replicate (cs.filter (fun c => !x.active c)).length k) (by
            unfold applyPerm
            rw [List.map_append]
            exact congrArg₂ _ (applyPerm_weave _ cs s _ e hn hsl) (applyPerm_weave_not _ cs s _ e hn (by simp)))
        rw [dropAxes_both _ _ _ _ hn (length_weave _ _ _ _)] at hm
        rw [hlp, hord]
        refine Eq.trans ?_ hm
        congr 1
        simp [length_weave, he.length_eq]

/-- A product of indicators selects one term of a sum. -/
theorem sumBox_delta [CommSemiring R] (k n m : Nat) (hk : k < n) (f : List Nat → R) :
    sumBox (List.replicate m n) (fun t => (t.map (fun j => if k = j then (1 : R) else 0)).prod * f t) = f (List.replicate m k) := by
  induction m generalizing f with
  | zero => simp [sumBox]
  | succ m ih =>
    rw [List.replicate_succ, List.replicate_succ]
    show ∑ j ∈ range n, sumBox (List.replicate m n) (fun t => ((j :: t).map (fun j => if k = j then (1 : R) else 0)).prod * f (j :: t)) = _
    rw [Finset.sum_eq_single_of_mem k (mem_range.2 hk)]
    · rw [← ih (fun t => f (k :: t))]
      apply sumBox_congr
      intro t _
      simp
    · intro b _ hb
      refine Eq.trans ?_ (sumBox_zero (List.replicate m n))
      apply sumBox_congr
      intro t _
      rw [List.map_cons, List.prod_cons, if_neg (Ne.symm hb)]
      simp

/-- C94. `eval_diag()` of a tree-based tensor whose dimensions have the same size: entry `k` (and, for a root with a rank axis, each
of its subscripts `e`) is the entry of the tensor whose subscripts are all equal to `k`. -/
theorem evalDiag_full [CommSemiring R] (x : TBT R) (hx : WF x) (r : Nat) (hr : x.tree.root = .ok r) (n : Nat)
    (hs : ∀ d, d < x.order → x.shape.getD d 0 = n) :
    ∃ a y, full x = .ok a ∧ evalDiag x = .ok y ∧ y.shape = n :: rankShape x r ∧
      ∀ k e, k < n → InBox (rankShape x r) e → y.get (k :: e) = a.get (List.replicate x.order k ++ e) := by
  obtain ⟨r', hr', hroot⟩ := root_ok hx.valid
  rw [hr] at hr'; cases hr'
  obtain ⟨V, hV⟩ := exists_value x hx.valid
  obtain ⟨a, a1, a2, a3⟩ := full_on x hx hV.on hr
  obtain ⟨lev, hlv, hlev⟩ := level_ok hx.valid
  have hrl := hx.root_internal hroot
  have hsl : x.shape.length = x.order := by simp [TBT.shape, TBT.order]
  have hkb : ∀ k, k < n → InBox x.shape (List.replicate x.order k) := by
    intro k hk
    rw [inBox_iff_getD]
    refine ⟨by simp [hsl], fun d hd => ?_⟩
    rw [hsl] at hd
    rw [hs d hd, List.getD_eq_getElem _ _ (by simpa using hd)]
    simpa using hk
  have hgk : ∀ k c, c ∈ x.tree.dim2ind → (List.replicate x.order k).getD (dimOf x.tree c) 0 = k := by
    intro k c hc
    have : dimOf x.tree c < x.order := dimOf_lt hc
    rw [List.getD_eq_getElem _ _ (by simpa using this)]
    simp
  have hls : ∀ c ∈ x.tree.dim2ind, x.leafSize c = n := by
    intro c hc
    rw [← shape_getD hc, hs _ (dimOf_lt hc)]
  have hleaf_of : ∀ i, x.tree.isLeaf i = false ↔ i ∉ x.tree.dim2ind := by
    intro i
    constructor
    · intro hq hm
      rw [(isLeaf_mem _ _).2 hm] at hq; simp at hq
    · intro hq
      by_contra hh; exact hq ((isLeaf_mem _ _).1 (by simpa using hh))
  let GR := fun (ts : Nat → Arr R) (i : Nat) => (ts i).shape = n :: rankShape x i ∧
      ∀ k e, k < n → InBox (rankShape x i) e → (ts i).get (k :: e) = V i (List.replicate x.order k) e
  obtain ⟨ts1, p1, p2, p3, p4⟩ := bottomUp hx.valid hlev (diagNode x) (fun i => x.tree.isLeaf i = false)
    (internalAt x.tree lev) (mem_internalAt x.tree lev) (nodup_internalAt x.tree lev)
    (fun ts P => (∀ c ∈ x.tree.dim2ind, ts c = x.tensors c) ∧
      (∀ i, IsNode x.tree i → x.tree.isLeaf i = false → P i → GR ts i) ∧
      (∀ i, IsNode x.tree i → x.tree.isLeaf i = false → ¬ P i → ts i = x.tensors i))
    (by
      intro ts P i ⟨i1, i2, i3⟩ hi hq hnP hch hpar
      have hil := (hleaf_of i).1 hq
      have hti := i3 i hi hq hnP
      have hsi := (hx.node i hi hil)
      have hex : x.tree.children i ≠ [] := by
        intro hno
        refine hil ((hx.valid.leaves i).2 ⟨hi, fun c hc => ?_⟩)
        have := (mem_children i c hi).2 hc
        rw [hno] at this; simp at this
      have hcarr : ∀ c ∈ x.tree.children i, x.active c = true → (ts c).shape = [n, childSize x c] ∧
          ∀ k s, k < n → s < childSize x c → (ts c).get [k, s] = V c (List.replicate x.order k) [s] := by
        intro c hc ha
        have hc := (mem_children i c hi).1 hc
        have e2 : childSize x c = x.lastDim c := by unfold childSize; rw [if_pos ha]
        rw [e2]
        by_cases hcl : c ∈ x.tree.dim2ind
        · rw [i1 c hcl]
          obtain ⟨m, q, hsh⟩ := hx.leaf _ hcl ha
          have l1 : x.leafSize c = m := by unfold TBT.leafSize; rw [if_pos ha, hsh]; rfl
          have d1 : x.lastDim c = q := lastDim_of_shape (s := [m]) hsh
          rw [hls c hcl] at l1
          refine ⟨by rw [hsh, d1, l1], fun k s hk hs' => ?_⟩
          rw [hV.leaf c hcl ha, hgk k c hcl]
        · have hcf := (hleaf_of c).2 hcl
          have hcr : ¬ IsRoot x.tree c := WF.child_not_root hc
          obtain ⟨b1, b2⟩ := i2 c hc.2.1 hcf (hch c hc hcf)
          have e3 : rankShape x c = [x.lastDim c] := by
            have := hx.rs_eq hc.2.1 hcr; rwa [rs_node hcl] at this
          refine ⟨by rw [b1, e3], fun k s hk hs' => ?_⟩
          exact b2 k [s] hk (by rw [e3]; simpa using hs')
      have hinact : ∀ c ∈ x.tree.children i, ¬ x.active c = true → c ∈ x.tree.dim2ind ∧ childSize x c = n := by
        intro c hc ha
        have hc := (mem_children i c hi).1 hc
        have hcl := hx.inactive_leaf hc.2.1 ha
        refine ⟨hcl, ?_⟩
        unfold childSize; rw [if_neg ha]; exact hls c hcl
      obtain ⟨g, q1, q2, q3⟩ := diagNode_spec x ts hex n (rankShape x i) (by rw [hti]; exact hsi.2.1)
        (fun c hc ha => (hcarr c hc ha).1) (fun c hc ha => (hinact c hc ha).2)
      refine ⟨upd ts i g, q1, ?_, ?_, ?_⟩
      · intro c hc
        have hne : c ≠ i := fun h => hil (h ▸ hc)
        rw [upd, if_neg hne]
        exact i1 c hc
      · intro j hj hjl hP
        by_cases hji : j = i
        · subst hji
          simp only [GR, upd, if_true]
          refine ⟨q2, fun k e hk he => ?_⟩
          rw [q3 k e hk he, hV.node j hi hil, childSum_box x V _ _ (by
              intro c hc ha
              rw [hgk k c (hinact c hc ha).1, (hinact c hc ha).2]; exact hk), hti,
            sumBox_weave x.active (x.tree.children j) (childSize x)]
          apply sumBox_congr
          intro s hsb
          have hsl' : s.length = ((x.tree.children j).filter x.active).length := by simpa using hsb.length_eq
          have hrep : ((x.tree.children j).filter (fun c => !x.active c)).map (childSize x) =
              List.replicate ((x.tree.children j).filter (fun c => !x.active c)).length n := by
            rw [List.eq_replicate_iff]
            refine ⟨by simp, fun b hb => ?_⟩
            obtain ⟨c, hc, rfl⟩ := List.mem_map.1 hb
            exact (hinact c (List.mem_filter.1 hc).1 (by simpa using (List.mem_filter.1 hc).2)).2
          rw [hrep, ← sumBox_delta k n _ hk (fun t => (List.zipWith (fun c j => (ts c).get [k, j])
            ((x.tree.children j).filter x.active) s).prod * (x.tensors j).get (weave x.active (x.tree.children j) s t ++ e))]
          apply sumBox_congr
          intro t htb
          have htl : t.length = ((x.tree.children j).filter (fun c => !x.active c)).length := by simpa using htb.length_eq
          unfold childProd
          rw [prod_weave x.active _ s t _ hsl' htl]
          have f1 : List.zipWith (fun c s => childVal x V c (List.replicate x.order k) s) ((x.tree.children j).filter x.active) s =
              List.zipWith (fun c j => (ts c).get [k, j]) ((x.tree.children j).filter x.active) s := by
            apply List.ext_getElem (by simp)
            intro m h1 h2
            rw [List.getElem_zipWith, List.getElem_zipWith]
            have hm : m < ((x.tree.children j).filter x.active).length := by simp at h1; omega
            have hmem := List.mem_filter.1 (List.getElem_mem hm)
            unfold childVal
            rw [if_pos hmem.2]
            refine ((hcarr _ hmem.1 hmem.2).2 k _ hk ?_).symm
            have htl : m < s.length := by omega
            have := ((inBox_iff_getD _ _).1 hsb).2 m (by simpa using hm)
            rwa [List.getD_eq_getElem _ _ htl, List.getD_eq_getElem _ _ (by simpa using hm), List.getElem_map] at this
          have f2 : List.zipWith (fun c s => childVal x V c (List.replicate x.order k) s)
              ((x.tree.children j).filter (fun c => !x.active c)) t = t.map (fun j => if k = j then (1 : R) else 0) := by
            apply List.ext_getElem (by simp [htl])
            intro m h1 h2
            rw [List.getElem_zipWith, List.getElem_map]
            have hm : m < ((x.tree.children j).filter (fun c => !x.active c)).length := by simp at h1; omega
            have hmem := List.mem_filter.1 (List.getElem_mem hm)
            have hna : ¬ x.active ((x.tree.children j).filter (fun c => !x.active c))[m] = true := by simpa using hmem.2
            unfold childVal
            rw [if_neg hna, hgk k _ (hinact _ hmem.1 hna).1]
          rw [f1, f2]
          ring
        · simp only [GR, upd, if_neg hji]
          exact i2 j hj hjl (hP.resolve_right hji)
      · intro j hj hjl hP
        have hji : j ≠ i := fun h => hP (Or.inr h)
        rw [upd, if_neg hji]
        exact i3 j hj hjl (fun h => hP (Or.inl h)))
    (x.tree.maxLevel lev) x.tensors (by
      refine ⟨fun _ _ => rfl, ?_, fun _ _ _ _ => rfl⟩
      intro i hi hl ⟨_, _, hle⟩
      exfalso
      have hil := (hleaf_of i).1 hl
      have hex : ∃ c, Edge x.tree i c := by
        by_contra hno
        push Not at hno
        exact hil ((hx.valid.leaves i).2 ⟨hi, hno⟩)
      obtain ⟨c, hc⟩ := hex
      obtain ⟨k, hk⟩ := exists_level hx.valid hi
      have h1 := hlev i k hk
      have h2 := hlev c (k + 1) (.child hk hc)
      have h3 := lev_le_maxLevel lev hc.2.1
      omega)
  have hrf := (hleaf_of r).2 hrl
  obtain ⟨y1, y2⟩ := p3 r hroot.1 hrf ⟨hroot.1, hrf⟩
  refine ⟨a, ts1 r, a1, ?_, y1, fun k e hk he => ?_⟩
  · unfold evalDiag
    simp only [hr, hlv, bind, Except.bind]
    rw [p1]
  · rw [y2 k e hk he, a3 _ _ (hkb k hk) he]

/-- A tensor with an inactive leaf and dimensions of size two. -/
def exDiag : TBT Int where
  tree := exTree
  tensors := fun i => match i with
    | 3 => ⟨[2, 2], fun t => 1 + t.getD 0 0 * t.getD 1 0⟩
    | i => exT.tensors i

theorem exDiag_wf : WF exDiag := wf_of_wfB _ exTree_valid (by decide +kernel)

/-- Non-vacuity of `evalDiag_full`. -/
example : WF exDiag ∧ exDiag.tree.root = .ok 1 ∧ ∀ d, d < exDiag.order → exDiag.shape.getD d 0 = 2 :=
  ⟨exDiag_wf, by decide +kernel, by
    intro d hd
    have hd : d < 3 := hd
    interval_cases d <;> decide +kernel⟩

example : (match evalDiag exDiag with | .ok y => some (y.shape, y.get [0], y.get [1]) | .error _ => none) =
    (match full exDiag with | .ok a => some ([2], a.get [0, 0, 0], a.get [1, 1, 1]) | .error _ => none) := by decide +kernel

end TreeBased
end Verif
