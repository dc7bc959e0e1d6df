import Verif.Lemmas.TreeLinear
import Verif.Lemmas.TopDown
import Verif.Model.ParamGradient
import Verif.Props.TreeWitness

/-! `TreeBasedTensor.eval_diag_below`, `eval_diag_above`, `parameter_gradient_eval_diag`, `FunctionalTensor.parameter_gradient_eval`. -/

namespace Verif
namespace TreeBased

open Arr DimTree Finset

variable {R : Type}

/-- The weight of dimension `d` in row `k` of the matrices. -/
def rowW [CommSemiring R] (H : List (Arr R)) (k d j : Nat) : R := (H.getD d ⟨[], fun _ => 0⟩).get [k, j]

theorem weave_true (p : Nat → Bool) (cs s t : List Nat) (hp : ∀ c ∈ cs, p c = true) (hs : s.length = cs.length) :
    weave p cs s t = s := by
  induction cs generalizing s with
  | nil => simp at hs; subst hs; rfl
  | cons c cs ih =>
    cases s with
    | nil => simp at hs
    | cons a s =>
      rw [weave, if_pos (hp c (by simp)), List.tail_cons, ih s (fun c' hc' => hp c' (by simp [hc'])) (by simpa using hs)]
      rfl

/-- The contraction of a node tensor with the arrays of all its children. -/
theorem chain_all [CommSemiring R] (cs : List Nat) (hn : cs.Nodup) (sz : Nat → Nat) (arr : Nat → Arr R)
    (n : Nat) (A : Arr R) (E : List Nat) (hA : A.shape = cs.map sz ++ E) (hne : cs ≠ [])
    (harr : ∀ c ∈ cs, (arr c).shape = [n, sz c]) :
    ∃ g, FullTensor.tensordotT (outerChain (cs.map arr)) A (tailAxes (outerChain (cs.map arr)))
        (cs.map (fun c => cs.idxOf c)) = .ok g ∧ g.shape = n :: E ∧
      ∀ k e, e.length = E.length → g.get (k :: e) = sumBox (cs.map sz) (fun s =>
          (List.zipWith (fun c j => (arr c).get [k, j]) cs s).prod * A.get (s ++ e)) := by
  have h1 : cs.filter (fun _ => true) = cs := by simp
  have h2 : cs.filter (fun c => !(fun _ => true) c) = [] := by simp
  obtain ⟨g, g1, g2, g3⟩ := chain_contract (fun _ => true) cs hn sz arr n A E hA (by rw [h1]; exact hne)
    (by rw [h1]; exact harr)
  unfold posOf at g1
  rw [h1] at g1 g3
  rw [h2] at g2 g3
  refine ⟨g, g1, by simpa using g2, fun k e he => ?_⟩
  have := g3 k [] e (by simp) he
  rw [List.nil_append] at this
  rw [this]
  apply sumBox_congr
  intro s hs
  rw [weave_true _ cs s [] (by simp) (by simpa using hs.length_eq)]

/-- The outer product, with a common first index, of two arrays. -/
theorem outer_gen [CommSemiring R] (x b : Arr R) (n : Nat) (l l' : List Nat) (hx : x.shape = n :: l) (hb : b.shape = n :: l') :
    (FullTensor.tensordotEvalDiag x b [] [] [0] [0]).shape = n :: (l ++ l') ∧
    ∀ k s t, s.length = l.length → t.length = l'.length →
      (FullTensor.tensordotEvalDiag x b [] [] [0] [0]).get (k :: (s ++ t)) = x.get (k :: s) * b.get (k :: t) := by
  have hbo : b.order = l'.length + 1 := by simp [Arr.order, hb]
  obtain ⟨h1, h2⟩ := FullTensor.tensordotEvalDiag_spec x b n [] l [] [0] (by simpa using hx) rfl (by simp) (by simp) (by simp)
    (by simp [hbo]) (by simp)
  have hd : dropAxes ([] ++ [0]) b.shape = l' := by
    rw [hb]
    have := FullTensor.dropAxes_cons0 [] l' n
    rw [List.map_nil] at this
    rw [this]
    exact dropAxes_lead [] l'
  rw [hd] at h1 h2
  refine ⟨h1, fun k s t hs ht => ?_⟩
  refine (h2 k s t hs ht).trans ?_
  rw [sumBox, hbo]
  have hm := FullTensor.mergeIdx_cons0 [] [] k rfl l'.length t
  simp only [List.map_nil, List.nil_append, List.length_singleton, List.replicate_one] at hm ⊢
  rw [hm]
  have := mergeIdx_lead [] t l'.length (by simpa using ht.symm)
  simp only [List.length_nil, List.range_zero, List.nil_append] at this
  rw [this]

section gradient

variable [CommSemiring R] (x : TBT R) (hx : WF x) (ha : AllActive x) (r : Nat) (hroot : IsRoot x.tree r) (H : List (Arr R)) (n : Nat)
  (hn : 0 < n) (hH : ∀ d, d < x.order → (H.getD d ⟨[], fun _ => 0⟩).shape = [n, x.shape.getD d 0])
  (B : Nat → Nat → List Nat → R) (hB : ∀ k, IsEval x (rowW H k) (B k)) (α : Nat)

/-- The tensor with the leaves, except `α`, contracted with the matrices. -/
structure LeafProducts (z : TBT R) : Prop where
  tree : z.tree = x.tree
  leaf : ∀ c ∈ x.tree.dim2ind, c ≠ α → (z.tensors c).shape = [n, x.lastDim c] ∧
    ∀ k s, k < n → s < x.lastDim c → (z.tensors c).get [k, s] = B k c [s]
  off : ∀ c, c ∉ x.tree.dim2ind ∨ c = α → z.tensors c = x.tensors c

include hx ha hH hB in
theorem leafProducts_ok {l : List Nat} (hl : l = (List.range x.order).filter (fun d => !(x.tree.isLeaf α && x.tree.dim2ind.getD d 0 == α))) :
    ∃ z, tensorMatrixProduct x (l.map (fun d => H.getD d ⟨[], fun _ => 0⟩)) (some l) = .ok z ∧ LeafProducts x n B α z := by
  have hlt : ∀ d ∈ l, d < x.order := fun d hd => by rw [hl] at hd; exact List.mem_range.1 (List.mem_filter.1 hd).1
  have hnd : l.Nodup := by rw [hl]; exact List.nodup_range.filter _
  have hmem : ∀ d, d < x.order → x.tree.dim2ind.getD d 0 ∈ x.tree.dim2ind := fun d hd => dim2ind_getD_mem hd
  have hdim : ∀ d, d < x.order → dimOf x.tree (x.tree.dim2ind.getD d 0) = d := fun d hd => dimOf_getD hx.valid hd
  have hact : ∀ d ∈ l, x.active (x.tree.dim2ind.getD d 0) = true := fun d hd => ha _ (leaf_isNode hx.valid (hmem d (hlt d hd)))
  have hmeml : ∀ d, d < x.order → (d ∈ l ↔ x.tree.dim2ind.getD d 0 ≠ α) := by
    intro d hd
    rw [hl, List.mem_filter, List.mem_range]
    constructor
    · rintro ⟨_, h⟩ he
      have : x.tree.isLeaf α = true := (isLeaf_mem _ _).2 (he ▸ hmem d hd)
      rw [this, he] at h
      simp at h
    · intro h
      exact ⟨hd, by simp; exact .inr (by simpa using h)⟩
  have hleafs : ∀ d ∈ l, ∃ g, FullTensor.tensorMatrixProduct (x.tensors (x.tree.dim2ind.getD d 0))
      [H.getD d ⟨[], fun _ => 0⟩] (some [0]) = .ok g ∧ g.shape = [n, x.lastDim (x.tree.dim2ind.getD d 0)] ∧
      ∀ k s, k < n → s < x.lastDim (x.tree.dim2ind.getD d 0) → g.get [k, s] = B k (x.tree.dim2ind.getD d 0) [s] := by
    intro d hd
    have hdl := hlt d hd
    have hc := hmem d hdl
    obtain ⟨m, q, hsh⟩ := hx.leaf _ hc (hact d hd)
    have l1 : x.leafSize (x.tree.dim2ind.getD d 0) = m := by unfold TBT.leafSize; rw [if_pos (hact d hd), hsh]; rfl
    have d1 : x.lastDim (x.tree.dim2ind.getD d 0) = q := lastDim_of_shape (s := [m]) hsh
    have hsd : x.shape.getD d 0 = m := by
      have := shape_getD (x := x) hc
      rwa [hdim d hdl, l1] at this
    have hM := hH d hdl
    rw [hsd] at hM
    obtain ⟨g, g1, g2, g3⟩ := tmp_lead (x.tensors (x.tree.dim2ind.getD d 0)) [H.getD d ⟨[], fun _ => 0⟩] [m] [q] hsh
      (List.Forall₂.cons ⟨n, hM⟩ .nil)
    refine ⟨g, g1, by rw [g2, d1]; simp only [List.map_cons, List.map_nil, hM]; rfl, fun k s hk hs => ?_⟩
    rw [d1] at hs
    have := g3 [k] [s] (by simp only [List.map_cons, List.map_nil, hM]; simpa using hk) (by simpa using hs)
    simp only [List.singleton_append] at this
    rw [this, (hB k).leaf _ hc, l1, hdim d hdl, sumBox_singleton]
    refine sum_congr rfl (fun b _ => ?_)
    simp [rowW, mul_comm]
  have hleafs' : ∀ d, ∃ g : Arr R, d ∈ l → FullTensor.tensorMatrixProduct (x.tensors (x.tree.dim2ind.getD d 0))
      [H.getD d ⟨[], fun _ => 0⟩] (some [0]) = .ok g ∧ g.shape = [n, x.lastDim (x.tree.dim2ind.getD d 0)] ∧
      ∀ k s, k < n → s < x.lastDim (x.tree.dim2ind.getD d 0) → g.get [k, s] = B k (x.tree.dim2ind.getD d 0) [s] := by
    intro d
    by_cases hd : d ∈ l
    · obtain ⟨g, hg⟩ := hleafs d hd
      exact ⟨g, fun _ => hg⟩
    · exact ⟨⟨[], fun _ => 0⟩, fun h => absurd h hd⟩
  choose G hG using hleafs'
  obtain ⟨ts, t1, t2, t3⟩ := forDims_leaves x hx.valid (fun a M axis => FullTensor.tensorMatrixProduct a [M] (some [axis]))
    (fun d => H.getD d ⟨[], fun _ => 0⟩) G l hnd hlt hact (fun d hd => (hG d hd).1)
  have hoff : ∀ c, c ∉ x.tree.dim2ind ∨ c = α → ts c = x.tensors c := by
    intro c hc
    apply t3
    intro d hd he
    rcases hc with hc | hc
    · exact hc (he ▸ hmem d (hlt d hd))
    · exact (hmeml d (hlt d hd)).1 hd (he ▸ hc)
  refine ⟨⟨x.tree, ts⟩, ?_, rfl, ?_, hoff⟩
  · unfold tensorMatrixProduct
    simp only [Option.getD_some]
    rw [if_neg (by simp), if_neg (by
      simp only [List.any_eq_true, decide_eq_true_eq, not_exists, not_and, not_le]
      exact hlt)]
    have hpairs : l.map (fun d => ((l.map (fun d => H.getD d ⟨[], fun _ => 0⟩)).getD (l.idxOf d) ⟨[], fun _ => 0⟩, d)) =
        l.map (fun d => (H.getD d ⟨[], fun _ => 0⟩, d)) := by
      apply List.map_congr_left
      intro d hd
      have hi := List.idxOf_lt_length_of_mem hd
      rw [List.getD_eq_getElem _ _ (by simpa using hi), List.getElem_map, List.getElem_idxOf hi]
    rw [hpairs, t1]
    show mk x.tree ts = _
    unfold mk
    rw [if_pos]
    rw [List.all_eq_true]
    intro i hi
    unfold DTree.internalNodes at hi
    rw [List.mem_filter, mem_nodes] at hi
    have h2 : i ∉ x.tree.dim2ind := fun hm => by
      have := hi.2
      rw [List.contains_iff_mem.2 hm] at this
      simp at this
    have := (hx.node i hi.1 h2).1
    unfold TBT.active at this ⊢
    show ((ts i).shape.prod != 0) = true
    rw [hoff i (.inl h2)]
    exact this
  · intro c hc hca
    have hd := dimOf_lt hc
    have hcd : x.tree.dim2ind.getD (dimOf x.tree c) 0 = c := by
      rw [List.getD_eq_getElem?_getD, dim2ind_dimOf hc]; rfl
    have hdl : dimOf x.tree c ∈ l := (hmeml _ hd).2 (by rw [hcd]; exact hca)
    have h1 := t2 _ hdl
    have h2 := (hG _ hdl).2
    rw [hcd] at h1 h2
    show (ts c).shape = _ ∧ ∀ k s, k < n → s < x.lastDim c → (ts c).get [k, s] = _
    rw [h1]
    exact h2

variable {x n B α}

include hx hn ha in
theorem LeafProducts.active {z : TBT R} (hz : LeafProducts x n B α z) {c : Nat} (hc : IsNode x.tree c) : z.active c = true := by
  by_cases h : c ∈ x.tree.dim2ind ∧ c ≠ α
  · have h1 := (hz.leaf c h.1 h.2).1
    have h2 := ha c hc
    obtain ⟨m, q, hsh⟩ := hx.leaf c h.1 h2
    have d1 : x.lastDim c = q := lastDim_of_shape (s := [m]) hsh
    unfold TBT.active at h2 ⊢
    rw [hsh] at h2
    rw [h1, d1]
    simp only [List.prod_cons, List.prod_nil, mul_one, bne_iff_ne, ne_eq, mul_eq_zero, not_or] at h2 ⊢
    exact ⟨by omega, h2.2⟩
  · have : z.tensors c = x.tensors c := hz.off c (by by_cases hc' : c ∈ x.tree.dim2ind
                                                     · right; by_contra hne; exact h ⟨hc', hne⟩
                                                     · exact .inl hc')
    unfold TBT.active
    rw [this]
    exact ha c hc

/-- The arrays of the nodes below, for one node. -/
def BelowOk (x : TBT R) (n : Nat) (B : Nat → Nat → List Nat → R) (ts : Nat → Arr R) (c : Nat) : Prop :=
  (ts c).shape = [n, x.lastDim c] ∧ ∀ k s, k < n → s < x.lastDim c → (ts c).get [k, s] = B k c [s]

include hx ha hroot hn hB in
theorem below_keep {z : TBT R} (hz : LeafProducts x n B α z) (hα : IsNode x.tree α) (hr : x.tree.root = .ok r) :
    ∃ ts, evalDiagBelow z α = .ok ts ∧
      (∀ c, IsNode x.tree c → ¬ IsRoot x.tree c → (α = r ∨ ¬ AncSelf x.tree c α) → BelowOk x n B ts c) ∧
      (α ≠ r → ∀ c, Anc x.tree c α → ts c = x.tensors c) := by
  obtain ⟨lev, hlv, hlev⟩ := level_ok hx.valid
  obtain ⟨asc, hasc, -, -, -, hasc'⟩ := ascendants_spec hx.valid α hα
  have hex : ∃ excl, excludeList x.tree r α = .ok excl ∧ ∀ c, c ∈ excl ↔ α ≠ r ∧ AncSelf x.tree c α := by
    unfold excludeList
    by_cases h : α = r
    · exact ⟨[], by rw [if_pos h], fun c => by simp [h]⟩
    · refine ⟨α :: asc, by rw [if_neg h, hasc]; rfl, fun c => ?_⟩
      rw [List.mem_cons, hasc']
      constructor
      · rintro (rfl | h')
        · exact ⟨h, .refl⟩
        · exact ⟨h, Relation.TransGen.to_reflTransGen h'⟩
      · rintro ⟨_, h'⟩
        rcases Relation.reflTransGen_iff_eq_or_transGen.1 h' with h' | h'
        · exact .inl h'.symm
        · exact .inr h'
  obtain ⟨excl, he1, he2⟩ := hex
  have hleaf_of : ∀ i, x.tree.isLeaf i = false ↔ i ∉ x.tree.dim2ind := by
    intro i
    constructor
    · intro hq hm
      rw [(isLeaf_mem _ _).2 hm] at hq; simp at hq
    · intro hq
      by_contra hh; exact hq ((isLeaf_mem _ _).1 (by simpa using hh))
  have hnodes : ∀ l i, i ∈ (internalAt x.tree lev l).filter (fun i => z.active i && !excl.contains i) ↔
      IsNode x.tree i ∧ lev i = l ∧ (i ∉ x.tree.dim2ind ∧ i ∉ excl) := by
    intro l i
    rw [List.mem_filter, mem_internalAt, hleaf_of]
    constructor
    · rintro ⟨⟨h1, h2, h3⟩, h4⟩
      refine ⟨h1, h2, h3, ?_⟩
      intro hc
      rw [List.contains_iff_mem.2 hc] at h4
      simp at h4
    · rintro ⟨h1, h2, h3, h4⟩
      refine ⟨⟨h1, h2, h3⟩, ?_⟩
      rw [hz.active hx ha hn h1]
      simpa using h4
  obtain ⟨ts, p1, p2⟩ := bottomUp hx.valid hlev (belowNode z r excl) (fun i => i ∉ x.tree.dim2ind ∧ i ∉ excl)
    (fun l => (internalAt x.tree lev l).filter (fun i => z.active i && !excl.contains i)) hnodes
    (fun l => (nodup_internalAt _ _ _).filter _)
    (fun ts P => (∀ c ∈ x.tree.dim2ind, c ∉ excl → c ≠ α → BelowOk x n B ts c) ∧
      (∀ i, P i → IsNode x.tree i → i ∉ x.tree.dim2ind → ¬ IsRoot x.tree i → BelowOk x n B ts i) ∧
      ∀ i, IsNode x.tree i → i ∉ x.tree.dim2ind → ¬ P i → ts i = x.tensors i)
    (by
      rintro ts P i ⟨i1, i2, i3⟩ hi ⟨hil, hie⟩ hPi hch _
      have hcn : ∀ c ∈ x.tree.children i, c ∉ excl ∧ c ≠ α := by
        intro c hc
        have he := (mem_children i c hi).1 hc
        have hce : c ∉ excl := by
          intro h
          obtain ⟨h1, h2⟩ := (he2 c).1 h
          exact hie ((he2 i).2 ⟨h1, .head he h2⟩)
        refine ⟨hce, ?_⟩
        rintro rfl
        by_cases hαr : c = r
        · exact hroot.2 i (hαr ▸ he)
        · exact hce ((he2 c).2 ⟨hαr, .refl⟩)
      have hchild : ∀ c ∈ x.tree.children i, BelowOk x n B ts c := by
        intro c hc
        have he := (mem_children i c hi).1 hc
        by_cases hcl : c ∈ x.tree.dim2ind
        · exact i1 c hcl (hcn c hc).1 (hcn c hc).2
        · exact i2 c (hch c he ⟨hcl, (hcn c hc).1⟩) he.2.1 hcl (WF.child_not_root he)
      have hsi := hx.node i hi hil
      have hex : x.tree.children i ≠ [] := by
        intro h0
        exact hil ((hx.valid.leaves i).2 ⟨hi, fun c hc => by
          have := (mem_children i c hi).2 hc; rw [h0] at this; simp at this⟩)
      have hti : ts i = x.tensors i := i3 i hi hil hPi
      obtain ⟨g, g1, g2, g3⟩ := chain_all (x.tree.children i) (nodup_children i) x.lastDim ts n (ts i) (rankShape x i)
        (by rw [hti, hsi.2.1, childSizes_active ha hi]) hex (fun c hc => (hchild c hc).1)
      have hf1 : (x.tree.children i).filter (fun c => !excl.contains c) = x.tree.children i := by
        rw [List.filter_eq_self]
        intro c hc
        simpa using (hcn c hc).1
      have hf2 : (x.tree.children i).filter z.active = x.tree.children i := by
        rw [List.filter_eq_self]
        intro c hc
        exact hz.active hx ha hn ((mem_children i c hi).1 hc).2.1
      have hf3 : (x.tree.children i).filter (fun c => !z.active c) = [] := by
        rw [List.filter_eq_nil_iff]
        intro c hc
        simp [hz.active hx ha hn ((mem_children i c hi).1 hc).2.1]
      have hax : (x.tree.children i).map (childAxis x.tree) = (x.tree.children i).map (fun c => (x.tree.children i).idxOf c) := by
        apply List.map_congr_left
        intro c hc
        exact childAxis_eq hx.valid ((mem_children i c hi).1 hc)
      have hempty : (x.tree.children i).isEmpty = false := by rw [List.isEmpty_eq_false_iff]; exact hex
      have hb : belowArr z r excl ts i = .ok g := by
        unfold belowArr
        simp only [hz.tree, hf1, hf2, hf3, hax, hempty, Bool.false_eq_true, if_false, List.isEmpty_nil, Bool.not_true, Bool.false_and]
        exact g1
      refine ⟨upd ts i g, ?_, ?_, ?_, ?_⟩
      · unfold belowNode
        rw [hb]
        rfl
      · intro c hc h1 h2
        have hne : c ≠ i := fun h => hil (h ▸ hc)
        unfold BelowOk
        simp only [upd, if_neg hne]
        exact i1 c hc h1 h2
      · intro j hP hj hjl hjr
        by_cases hji : j = i
        · subst hji
          have e3 : rankShape x j = [x.lastDim j] := by
            have := hx.rs_eq hj hjr; rwa [rs_node hjl] at this
          unfold BelowOk
          simp only [upd, if_true]
          refine ⟨by rw [g2, e3], fun k s hk hs => ?_⟩
          rw [g3 k [s] (by rw [e3]; rfl), (hB k).node j hj hjl, hti]
          apply sumBox_congr
          intro t ht
          congr 2
          apply List.ext_getElem (by simp)
          intro m h1 h2
          rw [List.getElem_zipWith, List.getElem_zipWith]
          have hm : m < (x.tree.children j).length := by simp at h1; omega
          refine (hchild _ (List.getElem_mem hm)).2 k _ hk ?_
          have htl : m < t.length := by rw [ht.length_eq]; simpa using hm
          have := ((inBox_iff_getD _ _).1 ht).2 m (by simpa using hm)
          rw [List.getD_eq_getElem _ _ htl, List.getD_eq_getElem _ _ (by simpa using hm), List.getElem_map] at this
          exact this
        · unfold BelowOk
          simp only [upd, if_neg hji]
          exact i2 j (hP.resolve_right hji) hj hjl hjr
      · intro j hj hjl hP
        have hji : j ≠ i := fun h => hP (Or.inr h)
        rw [upd, if_neg hji]
        exact i3 j hj hjl (fun h => hP (Or.inl h)))
    (x.tree.maxLevel lev) z.tensors (by
      refine ⟨?_, ?_, ?_⟩
      · intro c hc _ hca
        exact hz.leaf c hc hca
      · rintro i ⟨_, ⟨hil, _⟩, hle⟩ hi _ _
        exfalso
        have hex : ∃ c, Edge x.tree i c := by
          by_contra hno
          push Not at hno
          exact hil ((hx.valid.leaves i).2 ⟨hi, hno⟩)
        obtain ⟨c, hc⟩ := hex
        obtain ⟨k, hk⟩ := exists_level hx.valid hi
        have h1 := hlev i k hk
        have h2 := hlev c (k + 1) (.child hk hc)
        have h3 := lev_le_maxLevel lev hc.2.1
        omega
      · intro i _ hil _
        exact hz.off i (.inl hil))
  refine ⟨ts, ?_, ?_, fun hαr c hc => p2.2.2 c (anc_isNode hc) (path_internal hx hc)
    (fun h => (show c ∉ excl from by first | exact h.2.1.2 | exact h.2.2 | exact h.1.2) ((he2 c).2 ⟨hαr, Relation.TransGen.to_reflTransGen hc⟩))⟩
  · unfold evalDiagBelow
    rw [hz.tree]
    simp only [hr, hlv, he1, bind, Except.bind]
    exact p1
  · intro c hc hcr hoff
    have hce : c ∉ excl := by
      intro h
      obtain ⟨h1, h2⟩ := (he2 c).1 h
      rcases hoff with h | h
      · exact h1 h
      · exact h h2
    by_cases hcl : c ∈ x.tree.dim2ind
    · refine p2.1 c hcl hce ?_
      rintro rfl
      rcases hoff with h | h
      · exact hcr (h ▸ hroot)
      · exact h .refl
    · exact p2.2.1 c ⟨hc, hcl, hce⟩ hc hcl hcr

include hx ha hroot hn hB in
theorem below_ok {z : TBT R} (hz : LeafProducts x n B α z) (hα : IsNode x.tree α) (hr : x.tree.root = .ok r) :
    ∃ ts, evalDiagBelow z α = .ok ts ∧ ∀ c, IsNode x.tree c → ¬ IsRoot x.tree c → (α = r ∨ ¬ AncSelf x.tree c α) → BelowOk x n B ts c := by
  obtain ⟨ts, h1, h2, -⟩ := below_keep hx ha r hroot H hn hB hz hα hr
  exact ⟨ts, h1, h2⟩

/-- A tree with all its nodes active and the internal tensors of `x`. -/
structure InternalOk (x z : TBT R) : Prop where
  tree : z.tree = x.tree
  active : ∀ i, IsNode x.tree i → z.active i = true
  off : ∀ i, i ∉ x.tree.dim2ind → z.tensors i = x.tensors i

include hx ha hn in
theorem LeafProducts.internalOk {z : TBT R} (hz : LeafProducts x n B α z) : InternalOk x z :=
  ⟨hz.tree, fun _ hi => hz.active hx ha hn hi, fun i hi => hz.off i (.inl hi)⟩

/-- Every internal node has at least two children. -/
def NoUnary (T : DTree) : Prop := ∀ i, IsNode T i → i ∉ T.dim2ind → 2 ≤ (T.children i).length

theorem filter_bne_ne_nil {l : List Nat} (hnd : l.Nodup) (h2 : 2 ≤ l.length) (c : Nat) : l.filter (fun c' => c' != c) ≠ [] := by
  intro h
  match l, h2 with
  | a :: b :: l, _ =>
    rw [List.filter_eq_nil_iff] at h
    have h1 := h a (by simp)
    have h3 := h b (by simp)
    simp only [bne_iff_ne, ne_eq, not_not] at h1 h3
    rw [List.nodup_cons] at hnd
    exact hnd.1 (by rw [h1, h3]; simp)

include hx ha hB in
theorem siblings_ok {z : TBT R} (hz : InternalOk x z) (hu : NoUnary x.tree) {ts : Nat → Arr R}
    (hts : ∀ c, IsNode x.tree c → ¬ IsRoot x.tree c → ¬ AncSelf x.tree c α → ¬ AncSelf x.tree α c → BelowOk x n B ts c)
    {p c : Nat} (he : Edge x.tree p c) (hc : AncSelf x.tree c α) :
    ∃ g, aboveSiblings z ts c = .ok g ∧ g.shape = n :: x.lastDim c :: rankShape x p ∧
      ∀ x', SameSub x x' α → ∀ k, k < n → ∀ B', IsEval x' (rowW H k) B' → ∀ e, e.length = (rankShape x p).length →
        ∑ j ∈ range (x.lastDim c), g.get (k :: j :: e) * B' c [j] = B' p e := by
  have hpl := edge_internal hx.valid he
  have hmc := (mem_children p c he.1).2 he
  have hnd := nodup_children (T := x.tree) p
  have hone : (x.tree.children p).filter (fun c' => !(c' != c)) = [c] := by
    have : (x.tree.children p).filter (fun c' => !(c' != c)) = (x.tree.children p).filter (fun c' => c' == c) := by
      apply List.filter_congr
      intro a _
      simp [bne]
    rw [this, List.filter_beq, List.count_eq_one_of_mem hnd hmc]
    rfl
  have hne := filter_bne_ne_nil hnd (hu p he.1 hpl) c
  have hsib : ∀ c' ∈ (x.tree.children p).filter (fun c' => c' != c), Edge x.tree p c' ∧ c' ≠ c ∧ ¬ AncSelf x.tree c' α ∧ ¬ AncSelf x.tree α c' := by
    intro c' hc'
    obtain ⟨h1, h2⟩ := List.mem_filter.1 hc'
    have he' := (mem_children p c' he.1).1 h1
    have hne' : c' ≠ c := by simpa using h2
    exact ⟨he', hne', path_off hx he hc he' hne', fun h => path_off hx he .refl he' hne' (by
      obtain ⟨l, hl⟩ := exists_level hx.valid he.1
      rw [disjoint_of_level hx.valid (.child hl he) (.child hl he') (hc.trans h) .refl]; exact .refl)⟩
  have hbel : ∀ c' ∈ (x.tree.children p).filter (fun c' => c' != c), BelowOk x n B ts c' := fun c' hc' =>
    hts c' (hsib c' hc').1.2.1 (WF.child_not_root (hsib c' hc').1) (hsib c' hc').2.2.1 (hsib c' hc').2.2.2
  obtain ⟨g, g1, g2, g3⟩ := chain_contract (fun c' => c' != c) (x.tree.children p) hnd x.lastDim ts n (x.tensors p)
    (rankShape x p) (by rw [(hx.node p he.1 hpl).2.1, childSizes_active ha he.1]) hne (fun c' hc' => (hbel c' hc').1)
  rw [hone] at g2 g3
  have hf2 : ((x.tree.children p).filter (fun c' => c' != c)).filter z.active = (x.tree.children p).filter (fun c' => c' != c) := by
    rw [List.filter_eq_self]
    intro c' hc'
    exact hz.active _ (hsib c' hc').1.2.1
  have hf3 : ((x.tree.children p).filter (fun c' => c' != c)).filter (fun c => !z.active c) = [] := by
    rw [List.filter_eq_nil_iff]
    intro c' hc'
    simp [hz.active _ (hsib c' hc').1.2.1]
  have hax : ((x.tree.children p).filter (fun c' => c' != c)).map (childAxis x.tree) =
      posOf (fun c' => c' != c) (x.tree.children p) := by
    apply List.map_congr_left
    intro c' hc'
    exact childAxis_eq hx.valid (hsib c' hc').1
  refine ⟨g, ?_, by simpa using g2, ?_⟩
  · unfold aboveSiblings
    have hempty : ((x.tree.children p).filter (fun c' => c' != c)).isEmpty = false := by
      rw [List.isEmpty_eq_false_iff]; exact hne
    simp only [hz.tree, edge_parent hx.valid he, hf2, hf3, hax, hempty, hz.off p hpl, Bool.false_eq_true, if_false,
      List.isEmpty_nil, if_true]
    exact g1
  · intro x' hx' k hk B' hB' e hel
    have hcα : c = α ∨ ¬ AncSelf x.tree α c := by
      rcases Relation.reflTransGen_iff_eq_or_transGen.1 hc with h' | h'
      · exact .inl h'.symm
      · exact .inr (fun h => Anc.irrefl hx.valid c (Relation.TransGen.trans_left h' h))
    have hpα : ¬ AncSelf x.tree α p := fun h => Anc.irrefl hx.valid p (Relation.TransGen.head' he (hc.trans h))
    rw [eval_split hB' (p := p) (c := c) (by rw [hx'.tree]; exact he.1) (by rw [hx'.tree]; exact hpl)
      (by rw [hx'.tree]; exact hmc) e, hx'.tree, hx'.lastDim hcα, hx'.off p hpα]
    refine sum_congr rfl (fun j _ => ?_)
    congr 1
    refine (g3 k [j] e rfl hel).trans ?_
    have hld : ((x.tree.children p).filter (fun c' => c' != c)).map x'.lastDim =
        ((x.tree.children p).filter (fun c' => c' != c)).map x.lastDim := List.map_congr_left (fun c' hc' => hx'.lastDim (.inr (hsib c' hc').2.2.2))
    rw [hld]
    apply sumBox_congr
    intro s hs
    congr 2
    apply List.ext_getElem (by simp)
    intro m h1 h2
    rw [List.getElem_zipWith, List.getElem_zipWith]
    have hm : m < ((x.tree.children p).filter (fun c' => c' != c)).length := by
      rw [List.length_zipWith] at h1; omega
    have hmem := List.getElem_mem hm
    have htl : m < s.length := by rw [hs.length_eq]; simpa using hm
    have := ((inBox_iff_getD _ _).1 hs).2 m (by simpa using hm)
    rw [List.getD_eq_getElem _ _ htl, List.getD_eq_getElem _ _ (by simpa using hm), List.getElem_map] at this
    rw [(hbel _ hmem).2 k _ hk this, eval_sub' hx ha hx' (hB k) hB' (hsib _ hmem).1.2.1 (hsib _ hmem).2.2.1 (hsib _ hmem).2.2.2]

/-- The arrays of the nodes above, for one node `c` between the root `r` and `α`: the value of the root is obtained from the value
of `c`, for every tensor of `α`. -/
def AboveOk (x : TBT R) (r : Nat) (H : List (Arr R)) (n α : Nat) (A : Arr R) (c : Nat) : Prop :=
  A.shape = n :: x.lastDim c :: rankShape x r ∧
    ∀ x', SameSub x x' α → ∀ k, k < n → ∀ B', IsEval x' (rowW H k) B' → ∀ e, InBox (rankShape x r) e →
      ∑ j ∈ range (x.lastDim c), A.get (k :: j :: e) * B' c [j] = B' r e

include hx hroot in
theorem aboveProduct_ok {p c : Nat} (he : Edge x.tree p c) (hp : ¬ IsRoot x.tree p) {A g : Arr R} (hA : AboveOk x r H n α A p)
    (hg1 : g.shape = n :: x.lastDim c :: rankShape x p)
    (hg2 : ∀ x', SameSub x x' α → ∀ k, k < n → ∀ B', IsEval x' (rowW H k) B' → ∀ e, e.length = (rankShape x p).length →
        ∑ j ∈ range (x.lastDim c), g.get (k :: j :: e) * B' c [j] = B' p e) :
    ∃ b, aboveProduct A g = .ok b ∧ AboveOk x r H n α b c := by
  have hpl := edge_internal hx.valid he
  have e3 : rankShape x p = [x.lastDim p] := by
    have := hx.rs_eq he.1 hp; rwa [rs_node hpl] at this
  rw [e3] at hg1 hg2
  have hgo : g.order = 3 := by simp [Arr.order, hg1]
  obtain ⟨b1, b2⟩ := FullTensor.tensordotEvalDiag_spec A g n [x.lastDim p] (rankShape x r) [2] [0] (by simpa using hA.1) rfl
    (by simp) (by simp [hgo]) (by simp) (by simp [hgo]) (by simp)
  have hd : dropAxes ([2] ++ [0]) g.shape = [x.lastDim c] := by
    rw [hg1]; rfl
  rw [hd] at b1 b2
  have hr12 : List.range' 1 [x.lastDim p].length = [1] := rfl
  rw [hr12] at b1 b2
  generalize hb : FullTensor.tensordotEvalDiag A g [1] [2] [0] [0] = b at b1 b2
  have hbv : ∀ k j e, e.length = (rankShape x r).length → b.get (k :: (e ++ [j])) =
      ∑ l ∈ range (x.lastDim p), A.get (k :: l :: e) * g.get [k, j, l] := by
    intro k j e hel
    rw [b2 k e [j] hel rfl, sumBox_singleton]
    refine sum_congr rfl (fun l _ => ?_)
    rw [hgo]
    rfl
  have hsum : ∀ x', SameSub x x' α → ∀ k, k < n → ∀ B', IsEval x' (rowW H k) B' → ∀ e, InBox (rankShape x r) e →
      ∑ j ∈ range (x.lastDim c), b.get (k :: (e ++ [j])) * B' c [j] = B' r e := by
    intro x' hx' k hk B' hB' e hel
    rw [← hA.2 x' hx' k hk B' hB' e hel]
    have : ∀ j ∈ range (x.lastDim c), b.get (k :: (e ++ [j])) * B' c [j] =
        ∑ l ∈ range (x.lastDim p), A.get (k :: l :: e) * (g.get [k, j, l] * B' c [j]) := by
      intro j _
      rw [hbv k j e hel.length_eq, sum_mul]
      exact sum_congr rfl (fun l _ => by ring)
    rw [sum_congr rfl this, sum_comm]
    refine sum_congr rfl (fun l _ => ?_)
    rw [← mul_sum, hg2 x' hx' k hk B' hB' [l] rfl]
  unfold aboveProduct
  simp only [hb]
  have hrl := hx.root_internal hroot
  have hlen := (hx.node r hroot.1 hrl).2.2.1
  have hbo : b.order = (rankShape x r).length + 2 := by simp [Arr.order, b1]
  match hE : rankShape x r, hlen with
  | [], _ =>
    rw [hE] at b1 hbo
    rw [if_neg (by rw [hbo]; simp)]
    refine ⟨b, rfl, by rw [hE]; exact b1, ?_⟩
    intro x' hx' k hk B' hB' e hel
    have := hsum x' hx' k hk B' hB' e hel
    rw [hE] at hel
    have he0 : e = [] := by simpa using hel.length_eq
    subst he0
    exact this
  | [m], _ =>
    rw [hE] at b1 hbo
    rw [if_pos (by rw [hbo]; rfl)]
    have hperm : ([0, 2, 1] : List Nat).Perm (List.range b.order) := by
      have h3 : b.order = 3 := by rw [hbo]; rfl
      rw [h3]; decide
    unfold FullTensor.transposeT
    rw [if_pos hperm]
    refine ⟨_, rfl, ?_, ?_⟩
    · rw [hE]
      show applyPerm [0, 2, 1] b.shape = _
      rw [b1]; rfl
    · intro x' hx' k hk B' hB' e hel
      rw [← hsum x' hx' k hk B' hB' e hel]
      rw [hE] at hel
      obtain ⟨m', rfl, _⟩ := inBox_single hel
      refine sum_congr rfl (fun j _ => ?_)
      rfl

include hx ha hroot hn hB in
theorem above_ok {z : TBT R} (hz : InternalOk x z) (hu : NoUnary x.tree) (hα : IsNode x.tree α) (hr : x.tree.root = .ok r)
    {ts : Nat → Arr R}
    (hts : ∀ c, IsNode x.tree c → ¬ IsRoot x.tree c → ¬ AncSelf x.tree c α → ¬ AncSelf x.tree α c → BelowOk x n B ts c) :
    ∃ A, evalDiagAbove z ts α = .ok A ∧ (α ≠ r → AboveOk x r H n α A α) := by
  obtain ⟨lev, hlv, hlev⟩ := level_ok hx.valid
  obtain ⟨asc, hasc, -, -, -, hasc'⟩ := ascendants_spec hx.valid α hα
  have hmem : ∀ c, c ∈ α :: asc ↔ AncSelf x.tree c α := by
    intro c
    rw [List.mem_cons, hasc']
    constructor
    · rintro (rfl | h')
      · exact .refl
      · exact Relation.TransGen.to_reflTransGen h'
    · intro h'
      rcases Relation.reflTransGen_iff_eq_or_transGen.1 h' with h' | h'
      · exact .inl h'.symm
      · exact .inr h'
  have hpath : ∀ c, AncSelf x.tree c α → IsNode x.tree c := by
    intro c hc
    rcases Relation.reflTransGen_iff_eq_or_transGen.1 hc with h' | h'
    · exact h' ▸ hα
    · exact anc_isNode h'
  let nodesAt : Nat → List Nat := fun l => if l = 0 then [] else
    (x.tree.nodesWithLevel lev l).filter (fun i => z.active i && (α :: asc).contains i)
  have hlr : lev r = 0 := hlev r 0 (.root hroot)
  have hnodes : ∀ l i, i ∈ nodesAt l ↔ IsNode x.tree i ∧ lev i = l ∧ (AncSelf x.tree i α ∧ ¬ IsRoot x.tree i) := by
    intro l i
    by_cases hl : l = 0
    · simp only [nodesAt, if_pos hl, List.not_mem_nil, false_iff]
      rintro ⟨h1, h2, h3, h4⟩
      obtain ⟨k, hk⟩ := exists_level hx.valid h1
      have := hlev i k hk
      have hk0 : k = 0 := by omega
      subst hk0
      cases hk with
      | root h => exact h4 h
    · simp only [nodesAt, if_neg hl]
      rw [List.mem_filter, mem_nodesWithLevel]
      constructor
      · rintro ⟨⟨h1, h2⟩, h3⟩
        rw [Bool.and_eq_true, List.contains_iff_mem, hmem] at h3
        refine ⟨h1, h2, h3.2, fun h => ?_⟩
        have := hlev i 0 (.root h)
        omega
      · rintro ⟨h1, h2, h3, h4⟩
        refine ⟨⟨h1, h2⟩, ?_⟩
        rw [Bool.and_eq_true, List.contains_iff_mem, hmem]
        exact ⟨hz.active _ h1, h3⟩
  obtain ⟨ab, p1, p2⟩ := topDown hx.valid hlev (aboveNode z r ts) (fun i => AncSelf x.tree i α ∧ ¬ IsRoot x.tree i) nodesAt hnodes
    (fun l => by
      by_cases hl : l = 0
      · simp [nodesAt, hl]
      · simp only [nodesAt, if_neg hl]
        exact (nodup_nodes.filter _).filter _)
    (fun ab P => ∀ c, P c → AboveOk x r H n α (ab c) c)
    (by
      rintro ab P i hI hi ⟨hiα, hir⟩ _ hpar _
      obtain ⟨p, he⟩ : ∃ p, Edge x.tree p i := by
        by_contra hno
        push Not at hno
        exact hir ⟨hi, hno⟩
      obtain ⟨g, g1, g2, g3⟩ := siblings_ok hx ha H hB hz hu hts he hiα
      have hstep : ∃ b, (if z.tree.parent i = r then .ok g else aboveProduct (ab (z.tree.parent i)) g : Py (Arr R)) = .ok b ∧
          AboveOk x r H n α b i := by
        rw [hz.tree, edge_parent hx.valid he]
        by_cases hpr : p = r
        · rw [if_pos hpr]
          subst hpr
          exact ⟨g, rfl, g2, fun x' hx' k hk B' hB' e hel => g3 x' hx' k hk B' hB' e hel.length_eq⟩
        · rw [if_neg hpr]
          have hprt : ¬ IsRoot x.tree p := fun h => hpr (root_unique hx.valid h hroot)
          exact aboveProduct_ok hx r hroot H he hprt (hI p (hpar p he ⟨.head he hiα, hprt⟩)) g2 g3
      obtain ⟨b, b1, b2⟩ := hstep
      refine ⟨upd ab i b, ?_, ?_⟩
      · unfold aboveNode
        by_cases hpr : z.tree.parent i = r
        · rw [if_pos hpr] at b1
          cases b1
          simp only [g1, if_pos hpr, bind, Except.bind]
        · rw [if_neg hpr] at b1
          simp only [g1, if_neg hpr, b1, bind, Except.bind]
      · intro c hc
        by_cases hci : c = i
        · subst hci
          simpa [upd] using b2
        · simp only [upd, if_neg hci]
          exact hI c (hc.resolve_right hci))
    (x.tree.maxLevel lev + 1) (upd (fun _ => ⟨[], fun _ => 0⟩) r ⟨(ts r).shape, fun _ => (1 : R)⟩) (fun c hc => hc.elim)
  refine ⟨ab α, ?_, ?_⟩
  · unfold evalDiagAbove
    rw [hz.tree]
    simp only [hr, hlv, hasc, bind, Except.bind]
    have hfold : ∀ (l : List Nat) (s : Nat → Arr R), (l.map (· + 1)).foldlM (fun ab l =>
        ((x.tree.nodesWithLevel lev l).filter (fun i => z.active i && (α :: asc).contains i)).foldlM (aboveNode z r ts) ab) s =
        (l.map (· + 1)).foldlM (fun ab l => (nodesAt l).foldlM (aboveNode z r ts) ab) s := by
      intro l
      induction l with
      | nil => intro s; rfl
      | cons a l ih =>
        intro s
        rw [List.map_cons, List.foldlM_cons, List.foldlM_cons]
        have : nodesAt (a + 1) = (x.tree.nodesWithLevel lev (a + 1)).filter (fun i => z.active i && (α :: asc).contains i) := by
          simp [nodesAt]
        rw [this]
        congr 1
        funext s'
        exact ih s'
    rw [hfold]
    rw [List.range_succ_eq_map, List.foldlM_cons] at p1
    have h0 : nodesAt 0 = [] := by simp [nodesAt]
    rw [h0, List.foldlM_nil] at p1
    simp only [bind, Except.bind, pure, Except.pure] at p1
    have hs : (List.range (x.tree.maxLevel lev)).map (· + 1) = (List.range (x.tree.maxLevel lev)).map Nat.succ := rfl
    rw [hs, p1]
  · intro hαr
    exact p2 α ⟨hα, ⟨.refl, fun h => hαr (root_unique hx.valid h hroot)⟩, by
      have := lev_le_maxLevel (T := x.tree) lev hα; omega⟩

include hx ha hn in
theorem LeafProducts.filters {z : TBT R} (hz : LeafProducts x n B α z) {i : Nat} (hi : IsNode x.tree i) :
    (x.tree.children i).filter z.active = x.tree.children i ∧ (x.tree.children i).filter (fun c => !z.active c) = [] := by
  constructor
  · rw [List.filter_eq_self]
    intro c hc
    exact hz.active hx ha hn ((mem_children i c hi).1 hc).2.1
  · rw [List.filter_eq_nil_iff]
    intro c hc
    simp [hz.active hx ha hn ((mem_children i c hi).1 hc).2.1]

/-- The outer product of the arrays of the children. -/
theorem outer_children (cs : List Nat) (hne : cs ≠ []) (sz : Nat → Nat) (arr : Nat → Arr R) (n : Nat)
    (harr : ∀ c ∈ cs, (arr c).shape = [n, sz c]) :
    (outerChain (cs.map arr)).shape = n :: cs.map sz ∧
    ∀ k s, s.length = cs.length → (outerChain (cs.map arr)).get (k :: s) =
      (List.zipWith (fun c j => (arr c).get [k, j]) cs s).prod := by
  have h1 : (cs.map (fun c => (arr c, sz c))).map Prod.fst = cs.map arr := by rw [List.map_map]; rfl
  have h2 : (cs.map (fun c => (arr c, sz c))).map Prod.snd = cs.map sz := by rw [List.map_map]; rfl
  obtain ⟨g1, g2⟩ := outerChain_spec n (cs.map (fun c => (arr c, sz c))) (by simpa using hne) (by
    intro q hq
    obtain ⟨c, hc, rfl⟩ := List.mem_map.1 hq
    exact harr c hc)
  rw [h1] at g1 g2
  rw [h2] at g1
  refine ⟨g1, fun k s hs => ?_⟩
  rw [g2 k s (by simpa using hs), List.zipWith_map_left]

theorem zipWith_congr_inBox {S : Type} (cs : List Nat) (sz : Nat → Nat) (f g : Nat → Nat → S) (s : List Nat) (hs : InBox (cs.map sz) s)
    (h : ∀ c ∈ cs, ∀ j, j < sz c → f c j = g c j) : List.zipWith f cs s = List.zipWith g cs s := by
  apply List.ext_getElem (by simp)
  intro m h1 h2
  rw [List.getElem_zipWith, List.getElem_zipWith]
  have hm : m < cs.length := by rw [List.length_zipWith] at h1; omega
  have htl : m < s.length := by rw [hs.length_eq]; simpa using hm
  have := ((inBox_iff_getD _ _).1 hs).2 m (by simpa using hm)
  rw [List.getD_eq_getElem _ _ htl, List.getD_eq_getElem _ _ (by simpa using hm), List.getElem_map] at this
  exact h _ (List.getElem_mem hm) _ this

theorem argsort_id {l : List Nat} (h : l.Pairwise (· < ·)) : FullTensor.argsort l = List.range l.length := by
  have hp := argsort_perm l
  have hs := argsort_sorted l
  apply hp.eq_of_pairwise (le := fun i j => l.getD i 0 ≤ l.getD j 0) _ hs
  · rw [List.pairwise_iff_getElem]
    intro i j hi hj hij
    rw [List.length_range] at hi hj
    rw [List.getElem_range, List.getElem_range, List.getD_eq_getElem _ _ hi, List.getD_eq_getElem _ _ hj]
    exact ((List.pairwise_iff_getElem.1 h) i j hi hj hij).le
  · intro a b h1 h2 hab hba
    have ha : a < l.length := List.mem_range.1 (hp.mem_iff.1 h1)
    have hb : b < l.length := List.mem_range.1 h2
    rw [List.getD_eq_getElem _ _ ha, List.getD_eq_getElem _ _ hb] at hab hba
    by_contra hne
    rcases Nat.lt_or_gt_of_ne hne with hlt | hlt
    · have := (List.pairwise_iff_getElem.1 h) a b ha hb hlt; omega
    · have := (List.pairwise_iff_getElem.1 h) b a hb ha hlt; omega

theorem applyPerm_range_self (v : List Nat) : applyPerm (List.range v.length) v = v := by
  unfold applyPerm
  apply List.ext_getElem (by simp)
  intro i h1 h2
  rw [List.getElem_map, List.getElem_range, List.getD_eq_getElem _ _ h2]

theorem transposeT_range (g : Arr R) : ∃ g', FullTensor.transposeT g (List.range g.order) = .ok g' ∧ g'.shape = g.shape ∧
    ∀ idx, InBox g.shape idx → g'.get idx = g.get idx := by
  obtain ⟨y, y1, y2, y3, -⟩ := FullTensor.transpose_spec g (List.range g.order) (List.Perm.refl _)
  refine ⟨y, y1, by rw [y2]; exact applyPerm_range_self g.shape, fun idx hidx => ?_⟩
  have := (y3 idx hidx).2
  have hl : idx.length = g.order := hidx.length_eq
  rw [show entriesAt (List.range g.order) idx = idx by rw [← hl]; exact applyPerm_range_self idx] at this
  exact this

theorem predict_eq {w : Nat → Nat → R} (k : Nat) (hw : w = rowW H k) (hlen : H.length = x.order) (a : Arr R) (e : List Nat) :
    sumBox x.shape (fun idx => ((List.range x.order).map (fun d => w d (idx.getD d 0))).prod * a.get (idx ++ e)) =
      predict x.shape H a k e := by
  unfold predict
  apply sumBox_congr
  intro idx hidx
  rw [mul_comm]
  congr 2
  have hil : idx.length = x.order := by rw [hidx.length_eq]; simp [TBT.shape, TBT.order]
  apply List.ext_getElem (by simp [hlen, hil])
  intro m h1 h2
  have hm : m < x.order := by simpa using h1
  rw [List.getElem_map, List.getElem_range, List.getElem_zipWith, hw, rowW, List.getD_eq_getElem _ _ (by omega),
    List.getD_eq_getElem _ _ (by omega)]

include hx hroot in
theorem rank_root_eq : x.rank r = (rankShape x r).getD 0 1 := by
  have hrl := hx.root_internal hroot
  obtain ⟨_, h2, h3, _⟩ := hx.node r hroot.1 hrl
  have hp : x.tree.parent r = 0 := (parent_eq_zero hroot.1).2 hroot
  have hlf : x.tree.isLeaf r = false := by
    by_contra hh; exact hrl ((isLeaf_mem _ _).1 (by simpa using hh))
  have ho : (x.tensors r).order = (x.tree.children r).length + (rankShape x r).length := by
    have : (x.tensors r).order = (x.tensors r).shape.length := rfl
    rw [this, h2]; simp
  unfold TBT.rank
  rw [hlf, hp, ho]
  match hE : rankShape x r, h3 with
  | [], _ => simp
  | [m], _ =>
    rw [hE] at h2
    simp [lastDim_of_shape h2]

variable (x n B α)

include hx ha hroot hn hH hB in
/-- The gradient before the permutation, for a node `α` other than the root. -/
theorem paramGradEvalDiag_other (hu : NoUnary x.tree) (hα : IsNode x.tree α) (hr : x.tree.root = .ok r) (hαr : α ≠ r) {z : TBT R}
    (hz : LeafProducts x n B α z) :
    ∃ g, paramGradEvalDiag z α H = .ok g ∧ g.shape = n :: ((x.tensors α).shape ++ rankShape x r) ∧
      ∀ x', SameOff x x' α → ∀ k, k < n → ∀ B', IsEval x' (rowW H k) B' → ∀ e, InBox (rankShape x r) e →
        B' r e = sumBox (x.tensors α).shape (fun q => g.get (k :: (q ++ e)) * (x'.tensors α).get q) := by
  have hnr : ¬ IsRoot x.tree α := fun h => hαr (root_unique hx.valid h hroot)
  obtain ⟨ts, t1, t2⟩ := below_ok hx ha r hroot H hn hB hz hα hr
  obtain ⟨A, A1, A2⟩ := above_ok hx ha r hroot H hn hB (hz.internalOk hx ha hn) hu hα hr (ts := ts) (fun c h1 h2 h3 _ => t2 c h1 h2 (.inr h3))
  have hA := A2 hαr
  have hA0 : A.shape.getD 0 0 = n := by rw [hA.1]; rfl
  obtain ⟨f1, f2⟩ := hz.filters hx ha hn hα
  have hAs : A.shape = n :: ([x.lastDim α] ++ rankShape x r) := hA.1
  by_cases hl : α ∈ x.tree.dim2ind
  · have hlf : x.tree.isLeaf α = true := (isLeaf_mem _ _).2 hl
    obtain ⟨m, q, hsh⟩ := hx.leaf α hl (ha α hα)
    have d1 : x.lastDim α = q := lastDim_of_shape (s := [m]) hsh
    have l1 : x.leafSize α = m := by unfold TBT.leafSize; rw [if_pos (ha α hα), hsh]; rfl
    have hsd : x.shape.getD (dimOf x.tree α) 0 = m := by rw [shape_getD (x := x) hl, l1]
    have hM := hH _ (dimOf_lt hl)
    rw [hsd] at hM
    rw [d1] at hAs
    obtain ⟨o1, o2⟩ := outer_gen (⟨[n], fun _ => 1⟩ : Arr R) (H.getD (dimOf x.tree α) ⟨[], fun _ => 0⟩) n [] [m] rfl hM
    have ho : outerChain [(⟨[n], fun _ => 1⟩ : Arr R), H.getD (dimOf x.tree α) ⟨[], fun _ => 0⟩] =
      FullTensor.tensordotEvalDiag (⟨[n], fun _ => 1⟩ : Arr R) (H.getD (dimOf x.tree α) ⟨[], fun _ => 0⟩) [] [] [0] [0] := rfl
    rw [← ho] at o1 o2
    generalize hout : outerChain [(⟨[n], fun _ => 1⟩ : Arr R), H.getD (dimOf x.tree α) ⟨[], fun _ => 0⟩] = out at o1 o2
    obtain ⟨u1, u2⟩ := outer_gen out A n [m] ([q] ++ rankShape x r) (by simpa using o1) hAs
    refine ⟨FullTensor.tensordotEvalDiag out A [] [] [0] [0], ?_, by rw [u1, hsh]; simp, ?_⟩
    · unfold paramGradEvalDiag
      rw [hz.tree]
      simp only [hr, t1, A1, hA0, hlf, if_true, if_neg hαr, bind, Except.bind]
      rw [← hout]
      rfl
    · intro x' hx' k hk B' hB' e he
      rw [← hA.2 x' hx'.sub k hk B' hB' e he, hsh, show [m, q] = [m] ++ [q] from rfl, sumBox_append, sumBox_singleton, d1]
      simp only [sumBox_singleton]
      rw [sum_comm]
      refine sum_congr rfl (fun j _ => ?_)
      rw [hB'.leaf α (by rw [hx'.tree]; exact hl), hx'.leafSize, l1, hx'.tree, mul_sum]
      refine sum_congr rfl (fun a _ => ?_)
      have h1 := u2 k [a] (j :: e) rfl (by simpa using he.length_eq)
      have h2 := o2 k [] [a] rfl rfl
      simp only [List.nil_append, one_mul, List.singleton_append] at h1 h2
      simp only [List.singleton_append, List.cons_append, List.nil_append]
      rw [h1, h2]
      simp only [rowW]
      ring
  · have hlf : x.tree.isLeaf α = false := by
      by_contra hh; exact hl ((isLeaf_mem _ _).1 (by simpa using hh))
    have hne : x.tree.children α ≠ [] := by
      intro h0
      have := hu α hα hl
      rw [h0] at this; simp at this
    have hch : ∀ c ∈ x.tree.children α, Edge x.tree α c ∧ ¬ AncSelf x.tree c α := by
      intro c hc
      have he := (mem_children α c hα).1 hc
      exact ⟨he, fun h => Anc.irrefl hx.valid α (Relation.TransGen.head' he h)⟩
    have hbel : ∀ c ∈ x.tree.children α, BelowOk x n B ts c := fun c hc =>
      t2 c (hch c hc).1.2.1 (WF.child_not_root (hch c hc).1) (.inr (hch c hc).2)
    obtain ⟨o1, o2⟩ := outer_children (x.tree.children α) hne x.lastDim ts n (fun c hc => (hbel c hc).1)
    obtain ⟨u1, u2⟩ := outer_gen _ A n _ ([x.lastDim α] ++ rankShape x r) o1 hAs
    have e3 : rankShape x α = [x.lastDim α] := by
      have := hx.rs_eq hα hnr; rwa [rs_node hl] at this
    have hsh : (x.tensors α).shape = (x.tree.children α).map x.lastDim ++ [x.lastDim α] := by
      rw [(hx.node α hα hl).2.1, childSizes_active ha hα, e3]
    refine ⟨FullTensor.tensordotEvalDiag (outerChain ((x.tree.children α).map ts)) A [] [] [0] [0], ?_,
      by rw [u1, hsh]; simp, ?_⟩
    · unfold paramGradEvalDiag
      rw [hz.tree]
      simp only [hr, t1, A1, hA0, hlf, if_neg hαr, f1, f2, List.isEmpty_nil, if_true, Bool.false_eq_true, if_false, bind, Except.bind]
    · intro x' hx' k hk B' hB' e he
      rw [← hA.2 x' hx'.sub k hk B' hB' e he, hsh, sumBox_append]
      have hN : ∀ j, B' α [j] = sumBox ((x.tree.children α).map x.lastDim) (fun t =>
          (List.zipWith (fun c j => (ts c).get [k, j]) (x.tree.children α) t).prod * (x'.tensors α).get (t ++ [j])) := by
        intro j
        rw [hB'.node α (by rw [hx'.tree]; exact hα) (by rw [hx'.tree]; exact hl), hx'.tree]
        have : (x.tree.children α).map x'.lastDim = (x.tree.children α).map x.lastDim :=
          List.map_congr_left (fun c _ => hx'.lastDim c)
        rw [this]
        apply sumBox_congr
        intro t ht
        congr 2
        apply zipWith_congr_inBox _ _ _ _ t ht
        intro c hc j hj
        rw [(hbel c hc).2 k j hk hj, eval_off' hx hx' (hB k) hB' (hch c hc).1.2.1 (hch c hc).2]
      simp only [sumBox_singleton]
      rw [← sum_sumBox_comm]
      refine sum_congr rfl (fun j _ => ?_)
      rw [hN j, ← sumBox_mul_left]
      apply sumBox_congr
      intro t ht
      have htl : t.length = (x.tree.children α).length := by simpa using ht.length_eq
      have h1 := u2 k t (j :: e) (by simpa using htl) (by simpa using he.length_eq)
      rw [List.append_assoc, List.singleton_append, h1, o2 k t htl]
      ring

include hx ha hroot hn hB in
/-- The gradient before the permutation, for the root. -/
theorem paramGradEvalDiag_root (hu : NoUnary x.tree) (hr : x.tree.root = .ok r) {z : TBT R}
    (hz : LeafProducts x n B r z) :
    ∃ g, paramGradEvalDiag z r H = .ok g ∧ g.shape = n :: (x.tree.children r).map x.lastDim ∧
      ∀ x', SameOff x x' r → ∀ k, k < n → ∀ B', IsEval x' (rowW H k) B' → ∀ e,
        B' r e = sumBox ((x.tree.children r).map x.lastDim) (fun q => g.get (k :: q) * (x'.tensors r).get (q ++ e)) := by
  have hα := hroot.1
  have hl := hx.root_internal hroot
  obtain ⟨ts, t1, t2⟩ := below_ok hx ha r hroot H hn hB hz hα hr
  obtain ⟨A, A1, -⟩ := above_ok hx ha r hroot H hn hB (hz.internalOk hx ha hn) hu hα hr (ts := ts) (fun c h1 h2 h3 _ => t2 c h1 h2 (.inr h3))
  obtain ⟨f1, f2⟩ := hz.filters hx ha hn hα
  have hlf : x.tree.isLeaf r = false := by
    by_contra hh; exact hl ((isLeaf_mem _ _).1 (by simpa using hh))
  have hne : x.tree.children r ≠ [] := by
    intro h0
    have := hu r hα hl
    rw [h0] at this; simp at this
  have hch : ∀ c ∈ x.tree.children r, Edge x.tree r c ∧ ¬ AncSelf x.tree c r := by
    intro c hc
    have he := (mem_children r c hα).1 hc
    exact ⟨he, fun h => Anc.irrefl hx.valid r (Relation.TransGen.head' he h)⟩
  have hbel : ∀ c ∈ x.tree.children r, BelowOk x n B ts c := fun c hc =>
    t2 c (hch c hc).1.2.1 (WF.child_not_root (hch c hc).1) (.inl rfl)
  obtain ⟨o1, o2⟩ := outer_children (x.tree.children r) hne x.lastDim ts n (fun c hc => (hbel c hc).1)
  refine ⟨outerChain ((x.tree.children r).map ts), ?_, o1, ?_⟩
  · unfold paramGradEvalDiag
    rw [hz.tree]
    simp only [hr, t1, A1, hlf, f1, f2, List.isEmpty_nil, if_true, Bool.false_eq_true, if_false, bind, Except.bind]
  · intro x' hx' k hk B' hB' e
    rw [hB'.node r (by rw [hx'.tree]; exact hα) (by rw [hx'.tree]; exact hl), hx'.tree]
    have : (x.tree.children r).map x'.lastDim = (x.tree.children r).map x.lastDim :=
      List.map_congr_left (fun c _ => hx'.lastDim c)
    rw [this]
    apply sumBox_congr
    intro t ht
    have htl : t.length = (x.tree.children r).length := by simpa using ht.length_eq
    rw [o2 k t htl]
    congr 2
    apply zipWith_congr_inBox _ _ _ _ t ht
    intro c hc j hj
    rw [(hbel c hc).2 k j hk hj, eval_off' hx hx' (hB k) hB' (hch c hc).1.2.1 (hch c hc).2]

end gradient

theorem all_active_all {x : TBT R} (ha : AllActive x) : x.tree.nodes.all x.active = true := by
  rw [List.all_eq_true]
  exact fun i hi => ha i ((mem_nodes i).1 hi)

/-- C104. `parameter_gradient_eval(alpha)` of a function in tree-based format with all nodes active and without unary node, for a
node `alpha` other than the root: the gradient has one row per point, then the axes of the tensor of `alpha`, then the output axis of
the root. Whatever the tensor put at node `alpha`, the value of the function at point `k` is the contraction of row `k` of the
gradient with this tensor. If `alpha` is an internal node, an output axis of size one is excluded (the code raises). -/
theorem paramGradEval_node_partial [CommSemiring R] (x : TBT R) (hx : WF x) (ha : AllActive x) (hu : NoUnary x.tree) (r : Nat)
    (hr : x.tree.root = .ok r) (H : List (Arr R)) (n : Nat) (hn : 0 < n) (hlen : H.length = x.order)
    (hH : ∀ d, d < x.order → (H.getD d ⟨[], fun _ => 0⟩).shape = [n, x.shape.getD d 0])
    (α : Nat) (hα : IsNode x.tree α) (hαr : α ≠ r) (hE : α ∈ x.tree.dim2ind ∨ rankShape x r ≠ [1]) :
    ∃ g, paramGradEval x α H = .ok g ∧ g.shape = n :: ((x.tensors α).shape ++ rankShape x r) ∧
      ∀ x' a', SameOff x x' α → full x' = .ok a' → ∀ k e, k < n → InBox (rankShape x r) e →
        predict x.shape H a' k e = sumBox (x.tensors α).shape (fun q => g.get (k :: (q ++ e)) * (x'.tensors α).get q) := by
  obtain ⟨r', hr', hroot⟩ := root_ok hx.valid
  rw [hr] at hr'; cases hr'
  obtain ⟨V, hV⟩ := exists_value x hx.valid
  obtain ⟨a, a1, -⟩ := full_on x hx hV.on hr
  have hex : ∀ k, ∃ B, IsEval x (rowW H k) B := fun k => by
    obtain ⟨B, hB, -⟩ := exists_eval x hx ha r hr (rowW H k) a1
    exact ⟨B, hB⟩
  choose B hB using hex
  obtain ⟨z, z1, z2⟩ := leafProducts_ok x hx ha H n hH B hB α rfl
  obtain ⟨g, g1, g2, g3⟩ := paramGradEvalDiag_other x hx ha r hroot H n hn hH B hB α hu hα hr hαr z2
  have hval : ∀ x' a', SameOff x x' α → full x' = .ok a' → ∀ k e, k < n → InBox (rankShape x r) e →
        predict x.shape H a' k e = sumBox (x.tensors α).shape (fun q => g.get (k :: (q ++ e)) * (x'.tensors α).get q) := by
    intro x' a' hx' hf k e hk he
    obtain ⟨B', hB', hB2⟩ := exists_eval x' (hx'.wf hx) (hx'.allActive ha) r (by rw [hx'.tree]; exact hr) (rowW H k) hf
    have ho : x'.order = x.order := by unfold TBT.order; rw [hx'.tree]
    rw [← g3 x' hx' k hk B' hB' e he, hB2 e (by rw [hx'.rankShape]; exact he), hx'.shapeEq, ho, predict_eq H k rfl hlen]
  have hall := all_active_all ha
  by_cases hl : α ∈ x.tree.dim2ind
  · have hlf : x.tree.isLeaf α = true := (isLeaf_mem _ _).2 hl
    refine ⟨g, ?_, g2, hval⟩
    unfold paramGradEval
    simp only [hr, hall, if_true, z1, g1, bind, Except.bind]
    rw [if_pos hlf]
  · have hE' := hE.resolve_left hl
    have hlf : x.tree.isLeaf α = false := by
      by_contra hh; exact hl ((isLeaf_mem _ _).1 (by simpa using hh))
    have hnr : ¬ IsRoot x.tree α := fun h => hαr (root_unique hx.valid h hroot)
    have e3 : rankShape x α = [x.lastDim α] := by
      have := hx.rs_eq hα hnr; rwa [rs_node hl] at this
    have hsl : (x.tensors α).shape.length = (x.tree.children α).length + 1 := by
      rw [(hx.node α hα hl).2.1, e3]; simp
    obtain ⟨f1, f2⟩ := z2.filters hx ha hn hα
    have hperm : gradPerm x.tree z.active r α (z.tensors α).order g.order (decide (1 < x.rank r)) = List.range g.order := by
      have ho : g.order = (x.tree.children α).length + 2 + (rankShape x r).length := by
        show g.shape.length = _
        rw [g2, List.length_cons, List.length_append, hsl]; omega
      have hzo : (z.tensors α).order = (x.tree.children α).length + 1 := by
        rw [z2.off α (.inl hl)]; exact hsl
      unfold gradPerm
      simp only [f1, f2, List.append_nil, if_neg hαr, argsort_id (children_sorted α), hzo, ho]
      rw [rank_root_eq hx r hroot]
      have hlen := (hx.node r hroot.1 (hx.root_internal hroot)).2.2.1
      have hact := (hx.node r hroot.1 (hx.root_internal hroot)).1
      match hEE : rankShape x r, hlen with
      | [], _ =>
        simp only [List.getD_nil, lt_irrefl, decide_false, Bool.false_eq_true, and_false, if_false, List.length_nil, List.append_nil,
          Nat.add_zero]
        rw [List.range_succ_eq_map, List.range_succ, List.map_append]
        rfl
      | [m], _ =>
        have hm : 1 < m := by
          have h1 : m ≠ 1 := fun h => hE' (by rw [hEE, h])
          have h0 : m ≠ 0 := by
            rintro rfl
            unfold TBT.active at hact
            rw [(hx.node r hroot.1 (hx.root_internal hroot)).2.1, hEE] at hact
            simp at hact
          omega
        have : decide (1 < ([m] : List Nat).getD 0 1) = true := by simpa using hm
        simp only [this, ne_eq, hαr, not_false_eq_true, and_self, if_true, List.length_singleton]
        rw [List.range_succ_eq_map, List.range_succ, List.range_succ, List.map_append, List.map_append]
        rfl
    obtain ⟨g', t1, t2, t3⟩ := transposeT_range g
    refine ⟨g', ?_, by rw [t2, g2], ?_⟩
    · unfold paramGradEval
      simp only [hr, hall, if_true, z1, g1, bind, Except.bind]
      rw [if_neg (by simp [hlf]), hperm, t1]
    · intro x' a' hx' hf k e hk he
      rw [hval x' a' hx' hf k e hk he]
      apply sumBox_congr
      intro q hq
      rw [t3]
      rw [g2]
      exact .cons hk ((inBox_append hq.length_eq).2 ⟨hq, he⟩)

/-- C104. `parameter_gradient_eval(root)`: one row per point and the axes of the children of the root. Whatever the tensor put at
the root, the value of output `e` of the function at point `k` is the contraction of row `k` of the gradient with the slice `e` of
this tensor. -/
theorem paramGradEval_root_partial [CommSemiring R] (x : TBT R) (hx : WF x) (ha : AllActive x) (hu : NoUnary x.tree) (r : Nat)
    (hr : x.tree.root = .ok r) (H : List (Arr R)) (n : Nat) (hn : 0 < n) (hlen : H.length = x.order)
    (hH : ∀ d, d < x.order → (H.getD d ⟨[], fun _ => 0⟩).shape = [n, x.shape.getD d 0]) :
    ∃ g, paramGradEval x r H = .ok g ∧ g.shape = n :: (x.tree.children r).map x.lastDim ∧
      ∀ x' a', SameOff x x' r → full x' = .ok a' → ∀ k e, k < n → InBox (rankShape x r) e →
        predict x.shape H a' k e =
          sumBox ((x.tree.children r).map x.lastDim) (fun q => g.get (k :: q) * (x'.tensors r).get (q ++ e)) := by
  obtain ⟨r', hr', hroot⟩ := root_ok hx.valid
  rw [hr] at hr'; cases hr'
  obtain ⟨V, hV⟩ := exists_value x hx.valid
  obtain ⟨a, a1, -⟩ := full_on x hx hV.on hr
  have hex : ∀ k, ∃ B, IsEval x (rowW H k) B := fun k => by
    obtain ⟨B, hB, -⟩ := exists_eval x hx ha r hr (rowW H k) a1
    exact ⟨B, hB⟩
  choose B hB using hex
  obtain ⟨z, z1, z2⟩ := leafProducts_ok x hx ha H n hH B hB r rfl
  obtain ⟨g, g1, g2, g3⟩ := paramGradEvalDiag_root x hx ha r hroot H n hn B hB hu hr z2
  have hall := all_active_all ha
  have hl := hx.root_internal hroot
  have hlf : x.tree.isLeaf r = false := by
    by_contra hh; exact hl ((isLeaf_mem _ _).1 (by simpa using hh))
  obtain ⟨f1, f2⟩ := z2.filters hx ha hn hroot.1
  have hperm : gradPerm x.tree z.active r r (z.tensors r).order g.order (decide (1 < x.rank r)) = List.range g.order := by
    have ho : g.order = (x.tree.children r).length + 1 := by
      show g.shape.length = _
      rw [g2]; simp
    unfold gradPerm
    simp only [f1, f2, List.append_nil, if_true, argsort_id (children_sorted r), ho, ne_eq, not_true_eq_false, false_and, if_false]
    rw [List.range_succ_eq_map]
  obtain ⟨g', t1, t2, t3⟩ := transposeT_range g
  refine ⟨g', ?_, by rw [t2, g2], ?_⟩
  · unfold paramGradEval
    simp only [hr, hall, if_true, z1, g1, bind, Except.bind]
    rw [if_neg (by simp [hlf]), hperm, t1]
  · intro x' a' hx' hf k e hk he
    obtain ⟨B', hB', hB2⟩ := exists_eval x' (hx'.wf hx) (hx'.allActive ha) r (by rw [hx'.tree]; exact hr) (rowW H k) hf
    have ho : x'.order = x.order := by unfold TBT.order; rw [hx'.tree]
    have := hB2 e (by rw [hx'.rankShape]; exact he)
    rw [hx'.shapeEq, ho, predict_eq H k rfl hlen] at this
    rw [← this, g3 x' hx' k hk B' hB' e]
    apply sumBox_congr
    intro q hq
    rw [t3]
    rw [g2]
    exact .cons hk hq

/-- `predict` is the evaluation of the function: the result of `tensor_matrix_product_eval_diag` with the values of the bases. -/
theorem predict_eval [CommSemiring R] (x : TBT R) (hx : WF x) (r : Nat) (hr : x.tree.root = .ok r) (H : List (Arr R)) (n : Nat)
    (hlen : H.length = x.order) (hH : ∀ d, d < x.order → (H.getD d ⟨[], fun _ => 0⟩).shape = [n, x.shape.getD d 0]) :
    ∃ a y, full x = .ok a ∧ tensorMatrixProductEvalDiag x H = .ok y ∧
      ∀ k e, k < n → InBox (rankShape x r) e → y.get (k :: e) = predict x.shape H a k e := by
  obtain ⟨a, y, h1, h2, -, h3⟩ := tensorMatrixProductEvalDiag_full x hx r hr H n hlen hH
  exact ⟨a, y, h1, h2, h3⟩

/-- The matrices of the example. -/
def exH : List (Arr Int) := [⟨[4, 3], fun i => i.sum⟩, ⟨[4, 2], fun i => i.prod⟩, ⟨[4, 2], fun i => i.getD 0 0 - i.getD 1 0⟩]

/-- The hypotheses of C104 are met by a tensor of order 3 with five active nodes, for every node. -/
example : WF exU ∧ AllActive exU ∧ NoUnary exU.tree ∧ exU.tree.root = .ok 1 ∧ exH.length = exU.order ∧
    (∀ d, d < exU.order → (exH.getD d ⟨[], fun _ => 0⟩).shape = [4, exU.shape.getD d 0]) ∧
    IsNode exU.tree 2 ∧ rankShape exU 1 ≠ [1] := by
  have hi : ∀ i, IsNode exU.tree i → i ∈ [1, 2, 3, 4, 5] := by
    rintro i ⟨h1, h2⟩
    have : exU.tree.n = 5 := rfl
    simp only [List.mem_cons, List.not_mem_nil, or_false]
    omega
  refine ⟨exU_wf, ?_, ?_, by decide +kernel, rfl, by decide +kernel, ⟨by decide, by decide⟩, by decide +kernel⟩
  · intro i h
    exact (show ∀ i ∈ [1, 2, 3, 4, 5], exU.active i = true by decide +kernel) i (hi i h)
  · intro i h hl
    exact (show ∀ i ∈ [1, 2, 3, 4, 5], i ∉ exU.tree.dim2ind → 2 ≤ (exU.tree.children i).length by decide +kernel) i (hi i h) hl

/-- `exU` with an output axis of size one. -/
def exU1 : TBT Int := ⟨exTree, upd exU.tensors 1 ⟨[2, 3, 1], fun t => t.getD 0 0 - t.getD 1 0⟩⟩

theorem exU1_wf : WF exU1 := wf_of_wfB _ exTree_valid (by decide +kernel)

def errOf (x : Py (Arr R)) : Option PyErr := match x with
  | .ok _ => none
  | .error e => some e

/-- If the tensor of the root has an output axis of size one, the gradient with respect to an internal node raises an exception. -/
theorem paramGradEval_axis_one_witness : WF exU1 ∧ rankShape exU1 1 = [1] ∧ errOf (paramGradEval exU1 2 exH) = some .valueError :=
  ⟨exU1_wf, by decide +kernel, by decide +kernel⟩

/-- A tree with a unary node: the root 1 has the children 2 and 4, node 2 has the only child 3. -/
def unTree : DTree := ofParents [0, 0, 1, 0] [2 + 1, 4]

theorem unTree_valid : Valid unTree := ofParents_valid _ _ (by decide) (by decide) (by decide) (by decide) (by decide)

def exUn : TBT Int where
  tree := unTree
  tensors := fun i => match i with
    | 1 => ⟨[2, 2], fun t => t.getD 0 0 - t.getD 1 0⟩
    | 2 => ⟨[2, 2], fun t => t.getD 0 0 + t.getD 1 0⟩
    | 3 => ⟨[3, 2], fun t => 2 + t.getD 0 0⟩
    | 4 => ⟨[2, 2], fun t => 3 * t.getD 0 0 + t.getD 1 0 + 1⟩
    | _ => ⟨[0], fun _ => 0⟩

theorem exUn_wf : WF exUn := wf_of_wfB _ unTree_valid (by decide +kernel)

/-- The gradient with respect to the tensor of an only child raises an exception. -/
theorem paramGradEval_unary_witness : WF exUn ∧ exUn.tree.children 2 = [3] ∧
    errOf (paramGradEval exUn 3 [⟨[4, 3], fun i => i.sum⟩, ⟨[4, 2], fun i => i.prod⟩]) = some .indexError :=
  ⟨exUn_wf, by decide +kernel, by decide +kernel⟩

end TreeBased
end Verif
