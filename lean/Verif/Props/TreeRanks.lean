import Verif.Model.TreeRanks
import Verif.Props.TreeWitness
import Verif.Lemmas.Gauge

/-!
# Rank admissibility: C40
-/

namespace Verif.TreeBased
open DimTree DTree

variable {R : Type}

open Classical in
/-- The size seen by the neighbours of a node: 1 for the root, the size of the dimension for an inactive leaf, the
given rank otherwise. -/
noncomputable def effRank (x : TBT R) (ranks : Nat → Nat) (i : Nat) : Nat :=
  if IsRoot x.tree i then 1 else if x.active i then ranks i else x.leafSize i

open Classical in
/-- The admissibility conditions: inactive nodes have rank 0; the rank of an internal node is at most the product of
those of its sons; the rank of an active son is at most the product of those of its parent and of its siblings; the rank
of an active leaf is at most the size of its dimension. -/
structure Admissible (x : TBT R) (ranks : Nat → Nat) : Prop where
  inactive : ∀ c ∈ x.tree.dim2ind, ¬ x.active c → ranks c = 0
  children : ∀ i, IsNode x.tree i → (∃ j, Edge x.tree i j) →
    effRank x ranks i ≤ ∏ c ∈ Finset.Icc 1 x.tree.n with Edge x.tree i c, effRank x ranks c
  sibling : ∀ i c, Edge x.tree i c → x.active c → effRank x ranks c ≤ effRank x ranks i *
    ∏ s ∈ Finset.Icc 1 x.tree.n with Edge x.tree i s ∧ s ≠ c, effRank x ranks s
  leaf : ∀ c ∈ x.tree.dim2ind, x.active c → ranks c ≤ x.leafSize c

theorem assignAll_spec (f g : Nat → Nat) : ∀ (l : List Nat) (i : Nat),
    assignAll f l (l.map g) i = if i ∈ l then g i else f i := by
  suffices h : ∀ (l : List Nat) (f : Nat → Nat) (i : Nat), assignAll f l (l.map g) i = if i ∈ l then g i else f i from
    fun l i => h l f i
  intro l
  induction l with
  | nil => intro f i; rfl
  | cons a l ih =>
    intro f i
    show assignAll (upd f a (g a)) l (l.map g) i = _
    rw [ih]
    unfold upd
    by_cases h : i ∈ l
    · simp [h]
    · by_cases hia : i = a
      · subst hia; simp [h]
      · simp [h, hia]

/-- The list of the inactive leaves, dimension by dimension. -/
theorem inactive_order (x : TBT R) (hV : Valid x.tree)
    (hinc : ∀ d d' c c' : Nat, d < d' → x.tree.dim2ind[d]? = some c → x.tree.dim2ind[d']? = some c' → ¬ x.active c → ¬ x.active c' →
      c < c') : (inactiveDims x).map (fun d => x.tree.dim2ind.getD d 0) = inactiveLeaves x := by
  have hlt : ∀ d, d < x.order → x.tree.dim2ind[d]? = some (x.tree.dim2ind.getD d 0) := by
    intro d hd
    rw [List.getD_eq_getElem _ _ hd, List.getElem?_eq_getElem hd]
  have h1 : ((inactiveDims x).map (fun d => x.tree.dim2ind.getD d 0)).Pairwise (· < ·) := by
    rw [List.pairwise_map]
    unfold inactiveDims
    rw [List.pairwise_filter]
    have : (List.range x.order).Pairwise (fun a b => a < b ∧ b < x.order) := by
      rw [List.pairwise_iff_getElem]
      intro i j hi hj hij
      simp at hi hj ⊢
      omega
    refine this.imp ?_
    rintro a b ⟨hab, hb⟩ ha' hb'
    exact hinc a b _ _ hab (hlt a (by omega)) (hlt b hb) (by simpa using ha') (by simpa using hb')
  have h2 : (inactiveLeaves x).Pairwise (· < ·) := by
    unfold inactiveLeaves
    apply List.Pairwise.filter
    unfold nodes
    rw [List.pairwise_map]
    exact List.pairwise_lt_range.imp (fun h => by omega)
  refine List.Perm.eq_of_pairwise (le := (· < ·)) (fun a b _ _ h h' => absurd (h.trans h') (lt_irrefl _)) h1 h2 ?_
  rw [List.perm_ext_iff_of_nodup (h1.imp (fun h => ne_of_lt h)) (h2.imp (fun h => ne_of_lt h))]
  intro a
  unfold inactiveLeaves inactiveDims
  simp only [List.mem_map, List.mem_filter, List.mem_range, mem_nodes, Bool.and_eq_true, isLeaf_mem]
  constructor
  · rintro ⟨d, ⟨hd, ha⟩, rfl⟩
    have hm : x.tree.dim2ind.getD d 0 ∈ x.tree.dim2ind := List.mem_of_getElem? (hlt d hd)
    exact ⟨((hV.leaves _).1 hm).1, hm, ha⟩
  · rintro ⟨_, hm, ha⟩
    obtain ⟨d, hd, rfl⟩ := List.mem_iff_getElem.1 hm
    exact ⟨d, ⟨hd, by rw [List.getD_eq_getElem _ _ hd]; exact ha⟩, by rw [List.getD_eq_getElem _ _ hd]⟩

open Classical in
theorem prod_children {T : DTree} (f : Nat → Nat) (i : Nat) (hi : IsNode T i) :
    ((T.children i).map f).prod = ∏ c ∈ Finset.Icc 1 T.n with Edge T i c, f c := by
  rw [← List.prod_toFinset _ (nodup_children i)]
  refine Finset.prod_congr ?_ (fun _ _ => rfl)
  ext c
  rw [List.mem_toFinset, mem_children i c hi, Finset.mem_filter, Finset.mem_Icc]
  exact ⟨fun h => ⟨h.2.1, h⟩, fun h => h.2⟩

open Classical in
theorem prod_siblings {T : DTree} (f : Nat → Nat) (i c : Nat) (hi : IsNode T i) :
    (((T.children i).filter (· != c)).map f).prod = ∏ s ∈ Finset.Icc 1 T.n with Edge T i s ∧ s ≠ c, f s := by
  rw [← List.prod_toFinset _ ((nodup_children i).filter _)]
  refine Finset.prod_congr ?_ (fun _ _ => rfl)
  ext s
  rw [List.mem_toFinset, List.mem_filter, mem_children i s hi, Finset.mem_filter, Finset.mem_Icc]
  simp only [bne_iff_ne]
  exact ⟨fun h => ⟨h.1.2.1, h⟩, fun h => h.2⟩

/-- C40. `is_admissible_rank(ranks)` answers `True` exactly when the ranks are admissible, provided the inactive leaves
are numbered in the order of their dimensions. Missing: the other numberings, for which it fails
(`isAdmissible_wrong`). -/
theorem isAdmissible_partial (x : TBT R) (h : WF x) (ranks : Nat → Nat)
    (hinc : ∀ d d' c c' : Nat, d < d' → x.tree.dim2ind[d]? = some c → x.tree.dim2ind[d']? = some c' → ¬ x.active c → ¬ x.active c' →
      c < c') : ∃ b, isAdmissible x ranks = .ok b ∧ (b = true ↔ Admissible x ranks) := by
  have hV := h.valid
  obtain ⟨r, hr, hroot⟩ := root_ok hV
  have hrl := h.root_internal hroot
  have hrootiff : ∀ i, IsRoot x.tree i ↔ i = r := fun i => ⟨fun hi => root_unique hV hi hroot, fun hi => hi ▸ hroot⟩
  have hact : ∀ i, IsNode x.tree i → i ∉ x.tree.dim2ind → x.active i = true := fun i hi hl => (h.node i hi hl).1
  have hleafne : ∀ c ∈ x.tree.dim2ind, c ≠ r := by rintro c hc rfl; exact hrl hc
  -- inactive nodes
  have hin : ((x.tree.nodes.filter (fun i => !x.active i)).any (fun i => upd ranks r 1 i != 0) = false) ↔
      ∀ c ∈ x.tree.dim2ind, ¬ x.active c → ranks c = 0 := by
    rw [List.any_eq_false]
    constructor
    · intro hh c hc ha
      have := hh c (by rw [List.mem_filter, mem_nodes]; exact ⟨((hV.leaves c).1 hc).1, by simpa using ha⟩)
      unfold upd at this
      rw [if_neg (hleafne c hc)] at this
      simpa using this
    · intro hh i hi
      rw [List.mem_filter, mem_nodes] at hi
      have hil : i ∈ x.tree.dim2ind := by
        by_contra hc
        have := hact i hi.1 hc
        rw [this] at hi
        simp at hi
      unfold upd
      rw [if_neg (hleafne i hil), hh i hil (by simpa using hi.2)]
      simp
  unfold isAdmissible
  simp only [hr, bind, Except.bind]
  by_cases hz : ∀ c ∈ x.tree.dim2ind, ¬ x.active c → ranks c = 0
  · rw [if_neg (by rw [hin.2 hz]; simp)]
    refine ⟨_, rfl, ?_⟩
    have hord := inactive_order x hV hinc
    have hsz : (inactiveDims x).map (fun d => x.shape.getD d 0) = (inactiveLeaves x).map x.leafSize := by
      rw [← hord, List.map_map]
      apply List.map_congr_left
      intro d hd
      unfold inactiveDims at hd
      rw [List.mem_filter, List.mem_range] at hd
      have hd1 : d < x.tree.dim2ind.length := hd.1
      show x.shape.getD d 0 = x.leafSize (x.tree.dim2ind.getD d 0)
      unfold TBT.shape
      rw [List.getD_eq_getElem _ _ (by simpa using hd1), List.getElem_map, List.getD_eq_getElem _ _ hd1]
    rw [hsz]
    set rk := assignAll (upd ranks r 1) (inactiveLeaves x) ((inactiveLeaves x).map x.leafSize) with hrk
    have hmemI : ∀ i, i ∈ inactiveLeaves x ↔ i ∈ x.tree.dim2ind ∧ ¬ x.active i := by
      intro i
      unfold inactiveLeaves
      rw [List.mem_filter, mem_nodes, Bool.and_eq_true, isLeaf_mem]
      constructor
      · rintro ⟨_, h1, h2⟩; exact ⟨h1, by simpa using h2⟩
      · rintro ⟨h1, h2⟩; exact ⟨((hV.leaves i).1 h1).1, h1, by simpa using h2⟩
    have hrke : ∀ i, IsNode x.tree i → rk i = effRank x ranks i := by
      intro i hi
      rw [hrk, assignAll_spec]
      unfold effRank upd
      simp only [hrootiff]
      by_cases hil : i ∈ inactiveLeaves x
      · have := (hmemI i).1 hil
        rw [if_pos hil, if_neg (hleafne i this.1), if_neg this.2]
      · rw [if_neg hil]
        by_cases hir : i = r
        · rw [if_pos hir, if_pos hir]
        · rw [if_neg hir, if_neg hir]
          have : x.active i = true := by
            by_contra hc
            apply hil
            rw [hmemI]
            refine ⟨?_, hc⟩
            by_contra hl
            exact hc (hact i hi hl)
          rw [if_pos this]
    rw [Bool.and_eq_true, List.all_eq_true, List.all_eq_true]
    have hmemInt : ∀ i, i ∈ x.tree.internalNodes.filter x.active ↔ IsNode x.tree i ∧ ∃ j, Edge x.tree i j := by
      intro i
      unfold internalNodes
      rw [List.mem_filter, List.mem_filter, mem_nodes]
      simp only [Bool.not_eq_true', List.contains_eq_mem, decide_eq_false_iff_not]
      constructor
      · rintro ⟨⟨h1, h2⟩, _⟩
        refine ⟨h1, ?_⟩
        by_contra hc
        push Not at hc
        exact h2 ((hV.leaves i).2 ⟨h1, hc⟩)
      · rintro ⟨h1, j, hj⟩
        have hl : i ∉ x.tree.dim2ind := fun hl => ((hV.leaves i).1 hl).2 j hj
        exact ⟨⟨h1, hl⟩, hact i h1 hl⟩
    have hnode : ∀ i, IsNode x.tree i → (nodeAdmissible x rk i = true ↔
        (effRank x ranks i ≤ ((x.tree.children i).map (effRank x ranks)).prod) ∧
        ∀ c, Edge x.tree i c → x.active c → effRank x ranks c ≤ effRank x ranks i *
          (((x.tree.children i).filter (· != c)).map (effRank x ranks)).prod) := by
      intro i hi
      have hm : ∀ l : List Nat, (∀ c ∈ l, Edge x.tree i c) → l.map rk = l.map (effRank x ranks) := by
        intro l hl
        apply List.map_congr_left
        intro c hc
        exact hrke c (hl c hc).2.1
      have hm1 := hm (x.tree.children i) (fun c hc => (mem_children i c hi).1 hc)
      unfold nodeAdmissible
      rw [Bool.and_eq_true, decide_eq_true_eq, List.all_eq_true, hm1, hrke i hi]
      refine and_congr_right (fun _ => ?_)
      constructor
      · intro hh c hc ha
        have := hh c (by rw [List.mem_filter, mem_children i c hi]; exact ⟨hc, ha⟩)
        rw [decide_eq_true_eq, hrke c hc.2.1, hm _ (fun c hc => (mem_children i c hi).1 (List.mem_of_mem_filter hc))] at this
        exact this
      · intro hh c hc
        rw [List.mem_filter, mem_children i c hi] at hc
        rw [decide_eq_true_eq, hrke c hc.1.2.1, hm _ (fun c hc => (mem_children i c hi).1 (List.mem_of_mem_filter hc))]
        exact hh c hc.1 hc.2
    have hleafr : ∀ c ∈ x.tree.dim2ind, x.active c → rk c = ranks c ∧ (x.tensors c).shape.getD 0 0 = x.leafSize c := by
      intro c hc ha
      rw [hrke c ((hV.leaves c).1 hc).1]
      unfold effRank TBT.leafSize
      simp only [hrootiff]
      rw [if_neg (hleafne c hc), if_pos ha, if_pos ha]
      exact ⟨rfl, rfl⟩
    constructor
    · rintro ⟨h1, h2⟩
      refine ⟨hz, ?_, ?_, ?_⟩
      · intro i hi hj
        rw [← prod_children _ i hi]
        exact ((hnode i hi).1 (h1 i ((hmemInt i).2 ⟨hi, hj⟩))).1
      · intro i c he ha
        rw [← prod_siblings _ i c he.1]
        exact ((hnode i he.1).1 (h1 i ((hmemInt i).2 ⟨he.1, c, he⟩))).2 c he ha
      · intro c hc ha
        have := h2 c (by rw [List.mem_filter, mem_nodes, Bool.and_eq_true, isLeaf_mem]; exact ⟨((hV.leaves c).1 hc).1, hc, ha⟩)
        rw [decide_eq_true_eq, (hleafr c hc ha).1, (hleafr c hc ha).2] at this
        exact this
    · rintro ⟨_, h1, h2, h3⟩
      constructor
      · intro i hi
        rw [hmemInt] at hi
        rw [hnode i hi.1]
        refine ⟨?_, ?_⟩
        · rw [prod_children _ i hi.1]; exact h1 i hi.1 hi.2
        · intro c he ha
          rw [prod_siblings _ i c hi.1]
          exact h2 i c he ha
      · intro c hc
        rw [List.mem_filter, mem_nodes, Bool.and_eq_true, isLeaf_mem] at hc
        rw [decide_eq_true_eq, (hleafr c hc.2.1 hc.2.2).1, (hleafr c hc.2.1 hc.2.2).2]
        exact h3 c hc.2.1 hc.2.2
  · rw [if_pos (by
      by_contra hc
      exact hz (hin.1 (by simpa using hc)))]
    refine ⟨false, rfl, ?_⟩
    constructor
    · intro hh; cases hh
    · intro hh; exact absurd hh.inactive hz

/-- The hypothesis is met by `exT`, whose leaves 3, 4, 5 are those of the dimensions 0, 1, 2; ranks 1 are
admissible, its own ranks are not. -/
example : isAdmissible exT (fun i => if i = 4 then 0 else 1) = .ok true ∧ isAdmissible exT exT.rank = .ok false := by
  constructor <;> decide +kernel

example : ∀ d d' c c' : Nat, d < d' → exTree.dim2ind[d]? = some c → exTree.dim2ind[d']? = some c' → c < c' := by
  intro d d' c c' hd h1 h2
  have hl : d' < 3 := (List.getElem?_eq_some_iff.1 h2).1
  have : ∀ d' < 3, ∀ d < d', ([3, 4, 5] : List Nat).getD d 0 < ([3, 4, 5] : List Nat).getD d' 0 := by decide
  have := this d' hl d hd
  rw [List.getD_eq_getElem?_getD, List.getD_eq_getElem?_getD] at this
  have e1 : ([3, 4, 5] : List Nat)[d]? = some c := h1
  have e2 : ([3, 4, 5] : List Nat)[d']? = some c' := h2
  rw [e1, e2] at this
  exact this

/-- A tree-based tensor whose inactive leaves are numbered in the reverse order of their dimensions. -/
def exRev : TBT Int where
  tree := ofParents [0, 0, 1, 1, 0] [5, 4, 3]
  tensors := fun i => match i with
    | 1 => ⟨[2, 1], fun t => t.getD 0 0 - t.getD 1 0⟩
    | 2 => ⟨[2, 2, 2], fun t => t.getD 0 0 + t.getD 1 0 - t.getD 2 0⟩
    | _ => ⟨[0], fun _ => 0⟩

/-- Witness of the disagreement: the ranks of this tensor are not admissible (the rank 2 of the node 2 exceeds the size 1
of its sibling), but `is_admissible_rank()` answers `True`. -/
theorem isAdmissible_wrong : WF exRev ∧ isAdmissible exRev exRev.rank = .ok true ∧ ¬ Admissible exRev exRev.rank := by
  have hv : Valid (ofParents [0, 0, 1, 1, 0] [5, 4, 3]) :=
    ofParents_valid _ _ (by decide) (by decide) (by decide) (by decide) (by decide)
  refine ⟨wf_of_wfB _ hv (by decide +kernel), by decide +kernel, ?_⟩
  intro h
  have hr1 : IsRoot exRev.tree 1 := (parent_eq_zero ⟨by decide, by decide⟩).1 (by decide +kernel)
  have hroot : ∀ r, IsRoot exRev.tree r ↔ r = 1 := fun r => ⟨fun hr => root_unique hv hr hr1, fun hr => hr ▸ hr1⟩
  have he : Edge exRev.tree 1 2 := by unfold Edge IsNode; decide
  have := h.sibling 1 2 he (by decide +kernel)
  rw [← prod_siblings _ 1 2 he.1] at this
  have hc : (exRev.tree.children 1).filter (· != 2) = [5] := by decide +kernel
  rw [hc] at this
  unfold effRank at this
  simp only [hroot, List.map_cons, List.map_nil] at this
  revert this
  decide +kernel

/-- C76. `storage()` is the sum over the active leaves of their dimension times their rank, and over the internal nodes of the
product of the ranks of their children (the dimension, for an inactive leaf) times their rank; an inactive leaf counts for
nothing. -/
theorem storage_spec {R : Type} (x : TBT R) (hx : WF x) :
    storage x = (x.tree.nodes.map (fun i =>
      if i ∈ x.tree.dim2ind then (if x.active i = true then x.leafSize i * x.lastDim i else 0)
      else ((x.tree.children i).map (fun c => if x.active c = true then x.lastDim c else x.leafSize c)).prod * (rankShape x i).prod)).sum := by
  obtain ⟨r, -, hroot⟩ := root_ok hx.valid
  have hs := hx.shaped hroot
  unfold storage
  congr 1
  apply List.map_congr_left
  intro i hi
  rw [mem_nodes] at hi
  by_cases hl : i ∈ x.tree.dim2ind
  · rw [if_pos hl]
    split
    · rename_i ha
      rw [hs.leaf i hl ha]; simp
    · rename_i ha
      exact hs.off i hl ha
  · rw [if_neg hl, (hx.node i hi hl).2.1, List.prod_append]
    have h1 := hs.node i hi hl
    have h2 := (hx.node i hi hl).2.1
    rw [h2] at h1
    have := List.append_inj_left h1 (by simp)
    rw [this]

/-- `exT` stores 4 + 8 + 2 · 2 numbers or so: the formula is not trivial. -/
example : storage exT = (exT.tree.nodes.map (fun i => (exT.tensors i).shape.prod)).sum ∧ 0 < storage exT ∧ WF exT := by
  refine ⟨rfl, by decide +kernel, exT_wf⟩

end Verif.TreeBased
