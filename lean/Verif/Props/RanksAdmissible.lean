import Verif.Props.TreeRanks
import Verif.Model.RanksAdmissible
import Mathlib.Data.List.Sublists

/-! `make_ranks_admissible`. -/

namespace Verif.TreeBased
open DimTree

variable {R : Type}

/-- The greatest possible ranks below the asked ones: at most the size of the dimension for an active leaf, zero for an inactive node. -/
def AskedRank (x : TBT R) (rank ρ : Nat → Nat) : Prop :=
  ∀ i, IsNode x.tree i →
    (¬ x.active i → ρ i = 0) ∧
    (x.active i → i ∈ x.tree.dim2ind → ρ i = min (rank i) (x.leafSize i)) ∧
    (x.active i → i ∉ x.tree.dim2ind → ρ i = rank i)

theorem cappedRank_spec (x : TBT R) (hx : WF x) (rank : Nat → Nat) : AskedRank x rank (cappedRank x rank) := by
  intro i hi
  refine ⟨fun h => by unfold cappedRank; rw [if_neg h], fun h hl => ?_, fun h hl => ?_⟩
  · unfold cappedRank TBT.leafSize
    rw [if_pos h, if_pos h, (isLeaf_mem x.tree i).2 hl]
    simp only [Bool.true_and, decide_eq_true_eq]
    split <;> omega
  · unfold cappedRank
    have : x.tree.isLeaf i = false := by
      by_contra hc
      exact hl ((isLeaf_mem x.tree i).1 (by simpa using hc))
    rw [if_pos h, this]
    simp

open Classical in
/-- Admissibility only depends on the ranks of the nodes. -/
theorem Admissible.congr {x : TBT R} (hV : Valid x.tree) {ρ σ : Nat → Nat} (h : ∀ i, IsNode x.tree i → ρ i = σ i) (ha : Admissible x ρ) :
    Admissible x σ := by
  have he : ∀ i, IsNode x.tree i → effRank x ρ i = effRank x σ i := by
    intro i hi
    unfold effRank
    rw [h i hi]
  have hn : ∀ i, i ∈ Finset.Icc 1 x.tree.n → IsNode x.tree i := fun i hi => by
    rw [Finset.mem_Icc] at hi
    exact hi
  constructor
  · intro c hc hna
    rw [← h c ((hV.leaves c).1 hc).1]
    exact ha.inactive c hc hna
  · intro i hi hj
    rw [← he i hi, ← Finset.prod_congr rfl (fun c hc => he c (hn c (Finset.mem_filter.1 hc).1))]
    exact ha.children i hi hj
  · intro i c hic hac
    rw [← he i hic.1, ← he c hic.2.1, ← Finset.prod_congr rfl (fun c hc => he c (hn c (Finset.mem_filter.1 hc).1))]
    exact ha.sibling i c hic hac
  · intro c hc hac
    rw [← h c ((hV.leaves c).1 hc).1]
    exact ha.leaf c hc hac

theorem firstAdmissible_spec (x : TBT R) (rk : Nat → Nat)
    (hadm : ∀ ρ, ∃ b, isAdmissible x ρ = .ok b ∧ (b = true ↔ Admissible x ρ)) (L : List (List Nat)) :
    (firstAdmissible x rk L = .ok none ∧ ∀ l ∈ L, ¬ Admissible x (resetRanks x rk l)) ∨
    ∃ L1 l L2, L = L1 ++ l :: L2 ∧ firstAdmissible x rk L = .ok (some l) ∧ Admissible x (resetRanks x rk l) ∧
      ∀ l' ∈ L1, ¬ Admissible x (resetRanks x rk l') := by
  induction L with
  | nil => left; exact ⟨rfl, by simp⟩
  | cons l L ih =>
    obtain ⟨b, hb, hba⟩ := hadm (resetRanks x rk l)
    cases b with
    | true =>
      right
      refine ⟨[], l, L, rfl, ?_, hba.1 rfl, by simp⟩
      simp [firstAdmissible, hb, bind, Except.bind]
    | false =>
      have hna : ¬ Admissible x (resetRanks x rk l) := fun h => by simpa using hba.2 h
      have hstep : firstAdmissible x rk (l :: L) = firstAdmissible x rk L := by
        simp [firstAdmissible, hb, bind, Except.bind]
      rcases ih with ⟨h1, h2⟩ | ⟨L1, l', L2, h1, h2, h3, h4⟩
      · left
        rw [hstep]
        exact ⟨h1, by simpa using ⟨hna, h2⟩⟩
      · right
        refine ⟨l :: L1, l', L2, by rw [h1]; rfl, by rw [hstep]; exact h2, h3, by simpa using ⟨hna, h4⟩⟩

theorem mem_changedNodes (x : TBT R) (rk : Nat → Nat) (i : Nat) : i ∈ changedNodes x rk ↔ IsNode x.tree i ∧ rk i ≠ x.rank i := by
  unfold changedNodes
  rw [List.mem_filter, mem_nodes]
  simp

theorem nodup_changedNodes (x : TBT R) (rk : Nat → Nat) : (changedNodes x rk).Nodup := nodup_nodes.filter _

/-- The nodes that change after a reset. -/
theorem changed_reset (x : TBT R) (rk : Nat → Nat) (l : List Nat) :
    changedNodes x (resetRanks x rk l) = (changedNodes x rk).filter (fun i => decide (i ∉ l)) := by
  unfold changedNodes
  rw [List.filter_filter]
  apply List.filter_congr
  intro i _
  unfold resetRanks
  by_cases h : i ∈ l <;> simp [h]

theorem length_changed_reset (x : TBT R) (rk : Nat → Nat) (l : List Nat) (h : l.Sublist (changedNodes x rk)) :
    (changedNodes x (resetRanks x rk l)).length + l.length = (changedNodes x rk).length := by
  rw [changed_reset]
  have hnd := nodup_changedNodes x rk
  have h1 := List.length_eq_length_filter_add (l := changedNodes x rk) (fun i => decide (i ∉ l))
  have h2 : ((changedNodes x rk).filter (fun i => !decide (i ∉ l))).Perm l := by
    rw [List.perm_ext_iff_of_nodup (hnd.filter _) (hnd.sublist h)]
    intro i
    rw [List.mem_filter]
    simp only [decide_not, Bool.not_not, decide_eq_true_eq]
    exact ⟨fun h => h.2, fun hi => ⟨h.subset hi, hi⟩⟩
  have h3 := h2.length_eq
  omega

/-- **C110.** `make_ranks_admissible(f, rank)`, when the ranks of `f` are admissible: it returns admissible ranks, which at every node are
the asked one (capped by the size of the dimension for a leaf, zero for an inactive node) or the rank of `f`; it returns the nodes
whose rank changes, in increasing order; and no admissible choice between the asked rank and the rank of `f` changes more nodes. -/
theorem makeRanksAdmissible_partial (x : TBT R) (hx : WF x)
    (hinc : ∀ d d' c c' : Nat, d < d' → x.tree.dim2ind[d]? = some c → x.tree.dim2ind[d']? = some c' → ¬ x.active c → ¬ x.active c' →
      c < c')
    (shuf : Nat → List (List Nat) → List (List Nat)) (hshuf : ∀ i l, (shuf i l).Perm l) (rank asked : Nat → Nat)
    (hasked : AskedRank x rank asked) (hf : Admissible x x.rank) :
    ∃ ρ d, makeRanksAdmissible x shuf rank = .ok (ρ, d) ∧ Admissible x ρ ∧
      (∀ i, IsNode x.tree i → ρ i = asked i ∨ ρ i = x.rank i) ∧
      d.Pairwise (· < ·) ∧ (∀ i, i ∈ d ↔ IsNode x.tree i ∧ ρ i ≠ x.rank i) ∧
      ∀ σ : Nat → Nat, Admissible x σ → (∀ i, IsNode x.tree i → σ i = asked i ∨ σ i = x.rank i) →
        ((Finset.Icc 1 x.tree.n).filter (fun i => σ i ≠ x.rank i)).card ≤ d.length := by
  have hadm := fun ρ => isAdmissible_partial x hx ρ hinc
  have hcap : ∀ i, IsNode x.tree i → cappedRank x rank i = asked i := by
    intro i hi
    obtain ⟨a1, a2, a3⟩ := cappedRank_spec x hx rank i hi
    obtain ⟨b1, b2, b3⟩ := hasked i hi
    by_cases ha : x.active i
    · by_cases hl : i ∈ x.tree.dim2ind
      · rw [a2 ha hl, b2 ha hl]
      · rw [a3 ha hl, b3 ha hl]
    · rw [a1 ha, b1 ha]
  have hsort : ∀ rk, (changedNodes x rk).Pairwise (· < ·) := by
    intro rk
    apply List.Pairwise.filter
    unfold DTree.nodes
    rw [List.pairwise_map]
    exact List.pairwise_lt_range.imp (fun h => by omega)
  -- the nodes that a choice σ does not change
  have hres : ∀ σ : Nat → Nat, (∀ i, IsNode x.tree i → σ i = asked i ∨ σ i = x.rank i) →
      ∃ l, l.Sublist (changedNodes x (cappedRank x rank)) ∧ (∀ i, IsNode x.tree i → resetRanks x (cappedRank x rank) l i = σ i) ∧
        ((Finset.Icc 1 x.tree.n).filter (fun i => σ i ≠ x.rank i)).card + l.length = (changedNodes x (cappedRank x rank)).length := by
    intro σ hσ
    refine ⟨(changedNodes x (cappedRank x rank)).filter (fun i => decide (σ i = x.rank i)), List.filter_sublist, ?_, ?_⟩
    · intro i hi
      have hc := hcap i hi
      simp only [resetRanks, List.mem_filter, mem_changedNodes]
      by_cases h1 : σ i = x.rank i
      · by_cases h2 : asked i = x.rank i
        · simp [h2, h1, hc]
        · simp [h1, h2, hc]
          rw [mem_changedNodes, hc]; exact ⟨hi, h2⟩
      · rcases hσ i hi with h | h
        · simp [h, hc]
          exact fun _ e => absurd (h.trans e) h1
        · exact absurd h h1
    · have h1 := List.length_eq_length_filter_add (l := changedNodes x (cappedRank x rank)) (fun i => decide (σ i = x.rank i))
      have h2 : ((Finset.Icc 1 x.tree.n).filter (fun i => σ i ≠ x.rank i)) =
          ((changedNodes x (cappedRank x rank)).filter (fun i => !decide (σ i = x.rank i))).toFinset := by
        ext i
        rw [Finset.mem_filter, List.mem_toFinset, List.mem_filter, mem_changedNodes, Finset.mem_Icc]
        constructor
        · rintro ⟨hi, hne⟩
          refine ⟨⟨hi, ?_⟩, by simpa using hne⟩
          rw [hcap i hi]
          rcases hσ i hi with h | h
          · rwa [← h]
          · exact absurd h hne
        · rintro ⟨⟨hi, -⟩, hne⟩
          exact ⟨hi, by simpa using hne⟩
      rw [h2, List.toFinset_card_of_nodup ((nodup_changedNodes _ _).filter _)]
      omega
  have hcounts : ∀ rk : Nat → Nat, ((Finset.Icc 1 x.tree.n).filter (fun i => rk i ≠ x.rank i)).card = (changedNodes x rk).length := by
    intro rk
    rw [← List.toFinset_card_of_nodup (nodup_changedNodes x rk)]
    congr 1
    ext i
    rw [Finset.mem_filter, List.mem_toFinset, mem_changedNodes, Finset.mem_Icc]
    rfl
  obtain ⟨b, hb, hba⟩ := hadm (cappedRank x rank)
  cases b with
  | true =>
    refine ⟨cappedRank x rank, changedNodes x (cappedRank x rank), ?_, hba.1 rfl, fun i hi => .inl (hcap i hi), hsort _,
      mem_changedNodes x _, ?_⟩
    · simp [makeRanksAdmissible, hb, bind, Except.bind]
    · intro σ _ hσ
      obtain ⟨l, -, -, h⟩ := hres σ hσ
      omega
  | false =>
    have hna : ¬ Admissible x (cappedRank x rank) := fun h => by simpa using hba.2 h
    generalize hind : changedNodes x (cappedRank x rank) = ind at *
    generalize hL : (List.range' 1 ind.length).flatMap (fun i => shuf i (ind.sublistsLen i)) = L
    have hmem : ∀ l, l ∈ L ↔ 1 ≤ l.length ∧ l.Sublist ind := by
      intro l
      rw [← hL, List.mem_flatMap]
      constructor
      · rintro ⟨i, hi, hl⟩
        rw [(hshuf i _).mem_iff, List.mem_sublistsLen] at hl
        rw [List.mem_range'_1] at hi
        exact ⟨by omega, hl.1⟩
      · rintro ⟨h1, h2⟩
        refine ⟨l.length, ?_, ?_⟩
        · have := h2.length_le
          rw [List.mem_range'_1]; omega
        · rw [(hshuf _ _).mem_iff, List.mem_sublistsLen]
          exact ⟨h2, rfl⟩
    have hsorted : L.Pairwise (fun l l' => l.length ≤ l'.length) := by
      rw [← hL, List.pairwise_flatMap]
      have hlen : ∀ i, ∀ l ∈ shuf i (ind.sublistsLen i), l.length = i := by
        intro i l hl
        rw [(hshuf i _).mem_iff, List.mem_sublistsLen] at hl
        exact hl.2
      constructor
      · intro i _
        exact List.pairwise_of_forall_mem_list (fun l hl l' hl' => by rw [hlen i l hl, hlen i l' hl'])
      · apply List.Pairwise.imp _ List.pairwise_lt_range'
        intro i j hij l hl l' hl'
        rw [hlen i l hl, hlen j l' hl']
        omega
    rcases firstAdmissible_spec x (cappedRank x rank) hadm L with ⟨h1, h2⟩ | ⟨L1, l, L2, h1, h2, h3, h4⟩
    · -- the combination of all the nodes gives the ranks of f
      exfalso
      have hfull : ∀ i, IsNode x.tree i → x.rank i = resetRanks x (cappedRank x rank) ind i := by
        intro i hi
        unfold resetRanks
        by_cases h : i ∈ ind
        · rw [if_pos h]
        · rw [if_neg h]
          rw [← hind, mem_changedNodes] at h
          by_contra hc
          exact h ⟨hi, fun e => hc e.symm⟩
      rcases Nat.eq_zero_or_pos ind.length with h0 | h0
      · apply hna
        apply hf.congr hx.valid
        intro i hi
        rw [hfull i hi, List.eq_nil_of_length_eq_zero h0]
        simp [resetRanks]
      · exact h2 ind ((hmem ind).2 ⟨h0, List.Sublist.refl _⟩) (hf.congr hx.valid hfull)
    · have hlsub : l.Sublist ind := ((hmem l).1 (by rw [h1]; simp)).2
      refine ⟨resetRanks x (cappedRank x rank) l, changedNodes x (resetRanks x (cappedRank x rank) l), ?_, h3, ?_, hsort _,
        mem_changedNodes x _, ?_⟩
      · simp [makeRanksAdmissible, hb, bind, Except.bind, hind, hL, h2]
      · intro i hi
        unfold resetRanks
        split
        · exact .inr rfl
        · exact .inl (hcap i hi)
      · intro σ hσa hσ
        obtain ⟨l', q1, q2, q3⟩ := hres σ hσ
        have hlen := length_changed_reset x (cappedRank x rank) l (by rw [hind]; exact hlsub)
        rw [hind] at hlen
        have hl'ad : Admissible x (resetRanks x (cappedRank x rank) l') := hσa.congr hx.valid (fun i hi => (q2 i hi).symm)
        have h0 : 1 ≤ l'.length := by
          by_contra hc
          have : l' = [] := List.eq_nil_of_length_eq_zero (by omega)
          apply hna
          rw [this] at hl'ad
          exact hl'ad.congr hx.valid (fun i _ => by simp [resetRanks])
        have hl'mem : l' ∈ L := (hmem l').2 ⟨h0, q1⟩
        rw [h1] at hl'mem hsorted
        have hle : l.length ≤ l'.length := by
          rcases List.mem_append.1 hl'mem with h | h
          · exact absurd hl'ad (h4 l' h)
          · rcases List.mem_cons.1 h with rfl | h
            · exact le_refl _
            · exact (List.pairwise_cons.1 (List.pairwise_append.1 hsorted).2.1).1 l' h
        omega

/-- A tensor of shape `3 × 2 × 2` with admissible ranks; the leaf of dimension 1 is inactive. -/
def exA : TBT Int where
  tree := exTree
  tensors := fun i => match i with
    | 1 => ⟨[2, 2], fun t => t.getD 0 0 + 2 * t.getD 1 0⟩
    | 2 => ⟨[2, 2, 2], fun t => t.getD 0 0 * t.getD 1 0 + t.getD 2 0⟩
    | 3 => ⟨[3, 2], fun t => 1 + t.getD 0 0 * t.getD 1 0⟩
    | 5 => ⟨[2, 2], fun t => t.getD 0 0 - t.getD 1 0⟩
    | _ => ⟨[0], fun _ => 0⟩

theorem exTree_inc : ∀ d d' c c' : Nat, d < d' → exTree.dim2ind[d]? = some c → exTree.dim2ind[d']? = some c' → c < c' := by
  intro d d' c c' hd h1 h2
  have hl : d' < 3 := (List.getElem?_eq_some_iff.1 h2).1
  have : ∀ d' < 3, ∀ d < d', ([3, 4, 5] : List Nat).getD d 0 < ([3, 4, 5] : List Nat).getD d' 0 := by decide
  have := this d' hl d hd
  rw [List.getD_eq_getElem?_getD, List.getD_eq_getElem?_getD] at this
  have e1 : ([3, 4, 5] : List Nat)[d]? = some c := h1
  have e2 : ([3, 4, 5] : List Nat)[d']? = some c' := h2
  rw [e1, e2] at this
  exact this

/-- The hypotheses of C110 are met by `exA`: when rank 5 is asked for the nodes 2 to 5, only the rank of leaf 3 is increased. -/
example : WF exA ∧ Admissible exA exA.rank ∧
    (do let r ← makeRanksAdmissible exA (fun _ l => l) (fun i => if i = 1 then 1 else 5); pure ([1, 2, 3, 4, 5].map r.1, r.2) : Py _) =
      .ok ([1, 2, 3, 0, 2], [3]) := by
  have hwf : WF exA := wf_of_wfB _ exTree_valid (by decide +kernel)
  refine ⟨hwf, ?_, by decide +kernel⟩
  obtain ⟨b, hb, hba⟩ := isAdmissible_partial exA hwf exA.rank (fun d d' c c' h1 h2 h3 _ _ => exTree_inc d d' c c' h1 h2 h3)
  have : isAdmissible exA exA.rank = .ok true := by decide +kernel
  rw [this] at hb
  exact hba.1 (Except.ok.inj hb).symm

/-- When the ranks of `f` are not admissible either, the ranks returned may not be admissible. -/
theorem makeRanksAdmissible_fallback_witness : WF exT ∧ isAdmissible exT exT.rank = .ok false ∧
    (do let r ← makeRanksAdmissible exT (fun _ l => l) (fun i => if i = 1 then 1 else if i = 2 then 4 else exT.rank i)
        let b ← isAdmissible exT r.1
        pure ([1, 2, 3, 4, 5].map r.1, r.2, b) : Py _) =
      .ok ([1, 4, 2, 0, 2], [], false) :=
  ⟨exT_wf, by decide +kernel, by decide +kernel⟩

end Verif.TreeBased
