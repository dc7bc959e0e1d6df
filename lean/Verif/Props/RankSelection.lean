import Verif.Model.RankSelection
import Verif.Spec.RankSelection
import Verif.Props.RanksAdmissible
import Mathlib.Data.List.Sort

/-!
# Selection of the ranks
-/

namespace Verif.TreeBased
open DimTree DTree

noncomputable section

theorem mem_atLeast (nodes : List Nat) (sv : Nat → Option ℝ) (t : ℝ) (i : Nat) :
    i ∈ atLeast nodes sv t ↔ i ∈ nodes ∧ ∃ v, sv i = some v ∧ t ≤ v := by
  unfold atLeast
  rw [List.mem_filter]
  refine and_congr_right (fun _ => ?_)
  rcases h : sv i with _ | v
  · simp
  · simp

theorem mem_thetaNodes (nodes : List Nat) (sv : Nat → Option ℝ) (theta : ℝ) (h0 : 0 ≤ theta) (i : Nat) :
    i ∈ thetaNodes nodes sv theta ↔ i ∈ nodes ∧ ∃ v, sv i = some v ∧ ∀ j ∈ nodes, ∀ w, sv j = some w → theta * w ≤ v := by
  unfold thetaNodes
  rcases hm : (nodes.filterMap sv).max? with _ | m
  · rw [List.max?_eq_none_iff] at hm
    constructor
    · intro h; simp at h
    · rintro ⟨hi, v, hv, _⟩
      have : v ∈ nodes.filterMap sv := List.mem_filterMap.2 ⟨i, hi, hv⟩
      rw [hm] at this
      simp at this
  · rw [List.max?_eq_some_iff] at hm
    obtain ⟨h1, h2⟩ := hm
    dsimp only
    rw [mem_atLeast]
    refine and_congr_right (fun _ => exists_congr (fun v => and_congr_right (fun _ => ?_)))
    constructor
    · intro h j hj w hw
      have := h2 w (List.mem_filterMap.2 ⟨j, hj, hw⟩)
      nlinarith
    · intro h
      obtain ⟨j, hj, hw⟩ := List.mem_filterMap.1 h1
      exact h j hj m hw

theorem mem_nodes' (T : DTree) (i : Nat) : i ∈ T.nodes ↔ IsNode T i := by
  unfold nodes IsNode
  simp only [List.mem_map, List.mem_range]
  constructor
  · rintro ⟨k, hk, rfl⟩; omega
  · intro h; exact ⟨i - 1, by omega, by omega⟩

theorem tryThresholds_spec (x : TBT ℝ) (rk : Nat → Nat) (sv : Nat → Option ℝ)
    (hadm : ∀ ρ, ∃ b, isAdmissible x ρ = .ok b ∧ (b = true ↔ Admissible x ρ)) : ∀ ts : List ℝ,
    (tryThresholds x rk sv ts = .ok none ∧ ∀ t ∈ ts, ¬ Admissible x (bump rk (atLeast x.tree.nodes sv t))) ∨
      ∃ t ∈ ts, tryThresholds x rk sv ts = .ok (some (atLeast x.tree.nodes sv t)) ∧ Admissible x (bump rk (atLeast x.tree.nodes sv t))
  | [] => Or.inl ⟨rfl, by simp⟩
  | t :: ts => by
    obtain ⟨b, hb, hb'⟩ := hadm (bump rk (atLeast x.tree.nodes sv t))
    rw [tryThresholds, hb]
    simp only [bind, Except.bind]
    cases b with
    | true =>
      right
      exact ⟨t, List.mem_cons_self, by simp, hb'.1 rfl⟩
    | false =>
      have hn : ¬ Admissible x (bump rk (atLeast x.tree.nodes sv t)) := fun h => by simpa using hb'.2 h
      rcases tryThresholds_spec x rk sv hadm ts with ⟨h1, h2⟩ | ⟨t', h1, h2, h3⟩
      · left
        refine ⟨by simpa using h1, ?_⟩
        intro t' ht'
        rcases List.mem_cons.1 ht' with rfl | h
        · exact hn
        · exact h2 t' h
      · right
        exact ⟨t', List.mem_cons_of_mem _ h1, by simpa using h2, h3⟩

/-- The selection of the nodes, for values `sv` of the nodes: the ranks of the enriched nodes, and only them, increase by one; the new
ranks are admissible, or nothing changes; only nodes with a value are enriched; a node with a value at least that of an enriched
node is enriched; all the nodes above `theta` times the maximum are enriched, unless nothing changes, which happens only when
neither this set nor any set given by a threshold is admissible. -/
theorem selectNodes_spec (x : TBT ℝ) (hx : WF x)
    (hinc : ∀ d d' c c' : Nat, d < d' → x.tree.dim2ind[d]? = some c → x.tree.dim2ind[d']? = some c' → ¬ x.active c → ¬ x.active c' →
      c < c') (sv : Nat → Option ℝ) (theta : ℝ) (h0 : 0 ≤ theta) :
    ∃ ρ e, selectNodes x sv theta = .ok (ρ, e) ∧ e.Nodup ∧ (∀ i ∈ e, IsNode x.tree i ∧ ∃ v, sv i = some v) ∧
      (∀ i, ρ i = x.rank i + if i ∈ e then 1 else 0) ∧ (Admissible x ρ ∨ (ρ = x.rank ∧ e = [])) ∧
      (∀ i ∈ e, ∀ j, IsNode x.tree j → ∀ v w, sv i = some v → sv j = some w → v ≤ w → j ∈ e) ∧
      (∀ i, IsNode x.tree i → ∀ v, sv i = some v → (∀ j, IsNode x.tree j → ∀ w, sv j = some w → theta * w ≤ v) → i ∈ e ∨
        (e = [] ∧ ∀ l : List Nat, l.Nodup →
          ((∀ k, k ∈ l ↔ IsNode x.tree k ∧ ∃ u, sv k = some u ∧ ∀ j, IsNode x.tree j → ∀ w, sv j = some w → theta * w ≤ u) ∨
            (∃ t ∈ uniqueTol (x.tree.nodes.map (fun k => if k ∈ thetaNodes x.tree.nodes sv theta then none else sv k)) 1e-2,
              ∀ k, k ∈ l ↔ IsNode x.tree k ∧ ∃ u, sv k = some u ∧
                (t ≤ u ∨ ∀ j, IsNode x.tree j → ∀ w, sv j = some w → theta * w ≤ u))) →
            ¬ Admissible x (fun i => x.rank i + if i ∈ l then 1 else 0))) := by
  have hadm := fun ρ => isAdmissible_partial x hx ρ hinc
  have hbump : ∀ (rk : Nat → Nat) (l : List Nat) (i : Nat), bump rk l i = rk i + if i ∈ l then 1 else 0 := by
    intro rk l i
    unfold bump
    split_ifs <;> rfl
  have hE : ∀ i, i ∈ thetaNodes x.tree.nodes sv theta ↔
      IsNode x.tree i ∧ ∃ u, sv i = some u ∧ ∀ j, IsNode x.tree j → ∀ w, sv j = some w → theta * w ≤ u := by
    intro i
    rw [mem_thetaNodes _ _ _ h0]
    simp only [mem_nodes']
  have hnd : ∀ t sv', (atLeast x.tree.nodes sv' t).Nodup := fun t sv' => by
    unfold atLeast; exact nodup_nodes.filter _
  have hEnd : (thetaNodes x.tree.nodes sv theta).Nodup := by
    unfold thetaNodes
    split
    · exact List.nodup_nil
    · exact hnd _ _
  set E := thetaNodes x.tree.nodes sv theta with hEdef
  obtain ⟨b, hb, hb'⟩ := hadm (bump x.rank E)
  unfold selectNodes
  dsimp only
  rw [← hEdef, hb]
  simp only [bind, Except.bind]
  have hup : ∀ i ∈ E, ∀ j, IsNode x.tree j → ∀ v w, sv i = some v → sv j = some w → v ≤ w → j ∈ E := by
    intro i hi j hj v w hv hw hvw
    obtain ⟨_, u, hu, h3⟩ := (hE i).1 hi
    rw [hv] at hu
    obtain rfl := Option.some.inj hu
    exact (hE j).2 ⟨hj, w, hw, fun k hk z hz => (h3 k hk z hz).trans hvw⟩
  cases b with
  | true =>
    refine ⟨bump x.rank E, E, by simp, hEnd, fun i hi => ?_, hbump _ _, Or.inl (hb'.1 rfl), hup, fun i hi v hv h => Or.inl ?_⟩
    · obtain ⟨h1, u, h2, _⟩ := (hE i).1 hi
      exact ⟨h1, u, h2⟩
    · exact (hE i).2 ⟨hi, v, hv, h⟩
  | false =>
    have hnE : ¬ Admissible x (bump x.rank E) := fun h => by simpa using hb'.2 h
    have hbb : ∀ l, (∀ k ∈ l, k ∉ E) → bump (bump x.rank E) l = fun i => x.rank i + if i ∈ E ++ l then 1 else 0 := by
      intro l hl
      funext i
      rw [hbump, hbump]
      by_cases h1 : i ∈ E <;> by_cases h2 : i ∈ l
      · exact absurd h1 (hl i h2)
      all_goals simp [h1, h2]
    have hdis : ∀ t, ∀ k ∈ atLeast x.tree.nodes (fun i => if i ∈ E then none else sv i) t, k ∉ E := by
      intro t k hk hkE
      obtain ⟨_, v, hv, _⟩ := (mem_atLeast _ _ _ _).1 hk
      simp [hkE] at hv
    have hmem : ∀ t k, k ∈ E ++ atLeast x.tree.nodes (fun i => if i ∈ E then none else sv i) t ↔
        IsNode x.tree k ∧ ∃ u, sv k = some u ∧ (t ≤ u ∨ ∀ j, IsNode x.tree j → ∀ w, sv j = some w → theta * w ≤ u) := by
      intro t k
      rw [List.mem_append, mem_atLeast, mem_nodes']
      by_cases hk : k ∈ E
      · obtain ⟨h1, u, h2, h3⟩ := (hE k).1 hk
        exact ⟨fun _ => ⟨h1, u, h2, Or.inr h3⟩, fun _ => Or.inl hk⟩
      · simp only [hk, if_false, false_or]
        refine and_congr_right (fun h1 => exists_congr (fun u => and_congr_right (fun h2 => ?_)))
        constructor
        · exact Or.inl
        · rintro (h | h)
          · exact h
          · exact absurd ((hE k).2 ⟨h1, u, h2, h⟩) hk
    simp only [Bool.false_eq_true, if_false]
    rcases tryThresholds_spec x (bump x.rank E) (fun i => if i ∈ E then none else sv i) hadm
        (uniqueTol (x.tree.nodes.map (fun i => if i ∈ E then none else sv i)) 1e-2).reverse with ⟨h1, h2⟩ | ⟨t, ht, h1, h2⟩
    · rw [h1]
      refine ⟨x.rank, [], rfl, List.nodup_nil, by simp, by simp, Or.inr ⟨rfl, rfl⟩, by simp, fun i hi v hv h => Or.inr ⟨rfl, ?_⟩⟩
      intro l _ hl
      rcases hl with hl | ⟨t, ht, hl⟩
      · have : (fun i => x.rank i + if i ∈ l then 1 else 0) = bump x.rank E := by
          funext i
          rw [hbump]
          exact congrArg _ (if_congr ((hl i).trans (hE i).symm) rfl rfl)
        rw [this]
        exact hnE
      · have := h2 t (List.mem_reverse.2 ht)
        rw [hbb _ (hdis t)] at this
        have e : (fun i => x.rank i + if i ∈ l then 1 else 0) =
            fun i => x.rank i + if i ∈ E ++ atLeast x.tree.nodes (fun i => if i ∈ E then none else sv i) t then 1 else 0 := by
          funext i
          exact congrArg _ (if_congr ((hl i).trans (hmem t i).symm) rfl rfl)
        rw [e]
        exact this
    · rw [h1]
      refine ⟨_, _, rfl, ?_, ?_, ?_, Or.inl h2, ?_, ?_⟩
      · rw [List.nodup_append]
        exact ⟨hEnd, hnd _ _, fun a ha b hb => fun h => hdis t b hb (h ▸ ha)⟩
      · intro i hi
        obtain ⟨h3, u, h4, _⟩ := (hmem t i).1 hi
        exact ⟨h3, u, h4⟩
      · intro i
        rw [hbb _ (hdis t)]
      · intro i hi j hj v w hv hw hvw
        obtain ⟨h3, u, h4, h5⟩ := (hmem t i).1 hi
        rw [hv] at h4
        obtain rfl := Option.some.inj h4
        refine (hmem t j).2 ⟨hj, w, hw, ?_⟩
        rcases h5 with h5 | h5
        · exact Or.inl (h5.trans hvw)
        · exact Or.inr (fun k hk z hz => (h5 k hk z hz).trans hvw)
      · intro i hi v hv h
        exact Or.inl ((hmem t i).2 ⟨hi, v, hv, Or.inr h⟩)

/-! ### the nodes that cannot be enriched -/

/-- The array `c` is right for the leaves, the root and the nodes of `P`; it is false for the other nodes. -/
def Right (x : TBT ℝ) (val : Nat → ℝ → Prop) (c : Nat → Bool) (P : Nat → Prop) : Prop :=
  ∀ i, IsNode x.tree i → (i ∈ x.tree.dim2ind ∨ IsRoot x.tree i ∨ P i → (c i = true ↔ Blocked x val i)) ∧
    (i ∉ x.tree.dim2ind → ¬ IsRoot x.tree i → ¬ P i → c i = false)

theorem right_foldl (x : TBT ℝ) (val : Nat → ℝ → Prop) : ∀ (S : List Nat) (c : Nat → Bool) (P : Nat → Prop), Right x val c P →
    (∀ n ∈ S, IsNode x.tree n ∧ n ∉ x.tree.dim2ind ∧ ¬ IsRoot x.tree n ∧ ∀ k, Edge x.tree n k → k ∈ x.tree.dim2ind ∨ P k) →
    Right x val (S.foldl (cannotStep x) c) (fun i => P i ∨ i ∈ S)
  | [], c, P, h, _ => by simpa using h
  | n :: S, c, P, h, hS => by
    rw [List.foldl_cons]
    obtain ⟨h1, h2, h3, h4⟩ := hS n List.mem_cons_self
    have hall : (x.tree.children n).all c = true ↔ ∀ k, Edge x.tree n k → Blocked x val k := by
      rw [List.all_eq_true]
      constructor
      · intro hc k hk
        exact ((h k hk.2.1).1 ((h4 k hk).imp id Or.inr)).1 (hc k ((mem_children n k h1).2 hk))
      · intro hc k hk
        have he := (mem_children n k h1).1 hk
        exact ((h k he.2.1).1 ((h4 k he).imp id Or.inr)).2 (hc k he)
    have hbl : Blocked x val n ↔ (x.tree.children n).all c = true ∧ x.rank n = ((x.tree.children n).map x.rank).prod := by
      rw [hall]
      constructor
      · intro hb
        cases hb with
        | root _ h => exact absurd h h3
        | leaf _ h _ => exact absurd h h2
        | node _ _ _ ha hb => exact ⟨ha, hb⟩
      · rintro ⟨ha, hb⟩
        exact .node n h1 h2 ha hb
    have hR : Right x val (cannotStep x c n) (fun i => P i ∨ i = n) := by
      intro i hi
      have hval : cannotStep x c n i = if i = n then (c n || ((x.tree.children n).all c &&
          decide (x.rank n = ((x.tree.children n).map x.rank).prod))) else c i := by
        unfold cannotStep
        by_cases hin : i = n
        · subst hin
          rw [if_pos rfl]
          split_ifs with hc
          · rw [hc]; simp [upd]
          · rw [Bool.not_eq_true] at hc
            rw [hc]; simp
        · rw [if_neg hin]
          split_ifs
          · simp [upd, hin]
          · rfl
      by_cases hin : i = n
      · subst hin
        refine ⟨fun _ => ?_, fun _ _ hp => absurd (Or.inr rfl) hp⟩
        rw [hval, if_pos rfl]
        by_cases hP : P i
        · have := (h i hi).1 (Or.inr (Or.inr hP))
          rw [Bool.or_eq_true, this, Bool.and_eq_true, decide_eq_true_eq, ← hbl, or_self]
        · rw [(h i hi).2 h2 h3 hP, Bool.false_or, Bool.and_eq_true, decide_eq_true_eq, ← hbl]
      · rw [hval, if_neg hin]
        refine ⟨fun hp => (h i hi).1 ?_, fun a b hp => (h i hi).2 a b (fun hP => hp (Or.inl hP))⟩
        rcases hp with hp | hp | hp | hp
        · exact Or.inl hp
        · exact Or.inr (Or.inl hp)
        · exact Or.inr (Or.inr hp)
        · exact absurd hp hin
    have := right_foldl x val S _ _ hR (fun m hm => by
      obtain ⟨a, b, c', d⟩ := hS m (List.mem_cons_of_mem _ hm)
      exact ⟨a, b, c', fun k hk => (d k hk).imp id Or.inl⟩)
    have e : (fun i => (P i ∨ i = n) ∨ i ∈ S) = fun i => P i ∨ i ∈ n :: S := by
      funext i
      simp [or_assoc]
    rw [← e]
    exact this

theorem cannotBeIncreased_spec (x : TBT ℝ) (hV : Valid x.tree) (root : Nat) (hroot : IsRoot x.tree root) (lev : Nat → Nat)
    (hlev : ∀ j k, HasLevel x.tree j k → lev j = k) (sv : Nat → Option ℝ) (val : Nat → ℝ → Prop)
    (hsv : ∀ i, IsNode x.tree i → ∀ v, sv i = some v ↔ val i v) (i : Nat) (hi : IsNode x.tree i) :
    cannotBeIncreased x root lev sv i = true ↔ Blocked x val i := by
  have edge_lev : ∀ i c, Edge x.tree i c → lev c = lev i + 1 := by
    intro i c he
    obtain ⟨k, hk⟩ := exists_level hV he.1
    rw [hlev i k hk, hlev c (k + 1) (.child hk he)]
  have hmem : ∀ l n, n ∈ (x.tree.nodesWithLevel lev l).filter (fun i => !x.tree.isLeaf i) ↔
      IsNode x.tree n ∧ lev n = l ∧ n ∉ x.tree.dim2ind := by
    intro l n
    rw [List.mem_filter, mem_nodesWithLevel, and_assoc]
    simp [← isLeaf_mem]
  have key : ∀ (m : Nat) (c : Nat → Bool), Right x val c (fun i => m < lev i) →
      Right x val (((List.range' 1 m).reverse.flatMap
        (fun l => (x.tree.nodesWithLevel lev l).filter (fun i => !x.tree.isLeaf i))).foldl (cannotStep x) c) (fun i => 0 < lev i) := by
    intro m
    induction m with
    | zero => intro c h; simpa using h
    | succ m ih =>
      intro c h
      have e : (List.range' 1 (m + 1)).reverse = (m + 1) :: (List.range' 1 m).reverse := by
        rw [List.range'_1_concat, List.reverse_append, Nat.add_comm 1 m]; rfl
      rw [e, List.flatMap_cons, List.foldl_append]
      apply ih
      have h1 := right_foldl x val ((x.tree.nodesWithLevel lev (m + 1)).filter (fun i => !x.tree.isLeaf i)) c _ h (fun n hn => by
        obtain ⟨a, b, c'⟩ := (hmem _ _).1 hn
        refine ⟨a, c', fun hr => ?_, fun k hk => Or.inr ?_⟩
        · have := hlev n 0 (.root hr)
          omega
        · have := edge_lev n k hk
          show m + 1 < lev k
          omega)
      intro j hj
      have h2 := h1 j hj
      refine ⟨fun hp => ?_, fun a b hp => h2.2 a b ?_⟩
      · by_cases hl : j ∈ x.tree.dim2ind
        · exact h2.1 (Or.inl hl)
        · apply h2.1
          rcases hp with hp | hp | hp
          · exact absurd hp hl
          · exact Or.inr (Or.inl hp)
          · rcases Nat.lt_or_ge (m + 1) (lev j) with hlt | hge
            · exact Or.inr (Or.inr (Or.inl hlt))
            · exact Or.inr (Or.inr (Or.inr ((hmem _ _).2 ⟨hj, by omega, hl⟩)))
      · rintro (hlt | hin)
        · exact hp (by omega)
        · obtain ⟨_, hq, _⟩ := (hmem _ _).1 hin
          exact hp (by omega)
  have h0 : Right x val (fun i => decide (i = root) || (x.tree.isLeaf i && (sv i).isNone)) (fun i => x.tree.maxLevel lev < lev i) := by
    intro j hj
    refine ⟨fun hp => ?_, fun a b _ => ?_⟩
    · have hnl : ¬ x.tree.maxLevel lev < lev j := by have := lev_le_maxLevel lev hj; omega
      have hnone : (sv j).isNone = true ↔ ∀ v, ¬ val j v := by
        rw [Option.isNone_iff_eq_none]
        constructor
        · intro h v hv
          rw [(hsv j hj v).2 hv] at h
          cases h
        · intro h
          rcases hs : sv j with _ | v
          · rfl
          · exact absurd ((hsv j hj v).1 hs) (h v)
      dsimp only
      rw [Bool.or_eq_true, decide_eq_true_eq, Bool.and_eq_true, isLeaf_mem, hnone]
      constructor
      · rintro (rfl | ⟨a, b⟩)
        · exact .root _ hroot
        · exact .leaf _ a b
      · intro hb
        cases hb with
        | root _ h => exact Or.inl (root_unique hV h hroot)
        | leaf _ h h' => exact Or.inr ⟨h, h'⟩
        | node _ _ hl _ _ =>
          rcases hp with hp | hp | hp
          · exact absurd hp hl
          · exact Or.inl (root_unique hV hp hroot)
          · exact absurd hp hnl
    · have : x.tree.isLeaf j = false := by rw [← Bool.not_eq_true, isLeaf_mem]; exact a
      have hne : j ≠ root := fun e => b (e ▸ hroot)
      simp [this, hne]
  have := key _ _ h0 i hi
  refine this.1 ?_
  by_cases hr : IsRoot x.tree i
  · exact Or.inr (Or.inl hr)
  · right; right
    obtain ⟨k, hk⟩ := exists_level hV hi
    cases hk with
    | root h => exact absurd h hr
    | child h he => have := edge_lev _ _ he; show 0 < lev i; omega

theorem svMin_spec (x : TBT ℝ) (hV : Valid x.tree) (root : Nat) (hroot : IsRoot x.tree root) (sRank tRank : Nat → Nat)
    (sing : Nat → Option (List ℝ)) (norm : ℝ) (i : Nat) (v : ℝ) :
    svMin x root sRank tRank sing norm i = some v ↔ NodeValue x sRank tRank sing norm i v := by
  have hone : oneSize (x.tensors i).shape = true ↔ ∃ n, (x.tensors i).shape ≠ [] ∧ ∀ m ∈ (x.tensors i).shape, m = n := by
    unfold oneSize
    rw [beq_iff_eq]
    constructor
    · intro h
      obtain ⟨n, hn⟩ := List.length_eq_one_iff.1 h
      refine ⟨n, fun e => by rw [e] at hn; simp at hn, fun m hm => ?_⟩
      have := List.mem_dedup.2 hm
      rw [hn] at this
      simpa using this
    · rintro ⟨n, h1, h2⟩
      have hd := (x.tensors i).shape.nodup_dedup
      have hm : ∀ m ∈ (x.tensors i).shape.dedup, m = n := fun m hm => h2 m (List.mem_dedup.1 hm)
      rcases he : (x.tensors i).shape.dedup with _ | ⟨a, _ | ⟨b, l⟩⟩
      · rw [List.dedup_eq_nil] at he
        exact absurd he h1
      · rfl
      · rw [he] at hd hm
        have e1 := hm a (by simp)
        have e2 := hm b (by simp)
        rw [e1, e2] at hd
        simp at hd
  unfold svMin NodeValue
  have hri : i = root ↔ IsRoot x.tree i := ⟨fun e => e ▸ hroot, fun h => root_unique hV h hroot⟩
  by_cases h1 : i = root
  · rw [if_pos h1]
    simp [hri.1 h1]
  · rw [if_neg h1]
    have h1' := fun h => h1 (hri.2 h)
    by_cases h2 : (x.tree.isLeaf i && x.active i && oneSize (x.tensors i).shape) = true
    · rw [if_pos h2]
      rw [Bool.and_eq_true, Bool.and_eq_true, isLeaf_mem, hone] at h2
      constructor
      · intro h; cases h
      · rintro ⟨_, h, _⟩
        exact absurd ⟨h2.1.1, h2.1.2, h2.2⟩ h
    · rw [if_neg h2]
      rw [Bool.and_eq_true, Bool.and_eq_true, isLeaf_mem, hone, and_assoc] at h2
      by_cases h3 : sRank i = tRank i
      · rw [if_neg (not_not.2 h3)]
        rcases hs : sing i with _ | s
        · simp
        · simp only [Option.bind_some]
          rcases hm : s.min? with _ | w
          · rw [List.min?_eq_none_iff] at hm
            subst hm
            simp [SmallestOf]
          · rw [List.min?_eq_some_iff] at hm
            have hv : SmallestOf s v ↔ v = w := by
              constructor
              · rintro ⟨a, b⟩
                exact le_antisymm (b w hm.1) (hm.2 v a)
              · rintro rfl
                exact ⟨hm.1, fun z hz => hm.2 z hz⟩
            simp only [Option.some.injEq, exists_eq_left', hv, show (2⁻¹ : ℝ) ^ 52 = floatEps from rfl]
            by_cases h4 : w / norm < floatEps
            · rw [if_pos h4]
              constructor
              · intro h; cases h
              · rintro ⟨_, _, _, rfl, h⟩
                exact absurd h4 h
            · rw [if_neg h4]
              constructor
              · intro h
                obtain rfl := Option.some.inj h
                exact ⟨h1', h2, h3, rfl, h4⟩
              · rintro ⟨_, _, _, rfl, _⟩
                rfl
      · rw [if_pos h3]
        simp [h3]

/-- C186. The nodes selected for an increase of the rank, with the rank one correction. The ranks of the enriched nodes, and only them,
increase by one; they all have a value and none is blocked; the new ranks are admissible, or nothing changes; a node that is not
blocked with a value at least that of an enriched node is enriched; the nodes with a value at least `theta` times the largest are
all enriched, unless nothing changes. -/
theorem newRankSelection_partial (x : TBT ℝ) (hx : WF x)
    (hinc : ∀ d d' c c' : Nat, d < d' → x.tree.dim2ind[d]? = some c → x.tree.dim2ind[d']? = some c' → ¬ x.active c → ¬ x.active c' →
      c < c') (sRank tRank : Nat → Nat) (sing : Nat → Option (List ℝ)) (norm theta : ℝ) (h0 : 0 ≤ theta) :
    let val := NodeValue x sRank tRank sing norm
    let cand := fun i v => IsNode x.tree i ∧ val i v ∧ ¬ Blocked x val i
    ∃ ρ e, newRankSelection x true sRank tRank sing norm theta = .ok (ρ, e) ∧ e.Nodup ∧ (∀ i ∈ e, ∃ v, cand i v) ∧
      (∀ i, ρ i = x.rank i + if i ∈ e then 1 else 0) ∧ (Admissible x ρ ∨ (ρ = x.rank ∧ e = [])) ∧
      (∀ i ∈ e, ∀ j v w, cand i v → cand j w → v ≤ w → j ∈ e) ∧
      (∀ i v, cand i v → (∀ j w, cand j w → theta * w ≤ v) → i ∈ e ∨
        (e = [] ∧ ∀ l : List Nat, l.Nodup →
          (∀ k, k ∈ l ↔ ∃ u, cand k u ∧ ∀ j w, cand j w → theta * w ≤ u) → ¬ Admissible x (fun i => x.rank i + if i ∈ l then 1 else 0))) := by
  intro val cand
  obtain ⟨root, hr, hroot⟩ := root_ok hx.valid
  obtain ⟨lev, hl, hlev⟩ := level_ok hx.valid
  have hsv : ∀ i, IsNode x.tree i → ∀ v, svMin x root sRank tRank sing norm i = some v ↔ val i v :=
    fun i _ v => svMin_spec x hx.valid root hroot sRank tRank sing norm i v
  have hc := cannotBeIncreased_spec x hx.valid root hroot lev hlev _ val hsv
  have hmask : ∀ i, IsNode x.tree i → ∀ v, mask (cannotBeIncreased x root lev (svMin x root sRank tRank sing norm))
      (svMin x root sRank tRank sing norm) i = some v ↔ cand i v := by
    intro i hi v
    unfold mask
    by_cases hb : cannotBeIncreased x root lev (svMin x root sRank tRank sing norm) i = true
    · rw [if_pos hb]
      constructor
      · intro h; cases h
      · rintro ⟨_, _, h⟩
        exact absurd ((hc i hi).1 hb) h
    · rw [if_neg hb, hsv i hi v]
      exact ⟨fun h => ⟨hi, h, fun hb' => hb ((hc i hi).2 hb')⟩, fun h => h.2.1⟩
  obtain ⟨ρ, e, h1, h2, h3, h4, h5, h6, h7⟩ := selectNodes_spec x hx hinc
    (mask (cannotBeIncreased x root lev (svMin x root sRank tRank sing norm)) (svMin x root sRank tRank sing norm)) theta h0
  refine ⟨ρ, e, ?_, h2, ?_, h4, h5, ?_, ?_⟩
  · simp only [newRankSelection, hr, hl, bind, Except.bind, Bool.not_true, Bool.false_eq_true, if_false, h1]
  · intro i hi
    obtain ⟨a, v, hv⟩ := h3 i hi
    exact ⟨v, (hmask i a v).1 hv⟩
  · intro i hi j v w hv hw hvw
    exact h6 i hi j hw.1 v w ((hmask i hv.1 v).2 hv) ((hmask j hw.1 w).2 hw) hvw
  · intro i v hv hall
    rcases h7 i hv.1 v ((hmask i hv.1 v).2 hv) (fun j hj w hw => hall j w ((hmask j hj w).1 hw)) with h | ⟨h, h'⟩
    · exact Or.inl h
    · refine Or.inr ⟨h, fun l hl hm => h' l hl (Or.inl (fun k => ?_))⟩
      rw [hm k]
      constructor
      · rintro ⟨u, hu, hu'⟩
        exact ⟨hu.1, u, (hmask k hu.1 u).2 hu, fun j hj w hw => hu' j w ((hmask j hj w).1 hw)⟩
      · rintro ⟨a, u, hu, hu'⟩
        exact ⟨u, (hmask k a u).1 hu, fun j w hw => hu' j hw.1 w ((hmask j hw.1 w).2 hw)⟩

/-- Without the rank one correction, the selection is refused for every tensor. -/
theorem newRankSelection_refused (x : TBT ℝ) (sRank tRank : Nat → Nat) (sing : Nat → Option (List ℝ)) (norm theta : ℝ) :
    newRankSelection x false sRank tRank sing norm theta = .error .attributeError := rfl

/-! ### `unique_tol` -/

theorem uniqueTolLoop_spec (tol : ℝ) (ht : 0 ≤ tol) : ∀ (l : List ℝ) (o : ℝ), 0 < o → (∀ v ∈ l, o ≤ v) → l.Pairwise (· ≤ ·) →
    (o :: uniqueTolLoop tol o l).Pairwise (fun a b => a * (1 + tol) < b) ∧ (uniqueTolLoop tol o l).Sublist l ∧
      ∀ v ∈ l, ∃ w ∈ o :: uniqueTolLoop tol o l, w ≤ v ∧ v ≤ w * (1 + tol)
  | [], o, ho, _, _ => by simp [uniqueTolLoop]
  | v :: l, o, ho, hv, hs => by
    have hov := hv v (by simp)
    have hcond : (|o - v| / o > tol) ↔ o * (1 + tol) < v := by
      rw [abs_of_nonpos (by linarith), gt_iff_lt, lt_div_iff₀ ho]
      constructor <;> intro h <;> nlinarith
    unfold uniqueTolLoop
    have hc : (if o = 0 then v ≠ 0 else |o - v| / o > tol) ↔ o * (1 + tol) < v := by
      rw [if_neg ho.ne']; exact hcond
    obtain ⟨hs1, hs2⟩ := List.pairwise_cons.1 hs
    by_cases h : o * (1 + tol) < v
    · rw [if_pos (hc.2 h)]
      obtain ⟨a, b, c⟩ := uniqueTolLoop_spec tol ht l v (by linarith) hs1 hs2
      refine ⟨List.pairwise_cons.2 ⟨fun z hz => ?_, a⟩, b.cons_cons v, fun z hz => ?_⟩
      · rcases List.mem_cons.1 hz with rfl | hz
        · exact h
        · have := hs1 z (b.subset hz)
          linarith
      · rcases List.mem_cons.1 hz with rfl | hz
        · exact ⟨z, by simp, le_refl _, by nlinarith⟩
        · obtain ⟨w, hw, hw'⟩ := c z hz
          exact ⟨w, List.mem_cons_of_mem _ hw, hw'⟩
    · rw [if_neg (fun h' => h (hc.1 h'))]
      obtain ⟨a, b, c⟩ := uniqueTolLoop_spec tol ht l o ho (fun z hz => hv z (List.mem_cons_of_mem _ hz)) hs2
      refine ⟨a, b.cons v, fun z hz => ?_⟩
      rcases List.mem_cons.1 hz with rfl | hz
      · exact ⟨o, by simp, hov, not_lt.1 h⟩
      · exact c z hz

/-- C187. `unique_tol` on positive values (and `nan`): the values returned are values of the input, each is more than `1 + tol` times
those before it, and every value of the input is within a relative distance `tol` above one of them. -/
theorem uniqueTol_spec (inp : List (Option ℝ)) (tol : ℝ) (ht : 0 ≤ tol) (hpos : ∀ v, some v ∈ inp → 0 < v) :
    (∀ v ∈ uniqueTol inp tol, some v ∈ inp) ∧ (uniqueTol inp tol).Pairwise (fun a b => a * (1 + tol) < b) ∧
      ∀ v, some v ∈ inp → ∃ w ∈ uniqueTol inp tol, w ≤ v ∧ v ≤ w * (1 + tol) := by
  classical
  have hmem : ∀ v, v ∈ (inp.filterMap id).insertionSort (· ≤ ·) ↔ some v ∈ inp := by
    intro v
    rw [(List.perm_insertionSort _ _).mem_iff, List.mem_filterMap]
    simp
  have hsorted : ((inp.filterMap id).insertionSort (· ≤ ·)).Pairwise (· ≤ ·) := List.pairwise_insertionSort _ _
  unfold uniqueTol
  rcases hl : (inp.filterMap id).insertionSort (· ≤ ·) with _ | ⟨v, l⟩
  · rw [hl] at hmem
    refine ⟨by simp, List.Pairwise.nil, fun v hv => ?_⟩
    have := (hmem v).2 hv
    simp at this
  · rw [hl] at hmem hsorted
    obtain ⟨hs1, hs2⟩ := List.pairwise_cons.1 hsorted
    have hv0 := hpos v ((hmem v).1 (by simp))
    obtain ⟨a, b, c⟩ := uniqueTolLoop_spec tol ht l v hv0 hs1 hs2
    refine ⟨fun z hz => (hmem z).1 ?_, a, fun z hz => ?_⟩
    · rcases List.mem_cons.1 hz with rfl | hz
      · simp
      · exact List.mem_cons_of_mem _ (b.subset hz)
    · rcases List.mem_cons.1 ((hmem z).2 hz) with rfl | hz
      · exact ⟨z, by simp, le_refl _, by nlinarith⟩
      · exact c z hz

/-! ### enrichment of the edges -/

theorem enrichAxis_shape {T B : Arr ℝ} {k rank : Nat} {Z : Nat → Nat → ℝ} (h : enrichAxis T k rank Z = .ok B) :
    B.shape = T.shape.set k (T.shape.getD k 0 + rank) := by
  unfold enrichAxis at h
  dsimp only at h
  split at h
  · cases h
  · cases h; rfl

/-- C188. `enriched_edges_to_ranks_random` never gives the ranks asked: when the rank of some node is to be increased, and an enriched
tensor is returned, the last of these nodes keeps its rank, which is less than the one asked. -/
theorem enrichedEdges_wrong (x : TBT ℝ) (hx : WF x) (new : Nat → Nat) (Z : Nat → Nat → Nat → Nat → ℝ) (x' : TBT ℝ)
    (hnew : ∃ i, IsNode x.tree i ∧ x.rank i < new i) (h : enrichedEdges new Z x = .ok x') :
    ∃ i, IsNode x.tree i ∧ x'.rank i = x.rank i ∧ x'.rank i < new i := by
  classical
  obtain ⟨i, hi, hmax⟩ := Finset.exists_max_image ((Finset.range (x.tree.n + 1)).filter (fun i => IsNode x.tree i ∧ x.rank i < new i)) id
    (by
      obtain ⟨i, h1, h2⟩ := hnew
      have h1' := h1
      unfold IsNode at h1'
      exact ⟨i, by simp only [Finset.mem_filter, Finset.mem_range]; exact ⟨by omega, h1, h2⟩⟩)
  simp only [Finset.mem_filter, Finset.mem_range, id] at hi hmax
  obtain ⟨_, hi1, hi2⟩ := hi
  obtain ⟨lev, hl, hlev⟩ := level_ok hx.valid
  have inv : ∀ (S : List Nat) (y y' : TBT ℝ), (∀ a ∈ S, IsNode x.tree a ∧ a < i) → y.tree = x.tree →
      (y.tensors i).shape.length = (x.tensors i).shape.length →
      (y.tensors i).shape.drop (x.tree.children i).length = (x.tensors i).shape.drop (x.tree.children i).length →
      S.foldlM (enrichNode new Z) y = .ok y' → y'.tree = x.tree ∧
        (y'.tensors i).shape.length = (x.tensors i).shape.length ∧
        (y'.tensors i).shape.drop (x.tree.children i).length = (x.tensors i).shape.drop (x.tree.children i).length := by
    intro S
    induction S with
    | nil =>
      intro y y' _ h1 h2 h3 h4
      rw [List.foldlM_nil] at h4
      cases h4
      exact ⟨h1, h2, h3⟩
    | cons a S ih =>
      intro y y' hS h1 h2 h3 h4
      rw [List.foldlM_cons] at h4
      obtain ⟨ha, hai⟩ := hS a (by simp)
      rcases hy : enrichNode new Z y a with e | z
      · rw [hy] at h4; cases h4
      · rw [hy] at h4
        simp only [bind, Except.bind] at h4
        refine ih z y' (fun b hb => hS b (by simp [hb])) ?_ ?_ ?_ h4
        all_goals
          unfold enrichNode at hy
          dsimp only at hy
          split at hy
          · cases hy
          · rcases hA : enrichAxis (y.tensors a) ((y.tensors a).order - 1) (new a - y.rank a) (Z a 0) with e | A
            · rw [hA] at hy; cases hy
            · rw [hA] at hy
              rcases hB : enrichAxis (y.tensors (y.tree.parent a)) (y.tree.childNumber a - 1) (new a - y.rank a) (Z a 1) with e | B
              · simp only [hB, bind, Except.bind] at hy; cases hy
              · simp only [hB, bind, Except.bind] at hy
                cases hy
                rw [h1] at hB
                have hts : (upd (upd y.tensors a A) (x.tree.parent a) B i).shape =
                    if i = x.tree.parent a then (y.tensors i).shape.set (x.tree.childNumber a - 1)
                      ((y.tensors i).shape.getD (x.tree.childNumber a - 1) 0 + (new a - y.rank a)) else (y.tensors i).shape := by
                  unfold upd
                  by_cases hp : i = x.tree.parent a
                  · rw [if_pos hp, if_pos hp, enrichAxis_shape hB, hp]
                  · rw [if_neg hp, if_neg hp, if_neg (by omega)]
                first
                  | exact h1
                  | (show (upd (upd y.tensors a A) (y.tree.parent a) B i).shape.length = _
                     rw [h1, hts]
                     split_ifs
                     · rw [List.length_set]; exact h2
                     · exact h2)
                  | (show (upd (upd y.tensors a A) (y.tree.parent a) B i).shape.drop _ = _
                     rw [h1, hts]
                     split_ifs with hp
                     · have hne : x.tree.parent a ≠ 0 := by rw [← hp]; unfold IsNode at hi1; omega
                       have hed := (parent_eq_iff hx.valid ha (by rw [hp]; exact hne)).1 hp.symm
                       have hin := (mem_children i a hi1).2 hed
                       have hlt := List.idxOf_lt_length_of_mem hin
                       have hcn : x.tree.childNumber a - 1 = (x.tree.children i).idxOf a := by
                         unfold childNumber
                         rw [if_neg hne, ← hp, if_pos hin]
                         rfl
                       rw [List.drop_set_of_lt (by rw [hcn]; exact hlt)]
                       exact h3
                     · exact h3)
  unfold enrichedEdges at h
  simp only [hl, bind, Except.bind] at h
  obtain ⟨e1, e2, e3⟩ := inv _ x x' (fun a ha => by
    rw [List.mem_flatMap] at ha
    obtain ⟨l, _, hl'⟩ := ha
    rw [List.mem_filter, mem_nodesWithLevel, List.contains_iff_mem, List.mem_map] at hl'
    obtain ⟨⟨hn, _⟩, j, hj, hja⟩ := hl'
    rw [List.mem_filter, mem_nodes', decide_eq_true_eq] at hj
    have hj1 := hj.1
    unfold IsNode at hj1
    have := hmax j ⟨by omega, hj.1, hj.2⟩
    exact ⟨hn, by omega⟩) rfl rfl rfl h
  have hrank : x'.rank i = x.rank i := by
    unfold TBT.rank
    rw [e1]
    have hlast : (x.tree.children i).length < (x.tensors i).shape.length → x'.lastDim i = x.lastDim i := by
      intro hlt
      have hd : ∀ s : List Nat, (x.tree.children i).length < s.length → s.getLast? = (s.drop (x.tree.children i).length).getLast? := by
        intro s hs
        rw [List.getLast?_drop, if_neg (by omega)]
      unfold TBT.lastDim
      rw [hd _ hlt, hd _ (by rw [e2]; exact hlt), e3]
    by_cases hleaf : x.tree.isLeaf i = true
    · rw [if_pos hleaf, if_pos hleaf]
      have hc : x.tree.children i = [] := by
        apply List.eq_nil_iff_forall_not_mem.2
        intro c hc
        exact ((isLeaf_iff hx.valid hi1).1 hleaf) c ((mem_children i c hi1).1 hc)
      rw [hc] at e3
      simp only [List.length_nil, List.drop_zero] at e3
      unfold TBT.active TBT.lastDim
      rw [e3]
    · rw [if_neg hleaf, if_neg hleaf]
      unfold Arr.order
      rw [e2]
      by_cases hc : x.tree.parent i ≠ 0 ∨ (x.tensors i).shape.length = (x.tree.children i).length + 1
      · rw [if_pos hc, if_pos hc]
        apply hlast
        obtain ⟨_, hs, _, hr⟩ := hx.node i hi1 (fun hm => hleaf ((isLeaf_mem _ _).2 hm))
        rcases hc with hc | hc
        · have hnr : ¬ IsRoot x.tree i := fun h => hc ((parent_eq_zero hi1).2 h)
          rw [hs, List.length_append, List.length_map, hr hnr]
          omega
        · omega
      · rw [if_neg hc, if_neg hc]
  exact ⟨i, hi1, hrank, hrank ▸ hi2⟩

/-! ### random exploration -/

/-- C189. For a tree-based tensor, a random exploration is refused for every tensor. -/
theorem randomizeTree_refused (x : TBT ℝ) (hx : WF x) (count : Nat) : randomizeTree x count = .error .valueError := by
  obtain ⟨lev, hl, -⟩ := level_ok hx.valid
  unfold randomizeTree
  simp only [hl, bind, Except.bind]
  rw [List.range_succ, List.reverse_append]
  rfl

/-- For a canonical tensor, a random exploration visits every parameter once, and the core last. -/
theorem randomizeCanonical_spec (perm : List Nat) (n : Nat) (hn : 1 ≤ n) (hp : perm.Perm (List.range (n - 1))) :
    (randomizeCanonical perm n).Perm (List.range' 1 n) ∧ (randomizeCanonical perm n).getLast? = some n := by
  unfold randomizeCanonical
  refine ⟨?_, by simp⟩
  obtain ⟨m, rfl⟩ : ∃ m, n = m + 1 := ⟨n - 1, by omega⟩
  rw [List.range'_1_concat, Nat.add_comm 1 m]
  refine List.Perm.append_right _ ?_
  have e : List.range' 1 m = (List.range m).map (· + 1) := by
    rw [List.range'_eq_map_range]
    exact List.map_congr_left (fun i _ => Nat.add_comm 1 i)
  rw [e]
  exact hp.map _

/-- The hypotheses are met. -/
example : randomizeCanonical [1, 0, 2] 4 = [2, 1, 3, 4] ∧ [1, 0, 2].Perm (List.range 3) := by decide

/-! ### non-vacuity -/

/-- A tensor of shape `3 × 2 × 2` with admissible ranks; the leaf of dimension 1 is inactive. -/
def exRS : TBT ℝ where
  tree := exTree
  tensors := fun i => match i with
    | 1 => ⟨[2, 2], fun t => t.getD 0 0 + 2 * t.getD 1 0⟩
    | 2 => ⟨[2, 2, 2], fun t => t.getD 0 0 * t.getD 1 0 + t.getD 2 0⟩
    | 3 => ⟨[3, 2], fun t => 1 + t.getD 0 0 * t.getD 1 0⟩
    | 5 => ⟨[2, 2], fun t => t.getD 0 0 - t.getD 1 0⟩
    | _ => ⟨[0], fun _ => 0⟩

theorem exRS_wf : WF exRS := wf_of_wfB _ exTree_valid (by decide +kernel)

/-- The hypotheses of C186 are met by `exRS`, and leaf 3 is a candidate when all the singular values are 1. -/
example : WF exRS ∧ (∀ d d' c c' : Nat, d < d' → exRS.tree.dim2ind[d]? = some c → exRS.tree.dim2ind[d']? = some c' → ¬ exRS.active c →
      ¬ exRS.active c' → c < c') ∧ NodeValue exRS (fun _ => 2) (fun _ => 2) (fun _ => some [1, 1]) 1 3 1 ∧
    ¬ Blocked exRS (NodeValue exRS (fun _ => 2) (fun _ => 2) (fun _ => some [1, 1]) 1) 3 := by
  have hr : ¬ IsRoot exRS.tree 3 := fun h => by
    have := (parent_eq_zero h.1).2 h
    revert this
    decide +kernel
  have hv : NodeValue exRS (fun _ => 2) (fun _ => 2) (fun _ => some [1, 1]) 1 3 1 := by
    refine ⟨hr, ?_, rfl, ⟨_, rfl, by simp [SmallestOf]⟩, by norm_num⟩
    rintro ⟨_, _, n, _, h⟩
    have h3 := h 3 (by simp [exRS])
    have h2 := h 2 (by simp [exRS])
    omega
  refine ⟨exRS_wf, fun d d' c c' h1 h2 h3 _ _ => exTree_inc d d' c c' h1 h2 h3, hv, ?_⟩
  intro hb
  cases hb with
  | root _ h => exact hr h
  | leaf _ _ h => exact h 1 hv
  | node _ _ h _ _ => exact h (by decide +kernel)

/-- The hypotheses of C188 are met by `exRS`: when rank 3 is asked for the node 2, the tensor is returned unchanged. -/
theorem enrichedEdges_witness (Z : Nat → Nat → Nat → Nat → ℝ) :
    WF exRS ∧ (∃ i, IsNode exRS.tree i ∧ exRS.rank i < (fun i => if i = 2 then 3 else exRS.rank i) i) ∧
      enrichedEdges (fun i => if i = 2 then 3 else exRS.rank i) Z exRS = .ok exRS := by
  refine ⟨exRS_wf, ⟨2, by unfold IsNode; decide +kernel, by decide +kernel⟩, ?_⟩
  obtain ⟨lev, hl, -⟩ := level_ok exTree_valid
  have h : (do let lev ← exRS.tree.level
               pure ((List.range' 1 (exRS.tree.maxLevel lev)).flatMap (fun l => (exRS.tree.nodesWithLevel lev l).filter
                (fun i => ((exRS.tree.nodes.filter (fun i => decide (exRS.rank i < (if i = 2 then 3 else exRS.rank i)))).map
                  (fun i => i - 1)).contains i))) : Py (List Nat)) = .ok [] := by decide +kernel
  have hl' : exRS.tree.level = .ok lev := hl
  simp only [hl', bind, Except.bind, pure, Except.pure, Except.ok.injEq] at h
  unfold enrichedEdges
  simp only [hl', bind, Except.bind]
  rw [h]
  rfl

/-- The hypotheses of C187 are met. -/
example : uniqueTol [some 2, none, some 1] 1 = [1] ∧ ∀ v, some v ∈ ([some 2, none, some 1] : List (Option ℝ)) → 0 < v := by
  have h : ((2 : ℝ) :: [1]).insertionSort (· ≤ ·) = [1, 2] := by
    simp [List.insertionSort, List.orderedInsert]
  constructor
  · unfold uniqueTol
    have e : ([some 2, none, some 1] : List (Option ℝ)).filterMap id = [2, 1] := rfl
    rw [e, show ([2, 1] : List ℝ).insertionSort (· ≤ ·) = [1, 2] by convert h]
    simp [uniqueTolLoop]
    norm_num
  · intro v hv
    simp at hv
    rcases hv with rfl | rfl <;> norm_num

end

end Verif.TreeBased
