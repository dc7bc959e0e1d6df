import Verif.Model.TreeSqueeze
import Verif.Props.TreeSurgery
import Verif.Lemmas.Shaped
import Verif.Lemmas.TreeValue

/-!
# Trees made of a part of the nodes

A tree-based tensor `y` of which only the nodes `K` are used: validity, shapes, values, and the renumbering of the nodes.
-/

namespace Verif.TreeBased

open Verif.Arr Verif.DimTree Verif.DimTree.DTree Finset

variable {R : Type}

/-- The children of `i` among the nodes `K`. -/
def kids (T : DTree) (K : List Nat) (i : Nat) : List Nat := K.filter (fun j => T.adj (i - 1) (j - 1))

/-- The hierarchical sum on the children `cs`, with explicit activity, ranks and dimensions. -/
def psum [CommSemiring R] (act : Nat → Bool) (ρ : Nat → Nat) (dim : Nat → Nat) (V : Nat → List Nat → List Nat → R)
    (idx : List Nat) : List Nat → (List Nat → R) → R
  | [], k => k []
  | c :: cs, k =>
    if act c then ∑ s ∈ range (ρ c), V c idx [s] * psum act ρ dim V idx cs (fun t => k (s :: t))
    else psum act ρ dim V idx cs (fun t => k (idx.getD (dim c) 0 :: t))

/-- The nodes `K` of `y` form a tree with root `r` whose leaves are `y.tree.dim2ind`; the shapes of the tensors of these
nodes are given by `act`, `ρ`, `ν` and `E`. -/
structure Part (y : TBT R) (K : List Nat) (r : Nat) (act : Nat → Bool) (ρ ν : Nat → Nat) (E : List Nat) : Prop where
  sorted : K.Pairwise (· < ·)
  isNode : ∀ i ∈ K, IsNode y.tree i
  root : r ∈ K
  top : ∀ i ∈ K, ¬ Edge y.tree i r
  parent : ∀ i ∈ K, ∀ i' ∈ K, ∀ j ∈ K, Edge y.tree i j → Edge y.tree i' j → i = i'
  reach : ∀ j ∈ K, Relation.ReflTransGen (fun a b => a ∈ K ∧ b ∈ K ∧ Edge y.tree a b) r j
  nodup : y.tree.dim2ind.Nodup
  leaves : ∀ c, c ∈ y.tree.dim2ind ↔ c ∈ K ∧ ∀ j ∈ K, ¬ Edge y.tree c j
  rho : ∀ i ∈ K, i ≠ r → act i = true → 0 < ρ i
  nu : ∀ c ∈ y.tree.dim2ind, 0 < ν c
  rootPos : ∀ n ∈ E, n ≠ 0
  rootLen : E.length ≤ 1
  rootAct : act r = true
  leaf : ∀ c ∈ y.tree.dim2ind, act c = true → (y.tensors c).shape = ν c :: (if c = r then E else [ρ c])
  off : ∀ c ∈ y.tree.dim2ind, ¬ act c = true → (y.tensors c).shape.prod = 0
  internal : ∀ i ∈ K, i ∉ y.tree.dim2ind → act i = true
  node : ∀ i ∈ K, i ∉ y.tree.dim2ind → (y.tensors i).shape =
    (kids y.tree K i).map (fun c => if act c then ρ c else ν c) ++ (if i = r then E else [ρ i])

/-- `b` is a descendant of `a`, or `a`, through the nodes `K`. -/
def RK (T : DTree) (K : List Nat) : Nat → Nat → Prop := Relation.ReflTransGen (fun a b => a ∈ K ∧ b ∈ K ∧ Edge T a b)

theorem rk_nodes (T : DTree) (a b : Nat) : RK T T.nodes a b ↔ AncSelf T a b := by
  constructor
  · intro h; exact Relation.ReflTransGen.mono (fun a b hab => hab.2.2) _ _ h
  · intro h
    exact Relation.ReflTransGen.mono (fun a b hab => ⟨(mem_nodes a).2 hab.1, (mem_nodes b).2 hab.2.1, hab⟩) _ _ h

/-- `V` gives the values of the nodes `K`, for the subscripts in the box `s`. -/
structure PVal [CommSemiring R] (y : TBT R) (K : List Nat) (r : Nat) (act : Nat → Bool) (ρ : Nat → Nat) (E s : List Nat)
    (V : Nat → List Nat → List Nat → R) : Prop where
  leaf : ∀ c ∈ y.tree.dim2ind, act c = true → ∀ idx e, InBox s idx → InBox (if c = r then E else [ρ c]) e →
    V c idx e = (y.tensors c).get (idx.getD (dimOf y.tree c) 0 :: e)
  node : ∀ i ∈ K, i ∉ y.tree.dim2ind → ∀ idx e, InBox s idx → InBox (if i = r then E else [ρ i]) e →
    V i idx e = psum act ρ (dimOf y.tree) V idx (kids y.tree K i) (fun t => (y.tensors i).get (t ++ e))

theorem childSum_psum [CommSemiring R] (x : TBT R) (V : Nat → List Nat → List Nat → R) (idx cs : List Nat) (k : List Nat → R) :
    childSum x V idx cs k = psum x.active x.lastDim (dimOf x.tree) V idx cs k := by
  induction cs generalizing k with
  | nil => rfl
  | cons c cs ih => unfold childSum psum; simp only [ih]

theorem psum_congr [CommSemiring R] {act act' : Nat → Bool} {ρ ρ' dim dim' : Nat → Nat} {V V' : Nat → List Nat → List Nat → R}
    {idx idx' : List Nat} (cs : List Nat) (k : List Nat → R) (ha : ∀ c ∈ cs, act c = act' c)
    (hr : ∀ c ∈ cs, act c = true → ρ c = ρ' c ∧ ∀ s < ρ c, V c idx [s] = V' c idx' [s])
    (hd : ∀ c ∈ cs, ¬ act c = true → idx.getD (dim c) 0 = idx'.getD (dim' c) 0) :
    psum act ρ dim V idx cs k = psum act' ρ' dim' V' idx' cs k := by
  induction cs generalizing k with
  | nil => rfl
  | cons c cs ih =>
    have ih' := fun k => ih k (fun c hc => ha c (by simp [hc])) (fun c hc => hr c (by simp [hc])) (fun c hc => hd c (by simp [hc]))
    unfold psum
    rw [← ha c (by simp)]
    by_cases hc : act c = true
    · rw [if_pos hc, if_pos hc]
      obtain ⟨h1, h2⟩ := hr c (by simp) hc
      rw [← h1]
      apply sum_congr rfl
      intro s hs
      rw [h2 s (mem_range.1 hs), ih']
    · rw [if_neg hc, if_neg hc, ih', hd c (by simp) hc]

theorem psum_map [CommSemiring R] (φ : Nat → Nat) {act : Nat → Bool} {ρ dim : Nat → Nat} {V : Nat → List Nat → List Nat → R}
    {idx : List Nat} (cs : List Nat) (k : List Nat → R) :
    psum act ρ dim V idx (cs.map φ) k = psum (fun c => act (φ c)) (fun c => ρ (φ c)) (fun c => dim (φ c)) (fun c => V (φ c)) idx cs k := by
  induction cs generalizing k with
  | nil => rfl
  | cons c cs ih =>
    rw [List.map_cons]
    unfold psum
    simp only [ih]

theorem kids_nodes (T : DTree) (i : Nat) : kids T T.nodes i = T.children i := by
  unfold kids nodes children
  rw [List.filter_map]
  congr 1

theorem mem_kids {T : DTree} {K : List Nat} (hK : ∀ i ∈ K, IsNode T i) {i j : Nat} (hi : i ∈ K) :
    j ∈ kids T K i ↔ j ∈ K ∧ Edge T i j := by
  unfold kids
  rw [List.mem_filter]
  constructor
  · rintro ⟨h1, h2⟩; exact ⟨h1, hK i hi, hK j h1, h2⟩
  · rintro ⟨h1, h2⟩; exact ⟨h1, h2.2.2⟩

/-- `Part` for all the nodes of a well-formed tensor. -/
theorem WF.part {x : TBT R} (h : WF x) {r : Nat} (hroot : IsRoot x.tree r) :
    Part x x.tree.nodes r x.active x.lastDim x.leafSize (rankShape x r) := by
  have hs := h.shaped hroot
  have hmem : ∀ i, i ∈ x.tree.nodes ↔ IsNode x.tree i := fun i => mem_nodes i
  obtain ⟨r0, hr0, hreach⟩ := h.valid.rooted
  obtain rfl := root_unique h.valid hr0 hroot
  have hrl := h.root_internal hroot
  refine ⟨?_, fun i hi => (hmem i).1 hi, (hmem _).2 hroot.1, fun i _ => hroot.2 i, fun i _ i' _ j _ => h.valid.unique_parent i i' j,
    ?_, h.valid.nodup, ?_, ?_, hs.nu, hs.rootPos, hs.rootLen, (h.node _ hroot.1 hrl).1, ?_, hs.off, ?_, ?_⟩
  · unfold nodes
    rw [List.pairwise_map]
    exact List.pairwise_lt_range.imp (by omega)
  · intro j hj
    have := hreach j ((hmem j).1 hj)
    refine Relation.ReflTransGen.mono ?_ _ _ this
    intro a b hab
    exact ⟨(hmem a).2 hab.1, (hmem b).2 hab.2.1, hab⟩
  · intro c
    rw [h.valid.leaves c, hmem]
    constructor
    · rintro ⟨a, b⟩; exact ⟨a, fun j _ => b j⟩
    · rintro ⟨a, b⟩; exact ⟨a, fun j hj => b j ((hmem j).2 hj.2.1) hj⟩
  · intro i hi hir ha
    exact hs.rho i ((hmem i).1 hi) (fun hh => hir (root_unique h.valid hh hroot)) ha
  · intro c hc ha
    rw [if_neg (by rintro rfl; exact hrl hc)]
    exact hs.leaf c hc ha
  · intro i hi hl
    exact (h.node i ((hmem i).1 hi) hl).1
  · intro i hi hl
    rw [kids_nodes, hs.node i ((hmem i).1 hi) hl]
    congr 1
    by_cases hir : i = r0
    · rw [if_pos hir, if_pos (hir ▸ hroot)]
    · rw [if_neg hir, if_neg (fun hh => hir (root_unique h.valid hh hroot))]

theorem IsValue.part [CommSemiring R] {x : TBT R} {V : Nat → List Nat → List Nat → R} (h : IsValue x V) (r : Nat) (E s : List Nat) :
    PVal x x.tree.nodes r x.active x.lastDim E s V := by
  refine ⟨fun c hc ha idx e _ _ => h.leaf c hc ha idx e, ?_⟩
  intro i hi hl idx e _ _
  rw [h.node i ((mem_nodes i).1 hi) hl, kids_nodes, childSum_psum]

namespace Part

variable {y : TBT R} {K : List Nat} {r : Nat} {act : Nat → Bool} {ρ ν : Nat → Nat} {E : List Nat}

theorem kid_ne_root (h : Part y K r act ρ ν E) {i c : Nat} (hi : i ∈ K) (hc : c ∈ kids y.tree K i) : c ≠ r := by
  rintro rfl
  exact h.top i hi ((mem_kids h.isNode hi).1 hc).2

theorem kid_size (h : Part y K r act ρ ν E) {i c : Nat} (hi : i ∈ K) (hc : c ∈ kids y.tree K i) :
    (if act c then ρ c else ν c) ≠ 0 := by
  have hcr := h.kid_ne_root hi hc
  have hm := (mem_kids h.isNode hi).1 hc
  by_cases ha : act c = true
  · rw [if_pos ha]
    exact (h.rho c hm.1 hcr ha).ne'
  · rw [if_neg ha]
    exact (h.nu c (by by_contra hl; exact ha (h.internal c hm.1 hl))).ne'

theorem pos (h : Part y K r act ρ ν E) {i : Nat} (hi : i ∈ K) (ha : act i = true) : ∀ n ∈ (y.tensors i).shape, n ≠ 0 := by
  have hrest : ∀ n ∈ (if i = r then E else [ρ i]), n ≠ 0 := by
    intro n hn
    by_cases hir : i = r
    · rw [if_pos hir] at hn; exact h.rootPos n hn
    · rw [if_neg hir, List.mem_singleton] at hn
      rw [hn]; exact (h.rho i hi hir ha).ne'
  by_cases hl : i ∈ y.tree.dim2ind
  · rw [h.leaf i hl ha]
    intro n hn
    rcases List.mem_cons.1 hn with rfl | hn
    · exact (h.nu i hl).ne'
    · exact hrest n hn
  · rw [h.node i hi hl]
    intro n hn
    rcases List.mem_append.1 hn with hn | hn
    · obtain ⟨c, hc, rfl⟩ := List.mem_map.1 hn
      exact h.kid_size hi hc
    · exact hrest n hn

theorem active (h : Part y K r act ρ ν E) {i : Nat} (hi : i ∈ K) : y.active i = act i := by
  by_cases ha : act i = true
  · rw [ha]
    exact prod_ne_zero.2 (h.pos hi ha)
  · have hl : i ∈ y.tree.dim2ind := by by_contra hn; exact ha (h.internal i hi hn)
    have := h.off i hl ha
    unfold TBT.active
    rw [this]; simpa using ha

theorem lastDim (h : Part y K r act ρ ν E) {i : Nat} (hi : i ∈ K) (hir : i ≠ r) (ha : act i = true) : y.lastDim i = ρ i := by
  by_cases hl : i ∈ y.tree.dim2ind
  · refine lastDim_of_shape (s := [ν i]) ?_
    rw [h.leaf i hl ha, if_neg hir]; rfl
  · have := h.node i hi hl
    rw [if_neg hir] at this
    exact lastDim_of_shape this

theorem isRoot (h : Part y y.tree.nodes r act ρ ν E) : IsRoot y.tree r :=
  ⟨(mem_nodes r).1 h.root, fun i hi => h.top i ((mem_nodes i).2 hi.1) hi⟩

theorem valid (h : Part y y.tree.nodes r act ρ ν E) : Valid y.tree := by
  refine ⟨?_, ⟨r, h.isRoot, ?_⟩, h.nodup, ?_⟩
  · intro i i' j h1 h2
    exact h.parent i ((mem_nodes i).2 h1.1) i' ((mem_nodes i').2 h2.1) j ((mem_nodes j).2 h1.2.1) h1 h2
  · intro j hj
    exact Relation.ReflTransGen.mono (fun a b hab => hab.2.2) _ _ (h.reach j ((mem_nodes j).2 hj))
  · intro c
    rw [h.leaves c, mem_nodes]
    constructor
    · rintro ⟨a, b⟩; exact ⟨a, fun j hj => b j ((mem_nodes j).2 hj.2.1) hj⟩
    · rintro ⟨a, b⟩; exact ⟨a, fun j _ => b j⟩

theorem shaped (h : Part y y.tree.nodes r act ρ ν E) (ho : 2 ≤ y.tree.dim2ind.length) : Shaped y y.tree act ρ ν E := by
  have hrl := Shaped.root_internal' h.valid ho h.isRoot
  have hir : ∀ i, IsRoot y.tree i ↔ i = r := fun i =>
    ⟨fun hi => root_unique h.valid hi h.isRoot, fun hi => hi ▸ h.isRoot⟩
  refine ⟨rfl, ?_, h.nu, h.rootPos, h.rootLen, ?_, h.off, fun i hi => h.internal i ((mem_nodes i).2 hi), ?_⟩
  · intro i hi hnr ha
    exact h.rho i ((mem_nodes i).2 hi) (fun hh => hnr ((hir i).2 hh)) ha
  · intro c hc ha
    rw [h.leaf c hc ha, if_neg (by rintro rfl; exact hrl hc)]
  · intro i hi hl
    rw [h.node i ((mem_nodes i).2 hi) hl, kids_nodes]
    congr 1
    by_cases hh : i = r
    · rw [if_pos hh, if_pos ((hir i).2 hh)]
    · rw [if_neg hh, if_neg (fun h' => hh ((hir i).1 h'))]

theorem value [CommSemiring R] (h : Part y y.tree.nodes r act ρ ν E) (ho : 2 ≤ y.tree.dim2ind.length)
    {V : Nat → List Nat → List Nat → R} (hv : PVal y y.tree.nodes r act ρ E (y.tree.dim2ind.map ν) V) : IsValueOn y V := by
  have hs := h.shaped ho
  have hrl := Shaped.root_internal' h.valid ho h.isRoot
  have hsh := hs.shapeEq h.valid ho
  refine ⟨?_, ?_⟩
  · intro c hc ha idx s hidx hs'
    rw [h.active ((h.leaves c).1 hc).1] at ha
    have hcr : c ≠ r := by rintro rfl; exact hrl hc
    rw [h.lastDim ((h.leaves c).1 hc).1 hcr ha] at hs'
    exact hv.leaf c hc ha idx [s] (by rw [← hsh]; exact hidx) (by rw [if_neg hcr]; exact .cons hs' .nil)
  · intro i hi hl idx e hidx he
    have hi' := (mem_nodes i).2 hi
    rw [hv.node i hi' hl idx e (by rw [← hsh]; exact hidx) ?_, childSum_psum, ← kids_nodes]
    · refine psum_congr _ _ ?_ ?_ (fun _ _ _ => rfl)
      · intro c hc
        exact (h.active ((mem_kids h.isNode hi').1 hc).1).symm
      · intro c hc ha
        exact ⟨(h.lastDim ((mem_kids h.isNode hi').1 hc).1 (h.kid_ne_root hi' hc) ha).symm, fun _ _ => rfl⟩
    · by_cases hir : i = r
      · rw [if_pos hir]
        rw [hir, hs.rankShape_root h.isRoot hrl] at he
        exact he
      · rw [if_neg hir]
        rw [hs.rankShape_node hi hl (fun hh => hir (root_unique h.valid hh h.isRoot))] at he
        exact he

end Part

/-! ## Renumbering -/

theorem mapM_newNumber {keep : List Nat} : ∀ (l : List Nat), (∀ c ∈ l, c ∈ keep) →
    l.mapM (newNumber keep) = .ok (l.map (fun c => keep.idxOf c + 1))
  | [], _ => rfl
  | c :: l, h => by
    rw [List.mapM_cons, mapM_newNumber l (fun c hc => h c (by simp [hc]))]
    unfold newNumber
    rw [if_pos (h c (by simp))]
    rfl

/-- The renumbering keeps the tree, the shapes and the values. -/
theorem restrict_spec [CommSemiring R] (n : Nat) (adj : Nat → Nat → Bool) (ts : Nat → Arr R) (removed leaves : List Nat)
    (K : List Nat) (hK : K = ((List.range n).map (· + 1)).filter (fun i => !removed.contains i)) {r : Nat} {act : Nat → Bool}
    {ρ ν : Nat → Nat} {E : List Nat} (h : Part ⟨⟨leaves, n, adj⟩, ts⟩ K r act ρ ν E) :
    ∃ (z : TBT R) (φ : Nat → Nat) (r' : Nat), restrict n adj ts removed leaves = .ok z ∧
      Part z z.tree.nodes r' (fun i => act (φ i)) (fun i => ρ (φ i)) (fun i => ν (φ i)) E ∧ φ r' = r ∧
      (∀ s V, PVal ⟨⟨leaves, n, adj⟩, ts⟩ K r act ρ E s V →
        PVal z z.tree.nodes r' (fun i => act (φ i)) (fun i => ρ (φ i)) E s (fun i => V (φ i))) ∧
      z.tree.n = K.length ∧ z.tree.dim2ind.map φ = leaves ∧ (∀ i, IsNode z.tree i → φ i ∈ K ∧ z.tensors i = ts (φ i)) ∧
      (∀ i, IsNode z.tree i → (z.tree.children i).map φ = kids ⟨leaves, n, adj⟩ K (φ i)) ∧
      (∀ j ∈ K, ∃ i, IsNode z.tree i ∧ φ i = j) ∧
      (∀ i j, IsNode z.tree i → IsNode z.tree j → (φ i < φ j ↔ i < j)) ∧
      (∀ i j, IsNode z.tree i → IsNode z.tree j → (AncSelf z.tree i j ↔ RK ⟨leaves, n, adj⟩ K (φ i) (φ j))) := by
  classical
  obtain ⟨y, hy⟩ : ∃ y : TBT R, y = ⟨⟨leaves, n, adj⟩, ts⟩ := ⟨_, rfl⟩
  have hyT : y.tree = ⟨leaves, n, adj⟩ := by rw [hy]
  rw [← hy] at h
  have hnd : K.Nodup := h.sorted.imp (fun hab => Nat.ne_of_lt hab)
  obtain ⟨φ, hφ⟩ : ∃ φ : Nat → Nat, φ = fun k => K.getD (k - 1) 0 := ⟨_, rfl⟩
  obtain ⟨T, hT⟩ : ∃ T : DTree, T = ⟨leaves.map (fun c => K.idxOf c + 1), K.length,
    fun i j => adj (K.getD i 0 - 1) (K.getD j 0 - 1)⟩ := ⟨_, rfl⟩
  obtain ⟨z, hz⟩ : ∃ z : TBT R, z = ⟨T, fun k => ts (φ k)⟩ := ⟨_, rfl⟩
  have hzT : z.tree = T := by rw [hz]
  have hn : T.n = K.length := by rw [hT]
  have hzt : ∀ i, z.tensors i = y.tensors (φ i) := by intro i; rw [hz, hy]
  have hφK : ∀ i, IsNode T i → φ i ∈ K := by
    intro i hi
    unfold IsNode at hi
    rw [hφ]
    simp only
    rw [List.getD_eq_getElem _ _ (by omega)]
    exact List.getElem_mem _
  have hmono : ∀ i j, IsNode T i → IsNode T j → (φ i < φ j ↔ i < j) := by
    intro i j hi hj
    unfold IsNode at hi hj
    rw [hφ]
    simp only
    rw [List.getD_eq_getElem _ _ (by omega), List.getD_eq_getElem _ _ (by omega)]
    have hp := List.pairwise_iff_getElem.1 h.sorted
    constructor
    · intro hlt
      by_contra hc
      rcases Nat.lt_or_ge j i with h1 | h1
      · have := hp (j - 1) (i - 1) (by omega) (by omega) (by omega); omega
      · have : i = j := by omega
        subst this; omega
    · intro hlt
      exact hp (i - 1) (j - 1) (by omega) (by omega) (by omega)
  have hinj : ∀ i j, IsNode T i → IsNode T j → φ i = φ j → i = j := by
    intro i j hi hj e
    have h1 := hmono i j hi hj
    have h2 := hmono j i hj hi
    omega
  have hsurj : ∀ j ∈ K, IsNode T (K.idxOf j + 1) ∧ φ (K.idxOf j + 1) = j := by
    intro j hj
    have hlt := List.idxOf_lt_length_of_mem hj
    refine ⟨by unfold IsNode; omega, ?_⟩
    rw [hφ]
    simp only [Nat.add_sub_cancel]
    rw [List.getD_eq_getElem _ _ hlt, List.getElem_idxOf hlt]
  have hadj : ∀ i j, IsNode T i → IsNode T j → T.adj (i - 1) (j - 1) = y.tree.adj (φ i - 1) (φ j - 1) := by
    intro i j _ _
    rw [hT, hyT, hφ]
  have hedge : ∀ i j, IsNode T i → IsNode T j → (Edge T i j ↔ Edge y.tree (φ i) (φ j)) := by
    intro i j hi hj
    unfold Edge
    rw [hadj i j hi hj]
    have h1 := h.isNode _ (hφK i hi)
    have h2 := h.isNode _ (hφK j hj)
    simp only [hi, hj, h1, h2, true_and]
  have hleaf : ∀ i, IsNode T i → (i ∈ T.dim2ind ↔ φ i ∈ y.tree.dim2ind) := by
    intro i hi
    rw [hyT, hT]
    simp only
    rw [List.mem_map]
    constructor
    · rintro ⟨c, hc, rfl⟩
      have hcK : c ∈ K := ((h.leaves c).1 (by rw [hyT]; exact hc)).1
      rw [(hsurj c hcK).2]; exact hc
    · intro hc
      refine ⟨φ i, hc, ?_⟩
      have h1 := hsurj _ (hφK i hi)
      exact hinj _ _ h1.1 hi h1.2
  have hlK : ∀ c ∈ leaves, c ∈ K := fun c hc => ((h.leaves c).1 (by rw [hyT]; exact hc)).1
  have hdl : T.dim2ind.map φ = leaves := by
    rw [hT]
    simp only
    rw [List.map_map]
    conv_rhs => rw [← List.map_id leaves]
    apply List.map_congr_left
    intro c hc
    exact (hsurj c (hlK c hc)).2
  have hTnode : ∀ c ∈ T.dim2ind, IsNode T c := by
    intro c hc
    rw [hT] at hc
    simp only at hc
    obtain ⟨d, hd, rfl⟩ := List.mem_map.1 hc
    exact (hsurj d (hlK d hd)).1
  have hdim : ∀ c ∈ T.dim2ind, dimOf T c = dimOf y.tree (φ c) := by
    intro c hc
    have hcn := hTnode c hc
    have hl : φ c ∈ leaves := by
      have := (hleaf c hcn).1 hc; rwa [hyT] at this
    unfold dimOf
    rw [hyT]
    show T.dim2ind.idxOf c = leaves.idxOf (φ c)
    have hlt := List.idxOf_lt_length_of_mem hc
    have hlt2 := List.idxOf_lt_length_of_mem hl
    have hlen : T.dim2ind.length = leaves.length := by rw [← hdl, List.length_map]
    have e1 : T.dim2ind[T.dim2ind.idxOf c] = c := List.getElem_idxOf hlt
    have e2 : leaves[T.dim2ind.idxOf c]'(by omega) = φ c := by
      have : leaves[T.dim2ind.idxOf c]? = (T.dim2ind.map φ)[T.dim2ind.idxOf c]? := by rw [hdl]
      rw [List.getElem?_eq_getElem (by omega), List.getElem?_eq_getElem (by rw [List.length_map]; omega), List.getElem_map, e1] at this
      exact Option.some.inj this
    have hnd' : leaves.Nodup := by have := h.nodup; rwa [hyT] at this
    have e3 : leaves[leaves.idxOf (φ c)] = φ c := List.getElem_idxOf hlt2
    exact (hnd'.getElem_inj_iff).1 (e2.trans e3.symm)
  have hkids : ∀ i, IsNode T i → (T.children i).map φ = kids y.tree K (φ i) := by
    intro i hi
    have := map_filter_range K (fun j => y.tree.adj (φ i - 1) (j - 1))
    unfold kids
    rw [← this]
    unfold DTree.children
    rw [List.map_map, hn]
    have e : (List.range K.length).filter (T.adj (i - 1)) =
        (List.range K.length).filter (fun j => y.tree.adj (φ i - 1) (K.getD j 0 - 1)) := by
      apply List.filter_congr
      intro j hj
      rw [hT, hyT, hφ]
    rw [e]
    apply List.map_congr_left
    intro j hj
    rw [hφ]
    simp
  have hrt := hsurj r h.root
  have hTroot : ∀ i, IsNode T i → (i = K.idxOf r + 1 ↔ φ i = r) := by
    intro i hi
    constructor
    · rintro rfl; exact hrt.2
    · intro e; exact hinj _ _ hi hrt.1 (e.trans hrt.2.symm)
  have hmem : ∀ i, i ∈ z.tree.nodes ↔ IsNode T i := by intro i; rw [hzT]; exact mem_nodes i
  have hP : Part z z.tree.nodes (K.idxOf r + 1) (fun i => act (φ i)) (fun i => ρ (φ i)) (fun i => ν (φ i)) E := by
    refine ⟨?_, ?_, ?_, ?_, ?_, ?_, ?_, ?_, ?_, ?_, h.rootPos, h.rootLen, ?_, ?_, ?_, ?_, ?_⟩
    · unfold DTree.nodes
      rw [List.pairwise_map]
      exact List.pairwise_lt_range.imp (by omega)
    · intro i hi; rw [hzT]; exact (hmem i).1 hi
    · exact (hmem _).2 hrt.1
    · intro i hi he
      rw [hzT, hedge i _ ((hmem i).1 hi) hrt.1, hrt.2] at he
      exact h.top _ (hφK i ((hmem i).1 hi)) he
    · intro i hi i' hi' j hj h1 h2
      rw [hmem] at hi hi' hj
      rw [hzT, hedge _ _ hi hj] at h1
      rw [hzT, hedge _ _ hi' hj] at h2
      exact hinj _ _ hi hi' (h.parent _ (hφK i hi) _ (hφK i' hi') _ (hφK j hj) h1 h2)
    · intro j hj
      rw [hmem] at hj
      have : ∀ b, Relation.ReflTransGen (fun a b => a ∈ K ∧ b ∈ K ∧ Edge y.tree a b) r b → ∀ j, IsNode T j → φ j = b →
          Relation.ReflTransGen (fun a b => a ∈ z.tree.nodes ∧ b ∈ z.tree.nodes ∧ Edge z.tree a b) (K.idxOf r + 1) j := by
        intro b hb
        induction hb with
        | refl =>
          intro j hj e
          rw [(hTroot j hj).2 e]
        | tail h1 h2 ih =>
          rename_i a b
          intro j hj e
          obtain ⟨ha1, ha2⟩ := hsurj a h2.1
          refine .tail (ih _ ha1 ha2) ⟨(hmem _).2 ha1, (hmem _).2 hj, ?_⟩
          rw [hzT, hedge _ _ ha1 hj, ha2, e]
          exact h2.2.2
      exact this _ (h.reach _ (hφK j hj)) j hj rfl
    · rw [hzT]
      refine List.Nodup.of_map φ ?_
      rw [hdl]; have := h.nodup; rwa [hyT] at this
    · intro c
      rw [hmem, hzT]
      constructor
      · intro hc
        have hcn := hTnode c hc
        refine ⟨hcn, fun j hj he => ?_⟩
        rw [mem_nodes] at hj
        rw [hedge _ _ hcn hj] at he
        exact ((h.leaves _).1 ((hleaf c hcn).1 hc)).2 _ (hφK j hj) he
      · rintro ⟨hc, hj⟩
        rw [hleaf c hc, h.leaves]
        refine ⟨hφK c hc, fun j hjK he => ?_⟩
        obtain ⟨h1, h2⟩ := hsurj j hjK
        refine hj _ ((mem_nodes _).2 h1) ?_
        rw [hedge _ _ hc h1, h2]
        exact he
    · intro i hi hir ha
      rw [hmem] at hi
      exact h.rho _ (hφK i hi) (fun e => hir ((hTroot i hi).2 e)) ha
    · intro c hc
      rw [hzT] at hc
      exact h.nu _ ((hleaf c (hTnode c hc)).1 hc)
    · show act (φ (K.idxOf r + 1)) = true
      rw [hrt.2]; exact h.rootAct
    · intro c hc ha
      rw [hzT] at hc
      have hcn := hTnode c hc
      rw [hzt, h.leaf _ ((hleaf c hcn).1 hc) ha]
      congr 1
      by_cases e : φ c = r
      · rw [if_pos e, if_pos ((hTroot c hcn).2 e)]
      · rw [if_neg e, if_neg (fun e' => e ((hTroot c hcn).1 e'))]
    · intro c hc ha
      rw [hzT] at hc
      rw [hzt]
      exact h.off _ ((hleaf c (hTnode c hc)).1 hc) ha
    · intro i hi hl
      rw [hmem] at hi
      rw [hzT] at hl
      exact h.internal _ (hφK i hi) (fun hl' => hl ((hleaf i hi).2 hl'))
    · intro i hi hl
      rw [hmem] at hi
      rw [hzT] at hl
      rw [hzt, h.node _ (hφK i hi) (fun hl' => hl ((hleaf i hi).2 hl')), kids_nodes, hzT, ← hkids i hi, List.map_map]
      congr 1
      by_cases e : φ i = r
      · rw [if_pos e, if_pos ((hTroot i hi).2 e)]
      · rw [if_neg e, if_neg (fun e' => e ((hTroot i hi).1 e'))]
  refine ⟨z, φ, K.idxOf r + 1, ?_, hP, hrt.2, ?_, by rw [hzT, hn], by rw [hzT]; exact hdl, ?_, ?_, ?_, ?_, ?_⟩
  · obtain ⟨D, hD, _⟩ := dims_ok hP.valid
    rw [hzT] at hD
    have hD' : (⟨leaves.map (fun c => K.idxOf c + 1), K.length,
      fun i j => adj (K.getD i 0 - 1) (K.getD j 0 - 1)⟩ : DTree).dims = .ok D := by rw [← hT]; exact hD
    unfold restrict
    simp only [← hK, mapM_newNumber leaves hlK, bind, Except.bind, hD']
    rw [← hT]
    unfold mk
    have e : (fun k => ts (K.getD (k - 1) 0)) = fun k => ts (φ k) := by rw [hφ]
    rw [e, ← hz, if_pos]
    rw [List.all_eq_true]
    intro i hi
    unfold internalNodes at hi
    rw [List.mem_filter] at hi
    have hin : i ∈ z.tree.nodes := by rw [hzT]; exact hi.1
    rw [hP.active hin]
    refine hP.internal i hin ?_
    rw [hzT]
    simpa using hi.2
  · intro s V hv
    rw [← hy] at hv
    have hif : ∀ i, IsNode T i → ∀ e, InBox (if i = K.idxOf r + 1 then E else [ρ (φ i)]) e → InBox (if φ i = r then E else [ρ (φ i)]) e := by
      intro i hi e he
      by_cases e' : φ i = r
      · rw [if_pos e']; rwa [if_pos ((hTroot i hi).2 e')] at he
      · rw [if_neg e']; rwa [if_neg (fun h => e' ((hTroot i hi).1 h))] at he
    refine ⟨?_, ?_⟩
    · intro c hc ha idx e hidx he
      rw [hzT] at hc
      rw [hv.leaf _ ((hleaf c (hTnode c hc)).1 hc) ha idx e hidx (hif c (hTnode c hc) e he), hzt, hzT, hdim c hc]
    · intro i hi hl idx e hidx he
      rw [hmem] at hi
      rw [hzT] at hl
      show V (φ i) idx e = _
      rw [hv.node _ (hφK i hi) (fun hl' => hl ((hleaf i hi).2 hl')) idx e hidx (hif i hi e he), kids_nodes, hzT, ← hkids i hi,
        psum_map, hzt]
      refine psum_congr _ _ (fun _ _ => rfl) (fun _ _ _ => ⟨rfl, fun _ _ => rfl⟩) ?_
      intro c hc ha
      have hcn := ((mem_children i c hi).1 hc).2.1
      rw [hdim c ?_]
      rw [hleaf c hcn]
      by_contra hl'
      exact ha (h.internal _ (hφK c hcn) hl')
  · intro i hi
    rw [hzT] at hi
    exact ⟨hφK i hi, by rw [hz]⟩
  · intro i hi
    rw [hzT] at hi ⊢
    rw [hkids i hi, hyT]
  · intro j hj
    rw [hzT]
    exact ⟨_, hsurj j hj⟩
  · intro i j hi hj
    rw [hzT] at hi hj
    exact hmono i j hi hj
  · intro i j hi hj
    rw [hzT] at hi hj ⊢
    rw [← hyT]
    constructor
    · intro hij
      induction hij with
      | refl => exact .refl
      | tail h1 h2 ih =>
        refine .tail (ih h2.1) ⟨hφK _ h2.1, hφK _ h2.2.1, (hedge _ _ h2.1 h2.2.1).1 h2⟩
    · have : ∀ b, RK y.tree K (φ i) b → ∀ j, IsNode T j → φ j = b → AncSelf T i j := by
        intro b hb
        induction hb with
        | refl =>
          intro j hj e
          rw [hinj j i hj hi e]
          exact .refl
        | tail h1 h2 ih =>
          rename_i a b
          intro j hj e
          obtain ⟨ha1, ha2⟩ := hsurj a h2.1
          refine .tail (ih _ ha1 ha2) ?_
          rw [hedge _ _ ha1 hj, ha2, e]
          exact h2.2.2
      exact fun hij => this _ hij j hj rfl

end Verif.TreeBased
