import Verif.Model.TreeSurgery
import Verif.Props.DimensionTree
import Verif.Props.DimensionTreeEq
import Verif.Props.DimensionTreeCtor
import Verif.Props.TreePermute

/-!
# Modifications of a dimension tree: C66–C69
-/

namespace Verif.DimTree
open DTree

variable {T : DTree}

/-! ## `add_child` -/

theorem edge_extend (A : Nat → Nat → Bool) (d2i d2i' : List Nat) (n nod : Nat) (hnod : 1 ≤ nod ∧ nod ≤ n) (i j : Nat) :
    Edge { dim2ind := d2i', n := n + 1, adj := extendAdj A n nod } i j ↔
      Edge { dim2ind := d2i, n := n, adj := A } i j ∨ i = nod ∧ j = n + 1 := by
  unfold Edge IsNode extendAdj
  simp only
  constructor
  · rintro ⟨h1, h2, h3⟩
    by_cases h : i - 1 < n ∧ j - 1 < n
    · rw [if_pos h] at h3
      left
      exact ⟨by omega, by omega, h3⟩
    · rw [if_neg h] at h3
      right
      simp at h3
      omega
  · rintro (⟨h1, h2, h3⟩ | ⟨rfl, rfl⟩)
    · refine ⟨by omega, by omega, ?_⟩
      rw [if_pos (by omega)]
      exact h3
    · refine ⟨by omega, by omega, ?_⟩
      rw [if_neg (by omega)]
      simp

/-- The graph part of validity. -/
structure Rooted (T : DTree) (r : Nat) : Prop where
  unique_parent : ∀ i i' j, Edge T i j → Edge T i' j → i = i'
  root : IsRoot T r
  reach : ∀ j, IsNode T j → AncSelf T r j

theorem Valid.toRooted (hV : Valid T) {r : Nat} (hr : T.root = .ok r) : Rooted T r := by
  obtain ⟨r', h1, h2⟩ := root_ok hV
  rw [hr] at h1
  cases h1
  obtain ⟨s, hs, hall⟩ := hV.rooted
  rw [← root_unique hV h2 hs] at hall
  exact ⟨hV.unique_parent, h2, hall⟩

theorem Rooted.extend {r : Nat} {T T' : DTree} (h : Rooted T r) {nod : Nat} (hnod : IsNode T nod) (hn : T'.n = T.n + 1)
    (he : ∀ i j, Edge T' i j ↔ Edge T i j ∨ i = nod ∧ j = T.n + 1) : Rooted T' r := by
  have hmono : ∀ x, AncSelf T r x → AncSelf T' r x := by
    intro x hx
    exact Relation.ReflTransGen.mono (fun a b hab => (he a b).2 (.inl hab)) _ _ hx
  refine ⟨?_, ⟨?_, ?_⟩, ?_⟩
  · intro i i' j h1 h2
    rw [he] at h1 h2
    rcases h1 with h1 | ⟨rfl, rfl⟩ <;> rcases h2 with h2 | ⟨rfl, h2⟩
    · exact h.unique_parent _ _ _ h1 h2
    · have := h1.2.1; unfold IsNode at this; omega
    · have := h2.2.1; unfold IsNode at this; omega
    · rfl
  · have := h.root.1; unfold IsNode at this ⊢; omega
  · intro i h1
    rw [he] at h1
    rcases h1 with h1 | ⟨_, h1⟩
    · exact h.root.2 i h1
    · have := h.root.1; unfold IsNode at this; omega
  · intro j hj
    by_cases hjn : j = T.n + 1
    · subst hjn
      exact .tail (hmono _ (h.reach nod hnod)) ((he _ _).2 (.inr ⟨rfl, rfl⟩))
    · exact hmono _ (h.reach j (by unfold IsNode at hj ⊢; omega))

theorem Rooted.valid {r : Nat} {T : DTree} (h : Rooted T r) (hnd : T.dim2ind.Nodup)
    (hl : ∀ x, x ∈ T.dim2ind ↔ IsNode T x ∧ ∀ j, ¬ Edge T x j) : Valid T :=
  ⟨h.unique_parent, ⟨r, h.root, h.reach⟩, hnd, hl⟩

theorem Rooted.root_eq {r : Nat} {T : DTree} (h : Rooted T r) (hV : Valid T) : T.root = .ok r := by
  obtain ⟨r', h1, h2⟩ := root_ok hV
  rw [h1, root_unique hV h2 h.root]

/-- C66. `add_child(nod)` on any node: the new tree has one more node, numbered `n + 1`, a son of `nod`; all
other edges and the root are unchanged; if `nod` was a leaf, the new node takes its dimension, otherwise
the new node gets a new last dimension; the result is a valid tree. -/
theorem addChild_spec (hV : Valid T) (nod : Nat) (hnod : IsNode T nod) :
    ∃ T', T.addChild nod = .ok T' ∧ Valid T' ∧ T'.n = T.n + 1 ∧ T'.root = T.root ∧
      (∀ i j, Edge T' i j ↔ Edge T i j ∨ i = nod ∧ j = T.n + 1) ∧
      ((∀ j, ¬ Edge T nod j) → T'.dim2ind.length = T.dim2ind.length ∧ ∀ d : Nat, ∀ x, T.dim2ind[d]? = some x →
        T'.dim2ind[d]? = some (if x = nod then T.n + 1 else x)) ∧
      ((∃ j, Edge T nod j) → T'.dim2ind = T.dim2ind ++ [T.n + 1]) := by
  obtain ⟨r, hr, hroot⟩ := root_ok hV
  have hR := hV.toRooted hr
  obtain ⟨T', hT'⟩ : ∃ T' : DTree, T' =
    { dim2ind := if T.isLeaf nod then T.dim2ind.map (fun x => if x = nod then T.n + 1 else x)
        else T.dim2ind ++ [T.n + 1]
      n := T.n + 1
      adj := extendAdj T.adj T.n nod } := ⟨_, rfl⟩
  have hn : T'.n = T.n + 1 := by rw [hT']
  have he : ∀ i j, Edge T' i j ↔ Edge T i j ∨ i = nod ∧ j = T.n + 1 := by
    intro i j
    rw [hT']
    exact edge_extend T.adj T.dim2ind _ T.n nod hnod i j
  have hR' := hR.extend hnod hn he
  have hlt : ∀ x ∈ T.dim2ind, x ≤ T.n := fun x hx => ((hV.leaves x).1 hx).1.2
  have hV' : Valid T' := by
    refine hR'.valid ?_ ?_
    · rw [hT']
      simp only
      by_cases hl : T.isLeaf nod = true
      · rw [if_pos hl]
        refine (List.nodup_map_iff_inj_on hV.nodup).2 ?_
        intro x hx y hy hxy
        have h1 := hlt x hx
        have h2 := hlt y hy
        by_cases e1 : x = nod <;> by_cases e2 : y = nod
        · rw [e1, e2]
        · rw [if_pos e1, if_neg e2] at hxy; omega
        · rw [if_neg e1, if_pos e2] at hxy; omega
        · rw [if_neg e1, if_neg e2] at hxy; exact hxy
      · rw [if_neg hl, List.nodup_append]
        refine ⟨hV.nodup, by simp, ?_⟩
        intro a ha b hb hab
        have := hlt a ha
        simp at hb
        omega
    · intro x
      have hnode : IsNode T' x ↔ IsNode T x ∨ x = T.n + 1 := by unfold IsNode; rw [hn]; omega
      by_cases hl : T.isLeaf nod = true
      · have hlm : nod ∈ T.dim2ind := by unfold isLeaf at hl; simpa using hl
        have hd : T'.dim2ind = T.dim2ind.map (fun x => if x = nod then T.n + 1 else x) := by
          rw [hT']; simp only; rw [if_pos hl]
        rw [hd, List.mem_map, hnode]
        constructor
        · rintro ⟨y, hy, rfl⟩
          by_cases hyn : y = nod
          · rw [if_pos hyn]
            refine ⟨.inr rfl, fun j hj => ?_⟩
            rw [he] at hj
            rcases hj with hj | ⟨hj, _⟩
            · have := hj.1; unfold IsNode at this; omega
            · unfold IsNode at hnod; omega
          · rw [if_neg hyn]
            refine ⟨.inl ((hV.leaves y).1 hy).1, fun j hj => ?_⟩
            rw [he] at hj
            rcases hj with hj | ⟨hj, _⟩
            · exact ((hV.leaves y).1 hy).2 j hj
            · exact hyn hj
        · rintro ⟨hx | hx, hj⟩
          · have hxn : x ≠ nod := by
              rintro rfl
              exact hj (T.n + 1) ((he _ _).2 (.inr ⟨rfl, rfl⟩))
            refine ⟨x, (hV.leaves x).2 ⟨hx, fun j h => hj j ((he _ _).2 (.inl h))⟩, by rw [if_neg hxn]⟩
          · exact ⟨nod, hlm, by rw [if_pos rfl, hx]⟩
      · have hd : T'.dim2ind = T.dim2ind ++ [T.n + 1] := by rw [hT']; simp only; rw [if_neg hl]
        have hnl : nod ∉ T.dim2ind := by unfold isLeaf at hl; simpa using hl
        rw [hd, List.mem_append, List.mem_singleton, hnode]
        constructor
        · rintro (hx | rfl)
          · refine ⟨.inl ((hV.leaves x).1 hx).1, fun j hj => ?_⟩
            rw [he] at hj
            rcases hj with hj | ⟨hj, _⟩
            · exact ((hV.leaves x).1 hx).2 j hj
            · exact hnl (hj ▸ hx)
          · refine ⟨.inr rfl, fun j hj => ?_⟩
            rw [he] at hj
            rcases hj with hj | ⟨hj, _⟩
            · have := hj.1; unfold IsNode at this; omega
            · unfold IsNode at hnod; omega
        · rintro ⟨hx | hx, hj⟩
          · exact .inl ((hV.leaves x).2 ⟨hx, fun j h => hj j ((he _ _).2 (.inl h))⟩)
          · exact .inr hx
  obtain ⟨D, hD, _⟩ := dims_ok hV'
  refine ⟨T', ?_, hV', hn, ?_, he, ?_, ?_⟩
  · unfold addChild
    rw [hT'] at hD
    simp only [hD, bind, Except.bind]
    rw [hT']
  · rw [hR'.root_eq hV', hr]
  · intro hno
    have hl : T.isLeaf nod = true := (isLeaf_iff hV hnod).2 hno
    have hd : T'.dim2ind = T.dim2ind.map (fun x => if x = nod then T.n + 1 else x) := by
      rw [hT']; simp only; rw [if_pos hl]
    refine ⟨by rw [hd, List.length_map], ?_⟩
    intro d x hx
    rw [hd, List.getElem?_map, hx]
    rfl
  · rintro ⟨j, hj⟩
    have hl : ¬ T.isLeaf nod = true := fun h => (isLeaf_iff hV hnod).1 h j hj
    rw [hT']; simp only; rw [if_neg hl]

/-- A concrete case: a son for the leaf 4 and a son for the root of a tree with 5 nodes. -/
example : (∃ T', TreeBased.exTree.addChild 4 = .ok T' ∧ Valid T' ∧ T'.dim2ind = [3, 6, 5]) ∧
    ∃ T', TreeBased.exTree.addChild 1 = .ok T' ∧ Valid T' ∧ T'.dim2ind = [3, 4, 5, 6] := by
  constructor
  · obtain ⟨T', h1, h2, _, _, _, _, _⟩ := addChild_spec TreeBased.exTree_valid 4 (by unfold IsNode; decide)
    refine ⟨T', h1, h2, ?_⟩
    unfold addChild at h1
    simp only [bind, Except.bind] at h1
    split at h1
    · cases h1
    · cases h1; rfl
  · obtain ⟨T', h1, h2, _, _, _, _, h7⟩ := addChild_spec TreeBased.exTree_valid 1 (by unfold IsNode; decide)
    exact ⟨T', h1, h2, h7 ⟨2, by unfold Edge IsNode; decide⟩⟩

/-! ## `change_root` -/

/-- `c` is immediately followed by `p` in `l`. -/
def Consec (l : List Nat) (c p : Nat) : Prop := ∃ i : Nat, l[i]? = some c ∧ l[i + 1]? = some p

theorem consec_cons (a b : Nat) (l : List Nat) (c p : Nat) :
    Consec (a :: b :: l) c p ↔ (c = a ∧ p = b) ∨ Consec (b :: l) c p := by
  constructor
  · rintro ⟨i, h1, h2⟩
    cases i with
    | zero => simp at h1 h2; exact .inl ⟨h1.symm, h2.symm⟩
    | succ i => exact .inr ⟨i, by simpa using h1, by simpa using h2⟩
  · rintro (⟨rfl, rfl⟩ | ⟨i, h1, h2⟩)
    · exact ⟨0, rfl, rfl⟩
    · exact ⟨i + 1, by simpa using h1, by simpa using h2⟩

theorem reverseEdges_spec : ∀ (l : List Nat) (A : Nat → Nat → Bool), l.Nodup → (∀ x ∈ l, 1 ≤ x) → ∀ x y, 1 ≤ x → 1 ≤ y →
    (reverseEdges A l (x - 1) (y - 1) = true ↔ Consec l x y ∨ (A (x - 1) (y - 1) = true ∧ ¬ Consec l y x)) := by
  intro l
  induction l with
  | nil =>
    intro A _ _ x y _ _
    simp [reverseEdges, Consec]
  | cons a l ih =>
    intro A hnd h1 x y hx hy
    cases l with
    | nil => simp [reverseEdges, Consec]
    | cons b l =>
      rw [List.nodup_cons] at hnd
      rw [reverseEdges, ih _ hnd.2 (fun z hz => h1 z (by simp [hz])) x y hx hy, consec_cons, consec_cons]
      have ha1 := h1 a (by simp)
      have hb1 := h1 b (by simp)
      have hab : a ≠ b := fun h => hnd.1 (by simp [h])
      have hca : ∀ z, ¬ Consec (b :: l) z a ∧ ¬ Consec (b :: l) a z := by
        intro z
        constructor
        · rintro ⟨i, _, h⟩; exact hnd.1 (List.mem_of_getElem? h)
        · rintro ⟨i, h, _⟩; exact hnd.1 (List.mem_of_getElem? h)
      have e1 : (x - 1 = a - 1) ↔ x = a := by omega
      have e2 : (y - 1 = b - 1) ↔ y = b := by omega
      have e3 : (x - 1 = b - 1) ↔ x = b := by omega
      have e4 : (y - 1 = a - 1) ↔ y = a := by omega
      unfold setAdj
      simp only [e1, e2, e3, e4]
      by_cases hxb : x = b ∧ y = a
      · obtain ⟨rfl, rfl⟩ := hxb
        simp [(hca _).1, hab.symm]
      · rw [if_neg hxb]
        by_cases hxa : x = a ∧ y = b
        · obtain ⟨rfl, rfl⟩ := hxa
          simp [(hca _).1]
        · rw [if_neg hxa]
          have : ¬ (y = a ∧ x = b) := fun h => hxb ⟨h.2, h.1⟩
          simp only [hxa, this, false_or]

/-- Orientation of the edges after the root has been moved to `nod`. -/
theorem Rooted.reroot {T T' : DTree} (hV : Valid T) {nod : Nat} (hnod : IsNode T nod) (hn : T'.n = T.n)
    (he : ∀ x y, Edge T' x y ↔ (Edge T x y ∧ ¬ AncSelf T y nod) ∨ (Edge T y x ∧ AncSelf T x nod)) : Rooted T' nod := by
  have hnode : ∀ i, IsNode T' i ↔ IsNode T i := by intro i; unfold IsNode; rw [hn]
  refine ⟨?_, ⟨(hnode _).2 hnod, ?_⟩, ?_⟩
  · intro i i' j h h'
    rw [he] at h h'
    rcases h with ⟨h1, h2⟩ | ⟨h1, h2⟩ <;> rcases h' with ⟨h3, h4⟩ | ⟨h3, h4⟩
    · exact hV.unique_parent _ _ _ h1 h3
    · exact absurd (Relation.ReflTransGen.head h3 h4) h2
    · exact absurd (Relation.ReflTransGen.head h1 h2) h4
    · obtain ⟨k, hk⟩ := exists_level hV h1.1
      exact disjoint_of_level hV (.child hk h1) (.child hk h3) h2 h4
  · intro i h
    rw [he] at h
    rcases h with ⟨_, h⟩ | ⟨h1, h2⟩
    · exact h .refl
    · exact Anc.irrefl hV nod (Relation.TransGen.head'_iff.2 ⟨i, h1, h2⟩)
  · have hpath : ∀ y, AncSelf T y nod → AncSelf T' nod y := by
      intro y h
      induction h using Relation.ReflTransGen.head_induction_on with
      | refl => exact .refl
      | head h1 h2 ih => exact .tail ih ((he _ _).2 (.inr ⟨h1, h2⟩))
    obtain ⟨r, hr, hall⟩ := hV.rooted
    have : ∀ j, AncSelf T r j → AncSelf T' nod j := by
      intro j h
      induction h with
      | refl => exact hpath r (hall nod hnod)
      | tail h1 h2 ih =>
        rename_i y z
        by_cases hz : AncSelf T z nod
        · exact hpath z hz
        · exact .tail ih ((he _ _).2 (.inl ⟨h2, hz⟩))
    intro j hj
    exact this j (hall j ((hnode j).1 hj))

/-- C67. `change_root(nod)` on any node of a tree whose root has at least two sons: it succeeds, the new tree
is valid, its root is `nod`, and the nodes of the original tree are joined by the same (undirected) edges,
only those on the path from `nod` to the former root being reversed. If `nod` was a leaf, a new node
`n + 1`, its only other son, takes its dimension; otherwise the leaves are unchanged. The list of modified
nodes contains exactly the nodes of the path and their sons. For the root itself nothing changes. -/
theorem changeRoot_spec (hV : Valid T) (nod : Nat) (hnod : IsNode T nod)
    (h2 : ∀ r, IsRoot T r → ∃ c c', c ≠ c' ∧ Edge T r c ∧ Edge T r c') :
    ∃ T' M, T.changeRoot nod = .ok (T', M) ∧ Valid T' ∧ T'.root = .ok nod ∧
      (∀ x y, IsNode T x → IsNode T y → (Edge T' x y ↔
        (Edge T x y ∧ ¬ AncSelf T y nod) ∨ (Edge T y x ∧ AncSelf T x nod))) ∧
      ((IsRoot T nod → T' = T ∧ M = [])) ∧
      (¬ IsRoot T nod → ∀ x, x ∈ M ↔ ∃ a, AncSelf T a nod ∧ (x = a ∨ Edge T a x)) ∧
      ((∃ j, Edge T nod j) → T'.n = T.n ∧ T'.dim2ind = T.dim2ind) ∧
      ((∀ j, ¬ Edge T nod j) → T'.n = T.n + 1 ∧ (∀ x, Edge T' x (T.n + 1) ↔ x = nod) ∧ (∀ x, ¬ Edge T' (T.n + 1) x) ∧
        T'.dim2ind = T.dim2ind.map (fun x => if x = nod then T.n + 1 else x)) := by
  obtain ⟨r, hr, hroot⟩ := root_ok hV
  have hR := hV.toRooted hr
  by_cases hnr : nod = r
  · subst hnr
    obtain ⟨c, _, _, hc, _⟩ := h2 nod hroot
    refine ⟨T, [], ?_, hV, hr, ?_, fun _ => ⟨rfl, rfl⟩, fun h => absurd hroot h, fun _ => ⟨rfl, rfl⟩, fun h => absurd hc (h c)⟩
    · unfold changeRoot
      simp [hr, bind, Except.bind]
    · intro x y hx hy
      have hy' : AncSelf T y nod → y = nod := by
        intro h
        rcases Relation.reflTransGen_iff_eq_or_transGen.1 h with h | h
        · exact h.symm
        · obtain ⟨p, _, hp⟩ := Relation.TransGen.tail'_iff.1 h
          exact absurd hp (hroot.2 p)
      have hx' : AncSelf T x nod → x = nod := by
        intro h
        rcases Relation.reflTransGen_iff_eq_or_transGen.1 h with h | h
        · exact h.symm
        · obtain ⟨p, _, hp⟩ := Relation.TransGen.tail'_iff.1 h
          exact absurd hp (hroot.2 p)
      constructor
      · intro h
        refine .inl ⟨h, fun hc => ?_⟩
        rw [hy' hc] at h
        exact hroot.2 _ h
      · rintro (h | ⟨h1, h2⟩)
        · exact h.1
        · rw [hx' h2] at h1; exact absurd h1 (hroot.2 _)
  · have hnroot : ¬ IsRoot T nod := fun h => hnr (root_unique hV h hroot)
    obtain ⟨asc, hasc, hch, hand, hlast, hmem⟩ := ascendants_spec hV nod hnod
    have hmem' : ∀ x, x ∈ nod :: asc ↔ AncSelf T x nod := by
      intro x
      rw [List.mem_cons, hmem]
      constructor
      · rintro (rfl | h)
        · exact .refl
        · exact h.to_reflTransGen
      · intro h
        rcases Relation.reflTransGen_iff_eq_or_transGen.1 h with h | h
        · exact .inl h.symm
        · exact .inr h
    have hge : ∀ x ∈ nod :: asc, IsNode T x := by
      intro x hx
      rw [List.mem_cons] at hx
      rcases hx with rfl | hx
      · exact hnod
      · obtain ⟨c, hc, _⟩ := Relation.TransGen.head'_iff.1 ((hmem x).1 hx)
        exact hc.1
    have hcons : ∀ c p, Consec (nod :: asc) c p ↔ Edge T p c ∧ AncSelf T c nod := by
      intro c p
      constructor
      · rintro ⟨i, h1, h2⟩
        refine ⟨?_, (hmem' c).1 (List.mem_of_getElem? h1)⟩
        obtain ⟨i1, rfl⟩ := List.getElem?_eq_some_iff.1 h1
        obtain ⟨i2, rfl⟩ := List.getElem?_eq_some_iff.1 h2
        exact (List.isChain_iff_getElem.1 hch) i i2
      · rintro ⟨h1, h3⟩
        have hc := (hmem' c).2 h3
        obtain ⟨i, hi, hci⟩ := List.mem_iff_getElem.1 hc
        have hi' : i + 1 < (nod :: asc).length := by
          by_contra hcon
          have hl := hlast r hr
          rw [List.getLast?_eq_getElem?] at hl
          have : (nod :: asc).length - 1 = i := by omega
          rw [this, List.getElem?_eq_getElem hi, hci] at hl
          cases hl
          exact hroot.2 p h1
        refine ⟨i, by rw [List.getElem?_eq_getElem hi, hci], ?_⟩
        rw [List.getElem?_eq_getElem hi']
        have := (List.isChain_iff_getElem.1 hch) i hi'
        rw [hci] at this
        rw [hV.unique_parent _ _ _ this h1]
    obtain ⟨T0, hT0⟩ : ∃ T0 : DTree, T0 = { T with adj := reverseEdges T.adj (nod :: asc) } := ⟨_, rfl⟩
    have he0 : ∀ x y, Edge T0 x y ↔ (Edge T x y ∧ ¬ AncSelf T y nod) ∨ (Edge T y x ∧ AncSelf T x nod) := by
      intro x y
      have hnode : ∀ i, IsNode T0 i ↔ IsNode T i := by intro i; rw [hT0]; rfl
      by_cases hx : IsNode T x
      · by_cases hy : IsNode T y
        · have : Edge T0 x y ↔ reverseEdges T.adj (nod :: asc) (x - 1) (y - 1) = true := by
            rw [hT0]
            exact ⟨fun h => h.2.2, fun h => ⟨hx, hy, h⟩⟩
          rw [this, reverseEdges_spec _ _ hand (fun z hz => (hge z hz).1) x y hx.1 hy.1, hcons, hcons]
          have hxy : T.adj (x - 1) (y - 1) = true ↔ Edge T x y := ⟨fun h => ⟨hx, hy, h⟩, fun h => h.2.2⟩
          rw [hxy]
          constructor
          · rintro (h | ⟨h1, h2⟩)
            · exact .inr h
            · exact .inl ⟨h1, fun h => h2 ⟨h1, h⟩⟩
          · rintro (⟨h1, h2⟩ | h)
            · exact .inr ⟨h1, fun h => h2 h.2⟩
            · exact .inl h
        · constructor
          · intro h; exact absurd ((hnode y).1 h.2.1) hy
          · rintro (h | h)
            · exact absurd h.1.2.1 hy
            · exact absurd h.1.1 hy
      · constructor
        · intro h; exact absurd ((hnode x).1 h.1) hx
        · rintro (h | h)
          · exact absurd h.1.1 hx
          · exact absurd h.1.2.1 hx
    have hn0 : T0.n = T.n := by rw [hT0]
    have hR0 : Rooted T0 nod := Rooted.reroot hV hnod hn0 he0
    -- the sons of the nodes in the new orientation
    have hson : ∀ x, IsNode T x → x ≠ nod → ((∃ j, Edge T0 x j) ↔ ∃ j, Edge T x j) := by
      intro x hx hxn
      constructor
      · rintro ⟨j, hj⟩
        rw [he0] at hj
        rcases hj with hj | ⟨_, hj⟩
        · exact ⟨j, hj.1⟩
        · rcases Relation.reflTransGen_iff_eq_or_transGen.1 hj with h | h
          · exact absurd h.symm hxn
          · obtain ⟨c, hc, _⟩ := Relation.TransGen.head'_iff.1 h
            exact ⟨c, hc⟩
      · rintro ⟨j, hj⟩
        by_cases hxp : AncSelf T x nod
        · by_cases hxr : x = r
          · subst hxr
            obtain ⟨c, c', hcc, hc, hc'⟩ := h2 x hroot
            have : ¬ AncSelf T c nod ∨ ¬ AncSelf T c' nod := by
              by_contra hcon
              push Not at hcon
              obtain ⟨k, hk⟩ := exists_level hV hx
              exact hcc (disjoint_of_level hV (.child hk hc) (.child hk hc') hcon.1 hcon.2)
            rcases this with h | h
            · exact ⟨c, (he0 _ _).2 (.inl ⟨hc, h⟩)⟩
            · exact ⟨c', (he0 _ _).2 (.inl ⟨hc', h⟩)⟩
          · have : ¬ IsRoot T x := fun h => hxr (root_unique hV h hroot)
            have hp0 : T.parent x ≠ 0 := fun h => this ((parent_eq_zero hx).1 h)
            exact ⟨T.parent x, (he0 _ _).2 (.inr ⟨(parent_eq_iff hV hx hp0).1 rfl, hxp⟩)⟩
        · exact ⟨j, (he0 _ _).2 (.inl ⟨hj, fun h => hxp (.head hj h)⟩)⟩
    obtain ⟨D, hD, hDr⟩ := dims_ok hV
    have hmod : ∀ x, x ∈ T.modifiedNodes (nod :: asc) ↔ ∃ a, AncSelf T a nod ∧ (x = a ∨ Edge T a x) := by
      intro x
      unfold modifiedNodes
      rw [List.mem_filter, mem_nodes, List.any_eq_true]
      constructor
      · rintro ⟨hx, a, ha, h⟩
        refine ⟨a, (hmem' a).1 ha, ?_⟩
        simp only [Bool.or_eq_true, beq_iff_eq, List.contains_iff_mem] at h
        rcases h with h | h
        · exact .inl h
        · exact .inr ((mem_children _ _ (hge a ha)).1 h)
      · rintro ⟨a, ha, h⟩
        have ha' := (hmem' a).2 ha
        refine ⟨?_, a, ha', ?_⟩
        · rcases h with rfl | h
          · exact hge x ha'
          · exact h.2.1
        · simp only [Bool.or_eq_true, beq_iff_eq, List.contains_iff_mem]
          rcases h with h | h
          · exact .inl h
          · exact .inr ((mem_children _ _ (hge a ha')).2 h)
    by_cases hl : T.isLeaf nod = true
    · have hno := (isLeaf_iff hV hnod).1 hl
      have hlm : nod ∈ T.dim2ind := by unfold isLeaf at hl; simpa using hl
      obtain ⟨k, hk, hkn⟩ := List.mem_iff_getElem.1 hlm
      have hDn : D nod = [k] := by
        rw [hDr.1 nod hl]
        exact initDims_spec hV k nod (by rw [List.getElem?_eq_getElem hk, hkn])
      obtain ⟨T1, hT1⟩ : ∃ T1 : DTree, T1 =
        { dim2ind := scatter T.dim2ind (D nod) ((D nod).map (fun _ => T.n + 1)), n := T.n + 1,
          adj := extendAdj (reverseEdges T.adj (nod :: asc)) T.n nod } := ⟨_, rfl⟩
      have hd1 : T1.dim2ind = T.dim2ind.map (fun x => if x = nod then T.n + 1 else x) := by
        rw [hT1]
        simp only [hDn, List.map_cons, List.map_nil]
        show T.dim2ind.set k (T.n + 1) = _
        apply List.ext_getElem
        · simp
        intro i h1 h3
        have hi : i < T.dim2ind.length := by simpa using h1
        rw [List.getElem_set, List.getElem_map]
        by_cases hik : k = i
        · subst hik
          rw [if_pos rfl, if_pos hkn]
        · rw [if_neg hik, if_neg]
          intro h
          exact hik (hV.nodup.getElem_inj_iff.1 (hkn.trans h.symm))
      have hn1 : T1.n = T.n + 1 := by rw [hT1]
      have he1 : ∀ i j, Edge T1 i j ↔ Edge T0 i j ∨ i = nod ∧ j = T.n + 1 := by
        intro i j
        rw [hT1, hT0]
        exact edge_extend _ T.dim2ind _ T.n nod hnod i j
      have hnod0 : IsNode T0 nod := by unfold IsNode; rw [hn0]; exact hnod
      have hR1 : Rooted T1 nod := hR0.extend hnod0 (by rw [hn1, hn0]) (by rw [hn0]; exact he1)
      have hV1 : Valid T1 := by
        have hlt : ∀ x ∈ T.dim2ind, x ≤ T.n := fun x hx => ((hV.leaves x).1 hx).1.2
        refine hR1.valid ?_ ?_
        · rw [hd1]
          refine (List.nodup_map_iff_inj_on hV.nodup).2 ?_
          intro x hx y hy hxy
          have h1 := hlt x hx
          have h2 := hlt y hy
          by_cases e1 : x = nod <;> by_cases e2 : y = nod
          · rw [e1, e2]
          · rw [if_pos e1, if_neg e2] at hxy; omega
          · rw [if_neg e1, if_pos e2] at hxy; omega
          · rw [if_neg e1, if_neg e2] at hxy; exact hxy
        · intro x
          have hnode : IsNode T1 x ↔ IsNode T x ∨ x = T.n + 1 := by unfold IsNode; rw [hn1]; omega
          rw [hd1, List.mem_map, hnode]
          constructor
          · rintro ⟨y, hy, rfl⟩
            by_cases hyn : y = nod
            · rw [if_pos hyn]
              refine ⟨.inr rfl, fun j hj => ?_⟩
              rw [he1] at hj
              rcases hj with hj | ⟨hj, _⟩
              · have := hj.1; unfold IsNode at this; omega
              · unfold IsNode at hnod; omega
            · rw [if_neg hyn]
              have hy' := (hV.leaves y).1 hy
              refine ⟨.inl hy'.1, fun j hj => ?_⟩
              rw [he1] at hj
              rcases hj with hj | ⟨hj, _⟩
              · obtain ⟨j', hj'⟩ := (hson y hy'.1 hyn).1 ⟨j, hj⟩
                exact hy'.2 j' hj'
              · exact hyn hj
          · rintro ⟨hx | hx, hj⟩
            · have hxn : x ≠ nod := by
                rintro rfl
                exact hj (T.n + 1) ((he1 _ _).2 (.inr ⟨rfl, rfl⟩))
              refine ⟨x, (hV.leaves x).2 ⟨hx, fun j h => ?_⟩, by rw [if_neg hxn]⟩
              obtain ⟨j', hj'⟩ := (hson x hx hxn).2 ⟨j, h⟩
              exact hj j' ((he1 _ _).2 (.inl hj'))
            · exact ⟨nod, hlm, by rw [if_pos rfl, hx]⟩
      obtain ⟨D1, hD1, _⟩ := dims_ok hV1
      refine ⟨T1, T.modifiedNodes (nod :: asc), ?_, hV1, hR1.root_eq hV1, ?_, fun h => absurd h hnroot, fun _ => hmod,
        fun ⟨j, hj⟩ => absurd hj (hno j), fun _ => ⟨hn1, ?_, ?_, hd1⟩⟩
      · unfold changeRoot
        rw [hT1] at hD1
        simp only [hr, hnr, if_false, hasc, hD, hl, if_true, bind, Except.bind, hD1]
        rw [hT1]
      · intro x y hx hy
        rw [he1, he0]
        constructor
        · rintro (h | ⟨_, h⟩)
          · exact h
          · unfold IsNode at hy; omega
        · exact .inl
      · intro x
        rw [he1]
        constructor
        · rintro (h | ⟨h, _⟩)
          · have := h.2.1; unfold IsNode at this; omega
          · exact h
        · intro h; exact .inr ⟨h, rfl⟩
      · intro x h
        rw [he1] at h
        rcases h with h | ⟨h, _⟩
        · have := h.1; unfold IsNode at this; omega
        · unfold IsNode at hnod; omega
    · have hint : ∃ j, Edge T nod j := by
        by_contra hc
        push Not at hc
        exact hl ((isLeaf_iff hV hnod).2 hc)
      have hV0 : Valid T0 := by
        have hd0 : T0.dim2ind = T.dim2ind := by rw [hT0]
        have hnode : ∀ i, IsNode T0 i ↔ IsNode T i := by intro i; unfold IsNode; rw [hn0]
        refine hR0.valid (by rw [hd0]; exact hV.nodup) ?_
        intro x
        rw [hd0, hV.leaves x, hnode]
        refine and_congr_right (fun hx => ?_)
        by_cases hxn : x = nod
        · subst hxn
          obtain ⟨j, hj⟩ := hint
          constructor
          · intro h; exact absurd hj (h j)
          · intro h
            exact absurd ((he0 x j).2 (.inl ⟨hj, fun hc => Anc.irrefl hV x (Relation.TransGen.head'_iff.2 ⟨j, hj, hc⟩)⟩)) (h j)
        · have := hson x hx hxn
          constructor
          · intro h j hj
            obtain ⟨j', hj'⟩ := this.1 ⟨j, hj⟩
            exact h j' hj'
          · intro h j hj
            obtain ⟨j', hj'⟩ := this.2 ⟨j, hj⟩
            exact h j' hj'
      obtain ⟨D1, hD1, _⟩ := dims_ok hV0
      refine ⟨T0, T.modifiedNodes (nod :: asc), ?_, hV0, hR0.root_eq hV0, fun x y _ _ => he0 x y, fun h => absurd h hnroot,
        fun _ => hmod, fun _ => ⟨hn0, by rw [hT0]⟩, fun h => absurd hint.choose_spec (h _)⟩
      unfold changeRoot
      rw [hT0] at hD1
      simp only [hr, hnr, if_false, hasc, hD, hl, bind, Except.bind, hD1, Bool.false_eq_true]
      rw [hT0]

/-- A concrete case: the tree with edges 1-2, 1-5, 2-3, 2-4 re-rooted at the leaf 3. -/
example : ∃ T' M, TreeBased.exTree.changeRoot 3 = .ok (T', M) ∧ Valid T' ∧ T'.root = .ok 3 ∧ T'.dim2ind = [6, 4, 5] ∧
    Edge T' 2 1 := by
  have hroot : ∀ r, IsRoot TreeBased.exTree r → r = 1 := by
    intro r hr
    refine root_unique TreeBased.exTree_valid hr ?_
    rw [← parent_eq_zero (by unfold IsNode; decide)]
    decide
  obtain ⟨T', M, h1, h2, h3, h4, _, _, _, h8⟩ := changeRoot_spec TreeBased.exTree_valid 3 (by unfold IsNode; decide) (by
    intro r hr
    rw [hroot r hr]
    exact ⟨2, 5, by decide, by unfold Edge IsNode; decide, by unfold Edge IsNode; decide⟩)
  have hno : ∀ j, ¬ Edge TreeBased.exTree 3 j :=
    (isLeaf_iff TreeBased.exTree_valid (by unfold IsNode; decide)).1 (by decide)
  refine ⟨T', M, h1, h2, h3, (h8 hno).2.2.2, ?_⟩
  rw [h4 2 1 (by unfold IsNode; decide) (by unfold IsNode; decide)]
  exact .inr ⟨by unfold Edge IsNode; decide, .single (by unfold Edge IsNode; decide)⟩

/-- Witness: when the root has a single son, moving the root makes it a node without sons that carries no
dimension, and the constructor of the new tree raises `ValueError`. -/
theorem changeRoot_unary_raises : ∃ T nod, Valid T ∧ IsNode T nod ∧ T.changeRoot nod = .error .valueError := by
  refine ⟨ofParents [0, 0, 1, 1] [3, 4], 2, ofParents_valid _ _ (by decide) (by decide) (by decide) (by decide) (by decide),
    by unfold IsNode; decide, ?_⟩
  rfl

/-! ## `sub_dimension_tree` -/

theorem descendantsAux_fuel (hV : Valid T) : ∀ i, IsNode T i → ∀ k, HasLevel T i k → ∀ f f', T.n < f + k → T.n < f' + k →
    T.descendantsAux f i = T.descendantsAux f' i := by
  refine hV.induct ?_
  intro i hi ih k hk f f' hf hf'
  have hkn := hk.lt hV.unique_parent
  obtain ⟨f, rfl⟩ : ∃ g, f = g + 1 := ⟨f - 1, by omega⟩
  obtain ⟨f', rfl⟩ : ∃ g, f' = g + 1 := ⟨f' - 1, by omega⟩
  rw [descendantsAux, descendantsAux]
  have : ∀ ch : List Nat, (∀ c ∈ ch, Edge T i c) →
      ch.mapM (fun c => do
        let d ← T.descendantsAux f c
        (.ok (c :: d) : Py (List Nat))) = ch.mapM (fun c => do
        let d ← T.descendantsAux f' c
        (.ok (c :: d) : Py (List Nat))) := by
    intro ch
    induction ch with
    | nil => intro _; rfl
    | cons c ch ihc =>
      intro h
      rw [List.mapM_cons, List.mapM_cons, ihc (fun c hc => h c (by simp [hc])),
        ih c (h c (by simp)) (k + 1) (.child hk (h c (by simp))) f f' (by omega) (by omega)]
  rw [this _ (fun c hc => (mem_children i c hi).1 hc)]

/-- `descendants` lists the subtrees of the sons one after the other, each son before its descendants. -/
theorem preorder (hV : Valid T) : ∃ P : Nat → List Nat, ∀ i, IsNode T i → T.descendants i = .ok (P i) ∧
    P i = (T.children i).flatMap (fun c => c :: P c) ∧ (P i).Nodup ∧ ∀ x, x ∈ P i ↔ Anc T i x := by
  have hex : ∀ i, ∃ l, IsNode T i → T.descendants i = .ok l ∧ l.Nodup ∧ ∀ x, x ∈ l ↔ Anc T i x := by
    intro i
    by_cases h : IsNode T i
    · obtain ⟨l, hl⟩ := descendants_spec hV i h
      exact ⟨l, fun _ => hl⟩
    · exact ⟨[], fun h' => absurd h' h⟩
  choose P hP using hex
  refine ⟨P, ?_⟩
  intro i hi
  refine ⟨(hP i hi).1, ?_, (hP i hi).2.1, (hP i hi).2.2⟩
  obtain ⟨k, hk⟩ := exists_level hV hi
  have hkn := hk.lt hV.unique_parent
  have h1 : T.descendantsAux (T.n + 1) i = .ok (P i) := (hP i hi).1
  unfold descendantsAux at h1
  have : ∀ ch : List Nat, (∀ c ∈ ch, Edge T i c) →
      ch.mapM (fun c => do
        let d ← T.descendantsAux T.n c
        (.ok (c :: d) : Py (List Nat))) = .ok (ch.map (fun c => c :: P c)) := by
    intro ch
    induction ch with
    | nil => intro _; rfl
    | cons c ch ihc =>
      intro h
      have he := h c (by simp)
      have h2 : T.descendantsAux (T.n + 1) c = .ok (P c) := (hP c he.2.1).1
      rw [descendantsAux_fuel hV c he.2.1 (k + 1) (.child hk he) (T.n + 1) T.n (by omega) (by omega)] at h2
      rw [List.mapM_cons, h2, ihc (fun c hc => h c (by simp [hc]))]
      rfl
  rw [this _ (fun c hc => (mem_children i c hi).1 hc)] at h1
  simp only [bind, Except.bind] at h1
  rw [List.flatMap_def]
  exact (Except.ok.inj h1).symm

theorem flatMap_ite_single {l : List Nat} (hnd : l.Nodup) {c0 : Nat} (h : c0 ∈ l) (f : Nat → List Nat) (a : List Nat)
    (h1 : f c0 = a) (h2 : ∀ c ∈ l, c ≠ c0 → f c = []) : l.flatMap f = a := by
  induction l with
  | nil => simp at h
  | cons c l ih =>
    rw [List.nodup_cons] at hnd
    rw [List.flatMap_cons]
    by_cases hc : c = c0
    · subst hc
      have : l.flatMap f = [] := by
        rw [List.flatMap_eq_nil_iff]
        intro x hx
        exact h2 x (by simp [hx]) (fun hxc => hnd.1 (hxc ▸ hx))
      rw [h1, this, List.append_nil]
    · rw [h2 c (by simp) hc, List.nil_append]
      exact ih hnd.2 ((List.mem_cons.1 h).resolve_left (Ne.symm hc)) (fun c hc' => h2 c (by simp [hc']))

theorem filter_flatMap' {α : Type} (p : Nat → Bool) (f : α → List Nat) (l : List α) :
    (l.flatMap f).filter p = l.flatMap (fun c => (f c).filter p) := by
  induction l with
  | nil => rfl
  | cons c l ih => rw [List.flatMap_cons, List.flatMap_cons, List.filter_append, ih]

theorem preorder_children (hV : Valid T) {P : Nat → List Nat}
    (hP : ∀ i, IsNode T i → T.descendants i = .ok (P i) ∧
      P i = (T.children i).flatMap (fun c => c :: P c) ∧ (P i).Nodup ∧ ∀ x, x ∈ P i ↔ Anc T i x) :
    ∀ i, IsNode T i → ∀ x, AncSelf T i x →
      (i :: P i).filter (fun y => T.adj (x - 1) (y - 1)) = T.children x := by
  -- the descendants of a node that is not below `x`
  have hnone : ∀ i, IsNode T i → ∀ x, IsNode T x → ¬ AncSelf T i x → ¬ Edge T x i →
      (i :: P i).filter (fun y => T.adj (x - 1) (y - 1)) = [] := by
    intro i hi x hx hna hne
    rw [List.filter_eq_nil_iff]
    intro y hy hadj
    have hyn : IsNode T y := by
      rcases List.mem_cons.1 hy with rfl | hy
      · exact hi
      · exact AncSelf.isNode hi (((hP i hi).2.2.2 y).1 hy).to_reflTransGen
    have he : Edge T x y := ⟨hx, hyn, hadj⟩
    rcases List.mem_cons.1 hy with rfl | hy
    · exact hne he
    · obtain ⟨p, hp1, hp2⟩ := Relation.TransGen.tail'_iff.1 (((hP i hi).2.2.2 y).1 hy)
      rw [hV.unique_parent _ _ _ he hp2] at hna
      exact hna hp1
  refine hV.induct ?_
  intro i hi ih x hx
  have hxn := AncSelf.isNode hi hx
  have hnoself : T.adj (x - 1) (i - 1) = false := by
    by_contra hc
    have he : Edge T x i := ⟨hxn, hi, by simpa using hc⟩
    exact Anc.irrefl hV i (Relation.TransGen.tail'_iff.2 ⟨x, hx, he⟩)
  rw [List.filter_cons, if_neg (by simp [hnoself]), (hP i hi).2.1, filter_flatMap']
  by_cases hxi : x = i
  · subst hxi
    have : ∀ c ∈ T.children x, (c :: P c).filter (fun y => T.adj (x - 1) (y - 1)) = [c] := by
      intro c hc
      have he := (mem_children x c hi).1 hc
      rw [List.filter_cons, if_pos he.2.2]
      congr 1
      rw [List.filter_eq_nil_iff]
      intro y hy hadj
      have hanc := ((hP c he.2.1).2.2.2 y).1 hy
      have he' : Edge T x y := ⟨hi, AncSelf.isNode he.2.1 hanc.to_reflTransGen, hadj⟩
      obtain ⟨p, hp1, hp2⟩ := Relation.TransGen.tail'_iff.1 hanc
      rw [← hV.unique_parent _ _ _ he' hp2] at hp1
      exact Anc.irrefl hV x (Relation.TransGen.head'_iff.2 ⟨c, he, hp1⟩)
    rw [List.flatMap_def, List.map_congr_left this, ← List.flatMap_def]
    simp
  · rcases ancSelf_cases hx with h | ⟨c0, hc0, hc0x⟩
    · exact absurd h.symm hxi
    · refine flatMap_ite_single (nodup_children i) ((mem_children i c0 hi).2 hc0) _ _ (ih c0 hc0 x hc0x) ?_
      intro c hc hcc
      have he := (mem_children i c hi).1 hc
      refine hnone c he.2.1 x hxn ?_ ?_
      · intro h
        obtain ⟨k, hk⟩ := exists_level hV hi
        exact hcc (disjoint_of_level hV (.child hk he) (.child hk hc0) h hc0x)
      · intro h
        exact hxi (hV.unique_parent _ _ _ h he)

theorem preorder_leaves (hV : Valid T) {P : Nat → List Nat}
    (hP : ∀ i, IsNode T i → T.descendants i = .ok (P i) ∧
      P i = (T.children i).flatMap (fun c => c :: P c) ∧ (P i).Nodup ∧ ∀ x, x ∈ P i ↔ Anc T i x)
    {D : Nat → List Nat} (hD : RecDims T D (IsNode T)) :
    ∀ i, IsNode T i → (i :: P i).filter T.isLeaf = (D i).map (fun k => T.dim2ind.getD k 0) := by
  refine hV.induct ?_
  intro i hi ih
  by_cases hl : T.isLeaf i = true
  · have hch : T.children i = [] := by
      rw [List.eq_nil_iff_forall_not_mem]
      intro c hc
      exact (isLeaf_iff hV hi).1 hl c ((mem_children i c hi).1 hc)
    have hm : i ∈ T.dim2ind := by unfold isLeaf at hl; simpa using hl
    obtain ⟨k, hk, hki⟩ := List.mem_iff_getElem.1 hm
    have hk' : T.dim2ind[k]? = some i := by rw [List.getElem?_eq_getElem hk, hki]
    rw [(hP i hi).2.1, hch, hD.1 i hl, initDims_spec hV k i hk']
    simp [hl, hk']
  · have hl' : T.isLeaf i = false := by simpa using hl
    rw [hD.2 i hi hl', List.filter_cons, if_neg hl, (hP i hi).2.1, filter_flatMap', List.map_flatMap]
    rw [List.flatMap_def, List.flatMap_def]
    congr 1
    apply List.map_congr_left
    intro c hc
    exact ih c ((mem_children i c hi).1 hc)

theorem map_filter_range (l : List Nat) (p : Nat → Bool) :
    ((List.range l.length).filter (fun i => p (l.getD i 0))).map (fun i => l.getD i 0) = l.filter p := by
  have h : l = (List.range l.length).map (fun i => l.getD i 0) := by
    apply List.ext_getElem
    · simp
    intro i h1 h2
    rw [List.getElem_map, List.getElem_range, List.getD_eq_getElem _ _ h1]
  conv_rhs => rw [h, List.filter_map]
  rfl

/-- C68. `sub_dimension_tree(root)`: the list `nod` contains the node `root`, first, and its descendants, each
once; `k + 1 ↦ nod[k]` is an isomorphism from the extracted tree onto the subtree, which keeps the order of
the sons of each node; the dimensions of the extracted tree are those of `root`, in the order of
`dims[root - 1]`; the extracted tree is valid and rooted at 1. -/
theorem subTree_spec (hV : Valid T) (root : Nat) (hi : IsNode T root) :
    ∃ T' nod D, T.subTree root = .ok (T', nod) ∧ T.dims = .ok D ∧
      nod.head? = some root ∧ nod.Nodup ∧ (∀ x, x ∈ nod ↔ AncSelf T root x) ∧
      Valid T' ∧ T'.n = nod.length ∧ T'.root = .ok 1 ∧
      (∀ i j x y : Nat, nod[i]? = some x → nod[j]? = some y → (Edge T' (i + 1) (j + 1) ↔ Edge T x y)) ∧
      (∀ i x : Nat, nod[i]? = some x → (T'.children (i + 1)).map (fun k => nod.getD (k - 1) 0) = T.children x) ∧
      T'.dim2ind.map (fun k => nod[k - 1]?) = (D root).map (fun k => T.dim2ind[k]?) := by
  obtain ⟨P, hP⟩ := preorder hV
  obtain ⟨D, hD, hDr⟩ := dims_ok hV
  have hmemD := recDims_mem hV hDr
  obtain ⟨nod, hnod⟩ : ∃ nod, nod = root :: P root := ⟨_, rfl⟩
  have hmem : ∀ x, x ∈ nod ↔ AncSelf T root x := by
    intro x
    rw [hnod, List.mem_cons, (hP root hi).2.2.2]
    constructor
    · rintro (rfl | h)
      · exact .refl
      · exact h.to_reflTransGen
    · intro h
      rcases Relation.reflTransGen_iff_eq_or_transGen.1 h with h | h
      · exact .inl h
      · exact .inr h
  have hnd : nod.Nodup := by
    rw [hnod, List.nodup_cons]
    refine ⟨?_, (hP root hi).2.2.1⟩
    rw [(hP root hi).2.2.2]
    exact Anc.irrefl hV root
  have hnn : ∀ x ∈ nod, IsNode T x := fun x hx => AncSelf.isNode hi ((hmem x).1 hx)
  -- the leaves below `root`
  have hleaf : ∀ x ∈ nod, ((D root).map (fun k => T.dim2ind.getD k 0)).contains x = T.isLeaf x := by
    intro x hx
    rw [Bool.eq_iff_iff, List.contains_iff_mem, List.mem_map]
    unfold isLeaf
    rw [List.contains_iff_mem]
    constructor
    · rintro ⟨k, hk, rfl⟩
      obtain ⟨y, hy, _⟩ := (hmemD root hi k).1 hk
      rw [List.getD_eq_getElem?_getD, hy]
      exact List.mem_of_getElem? hy
    · intro h
      obtain ⟨k, hk, hkx⟩ := List.mem_iff_getElem.1 h
      have hk' : T.dim2ind[k]? = some x := by rw [List.getElem?_eq_getElem hk, hkx]
      exact ⟨k, (hmemD root hi k).2 ⟨x, hk', (hmem x).1 hx⟩, by rw [List.getD_eq_getElem?_getD, hk']; rfl⟩
  obtain ⟨T', hT'⟩ : ∃ T' : DTree, T' =
    { dim2ind := ((List.range nod.length).filter
        (fun i => ((D root).map (fun k => T.dim2ind.getD k 0)).contains (nod.getD i 0))).map (· + 1)
      n := nod.length
      adj := fun i j => T.adj (nod.getD i 0 - 1) (nod.getD j 0 - 1) } := ⟨_, rfl⟩
  have hn : T'.n = nod.length := by rw [hT']
  have hgm : ∀ i, i < nod.length → nod.getD i 0 ∈ nod := by
    intro i h
    rw [List.getD_eq_getElem _ _ h]
    exact List.getElem_mem h
  have hedge : ∀ i j, i < nod.length → j < nod.length → (Edge T' (i + 1) (j + 1) ↔ Edge T (nod.getD i 0) (nod.getD j 0)) := by
    intro i j h1 h2
    rw [hT']
    unfold Edge IsNode
    simp only [Nat.add_sub_cancel]
    have e1 := hnn _ (hgm i h1)
    have e2 := hnn _ (hgm j h2)
    unfold IsNode at e1 e2
    constructor
    · intro h; exact ⟨e1, e2, h.2.2⟩
    · intro h; exact ⟨by omega, by omega, h.2.2⟩
  have hinj : ∀ i j, i < nod.length → j < nod.length → nod.getD i 0 = nod.getD j 0 → i = j := by
    intro i j h1 h2 h
    rw [List.getD_eq_getElem _ _ h1, List.getD_eq_getElem _ _ h2] at h
    exact hnd.getElem_inj_iff.1 h
  have hpos : 0 < nod.length := by rw [hnod]; simp
  have h0 : nod.getD 0 0 = root := by rw [hnod]; rfl
  have hR : Rooted T' 1 := by
    refine ⟨?_, ⟨?_, ?_⟩, ?_⟩
    · intro i i' j h h'
      have e1 := h.1
      have e2 := h.2.1
      have e3 := h'.1
      unfold IsNode at e1 e2 e3
      obtain ⟨a, rfl⟩ : ∃ a, i = a + 1 := ⟨i - 1, by omega⟩
      obtain ⟨b, rfl⟩ : ∃ a, i' = a + 1 := ⟨i' - 1, by omega⟩
      obtain ⟨c, rfl⟩ : ∃ a, j = a + 1 := ⟨j - 1, by omega⟩
      rw [hedge _ _ (by omega) (by omega)] at h h'
      have := hinj a b (by omega) (by omega) (hV.unique_parent _ _ _ h h')
      omega
    · unfold IsNode; omega
    · intro i h
      have e1 := h.1
      unfold IsNode at e1
      obtain ⟨a, rfl⟩ : ∃ a, i = a + 1 := ⟨i - 1, by omega⟩
      have := (hedge a 0 (by omega) hpos).1 h
      rw [h0] at this
      exact Anc.irrefl hV root (Relation.TransGen.tail'_iff.2 ⟨_, (hmem _).1 (hgm a (by omega)), this⟩)
    · have : ∀ y, AncSelf T root y → ∀ j, j < nod.length → nod.getD j 0 = y → AncSelf T' 1 (j + 1) := by
        intro y h
        induction h with
        | refl =>
          intro j hj h
          rw [hinj j 0 hj hpos (h.trans h0.symm)]
          exact .refl
        | tail h1 h2 ih =>
          rename_i y z
          intro j hj h
          obtain ⟨i, hi', hiy⟩ := List.mem_iff_getElem.1 ((hmem y).2 h1)
          have hiy' : nod.getD i 0 = y := by rw [List.getD_eq_getElem _ _ hi', hiy]
          refine .tail (ih i hi' hiy') ?_
          rw [hedge i j hi' hj, hiy', h]
          exact h2
      intro j hj
      unfold IsNode at hj
      obtain ⟨a, rfl⟩ : ∃ a, j = a + 1 := ⟨j - 1, by omega⟩
      exact this _ ((hmem _).1 (hgm a (by omega))) a (by omega) rfl
  have hd2i : T'.dim2ind = ((List.range nod.length).filter (fun i => T.isLeaf (nod.getD i 0))).map (· + 1) := by
    rw [hT']
    simp only
    congr 1
    apply List.filter_congr
    intro i hi'
    exact hleaf _ (hgm i (List.mem_range.1 hi'))
  have hV' : Valid T' := by
    refine hR.valid ?_ ?_
    · rw [hd2i]
      exact (List.nodup_range.filter _).map (fun a b h => by simpa using h)
    · intro x
      rw [hd2i, List.mem_map]
      constructor
      · rintro ⟨a, ha, rfl⟩
        rw [List.mem_filter, List.mem_range] at ha
        refine ⟨by unfold IsNode; omega, fun j hj => ?_⟩
        have e2 := hj.2.1
        unfold IsNode at e2
        obtain ⟨c, rfl⟩ : ∃ a, j = a + 1 := ⟨j - 1, by omega⟩
        rw [hedge _ _ ha.1 (by omega)] at hj
        exact (isLeaf_iff hV (hnn _ (hgm a ha.1))).1 ha.2 _ hj
      · rintro ⟨hx, hj⟩
        unfold IsNode at hx
        obtain ⟨a, rfl⟩ : ∃ a, x = a + 1 := ⟨x - 1, by omega⟩
        refine ⟨a, ?_, rfl⟩
        rw [List.mem_filter, List.mem_range]
        refine ⟨by omega, (isLeaf_iff hV (hnn _ (hgm a (by omega)))).2 ?_⟩
        intro y hy
        have : y ∈ nod := (hmem y).2 (.tail ((hmem _).1 (hgm a (by omega))) hy)
        obtain ⟨c, hc, hcy⟩ := List.mem_iff_getElem.1 this
        apply hj (c + 1)
        rw [hedge _ _ (by omega) hc, List.getD_eq_getElem _ _ hc, hcy]
        exact hy
  obtain ⟨D', hD', _⟩ := dims_ok hV'
  refine ⟨T', nod, D, ?_, hD, by rw [hnod]; rfl, hnd, hmem, hV', hn, hR.root_eq hV', ?_, ?_, ?_⟩
  · unfold subTree
    rw [hT', hnod] at hD'
    simp only [hD, (hP root hi).1, bind, Except.bind, hD']
    rw [hT', hnod]
  · intro i j x y h1 h2
    obtain ⟨h3, rfl⟩ := List.getElem?_eq_some_iff.1 h1
    obtain ⟨h4, rfl⟩ := List.getElem?_eq_some_iff.1 h2
    rw [hedge i j h3 h4, List.getD_eq_getElem _ _ h3, List.getD_eq_getElem _ _ h4]
  · intro i x h1
    obtain ⟨h3, hx⟩ := List.getElem?_eq_some_iff.1 h1
    have hxm : x ∈ nod := List.mem_of_getElem? h1
    rw [← preorder_children hV hP root hi x ((hmem x).1 hxm), ← hnod, ← map_filter_range]
    unfold children
    rw [List.map_map, hn, hT']
    simp only [Nat.add_sub_cancel]
    rw [List.getD_eq_getElem _ _ h3, hx]
    rfl
  · have h1 := preorder_leaves hV hP hDr root hi
    rw [← hnod, ← map_filter_range] at h1
    rw [hd2i, List.map_map]
    have h2 : ∀ (l : List Nat) (f g : Nat → Option Nat) (h : Nat → Nat) (h' : Nat → Nat) (l' : List Nat), (∀ a ∈ l, f a = some (h a)) →
        (∀ a ∈ l', g a = some (h' a)) → l.map h = l'.map h' → l.map f = l'.map g := by
      intro l f g h h' l' e1 e2 e3
      have := congrArg (List.map some) e3
      rw [List.map_map, List.map_map] at this
      rw [List.map_congr_left e1, List.map_congr_left e2]
      exact this
    refine h2 _ _ _ _ _ _ ?_ ?_ h1
    · intro a ha
      rw [List.mem_filter, List.mem_range] at ha
      simp only [Function.comp, Nat.add_sub_cancel]
      have hal := ha.1
      rw [List.getElem?_eq_getElem hal, List.getD_eq_getElem _ _ hal]
    · intro k hk
      obtain ⟨y, hy, _⟩ := (hmemD root hi k).1 hk
      rw [List.getD_eq_getElem?_getD, hy]
      rfl

/-- A concrete case: the subtree of node 2 of a tree with 5 nodes. -/
example : ∃ T', TreeBased.exTree.subTree 2 = .ok (T', [2, 3, 4]) ∧ T'.dim2ind = [2, 3] ∧ T'.n = 3 := by
  obtain ⟨T', nod, D, h1, _⟩ := subTree_spec TreeBased.exTree_valid 2 (by unfold IsNode; decide)
  have : (TreeBased.exTree.subTree 2).map (fun q => (q.1.dim2ind, q.1.n, q.2)) = .ok ([2, 3], 3, [2, 3, 4]) := by rfl
  rw [h1] at this
  simp only [Except.map, Except.ok.injEq, Prod.mk.injEq] at this
  exact ⟨T', by rw [h1, this.2.2], this.1, this.2.1⟩

/-- C69. `node_with_dims(dims)` returns, in increasing order, exactly the nodes whose dimensions are the
listed ones, in any order; in particular nothing when `dims` has a repetition or an unknown dimension. -/
theorem nodeWithDims_spec (hV : Valid T) (dims : List Nat) :
    ∃ l, T.nodeWithDims dims = .ok l ∧ l.Pairwise (· < ·) ∧
      ∀ i, i ∈ l ↔ IsNode T i ∧ dims.Nodup ∧ ∀ k : Nat, k ∈ dims ↔ ∃ x, T.dim2ind[k]? = some x ∧ AncSelf T i x := by
  obtain ⟨D, hD, hDr⟩ := dims_ok hV
  have hmemD := recDims_mem hV hDr
  have hndD := recDims_nodup hV hDr
  refine ⟨_, by unfold nodeWithDims; rw [hD]; rfl, ?_, ?_⟩
  · apply List.Pairwise.filter
    unfold nodes
    rw [List.pairwise_map]
    exact List.pairwise_lt_range.imp (fun h => by omega)
  · intro i
    rw [List.mem_filter, mem_nodes, beq_iff_eq, sortNat_eq_iff]
    refine and_congr_right (fun hi => ?_)
    constructor
    · intro h
      exact ⟨h.nodup_iff.2 (hndD i hi), fun k => by rw [h.mem_iff, hmemD i hi]⟩
    · rintro ⟨h1, h2⟩
      rw [List.perm_ext_iff_of_nodup h1 (hndD i hi)]
      intro k
      rw [h2, hmemD i hi]

/-- A concrete case. -/
example : TreeBased.exTree.nodeWithDims [1, 0] = .ok [2] ∧ TreeBased.exTree.nodeWithDims [0, 2] = .ok [] := by
  constructor <;> rfl

end Verif.DimTree
