import Verif.Props.TreeSqueeze
import Verif.Lemmas.HsvdDense

/-!
# The tensor and the tree returned by `squeeze`
-/

namespace Verif.TreeBased

open Verif.Arr Verif.DimTree Verif.DimTree.DTree Finset

variable {R : Type}

/-- The nodes of `z` are the nodes of `x` with a dimension among `rest`, up to equal sets of dimensions; the dimension `k` of
`z` is the dimension `rest[k]` of `x`. -/
def SameSetsOn (z x : DTree) (rest : List Nat) : Prop :=
  (∀ i, IsNode z i → ∃ j, IsNode x j ∧ ∀ k d, rest[k]? = some d → (Below z i k ↔ Below x j d)) ∧
    ∀ j, IsNode x j → (∃ d ∈ rest, Below x j d) → ∃ i, IsNode z i ∧ ∀ k d, rest[k]? = some d → (Below z i k ↔ Below x j d)

theorem mapM_leafOf (T : DTree) : ∀ (l : List Nat), (∀ d ∈ l, d < T.dim2ind.length) →
    l.mapM (leafOf T) = .ok (l.map (fun d => T.dim2ind.getD d 0))
  | [], _ => rfl
  | d :: l, h => by
    rw [List.mapM_cons, mapM_leafOf T l (fun c hc => h c (by simp [hc]))]
    have := h d (by simp)
    unfold leafOf
    rw [List.getElem?_eq_getElem this]
    simp [List.getElem?_eq_getElem this]
    rfl

theorem squeeze_core [CommSemiring R] {x : TBT R} (h : WF x) {ds : List Nat} (hlt : ∀ d ∈ ds, d < x.order)
    (hD : ∀ d ∈ ds, x.shape.getD d 0 = 1) (hne : FullTensor.setdiffRange x.order ds ≠ []) {V : Nat → List Nat → List Nat → R}
    (hv : IsValue x V) {r : Nat} (hroot : IsRoot x.tree r) :
    ∃ (z : TBT R) (φ : Nat → Nat) (r' : Nat) (ν' : Nat → Nat), squeezeTree x ds = .ok z ∧
      Part z z.tree.nodes r' (fun i => x.active (φ i)) (fun i => x.lastDim (φ i)) ν' (rankShape x r) ∧ φ r' = r ∧
      PVal z z.tree.nodes r' (fun i => x.active (φ i)) (fun i => x.lastDim (φ i)) (rankShape x r) (entriesOff ds x.shape)
        (fun i idx e => V (φ i) (expand x.tree.dim2ind.length ds idx) e) ∧
      z.tree.dim2ind.map ν' = entriesOff ds x.shape ∧
      (∀ i, IsNode z.tree i → (z.tree.children i).length ≠ 1) ∧
      SameSetsOn z.tree x.tree (FullTensor.setdiffRange x.order ds) := by
  have hV := h.valid
  obtain ⟨lev, hlv, hlev⟩ := level_ok hV
  obtain ⟨ind, hind⟩ : ∃ ind, ind = ds.map (fun d => x.tree.dim2ind.getD d 0) := ⟨_, rfl⟩
  have hindm : ∀ c, c ∈ ind ↔ c ∈ x.tree.dim2ind ∧ dimOf x.tree c ∈ ds := by
    intro c
    rw [hind, List.mem_map]
    constructor
    · rintro ⟨d, hd, rfl⟩
      have hdl : d < x.tree.dim2ind.length := hlt d hd
      rw [List.getD_eq_getElem _ _ hdl]
      refine ⟨List.getElem_mem hdl, ?_⟩
      unfold dimOf
      rw [hV.nodup.idxOf_getElem]; exact hd
    · rintro ⟨h1, h2⟩
      refine ⟨dimOf x.tree c, h2, ?_⟩
      unfold dimOf
      rw [List.getD_eq_getElem _ _ (List.idxOf_lt_length_of_mem h1), List.getElem_idxOf]
  obtain ⟨st, e1, hI⟩ := squeeze_loop h hD hv hlev hindm
  obtain ⟨K, hK⟩ : ∃ K, K = ((List.range x.tree.n).map (· + 1)).filter (fun i => !st.2.contains i) := ⟨_, rfl⟩
  obtain ⟨p1, p2, p3, p4⟩ := squeeze_part h hv hI hroot hne hK
  obtain ⟨z1, φ1, r1, a1, a2, a3, a4, a5, a6, a7, a8, a9, a10, a11⟩ :=
    restrict_spec x.tree.n x.tree.adj st.1 st.2 (keptLeaves x.tree ds) K hK p1
  have hrest : (keptLeaves x.tree ds).length = (FullTensor.setdiffRange x.order ds).length := by unfold keptLeaves; simp; rfl
  have hedge1 : ∃ i j, Edge z1.tree i j := by
    have : ¬ ∀ j ∈ K, ¬ Edge x.tree r j := by
      intro hh
      exact p4 ((p1.leaves r).2 ⟨p1.root, hh⟩)
    push Not at this
    obtain ⟨j, hj, hrj⟩ := this
    have hm : j ∈ kids ⟨keptLeaves x.tree ds, x.tree.n, x.tree.adj⟩ K (φ1 r1) := by
      rw [a3]
      exact (mem_kids p1.isNode p1.root).2 ⟨hj, hrj⟩
    have hr1 : IsNode z1.tree r1 := (mem_nodes r1).1 a2.root
    rw [← a8 r1 hr1, List.mem_map] at hm
    obtain ⟨c, hc, _⟩ := hm
    exact ⟨r1, c, (mem_children r1 c hr1).1 hc⟩
  obtain ⟨z, φ2, r2, ν', b1, b2, b3, b4, b5, b6, b7, b8, b9⟩ := removeUnique_part a2 hedge1
  have hrk : ∀ a b, a ∈ K → b ∈ K → (RK ⟨keptLeaves x.tree ds, x.tree.n, x.tree.adj⟩ K a b ↔ AncSelf x.tree a b) := by
    intro a b ha hb
    constructor
    · intro hab
      exact Relation.ReflTransGen.mono (fun a b hab => hab.2.2) _ _ hab
    · intro hab
      have key : ∀ b, AncSelf x.tree a b → b ∈ K → RK ⟨keptLeaves x.tree ds, x.tree.n, x.tree.adj⟩ K a b := by
        intro b hA
        induction hA with
        | refl => intro _; exact .refl
        | tail hab hbc ih =>
          intro hj
          have hb := (p3 _).2 ⟨hbc.1, fun hg => ((p3 _).1 hj).2 (fun c hc hcc => hg c hc ((Relation.ReflTransGen.single hbc).trans hcc))⟩
          exact (ih hb).tail ⟨hb, hj, hbc⟩
      exact key b hab hb
  have hbel1 : ∀ i, IsNode z1.tree i → ∀ k d, (FullTensor.setdiffRange x.order ds)[k]? = some d →
      (Below z1.tree i k ↔ Below x.tree (φ1 i) d) := by
    intro i hi k d hkd
    have hk : k < (FullTensor.setdiffRange x.order ds).length := (List.getElem?_eq_some_iff.1 hkd).1
    have hdlt : d < x.tree.dim2ind.length := (mem_setdiffRange.1 (List.mem_of_getElem? hkd)).1
    have hz1l : z1.tree.dim2ind.length = (FullTensor.setdiffRange x.order ds).length := by
      rw [← hrest, ← a6, List.length_map]
    have hc1 : z1.tree.dim2ind[k]? = some z1.tree.dim2ind[k] := List.getElem?_eq_getElem (by omega)
    have hφc : φ1 z1.tree.dim2ind[k] = x.tree.dim2ind[d] := by
      have e : (z1.tree.dim2ind.map φ1)[k]? = (keptLeaves x.tree ds)[k]? := by rw [a6]
      unfold keptLeaves at e
      rw [List.getElem?_map, List.getElem?_map, hc1] at e
      have hkd' : (FullTensor.setdiffRange x.tree.dim2ind.length ds)[k]? = some d := hkd
      rw [hkd'] at e
      simp only [Option.map_some] at e
      have := Option.some.inj e
      rw [this, List.getD_eq_getElem _ _ hdlt]
    have hcn : IsNode z1.tree z1.tree.dim2ind[k] := (mem_nodes _).1 ((a2.leaves _).1 (List.mem_of_getElem? hc1)).1
    have hiff := a11 i _ hi hcn
    rw [hφc, hrk _ _ (a7 i hi).1 (by rw [← hφc]; exact (a7 _ hcn).1)] at hiff
    constructor
    · rintro ⟨c, hc, hic⟩
      rw [hc1] at hc
      rw [← Option.some.inj hc] at hic
      exact ⟨_, List.getElem?_eq_getElem hdlt, hiff.1 hic⟩
    · rintro ⟨c, hc, hic⟩
      rw [List.getElem?_eq_getElem hdlt] at hc
      rw [← Option.some.inj hc] at hic
      exact ⟨_, hc1, hiff.2 hic⟩
  refine ⟨z, fun i => φ1 (φ2 i), r2, ν', ?_, b2, by simp only [b3, a3], ?_, ?_, b7, ?_, ?_⟩
  · unfold squeezeTree
    rw [mapM_leafOf _ _ hlt, ← hind, hlv]
    simp only [bind, Except.bind] at e1 ⊢
    have e2 : (FullTensor.setdiffRange x.order ds).map (fun k => x.tree.dim2ind.getD k 0) = keptLeaves x.tree ds := rfl
    rw [e1]
    simp only
    rw [e2, a1]
    exact b1
  · exact b4 _ _ (a4 _ _ p2)
  · rw [b5, show (fun i => x.leafSize (φ1 i)) = x.leafSize ∘ φ1 from rfl, ← List.map_map, a6]
    unfold keptLeaves
    have hsl : x.shape.length = x.tree.dim2ind.length := by unfold TBT.shape; simp
    rw [FullTensor.entriesOff_eq, hsl]
    unfold applyPerm
    rw [List.map_map]
    apply List.map_congr_left
    intro k hk
    have hk' := (mem_setdiffRange.1 hk).1
    unfold TBT.shape
    simp only [Function.comp]
    rw [List.getD_eq_getElem (x.tree.dim2ind.map x.leafSize) _ (by simpa using hk'), List.getElem_map, List.getD_eq_getElem _ _ hk']
  · intro i hi
    refine ⟨φ1 (φ2 i), p1.isNode _ (a7 _ (b6 i hi)).1, ?_⟩
    intro k d hkd
    rw [b8 i hi k, hbel1 _ (b6 i hi) k d hkd]
  · rintro j hj ⟨d0, hd0, c0, hc0, hjc0⟩
    have hjK : j ∈ K := by
      rw [p3]
      refine ⟨hj, fun hg => ?_⟩
      have hm := List.mem_of_getElem? hc0
      have hdd : dimOf x.tree c0 = d0 := by
        obtain ⟨q1, q2⟩ := List.getElem?_eq_some_iff.1 hc0
        unfold dimOf
        rw [← q2, hV.nodup.idxOf_getElem]
      have := hg c0 hm hjc0
      rw [hdd] at this
      exact (mem_setdiffRange.1 hd0).2 this
    obtain ⟨j1, hj1, hj1'⟩ := a9 j hjK
    obtain ⟨i, hi, hi'⟩ := b9 j1 hj1
    refine ⟨i, hi, fun k d hkd => ?_⟩
    rw [hi' k, hbel1 j1 hj1 k d hkd, hj1']

theorem entriesOff_congr {a b : List Nat} (h : ∀ k, k ∈ a ↔ k ∈ b) (v : List Nat) : entriesOff a v = entriesOff b v := by
  rw [FullTensor.entriesOff_eq, FullTensor.entriesOff_eq, FullTensor.setdiffRange_congr h]

theorem mem_sortDims {dims : List Nat} (k : Nat) : k ∈ dims.insertionSort (· ≤ ·) ↔ k ∈ dims :=
  (List.perm_insertionSort (· ≤ ·) dims).mem_iff

/-- C142. `squeeze(dims)` with at least two remaining dimensions: the tensor without the axes `dims`; the tree is the tree of the
tensor restricted to the remaining dimensions, without nodes with one child. -/
theorem squeezeTB_full [CommSemiring R] (x : TBT R) (h : WF x) (dims : List Nat) (hlt : ∀ d ∈ dims, d < x.order)
    (h1 : ∀ d ∈ dims, x.shape.getD d 0 = 1) (h2 : 2 ≤ (FullTensor.setdiffRange x.order dims).length) :
    ∃ z a b r, squeezeTB x (some dims) = .ok (.tree z) ∧ full x = .ok a ∧ full z = .ok b ∧ x.tree.root = .ok r ∧ WF z ∧
      z.shape = entriesOff dims x.shape ∧ a.shape = x.shape ++ rankShape x r ∧ b.shape = z.shape ++ rankShape x r ∧
      (∀ idx e, InBox x.shape idx → InBox (rankShape x r) e → b.get (entriesOff dims idx ++ e) = a.get (idx ++ e)) ∧
      (∀ i, IsNode z.tree i → (z.tree.children i).length ≠ 1) ∧
      SameSetsOn z.tree x.tree (FullTensor.setdiffRange x.order dims) := by
  obtain ⟨V, hv⟩ := exists_value x h.valid
  obtain ⟨r, hr, hroot⟩ := root_ok h.valid
  obtain ⟨ds, hds⟩ : ∃ ds, ds = dims.insertionSort (· ≤ ·) := ⟨_, rfl⟩
  have hm : ∀ k, k ∈ ds ↔ k ∈ dims := fun k => by rw [hds]; exact mem_sortDims k
  have hsd : FullTensor.setdiffRange x.order ds = FullTensor.setdiffRange x.order dims := FullTensor.setdiffRange_congr hm
  have hoff : ∀ v, entriesOff ds v = entriesOff dims v := entriesOff_congr hm
  have hne : FullTensor.setdiffRange x.order ds ≠ [] := by
    rw [hsd]; intro hh; rw [hh] at h2; simp at h2
  obtain ⟨z, φ, r', ν', g1, g2, g3, g4, g5, g6, g7⟩ := squeeze_core h (fun d hd => hlt d ((hm d).1 hd)) (fun d hd => h1 d ((hm d).1 hd)) hne hv hroot
  rw [hoff] at g4 g5
  rw [hsd] at g7
  have hsl : x.shape.length = x.tree.dim2ind.length := by unfold TBT.shape; simp
  have ho : 2 ≤ z.tree.dim2ind.length := by
    have := congrArg List.length g5
    rw [List.length_map, FullTensor.entriesOff_eq, hsl] at this
    unfold applyPerm at this
    rw [List.length_map] at this
    rw [this]; exact h2
  have hsz := g2.shaped ho
  have hwf := hsz.wf g2.valid ho
  have hsh : z.shape = entriesOff dims x.shape := by rw [hsz.shapeEq g2.valid ho, g5]
  have hroot' := g2.isRoot
  have hrl' := Shaped.root_internal' g2.valid ho hroot'
  obtain ⟨r'', hr'', hroot''⟩ := root_ok g2.valid
  obtain rfl := root_unique g2.valid hroot'' hroot'
  have hrs := hsz.rankShape_root hroot' hrl'
  have hvz := g2.value ho (by rw [g5]; exact g4)
  obtain ⟨a, a1, a2, a3⟩ := full_on x h hv.on hr
  obtain ⟨b, b1, b2, b3⟩ := full_on z hwf hvz hr''
  refine ⟨z, a, b, r, ?_, a1, b1, hr, hwf, hsh, a2, by rw [b2, hrs], ?_, g6, g7⟩
  · unfold squeezeTB
    simp only [Option.getD_some, ← hds, if_neg hne, g1, bind, Except.bind]
  · intro idx e hi he
    have hio : InBox (entriesOff dims x.shape) (entriesOff dims idx) := Truncation.inBox_off dims hi
    rw [b3 _ e (by rw [hsh]; exact hio) (by rw [hrs]; exact he), a3 idx e hi he, g3, ← hsl, ← hoff idx,
      expand_off (fun d hd => h1 d ((hm d).1 hd)) hi]

/-! ## One remaining dimension -/

theorem one_leaf {T : DTree} (hV : Valid T) (h1 : T.dim2ind.length = 1) (hu : ∀ i, IsNode T i → (T.children i).length ≠ 1) :
    T.n = 1 ∧ T.dim2ind = [1] := by
  obtain ⟨r, hroot, hall⟩ := hV.rooted
  obtain ⟨c, hc⟩ := List.length_eq_one_iff.1 h1
  have hrl : r ∈ T.dim2ind := by
    by_contra hrl
    have hne : ∃ d, Edge T r d := by
      by_contra hn
      push Not at hn
      exact hrl ((hV.leaves r).2 ⟨hroot.1, hn⟩)
    obtain ⟨d, hd⟩ := hne
    have hone : ∀ d', Edge T r d' → d' = d := by
      intro d' hd'
      obtain ⟨l, l1, l2⟩ := exists_leaf_below hV d hd.2.1
      obtain ⟨l', l1', l2'⟩ := exists_leaf_below hV d' hd'.2.1
      rw [hc, List.mem_singleton] at l1 l1'
      subst l1
      subst l1'
      obtain ⟨k, hk⟩ := exists_level hV hd.1
      exact disjoint_of_level hV (.child hk hd') (.child hk hd) l2' l2
    refine hu r hroot.1 ?_
    have hch : T.children r = [d] := by
      have := nodup_children (T := T) r
      have hmem : ∀ e, e ∈ T.children r ↔ e = d := by
        intro e
        rw [mem_children r e hroot.1]
        exact ⟨hone e, fun hh => hh ▸ hd⟩
      have hp : (T.children r).Perm [d] := (List.perm_ext_iff_of_nodup this (by simp)).2 (by simpa using hmem)
      exact List.perm_singleton.1 hp
    rw [hch]; rfl
  have hrr : ∀ j, IsNode T j → j = r := fun j hj => (ancSelf_leaf hV hrl (hall j hj)).symm
  have hrn := hroot.1
  have hn : T.n = 1 := by
    unfold IsNode at hrn
    have h1 := hrr 1 (by unfold IsNode; omega)
    have h2 := hrr T.n (by unfold IsNode; omega)
    omega
  refine ⟨hn, ?_⟩
  have : r = 1 := (hrr 1 (by unfold IsNode; omega)).symm
  rw [hc, List.mem_singleton] at hrl
  rw [hc, ← hrl, this]

/-- C142. `squeeze(dims)` with one remaining dimension: a tree with one node, whose tensor is the tensor without the axes `dims`. `full()` of
the result also removes a rank axis of size one of the root. -/
theorem squeezeTB_one [CommSemiring R] (x : TBT R) (h : WF x) (dims : List Nat) (hlt : ∀ d ∈ dims, d < x.order)
    (h1 : ∀ d ∈ dims, x.shape.getD d 0 = 1) (h2 : (FullTensor.setdiffRange x.order dims).length = 1) :
    ∃ z a b r, squeezeTB x (some dims) = .ok (.tree z) ∧ full x = .ok a ∧ full z = .ok b ∧ x.tree.root = .ok r ∧
      Valid z.tree ∧ z.tree.n = 1 ∧ z.tree.dim2ind = [1] ∧ z.shape = entriesOff dims x.shape ∧
      a.shape = x.shape ++ rankShape x r ∧ (z.tensors 1).shape = z.shape ++ rankShape x r ∧
      (∀ idx e, InBox x.shape idx → InBox (rankShape x r) e →
        (z.tensors 1).get (entriesOff dims idx ++ e) = a.get (idx ++ e) ∧
        b.get (entriesOff dims idx ++ if rankShape x r = [1] then [] else e) = a.get (idx ++ e)) ∧
      b.shape = z.shape ++ if rankShape x r = [1] then [] else rankShape x r := by
  obtain ⟨V, hv⟩ := exists_value x h.valid
  obtain ⟨r, hr, hroot⟩ := root_ok h.valid
  obtain ⟨ds, hds⟩ : ∃ ds, ds = dims.insertionSort (· ≤ ·) := ⟨_, rfl⟩
  have hm : ∀ k, k ∈ ds ↔ k ∈ dims := fun k => by rw [hds]; exact mem_sortDims k
  have hsd : FullTensor.setdiffRange x.order ds = FullTensor.setdiffRange x.order dims := FullTensor.setdiffRange_congr hm
  have hoff : ∀ v, entriesOff ds v = entriesOff dims v := entriesOff_congr hm
  have hne : FullTensor.setdiffRange x.order ds ≠ [] := by
    rw [hsd]; intro hh; rw [hh] at h2; simp at h2
  obtain ⟨z, φ, r', ν', g1, g2, g3, g4, g5, g6, g7⟩ := squeeze_core h (fun d hd => hlt d ((hm d).1 hd)) (fun d hd => h1 d ((hm d).1 hd)) hne hv hroot
  rw [hoff] at g4 g5
  have hsl : x.shape.length = x.tree.dim2ind.length := by unfold TBT.shape; simp
  have ho : z.tree.dim2ind.length = 1 := by
    have := congrArg List.length g5
    rw [List.length_map, FullTensor.entriesOff_eq, hsl] at this
    unfold applyPerm at this
    rw [List.length_map] at this
    rw [this]; exact h2
  obtain ⟨hn, hd1⟩ := one_leaf g2.valid ho g6
  have hr1 : r' = 1 := by
    have := (mem_nodes r').1 g2.root
    unfold IsNode at this
    omega
  subst hr1
  rw [hd1] at g5
  have hact := g2.rootAct
  have hlf := g2.leaf 1 (by rw [hd1]; simp) hact
  rw [if_pos rfl] at hlf
  have hza : z.active 1 = true := by rw [g2.active g2.root]; exact hact
  have hsh : z.shape = entriesOff dims x.shape := by
    rw [← g5]
    unfold TBT.shape
    rw [hd1]
    unfold TBT.leafSize
    simp [hza, hlf]
  have hval := g4.leaf 1 (by rw [hd1]; simp) hact
  rw [if_pos rfl, g3] at hval
  have hdo : dimOf z.tree 1 = 0 := by unfold dimOf; rw [hd1]; rfl
  rw [hdo] at hval
  obtain ⟨a, a1, a2, a3⟩ := full_on x h hv.on hr
  have hz1 : z.shape = [ν' 1] := by rw [hsh, ← g5]; rfl
  have hts : (z.tensors 1).shape = z.shape ++ rankShape x r := by rw [hlf, hz1]; rfl
  have hent : ∀ idx e, InBox x.shape idx → InBox (rankShape x r) e → (z.tensors 1).get (entriesOff dims idx ++ e) = a.get (idx ++ e) := by
    intro idx e hi he
    have hio : InBox (entriesOff dims x.shape) (entriesOff dims idx) := Truncation.inBox_off dims hi
    have := hval (entriesOff dims idx) e hio he
    have hex := expand_off (fun d hd => h1 d ((hm d).1 hd)) hi
    rw [hsl, hoff] at hex
    rw [hex] at this
    rw [a3 idx e hi he, this]
    rw [← hsh, hz1] at hio
    obtain ⟨j, hj⟩ : ∃ j, j = entriesOff dims idx := ⟨_, rfl⟩
    rw [← hj] at hio ⊢
    cases hio with
    | cons h1 h2 => cases h2; rfl
  obtain ⟨r0, hr0, hroot0⟩ := root_ok g2.valid
  obtain rfl := root_unique g2.valid hroot0 g2.isRoot
  obtain ⟨Dm, hDm, _⟩ := dims_ok g2.valid
  have hord : z.order = 1 := ho
  obtain ⟨b, hb1, hb2, hb3⟩ : ∃ b, full z = .ok b ∧ (b.shape = z.shape ++ if rankShape x r = [1] then [] else rankShape x r) ∧
      ∀ j e, InBox z.shape j → InBox (rankShape x r) e → b.get (j ++ if rankShape x r = [1] then [] else e) = (z.tensors 1).get (j ++ e) := by
    by_cases hrk : rankShape x r = [1]
    · have hs2 : (z.tensors 1).shape = [ν' 1, 1] := by rw [hts, hz1, hrk]; rfl
      obtain ⟨b, q1, q2, q3⟩ := FullTensor.squeezeT_spec (z.tensors 1) [1] (by simp [Arr.order, hs2]) (by simp [hs2])
      refine ⟨b, ?_, ?_, ?_⟩
      · unfold full fullWith
        have hc : (z.tensors 1).order = 2 ∧ (z.tensors 1).shape.getD 1 0 = 1 := by simp [Arr.order, hs2]
        simp only [hDm, hr0, hord, if_true, if_pos hc, q1, bind, Except.bind]
      · rw [q2, hs2, hz1, if_pos hrk]; rfl
      · intro j e hj he
        rw [if_pos hrk, List.append_nil, ← q3 (j ++ e) (by rw [hts]; exact (inBox_append hj.length_eq).2 ⟨hj, he⟩)]
        rw [hz1] at hj
        rw [hrk] at he
        cases hj with
        | cons h1 h2 => cases h2; cases he with
          | cons h3 h4 => cases h4; rfl
    · refine ⟨z.tensors 1, ?_, ?_, ?_⟩
      · unfold full fullWith
        have hc : ¬ ((z.tensors 1).order = 2 ∧ (z.tensors 1).shape.getD 1 0 = 1) := by
          rintro ⟨c1, c2⟩
          apply hrk
          unfold Arr.order at c1
          rw [hts, hz1] at c1 c2
          have hl : (rankShape x r).length = 1 := by simpa using c1
          obtain ⟨s, hs⟩ := List.length_eq_one_iff.1 hl
          rw [hs] at c2 ⊢
          simpa using c2
        simp only [hDm, hr0, hord, if_true, if_neg hc, bind, Except.bind]
      · rw [if_neg hrk]; exact hts
      · intro j e _ _; rw [if_neg hrk]
  refine ⟨z, a, b, r, ?_, a1, hb1, hr, g2.valid, hn, hd1, hsh, a2, hts, ?_, hb2⟩
  · unfold squeezeTB
    simp only [Option.getD_some, ← hds, if_neg hne, g1, bind, Except.bind]
  · intro idx e hi he
    refine ⟨hent idx e hi he, ?_⟩
    rw [hb3 _ e (by rw [hsh]; exact Truncation.inBox_off dims hi) he, hent idx e hi he]

end Verif.TreeBased
