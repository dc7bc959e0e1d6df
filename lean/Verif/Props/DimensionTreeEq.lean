import Verif.Props.DimensionTree
import Mathlib.Data.List.Perm.Basic
import Mathlib.Data.Set.Basic

/-!
# Property theorems about dimension trees: C20 (permutations), C21 (equality)
-/

namespace Verif.DimTree
open DTree

variable {T : DTree}

theorem length_scatter {α : Type} (a : List α) (sigma : List Nat) (v : List α) :
    (scatter a sigma v).length = a.length := by
  unfold scatter
  generalize sigma.zip v = l
  induction l generalizing a with
  | nil => rfl
  | cons p l ih => rw [List.foldl_cons, ih, List.length_set]

theorem scatter_cons {α : Type} (a : List α) (s : Nat) (sigma : List Nat) (x : α) (v : List α) :
    scatter a (s :: sigma) (x :: v) = scatter (a.set s x) sigma v := rfl

theorem scatter_notMem {α : Type} (a : List α) (sigma : List Nat) (v : List α) (i : Nat)
    (h : i ∉ sigma) : (scatter a sigma v)[i]? = a[i]? := by
  induction sigma generalizing a v with
  | nil => rfl
  | cons s sigma ih =>
    cases v with
    | nil => rfl
    | cons x v =>
      rw [List.mem_cons, not_or] at h
      rw [scatter_cons, ih _ _ h.2, List.getElem?_set_ne (fun e => h.1 e.symm)]

theorem scatter_spec {α : Type} (a : List α) (sigma : List Nat) (v : List α) (hnd : sigma.Nodup)
    (hlt : ∀ s ∈ sigma, s < a.length) (hlen : sigma.length = v.length) (k s : Nat)
    (hk : sigma[k]? = some s) : (scatter a sigma v)[s]? = v[k]? := by
  induction sigma generalizing a v k with
  | nil => simp at hk
  | cons t sigma ih =>
    cases v with
    | nil => simp at hlen
    | cons x v =>
      rw [List.nodup_cons] at hnd
      rw [scatter_cons]
      cases k with
      | zero =>
        simp at hk
        subst hk
        rw [scatter_notMem _ _ _ _ hnd.1, List.getElem?_set_self (hlt _ (by simp))]
        rfl
      | succ k =>
        simp only [List.getElem?_cons_succ] at hk ⊢
        exact ih _ _ hnd.2 (fun s hs => by rw [List.length_set]; exact hlt s (by simp [hs]))
          (by simpa using hlen) k hk

theorem perm_range_getElem? {sigma : List Nat} {d : Nat} (h : sigma.Perm (List.range d)) (s : Nat)
    (hs : s < d) : ∃ k, k < d ∧ sigma[k]? = some s := by
  have : s ∈ sigma := h.mem_iff.2 (List.mem_range.2 hs)
  obtain ⟨k, hk, rfl⟩ := List.mem_iff_getElem.1 this
  exact ⟨k, by rw [← List.length_range (n := d), ← h.length_eq]; exact hk, List.getElem?_eq_getElem hk⟩

/-- C20. `permute(sigma)` attaches to dimension `sigma[k]` the leaf that dimension `k` had, and keeps the
tree. -/
theorem permute_spec (T : DTree) (sigma : List Nat) (h : sigma.Perm (List.range T.dim2ind.length))
    (k s : Nat) (hk : sigma[k]? = some s) : (T.permute sigma).dim2ind[s]? = T.dim2ind[k]? :=
  scatter_spec _ _ _ (h.nodup_iff.2 List.nodup_range)
    (fun s hs => List.mem_range.1 (h.mem_iff.1 hs)) (by rw [h.length_eq, List.length_range]) k s hk

/-- C20. `ipermute(sigma)` attaches to dimension `k` the leaf that dimension `sigma[k]` had. -/
theorem ipermute_spec (T : DTree) (sigma : List Nat) (h : sigma.Perm (List.range T.dim2ind.length))
    (k s : Nat) (hk : sigma[k]? = some s) : (T.ipermute sigma).dim2ind[k]? = T.dim2ind[s]? := by
  unfold ipermute
  have hs : s < T.dim2ind.length := List.mem_range.1 (h.mem_iff.1 (List.mem_of_getElem? hk))
  simp only [List.getElem?_map, hk, Option.map_some, List.getElem?_eq_getElem hs]
  rw [List.getD_eq_getElem?_getD, List.getElem?_eq_getElem hs]; rfl

theorem permute_tree (T : DTree) (sigma : List Nat) :
    (T.permute sigma).n = T.n ∧ (T.permute sigma).adj = T.adj ∧
    (T.ipermute sigma).n = T.n ∧ (T.ipermute sigma).adj = T.adj := ⟨rfl, rfl, rfl, rfl⟩

theorem ext_dim2ind {T1 T2 : DTree} (hn : T1.n = T2.n) (ha : T1.adj = T2.adj)
    (hd : T1.dim2ind = T2.dim2ind) : T1 = T2 := by
  cases T1; cases T2; simp at *; exact ⟨hd, hn, ha⟩

/-- C20. `ipermute(sigma)` undoes `permute(sigma)`. -/
theorem ipermute_permute (T : DTree) (sigma : List Nat)
    (h : sigma.Perm (List.range T.dim2ind.length)) : (T.permute sigma).ipermute sigma = T := by
  refine ext_dim2ind rfl rfl (List.ext_getElem? (fun k => ?_))
  have hlen : (T.permute sigma).dim2ind.length = T.dim2ind.length := length_scatter _ _ _
  by_cases hk : k < T.dim2ind.length
  · have hk' : k < sigma.length := by rw [h.length_eq, List.length_range]; exact hk
    have hs := List.getElem?_eq_getElem hk'
    rw [ipermute_spec _ sigma (by rw [hlen]; exact h) k _ hs, permute_spec T sigma h k _ hs]
  · have : sigma.length ≤ k := by rw [h.length_eq, List.length_range]; omega
    have h2 : T.dim2ind.length ≤ k := by omega
    rw [List.getElem?_eq_none h2, List.getElem?_eq_none]
    unfold ipermute
    simpa using this

/-- C20. `permute(sigma)` undoes `ipermute(sigma)`. -/
theorem permute_ipermute (T : DTree) (sigma : List Nat)
    (h : sigma.Perm (List.range T.dim2ind.length)) : (T.ipermute sigma).permute sigma = T := by
  have hlen : (T.ipermute sigma).dim2ind.length = T.dim2ind.length := by
    unfold ipermute; simp [h.length_eq]
  refine ext_dim2ind rfl rfl (List.ext_getElem? (fun s => ?_))
  by_cases hs : s < T.dim2ind.length
  · obtain ⟨k, hk, hks⟩ := perm_range_getElem? h s hs
    rw [permute_spec _ sigma (by rw [hlen]; exact h) k s hks, ipermute_spec T sigma h k s hks]
  · have h2 : T.dim2ind.length ≤ s := by omega
    rw [List.getElem?_eq_none h2, List.getElem?_eq_none]
    have : ((T.ipermute sigma).permute sigma).dim2ind.length = T.dim2ind.length := by
      rw [← hlen]; exact length_scatter _ _ _
    omega

theorem permute_perm (T : DTree) (sigma : List Nat) (h : sigma.Perm (List.range T.dim2ind.length)) :
    (T.permute sigma).dim2ind.Perm T.dim2ind := by
  have hmap : sigma.map (fun s => (T.permute sigma).dim2ind.getD s 0) = T.dim2ind :=
    congrArg DTree.dim2ind (ipermute_permute T sigma h)
  have hlen : (T.permute sigma).dim2ind.length = T.dim2ind.length := length_scatter _ _ _
  have h1 := h.map (fun s => (T.permute sigma).dim2ind.getD s 0)
  rw [hmap, ← hlen] at h1
  have h2 : (List.range (T.permute sigma).dim2ind.length).map
      (fun s => (T.permute sigma).dim2ind.getD s 0) = (T.permute sigma).dim2ind := by
    apply List.ext_getElem?
    intro k
    by_cases hk : k < (T.permute sigma).dim2ind.length
    · rw [List.getElem?_map, List.getElem?_range hk]
      simp only [Option.map_some]
      rw [List.getD_eq_getElem?_getD, List.getElem?_eq_getElem hk]; rfl
    · rw [List.getElem?_eq_none (by simpa using hk), List.getElem?_eq_none (by omega)]
  rw [h2] at h1
  exact h1.symm

theorem permute_valid (hV : Valid T) (sigma : List Nat)
    (h : sigma.Perm (List.range T.dim2ind.length)) : Valid (T.permute sigma) where
  unique_parent := hV.unique_parent
  rooted := hV.rooted
  nodup := (permute_perm T sigma h).nodup_iff.2 hV.nodup
  leaves x := by rw [(permute_perm T sigma h).mem_iff]; exact hV.leaves x

/-- C20. The dimensions of each node of `permute(sigma)` are the images by `sigma` of its dimensions. -/
theorem permute_dims (hV : Valid T) (sigma : List Nat)
    (h : sigma.Perm (List.range T.dim2ind.length)) :
    ∃ D D', T.dims = .ok D ∧ (T.permute sigma).dims = .ok D' ∧
      ∀ i, IsNode T i → D' i = (D i).map (fun k => sigma.getD k 0) := by
  obtain ⟨D, hD, h1, h2, _⟩ := dims_spec hV
  obtain ⟨D', hD', h1', h2', _⟩ := dims_spec (permute_valid hV sigma h)
  refine ⟨D, D', hD, hD', ?_⟩
  refine hV.induct ?_
  intro i hi ih
  by_cases hl : ∃ j, Edge T i j
  · rw [h2' i hl, h2 i hl, List.map_flatMap]
    apply List.flatMap_congr
    intro c hc
    exact ih c ((mem_children i c hi).1 hc)
  · push Not at hl
    have hm := (hV.leaves i).2 ⟨hi, hl⟩
    obtain ⟨k, hk, hki⟩ := List.mem_iff_getElem.1 hm
    have hk' : k < sigma.length := by rw [h.length_eq, List.length_range]; exact hk
    have hki' : T.dim2ind[k]? = some i := by rw [List.getElem?_eq_getElem hk, hki]
    rw [h1 k i hki', h1' sigma[k] i (by
      rw [permute_spec T sigma h k _ (List.getElem?_eq_getElem hk'), hki'])]
    simp [List.getElem?_eq_getElem hk']

/-! ### C21: equality -/

/-- The set of dimensions below a node (independent of the computed `dims`). -/
def DimSet (T : DTree) (i : Nat) : Set Nat := {k | ∃ x, T.dim2ind[k]? = some x ∧ AncSelf T i x}

/-- The family of dimension sets of the nodes at level `l`. -/
def Family (T : DTree) (l : Nat) : Set (Set Nat) := {S | ∃ i, HasLevel T i l ∧ S = DimSet T i}

/-- The two trees have the same number of dimensions and the same families, level by level. -/
def SameTree (T1 T2 : DTree) : Prop :=
  T1.dim2ind.length = T2.dim2ind.length ∧ ∀ l, Family T1 l = Family T2 l

theorem dimSet_nonempty (hV : Valid T) (i : Nat) (hi : IsNode T i) : ∃ k, k ∈ DimSet T i := by
  obtain ⟨x, hx, hax⟩ := exists_leaf_below hV i hi
  obtain ⟨m, hm', hm⟩ := List.mem_iff_getElem.1 hx
  exact ⟨m, x, by rw [List.getElem?_eq_getElem hm', hm], hax⟩

theorem dimSet_inj (hV : Valid T) {i j l : Nat} (hi : HasLevel T i l) (hj : HasLevel T j l)
    (h : DimSet T i = DimSet T j) : i = j := by
  obtain ⟨k, hk⟩ := dimSet_nonempty hV i hi.isNode
  have hk' := hk
  rw [h] at hk'
  obtain ⟨x, hx, hax⟩ := hk
  obtain ⟨y, hy, hay⟩ := hk'
  rw [hx] at hy
  cases hy
  exact disjoint_of_level hV hi hj hax hay

theorem hasLevel_iff (hV : Valid T) {lev : Nat → Nat} (hlev : ∀ j k, HasLevel T j k → lev j = k)
    (i l : Nat) : HasLevel T i l ↔ IsNode T i ∧ lev i = l := by
  constructor
  · intro h; exact ⟨h.isNode, hlev _ _ h⟩
  · rintro ⟨h1, h2⟩
    obtain ⟨k, hk⟩ := exists_level hV h1
    rw [← h2, hlev _ _ hk]; exact hk

theorem mem_nodesWithLevel' (hV : Valid T) {lev : Nat → Nat} (hlev : ∀ j k, HasLevel T j k → lev j = k)
    (i l : Nat) : i ∈ T.nodesWithLevel lev l ↔ HasLevel T i l := by
  rw [mem_nodesWithLevel, hasLevel_iff hV hlev]

theorem nodup_nodesWithLevel (lev : Nat → Nat) (l : Nat) : (T.nodesWithLevel lev l).Nodup :=
  nodup_nodes.filter _

theorem sortNat_eq_iff {a b : List Nat} : sortNat a = sortNat b ↔ a.Perm b := by
  unfold sortNat
  constructor
  · intro h
    exact (List.perm_insertionSort _ a).symm.trans (h ▸ List.perm_insertionSort _ b)
  · intro h
    exact List.Perm.eq_of_pairwise' (List.pairwise_insertionSort _ a) (List.pairwise_insertionSort _ b)
      ((List.perm_insertionSort _ a).trans (h.trans (List.perm_insertionSort _ b).symm))

theorem sortNat_dims_iff {T1 T2 : DTree} (h1 : Valid T1) (h2 : Valid T2) {D1 D2 : Nat → List Nat}
    (hD1 : RecDims T1 D1 (IsNode T1)) (hD2 : RecDims T2 D2 (IsNode T2)) {i j : Nat} (hi : IsNode T1 i)
    (hj : IsNode T2 j) : sortNat (D1 i) = sortNat (D2 j) ↔ DimSet T1 i = DimSet T2 j := by
  rw [sortNat_eq_iff, List.perm_ext_iff_of_nodup (recDims_nodup h1 hD1 i hi) (recDims_nodup h2 hD2 j hj),
    Set.ext_iff]
  refine forall_congr' (fun k => ?_)
  rw [recDims_mem h1 hD1 i hi, recDims_mem h2 hD2 j hj]
  rfl

theorem eqLoop_true_iff (T1 T2 : DTree) (lev1 lev2 : Nat → Nat) (D1 D2 : Nat → List Nat) (ls : List Nat)
    (hc : ∀ l ∈ ls, (T1.nodesWithLevel lev1 l).length = (T2.nodesWithLevel lev2 l).length) :
    eqLoop T1 T2 lev1 lev2 D1 D2 ls = true ↔ ∀ l ∈ ls, ∀ i ∈ T1.nodesWithLevel lev1 l,
      ∃ j ∈ T2.nodesWithLevel lev2 l, sortNat (D1 i) = sortNat (D2 j) := by
  induction ls with
  | nil => simp [eqLoop]
  | cons l ls ih =>
    rw [eqLoop]
    simp only [ne_eq, hc l (by simp), not_true_eq_false, if_false]
    rw [List.forall_mem_cons, ← ih (fun l hl => hc l (by simp [hl]))]
    split
    · next h =>
      constructor
      · intro h'
        refine ⟨?_, h'⟩
        simpa [List.all_eq_true, List.any_eq_true] using h
      · exact fun h' => h'.2
    · next h =>
      simp only [Bool.false_eq_true, false_iff]
      rintro ⟨h', _⟩
      apply h
      simpa [List.all_eq_true, List.any_eq_true] using h'

/-- An injection that preserves a `Nodup` list into another of the same length is onto. -/
theorem surj_of_length {l1 l2 : List Nat} (h1 : l1.Nodup) {R : Nat → Nat → Prop}
    (htot : ∀ i ∈ l1, ∃ j ∈ l2, R i j) (hinj : ∀ i ∈ l1, ∀ i' ∈ l1, ∀ j, R i j → R i' j → i = i') :
    l1.length ≤ l2.length ∧ (l2.length ≤ l1.length → ∀ j ∈ l2, ∃ i ∈ l1, R i j) := by
  classical
  choose! f hf1 hf2 using htot
  have hnd : (l1.map f).Nodup := by
    refine h1.map_on ?_
    intro i hi i' hi' he
    exact hinj i hi i' hi' (f i) (hf2 i hi) (he ▸ hf2 i' hi')
  have hsub : l1.map f ⊆ l2 := by
    intro x hx
    obtain ⟨i, hi, rfl⟩ := List.mem_map.1 hx
    exact hf1 i hi
  have hsp := hnd.subperm hsub
  refine ⟨by simpa using hsp.length_le, fun hle j hj => ?_⟩
  have hperm := hsp.perm_of_length_le (by simpa using hle)
  obtain ⟨i, hi, rfl⟩ := List.mem_map.1 (hperm.mem_iff.2 hj)
  exact ⟨i, hi, hf2 i hi⟩

/-- C21, complete half: trees that are the same up to node numbering compare equal. -/
theorem eq_of_sameTree {T1 T2 : DTree} (h1 : Valid T1) (h2 : Valid T2) (h : SameTree T1 T2) :
    eq T1 T2 = .ok true := by
  obtain ⟨lev1, hl1, hlev1⟩ := level_ok h1
  obtain ⟨lev2, hl2, hlev2⟩ := level_ok h2
  obtain ⟨D1, hd1, hD1⟩ := dims_ok h1
  obtain ⟨D2, hd2, hD2⟩ := dims_ok h2
  have half : ∀ {A B : DTree} (hA : Valid A) (hB : Valid B) (levA levB : Nat → Nat)
      (hlA : ∀ j k, HasLevel A j k → levA j = k) (hlB : ∀ j k, HasLevel B j k → levB j = k)
      (hF : ∀ l, Family A l = Family B l),
      A.n ≤ B.n ∧ A.maxLevel levA ≤ B.maxLevel levB ∧
      ∀ l, (A.nodesWithLevel levA l).length ≤ (B.nodesWithLevel levB l).length := by
    intro A B hA hB levA levB hlA hlB hF
    have tr : ∀ i l, HasLevel A i l → ∃ j, HasLevel B j l ∧ DimSet A i = DimSet B j := by
      intro i l hi
      have : DimSet A i ∈ Family B l := by rw [← hF l]; exact ⟨i, hi, rfl⟩
      exact this
    refine ⟨?_, ?_, ?_⟩
    · have := (surj_of_length (l1 := A.nodes) (l2 := B.nodes) nodup_nodes
        (R := fun i j => ∃ l, HasLevel A i l ∧ HasLevel B j l ∧ DimSet A i = DimSet B j)
        (by
          intro i hi
          obtain ⟨l, hl⟩ := exists_level hA ((mem_nodes i).1 hi)
          obtain ⟨j, hj, he⟩ := tr i l hl
          exact ⟨j, (mem_nodes j).2 hj.isNode, l, hl, hj, he⟩)
        (by
          rintro i _ i' _ j ⟨l, h1, h2, h3⟩ ⟨l', h1', h2', h3'⟩
          have := h2.unique hB.unique_parent h2'
          subst this
          exact dimSet_inj hA h1 h1' (h3.trans h3'.symm))).1
      simpa [nodes] using this
    · unfold maxLevel
      have : ∀ (l : List Nat) (a b : Nat), a ≤ b → (∀ x ∈ l, x ≤ b) → l.foldl max a ≤ b := by
        intro l
        induction l with
        | nil => intro a b h _; exact h
        | cons c l ih =>
          intro a b h hx
          exact ih _ _ (max_le h (hx c (by simp))) (fun x hxl => hx x (by simp [hxl]))
      apply this _ _ _ (Nat.zero_le _)
      intro x hx
      obtain ⟨i, hi, rfl⟩ := List.mem_map.1 hx
      obtain ⟨l, hl⟩ := exists_level hA ((mem_nodes i).1 hi)
      obtain ⟨j, hj, he⟩ := tr i l hl
      rw [hlA _ _ hl, ← hlB _ _ hj]
      exact (foldl_max_ge' _ 0).2 _ (List.mem_map.2 ⟨j, (mem_nodes j).2 hj.isNode, rfl⟩)
    · intro l
      exact (surj_of_length (nodup_nodesWithLevel levA l)
        (R := fun i j => HasLevel A i l ∧ HasLevel B j l ∧ DimSet A i = DimSet B j)
        (by
          intro i hi
          have hl := (mem_nodesWithLevel' hA hlA i l).1 hi
          obtain ⟨j, hj, he⟩ := tr i l hl
          exact ⟨j, (mem_nodesWithLevel' hB hlB j l).2 hj, hl, hj, he⟩)
        (by
          rintro i _ i' _ j ⟨h1, h2, h3⟩ ⟨h1', h2', h3'⟩
          exact dimSet_inj hA h1 h1' (h3.trans h3'.symm))).1
  have a := half h1 h2 lev1 lev2 hlev1 hlev2 h.2
  have b := half h2 h1 lev2 lev1 hlev2 hlev1 (fun l => (h.2 l).symm)
  unfold eq
  rw [hl1, hl2, hd1, hd2]
  simp only [bind, Except.bind]
  rw [if_pos ⟨h.1, le_antisymm a.1 b.1, le_antisymm a.2.1 b.2.1⟩]
  rw [(eqLoop_true_iff _ _ _ _ _ _ _ (fun l _ => le_antisymm (a.2.2 l) (b.2.2 l))).2]
  intro l _ i hi
  have hil := (mem_nodesWithLevel' h1 hlev1 i l).1 hi
  have : DimSet T1 i ∈ Family T2 l := by rw [← h.2 l]; exact ⟨i, hil, rfl⟩
  obtain ⟨j, hj, he⟩ := this
  exact ⟨j, (mem_nodesWithLevel' h2 hlev2 j l).2 hj,
    (sortNat_dims_iff h1 h2 hD1 hD2 hil.isNode hj.isNode).2 he⟩

/-- C21, sound half, partial: when the two trees have the same number of nodes at each level, trees that
compare equal are the same up to node numbering. Missing: trees with different numbers of nodes at some
level, for which the claim is false (`eq_unsound`). -/
theorem sameTree_of_eq_partial {T1 T2 : DTree} (h1 : Valid T1) (h2 : Valid T2)
    (hcount : ∀ lev1 lev2, T1.level = .ok lev1 → T2.level = .ok lev2 →
      ∀ l, (T1.nodesWithLevel lev1 l).length = (T2.nodesWithLevel lev2 l).length)
    (h : eq T1 T2 = .ok true) : SameTree T1 T2 := by
  obtain ⟨lev1, hl1, hlev1⟩ := level_ok h1
  obtain ⟨lev2, hl2, hlev2⟩ := level_ok h2
  obtain ⟨D1, hd1, hD1⟩ := dims_ok h1
  obtain ⟨D2, hd2, hD2⟩ := dims_ok h2
  have hc := hcount lev1 lev2 hl1 hl2
  unfold eq at h
  rw [hl1, hl2, hd1, hd2] at h
  simp only [bind, Except.bind] at h
  split at h
  · next hb =>
    have h' : eqLoop T1 T2 lev1 lev2 D1 D2 ((List.range (T1.maxLevel lev1)).map (· + 1)) = true := by
      simpa using h
    rw [eqLoop_true_iff _ _ _ _ _ _ _ (fun l _ => hc l)] at h'
    have tr : ∀ i l, HasLevel T1 i l → ∃ j, HasLevel T2 j l ∧ DimSet T1 i = DimSet T2 j := by
      intro i l hi
      cases l with
      | zero =>
        obtain ⟨s, hs, hall⟩ := h2.rooted
        obtain ⟨s1, hs1, hall1⟩ := h1.rooted
        cases hi with
        | root hr =>
        refine ⟨s, .root hs, ?_⟩
        have e : i = s1 := root_unique h1 hr hs1
        subst e
        ext k
        constructor
        · rintro ⟨x, hx, _⟩
          have hk : k < T2.dim2ind.length := by
            rw [← hb.1]; exact (List.getElem?_eq_some_iff.1 hx).1
          exact ⟨_, List.getElem?_eq_getElem hk, hall _ ((h2.leaves _).1 (List.getElem_mem hk)).1⟩
        · rintro ⟨x, hx, _⟩
          have hk : k < T1.dim2ind.length := by
            rw [hb.1]; exact (List.getElem?_eq_some_iff.1 hx).1
          exact ⟨_, List.getElem?_eq_getElem hk, hall1 _ ((h1.leaves _).1 (List.getElem_mem hk)).1⟩
      | succ l =>
        have hle : l + 1 ≤ T1.maxLevel lev1 := by
          rw [← hlev1 _ _ hi]
          exact (foldl_max_ge' _ 0).2 _ (List.mem_map.2 ⟨i, (mem_nodes i).2 hi.isNode, rfl⟩)
        obtain ⟨j, hj, he⟩ := h' (l + 1) (List.mem_map.2 ⟨l, List.mem_range.2 (by omega), rfl⟩) i
          ((mem_nodesWithLevel' h1 hlev1 i _).2 hi)
        have hj' := (mem_nodesWithLevel' h2 hlev2 j _).1 hj
        exact ⟨j, hj', (sortNat_dims_iff h1 h2 hD1 hD2 hi.isNode hj'.isNode).1 he⟩
    refine ⟨hb.1, fun l => ?_⟩
    have hs := (surj_of_length (nodup_nodesWithLevel (T := T1) lev1 l)
        (l2 := T2.nodesWithLevel lev2 l)
        (R := fun i j => HasLevel T1 i l ∧ HasLevel T2 j l ∧ DimSet T1 i = DimSet T2 j)
        (by
          intro i hi
          have hl := (mem_nodesWithLevel' h1 hlev1 i l).1 hi
          obtain ⟨j, hj, he⟩ := tr i l hl
          exact ⟨j, (mem_nodesWithLevel' h2 hlev2 j l).2 hj, hl, hj, he⟩)
        (by
          rintro i _ i' _ j ⟨a1, a2, a3⟩ ⟨b1, b2, b3⟩
          exact dimSet_inj h1 a1 b1 (a3.trans b3.symm))).2 (by rw [hc l])
    ext S
    constructor
    · rintro ⟨i, hi, rfl⟩
      exact tr i l hi
    · rintro ⟨j, hj, rfl⟩
      obtain ⟨i, _, a1, _, a3⟩ := hs j ((mem_nodesWithLevel' h2 hlev2 j l).2 hj)
      exact ⟨i, a1, a3.symm⟩
  · cases h

end Verif.DimTree
